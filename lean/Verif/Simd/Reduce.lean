import Verif.Simd.Loop
/-!
# Reductions: sum, average, minimum, maximum, and iota (C45, C46, C51, C71)

`/repo/rapidudf/functions/simd/vector_misc.cc`. The element types are the integers of width `w`; floating point sums are not modelled
because they depend on rounding. For minimum and maximum the elements are modelled by their rank in the order of the type (an `Int`), which
covers floating point values without NaN.
-/
namespace Verif.Simd

/-- Signedness of the element type. -/
inductive Sign | unsigned | signed
  deriving DecidableEq, Repr

/-- The mathematical value of an element. -/
def val {w : Nat} (k : Sign) (x : BitVec w) : Int :=
  match k with
  | .unsigned => x.toNat
  | .signed => x.toInt

/-- `a += b` on the element type in scalar code. Types narrower than `int` are promoted and converted back, unsigned types wrap, and
signed overflow in `int` or a wider type is undefined behaviour. -/
def addAssign {w : Nat} (k : Sign) (a b : BitVec w) : Option (BitVec w) :=
  if k = .signed ∧ 32 ≤ w ∧ (a.toInt + b.toInt < -2 ^ (w - 1) ∨ 2 ^ (w - 1) ≤ a.toInt + b.toInt) then none else some (a + b)

/-- `hn::ReduceSum`: lanes are added with wrap around. -/
def reduceSum {w : Nat} (v : List (BitVec w)) : BitVec w := v.foldl (· + ·) 0

/-- `simd_vector_sum_impl` (`vector_misc.cc` 140–157) for `N` lanes. -/
def simdSum {w : Nat} (k : Sign) (N : Nat) (l : List (BitVec w)) : Option (BitVec w) :=
  match forLoop (fun i => decide (i + N ≤ l.length)) N (fun i s =>
      match loadU l i N with
      | none => none
      | some v => addAssign k s (reduceSum v)) (l.length + 1) 0 0 with
  | none => none
  | some (i, s) =>
    match forLoop (fun i => decide (i < l.length)) 1 (fun i s =>
        match l[i]? with
        | none => none
        | some x => addAssign k s x) (l.length + 1) i s with
    | none => none
    | some (_, s) => some s

/-- `simd_vector_avg` (489–496). The division is done on the operands promoted to at least `int`; division by zero traps. -/
def simdAvg {w : Nat} (k : Sign) (N : Nat) (l : List (BitVec w)) : Option (BitVec w) :=
  if l.length = 0 then some 0
  else
    match simdSum k N l with
    | none => none
    | some s =>
      let n : BitVec w := BitVec.ofNat w l.length
      if n = 0 then none else some (BitVec.ofInt w ((val k s).tdiv (val k n)))

/-- `simd_vector_reduce_max_impl` (159–180). `lo` is `std::numeric_limits<T>::lowest()`. -/
def simdMax (lo : Int) (N : Nat) (l : List Int) : Option Int :=
  match forLoop (fun i => decide (i + N ≤ l.length)) N (fun i m =>
      match loadU l i N with
      | none => none
      | some v =>
        match v.max? with
        | none => none
        | some mv => some (if mv > m then mv else m)) (l.length + 1) 0 lo with
  | none => none
  | some (i, m) =>
    match forLoop (fun i => decide (i < l.length)) 1 (fun i m =>
        match l[i]? with
        | none => none
        | some x => some (if x > m then x else m)) (l.length + 1) i m with
    | none => none
    | some (_, m) => some m

/-- `simd_vector_reduce_min_impl` (182–203). `hi` is `std::numeric_limits<T>::max()`. -/
def simdMin (hi : Int) (N : Nat) (l : List Int) : Option Int :=
  match forLoop (fun i => decide (i + N ≤ l.length)) N (fun i m =>
      match loadU l i N with
      | none => none
      | some v =>
        match v.min? with
        | none => none
        | some mv => some (if mv < m then mv else m)) (l.length + 1) 0 hi with
  | none => none
  | some (i, m) =>
    match forLoop (fun i => decide (i < l.length)) 1 (fun i m =>
        match l[i]? with
        | none => none
        | some x => some (if x < m then x else m)) (l.length + 1) i m with
    | none => none
    | some (_, m) => some m

/-- `hn::Iota(d, first)`. -/
def iotaV {w : Nat} (first : BitVec w) (N : Nat) : List (BitVec w) := (List.range N).map (fun j => first + BitVec.ofNat w j)

/-- `simd_vector_iota_impl` (205–222); `mem` is the freshly allocated result buffer, with arbitrary contents. -/
def simdIota {w : Nat} (N : Nat) (start : BitVec w) (n : Nat) (mem : List (BitVec w)) : Option (List (BitVec w)) :=
  match forLoop (fun i => decide (i < (n / N) * N)) N (fun i m => storeU m i (iotaV (start + BitVec.ofNat w i) N)) (n + 1) 0 mem with
  | none => none
  | some (i, m) => if i < n then storeN m i (iotaV (start + BitVec.ofNat w i) N) (n - i) else some m

/-! ## Specification -/

/-- The sum of the elements modulo `2^w`. -/
def sumMod {w : Nat} (l : List (BitVec w)) : BitVec w := BitVec.ofNat w (l.map BitVec.toNat).sum

/-! ## Helper lemmas -/

theorem sumMod_append {w : Nat} (a b : List (BitVec w)) : sumMod (a ++ b) = sumMod a + sumMod b := by
  simp [sumMod, BitVec.ofNat_add]

theorem foldl_add {w : Nat} (v : List (BitVec w)) (a : BitVec w) : v.foldl (· + ·) a = a + sumMod v := by
  induction v generalizing a with
  | nil => simp [sumMod]
  | cons x v ih =>
    rw [List.foldl_cons, ih]
    have : sumMod (x :: v) = x + sumMod v := by simp [sumMod, BitVec.ofNat_add]
    rw [this, BitVec.add_assoc]

theorem reduceSum_eq {w : Nat} (v : List (BitVec w)) : reduceSum v = sumMod v := by
  unfold reduceSum; rw [foldl_add]; simp

theorem sumMod_take_succ {w : Nat} {l : List (BitVec w)} {i : Nat} {x : BitVec w} (h : l[i]? = some x) :
    sumMod (l.take (i + 1)) = sumMod (l.take i) + x := by
  rw [List.take_add_one, h, sumMod_append]
  congr 1
  simp [sumMod]

theorem getElem?_lt {α : Type} {l : List α} {i : Nat} (h : i < l.length) : ∃ x, l[i]? = some x := ⟨l[i], by simp [h]⟩

/-- The loops of `simdSum`, given that the additions performed are defined. -/
theorem simdSum_of {w : Nat} (k : Sign) (N : Nat) (hN : 0 < N) (l : List (BitVec w))
    (hadd : ∀ i n, i + n ≤ l.length → addAssign k (sumMod (l.take i)) (sumMod ((l.drop i).take n)) = some (sumMod (l.take (i + n)))) :
    simdSum k N l = some (sumMod l) := by
  unfold simdSum
  obtain ⟨i, s, he, hs, hc, _, hi⟩ := forLoop_inv (cond := fun i => decide (i + N ≤ l.length)) (step := N)
    (body := fun i s => match loadU l i N with
      | none => none
      | some v => addAssign k s (reduceSum v))
    (fun i s => s = sumMod (l.take i)) l.length hN (fun i _ _ h => by simpa using h)
    (by
      intro i s hs hc
      have hc : i + N ≤ l.length := by simpa using hc
      refine ⟨sumMod (l.take (i + N)), ?_, rfl⟩
      rw [loadU_some hc]
      simp only [reduceSum_eq, hs]
      exact hadd i N hc)
    (l.length + 1) 0 0 (by simp [sumMod]) (by omega) (by omega)
  rw [he]
  obtain ⟨i', s', he', hs', hc', _, hi'⟩ := forLoop_inv (cond := fun i => decide (i < l.length)) (step := 1)
    (body := fun i s => match l[i]? with
      | none => none
      | some x => addAssign k s x)
    (fun i s => s = sumMod (l.take i)) l.length (by omega) (fun i _ _ h => by simp at h; omega)
    (by
      intro i s hs hc
      have hc : i < l.length := by simpa using hc
      refine ⟨sumMod (l.take (i + 1)), ?_, rfl⟩
      have h1 := hadd i 1 (by omega)
      have h2 : sumMod ((l.drop i).take 1) = l[i] := by
        rw [List.drop_eq_getElem_cons hc]; simp only [List.take_succ_cons, List.take_zero]; simp [sumMod]
      rw [h2] at h1
      rw [hs, List.getElem?_eq_getElem hc]
      exact h1)
    (l.length + 1) i s hs (by omega) hi
  simp only [he']
  have : l.length ≤ i' := by simpa using hc'
  rw [hs', List.take_of_length_le this]

theorem sumMod_take_add {w : Nat} (l : List (BitVec w)) (i n : Nat) :
    sumMod (l.take i) + sumMod ((l.drop i).take n) = sumMod (l.take (i + n)) := by
  rw [List.take_add, sumMod_append]

/-- Partial correctness: whatever `simdSum` returns is the sum. -/
theorem simdSum_value {w : Nat} (k : Sign) (N : Nat) (hN : 0 < N) (l : List (BitVec w)) (r : BitVec w) (h : simdSum k N l = some r) :
    r = sumMod l := by
  by_cases hd : ∀ i n, i + n ≤ l.length → addAssign k (sumMod (l.take i)) (sumMod ((l.drop i).take n)) = some (sumMod (l.take (i + n)))
  · rw [simdSum_of k N hN l hd] at h; simpa using h.symm
  · -- run both loops with the weaker invariant on defined states only
    unfold simdSum at h
    have key : ∀ (cond : Nat → Bool) (step : Nat) (body : Nat → BitVec w → Option (BitVec w)),
        (∀ i s s', s = sumMod (l.take i) → cond i = true → body i s = some s' → s' = sumMod (l.take (i + step))) →
        ∀ fuel i s i' s', s = sumMod (l.take i) → forLoop cond step body fuel i s = some (i', s') →
          s' = sumMod (l.take i') ∧ cond i' = false := by
      intro cond step body hb fuel
      induction fuel with
      | zero => intro i s i' s' _ h; simp [forLoop] at h
      | succ f ih =>
        intro i s i' s' hs h
        simp only [forLoop] at h
        by_cases hc : cond i = true
        · simp only [hc, if_true] at h
          cases hb' : body i s with
          | none => simp [hb'] at h
          | some s1 =>
            simp only [hb'] at h
            exact ih _ _ _ _ (hb i s s1 hs hc hb') h
        · simp only [hc] at h
          simp at h
          obtain ⟨rfl, rfl⟩ := h
          exact ⟨hs, by simpa using hc⟩
    have hadd : ∀ (a b r : BitVec w), addAssign k a b = some r → r = a + b := by
      intro a b r h; unfold addAssign at h; split at h <;> simp at h; exact h.symm
    split at h
    · simp at h
    · rename_i i s heq
      obtain ⟨hs, _⟩ := key _ _ _ (by
        intro i s s' hs hc hb
        have hc : i + N ≤ l.length := by simpa using hc
        rw [loadU_some hc] at hb
        simp only at hb
        rw [hadd _ _ _ hb, hs, reduceSum_eq, sumMod_take_add]) _ _ _ _ _ (by simp [sumMod]) heq
      split at h
      · simp at h
      · rename_i i' s' heq'
        obtain ⟨hs', hc'⟩ := key _ _ _ (by
          intro i s s' hs hc hb
          have hc : i < l.length := by simpa using hc
          rw [List.getElem?_eq_getElem hc] at hb
          simp only at hb
          rw [hadd _ _ _ hb, hs, sumMod_take_succ (List.getElem?_eq_getElem hc)]) _ _ _ _ _ hs heq'
        have : l.length ≤ i' := by simpa using hc'
        simp at h
        rw [← h, hs', List.take_of_length_le this]

/-! ## C45 -/

/-- C45, all unsigned types and all types narrower than `int`: the sum is the sum of the elements modulo `2^w`, for every lane count. -/
theorem sum_lane_independent_partial {w : Nat} (k : Sign) (N : Nat) (hN : 0 < N) (l : List (BitVec w)) (hk : k = .unsigned ∨ w < 32) :
    simdSum k N l = some (sumMod l) := by
  apply simdSum_of k N hN l
  intro i n _
  unfold addAssign
  rw [if_neg, sumMod_take_add]
  rintro ⟨h1, h2, _⟩
  rcases hk with hk | hk
  · rw [hk] at h1; cases h1
  · omega

/-- C45, every type: if the kernel has a defined result it is the sum of the elements modulo `2^w`. So two targets with different lane
counts agree when both are defined. -/
theorem sum_value_partial {w : Nat} (k : Sign) (N : Nat) (hN : 0 < N) (l : List (BitVec w)) (r : BitVec w) (h : simdSum k N l = some r) :
    r = sumMod l := simdSum_value k N hN l r h

theorem toInt_sumMod {w : Nat} (l : List (BitVec w)) : (sumMod l).toInt = ((l.map BitVec.toInt).sum).bmod (2 ^ w) := by
  induction l with
  | nil => simp [sumMod]
  | cons x l ih =>
    have h : sumMod (x :: l) = x + sumMod l := by simp [sumMod, BitVec.ofNat_add]
    rw [h, BitVec.toInt_add, ih]
    simp

/-- The magnitudes added up. -/
def magnitude {w : Nat} (l : List (BitVec w)) : Nat := (l.map (fun x => x.toInt.natAbs)).sum

theorem magnitude_append {w : Nat} (a b : List (BitVec w)) : magnitude (a ++ b) = magnitude a + magnitude b := by
  simp only [magnitude, List.map_append, List.sum_append]

theorem abs_sum_le {w : Nat} (l : List (BitVec w)) :
    -(magnitude l : Int) ≤ (l.map BitVec.toInt).sum ∧ (l.map BitVec.toInt).sum ≤ (magnitude l : Int) := by
  induction l with
  | nil => simp [magnitude]
  | cons x l ih =>
    have : magnitude (x :: l) = x.toInt.natAbs + magnitude l := by simp only [magnitude, List.map_cons, List.sum_cons]
    rw [this]
    simp only [List.map_cons, List.sum_cons]; omega

theorem bmod_small {z : Int} {w : Nat} (hw : 0 < w) (h1 : -2 ^ (w - 1) ≤ z) (h2 : z < 2 ^ (w - 1)) : z.bmod (2 ^ w) = z := by
  have h : (2 : Int) ^ w = 2 * 2 ^ (w - 1) := by
    conv => lhs; rw [show w = (w - 1) + 1 by omega]
    rw [Int.pow_succ]; omega
  have h' : ((2 ^ w : Nat) : Int) = 2 * 2 ^ (w - 1) := by rw [← h]; simp
  rw [Int.bmod_eq_of_le_mul_two]
  · rw [h']; omega
  · rw [h']; omega

/-- C45, signed types of at least `int` size: the result is defined and is the exact sum whenever the magnitudes add up to a representable
value. -/
theorem sum_signed_no_overflow_partial {w : Nat} (N : Nat) (hN : 0 < N) (hw : 0 < w) (l : List (BitVec w))
    (h : (magnitude l : Int) < 2 ^ (w - 1)) :
    ∃ r, simdSum .signed N l = some r ∧ r.toInt = (l.map BitVec.toInt).sum := by
  have sub : ∀ i n, magnitude (l.take i) + (magnitude ((l.drop i).take n) + magnitude ((l.drop i).drop n)) = magnitude l := by
    intro i n
    rw [← magnitude_append, List.take_append_drop, ← magnitude_append, List.take_append_drop]
  have exact' : ∀ v : List (BitVec w), (magnitude v : Int) < 2 ^ (w - 1) → (sumMod v).toInt = (v.map BitVec.toInt).sum := by
    intro v hv
    rw [toInt_sumMod, bmod_small hw]
    · have := abs_sum_le v; omega
    · have := abs_sum_le v; omega
  refine ⟨sumMod l, simdSum_of .signed N hN l ?_, exact' l h⟩
  intro i n hin
  unfold addAssign
  rw [if_neg, sumMod_take_add]
  rintro ⟨_, _, hov⟩
  have s1 := sub i n
  have e1 := exact' (l.take i) (by omega)
  have e2 := exact' ((l.drop i).take n) (by omega)
  rw [e1, e2] at hov
  have a1 := abs_sum_le (l.take i)
  have a2 := abs_sum_le ((l.drop i).take n)
  omega

/-- C45 is false for `int32_t` on overflow: with one lane the addition is undefined, with two lanes the result wraps, so the outcome does
depend on the lane count. -/
theorem sum_overflow_violated :
    simdSum .signed 1 [0x7fffffff#32, 1#32] = none ∧ simdSum .signed 2 [0x7fffffff#32, 1#32] = some 0x80000000#32 := by
  decide

example : simdSum .unsigned 2 [250#8, 10#8, 3#8] = some 7#8 := by decide
example : ∃ r, simdSum .signed 2 [5#32, 7#32, BitVec.ofInt 32 (-3)] = some r ∧ r.toInt = 9 := ⟨9#32, by decide⟩

/-! ## C51 -/

/-- C51: when the number of elements is representable in the element type, the average of a non-empty vector with defined sum is the sum
(as the element type holds it) divided by the number of elements, rounded towards zero. -/
theorem avg_partial {w : Nat} (k : Sign) (N : Nat) (hN : 0 < N) (l : List (BitVec w)) (hne : l ≠ [])
    (hfit : match k with
      | .unsigned => l.length < 2 ^ w
      | .signed => l.length < 2 ^ (w - 1) ∧ 0 < w)
    (hdef : ∃ s, simdSum k N l = some s) :
    simdAvg k N l = some (BitVec.ofInt w ((val k (sumMod l)).tdiv l.length)) := by
  obtain ⟨s, hs⟩ := hdef
  have hs' := simdSum_value k N hN l s hs
  subst hs'
  have hlen : l.length ≠ 0 := by simpa using hne
  have hlt : l.length < 2 ^ w := by
    cases k with
    | unsigned => exact hfit
    | signed => exact Nat.lt_of_lt_of_le hfit.1 (Nat.pow_le_pow_right (by omega) (by omega))
  have hn : BitVec.ofNat w l.length ≠ 0 := by
    intro h
    have := congrArg BitVec.toNat h
    simp [Nat.mod_eq_of_lt hlt] at this
    exact hne this
  have hv : val k (BitVec.ofNat w l.length) = l.length := by
    cases k with
    | unsigned => simp [val, Nat.mod_eq_of_lt hlt]
    | signed =>
      simp only [val, BitVec.toInt_ofNat']
      apply bmod_small hfit.2
      · have : (0 : Int) < 2 ^ (w - 1) := Int.pow_pos (by omega)
        omega
      · have := hfit.1
        exact_mod_cast this
  simp only [simdAvg, hlen, if_false, hs, hn, hv]

/-- C51 is false for an unsigned byte vector of 256 elements: the element count becomes zero and the division traps, for every lane
count. -/
theorem avg_zero_division_violated (N : Nat) (hN : 0 < N) (x : BitVec 8) : simdAvg .unsigned N (List.replicate 256 x) = none := by
  unfold simdAvg
  rw [sum_lane_independent_partial _ N hN _ (.inl rfl)]
  have h : BitVec.ofNat 8 (List.replicate 256 x).length = 0 := by rw [List.length_replicate]; rfl
  have h2 : (List.replicate 256 x).length ≠ 0 := by rw [List.length_replicate]; omega
  simp only [h, h2, if_false, if_true]

/-- And for 200 signed bytes the count is read as -56. -/
theorem avg_sign_violated (N : Nat) (hN : 0 < N) : ∃ r : BitVec 8, simdAvg .signed N (List.replicate 199 0#8 ++ [112#8]) = some r ∧ r.toInt = -2 := by
  refine ⟨BitVec.ofInt 8 (-2), ?_, by decide⟩
  unfold simdAvg
  rw [sum_lane_independent_partial _ N hN _ (.inr (by omega))]
  have hl : (List.replicate 199 0#8 ++ [112#8]).length = 200 := by simp only [List.length_append, List.length_replicate, List.length_singleton]
  have hs : sumMod (List.replicate 199 0#8 ++ [112#8]) = 112#8 := by
    rw [sumMod_append]
    have : sumMod (List.replicate 199 0#8) = 0#8 := by
      unfold sumMod
      rw [List.map_replicate, List.sum_replicate_nat]
      rfl
    rw [this]; decide
  simp only [hl, hs]
  decide

example : simdAvg .signed 4 [1#8, 2#8, 6#8] = some 3#8 := by decide

/-! ## C46 -/

theorem take_mem_split {l : List Int} {i n : Nat} {m : Int} (h1 : ∀ x ∈ l.take i, x ≤ m) (h2 : ∀ x ∈ (l.drop i).take n, x ≤ m) :
    ∀ x ∈ l.take (i + n), x ≤ m := by
  intro x hx
  rw [List.take_add] at hx
  rcases List.mem_append.mp hx with h | h
  · exact h1 x h
  · exact h2 x h

theorem simdMax_spec (lo : Int) (N : Nat) (hN : 0 < N) (l : List Int) :
    ∃ m, simdMax lo N l = some m ∧ lo ≤ m ∧ (m = lo ∨ m ∈ l) ∧ ∀ x ∈ l, x ≤ m := by
  unfold simdMax
  obtain ⟨i, m, he, ⟨h1, h2, h3⟩, _, _, hi⟩ := forLoop_inv (cond := fun i => decide (i + N ≤ l.length)) (step := N)
    (body := fun i m =>
      match loadU l i N with
      | none => none
      | some v =>
        match v.max? with
        | none => none
        | some mv => some (if mv > m then mv else m))
    (fun i m => lo ≤ m ∧ (m = lo ∨ m ∈ l) ∧ ∀ x ∈ l.take i, x ≤ m) l.length hN (fun i _ _ h => by simpa using h)
    (by
      rintro i m ⟨h1, h2, h3⟩ hc
      have hc : i + N ≤ l.length := by simpa using hc
      rw [loadU_some hc]
      have hne : (l.drop i).take N ≠ [] := by
        intro h
        have := congrArg List.length h
        simp at this; omega
      cases hm : ((l.drop i).take N).max? with
      | none => rw [List.max?_eq_none_iff] at hm; exact absurd hm hne
      | some mv =>
        obtain ⟨hmem, hub⟩ := List.max?_eq_some_iff.mp hm
        have hmem' : mv ∈ l := List.mem_of_mem_drop (List.mem_of_mem_take hmem)
        refine ⟨if mv > m then mv else m, by simp [hm], ?_⟩
        by_cases hgt : mv > m
        · simp only [hgt, if_true]
          exact ⟨by omega, .inr hmem', take_mem_split (fun x hx => by have := h3 x hx; omega) (fun x hx => hub x hx)⟩
        · simp only [hgt, if_false]
          exact ⟨h1, h2, take_mem_split h3 (fun x hx => by have := hub x hx; omega)⟩)
    (l.length + 1) 0 lo ⟨by omega, .inl rfl, by simp⟩ (by omega) (by omega)
  simp only [he]
  obtain ⟨i', m', he', ⟨h1', h2', h3'⟩, hc', _, hi'⟩ := forLoop_inv (cond := fun i => decide (i < l.length)) (step := 1)
    (body := fun i m =>
      match l[i]? with
      | none => none
      | some x => some (if x > m then x else m))
    (fun i m => lo ≤ m ∧ (m = lo ∨ m ∈ l) ∧ ∀ x ∈ l.take i, x ≤ m) l.length (by omega)
    (fun i _ _ h => by simp at h; omega)
    (by
      rintro i m ⟨h1, h2, h3⟩ hc
      have hc : i < l.length := by simpa using hc
      rw [List.getElem?_eq_getElem hc]
      refine ⟨_, rfl, ?_⟩
      have hd : ∀ x ∈ (l.drop i).take 1, x = l[i] := by
        intro x hx
        rw [List.drop_eq_getElem_cons hc] at hx
        simpa only [List.take_succ_cons, List.take_zero, List.mem_singleton] using hx
      by_cases hgt : l[i] > m
      · simp only [hgt, if_true]
        exact ⟨by omega, .inr (List.getElem_mem hc), take_mem_split (fun x hx => by have := h3 x hx; omega) (fun x hx => by rw [hd x hx]; omega)⟩
      · simp only [hgt, if_false]
        exact ⟨h1, h2, take_mem_split h3 (fun x hx => by rw [hd x hx]; omega)⟩)
    (l.length + 1) i m ⟨h1, h2, h3⟩ (by omega) hi
  simp only [he']
  have : l.length ≤ i' := by simpa using hc'
  rw [List.take_of_length_le this] at h3'
  exact ⟨m', rfl, h1', h2', h3'⟩

/-- C46, maximum: for every lane count and every non-empty vector whose elements are at least `lowest()`, the result is an element of the
vector and no element is greater. -/
theorem max_partial (lo : Int) (N : Nat) (hN : 0 < N) (l : List Int) (hne : l ≠ []) (hlo : ∀ x ∈ l, lo ≤ x) :
    ∃ m, simdMax lo N l = some m ∧ m ∈ l ∧ ∀ x ∈ l, x ≤ m := by
  obtain ⟨m, he, h1, h2, h3⟩ := simdMax_spec lo N hN l
  refine ⟨m, he, ?_, h3⟩
  rcases h2 with rfl | h2
  · obtain ⟨x, hx⟩ := List.exists_mem_of_ne_nil l hne
    have := h3 x hx
    have := hlo x hx
    have : x = m := by omega
    rw [← this]; exact hx
  · exact h2

/-- C46 is false for floating point vectors that contain only values below `lowest()`, that is only `-inf`: the result is `lowest()`, which is
not an element. (An empty vector yields `lowest()` too.) -/
theorem max_below_lowest_violated (lo : Int) (N : Nat) (hN : 0 < N) (l : List Int) (h : ∀ x ∈ l, x < lo) : simdMax lo N l = some lo ∧ lo ∉ l := by
  obtain ⟨m, he, h1, h2, h3⟩ := simdMax_spec lo N hN l
  refine ⟨?_, fun hm => by have := h lo hm; omega⟩
  rcases h2 with rfl | h2
  · exact he
  · have := h m h2; omega

example : ∀ x ∈ ([-11, -11] : List Int), x < -10 := by decide
example : simdMax (-128) 2 [3, -7, 9, -128, 4] = some 9 := by decide

theorem take_mem_split' {l : List Int} {i n : Nat} {m : Int} (h1 : ∀ x ∈ l.take i, m ≤ x) (h2 : ∀ x ∈ (l.drop i).take n, m ≤ x) :
    ∀ x ∈ l.take (i + n), m ≤ x := by
  intro x hx
  rw [List.take_add] at hx
  rcases List.mem_append.mp hx with h | h
  · exact h1 x h
  · exact h2 x h

theorem simdMin_spec (hi : Int) (N : Nat) (hN : 0 < N) (l : List Int) :
    ∃ m, simdMin hi N l = some m ∧ m ≤ hi ∧ (m = hi ∨ m ∈ l) ∧ ∀ x ∈ l, m ≤ x := by
  unfold simdMin
  obtain ⟨i, m, he, ⟨h1, h2, h3⟩, _, _, hi1⟩ := forLoop_inv (cond := fun i => decide (i + N ≤ l.length)) (step := N)
    (body := fun i m =>
      match loadU l i N with
      | none => none
      | some v =>
        match v.min? with
        | none => none
        | some mv => some (if mv < m then mv else m))
    (fun i m => m ≤ hi ∧ (m = hi ∨ m ∈ l) ∧ ∀ x ∈ l.take i, m ≤ x) l.length hN (fun i _ _ h => by simpa using h)
    (by
      rintro i m ⟨h1, h2, h3⟩ hc
      have hc : i + N ≤ l.length := by simpa using hc
      rw [loadU_some hc]
      have hne : (l.drop i).take N ≠ [] := by
        intro h
        have := congrArg List.length h
        simp at this; omega
      cases hm : ((l.drop i).take N).min? with
      | none => rw [List.min?_eq_none_iff] at hm; exact absurd hm hne
      | some mv =>
        obtain ⟨hmem, hub⟩ := List.min?_eq_some_iff.mp hm
        have hmem' : mv ∈ l := List.mem_of_mem_drop (List.mem_of_mem_take hmem)
        refine ⟨if mv < m then mv else m, by simp [hm], ?_⟩
        by_cases hgt : mv < m
        · simp only [hgt, if_true]
          exact ⟨by omega, .inr hmem', take_mem_split' (fun x hx => by have := h3 x hx; omega) (fun x hx => hub x hx)⟩
        · simp only [hgt, if_false]
          exact ⟨h1, h2, take_mem_split' h3 (fun x hx => by have := hub x hx; omega)⟩)
    (l.length + 1) 0 hi ⟨by omega, .inl rfl, by simp⟩ (by omega) (by omega)
  simp only [he]
  obtain ⟨i', m', he', ⟨h1', h2', h3'⟩, hc', _, hi'⟩ := forLoop_inv (cond := fun i => decide (i < l.length)) (step := 1)
    (body := fun i m =>
      match l[i]? with
      | none => none
      | some x => some (if x < m then x else m))
    (fun i m => m ≤ hi ∧ (m = hi ∨ m ∈ l) ∧ ∀ x ∈ l.take i, m ≤ x) l.length (by omega)
    (fun i _ _ h => by simp at h; omega)
    (by
      rintro i m ⟨h1, h2, h3⟩ hc
      have hc : i < l.length := by simpa using hc
      rw [List.getElem?_eq_getElem hc]
      refine ⟨_, rfl, ?_⟩
      have hd : ∀ x ∈ (l.drop i).take 1, x = l[i] := by
        intro x hx
        rw [List.drop_eq_getElem_cons hc] at hx
        simpa only [List.take_succ_cons, List.take_zero, List.mem_singleton] using hx
      by_cases hgt : l[i] < m
      · simp only [hgt, if_true]
        exact ⟨by omega, .inr (List.getElem_mem hc), take_mem_split' (fun x hx => by have := h3 x hx; omega) (fun x hx => by rw [hd x hx]; omega)⟩
      · simp only [hgt, if_false]
        exact ⟨h1, h2, take_mem_split' h3 (fun x hx => by rw [hd x hx]; omega)⟩)
    (l.length + 1) i m ⟨h1, h2, h3⟩ (by omega) hi1
  simp only [he']
  have : l.length ≤ i' := by simpa using hc'
  rw [List.take_of_length_le this] at h3'
  exact ⟨m', rfl, h1', h2', h3'⟩

/-- C46, minimum. -/
theorem min_partial (hi : Int) (N : Nat) (hN : 0 < N) (l : List Int) (hne : l ≠ []) (hhi : ∀ x ∈ l, x ≤ hi) :
    ∃ m, simdMin hi N l = some m ∧ m ∈ l ∧ ∀ x ∈ l, m ≤ x := by
  obtain ⟨m, he, h1, h2, h3⟩ := simdMin_spec hi N hN l
  refine ⟨m, he, ?_, h3⟩
  rcases h2 with rfl | h2
  · obtain ⟨x, hx⟩ := List.exists_mem_of_ne_nil l hne
    have := h3 x hx
    have := hhi x hx
    have : x = m := by omega
    rw [← this]; exact hx
  · exact h2

/-- C46 is false for vectors that contain only `+inf`. -/
theorem min_above_max_violated (hi : Int) (N : Nat) (hN : 0 < N) (l : List Int) (h : ∀ x ∈ l, hi < x) : simdMin hi N l = some hi ∧ hi ∉ l := by
  obtain ⟨m, he, h1, h2, h3⟩ := simdMin_spec hi N hN l
  refine ⟨?_, fun hm => by have := h hi hm; omega⟩
  rcases h2 with rfl | h2
  · exact he
  · have := h m h2; omega

example : ∀ x ∈ ([11, 11] : List Int), 10 < x := by decide
example : simdMin 127 2 [3, -7, 9, -128, 4] = some (-128) := by decide

/-! ## C71: iota -/

theorem iotaV_length {w : Nat} (f : BitVec w) (N : Nat) : (iotaV f N).length = N := by simp [iotaV]

theorem iotaV_add {w : Nat} (s : BitVec w) (i n : Nat) : iotaV s (i + n) = iotaV s i ++ iotaV (s + BitVec.ofNat w i) n := by
  simp only [iotaV, List.range_add, List.map_append, List.map_map]
  congr 1
  apply List.map_congr_left
  intro j _
  simp [BitVec.ofNat_add, BitVec.add_assoc]

theorem iotaV_take {w : Nat} (s : BitVec w) {n N : Nat} (h : n ≤ N) : (iotaV s N).take n = iotaV s n := by
  have : N = n + (N - n) := by omega
  rw [this, iotaV_add]
  have hl : (iotaV s n).length = n := iotaV_length s n
  conv => lhs; rw [← hl]
  simp [iotaV_length]

/-- C71: `iota(start, n)` has exactly the elements `start, start + 1, …`, with the wrap around of the type, for every lane count, and does
not write outside its buffer of `n` elements. -/
theorem iota_correct {w : Nat} (N : Nat) (hN : 0 < N) (start : BitVec w) (n : Nat) (mem : List (BitVec w)) (hmem : mem.length = n) :
    simdIota N start n mem = some ((List.range n).map (fun j => start + BitVec.ofNat w j)) := by
  unfold simdIota
  have hdiv : (n / N) * N ≤ n := Nat.div_mul_le_self n N
  have hmul : ∀ q, q * N < (n / N) * N → q * N + N ≤ (n / N) * N := by
    intro q h
    have : q < n / N := Nat.lt_of_mul_lt_mul_right h
    have : (q + 1) * N ≤ (n / N) * N := Nat.mul_le_mul_right N this
    rw [Nat.succ_mul] at this
    exact this
  obtain ⟨i, m, he, ⟨h1, h2, q, hq⟩, hc, _, hi⟩ := forLoop_inv (cond := fun i => decide (i < (n / N) * N)) (step := N)
    (body := fun i m => storeU m i (iotaV (start + BitVec.ofNat w i) N))
    (fun i m => m.length = n ∧ m.take i = iotaV start i ∧ ∃ q, i = q * N) ((n / N) * N) hN
    (by
      rintro i m ⟨_, _, q, rfl⟩ h
      exact hmul q (by simpa using h))
    (by
      rintro i m ⟨h1, h2, q, rfl⟩ hc
      have hle := hmul q (by simpa using hc)
      obtain ⟨m', e1, e2, e3⟩ := storeU_ok m (iotaV (start + BitVec.ofNat w (q * N)) N) (q * N) (by rw [iotaV_length]; omega)
      rw [iotaV_length] at e3
      exact ⟨m', e1, by omega, by rw [e3, h2, iotaV_add], q + 1, by rw [Nat.succ_mul]⟩)
    (n + 1) 0 mem ⟨hmem, by simp [iotaV], 0, by simp⟩ (by omega) (by omega)
  simp only [he]
  have hc : n / N * N ≤ i := by simpa using hc
  have hspec : iotaV start n = (List.range n).map (fun j => start + BitVec.ofNat w j) := rfl
  rw [← hspec]
  by_cases hlt : i < n
  · have hrem : n - i ≤ N := by
      have h5 := Nat.div_add_mod n N
      have h6 := Nat.mod_lt n hN
      rw [Nat.mul_comm] at h5
      omega
    simp only [hlt, if_true, storeN, iotaV_take _ hrem]
    obtain ⟨m', e1, e2, e3⟩ := storeU_ok m (iotaV (start + BitVec.ofNat w i) (n - i)) i (by rw [iotaV_length]; omega)
    rw [iotaV_length, h2, ← iotaV_add, show i + (n - i) = n by omega, List.take_of_length_le (by omega)] at e3
    rw [e1, e3]
  · have hin : i = n := by omega
    simp only [hlt, if_false]
    subst hin
    rw [List.take_of_length_le (by omega)] at h2
    rw [h2]

example : simdIota 4 250#8 7 (List.replicate 7 0#8) = some [250#8, 251#8, 252#8, 253#8, 254#8, 255#8, 0#8] := by decide

end Verif.Simd
