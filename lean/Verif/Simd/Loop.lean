/-!
# Loops over blocks of lanes, and the Highway operations used

All kernels in `/repo/rapidudf/functions/simd/*.cc` have the same shape: a `for` loop over full blocks of `N` lanes followed by a tail.
`N` is the lane count of the target, left arbitrary. Memory is a list; a read or write outside it is undefined behaviour, which is `none`
in the models. A loop that does not stop is `none` as well (it runs out of fuel).
-/
namespace Verif.Simd

/-- `for (; cond(i); i += step) body`. Returns the final index and state. -/
def forLoop {σ : Type} (cond : Nat → Bool) (step : Nat) (body : Nat → σ → Option σ) : Nat → Nat → σ → Option (Nat × σ)
  | 0, _, _ => none
  | fuel + 1, i, s =>
    if cond i then
      match body i s with
      | none => none
      | some s' => forLoop cond step body fuel (i + step) s'
    else some (i, s)

/-- The same with an early `return` of a `ρ` from the body. -/
def forLoopRet {σ ρ : Type} (cond : Nat → Bool) (step : Nat) (body : Nat → σ → Option (ρ ⊕ σ)) : Nat → Nat → σ → Option (ρ ⊕ (Nat × σ))
  | 0, _, _ => none
  | fuel + 1, i, s =>
    if cond i then
      match body i s with
      | none => none
      | some (.inl r) => some (.inl r)
      | some (.inr s') => forLoopRet cond step body fuel (i + step) s'
    else some (.inr (i, s))

/-- Invariant rule. -/
theorem forLoop_inv {σ : Type} {cond : Nat → Bool} {step : Nat} {body : Nat → σ → Option σ} (P : Nat → σ → Prop) (size : Nat)
    (hstep : 0 < step) (hcond : ∀ i s, P i s → cond i = true → i + step ≤ size)
    (hbody : ∀ i s, P i s → cond i = true → ∃ s', body i s = some s' ∧ P (i + step) s') :
    ∀ (fuel i : Nat) (s : σ), P i s → size < fuel + i → i ≤ size →
      ∃ i' s', forLoop cond step body fuel i s = some (i', s') ∧ P i' s' ∧ cond i' = false ∧ i ≤ i' ∧ i' ≤ size := by
  intro fuel
  induction fuel with
  | zero => intro i s _ h1 h2; omega
  | succ fuel ih =>
    intro i s hP h1 h2
    simp only [forLoop]
    by_cases hc : cond i = true
    · have := hcond i s hP hc
      obtain ⟨s', hb, hP'⟩ := hbody i s hP hc
      obtain ⟨i', s'', he, hP'', hc', hle, hle2⟩ := ih (i + step) s' hP' (by omega) (by omega)
      exact ⟨i', s'', by simp [hc, hb, he], hP'', hc', by omega, hle2⟩
    · exact ⟨i, s, by simp [hc], hP, by simpa using hc, by omega, h2⟩

/-- Invariant rule with early return. -/
theorem forLoopRet_inv {σ ρ : Type} {cond : Nat → Bool} {step : Nat} {body : Nat → σ → Option (ρ ⊕ σ)} (P : Nat → σ → Prop) (Q : ρ → Prop)
    (size : Nat) (hstep : 0 < step) (hcond : ∀ i s, P i s → cond i = true → i + step ≤ size)
    (hbody : ∀ i s, P i s → cond i = true → (∃ r, body i s = some (.inl r) ∧ Q r) ∨ ∃ s', body i s = some (.inr s') ∧ P (i + step) s') :
    ∀ (fuel i : Nat) (s : σ), P i s → size < fuel + i → i ≤ size →
      (∃ r, forLoopRet cond step body fuel i s = some (.inl r) ∧ Q r) ∨
      ∃ i' s', forLoopRet cond step body fuel i s = some (.inr (i', s')) ∧ P i' s' ∧ cond i' = false ∧ i ≤ i' ∧ i' ≤ size := by
  intro fuel
  induction fuel with
  | zero => intro i s _ h1 h2; omega
  | succ fuel ih =>
    intro i s hP h1 h2
    simp only [forLoopRet]
    by_cases hc : cond i = true
    · have := hcond i s hP hc
      rcases hbody i s hP hc with ⟨r, hb, hQ⟩ | ⟨s', hb, hP'⟩
      · exact .inl ⟨r, by simp [hc, hb], hQ⟩
      · rcases ih (i + step) s' hP' (by omega) (by omega) with ⟨r, he, hQ⟩ | ⟨i', s'', he, hP'', hc', hle, hle2⟩
        · exact .inl ⟨r, by simp [hc, hb, he], hQ⟩
        · exact .inr ⟨i', s'', by simp [hc, hb, he], hP'', hc', by omega, hle2⟩
    · exact .inr ⟨i, s, by simp [hc], hP, by simpa using hc, by omega, h2⟩

/-! ## Memory -/

/-- `LoadU(d, p + i)`: `N` lanes. -/
def loadU {α : Type} (mem : List α) (i N : Nat) : Option (List α) := if i + N ≤ mem.length then some ((mem.drop i).take N) else none

/-- `LoadN(d, p + i, n)`: `n` lanes from memory, the others zero. -/
def loadN {α : Type} (zero : α) (mem : List α) (i n N : Nat) : Option (List α) :=
  if i + n ≤ mem.length ∧ n ≤ N then some ((mem.drop i).take n ++ List.replicate (N - n) zero) else none

/-- `StoreU(v, d, p + i)`. -/
def storeU {α : Type} (mem : List α) (i : Nat) (v : List α) : Option (List α) :=
  if i + v.length ≤ mem.length then some (mem.take i ++ v ++ mem.drop (i + v.length)) else none

/-- `StoreN(v, d, p + i, n)`. -/
def storeN {α : Type} (mem : List α) (i : Nat) (v : List α) (n : Nat) : Option (List α) := storeU mem i (v.take n)

theorem loadU_some {α : Type} {mem : List α} {i N : Nat} (h : i + N ≤ mem.length) : loadU mem i N = some ((mem.drop i).take N) := by simp [loadU, h]

theorem take_add_drop {α : Type} (l : List α) (i n : Nat) : l.take (i + n) = l.take i ++ (l.drop i).take n := by
  rw [List.take_add]

theorem storeU_ok {α : Type} (mem v : List α) (i : Nat) (h : i + v.length ≤ mem.length) :
    ∃ m', storeU mem i v = some m' ∧ m'.length = mem.length ∧ m'.take (i + v.length) = mem.take i ++ v := by
  refine ⟨mem.take i ++ v ++ mem.drop (i + v.length), by simp [storeU, h], by simp; omega, ?_⟩
  have hl : (mem.take i ++ v).length = i + v.length := by simp; omega
  rw [← hl, List.take_left' rfl]

/-! ## Masks -/

/-- `FindFirstTrue`: the first true lane, if any (-1 otherwise). -/
def findFirstTrue (m : List Bool) : Option Nat := m.findIdx? (fun b => b)

/-- `AndNot(SetOnlyFirst(m), m)`: the mask without its first true lane. -/
def clearFirst : List Bool → List Bool
  | [] => []
  | true :: m => false :: m
  | false :: m => false :: clearFirst m

/-- The indices of the true lanes, in order. -/
def trueIdx (m : List Bool) : List Nat := go 0 m
where
  go (k : Nat) : List Bool → List Nat
    | [] => []
    | true :: m => k :: go (k + 1) m
    | false :: m => go (k + 1) m

theorem trueIdx_go_cons_false (k : Nat) (m : List Bool) : trueIdx.go k (false :: m) = trueIdx.go (k + 1) m := rfl

theorem go_shift (k : Nat) (m : List Bool) : trueIdx.go k m = (trueIdx.go 0 m).map (· + k) := by
  induction m generalizing k with
  | nil => rfl
  | cons b m ih =>
    cases b with
    | true =>
      simp only [trueIdx.go, List.map_cons, Nat.zero_add]
      rw [ih (k + 1), ih 1]
      simp [Function.comp_def, Nat.add_assoc, Nat.add_comm 1 k]
    | false =>
      simp only [trueIdx.go, Nat.zero_add]
      rw [ih (k + 1), ih 1]
      simp [Function.comp_def, Nat.add_assoc, Nat.add_comm 1 k]

theorem findFirstTrue_go (k : Nat) (m : List Bool) :
    (m.findIdx? (fun b => b)).map (· + k) = (trueIdx.go k m).head? := by
  induction m generalizing k with
  | nil => rfl
  | cons b m ih =>
    cases b with
    | true => simp [trueIdx.go, List.findIdx?_cons]
    | false =>
      simp only [trueIdx.go, List.findIdx?_cons, Bool.false_eq_true, if_false, Option.map_map]
      rw [← ih (k + 1)]
      congr 1
      funext x; simp; omega

theorem findFirstTrue_eq (m : List Bool) : findFirstTrue m = (trueIdx m).head? := by
  have := findFirstTrue_go 0 m
  simpa [findFirstTrue, trueIdx] using this

theorem clearFirst_go (k : Nat) (m : List Bool) : trueIdx.go k (clearFirst m) = (trueIdx.go k m).tail := by
  induction m generalizing k with
  | nil => rfl
  | cons b m ih =>
    cases b with
    | true => rfl
    | false => simp only [clearFirst, trueIdx.go]; exact ih (k + 1)

theorem trueIdx_clearFirst (m : List Bool) : trueIdx (clearFirst m) = (trueIdx m).tail := clearFirst_go 0 m

theorem length_clearFirst (m : List Bool) : (clearFirst m).length = m.length := by
  induction m with
  | nil => rfl
  | cons b m ih => cases b <;> simp [clearFirst, ih]

theorem mem_trueIdx_go (k : Nat) (m : List Bool) (i : Nat) : i ∈ trueIdx.go k m ↔ k ≤ i ∧ m[i - k]? = some true := by
  induction m generalizing k with
  | nil => simp [trueIdx.go]
  | cons b m ih =>
    have hs : k + 1 ≤ i → (b :: m)[i - k]? = m[i - (k + 1)]? := by
      intro h
      have : i - k = (i - (k + 1)) + 1 := by omega
      rw [this, List.getElem?_cons_succ]
    cases b with
    | true =>
      simp only [trueIdx.go, List.mem_cons, ih]
      by_cases e : i = k
      · subst e; simp
      · constructor
        · rintro (h | ⟨h1, h2⟩)
          · exact absurd h e
          · exact ⟨by omega, by rw [hs h1]; exact h2⟩
        · rintro ⟨h1, h2⟩
          exact .inr ⟨by omega, by rw [← hs (by omega)]; exact h2⟩
    | false =>
      simp only [trueIdx.go, ih]
      constructor
      · rintro ⟨h1, h2⟩; exact ⟨by omega, by rw [hs h1]; exact h2⟩
      · rintro ⟨h1, h2⟩
        have : i ≠ k := by intro e; subst e; simp at h2
        exact ⟨by omega, by rw [← hs (by omega)]; exact h2⟩

theorem mem_trueIdx (m : List Bool) (i : Nat) : i ∈ trueIdx m ↔ m[i]? = some true := by
  have := mem_trueIdx_go 0 m i
  simpa [trueIdx] using this

theorem trueIdx_sorted_go (k : Nat) (m : List Bool) : (trueIdx.go k m).Pairwise (· < ·) ∧ ∀ i ∈ trueIdx.go k m, k ≤ i := by
  induction m generalizing k with
  | nil => simp [trueIdx.go]
  | cons b m ih =>
    have h := ih (k + 1)
    cases b with
    | true =>
      simp only [trueIdx.go, List.pairwise_cons, List.mem_cons]
      refine ⟨⟨fun a ha => by have := h.2 a ha; omega, h.1⟩, ?_⟩
      rintro i (rfl | hi)
      · exact Nat.le_refl _
      · have := h.2 i hi; omega
    | false => exact ⟨h.1, fun i hi => by have := h.2 i hi; omega⟩

theorem trueIdx_sorted (m : List Bool) : (trueIdx m).Pairwise (· < ·) := (trueIdx_sorted_go 0 m).1

theorem trueIdx_go_append (k : Nat) (a b : List Bool) : trueIdx.go k (a ++ b) = trueIdx.go k a ++ trueIdx.go (k + a.length) b := by
  induction a generalizing k with
  | nil => simp [trueIdx.go]
  | cons x a ih =>
    cases x <;> simp only [List.cons_append, trueIdx.go, ih, List.length_cons]
    · rw [show k + 1 + a.length = k + (a.length + 1) by omega]
    · rw [show k + 1 + a.length = k + (a.length + 1) by omega]

theorem trueIdx_append (a b : List Bool) : trueIdx (a ++ b) = trueIdx a ++ (trueIdx b).map (· + a.length) := by
  unfold trueIdx
  rw [trueIdx_go_append, go_shift (0 + a.length) b, Nat.zero_add]

/-- The elements selected by a mask, `Compress`. -/
def compress {α : Type} : List α → List Bool → List α
  | x :: xs, b :: bs => if b then x :: compress xs bs else compress xs bs
  | _, _ => []

theorem compress_append {α : Type} (a b : List α) (ma mb : List Bool) (h : a.length = ma.length) :
    compress (a ++ b) (ma ++ mb) = compress a ma ++ compress b mb := by
  induction a generalizing ma with
  | nil => cases ma with
    | nil => rfl
    | cons m ma => simp at h
  | cons x a ih => cases ma with
    | nil => simp at h
    | cons m ma =>
      simp only [List.cons_append, compress]
      rw [ih ma (by simpa using h)]
      split <;> simp

theorem length_compress_le {α : Type} (a : List α) (m : List Bool) : (compress a m).length ≤ a.length := by
  induction a generalizing m with
  | nil => cases m <;> simp [compress]
  | cons x a ih => cases m with
    | nil => simp [compress]
    | cons b m => simp only [compress]; have := ih m; split <;> simp <;> omega

theorem compress_map_fst_filter {α : Type} (a : List α) (m : List Bool) (h : a.length = m.length) :
    compress a m = ((a.zip m).filter (·.2)).map (·.1) := by
  induction a generalizing m with
  | nil => cases m <;> simp [compress]
  | cons x a ih => cases m with
    | nil => simp at h
    | cons b m =>
      simp only [compress, List.zip_cons_cons]
      rw [ih m (by simpa using h)]
      cases b <;> simp

end Verif.Simd

namespace Verif.Simd

/-- The guard used by most kernels: `if (count >= N) for (; idx <= count - N; …)`. -/
def fullBlock (N count : Nat) (i : Nat) : Bool := decide (N ≤ count) && decide (i ≤ count - N)

theorem fullBlock_le {N count i : Nat} (h : fullBlock N count i = true) : i + N ≤ count := by
  simp [fullBlock] at h; omega

theorem fullBlock_false {N count i : Nat} (h : fullBlock N count i = false) : count < i + N := by
  simp [fullBlock] at h
  by_cases h1 : N ≤ count
  · have := h h1; omega
  · omega

/-- A kernel that computes blocks of `spec` and stores them in order leaves a prefix of `spec` in the output. -/
theorem mapLoop_ok {β : Type} (spec : List β) (N : Nat) (hN : 0 < N) (blk : Nat → Option (List β))
    (hblk : ∀ i, i + N ≤ spec.length → blk i = some ((spec.drop i).take N)) (out : List β) (hout : spec.length ≤ out.length) :
    ∃ i m, forLoop (fullBlock N spec.length) N (fun i o => do
      let v ← blk i
      storeU o i v) (spec.length + 1) 0 out = some (i, m) ∧
      m.length = out.length ∧ m.take i = spec.take i ∧ i ≤ spec.length ∧ spec.length < i + N := by
  obtain ⟨i, m, he, ⟨h1, h2⟩, hc, _, hi⟩ := forLoop_inv (cond := fullBlock N spec.length) (step := N)
    (body := fun i o => do
      let v ← blk i
      storeU o i v)
    (fun i m => m.length = out.length ∧ m.take i = spec.take i) spec.length hN (fun i _ _ h => fullBlock_le h)
    (by
      rintro i m ⟨h1, h2⟩ hc
      have hle := fullBlock_le hc
      have hl : ((spec.drop i).take N).length = N := by simp; omega
      obtain ⟨m', e1, e2, e3⟩ := storeU_ok m ((spec.drop i).take N) i (by rw [hl]; omega)
      rw [hl, h2, ← List.take_add] at e3
      exact ⟨m', by rw [hblk i hle]; exact e1, by omega, e3⟩)
    (spec.length + 1) 0 out ⟨rfl, by simp⟩ (by omega) (by omega)
  exact ⟨i, m, he, h1, h2, hi, fullBlock_false hc⟩

/-- Storing the remaining `spec.length - i` elements completes the output. -/
theorem mapTail_ok {β : Type} (spec m v : List β) (i : Nat) (hi : i ≤ spec.length) (hm : spec.length ≤ m.length) (h : m.take i = spec.take i)
    (hv : v.take (spec.length - i) = spec.drop i) :
    ∃ m', storeN m i v (spec.length - i) = some m' ∧ m'.length = m.length ∧ m'.take spec.length = spec := by
  unfold storeN
  rw [hv]
  obtain ⟨m', e1, e2, e3⟩ := storeU_ok m (spec.drop i) i (by simp; omega)
  refine ⟨m', e1, e2, ?_⟩
  rw [h, List.take_append_drop, List.length_drop, show i + (spec.length - i) = spec.length by omega] at e3
  exact e3

end Verif.Simd

namespace Verif.Simd

/-! ## The loop over the true lanes of a mask -/

/-- What the body of a `while (found >= 0)` loop does. -/
inductive Act (ρ σ : Type) | ret (r : ρ) | brk (s : σ) | cont (s : σ)

/-- `found = FindFirstTrue(mask); while (found >= 0) { body; mask = AndNot(SetOnlyFirst(mask), mask); found = FindFirstTrue(mask); }` -/
def maskLoop {ρ σ : Type} (body : Nat → σ → Option (Act ρ σ)) : Nat → List Bool → σ → Option (ρ ⊕ σ)
  | 0, _, _ => none
  | fuel + 1, m, s =>
    match findFirstTrue m with
    | none => some (.inr s)
    | some k =>
      match body k s with
      | none => none
      | some (.ret r) => some (.inl r)
      | some (.brk s') => some (.inr s')
      | some (.cont s') => maskLoop body fuel (clearFirst m) s'

/-- The same loop over a list of lane numbers. -/
def laneLoop {ρ σ : Type} (body : Nat → σ → Option (Act ρ σ)) : List Nat → σ → Option (ρ ⊕ σ)
  | [], s => some (.inr s)
  | k :: ks, s =>
    match body k s with
    | none => none
    | some (.ret r) => some (.inl r)
    | some (.brk s') => some (.inr s')
    | some (.cont s') => laneLoop body ks s'

theorem maskLoop_eq {ρ σ : Type} (body : Nat → σ → Option (Act ρ σ)) (fuel : Nat) (m : List Bool) (s : σ) (h : (trueIdx m).length < fuel) :
    maskLoop body fuel m s = laneLoop body (trueIdx m) s := by
  induction fuel generalizing m s with
  | zero => omega
  | succ fuel ih =>
    simp only [maskLoop, findFirstTrue_eq]
    cases hm : trueIdx m with
    | nil => simp [laneLoop]
    | cons k ks =>
      simp only [List.head?_cons, laneLoop]
      cases hb : body k s with
      | none => rfl
      | some a =>
        cases a with
        | ret r => rfl
        | brk s' => rfl
        | cont s' =>
          simp only
          rw [ih (clearFirst m) s' (by rw [trueIdx_clearFirst, hm]; rw [hm] at h; simp at h ⊢; omega), trueIdx_clearFirst, hm]
          rfl

theorem length_trueIdx_go (k : Nat) (m : List Bool) : (trueIdx.go k m).length ≤ m.length := by
  induction m generalizing k with
  | nil => simp [trueIdx.go]
  | cons b m ih => cases b <;> simp only [trueIdx.go, List.length_cons] <;> have := ih (k + 1) <;> omega

theorem length_trueIdx (m : List Bool) : (trueIdx m).length ≤ m.length := length_trueIdx_go 0 m

/-! ## First positions -/

/-- `n` is the first position of `l` whose element satisfies `p`. -/
def IsFirst {α : Type} (p : α → Bool) (l : List α) (n : Nat) : Prop :=
  (∃ x, l[n]? = some x ∧ p x = true) ∧ ∀ j x, j < n → l[j]? = some x → p x = false

theorem first_block {α : Type} (p : α → Bool) (l : List α) (i n f : Nat) (hpre : ∀ x ∈ l.take i, p x = false)
    (h : findFirstTrue (((l.drop i).take n).map p) = some f) : IsFirst p l (i + f) ∧ f < n ∧ i + f < l.length := by
  unfold findFirstTrue at h
  rw [List.findIdx?_eq_some_iff_getElem] at h
  obtain ⟨hf, h1, h2⟩ := h
  simp only [List.length_map, List.length_take, List.length_drop] at hf
  have hlt : i + f < l.length := by omega
  refine ⟨⟨⟨l[i + f], by simp [hlt], by simpa using h1⟩, ?_⟩, by omega, hlt⟩
  intro j x hj hx
  by_cases hji : j < i
  · apply hpre
    rw [List.mem_iff_getElem?]
    exact ⟨j, by rw [List.getElem?_take, if_pos hji]; exact hx⟩
  · have := h2 (j - i) (by omega)
    have hjl : j < l.length := by omega
    have hij : i + (j - i) = j := by omega
    simp only [List.getElem_map, List.getElem_take, List.getElem_drop, hij] at this
    rw [List.getElem?_eq_getElem hjl] at hx
    have hx : l[j] = x := by simpa using hx
    rw [hx] at this
    simpa using this

theorem none_block {α : Type} (p : α → Bool) (l : List α) (i n : Nat) (hpre : ∀ x ∈ l.take i, p x = false)
    (h : findFirstTrue (((l.drop i).take n).map p) = none) : ∀ x ∈ l.take (i + n), p x = false := by
  unfold findFirstTrue at h
  rw [List.findIdx?_eq_none_iff] at h
  intro x hx
  rw [List.take_add] at hx
  rcases List.mem_append.mp hx with hx | hx
  · exact hpre x hx
  · have := h (p x) (List.mem_map_of_mem hx)
    simpa using this

/-- Partial correctness: the invariant holds whenever the loop ends in a defined state. -/
theorem forLoop_partial {σ : Type} {cond : Nat → Bool} {step : Nat} {body : Nat → σ → Option σ} (P : Nat → σ → Prop)
    (hbody : ∀ i s s', P i s → cond i = true → body i s = some s' → P (i + step) s') :
    ∀ (fuel i : Nat) (s : σ) (i' : Nat) (s' : σ), P i s → forLoop cond step body fuel i s = some (i', s') → P i' s' ∧ cond i' = false := by
  intro fuel
  induction fuel with
  | zero => intro i s i' s' _ h; simp [forLoop] at h
  | succ f ih =>
    intro i s i' s' hs h
    simp only [forLoop] at h
    by_cases hc : cond i = true
    · simp only [hc, if_true] at h
      cases hb' : body i s with
      | none => simp [hb'] at h
      | some s1 =>
        simp only [hb'] at h
        exact ih _ _ _ _ (hbody i s s1 hs hc hb') h
    · simp only [hc] at h
      simp at h
      obtain ⟨rfl, rfl⟩ := h
      exact ⟨hs, by simpa using hc⟩

end Verif.Simd
