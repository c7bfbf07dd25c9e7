import Verif.Types.DType
/-!
# Comparison of type descriptors: C25

`/repo/rapidudf/meta/dtype.cc` 81–117.
-/
namespace Verif.Types.DT

/-- The control word of a descriptor as a number (see `word_value`). -/
def ctl (container ptr t0 t1 arr : Nat) : Nat := container + 2 ^ 6 * ptr + 2 ^ 7 * t0 + 2 ^ 21 * t1 + 2 ^ 35 * arr

/-- `static_cast<int64_t>` of a 64-bit unsigned number. -/
def toI64 (n : Nat) : Int := (n : Int).bmod (2 ^ 64)
/-- Conversion of an `int64_t` to `int`. -/
def toI32 (n : Int) : Int := n.bmod (2 ^ 32)

mutual
/-- `Compare`, lines 81–111. `none`: the 64-bit subtraction overflows. The result of the subtraction is returned as `int`. -/
def cmp : DType → DType → Option Int
  | .mk c p a b n e, .mk c' p' a' b' n' e' =>
    let ret := toI64 (ctl c p a b n) - toI64 (ctl c' p' a' b' n')
    if ret < -2 ^ 63 ∨ 2 ^ 63 ≤ ret then none
    else if ret ≠ 0 then some (toI32 ret)
    else if e.length ≠ e'.length then some (toI32 ((e.length : Int) - e'.length))
    else cmpList e e'
/-- The loop of lines 97–109. -/
def cmpList : List (Option DType) → List (Option DType) → Option Int
  | [], _ => some 0
  | _ :: _, [] => some 0
  | x :: xs, y :: ys =>
    match cmpOpt x y with
    | none => none
    | some r => if r ≠ 0 then some r else cmpList xs ys
/-- Lines 98–105. -/
def cmpOpt : Option DType → Option DType → Option Int
  | some x, some y => cmp x y
  | some _, none => some (1 - 0)
  | none, some _ => some (0 - 1)
  | none, none => some (0 - 0)
end

/-- The operators of lines 112–117. -/
def dtypeEq (a b : DType) : Option Bool := (cmp a b).map (fun r => r == 0)
def dtypeLt (a b : DType) : Option Bool := (cmp a b).map (fun r => decide (r < 0))
def dtypeLe (a b : DType) : Option Bool := (cmp a b).map (fun r => decide (r ≤ 0))

/-! ## Where the comparison is no order -/

/-- C25 is false of the code: descriptors of arrays of the same element type and different lengths compare equal. -/
theorem dtype_eq_arrays_violated (d : DType) (hc : d.ptr ≤ 1) (h0 : d.t0 < 2 ^ 14) (h1 : d.t1 < 2 ^ 14) (n m : Nat) (hn : n < 2 ^ 28) (hm : m < 2 ^ 28)
    (hne : n ≠ m) : dtypeEq (toArray n d) (toArray m d) = some true ∧ toArray n d ≠ toArray m d := by
  cases d with
  | mk c p a b k e =>
    simp only [DType.ptr, DType.t0, DType.t1] at hc h0 h1
    have en : n % 2 ^ 29 = n := Nat.mod_eq_of_lt (by omega)
    have em : m % 2 ^ 29 = m := Nat.mod_eq_of_lt (by omega)
    constructor
    · simp only [dtypeEq, toArray, cmp, en, em, COLLECTION_ARRAY]
      have e1 : ∀ k : Nat, k < 2 ^ 28 → toI64 (ctl 1 p a b k) = 1 + 2 ^ 6 * p + 2 ^ 7 * a + 2 ^ 21 * b + 2 ^ 35 * k := by
        intro k hk
        unfold toI64 ctl
        rw [Int.bmod_eq_of_le_mul_two (by omega) (by omega)]
        omega
      rw [e1 n hn, e1 m hm]
      have e2 : (1 + 2 ^ 6 * (p : Int) + 2 ^ 7 * a + 2 ^ 21 * b + 2 ^ 35 * n) - (1 + 2 ^ 6 * p + 2 ^ 7 * a + 2 ^ 21 * b + 2 ^ 35 * m) = 2 ^ 32 * (8 * ((n : Int) - m)) := by
        omega
      rw [e2, if_neg (by omega), if_pos (by omega)]
      simp only [toI32, Option.map_some, Option.some.injEq, beq_iff_eq]
      exact Int.bmod_eq_zero_of_dvd ⟨_, rfl⟩
    · simp only [toArray, en, em]
      intro h
      injection h with _ _ _ _ h5 _
      exact hne h5

/-- C25 is false of the code: for some pairs of map types each is less than the other. -/
theorem dtype_lt_antisymm_violated : ∃ a b : DType, dtypeLt a b = some true ∧ dtypeLt b a = some true :=
  ⟨.mk COLLECTION_MAP 0 9 64 0 [], .mk COLLECTION_MAP 0 9 1088 0 [], by decide, by decide⟩

/-- C25 is false of the code: the comparison has cycles. -/
theorem dtype_lt_cycle_violated : ∃ a b c : DType, dtypeLt a b = some true ∧ dtypeLt b c = some true ∧ dtypeLt c a = some true :=
  ⟨.mk COLLECTION_MAP 0 9 64 0 [], .mk COLLECTION_MAP 0 9 764 0 [], .mk COLLECTION_MAP 0 9 1464 0 [], by decide, by decide, by decide⟩

/-! ## Where it is -/

mutual
/-- Descriptors, with all nested ones, without array size and with a second type identifier below 1024: everything but arrays and pairs or maps with a nested or
late-registered second type. -/
def Small : DType → Prop
  | .mk c p a b n e => c < 2 ^ 6 ∧ p < 2 ∧ a < 2 ^ 14 ∧ b < 2 ^ 10 ∧ n = 0 ∧ e.length < 2 ^ 31 ∧ SmallList e
def SmallList : List (Option DType) → Prop
  | [] => True
  | x :: xs => SmallOpt x ∧ SmallList xs
def SmallOpt : Option DType → Prop
  | none => True
  | some d => Small d
end

/-- The control words of small descriptors subtract without loss. -/
theorem small_diff (x y : Nat) (hx : x < 2 ^ 31) (hy : y < 2 ^ 31) : toI64 x - toI64 y = (x : Int) - y ∧ toI32 ((x : Int) - y) = (x : Int) - y := by
  unfold toI64 toI32
  rw [Int.bmod_eq_of_le_mul_two (by omega) (by omega), Int.bmod_eq_of_le_mul_two (by omega) (by omega)]
  exact ⟨rfl, Int.bmod_eq_of_le_mul_two (by omega) (by omega)⟩

theorem ctl_small {c p a b : Nat} (h1 : c < 2 ^ 6) (h2 : p < 2) (h3 : a < 2 ^ 14) (h4 : b < 2 ^ 10) : ctl c p a b 0 < 2 ^ 31 := by
  unfold ctl; omega

/-- `cmp` on small descriptors. -/
theorem cmp_small (c p a b n : Nat) (e : List (Option DType)) (c' p' a' b' n' : Nat) (e' : List (Option DType))
    (h : Small (.mk c p a b n e)) (h' : Small (.mk c' p' a' b' n' e')) :
    cmp (.mk c p a b n e) (.mk c' p' a' b' n' e') =
      (if ctl c p a b n ≠ ctl c' p' a' b' n' then some ((ctl c p a b n : Int) - (ctl c' p' a' b' n' : Int))
      else if e.length ≠ e'.length then some ((e.length : Int) - e'.length) else cmpList e e') := by
  simp only [Small] at h h'
  obtain ⟨h1, h2, h3, h4, rfl, h6, _⟩ := h
  obtain ⟨g1, g2, g3, g4, rfl, g6, _⟩ := h'
  simp only [cmp]
  have hx := ctl_small h1 h2 h3 h4
  have hy := ctl_small g1 g2 g3 g4
  obtain ⟨e1, e2⟩ := small_diff _ _ hx hy
  obtain ⟨e3, e4⟩ := small_diff e.length e'.length h6 g6
  rw [e1, e2, e4]
  clear e1 e2 e3 e4 h1 h2 h3 h4 g1 g2 g3 g4 h6 g6
  generalize ctl c p a b 0 = x at *
  generalize ctl c' p' a' b' 0 = y at *
  rw [if_neg (by omega)]
  by_cases hxy : x = y
  · subst hxy; simp
  · have h1 : (x : Int) - y ≠ 0 := by omega
    rw [if_pos h1, if_pos hxy]

/-- The components of small descriptors from their control numbers. -/
theorem small_inj {c p a b c' p' a' b' : Nat} (h1 : c < 2 ^ 6) (h2 : p < 2) (h3 : a < 2 ^ 14) (g1 : c' < 2 ^ 6) (g2 : p' < 2) (g3 : a' < 2 ^ 14)
    (h : ctl c p a b 0 = ctl c' p' a' b' 0) : c = c' ∧ p = p' ∧ a = a' ∧ b = b' := by
  unfold ctl at h
  omega

mutual
/-- The comparison of small descriptors is defined, zero only on equal ones, and turns around when the arguments are exchanged. -/
theorem cmp_law : ∀ (x y : DType), Small x → Small y → ∃ r, cmp x y = some r ∧ (r = 0 ↔ x = y) ∧ cmp y x = some (-r)
  | .mk c p a b n e, .mk c' p' a' b' n' e', h, h' => by
    rw [cmp_small _ _ _ _ _ _ _ _ _ _ _ _ h h', cmp_small _ _ _ _ _ _ _ _ _ _ _ _ h' h]
    simp only [Small] at h h'
    obtain ⟨h1, h2, h3, h4, rfl, h6, h7⟩ := h
    obtain ⟨g1, g2, g3, g4, rfl, g6, g7⟩ := h'
    by_cases hc : ctl c p a b 0 = ctl c' p' a' b' 0
    · obtain ⟨rfl, rfl, rfl, rfl⟩ := small_inj h1 h2 h3 g1 g2 g3 hc
      simp only [ne_eq, not_true_eq_false, if_false]
      by_cases hl : e.length = e'.length
      · simp only [hl, not_true_eq_false, if_false]
        obtain ⟨r, e1, e2, e3⟩ := cmpList_law e e' h7 g7 hl
        refine ⟨r, e1, ?_, e3⟩
        rw [e2]
        constructor
        · rintro rfl; rfl
        · intro h; injection h
      · simp only [hl, not_false_eq_true, if_true, show ¬ e'.length = e.length from fun h => hl h.symm]
        refine ⟨_, rfl, ?_, by congr 1; omega⟩
        constructor
        · intro h; omega
        · intro h; injection h with _ _ _ _ _ h; exact absurd (by rw [h]) hl
    · rw [if_pos hc, if_pos (fun h => hc h.symm)]
      refine ⟨_, rfl, ?_, by congr 1; omega⟩
      constructor
      · intro h; omega
      · intro h; injection h with q1 q2 q3 q4; exact absurd (by rw [q1, q2, q3, q4]) hc
theorem cmpList_law : ∀ (x y : List (Option DType)), SmallList x → SmallList y → x.length = y.length →
    ∃ r, cmpList x y = some r ∧ (r = 0 ↔ x = y) ∧ cmpList y x = some (-r)
  | [], [], _, _, _ => ⟨0, by simp [cmpList]⟩
  | [], _ :: _, _, _, hl => by simp at hl
  | _ :: _, [], _, _, hl => by simp at hl
  | x :: xs, y :: ys, h, h', hl => by
    simp only [SmallList] at h h'
    obtain ⟨r, e1, e2, e3⟩ := cmpOpt_law x y h.1 h'.1
    obtain ⟨r', f1, f2, f3⟩ := cmpList_law xs ys h.2 h'.2 (by simpa using hl)
    simp only [cmpList, e1, e3]
    by_cases hr : r = 0
    · have hxy := e2.1 hr
      subst hxy
      subst hr
      simp only [Int.neg_zero, ne_eq, not_true_eq_false, if_false]
      refine ⟨r', f1, ?_, f3⟩
      rw [f2]; simp
    · rw [if_pos hr, if_pos (by omega)]
      refine ⟨r, rfl, ?_, rfl⟩
      constructor
      · intro h; exact absurd h hr
      · intro h; exact absurd (e2.2 (List.cons.inj h).1) hr
theorem cmpOpt_law : ∀ (x y : Option DType), SmallOpt x → SmallOpt y → ∃ r, cmpOpt x y = some r ∧ (r = 0 ↔ x = y) ∧ cmpOpt y x = some (-r)
  | some x, some y, h, h' => by
    obtain ⟨r, e1, e2, e3⟩ := cmp_law x y h h'
    exact ⟨r, by simp [cmpOpt, e1], by simp [e2], by simp [cmpOpt, e3]⟩
  | some _, none, _, _ => ⟨1, by simp [cmpOpt]⟩
  | none, some _, _, _ => ⟨-1, by simp [cmpOpt]⟩
  | none, none, _, _ => ⟨0, by simp [cmpOpt]⟩
end

mutual
/-- The comparison of small descriptors is transitive. -/
theorem cmp_trans : ∀ (x y z : DType), Small x → Small y → Small z → ∀ r s, cmp x y = some r → cmp y z = some s → r ≤ 0 → s ≤ 0 → ∃ t, cmp x z = some t ∧ t ≤ 0
  | .mk c p a b n e, .mk c' p' a' b' n' e', .mk c'' p'' a'' b'' n'' e'' => by
    intro h h' h'' r s hr hs hr0 hs0
    rw [cmp_small _ _ _ _ _ _ _ _ _ _ _ _ h h'] at hr
    rw [cmp_small _ _ _ _ _ _ _ _ _ _ _ _ h' h''] at hs
    rw [cmp_small _ _ _ _ _ _ _ _ _ _ _ _ h h'']
    simp only [Small] at h h' h''
    have h7 := h.2.2.2.2.2.2
    have g7 := h'.2.2.2.2.2.2
    have k7 := h''.2.2.2.2.2.2
    clear h h' h''
    generalize ctl c p a b n = A at *
    generalize ctl c' p' a' b' n' = B at *
    generalize ctl c'' p'' a'' b'' n'' = C at *
    by_cases h1 : A = B
    · subst h1
      rw [if_neg (by simp)] at hr
      by_cases h2 : A = C
      · subst h2
        rw [if_neg (by simp)] at hs
        rw [if_neg (by simp)]
        by_cases l1 : e.length = e'.length
        · rw [if_neg (by simp [l1])] at hr
          by_cases l2 : e'.length = e''.length
          · rw [if_neg (by simp [l2])] at hs
            rw [if_neg (by simp [l1, l2])]
            exact cmpList_trans e e' e'' h7 g7 k7 l1 l2 r s hr hs hr0 hs0
          · rw [if_pos l2] at hs
            simp only [Option.some.injEq] at hs
            rw [if_pos (by omega)]
            exact ⟨_, rfl, by omega⟩
        · rw [if_pos l1] at hr
          simp only [Option.some.injEq] at hr
          by_cases l2 : e'.length = e''.length
          · rw [if_pos (by omega)]
            exact ⟨_, rfl, by omega⟩
          · rw [if_pos l2] at hs
            simp only [Option.some.injEq] at hs
            rw [if_pos (by omega)]
            exact ⟨_, rfl, by omega⟩
      · rw [if_pos h2] at hs
        simp only [Option.some.injEq] at hs
        rw [if_pos h2]
        exact ⟨_, rfl, by omega⟩
    · rw [if_pos h1] at hr
      simp only [Option.some.injEq] at hr
      by_cases h2 : B = C
      · subst h2
        rw [if_pos h1]
        exact ⟨_, rfl, by omega⟩
      · rw [if_pos h2] at hs
        simp only [Option.some.injEq] at hs
        rw [if_pos (by omega)]
        exact ⟨_, rfl, by omega⟩
theorem cmpList_trans : ∀ (x y z : List (Option DType)), SmallList x → SmallList y → SmallList z → x.length = y.length → y.length = z.length →
    ∀ r s, cmpList x y = some r → cmpList y z = some s → r ≤ 0 → s ≤ 0 → ∃ t, cmpList x z = some t ∧ t ≤ 0
  | [], _, _ => fun _ _ _ _ _ _ _ _ _ _ _ => ⟨0, by simp [cmpList]⟩
  | x :: xs, [], _ => fun _ _ _ hl => by simp at hl
  | x :: xs, y :: ys, [] => fun _ _ _ _ hl => by simp at hl
  | x :: xs, y :: ys, z :: zs => by
    intro h h' h'' l1 l2 r s hr hs hr0 hs0
    simp only [SmallList] at h h' h''
    obtain ⟨u, a1, a2, _⟩ := cmpOpt_law x y h.1 h'.1
    obtain ⟨v, b1, b2, _⟩ := cmpOpt_law y z h'.1 h''.1
    obtain ⟨w, c1, c2, c3⟩ := cmpOpt_law x z h.1 h''.1
    simp only [cmpList, a1] at hr
    simp only [cmpList, b1] at hs
    simp only [cmpList, c1]
    by_cases hu : u = 0
    · have := a2.1 hu
      subst this
      have hwv : w = v := by rw [c1] at b1; exact Option.some.inj b1
      subst hwv
      rw [if_neg (by simp [hu])] at hr
      by_cases hw : w = 0
      · rw [if_neg (by simp [hw])] at hs
        rw [if_neg (by simp [hw])]
        exact cmpList_trans xs ys zs h.2 h'.2 h''.2 (by simpa using l1) (by simpa using l2) r s hr hs hr0 hs0
      · rw [if_pos hw] at hs
        rw [if_pos hw]
        simp only [Option.some.injEq] at hs
        exact ⟨_, rfl, by omega⟩
    · rw [if_pos hu] at hr
      simp only [Option.some.injEq] at hr
      have hv0 : v ≤ 0 := by
        by_cases hv : v = 0
        · omega
        · rw [if_pos hv] at hs
          simp only [Option.some.injEq] at hs
          omega
      obtain ⟨t, t1, t2⟩ := cmpOpt_trans x y z h.1 h'.1 h''.1 u v a1 b1 (by omega) hv0
      have : w = t := by rw [c1] at t1; exact Option.some.inj t1
      subst this
      have hw : w ≠ 0 := by
        intro hw
        have hxz := c2.1 hw
        subst hxz
        obtain ⟨q, q1, q2, q3⟩ := cmpOpt_law x y h.1 h'.1
        rw [a1] at q1
        rw [b1] at q3
        simp only [Option.some.injEq] at q1 q3
        omega
      rw [if_pos hw]
      exact ⟨_, rfl, t2⟩
theorem cmpOpt_trans : ∀ (x y z : Option DType), SmallOpt x → SmallOpt y → SmallOpt z → ∀ r s, cmpOpt x y = some r → cmpOpt y z = some s → r ≤ 0 → s ≤ 0 →
    ∃ t, cmpOpt x z = some t ∧ t ≤ 0
  | some x, some y, some z => fun h h' h'' r s hr hs hr0 hs0 => by
    obtain ⟨t, t1, t2⟩ := cmp_trans x y z h h' h'' r s (by simpa [cmpOpt] using hr) (by simpa [cmpOpt] using hs) hr0 hs0
    exact ⟨t, by simpa [cmpOpt] using t1, t2⟩
  | some _, none, _ => fun _ _ _ r s hr _ hr0 _ => by simp [cmpOpt] at hr; omega
  | some _, some _, none => fun _ _ _ r s _ hs _ hs0 => by simp [cmpOpt] at hs; omega
  | none, some _, none => fun _ _ _ r s _ hs _ hs0 => by simp [cmpOpt] at hs; omega
  | none, none, some _ => fun _ _ _ _ _ _ _ _ _ => ⟨-1, by simp [cmpOpt]⟩
  | none, some _, some _ => fun _ _ _ _ _ _ _ _ _ => ⟨-1, by simp [cmpOpt]⟩
  | none, none, none => fun _ _ _ _ _ _ _ _ _ => ⟨0, by simp [cmpOpt]⟩
end

/-- What remains true of C25: on descriptors without array sizes and with second type identifiers below 1024 (all nested ones included), `==` is equality, exactly
one of `<`, `==`, `>` holds, and `<=` is transitive. -/
theorem dtype_order_partial (a b c : DType) (ha : Small a) (hb : Small b) (hc : Small c) :
    (dtypeEq a b = some true ↔ a = b) ∧
    (dtypeEq a b = some false → ((dtypeLt a b = some true ∧ dtypeLt b a = some false) ∨ (dtypeLt a b = some false ∧ dtypeLt b a = some true))) ∧
    (dtypeLt a a = some false) ∧
    (dtypeLe a b = some true → dtypeLe b c = some true → dtypeLe a c = some true) := by
  obtain ⟨r, r1, r2, r3⟩ := cmp_law a b ha hb
  obtain ⟨s, s1, _, _⟩ := cmp_law b c hb hc
  obtain ⟨q, q1, q2, _⟩ := cmp_law a a ha ha
  refine ⟨?_, ?_, ?_, ?_⟩
  · simp only [dtypeEq, r1, Option.map_some, Option.some.injEq, beq_iff_eq]; exact r2
  · simp only [dtypeEq, dtypeLt, r1, r3, Option.map_some, Option.some.injEq, beq_eq_false_iff_ne, ne_eq, decide_eq_true_eq, decide_eq_false_iff_not]
    intro h; omega
  · have : q = 0 := q2.2 rfl
    simp [dtypeLt, q1, this]
  · simp only [dtypeLe, r1, s1, Option.map_some, Option.some.injEq, decide_eq_true_eq]
    intro h1 h2
    obtain ⟨t, t1, t2⟩ := cmp_trans a b c ha hb hc r s r1 s1 h1 h2
    simp [t1, t2]

/-- The promotion rules compare primitive types by their position in the enumeration. -/
theorem dtype_primitive_order (x y : Nat) (hx : x < 2 ^ 14) (hy : y < 2 ^ 14) : dtypeLt (ofTypes x 0) (ofTypes y 0) = some (decide (x < y)) := by
  have hs : ∀ z, z < 2 ^ 14 → Small (ofTypes z 0) := by
    intro z hz
    simp only [ofTypes, Small, SmallList]
    rw [Nat.mod_eq_of_lt hz]
    exact ⟨by decide, by decide, hz, by decide, trivial, by simp, trivial⟩
  have := cmp_small 0 0 (x % 2 ^ 14) (0 % 2 ^ 14) 0 [] 0 0 (y % 2 ^ 14) (0 % 2 ^ 14) 0 [] (hs x hx) (hs y hy)
  simp only [dtypeLt, ofTypes, this]
  rw [Nat.mod_eq_of_lt hx, Nat.mod_eq_of_lt hy]
  by_cases h : x = y
  · subst h; simp [cmpList]
  · rw [if_pos (by unfold ctl; omega)]
    unfold ctl
    simp only [Option.map_some, Option.some.injEq, decide_eq_decide]
    omega

example : Small (.mk COLLECTION_VECTOR 0 DATA_COMPLEX_OBJECT 0 0 [some (.mk COLLECTION_MAP 1 9 17 0 []), none]) := by
  simp [Small, SmallList, SmallOpt, COLLECTION_VECTOR, COLLECTION_MAP, DATA_COMPLEX_OBJECT]

end Verif.Types.DT
