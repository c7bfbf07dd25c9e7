/-!
# The kernels that apply a function to a block of 64 elements

`do_unary_transform` (`/repo/rapidudf/functions/simd/vector_unary.cc` 162–172), `do_binary_transform` (`vector_binary.cc` 75–86), `do_ternary_transform`
(`vector_ternary.cc` 57–69). The generated code keeps a block of 64 elements of each operand on its stack and calls these functions with their addresses.

Simplified: memory is addressed by elements, so that two blocks overlap by whole elements only; the vector function is taken to be lane-wise (Highway's contract).
-/
namespace Verif.Simd.Transform

variable {α : Type}

/-- Memory of elements; `none`: not readable or writable. -/
abbrev Mem (α : Type) := Nat → Option α

/-- `kVectorUnitSize` (`types/vector.h` 32). -/
def unit : Nat := 64

/-- `hn::LoadU`: `N` elements from `p` on. `none`: an access outside of the memory. -/
def loadU (m : Mem α) (p : Nat) : Nat → Option (List α)
  | 0 => some []
  | n + 1 => do
    let v ← m p
    let vs ← loadU m (p + 1) n
    return v :: vs

/-- `hn::StoreU`. -/
def storeU (m : Mem α) (p : Nat) : List α → Option (Mem α)
  | [] => some m
  | v :: vs => if (m p).isSome then storeU (fun q => if q = p then some v else m q) (p + 1) vs else none

/-- `for (size_t idx = 0; idx < kVectorUnitSize; idx += N)`. The first argument bounds the number of rounds; each round advances by at least one, so
64 rounds are enough (`static_assert(kVectorUnitSize % N == 0)`, `N > 0`). -/
def loop (N : Nat) (body : Nat → Mem α → Option (Mem α)) : Nat → Nat → Mem α → Option (Mem α)
  | 0, idx, m => if idx < unit then none else some m
  | k + 1, idx, m => if idx < unit then (body idx m).bind (loop N body k (idx + N)) else some m

/-- `do_unary_transform`, lines 168–171. -/
def unary (N : Nat) (f : α → α) (input output : Nat) (m : Mem α) : Option (Mem α) :=
  loop N (fun idx m => do
    let v ← loadU m (input + idx) N
    storeU m (output + idx) (v.map f)) unit 0 m

/-- `do_binary_transform`, lines 81–85. -/
def binary (N : Nat) (f : α → α → α) (left right output : Nat) (m : Mem α) : Option (Mem α) :=
  loop N (fun idx m => do
    let v1 ← loadU m (left + idx) N
    let v2 ← loadU m (right + idx) N
    storeU m (output + idx) (List.zipWith f v1 v2)) unit 0 m

/-- `do_ternary_transform`, lines 63–68. -/
def ternary (N : Nat) (f : α → α → α → α) (a b c output : Nat) (m : Mem α) : Option (Mem α) :=
  loop N (fun idx m => do
    let v1 ← loadU m (a + idx) N
    let v2 ← loadU m (b + idx) N
    let v3 ← loadU m (c + idx) N
    storeU m (output + idx) (List.zipWith (fun g z => g z) (List.zipWith f v1 v2) v3)) unit 0 m

/-! ## Specification -/

/-- The block of 64 elements at `p` holds `g 0, …, g 63`. -/
def Holds (m : Mem α) (p : Nat) (g : Nat → α) : Prop := ∀ j, j < 64 → m (p + j) = some (g j)

/-- 64 elements can be written at `p`. -/
def Writable (m : Mem α) (p : Nat) : Prop := ∀ j, j < 64 → (m (p + j)).isSome = true

/-- Nothing but the block at `p` has changed. -/
def OnlyBlock (m m' : Mem α) (p : Nat) : Prop := ∀ q, (∀ j, j < 64 → q ≠ p + j) → m' q = m q

/-- The output block is the input block, lies before it, or behind it without common elements. -/
def Apart (input output : Nat) : Prop := output ≤ input ∨ input + 64 ≤ output

/-! ## Lemmas -/

theorem loadU_eq (m : Mem α) (g : Nat → α) : ∀ (N p i : Nat), (∀ k, k < N → m (p + k) = some (g (i + k))) →
    loadU m p N = some ((List.range' i N).map g)
  | 0, _, _, _ => rfl
  | N + 1, p, i, h => by
    have h0 := h 0 (by omega)
    have ih := loadU_eq m g N (p + 1) (i + 1) (fun k hk => by
      have := h (k + 1) (by omega)
      rw [show p + 1 + k = p + (k + 1) by omega, show i + 1 + k = i + (k + 1) by omega]
      exact this)
    simp only [Nat.add_zero] at h0
    simp [loadU, h0, ih, List.range'_succ]

theorem storeU_eq : ∀ (vs : List α) (m : Mem α) (p : Nat), (∀ k, k < vs.length → (m (p + k)).isSome = true) →
    ∃ m', storeU m p vs = some m' ∧ (∀ k (hk : k < vs.length), m' (p + k) = some vs[k]) ∧ ∀ q, (q < p ∨ p + vs.length ≤ q) → m' q = m q
  | [], m, p, _ => ⟨m, rfl, fun k hk => absurd hk (Nat.not_lt_zero _), fun _ _ => rfl⟩
  | v :: vs, m, p, h => by
    have h0 := h 0 (by simp)
    simp only [Nat.add_zero] at h0
    obtain ⟨m', e, h1, h2⟩ := storeU_eq vs (fun q => if q = p then some v else m q) (p + 1) (fun k hk => by
      have := h (k + 1) (by simpa using hk)
      rw [show p + 1 + k = p + (k + 1) by omega, if_neg (by omega)]
      exact this)
    refine ⟨m', by simp [storeU, h0, e], ?_, ?_⟩
    · intro k hk
      cases k with
      | zero => rw [Nat.add_zero, h2 p (.inl (by omega))]; simp
      | succ k =>
        have hk' : k < vs.length := by simpa using hk
        have := h1 k hk'
        rw [show p + (k + 1) = p + 1 + k by omega, this]
        simp
    · intro q hq
      simp only [List.length_cons] at hq
      rw [h2 q (by omega), if_neg (by omega)]

/-- Every loop whose body writes `g idx, …, g (idx + N - 1)` to the output, whenever only earlier elements of the output have changed. -/
theorem loop_spec (N : Nat) (hN : 0 < N) (hd : N ∣ 64) (out : Nat) (g : Nat → α) (m₀ : Mem α) (hw : Writable m₀ out)
    (body : Nat → Mem α → Option (Mem α))
    (hb : ∀ idx m, idx + N ≤ 64 → (∀ q, (q < out ∨ out + idx ≤ q) → m q = m₀ q) → body idx m = storeU m (out + idx) ((List.range' idx N).map g)) :
    ∀ (k idx : Nat) (m : Mem α), 64 ≤ idx + k → N ∣ idx → idx ≤ 64 → (∀ q, (q < out ∨ out + idx ≤ q) → m q = m₀ q) →
      (∀ j, j < idx → m (out + j) = some (g j)) →
      ∃ m', loop N body k idx m = some m' ∧ Holds m' out g ∧ OnlyBlock m₀ m' out := by
  have fin : ∀ m : Mem α, (∀ q, (q < out ∨ out + 64 ≤ q) → m q = m₀ q) → OnlyBlock m₀ m out := by
    intro m h q hq
    apply h
    rcases Nat.lt_or_ge q out with h1 | h1
    · exact .inl h1
    · rcases Nat.lt_or_ge q (out + 64) with h2 | h2
      · exact absurd (by omega) (hq (q - out) (by omega))
      · exact .inr h2
  intro k
  induction k with
  | zero =>
    intro idx m hk _ h64 hm hg
    have : idx = 64 := by omega
    subst this
    exact ⟨m, by simp [loop, unit], hg, fin m hm⟩
  | succ k ih =>
    intro idx m hk hdi h64 hm hg
    rcases Nat.lt_or_ge idx 64 with hlt | hge
    · have hle : idx + N ≤ 64 := by
        obtain ⟨a, ha⟩ := hd
        obtain ⟨b, hb'⟩ := hdi
        rw [ha, hb'] at hlt
        have : b < a := Nat.lt_of_mul_lt_mul_left hlt
        rw [ha, hb', ← Nat.mul_succ]
        exact Nat.mul_le_mul_left _ this
      obtain ⟨m', e, h1, h2⟩ := storeU_eq ((List.range' idx N).map g) m (out + idx) (fun j hj => by
        simp only [List.length_map, List.length_range'] at hj
        rw [hm _ (.inr (by omega)), show out + idx + j = out + (idx + j) by omega]
        exact hw _ (by omega))
      simp only [List.length_map, List.length_range'] at h1 h2
      obtain ⟨m'', e', h3, h4⟩ := ih (idx + N) m' (by omega) (Nat.dvd_add hdi (Nat.dvd_refl N)) hle
        (fun q hq => by rw [h2 q (by omega)]; exact hm q (by omega))
        (fun j hj => by
          rcases Nat.lt_or_ge j idx with hji | hji
          · rw [h2 _ (.inl (by omega))]; exact hg j hji
          · have := h1 (j - idx) (by omega)
            rw [show out + idx + (j - idx) = out + j by omega] at this
            rw [this]
            simp [show idx + (j - idx) = j by omega])
      refine ⟨m'', ?_, h3, h4⟩
      simp only [loop, unit, if_pos hlt, hb idx m hle hm, e, Option.bind_some, e']
    · have : idx = 64 := by omega
      subst this
      exact ⟨m, by simp [loop, unit], hg, fin m hm⟩

theorem input_unchanged {m m₀ : Mem α} {p out idx N : Nat} {g : Nat → α} (hg : Holds m₀ p g) (ha : Apart p out) (hi : idx + N ≤ 64)
    (hm : ∀ q, (q < out ∨ out + idx ≤ q) → m q = m₀ q) : loadU m (p + idx) N = some ((List.range' idx N).map g) := by
  apply loadU_eq
  intro k hk
  unfold Apart at ha
  rw [hm _ (by omega), show p + idx + k = p + (idx + k) by omega]
  exact hg _ (by omega)

theorem zipWith_map_range (f : α → α → β) (g h : Nat → α) (i N : Nat) :
    List.zipWith f ((List.range' i N).map g) ((List.range' i N).map h) = (List.range' i N).map (fun j => f (g j) (h j)) := by
  rw [List.zipWith_map, List.zipWith_self]

/-! ## C119 -/

/-- **C119** (one operand). The block at `output` receives the function of each of the 64 elements, nothing else changes and nothing outside the two blocks is
accessed. -/
theorem unary_transform (N : Nat) (hN : 0 < N) (hd : N ∣ 64) (f : α → α) (input output : Nat) (m : Mem α) (x : Nat → α)
    (hx : Holds m input x) (hw : Writable m output) (ha : Apart input output) :
    ∃ m', unary N f input output m = some m' ∧ Holds m' output (fun j => f (x j)) ∧ OnlyBlock m m' output := by
  refine loop_spec N hN hd output (fun j => f (x j)) m hw _ ?_ unit 0 m (by simp [unit]) (Nat.dvd_zero _) (by omega) (fun _ _ => rfl)
    (fun j hj => absurd hj (Nat.not_lt_zero _))
  intro idx m1 hi hm
  simp only [input_unchanged hx ha hi hm, bind, Option.bind_some, List.map_map]
  rfl

/-- **C119** (two operands). -/
theorem binary_transform (N : Nat) (hN : 0 < N) (hd : N ∣ 64) (f : α → α → α) (left right output : Nat) (m : Mem α) (x y : Nat → α)
    (hx : Holds m left x) (hy : Holds m right y) (hw : Writable m output) (ha : Apart left output) (hb : Apart right output) :
    ∃ m', binary N f left right output m = some m' ∧ Holds m' output (fun j => f (x j) (y j)) ∧ OnlyBlock m m' output := by
  refine loop_spec N hN hd output (fun j => f (x j) (y j)) m hw _ ?_ unit 0 m (by simp [unit]) (Nat.dvd_zero _) (by omega) (fun _ _ => rfl)
    (fun j hj => absurd hj (Nat.not_lt_zero _))
  intro idx m1 hi hm
  simp only [input_unchanged hx ha hi hm, input_unchanged hy hb hi hm, bind, Option.bind_some, zipWith_map_range]

/-- **C119** (three operands). -/
theorem ternary_transform (N : Nat) (hN : 0 < N) (hd : N ∣ 64) (f : α → α → α → α) (a b c output : Nat) (m : Mem α) (x y z : Nat → α)
    (hx : Holds m a x) (hy : Holds m b y) (hz : Holds m c z) (hw : Writable m output) (ha : Apart a output) (hb : Apart b output)
    (hc : Apart c output) :
    ∃ m', ternary N f a b c output m = some m' ∧ Holds m' output (fun j => f (x j) (y j) (z j)) ∧ OnlyBlock m m' output := by
  refine loop_spec N hN hd output (fun j => f (x j) (y j) (z j)) m hw _ ?_ unit 0 m (by simp [unit]) (Nat.dvd_zero _) (by omega) (fun _ _ => rfl)
    (fun j hj => absurd hj (Nat.not_lt_zero _))
  intro idx m1 hi hm
  simp only [input_unchanged hx ha hi hm, input_unchanged hy hb hi hm, input_unchanged hz hc hi hm, bind, Option.bind_some]
  congr 1
  rw [List.zipWith_map, List.zipWith_self, List.zipWith_map, List.zipWith_self]

/-- In place, with 4 lanes, in a memory of two blocks: the second block is left alone. -/
example : ∃ m', unary 4 (fun x : Int => -x) 0 0 (fun q => if q < 128 then some (q : Int) else none) = some m' ∧ m' 63 = some (-63) ∧ m' 64 = some 64 := by
  obtain ⟨m', h1, h2, h3⟩ := unary_transform 4 (by decide) (by decide) (fun x : Int => -x) 0 0 (fun q => if q < 128 then some (q : Int) else none) (fun j => (j : Int))
    (fun j hj => by simp; omega) (fun j hj => by simp; omega) (.inl (Nat.le_refl _))
  exact ⟨m', h1, h2 63 (by decide), by rw [h3 64 (fun j hj => by omega)]; rfl⟩

end Verif.Simd.Transform
