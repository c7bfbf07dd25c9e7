import Verif.Simd.Bits
/-!
# gather (C48)

`/repo/rapidudf/functions/simd/vector_misc.cc` 224–269 and 549–592. Indices are the `int32_t` values.
-/
namespace Verif.Simd

/-- `base[ix]` without a check: defined only inside the vector. -/
def readAt {α : Type} (data : List α) (ix : Int) : Option α := if 0 ≤ ix then data[ix.toNat]? else none

/-- `hn::GatherIndex` on one block: every lane reads without a check. -/
def gatherBlock {α : Type} (data : List α) : List Int → Option (List α)
  | [] => some []
  | ix :: r =>
    match readAt data ix, gatherBlock data r with
    | some x, some xs => some (x :: xs)
    | _, _ => none

/-- The checked read of the scalar loops (258–265, 556–563). -/
def checkedAt {α : Type} (zero : α) (data : List α) (ix : Int) : Option α :=
  if ix ≥ 0 ∧ ix.toNat < data.length then readAt data ix else some zero

/-- `dst[i] = v`. -/
def setAt {α : Type} (mem : List α) (i : Nat) (v : α) : Option (List α) := if i < mem.length then some (mem.set i v) else none

/-- The scalar loop. -/
def scalarGatherBody {α : Type} (zero : α) (data : List α) (indices : List Int) (i : Nat) (o : List α) : Option (List α) := do
  let ix ← indices[i]?
  let v ← checkedAt zero data ix
  setAt o i v

/-- The block of one iteration of the vector loop (241–252). -/
def gatherBlk {α : Type} (data : List α) (indices : List Int) (N i : Nat) : Option (List α) := do
  let ix ← loadU indices i N
  gatherBlock data ix

/-- `simd_vector_gather_impl` (224–269), used for 32-bit, 64-bit and pointer elements. `out` is the freshly allocated result. -/
def gatherSimd {α : Type} (zero : α) (N : Nat) (data : List α) (indices : List Int) (out : List α) : Option (List α) :=
  match forLoop (fullBlock N indices.length) N (fun i o => do
      let v ← gatherBlk data indices N i
      storeU o i v) (indices.length + 1) 0 out with
  | none => none
  | some (i, o) =>
    if i = indices.length then some o
    else
      match forLoop (fun i => decide (i < indices.length)) 1 (scalarGatherBody zero data indices) (indices.length + 1) i o with
      | none => none
      | some (_, o) => some o

/-- The scalar branch of `simd_vector_gather` (551–566), used for strings and for 8 and 16 bit integers. -/
def gatherScalar {α : Type} (zero : α) (data : List α) (indices : List Int) (out : List α) : Option (List α) :=
  match forLoop (fun i => decide (i < indices.length)) 1 (scalarGatherBody zero data indices) (indices.length + 1) 0 out with
  | none => none
  | some (_, o) => some o

/-- Specification: the element at the index, or the default value outside the vector. -/
def gatherSpec {α : Type} (zero : α) (data : List α) (indices : List Int) : List α :=
  indices.map (fun ix => if ix < 0 then zero else (data[ix.toNat]?).getD zero)

/-- An index inside the vector. -/
def InRange {α : Type} (data : List α) (ix : Int) : Prop := 0 ≤ ix ∧ ix < data.length

/-! ## Proofs -/

theorem checkedAt_eq {α : Type} (zero : α) (data : List α) (ix : Int) :
    checkedAt zero data ix = some (if ix < 0 then zero else (data[ix.toNat]?).getD zero) := by
  unfold checkedAt readAt
  by_cases h : ix ≥ 0
  · have h0 : ¬ ix < 0 := by omega
    by_cases h2 : ix.toNat < data.length
    · simp [h, h0, h2]
    · have : data[ix.toNat]? = none := List.getElem?_eq_none (by omega)
      simp [h0, h2, this]
  · have h0 : ix < 0 := by omega
    simp [h, h0]

theorem setAt_ok {α : Type} {mem : List α} {i : Nat} {v : α} {spec : List α} (hi : i < mem.length) (h : mem.take i = spec.take i)
    (hv : spec[i]? = some v) : ∃ m', setAt mem i v = some m' ∧ m'.length = mem.length ∧ m'.take (i + 1) = spec.take (i + 1) := by
  refine ⟨mem.set i v, by simp [setAt, hi], by simp, ?_⟩
  rw [List.take_add_one, List.take_add_one, hv, List.getElem?_set_self hi, List.take_set_of_le (Nat.le_refl i), h]

theorem scalarGather_ok {α : Type} (zero : α) (data : List α) (indices : List Int) (out : List α) (hout : out.length = indices.length) (i : Nat)
    (hi : i ≤ indices.length) (hpre : out.take i = (gatherSpec zero data indices).take i) :
    ∃ i', forLoop (fun i => decide (i < indices.length)) 1 (scalarGatherBody zero data indices) (indices.length + 1) i out =
      some (i', gatherSpec zero data indices) := by
  have hsl : (gatherSpec zero data indices).length = indices.length := by simp [gatherSpec]
  obtain ⟨i', o, he, ⟨h1, h2⟩, hc, _, hi'⟩ := forLoop_inv (cond := fun i => decide (i < indices.length)) (step := 1)
    (body := scalarGatherBody zero data indices)
    (fun i o => o.length = indices.length ∧ o.take i = (gatherSpec zero data indices).take i) indices.length (by omega)
    (fun i _ _ h => by simp at h; omega)
    (by
      rintro i o ⟨h1, h2⟩ hc
      have hc : i < indices.length := by simpa using hc
      obtain ⟨m', e1, e2, e3⟩ := setAt_ok (v := if indices[i] < 0 then zero else (data[indices[i].toNat]?).getD zero)
        (show i < o.length by omega) h2 (by simp [gatherSpec, List.getElem?_eq_getElem hc])
      refine ⟨m', ?_, by omega, e3⟩
      simp only [scalarGatherBody, List.getElem?_eq_getElem hc, checkedAt_eq]
      exact e1)
    (indices.length + 1) i out ⟨hout, hpre⟩ (by omega) hi
  have hge : indices.length ≤ i' := by simpa using hc
  rw [List.take_of_length_le (by omega), List.take_of_length_le (by omega)] at h2
  exact ⟨i', by rw [he, h2]⟩

/-- C48 for strings and 8/16 bit integers: every index yields its element or the default value, and nothing is read outside the vector,
whatever the indices. -/
theorem gather_scalar {α : Type} (zero : α) (data : List α) (indices : List Int) (out : List α) (hout : out.length = indices.length) :
    gatherScalar zero data indices out = some (gatherSpec zero data indices) := by
  unfold gatherScalar
  obtain ⟨i', he⟩ := scalarGather_ok zero data indices out hout 0 (by omega) (by simp)
  simp only [he]

theorem gatherBlock_ok {α : Type} (zero : α) (data : List α) (ixs : List Int) (h : ∀ ix ∈ ixs, InRange data ix) :
    gatherBlock data ixs = some (gatherSpec zero data ixs) := by
  induction ixs with
  | nil => rfl
  | cons ix r ih =>
    obtain ⟨h1, h2⟩ := h ix (by simp)
    have hlt : ix.toNat < data.length := by omega
    have h0 : ¬ ix < 0 := by omega
    simp only [gatherBlock, readAt, h1, if_true, List.getElem?_eq_getElem hlt]
    rw [ih (fun x hx => h x (by simp [hx]))]
    simp [gatherSpec, h0, List.getElem?_eq_getElem hlt]

theorem gatherBlock_some {α : Type} (data : List α) (ixs : List Int) (r : List α) (h : gatherBlock data ixs = some r) :
    ∀ ix ∈ ixs, InRange data ix := by
  induction ixs generalizing r with
  | nil => simp
  | cons ix ixs ih =>
    simp only [gatherBlock] at h
    cases h1 : readAt data ix with
    | none => simp [h1] at h
    | some x =>
      cases h2 : gatherBlock data ixs with
      | none => simp [h1, h2] at h
      | some xs =>
        intro j hj
        rcases List.mem_cons.mp hj with rfl | hj
        · unfold readAt at h1
          split at h1
          · rename_i h0
            have : j.toNat < data.length := by
              rcases Nat.lt_or_ge j.toNat data.length with h' | h'
              · exact h'
              · rw [List.getElem?_eq_none h'] at h1; cases h1
            exact ⟨h0, by omega⟩
          · cases h1
        · exact ih xs h2 j hj

/-- C48 for 32 and 64 bit elements: correct if the indices in the full blocks are inside the vector; the last, partial block may have any
indices. -/
theorem gather_simd_partial {α : Type} (zero : α) (N : Nat) (hN : 0 < N) (data : List α) (indices : List Int) (out : List α)
    (hout : out.length = indices.length) (hr : ∀ j ix, j < indices.length / N * N → indices[j]? = some ix → InRange data ix) :
    gatherSimd zero N data indices out = some (gatherSpec zero data indices) := by
  have hsl : (gatherSpec zero data indices).length = indices.length := by simp [gatherSpec]
  -- positions of full blocks are multiples of N, so a full block lies below (length / N) * N
  unfold gatherSimd
  obtain ⟨i, o, he, ⟨h1, h2, q, hq⟩, hc, _, hi⟩ := forLoop_inv (cond := fullBlock N indices.length) (step := N)
    (body := fun i o => do
      let v ← gatherBlk data indices N i
      storeU o i v)
    (fun i o => o.length = indices.length ∧ o.take i = (gatherSpec zero data indices).take i ∧ ∃ q, i = q * N) indices.length hN
    (fun i _ _ h => fullBlock_le h)
    (by
      rintro i o ⟨h1, h2, q, rfl⟩ hc
      have hle := fullBlock_le hc
      have hblk : q * N + N ≤ indices.length / N * N := by
        have : (q + 1) * N ≤ indices.length := by rw [Nat.succ_mul]; exact hle
        have : q + 1 ≤ indices.length / N := (Nat.le_div_iff_mul_le hN).mpr this
        have := Nat.mul_le_mul_right N this
        rw [Nat.succ_mul] at this
        exact this
      have hg : gatherBlk data indices N (q * N) = some (((gatherSpec zero data indices).drop (q * N)).take N) := by
        unfold gatherBlk
        rw [loadU_some hle]
        simp only [Option.bind_eq_bind, Option.bind_some]
        rw [gatherBlock_ok zero]
        · simp [gatherSpec]
        · intro ix hix
          obtain ⟨j, hj⟩ := List.mem_iff_getElem?.mp hix
          rw [List.getElem?_take] at hj
          split at hj
          · rename_i hjN
            rw [List.getElem?_drop] at hj
            exact hr (q * N + j) ix (by omega) hj
          · cases hj
      have hl : (((gatherSpec zero data indices).drop (q * N)).take N).length = N := by simp [hsl]; omega
      obtain ⟨m', e1, e2, e3⟩ := storeU_ok o (((gatherSpec zero data indices).drop (q * N)).take N) (q * N) (by rw [hl]; omega)
      rw [hl, h2, ← List.take_add] at e3
      exact ⟨m', by simp only [hg]; exact e1, by omega, e3, q + 1, by rw [Nat.succ_mul]⟩)
    (indices.length + 1) 0 out ⟨hout, by simp, 0, by simp⟩ (by omega) (by omega)
  simp only [he]
  by_cases h : i = indices.length
  · simp only [h, if_true]
    rw [h, List.take_of_length_le (by omega), List.take_of_length_le (by omega)] at h2
    rw [h2]
  · simp only [h, if_false]
    obtain ⟨i', he'⟩ := scalarGather_ok zero data indices o h1 i hi h2
    simp only [he']

/-- C48 is false for 32 and 64 bit elements: any index outside the vector in a full block is used to read memory outside the vector. -/
theorem gather_out_of_bounds_violated {α : Type} (zero : α) (N : Nat) (hN : 0 < N) (data : List α) (indices : List Int) (out : List α) (j : Nat)
    (ix : Int) (hj : j < indices.length / N * N) (hix : indices[j]? = some ix) (hbad : ¬ InRange data ix) :
    gatherSimd zero N data indices out = none := by
  unfold gatherSimd
  cases hl : forLoop (fullBlock N indices.length) N (fun i o => do
      let v ← gatherBlk data indices N i
      storeU o i v) (indices.length + 1) 0 out with
  | none => rfl
  | some p =>
    obtain ⟨i, o⟩ := p
    exfalso
    obtain ⟨⟨h1, q, hq⟩, hc⟩ := forLoop_partial (fun i (_ : List α) => (∀ j ix, j < i → indices[j]? = some ix → InRange data ix) ∧ ∃ q, i = q * N)
      (by
        rintro i o o' ⟨h1, q, rfl⟩ hc hb
        have hle := fullBlock_le hc
        refine ⟨?_, q + 1, by rw [Nat.succ_mul]⟩
        unfold gatherBlk at hb
        rw [loadU_some hle] at hb
        simp only [Option.bind_eq_bind, Option.bind_some] at hb
        cases hg : gatherBlock data ((indices.drop (q * N)).take N) with
        | none => rw [hg] at hb; cases hb
        | some v =>
          have hin := gatherBlock_some _ _ _ hg
          intro j ix hj hix
          by_cases hji : j < q * N
          · exact h1 j ix hji hix
          · apply hin
            rw [List.mem_iff_getElem?]
            refine ⟨j - q * N, ?_⟩
            rw [List.getElem?_take, if_pos (by omega), List.getElem?_drop, show q * N + (j - q * N) = j by omega]
            exact hix)
      _ _ _ _ _ ⟨by intro j ix h; omega, 0, by simp⟩ hl
    have hlt := fullBlock_false hc
    have hji : j < i := by
      have h5 := Nat.div_mul_le_self indices.length N
      subst hq
      have : indices.length < (q + 1) * N := by rw [Nat.succ_mul]; exact hlt
      have : indices.length / N < q + 1 := (Nat.div_lt_iff_lt_mul hN).mpr this
      have := Nat.mul_le_mul_right N (show indices.length / N ≤ q by omega)
      omega
    exact hbad (h1 j ix hji hix)

example : gatherSimd (0 : Nat) 2 [10, 20, 30] [2, 0, 99] [0, 0, 0] = some [30, 10, 0] := by decide
example : ¬ InRange [10, 20, 30] 99 := by unfold InRange; simp

/-! ## Bit vectors (567–584) -/

/-- `raw[i / 64] |= 1 << (i % 64)`. -/
def setBit64 (words : List (BitVec 64)) (i : Nat) : Option (List (BitVec 64)) :=
  match words[i / 64]? with
  | none => none
  | some w => some (words.set (i / 64) (w ||| (1#64 <<< (i % 64))))

/-- Element `i` of a bit vector stored in 64-bit words. -/
def wordBit (words : List (BitVec 64)) (i : Nat) : Bool :=
  match words[i / 64]? with
  | some w => w.getLsbD (i % 64)
  | none => false

/-- One iteration of the loop (573–583): `data` is the list of source elements. -/
def gatherBitsBody (data : List Bool) (indices : List Int) (i : Nat) (o : List (BitVec 64)) : Option (List (BitVec 64)) := do
  let ix ← indices[i]?
  if ix < 0 ∨ ix.toNat ≥ data.length then some o
  else
    let b ← readAt data ix
    if b then setBit64 o i else some o

/-- The `Bit` branch: the result words are zeroed first. -/
def gatherBits (data : List Bool) (indices : List Int) : Option (List (BitVec 64)) :=
  match forLoop (fun i => decide (i < indices.length)) 1 (gatherBitsBody data indices) (indices.length + 1) 0
      (List.replicate ((indices.length + 63) / 64) 0#64) with
  | none => none
  | some (_, o) => some o

theorem setBit64_ok (words : List (BitVec 64)) (i : Nat) (h : i / 64 < words.length) :
    ∃ o, setBit64 words i = some o ∧ o.length = words.length ∧ ∀ k, wordBit o k = (wordBit words k || decide (k = i)) := by
  refine ⟨words.set (i / 64) (words[i / 64] ||| (1#64 <<< (i % 64))), by simp [setBit64, List.getElem?_eq_getElem h], by simp, ?_⟩
  intro k
  unfold wordBit
  rw [List.getElem?_set]
  by_cases hk : i / 64 = k / 64
  · simp only [hk, if_true]
    have hlt : k / 64 < words.length := by omega
    simp only [hlt, if_true, List.getElem?_eq_getElem hlt]
    rw [BitVec.getLsbD_or]
    congr 1
    rw [BitVec.getLsbD_shiftLeft]
    have hone : ∀ n, (1#64).getLsbD n = decide (n = 0) := by
      intro n; rw [BitVec.getLsbD_one]; simp
    rw [hone]
    by_cases e : k = i
    · subst e
      simp; omega
    · have : k % 64 ≠ i % 64 := by omega
      by_cases hl : k % 64 < i % 64
      · simp [hl, e]
      · have : ¬ (k % 64 - i % 64 = 0) := by omega
        simp [hl, this, e]
  · have : k ≠ i := by intro e; subst e; exact hk rfl
    simp [hk, this]

/-- C48 for bit vectors: every index yields its element or false, for all indices, and the bits past the result size are clear. -/
theorem gather_bits (data : List Bool) (indices : List Int) :
    ∃ o, gatherBits data indices = some o ∧ (∀ i ix, indices[i]? = some ix → wordBit o i = (if ix < 0 then false else (data[ix.toNat]?).getD false)) ∧
      ∀ i, indices.length ≤ i → wordBit o i = false := by
  unfold gatherBits
  have hw0 : ∀ n k, wordBit (List.replicate n 0#64) k = false := by
    intro n k
    unfold wordBit
    rw [List.getElem?_replicate]
    by_cases h : k / 64 < n <;> simp [h]
  obtain ⟨i, o, he, ⟨h1, h2, h3⟩, hc, _, hi⟩ := forLoop_inv (cond := fun i => decide (i < indices.length)) (step := 1)
    (body := gatherBitsBody data indices)
    (fun i o => o.length = (indices.length + 63) / 64 ∧
      (∀ j ix, j < i → indices[j]? = some ix → wordBit o j = (if ix < 0 then false else (data[ix.toNat]?).getD false)) ∧
      ∀ j, i ≤ j → wordBit o j = false) indices.length (by omega) (fun i _ _ h => by simp at h; omega)
    (by
      rintro i o ⟨h1, h2, h3⟩ hc
      have hc : i < indices.length := by simpa using hc
      have keep : (if indices[i] < 0 then false else (data[indices[i].toNat]?).getD false) = false →
          (∀ j ix, j < i + 1 → indices[j]? = some ix → wordBit o j = (if ix < 0 then false else (data[ix.toNat]?).getD false)) ∧
          ∀ j, i + 1 ≤ j → wordBit o j = false := by
        intro hf
        refine ⟨fun j ix hj hix => ?_, fun j hj => h3 j (by omega)⟩
        by_cases e : j = i
        · subst e
          rw [List.getElem?_eq_getElem hc] at hix
          have : indices[j] = ix := by simpa using hix
          rw [← this, hf]
          exact h3 j (Nat.le_refl _)
        · exact h2 j ix (by omega) hix
      by_cases hr : indices[i] < 0 ∨ indices[i].toNat ≥ data.length
      · refine ⟨o, by simp only [gatherBitsBody, List.getElem?_eq_getElem hc, Option.bind_eq_bind, Option.bind_some, hr, if_true], h1, ?_⟩
        apply keep
        rcases hr with hr | hr
        · simp [hr]
        · simp [List.getElem?_eq_none hr]
      · have h0 : ¬ indices[i] < 0 := by omega
        have h0' : 0 ≤ indices[i] := by omega
        have hlt : indices[i].toNat < data.length := by omega
        have hread : readAt data indices[i] = some data[indices[i].toNat] := by simp [readAt, h0']
        cases hb : data[indices[i].toNat] with
        | false =>
          refine ⟨o, by simp [gatherBitsBody, List.getElem?_eq_getElem hc, h0, hr, hread, hb], h1, ?_⟩
          apply keep
          simp [h0, List.getElem?_eq_getElem hlt, hb]
        | true =>
          obtain ⟨o', e1, e2, e3⟩ := setBit64_ok o i (by omega)
          refine ⟨o', by simp [gatherBitsBody, List.getElem?_eq_getElem hc, h0, show ¬ data.length ≤ indices[i].toNat by omega, hread, hb, e1], by omega, ?_, ?_⟩
          · intro j ix hj hix
            rw [e3]
            by_cases e : j = i
            · subst e
              rw [List.getElem?_eq_getElem hc] at hix
              have : indices[j] = ix := by simpa using hix
              rw [← this]
              simp [h0, List.getElem?_eq_getElem hlt, hb]
            · rw [h2 j ix (by omega) hix]
              simp [e]
          · intro j hj
            rw [e3, h3 j (by omega)]
            simp; omega)
    (indices.length + 1) 0 (List.replicate ((indices.length + 63) / 64) 0#64) ⟨by simp, by intro j ix h; omega, fun j _ => hw0 _ _⟩ (by omega) (by omega)
  simp only [he]
  have hge : indices.length ≤ i := by simpa using hc
  refine ⟨o, rfl, fun j ix hix => ?_, fun j hj => h3 j (by omega)⟩
  have hjl : j < indices.length := by
    rcases Nat.lt_or_ge j indices.length with h | h
    · exact h
    · rw [List.getElem?_eq_none h] at hix; cases hix
  exact h2 j ix (by omega) hix

example : gatherBits [true, false, true] [2, 5, -1, 0] = some [0b1001#64] := by decide +kernel

end Verif.Simd
