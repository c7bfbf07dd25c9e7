import Verif.Simd.Gather
/-!
# filter (C49)

`/repo/rapidudf/functions/simd/vector_misc.cc` 323–332, 369–415 and 498–547. The mask is the byte buffer of a bit vector.
-/
namespace Verif.Simd

/-- `LoadMaskBits(d, get_mask_bits(bits, idx, byte_count, tmp))` (`get_mask_bits`, 323–332): two bytes are combined and shifted so that the
mask starts at bit 0. -/
def twoBytes (bits : List Byte) (idx byteCnt : Nat) (b0 : Byte) : Option (BitVec 16) :=
  if idx / 8 + 1 < byteCnt then (bits[idx / 8 + 1]?).map (fun b1 : Byte => BitVec.setWidth 16 b0 ||| (BitVec.setWidth 16 b1) <<< (8 : Nat))
  else some (BitVec.setWidth 16 b0)

@[inherit_doc twoBytes]
def maskWindow (bits : List Byte) (idx byteCnt N : Nat) : Option (List Bool) := do
  let b0 ← bits[idx / 8]?
  let two ← twoBytes bits idx byteCnt b0
  some ((List.range N).map (fun k => (two >>> (idx % 8)).getLsbD k))

/-- `LoadMaskBits(d, bits + off)` for at least 8 lanes reads `N / 8` bytes. -/
def maskBytes (bits : List Byte) (off N : Nat) : Option (List Bool) :=
  if off + N / 8 ≤ bits.length then some ((List.range N).map (fun k => bitAt bits (8 * off + k))) else none

/-- `FirstN(d, n)`. -/
def firstN (n N : Nat) : List Bool := List.replicate n true ++ List.replicate (N - n) false

/-- `CompressBlendedStore(v, mask, d, out + off)`: writes exactly the selected lanes. -/
def compressBlended {α : Type} (v : List α) (m : List Bool) (st : Nat × List α) : Option (Nat × List α) := do
  let o ← storeU st.2 st.1 (compress v m)
  some (st.1 + (compress v m).length, o)

/-- `CompressBitsStore(v, bits, d, out + off)`: writes `N` lanes of which those after the selected ones hold arbitrary values `junk`. -/
def compressBits {α : Type} (N : Nat) (junk : Nat → α) (v : List α) (m : List Bool) (st : Nat × List α) : Option (Nat × List α) := do
  let o ← storeU st.2 st.1 (compress v m ++ (List.range (N - (compress v m).length)).map junk)
  some (st.1 + (compress v m).length, o)

/-- One full block when the lane count is not a multiple of eight (378–383). -/
def filterBodyNarrow {α : Type} (N : Nat) (data : List α) (bits : List Byte) (i : Nat) (st : Nat × List α) : Option (Nat × List α) := do
  let v ← loadU data i N
  let m ← maskWindow bits i ((data.length + 7) / 8) N
  compressBlended v m st

/-- One full block when the lane count is a multiple of eight (399–403). -/
def filterBodyWide {α : Type} (N : Nat) (junk : Nat → Nat → α) (data : List α) (bits : List Byte) (i : Nat) (st : Nat × List α) :
    Option (Nat × List α) := do
  let v ← loadU data i N
  let m ← maskBytes bits (i / 8) N
  compressBits N (junk i) v m st

/-- `simd_vector_filter_impl` (369–415): the number of selected elements and the output buffer. -/
def filterKernel {α : Type} (zero : α) (junk : Nat → Nat → α) (N : Nat) (data : List α) (bits : List Byte) (out : List α) :
    Option (Nat × List α) :=
  if N % 8 > 0 then
    match forLoop (fullBlock N data.length) N (filterBodyNarrow N data bits) (data.length + 1) 0 (0, out) with
    | none => none
    | some (i, st) =>
      if i = data.length then some st
      else do
        let v ← loadN zero data i (data.length - i) N
        let m ← maskWindow bits i ((data.length + 7) / 8) N
        compressBlended v (List.zipWith (· && ·) (firstN (data.length - i) N) m) st
  else
    match forLoop (fullBlock N data.length) N (filterBodyWide N junk data bits) (data.length + 1) 0 (0, out) with
    | none => none
    | some (i, st) =>
      if i = data.length then some st
      else do
        let v ← loadN zero data i (data.length - i) N
        let m ← maskBytes bits (i / 8) N
        compressBlended v (List.zipWith (· && ·) (firstN (data.length - i) N) m) st

/-- `simd_vector_filter` (498–547) for numbers and pointers: the result is the first `n` elements of the buffer. -/
def vectorFilter {α : Type} (zero : α) (junk : Nat → Nat → α) (N : Nat) (data : List α) (bits : List Byte) (out : List α) : Option (List α) :=
  match filterKernel zero junk N data bits out with
  | none => none
  | some (n, o) => some (o.take n)

/-- The string branch (528–534). -/
def filterStringBody {α : Type} (data : List α) (bits : List Byte) (i : Nat) (st : Nat × List α) : Option (Nat × List α) := do
  let b ← bits[i / 8]?
  if b.getLsbD (i % 8) then
    let x ← data[i]?
    let o ← setAt st.2 st.1 x
    some (st.1 + 1, o)
  else some st

def filterString {α : Type} (data : List α) (bits : List Byte) (out : List α) : Option (List α) :=
  match forLoop (fun i => decide (i < data.length)) 1 (filterStringBody data bits) (data.length + 1) 0 (0, out) with
  | none => none
  | some (_, n, o) => some (o.take n)

/-- Specification: the elements whose mask element is set, in order. -/
def filterSpec {α : Type} (data : List α) (mask : Nat → Bool) : List α := (data.zipIdx.filter (fun p => mask p.2)).map (·.1)

/-! ## Helper lemmas -/

/-- The mask as a list. -/
def maskList (bits : List Byte) (n : Nat) : List Bool := (List.range n).map (bitAt bits)

theorem compress_eq_filter {α : Type} (data : List α) (f : Nat → Bool) (s : Nat) :
    compress data ((List.range data.length).map (fun k => f (s + k))) = ((data.zipIdx s).filter (fun p => f p.2)).map (·.1) := by
  induction data generalizing s with
  | nil => simp [compress]
  | cons x xs ih =>
    rw [List.length_cons, List.range_succ_eq_map, List.map_cons, List.map_map, List.zipIdx_cons]
    simp only [compress, Nat.add_zero]
    have : (List.range xs.length).map ((fun k => f (s + k)) ∘ Nat.succ) = (List.range xs.length).map (fun k => f (s + 1 + k)) := by
      apply List.map_congr_left
      intro k _
      simp only [Function.comp]
      congr 1; omega
    rw [this, ih (s + 1)]
    cases hf : f s <;> simp [hf]

theorem filterSpec_eq {α : Type} (data : List α) (bits : List Byte) : filterSpec data (bitAt bits) = compress data (maskList bits data.length) := by
  have := compress_eq_filter data (bitAt bits) 0
  simp only [Nat.zero_add] at this
  exact this.symm

theorem compress_false {α : Type} (a : List α) (m : List Bool) (h : ∀ b ∈ m, b = false) : compress a m = [] := by
  induction a generalizing m with
  | nil => cases m <;> rfl
  | cons x a ih => cases m with
    | nil => rfl
    | cons b m =>
      have hb := h b (by simp)
      subst hb
      simp only [compress]
      exact ih m (fun b hb => h b (by simp [hb]))

theorem maskList_length (bits : List Byte) (n : Nat) : (maskList bits n).length = n := by simp [maskList]

theorem maskList_window (bits : List Byte) (n i k : Nat) (h : i + k ≤ n) :
    ((maskList bits n).drop i).take k = (List.range k).map (fun j => bitAt bits (i + j)) := by
  apply List.ext_getElem?
  intro j
  rw [List.getElem?_take]
  by_cases hj : j < k
  · rw [if_pos hj, List.getElem?_drop]
    simp [maskList, List.getElem?_range, hj, show i + j < n by omega]
  · rw [if_neg hj, List.getElem?_eq_none (by simpa using hj)]

theorem compress_take_add {α : Type} (data : List α) (m : List Bool) (i k : Nat) (hd : i + k ≤ data.length) (hm : m.length = data.length) :
    compress (data.take i) (m.take i) ++ compress ((data.drop i).take k) ((m.drop i).take k) = compress (data.take (i + k)) (m.take (i + k)) := by
  rw [List.take_add, List.take_add, compress_append]
  simp; omega

/-- The bits of the two-byte window. -/
theorem maskWindow_ok (bits : List Byte) (idx n N : Nat) (hb : (n + 7) / 8 ≤ bits.length) (hidx : idx < n) (hN : N ≤ 8) :
    ∃ m, maskWindow bits idx ((n + 7) / 8) N = some m ∧ m.length = N ∧ ∀ k, k < N → idx + k < n → m[k]? = some (bitAt bits (idx + k)) := by
  have h0 : idx / 8 < bits.length := by omega
  unfold maskWindow twoBytes
  rw [List.getElem?_eq_getElem h0]
  simp only [Option.bind_eq_bind, Option.bind_some]
  by_cases h1 : idx / 8 + 1 < (n + 7) / 8
  · have h1' : idx / 8 + 1 < bits.length := by omega
    simp only [h1, if_true, List.getElem?_eq_getElem h1', Option.map_some, Option.bind_some]
    refine ⟨_, rfl, by simp, fun k hk hkn => ?_⟩
    simp only [List.getElem?_map, List.getElem?_range hk, Option.map_some]
    congr 1
    rw [BitVec.getLsbD_ushiftRight, BitVec.getLsbD_or, BitVec.getLsbD_shiftLeft, BitVec.getLsbD_setWidth, BitVec.getLsbD_setWidth]
    by_cases hlt : idx % 8 + k < 8
    · have e1 : (idx + k) / 8 = idx / 8 := by omega
      have e2 : (idx + k) % 8 = idx % 8 + k := by omega
      rw [bitAt_eq (by omega)]
      simp only [e1, e2]
      simp [show idx % 8 + k < 16 by omega, hlt]
    · have e1 : (idx + k) / 8 = idx / 8 + 1 := by omega
      have e2 : (idx + k) % 8 = idx % 8 + k - 8 := by omega
      rw [bitAt_eq (by omega)]
      simp only [e1, e2]
      have : bits[idx / 8].getLsbD (idx % 8 + k) = false := BitVec.getLsbD_of_ge _ _ (by omega)
      simp only [this, hlt, decide_false, Bool.and_false, Bool.false_or, show idx % 8 + k < 16 by omega, show idx % 8 + k - 8 < 16 by omega,
        decide_true, Bool.true_and, Bool.not_false, Bool.and_true]
  · simp only [h1, if_false, Option.bind_some]
    refine ⟨_, rfl, by simp, fun k hk hkn => ?_⟩
    simp only [List.getElem?_map, List.getElem?_range hk, Option.map_some]
    congr 1
    rw [BitVec.getLsbD_ushiftRight, BitVec.getLsbD_setWidth]
    have e1 : (idx + k) / 8 = idx / 8 := by omega
    have e2 : (idx + k) % 8 = idx % 8 + k := by omega
    rw [bitAt_eq (by omega)]
    simp only [e1, e2]
    simp; omega

theorem zipWith_firstN (n N : Nat) (m : List Bool) (hm : m.length = N) (hn : n ≤ N) :
    List.zipWith (· && ·) (firstN n N) m = m.take n ++ List.replicate (N - n) false := by
  apply List.ext_getElem?
  intro k
  rw [List.getElem?_zipWith]
  unfold firstN
  by_cases hk : k < n
  · rw [List.getElem?_append_left (by simpa using hk), List.getElem?_append_left (by simp; omega), List.getElem?_replicate, if_pos hk,
      List.getElem?_take, if_pos hk, List.getElem?_eq_getElem (by omega)]
    simp
  · rw [List.getElem?_append_right (by simp; omega), List.getElem?_append_right (by simp; omega)]
    by_cases hkN : k < N
    · have hl : (m.take n).length = n := by simp; omega
      rw [List.length_replicate, hl, List.getElem?_replicate, if_pos (by omega), List.getElem?_eq_getElem (by omega)]
      simp
    · have hl : (m.take n).length = n := by simp; omega
      rw [List.length_replicate, hl, List.getElem?_replicate, if_neg (by omega)]

/-- The invariant of the filter loops. -/
def FInv {α : Type} (data : List α) (bits : List Byte) (outLen i : Nat) (st : Nat × List α) : Prop :=
  st.2.length = outLen ∧ st.1 = (compress (data.take i) ((maskList bits data.length).take i)).length ∧
    st.2.take st.1 = compress (data.take i) ((maskList bits data.length).take i)

theorem FInv_le {α : Type} {data : List α} {bits : List Byte} {outLen i : Nat} {st : Nat × List α} (h : FInv data bits outLen i st)
    (hi : i ≤ data.length) : st.1 ≤ i := by
  have := length_compress_le (data.take i) ((maskList bits data.length).take i)
  rw [← h.2.1] at this
  simp at this; omega

theorem blended_step {α : Type} {data : List α} {bits : List Byte} {outLen i k : Nat} {st : Nat × List α} (h : FInv data bits outLen i st)
    (hk : i + k ≤ data.length) (hout : data.length ≤ outLen) (v : List α) (m : List Bool)
    (hc : compress v m = compress ((data.drop i).take k) (((maskList bits data.length).drop i).take k)) :
    ∃ st', compressBlended v m st = some st' ∧ FInv data bits outLen (i + k) st' := by
  have hle := FInv_le h (by omega)
  obtain ⟨h1, h2, h3⟩ := h
  have hcl : (compress v m).length ≤ k := by
    rw [hc]
    have := length_compress_le ((data.drop i).take k) (((maskList bits data.length).drop i).take k)
    simp at this; omega
  obtain ⟨o, e1, e2, e3⟩ := storeU_ok st.2 (compress v m) st.1 (by omega)
  have happ := compress_take_add data (maskList bits data.length) i k hk (maskList_length _ _)
  refine ⟨(st.1 + (compress v m).length, o), by simp only [compressBlended, e1, Option.bind_eq_bind, Option.bind_some], by simp only; omega, ?_, ?_⟩
  · simp only
    rw [← happ, List.length_append, ← h2, hc]
  · simp only
    rw [e3, h3, hc, happ]

theorem bits_step {α : Type} {data : List α} {bits : List Byte} {outLen i N : Nat} {st : Nat × List α} (h : FInv data bits outLen i st)
    (hk : i + N ≤ data.length) (hout : data.length ≤ outLen) (junk : Nat → α) (v : List α) (m : List Bool)
    (hc : compress v m = compress ((data.drop i).take N) (((maskList bits data.length).drop i).take N)) :
    ∃ st', compressBits N junk v m st = some st' ∧ FInv data bits outLen (i + N) st' := by
  have hle := FInv_le h (by omega)
  obtain ⟨h1, h2, h3⟩ := h
  have hcl : (compress v m).length ≤ N := by
    rw [hc]
    have := length_compress_le ((data.drop i).take N) (((maskList bits data.length).drop i).take N)
    simp at this; omega
  have hstl : (compress v m ++ (List.range (N - (compress v m).length)).map junk).length = N := by simp; omega
  obtain ⟨o, e1, e2, e3⟩ := storeU_ok st.2 (compress v m ++ (List.range (N - (compress v m).length)).map junk) st.1 (by omega)
  have happ := compress_take_add data (maskList bits data.length) i N hk (maskList_length _ _)
  refine ⟨(st.1 + (compress v m).length, o), by simp only [compressBits, e1, Option.bind_eq_bind, Option.bind_some], by simp only; omega, ?_, ?_⟩
  · simp only
    rw [← happ, List.length_append, ← h2, hc]
  · simp only
    rw [hstl] at e3
    have : o.take (st.1 + (compress v m).length) = (o.take (st.1 + N)).take (st.1 + (compress v m).length) := by
      rw [List.take_take, Nat.min_eq_left (by omega)]
    rw [this, e3, ← List.append_assoc]
    have hl : (st.2.take st.1 ++ compress v m).length = st.1 + (compress v m).length := by simp; omega
    rw [← hl, List.take_left' rfl, h3, hc, happ]

/-- The compressed last block. -/
theorem tail_compress {α : Type} (zero : α) (data : List α) (bits : List Byte) (i N : Nat) (hi : i ≤ data.length) (hN : data.length < i + N)
    (m : List Bool) (hm : m.length = N) (hmk : ∀ k, k < data.length - i → m[k]? = some (bitAt bits (i + k))) :
    compress ((data.drop i).take (data.length - i) ++ List.replicate (N - (data.length - i)) zero)
      (List.zipWith (· && ·) (firstN (data.length - i) N) m) =
      compress ((data.drop i).take (data.length - i)) (((maskList bits data.length).drop i).take (data.length - i)) := by
  rw [zipWith_firstN _ _ _ hm (by omega), compress_append _ _ _ _ (by simp; omega), compress_false _ (List.replicate _ _) (by simp), List.append_nil,
    maskList_window _ _ _ _ (by omega)]
  congr 1
  apply List.ext_getElem?
  intro k
  rw [List.getElem?_take]
  by_cases hk : k < data.length - i
  · rw [if_pos hk, hmk k hk]
    simp [hk]
  · rw [if_neg hk, List.getElem?_eq_none (by simpa using hk)]

/-! ## C49 -/

/-- C49: `filter` returns exactly the selected elements in order, for every lane count. The lane count is a power of two, so it is a
multiple of eight or below eight; the mask has at least as many elements as the vector; and with eight or more lanes the mask buffer is
padded to whole blocks, as buffers from the arena are. -/
theorem filter_selected_partial {α : Type} (zero : α) (junk : Nat → Nat → α) (N : Nat) (hN : 0 < N) (hpow : N % 8 = 0 ∨ N ≤ 8) (data : List α)
    (bits : List Byte) (out : List α) (hout : data.length ≤ out.length) (hmask : (data.length + 7) / 8 ≤ bits.length)
    (hpad : N % 8 = 0 → (data.length + N - 1) / N * (N / 8) ≤ bits.length) :
    vectorFilter zero junk N data bits out = some (filterSpec data (bitAt bits)) := by
  rw [filterSpec_eq]
  have hfin : ∀ st, FInv data bits out.length data.length st → st.2.take st.1 = compress data (maskList bits data.length) := by
    rintro st ⟨_, _, h⟩
    rw [h, List.take_of_length_le (Nat.le_refl _), List.take_of_length_le (by rw [maskList_length]; exact Nat.le_refl _)]
  have hinit : FInv data bits out.length 0 (0, out) := ⟨rfl, by simp [compress], by simp [compress]⟩
  unfold vectorFilter filterKernel
  by_cases h8 : N % 8 > 0
  · have hN8 : N ≤ 8 := by omega
    simp only [h8, if_true]
    obtain ⟨i, st, he, hinv, hc, _, hi⟩ := forLoop_inv (cond := fullBlock N data.length) (step := N) (body := filterBodyNarrow N data bits)
      (fun i st => FInv data bits out.length i st) data.length hN (fun i _ _ h => fullBlock_le h)
      (by
        intro i st h hc
        have hle := fullBlock_le hc
        obtain ⟨m, hm, hml, hmk⟩ := maskWindow_ok bits i data.length N hmask (by omega) hN8
        have hm' : m = ((maskList bits data.length).drop i).take N := by
          rw [maskList_window _ _ _ _ hle]
          apply List.ext_getElem?
          intro k
          by_cases hk : k < N
          · rw [hmk k hk (by omega)]; simp [hk]
          · rw [List.getElem?_eq_none (by omega), List.getElem?_eq_none (by simpa using hk)]
        obtain ⟨st', e1, e2⟩ := blended_step h hle hout ((data.drop i).take N) m (by rw [hm'])
        refine ⟨st', ?_, e2⟩
        simp only [filterBodyNarrow, loadU_some hle, hm, Option.bind_eq_bind, Option.bind_some]
        exact e1)
      (data.length + 1) 0 (0, out) hinit (by omega) (by omega)
    have hlt := fullBlock_false hc
    simp only [he]
    by_cases h : i = data.length
    · subst h
      simp only [if_true, hfin st hinv]
    · simp only [h, if_false]
      obtain ⟨m, hm, hml, hmk⟩ := maskWindow_ok bits i data.length N hmask (by omega) hN8
      have hc' := tail_compress zero data bits i N hi hlt m hml (fun k hk => hmk k (by omega) (by omega))
      obtain ⟨st', e1, e2⟩ := blended_step hinv (show i + (data.length - i) ≤ data.length by omega) hout _ _ hc'
      have hload : loadN zero data i (data.length - i) N = some ((data.drop i).take (data.length - i) ++ List.replicate (N - (data.length - i)) zero) := by
        simp only [loadN]; rw [if_pos]; omega
      simp only [hload, hm, Option.bind_eq_bind, Option.bind_some, e1]
      rw [show i + (data.length - i) = data.length by omega] at e2
      rw [hfin st' e2]
  · have h80 : N % 8 = 0 := by omega
    simp only [h8, if_false]
    have hpad := hpad h80
    -- bytes of the mask below a block boundary
    have hbytes : ∀ q, q * N < data.length → q * N / 8 + N / 8 ≤ bits.length ∧ 8 * (q * N / 8) = q * N := by
      intro q hq
      obtain ⟨c, hc⟩ : ∃ c, N = 8 * c := ⟨N / 8, by omega⟩
      have hc0 : 0 < c := by omega
      have e : q * N / 8 = q * c := by
        rw [hc, show q * (8 * c) = 8 * (q * c) by rw [Nat.mul_left_comm], Nat.mul_div_cancel_left _ (by omega)]
      have e2 : N / 8 = c := by omega
      rw [e, e2]
      rw [e2] at hpad
      refine ⟨?_, by rw [hc, Nat.mul_left_comm]⟩
      have hq1 : q + 1 ≤ (data.length + N - 1) / N := by
        rw [Nat.le_div_iff_mul_le hN, Nat.succ_mul]; omega
      have := Nat.mul_le_mul_right c hq1
      rw [Nat.succ_mul] at this
      omega
    obtain ⟨i, st, he, ⟨hinv, q, hq⟩, hc, _, hi⟩ := forLoop_inv (cond := fullBlock N data.length) (step := N) (body := filterBodyWide N junk data bits)
      (fun i st => FInv data bits out.length i st ∧ ∃ q, i = q * N) data.length hN (fun i _ _ h => fullBlock_le h)
      (by
        rintro i st ⟨h, q, rfl⟩ hc
        have hle := fullBlock_le hc
        obtain ⟨b1, b2⟩ := hbytes q (by omega)
        have hm : maskBytes bits (q * N / 8) N = some (((maskList bits data.length).drop (q * N)).take N) := by
          unfold maskBytes
          rw [if_pos b1, maskList_window _ _ _ _ hle, b2]
        obtain ⟨st', e1, e2⟩ := bits_step h hle hout (junk (q * N)) ((data.drop (q * N)).take N) (((maskList bits data.length).drop (q * N)).take N) rfl
        refine ⟨st', ?_, e2, q + 1, by rw [Nat.succ_mul]⟩
        simp only [filterBodyWide, loadU_some hle, hm, Option.bind_eq_bind, Option.bind_some]
        exact e1)
      (data.length + 1) 0 (0, out) ⟨hinit, 0, by simp⟩ (by omega) (by omega)
    have hlt := fullBlock_false hc
    simp only [he]
    by_cases h : i = data.length
    · simp only [h, if_true]
      rw [h] at hinv
      simp only [hfin st hinv]
    · simp only [h, if_false]
      subst hq
      obtain ⟨b1, b2⟩ := hbytes q (by omega)
      have hm : maskBytes bits (q * N / 8) N = some ((List.range N).map (fun k => bitAt bits (q * N + k))) := by
        unfold maskBytes
        rw [if_pos b1, b2]
      have hc' := tail_compress zero data bits (q * N) N hi hlt ((List.range N).map (fun k => bitAt bits (q * N + k))) (by simp)
        (fun k hk => by simp [show k < N by omega])
      obtain ⟨st', e1, e2⟩ := blended_step hinv (show q * N + (data.length - q * N) ≤ data.length by omega) hout _ _ hc'
      have hload : loadN zero data (q * N) (data.length - q * N) N
          = some ((data.drop (q * N)).take (data.length - q * N) ++ List.replicate (N - (data.length - q * N)) zero) := by
        simp only [loadN]; rw [if_pos]; omega
      simp only [hload, hm, Option.bind_eq_bind, Option.bind_some, e1]
      rw [show q * N + (data.length - q * N) = data.length by omega] at e2
      rw [hfin st' e2]

/-- C49 for strings. -/
theorem filter_string_selected {α : Type} (data : List α) (bits : List Byte) (out : List α) (hout : data.length ≤ out.length)
    (hmask : (data.length + 7) / 8 ≤ bits.length) : filterString data bits out = some (filterSpec data (bitAt bits)) := by
  rw [filterSpec_eq]
  unfold filterString
  obtain ⟨i, st, he, hinv, hc, _, hi⟩ := forLoop_inv (cond := fun i => decide (i < data.length)) (step := 1) (body := filterStringBody data bits)
    (fun i st => FInv data bits out.length i st) data.length (by omega) (fun i _ _ h => by simp at h; omega)
    (by
      intro i st h hc
      have hc : i < data.length := by simpa using hc
      have hb : i / 8 < bits.length := by omega
      have hle := FInv_le h (by omega)
      have happ := compress_take_add data (maskList bits data.length) i 1 (by omega) (maskList_length _ _)
      have hone : compress ((data.drop i).take 1) (((maskList bits data.length).drop i).take 1) = if bitAt bits i then [data[i]] else [] := by
        rw [maskList_window _ _ _ _ (by omega), List.drop_eq_getElem_cons hc]
        simp only [List.take_succ_cons, List.take_zero, List.range_one, List.map_cons, List.map_nil, Nat.add_zero, compress]
      rw [hone] at happ
      obtain ⟨h1, h2, h3⟩ := h
      have hbit : bits[i / 8].getLsbD (i % 8) = bitAt bits i := (bitAt_eq hb).symm
      cases hbb : bitAt bits i with
      | true =>
        rw [hbb] at happ hbit
        have hlt : st.1 < st.2.length := by omega
        refine ⟨(st.1 + 1, st.2.set st.1 data[i]), ?_, by simp only [List.length_set]; exact h1, ?_, ?_⟩
        · simp [filterStringBody, List.getElem?_eq_getElem hb, hbit, List.getElem?_eq_getElem hc, setAt, hlt]
        · rw [← happ, h2]; simp
        · rw [← happ, ← h3]
          simp only [if_true]
          rw [List.take_add_one, List.take_set_of_le (Nat.le_refl _), List.getElem?_set_self hlt]
          rfl
      | false =>
        rw [hbb] at happ hbit
        refine ⟨st, ?_, h1, ?_, ?_⟩
        · simp [filterStringBody, List.getElem?_eq_getElem hb, hbit]
        · rw [← happ, h2]; simp
        · rw [← happ, h3]; simp)
    (data.length + 1) 0 (0, out) ⟨rfl, by simp [compress], by simp [compress]⟩ (by omega) (by omega)
  simp only [he]
  have hge : data.length ≤ i := by simpa using hc
  obtain ⟨_, _, h3⟩ := hinv
  rw [h3, List.take_of_length_le hge, List.take_of_length_le (by rw [maskList_length]; exact hge)]

/-- `raw[i/64] = bits64_clear(raw[i/64], i%64)` (`types/bit.h` 55). -/
def clearBit64 (words : List (BitVec 64)) (i : Nat) : Option (List (BitVec 64)) :=
  match words[i / 64]? with
  | none => none
  | some w => some (words.set (i / 64) (w &&& ~~~(1#64 <<< (i % 64))))

/-- One iteration of the `Bit` branch (508–520): `data` lists the source elements. -/
def filterBitsBody (data : List Bool) (bits : List Byte) (i : Nat) (st : Nat × List (BitVec 64)) : Option (Nat × List (BitVec 64)) := do
  let b ← bits[i / 8]?
  if b.getLsbD (i % 8) then
    let x ← data[i]?
    let o ← if x then setBit64 st.2 st.1 else clearBit64 st.2 st.1
    some (st.1 + 1, o)
  else some st

/-- The `Bit` branch (504–526): the result words are zeroed first. -/
def filterBits (data : List Bool) (bits : List Byte) : Option (Nat × List (BitVec 64)) :=
  match forLoop (fun i => decide (i < data.length)) 1 (filterBitsBody data bits) (data.length + 1) 0
      (0, List.replicate ((data.length + 63) / 64) 0#64) with
  | none => none
  | some (_, st) => some st

theorem clearBit64_ok (words : List (BitVec 64)) (i : Nat) (h : i / 64 < words.length) :
    ∃ o, clearBit64 words i = some o ∧ o.length = words.length ∧ ∀ k, wordBit o k = (wordBit words k && !decide (k = i)) := by
  refine ⟨words.set (i / 64) (words[i / 64] &&& ~~~(1#64 <<< (i % 64))), by simp [clearBit64, List.getElem?_eq_getElem h], by simp, ?_⟩
  intro k
  unfold wordBit
  rw [List.getElem?_set]
  by_cases hk : i / 64 = k / 64
  · simp only [hk, if_true]
    have hlt : k / 64 < words.length := by omega
    simp only [hlt, if_true, List.getElem?_eq_getElem hlt]
    rw [BitVec.getLsbD_and]
    congr 1
    rw [BitVec.getLsbD_not, BitVec.getLsbD_shiftLeft, BitVec.getLsbD_one]
    by_cases e : k = i
    · subst e; simp
    · have : ¬ (k % 64 = i % 64) := by omega
      have h64 : k % 64 < 64 := by omega
      simp only [e, decide_false, h64, decide_true]
      by_cases hl : k % 64 < i % 64
      · simp [hl]
      · have : k % 64 - i % 64 ≠ 0 := by omega
        simp [this]
  · have e : k ≠ i := by rintro rfl; exact hk rfl
    simp [hk, e]

theorem wordBit_zero (n k : Nat) : wordBit (List.replicate n 0#64) k = false := by
  unfold wordBit
  rw [List.getElem?_replicate]
  by_cases h : k / 64 < n <;> simp [h]

/-- C49 for bit vectors: the result holds the selected elements in order, and every bit after them is clear. -/
theorem filter_bits_selected (data : List Bool) (bits : List Byte) (hmask : (data.length + 7) / 8 ≤ bits.length) :
    ∃ words, filterBits data bits = some ((filterSpec data (bitAt bits)).length, words) ∧
      (∀ k x, (filterSpec data (bitAt bits))[k]? = some x → wordBit words k = x) ∧
      ∀ k, (filterSpec data (bitAt bits)).length ≤ k → wordBit words k = false := by
  rw [filterSpec_eq]
  unfold filterBits
  obtain ⟨i, st, he, ⟨h0, h1, h2⟩, hc, _, hi⟩ := forLoop_inv (cond := fun i => decide (i < data.length)) (step := 1) (body := filterBitsBody data bits)
    (fun i st => st.2.length = (data.length + 63) / 64 ∧ st.1 = (compress (data.take i) ((maskList bits data.length).take i)).length ∧
      ∀ k, wordBit st.2 k = ((compress (data.take i) ((maskList bits data.length).take i))[k]?).getD false)
    data.length (by omega) (fun i _ _ h => by simp at h; omega)
    (by
      rintro i st ⟨h0, h1, h2⟩ hc
      have hc : i < data.length := by simpa using hc
      have hb : i / 8 < bits.length := by omega
      have hle := length_compress_le (data.take i) ((maskList bits data.length).take i)
      rw [← h1] at hle
      have hle : st.1 ≤ i := by simp at hle; omega
      have happ := compress_take_add data (maskList bits data.length) i 1 (by omega) (maskList_length _ _)
      have hone : compress ((data.drop i).take 1) (((maskList bits data.length).drop i).take 1) = if bitAt bits i then [data[i]] else [] := by
        rw [maskList_window _ _ _ _ (by omega), List.drop_eq_getElem_cons hc]
        simp only [List.take_succ_cons, List.take_zero, List.range_one, List.map_cons, List.map_nil, Nat.add_zero, compress]
      rw [hone] at happ
      have hbit : bits[i / 8].getLsbD (i % 8) = bitAt bits i := (bitAt_eq hb).symm
      cases hbb : bitAt bits i with
      | false =>
        rw [hbb] at happ hbit
        simp only [Bool.false_eq_true, if_false, List.append_nil] at happ
        refine ⟨st, by simp [filterBitsBody, List.getElem?_eq_getElem hb, hbit], h0, ?_, ?_⟩
        · rw [← happ, h1]
        · rw [← happ]; exact h2
      | true =>
        rw [hbb] at happ hbit
        simp only [if_true] at happ
        have hw : st.1 / 64 < st.2.length := by omega
        have key : ∀ k, ((compress (data.take i) ((maskList bits data.length).take i) ++ [data[i]])[k]?).getD false =
            if k = st.1 then data[i] else wordBit st.2 k := by
          intro k
          rw [h2, List.getElem?_append, h1]
          by_cases e : k = (compress (data.take i) ((maskList bits data.length).take i)).length
          · simp [e]
          · simp only [e, if_false]
            by_cases hl : k < (compress (data.take i) ((maskList bits data.length).take i)).length
            · simp only [hl, if_true]
            · simp only [hl, if_false]
              rw [List.getElem?_eq_none (by simp; omega), List.getElem?_eq_none (by omega)]
        cases hd : data[i] with
        | true =>
          obtain ⟨o, e1, e2, e3⟩ := setBit64_ok st.2 st.1 hw
          refine ⟨(st.1 + 1, o), by simp [filterBitsBody, List.getElem?_eq_getElem hb, hbit, List.getElem?_eq_getElem hc, hd, e1], by simp only; omega, ?_, ?_⟩
          · rw [← happ]; simp [h1]
          · intro k
            rw [← happ, key k, e3, hd]
            by_cases e : k = st.1 <;> simp [e]
        | false =>
          obtain ⟨o, e1, e2, e3⟩ := clearBit64_ok st.2 st.1 hw
          refine ⟨(st.1 + 1, o), by simp [filterBitsBody, List.getElem?_eq_getElem hb, hbit, List.getElem?_eq_getElem hc, hd, e1], by simp only; omega, ?_, ?_⟩
          · rw [← happ]; simp [h1]
          · intro k
            rw [← happ, key k, e3, hd]
            by_cases e : k = st.1 <;> simp [e])
    (data.length + 1) 0 (0, List.replicate ((data.length + 63) / 64) 0#64)
    ⟨by simp, by simp [compress], fun k => by simp [compress, wordBit_zero]⟩ (by omega) (by omega)
  have hge : data.length ≤ i := by simpa using hc
  rw [List.take_of_length_le hge, List.take_of_length_le (by rw [maskList_length]; exact hge)] at h1 h2
  simp only [he]
  refine ⟨st.2, by rw [← h1], fun k x hx => ?_, fun k hk => ?_⟩
  · rw [h2, hx]; rfl
  · rw [h2, List.getElem?_eq_none hk]; rfl

example : filterBits [true, false, true, false] [0b1101#8] = some (3, [0b011#64]) := by decide +kernel

/-- C49: the size of the mask is not checked. A mask that is too short makes the kernel read outside it. -/
theorem filter_short_mask_violated :
    vectorFilter (0 : Nat) (fun _ _ => 0) 4 (List.replicate 12 7) [0xff#8] (List.replicate 12 0) = none ∧
    filterString (List.replicate 12 7) [0xff#8] (List.replicate 12 0) = none := by
  decide +kernel

/-- C49: with 32 byte lanes, a mask of exactly the right number of bytes (20 elements, 3 bytes) is read past its end in the last block. -/
theorem filter_tail_overread_violated :
    vectorFilter (0 : Nat) (fun _ _ => 0) 32 (List.replicate 20 7) (List.replicate 3 0xff#8) (List.replicate 20 0) = none := by
  decide +kernel

example : vectorFilter (0 : Nat) (fun _ _ => 99) 4 [1, 2, 3, 4, 5, 6] [0b101010#8] (List.replicate 6 0) = some [2, 4, 6] := by decide +kernel
example : vectorFilter (0 : Nat) (fun _ _ => 99) 8 [1, 2, 3, 4, 5, 6, 7, 8, 9] [0b101010#8, 1#8] (List.replicate 9 0) = some [2, 4, 6, 9] := by
  decide +kernel

end Verif.Simd
