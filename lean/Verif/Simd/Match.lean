import Verif.Simd.Filter
/-!
# match (C50)

`/repo/rapidudf/functions/simd/vector_misc.cc` 334–366 and 417–449. The comparison with the target value is the predicate `p`.
-/
namespace Verif.Simd

/-- The byte whose bit `k` is element `k` of the list (as `StoreMaskBits` writes it; missing lanes are 0). -/
def byteOf (m : List Bool) : Byte := (BitVec.ofBoolListLE m).setWidth 8

/-- `store_mask_bits` (334–350). -/
def storeMaskBits (N : Nat) (m : List Bool) (bits : List Byte) (idx : Nat) : Option (List Byte) :=
  if N < 8 then do
    let b0 ← bits[idx / 8]?
    let b1 ← bits[idx / 8 + 1]?
    let val : BitVec 16 := BitVec.setWidth 16 b0 ||| (BitVec.setWidth 16 (byteOf m)) <<< (idx % 8)
    some ((bits.set (idx / 8) (BitVec.setWidth 8 val)).set (idx / 8 + 1) (b1 ||| BitVec.setWidth 8 (val >>> 8)))
  else storeU bits (idx / 8) ((List.range (N / 8)).map (fun q => byteOf ((m.drop (8 * q)).take 8)))

/-- The loop guard `len >= N`, `idx <= max_match_len - N` in 64-bit arithmetic (432–433). -/
def matchCond (N len idx : Nat) : Bool := decide (N ≤ len) && decide (idx ≤ (min len 64 + 2 ^ 64 - N) % 2 ^ 64)

/-- The loop body (434–436). -/
def matchBody {α : Type} (p : α → Bool) (N : Nat) (data : List α) (i : Nat) (bits : List Byte) : Option (List Byte) := do
  let v ← loadU data i N
  storeMaskBits N (v.map p) bits i

/-- `mask_bits = mask_bits_tmp[0]`: the first eight bytes, little endian. -/
def firstWord (bits : List Byte) : BitVec 64 := (BitVec.ofBoolListLE ((List.range 64).map (bitAt bits))).setWidth 64

/-- `simd_vector_match_impl` (417–449). -/
def matchKernel {α : Type} (zero : α) (p : α → Bool) (N : Nat) (data : List α) : Option (Nat × BitVec 64) :=
  match forLoop (matchCond N data.length) N (matchBody p N data) (data.length + 1) 0 (List.replicate 16 0#8) with
  | none => none
  | some (i, bits) =>
    if i = min data.length 64 then some (min data.length 64, firstWord bits)
    else do
      let v ← loadN zero data i (min data.length 64 - i) N
      let b ← storeMaskBits N (v.map p) bits i
      some (min data.length 64, firstWord b)

/-! ## Helper lemmas -/

theorem getLsbD_byteOf (m : List Bool) (k : Nat) : (byteOf m).getLsbD k = (decide (k < 8) && m.getD k false) := by
  unfold byteOf
  rw [BitVec.getLsbD_setWidth, BitVec.getLsbD_ofBoolListLE]

theorem getLsbD_firstWord (bits : List Byte) (k : Nat) (h : k < 64) : (firstWord bits).getLsbD k = bitAt bits k := by
  unfold firstWord
  rw [BitVec.getLsbD_setWidth, BitVec.getLsbD_ofBoolListLE]
  simp [h]

theorem storeMaskBits_ok (N : Nat) (m : List Bool) (bits : List Byte) (idx : Nat) (hl : bits.length = 16) (hi : idx < 64) (hN : N ≤ 64)
    (hm : m.length = N) (hpow : N < 8 ∨ N % 8 = 0 ∧ idx % 8 = 0) (hclear : ∀ j, idx ≤ j → bitAt bits j = false) :
    ∃ bits', storeMaskBits N m bits idx = some bits' ∧ bits'.length = 16 ∧
      ∀ j, bitAt bits' j = (bitAt bits j || (decide (idx ≤ j) && m.getD (j - idx) false)) := by
  unfold storeMaskBits
  by_cases h8 : N < 8
  · have h0 : idx / 8 < bits.length := by omega
    have h1 : idx / 8 + 1 < bits.length := by omega
    simp only [h8, if_true, List.getElem?_eq_getElem h0, List.getElem?_eq_getElem h1, Option.bind_eq_bind, Option.bind_some]
    refine ⟨_, rfl, by simp [hl], fun j => ?_⟩
    have hmN : ∀ k, N ≤ k → m.getD k false = false := fun k hk => by simp [List.getD, List.getElem?_eq_none (show m.length ≤ k by omega)]
    by_cases e1 : j / 8 = idx / 8
    · have hj8 : j % 8 < 8 := by omega
      simp only [bitAt, e1]
      rw [List.getElem?_set_ne (by omega), List.getElem?_set_self h0, List.getElem?_eq_getElem h0]
      simp only
      rw [BitVec.getLsbD_setWidth, BitVec.getLsbD_or, BitVec.getLsbD_shiftLeft, BitVec.getLsbD_setWidth, BitVec.getLsbD_setWidth, getLsbD_byteOf]
      by_cases hle : idx ≤ j
      · have e2 : j - idx = j % 8 - idx % 8 := by omega
        have e3 : ¬ (j % 8 < idx % 8) := by omega
        rw [e2]
        simp [hj8, hle, e3, show j % 8 < 16 by omega, show j % 8 - idx % 8 < 16 by omega, show j % 8 - idx % 8 < 8 by omega]
      · have e3 : j % 8 < idx % 8 := by omega
        simp [hj8, hle, e3, show j % 8 < 16 by omega]
    · by_cases e2 : j / 8 = idx / 8 + 1
      · have hj8 : j % 8 < 8 := by omega
        have hle : idx ≤ j := by omega
        simp only [bitAt, e2]
        rw [List.getElem?_set_self (by simpa using h1), List.getElem?_eq_getElem h1]
        simp only
        rw [BitVec.getLsbD_or, BitVec.getLsbD_setWidth, BitVec.getLsbD_ushiftRight, BitVec.getLsbD_or, BitVec.getLsbD_shiftLeft,
          BitVec.getLsbD_setWidth, BitVec.getLsbD_setWidth, getLsbD_byteOf, BitVec.getLsbD_of_ge bits[idx / 8] _ (by omega)]
        have e3 : j - idx = 8 + j % 8 - idx % 8 := by omega
        rw [e3]
        by_cases hk : 8 + j % 8 - idx % 8 < 8
        · simp [hj8, hle, show 8 + j % 8 < 16 by omega, show ¬ (8 + j % 8 < idx % 8) by omega, hk, show 8 + j % 8 - idx % 8 < 16 by omega]
        · rw [hmN (8 + j % 8 - idx % 8) (by omega)]
          simp
      · have : bitAt ((bits.set (idx / 8) (BitVec.setWidth 8 (BitVec.setWidth 16 bits[idx / 8] ||| (BitVec.setWidth 16 (byteOf m)) <<< (idx % 8)))).set
            (idx / 8 + 1) (bits[idx / 8 + 1] ||| BitVec.setWidth 8 ((BitVec.setWidth 16 bits[idx / 8] ||| (BitVec.setWidth 16 (byteOf m)) <<< (idx % 8)) >>> 8)))
            j = bitAt bits j := by
          simp only [bitAt]
          rw [List.getElem?_set_ne (by omega), List.getElem?_set_ne (by omega)]
        rw [this]
        by_cases hle : idx ≤ j
        · rw [hmN (j - idx) (by omega)]; simp
        · simp [hle]
  · have hpow : N % 8 = 0 ∧ idx % 8 = 0 := by omega
    simp only [h8, if_false]
    have hlen : ((List.range (N / 8)).map (fun q => byteOf ((m.drop (8 * q)).take 8))).length = N / 8 := by simp
    have hfit : idx / 8 + N / 8 ≤ bits.length := by omega
    refine ⟨bits.take (idx / 8) ++ ((List.range (N / 8)).map (fun q => byteOf ((m.drop (8 * q)).take 8))) ++ bits.drop (idx / 8 + N / 8), ?_, ?_, ?_⟩
    · unfold storeU
      rw [hlen, if_pos hfit]
    · simp; omega
    · intro j
      have hmN : ∀ k, N ≤ k → m.getD k false = false := fun k hk => by simp [List.getD, List.getElem?_eq_none (show m.length ≤ k by omega)]
      have ht : (bits.take (idx / 8)).length = idx / 8 := by simp; omega
      by_cases c1 : j / 8 < idx / 8
      · simp only [bitAt]
        rw [List.append_assoc, List.getElem?_append_left (by omega), List.getElem?_take, if_pos c1]
        simp [show ¬ idx ≤ j by omega]
      · rw [hclear j (by omega)]
        by_cases c2 : j / 8 < idx / 8 + N / 8
        · simp only [bitAt]
          rw [List.append_assoc, List.getElem?_append_right (by omega), List.getElem?_append_left (by omega), ht, List.getElem?_map,
            List.getElem?_range (by omega)]
          simp only [Option.map_some]
          rw [getLsbD_byteOf]
          have e : j - idx = 8 * (j / 8 - idx / 8) + j % 8 := by omega
          rw [e]
          simp [List.getD, List.getElem?_take, List.getElem?_drop, show j % 8 < 8 by omega, show idx ≤ j by omega]
        · have : bitAt (bits.take (idx / 8) ++ ((List.range (N / 8)).map (fun q => byteOf ((m.drop (8 * q)).take 8))) ++ bits.drop (idx / 8 + N / 8)) j =
              bitAt bits j := by
            simp only [bitAt]
            rw [List.append_assoc, List.getElem?_append_right (by omega), List.getElem?_append_right (by omega), ht, hlen, List.getElem?_drop]
            rw [show idx / 8 + N / 8 + (j / 8 - idx / 8 - N / 8) = j / 8 by omega]
          rw [this, hclear j (by omega), hmN (j - idx) (by omega)]
          simp

theorem matchCond_eq (N len idx : Nat) (hN : N ≤ 64) : matchCond N len idx = fullBlock N (min len 64) idx := by
  unfold matchCond fullBlock
  by_cases h : N ≤ len
  · have : (min len 64 + 2 ^ 64 - N) % 2 ^ 64 = min len 64 - N := by omega
    rw [this]
    have h2 : N ≤ min len 64 := by omega
    simp [h, h2]
  · have h2 : ¬ N ≤ min len 64 := by omega
    simp [h, h2]

/-! ## C50 -/

/-- C50: bit `i` of the mask is set exactly when `i` is below the length (and below 64) and element `i` matches; the result is the number
of elements looked at. For every lane count up to 64 (a power of two), provided zero does not match or no partial block remains. -/
theorem match_mask_partial {α : Type} (zero : α) (p : α → Bool) (N : Nat) (hN : 0 < N) (hN64 : N ≤ 64) (hpow : N < 8 ∨ N % 8 = 0) (data : List α)
    (hz : p zero = false ∨ min data.length 64 % N = 0) :
    ∃ w, matchKernel zero p N data = some (min data.length 64, w) ∧
      ∀ i, i < 64 → (w.getLsbD i = true ↔ ∃ x, data[i]? = some x ∧ p x = true) := by
  have hb0 : ∀ j, bitAt (List.replicate 16 0#8) j = false := by
    intro j
    unfold bitAt
    rw [List.getElem?_replicate]
    by_cases h : j / 8 < 16 <;> simp [h]
  unfold matchKernel
  have hcond : matchCond N data.length = fullBlock N (min data.length 64) := by
    funext i; exact matchCond_eq N data.length i hN64
  rw [hcond]
  have hval : ∀ j, j < data.length → (data.map p).getD j false = true → ∃ x, data[j]? = some x ∧ p x = true := by
    intro j hj h
    refine ⟨data[j], List.getElem?_eq_getElem hj, ?_⟩
    simpa [List.getD, hj] using h
  have hmem : ∀ j x, data[j]? = some x → p x = true → (data.map p).getD j false = true := by
    intro j x h1 h2; simp [List.getD, h1, h2]
  obtain ⟨i, bits, he, ⟨hl, ⟨q, hq⟩, hinv⟩, hc, _, hi⟩ := forLoop_inv (cond := fullBlock N (min data.length 64)) (step := N) (body := matchBody p N data)
    (fun i bits => bits.length = 16 ∧ (∃ q, i = N * q) ∧ ∀ j, bitAt bits j = (decide (j < i) && (data.map p).getD j false))
    (min data.length 64) hN (fun i _ _ h => fullBlock_le h)
    (by
      rintro i bits ⟨hl, ⟨q, rfl⟩, hinv⟩ hc
      have hle := fullBlock_le hc
      have hal : N < 8 ∨ N % 8 = 0 ∧ (N * q) % 8 = 0 := by
        rcases hpow with h | h
        · exact Or.inl h
        · exact Or.inr ⟨h, by rw [Nat.mul_mod, h]; simp⟩
      obtain ⟨b', e1, e2, e3⟩ := storeMaskBits_ok N (((data.drop (N * q)).take N).map p) bits (N * q) hl (by omega) hN64 (by simp; omega) hal
        (fun j hj => by rw [hinv j]; simp; intro h; omega)
      refine ⟨b', ?_, e2, ⟨q + 1, by rw [Nat.mul_succ]⟩, fun j => ?_⟩
      · simp only [matchBody, loadU_some (show N * q + N ≤ data.length by omega), Option.bind_eq_bind, Option.bind_some]
        exact e1
      · rw [e3, hinv]
        by_cases h1 : j < N * q
        · simp [h1, show ¬ N * q ≤ j by omega, show j < N * q + N by omega]
        · simp only [h1, decide_false, Bool.false_and, Bool.false_or, show N * q ≤ j by omega, decide_true, Bool.true_and]
          by_cases h2 : j < N * q + N
          · simp [h2, List.getD, List.getElem?_take, List.getElem?_drop, show j - N * q < N by omega, show N * q + (j - N * q) = j by omega]
          · simp [h2, List.getD, List.getElem?_take, show ¬ j - N * q < N by omega])
    (data.length + 1) 0 (List.replicate 16 0#8) ⟨by simp, ⟨0, by simp⟩, fun j => by rw [hb0]; simp⟩ (by omega) (by omega)
  have hlt := fullBlock_false hc
  simp only [he]
  by_cases h : i = min data.length 64
  · simp only [h, if_true]
    refine ⟨_, rfl, fun j hj => ?_⟩
    rw [getLsbD_firstWord _ _ hj, hinv]
    constructor
    · intro hh
      simp only [Bool.and_eq_true, decide_eq_true_eq] at hh
      exact hval j (by omega) hh.2
    · rintro ⟨x, h1, h2⟩
      have : j < data.length := by
        rcases Nat.lt_or_ge j data.length with h' | h'
        · exact h'
        · rw [List.getElem?_eq_none h'] at h1; cases h1
      simp only [Bool.and_eq_true, decide_eq_true_eq]
      exact ⟨by omega, hmem j x h1 h2⟩
  · simp only [h, if_false]
    have hz' : p zero = false := by
      rcases hz with hz | hz
      · exact hz
      · exfalso
        have hq' : i = N * q := hq
        have h2 := Nat.div_add_mod (min data.length 64) N
        rw [hz, Nat.add_zero] at h2
        have h3 : min data.length 64 / N < q + 1 := by
          have : N * (min data.length 64 / N) < N * (q + 1) := by rw [h2, Nat.mul_succ]; omega
          exact Nat.lt_of_mul_lt_mul_left this
        have h4 : q < min data.length 64 / N ∨ q = min data.length 64 / N ∨ min data.length 64 / N < q := by omega
        rcases h4 with h4 | h4 | h4
        · omega
        · rw [← h4] at h2; omega
        · have h5 : N * (min data.length 64 / N + 1) ≤ N * q := Nat.mul_le_mul_left N h4
          rw [Nat.mul_succ] at h5; omega
    have hrem : i + (min data.length 64 - i) ≤ data.length ∧ min data.length 64 - i ≤ N := by omega
    have hload : loadN zero data i (min data.length 64 - i) N =
        some ((data.drop i).take (min data.length 64 - i) ++ List.replicate (N - (min data.length 64 - i)) zero) := by
      simp only [loadN]; rw [if_pos hrem]
    have hal : N < 8 ∨ N % 8 = 0 ∧ i % 8 = 0 := by
      rcases hpow with h | h
      · exact Or.inl h
      · exact Or.inr ⟨h, by rw [hq, Nat.mul_mod, h]; simp⟩
    obtain ⟨b', e1, e2, e3⟩ := storeMaskBits_ok N (((data.drop i).take (min data.length 64 - i) ++ List.replicate (N - (min data.length 64 - i)) zero).map p)
      bits i hl (by omega) hN64 (by simp; omega) hal (fun j hj => by rw [hinv j]; simp; intro h; omega)
    simp only [hload, Option.bind_eq_bind, Option.bind_some, e1]
    refine ⟨_, rfl, fun j hj => ?_⟩
    rw [getLsbD_firstWord _ _ hj, e3, hinv]
    have htail : j < min data.length 64 → i ≤ j →
        (((data.drop i).take (min data.length 64 - i) ++ List.replicate (N - (min data.length 64 - i)) zero).map p).getD (j - i) false =
          (data.map p).getD j false := by
      intro h1 h2
      simp only [List.getD, List.getElem?_map]
      rw [List.getElem?_append_left (by simp; omega), List.getElem?_take, if_pos (by omega), List.getElem?_drop, show i + (j - i) = j by omega]
    have htail2 : min data.length 64 ≤ j →
        (((data.drop i).take (min data.length 64 - i) ++ List.replicate (N - (min data.length 64 - i)) zero).map p).getD (j - i) false = false := by
      intro h1
      simp only [List.getD, List.getElem?_map]
      rw [List.getElem?_append_right (by simp; omega), List.getElem?_replicate]
      by_cases hh : j - i - ((data.drop i).take (min data.length 64 - i)).length < N - (min data.length 64 - i)
      · simp only [hh, if_true, Option.map_some, Option.getD_some, hz']
      · simp only [hh, if_false, Option.map_none, Option.getD_none]
    constructor
    · intro hh
      by_cases hj2 : j < min data.length 64
      · by_cases hj1 : j < i
        · simp only [hj1, decide_true, Bool.true_and, show ¬ i ≤ j by omega, decide_false, Bool.false_and, Bool.or_false] at hh
          exact hval j (by omega) hh
        · rw [htail hj2 (by omega)] at hh
          simp only [hj1, decide_false, Bool.false_and, show i ≤ j by omega, decide_true, Bool.true_and, Bool.false_or] at hh
          exact hval j (by omega) hh
      · rw [htail2 (by omega)] at hh
        simp [show ¬ j < i by omega] at hh
    · rintro ⟨x, h1, h2⟩
      have hjl : j < data.length := by
        rcases Nat.lt_or_ge j data.length with h' | h'
        · exact h'
        · rw [List.getElem?_eq_none h'] at h1; cases h1
      have hm := hmem j x h1 h2
      by_cases hj1 : j < i
      · rw [hm]; simp [hj1]
      · rw [htail (by omega) (by omega), hm]; simp [show i ≤ j by omega]

/-- C50 is false when the target compares true with zero and a partial block remains: the zero padding of the last load is reported as
matching. Three bytes, none of them zero, four lanes: the mask claims a match at position 3. -/
theorem match_padding_violated :
    matchKernel (0 : Nat) (fun x => x == 0) 4 [5, 5, 5] = some (3, 8#64) := by decide +kernel

example : matchKernel (0 : Nat) (fun x => x == 5) 4 [5, 1, 5, 1, 5, 5] = some (6, 0b110101#64) := by decide +kernel
example : matchKernel (0 : Nat) (fun x => x == 5) 16 [5, 1, 5, 1, 5, 5] = some (6, 0b110101#64) := by decide +kernel

end Verif.Simd
