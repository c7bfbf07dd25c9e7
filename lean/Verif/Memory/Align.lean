/-!
# Alignment helpers: model and property C06

`/repo/rapidudf/common/allign.h` 45-48, 55-62, 70-75 and `/repo/rapidudf/types/bit.h` 44-75 (the two
sizing helpers). Unsigned machine words of any width are `BitVec w`; signed intermediate values of
`align_ceil` have the same bit pattern, so `-alignmentAsInt` is `BitVec` negation.
-/
namespace Verif.Memory

/-- `align_to`, allign.h 45-48. -/
def alignTo {w : Nat} (n align : BitVec w) : BitVec w := (n + align - 1#w) &&& ~~~(align - 1#w)

/-- `valid_align_value`, allign.h 57. -/
def validAlignValue {w : Nat} (align : BitVec w) : Bool := align != 0#w && (align &&& (align - 1#w)) == 0#w

/-- `align_ceil`, allign.h 71-75. -/
def alignCeil {w : Nat} (x alignment : BitVec w) : BitVec w := (x + alignment - 1#w) &&& (-alignment)

/-- `get_arena_element_size`, bit.h 47-53; `none` is the division by zero of `n % 0`. -/
def arenaElementSize {w : Nat} (n lanes : BitVec w) : Option (BitVec w) :=
  if lanes = 0#w then none
  else
    let rest := n % lanes
    if rest = 0#w then some n else some (n + lanes - rest)

/-- `get_bits_byte_size`, bit.h 46. -/
def bitsByteSize {w : Nat} (n : BitVec w) : BitVec w := (n + 7#w) / 8#w + 8#w

/-! ## Specification -/

/-- `r` is the least multiple of `a` that is at least `n`. -/
def IsRoundUp (n a r : Nat) : Prop := a ∣ r ∧ n ≤ r ∧ ∀ m, a ∣ m → n ≤ m → r ≤ m

/-! ## Lemmas -/

theorem isRoundUp_div (n a : Nat) (ha : 0 < a) : IsRoundUp n a ((n + a - 1) / a * a) := by
  refine ⟨Nat.dvd_mul_left _ _, ?_, ?_⟩
  · have h1 := Nat.div_add_mod (n + a - 1) a
    have h2 := Nat.mod_lt (n + a - 1) ha
    have h3 : a * ((n + a - 1) / a) = (n + a - 1) / a * a := Nat.mul_comm _ _
    omega
  · rintro m ⟨c, rfl⟩ hm
    have : (n + a - 1) / a ≤ c := by
      rw [Nat.div_le_iff_le_mul ha]
      have : a * c = c * a := Nat.mul_comm _ _
      omega
    rw [Nat.mul_comm a c]
    exact Nat.mul_le_mul_right a this

theorem isRoundUp_unique {n a r s : Nat} (h : IsRoundUp n a r) (h' : IsRoundUp n a s) : r = s :=
  Nat.le_antisymm (h.2.2 s h'.1 h'.2.1) (h'.2.2 r h.1 h.2.1)

/-- Clearing the low `k` bits. -/
theorem and_not_low {w : Nat} (x : BitVec w) (k : Nat) (hk : k < w) :
    (x &&& ~~~(BitVec.ofNat w (2 ^ k) - 1#w)).toNat = x.toNat / 2 ^ k * 2 ^ k := by
  have hlt : 2 ^ k < 2 ^ w := Nat.pow_lt_pow_right (by omega) hk
  have h2 : (BitVec.ofNat w (2 ^ k) - 1#w) = BitVec.ofNat w (2 ^ k - 1) := by
    apply BitVec.eq_of_toNat_eq
    have hp : 0 < 2 ^ k := Nat.pow_pos (by omega)
    have h1w : 1 % 2 ^ w = 1 := Nat.mod_eq_of_lt (by omega)
    simp only [BitVec.toNat_sub, BitVec.toNat_ofNat]
    rw [Nat.mod_eq_of_lt hlt, h1w, Nat.mod_eq_of_lt (a := 2 ^ k - 1) (by omega)]
    have : 2 ^ w - 1 + 2 ^ k = (2 ^ k - 1) + 2 ^ w := by omega
    rw [this, Nat.add_mod_right, Nat.mod_eq_of_lt (by omega)]
  rw [h2]
  have h3 : (x &&& ~~~(BitVec.ofNat w (2 ^ k - 1))) = (x >>> k) <<< k := by
    apply BitVec.eq_of_getLsbD_eq
    intro i hi
    simp only [BitVec.getLsbD_and, BitVec.getLsbD_not, BitVec.getLsbD_ofNat, BitVec.getLsbD_shiftLeft,
      BitVec.getLsbD_ushiftRight, Nat.testBit_two_pow_sub_one, hi, decide_true, Bool.true_and]
    by_cases h : i < k
    · simp [h]
    · have : k + (i - k) = i := by omega
      simp [h, this]
  rw [h3]
  simp only [BitVec.toNat_shiftLeft, BitVec.toNat_ushiftRight, Nat.shiftRight_eq_div_pow, Nat.shiftLeft_eq]
  apply Nat.mod_eq_of_lt
  have := Nat.div_mul_le_self x.toNat (2 ^ k)
  have := x.isLt
  omega

theorem alignTo_toNat {w : Nat} (n : BitVec w) (k : Nat) (hk : k < w) (hov : n.toNat + 2 ^ k - 1 < 2 ^ w) :
    (alignTo n (BitVec.ofNat w (2 ^ k))).toNat = (n.toNat + 2 ^ k - 1) / 2 ^ k * 2 ^ k := by
  unfold alignTo
  rw [and_not_low _ k hk]
  congr 2
  have hlt : 2 ^ k < 2 ^ w := Nat.pow_lt_pow_right (by omega) hk
  have hp : 0 < 2 ^ k := Nat.pow_pos (by omega)
  have h1w : 1 % 2 ^ w = 1 := Nat.mod_eq_of_lt (by omega)
  simp only [BitVec.toNat_sub, BitVec.toNat_add, BitVec.toNat_ofNat, Nat.mod_eq_of_lt hlt, h1w]
  have hn := n.isLt
  by_cases h : n.toNat + 2 ^ k < 2 ^ w
  · rw [Nat.mod_eq_of_lt h]
    have : 2 ^ w - 1 + (n.toNat + 2 ^ k) = (n.toNat + 2 ^ k - 1) + 2 ^ w := by omega
    rw [this, Nat.add_mod_right, Nat.mod_eq_of_lt (by omega)]
  · have : n.toNat + 2 ^ k = 2 ^ w := by omega
    rw [this, Nat.mod_self, Nat.add_zero, Nat.mod_eq_of_lt (by omega)]

theorem alignCeil_eq_alignTo {w : Nat} (x a : BitVec w) : alignCeil x a = alignTo x a := by
  unfold alignCeil alignTo
  rw [BitVec.neg_eq_not_add, BitVec.not_sub_one_eq_not_add_one]

/-! ## C06 -/

/-- **C06.** `align_to` rounds up to the least multiple of a power-of-two alignment. -/
theorem align_to_rounds_up {w : Nat} (n : BitVec w) (k : Nat) (hk : k < w) (hov : n.toNat + 2 ^ k - 1 < 2 ^ w) :
    IsRoundUp n.toNat (2 ^ k) (alignTo n (BitVec.ofNat w (2 ^ k))).toNat := by
  rw [alignTo_toNat n k hk hov]
  exact isRoundUp_div _ _ (Nat.pow_pos (by omega))

/-- **C06.** The pointer version rounds up as well. -/
theorem align_ceil_rounds_up {w : Nat} (n : BitVec w) (k : Nat) (hk : k < w) (hov : n.toNat + 2 ^ k - 1 < 2 ^ w) :
    IsRoundUp n.toNat (2 ^ k) (alignCeil n (BitVec.ofNat w (2 ^ k))).toNat := by
  rw [alignCeil_eq_alignTo]; exact align_to_rounds_up n k hk hov

/-- **C06.** An already aligned value is returned unchanged. -/
theorem align_to_fixpoint {w : Nat} (n : BitVec w) (k : Nat) (hk : k < w) (hov : n.toNat + 2 ^ k - 1 < 2 ^ w)
    (h : 2 ^ k ∣ n.toNat) : alignTo n (BitVec.ofNat w (2 ^ k)) = n := by
  apply BitVec.eq_of_toNat_eq
  exact isRoundUp_unique (align_to_rounds_up n k hk hov) ⟨h, Nat.le_refl _, fun m _ hm => hm⟩

/-- **C06.** `valid_align_value` accepts exactly the powers of two. -/
theorem valid_align_value_iff {w : Nat} (a : BitVec w) :
    validAlignValue a = true ↔ ∃ k, a.toNat = 2 ^ k := by
  have key := @Nat.ne_zero_and_sub_one_eq_zero_iff_isPowerOfTwo a.toNat
  have hsub : a.toNat ≠ 0 → (a - 1#w).toNat = a.toNat - 1 := by
    intro h
    have ha := a.isLt
    by_cases hw : w = 0
    · subst hw; have := BitVec.toNat_of_zero_length (by rfl) a; omega
    · have h1w : 1 % 2 ^ w = 1 := Nat.mod_eq_of_lt (Nat.one_lt_two_pow hw)
      simp only [BitVec.toNat_sub, BitVec.toNat_ofNat, h1w]
      have : 2 ^ w - 1 + a.toNat = (a.toNat - 1) + 2 ^ w := by omega
      rw [this, Nat.add_mod_right, Nat.mod_eq_of_lt (by omega)]
  unfold validAlignValue
  rw [Bool.and_eq_true, bne_iff_ne, beq_iff_eq]
  have e0 : a ≠ 0#w ↔ a.toNat ≠ 0 := by
    rw [Ne, Ne, ← BitVec.toNat_inj]; simp
  rw [e0, ← BitVec.toNat_inj, BitVec.toNat_and]
  constructor
  · rintro ⟨h, h2⟩
    rw [hsub h] at h2
    obtain ⟨k, hk⟩ := key.1 ⟨h, by simpa using h2⟩
    exact ⟨k, hk⟩
  · rintro ⟨k, hk⟩
    have := key.2 ⟨k, hk⟩
    exact ⟨this.1, by rw [hsub this.1]; simpa using this.2⟩

/-- **C06.** The arena element count is the least multiple of the lane count that is at least `n`. -/
theorem arena_element_size_rounds_up {w : Nat} (n lanes : BitVec w) (hl : 0 < lanes.toNat)
    (hov : n.toNat + lanes.toNat - 1 < 2 ^ w) :
    ∃ r, arenaElementSize n lanes = some r ∧ IsRoundUp n.toNat lanes.toNat r.toNat := by
  have hne : lanes ≠ 0#w := by
    intro h; rw [h] at hl; simp at hl
  unfold arenaElementSize
  rw [if_neg hne]
  have hm := Nat.mod_lt n.toNat hl
  have hn := n.isLt
  have hls := lanes.isLt
  by_cases h : n % lanes = 0#w
  · have h0 : n.toNat % lanes.toNat = 0 := by
      rw [← BitVec.toNat_umod, h]; simp
    refine ⟨n, by simp [h], Nat.dvd_of_mod_eq_zero h0, Nat.le_refl _, fun m _ hm => hm⟩
  · have h0 : n.toNat % lanes.toNat ≠ 0 := by
      rw [← BitVec.toNat_umod]
      intro e; exact h (BitVec.eq_of_toNat_eq (by simpa using e))
    refine ⟨n + lanes - n % lanes, by simp [h], ?_⟩
    have hd := Nat.div_add_mod n.toNat lanes.toNat
    have e1 : (n + lanes - n % lanes).toNat = n.toNat + lanes.toNat - n.toNat % lanes.toNat := by
      rw [BitVec.toNat_sub, BitVec.toNat_umod, BitVec.toNat_add]
      by_cases hlt : n.toNat + lanes.toNat < 2 ^ w
      · rw [Nat.mod_eq_of_lt hlt]
        have : 2 ^ w - n.toNat % lanes.toNat + (n.toNat + lanes.toNat)
            = (n.toNat + lanes.toNat - n.toNat % lanes.toNat) + 2 ^ w := by omega
        rw [this, Nat.add_mod_right, Nat.mod_eq_of_lt (by omega)]
      · have : n.toNat + lanes.toNat = 2 ^ w := by omega
        rw [this, Nat.mod_self, Nat.add_zero, Nat.mod_eq_of_lt (by omega)]
    have e2 : (n + lanes - n % lanes).toNat = lanes.toNat * (n.toNat / lanes.toNat + 1) := by
      rw [e1, Nat.mul_add, Nat.mul_one]; omega
    refine ⟨⟨_, e2⟩, by omega, ?_⟩
    rintro m ⟨c, rfl⟩ hmc
    rw [e2]
    apply Nat.mul_le_mul_left
    have : n.toNat / lanes.toNat < c := by
      apply Nat.lt_of_mul_lt_mul_left (a := lanes.toNat)
      omega
    omega

/-- C06, bytes for bits: eight bytes more than the least number of bytes that hold `n` bits. -/
theorem bits_byte_size_covers (n : BitVec 64) (hn : n.toNat + 7 < 2 ^ 64) :
    ∃ b, (bitsByteSize n).toNat = b + 8 ∧ n.toNat ≤ 8 * b ∧ ∀ c, n.toNat ≤ 8 * c → b ≤ c := by
  refine ⟨(n.toNat + 7) / 8, ?_, by omega, fun c hc => by omega⟩
  unfold bitsByteSize
  rw [BitVec.toNat_add, BitVec.toNat_udiv, BitVec.toNat_add]
  simp
  omega

example : (65#64).toNat + 7 < 2 ^ 64 ∧ (bitsByteSize 65#64).toNat = 9 + 8 := by decide
example : IsRoundUp 13 16 16 := ⟨⟨1, rfl⟩, by omega, fun m ⟨c, hc⟩ h => by omega⟩
example : (alignTo (13#64) (16#64)).toNat = 16 ∧ arenaElementSize (65#64) (64#64) = some 128#64 := by decide
example : (13#64).toNat + 2 ^ 4 - 1 < 2 ^ 64 := by decide

/-- C06, limits: without the no-overflow hypothesis the result is below `n`. -/
theorem align_to_overflow_violated : (alignTo (0xFFFFFFFFFFFFFFF9#64) (16#64)).toNat = 0 := by decide

end Verif.Memory
