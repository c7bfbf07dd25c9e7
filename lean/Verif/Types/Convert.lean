/-!
# Conversion of primitive values held in 64-bit words: C27

`cast_to` and `convert_to`, `/repo/rapidudf/meta/dtype.cc` 477–589, for the integer types. The floating point cases are not modelled.
-/
namespace Verif.Types.Conv

/-- The integer types. -/
inductive IntTy where
  | u8 | u16 | u32 | u64 | i8 | i16 | i32 | i64
deriving DecidableEq

def IntTy.bits : IntTy → Nat
  | .u8 => 8 | .i8 => 8 | .u16 => 16 | .i16 => 16 | .u32 => 32 | .i32 => 32 | .u64 => 64 | .i64 => 64

def IntTy.signed : IntTy → Bool
  | .i8 => true | .i16 => true | .i32 => true | .i64 => true | _ => false

/-- A C++ integer of type `T`: its bits. -/
abbrev Bits (t : IntTy) := BitVec t.bits

/-- `static_cast<T>` of a signed integer held in `w` bits: sign-extended or cut. -/
def castSigned {w : Nat} (t : IntTy) (x : BitVec w) : Bits t := x.signExtend t.bits

/-- `cast_to<T>`, lines 477–505: the value of the `T result` variable. The `DATA_I8` case has no `break` and runs into the `DATA_I16` case. -/
def castResult (dst src : IntTy) (val : BitVec 64) : Bits dst :=
  match src with
  | .u8 | .u16 | .u32 | .u64 => val.setWidth dst.bits
  | .i8 =>
    let _result : Bits dst := castSigned dst (val.setWidth 8)
    castSigned dst (val.setWidth 16)
  | .i16 => castSigned dst (val.setWidth 16)
  | .i32 => castSigned dst (val.setWidth 32)
  | .i64 => castSigned dst val

/-- Lines 524–542: the bits of the result, zero-extended. -/
def castTo (dst src : IntTy) (val : BitVec 64) : BitVec 64 := (castResult dst src val).setWidth 64

/-- `convert_to`, lines 545–589, on integer types. -/
def convertTo (val : BitVec 64) (src dst : IntTy) : BitVec 64 := if src = dst then val else castTo dst src val

/-! ## Specification -/

/-- The integer a word stands for when it holds a value of type `t` in its low bits. -/
def valueOf (t : IntTy) (val : BitVec 64) : Int := if t.signed then (val.setWidth t.bits).toInt else ((val.setWidth t.bits).toNat : Int)

/-- Conversion of an integer to type `t`: modulo `2^bits`, into the range of the type (C++20, and what compilers did before). -/
def wrap (t : IntTy) (x : Int) : Int := if t.signed then x.bmod (2 ^ t.bits) else x.emod (2 ^ t.bits)

/-- The word holds nothing above the value: how `convert_to` itself leaves its results. -/
def Canonical (t : IntTy) (val : BitVec 64) : Prop := val.toNat < 2 ^ t.bits

/-- The word holds the sign-extended value: how `FromPrimitiveValue` leaves negative ones. -/
def SignExtended (t : IntTy) (val : BitVec 64) : Prop := val = (val.setWidth t.bits).signExtend 64

/-! ## C27 -/

/-- C27 is false of the code for 8-bit signed sources: every negative value, stored the way the function itself stores it, is converted as if it were positive. -/
theorem convert_i8_violated (val : BitVec 64) (hc : Canonical .i8 val) (hneg : valueOf .i8 val < 0) :
    valueOf .i64 (convertTo val .i8 .i64) = valueOf .i8 val + 256 ∧ valueOf .i64 (convertTo val .i8 .i64) ≠ wrap .i64 (valueOf .i8 val) := by
  have hv : val.toNat < 256 := hc
  have e1 : valueOf .i64 (convertTo val .i8 .i64) = val.toNat := by
    have : (convertTo val .i8 .i64) = val := by
      simp only [convertTo, castTo, castResult, castSigned, IntTy.bits, reduceCtorEq, if_false]
      apply BitVec.eq_of_toNat_eq
      rw [BitVec.setWidth_eq, BitVec.signExtend_eq_setWidth_of_msb_false]
      · simp only [BitVec.toNat_setWidth]; omega
      · rw [BitVec.msb_eq_decide]
        simp only [BitVec.toNat_setWidth, decide_eq_false_iff_not, Nat.not_le]
        omega
    rw [this]
    simp only [valueOf, IntTy.signed, IntTy.bits, if_true, BitVec.setWidth_eq]
    exact BitVec.toInt_eq_toNat_of_lt (by omega)
  have e2 : valueOf .i8 val = (val.toNat : Int) - 256 := by
    simp only [valueOf, IntTy.signed, IntTy.bits, if_true] at hneg ⊢
    rw [BitVec.toInt_eq_toNat_cond] at hneg ⊢
    simp only [BitVec.toNat_setWidth] at hneg ⊢
    rw [Nat.mod_eq_of_lt (show val.toNat < 2 ^ 8 from hv)] at hneg ⊢
    split at hneg
    · omega
    · rename_i h; rw [if_neg h]; omega
  refine ⟨by rw [e1, e2]; omega, ?_⟩
  rw [e1, e2]
  simp only [wrap, IntTy.signed, IntTy.bits, if_true]
  rw [Int.bmod_eq_of_le_mul_two (by omega) (by omega)]
  omega

theorem castSigned_value (w : Nat) (dst : IntTy) (x : BitVec w) : valueOf dst ((castSigned dst x).setWidth 64) = wrap dst x.toInt := by
  have h : ∀ n, n ≤ 64 → ((x.signExtend n).setWidth 64).setWidth n = x.signExtend n := by
    intro n hn
    rw [BitVec.setWidth_setWidth_of_le _ hn, BitVec.setWidth_eq]
  have hb : dst.bits ≤ 64 := by cases dst <;> decide
  simp only [valueOf, castSigned, wrap]
  rw [h _ hb]
  cases hs : dst.signed
  · simp only [Bool.false_eq_true, if_false]
    rw [← BitVec.ofInt_toInt (x := x.signExtend dst.bits), BitVec.toNat_ofInt]
    have hp : (0 : Int) < 2 ^ dst.bits := by cases dst <;> decide
    have e : (x.signExtend dst.bits).toInt.emod (2 ^ dst.bits) = x.toInt.emod (2 ^ dst.bits) := by
      have : x.signExtend dst.bits = BitVec.ofInt dst.bits x.toInt := rfl
      rw [this, BitVec.toInt_ofInt]
      have : ((2 ^ dst.bits : Nat) : Int) = 2 ^ dst.bits := by norm_cast
      rw [← this]
      exact Int.bmod_emod
    have h2 : ((2 ^ dst.bits : Nat) : Int) = 2 ^ dst.bits := by norm_cast
    rw [h2]
    have e' : (x.signExtend dst.bits).toInt % 2 ^ dst.bits = x.toInt.emod (2 ^ dst.bits) := e
    rw [e']
    exact Int.toNat_of_nonneg (Int.emod_nonneg _ (by omega))
  · simp only [if_true]
    have : x.signExtend dst.bits = BitVec.ofInt dst.bits x.toInt := rfl
    rw [this, BitVec.toInt_ofInt]

theorem castUnsigned_value (dst : IntTy) (val : BitVec 64) : valueOf dst ((val.setWidth dst.bits).setWidth 64) = wrap dst (val.toNat : Int) := by
  have hb : dst.bits ≤ 64 := by cases dst <;> decide
  simp only [valueOf, wrap]
  rw [BitVec.setWidth_setWidth_of_le _ hb, BitVec.setWidth_eq]
  cases hs : dst.signed
  · simp only [Bool.false_eq_true, if_false, BitVec.toNat_setWidth]
    norm_cast
  · simp only [if_true, BitVec.toInt_eq_toNat_bmod, BitVec.toNat_setWidth]
    have h2 : ((val.toNat % 2 ^ dst.bits : Nat) : Int) = (val.toNat : Int) % ((2 ^ dst.bits : Nat) : Int) := by norm_cast
    rw [h2, Int.emod_bmod]

/-- What remains true of C27: for every pair of integer types the value is converted as C++ converts it, provided an unsigned source holds nothing above its
value, and an 8-bit signed source is sign-extended to at least 16 bits. The result is canonical. -/
theorem convert_partial (val : BitVec 64) (src dst : IntTy) (hne : src ≠ dst) (hu : src.signed = false → Canonical src val)
    (h8 : src = .i8 → (val.setWidth 16).toInt = (val.setWidth 8).toInt) :
    valueOf dst (convertTo val src dst) = wrap dst (valueOf src val) ∧ Canonical dst (convertTo val src dst) := by
  constructor
  · simp only [convertTo, hne, if_false, castTo]
    cases src
    case i8 => exact (castSigned_value 16 dst _).trans (by rw [h8 rfl]; rfl)
    case i16 => exact castSigned_value 16 dst _
    case i32 => exact castSigned_value 32 dst _
    case i64 => exact (castSigned_value 64 dst _).trans (by simp [valueOf, IntTy.signed, IntTy.bits])
    all_goals
      refine (castUnsigned_value dst val).trans ?_
      have hc := hu rfl
      simp only [Canonical, IntTy.bits] at hc
      simp only [valueOf, IntTy.signed, IntTy.bits, Bool.false_eq_true, if_false, BitVec.toNat_setWidth]
      rw [Nat.mod_eq_of_lt hc]
  · simp only [convertTo, hne, if_false, castTo, Canonical, BitVec.toNat_setWidth]
    exact Nat.lt_of_le_of_lt (Nat.mod_le _ _) (castResult dst src val).isLt

/-- Conversion to the same type returns the word. -/
theorem convert_same (val : BitVec 64) (t : IntTy) : convertTo val t t = val := by simp [convertTo]

/-- Canonical and sign-extended words with their 8-bit value in the positive range meet the hypothesis on 8-bit signed sources; so does every sign-extended word. -/
theorem convert_i8_domain (val : BitVec 64) (h : SignExtended .i8 val ∨ val.toNat < 128) : (val.setWidth 16).toInt = (val.setWidth 8).toInt := by
  rcases h with h | h
  · have h' : val = (val.setWidth 8).signExtend 64 := h
    generalize val.setWidth 8 = x at h'
    subst h'
    have : ∀ x : BitVec 8, ((x.signExtend 64).setWidth 16).toInt = x.toInt := by decide +kernel
    exact this x
  · rw [BitVec.toInt_eq_toNat_of_lt (by simp only [BitVec.toNat_setWidth]; omega), BitVec.toInt_eq_toNat_of_lt (by simp only [BitVec.toNat_setWidth]; omega)]
    simp only [BitVec.toNat_setWidth]
    omega

example : valueOf .i32 (convertTo 0xFF#64 .i8 .i32) = 255 := by decide
example : valueOf .i32 (convertTo 0xFFFFFFFFFFFFFFFF#64 .i8 .i32) = -1 := by decide
example : valueOf .u8 (convertTo 0x1FF#64 .i32 .u8) = 255 := by decide

end Verif.Types.Conv
