import Verif.Types.Convert
/-!
# Integer operators and conversions in compiled code: C44, C95, C96, C97

`CastTo`, `/repo/rapidudf/compiler/codegen_cast.cc` 34–86; `NormalizeDType`, `/repo/rapidudf/compiler/codegen.cc` 194–213; low-level `BinaryOp`,
`/repo/rapidudf/compiler/codegen_binary.cc` 52–259; low-level `UnaryOp`, `/repo/rapidudf/compiler/codegen_unary.cc` 46–; the promotion order is the order of `FundamentalType`,
`/repo/rapidudf/meta/dtype_enums.h` 45–52, through `DType::operator>` (`Verif.Types.dtype_primitive_order`).

Integer types only; the operators are those of LLVM: `add`, `sub`, `mul` without flags wrap, `sdiv`, `srem`, `udiv`, `urem` have undefined behaviour on division by zero and `sdiv`, `srem` on
the overflowing division.
-/
namespace Verif.Gen.IntOps
open Verif.Types.Conv

/-! ## Specification: integers as numbers -/

/-- The number held in a value of type `t`. -/
def val (t : IntTy) (x : BitVec t.bits) : Int := if t.signed = true then x.toInt else x.toNat

/-- The smallest and the largest value of a type. -/
def lo (t : IntTy) : Int := if t.signed = true then -2 ^ (t.bits - 1) else 0
def hi (t : IntTy) : Int := if t.signed = true then 2 ^ (t.bits - 1) - 1 else 2 ^ t.bits - 1
def Fits (t : IntTy) (z : Int) : Prop := lo t ≤ z ∧ z ≤ hi t

/-! ## Model -/

/-- Position in `FundamentalType`, dtype_enums.h 45–52. -/
def rank : IntTy → Nat
  | .u8 => 4 | .i8 => 5 | .u16 => 6 | .i16 => 7 | .u32 => 8 | .i32 => 9 | .u64 => 10 | .i64 => 11

/-- `CastTo` from integer to integer, codegen_cast.cc 70–82. -/
def cast (s d : IntTy) (x : BitVec s.bits) : BitVec d.bits :=
  if d.bits > s.bits then (if s.signed = true then x.signExtend d.bits else x.zeroExtend d.bits) else x.truncate d.bits

/-- `NormalizeDType` of two integer types, codegen.cc 194–213: the greater of the two; `normalize_dtype` starts below all of them. -/
def common (a b : IntTy) : IntTy := if rank b > rank a then b else a

inductive IOp where
  | add | sub | mul | div | mod | max | min
  deriving DecidableEq

inductive COp where
  | eq | ne | lt | le | gt | ge
  deriving DecidableEq

/-- `OP_PLUS` … `OP_MOD`, `OP_MAX`, `OP_MIN`, codegen_binary.cc 62–108, 213–243; `none` is undefined behaviour. -/
def arith (op : IOp) (t : IntTy) (x y : BitVec t.bits) : Option (BitVec t.bits) :=
  match op with
  | .add => some (x + y)
  | .sub => some (x - y)
  | .mul => some (x * y)
  | .div => if t.signed = true then (if y = 0 ∨ (x = BitVec.intMin t.bits ∧ y = -1) then none else some (x.sdiv y)) else (if y = 0 then none else some (x.udiv y))
  | .mod => if t.signed = true then (if y = 0 ∨ (x = BitVec.intMin t.bits ∧ y = -1) then none else some (x.srem y)) else (if y = 0 then none else some (x.umod y))
  | .max => if t.signed = true then some (if x.slt y then y else x) else some (if x.ult y then y else x)
  | .min => if t.signed = true then some (if x.slt y then x else y) else some (if x.ult y then x else y)

/-- `OP_EQUAL` … `OP_LESS_EQUAL`, codegen_binary.cc 128–191. -/
def compare (op : COp) (t : IntTy) (x y : BitVec t.bits) : Bool :=
  match op with
  | .eq => x == y
  | .ne => x != y
  | .lt => if t.signed = true then x.slt y else x.ult y
  | .le => if t.signed = true then x.sle y else x.ule y
  | .gt => if t.signed = true then y.slt x else y.ult x
  | .ge => if t.signed = true then y.sle x else y.ule x

/-- `BinaryOp` on operands of any two integer types, codegen_binary.cc 298–347: cast to the common type, then the operator. The result has the common type. -/
def arithMixed (op : IOp) (a b : IntTy) (x : BitVec a.bits) (y : BitVec b.bits) : Option (BitVec (common a b).bits) :=
  arith op (common a b) (cast a (common a b) x) (cast b (common a b) y)

/-- The same for comparisons; the result is a bit. -/
def compareMixed (op : COp) (a b : IntTy) (x : BitVec a.bits) (y : BitVec b.bits) : Bool := compare op (common a b) (cast a (common a b) x) (cast b (common a b) y)

/-- `OP_NEGATIVE`, codegen_unary.cc 52–59. -/
def neg (t : IntTy) (x : BitVec t.bits) : BitVec t.bits := -x

/-- `OP_ABS`, codegen_unary.cc 85–94: `llvm.abs` with `is_int_min_poison` false, whatever the type. -/
def abs (t : IntTy) (x : BitVec t.bits) : BitVec t.bits := if x.slt 0 then -x else x

/-! ## What the operators mean -/

/-- The number an operator stands for; division rounds towards zero and the remainder has the sign of the dividend. -/
def meant (op : IOp) (x y : Int) : Int :=
  match op with
  | .add => x + y
  | .sub => x - y
  | .mul => x * y
  | .div => x.tdiv y
  | .mod => x.tmod y
  | .max => if x < y then y else x
  | .min => if x < y then x else y

def meantCmp (op : COp) (x y : Int) : Prop :=
  match op with
  | .eq => x = y
  | .ne => x ≠ y
  | .lt => x < y
  | .le => x ≤ y
  | .gt => x > y
  | .ge => x ≥ y

/-! ## Lemmas -/

theorem bits_pos (t : IntTy) : 0 < t.bits := by cases t <;> decide

theorem val_fits (t : IntTy) (x : BitVec t.bits) : Fits t (val t x) := by
  have h0 := bits_pos t
  unfold Fits val lo hi
  split
  · have h1 := BitVec.le_toInt (x := x)
    have h2 := BitVec.toInt_lt (x := x)
    have e : ((2 : Int) ^ (t.bits - 1)) = ((2 ^ (t.bits - 1) : Nat) : Int) := by norm_cast
    exact ⟨h1, by omega⟩
  · have h := x.isLt
    have e : ((2 : Int) ^ t.bits) = ((2 ^ t.bits : Nat) : Int) := by norm_cast
    exact ⟨by omega, by omega⟩

theorem two_pow (n : Nat) (h : 0 < n) : (2 : Int) ^ n = 2 * 2 ^ (n - 1) := by
  cases n with
  | zero => omega
  | succ k => rw [Int.pow_succ]; simp; omega

/-- A number that fits is determined by its residue. -/
theorem fits_unique {t : IntTy} {a b : Int} (ha : Fits t a) (hb : Fits t b) (h : a % 2 ^ t.bits = b % 2 ^ t.bits) : a = b := by
  have h2 := two_pow t.bits (bits_pos t)
  unfold Fits lo hi at ha hb
  have hp : (0 : Int) < 2 ^ (t.bits - 1) := Int.pow_pos (by decide)
  generalize hm : (2 : Int) ^ t.bits = m at *
  generalize hk : (2 : Int) ^ (t.bits - 1) = k at *
  have hd : m ∣ a - b := Int.emod_eq_emod_iff_emod_sub_eq_zero.mp h |> Int.dvd_of_emod_eq_zero
  obtain ⟨q, hq⟩ := hd
  have hab : -m < a - b ∧ a - b < m := by split at ha <;> split at hb <;> first | omega | contradiction
  have : q = 0 := by
    rcases Int.lt_trichotomy q 0 with h' | h' | h'
    · have : m * q ≤ m * (-1) := Int.mul_le_mul_of_nonneg_left (by omega) (by omega)
      omega
    · exact h'
    · have : m * 1 ≤ m * q := Int.mul_le_mul_of_nonneg_left (by omega) (by omega)
      omega
  subst this
  omega

theorem val_mod (t : IntTy) (x : BitVec t.bits) : val t x % 2 ^ t.bits = x.toNat := by
  have e : ((2 : Int) ^ t.bits) = ((2 ^ t.bits : Nat) : Int) := by norm_cast
  have hn : ((x.toNat : Int)) % 2 ^ t.bits = x.toNat := by
    rw [e]
    exact_mod_cast Nat.mod_eq_of_lt x.isLt
  unfold val
  split
  · rw [BitVec.toInt_eq_toNat_bmod, e, Int.bmod_emod, ← e]; exact hn
  · exact hn

theorem toInt_mod {w : Nat} (x : BitVec w) : x.toInt % 2 ^ w = x.toNat := by
  have e : ((2 : Int) ^ w) = ((2 ^ w : Nat) : Int) := by norm_cast
  rw [BitVec.toInt_eq_toNat_bmod, e, Int.bmod_emod]
  exact_mod_cast Nat.mod_eq_of_lt x.isLt

theorem val_eq_of {t : IntTy} {x : BitVec t.bits} {z : Int} (h : (x.toNat : Int) = z % 2 ^ t.bits) (hf : Fits t z) : val t x = z :=
  fits_unique (val_fits t x) hf ((val_mod t x).trans h)

theorem val_inj {t : IntTy} {x y : BitVec t.bits} (h : val t x = val t y) : x = y := by
  have h1 := val_mod t x
  rw [h, val_mod t y] at h1
  exact (BitVec.eq_of_toNat_eq (by omega)).symm

theorem cast_mod (s d : IntTy) (x : BitVec s.bits) : ((cast s d x).toNat : Int) = val s x % 2 ^ d.bits := by
  have ed : ((2 : Int) ^ d.bits) = ((2 ^ d.bits : Nat) : Int) := by norm_cast
  unfold cast
  split
  · next hb =>
    unfold val
    split
    · next hs =>
      rw [← toInt_mod (x.signExtend d.bits), BitVec.toInt_signExtend_of_le (by omega)]
    · rw [BitVec.toNat_setWidth, ed]; norm_cast
  · next hb =>
    rw [BitVec.toNat_setWidth, ed]
    have h1 := val_mod s x
    have hdvd : (2 : Int) ^ d.bits ∣ 2 ^ s.bits := ⟨2 ^ (s.bits - d.bits), by rw [← Int.pow_add]; congr 1; omega⟩
    have h2 : (val s x % 2 ^ s.bits) % 2 ^ d.bits = val s x % 2 ^ d.bits := Int.emod_emod_of_dvd _ hdvd
    rw [h1] at h2
    rw [← ed, ← h2, ed]
    norm_cast

/-! ## C44: conversions -/

/-- C44. A conversion preserves the value whenever the destination type can represent it. -/
theorem cast_preserves (s d : IntTy) (x : BitVec s.bits) (h : Fits d (val s x)) : val d (cast s d x) = val s x := val_eq_of (cast_mod s d x) h

/-- C44. Otherwise it keeps the value modulo two to the width of the destination. -/
theorem cast_wraps (s d : IntTy) (x : BitVec s.bits) : val d (cast s d x) % 2 ^ d.bits = val s x % 2 ^ d.bits := by rw [val_mod, cast_mod]

/-- C44. The common type is one of the two types, and it is the wider one; at equal width it is the signed one. -/
theorem common_is_wider (a b : IntTy) :
    (common a b = a ∨ common a b = b) ∧ (common a b).bits = Nat.max a.bits b.bits ∧ (a.bits = b.bits → (common a b).signed = (a.signed || b.signed)) ∧
    (a.bits < b.bits → common a b = b) ∧ (b.bits < a.bits → common a b = a) := by
  cases a <;> cases b <;> decide

theorem common_comm (a b : IntTy) : common a b = common b a := by cases a <;> cases b <;> decide

/-! ## C95: comparisons -/

theorem compare_exact (op : COp) (t : IntTy) (x y : BitVec t.bits) : compare op t x y = true ↔ meantCmp op (val t x) (val t y) := by
  cases op
  · simp only [compare, meantCmp, beq_iff_eq]
    exact ⟨fun h => by rw [h], val_inj⟩
  · simp only [compare, meantCmp, bne_iff_ne]
    exact ⟨fun h h' => h (val_inj h'), fun h h' => h (by rw [h'])⟩
  all_goals
    simp only [compare, meantCmp, val]
    cases t.signed <;> simp [BitVec.slt_iff_toInt_lt, BitVec.sle_iff_toInt_le, BitVec.ult_iff_toNat_lt, BitVec.ule_iff_toNat_le]

/-- C95. A comparison of two integers of any types gives the answer for the numbers, if both fit into the common type. Missing: operands that do not, for which it can be wrong
(`compare_mixed_violated`). -/
theorem compare_mixed_partial (op : COp) (a b : IntTy) (x : BitVec a.bits) (y : BitVec b.bits) (hx : Fits (common a b) (val a x)) (hy : Fits (common a b) (val b y)) :
    compareMixed op a b x y = true ↔ meantCmp op (val a x) (val b y) := by
  unfold compareMixed
  rw [compare_exact, cast_preserves _ _ _ hx, cast_preserves _ _ _ hy]

/-- Pairs of types whose values all fit into the common type: both signed or both unsigned, or the unsigned one narrower. -/
def Safe (a b : IntTy) : Prop := a.signed = b.signed ∨ (a.signed = false ∧ a.bits < b.bits) ∨ (b.signed = false ∧ b.bits < a.bits)

instance (a b : IntTy) : Decidable (Safe a b) := by unfold Safe; infer_instance

theorem lo_hi_table (a b : IntTy) (h : Safe a b) : lo (common a b) ≤ lo a ∧ hi a ≤ hi (common a b) ∧ lo (common a b) ≤ lo b ∧ hi b ≤ hi (common a b) := by
  revert h
  cases a <;> cases b <;> decide

/-- C95. For such pairs every comparison is right. -/
theorem compare_safe_types (op : COp) (a b : IntTy) (h : Safe a b) (x : BitVec a.bits) (y : BitVec b.bits) : compareMixed op a b x y = true ↔ meantCmp op (val a x) (val b y) := by
  obtain ⟨h1, h2, h3, h4⟩ := lo_hi_table a b h
  have hx := val_fits a x
  have hy := val_fits b y
  unfold Fits at hx hy
  exact compare_mixed_partial op a b x y ⟨by omega, by omega⟩ ⟨by omega, by omega⟩

/-- C95 fails for all other pairs of types: some `x < y` is answered wrongly, in one order or the other. -/
theorem compare_mixed_violated (a b : IntTy) (h : ¬ Safe a b) : ∃ x : BitVec a.bits, ∃ y : BitVec b.bits, ¬ (compareMixed .lt a b x y = true ↔ meantCmp .lt (val a x) (val b y)) := by
  have hb := bits_pos b
  have ha := bits_pos a
  unfold Safe at h
  have key : ∀ a b : IntTy, ¬ (a.signed = b.signed ∨ (a.signed = false ∧ a.bits < b.bits) ∨ (b.signed = false ∧ b.bits < a.bits)) →
      ¬ (compareMixed .lt a b (if a.signed then -1 else if a.bits = b.bits then BitVec.intMin _ else 0) (if b.signed then (if a.bits = b.bits then 0 else -1) else if a.bits = b.bits then BitVec.intMin _ else 0) = true ↔
        meantCmp .lt (val a (if a.signed then -1 else if a.bits = b.bits then BitVec.intMin _ else 0)) (val b (if b.signed then (if a.bits = b.bits then 0 else -1) else if a.bits = b.bits then BitVec.intMin _ else 0))) := by
    intro a b
    unfold meantCmp
    cases a <;> cases b <;> decide +kernel
  exact ⟨_, _, key a b h⟩

/-! ## C96: arithmetic -/

/-- C96. Addition, subtraction and multiplication wrap. -/
theorem arith_wraps (op : IOp) (h : op = .add ∨ op = .sub ∨ op = .mul) (t : IntTy) (x y : BitVec t.bits) :
    ∃ r, arith op t x y = some r ∧ val t r % 2 ^ t.bits = meant op (val t x) (val t y) % 2 ^ t.bits := by
  have e : ((2 : Int) ^ t.bits) = ((2 ^ t.bits : Nat) : Int) := by norm_cast
  have hx := val_mod t x
  have hy := val_mod t y
  rcases h with rfl | rfl | rfl
  · refine ⟨_, rfl, ?_⟩
    rw [val_mod, BitVec.toNat_add, meant, Int.add_emod, hx, hy, e]
    norm_cast
  · refine ⟨_, rfl, ?_⟩
    have h1 := toInt_mod (x - y)
    rw [BitVec.toInt_sub, e, Int.bmod_emod, ← e, Int.sub_emod, toInt_mod, toInt_mod] at h1
    rw [val_mod, meant, Int.sub_emod, hx, hy]
    exact h1.symm
  · refine ⟨_, rfl, ?_⟩
    rw [val_mod, BitVec.toNat_mul, meant, Int.mul_emod, hx, hy, e]
    norm_cast

theorem arith_none_iff (op : IOp) (t : IntTy) (x y : BitVec t.bits) :
    arith op t x y = none ↔ (op = .div ∨ op = .mod) ∧ (val t y = 0 ∨ (t.signed = true ∧ val t x = lo t ∧ val t y = -1)) := by
  have h0 : val t y = 0 ↔ y = 0 := by
    constructor
    · intro h; exact val_inj (h.trans (by cases t <;> decide))
    · rintro rfl; cases t <;> decide
  have h1 : t.signed = true → (val t y = -1 ↔ y = -1) := by
    intro hs
    have e : val t (-1) = -1 := by cases t <;> first | decide | contradiction
    exact ⟨fun h => val_inj (h.trans e.symm), fun h => by rw [h, e]⟩
  have h2 : t.signed = true → (val t x = lo t ↔ x = BitVec.intMin t.bits) := by
    intro hs
    have e : val t (BitVec.intMin t.bits) = lo t := by cases t <;> first | decide +kernel | contradiction
    exact ⟨fun h => val_inj (h.trans e.symm), fun h => by rw [h, e]⟩
  rw [h0]
  cases hs : t.signed with
  | false => cases op <;> simp [arith, hs]
  | true =>
    rw [h1 hs, h2 hs]
    cases op <;> simp [arith, hs] <;> by_cases hy : y = 0#t.bits <;> simp [hy]

/-- C96. Division and remainder have no defined result exactly when the divisor is zero or the quotient is one too large. -/
theorem division_undefined (op : IOp) (t : IntTy) (x y : BitVec t.bits) :
    arith op t x y = none ↔ (op = .div ∨ op = .mod) ∧ (val t y = 0 ∨ (t.signed = true ∧ val t x = lo t ∧ val t y = -1)) := arith_none_iff op t x y

/-- C96. Division, remainder, maximum and minimum give the number meant. -/
theorem division_exact (op : IOp) (h3 : op = .div ∨ op = .mod ∨ op = .max ∨ op = .min) (t : IntTy) (x y r : BitVec t.bits) (h : arith op t x y = some r) :
    val t r = meant op (val t x) (val t y) := by
  cases op
  · simp at h3
  · simp at h3
  · simp at h3
  · simp only [arith] at h
    split at h
    · next hs =>
      split at h
      · contradiction
      · next hn =>
        injection h with h
        subst h
        simp only [meant, val, hs, if_true]
        exact BitVec.toInt_sdiv_of_ne_or_ne _ _ (by simp only [not_or, not_and] at hn; by_cases hx : x = BitVec.intMin t.bits; exact .inr (hn.2 hx); exact .inl hx)
    · next hs =>
      split at h
      · contradiction
      · injection h with h
        subst h
        simp only [meant, val, hs]
        simp [BitVec.toNat_udiv]
  · simp only [arith] at h
    split at h
    · next hs =>
      split at h
      · contradiction
      · injection h with h
        subst h
        simp only [meant, val, hs, if_true]
        exact BitVec.toInt_srem _ _
    · next hs =>
      split at h
      · contradiction
      · injection h with h
        subst h
        simp only [meant, val, hs]
        simp [BitVec.toNat_umod]
        exact (Int.tmod_eq_emod_of_nonneg (by omega)).symm
  all_goals
    simp only [arith] at h
    split at h
    all_goals
      next hs =>
      injection h with h
      subst h
      simp only [meant, val, hs]
      split <;> split <;> simp_all [BitVec.slt_iff_toInt_lt, BitVec.ult_iff_toNat_lt] <;> omega

/-- C96. Addition, subtraction and multiplication give the number meant, whenever the type can represent it. -/
theorem arith_exact (op : IOp) (h3 : op = .add ∨ op = .sub ∨ op = .mul) (t : IntTy) (x y : BitVec t.bits) (hf : Fits t (meant op (val t x) (val t y))) :
    ∃ r, arith op t x y = some r ∧ val t r = meant op (val t x) (val t y) := by
  obtain ⟨q, h1, h2⟩ := arith_wraps op h3 t x y
  exact ⟨q, h1, fits_unique (val_fits t q) hf h2⟩

/-- C96 for operands of different types whose values fit into the common type, the type of the result. -/
theorem arith_mixed_exact (op : IOp) (a b : IntTy) (x : BitVec a.bits) (y : BitVec b.bits) (hx : Fits (common a b) (val a x)) (hy : Fits (common a b) (val b y))
    (hf : Fits (common a b) (meant op (val a x) (val b y))) (r : BitVec (common a b).bits) (h : arithMixed op a b x y = some r) : val (common a b) r = meant op (val a x) (val b y) := by
  unfold arithMixed at h
  rw [← cast_preserves _ _ _ hx, ← cast_preserves _ _ _ hy] at hf ⊢
  by_cases h3 : op = .add ∨ op = .sub ∨ op = .mul
  · obtain ⟨q, h1, h2⟩ := arith_exact op h3 _ _ _ hf
    rw [h1] at h
    injection h with h
    subst h
    exact h2
  · exact division_exact op (by cases op <;> simp at h3 ⊢) _ _ _ _ h

/-- C96 fails for operands that do not fit: `u32` 3000000000 divided by `i32` 2 is negative, and `i8` -1 times `u64` 1 is not representable but `i8` -4 divided by `u64` 2 is wrong too. -/
theorem arith_mixed_violated : (∃ r, arithMixed .div .u32 .i32 3000000000#32 2#32 = some r ∧ val .i32 r = -647483648 ∧ meant .div (val .u32 3000000000#32) (val .i32 2#32) = 1500000000) ∧
    (∃ r, arithMixed .max .i8 .u64 (-1) 2#64 = some r ∧ val .u64 r = 18446744073709551615 ∧ meant .max (val .i8 (-1)) (val .u64 2#64) = 2) := by
  refine ⟨⟨_, rfl, ?_⟩, ⟨_, rfl, ?_⟩⟩ <;> decide +kernel

/-! ## C97: negation and absolute value -/

/-- C97. Negation gives the opposite number, except for the smallest one, which it leaves alone. Only signed types can be negated (expression.cc 312–326). -/
theorem neg_exact (t : IntTy) (hs : t.signed = true) (x : BitVec t.bits) : val t (neg t x) = if val t x = lo t then lo t else - val t x := by
  have h1 := val_fits t x
  have h2 := two_pow t.bits (bits_pos t)
  have e : ((2 : Int) ^ t.bits) = ((2 ^ t.bits : Nat) : Int) := by norm_cast
  have h3 : ∀ z : Int, Fits t z → ((-x).toNat : Int) = z % 2 ^ t.bits → val t (neg t x) = z := fun z hz h => val_eq_of h hz
  have h4 : ((-x).toNat : Int) = (- val t x) % 2 ^ t.bits := by
    have := toInt_mod (-x)
    rw [BitVec.toInt_neg, e, Int.bmod_emod] at this
    simp only [val, hs, if_true]
    rw [e]; exact this.symm
  unfold Fits lo hi at h1
  simp only [hs, if_true] at h1
  have hp : (0 : Int) < 2 ^ (t.bits - 1) := Int.pow_pos (by decide)
  split
  · next h =>
    refine h3 _ ?_ ?_
    · unfold Fits lo hi; simp only [hs, if_true]; omega
    · rw [h4, h]
      simp only [lo, hs, if_true]
      rw [h2]
      have : (- -(2 : Int) ^ (t.bits - 1)) = -(2 : Int) ^ (t.bits - 1) + 2 * 2 ^ (t.bits - 1) * 1 := by omega
      rw [this, Int.add_mul_emod_self_left]
  · next h =>
    refine h3 _ ?_ h4
    unfold lo at h
    unfold Fits lo hi
    simp only [hs, if_true] at h ⊢
    omega

/-- C97. On signed types, and on values of unsigned types below half the range, `abs` gives the absolute value, except for the smallest number of a signed type, which it leaves alone.
Missing: larger values of unsigned types, for which it does not (`abs_unsigned_violated`). -/
theorem abs_partial (t : IntTy) (x : BitVec t.bits) (h : t.signed = true ∨ val t x < 2 ^ (t.bits - 1)) :
    val t (abs t x) = if t.signed = true ∧ val t x = lo t then lo t else if val t x < 0 then - val t x else val t x := by
  cases hs : t.signed with
  | true =>
    unfold abs
    have hl : x.slt 0 = true ↔ val t x < 0 := by
      rw [BitVec.slt_iff_toInt_lt]
      simp [val, hs]
    have hn := neg_exact t hs x
    unfold neg at hn
    by_cases hx : val t x < 0
    · rw [if_pos (hl.mpr hx), hn]
      simp [hx]
    · have : ¬ val t x = lo t := by
        intro he
        rw [he] at hx
        have hp : (0 : Int) < 2 ^ (t.bits - 1) := Int.pow_pos (by decide)
        unfold lo at hx
        simp only [hs, if_true] at hx
        omega
      rw [if_neg (fun h' => hx (hl.mp h'))]
      simp [hx, this]
  | false =>
    have hv : val t x < 2 ^ (t.bits - 1) := h.resolve_left (by simp [hs])
    have h0 : 0 ≤ val t x := by simp only [val, hs]; simp
    have hn : x.slt 0 = false := by
      cases hh : x.slt 0 with
      | false => rfl
      | true =>
        rw [BitVec.slt_iff_toInt_lt] at hh
        rw [BitVec.toInt_eq_toNat_cond] at hh
        have h2 := two_pow t.bits (bits_pos t)
        have e : ((2 : Int) ^ t.bits) = ((2 ^ t.bits : Nat) : Int) := by norm_cast
        simp only [val, hs] at hv
        simp at hv hh
        split at hh <;> omega
    unfold abs
    rw [hn]
    simp
    intro hh
    omega

/-- C97 fails on unsigned types, for every value from half the range on: its negation is returned. (Accepted for vectors, expression.cc 816–822.) -/
theorem abs_unsigned_violated (t : IntTy) (hs : t.signed = false) (x : BitVec t.bits) (hx : 2 ^ (t.bits - 1) < val t x) : val t (abs t x) = 2 ^ t.bits - val t x ∧ val t (abs t x) ≠ val t x := by
  have h2 := two_pow t.bits (bits_pos t)
  have e : ((2 : Int) ^ t.bits) = ((2 ^ t.bits : Nat) : Int) := by norm_cast
  have hf := val_fits t x
  unfold Fits hi at hf
  simp only [hs] at hf
  have hl := x.isLt
  have hn : x.slt 0 = true := by
    rw [BitVec.slt_iff_toInt_lt, BitVec.toInt_eq_toNat_cond]
    simp only [val, hs] at hx
    simp at hx ⊢
    split <;> omega
  have hv : val t (abs t x) = 2 ^ t.bits - val t x := by
    unfold abs
    rw [hn]
    simp only [val, hs] at hx ⊢
    simp at hx ⊢
    rw [Int.emod_eq_of_lt (by omega) (by omega)]
    omega
  exact ⟨hv, by omega⟩

example : val .u32 (abs .u32 3000000000#32) = 1294967296 := by decide +kernel

end Verif.Gen.IntOps
