/-!
# Floating point numbers in scalar and vector code

Comparisons, conversions, `max` and `min` of floating point numbers as the generated code does them: `CodeGen::BinaryOp` (`/repo/rapidudf/compiler/codegen_binary.cc`
128–191, 214–241), `CodeGen::CastTo` (`codegen_cast.cc` 34–90), `CodeGen::NormalizeDType` (`codegen.cc` 194–213).

A floating point number is its bit pattern in an IEEE 754 binary format (binary16, binary32, binary64; the 80-bit format is not covered). The
meaning of the LLVM instructions `fcmp`, `sitofp`, `uitofp`, `fptosi`, `fptoui` and of the intrinsics `maximum`, `minimum` is written down here
from the LLVM language reference and trusted; arithmetic on floating point numbers is not modelled.
-/
namespace Verif.Gen.Flt

/-- A binary interchange format: bits of the exponent, bits of the fraction. -/
structure Fmt where
  eb : Nat
  mb : Nat
  deriving DecidableEq

/-- `DATA_F16`, `DATA_F32`, `DATA_F64` (`meta/dtype_enums.h` 50–52). -/
def f16 : Fmt := ⟨5, 10⟩
def f32 : Fmt := ⟨8, 23⟩
def f64 : Fmt := ⟨11, 52⟩

/-- The exponent bias. -/
def Fmt.bias (F : Fmt) : Nat := 2 ^ (F.eb - 1) - 1

/-- The bits of infinity without the sign. -/
def Fmt.inf (F : Fmt) : Nat := (2 ^ F.eb - 1) * 2 ^ F.mb

/-- A bit pattern: the sign bit, and the other bits as a number. -/
structure Fl (F : Fmt) where
  neg : Bool
  mag : Nat
  lt : mag < 2 ^ (F.eb + F.mb)
  deriving DecidableEq

def Fl.isNaN {F : Fmt} (x : Fl F) : Bool := decide (F.inf < x.mag)

/-- The bit pattern as a signed number; comparing these compares the numbers, which is what the hardware does. -/
def Fl.key {F : Fmt} (x : Fl F) : Int := if x.neg then -(x.mag : Int) else x.mag

/-- The comparison operators of the language. -/
inductive Cmp where
  | eq | ne | lt | le | gt | ge
  deriving DecidableEq

/-- The LLVM `fcmp` predicates used in `codegen_binary.cc` 128–191: `OEQ`, `ONE`, `OLT`, `OLE`, `OGT`, `OGE`. All are ordered: false if an
operand is a NaN. -/
def fcmp {F : Fmt} (op : Cmp) (a b : Fl F) : Bool :=
  !a.isNaN && !b.isNaN && match op with
    | .eq => decide (a.key = b.key)
    | .ne => decide (a.key ≠ b.key)
    | .lt => decide (a.key < b.key)
    | .le => decide (a.key ≤ b.key)
    | .gt => decide (a.key > b.key)
    | .ge => decide (a.key ≥ b.key)

/-- Rounding a quotient to the nearest integer, ties to even (`sitofp`, `uitofp` in the default rounding mode). -/
def roundDiv (n d : Nat) : Nat :=
  let q := n / d
  let r := n % d
  if 2 * r < d then q else if 2 * r > d then q + 1 else if q % 2 = 0 then q else q + 1

/-- The bits of the number an integer is converted to (`uitofp`; `codegen_cast.cc` 42–47), infinity if it is too large. -/
def magOfNat (F : Fmt) (n : Nat) : Nat :=
  if n = 0 then 0
  else
    let l := n.log2
    let q := if l ≤ F.mb then n * 2 ^ (F.mb - l) else roundDiv n (2 ^ (l - F.mb))
    min ((l + F.bias - 1) * 2 ^ F.mb + q) F.inf

theorem inf_lt (F : Fmt) : F.inf < 2 ^ (F.eb + F.mb) := by
  unfold Fmt.inf
  rw [Nat.pow_add]
  have h1 : 0 < 2 ^ F.mb := Nat.two_pow_pos _
  have h2 : 0 < 2 ^ F.eb := Nat.two_pow_pos _
  rw [Nat.sub_mul]
  have : 2 ^ F.mb ≤ 2 ^ F.eb * 2 ^ F.mb := Nat.le_mul_of_pos_left _ h2
  omega

theorem magOfNat_le (F : Fmt) (n : Nat) : magOfNat F n ≤ F.inf := by
  unfold magOfNat
  split
  · exact Nat.zero_le _
  · exact Nat.min_le_right ..

/-- `sitofp` / `uitofp` of an integer with the value `z` (`codegen_cast.cc` 41–47). -/
def ofInt (F : Fmt) (z : Int) : Fl F := ⟨decide (z < 0), magOfNat F z.natAbs, Nat.lt_of_le_of_lt (magOfNat_le F _) (inf_lt F)⟩

/-- `x op y` for an integer and a floating point number: the common type is the floating point type, which comes later in the order of types
(`codegen.cc` 194–213), the integer is converted (`codegen_binary.cc` 300–316). -/
def mixedCmp {F : Fmt} (op : Cmp) (z : Int) (y : Fl F) : Bool := fcmp op (ofInt F z) y

/-! ## Values -/

/-- The absolute value in units of the smallest positive number of the format. Infinity gets the value following the largest finite number. -/
def mval (F : Fmt) (mag : Nat) : Nat :=
  if mag < 2 ^ F.mb then mag else (2 ^ F.mb + mag % 2 ^ F.mb) * 2 ^ (mag / 2 ^ F.mb - 1)

/-- The value of a bit pattern that is not a NaN, in these units. -/
def Fl.value {F : Fmt} (x : Fl F) : Int := if x.neg then -(mval F x.mag : Int) else mval F x.mag

/-- The number one in these units. -/
def Fmt.one (F : Fmt) : Nat := 2 ^ (F.mb + F.bias - 1)

/-- What an operator means for numbers. -/
def Cmp.holds : Cmp → Int → Int → Prop
  | .eq, a, b => a = b
  | .ne, a, b => a ≠ b
  | .lt, a, b => a < b
  | .le, a, b => a ≤ b
  | .gt, a, b => a > b
  | .ge, a, b => a ≥ b

/-! ## The order of the bit patterns is the order of the values -/

theorem mval_lower (F : Fmt) {m : Nat} (h : 2 ^ F.mb ≤ m) : 2 ^ (F.mb + m / 2 ^ F.mb - 1) ≤ mval F m := by
  have hp : 0 < 2 ^ F.mb := Nat.two_pow_pos _
  have hq : 1 ≤ m / 2 ^ F.mb := (Nat.one_le_div_iff hp).mpr h
  unfold mval
  rw [if_neg (by omega), show F.mb + m / 2 ^ F.mb - 1 = F.mb + (m / 2 ^ F.mb - 1) by omega, Nat.pow_add]
  exact Nat.mul_le_mul_right _ (by omega)

theorem mval_upper (F : Fmt) (m : Nat) : mval F m < 2 ^ (F.mb + m / 2 ^ F.mb) := by
  have hp : 0 < 2 ^ F.mb := Nat.two_pow_pos _
  unfold mval
  split
  · rename_i h
    rw [Nat.div_eq_of_lt h]
    simpa using h
  · rename_i h
    have hq : 1 ≤ m / 2 ^ F.mb := (Nat.one_le_div_iff hp).mpr (by omega)
    have hr : m % 2 ^ F.mb < 2 ^ F.mb := Nat.mod_lt _ hp
    rw [show F.mb + m / 2 ^ F.mb = (F.mb + 1) + (m / 2 ^ F.mb - 1) by omega, Nat.pow_add]
    exact Nat.mul_lt_mul_of_pos_right (by rw [Nat.pow_succ]; omega) (Nat.two_pow_pos _)

theorem mval_lt (F : Fmt) {a b : Nat} (h : a < b) : mval F a < mval F b := by
  have hp : 0 < 2 ^ F.mb := Nat.two_pow_pos _
  by_cases hb : b < 2 ^ F.mb
  · unfold mval
    rw [if_pos hb, if_pos (by omega)]
    exact h
  · have hqb : 1 ≤ b / 2 ^ F.mb := (Nat.one_le_div_iff hp).mpr (by omega)
    have hle : a / 2 ^ F.mb ≤ b / 2 ^ F.mb := Nat.div_le_div_right (by omega)
    rcases Nat.lt_or_ge (a / 2 ^ F.mb) (b / 2 ^ F.mb) with hq | hq
    · refine Nat.lt_of_lt_of_le (mval_upper F a) (Nat.le_trans ?_ (mval_lower F (by omega)))
      exact Nat.pow_le_pow_right (by omega) (by omega)
    · have he : a / 2 ^ F.mb = b / 2 ^ F.mb := by omega
      have ha : ¬ a < 2 ^ F.mb := by
        intro ha
        rw [Nat.div_eq_of_lt ha] at he
        omega
      unfold mval
      rw [if_neg ha, if_neg hb, he]
      refine Nat.mul_lt_mul_of_pos_right ?_ (Nat.two_pow_pos _)
      have h1 := Nat.div_add_mod a (2 ^ F.mb)
      have h2 := Nat.div_add_mod b (2 ^ F.mb)
      rw [he] at h1
      omega

theorem mval_lt_iff (F : Fmt) {a b : Nat} : mval F a < mval F b ↔ a < b := by
  refine ⟨fun h => ?_, mval_lt F⟩
  rcases Nat.lt_trichotomy a b with h' | h' | h'
  · exact h'
  · subst h'; omega
  · have := mval_lt F h'; omega

theorem mval_zero (F : Fmt) : mval F 0 = 0 := by
  unfold mval
  rw [if_pos (Nat.two_pow_pos _)]

theorem mval_eq_iff (F : Fmt) {a b : Nat} : mval F a = mval F b ↔ a = b := by
  have h1 := mval_lt_iff F (a := a) (b := b)
  have h2 := mval_lt_iff F (a := b) (b := a)
  omega

theorem key_lt {F : Fmt} (a b : Fl F) : a.key < b.key ↔ a.value < b.value := by
  unfold Fl.key Fl.value
  have h1 := mval_lt_iff F (a := a.mag) (b := b.mag)
  have h2 := mval_lt_iff F (a := b.mag) (b := a.mag)
  have h3 := mval_lt_iff F (a := 0) (b := a.mag)
  have h4 := mval_lt_iff F (a := 0) (b := b.mag)
  rw [mval_zero] at h3 h4
  split <;> split <;> omega

theorem key_eq {F : Fmt} (a b : Fl F) : a.key = b.key ↔ a.value = b.value := by
  have h1 := key_lt a b
  have h2 := key_lt b a
  omega

/-! ## C112: comparisons -/

/-- **C112** (partial: all operators on numbers, and all but `!=` on NaNs; the full claim is refuted by `float_ne_nan_violated`). Comparing two
floating point numbers compares their values; comparisons with a NaN are false. -/
theorem float_compare_partial {F : Fmt} (op : Cmp) (a b : Fl F) :
    (a.isNaN = false → b.isNaN = false → (fcmp op a b = true ↔ op.holds a.value b.value)) ∧
    (a.isNaN = true ∨ b.isNaN = true → op ≠ .ne → fcmp op a b = false) := by
  refine ⟨fun ha hb => ?_, fun h _ => ?_⟩
  · have h1 := key_lt a b
    have h2 := key_lt b a
    have h3 := key_eq a b
    unfold fcmp
    rw [ha, hb]
    cases op <;> simp [Cmp.holds] <;> omega
  · unfold fcmp
    rcases h with h | h <;> rw [h] <;> simp

/-- **C112, negation of the full claim.** A NaN is not equal to anything, itself included, but `!=` says false as `==` does. -/
theorem float_ne_nan_violated {F : Fmt} (a b : Fl F) (h : a.isNaN = true ∨ b.isNaN = true) :
    fcmp .ne a b = false ∧ fcmp .eq a b = false := by
  unfold fcmp
  rcases h with h | h <;> rw [h] <;> simp

/-- There are NaNs. -/
example : (⟨false, 0x7FC00000, by decide⟩ : Fl f32).isNaN = true := by decide

/-- `1.0 < 1.5`, `-0.0 == 0.0`. -/
example : fcmp .lt (⟨false, 0x3F800000, by decide⟩ : Fl f32) ⟨false, 0x3FC00000, by decide⟩ = true ∧
    fcmp .eq (⟨true, 0, by decide⟩ : Fl f32) ⟨false, 0, by decide⟩ = true ∧
    (⟨false, 0x3FC00000, by decide⟩ : Fl f32).value = 3 * 2 ^ (f32.mb + f32.bias - 2) := by decide +kernel

/-! ## C113: an integer and a floating point number -/

theorem roundDiv_bounds (n d : Nat) : n / d ≤ roundDiv n d ∧ roundDiv n d ≤ n / d + 1 := by
  unfold roundDiv
  dsimp only
  split
  · omega
  · split
    · omega
    · split <;> omega

/-- The value of the bits made from an exponent and a significand, the carry included. -/
theorem mval_encode (F : Fmt) (e q : Nat) (h1 : 2 ^ F.mb ≤ q) (h2 : q ≤ 2 ^ (F.mb + 1)) : mval F (e * 2 ^ F.mb + q) = q * 2 ^ e := by
  have hp : 0 < 2 ^ F.mb := Nat.two_pow_pos _
  have hs : 2 ^ (F.mb + 1) = 2 * 2 ^ F.mb := by rw [Nat.pow_succ]; omega
  unfold mval
  have hlow : 0 ≤ e * 2 ^ F.mb := Nat.zero_le _
  rw [if_neg (by omega)]
  by_cases hq : q = 2 ^ (F.mb + 1)
  · have : e * 2 ^ F.mb + q = 2 ^ F.mb * (e + 2) := by rw [hq, hs]; rw [Nat.mul_comm e, ← Nat.mul_comm (2 ^ F.mb) 2, ← Nat.mul_add]
    rw [this, Nat.mul_mod_right, Nat.mul_div_cancel_left _ hp, hq, Nat.add_zero, show e + 2 - 1 = 1 + e by omega, Nat.pow_add, hs]
    rw [← Nat.mul_assoc]
    congr 1
  · obtain ⟨r, rfl⟩ := Nat.exists_eq_add_of_le h1
    have hr : r < 2 ^ F.mb := by omega
    have : e * 2 ^ F.mb + (2 ^ F.mb + r) = r + 2 ^ F.mb * (e + 1) := by
      rw [Nat.mul_add, Nat.mul_one, Nat.mul_comm]; omega
    rw [this, Nat.add_mul_mod_self_left, Nat.mod_eq_of_lt hr, Nat.add_mul_div_left _ _ hp, Nat.div_eq_of_lt hr]
    congr 2
    omega

/-- The significand an integer is converted to. -/
def sig (F : Fmt) (n : Nat) : Nat := if n.log2 ≤ F.mb then n * 2 ^ (F.mb - n.log2) else roundDiv n (2 ^ (n.log2 - F.mb))

theorem sig_bounds (F : Fmt) {n : Nat} (hn : n ≠ 0) : 2 ^ F.mb ≤ sig F n ∧ sig F n ≤ 2 ^ (F.mb + 1) := by
  have h1 : 2 ^ n.log2 ≤ n := Nat.log2_self_le hn
  have h2 : n < 2 ^ (n.log2 + 1) := Nat.lt_log2_self
  unfold sig
  split
  · rename_i hl
    have e1 : 2 ^ F.mb = 2 ^ n.log2 * 2 ^ (F.mb - n.log2) := by rw [← Nat.pow_add]; congr 1; omega
    have e2 : 2 ^ (F.mb + 1) = 2 ^ (n.log2 + 1) * 2 ^ (F.mb - n.log2) := by rw [← Nat.pow_add]; congr 1; omega
    rw [e2]
    refine ⟨?_, Nat.mul_le_mul_right _ (Nat.le_of_lt h2)⟩
    rw [e1]
    exact Nat.mul_le_mul_right _ h1
  · rename_i hl
    have hp : 0 < 2 ^ (n.log2 - F.mb) := Nat.two_pow_pos _
    have hb := roundDiv_bounds n (2 ^ (n.log2 - F.mb))
    have hlo : 2 ^ F.mb ≤ n / 2 ^ (n.log2 - F.mb) := by
      rw [Nat.le_div_iff_mul_le hp, ← Nat.pow_add]
      rwa [show F.mb + (n.log2 - F.mb) = n.log2 by omega]
    have hhi : n / 2 ^ (n.log2 - F.mb) < 2 ^ (F.mb + 1) := by
      rw [Nat.div_lt_iff_lt_mul hp, ← Nat.pow_add]
      rwa [show F.mb + 1 + (n.log2 - F.mb) = n.log2 + 1 by omega]
    omega

theorem magOfNat_eq (F : Fmt) {n : Nat} (hn : n ≠ 0) : magOfNat F n = min ((n.log2 + F.bias - 1) * 2 ^ F.mb + sig F n) F.inf := by
  unfold magOfNat sig
  rw [if_neg hn]

/-- Numbers of the format that are not small are multiples of large powers of two. -/
theorem mval_dvd (F : Fmt) {m k : Nat} (h : 2 ^ (F.mb + k) ≤ mval F m) : 2 ^ k ∣ mval F m := by
  by_cases hk : k = 0
  · subst hk; simp
  have hu := mval_upper F m
  have hlt : F.mb + k < F.mb + m / 2 ^ F.mb := by
    apply (Nat.pow_lt_pow_iff_right (a := 2) (by omega)).mp
    omega
  have hm : ¬ m < 2 ^ F.mb := by
    intro hm
    rw [Nat.div_eq_of_lt hm] at hlt
    omega
  unfold mval
  rw [if_neg hm]
  exact Nat.dvd_trans (Nat.pow_dvd_pow 2 (by omega)) (Nat.dvd_mul_left _ _)

/-- Conversion never crosses a number of the format. -/
theorem conv_faithful (F : Fmt) (hb : 1 ≤ F.bias) {n : Nat} (hn : n ≠ 0) (m : Nat) :
    (n * F.one < mval F m → (n.log2 + F.bias - 1) * 2 ^ F.mb + sig F n ≤ m) ∧
    (mval F m < n * F.one → m ≤ (n.log2 + F.bias - 1) * 2 ^ F.mb + sig F n) ∧
    (n * F.one = mval F m → m = (n.log2 + F.bias - 1) * 2 ^ F.mb + sig F n) ∧
    (n ≤ 2 ^ (F.mb + 1) → mval F ((n.log2 + F.bias - 1) * 2 ^ F.mb + sig F n) = n * F.one) := by
  obtain ⟨hs1, hs2⟩ := sig_bounds F hn
  have hv := mval_encode F (n.log2 + F.bias - 1) (sig F n) hs1 hs2
  generalize hM : (n.log2 + F.bias - 1) * 2 ^ F.mb + sig F n = M at *
  have g1 := mval_lt_iff F (a := m) (b := M)
  have g2 := mval_lt_iff F (a := M) (b := m)
  have h1 : 2 ^ n.log2 ≤ n := Nat.log2_self_le hn
  have h2 : n < 2 ^ (n.log2 + 1) := Nat.lt_log2_self
  by_cases hl : n.log2 ≤ F.mb
  · have he : mval F M = n * F.one := by
      rw [hv]
      unfold sig Fmt.one
      rw [if_pos hl, Nat.mul_assoc, ← Nat.pow_add]
      congr 2
      omega
    refine ⟨fun h => by omega, fun h => by omega, fun h => by omega, fun _ => he⟩
  · have hU : 2 ^ (n.log2 - F.mb) * F.one = 2 ^ (n.log2 + F.bias - 1) := by
      unfold Fmt.one
      rw [← Nat.pow_add]
      congr 1
      omega
    have hp : 0 < 2 ^ (n.log2 - F.mb) := Nat.two_pow_pos _
    have ho : 0 < F.one := Nat.two_pow_pos _
    have hsig : sig F n = roundDiv n (2 ^ (n.log2 - F.mb)) := by unfold sig; rw [if_neg hl]
    have hb := roundDiv_bounds n (2 ^ (n.log2 - F.mb))
    have hlo : 2 ^ F.mb ≤ n / 2 ^ (n.log2 - F.mb) := by
      rw [Nat.le_div_iff_mul_le hp, ← Nat.pow_add]
      rwa [show F.mb + (n.log2 - F.mb) = n.log2 by omega]
    have hdm := Nat.div_add_mod n (2 ^ (n.log2 - F.mb))
    have hml := Nat.mod_lt n hp
    generalize hQ : n / 2 ^ (n.log2 - F.mb) = Q at *
    generalize hR : n % 2 ^ (n.log2 - F.mb) = R at *
    generalize hS : 2 ^ (n.log2 - F.mb) = S at *
    generalize hUU : 2 ^ (n.log2 + F.bias - 1) = U at *
    -- n * one lies between Q * U and (Q + 1) * U
    have hn1 : Q * U ≤ n * F.one := by
      rw [← hU, ← Nat.mul_assoc]
      exact Nat.mul_le_mul_right _ (by rw [Nat.mul_comm]; omega)
    have hn2 : n * F.one < (Q + 1) * U := by
      rw [← hU, ← Nat.mul_assoc]
      refine Nat.mul_lt_mul_of_pos_right ?_ ho
      rw [Nat.add_mul, Nat.one_mul, Nat.mul_comm]
      omega
    have hdvd : Q * U ≤ mval F m → U ∣ mval F m := by
      intro h
      rw [← hUU]
      apply mval_dvd
      rw [Nat.pow_add, hUU]
      exact Nat.le_trans (Nat.mul_le_mul_right _ hlo) h
    have hq : sig F n = Q ∨ sig F n = Q + 1 := by omega
    have hqU : mval F M = Q * U ∨ mval F M = (Q + 1) * U := by
      rcases hq with h | h <;> rw [hv, h] <;> simp
    have hstep : (Q + 1) * U = Q * U + U := by rw [Nat.add_mul, Nat.one_mul]
    have hUpos : 0 < U := by rw [← hUU]; exact Nat.two_pow_pos _
    have hmult : ∀ x, U ∣ x → x < (Q + 1) * U → x ≤ Q * U := by
      intro x ⟨k, hk⟩ hx
      subst hk
      rw [Nat.mul_comm U k] at hx ⊢
      have := Nat.lt_of_mul_lt_mul_right hx
      exact Nat.mul_le_mul_right _ (by omega)
    refine ⟨fun h => ?_, fun h => ?_, fun h => ?_, fun h => ?_⟩
    · have hd := hdvd (by omega)
      have : (Q + 1) * U ≤ mval F m := by
        rcases Nat.lt_or_ge (mval F m) ((Q + 1) * U) with hc | hc
        · have := hmult _ hd hc; omega
        · exact hc
      omega
    · rcases Nat.lt_or_ge (mval F m) (Q * U) with hc | hc
      · omega
      · have := hmult _ (hdvd hc) (by omega)
        omega
    · have hd := hdvd (by omega)
      have := hmult _ hd (by omega)
      have he : n * F.one = Q * U := by omega
      have hne : n = Q * S := by
        rw [← hU, ← Nat.mul_assoc] at he
        exact Nat.eq_of_mul_eq_mul_right ho he
      have hR0 : R = 0 := by
        rw [Nat.mul_comm] at hne
        omega
      have hsg : sig F n = Q := by
        rw [hsig]
        unfold roundDiv
        dsimp only
        rw [hQ, hR, hR0]
        simp [hp]
      have hM2 : mval F M = Q * U := by rw [hv, hsg]
      have := mval_eq_iff F (a := m) (b := M)
      omega
    · -- n = 2 ^ (mb + 1)
      have hge : F.mb + 1 ≤ n.log2 := by omega
      have : 2 ^ (F.mb + 1) ≤ 2 ^ n.log2 := Nat.pow_le_pow_right (by omega) hge
      have hne : n = 2 ^ (F.mb + 1) := by omega
      have hlog : n.log2 = F.mb + 1 := by rw [hne, Nat.log2_two_pow]
      have hS2 : S = 2 := by rw [← hS, hlog]; simp
      have hQ2 : Q = 2 ^ F.mb := by
        rw [← hQ, hne, hS2, Nat.pow_succ, Nat.mul_div_cancel _ (by omega)]
      have hR0 : R = 0 := by
        rw [← hR, hne, hS2, Nat.pow_succ, Nat.mul_mod_left]
      have hsg : sig F n = Q := by
        rw [hsig]
        unfold roundDiv
        dsimp only
        rw [hQ, hR, hR0]
        simp [hp]
      rw [hv, hsg, ← hU, hS2, hQ2, hne, Nat.pow_succ, Nat.mul_assoc]

/-- The formats in use: the exponent range is wide enough for the significand. -/
structure Fmt.Ok (F : Fmt) : Prop where
  bias_pos : 1 ≤ F.bias
  mb_le : F.mb ≤ F.bias

theorem f16_ok : f16.Ok := by constructor <;> decide
theorem f32_ok : f32.Ok := by constructor <;> decide
theorem f64_ok : f64.Ok := by constructor <;> decide

theorem mval_inf {F : Fmt} (hF : F.Ok) : mval F F.inf = 2 ^ (F.bias + 1) * F.one := by
  have hp : 0 < 2 ^ F.mb := Nat.two_pow_pos _
  have hb := hF.bias_pos
  have heb : 2 ≤ F.eb := by
    unfold Fmt.bias at hb
    rcases Nat.lt_or_ge F.eb 2 with h | h
    · have : F.eb - 1 = 0 := by omega
      rw [this] at hb
      simp at hb
    · exact h
  have he : 2 ^ F.eb = 2 * F.bias + 2 := by
    unfold Fmt.bias at hb ⊢
    rw [show F.eb = (F.eb - 1) + 1 by omega, Nat.pow_succ]
    simp only [Nat.add_sub_cancel]
    omega
  have hi : F.inf = (F.eb * 0 + (2 * F.bias)) * 2 ^ F.mb + 2 ^ F.mb := by
    unfold Fmt.inf
    rw [he, show 2 * F.bias + 2 - 1 = F.eb * 0 + 2 * F.bias + 1 by omega, Nat.add_mul, Nat.one_mul]
  rw [hi, mval_encode F _ _ (Nat.le_refl _) (by rw [Nat.pow_succ]; omega)]
  unfold Fmt.one
  rw [← Nat.pow_add, ← Nat.pow_add]
  congr 1
  omega

theorem conv_nat {F : Fmt} (hF : F.Ok) (n m : Nat) (hm : m ≤ F.inf) :
    (n * F.one < mval F m → magOfNat F n ≤ m) ∧ (mval F m < n * F.one → m ≤ magOfNat F n) ∧ (n * F.one = mval F m → m = magOfNat F n) ∧
    (n ≤ 2 ^ (F.mb + 1) → mval F (magOfNat F n) = n * F.one) := by
  by_cases hn : n = 0
  · subst hn
    have h0 : magOfNat F 0 = 0 := by simp [magOfNat]
    have hz := mval_zero F
    have := mval_eq_iff F (a := m) (b := 0)
    rw [h0, Nat.zero_mul]
    refine ⟨fun _ => by omega, fun _ => by omega, fun _ => by omega, fun _ => hz⟩
  · obtain ⟨h1, h2, h3, h4⟩ := conv_faithful F hF.bias_pos hn m
    rw [magOfNat_eq F hn]
    refine ⟨fun h => ?_, fun h => ?_, fun h => ?_, fun h => ?_⟩
    · have := h1 h; omega
    · have := h2 h; omega
    · have := h3 h; omega
    · have h4 := h4 h
      have hlt : mval F ((n.log2 + F.bias - 1) * 2 ^ F.mb + sig F n) ≤ mval F F.inf := by
        rw [h4, mval_inf hF]
        refine Nat.mul_le_mul_right _ (Nat.le_trans h ?_)
        exact Nat.pow_le_pow_right (by omega) (by have := hF.mb_le; omega)
      have hle : (n.log2 + F.bias - 1) * 2 ^ F.mb + sig F n ≤ F.inf := by
        have := mval_lt_iff F (a := F.inf) (b := (n.log2 + F.bias - 1) * 2 ^ F.mb + sig F n)
        omega
      rw [Nat.min_eq_left hle]
      exact h4

theorem conv_int {F : Fmt} (hF : F.Ok) (z : Int) (y : Fl F) (hy : y.isNaN = false) :
    (z * F.one < y.value → (ofInt F z).key ≤ y.key) ∧ (y.value < z * F.one → y.key ≤ (ofInt F z).key) ∧
    (z * F.one = y.value → (ofInt F z).key = y.key) ∧ (z.natAbs ≤ 2 ^ (F.mb + 1) → (ofInt F z).value = z * F.one) := by
  have hm : y.mag ≤ F.inf := by
    unfold Fl.isNaN at hy
    simp at hy
    exact hy
  obtain ⟨h1, h2, h3, h4⟩ := conv_nat hF z.natAbs y.mag hm
  have h5 : magOfNat F 0 = 0 := by simp [magOfNat]
  have h6 := mval_zero F
  have h7 := mval_lt_iff F (a := 0) (b := y.mag)
  have ho : 0 < F.one := Nat.two_pow_pos _
  unfold ofInt Fl.key Fl.value
  dsimp only
  by_cases hz : z < 0
  · have hz1 : z * (F.one : Int) = -((z.natAbs * F.one : Nat) : Int) := by
      rw [Int.natCast_mul, Int.ofNat_natAbs_of_nonpos (by omega), Int.neg_mul, Int.neg_neg]
    have hpos : 0 < z.natAbs * F.one := Nat.mul_pos (by omega) ho
    rw [hz1]
    generalize z.natAbs * F.one = w at *
    simp only [hz, decide_true, if_true]
    refine ⟨?_, ?_, ?_, ?_⟩
    · split <;> intro h <;> omega
    · split <;> intro h <;> omega
    · split <;> intro h <;> omega
    · intro h; have := h4 h; omega
  · have hz1 : z * (F.one : Int) = ((z.natAbs * F.one : Nat) : Int) := by
      rw [Int.natCast_mul, Int.natAbs_of_nonneg (by omega)]
    rw [hz1]
    have h0 : z.natAbs * F.one = 0 → magOfNat F z.natAbs = 0 := by
      intro h
      have : z.natAbs = 0 := by
        rcases Nat.mul_eq_zero.mp h with h | h
        · exact h
        · omega
      rw [this, h5]
    generalize z.natAbs * F.one = w at *
    simp only [hz, decide_false, Bool.false_eq_true, if_false]
    refine ⟨?_, ?_, ?_, ?_⟩
    · split <;> intro h <;> omega
    · split <;> intro h <;> omega
    · split <;> intro h
      · have : mval F y.mag = 0 := by omega
        have hw : w = 0 := by omega
        have := h0 hw
        omega
      · omega
    · intro h; have := h4 h; omega

theorem ofInt_not_nan (F : Fmt) (z : Int) : (ofInt F z).isNaN = false := by
  have := magOfNat_le F z.natAbs
  exact decide_eq_false (Nat.not_lt.mpr this)

/-- **C113** (partial: integers of at most `mb + 1` bits — all 32-bit integers for binary64; the full claim is refuted by
`mixed_compare_violated`). Comparing an integer with a floating point number compares their values. -/
theorem mixed_compare_partial {F : Fmt} (hF : F.Ok) (op : Cmp) (z : Int) (y : Fl F) (hy : y.isNaN = false) (hz : z.natAbs ≤ 2 ^ (F.mb + 1)) :
    mixedCmp op z y = true ↔ op.holds (z * F.one) y.value := by
  have h := (float_compare_partial op (ofInt F z) y).1 (ofInt_not_nan F z) hy
  rw [(conv_int hF z y hy).2.2.2 hz] at h
  exact h

/-- **C113** (partial: what is left of the order for all integers of the format's range, e.g. all 64-bit integers for binary32 and binary64).
Comparisons are never reversed: a strict comparison that says yes is right, and a comparison that includes equality says yes whenever it
should. -/
theorem mixed_compare_order_partial {F : Fmt} (hF : F.Ok) (z : Int) (y : Fl F) (hy : y.isNaN = false) (_hz : z.natAbs < 2 ^ (F.bias + 1)) :
    (mixedCmp .lt z y = true → z * F.one < y.value) ∧ (mixedCmp .gt z y = true → z * F.one > y.value) ∧
    (z * F.one ≤ y.value → mixedCmp .le z y = true) ∧ (z * F.one ≥ y.value → mixedCmp .ge z y = true) ∧
    (z * F.one = y.value → mixedCmp .eq z y = true) := by
  obtain ⟨h1, h2, h3, _⟩ := conv_int hF z y hy
  have hx := ofInt_not_nan F z
  unfold mixedCmp fcmp
  rw [hx, hy]
  simp only [Bool.not_false, Bool.true_and, decide_eq_true_eq]
  refine ⟨fun h => ?_, fun h => ?_, fun h => ?_, fun h => ?_, fun h => h3 h⟩ <;> omega

/-- **C113, negation of the full claim.** `9007199254740993 == 9007199254740992.0` as `i64` and `f64`, and `16777217 == 16777216.0` as `i32` and
`f32`, say yes. -/
theorem mixed_compare_violated :
    (∃ y : Fl f64, y.isNaN = false ∧ y.value = (2 ^ 53 : Int) * f64.one ∧ mixedCmp .eq (2 ^ 53 + 1) y = true) ∧
    (∃ y : Fl f32, y.isNaN = false ∧ y.value = (2 ^ 24 : Int) * f32.one ∧ mixedCmp .eq (2 ^ 24 + 1) y = true) := by
  refine ⟨⟨ofInt f64 (2 ^ 53), ?_⟩, ⟨ofInt f32 (2 ^ 24), ?_⟩⟩
  · refine ⟨ofInt_not_nan _ _, (conv_int f64_ok (2 ^ 53) (ofInt f64 0) (ofInt_not_nan _ _)).2.2.2 (by decide +kernel), by decide +kernel⟩
  · refine ⟨ofInt_not_nan _ _, (conv_int f32_ok (2 ^ 24) (ofInt f32 0) (ofInt_not_nan _ _)).2.2.2 (by decide +kernel), by decide +kernel⟩

/-- All 32-bit integers can be compared with binary64 numbers, all 16-bit integers with binary32 numbers. -/
example (z : Int) (h : -2 ^ 31 ≤ z ∧ z < 2 ^ 32) : z.natAbs ≤ 2 ^ (f64.mb + 1) := by
  simp only [f64]; omega
example (z : Int) (h : -2 ^ 15 ≤ z ∧ z < 2 ^ 16) : z.natAbs ≤ 2 ^ (f32.mb + 1) := by
  simp only [f32]; omega

/-! ## C114: from floating point numbers to integers -/

/-- `fptosi`, `fptoui` to `w` bits (`codegen_cast.cc` 64–69): rounding toward zero; `none`: the value does not fit, the result is poison. -/
def toInt {F : Fmt} (signed : Bool) (w : Nat) (x : Fl F) : Option Int :=
  if F.inf ≤ x.mag then none
  else
    let t : Int := if x.neg then -((mval F x.mag / F.one : Nat) : Int) else (mval F x.mag / F.one : Nat)
    let lo : Int := if signed then -2 ^ (w - 1) else 0
    let hi : Int := if signed then 2 ^ (w - 1) else 2 ^ w
    if lo ≤ t ∧ t < hi then some t else none

/-- `r` is the number `v / one` without its fraction. -/
def Truncated (one v r : Int) : Prop := (0 ≤ v → r * one ≤ v ∧ v < (r + 1) * one) ∧ (v < 0 → v ≤ r * one ∧ (r - 1) * one < v)

/-- The integers of a type. -/
def Fits (signed : Bool) (w : Nat) (r : Int) : Prop := if signed then -2 ^ (w - 1) ≤ r ∧ r < 2 ^ (w - 1) else 0 ≤ r ∧ r < 2 ^ w

theorem truncated_unique {one v r s : Int} (ho : 0 < one) (hr : Truncated one v r) (hs : Truncated one v s) : r = s := by
  unfold Truncated at *
  by_cases hv : 0 ≤ v
  · have h1 := hr.1 hv
    have h2 := hs.1 hv
    have a := Int.lt_of_mul_lt_mul_right (Int.lt_of_le_of_lt h1.1 h2.2) (by omega)
    have b := Int.lt_of_mul_lt_mul_right (Int.lt_of_le_of_lt h2.1 h1.2) (by omega)
    omega
  · have h1 := hr.2 (by omega)
    have h2 := hs.2 (by omega)
    have a := Int.lt_of_mul_lt_mul_right (Int.lt_of_lt_of_le h1.2 h2.1) (by omega)
    have b := Int.lt_of_mul_lt_mul_right (Int.lt_of_lt_of_le h2.2 h1.1) (by omega)
    omega

theorem trunc_ok {F : Fmt} (x : Fl F) :
    Truncated F.one x.value (if x.neg then -((mval F x.mag / F.one : Nat) : Int) else (mval F x.mag / F.one : Nat)) := by
  have ho : 0 < F.one := Nat.two_pow_pos _
  have h1 := Nat.div_add_mod (mval F x.mag) F.one
  have h2 := Nat.mod_lt (mval F x.mag) ho
  generalize hq : mval F x.mag / F.one = q at *
  generalize hr : mval F x.mag % F.one = r at *
  have hc : ((F.one * q : Nat) : Int) = (q : Int) * F.one := by rw [Int.natCast_mul, Int.mul_comm]
  unfold Truncated Fl.value
  split
  · rw [Int.neg_mul, Int.sub_mul, Int.one_mul, Int.add_mul, Int.one_mul, Int.neg_mul]
    omega
  · rw [Int.sub_mul, Int.one_mul, Int.add_mul, Int.one_mul]
    omega

/-- **C114** (partial: finite numbers whose integer part fits; the full claim, that every conversion has a defined result, is refuted by
`float_to_int_violated`). Converting a floating point number to an integer drops the fraction. -/
theorem float_to_int_partial {F : Fmt} (signed : Bool) (w : Nat) (x : Fl F) (r : Int) (hx : x.mag < F.inf) (ht : Truncated F.one x.value r)
    (hf : Fits signed w r) : toInt signed w x = some r := by
  have ho : (0 : Int) < F.one := by have : 0 < F.one := Nat.two_pow_pos _; omega
  have he := truncated_unique ho ht (trunc_ok x)
  unfold toInt
  rw [if_neg (by omega)]
  dsimp only
  rw [← he, if_pos]
  unfold Fits at hf
  cases signed <;> simpa using hf

/-- **C114, negation of the full claim.** Exactly for NaNs, infinities and numbers whose integer part does not fit, the result is undefined. -/
theorem float_to_int_violated {F : Fmt} (signed : Bool) (w : Nat) (x : Fl F) :
    toInt signed w x = none ↔ F.inf ≤ x.mag ∨ ∀ r, Truncated F.one x.value r → ¬ Fits signed w r := by
  have ho : (0 : Int) < F.one := by have : 0 < F.one := Nat.two_pow_pos _; omega
  constructor
  · intro h
    rcases Nat.lt_or_ge x.mag F.inf with hx | hx
    · right
      intro r hr hf
      rw [float_to_int_partial signed w x r hx hr hf] at h
      cases h
    · exact .inl hx
  · intro h
    unfold toInt
    split
    · rfl
    · rename_i hx
      rcases h with h | h
      · exact absurd h hx
      · have hn := h _ (trunc_ok x)
        dsimp only
        rw [if_neg]
        intro hb
        apply hn
        unfold Fits
        cases signed <;> simpa using hb

/-- `1.5` becomes `1`, `-1.5` becomes `-1`, `3e9` as a 32-bit integer and `-1.0` as an unsigned one are undefined. -/
example : toInt true 32 (⟨false, 0x3FC00000, by decide⟩ : Fl f32) = some 1 ∧ toInt true 32 (⟨true, 0x3FC00000, by decide⟩ : Fl f32) = some (-1) ∧
    toInt true 32 (ofInt f64 3000000000) = none ∧ toInt false 32 (ofInt f64 (-1)) = none ∧ toInt false 32 (ofInt f64 3000000000) = some 3000000000 := by
  decide +kernel

/-- Integers that fit into the significand survive the way to a floating point number and back. -/
theorem int_float_int {F : Fmt} (hF : F.Ok) (signed : Bool) (w : Nat) (z : Int) (hz : z.natAbs ≤ 2 ^ (F.mb + 1)) (hf : Fits signed w z)
    (hfin : z.natAbs < 2 ^ (F.bias + 1)) : toInt signed w (ofInt F z) = some z := by
  have hv := (conv_int hF z (ofInt F z) (ofInt_not_nan _ _)).2.2.2 hz
  have ho : (0 : Int) < F.one := by have : 0 < F.one := Nat.two_pow_pos _; omega
  apply float_to_int_partial
  · have h1 : mval F (magOfNat F z.natAbs) = z.natAbs * F.one := (conv_nat hF z.natAbs 0 (Nat.zero_le _)).2.2.2 hz
    have h2 := mval_inf hF
    have h3 : z.natAbs * F.one < 2 ^ (F.bias + 1) * F.one := Nat.mul_lt_mul_of_pos_right hfin (Nat.two_pow_pos _)
    exact (mval_lt_iff F).mp (by rw [h2]; show mval F (magOfNat F z.natAbs) < _; rw [h1]; exact h3)
  · rw [hv]
    unfold Truncated
    rw [Int.add_mul, Int.sub_mul, Int.one_mul]
    omega
  · exact hf

/-! ## C115: max and min -/

/-- The total order of `llvm.maximum` and `llvm.minimum`: `-0.0 < +0.0`. -/
def Fl.tkey {F : Fmt} (x : Fl F) : Int := if x.neg then -(x.mag : Int) - 1 else x.mag

/-- `llvm.maximum` (`codegen_binary.cc` 214–227): a NaN if an operand is one. -/
def fmax {F : Fmt} (a b : Fl F) : Fl F := if a.isNaN then a else if b.isNaN then b else if a.tkey < b.tkey then b else a

/-- `llvm.minimum` (`codegen_binary.cc` 228–241). -/
def fmin {F : Fmt} (a b : Fl F) : Fl F := if a.isNaN then a else if b.isNaN then b else if b.tkey < a.tkey then b else a

/-- `llvm.smax`, `llvm.umax` (215–220) and `llvm.smin`, `llvm.umin` (229–234). -/
def imax {w : Nat} (signed : Bool) (a b : BitVec w) : BitVec w := if (if signed then b.sle a else b.ule a) then a else b
def imin {w : Nat} (signed : Bool) (a b : BitVec w) : BitVec w := if (if signed then a.sle b else a.ule b) then a else b

theorem tkey_value {F : Fmt} (a b : Fl F) : (a.tkey < b.tkey → a.value ≤ b.value) ∧ (¬ a.tkey < b.tkey → b.value ≤ a.value) := by
  have h1 := mval_lt_iff F (a := a.mag) (b := b.mag)
  have h2 := mval_lt_iff F (a := b.mag) (b := a.mag)
  have h3 := mval_lt_iff F (a := 0) (b := a.mag)
  have h4 := mval_lt_iff F (a := 0) (b := b.mag)
  rw [mval_zero] at h3 h4
  unfold Fl.tkey Fl.value
  split <;> split <;> omega

/-- **C115.** `max` of two floating point numbers is a NaN if one of them is, otherwise one of the two with the larger value, `+0.0` rather than
`-0.0`. -/
theorem max_float {F : Fmt} (a b : Fl F) :
    ((fmax a b).isNaN = true ↔ a.isNaN = true ∨ b.isNaN = true) ∧
    (a.isNaN = false → b.isNaN = false → (fmax a b = a ∨ fmax a b = b) ∧ a.value ≤ (fmax a b).value ∧ b.value ≤ (fmax a b).value ∧
      ((fmax a b).mag = 0 → (fmax a b).neg = true → (a.mag = 0 → a.neg = true) ∧ (b.mag = 0 → b.neg = true))) := by
  have h := tkey_value a b
  constructor
  · unfold fmax
    cases ha : a.isNaN <;> cases hb : b.isNaN <;> simp [ha, hb]
    split <;> assumption
  · intro ha hb
    unfold fmax
    simp only [ha, hb, Bool.false_eq_true, if_false]
    split
    · rename_i ht
      refine ⟨.inr rfl, h.1 ht, Int.le_refl _, fun hm hn => ⟨fun ha0 => ?_, fun _ => hn⟩⟩
      unfold Fl.tkey at ht
      rw [hm, hn, ha0] at ht
      cases hna : a.neg
      · simp [hna] at ht
      · rfl
    · rename_i ht
      refine ⟨.inl rfl, Int.le_refl _, h.2 ht, fun hm hn => ⟨fun _ => hn, fun hb0 => ?_⟩⟩
      unfold Fl.tkey at ht
      rw [hm, hn, hb0] at ht
      cases hnb : b.neg
      · simp [hnb] at ht
      · rfl

/-- **C115.** `min` of two floating point numbers, likewise, `-0.0` rather than `+0.0`. -/
theorem min_float {F : Fmt} (a b : Fl F) :
    ((fmin a b).isNaN = true ↔ a.isNaN = true ∨ b.isNaN = true) ∧
    (a.isNaN = false → b.isNaN = false → (fmin a b = a ∨ fmin a b = b) ∧ (fmin a b).value ≤ a.value ∧ (fmin a b).value ≤ b.value ∧
      ((fmin a b).mag = 0 → (fmin a b).neg = false → (a.mag = 0 → a.neg = false) ∧ (b.mag = 0 → b.neg = false))) := by
  have h := tkey_value b a
  constructor
  · unfold fmin
    cases ha : a.isNaN <;> cases hb : b.isNaN <;> simp [ha, hb]
    split <;> assumption
  · intro ha hb
    unfold fmin
    simp only [ha, hb, Bool.false_eq_true, if_false]
    split
    · rename_i ht
      refine ⟨.inr rfl, h.1 ht, Int.le_refl _, fun hm hn => ⟨fun ha0 => ?_, fun _ => hn⟩⟩
      unfold Fl.tkey at ht
      rw [hm, hn, ha0] at ht
      cases hna : a.neg
      · rfl
      · simp [hna] at ht
    · rename_i ht
      refine ⟨.inl rfl, Int.le_refl _, h.2 ht, fun hm hn => ⟨fun _ => hn, fun hb0 => ?_⟩⟩
      unfold Fl.tkey at ht
      rw [hm, hn, hb0] at ht
      cases hnb : b.neg
      · rfl
      · simp [hnb] at ht

/-- The number the bits of an integer stand for. -/
def ival {w : Nat} (signed : Bool) (a : BitVec w) : Int := if signed then a.toInt else a.toNat

/-- **C115.** `max` and `min` of two integers of one type are one of the two, the larger and the smaller. -/
theorem max_min_int {w : Nat} (signed : Bool) (a b : BitVec w) :
    (imax signed a b = a ∨ imax signed a b = b) ∧ ival signed a ≤ ival signed (imax signed a b) ∧ ival signed b ≤ ival signed (imax signed a b) ∧
    (imin signed a b = a ∨ imin signed a b = b) ∧ ival signed (imin signed a b) ≤ ival signed a ∧ ival signed (imin signed a b) ≤ ival signed b := by
  unfold imax imin ival
  cases signed
  · simp only [Bool.false_eq_true, if_false, BitVec.ule_eq_decide, decide_eq_true_eq, BitVec.le_def]
    refine ⟨?_, ?_, ?_, ?_, ?_, ?_⟩ <;> split <;> first | exact .inl rfl | exact .inr rfl | omega
  · simp only [if_true, BitVec.sle_eq_decide, decide_eq_true_eq]
    refine ⟨?_, ?_, ?_, ?_, ?_, ?_⟩ <;> split <;> first | exact .inl rfl | exact .inr rfl | omega

example : (fmax (ofInt f32 2) (ofInt f32 (-3))).value = 2 * f32.one ∧ imax true (0xFF#8) 1#8 = 1#8 ∧ imax false (0xFF#8) 1#8 = 0xFF#8 := by
  decide +kernel

end Verif.Gen.Flt
