import Verif.Ast.Lexer
/-!
# Number literals: C35, C87, C90

`/repo/rapidudf/ast/grammar.cc` 124–150 (`ParseNumber`: the digits become a `double`), `/repo/rapidudf/ast/expression.cc` 111–125 (type of a literal),
`/repo/rapidudf/compiler/compiler_constants.cc` 22–54 (constant), `/repo/rapidudf/ast/grammar.cc` 334–340 (index in brackets).

Modelled: literals whose fraction, if any, consists of zeros, so that the value written is a natural number. The `double` nearest to it is a natural number again; `std::from_chars`
is taken to round to nearest with ties to even, as its specification says. Literals with other fractions are not modelled.
-/
namespace Verif.Ast.Literal

/-- The value of a decimal digit string. -/
def digitsValue : List Char → Nat := List.foldl (fun n c => n * 10 + (c.toNat - '0'.toNat)) 0

/-- Exponent of the last bit of the 53-bit significand. -/
def ulpExp (n : Nat) : Nat := n.log2 - 52

/-- The binary64 value nearest to a natural number, ties to even (overflow beyond 2^1024 is not modelled). -/
def roundNat (n : Nat) : Nat :=
  if n < 2 ^ 53 then n
  else
    let u := 2 ^ ulpExp n
    let q := n / u
    let r := n % u
    if u < 2 * r ∨ (u = 2 * r ∧ q % 2 = 1) then (q + 1) * u else q * u

/-- A compiled constant. `ub` is an undefined conversion in the compiler itself. -/
inductive Const where
  | int (bits : Nat) (signed : Bool) (v : Nat)
  | f64 (v : Nat)
  | ub
deriving DecidableEq

/-- `BuildIR(double v, DType dtype)` for integer types, compiler_constants.cc 29–35: conversion to `uint64_t` (undefined from 2^64 on), then `APInt(bits, …)` keeps the low bits. -/
def buildTyped (v bits : Nat) (signed : Bool) : Const := if 2 ^ 64 ≤ v then .ub else .int bits signed (v % 2 ^ bits)

/-- `BuildIR(double v)`, compiler_constants.cc 47–54, with `static_cast<int64_t>` undefined from 2^63 on. The comparison `static_cast<double>(iv) == v` always holds for the naturals
below. -/
def buildPlain (v : Nat) : Const :=
  if 2 ^ 63 ≤ v then .ub
  else if roundNat v = v then (if v ≤ 2147483647 then buildTyped v 32 true else buildTyped v 64 true) else .f64 v

/-- The constant for a literal without suffix: digits, optionally a point and zeros. -/
def literal (digits : List Char) : Const := buildPlain (roundNat (digitsValue digits))

/-- The constant for a literal with an integer suffix. -/
def literalTyped (digits : List Char) (bits : Nat) (signed : Bool) : Const := buildTyped (roundNat (digitsValue digits)) bits signed

/-- The integer a constant stands for: two's complement. -/
def Const.value : Const → Option Int
  | .int bits true v => some (if v < 2 ^ (bits - 1) then (v : Int) else (v : Int) - 2 ^ bits)
  | .int _ false v => some v
  | .f64 v => some v
  | .ub => none

/-! ## The rounding is the nearest -/

/-- Naturals with a 53-bit significand. -/
def Representable (m : Nat) : Prop := ∃ a b, a < 2 ^ 53 ∧ m = a * 2 ^ b

theorem ulp_bounds (n : Nat) (h : 2 ^ 53 ≤ n) : 2 ^ (52 + ulpExp n) ≤ n ∧ n < 2 ^ (53 + ulpExp n) ∧ 1 ≤ ulpExp n := by
  have hn : n ≠ 0 := by have : 0 < 2 ^ 53 := Nat.two_pow_pos _; omega
  have h1 := Nat.log2_self_le hn
  have h2 := Nat.lt_log2_self (n := n)
  have h3 : 53 ≤ n.log2 := (Nat.le_log2 hn).2 h
  unfold ulpExp
  have e1 : 52 + (n.log2 - 52) = n.log2 := by omega
  have e2 : 53 + (n.log2 - 52) = n.log2 + 1 := by omega
  rw [e1, e2]
  exact ⟨h1, h2, by omega⟩

theorem quotient_bounds (n : Nat) (h : 2 ^ 53 ≤ n) : 2 ^ 52 ≤ n / 2 ^ ulpExp n ∧ n / 2 ^ ulpExp n < 2 ^ 53 := by
  obtain ⟨h1, h2, _⟩ := ulp_bounds n h
  constructor
  · rw [Nat.le_div_iff_mul_le (Nat.two_pow_pos _), ← Nat.pow_add]; exact h1
  · rw [Nat.div_lt_iff_lt_mul (Nat.two_pow_pos _), ← Nat.pow_add]; exact h2

/-- The rounded value has a 53-bit significand. -/
theorem round_representable (n : Nat) : Representable (roundNat n) := by
  unfold roundNat
  split
  · rename_i h; exact ⟨n, 0, h, by simp⟩
  · rename_i h
    obtain ⟨h1, h2⟩ := quotient_bounds n (by omega)
    simp only
    split
    · by_cases hq : n / 2 ^ ulpExp n + 1 < 2 ^ 53
      · exact ⟨_, _, hq, rfl⟩
      · refine ⟨1, ulpExp n + 53, by decide, ?_⟩
        have : n / 2 ^ ulpExp n + 1 = 2 ^ 53 := by omega
        rw [this, Nat.pow_add, Nat.one_mul, Nat.mul_comm]
    · exact ⟨_, _, h2, rfl⟩

/-- The difference of two naturals. -/
def dist (a b : Nat) : Nat := (a - b) + (b - a)

/-- Distance from `q*u + r` to multiples of `u`. -/
theorem nearest_multiple (u q r k : Nat) (hr : r < u) : let n := q * u + r
    dist n (if u < 2 * r ∨ (u = 2 * r ∧ q % 2 = 1) then (q + 1) * u else q * u) ≤ dist n (k * u) := by
  intro n
  have hn : n = q * u + r := rfl
  have hq1 : (q + 1) * u = q * u + u := by rw [Nat.add_mul, Nat.one_mul]
  rcases Nat.lt_or_ge q k with hk | hk
  · have : (q + 1) * u ≤ k * u := Nat.mul_le_mul_right u hk
    unfold dist
    split <;> omega
  · have : k * u ≤ q * u := Nat.mul_le_mul_right u hk
    unfold dist
    split <;> omega

/-- No value with a 53-bit significand is closer: `roundNat` is the rounding to nearest. -/
theorem round_nearest (n m : Nat) (hm : Representable m) : dist n (roundNat n) ≤ dist n m := by
  unfold roundNat
  split
  · unfold dist; omega
  · rename_i h
    have h : 2 ^ 53 ≤ n := by omega
    obtain ⟨h1, h2, _⟩ := ulp_bounds n h
    obtain ⟨q1, q2⟩ := quotient_bounds n h
    have hdm : n = n / 2 ^ ulpExp n * 2 ^ ulpExp n + n % 2 ^ ulpExp n := by rw [Nat.mul_comm]; exact (Nat.div_add_mod n _).symm
    have key := fun k => nearest_multiple (2 ^ ulpExp n) (n / 2 ^ ulpExp n) (n % 2 ^ ulpExp n) k (Nat.mod_lt _ (Nat.two_pow_pos _))
    simp only [← hdm] at key
    simp only
    obtain ⟨a, b, ha, rfl⟩ := hm
    by_cases hb : ulpExp n ≤ b
    · have e : a * 2 ^ b = (a * 2 ^ (b - ulpExp n)) * 2 ^ ulpExp n := by
        rw [Nat.mul_assoc, ← Nat.pow_add, show b - ulpExp n + ulpExp n = b by omega]
      rw [e]
      exact key _
    · -- then `m` is below the binade of `n`, whose lower end is a multiple of the last place
      have hlt : a * 2 ^ b < 2 ^ (52 + ulpExp n) := by
        calc a * 2 ^ b < 2 ^ 53 * 2 ^ b := Nat.mul_lt_mul_of_pos_right ha (Nat.two_pow_pos _)
          _ = 2 ^ (53 + b) := (Nat.pow_add _ _ _).symm
          _ ≤ 2 ^ (52 + ulpExp n) := Nat.pow_le_pow_right (by decide) (by omega)
      have := key (2 ^ 52)
      rw [← Nat.pow_add] at this
      refine Nat.le_trans this ?_
      unfold dist
      omega

/-! ## C35 -/

theorem round_small (n : Nat) (h : n < 2 ^ 53) : roundNat n = n := by unfold roundNat; rw [if_pos h]

/-- **C35, the part that holds.** A literal below 2^53 is the integer written, as a 32-bit integer up to 2147483647 and a 64-bit integer above. -/
theorem literal_value_partial (ds : List Char) (h : digitsValue ds < 2 ^ 53) :
    (literal ds).value = some (digitsValue ds : Int) ∧
    ((digitsValue ds ≤ 2147483647 ∧ ∃ v, literal ds = .int 32 true v) ∨ (2147483647 < digitsValue ds ∧ ∃ v, literal ds = .int 64 true v)) := by
  unfold literal
  rw [round_small _ h]
  generalize digitsValue ds = n at *
  unfold buildPlain buildTyped
  have p1 : (2 : Nat) ^ 53 = 9007199254740992 := by decide
  have p2 : (2 : Nat) ^ 63 = 9223372036854775808 := by decide
  have p3 : (2 : Nat) ^ 64 = 18446744073709551616 := by decide
  have p4 : (2 : Nat) ^ 32 = 4294967296 := by decide
  have p5 : (2 : Nat) ^ 31 = 2147483648 := by decide
  rw [if_neg (by omega), if_pos (round_small n h)]
  split
  · rename_i h2
    rw [if_neg (by omega)]
    refine ⟨?_, .inl ⟨h2, _, rfl⟩⟩
    simp only [Const.value]
    rw [Nat.mod_eq_of_lt (by omega), if_pos (by omega)]
  · rename_i h2
    rw [if_neg (by omega)]
    refine ⟨?_, .inr ⟨by omega, _, rfl⟩⟩
    simp only [Const.value]
    rw [Nat.mod_eq_of_lt (by omega), if_pos (by show n < 2 ^ 63; omega)]

/-- **C35, violated.** The literal `9007199254740993` is compiled to 9007199254740992. -/
theorem literal_value_violated : digitsValue "9007199254740993".toList = 9007199254740993 ∧ (literal "9007199254740993".toList).value = some 9007199254740992 := by decide +kernel

/-- **C35, violated.** The largest 64-bit integer is rounded up to 2^63, whose conversion to `int64_t` in the compiler is undefined. -/
theorem literal_largest_violated : digitsValue "9223372036854775807".toList = 2 ^ 63 - 1 ∧ literal "9223372036854775807".toList = .ub := by decide +kernel

/-- What a literal below 2^63 - 512 is in general: the nearest 53-bit value. -/
theorem literal_rounded (ds : List Char) (h : roundNat (digitsValue ds) < 2 ^ 63) : (literal ds).value = some (roundNat (digitsValue ds) : Int) := by
  unfold literal
  generalize digitsValue ds = n at *
  have hrr : roundNat (roundNat n) = roundNat n := by
    have := round_nearest (roundNat n) (roundNat n) (round_representable n)
    unfold dist at this
    omega
  unfold buildPlain buildTyped
  generalize roundNat n = v at *
  have p2 : (2 : Nat) ^ 63 = 9223372036854775808 := by decide
  have p3 : (2 : Nat) ^ 64 = 18446744073709551616 := by decide
  have p4 : (2 : Nat) ^ 32 = 4294967296 := by decide
  have p5 : (2 : Nat) ^ 31 = 2147483648 := by decide
  rw [if_neg (by omega), if_pos hrr]
  split
  · rename_i h2
    rw [if_neg (by omega)]
    simp only [Const.value]
    rw [Nat.mod_eq_of_lt (by omega), if_pos (by omega)]
  · rename_i h2
    rw [if_neg (by omega)]
    simp only [Const.value]
    rw [Nat.mod_eq_of_lt (by omega), if_pos (by show v < 2 ^ 63; omega)]

/-! ## Suffixes -/

/-- **C90, the part that holds.** A literal with an integer suffix that fits into the type and is below 2^53 has the type and value written. -/
theorem literal_suffix_partial (ds : List Char) (bits : Nat) (signed : Bool) (h : digitsValue ds < 2 ^ 53) (hf : digitsValue ds < 2 ^ (if signed = true then bits - 1 else bits)) :
    (literalTyped ds bits signed).value = some (digitsValue ds : Int) ∧ ∃ v, literalTyped ds bits signed = .int bits signed v := by
  unfold literalTyped
  rw [round_small _ h]
  generalize digitsValue ds = n at *
  unfold buildTyped
  have p1 : (2 : Nat) ^ 53 = 9007199254740992 := by decide
  have p3 : (2 : Nat) ^ 64 = 18446744073709551616 := by decide
  rw [if_neg (by omega)]
  refine ⟨?_, _, rfl⟩
  cases signed with
  | true =>
    simp only [if_true] at hf
    have hle : (2 : Nat) ^ (bits - 1) ≤ 2 ^ bits := Nat.pow_le_pow_right (by decide) (by omega)
    simp only [Const.value]
    rw [Nat.mod_eq_of_lt (by omega), if_pos hf]
  | false =>
    simp only [Bool.false_eq_true, if_false] at hf
    simp only [Const.value]
    rw [Nat.mod_eq_of_lt hf]

/-- **C90, violated.** `300_u8` is accepted and is 44; `200_i8` is accepted and is -56. -/
theorem literal_suffix_violated : (literalTyped "300".toList 8 false).value = some 44 ∧ (literalTyped "200".toList 8 true).value = some (-56) := by decide +kernel

/-! ## C91: a decimal point -/

/-- The constant for a literal `ip.fp`, when the decimal value written is a natural number (otherwise not modelled). -/
def literalDecimal (ip fp : List Char) : Option Const :=
  if digitsValue (ip ++ fp) % 10 ^ fp.length = 0 then some (buildPlain (roundNat (digitsValue (ip ++ fp) / 10 ^ fp.length))) else none

theorem digits_zeros (ip : List Char) (k : Nat) : digitsValue (ip ++ List.replicate k '0') = digitsValue ip * 10 ^ k := by
  induction k with
  | zero => simp
  | succ k ih =>
    rw [List.replicate_succ', ← List.append_assoc]
    unfold digitsValue at ih ⊢
    rw [List.foldl_append, ih, Nat.pow_succ, ← Nat.mul_assoc]
    simp

theorem literal_zero_fraction (ip : List Char) (k : Nat) : literalDecimal ip (List.replicate k '0') = some (literal ip) := by
  have hp : 0 < 10 ^ k := Nat.pow_pos (by decide)
  unfold literalDecimal
  rw [digits_zeros, List.length_replicate, Nat.mul_mod_left, if_pos rfl, Nat.mul_div_cancel _ hp]
  rfl

/-- **C91, violated.** A literal with a decimal point and a zero fraction is an integer constant for every integer part below 2^53: `2.0` is a 32-bit integer, so `1 / 2.0` is an
integer division. -/
theorem literal_point_violated (ip : List Char) (k : Nat) (h : digitsValue ip < 2 ^ 53) : ∃ bits v, literalDecimal ip (List.replicate k '0') = some (.int bits true v) := by
  rw [literal_zero_fraction]
  rcases (literal_value_partial ip h).2 with ⟨_, v, hv⟩ | ⟨_, v, hv⟩
  · exact ⟨32, v, by rw [hv]⟩
  · exact ⟨64, v, by rw [hv]⟩

/-! ## C87: literals in brackets -/

/-- `std::from_chars` into a `uint32_t`, grammar.cc 336–340: the leading digits, and 0 (the initial value) if there are none or the number does not fit; the error code and what follows
the digits are ignored. -/
def indexValue (text : List Char) : Nat :=
  let ds := text.takeWhile isDigit
  if ds = [] then 0 else if digitsValue ds < 2 ^ 32 then digitsValue ds else 0

/-- **C87, the part that holds.** An index made of digits only and below 2^32 is the number written. -/
theorem index_value_partial (ds : List Char) (hd : ∀ c ∈ ds, isDigit c = true) (hne : ds ≠ []) (h : digitsValue ds < 2 ^ 32) : indexValue ds = digitsValue ds := by
  unfold indexValue
  have : ds.takeWhile isDigit = ds := by
    clear hne h
    induction ds with
    | nil => rfl
    | cons c cs ih =>
      rw [List.takeWhile_cons, hd c (by simp)]
      simp only [if_true]
      rw [ih (fun x hx => hd x (by simp [hx]))]
  simp only [this]
  rw [if_neg hne, if_pos h]

/-- **C87, violated.** `x[1.5]` reads element 1 and `x[4294967296]` element 0. -/
theorem index_value_violated : indexValue "1.5".toList = 1 ∧ indexValue "4294967296".toList = 0 := by decide +kernel

example : digitsValue "12345".toList = 12345 ∧ (literal "12345".toList).value = some 12345 ∧ indexValue "12345".toList = 12345 := by decide +kernel

end Verif.Ast.Literal
