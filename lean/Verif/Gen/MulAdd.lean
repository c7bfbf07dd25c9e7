import Mathlib.Algebra.Order.Ring.Rat
import Mathlib.Algebra.Order.Ring.Abs
import Mathlib.Tactic.Linarith
import Mathlib.Tactic.Ring
/-!
# The functions `fma`, `fms`, `fnma`, `fnms` of floating point numbers (C180)

On scalars: `/repo/rapidudf/functions/math.cc` 319–325, 345–356 and `/repo/rapidudf/compiler/codegen_ternary.cc` 60–67; on vectors:
`/repo/rapidudf/functions/simd/vector_ternary.cc` 39–55.

A finite floating point number is the rational it stands for, and rounding to the format is a parameter. Not modelled: infinities, NaN, the
sign of zero (C112–C115 have the formats bit by bit).
-/
namespace Verif.Gen.MulAdd

/-- Rounding to a floating point format: the numbers of the format stay, and signs do not matter. -/
structure Rounding where
  rnd : ℚ → ℚ
  neg : ∀ x, rnd (-x) = -rnd x
  idem : ∀ x, rnd (rnd x) = rnd x

inductive Fn where
  | fma | fms | fnma | fnms
deriving DecidableEq, Repr

/-- The functions on scalars: `std::fma` and the intrinsic of LLVM round once (`math.cc` 321, `codegen_ternary.cc` 60–67); the others are
written with two operators (`math.cc` 345–356). Simplified: the C++ compiler is not allowed to contract them. -/
def scalar (R : Rounding) : Fn → ℚ → ℚ → ℚ → ℚ
  | .fma, a, b, c => R.rnd (a * b + c)
  | .fms, a, b, c => R.rnd (R.rnd (a * b) - c)
  | .fnma, a, b, c => R.rnd (R.rnd (-a * b) + c)
  | .fnms, a, b, c => R.rnd (R.rnd (-a * b) - c)

/-- The functions on the elements of vectors (`vector_ternary.cc` 43–51). `fused`: whether the processor has these instructions; otherwise
the library multiplies and adds. -/
def vector (R : Rounding) (fused : Bool) : Fn → ℚ → ℚ → ℚ → ℚ
  | .fma, a, b, c => if fused then R.rnd (a * b + c) else R.rnd (R.rnd (a * b) + c)            -- `MulAdd`
  | .fms, a, b, c => if fused then R.rnd (a * b - c) else R.rnd (R.rnd (a * b) - c)            -- `MulSub`
  | .fnma, a, b, c => if fused then R.rnd (c - a * b) else R.rnd (c - R.rnd (a * b))           -- `NegMulAdd`
  | .fnms, a, b, c => if fused then R.rnd (-(a * b) - c) else R.rnd (-R.rnd (a * b) - c)       -- `NegMulSub`

/-! ## Specification -/

/-- What the functions stand for. -/
def exact : Fn → ℚ → ℚ → ℚ → ℚ
  | .fma, a, b, c => a * b + c
  | .fms, a, b, c => a * b - c
  | .fnma, a, b, c => -(a * b) + c
  | .fnms, a, b, c => -(a * b) - c

/-! ## Property C180 -/

/-- **C180 (partial), same value.** On processors with fused instructions `fma` of scalars and of vectors agree, and are the exact value rounded
once; without them the other three agree; if the product is a number of the format, all of them agree and are the exact value
rounded once. Missing: the other cases (`scalar_fms_violated`, `vector_fma_violated`). -/
theorem agree_partial (R : Rounding) (fused : Bool) (f : Fn) (a b c : ℚ) :
    ((fused = true ↔ f = .fma) → scalar R f a b c = vector R fused f a b c) ∧
    (fused = true → vector R fused f a b c = R.rnd (exact f a b c)) ∧ (f = .fma → scalar R f a b c = R.rnd (exact f a b c)) ∧
    (R.rnd (a * b) = a * b → scalar R f a b c = R.rnd (exact f a b c) ∧ vector R fused f a b c = R.rnd (exact f a b c)) := by
  have hn : R.rnd (-a * b) = -R.rnd (a * b) := by rw [neg_mul, R.neg]
  have hc : c - a * b = -(a * b) + c := by ring
  have hc' : c - R.rnd (a * b) = -R.rnd (a * b) + c := by ring
  refine ⟨fun h => ?_, fun h => ?_, fun h => ?_, fun h => ⟨?_, ?_⟩⟩
  · cases f <;> cases fused <;> simp_all [scalar, vector]
  · subst h
    cases f <;> simp [vector, exact, hc]
  · subst h
    rfl
  · cases f <;> simp only [scalar, exact, hn, h]
  · cases f <;> cases fused <;> simp [vector, exact, h, hc]

/-- **C180 (partial), accuracy.** If rounding has relative error at most `u`, then on scalars and on vectors, with and without fused instructions,
the results differ from the exact value by at most `u (|a b| + |c|)` for the sum and `(1 + u) u |a b|` for the product. -/
theorem accurate_partial (R : Rounding) (u : ℚ) (hu : 0 ≤ u) (hR : ∀ x, |R.rnd x - x| ≤ u * |x|) (fused : Bool) (f : Fn) (a b c : ℚ) :
    |scalar R f a b c - exact f a b c| ≤ u * (|a * b| + |c|) + (1 + u) * (u * |a * b|) ∧
    |vector R fused f a b c - exact f a b c| ≤ u * (|a * b| + |c|) + (1 + u) * (u * |a * b|) := by
  have key : ∀ p q c : ℚ, |q - p| ≤ u * |p| → |R.rnd (q + c) - (p + c)| ≤ u * (|p| + |c|) + (1 + u) * (u * |p|) := by
    intro p q c h
    have h1 := hR (q + c)
    have h2 : |R.rnd (q + c) - (p + c)| ≤ |R.rnd (q + c) - (q + c)| + |q - p| := by
      have : R.rnd (q + c) - (p + c) = (R.rnd (q + c) - (q + c)) + (q - p) := by ring
      rw [this]
      exact abs_add_le _ _
    have h3 : |q + c| ≤ |p| + |c| + |q - p| := by
      have : q + c = p + c + (q - p) := by ring
      rw [this]
      have := abs_add_le (p + c) (q - p)
      have := abs_add_le p c
      linarith
    have h4 : u * |q + c| ≤ u * (|p| + |c| + |q - p|) := mul_le_mul_of_nonneg_left h3 hu
    have h5 : (1 + u) * |q - p| ≤ (1 + u) * (u * |p|) := mul_le_mul_of_nonneg_left h (by linarith)
    nlinarith
  have once : ∀ p c : ℚ, |R.rnd (p + c) - (p + c)| ≤ u * (|p| + |c|) + (1 + u) * (u * |p|) := by
    intro p c
    exact key p p c (by rw [sub_self, abs_zero]; exact mul_nonneg hu (abs_nonneg p))
  have hm : |R.rnd (a * b) - a * b| ≤ u * |a * b| := hR _
  have hm' : |R.rnd (-(a * b)) - -(a * b)| ≤ u * |-(a * b)| := hR _
  have k1 := key (a * b) (R.rnd (a * b)) c hm
  have k2 := key (a * b) (R.rnd (a * b)) (-c) hm
  have k3 := key (-(a * b)) (R.rnd (-(a * b))) c hm'
  have k4 := key (-(a * b)) (R.rnd (-(a * b))) (-c) hm'
  have o1 := once (a * b) c
  have o2 := once (a * b) (-c)
  have o3 := once (-(a * b)) c
  have o4 := once (-(a * b)) (-c)
  simp only [abs_neg, ← sub_eq_add_neg] at k1 k2 k3 k4 o1 o2 o3 o4
  have hc : c - a * b = -(a * b) + c := by ring
  have hc' : c - R.rnd (a * b) = R.rnd (-(a * b)) + c := by rw [R.neg]; ring
  constructor
  · cases f <;> simp only [scalar, exact, neg_mul] <;> assumption
  · cases fused
    · cases f
      · simpa [vector, exact] using k1
      · simpa [vector, exact] using k2
      · simp only [vector, exact, if_neg (show ¬ (false = true) by decide), hc']; exact k3
      · simp only [vector, exact, if_neg (show ¬ (false = true) by decide), ← R.neg]; exact k4
    · cases f
      · simpa [vector, exact] using o1
      · simpa [vector, exact] using o2
      · simp only [vector, exact, if_true, hc]; exact o3
      · simpa [vector, exact] using o4

/-- **C180 fails, `fms` of scalars.** Whenever the product is not a number of the format but its rounding error is, `fms` that subtracts the
rounded product is zero on scalars and the error on vectors with fused instructions. -/
theorem scalar_fms_violated (R : Rounding) (a b : ℚ) (h1 : R.rnd (a * b) ≠ a * b) (h2 : R.rnd (a * b - R.rnd (a * b)) = a * b - R.rnd (a * b)) :
    scalar R .fms a b (R.rnd (a * b)) = 0 ∧ vector R true .fms a b (R.rnd (a * b)) = a * b - R.rnd (a * b) ∧ a * b - R.rnd (a * b) ≠ 0 := by
  have h0 : R.rnd 0 = 0 := by
    have := R.neg 0
    rw [neg_zero] at this
    linarith
  refine ⟨?_, ?_, fun h => h1 (by linarith)⟩
  · simp only [scalar, sub_self, h0]
  · simp only [vector, if_true]
    exact h2

/-- **C180 fails, `fma` of vectors.** In the same cases, on processors without fused instructions, `fma` that adds the negated rounded product is zero
on vectors and the error on scalars. -/
theorem vector_fma_violated (R : Rounding) (a b : ℚ) (h1 : R.rnd (a * b) ≠ a * b) (h2 : R.rnd (a * b - R.rnd (a * b)) = a * b - R.rnd (a * b)) :
    vector R false .fma a b (-R.rnd (a * b)) = 0 ∧ scalar R .fma a b (-R.rnd (a * b)) = a * b - R.rnd (a * b) ∧ a * b - R.rnd (a * b) ≠ 0 := by
  have h0 : R.rnd 0 = 0 := by
    have := R.neg 0
    rw [neg_zero] at this
    linarith
  refine ⟨?_, ?_, fun h => h1 (by linarith)⟩
  · simp [vector, h0]
  · simp only [scalar, ← sub_eq_add_neg]
    exact h2

/-! ## Cases -/

/-- A rounding that only `±9/4` are not numbers of: on the numbers used below it is that of a format of three significant bits. -/
def tiny : Rounding where
  rnd x := if x = 9 / 4 then 2 else if x = -(9 / 4) then -2 else x
  neg x := by
    by_cases h : x = 9 / 4
    · subst h; norm_num
    · by_cases h' : x = -(9 / 4)
      · subst h'; norm_num
      · have e1 : ¬ (-x = 9 / 4) := fun e => h' (by linarith)
        have e2 : ¬ (-x = -(9 / 4)) := fun e => h (by linarith)
        rw [if_neg h, if_neg h', if_neg e1, if_neg e2]
  idem x := by
    by_cases h : x = 9 / 4
    · subst h; norm_num
    · by_cases h' : x = -(9 / 4)
      · subst h'; norm_num
      · rw [if_neg h, if_neg h', if_neg h, if_neg h']

/-- `3/2 · 3/2 = 9/4` is rounded to `2`, with error `1/4`. -/
example : tiny.rnd (3 / 2 * (3 / 2)) ≠ 3 / 2 * (3 / 2) ∧
    tiny.rnd (3 / 2 * (3 / 2) - tiny.rnd (3 / 2 * (3 / 2))) = 3 / 2 * (3 / 2) - tiny.rnd (3 / 2 * (3 / 2)) := by
  constructor <;> norm_num [tiny]

example : scalar tiny .fms (3 / 2) (3 / 2) 2 = 0 ∧ vector tiny true .fms (3 / 2) (3 / 2) 2 = 1 / 4 := by
  constructor <;> norm_num [scalar, vector, tiny]

/-- The accuracy bound holds of it with `u = 1/8`. -/
example : ∀ x, |tiny.rnd x - x| ≤ 1 / 8 * |x| := by
  intro x
  by_cases h : x = 9 / 4
  · subst h; norm_num [tiny]
  · by_cases h' : x = -(9 / 4)
    · subst h'; norm_num [tiny]
    · have : tiny.rnd x = x := by simp only [tiny]; rw [if_neg h, if_neg h']
      rw [this, sub_self, abs_zero]
      exact mul_nonneg (by norm_num) (abs_nonneg x)

end Verif.Gen.MulAdd
