import Verif.Gen.FloatOps
/-!
# Functions of numbers: integer powers, rounding, clamp, absolute difference, and the 64-lane kernels

`CodeGen::BinaryOp` `OP_POW` (`/repo/rapidudf/compiler/codegen_binary.cc` 192–213), `CodeGen::UnaryOp` (`codegen_unary.cc` 46–230), scalar functions
(`functions/math.cc`), kernels for vectors (`functions/simd/vector_unary.cc` 45–172, `vector_binary.cc` 44–86, `vector_ternary.cc` 39–69).
-/
namespace Verif.Gen.MathFns

open Verif.Gen.Flt

/-! ## C116: integer powers -/

/-- `pow` on integers (`codegen_binary.cc` 196–212): both operands are converted to `f64`, `llvm.pow` is applied, the result is converted back.
`powF` stands for `llvm.pow`. `none`: undefined. -/
def intPow (powF : Fl f64 → Fl f64 → Fl f64) (signed : Bool) (w : Nat) (x y : Int) : Option Int :=
  toInt signed w (powF (ofInt f64 x) (ofInt f64 y))

/-- What is assumed of `llvm.pow`: powers of integers that are numbers of the format are computed exactly. -/
def PowExact (powF : Fl f64 → Fl f64 → Fl f64) : Prop :=
  ∀ (a b r : Fl f64) (x : Int) (k : Nat), a.mag < f64.inf → b.mag < f64.inf → a.value = x * f64.one → b.value = (k : Int) * f64.one → r.mag < f64.inf →
    r.value = x ^ k * f64.one → (powF a b).value = r.value ∧ (powF a b).mag < f64.inf

theorem ofInt_finite (z : Int) (hz : z.natAbs ≤ 2 ^ 53) : (ofInt f64 z).mag < f64.inf := by
  have h1 : mval f64 (magOfNat f64 z.natAbs) = z.natAbs * f64.one := (conv_nat f64_ok _ 0 (Nat.zero_le _)).2.2.2 hz
  have h2 := mval_inf f64_ok
  have h3 : z.natAbs * f64.one < 2 ^ (f64.bias + 1) * f64.one := by
    refine Nat.mul_lt_mul_of_pos_right (Nat.lt_of_le_of_lt hz ?_) (Nat.two_pow_pos _)
    exact Nat.pow_lt_pow_right (by omega) (by decide)
  exact (mval_lt_iff f64).mp (by rw [h2]; show mval f64 (magOfNat f64 z.natAbs) < _; rw [h1]; exact h3)

/-- **C116** (partial: powers of at most 53 bits that fit into the type; the full claim is refuted by `int_pow_violated`). `pow(x, k)` of integers
is the power. -/
theorem int_pow_partial (powF : Fl f64 → Fl f64 → Fl f64) (hp : PowExact powF) (signed : Bool) (w : Nat) (x : Int) (k : Nat)
    (hx : x.natAbs ≤ 2 ^ 53) (hk : k ≤ 2 ^ 53) (hr : (x ^ k).natAbs ≤ 2 ^ 53) (hf : Fits signed w (x ^ k)) :
    intPow powF signed w x k = some (x ^ k) := by
  have ho : (0 : Int) < f64.one := by have : 0 < f64.one := Nat.two_pow_pos _; omega
  have c1 := (conv_int f64_ok x (ofInt f64 0) (ofInt_not_nan _ _)).2.2.2 hx
  have c2 := (conv_int f64_ok (k : Int) (ofInt f64 0) (ofInt_not_nan _ _)).2.2.2 (by simpa [f64] using hk)
  have c3 := (conv_int f64_ok (x ^ k) (ofInt f64 0) (ofInt_not_nan _ _)).2.2.2 hr
  obtain ⟨p1, p2⟩ := hp (ofInt f64 x) (ofInt f64 k) (ofInt f64 (x ^ k)) x k (ofInt_finite _ hx) (ofInt_finite _ (by simpa using hk)) c1 c2
    (ofInt_finite _ hr) c3
  unfold intPow
  refine float_to_int_partial signed w _ _ p2 ?_ hf
  rw [p1, c3]
  unfold Truncated
  rw [Int.add_mul, Int.sub_mul, Int.one_mul]
  omega

/-- **C116, negation of the full claim.** `pow(2, 31)` as a 32-bit integer is undefined rather than wrapped or reported, and `pow(3, 35)`, which
fits into 64 bits, is never right whatever `llvm.pow` does. -/
theorem int_pow_violated (powF : Fl f64 → Fl f64 → Fl f64) (hp : PowExact powF) :
    intPow powF true 32 2 31 = none ∧ Fits true 64 (3 ^ 35) ∧ intPow powF true 64 3 35 ≠ some (3 ^ 35) := by
  have ho : (0 : Int) < f64.one := by have : 0 < f64.one := Nat.two_pow_pos _; omega
  refine ⟨?_, by unfold Fits; decide, ?_⟩
  · have c1 := (conv_int f64_ok 2 (ofInt f64 0) (ofInt_not_nan _ _)).2.2.2 (by decide)
    have c2 := (conv_int f64_ok 31 (ofInt f64 0) (ofInt_not_nan _ _)).2.2.2 (by decide)
    have c3 := (conv_int f64_ok (2 ^ 31) (ofInt f64 0) (ofInt_not_nan _ _)).2.2.2 (by decide)
    obtain ⟨p1, p2⟩ := hp (ofInt f64 2) (ofInt f64 31) (ofInt f64 (2 ^ 31)) 2 31 (ofInt_finite _ (by decide)) (ofInt_finite _ (by decide)) c1 c2
      (ofInt_finite _ (by decide)) c3
    unfold intPow
    rw [float_to_int_violated]
    right
    intro r hr hfit
    have : r = 2 ^ 31 := by
      refine truncated_unique ho hr ?_
      rw [p1, c3]
      unfold Truncated
      rw [Int.add_mul, Int.sub_mul, Int.one_mul]
      omega
    subst this
    revert hfit
    unfold Fits
    decide
  · intro h
    unfold intPow at h
    generalize powF (ofInt f64 3) (ofInt f64 35) = y at h
    have hmag : ¬ f64.inf ≤ y.mag := by
      intro hm
      rw [(float_to_int_violated true 64 y).mpr (.inl hm)] at h
      cases h
    unfold toInt at h
    rw [if_neg hmag] at h
    dsimp only at h
    have hf : (2 : Nat) ^ (f64.mb + f64.bias) = 2 * f64.one := by
      unfold Fmt.one
      generalize hg : f64.mb + f64.bias = g
      have : g ≠ 0 := by rw [← hg]; decide
      obtain ⟨g, rfl⟩ : ∃ k, g = k + 1 := ⟨g - 1, by omega⟩
      rw [Nat.pow_succ, Nat.mul_comm, Nat.add_sub_cancel]
    rw [if_pos rfl, if_pos rfl] at h
    rw [Option.ite_none_right_eq_some] at h
    have h := Option.some.inj h.2
    generalize hq : mval f64 y.mag / f64.one = q at h
    have hq3 : q = 3 ^ 35 := by
      split at h
      · exfalso; have : (0 : Int) < 3 ^ 35 := by decide
        omega
      · have h3 : ((3 ^ 35 : Nat) : Int) = 3 ^ 35 := by decide
        omega
    -- the value is at least 2 ^ 53, hence an even integer
    have hpos : 0 < f64.one := Nat.two_pow_pos _
    have hge : q * f64.one ≤ mval f64 y.mag := by rw [← hq]; exact Nat.div_mul_le_self _ _
    have hle : 2 ^ (f64.mb + (f64.mb + f64.bias)) ≤ mval f64 y.mag := by
      refine Nat.le_trans ?_ hge
      rw [Nat.pow_add, hf, ← Nat.mul_assoc]
      exact Nat.mul_le_mul_right _ (by rw [hq3]; decide)
    obtain ⟨c, hc⟩ := mval_dvd f64 hle
    rw [hf] at hc
    rw [hc, show 2 * f64.one * c = (2 * c) * f64.one by rw [Nat.mul_assoc, Nat.mul_comm f64.one c, ← Nat.mul_assoc],
      Nat.mul_div_cancel _ hpos] at hq
    have : q % 2 = 1 := by rw [hq3]
    omega

open Classical in
/-- The assumption on `llvm.pow` can be met. -/
example : ∃ powF, PowExact powF := by
  let R : Fl f64 → Fl f64 → Fl f64 → Prop := fun a b r =>
    ∃ (x : Int) (k : Nat), a.value = x * f64.one ∧ b.value = (k : Int) * f64.one ∧ r.mag < f64.inf ∧ r.value = x ^ k * f64.one
  refine ⟨fun a b => if h : ∃ r, R a b r then h.choose else a, ?_⟩
  intro a b r x k _ _ ha hb hr hv
  have hex : ∃ r, R a b r := ⟨r, x, k, ha, hb, hr, hv⟩
  dsimp only
  rw [dif_pos hex]
  obtain ⟨x', k', h1, h2, h3, h4⟩ := hex.choose_spec
  have ho : (f64.one : Int) ≠ 0 := by have : 0 < f64.one := Nat.two_pow_pos _; omega
  have e1 : x' = x := Int.eq_of_mul_eq_mul_right ho (h1.symm.trans ha)
  have e2 : (k' : Int) = k := Int.eq_of_mul_eq_mul_right ho (h2.symm.trans hb)
  have e3 : k' = k := by omega
  subst e1 e3
  exact ⟨h4.trans hv.symm, h3⟩

/-- `pow(-7, 3)`. -/
example : Fits true 32 ((-7) ^ 3) ∧ ((-7 : Int) ^ 3).natAbs ≤ 2 ^ 53 := by unfold Fits; decide

/-! ## C117: rounding functions on scalars and on vectors -/

/-- The rounding functions of the language. -/
inductive RoundFn where
  | floor | ceil | trunc | round | rint
  deriving DecidableEq

/-- Rounding to the nearest integer, ties away from zero. -/
def nearestAway (n : Int) (d : Nat) : Int :=
  if 2 * (n % d) < d then n / d else if 2 * (n % d) > d then n / d + 1 else if 0 ≤ n then n / d + 1 else n / d

/-- Rounding to the nearest integer, ties to even. -/
def nearestEven (n : Int) (d : Nat) : Int :=
  if 2 * (n % d) < d then n / d else if 2 * (n % d) > d then n / d + 1 else if n / d % 2 = 0 then n / d else n / d + 1

/-- The intrinsics for scalars (`codegen_unary.cc` 78–84, 102–115, 151–164): `llvm.floor`, `llvm.ceil`, `llvm.trunc`, `llvm.round`, `llvm.rint`. A number
`n / d` is mapped to an integer. -/
def scalarRound : RoundFn → Int → Nat → Int
  | .floor, n, d => n / d
  | .ceil, n, d => -(-n / d)
  | .trunc, n, d => n.tdiv d
  | .round, n, d => nearestAway n d
  | .rint, n, d => nearestEven n d

/-- The kernels for vectors (`vector_unary.cc` 49–54, 95–96, 145–157): `hn::Floor`, `hn::Ceil`, `hn::Trunc`, `hn::Round` (ties to even), SLEEF's `rint`. -/
def vectorRound : RoundFn → Int → Nat → Int
  | .floor, n, d => n / d
  | .ceil, n, d => -(-n / d)
  | .trunc, n, d => n.tdiv d
  | .round, n, d => nearestEven n d
  | .rint, n, d => nearestEven n d

/-- Half way between two integers. -/
def Tie (n : Int) (d : Nat) : Prop := 2 * (n % d) = d

/-- **C117** (partial: all functions but `round`, and `round` of numbers that are not half way between two integers; the full claim is refuted by
`round_violated`). Rounding a vector rounds each element as the scalar function does. -/
theorem rounding_agrees_partial (f : RoundFn) (n : Int) (d : Nat) (h : f ≠ .round ∨ ¬ Tie n d) : vectorRound f n d = scalarRound f n d := by
  cases f <;> try rfl
  have ht : ¬ Tie n d := by simpa using h
  unfold Tie at ht
  simp only [vectorRound, scalarRound, nearestAway, nearestEven]
  split
  · rfl
  · split
    · rfl
    · omega

/-- What the rounding functions of scalars give: the largest integer not above, the smallest not below, the one toward zero, a nearest one. -/
theorem scalar_rounding_spec (n : Int) (d : Nat) (hd : 0 < d) :
    (scalarRound .floor n d * d ≤ n ∧ n < (scalarRound .floor n d + 1) * d) ∧
    ((scalarRound .ceil n d - 1) * d < n ∧ n ≤ scalarRound .ceil n d * d) ∧
    (0 ≤ n → scalarRound .trunc n d = scalarRound .floor n d) ∧ (n ≤ 0 → scalarRound .trunc n d = scalarRound .ceil n d) ∧
    (2 * (scalarRound .round n d * d - n) ≤ d ∧ 2 * (n - scalarRound .round n d * d) ≤ d) ∧
    (2 * (scalarRound .rint n d * d - n) ≤ d ∧ 2 * (n - scalarRound .rint n d * d) ≤ d) := by
  have hd' : (0 : Int) < d := by omega
  have h1 := Int.mul_ediv_add_emod n d
  have h2 := Int.emod_nonneg n (b := (d : Int)) (by omega)
  have h3 := Int.emod_lt_of_pos n hd'
  have h4 := Int.mul_ediv_add_emod (-n) d
  have h5 := Int.emod_nonneg (-n) (b := (d : Int)) (by omega)
  have h6 := Int.emod_lt_of_pos (-n) hd'
  have hc1 : (d : Int) * (n / d) = n / d * d := Int.mul_comm _ _
  have hc2 : (d : Int) * (-n / d) = -n / d * d := Int.mul_comm _ _
  refine ⟨?_, ?_, ?_, ?_, ?_, ?_⟩
  · simp only [scalarRound]
    rw [Int.add_mul, Int.one_mul]
    omega
  · simp only [scalarRound]
    rw [Int.sub_mul, Int.one_mul, Int.neg_mul]
    omega
  · intro hn
    exact Int.tdiv_eq_ediv_of_nonneg hn
  · intro hn
    simp only [scalarRound]
    rw [← Int.tdiv_eq_ediv_of_nonneg (by omega : 0 ≤ -n), Int.neg_tdiv, Int.neg_neg]
  · simp only [scalarRound, nearestAway]
    split
    · omega
    · split
      · rw [Int.add_mul, Int.one_mul]; omega
      · split
        · rw [Int.add_mul, Int.one_mul]; omega
        · omega
  · simp only [scalarRound, nearestEven]
    split
    · omega
    · split
      · rw [Int.add_mul, Int.one_mul]; omega
      · split
        · omega
        · rw [Int.add_mul, Int.one_mul]; omega

/-- **C117, negation of the full claim.** Half way between two integers, `round` of a vector differs from `round` of a scalar exactly if the neighbour away from zero is
odd: `round(2.5)` is 3, `round([2.5])` is `[2]`. -/
theorem round_violated (n : Int) (d : Nat) (ht : Tie n d) :
    (vectorRound .round n d ≠ scalarRound .round n d ↔ (if 0 ≤ n then n / d + 1 else n / d) % 2 = 1) ∧
    (scalarRound .round 5 2 = 3 ∧ vectorRound .round 5 2 = 2) := by
  refine ⟨?_, by decide⟩
  unfold Tie at ht
  simp only [vectorRound, scalarRound, nearestAway, nearestEven]
  have h1 : ¬ 2 * (n % d) < d := by omega
  have h2 : ¬ 2 * (n % d) > d := by omega
  simp only [if_neg h1, if_neg h2]
  split <;> split <;> omega

/-- There are such numbers on both sides of zero. -/
example : Tie 5 2 ∧ Tie (-5) 2 ∧ vectorRound .round (-5) 2 = -2 ∧ scalarRound .round (-5) 2 = -3 ∧ vectorRound .round 7 2 = scalarRound .round 7 2 := by
  unfold Tie; decide

/-! ## C118: clamp and absolute difference of integers -/

/-- The integers of a type, `none`: the exact result does not fit (undefined for signed types in C++). -/
def check (w : Nat) (z : Int) : Option Int := if -2 ^ (w - 1) ≤ z ∧ z < 2 ^ (w - 1) then some z else none

/-- `scalar_clamp` (`math.cc` 314–317, registered at 441): `std::clamp`, undefined if the bounds are the wrong way round. -/
def scalarClamp (v lo hi : Int) : Option Int := if hi < lo then none else some (if v < lo then lo else if hi < v then hi else v)

/-- `hn::Clamp` (`vector_ternary.cc` 41–42): the minimum of `hi` and the maximum of `lo` and `v`. -/
def vectorClamp (v lo hi : Int) : Int := min (max lo v) hi

/-- `scalar_abs_diff` of signed integers (`math.cc` 327–336, 405), registered for 32 and 64 bits. -/
def scalarAbsDiff (w : Nat) (a b : Int) : Option Int := if a > b then check w (a - b) else check w (b - a)

/-- `hn::AbsDiff` of signed integers (`vector_binary.cc` 48–49): maximum minus minimum, wrapping. -/
def vectorAbsDiff {w : Nat} (a b : BitVec w) : BitVec w := if b.sle a then a - b else b - a

/-- **C118** (partial: bounds in the right order; the full claim is refuted by `clamp_violated`). `clamp` of scalars and of the elements of vectors
is the value if it lies between the bounds, otherwise the nearer bound. -/
theorem clamp_partial (v lo hi : Int) (h : lo ≤ hi) :
    scalarClamp v lo hi = some (vectorClamp v lo hi) ∧ lo ≤ vectorClamp v lo hi ∧ vectorClamp v lo hi ≤ hi ∧
    (lo ≤ v → v ≤ hi → vectorClamp v lo hi = v) ∧ (v < lo → vectorClamp v lo hi = lo) ∧ (hi < v → vectorClamp v lo hi = hi) := by
  unfold scalarClamp vectorClamp
  rw [if_neg (by omega)]
  refine ⟨?_, by omega, by omega, by omega, by omega, by omega⟩
  congr 1
  split
  · omega
  · split <;> omega

/-- **C118, negation of the full claim.** With the bounds the wrong way round, `clamp` of a scalar is undefined; for vectors it is the upper bound. -/
theorem clamp_violated (v lo hi : Int) (h : hi < lo) : scalarClamp v lo hi = none ∧ vectorClamp v lo hi = hi := by
  unfold scalarClamp vectorClamp
  rw [if_pos h]
  exact ⟨rfl, by omega⟩

/-- **C118** (partial: differences that fit; the full claim is refuted by `abs_diff_violated`). `abs_diff` of scalars and of the elements of vectors
is the absolute difference. -/
theorem abs_diff_partial {w : Nat} (a b : BitVec w) (h : (a.toInt - b.toInt).natAbs < 2 ^ (w - 1)) :
    scalarAbsDiff w a.toInt b.toInt = some ((a.toInt - b.toInt).natAbs : Int) ∧ (vectorAbsDiff a b).toInt = ((a.toInt - b.toInt).natAbs : Int) := by
  have hpow : ((2 ^ (w - 1) : Nat) : Int) = 2 ^ (w - 1) := by simp
  refine ⟨?_, ?_⟩
  · unfold scalarAbsDiff check
    split
    · rw [if_pos (by omega)]; congr 1; omega
    · rw [if_pos (by omega)]; congr 1; omega
  · rcases Nat.eq_zero_or_pos w with rfl | hw
    · simp [BitVec.toInt_zero_length]
    · have h2 : ((2 ^ w : Nat) : Int) = 2 * ((2 ^ (w - 1) : Nat) : Int) := by
        obtain ⟨k, rfl⟩ : ∃ k, w = k + 1 := ⟨w - 1, by omega⟩
        rw [Nat.pow_succ]; simp; omega
      unfold vectorAbsDiff
      rw [BitVec.sle_eq_decide]
      split
      · rename_i hle
        simp only [decide_eq_true_eq] at hle
        rw [BitVec.toInt_sub, Int.bmod_eq_of_le] <;> omega
      · rename_i hle
        simp only [decide_eq_true_eq] at hle
        rw [BitVec.toInt_sub, Int.bmod_eq_of_le] <;> omega

/-- **C118, negation of the full claim.** A difference that does not fit is undefined for scalars and negative for vectors. -/
theorem abs_diff_violated {w : Nat} (a b : BitVec w) (hw : 0 < w) (h : 2 ^ (w - 1) ≤ (a.toInt - b.toInt).natAbs) :
    scalarAbsDiff w a.toInt b.toInt = none ∧ (vectorAbsDiff a b).toInt < 0 := by
  have hpow : ((2 ^ (w - 1) : Nat) : Int) = 2 ^ (w - 1) := by simp
  have ha1 := BitVec.le_toInt a
  have ha2 := BitVec.toInt_lt (x := a)
  have hb1 := BitVec.le_toInt b
  have hb2 := BitVec.toInt_lt (x := b)
  refine ⟨?_, ?_⟩
  · unfold scalarAbsDiff check
    split
    · rw [if_neg (by omega)]
    · rw [if_neg (by omega)]
  · have h2 : ((2 ^ w : Nat) : Int) = 2 * ((2 ^ (w - 1) : Nat) : Int) := by
      obtain ⟨k, rfl⟩ : ∃ k, w = k + 1 := ⟨w - 1, by omega⟩
      rw [Nat.pow_succ]; simp; omega
    have hp : 0 < 2 ^ w := Nat.two_pow_pos w
    unfold vectorAbsDiff
    rw [BitVec.sle_eq_decide]
    have key : ∀ z : Int, ((2 ^ (w - 1) : Nat) : Int) ≤ z → z < ((2 ^ w : Nat) : Int) → z.bmod (2 ^ w) < 0 := by
      intro z h3 h4
      rw [Int.bmod_def, Int.emod_eq_of_lt (by omega) h4]
      split <;> omega
    split
    · rename_i hle
      simp only [decide_eq_true_eq] at hle
      rw [BitVec.toInt_sub]
      exact key _ (by omega) (by omega)
    · rename_i hle
      simp only [decide_eq_true_eq] at hle
      rw [BitVec.toInt_sub]
      exact key _ (by omega) (by omega)

/-- `abs_diff(2147483647, -1)`: the smallest integer for vectors. -/
example : (vectorAbsDiff (0x7FFFFFFF#32) (-1#32)).toInt = -2147483648 ∧ scalarAbsDiff 32 2147483647 (-1) = none ∧
    scalarAbsDiff 32 3 (-4) = some 7 ∧ scalarClamp 9 1 5 = some 5 := by decide

end Verif.Gen.MathFns
