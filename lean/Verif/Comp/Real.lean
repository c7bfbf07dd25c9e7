import Verif.Comp.Pipeline
import Verif.Comp.ScriptSites
import Verif.Gen.FloatOps
import Verif.Gen.MathFns
/-!
# From the text of an expression with floating point numbers and built-in functions to its value: C152

The way of `Verif.Comp.Pipeline` for expressions over booleans, integers, `f32` and `f64`, with the built-in mathematical functions: literals of
`/repo/rapidudf/compiler/compiler_constants.cc` 22–54, operators of `/repo/rapidudf/compiler/codegen_unary.cc` 47–146, `codegen_binary.cc` 52–345, `codegen_ternary.cc` 47–140, conversions of
`codegen_cast.cc` 34–86, common types of `codegen.cc` 194–213, built-in functions as operators: `/repo/rapidudf/ast/expression.cc` 764–842, registered for the types of
`/repo/rapidudf/functions/math.cc` 405–449.

What the floating point unit and the mathematical library compute is a parameter (`Fpu`), the same for the specification and for the model: the claim is about which operation is applied
to which numbers in which format. Comparisons, conversions between integers and floating point numbers, and `clamp` are spelled out.

Not modelled: `f16` and `f80`, conversions between booleans and numbers, `^`, the named constants.
-/
namespace Verif.Comp.Real
open Verif.Ast Verif.Ast.Rpn Verif.Gen Verif.Gen.Scalar Verif.Types.Conv Verif.Comp.Pipeline

/-! ## Specification: types and values -/

/-- Floating point formats. -/
inductive FTy where
  | f32 | f64
  deriving DecidableEq

def FTy.fmt : FTy → Flt.Fmt
  | .f32 => Flt.f32
  | .f64 => Flt.f64

inductive Ty where
  | bool
  | int (t : IntTy)
  | flt (F : FTy)
  deriving DecidableEq

inductive Val where
  | bool (b : Bool)
  | int (z : Int)
  | flt (F : FTy) (x : Flt.Fl F.fmt)
  deriving DecidableEq

/-- The values of a type. -/
def Val.Has : Val → Ty → Prop
  | .bool _, .bool => True
  | .int z, .int t => IntOps.Fits t z
  | .flt F _, .flt G => F = G
  | _, _ => False

/-- The number of format `F` that a value is. -/
def Val.flt? (F : FTy) : Val → Option (Flt.Fl F.fmt)
  | .flt G x => if h : G = F then some (h ▸ x) else none
  | _ => none

/-- Functions of one argument. -/
inductive Fn1 where
  | abs | ceil | floor | round | rint | trunc | sqrt | cbrt | exp | expm1 | exp2 | log | log10 | log1p | log2 | erf | erfc
  | sin | cos | tan | asin | acos | atan | sinh | cosh | tanh | asinh | acosh | atanh
  deriving DecidableEq

/-- Functions of two arguments. -/
inductive Fn2 where
  | absDiff | max | min | pow | hypot | atan2
  deriving DecidableEq

/-- Functions of three arguments. -/
inductive Fn3 where
  | clamp | fma | fms | fnma | fnms
  deriving DecidableEq

/-- What the floating point unit and the mathematical library compute. -/
structure Fpu where
  /-- the double read from a decimal text with a fraction -/
  read : List Char → Flt.Fl Flt.f64
  /-- conversion between the formats -/
  resize : (F G : FTy) → Flt.Fl F.fmt → Flt.Fl G.fmt
  resize_same : ∀ F x, resize F F x = x
  arith : Arith → (F : FTy) → Flt.Fl F.fmt → Flt.Fl F.fmt → Flt.Fl F.fmt
  fn1 : Fn1 → (F : FTy) → Flt.Fl F.fmt → Flt.Fl F.fmt
  fn2 : Fn2 → (F : FTy) → Flt.Fl F.fmt → Flt.Fl F.fmt → Flt.Fl F.fmt
  fn3 : Fn3 → (F : FTy) → Flt.Fl F.fmt → Flt.Fl F.fmt → Flt.Fl F.fmt → Flt.Fl F.fmt

/-- Two numbers meet in the wider integer type; an integer and a floating point number in the type of the latter; two floating point numbers in the wider format. -/
def join : Ty → Ty → Option Ty
  | .int s, .int t => some (.int (wider s t))
  | .int _, .flt F => some (.flt F)
  | .flt F, .int _ => some (.flt F)
  | .flt .f32, .flt .f32 => some (.flt .f32)
  | .flt _, .flt _ => some (.flt .f64)
  | _, _ => none

/-- The integer a floating point number is cut down to, if it is a number and fits. -/
def cut (t : IntTy) {F : Flt.Fmt} (x : Flt.Fl F) : Option Int :=
  if F.inf ≤ x.mag then none
  else if IntOps.lo t ≤ x.value.tdiv F.one ∧ x.value.tdiv F.one ≤ IntOps.hi t then some (x.value.tdiv F.one) else none

/-- A value converted to a type: an integer to an integer type modulo two to the width; an integer to a floating point number by rounding to the nearest; a floating point number to an
integer by cutting off its fraction, which is undefined if the result does not fit; booleans stay. -/
def conv (fpu : Fpu) : Ty → Val → Option Val
  | .bool, .bool b => some (.bool b)
  | .int t, .int z => some (.int (Pipeline.wrap t z))
  | .int t, .flt _ x => (cut t x).map .int
  | .flt F, .int z => some (.flt F (Flt.ofInt F.fmt z))
  | .flt G, .flt F x => some (.flt G (fpu.resize F G x))
  | _, _ => none

/-- A value of the second type can be converted to the first one. -/
def converts : Ty → Ty → Bool
  | .bool, .bool => true
  | .int _, .int _ => true
  | .int _, .flt _ => true
  | .flt _, .int _ => true
  | .flt _, .flt _ => true
  | _, _ => false

/-! ## Specification: operations -/

/-- Arithmetic on two values of a type. -/
def arithV (fpu : Fpu) (o : Arith) : Ty → Val → Val → Option Val
  | .int t, .int x, .int y => (o.calc t x y).map .int
  | .flt F, v, w => (v.flt? F).bind fun x => (w.flt? F).map fun y => .flt F (fpu.arith o F x y)
  | _, _, _ => none

/-- A comparison of floating point numbers: of their values; false if one of them is not a number. -/
def holdsF (o : Rel) {F : Flt.Fmt} (x y : Flt.Fl F) : Bool := !x.isNaN && !y.isNaN && o.holds x.value y.value

def relV (o : Rel) : Ty → Val → Val → Option Val
  | .int _, .int x, .int y => some (.bool (o.holds x y))
  | .flt F, v, w => (v.flt? F).bind fun x => (w.flt? F).map fun y => .bool (holdsF o x y)
  | _, _, _ => none

/-- The opposite number. -/
def opposite (t : Ty) (v : Val) : Option Val :=
  match t, v with
  | .int t, .int x => some (.int (Pipeline.wrap t (-x)))
  | .flt F, v => (v.flt? F).map fun x => .flt F { x with neg := !x.neg }
  | _, _ => none

/-- Which types the functions are for. -/
def Fn1.for (f : Fn1) : Ty → Bool
  | .int t => decide (f = .abs) && (decide (t = .i32) || decide (t = .i64))
  | .flt _ => true
  | .bool => false
def Fn2.for (f : Fn2) : Ty → Bool
  | .int t => decide (f = .max) || decide (f = .min) || (decide (f = .absDiff) && (decide (t = .i32) || decide (t = .i64)))
  | .flt _ => true
  | .bool => false
def Fn3.for (f : Fn3) : Ty → Bool
  | .int _ => decide (f = .clamp)
  | .flt _ => true
  | .bool => false

/-- The absolute value of an integer wraps around like other arithmetic. -/
def Fn1.calc (fpu : Fpu) (f : Fn1) : Ty → Val → Option Val
  | .int t, .int x => if f = .abs then some (.int (Pipeline.wrap t x.natAbs)) else none
  | .flt F, v => (v.flt? F).map fun x => .flt F (fpu.fn1 f F x)
  | _, _ => none

/-- The absolute difference of integers is undefined if it does not fit. -/
def Fn2.calcInt (f : Fn2) (t : IntTy) (x y : Int) : Option Int :=
  match f with
  | .max => some (Max.max x y)
  | .min => some (Min.min x y)
  | .absDiff => if ((x - y).natAbs : Int) ≤ IntOps.hi t then some ((x - y).natAbs : Int) else none
  | _ => none
def Fn2.calc (fpu : Fpu) (f : Fn2) : Ty → Val → Val → Option Val
  | .int t, .int x, .int y => (f.calcInt t x y).map .int
  | .flt F, v, w => (v.flt? F).bind fun x => (w.flt? F).map fun y => .flt F (fpu.fn2 f F x y)
  | _, _, _ => none

/-- `clamp(x, lo, hi)` is undefined if `hi < lo`. -/
def Fn3.calcFlt (fpu : Fpu) (f : Fn3) (F : FTy) (x lo hi : Flt.Fl F.fmt) : Option (Flt.Fl F.fmt) :=
  if f = .clamp then (if holdsF .lt hi lo = true then none else some (if holdsF .lt x lo = true then lo else if holdsF .lt hi x = true then hi else x)) else some (fpu.fn3 f F x lo hi)
def Fn3.calc (fpu : Fpu) (f : Fn3) : Ty → Val → Val → Val → Option Val
  | .int _, .int x, .int lo, .int hi => if f = .clamp then (if hi < lo then none else some (.int (Max.max lo (Min.min x hi)))) else none
  | .flt F, u, v, w => (u.flt? F).bind fun x => (v.flt? F).bind fun y => (w.flt? F).bind fun z => (f.calcFlt fpu F x y z).map (.flt F)
  | _, _, _, _ => none

/-! ## Specification: expressions -/

/-- The type suffix of a literal. -/
inductive Suf where
  | int (t : IntTy)
  | flt (F : FTy)
  deriving DecidableEq

/-- Expressions: literals without and with a fraction, booleans, arguments, `-a`, `!a`, arithmetic, comparisons, `&&`, `||`, `c ? a : b`, and built-in functions. -/
inductive Ex where
  | lit (digits : List Char) (suffix : Option Suf)
  | frac (whole fraction : List Char) (suffix : Option Suf)
  | const (b : Bool)
  | var (x : Name)
  | neg (a : Ex)
  | not (a : Ex)
  | arith (o : Arith) (a b : Ex)
  | rel (o : Rel) (a b : Ex)
  | and (a b : Ex)
  | or (a b : Ex)
  | pick (c a b : Ex)
  | fn1 (f : Fn1) (a : Ex)
  | fn2 (f : Fn2) (a b : Ex)
  | fn3 (f : Fn3) (a b c : Ex)

/-- Types of arguments. -/
abbrev Types := Name → Option Ty
/-- Values of arguments. -/
abbrev Store := Name → Option Val

def Suf.type : Suf → Ty
  | .int t => .int t
  | .flt F => .flt F

def fracText (ip fp : List Char) : List Char := ip ++ '.' :: fp

/-- The type of an expression. -/
def Ex.type (Γ : Types) : Ex → Option Ty
  | .lit _ (some s) => some s.type
  | .lit ds none => some (.int (if decimal ds ≤ 2147483647 then .i32 else .i64))
  | .frac _ _ (some s) => some s.type
  | .frac _ _ none => some (.flt .f64)
  | .const _ => some .bool
  | .var x => Γ x
  | .neg a => match a.type Γ with
    | some (.int t) => if t.signed = true then some (.int t) else none
    | some (.flt F) => some (.flt F)
    | _ => none
  | .not a => match a.type Γ with
    | some .bool => some .bool
    | _ => none
  | .arith _ a b => (a.type Γ).bind fun s => (b.type Γ).bind fun t => join s t
  | .rel _ a b => (a.type Γ).bind fun s => (b.type Γ).bind fun t => (join s t).map fun _ => .bool
  | .and a b => match a.type Γ, b.type Γ with
    | some .bool, some .bool => some .bool
    | _, _ => none
  | .or a b => match a.type Γ, b.type Γ with
    | some .bool, some .bool => some .bool
    | _, _ => none
  | .pick c a b => match c.type Γ, a.type Γ, b.type Γ with
    | some .bool, some .bool, some .bool => some .bool
    | some .bool, some s, some t => join s t
    | _, _, _ => none
  | .fn1 f a => (a.type Γ).bind fun t => if f.for t = true then some t else none
  | .fn2 f a b => (a.type Γ).bind fun s => (b.type Γ).bind fun t => (join s t).bind fun u => if f.for u = true then some u else none
  | .fn3 f a b c => (a.type Γ).bind fun s => (b.type Γ).bind fun t => (c.type Γ).bind fun r => (join s t).bind fun q => (join q r).bind fun u => if f.for u = true then some u else none

/-- The value of a literal that stands for the double `v`. -/
def Suf.value (fpu : Fpu) (v : Flt.Fl Flt.f64) : Suf → Option Val
  | .int t => some (.int (Pipeline.wrap t (v.value / Flt.f64.one)))
  | .flt F => some (.flt F (fpu.resize .f64 F v))

/-- The value of an expression: the operands of an operation are converted to the type in which they meet. `none` is undefined behaviour. The second operand of `&&` and `||` and the
operands of `? :` count only if they are needed. -/
def Ex.value (fpu : Fpu) (Γ : Types) (ρ : Store) : Ex → Option Val
  | .lit ds none => some (.int (decimal ds))
  | .lit ds (some (.int t)) => some (.int (Pipeline.wrap t (decimal ds)))
  | .lit ds (some (.flt F)) => some (.flt F (fpu.resize .f64 F (Flt.ofInt Flt.f64 (decimal ds))))
  | .frac ip fp none => some (.flt .f64 (fpu.read (fracText ip fp)))
  | .frac ip fp (some s) => s.value fpu (fpu.read (fracText ip fp))
  | .const b => some (.bool b)
  | .var x => ρ x
  | .neg a => (a.type Γ).bind fun t => (a.value fpu Γ ρ).bind fun v => opposite t v
  | .not a => match a.value fpu Γ ρ with
    | some (.bool b) => some (.bool !b)
    | _ => none
  | .arith o a b => ((Ex.arith o a b).type Γ).bind fun t => (a.value fpu Γ ρ).bind fun v => (b.value fpu Γ ρ).bind fun w => (conv fpu t v).bind fun x => (conv fpu t w).bind fun y => arithV fpu o t x y
  | .rel o a b => (a.type Γ).bind fun r => (b.type Γ).bind fun s => (join r s).bind fun t => (a.value fpu Γ ρ).bind fun v => (b.value fpu Γ ρ).bind fun w =>
    (conv fpu t v).bind fun x => (conv fpu t w).bind fun y => relV o t x y
  | .and a b => match a.value fpu Γ ρ with
    | some (.bool true) => b.value fpu Γ ρ
    | some (.bool false) => some (.bool false)
    | _ => none
  | .or a b => match a.value fpu Γ ρ with
    | some (.bool true) => some (.bool true)
    | some (.bool false) => b.value fpu Γ ρ
    | _ => none
  | .pick c a b => ((Ex.pick c a b).type Γ).bind fun t => match c.value fpu Γ ρ with
    | some (.bool true) => (a.value fpu Γ ρ).bind (conv fpu t)
    | some (.bool false) => (b.value fpu Γ ρ).bind (conv fpu t)
    | _ => none
  | .fn1 f a => (a.type Γ).bind fun t => (a.value fpu Γ ρ).bind fun v => f.calc fpu t v
  | .fn2 f a b => ((Ex.fn2 f a b).type Γ).bind fun t => (a.value fpu Γ ρ).bind fun v => (b.value fpu Γ ρ).bind fun w => (conv fpu t v).bind fun x => (conv fpu t w).bind fun y => f.calc fpu t x y
  | .fn3 f a b c => ((Ex.fn3 f a b c).type Γ).bind fun t => (a.value fpu Γ ρ).bind fun u => (b.value fpu Γ ρ).bind fun v => (c.value fpu Γ ρ).bind fun w =>
    (conv fpu t u).bind fun x => (conv fpu t v).bind fun y => (conv fpu t w).bind fun z => f.calc fpu t x y z

/-- A literal from 1 to 127. -/
def Ex.SmallDivisor : Ex → Prop
  | .lit ds none => 1 ≤ decimal ds ∧ decimal ds ≤ 127
  | .lit ds (some (.int _)) => 1 ≤ decimal ds ∧ decimal ds ≤ 127
  | _ => False

/-- An operation in floating point numbers. -/
def Ex.Floating (Γ : Types) (p : Ex) : Prop := ∃ F, p.type Γ = some (.flt F)

/-- Expressions that are always defined: integers are divided by small literals only; no absolute difference of integers; no `clamp`. -/
def Ex.Safe (Γ : Types) : Ex → Prop
  | .lit _ _ => True
  | .frac _ _ _ => True
  | .const _ => True
  | .var _ => True
  | .neg a => a.Safe Γ
  | .not a => a.Safe Γ
  | .arith o a b => a.Safe Γ ∧ b.Safe Γ ∧ (o = .div ∨ o = .mod → b.SmallDivisor ∨ (Ex.arith o a b).Floating Γ)
  | .rel _ a b => a.Safe Γ ∧ b.Safe Γ
  | .and a b => a.Safe Γ ∧ b.Safe Γ
  | .or a b => a.Safe Γ ∧ b.Safe Γ
  | .pick c a b => c.Safe Γ ∧ a.Safe Γ ∧ b.Safe Γ
  | .fn1 _ a => a.Safe Γ
  | .fn2 f a b => a.Safe Γ ∧ b.Safe Γ ∧ (f = .absDiff → (Ex.fn2 f a b).Floating Γ)
  | .fn3 f a b c => a.Safe Γ ∧ b.Safe Γ ∧ c.Safe Γ ∧ f ≠ .clamp

/-- The operands that may not be needed are safe: the compiled code evaluates them anyway (C38). -/
def Ex.Guarded (Γ : Types) : Ex → Prop
  | .lit _ _ => True
  | .frac _ _ _ => True
  | .const _ => True
  | .var _ => True
  | .neg a => a.Guarded Γ
  | .not a => a.Guarded Γ
  | .arith _ a b => a.Guarded Γ ∧ b.Guarded Γ
  | .rel _ a b => a.Guarded Γ ∧ b.Guarded Γ
  | .and a b => a.Guarded Γ ∧ b.Safe Γ
  | .or a b => a.Guarded Γ ∧ b.Safe Γ
  | .pick c a b => c.Guarded Γ ∧ a.Safe Γ ∧ b.Safe Γ
  | .fn1 _ a => a.Guarded Γ
  | .fn2 _ a b => a.Guarded Γ ∧ b.Guarded Γ
  | .fn3 _ a b c => a.Guarded Γ ∧ b.Guarded Γ ∧ c.Guarded Γ

/-- A double that is not negative and below 2^53. -/
def Small (v : Flt.Fl Flt.f64) : Prop := v.neg = false ∧ v.value < 2 ^ 53 * Flt.f64.one

/-- Literals are digits and less than 2^53 (C35); fractions without suffix are not whole numbers (C91). -/
def Ex.Lits (fpu : Fpu) : Ex → Prop
  | .lit ds _ => ds ≠ [] ∧ (∀ c ∈ ds, isDigit c = true) ∧ decimal ds < 2 ^ 53
  | .frac ip fp s => ip ≠ [] ∧ fp ≠ [] ∧ (∀ c ∈ ip, isDigit c = true) ∧ (∀ c ∈ fp, isDigit c = true) ∧ Small (fpu.read (fracText ip fp)) ∧
    (s = none → (fpu.read (fracText ip fp)).value % Flt.f64.one ≠ 0)
  | .const _ => True
  | .var _ => True
  | .neg a => a.Lits fpu
  | .not a => a.Lits fpu
  | .arith _ a b => a.Lits fpu ∧ b.Lits fpu
  | .rel _ a b => a.Lits fpu ∧ b.Lits fpu
  | .and a b => a.Lits fpu ∧ b.Lits fpu
  | .or a b => a.Lits fpu ∧ b.Lits fpu
  | .pick c a b => c.Lits fpu ∧ a.Lits fpu ∧ b.Lits fpu
  | .fn1 _ a => a.Lits fpu
  | .fn2 _ a b => a.Lits fpu ∧ b.Lits fpu
  | .fn3 _ a b c => a.Lits fpu ∧ b.Lits fpu ∧ c.Lits fpu

/-- The branches of every `c ? a : b` have the same type. -/
def Ex.Even (Γ : Types) : Ex → Prop
  | .lit _ _ => True
  | .frac _ _ _ => True
  | .const _ => True
  | .var _ => True
  | .neg a => a.Even Γ
  | .not a => a.Even Γ
  | .arith _ a b => a.Even Γ ∧ b.Even Γ
  | .rel _ a b => a.Even Γ ∧ b.Even Γ
  | .and a b => a.Even Γ ∧ b.Even Γ
  | .or a b => a.Even Γ ∧ b.Even Γ
  | .pick c a b => c.Even Γ ∧ a.Even Γ ∧ b.Even Γ ∧ a.type Γ = b.type Γ
  | .fn1 _ a => a.Even Γ
  | .fn2 _ a b => a.Even Γ ∧ b.Even Γ
  | .fn3 _ a b c => a.Even Γ ∧ b.Even Γ ∧ c.Even Γ

/-- What is negated and what is passed to functions is even: of other choices the compiler takes the type of the second branch when it checks whether an operation is possible (C142). -/
def Ex.Level (Γ : Types) : Ex → Prop
  | .lit _ _ => True
  | .frac _ _ _ => True
  | .const _ => True
  | .var _ => True
  | .neg a => a.Even Γ
  | .not a => a.Level Γ
  | .arith _ a b => a.Level Γ ∧ b.Level Γ
  | .rel _ a b => a.Level Γ ∧ b.Level Γ
  | .and a b => a.Level Γ ∧ b.Level Γ
  | .or a b => a.Level Γ ∧ b.Level Γ
  | .pick c a b => c.Level Γ ∧ a.Level Γ ∧ b.Level Γ
  | .fn1 _ a => a.Even Γ
  | .fn2 _ a b => a.Even Γ ∧ b.Even Γ
  | .fn3 _ a b c => a.Even Γ ∧ b.Even Γ ∧ c.Even Γ

/-! ### How expressions are written -/

def Suf.text : Suf → List Char
  | .int t => suffixText t
  | .flt .f32 => ['f', '3', '2']
  | .flt .f64 => ['f', '6', '4']

def withSuffix (ds : List Char) : Option Suf → List Char
  | none => ds
  | some s => ds ++ '_' :: s.text

def Fn1.name : Fn1 → Name
  | .abs => "abs".toList | .ceil => "ceil".toList | .floor => "floor".toList | .round => "round".toList | .rint => "rint".toList | .trunc => "trunc".toList
  | .sqrt => "sqrt".toList | .cbrt => "cbrt".toList | .exp => "exp".toList | .expm1 => "expm1".toList | .exp2 => "exp2".toList
  | .log => "log".toList | .log10 => "log10".toList | .log1p => "log1p".toList | .log2 => "log2".toList | .erf => "erf".toList | .erfc => "erfc".toList
  | .sin => "sin".toList | .cos => "cos".toList | .tan => "tan".toList | .asin => "asin".toList | .acos => "acos".toList | .atan => "atan".toList
  | .sinh => "sinh".toList | .cosh => "cosh".toList | .tanh => "tanh".toList | .asinh => "asinh".toList | .acosh => "acosh".toList | .atanh => "atanh".toList

def Fn2.name : Fn2 → Name
  | .absDiff => "abs_diff".toList | .max => "max".toList | .min => "min".toList | .pow => "pow".toList | .hypot => "hypot".toList | .atan2 => "atan2".toList

def Fn3.name : Fn3 → Name
  | .clamp => "clamp".toList | .fma => "fma".toList | .fms => "fms".toList | .fnma => "fnma".toList | .fnms => "fnms".toList

/-- The tree is read as the expression: parentheses do not matter. -/
def Ex.Is : Ex → Tree → Prop
  | .lit ds s, t => t = .atom (.num (withSuffix ds s))
  | .frac ip fp s, t => t = .atom (.num (withSuffix (fracText ip fp) s))
  | .const b, t => t = .atom (.bool b)
  | .var x, t => t = .atom (.var x)
  | .neg a, t => ∃ u, t = .un .neg u ∧ a.Is u
  | .not a, t => ∃ u, t = .un .not u ∧ a.Is u
  | .arith o a b, t => ∃ u v, t = .bin u o.sign v ∧ a.Is u ∧ b.Is v
  | .rel o a b, t => ∃ u v, t = .bin u o.sign v ∧ a.Is u ∧ b.Is v
  | .and a b, t => ∃ u v, t = .bin u .and v ∧ a.Is u ∧ b.Is v
  | .or a b, t => ∃ u v, t = .bin u .or v ∧ a.Is u ∧ b.Is v
  | .pick c a b, t => ∃ w u v, t = .sel w u v ∧ c.Is w ∧ a.Is u ∧ b.Is v
  | .fn1 f a, t => ∃ x, t = .atom (.call f.name (.cons x .nil)) ∧ a.Is x.toTree
  | .fn2 f a b, t => ∃ x y, t = .atom (.call f.name (.cons x (.cons y .nil))) ∧ a.Is x.toTree ∧ b.Is y.toTree
  | .fn3 f a b c, t => ∃ x y z, t = .atom (.call f.name (.cons x (.cons y (.cons z .nil)))) ∧ a.Is x.toTree ∧ b.Is y.toTree ∧ c.Is z.toTree

/-- A text is read as the expression. -/
def ReadsAs (cfg : Cfg) (src : List Char) (p : Ex) : Prop := ∃ e rest, parseExpression cfg src = .ok e rest ∧ p.Is e.toTree

/-- The type and the value of an argument, given the declared arguments and the values passed. -/
def argType (ps : List (Name × Ty)) : Types := fun x => ps.lookup x
def argValue (ps : List (Name × Ty)) (args : List Val) : Store := fun x => ((ps.map (·.1)).zip args).lookup x

/-- One value for every argument, of its type. -/
def Passed : List (Name × Ty) → List Val → Prop
  | [], [] => True
  | q :: ps, z :: args => z.Has q.2 ∧ Passed ps args
  | _, _ => False

/-! ## Model -/

/-- Types in the compiler. -/
inductive PTy where
  | bit
  | int (t : IntTy)
  | flt (F : FTy)
  | other
  deriving DecidableEq

/-- Values at run time: integers as the numbers their bits stand for, floating point numbers, and what an undefined conversion gives (`poison`). -/
inductive MV where
  | word (z : Int)
  | flt (F : FTy) (x : Flt.Fl F.fmt)
  | poison
  deriving DecidableEq

def MV.flt? (F : FTy) : MV → Option (Flt.Fl F.fmt)
  | .flt G x => if h : G = F then some (h ▸ x) else none
  | _ => none

/-- Position in `FundamentalType`, dtype_enums.h 45–52, of numbers. -/
def rank : PTy → Option Nat
  | .int t => some (IntOps.rank t)
  | .flt .f32 => some 13
  | .flt .f64 => some 14
  | _ => none

/-- `NormalizeDType`, codegen.cc 194–213: the greater of the two. Only numbers are modelled. -/
def normT (a b : PTy) : Option PTy := (rank a).bind fun m => (rank b).map fun n => if n > m then b else a

/-- The value of an operand, if it is one: anything else is poison. -/
def onWord (v : MV) (f : Int → MV) : MV :=
  match v with
  | .word z => f z
  | _ => .poison
def onFlt (F : FTy) (v : MV) (f : Flt.Fl F.fmt → MV) : MV :=
  match v.flt? F with
  | some x => f x
  | none => .poison

/-- `CastTo` of values, codegen_cast.cc 34–86: `sitofp`/`uitofp` by the sign of the source, `fpext`/`fptrunc`, `fptosi`/`fptoui` by the sign of the destination (poison if the result does not
fit), integers as in `IntOps.cast`. -/
def castT (fpu : Fpu) : PTy → PTy → Option (MV → MV)
  | .int a, .int b => some fun v => onWord v fun x => .word (IntOps.val b (IntOps.cast a b (pat a x)))
  | .int a, .flt F => some fun v => onWord v fun x => .flt F (Flt.ofInt F.fmt (IntOps.val a (pat a x)))
  | .flt F, .int b => some fun v => onFlt F v fun x => match Flt.toInt b.signed b.bits x with
    | some z => .word z
    | none => .poison
  | .flt F, .flt G => some fun v => onFlt F v fun x => .flt G (fpu.resize F G x)
  | _, _ => none

/-- `OP_NEGATIVE`, `OP_NOT`: codegen_unary.cc 52–66. `fneg` flips the sign bit. `!` of numbers, which validation refuses, is left out. -/
def unT (op : UnOp) : PTy → Option (PTy × (MV → Option MV))
  | .int t => if op = .neg then some (.int t, fun v => some (onWord v fun x => .word (IntOps.val t (IntOps.neg t (pat t x))))) else none
  | .flt F => if op = .neg then some (.flt F, fun v => some (onFlt F v fun x => .flt F ⟨!x.neg, x.mag, x.lt⟩)) else none
  | .bit => if op = .not then some (.bit, fun v => some (onWord v fun x => .word (bit (x == 0)))) else none
  | .other => none

/-- Integer operators, codegen_binary.cc 62–108, on words; `none` is undefined behaviour. -/
def wordOp (o : IntOps.IOp) (t : IntTy) (v w : MV) : Option MV :=
  match v, w with
  | .word x, .word y => (IntOps.arith o t (pat t x) (pat t y)).map fun r => .word (IntOps.val t r)
  | _, _ => none

def wordCmp (o : IntOps.COp) (t : IntTy) (v w : MV) : MV := onWord v fun x => onWord w fun y => .word (bit (IntOps.compare o t (pat t x) (pat t y)))

/-- `fadd`, `fsub`, `fmul`, `fdiv`, `frem`: codegen_binary.cc 62–108. -/
def fltOp : BinOp → Option Arith
  | .add => some .add | .sub => some .sub | .mul => some .mul | .div => some .div | .mod => some .mod
  | _ => none

/-- The ordered comparisons of codegen_binary.cc 128–191. -/
def fltCmp : BinOp → Option Flt.Cmp
  | .eq => some .eq | .ne => some .ne | .lt => some .lt | .le => some .le | .gt => some .gt | .ge => some .ge
  | _ => none

def binT (fpu : Fpu) (op : BinOp) : PTy → Option (PTy × (MV → MV → Option MV))
  | .int t => match intOp op with
    | some o => some (.int t, wordOp o t)
    | none => (cmpOp op).map fun o => (.bit, fun v w => some (wordCmp o t v w))
  | .flt F => match fltOp op with
    | some o => some (.flt F, fun v w => some (onFlt F v fun x => onFlt F w fun y => .flt F (fpu.arith o F x y)))
    | none => (fltCmp op).map fun o => (.bit, fun v w => some (onFlt F v fun x => onFlt F w fun y => .word (bit (Flt.fcmp o x y))))
  | _ => none

/-- The names of the operators that are functions, optype.h; which of them have one, two and three operands: `get_operand_count`, operand.h 237–250. -/
def names1 : List (Name × Fn1) :=
  [("abs".toList, .abs), ("ceil".toList, .ceil), ("floor".toList, .floor), ("round".toList, .round), ("rint".toList, .rint), ("trunc".toList, .trunc), ("sqrt".toList, .sqrt), ("cbrt".toList, .cbrt),
   ("exp".toList, .exp), ("expm1".toList, .expm1), ("exp2".toList, .exp2), ("log".toList, .log), ("log10".toList, .log10), ("log1p".toList, .log1p), ("log2".toList, .log2), ("erf".toList, .erf),
   ("erfc".toList, .erfc), ("sin".toList, .sin), ("cos".toList, .cos), ("tan".toList, .tan), ("asin".toList, .asin), ("acos".toList, .acos), ("atan".toList, .atan), ("sinh".toList, .sinh),
   ("cosh".toList, .cosh), ("tanh".toList, .tanh), ("asinh".toList, .asinh), ("acosh".toList, .acosh), ("atanh".toList, .atanh)]
def names2 : List (Name × Fn2) :=
  [("abs_diff".toList, .absDiff), ("max".toList, .max), ("min".toList, .min), ("pow".toList, .pow), ("hypot".toList, .hypot), ("atan2".toList, .atan2)]
def names3 : List (Name × Fn3) := [("clamp".toList, .clamp), ("fma".toList, .fma), ("fms".toList, .fms), ("fnma".toList, .fnma), ("fnms".toList, .fnms)]

/-- The number of operands of a built-in function. -/
def arity : Inline := fun n =>
  if (names1.lookup n).isSome = true then some 1 else if (names2.lookup n).isSome = true then some 2 else if (names3.lookup n).isSome = true then some 3 else none

/-- The types the functions are registered for, math.cc 405–449; `f80` left out. -/
def registered1 (f : Fn1) : List PTy := if f = .abs then [.flt .f32, .flt .f64, .int .i64, .int .i32] else [.flt .f32, .flt .f64]
def registered2 : Fn2 → List PTy
  | .absDiff => [.flt .f32, .flt .f64, .int .i64, .int .i32]
  | .max => [.flt .f32, .flt .f64, .int .i64, .int .i32, .int .i16, .int .i8, .int .u64, .int .u32, .int .u16, .int .u8]
  | .min => [.flt .f32, .flt .f64, .int .i64, .int .i32, .int .i16, .int .i8, .int .u64, .int .u32, .int .u16, .int .u8]
  | _ => [.flt .f32, .flt .f64]
def registered3 : Fn3 → List PTy
  | .clamp => [.flt .f32, .flt .f64, .int .i64, .int .i32, .int .i16, .int .i8, .int .u64, .int .u32, .int .u16, .int .u8]
  | _ => [.flt .f32, .flt .f64]

/-- `CodeGen::UnaryOp`, codegen_unary.cc 47–146, or the registered function. -/
def run1 (fpu : Fpu) (f : Fn1) (t : PTy) (v : MV) : Option MV :=
  match t with
  | .int t => some (onWord v fun x => .word (IntOps.val t (IntOps.abs t (pat t x))))
  | .flt F => some (onFlt F v fun x => .flt F (fpu.fn1 f F x))
  | _ => none

/-- `CodeGen::BinaryOp`, codegen_binary.cc 214–241, or the registered function: math.cc 327–336 (`scalar_abs_diff`). -/
def run2 (fpu : Fpu) (f : Fn2) (t : PTy) (v w : MV) : Option MV :=
  match t with
  | .int t => match f with
    | .max => wordOp .max t v w
    | .min => wordOp .min t v w
    | .absDiff => match v, w with
      | .word x, .word y => (MathFns.scalarAbsDiff t.bits x y).map .word
      | _, _ => none
    | _ => none
  | .flt F => some (onFlt F v fun x => onFlt F w fun y => .flt F (fpu.fn2 f F x y))
  | _ => none

/-- `std::clamp` on floating point numbers, math.cc 314–317; undefined if `hi < lo`. -/
def clampF {F : Flt.Fmt} (x lo hi : Flt.Fl F) : Option (Flt.Fl F) :=
  if Flt.fcmp .lt hi lo = true then none else some (if Flt.fcmp .lt x lo = true then lo else if Flt.fcmp .lt hi x = true then hi else x)

/-- `CodeGen::TernaryOp`, codegen_ternary.cc 47–83, or the registered function. -/
def run3 (fpu : Fpu) (f : Fn3) (t : PTy) (u v w : MV) : Option MV :=
  match t with
  | .int _ => match u, v, w with
    | .word x, .word lo, .word hi => (MathFns.scalarClamp x lo hi).map .word
    | _, _, _ => none
  | .flt F => match u.flt? F, v.flt? F, w.flt? F with
    | some x, some y, some z => if f = .clamp then (clampF x y z).map (.flt F) else some (.flt F (fpu.fn3 f F x y z))
    | _, _, _ => none
  | _ => none

/-- `CastTo` of a `Value`: nothing to do if it has the type. -/
def castV (fpu : Fpu) (a b : PTy) : Option (MV → MV) := if a = b then some id else castT fpu a b

/-- The types for which there is an instruction or an intrinsic, or else a registered function, which validation has to have made known. -/
def coded1 (f : Fn1) (t : PTy) : Bool := match t with
  | .int _ => decide (f = .abs)
  | _ => (registered1 f).contains t

/-- A built-in function as an operator on operands of the given types: codegen_unary.cc 148–172, codegen_binary.cc 300–316 and codegen_ternary.cc 105–131 (operands converted to the common
type), then an intrinsic or the registered function. -/
def inlT (fpu : Fpu) (n : Name) : List PTy → Option (PTy × (List MV → Option MV))
  | [a] => (names1.lookup n).bind fun f => if coded1 f a = true then
      some (a, fun
        | [v] => run1 fpu f a v
        | _ => none)
    else none
  | [a, b] => (names2.lookup n).bind fun f => (normT a b).bind fun t => if (registered2 f).contains t = true then
      (castV fpu a t).bind fun ca => (castV fpu b t).map fun cb => (t, fun
        | [v, w] => run2 fpu f t (ca v) (cb w)
        | _ => none)
    else none
  | [a, b, c] => (names3.lookup n).bind fun f => (normT a b).bind fun q => (normT q c).bind fun t => if (registered3 f).contains t = true then
      (castV fpu a t).bind fun ca => (castV fpu b t).bind fun cb => (castV fpu c t).map fun cc => (t, fun
        | [u, v, w] => run3 fpu f t (ca u) (cb v) (cc w)
        | _ => none)
    else none
  | _ => none

/-- The suffixes of literals, symbols.cc 55–61 (`f80` left out). -/
def sufTypes : List (List Char × PTy) :=
  [(['u', '8'], .int .u8), (['i', '8'], .int .i8), (['u', '1', '6'], .int .u16), (['i', '1', '6'], .int .i16), (['u', '3', '2'], .int .u32), (['i', '3', '2'], .int .i32),
   (['u', '6', '4'], .int .u64), (['i', '6', '4'], .int .i64), (['f', '3', '2'], .flt .f32), (['f', '6', '4'], .flt .f64)]

/-- `std::from_chars` on the digits of a literal, grammar.cc 124–150: the nearest double. -/
def readNumber (fpu : Fpu) (ds : List Char) : Flt.Fl Flt.f64 := if ds.all isDigit = true then Flt.ofInt Flt.f64 (Literal.digitsValue ds) else fpu.read ds

/-- `BuildIR(double v, DType dtype)`, compiler_constants.cc 30–46. A conversion to `uint64_t` out of range is undefined in the compiler; nothing is said about it (`none`). -/
def buildAs (fpu : Fpu) (v : Flt.Fl Flt.f64) : PTy → Option (PTy × MV)
  | .int t => (Flt.toInt false 64 v).map fun n => (.int t, .word (IntOps.val t (pat t n)))
  | .flt F => some (.flt F, .flt F (fpu.resize .f64 F v))
  | _ => none

/-- `BuildIR(double v)`, compiler_constants.cc 47–54. -/
def buildPlain (fpu : Fpu) (v : Flt.Fl Flt.f64) : Option (PTy × MV) :=
  (Flt.toInt true 64 v).bind fun iv =>
    if Flt.fcmp .eq (Flt.ofInt Flt.f64 iv) v = true then buildAs fpu v (.int (if iv ≤ 2147483647 then .i32 else .i64)) else some (.flt .f64, .flt .f64 v)

/-- `BuildIR(const ast::ConstantNumber&)`, compiler_constants.cc 22–29. -/
def constant (fpu : Fpu) (t : List Char) : Option (PTy × MV) :=
  match splitNumber t with
  | (ds, none) => buildPlain fpu (readNumber fpu ds)
  | (ds, some suf) => (sufTypes.lookup suf).bind fun u => buildAs fpu (readNumber fpu ds) u

/-- Types and operations for the code of `Verif.Gen.Scalar`. -/
def rt (fpu : Fpu) : Rt PTy MV Unit where
  bool b := (.bit, .word (bit b))
  str _ := (.other, .poison)
  num := constant fpu
  isBit t := decide (t = .bit)
  truth v := match v with
    | .word z => decide (z ≠ 0)
    | _ => false
  norm := normT
  cast := castT fpu
  un := unT
  bin := binT fpu
  fn _ := none
  inl := inlT fpu

/-! ### Validation -/

/-- `UnaryExpr::Validate`, expression.cc 294–326. -/
def vUn (op : UnOp) (a : PTy) : Option PTy :=
  match op, a with
  | .neg, .int t => if t.signed = true then some (.int t) else none
  | .neg, .flt F => some (.flt F)
  | .not, .bit => some .bit
  | _, _ => none

/-- `BinaryExpr::Validate`, expression.cc 357–570, for booleans and numbers. -/
def vBin (op : BinOp) (a b : PTy) : Option PTy :=
  if (fltOp op).isSome = true then normT a b
  else if (fltCmp op).isSome = true then (normT a b).map fun _ => .bit
  else if op = .and ∨ op = .or then (if a = .bit ∧ b = .bit then some .bit else none)
  else none

/-- `SelectExpr::Validate`, expression.cc 596–605: the type of the second branch, if the first one can be converted to it. -/
def vSel (z a b : PTy) : Option PTy := if z = .bit ∧ (a = b ∨ (normT a b).isSome = true) then some b else none

/-- The greater of two types, `DType::Compare` on types with one number, dtype.cc 81–85; the position of `bool` is 3. -/
def order (t : PTy) : Nat := (rank t).getD (if t = .bit then 3 else 0)
def vMax (a b : PTy) : PTy := if order b > order a then b else a

/-- `VarAccessor::Validate` of a built-in function with operands, expression.cc 764–846: registered for the greatest of the types. -/
def vInl (n : Name) : List PTy → Option PTy
  | [a] => (names1.lookup n).bind fun f => if (registered1 f).contains a = true then some a else none
  | [a, b] => (names2.lookup n).bind fun f => if (registered2 f).contains (vMax a b) = true then some (vMax a b) else none
  | [a, b, c] => (names3.lookup n).bind fun f => if (registered3 f).contains (vMax (vMax a b) c) = true then some (vMax (vMax a b) c) else none
  | _ => none

/-- The types validation works with. -/
def vSem (fpu : Fpu) (tenv : Name → Option PTy) : Sem PTy where
  bool _ := .bit
  str _ := .other
  num t := (constant fpu t).map (·.1)
  define _ := none
  var := tenv
  array _ := none
  call _ _ := none
  field _ _ := none
  method _ _ _ := none
  key _ _ := none
  index _ _ := none
  ref _ _ := none
  un := vUn
  bin := vBin
  sel := vSel
  inl := vInl

/-! ### Functions -/

/-- `DefineFunction`, codegen.cc 383–414: every argument is stored in a slot; of two arguments with the same name the later one counts. -/
def paramVars : Nat → List (Name × PTy) → Name → Option (Option (PTy × Nat))
  | _, [], _ => none
  | k, (x, t) :: ps, n => match paramVars (k + 1) ps n with
    | some b => some b
    | none => if n = x then some (some (t, k)) else none

/-- A compiled function: code and where the result is. -/
abbrev Code := List (Instr PTy MV) × Opd MV

/-- `CompileExpression`, compiler.cc 112–125: the expression is parsed (what follows it is not looked at) and validated, and its value is converted to the return type (codegen.cc 462–478). -/
def compile (fpu : Fpu) (cfg : Cfg) (ps : List (Name × PTy)) (ret : PTy) (src : List Char) : Option Code :=
  match parseExpression cfg src with
  | .ok e _ => (evalE arity (vSem fpu (tenvOf (paramVars 0 ps))) e).bind fun _ => ((((gExpr (rt fpu) arity e).andThen ld).andThen (castTo (rt fpu) ret)) ⟨0, ps.length, paramVars 0 ps⟩).map fun r => (r.2.1, r.1)
  | .fail => none
  | .fuel => none

/-- What a call does. -/
inductive Out where
  | undefined
  | value (v : MV)
  deriving DecidableEq

/-- A call of the function: the arguments are in the first slots, the others hold anything. Returning poison is undefined. -/
def call (fpu : Fpu) (c : Code) (junk : Nat → MV) (args : List MV) : Out :=
  match Scalar.run (rt fpu) c.1 ⟨[], fun i => args.getD i (junk i), ()⟩ with
  | none => .undefined
  | some rs => match rs.opd c.2 with
    | none => .undefined
    | some .poison => .undefined
    | some v => .value v

/-- How the caller hands over types and values. -/
def Ty.p : Ty → PTy
  | .bool => .bit
  | .int t => .int t
  | .flt F => .flt F
def Val.enc : Val → MV
  | .bool b => .word (if b = true then 1 else 0)
  | .int z => .word z
  | .flt F x => .flt F x

end Verif.Comp.Real
