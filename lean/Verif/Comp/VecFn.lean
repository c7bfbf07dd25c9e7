import Verif.Comp.Words
import Verif.Comp.VecPipe
/-!
# From the text of a function over vectors to the vector: C153, C154, C155

Functions such as `simd_vector<f32> f(simd_vector<f32> x, f32 k) { var a = x * k; a += x; return a > 0 ? a : x; }`: vectors of bits, integers and floating point numbers, local variables and
assignments; vectors of strings can be compared. Put together from the parser (`Verif.Ast.Parser`), the code of vector expressions (`Verif.Gen.Vec`), the operators of `Verif.Comp.Real`, and from what is modelled here:
validation, `BinaryExpr::Validate`, `UnaryExpr::Validate`, `SelectExpr::Validate`, `/repo/rapidudf/ast/expression.cc` 286–657 and `ReturnStatement::Validate`,
`/repo/rapidudf/ast/statement.cc` 75–91; assignment operators in vector expressions, `JitCompiler::BuildVectorIR`, `/repo/rapidudf/compiler/compiler_eval.cc` 276–318 and 500–507;
`Value::CopyFrom`, `/repo/rapidudf/compiler/value.cc` 50–77; built-in mathematical functions of vectors: their validation, expression.cc 764–846, the choice between intrinsic and 64-lane
kernel, compiler_eval.cc 171–214, and the kernels registered in `/repo/rapidudf/functions/simd_vector.cc` 192–229; comparisons of strings, expression.cc 507–520, `VectorBinaryOp`,
`/repo/rapidudf/compiler/codegen_binary.cc` 37–50, and `/repo/rapidudf/functions/strings.cc` 40–68.

What the floating point unit and the kernels compute with floating point numbers in one lane is a parameter (`Fpu`), the same for the specification and for the model; integers are spelled out
(C117 and C118 tell where kernels and functions of single numbers differ).

Not modelled: statements without vectors, `if` and `while`, strings other than in comparisons, `^`, calls of other functions.
-/
namespace Verif.Comp.VecFn
open Verif.Ast hiding Ty
open Verif.Ast.Rpn Verif.Gen
open Verif.Types.Conv (IntTy)
open Verif.Gen.Scalar (Name)
open Verif.Comp.Pipeline (Arith Rel decimal bit pat)
open Verif.Comp.Real hiding Ex
open Verif.Comp.Words (relStr cmpOf PTy.view)
open Verif.Comp.StrLit (bytes)
open Verif.Types.Str (Byte SV)

/-! ## Specification: expressions

The expressions of C152 and comparisons of strings; a variable is a number (or boolean), a string, or a vector of numbers (or booleans) or of strings. -/

/-- An operand of a comparison of strings: a literal or a variable. -/
inductive Str where
  | text (s : List Char)
  | var (x : Name)

inductive Ex where
  | lit (digits : List Char) (suffix : Option Suf)
  | frac (whole fraction : List Char) (suffix : Option Suf)
  | const (b : Bool)
  | var (x : Name)
  | neg (a : Ex)
  | not (a : Ex)
  | arith (o : Arith) (a b : Ex)
  | rel (o : Rel) (a b : Ex)
  | and (a b : Ex)
  | or (a b : Ex)
  | pick (c a b : Ex)
  | fn1 (f : Fn1) (a : Ex)
  | fn2 (f : Fn2) (a b : Ex)
  | fn3 (f : Fn3) (a b c : Ex)
  | cmp (o : Rel) (a b : Str)

/-- What is left open about the machine: the floating point unit, and what memory holds behind the sixteen bytes of a string view, which are given as a number. The bytes of a literal's
view are put into the code; sixteen zero bytes are an empty string (`/repo/rapidudf/types/string_view.h` 32–70). -/
structure Hw extends Fpu where
  view : Int → SV
  text : List Char → Int
  view_text : ∀ s, ∃ junk, view (text s) = SV.mk' junk (bytes s)
  view_zero : ∃ junk, view 0 = SV.mk' junk []

instance : Coe Hw Fpu := ⟨Hw.toFpu⟩

/-- The sixteen bytes are a view of the string. Strings are shorter than two to the 31 (C15). -/
def Hw.Shows (hw : Hw) (w : Int) (b : List Byte) : Prop := b.length < 2 ^ 31 ∧ ∃ junk, hw.view w = SV.mk' junk b

/-- The variables. Of numbers: vector or not, and the type of the value or of the elements. Of strings: vector or not. -/
structure VEnv where
  num : Name → Option (Bool × Ty)
  str : Name → Option Bool

instance : CoeFun VEnv fun _ => Name → Option (Bool × Ty) := ⟨VEnv.num⟩

/-- The values of the variables at one element. -/
structure Lane where
  num : Name → Option Val
  str : Name → Option (List Byte)

instance : CoeFun Lane fun _ => Name → Option Val := ⟨Lane.num⟩

/-- Whether a string is the element of a vector (`none`: it is no string). -/
def Str.vec (Γ : VEnv) : Str → Option Bool
  | .text _ => some false
  | .var x => Γ.str x
def Str.value (ρ : Lane) : Str → Option (List Byte)
  | .text s => some (bytes s)
  | .var x => ρ.str x

/-- Whether a vector occurs in an expression. -/
def hasV (Γ : VEnv) : Ex → Bool
  | .lit _ _ => false
  | .frac _ _ _ => false
  | .const _ => false
  | .var x => (Γ x).any (·.1)
  | .neg a => hasV Γ a
  | .not a => hasV Γ a
  | .arith _ a b => hasV Γ a || hasV Γ b
  | .rel _ a b => hasV Γ a || hasV Γ b
  | .and a b => hasV Γ a || hasV Γ b
  | .or a b => hasV Γ a || hasV Γ b
  | .pick c a b => hasV Γ c || hasV Γ a || hasV Γ b
  | .fn1 _ a => hasV Γ a
  | .fn2 _ a b => hasV Γ a || hasV Γ b
  | .fn3 _ a b c => hasV Γ a || hasV Γ b || hasV Γ c
  | .cmp _ a b => decide (a.vec Γ = some true) || decide (b.vec Γ = some true)

/-- A literal or a variable that is no vector. -/
def single (Γ : VEnv) : Ex → Bool
  | .lit _ _ => true
  | .frac _ _ _ => true
  | .const _ => true
  | .var x => !hasV Γ (.var x)
  | _ => false

/-- A value of the first type can be converted to the second one: not booleans, and no fractions to integers. -/
def fits : Ty → Ty → Bool
  | .int _, .int _ => true
  | .int _, .flt _ => true
  | .flt _, .flt _ => true
  | _, _ => false

/-- The type two operands are brought to: theirs, if it is the same; beside a vector, a single number is converted to the type of the elements. The first component tells whether one of
them is a vector. -/
def together (k l : Bool × Ty) (a b : Bool) : Option (Bool × Ty) :=
  if k.2 = l.2 then some (k.1 || l.1, k.2)
  else if k.1 = true ∧ b = true ∧ fits l.2 k.2 = true then some (true, k.2)
  else if l.1 = true ∧ a = true ∧ fits k.2 l.2 = true then some (true, l.2)
  else none

/-- Types whose numbers can be negated. -/
def signed : Ty → Bool
  | .int t => t.signed
  | .flt _ => true
  | .bool => false

/-- Which elements the functions are for. There is no cube root of vectors. -/
def takes1 (f : Fn1) : Ty → Bool
  | .int t => decide (f = .abs) && t.signed
  | .flt _ => decide (f ≠ .cbrt)
  | .bool => false
def takes2 (f : Fn2) : Ty → Bool
  | .int t => decide (f = .max) || decide (f = .min) || (decide (f = .absDiff) && t.signed)
  | .flt _ => true
  | .bool => false
def takes3 : Ty → Bool
  | .int t => decide (t.bits = 32) || decide (t.bits = 64)
  | .flt _ => true
  | .bool => false

/-- Functions whose first argument need not depend on vectors. -/
def free2 (f : Fn2) : Bool := decide (f = .max) || decide (f = .min)

/-- The functions on elements: integers wrap around. -/
def apply1 (fpu : Hw) (f : Fn1) : Ty → Val → Option Val
  | .int t, .int x => some (.int (Pipeline.wrap t x.natAbs))
  | .flt F, v => (v.flt? F).map fun x => .flt F (fpu.fn1 f F x)
  | _, _ => none
def int2 (f : Fn2) (x y : Int) : Int :=
  match f with
  | .max => Max.max x y
  | .min => Min.min x y
  | _ => (x - y).natAbs
def apply2 (fpu : Hw) (f : Fn2) : Ty → Val → Val → Option Val
  | .int t, .int x, .int y => some (.int (Pipeline.wrap t (int2 f x y)))
  | .flt F, v, w => (v.flt? F).bind fun x => (w.flt? F).map fun y => .flt F (fpu.fn2 f F x y)
  | _, _, _ => none
def int3 (f : Fn3) (x y z : Int) : Int :=
  match f with
  | .clamp => Min.min (Max.max x y) z
  | .fma => x * y + z
  | .fms => x * y - z
  | .fnma => z - x * y
  | .fnms => -(x * y) - z
def apply3 (fpu : Hw) (f : Fn3) : Ty → Val → Val → Val → Option Val
  | .int t, .int x, .int y, .int z => some (.int (Pipeline.wrap t (int3 f x y z)))
  | .flt F, u, v, w => (u.flt? F).bind fun x => (v.flt? F).bind fun y => (w.flt? F).map fun z => .flt F (fpu.fn3 f F x y z)
  | _, _, _, _ => none

/-- The type of the elements of an expression, and whether they are taken from a vector (those of a comparison are not). Conditions are combined only if both depend on vectors, or none does. A
condition without vectors cannot choose between a vector and a single value, one with vectors not between two single booleans.
Of two strings that are compared, one is the element of a vector. The first argument of a function depends on vectors, except of `abs`, `max` and `min`; the other arguments of a function of three have the type of the first one or are single numbers. -/
def elemOf (Γ : VEnv) : Ex → Option (Bool × Ty)
  | .lit ds s => ((Real.Ex.lit ds s).type fun _ => none).map fun t => (false, t)
  | .frac ip fp s => ((Real.Ex.frac ip fp s).type fun _ => none).map fun t => (false, t)
  | .const _ => some (false, .bool)
  | .var x => Γ x
  | .neg a => (elemOf Γ a).bind fun k => if signed k.2 = true then some k else none
  | .not a => (elemOf Γ a).bind fun k => if k.2 = .bool then some k else none
  | .arith _ a b => (elemOf Γ a).bind fun k => (elemOf Γ b).bind fun l => (together k l (single Γ a) (single Γ b)).bind fun m => if m.2 = .bool then none else some m
  | .rel _ a b => (elemOf Γ a).bind fun k => (elemOf Γ b).bind fun l => (together k l (single Γ a) (single Γ b)).bind fun m => if m.2 = .bool then none else some (false, .bool)
  | .and a b => (elemOf Γ a).bind fun k => (elemOf Γ b).bind fun l => if k.2 = .bool ∧ l.2 = .bool ∧ hasV Γ a = hasV Γ b then some (k.1 || l.1, .bool) else none
  | .or a b => (elemOf Γ a).bind fun k => (elemOf Γ b).bind fun l => if k.2 = .bool ∧ l.2 = .bool ∧ hasV Γ a = hasV Γ b then some (k.1 || l.1, .bool) else none
  | .pick c a b => (elemOf Γ c).bind fun j => (elemOf Γ a).bind fun k => (elemOf Γ b).bind fun l =>
    if j.2 = .bool ∧ (hasV Γ c = true ∨ hasV Γ a = hasV Γ b) ∧ (k.2 = .bool → hasV Γ c = false ∨ hasV Γ a = true ∨ hasV Γ b = true) then together k l (single Γ a) (single Γ b) else none
  | .fn1 f a => (elemOf Γ a).bind fun k => if takes1 f k.2 = true ∧ (hasV Γ a = true ∨ f = .abs ∧ f.for k.2 = true) then some k else none
  | .fn2 f a b => (elemOf Γ a).bind fun k => (elemOf Γ b).bind fun l => (together k l (single Γ a) (single Γ b)).bind fun m =>
    if takes2 f m.2 = true ∧ (hasV Γ a = true ∨ free2 f = true) then some m else none
  | .fn3 _ a b c => (elemOf Γ a).bind fun k => (elemOf Γ b).bind fun l => (elemOf Γ c).bind fun j => (together k l false (single Γ b)).bind fun m => (together m j false (single Γ c)).bind fun q =>
    if takes3 q.2 = true ∧ hasV Γ a = true then some q else none
  | .cmp _ a b => (a.vec Γ).bind fun v => (b.vec Γ).bind fun w => if v = true ∨ w = true then some (false, .bool) else none

/-- The type two operands are brought to. -/
def common (Γ : VEnv) (a b : Ex) : Option Ty :=
  ((elemOf Γ a).bind fun k => (elemOf Γ b).bind fun l => together k l (single Γ a) (single Γ b)).map (·.2)

/-- The value of an expression at one element: `ρ` gives the single values and the elements of the vectors. `none` is undefined behaviour. -/
def valueAt (fpu : Hw) (Γ : VEnv) (ρ : Lane) : Ex → Option Val
  | .lit ds s => (Real.Ex.lit ds s).value fpu (fun _ => none) fun _ => none
  | .frac ip fp s => (Real.Ex.frac ip fp s).value fpu (fun _ => none) fun _ => none
  | .const b => some (.bool b)
  | .var x => ρ x
  | .neg a => (elemOf Γ a).bind fun k => (valueAt fpu Γ ρ a).bind (opposite k.2)
  | .not a => match valueAt fpu Γ ρ a with
    | some (.bool b) => some (.bool !b)
    | _ => none
  | .arith o a b => (common Γ a b).bind fun t => (valueAt fpu Γ ρ a).bind fun v => (valueAt fpu Γ ρ b).bind fun w => (conv fpu t v).bind fun x => (conv fpu t w).bind fun y => arithV fpu o t x y
  | .rel o a b => (common Γ a b).bind fun t => (valueAt fpu Γ ρ a).bind fun v => (valueAt fpu Γ ρ b).bind fun w => (conv fpu t v).bind fun x => (conv fpu t w).bind fun y => relV o t x y
  | .and a b => match valueAt fpu Γ ρ a with
    | some (.bool true) => valueAt fpu Γ ρ b
    | some (.bool false) => some (.bool false)
    | _ => none
  | .or a b => match valueAt fpu Γ ρ a with
    | some (.bool true) => some (.bool true)
    | some (.bool false) => valueAt fpu Γ ρ b
    | _ => none
  | .pick c a b => (common Γ a b).bind fun t => match valueAt fpu Γ ρ c with
    | some (.bool true) => (valueAt fpu Γ ρ a).bind (conv fpu t)
    | some (.bool false) => (valueAt fpu Γ ρ b).bind (conv fpu t)
    | _ => none
  | .fn1 f a => (elemOf Γ a).bind fun k => (valueAt fpu Γ ρ a).bind (apply1 fpu f k.2)
  | .fn2 f a b => (common Γ a b).bind fun t => (valueAt fpu Γ ρ a).bind fun v => (valueAt fpu Γ ρ b).bind fun w => (conv fpu t v).bind fun x => (conv fpu t w).bind fun y => apply2 fpu f t x y
  | .fn3 f a b c => (elemOf Γ a).bind fun k => (valueAt fpu Γ ρ a).bind fun x => (valueAt fpu Γ ρ b).bind fun v => (valueAt fpu Γ ρ c).bind fun w =>
    (conv fpu k.2 v).bind fun y => (conv fpu k.2 w).bind fun z => apply3 fpu f k.2 x y z
  | .cmp o a b => (a.value ρ).bind fun x => (b.value ρ).map fun y => .bool (relStr o x y)

/-- Literals that are read exactly, as in C152; string literals have no backslash (C137). -/
def Ex.Lits (hw : Hw) : Ex → Prop
  | .lit ds s => (Real.Ex.lit ds s).Lits hw
  | .frac ip fp s => (Real.Ex.frac ip fp s).Lits hw
  | .const _ => True
  | .var _ => True
  | .neg a => a.Lits hw
  | .not a => a.Lits hw
  | .arith _ a b => a.Lits hw ∧ b.Lits hw
  | .rel _ a b => a.Lits hw ∧ b.Lits hw
  | .and a b => a.Lits hw ∧ b.Lits hw
  | .or a b => a.Lits hw ∧ b.Lits hw
  | .pick c a b => c.Lits hw ∧ a.Lits hw ∧ b.Lits hw
  | .fn1 _ a => a.Lits hw
  | .fn2 _ a b => a.Lits hw ∧ b.Lits hw
  | .fn3 _ a b c => a.Lits hw ∧ b.Lits hw ∧ c.Lits hw
  | .cmp _ a b => ∀ s, a = .text s ∨ b = .text s → '\\' ∉ s ∧ (bytes s).length < 2 ^ 31

/-- A literal from 1 to 127. -/
def Ex.SmallDivisor : Ex → Prop
  | .lit ds s => (Real.Ex.lit ds s).SmallDivisor
  | _ => False

/-- Computed in floating point numbers. -/
def Floating (Γ : VEnv) (p : Ex) : Prop := ∃ v F, elemOf Γ p = some (v, .flt F)

/-- Expressions that are always defined: integers are divided by literals from 1 to 127 only. -/
def Sure (Γ : VEnv) : Ex → Prop
  | .neg a => Sure Γ a
  | .not a => Sure Γ a
  | .arith o a b => Sure Γ a ∧ Sure Γ b ∧ (o = .div ∨ o = .mod → b.SmallDivisor ∨ Floating Γ (.arith o a b))
  | .rel _ a b => Sure Γ a ∧ Sure Γ b
  | .and a b => Sure Γ a ∧ Sure Γ b
  | .or a b => Sure Γ a ∧ Sure Γ b
  | .pick c a b => Sure Γ c ∧ Sure Γ a ∧ Sure Γ b
  | .fn1 _ a => Sure Γ a
  | .fn2 _ a b => Sure Γ a ∧ Sure Γ b
  | .fn3 _ a b c => Sure Γ a ∧ Sure Γ b ∧ Sure Γ c
  | _ => True

/-- Integers are divided by such literals or by vectors that are variables; operands that might not be needed are always defined (C38, C39 tell why). -/
def Guarded (Γ : VEnv) : Ex → Prop
  | .neg a => Guarded Γ a
  | .not a => Guarded Γ a
  | .arith o a b => Guarded Γ a ∧ Guarded Γ b ∧ (o = .div ∨ o = .mod → b.SmallDivisor ∨ Floating Γ (.arith o a b) ∨ ∃ x t, b = .var x ∧ Γ x = some (true, t))
  | .rel _ a b => Guarded Γ a ∧ Guarded Γ b
  | .and a b => Guarded Γ a ∧ Sure Γ b
  | .or a b => Guarded Γ a ∧ Sure Γ b
  | .pick c a b => Guarded Γ c ∧ Sure Γ a ∧ Sure Γ b
  | .fn1 _ a => Guarded Γ a
  | .fn2 _ a b => Guarded Γ a ∧ Guarded Γ b
  | .fn3 _ a b c => Guarded Γ a ∧ Guarded Γ b ∧ Guarded Γ c
  | _ => True

/-! ## Specification: functions -/

/-- What a variable holds: a value, a string, or the elements of a vector. -/
inductive Item where
  | num (t : Ty) (v : Val)
  | vec (t : Ty) (l : List Val)
  | str (b : List Byte)
  | strs (l : List (List Byte))

def Item.kind : Item → Option (Bool × Ty)
  | .num t _ => some (false, t)
  | .vec t _ => some (true, t)
  | _ => none
def Item.strKind : Item → Option Bool
  | .str _ => some false
  | .strs _ => some true
  | _ => none

/-- Variables with what they hold. -/
abbrev Vars := Name → Option Item

def kinds (σ : Vars) : VEnv := ⟨fun x => (σ x).bind Item.kind, fun x => (σ x).bind Item.strKind⟩

/-- Single values, and the elements `i` of the vectors. -/
def Item.at (i : Nat) : Item → Option Val
  | .num _ v => some v
  | .vec _ l => l[i]?
  | _ => none
def Item.strAt (i : Nat) : Item → Option (List Byte)
  | .str b => some b
  | .strs l => l[i]?
  | _ => none
def lane (σ : Vars) (i : Nat) : Lane := ⟨fun x => (σ x).bind (Item.at i), fun x => (σ x).bind (Item.strAt i)⟩

def bind {α : Type} (σ : Name → Option α) (x : Name) (it : α) : Name → Option α := fun y => if y = x then some it else σ y

/-- The environment with a variable of numbers more. -/
def VEnv.bind (Γ : VEnv) (x : Name) (k : Bool × Ty) : VEnv := ⟨VecFn.bind Γ.num x k, fun y => if y = x then none else Γ.str y⟩

/-- Statements: `var x = e;`, `x = e;`, and `x += e;` or another operator. -/
inductive St where
  | define (x : Name) (e : Ex)
  | assign (x : Name) (e : Ex)
  | update (o : Arith) (x : Name) (e : Ex)

/-- The variable of a statement, and the expression whose value it gets. -/
def St.target : St → Name
  | .define x _ => x
  | .assign x _ => x
  | .update _ x _ => x
def St.source : St → Ex
  | .define _ e => e
  | .assign _ e => e
  | .update o x e => .arith o (.var x) e

/-- The vector of the values of an expression at `0, …, n - 1`; a single one without value makes the call undefined. -/
def vectorOf (fpu : Hw) (n : Nat) (σ : Vars) (e : Ex) : Option (List Val) := (List.range n).mapM fun i => valueAt fpu (kinds σ) (lane σ i) e

/-- One statement after another; `none` is undefined behaviour. -/
def execute (fpu : Hw) (n : Nat) : List St → Vars → Option Vars
  | [], σ => some σ
  | s :: ss, σ => (elemOf (kinds σ) s.source).bind fun k => (vectorOf fpu n σ s.source).bind fun l => execute fpu n ss (bind σ s.target (.vec k.2 l))

/-- Types of parameters and of the elements of vectors. -/
inductive El where
  | num (t : Ty)
  | str

/-- A function: `simd_vector<ret> name(Context ctx, params) { body return result; }`. New vectors are made in the context. -/
structure VFn where
  name : Name
  ctx : Name
  ret : Ty
  params : List (Name × Bool × El)
  body : List St
  result : Ex

/-- What is passed: a value, or a vector with what follows it in memory; a string or strings, each with the sixteen bytes of its view. -/
inductive Arg where
  | num (v : Val)
  | vec (l rest : List Val)
  | str (b : List Byte) (w : Int)
  | strs (l : List (List Byte × Int))

/-- One value for every parameter, of its type; all vectors have `n` elements, and vectors of bits are readable up to a multiple of 64. -/
def Passed (hw : Hw) (n : Nat) : List (Name × Bool × El) → List Arg → Prop
  | [], [] => True
  | (_, false, .num t) :: ps, .num v :: args => v.Has t ∧ Passed hw n ps args
  | (_, true, .num t) :: ps, .vec l rest :: args =>
    l.length = n ∧ (∀ v ∈ l, v.Has t) ∧ (t = .bool → (∀ v ∈ rest, v.Has .bool) ∧ (n + 63) / 64 * 64 ≤ n + rest.length) ∧ Passed hw n ps args
  | (_, false, .str) :: ps, .str b w :: args => hw.Shows w b ∧ Passed hw n ps args
  | (_, true, .str) :: ps, .strs l :: args => l.length = n ∧ (∀ q ∈ l, hw.Shows q.2 q.1) ∧ Passed hw n ps args
  | _, _ => False

/-- What a parameter holds at the beginning. -/
def Arg.item : El → Arg → Option Item
  | .num t, .num v => some (.num t v)
  | .num t, .vec l _ => some (.vec t l)
  | .str, .str b _ => some (.str b)
  | .str, .strs l => some (.strs (l.map (·.1)))
  | _, _ => none

/-- The parameters at the beginning. -/
def start : List (Name × Bool × El) → List Arg → Vars
  | (x, _, t) :: ps, a :: args => fun y => if y = x then a.item t else start ps args y
  | _, _ => fun _ => none

/-- What a call returns. -/
def VFn.returns (fpu : Hw) (g : VFn) (n : Nat) (args : List Arg) : Option (List Val) :=
  (execute fpu n g.body (start g.params args)).bind fun σ => vectorOf fpu n σ g.result

/-- Statements that make sense: a vector occurs in every expression; a new variable has a new name and is not just another vector (C37); a variable keeps its type. -/
def St.Ok (fpu : Hw) (Γ : VEnv) (s : St) (t : Ty) : Prop :=
  s.source.Lits fpu ∧ Guarded Γ s.source ∧ hasV Γ s.source = true ∧ (∃ v, elemOf Γ s.source = some (v, t)) ∧ match s with
  | .define x e => (Γ x = none ∧ Γ.str x = none) ∧ ∀ y, e ≠ .var y
  | .assign x _ => Γ x = some (true, t)
  | .update _ x _ => Γ x = some (true, t)

/-- A result that makes sense: of `c ? a : b`, the first alternative has the type of the result (C145). -/
def ResultOk (fpu : Hw) (Γ : VEnv) (e : Ex) (t : Ty) : Prop :=
  e.Lits fpu ∧ Guarded Γ e ∧ hasV Γ e = true ∧ (∃ v, elemOf Γ e = some (v, t)) ∧ ∀ c a b, e = .pick c a b → ∃ v, elemOf Γ a = some (v, t)

def BodyOk (fpu : Hw) : List St → VEnv → Ex → Ty → Prop
  | [], Γ, e, t => ResultOk fpu Γ e t
  | s :: ss, Γ, e, t => ∃ u, s.Ok fpu Γ u ∧ BodyOk fpu ss (Γ.bind s.target (true, u)) e t

def El.num? : El → Option Ty
  | .num t => some t
  | .str => none
def El.str? : El → Option Unit
  | .num _ => none
  | .str => some ()

/-- The variables at the beginning: the parameters. -/
def paramKinds (ps : List (Name × Bool × El)) : VEnv := ⟨fun x => (ps.lookup x).bind fun q => q.2.num?.map fun t => (q.1, t), fun x => (ps.lookup x).bind fun q => q.2.str?.map fun _ => q.1⟩

/-- No two parameters have the same name, and no variable is named as the context. -/
def VFn.Ok (fpu : Hw) (g : VFn) : Prop :=
  ((g.params.map (·.1)).Nodup ∧ g.ctx ∉ g.params.map (·.1) ∧ ∀ s ∈ g.body, s.target ≠ g.ctx) ∧ BodyOk fpu g.body (paramKinds g.params) g.result g.ret

/-! ### How functions are written -/

def baseText : Ty → List Char
  | .bool => ['b', 'i', 't']
  | .int t => Pipeline.suffixText t
  | .flt .f32 => ['f', '3', '2']
  | .flt .f64 => ['f', '6', '4']

def vecPrefix : List Char := ['s', 'i', 'm', 'd', '_', 'v', 'e', 'c', 't', 'o', 'r', '<']

/-- The text of a type: `simd_vector<f32>`; a boolean is a `bool`, but its vector a `simd_vector<bit>`. -/
def typeText : Bool × Ty → List Char
  | (true, t) => vecPrefix ++ baseText t ++ ['>']
  | (false, .bool) => ['b', 'o', 'o', 'l']
  | (false, t) => baseText t

def viewText : List Char := ['s', 't', 'r', 'i', 'n', 'g', '_', 'v', 'i', 'e', 'w']

/-- Of a parameter, also `string_view` and `simd_vector<string_view>`. -/
def paramText : Bool × El → List Char
  | (v, .num t) => typeText (v, t)
  | (true, .str) => vecPrefix ++ viewText ++ ['>']
  | (false, .str) => viewText

/-- `+=` and the others. -/
def updateSign : Arith → BinOp
  | .add => .addAssign
  | .sub => .subAssign
  | .mul => .mulAssign
  | .div => .divAssign
  | .mod => .modAssign

def Str.Is : Str → Tree → Prop
  | .text s, t => t = .atom (.str s)
  | .var x, t => t = .atom (.var x)

/-- The tree is read as the expression: parentheses do not matter. -/
def Ex.Is : Ex → Tree → Prop
  | .lit ds s, t => t = .atom (.num (withSuffix ds s))
  | .frac ip fp s, t => t = .atom (.num (withSuffix (fracText ip fp) s))
  | .const b, t => t = .atom (.bool b)
  | .var x, t => t = .atom (.var x)
  | .neg a, t => ∃ u, t = .un .neg u ∧ a.Is u
  | .not a, t => ∃ u, t = .un .not u ∧ a.Is u
  | .arith o a b, t => ∃ u v, t = .bin u o.sign v ∧ a.Is u ∧ b.Is v
  | .rel o a b, t => ∃ u v, t = .bin u o.sign v ∧ a.Is u ∧ b.Is v
  | .and a b, t => ∃ u v, t = .bin u .and v ∧ a.Is u ∧ b.Is v
  | .or a b, t => ∃ u v, t = .bin u .or v ∧ a.Is u ∧ b.Is v
  | .pick c a b, t => ∃ w u v, t = .sel w u v ∧ c.Is w ∧ a.Is u ∧ b.Is v
  | .fn1 f a, t => ∃ x, t = .atom (.call f.name (.cons x .nil)) ∧ a.Is x.toTree
  | .fn2 f a b, t => ∃ x y, t = .atom (.call f.name (.cons x (.cons y .nil))) ∧ a.Is x.toTree ∧ b.Is y.toTree
  | .fn3 f a b c, t => ∃ x y z, t = .atom (.call f.name (.cons x (.cons y (.cons z .nil)))) ∧ a.Is x.toTree ∧ b.Is y.toTree ∧ c.Is z.toTree
  | .cmp o a b, t => ∃ u v, t = .bin u o.sign v ∧ a.Is u ∧ b.Is v

def St.Is : St → Stmt → Prop
  | .define x e, s => ∃ r, s = .expr (.bin (.un none (.define x)) .assign r) ∧ e.Is r.toTree
  | .assign x e, s => ∃ r, s = .expr (.bin (.un none (.var x)) .assign r) ∧ e.Is r.toTree
  | .update o x e, s => ∃ r, s = .expr (.bin (.un none (.var x)) (updateSign o) r) ∧ e.Is r.toTree

def BodyIs : List St → Ex → Stmts → Prop
  | [], e, .cons (.retVal f) .nil => e.Is f.toTree
  | s :: ss, e, .cons t ts => s.Is t ∧ BodyIs ss e ts
  | _, _, _ => False

/-- The type of the context, `Context`. -/
def contextText : List Char := ['C', 'o', 'n', 't', 'e', 'x', 't']

/-- A text is read as the function; the context is anywhere among the parameters. -/
def ReadsFn (cfg : Cfg) (src : List Char) (g : VFn) : Prop :=
  ∃ h rest ps qs, parseFunctions cfg src = .ok [h] rest ∧ h.ret = typeText (true, g.ret) ∧ g.params = ps ++ qs ∧
    h.params = ps.map (fun q => (paramText q.2, q.1)) ++ (contextText, g.ctx) :: qs.map (fun q => (paramText q.2, q.1)) ∧ BodyIs g.body g.result h.body

/-! ## Model -/

/-- Operators of vector expressions: operators of the language, `? :`, and built-in functions. -/
inductive VOp where
  | un (o : UnOp)
  | bin (o : BinOp)
  | sel
  | fn (n : Name)

/-- `is_compare_op`, operand.h. -/
def cmpV : VOp → Bool
  | .bin b => (Pipeline.cmpOp b).isSome
  | _ => false

abbrev Nd := Vec.Node PTy MV VOp

/-- `&&` and `||` on lanes of bits, codegen_binary.cc 109–121, `BinaryOp` on numbers, and `compare_string_views`, strings.cc 40–52 (C110), on views, called by `VectorBinaryOp`,
codegen_binary.cc 37–50. The function that compares views is taken to be declared (compiler_eval.cc 171–174): it is if a vector of strings is compared with this operator (expression.cc
507–520). -/
def binV (fpu : Hw) (op : BinOp) : PTy → Option (PTy × (MV → MV → Option MV))
  | .bit =>
    if op = .and then some (.bit, fun v w => some (onWord v fun x => onWord w fun y => .word (bit (x != 0 && y != 0))))
    else if op = .or then some (.bit, fun v w => some (onWord v fun x => onWord w fun y => .word (bit (x != 0 || y != 0))))
    else none
  | .other => (cmpOf op).map fun o => (.bit, fun v w => match v, w with
    | .word x, .word y => (Types.Str.cmpOp o (fpu.view x) (fpu.view y)).map fun r => .word (bit r)
    | _, _ => some .poison)
  | t => binT fpu op t

/-- `select` of one lane, codegen_ternary.cc 48–62. -/
def pickV (c x y : MV) : MV := match c with
  | .word z => if z != 0 then x else y
  | _ => .poison

/-- The 64-lane kernels: the functions registered for vectors, simd_vector.cc 192–229. -/
def kernel1 (f : Fn1) : List PTy := if f = .abs ∨ f = .cbrt then [] else [.flt .f32, .flt .f64]
def kernel2 : Fn2 → List PTy
  | .absDiff => [.flt .f32, .flt .f64, .int .i64, .int .i32, .int .i16, .int .i8]
  | .max => []
  | .min => []
  | _ => [.flt .f32, .flt .f64]
def kernel3 (_ : Fn3) : List PTy := [.flt .f32, .flt .f64, .int .u64, .int .i64, .int .u32, .int .i32]

/-- Functions of one operand on lanes: `llvm.abs` and `llvm.fabs`, codegen_unary.cc 85–94, or the kernel, vector_unary.cc 45–172. -/
def lanes1 (fpu : Hw) (f : Fn1) (c : PTy) : Option (MV → Option MV) :=
  if f = .abs ∨ (kernel1 f).contains c = true then match c with
    | .int t => some fun v => some (onWord v fun x => .word (IntOps.val t (IntOps.abs t (pat t x))))
    | .flt F => some fun v => some (onFlt F v fun x => .flt F (fpu.fn1 f F x))
    | _ => none
  else none

/-- Of two operands: `llvm.smax`, `llvm.umax`, `llvm.maximum` and so on, codegen_binary.cc 214–241, or the kernel, vector_binary.cc 44–86 (`hn::AbsDiff`). Powers of integers, for which there is no kernel,
are left out (the intrinsic is asked for with a single `double`, codegen_binary.cc 196–212). -/
def lanes2 (fpu : Hw) (f : Fn2) (c : PTy) : Option (MV → MV → Option MV) :=
  match c with
  | .int t => match f with
    | .max => some (wordOp .max t)
    | .min => some (wordOp .min t)
    | .absDiff => if (kernel2 .absDiff).contains c = true then some fun v w => some (onWord v fun x => onWord w fun y => .word (IntOps.val t (MathFns.vectorAbsDiff (pat t x) (pat t y)))) else none
    | _ => none
  | .flt F => some fun v w => some (onFlt F v fun x => onFlt F w fun y => .flt F (fpu.fn2 f F x y))
  | _ => none

/-- The kernels of three operands on integers, vector_ternary.cc 39–55: `hn::Clamp`, `hn::MulAdd`, `hn::MulSub`, `hn::NegMulAdd`, `hn::NegMulSub`. -/
def word3 (f : Fn3) (t : IntTy) (x y z : Int) : Int :=
  match f with
  | .clamp => MathFns.vectorClamp x y z
  | .fma => IntOps.val t (pat t x * pat t y + pat t z)
  | .fms => IntOps.val t (pat t x * pat t y - pat t z)
  | .fnma => IntOps.val t (pat t z - pat t x * pat t y)
  | .fnms => IntOps.val t (-(pat t x * pat t y) - pat t z)

def lanes3 (fpu : Hw) (f : Fn3) (c : PTy) : Option (MV → MV → MV → Option MV) :=
  if (kernel3 f).contains c = true then match c with
    | .int t => some fun u v w => some (onWord u fun x => onWord v fun y => onWord w fun z => .word (word3 f t x y z))
    | .flt F => some fun u v w => some (onFlt F u fun x => onFlt F v fun y => onFlt F w fun z => .flt F (fpu.fn3 f F x y z))
    | _ => none
  else none

/-- A built-in function on lanes of the type it is computed in, compiler_eval.cc 171–214. A function with a kernel for the type is taken to be called through it: the kernel is declared if the function is
applied to a first argument that is a vector (`fnTy`). -/
def fnV (fpu : Hw) (n : Name) (c : PTy) : List PTy → Option (PTy × (List MV → Option MV))
  | [a] => if a = c then (names1.lookup n).bind fun f => (lanes1 fpu f c).map fun g => (c, fun vs => match vs with | [x] => g x | _ => none) else none
  | [a, b] => if a = c ∧ b = c then (names2.lookup n).bind fun f => (lanes2 fpu f c).map fun g => (c, fun vs => match vs with | [x, y] => g x y | _ => none) else none
  | [a, b, d] => if a = c ∧ b = c ∧ d = c then (names3.lookup n).bind fun f => (lanes3 fpu f c).map fun g => (c, fun vs => match vs with | [x, y, z] => g x y z | _ => none) else none
  | _ => none

/-- `UnaryOp`, `BinaryOp`, `TernaryOp` on lanes, codegen_unary.cc 47–66, codegen_binary.cc 51–191, codegen_ternary.cc 48–62. The result is stored in a stack slot made for the type the
operator is computed in (compiler_eval.cc 218, 393–397): operands of other types are not described. -/
def opV (fpu : Hw) (o : VOp) (c : PTy) (ts : List PTy) : Option (PTy × (List MV → Option MV)) :=
  match o, ts with
  | .un u, [t] => if t = c then (unT u c).map fun r => (r.1, fun vs => match vs with | [x] => r.2 x | _ => none) else none
  | .bin b, [s, t] => if s = c ∧ t = c then (binV fpu b c).map fun r => (r.1, fun vs => match vs with | [x, y] => r.2 x y | _ => none) else none
  | .sel, [z, s, t] => if z = .bit ∧ s = c ∧ t = c then some (c, fun vs => match vs with | [x, y, w] => some (pickV x y w) | _ => none) else none
  | .fn n, ts => fnV fpu n c ts
  | _, _ => none

/-- What unused lanes hold: 1, of strings zero bytes, codegen_vector.cc 194–235. -/
def fillV : PTy → MV
  | .flt F => .flt F (Flt.ofInt F.fmt 1)
  | .other => .word 0
  | _ => .word 1

/-- Bits, integers and floating point numbers for `Verif.Gen.Vec`. No function is registered for arithmetic and comparisons of vectors of numbers (functions/simd_vector.cc 181–224). -/
def vrt (fpu : Hw) : Vec.Rt PTy MV VOp where
  bit := .bit
  isBit t := decide (t = .bit)
  fill := fillV
  cast := castT fpu
  arity o := match o with | .un _ => 1 | .bin _ => 2 | .sel => 3 | .fn n => (Real.arity n).getD 0
  isCmp := cmpV
  isCond o := match o with | .sel => true | _ => false
  op := opV fpu
  fn _ := none

/-! ### Types in validation -/

/-- A type: vector or not, and the type of the elements. `.other` is the type of string views (`Words.PTy.view`). -/
abbrev VTy := Bool × PTy

/-- `DType::IsNumber`, dtype.h 100. -/
def isNum : PTy → Bool
  | .int _ => true
  | .flt _ => true
  | _ => false

/-- The larger of two types of numbers in the order of `DType`, expression.cc 408–411. -/
def larger (a b : PTy) : PTy := (normT a b).getD a

/-- Whether the types of two operands go together, expression.cc 341–359, 377–406. -/
def canBin (l r : VTy) : Bool := decide (l = r) || (isNum l.2 && isNum r.2 && !(l.1 && r.1)) || decide (l.2 = .other ∧ r.2 = .other)

/-- The type of the left operand after 408–418. -/
def leftTy (l r : VTy) : VTy := if l.1 = false ∧ r.1 = false ∧ isNum l.2 = true ∧ isNum r.2 = true then (false, larger l.2 r.2) else l

/-- `BinaryExpr::Validate`, expression.cc 374–565: the type of the result. -/
def binTy (op : BinOp) (l r : VTy) : Option VTy :=
  if canBin l r = false then none
  else match op with
  | .add | .sub | .mul | .div | .mod => if isNum l.2 = true ∧ isNum r.2 = true then some (if r.1 = true then r else leftTy l r) else none
  | .eq | .ne | .lt | .le | .gt | .ge => if (isNum l.2 = true ∧ isNum r.2 = true) ∨ (l.2 = .other ∧ r.2 = .other) then some (l.1 || r.1, .bit) else none
  | .and | .or => if l = (true, .bit) ∨ r = (true, .bit) then some (true, .bit) else if l = (false, .bit) ∧ r = (false, .bit) then some (false, .bit) else none
  | _ => none

/-- `UnaryExpr::Validate`, expression.cc 286–337. -/
def unTy (op : UnOp) (t : VTy) : Option VTy :=
  match op, t.2 with
  | .not, .bit => some t
  | .neg, .int i => if i.signed = true then some t else none
  | .neg, .flt _ => some t
  | _, _ => none

/-- `DType::CanCastTo`, dtype.cc 292–316. -/
def canCast (s t : VTy) : Bool := decide (s = t) || (!s.1 && !t.1 && isNum s.2 && isNum t.2)

/-- `SelectExpr::Validate`, expression.cc 572–657. -/
def selTy (c t f : VTy) : Option VTy :=
  if c = (false, .bit) then
    if canCast t f = true then some f else if canCast f t = true then some t else none
  else if c = (true, .bit) then
    match t.1, f.1 with
    | true, true => if t = f then some t else none
    | true, false => if canCast f (false, t.2) = true then some t else none
    | false, true => if canCast t (false, f.2) = true then some f else none
    | false, false => if isNum t.2 = true ∧ isNum f.2 = true then some (true, larger t.2 f.2) else none
  else none

/-- Validation of a call of a built-in function, expression.cc 764–846, given the types of the arguments, the types the function is registered for and those it has kernels for. With a vector among the
arguments: the type of the last vector; if there is a kernel for it, the function named after the type of the first argument must be registered. Without: the greatest type, if the
function is registered for it. Simplified: functions with kernels are described only where the first argument is a vector (otherwise which code is used depends on whether the kernel is declared elsewhere). -/
def fnTy (reg ker : List PTy) (ts : List VTy) : Option VTy :=
  match ts.head?, (ts.filter (·.1)).getLast? with
  | some a, some c => if ker.contains c.2 = true then (if a.1 = true ∧ ker.contains a.2 = true then some c else none) else some c
  | some a, none => if ker = [] ∧ reg.contains ((ts.map (·.2)).foldl vMax a.2) = true then some (false, (ts.map (·.2)).foldl vMax a.2) else none
  | none, _ => none

/-- The same for a function given by its name; calls with a wrong number of arguments are not described. -/
def callTy (n : Name) (ts : List VTy) : Option VTy :=
  match ts with
  | [_] => (names1.lookup n).bind fun f => fnTy (registered1 f) (kernel1 f) ts
  | [_, _] => (names2.lookup n).bind fun f => fnTy (registered2 f) (kernel2 f) ts
  | [_, _, _] => (names3.lookup n).bind fun f => fnTy (registered3 f) (kernel3 f) ts
  | _ => none

mutual
/-- The type of an expression. Assignments within expressions are not modelled. -/
def checkE (fpu : Hw) (env : Name → Option VTy) : Expr → Option VTy
  | .un none o => checkO fpu env o
  | .un (some op) o => (checkO fpu env o).bind (unTy op)
  | .bin l op r => (checkE fpu env l).bind fun a => (checkE fpu env r).bind fun b => binTy op a b
  | .sel c t f => (checkE fpu env c).bind fun a => (checkE fpu env t).bind fun b => (checkE fpu env f).bind fun d => selTy a b d
def checkO (fpu : Hw) (env : Name → Option VTy) : Operand → Option VTy
  | .bool _ => some (false, .bit)
  | .str _ => some (false, .other)
  | .num t => (constant fpu t).map fun c => (false, c.1)
  | .paren e => checkE fpu env e
  | .var n => env n
  | .call n es => (checkEs fpu env es).bind (callTy n)
  | _ => none
def checkEs (fpu : Hw) (env : Name → Option VTy) : Exprs → Option (List VTy)
  | .nil => some []
  | .cons e es => (checkE fpu env e).bind fun a => (checkEs fpu env es).map (a :: ·)
end

/-- The type put into the list of nodes (`RPN::SetDType`): every expression puts its type there after its operands did, a selection the type of its first alternative (expression.cc 597). -/
def listTy (fpu : Hw) (env : Name → Option VTy) : Expr → Option VTy
  | .sel _ t _ => checkE fpu env t
  | e => checkE fpu env e

/-- The parts of an assignment that is a statement: the variable, whether it is new, the operator and the right side. -/
def parts : Expr → Option (Name × Bool × BinOp × Expr)
  | .bin (.un none (.define x)) op r => some (x, true, op, r)
  | .bin (.un none (.var x)) op r => some (x, false, op, r)
  | _ => none

/-- Validation of an assignment: the type of its value, and the types of the variables after it. `VarDefine::Validate`, expression.cc 178–186: a new variable has a new name, and no type until
its value is known (its value cannot mention it: there is no code for a variable without type, `World.leaf`). 377–384: anything can be assigned to it. `x = e`: `AddLocalVar`, context.cc 135–144, leaves the type of a variable that has one. -/
def checkSt (fpu : Hw) (env : Name → Option VTy) (f : Expr) : Option (VTy × (Name → Option VTy)) :=
  (parts f).bind fun p =>
    if p.2.1 = true then
      if (env p.1).isSome = true then none
      else (checkE fpu env p.2.2.2).bind fun r => if p.2.2.1 = .assign then some (r, bind env p.1 r) else none
    else (env p.1).bind fun l => (checkE fpu env p.2.2.2).bind fun r =>
      if p.2.2.1 = .assign then if canBin l r = true then some (r, env) else none
      else (Scalar.baseOp p.2.2.1).bind fun o => (binTy o l r).map fun t => (t, env)

/-! ### Code and running

The compiler validates all statements before it generates code; each statement is validated, compiled and run in turn here: a function is refused in the same cases, but here possibly after some
statements ran. -/

/-- The memory of a variable: a value, or a vector (pointer and size). -/
inductive Cell where
  | num (v : MV)
  | vec (b : Vec.Buf MV)

def Cell.buf : Cell → Vec.Buf MV
  | .num _ => ⟨0, []⟩
  | .vec b => b

/-- The variables with their types and the numbers of their cells, the cells, and the names of the parameters of type `Context` (no expression is made of these here). -/
structure World where
  vars : Name → Option (VTy × Nat)
  cells : List Cell
  ctx : List Name

/-- A value, or the vector in cell `s`. -/
def leafIn (s : Nat) (t : VTy) (c : Cell) : Option Nd :=
  match t.1, c with
  | true, .vec _ => some (.vec t.2 s)
  | false, .num v => some (.con t.2 v)
  | _, _ => none

def World.leaf (w : World) (x : Name) : Option Nd := (w.vars x).bind fun q => (w.cells[q.2]?).bind fun c => leafIn q.2 q.1 c

/-- The nodes of `BuildIR(const ast::RPN&)`, compiler_eval.cc 42–100. -/
def nodeOf (fpu : Hw) (look : Name → Option Nd) : Rpn.Node → Option Nd
  | .num t => (constant fpu t).map fun c => .con c.1 c.2
  | .bool b => some (.con .bit (.word (bit b)))
  | .str s => some (.con .other (.word (fpu.text s)))
  | .var n => look n
  | .op1 o => some (.op (.un o))
  | .op2 o => if o = .assign ∨ Scalar.baseOp o ≠ none then none else some (.op (.bin o))
  | .sel => some (.op .sel)
  | .inl n => some (.op (.fn n))
  | _ => none

def nodesOf (fpu : Hw) (look : Name → Option Nd) : Rpn → Option (List Nd)
  | .nil => some []
  | .cons n r => (nodeOf fpu look n).bind fun a => (nodesOf fpu look r).map (a :: ·)

def isVec : Nd → Bool
  | .vec _ _ => true
  | _ => false

/-- The value of a list of nodes, compiler_eval.cc 319–499: a new vector, or the cell of a single one. New vectors are made by a function that takes the context of the caller
(compiler_eval.cc 453–457, codegen.cc 646–662): without one there is no code. -/
inductive Res where
  | old (t : PTy) (s : Nat)
  | new (b : Vec.Buf MV)

def evalNodes (fpu : Hw) (mem : Nat → List MV) (w : World) (t : PTy) (ns : List Nd) : Except Vec.Err Res :=
  match ns with
  | [.vec t' s] => .ok (.old t' s)
  | [_] => .error .compile
  | ns => if w.ctx = [] then .error .compile else (Vec.evalBuf (vrt fpu) mem (w.cells.map Cell.buf) t ns).bind fun b => .ok (.new b)

/-- The nodes whose value is assigned: `BuildVectorIR`, compiler_eval.cc 276–318. The left side is taken out of `x = e`; in `x op= e` it is the first operand. -/
def sourceNodes (x : Option Nd) (op : BinOp) (r : List Nd) : Option (List Nd) :=
  if op = .assign then some r else x.bind fun a => (Scalar.baseOp op).map fun o => a :: r ++ [.op (.bin o)]

/-- `CopyFrom`, value.cc 50–77: a variable without type becomes the value itself; otherwise the types must be the same, and the header of the vector is stored into the cell of the variable. -/
def store (w : World) (x : Name) (new : Bool) (t : PTy) (r : Res) : Except Vec.Err World :=
  if new = true then match r with
    | .old t' s => .ok { w with vars := bind w.vars x ((true, t'), s) }
    | .new b => .ok ⟨bind w.vars x ((true, t), w.cells.length), w.cells ++ [.vec b], w.ctx⟩
  else match w.vars x, r with
    | some (u, s), .old t' s' => match w.cells[s']? with
      | some c => if u = (true, t') then .ok { w with cells := w.cells.set s c } else .error .compile
      | none => .error .compile
    | some (u, s), .new b => if u = (true, t) then .ok { w with cells := w.cells.set s (.vec b) } else .error .compile
    | none, _ => .error .compile

/-- `BuildIR(const ast::ExpressionStatement&)`, compiler_statements.cc 96–102, on an assignment with vectors. The names of the parameters are taken
(expression.cc 178–186). -/
def runSt (fpu : Hw) (mem : Nat → List MV) (w : World) (f : Expr) : Except Vec.Err World :=
  match checkSt fpu (fun x => (w.vars x).map (·.1)) f, parts f with
  | some (t, _), some (x, new, op, r) =>
    match (nodesOf fpu w.leaf (flatE Real.arity r)).bind (sourceNodes (w.leaf x) op) with
    | some ns => if ns.any isVec = true ∧ x ∉ w.ctx then (evalNodes fpu mem w t.2 ns).bind (store w x new t.2) else .error .compile
    | none => .error .compile
  | _, _ => .error .compile

/-- `return e;`: the type of `e` must be that of the function, as vectors are not converted (statement.cc 75–91, dtype.cc 292–316, codegen_cast.cc 87–96). A new vector needs a
context. -/
def runRet (fpu : Hw) (mem : Nat → List MV) (w : World) (ret : PTy) (e : Expr) : Except Vec.Err (List MV) :=
  match checkE fpu (fun x => (w.vars x).map (·.1)) e, listTy fpu (fun x => (w.vars x).map (·.1)) e, nodesOf fpu w.leaf (flatE Real.arity e) with
  | some t, some t', some ns => if ns.any isVec = true ∧ t = (true, ret) ∧ t'.2 = ret ∧ (w.ctx ≠ [] ∨ ns.length = 1) then Vec.evalVec (vrt fpu) mem (w.cells.map Cell.buf) ret ns else .error .compile
  | _, _, _ => .error .compile

def runBody (fpu : Hw) (mem : Nat → List MV) (ret : PTy) : World → Stmts → Except Vec.Err (List MV)
  | w, .cons (.retVal e) _ => runRet fpu mem w ret e
  | w, .cons (.expr f) ss => (runSt fpu mem w f).bind fun w' => runBody fpu mem ret w' ss
  | _, _ => .error .compile

/-- `GetDtypeSymbols`, symbols.cc 150–197: numbers and booleans, and the vectors of them that `DTypeFactory` knows. -/
def typeNamed (t : List Char) : Option VTy :=
  if t = ['b', 'o', 'o', 'l'] then some (false, .bit)
  else if t = viewText then some (false, .other)
  else match sufTypes.lookup t with
    | some u => some (false, u)
    | none => if t.take 12 = vecPrefix ∧ t.getLast? = some '>' then
        (if (t.drop 12).dropLast = ['b', 'i', 't'] then some (true, .bit) else if (t.drop 12).dropLast = viewText then some (true, .other) else (sufTypes.lookup (t.drop 12).dropLast).map fun u => (true, u))
      else none

/-- What is passed for a parameter. -/
def Arg.cell : Arg → Cell
  | .num v => .num v.enc
  | .vec l rest => .vec ⟨l.length, (l ++ rest).map Val.enc⟩
  | .str _ w => .num (.word w)
  | .strs l => .vec ⟨l.length, l.map fun q => .word q.2⟩

/-- `DefineFunction`, codegen.cc 383–414: the parameters are the first variables. -/
def enter : Nat → List (List Char × Name) → List Arg → Option (Name → Option (VTy × Nat))
  | _, [], [] => some fun _ => none
  | k, p :: ps, _ :: args => (typeNamed p.1).bind fun t => (enter (k + 1) ps args).bind fun v => if (v p.2).isSome = true then none else some (bind v p.2 (t, k))
  | _, _, _ => none

/-- The parameters of type `Context`, codegen.cc 390–393. -/
def contexts (ps : List (List Char × Name)) : List Name := (ps.filter fun p => decide (p.1 = contextText)).map (·.2)
def plain (ps : List (List Char × Name)) : List (List Char × Name) := ps.filter fun p => !decide (p.1 = contextText)

/-- Compiling and calling a function that returns a vector. `mem` is what newly allocated memory holds; `args` is what is passed for the parameters other than contexts. -/
def runFn (cfg : Cfg) (fpu : Hw) (mem : Nat → List MV) (src : List Char) (args : List Arg) : Except Vec.Err (List MV) :=
  match parseFunctions cfg src with
  | .ok [h] _ => match typeNamed h.ret, enter 0 (plain h.params) args with
    | some (true, ret), some v =>
      if (contexts h.params).Nodup ∧ ∀ x ∈ contexts h.params, v x = none then runBody fpu mem ret ⟨v, args.map Arg.cell, contexts h.params⟩ h.body else .error .compile
    | _, _ => .error .compile
  | _ => .error .compile

/-- What a call is to give: the vector; undefined behaviour otherwise. -/
def outcome : Option (List Val) → Except Vec.Err (List MV)
  | some l => .ok (l.map Val.enc)
  | none => .error .trap

end Verif.Comp.VecFn
