import Verif.Comp.RealProps
import Verif.Comp.StrLit
/-!
# From the text of an expression with strings to its value: C162

The way of `Verif.Comp.Real` for expressions in which there are also strings: arguments of type `StringView`, string literals, comparisons of strings
(`/repo/rapidudf/ast/expression.cc` 480–520, `/repo/rapidudf/compiler/codegen_binary.cc` 318–330, `/repo/rapidudf/types/string_view.cc` 20–54), `c ? a : b` on strings
(`/repo/rapidudf/compiler/codegen_ternary.cc` 56–59, 80–110), and the methods of strings (`/repo/rapidudf/functions/strings.cc` 73–100, `/repo/rapidudf/ast/expression.cc` 214–284,
`/repo/rapidudf/compiler/compiler_expressions.cc` 48–97, 113–146). Numbers, booleans and built-in functions are those of `Verif.Comp.Real`; views are those of `Verif.Types.Str`.

Not modelled: `std::string`, `std::string_view` and flatbuffers strings as arguments, JSON, vectors of strings, functions of three arguments. The two methods that ignore case and do not
(C16) are in the model, not in the specification.
-/
namespace Verif.Comp.Words
open Verif.Ast Verif.Ast.Rpn Verif.Gen Verif.Gen.Scalar Verif.Types.Conv Verif.Types.Str
open Verif.Comp.Pipeline (Arith Rel decimal bit)
open Verif.Comp.StrLit (bytes)
open Verif.Comp.Real (Fpu Fn1 Fn2 Suf PTy MV fracText withSuffix Small)

/-! ## Specification: types and values -/

inductive Ty where
  | num (t : Real.Ty)
  | str
  deriving DecidableEq

/-- A string is a sequence of bytes. -/
inductive Val where
  | num (v : Real.Val)
  | str (b : List Byte)

/-- The values of a type. Strings are shorter than two to the 31 (C15). -/
def Val.Has : Val → Ty → Prop
  | .num v, .num t => v.Has t
  | .str b, .str => b.length < 2 ^ 31
  | _, _ => False

/-- What is asked about a string and another one. -/
inductive Ask where
  | contains | startsWith | endsWith | containsIgnoringCase
  deriving DecidableEq

/-- The answers. -/
def Ask.True : Ask → List Byte → List Byte → Prop
  | .contains, s, part => ∃ l r, s = l ++ part ++ r
  | .startsWith, s, part => ∃ r, s = part ++ r
  | .endsWith, s, part => ∃ l, s = l ++ part
  | .containsIgnoringCase, s, part => ∃ l m r, s = l ++ m ++ r ∧ m.map lower = part.map lower

open Classical in
noncomputable def Ask.ans (m : Ask) (s part : List Byte) : Bool := decide (m.True s part)

/-- Comparison of strings: byte by byte. -/
def relStr (o : Rel) (a b : List Byte) : Bool :=
  match o with
  | .eq => decide (a = b)
  | .ne => decide (a ≠ b)
  | .lt => lexCmp a b == .lt
  | .le => lexCmp a b == .lt || decide (a = b)
  | .gt => lexCmp a b == .gt
  | .ge => lexCmp a b == .gt || decide (a = b)

/-- Operations on one number or boolean. -/
inductive Op1 where
  | neg | not
  | fn (f : Fn1)

/-- Operations on two. -/
inductive Op2 where
  | arith (o : Arith)
  | rel (o : Rel)
  | fn (f : Fn2)

/-- Their types. -/
def Op1.type : Op1 → Real.Ty → Option Real.Ty
  | .neg, .int t => if t.signed = true then some (.int t) else none
  | .neg, .flt F => some (.flt F)
  | .neg, .bool => none
  | .not, .bool => some .bool
  | .not, _ => none
  | .fn f, t => if f.for t = true then some t else none
def Op2.type (o : Op2) (s t : Real.Ty) : Option Real.Ty := (Real.join s t).bind fun u => match o with
  | .arith _ => some u
  | .rel _ => some .bool
  | .fn f => if f.for u = true then some u else none

/-- Their values; the operands of an operation on two numbers are converted to the type in which they meet. -/
def Op1.value (fpu : Fpu) (o : Op1) (t : Real.Ty) (v : Real.Val) : Option Real.Val :=
  match o with
  | .neg => Real.opposite t v
  | .not => match v with
    | .bool b => some (.bool !b)
    | _ => none
  | .fn f => f.calc fpu t v
def Op2.apply (fpu : Fpu) (o : Op2) (u : Real.Ty) (x y : Real.Val) : Option Real.Val :=
  match o with
  | .arith o => Real.arithV fpu o u x y
  | .rel o => Real.relV o u x y
  | .fn f => f.calc fpu u x y
def Op2.value (fpu : Fpu) (o : Op2) (s t : Real.Ty) (v w : Real.Val) : Option Real.Val :=
  (Real.join s t).bind fun u => (Real.conv fpu u v).bind fun x => (Real.conv fpu u w).bind fun y => o.apply fpu u x y

/-! ## Specification: expressions -/

/-- Expressions: string literals, numbers and booleans, arguments (and fields, by the path to them), operations, `&&`, `||`, `c ? a : b`, `x.size()`, and `x.contains(a)` and the like for an
argument or field `x`. -/
inductive Ex where
  | text (s : List Char)
  | lit (digits : List Char) (suffix : Option Suf)
  | frac (whole fraction : List Char) (suffix : Option Suf)
  | const (b : Bool)
  | var (x : Name)
  | op1 (o : Op1) (a : Ex)
  | op2 (o : Op2) (a b : Ex)
  | and (a b : Ex)
  | or (a b : Ex)
  | pick (c a b : Ex)
  | size (x : Name)
  | ask (m : Ask) (x : Name) (a : Ex)

abbrev Types := Name → Option Ty
abbrev Store := Name → Option Val

/-- The type of `c ? a : b` for branches of the types. -/
def pickType : Ty → Ty → Option Ty
  | .num .bool, .num .bool => some (.num .bool)
  | .num s, .num t => (Real.join s t).map .num
  | .str, .str => some .str
  | _, _ => none

/-- The type of a comparison, an arithmetic operation or a function. -/
def op2Type (o : Op2) : Ty → Ty → Option Ty
  | .num s, .num t => (o.type s t).map .num
  | .str, .str => match o with
    | .rel _ => some (.num .bool)
    | _ => none
  | _, _ => none

/-- The type of an expression. -/
def Ex.type (Γ : Types) : Ex → Option Ty
  | .text _ => some .str
  | .lit ds s => ((Real.Ex.lit ds s).type fun _ => none).map .num
  | .frac ip fp s => ((Real.Ex.frac ip fp s).type fun _ => none).map .num
  | .const _ => some (.num .bool)
  | .var x => Γ x
  | .op1 o a => (a.type Γ).bind fun
    | .num t => (o.type t).map .num
    | .str => none
  | .op2 o a b => (a.type Γ).bind fun s => (b.type Γ).bind fun t => op2Type o s t
  | .and a b => (a.type Γ).bind fun s => (b.type Γ).bind fun t => if s = .num .bool ∧ t = .num .bool then some (.num .bool) else none
  | .or a b => (a.type Γ).bind fun s => (b.type Γ).bind fun t => if s = .num .bool ∧ t = .num .bool then some (.num .bool) else none
  | .pick c a b => (c.type Γ).bind fun r => (a.type Γ).bind fun s => (b.type Γ).bind fun t => if r = .num .bool then pickType s t else none
  | .size x => if Γ x = some .str then some (.num (.int .u64)) else none
  | .ask _ x a => if Γ x = some .str ∧ a.type Γ = some .str then some (.num .bool) else none

/-- A value converted to a type. -/
def conv (fpu : Fpu) : Ty → Val → Option Val
  | .num t, .num v => (Real.conv fpu t v).map .num
  | .str, .str b => some (.str b)
  | _, _ => none

/-- A value of the second type can be converted to the first one. -/
def converts : Ty → Ty → Bool
  | .num s, .num t => Real.converts s t
  | .str, .str => true
  | _, _ => false

/-- The value of an operation. -/
def op2Value (fpu : Fpu) (o : Op2) : Ty → Ty → Val → Val → Option Val
  | .num s, .num t, .num v, .num w => (o.value fpu s t v w).map .num
  | .str, .str, .str a, .str b => match o with
    | .rel r => some (.num (.bool (relStr r a b)))
    | _ => none
  | _, _, _, _ => none

/-- The value of an expression. `none` is undefined behaviour. The second operand of `&&` and `||` and the operands of `? :` count only if they are needed. -/
noncomputable def Ex.value (fpu : Fpu) (Γ : Types) (ρ : Store) : Ex → Option Val
  | .text s => some (.str (bytes s))
  | .lit ds s => ((Real.Ex.lit ds s).value fpu (fun _ => none) fun _ => none).map .num
  | .frac ip fp s => ((Real.Ex.frac ip fp s).value fpu (fun _ => none) fun _ => none).map .num
  | .const b => some (.num (.bool b))
  | .var x => ρ x
  | .op1 o a => (a.type Γ).bind fun s => (a.value fpu Γ ρ).bind fun v => match s, v with
    | .num t, .num v => (o.value fpu t v).map .num
    | _, _ => none
  | .op2 o a b => (a.type Γ).bind fun s => (b.type Γ).bind fun t => (a.value fpu Γ ρ).bind fun v => (b.value fpu Γ ρ).bind fun w => op2Value fpu o s t v w
  | .and a b => (a.value fpu Γ ρ).bind fun
    | .num (.bool true) => b.value fpu Γ ρ
    | .num (.bool false) => some (.num (.bool false))
    | _ => none
  | .or a b => (a.value fpu Γ ρ).bind fun
    | .num (.bool true) => some (.num (.bool true))
    | .num (.bool false) => b.value fpu Γ ρ
    | _ => none
  | .pick c a b => ((Ex.pick c a b).type Γ).bind fun t => (c.value fpu Γ ρ).bind fun
    | .num (.bool true) => (a.value fpu Γ ρ).bind (conv fpu t)
    | .num (.bool false) => (b.value fpu Γ ρ).bind (conv fpu t)
    | _ => none
  | .size x => (ρ x).bind fun
    | .str s => some (.num (.int s.length))
    | .num _ => none
  | .ask m x a => (ρ x).bind fun v => (a.value fpu Γ ρ).bind fun w => match v, w with
    | .str s, .str part => some (.num (.bool (m.ans s part)))
    | _, _ => none

/-- A literal from 1 to 127. -/
def Ex.SmallDivisor : Ex → Prop
  | .lit ds none => 1 ≤ decimal ds ∧ decimal ds ≤ 127
  | .lit ds (some (.int _)) => 1 ≤ decimal ds ∧ decimal ds ≤ 127
  | _ => False

/-- An operation in floating point numbers. -/
def Ex.Floating (Γ : Types) (p : Ex) : Prop := ∃ F, p.type Γ = some (.num (.flt F))

/-- Operations that may be undefined on integers. -/
def Op2.Risky : Op2 → Prop
  | .arith o => o = .div ∨ o = .mod
  | .rel _ => False
  | .fn f => f = .absDiff
def Op2.Division : Op2 → Prop
  | .arith o => o = .div ∨ o = .mod
  | _ => False

/-- Expressions that are always defined: integers are divided by small literals only; no absolute difference of integers. -/
def Ex.Safe (Γ : Types) : Ex → Prop
  | .text _ => True
  | .lit _ _ => True
  | .frac _ _ _ => True
  | .const _ => True
  | .var _ => True
  | .op1 _ a => a.Safe Γ
  | .op2 o a b => a.Safe Γ ∧ b.Safe Γ ∧ (o.Risky → (o.Division ∧ b.SmallDivisor) ∨ (Ex.op2 o a b).Floating Γ)
  | .and a b => a.Safe Γ ∧ b.Safe Γ
  | .or a b => a.Safe Γ ∧ b.Safe Γ
  | .pick c a b => c.Safe Γ ∧ a.Safe Γ ∧ b.Safe Γ
  | .size _ => True
  | .ask _ _ a => a.Safe Γ

/-- The operands that may not be needed are safe: the compiled code evaluates them anyway (C38). -/
def Ex.Guarded (Γ : Types) : Ex → Prop
  | .text _ => True
  | .lit _ _ => True
  | .frac _ _ _ => True
  | .const _ => True
  | .var _ => True
  | .op1 _ a => a.Guarded Γ
  | .op2 _ a b => a.Guarded Γ ∧ b.Guarded Γ
  | .and a b => a.Guarded Γ ∧ b.Safe Γ
  | .or a b => a.Guarded Γ ∧ b.Safe Γ
  | .pick c a b => c.Guarded Γ ∧ a.Safe Γ ∧ b.Safe Γ
  | .size _ => True
  | .ask _ _ a => a.Guarded Γ

/-- Literals: as in C152; string literals have no backslash (C137). -/
def Ex.Lits (fpu : Fpu) : Ex → Prop
  | .text s => StrBody s ∧ '\\' ∉ s ∧ s.length < 2 ^ 31
  | .lit ds s => (Real.Ex.lit ds s).Lits fpu
  | .frac ip fp s => (Real.Ex.frac ip fp s).Lits fpu
  | .const _ => True
  | .var _ => True
  | .op1 _ a => a.Lits fpu
  | .op2 _ a b => a.Lits fpu ∧ b.Lits fpu
  | .and a b => a.Lits fpu ∧ b.Lits fpu
  | .or a b => a.Lits fpu ∧ b.Lits fpu
  | .pick c a b => c.Lits fpu ∧ a.Lits fpu ∧ b.Lits fpu
  | .size _ => True
  | .ask _ _ a => a.Lits fpu

/-- The branches of every `c ? a : b` have the same type (C142). -/
def Ex.Even (Γ : Types) : Ex → Prop
  | .text _ => True
  | .lit _ _ => True
  | .frac _ _ _ => True
  | .const _ => True
  | .var _ => True
  | .op1 _ a => a.Even Γ
  | .op2 _ a b => a.Even Γ ∧ b.Even Γ
  | .and a b => a.Even Γ ∧ b.Even Γ
  | .or a b => a.Even Γ ∧ b.Even Γ
  | .pick c a b => c.Even Γ ∧ a.Even Γ ∧ b.Even Γ ∧ (a.type Γ = b.type Γ ∨ a.type Γ = none ∨ b.type Γ = none ∨ a.type Γ = some .str ∨ b.type Γ = some .str)
  | .size _ => True
  | .ask _ _ a => a.Even Γ

/-! ### How expressions are written -/

def Ask.name : Ask → Name
  | .contains => "contains".toList
  | .startsWith => "starts_with".toList
  | .endsWith => "ends_with".toList
  | .containsIgnoringCase => "contains_ignore_case".toList

def Op1.Is (o : Op1) (t u : Tree) : Prop :=
  match o with
  | .neg => t = .un .neg u
  | .not => t = .un .not u
  | .fn f => ∃ x : Expr, t = .atom (.call f.name (.cons x .nil)) ∧ x.toTree = u
def Op2.Is (o : Op2) (t u v : Tree) : Prop :=
  match o with
  | .arith o => t = .bin u o.sign v
  | .rel o => t = .bin u o.sign v
  | .fn f => ∃ x y : Expr, t = .atom (.call f.name (.cons x (.cons y .nil))) ∧ x.toTree = u ∧ y.toTree = v

/-- What `p.f.g` or `p.f.g.m(…)` is about: the variable or field named `p.f.g`, and the method that is called, if any. -/
inductive Path : Name → Members → Name → Option (List Char × Exprs) → Prop
  | here {p : Name} : Path p .nil p none
  | call {p : Name} {m : List Char} {es : Exprs} : Path p (.cons (.method m es) .nil) p (some (m, es))
  | field {p f x : Name} {ms : Members} {r : Option (List Char × Exprs)} : Path (p ++ '.' :: f) ms x r → Path p (.cons (.field f) ms) x r

/-- The variable or field `x`. -/
def Names (o : Operand) (x : Name) : Prop := o = .var x ∨ ∃ p ms, o = .access p ms ∧ Path p ms x none

/-- The tree is read as the expression: parentheses do not matter. -/
def Ex.Is : Ex → Tree → Prop
  | .text s, t => t = .atom (.str s)
  | .lit ds s, t => t = .atom (.num (withSuffix ds s))
  | .frac ip fp s, t => t = .atom (.num (withSuffix (fracText ip fp) s))
  | .const b, t => t = .atom (.bool b)
  | .var x, t => ∃ o, t = .atom o ∧ Names o x
  | .op1 o a, t => ∃ u, o.Is t u ∧ a.Is u
  | .op2 o a b, t => ∃ u v, o.Is t u v ∧ a.Is u ∧ b.Is v
  | .and a b, t => ∃ u v, t = .bin u .and v ∧ a.Is u ∧ b.Is v
  | .or a b, t => ∃ u v, t = .bin u .or v ∧ a.Is u ∧ b.Is v
  | .pick c a b, t => ∃ w u v, t = .sel w u v ∧ c.Is w ∧ a.Is u ∧ b.Is v
  | .size x, t => ∃ p ms, t = .atom (.access p ms) ∧ Path p ms x (some ("size".toList, .nil))
  | .ask m x a, t => ∃ p ms e, t = .atom (.access p ms) ∧ Path p ms x (some (m.name, .cons e .nil)) ∧ a.Is e.toTree

/-- A text is read as the expression. -/
def ReadsAs (cfg : Cfg) (src : List Char) (p : Ex) : Prop := ∃ e rest, parseExpression cfg src = .ok e rest ∧ p.Is e.toTree

/-- The type and the value of an argument, given the declared arguments and the values passed. -/
def argType (ps : List (Name × Ty)) : Types := fun x => ps.lookup x
def argValue (ps : List (Name × Ty)) (args : List Val) : Store := fun x => ((ps.map (·.1)).zip args).lookup x

/-! ## Model -/

/-- Values at run time: numbers, and views. -/
inductive WV where
  | num (v : MV)
  | str (s : SV)

/-- The type of a string view in the compiler is the one type of `Real.PTy` that is not the type of a number or boolean. -/
abbrev PTy.view : PTy := .other

/-- `data()` and `size()` of a view, `/repo/rapidudf/types/string_view.h` 105–111: nothing is read of an empty one. -/
def viewBytes (s : SV) : Option (List Byte) := if s.size = 0 then some [] else s.read 0 s.size.toNat

/-- The operators sent to `compare_string_view`, codegen_binary.cc 318–330: those from `OP_EQUAL` to `OP_GREATER_EQUAL`, `/repo/rapidudf/meta/optype.h`. -/
def cmpOf : BinOp → Option CmpOp
  | .eq => some .eq | .ne => some .ne | .lt => some .lt | .le => some .le | .gt => some .gt | .ge => some .ge
  | _ => none

/-- `absl::StrContains`: the part is looked for at every position. -/
def containsLoop (part : List Byte) : List Byte → Bool
  | [] => part.isPrefixOf []
  | b :: s => part.isPrefixOf (b :: s) || containsLoop part s

/-- `absl::StartsWithIgnoreCase`: `memcasecmp` on as many bytes as the part has. -/
def startsFolded (s part : List Byte) : Bool := (part.map lower).isPrefixOf (s.map lower)

/-- `absl::StrContainsIgnoreCase`. -/
def containsFolded (part : List Byte) : List Byte → Bool
  | [] => startsFolded [] part
  | b :: s => startsFolded (b :: s) part || containsFolded part s

/-- `StringViewHelper::size`, strings.cc 74. -/
def sizeFn : List WV → Unit → Option (Unit × WV)
  | [.str s], w => some (w, .num (.word s.size.toNat))
  | _, _ => none

/-- The other members of `StringViewHelper`, strings.cc 75–85. -/
def askFn (f : List Byte → List Byte → Bool) : List WV → Unit → Option (Unit × WV)
  | [.str s, .str part], w => (viewBytes s).bind fun a => (viewBytes part).map fun b => (w, .num (.word (bit (f a b))))
  | _, _ => none

/-- The methods registered for strings, strings.cc 93–94. The name under which a method is called here begins with a dot. -/
def methods : List (Name × (List PTy × PTy × (List WV → Unit → Option (Unit × WV)))) :=
  [('.' :: "size".toList, [PTy.view], .int .u64, sizeFn),
   ('.' :: "contains".toList, [PTy.view, PTy.view], .bit, askFn fun s part => containsLoop part s),
   ('.' :: "starts_with".toList, [PTy.view, PTy.view], .bit, askFn startsWith),
   ('.' :: "ends_with".toList, [PTy.view, PTy.view], .bit, askFn endsWith),
   ('.' :: "contains_ignore_case".toList, [PTy.view, PTy.view], .bit, askFn fun s part => containsFolded part s),
   ('.' :: "starts_with_ignore_case".toList, [PTy.view, PTy.view], .bit, askFn startsWithIgnoreCase),
   ('.' :: "ends_with_ignore_case".toList, [PTy.view, PTy.view], .bit, askFn endsWithIgnoreCase)]

/-- A function on numbers as one on values. -/
def onNum (f : MV → Option MV) : WV → Option WV
  | .num v => (f v).map .num
  | .str _ => none
def onNum2 (f : MV → MV → Option MV) : WV → WV → Option WV
  | .num v, .num w => (f v w).map .num
  | _, _ => none
def nums : List WV → Option (List MV)
  | [] => some []
  | .num v :: vs => (nums vs).map (v :: ·)
  | .str _ :: _ => none

/-- Comparison of two views. -/
def viewCmp (o : CmpOp) : WV → WV → Option WV
  | .str a, .str b => (cmpOp o a b).map fun r => .num (.word (bit r))
  | _, _ => none

/-- Types and operations for the code of `Verif.Gen.Scalar`. A string literal is the view that `NewStringView` puts into memory, `Verif.Comp.StrLit` (`junk`: the union of the view of an
empty one). -/
def rt (fpu : Fpu) (junk : Types.Str.Val) : Rt PTy WV Unit where
  bool b := (.bit, .num (.word (bit b)))
  str s := (PTy.view, .str (SV.mk' junk (bytes s)))
  num t := (Real.constant fpu t).map fun x => (x.1, .num x.2)
  isBit t := decide (t = .bit)
  truth v := match v with
    | .num v => (Real.rt fpu).truth v
    | .str _ => false
  norm := Real.normT
  cast a b := (Real.castT fpu a b).map fun f v => match v with
    | .num v => .num (f v)
    | .str _ => .num .poison
  un op t := (Real.unT op t).map fun r => (r.1, onNum r.2)
  bin op t := if t = PTy.view then (cmpOf op).map fun o => (.bit, viewCmp o) else (Real.binT fpu op t).map fun r => (r.1, onNum2 r.2)
  fn n := methods.lookup n
  inl n ts := (Real.inlT fpu n ts).map fun r => (r.1, fun vs => (nums vs).bind fun xs => (r.2 xs).map .num)

mutual
/-- Accesses, `BuildIR(const VarAccessor&)`, compiler_expressions.cc 113–149. A method call is a call with the object as first argument: `BuildIR(obj, FieldAccess)`, 48–97, calls
`CallFunction` with the object and the arguments. A field is a value in memory like a variable (`GetStructField`, codegen_value.cc 194–207), here one whose name is the path to it. Other
accesses, and methods of what a method returns, are not modelled (they stay what they are, and are refused). -/
def undotE : Expr → Expr
  | .un u o => .un u (undotO o)
  | .bin l op r => .bin (undotE l) op (undotE r)
  | .sel c t f => .sel (undotE c) (undotE t) (undotE f)
def undotO : Operand → Operand
  | .paren e => .paren (undotE e)
  | .call n es => .call n (undotEs es)
  | .access x ms => undotM x ms
  | .bool b => .bool b
  | .str s => .str s
  | .num t => .num t
  | .define n => .define n
  | .array es => .array es
  | .var n => .var n
def undotM (x : Name) : Members → Operand
  | .nil => .var x
  | .cons (.method m es) .nil => .call ('.' :: m) (.cons (.un none (.var x)) (undotEs es))
  | .cons (.field f) ms => undotM (x ++ '.' :: f) ms
  | ms => .access x ms
def undotEs : Exprs → Exprs
  | .nil => .nil
  | .cons e es => .cons (undotE e) (undotEs es)
end

/-- `BinaryExpr::Validate`, expression.cc 480–520: numbers, or two strings. -/
def vBin (op : BinOp) (a b : PTy) : Option PTy := if (cmpOf op).isSome = true ∧ a = PTy.view ∧ b = PTy.view then some .bit else Real.vBin op a b

/-- The types validation works with. `FieldAccess::Validate`, expression.cc 214–284, looks up the method by the type of the object, and does not look at the arguments. No built-in function is
registered for strings, whose type is greater than those of numbers, dtype_enums.h 45–55. -/
def vSem (fpu : Fpu) (tenv : Name → Option PTy) : Sem PTy where
  bool _ := .bit
  str _ := PTy.view
  num t := (Real.constant fpu t).map (·.1)
  define _ := none
  var := tenv
  array _ := none
  call n ts := match ts with
    | .other :: _ => (methods.lookup n).map (·.2.1)
    | _ => none
  field _ _ := none
  method _ _ _ := none
  key _ _ := none
  index _ _ := none
  ref _ _ := none
  un := Real.vUn
  bin := vBin
  sel := Real.vSel
  inl n ts := if ts.contains PTy.view = true then none else Real.vInl n ts

/-- A compiled function: code and where the result is. -/
abbrev Code := List (Instr PTy WV) × Opd WV

/-- `CompileExpression`, compiler.cc 112–125, as in `Real.compile`. -/
def compile (fpu : Fpu) (junk : Types.Str.Val) (cfg : Cfg) (ps : List (Name × PTy)) (ret : PTy) (src : List Char) : Option Code :=
  match parseExpression cfg src with
  | .ok e _ => (evalE Real.arity (vSem fpu (tenvOf (Real.paramVars 0 ps))) (undotE e)).bind fun _ =>
      ((((gExpr (rt fpu junk) Real.arity (undotE e)).andThen ld).andThen (castTo (rt fpu junk) ret)) ⟨0, ps.length, Real.paramVars 0 ps⟩).map fun r => (r.2.1, r.1)
  | .fail => none
  | .fuel => none

/-- What a call does. -/
inductive Out where
  | undefined
  | value (v : WV)

/-- A call of the function: the arguments are in the first slots, the others hold anything. Returning poison is undefined. -/
def call (fpu : Fpu) (junk : Types.Str.Val) (c : Code) (slots : Nat → WV) (args : List WV) : Out :=
  match Scalar.run (rt fpu junk) c.1 ⟨[], fun i => args.getD i (slots i), ()⟩ with
  | none => .undefined
  | some rs => match rs.opd c.2 with
    | none => .undefined
    | some (.num .poison) => .undefined
    | some v => .value v

/-- How the caller hands over types. -/
def Ty.p : Ty → PTy
  | .num t => t.p
  | .str => PTy.view

/-- How values look at run time: a string is a view made from its bytes by the constructor of `StringView`. -/
def Rep : Val → WV → Prop
  | .num v, .num w => w = v.enc
  | .str b, .str s => ∃ junk, s = SV.mk' junk b
  | _, _ => False

/-- One value for every argument, of its type. -/
def Passed : List (Name × Ty) → List Val → List WV → Prop
  | [], [], [] => True
  | q :: ps, z :: args, w :: ws => z.Has q.2 ∧ Rep z w ∧ Passed ps args ws
  | _, _, _ => False

end Verif.Comp.Words
