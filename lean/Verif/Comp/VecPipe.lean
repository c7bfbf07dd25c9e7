import Verif.Comp.Pipeline
import Verif.Gen.VecProps
/-!
# From the text of a vector expression to the vector: C144, C145

The parts modelled elsewhere put together for functions of integers and vectors of integers given by one expression: lexer and parser (`Verif.Ast.Parser`), reverse Polish form
(`Verif.Ast.Rpn`), the code of vector expressions (`Verif.Gen.Vec`) with the integer operators of `Verif.Gen.IntOps`, and the types computed by validation:
`JitCompiler::CompileExpression`, `/repo/rapidudf/compiler/compiler.cc` 112–125; `parse_expression_ast`, `/repo/rapidudf/ast/grammar.cc` 932–968; `BinaryExpr::Validate`,
`UnaryExpr::Validate`, `SelectExpr::Validate`, `/repo/rapidudf/ast/expression.cc` 286–657; `JitCompiler::BuildIR`, `/repo/rapidudf/compiler/compiler_eval.cc` 42–100.

Not modelled: floating point numbers, strings, vectors of bits as arguments, `^`, calls, assignments (see `Verif.Gen.Vec` for what it leaves out).
-/
namespace Verif.Comp.VecPipe
open Verif.Ast Verif.Ast.Rpn Verif.Gen
open Verif.Types.Conv (IntTy)
open Verif.Gen.Scalar (Name)
open Verif.Comp.Pipeline (Num Cond Arith Rel PTy decimal wrap litText Reads)

/-! ## Specification

The language is that of C135 (`Num`, `Cond`); an argument is a number or a vector of numbers. -/

/-- The arguments: vector or not, and the type of the number or of the elements. -/
abbrev VEnv := Name → Option (Bool × IntTy)

mutual
/-- Whether a vector occurs in an expression. -/
def numHas (Γ : VEnv) : Num → Bool
  | .lit _ _ => false
  | .arg x => (Γ x).any (·.1)
  | .neg a => numHas Γ a
  | .op _ a b => numHas Γ a || numHas Γ b
  | .pick c a b => condHas Γ c || numHas Γ a || numHas Γ b
def condHas (Γ : VEnv) : Cond → Bool
  | .const _ => false
  | .rel _ a b => numHas Γ a || numHas Γ b
  | .and a b => condHas Γ a || condHas Γ b
  | .or a b => condHas Γ a || condHas Γ b
  | .not a => condHas Γ a
end

/-- A literal or an argument that is a number. -/
def single (Γ : VEnv) : Num → Bool
  | .lit _ _ => true
  | .arg x => !numHas Γ (.arg x)
  | _ => false

def literalType (ds : List Char) : Option IntTy → IntTy
  | some t => t
  | none => if decimal ds ≤ 2147483647 then .i32 else .i64

/-- The type two operands are brought to: theirs, if it is the same; beside a vector, a single number is converted to the type of the elements. The first component tells whether one of
them is a vector. -/
def together (k l : Bool × IntTy) (a b : Bool) : Option (Bool × IntTy) :=
  if k.2 = l.2 then some (k.1 || l.1, k.2)
  else if k.1 = true ∧ b = true then some (true, k.2)
  else if l.1 = true ∧ a = true then some (true, l.2)
  else none

mutual
/-- The type of the elements of an expression, and whether they are taken from a vector. Only signed numbers can be negated. A condition on numbers (without vectors) cannot choose between
a vector and a number. -/
def elemOf (Γ : VEnv) : Num → Option (Bool × IntTy)
  | .lit ds s => some (false, literalType ds s)
  | .arg x => Γ x
  | .neg a => (elemOf Γ a).bind fun k => if k.2.signed = true then some k else none
  | .op _ a b => (elemOf Γ a).bind fun k => (elemOf Γ b).bind fun l => together k l (single Γ a) (single Γ b)
  | .pick c a b => if condOk Γ c = true ∧ (condHas Γ c = true ∨ numHas Γ a = numHas Γ b) then
      (elemOf Γ a).bind fun k => (elemOf Γ b).bind fun l => together k l (single Γ a) (single Γ b)
    else none
/-- Conditions are combined only if both depend on vectors, or none does. -/
def condOk (Γ : VEnv) : Cond → Bool
  | .const _ => true
  | .rel _ a b => ((elemOf Γ a).bind fun k => (elemOf Γ b).bind fun l => together k l (single Γ a) (single Γ b)).isSome
  | .and a b => condOk Γ a && condOk Γ b && (condHas Γ a == condHas Γ b)
  | .or a b => condOk Γ a && condOk Γ b && (condHas Γ a == condHas Γ b)
  | .not a => condOk Γ a
end

/-- The type two operands are brought to. -/
def common (Γ : VEnv) (a b : Num) : Option IntTy :=
  ((elemOf Γ a).bind fun k => (elemOf Γ b).bind fun l => together k l (single Γ a) (single Γ b)).map (·.2)

mutual
/-- The value of an expression at one element: `ρ` gives the numbers and the elements of the vectors. `none` is undefined behaviour. -/
def numAt (Γ : VEnv) (ρ : Name → Int) : Num → Option Int
  | .lit ds (some t) => some (wrap t (decimal ds))
  | .lit ds none => some (decimal ds)
  | .arg x => some (ρ x)
  | .neg a => (elemOf Γ a).bind fun k => (numAt Γ ρ a).map fun x => wrap k.2 (-x)
  | .op o a b => (common Γ a b).bind fun t => (numAt Γ ρ a).bind fun x => (numAt Γ ρ b).bind fun y => o.calc t (wrap t x) (wrap t y)
  | .pick c a b => (common Γ a b).bind fun t => (condAt Γ ρ c).bind fun z => if z = true then (numAt Γ ρ a).map (wrap t) else (numAt Γ ρ b).map (wrap t)
def condAt (Γ : VEnv) (ρ : Name → Int) : Cond → Option Bool
  | .const b => some b
  | .rel o a b => (common Γ a b).bind fun t => (numAt Γ ρ a).bind fun x => (numAt Γ ρ b).map fun y => o.holds (wrap t x) (wrap t y)
  | .and a b => (condAt Γ ρ a).bind fun x => if x = true then condAt Γ ρ b else some false
  | .or a b => (condAt Γ ρ a).bind fun x => if x = true then some true else condAt Γ ρ b
  | .not a => (condAt Γ ρ a).map fun x => !x
end

mutual
/-- Divisors are literals from 1 to 127 or vectors that are arguments; operands that might not be needed contain no other divisors than such literals (C38, C39 tell why). -/
def numGuarded (Γ : VEnv) : Num → Prop
  | .lit _ _ => True
  | .arg _ => True
  | .neg a => numGuarded Γ a
  | .op o a b => numGuarded Γ a ∧ numGuarded Γ b ∧ (o = .div ∨ o = .mod → b.SmallDivisor ∨ ∃ x t, b = .arg x ∧ Γ x = some (true, t))
  | .pick c a b => condGuarded Γ c ∧ a.Safe ∧ b.Safe
def condGuarded (Γ : VEnv) : Cond → Prop
  | .const _ => True
  | .rel _ a b => numGuarded Γ a ∧ numGuarded Γ b
  | .and a b => condGuarded Γ a ∧ b.Safe
  | .or a b => condGuarded Γ a ∧ b.Safe
  | .not a => condGuarded Γ a
end

/-- Parameters: name, vector or not, type. -/
abbrev Params := List (Name × Bool × IntTy)

/-- What is passed: a number or the elements of a vector. -/
inductive Arg where
  | num (z : Int)
  | vec (l : List Int)

def envOf (ps : Params) : VEnv := fun x => ps.lookup x

/-- The numbers and the elements `i` of the vectors passed. -/
def valuesAt (ps : Params) (args : List Arg) (i : Nat) (x : Name) : Int :=
  match ((ps.map (·.1)).zip args).lookup x with
  | some (.num z) => z
  | some (.vec l) => (l[i]?).getD 0
  | none => 0

/-- One value for every parameter, of its type; all vectors have `n` elements. -/
def Passed (n : Nat) : Params → List Arg → Prop
  | [], [] => True
  | (_, false, t) :: ps, .num z :: args => IntOps.Fits t z ∧ Passed n ps args
  | (_, true, t) :: ps, .vec l :: args => l.length = n ∧ (∀ z ∈ l, IntOps.Fits t z) ∧ Passed n ps args
  | _, _ => False

/-- The values at `0, …, n - 1`; a single one without value makes the call undefined. -/
def collect {α : Type} (n : Nat) (f : Nat → Option α) : Option (List α) := (List.range n).mapM f

/-! ## Model -/

/-- Operators of vector expressions. -/
inductive VOp where
  | un (o : UnOp)
  | bin (o : BinOp)
  | sel

/-- Operators on bits, codegen_binary.cc 109–121, and on numbers. -/
def binV (op : BinOp) : PTy → Option (PTy × (Int → Int → Option Int))
  | .int t => Pipeline.binInt op t
  | .bit =>
    if op = .and then some (.bit, fun x y => some (Pipeline.bit (x != 0 && y != 0)))
    else if op = .or then some (.bit, fun x y => some (Pipeline.bit (x != 0 || y != 0)))
    else none
  | .other => none

/-- `UnaryOp`, `BinaryOp`, `TernaryOp` on lanes, codegen_unary.cc 47–66, codegen_binary.cc 51–191, codegen_ternary.cc 48–62. The result is stored in a stack slot made for the type the
operator is computed in (compiler_eval.cc 218, 393–397): operands of other types are not described. -/
def opV (o : VOp) (c : PTy) (ts : List PTy) : Option (PTy × (List Int → Option Int)) :=
  match o, ts with
  | .un u, [t] => if t = c then (Pipeline.unT u c).map fun r => (r.1, fun vs => match vs with | [x] => r.2 x | _ => none) else none
  | .bin b, [s, t] => if s = c ∧ t = c then (binV b c).map fun r => (r.1, fun vs => match vs with | [x, y] => r.2 x y | _ => none) else none
  | .sel, [z, s, t] => if z = .bit ∧ s = c ∧ t = c then some (c, fun vs => match vs with | [x, y, w] => some (if x != 0 then y else w) | _ => none) else none
  | _, _ => none

/-- `is_compare_op`, `/repo/rapidudf/meta/operand.h` 228. -/
def cmpV : VOp → Bool
  | .bin b => (Pipeline.cmpOp b).isSome
  | _ => false

/-- Integers and bits for `Verif.Gen.Vec`. A value is held as the number it stands for. Unused lanes hold 1, codegen_vector.cc 194–235. -/
def vints : Vec.Rt PTy Int VOp where
  bit := .bit
  isBit t := decide (t = .bit)
  fill _ := 1
  cast := Pipeline.castT
  arity o := match o with | .un _ => 1 | .bin _ => 2 | .sel => 3
  isCmp := cmpV
  isCond o := match o with | .sel => true | _ => false
  op := opV
  fn _ := none

/-- A number, or the vector at position `k`. -/
def leafHere (k : Nat) (t : IntTy) : Bool → Arg → Option (Vec.Node PTy Int VOp)
  | true, .vec _ => some (.vec (.int t) k)
  | false, .num z => some (.con (.int t) z)
  | _, _ => none

/-- `DefineFunction`, codegen.cc 383–414: the value of a parameter; of two with the same name the later one counts. Vectors are named by their position. -/
def leafOf (k : Nat) : Params → List Arg → Name → Option (Vec.Node PTy Int VOp)
  | (x, v, t) :: ps, a :: args, n => (leafOf (k + 1) ps args n).or (if n = x then leafHere k t v a else none)
  | _, _, _ => none

def bufOf : Arg → Vec.Buf Int
  | .vec l => ⟨l.length, l⟩
  | .num _ => ⟨0, []⟩

/-- The nodes of `BuildIR(const ast::RPN&)`, compiler_eval.cc 42–100. -/
def nodeOf (look : Name → Option (Vec.Node PTy Int VOp)) : Rpn.Node → Option (Vec.Node PTy Int VOp)
  | .num t => (Pipeline.constant t).map fun c => .con c.1 c.2
  | .bool b => some (.con .bit (Pipeline.bit b))
  | .var n => look n
  | .op1 o => some (.op (.un o))
  | .op2 o => if o = .assign ∨ Scalar.baseOp o ≠ none then none else some (.op (.bin o))
  | .sel => some (.op .sel)
  | _ => none

def nodesOf (look : Name → Option (Vec.Node PTy Int VOp)) : Rpn → Option (List (Vec.Node PTy Int VOp))
  | .nil => some []
  | .cons n r => (nodeOf look n).bind fun a => (nodesOf look r).map (a :: ·)

/-! ### Types in validation -/

/-- A type: vector or not, and the type of the elements. -/
abbrev VTy := Bool × PTy

/-- `DType::IsNumber`, dtype.h 100. -/
def isNum : PTy → Bool
  | .int _ => true
  | _ => false

/-- The larger of two types of numbers in the order of `DType`, expression.cc 408–411. -/
def larger : PTy → PTy → PTy
  | .int a, .int b => .int (IntOps.common a b)
  | a, _ => a

/-- Whether the types of two operands go together, expression.cc 341–359, 377–406. -/
def canBin (l r : VTy) : Bool := decide (l = r) || (isNum l.2 && isNum r.2 && !(l.1 && r.1))

/-- The type of the left operand after 408–418. -/
def leftTy (l r : VTy) : VTy := if l.1 = false ∧ r.1 = false ∧ isNum l.2 = true ∧ isNum r.2 = true then (false, larger l.2 r.2) else l

/-- `BinaryExpr::Validate`, expression.cc 374–565: the type of the result. -/
def binTy (op : BinOp) (l r : VTy) : Option VTy :=
  if canBin l r = false then none
  else match op with
  | .add | .sub | .mul | .div | .mod => if isNum l.2 = true ∧ isNum r.2 = true then some (if r.1 = true then r else leftTy l r) else none
  | .eq | .ne | .lt | .le | .gt | .ge => if isNum l.2 = true ∧ isNum r.2 = true then some (l.1 || r.1, .bit) else none
  | .and | .or => if l = (true, .bit) ∨ r = (true, .bit) then some (true, .bit) else if l = (false, .bit) ∧ r = (false, .bit) then some (false, .bit) else none
  | _ => none

/-- `UnaryExpr::Validate`, expression.cc 286–337. -/
def unTy (op : UnOp) (t : VTy) : Option VTy :=
  match op, t.2 with
  | .not, .bit => some t
  | .neg, .int i => if i.signed = true then some t else none
  | _, _ => none

/-- `DType::CanCastTo`, dtype.cc 292–316. -/
def canCast (s t : VTy) : Bool := decide (s = t) || (!s.1 && !t.1 && isNum s.2 && isNum t.2)

/-- `SelectExpr::Validate`, expression.cc 572–657. -/
def selTy (c t f : VTy) : Option VTy :=
  if c = (false, .bit) then
    if canCast t f = true then some f else if canCast f t = true then some t else none
  else if c = (true, .bit) then
    match t.1, f.1 with
    | true, true => if t = f then some t else none
    | true, false => if canCast f (false, t.2) = true then some t else none
    | false, true => if canCast t (false, f.2) = true then some f else none
    | false, false => if isNum t.2 = true ∧ isNum f.2 = true then some (true, larger t.2 f.2) else none
  else none

/-- The types of the parameters. -/
def tyOf (ps : Params) (x : Name) : Option VTy := (envOf ps.reverse x).map fun k => (k.1, .int k.2)

mutual
def checkE (env : Name → Option VTy) : Expr → Option VTy
  | .un none o => checkO env o
  | .un (some op) o => (checkO env o).bind (unTy op)
  | .bin l op r => (checkE env l).bind fun a => (checkE env r).bind fun b => binTy op a b
  | .sel c t f => (checkE env c).bind fun a => (checkE env t).bind fun b => (checkE env f).bind fun d => selTy a b d
def checkO (env : Name → Option VTy) : Operand → Option VTy
  | .bool _ => some (false, .bit)
  | .num t => (Pipeline.constant t).map fun c => (false, c.1)
  | .paren e => checkE env e
  | .var n => env n
  | _ => none
end

/-- The type put into the list of nodes (`RPN::SetDType`): every expression puts its type there after its operands did, a selection the type of its first alternative (expression.cc 597). -/
def listTy (env : Name → Option VTy) : Expr → Option VTy
  | .sel _ t _ => checkE env t
  | e => checkE env e

/-! ### Compiling and running -/

/-- Whether a node is a vector. -/
def isVec : Vec.Node PTy Int VOp → Bool
  | .vec _ _ => true
  | _ => false

/-- `CompileExpression` with a vector as return type, and a call of the function. The result has the element type in the list of nodes (compiler_eval.cc 458–466); a vector is converted to no
other type (codegen_cast.cc 87–96). Expressions without vectors are not modelled here. `mem` is what newly allocated memory holds. `ctx` tells whether one of the
parameters is a `Context`: without one, no new vector can be made (compiler_eval.cc 453–457, codegen.cc 646–662, context.cc 184–187), and only a single vector is accepted. -/
def runVec (ctx : Bool) (cfg : Cfg) (inl : Inline) (ps : Params) (ret : PTy) (mem : Nat → List Int) (src : List Char) (args : List Arg) : Except Vec.Err (List Int) :=
  match parseExpression cfg src with
  | .ok e _ => match checkE (tyOf ps) e, listTy (tyOf ps) e, nodesOf (leafOf 0 ps args) (flatE inl e) with
    | some _, some t, some ns => if ns.any isVec = true ∧ t.2 = ret ∧ (ctx = true ∨ ns.length = 1) then Vec.evalVec vints mem (args.map bufOf) ret ns else .error .compile
    | _, _, _ => .error .compile
  | _ => .error .compile

/-- What a call is to give. -/
def outcome : Option (List Int) → Except Vec.Err (List Int)
  | some l => .ok l
  | none => .error .trap

end Verif.Comp.VecPipe
