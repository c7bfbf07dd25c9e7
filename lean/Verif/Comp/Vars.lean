import Verif.Ast.Parser
/-!
# Variables: definition before use, slots, stack: C138, C139, C140

`VarDefine::Validate`, `VarRef::Validate`, `BinaryExpr::Validate` (the part about variables), `/repo/rapidudf/ast/expression.cc` 166–186, 380–384, 471–475; `ParseContext::IsVarExist`,
`AddLocalVar`, `/repo/rapidudf/ast/context.cc` 74–91, 135–144; `CodeGen::NewVoid`, `GetLocalVar`, `NewStringView`, `NewArray`, `/repo/rapidudf/compiler/codegen_value.cc` 86–190,
`/repo/rapidudf/compiler/codegen.cc` 254–267; `Value::CopyFrom`, `/repo/rapidudf/compiler/value.cc` 50–78; statements, `/repo/rapidudf/compiler/compiler_statements.cc` 22–125.

Types are left out except for the difference between a variable that has been given a type and one that has not. Conditions are not evaluated: a path takes any branch and repeats a loop any
number of times. All operands of `&&`, `||` and `?:` are evaluated (C38).
-/
namespace Verif.Comp.Vars
open Verif.Ast

abbrev Name := List Char

/-! ## What an expression does to variables -/

/-- `decl`: `auto x`. `write`: `=`. `temp`: a place in the stack for an intermediate value. -/
inductive Ev where
  | decl (x : Name)
  | read (x : Name)
  | write (x : Name)
  | temp
deriving DecidableEq

def isAssign : BinOp → Bool
  | .assign | .addAssign | .subAssign | .mulAssign | .divAssign | .modAssign => true
  | _ => false

def both (a b : Option (List Ev)) : Option (List Ev) := a.bind fun x => b.map fun y => x ++ y

mutual
/-- What the evaluation of an expression without assignments does, operands from left to right. `none`: there is an assignment or a definition inside; these are not modelled, because calls
are then not made in the order of the text. A string literal (`NewStringView`, codegen_value.cc 103) and an array (`NewArray`, 165 and 182) need a place in the stack. Calls may need one for
arguments and result, depending on types (codegen.cc 681, 709): here they always have one. -/
def reads : Expr → Option (List Ev)
  | .un _ o => readsO o
  | .bin l op r => if isAssign op = true then none else both (reads l) (reads r)
  | .sel c t f => both (reads c) (both (reads t) (reads f))
def readsO : Operand → Option (List Ev)
  | .bool _ => some []
  | .str _ => some [.temp]
  | .num _ => some []
  | .define _ => none
  | .paren e => reads e
  | .array es => both (readsEs es) (some [.temp])
  | .var n => some [.read n]
  | .call _ es => both (readsEs es) (some [.temp])
  | .access n ms => both (some [.read n]) (readsMs ms)
def readsEs : Exprs → Option (List Ev)
  | .nil => some []
  | .cons e es => both (reads e) (readsEs es)
def readsMs : Members → Option (List Ev)
  | .nil => some []
  | .cons m ms => both (readsM m) (readsMs ms)
def readsM : Member → Option (List Ev)
  | .field _ => some []
  | .method _ es => both (readsEs es) (some [.temp])
  | .key _ => some [.temp]
  | .index _ => some [.temp]
  | .ref n => some [.read n, .temp]
end

/-- An assignment. -/
def evsAssign : Expr → BinOp → Expr → Option (List Ev)
  | .un none (.define x), .assign, r => both (some [.decl x]) (both (reads r) (some [.write x]))
  | .un none (.var x), .assign, r => both (reads r) (some [.write x])
  | .un none (.var x), _, r => both (some [.read x]) (both (reads r) (some [.write x]))
  | .un none (.access n ms), _, r => both (readsO (.access n ms)) (reads r)
  | _, _, _ => none

/-- An expression as it stands in a statement. -/
def evs : Expr → Option (List Ev)
  | .un none (.define x) => some [.decl x]
  | .bin l op r => if isAssign op = true then evsAssign l op r else reads (.bin l op r)
  | e => reads e

/-! ## Statements with something in place of the expressions -/

mutual
inductive St (α : Type) where
  | cont
  | brk
  | ret
  | retVal (a : α)
  | whileLoop (c : α) (body : Sts α)
  | ifElse (c : α) (body : Sts α) (elifs : Els α) (els : Opt α)
  | expr (a : α)
inductive Sts (α : Type) where
  | nil
  | cons (s : St α) (ss : Sts α)
inductive Els (α : Type) where
  | nil
  | cons (c : α) (body : Sts α) (rest : Els α)
inductive Opt (α : Type) where
  | none
  | some (body : Sts α)
end

mutual
def ofStmt : Stmt → Option (St (List Ev))
  | .cont => some .cont
  | .brk => some .brk
  | .ret => some .ret
  | .retVal e => (evs e).map .retVal
  | .whileLoop c b => (evs c).bind fun c => (ofStmts b).map fun b => .whileLoop c b
  | .ifElse c b es el => (evs c).bind fun c => (ofStmts b).bind fun b => (ofElifs es).bind fun es => (ofElse el).map fun el => .ifElse c b es el
  | .expr e => (evs e).map .expr
def ofStmts : Stmts → Option (Sts (List Ev))
  | .nil => some .nil
  | .cons s ss => (ofStmt s).bind fun s => (ofStmts ss).map fun ss => .cons s ss
def ofElifs : Elifs → Option (Els (List Ev))
  | .nil => some .nil
  | .cons c b es => (evs c).bind fun c => (ofStmts b).bind fun b => (ofElifs es).map fun es => .cons c b es
def ofElse : Else → Option (Opt (List Ev))
  | .none => some .none
  | .some b => (ofStmts b).map .some
end

/-! ## Specification: paths -/

inductive Flow where
  | norm | brk | cont | ret
deriving DecidableEq

mutual
/-- The expressions met on a path through a statement, and how it is left. -/
inductive Run {α : Type} : St α → List α → Flow → Prop
  | cont : Run .cont [] .cont
  | brk : Run .brk [] .brk
  | ret : Run .ret [] .ret
  | retVal a : Run (.retVal a) [a] .ret
  | expr a : Run (.expr a) [a] .norm
  | loopEnd c b : Run (.whileLoop c b) [c] .norm
  | loopStep c b t f t' f' : Runs b t f → (f = .norm ∨ f = .cont) → Run (.whileLoop c b) t' f' → Run (.whileLoop c b) (c :: (t ++ t')) f'
  | loopBrk c b t : Runs b t .brk → Run (.whileLoop c b) (c :: t) .norm
  | loopRet c b t : Runs b t .ret → Run (.whileLoop c b) (c :: t) .ret
  | ifThen c b es el t f : Runs b t f → Run (.ifElse c b es el) (c :: t) f
  | ifElse c b es el t f : RunEls es el t f → Run (.ifElse c b es el) (c :: t) f
inductive Runs {α : Type} : Sts α → List α → Flow → Prop
  | nil : Runs .nil [] .norm
  | stop s ss t f : Run s t f → f ≠ .norm → Runs (.cons s ss) t f
  | cons s ss t t' f : Run s t .norm → Runs ss t' f → Runs (.cons s ss) (t ++ t') f
/-- The `elif` and `else` parts. -/
inductive RunEls {α : Type} : Els α → Opt α → List α → Flow → Prop
  | none : RunEls .nil .none [] .norm
  | els b t f : Runs b t f → RunEls .nil (.some b) t f
  | take c b es el t f : Runs b t f → RunEls (.cons c b es) el (c :: t) f
  | skip c b es el t f : RunEls es el t f → RunEls (.cons c b es) el (c :: t) f
end

/-! ## Model: validation -/

/-- A local variable and whether it has a type (`DATA_VOID` or not). -/
abbrev Locals := List (Name × Bool)

def hasVar (vs : Locals) (x : Name) : Bool := vs.any fun v => v.1 == x
def typed (vs : Locals) (x : Name) : Bool := vs.any fun v => v.1 == x && v.2

/-- `kConstantNames`, /repo/rapidudf/meta/constants.h 22. -/
def isConst (x : Name) : Bool := x == ['p', 'i'] || x == ['e']

/-- What validation does with an event: a definition needs a new name (`IsVarExist(name, true)`); a variable that is read has to exist (or be a constant) and to have a type (the types of the
operands are checked; a statement that only names a variable without type is accepted by the code, but not here); an assignment gives a type to a variable that has none (`AddLocalVar`). An
assignment to the name of a constant is not modelled (not accepted). -/
def check (vs : Locals) : Ev → Option Locals
  | .decl x => if hasVar vs x = true then none else some ((x, false) :: vs)
  | .read x => if hasVar vs x = true then (if typed vs x = true then some vs else none) else if isConst x = true then some vs else none
  | .write x => if hasVar vs x = true then some ((x, true) :: vs) else none
  | .temp => some vs

def checkAll : List Ev → Locals → Option Locals
  | [], vs => some vs
  | e :: es, vs => (check vs e).bind fun vs => checkAll es vs

mutual
/-- Validation of statements in the order of the text, statement.cc 20–98: the local variables are those of the function, blocks do not have their own. -/
def vSt : St (List Ev) → Locals → Option Locals
  | .cont, vs => some vs
  | .brk, vs => some vs
  | .ret, vs => some vs
  | .retVal a, vs => checkAll a vs
  | .whileLoop c b, vs => (checkAll c vs).bind fun vs => vSts b vs
  | .ifElse c b es el, vs => (checkAll c vs).bind fun vs => (vSts b vs).bind fun vs => (vEls es vs).bind fun vs => vOpt el vs
  | .expr a, vs => checkAll a vs
def vSts : Sts (List Ev) → Locals → Option Locals
  | .nil, vs => some vs
  | .cons s ss, vs => (vSt s vs).bind fun vs => vSts ss vs
def vEls : Els (List Ev) → Locals → Option Locals
  | .nil, vs => some vs
  | .cons c b es, vs => (checkAll c vs).bind fun vs => (vSts b vs).bind fun vs => vEls es vs
def vOpt : Opt (List Ev) → Locals → Option Locals
  | .none, vs => some vs
  | .some b, vs => vSts b vs
end

/-- The validation of a function with these parameters succeeds. -/
def Accepted (ps : List Name) (b : Sts (List Ev)) : Prop := (vSts b (ps.map fun p => (p, true))).isSome = true

/-! ## Model: code -/

/-- `slot x`: an `alloca` and a store of the first value. -/
inductive Code where
  | slot (x : Name)
  | load (x : Name)
  | store (x : Name)
  | temp
deriving DecidableEq

/-- The variables that have a slot. -/
abbrev Slots := List Name

/-- `CopyFrom`, value.cc 50–78: the assignment that is compiled first makes the slot, where it stands. (The definition by another variable alone makes none and shares the slot of that variable,
C37: here it makes one.) -/
def gen (vs : Slots) : Ev → List Code × Slots
  | .decl _ => ([], vs)
  | .read x => if x ∈ vs then ([.load x], vs) else ([], vs)
  | .write x => if x ∈ vs then ([.store x], vs) else ([.slot x], x :: vs)
  | .temp => ([.temp], vs)

def genAll : List Ev → Slots → List Code × Slots
  | [], vs => ([], vs)
  | e :: es, vs => ((gen vs e).1 ++ (genAll es (gen vs e).2).1, (genAll es (gen vs e).2).2)

/-- An expression with its code. -/
structure Site where
  ev : List Ev
  code : List Code

def gSite (a : List Ev) (vs : Slots) : Site × Slots := (⟨a, (genAll a vs).1⟩, (genAll a vs).2)

mutual
/-- Code of statements in the order of the text, compiler_statements.cc 22–125. -/
def gSt : St (List Ev) → Slots → St Site × Slots
  | .cont, vs => (.cont, vs)
  | .brk, vs => (.brk, vs)
  | .ret, vs => (.ret, vs)
  | .retVal a, vs => (.retVal (gSite a vs).1, (gSite a vs).2)
  | .whileLoop c b, vs => (.whileLoop (gSite c vs).1 (gSts b (gSite c vs).2).1, (gSts b (gSite c vs).2).2)
  | .ifElse c b es el, vs =>
    let c' := gSite c vs
    let b' := gSts b c'.2
    let es' := gEls es b'.2
    let el' := gOpt el es'.2
    (.ifElse c'.1 b'.1 es'.1 el'.1, el'.2)
  | .expr a, vs => (.expr (gSite a vs).1, (gSite a vs).2)
def gSts : Sts (List Ev) → Slots → Sts Site × Slots
  | .nil, vs => (.nil, vs)
  | .cons s ss, vs => (.cons (gSt s vs).1 (gSts ss (gSt s vs).2).1, (gSts ss (gSt s vs).2).2)
def gEls : Els (List Ev) → Slots → Els Site × Slots
  | .nil, vs => (.nil, vs)
  | .cons c b es, vs =>
    let c' := gSite c vs
    let b' := gSts b c'.2
    let es' := gEls es b'.2
    (.cons c'.1 b'.1 es'.1, es'.2)
def gOpt : Opt (List Ev) → Slots → Opt Site × Slots
  | .none, vs => (.none, vs)
  | .some b, vs => (.some (gSts b vs).1, (gSts b vs).2)
end

/-- The code of a function: parameters have slots. -/
def code (ps : List Name) (b : Sts (List Ev)) : Sts Site := (gSts b ps).1

def source (t : List Site) : List Ev := t.flatMap Site.ev
def compiled (t : List Site) : List Code := t.flatMap Site.code

end Verif.Comp.Vars
