import Verif.Comp.FunctionProps
import Verif.Comp.RealProps
/-!
# From the text of a function with floating point numbers and built-in functions to its result: C158

The way of `Verif.Comp.Function` for functions over booleans, integers, `f32` and `f64`, whose expressions are those of `Verif.Comp.Real`: lexer and parser of statements (`Verif.Ast.Parser`),
basic blocks (`Verif.Gen.Cfg`), code and slots of variables (`Verif.Gen.Scalar`), put together as `JitCompiler::CompileFunction` does: `/repo/rapidudf/compiler/compiler.cc` 127–145,
`BuildIR(const ast::Function&)` and `/repo/rapidudf/compiler/compiler_statements.cc` 23–111, `DefineFunction`, `FinishFunction`, `Return`: `/repo/rapidudf/compiler/codegen.cc` 383–478.

Local variables of all these types, assignments, `if`/`elif`/`else`, `while`, `break`, `continue`, `return`.
-/
namespace Verif.Comp.RealFn
open Verif.Ast hiding Ty
open Verif.Ast.Rpn Verif.Gen Verif.Gen.Scalar Verif.Types.Conv Verif.Comp.Pipeline
open Verif.Comp.Real hiding Out
open Verif.Comp.Function (mark marks markElifs markElse tag)
abbrev assignSign := Function.Arith.assignSign
abbrev Ty := Real.Ty
abbrev Types := Real.Types
abbrev Store := Real.Store
abbrev PTy := Real.PTy

/-! ## Specification: a language of statements -/

mutual
/-- Statements: `var x = e;`, `x = e;`, `x op= e;`, `return e;`, `break;`, `continue;`, `while (c) { b }`, `if (c) { b } rest`. -/
inductive Cmd where
  | define (x : Name) (e : Ex)
  | assign (x : Name) (e : Ex)
  | update (o : Arith) (x : Name) (e : Ex)
  | ret (e : Ex)
  | brk
  | cont
  | loop (c : Ex) (b : Cmds)
  | branch (c : Ex) (b : Cmds) (rest : Rest)
inductive Cmds where
  | nil
  | cons (s : Cmd) (ss : Cmds)
/-- What follows an `if`: nothing, `else { b }`, `elif (c) { b } rest`. -/
inductive Rest where
  | none
  | els (b : Cmds)
  | elif (c : Ex) (b : Cmds) (rest : Rest)
end

def setType (Γ : Types) (x : Name) (t : Option Ty) : Types := fun n => if n = x then t else Γ n
def setValue (ρ : Store) (x : Name) (z : Val) : Store := fun n => if n = x then some z else ρ n

/-- The variables after a statement: a definition is visible up to the end of its block. -/
def Cmd.after (Γ : Types) : Cmd → Types
  | .define x e => setType Γ x (e.type Γ)
  | .assign _ _ => Γ
  | .update _ _ _ => Γ
  | .ret _ => Γ
  | .brk => Γ
  | .cont => Γ
  | .loop _ _ => Γ
  | .branch _ _ _ => Γ

/-- How statements end: normally, by `break`, `continue` or `return`, in undefined behaviour, or not within the bound on the number of iterations. -/
inductive End where
  | next (ρ : Store)
  | brk (ρ : Store)
  | cont (ρ : Store)
  | ret (z : Val)
  | undefined
  | more

/-- Go on after a normal end. -/
def End.andThen (x : End) (f : Store → End) : End := match x with
  | .next ρ => f ρ
  | .brk ρ => .brk ρ
  | .cont ρ => .cont ρ
  | .ret z => .ret z
  | .undefined => .undefined
  | .more => .more

/-- Go on with a value, if it is defined. -/
def withValue {α : Type} (v : Option α) (f : α → End) : End := match v with
  | none => .undefined
  | some z => f z

/-- Go on with the outcome of a test. -/
def withTest (v : Option Val) (yes no : End) : End := match v with
  | some (.bool true) => yes
  | some (.bool false) => no
  | _ => .undefined

/-- Test and body, at most `n` times. -/
def repeated (test : Store → Option Val) (body : Store → End) : Nat → Store → End
  | 0, _ => .more
  | n + 1, ρ => withTest (test ρ) (match body ρ with
    | .next ρ' => repeated test body n ρ'
    | .cont ρ' => repeated test body n ρ'
    | .brk ρ' => .next ρ'
    | .ret z => .ret z
    | .undefined => .undefined
    | .more => .more) (.next ρ)

mutual
/-- What a statement does to the variables, with at most `n` iterations of every loop; `ret` is the declared type of the result. -/
def Cmd.exec (fpu : Fpu) (ret : Ty) (n : Nat) (Γ : Types) (ρ : Store) : Cmd → End
  | .define x e => withValue (e.value fpu Γ ρ) fun z => .next (setValue ρ x z)
  | .assign x e => withValue (e.value fpu Γ ρ) fun z => .next (setValue ρ x z)
  | .update o x e => withValue ((Ex.arith o (.var x) e).value fpu Γ ρ) fun z => .next (setValue ρ x z)
  | .ret e => withValue ((e.value fpu Γ ρ).bind (conv fpu ret)) .ret
  | .brk => .brk ρ
  | .cont => .cont ρ
  | .loop c b => repeated (fun ρ => c.value fpu Γ ρ) (fun ρ => b.exec fpu ret n Γ ρ) n ρ
  | .branch c b rest => withTest (c.value fpu Γ ρ) (b.exec fpu ret n Γ ρ) (rest.exec fpu ret n Γ ρ)
def Cmds.exec (fpu : Fpu) (ret : Ty) (n : Nat) (Γ : Types) (ρ : Store) : Cmds → End
  | .nil => .next ρ
  | .cons s ss => (s.exec fpu ret n Γ ρ).andThen fun ρ => ss.exec fpu ret n (s.after Γ) ρ
def Rest.exec (fpu : Fpu) (ret : Ty) (n : Nat) (Γ : Types) (ρ : Store) : Rest → End
  | .none => .next ρ
  | .els b => b.exec fpu ret n Γ ρ
  | .elif c b rest => withTest (c.value fpu Γ ρ) (b.exec fpu ret n Γ ρ) (rest.exec fpu ret n Γ ρ)
end

/-- An expression of the type, with small literals and safe conditional operands, that negates and passes to functions no choice between values of different types (see `Verif.Comp.Real`). -/
structure ExOk (fpu : Fpu) (Γ : Types) (e : Ex) (τ : Ty) : Prop where
  typed : e.type Γ = some τ
  lits : e.Lits fpu
  guarded : e.Guarded Γ
  level : e.Level Γ

/-- A variable alone. -/
def isVar : Ex → Bool
  | .var _ => true
  | _ => false

mutual
/-- Well typed: variables are used in their scope; the type of a variable is that of its first value, and later values have that type (for `x op= e`: a type that meets it there); a variable
is not defined by another variable alone (C37), nor by a choice between values of different types (C142); conditions are boolean; what is returned can be converted to the declared type;
`break` and `continue` are in loops. -/
def Cmd.Ok (fpu : Fpu) (ret : Ty) (inLoop : Bool) (Γ : Types) : Cmd → Prop
  | .define _ e => (∃ τ, ExOk fpu Γ e τ) ∧ isVar e = false ∧ e.Even Γ
  | .assign x e => ∃ τ, ExOk fpu Γ e τ ∧ Γ x = some τ
  | .update o x e => ∃ τ, ExOk fpu Γ (.arith o (.var x) e) τ ∧ Γ x = some τ
  | .ret e => ∃ τ, ExOk fpu Γ e τ ∧ converts ret τ = true
  | .brk => inLoop = true
  | .cont => inLoop = true
  | .loop c b => ExOk fpu Γ c .bool ∧ b.Ok fpu ret true Γ
  | .branch c b rest => ExOk fpu Γ c .bool ∧ b.Ok fpu ret inLoop Γ ∧ rest.Ok fpu ret inLoop Γ
def Cmds.Ok (fpu : Fpu) (ret : Ty) (inLoop : Bool) (Γ : Types) : Cmds → Prop
  | .nil => True
  | .cons s ss => s.Ok fpu ret inLoop Γ ∧ ss.Ok fpu ret inLoop (s.after Γ)
def Rest.Ok (fpu : Fpu) (ret : Ty) (inLoop : Bool) (Γ : Types) : Rest → Prop
  | .none => True
  | .els b => b.Ok fpu ret inLoop Γ
  | .elif c b rest => ExOk fpu Γ c .bool ∧ b.Ok fpu ret inLoop Γ ∧ rest.Ok fpu ret inLoop Γ
end

mutual
/-- The names that are defined. -/
def Cmd.defs : Cmd → List Name
  | .define x _ => [x]
  | .assign _ _ => []
  | .update _ _ _ => []
  | .ret _ => []
  | .brk => []
  | .cont => []
  | .loop _ b => b.defs
  | .branch _ b rest => b.defs ++ rest.defs
def Cmds.defs : Cmds → List Name
  | .nil => []
  | .cons s ss => s.defs ++ ss.defs
def Rest.defs : Rest → List Name
  | .none => []
  | .els b => b.defs
  | .elif _ b rest => b.defs ++ rest.defs
end

/-- The expression of an expression statement. -/
def ExprIs (s : Expr) (l : Operand) (op : BinOp) (e : Ex) : Prop := ∃ e', s = .bin (.un none l) op e' ∧ e.Is e'.toTree

mutual
/-- The statement is read as this one (parentheses in expressions do not matter). -/
inductive Cmd.Is : Cmd → Stmt → Prop
  | define {x e s} : ExprIs s (.define x) .assign e → Cmd.Is (.define x e) (.expr s)
  | assign {x e s} : ExprIs s (.var x) .assign e → Cmd.Is (.assign x e) (.expr s)
  | update {o x e s} : ExprIs s (.var x) (assignSign o) e → Cmd.Is (.update o x e) (.expr s)
  | ret {e : Ex} {s : Expr} : e.Is s.toTree → Cmd.Is (.ret e) (.retVal s)
  | brk : Cmd.Is .brk .brk
  | cont : Cmd.Is .cont .cont
  | loop {c : Ex} {b : Cmds} {s : Expr} {ss : Stmts} : c.Is s.toTree → Cmds.Is b ss → Cmd.Is (.loop c b) (.whileLoop s ss)
  | branch {c : Ex} {b : Cmds} {rest : Rest} {s : Expr} {ss : Stmts} {es : Elifs} {el : Else} :
    c.Is s.toTree → Cmds.Is b ss → Rest.Is rest es el → Cmd.Is (.branch c b rest) (.ifElse s ss es el)
inductive Cmds.Is : Cmds → Stmts → Prop
  | nil : Cmds.Is .nil .nil
  | cons {c : Cmd} {cs : Cmds} {s : Stmt} {ss : Stmts} : Cmd.Is c s → Cmds.Is cs ss → Cmds.Is (.cons c cs) (.cons s ss)
inductive Rest.Is : Rest → Elifs → Else → Prop
  | none : Rest.Is .none .nil .none
  | els {b : Cmds} {ss : Stmts} : Cmds.Is b ss → Rest.Is (.els b) .nil (.some ss)
  | elif {c : Ex} {b : Cmds} {rest : Rest} {s : Expr} {ss : Stmts} {es : Elifs} {el : Else} :
    c.Is s.toTree → Cmds.Is b ss → Rest.Is rest es el → Rest.Is (.elif c b rest) (.cons s ss es) el
end

mutual
/-- Control does not reach the end. -/
def Cmd.ends : Cmd → Bool
  | .define _ _ => false
  | .assign _ _ => false
  | .update _ _ _ => false
  | .ret _ => true
  | .brk => true
  | .cont => true
  | .loop _ _ => false
  | .branch _ b rest => b.ends && rest.ends
def Cmds.ends : Cmds → Bool
  | .nil => false
  | .cons s .nil => s.ends
  | .cons _ (.cons s ss) => Cmds.ends (.cons s ss)
def Rest.ends : Rest → Bool
  | .none => false
  | .els b => b.ends
  | .elif _ b rest => b.ends && rest.ends
end

/-- Neither `if` nor `while`. -/
def Cmd.flat : Cmd → Bool
  | .loop _ _ => false
  | .branch _ _ _ => false
  | _ => true
def Cmds.flat : Cmds → Bool
  | .nil => true
  | .cons s ss => s.flat && ss.flat

/-- Nothing, or `while` first. -/
def Cmds.startsLoop : Cmds → Bool
  | .nil => true
  | .cons (.loop _ _) _ => true
  | _ => false

mutual
/-- The functions that are compiled to valid blocks (C36): nothing but a loop follows a statement that always jumps, and the bodies of `elif` and `else` contain no `if` or `while`, or
always jump. -/
def Cmd.Clean : Cmd → Prop
  | .loop _ b => b.Clean
  | .branch _ b rest => b.Clean ∧ rest.Clean
  | .define _ _ => True
  | .assign _ _ => True
  | .update _ _ _ => True
  | .ret _ => True
  | .brk => True
  | .cont => True
def Cmds.Clean : Cmds → Prop
  | .nil => True
  | .cons s ss => s.Clean ∧ ss.Clean ∧ (s.ends = true → ss.startsLoop = true)
def Rest.Clean : Rest → Prop
  | .none => True
  | .els b => b.Clean ∧ (b.flat = true ∨ b.ends = true)
  | .elif _ b rest => b.Clean ∧ (b.flat = true ∨ b.ends = true) ∧ rest.Clean
end

/-- How types are written. -/
def typeText : Ty → List Char
  | .bool => ['b', 'o', 'o', 'l']
  | .int t => suffixText t
  | .flt .f32 => ['f', '3', '2']
  | .flt .f64 => ['f', '6', '4']

/-- A text is read as the function with the given types, arguments and statements. -/
def ReadsFn (cfg : Cfg) (src : List Char) (ret : Ty) (ps : List (Name × Ty)) (body : Cmds) : Prop :=
  ∃ f rest, parseFunction cfg src = .ok f rest ∧ f.ret = typeText ret ∧ f.params = (ps.map fun q => (typeText q.2, q.1)) ∧ body.Is f.body

/-! ## Model -/

/-- The code of one expression, where its value is, and whether control depends on it. -/
structure Site where
  code : List (Instr PTy MV)
  opd : Opd MV
  test : Bool

/-- Code is generated with the variables known so far. Registers are numbered from 0 in every expression: no expression uses registers of another one. -/
def site {α : Type} (test : Bool) (g : G PTy MV α) (v : α → Opd MV) (cs : CS PTy) : Option (Site × CS PTy) :=
  (g { cs with nreg := 0 }).map fun r => (⟨r.2.1, v r.1, test⟩, r.2.2)

/-- `BuildIR(const ast::ExpressionStatement&)`, compiler_statements.cc 96–102: the value is not used. -/
def exprSite (fpu : Fpu) (e : Expr) : CS PTy → Option (Site × CS PTy) := site false (gExpr (rt fpu) arity e) fun _ => .const (.word 0)

/-- `BuildIR(const ast::ReturnStatement&)`, compiler_statements.cc 32–43, and `Return`, codegen.cc 462–478. -/
def retSite (fpu : Fpu) (ret : PTy) (e : Expr) : CS PTy → Option (Site × CS PTy) := site false (((gExpr (rt fpu) arity e).andThen ld).andThen (castTo (rt fpu) ret)) id

/-- A condition: compiler_statements.cc 44–95; `LoadValue` in `BeginIf`, `EndElifCond`, `AddLoopCond`. Validation requires a boolean (statement.cc 43–52). -/
def condSite (fpu : Fpu) (e : Expr) : CS PTy → Option (Site × CS PTy) :=
  site true (((gExpr (rt fpu) arity e).andThen ld).andThen fun x => if x.1 = .bit then G.ret x.2 else G.fail) id

mutual
/-- The code of all expressions of a statement, in the order in which they are compiled, which is the order of the text. The variables known are those defined before in the text
(`named_values` of the function, codegen_value.cc 153–157). -/
def sites (fpu : Fpu) (ret : PTy) : Stmt → CS PTy → Option (List Site × CS PTy)
  | .cont, cs => some ([], cs)
  | .brk, cs => some ([], cs)
  | .ret, cs => some ([], cs)
  | .retVal e, cs => (retSite fpu ret e cs).map fun r => ([r.1], r.2)
  | .expr e, cs => (exprSite fpu e cs).map fun r => ([r.1], r.2)
  | .whileLoop c b, cs => (condSite fpu c cs).bind fun r => (sitess fpu ret b r.2).map fun q => (r.1 :: q.1, q.2)
  | .ifElse c b es el, cs => (condSite fpu c cs).bind fun r => (sitess fpu ret b r.2).bind fun q => (sitesElifs fpu ret es q.2).bind fun q' =>
    (sitesElse fpu ret el q'.2).map fun q'' => (r.1 :: (q.1 ++ (q'.1 ++ q''.1)), q''.2)
def sitess (fpu : Fpu) (ret : PTy) : Stmts → CS PTy → Option (List Site × CS PTy)
  | .nil, cs => some ([], cs)
  | .cons s ss, cs => (sites fpu ret s cs).bind fun r => (sitess fpu ret ss r.2).map fun q => (r.1 ++ q.1, q.2)
def sitesElifs (fpu : Fpu) (ret : PTy) : Elifs → CS PTy → Option (List Site × CS PTy)
  | .nil, cs => some ([], cs)
  | .cons c b es, cs => (condSite fpu c cs).bind fun r => (sitess fpu ret b r.2).bind fun q => (sitesElifs fpu ret es q.2).map fun q' => (r.1 :: (q.1 ++ q'.1), q'.2)
def sitesElse (fpu : Fpu) (ret : PTy) : Else → CS PTy → Option (List Site × CS PTy)
  | .none, cs => some ([], cs)
  | .some b, cs => sitess fpu ret b cs
end

/-- `CanCastTo`, dtype.cc 292–318, on booleans and numbers; casts between a boolean and a number are left out. -/
def vCast (a b : PTy) : Bool := decide (a = b) || (normT a b).isSome

/-! `S` stands for the validation of expressions. -/

/-- `VarDefine::Validate`, expression.cc 178–186, then `OP_ASSIGN` in `BinaryExpr::Validate`, 473–481: the name is new; it gets the type validation has for the value. (While the value is
validated, the code knows the name with the type `void`, which no operator accepts; here it does not know it.) -/
def vDefine (S : (Name → Option PTy) → Sem PTy) (tenv : Name → Option PTy) (x : Name) (e : Expr) : Option (Name → Option PTy) :=
  if (tenv x).isSome = true then none else (evalE arity (S tenv) e).map fun t n => if n = x then some t else tenv n

/-- `BinaryExpr::Validate`, expression.cc 357–570, on `x = e` and `x op= e`: a variable keeps the type it has (`AddLocalVar`, context.cc 135–144). -/
def vAssign (S : (Name → Option PTy) → Sem PTy) (tenv : Name → Option PTy) (x : Name) (op : BinOp) (e : Expr) : Option (Name → Option PTy) :=
  (tenv x).bind fun t => (evalE arity (S tenv) e).bind fun u =>
    if op = .assign then (if vCast t u = true then some tenv else none)
    else match baseOp op with
      | some o => (vBin o t u).map fun _ => tenv
      | none => (vBin op t u).map fun _ => tenv

/-- `ExpressionStatement::Validate`, statement.cc 31–41. Assignments are modelled where they make up the statement; inside other expressions they are refused here. -/
def vExpr (S : (Name → Option PTy) → Sem PTy) (tenv : Name → Option PTy) : Expr → Option (Name → Option PTy)
  | .bin (.un none (.define x)) .assign e => vDefine S tenv x e
  | .bin (.un none (.var x)) op e => vAssign S tenv x op e
  | e => (evalE arity (S tenv) e).map fun _ => tenv

/-- `ChoiceStatement::Validate`, statement.cc 43–52. -/
def vCond (S : (Name → Option PTy) → Sem PTy) (tenv : Name → Option PTy) (e : Expr) : Option (Name → Option PTy) := (evalE arity (S tenv) e).bind fun t => if t = .bit then some tenv else none

mutual
/-- Validation of statements, statement.cc 22–119: the variables known afterwards, with their types. -/
def vStmt (S : (Name → Option PTy) → Sem PTy) (ret : PTy) (inLoop : Bool) : Stmt → (Name → Option PTy) → Option (Name → Option PTy)
  | .cont, v => if inLoop = true then some v else none
  | .brk, v => if inLoop = true then some v else none
  | .ret, v => some v
  | .retVal e, v => (evalE arity (S v) e).bind fun t => if vCast t ret = true then some v else none
  | .expr e, v => vExpr S v e
  | .whileLoop c b, v => (vCond S v c).bind fun v => vStmts S ret true b v
  | .ifElse c b es el, v => (vCond S v c).bind fun v => (vStmts S ret inLoop b v).bind fun v => (vElifs S ret inLoop es v).bind fun v => vElse S ret inLoop el v
def vStmts (S : (Name → Option PTy) → Sem PTy) (ret : PTy) (inLoop : Bool) : Stmts → (Name → Option PTy) → Option (Name → Option PTy)
  | .nil, v => some v
  | .cons s ss, v => (vStmt S ret inLoop s v).bind fun v => vStmts S ret inLoop ss v
def vElifs (S : (Name → Option PTy) → Sem PTy) (ret : PTy) (inLoop : Bool) : Elifs → (Name → Option PTy) → Option (Name → Option PTy)
  | .nil, v => some v
  | .cons c b es, v => (vCond S v c).bind fun v => (vStmts S ret inLoop b v).bind fun v => vElifs S ret inLoop es v
def vElse (S : (Name → Option PTy) → Sem PTy) (ret : PTy) (inLoop : Bool) : Else → (Name → Option PTy) → Option (Name → Option PTy)
  | .none, v => some v
  | .some b, v => vStmts S ret inLoop b v
end

/-- `Function::Validate`, function.cc 33–52: the names of the arguments are distinct. -/
def vParams : List (Name × PTy) → (Name → Option PTy) → Option (Name → Option PTy)
  | [], v => some v
  | q :: ps, v => if (v q.1).isSome = true then none else vParams ps fun n => if n = q.1 then some q.2 else v n

/-- A compiled function: the code of its expressions, and its blocks, in which the expressions are numbered. -/
structure FnCode where
  table : List Site
  blocks : St

/-- `GetDtypeSymbols`: the names of types (C133). -/
def typeNamed (t : List Char) : Option PTy := if t = ['b', 'o', 'o', 'l'] then some .bit else sufTypes.lookup t

/-- The types of the arguments. -/
def paramTypes : List (List Char × List Char) → Option (List (Name × PTy))
  | [] => some []
  | p :: ps => (typeNamed p.1).bind fun t => (paramTypes ps).map fun r => (p.2, t) :: r

/-- `CompileFunction`: the source is parsed and validated, the arguments are stored in slots (`DefineFunction`), the statements are compiled. No scalar expression has blocks of its own. -/
def compileFn (fpu : Fpu) (cfg : Cfg) (src : List Char) : Option FnCode :=
  match parseFunction cfg src with
  | .ok f _ => (typeNamed f.ret).bind fun ret => (paramTypes f.params).bind fun ps =>
    ((vParams ps fun _ => none).bind fun v => vStmts (vSem fpu) ret false f.body v).bind fun _ =>
    (sitess fpu ret f.body ⟨0, ps.length, paramVars 0 ps⟩).bind fun r => (genFunction (fun _ => false) (marks f.body 0).1).map fun st => ⟨r.1, st⟩
  | .fail => none
  | .fuel => none

/-- Running the code of an expression on the slots. To let control depend on poison is undefined. -/
def runSite (fpu : Fpu) (table : List Site) (i : Nat) (slots : Nat → MV) : Option ((Nat → MV) × MV) :=
  (table[i]?).bind fun s => (Scalar.run (rt fpu) s.code ⟨[], slots, ()⟩).bind fun rs => (rs.opd s.opd).bind fun v => if s.test = true ∧ v = .poison then none else some (rs.slots, v)

/-- The blocks run the code of the expression with the number. -/
def machine (fpu : Fpu) (table : List Site) : Lang (Nat → MV) MV where
  eval e slots := match e with
    | .un none (.num t) => runSite fpu table t.length slots
    | _ => none
  truth := (rt fpu).truth

/-- A call returns `v`: the exit block is reached, with `v`, which is not poison, in the return slot. The arguments are in the first slots, the others hold anything. -/
def Returns (fpu : Fpu) (c : FnCode) (junk : Nat → MV) (args : List MV) (v : MV) : Prop :=
  v ≠ .poison ∧ ∃ slots, Halts (machine fpu c.table) c.blocks (fun i => args.getD i (junk i)) (slots, some v)

/-- A call is undefined: a trap, control leaves the generated code, or the exit block is reached while nothing or poison is in the return slot. -/
def Undefined (fpu : Fpu) (c : FnCode) (junk : Nat → MV) (args : List MV) : Prop :=
  Traps (machine fpu c.table) c.blocks (fun i => args.getD i (junk i)) ∨ Goes_wrong (machine fpu c.table) c.blocks (fun i => args.getD i (junk i)) ∨
    ∃ slots r, Halts (machine fpu c.table) c.blocks (fun i => args.getD i (junk i)) (slots, r) ∧ (r = none ∨ r = some .poison)

/-! ## Lemmas: statements and what they are read as -/

mutual
theorem is_ends (c : Cmd) (s : Stmt) (h : c.Is s) : Stmt.ends s = c.ends := by
  match c with
  | .define _ _ | .assign _ _ | .update _ _ _ | .ret _ | .brk | .cont | .loop _ _ => cases h <;> rfl
  | .branch _ b rest => cases h with | branch _ h1 h2 => rw [Stmt.ends, Cmd.ends, is_endss b _ h1, Bool.and_assoc, is_endsR rest _ _ h2]
theorem is_endss (c : Cmds) (s : Stmts) (h : c.Is s) : Stmts.ends s = c.ends := by
  match c with
  | .nil => cases h; rfl
  | .cons c .nil => cases h with | cons h1 h2 => cases h2; rw [Stmts.ends, Cmds.ends]; exact is_ends c _ h1
  | .cons c (.cons d ds) => cases h with | cons h1 h2 => cases h2 with | cons h3 h4 => rw [Stmts.ends, Cmds.ends]; exact is_endss (.cons d ds) _ (.cons h3 h4)
theorem is_endsR (c : Rest) (es : Elifs) (el : Else) (h : c.Is es el) : (Elifs.ends es && Else.ends el) = c.ends := by
  match c with
  | .none => cases h; rfl
  | .els b => cases h with | els h1 => rw [Rest.ends, ← is_endss b _ h1]; rfl
  | .elif _ b rest => cases h with | elif _ h1 h2 => rw [Rest.ends, Elifs.ends, is_endss b _ h1, Bool.and_assoc, is_endsR rest _ _ h2]
end

theorem is_flat (c : Cmds) (s : Stmts) (h : c.Is s) : Stmts.flat (fun _ => false) s = c.flat := by
  match c with
  | .nil => cases h; rfl
  | .cons c cs =>
    cases h with
    | cons h1 h2 =>
      rw [Stmts.flat, Cmds.flat, is_flat cs _ h2]
      congr 1
      cases h1 <;> rfl

theorem is_starts (c : Cmds) (s : Stmts) (h : c.Is s) : Stmts.startsWhile s = c.startsLoop := by
  cases h with
  | nil => rfl
  | cons h1 h2 => cases h1 <;> rfl

mutual
theorem is_clean (c : Cmd) (s : Stmt) (h : c.Is s) (hc : c.Clean) : Stmt.Clean (fun _ => false) s := by
  match c with
  | .define _ _ | .assign _ _ | .update _ _ _ | .ret _ | .brk | .cont => cases h <;> simp [Stmt.Clean]
  | .loop _ b => cases h with | loop _ h1 => rw [Cmd.Clean] at hc; rw [Stmt.Clean]; exact is_cleans b _ h1 hc
  | .branch _ b rest => cases h with | branch _ h1 h2 => rw [Cmd.Clean] at hc; rw [Stmt.Clean]; exact ⟨is_cleans b _ h1 hc.1, is_cleanR rest _ _ h2 hc.2⟩
theorem is_cleans (c : Cmds) (s : Stmts) (h : c.Is s) (hc : c.Clean) : Stmts.Clean (fun _ => false) s := by
  match c with
  | .nil => cases h; simp [Stmts.Clean]
  | .cons c cs => cases h with | cons h1 h2 => rw [Cmds.Clean] at hc; rw [Stmts.Clean, is_ends c _ h1, is_starts cs _ h2]; exact ⟨is_clean c _ h1 hc.1, is_cleans cs _ h2 hc.2.1, hc.2.2⟩
theorem is_cleanR (c : Rest) (es : Elifs) (el : Else) (h : c.Is es el) (hc : c.Clean) : Elifs.Clean (fun _ => false) es ∧ Else.Clean (fun _ => false) el := by
  match c with
  | .none => cases h; simp [Elifs.Clean, Else.Clean]
  | .els b => cases h with | els h1 => rw [Rest.Clean] at hc; rw [Elifs.Clean, Else.Clean, is_flat b _ h1, is_endss b _ h1]; exact ⟨trivial, is_cleans b _ h1 hc.1, hc.2⟩
  | .elif _ b rest =>
    cases h with
    | elif _ h1 h2 =>
      rw [Rest.Clean] at hc
      have h3 := is_cleanR rest _ _ h2 hc.2.2
      rw [Elifs.Clean, is_flat b _ h1, is_endss b _ h1]
      exact ⟨⟨is_cleans b _ h1 hc.1, hc.2.1, h3.1⟩, h3.2⟩
end

mutual
theorem is_jumps (c : Cmd) (s : Stmt) (h : c.Is s) {fpu : Fpu} {ret : Ty} (l : Bool) (Γ : Types) (hc : c.Ok fpu ret l Γ) : Validate.Stmt.jumpsOk l s := by
  match c with
  | .define _ _ | .assign _ _ | .update _ _ _ | .ret _ => cases h <;> simp [Validate.Stmt.jumpsOk]
  | .brk | .cont => cases h; rw [Cmd.Ok] at hc; simp [Validate.Stmt.jumpsOk, hc]
  | .loop _ b => cases h with | loop _ h1 => rw [Cmd.Ok] at hc; rw [Validate.Stmt.jumpsOk]; exact is_jumpss b _ h1 true Γ hc.2
  | .branch _ b rest => cases h with | branch _ h1 h2 => rw [Cmd.Ok] at hc; rw [Validate.Stmt.jumpsOk]; exact ⟨is_jumpss b _ h1 l Γ hc.2.1, is_jumpsR rest _ _ h2 l Γ hc.2.2⟩
theorem is_jumpss (c : Cmds) (s : Stmts) (h : c.Is s) {fpu : Fpu} {ret : Ty} (l : Bool) (Γ : Types) (hc : c.Ok fpu ret l Γ) : Validate.Stmts.jumpsOk l s := by
  match c with
  | .nil => cases h; simp [Validate.Stmts.jumpsOk]
  | .cons c cs => cases h with | cons h1 h2 => rw [Cmds.Ok] at hc; rw [Validate.Stmts.jumpsOk]; exact ⟨is_jumps c _ h1 l Γ hc.1, is_jumpss cs _ h2 l _ hc.2⟩
theorem is_jumpsR (c : Rest) (es : Elifs) (el : Else) (h : c.Is es el) {fpu : Fpu} {ret : Ty} (l : Bool) (Γ : Types) (hc : c.Ok fpu ret l Γ) : Validate.Elifs.jumpsOk l es ∧ Validate.Else.jumpsOk l el := by
  match c with
  | .none => cases h; simp [Validate.Elifs.jumpsOk, Validate.Else.jumpsOk]
  | .els b => cases h with | els h1 => rw [Rest.Ok] at hc; rw [Validate.Elifs.jumpsOk, Validate.Else.jumpsOk]; exact ⟨trivial, is_jumpss b _ h1 l Γ hc⟩
  | .elif _ b rest =>
    cases h with
    | elif _ h1 h2 =>
      rw [Rest.Ok] at hc
      have h3 := is_jumpsR rest _ _ h2 l Γ hc.2.2
      rw [Validate.Elifs.jumpsOk]
      exact ⟨⟨is_jumpss b _ h1 l Γ hc.2.1, h3.1⟩, h3.2⟩
end


end Verif.Comp.RealFn
