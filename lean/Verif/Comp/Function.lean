import Verif.Comp.Pipeline
import Verif.Ast.Stmts
import Verif.Gen.CfgProps
/-!
# From the text of a function to its result: C136

The way of `Verif.Comp.Pipeline` for whole functions: lexer and parser of statements (`Verif.Ast.Parser`), basic blocks (`Verif.Gen.Cfg`), code and slots of variables
(`Verif.Gen.Scalar`), integer operators (`Verif.Gen.IntOps`), put together as `JitCompiler::CompileFunction` does: `/repo/rapidudf/compiler/compiler.cc` 127–145,
`BuildIR(const ast::Function&)` and `/repo/rapidudf/compiler/compiler_statements.cc` 23–111, `DefineFunction`, `FinishFunction`, `Return`: `/repo/rapidudf/compiler/codegen.cc` 383–478.

Functions of integer arguments returning an integer; local variables, assignments, `if`/`elif`/`else`, `while`, `break`, `continue`, `return`.
-/
namespace Verif.Comp.Function
open Verif.Ast Verif.Ast.Rpn Verif.Gen Verif.Gen.Scalar Verif.Types.Conv Verif.Comp.Pipeline

/-! ## Specification: a language of statements -/

mutual
/-- Statements: `var x = e;`, `x = e;`, `x op= e;`, `return e;`, `break;`, `continue;`, `while (c) { b }`, `if (c) { b } rest`. -/
inductive Cmd where
  | define (x : Name) (e : Num)
  | assign (x : Name) (e : Num)
  | update (o : Arith) (x : Name) (e : Num)
  | ret (e : Num)
  | brk
  | cont
  | loop (c : Cond) (b : Cmds)
  | branch (c : Cond) (b : Cmds) (rest : Rest)
inductive Cmds where
  | nil
  | cons (s : Cmd) (ss : Cmds)
/-- What follows an `if`: nothing, `else { b }`, `elif (c) { b } rest`. -/
inductive Rest where
  | none
  | els (b : Cmds)
  | elif (c : Cond) (b : Cmds) (rest : Rest)
end

abbrev Types := Name → Option IntTy
abbrev Store := Name → Int

def Types.set (Γ : Types) (x : Name) (t : Option IntTy) : Types := fun n => if n = x then t else Γ n
def Store.set (ρ : Store) (x : Name) (z : Int) : Store := fun n => if n = x then z else ρ n

/-- The variables after a statement: a definition is visible up to the end of its block. -/
def Cmd.after (Γ : Types) : Cmd → Types
  | .define x e => Γ.set x (e.type Γ)
  | .assign _ _ => Γ
  | .update _ _ _ => Γ
  | .ret _ => Γ
  | .brk => Γ
  | .cont => Γ
  | .loop _ _ => Γ
  | .branch _ _ _ => Γ

/-- How statements end: normally, by `break`, `continue` or `return`, in undefined behaviour, or not within the bound on the number of iterations. -/
inductive End where
  | next (ρ : Store)
  | brk (ρ : Store)
  | cont (ρ : Store)
  | ret (z : Int)
  | undefined
  | more

/-- Go on after a normal end. -/
def End.andThen (x : End) (f : Store → End) : End := match x with
  | .next ρ => f ρ
  | .brk ρ => .brk ρ
  | .cont ρ => .cont ρ
  | .ret z => .ret z
  | .undefined => .undefined
  | .more => .more

/-- Go on with a value, if it is defined. -/
def withValue {α : Type} (v : Option α) (f : α → End) : End := match v with
  | none => .undefined
  | some z => f z

/-- Test and body, at most `n` times. -/
def repeated (test : Store → Option Bool) (body : Store → End) : Nat → Store → End
  | 0, _ => .more
  | n + 1, ρ => withValue (test ρ) fun b => if b = true then (match body ρ with
    | .next ρ' => repeated test body n ρ'
    | .cont ρ' => repeated test body n ρ'
    | .brk ρ' => .next ρ'
    | .ret z => .ret z
    | .undefined => .undefined
    | .more => .more) else .next ρ

mutual
/-- What a statement does to the variables, with at most `n` iterations of every loop. -/
def Cmd.exec (n : Nat) (Γ : Types) (ρ : Store) : Cmd → End
  | .define x e => withValue (e.value Γ ρ) fun z => .next (ρ.set x z)
  | .assign x e => withValue (e.value Γ ρ) fun z => .next (ρ.set x z)
  | .update o x e => withValue ((Num.op o (.arg x) e).value Γ ρ) fun z => .next (ρ.set x z)
  | .ret e => withValue (e.value Γ ρ) .ret
  | .brk => .brk ρ
  | .cont => .cont ρ
  | .loop c b => repeated (fun ρ => c.value Γ ρ) (fun ρ => b.exec n Γ ρ) n ρ
  | .branch c b rest => withValue (c.value Γ ρ) fun z => if z = true then b.exec n Γ ρ else rest.exec n Γ ρ
def Cmds.exec (n : Nat) (Γ : Types) (ρ : Store) : Cmds → End
  | .nil => .next ρ
  | .cons s ss => (s.exec n Γ ρ).andThen fun ρ => ss.exec n (s.after Γ) ρ
def Rest.exec (n : Nat) (Γ : Types) (ρ : Store) : Rest → End
  | .none => .next ρ
  | .els b => b.exec n Γ ρ
  | .elif c b rest => withValue (c.value Γ ρ) fun z => if z = true then b.exec n Γ ρ else rest.exec n Γ ρ
end

/-- An expression for a number that has a type, small literals and safe conditional operands, and negates no choice between numbers of different types (see `Verif.Comp.Pipeline`). -/
structure NumOk (Γ : Types) (e : Num) : Prop where
  typed : (e.type Γ).isSome
  lits : e.Lits
  guarded : e.Guarded
  level : e.Level Γ

structure CondOk (Γ : Types) (c : Cond) : Prop where
  typed : c.typed Γ = true
  lits : c.Lits
  guarded : c.Guarded
  level : c.Level Γ

/-- A variable alone. -/
def Num.isArg : Num → Bool
  | .arg _ => true
  | _ => false

mutual
/-- Well typed: variables are used in their scope; the type of a variable is that of its first value, and later values have that type (for `x op= e`: a type that is not wider); a variable
is not defined by another variable alone (C37), nor by a choice between numbers of different types (C142); `break` and `continue` are in loops. -/
def Cmd.Ok (inLoop : Bool) (Γ : Types) : Cmd → Prop
  | .define _ e => NumOk Γ e ∧ Num.isArg e = false ∧ e.Even Γ
  | .assign x e => NumOk Γ e ∧ Γ x = e.type Γ
  | .update o x e => NumOk Γ (.op o (.arg x) e) ∧ Γ x = (Num.op o (.arg x) e).type Γ
  | .ret e => NumOk Γ e
  | .brk => inLoop = true
  | .cont => inLoop = true
  | .loop c b => CondOk Γ c ∧ b.Ok true Γ
  | .branch c b rest => CondOk Γ c ∧ b.Ok inLoop Γ ∧ rest.Ok inLoop Γ
def Cmds.Ok (inLoop : Bool) (Γ : Types) : Cmds → Prop
  | .nil => True
  | .cons s ss => s.Ok inLoop Γ ∧ ss.Ok inLoop (s.after Γ)
def Rest.Ok (inLoop : Bool) (Γ : Types) : Rest → Prop
  | .none => True
  | .els b => b.Ok inLoop Γ
  | .elif c b rest => CondOk Γ c ∧ b.Ok inLoop Γ ∧ rest.Ok inLoop Γ
end

mutual
/-- The names that are defined. -/
def Cmd.defs : Cmd → List Name
  | .define x _ => [x]
  | .assign _ _ => []
  | .update _ _ _ => []
  | .ret _ => []
  | .brk => []
  | .cont => []
  | .loop _ b => b.defs
  | .branch _ b rest => b.defs ++ rest.defs
def Cmds.defs : Cmds → List Name
  | .nil => []
  | .cons s ss => s.defs ++ ss.defs
def Rest.defs : Rest → List Name
  | .none => []
  | .els b => b.defs
  | .elif _ b rest => b.defs ++ rest.defs
end

def Arith.assignSign : Arith → BinOp
  | .add => .addAssign | .sub => .subAssign | .mul => .mulAssign | .div => .divAssign | .mod => .modAssign

/-- The expression of an expression statement. -/
def ExprIs (e : Expr) (l : Operand) (op : BinOp) (r : Tree) : Prop := ∃ e', e = .bin (.un none l) op e' ∧ e'.toTree = r

mutual
/-- The statement is read as this one (parentheses in expressions do not matter). -/
inductive Cmd.Is : Cmd → Stmt → Prop
  | define {x e s} : ExprIs s (.define x) .assign (Num.tree e) → Cmd.Is (.define x e) (.expr s)
  | assign {x e s} : ExprIs s (.var x) .assign (Num.tree e) → Cmd.Is (.assign x e) (.expr s)
  | update {o x e s} : ExprIs s (.var x) (Arith.assignSign o) (Num.tree e) → Cmd.Is (.update o x e) (.expr s)
  | ret {e : Num} {s : Expr} : s.toTree = e.tree → Cmd.Is (.ret e) (.retVal s)
  | brk : Cmd.Is .brk .brk
  | cont : Cmd.Is .cont .cont
  | loop {c : Cond} {b : Cmds} {s : Expr} {ss : Stmts} : s.toTree = c.tree → Cmds.Is b ss → Cmd.Is (.loop c b) (.whileLoop s ss)
  | branch {c : Cond} {b : Cmds} {rest : Rest} {s : Expr} {ss : Stmts} {es : Elifs} {el : Else} :
    s.toTree = c.tree → Cmds.Is b ss → Rest.Is rest es el → Cmd.Is (.branch c b rest) (.ifElse s ss es el)
inductive Cmds.Is : Cmds → Stmts → Prop
  | nil : Cmds.Is .nil .nil
  | cons {c : Cmd} {cs : Cmds} {s : Stmt} {ss : Stmts} : Cmd.Is c s → Cmds.Is cs ss → Cmds.Is (.cons c cs) (.cons s ss)
inductive Rest.Is : Rest → Elifs → Else → Prop
  | none : Rest.Is .none .nil .none
  | els {b : Cmds} {ss : Stmts} : Cmds.Is b ss → Rest.Is (.els b) .nil (.some ss)
  | elif {c : Cond} {b : Cmds} {rest : Rest} {s : Expr} {ss : Stmts} {es : Elifs} {el : Else} :
    s.toTree = c.tree → Cmds.Is b ss → Rest.Is rest es el → Rest.Is (.elif c b rest) (.cons s ss es) el
end

mutual
/-- Control does not reach the end. -/
def Cmd.ends : Cmd → Bool
  | .define _ _ => false
  | .assign _ _ => false
  | .update _ _ _ => false
  | .ret _ => true
  | .brk => true
  | .cont => true
  | .loop _ _ => false
  | .branch _ b rest => b.ends && rest.ends
def Cmds.ends : Cmds → Bool
  | .nil => false
  | .cons s .nil => s.ends
  | .cons _ (.cons s ss) => Cmds.ends (.cons s ss)
def Rest.ends : Rest → Bool
  | .none => false
  | .els b => b.ends
  | .elif _ b rest => b.ends && rest.ends
end

/-- Neither `if` nor `while`. -/
def Cmd.flat : Cmd → Bool
  | .loop _ _ => false
  | .branch _ _ _ => false
  | _ => true
def Cmds.flat : Cmds → Bool
  | .nil => true
  | .cons s ss => s.flat && ss.flat

/-- Nothing, or `while` first. -/
def Cmds.startsLoop : Cmds → Bool
  | .nil => true
  | .cons (.loop _ _) _ => true
  | _ => false

mutual
/-- The functions that are compiled to valid blocks (C36): nothing but a loop follows a statement that always jumps, and the bodies of `elif` and `else` contain no `if` or `while`, or
always jump. -/
def Cmd.Clean : Cmd → Prop
  | .loop _ b => b.Clean
  | .branch _ b rest => b.Clean ∧ rest.Clean
  | .define _ _ => True
  | .assign _ _ => True
  | .update _ _ _ => True
  | .ret _ => True
  | .brk => True
  | .cont => True
def Cmds.Clean : Cmds → Prop
  | .nil => True
  | .cons s ss => s.Clean ∧ ss.Clean ∧ (s.ends = true → ss.startsLoop = true)
def Rest.Clean : Rest → Prop
  | .none => True
  | .els b => b.Clean ∧ (b.flat = true ∨ b.ends = true)
  | .elif _ b rest => b.Clean ∧ (b.flat = true ∨ b.ends = true) ∧ rest.Clean
end

/-- A text is read as the function with the given types, arguments and statements. -/
def ReadsFn (cfg : Cfg) (src : List Char) (ret : IntTy) (ps : List (Name × IntTy)) (body : Cmds) : Prop :=
  ∃ f rest, parseFunction cfg src = .ok f rest ∧ f.ret = suffixText ret ∧ f.params = (ps.map fun q => (suffixText q.2, q.1)) ∧ body.Is f.body

/-! ## Model -/

/-- The code of one expression and where its value is. -/
abbrev Site := List (Instr PTy Int) × Opd Int

/-- Code is generated with the variables known so far. Registers are numbered from 0 in every expression: no expression uses registers of another one. -/
def site {α : Type} (g : G PTy Int α) (v : α → Opd Int) (cs : CS PTy) : Option (Site × CS PTy) :=
  (g { cs with nreg := 0 }).map fun r => ((r.2.1, v r.1), r.2.2)

/-- `BuildIR(const ast::ExpressionStatement&)`, compiler_statements.cc 96–102: the value is not used. -/
def exprSite (inl : Inline) (e : Expr) : CS PTy → Option (Site × CS PTy) := site (gExpr ints inl e) fun _ => .const 0

/-- `BuildIR(const ast::ReturnStatement&)`, compiler_statements.cc 32–43, and `Return`, codegen.cc 462–478. -/
def retSite (inl : Inline) (ret : IntTy) (e : Expr) : CS PTy → Option (Site × CS PTy) := site (((gExpr ints inl e).andThen ld).andThen (castTo ints (.int ret))) id

/-- A condition: compiler_statements.cc 44–95; `LoadValue` in `BeginIf`, `EndElifCond`, `AddLoopCond`. Validation requires a boolean (statement.cc 43–52). -/
def condSite (inl : Inline) (e : Expr) : CS PTy → Option (Site × CS PTy) :=
  site (((gExpr ints inl e).andThen ld).andThen fun x => if x.1 = .bit then G.ret x.2 else G.fail) id

mutual
/-- The code of all expressions of a statement, in the order in which they are compiled, which is the order of the text. The variables known are those defined before in the text
(`named_values` of the function, codegen_value.cc 153–157). -/
def sites (inl : Inline) (ret : IntTy) : Stmt → CS PTy → Option (List Site × CS PTy)
  | .cont, cs => some ([], cs)
  | .brk, cs => some ([], cs)
  | .ret, cs => some ([], cs)
  | .retVal e, cs => (retSite inl ret e cs).map fun r => ([r.1], r.2)
  | .expr e, cs => (exprSite inl e cs).map fun r => ([r.1], r.2)
  | .whileLoop c b, cs => (condSite inl c cs).bind fun r => (sitess inl ret b r.2).map fun q => (r.1 :: q.1, q.2)
  | .ifElse c b es el, cs => (condSite inl c cs).bind fun r => (sitess inl ret b r.2).bind fun q => (sitesElifs inl ret es q.2).bind fun q' =>
    (sitesElse inl ret el q'.2).map fun q'' => (r.1 :: (q.1 ++ (q'.1 ++ q''.1)), q''.2)
def sitess (inl : Inline) (ret : IntTy) : Stmts → CS PTy → Option (List Site × CS PTy)
  | .nil, cs => some ([], cs)
  | .cons s ss, cs => (sites inl ret s cs).bind fun r => (sitess inl ret ss r.2).map fun q => (r.1 ++ q.1, q.2)
def sitesElifs (inl : Inline) (ret : IntTy) : Elifs → CS PTy → Option (List Site × CS PTy)
  | .nil, cs => some ([], cs)
  | .cons c b es, cs => (condSite inl c cs).bind fun r => (sitess inl ret b r.2).bind fun q => (sitesElifs inl ret es q.2).map fun q' => (r.1 :: (q.1 ++ q'.1), q'.2)
def sitesElse (inl : Inline) (ret : IntTy) : Else → CS PTy → Option (List Site × CS PTy)
  | .none, cs => some ([], cs)
  | .some b, cs => sitess inl ret b cs
end

/-- A name for the `i`-th expression. -/
def tag (i : Nat) : Expr := .un none (.num (List.replicate i '0'))

mutual
/-- The statements with their expressions numbered from `i`, in the order of `sites`, and the next number. -/
def mark : Stmt → Nat → Stmt × Nat
  | .cont, i => (.cont, i)
  | .brk, i => (.brk, i)
  | .ret, i => (.ret, i)
  | .retVal _, i => (.retVal (tag i), i + 1)
  | .expr _, i => (.expr (tag i), i + 1)
  | .whileLoop _ b, i => (.whileLoop (tag i) (marks b (i + 1)).1, (marks b (i + 1)).2)
  | .ifElse _ b es el, i =>
    (.ifElse (tag i) (marks b (i + 1)).1 (markElifs es (marks b (i + 1)).2).1 (markElse el (markElifs es (marks b (i + 1)).2).2).1, (markElse el (markElifs es (marks b (i + 1)).2).2).2)
def marks : Stmts → Nat → Stmts × Nat
  | .nil, i => (.nil, i)
  | .cons s ss, i => (.cons (mark s i).1 (marks ss (mark s i).2).1, (marks ss (mark s i).2).2)
def markElifs : Elifs → Nat → Elifs × Nat
  | .nil, i => (.nil, i)
  | .cons _ b es, i => (.cons (tag i) (marks b (i + 1)).1 (markElifs es (marks b (i + 1)).2).1, (markElifs es (marks b (i + 1)).2).2)
def markElse : Else → Nat → Else × Nat
  | .none, i => (.none, i)
  | .some b, i => (.some (marks b i).1, (marks b i).2)
end

/-- `CanCastTo` between booleans and integers. -/
def vCast (a b : PTy) : Bool := decide (a = b) || (normT a b).isSome

/-! `S` stands for the validation of expressions. -/

/-- `VarDefine::Validate`, expression.cc 178–186, then `OP_ASSIGN` in `BinaryExpr::Validate`, 473–481: the name is new; it gets the type validation has for the value. (While the value is
validated, the code knows the name with the type `void`, which no operator accepts; here it does not know it.) -/
def vDefine (S : (Name → Option PTy) → Sem PTy) (inl : Inline) (tenv : Name → Option PTy) (x : Name) (e : Expr) : Option (Name → Option PTy) :=
  if (tenv x).isSome = true then none else (evalE inl (S tenv) e).map fun t n => if n = x then some t else tenv n

/-- `BinaryExpr::Validate`, expression.cc 357–570, on `x = e` and `x op= e`: a variable keeps the type it has (`AddLocalVar`, context.cc 135–144). -/
def vAssign (S : (Name → Option PTy) → Sem PTy) (inl : Inline) (tenv : Name → Option PTy) (x : Name) (op : BinOp) (e : Expr) : Option (Name → Option PTy) :=
  (tenv x).bind fun t => (evalE inl (S tenv) e).bind fun u =>
    if op = .assign then (if vCast t u = true then some tenv else none)
    else match baseOp op with
      | some o => (vBin o t u).map fun _ => tenv
      | none => (vBin op t u).map fun _ => tenv

/-- `ExpressionStatement::Validate`, statement.cc 31–41. Assignments are modelled where they make up the statement; inside other expressions they are refused here. -/
def vExpr (S : (Name → Option PTy) → Sem PTy) (inl : Inline) (tenv : Name → Option PTy) : Expr → Option (Name → Option PTy)
  | .bin (.un none (.define x)) .assign e => vDefine S inl tenv x e
  | .bin (.un none (.var x)) op e => vAssign S inl tenv x op e
  | e => (evalE inl (S tenv) e).map fun _ => tenv

/-- `ChoiceStatement::Validate`, statement.cc 43–52. -/
def vCond (S : (Name → Option PTy) → Sem PTy) (inl : Inline) (tenv : Name → Option PTy) (e : Expr) : Option (Name → Option PTy) := (evalE inl (S tenv) e).bind fun t => if t = .bit then some tenv else none

mutual
/-- Validation of statements, statement.cc 22–119: the variables known afterwards, with their types. -/
def vStmt (S : (Name → Option PTy) → Sem PTy) (inl : Inline) (ret : PTy) (inLoop : Bool) : Stmt → (Name → Option PTy) → Option (Name → Option PTy)
  | .cont, v => if inLoop = true then some v else none
  | .brk, v => if inLoop = true then some v else none
  | .ret, v => some v
  | .retVal e, v => (evalE inl (S v) e).bind fun t => if vCast t ret = true then some v else none
  | .expr e, v => vExpr S inl v e
  | .whileLoop c b, v => (vCond S inl v c).bind fun v => vStmts S inl ret true b v
  | .ifElse c b es el, v => (vCond S inl v c).bind fun v => (vStmts S inl ret inLoop b v).bind fun v => (vElifs S inl ret inLoop es v).bind fun v => vElse S inl ret inLoop el v
def vStmts (S : (Name → Option PTy) → Sem PTy) (inl : Inline) (ret : PTy) (inLoop : Bool) : Stmts → (Name → Option PTy) → Option (Name → Option PTy)
  | .nil, v => some v
  | .cons s ss, v => (vStmt S inl ret inLoop s v).bind fun v => vStmts S inl ret inLoop ss v
def vElifs (S : (Name → Option PTy) → Sem PTy) (inl : Inline) (ret : PTy) (inLoop : Bool) : Elifs → (Name → Option PTy) → Option (Name → Option PTy)
  | .nil, v => some v
  | .cons c b es, v => (vCond S inl v c).bind fun v => (vStmts S inl ret inLoop b v).bind fun v => vElifs S inl ret inLoop es v
def vElse (S : (Name → Option PTy) → Sem PTy) (inl : Inline) (ret : PTy) (inLoop : Bool) : Else → (Name → Option PTy) → Option (Name → Option PTy)
  | .none, v => some v
  | .some b, v => vStmts S inl ret inLoop b v
end

/-- `Function::Validate`, function.cc 33–52: the names of the arguments are distinct. -/
def vParams : List (Name × PTy) → (Name → Option PTy) → Option (Name → Option PTy)
  | [], v => some v
  | q :: ps, v => if (v q.1).isSome = true then none else vParams ps fun n => if n = q.1 then some q.2 else v n

/-- A compiled function: the code of its expressions, and its blocks, in which the expressions are numbered. -/
structure FnCode where
  table : List Site
  blocks : St

/-- The types of the arguments. `GetDtypeSymbols`: the integer types have the names of the number suffixes (C133). -/
def paramTypes : List (List Char × List Char) → Option (List (Name × PTy))
  | [] => some []
  | p :: ps => (suffixes.lookup p.1).bind fun t => (paramTypes ps).map fun r => (p.2, .int t) :: r

/-- `CompileFunction`: the source is parsed and validated, the arguments are stored in slots (`DefineFunction`), the statements are compiled. No scalar expression has blocks of its own. -/
def compileFn (cfg : Cfg) (inl : Inline) (src : List Char) : Option FnCode :=
  match parseFunction cfg src with
  | .ok f _ => (suffixes.lookup f.ret).bind fun ret => (paramTypes f.params).bind fun ps =>
    ((vParams ps fun _ => none).bind fun v => vStmts vSem inl (.int ret) false f.body v).bind fun _ =>
    (sitess inl ret f.body ⟨0, ps.length, paramVars 0 ps⟩).bind fun r => (genFunction (fun _ => false) (marks f.body 0).1).map fun st => ⟨r.1, st⟩
  | .fail => none
  | .fuel => none

/-- Running the code of an expression on the slots. -/
def runSite (table : List Site) (i : Nat) (slots : Nat → Int) : Option ((Nat → Int) × Int) :=
  (table[i]?).bind fun s => (run ints s.1 ⟨[], slots, ()⟩).bind fun rs => (rs.opd s.2).map fun v => (rs.slots, v)

/-- The blocks run the code of the expression with the number. -/
def machine (table : List Site) : Lang (Nat → Int) Int where
  eval e slots := match e with
    | .un none (.num t) => runSite table t.length slots
    | _ => none
  truth v := decide (v ≠ 0)

/-- A call returns `z`: the exit block is reached, with `z` in the return slot. The arguments are in the first slots, the others hold anything. -/
def Returns (c : FnCode) (junk : Nat → Int) (args : List Int) (z : Int) : Prop :=
  ∃ slots, Halts (machine c.table) c.blocks (fun i => args.getD i (junk i)) (slots, some z)

/-- A call is undefined: a trap, control leaves the generated code, or the exit block is reached while nothing is in the return slot. -/
def Undefined (c : FnCode) (junk : Nat → Int) (args : List Int) : Prop :=
  Traps (machine c.table) c.blocks (fun i => args.getD i (junk i)) ∨ Goes_wrong (machine c.table) c.blocks (fun i => args.getD i (junk i)) ∨
    ∃ slots, Halts (machine c.table) c.blocks (fun i => args.getD i (junk i)) (slots, none)

/-! ## Lemmas: numbered statements -/

mutual
theorem mark_ends (s : Stmt) (i : Nat) : Stmt.ends (mark s i).1 = Stmt.ends s := by
  match s with
  | .cont => rfl
  | .brk => rfl
  | .ret => rfl
  | .retVal _ => rfl
  | .expr _ => rfl
  | .whileLoop _ _ => rfl
  | .ifElse _ b es el => simp only [mark, Stmt.ends, marks_ends b, markElifs_ends es, markElse_ends el]
theorem marks_ends (ss : Stmts) (i : Nat) : Stmts.ends (marks ss i).1 = Stmts.ends ss := by
  match ss with
  | .nil => rfl
  | .cons s .nil => simp only [marks, Stmts.ends, mark_ends s]
  | .cons s (.cons t ts) =>
    have h := marks_ends (.cons t ts) (mark s i).2
    simp only [marks, Stmts.ends] at h ⊢
    exact h
theorem markElifs_ends (es : Elifs) (i : Nat) : Elifs.ends (markElifs es i).1 = Elifs.ends es := by
  match es with
  | .nil => rfl
  | .cons _ b es => simp only [markElifs, Elifs.ends, marks_ends b, markElifs_ends es]
theorem markElse_ends (el : Else) (i : Nat) : Else.ends (markElse el i).1 = Else.ends el := by
  match el with
  | .none => rfl
  | .some b => simp only [markElse, Else.ends, marks_ends b]
end

theorem mark_flat (s : Stmt) (i : Nat) : Stmt.flat (fun _ => false) (mark s i).1 = Stmt.flat (fun _ => false) s := by cases s <;> rfl
theorem marks_flat (ss : Stmts) : ∀ i, Stmts.flat (fun _ => false) (marks ss i).1 = Stmts.flat (fun _ => false) ss := by
  match ss with
  | .nil => intro i; rfl
  | .cons s ss => intro i; simp only [marks, Stmts.flat, mark_flat, marks_flat ss]

theorem marks_starts (ss : Stmts) (i : Nat) : Stmts.startsWhile (marks ss i).1 = Stmts.startsWhile ss := by
  match ss with
  | .nil => rfl
  | .cons s ss => cases s <;> rfl

mutual
theorem mark_clean (s : Stmt) (i : Nat) : Stmt.Clean (fun _ => false) (mark s i).1 ↔ Stmt.Clean (fun _ => false) s := by
  match s with
  | .cont => simp [mark, Stmt.Clean]
  | .brk => simp [mark, Stmt.Clean]
  | .ret => simp [mark, Stmt.Clean]
  | .retVal _ => simp [mark, Stmt.Clean]
  | .expr _ => simp [mark, Stmt.Clean]
  | .whileLoop _ b => simp only [mark, Stmt.Clean, marks_clean b]
  | .ifElse _ b es el => simp only [mark, Stmt.Clean, marks_clean b, markElifs_clean es, markElse_clean el]
theorem marks_clean (ss : Stmts) (i : Nat) : Stmts.Clean (fun _ => false) (marks ss i).1 ↔ Stmts.Clean (fun _ => false) ss := by
  match ss with
  | .nil => simp [marks]
  | .cons s ss => simp only [marks, Stmts.Clean, mark_clean s, marks_clean ss, mark_ends, marks_starts]
theorem markElifs_clean (es : Elifs) (i : Nat) : Elifs.Clean (fun _ => false) (markElifs es i).1 ↔ Elifs.Clean (fun _ => false) es := by
  match es with
  | .nil => simp [markElifs]
  | .cons _ b es => simp only [markElifs, Elifs.Clean, marks_clean b, marks_flat, marks_ends, markElifs_clean es]
theorem markElse_clean (el : Else) (i : Nat) : Else.Clean (fun _ => false) (markElse el i).1 ↔ Else.Clean (fun _ => false) el := by
  match el with
  | .none => simp [markElse]
  | .some b => simp only [markElse, Else.Clean, marks_clean b, marks_flat, marks_ends]
end

mutual
theorem mark_jumps (s : Stmt) (l : Bool) (i : Nat) : Validate.Stmt.jumpsOk l (mark s i).1 ↔ Validate.Stmt.jumpsOk l s := by
  match s with
  | .cont => simp [mark, Validate.Stmt.jumpsOk]
  | .brk => simp [mark, Validate.Stmt.jumpsOk]
  | .ret => simp [mark, Validate.Stmt.jumpsOk]
  | .retVal _ => simp [mark, Validate.Stmt.jumpsOk]
  | .expr _ => simp [mark, Validate.Stmt.jumpsOk]
  | .whileLoop _ b => simp only [mark, Validate.Stmt.jumpsOk, marks_jumps b]
  | .ifElse _ b es el => simp only [mark, Validate.Stmt.jumpsOk, marks_jumps b, markElifs_jumps es, markElse_jumps el]
theorem marks_jumps (ss : Stmts) (l : Bool) (i : Nat) : Validate.Stmts.jumpsOk l (marks ss i).1 ↔ Validate.Stmts.jumpsOk l ss := by
  match ss with
  | .nil => simp [marks]
  | .cons s ss => simp only [marks, Validate.Stmts.jumpsOk, mark_jumps s, marks_jumps ss]
theorem markElifs_jumps (es : Elifs) (l : Bool) (i : Nat) : Validate.Elifs.jumpsOk l (markElifs es i).1 ↔ Validate.Elifs.jumpsOk l es := by
  match es with
  | .nil => simp [markElifs]
  | .cons _ b es => simp only [markElifs, Validate.Elifs.jumpsOk, marks_jumps b, markElifs_jumps es]
theorem markElse_jumps (el : Else) (l : Bool) (i : Nat) : Validate.Else.jumpsOk l (markElse el i).1 ↔ Validate.Else.jumpsOk l el := by
  match el with
  | .none => simp [markElse]
  | .some b => simp only [markElse, Validate.Else.jumpsOk, marks_jumps b]
end

/-! ## Lemmas: statements that are read as commands -/

mutual
theorem is_ends (c : Cmd) (s : Stmt) (h : c.Is s) : Stmt.ends s = c.ends := by
  match c with
  | .define _ _ | .assign _ _ | .update _ _ _ | .ret _ | .brk | .cont | .loop _ _ => cases h <;> rfl
  | .branch _ b rest => cases h with | branch _ h1 h2 => rw [Stmt.ends, Cmd.ends, is_endss b _ h1, Bool.and_assoc, is_endsR rest _ _ h2]
theorem is_endss (c : Cmds) (s : Stmts) (h : c.Is s) : Stmts.ends s = c.ends := by
  match c with
  | .nil => cases h; rfl
  | .cons c .nil => cases h with | cons h1 h2 => cases h2; rw [Stmts.ends, Cmds.ends]; exact is_ends c _ h1
  | .cons c (.cons d ds) => cases h with | cons h1 h2 => cases h2 with | cons h3 h4 => rw [Stmts.ends, Cmds.ends]; exact is_endss (.cons d ds) _ (.cons h3 h4)
theorem is_endsR (c : Rest) (es : Elifs) (el : Else) (h : c.Is es el) : (Elifs.ends es && Else.ends el) = c.ends := by
  match c with
  | .none => cases h; rfl
  | .els b => cases h with | els h1 => rw [Rest.ends, ← is_endss b _ h1]; rfl
  | .elif _ b rest => cases h with | elif _ h1 h2 => rw [Rest.ends, Elifs.ends, is_endss b _ h1, Bool.and_assoc, is_endsR rest _ _ h2]
end

theorem is_flat (c : Cmds) (s : Stmts) (h : c.Is s) : Stmts.flat (fun _ => false) s = c.flat := by
  match c with
  | .nil => cases h; rfl
  | .cons c cs =>
    cases h with
    | cons h1 h2 =>
      rw [Stmts.flat, Cmds.flat, is_flat cs _ h2]
      congr 1
      cases h1 <;> rfl

theorem is_starts (c : Cmds) (s : Stmts) (h : c.Is s) : Stmts.startsWhile s = c.startsLoop := by
  cases h with
  | nil => rfl
  | cons h1 h2 => cases h1 <;> rfl

mutual
theorem is_clean (c : Cmd) (s : Stmt) (h : c.Is s) (hc : c.Clean) : Stmt.Clean (fun _ => false) s := by
  match c with
  | .define _ _ | .assign _ _ | .update _ _ _ | .ret _ | .brk | .cont => cases h <;> simp [Stmt.Clean]
  | .loop _ b => cases h with | loop _ h1 => rw [Cmd.Clean] at hc; rw [Stmt.Clean]; exact is_cleans b _ h1 hc
  | .branch _ b rest => cases h with | branch _ h1 h2 => rw [Cmd.Clean] at hc; rw [Stmt.Clean]; exact ⟨is_cleans b _ h1 hc.1, is_cleanR rest _ _ h2 hc.2⟩
theorem is_cleans (c : Cmds) (s : Stmts) (h : c.Is s) (hc : c.Clean) : Stmts.Clean (fun _ => false) s := by
  match c with
  | .nil => cases h; simp [Stmts.Clean]
  | .cons c cs => cases h with | cons h1 h2 => rw [Cmds.Clean] at hc; rw [Stmts.Clean, is_ends c _ h1, is_starts cs _ h2]; exact ⟨is_clean c _ h1 hc.1, is_cleans cs _ h2 hc.2.1, hc.2.2⟩
theorem is_cleanR (c : Rest) (es : Elifs) (el : Else) (h : c.Is es el) (hc : c.Clean) : Elifs.Clean (fun _ => false) es ∧ Else.Clean (fun _ => false) el := by
  match c with
  | .none => cases h; simp [Elifs.Clean, Else.Clean]
  | .els b => cases h with | els h1 => rw [Rest.Clean] at hc; rw [Elifs.Clean, Else.Clean, is_flat b _ h1, is_endss b _ h1]; exact ⟨trivial, is_cleans b _ h1 hc.1, hc.2⟩
  | .elif _ b rest =>
    cases h with
    | elif _ h1 h2 =>
      rw [Rest.Clean] at hc
      have h3 := is_cleanR rest _ _ h2 hc.2.2
      rw [Elifs.Clean, is_flat b _ h1, is_endss b _ h1]
      exact ⟨⟨is_cleans b _ h1 hc.1, hc.2.1, h3.1⟩, h3.2⟩
end

mutual
theorem is_jumps (c : Cmd) (s : Stmt) (h : c.Is s) (l : Bool) (Γ : Types) (hc : c.Ok l Γ) : Validate.Stmt.jumpsOk l s := by
  match c with
  | .define _ _ | .assign _ _ | .update _ _ _ | .ret _ => cases h <;> simp [Validate.Stmt.jumpsOk]
  | .brk | .cont => cases h; rw [Cmd.Ok] at hc; simp [Validate.Stmt.jumpsOk, hc]
  | .loop _ b => cases h with | loop _ h1 => rw [Cmd.Ok] at hc; rw [Validate.Stmt.jumpsOk]; exact is_jumpss b _ h1 true Γ hc.2
  | .branch _ b rest => cases h with | branch _ h1 h2 => rw [Cmd.Ok] at hc; rw [Validate.Stmt.jumpsOk]; exact ⟨is_jumpss b _ h1 l Γ hc.2.1, is_jumpsR rest _ _ h2 l Γ hc.2.2⟩
theorem is_jumpss (c : Cmds) (s : Stmts) (h : c.Is s) (l : Bool) (Γ : Types) (hc : c.Ok l Γ) : Validate.Stmts.jumpsOk l s := by
  match c with
  | .nil => cases h; simp [Validate.Stmts.jumpsOk]
  | .cons c cs => cases h with | cons h1 h2 => rw [Cmds.Ok] at hc; rw [Validate.Stmts.jumpsOk]; exact ⟨is_jumps c _ h1 l Γ hc.1, is_jumpss cs _ h2 l _ hc.2⟩
theorem is_jumpsR (c : Rest) (es : Elifs) (el : Else) (h : c.Is es el) (l : Bool) (Γ : Types) (hc : c.Ok l Γ) : Validate.Elifs.jumpsOk l es ∧ Validate.Else.jumpsOk l el := by
  match c with
  | .none => cases h; simp [Validate.Elifs.jumpsOk, Validate.Else.jumpsOk]
  | .els b => cases h with | els h1 => rw [Rest.Ok] at hc; rw [Validate.Elifs.jumpsOk, Validate.Else.jumpsOk]; exact ⟨trivial, is_jumpss b _ h1 l Γ hc⟩
  | .elif _ b rest =>
    cases h with
    | elif _ h1 h2 =>
      rw [Rest.Ok] at hc
      have h3 := is_jumpsR rest _ _ h2 l Γ hc.2.2
      rw [Validate.Elifs.jumpsOk]
      exact ⟨⟨is_jumpss b _ h1 l Γ hc.2.1, h3.1⟩, h3.2⟩
end

end Verif.Comp.Function
