import Verif.Comp.FunctionProps
/-!
# From the text of several functions that call each other to their results: C143

The way of `Verif.Comp.Function` for whole scripts: several functions in one text, which call themselves, functions written before them, and registered functions, put together as
`JitCompiler::CompileSource` does: `/repo/rapidudf/compiler/compiler.cc` 127–145 and 159–190; `CallFunction`, `DefineFunction`, `Return`: `/repo/rapidudf/compiler/codegen.cc` 383–414,
462–478, 625–714; `CheckFuncExist`: `/repo/rapidudf/ast/context.cc` 142–181.

Expressions are those of `Verif.Comp.Pipeline` together with boolean variables and calls. Registered functions have integer and boolean arguments and results and no effects.
-/
namespace Verif.Comp.Script
open Verif.Ast Verif.Ast.Rpn Verif.Gen Verif.Gen.Scalar Verif.Types.Conv Verif.Comp.Pipeline Verif.Comp.Function

/-! ## Specification: types, values, expressions -/

inductive Ty where
  | bool
  | int (t : IntTy)
  deriving DecidableEq

inductive Val where
  | bool (b : Bool)
  | int (z : Int)
  deriving DecidableEq

/-- The values of a type. -/
def Val.Has : Val → Ty → Prop
  | .bool _, .bool => True
  | .int z, .int t => IntOps.Fits t z
  | _, _ => False

/-- A value converted to a type: integers are converted to integers modulo two to the width, booleans stay. -/
def conv : Ty → Val → Option Val
  | .bool, .bool b => some (.bool b)
  | .int t, .int z => some (.int (Pipeline.wrap t z))
  | _, _ => none

/-- A value of the second type can be converted to the first one. -/
def converts : Ty → Ty → Bool
  | .bool, .bool => true
  | .int _, .int _ => true
  | _, _ => false

def convs : List Ty → List Val → Option (List Val)
  | [], [] => some []
  | t :: ts, v :: vs => (conv t v).bind fun x => (convs ts vs).map (x :: ·)
  | _, _ => none

def convertsAll : List Ty → List Ty → Bool
  | [], [] => true
  | t :: ts, u :: us => converts t u && convertsAll ts us
  | _, _ => false

mutual
/-- Expressions: literals with or without a type suffix, booleans, variables, `-a`, `!a`, arithmetic, comparisons, `&&`, `||`, `c ? a : b`, calls. -/
inductive Ex where
  | lit (digits : List Char) (suffix : Option IntTy)
  | const (b : Bool)
  | var (x : Name)
  | neg (a : Ex)
  | not (a : Ex)
  | arith (o : Arith) (a b : Ex)
  | rel (o : Rel) (a b : Ex)
  | and (a b : Ex)
  | or (a b : Ex)
  | pick (c a b : Ex)
  | call (f : Name) (as : Exs)
inductive Exs where
  | nil
  | cons (e : Ex) (es : Exs)
end

/-- Types of variables. -/
abbrev Types := Name → Option Ty
/-- Values of variables. -/
abbrev Store := Name → Val
/-- The types of the arguments and of the result of every function. -/
abbrev Sigs := Name → Option (List Ty × Ty)
/-- What every function returns, if it returns. -/
abbrev Calls := Name → List Val → Option Val

def tNeg : Option Ty → Option Ty
  | some (.int t) => if t.signed = true then some (.int t) else none
  | _ => none
def tNot : Option Ty → Option Ty
  | some .bool => some .bool
  | _ => none
def tArith : Option Ty → Option Ty → Option Ty
  | some (.int s), some (.int t) => some (.int (wider s t))
  | _, _ => none
def tRel : Option Ty → Option Ty → Option Ty
  | some (.int _), some (.int _) => some .bool
  | _, _ => none
def tLogic : Option Ty → Option Ty → Option Ty
  | some .bool, some .bool => some .bool
  | _, _ => none
def tPick : Option Ty → Option Ty → Option Ty → Option Ty
  | some .bool, some (.int s), some (.int t) => some (.int (wider s t))
  | some .bool, some .bool, some .bool => some .bool
  | _, _, _ => none
def tCall : Option (List Ty × Ty) → Option (List Ty) → Option Ty
  | some s, some ts => if convertsAll s.1 ts = true then some s.2 else none
  | _, _ => none

mutual
/-- The type of an expression: a literal without suffix has 32 bits if it fits, otherwise 64; only signed numbers can be negated; two integers meet in the wider type; the arguments of a
call are converted to the types of the parameters. -/
def Ex.type (σ : Sigs) (Γ : Types) : Ex → Option Ty
  | .lit _ (some t) => some (.int t)
  | .lit ds none => some (.int (if decimal ds ≤ 2147483647 then .i32 else .i64))
  | .const _ => some .bool
  | .var x => Γ x
  | .neg a => tNeg (a.type σ Γ)
  | .not a => tNot (a.type σ Γ)
  | .arith _ a b => tArith (a.type σ Γ) (b.type σ Γ)
  | .rel _ a b => tRel (a.type σ Γ) (b.type σ Γ)
  | .and a b => tLogic (a.type σ Γ) (b.type σ Γ)
  | .or a b => tLogic (a.type σ Γ) (b.type σ Γ)
  | .pick c a b => tPick (c.type σ Γ) (a.type σ Γ) (b.type σ Γ)
  | .call f as => tCall (σ f) (as.types σ Γ)
def Exs.types (σ : Sigs) (Γ : Types) : Exs → Option (List Ty)
  | .nil => some []
  | .cons e es => (e.type σ Γ).bind fun t => (es.types σ Γ).map (t :: ·)
end

def vNeg : Option Ty → Option Val → Option Val
  | some (.int t), some (.int x) => some (.int (Pipeline.wrap t (-x)))
  | _, _ => none
def vNot : Option Val → Option Val
  | some (.bool b) => some (.bool !b)
  | _ => none
def vArith (o : Arith) : Option Ty → Option Val → Option Val → Option Val
  | some (.int t), some (.int x), some (.int y) => (o.calc t (Pipeline.wrap t x) (Pipeline.wrap t y)).map .int
  | _, _, _ => none
def vRel (o : Rel) : Option Ty → Option Val → Option Val → Option Val
  | some (.int t), some (.int x), some (.int y) => some (.bool (o.holds (Pipeline.wrap t x) (Pipeline.wrap t y)))
  | _, _, _ => none
def vAnd : Option Val → Option Val → Option Val
  | some (.bool true), v => v
  | some (.bool false), _ => some (.bool false)
  | _, _ => none
def vOr : Option Val → Option Val → Option Val
  | some (.bool true), _ => some (.bool true)
  | some (.bool false), v => v
  | _, _ => none
def vPick : Option Ty → Option Val → Option Val → Option Val → Option Val
  | some t, some (.bool true), v, _ => v.bind (conv t)
  | some t, some (.bool false), _, w => w.bind (conv t)
  | _, _, _, _ => none

mutual
/-- The value of an expression; none if an operation in it is undefined or a called function does not return. The second operand of `&&` and `||` and the operands of `? :` count only if
they are needed. -/
def Ex.value (σ : Sigs) (κ : Calls) (Γ : Types) (ρ : Store) : Ex → Option Val
  | .lit ds s => (Ex.type σ Γ (.lit ds s)).bind fun t => conv t (.int (decimal ds))
  | .const b => some (.bool b)
  | .var x => some (ρ x)
  | .neg a => vNeg (a.type σ Γ) (a.value σ κ Γ ρ)
  | .not a => vNot (a.value σ κ Γ ρ)
  | .arith o a b => vArith o (tArith (a.type σ Γ) (b.type σ Γ)) (a.value σ κ Γ ρ) (b.value σ κ Γ ρ)
  | .rel o a b => vRel o (tArith (a.type σ Γ) (b.type σ Γ)) (a.value σ κ Γ ρ) (b.value σ κ Γ ρ)
  | .and a b => vAnd (a.value σ κ Γ ρ) (b.value σ κ Γ ρ)
  | .or a b => vOr (a.value σ κ Γ ρ) (b.value σ κ Γ ρ)
  | .pick c a b => vPick (tPick (c.type σ Γ) (a.type σ Γ) (b.type σ Γ)) (c.value σ κ Γ ρ) (a.value σ κ Γ ρ) (b.value σ κ Γ ρ)
  | .call f as => (σ f).bind fun s => (as.values σ κ Γ ρ).bind fun vs => (convs s.1 vs).bind (κ f)
def Exs.values (σ : Sigs) (κ : Calls) (Γ : Types) (ρ : Store) : Exs → Option (List Val)
  | .nil => some []
  | .cons e es => (e.value σ κ Γ ρ).bind fun v => (es.values σ κ Γ ρ).map (v :: ·)
end

/-- A literal from 1 to 127. -/
def Ex.SmallDivisor : Ex → Prop
  | .lit ds _ => 1 ≤ decimal ds ∧ decimal ds ≤ 127
  | _ => False

/-- Expressions that are always defined: without calls, and with division by small literals only. -/
def Ex.Safe : Ex → Prop
  | .lit _ _ => True
  | .const _ => True
  | .var _ => True
  | .neg a => a.Safe
  | .not a => a.Safe
  | .arith o a b => a.Safe ∧ b.Safe ∧ (o = .div ∨ o = .mod → b.SmallDivisor)
  | .rel _ a b => a.Safe ∧ b.Safe
  | .and a b => a.Safe ∧ b.Safe
  | .or a b => a.Safe ∧ b.Safe
  | .pick c a b => c.Safe ∧ a.Safe ∧ b.Safe
  | .call _ _ => False

mutual
/-- The operands that may not be needed are safe: the compiled code evaluates them anyway (C38). -/
def Ex.Guarded : Ex → Prop
  | .lit _ _ => True
  | .const _ => True
  | .var _ => True
  | .neg a => a.Guarded
  | .not a => a.Guarded
  | .arith _ a b => a.Guarded ∧ b.Guarded
  | .rel _ a b => a.Guarded ∧ b.Guarded
  | .and a b => a.Guarded ∧ b.Safe
  | .or a b => a.Guarded ∧ b.Safe
  | .pick c a b => c.Guarded ∧ a.Safe ∧ b.Safe
  | .call _ as => as.Guarded
def Exs.Guarded : Exs → Prop
  | .nil => True
  | .cons e es => e.Guarded ∧ es.Guarded
end

mutual
/-- Literals are digits and less than 2^53 (C12). -/
def Ex.Lits : Ex → Prop
  | .lit ds _ => ds ≠ [] ∧ (∀ c ∈ ds, isDigit c = true) ∧ decimal ds < 2 ^ 53
  | .const _ => True
  | .var _ => True
  | .neg a => a.Lits
  | .not a => a.Lits
  | .arith _ a b => a.Lits ∧ b.Lits
  | .rel _ a b => a.Lits ∧ b.Lits
  | .and a b => a.Lits ∧ b.Lits
  | .or a b => a.Lits ∧ b.Lits
  | .pick c a b => c.Lits ∧ a.Lits ∧ b.Lits
  | .call _ as => as.Lits
def Exs.Lits : Exs → Prop
  | .nil => True
  | .cons e es => e.Lits ∧ es.Lits
end

mutual
/-- The called functions are among the given ones. -/
def Ex.Uses (P : Name → Prop) : Ex → Prop
  | .lit _ _ => True
  | .const _ => True
  | .var _ => True
  | .neg a => a.Uses P
  | .not a => a.Uses P
  | .arith _ a b => a.Uses P ∧ b.Uses P
  | .rel _ a b => a.Uses P ∧ b.Uses P
  | .and a b => a.Uses P ∧ b.Uses P
  | .or a b => a.Uses P ∧ b.Uses P
  | .pick c a b => c.Uses P ∧ a.Uses P ∧ b.Uses P
  | .call f as => P f ∧ as.Uses P
def Exs.Uses (P : Name → Prop) : Exs → Prop
  | .nil => True
  | .cons e es => e.Uses P ∧ es.Uses P
end

mutual
/-- The tree is read as the expression: parentheses do not matter. -/
def Ex.Is : Ex → Tree → Prop
  | .lit ds s, t => t = .atom (.num (litText ds s))
  | .const b, t => t = .atom (.bool b)
  | .var x, t => t = .atom (.var x)
  | .neg a, t => ∃ u, t = .un .neg u ∧ a.Is u
  | .not a, t => ∃ u, t = .un .not u ∧ a.Is u
  | .arith o a b, t => ∃ u v, t = .bin u o.sign v ∧ a.Is u ∧ b.Is v
  | .rel o a b, t => ∃ u v, t = .bin u o.sign v ∧ a.Is u ∧ b.Is v
  | .and a b, t => ∃ u v, t = .bin u .and v ∧ a.Is u ∧ b.Is v
  | .or a b, t => ∃ u v, t = .bin u .or v ∧ a.Is u ∧ b.Is v
  | .pick c a b, t => ∃ w u v, t = .sel w u v ∧ c.Is w ∧ a.Is u ∧ b.Is v
  | .call f as, t => ∃ es, t = .atom (.call f es) ∧ as.Are es
def Exs.Are : Exs → Exprs → Prop
  | .nil, es => es = .nil
  | .cons a as, es => ∃ e es', es = .cons e es' ∧ a.Is e.toTree ∧ as.Are es'
end

/-- The branches of every `? :` that determines the type have equal types. (Otherwise validation takes the type of the second branch for the type of the whole, C142.) -/
def Ex.Even (σ : Sigs) (Γ : Types) : Ex → Prop
  | .neg a => a.Even σ Γ
  | .arith _ a b => a.Even σ Γ ∧ b.Even σ Γ
  | .pick _ a b => a.Even σ Γ ∧ b.Even σ Γ ∧ a.type σ Γ = b.type σ Γ
  | _ => True

mutual
/-- No choice between numbers of different types is negated. -/
def Ex.Level (σ : Sigs) (Γ : Types) : Ex → Prop
  | .lit _ _ => True
  | .const _ => True
  | .var _ => True
  | .neg a => a.Level σ Γ ∧ a.Even σ Γ
  | .not a => a.Level σ Γ
  | .arith _ a b => a.Level σ Γ ∧ b.Level σ Γ
  | .rel _ a b => a.Level σ Γ ∧ b.Level σ Γ
  | .and a b => a.Level σ Γ ∧ b.Level σ Γ
  | .or a b => a.Level σ Γ ∧ b.Level σ Γ
  | .pick c a b => c.Level σ Γ ∧ a.Level σ Γ ∧ b.Level σ Γ
  | .call _ as => as.Level σ Γ
def Exs.Level (σ : Sigs) (Γ : Types) : Exs → Prop
  | .nil => True
  | .cons e es => e.Level σ Γ ∧ es.Level σ Γ
end

/-! ## Specification: statements -/

mutual
/-- Statements: `var x = e;`, `x = e;`, `x op= e;`, `e;`, `return e;`, `break;`, `continue;`, `while (c) { b }`, `if (c) { b } rest`. -/
inductive Cmd where
  | define (x : Name) (e : Ex)
  | assign (x : Name) (e : Ex)
  | update (o : Arith) (x : Name) (e : Ex)
  | eval (e : Ex)
  | ret (e : Ex)
  | brk
  | cont
  | loop (c : Ex) (b : Cmds)
  | branch (c : Ex) (b : Cmds) (rest : Rest)
inductive Cmds where
  | nil
  | cons (s : Cmd) (ss : Cmds)
/-- What follows an `if`: nothing, `else { b }`, `elif (c) { b } rest`. -/
inductive Rest where
  | none
  | els (b : Cmds)
  | elif (c : Ex) (b : Cmds) (rest : Rest)
end

def Types.set (Γ : Types) (x : Name) (t : Option Ty) : Types := fun n => if n = x then t else Γ n
def Store.set (ρ : Store) (x : Name) (z : Val) : Store := fun n => if n = x then z else ρ n

/-- The variables after a statement: a definition is visible up to the end of its block. -/
def Cmd.after (σ : Sigs) (Γ : Types) : Cmd → Types
  | .define x e => Γ.set x (e.type σ Γ)
  | .assign _ _ => Γ
  | .update _ _ _ => Γ
  | .eval _ => Γ
  | .ret _ => Γ
  | .brk => Γ
  | .cont => Γ
  | .loop _ _ => Γ
  | .branch _ _ _ => Γ

/-- How statements end: normally, by `break`, `continue` or `return`, without a result (an undefined operation, a call that does not return), or not within the bound on the number of
iterations. -/
inductive End where
  | next (ρ : Store)
  | brk (ρ : Store)
  | cont (ρ : Store)
  | ret (v : Val)
  | stuck
  | more

/-- Go on after a normal end. -/
def End.andThen (x : End) (f : Store → End) : End := match x with
  | .next ρ => f ρ
  | .brk ρ => .brk ρ
  | .cont ρ => .cont ρ
  | .ret v => .ret v
  | .stuck => .stuck
  | .more => .more

/-- Go on with a value, if there is one. -/
def withVal (v : Option Val) (f : Val → End) : End := match v with
  | none => .stuck
  | some z => f z

/-- One or the other, by a condition. -/
def choose (v : Option Val) (f g : End) : End := match v with
  | some (.bool true) => f
  | some (.bool false) => g
  | _ => .stuck

/-- After the body of a loop: `loop` again, or on after the loop. -/
def End.again (x : End) (loop : Store → End) : End := match x with
  | .next ρ => loop ρ
  | .cont ρ => loop ρ
  | .brk ρ => .next ρ
  | .ret v => .ret v
  | .stuck => .stuck
  | .more => .more

/-- Test and body, at most `n` times. -/
def repeated (test : Store → Option Val) (body : Store → End) : Nat → Store → End
  | 0, _ => .more
  | n + 1, ρ => choose (test ρ) ((body ρ).again (repeated test body n)) (.next ρ)

mutual
/-- What a statement does to the variables, with at most `n` iterations of every loop. -/
def Cmd.exec (σ : Sigs) (κ : Calls) (n : Nat) (Γ : Types) (ρ : Store) : Cmd → End
  | .define x e => withVal (e.value σ κ Γ ρ) fun z => .next (ρ.set x z)
  | .assign x e => withVal (e.value σ κ Γ ρ) fun z => .next (ρ.set x z)
  | .update o x e => withVal ((Ex.arith o (.var x) e).value σ κ Γ ρ) fun z => .next (ρ.set x z)
  | .eval e => withVal (e.value σ κ Γ ρ) fun _ => .next ρ
  | .ret e => withVal (e.value σ κ Γ ρ) .ret
  | .brk => .brk ρ
  | .cont => .cont ρ
  | .loop c b => repeated (fun ρ => c.value σ κ Γ ρ) (fun ρ => b.exec σ κ n Γ ρ) n ρ
  | .branch c b rest => choose (c.value σ κ Γ ρ) (b.exec σ κ n Γ ρ) (rest.exec σ κ n Γ ρ)
def Cmds.exec (σ : Sigs) (κ : Calls) (n : Nat) (Γ : Types) (ρ : Store) : Cmds → End
  | .nil => .next ρ
  | .cons s ss => (s.exec σ κ n Γ ρ).andThen fun ρ => ss.exec σ κ n (s.after σ Γ) ρ
def Rest.exec (σ : Sigs) (κ : Calls) (n : Nat) (Γ : Types) (ρ : Store) : Rest → End
  | .none => .next ρ
  | .els b => b.exec σ κ n Γ ρ
  | .elif c b rest => choose (c.value σ κ Γ ρ) (b.exec σ κ n Γ ρ) (rest.exec σ κ n Γ ρ)
end

/-- An expression that has a type, small literals and safe conditional operands, and negates no choice between numbers of different types. -/
structure ExOk (σ : Sigs) (Γ : Types) (e : Ex) : Prop where
  typed : (e.type σ Γ).isSome
  lits : e.Lits
  guarded : e.Guarded
  level : e.Level σ Γ

/-- A variable alone. -/
def Ex.isVar : Ex → Bool
  | .var _ => true
  | _ => false

mutual
/-- Well typed: variables are used in their scope; the type of a variable is that of its first value, and later values have that type (for `x op= e`: a type that is not wider); a variable
is not defined by another variable alone (C37), nor by a choice between numbers of different types (C142); conditions are boolean; the value of `return` can be converted to the type of the function; `break` and `continue` are in loops. -/
def Cmd.Ok (σ : Sigs) (ret : Ty) (inLoop : Bool) (Γ : Types) : Cmd → Prop
  | .define _ e => ExOk σ Γ e ∧ e.isVar = false ∧ e.Even σ Γ
  | .assign x e => ExOk σ Γ e ∧ Γ x = e.type σ Γ
  | .update o x e => ExOk σ Γ (.arith o (.var x) e) ∧ Γ x = (Ex.arith o (.var x) e).type σ Γ
  | .eval e => ExOk σ Γ e
  | .ret e => ExOk σ Γ e ∧ ∃ t, e.type σ Γ = some t ∧ converts ret t = true
  | .brk => inLoop = true
  | .cont => inLoop = true
  | .loop c b => (ExOk σ Γ c ∧ c.type σ Γ = some .bool) ∧ b.Ok σ ret true Γ
  | .branch c b rest => (ExOk σ Γ c ∧ c.type σ Γ = some .bool) ∧ b.Ok σ ret inLoop Γ ∧ rest.Ok σ ret inLoop Γ
def Cmds.Ok (σ : Sigs) (ret : Ty) (inLoop : Bool) (Γ : Types) : Cmds → Prop
  | .nil => True
  | .cons s ss => s.Ok σ ret inLoop Γ ∧ ss.Ok σ ret inLoop (s.after σ Γ)
def Rest.Ok (σ : Sigs) (ret : Ty) (inLoop : Bool) (Γ : Types) : Rest → Prop
  | .none => True
  | .els b => b.Ok σ ret inLoop Γ
  | .elif c b rest => (ExOk σ Γ c ∧ c.type σ Γ = some .bool) ∧ b.Ok σ ret inLoop Γ ∧ rest.Ok σ ret inLoop Γ
end

mutual
/-- The called functions are among the given ones. -/
def Cmd.Uses (P : Name → Prop) : Cmd → Prop
  | .define _ e => e.Uses P
  | .assign _ e => e.Uses P
  | .update _ _ e => e.Uses P
  | .eval e => e.Uses P
  | .ret e => e.Uses P
  | .brk => True
  | .cont => True
  | .loop c b => c.Uses P ∧ b.Uses P
  | .branch c b rest => c.Uses P ∧ b.Uses P ∧ rest.Uses P
def Cmds.Uses (P : Name → Prop) : Cmds → Prop
  | .nil => True
  | .cons s ss => s.Uses P ∧ ss.Uses P
def Rest.Uses (P : Name → Prop) : Rest → Prop
  | .none => True
  | .els b => b.Uses P
  | .elif c b rest => c.Uses P ∧ b.Uses P ∧ rest.Uses P
end

mutual
/-- The names that are defined. -/
def Cmd.defs : Cmd → List Name
  | .define x _ => [x]
  | .assign _ _ => []
  | .update _ _ _ => []
  | .eval _ => []
  | .ret _ => []
  | .brk => []
  | .cont => []
  | .loop _ b => b.defs
  | .branch _ b rest => b.defs ++ rest.defs
def Cmds.defs : Cmds → List Name
  | .nil => []
  | .cons s ss => s.defs ++ ss.defs
def Rest.defs : Rest → List Name
  | .none => []
  | .els b => b.defs
  | .elif _ b rest => b.defs ++ rest.defs
end

mutual
/-- The statement is read as this one. -/
inductive Cmd.Is : Cmd → Stmt → Prop
  | define {x : Name} {e : Ex} {s : Expr} : e.Is s.toTree → Cmd.Is (.define x e) (.expr (.bin (.un none (.define x)) .assign s))
  | assign {x : Name} {e : Ex} {s : Expr} : e.Is s.toTree → Cmd.Is (.assign x e) (.expr (.bin (.un none (.var x)) .assign s))
  | update {o : Arith} {x : Name} {e : Ex} {s : Expr} : e.Is s.toTree → Cmd.Is (.update o x e) (.expr (.bin (.un none (.var x)) (Arith.assignSign o) s))
  | eval {e : Ex} {s : Expr} : e.Is s.toTree → Cmd.Is (.eval e) (.expr s)
  | ret {e : Ex} {s : Expr} : e.Is s.toTree → Cmd.Is (.ret e) (.retVal s)
  | brk : Cmd.Is .brk .brk
  | cont : Cmd.Is .cont .cont
  | loop {c : Ex} {b : Cmds} {s : Expr} {ss : Stmts} : c.Is s.toTree → Cmds.Is b ss → Cmd.Is (.loop c b) (.whileLoop s ss)
  | branch {c : Ex} {b : Cmds} {rest : Rest} {s : Expr} {ss : Stmts} {es : Elifs} {el : Else} :
    c.Is s.toTree → Cmds.Is b ss → Rest.Is rest es el → Cmd.Is (.branch c b rest) (.ifElse s ss es el)
inductive Cmds.Is : Cmds → Stmts → Prop
  | nil : Cmds.Is .nil .nil
  | cons {c : Cmd} {cs : Cmds} {s : Stmt} {ss : Stmts} : Cmd.Is c s → Cmds.Is cs ss → Cmds.Is (.cons c cs) (.cons s ss)
inductive Rest.Is : Rest → Elifs → Else → Prop
  | none : Rest.Is .none .nil .none
  | els {b : Cmds} {ss : Stmts} : Cmds.Is b ss → Rest.Is (.els b) .nil (.some ss)
  | elif {c : Ex} {b : Cmds} {rest : Rest} {s : Expr} {ss : Stmts} {es : Elifs} {el : Else} :
    c.Is s.toTree → Cmds.Is b ss → Rest.Is rest es el → Rest.Is (.elif c b rest) (.cons s ss es) el
end

mutual
/-- Control does not reach the end. -/
def Cmd.ends : Cmd → Bool
  | .define _ _ => false
  | .assign _ _ => false
  | .update _ _ _ => false
  | .eval _ => false
  | .ret _ => true
  | .brk => true
  | .cont => true
  | .loop _ _ => false
  | .branch _ b rest => b.ends && rest.ends
def Cmds.ends : Cmds → Bool
  | .nil => false
  | .cons s .nil => s.ends
  | .cons _ (.cons s ss) => Cmds.ends (.cons s ss)
def Rest.ends : Rest → Bool
  | .none => false
  | .els b => b.ends
  | .elif _ b rest => b.ends && rest.ends
end

/-- Neither `if` nor `while`. -/
def Cmd.flat : Cmd → Bool
  | .loop _ _ => false
  | .branch _ _ _ => false
  | _ => true
def Cmds.flat : Cmds → Bool
  | .nil => true
  | .cons s ss => s.flat && ss.flat

/-- Nothing, or `while` first. -/
def Cmds.startsLoop : Cmds → Bool
  | .nil => true
  | .cons (.loop _ _) _ => true
  | _ => false

mutual
/-- The functions that are compiled to valid blocks (C36): nothing but a loop follows a statement that always jumps, and the bodies of `elif` and `else` contain no `if` or `while`, or
always jump. -/
def Cmd.Clean : Cmd → Prop
  | .loop _ b => b.Clean
  | .branch _ b rest => b.Clean ∧ rest.Clean
  | .define _ _ => True
  | .assign _ _ => True
  | .update _ _ _ => True
  | .eval _ => True
  | .ret _ => True
  | .brk => True
  | .cont => True
def Cmds.Clean : Cmds → Prop
  | .nil => True
  | .cons s ss => s.Clean ∧ ss.Clean ∧ (s.ends = true → ss.startsLoop = true)
def Rest.Clean : Rest → Prop
  | .none => True
  | .els b => b.Clean ∧ (b.flat = true ∨ b.ends = true)
  | .elif _ b rest => b.Clean ∧ (b.flat = true ∨ b.ends = true) ∧ rest.Clean
end

/-! ## Specification: scripts -/

/-- A function of a script. -/
structure Fn where
  name : Name
  ret : Ty
  params : List (Name × Ty)
  body : Cmds

/-- A registered function: it may be undefined on some arguments; its results have the type. -/
structure Ext where
  params : List Ty
  ret : Ty
  run : List Val → Option Val
  typed : ∀ args v, run args = some v → v.Has ret

/-- The registered functions. -/
abbrev Exts := Name → Option Ext

/-- Arguments that have the types of the parameters. -/
def HasAll : List Val → List Ty → Prop
  | [], [] => True
  | v :: vs, t :: ts => v.Has t ∧ HasAll vs ts
  | _, _ => False

def find (fs : List Fn) (f : Name) : Option Fn := fs.find? fun g => decide (g.name = f)

/-- The functions that can be called: those of the script and the registered ones. -/
def sigs (ext : Exts) (fs : List Fn) : Sigs := fun f => match find fs f with
  | some g => some (g.params.map (·.2), g.ret)
  | none => (ext f).map fun e => (e.params, e.ret)

/-- The types and the values of the parameters at the start of a call. -/
def startTypes (g : Fn) : Types := fun x => g.params.lookup x
def startStore (g : Fn) (args : List Val) : Store := fun x => (((g.params.map (·.1)).zip args).lookup x).getD (.bool false)

/-- The result of a body. -/
def result (ret : Ty) : End → Option Val
  | .ret v => conv ret v
  | _ => none

/-- What the functions return with at most `n` calls inside each other and at most `n` iterations of every loop. -/
def returned (ext : Exts) (fs : List Fn) : Nat → Calls
  | 0, f, args => match find fs f with
    | none => (ext f).bind fun e => e.run args
    | some _ => none
  | n + 1, f, args => match find fs f with
    | none => (ext f).bind fun e => e.run args
    | some g => result g.ret (g.body.exec (sigs ext fs) (returned ext fs n) n (startTypes g) (startStore g args))

/-- A function of a script is well formed: its statements are well typed, it calls itself, functions before it and registered functions, and its parameters and variables have different
names. -/
structure Fn.Ok (ext : Exts) (fs before : List Fn) (g : Fn) : Prop where
  body : g.body.Ok (sigs ext fs) g.ret false (startTypes g)
  clean : g.body.Clean
  uses : g.body.Uses fun f => f ∈ (before ++ [g]).map (·.name) ∨ (ext f).isSome
  names : (g.params.map (·.1) ++ g.body.defs).Nodup

/-- A script is well formed: its functions are, their names are different, and are neither names of registered functions nor of operators written like functions. -/
structure ScriptOk (inl : Inline) (ext : Exts) (fs : List Fn) : Prop where
  fns : ∀ before g after, fs = before ++ g :: after → g.Ok ext fs before
  names : (fs.map (·.name)).Nodup
  apart : ∀ g ∈ fs, ext g.name = none ∧ inl g.name = none
  exts : ∀ f, (ext f).isSome → inl f = none

/-- The name of a type. -/
def Ty.text : Ty → List Char
  | .bool => ['b', 'o', 'o', 'l']
  | .int t => suffixText t

/-- The functions read are those of the script. -/
def AreFuncs : List Fn → List Func → Prop
  | [], [] => True
  | g :: gs, h :: hs => (h.name = g.name ∧ h.ret = g.ret.text ∧ h.params = (g.params.map fun q => (q.2.text, q.1)) ∧ g.body.Is h.body) ∧ AreFuncs gs hs
  | _, _ => False

/-- A text is read as the script. -/
def ReadsScript (cfg : Cfg) (src : List Char) (fs : List Fn) : Prop := ∃ hs rest, parseFunctions cfg src = .ok hs rest ∧ AreFuncs fs hs

/-! ## Model -/

/-- `GetDtypeSymbols`, symbols.cc 150–160: the integer types and `bool`. -/
def typeNamed (t : List Char) : Option PTy := if t = ['b', 'o', 'o', 'l'] then some .bit else (suffixes.lookup t).map .int

/-- The types of the functions that code may call. -/
abbrev MSigs := Name → Option (List PTy × PTy)
/-- What a call of a function with machine values does. -/
abbrev MCalls := Name → List Int → Option Int

/-- Integers and booleans together with functions. -/
def rt (σ : MSigs) (K : MCalls) : Rt PTy Int Unit :=
  { ints with fn := fun n => (σ n).map fun s => (s.1, s.2, fun vs w => (K n vs).map fun v => (w, v)) }

/-- Generating code needs only the types of functions. -/
def gen (σ : MSigs) : Rt PTy Int Unit := rt σ fun _ _ => none

/-- `BuildIR(const ast::ExpressionStatement&)`, compiler_statements.cc 96–102: the value is not used. -/
def exprSite (σ : MSigs) (inl : Inline) (e : Expr) : CS PTy → Option (Site × CS PTy) := site (gExpr (gen σ) inl e) fun _ => .const 0

/-- `BuildIR(const ast::ReturnStatement&)`, compiler_statements.cc 32–43, and `Return`, codegen.cc 462–478. -/
def retSite (σ : MSigs) (inl : Inline) (ret : PTy) (e : Expr) : CS PTy → Option (Site × CS PTy) := site (((gExpr (gen σ) inl e).andThen ld).andThen (castTo (gen σ) ret)) id

/-- A condition: compiler_statements.cc 44–95. Validation requires a boolean (statement.cc 43–52). -/
def condSite (σ : MSigs) (inl : Inline) (e : Expr) : CS PTy → Option (Site × CS PTy) :=
  site (((gExpr (gen σ) inl e).andThen ld).andThen fun x => if x.1 = .bit then G.ret x.2 else G.fail) id

mutual
/-- The code of all expressions of a statement, in the order of the text (see `Verif.Comp.Function.sites`). -/
def sites (σ : MSigs) (inl : Inline) (ret : PTy) : Stmt → CS PTy → Option (List Site × CS PTy)
  | .cont, cs => some ([], cs)
  | .brk, cs => some ([], cs)
  | .ret, cs => some ([], cs)
  | .retVal e, cs => (retSite σ inl ret e cs).map fun r => ([r.1], r.2)
  | .expr e, cs => (exprSite σ inl e cs).map fun r => ([r.1], r.2)
  | .whileLoop c b, cs => (condSite σ inl c cs).bind fun r => (sitess σ inl ret b r.2).map fun q => (r.1 :: q.1, q.2)
  | .ifElse c b es el, cs => (condSite σ inl c cs).bind fun r => (sitess σ inl ret b r.2).bind fun q => (sitesElifs σ inl ret es q.2).bind fun q' =>
    (sitesElse σ inl ret el q'.2).map fun q'' => (r.1 :: (q.1 ++ (q'.1 ++ q''.1)), q''.2)
def sitess (σ : MSigs) (inl : Inline) (ret : PTy) : Stmts → CS PTy → Option (List Site × CS PTy)
  | .nil, cs => some ([], cs)
  | .cons s ss, cs => (sites σ inl ret s cs).bind fun r => (sitess σ inl ret ss r.2).map fun q => (r.1 ++ q.1, q.2)
def sitesElifs (σ : MSigs) (inl : Inline) (ret : PTy) : Elifs → CS PTy → Option (List Site × CS PTy)
  | .nil, cs => some ([], cs)
  | .cons c b es, cs => (condSite σ inl c cs).bind fun r => (sitess σ inl ret b r.2).bind fun q => (sitesElifs σ inl ret es q.2).map fun q' => (r.1 :: (q.1 ++ q'.1), q'.2)
def sitesElse (σ : MSigs) (inl : Inline) (ret : PTy) : Else → CS PTy → Option (List Site × CS PTy)
  | .none, cs => some ([], cs)
  | .some b, cs => sitess σ inl ret b cs
end

/-- The types of the parameters. -/
def typesNamed : List (List Char × List Char) → Option (List (Name × PTy))
  | [] => some []
  | p :: ps => (typeNamed p.1).bind fun t => (typesNamed ps).map fun r => (p.2, t) :: r

/-- A compiled function: its types, the code of its expressions and its blocks. -/
structure MFn where
  name : Name
  params : List PTy
  ret : PTy
  code : FnCode

/-- `FunctionDesc::ValidateArgs`, meta/function.cc 141–171: as many arguments as parameters, each of which can be converted. -/
def vCasts : List PTy → List PTy → Bool
  | [], [] => true
  | t :: ts, p :: ps => vCast t p && vCasts ts ps
  | _, _ => false

/-- The types validation works with, with calls: `CheckFuncExist`, context.cc 167–197, and `VarAccessor::Validate`, expression.cc 764–880. -/
def vSemC (σ : MSigs) (tenv : Name → Option PTy) : Sem PTy :=
  { vSem tenv with call := fun f ts => (σ f).bind fun s => if vCasts ts s.1 = true then some s.2 else none }

/-- `CompileFunction`: `DefineFunction` enters the function before its body is compiled, so that it can call itself. `known` are the functions before it. (The
code validates all functions before it generates code for any of them: a script is refused in the same cases.) -/
def compileFunc (inl : Inline) (known : MSigs) (f : Func) : Option MFn :=
  (typeNamed f.ret).bind fun ret => (typesNamed f.params).bind fun ps =>
    ((vParams ps fun _ => none).bind fun v => vStmts (vSemC fun n => if n = f.name then some (ps.map (·.2), ret) else known n) inl ret false f.body v).bind fun _ =>
    (sitess (fun n => if n = f.name then some (ps.map (·.2), ret) else known n) inl ret f.body ⟨0, ps.length, paramVars 0 ps⟩).bind fun r =>
      (genFunction (fun _ => false) (marks f.body 0).1).map fun st => ⟨f.name, ps.map (·.2), ret, ⟨r.1, st⟩⟩

/-- The functions one after another, compiler.cc 159–190. Two functions with the same name are refused (context.cc 94–104). -/
def compileFuncs (inl : Inline) : MSigs → List Func → Option (List MFn)
  | _, [] => some []
  | known, f :: fs => if fs.any (fun g => decide (g.name = f.name)) = true then none else (compileFunc inl known f).bind fun m =>
    (compileFuncs inl (fun n => if n = f.name then some (m.params, m.ret) else known n) fs).map (m :: ·)

/-- Types of the specification in the compiler. -/
def Ty.p : Ty → PTy
  | .bool => .bit
  | .int t => .int t

/-- A value as the machine holds it: booleans are 0 and 1. -/
def Val.enc : Val → Int
  | .bool b => bit b
  | .int z => z

/-- A machine value of a type. -/
def dec : Ty → Int → Val
  | .bool, z => .bool (decide (z ≠ 0))
  | .int _, z => .int z

def decs : List Ty → List Int → List Val
  | t :: ts, z :: zs => dec t z :: decs ts zs
  | _, _ => []

/-- The types of the registered functions (`DeclareExternFunctions`). -/
def extSigs (ext : Exts) : MSigs := fun f => (ext f).map fun e => (e.params.map Ty.p, e.ret.p)

/-- `CompileSource`: the functions of a text. -/
def compileScript (cfg : Cfg) (inl : Inline) (ext : Exts) (src : List Char) : Option (List MFn) :=
  match parseFunctions cfg src with
  | .ok fs _ => compileFuncs inl (extSigs ext) fs
  | .fail => none
  | .fuel => none

/-- Running the code of an expression on the slots. -/
def runSite (σ : MSigs) (K : MCalls) (table : List Site) (i : Nat) (slots : Nat → Int) : Option ((Nat → Int) × Int) :=
  (table[i]?).bind fun s => (Scalar.run (rt σ K) s.1 ⟨[], slots, ()⟩).bind fun rs => (rs.opd s.2).map fun v => (rs.slots, v)

/-- The blocks run the code of the expression with the number. -/
def machine (σ : MSigs) (K : MCalls) (table : List Site) : Lang (Nat → Int) Int where
  eval e slots := match e with
    | .un none (.num t) => runSite σ K table t.length slots
    | _ => none
  truth v := decide (v ≠ 0)

/-- A call of compiled code returns `z`: the exit block is reached, with `z` in the return slot. The arguments are in the first slots of the frame of the call, the others hold anything. -/
def CodeReturns (σ : MSigs) (K : MCalls) (c : FnCode) (junk : Nat → Int) (args : List Int) (z : Int) : Prop :=
  ∃ slots, Halts (machine σ K c.table) c.blocks (fun i => args.getD i (junk i)) (slots, some z)

def findM (ms : List MFn) (f : Name) : Option MFn := ms.find? fun m => decide (m.name = f)

/-- All functions: every call site has been compiled against one of them. -/
def allSigs (ext : Exts) (ms : List MFn) : MSigs := fun f => match findM ms f with
  | some m => some (m.params, m.ret)
  | none => extSigs ext f

open Classical in
/-- What a call does when at most `d` calls of compiled functions are inside each other (the stack of the machine is not bounded: see `Returns`). Every call has a frame of its own, with any
contents at first. A call that does not return has no result. -/
noncomputable def called (ext : Exts) (ms : List MFn) (junk : Nat → Name → List Int → Nat → Int) : Nat → MCalls
  | d, f, args => match findM ms f with
    | none => (ext f).bind fun e => (e.run (decs e.params args)).map Val.enc
    | some m => match d with
      | 0 => none
      | d + 1 => if h : ∃ z, CodeReturns (allSigs ext ms) (called ext ms junk d) m.code (junk d f args) args z then some h.choose else none

/-- A call of a function of the compiled script returns a value. -/
def Returns (ext : Exts) (ms : List MFn) (junk : Nat → Name → List Int → Nat → Int) (f : Name) (args : List Int) (z : Int) : Prop := ∃ d, called ext ms junk d f args = some z

end Verif.Comp.Script
