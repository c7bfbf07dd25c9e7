import Verif.Ast.Validate
/-!
# Statements to basic blocks: C36, C92

`/repo/rapidudf/compiler/compiler_statements.cc` 23–111, `/repo/rapidudf/compiler/codegen.cc` 421–600.

Modelled: which blocks are created, which branches are added to which block, and where the insertion point is. Expressions are opaque: their meaning is a parameter, and whether the
code of an expression contains blocks of its own (vector expressions do: a loop and a conditional, compiler_eval.cc 471–496) is a parameter too; such code is represented by one branch
to a fresh block in which the expression is evaluated. The branch instruction of a condition evaluates the condition.
-/
namespace Verif.Gen
open Verif.Ast

/-- An instruction of a block. `gone` marks a block removed from the function (`removeFromParent`). -/
inductive Item where
  | nop
  | ev (e : Expr)
  | setRet (e : Expr)
  | br (t : Nat)
  | cbr (e : Expr) (t f : Nat)
  | ret
  | gone

/-- Terminator instructions. -/
def Item.isTerm : Item → Bool
  | .br _ => true
  | .cbr _ _ _ => true
  | .ret => true
  | .gone => true
  | _ => false

def Item.targets : Item → List Nat
  | .br t => [t]
  | .cbr _ t f => [t, f]
  | _ => []

/-- `getTerminator() != nullptr`: the last instruction is a terminator. -/
def closed (b : List Item) : Bool :=
  match b.getLast? with
  | some i => i.isTerm
  | none => false

/-- The function being built: its blocks, numbered in order of creation, and the insertion point. -/
structure St where
  blk : Nat → List Item
  len : Nat
  cur : Nat

def upd (f : Nat → List Item) (i : Nat) (v : List Item) : Nat → List Item := fun j => if j = i then v else f j

/-- Add an instruction at the insertion point. -/
def St.emit (st : St) (i : Item) : St := { st with blk := upd st.blk st.cur (st.blk st.cur ++ [i]) }

/-- `SetInsertPoint`. -/
def St.goto (st : St) (b : Nat) : St := { st with cur := b }

/-- `BasicBlock::Create`, `k` times. -/
def St.alloc (st : St) (k : Nat) : St := { st with len := st.len + k }

/-- Has the block a terminator at its end. -/
def St.done (st : St) (b : Nat) : Bool := closed (st.blk b)

/-- `if (builder_->GetInsertBlock()->getTerminator() == nullptr) CreateBr(b)`. -/
def St.brUnless (st : St) (b : Nat) : St := if st.done st.cur = true then st else st.emit (.br b)

/-- `hasNPredecessorsOrMore(1)`. -/
def St.hasPred (st : St) (b : Nat) : Bool := (List.range st.len).any fun i => (st.blk i).any fun it => it.targets.contains b

/-- The part of the code of an expression before its own blocks, if it has any. -/
def St.prep (splits : Expr → Bool) (e : Expr) (st : St) : St :=
  if splits e = true then ((st.emit .nop).alloc 1).emit (.br st.len) |>.goto st.len else st

/-- `FinishCondition`, codegen.cc 594–600. -/
def St.finish (st : St) (e : Nat) : St := if st.hasPred e = true then st.goto e else { st with blk := upd st.blk e [.gone] }

/-- Number of `elif` parts. -/
def elifCount : Elifs → Nat
  | .nil => 0
  | .cons _ _ es => elifCount es + 1

def hasElse : Else → Bool
  | .none => false
  | .some _ => true

/-- Where a failing condition leads: the next `elif` condition, the `else` block or the end (`BeginIf` codegen.cc 553–558, `EndElifCond` 574–579). -/
def nextBlock (es : Elifs) (condId : Nat) (elseId : Option Nat) (endId : Nat) : Nat :=
  match es with
  | .cons _ _ _ => condId
  | .nil => match elseId with
    | some b => b
    | none => endId

mutual
/-- One statement. `loop` is the top of `loop_blocks`: the targets of `continue` and `break`. `none`: `back()` of an empty vector. Block 1 is the exit block. -/
def genStmt (splits : Expr → Bool) : Stmt → Option (Nat × Nat) → St → Option St
  | .cont, loop, st => loop.map fun l => st.emit (.br l.1)
  | .brk, loop, st => loop.map fun l => st.emit (.br l.2)
  | .ret, _, st => some (st.emit (.br 1))
  | .retVal e, _, st => some (((st.prep splits e).emit (.setRet e)).emit (.br 1))
  | .expr e, _, st => some ((st.prep splits e).emit (.ev e))
  | .whileLoop c b, _, st =>
    let cond := st.len
    let body := st.len + 1
    let fin := st.len + 2
    let st1 := ((st.alloc 3).brUnless cond).goto cond
    let st2 := ((st1.prep splits c).emit (.cbr c body fin)).goto body
    (genStmts splits b (some (cond, fin)) st2).map fun st3 => (st3.brUnless cond).goto fin
  | .ifElse c b es el, loop, st =>
    let st0 := st.prep splits c
    let n := st0.len
    let k := elifCount es
    let elseId := if hasElse el = true then some (n + 1 + 2 * k) else none
    let endId := n + 1 + 2 * k + (if hasElse el = true then 1 else 0)
    let st1 := (((st0.alloc (endId + 1 - n)).emit (.cbr c n (nextBlock es (n + 1) elseId endId)))).goto n
    (genStmts splits b loop st1).bind fun st2 =>
      (genElifs splits es loop (n + 1) elseId endId (st2.brUnless endId)).bind fun st3 =>
        (genElse splits el loop elseId endId st3).map fun st4 => st4.finish endId
/-- The `elif` parts: `BeginElif`, `EndElifCond`, `EndElif`. The last test looks at the first block of the body, not at the insertion point (codegen.cc 584). -/
def genElifs (splits : Expr → Bool) : Elifs → Option (Nat × Nat) → Nat → Option Nat → Nat → St → Option St
  | .nil, _, _, _, _, st => some st
  | .cons c b es, loop, condId, elseId, endId, st =>
    let st1 := (((st.goto condId).prep splits c).emit (.cbr c (condId + 1) (nextBlock es (condId + 2) elseId endId))).goto (condId + 1)
    (genStmts splits b loop st1).bind fun st2 =>
      genElifs splits es loop (condId + 2) elseId endId (if st2.done (condId + 1) = true then st2 else st2.emit (.br endId))
/-- The `else` part: `BeginElse`, `EndElse` (codegen.cc 588–593, again the first block of the body is tested). -/
def genElse (splits : Expr → Bool) : Else → Option (Nat × Nat) → Option Nat → Nat → St → Option St
  | .none, _, _, _, st => some st
  | .some _, _, none, _, st => some st
  | .some b, loop, some elseId, endId, st =>
    (genStmts splits b loop (st.goto elseId)).map fun st2 => if st2.done elseId = true then st2 else st2.emit (.br endId)
/-- `BuildIR(const std::vector<ast::Statement>&)`. -/
def genStmts (splits : Expr → Bool) : Stmts → Option (Nat × Nat) → St → Option St
  | .nil, _, st => some st
  | .cons s ss, loop, st => (genStmt splits s loop st).bind fun st1 => genStmts splits ss loop st1
end

/-- The entry block 0 and the exit block 1, `DefineFunction` (codegen.cc 366–368). -/
def St.init : St := { blk := fun _ => [], len := 2, cur := 0 }

/-- `BuildIR(const ast::Function&)` and `FinishFunction`, codegen.cc 421–431. -/
def genFunction (splits : Expr → Bool) (body : Stmts) : Option St :=
  (genStmts splits body none St.init).map fun st => ((st.brUnless 1).goto 1).emit .ret

/-! ## The meaning of blocks -/

/-- The meaning of expressions: the new state and the value, or a trap. -/
structure Lang (σ V : Type) where
  eval : Expr → σ → Option (σ × V)
  truth : V → Bool

/-- Memory: the program state and the return slot, at first without a value. -/
abbrev Mem (σ V : Type) := σ × Option V

structure Pc (σ V : Type) where
  blk : Nat
  off : Nat
  mem : Mem σ V

inductive Res (σ V : Type) where
  | run (p : Pc σ V)
  | halt (m : Mem σ V)
  | trap
  /-- the code is not a valid function: a block without terminator, an instruction after a terminator, a removed block -/
  | ub

/-- One instruction. -/
def step {σ V : Type} (L : Lang σ V) (blk : Nat → List Item) (p : Pc σ V) : Res σ V :=
  match (blk p.blk)[p.off]? with
  | none => .ub
  | some i =>
    if i.isTerm = true ∧ p.off + 1 ≠ (blk p.blk).length then .ub
    else match i with
      | .nop => .run { p with off := p.off + 1 }
      | .ev e => match L.eval e p.mem.1 with
        | none => .trap
        | some r => .run { p with off := p.off + 1, mem := (r.1, p.mem.2) }
      | .setRet e => match L.eval e p.mem.1 with
        | none => .trap
        | some r => .run { p with off := p.off + 1, mem := (r.1, some r.2) }
      | .br t => .run { blk := t, off := 0, mem := p.mem }
      | .cbr e t f => match L.eval e p.mem.1 with
        | none => .trap
        | some r => .run { blk := if L.truth r.2 = true then t else f, off := 0, mem := (r.1, p.mem.2) }
      | .ret => .halt p.mem
      | .gone => .ub

/-- At most `n` instructions. -/
def steps {σ V : Type} (L : Lang σ V) (blk : Nat → List Item) : Nat → Pc σ V → Res σ V
  | 0, p => .run p
  | n + 1, p => match step L blk p with
    | .run p' => steps L blk n p'
    | r => r

/-! ## Specification: the meaning of statements -/

/-- How a statement ends. `more`: the bound on loop iterations was reached. -/
inductive Out (σ V : Type) where
  | next (m : Mem σ V)
  | brk (m : Mem σ V)
  | cont (m : Mem σ V)
  | ret (m : Mem σ V)
  | trap
  | more

/-- Evaluate a condition and go on. -/
def cond {σ V : Type} (L : Lang σ V) (c : Expr) (m : Mem σ V) (t f : Mem σ V → Out σ V) : Out σ V :=
  match L.eval c m.1 with
  | none => .trap
  | some r => if L.truth r.2 = true then t (r.1, m.2) else f (r.1, m.2)

/-- At most `n` iterations of a loop. -/
def iterate {σ V : Type} (L : Lang σ V) (c : Expr) (body : Mem σ V → Out σ V) : Nat → Mem σ V → Out σ V
  | 0, _ => .more
  | n + 1, m => cond L c m (fun m => match body m with
    | .next m => iterate L c body n m
    | .cont m => iterate L c body n m
    | .brk m => .next m
    | r => r) .next

mutual
/-- The meaning of a statement in a structured language, with at most `n` iterations of every loop. -/
def exec {σ V : Type} (L : Lang σ V) (n : Nat) : Stmt → Mem σ V → Out σ V
  | .cont, m => .cont m
  | .brk, m => .brk m
  | .ret, m => .ret m
  | .retVal e, m => match L.eval e m.1 with
    | none => .trap
    | some r => .ret (r.1, some r.2)
  | .expr e, m => match L.eval e m.1 with
    | none => .trap
    | some r => .next (r.1, m.2)
  | .whileLoop c b, m => iterate L c (execs L n b) n m
  | .ifElse c b es el, m => cond L c m (execs L n b) (execElifs L n es (execElse L n el))
def execElifs {σ V : Type} (L : Lang σ V) (n : Nat) : Elifs → (Mem σ V → Out σ V) → Mem σ V → Out σ V
  | .nil, k, m => k m
  | .cons c b es, k, m => cond L c m (execs L n b) (execElifs L n es k)
def execElse {σ V : Type} (L : Lang σ V) (n : Nat) : Else → Mem σ V → Out σ V
  | .none, m => .next m
  | .some b, m => execs L n b m
def execs {σ V : Type} (L : Lang σ V) (n : Nat) : Stmts → Mem σ V → Out σ V
  | .nil, m => .next m
  | .cons s ss, m => match exec L n s m with
    | .next m => execs L n ss m
    | r => r
end

/-! ## The programs that are compiled correctly -/

mutual
/-- Control does not reach the end of the statement: it ends with a jump on every path. -/
def Stmt.ends : Stmt → Bool
  | .cont => true
  | .brk => true
  | .ret => true
  | .retVal _ => true
  | .expr _ => false
  | .whileLoop _ _ => false
  | .ifElse _ b es el => Stmts.ends b && Elifs.ends es && Else.ends el
def Stmts.ends : Stmts → Bool
  | .nil => false
  | .cons s .nil => Stmt.ends s
  | .cons _ (.cons s ss) => Stmts.ends (.cons s ss)
def Elifs.ends : Elifs → Bool
  | .nil => true
  | .cons _ b es => Stmts.ends b && Elifs.ends es
def Else.ends : Else → Bool
  | .none => false
  | .some b => Stmts.ends b
end

/-- A statement without blocks of its own. -/
def Stmt.flat (splits : Expr → Bool) : Stmt → Bool
  | .whileLoop _ _ => false
  | .ifElse _ _ _ _ => false
  | .expr e => !splits e
  | .retVal e => !splits e
  | _ => true

def Stmts.flat (splits : Expr → Bool) : Stmts → Bool
  | .nil => true
  | .cons s ss => Stmt.flat splits s && Stmts.flat splits ss

def Stmts.startsWhile : Stmts → Bool
  | .nil => true
  | .cons (.whileLoop _ _) _ => true
  | _ => false

mutual
/-- No statement but a loop follows a statement that always jumps, and the bodies of `elif` and `else` consist of statements without own blocks or always jump. -/
def Stmt.Clean (splits : Expr → Bool) : Stmt → Prop
  | .whileLoop _ b => Stmts.Clean splits b
  | .ifElse _ b es el => Stmts.Clean splits b ∧ Elifs.Clean splits es ∧ Else.Clean splits el
  | .cont => True
  | .brk => True
  | .ret => True
  | .retVal _ => True
  | .expr _ => True
def Stmts.Clean (splits : Expr → Bool) : Stmts → Prop
  | .nil => True
  | .cons s ss => Stmt.Clean splits s ∧ Stmts.Clean splits ss ∧ (Stmt.ends s = true → Stmts.startsWhile ss = true)
def Elifs.Clean (splits : Expr → Bool) : Elifs → Prop
  | .nil => True
  | .cons _ b es => Stmts.Clean splits b ∧ (Stmts.flat splits b = true ∨ Stmts.ends b = true) ∧ Elifs.Clean splits es
def Else.Clean (splits : Expr → Bool) : Else → Prop
  | .none => True
  | .some b => Stmts.Clean splits b ∧ (Stmts.flat splits b = true ∨ Stmts.ends b = true)
end

end Verif.Gen
