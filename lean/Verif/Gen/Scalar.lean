import Verif.Ast.Rpn
/-!
# Code of scalar expressions and variables: C37, C38, C93

`/repo/rapidudf/compiler/compiler_eval.cc` 42–162, `/repo/rapidudf/compiler/compiler_expressions.cc` 39–105, `/repo/rapidudf/compiler/codegen_binary.cc` 261–362,
`/repo/rapidudf/compiler/codegen_unary.cc` 228–, `/repo/rapidudf/compiler/codegen_ternary.cc` 80–, `/repo/rapidudf/compiler/value.cc` 34–77,
`/repo/rapidudf/compiler/codegen_value.cc` 153–157, `/repo/rapidudf/compiler/codegen.cc` 194–213, 625–714.

Modelled: which instructions are emitted in which order, which registers and stack slots they use, and which slot a variable name stands for. Types, the meaning of operators, casts and
called functions are parameters (`Rt`). Not modelled: arrays, member access, the implicit context argument. The compiler loads an operand when it is cast or used; between the loads of the
operands of one operator nothing is stored, so the model loads them one after another. String literals and results of type string live in memory of their own in the compiled code
(codegen_value.cc 103, codegen.cc 709); nothing else refers to that memory, and the model treats them as values without a slot.
-/
namespace Verif.Gen.Scalar
open Verif.Ast Verif.Ast.Rpn

abbrev Name := List Char

/-- Types and the meaning of the primitive operations: values `V`, and a state `W` changed by called functions. A missing description means a compile error; a missing result at run time
is a trap. -/
structure Rt (Ty V W : Type) where
  bool : Bool → Ty × V
  str : List Char → Ty × V
  num : List Char → Option (Ty × V)
  isBit : Ty → Bool
  truth : V → Bool
  /-- `NormalizeDType`, codegen.cc 194–213 -/
  norm : Ty → Ty → Option Ty
  /-- `CastTo`, codegen_cast.cc -/
  cast : Ty → Ty → Option (V → V)
  un : UnOp → Ty → Option (Ty × (V → Option V))
  /-- the operators other than `&&` and `||` -/
  bin : BinOp → Ty → Option (Ty × (V → V → Option V))
  fn : Name → Option (List Ty × Ty × (List V → W → Option (W × V)))
  /-- built-in functions that are operators -/
  inl : Name → List Ty → Option (Ty × (List V → Option V))

/-- An operand of an instruction. -/
inductive Opd (V : Type) where
  | reg (i : Nat)
  | const (v : V)

/-- Instructions. All but `store` write the next register. -/
inductive Instr (Ty V : Type) where
  | load (s : Nat)
  | store (s : Nat) (o : Opd V)
  | cast (a b : Ty) (o : Opd V)
  | un (op : UnOp) (t : Ty) (o : Opd V)
  | bin (op : BinOp) (t : Ty) (a b : Opd V)
  | sel (c a b : Opd V)
  | inl (n : Name) (ts : List Ty) (os : List (Opd V))
  | call (n : Name) (os : List (Opd V))

section
variable {Ty V W : Type} [DecidableEq Ty] (rt : Rt Ty V W)

/-- Low-level `BinaryOp`, codegen_binary.cc 52–259. `CreateLogicalAnd(a, b)` is `select a, b, false` and `CreateLogicalOr(a, b)` is `select a, true, b` (110–121): an instruction on two
values that have both been computed. -/
def Rt.binOp (op : BinOp) (t : Ty) : Option (Ty × (V → V → Option V)) :=
  if op = .and then (if rt.isBit t = true then some (t, fun a b => some (if rt.truth a = true then b else a)) else none)
  else if op = .or then (if rt.isBit t = true then some (t, fun a b => some (if rt.truth a = true then a else b)) else none)
  else rt.bin op t

/-! ## Running code -/

/-- Registers, stack slots (any contents at first) and the state of the outside. -/
structure RS (V W : Type) where
  regs : List V
  slots : Nat → V
  w : W

def RS.opd (rs : RS V W) : Opd V → Option V
  | .reg i => rs.regs[i]?
  | .const v => some v

def RS.opds (rs : RS V W) : List (Opd V) → Option (List V)
  | [] => some []
  | o :: os => (rs.opd o).bind fun v => (rs.opds os).map (v :: ·)

def RS.push (rs : RS V W) (v : V) : RS V W := { rs with regs := rs.regs ++ [v] }

/-- One instruction. -/
def run1 (rs : RS V W) : Instr Ty V → Option (RS V W)
  | .load s => some (rs.push (rs.slots s))
  | .store s o => (rs.opd o).map fun v => { rs with slots := fun i => if i = s then v else rs.slots i }
  | .cast a b o => (rt.cast a b).bind fun f => (rs.opd o).map fun v => rs.push (f v)
  | .un op t o => (rt.un op t).bind fun r => ((rs.opd o).bind r.2).map rs.push
  | .bin op t a b => (rt.binOp op t).bind fun r => ((rs.opd a).bind fun x => (rs.opd b).bind fun y => r.2 x y).map rs.push
  | .sel c a b => ((rs.opd c).bind fun z => (rs.opd a).bind fun x => (rs.opd b).map fun y => if rt.truth z = true then x else y).map rs.push
  | .inl n ts os => (rt.inl n ts).bind fun r => ((rs.opds os).bind r.2).map rs.push
  | .call n os => (rt.fn n).bind fun f => (rs.opds os).bind fun vs => (f.2.2 vs rs.w).map fun x => { rs with regs := rs.regs ++ [x.2], w := x.1 }

/-- A sequence of instructions; `none` is a trap. -/
def run : List (Instr Ty V) → RS V W → Option (RS V W)
  | [], rs => some rs
  | i :: is, rs => (run1 rt rs i).bind (run is)

/-! ## Generating code -/

/-- `Value`, value.h: a named variable, or a value that is in no slot. -/
inductive H (Ty V : Type) where
  | var (n : Name)
  | imm (t : Ty) (o : Opd V)

/-- `named_values` and the counters. A variable is undeclared, declared without type (`NewVoid`), or has a type and a slot. -/
structure CS (Ty : Type) where
  nreg : Nat
  nslot : Nat
  vars : Name → Option (Option (Ty × Nat))

/-- Code generation: an error, or a result and the code emitted. -/
abbrev G (Ty V : Type) (α : Type) := CS Ty → Option (α × List (Instr Ty V) × CS Ty)

def G.ret {α : Type} (a : α) : G Ty V α := fun cs => some (a, [], cs)
def G.fail {α : Type} : G Ty V α := fun _ => none
def G.andThen {α β : Type} (x : G Ty V α) (f : α → G Ty V β) : G Ty V β := fun cs =>
  (x cs).bind fun r => (f r.1 r.2.2).map fun r' => (r'.1, r.2.1 ++ r'.2.1, r'.2.2)
/-- Fail unless there is a value. -/
def G.get {α β : Type} (o : Option α) (f : α → G Ty V β) : G Ty V β := match o with
  | none => G.fail
  | some a => f a
/-- Emit an instruction that writes a register. -/
def G.push (i : Instr Ty V) : G Ty V (Opd V) := fun cs => some (.reg cs.nreg, [i], { cs with nreg := cs.nreg + 1 })

/-- `GetDType` and `LoadValue`, value.cc 34–39. A variable without type has no address to load from (a null pointer is used). -/
def ld : H Ty V → G Ty V (Ty × Opd V)
  | .imm t o => G.ret (t, o)
  | .var n => fun cs => match cs.vars n with
    | some (some b) => some ((b.1, .reg cs.nreg), [.load b.2], { cs with nreg := cs.nreg + 1 })
    | _ => none

/-- `CastTo`, codegen_cast.cc 92–131: no code when the types are equal. -/
def castTo (t : Ty) (x : Ty × Opd V) : G Ty V (Opd V) :=
  if x.1 = t then G.ret x.2 else G.get (rt.cast x.1 t) fun _ => G.push (.cast x.1 t x.2)

/-- The type in which two operands are combined, codegen_binary.cc 298–317. -/
def common (a b : Ty) : Option Ty := if a = b then some a else rt.norm a b

/-- `UnaryOp`, codegen_unary.cc 228–. -/
def gUn (op : UnOp) (h : H Ty V) : G Ty V (H Ty V) :=
  (ld h).andThen fun x => G.get (rt.un op x.1) fun r => (G.push (.un op x.1 x.2)).andThen fun o => G.ret (.imm r.1 o)

/-- `BinaryOp` for the operators that do not assign, codegen_binary.cc 297–347. -/
def gBin (op : BinOp) (h1 h2 : H Ty V) : G Ty V (H Ty V) :=
  (ld h1).andThen fun x => (ld h2).andThen fun y => G.get (common rt x.1 y.1) fun c =>
    (castTo rt c x).andThen fun a => (castTo rt c y).andThen fun b => G.get (rt.binOp op c) fun r => (G.push (.bin op c a b)).andThen fun o => G.ret (.imm r.1 o)

/-- `left->CopyFrom(right)`, value.cc 50–77, called from codegen_binary.cc 350–358. A variable without type takes over the slot of an addressable right operand (54–58) and gets a slot
of its own otherwise; a value without slot cannot be assigned to (66–69). -/
def gAssign (h1 h2 : H Ty V) : G Ty V (H Ty V) :=
  match h1 with
  | .imm _ _ => G.fail
  | .var n => fun cs => match cs.vars n with
    | none => none
    | some none => match h2 with
      | .var m => match cs.vars m with
        | some (some b) => some (.var n, [], { cs with vars := fun k => if k = n then some (some b) else cs.vars k })
        | _ => none
      | .imm t o => some (.var n, [.store cs.nslot o], { cs with nslot := cs.nslot + 1, vars := fun k => if k = n then some (some (t, cs.nslot)) else cs.vars k })
    | some (some b) => ((ld h2).andThen fun y => if y.1 = b.1 then fun cs => some (.var n, [.store b.2 y.2], cs) else G.fail) cs

/-- `+=` and the like, codegen_binary.cc 270–296: the left operand must not need a cast, since a cast value cannot be assigned to. -/
def gUpdate (op : BinOp) (h1 h2 : H Ty V) : G Ty V (H Ty V) :=
  match h1 with
  | .imm _ _ => G.fail
  | .var n => fun cs => match cs.vars n with
    | some (some b) =>
      ((ld (.var n : H Ty V)).andThen fun x => (ld h2).andThen fun y => G.get (common rt x.1 y.1) fun c =>
        if c = b.1 then (castTo rt c y).andThen fun v => G.get (rt.binOp op c) fun r =>
          if r.1 = b.1 then (G.push (.bin op c x.2 v)).andThen fun o => fun cs => some (.var n, [.store b.2 o], cs) else G.fail
        else G.fail) cs
    | _ => none

/-- The operator behind an assignment operator, codegen_binary.cc 268–296. -/
def baseOp : BinOp → Option BinOp
  | .addAssign => some .add
  | .subAssign => some .sub
  | .mulAssign => some .mul
  | .divAssign => some .div
  | .modAssign => some .mod
  | _ => none

/-- `BinaryOp`. -/
def gOp2 (op : BinOp) (h1 h2 : H Ty V) : G Ty V (H Ty V) :=
  if op = .assign then gAssign h1 h2
  else match baseOp op with
    | some b => gUpdate rt b h1 h2
    | none => gBin rt op h1 h2

/-- `TernaryOp` with `OP_CONDITIONAL`, codegen_ternary.cc 56–59, 80–110: `select` on two values that have both been computed. -/
def gSel (h1 h2 h3 : H Ty V) : G Ty V (H Ty V) :=
  (ld h1).andThen fun z => (ld h2).andThen fun x => (ld h3).andThen fun y => if rt.isBit z.1 = true then G.get (common rt x.1 y.1) fun c =>
    (castTo rt c x).andThen fun a => (castTo rt c y).andThen fun b => (G.push (.sel z.2 a b)).andThen fun o => G.ret (.imm c o) else G.fail

def lds : List (H Ty V) → G Ty V (List (Ty × Opd V))
  | [] => G.ret []
  | h :: hs => (ld h).andThen fun x => (lds hs).andThen fun xs => G.ret (x :: xs)

def castsTo : List Ty → List (Ty × Opd V) → G Ty V (List (Opd V))
  | [], [] => G.ret []
  | t :: ts, x :: xs => (castTo rt t x).andThen fun o => (castsTo ts xs).andThen fun os => G.ret (o :: os)
  | _, _ => G.fail

/-- A built-in function that is an operator, compiler_eval.cc 135–153. -/
def gInl (n : Name) (hs : List (H Ty V)) : G Ty V (H Ty V) :=
  (lds hs).andThen fun xs => G.get (rt.inl n (xs.map (·.1))) fun r => (G.push (.inl n (xs.map (·.1)) (xs.map (·.2)))).andThen fun o => G.ret (.imm r.1 o)

/-- `CallFunction`, codegen.cc 625–714. -/
def gCall (n : Name) (hs : List (H Ty V)) : G Ty V (H Ty V) :=
  G.get (rt.fn n) fun f => (lds hs).andThen fun xs => (castsTo rt f.1 xs).andThen fun os => (G.push (.call n os)).andThen fun o => G.ret (.imm f.2.1 o)

/-- One node of the stack evaluation, compiler_eval.cc 103–157. The list has the last element of `operands` first. -/
def gStep (inl : Inline) : ENode (H Ty V) → List (H Ty V) → G Ty V (List (H Ty V))
  | .val h, s => G.ret (h :: s)
  | .op1 o, a :: s => (gUn rt o a).andThen fun h => G.ret (h :: s)
  | .op2 o, b :: a :: s => (gOp2 rt o a b).andThen fun h => G.ret (h :: s)
  | .sel, c :: b :: a :: s => (gSel rt a b c).andThen fun h => G.ret (h :: s)
  | .inl n, s => G.get (inl n) fun k => if s.length < k then G.fail else (gInl rt n (s.take k).reverse).andThen fun h => G.ret (h :: s.drop k)
  | _, _ => G.fail

def gStack (inl : Inline) : List (ENode (H Ty V)) → List (H Ty V) → G Ty V (List (H Ty V))
  | [], s => G.ret s
  | n :: ns, s => (gStep rt inl n s).andThen fun s' => gStack inl ns s'

mutual
/-- First all operands, in order, compiler_eval.cc 49–91; the code of calls is emitted here. -/
def gBuild (inl : Inline) : Rpn → G Ty V (List (ENode (H Ty V)))
  | .nil => G.ret []
  | .cons n r => (gNode inl n).andThen fun e => (gBuild inl r).andThen fun es => G.ret (e :: es)
/-- An operand. `NewVoid` (codegen_value.cc 153–157) registers a name; a name declared twice is refused by validation (context.cc 74–92). -/
def gNode (inl : Inline) : Node → G Ty V (ENode (H Ty V))
  | .bool b => G.ret (.val (.imm (rt.bool b).1 (.const (rt.bool b).2)))
  | .str s => G.ret (.val (.imm (rt.str s).1 (.const (rt.str s).2)))
  | .num t => G.get (rt.num t) fun x => G.ret (.val (.imm x.1 (.const x.2)))
  | .define n => fun cs => match cs.vars n with
    | none => some (.val (.var n), [], { cs with vars := fun k => if k = n then some none else cs.vars k })
    | some _ => none
  | .var n => fun cs => match cs.vars n with
    | none => none
    | some _ => some (.val (.var n), [], cs)
  | .call n rs => (gRuns inl rs).andThen fun hs => (gCall rt n hs).andThen fun h => G.ret (.val h)
  | .op1 o => G.ret (.op1 o)
  | .op2 o => G.ret (.op2 o)
  | .sel => G.ret .sel
  | .inl n => G.ret (.inl n)
  | .array _ => G.fail
  | .access _ _ => G.fail
/-- The arguments of a call, each with its own list. -/
def gRuns (inl : Inline) : Rpns → G Ty V (List (H Ty V))
  | .nil => G.ret []
  | .cons r rs => ((gBuild inl r).andThen fun es => (gStack rt inl es []).andThen fun s => G.get (single s) G.ret).andThen fun h =>
    (gRuns inl rs).andThen fun hs => G.ret (h :: hs)
end

/-- `BuildIR(const ast::RPN&)`, compiler_eval.cc 42–98 and 100–162. -/
def gRun (inl : Inline) (r : Rpn) : G Ty V (H Ty V) := (gBuild rt inl r).andThen fun es => (gStack rt inl es []).andThen fun s => G.get (single s) G.ret

/-- The code of an expression. -/
def gExpr (inl : Inline) (e : Expr) : G Ty V (H Ty V) := gRun rt inl (flatE inl e)

/-- Expression statements one after another. -/
def gProg (inl : Inline) : List Expr → G Ty V Unit
  | [] => G.ret ()
  | e :: es => (gExpr rt inl e).andThen fun _ => gProg inl es

/-! ## Specification: left to right, with environments -/

abbrev TV (Ty V : Type) := Ty × V

/-- What every variable holds. -/
abbrev Env (Ty V : Type) := Name → Option (TV Ty V)

/-- Computations that change the outside or trap. -/
abbrev M (W : Type) (α : Type) := W → Option (W × α)

def M.ret {α : Type} (a : α) : M W α := fun w => some (w, a)
def M.lift {α : Type} (o : Option α) : M W α := fun w => o.map fun a => (w, a)
def M.andThen {α β : Type} (x : M W α) (f : α → M W β) : M W β := fun w => (x w).bind fun r => f r.2 r.1

/-- Conversion of a value to a type. -/
def castTV (t : Ty) (x : TV Ty V) : Option V := if x.1 = t then some x.2 else (rt.cast x.1 t).map (· x.2)

def unTV (op : UnOp) (a : TV Ty V) : Option (TV Ty V) := (rt.un op a.1).bind fun r => (r.2 a.2).map fun v => (r.1, v)

/-- The type in which operands of two types meet: their type, or else the one the type system gives. -/
def meet (a b : Ty) : Option Ty := if a = b then some a else rt.norm a b

/-- A binary operator: both operands converted to the common type. -/
def binTV (op : BinOp) (a b : TV Ty V) : Option (TV Ty V) :=
  (meet rt a.1 b.1).bind fun c => (castTV rt c a).bind fun x => (castTV rt c b).bind fun y => (rt.binOp op c).bind fun r => (r.2 x y).map fun v => (r.1, v)

def selTV (z a b : TV Ty V) : Option (TV Ty V) :=
  if rt.isBit z.1 = true then (meet rt a.1 b.1).bind fun c => (castTV rt c a).bind fun x => (castTV rt c b).map fun y => (c, if rt.truth z.2 = true then x else y) else none

def inlTV (n : Name) (vs : List (TV Ty V)) : Option (TV Ty V) := (rt.inl n (vs.map (·.1))).bind fun r => (r.2 (vs.map (·.2))).map fun v => (r.1, v)

def castsTV : List Ty → List (TV Ty V) → Option (List V)
  | [], [] => some []
  | t :: ts, x :: xs => (castTV rt t x).bind fun v => (castsTV ts xs).map (v :: ·)
  | _, _ => none

def callTV (n : Name) (vs : List (TV Ty V)) : M W (TV Ty V) := fun w =>
  (rt.fn n).bind fun f => (castsTV rt f.1 vs).bind fun xs => (f.2.2 xs w).map fun r => (r.1, (f.2.1, r.2))

mutual
/-- Evaluation from left to right in which every operand is evaluated. Assignments and definitions inside an expression have no meaning here. -/
def eagerE (inl : Inline) (env : Env Ty V) : Expr → M W (TV Ty V)
  | .un none o => eagerO inl env o
  | .un (some op) o => (eagerO inl env o).andThen fun a => M.lift (unTV rt op a)
  | .bin l op r => (eagerE inl env l).andThen fun a => (eagerE inl env r).andThen fun b => M.lift (binTV rt op a b)
  | .sel c t f => (eagerE inl env c).andThen fun z => (eagerE inl env t).andThen fun a => (eagerE inl env f).andThen fun b => M.lift (selTV rt z a b)
def eagerO (inl : Inline) (env : Env Ty V) : Operand → M W (TV Ty V)
  | .bool b => M.ret (rt.bool b)
  | .str s => M.ret (rt.str s)
  | .num t => M.lift (rt.num t)
  | .var n => M.lift (env n)
  | .paren e => eagerE inl env e
  | .call n es => (eagerEs inl env es).andThen fun vs => match inl n with
    | some _ => M.lift (inlTV rt n vs)
    | none => callTV rt n vs
  | .define _ => M.lift none
  | .array _ => M.lift none
  | .access _ _ => M.lift none
def eagerEs (inl : Inline) (env : Env Ty V) : Exprs → M W (List (TV Ty V))
  | .nil => M.ret []
  | .cons e es => (eagerE inl env e).andThen fun v => (eagerEs inl env es).andThen fun vs => M.ret (v :: vs)
end

mutual
/-- No assignments, definitions, arrays or member accesses; built-in functions have their number of arguments. -/
def Plain (inl : Inline) : Expr → Prop
  | .un _ o => PlainO inl o
  | .bin l op r => Plain inl l ∧ op ≠ .assign ∧ baseOp op = none ∧ Plain inl r
  | .sel c t f => Plain inl c ∧ Plain inl t ∧ Plain inl f
def PlainO (inl : Inline) : Operand → Prop
  | .paren e => Plain inl e
  | .call n es => PlainEs inl es ∧ ∀ k, inl n = some k → Exprs.length es = k
  | .bool _ => True
  | .str _ => True
  | .num _ => True
  | .var _ => True
  | .define _ => False
  | .array _ => False
  | .access _ _ => False
def PlainEs (inl : Inline) : Exprs → Prop
  | .nil => True
  | .cons e es => Plain inl e ∧ PlainEs inl es
end

/-! ## Types and short-circuit evaluation -/

def castable (a b : Ty) : Option Unit := if a = b then some () else (rt.cast a b).map fun _ => ()

def castables : List Ty → List Ty → Option Unit
  | [], [] => some ()
  | t :: ts, x :: xs => (castable rt x t).bind fun _ => castables ts xs
  | _, _ => none

/-- The type of an expression, from the types of its variables. -/
def tySem (tenv : Name → Option Ty) : Sem Ty where
  bool b := (rt.bool b).1
  str s := (rt.str s).1
  num t := (rt.num t).map (·.1)
  define _ := none
  var := tenv
  array _ := none
  call n ts := (rt.fn n).bind fun f => (castables rt f.1 ts).map fun _ => f.2.1
  field _ _ := none
  method _ _ _ := none
  key _ _ := none
  index _ _ := none
  ref _ _ := none
  un op t := (rt.un op t).map (·.1)
  bin op a b := (meet rt a b).bind fun c => (castable rt a c).bind fun _ => (castable rt b c).bind fun _ => (rt.binOp op c).map (·.1)
  sel z a b := if rt.isBit z = true then (meet rt a b).bind fun c => (castable rt a c).bind fun _ => (castable rt b c).map fun _ => c else none
  inl n ts := (rt.inl n ts).map (·.1)

def tyE (inl : Inline) (tenv : Name → Option Ty) (e : Expr) : Option Ty := evalE inl (tySem rt tenv) e

mutual
/-- Evaluation from left to right in which the second operand of `&&` is evaluated only if the first is true, the second operand of `||` only if the first is false, and one branch of
`? :` only. Operands are converted to the common type, which is known from the types. -/
def lazyE (inl : Inline) (env : Env Ty V) (tenv : Name → Option Ty) : Expr → M W (TV Ty V)
  | .un none o => lazyO inl env tenv o
  | .un (some op) o => (lazyO inl env tenv o).andThen fun a => M.lift (unTV rt op a)
  | .bin l op r => (lazyE inl env tenv l).andThen fun a =>
    if op = .and then (M.lift ((tyE rt inl tenv r).bind fun t => (meet rt a.1 t).bind fun c => (castTV rt c a).map fun x => (c, x))).andThen fun x =>
      if rt.truth x.2 = true then (lazyE inl env tenv r).andThen fun b => M.lift ((castTV rt x.1 b).map fun y => (x.1, y)) else M.ret x
    else if op = .or then (M.lift ((tyE rt inl tenv r).bind fun t => (meet rt a.1 t).bind fun c => (castTV rt c a).map fun x => (c, x))).andThen fun x =>
      if rt.truth x.2 = true then M.ret x else (lazyE inl env tenv r).andThen fun b => M.lift ((castTV rt x.1 b).map fun y => (x.1, y))
    else (lazyE inl env tenv r).andThen fun b => M.lift (binTV rt op a b)
  | .sel c t f => (lazyE inl env tenv c).andThen fun z => (M.lift ((tyE rt inl tenv t).bind fun a => (tyE rt inl tenv f).bind fun b => meet rt a b)).andThen fun k =>
    if rt.truth z.2 = true then (lazyE inl env tenv t).andThen fun a => M.lift ((castTV rt k a).map fun x => (k, x))
    else (lazyE inl env tenv f).andThen fun b => M.lift ((castTV rt k b).map fun x => (k, x))
def lazyO (inl : Inline) (env : Env Ty V) (tenv : Name → Option Ty) : Operand → M W (TV Ty V)
  | .bool b => M.ret (rt.bool b)
  | .str s => M.ret (rt.str s)
  | .num t => M.lift (rt.num t)
  | .var n => M.lift (env n)
  | .paren e => lazyE inl env tenv e
  | .call n es => (lazyEs inl env tenv es).andThen fun vs => match inl n with
    | some _ => M.lift (inlTV rt n vs)
    | none => callTV rt n vs
  | .define _ => M.lift none
  | .array _ => M.lift none
  | .access _ _ => M.lift none
def lazyEs (inl : Inline) (env : Env Ty V) (tenv : Name → Option Ty) : Exprs → M W (List (TV Ty V))
  | .nil => M.ret []
  | .cons e es => (lazyE inl env tenv e).andThen fun v => (lazyEs inl env tenv es).andThen fun vs => M.ret (v :: vs)
end

mutual
/-- Expressions that call nothing and cannot trap: every operator in them is defined on all values. -/
def Quiet (inl : Inline) : Expr → Prop
  | .un none o => QuietO inl o
  | .un (some op) o => QuietO inl o ∧ ∀ t r, rt.un op t = some r → ∀ a, ∃ v, r.2 a = some v
  | .bin l op r => Quiet inl l ∧ Quiet inl r ∧ ∀ t q, rt.binOp op t = some q → ∀ a b, ∃ v, q.2 a b = some v
  | .sel c t f => Quiet inl c ∧ Quiet inl t ∧ Quiet inl f
def QuietO (inl : Inline) : Operand → Prop
  | .paren e => Quiet inl e
  | .call n es => QuietEs inl es ∧ inl n ≠ none ∧ ∀ ts r, rt.inl n ts = some r → ∀ vs, ∃ v, r.2 vs = some v
  | .bool _ => True
  | .str _ => True
  | .num _ => True
  | .var _ => True
  | .define _ => False
  | .array _ => False
  | .access _ _ => False
def QuietEs (inl : Inline) : Exprs → Prop
  | .nil => True
  | .cons e es => Quiet inl e ∧ QuietEs inl es
end

mutual
/-- Expressions in which the operands that might not be needed are quiet. -/
def Guarded (inl : Inline) : Expr → Prop
  | .un _ o => GuardedO inl o
  | .bin l op r => Guarded inl l ∧ Guarded inl r ∧ (op = .and ∨ op = .or → Quiet rt inl r)
  | .sel c t f => Guarded inl c ∧ Guarded inl t ∧ Guarded inl f ∧ Quiet rt inl t ∧ Quiet rt inl f
def GuardedO (inl : Inline) : Operand → Prop
  | .paren e => Guarded inl e
  | .call _ es => GuardedEs inl es
  | .bool _ => True
  | .str _ => True
  | .num _ => True
  | .var _ => True
  | .define _ => True
  | .array _ => True
  | .access _ _ => True
def GuardedEs (inl : Inline) : Exprs → Prop
  | .nil => True
  | .cons e es => Guarded inl e ∧ GuardedEs inl es
end

/-! ## Straight-line programs -/

/-- A statement: `var x = e;`, `x = e;`, `x op= e;`, `e;`. -/
inductive Line where
  | define (x : Name) (e : Expr)
  | assign (x : Name) (e : Expr)
  | update (op : BinOp) (x : Name) (e : Expr)
  | eval (e : Expr)

/-- As the parser delivers it. -/
def Line.expr : Line → Expr
  | .define x e => .bin (.un none (.define x)) .assign e
  | .assign x e => .bin (.un none (.var x)) .assign e
  | .update op x e => .bin (.un none (.var x)) op e
  | .eval e => e

def Env.set (env : Env Ty V) (x : Name) (v : TV Ty V) : Env Ty V := fun n => if n = x then some v else env n

/-- What a statement does to the variables: it changes the one it names. -/
def lineM (inl : Inline) (env : Env Ty V) : Line → M W (Env Ty V)
  | .define x e => (eagerE rt inl env e).andThen fun v => M.ret (env.set x v)
  | .assign x e => (eagerE rt inl env e).andThen fun v => M.ret (env.set x v)
  | .update op x e => (eagerE rt inl env e).andThen fun v => M.lift ((env x).bind fun u => (baseOp op).bind fun o => (binTV rt o u v).map fun z => env.set x z)
  | .eval e => (eagerE rt inl env e).andThen fun _ => M.ret env

def progM (inl : Inline) : Env Ty V → List Line → M W (Env Ty V)
  | env, [] => M.ret env
  | env, l :: ls => (lineM rt inl env l).andThen fun env' => progM inl env' ls

mutual
/-- A variable, perhaps in parentheses. -/
def BareE : Expr → Bool
  | .un none o => BareO o
  | .un (some _) _ => false
  | .bin _ _ _ => false
  | .sel _ _ _ => false
def BareO : Operand → Bool
  | .var _ => true
  | .paren e => BareE e
  | .bool _ => false
  | .str _ => false
  | .num _ => false
  | .define _ => false
  | .array _ => false
  | .call _ _ => false
  | .access _ _ => false
end

end

end Verif.Gen.Scalar
