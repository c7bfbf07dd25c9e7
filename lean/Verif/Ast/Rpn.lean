import Verif.Ast.Parser
/-!
# Flattening to postfix form and its evaluation: C34, C88

`/repo/rapidudf/ast/expression.cc` 86–141 (`validate_operand`), 187–213 (`FuncInvokeArgs::Validate`), 286–337 (`UnaryExpr`), 360–372 (`BinaryExpr`), 572–595 (`SelectExpr`),
659–880 (`VarAccessor`): what is appended to the node list. `/repo/rapidudf/compiler/compiler_eval.cc` 42–162: evaluation. `/repo/rapidudf/compiler/compiler_expressions.cc`: operands.

The meaning of operators, calls, literals and variables is a parameter (`Sem`); types are not modelled here. Values are computed instead of code being generated: the compiler runs this
machine on descriptions of values, and the code does with values what the machine does with their descriptions.
-/
namespace Verif.Ast.Rpn

mutual
/-- `RPNNode`, expression.h 70: operators, literals, and operands that carry their own postfix lists. -/
inductive Node where
  | bool (b : Bool)
  | str (s : List Char)
  | num (t : List Char)
  | define (n : List Char)
  | array (rs : Rpns)
  | var (n : List Char)
  | call (n : List Char) (rs : Rpns)
  | access (n : List Char) (ms : MNodes)
  | op1 (o : UnOp)
  | op2 (o : BinOp)
  | sel
  /-- a built-in function that is an operator, or a vector function (`FuncInvocation`) -/
  | inl (n : List Char)
/-- `RPN::nodes`, expression.h 72–73. -/
inductive Rpn where
  | nil
  | cons (n : Node) (r : Rpn)
inductive Rpns where
  | nil
  | cons (r : Rpn) (rs : Rpns)
inductive MNodes where
  | nil
  | cons (m : MNode) (ms : MNodes)
inductive MNode where
  | field (n : List Char)
  | method (n : List Char) (rs : Rpns)
  | key (s : List Char)
  | index (t : List Char)
  | ref (n : List Char)
end

def Rpn.append : Rpn → Rpn → Rpn
  | .nil, b => b
  | .cons n r, b => .cons n (r.append b)

/-- The functions whose arguments are put into the list of the surrounding expression, with the number of operands they take: `get_buitin_func_op`, `get_operand_count`
(expression.cc 768–788), and vector functions. -/
abbrev Inline := List Char → Option Nat

/-! ## Flattening -/

mutual
/-- `BinaryExpr::Validate`, `UnaryExpr::Validate`, `SelectExpr::Validate`: the nodes appended. -/
def flatE (inl : Inline) : Expr → Rpn
  | .un none o => flatO inl o
  | .un (some op) o => (flatO inl o).append (.cons (.op1 op) .nil)
  | .bin l op r => (flatE inl l).append ((flatE inl r).append (.cons (.op2 op) .nil))
  | .sel c t f => (flatE inl c).append ((flatE inl t).append ((flatE inl f).append (.cons .sel .nil)))
/-- `validate_operand`, expression.cc 86–141, and `VarAccessor::Validate`, 659–880: a call of an in-place function appends its arguments and itself, whatever the number of arguments
is (805–848). -/
def flatO (inl : Inline) : Operand → Rpn
  | .bool b => .cons (.bool b) .nil
  | .str s => .cons (.str s) .nil
  | .num t => .cons (.num t) .nil
  | .define n => .cons (.define n) .nil
  | .paren e => flatE inl e
  | .array es => .cons (.array (flatEs inl es)) .nil
  | .var n => .cons (.var n) .nil
  | .call n es => match inl n with
    | some _ => (flatArgs inl es).append (.cons (.inl n) .nil)
    | none => .cons (.call n (flatEs inl es)) .nil
  | .access n ms => .cons (.access n (flatMs inl ms)) .nil
/-- Arguments with their own lists (`arg_rpn`), expression.cc 195–204. -/
def flatEs (inl : Inline) : Exprs → Rpns
  | .nil => .nil
  | .cons e es => .cons (flatE inl e) (flatEs inl es)
/-- Arguments appended to the current list, expression.cc 205–211. -/
def flatArgs (inl : Inline) : Exprs → Rpn
  | .nil => .nil
  | .cons e es => (flatE inl e).append (flatArgs inl es)
def flatMs (inl : Inline) : Members → MNodes
  | .nil => .nil
  | .cons m ms => .cons (flatM inl m) (flatMs inl ms)
def flatM (inl : Inline) : Member → MNode
  | .field n => .field n
  | .method n es => .method n (flatEs inl es)
  | .key s => .key s
  | .index t => .index t
  | .ref n => .ref n
end

/-! ## Evaluation -/

/-- The meaning of everything that is not an operand order: each may fail. -/
structure Sem (V : Type) where
  bool : Bool → V
  str : List Char → V
  num : List Char → Option V
  define : List Char → Option V
  var : List Char → Option V
  array : List V → Option V
  call : List Char → List V → Option V
  field : V → List Char → Option V
  method : V → List Char → List V → Option V
  key : V → List Char → Option V
  index : V → List Char → Option V
  ref : V → List Char → Option V
  un : UnOp → V → Option V
  bin : BinOp → V → V → Option V
  sel : V → V → V → Option V
  inl : List Char → List V → Option V

/-- `RPNEvalNode`, compiler.h 163–175. -/
inductive ENode (V : Type) where
  | val (v : V)
  | op1 (o : UnOp)
  | op2 (o : BinOp)
  | sel
  | inl (n : List Char)

/-- One node of the stack evaluation, compiler_eval.cc 103–157. The list has the last element of `operands` first. -/
def step {V : Type} (inl : Inline) (m : Sem V) : ENode V → List V → Option (List V)
  | .val v, s => some (v :: s)
  | .op1 o, a :: s => (m.un o a).map (· :: s)
  | .op2 o, b :: a :: s => (m.bin o a b).map (· :: s)
  | .sel, c :: b :: a :: s => (m.sel a b c).map (· :: s)
  | .inl n, s =>
    match inl n with
    | some k => if s.length < k then none else (m.inl n (s.take k).reverse).map (· :: s.drop k)
    | none => none
  | _, _ => none

/-- The loop, compiler_eval.cc 103–157. -/
def stack {V : Type} (inl : Inline) (m : Sem V) : List (ENode V) → List V → Option (List V)
  | [], s => some s
  | n :: ns, s => (step inl m n s).bind (stack inl m ns)

/-- Exactly one operand must remain, compiler_eval.cc 158–161. -/
def single {V : Type} : List V → Option V
  | [v] => some v
  | _ => none

mutual
/-- First all operands are evaluated, compiler_eval.cc 49–91. -/
def build {V : Type} (inl : Inline) (m : Sem V) : Rpn → Option (List (ENode V))
  | .nil => some []
  | .cons n r => (buildN inl m n).bind fun e => (build inl m r).map (e :: ·)
/-- `BuildIR` of the operands: literals, `compiler_expressions.cc` 25–150. -/
def buildN {V : Type} (inl : Inline) (m : Sem V) : Node → Option (ENode V)
  | .bool b => some (.val (m.bool b))
  | .str s => some (.val (m.str s))
  | .num t => (m.num t).map .val
  | .define n => (m.define n).map .val
  | .array rs => (runs inl m rs).bind fun vs => (m.array vs).map .val
  | .var n => (m.var n).map .val
  | .call n rs => (runs inl m rs).bind fun vs => (m.call n vs).map .val
  | .access n ms => (m.var n).bind fun v => (chain inl m ms v).map .val
  | .op1 o => some (.op1 o)
  | .op2 o => some (.op2 o)
  | .sel => some .sel
  | .inl n => some (.inl n)
/-- `BuildIR(const ast::RPN&)` for each argument. -/
def runs {V : Type} (inl : Inline) (m : Sem V) : Rpns → Option (List V)
  | .nil => some []
  | .cons r rs => ((build inl m r).bind fun es => (stack inl m es []).bind single).bind fun v => (runs inl m rs).map (v :: ·)
/-- The loop over the members, compiler_expressions.cc 117–147. -/
def chain {V : Type} (inl : Inline) (m : Sem V) : MNodes → V → Option V
  | .nil, v => some v
  | .cons (.field n) ms, v => (m.field v n).bind (chain inl m ms)
  | .cons (.method n rs) ms, v => (runs inl m rs).bind fun vs => (m.method v n vs).bind (chain inl m ms)
  | .cons (.key s) ms, v => (m.key v s).bind (chain inl m ms)
  | .cons (.index t) ms, v => (m.index v t).bind (chain inl m ms)
  | .cons (.ref n) ms, v => (m.ref v n).bind (chain inl m ms)
end

/-- `JitCompiler::BuildIR(const ast::RPN&)`, compiler_eval.cc 42–98. -/
def run {V : Type} (inl : Inline) (m : Sem V) (r : Rpn) : Option V := (build inl m r).bind fun es => (stack inl m es []).bind single

/-! ## Specification: the value of a tree -/

def Exprs.length : Exprs → Nat
  | .nil => 0
  | .cons _ es => Exprs.length es + 1

mutual
/-- The value of an expression. -/
def evalE {V : Type} (inl : Inline) (m : Sem V) : Expr → Option V
  | .un none o => evalO inl m o
  | .un (some op) o => (evalO inl m o).bind (m.un op)
  | .bin l op r => (evalE inl m l).bind fun a => (evalE inl m r).bind fun b => m.bin op a b
  | .sel c t f => (evalE inl m c).bind fun a => (evalE inl m t).bind fun b => (evalE inl m f).bind fun d => m.sel a b d
/-- The value of an operand; a built-in function called with a wrong number of arguments has none. -/
def evalO {V : Type} (inl : Inline) (m : Sem V) : Operand → Option V
  | .bool b => some (m.bool b)
  | .str s => some (m.str s)
  | .num t => m.num t
  | .define n => m.define n
  | .paren e => evalE inl m e
  | .array es => (evalEs inl m es).bind m.array
  | .var n => m.var n
  | .call n es => (evalEs inl m es).bind fun vs => match inl n with
    | some k => if vs.length = k then m.inl n vs else none
    | none => m.call n vs
  | .access n ms => (m.var n).bind (evalMs inl m ms)
def evalEs {V : Type} (inl : Inline) (m : Sem V) : Exprs → Option (List V)
  | .nil => some []
  | .cons e es => (evalE inl m e).bind fun v => (evalEs inl m es).map (v :: ·)
def evalMs {V : Type} (inl : Inline) (m : Sem V) : Members → V → Option V
  | .nil, v => some v
  | .cons (.field n) ms, v => (m.field v n).bind (evalMs inl m ms)
  | .cons (.method n es) ms, v => (evalEs inl m es).bind fun vs => (m.method v n vs).bind (evalMs inl m ms)
  | .cons (.key s) ms, v => (m.key v s).bind (evalMs inl m ms)
  | .cons (.index t) ms, v => (m.index v t).bind (evalMs inl m ms)
  | .cons (.ref n) ms, v => (m.ref v n).bind (evalMs inl m ms)
end

mutual
/-- Every built-in function is called with its number of arguments. -/
def Arity (inl : Inline) : Expr → Prop
  | .un _ o => ArityO inl o
  | .bin l _ r => Arity inl l ∧ Arity inl r
  | .sel c t f => Arity inl c ∧ Arity inl t ∧ Arity inl f
def ArityO (inl : Inline) : Operand → Prop
  | .paren e => Arity inl e
  | .array es => ArityEs inl es
  | .call n es => ArityEs inl es ∧ ∀ k, inl n = some k → Exprs.length es = k
  | .access _ ms => ArityMs inl ms
  | .bool _ => True
  | .str _ => True
  | .num _ => True
  | .define _ => True
  | .var _ => True
def ArityEs (inl : Inline) : Exprs → Prop
  | .nil => True
  | .cons e es => Arity inl e ∧ ArityEs inl es
def ArityMs (inl : Inline) : Members → Prop
  | .nil => True
  | .cons (.method _ es) ms => ArityEs inl es ∧ ArityMs inl ms
  | .cons (.field _) ms => ArityMs inl ms
  | .cons (.key _) ms => ArityMs inl ms
  | .cons (.index _) ms => ArityMs inl ms
  | .cons (.ref _) ms => ArityMs inl ms
end

/-! ## Proofs -/

section
variable {V : Type} (inl : Inline) (m : Sem V)

/-- A list run on a stack. -/
def exec (r : Rpn) (s : List V) : Option (List V) := (build inl m r).bind fun es => stack inl m es s

theorem build_append (a b : Rpn) : build inl m (a.append b) = (build inl m a).bind fun x => (build inl m b).map (x ++ ·) := by
  induction a using Rpn.rec (motive_1 := fun _ => True) (motive_3 := fun _ => True) (motive_4 := fun _ => True) (motive_5 := fun _ => True) with
  | nil => simp [Rpn.append, build]
  | cons n r _ ih =>
    rw [Rpn.append, build, build, ih]
    cases buildN inl m n with
    | none => rfl
    | some e => cases build inl m r with
      | none => rfl
      | some x => cases build inl m b <;> rfl
  | _ => trivial

theorem stack_append (x y : List (ENode V)) : ∀ s, stack inl m (x ++ y) s = (stack inl m x s).bind (stack inl m y) := by
  induction x with
  | nil => intro s; rfl
  | cons n x ih =>
    intro s
    rw [List.cons_append, stack, stack]
    cases step inl m n s with
    | none => rfl
    | some s' => exact ih s'

theorem exec_append (a b : Rpn) (s : List V) : exec inl m (a.append b) s = (exec inl m a s).bind (exec inl m b) := by
  unfold exec
  rw [build_append]
  cases build inl m a with
  | none => rfl
  | some x => cases hb : build inl m b with
    | none =>
      simp
    | some y => simp [stack_append]

theorem exec_val (n : Node) (v : Option V) (h : buildN inl m n = v.map .val) (s : List V) : exec inl m (.cons n .nil) s = v.map (· :: s) := by
  unfold exec
  rw [build, h]
  cases v <;> rfl

theorem exec_op (n : Node) (e : ENode V) (h : buildN inl m n = some e) (s : List V) : exec inl m (.cons n .nil) s = step inl m e s := by
  unfold exec
  rw [build, h]
  simp [build, stack]

theorem run_exec (r : Rpn) (v : Option V) (h : ∀ s, exec inl m r s = v.map (· :: s)) : run inl m r = v := by
  have := h []
  unfold exec at this
  unfold run
  cases hb : build inl m r with
  | none => rw [hb] at this; cases v <;> simp_all
  | some es =>
    rw [hb] at this
    simp only [Option.bind_some] at this ⊢
    rw [this]
    cases v <;> simp [single]

theorem evalEs_length (es : Exprs) : ∀ vs, evalEs inl m es = some vs → vs.length = Exprs.length es := by
  induction es using Exprs.rec (motive_1 := fun _ => True) (motive_2 := fun _ => True) (motive_4 := fun _ => True) (motive_5 := fun _ => True) with
  | nil => intro vs h; rw [evalEs] at h; simp at h; subst h; rfl
  | cons e es _ ih =>
    intro vs h
    rw [evalEs] at h
    cases he : evalE inl m e with
    | none => rw [he] at h; simp at h
    | some v =>
      rw [he] at h
      simp at h
      obtain ⟨ws, hw, rfl⟩ := h
      simp [Exprs.length, ih ws hw]
  | _ => trivial

mutual
theorem flatE_ok (e : Expr) (h : Arity inl e) : ∀ s, exec inl m (flatE inl e) s = (evalE inl m e).map (· :: s) := by
  match e with
  | .un none o => rw [Arity] at h; rw [flatE, evalE]; exact flatO_ok o h
  | .un (some op) o =>
    rw [Arity] at h
    have ho := flatO_ok o h
    intro s
    rw [flatE, evalE, exec_append, ho, ]
    cases evalO inl m o with
    | none => rfl
    | some a => simp [exec_op inl m (.op1 op) (.op1 op) rfl, step]
  | .bin l op r =>
    rw [Arity] at h
    have hl := flatE_ok l h.1
    have hr := flatE_ok r h.2
    intro s
    rw [flatE, evalE, exec_append, hl]
    cases evalE inl m l with
    | none => rfl
    | some a =>
      simp only [Option.map_some, Option.bind_some]
      rw [exec_append, hr]
      cases evalE inl m r with
      | none => rfl
      | some b => simp [exec_op inl m (.op2 op) (.op2 op) rfl, step]
  | .sel c t f =>
    rw [Arity] at h
    have hc := flatE_ok c h.1
    have ht := flatE_ok t h.2.1
    have hf := flatE_ok f h.2.2
    intro s
    rw [flatE, evalE, exec_append, hc]
    cases evalE inl m c with
    | none => rfl
    | some a =>
      simp only [Option.map_some, Option.bind_some]
      rw [exec_append, ht]
      cases evalE inl m t with
      | none => rfl
      | some b =>
        simp only [Option.map_some, Option.bind_some]
        rw [exec_append, hf]
        cases evalE inl m f with
        | none => rfl
        | some d => simp [exec_op inl m .sel .sel rfl, step]
theorem flatO_ok (o : Operand) (h : ArityO inl o) : ∀ s, exec inl m (flatO inl o) s = (evalO inl m o).map (· :: s) := by
  match o with
  | .bool b => intro s; rw [flatO, evalO]; exact exec_val inl m (.bool b) (some (m.bool b)) rfl s
  | .str t => intro s; rw [flatO, evalO]; exact exec_val inl m (.str t) (some (m.str t)) rfl s
  | .num t => intro s; rw [flatO, evalO]; exact exec_val inl m (.num t) (m.num t) rfl s
  | .define n => intro s; rw [flatO, evalO]; exact exec_val inl m (.define n) (m.define n) rfl s
  | .paren e => rw [ArityO] at h; rw [flatO, evalO]; exact flatE_ok e h
  | .array es =>
    rw [ArityO] at h
    have he := flatEs_ok es h
    intro s
    rw [flatO, evalO]
    refine exec_val inl m _ _ ?_ s
    rw [buildN, he]
    cases evalEs inl m es <;> rfl
  | .var n => intro s; rw [flatO, evalO]; exact exec_val inl m (.var n) (m.var n) rfl s
  | .call n es =>
    rw [ArityO] at h
    have he := flatEs_ok es h.1
    have ha := flatArgs_ok es h.1
    intro s
    rw [flatO, evalO]
    cases hn : inl n with
    | none =>
      simp only
      refine exec_val inl m _ _ ?_ s
      rw [buildN, he]
      cases evalEs inl m es <;> rfl
    | some k =>
      simp only
      rw [exec_append, ha]
      cases hv : evalEs inl m es with
      | none => rfl
      | some vs =>
        have hk : vs.length = k := by rw [evalEs_length inl m es vs hv]; exact h.2 k hn
        simp only [Option.map_some, Option.bind_some]
        rw [exec_op inl m (.inl n) (.inl n) rfl]
        simp only [step, hn, if_pos hk]
        rw [if_neg (by simp [hk])]
        rw [List.take_left' (by simp [hk]), List.drop_left' (by simp [hk]), List.reverse_reverse]
  | .access n ms =>
    rw [ArityO] at h
    have hm := flatMs_ok ms h
    intro s
    rw [flatO, evalO]
    refine exec_val inl m _ _ ?_ s
    rw [buildN]
    cases m.var n with
    | none => rfl
    | some v => simp [hm v]
theorem flatEs_ok (es : Exprs) (h : ArityEs inl es) : runs inl m (flatEs inl es) = evalEs inl m es := by
  match es with
  | .nil => rw [flatEs, runs, evalEs]
  | .cons e es =>
    rw [ArityEs] at h
    have he := run_exec inl m _ _ (flatE_ok e h.1)
    have hes := flatEs_ok es h.2
    rw [flatEs, runs, evalEs, hes]
    unfold run at he
    rw [he]
theorem flatArgs_ok (es : Exprs) (h : ArityEs inl es) : ∀ s, exec inl m (flatArgs inl es) s = (evalEs inl m es).map (fun vs => vs.reverse ++ s) := by
  match es with
  | .nil => intro s; rw [flatArgs, evalEs]; rfl
  | .cons e es =>
    rw [ArityEs] at h
    have he := flatE_ok e h.1
    have hes := flatArgs_ok es h.2
    intro s
    rw [flatArgs, evalEs, exec_append, he]
    cases evalE inl m e with
    | none => rfl
    | some v =>
      simp only [Option.map_some, Option.bind_some]
      rw [hes]
      cases evalEs inl m es <;> simp
theorem flatMs_ok (ms : Members) (h : ArityMs inl ms) : ∀ v, chain inl m (flatMs inl ms) v = evalMs inl m ms v := by
  match ms with
  | .nil => intro v; rw [flatMs, chain, evalMs]
  | .cons (.field n) ms =>
    rw [ArityMs] at h
    have hm := flatMs_ok ms h
    intro v
    rw [flatMs, flatM, chain, evalMs]
    exact Option.bind_congr fun w _ => hm w
  | .cons (.method n es) ms =>
    rw [ArityMs] at h
    have he := flatEs_ok es h.1
    have hm := flatMs_ok ms h.2
    intro v
    rw [flatMs, flatM, chain, evalMs, he]
    exact Option.bind_congr fun vs _ => Option.bind_congr fun w _ => hm w
  | .cons (.key n) ms =>
    rw [ArityMs] at h
    have hm := flatMs_ok ms h
    intro v
    rw [flatMs, flatM, chain, evalMs]
    exact Option.bind_congr fun w _ => hm w
  | .cons (.index n) ms =>
    rw [ArityMs] at h
    have hm := flatMs_ok ms h
    intro v
    rw [flatMs, flatM, chain, evalMs]
    exact Option.bind_congr fun w _ => hm w
  | .cons (.ref n) ms =>
    rw [ArityMs] at h
    have hm := flatMs_ok ms h
    intro v
    rw [flatMs, flatM, chain, evalMs]
    exact Option.bind_congr fun w _ => hm w
end

/-- **C34.** The flattened expression, evaluated on the stack, has the value of the tree: it never runs out of operands, leaves exactly one value, and every operator gets its operands
in source order (a failure on either side is a failure on the other). -/
theorem flattened_value (e : Expr) (h : Arity inl e) : run inl m (flatE inl e) = evalE inl m e := run_exec inl m _ _ (flatE_ok inl m e h)

/-! ## C88 -/

mutual
/-- By how much the built-in functions called outside of other calls get too many (positive) or too few (negative) arguments. -/
def surplus (inl : Inline) : Expr → Int
  | .un _ o => surplusO inl o
  | .bin l _ r => surplus inl l + surplus inl r
  | .sel c t f => surplus inl c + surplus inl t + surplus inl f
def surplusO (inl : Inline) : Operand → Int
  | .paren e => surplus inl e
  | .call n es => match inl n with
    | some k => surplusEs inl es + ((Exprs.length es : Int) - k)
    | none => 0
  | .bool _ => 0
  | .str _ => 0
  | .num _ => 0
  | .define _ => 0
  | .array _ => 0
  | .var _ => 0
  | .access _ _ => 0
def surplusEs (inl : Inline) : Exprs → Int
  | .nil => 0
  | .cons e es => surplus inl e + surplusEs inl es
end

/-- How much longer a list makes the stack. -/
def Grows (r : Rpn) (d : Int) : Prop := ∀ s s', exec inl m r s = some s' → (s'.length : Int) = s.length + d

theorem Grows.append {a b : Rpn} {x y : Int} (ha : Grows inl m a x) (hb : Grows inl m b y) : Grows inl m (a.append b) (x + y) := by
  intro s s' h
  rw [exec_append] at h
  cases h1 : exec inl m a s with
  | none => rw [h1] at h; simp at h
  | some t =>
    rw [h1] at h
    have := ha s t h1
    have := hb t s' h
    omega

theorem Grows.val (n : Node) (v : Option V) (h : buildN inl m n = v.map .val) : Grows inl m (.cons n .nil) 1 := by
  intro s s' hs
  rw [exec_val inl m n v h] at hs
  cases v with
  | none => simp at hs
  | some a => simp at hs; subst hs; simp

theorem Grows.op1 (o : UnOp) : Grows inl m (.cons (.op1 o) .nil) 0 := by
  intro s s' hs
  rw [exec_op inl m (.op1 o) (.op1 o) rfl] at hs
  match s with
  | [] => simp [step] at hs
  | a :: s => simp [step] at hs; obtain ⟨_, _, rfl⟩ := hs; simp

theorem Grows.op2 (o : BinOp) : Grows inl m (.cons (.op2 o) .nil) (-1) := by
  intro s s' hs
  rw [exec_op inl m (.op2 o) (.op2 o) rfl] at hs
  match s with
  | [] => simp [step] at hs
  | [a] => simp [step] at hs
  | b :: a :: s => simp [step] at hs; obtain ⟨_, _, rfl⟩ := hs; simp; omega

theorem Grows.sel : Grows inl m (.cons .sel .nil) (-2) := by
  intro s s' hs
  rw [exec_op inl m .sel .sel rfl] at hs
  match s with
  | [] => simp [step] at hs
  | [a] => simp [step] at hs
  | [a, b] => simp [step] at hs
  | c :: b :: a :: s => simp [step] at hs; obtain ⟨_, _, rfl⟩ := hs; simp; omega

theorem Grows.inline (n : List Char) (k : Nat) (hn : inl n = some k) : Grows inl m (.cons (.inl n) .nil) (1 - k) := by
  intro s s' hs
  rw [exec_op inl m (.inl n) (.inl n) rfl] at hs
  simp only [step, hn] at hs
  split at hs
  · simp at hs
  · simp at hs; obtain ⟨_, _, rfl⟩ := hs; simp; omega

theorem Grows.cast {r : Rpn} {a b : Int} (h : Grows inl m r a) (e : a = b) : Grows inl m r b := e ▸ h

mutual
theorem growsE (e : Expr) : Grows inl m (flatE inl e) (1 + surplus inl e) := by
  match e with
  | .un none o => rw [flatE, surplus]; exact growsO o
  | .un (some op) o => rw [flatE, surplus]; exact ((growsO o).append inl m (Grows.op1 inl m op)).cast inl m (by omega)
  | .bin l op r => rw [flatE, surplus]; exact ((growsE l).append inl m ((growsE r).append inl m (Grows.op2 inl m op))).cast inl m (by omega)
  | .sel c t f => rw [flatE, surplus]; exact ((growsE c).append inl m ((growsE t).append inl m ((growsE f).append inl m (Grows.sel inl m)))).cast inl m (by omega)
theorem growsO (o : Operand) : Grows inl m (flatO inl o) (1 + surplusO inl o) := by
  match o with
  | .bool b => rw [flatO, surplusO]; exact Grows.val inl m _ (some _) rfl
  | .str t => rw [flatO, surplusO]; exact Grows.val inl m _ (some _) rfl
  | .num t => rw [flatO, surplusO]; exact Grows.val inl m _ (m.num t) rfl
  | .define n => rw [flatO, surplusO]; exact Grows.val inl m _ (m.define n) rfl
  | .paren e => rw [flatO, surplusO]; exact growsE e
  | .array es => rw [flatO, surplusO]; exact Grows.val inl m _ ((runs inl m (flatEs inl es)).bind m.array) (by rw [buildN]; cases runs inl m (flatEs inl es) <;> rfl)
  | .var n => rw [flatO, surplusO]; exact Grows.val inl m _ (m.var n) rfl
  | .call n es =>
    rw [flatO, surplusO]
    cases hn : inl n with
    | none => simp only; exact Grows.val inl m _ ((runs inl m (flatEs inl es)).bind (m.call n)) (by rw [buildN]; cases runs inl m (flatEs inl es) <;> rfl)
    | some k => simp only; exact ((growsArgs es).append inl m (Grows.inline inl m n k hn)).cast inl m (by omega)
  | .access n ms =>
    rw [flatO, surplusO]
    exact Grows.val inl m _ ((m.var n).bind (chain inl m (flatMs inl ms))) (by rw [buildN]; cases m.var n <;> rfl)
theorem growsArgs (es : Exprs) : Grows inl m (flatArgs inl es) (Exprs.length es + surplusEs inl es) := by
  match es with
  | .nil => rw [flatArgs, surplusEs]; intro s s' h; simp [exec, build, stack] at h; subst h; simp [Exprs.length]
  | .cons e es =>
    rw [flatArgs, surplusEs]
    refine ((growsE e).append inl m (growsArgs es)).cast inl m ?_
    simp only [Exprs.length]
    omega
end

/-- **C88, the part that holds.** An accepted expression has as many arguments in total as its built-in functions take: one call with a wrong number of arguments, or several wrong in
the same direction, are refused. -/
theorem total_arity_partial (e : Expr) (v : V) (h : run inl m (flatE inl e) = some v) : surplus inl e = 0 := by
  unfold run at h
  cases hb : build inl m (flatE inl e) with
  | none => rw [hb] at h; simp at h
  | some es =>
    rw [hb] at h
    simp only [Option.bind_some] at h
    cases hs : stack inl m es [] with
    | none => rw [hs] at h; simp at h
    | some s =>
      rw [hs] at h
      have hg := growsE inl m e [] s (by unfold exec; rw [hb]; exact hs)
      have hl : s.length = 1 := by
        match s with
        | [] => simp [single] at h
        | [a] => rfl
        | a :: b :: s => simp [single] at h
      simp at hg
      omega
end

/-- A small language for the examples: variables `a`, `b`, `c`, `d` and a built-in `max` of two numbers. -/
def exInline : Inline := fun n => if n = ['m'] then some 2 else none

def exSem (a b c d : Int) : Sem Int where
  bool b := if b then 1 else 0
  str _ := 0
  num _ := none
  define _ := none
  var n := if n = ['a'] then some a else if n = ['b'] then some b else if n = ['c'] then some c else if n = ['d'] then some d else none
  array _ := none
  call _ _ := none
  field _ _ := none
  method _ _ _ := none
  key _ _ := none
  index _ _ := none
  ref _ _ := none
  un _ v := some (-v)
  bin o x y := match o with | .add => some (x + y) | _ => none
  sel c t f := some (if c = 0 then f else t)
  inl _ vs := match vs with | [x, y] => some (max x y) | _ => none

def exVar (c : Char) : Expr := .un none (.var [c])

/-- `max(a, b, c) + max(d)`, which has no value. -/
def exWrong : Expr :=
  .bin (.un none (.call ['m'] (.cons (exVar 'a') (.cons (exVar 'b') (.cons (exVar 'c') .nil))))) .add (.un none (.call ['m'] (.cons (exVar 'd') .nil)))

/-- **C88, violated.** `max(a, b, c) + max(d)` is accepted although both calls have a wrong number of arguments, and computes `a + max(max(b, c), d)`. -/
theorem wrong_arity_violated (a b c d : Int) :
    evalE exInline (exSem a b c d) exWrong = none ∧ run exInline (exSem a b c d) (flatE exInline exWrong) = some (a + max (max b c) d) := by
  constructor
  · simp [exWrong, exVar, evalE, evalO, evalEs, exInline, exSem]
  · simp [exWrong, exVar, flatE, flatO, flatArgs, exInline, Rpn.append, run, build, buildN, exSem, stack, step, single]

example : Arity exInline (.bin (exVar 'a') .add (.un none (.call ['m'] (.cons (exVar 'b') (.cons (exVar 'c') .nil))))) := by
  simp [Arity, ArityO, ArityEs, exVar, exInline, Exprs.length]

end Verif.Ast.Rpn
