import Verif.Gen.ScalarLine
/-!
# C37, C38, C93, C94: variables, operands that need not be evaluated, the order of evaluation, and which expressions are compiled
-/
namespace Verif.Gen.Scalar
open Verif.Ast Verif.Ast.Rpn

section
variable {Ty V W : Type} [DecidableEq Ty] {rt : Rt Ty V W} {inl : Inline}

theorem prog_ok (ls : List Line) : ∀ {env : Env Ty V} {cs cs' : CS Ty} {rs : RS V W} {u : Unit} {is : List (Instr Ty V)}, Match env cs rs → (∀ l ∈ ls, Good inl l) →
    gProg rt inl (ls.map Line.expr) cs = some (u, is, cs') → match progM rt inl env ls rs.w with
      | none => run rt is rs = none
      | some r => ∃ rs', run rt is rs = some rs' ∧ rs'.w = r.1 ∧ Match r.2 cs' rs' := by
  induction ls with
  | nil =>
    intro env cs cs' rs u is hm _ hg
    simp [gProg, G.ret] at hg
    obtain ⟨rfl, rfl⟩ := hg
    exact ⟨rs, rfl, rfl, hm⟩
  | cons l ls ih =>
    intro env cs cs' rs u is hm hl hg
    rw [List.map_cons, gProg] at hg
    obtain ⟨h, i1, c1, i2, g1, g2, rfl⟩ := G.some_of_then hg
    have h1 := line_ok hm (hl l (by simp)) g1
    rw [run_append]
    simp only [progM, M.andThen]
    cases he : lineM rt inl env l rs.w with
    | none => rw [he] at h1; simp only [Option.bind_none]; rw [h1]; rfl
    | some r =>
      rw [he] at h1
      obtain ⟨rs1, e1, e2, e3⟩ := h1
      rw [e1]
      simp only [Option.bind_some]
      have h2 := ih e3 (fun m hm => hl m (by simp [hm])) g2
      rw [e2] at h2
      exact h2

/-! ## C37 -/

/-- The variable a statement gives a value. -/
def Line.target : Line → Option Name
  | .define x _ => some x
  | .assign x _ => some x
  | .update _ x _ => some x
  | .eval _ => none

theorem line_keeps {env : Env Ty V} {l : Line} {a : Name} (h : l.target ≠ some a) {w : W} {r : W × Env Ty V} (hr : lineM rt inl env l w = some r) : r.2 a = env a := by
  cases l with
  | define x e =>
    have hx : a ≠ x := fun hh => h (by rw [hh]; rfl)
    rw [lineM] at hr
    obtain ⟨q, _, h2⟩ := M.some_of_then hr
    rw [← M.some_of_ret h2]
    simp [Env.set, hx]
  | assign x e =>
    have hx : a ≠ x := fun hh => h (by rw [hh]; rfl)
    rw [lineM] at hr
    obtain ⟨q, _, h2⟩ := M.some_of_then hr
    rw [← M.some_of_ret h2]
    simp [Env.set, hx]
  | update op x e =>
    have hx : a ≠ x := fun hh => h (by rw [hh]; rfl)
    rw [lineM] at hr
    obtain ⟨q, _, h2⟩ := M.some_of_then hr
    obtain ⟨u, _, h3⟩ := bind_some_of (M.some_of_lift h2)
    obtain ⟨o, _, h4⟩ := bind_some_of h3
    cases hz : binTV rt o u q.2 with
    | none => rw [hz] at h4; simp at h4
    | some z => rw [hz] at h4; simp at h4; rw [← h4]; simp [Env.set, hx]
  | eval e =>
    rw [lineM] at hr
    obtain ⟨q, _, h2⟩ := M.some_of_then hr
    rw [← M.some_of_ret h2]

theorem prog_keeps (ls : List Line) : ∀ {env : Env Ty V} {a : Name}, (∀ l ∈ ls, l.target ≠ some a) → ∀ {w : W} {r : W × Env Ty V}, progM rt inl env ls w = some r → r.2 a = env a := by
  induction ls with
  | nil => intro env a _ w r hr; rw [progM] at hr; rw [← M.some_of_ret hr]
  | cons l ls ih =>
    intro env a h w r hr
    rw [progM] at hr
    obtain ⟨q, h1, h2⟩ := M.some_of_then hr
    exact (ih (fun m hm => h m (by simp [hm])) h2).trans (line_keeps (h l (by simp)) h1)

/-- C37, first part. The code of any straight-line program of definitions, assignments, compound assignments and expressions does to the variables and to the outside what the statements
say one after another: each changes the variable it names and no other. Missing: definitions whose right-hand side is a variable alone (false, `assignment_changes_other_violated`),
assignments inside expressions (see C93), arrays and member accesses. -/
theorem assignments_do_what_they_say_partial (ls : List Line) {env : Env Ty V} {cs cs' : CS Ty} {rs : RS V W} {is : List (Instr Ty V)} (hm : Match env cs rs)
    (hl : ∀ l ∈ ls, Good inl l) (hg : gProg rt inl (ls.map Line.expr) cs = some ((), is, cs')) :
    match progM rt inl env ls rs.w with
      | none => run rt is rs = none
      | some r => ∃ rs', run rt is rs = some rs' ∧ rs'.w = r.1 ∧ ∀ n, envOf cs'.vars rs'.slots n = r.2 n := by
  have h := prog_ok ls hm hl hg
  cases hp : progM rt inl env ls rs.w with
  | none => rw [hp] at h; exact h
  | some r =>
    rw [hp] at h
    obtain ⟨rs', h1, h2, h3⟩ := h
    exact ⟨rs', h1, h2, fun n => (h3.env n).symm⟩

/-- C37, second part. A variable no statement names keeps its value. Missing: as in the first part. -/
theorem other_variables_unchanged_partial (ls : List Line) (a : Name) {cs cs' : CS Ty} {rs rs' : RS V W} {is : List (Instr Ty V)} (hm : Match (envOf cs.vars rs.slots) cs rs)
    (hl : ∀ l ∈ ls, Good inl l) (ha : ∀ l ∈ ls, l.target ≠ some a) (hg : gProg rt inl (ls.map Line.expr) cs = some ((), is, cs')) (hr : run rt is rs = some rs') :
    envOf cs'.vars rs'.slots a = envOf cs.vars rs.slots a := by
  have h := assignments_do_what_they_say_partial ls hm hl hg
  cases hp : progM rt inl (envOf cs.vars rs.slots) ls rs.w with
  | none => rw [hp] at h; simp only at h; rw [hr] at h; simp at h
  | some r =>
    rw [hp] at h
    obtain ⟨rs2, h1, _, h3⟩ := h
    rw [hr] at h1
    injection h1 with h1
    subst h1
    rw [h3 a]
    exact prog_keeps ls ha hp

/-! ## C38, C93, C94 -/

/-- C93. The code of an expression without assignments evaluates all its operands from left to right: calls happen in the order in which they are written, each once, with the values of
their arguments, and the result is the value of the expression. What happens before a trap is not observed. Missing: assignments inside expressions (false,
`operand_order_violated`), arrays and member accesses. -/
theorem operand_order_partial (e : Expr) {cs cs' : CS Ty} {rs : RS V W} {h : H Ty V} {is : List (Instr Ty V)} (hp : Plain inl e) (hv : ∀ n, varsE e n → cs.vars n ≠ some none)
    (hr : cs.nreg = rs.regs.length) (hg : gExpr rt inl e cs = some (h, is, cs')) :
    match eagerE rt inl (envOf cs.vars rs.slots) e rs.w with
      | none => run rt is rs = none
      | some r => ∃ rs', run rt is rs = some rs' ∧ rs'.w = r.1 ∧ rs'.slots = rs.slots ∧ Den cs.vars rs.slots rs'.regs h r.2 := by
  have h1 := sim_gExpr (rt := rt) (slots := rs.slots) inl e hp hv rs.regs cs rfl hr h is cs' hg rs.w
  cases he : eagerE rt inl (envOf cs.vars rs.slots) e rs.w with
  | none => rw [he] at h1; exact h1
  | some r =>
    rw [he] at h1
    obtain ⟨ext, e1, _, e3⟩ := h1
    exact ⟨_, e1, rfl, rfl, e3⟩

theorem typed_envOf (vars : Vars Ty) (slots : Nat → V) : Typed (envOf vars slots) (tenvOf vars) := by
  intro n
  unfold tenvOf envOf
  cases vars n with
  | none => rfl
  | some b => cases b <;> rfl

/-- C94. Code is generated for an expression without assignments exactly if it has a type: the operators and functions are defined on the types of their operands after conversion to the
common type; the result has that type. Missing: assignments, arrays and member accesses. -/
theorem well_typed_compiles_partial (e : Expr) (cs : CS Ty) (hp : Plain inl e) (hv : ∀ n, varsE e n → cs.vars n ≠ some none) :
    match tyE rt inl (tenvOf cs.vars) e with
      | none => gExpr rt inl e cs = none
      | some t => ∃ h is cs', gExpr rt inl e cs = some (h, is, cs') ∧ cs'.vars = cs.vars ∧ HT cs.vars h t := by
  have h := ty_gExpr (rt := rt) inl e hp hv cs rfl
  cases ht : tyE rt inl (tenvOf cs.vars) e with
  | none => rw [ht] at h; exact h
  | some t => rw [ht] at h; exact h

/-- C38. When the operands that short-circuit evaluation may skip (the second operands of `&&` and `||`, the branches of `? :`) call nothing and cannot trap, the code behaves as
short-circuit evaluation does. Missing: operands with calls or trapping operators, for which the claim is false (`conditional_operand_call_violated`, `conditional_operand_trap_violated`). -/
theorem conditional_operands_partial (e : Expr) {cs cs' : CS Ty} {rs : RS V W} {h : H Ty V} {is : List (Instr Ty V)} (hp : Plain inl e) (hq : Guarded rt inl e)
    (hv : ∀ n, varsE e n → cs.vars n ≠ some none) (hr : cs.nreg = rs.regs.length) (hg : gExpr rt inl e cs = some (h, is, cs')) :
    match lazyE rt inl (envOf cs.vars rs.slots) (tenvOf cs.vars) e rs.w with
      | none => run rt is rs = none
      | some r => ∃ rs', run rt is rs = some rs' ∧ rs'.w = r.1 ∧ rs'.slots = rs.slots ∧ Den cs.vars rs.slots rs'.regs h r.2 := by
  have h1 := operand_order_partial e hp hv hr hg
  have h2 := well_typed_compiles_partial (rt := rt) e cs hp hv
  cases ht : tyE rt inl (tenvOf cs.vars) e with
  | none => rw [ht] at h2; simp only at h2; rw [hg] at h2; simp at h2
  | some t => rw [lazy_eager (typed_envOf cs.vars rs.slots) e hp hq t ht]; exact h1

end

/-! ## A small instance -/

inductive DTy where
  | bit
  | int
  deriving DecidableEq

/-- Booleans and integers; `f` notes its argument and returns whether it is positive. -/
def demo : Rt DTy Int (List Int) where
  bool b := (.bit, if b = true then 1 else 0)
  str _ := (.int, 0)
  num t := if t = ['0'] then some (.int, 0) else if t = ['1'] then some (.int, 1) else if t = ['5'] then some (.int, 5) else none
  isBit t := decide (t = .bit)
  truth v := decide (v ≠ 0)
  norm _ _ := some .int
  cast a b := if a = .bit ∧ b = .int then some id else none
  un op t := if op = .neg ∧ t = .int then some (.int, fun a => some (-a)) else none
  bin op t := if op = .add ∧ t = .int then some (.int, fun a b => some (a + b))
    else if op = .div ∧ t = .int then some (.int, fun a b => if b = 0 then none else some (a / b))
    else if op = .ne ∧ t = .int then some (.bit, fun a b => some (if a = b then 0 else 1)) else none
  fn n := if n = ['f'] then some ([.int], .bit, fun vs w => match vs with
    | [v] => some (w ++ [v], if 0 < v then 1 else 0)
    | _ => none) else none
  inl _ _ := none

def noInl : Inline := fun _ => none

/-- One integer variable, with a value. -/
def oneVar (x : Name) : CS DTy := ⟨0, 1, fun k => if k = x then some (some (.int, 0)) else none⟩
def start (v : Int) : RS Int (List Int) := ⟨[], fun _ => v, []⟩

theorem match_oneVar (x : Name) (v : Int) : Match (envOf (oneVar x).vars (start v).slots) (oneVar x) (start v) where
  regs := rfl
  typed := by intro n; simp only [oneVar]; split <;> simp
  env := fun _ => rfl
  below := by intro n b h; simp only [oneVar] at h ⊢; split at h <;> simp at h; rw [← h]; simp
  apart := by
    intro n m b c h1 h2 _
    simp only [oneVar] at h1 h2
    split at h1
    · split at h2
      · next p q => rw [p, q]
      · simp at h2
    · simp at h1

def eVar (n : Name) : Expr := .un none (.var n)
def eNum (t : List Char) : Expr := .un none (.num t)
def eBool (b : Bool) : Expr := .un none (.bool b)
def eCall (n : Name) (e : Expr) : Expr := .un none (.call n (.cons e .nil))
def eParen (e : Expr) : Expr := .un none (.paren e)

/-- What a program leaves in a variable and outside. -/
def result (es : List Expr) (x : Name) (v : Int) (y : Name) : Option (Option (DTy × Int) × List Int) :=
  (gProg demo noInl es (oneVar x)).bind fun r => (run demo r.2.1 (start v)).map fun rs => (envOf r.2.2.vars rs.slots y, rs.w)

/-- C37 fails: `var b = a; b = 5;` changes `a`, which no statement names. -/
theorem assignment_changes_other_violated : ∃ ls : List Line, (∀ l ∈ ls, l.target ≠ some ['a']) ∧ result (ls.map Line.expr) ['a'] 1 ['a'] = some (some (.int, 5), []) :=
  ⟨[.define ['b'] (eVar ['a']), .assign ['b'] (eNum ['5'])], by decide, by decide +kernel⟩

/-- It does not if the right-hand side is not a variable alone: `var b = a + 0; b = 5;`. -/
example : result ([.define ['b'] (.bin (eVar ['a']) .add (eNum ['0'])), .assign ['b'] (eNum ['5'])].map Line.expr) ['a'] 1 ['a'] = some (some (.int, 1), []) := by decide +kernel

example : ∀ l ∈ [Line.define ['b'] (.bin (eVar ['a']) .add (eNum ['0'])), .assign ['b'] (eNum ['5']), .update .addAssign ['b'] (eVar ['a'])], Good noInl l := by
  intro l hl
  simp only [List.mem_cons, List.not_mem_nil, or_false] at hl
  rcases hl with rfl | rfl | rfl <;> simp [Good, Plain, PlainO, eVar, eNum, BareE, baseOp, varsE, varsO]

example : (gProg demo noInl ([Line.define ['b'] (.bin (eVar ['a']) .add (eNum ['0'])), .assign ['b'] (eNum ['5']), .update .addAssign ['b'] (eVar ['a'])].map Line.expr) (oneVar ['a'])).isSome = true := by
  decide +kernel

/-- C38 fails: `false && f(1)` calls `f`. -/
theorem conditional_operand_call_violated : result [.bin (eBool false) .and (eCall ['f'] (eNum ['1']))] ['a'] 1 ['a'] = some (some (.int, 1), [1]) ∧
    (lazyE demo noInl (fun _ => none) (fun _ => none) (.bin (eBool false) .and (eCall ['f'] (eNum ['1']))) []).map (·.1) = some [] :=
  ⟨by decide +kernel, by decide +kernel⟩

/-- C38 fails: `a != 0 ? 1 / a : 0` with `a = 0` divides by zero. -/
theorem conditional_operand_trap_violated :
    (gExpr demo noInl (.sel (.bin (eVar ['a']) .ne (eNum ['0'])) (.bin (eNum ['1']) .div (eVar ['a'])) (eNum ['0'])) (oneVar ['a'])).map (fun r => (run demo r.2.1 (start 0)).isSome) = some false ∧
    lazyE demo noInl (envOf (oneVar ['a']).vars (start 0).slots) (tenvOf (oneVar ['a']).vars)
      (.sel (.bin (eVar ['a']) .ne (eNum ['0'])) (.bin (eNum ['1']) .div (eVar ['a'])) (eNum ['0'])) [] = some ([], (.int, 0)) :=
  ⟨by decide +kernel, by decide +kernel⟩

/-- A guarded expression: `f(a) && a != 0`. -/
example : Plain noInl (.bin (eCall ['f'] (eVar ['a'])) .and (.bin (eVar ['a']) .ne (eNum ['0']))) ∧ Guarded demo noInl (.bin (eCall ['f'] (eVar ['a'])) .and (.bin (eVar ['a']) .ne (eNum ['0']))) := by
  constructor
  · simp [Plain, PlainO, PlainEs, eCall, eVar, eNum, noInl, baseOp]
  · simp only [Guarded, GuardedO, GuardedEs, Quiet, QuietO, eCall, eVar, eNum, true_and, and_true]
    refine ⟨by simp, fun _ t q hq a b => ?_⟩
    simp only [demo, Rt.binOp] at hq
    cases t <;> simp at hq
    rw [← hq]
    exact ⟨_, rfl⟩

/-- C93 fails: in `(a = 5) + f(a)` the function is called with the old value of `a`. -/
theorem operand_order_violated : result [.bin (eParen (.bin (eVar ['a']) .assign (eNum ['5']))) .add (eCall ['f'] (eVar ['a']))] ['a'] 1 ['a'] =
    some (some (.int, 5), [1]) := by decide +kernel

end Verif.Gen.Scalar
