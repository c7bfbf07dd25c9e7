import Verif.Comp.TableFnProps
import Verif.Comp.VecFnText
/-!
# Texts of functions over tables, and a function that does not do what it says: C156, C157
-/
namespace Verif.Comp.TableFn
open Verif.Ast hiding Ty
open Verif.Ast.Rpn Verif.Gen
open Verif.Types.Conv (IntTy)
open Verif.Gen.Scalar (Name)
open Verif.Comp.Pipeline (Arith Rel decimal bit)
open Verif.Comp.Real hiding Passed Ex
open Verif.Comp.VecFn (Ex Hw El Str Lane paramKinds viewText)
open Verif.Comp.Script (NameOk)
open Verif.Comp.VecFn (VEnv Vars Cell World elemOf hasV valueAt vectorOf kinds lane Guarded checkE nodesOf evalNodes typeNamed contextText VTy)

section
variable {P : Type}

/-! ## Every function has a text -/

/-- A variable or a column, by its name. -/
def varTree (y : Name) : Tree := match y.dropWhile (fun c => decide (c ≠ '.')) with
  | [] => .atom (.var y)
  | _ :: f => .atom (.access (y.takeWhile fun c => decide (c ≠ '.')) (.cons (.field f) .nil))

/-- A string by itself. -/
def strTree : Str → Tree
  | .text s => .atom (.str s)
  | .var y => varTree y

def colTree : Ex → Tree
  | .lit ds s => .atom (.num (withSuffix ds s))
  | .frac ip fp s => .atom (.num (withSuffix (fracText ip fp) s))
  | .const b => .atom (.bool b)
  | .var y => varTree y
  | .neg a => .un .neg (colTree a)
  | .not a => .un .not (colTree a)
  | .arith o a b => .bin (colTree a) o.sign (colTree b)
  | .rel o a b => .bin (colTree a) o.sign (colTree b)
  | .and a b => .bin (colTree a) .and (colTree b)
  | .or a b => .bin (colTree a) .or (colTree b)
  | .pick c a b => .sel (colTree c) (colTree a) (colTree b)
  | .fn1 f a => .atom (.call f.name (.cons (colTree a).toExpr .nil))
  | .fn2 f a b => .atom (.call f.name (.cons (colTree a).toExpr (.cons (colTree b).toExpr .nil)))
  | .fn3 f a b c => .atom (.call f.name (.cons (colTree a).toExpr (.cons (colTree b).toExpr (.cons (colTree c).toExpr .nil))))
  | .cmp o a b => .bin (strTree a) o.sign (strTree b)

def VarWritable (cfg : Cfg) (y : Name) : Prop := NameOk cfg y ∨ ∃ x f, NameOk cfg x ∧ IsName f ∧ y = dotted x f

def StrWritable (cfg : Cfg) : Str → Prop
  | .text s => StrBody s
  | .var y => VarWritable cfg y

/-- Names are admitted by the grammar, literals are in the range of the parser, and strings are such that the lexer reads them as strings. -/
def ColWritable (cfg : Cfg) : Ex → Prop
  | .lit ds _ => cfg.inRange ds = true
  | .frac ip fp _ => cfg.inRange (fracText ip fp) = true
  | .const _ => True
  | .var y => VarWritable cfg y
  | .neg a => ColWritable cfg a
  | .not a => ColWritable cfg a
  | .arith _ a b => ColWritable cfg a ∧ ColWritable cfg b
  | .rel _ a b => ColWritable cfg a ∧ ColWritable cfg b
  | .and a b => ColWritable cfg a ∧ ColWritable cfg b
  | .or a b => ColWritable cfg a ∧ ColWritable cfg b
  | .pick c a b => ColWritable cfg c ∧ ColWritable cfg a ∧ ColWritable cfg b
  | .fn1 f a => NameOk cfg f.name ∧ ColWritable cfg a
  | .fn2 f a b => NameOk cfg f.name ∧ ColWritable cfg a ∧ ColWritable cfg b
  | .fn3 f a b c => NameOk cfg f.name ∧ ColWritable cfg a ∧ ColWritable cfg b ∧ ColWritable cfg c
  | .cmp _ a b => StrWritable cfg a ∧ StrWritable cfg b

theorem name_plain {x : Name} (h : IsName x) : '.' ∉ x := by
  obtain ⟨⟨c, cs, rfl, h1, h2⟩, _⟩ := h
  intro hd
  rcases List.mem_cons.1 hd with h | h
  · rw [← h] at h1; revert h1; decide
  · have := h2 _ h; revert this; decide

theorem drop_plain {x : Name} (h : '.' ∉ x) : x.dropWhile (fun c => decide (c ≠ '.')) = [] := by
  induction x with
  | nil => rfl
  | cons c x ih =>
    simp only [List.mem_cons, not_or] at h
    rw [List.dropWhile_cons, if_pos (by simpa using Ne.symm h.1)]
    exact ih h.2

theorem drop_dotted {x : Name} (h : '.' ∉ x) (f : Name) : (dotted x f).dropWhile (fun c => decide (c ≠ '.')) = '.' :: f ∧ (dotted x f).takeWhile (fun c => decide (c ≠ '.')) = x := by
  unfold dotted
  induction x with
  | nil => simp
  | cons c x ih =>
    simp only [List.mem_cons, not_or] at h
    have hc : decide (c ≠ '.') = true := by simpa using Ne.symm h.1
    obtain ⟨h1, h2⟩ := ih h.2
    rw [List.cons_append, List.dropWhile_cons, List.takeWhile_cons, if_pos hc, if_pos hc, h1, h2]
    exact ⟨rfl, rfl⟩

theorem var_tree (cfg : Cfg) (y : Name) (h : VarWritable cfg y) : (varTree y).WF cfg ∧ VarIs y (varTree y) := by
  rcases h with h | ⟨x, f, hx, hf, rfl⟩
  · have hp := name_plain h.1
    unfold varTree
    rw [drop_plain hp]
    exact ⟨⟨by rw [Operand.WF]; exact h, by simp⟩, .inl ⟨hp, rfl⟩⟩
  · have hp := name_plain hx.1
    unfold varTree
    rw [(drop_dotted hp f).1, (drop_dotted hp f).2]
    exact ⟨⟨by rw [Operand.WF, Members.WF, Member.WF, Members.WF]; exact ⟨hx.1, hx.2, by simp, hf, trivial⟩, by simp⟩, .inr ⟨x, f, hp, rfl, rfl⟩⟩

theorem str_tree (cfg : Cfg) (a : Str) (hn : StrWritable cfg a) : (strTree a).WF cfg ∧ StrIs a (strTree a) := by
  cases a with
  | text s => rw [strTree, Tree.WF, Operand.WF]; exact ⟨⟨hn, by simp⟩, rfl⟩
  | var y => exact var_tree cfg y hn

theorem col_tree (fpu : Hw) (cfg : Cfg) (p : Ex) (hl : p.Lits fpu) (hn : ColWritable cfg p) : (colTree p).WF cfg ∧ CIs p (colTree p) := by
  induction p with
  | lit ds s => exact ⟨(Real.ex_tree fpu cfg (.lit ds s) hl hn).1, rfl⟩
  | frac ip fp s => exact ⟨(Real.ex_tree fpu cfg (.frac ip fp s) hl hn).1, rfl⟩
  | const b => rw [colTree, Tree.WF, Operand.WF]; exact ⟨⟨trivial, by simp⟩, rfl⟩
  | var y => exact var_tree cfg y hn
  | neg a ih => rw [colTree, Tree.WF]; have h := ih hl hn; exact ⟨h.1, _, rfl, h.2⟩
  | not a ih => rw [colTree, Tree.WF]; have h := ih hl hn; exact ⟨h.1, _, rfl, h.2⟩
  | arith o a b iha ihb => rw [colTree, Tree.WF]; have h := iha hl.1 hn.1; have k := ihb hl.2 hn.2; exact ⟨⟨h.1, k.1⟩, _, _, rfl, h.2, k.2⟩
  | rel o a b iha ihb => rw [colTree, Tree.WF]; have h := iha hl.1 hn.1; have k := ihb hl.2 hn.2; exact ⟨⟨h.1, k.1⟩, _, _, rfl, h.2, k.2⟩
  | and a b iha ihb => rw [colTree, Tree.WF]; have h := iha hl.1 hn.1; have k := ihb hl.2 hn.2; exact ⟨⟨h.1, k.1⟩, _, _, rfl, h.2, k.2⟩
  | or a b iha ihb => rw [colTree, Tree.WF]; have h := iha hl.1 hn.1; have k := ihb hl.2 hn.2; exact ⟨⟨h.1, k.1⟩, _, _, rfl, h.2, k.2⟩
  | pick c a b ihc iha ihb =>
    rw [colTree, Tree.WF]
    have g := ihc hl.1 hn.1; have h := iha hl.2.1 hn.2.1; have k := ihb hl.2.2 hn.2.2
    exact ⟨⟨g.1, h.1, k.1⟩, _, _, _, rfl, g.2, h.2, k.2⟩
  | fn1 f a ih =>
    have h := ih hl hn.2
    have s := toExpr_spec cfg _ h.1
    rw [colTree, Tree.WF, Operand.WF, Exprs.WF, Exprs.WF]
    exact ⟨⟨⟨hn.1.1, hn.1.2, s.1, trivial⟩, by simp⟩, _, rfl, by rw [s.2]; exact h.2⟩
  | fn2 f a b iha ihb =>
    have h := iha hl.1 hn.2.1; have k := ihb hl.2 hn.2.2
    have s := toExpr_spec cfg _ h.1; have r := toExpr_spec cfg _ k.1
    rw [colTree, Tree.WF, Operand.WF, Exprs.WF, Exprs.WF, Exprs.WF]
    exact ⟨⟨⟨hn.1.1, hn.1.2, s.1, r.1, trivial⟩, by simp⟩, _, _, rfl, by rw [s.2]; exact h.2, by rw [r.2]; exact k.2⟩
  | fn3 f a b c iha ihb ihc =>
    have h := iha hl.1 hn.2.1; have k := ihb hl.2.1 hn.2.2.1; have g := ihc hl.2.2 hn.2.2.2
    have s := toExpr_spec cfg _ h.1; have r := toExpr_spec cfg _ k.1; have q := toExpr_spec cfg _ g.1
    rw [colTree, Tree.WF, Operand.WF, Exprs.WF, Exprs.WF, Exprs.WF, Exprs.WF]
    exact ⟨⟨⟨hn.1.1, hn.1.2, s.1, r.1, q.1, trivial⟩, by simp⟩, _, _, _, rfl, by rw [s.2]; exact h.2, by rw [r.2]; exact k.2, by rw [q.2]; exact g.2⟩
  | cmp o a b => rw [colTree, Tree.WF]; have h := str_tree cfg a hn.1; have k := str_tree cfg b hn.2; exact ⟨⟨h.1, k.1⟩, _, _, rfl, h.2, k.2⟩

theorem col_text (fpu : Hw) (cfg : Cfg) (p : Ex) (hl : p.Lits fpu) (hn : ColWritable cfg p) : (colTree p).toExpr.WF cfg ∧ CIs p (colTree p).toExpr.toTree := by
  obtain ⟨h1, h2⟩ := col_tree fpu cfg p hl hn
  have s := toExpr_spec cfg _ h1
  exact ⟨s.1, by rw [s.2]; exact h2⟩

/-- An expression by itself. -/
def colExpr (e : Ex) : Expr := (colTree e).toExpr

def Call.member : Call → Member
  | .filter e => .method filterText (.cons (colExpr e) .nil)
  | .head k => .method headText (.cons (colExpr k) .nil)
  | .tail k => .method tailText (.cons (colExpr k) .nil)
  | .orderBy e d => .method orderByText (.cons (colExpr e) (.cons (colExpr d) .nil))
  | .topk e k d => .method topkText (.cons (colExpr e) (.cons (colExpr k) (.cons (colExpr d) .nil)))
  | .concat y => .method concatText (.cons (.un none (.var y)) .nil)

def members : List Call → Members
  | [] => .nil
  | c :: cs => .cons c.member (members cs)

/-- `x` or `x.….…`. -/
def chainExpr (x : Name) : List Call → Expr
  | [] => .un none (.var x)
  | cs => .un none (.access x (members cs))

def bodyStmts : List TSt → Name → List Call → Stmts
  | [], x, cs => .cons (.retVal (chainExpr x cs)) .nil
  | s :: ss, x, cs => .cons (.expr (.bin (.un none (.define s.target)) .assign (chainExpr s.table s.calls))) (bodyStmts ss x cs)

/-- A type as it is written. -/
def Kind.src (S : Schema P) : Kind → Ast.Ty
  | .table => ⟨['t', 'a', 'b', 'l', 'e'], [S.text]⟩
  | .one t => VecFn.elSrc (false, t)

def TFn.src (S : Schema P) (g : TFn) : FuncSrc :=
  ⟨Kind.src S .table, g.name, (⟨contextText, []⟩, g.ctx) :: g.params.map fun q => (q.2.src S, q.1), bodyStmts g.body g.result g.calls⟩

/-- The expressions of a call. -/
def Call.exprs : Call → List Ex
  | .filter e => [e]
  | .head k => [k]
  | .tail k => [k]
  | .orderBy e d => [e, d]
  | .topk e k d => [e, k, d]
  | .concat _ => []

/-- All names are admitted by the grammar, and all literals are in the range of the parser. -/
def Call.Writable (cfg : Cfg) (c : Call) : Prop := (∀ e ∈ c.exprs, ColWritable cfg e) ∧ match c with
  | .concat y => NameOk cfg y
  | _ => True

structure TFn.Writable (cfg : Cfg) (g : TFn) : Prop where
  name : NameOk cfg g.name
  ctx : NameOk cfg g.ctx
  params : ∀ q ∈ g.params, NameOk cfg q.1
  body : ∀ s ∈ g.body, NameOk cfg s.target ∧ NameOk cfg s.table ∧ ∀ c ∈ s.calls, c.Writable cfg
  result : NameOk cfg g.result ∧ ∀ c ∈ g.calls, c.Writable cfg

/-- The types are known. -/
def TypesOk (cfg : Cfg) (S : Schema P) : Prop := VecFn.TypesOk cfg ∧ cfg.isType (tableText S) = true ∧ IsName S.text

theorem call_lits {fpu : Hw} {S : Schema P} {ν : List (Name × El)} {tabs : List Name} {x : Name} {D : List Name} {b : Bool} {c : Call} (h : c.Ok fpu S ν tabs x D b) : ∀ e ∈ c.exprs, e.Lits fpu := by
  cases c with
  | filter e => simpa [Call.exprs] using h.2.1
  | head k => simpa [Call.exprs] using h.1
  | tail k => simpa [Call.exprs] using h.1.1
  | orderBy e d => obtain ⟨_, ⟨t, _, h1⟩, h2⟩ := h; simpa [Call.exprs] using ⟨h1.1, h2.1⟩
  | topk e k d => obtain ⟨_, ⟨t, _, h1⟩, h2, h3⟩ := h; simpa [Call.exprs] using ⟨h1.1, h2.1, h3.1⟩
  | concat y => simp [Call.exprs]

theorem calls_lits {fpu : Hw} {S : Schema P} {ν : List (Name × El)} {tabs : List Name} {x : Name} {D : List Name} {cs : List Call} (h : CallsOk fpu S ν tabs x D cs) :
    ∀ c ∈ cs, ∀ e ∈ c.exprs, e.Lits fpu := by
  intro c hc
  match cs, h with
  | d :: cs, h =>
    rcases List.mem_cons.1 hc with rfl | hc
    · exact call_lits h.1
    · exact call_lits (h.2 c hc)

theorem call_text (fpu : Hw) (cfg : Cfg) (c : Call) (hl : ∀ e ∈ c.exprs, e.Lits fpu) (hw : c.Writable cfg) : c.member.WF cfg ∧ c.Is c.member := by
  have key : ∀ e ∈ c.exprs, (colExpr e).WF cfg ∧ CIs e (colExpr e).toTree := fun e he => col_text fpu cfg e (hl e he) (hw.1 e he)
  have n1 : IsName filterText := ⟨⟨_, _, rfl, by decide, by decide⟩, by decide⟩
  have n2 : IsName headText := ⟨⟨_, _, rfl, by decide, by decide⟩, by decide⟩
  have n3 : IsName tailText := ⟨⟨_, _, rfl, by decide, by decide⟩, by decide⟩
  have n4 : IsName orderByText := ⟨⟨_, _, rfl, by decide, by decide⟩, by decide⟩
  have n5 : IsName topkText := ⟨⟨_, _, rfl, by decide, by decide⟩, by decide⟩
  have n6 : IsName concatText := ⟨⟨_, _, rfl, by decide, by decide⟩, by decide⟩
  cases c with
  | filter e =>
    have h1 := key e (by simp [Call.exprs])
    rw [Call.member, Member.WF, Exprs.WF, Exprs.WF]
    exact ⟨⟨n1, h1.1, trivial⟩, _, rfl, h1.2⟩
  | head e =>
    have h1 := key e (by simp [Call.exprs])
    rw [Call.member, Member.WF, Exprs.WF, Exprs.WF]
    exact ⟨⟨n2, h1.1, trivial⟩, _, rfl, h1.2⟩
  | tail e =>
    have h1 := key e (by simp [Call.exprs])
    rw [Call.member, Member.WF, Exprs.WF, Exprs.WF]
    exact ⟨⟨n3, h1.1, trivial⟩, _, rfl, h1.2⟩
  | orderBy e d =>
    have h1 := key e (by simp [Call.exprs])
    have h2 := key d (by simp [Call.exprs])
    rw [Call.member, Member.WF, Exprs.WF, Exprs.WF, Exprs.WF]
    exact ⟨⟨n4, h1.1, h2.1, trivial⟩, _, _, rfl, h1.2, h2.2⟩
  | topk e k d =>
    have h1 := key e (by simp [Call.exprs])
    have h2 := key k (by simp [Call.exprs])
    have h3 := key d (by simp [Call.exprs])
    rw [Call.member, Member.WF, Exprs.WF, Exprs.WF, Exprs.WF, Exprs.WF]
    exact ⟨⟨n5, h1.1, h2.1, h3.1, trivial⟩, _, _, _, rfl, h1.2, h2.2, h3.2⟩
  | concat y =>
    rw [Call.member, Member.WF, Exprs.WF, Exprs.WF, Expr.WF, Operand.WF]
    exact ⟨⟨n6, hw.2, trivial⟩, _, rfl, rfl⟩

theorem members_text (fpu : Hw) (cfg : Cfg) : ∀ cs : List Call, (∀ c ∈ cs, ∀ e ∈ c.exprs, e.Lits fpu) → (∀ c ∈ cs, c.Writable cfg) → (members cs).WF cfg ∧ CallsAre cs (members cs)
  | [], _, _ => by rw [members, Members.WF]; exact ⟨trivial, trivial⟩
  | c :: cs, hl, hw => by
    obtain ⟨h1, h2⟩ := call_text fpu cfg c (hl c (by simp)) (hw c (by simp))
    obtain ⟨h3, h4⟩ := members_text fpu cfg cs (fun c hc => hl c (by simp [hc])) fun c hc => hw c (by simp [hc])
    rw [members, Members.WF]
    exact ⟨⟨h1, h3⟩, h2, h4⟩

theorem chain_text (fpu : Hw) (cfg : Cfg) (x : Name) (hx : NameOk cfg x) (cs : List Call) (hl : ∀ c ∈ cs, ∀ e ∈ c.exprs, e.Lits fpu) (hw : ∀ c ∈ cs, c.Writable cfg) :
    (chainExpr x cs).WF cfg ∧ ChainIs x cs (chainExpr x cs).toTree := by
  cases cs with
  | nil => rw [chainExpr, Expr.WF, Operand.WF]; exact ⟨hx, .inl ⟨rfl, rfl⟩⟩
  | cons c cs =>
    obtain ⟨h1, h2⟩ := members_text fpu cfg (c :: cs) hl hw
    rw [chainExpr, Expr.WF, Operand.WF]
    · exact ⟨⟨hx.1, hx.2, by simp [members], h1⟩, .inr ⟨_, by simp, rfl, h2⟩⟩
    · simp

/-- The literals of a body. -/
def BodyLits (fpu : Hw) (ss : List TSt) (cs : List Call) : Prop := (∀ s ∈ ss, ∀ c ∈ s.calls, ∀ e ∈ c.exprs, e.Lits fpu) ∧ ∀ c ∈ cs, ∀ e ∈ c.exprs, e.Lits fpu

theorem body_lits {fpu : Hw} {S : Schema P} {ν : List (Name × El)} {ctx x : Name} {cs : List Call} : ∀ (ss : List TSt) (δ : Dirty), BodyOk fpu S ν ctx ss δ x cs → BodyLits fpu ss cs
  | [], _, ⟨_, _, h⟩ => ⟨by simp, calls_lits h⟩
  | s :: ss, _, ⟨_, _, ⟨_, _, h⟩, h2⟩ => by
    have := body_lits ss _ h2
    refine ⟨fun s' hs => ?_, this.2⟩
    rcases List.mem_cons.1 hs with rfl | hs
    · exact calls_lits h
    · exact this.1 s' hs

theorem body_text (fpu : Hw) (cfg : Cfg) (x : Name) (cs : List Call) (hx : NameOk cfg x ∧ ∀ c ∈ cs, c.Writable cfg) : ∀ ss : List TSt, BodyLits fpu ss cs →
    (∀ s ∈ ss, NameOk cfg s.target ∧ NameOk cfg s.table ∧ ∀ c ∈ s.calls, c.Writable cfg) → (bodyStmts ss x cs).WF cfg ∧ BodyIs ss x cs (bodyStmts ss x cs)
  | [], h, _ => by
    obtain ⟨h1, h2⟩ := chain_text fpu cfg x hx.1 cs h.2 hx.2
    rw [bodyStmts, Stmts.WF, Stmt.WF, Stmts.WF]
    exact ⟨⟨h1, trivial⟩, h2⟩
  | s :: ss, h, hw => by
    obtain ⟨w1, w2, w3⟩ := hw s (by simp)
    obtain ⟨h1, h2⟩ := chain_text fpu cfg s.table w2 s.calls (h.1 s (by simp)) w3
    obtain ⟨h3, h4⟩ := body_text fpu cfg x cs hx ss ⟨fun s hs => h.1 s (by simp [hs]), h.2⟩ fun s hs => hw s (by simp [hs])
    rw [bodyStmts, Stmts.WF]
    exact ⟨⟨Function.wf_assign cfg _ (by rw [Operand.WF]; exact w1) _ rfl _ h1, h3⟩, ⟨_, rfl, h2⟩, h4⟩

theorem kind_name (S : Schema P) (k : Kind) : (k.src S).name = k.text S := by
  cases k with
  | table => simp [Kind.src, Ast.Ty.name, Ty.argsName, Kind.text, tableText]
  | one t => exact VecFn.name_el (false, t)

theorem kind_wf (cfg : Cfg) (S : Schema P) (ht : TypesOk cfg S) (k : Kind) : (k.src S).WF cfg := by
  cases k with
  | table => exact ⟨show IsName ['t', 'a', 'b', 'l', 'e'] from ⟨⟨_, _, rfl, by decide, by decide⟩, by decide⟩, by simpa [Kind.src] using ht.2.2, by rw [kind_name]; exact ht.2.1⟩
  | one t => exact VecFn.el_wf cfg ht.1 (false, t)

theorem fn_parse (cfg : Cfg) (fpu : Hw) (S : Schema P) (ht : TypesOk cfg S) (g : TFn) (hg : BodyLits fpu g.body g.calls) (hw : g.Writable cfg) :
    parseFunctions cfg (writeTokens (funcsPrint [g.src S])) = .ok [(g.src S).func] [] ∧ BodyIs g.body g.result g.calls (g.src S).func.body := by
  obtain ⟨h1, h2⟩ := body_text fpu cfg g.result g.calls hw.result g.body hg hw.body
  have hwf : (g.src S).WF cfg := ⟨kind_wf cfg S ht .table, hw.name, fun p hp => by
    simp only [TFn.src, List.mem_cons, List.mem_map] at hp
    rcases hp with rfl | ⟨q, hq, rfl⟩
    · exact ⟨VecFn.context_wf cfg ht.1.2, hw.ctx⟩
    · exact ⟨kind_wf cfg S ht _, hw.params q hq⟩, h1⟩
  exact ⟨parse_functions_print cfg [g.src S] (by simpa using hwf), h2⟩

theorem fn_text (cfg : Cfg) (fpu : Hw) (S : Schema P) (ht : TypesOk cfg S) (g : TFn) (hg : BodyLits fpu g.body g.calls) (hw : g.Writable cfg) :
    ReadsFn cfg S (writeTokens (funcsPrint [g.src S])) g := by
  obtain ⟨h1, h2⟩ := fn_parse cfg fpu S ht g hg hw
  refine ⟨(g.src S).func, [], [], g.params, h1, kind_name S .table, rfl, ?_, h2⟩
  simp only [FuncSrc.func, TFn.src, List.map_cons, List.map_map, List.map_nil, List.nil_append]
  refine congrArg (_ :: ·) ?_
  refine List.map_congr_left fun q _ => ?_
  simp [kind_name]

/-- **C156.** Every function over tables has such a text. -/
theorem every_table_function_has_text (cfg : Cfg) (fpu : Hw) (S : Schema P) (ht : TypesOk cfg S) (g : TFn) (hg : g.Ok fpu S) (hw : g.Writable cfg) : ∃ src, ReadsFn cfg S src g :=
  ⟨_, fn_text cfg fpu S ht g (body_lits _ _ hg.2) hw⟩

end

/-! ## An instance: the function of the README -/

def score : Name := ['s', 'c', 'o', 'r', 'e']
def age : Name := ['a', 'g', 'e']
def scoreOf (p : Int × Int) : Int := Pipeline.wrap .i32 p.1
def ageOf (p : Int × Int) : Int := Pipeline.wrap .i32 p.2

/-- Students with two 32-bit integers. -/
def students : Schema (Int × Int) := ⟨['S', 't', 'u', 'd', 'e', 'n', 't'], 1, [⟨score, 0, .num (.int .i32) fun p => .int (scoreOf p)⟩, ⟨age, 0, .num (.int .i32) fun p => .int (ageOf p)⟩]⟩

theorem students_ok (hw : Hw) : students.Ok hw where
  some := by decide
  names := by decide
  inside := by simp [students]
  number := by
    intro c hc t f h
    simp only [students, List.mem_cons, List.not_mem_nil, or_false] at hc
    rcases hc with rfl | rfl <;> cases h <;> exact ⟨by simp, fun p => Pipeline.wrap_fits _ _⟩
  shown := by
    intro c hc f h
    simp only [students, List.mem_cons, List.not_mem_nil, or_false] at hc
    rcases hc with rfl | rfl <;> cases h

def filtered : Name := ['f', 'i', 'l', 't', 'e', 'r', 'e', 'd']
def ninety : Ex := .lit ['9', '0'] none
def ten : Ex := .lit ['1', '0'] none
def wanted : Ex := .and (.rel .gt (.var (dotted ['x'] score)) ninety) (.rel .lt (.var (dotted ['x'] age)) ten)
def readme : TFn := ⟨['f'], ['c'], [(['x'], .table)], [⟨filtered, ['x'], [.filter wanted]⟩], filtered, [.topk (.var (dotted filtered score)) ten (.const true)]⟩
def readmeText : List Char :=
  "table < Student > f ( Context c , table < Student > x ) { auto filtered = x . filter ( x . score > 90 && x . age < 10 ) ; return filtered . topk ( filtered . score , 10 , true ) ; } ".toList

def demoCfg : Cfg := { isType := fun t => (typeNamed t).isSome || decide (t = contextText) || decide (t = tableText students), inRange := fun _ => true }
theorem demo_types : TypesOk demoCfg students := by
  refine ⟨⟨fun q => ?_, by decide⟩, by decide, ⟨⟨_, _, rfl, by decide, by decide⟩, by decide⟩⟩
  show ((typeNamed (VecFn.paramText q)).isSome || _ || _) = true
  rw [VecFn.named_param]; rfl

theorem ninety_lits (fpu : Hw) : ninety.Lits fpu := by simp only [ninety, VecFn.Ex.Lits, Real.Ex.Lits]; decide
theorem ten_lits (fpu : Hw) : ten.Lits fpu := by simp only [ten, VecFn.Ex.Lits, Real.Ex.Lits]; decide

theorem readme_lits (fpu : Hw) : BodyLits fpu readme.body readme.calls := by
  simp [BodyLits, readme, Call.exprs, wanted, VecFn.Ex.Lits, ninety_lits, ten_lits]

theorem readme_writable : readme.Writable demoCfg := by
  have hx : NameOk demoCfg ['x'] := ⟨example_name _ (by decide), by decide⟩
  have hf : NameOk demoCfg filtered := ⟨⟨⟨_, _, rfl, by decide, by decide⟩, by decide⟩, by decide⟩
  have hs : IsName score := ⟨⟨_, _, rfl, by decide, by decide⟩, by decide⟩
  have ha : IsName age := ⟨⟨_, _, rfl, by decide, by decide⟩, by decide⟩
  refine ⟨⟨example_name _ (by decide), by decide⟩, ⟨example_name _ (by decide), by decide⟩, by simpa [readme] using hx, ?_, ?_⟩
  · simp only [readme, List.mem_singleton]
    rintro s rfl
    refine ⟨hf, hx, ?_⟩
    simp only [List.mem_singleton]
    rintro c rfl
    refine ⟨?_, trivial⟩
    simp only [Call.exprs, List.mem_singleton]
    rintro e rfl
    exact ⟨⟨.inr ⟨_, _, hx, hs, rfl⟩, rfl⟩, .inr ⟨_, _, hx, ha, rfl⟩, rfl⟩
  · refine ⟨hf, ?_⟩
    simp only [readme, List.mem_singleton]
    rintro c rfl
    refine ⟨?_, trivial⟩
    simp only [Call.exprs, List.mem_cons, List.not_mem_nil, or_false]
    rintro e (rfl | rfl | rfl)
    · exact .inr ⟨_, _, hf, hs, rfl⟩
    · rfl
    · trivial

theorem readme_reads (fpu : Hw) : ReadsFn demoCfg students readmeText readme := by
  have e : readmeText = writeTokens (funcsPrint [readme.src students]) := by decide +kernel
  rw [e]
  exact fn_text demoCfg fpu students demo_types readme (readme_lits fpu) readme_writable

theorem readme_ok (fpu : Hw) : readme.Ok fpu students := by
  refine ⟨⟨by decide, by decide, by decide⟩, ⟨by decide, by decide, by decide, by decide⟩, by simp, ⟨[], rfl, ⟨rfl, ?_⟩, by simp⟩, ⟨[], by decide, ⟨rfl, ⟨.int .i32, ?_⟩, ?_, ?_⟩, by simp⟩⟩
  · exact ⟨by simp [wanted, VecFn.Ex.Lits, ninety_lits, ten_lits], by simp [wanted, Guarded, ninety, ten, VecFn.Sure], by decide, ⟨false, by decide⟩, by simp⟩
  · exact ⟨by decide, trivial, trivial, by decide, ⟨true, by decide⟩, by simp⟩
  · exact ⟨ten_lits fpu, rfl, false, .int .i32, by decide, rfl⟩
  · exact ⟨trivial, rfl, false, .bool, by decide, by decide⟩

/-- A student is wanted. -/
def Wanted (p : Int × Int) : Prop := 90 < scoreOf p ∧ ageOf p < 10
instance (p : Int × Int) : Decidable (Wanted p) := inferInstanceAs (Decidable (_ ∧ _))

theorem rows_one (ps : List (Int × Int)) : rowsOf [⟨0, ps⟩] = ps.map fun p => [p] := by
  refine List.ext_getElem? fun i => ?_
  by_cases hi : i < ps.length
  · simp [rowsOf, Tbl.count, hi]
  · rw [List.getElem?_eq_none (by simp [rowsOf, Tbl.count]; omega), List.getElem?_eq_none (by simp; omega)]

theorem values_one {P β : Type} (ps : List P) (f : P → β) : ((ps.map fun p => [p]).filterMap fun r => (r[0]?).map f) = ps.map f := by
  rw [List.filterMap_map, ← List.filterMap_eq_map]
  rfl

theorem wanted_values (fpu : Hw) (ps : List (Int × Int)) : vectorOf fpu ps.length (seen students.cols ['x'] (ps.map fun p => [p]) []) wanted = some (ps.map fun p => .bool (decide (Wanted p))) := by
  refine VecFn.mapM_get (by simp) _ fun i hi => ?_
  have w1 : ∀ p, Pipeline.wrap .i32 (scoreOf p) = scoreOf p := fun p => Pipeline.wrap_self (Pipeline.wrap_fits _ _)
  have w2 : ∀ p, Pipeline.wrap .i32 (ageOf p) = ageOf p := fun p => Pipeline.wrap_self (Pipeline.wrap_fits _ _)
  have e1 : lane (seen students.cols ['x'] (ps.map fun p => [p]) []) i (dotted ['x'] score) = some (.int (scoreOf ps[i])) := by
    have : seen students.cols ['x'] (ps.map fun p => [p]) [] (dotted ['x'] score) = some (.vec (.int .i32) ((ps.map fun p => [p]).filterMap fun r => (r[0]?).map fun p => Val.int (scoreOf p))) := rfl
    simp only [lane, this, values_one, Option.bind_some, VecFn.Item.at]
    simp [hi]
  have e2 : lane (seen students.cols ['x'] (ps.map fun p => [p]) []) i (dotted ['x'] age) = some (.int (ageOf ps[i])) := by
    have : seen students.cols ['x'] (ps.map fun p => [p]) [] (dotted ['x'] age) = some (.vec (.int .i32) ((ps.map fun p => [p]).filterMap fun r => (r[0]?).map fun p => Val.int (ageOf p))) := rfl
    simp only [lane, this, values_one, Option.bind_some, VecFn.Item.at]
    simp [hi]
  have e3 : VecFn.common (kinds (seen students.cols ['x'] (ps.map fun p => [p]) [])) (.var (dotted ['x'] score)) (.lit ['9', '0'] none) = some (.int .i32) := rfl
  have e4 : VecFn.common (kinds (seen students.cols ['x'] (ps.map fun p => [p]) [])) (.var (dotted ['x'] age)) (.lit ['1', '0'] none) = some (.int .i32) := rfl
  have e5 : (Real.Ex.lit ['9', '0'] none).value fpu (fun _ => none) (fun _ => none) = some (.int 90) := rfl
  have e6 : (Real.Ex.lit ['1', '0'] none).value fpu (fun _ => none) (fun _ => none) = some (.int 10) := rfl
  have e7 : Pipeline.wrap .i32 90 = 90 := by decide
  have e8 : Pipeline.wrap .i32 10 = 10 := by decide
  by_cases h : 90 < scoreOf ps[i] <;> simp [wanted, ninety, ten, valueAt, e1, e2, e3, e4, e5, e6, conv, w1, w2, e7, e8, relV, Rel.holds, hi, Wanted, h]

theorem keep_wanted (ps : List (Int × Int)) : keep (ps.map fun p => [p]) (ps.map fun p => .bool (decide (Wanted p))) = (ps.filter (decide <| Wanted ·)).map fun p => [p] := by
  induction ps with
  | nil => rfl
  | cons p ps ih =>
    unfold keep at ih ⊢
    by_cases h : Wanted p <;> simp [h] <;> simpa using ih

/-- The text of the README, compiled and called: the ten best of the students that are wanted, whatever students there are. -/
example (L : Lib (Int × Int)) (hL : L.Ok) (ps : List (Int × Int)) (hn : ps.length < 2 ^ 30) :
    ∃ out, (runFn demoCfg L students readmeText [.table [⟨0, ps⟩]]).map rowsOf = .ok out ∧
      First true 10 ((ps.filter (decide <| Wanted ·)).map fun p => .int (scoreOf p)) ((ps.filter (decide <| Wanted ·)).map fun p => [p]) out := by
  obtain ⟨o, h1, h2⟩ := table_function demoCfg L hL students (students_ok L.fpu) readme (readme_ok L.fpu) readmeText (readme_reads L.fpu) [.table [⟨0, ps⟩]]
    ⟨by simp [Tbl.Aligned, Tbl.count], rfl, trivial⟩ (by simpa [readme, TFn.concats, concats, Call.concats, Tbl.count] using hn)
  rw [h2]
  have h1 : Exec L.fpu students [] [(['x'], rowsOf [⟨0, ps⟩])] [⟨filtered, ['x'], [.filter wanted]⟩] filtered [.topk (.var (dotted filtered score)) ten (.const true)] o := h1
  rw [rows_one] at h1
  have hg : ∀ q, Gives L.fpu students [] [(['x'], ps.map fun p => [p])] ['x'] (ps.map fun p => [p]) (.filter wanted) q → q = some ((ps.filter (decide <| Wanted ·)).map fun p => [p]) := by
    intro q hq
    simp only [Gives] at hq
    rw [List.length_map, wanted_values, Option.map_some] at hq
    rw [hq, keep_wanted]
  cases h1 with
  | fail hx h =>
    cases hx
    cases h with
    | fail h => cases hg _ h
    | step h hs => cases hs
  | step hx h hs =>
    cases hx
    cases h with
    | step h hd =>
    cases hd
    cases hg _ h
    cases hs with
    | result hx h =>
    cases hx
    generalize ps.filter (decide <| Wanted ·) = qs at h ⊢
    have e1 : vectorOf L.fpu (qs.map fun p => [p]).length (seen students.cols filtered (qs.map fun p => [p]) []) (.var (dotted filtered score)) = some (qs.map fun p => .int (scoreOf p)) := by
      refine VecFn.mapM_get (by simp) _ fun i hi => ?_
      have : seen students.cols filtered (qs.map fun p => [p]) [] (dotted filtered score) = some (.vec (.int .i32) ((qs.map fun p => [p]).filterMap fun r => (r[0]?).map fun p => Val.int (scoreOf p))) := rfl
      simp only [valueAt, lane, this, values_one, Option.bind_some, VecFn.Item.at]
    have e2 : amount L.fpu [] ten = some 10 := rfl
    have e3 : flag L.fpu [] (.const true) = some true := rfl
    have key : ∀ q, Gives L.fpu students [] [(filtered, qs.map fun p => [p]), (['x'], ps.map fun p => [p])] filtered (qs.map fun p => [p]) (.topk (.var (dotted filtered score)) ten (.const true)) q →
        ∃ out, q = some out ∧ First true 10 (qs.map fun p => .int (scoreOf p)) (qs.map fun p => [p]) out := by
      intro q hq
      simp only [Gives] at hq
      rw [e1, e2, e3] at hq
      exact hq
    cases h with
    | fail h => obtain ⟨_, h, _⟩ := key _ h; cases h
    | step h hd =>
      cases hd
      obtain ⟨out, h, hf⟩ := key _ h
      cases h
      exact ⟨_, rfl, hf⟩

/-! ## A built-in function on columns -/

/-- `return x.topk(max(x.score, x.age), 10, true);` -/
def maxKey : Ex := .fn2 .max (.var (dotted ['x'] score)) (.var (dotted ['x'] age))
def best : TFn := ⟨['f'], ['c'], [(['x'], .table)], [], ['x'], [.topk maxKey ten (.const true)]⟩
def bestText : List Char := "table < Student > f ( Context c , table < Student > x ) { return x . topk ( max ( x . score , x . age ) , 10 , true ) ; } ".toList

theorem best_reads (fpu : Hw) : ReadsFn demoCfg students bestText best := by
  have e : bestText = writeTokens (funcsPrint [best.src students]) := by decide +kernel
  rw [e]
  have hx : NameOk demoCfg ['x'] := ⟨example_name _ (by decide), by decide⟩
  have hs : IsName score := ⟨⟨_, _, rfl, by decide, by decide⟩, by decide⟩
  have ha : IsName age := ⟨⟨_, _, rfl, by decide, by decide⟩, by decide⟩
  refine fn_text demoCfg fpu students demo_types best (by simp [BodyLits, best, Call.exprs, maxKey, VecFn.Ex.Lits, ten_lits])
    ⟨⟨example_name _ (by decide), by decide⟩, ⟨example_name _ (by decide), by decide⟩, by simpa [best] using hx, by simp [best], hx, ?_⟩
  simp only [best, List.mem_singleton]
  rintro c rfl
  refine ⟨?_, trivial⟩
  simp only [Call.exprs, List.mem_cons, List.not_mem_nil, or_false]
  rintro e (rfl | rfl | rfl)
  · exact ⟨⟨⟨⟨'m', ['a', 'x'], rfl, by decide, by decide⟩, by decide⟩, by decide⟩, .inr ⟨_, _, hx, hs, rfl⟩, .inr ⟨_, _, hx, ha, rfl⟩⟩
  · rfl
  · trivial

theorem best_ok (fpu : Hw) : best.Ok fpu students := by
  refine ⟨⟨by decide, by decide, by decide⟩, [], by decide, ⟨rfl, ⟨.int .i32, ?_⟩, ?_, ?_⟩, by simp⟩
  · exact ⟨by decide, by simp [maxKey, VecFn.Ex.Lits], by simp [maxKey, Guarded], by decide, ⟨true, by decide⟩, by simp⟩
  · exact ⟨ten_lits fpu, rfl, false, .int .i32, by decide, rfl⟩
  · exact ⟨trivial, rfl, false, .bool, by decide, by decide⟩

/-- The ten students whose greater number is greatest. -/
example (L : Lib (Int × Int)) (hL : L.Ok) (ps : List (Int × Int)) (hn : ps.length < 2 ^ 30) :
    ∃ out, (runFn demoCfg L students bestText [.table [⟨0, ps⟩]]).map rowsOf = .ok out ∧
      First true 10 (ps.map fun p => .int (Max.max (scoreOf p) (ageOf p))) (ps.map fun p => [p]) out := by
  obtain ⟨o, h1, h2⟩ := table_function demoCfg L hL students (students_ok L.fpu) best (best_ok L.fpu) bestText (best_reads L.fpu) [.table [⟨0, ps⟩]]
    ⟨by simp [Tbl.Aligned, Tbl.count], rfl, trivial⟩ (by simpa [best, TFn.concats, concats, Call.concats, Tbl.count] using hn)
  rw [h2]
  have h1 : Exec L.fpu students [] [(['x'], rowsOf [⟨0, ps⟩])] [] ['x'] [.topk maxKey ten (.const true)] o := h1
  rw [rows_one] at h1
  have e1 : vectorOf L.fpu (ps.map fun p => [p]).length (seen students.cols ['x'] (ps.map fun p => [p]) []) maxKey = some (ps.map fun p => .int (Max.max (scoreOf p) (ageOf p))) := by
    refine VecFn.mapM_get (by simp) _ fun i hi => ?_
    have w1 : ∀ p, Pipeline.wrap .i32 (scoreOf p) = scoreOf p := fun p => Pipeline.wrap_self (Pipeline.wrap_fits _ _)
    have w2 : ∀ p, Pipeline.wrap .i32 (ageOf p) = ageOf p := fun p => Pipeline.wrap_self (Pipeline.wrap_fits _ _)
    have w3 : ∀ p, Pipeline.wrap .i32 (Max.max (scoreOf p) (ageOf p)) = Max.max (scoreOf p) (ageOf p) := by
      intro p
      rcases Int.le_total (scoreOf p) (ageOf p) with h | h
      · rw [Int.max_eq_right h, w2]
      · rw [Int.max_eq_left h, w1]
    have hi : i < ps.length := by simpa using hi
    have e1 : lane (seen students.cols ['x'] (ps.map fun p => [p]) []) i (dotted ['x'] score) = some (.int (scoreOf ps[i])) := by
      have : seen students.cols ['x'] (ps.map fun p => [p]) [] (dotted ['x'] score) = some (.vec (.int .i32) ((ps.map fun p => [p]).filterMap fun r => (r[0]?).map fun p => Val.int (scoreOf p))) := rfl
      simp only [lane, this, values_one, Option.bind_some, VecFn.Item.at]
      simp [hi]
    have e2 : lane (seen students.cols ['x'] (ps.map fun p => [p]) []) i (dotted ['x'] age) = some (.int (ageOf ps[i])) := by
      have : seen students.cols ['x'] (ps.map fun p => [p]) [] (dotted ['x'] age) = some (.vec (.int .i32) ((ps.map fun p => [p]).filterMap fun r => (r[0]?).map fun p => Val.int (ageOf p))) := rfl
      simp only [lane, this, values_one, Option.bind_some, VecFn.Item.at]
      simp [hi]
    have e3 : VecFn.common (kinds (seen students.cols ['x'] (ps.map fun p => [p]) [])) (.var (dotted ['x'] score)) (.var (dotted ['x'] age)) = some (.int .i32) := rfl
    simp only [maxKey, valueAt, e1, e2, e3, Option.bind_some, conv, w1, w2, VecFn.apply2, VecFn.int2, w3]
    simp [hi]
  have e2 : amount L.fpu [] ten = some 10 := rfl
  have e3 : flag L.fpu [] (.const true) = some true := rfl
  have key : ∀ q, Gives L.fpu students [] [(['x'], ps.map fun p => [p])] ['x'] (ps.map fun p => [p]) (.topk maxKey ten (.const true)) q →
      ∃ out, q = some out ∧ First true 10 (ps.map fun p => .int (Max.max (scoreOf p) (ageOf p))) (ps.map fun p => [p]) out := by
    intro q hq
    simp only [Gives] at hq
    rw [e1, e2, e3] at hq
    exact hq
  cases h1 with
  | result hx h =>
    cases hx
    cases h with
    | fail h => obtain ⟨_, h, _⟩ := key _ h; cases h
    | step h hd =>
      cases hd
      obtain ⟨out, h, hf⟩ := key _ h
      cases h
      exact ⟨_, rfl, hf⟩

/-! ## A library that does what is assumed -/

def keyOf : Option MV → Int
  | some (.word z) => z
  | some (.flt _ x) => x.value
  | _ => 0

def rank (desc : Bool) (m : List MV) (i j : Nat) : Bool := if desc = true then decide (keyOf m[j]? ≤ keyOf m[i]?) else decide (keyOf m[i]? ≤ keyOf m[j]?)
def places (desc : Bool) (m : List MV) : List Nat := (List.range m.length).mergeSort (rank desc m)
def sortBoth (desc : Bool) (m : List MV) (idx : List Nat) : List MV × List Nat := ((places desc m).filterMap fun i => m[i]?, (places desc m).filterMap fun i => idx[i]?)

def someLib (P : Type) (fpu : Hw) (p : P) : Lib P := ⟨fpu, fun k => List.replicate k (.word 0), 8, p, fun _ _ => p, fun _ d => sortBoth d, fun _ d _ => sortBoth d⟩

theorem leq_of {t : Ty} {v w : Val} (hv : v.Has t) (hw : w.Has t) (h1 : leq v v) (h2 : leq w w) (h : keyOf (some v.enc) ≤ keyOf (some w.enc)) : leq v w := by
  refine ⟨t, ?_⟩
  cases t with
  | bool =>
    cases v <;> simp [Val.Has] at hv
    obtain ⟨u, hu⟩ := h1
    cases u <;> simp [relV, Val.flt?] at hu
  | int t =>
    cases v <;> simp [Val.Has] at hv
    cases w <;> simp [Val.Has] at hw
    simpa [relV, Rel.holds, keyOf, Val.enc] using h
  | flt F =>
    cases v <;> simp [Val.Has] at hv
    subst hv
    cases w <;> simp [Val.Has] at hw
    subst hw
    rename_i F x y
    have nan : ∀ z : Flt.Fl F.fmt, leq (.flt F z) (.flt F z) → z.isNaN = false := by
      rintro z ⟨u, hu⟩
      cases u <;> simp [relV, Val.flt?] at hu
      rename_i G
      by_cases hG : F = G
      · subst hG
        simp [holdsF] at hu
        exact hu.1
      · simp [hG] at hu
    simpa [relV, Val.flt?, holdsF, nan _ h1, nan _ h2, Rel.holds, keyOf, Val.enc] using h

theorem places_perm (desc : Bool) (m : List MV) : (places desc m).Perm (List.range m.length) := List.mergeSort_perm _ _

theorem places_sorted {t : Ty} {l : List Val} (desc : Bool) (ht : ∀ v ∈ l, v.Has t) (hn : ∀ v ∈ l, leq v v) :
    ((places desc (l.map Val.enc)).filterMap fun i => l[i]?).Pairwise (before desc) := by
  have hp : (places desc (l.map Val.enc)).Pairwise (fun i j => rank desc (l.map Val.enc) i j = true) := by
    refine List.pairwise_mergeSort (fun i j k h1 h2 => ?_) (fun i j => ?_) _
    · unfold rank at *; cases desc <;> simp at * <;> omega
    · unfold rank; cases desc <;> simp <;> omega
  rw [List.pairwise_filterMap]
  refine hp.imp fun {i j} h v hv w hw => ?_
  have e1 : (l.map Val.enc)[i]? = some v.enc := by rw [List.getElem?_map, hv]; rfl
  have e2 : (l.map Val.enc)[j]? = some w.enc := by rw [List.getElem?_map, hw]; rfl
  have hv := List.mem_of_getElem? hv
  have hw := List.mem_of_getElem? hw
  unfold rank at h
  unfold before
  cases desc with
  | true => rw [if_pos rfl, decide_eq_true_eq, e1, e2] at h; exact leq_of (ht w hw) (ht v hv) (hn w hw) (hn v hv) h
  | false => rw [if_neg (by simp), decide_eq_true_eq, e1, e2] at h; exact leq_of (ht v hv) (ht w hw) (hn v hv) (hn w hw) h

theorem someLib_ok (P : Type) (fpu : Hw) (p : P) : (someLib P fpu p).Ok := by
  have key : ∀ (d : Bool) (l : List Val) (idx : List Nat), sortBoth d (l.map Val.enc) idx =
      (((places d (l.map Val.enc)).filterMap fun i => l[i]?).map Val.enc, (places d (l.map Val.enc)).filterMap fun i => idx[i]?) := by
    intro d l idx
    unfold sortBoth
    rw [List.map_filterMap]
    simp only [List.getElem?_map]
  refine ⟨fun k => by simp [someLib], by simp [someLib], fun t d l idx ht hi => ⟨places d (l.map Val.enc), ?_, key d l idx, fun hn => places_sorted d ht hn⟩,
    fun t d k l idx ht hi hk => ⟨places d (l.map Val.enc), ?_, key d l idx, fun hn => ?_⟩⟩
  · simpa using places_perm d (l.map Val.enc)
  · simpa using places_perm d (l.map Val.enc)
  · have := places_sorted d ht hn
    rw [← List.take_append_drop k (places d (l.map Val.enc)), List.filterMap_append, List.pairwise_append] at this
    exact ⟨this.1, this.2.2⟩

/-! ## Reading a column after sorting by it -/

/-- `auto y = x.order_by(x.score, true); return x.order_by(x.score, false);` -/
def twice : TFn := ⟨['f'], ['c'], [(['x'], .table)], [⟨['y'], ['x'], [.orderBy (.var (dotted ['x'] score)) (.const true)]⟩], ['x'], [.orderBy (.var (dotted ['x'] score)) (.const false)]⟩
def twiceText : List Char :=
  "table < Student > f ( Context c , table < Student > x ) { auto y = x . order_by ( x . score , true ) ; return x . order_by ( x . score , false ) ; } ".toList

theorem twice_print : twiceText = writeTokens (funcsPrint [twice.src students]) := by decide +kernel

theorem twice_lits (fpu : Hw) : BodyLits fpu twice.body twice.calls := by simp [BodyLits, twice, Call.exprs, VecFn.Ex.Lits]

theorem twice_writable : twice.Writable demoCfg := by
  have hx : NameOk demoCfg ['x'] := ⟨example_name _ (by decide), by decide⟩
  have hy : NameOk demoCfg ['y'] := ⟨example_name _ (by decide), by decide⟩
  have hs : IsName score := ⟨⟨_, _, rfl, by decide, by decide⟩, by decide⟩
  have hc : ∀ b, Call.Writable demoCfg (.orderBy (.var (dotted ['x'] score)) (.const b)) := by
    intro b
    refine ⟨?_, trivial⟩
    simp only [Call.exprs, List.mem_cons, List.not_mem_nil, or_false]
    rintro e (rfl | rfl)
    · exact .inr ⟨_, _, hx, hs, rfl⟩
    · trivial
  refine ⟨⟨example_name _ (by decide), by decide⟩, ⟨example_name _ (by decide), by decide⟩, by simpa [twice] using hx, ?_, hx, ?_⟩
  · simp only [twice, List.mem_singleton]
    rintro s rfl
    refine ⟨hy, hx, ?_⟩
    simpa using hc true
  · simpa [twice] using hc false

theorem perm_two {α : Type} {l : List α} {a b : α} (h : l.Perm [a, b]) : l = [a, b] ∨ l = [b, a] := by
  have ha : a ∈ l := h.mem_iff.2 (by simp)
  obtain ⟨s, t, rfl⟩ := List.append_of_mem ha
  have h1 : (a :: (s ++ t)).Perm [a, b] := List.perm_middle.symm.trans h
  have h2 : s ++ t = [b] := List.perm_singleton.1 (List.Perm.cons_inv h1)
  match s, t, h2 with
  | [], t, h2 => left; simpa using h2
  | [c], [], h2 => right; simpa using h2

theorem sort_two {P : Type} {L : Lib P} (hL : L.Ok) (desc : Bool) (u v : Int) (hu : IntOps.Fits .i32 u) (hv : IntOps.Fits .i32 v) (h : if desc = true then u < v else v < u) :
    L.sort (.int .i32) desc [.word u, .word v] [0, 1] = ([.word v, .word u], [1, 0]) := by
  obtain ⟨σ, h1, h2, h3⟩ := hL.sort (.int .i32) desc [.int u, .int v] [0, 1] (by simp; exact ⟨hu, hv⟩) rfl
  have hr : leq (.int u) (.int u) ∧ leq (.int v) (.int v) := ⟨⟨.int .i32, by simp [relV, Rel.holds]⟩, .int .i32, by simp [relV, Rel.holds]⟩
  have h3 := h3 (by simp; exact hr)
  have hlt : ∀ {a b : Int}, leq (.int a) (.int b) → a ≤ b := by
    rintro a b ⟨t, ht⟩
    cases t <;> simp [relV, Rel.holds, Val.flt?] at ht
    exact ht
  rcases perm_two (show σ.Perm [0, 1] from h1) with rfl | rfl
  · simp [before] at h3
    cases desc with
    | true => have := hlt (by simpa using h3); rw [if_pos rfl] at h; omega
    | false => have := hlt (by simpa using h3); rw [if_neg (by simp)] at h; omega
  · simpa [Ty.p, Val.enc] using h2

/-- Sorting by the column, whatever it holds. -/
theorem twice_step {L : Lib (Int × Int)} (hL : L.Ok) {w : TWorld (Int × Int)} {i : Nat} (hx : w.tabs.lookup ['x'] = some i) {o o' : TObj (Int × Int)} (ho : w.objs[i]? = some o) {a b : Int × Int}
    (hr : o.rows = [⟨0, [a, b]⟩]) {u v : Int} (hl : o.load students.cols score = .ok o') (hc : o'.cache score = [.word u, .word v]) (hr' : o'.rows = o.rows) (hu : IntOps.Fits .i32 u)
    (hv : IntOps.Fits .i32 v) (desc : Bool) (h : if desc = true then u < v else v < u) :
    runTab L students w (chainExpr ['x'] [.orderBy (.var (dotted ['x'] score)) (.const desc)]).toTree =
      .ok ({ w with objs := (w.objs.set i { o' with cache := fun f => if f = score then [.word v, .word u] else o'.cache f }) ++ [⟨[⟨0, [b, a]⟩], fun _ => []⟩] }, w.objs.length) := by
  have hcol : o.column students.cols score = [.word u, .word v] := by unfold TObj.column; rw [hl]; exact hc
  have ht : (chainExpr ['x'] [.orderBy (.var (dotted ['x'] score)) (.const desc)]).toTree =
      .atom (.access ['x'] (.cons (.method orderByText (.cons (.un none (.access ['x'] (.cons (.field score) .nil))) (.cons (.un none (.bool desc)) .nil))) .nil)) := rfl
  have hv1 : (argWorld students.cols ['x'] o w).vars (dotted ['x'] score) = some ((true, .int .i32), 0) := rfl
  have hv2 : (argWorld students.cols ['x'] o w).cells[0]? = some (.vec ⟨2, [.word u, .word v]⟩) := by
    show some (Cell.vec ⟨(o.column students.cols score).length, o.column students.cols score⟩) = _
    rw [hcol]; rfl
  have he : evalArg L students w (.un none (.access ['x'] (.cons (.field score) .nil))) = .ok ({ w with objs := w.objs.set i o' }, ⟨.int .i32, ⟨2, [.word u, .word v]⟩, some (i, score)⟩) := by
    have hld : loadAll students.cols o [score] = .ok o' := by simp [loadAll, hl, Except.bind]
    have hrd : reads (Expr.un none (.access ['x'] (.cons (.field score) .nil))).toTree = [(['x'], score)] := rfl
    have hck : checkE L.fpu (fun y => ((argWorld students.cols ['x'] o w).vars y).map (·.1)) (undotE (.un none (.access ['x'] (.cons (.field score) .nil)))) = some (true, .int .i32) := by
      simp [undotE, undotO, checkE, VecFn.checkO, hv1]
    have hnd : nodesOf L.fpu (argWorld students.cols ['x'] o w).leaf (flatE Real.arity (undotE (.un none (.access ['x'] (.cons (.field score) .nil))))) = some [.vec (.int .i32) 0] := by
      simp [undotE, undotO, flatE, flatO, nodesOf, VecFn.nodeOf, World.leaf, hv1, hv2, VecFn.leafIn]
    unfold evalArg
    rw [hrd]
    dsimp only
    rw [if_neg (by simp), hx]
    dsimp only
    rw [ho]
    dsimp only
    rw [show score :: List.map (fun x : Name × Name => x.2) [] = [score] from rfl, hld]
    simp only [Except.bind]
    rw [hck, hnd]
    simp only [evalNodes]
    rw [show students.cols[0]? = some ⟨score, 0, .num (.int .i32) fun p => .int (scoreOf p)⟩ from rfl]
    simp only [hcol]
    rfl
  have hi : i < w.objs.length := (List.getElem?_eq_some_iff.1 ho).1
  have hnum : ∀ w', evalNum L w' .bit (.un none (.bool desc)) = .ok (.word (bit desc)) := fun w' => rfl
  have hgs := Tbl.gatherSub_ok L.null L.lanes hL.lanes.1 [⟨0, [a, b]⟩] (by simp [Tbl.Aligned, Tbl.count]) [1, 0] (by simp [Tbl.count])
  rw [ht, runTab, hx]
  dsimp only
  rw [runChain, show callOn L students w i orderByText (.cons (.un none (.access ['x'] (.cons (.field score) .nil))) (.cons (.un none (.bool desc)) .nil)) =
    (evalArg L students w (.un none (.access ['x'] (.cons (.field score) .nil)))).bind fun q => (evalNum L q.1 .bit (.un none (.bool desc))).bind fun d => (wordOf d).bind fun d => doOrder L q.1 i q.2 (d != 0) from rfl]
  rw [he]
  simp only [Except.bind]
  rw [hnum]
  have hb : (bit desc != 0) = desc := by cases desc <;> rfl
  simp only [wordOf, hb]
  have hord : doOrder L { w with objs := w.objs.set i o' } i ⟨.int .i32, ⟨2, [.word u, .word v]⟩, some (i, score)⟩ desc =
      .ok ({ w with objs := (w.objs.set i { o' with cache := fun f => if f = score then [.word v, .word u] else o'.cache f }) ++ [⟨[⟨0, [b, a]⟩], fun _ => []⟩] }, w.objs.length) := by
    unfold doOrder
    rw [if_neg (by simp [keyTy])]
    dsimp only
    rw [List.getElem?_set_self hi]
    dsimp only
    rw [hr', hr]
    unfold Tbl.orderBy Tbl.sortKeyValue
    rw [if_neg (by simp), if_neg (by simp [Tbl.count])]
    dsimp only
    rw [show List.range (Tbl.count [(⟨0, [a, b]⟩ : Tbl.Group (Int × Int))]) = [0, 1] from rfl, show List.take 2 [MV.word u, .word v] = [.word u, .word v] from rfl, sort_two hL desc u v hu hv h]
    dsimp only
    rw [hgs]
    simp [finish, TWorld.spoil, TWorld.push, hi, Tbl.pick, hr', hr]
  rw [hord]
  rfl

/-- **C157**, the claim fails: sorting a table by a column sorts the column, but not the table, in place. `auto y = x.order_by(x.score, true); return x.order_by(x.score, false);` is to return two students
with the lower score first; it returns them with the higher score first. -/
theorem sorted_column_violated (L : Lib (Int × Int)) (hL : L.Ok) (a b : Int × Int) (hab : scoreOf a < scoreOf b) :
    ReadsFn demoCfg students twiceText twice ∧ (∀ o, twice.Returns L.fpu students [.table [⟨0, [a, b]⟩]] o → o = some [[a], [b]]) ∧
      (runFn demoCfg L students twiceText [.table [⟨0, [a, b]⟩]]).map rowsOf = .ok [[b], [a]] := by
  refine ⟨by rw [twice_print]; exact fn_text demoCfg L.fpu students demo_types twice (twice_lits L.fpu) twice_writable, ?_, ?_⟩
  · intro o h1
    have h1 : Exec L.fpu students [] [(['x'], rowsOf [⟨0, [a, b]⟩])] [⟨['y'], ['x'], [.orderBy (.var (dotted ['x'] score)) (.const true)]⟩] ['x'] [.orderBy (.var (dotted ['x'] score)) (.const false)] o := h1
    rw [rows_one] at h1
    have e1 : vectorOf L.fpu 2 (seen students.cols ['x'] [[a], [b]] []) (.var (dotted ['x'] score)) = some [.int (scoreOf a), .int (scoreOf b)] := rfl
    have key : ∀ τ d q, Gives L.fpu students [] τ ['x'] [[a], [b]] (.orderBy (.var (dotted ['x'] score)) (.const d)) q →
        ∃ out, q = some out ∧ Ordered d [.int (scoreOf a), .int (scoreOf b)] [[a], [b]] out := by
      intro τ d q hq
      simp only [Gives] at hq
      rw [show List.length [[a], [b]] = 2 from rfl, e1, show flag L.fpu [] (.const d) = some d from rfl] at hq
      exact hq
    cases h1 with
    | fail hx h =>
      cases hx
      cases h with
      | fail h => obtain ⟨_, h, _⟩ := key _ _ _ h; cases h
      | step h hs => cases hs
    | step hx h hs =>
      cases hs with
      | result hx h =>
      cases hx
      cases h with
      | fail h => obtain ⟨_, h, _⟩ := key _ _ _ h; cases h
      | step h hs =>
        cases hs
        obtain ⟨out, h, ps, hp, h2, rfl⟩ := key _ _ _ h
        cases h
        have hr : ∀ z, leq (.int z) (.int z) := fun z => ⟨.int .i32, by simp [relV, Rel.holds]⟩
        rcases perm_two (show ps.Perm [(.int (scoreOf a), [a]), (.int (scoreOf b), [b])] from hp) with rfl | rfl
        · rfl
        · have h2 := h2 (by simp [hr])
          simp only [before, List.pairwise_cons, List.mem_singleton, forall_eq] at h2
          obtain ⟨t, ht⟩ := h2.1
          cases t <;> simp [relV, Rel.holds, Val.flt?] at ht
          omega
  · obtain ⟨h1, _⟩ := fn_parse demoCfg L.fpu students demo_types twice (twice_lits L.fpu) twice_writable
    have f1 : ∀ p, IntOps.Fits .i32 (scoreOf p) := fun p => Pipeline.wrap_fits _ _
    unfold runFn
    rw [twice_print, h1]
    dsimp only
    rw [if_pos (by rfl)]
    have hent : enter students ⟨[], [], [], []⟩ (twice.src students).func.params [.table [⟨0, [a, b]⟩]] = .ok ⟨[⟨[⟨0, [a, b]⟩], fun _ => []⟩], [(['x'], 0)], [], [['c']]⟩ := rfl
    rw [hent]
    simp only [Except.bind]
    rw [show (twice.src students).func.body = .cons (.expr (.bin (.un none (.define ['y'])) .assign (chainExpr ['x'] [.orderBy (.var (dotted ['x'] score)) (.const true)])))
      (.cons (.retVal (chainExpr ['x'] [.orderBy (.var (dotted ['x'] score)) (.const false)])) .nil) from rfl]
    have s1 := twice_step hL (w := ⟨[⟨[⟨0, [a, b]⟩], fun _ => []⟩], [(['x'], 0)], [], [['c']]⟩) (i := 0) rfl (o := ⟨[⟨0, [a, b]⟩], fun _ => []⟩)
      (o' := ⟨[⟨0, [a, b]⟩], fun h => if h = score then [.word (scoreOf a), .word (scoreOf b)] else []⟩) rfl (a := a) (b := b) rfl (u := scoreOf a) (v := scoreOf b)
      rfl (by simp) rfl (f1 a) (f1 b) true (by simpa using hab)
    rw [runBody, runSt, if_neg (by simp [TWorld.taken]), s1]
    simp only [Except.bind, List.set_cons_zero, List.length_singleton, List.singleton_append]
    have s2 := twice_step hL (w := ⟨[⟨[⟨0, [a, b]⟩], fun f => if f = score then [.word (scoreOf b), .word (scoreOf a)] else if f = score then [.word (scoreOf a), .word (scoreOf b)] else []⟩,
        ⟨[⟨0, [b, a]⟩], fun _ => []⟩], [(['y'], 1), (['x'], 0)], [], [['c']]⟩) (i := 0) rfl (o := ⟨[⟨0, [a, b]⟩], fun f => if f = score then [.word (scoreOf b), .word (scoreOf a)] else if f = score then [.word (scoreOf a), .word (scoreOf b)] else []⟩)
      (o' := ⟨[⟨0, [a, b]⟩], fun f => if f = score then [.word (scoreOf b), .word (scoreOf a)] else if f = score then [.word (scoreOf a), .word (scoreOf b)] else []⟩) rfl (a := a) (b := b) rfl (u := scoreOf b) (v := scoreOf a)
      (by simp [TObj.load, students, score]) (by simp) rfl (f1 b) (f1 a) false (by simpa using hab)
    rw [runBody, s2]
    rfl

/-- Two such students. -/
example : scoreOf (1, 0) < scoreOf (2, 0) := by decide

/-- A call does not sort by a column alone. -/
def Call.computed : Call → Bool
  | .orderBy (.var _) _ => false
  | .topk (.var _) _ _ => false
  | _ => true

/-- A function that sorts by computed keys only; any column may be read at any time. -/
def BodyComputed {P : Type} (fpu : Hw) (S : Schema P) (ν : List (Name × El)) (ctx : Name) : List TSt → List Name → Name → List Call → Prop
  | [], tabs, x, cs => x ∈ tabs ∧ CallsOk fpu S ν tabs x [] cs ∧ ∀ c ∈ cs, c.computed = true
  | s :: ss, tabs, x, cs => (s.target ∉ tabs ∧ s.target ∉ ν.map (·.1) ∧ s.target ≠ ctx ∧ '.' ∉ s.target) ∧ s.calls ≠ [] ∧ (s.table ∈ tabs ∧ CallsOk fpu S ν tabs s.table [] s.calls ∧
      ∀ c ∈ s.calls, c.computed = true) ∧ BodyComputed fpu S ν ctx ss (s.target :: tabs) x cs

def TFn.Computed {P : Type} (fpu : Hw) (S : Schema P) (g : TFn) : Prop :=
  ((g.params.map (·.1)).Nodup ∧ g.ctx ∉ g.params.map (·.1) ∧ ∀ q ∈ g.params, '.' ∉ q.1) ∧ BodyComputed fpu S (numTypes g.params) g.ctx g.body (tableNames g.params) g.result g.calls

theorem clean_lookup (tabs : List Name) (x : Name) (h : x ∈ tabs) : (tabs.map fun y => (y, ([] : List Name))).lookup x = some [] := by
  induction tabs with
  | nil => cases h
  | cons y l ih =>
    rw [List.map_cons, List.lookup_cons]
    by_cases hxy : x = y
    · rw [hxy, beq_self_eq_true]
    · rw [beq_eq_false_iff_ne.2 hxy]
      rcases List.mem_cons.1 h with h | h
      · exact absurd h hxy
      · exact ih h

theorem computed_spoils (x : Name) (cs : List Call) (h : ∀ c ∈ cs, c.computed = true) : spoils x cs = [] := by
  match cs with
  | [] => rfl
  | c :: cs =>
    have h := h c (by simp)
    cases c with
    | orderBy e d => cases e <;> first | rfl | simp [Call.computed] at h
    | topk e k d => cases e <;> first | rfl | simp [Call.computed] at h
    | _ => rfl

theorem computed_body {P : Type} {fpu : Hw} {S : Schema P} {ν : List (Name × El)} {ctx x : Name} {cs : List Call} : ∀ (ss : List TSt) (tabs : List Name), BodyComputed fpu S ν ctx ss tabs x cs →
    BodyOk fpu S ν ctx ss (tabs.map fun y => (y, [])) x cs
  | [], tabs, ⟨h1, h2, _⟩ => ⟨[], clean_lookup tabs x h1, by simpa [Function.comp_def] using h2⟩
  | s :: ss, tabs, ⟨h1, h2, ⟨h3, h4, h5⟩, h6⟩ => by
    have e : (tabs.map fun y => (y, ([] : List Name))).map (·.1) = tabs := by simp [Function.comp_def]
    refine ⟨by rw [e]; exact h1, h2, ⟨[], clean_lookup tabs _ h3, by rw [e]; exact h4⟩, ?_⟩
    have := computed_body ss (s.target :: tabs) h6
    rw [computed_spoils _ _ h5, if_pos rfl, clean_lookup tabs _ h3]
    rw [mark_nil]
    exact this

/-- **C157**, what holds: in a function that sorts by computed keys only, such as `x.score + 0`, any column may be read at any time. -/
theorem sorted_column_partial {P : Type} (cfg : Cfg) (L : Lib P) (hL : L.Ok) (S : Schema P) (hS : S.Ok L.fpu) (g : TFn) (hg : g.Computed L.fpu S) (src : List Char) (hs : ReadsFn cfg S src g)
    (args : List (TArg P)) (ha : Passed L.fpu S g.params args) (hn : ∀ t, .table t ∈ args → Tbl.count t * 2 ^ g.concats < 2 ^ 30) :
    ∃ o, g.Returns L.fpu S args o ∧ (runFn cfg L S src args).map rowsOf = outcome o :=
  table_function cfg L hL S hS g ⟨hg.1, computed_body _ _ hg.2⟩ src hs args ha hn

/-- Such a function: `auto y = x.order_by(x.score + x.score, true); return x.order_by(x.score + x.score, false);` -/
example (fpu : Hw) : TFn.Computed fpu students ⟨['f'], ['c'], [(['x'], .table)], [⟨['y'], ['x'], [.orderBy (.arith .add (.var (dotted ['x'] score)) (.var (dotted ['x'] score))) (.const true)]⟩], ['x'],
    [.orderBy (.arith .add (.var (dotted ['x'] score)) (.var (dotted ['x'] score))) (.const false)]⟩ := by
  have hc : ∀ b tabs, CallsOk fpu students [] tabs ['x'] [] [.orderBy (.arith .add (.var (dotted ['x'] score)) (.var (dotted ['x'] score))) (.const b)] := fun b tabs =>
    ⟨⟨rfl, ⟨.int .i32, rfl, ⟨trivial, trivial⟩, by simp [Guarded], by decide, ⟨true, by decide⟩, by simp⟩, trivial, rfl, false, .bool, rfl, rfl⟩, by simp⟩
  exact ⟨⟨by decide, by decide, by decide⟩, ⟨by decide, by decide, by decide, by decide⟩, by simp, ⟨by decide, hc true _, by simp [Call.computed]⟩, by decide, hc false _, by simp [Call.computed]⟩

end Verif.Comp.TableFn
