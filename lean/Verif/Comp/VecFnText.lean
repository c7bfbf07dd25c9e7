import Verif.Comp.VecFnProps
import Verif.Comp.RealProps
import Verif.Ast.Stmts
/-!
# Texts of functions over vectors, and functions that do not do what they say: C153–C155
-/
namespace Verif.Comp.VecFn
open Verif.Ast hiding Ty
open Verif.Ast.Rpn Verif.Gen
open Verif.Types.Conv (IntTy)
open Verif.Gen.Scalar (Name)
open Verif.Comp.Pipeline (Arith Rel decimal bit)
open Verif.Comp.Real hiding Passed Ex
open Verif.Comp.Words (relStr)
open Verif.Comp.StrLit (bytes)
open Verif.Types.Str (Byte SV)
open Verif.Comp.Script (NameOk)

/-! ## Every function has a text -/

/-- Strings the lexer reads as such, names the grammar admits. -/
def Str.Writable (cfg : Cfg) : Str → Prop
  | .text s => StrBody s
  | .var x => NameOk cfg x

/-- Literals are in the range of the parser, and names are such that the grammar admits them. -/
def Ex.Writable (cfg : Cfg) : Ex → Prop
  | .lit ds _ => cfg.inRange ds = true
  | .frac ip fp _ => cfg.inRange (fracText ip fp) = true
  | .const _ => True
  | .var x => NameOk cfg x
  | .neg a => a.Writable cfg
  | .not a => a.Writable cfg
  | .arith _ a b => a.Writable cfg ∧ b.Writable cfg
  | .rel _ a b => a.Writable cfg ∧ b.Writable cfg
  | .and a b => a.Writable cfg ∧ b.Writable cfg
  | .or a b => a.Writable cfg ∧ b.Writable cfg
  | .pick c a b => c.Writable cfg ∧ a.Writable cfg ∧ b.Writable cfg
  | .fn1 f a => NameOk cfg f.name ∧ a.Writable cfg
  | .fn2 f a b => NameOk cfg f.name ∧ a.Writable cfg ∧ b.Writable cfg
  | .fn3 f a b c => NameOk cfg f.name ∧ a.Writable cfg ∧ b.Writable cfg ∧ c.Writable cfg
  | .cmp _ a b => a.Writable cfg ∧ b.Writable cfg

def Str.tree : Str → Tree
  | .text s => .atom (.str s)
  | .var x => .atom (.var x)

/-- An expression as it may be written. -/
def Ex.tree : Ex → Tree
  | .lit ds s => .atom (.num (withSuffix ds s))
  | .frac ip fp s => .atom (.num (withSuffix (fracText ip fp) s))
  | .const b => .atom (.bool b)
  | .var x => .atom (.var x)
  | .neg a => .un .neg a.tree
  | .not a => .un .not a.tree
  | .arith o a b => .bin a.tree o.sign b.tree
  | .rel o a b => .bin a.tree o.sign b.tree
  | .and a b => .bin a.tree .and b.tree
  | .or a b => .bin a.tree .or b.tree
  | .pick c a b => .sel c.tree a.tree b.tree
  | .fn1 f a => .atom (.call f.name (.cons a.tree.toExpr .nil))
  | .fn2 f a b => .atom (.call f.name (.cons a.tree.toExpr (.cons b.tree.toExpr .nil)))
  | .fn3 f a b c => .atom (.call f.name (.cons a.tree.toExpr (.cons b.tree.toExpr (.cons c.tree.toExpr .nil))))
  | .cmp o a b => .bin a.tree o.sign b.tree

theorem str_tree (cfg : Cfg) (a : Str) (hn : a.Writable cfg) : a.tree.WF cfg ∧ a.Is a.tree := by
  cases a with
  | text s => rw [Str.tree, Tree.WF, Operand.WF]; exact ⟨⟨hn, by simp⟩, rfl⟩
  | var x => rw [Str.tree, Tree.WF, Operand.WF]; exact ⟨⟨hn, by simp⟩, rfl⟩

theorem ex_tree (fpu : Hw) (cfg : Cfg) (p : Ex) (hl : p.Lits fpu) (hn : p.Writable cfg) : p.tree.WF cfg ∧ p.Is p.tree := by
  induction p with
  | lit ds s => exact Real.ex_tree fpu cfg (.lit ds s) hl hn
  | frac ip fp s => exact Real.ex_tree fpu cfg (.frac ip fp s) hl hn
  | const b => rw [Ex.tree, Tree.WF, Operand.WF]; exact ⟨⟨trivial, by simp⟩, rfl⟩
  | var x => rw [Ex.tree, Tree.WF, Operand.WF]; exact ⟨⟨hn, by simp⟩, rfl⟩
  | neg a ih => rw [Ex.tree, Tree.WF]; have h := ih hl hn; exact ⟨h.1, _, rfl, h.2⟩
  | not a ih => rw [Ex.tree, Tree.WF]; have h := ih hl hn; exact ⟨h.1, _, rfl, h.2⟩
  | arith o a b iha ihb => rw [Ex.tree, Tree.WF]; have h := iha hl.1 hn.1; have k := ihb hl.2 hn.2; exact ⟨⟨h.1, k.1⟩, _, _, rfl, h.2, k.2⟩
  | rel o a b iha ihb => rw [Ex.tree, Tree.WF]; have h := iha hl.1 hn.1; have k := ihb hl.2 hn.2; exact ⟨⟨h.1, k.1⟩, _, _, rfl, h.2, k.2⟩
  | and a b iha ihb => rw [Ex.tree, Tree.WF]; have h := iha hl.1 hn.1; have k := ihb hl.2 hn.2; exact ⟨⟨h.1, k.1⟩, _, _, rfl, h.2, k.2⟩
  | or a b iha ihb => rw [Ex.tree, Tree.WF]; have h := iha hl.1 hn.1; have k := ihb hl.2 hn.2; exact ⟨⟨h.1, k.1⟩, _, _, rfl, h.2, k.2⟩
  | pick c a b ihc iha ihb =>
    rw [Ex.tree, Tree.WF]
    have g := ihc hl.1 hn.1; have h := iha hl.2.1 hn.2.1; have k := ihb hl.2.2 hn.2.2
    exact ⟨⟨g.1, h.1, k.1⟩, _, _, _, rfl, g.2, h.2, k.2⟩
  | fn1 f a ih =>
    have h := ih hl hn.2
    have s := toExpr_spec cfg _ h.1
    rw [Ex.tree, Tree.WF, Operand.WF, Exprs.WF, Exprs.WF]
    exact ⟨⟨⟨hn.1.1, hn.1.2, s.1, trivial⟩, by simp⟩, _, rfl, by rw [s.2]; exact h.2⟩
  | fn2 f a b iha ihb =>
    have h := iha hl.1 hn.2.1
    have k := ihb hl.2 hn.2.2
    have s := toExpr_spec cfg _ h.1
    have r := toExpr_spec cfg _ k.1
    rw [Ex.tree, Tree.WF, Operand.WF, Exprs.WF, Exprs.WF, Exprs.WF]
    exact ⟨⟨⟨hn.1.1, hn.1.2, s.1, r.1, trivial⟩, by simp⟩, _, _, rfl, by rw [s.2]; exact h.2, by rw [r.2]; exact k.2⟩
  | fn3 f a b c iha ihb ihc =>
    have h := iha hl.1 hn.2.1
    have k := ihb hl.2.1 hn.2.2.1
    have g := ihc hl.2.2 hn.2.2.2
    have s := toExpr_spec cfg _ h.1
    have r := toExpr_spec cfg _ k.1
    have q := toExpr_spec cfg _ g.1
    rw [Ex.tree, Tree.WF, Operand.WF, Exprs.WF, Exprs.WF, Exprs.WF, Exprs.WF]
    exact ⟨⟨⟨hn.1.1, hn.1.2, s.1, r.1, q.1, trivial⟩, by simp⟩, _, _, _, rfl, by rw [s.2]; exact h.2, by rw [r.2]; exact k.2, by rw [q.2]; exact g.2⟩
  | cmp o a b => rw [Ex.tree, Tree.WF]; have h := str_tree cfg a hn.1; have k := str_tree cfg b hn.2; exact ⟨⟨h.1, k.1⟩, _, _, rfl, h.2, k.2⟩

def St.stmt : St → Stmt
  | .define x e => .expr (.bin (.un none (.define x)) .assign e.tree.toExpr)
  | .assign x e => .expr (.bin (.un none (.var x)) .assign e.tree.toExpr)
  | .update o x e => .expr (.bin (.un none (.var x)) (updateSign o) e.tree.toExpr)

def bodyStmts : List St → Ex → Stmts
  | [], e => .cons (.retVal e.tree.toExpr) .nil
  | s :: ss, e => .cons s.stmt (bodyStmts ss e)

/-- A type as it is written. -/
def tySrc : Bool × Ty → Ast.Ty
  | (true, t) => ⟨['s', 'i', 'm', 'd', '_', 'v', 'e', 'c', 't', 'o', 'r'], [baseText t]⟩
  | q => ⟨typeText q, []⟩

def elSrc : Bool × El → Ast.Ty
  | (v, .num t) => tySrc (v, t)
  | (true, .str) => ⟨['s', 'i', 'm', 'd', '_', 'v', 'e', 'c', 't', 'o', 'r'], [viewText]⟩
  | (false, .str) => ⟨viewText, []⟩

def VFn.src (g : VFn) : FuncSrc := ⟨tySrc (true, g.ret), g.name, (⟨contextText, []⟩, g.ctx) :: g.params.map fun q => (elSrc q.2, q.1), bodyStmts g.body g.result⟩

/-- All names are admitted by the grammar, and all literals are in the range of the parser. -/
def St.Writable (cfg : Cfg) (s : St) : Prop := NameOk cfg s.target ∧ match s with
  | .define _ e => e.Writable cfg
  | .assign _ e => e.Writable cfg
  | .update _ _ e => e.Writable cfg

structure VFn.Writable (cfg : Cfg) (g : VFn) : Prop where
  name : NameOk cfg g.name
  ctx : NameOk cfg g.ctx
  params : ∀ q ∈ g.params, NameOk cfg q.1
  body : ∀ s ∈ g.body, s.Writable cfg
  result : g.result.Writable cfg

theorem ex_text (fpu : Hw) (cfg : Cfg) (p : Ex) (hl : p.Lits fpu) (hn : p.Writable cfg) : p.tree.toExpr.WF cfg ∧ p.Is p.tree.toExpr.toTree := by
  obtain ⟨h1, h2⟩ := ex_tree fpu cfg p hl hn
  have s := toExpr_spec cfg _ h1
  exact ⟨s.1, by rw [s.2]; exact h2⟩

theorem name_src (q : Bool × Ty) : (tySrc q).name = typeText q := by
  obtain ⟨b, t⟩ := q
  cases b with
  | false => rfl
  | true => simp [tySrc, Ast.Ty.name, Ty.argsName, typeText, vecPrefix]

theorem name_el (q : Bool × El) : (elSrc q).name = paramText q := by
  obtain ⟨b, el⟩ := q
  cases el with
  | num t => exact name_src (b, t)
  | str => cases b <;> decide

theorem base_name (t : Ty) : IsName (baseText t) := by
  cases t with
  | bool => exact ⟨⟨_, _, rfl, by decide, by decide⟩, by decide⟩
  | int t => exact Function.suffix_name t
  | flt F => cases F <;> exact ⟨⟨_, _, rfl, by decide, by decide⟩, by decide⟩

/-- The types are known. -/
def TypesOk (cfg : Cfg) : Prop := (∀ q, cfg.isType (paramText q) = true) ∧ cfg.isType contextText = true

theorem ty_wf (cfg : Cfg) (ht : TypesOk cfg) (q : Bool × Ty) : (tySrc q).WF cfg := by
  refine ⟨?_, ?_, by rw [name_src]; exact ht.1 (q.1, .num q.2)⟩ <;> obtain ⟨b, t⟩ := q
  · cases b with
    | true => show IsName ['s', 'i', 'm', 'd', '_', 'v', 'e', 'c', 't', 'o', 'r']; exact ⟨⟨_, _, rfl, by decide, by decide⟩, by decide⟩
    | false => cases t with
      | bool => exact ⟨⟨_, _, rfl, by decide, by decide⟩, by decide⟩
      | int t => exact base_name (.int t)
      | flt F => exact base_name (.flt F)
  · cases b with
    | true => simp [tySrc, base_name]
    | false => simp [tySrc]

theorem view_name : IsName viewText := ⟨⟨_, _, rfl, by decide, by decide⟩, by decide⟩

theorem el_wf (cfg : Cfg) (ht : TypesOk cfg) (q : Bool × El) : (elSrc q).WF cfg := by
  obtain ⟨b, el⟩ := q
  cases el with
  | num t => exact ty_wf cfg ht (b, t)
  | str => cases b with
    | true => exact ⟨⟨⟨_, _, rfl, by decide, by decide⟩, by decide⟩, by simp [elSrc, view_name], by rw [name_el]; exact ht.1 (true, .str)⟩
    | false => exact ⟨view_name, by simp [elSrc], by rw [name_el]; exact ht.1 (false, .str)⟩

theorem st_text (fpu : Hw) (cfg : Cfg) (s : St) (hl : s.source.Lits fpu) (hn : s.Writable cfg) : s.stmt.WF cfg ∧ s.Is s.stmt := by
  cases s with
  | define x e =>
    obtain ⟨h1, h2⟩ := ex_text fpu cfg e hl hn.2
    exact ⟨Function.wf_assign cfg _ (by rw [Operand.WF]; exact hn.1) _ rfl _ h1, _, rfl, h2⟩
  | assign x e =>
    obtain ⟨h1, h2⟩ := ex_text fpu cfg e hl hn.2
    exact ⟨Function.wf_assign cfg _ (by rw [Operand.WF]; exact hn.1) _ rfl _ h1, _, rfl, h2⟩
  | update o x e =>
    rw [St.source, Ex.Lits] at hl
    obtain ⟨h1, h2⟩ := ex_text fpu cfg e hl.2 hn.2
    exact ⟨Function.wf_assign cfg _ (by rw [Operand.WF]; exact hn.1) _ (by cases o <;> rfl) _ h1, _, rfl, h2⟩

/-- The literals of a body. -/
def BodyLits (fpu : Hw) (ss : List St) (e : Ex) : Prop := (∀ s ∈ ss, s.source.Lits fpu) ∧ e.Lits fpu

theorem body_lits (fpu : Hw) : ∀ (ss : List St) (Γ : VEnv) (e : Ex) (t : Ty), BodyOk fpu ss Γ e t → BodyLits fpu ss e
  | [], _, _, _, h => ⟨by simp, h.1⟩
  | s :: ss, Γ, e, t, ⟨u, h1, h2⟩ => by
    have := body_lits fpu ss _ e t h2
    refine ⟨fun s' hs => ?_, this.2⟩
    rcases List.mem_cons.1 hs with rfl | hs
    · exact h1.1
    · exact this.1 s' hs

theorem body_text (fpu : Hw) (cfg : Cfg) (e : Ex) (he : e.Writable cfg) : ∀ ss : List St, BodyLits fpu ss e → (∀ s ∈ ss, s.Writable cfg) → (bodyStmts ss e).WF cfg ∧ BodyIs ss e (bodyStmts ss e)
  | [], h, _ => by
    obtain ⟨h1, h2⟩ := ex_text fpu cfg e h.2 he
    rw [bodyStmts, Stmts.WF, Stmt.WF, Stmts.WF]
    exact ⟨⟨h1, trivial⟩, h2⟩
  | s :: ss, h, hw => by
    obtain ⟨h1, h2⟩ := st_text fpu cfg s (h.1 s (by simp)) (hw s (by simp))
    obtain ⟨h3, h4⟩ := body_text fpu cfg e he ss ⟨fun s hs => h.1 s (by simp [hs]), h.2⟩ fun s hs => hw s (by simp [hs])
    rw [bodyStmts, Stmts.WF]
    exact ⟨⟨h1, h3⟩, h2, h4⟩

theorem context_wf (cfg : Cfg) (ht : cfg.isType contextText = true) : (⟨contextText, []⟩ : Ast.Ty).WF cfg :=
  ⟨⟨⟨_, _, rfl, by decide, by decide⟩, by decide⟩, by simp, ht⟩

theorem fn_parse (cfg : Cfg) (fpu : Hw) (ht : TypesOk cfg) (g : VFn) (hg : BodyLits fpu g.body g.result) (hw : g.Writable cfg) :
    parseFunctions cfg (writeTokens (funcsPrint [g.src])) = .ok [g.src.func] [] ∧ BodyIs g.body g.result g.src.func.body := by
  obtain ⟨h1, h2⟩ := body_text fpu cfg g.result hw.result g.body hg hw.body
  have hwf : g.src.WF cfg := ⟨ty_wf cfg ht (true, g.ret), hw.name, fun p hp => by
    simp only [VFn.src, List.mem_cons, List.mem_map] at hp
    rcases hp with rfl | ⟨q, hq, rfl⟩
    · exact ⟨context_wf cfg ht.2, hw.ctx⟩
    · exact ⟨el_wf cfg ht _, hw.params q hq⟩, h1⟩
  exact ⟨parse_functions_print cfg [g.src] (by simpa using hwf), h2⟩

theorem src_params (g : VFn) : g.src.func.params = (contextText, g.ctx) :: g.params.map fun q => (paramText q.2, q.1) := by
  simp only [FuncSrc.func, VFn.src, List.map_cons, List.map_map]
  refine congrArg (_ :: ·) ?_
  refine List.map_congr_left fun q _ => ?_
  simp [name_el]

theorem fn_text (cfg : Cfg) (fpu : Hw) (ht : TypesOk cfg) (g : VFn) (hg : BodyLits fpu g.body g.result) (hw : g.Writable cfg) :
    ReadsFn cfg (writeTokens (funcsPrint [g.src])) g := by
  obtain ⟨h1, h2⟩ := fn_parse cfg fpu ht g hg hw
  exact ⟨g.src.func, [], [], g.params, h1, name_src (true, g.ret), rfl, src_params g, h2⟩

/-- **C153.** Every function over vectors has such a text. -/
theorem every_vector_function_has_text (cfg : Cfg) (fpu : Hw) (ht : TypesOk cfg) (g : VFn) (hg : g.Ok fpu) (hw : g.Writable cfg) : ∃ src, ReadsFn cfg src g :=
  ⟨_, fn_text cfg fpu ht g (body_lits fpu _ _ _ _ hg.2) hw⟩

/-! ## An instance -/

def demoCfg : Cfg := { isType := fun t => (typeNamed t).isSome || decide (t = contextText), inRange := fun _ => true }
theorem demo_types : TypesOk demoCfg := by
  refine ⟨fun q => ?_, by decide⟩
  show ((typeNamed (paramText q)).isSome || _) = true
  rw [named_param]; rfl

def demoText : List Char :=
  "simd_vector < i32 > f ( Context c , simd_vector < i32 > x , i32 k ) { auto y = x * k ; y += 1 ; return x > k ? y : x ; } ".toList

def xv : Ex := .var ['x']
def kv : Ex := .var ['k']
def yv : Ex := .var ['y']
def one : Ex := .lit ['1'] none
def demo : VFn := ⟨['f'], ['c'], .int .i32, [(['x'], true, .num (.int .i32)), (['k'], false, .num (.int .i32))], [.define ['y'] (.arith .mul xv kv), .update .add ['y'] one], .pick (.rel .gt xv kv) yv xv⟩

theorem one_lits (fpu : Hw) : one.Lits fpu := by simp only [one, Ex.Lits, Real.Ex.Lits]; decide
theorem demo_lits (fpu : Hw) : BodyLits fpu demo.body demo.result := by
  refine ⟨fun s hs => ?_, ?_⟩
  · simp only [demo, List.mem_cons, List.not_mem_nil, or_false] at hs
    rcases hs with rfl | rfl
    · simp [St.source, xv, kv, Ex.Lits]
    · exact ⟨trivial, one_lits fpu⟩
  · simp [demo, xv, kv, yv, Ex.Lits]

theorem demo_name (c : Char) (h : c = 'f' ∨ c = 'x' ∨ c = 'k' ∨ c = 'y' ∨ c = 'c') : NameOk demoCfg [c] := by
  rcases h with rfl | rfl | rfl | rfl | rfl <;> exact ⟨example_name _ (by decide), by decide⟩

theorem demo_reads (fpu : Hw) : ReadsFn demoCfg demoText demo := by
  have e : demoText = writeTokens (funcsPrint [demo.src]) := by decide +kernel
  rw [e]
  have hx := demo_name 'x' (by decide)
  have hk := demo_name 'k' (by decide)
  have hy := demo_name 'y' (by decide)
  refine fn_text demoCfg fpu demo_types demo (demo_lits fpu) ⟨demo_name 'f' (by decide), demo_name 'c' (by decide), ?_, ?_, ?_⟩
  · simp [demo, hx, hk]
  · simp only [demo, List.mem_cons, List.not_mem_nil, or_false]
    rintro s (rfl | rfl)
    · exact ⟨hy, hx, hk⟩
    · exact ⟨hy, rfl⟩
  · exact ⟨⟨hx, hk⟩, hy, hx⟩

theorem demo_ok (fpu : Hw) : demo.Ok fpu := by
  refine ⟨⟨by decide, by decide, by decide⟩, .int .i32, ⟨(demo_lits fpu).1 _ (by simp [demo]), ?_, by decide, ⟨true, by decide⟩, by decide, by simp⟩, .int .i32,
    ⟨(demo_lits fpu).1 _ (by simp [demo]), ?_, by decide, ⟨true, by decide⟩, by decide⟩, (demo_lits fpu).2, ?_, by decide, ⟨true, by decide⟩, fun c a b h => ⟨true, ?_⟩⟩
  · simp [St.source, Guarded, xv, kv]
  · simp [St.source, Guarded, one]
  · simp [demo, Guarded, Sure, xv, kv, yv]
  · simp only [demo] at h
    injection h with _ h _
    subst h
    decide

/-- What the instance says: a loop over the elements. -/
theorem demo_returns (fpu : Hw) (l : List Int) (hl : ∀ z ∈ l, IntOps.Fits .i32 z) (k : Int) (hk : IntOps.Fits .i32 k) : demo.returns fpu l.length [.vec (l.map .int) [], .num (.int k)] =
    some (l.map fun z => .int (if k < z then Pipeline.wrap .i32 (Pipeline.wrap .i32 (z * k) + 1) else z)) := by
  have hw : ∀ z ∈ l, Pipeline.wrap .i32 z = z := fun z hz => Pipeline.wrap_self (hl z hz)
  have hk := Pipeline.wrap_self hk
  have ww : ∀ z, Pipeline.wrap .i32 (Pipeline.wrap .i32 z) = Pipeline.wrap .i32 z := fun z => Pipeline.wrap_self (Pipeline.wrap_fits _ _)
  let σ : Vars := start demo.params [.vec (l.map .int) [], .num (.int k)]
  have h1 : vectorOf fpu l.length σ (.arith .mul xv kv) = some (l.map fun z => .int (Pipeline.wrap .i32 (z * k))) := by
    refine mapM_get (by simp) _ fun i hi => ?_
    have hz := hw l[i] (List.getElem_mem _)
    have e1 : lane σ i ['x'] = some (.int l[i]) := by simp [lane, Item.at, Arg.item, σ, start, demo, bind, hi]
    have e2 : lane σ i ['k'] = some (.int k) := by simp [lane, Item.at, Arg.item, σ, start, demo, bind]
    have e3 : common (kinds σ) (.var ['x']) (.var ['k']) = some (.int .i32) := rfl
    simp [valueAt, e3, xv, kv, e1, e2, conv, hz, hk, arithV, Arith.calc, hi]
  let τ : Vars := bind σ ['y'] (.vec (.int .i32) (l.map fun z => .int (Pipeline.wrap .i32 (z * k))))
  have h2 : vectorOf fpu l.length τ (.arith .add yv one) = some (l.map fun z => .int (Pipeline.wrap .i32 (Pipeline.wrap .i32 (z * k) + 1))) := by
    refine mapM_get (by simp) _ fun i hi => ?_
    have e1 : lane τ i ['y'] = some (.int (Pipeline.wrap .i32 (l[i] * k))) := by simp [lane, Item.at, Arg.item, τ, bind, hi]
    have e2 : valueAt fpu (kinds τ) (lane τ i) (.lit ['1'] none) = some (.int 1) := by
      simp only [valueAt, Ex.value]; rfl
    have e3 : common (kinds τ) (.var ['y']) (.lit ['1'] none) = some (.int .i32) := rfl
    have e4 : Pipeline.wrap .i32 1 = 1 := by decide
    simp only [yv, one, valueAt, e3, Option.bind_some, e1]
    rw [show (Real.Ex.lit ['1'] none).value fpu (fun _ => none) (fun _ => none) = some (.int 1) from e2]
    simp [conv, ww, e4, arithV, Arith.calc, hi]
  let υ : Vars := bind τ ['y'] (.vec (.int .i32) (l.map fun z => .int (Pipeline.wrap .i32 (Pipeline.wrap .i32 (z * k) + 1))))
  have h3 : vectorOf fpu l.length υ (.pick (.rel .gt xv kv) yv xv) = some (l.map fun z => .int (if k < z then Pipeline.wrap .i32 (Pipeline.wrap .i32 (z * k) + 1) else z)) := by
    refine mapM_get (by simp) _ fun i hi => ?_
    have hz := hw l[i] (List.getElem_mem _)
    have e1 : lane υ i ['x'] = some (.int l[i]) := by simp [lane, Item.at, Arg.item, υ, τ, σ, start, demo, bind, hi]
    have e2 : lane υ i ['k'] = some (.int k) := by simp [lane, Item.at, Arg.item, υ, τ, σ, start, demo, bind]
    have e3 : lane υ i ['y'] = some (.int (Pipeline.wrap .i32 (Pipeline.wrap .i32 (l[i] * k) + 1))) := by simp [lane, Item.at, Arg.item, υ, bind, hi]
    have e4 : common (kinds υ) (.var ['x']) (.var ['k']) = some (.int .i32) := rfl
    have e5 : common (kinds υ) (.var ['y']) (.var ['x']) = some (.int .i32) := rfl
    by_cases hlt : k < l[i] <;> simp [valueAt, e4, e5, xv, kv, yv, e1, e2, e3, conv, hz, hk, ww, relV, Rel.holds, hi, hlt]
  have e : demo.returns fpu l.length [.vec (l.map .int) [], .num (.int k)] = (vectorOf fpu l.length σ (.arith .mul xv kv)).bind fun l1 =>
      (vectorOf fpu l.length (bind σ ['y'] (.vec (.int .i32) l1)) (.arith .add yv one)).bind fun l2 =>
        vectorOf fpu l.length (bind (bind σ ['y'] (.vec (.int .i32) l1)) ['y'] (.vec (.int .i32) l2)) (.pick (.rel .gt xv kv) yv xv) := by
    show (execute fpu _ _ σ).bind _ = _
    rw [show demo.body = [.define ['y'] (.arith .mul xv kv), .update .add ['y'] one] from rfl, execute, show elemOf (kinds σ) (St.source (.define ['y'] (.arith .mul xv kv))) = some (true, .int .i32) from rfl]
    simp only [Option.bind_some, execute, St.source, St.target]
    cases vectorOf fpu l.length σ (.arith .mul xv kv) with
    | none => rfl
    | some l1 =>
      simp only [Option.bind_some]
      rw [show elemOf (kinds (bind σ ['y'] (.vec (.int .i32) l1))) (Ex.arith .add (.var ['y']) one) = some (true, .int .i32) from rfl]
      simp only [Option.bind_some]
      rw [show Ex.arith .add (.var ['y']) one = .arith .add yv one from rfl]
      cases vectorOf fpu l.length (bind σ ['y'] (.vec (.int .i32) l1)) (.arith .add yv one) <;> rfl
  rw [e, h1, Option.bind_some, h2, Option.bind_some, h3]

/-- The text of the instance, compiled and called: any vector of any length. -/
example (fpu : Hw) (l : List Int) (hn : l.length < 2 ^ 30) (hl : ∀ z ∈ l, IntOps.Fits .i32 z) (k : Int) (hk : IntOps.Fits .i32 k) (mem : Nat → List MV) (hmem : ∀ m, (mem m).length = m) :
    runFn demoCfg fpu mem demoText [.vec (l.map .int) [], .num (.int k)] = .ok (l.map fun z => .word (if k < z then Pipeline.wrap .i32 (Pipeline.wrap .i32 (z * k) + 1) else z)) := by
  have ha : Passed fpu l.length demo.params [.vec (l.map .int) [], .num (.int k)] := by
    refine ⟨by simp, fun v hv => ?_, fun h => by simp at h, hk, trivial⟩
    simp only [List.mem_map] at hv
    obtain ⟨z, hz, rfl⟩ := hv
    exact hl z hz
  rw [vector_function demoCfg fpu demo (demo_ok fpu) demoText (demo_reads fpu) l.length hn _ ha mem hmem, demo_returns fpu l hl k hk]
  simp [outcome, Val.enc]

/-- Built-in functions: a 64-lane kernel (`sqrt`, `fma`) and an intrinsic (`max`). -/
def mathText : List Char := "simd_vector < f64 > f ( Context c , simd_vector < f64 > x , simd_vector < f64 > y ) { return sqrt ( fma ( x , x , max ( y , x ) ) ) ; } ".toList
def mathFn : VFn := ⟨['f'], ['c'], .flt .f64, [(['x'], true, .num (.flt .f64)), (['y'], true, .num (.flt .f64))], [], .fn1 .sqrt (.fn3 .fma xv xv (.fn2 .max yv xv))⟩

theorem math_reads (fpu : Hw) : ReadsFn demoCfg mathText mathFn := by
  have e : mathText = writeTokens (funcsPrint [mathFn.src]) := by decide +kernel
  rw [e]
  have hx := demo_name 'x' (by decide)
  have hy := demo_name 'y' (by decide)
  refine fn_text demoCfg fpu demo_types mathFn ⟨by simp [mathFn], by simp [mathFn, xv, yv, Ex.Lits]⟩ ⟨demo_name 'f' (by decide), demo_name 'c' (by decide), ?_, ?_, ?_⟩
  · simp [mathFn, hx, hy]
  · simp [mathFn]
  · exact ⟨⟨⟨⟨'s', ['q', 'r', 't'], rfl, by decide, by decide⟩, by decide⟩, by decide⟩, ⟨⟨⟨'f', ['m', 'a'], rfl, by decide, by decide⟩, by decide⟩, by decide⟩, hx, hx, ⟨⟨⟨'m', ['a', 'x'], rfl, by decide, by decide⟩, by decide⟩, by decide⟩, hy, hx⟩

theorem math_ok (fpu : Hw) : mathFn.Ok fpu := by
  refine ⟨⟨by decide, by decide, by simp [mathFn]⟩, by simp [mathFn, xv, yv, Ex.Lits], ?_, by decide, ⟨true, by decide⟩, fun c a b h => by cases h⟩
  simp [mathFn, Guarded, xv, yv]

/-- The elements of the result. -/
example (fpu : Hw) (l : List (Flt.Fl FTy.f64.fmt × Flt.Fl FTy.f64.fmt)) (hn : l.length < 2 ^ 30) (mem : Nat → List MV) (hmem : ∀ m, (mem m).length = m) :
    runFn demoCfg fpu mem mathText [.vec (l.map fun p => .flt .f64 p.1) [], .vec (l.map fun p => .flt .f64 p.2) []] =
      .ok (l.map fun p => .flt .f64 (fpu.fn1 .sqrt .f64 (fpu.fn3 .fma .f64 p.1 p.1 (fpu.fn2 .max .f64 p.2 p.1)))) := by
  have ha : Passed fpu l.length mathFn.params [.vec (l.map fun p => .flt .f64 p.1) [], .vec (l.map fun p => .flt .f64 p.2) []] := by
    refine ⟨by simp, fun v hv => ?_, fun h => (by simp at h), by simp, fun v hv => ?_, fun h => (by simp at h), trivial⟩
    · simp only [List.mem_map] at hv; obtain ⟨p, _, rfl⟩ := hv; rfl
    · simp only [List.mem_map] at hv; obtain ⟨p, _, rfl⟩ := hv; rfl
  rw [vector_function demoCfg fpu mathFn (math_ok fpu) mathText (math_reads fpu) l.length hn _ ha mem hmem]
  let σ : Vars := start mathFn.params [.vec (l.map fun p => .flt .f64 p.1) [], .vec (l.map fun p => .flt .f64 p.2) []]
  have h : vectorOf fpu l.length σ mathFn.result = some (l.map fun p => .flt .f64 (fpu.fn1 .sqrt .f64 (fpu.fn3 .fma .f64 p.1 p.1 (fpu.fn2 .max .f64 p.2 p.1)))) := by
    refine mapM_get (by simp) _ fun i hi => ?_
    have e1 : lane σ i ['x'] = some (.flt .f64 l[i].1) := by simp [lane, Item.at, Arg.item, σ, start, mathFn, bind, hi]
    have e2 : lane σ i ['y'] = some (.flt .f64 l[i].2) := by simp [lane, Item.at, Arg.item, σ, start, mathFn, bind, hi]
    have e3 : common (kinds σ) (.var ['y']) (.var ['x']) = some (.flt .f64) := rfl
    have e4 : elemOf (kinds σ) (.var ['x']) = some (true, .flt .f64) := rfl
    have e5 : elemOf (kinds σ) (.fn3 .fma (.var ['x']) (.var ['x']) (.fn2 .max (.var ['y']) (.var ['x']))) = some (true, .flt .f64) := rfl
    simp only [mathFn, xv, yv, valueAt, e3, e4, e5, e1, e2, Option.bind_some, conv, fpu.resize_same, apply1, apply2, apply3, flt_self, Option.map_some]
    simp [hi]
  rw [show mathFn.returns fpu l.length _ = vectorOf fpu l.length σ mathFn.result from rfl, h]
  simp [outcome, Val.enc]

/-- Without a context: `return x + x;` is refused. -/
example (fpu : Hw) (mem : Nat → List MV) (args : List Arg) :
    runFn demoCfg fpu mem "simd_vector < i32 > f ( simd_vector < i32 > x ) { return x + x ; } ".toList args = .error .compile := by
  let src : FuncSrc := ⟨tySrc (true, .int .i32), ['f'], [(tySrc (true, .int .i32), ['x'])], bodyStmts [] (.arith .add xv xv)⟩
  have e : "simd_vector < i32 > f ( simd_vector < i32 > x ) { return x + x ; } ".toList = writeTokens (funcsPrint [src]) := by decide +kernel
  rw [e]
  have hx := demo_name 'x' (by decide)
  obtain ⟨h1, _⟩ := body_text fpu demoCfg (.arith .add xv xv) ⟨hx, hx⟩ [] ⟨by simp, by simp [xv, Ex.Lits]⟩ (by simp)
  have hwf : src.WF demoCfg := ⟨ty_wf demoCfg demo_types (true, .int .i32), demo_name 'f' (by decide), fun p hp => by
    simp only [src, List.mem_singleton] at hp
    subst hp
    exact ⟨ty_wf demoCfg demo_types (true, .int .i32), hx⟩, h1⟩
  exact without_context_refused demoCfg fpu mem _ _ _ (parse_functions_print demoCfg [src] (by simpa using hwf)) (by decide) (by decide) args

/-! ## Another name for a vector -/

/-- `auto y = x; x += 1; return y;` -/
def alias : VFn := ⟨['f'], ['c'], .int .i32, [(['x'], true, .num (.int .i32))], [.define ['y'] xv, .update .add ['x'] one], yv⟩
def aliasText : List Char := "simd_vector < i32 > f ( Context c , simd_vector < i32 > x ) { auto y = x ; x += 1 ; return y ; } ".toList

theorem alias_lits (fpu : Hw) : BodyLits fpu alias.body alias.result := by
  refine ⟨fun s hs => ?_, ?_⟩
  · simp only [alias, List.mem_cons, List.not_mem_nil, or_false] at hs
    rcases hs with rfl | rfl
    · simp [St.source, xv, Ex.Lits]
    · exact ⟨trivial, one_lits fpu⟩
  · simp [alias, yv, Ex.Lits]

theorem alias_print : aliasText = writeTokens (funcsPrint [alias.src]) := by decide +kernel

theorem alias_writable : alias.Writable demoCfg := by
  have hx := demo_name 'x' (by decide)
  have hy := demo_name 'y' (by decide)
  refine ⟨demo_name 'f' (by decide), demo_name 'c' (by decide), ?_, ?_, ?_⟩
  · simp [alias, hx]
  · simp only [alias, List.mem_cons, List.not_mem_nil, or_false]
    rintro s (rfl | rfl)
    · exact ⟨hy, hx⟩
    · exact ⟨hx, rfl⟩
  · exact hy

def addNode : VEx := .app2 (.bin .add) (.vec (.int .i32) 0) (.con (.int .i32) (.word 1))

theorem add_kind (fpu : Hw) : Vec.kind (vrt fpu) addNode = some (true, .int .i32) := rfl

theorem one_constant (fpu : Hw) : constant fpu ['1'] = some (.int .i32, .word 1) := by
  obtain ⟨τ, c, h1, h2, _, h3⟩ := constant_lit fpu (fun _ => none) (fun _ => none) ['1'] none (one_lits fpu)
  have e1 : (Real.Ex.lit ['1'] none).type (fun _ => none) = some (.int .i32) := rfl
  have e2 : (Real.Ex.lit ['1'] none).value fpu (fun _ => none) (fun _ => none) = some (.int 1) := rfl
  rw [e1] at h1
  rw [e2] at h2
  simp only [Option.some.injEq] at h1 h2
  subst h1 h2
  exact h3

theorem add_val (fpu : Hw) (z : Int) (hz : IntOps.Fits .i32 z) (leaf : PTy → Nat → Option MV) (h : leaf (.int .i32) 0 = some (.word z)) :
    Vec.valE (vrt fpu) leaf addNode = some (.word (Pipeline.wrap .i32 (z + 1))) := by
  let Γ : VEnv := ⟨fun _ => some (true, .int .i32), fun _ => none⟩
  have hf : Fine Γ (.arith .add xv one) (true, .int .i32) := fine_of _ _ _ rfl
  have hl : (Ex.arith .add xv one).Lits fpu := ⟨trivial, one_lits fpu⟩
  have := val_ex fpu (Γ := Γ) (ρ := ⟨fun _ => some (.int z), fun _ => none⟩) (lk := fun _ => .vec (.int .i32) 0) (leaf := leaf)
    ⟨fun x k hk => by cases hk; exact ⟨_, rfl, hz⟩, fun _ _ h => by cases h⟩ ⟨fun _ => rfl, fun x k hk => by cases hk; exact .inl ⟨rfl, _, rfl⟩, fun _ _ h => by cases h⟩ ⟨fun x k hk => h, fun _ _ _ h => by cases h⟩ hf hl (.inr (by simp [Guarded, xv, one]))
  have e : veOf fpu (fun _ => .vec (.int .i32) 0) (.arith .add xv one) = addNode := by
    simp [veOf, xv, one, withSuffix, one_constant, conOf, addNode, Arith.sign]
  rw [e] at this
  rw [this]
  have e3 : common Γ (.var ['x']) (.lit ['1'] none) = some (.int .i32) := rfl
  have e2 : (Real.Ex.lit ['1'] none).value fpu (fun _ => none) (fun _ => none) = some (.int 1) := rfl
  have e4 : Pipeline.wrap .i32 1 = 1 := by decide
  simp [xv, one, valueAt, e3, e2, conv, e4, Pipeline.wrap_self hz, arithV, Arith.calc, Val.enc]

theorem alias_define (fpu : Hw) (mem : Nat → List MV) (v : Name → Option (VTy × Nat)) (hx : v ['x'] = some ((true, .int .i32), 0)) (hy : v ['y'] = none) (b : Vec.Buf MV) (cs : List Cell) :
    runSt fpu mem ⟨v, .vec b :: cs, [['c']]⟩ (.bin (.un none (.define ['y'])) .assign xv.tree.toExpr) = .ok ⟨bind v ['y'] ((true, .int .i32), 0), .vec b :: cs, [['c']]⟩ := by
  simp [runSt, checkSt, parts, hy, xv, Ex.tree, Tree.toExpr, checkE, checkO, bind, hx, flatE, flatO, nodesOf, nodeOf, World.leaf, leafIn, sourceNodes, isVec, evalNodes, store]
  rfl

theorem alias_update (fpu : Hw) (mem : Nat → List MV) (hmem : ∀ m, (mem m).length = m) (v : Name → Option (VTy × Nat)) (hx : v ['x'] = some ((true, .int .i32), 0))
    (l : List Int) (hn : l.length < 2 ^ 30) (hl : ∀ z ∈ l, IntOps.Fits .i32 z) (cs : List Cell) :
    ∃ out, runSt fpu mem ⟨v, .vec ⟨l.length, l.map .word⟩ :: cs, [['c']]⟩ (.bin (.un none (.var ['x'])) .addAssign one.tree.toExpr) = .ok ⟨v, .vec ⟨l.length, out⟩ :: cs, [['c']]⟩ ∧
      out.take l.length = l.map fun z => .word (Pipeline.wrap .i32 (z + 1)) := by
  let w : World := ⟨v, .vec ⟨l.length, l.map .word⟩ :: cs, [['c']]⟩
  have hval : ∀ i, (hi : i < l.length) → Vec.valE (vrt fpu) (Vec.elemAt w.bufs i) addNode = some (.word (Pipeline.wrap .i32 (l[i] + 1))) := by
    intro i hi
    exact add_val fpu _ (hl l[i] (List.getElem_mem _)) _ (by simp [Vec.elemAt, World.bufs, w, Cell.buf, hi])
  obtain ⟨out, e1, e2, e3, _⟩ := Vec.evalBuf_done (mem := mem) (bufs := w.bufs) (n := l.length) (add_kind fpu) (by simp [addNode, Vec.leaves]) (by simp [addNode])
    (fun t b h => by
      simp only [addNode, Vec.leaves, List.append_nil, List.mem_singleton, Prod.mk.injEq] at h
      obtain ⟨rfl, rfl⟩ := h
      exact ⟨⟨l.length, l.map .word⟩, rfl, rfl, by simp [vrt]⟩) hn hmem
    (fun i hi => by rw [hval i hi]; simp)
    (fun i _ _ => by
      rw [add_val fpu 1 (Pipeline.small_fits _ _ (by omega) (by omega)) _ (by simp [Vec.padAt, vrt, fillV])]; simp)
  refine ⟨out, ?_, ?_⟩
  · have e4 : Vec.flat addNode = [.vec (.int .i32) 0, .con (.int .i32) (.word 1), .op (.bin .add)] := rfl
    rw [e4] at e1
    have e5 : canBin (true, PTy.int .i32) (false, PTy.int .i32) = true := by decide
    have e6 : evalNodes fpu mem w (.int .i32) [.vec (.int .i32) 0, .con (.int .i32) (.word 1), .op (.bin .add)] = .ok (.new ⟨l.length, out⟩) := by
      rw [eval_long _ _ _ _ _ (by simp) (by simp [w]), e1]; rfl
    have e7 : binTy .add (true, PTy.int .i32) (false, PTy.int .i32) = some (true, .int .i32) := by decide
    simp [runSt, checkSt, parts, hx, one, Ex.tree, Tree.toExpr, checkE, checkO, withSuffix, one_constant, flatE, flatO, nodesOf, nodeOf, World.leaf, leafIn, sourceNodes, Scalar.baseOp, e7]
    rw [e6]
    simp [Except.bind, store, hx, isVec]
  · refine List.ext_getElem? fun i => ?_
    by_cases hi : i < l.length
    · rw [List.getElem?_take_of_lt hi, e2.2 i hi, hval i hi]; simp [hi]
    · rw [List.getElem?_eq_none (by simp; omega), List.getElem?_eq_none (by simp; omega)]

/-- **C154**, the claim fails: after `auto y = x;` both names stand for the same vector. The function is to return its argument; it returns every element plus 1. -/
theorem vector_copy_violated (fpu : Hw) (l : List Int) (hn : l.length < 2 ^ 30) (hl : ∀ z ∈ l, IntOps.Fits .i32 z) (mem : Nat → List MV) (hmem : ∀ m, (mem m).length = m) :
    ReadsFn demoCfg aliasText alias ∧ alias.returns fpu l.length [.vec (l.map .int) []] = some (l.map .int) ∧
      runFn demoCfg fpu mem aliasText [.vec (l.map .int) []] = .ok (l.map fun z => .word (Pipeline.wrap .i32 (z + 1))) := by
  have hr : ReadsFn demoCfg aliasText alias := by rw [alias_print]; exact fn_text demoCfg fpu demo_types alias (alias_lits fpu) alias_writable
  refine ⟨hr, ?_, ?_⟩
  · let σ : Vars := start alias.params [.vec (l.map .int) []]
    have h1 : vectorOf fpu l.length σ xv = some (l.map .int) := by
      refine mapM_get (by simp) _ fun i hi => ?_
      simp [xv, valueAt, lane, Item.at, Arg.item, σ, start, alias, bind]
    let τ : Vars := bind σ ['y'] (.vec (.int .i32) (l.map .int))
    have h2 : vectorOf fpu l.length τ (.arith .add xv one) = some (l.map fun z => .int (Pipeline.wrap .i32 (z + 1))) := by
      refine mapM_get (by simp) _ fun i hi => ?_
      have e1 : lane τ i ['x'] = some (.int l[i]) := by simp [lane, Item.at, Arg.item, τ, σ, start, alias, bind, hi]
      have e2 : (Real.Ex.lit ['1'] none).value fpu (fun _ => none) (fun _ => none) = some (.int 1) := rfl
      have e3 : common (kinds τ) (.var ['x']) (.lit ['1'] none) = some (.int .i32) := rfl
      have e4 : Pipeline.wrap .i32 1 = 1 := by decide
      simp [xv, one, valueAt, e1, e3, e2, conv, e4, Pipeline.wrap_self (hl _ (List.getElem_mem hi)), arithV, Arith.calc, hi]
    show (execute fpu _ _ σ).bind _ = _
    rw [show alias.body = [.define ['y'] xv, .update .add ['x'] one] from rfl, execute, show elemOf (kinds σ) (St.source (.define ['y'] xv)) = some (true, .int .i32) from rfl]
    simp only [Option.bind_some, execute, St.source, St.target]
    rw [h1]
    simp only [Option.bind_some]
    rw [show elemOf (kinds (bind σ ['y'] (.vec (.int .i32) (l.map .int)))) (Ex.arith .add (.var ['x']) one) = some (true, .int .i32) from rfl]
    simp only [Option.bind_some]
    rw [show Ex.arith .add (.var ['x']) one = .arith .add xv one from rfl, h2]
    simp only [Option.bind_some]
    refine mapM_get (by simp) _ fun i hi => ?_
    simp [alias, yv, valueAt, lane, Item.at, Arg.item, bind]
  · obtain ⟨h1, _⟩ := fn_parse demoCfg fpu demo_types alias (alias_lits fpu) alias_writable
    unfold runFn
    rw [alias_print, h1]
    dsimp only
    rw [show alias.src.func.ret = typeText (true, .int .i32) from rfl, named, src_params, show alias.params = [(['x'], true, .num (.int .i32))] from rfl]
    let v : Name → Option (VTy × Nat) := bind (fun _ => none) ['x'] ((true, .int .i32), 0)
    have hsplit := params_split [] [(['x'], true, .num (.int .i32))] ['c']
    simp only [List.map_nil, List.nil_append] at hsplit
    rw [show alias.ctx = ['c'] from rfl, hsplit.1, hsplit.2]
    rw [show enter 0 ([(['x'], true, .num (.int .i32))].map fun q => (paramText q.2, q.1)) [Arg.vec (l.map .int) []] = some v by simp only [List.map, enter, named_param]; rfl]
    dsimp only
    rw [if_pos ⟨by simp, by simp [v, bind]⟩]
    rw [show alias.src.func.body = .cons (.expr (.bin (.un none (.define ['y'])) .assign xv.tree.toExpr))
      (.cons (.expr (.bin (.un none (.var ['x'])) .addAssign one.tree.toExpr)) (.cons (.retVal yv.tree.toExpr) .nil)) from rfl]
    have hc : [Arg.vec (l.map .int) []].map Arg.cell = [.vec ⟨l.length, l.map .word⟩] := by simp [Arg.cell, Val.enc]
    rw [hc, runBody, show Ty.p (.int .i32) = PTy.int .i32 from rfl, alias_define fpu mem v (by simp [v, bind]) (by simp [v, bind])]
    simp only [Except.bind]
    obtain ⟨out, h2, h3⟩ := alias_update fpu mem hmem (bind v ['y'] ((true, .int .i32), 0)) (by simp [v, bind]) l hn hl []
    rw [runBody, h2]
    simp only [Except.bind]
    rw [runBody, ← h3]
    simp [runRet, yv, Ex.tree, Tree.toExpr, checkE, checkO, bind, listTy, flatE, flatO, nodesOf, nodeOf, World.leaf, leafIn, isVec, Vec.evalVec, Vec.evalBuf, Vec.bufAt, Cell.buf, Except.bind]

/-- **C154**, what holds: a vector assigned to a variable that has one is a copy. The function `auto y = e; y = x; x op= e'; return y;` returns what was passed for `x`. -/
theorem vector_copy_partial (cfg : Cfg) (fpu : Hw) (g : VFn) (hg : g.Ok fpu) (x y : Name) (o : Arith) (e e' : Ex) (hb : g.body = [.define y e, .assign y (.var x), .update o x e'])
    (hr : g.result = .var y) (src : List Char) (hs : ReadsFn cfg src g) (n : Nat) (hn : n < 2 ^ 30) (args : List Arg) (ha : Passed fpu n g.params args) (l : List Val) (t : Ty)
    (hx : start g.params args x = some (.vec t l)) (mem : Nat → List MV) (hmem : ∀ m, (mem m).length = m) :
    runFn cfg fpu mem src args = .ok (l.map Val.enc) ∨ runFn cfg fpu mem src args = .error .trap := by
  rw [vector_function cfg fpu g hg src hs n hn args ha mem hmem]
  obtain ⟨⟨hd, _, _⟩, hok⟩ := hg
  obtain ⟨v, _, _, hm⟩ := start_match fpu n g.params args hd ha []
  obtain ⟨_, _, _, _, _, _, _, h7⟩ := enter_ok fpu n g.params args 0 hd ha
  rw [hb, ← kinds_start h7] at hok
  have hne : x ≠ y := fun h => by
    obtain ⟨u, h1, _⟩ := hok
    have := h1.2.2.2.2.1.1
    rw [← h] at this
    simp [kinds, hx, Item.kind] at this
  have hlen : l.length = n := (hm.held x _ hx).1
  unfold VFn.returns
  rw [hb, hr]
  generalize start g.params args = σ at hx
  simp only [execute, St.source, St.target]
  cases elemOf (kinds σ) e with
  | none => exact .inr rfl
  | some k =>
  cases vectorOf fpu n σ e with
  | none => exact .inr rfl
  | some l1 =>
  simp only [Option.bind_some]
  have h1 : vectorOf fpu n (bind σ y (.vec k.2 l1)) (.var x) = some l := mapM_get hlen _ fun i _ => by simp [valueAt, lane, Item.at, Arg.item, bind, hne, hx]
  rw [h1]
  cases elemOf (kinds (bind σ y (.vec k.2 l1))) (.var x) with
  | none => exact .inr rfl
  | some k2 =>
  simp only [Option.bind_some]
  generalize elemOf (kinds (bind (bind σ y (.vec k.2 l1)) y (.vec k2.2 l))) (.arith o (.var x) e') = q
  cases q with
  | none => exact .inr rfl
  | some k3 =>
  simp only [Option.bind_some]
  generalize vectorOf fpu n (bind (bind σ y (.vec k.2 l1)) y (.vec k2.2 l)) (.arith o (.var x) e') = q
  cases q with
  | none => exact .inr rfl
  | some l3 =>
  refine .inl ?_
  simp only [Option.bind_some]
  have h2 : vectorOf fpu n (bind (bind (bind σ y (.vec k.2 l1)) y (.vec k2.2 l)) x (.vec k3.2 l3)) (.var y) = some l := mapM_get hlen _ fun i _ => by simp [valueAt, lane, Item.at, Arg.item, bind, Ne.symm hne]
  rw [h2]; rfl

/-- Such a function. -/
example (fpu : Hw) : VFn.Ok fpu ⟨['f'], ['c'], .int .i32, [(['x'], true, .num (.int .i32))], [.define ['y'] (.arith .mul xv xv), .assign ['y'] xv, .update .add ['x'] one], yv⟩ := by
  refine ⟨⟨by decide, by decide, by decide⟩, .int .i32, ⟨⟨trivial, trivial⟩, ?_, by decide, ⟨true, by decide⟩, by decide, by simp⟩, .int .i32, ⟨trivial, trivial, by decide, ⟨true, by decide⟩, by decide⟩, .int .i32,
    ⟨⟨trivial, one_lits fpu⟩, ?_, by decide, ⟨true, by decide⟩, by decide⟩, trivial, trivial, by decide, ⟨true, by decide⟩, fun c a b h => by cases h⟩
  · simp [St.source, Guarded, xv]
  · simp [St.source, Guarded, one]

/-! ## What is accepted -/

/-- `x = k + 1` for a vector `x` and a number `k`. -/
def numberToVector : Expr := .bin (.un none (.var ['x'])) .assign (.bin (.un none (.var ['k'])) .add (.un none (.num ['1'])))
/-- `k = x`. -/
def vectorToNumber : Expr := .bin (.un none (.var ['k'])) .assign (.un none (.var ['x']))

/-- **C155**, the claim fails: validation accepts the assignment of a number to a vector and of a vector to a number; no code can be made for either. -/
theorem accepted_assignment_violated (fpu : Hw) (mem : Nat → List MV) (w : World) (sx sk : Nat) (b : Vec.Buf MV) (z : MV) (hx : w.vars ['x'] = some ((true, .int .i32), sx))
    (hk : w.vars ['k'] = some ((false, .int .i32), sk)) (hb : w.cells[sx]? = some (.vec b)) (hz : w.cells[sk]? = some (.num z)) :
    (checkSt fpu w.env numberToVector).isSome = true ∧ runSt fpu mem w numberToVector = .error .compile ∧
      (checkSt fpu w.env vectorToNumber).isSome = true ∧ runSt fpu mem w vectorToNumber = .error .compile := by
  have e5 : canBin (true, PTy.int .i32) (false, PTy.int .i32) = true := by decide
  have e6 : canBin (false, PTy.int .i32) (true, PTy.int .i32) = true := by decide
  have e7 : binTy .add (false, PTy.int .i32) (false, PTy.int .i32) = some (false, .int .i32) := by decide
  have h1 : checkSt fpu w.env numberToVector = some ((false, .int .i32), w.env) := by
    simp [World.env, numberToVector, checkSt, parts, hx, hk, checkE, checkO, one_constant, e7, e5]
  have h2 : checkSt fpu w.env vectorToNumber = some ((true, .int .i32), w.env) := by
    simp [World.env, vectorToNumber, checkSt, parts, hx, hk, checkE, checkO, e6]
  have l1 : w.leaf ['x'] = some (.vec (.int .i32) sx) := by simp [World.leaf, hx, hb, leafIn]
  have l2 : w.leaf ['k'] = some (.con (.int .i32) z) := by simp [World.leaf, hk, hz, leafIn]
  refine ⟨by rw [h1]; rfl, ?_, by rw [h2]; rfl, ?_⟩
  · unfold runSt
    rw [show checkSt fpu (fun x => (w.vars x).map (·.1)) _ = _ from h1]
    simp [numberToVector, parts, flatE, flatO, Rpn.append, nodesOf, nodeOf, l2, one_constant, sourceNodes, isVec, Scalar.baseOp]
  · unfold runSt
    rw [show checkSt fpu (fun x => (w.vars x).map (·.1)) _ = _ from h2]
    simp [vectorToNumber, parts, flatE, flatO, nodesOf, nodeOf, l1, sourceNodes, isVec, evalNodes, Except.bind, store, hk, hb]

/-- Such variables. -/
example : ∃ w : World, ∃ b z, w.vars ['x'] = some ((true, .int .i32), 0) ∧ w.vars ['k'] = some ((false, .int .i32), 1) ∧ w.cells[0]? = some (.vec b) ∧ w.cells[1]? = some (.num z) :=
  ⟨⟨bind (bind (fun _ => none) ['k'] ((false, .int .i32), 1)) ['x'] ((true, .int .i32), 0), [.vec ⟨1, [.word 5]⟩, .num (.word 7)], []⟩, _, _, rfl, rfl, rfl, rfl⟩

/-- **C155**, what holds: a function over vectors as described is compiled. -/
theorem accepted_function_partial (cfg : Cfg) (fpu : Hw) (g : VFn) (hg : g.Ok fpu) (src : List Char) (hs : ReadsFn cfg src g) (n : Nat) (hn : n < 2 ^ 30) (args : List Arg)
    (ha : Passed fpu n g.params args) (mem : Nat → List MV) (hmem : ∀ m, (mem m).length = m) : (∃ l, runFn cfg fpu mem src args = .ok l) ∨ runFn cfg fpu mem src args = .error .trap := by
  rw [vector_function cfg fpu g hg src hs n hn args ha mem hmem]
  cases g.returns fpu n args with
  | none => exact .inr rfl
  | some l => exact .inl ⟨_, rfl⟩

end Verif.Comp.VecFn
