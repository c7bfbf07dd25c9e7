import Verif.Comp.ScriptProps
/-!
# Scripts have texts; an instance
-/
namespace Verif.Comp.Script
open Verif.Ast Verif.Ast.Rpn Verif.Gen Verif.Gen.Scalar Verif.Types.Conv Verif.Comp.Pipeline Verif.Comp.Function

/-- A name the grammar admits for variables and functions. -/
def NameOk (cfg : Cfg) (x : Name) : Prop := IsName x ∧ validName cfg x = true

mutual
/-- Variables and functions have names the grammar admits. -/
def Ex.Names (cfg : Cfg) : Ex → Prop
  | .lit _ _ => True
  | .const _ => True
  | .var x => NameOk cfg x
  | .neg a => a.Names cfg
  | .not a => a.Names cfg
  | .arith _ a b => a.Names cfg ∧ b.Names cfg
  | .rel _ a b => a.Names cfg ∧ b.Names cfg
  | .and a b => a.Names cfg ∧ b.Names cfg
  | .or a b => a.Names cfg ∧ b.Names cfg
  | .pick c a b => c.Names cfg ∧ a.Names cfg ∧ b.Names cfg
  | .call f as => NameOk cfg f ∧ as.Names cfg
def Exs.Names (cfg : Cfg) : Exs → Prop
  | .nil => True
  | .cons e es => e.Names cfg ∧ es.Names cfg
end

mutual
/-- An expression as it may be written. -/
def Ex.tree : Ex → Tree
  | .lit ds s => .atom (.num (litText ds s))
  | .const b => .atom (.bool b)
  | .var x => .atom (.var x)
  | .neg a => .un .neg a.tree
  | .not a => .un .not a.tree
  | .arith o a b => .bin a.tree o.sign b.tree
  | .rel o a b => .bin a.tree o.sign b.tree
  | .and a b => .bin a.tree .and b.tree
  | .or a b => .bin a.tree .or b.tree
  | .pick c a b => .sel c.tree a.tree b.tree
  | .call f as => .atom (.call f as.exprs)
def Exs.exprs : Exs → Exprs
  | .nil => .nil
  | .cons e es => .cons e.tree.toExpr es.exprs
end

mutual
theorem ex_tree (cfg : Cfg) (hr : ∀ ds, decimal ds < 2 ^ 53 → cfg.inRange ds = true) (p : Ex) (hl : p.Lits) (hn : p.Names cfg) : p.tree.WF cfg ∧ p.Is p.tree := by
  match p with
  | .lit ds s =>
    rw [Ex.Lits] at hl
    rw [Ex.tree, Tree.WF, Operand.WF, Ex.Is]
    refine ⟨⟨⟨number_text ds hl.1 hl.2.1 s, ?_⟩, by simp⟩, rfl⟩
    unfold numberOk
    rw [split_lit ds hl.1 hl.2.1 s]
    cases s with
    | none => exact hr ds hl.2.2
    | some t => simp only [Option.map_some]; rw [suffix_known, hr ds hl.2.2]; rfl
  | .const b => rw [Ex.tree, Tree.WF, Operand.WF, Ex.Is]; exact ⟨⟨trivial, by simp⟩, rfl⟩
  | .var x => rw [Ex.Names] at hn; rw [Ex.tree, Tree.WF, Operand.WF, Ex.Is]; exact ⟨⟨hn, by simp⟩, rfl⟩
  | .neg a => rw [Ex.Lits] at hl; rw [Ex.Names] at hn; rw [Ex.tree, Tree.WF, Ex.Is]; have h := ex_tree cfg hr a hl hn; exact ⟨h.1, _, rfl, h.2⟩
  | .not a => rw [Ex.Lits] at hl; rw [Ex.Names] at hn; rw [Ex.tree, Tree.WF, Ex.Is]; have h := ex_tree cfg hr a hl hn; exact ⟨h.1, _, rfl, h.2⟩
  | .arith o a b =>
    rw [Ex.Lits] at hl; rw [Ex.Names] at hn; rw [Ex.tree, Tree.WF, Ex.Is]
    have h := ex_tree cfg hr a hl.1 hn.1; have k := ex_tree cfg hr b hl.2 hn.2; exact ⟨⟨h.1, k.1⟩, _, _, rfl, h.2, k.2⟩
  | .rel o a b =>
    rw [Ex.Lits] at hl; rw [Ex.Names] at hn; rw [Ex.tree, Tree.WF, Ex.Is]
    have h := ex_tree cfg hr a hl.1 hn.1; have k := ex_tree cfg hr b hl.2 hn.2; exact ⟨⟨h.1, k.1⟩, _, _, rfl, h.2, k.2⟩
  | .and a b =>
    rw [Ex.Lits] at hl; rw [Ex.Names] at hn; rw [Ex.tree, Tree.WF, Ex.Is]
    have h := ex_tree cfg hr a hl.1 hn.1; have k := ex_tree cfg hr b hl.2 hn.2; exact ⟨⟨h.1, k.1⟩, _, _, rfl, h.2, k.2⟩
  | .or a b =>
    rw [Ex.Lits] at hl; rw [Ex.Names] at hn; rw [Ex.tree, Tree.WF, Ex.Is]
    have h := ex_tree cfg hr a hl.1 hn.1; have k := ex_tree cfg hr b hl.2 hn.2; exact ⟨⟨h.1, k.1⟩, _, _, rfl, h.2, k.2⟩
  | .pick c a b =>
    rw [Ex.Lits] at hl; rw [Ex.Names] at hn; rw [Ex.tree, Tree.WF, Ex.Is]
    have g := ex_tree cfg hr c hl.1 hn.1; have h := ex_tree cfg hr a hl.2.1 hn.2.1; have k := ex_tree cfg hr b hl.2.2 hn.2.2
    exact ⟨⟨g.1, h.1, k.1⟩, _, _, _, rfl, g.2, h.2, k.2⟩
  | .call f as =>
    rw [Ex.Lits] at hl; rw [Ex.Names] at hn; rw [Ex.tree, Tree.WF, Operand.WF, Ex.Is]
    have h := exs_tree cfg hr as hl hn.2
    exact ⟨⟨⟨hn.1.1, hn.1.2, h.1⟩, by simp⟩, _, rfl, h.2⟩
theorem exs_tree (cfg : Cfg) (hr : ∀ ds, decimal ds < 2 ^ 53 → cfg.inRange ds = true) (p : Exs) (hl : p.Lits) (hn : p.Names cfg) : p.exprs.WF cfg ∧ p.Are p.exprs := by
  match p with
  | .nil => rw [Exs.exprs, Exprs.WF, Exs.Are]; exact ⟨trivial, rfl⟩
  | .cons a as =>
    rw [Exs.Lits] at hl; rw [Exs.Names] at hn; rw [Exs.exprs, Exprs.WF, Exs.Are]
    have h := ex_tree cfg hr a hl.1 hn.1
    have k := exs_tree cfg hr as hl.2 hn.2
    have s := toExpr_spec cfg _ h.1
    exact ⟨⟨s.1, k.1⟩, _, _, rfl, by rw [s.2]; exact h.2, k.2⟩
end

theorem ex_text (cfg : Cfg) (hr : ∀ ds, decimal ds < 2 ^ 53 → cfg.inRange ds = true) (p : Ex) (hl : p.Lits) (hn : p.Names cfg) : p.tree.toExpr.WF cfg ∧ p.Is p.tree.toExpr.toTree := by
  have h := ex_tree cfg hr p hl hn
  have s := toExpr_spec cfg _ h.1
  exact ⟨s.1, by rw [s.2]; exact h.2⟩

mutual
/-- Variables and functions have names the grammar admits. -/
def Cmd.Names (cfg : Cfg) : Cmd → Prop
  | .define x e => NameOk cfg x ∧ e.Names cfg
  | .assign x e => NameOk cfg x ∧ e.Names cfg
  | .update _ x e => NameOk cfg x ∧ e.Names cfg
  | .eval e => e.Names cfg
  | .ret e => e.Names cfg
  | .brk => True
  | .cont => True
  | .loop c b => c.Names cfg ∧ b.Names cfg
  | .branch c b rest => c.Names cfg ∧ b.Names cfg ∧ rest.Names cfg
def Cmds.Names (cfg : Cfg) : Cmds → Prop
  | .nil => True
  | .cons s ss => s.Names cfg ∧ ss.Names cfg
def Rest.Names (cfg : Cfg) : Rest → Prop
  | .none => True
  | .els b => b.Names cfg
  | .elif c b rest => c.Names cfg ∧ b.Names cfg ∧ rest.Names cfg
end

mutual
/-- A statement as it may be written. -/
def Cmd.stmt : Cmd → Stmt
  | .define x e => .expr (.bin (.un none (.define x)) .assign e.tree.toExpr)
  | .assign x e => .expr (.bin (.un none (.var x)) .assign e.tree.toExpr)
  | .update o x e => .expr (.bin (.un none (.var x)) (Arith.assignSign o) e.tree.toExpr)
  | .eval e => .expr e.tree.toExpr
  | .ret e => .retVal e.tree.toExpr
  | .brk => .brk
  | .cont => .cont
  | .loop c b => .whileLoop c.tree.toExpr b.stmts
  | .branch c b rest => .ifElse c.tree.toExpr b.stmts rest.elifs rest.last
def Cmds.stmts : Cmds → Stmts
  | .nil => .nil
  | .cons s ss => .cons s.stmt ss.stmts
def Rest.elifs : Rest → Elifs
  | .none => .nil
  | .els _ => .nil
  | .elif c b rest => .cons c.tree.toExpr b.stmts rest.elifs
def Rest.last : Rest → Else
  | .none => .none
  | .els b => .some b.stmts
  | .elif _ _ rest => rest.last
end

mutual
theorem stmt_ok (cfg : Cfg) (hr : ∀ ds, decimal ds < 2 ^ 53 → cfg.inRange ds = true) (σ : Sigs) (ret : Ty) (c : Cmd) (l : Bool) (Γ : Types) (h : c.Ok σ ret l Γ) (hn : c.Names cfg) :
    c.Is c.stmt ∧ c.stmt.WF cfg := by
  match c with
  | .define x e =>
    rw [Cmd.Ok] at h; rw [Cmd.Names] at hn
    obtain ⟨h1, h2⟩ := ex_text cfg hr e h.1.lits hn.2
    exact ⟨.define h2, wf_assign cfg _ (by rw [Operand.WF]; exact hn.1) _ rfl _ h1⟩
  | .assign x e =>
    rw [Cmd.Ok] at h; rw [Cmd.Names] at hn
    obtain ⟨h1, h2⟩ := ex_text cfg hr e h.1.lits hn.2
    exact ⟨.assign h2, wf_assign cfg _ (by rw [Operand.WF]; exact hn.1) _ rfl _ h1⟩
  | .update o x e =>
    rw [Cmd.Ok] at h; rw [Cmd.Names] at hn
    have hl := h.1.lits
    rw [Ex.Lits] at hl
    obtain ⟨h1, h2⟩ := ex_text cfg hr e hl.2 hn.2
    exact ⟨.update h2, wf_assign cfg _ (by rw [Operand.WF]; exact hn.1) _ (by cases o <;> rfl) _ h1⟩
  | .eval e =>
    rw [Cmd.Ok] at h; rw [Cmd.Names] at hn
    obtain ⟨h1, h2⟩ := ex_text cfg hr e h.lits hn
    exact ⟨.eval h2, by rw [Cmd.stmt, Stmt.WF]; exact h1⟩
  | .ret e =>
    rw [Cmd.Ok] at h; rw [Cmd.Names] at hn
    obtain ⟨h1, h2⟩ := ex_text cfg hr e h.1.lits hn
    exact ⟨.ret h2, by rw [Cmd.stmt, Stmt.WF]; exact h1⟩
  | .brk => exact ⟨.brk, by rw [Cmd.stmt, Stmt.WF]; trivial⟩
  | .cont => exact ⟨.cont, by rw [Cmd.stmt, Stmt.WF]; trivial⟩
  | .loop c b =>
    rw [Cmd.Ok] at h; rw [Cmd.Names] at hn
    obtain ⟨h1, h2⟩ := ex_text cfg hr c h.1.1.lits hn.1
    obtain ⟨h3, h4⟩ := stmts_ok cfg hr σ ret b true Γ h.2 hn.2
    exact ⟨.loop h2 h3, by rw [Cmd.stmt, Stmt.WF]; exact ⟨h1, h4⟩⟩
  | .branch c b rest =>
    rw [Cmd.Ok] at h; rw [Cmd.Names] at hn
    obtain ⟨h1, h2⟩ := ex_text cfg hr c h.1.1.lits hn.1
    obtain ⟨h3, h4⟩ := stmts_ok cfg hr σ ret b l Γ h.2.1 hn.2.1
    obtain ⟨h5, h6, h7⟩ := rest_ok cfg hr σ ret rest l Γ h.2.2 hn.2.2
    exact ⟨.branch h2 h3 h5, by rw [Cmd.stmt, Stmt.WF]; exact ⟨h1, h4, h6, h7⟩⟩
theorem stmts_ok (cfg : Cfg) (hr : ∀ ds, decimal ds < 2 ^ 53 → cfg.inRange ds = true) (σ : Sigs) (ret : Ty) (c : Cmds) (l : Bool) (Γ : Types) (h : c.Ok σ ret l Γ) (hn : c.Names cfg) :
    c.Is c.stmts ∧ c.stmts.WF cfg := by
  match c with
  | .nil => exact ⟨.nil, by rw [Cmds.stmts, Stmts.WF]; trivial⟩
  | .cons c cs =>
    rw [Cmds.Ok] at h; rw [Cmds.Names] at hn
    obtain ⟨h1, h2⟩ := stmt_ok cfg hr σ ret c l Γ h.1 hn.1
    obtain ⟨h3, h4⟩ := stmts_ok cfg hr σ ret cs l _ h.2 hn.2
    exact ⟨.cons h1 h3, by rw [Cmds.stmts, Stmts.WF]; exact ⟨h2, h4⟩⟩
theorem rest_ok (cfg : Cfg) (hr : ∀ ds, decimal ds < 2 ^ 53 → cfg.inRange ds = true) (σ : Sigs) (ret : Ty) (c : Rest) (l : Bool) (Γ : Types) (h : c.Ok σ ret l Γ) (hn : c.Names cfg) :
    c.Is c.elifs c.last ∧ c.elifs.WF cfg ∧ c.last.WF cfg := by
  match c with
  | .none => exact ⟨.none, by rw [Rest.elifs, Elifs.WF]; trivial, by rw [Rest.last, Else.WF]; trivial⟩
  | .els b =>
    rw [Rest.Ok] at h; rw [Rest.Names] at hn
    obtain ⟨h3, h4⟩ := stmts_ok cfg hr σ ret b l Γ h hn
    exact ⟨.els h3, by rw [Rest.elifs, Elifs.WF]; trivial, by rw [Rest.last, Else.WF]; exact h4⟩
  | .elif c b rest =>
    rw [Rest.Ok] at h; rw [Rest.Names] at hn
    obtain ⟨h1, h2⟩ := ex_text cfg hr c h.1.1.lits hn.1
    obtain ⟨h3, h4⟩ := stmts_ok cfg hr σ ret b l Γ h.2.1 hn.2.1
    obtain ⟨h5, h6, h7⟩ := rest_ok cfg hr σ ret rest l Γ h.2.2 hn.2.2
    exact ⟨.elif h2 h3 h5, by rw [Rest.elifs, Elifs.WF]; exact ⟨h1, h4, h6⟩, by rw [Rest.last]; exact h7⟩
end

theorem type_name (t : Ty) : IsName t.text := by
  cases t with
  | bool => exact ⟨⟨_, _, rfl, by decide, by decide⟩, by decide⟩
  | int t => exact suffix_name t

/-- A function as it may be written. -/
def Fn.src (g : Fn) : FuncSrc := ⟨⟨g.ret.text, []⟩, g.name, g.params.map fun q => (⟨q.2.text, []⟩, q.1), g.body.stmts⟩

/-- All names are admitted by the grammar. -/
structure Fn.Names (cfg : Cfg) (g : Fn) : Prop where
  name : NameOk cfg g.name
  params : ∀ q ∈ g.params, NameOk cfg q.1
  body : g.body.Names cfg

theorem src_wf (cfg : Cfg) (hr : ∀ ds, decimal ds < 2 ^ 53 → cfg.inRange ds = true) (ht : ∀ t : Ty, cfg.isType t.text = true) (σ : Sigs) (g : Fn) (hok : g.body.Ok σ g.ret false (startTypes g))
    (hn : g.Names cfg) : g.src.WF cfg ∧ g.body.Is g.src.body := by
  obtain ⟨h1, h2⟩ := stmts_ok cfg hr σ g.ret g.body false _ hok hn.body
  have hty : ∀ t : Ty, Ast.Ty.WF cfg ⟨t.text, []⟩ := fun t => ⟨type_name t, by simp, ht t⟩
  exact ⟨⟨hty g.ret, hn.name, by
    intro p hp
    simp only [Fn.src, List.mem_map] at hp
    obtain ⟨q, hq, rfl⟩ := hp
    exact ⟨hty q.2, hn.params q hq⟩, h2⟩, h1⟩

theorem script_text (cfg : Cfg) (hr : ∀ ds, decimal ds < 2 ^ 53 → cfg.inRange ds = true) (ht : ∀ t : Ty, cfg.isType t.text = true) (inl : Inline) (ext : Exts) (fs : List Fn)
    (hok : ScriptOk inl ext fs) (hn : ∀ g ∈ fs, g.Names cfg) : ReadsScript cfg (writeTokens (funcsPrint (fs.map Fn.src))) fs := by
  have hw : ∀ g ∈ fs, g.src.WF cfg ∧ g.body.Is g.src.body := by
    intro g hg
    obtain ⟨b, a, h⟩ := List.append_of_mem hg
    exact src_wf cfg hr ht _ g (hok.fns b g a h).body (hn g hg)
  refine ⟨_, _, parse_functions_print cfg _ (by
    intro s hs
    obtain ⟨g, hg, rfl⟩ := List.mem_map.1 hs
    exact (hw g hg).1), ?_⟩
  clear hok hn
  induction fs with
  | nil => trivial
  | cons g gs ih =>
    refine ⟨⟨rfl, rfl, ?_, (hw g (by simp)).2⟩, ih fun k hk => hw k (by simp [hk])⟩
    simp only [FuncSrc.func, Fn.src, List.map_map]
    rfl

/-- **C143.** Every well-formed script has a text. -/
theorem every_script_has_text (cfg : Cfg) (hr : ∀ ds, decimal ds < 2 ^ 53 → cfg.inRange ds = true) (ht : ∀ t : Ty, cfg.isType t.text = true) (inl : Inline) (ext : Exts) (fs : List Fn)
    (hok : ScriptOk inl ext fs) (hn : ∀ g ∈ fs, g.Names cfg) : ∃ src, ReadsScript cfg src fs := ⟨_, script_text cfg hr ht inl ext fs hok hn⟩

/-! ### An instance: factorials, and a registered function -/

def factCfg : Cfg := { isType := fun t => decide (t = ['b', 'o', 'o', 'l']) || (suffixes.lookup t).isSome, inRange := fun _ => true }
def factText : List Char :=
  "u64 fact ( u64 n ) { if ( n <= 1 ) { return 1 ; } return n * fact ( n - 1 ) ; } u64 both ( u64 a , u64 b ) { return fact ( a ) + h ( b ) ; } ".toList
def factName : Name := ['f', 'a', 'c', 't']
def bothName : Name := ['b', 'o', 't', 'h']
def one : Ex := .lit ['1'] none
def factStep : Ex := .arith .mul (.var ['n']) (.call factName (.cons (.arith .sub (.var ['n']) one) .nil))
def factBody : Cmds := .cons (.branch (.rel .le (.var ['n']) one) (.cons (.ret one) .nil) .none) (.cons (.ret factStep) .nil)
def factFn : Fn := ⟨factName, .int .u64, [(['n'], .int .u64)], factBody⟩
def bothSum : Ex := .arith .add (.call factName (.cons (.var ['a']) .nil)) (.call ['h'] (.cons (.var ['b']) .nil))
def bothFn : Fn := ⟨bothName, .int .u64, [(['a'], .int .u64), (['b'], .int .u64)], .cons (.ret bothSum) .nil⟩
def factScript : List Fn := [factFn, bothFn]
/-- Any registered function of an unsigned 64-bit number. -/
def factExts (run : List Val → Option Val) (h : ∀ args v, run args = some v → v.Has (.int .u64)) : Exts := fun f => if f = ['h'] then some ⟨[.int .u64], .int .u64, run, h⟩ else none

theorem one_lits : one.Lits := by simp only [one, Ex.Lits]; decide

theorem fact_ok (run : List Val → Option Val) (h : ∀ args v, run args = some v → v.Has (.int .u64)) : ScriptOk (fun _ => none) (factExts run h) factScript := by
  have hone : ∀ σ Γ, ExOk σ Γ one := fun σ Γ => ⟨rfl, one_lits, by simp [one, Ex.Guarded], by simp [one, Ex.Level]⟩
  have hfact : Fn.Ok (factExts run h) factScript [] factFn := by
    refine ⟨?_, ?_, ?_, by decide⟩
    · simp only [factFn, factBody, Cmds.Ok, Cmd.Ok, Rest.Ok, and_true, Cmd.after]
      refine ⟨⟨⟨⟨rfl, ?_, ?_, ?_⟩, rfl⟩, hone _ _, _, rfl, rfl⟩, ⟨rfl, ?_, ?_, ?_⟩, _, rfl, rfl⟩
      · simp only [Ex.Lits, true_and]; exact one_lits
      · simp [one, Ex.Guarded]
      · simp [one, Ex.Level]
      · simp only [factStep, Ex.Lits, Exs.Lits, true_and, and_true]; exact one_lits
      · simp [factStep, one, Ex.Guarded, Exs.Guarded]
      · simp [factStep, one, Ex.Level, Exs.Level]
    · simp [factFn, factBody, Cmds.Clean, Cmd.Clean, Rest.Clean, Cmd.ends, Rest.ends, Cmds.startsLoop]
    · simp [factFn, factBody, factStep, one, Cmds.Uses, Cmd.Uses, Rest.Uses, Ex.Uses, Exs.Uses]
  have hboth : Fn.Ok (factExts run h) factScript [factFn] bothFn := by
    refine ⟨?_, ?_, ?_, by decide⟩
    · simp only [bothFn, Cmds.Ok, Cmd.Ok, and_true]
      refine ⟨⟨rfl, ?_, ?_, ?_⟩, _, rfl, rfl⟩
      · simp [bothSum, Ex.Lits, Exs.Lits]
      · simp [bothSum, Ex.Guarded, Exs.Guarded]
      · simp [bothSum, Ex.Level, Exs.Level]
    · simp [bothFn, Cmds.Clean, Cmd.Clean, Cmd.ends, Cmds.startsLoop]
    · simp [bothFn, bothSum, Cmds.Uses, Cmd.Uses, Ex.Uses, Exs.Uses, factFn, factExts]
  refine ⟨?_, by decide, ?_, fun _ _ => rfl⟩
  · intro before g after e
    match before with
    | [] => cases e; exact hfact
    | [_] => cases e; exact hboth
    | _ :: _ :: b => simp only [factScript, List.cons_append, List.cons.injEq] at e; simp at e
  · intro g hg
    simp only [factScript, List.mem_cons, List.not_mem_nil, or_false] at hg
    rcases hg with rfl | rfl <;> exact ⟨rfl, rfl⟩

theorem fact_reads (run : List Val → Option Val) (h : ∀ args v, run args = some v → v.Has (.int .u64)) : ReadsScript factCfg factText factScript := by
  have hv : ∀ c, c = 'a' ∨ c = 'b' ∨ c = 'n' ∨ c = 'h' → NameOk factCfg [c] := by
    rintro c (rfl | rfl | rfl | rfl) <;> exact ⟨example_name _ (by decide), by decide⟩
  have h1 : NameOk factCfg factName := ⟨⟨⟨_, _, rfl, by decide, by decide⟩, by decide⟩, by decide⟩
  have h2 : NameOk factCfg bothName := ⟨⟨⟨_, _, rfl, by decide, by decide⟩, by decide⟩, by decide⟩
  have ha := hv 'a' (by decide)
  have hb := hv 'b' (by decide)
  have hn := hv 'n' (by decide)
  have hh := hv 'h' (by decide)
  have e : factText = writeTokens (funcsPrint (factScript.map Fn.src)) := by decide +kernel
  rw [e]
  refine script_text factCfg (fun _ _ => rfl) (fun t => by cases t with | bool => decide | int t => cases t <;> decide) _ _ _ (fact_ok run h) ?_
  intro g hg
  simp only [factScript, List.mem_cons, List.not_mem_nil, or_false] at hg
  rcases hg with rfl | rfl
  · exact ⟨h1, by simp [factFn, hn], by simp [factFn, factBody, factStep, one, Cmds.Names, Cmd.Names, Rest.Names, Ex.Names, Exs.Names, hn, h1]⟩
  · exact ⟨h2, by simp [bothFn, ha, hb], by simp [bothFn, bothSum, Cmds.Names, Cmd.Names, Ex.Names, Exs.Names, ha, hb, h1, hh]⟩

def factorial : Nat → Nat
  | 0 => 1
  | n + 1 => (n + 1) * factorial n

theorem wrap_u64 (z : Int) : Pipeline.wrap .u64 z = z % 18446744073709551616 := by unfold Pipeline.wrap; simp [IntTy.bits, IntTy.signed]

theorem fact_call (run : List Val → Option Val) (h : ∀ args v, run args = some v → v.Has (.int .u64)) (n : Nat) : n < 2 ^ 64 → ∀ k, n < k →
    returned (factExts run h) factScript k factName [.int n] = some (.int (factorial n % 2 ^ 64)) := by
  induction n with
  | zero =>
    intro _ k hk
    obtain ⟨k, rfl⟩ : ∃ m, k = m + 1 := ⟨k - 1, by omega⟩
    rw [returned_succ (g := factFn) rfl]
    rfl
  | succ n ih =>
    intro hn k hk
    obtain ⟨k, rfl⟩ : ∃ m, k = m + 1 := ⟨k - 1, by omega⟩
    rw [returned_succ (g := factFn) rfl]
    have ih := ih (by omega) k (by omega)
    have e1 : ∀ κ ρ, factStep.value (sigs (factExts run h) factScript) κ (startTypes factFn) ρ = vArith .mul (some (.int .u64)) (some (ρ ['n']))
        ((vArith .sub (some (.int .u64)) (some (ρ ['n'])) (some (.int 1))).bind fun v => (convs [.int .u64] [v]).bind (κ factName)) := by
      intro κ ρ
      simp only [factStep, one, Ex.value, Exs.values]
      rw [show sigs (factExts run h) factScript factName = some ([.int .u64], .int .u64) from rfl]
      simp only [Option.bind_some, Option.map_some]
      have hl : (Ex.type (sigs (factExts run h) factScript) (startTypes factFn) (.lit ['1'] none)).bind (fun t => conv t (.int (decimal ['1']))) = some (.int 1) := rfl
      rw [hl]
      show vArith .mul (some (.int .u64)) _ (Option.bind ((vArith .sub (some (.int .u64)) _ _).bind _) _) = _
      cases vArith .sub (some (.int .u64)) (some (ρ ['n'])) (some (.int 1)) <;> rfl
    have e2 : ∀ κ ρ, (Ex.rel .le (.var ['n']) one).value (sigs (factExts run h) factScript) κ (startTypes factFn) ρ = vRel .le (some (.int .u64)) (some (ρ ['n'])) (some (.int 1)) := by
      intro κ ρ
      rfl
    have hx : startStore factFn [.int ((n + 1 : Nat) : Int)] ['n'] = .int ((n + 1 : Nat) : Int) := rfl
    have hw : Pipeline.wrap .u64 ((n + 1 : Nat) : Int) = ((n + 1 : Nat) : Int) := by rw [wrap_u64]; omega
    have h1w : Pipeline.wrap .u64 1 = 1 := by rw [wrap_u64]; rfl
    have hnw : Pipeline.wrap .u64 (n : Int) = n := by rw [wrap_u64]; omega
    have eb : factFn.body = factBody := rfl
    rw [eb, factBody, Cmds.exec, Cmd.exec, e2, hx]
    simp only [vRel, Rel.holds, hw, h1w]
    by_cases h0 : n = 0
    · subst h0; rfl
    · rw [decide_eq_false (by omega)]
      simp only [choose, Rest.exec, End.andThen, Cmds.exec, Cmd.exec, Cmd.after]
      rw [e1, hx]
      simp only [vArith, Arith.calc, hw, h1w, Option.map_some, Option.bind_some]
      rw [show ((n + 1 : Nat) : Int) - 1 = (n : Int) by omega, hnw]
      simp only [convs, conv, hnw, Option.bind_some, Option.map_some]
      rw [ih]
      have er : factFn.ret = .int .u64 := rfl
      simp only [vArith, hw, Option.map_some, withVal, End.andThen, result, conv, Arith.calc, er]
      simp only [wrap_u64, factorial]
      refine congrArg (fun z => some (Val.int z)) ?_
      have e3 : ((factorial n : Int) % 2 ^ 64) % 18446744073709551616 = (factorial n : Int) % 18446744073709551616 := by omega
      show (((n + 1 : Nat) : Int) * (((factorial n : Int) % 2 ^ 64) % 18446744073709551616)) % 18446744073709551616 % 18446744073709551616 = _
      rw [e3, Int.emod_emod, Int.mul_emod, Int.emod_emod, ← Int.mul_emod]
      rfl

/-- The text above is compiled, and its functions compute factorials modulo 2^64, and their sum with what the registered function returns. -/
example (run : List Val → Option Val) (h : ∀ args v, run args = some v → v.Has (.int .u64)) : ∃ ms, compileScript factCfg (fun _ => none) (factExts run h) factText = some ms ∧ ∀ junk, ∀ a : Nat,
    a < 2 ^ 64 → Returns (factExts run h) ms junk factName [a] (factorial a % 2 ^ 64) ∧
      ∀ (b : Nat) (z : Int), b < 2 ^ 64 → run [.int b] = some (.int z) → Returns (factExts run h) ms junk bothName [a, b] ((factorial a + z) % 2 ^ 64) := by
  obtain ⟨ms, h1, h2⟩ := script_computes factCfg (fun _ => none) (factExts run h) factScript (fact_ok run h) factText (fact_reads run h)
  have hlo : IntOps.lo .u64 = 0 := by decide
  have hhi : IntOps.hi .u64 = 18446744073709551615 := by decide
  have hfit : ∀ a : Nat, a < 2 ^ 64 → IntOps.Fits .u64 (a : Int) := fun a ha => by simp only [IntOps.Fits, hlo, hhi]; exact ⟨by omega, by omega⟩
  refine ⟨ms, h1, fun junk a ha => ⟨?_, fun b z hb hz => ?_⟩⟩
  · exact (h2 junk factFn (by simp [factScript]) [.int a] ⟨hfit a ha, trivial⟩ _).2 ⟨_, _, fact_call run h a ha _ (Nat.lt_succ_self a), rfl⟩
  · refine (h2 junk bothFn (by simp [factScript]) [.int a, .int b] ⟨hfit a ha, hfit b hb, trivial⟩ _).2 ⟨a + 2, .int ((factorial a + z) % 2 ^ 64), ?_, rfl⟩
    show returned (factExts run h) factScript (a + 1 + 1) bothName _ = _
    rw [returned_succ (g := bothFn) rfl]
    have hv : bothSum.value (sigs (factExts run h) factScript) (returned (factExts run h) factScript (a + 1)) (startTypes bothFn) (startStore bothFn [.int a, .int b]) =
        some (.int ((factorial a + z) % 2 ^ 64)) := by
      have haw : Pipeline.wrap .u64 (a : Int) = a := by rw [wrap_u64]; omega
      have hbw : Pipeline.wrap .u64 (b : Int) = b := by rw [wrap_u64]; omega
      have e1 : bothSum.value (sigs (factExts run h) factScript) (returned (factExts run h) factScript (a + 1)) (startTypes bothFn) (startStore bothFn [.int a, .int b]) =
          vArith .add (some (.int .u64)) (returned (factExts run h) factScript (a + 1) factName [.int (Pipeline.wrap .u64 a)])
            (returned (factExts run h) factScript (a + 1) ['h'] [.int (Pipeline.wrap .u64 b)]) := rfl
      rw [e1, haw, hbw, fact_call run h a ha _ (Nat.lt_succ_self a), returned_ext rfl]
      rw [show factExts run h ['h'] = some ⟨[.int .u64], .int .u64, run, h⟩ from rfl]
      simp only [Option.bind_some, hz, vArith, Arith.calc, wrap_u64, Option.map_some]
      refine congrArg (fun z => some (Val.int z)) ?_
      show ((factorial a : Int) % 2 ^ 64 % 18446744073709551616 + z % 18446744073709551616) % 18446744073709551616 = _
      omega
    show result (.int .u64) (End.andThen (withVal (bothSum.value _ _ _ _) _) _) = _
    rw [hv]
    simp only [withVal, End.andThen, result, conv, wrap_u64]
    refine congrArg (fun z => some (Val.int z)) ?_
    omega

end Verif.Comp.Script
