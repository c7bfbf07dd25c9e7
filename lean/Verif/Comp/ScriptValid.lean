import Verif.Comp.ScriptStmts
/-!
# Lemmas about scripts: validation accepts well typed functions
-/
namespace Verif.Comp.Script
open Verif.Ast Verif.Ast.Rpn Verif.Gen Verif.Gen.Scalar Verif.Types.Conv Verif.Comp.Pipeline Verif.Comp.Function

/-- Both boolean or both integers. -/
def Kin : Ty → Ty → Prop
  | .bool, .bool => True
  | .int _, .int _ => True
  | _, _ => False

theorem Kin.bool {u : Ty} (h : Kin u .bool) : u = .bool := by cases u <;> simp_all [Kin]
theorem Kin.int {u : Ty} {t : IntTy} (h : Kin u (.int t)) : ∃ s, u = .int s := by cases u <;> simp_all [Kin]
theorem Kin.refl (u : Ty) : Kin u u := by cases u <;> trivial

theorem Kin.cast {u τ p : Ty} (h : Kin u τ) (hc : converts p τ = true) : vCast u.p p.p = true := by
  cases u <;> cases τ <;> cases p <;> simp_all [Kin, converts, vCast, normT, Ty.p]

/-- What validation says about an expression of type `τ`. -/
def Pred (pr : Option PTy) (even : Prop) (τ : Ty) : Prop := ∃ u : Ty, pr = some u.p ∧ Kin u τ ∧ (even → u = τ)

inductive Kins : List Ty → List Ty → Prop
  | nil : Kins [] []
  | cons {u t : Ty} {us ts : List Ty} : Kin u t → Kins us ts → Kins (u :: us) (t :: ts)

theorem Kins.casts {us ts : List Ty} (h : Kins us ts) : ∀ {ps : List Ty}, convertsAll ps ts = true → vCasts (us.map Ty.p) (ps.map Ty.p) = true := by
  induction h with
  | nil => intro ps hc; cases ps with
    | nil => rfl
    | cons => cases hc
  | cons h _ ih => intro ps hc; cases ps with
    | nil => cases hc
    | cons p ps =>
      rw [convertsAll, Bool.and_eq_true] at hc
      rw [List.map_cons, List.map_cons, vCasts, h.cast hc.1, ih hc.2]
      rfl

mutual
theorem pred_ex {inl : Inline} {P : Name → Prop} {σ : Sigs} {σm : MSigs} (hs : SigsOk inl P σ σm) (Γ : Types) (tenv : Name → Option PTy) (h : TypesOk Γ tenv) (p : Ex)
    (hu : p.Uses P) (hl : p.Lits) (hv : p.Level σ Γ) (t : Tree) (hi : p.Is t) (τ : Ty) (ht : p.type σ Γ = some τ) : Pred (treeV inl (vSemC σm tenv) t) (p.Even σ Γ) τ := by
  match p with
  | .lit ds s =>
    rw [Ex.Is] at hi; subst hi
    rw [Ex.Lits] at hl
    obtain ⟨u, z, h1, _, _, h2⟩ := lit_value (σ := σ) (κ := fun _ _ => none) (Γ := Γ) (ρ := fun _ => .bool false) ds s hl.1 hl.2.1 hl.2.2
    rw [treeV, evalO]
    show Pred ((constant (litText ds s)).map (·.1)) _ _
    rw [h1] at ht
    cases ht
    rw [h2]
    exact ⟨_, rfl, Kin.refl _, fun _ => rfl⟩
  | .const b => rw [Ex.Is] at hi; subst hi; rw [Ex.type] at ht; cases ht; rw [treeV, evalO]; exact ⟨.bool, rfl, trivial, fun _ => rfl⟩
  | .var x => rw [Ex.Is] at hi; subst hi; rw [Ex.type] at ht; rw [treeV, evalO]; exact ⟨τ, h x τ ht, Kin.refl _, fun _ => rfl⟩
  | .neg a =>
    rw [Ex.Is] at hi; rw [Ex.type] at ht; rw [Ex.Lits] at hl; rw [Ex.Uses] at hu; rw [Ex.Level] at hv
    obtain ⟨u, rfl, h1⟩ := hi
    obtain ⟨s, h2, h3, rfl⟩ := tNeg_some ht
    obtain ⟨w, e1, _, e2⟩ := pred_ex hs Γ tenv h a hu hl hv.1 u h1 _ h2
    rw [e2 hv.2] at e1
    rw [treeV, e1]
    refine ⟨.int s, ?_, trivial, fun _ => rfl⟩
    show vUn .neg (.int s) = _
    simp [vUn, h3, Ty.p]
  | .not a =>
    rw [Ex.Is] at hi; rw [Ex.type] at ht; rw [Ex.Lits] at hl; rw [Ex.Uses] at hu; rw [Ex.Level] at hv
    obtain ⟨u, rfl, h1⟩ := hi
    obtain ⟨h2, rfl⟩ := tNot_some ht
    obtain ⟨w, e1, e2, _⟩ := pred_ex hs Γ tenv h a hu hl hv u h1 _ h2
    rw [e2.bool] at e1
    rw [treeV, e1]
    exact ⟨.bool, rfl, trivial, fun _ => rfl⟩
  | .arith o a b =>
    rw [Ex.Is] at hi; rw [Ex.type] at ht; rw [Ex.Lits] at hl; rw [Ex.Uses] at hu; rw [Ex.Level] at hv
    obtain ⟨u, v, rfl, h1, h2⟩ := hi
    obtain ⟨s, w, h3, h4, rfl⟩ := tArith_some ht
    obtain ⟨x, e1, k1, f1⟩ := pred_ex hs Γ tenv h a hu.1 hl.1 hv.1 u h1 _ h3
    obtain ⟨y, e2, k2, f2⟩ := pred_ex hs Γ tenv h b hu.2 hl.2 hv.2 v h2 _ h4
    obtain ⟨x, rfl⟩ := k1.int
    obtain ⟨y, rfl⟩ := k2.int
    rw [treeV, e1, e2]
    refine ⟨.int (wider x y), vBin_arith o x y, trivial, fun he => ?_⟩
    rw [Ex.Even] at he
    have g1 := f1 he.1
    have g2 := f2 he.2
    cases g1; cases g2; rfl
  | .rel o a b =>
    rw [Ex.Is] at hi; rw [Ex.type] at ht; rw [Ex.Lits] at hl; rw [Ex.Uses] at hu; rw [Ex.Level] at hv
    obtain ⟨u, v, rfl, h1, h2⟩ := hi
    obtain ⟨s, w, h3, h4, rfl⟩ := tRel_some ht
    obtain ⟨x, e1, k1, _⟩ := pred_ex hs Γ tenv h a hu.1 hl.1 hv.1 u h1 _ h3
    obtain ⟨y, e2, k2, _⟩ := pred_ex hs Γ tenv h b hu.2 hl.2 hv.2 v h2 _ h4
    obtain ⟨x, rfl⟩ := k1.int
    obtain ⟨y, rfl⟩ := k2.int
    rw [treeV, e1, e2]
    exact ⟨.bool, vBin_rel o x y, trivial, fun _ => rfl⟩
  | .and a b =>
    rw [Ex.Is] at hi; rw [Ex.type] at ht; rw [Ex.Lits] at hl; rw [Ex.Uses] at hu; rw [Ex.Level] at hv
    obtain ⟨u, v, rfl, h1, h2⟩ := hi
    obtain ⟨h3, h4, rfl⟩ := tLogic_some ht
    obtain ⟨x, e1, k1, _⟩ := pred_ex hs Γ tenv h a hu.1 hl.1 hv.1 u h1 _ h3
    obtain ⟨y, e2, k2, _⟩ := pred_ex hs Γ tenv h b hu.2 hl.2 hv.2 v h2 _ h4
    rw [k1.bool] at e1; rw [k2.bool] at e2
    rw [treeV, e1, e2]
    exact ⟨.bool, rfl, trivial, fun _ => rfl⟩
  | .or a b =>
    rw [Ex.Is] at hi; rw [Ex.type] at ht; rw [Ex.Lits] at hl; rw [Ex.Uses] at hu; rw [Ex.Level] at hv
    obtain ⟨u, v, rfl, h1, h2⟩ := hi
    obtain ⟨h3, h4, rfl⟩ := tLogic_some ht
    obtain ⟨x, e1, k1, _⟩ := pred_ex hs Γ tenv h a hu.1 hl.1 hv.1 u h1 _ h3
    obtain ⟨y, e2, k2, _⟩ := pred_ex hs Γ tenv h b hu.2 hl.2 hv.2 v h2 _ h4
    rw [k1.bool] at e1; rw [k2.bool] at e2
    rw [treeV, e1, e2]
    exact ⟨.bool, rfl, trivial, fun _ => rfl⟩
  | .pick c a b =>
    rw [Ex.Is] at hi; rw [Ex.type] at ht; rw [Ex.Lits] at hl; rw [Ex.Uses] at hu; rw [Ex.Level] at hv
    obtain ⟨w, u, v, rfl, h0, h1, h2⟩ := hi
    obtain ⟨h3, h4⟩ := tPick_some ht
    obtain ⟨z, e0, k0, _⟩ := pred_ex hs Γ tenv h c hu.1 hl.1 hv.1 w h0 _ h3
    rw [k0.bool] at e0
    rcases h4 with ⟨s, s', h4, h5, rfl⟩ | ⟨h4, h5, rfl⟩
    · obtain ⟨x, e1, k1, f1⟩ := pred_ex hs Γ tenv h a hu.2.1 hl.2.1 hv.2.1 u h1 _ h4
      obtain ⟨y, e2, k2, f2⟩ := pred_ex hs Γ tenv h b hu.2.2 hl.2.2 hv.2.2 v h2 _ h5
      obtain ⟨x, rfl⟩ := k1.int
      obtain ⟨y, rfl⟩ := k2.int
      rw [treeV, e0, e1, e2]
      refine ⟨.int y, vSel_int x y, trivial, fun he => ?_⟩
      rw [Ex.Even, h4, h5] at he
      have g2 := f2 he.2.1
      have g3 := he.2.2
      cases g2; cases g3
      show Ty.int s = .int (wider s s)
      cases s <;> rfl
    · obtain ⟨x, e1, k1, _⟩ := pred_ex hs Γ tenv h a hu.2.1 hl.2.1 hv.2.1 u h1 _ h4
      obtain ⟨y, e2, k2, _⟩ := pred_ex hs Γ tenv h b hu.2.2 hl.2.2 hv.2.2 v h2 _ h5
      rw [k1.bool] at e1; rw [k2.bool] at e2
      rw [treeV, e0, e1, e2]
      exact ⟨.bool, rfl, trivial, fun _ => rfl⟩
  | .call f as =>
    rw [Ex.Is] at hi; rw [Ex.type] at ht; rw [Ex.Lits] at hl; rw [Ex.Uses] at hu; rw [Ex.Level] at hv
    obtain ⟨es, rfl, h1⟩ := hi
    obtain ⟨q, us, h2, h3, h4, rfl⟩ := tCall_some ht
    obtain ⟨g1, g2⟩ := hs f hu.1
    obtain ⟨ws, e1, k1⟩ := pred_exs hs Γ tenv h as hu.2 hl hv es h1 us h3
    rw [treeV, evalO, e1]
    simp only [Option.bind_some]
    rw [g1]
    refine ⟨q.2, ?_, Kin.refl _, fun _ => rfl⟩
    show ((σm f).bind _) = _
    rw [g2, h2]
    simp only [Option.map_some, Option.bind_some, k1.casts h4, if_true]
theorem pred_exs {inl : Inline} {P : Name → Prop} {σ : Sigs} {σm : MSigs} (hs : SigsOk inl P σ σm) (Γ : Types) (tenv : Name → Option PTy) (h : TypesOk Γ tenv) (p : Exs)
    (hu : p.Uses P) (hl : p.Lits) (hv : p.Level σ Γ) (es : Exprs) (hi : p.Are es) (us : List Ty) (ht : p.types σ Γ = some us) :
    ∃ ws : List Ty, evalEs inl (vSemC σm tenv) es = some (ws.map Ty.p) ∧ Kins ws us := by
  match p with
  | .nil => rw [Exs.Are] at hi; subst hi; rw [Exs.types] at ht; cases ht; rw [evalEs]; exact ⟨[], rfl, .nil⟩
  | .cons a as =>
    rw [Exs.Are] at hi; rw [Exs.Lits] at hl; rw [Exs.Uses] at hu; rw [Exs.Level] at hv
    obtain ⟨e, es', rfl, h1, h2⟩ := hi
    obtain ⟨t, ts, h3, h4, rfl⟩ := types_cons ht
    obtain ⟨x, e1, k1, _⟩ := pred_ex hs Γ tenv h a hu.1 hl.1 hv.1 _ h1 t h3
    obtain ⟨ws, e2, k2⟩ := pred_exs hs Γ tenv h as hu.2 hl.2 hv.2 es' h2 ts h4
    rw [evalEs, eval_tree, e1, e2]
    exact ⟨x :: ws, rfl, .cons k1 k2⟩
end

/-! ## Statements -/

/-- The functions a statement may call are known. -/
structure Scene where
  inl : Inline
  P : Name → Prop
  σ : Sigs
  σm : MSigs
  ok : SigsOk inl P σ σm

theorem vex_ok (S : Scene) (Γ : Types) (tenv : Name → Option PTy) (h : TypesOk Γ tenv) (p : Ex) (hu : p.Uses S.P) (hl : p.Lits) (hv : p.Level S.σ Γ) (e : Expr) (hi : p.Is e.toTree) (τ : Ty)
    (ht : p.type S.σ Γ = some τ) : Pred (evalE S.inl (vSemC S.σm tenv) e) (p.Even S.σ Γ) τ := by
  rw [eval_tree]
  exact pred_ex S.ok Γ tenv h p hu hl hv _ hi τ ht

theorem vcondition_ok (S : Scene) (Γ : Types) (tenv : Name → Option PTy) (h : TypesOk Γ tenv) (p : Ex) (hu : p.Uses S.P) (e : Expr) (hi : p.Is e.toTree) (hp : ExOk S.σ Γ p)
    (ht : p.type S.σ Γ = some .bool) : vCond (vSemC S.σm) S.inl tenv e = some tenv := by
  obtain ⟨u, h1, h2, _⟩ := vex_ok S Γ tenv h p hu hp.lits hp.level e hi _ ht
  rw [h2.bool] at h1
  unfold vCond
  rw [h1]
  rfl

/-- An expression that is no assignment leaves the variables alone. -/
theorem vexpr_plain (S : Scene) (tenv : Name → Option PTy) (p : Ex) (hu : p.Uses S.P) (e : Expr) (hi : p.Is e.toTree) :
    vExpr (vSemC S.σm) S.inl tenv e = (evalE S.inl (vSemC S.σm tenv) e).map fun _ => tenv := by
  have hp := plain_ex S.inl S.P (fun f hf => (S.ok f hf).1) p hu _ hi
  unfold vExpr
  split
  · next x e => rw [Expr.toTree, Tree.PlainT] at hp; exact absurd rfl hp.2.1
  · next x op e =>
    rw [Expr.toTree, Tree.PlainT] at hp
    unfold vAssign
    rw [evalE, evalE, evalO]
    show _ = ((tenv x).bind fun a => _).map _
    cases tenv x with
    | none => rfl
    | some t =>
      simp only [Option.bind_some]
      cases evalE S.inl (vSemC S.σm tenv) e with
      | none => rfl
      | some u => simp only [Option.bind_some, if_neg hp.2.1, hp.2.2.1]; rfl
  · rfl

/-- Validation accepts, knowing the variables afterwards. -/
def Passes (r : Option (Name → Option PTy)) (tenv : Name → Option PTy) (Γ : Types) (names : List Name) : Prop := ∃ tenv', r = some tenv' ∧ TypesOk Γ tenv' ∧ VGrow tenv tenv' names

theorem grow_types {Γ : Types} {tenv tenv' : Name → Option PTy} {names : List Name} (h : TypesOk Γ tenv) (hg : VGrow tenv tenv' names) : TypesOk Γ tenv' := fun x t hx => hg.keep x _ (h x t hx)

theorem vcast_self (t : PTy) : vCast t t = true := by simp [vCast]

mutual
theorem vcmd_ok (S : Scene) (ret : Ty) (c : Cmd) (s : Stmt) (h : c.Is s) (l : Bool) (Γ : Types) (hok : c.Ok S.σ ret l Γ) (hu : c.Uses S.P) (tenv : Name → Option PTy) (ht : TypesOk Γ tenv)
    (hf : ∀ x ∈ c.defs, tenv x = none) (hn : c.defs.Nodup) : Passes (vStmt (vSemC S.σm) S.inl ret.p l s tenv) tenv (c.after S.σ Γ) c.defs := by
  match c with
  | .define x e =>
    cases h with
    | define he =>
    next e' =>
    rw [Cmd.Ok] at hok
    rw [Cmd.Uses] at hu
    obtain ⟨t, hty⟩ := Option.isSome_iff_exists.1 hok.1.typed
    obtain ⟨u, h1, _, h2⟩ := vex_ok S Γ tenv ht e hu hok.1.lits hok.1.level e' he t hty
    have hx : tenv x = none := hf x (by rw [Cmd.defs]; simp)
    refine ⟨fun n => if n = x then some u.p else tenv n, ?_, ?_, ?_⟩
    · rw [vStmt, vExpr, vDefine, hx, h1]; rfl
    · rw [h2 hok.2.2, Cmd.after, hty]
      intro n s hs
      unfold Types.set at hs
      show (if n = x then _ else _) = _
      by_cases hnx : n = x
      · rw [if_pos hnx] at hs ⊢; rw [Option.some.inj hs]
      · rw [if_neg hnx] at hs ⊢; exact ht n s hs
    · rw [Cmd.defs]
      refine ⟨fun n t hk => ?_, fun n hk hm => ?_⟩
      · by_cases hnx : n = x
        · subst hnx; rw [hx] at hk; simp at hk
        · simp only [if_neg hnx]; exact hk
      · have hnx : n ≠ x := by simpa using hm
        simp only [if_neg hnx]; exact hk
  | .assign x e =>
    cases h with
    | assign he =>
    next e' =>
    rw [Cmd.Ok] at hok
    rw [Cmd.Uses] at hu
    obtain ⟨t, hty⟩ := Option.isSome_iff_exists.1 hok.1.typed
    obtain ⟨u, h1, h2, _⟩ := vex_ok S Γ tenv ht e hu hok.1.lits hok.1.level e' he t hty
    refine ⟨tenv, ?_, ?_, VGrow.refl _ _⟩
    · rw [vStmt, vExpr]
      · unfold vAssign
        rw [ht x t (hok.2.trans hty), h1]
        have : vCast t.p u.p = true := by cases t <;> cases u <;> simp_all [Kin, vCast, normT, Ty.p]
        simp only [Option.bind_some, if_true, this]
    · rw [Cmd.after]; exact ht
  | .update o x e =>
    cases h with
    | update he =>
    next e' =>
    rw [Cmd.Ok] at hok
    rw [Cmd.Uses] at hu
    obtain ⟨w, hw⟩ := Option.isSome_iff_exists.1 hok.1.typed
    have hlv := hok.1.level
    have hli := hok.1.lits
    rw [Ex.Level] at hlv
    rw [Ex.Lits] at hli
    rw [hw] at hok
    have hx := hok.2
    rw [Ex.type] at hw
    obtain ⟨s, t, h3, hty, rfl⟩ := tArith_some hw
    rw [Ex.type] at h3
    obtain ⟨u, h1, h2, _⟩ := vex_ok S Γ tenv ht e hu hli.2 hlv.2 e' he _ hty
    obtain ⟨u, rfl⟩ := h2.int
    refine ⟨tenv, ?_, ?_, VGrow.refl _ _⟩
    · rw [vStmt]
      have : vExpr (vSemC S.σm) S.inl tenv (.bin (.un none (.var x)) (Arith.assignSign o) e') = vAssign (vSemC S.σm) S.inl tenv x (Arith.assignSign o) e' := by cases o <;> rfl
      rw [this]
      unfold vAssign
      rw [ht x _ h3, h1]
      simp only [Option.bind_some, if_neg (Function.assign_ne o)]
      cases o <;> rfl
    · rw [Cmd.after]; exact ht
  | .eval e =>
    cases h with
    | eval he =>
    next e' =>
    rw [Cmd.Ok] at hok
    rw [Cmd.Uses] at hu
    obtain ⟨t, hty⟩ := Option.isSome_iff_exists.1 hok.typed
    obtain ⟨u, h1, _, _⟩ := vex_ok S Γ tenv ht e hu hok.lits hok.level e' he t hty
    refine ⟨tenv, ?_, by rw [Cmd.after]; exact ht, VGrow.refl _ _⟩
    rw [vStmt, vexpr_plain S tenv e hu e' he, h1]
    rfl
  | .ret e =>
    cases h with
    | ret he =>
    next e' =>
    rw [Cmd.Ok] at hok
    rw [Cmd.Uses] at hu
    obtain ⟨hok, t, hty, hc⟩ := hok
    obtain ⟨u, h1, h2, _⟩ := vex_ok S Γ tenv ht e hu hok.lits hok.level e' he t hty
    refine ⟨tenv, ?_, by rw [Cmd.after]; exact ht, VGrow.refl _ _⟩
    rw [vStmt, h1]
    simp only [Option.bind_some, h2.cast hc, if_true]
  | .brk =>
    cases h
    rw [Cmd.Ok] at hok
    exact ⟨tenv, by rw [vStmt, if_pos hok], by rw [Cmd.after]; exact ht, VGrow.refl _ _⟩
  | .cont =>
    cases h
    rw [Cmd.Ok] at hok
    exact ⟨tenv, by rw [vStmt, if_pos hok], by rw [Cmd.after]; exact ht, VGrow.refl _ _⟩
  | .loop c b =>
    cases h with
    | loop hc hb =>
    rw [Cmd.Ok] at hok
    rw [Cmd.Uses] at hu
    rw [Cmd.defs] at hf hn ⊢
    obtain ⟨v, h1, h2, h3⟩ := vcmds_ok S ret b _ hb true Γ hok.2 hu.2 tenv ht hf hn
    exact ⟨v, by rw [vStmt, vcondition_ok S Γ tenv ht c hu.1 _ hc hok.1.1 hok.1.2, Option.bind_some, h1], by rw [Cmd.after]; exact h2, h3⟩
  | .branch c b rest =>
    cases h with
    | branch hc hb hr =>
    rw [Cmd.Ok] at hok
    rw [Cmd.Uses] at hu
    rw [Cmd.defs] at hf hn ⊢
    obtain ⟨v, h1, h2, h3⟩ := vcmds_ok S ret b _ hb l Γ hok.2.1 hu.2.1 tenv ht (fun x hx => hf x (by simp [hx])) (List.nodup_append.1 hn).1
    obtain ⟨w, h4, h5, h6⟩ := vrest_ok S ret rest _ _ hr l Γ hok.2.2 hu.2.2 v h2 (h3.fresh hf hn) (List.nodup_append.1 hn).2.1
    exact ⟨w, by rw [vStmt, vcondition_ok S Γ tenv ht c hu.1 _ hc hok.1.1 hok.1.2, Option.bind_some, h1, Option.bind_some, h4], by rw [Cmd.after]; exact h5, h3.trans h6⟩
theorem vcmds_ok (S : Scene) (ret : Ty) (c : Cmds) (s : Stmts) (h : c.Is s) (l : Bool) (Γ : Types) (hok : c.Ok S.σ ret l Γ) (hu : c.Uses S.P) (tenv : Name → Option PTy) (ht : TypesOk Γ tenv)
    (hf : ∀ x ∈ c.defs, tenv x = none) (hn : c.defs.Nodup) : Passes (vStmts (vSemC S.σm) S.inl ret.p l s tenv) tenv Γ c.defs := by
  match c with
  | .nil => cases h; exact ⟨tenv, by rw [vStmts], ht, VGrow.refl _ _⟩
  | .cons c cs =>
    cases h with
    | cons h1 h2 =>
    rw [Cmds.Ok] at hok
    rw [Cmds.Uses] at hu
    rw [Cmds.defs] at hf hn ⊢
    obtain ⟨v, k1, k2, k3⟩ := vcmd_ok S ret c _ h1 l Γ hok.1 hu.1 tenv ht (fun x hx => hf x (by simp [hx])) (List.nodup_append.1 hn).1
    obtain ⟨w, k4, k5, k6⟩ := vcmds_ok S ret cs _ h2 l _ hok.2 hu.2 v k2 (k3.fresh hf hn) (List.nodup_append.1 hn).2.1
    exact ⟨w, by rw [vStmts, k1, Option.bind_some, k4], grow_types ht (k3.trans k6), k3.trans k6⟩
theorem vrest_ok (S : Scene) (ret : Ty) (c : Rest) (es : Elifs) (el : Else) (h : c.Is es el) (l : Bool) (Γ : Types) (hok : c.Ok S.σ ret l Γ) (hu : c.Uses S.P) (tenv : Name → Option PTy)
    (ht : TypesOk Γ tenv) (hf : ∀ x ∈ c.defs, tenv x = none) (hn : c.defs.Nodup) :
    Passes ((vElifs (vSemC S.σm) S.inl ret.p l es tenv).bind fun v => vElse (vSemC S.σm) S.inl ret.p l el v) tenv Γ c.defs := by
  match c with
  | .none => cases h; exact ⟨tenv, by rw [vElifs, Option.bind_some, vElse], ht, VGrow.refl _ _⟩
  | .els b =>
    cases h with
    | els hb =>
    rw [Rest.Ok] at hok
    rw [Rest.Uses] at hu
    rw [Rest.defs] at hf hn ⊢
    obtain ⟨v, h1, h2, h3⟩ := vcmds_ok S ret b _ hb l Γ hok hu tenv ht hf hn
    exact ⟨v, by rw [vElifs, Option.bind_some, vElse, h1], h2, h3⟩
  | .elif c b rest =>
    cases h with
    | elif hc hb hr =>
    rw [Rest.Ok] at hok
    rw [Rest.Uses] at hu
    rw [Rest.defs] at hf hn ⊢
    obtain ⟨v, h1, h2, h3⟩ := vcmds_ok S ret b _ hb l Γ hok.2.1 hu.2.1 tenv ht (fun x hx => hf x (by simp [hx])) (List.nodup_append.1 hn).1
    obtain ⟨w, h4, h5, h6⟩ := vrest_ok S ret rest _ _ hr l Γ hok.2.2 hu.2.2 v h2 (h3.fresh hf hn) (List.nodup_append.1 hn).2.1
    exact ⟨w, by rw [vElifs, vcondition_ok S Γ tenv ht c hu.1 _ hc hok.1.1 hok.1.2, Option.bind_some, h1, Option.bind_some, h4], h5, h3.trans h6⟩
end

end Verif.Comp.Script
