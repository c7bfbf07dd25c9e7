import Verif.Comp.ScriptLemmas
/-!
# Lemmas about scripts: the code of expressions
-/
namespace Verif.Comp.Script
open Verif.Ast Verif.Ast.Rpn Verif.Gen Verif.Gen.Scalar Verif.Types.Conv Verif.Comp.Pipeline Verif.Comp.Function

/-! ## Code does not depend on what functions return, nor on functions it does not call -/

/-- More functions are known. -/
def Known (σ σ' : MSigs) : Prop := ∀ f s, σ f = some s → σ' f = some s

/-- What is generated stays the same. -/
def Le {α : Type} (g g' : G PTy Int α) : Prop := ∀ cs r, g cs = some r → g' cs = some r

theorem Le.refl {α : Type} (g : G PTy Int α) : Le g g := fun _ _ h => h

theorem Le.bind {α β : Type} {g g' : G PTy Int α} {k k' : α → G PTy Int β} (h : Le g g') (hk : ∀ a, Le (k a) (k' a)) : Le (g.andThen k) (g'.andThen k') := by
  intro cs r hr
  unfold G.andThen at hr ⊢
  cases hg : g cs with
  | none => rw [hg] at hr; cases hr
  | some x =>
    rw [hg] at hr
    rw [h cs x hg]
    simp only [Option.bind_some] at hr ⊢
    cases hx : k x.1 x.2.2 with
    | none => rw [hx] at hr; cases hr
    | some y => rw [hx] at hr; rw [hk x.1 x.2.2 y hx]; exact hr

theorem castsTo_rt (σ σ' : MSigs) (K K' : MCalls) : ∀ (ts : List PTy) (xs : List (PTy × Opd Int)), castsTo (rt σ K) ts xs = castsTo (rt σ' K') ts xs
  | [], [] => rfl
  | [], _ :: _ => rfl
  | _ :: _, [] => rfl
  | t :: ts, x :: xs => by
    rw [castsTo, castsTo, castsTo_rt σ σ' K K' ts xs]
    rfl

theorem gCall_le {σ σ' : MSigs} (hle : Known σ σ') (K K' : MCalls) (n : Name) (hs : List (H PTy Int)) : Le (gCall (rt σ K) n hs) (gCall (rt σ' K') n hs) := by
  intro cs r h
  have e : ∀ σ K, gCall (rt σ K) n hs = G.get ((σ n).map fun s => (s.1, s.2, fun vs (w : Unit) => (K n vs).map fun v => (w, v))) fun f => (lds hs).andThen fun xs =>
      (castsTo (rt σ K) f.1 xs).andThen fun os => (G.push (Instr.call n os)).andThen fun o => G.ret (H.imm f.2.1 o) := fun _ _ => rfl
  rw [e] at h ⊢
  cases hn : σ n with
  | none => rw [hn] at h; cases h
  | some s =>
    rw [hn] at h
    rw [hle n s hn]
    simp only [Option.map_some, G.get] at h ⊢
    simp only [castsTo_rt σ σ' K K'] at h
    exact h

theorem gStep_rt (σ σ' : MSigs) (K K' : MCalls) (inl : Inline) (n : ENode (H PTy Int)) (s : List (H PTy Int)) : gStep (rt σ K) inl n s = gStep (rt σ' K') inl n s := by
  unfold gStep
  rfl

theorem gStack_rt (σ σ' : MSigs) (K K' : MCalls) (inl : Inline) : ∀ (ns : List (ENode (H PTy Int))) (s : List (H PTy Int)), gStack (rt σ K) inl ns s = gStack (rt σ' K') inl ns s
  | [], s => by rw [gStack, gStack]
  | n :: ns, s => by
    rw [gStack, gStack, gStep_rt σ σ' K K']
    congr 1
    funext s'
    exact gStack_rt σ σ' K K' inl ns s'

mutual
theorem gBuild_le {σ σ' : MSigs} (hle : Known σ σ') (K K' : MCalls) (inl : Inline) : ∀ r : Rpn, Le (gBuild (rt σ K) inl r) (gBuild (rt σ' K') inl r)
  | .nil => by rw [gBuild, gBuild]; exact Le.refl _
  | .cons n r => by rw [gBuild, gBuild]; exact Le.bind (gNode_le hle K K' inl n) fun _ => Le.bind (gBuild_le hle K K' inl r) fun _ => Le.refl _
theorem gNode_le {σ σ' : MSigs} (hle : Known σ σ') (K K' : MCalls) (inl : Inline) : ∀ n : Node, Le (gNode (rt σ K) inl n) (gNode (rt σ' K') inl n)
  | .bool _ => by rw [gNode, gNode]; exact Le.refl _
  | .str _ => by rw [gNode, gNode]; exact Le.refl _
  | .num _ => by rw [gNode, gNode]; exact Le.refl _
  | .define _ => by rw [gNode, gNode]; exact Le.refl _
  | .var _ => by rw [gNode, gNode]; exact Le.refl _
  | .call n rs => by
    rw [gNode, gNode]
    refine Le.bind (gRuns_le hle K K' inl rs) fun hs => ?_
    exact Le.bind (gCall_le hle K K' n hs) fun _ => Le.refl _
  | .op1 _ => by rw [gNode, gNode]; exact Le.refl _
  | .op2 _ => by rw [gNode, gNode]; exact Le.refl _
  | .sel => by rw [gNode, gNode]; exact Le.refl _
  | .inl _ => by rw [gNode, gNode]; exact Le.refl _
  | .array _ => by rw [gNode, gNode]; exact Le.refl _
  | .access _ _ => by rw [gNode, gNode]; exact Le.refl _
theorem gRuns_le {σ σ' : MSigs} (hle : Known σ σ') (K K' : MCalls) (inl : Inline) : ∀ rs : Rpns, Le (gRuns (rt σ K) inl rs) (gRuns (rt σ' K') inl rs)
  | .nil => by rw [gRuns, gRuns]; exact Le.refl _
  | .cons r rs => by
    rw [gRuns, gRuns]
    refine Le.bind (Le.bind (gBuild_le hle K K' inl r) fun es => ?_) fun _ => Le.bind (gRuns_le hle K K' inl rs) fun _ => Le.refl _
    rw [gStack_rt σ σ' K K']
    exact Le.refl _
end

theorem gExpr_le {σ σ' : MSigs} (hle : Known σ σ') (K K' : MCalls) (inl : Inline) (e : Expr) : Le (gExpr (rt σ K) inl e) (gExpr (rt σ' K') inl e) := by
  unfold gExpr gRun
  refine Le.bind (gBuild_le hle K K' inl _) fun es => ?_
  rw [gStack_rt σ σ' K K']
  exact Le.refl _

/-! ## The runtime and the numbers -/

theorem rt_meet (σ : MSigs) (K : MCalls) (a b : PTy) : meet (rt σ K) a b = meet ints a b := rfl
theorem rt_castable (σ : MSigs) (K : MCalls) (a b : PTy) : castable (rt σ K) a b = castable ints a b := rfl
theorem rt_castTV (σ : MSigs) (K : MCalls) (t : PTy) (x : TV PTy Int) : castTV (rt σ K) t x = castTV ints t x := rfl
theorem rt_binTV (σ : MSigs) (K : MCalls) (o : BinOp) (a b : TV PTy Int) : binTV (rt σ K) o a b = binTV ints o a b := rfl
theorem rt_unTV (σ : MSigs) (K : MCalls) (o : UnOp) (a : TV PTy Int) : unTV (rt σ K) o a = unTV ints o a := rfl
theorem rt_selTV (σ : MSigs) (K : MCalls) (z a b : TV PTy Int) : selTV (rt σ K) z a b = selTV ints z a b := rfl
theorem rt_binOp (σ : MSigs) (K : MCalls) (o : BinOp) (t : PTy) : (rt σ K).binOp o t = ints.binOp o t := rfl

theorem pick_bool (z a b : Bool) : selTV ints (.bit, bit z) (.bit, bit a) (.bit, bit b) = some (.bit, bit (if z = true then a else b)) := by cases z <;> cases a <;> cases b <;> rfl

/-! ## Expressions and trees -/

def Tree.PlainT (inl : Inline) : Tree → Prop
  | .atom o => PlainO inl o
  | .un _ t => Tree.PlainT inl t
  | .bin l op r => Tree.PlainT inl l ∧ op ≠ .assign ∧ baseOp op = none ∧ Tree.PlainT inl r
  | .sel c t f => Tree.PlainT inl c ∧ Tree.PlainT inl t ∧ Tree.PlainT inl f

theorem plain_of_tree (inl : Inline) (e : Expr) (h : Tree.PlainT inl e.toTree) : Plain inl e := by
  match e with
  | .un none (.paren e) => rw [Expr.toTree] at h; rw [Plain, PlainO]; exact plain_of_tree inl e h
  | .un (some op) (.paren e) => rw [Expr.toTree, Tree.PlainT] at h; rw [Plain, PlainO]; exact plain_of_tree inl e h
  | .bin l op r => rw [Expr.toTree, Tree.PlainT] at h; rw [Plain]; exact ⟨plain_of_tree inl l h.1, h.2.1, h.2.2.1, plain_of_tree inl r h.2.2.2⟩
  | .sel c t f => rw [Expr.toTree, Tree.PlainT] at h; rw [Plain]; exact ⟨plain_of_tree inl c h.1, plain_of_tree inl t h.2.1, plain_of_tree inl f h.2.2⟩
  | .un none (.bool _) | .un none (.num _) | .un none (.var _) | .un none (.str _) | .un none (.define _) | .un none (.array _) | .un none (.call _ _) | .un none (.access _ _) =>
    simpa only [Expr.toTree, Tree.PlainT, Plain] using h
  | .un (some op) (.bool _) | .un (some op) (.num _) | .un (some op) (.var _) | .un (some op) (.str _) | .un (some op) (.define _) | .un (some op) (.array _)
  | .un (some op) (.call _ _) | .un (some op) (.access _ _) => simpa only [Expr.toTree, Tree.PlainT, Plain] using h

theorem arith_plain (o : Arith) : o.sign ≠ .assign ∧ baseOp o.sign = none := by cases o <;> exact ⟨by decide, rfl⟩
theorem rel_plain (o : Rel) : o.sign ≠ .assign ∧ baseOp o.sign = none := by cases o <;> exact ⟨by decide, rfl⟩

mutual
theorem plain_ex (inl : Inline) (P : Name → Prop) (hP : ∀ f, P f → inl f = none) (p : Ex) (hu : p.Uses P) (t : Tree) (h : p.Is t) : Tree.PlainT inl t := by
  match p with
  | .lit ds s => rw [Ex.Is] at h; subst h; rw [Tree.PlainT, PlainO]; trivial
  | .const b => rw [Ex.Is] at h; subst h; rw [Tree.PlainT, PlainO]; trivial
  | .var x => rw [Ex.Is] at h; subst h; rw [Tree.PlainT, PlainO]; trivial
  | .neg a => rw [Ex.Is] at h; rw [Ex.Uses] at hu; obtain ⟨u, rfl, h1⟩ := h; rw [Tree.PlainT]; exact plain_ex inl P hP a hu u h1
  | .not a => rw [Ex.Is] at h; rw [Ex.Uses] at hu; obtain ⟨u, rfl, h1⟩ := h; rw [Tree.PlainT]; exact plain_ex inl P hP a hu u h1
  | .arith o a b =>
    rw [Ex.Is] at h; rw [Ex.Uses] at hu; obtain ⟨u, v, rfl, h1, h2⟩ := h; rw [Tree.PlainT]
    exact ⟨plain_ex inl P hP a hu.1 u h1, (arith_plain o).1, (arith_plain o).2, plain_ex inl P hP b hu.2 v h2⟩
  | .rel o a b =>
    rw [Ex.Is] at h; rw [Ex.Uses] at hu; obtain ⟨u, v, rfl, h1, h2⟩ := h; rw [Tree.PlainT]
    exact ⟨plain_ex inl P hP a hu.1 u h1, (rel_plain o).1, (rel_plain o).2, plain_ex inl P hP b hu.2 v h2⟩
  | .and a b =>
    rw [Ex.Is] at h; rw [Ex.Uses] at hu; obtain ⟨u, v, rfl, h1, h2⟩ := h; rw [Tree.PlainT]
    exact ⟨plain_ex inl P hP a hu.1 u h1, by decide, rfl, plain_ex inl P hP b hu.2 v h2⟩
  | .or a b =>
    rw [Ex.Is] at h; rw [Ex.Uses] at hu; obtain ⟨u, v, rfl, h1, h2⟩ := h; rw [Tree.PlainT]
    exact ⟨plain_ex inl P hP a hu.1 u h1, by decide, rfl, plain_ex inl P hP b hu.2 v h2⟩
  | .pick c a b =>
    rw [Ex.Is] at h; rw [Ex.Uses] at hu; obtain ⟨w, u, v, rfl, h0, h1, h2⟩ := h; rw [Tree.PlainT]
    exact ⟨plain_ex inl P hP c hu.1 w h0, plain_ex inl P hP a hu.2.1 u h1, plain_ex inl P hP b hu.2.2 v h2⟩
  | .call f as =>
    rw [Ex.Is] at h; rw [Ex.Uses] at hu; obtain ⟨es, rfl, h1⟩ := h; rw [Tree.PlainT, PlainO]
    exact ⟨plain_exs inl P hP as hu.2 es h1, by rw [hP f hu.1]; simp⟩
theorem plain_exs (inl : Inline) (P : Name → Prop) (hP : ∀ f, P f → inl f = none) (p : Exs) (hu : p.Uses P) (es : Exprs) (h : p.Are es) : PlainEs inl es := by
  match p with
  | .nil => rw [Exs.Are] at h; subst h; rw [PlainEs]; trivial
  | .cons a as =>
    rw [Exs.Are] at h; rw [Exs.Uses] at hu; obtain ⟨e, es', rfl, h1, h2⟩ := h; rw [PlainEs]
    exact ⟨plain_of_tree inl e (plain_ex inl P hP a hu.1 _ h1), plain_exs inl P hP as hu.2 es' h2⟩
end

theorem bare_ex (p : Ex) (e : Expr) (he : p.Is e.toTree) (h : p.isVar = false) : BareE e = false := by
  cases hb : BareE e with
  | false => rfl
  | true =>
    obtain ⟨n, hn⟩ := bare_tree e hb
    rw [hn] at he
    cases p <;> simp [Ex.Is, Ex.isVar] at he h

mutual
theorem used_ex (σ : Sigs) (Γ : Types) (p : Ex) (τ : Ty) (h : p.type σ Γ = some τ) (t : Tree) (hi : p.Is t) (n : Name) (hn : Tree.has t n) : (Γ n).isSome := by
  match p with
  | .lit _ _ => rw [Ex.Is] at hi; subst hi; simp [Tree.has, varsO] at hn
  | .const _ => rw [Ex.Is] at hi; subst hi; simp [Tree.has, varsO] at hn
  | .var x => rw [Ex.Is] at hi; subst hi; rw [Tree.has, varsO] at hn; subst hn; rw [Ex.type] at h; rw [h]; rfl
  | .neg a =>
    rw [Ex.Is] at hi; rw [Ex.type] at h; obtain ⟨u, rfl, h1⟩ := hi; rw [Tree.has] at hn
    obtain ⟨t, h2, _, _⟩ := tNeg_some h
    exact used_ex σ Γ a _ h2 u h1 n hn
  | .not a =>
    rw [Ex.Is] at hi; rw [Ex.type] at h; obtain ⟨u, rfl, h1⟩ := hi; rw [Tree.has] at hn
    exact used_ex σ Γ a _ (tNot_some h).1 u h1 n hn
  | .arith o a b =>
    rw [Ex.Is] at hi; rw [Ex.type] at h; obtain ⟨u, v, rfl, h1, h2⟩ := hi; rw [Tree.has] at hn
    obtain ⟨s, t, h3, h4, _⟩ := tArith_some h
    rcases hn with hn | hn
    · exact used_ex σ Γ a _ h3 u h1 n hn
    · exact used_ex σ Γ b _ h4 v h2 n hn
  | .rel o a b =>
    rw [Ex.Is] at hi; rw [Ex.type] at h; obtain ⟨u, v, rfl, h1, h2⟩ := hi; rw [Tree.has] at hn
    obtain ⟨s, t, h3, h4, _⟩ := tRel_some h
    rcases hn with hn | hn
    · exact used_ex σ Γ a _ h3 u h1 n hn
    · exact used_ex σ Γ b _ h4 v h2 n hn
  | .and a b =>
    rw [Ex.Is] at hi; rw [Ex.type] at h; obtain ⟨u, v, rfl, h1, h2⟩ := hi; rw [Tree.has] at hn
    obtain ⟨h3, h4, _⟩ := tLogic_some h
    rcases hn with hn | hn
    · exact used_ex σ Γ a _ h3 u h1 n hn
    · exact used_ex σ Γ b _ h4 v h2 n hn
  | .or a b =>
    rw [Ex.Is] at hi; rw [Ex.type] at h; obtain ⟨u, v, rfl, h1, h2⟩ := hi; rw [Tree.has] at hn
    obtain ⟨h3, h4, _⟩ := tLogic_some h
    rcases hn with hn | hn
    · exact used_ex σ Γ a _ h3 u h1 n hn
    · exact used_ex σ Γ b _ h4 v h2 n hn
  | .pick c a b =>
    rw [Ex.Is] at hi; rw [Ex.type] at h; obtain ⟨w, u, v, rfl, h0, h1, h2⟩ := hi; rw [Tree.has] at hn
    obtain ⟨h3, h4⟩ := tPick_some h
    have h5 : (∃ s, a.type σ Γ = some s) ∧ ∃ s, b.type σ Γ = some s := by
      rcases h4 with ⟨s, t, h4, h5, _⟩ | ⟨h4, h5, _⟩ <;> exact ⟨⟨_, h4⟩, ⟨_, h5⟩⟩
    obtain ⟨⟨s, h5⟩, ⟨s', h6⟩⟩ := h5
    rcases hn with hn | hn | hn
    · exact used_ex σ Γ c _ h3 w h0 n hn
    · exact used_ex σ Γ a _ h5 u h1 n hn
    · exact used_ex σ Γ b _ h6 v h2 n hn
  | .call f as =>
    rw [Ex.Is] at hi; rw [Ex.type] at h; obtain ⟨es, rfl, h1⟩ := hi; rw [Tree.has, varsO] at hn
    obtain ⟨q, us, _, h3, _, _⟩ := tCall_some h
    exact used_exs σ Γ as us h3 es h1 n hn
theorem used_exs (σ : Sigs) (Γ : Types) (p : Exs) (us : List Ty) (h : p.types σ Γ = some us) (es : Exprs) (hi : p.Are es) (n : Name) (hn : varsEs es n) : (Γ n).isSome := by
  match p with
  | .nil => rw [Exs.Are] at hi; subst hi; simp [varsEs] at hn
  | .cons a as =>
    rw [Exs.Are] at hi; obtain ⟨e, es', rfl, h1, h2⟩ := hi; rw [varsEs] at hn
    obtain ⟨t, ts, h3, h4, _⟩ := types_cons h
    rcases hn with hn | hn
    · exact used_ex σ Γ a t h3 _ h1 n ((vars_tree e n).1 hn)
    · exact used_exs σ Γ as ts h4 es' h2 n hn
end

/-! ## Types of the code -/

/-- The types of the variables in scope are those of the code; the code may know more variables. -/
def TypesOk (Γ : Types) (tenv : Name → Option PTy) : Prop := ∀ x t, Γ x = some t → tenv x = some t.p

/-- The code knows the called functions, with their types. -/
def SigsOk (inl : Inline) (P : Name → Prop) (σ : Sigs) (σm : MSigs) : Prop := ∀ f, P f → inl f = none ∧ σm f = (σ f).map fun s => (s.1.map Ty.p, s.2.p)

theorem castable_p {t u : Ty} (h : converts t u = true) : castable ints u.p t.p = some () := by
  match t, u with
  | .bool, .bool => rfl
  | .bool, .int _ => cases h
  | .int _, .bool => cases h
  | .int t, .int u => exact castable_int u t

theorem castables_p (σm : MSigs) (K : MCalls) : ∀ {ts us : List Ty}, convertsAll ts us = true → castables (rt σm K) (ts.map Ty.p) (us.map Ty.p) = some ()
  | [], [], _ => rfl
  | [], _ :: _, h => by cases h
  | _ :: _, [], h => by cases h
  | t :: ts, u :: us, h => by
    rw [convertsAll, Bool.and_eq_true] at h
    simp only [List.map_cons, castables]
    rw [rt_castable, castable_p h.1, Option.bind_some]
    exact castables_p σm K h.2

theorem tySem_bin (σm : MSigs) (K : MCalls) (tenv : Name → Option PTy) (op : BinOp) (a b : PTy) : (tySem (rt σm K) tenv).bin op a b =
    (meet ints a b).bind fun c => (castable ints a c).bind fun _ => (castable ints b c).bind fun _ => (ints.binOp op c).map (·.1) := rfl
theorem tySem_sel (σm : MSigs) (K : MCalls) (tenv : Name → Option PTy) (z a b : PTy) : (tySem (rt σm K) tenv).sel z a b =
    if ints.isBit z = true then (meet ints a b).bind fun c => (castable ints a c).bind fun _ => (castable ints b c).map fun _ => c else none := rfl
theorem tySem_call (σm : MSigs) (K : MCalls) (tenv : Name → Option PTy) (f : Name) (ts : List PTy) : (tySem (rt σm K) tenv).call f ts =
    (σm f).bind fun s => (castables (rt σm K) s.1 ts).map fun _ => s.2 := by
  show ((σm f).map _).bind _ = _
  cases σm f <;> rfl

mutual
theorem types_ex {inl : Inline} {P : Name → Prop} {σ : Sigs} {σm : MSigs} (hs : SigsOk inl P σ σm) (K : MCalls) (Γ : Types) (tenv : Name → Option PTy) (h : TypesOk Γ tenv) (p : Ex)
    (hu : p.Uses P) (hl : p.Lits) (t : Tree) (hi : p.Is t) (τ : Ty) (ht : p.type σ Γ = some τ) : treeV inl (tySem (rt σm K) tenv) t = some τ.p := by
  match p with
  | .lit ds s =>
    rw [Ex.Is] at hi; subst hi
    rw [Ex.Lits] at hl
    obtain ⟨u, z, h1, _, _, h2⟩ := lit_value (σ := σ) (κ := fun _ _ => none) (Γ := Γ) (ρ := fun _ => .bool false) ds s hl.1 hl.2.1 hl.2.2
    rw [treeV, evalO]
    show (constant (litText ds s)).map (·.1) = _
    rw [h1] at ht
    cases ht
    rw [h2]
    rfl
  | .const b => rw [Ex.Is] at hi; subst hi; rw [Ex.type] at ht; cases ht; rw [treeV, evalO]; rfl
  | .var x => rw [Ex.Is] at hi; subst hi; rw [Ex.type] at ht; rw [treeV, evalO]; exact h x τ ht
  | .neg a =>
    rw [Ex.Is] at hi; rw [Ex.type] at ht; rw [Ex.Lits] at hl; rw [Ex.Uses] at hu
    obtain ⟨u, rfl, h1⟩ := hi
    obtain ⟨s, h2, h3, rfl⟩ := tNeg_some ht
    rw [treeV, types_ex hs K Γ tenv h a hu hl u h1 _ h2]
    show (unT .neg (.int s)).map (·.1) = _
    simp [unT, Ty.p]
  | .not a =>
    rw [Ex.Is] at hi; rw [Ex.type] at ht; rw [Ex.Lits] at hl; rw [Ex.Uses] at hu
    obtain ⟨u, rfl, h1⟩ := hi
    obtain ⟨h2, rfl⟩ := tNot_some ht
    rw [treeV, types_ex hs K Γ tenv h a hu hl u h1 _ h2]
    rfl
  | .arith o a b =>
    rw [Ex.Is] at hi; rw [Ex.type] at ht; rw [Ex.Lits] at hl; rw [Ex.Uses] at hu
    obtain ⟨u, v, rfl, h1, h2⟩ := hi
    obtain ⟨s, w, h3, h4, rfl⟩ := tArith_some ht
    rw [treeV, types_ex hs K Γ tenv h a hu.1 hl.1 u h1 _ h3, types_ex hs K Γ tenv h b hu.2 hl.2 v h2 _ h4]
    simp only [Option.bind_some, Ty.p]
    rw [tySem_bin, meet_int]
    simp only [Option.bind_some, castable_int, binOp_arith, arith_type]
  | .rel o a b =>
    rw [Ex.Is] at hi; rw [Ex.type] at ht; rw [Ex.Lits] at hl; rw [Ex.Uses] at hu
    obtain ⟨u, v, rfl, h1, h2⟩ := hi
    obtain ⟨s, w, h3, h4, rfl⟩ := tRel_some ht
    rw [treeV, types_ex hs K Γ tenv h a hu.1 hl.1 u h1 _ h3, types_ex hs K Γ tenv h b hu.2 hl.2 v h2 _ h4]
    simp only [Option.bind_some, Ty.p]
    rw [tySem_bin, meet_int]
    simp only [Option.bind_some, castable_int, binOp_rel, rel_type]
  | .and a b =>
    rw [Ex.Is] at hi; rw [Ex.type] at ht; rw [Ex.Lits] at hl; rw [Ex.Uses] at hu
    obtain ⟨u, v, rfl, h1, h2⟩ := hi
    obtain ⟨h3, h4, rfl⟩ := tLogic_some ht
    rw [treeV, types_ex hs K Γ tenv h a hu.1 hl.1 u h1 _ h3, types_ex hs K Γ tenv h b hu.2 hl.2 v h2 _ h4]
    rfl
  | .or a b =>
    rw [Ex.Is] at hi; rw [Ex.type] at ht; rw [Ex.Lits] at hl; rw [Ex.Uses] at hu
    obtain ⟨u, v, rfl, h1, h2⟩ := hi
    obtain ⟨h3, h4, rfl⟩ := tLogic_some ht
    rw [treeV, types_ex hs K Γ tenv h a hu.1 hl.1 u h1 _ h3, types_ex hs K Γ tenv h b hu.2 hl.2 v h2 _ h4]
    rfl
  | .pick c a b =>
    rw [Ex.Is] at hi; rw [Ex.type] at ht; rw [Ex.Lits] at hl; rw [Ex.Uses] at hu
    obtain ⟨w, u, v, rfl, h0, h1, h2⟩ := hi
    obtain ⟨h3, h4⟩ := tPick_some ht
    rcases h4 with ⟨s, s', h4, h5, rfl⟩ | ⟨h4, h5, rfl⟩
    · rw [treeV, types_ex hs K Γ tenv h c hu.1 hl.1 w h0 _ h3, types_ex hs K Γ tenv h a hu.2.1 hl.2.1 u h1 _ h4, types_ex hs K Γ tenv h b hu.2.2 hl.2.2 v h2 _ h5]
      simp only [Option.bind_some, Ty.p]
      rw [tySem_sel, meet_int]
      simp only [Option.bind_some, castable_int]
      rfl
    · rw [treeV, types_ex hs K Γ tenv h c hu.1 hl.1 w h0 _ h3, types_ex hs K Γ tenv h a hu.2.1 hl.2.1 u h1 _ h4, types_ex hs K Γ tenv h b hu.2.2 hl.2.2 v h2 _ h5]
      rfl
  | .call f as =>
    rw [Ex.Is] at hi; rw [Ex.type] at ht; rw [Ex.Lits] at hl; rw [Ex.Uses] at hu
    obtain ⟨es, rfl, h1⟩ := hi
    obtain ⟨q, us, h2, h3, h4, rfl⟩ := tCall_some ht
    obtain ⟨g1, g2⟩ := hs f hu.1
    rw [treeV, evalO, types_exs hs K Γ tenv h as hu.2 hl es h1 us h3]
    simp only [Option.bind_some]
    rw [g1]
    simp only
    rw [tySem_call, g2, h2]
    simp only [Option.map_some, Option.bind_some]
    rw [castables_p σm K h4]
    rfl
theorem types_exs {inl : Inline} {P : Name → Prop} {σ : Sigs} {σm : MSigs} (hs : SigsOk inl P σ σm) (K : MCalls) (Γ : Types) (tenv : Name → Option PTy) (h : TypesOk Γ tenv) (p : Exs)
    (hu : p.Uses P) (hl : p.Lits) (es : Exprs) (hi : p.Are es) (us : List Ty) (ht : p.types σ Γ = some us) : evalEs inl (tySem (rt σm K) tenv) es = some (us.map Ty.p) := by
  match p with
  | .nil => rw [Exs.Are] at hi; subst hi; rw [Exs.types] at ht; cases ht; rw [evalEs]; rfl
  | .cons a as =>
    rw [Exs.Are] at hi; rw [Exs.Lits] at hl; rw [Exs.Uses] at hu
    obtain ⟨e, es', rfl, h1, h2⟩ := hi
    obtain ⟨t, ts, h3, h4, rfl⟩ := types_cons ht
    rw [evalEs, eval_tree, types_ex hs K Γ tenv h a hu.1 hl.1 _ h1 t h3, types_exs hs K Γ tenv h as hu.2 hl.2 es' h2 ts h4]
    rfl
end

/-! ## Values of the code -/

/-- The code sees the variables as the specification does. -/
def EnvOk (Γ : Types) (ρ : Store) (env : Env PTy Int) : Prop := ∀ x t, Γ x = some t → env x = some (t.p, (ρ x).enc)

/-- Calls by the code do what they should. -/
def CallsAgree (P : Name → Prop) (σ : Sigs) (κ : Calls) (K : MCalls) : Prop := ∀ f, P f → ∀ s, σ f = some s → ∀ args, HasAll args s.1 → K f (args.map Val.enc) = (κ f args).map Val.enc

def tvs : List Ty → List Val → List (TV PTy Int)
  | t :: ts, v :: vs => (t.p, v.enc) :: tvs ts vs
  | _, _ => []

theorem castTV_p {t u : Ty} {v : Val} (h : v.Has u) (hc : converts t u = true) : castTV ints t.p (u.p, v.enc) = (conv t v).map Val.enc := by
  match t, u with
  | .bool, .bool => obtain ⟨b, rfl⟩ := has_bool h; rfl
  | .bool, .int _ => cases hc
  | .int _, .bool => cases hc
  | .int t, .int u => obtain ⟨z, rfl, hz⟩ := has_int h; exact castTV_int u t z hz

theorem castsTV_p (σm : MSigs) (K : MCalls) : ∀ {ts us : List Ty} {vs : List Val}, HasAll vs us → convertsAll ts us = true →
    castsTV (rt σm K) (ts.map Ty.p) (tvs us vs) = (convs ts vs).map (·.map Val.enc)
  | [], [], [], _, _ => rfl
  | [], _ :: _, _, _, h => by cases h
  | _ :: _, [], _, _, h => by cases h
  | [], [], _ :: _, h, _ => h.elim
  | _ :: _, _ :: _, [], h, _ => h.elim
  | t :: ts, u :: us, v :: vs, h, hc => by
    rw [convertsAll, Bool.and_eq_true] at hc
    rw [HasAll] at h
    simp only [List.map_cons, tvs, castsTV, convs]
    rw [rt_castTV, castTV_p h.1 hc.1, castsTV_p σm K h.2 hc.2]
    cases conv t v with
    | none => rfl
    | some w => cases convs ts vs <;> rfl

theorem callTV_rt (σm : MSigs) (K : MCalls) (f : Name) (s : List PTy × PTy) (h : σm f = some s) (vs : List (TV PTy Int)) :
    callTV (rt σm K) f vs = M.lift ((castsTV (rt σm K) s.1 vs).bind fun xs => (K f xs).map fun v => (s.2, v)) := by
  funext w
  unfold callTV M.lift
  show (((σm f).map _).bind _) = _
  rw [h]
  simp only [Option.map_some, Option.bind_some]
  cases castsTV (rt σm K) s.1 vs with
  | none => rfl
  | some xs => simp only [Option.bind_some]; cases K f xs <;> rfl

mutual
theorem value_ex {inl : Inline} {P : Name → Prop} {σ : Sigs} {σm : MSigs} (hs : SigsOk inl P σ σm) {κ : Calls} (hκ : CallsOk σ κ) {K : MCalls} (hK : CallsAgree P σ κ K) {Γ : Types} {ρ : Store}
    (hf : Fit Γ ρ) (env : Env PTy Int) (he : EnvOk Γ ρ env) (p : Ex) (hu : p.Uses P) (hl : p.Lits) (hg : p.Guarded) (t : Tree) (hi : p.Is t) (τ : Ty) (ht : p.type σ Γ = some τ) :
    treeM (rt σm K) inl env t = M.lift ((p.value σ κ Γ ρ).map fun v => (τ.p, v.enc)) := by
  have num : ∀ (a : Ex) (v : Val) (t : IntTy), a.Lits → a.type σ Γ = some (.int t) → a.value σ κ Γ ρ = some v → ∃ z, v = .int z ∧ IntOps.Fits t z := fun a v t hl h1 h2 =>
    has_int (has_ex hκ hf a hl _ h1 v h2)
  have boo : ∀ (a : Ex) (v : Val), a.Lits → a.type σ Γ = some .bool → a.value σ κ Γ ρ = some v → ∃ z, v = .bool z := fun a v hl h1 h2 => has_bool (has_ex hκ hf a hl _ h1 v h2)
  match p with
  | .lit ds s =>
    rw [Ex.Is] at hi; subst hi
    rw [Ex.Lits] at hl
    obtain ⟨u, z, h1, h2, _, h3⟩ := lit_value (σ := σ) (κ := κ) (Γ := Γ) (ρ := ρ) ds s hl.1 hl.2.1 hl.2.2
    rw [treeM, eagerO]
    show M.lift (constant (litText ds s)) = _
    rw [h1] at ht
    cases ht
    rw [h2, h3]
    rfl
  | .const b => rw [Ex.Is] at hi; subst hi; rw [Ex.type] at ht; cases ht; rw [treeM, eagerO, Ex.value]; rfl
  | .var x => rw [Ex.Is] at hi; subst hi; rw [Ex.type] at ht; rw [treeM, eagerO, Ex.value, he x τ ht]; rfl
  | .neg a =>
    rw [Ex.Is] at hi; rw [Ex.type] at ht; rw [Ex.Lits] at hl; rw [Ex.Uses] at hu; rw [Ex.Guarded] at hg
    obtain ⟨u, rfl, h1⟩ := hi
    obtain ⟨s, h2, h3, rfl⟩ := tNeg_some ht
    rw [treeM, value_ex hs hκ hK hf env he a hu hl hg u h1 _ h2, Ex.value]
    cases hv : a.value σ κ Γ ρ with
    | none => rw [h2]; rfl
    | some v =>
      obtain ⟨z, rfl, hz⟩ := num a v s hl h2 hv
      rw [h2]
      simp only [Option.map_some, M.lift_some, vNeg]
      rw [rt_unTV]
      simp only [Ty.p, Val.enc]
      rw [negTV s h3 z hz]
  | .not a =>
    rw [Ex.Is] at hi; rw [Ex.type] at ht; rw [Ex.Lits] at hl; rw [Ex.Uses] at hu; rw [Ex.Guarded] at hg
    obtain ⟨u, rfl, h1⟩ := hi
    obtain ⟨h2, rfl⟩ := tNot_some ht
    rw [treeM, value_ex hs hκ hK hf env he a hu hl hg u h1 _ h2, Ex.value]
    cases hv : a.value σ κ Γ ρ with
    | none => rfl
    | some v =>
      obtain ⟨z, rfl⟩ := boo a v hl h2 hv
      simp only [Option.map_some, M.lift_some, vNot]
      rw [rt_unTV]
      simp only [Ty.p, Val.enc]
      rw [notTV]
  | .arith o a b =>
    rw [Ex.Is] at hi; rw [Ex.type] at ht; rw [Ex.Lits] at hl; rw [Ex.Uses] at hu; rw [Ex.Guarded] at hg
    obtain ⟨u, v, rfl, h1, h2⟩ := hi
    rw [Ex.value, ht]
    obtain ⟨s, w, h3, h4, rfl⟩ := tArith_some ht
    rw [treeM, value_ex hs hκ hK hf env he a hu.1 hl.1 hg.1 u h1 _ h3, value_ex hs hκ hK hf env he b hu.2 hl.2 hg.2 v h2 _ h4]
    cases hv : a.value σ κ Γ ρ with
    | none => rfl
    | some x =>
      obtain ⟨x, rfl, hx⟩ := num a x s hl.1 h3 hv
      cases hw : b.value σ κ Γ ρ with
      | none => rfl
      | some y =>
        obtain ⟨y, rfl, hy⟩ := num b y w hl.2 h4 hw
        simp only [Option.map_some, M.lift_some, vArith]
        rw [rt_binTV]
        simp only [Ty.p, Val.enc]
        rw [arithTV o s w x y hx hy]
        cases o.calc (wider s w) (Pipeline.wrap (wider s w) x) (Pipeline.wrap (wider s w) y) <;> rfl
  | .rel o a b =>
    rw [Ex.Is] at hi; rw [Ex.type] at ht; rw [Ex.Lits] at hl; rw [Ex.Uses] at hu; rw [Ex.Guarded] at hg
    obtain ⟨u, v, rfl, h1, h2⟩ := hi
    obtain ⟨s, w, h3, h4, rfl⟩ := tRel_some ht
    rw [Ex.value, h3, h4]
    rw [treeM, value_ex hs hκ hK hf env he a hu.1 hl.1 hg.1 u h1 _ h3, value_ex hs hκ hK hf env he b hu.2 hl.2 hg.2 v h2 _ h4]
    cases hv : a.value σ κ Γ ρ with
    | none => rfl
    | some x =>
      obtain ⟨x, rfl, hx⟩ := num a x s hl.1 h3 hv
      cases hw : b.value σ κ Γ ρ with
      | none => rfl
      | some y =>
        obtain ⟨y, rfl, hy⟩ := num b y w hl.2 h4 hw
        simp only [Option.map_some, M.lift_some, vRel, tArith]
        rw [rt_binTV]
        simp only [Ty.p, Val.enc]
        rw [relTV o s w x y hx hy]
  | .and a b =>
    rw [Ex.Is] at hi; rw [Ex.type] at ht; rw [Ex.Lits] at hl; rw [Ex.Uses] at hu; rw [Ex.Guarded] at hg
    obtain ⟨u, v, rfl, h1, h2⟩ := hi
    obtain ⟨h3, h4, rfl⟩ := tLogic_some ht
    rw [Ex.value, treeM, value_ex hs hκ hK hf env he a hu.1 hl.1 hg.1 u h1 _ h3, value_ex hs hκ hK hf env he b hu.2 hl.2 (safe_guarded b hg.2) v h2 _ h4]
    obtain ⟨y, hw⟩ := safe_ex (κ := κ) hκ hf b hl.2 hg.2 _ h4
    obtain ⟨y, rfl⟩ := boo b y hl.2 h4 hw
    rw [hw]
    cases hv : a.value σ κ Γ ρ with
    | none => rfl
    | some x =>
      obtain ⟨x, rfl⟩ := boo a x hl.1 h3 hv
      simp only [Option.map_some, M.lift_some]
      rw [rt_binTV]
      simp only [Ty.p, Val.enc]
      rw [andTV]
      cases x <;> rfl
  | .or a b =>
    rw [Ex.Is] at hi; rw [Ex.type] at ht; rw [Ex.Lits] at hl; rw [Ex.Uses] at hu; rw [Ex.Guarded] at hg
    obtain ⟨u, v, rfl, h1, h2⟩ := hi
    obtain ⟨h3, h4, rfl⟩ := tLogic_some ht
    rw [Ex.value, treeM, value_ex hs hκ hK hf env he a hu.1 hl.1 hg.1 u h1 _ h3, value_ex hs hκ hK hf env he b hu.2 hl.2 (safe_guarded b hg.2) v h2 _ h4]
    obtain ⟨y, hw⟩ := safe_ex (κ := κ) hκ hf b hl.2 hg.2 _ h4
    obtain ⟨y, rfl⟩ := boo b y hl.2 h4 hw
    rw [hw]
    cases hv : a.value σ κ Γ ρ with
    | none => rfl
    | some x =>
      obtain ⟨x, rfl⟩ := boo a x hl.1 h3 hv
      simp only [Option.map_some, M.lift_some]
      rw [rt_binTV]
      simp only [Ty.p, Val.enc]
      rw [orTV]
      cases x <;> rfl
  | .pick c a b =>
    rw [Ex.Is] at hi; rw [Ex.type] at ht; rw [Ex.Lits] at hl; rw [Ex.Uses] at hu; rw [Ex.Guarded] at hg
    obtain ⟨w, u, v, rfl, h0, h1, h2⟩ := hi
    rw [Ex.value, ht]
    obtain ⟨h3, h4⟩ := tPick_some ht
    rcases h4 with ⟨s, s', h4, h5, rfl⟩ | ⟨h4, h5, rfl⟩
    · rw [treeM, value_ex hs hκ hK hf env he c hu.1 hl.1 hg.1 w h0 _ h3, value_ex hs hκ hK hf env he a hu.2.1 hl.2.1 (safe_guarded a hg.2.1) u h1 _ h4,
        value_ex hs hκ hK hf env he b hu.2.2 hl.2.2 (safe_guarded b hg.2.2) v h2 _ h5]
      obtain ⟨x, hx⟩ := safe_ex (κ := κ) hκ hf a hl.2.1 hg.2.1 _ h4
      obtain ⟨x, rfl, hxf⟩ := num a x s hl.2.1 h4 hx
      obtain ⟨y, hy⟩ := safe_ex (κ := κ) hκ hf b hl.2.2 hg.2.2 _ h5
      obtain ⟨y, rfl, hyf⟩ := num b y s' hl.2.2 h5 hy
      rw [hx, hy]
      cases hv : c.value σ κ Γ ρ with
      | none => rfl
      | some z =>
        obtain ⟨z, rfl⟩ := boo c z hl.1 h3 hv
        simp only [Option.map_some, M.lift_some]
        rw [rt_selTV]
        simp only [Ty.p, Val.enc]
        rw [pickTV z s s' x y hxf hyf]
        cases z <;> rfl
    · rw [treeM, value_ex hs hκ hK hf env he c hu.1 hl.1 hg.1 w h0 _ h3, value_ex hs hκ hK hf env he a hu.2.1 hl.2.1 (safe_guarded a hg.2.1) u h1 _ h4,
        value_ex hs hκ hK hf env he b hu.2.2 hl.2.2 (safe_guarded b hg.2.2) v h2 _ h5]
      obtain ⟨x, hx⟩ := safe_ex (κ := κ) hκ hf a hl.2.1 hg.2.1 _ h4
      obtain ⟨x, rfl⟩ := boo a x hl.2.1 h4 hx
      obtain ⟨y, hy⟩ := safe_ex (κ := κ) hκ hf b hl.2.2 hg.2.2 _ h5
      obtain ⟨y, rfl⟩ := boo b y hl.2.2 h5 hy
      rw [hx, hy]
      cases hv : c.value σ κ Γ ρ with
      | none => rfl
      | some z =>
        obtain ⟨z, rfl⟩ := boo c z hl.1 h3 hv
        simp only [Option.map_some, M.lift_some]
        rw [rt_selTV]
        simp only [Ty.p, Val.enc]
        rw [pick_bool]
        cases z <;> rfl
  | .call f as =>
    rw [Ex.Is] at hi; rw [Ex.type] at ht; rw [Ex.Lits] at hl; rw [Ex.Uses] at hu; rw [Ex.Guarded] at hg
    obtain ⟨es, rfl, h1⟩ := hi
    obtain ⟨q, us, h2, h3, h4, rfl⟩ := tCall_some ht
    obtain ⟨g1, g2⟩ := hs f hu.1
    rw [h2] at g2
    rw [treeM, eagerO, value_exs hs hκ hK hf env he as hu.2 hl hg es h1 us h3, Ex.value, h2, g1]
    cases hv : as.values σ κ Γ ρ with
    | none => rfl
    | some vs =>
      simp only [Option.map_some, M.lift_some, Option.bind_some]
      rw [callTV_rt σm K f _ g2, castsTV_p σm K (has_exs hκ hf as hl us h3 vs hv) h4]
      cases hx : convs q.1 vs with
      | none => rfl
      | some xs =>
        simp only [Option.map_some, Option.bind_some]
        rw [hK f hu.1 q h2 xs (convs_has hx)]
        cases κ f xs <;> rfl
theorem value_exs {inl : Inline} {P : Name → Prop} {σ : Sigs} {σm : MSigs} (hs : SigsOk inl P σ σm) {κ : Calls} (hκ : CallsOk σ κ) {K : MCalls} (hK : CallsAgree P σ κ K) {Γ : Types} {ρ : Store}
    (hf : Fit Γ ρ) (env : Env PTy Int) (he : EnvOk Γ ρ env) (p : Exs) (hu : p.Uses P) (hl : p.Lits) (hg : p.Guarded) (es : Exprs) (hi : p.Are es) (us : List Ty)
    (ht : p.types σ Γ = some us) : eagerEs (rt σm K) inl env es = M.lift ((p.values σ κ Γ ρ).map fun vs => tvs us vs) := by
  match p with
  | .nil => rw [Exs.Are] at hi; subst hi; rw [Exs.types] at ht; cases ht; rw [eagerEs, Exs.values]; rfl
  | .cons a as =>
    rw [Exs.Are] at hi; rw [Exs.Lits] at hl; rw [Exs.Uses] at hu; rw [Exs.Guarded] at hg
    obtain ⟨e, es', rfl, h1, h2⟩ := hi
    obtain ⟨t, ts, h3, h4, rfl⟩ := types_cons ht
    rw [eagerEs, eager_tree, value_ex hs hκ hK hf env he a hu.1 hl.1 hg.1 _ h1 t h3, value_exs hs hκ hK hf env he as hu.2 hl.2 hg.2 es' h2 ts h4, Exs.values]
    cases a.value σ κ Γ ρ with
    | none => rfl
    | some v => cases as.values σ κ Γ ρ <;> rfl
end

end Verif.Comp.Script
