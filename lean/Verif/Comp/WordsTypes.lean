import Verif.Comp.WordsLemmas
/-! # C162: types in the specification, in validation and in the compiled code -/
namespace Verif.Comp.Words
open Verif.Ast Verif.Ast.Rpn Verif.Gen Verif.Gen.Scalar Verif.Types.Conv Verif.Types.Str
open Verif.Comp.Pipeline (Arith Rel decimal bit treeM treeV eager_tree eval_tree)
open Verif.Comp.StrLit (bytes)
open Verif.Comp.Script (Tree.PlainT plain_of_tree arith_plain rel_plain)
open Verif.Comp.Real (Fpu Fn1 Fn2 Suf PTy MV fracText withSuffix Small)

/-! ## Operations in trees -/

def Op1.sem {V : Type} (o : Op1) (m : Sem V) (a : V) : Option V :=
  match o with
  | .neg => m.un .neg a
  | .not => m.un .not a
  | .fn f => m.inl f.name [a]
def Op2.sem {V : Type} (o : Op2) (m : Sem V) (a b : V) : Option V :=
  match o with
  | .arith o => m.bin o.sign a b
  | .rel o => m.bin o.sign a b
  | .fn f => m.inl f.name [a, b]

theorem op1_tree {V : Type} (m : Sem V) {o : Op1} {t u : Tree} (h : o.Is t u) : treeV Real.arity m (undotT t) = (treeV Real.arity m (undotT u)).bind (o.sem m) := by
  cases o with
  | neg => cases h; rfl
  | not => cases h; rfl
  | fn f =>
    obtain ⟨x, rfl, rfl⟩ := h
    rw [← undot_tree]
    exact Real.call1 m f (undotE x)

theorem op2_tree {V : Type} (m : Sem V) {o : Op2} {t u v : Tree} (h : o.Is t u v) :
    treeV Real.arity m (undotT t) = (treeV Real.arity m (undotT u)).bind fun a => (treeV Real.arity m (undotT v)).bind fun b => o.sem m a b := by
  cases o with
  | arith o => cases h; rfl
  | rel o => cases h; rfl
  | fn f =>
    obtain ⟨x, y, rfl, rfl, rfl⟩ := h
    rw [← undot_tree, ← undot_tree]
    exact Real.call2 m f (undotE x) (undotE y)

theorem size_tree {V : Type} (m : Sem V) (x : Name) : treeV Real.arity m (undotT (.atom (.access x (.cons (.method "size".toList .nil) .nil)))) =
    (m.var x).bind fun a => m.call ('.' :: "size".toList) [a] := by
  rw [undotT, undotO, undotM, undotEs, treeV, evalO, evalEs, evalEs, evalE, evalO, arity_size]
  cases m.var x <;> rfl

theorem ask_tree {V : Type} (m : Sem V) (a : Ask) (x : Name) (e : Expr) : treeV Real.arity m (undotT (.atom (.access x (.cons (.method a.name (.cons e .nil)) .nil)))) =
    (m.var x).bind fun s => (treeV Real.arity m (undotT e.toTree)).bind fun p => m.call ('.' :: a.name) [s, p] := by
  rw [undotT, undotO, undotM, undotEs, undotEs, treeV, evalO, evalEs, evalEs, evalEs, evalE, evalO, arity_ask, eval_tree, undot_tree]
  cases m.var x with
  | none => rfl
  | some s => cases treeV Real.arity m (undotT e.toTree) <;> rfl

/-! ## Types of operations -/

/-- What validation (`pr`) and code generation (`ty`) say about something of the type `o`. -/
def Seen (o : Option Ty) (pr ty : Option PTy) : Prop :=
  match o with
  | some τ => ty = some τ.p ∧ pr = some τ.p
  | none => pr = none ∨ ty = none

section
variable (fpu : Fpu) (junk : Types.Str.Val) (tenv : Name → Option PTy)

theorem seen_op1 (o : Op1) (t : Real.Ty) : Seen ((o.type t).map .num) (o.sem (vSem fpu tenv) t.p) (o.sem (tySem (rt fpu junk) tenv) t.p) := by
  cases o with
  | neg =>
    simp only [Op1.sem, ty_un]
    cases t with
    | bool => exact .inl rfl
    | int t =>
      by_cases hs : t.signed = true
      · simp only [Op1.type, hs, if_true]; exact ⟨rfl, by show Real.vUn .neg (.int t) = _; simp [Real.vUn, hs]; rfl⟩
      · simp only [Op1.type, hs]; exact .inl (by show Real.vUn .neg (.int t) = _; simp [Real.vUn, hs])
    | flt F => exact ⟨rfl, rfl⟩
  | not =>
    simp only [Op1.sem, ty_un]
    cases t with
    | bool => exact ⟨rfl, rfl⟩
    | int t => exact .inl rfl
    | flt F => exact .inl rfl
  | fn f =>
    have e : (vSem fpu tenv).inl f.name [t.p] = Real.vInl f.name [t.p] := if_neg (by simp [Ne.symm (p_ne t)])
    simp only [Op1.sem, ty_inl, e]
    have h1 : (tySem (Real.rt fpu) tenv).inl f.name [t.p] = _ := Real.inl1 fpu f t
    rw [h1]
    simp only [Op1.type, Real.vInl, Real.name1, Option.bind_some, Real.registered1_for]
    by_cases hf : f.for t = true
    · rw [if_pos hf, if_pos hf, if_pos (Real.coded1_for hf)]; exact ⟨rfl, rfl⟩
    · rw [if_neg hf, if_neg hf]; exact .inl rfl

theorem op1_str (o : Op1) : o.sem (vSem fpu tenv) .other = none := by
  cases o with
  | neg => rfl
  | not => rfl
  | fn f => rfl

theorem vBin_num (op : BinOp) {a b : PTy} (h : ¬ (a = .other ∧ b = .other)) : vBin op a b = Real.vBin op a b := if_neg fun hc => h hc.2

theorem seen_op2 (o : Op2) (s t : Real.Ty) : Seen ((o.type s t).map .num) (o.sem (vSem fpu tenv) s.p t.p) (o.sem (tySem (rt fpu junk) tenv) s.p t.p) := by
  have hb : ∀ op, (vSem fpu tenv).bin op s.p t.p = Real.vBin op s.p t.p := fun op => vBin_num op fun h => p_ne s h.1
  cases o with
  | arith o =>
    simp only [Op2.sem, ty_bin fpu junk tenv _ (p_ne s) (p_ne t), hb]
    unfold Op2.type
    cases hj : Real.join s t with
    | none => exact .inr (Real.ty_arith_none fpu tenv o hj)
    | some u => exact ⟨by rw [Real.ty_meet fpu tenv hj, Real.arith_type fpu o (Real.join_number hj).2.2]; rfl, by rw [Real.v_arith, Real.norm_p hj]; rfl⟩
  | rel o =>
    simp only [Op2.sem, ty_bin fpu junk tenv _ (p_ne s) (p_ne t), hb]
    unfold Op2.type
    cases hj : Real.join s t with
    | none => exact .inr (Real.ty_rel_none fpu tenv o hj)
    | some u => exact ⟨by rw [Real.ty_meet fpu tenv hj, Real.rel_type fpu o (Real.join_number hj).2.2]; rfl, by rw [Real.v_rel, Real.norm_p hj]; rfl⟩
  | fn f =>
    have e : (vSem fpu tenv).inl f.name [s.p, t.p] = Real.vInl f.name [s.p, t.p] := if_neg (by simp [Ne.symm (p_ne t), Ne.symm (p_ne s)])
    have e2 : (tySem (Real.rt fpu) tenv).inl f.name [s.p, t.p] = (Real.inlT fpu f.name [s.p, t.p]).map (·.1) := rfl
    simp only [Op2.sem, ty_inl, e, e2]
    unfold Op2.type
    cases hj : Real.join s t with
    | none => rw [Real.inl2_none fpu f hj]; exact .inr rfl
    | some u =>
      rw [Real.inl2_some fpu f hj]
      simp only [Real.vInl, Real.name2, Option.bind_some, Real.vMax_norm hj, Real.registered2_for]
      by_cases hf : f.for u = true
      · rw [if_pos hf, if_pos hf]; exact ⟨rfl, rfl⟩
      · rw [if_neg hf, if_neg hf]; exact .inl rfl

theorem binOp_cmp (r : Rel) {o : CmpOp} (h : cmpOf r.sign = some o) : (rt fpu junk).binOp r.sign .other = some (.bit, viewCmp o) := by
  have e : (rt fpu junk).binOp r.sign .other = (rt fpu junk).bin r.sign .other := by cases r <;> rfl
  rw [e]
  have e2 : (rt fpu junk).bin r.sign .other = (cmpOf r.sign).map fun o => (.bit, viewCmp o) := rfl
  rw [e2, h]; rfl

theorem meet_self (a : PTy) : meet (rt fpu junk) a a = some a := if_pos rfl
theorem castable_self (a : PTy) : castable (rt fpu junk) a a = some () := if_pos rfl

theorem seen_rel_str (r : Rel) : Seen (some (.num .bool)) ((vSem fpu tenv).bin r.sign .other .other) ((tySem (rt fpu junk) tenv).bin r.sign .other .other) := by
  obtain ⟨o, h, _⟩ := cmp_sign r
  refine ⟨?_, ?_⟩
  · have e : (tySem (rt fpu junk) tenv).bin r.sign .other .other = ((rt fpu junk).binOp r.sign .other).map (·.1) := rfl
    rw [e, binOp_cmp fpu junk r h]; rfl
  · show vBin r.sign .other .other = _
    unfold vBin
    rw [h]; rfl

theorem arith_cmp (o : Arith) : cmpOf o.sign = none := by cases o <;> rfl

theorem op2_str (o : Op2) {a b : PTy} (h : a = .other ∨ b = .other) (ho : ¬ (∃ r, o = .rel r) ∨ a ≠ b) : o.sem (vSem fpu tenv) a b = none := by
  cases o with
  | arith o =>
    show vBin o.sign a b = none
    unfold vBin
    rw [arith_cmp, if_neg (by simp), Real.v_arith, norm_other a b h]
  | rel r =>
    show vBin r.sign a b = none
    unfold vBin
    rw [if_neg, Real.v_rel, norm_other a b h]
    · rfl
    · rintro ⟨_, rfl, rfl⟩
      rcases ho with ho | ho
      · exact ho ⟨r, rfl⟩
      · exact ho rfl
  | fn f =>
    refine if_pos ?_
    rcases h with rfl | rfl <;> simp

theorem seen_logic (op : BinOp) (ho : op = .and ∨ op = .or) (s t : Ty) : Seen (if s = .num .bool ∧ t = .num .bool then some (.num .bool) else none)
    ((vSem fpu tenv).bin op s.p t.p) ((tySem (rt fpu junk) tenv).bin op s.p t.p) := by
  by_cases h : s = .num .bool ∧ t = .num .bool
  · rw [if_pos h]
    obtain ⟨rfl, rfl⟩ := h
    rcases ho with rfl | rfl <;> exact ⟨rfl, rfl⟩
  · rw [if_neg h]
    refine .inl ?_
    have hp : ∀ τ : Ty, τ.p = .bit → τ = .num .bool := fun τ hτ => by
      cases τ with
      | str => cases hτ
      | num t => cases t <;> first | rfl | cases hτ
    have hn : ¬ (s.p = .bit ∧ t.p = .bit) := fun hc => h ⟨hp _ hc.1, hp _ hc.2⟩
    show vBin op s.p t.p = none
    rcases ho with rfl | rfl <;> simp [vBin, cmpOf, Real.vBin, Real.fltOp, Real.fltCmp, hn]

theorem pick_self (s : Ty) : pickType s s = some s := by
  cases s with
  | str => rfl
  | num s => cases s with
    | bool => rfl
    | int t => simp only [pickType]; rw [Real.join_self (by simp)]; rfl
    | flt F => simp only [pickType]; rw [Real.join_self (by simp)]; rfl

theorem seen_pick (r s t : Ty) (he : s = t ∨ s = .str ∨ t = .str) : Seen (if r = .num .bool then pickType s t else none)
    ((vSem fpu tenv).sel r.p s.p t.p) ((tySem (rt fpu junk) tenv).sel r.p s.p t.p) := by
  have hp : r.p = .bit → r = .num .bool := fun hτ => by
    cases r with
    | str => cases hτ
    | num t => cases t <;> first | rfl | cases hτ
  by_cases hr : r = .num .bool
  · rw [if_pos hr]
    subst hr
    by_cases hst : s = t
    · subst hst
      rw [pick_self]
      refine ⟨?_, ?_⟩
      · show (if (rt fpu junk).isBit .bit = true then (meet (rt fpu junk) s.p s.p).bind _ else none) = _
        rw [if_pos (show (rt fpu junk).isBit .bit = true from rfl), meet_self]
        simp only [Option.bind_some, castable_self, Option.map_some]
      · exact if_pos ⟨rfl, .inl rfl⟩
    · have h1 : pickType s t = none := by cases s <;> cases t <;> simp [pickType] at he hst ⊢ <;> contradiction
      have h2 : s.p = .other ∨ t.p = .other := by rcases he with h | rfl | rfl <;> first | exact absurd h hst | exact .inl rfl | exact .inr rfl
      have h3 : s.p ≠ t.p := by
        cases s with
        | str => cases t with
          | str => exact absurd rfl hst
          | num t => exact (p_ne t).symm
        | num s => cases t with
          | str => exact p_ne s
          | num t => rcases h2 with h | h <;> exact absurd h (p_ne _)
      rw [h1]
      refine .inl (if_neg ?_)
      rintro ⟨_, h | h⟩
      · exact h3 h
      · rw [norm_other _ _ h2] at h; cases h
  · rw [if_neg hr]
    refine .inl (if_neg ?_)
    rintro ⟨h, _⟩
    exact hr (hp h)

theorem str_of_p {τ : Ty} (h : τ.p = .other) : τ = .str := by
  cases τ with
  | str => rfl
  | num t => exact absurd h (p_ne t)

theorem seen_size (τ : Ty) : Seen (if τ = .str then some (.num (.int .u64)) else none)
    ((vSem fpu tenv).call ('.' :: "size".toList) [τ.p]) ((tySem (rt fpu junk) tenv).call ('.' :: "size".toList) [τ.p]) := by
  by_cases h : τ = .str
  · rw [if_pos h]; subst h; exact ⟨rfl, rfl⟩
  · rw [if_neg h]
    refine .inl ?_
    cases τ with
    | str => exact absurd rfl h
    | num t => cases t <;> rfl

theorem castable_view (τ : Ty) : castable (rt fpu junk) τ.p .other = if τ = .str then some () else none := by
  by_cases h : τ = .str
  · rw [if_pos h, h]; rfl
  · rw [if_neg h]
    cases τ with
    | str => exact absurd rfl h
    | num t => cases t <;> rfl

theorem seen_ask (m : Ask) (σ τ : Ty) : Seen (if σ = .str ∧ τ = .str then some (.num .bool) else none)
    ((vSem fpu tenv).call ('.' :: m.name) [σ.p, τ.p]) ((tySem (rt fpu junk) tenv).call ('.' :: m.name) [σ.p, τ.p]) := by
  have e : (tySem (rt fpu junk) tenv).call ('.' :: m.name) [σ.p, τ.p] = (castables (rt fpu junk) [.other, .other] [σ.p, τ.p]).map fun _ => .bit := by
    show (methods.lookup ('.' :: m.name)).bind _ = _
    rw [method_ask]; rfl
  rw [e]
  simp only [castables, castable_view]
  by_cases h1 : σ = .str
  · by_cases h2 : τ = .str
    · rw [if_pos ⟨h1, h2⟩, if_pos h1, if_pos h2]
      subst h1
      refine ⟨rfl, ?_⟩
      show (methods.lookup ('.' :: m.name)).map _ = _
      rw [method_ask]; rfl
    · rw [if_neg fun h => h2 h.2, if_pos h1, if_neg h2]; exact .inr rfl
  · rw [if_neg fun h => h1 h.1, if_neg h1]; exact .inr rfl
end

/-! ## Types of expressions -/

theorem Seen.bind1 {o : Option Ty} {pr ty : Option PTy} (h : Seen o pr ty) {f : Ty → Option Ty} {g k : PTy → Option PTy} (hf : ∀ τ, Seen (f τ) (g τ.p) (k τ.p)) :
    Seen (o.bind f) (pr.bind g) (ty.bind k) := by
  cases o with
  | none => rcases h with h | h <;> rw [h]; exact .inl rfl; exact .inr rfl
  | some τ => rw [h.1, h.2]; exact hf τ

theorem Seen.bind2 {o o' : Option Ty} {pr ty pr' ty' : Option PTy} (h : Seen o pr ty) (h' : Seen o' pr' ty') {f : Ty → Ty → Option Ty} {g k : PTy → PTy → Option PTy}
    (hf : ∀ σ τ, o = some σ → o' = some τ → Seen (f σ τ) (g σ.p τ.p) (k σ.p τ.p)) :
    Seen (o.bind fun σ => o'.bind fun τ => f σ τ) (pr.bind fun a => pr'.bind fun b => g a b) (ty.bind fun a => ty'.bind fun b => k a b) := by
  cases o with
  | none => rcases h with h | h <;> rw [h]; exact .inl rfl; exact .inr rfl
  | some σ =>
    rw [h.1, h.2]
    cases o' with
    | none => rcases h' with h' | h' <;> rw [h']; exact .inl rfl; exact .inr rfl
    | some τ => rw [h'.1, h'.2]; exact hf σ τ rfl rfl

/-- Validation and code generation know the types of the specification. -/
theorem seen_ex (fpu : Fpu) (junk : Types.Str.Val) (Γ : Types) (tenv : Name → Option PTy) (henv : ∀ x, tenv x = (Γ x).map Ty.p) (p : Ex) (hl : p.Lits fpu) (hv : p.Even Γ) :
    ∀ t, p.Is t → Seen (p.type Γ) (treeV Real.arity (vSem fpu tenv) (undotT t)) (treeV Real.arity (tySem (rt fpu junk) tenv) (undotT t)) := by
  have hvar : ∀ x, Seen (Γ x) (tenv x) (tenv x) := fun x => by
    rw [henv x]
    cases Γ x with
    | none => exact .inl rfl
    | some τ => exact ⟨rfl, rfl⟩
  have hnum : ∀ (t : List Char) (τ : Real.Ty) (v : Real.Val), Real.constant fpu t = some (τ.p, v.enc) →
      Seen (some (.num τ)) (treeV Real.arity (vSem fpu tenv) (undotT (.atom (.num t)))) (treeV Real.arity (tySem (rt fpu junk) tenv) (undotT (.atom (.num t)))) := fun t τ v h => by
    refine ⟨?_, ?_⟩
    · show ((Real.constant fpu t).map _).map _ = _
      rw [h]; rfl
    · show (Real.constant fpu t).map _ = _
      rw [h]; rfl
  induction p with
  | text s => rintro t rfl; exact ⟨rfl, rfl⟩
  | lit ds s =>
    rintro t rfl
    obtain ⟨τ, v, h1, _, _, h2⟩ := Real.constant_lit fpu (fun _ => none) (fun _ => none) ds s hl
    rw [Ex.type, h1]
    exact hnum _ τ v h2
  | frac ip fp s =>
    rintro t rfl
    obtain ⟨τ, v, h1, _, _, h2⟩ := Real.constant_frac fpu (fun _ => none) (fun _ => none) ip fp s hl
    rw [Ex.type, h1]
    exact hnum _ τ v h2
  | const b => rintro t rfl; exact ⟨rfl, rfl⟩
  | var x => intro t ht; rw [var_is ht]; exact hvar x
  | op1 o a ih =>
    rintro t ⟨u, h1, h2⟩
    rw [op1_tree _ h1, op1_tree _ h1, Ex.type]
    refine (ih hl hv u h2).bind1 fun τ => ?_
    cases τ with
    | num t => exact seen_op1 fpu junk tenv o t
    | str => exact .inl (op1_str fpu tenv o)
  | op2 o a b iha ihb =>
    rintro t ⟨u, v, h1, h2, h3⟩
    rw [op2_tree _ h1, op2_tree _ h1, Ex.type]
    refine (iha hl.1 hv.1 u h2).bind2 (ihb hl.2 hv.2 v h3) fun σ τ _ _ => ?_
    cases σ with
    | num s => cases τ with
      | num t => exact seen_op2 fpu junk tenv o s t
      | str => exact .inl (op2_str fpu tenv o (.inr rfl) (.inr (p_ne s)))
    | str => cases τ with
      | num t => exact .inl (op2_str fpu tenv o (.inl rfl) (.inr (p_ne t).symm))
      | str => cases o with
        | rel r => exact seen_rel_str fpu junk tenv r
        | arith o => exact .inl (op2_str fpu tenv _ (.inl rfl) (.inl (by simp)))
        | fn f => exact .inl (op2_str fpu tenv _ (.inl rfl) (.inl (by simp)))
  | and a b iha ihb =>
    rintro t ⟨u, v, rfl, h1, h2⟩
    rw [Ex.type]
    exact (iha hl.1 hv.1 u h1).bind2 (ihb hl.2 hv.2 v h2) fun σ τ _ _ => seen_logic fpu junk tenv .and (.inl rfl) σ τ
  | or a b iha ihb =>
    rintro t ⟨u, v, rfl, h1, h2⟩
    rw [Ex.type]
    exact (iha hl.1 hv.1 u h1).bind2 (ihb hl.2 hv.2 v h2) fun σ τ _ _ => seen_logic fpu junk tenv .or (.inr rfl) σ τ
  | pick c a b ihc iha ihb =>
    rintro t ⟨w, u, v, rfl, h0, h1, h2⟩
    rw [Ex.type]
    refine (ihc hl.1 hv.1 w h0).bind1 (g := fun z => (treeV Real.arity (vSem fpu tenv) (undotT u)).bind fun x => (treeV Real.arity (vSem fpu tenv) (undotT v)).bind fun y => (vSem fpu tenv).sel z x y)
      (k := fun z => (treeV Real.arity (tySem (rt fpu junk) tenv) (undotT u)).bind fun x => (treeV Real.arity (tySem (rt fpu junk) tenv) (undotT v)).bind fun y => (tySem (rt fpu junk) tenv).sel z x y)
      fun ρ => ?_
    refine (iha hl.2.1 hv.2.1 u h1).bind2 (ihb hl.2.2 hv.2.2.1 v h2) fun σ τ hσ hτ => seen_pick fpu junk tenv ρ σ τ ?_
    have := hv.2.2.2
    rw [hσ, hτ] at this
    simpa using this
  | size x =>
    intro t ht
    rw [size_is ht, size_tree, size_tree, Ex.type]
    have := (hvar x).bind1 (f := fun τ => if τ = .str then some (Ty.num (.int .u64)) else none) (g := fun a => (vSem fpu tenv).call _ [a]) (k := fun a => (tySem (rt fpu junk) tenv).call _ [a]) fun τ => seen_size fpu junk tenv τ
    rwa [show ((Γ x).bind fun τ => if τ = .str then some (Ty.num (.int .u64)) else none) = if Γ x = some .str then some (Ty.num (.int .u64)) else none from by cases Γ x <;> simp] at this
  | ask m x a ih =>
    intro t ht
    obtain ⟨e, ht, h⟩ := ask_is ht
    rw [ht, ask_tree, ask_tree, Ex.type]
    have := (hvar x).bind2 (ih hl hv _ h) (f := fun σ τ => if σ = .str ∧ τ = .str then some (Ty.num .bool) else none) (g := fun a b => (vSem fpu tenv).call _ [a, b])
      (k := fun a b => (tySem (rt fpu junk) tenv).call _ [a, b]) fun σ τ _ _ => seen_ask fpu junk tenv m σ τ
    rwa [show ((Γ x).bind fun σ => (a.type Γ).bind fun τ => if σ = .str ∧ τ = .str then some (Ty.num .bool) else none) = if Γ x = some .str ∧ a.type Γ = some .str then some (Ty.num .bool) else none from by
      cases Γ x <;> cases a.type Γ <;> simp] at this

end Verif.Comp.Words
