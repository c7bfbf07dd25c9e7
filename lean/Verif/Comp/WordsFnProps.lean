import Verif.Comp.WordsFn
/-!
# Compiled functions with strings do what their statements say: C163
-/
namespace Verif.Comp.WordsFn
open Verif.Ast hiding Ty
open Verif.Ast.Rpn Verif.Gen Verif.Gen.Scalar Verif.Types.Conv
open Verif.Comp.Pipeline (Arith suffixText bit treeM treeV eager_tree eval_tree decimal)
open Verif.Comp.Real (Fpu MV arity sufTypes normT paramVars)
open Verif.Comp.Words hiding Out
open Verif.Comp.Script (Tree.PlainT plain_of_tree NameOk)
open Verif.Comp.Function (mark marks markElifs markElse tag Tree.has vars_tree bare_tree)

/-! ## Lemmas: names in expressions -/

theorem bare_ex (p : Ex) (e : Expr) (he : p.Is e.toTree) (h : isVar p = false) : BareE (undotE e) = false := by
  cases hb : BareE (undotE e) with
  | false => rfl
  | true =>
    obtain ⟨n, hn⟩ := bare_tree _ hb
    rw [undot_tree] at hn
    exfalso
    generalize e.toTree = t at he hn
    cases p with
    | text s => subst he; simp [undotT, undotO] at hn
    | lit ds s => subst he; simp [undotT, undotO] at hn
    | frac ip fp s => subst he; simp [undotT, undotO] at hn
    | const b => subst he; simp [undotT, undotO] at hn
    | var x => cases h
    | op1 o a =>
      obtain ⟨u, ho, _⟩ := he
      cases o with
      | neg => cases ho; cases hn
      | not => cases ho; cases hn
      | fn f => obtain ⟨x, rfl, _⟩ := ho; simp [undotT, undotO] at hn
    | op2 o a b =>
      obtain ⟨u, v, ho, _⟩ := he
      cases o with
      | arith o => cases ho; cases hn
      | rel o => cases ho; cases hn
      | fn f => obtain ⟨x, y, rfl, _⟩ := ho; simp [undotT, undotO] at hn
    | and a b => obtain ⟨u, v, rfl, _⟩ := he; cases hn
    | or a b => obtain ⟨u, v, rfl, _⟩ := he; cases hn
    | pick c a b => obtain ⟨w, u, v, rfl, _⟩ := he; cases hn
    | size x => rw [size_is he] at hn; simp [undotT, undotO, undotM] at hn
    | ask m x a => obtain ⟨y, hy, _⟩ := ask_is he; rw [hy] at hn; simp [undotT, undotO, undotM] at hn

theorem has_call1 (f : Name) (x : Expr) (n : Name) : Tree.has (undotT (.atom (.call f (.cons x .nil)))) n ↔ Tree.has (undotT x.toTree) n := by
  rw [undotT, undotO, undotEs, undotEs, Tree.has, varsO, varsEs, varsEs, vars_tree, undot_tree]; simp
theorem has_call2 (f : Name) (x y : Expr) (n : Name) : Tree.has (undotT (.atom (.call f (.cons x (.cons y .nil))))) n ↔ Tree.has (undotT x.toTree) n ∨ Tree.has (undotT y.toTree) n := by
  rw [undotT, undotO, undotEs, undotEs, undotEs, Tree.has, varsO, varsEs, varsEs, varsEs, vars_tree, vars_tree, undot_tree, undot_tree]; simp
theorem has_size (x : Name) (m : List Char) (n : Name) : Tree.has (undotT (.atom (.access x (.cons (.method m .nil) .nil)))) n ↔ x = n := by
  rw [undotT, undotO, undotM, undotEs, Tree.has, varsO, varsEs, varsEs, varsE, varsO]; simp
theorem has_ask (x : Name) (m : List Char) (e : Expr) (n : Name) : Tree.has (undotT (.atom (.access x (.cons (.method m (.cons e .nil)) .nil)))) n ↔ x = n ∨ Tree.has (undotT e.toTree) n := by
  rw [undotT, undotO, undotM, undotEs, undotEs, Tree.has, varsO, varsEs, varsEs, varsEs, varsE, varsO, vars_tree, undot_tree]; simp

theorem has_op1 {o : Op1} {t u : Tree} (h : o.Is t u) (n : Name) : Tree.has (undotT t) n ↔ Tree.has (undotT u) n := by
  cases o with
  | neg => cases h; exact Iff.rfl
  | not => cases h; exact Iff.rfl
  | fn f => obtain ⟨x, rfl, rfl⟩ := h; exact has_call1 _ _ _
theorem has_op2 {o : Op2} {t u v : Tree} (h : o.Is t u v) (n : Name) : Tree.has (undotT t) n ↔ Tree.has (undotT u) n ∨ Tree.has (undotT v) n := by
  cases o with
  | arith o => cases h; exact Iff.rfl
  | rel o => cases h; exact Iff.rfl
  | fn f => obtain ⟨x, y, rfl, rfl, rfl⟩ := h; exact has_call2 _ _ _ _

/-- The variables of an expression that has a type are in scope. -/
theorem used_ex (Γ : Types) (p : Ex) : ∀ (t : Tree) (τ : Ty), p.type Γ = some τ → p.Is t → ∀ n, Tree.has (undotT t) n → (Γ n).isSome := by
  induction p with
  | text s => rintro t τ _ rfl n hn; simp [undotT, undotO, Tree.has, varsO] at hn
  | lit ds s => rintro t τ _ rfl n hn; simp [undotT, undotO, Tree.has, varsO] at hn
  | frac ip fp s => rintro t τ _ rfl n hn; simp [undotT, undotO, Tree.has, varsO] at hn
  | const b => rintro t τ _ rfl n hn; simp [undotT, undotO, Tree.has, varsO] at hn
  | var x =>
    intro t τ ht hi n hn
    rw [var_is hi, undotT, undotO, Tree.has, varsO] at hn
    · subst hn
      rw [Ex.type] at ht
      rw [ht]; rfl
    all_goals simp
  | op1 o a ih =>
    rintro t τ ht ⟨u, ho, hu⟩ n hn
    rw [has_op1 ho] at hn
    rw [Ex.type] at ht
    obtain ⟨σ, ha, _⟩ := Real.bind_inv ht
    exact ih u σ ha hu n hn
  | op2 o a b iha ihb =>
    rintro t τ ht ⟨u, v, ho, hu, hv⟩ n hn
    rw [has_op2 ho] at hn
    rw [Ex.type] at ht
    obtain ⟨σ, ha, ht⟩ := Real.bind_inv ht
    obtain ⟨σ', hb, ht⟩ := Real.bind_inv ht
    exact hn.elim (iha u σ ha hu n) (ihb v σ' hb hv n)
  | and a b iha ihb =>
    rintro t τ ht ⟨u, v, rfl, hu, hv⟩ n hn
    rw [Ex.type] at ht
    obtain ⟨σ, ha, ht⟩ := Real.bind_inv ht
    obtain ⟨σ', hb, ht⟩ := Real.bind_inv ht
    exact Or.elim hn (iha u σ ha hu n) (ihb v σ' hb hv n)
  | or a b iha ihb =>
    rintro t τ ht ⟨u, v, rfl, hu, hv⟩ n hn
    rw [Ex.type] at ht
    obtain ⟨σ, ha, ht⟩ := Real.bind_inv ht
    obtain ⟨σ', hb, ht⟩ := Real.bind_inv ht
    exact Or.elim hn (iha u σ ha hu n) (ihb v σ' hb hv n)
  | pick c a b ihc iha ihb =>
    rintro t τ ht ⟨w, u, v, rfl, hw, hu, hv⟩ n hn
    rw [Ex.type] at ht
    obtain ⟨σ0, hc, ht⟩ := Real.bind_inv ht
    obtain ⟨σ, ha, ht⟩ := Real.bind_inv ht
    obtain ⟨σ', hb, ht⟩ := Real.bind_inv ht
    exact Or.elim hn (ihc w σ0 hc hw n) fun hn => Or.elim hn (iha u σ ha hu n) (ihb v σ' hb hv n)
  | size x =>
    intro t τ ht hi n hn
    rw [size_is hi, has_size] at hn
    subst hn
    rw [Ex.type] at ht
    split at ht
    · next h => rw [h]; rfl
    · cases ht
  | ask m x a ih =>
    intro t τ ht hi n hn
    obtain ⟨e, hi, he⟩ := ask_is hi
    rw [hi, has_ask] at hn
    rw [Ex.type] at ht
    split at ht
    · next h =>
      rcases hn with rfl | hn
      · rw [h.1]; rfl
      · exact ih _ _ h.2 he n hn
    · cases ht

/-- The meaning of an expression depends on the variables in it only. -/
theorem same_ex (S : (Name → Option PTy) → Sem PTy) (tenv tenv' : Name → Option PTy) (hvar : ∀ e, (S e).var = e) (hS : ∀ e, S e = { S tenv with var := e })
    (p : Ex) : ∀ t, p.Is t → (∀ n, Tree.has (undotT t) n → tenv n = tenv' n) → treeV arity (S tenv) (undotT t) = treeV arity (S tenv') (undotT t) := by
  have e2 : ∀ op, (S tenv').bin op = (S tenv).bin op := fun op => by rw [hS tenv']
  have e3 : (S tenv').sel = (S tenv).sel := by rw [hS tenv']
  have e4 : (S tenv').call = (S tenv).call := by rw [hS tenv']
  have e5 : ∀ o : Op1, o.sem (S tenv') = o.sem (S tenv) := fun o => by funext a; cases o <;> rw [hS tenv'] <;> rfl
  have e6 : ∀ o : Op2, o.sem (S tenv') = o.sem (S tenv) := fun o => by funext a b; cases o <;> rw [hS tenv'] <;> rfl
  induction p with
  | text s => rintro t rfl _; rw [hS tenv']; rfl
  | lit ds s => rintro t rfl _; rw [hS tenv']; rfl
  | frac ip fp s => rintro t rfl _; rw [hS tenv']; rfl
  | const b => rintro t rfl _; rw [hS tenv']; rfl
  | var x =>
    intro t hi h
    rw [var_is hi] at h ⊢
    have h1 : ∀ e, treeV arity (S e) (undotT (.atom (.var x))) = (S e).var x := fun e => rfl
    rw [h1, h1, hvar, hvar]; exact h x rfl
  | op1 o a ih => rintro t ⟨u, ho, hu⟩ h; rw [op1_tree _ ho, op1_tree _ ho, ih u hu fun n hn => h n ((has_op1 ho n).2 hn), e5]
  | op2 o a b iha ihb =>
    rintro t ⟨u, v, ho, hu, hv⟩ h
    rw [op2_tree _ ho, op2_tree _ ho, iha u hu fun n hn => h n ((has_op2 ho n).2 (.inl hn)), ihb v hv fun n hn => h n ((has_op2 ho n).2 (.inr hn)), e6]
  | and a b iha ihb => rintro t ⟨u, v, rfl, hu, hv⟩ h; rw [undotT, treeV, treeV, iha u hu fun n hn => h n (.inl hn), ihb v hv fun n hn => h n (.inr hn), e2]
  | or a b iha ihb => rintro t ⟨u, v, rfl, hu, hv⟩ h; rw [undotT, treeV, treeV, iha u hu fun n hn => h n (.inl hn), ihb v hv fun n hn => h n (.inr hn), e2]
  | pick c a b ihc iha ihb =>
    rintro t ⟨w, u, v, rfl, hw, hu, hv⟩ h
    rw [undotT, treeV, treeV, ihc w hw fun n hn => h n (.inl hn), iha u hu fun n hn => h n (.inr (.inl hn)), ihb v hv fun n hn => h n (.inr (.inr hn)), e3]
  | size x =>
    intro t hi h
    rw [size_is hi] at h ⊢
    rw [size_tree, size_tree, hvar, hvar, h x ((has_size _ _ _).2 rfl), e4]
  | ask m x a ih =>
    intro t hi h
    obtain ⟨e, hi, he⟩ := ask_is hi
    rw [hi] at h ⊢
    rw [ask_tree, ask_tree, hvar, hvar, h x ((has_ask _ _ _ _).2 (.inl rfl)), ih _ he fun n hn => h n ((has_ask _ _ _ _).2 (.inr hn)), e4]

/-- The variables in scope are known with their types. -/
def TypesOk (Γ : Types) (tenv : Name → Option PTy) : Prop := ∀ x τ, Γ x = some τ → tenv x = some τ.p

/-- What validation and code generation take the type of an expression to be. -/
theorem types_ex (fpu : Fpu) (ju : Types.Str.Val) {Γ : Types} {tenv : Name → Option PTy} (henv : TypesOk Γ tenv) {p : Ex} {τ : Ty} (h : ExOk fpu Γ p τ) (t : Tree) (ht : p.Is t) :
    treeV arity (tySem (rt fpu ju) tenv) (undotT t) = some τ.p ∧ treeV arity (vSem fpu tenv) (undotT t) = some τ.p := by
  have hu : ∀ n, Tree.has (undotT t) n → tenv n = (Γ n).map Ty.p := by
    intro n hn
    obtain ⟨σ, hσ⟩ := Option.isSome_iff_exists.1 (used_ex Γ p t τ h.typed ht n hn)
    rw [henv n σ hσ, hσ]; rfl
  have h1 := seen_ex fpu ju Γ (fun x => (Γ x).map Ty.p) (fun _ => rfl) p h.lits h.even t ht
  rw [h.typed] at h1
  rw [same_ex (vSem fpu) tenv _ (fun _ => rfl) (fun _ => rfl) p t ht hu, same_ex (tySem (rt fpu ju)) tenv _ (fun _ => rfl) (fun _ => rfl) p t ht hu]
  exact h1

/-! ## Lemmas: variables -/

/-- Known variables have types and slots of their own; those in scope are known with their types. -/
structure Static (Γ : Types) (vars : Vars PTy) (ns : Nat) : Prop where
  typed : ∀ n, vars n ≠ some none
  below : ∀ n b, vars n = some (some b) → b.2 < ns
  apart : ∀ n m b c, vars n = some (some b) → vars m = some (some c) → b.2 = c.2 → n = m
  dom : ∀ n t, Γ n = some t → ∃ s, vars n = some (some (t.p, s))

/-- The slots hold the values of the variables in scope. -/
structure Dyn (Γ : Types) (vars : Vars PTy) (slots : Nat → WV) (ρ : Store) : Prop where
  env : EnvOk Γ ρ (envOf vars slots)
  fit : ArgsOk Γ ρ

/-- Variables stay known, and those that become known are among the names. -/
structure Grow (vars vars' : Vars PTy) (names : List Name) : Prop where
  keep : ∀ n b, vars n = some b → vars' n = some b
  new : ∀ n, vars n = none → n ∉ names → vars' n = none

theorem Grow.refl (vars : Vars PTy) (names : List Name) : Grow vars vars names := ⟨fun _ _ h => h, fun _ h _ => h⟩

theorem Grow.trans {a b c : Vars PTy} {ns ms : List Name} (h : Grow a b ns) (k : Grow b c ms) : Grow a c (ns ++ ms) where
  keep n x hn := k.keep n x (h.keep n x hn)
  new n hn hm := by
    simp only [List.mem_append, not_or] at hm
    exact k.new n (h.new n hn hm.1) hm.2

theorem Static.types {Γ : Types} {vars : Vars PTy} {ns : Nat} (h : Static Γ vars ns) : TypesOk Γ (tenvOf vars) := by
  intro x t hx
  obtain ⟨s, hs⟩ := h.dom x t hx
  unfold tenvOf
  rw [hs]

/-- Fewer variables in scope. -/
theorem Dyn.less {Γ Γ' : Types} {vars vars' : Vars PTy} {ns : Nat} {slots : Nat → WV} {ρ : Store} {names : List Name} (h : Dyn Γ' vars' slots ρ) (hs : Static Γ vars ns)
    (hg : Grow vars vars' names) (hsub : ∀ n t, Γ n = some t → Γ' n = some t) : Dyn Γ vars slots ρ where
  env x t v hx hv := by
    obtain ⟨s, h1⟩ := hs.dom x t hx
    have h2 := h.env x t v (hsub x t hx) hv
    unfold envOf at h2 ⊢
    rw [hg.keep _ _ h1] at h2
    rw [h1]
    exact h2
  fit x t hx := h.fit x t (hsub x t hx)

/-- More variables known. -/
theorem Dyn.more {Γ : Types} {vars vars' : Vars PTy} {ns : Nat} {slots : Nat → WV} {ρ : Store} {names : List Name} (h : Dyn Γ vars slots ρ) (hs : Static Γ vars ns)
    (hg : Grow vars vars' names) : Dyn Γ vars' slots ρ where
  env x t v hx hv := by
    obtain ⟨s, h1⟩ := hs.dom x t hx
    have h2 := h.env x t v hx hv
    unfold envOf at h2 ⊢
    rw [h1] at h2
    rw [hg.keep _ _ h1]
    exact h2
  fit := h.fit

theorem Static.scope {Γ Γ' : Types} {vars : Vars PTy} {ns : Nat} (h : Static Γ' vars ns) (hsub : ∀ n t, Γ n = some t → Γ' n = some t) : Static Γ vars ns :=
  ⟨h.typed, h.below, h.apart, fun n t hn => h.dom n t (hsub n t hn)⟩

theorem Static.fresh {Γ : Types} {vars : Vars PTy} {ns : Nat} (h : Static Γ vars ns) {x : Name} (hx : vars x = none) : Γ x = none := by
  cases hg : Γ x with
  | none => rfl
  | some t => obtain ⟨s, hs⟩ := h.dom x t hg; rw [hx] at hs; simp at hs

theorem set_sub {Γ : Types} {x : Name} (hx : Γ x = none) (u : Option Ty) : ∀ n t, Γ n = some t → (setType Γ x u) n = some t := by
  intro n t hn
  unfold setType
  split
  · next h => subst h; rw [hx] at hn; simp at hn
  · exact hn

/-! ## Lemmas: the code of one expression -/

theorem eval_tag (fpu : Fpu) (ju : Types.Str.Val) (table : List Site) (i : Nat) (slots : Nat → WV) : (machine fpu ju table).eval (tag i) slots = runSite fpu ju table i slots := by
  show runSite fpu ju table (List.replicate i '0').length slots = _
  rw [List.length_replicate]

theorem run_at (fpu : Fpu) (ju : Types.Str.Val) {table : List Site} {i : Nat} {s : Site} (h : table[i]? = some s) (slots : Nat → WV) :
    runSite fpu ju table i slots = (Scalar.run (rt fpu ju) s.code ⟨[], slots, ()⟩).bind fun rs => (rs.opd s.opd).bind fun v => if s.test = true ∧ v.bad = true then none else some (rs.slots, v) := by
  unfold runSite
  rw [h]
  rfl

theorem rep_ne {z : Val} {w : WV} (h : Rep z w) : w ≠ .num .poison := by
  rintro rfl
  cases z with
  | num v => have := rep_num h; cases v <;> cases this
  | str b => exact h

theorem shown_bad {w : WV} (h : shown w = .undefined) : w = .num .poison := by
  unfold shown at h
  split at h
  · rfl
  · cases h

/-- The values of an expression before and after compilation. -/
theorem value_tree (fpu : Fpu) (ju : Types.Str.Val) {Γ : Types} {vars : Vars PTy} {slots : Nat → WV} {ρ : Store} (hd : Dyn Γ vars slots ρ) {p : Ex} {τ : Ty} (hp : ExOk fpu Γ p τ) (e : Expr) (he : p.Is e.toTree) :
    ∃ m, eagerE (rt fpu ju) arity (envOf vars slots) (undotE e) = M.lift m ∧ Agrees τ (p.value fpu Γ ρ) m := by
  rw [eager_tree, undot_tree]
  exact value_ex fpu ju hd.fit hd.env p hp.lits hp.even hp.guarded τ _ hp.typed he

/-- What a `return` leaves: the converted value, or poison. -/
def Returned (fpu : Fpu) (ret : Ty) (v : Option Val) (slots : Nat → WV) (r : Option ((Nat → WV) × WV)) : Prop :=
  match v with
  | none => r = none
  | some z => ∃ w, r = some (slots, w) ∧ match conv fpu ret z with
    | none => w = .num .poison
    | some y => Rep y w

theorem ret_site (fpu : Fpu) (ju : Types.Str.Val) (ret : Ty) (Γ : Types) (cs : CS PTy) (hs : Static Γ cs.vars cs.nslot) (p : Ex) (e : Expr) (he : p.Is e.toTree) (τ : Ty) (hp : ExOk fpu Γ p τ)
    (hc : converts ret τ = true) :
    ∃ site cs', retSite fpu ju ret.p e cs = some (site, cs') ∧ cs'.vars = cs.vars ∧ cs'.nslot = cs.nslot ∧ ∀ table i, table[i]? = some site → ∀ slots ρ, Dyn Γ cs.vars slots ρ →
      Returned fpu ret (p.value fpu Γ ρ) slots ((machine fpu ju table).eval (tag i) slots) := by
  have hpl : Plain arity (undotE e) := plain_undot (plain_ex p _ he)
  have hv : ∀ n, varsE (undotE e) n → cs.vars n ≠ some none := fun n _ => hs.typed n
  have hst : Stat (((gExpr (rt fpu ju) arity (undotE e)).andThen ld).andThen (castTo (rt fpu ju) ret.p)) :=
    ((stat_gExpr (rt := rt fpu ju) arity (undotE e) hpl hv).bind fun _ => stat_ld _).bind fun _ => stat_castTo _ _ _
  have hty : TyS cs.vars (((gExpr (rt fpu ju) arity (undotE e)).andThen ld).andThen (castTo (rt fpu ju) ret.p)) (((tyE (rt fpu ju) arity (tenvOf cs.vars) (undotE e)).bind some).bind fun u => castable (rt fpu ju) u ret.p)
      (fun _ _ => True) :=
    TyS.bind (TyS.bind (ty_gExpr (rt := rt fpu ju) arity (undotE e) hpl hv) fun a b hab => ty_ld hab) fun a b hab => by rw [← hab]; exact ty_castTo (rt := rt fpu ju) ret.p a
  have h3 := hty { cs with nreg := 0 } rfl
  have e1 : tyE (rt fpu ju) arity (tenvOf cs.vars) (undotE e) = some τ.p := by
    unfold tyE
    rw [eval_tree, undot_tree]
    exact (types_ex fpu ju hs.types hp _ he).1
  rw [e1] at h3
  simp only [Option.bind_some, castable_conv, hc, if_true] at h3
  obtain ⟨o, is, cs', hg, hvars, _⟩ := h3
  have h4 := hst _ _ _ _ hg
  refine ⟨⟨is, o, false⟩, cs', by unfold retSite site; rw [hg]; rfl, h4.1, h4.2, fun table i hi slots ρ hd => ?_⟩
  have hsm : Sim (rt fpu ju) cs.vars slots [] (((gExpr (rt fpu ju) arity (undotE e)).andThen ld).andThen (castTo (rt fpu ju) ret.p))
      (((eagerE (rt fpu ju) arity (envOf cs.vars slots) (undotE e)).andThen M.ret).andThen fun v => M.lift (castTV (rt fpu ju) ret.p v)) (fun r o u => opdAt r o = some u) :=
    Sim.bind (Sim.bind (sim_gExpr (rt := rt fpu ju) arity (undotE e) hpl hv []) (stat_gExpr (rt := rt fpu ju) arity (undotE e) hpl hv) fun ext a b hd => sim_ld hd)
      ((stat_gExpr (rt := rt fpu ju) arity (undotE e) hpl hv).bind fun _ => stat_ld _) fun ext a b hd => sim_castTo ret.p hd
  have h5 := hsm { cs with nreg := 0 } rfl rfl o is cs' hg ()
  obtain ⟨m, hm, hA⟩ := value_tree fpu ju hd hp e he
  rw [M.then_ret, hm] at h5
  rw [eval_tag, run_at fpu ju hi]
  cases hval : p.value fpu Γ ρ with
  | none =>
    rw [hval] at hA
    rw [show m = none from hA] at h5
    simp only [Returned]
    rw [show Scalar.run (rt fpu ju) is ⟨[], slots, ()⟩ = none from h5]; rfl
  | some z =>
    rw [hval] at hA
    obtain ⟨w, rfl, hw⟩ := hA
    obtain ⟨x, hx, hx'⟩ := cast_conv fpu ju hc (has_ex fpu hd.fit p hp.lits hp.even τ z hp.typed hval) hw
    rw [M.lift_some, hx] at h5
    obtain ⟨ext, h6, _, h7⟩ := h5
    simp only [Returned]
    rw [h6]
    simp only [Option.bind_some, opd_at, h7, Bool.false_eq_true, false_and, if_false]
    refine ⟨x, rfl, ?_⟩
    cases hz : conv fpu ret z with
    | none => rw [hz] at hx'; exact shown_bad hx'
    | some y => rw [hz] at hx'; exact hx'

/-- What a condition leaves: a boolean, and the slots as they are. -/
def Tested (v : Option Val) (slots : Nat → WV) (r : Option ((Nat → WV) × WV)) : Prop :=
  match v with
  | none => r = none
  | some z => ∃ b, z = .num (.bool b) ∧ r = some (slots, .num (.word (bit b)))

theorem cond_site (fpu : Fpu) (ju : Types.Str.Val) (Γ : Types) (cs : CS PTy) (hs : Static Γ cs.vars cs.nslot) (p : Ex) (e : Expr) (he : p.Is e.toTree) (hp : ExOk fpu Γ p (.num .bool)) :
    ∃ site cs', condSite fpu ju e cs = some (site, cs') ∧ cs'.vars = cs.vars ∧ cs'.nslot = cs.nslot ∧ ∀ table i, table[i]? = some site → ∀ slots ρ, Dyn Γ cs.vars slots ρ →
      Tested (p.value fpu Γ ρ) slots ((machine fpu ju table).eval (tag i) slots) := by
  have hpl : Plain arity (undotE e) := plain_undot (plain_ex p _ he)
  have hv : ∀ n, varsE (undotE e) n → cs.vars n ≠ some none := fun n _ => hs.typed n
  have hst : Stat (((gExpr (rt fpu ju) arity (undotE e)).andThen ld).andThen fun x => if x.1 = .bit then G.ret x.2 else G.fail) :=
    ((stat_gExpr (rt := rt fpu ju) arity (undotE e) hpl hv).bind fun _ => stat_ld _).bind fun _ => Stat.ite (Stat.ret _) Stat.fail
  have hty : TyS cs.vars (((gExpr (rt fpu ju) arity (undotE e)).andThen ld).andThen fun x => if x.1 = .bit then G.ret x.2 else G.fail)
      (((tyE (rt fpu ju) arity (tenvOf cs.vars) (undotE e)).bind some).bind fun u => if u = .bit then some () else none) (fun _ _ => True) :=
    TyS.bind (TyS.bind (ty_gExpr (rt := rt fpu ju) arity (undotE e) hpl hv) fun a b hab => ty_ld hab) fun a b hab => by
      rw [← hab]
      split
      · exact TyS.ret trivial
      · exact TyS.fail
  have h3 := hty { cs with nreg := 0 } rfl
  have e1 : tyE (rt fpu ju) arity (tenvOf cs.vars) (undotE e) = some .bit := by
    unfold tyE
    rw [eval_tree, undot_tree]
    exact (types_ex fpu ju hs.types hp _ he).1
  rw [e1] at h3
  simp only [Option.bind_some, if_true] at h3
  obtain ⟨o, is, cs', hg, hvars, _⟩ := h3
  have h4 := hst _ _ _ _ hg
  refine ⟨⟨is, o, true⟩, cs', by unfold condSite site; rw [hg]; rfl, h4.1, h4.2, fun table i hi slots ρ hd => ?_⟩
  have hsm : Sim (rt fpu ju) cs.vars slots [] (((gExpr (rt fpu ju) arity (undotE e)).andThen ld).andThen fun x => if x.1 = .bit then G.ret x.2 else G.fail)
      (((eagerE (rt fpu ju) arity (envOf cs.vars slots) (undotE e)).andThen M.ret).andThen fun v => M.ret v.2) (fun r o u => opdAt r o = some u) :=
    Sim.bind (Sim.bind (sim_gExpr (rt := rt fpu ju) arity (undotE e) hpl hv []) (stat_gExpr (rt := rt fpu ju) arity (undotE e) hpl hv) fun ext a b hd => sim_ld hd)
      ((stat_gExpr (rt := rt fpu ju) arity (undotE e) hpl hv).bind fun _ => stat_ld _) fun ext a b hd => Sim.ite (fun _ => Sim.ret hd.2) (fun _ => Sim.fail)
  have h5 := hsm { cs with nreg := 0 } rfl rfl o is cs' hg ()
  obtain ⟨m, hm, hA⟩ := value_tree fpu ju hd hp e he
  rw [M.then_ret, hm] at h5
  rw [eval_tag, run_at fpu ju hi]
  cases hval : p.value fpu Γ ρ with
  | none =>
    rw [hval] at hA
    rw [show m = none from hA] at h5
    simp only [Tested]
    rw [show Scalar.run (rt fpu ju) is ⟨[], slots, ()⟩ = none from h5]; rfl
  | some z =>
    rw [hval] at hA
    obtain ⟨w, rfl, hw⟩ := hA
    obtain ⟨b, rfl⟩ := has_bool (has_ex fpu hd.fit p hp.lits hp.even _ z hp.typed hval)
    rw [rep_num hw, M.lift_some] at h5
    obtain ⟨ext, h6, _, h7⟩ := h5
    refine ⟨b, rfl, ?_⟩
    rw [h6]
    simp only [Option.bind_some, opd_at, h7]
    rfl

/-! ## Lemmas: the code of an assignment -/

theorem stat_const {α : Type} (a : α) (is : List (Instr PTy WV)) : Stat (fun cs => some (a, is, cs) : G PTy WV α) := by
  intro cs b js cs' h
  simp at h
  obtain ⟨_, _, rfl⟩ := h
  exact ⟨rfl, rfl⟩

theorem ty_const {α : Type} (vars : Vars PTy) (a : α) (is : List (Instr PTy WV)) : TyS vars (fun cs => some (a, is, cs) : G PTy WV α) (some ()) (fun _ _ => True) :=
  fun cs hv => ⟨a, is, cs, rfl, hv, trivial⟩

theorem dyn_set {Γ Γ' : Types} {vars vars' : Vars PTy} {slots slots' : Nat → WV} {ρ : Store} {x : Name} {t : Ty} {z : Val} {w : WV} (h : Dyn Γ vars slots ρ)
    (he : ∀ n, ((envOf vars slots).set x (t.p, w)) n = envOf vars' slots' n) (hw : Rep z w) (hz : z.Has t)
    (hg : ∀ n u, Γ' n = some u → (n = x ∧ u = t) ∨ (n ≠ x ∧ Γ n = some u)) : Dyn Γ' vars' slots' (setValue ρ x z) where
  env n u v hn hv := by
    rw [← he n]
    unfold setValue at hv
    unfold Env.set
    rcases hg n u hn with ⟨rfl, rfl⟩ | ⟨h1, h2⟩
    · simp at hv; subst hv; exact ⟨w, by simp, hw⟩
    · rw [if_neg h1] at hv ⊢; exact h.env n u v h2 hv
  fit n u hn := by
    unfold setValue
    rcases hg n u hn with ⟨rfl, rfl⟩ | ⟨h1, h2⟩
    · exact ⟨z, by simp, hz⟩
    · rw [if_neg h1]; exact h.fit n u h2

/-- The run of an assignment. -/
theorem line_run (fpu : Fpu) (ju : Types.Str.Val) (Γ : Types) (cs cs' : CS PTy) (hs : Static Γ cs.vars cs.nslot) (l : Line) (hl : Good arity l) (h : H PTy WV) (is : List (Instr PTy WV))
    (hg : gExpr (rt fpu ju) arity l.expr { cs with nreg := 0 } = some (h, is, cs')) (slots : Nat → WV) (table : List Site) (i : Nat) (hi : table[i]? = some ⟨is, .const (.num (.word 0)), false⟩) :
    match lineM (rt fpu ju) arity (envOf cs.vars slots) l () with
    | none => (machine fpu ju table).eval (tag i) slots = none
    | some r => ∃ slots', (machine fpu ju table).eval (tag i) slots = some (slots', .num (.word 0)) ∧ ∀ n, r.2 n = envOf cs'.vars slots' n := by
  have hm : Match (envOf cs.vars slots) { cs with nreg := 0 } (⟨[], slots, ()⟩ : RS WV Unit) := ⟨rfl, hs.typed, fun _ => rfl, hs.below, hs.apart⟩
  have h1 := line_ok (rt := rt fpu ju) hm hl hg
  rw [eval_tag, run_at fpu ju hi]
  cases hr : lineM (rt fpu ju) arity (envOf cs.vars slots) l () with
  | none => rw [show lineM (rt fpu ju) arity (envOf cs.vars slots) l (⟨[], slots, ()⟩ : RS WV Unit).w = none from hr] at h1; simp only at h1 ⊢; rw [h1]; rfl
  | some r =>
    rw [show lineM (rt fpu ju) arity (envOf cs.vars slots) l (⟨[], slots, ()⟩ : RS WV Unit).w = some r from hr] at h1
    obtain ⟨rs', h2, _, h3⟩ := h1
    simp only
    rw [h2]
    exact ⟨rs'.slots, rfl, h3.env⟩

/-- What the code of an assignment of `value` to `x` does. -/
def LineSim (fpu : Fpu) (ju : Types.Str.Val) (s : Expr) (Γ Γ' : Types) (cs : CS PTy) (x : Name) (names : List Name) (value : Store → Option Val) : Prop :=
  ∃ site cs', exprSite fpu ju s cs = some (site, cs') ∧ Static Γ' cs'.vars cs'.nslot ∧ Grow cs.vars cs'.vars names ∧ ∀ table i, table[i]? = some site → ∀ slots ρ, Dyn Γ cs.vars slots ρ →
    match value ρ with
    | none => (machine fpu ju table).eval (tag i) slots = none
    | some z => ∃ slots', (machine fpu ju table).eval (tag i) slots = some (slots', .num (.word 0)) ∧ Dyn Γ' cs'.vars slots' (setValue ρ x z)

theorem define_line (fpu : Fpu) (ju : Types.Str.Val) (Γ : Types) (cs : CS PTy) (hs : Static Γ cs.vars cs.nslot) (x : Name) (hx : cs.vars x = none) (p : Ex) (e : Expr) (he : p.Is e.toTree)
    (t : Ty) (hp : ExOk fpu Γ p t) (hb : isVar p = false) :
    LineSim fpu ju (.bin (.un none (.define x)) .assign e) Γ (setType Γ x (p.type Γ)) cs x [x] (fun ρ => p.value fpu Γ ρ) := by
  have hpl : Plain arity (undotE e) := plain_undot (plain_ex p _ he)
  have hbare := bare_ex p e he hb
  have ht := hp.typed
  have hnx : ¬ varsE (undotE e) x := by
    intro h
    have h1 := used_ex Γ p _ t ht he x (by rw [← undot_tree]; exact (vars_tree (undotE e) x).1 h)
    rw [hs.fresh hx] at h1
    simp at h1
  let vars1 : Vars PTy := fun k => if k = x then some none else cs.vars k
  have hok : ∀ n, varsE (undotE e) n → vars1 n ≠ some none := by
    intro n hn
    have : n ≠ x := fun hh => hnx (hh ▸ hn)
    show (if n = x then some none else cs.vars n) ≠ some none
    rw [if_neg this]
    exact hs.typed n
  have htys : TypesOk Γ (tenvOf vars1) := by
    intro n u hn
    have hne : n ≠ x := by rintro rfl; rw [hs.fresh hx] at hn; simp at hn
    have := hs.types n u hn
    unfold tenvOf at this ⊢
    have h1 : vars1 n = cs.vars n := by show (if n = x then some none else cs.vars n) = _; rw [if_neg hne]
    rw [h1]
    exact this
  have h3 := ty_gExpr (rt := rt fpu ju) arity (undotE e) hpl hok { cs with nreg := 0, vars := vars1 } rfl
  have e1 : tyE (rt fpu ju) arity (tenvOf vars1) (undotE e) = some t.p := by
    unfold tyE
    rw [eval_tree, undot_tree]
    exact (types_ex fpu ju htys hp _ he).1
  rw [e1] at h3
  obtain ⟨y, is, c2, hg2, hv2, hty⟩ := h3
  have hst := stat_gExpr (rt := rt fpu ju) arity (undotE e) hpl hok _ _ _ _ hg2
  have hi := post_imm (rt := rt fpu ju) (undotE e) hpl hbare _ _ _ _ hg2
  cases y with
  | var _ => exact hi.elim
  | imm u o =>
    have hu : u = t.p := hty
    subst hu
    let cs' : CS PTy := { c2 with nslot := c2.nslot + 1, vars := fun k => if k = x then some (some (t.p, c2.nslot)) else c2.vars k }
    have hgen : gExpr (rt fpu ju) arity (Line.define x (undotE e)).expr { cs with nreg := 0 } = some (.var x, is ++ [.store c2.nslot o], cs') := by
      rw [Line.expr, gExpr_bin (.define x) (.define x) (gDefH x) (by rw [flatO]) (gNode_define x) .assign (undotE e) (plain_arity arity (undotE e) hpl)]
      have g0 : gDefH x { cs with nreg := 0 } = some ((H.var x : H PTy WV), ([] : List (Instr PTy WV)), { cs with nreg := 0, vars := vars1 }) := by
        unfold gDefH
        simp only [hx]
        rfl
      have g3 : gOp2 (rt fpu ju) .assign (H.var x) (H.imm (t.p) o) c2 = some (.var x, [.store c2.nslot o], cs') := by
        have hc : c2.vars x = some none := by rw [hv2]; show (if x = x then some none else cs.vars x) = _; rw [if_pos rfl]
        show gAssign (H.var x) (H.imm (t.p) o) c2 = _
        unfold gAssign
        simp only [hc]
        rfl
      unfold G.andThen
      rw [g0]
      simp only [Option.bind_some]
      rw [hg2]
      simp only [Option.bind_some]
      rw [g3]
      simp
    have hns : c2.nslot = cs.nslot := hst.2
    have hvars : ∀ k, cs'.vars k = if k = x then some (some (t.p, cs.nslot)) else cs.vars k := by
      intro k
      show (if k = x then some (some (t.p, c2.nslot)) else c2.vars k) = _
      rw [hns, hv2]
      by_cases hk : k = x
      · rw [if_pos hk, if_pos hk]
      · rw [if_neg hk, if_neg hk]; show (if k = x then some none else cs.vars k) = _; rw [if_neg hk]
    refine ⟨⟨is ++ [.store c2.nslot o], .const (.num (.word 0)), false⟩, cs', by unfold exprSite site; rw [show gExpr (rt fpu ju) arity (undotE (.bin (.un none (.define x)) .assign e)) { cs with nreg := 0 } = _ from hgen]; rfl, ?_, ?_, ?_⟩
    · refine ⟨?_, ?_, ?_, ?_⟩
      · intro n; rw [hvars]; split
        · simp
        · exact hs.typed n
      · intro n b hn
        show b.2 < c2.nslot + 1
        rw [hvars] at hn
        split at hn
        · simp at hn; rw [← hn, hns]; simp
        · have := hs.below n b hn; omega
      · intro n m b c h1 h2 h4
        rw [hvars] at h1 h2
        split at h1 <;> split at h2
        · next a a' => rw [a, a']
        · have := hs.below m c h2; simp at h1; rw [← h1] at h4; simp at h4; omega
        · have := hs.below n b h1; simp at h2; rw [← h2] at h4; simp at h4; omega
        · exact hs.apart n m b c h1 h2 h4
      · intro n u hn
        rw [hvars]
        unfold setType at hn
        split
        · next hh => rw [if_pos hh, ht] at hn; injection hn with hn; exact ⟨_, by rw [hn]⟩
        · next hh => rw [if_neg hh] at hn; exact hs.dom n u hn
    · refine ⟨fun n b hn => ?_, fun n hn hm => ?_⟩
      · rw [hvars, if_neg (by rintro rfl; rw [hx] at hn; simp at hn)]; exact hn
      · rw [hvars, if_neg (by simpa using hm)]; exact hn
    · intro table i hti slots ρ hd
      have h6 := line_run fpu ju Γ cs cs' hs (.define x (undotE e)) ⟨hpl, hbare, hnx⟩ _ _ hgen slots table i hti
      have hl : lineM (rt fpu ju) arity (envOf cs.vars slots) (.define x (undotE e)) () = ((eagerE (rt fpu ju) arity (envOf cs.vars slots) (undotE e)) ()).map fun r => (r.1, (envOf cs.vars slots).set x r.2) := by
        simp only [lineM, M.andThen, M.ret]
        cases eagerE (rt fpu ju) arity (envOf cs.vars slots) (undotE e) () <;> rfl
      obtain ⟨m, hm, hA⟩ := value_tree fpu ju hd hp e he
      rw [hl, hm] at h6
      dsimp only
      cases hval : p.value fpu Γ ρ with
      | none => rw [hval] at hA; rw [show m = none from hA] at h6; exact h6
      | some z =>
        rw [hval] at hA
        obtain ⟨w, rfl, hw⟩ := hA
        obtain ⟨slots', h8, h9⟩ := h6
        refine ⟨slots', h8, dyn_set hd h9 hw (has_ex fpu hd.fit p hp.lits hp.even t z ht hval) fun n u hn => ?_⟩
        unfold setType at hn
        split at hn
        · next hh => rw [ht] at hn; injection hn with hn; exact .inl ⟨hh, hn.symm⟩
        · next hh => exact .inr ⟨hh, hn⟩

theorem assign_line (fpu : Fpu) (ju : Types.Str.Val) (Γ : Types) (cs : CS PTy) (hs : Static Γ cs.vars cs.nslot) (l : Operand) (x : Name) (hl : Names l x) (p : Ex) (e : Expr) (he : p.Is e.toTree)
    (t : Ty) (hp : ExOk fpu Γ p t) (hxt : Γ x = some t) : LineSim fpu ju (.bin (.un none l) .assign e) Γ Γ cs x [] (fun ρ => p.value fpu Γ ρ) := by
  have hpl : Plain arity (undotE e) := plain_undot (plain_ex p _ he)
  have ht := hp.typed
  obtain ⟨sl, hsl⟩ := hs.dom x t hxt
  have hok : ∀ n, varsE (undotE e) n → cs.vars n ≠ some none := fun n _ => hs.typed n
  have h3 := ty_gExpr (rt := rt fpu ju) arity (undotE e) hpl hok { cs with nreg := 0 } rfl
  have e1 : tyE (rt fpu ju) arity (tenvOf cs.vars) (undotE e) = some t.p := by
    unfold tyE
    rw [eval_tree, undot_tree]
    exact (types_ex fpu ju hs.types hp _ he).1
  rw [e1] at h3
  obtain ⟨y, is, c2, hg2, hv2, hty⟩ := h3
  have hst := stat_gExpr (rt := rt fpu ju) arity (undotE e) hpl hok _ _ _ _ hg2
  let rest : G PTy WV (H PTy WV) := (ld y).andThen fun z => if z.1 = t.p then fun cs => some (.var x, [.store sl z.2], cs) else G.fail
  have hrest : TyS cs.vars rest ((some (t.p)).bind fun u => if u = t.p then some () else none) (fun _ _ => True) :=
    TyS.bind (ty_ld hty) fun a b hab => by
      rw [← hab]
      split
      · exact ty_const _ _ _
      · exact TyS.fail
  have srest : Stat rest := (stat_ld y).bind fun _ => Stat.ite (stat_const _ _) Stat.fail
  have h4 := hrest c2 hv2
  simp only [Option.bind_some, if_true] at h4
  obtain ⟨a, js, cs', hgr, hv3, _⟩ := h4
  have hst3 := srest _ _ _ _ hgr
  have hgen : gExpr (rt fpu ju) arity (Line.assign x (undotE e)).expr { cs with nreg := 0 } = some (a, is ++ js, cs') := by
    rw [Line.expr, gExpr_bin (.var x) (.var x) (gVarH x) (by rw [flatO]) (gNode_var x) .assign (undotE e) (plain_arity arity (undotE e) hpl)]
    have g0 : gVarH x { cs with nreg := 0 } = some ((H.var x : H PTy WV), ([] : List (Instr PTy WV)), { cs with nreg := 0 }) := by
      unfold gVarH
      simp only [hsl]
    have g3 : gOp2 (rt fpu ju) .assign (H.var x) y c2 = some (a, js, cs') := by
      show gAssign (H.var x) y c2 = _
      unfold gAssign
      simp only [hv2, hsl]
      exact hgr
    unfold G.andThen
    rw [g0]
    simp only [Option.bind_some]
    rw [hg2]
    simp only [Option.bind_some]
    rw [g3]
    simp
  have hns : cs'.nslot = cs.nslot := hst3.2.trans hst.2
  refine ⟨⟨is ++ js, .const (.num (.word 0)), false⟩, cs', by unfold exprSite site; rw [undotE, undotE, undot_names hl]; rw [show gExpr (rt fpu ju) arity (.bin (.un none (.var x)) .assign (undotE e)) { cs with nreg := 0 } = _ from hgen]; rfl, ?_, ?_, ?_⟩
  · rw [hv3, hns]; exact hs
  · rw [hv3]; exact Grow.refl _ _
  · intro table i hti slots ρ hd
    have h6 := line_run fpu ju Γ cs cs' hs (.assign x (undotE e)) hpl _ _ hgen slots table i hti
    have hl : lineM (rt fpu ju) arity (envOf cs.vars slots) (.assign x (undotE e)) () = ((eagerE (rt fpu ju) arity (envOf cs.vars slots) (undotE e)) ()).map fun r => (r.1, (envOf cs.vars slots).set x r.2) := by
      simp only [lineM, M.andThen, M.ret]
      cases eagerE (rt fpu ju) arity (envOf cs.vars slots) (undotE e) () <;> rfl
    obtain ⟨m, hm, hA⟩ := value_tree fpu ju hd hp e he
    rw [hl, hm] at h6
    dsimp only
    cases hval : p.value fpu Γ ρ with
    | none => rw [hval] at hA; rw [show m = none from hA] at h6; exact h6
    | some z =>
      rw [hval] at hA
      obtain ⟨w, rfl, hw⟩ := hA
      obtain ⟨slots', h8, h9⟩ := h6
      refine ⟨slots', h8, dyn_set hd h9 hw (has_ex fpu hd.fit p hp.lits hp.even t z ht hval) fun n u hn => ?_⟩
      by_cases hh : n = x
      · subst hh; rw [hxt] at hn; injection hn with hn; exact .inl ⟨rfl, hn.symm⟩
      · exact .inr ⟨hh, hn⟩

theorem arith_some (fpu : Fpu) (ju : Types.Str.Val) (o : Arith) {t : Real.Ty} (ht : t ≠ .bool) : ∃ f, (rt fpu ju).binOp o.sign t.p = some (t.p, f) := by
  cases t with
  | bool => exact absurd rfl ht
  | int t => cases o <;> exact ⟨_, rfl⟩
  | flt F => cases F <;> cases o <;> exact ⟨_, rfl⟩

theorem type_update {Γ : Types} {o : Arith} {x : Name} {p : Ex} {t : Ty} (h : (Ex.op2 (.arith o) (.var x) p).type Γ = some t) (hx : Γ x = some t) :
    ∃ s u : Real.Ty, t = .num s ∧ p.type Γ = some (.num u) ∧ Real.join s u = some s ∧ (Op2.arith o).type s u = some s := by
  rcases type_op2 h with ⟨s, u, r, rfl, h1, h2, h3⟩ | ⟨r, h0, _⟩
  · rw [Ex.type, hx] at h1
    cases h1
    refine ⟨s, u, rfl, h2, ?_, h3⟩
    unfold Op2.type at h3
    cases hj : Real.join s u with
    | none => rw [hj] at h3; cases h3
    | some c => rw [hj] at h3; exact h3
  · cases h0

theorem update_line (fpu : Fpu) (ju : Types.Str.Val) (Γ : Types) (cs : CS PTy) (hs : Static Γ cs.vars cs.nslot) (o : Arith) (l : Operand) (x : Name) (hl : Names l x) (p : Ex) (e : Expr) (he : p.Is e.toTree)
    (t : Ty) (hop : ExOk fpu Γ (.op2 (.arith o) (.var x) p) t) (hxt : Γ x = some t) :
    LineSim fpu ju (.bin (.un none l) (Function.Arith.assignSign o) e) Γ Γ cs x [] (fun ρ => (Ex.op2 (.arith o) (.var x) p).value fpu Γ ρ) := by
  have hpl : Plain arity (undotE e) := plain_undot (plain_ex p _ he)
  obtain ⟨t, u, rfl, hu, hj, hty2⟩ := type_update hop.typed hxt
  have hlits : p.Lits fpu := hop.lits.2
  have hguard : p.Guarded Γ := hop.guarded.2
  have hlev : p.Even Γ := hop.even.2
  have hop' : ExOk fpu Γ p (.num u) := ⟨hu, hlits, hguard, hlev⟩
  obtain ⟨sl, hsl⟩ := hs.dom x _ hxt
  have hok : ∀ n, varsE (undotE e) n → cs.vars n ≠ some none := fun n _ => hs.typed n
  have h3 := ty_gExpr (rt := rt fpu ju) arity (undotE e) hpl hok { cs with nreg := 0 } rfl
  have e1 : tyE (rt fpu ju) arity (tenvOf cs.vars) (undotE e) = some u.p := by
    unfold tyE
    rw [eval_tree, undot_tree]
    exact (types_ex fpu ju hs.types hop' _ he).1
  rw [e1] at h3
  obtain ⟨y, is, c2, hg2, hv2, hty⟩ := h3
  have hst := stat_gExpr (rt := rt fpu ju) arity (undotE e) hpl hok _ _ _ _ hg2
  obtain ⟨f, hf⟩ := arith_some fpu ju o (Real.join_number hj).2.2
  let rest : G PTy WV (H PTy WV) := (ld (.var x : H PTy WV)).andThen fun x' => (ld y).andThen fun y => G.get (common (rt fpu ju) x'.1 y.1) fun c =>
    if c = t.p then (castTo (rt fpu ju) c y).andThen fun v => G.get ((rt fpu ju).binOp o.sign c) fun r =>
      if r.1 = t.p then (G.push (.bin o.sign c x'.2 v)).andThen fun o => fun cs => some (.var x, [.store sl o], cs) else G.fail
    else G.fail
  have hrest : TyS cs.vars rest ((some (t.p)).bind fun a => (some u.p).bind fun b => (common (rt fpu ju) a b).bind fun c =>
      if c = t.p then (castable (rt fpu ju) b c).bind fun _ => ((rt fpu ju).binOp o.sign c).bind fun r => if r.1 = t.p then (some ()).bind fun _ => some () else none else none) (fun _ _ => True) := by
    refine TyS.bind (ty_ld (h := .var x) (show tenvOf cs.vars x = some t.p by unfold tenvOf; rw [hsl]; rfl)) fun a b hab => TyS.bind (ty_ld hty) fun a' b' hab' => ?_
    rw [← hab, ← hab']
    refine TyS.get fun c _ => ?_
    split
    · refine TyS.bind (ty_castTo (rt := rt fpu ju) c a') fun _ _ _ => TyS.get fun r _ => ?_
      split
      · exact TyS.bind (TyS.push _) fun _ _ _ => ty_const _ _ _
      · exact TyS.fail
    · exact TyS.fail
  have srest : Stat rest := (stat_ld _).bind fun _ => (stat_ld _).bind fun _ => Stat.get fun _ => Stat.ite ((stat_castTo _ _ _).bind fun _ => Stat.get fun _ =>
    Stat.ite ((Stat.push _).bind fun _ => stat_const _ _) Stat.fail) Stat.fail
  have h4 := hrest c2 hv2
  simp only [Option.bind_some] at h4
  rw [show common (rt fpu ju) t.p u.p = some t.p from Real.meet_p fpu hj] at h4
  simp only [Option.bind_some, if_true, castable_same, Real.castable_up fpu (Real.join_up hj).2] at h4
  rw [hf] at h4
  simp only [Option.bind_some, if_true] at h4
  obtain ⟨a, js, cs', hgr, hv3, _⟩ := h4
  have hst3 := srest _ _ _ _ hgr
  have hgen : gExpr (rt fpu ju) arity (Line.update (Function.Arith.assignSign o) x (undotE e)).expr { cs with nreg := 0 } = some (a, is ++ js, cs') := by
    rw [Line.expr, gExpr_bin (.var x) (.var x) (gVarH x) (by rw [flatO]) (gNode_var x) _ (undotE e) (plain_arity arity (undotE e) hpl)]
    have g0 : gVarH x { cs with nreg := 0 } = some ((H.var x : H PTy WV), ([] : List (Instr PTy WV)), { cs with nreg := 0 }) := by
      unfold gVarH
      simp only [hsl]
    have g3 : gOp2 (rt fpu ju) (Function.Arith.assignSign o) (H.var x) y c2 = some (a, js, cs') := by
      unfold gOp2
      rw [if_neg (Function.assign_ne o), Function.base_assign]
      show gUpdate (rt fpu ju) o.sign (H.var x) y c2 = _
      unfold gUpdate
      simp only [hv2, hsl]
      exact hgr
    unfold G.andThen
    rw [g0]
    simp only [Option.bind_some]
    rw [hg2]
    simp only [Option.bind_some]
    rw [g3]
    simp
  have hns : cs'.nslot = cs.nslot := hst3.2.trans hst.2
  refine ⟨⟨is ++ js, .const (.num (.word 0)), false⟩, cs', by unfold exprSite site; rw [undotE, undotE, undot_names hl]; rw [show gExpr (rt fpu ju) arity (.bin (.un none (.var x)) (Function.Arith.assignSign o) (undotE e)) { cs with nreg := 0 } = _ from hgen]; rfl, ?_, ?_, ?_⟩
  · rw [hv3, hns]; exact hs
  · rw [hv3]; exact Grow.refl _ _
  · intro table i hti slots ρ hd
    have h6 := line_run fpu ju Γ cs cs' hs (.update (Function.Arith.assignSign o) x (undotE e)) ⟨hpl, by rw [Function.base_assign]; simp⟩ _ _ hgen slots table i hti
    have hl : lineM (rt fpu ju) arity (envOf cs.vars slots) (.update (Function.Arith.assignSign o) x (undotE e)) () =
        ((eagerE (rt fpu ju) arity (envOf cs.vars slots) (undotE e)) ()).bind fun r => ((envOf cs.vars slots x).bind fun u => (binTV (rt fpu ju) o.sign u r.2).map fun z => (envOf cs.vars slots).set x z).map fun v => (r.1, v) := by
      simp only [lineM, M.andThen, M.lift, Function.base_assign, Option.bind_some]
    obtain ⟨m, hm, hA⟩ := value_tree fpu ju hd hop' e he
    rw [hl, hm] at h6
    obtain ⟨v, hv, hvt⟩ := hd.fit x _ hxt
    obtain ⟨wv, hwv, hrv⟩ := hd.env x _ v hxt hv
    obtain ⟨v, rfl, hvt⟩ := has_num hvt
    have hwv2 := rep_num hrv
    subst hwv2
    have tv : (Ex.var x).type Γ = some (.num t) := by rw [Ex.type]; exact hxt
    have ev : (Ex.op2 (.arith o) (.var x) p).value fpu Γ ρ = (p.value fpu Γ ρ).bind fun w => op2Value fpu (.arith o) (.num t) (.num u) (.num v) w := by
      rw [Ex.value, tv, hu, Option.bind_some, Option.bind_some, Ex.value, hv, Option.bind_some]
    dsimp only
    cases hval : p.value fpu Γ ρ with
    | none => rw [ev, hval]; rw [hval] at hA; rw [show m = none from hA] at h6; exact h6
    | some y =>
      rw [hval] at hA
      obtain ⟨wy, rfl, hw⟩ := hA
      obtain ⟨y, rfl, hyt⟩ := has_num (has_ex fpu hd.fit p hlits hlev _ y hu hval)
      have hwy := rep_num hw
      subst hwy
      have hb := (op2_value fpu ju hty2 hvt hyt).1
      simp only [M.lift, Option.map_some, Option.bind_some, hwv] at h6
      rw [show binTV (rt fpu ju) o.sign ((Ty.num t).p, WV.num v.enc) ((Ty.num u).p, WV.num y.enc) = _ from hb] at h6
      cases hz : (Op2.arith o).value fpu t u v y with
      | none =>
        rw [hz] at h6
        rw [ev, hval, Option.bind_some, op2Value, hz]
        exact h6
      | some z =>
      rw [hz] at h6
      have hval' : (Ex.op2 (.arith o) (.var x) p).value fpu Γ ρ = some (.num z) := by rw [ev, hval, Option.bind_some, op2Value, hz]; rfl
      rw [hval']
      obtain ⟨slots', h8, h9⟩ := h6
      refine ⟨slots', h8, dyn_set (t := .num t) (z := .num z) (w := .num z.enc) hd h9 rfl (has_ex fpu hd.fit _ hop.lits hop.even _ _ hop.typed hval') fun n v hn => ?_⟩
      by_cases hh : n = x
      · subst hh; rw [hxt] at hn; injection hn with hn; exact .inl ⟨rfl, hn.symm⟩
      · exact .inr ⟨hh, hn⟩

/-! ## Lemmas: statements -/

/-- The codes are in the table from `i` on. -/
def At (table : List Site) (i : Nat) (codes : List Site) : Prop := ∀ k s, codes[k]? = some s → table[i + k]? = some s

theorem At.head {table : List Site} {i : Nat} {s : Site} {codes : List Site} (h : At table i (s :: codes)) : table[i]? = some s := by simpa using h 0 s rfl
theorem At.tail {table : List Site} {i : Nat} {s : Site} {codes : List Site} (h : At table i (s :: codes)) : At table (i + 1) codes := by
  intro k t hk
  have := h (k + 1) t (by simpa using hk)
  rw [← this]; congr 1; omega
theorem At.left {table : List Site} {i : Nat} {a b : List Site} (h : At table i (a ++ b)) : At table i a := by
  intro k t hk
  refine h k t ?_
  have hlt : k < a.length := (List.getElem?_eq_some_iff.1 hk).1
  rw [List.getElem?_append_left hlt]; exact hk
theorem At.right {table : List Site} {i : Nat} {a b : List Site} (h : At table i (a ++ b)) : At table (i + a.length) b := by
  intro k t hk
  have := h (a.length + k) t (by rw [List.getElem?_append_right (by omega)]; simpa using hk)
  rw [← this]; congr 1; omega

/-- How the ends of statements correspond. `Γ'`, `vars'` belong to the point after the statement, `Γ`, `vars` to the point before. -/
def Agree (r : Option WV) (Γ Γ' : Types) (vars vars' : Vars PTy) : End → Out (Nat → WV) WV → Prop
  | .next ρ, .next m => Dyn Γ' vars' m.1 ρ ∧ m.2 = r
  | .brk ρ, .brk m => Dyn Γ vars m.1 ρ ∧ m.2 = r
  | .cont ρ, .cont m => Dyn Γ vars m.1 ρ ∧ m.2 = r
  | .ret ρ z, .ret m => Dyn Γ vars m.1 ρ ∧ ∃ w, m.2 = some w ∧ Rep z w
  | .undefined, .trap => True
  | .undefined, .ret m => m.2 = some (.num .poison)
  | .more, .more => True
  | _, _ => False

theorem Agree.less {r : Option WV} {Γ Δ Γ' Δ' : Types} {vars wars vars' wars' : Vars PTy} {E : End} {O : Out (Nat → WV) WV} (h : Agree r Γ Γ' vars vars' E O)
    (h1 : ∀ slots ρ, Dyn Γ vars slots ρ → Dyn Δ wars slots ρ) (h2 : ∀ slots ρ, Dyn Γ' vars' slots ρ → Dyn Δ' wars' slots ρ) : Agree r Δ Δ' wars wars' E O := by
  cases E <;> cases O <;> simp only [Agree] at h ⊢
  · exact ⟨h2 _ _ h.1, h.2⟩
  · exact ⟨h1 _ _ h.1, h.2⟩
  · exact ⟨h1 _ _ h.1, h.2⟩
  · exact ⟨h1 _ _ h.1, h.2⟩
  · exact h

def CmdSim (fpu : Fpu) (ju : Types.Str.Val) (ret : Ty) (c : Cmd) (s : Stmt) (Γ : Types) (cs : CS PTy) : Prop :=
  ∃ codes cs', sites fpu ju ret.p s cs = some (codes, cs') ∧ Static (c.after Γ) cs'.vars cs'.nslot ∧ Grow cs.vars cs'.vars c.defs ∧ (∀ i, (mark s i).2 = i + codes.length) ∧
    ∀ table i, At table i codes → ∀ n slots r ρ, Dyn Γ cs.vars slots ρ →
      Agree r Γ (c.after Γ) cs.vars cs'.vars (c.exec fpu ret n Γ ρ) (Gen.exec (machine fpu ju table) n (mark s i).1 (slots, r))

def CmdsSim (fpu : Fpu) (ju : Types.Str.Val) (ret : Ty) (c : Cmds) (s : Stmts) (Γ : Types) (cs : CS PTy) : Prop :=
  ∃ codes cs', sitess fpu ju ret.p s cs = some (codes, cs') ∧ Static Γ cs'.vars cs'.nslot ∧ Grow cs.vars cs'.vars c.defs ∧ (∀ i, (marks s i).2 = i + codes.length) ∧
    ∀ table i, At table i codes → ∀ n slots r ρ, Dyn Γ cs.vars slots ρ → Agree r Γ Γ cs.vars cs.vars (c.exec fpu ret n Γ ρ) (execs (machine fpu ju table) n (marks s i).1 (slots, r))

def RestSim (fpu : Fpu) (ju : Types.Str.Val) (ret : Ty) (c : Rest) (es : Elifs) (el : Else) (Γ : Types) (cs : CS PTy) : Prop :=
  ∃ codes cs1 codes' cs', sitesElifs fpu ju ret.p es cs = some (codes, cs1) ∧ sitesElse fpu ju ret.p el cs1 = some (codes', cs') ∧ Static Γ cs'.vars cs'.nslot ∧ Grow cs.vars cs'.vars c.defs ∧
    (∀ i, (markElifs es i).2 = i + codes.length) ∧ (∀ i, (markElse el i).2 = i + codes'.length) ∧
    ∀ table i, At table i (codes ++ codes') → ∀ n slots r ρ, Dyn Γ cs.vars slots ρ →
      Agree r Γ Γ cs.vars cs.vars (c.exec fpu ret n Γ ρ) (execElifs (machine fpu ju table) n (markElifs es i).1 (execElse (machine fpu ju table) n (markElse el (markElifs es i).2).1) (slots, r))

theorem truth_bit (fpu : Fpu) (ju : Types.Str.Val) (table : List Site) (b : Bool) : (machine fpu ju table).truth (.num (.word (bit b))) = b := by cases b <;> rfl

theorem line_sim {fpu : Fpu} {ju : Types.Str.Val} {ret : Ty} {c : Cmd} {s : Expr} {Γ : Types} {cs : CS PTy} {x : Name} {value : Store → Option Val}
    (h : LineSim fpu ju s Γ (c.after Γ) cs x c.defs value) (he : ∀ n ρ, c.exec fpu ret n Γ ρ = withValue (value ρ) fun z => .next (setValue ρ x z)) : CmdSim fpu ju ret c (.expr s) Γ cs := by
  obtain ⟨site, cs', h1, h2, h3, h4⟩ := h
  refine ⟨[site], cs', by rw [sites, h1]; rfl, h2, h3, fun i => rfl, fun table i ht n slots r ρ hd => ?_⟩
  have h5 := h4 table i ht.head slots ρ hd
  rw [he, mark, Gen.exec]
  cases hv : value ρ with
  | none => rw [hv] at h5; simp only at h5; rw [h5]; trivial
  | some z =>
    rw [hv] at h5
    obtain ⟨slots', h6, h7⟩ := h5
    rw [h6]
    exact ⟨h7, rfl⟩

theorem cond_agree {r : Option WV} {Γ Γ' : Types} {vars vars' : Vars PTy} {fpu : Fpu} {ju : Types.Str.Val} {table : List Site} {i : Nat} {slots : Nat → WV} {v : Option Val} {E F : End}
    {O P : Mem (Nat → WV) WV → Out (Nat → WV) WV} (h : Tested v slots ((machine fpu ju table).eval (tag i) slots))
    (h1 : Agree r Γ Γ' vars vars' E (O (slots, r))) (h2 : Agree r Γ Γ' vars vars' F (P (slots, r))) :
    Agree r Γ Γ' vars vars' (withTest v E F) (Gen.cond (machine fpu ju table) (tag i) (slots, r) O P) := by
  unfold Gen.cond
  cases v with
  | none => rw [show (machine fpu ju table).eval (tag i) slots = none from h]; trivial
  | some z =>
    obtain ⟨b, rfl, h⟩ := h
    rw [h]
    simp only [truth_bit]
    cases b
    · exact h2
    · exact h1

theorem loop_agree {r : Option WV} {Γ : Types} {vars vars' : Vars PTy} {names : List Name} {ns : Nat} {fpu : Fpu} {ju : Types.Str.Val} {table : List Site} {i : Nat} {test : Store → Option Val} {body : Store → End}
    {B : Mem (Nat → WV) WV → Out (Nat → WV) WV} (hs : Static Γ vars ns) (hg : Grow vars vars' names)
    (h : ∀ slots ρ, Dyn Γ vars slots ρ → Tested (test ρ) slots ((machine fpu ju table).eval (tag i) slots))
    (hb : ∀ slots ρ, Dyn Γ vars slots ρ → Agree r Γ Γ vars vars (body ρ) (B (slots, r))) :
    ∀ n slots ρ, Dyn Γ vars slots ρ → Agree r Γ Γ vars vars' (repeated test body n ρ) (iterate (machine fpu ju table) (tag i) B n (slots, r)) := by
  intro n
  induction n with
  | zero => intro slots ρ _; trivial
  | succ n ih =>
    intro slots ρ hd
    rw [repeated, iterate]
    refine cond_agree (h slots ρ hd) ?_ ⟨hd.more hs hg, rfl⟩
    have h2 := hb slots ρ hd
    cases hE : body ρ <;> cases hO : B (slots, r) <;> rw [hE, hO] at h2 <;> simp only [Agree] at h2 ⊢
    · next m => obtain ⟨h3, h4⟩ := h2; subst h4; exact ih m.1 _ h3
    · next m => exact ⟨h2.1.more hs hg, h2.2⟩
    · next m => obtain ⟨h3, h4⟩ := h2; subst h4; exact ih m.1 _ h3
    · exact h2
    · exact h2

/-- The names are new. -/
def FreshIn (vars : Vars PTy) (names : List Name) : Prop := ∀ x ∈ names, vars x = none

theorem FreshIn.left {vars : Vars PTy} {a b : List Name} (h : FreshIn vars (a ++ b)) : FreshIn vars a := fun x hx => h x (by simp [hx])
theorem FreshIn.right {vars vars' : Vars PTy} {a b : List Name} (h : FreshIn vars (a ++ b)) (hg : Grow vars vars' a) (hn : (a ++ b).Nodup) : FreshIn vars' b :=
  fun x hx => hg.new x (h x (by simp [hx])) fun ha => (List.nodup_append.1 hn).2.2 x ha x hx rfl

theorem after_sub {c : Cmd} {Γ : Types} {cs : CS PTy} (hs : Static Γ cs.vars cs.nslot) (hf : FreshIn cs.vars c.defs) : ∀ n t, Γ n = some t → (c.after Γ) n = some t := by
  cases c with
  | define x e => exact set_sub (hs.fresh (hf x (by simp [Cmd.defs]))) _
  | _ => exact fun n t h => h

mutual
theorem cmd_sim (fpu : Fpu) (ju : Types.Str.Val) (ret : Ty) (c : Cmd) (s : Stmt) (h : c.Is s) (l : Bool) (Γ : Types) (hok : c.Ok fpu ret l Γ) (cs : CS PTy) (hs : Static Γ cs.vars cs.nslot)
    (hf : FreshIn cs.vars c.defs) (hn : c.defs.Nodup) : CmdSim fpu ju ret c s Γ cs := by
  match c with
  | .define x e =>
    cases h with
    | define h1 =>
      obtain ⟨e', rfl, h2⟩ := h1
      rw [Cmd.Ok] at hok
      obtain ⟨⟨τ, hp⟩, hb⟩ := hok
      exact line_sim (define_line fpu ju Γ cs hs x (hf x (by simp [Cmd.defs])) e e' h2 τ hp hb) fun n ρ => by rw [Cmd.exec]
  | .assign x e =>
    cases h with
    | assign hl h1 =>
      obtain ⟨e', rfl, h2⟩ := h1
      rw [Cmd.Ok] at hok
      obtain ⟨τ, hp, hx⟩ := hok
      exact line_sim (assign_line fpu ju Γ cs hs _ x hl e e' h2 τ hp hx) fun n ρ => by rw [Cmd.exec]
  | .update o x e =>
    cases h with
    | update hl h1 =>
      obtain ⟨e', rfl, h2⟩ := h1
      rw [Cmd.Ok] at hok
      obtain ⟨τ, hp, hx⟩ := hok
      exact line_sim (update_line fpu ju Γ cs hs o _ x hl e e' h2 τ hp hx) fun n ρ => by rw [Cmd.exec]
  | .ret e =>
    cases h with
    | ret h1 =>
      rw [Cmd.Ok] at hok
      obtain ⟨τ, hp, hc⟩ := hok
      obtain ⟨site, cs', h2, h3, h4, h5⟩ := ret_site fpu ju ret Γ cs hs e _ h1 τ hp hc
      refine ⟨[site], cs', by rw [sites, h2]; rfl, by rw [h3, h4]; exact hs, by rw [h3]; exact Grow.refl _ _, fun i => rfl, fun table i ht n slots r ρ hd => ?_⟩
      have h6 := h5 table i ht.head slots ρ hd
      rw [Cmd.exec, mark, Gen.exec]
      cases hv : e.value fpu Γ ρ with
      | none => rw [hv] at h6; rw [show (machine fpu ju table).eval (tag i) slots = none from h6]; trivial
      | some z =>
        rw [hv] at h6
        obtain ⟨w, h7, h8⟩ := h6
        rw [h7]
        cases hz : conv fpu ret z with
        | none => rw [hz] at h8; simp only at h8; simp only [Option.bind_some, hz]; exact congrArg some h8
        | some y => rw [hz] at h8; simp only [Option.bind_some, hz]; exact ⟨hd, w, rfl, h8⟩
  | .brk => cases h; exact ⟨[], cs, rfl, hs, Grow.refl _ _, fun i => rfl, fun table i ht n slots r ρ hd => by rw [Cmd.exec, mark, Gen.exec]; exact ⟨hd, rfl⟩⟩
  | .cont => cases h; exact ⟨[], cs, rfl, hs, Grow.refl _ _, fun i => rfl, fun table i ht n slots r ρ hd => by rw [Cmd.exec, mark, Gen.exec]; exact ⟨hd, rfl⟩⟩
  | .loop c b =>
    cases h with
    | @loop _ _ s ss h1 h2 =>
      rw [Cmd.Ok] at hok
      obtain ⟨site, cs1, g1, g2, g3, g4⟩ := cond_site fpu ju Γ cs hs c _ h1 hok.1
      rw [Cmd.defs] at hf hn
      obtain ⟨codes, cs', k1, k2, k3, k4, k5⟩ := cmds_sim fpu ju ret b ss h2 true Γ hok.2 cs1 (by rw [g2, g3]; exact hs) (by rw [g2]; exact hf) hn
      rw [g2] at k3 k5
      refine ⟨site :: codes, cs', by rw [sites, g1]; simp only [Option.bind_some]; rw [k1]; rfl, k2, k3, fun i => ?_, fun table i ht n slots r ρ hd => ?_⟩
      · rw [mark, k4]; simp; omega
      · rw [Cmd.exec, mark, Gen.exec]
        exact loop_agree hs k3 (fun slots ρ hd => g4 table i ht.head slots ρ hd) (fun slots ρ hd => k5 table (i + 1) ht.tail n slots r ρ hd) n slots ρ hd
  | .branch c b rest =>
    cases h with
    | @branch _ _ _ s ss es el h1 h2 h3 =>
      rw [Cmd.Ok] at hok
      obtain ⟨site, cs1, g1, g2, g3, g4⟩ := cond_site fpu ju Γ cs hs c _ h1 hok.1
      rw [Cmd.defs] at hf hn
      obtain ⟨codes, cs2, k1, k2, k3, k4, k5⟩ := cmds_sim fpu ju ret b ss h2 l Γ hok.2.1 cs1 (by rw [g2, g3]; exact hs) (by rw [g2]; exact hf.left) (List.nodup_append.1 hn).1
      rw [g2] at k3 k5
      obtain ⟨codes', cs3, codes'', cs', m1, m2, m3, m4, m5, m6, m7⟩ := rest_sim fpu ju ret rest es el h3 l Γ hok.2.2 cs2 k2 (hf.right k3 hn) (List.nodup_append.1 hn).2.1
      refine ⟨site :: (codes ++ (codes' ++ codes'')), cs', ?_, m3, k3.trans m4, fun i => ?_, fun table i ht n slots r ρ hd => ?_⟩
      · rw [sites, g1]; simp only [Option.bind_some]; rw [k1]; simp only [Option.bind_some]; rw [m1]; simp only [Option.bind_some]; rw [m2]; rfl
      · rw [mark, m6, m5, k4]; simp; omega
      · rw [Cmd.exec, mark, Gen.exec]
        refine cond_agree (g4 table i ht.head slots ρ hd) ((k5 table (i + 1) ht.tail.left n slots r ρ hd).less (fun _ _ h => h) fun _ _ h => h.more hs (k3.trans m4)) ?_
        have h5 := m7 table (i + 1 + codes.length) ht.tail.right n slots r ρ (hd.more hs k3)
        rw [k4]
        exact h5.less (fun _ _ h => h.less hs k3 fun _ _ h => h) fun _ _ h => (h.less hs k3 fun _ _ h => h).more hs (k3.trans m4)
theorem cmds_sim (fpu : Fpu) (ju : Types.Str.Val) (ret : Ty) (c : Cmds) (s : Stmts) (h : c.Is s) (l : Bool) (Γ : Types) (hok : c.Ok fpu ret l Γ) (cs : CS PTy) (hs : Static Γ cs.vars cs.nslot)
    (hf : FreshIn cs.vars c.defs) (hn : c.defs.Nodup) : CmdsSim fpu ju ret c s Γ cs := by
  match c with
  | .nil => cases h; exact ⟨[], cs, rfl, hs, Grow.refl _ _, fun i => rfl, fun table i ht n slots r ρ hd => by rw [Cmds.exec, marks, execs]; exact ⟨hd, rfl⟩⟩
  | .cons c cs0 =>
    cases h with
    | @cons _ _ s ss h1 h2 =>
      rw [Cmds.Ok] at hok
      rw [Cmds.defs] at hf hn
      obtain ⟨codes, cs1, k1, k2, k3, k4, k5⟩ := cmd_sim fpu ju ret c s h1 l Γ hok.1 cs hs hf.left (List.nodup_append.1 hn).1
      obtain ⟨codes', cs', m1, m2, m3, m4, m5⟩ := cmds_sim fpu ju ret cs0 ss h2 l (c.after Γ) hok.2 cs1 k2 (hf.right k3 hn) (List.nodup_append.1 hn).2.1
      have hsub := after_sub hs hf.left
      have hless : ∀ slots ρ, Dyn (c.after Γ) cs1.vars slots ρ → Dyn Γ cs.vars slots ρ := fun slots ρ h => h.less hs k3 hsub
      refine ⟨codes ++ codes', cs', by rw [sitess, k1]; simp only [Option.bind_some]; rw [m1]; rfl, m2.scope hsub, k3.trans m3, fun i => ?_, fun table i ht n slots r ρ hd => ?_⟩
      · rw [marks, m4, k4]; simp; omega
      · rw [Cmds.exec, marks, execs]
        have h5 := k5 table i ht.left n slots r ρ hd
        cases hE : c.exec fpu ret n Γ ρ <;> cases hO : Gen.exec (machine fpu ju table) n (mark s i).1 (slots, r) <;> rw [hE, hO] at h5 <;> simp only [Agree] at h5
        · next ρ' m =>
          obtain ⟨h6, h7⟩ := h5
          have h8 := m5 table (i + codes.length) ht.right n m.1 r ρ' h6
          rw [← h7] at h8
          rw [k4]
          rw [← h7]
          exact h8.less hless hless
        · exact h5
        · exact h5
        · exact h5
        · exact h5
        · trivial
        · trivial
theorem rest_sim (fpu : Fpu) (ju : Types.Str.Val) (ret : Ty) (c : Rest) (es : Elifs) (el : Else) (h : c.Is es el) (l : Bool) (Γ : Types) (hok : c.Ok fpu ret l Γ) (cs : CS PTy) (hs : Static Γ cs.vars cs.nslot)
    (hf : FreshIn cs.vars c.defs) (hn : c.defs.Nodup) : RestSim fpu ju ret c es el Γ cs := by
  match c with
  | .none =>
    cases h
    exact ⟨[], cs, [], cs, rfl, rfl, hs, Grow.refl _ _, fun i => rfl, fun i => rfl, fun table i ht n slots r ρ hd => by
      rw [Rest.exec, markElifs, execElifs, markElse, execElse]; exact ⟨hd, rfl⟩⟩
  | .els b =>
    cases h with
    | @els _ ss h1 =>
      rw [Rest.Ok] at hok
      rw [Rest.defs] at hf hn
      obtain ⟨codes, cs', k1, k2, k3, k4, k5⟩ := cmds_sim fpu ju ret b ss h1 l Γ hok cs hs hf hn
      refine ⟨[], cs, codes, cs', rfl, k1, k2, k3, fun i => rfl, fun i => k4 i, fun table i ht n slots r ρ hd => ?_⟩
      rw [Rest.exec, markElifs, execElifs, markElse, execElse]
      exact k5 table i ht n slots r ρ hd
  | .elif c b rest =>
    cases h with
    | @elif _ _ _ s ss es _ h1 h2 h3 =>
      rw [Rest.Ok] at hok
      obtain ⟨site, cs1, g1, g2, g3, g4⟩ := cond_site fpu ju Γ cs hs c _ h1 hok.1
      rw [Rest.defs] at hf hn
      obtain ⟨codes, cs2, k1, k2, k3, k4, k5⟩ := cmds_sim fpu ju ret b ss h2 l Γ hok.2.1 cs1 (by rw [g2, g3]; exact hs) (by rw [g2]; exact hf.left) (List.nodup_append.1 hn).1
      rw [g2] at k3 k5
      obtain ⟨codes', cs3, codes'', cs', m1, m2, m3, m4, m5, m6, m7⟩ := rest_sim fpu ju ret rest es el h3 l Γ hok.2.2 cs2 k2 (hf.right k3 hn) (List.nodup_append.1 hn).2.1
      refine ⟨site :: (codes ++ codes'), cs3, codes'', cs', ?_, m2, m3, k3.trans m4, fun i => ?_, m6, fun table i ht n slots r ρ hd => ?_⟩
      · rw [sitesElifs, g1]; simp only [Option.bind_some]; rw [k1]; simp only [Option.bind_some]; rw [m1]; rfl
      · rw [markElifs, m5, k4]; simp; omega
      · rw [Rest.exec, markElifs, execElifs]
        rw [List.cons_append, List.append_assoc] at ht
        refine cond_agree (g4 table i ht.head slots ρ hd) (k5 table (i + 1) ht.tail.left n slots r ρ hd) ?_
        have h5 := m7 table (i + 1 + codes.length) ht.tail.right n slots r ρ (hd.more hs k3)
        rw [k4]
        exact h5.less (fun _ _ h => h.less hs k3 fun _ _ h => h) fun _ _ h => h.less hs k3 fun _ _ h => h
end

/-! ## Lemmas: the whole function -/

/-- The statements end neither by `break` nor by `continue`. -/
def End.Inside : End → Prop
  | .brk _ => False
  | .cont _ => False
  | _ => True

theorem inside_test (v : Option Val) (E F : End) (h : E.Inside) (h' : F.Inside) : (withTest v E F).Inside := by
  unfold withTest
  split
  · exact h
  · exact h'
  · trivial

theorem next_test (v : Option Val) (E F : End) (ρ : Store) (h : E ≠ .next ρ) (h' : F ≠ .next ρ) : withTest v E F ≠ .next ρ := by
  unfold withTest
  split
  · exact h
  · exact h'
  · simp

theorem inside_repeated (test : Store → Option Val) (body : Store → End) : ∀ n ρ, (repeated test body n ρ).Inside := by
  intro n
  induction n with
  | zero => intro ρ; trivial
  | succ n ih =>
    intro ρ
    rw [repeated]
    refine inside_test _ _ _ ?_ trivial
    split
    · exact ih _
    · exact ih _
    all_goals trivial

mutual
theorem inside_cmd (fpu : Fpu) (ret : Ty) (c : Cmd) (n : Nat) (Γ : Types) (ρ : Store) (h : c.Ok fpu ret false Γ) : (c.exec fpu ret n Γ ρ).Inside := by
  match c with
  | .define x e => rw [Cmd.exec]; cases e.value fpu Γ ρ <;> trivial
  | .assign x e => rw [Cmd.exec]; cases e.value fpu Γ ρ <;> trivial
  | .update o x e => rw [Cmd.exec]; cases (Ex.op2 (.arith o) (.var x) e).value fpu Γ ρ <;> trivial
  | .ret e => rw [Cmd.exec]; cases (e.value fpu Γ ρ).bind (conv fpu ret) <;> trivial
  | .brk => rw [Cmd.Ok] at h; cases h
  | .cont => rw [Cmd.Ok] at h; cases h
  | .loop c b => rw [Cmd.exec]; exact inside_repeated _ _ _ _
  | .branch c b rest =>
    rw [Cmd.Ok] at h
    rw [Cmd.exec]
    exact inside_test _ _ _ (inside_cmds fpu ret b n Γ ρ h.2.1) (inside_rest fpu ret rest n Γ ρ h.2.2)
theorem inside_cmds (fpu : Fpu) (ret : Ty) (c : Cmds) (n : Nat) (Γ : Types) (ρ : Store) (h : c.Ok fpu ret false Γ) : (c.exec fpu ret n Γ ρ).Inside := by
  match c with
  | .nil => rw [Cmds.exec]; trivial
  | .cons c cs =>
    rw [Cmds.Ok] at h
    rw [Cmds.exec]
    have h1 := inside_cmd fpu ret c n Γ ρ h.1
    cases hE : c.exec fpu ret n Γ ρ <;> rw [hE] at h1 <;> simp only [End.andThen]
    · exact inside_cmds fpu ret cs n _ _ h.2
    all_goals exact h1
theorem inside_rest (fpu : Fpu) (ret : Ty) (c : Rest) (n : Nat) (Γ : Types) (ρ : Store) (h : c.Ok fpu ret false Γ) : (c.exec fpu ret n Γ ρ).Inside := by
  match c with
  | .none => rw [Rest.exec]; trivial
  | .els b => rw [Rest.Ok] at h; rw [Rest.exec]; exact inside_cmds fpu ret b n Γ ρ h
  | .elif c b rest =>
    rw [Rest.Ok] at h
    rw [Rest.exec]
    exact inside_test _ _ _ (inside_cmds fpu ret b n Γ ρ h.2.1) (inside_rest fpu ret rest n Γ ρ h.2.2)
end

mutual
theorem ends_cmd (fpu : Fpu) (ret : Ty) (c : Cmd) (n : Nat) (Γ : Types) (ρ ρ' : Store) (h : c.ends = true) : c.exec fpu ret n Γ ρ ≠ .next ρ' := by
  match c with
  | .define x e => cases h
  | .assign x e => cases h
  | .update o x e => cases h
  | .ret e => rw [Cmd.exec]; cases (e.value fpu Γ ρ).bind (conv fpu ret) <;> simp [withValue]
  | .brk => rw [Cmd.exec]; simp
  | .cont => rw [Cmd.exec]; simp
  | .loop c b => cases h
  | .branch c b rest =>
    rw [Cmd.ends, Bool.and_eq_true] at h
    rw [Cmd.exec]
    exact next_test _ _ _ _ (ends_cmds fpu ret b n Γ ρ ρ' h.1) (ends_rest fpu ret rest n Γ ρ ρ' h.2)
theorem ends_cmds (fpu : Fpu) (ret : Ty) (c : Cmds) (n : Nat) (Γ : Types) (ρ ρ' : Store) (h : c.ends = true) : c.exec fpu ret n Γ ρ ≠ .next ρ' := by
  match c with
  | .nil => cases h
  | .cons c .nil =>
    rw [Cmds.ends] at h
    rw [Cmds.exec]
    have h1 := fun ρ' => ends_cmd fpu ret c n Γ ρ ρ' h
    cases hE : c.exec fpu ret n Γ ρ <;> rw [hE] at h1 <;> simp only [End.andThen] <;> simp
    exact absurd rfl (h1 _)
  | .cons c (.cons d ds) =>
    rw [Cmds.ends] at h
    rw [Cmds.exec]
    cases hE : c.exec fpu ret n Γ ρ <;> simp only [End.andThen]
    · exact ends_cmds fpu ret (.cons d ds) n _ _ _ h
    all_goals simp
theorem ends_rest (fpu : Fpu) (ret : Ty) (c : Rest) (n : Nat) (Γ : Types) (ρ ρ' : Store) (h : c.ends = true) : c.exec fpu ret n Γ ρ ≠ .next ρ' := by
  match c with
  | .none => cases h
  | .els b => rw [Rest.ends] at h; rw [Rest.exec]; exact ends_cmds fpu ret b n Γ ρ ρ' h
  | .elif c b rest =>
    rw [Rest.ends, Bool.and_eq_true] at h
    rw [Rest.exec]
    exact next_test _ _ _ _ (ends_cmds fpu ret b n Γ ρ ρ' h.1) (ends_rest fpu ret rest n Γ ρ ρ' h.2)
end

theorem named_type (t : Ty) : typeNamed (typeText t) = some t.p := by
  cases t with
  | num t => cases t with
    | bool => rfl
    | int t => cases t <;> rfl
    | flt F => cases F <;> rfl
  | str => rfl

theorem params_types (ps : List (Name × Ty)) : paramTypes (ps.map fun q => (typeText q.2, q.1)) = some (params ps) := by
  induction ps with
  | nil => rfl
  | cons q ps ih =>
    simp only [List.map_cons]
    rw [paramTypes]
    simp only [named_type, Option.bind_some, ih, Option.map_some]
    rfl

theorem param_slot (x : Name) (ps : List (Name × PTy)) : ∀ k b, Real.paramVars k ps x = some (some b) → k ≤ b.2 ∧ b.2 < k + ps.length ∧ (ps[b.2 - k]?).map (·.1) = some x := by
  induction ps with
  | nil => intro k b h; simp [Real.paramVars] at h
  | cons q ps ih =>
    intro k b h
    obtain ⟨y, t⟩ := q
    rw [Real.paramVars] at h
    cases hp : Real.paramVars (k + 1) ps x with
    | some c =>
      rw [hp] at h
      simp only [Option.some.injEq] at h
      subst h
      obtain ⟨h1, h2, h3⟩ := ih _ _ hp
      refine ⟨by omega, by simp only [List.length_cons]; omega, ?_⟩
      rw [show b.2 - k = (b.2 - (k + 1)) + 1 by omega, List.getElem?_cons_succ]
      exact h3
    | none =>
      rw [hp] at h
      simp only at h
      split at h
      · next e => simp only [Option.some.injEq] at h; subst h; subst e; simp
      · simp at h

theorem params_static (ps : List (Name × Ty)) (hn : (ps.map (·.1)).Nodup) : Static (argType ps) (Real.paramVars 0 (params ps)) (params ps).length where
  typed n := Real.paramVars_typed _ _ _
  below n b h := by have := (param_slot n _ 0 b h).2.1; omega
  apart n m b c h1 h2 h := by
    have h3 := (param_slot n _ 0 b h1).2.2
    have h4 := (param_slot m _ 0 c h2).2.2
    rw [h, h4] at h3
    simpa using h3.symm
  dom n t h := by
    have h1 := tenv_params n ps 0 hn
    rw [h] at h1
    unfold tenvOf at h1
    cases hp : Real.paramVars 0 (params ps) n with
    | none => rw [hp] at h1; simp at h1
    | some b =>
      cases b with
      | none => exact absurd hp (Real.paramVars_typed _ _ _)
      | some b => rw [hp] at h1; simp only [Option.map_some, Option.some.injEq] at h1; exact ⟨b.2, by rw [← h1]⟩

/-! ## The theorems -/

/-- **C163.** A call returns at most one value, and a call that returns is not undefined. -/
theorem words_call_deterministic (fpu : Fpu) (ju : Types.Str.Val) (c : FnCode) (junk : Nat → WV) (args : List WV) (v : WV) (h : Returns fpu ju c junk args v) :
    (∀ w, Returns fpu ju c junk args w → w = v) ∧ ¬Undefined fpu ju c junk args := by
  obtain ⟨slots, hv, k, hk⟩ := h
  have key : ∀ k' r, steps (machine fpu ju c.table) c.blocks.blk k' (start fun i => args.getD i (junk i)) = r → (∀ q, r ≠ .run q) → Res.halt (slots, some v) = r :=
    fun k' r h hr => steps_det (machine fpu ju c.table) c.blocks.blk hk (by simp) h hr
  refine ⟨?_, ?_⟩
  · rintro w ⟨slots', _, k', h'⟩
    have := key k' _ h' (by simp)
    simp only [Res.halt.injEq, Prod.mk.injEq, Option.some.injEq] at this
    exact this.2.symm
  · rintro (⟨k', h'⟩ | ⟨k', h'⟩ | ⟨slots', r, ⟨k', h'⟩, hr⟩)
    · have := key k' _ h' (by simp); cases this
    · have := key k' _ h' (by simp); cases this
    · have := key k' _ h' (by simp)
      simp only [Res.halt.injEq, Prod.mk.injEq] at this
      rcases hr with rfl | rfl
      · simp at this
      · exact hv (Option.some.inj this.2)

/-! ## Lemmas: validation -/

/-- What validation knows: the variables in scope with their types; variables that become known are among the names. -/
structure VGrow (tenv tenv' : Name → Option PTy) (names : List Name) : Prop where
  keep : ∀ n t, tenv n = some t → tenv' n = some t
  new : ∀ n, tenv n = none → n ∉ names → tenv' n = none

theorem VGrow.refl (tenv : Name → Option PTy) (names : List Name) : VGrow tenv tenv names := ⟨fun _ _ h => h, fun _ h _ => h⟩

theorem VGrow.trans {a b c : Name → Option PTy} {ns ms : List Name} (h : VGrow a b ns) (k : VGrow b c ms) : VGrow a c (ns ++ ms) where
  keep n x hn := k.keep n x (h.keep n x hn)
  new n hn hm := by
    simp only [List.mem_append, not_or] at hm
    exact k.new n (h.new n hn hm.1) hm.2

theorem VGrow.types {Γ : Types} {tenv tenv' : Name → Option PTy} {names : List Name} (h : TypesOk Γ tenv) (hg : VGrow tenv tenv' names) : TypesOk Γ tenv' := fun x t hx => hg.keep x _ (h x t hx)

theorem VGrow.fresh {tenv tenv' : Name → Option PTy} {a b : List Name} (hg : VGrow tenv tenv' a) (h : ∀ x ∈ a ++ b, tenv x = none) (hn : (a ++ b).Nodup) : ∀ x ∈ b, tenv' x = none :=
  fun x hx => hg.new x (h x (by simp [hx])) fun ha => (List.nodup_append.1 hn).2.2 x ha x hx rfl

/-- Validation accepts, knowing the variables afterwards. -/
def Passes (r : Option (Name → Option PTy)) (tenv : Name → Option PTy) (Γ : Types) (names : List Name) : Prop := ∃ tenv', r = some tenv' ∧ TypesOk Γ tenv' ∧ VGrow tenv tenv' names

theorem vex_ok (fpu : Fpu) (ju : Types.Str.Val) (Γ : Types) (tenv : Name → Option PTy) (ht : TypesOk Γ tenv) (p : Ex) (e : Expr) (he : p.Is e.toTree) (τ : Ty) (hp : ExOk fpu Γ p τ) :
    evalE arity (vSem fpu tenv) (undotE e) = some τ.p := by
  rw [eval_tree, undot_tree]
  exact (types_ex fpu ju ht hp _ he).2

theorem vcond_ok (fpu : Fpu) (ju : Types.Str.Val) (Γ : Types) (tenv : Name → Option PTy) (ht : TypesOk Γ tenv) (p : Ex) (e : Expr) (he : p.Is e.toTree) (hp : ExOk fpu Γ p (.num .bool)) :
    vCond (vSem fpu) tenv e = some tenv := by
  unfold vCond
  rw [vex_ok fpu ju Γ tenv ht p e he _ hp]
  rfl

theorem vcast_self (a : PTy) : vCast a a = true := by unfold vCast; simp

theorem vcast_like {c a : Ty} (h : converts c a = true) : vCast a.p c.p = true := by
  cases a with
  | str =>
    cases c with
    | str => rfl
    | num c => cases h
  | num a =>
    cases c with
    | str => cases h
    | num c =>
      have h : Real.converts c a = true := h
      by_cases ha : a = .bool
      · subst ha
        cases c <;> simp [Real.converts] at h
        rfl
      · have hc : c ≠ .bool := by rintro rfl; cases a <;> simp [Real.converts] at h ha
        have : ∃ r, Real.join a c = some r := by
          cases hj : Real.join a c with
          | some c => exact ⟨c, rfl⟩
          | none => rcases Real.join_none hj with h | h <;> contradiction
        obtain ⟨r, hr⟩ := this
        unfold vCast
        rw [show normT (Ty.num a).p (Ty.num c).p = some r.p from Real.norm_p hr]; simp

theorem vbin_arith (o : Arith) {a b c : Real.Ty} (h : Real.join a b = some c) : vBin o.sign a.p b.p = some c.p := by
  rw [vBin_num _ fun h => p_ne a h.1]
  unfold Real.vBin
  rw [if_pos (by cases o <;> rfl)]
  exact Real.norm_p h

mutual
theorem vcmd_ok (fpu : Fpu) (ju : Types.Str.Val) (ret : Ty) (c : Cmd) (s : Stmt) (h : c.Is s) (l : Bool) (Γ : Types) (hok : c.Ok fpu ret l Γ) (tenv : Name → Option PTy) (ht : TypesOk Γ tenv)
    (hf : ∀ x ∈ c.defs, tenv x = none) (hn : c.defs.Nodup) : Passes (vStmt (vSem fpu) ret.p l s tenv) tenv (c.after Γ) c.defs := by
  match c, s, h with
  | .define x e, .expr s, .define he =>
    obtain ⟨e', rfl, he'⟩ := he
    rw [Cmd.Ok] at hok
    obtain ⟨⟨t, hp⟩, hb⟩ := hok
    have hty := hp.typed
    have h1 := vex_ok fpu ju Γ tenv ht e e' he' t hp
    have hx : tenv x = none := hf x (by rw [Cmd.defs]; simp)
    refine ⟨fun n => if n = x then some t.p else tenv n, ?_, ?_, ?_⟩
    · rw [vStmt, undotE, undotE, undotO, vExpr, vDefine, hx, h1]; rfl
    · rw [Cmd.after, hty]
      intro n s hs
      unfold setType at hs
      show (if n = x then _ else _) = _
      by_cases hnx : n = x
      · rw [if_pos hnx] at hs ⊢; rw [Option.some.inj hs]
      · rw [if_neg hnx] at hs ⊢; exact ht n s hs
    · rw [Cmd.defs]
      refine ⟨fun n t hk => ?_, fun n hk hm => ?_⟩
      · by_cases hnx : n = x
        · subst hnx; rw [hx] at hk; simp at hk
        · simp only [if_neg hnx]; exact hk
      · have hnx : n ≠ x := by simpa using hm
        simp only [if_neg hnx]; exact hk
  | .assign x e, .expr s, .assign hl he =>
    obtain ⟨e', rfl, he'⟩ := he
    rw [Cmd.Ok] at hok
    obtain ⟨t, hp, hx⟩ := hok
    have h1 := vex_ok fpu ju Γ tenv ht e e' he' t hp
    refine ⟨tenv, ?_, ?_, VGrow.refl _ _⟩
    · rw [vStmt, undotE, undotE, undot_names hl, vExpr]
      · unfold vAssign
        rw [ht x t hx, h1]
        simp only [Option.bind_some, if_true, vcast_self]
    · rw [Cmd.after]; exact ht
  | .update o x e, .expr s, .update hl he =>
    obtain ⟨e', rfl, he'⟩ := he
    rw [Cmd.Ok] at hok
    obtain ⟨w, hp, hx⟩ := hok
    obtain ⟨s, t, rfl, hty, hj, _⟩ := type_update hp.typed hx
    have h1 := vex_ok fpu ju Γ tenv ht e e' he' (.num t) ⟨hty, hp.lits.2, hp.guarded.2, hp.even.2⟩
    refine ⟨tenv, ?_, ?_, VGrow.refl _ _⟩
    · rw [vStmt, undotE, undotE, undot_names hl]
      have : vExpr (vSem fpu) tenv (.bin (.un none (.var x)) (Function.Arith.assignSign o) (undotE e')) = vAssign (vSem fpu) tenv x (Function.Arith.assignSign o) (undotE e') := by cases o <;> rfl
      rw [this]
      unfold vAssign
      rw [ht x _ hx, h1]
      simp only [Option.bind_some, if_neg (Function.assign_ne o), Function.base_assign]
      rw [show vBin o.sign (Ty.num s).p (Ty.num t).p = _ from vbin_arith o hj]; rfl
    · rw [Cmd.after]; exact ht
  | .ret e, .retVal s, .ret he =>
    rw [Cmd.Ok] at hok
    obtain ⟨t, hp, hc⟩ := hok
    have h1 := vex_ok fpu ju Γ tenv ht e s he t hp
    refine ⟨tenv, ?_, by rw [Cmd.after]; exact ht, VGrow.refl _ _⟩
    rw [vStmt, h1]
    simp only [Option.bind_some, vcast_like hc, if_true]
  | .brk, .brk, .brk =>
    rw [Cmd.Ok] at hok
    exact ⟨tenv, by rw [vStmt, if_pos hok], by rw [Cmd.after]; exact ht, VGrow.refl _ _⟩
  | .cont, .cont, .cont =>
    rw [Cmd.Ok] at hok
    exact ⟨tenv, by rw [vStmt, if_pos hok], by rw [Cmd.after]; exact ht, VGrow.refl _ _⟩
  | .loop c b, .whileLoop s ss, .loop hc hb =>
    rw [Cmd.Ok] at hok
    rw [Cmd.defs] at hf hn ⊢
    obtain ⟨v, h1, h2, h3⟩ := vcmds_ok fpu ju ret b ss hb true Γ hok.2 tenv ht hf hn
    exact ⟨v, by rw [vStmt, vcond_ok fpu ju Γ tenv ht c s hc hok.1, Option.bind_some, h1], by rw [Cmd.after]; exact h2, h3⟩
  | .branch c b rest, .ifElse s ss es el, .branch hc hb hr =>
    rw [Cmd.Ok] at hok
    rw [Cmd.defs] at hf hn ⊢
    obtain ⟨v, h1, h2, h3⟩ := vcmds_ok fpu ju ret b ss hb l Γ hok.2.1 tenv ht (fun x hx => hf x (by simp [hx])) (List.nodup_append.1 hn).1
    obtain ⟨w, h4, h5, h6⟩ := vrest_ok fpu ju ret rest es el hr l Γ hok.2.2 v h2 (h3.fresh hf hn) (List.nodup_append.1 hn).2.1
    exact ⟨w, by rw [vStmt, vcond_ok fpu ju Γ tenv ht c s hc hok.1, Option.bind_some, h1, Option.bind_some, h4], by rw [Cmd.after]; exact h5, h3.trans h6⟩
theorem vcmds_ok (fpu : Fpu) (ju : Types.Str.Val) (ret : Ty) (c : Cmds) (s : Stmts) (h : c.Is s) (l : Bool) (Γ : Types) (hok : c.Ok fpu ret l Γ) (tenv : Name → Option PTy) (ht : TypesOk Γ tenv)
    (hf : ∀ x ∈ c.defs, tenv x = none) (hn : c.defs.Nodup) : Passes (vStmts (vSem fpu) ret.p l s tenv) tenv Γ c.defs := by
  match c, s, h with
  | .nil, .nil, .nil => exact ⟨tenv, by rw [vStmts], ht, VGrow.refl _ _⟩
  | .cons c cs, .cons s ss, .cons h1 h2 =>
    rw [Cmds.Ok] at hok
    rw [Cmds.defs] at hf hn ⊢
    obtain ⟨v, k1, k2, k3⟩ := vcmd_ok fpu ju ret c s h1 l Γ hok.1 tenv ht (fun x hx => hf x (by simp [hx])) (List.nodup_append.1 hn).1
    obtain ⟨w, k4, k5, k6⟩ := vcmds_ok fpu ju ret cs ss h2 l _ hok.2 v k2 (k3.fresh hf hn) (List.nodup_append.1 hn).2.1
    exact ⟨w, by rw [vStmts, k1, Option.bind_some, k4], VGrow.types ht (k3.trans k6), k3.trans k6⟩
theorem vrest_ok (fpu : Fpu) (ju : Types.Str.Val) (ret : Ty) (c : Rest) (es : Elifs) (el : Else) (h : c.Is es el) (l : Bool) (Γ : Types) (hok : c.Ok fpu ret l Γ) (tenv : Name → Option PTy) (ht : TypesOk Γ tenv)
    (hf : ∀ x ∈ c.defs, tenv x = none) (hn : c.defs.Nodup) : Passes ((vElifs (vSem fpu) ret.p l es tenv).bind fun v => vElse (vSem fpu) ret.p l el v) tenv Γ c.defs := by
  match c, es, el, h with
  | .none, .nil, .none, .none => exact ⟨tenv, by rw [vElifs, Option.bind_some, vElse], ht, VGrow.refl _ _⟩
  | .els b, .nil, .some ss, .els hb =>
    rw [Rest.Ok] at hok
    rw [Rest.defs] at hf hn ⊢
    obtain ⟨v, h1, h2, h3⟩ := vcmds_ok fpu ju ret b ss hb l Γ hok tenv ht hf hn
    exact ⟨v, by rw [vElifs, Option.bind_some, vElse, h1], h2, h3⟩
  | .elif c b rest, .cons s ss es, el, .elif hc hb hr =>
    rw [Rest.Ok] at hok
    rw [Rest.defs] at hf hn ⊢
    obtain ⟨v, h1, h2, h3⟩ := vcmds_ok fpu ju ret b ss hb l Γ hok.2.1 tenv ht (fun x hx => hf x (by simp [hx])) (List.nodup_append.1 hn).1
    obtain ⟨w, h4, h5, h6⟩ := vrest_ok fpu ju ret rest es el hr l Γ hok.2.2 v h2 (h3.fresh hf hn) (List.nodup_append.1 hn).2.1
    exact ⟨w, by rw [vElifs, vcond_ok fpu ju Γ tenv ht c s hc hok.1, Option.bind_some, h1, Option.bind_some, h4], h5, h3.trans h6⟩
end

theorem vparams_ok (ps : List (Name × PTy)) : ∀ v : Name → Option PTy, (ps.map (·.1)).Nodup → (∀ q ∈ ps, v q.1 = none) →
    ∃ w, vParams ps v = some w ∧ (∀ q ∈ ps, w q.1 = some q.2) ∧ ∀ n, n ∉ ps.map (·.1) → w n = v n := by
  induction ps with
  | nil => intro v _ _; exact ⟨v, rfl, by simp, by simp⟩
  | cons q ps ih =>
    intro v hn hv
    rw [List.map_cons, List.nodup_cons] at hn
    obtain ⟨w, h1, h2, h3⟩ := ih (fun n => if n = q.1 then some q.2 else v n) hn.2 fun p hp => by
      have : p.1 ≠ q.1 := fun h => hn.1 (by rw [← h]; exact List.mem_map_of_mem hp)
      simp only [if_neg this]
      exact hv p (by simp [hp])
    refine ⟨w, by rw [vParams, hv q (by simp)]; exact h1, fun p hp => ?_, fun n hm => ?_⟩
    · rcases List.mem_cons.1 hp with rfl | hp
      · rw [h3 _ hn.1, if_pos rfl]
      · exact h2 p hp
    · simp only [List.map_cons, List.mem_cons, not_or] at hm
      rw [h3 n hm.2, if_neg hm.1]

/-- Validation accepts the function. -/
theorem valid_function (fpu : Fpu) (ju : Types.Str.Val) (ret : Ty) (ps : List (Name × Ty)) (body : Cmds) (ss : Stmts) (his : body.Is ss) (hok : body.Ok fpu ret false (argType ps))
    (hn : (ps.map (·.1) ++ body.defs).Nodup) : ∃ v, ((vParams (params ps) fun _ => none).bind fun v => vStmts (vSem fpu) ret.p false ss v) = some v := by
  have hnp := (List.nodup_append.1 hn).1
  have hp1 : (params ps).map (·.1) = ps.map (·.1) := by simp [params]
  obtain ⟨w, h1, h2, h3⟩ := vparams_ok (params ps) (fun _ => none) (by rw [hp1]; exact hnp) (fun _ _ => rfl)
  have ht : TypesOk (argType ps) w := by
    intro x t hx
    unfold argType at hx
    exact h2 (x, t.p) (by
      simp only [params, List.mem_map]
      exact ⟨(x, t), Function.lookup_mem _ _ _ hx, rfl⟩)
  obtain ⟨v, h4, _⟩ := vcmds_ok fpu ju ret body ss his false (argType ps) hok w ht
    (fun x hx => h3 x fun hm => (List.nodup_append.1 hn).2.2 x (by rw [hp1] at hm; exact hm) x hx rfl) (List.nodup_append.1 hn).2.1
  exact ⟨v, by rw [h1, Option.bind_some, h4]⟩

/-- The code of the body, on slots that hold the values of the variables in scope. -/
theorem body_runs (fpu : Fpu) (ju : Types.Str.Val) (ret : Ty) (Γ : Types) (cs : CS PTy) (hst : Static Γ cs.vars cs.nslot) (body : Cmds) (ss : Stmts) (his : body.Is ss) (hok : body.Ok fpu ret false Γ)
    (hc : body.Clean) (hf : FreshIn cs.vars body.defs) (hn : body.defs.Nodup) :
    ∃ codes cs' st, sitess fpu ju ret.p ss cs = some (codes, cs') ∧ genFunction (fun _ => false) (marks ss 0).1 = some st ∧ ∀ slots ρ, Dyn Γ cs.vars slots ρ →
      (∀ slots' v, Ran fpu ju ⟨codes, st⟩ slots slots' v → ∃ n ρ' z, body.exec fpu ret n Γ ρ = .ret ρ' z ∧ Rep z v ∧ Dyn Γ cs.vars slots' ρ') ∧
      (∀ n ρ' z, body.exec fpu ret n Γ ρ = .ret ρ' z → ∃ slots' v, Ran fpu ju ⟨codes, st⟩ slots slots' v ∧ Rep z v ∧ Dyn Γ cs.vars slots' ρ') ∧
      (Stuck fpu ju ⟨codes, st⟩ slots ↔ ∃ n, body.exec fpu ret n Γ ρ = .undefined ∨ ∃ ρ', body.exec fpu ret n Γ ρ = .next ρ') ∧
      ((¬∃ slots' v, Ran fpu ju ⟨codes, st⟩ slots slots' v) ∧ ¬Stuck fpu ju ⟨codes, st⟩ slots ↔ ∀ n, body.exec fpu ret n Γ ρ = .more) := by
  obtain ⟨codes, cs', k1, k2, k3, k4, k5⟩ := cmds_sim fpu ju ret body ss his false Γ hok cs hst hf hn
  obtain ⟨st, h5⟩ := accepted_body_generates (fun _ => false) (marks ss 0).1 ((Function.marks_jumps _ _ _).2 (is_jumpss body _ his false _ hok))
  have hcl : Stmts.Clean (fun _ => false) (marks ss 0).1 := (Function.marks_clean _ _).2 (is_cleans body _ his hc)
  refine ⟨codes, cs', st, k1, h5, fun slots ρ hd => ?_⟩
  have h6 := fun n => k5 codes 0 (fun k s hk => by rw [Nat.zero_add]; exact hk) n _ none _ hd
  obtain ⟨c1, c2, c3⟩ := control_flow_partial (machine fpu ju codes) (fun _ => false) _ hcl st h5 slots
  have g1 : ∀ slots' v, Ran fpu ju ⟨codes, st⟩ slots slots' v → ∃ n ρ' z, body.exec fpu ret n Γ ρ = .ret ρ' z ∧ Rep z v ∧ Dyn Γ cs.vars slots' ρ' := by
    intro slots' v hr
    unfold Ran at hr
    simp only [c1, Ends] at hr
    obtain ⟨hv, n, h | h⟩ := hr
    · have := h6 n; rw [h] at this
      cases hE : body.exec fpu ret n Γ ρ <;> rw [hE] at this <;> simp [Agree] at this
    · have := h6 n; rw [h] at this
      cases hE : body.exec fpu ret n Γ ρ <;> rw [hE] at this <;> simp only [Agree] at this
      · next ρ' z =>
        obtain ⟨hd', w, hw, hr⟩ := this
        exact ⟨n, ρ', z, hE, by rw [Option.some.inj hw]; exact hr, hd'⟩
      · exact absurd (Option.some.inj this) hv
  have g2 : ∀ n ρ' z, body.exec fpu ret n Γ ρ = .ret ρ' z → ∃ slots' v, Ran fpu ju ⟨codes, st⟩ slots slots' v ∧ Rep z v ∧ Dyn Γ cs.vars slots' ρ' := by
    intro n ρ' z h
    have := h6 n; rw [h] at this
    cases hO : execs (machine fpu ju codes) n (marks ss 0).1 (slots, none) <;> rw [hO] at this <;> simp only [Agree] at this
    next m =>
      obtain ⟨hd', w, hw, hr⟩ := this
      exact ⟨m.1, w, ⟨rep_ne hr, (c1 _).2 ⟨n, .inr (by rw [hO, ← hw])⟩⟩, hr, hd'⟩
  have g3 : Stuck fpu ju ⟨codes, st⟩ slots ↔ ∃ n, body.exec fpu ret n Γ ρ = .undefined ∨ ∃ ρ', body.exec fpu ret n Γ ρ = .next ρ' := by
    unfold Stuck
    constructor
    · rintro (h | h | ⟨slots', r, h, hr⟩)
      · obtain ⟨n, h⟩ := c2.1 h
        have := h6 n; rw [h] at this
        cases hE : body.exec fpu ret n Γ ρ <;> rw [hE] at this <;> simp [Agree] at this
        exact ⟨n, .inl hE⟩
      · exact absurd h c3
      · obtain ⟨n, h | h⟩ := (c1 _).1 h
        · have := h6 n; rw [h] at this
          cases hE : body.exec fpu ret n Γ ρ <;> rw [hE] at this <;> simp [Agree] at this
          exact ⟨n, .inr ⟨_, hE⟩⟩
        · have := h6 n; rw [h] at this
          cases hE : body.exec fpu ret n Γ ρ <;> rw [hE] at this <;> simp only [Agree] at this
          · next z =>
            obtain ⟨_, w, hw, hrep⟩ := this
            rcases hr with rfl | rfl
            · cases hw
            · exact absurd (Option.some.inj hw).symm (rep_ne hrep)
          · exact ⟨n, .inl hE⟩
    · rintro ⟨n, h | ⟨ρ', h⟩⟩
      · have := h6 n; rw [h] at this
        cases hO : execs (machine fpu ju codes) n (marks ss 0).1 (slots, none) <;> rw [hO] at this <;> simp only [Agree] at this
        · next m => exact .inr (.inr ⟨m.1, m.2, (c1 _).2 ⟨n, .inr hO⟩, .inr this⟩)
        · exact .inl (c2.2 ⟨n, hO⟩)
      · have := h6 n; rw [h] at this
        cases hO : execs (machine fpu ju codes) n (marks ss 0).1 (slots, none) <;> rw [hO] at this <;> simp only [Agree] at this
        next m => exact .inr (.inr ⟨m.1, none, (c1 _).2 ⟨n, .inl (by rw [hO, ← this.2])⟩, .inl rfl⟩)
  refine ⟨g1, g2, g3, ?_⟩
  simp only [g3]
  constructor
  · rintro ⟨h5, h6⟩ n
    have h7 := inside_cmds fpu ret body n Γ ρ hok
    cases hE : body.exec fpu ret n Γ ρ <;> rw [hE] at h7
    · exact absurd ⟨n, .inr ⟨_, hE⟩⟩ h6
    · cases h7
    · cases h7
    · obtain ⟨m, v, hv, _⟩ := g2 _ _ _ hE
      exact absurd ⟨m, v, hv⟩ h5
    · exact absurd ⟨n, .inl hE⟩ h6
  · intro h
    refine ⟨fun ⟨m, v, hv⟩ => ?_, by simp [h]⟩
    obtain ⟨n, ρ', z, hE, _⟩ := g1 m v hv
    rw [h n] at hE; cases hE

/-- **C163.** A text that is read as a function over booleans, numbers and strings, with distinct names of arguments and variables, well typed, and in which control is structured as C36 requires,
is compiled; and for all arguments the code returns exactly what the statements return, converted to the declared type, whatever the last words of the arguments are; is undefined exactly if the
statements reach an undefined operation or the end of the body; and runs forever exactly if the statements do not end within any number of iterations. -/
theorem words_function_computes (fpu : Fpu) (ju : Types.Str.Val) (cfg : Cfg) (src : List Char) (ret : Ty) (ps : List (Name × Ty)) (body : Cmds) (hsrc : ReadsFn cfg src ret ps body)
    (hok : body.Ok fpu ret false (argType ps)) (hc : body.Clean) (hn : (ps.map (·.1) ++ body.defs).Nodup) :
    ∃ code, compileFn fpu ju cfg src = some code ∧ ∀ args ws junk, Passed ps args ws →
      (∀ v, Returns fpu ju code junk ws v → ∃ n ρ z, body.exec fpu ret n (argType ps) (argValue ps args) = .ret ρ z ∧ Rep z v) ∧
      (∀ n ρ z, body.exec fpu ret n (argType ps) (argValue ps args) = .ret ρ z → ∃ v, Returns fpu ju code junk ws v ∧ Rep z v) ∧
      (Undefined fpu ju code junk ws ↔ ∃ n, body.exec fpu ret n (argType ps) (argValue ps args) = .undefined ∨ ∃ ρ, body.exec fpu ret n (argType ps) (argValue ps args) = .next ρ) ∧
      ((¬∃ v, Returns fpu ju code junk ws v) ∧ ¬Undefined fpu ju code junk ws ↔ ∀ n, body.exec fpu ret n (argType ps) (argValue ps args) = .more) := by
  obtain ⟨f, rest, h1, h2, h3, h4⟩ := hsrc
  have hnp := (List.nodup_append.1 hn).1
  obtain ⟨codes, cs', st, k1, h5, k5⟩ := body_runs fpu ju ret (argType ps) ⟨0, (params ps).length, Real.paramVars 0 (params ps)⟩ (params_static ps hnp) body f.body h4 hok hc
    (fun x hx => Real.paramVars_none _ _ (fun hm => (List.nodup_append.1 hn).2.2 x (by simpa [params] using hm) x hx rfl) _) (List.nodup_append.1 hn).2.1
  refine ⟨⟨codes, st⟩, ?_, fun args ws junk hp => ?_⟩
  · unfold compileFn
    rw [h1]
    simp only
    rw [h2, named_type, h3, params_types]
    obtain ⟨v, hval⟩ := valid_function fpu ju ret ps body f.body h4 hok hn
    simp only [Option.bind_some]
    rw [hval]
    simp only [Option.bind_some]
    rw [k1]
    simp only [Option.bind_some]
    rw [h5]
    rfl
  · have hd : Dyn (argType ps) (Real.paramVars 0 (params ps)) (fun i => ws.getD i (junk i)) (argValue ps args) := ⟨fun x σ v hσ hv => env_params x ps args ws 0 _ hnp hp (fun i hi => by simp [hi]) σ v hσ hv, args_ok ps args ws hp⟩
    obtain ⟨g1, g2, g3, g4⟩ := k5 _ _ hd
    refine ⟨fun v ⟨m, hr⟩ => ?_, fun n ρ z h => ?_, g3, ?_⟩
    · obtain ⟨n, ρ, z, h6, h7, _⟩ := g1 m v hr
      exact ⟨n, ρ, z, h6, h7⟩
    · obtain ⟨m, v, h6, h7, _⟩ := g2 n ρ z h
      exact ⟨v, ⟨m, h6⟩, h7⟩
    · rw [← g4]
      exact and_congr_left' (not_congr ⟨fun ⟨v, m, h⟩ => ⟨m, v, h⟩, fun ⟨m, v, h⟩ => ⟨v, m, h⟩⟩)

/-- **C163.** If every way through the body ends with `return`, the call is undefined only if the statements reach an undefined operation; and if the statements return a value, the call returns
that value. -/
theorem words_function_returns (fpu : Fpu) (ju : Types.Str.Val) (cfg : Cfg) (src : List Char) (ret : Ty) (ps : List (Name × Ty)) (body : Cmds) (hsrc : ReadsFn cfg src ret ps body)
    (hok : body.Ok fpu ret false (argType ps)) (hc : body.Clean) (hn : (ps.map (·.1) ++ body.defs).Nodup) (he : body.ends = true) :
    ∃ code, compileFn fpu ju cfg src = some code ∧ ∀ args ws junk, Passed ps args ws →
      (Undefined fpu ju code junk ws ↔ ∃ n, body.exec fpu ret n (argType ps) (argValue ps args) = .undefined) ∧
      ∀ n ρ z, body.exec fpu ret n (argType ps) (argValue ps args) = .ret ρ z → ∃ v, Returns fpu ju code junk ws v ∧ Rep z v := by
  obtain ⟨code, h1, h2⟩ := words_function_computes fpu ju cfg src ret ps body hsrc hok hc hn
  refine ⟨code, h1, fun args ws junk hp => ?_⟩
  obtain ⟨_, h3, h4, _⟩ := h2 args ws junk hp
  refine ⟨?_, h3⟩
  rw [h4]
  constructor
  · rintro ⟨n, h | ⟨ρ, h⟩⟩
    · exact ⟨n, h⟩
    · exact absurd h (ends_cmds fpu ret body n _ _ _ he)
  · rintro ⟨n, h⟩
    exact ⟨n, .inl h⟩

/-! ## Texts -/

mutual
/-- Variables have names the grammar admits. -/
def Cmd.Writable (cfg : Cfg) : Cmd → Prop
  | .define x e => NameOk cfg x ∧ e.Writable cfg
  | .assign x e => PathOk cfg x ∧ e.Writable cfg
  | .update _ x e => PathOk cfg x ∧ e.Writable cfg
  | .ret e => e.Writable cfg
  | .brk => True
  | .cont => True
  | .loop c b => c.Writable cfg ∧ b.Writable cfg
  | .branch c b rest => c.Writable cfg ∧ b.Writable cfg ∧ rest.Writable cfg
def Cmds.Writable (cfg : Cfg) : Cmds → Prop
  | .nil => True
  | .cons s ss => s.Writable cfg ∧ ss.Writable cfg
def Rest.Writable (cfg : Cfg) : Rest → Prop
  | .none => True
  | .els b => b.Writable cfg
  | .elif c b rest => c.Writable cfg ∧ b.Writable cfg ∧ rest.Writable cfg
end

mutual
/-- A statement as it may be written. -/
def Cmd.stmt : Cmd → Stmt
  | .define x e => .expr (.bin (.un none (.define x)) .assign e.tree.toExpr)
  | .assign x e => .expr (.bin (.un none (accessTo x .nil)) .assign e.tree.toExpr)
  | .update o x e => .expr (.bin (.un none (accessTo x .nil)) (assignSign o) e.tree.toExpr)
  | .ret e => .retVal e.tree.toExpr
  | .brk => .brk
  | .cont => .cont
  | .loop c b => .whileLoop c.tree.toExpr b.stmts
  | .branch c b rest => .ifElse c.tree.toExpr b.stmts rest.elifs rest.last
def Cmds.stmts : Cmds → Stmts
  | .nil => .nil
  | .cons s ss => .cons s.stmt ss.stmts
def Rest.elifs : Rest → Elifs
  | .none => .nil
  | .els _ => .nil
  | .elif c b rest => .cons c.tree.toExpr b.stmts rest.elifs
def Rest.last : Rest → Else
  | .none => .none
  | .els b => .some b.stmts
  | .elif _ _ rest => rest.last
end

mutual
theorem stmt_ok (fpu : Fpu) (ret : Ty) (cfg : Cfg) (c : Cmd) (l : Bool) (Γ : Types) (h : c.Ok fpu ret l Γ) (hn : c.Writable cfg) : c.Is c.stmt ∧ c.stmt.WF cfg := by
  match c with
  | .define x e =>
    rw [Cmd.Ok] at h; rw [Cmd.Writable] at hn
    obtain ⟨⟨τ, hp⟩, _⟩ := h
    have hw := ex_tree fpu cfg e hp.lits hn.2
    obtain ⟨h1, h2⟩ := toExpr_spec cfg _ hw.1
    exact ⟨.define ⟨_, rfl, by rw [h2]; exact hw.2⟩, Function.wf_assign cfg _ (by rw [Operand.WF]; exact hn.1) _ rfl _ h1⟩
  | .assign x e =>
    rw [Cmd.Ok] at h; rw [Cmd.Writable] at hn
    obtain ⟨τ, hp, _⟩ := h
    have hw := ex_tree fpu cfg e hp.lits hn.2
    obtain ⟨h1, h2⟩ := toExpr_spec cfg _ hw.1
    exact ⟨.assign (access_names hn.1).2 ⟨_, rfl, by rw [h2]; exact hw.2⟩, Function.wf_assign cfg _ (access_names hn.1).1 _ rfl _ h1⟩
  | .update o x e =>
    rw [Cmd.Ok] at h; rw [Cmd.Writable] at hn
    obtain ⟨τ, hp, _⟩ := h
    have hw := ex_tree fpu cfg e hp.lits.2 hn.2
    obtain ⟨h1, h2⟩ := toExpr_spec cfg _ hw.1
    exact ⟨.update (access_names hn.1).2 ⟨_, rfl, by rw [h2]; exact hw.2⟩, Function.wf_assign cfg _ (access_names hn.1).1 _ (by cases o <;> rfl) _ h1⟩
  | .ret e =>
    rw [Cmd.Ok] at h; rw [Cmd.Writable] at hn
    obtain ⟨τ, hp, _⟩ := h
    have hw := ex_tree fpu cfg e hp.lits hn
    obtain ⟨h1, h2⟩ := toExpr_spec cfg _ hw.1
    exact ⟨.ret (by rw [h2]; exact hw.2), by rw [Cmd.stmt, Stmt.WF]; exact h1⟩
  | .brk => exact ⟨.brk, by rw [Cmd.stmt, Stmt.WF]; trivial⟩
  | .cont => exact ⟨.cont, by rw [Cmd.stmt, Stmt.WF]; trivial⟩
  | .loop c b =>
    rw [Cmd.Ok] at h; rw [Cmd.Writable] at hn
    have hw := ex_tree fpu cfg c h.1.lits hn.1
    obtain ⟨h1, h2⟩ := toExpr_spec cfg _ hw.1
    have h2 : c.Is c.tree.toExpr.toTree := by rw [h2]; exact hw.2
    obtain ⟨h3, h4⟩ := stmts_ok fpu ret cfg b true Γ h.2 hn.2
    exact ⟨.loop h2 h3, by rw [Cmd.stmt, Stmt.WF]; exact ⟨h1, h4⟩⟩
  | .branch c b rest =>
    rw [Cmd.Ok] at h; rw [Cmd.Writable] at hn
    have hw := ex_tree fpu cfg c h.1.lits hn.1
    obtain ⟨h1, h2⟩ := toExpr_spec cfg _ hw.1
    have h2 : c.Is c.tree.toExpr.toTree := by rw [h2]; exact hw.2
    obtain ⟨h3, h4⟩ := stmts_ok fpu ret cfg b l Γ h.2.1 hn.2.1
    obtain ⟨h5, h6, h7⟩ := rest_ok fpu ret cfg rest l Γ h.2.2 hn.2.2
    exact ⟨.branch h2 h3 h5, by rw [Cmd.stmt, Stmt.WF]; exact ⟨h1, h4, h6, h7⟩⟩
theorem stmts_ok (fpu : Fpu) (ret : Ty) (cfg : Cfg) (c : Cmds) (l : Bool) (Γ : Types) (h : c.Ok fpu ret l Γ) (hn : c.Writable cfg) : c.Is c.stmts ∧ c.stmts.WF cfg := by
  match c with
  | .nil => exact ⟨.nil, by rw [Cmds.stmts, Stmts.WF]; trivial⟩
  | .cons c cs =>
    rw [Cmds.Ok] at h; rw [Cmds.Writable] at hn
    obtain ⟨h1, h2⟩ := stmt_ok fpu ret cfg c l Γ h.1 hn.1
    obtain ⟨h3, h4⟩ := stmts_ok fpu ret cfg cs l _ h.2 hn.2
    exact ⟨.cons h1 h3, by rw [Cmds.stmts, Stmts.WF]; exact ⟨h2, h4⟩⟩
theorem rest_ok (fpu : Fpu) (ret : Ty) (cfg : Cfg) (c : Rest) (l : Bool) (Γ : Types) (h : c.Ok fpu ret l Γ) (hn : c.Writable cfg) :
    c.Is c.elifs c.last ∧ c.elifs.WF cfg ∧ c.last.WF cfg := by
  match c with
  | .none => exact ⟨.none, by rw [Rest.elifs, Elifs.WF]; trivial, by rw [Rest.last, Else.WF]; trivial⟩
  | .els b =>
    rw [Rest.Ok] at h; rw [Rest.Writable] at hn
    obtain ⟨h3, h4⟩ := stmts_ok fpu ret cfg b l Γ h hn
    exact ⟨.els h3, by rw [Rest.elifs, Elifs.WF]; trivial, by rw [Rest.last, Else.WF]; exact h4⟩
  | .elif c b rest =>
    rw [Rest.Ok] at h; rw [Rest.Writable] at hn
    have hw := ex_tree fpu cfg c h.1.lits hn.1
    obtain ⟨h1, h2⟩ := toExpr_spec cfg _ hw.1
    have h2 : c.Is c.tree.toExpr.toTree := by rw [h2]; exact hw.2
    obtain ⟨h3, h4⟩ := stmts_ok fpu ret cfg b l Γ h.2.1 hn.2.1
    obtain ⟨h5, h6, h7⟩ := rest_ok fpu ret cfg rest l Γ h.2.2 hn.2.2
    exact ⟨.elif h2 h3 h5, by rw [Rest.elifs, Elifs.WF]; exact ⟨h1, h4, h6⟩, by rw [Rest.last]; exact h7⟩
end

theorem type_name (t : Ty) : IsName (typeText t) := by
  cases t with
  | num t =>
    cases t with
    | bool => exact ⟨⟨_, _, rfl, by decide, by decide⟩, by decide⟩
    | int t => exact Function.suffix_name t
    | flt F => cases F <;> exact ⟨⟨_, _, rfl, by decide, by decide⟩, by decide⟩
  | str => exact ⟨⟨_, _, rfl, by decide, by decide⟩, by decide⟩

/-- The function as it may be written. -/
def fnSrc (name : Name) (ret : Ty) (ps : List (Name × Ty)) (body : Cmds) : FuncSrc :=
  ⟨⟨typeText ret, []⟩, name, ps.map fun q => (⟨typeText q.2, []⟩, q.1), body.stmts⟩

theorem fn_text (fpu : Fpu) (cfg : Cfg) (ht : ∀ t, cfg.isType (typeText t) = true) (name : Name) (hname : IsName name ∧ validName cfg name = true)
    (ret : Ty) (ps : List (Name × Ty)) (hps : ∀ q ∈ ps, IsName q.1 ∧ validName cfg q.1 = true) (body : Cmds) (hok : body.Ok fpu ret false (argType ps)) (hn : body.Writable cfg)
    (src : List Char) (hs : sourceToks src = sourceToks (writeTokens (fnSrc name ret ps body).print)) : ReadsFn cfg src ret ps body := by
  obtain ⟨h1, h2⟩ := stmts_ok fpu ret cfg body false _ hok hn
  have hty : ∀ t, Ast.Ty.WF cfg ⟨typeText t, []⟩ := fun t => ⟨type_name t, by simp, ht t⟩
  have h3 := parse_function_print cfg (fnSrc name ret ps body) ⟨hty ret, hname, by
    intro p hp
    simp only [fnSrc, List.mem_map] at hp
    obtain ⟨q, hq, rfl⟩ := hp
    exact ⟨hty q.2, hps q hq⟩, h2⟩
  refine ⟨(fnSrc name ret ps body).func, [], ?_, rfl, ?_, h1⟩
  · rw [← h3]; unfold parseFunction; rw [hs]
  · simp only [FuncSrc.func, fnSrc, List.map_map]; rfl

/-- **C163.** Every function of the language has such a text. -/
theorem every_words_function_has_text (fpu : Fpu) (cfg : Cfg) (ht : ∀ t, cfg.isType (typeText t) = true) (name : Name)
    (hname : IsName name ∧ validName cfg name = true) (ret : Ty) (ps : List (Name × Ty)) (hps : ∀ q ∈ ps, IsName q.1 ∧ validName cfg q.1 = true) (body : Cmds)
    (hok : body.Ok fpu ret false (argType ps)) (hn : body.Writable cfg) : ∃ src, ReadsFn cfg src ret ps body :=
  ⟨_, fn_text fpu cfg ht name hname ret ps hps body hok hn _ rfl⟩

/-! ### An instance: the greatest of three strings, one of them a literal -/

open Verif.Types.Str (Byte lexCmp SV.mk')

def bestCfg : Cfg := { isType := fun t => (typeNamed t).isSome, inRange := fun _ => true }
def bestArgs : List (Name × Ty) := [(['s'], .str), (['t'], .str)]
def bestText : List Char := "string_view best ( string_view s , string_view t ) { auto r = \"ab\" ; if ( r < s ) { r = s ; } while ( r < t ) { r = t ; } return r ; } ".toList
def bestLit : Ex := .text ['a', 'b']
def bestTest (x : Char) : Ex := .op2 (.rel .lt) (.var ['r']) (.var [x])
def bestSet (x : Char) : Cmds := .cons (.assign ['r'] (.var [x])) .nil
def bestBody : Cmds := .cons (.define ['r'] bestLit) (.cons (.branch (bestTest 's') (bestSet 's') .none) (.cons (.loop (bestTest 't') (bestSet 't')) (.cons (.ret (.var ['r'])) .nil)))
def bestTypes : Types := setType (argType bestArgs) ['r'] (some .str)

theorem best_ok (fpu : Fpu) : bestBody.Ok fpu .str false (argType bestArgs) := by
  have l : bestLit.Lits fpu := ⟨.char _ _ (by decide) (by decide) (.char _ _ (by decide) (by decide) .nil), by decide, by decide⟩
  simp only [bestBody, bestSet, bestTest, Cmds.Ok, Cmd.Ok, Rest.Ok, Cmd.after, and_true]
  exact ⟨⟨⟨.str, by decide, l, trivial, trivial⟩, rfl⟩, ⟨⟨by decide, ⟨trivial, trivial⟩, ⟨trivial, trivial⟩, ⟨trivial, trivial⟩⟩, ⟨.str, ⟨by decide, trivial, trivial, trivial⟩, by decide⟩⟩,
    ⟨⟨by decide, ⟨trivial, trivial⟩, ⟨trivial, trivial⟩, ⟨trivial, trivial⟩⟩, ⟨.str, ⟨by decide, trivial, trivial, trivial⟩, by decide⟩⟩, ⟨.str, ⟨by decide, trivial, trivial, trivial⟩, by decide⟩⟩

theorem best_clean : bestBody.Clean := by simp [bestBody, bestSet, Cmds.Clean, Cmd.Clean, Rest.Clean, Cmds.startsLoop, Cmd.ends, Rest.ends]

theorem best_reads (fpu : Fpu) : ReadsFn bestCfg bestText .str bestArgs bestBody := by
  have hv : ∀ c, c = 'r' ∨ c = 's' ∨ c = 't' → NameOk bestCfg [c] := by
    rintro c (rfl | rfl | rfl) <;> exact ⟨example_name _ (by decide), by decide⟩
  refine fn_text fpu bestCfg (fun t => by rcases t with (_ | t | F) | _; · decide
                                          · cases t <;> decide
                                          · cases F <;> decide
                                          · decide) ['b', 'e', 's', 't'] ⟨⟨⟨_, _, rfl, by decide, by decide⟩, by decide⟩, by decide⟩ .str bestArgs
    (by intro q hq; simp [bestArgs] at hq; rcases hq with rfl | rfl <;> exact hv _ (by decide)) bestBody (best_ok fpu) ?_ bestText
    (by rw [show bestText = writeTokens (fnSrc ['b', 'e', 's', 't'] .str bestArgs bestBody).print from by decide +kernel])
  have h0 := hv 'r' (by decide)
  have hr := PathOk.of h0
  have hs := PathOk.of (hv 's' (by decide))
  have ht := PathOk.of (hv 't' (by decide))
  simp only [bestBody, bestSet, bestTest, bestLit, Cmds.Writable, Cmd.Writable, Rest.Writable, Ex.Writable, and_true]
  exact ⟨h0, ⟨⟨by simp, hr, hs⟩, hr, hs⟩, ⟨⟨by simp, hr, ht⟩, hr, ht⟩, hr⟩

/-- The greater of two strings. -/
def greater (a b : List Byte) : List Byte := if lexCmp a b = .lt then b else a

theorem best_test (fpu : Fpu) {ρ : Store} {x : Char} (hx : bestTypes [x] = some .str) {a b : List Byte} (ha : ρ ['r'] = some (.str a)) (hb : ρ [x] = some (.str b)) :
    (bestTest x).value fpu bestTypes ρ = some (.num (.bool (decide (lexCmp a b = .lt)))) := by
  have h1 : (Ex.var ['r']).type bestTypes = some .str := by decide
  have h2 : (Ex.var [x]).type bestTypes = some .str := hx
  rw [bestTest, Ex.value, h1, h2, Option.bind_some, Option.bind_some, Ex.value, ha, Option.bind_some, Ex.value, hb, Option.bind_some]
  simp only [op2Value, relStr]
  cases lexCmp a b <;> rfl

theorem lex_self (b : List Byte) : lexCmp b b ≠ .lt := by
  induction b with
  | nil => simp [lexCmp]
  | cons x xs ih => rw [lexCmp, if_neg (by simp), if_neg (by simp)]; exact ih

theorem best_exec (fpu : Fpu) (s t : List Byte) : ∃ ρ, bestBody.exec fpu .str 2 (argType bestArgs) (argValue bestArgs [.str s, .str t]) = .ret ρ (.str (greater (greater [97, 98] s) t)) := by
  have hset : ∀ (x : Char) (n : Nat) (ρ : Store) (b : List Byte), ρ [x] = some (.str b) → (bestSet x).exec fpu .str n bestTypes ρ = .next (setValue ρ ['r'] (.str b)) := by
    intro x n ρ b hb
    rw [bestSet, Cmds.exec, Cmd.exec, Ex.value, hb]
    simp only [withValue, End.andThen, Cmds.exec]
  have h0 : (bestLit.value fpu (argType bestArgs) (argValue bestArgs [.str s, .str t])) = some (.str [97, 98]) := by
    rw [bestLit, Ex.value, show StrLit.bytes ['a', 'b'] = [97, 98] from by decide]
  have hty : setType (argType bestArgs) ['r'] (bestLit.type (argType bestArgs)) = bestTypes := rfl
  rw [bestBody, Cmds.exec, Cmd.exec, h0]
  simp only [withValue, End.andThen, Cmds.exec, Cmd.exec, Cmd.after, Rest.exec, hty]
  obtain ⟨ρ, hρ, h1, h2⟩ : ∃ ρ : Store, withTest ((bestTest 's').value fpu bestTypes (setValue (argValue bestArgs [.str s, .str t]) ['r'] (.str [97, 98])))
      ((bestSet 's').exec fpu .str 2 bestTypes (setValue (argValue bestArgs [.str s, .str t]) ['r'] (.str [97, 98]))) (.next (setValue (argValue bestArgs [.str s, .str t]) ['r'] (.str [97, 98]))) = .next ρ ∧
      ρ ['r'] = some (.str (greater [97, 98] s)) ∧ ρ ['t'] = some (.str t) := by
    rw [best_test fpu (by decide) (a := [97, 98]) (b := s) rfl rfl, hset 's' 2 _ s rfl]
    unfold greater
    by_cases h : lexCmp [97, 98] s = .lt
    · rw [decide_eq_true h, if_pos h]; exact ⟨_, rfl, rfl, rfl⟩
    · rw [decide_eq_false h, if_neg h]; exact ⟨_, rfl, rfl, rfl⟩
  rw [hρ]
  simp only
  obtain ⟨ρ', hρ', h3⟩ : ∃ ρ' : Store, repeated (fun ρ => (bestTest 't').value fpu bestTypes ρ) (fun ρ => (bestSet 't').exec fpu .str 2 bestTypes ρ) 2 ρ = .next ρ' ∧
      ρ' ['r'] = some (.str (greater (greater [97, 98] s) t)) := by
    rw [repeated, best_test fpu (by decide) h1 h2, hset 't' 2 _ t h2]
    rw [show greater (greater [97, 98] s) t = if lexCmp (greater [97, 98] s) t = .lt then t else greater [97, 98] s from rfl]
    by_cases h : lexCmp (greater [97, 98] s) t = .lt
    · rw [decide_eq_true h, if_pos h]
      refine ⟨setValue ρ ['r'] (.str t), ?_, rfl⟩
      simp only [withTest]
      rw [repeated, best_test fpu (x := 't') (ρ := setValue ρ ['r'] (.str t)) (by decide) (a := t) (b := t) rfl h2, decide_eq_false (lex_self t)]
      rfl
    · rw [decide_eq_false h, if_neg h]
      exact ⟨ρ, rfl, h1⟩
  rw [hρ']
  simp only
  have h4 : (Ex.var ['r']).value fpu bestTypes ρ' = some (.str (greater (greater [97, 98] s) t)) := by rw [Ex.value, h3]
  rw [h4]
  exact ⟨ρ', rfl⟩

/-- The text above is compiled to code that computes the greatest of the three strings. -/
example (fpu : Fpu) (ju : Types.Str.Val) : ∃ code, compileFn fpu ju bestCfg bestText = some code ∧ ∀ (s t : List Byte) j1 j2 junk, s.length < 2 ^ 31 → t.length < 2 ^ 31 →
    (∃ j, Returns fpu ju code junk [.str (SV.mk' j1 s), .str (SV.mk' j2 t)] (.str (SV.mk' j (greater (greater [97, 98] s) t)))) ∧ ¬Undefined fpu ju code junk [.str (SV.mk' j1 s), .str (SV.mk' j2 t)] := by
  obtain ⟨code, h1, h2⟩ := words_function_returns fpu ju bestCfg bestText .str bestArgs bestBody (best_reads fpu) (best_ok fpu) best_clean (by decide) (by decide)
  refine ⟨code, h1, fun s t j1 j2 junk hs ht => ?_⟩
  obtain ⟨_, h3⟩ := h2 [.str s, .str t] [.str (SV.mk' j1 s), .str (SV.mk' j2 t)] junk ⟨hs, ⟨j1, rfl⟩, ht, ⟨j2, rfl⟩, trivial⟩
  obtain ⟨ρ, hρ⟩ := best_exec fpu s t
  obtain ⟨v, h4, h5⟩ := h3 2 _ _ hρ
  obtain ⟨j, rfl⟩ := rep_str h5
  exact ⟨⟨j, h4⟩, (words_call_deterministic fpu ju code junk _ _ h4).2⟩

end Verif.Comp.WordsFn
