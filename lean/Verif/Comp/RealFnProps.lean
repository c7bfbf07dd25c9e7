import Verif.Comp.RealFn
/-!
# Compiled functions with floating point numbers and built-in functions do what their statements say: C158
-/
namespace Verif.Comp.RealFn
open Verif.Ast hiding Ty
open Verif.Ast.Rpn Verif.Gen Verif.Gen.Scalar Verif.Types.Conv Verif.Comp.Pipeline
open Verif.Comp.Real hiding Out
open Verif.Comp.Script (Tree.PlainT plain_of_tree NameOk)
open Verif.Comp.Function (mark marks markElifs markElse tag Tree.has vars_tree bare_tree)

/-! ## Lemmas: names in expressions -/

theorem bare_ex (p : Ex) (e : Expr) (he : p.Is e.toTree) (h : isVar p = false) : BareE e = false := by
  cases hb : BareE e with
  | false => rfl
  | true =>
    obtain ⟨n, hn⟩ := bare_tree e hb
    rw [hn] at he
    cases p <;> simp [Ex.Is, isVar] at he h

theorem has_call1 (f : Name) (x : Expr) (n : Name) : Tree.has (.atom (.call f (.cons x .nil))) n ↔ Tree.has x.toTree n := by
  rw [Tree.has, varsO, varsEs, varsEs, vars_tree]; simp
theorem has_call2 (f : Name) (x y : Expr) (n : Name) : Tree.has (.atom (.call f (.cons x (.cons y .nil)))) n ↔ Tree.has x.toTree n ∨ Tree.has y.toTree n := by
  rw [Tree.has, varsO, varsEs, varsEs, varsEs, vars_tree, vars_tree]; simp
theorem has_call3 (f : Name) (x y z : Expr) (n : Name) :
    Tree.has (.atom (.call f (.cons x (.cons y (.cons z .nil))))) n ↔ Tree.has x.toTree n ∨ Tree.has y.toTree n ∨ Tree.has z.toTree n := by
  rw [Tree.has, varsO, varsEs, varsEs, varsEs, varsEs, vars_tree, vars_tree, vars_tree]; simp

/-- The variables of an expression that has a type are in scope. -/
theorem used_ex (Γ : Types) (p : Ex) : ∀ (t : Tree) (τ : Ty), p.type Γ = some τ → p.Is t → ∀ n, Tree.has t n → (Γ n).isSome := by
  induction p with
  | lit ds s => rintro t τ _ rfl n hn; simp [Tree.has, varsO] at hn
  | frac ip fp s => rintro t τ _ rfl n hn; simp [Tree.has, varsO] at hn
  | const b => rintro t τ _ rfl n hn; simp [Tree.has, varsO] at hn
  | var x =>
    rintro t τ ht rfl n hn
    rw [Tree.has, varsO] at hn
    subst hn
    rw [Ex.type] at ht
    rw [ht]; rfl
  | neg a ih =>
    rintro t τ ht ⟨u, rfl, hu⟩ n hn
    rw [Tree.has] at hn
    rw [Ex.type] at ht
    cases ha : a.type Γ with
    | none => rw [ha] at ht; simp at ht
    | some σ => exact ih u σ ha hu n hn
  | not a ih =>
    rintro t τ ht ⟨u, rfl, hu⟩ n hn
    rw [Tree.has] at hn
    rw [Ex.type] at ht
    cases ha : a.type Γ with
    | none => rw [ha] at ht; simp at ht
    | some σ => exact ih u σ ha hu n hn
  | arith o a b iha ihb =>
    rintro t τ ht ⟨u, v, rfl, hu, hv⟩ n hn
    rw [Tree.has] at hn
    rw [Ex.type] at ht
    obtain ⟨σ, ha, ht⟩ := bind_inv ht
    obtain ⟨σ', hb, ht⟩ := bind_inv ht
    exact hn.elim (iha u σ ha hu n) (ihb v σ' hb hv n)
  | rel o a b iha ihb =>
    rintro t τ ht ⟨u, v, rfl, hu, hv⟩ n hn
    rw [Tree.has] at hn
    rw [Ex.type] at ht
    obtain ⟨σ, ha, ht⟩ := bind_inv ht
    obtain ⟨σ', hb, ht⟩ := bind_inv ht
    exact hn.elim (iha u σ ha hu n) (ihb v σ' hb hv n)
  | and a b iha ihb =>
    rintro t τ ht ⟨u, v, rfl, hu, hv⟩ n hn
    rw [Tree.has] at hn
    rw [Ex.type] at ht
    cases ha : a.type Γ with
    | none => rw [ha] at ht; simp at ht
    | some σ =>
      cases hb : b.type Γ with
      | none => rw [ha, hb] at ht; simp at ht
      | some σ' => exact hn.elim (iha u σ ha hu n) (ihb v σ' hb hv n)
  | or a b iha ihb =>
    rintro t τ ht ⟨u, v, rfl, hu, hv⟩ n hn
    rw [Tree.has] at hn
    rw [Ex.type] at ht
    cases ha : a.type Γ with
    | none => rw [ha] at ht; simp at ht
    | some σ =>
      cases hb : b.type Γ with
      | none => rw [ha, hb] at ht; simp at ht
      | some σ' => exact hn.elim (iha u σ ha hu n) (ihb v σ' hb hv n)
  | pick c a b ihc iha ihb =>
    rintro t τ ht ⟨w, u, v, rfl, hw, hu, hv⟩ n hn
    rw [Tree.has] at hn
    rw [Ex.type] at ht
    cases hc : c.type Γ with
    | none => rw [hc] at ht; simp at ht
    | some σ0 =>
      cases ha : a.type Γ with
      | none => rw [hc, ha] at ht; simp at ht
      | some σ =>
        cases hb : b.type Γ with
        | none => rw [hc, ha, hb] at ht; simp at ht
        | some σ' => exact hn.elim (ihc w σ0 hc hw n) fun hn => hn.elim (iha u σ ha hu n) (ihb v σ' hb hv n)
  | fn1 f a ih =>
    rintro t τ ht ⟨x, rfl, hx⟩ n hn
    rw [has_call1] at hn
    rw [Ex.type] at ht
    obtain ⟨σ, ha, ht⟩ := bind_inv ht
    exact ih _ σ ha hx n hn
  | fn2 f a b iha ihb =>
    rintro t τ ht ⟨x, y, rfl, hx, hy⟩ n hn
    rw [has_call2] at hn
    rw [Ex.type] at ht
    obtain ⟨σ, ha, ht⟩ := bind_inv ht
    obtain ⟨σ', hb, ht⟩ := bind_inv ht
    exact hn.elim (iha _ σ ha hx n) (ihb _ σ' hb hy n)
  | fn3 f a b c iha ihb ihc =>
    rintro t τ ht ⟨x, y, z, rfl, hx, hy, hz⟩ n hn
    rw [has_call3] at hn
    rw [Ex.type] at ht
    obtain ⟨σ, ha, ht⟩ := bind_inv ht
    obtain ⟨σ', hb, ht⟩ := bind_inv ht
    obtain ⟨σ'', hc, ht⟩ := bind_inv ht
    exact hn.elim (iha _ σ ha hx n) fun hn => hn.elim (ihb _ σ' hb hy n) (ihc _ σ'' hc hz n)

/-- The meaning of an expression depends on the variables in it only. -/
theorem same_ex (S : (Name → Option PTy) → Sem PTy) (tenv tenv' : Name → Option PTy) (hvar : ∀ e, (S e).var = e) (hS : ∀ e, S e = { S tenv with var := e })
    (p : Ex) : ∀ t, p.Is t → (∀ n, Tree.has t n → tenv n = tenv' n) → treeV arity (S tenv) t = treeV arity (S tenv') t := by
  have e1 : ∀ op, (S tenv').un op = (S tenv).un op := fun op => by rw [hS tenv']
  have e2 : ∀ op, (S tenv').bin op = (S tenv).bin op := fun op => by rw [hS tenv']
  have e3 : (S tenv').sel = (S tenv).sel := by rw [hS tenv']
  have e4 : (S tenv').inl = (S tenv).inl := by rw [hS tenv']
  induction p with
  | lit ds s => rintro t rfl _; rw [treeV, treeV, evalO, evalO, hS tenv']
  | frac ip fp s => rintro t rfl _; rw [treeV, treeV, evalO, evalO, hS tenv']
  | const b => rintro t rfl _; rw [treeV, treeV, evalO, evalO, hS tenv']
  | var x => rintro t rfl h; rw [treeV, treeV, evalO, evalO, hvar, hvar]; exact h x (by rw [Tree.has, varsO])
  | neg a ih => rintro t ⟨u, rfl, hu⟩ h; rw [treeV, treeV, ih u hu fun n hn => h n hn, e1]
  | not a ih => rintro t ⟨u, rfl, hu⟩ h; rw [treeV, treeV, ih u hu fun n hn => h n hn, e1]
  | arith o a b iha ihb => rintro t ⟨u, v, rfl, hu, hv⟩ h; rw [treeV, treeV, iha u hu fun n hn => h n (.inl hn), ihb v hv fun n hn => h n (.inr hn), e2]
  | rel o a b iha ihb => rintro t ⟨u, v, rfl, hu, hv⟩ h; rw [treeV, treeV, iha u hu fun n hn => h n (.inl hn), ihb v hv fun n hn => h n (.inr hn), e2]
  | and a b iha ihb => rintro t ⟨u, v, rfl, hu, hv⟩ h; rw [treeV, treeV, iha u hu fun n hn => h n (.inl hn), ihb v hv fun n hn => h n (.inr hn), e2]
  | or a b iha ihb => rintro t ⟨u, v, rfl, hu, hv⟩ h; rw [treeV, treeV, iha u hu fun n hn => h n (.inl hn), ihb v hv fun n hn => h n (.inr hn), e2]
  | pick c a b ihc iha ihb =>
    rintro t ⟨w, u, v, rfl, hw, hu, hv⟩ h
    rw [treeV, treeV, ihc w hw fun n hn => h n (.inl hn), iha u hu fun n hn => h n (.inr (.inl hn)), ihb v hv fun n hn => h n (.inr (.inr hn)), e3]
  | fn1 f a ih =>
    rintro t ⟨x, rfl, hx⟩ h
    simp only [treeV, evalO, evalEs, eval_tree]
    rw [ih _ hx fun n hn => h n ((has_call1 _ _ _).2 hn), e4, arity1]
  | fn2 f a b iha ihb =>
    rintro t ⟨x, y, rfl, hx, hy⟩ h
    simp only [treeV, evalO, evalEs, eval_tree]
    rw [iha _ hx fun n hn => h n ((has_call2 _ _ _ _).2 (.inl hn)), ihb _ hy fun n hn => h n ((has_call2 _ _ _ _).2 (.inr hn)), e4, arity2]
  | fn3 f a b c iha ihb ihc =>
    rintro t ⟨x, y, z, rfl, hx, hy, hz⟩ h
    simp only [treeV, evalO, evalEs, eval_tree]
    rw [iha _ hx fun n hn => h n ((has_call3 _ _ _ _ _).2 (.inl hn)), ihb _ hy fun n hn => h n ((has_call3 _ _ _ _ _).2 (.inr (.inl hn))),
      ihc _ hz fun n hn => h n ((has_call3 _ _ _ _ _).2 (.inr (.inr hn))), e4, arity3]

/-- The variables in scope are known with their types. -/
def TypesOk (Γ : Types) (tenv : Name → Option PTy) : Prop := ∀ x τ, Γ x = some τ → tenv x = some τ.p

/-- What validation and code generation take the type of an expression to be. -/
theorem types_ex (fpu : Fpu) {Γ : Types} {tenv : Name → Option PTy} (henv : TypesOk Γ tenv) {p : Ex} {τ : Ty} (h : ExOk fpu Γ p τ) (t : Tree) (ht : p.Is t) :
    treeV arity (tySem (rt fpu) tenv) t = some τ.p ∧ ∃ u : Ty, treeV arity (vSem fpu tenv) t = some u.p ∧ (u = .bool ↔ τ = .bool) ∧ (p.Even Γ → u = τ) := by
  have hu : ∀ n, Tree.has t n → tenv n = (Γ n).map Ty.p := by
    intro n hn
    obtain ⟨σ, hσ⟩ := Option.isSome_iff_exists.1 (used_ex Γ p t τ h.typed ht n hn)
    rw [henv n σ hσ, hσ]; rfl
  have h1 := (seen_ex fpu Γ (fun x => (Γ x).map Ty.p) (fun _ => rfl) p h.lits h.level t ht).some h.typed
  rw [same_ex (vSem fpu) tenv _ (fun _ => rfl) (fun _ => rfl) p t ht hu, same_ex (tySem (rt fpu)) tenv _ (fun _ => rfl) (fun _ => rfl) p t ht hu]
  exact h1

/-! ## Lemmas: variables -/

/-- Known variables have types and slots of their own; those in scope are known with their types. -/
structure Static (Γ : Types) (vars : Vars PTy) (ns : Nat) : Prop where
  typed : ∀ n, vars n ≠ some none
  below : ∀ n b, vars n = some (some b) → b.2 < ns
  apart : ∀ n m b c, vars n = some (some b) → vars m = some (some c) → b.2 = c.2 → n = m
  dom : ∀ n t, Γ n = some t → ∃ s, vars n = some (some (t.p, s))

/-- The slots hold the values of the variables in scope. -/
structure Dyn (Γ : Types) (vars : Vars PTy) (slots : Nat → MV) (ρ : Store) : Prop where
  env : EnvOk Γ ρ (envOf vars slots)
  fit : ArgsOk Γ ρ

/-- Variables stay known, and those that become known are among the names. -/
structure Grow (vars vars' : Vars PTy) (names : List Name) : Prop where
  keep : ∀ n b, vars n = some b → vars' n = some b
  new : ∀ n, vars n = none → n ∉ names → vars' n = none

theorem Grow.refl (vars : Vars PTy) (names : List Name) : Grow vars vars names := ⟨fun _ _ h => h, fun _ h _ => h⟩

theorem Grow.trans {a b c : Vars PTy} {ns ms : List Name} (h : Grow a b ns) (k : Grow b c ms) : Grow a c (ns ++ ms) where
  keep n x hn := k.keep n x (h.keep n x hn)
  new n hn hm := by
    simp only [List.mem_append, not_or] at hm
    exact k.new n (h.new n hn hm.1) hm.2

theorem Static.types {Γ : Types} {vars : Vars PTy} {ns : Nat} (h : Static Γ vars ns) : TypesOk Γ (tenvOf vars) := by
  intro x t hx
  obtain ⟨s, hs⟩ := h.dom x t hx
  unfold tenvOf
  rw [hs]

/-- Fewer variables in scope. -/
theorem Dyn.less {Γ Γ' : Types} {vars vars' : Vars PTy} {ns : Nat} {slots : Nat → MV} {ρ : Store} {names : List Name} (h : Dyn Γ' vars' slots ρ) (hs : Static Γ vars ns)
    (hg : Grow vars vars' names) (hsub : ∀ n t, Γ n = some t → Γ' n = some t) : Dyn Γ vars slots ρ where
  env x t v hx hv := by
    obtain ⟨s, h1⟩ := hs.dom x t hx
    have h2 := h.env x t v (hsub x t hx) hv
    unfold envOf at h2 ⊢
    rw [hg.keep _ _ h1] at h2
    rw [h1]
    exact h2
  fit x t hx := h.fit x t (hsub x t hx)

/-- More variables known. -/
theorem Dyn.more {Γ : Types} {vars vars' : Vars PTy} {ns : Nat} {slots : Nat → MV} {ρ : Store} {names : List Name} (h : Dyn Γ vars slots ρ) (hs : Static Γ vars ns)
    (hg : Grow vars vars' names) : Dyn Γ vars' slots ρ where
  env x t v hx hv := by
    obtain ⟨s, h1⟩ := hs.dom x t hx
    have h2 := h.env x t v hx hv
    unfold envOf at h2 ⊢
    rw [h1] at h2
    rw [hg.keep _ _ h1]
    exact h2
  fit := h.fit

theorem Static.scope {Γ Γ' : Types} {vars : Vars PTy} {ns : Nat} (h : Static Γ' vars ns) (hsub : ∀ n t, Γ n = some t → Γ' n = some t) : Static Γ vars ns :=
  ⟨h.typed, h.below, h.apart, fun n t hn => h.dom n t (hsub n t hn)⟩

theorem Static.fresh {Γ : Types} {vars : Vars PTy} {ns : Nat} (h : Static Γ vars ns) {x : Name} (hx : vars x = none) : Γ x = none := by
  cases hg : Γ x with
  | none => rfl
  | some t => obtain ⟨s, hs⟩ := h.dom x t hg; rw [hx] at hs; simp at hs

theorem set_sub {Γ : Types} {x : Name} (hx : Γ x = none) (u : Option Ty) : ∀ n t, Γ n = some t → (setType Γ x u) n = some t := by
  intro n t hn
  unfold setType
  split
  · next h => subst h; rw [hx] at hn; simp at hn
  · exact hn

/-! ## Lemmas: the code of one expression -/

theorem eval_tag (fpu : Fpu) (table : List Site) (i : Nat) (slots : Nat → MV) : (machine fpu table).eval (tag i) slots = runSite fpu table i slots := by
  show runSite fpu table (List.replicate i '0').length slots = _
  rw [List.length_replicate]

theorem run_at (fpu : Fpu) {table : List Site} {i : Nat} {s : Site} (h : table[i]? = some s) (slots : Nat → MV) :
    runSite fpu table i slots = (Scalar.run (rt fpu) s.code ⟨[], slots, ()⟩).bind fun rs => (rs.opd s.opd).bind fun v => if s.test = true ∧ v = .poison then none else some (rs.slots, v) := by
  unfold runSite
  rw [h]
  rfl

theorem enc_ne (v : Val) : v.enc ≠ .poison := by cases v <;> simp [Val.enc]

/-- What a `return` leaves: the converted value, or poison. -/
def result (fpu : Fpu) (ret : Ty) (v : Val) : MV := match conv fpu ret v with
  | some z => z.enc
  | none => .poison

theorem cast_result (fpu : Fpu) {a c : Ty} (h : converts c a = true) {v : Val} (hv : v.Has a) : castTV (rt fpu) c.p (a.p, v.enc) = some (result fpu c v) := by
  rw [castTV_conv fpu h hv]
  unfold result
  cases conv fpu c v <;> rfl

theorem ret_site (fpu : Fpu) (ret : Ty) (Γ : Types) (cs : CS PTy) (hs : Static Γ cs.vars cs.nslot) (p : Ex) (e : Expr) (he : p.Is e.toTree) (τ : Ty) (hp : ExOk fpu Γ p τ)
    (hc : converts ret τ = true) :
    ∃ site cs', retSite fpu ret.p e cs = some (site, cs') ∧ cs'.vars = cs.vars ∧ cs'.nslot = cs.nslot ∧ ∀ table i, table[i]? = some site → ∀ slots ρ, Dyn Γ cs.vars slots ρ →
      (machine fpu table).eval (tag i) slots = (p.value fpu Γ ρ).map fun z => (slots, result fpu ret z) := by
  have hpl : Plain arity e := plain_of_tree _ e (plain_ex p _ he)
  have hv : ∀ n, varsE e n → cs.vars n ≠ some none := fun n _ => hs.typed n
  have hst : Stat (((gExpr (rt fpu) arity e).andThen ld).andThen (castTo (rt fpu) ret.p)) :=
    ((stat_gExpr (rt := rt fpu) arity e hpl hv).bind fun _ => stat_ld _).bind fun _ => stat_castTo _ _ _
  have hty : TyS cs.vars (((gExpr (rt fpu) arity e).andThen ld).andThen (castTo (rt fpu) ret.p)) (((tyE (rt fpu) arity (tenvOf cs.vars) e).bind some).bind fun u => castable (rt fpu) u ret.p)
      (fun _ _ => True) :=
    TyS.bind (TyS.bind (ty_gExpr (rt := rt fpu) arity e hpl hv) fun a b hab => ty_ld hab) fun a b hab => by rw [← hab]; exact ty_castTo (rt := rt fpu) ret.p a
  have h3 := hty { cs with nreg := 0 } rfl
  have e1 : tyE (rt fpu) arity (tenvOf cs.vars) e = some τ.p := by
    unfold tyE
    rw [eval_tree]
    exact (types_ex fpu hs.types hp _ he).1
  rw [e1] at h3
  simp only [Option.bind_some, castable_conv, hc, if_true] at h3
  obtain ⟨o, is, cs', hg, hvars, _⟩ := h3
  have h4 := hst _ _ _ _ hg
  refine ⟨⟨is, o, false⟩, cs', by unfold retSite site; rw [hg]; rfl, h4.1, h4.2, fun table i hi slots ρ hd => ?_⟩
  have hsm : Sim (rt fpu) cs.vars slots [] (((gExpr (rt fpu) arity e).andThen ld).andThen (castTo (rt fpu) ret.p))
      (((eagerE (rt fpu) arity (envOf cs.vars slots) e).andThen M.ret).andThen fun v => M.lift (castTV (rt fpu) ret.p v)) (fun r o u => opdAt r o = some u) :=
    Sim.bind (Sim.bind (sim_gExpr (rt := rt fpu) arity e hpl hv []) (stat_gExpr (rt := rt fpu) arity e hpl hv) fun ext a b hd => sim_ld hd)
      ((stat_gExpr (rt := rt fpu) arity e hpl hv).bind fun _ => stat_ld _) fun ext a b hd => sim_castTo ret.p hd
  have h5 := hsm { cs with nreg := 0 } rfl rfl o is cs' hg ()
  rw [M.then_ret, eager_tree, value_ex fpu hd.fit hd.env p hp.lits hp.guarded τ _ hp.typed he] at h5
  rw [eval_tag, run_at fpu hi]
  cases hval : p.value fpu Γ ρ with
  | none => rw [hval] at h5; simp only [Option.map_none] at h5 ⊢; rw [show Scalar.run (rt fpu) is ⟨[], slots, ()⟩ = none from h5]; rfl
  | some z =>
    rw [hval] at h5
    simp only [Option.map_some, M.lift_some] at h5
    rw [cast_result fpu hc (has_ex fpu hd.fit p hp.lits τ z hp.typed hval)] at h5
    obtain ⟨ext, h6, _, h7⟩ := h5
    rw [h6]
    simp only [Option.bind_some, opd_at, h7, Bool.false_eq_true, false_and, if_false]
    rfl

theorem cond_site (fpu : Fpu) (Γ : Types) (cs : CS PTy) (hs : Static Γ cs.vars cs.nslot) (p : Ex) (e : Expr) (he : p.Is e.toTree) (hp : ExOk fpu Γ p .bool) :
    ∃ site cs', condSite fpu e cs = some (site, cs') ∧ cs'.vars = cs.vars ∧ cs'.nslot = cs.nslot ∧ ∀ table i, table[i]? = some site → ∀ slots ρ, Dyn Γ cs.vars slots ρ →
      (machine fpu table).eval (tag i) slots = (p.value fpu Γ ρ).map fun z => (slots, z.enc) := by
  have hpl : Plain arity e := plain_of_tree _ e (plain_ex p _ he)
  have hv : ∀ n, varsE e n → cs.vars n ≠ some none := fun n _ => hs.typed n
  have hst : Stat (((gExpr (rt fpu) arity e).andThen ld).andThen fun x => if x.1 = .bit then G.ret x.2 else G.fail) :=
    ((stat_gExpr (rt := rt fpu) arity e hpl hv).bind fun _ => stat_ld _).bind fun _ => Stat.ite (Stat.ret _) Stat.fail
  have hty : TyS cs.vars (((gExpr (rt fpu) arity e).andThen ld).andThen fun x => if x.1 = .bit then G.ret x.2 else G.fail)
      (((tyE (rt fpu) arity (tenvOf cs.vars) e).bind some).bind fun u => if u = .bit then some () else none) (fun _ _ => True) :=
    TyS.bind (TyS.bind (ty_gExpr (rt := rt fpu) arity e hpl hv) fun a b hab => ty_ld hab) fun a b hab => by
      rw [← hab]
      split
      · exact TyS.ret trivial
      · exact TyS.fail
  have h3 := hty { cs with nreg := 0 } rfl
  have e1 : tyE (rt fpu) arity (tenvOf cs.vars) e = some .bit := by
    unfold tyE
    rw [eval_tree]
    exact (types_ex fpu hs.types hp _ he).1
  rw [e1] at h3
  simp only [Option.bind_some, if_true] at h3
  obtain ⟨o, is, cs', hg, hvars, _⟩ := h3
  have h4 := hst _ _ _ _ hg
  refine ⟨⟨is, o, true⟩, cs', by unfold condSite site; rw [hg]; rfl, h4.1, h4.2, fun table i hi slots ρ hd => ?_⟩
  have hsm : Sim (rt fpu) cs.vars slots [] (((gExpr (rt fpu) arity e).andThen ld).andThen fun x => if x.1 = .bit then G.ret x.2 else G.fail)
      (((eagerE (rt fpu) arity (envOf cs.vars slots) e).andThen M.ret).andThen fun v => M.ret v.2) (fun r o u => opdAt r o = some u) :=
    Sim.bind (Sim.bind (sim_gExpr (rt := rt fpu) arity e hpl hv []) (stat_gExpr (rt := rt fpu) arity e hpl hv) fun ext a b hd => sim_ld hd)
      ((stat_gExpr (rt := rt fpu) arity e hpl hv).bind fun _ => stat_ld _) fun ext a b hd => Sim.ite (fun _ => Sim.ret hd.2) (fun _ => Sim.fail)
  have h5 := hsm { cs with nreg := 0 } rfl rfl o is cs' hg ()
  rw [M.then_ret, eager_tree, value_ex fpu hd.fit hd.env p hp.lits hp.guarded .bool _ hp.typed he] at h5
  rw [eval_tag, run_at fpu hi]
  cases hval : p.value fpu Γ ρ with
  | none => rw [hval] at h5; simp only [Option.map_none] at h5 ⊢; rw [show Scalar.run (rt fpu) is ⟨[], slots, ()⟩ = none from h5]; rfl
  | some z =>
    rw [hval] at h5
    simp only [Option.map_some, M.lift_some] at h5
    obtain ⟨ext, h6, _, h7⟩ := h5
    rw [h6]
    simp only [Option.bind_some, opd_at, h7, Option.map_some, enc_ne, and_false, if_false]

/-! ## Lemmas: the code of an assignment -/

theorem stat_const {α : Type} (a : α) (is : List (Instr PTy MV)) : Stat (fun cs => some (a, is, cs) : G PTy MV α) := by
  intro cs b js cs' h
  simp at h
  obtain ⟨_, _, rfl⟩ := h
  exact ⟨rfl, rfl⟩

theorem ty_const {α : Type} (vars : Vars PTy) (a : α) (is : List (Instr PTy MV)) : TyS vars (fun cs => some (a, is, cs) : G PTy MV α) (some ()) (fun _ _ => True) :=
  fun cs hv => ⟨a, is, cs, rfl, hv, trivial⟩

theorem dyn_set {Γ Γ' : Types} {vars vars' : Vars PTy} {slots slots' : Nat → MV} {ρ : Store} {x : Name} {t : Ty} {z : Val} (h : Dyn Γ vars slots ρ)
    (he : ∀ n, ((envOf vars slots).set x (t.p, z.enc)) n = envOf vars' slots' n) (hz : z.Has t)
    (hg : ∀ n u, Γ' n = some u → (n = x ∧ u = t) ∨ (n ≠ x ∧ Γ n = some u)) : Dyn Γ' vars' slots' (setValue ρ x z) where
  env n u v hn hv := by
    rw [← he n]
    unfold setValue at hv
    unfold Env.set
    rcases hg n u hn with ⟨rfl, rfl⟩ | ⟨h1, h2⟩
    · simp at hv; subst hv; simp
    · rw [if_neg h1] at hv ⊢; exact h.env n u v h2 hv
  fit n u hn := by
    unfold setValue
    rcases hg n u hn with ⟨rfl, rfl⟩ | ⟨h1, h2⟩
    · exact ⟨z, by simp, hz⟩
    · rw [if_neg h1]; exact h.fit n u h2

/-- The run of an assignment. -/
theorem line_run (fpu : Fpu) (Γ : Types) (cs cs' : CS PTy) (hs : Static Γ cs.vars cs.nslot) (l : Line) (hl : Good arity l) (h : H PTy MV) (is : List (Instr PTy MV))
    (hg : gExpr (rt fpu) arity l.expr { cs with nreg := 0 } = some (h, is, cs')) (slots : Nat → MV) (table : List Site) (i : Nat) (hi : table[i]? = some ⟨is, .const (.word 0), false⟩) :
    match lineM (rt fpu) arity (envOf cs.vars slots) l () with
    | none => (machine fpu table).eval (tag i) slots = none
    | some r => ∃ slots', (machine fpu table).eval (tag i) slots = some (slots', .word 0) ∧ ∀ n, r.2 n = envOf cs'.vars slots' n := by
  have hm : Match (envOf cs.vars slots) { cs with nreg := 0 } (⟨[], slots, ()⟩ : RS MV Unit) := ⟨rfl, hs.typed, fun _ => rfl, hs.below, hs.apart⟩
  have h1 := line_ok (rt := rt fpu) hm hl hg
  rw [eval_tag, run_at fpu hi]
  cases hr : lineM (rt fpu) arity (envOf cs.vars slots) l () with
  | none => rw [show lineM (rt fpu) arity (envOf cs.vars slots) l (⟨[], slots, ()⟩ : RS MV Unit).w = none from hr] at h1; simp only at h1 ⊢; rw [h1]; rfl
  | some r =>
    rw [show lineM (rt fpu) arity (envOf cs.vars slots) l (⟨[], slots, ()⟩ : RS MV Unit).w = some r from hr] at h1
    obtain ⟨rs', h2, _, h3⟩ := h1
    simp only
    rw [h2]
    exact ⟨rs'.slots, rfl, h3.env⟩

/-- What the code of an assignment of `value` to `x` does. -/
def LineSim (fpu : Fpu) (s : Expr) (Γ Γ' : Types) (cs : CS PTy) (x : Name) (names : List Name) (value : Store → Option Val) : Prop :=
  ∃ site cs', exprSite fpu s cs = some (site, cs') ∧ Static Γ' cs'.vars cs'.nslot ∧ Grow cs.vars cs'.vars names ∧ ∀ table i, table[i]? = some site → ∀ slots ρ, Dyn Γ cs.vars slots ρ →
    match value ρ with
    | none => (machine fpu table).eval (tag i) slots = none
    | some z => ∃ slots', (machine fpu table).eval (tag i) slots = some (slots', .word 0) ∧ Dyn Γ' cs'.vars slots' (setValue ρ x z)

theorem define_line (fpu : Fpu) (Γ : Types) (cs : CS PTy) (hs : Static Γ cs.vars cs.nslot) (x : Name) (hx : cs.vars x = none) (p : Ex) (e : Expr) (he : p.Is e.toTree)
    (t : Ty) (hp : ExOk fpu Γ p t) (hb : isVar p = false) :
    LineSim fpu (.bin (.un none (.define x)) .assign e) Γ (setType Γ x (p.type Γ)) cs x [x] (fun ρ => p.value fpu Γ ρ) := by
  have hpl : Plain arity e := plain_of_tree _ e (plain_ex p _ he)
  have hbare := bare_ex p e he hb
  have ht := hp.typed
  have hnx : ¬ varsE e x := by
    intro h
    have h1 := used_ex Γ p _ t ht he x ((vars_tree e x).1 h)
    rw [hs.fresh hx] at h1
    simp at h1
  let vars1 : Vars PTy := fun k => if k = x then some none else cs.vars k
  have hok : ∀ n, varsE e n → vars1 n ≠ some none := by
    intro n hn
    have : n ≠ x := fun hh => hnx (hh ▸ hn)
    show (if n = x then some none else cs.vars n) ≠ some none
    rw [if_neg this]
    exact hs.typed n
  have htys : TypesOk Γ (tenvOf vars1) := by
    intro n u hn
    have hne : n ≠ x := by rintro rfl; rw [hs.fresh hx] at hn; simp at hn
    have := hs.types n u hn
    unfold tenvOf at this ⊢
    have h1 : vars1 n = cs.vars n := by show (if n = x then some none else cs.vars n) = _; rw [if_neg hne]
    rw [h1]
    exact this
  have h3 := ty_gExpr (rt := rt fpu) arity e hpl hok { cs with nreg := 0, vars := vars1 } rfl
  have e1 : tyE (rt fpu) arity (tenvOf vars1) e = some t.p := by
    unfold tyE
    rw [eval_tree]
    exact (types_ex fpu htys hp _ he).1
  rw [e1] at h3
  obtain ⟨y, is, c2, hg2, hv2, hty⟩ := h3
  have hst := stat_gExpr (rt := rt fpu) arity e hpl hok _ _ _ _ hg2
  have hi := post_imm (rt := rt fpu) e hpl hbare _ _ _ _ hg2
  cases y with
  | var _ => exact hi.elim
  | imm u o =>
    have hu : u = t.p := hty
    subst hu
    let cs' : CS PTy := { c2 with nslot := c2.nslot + 1, vars := fun k => if k = x then some (some (t.p, c2.nslot)) else c2.vars k }
    have hgen : gExpr (rt fpu) arity (Line.define x e).expr { cs with nreg := 0 } = some (.var x, is ++ [.store c2.nslot o], cs') := by
      rw [Line.expr, gExpr_bin (.define x) (.define x) (gDefH x) (by rw [flatO]) (gNode_define x) .assign e (plain_arity arity e hpl)]
      have g0 : gDefH x { cs with nreg := 0 } = some ((H.var x : H PTy MV), ([] : List (Instr PTy MV)), { cs with nreg := 0, vars := vars1 }) := by
        unfold gDefH
        simp only [hx]
        rfl
      have g3 : gOp2 (rt fpu) .assign (H.var x) (H.imm (t.p) o) c2 = some (.var x, [.store c2.nslot o], cs') := by
        have hc : c2.vars x = some none := by rw [hv2]; show (if x = x then some none else cs.vars x) = _; rw [if_pos rfl]
        show gAssign (H.var x) (H.imm (t.p) o) c2 = _
        unfold gAssign
        simp only [hc]
        rfl
      unfold G.andThen
      rw [g0]
      simp only [Option.bind_some]
      rw [hg2]
      simp only [Option.bind_some]
      rw [g3]
      simp
    have hns : c2.nslot = cs.nslot := hst.2
    have hvars : ∀ k, cs'.vars k = if k = x then some (some (t.p, cs.nslot)) else cs.vars k := by
      intro k
      show (if k = x then some (some (t.p, c2.nslot)) else c2.vars k) = _
      rw [hns, hv2]
      by_cases hk : k = x
      · rw [if_pos hk, if_pos hk]
      · rw [if_neg hk, if_neg hk]; show (if k = x then some none else cs.vars k) = _; rw [if_neg hk]
    refine ⟨⟨is ++ [.store c2.nslot o], .const (.word 0), false⟩, cs', by unfold exprSite site; rw [show gExpr (rt fpu) arity (.bin (.un none (.define x)) .assign e) { cs with nreg := 0 } = _ from hgen]; rfl, ?_, ?_, ?_⟩
    · refine ⟨?_, ?_, ?_, ?_⟩
      · intro n; rw [hvars]; split
        · simp
        · exact hs.typed n
      · intro n b hn
        show b.2 < c2.nslot + 1
        rw [hvars] at hn
        split at hn
        · simp at hn; rw [← hn, hns]; simp
        · have := hs.below n b hn; omega
      · intro n m b c h1 h2 h4
        rw [hvars] at h1 h2
        split at h1 <;> split at h2
        · next a a' => rw [a, a']
        · have := hs.below m c h2; simp at h1; rw [← h1] at h4; simp at h4; omega
        · have := hs.below n b h1; simp at h2; rw [← h2] at h4; simp at h4; omega
        · exact hs.apart n m b c h1 h2 h4
      · intro n u hn
        rw [hvars]
        unfold setType at hn
        split
        · next hh => rw [if_pos hh, ht] at hn; injection hn with hn; exact ⟨_, by rw [hn]⟩
        · next hh => rw [if_neg hh] at hn; exact hs.dom n u hn
    · refine ⟨fun n b hn => ?_, fun n hn hm => ?_⟩
      · rw [hvars, if_neg (by rintro rfl; rw [hx] at hn; simp at hn)]; exact hn
      · rw [hvars, if_neg (by simpa using hm)]; exact hn
    · intro table i hti slots ρ hd
      have h6 := line_run fpu Γ cs cs' hs (.define x e) ⟨hpl, hbare, hnx⟩ _ _ hgen slots table i hti
      have h7 : lineM (rt fpu) arity (envOf cs.vars slots) (.define x e) () = (p.value fpu Γ ρ).map fun z => ((), (envOf cs.vars slots).set x (t.p, z.enc)) := by
        simp only [lineM]
        rw [eager_tree, value_ex fpu hd.fit hd.env p hp.lits hp.guarded t _ ht he]
        cases p.value fpu Γ ρ <;> rfl
      rw [h7] at h6
      dsimp only
      cases hval : p.value fpu Γ ρ with
      | none => rw [hval] at h6; exact h6
      | some z =>
        rw [hval] at h6
        obtain ⟨slots', h8, h9⟩ := h6
        refine ⟨slots', h8, dyn_set hd h9 (has_ex fpu hd.fit p hp.lits t z ht hval) fun n u hn => ?_⟩
        unfold setType at hn
        split at hn
        · next hh => rw [ht] at hn; injection hn with hn; exact .inl ⟨hh, hn.symm⟩
        · next hh => exact .inr ⟨hh, hn⟩

theorem assign_line (fpu : Fpu) (Γ : Types) (cs : CS PTy) (hs : Static Γ cs.vars cs.nslot) (x : Name) (p : Ex) (e : Expr) (he : p.Is e.toTree)
    (t : Ty) (hp : ExOk fpu Γ p t) (hxt : Γ x = some t) : LineSim fpu (.bin (.un none (.var x)) .assign e) Γ Γ cs x [] (fun ρ => p.value fpu Γ ρ) := by
  have hpl : Plain arity e := plain_of_tree _ e (plain_ex p _ he)
  have ht := hp.typed
  obtain ⟨sl, hsl⟩ := hs.dom x t hxt
  have hok : ∀ n, varsE e n → cs.vars n ≠ some none := fun n _ => hs.typed n
  have h3 := ty_gExpr (rt := rt fpu) arity e hpl hok { cs with nreg := 0 } rfl
  have e1 : tyE (rt fpu) arity (tenvOf cs.vars) e = some t.p := by
    unfold tyE
    rw [eval_tree]
    exact (types_ex fpu hs.types hp _ he).1
  rw [e1] at h3
  obtain ⟨y, is, c2, hg2, hv2, hty⟩ := h3
  have hst := stat_gExpr (rt := rt fpu) arity e hpl hok _ _ _ _ hg2
  let rest : G PTy MV (H PTy MV) := (ld y).andThen fun z => if z.1 = t.p then fun cs => some (.var x, [.store sl z.2], cs) else G.fail
  have hrest : TyS cs.vars rest ((some (t.p)).bind fun u => if u = t.p then some () else none) (fun _ _ => True) :=
    TyS.bind (ty_ld hty) fun a b hab => by
      rw [← hab]
      split
      · exact ty_const _ _ _
      · exact TyS.fail
  have srest : Stat rest := (stat_ld y).bind fun _ => Stat.ite (stat_const _ _) Stat.fail
  have h4 := hrest c2 hv2
  simp only [Option.bind_some, if_true] at h4
  obtain ⟨a, js, cs', hgr, hv3, _⟩ := h4
  have hst3 := srest _ _ _ _ hgr
  have hgen : gExpr (rt fpu) arity (Line.assign x e).expr { cs with nreg := 0 } = some (a, is ++ js, cs') := by
    rw [Line.expr, gExpr_bin (.var x) (.var x) (gVarH x) (by rw [flatO]) (gNode_var x) .assign e (plain_arity arity e hpl)]
    have g0 : gVarH x { cs with nreg := 0 } = some ((H.var x : H PTy MV), ([] : List (Instr PTy MV)), { cs with nreg := 0 }) := by
      unfold gVarH
      simp only [hsl]
    have g3 : gOp2 (rt fpu) .assign (H.var x) y c2 = some (a, js, cs') := by
      show gAssign (H.var x) y c2 = _
      unfold gAssign
      simp only [hv2, hsl]
      exact hgr
    unfold G.andThen
    rw [g0]
    simp only [Option.bind_some]
    rw [hg2]
    simp only [Option.bind_some]
    rw [g3]
    simp
  have hns : cs'.nslot = cs.nslot := hst3.2.trans hst.2
  refine ⟨⟨is ++ js, .const (.word 0), false⟩, cs', by unfold exprSite site; rw [show gExpr (rt fpu) arity (.bin (.un none (.var x)) .assign e) { cs with nreg := 0 } = _ from hgen]; rfl, ?_, ?_, ?_⟩
  · rw [hv3, hns]; exact hs
  · rw [hv3]; exact Grow.refl _ _
  · intro table i hti slots ρ hd
    have h6 := line_run fpu Γ cs cs' hs (.assign x e) hpl _ _ hgen slots table i hti
    have h7 : lineM (rt fpu) arity (envOf cs.vars slots) (.assign x e) () = (p.value fpu Γ ρ).map fun z => ((), (envOf cs.vars slots).set x (t.p, z.enc)) := by
      simp only [lineM]
      rw [eager_tree, value_ex fpu hd.fit hd.env p hp.lits hp.guarded t _ ht he]
      cases p.value fpu Γ ρ <;> rfl
    rw [h7] at h6
    dsimp only
    cases hval : p.value fpu Γ ρ with
    | none => rw [hval] at h6; exact h6
    | some z =>
      rw [hval] at h6
      obtain ⟨slots', h8, h9⟩ := h6
      refine ⟨slots', h8, dyn_set hd h9 (has_ex fpu hd.fit p hp.lits t z ht hval) fun n u hn => ?_⟩
      by_cases hh : n = x
      · subst hh; rw [hxt] at hn; injection hn with hn; exact .inl ⟨rfl, hn.symm⟩
      · exact .inr ⟨hh, hn⟩

theorem arith_some (fpu : Fpu) (o : Arith) {t : Ty} (ht : t ≠ .bool) : ∃ f, (rt fpu).binOp o.sign t.p = some (t.p, f) := by
  rw [Real.binOp_arith]
  cases t with
  | bool => exact absurd rfl ht
  | int t => cases o <;> exact ⟨_, rfl⟩
  | flt F => cases F <;> cases o <;> exact ⟨_, rfl⟩

theorem update_line (fpu : Fpu) (Γ : Types) (cs : CS PTy) (hs : Static Γ cs.vars cs.nslot) (o : Arith) (x : Name) (p : Ex) (e : Expr) (he : p.Is e.toTree)
    (t : Ty) (hop : ExOk fpu Γ (.arith o (.var x) p) t) (hxt : Γ x = some t) :
    LineSim fpu (.bin (.un none (.var x)) (Function.Arith.assignSign o) e) Γ Γ cs x [] (fun ρ => (Ex.arith o (.var x) p).value fpu Γ ρ) := by
  have hpl : Plain arity e := plain_of_tree _ e (plain_ex p _ he)
  obtain ⟨t', u, hxt', hu, hj⟩ := type_arith hop.typed
  rw [Ex.type] at hxt'
  have htt : t' = t := by rw [hxt'] at hxt; exact Option.some.inj hxt
  rw [htt] at hj
  have hlits : p.Lits fpu := hop.lits.2
  have hguard : p.Guarded Γ := hop.guarded.2
  have hlev : p.Level Γ := hop.level.2
  have hop' : ExOk fpu Γ p u := ⟨hu, hlits, hguard, hlev⟩
  obtain ⟨sl, hsl⟩ := hs.dom x t hxt
  have hok : ∀ n, varsE e n → cs.vars n ≠ some none := fun n _ => hs.typed n
  have h3 := ty_gExpr (rt := rt fpu) arity e hpl hok { cs with nreg := 0 } rfl
  have e1 : tyE (rt fpu) arity (tenvOf cs.vars) e = some u.p := by
    unfold tyE
    rw [eval_tree]
    exact (types_ex fpu hs.types hop' _ he).1
  rw [e1] at h3
  obtain ⟨y, is, c2, hg2, hv2, hty⟩ := h3
  have hst := stat_gExpr (rt := rt fpu) arity e hpl hok _ _ _ _ hg2
  obtain ⟨f, hf⟩ := arith_some fpu o (join_number hj).2.2
  let rest : G PTy MV (H PTy MV) := (ld (.var x : H PTy MV)).andThen fun x' => (ld y).andThen fun y => G.get (common (rt fpu) x'.1 y.1) fun c =>
    if c = t.p then (castTo (rt fpu) c y).andThen fun v => G.get ((rt fpu).binOp o.sign c) fun r =>
      if r.1 = t.p then (G.push (.bin o.sign c x'.2 v)).andThen fun o => fun cs => some (.var x, [.store sl o], cs) else G.fail
    else G.fail
  have hrest : TyS cs.vars rest ((some (t.p)).bind fun a => (some u.p).bind fun b => (common (rt fpu) a b).bind fun c =>
      if c = t.p then (castable (rt fpu) b c).bind fun _ => ((rt fpu).binOp o.sign c).bind fun r => if r.1 = t.p then (some ()).bind fun _ => some () else none else none) (fun _ _ => True) := by
    refine TyS.bind (ty_ld (h := .var x) (show tenvOf cs.vars x = some t.p by unfold tenvOf; rw [hsl])) fun a b hab => TyS.bind (ty_ld hty) fun a' b' hab' => ?_
    rw [← hab, ← hab']
    refine TyS.get fun c _ => ?_
    split
    · refine TyS.bind (ty_castTo (rt := rt fpu) c a') fun _ _ _ => TyS.get fun r _ => ?_
      split
      · exact TyS.bind (TyS.push _) fun _ _ _ => ty_const _ _ _
      · exact TyS.fail
    · exact TyS.fail
  have srest : Stat rest := (stat_ld _).bind fun _ => (stat_ld _).bind fun _ => Stat.get fun _ => Stat.ite ((stat_castTo _ _ _).bind fun _ => Stat.get fun _ =>
    Stat.ite ((Stat.push _).bind fun _ => stat_const _ _) Stat.fail) Stat.fail
  have h4 := hrest c2 hv2
  simp only [Option.bind_some] at h4
  rw [show common (rt fpu) t.p u.p = some t.p from by rw [← meet_eq]; exact meet_p fpu hj] at h4
  simp only [Option.bind_some, if_true, castable_up fpu (join_up hj).2] at h4
  rw [hf] at h4
  simp only [Option.bind_some, if_true] at h4
  obtain ⟨a, js, cs', hgr, hv3, _⟩ := h4
  have hst3 := srest _ _ _ _ hgr
  have hgen : gExpr (rt fpu) arity (Line.update (Function.Arith.assignSign o) x e).expr { cs with nreg := 0 } = some (a, is ++ js, cs') := by
    rw [Line.expr, gExpr_bin (.var x) (.var x) (gVarH x) (by rw [flatO]) (gNode_var x) _ e (plain_arity arity e hpl)]
    have g0 : gVarH x { cs with nreg := 0 } = some ((H.var x : H PTy MV), ([] : List (Instr PTy MV)), { cs with nreg := 0 }) := by
      unfold gVarH
      simp only [hsl]
    have g3 : gOp2 (rt fpu) (Function.Arith.assignSign o) (H.var x) y c2 = some (a, js, cs') := by
      unfold gOp2
      rw [if_neg (Function.assign_ne o), Function.base_assign]
      show gUpdate (rt fpu) o.sign (H.var x) y c2 = _
      unfold gUpdate
      simp only [hv2, hsl]
      exact hgr
    unfold G.andThen
    rw [g0]
    simp only [Option.bind_some]
    rw [hg2]
    simp only [Option.bind_some]
    rw [g3]
    simp
  have hns : cs'.nslot = cs.nslot := hst3.2.trans hst.2
  refine ⟨⟨is ++ js, .const (.word 0), false⟩, cs', by unfold exprSite site; rw [show gExpr (rt fpu) arity (.bin (.un none (.var x)) (Function.Arith.assignSign o) e) { cs with nreg := 0 } = _ from hgen]; rfl, ?_, ?_, ?_⟩
  · rw [hv3, hns]; exact hs
  · rw [hv3]; exact Grow.refl _ _
  · intro table i hti slots ρ hd
    have h6 := line_run fpu Γ cs cs' hs (.update (Function.Arith.assignSign o) x e) ⟨hpl, by rw [Function.base_assign]; simp⟩ _ _ hgen slots table i hti
    have h7 : lineM (rt fpu) arity (envOf cs.vars slots) (.update (Function.Arith.assignSign o) x e) () =
        ((Ex.arith o (.var x) p).value fpu Γ ρ).map fun z => ((), (envOf cs.vars slots).set x (t.p, z.enc)) := by
      simp only [lineM]
      rw [eager_tree, value_ex fpu hd.fit hd.env p hlits hguard u _ hu he, Ex.value, hop.typed]
      obtain ⟨w, hw, hwt⟩ := hd.fit x _ hxt
      rw [show (Ex.var x).value fpu Γ ρ = some w by rw [Ex.value, hw]]
      simp only [Option.bind_some]
      cases hval : p.value fpu Γ ρ with
      | none => rfl
      | some y =>
        simp only [Option.map_some, M.lift_some, Option.bind_some]
        rw [hd.env x _ w hxt hw, Function.base_assign]
        simp only [Option.bind_some]
        obtain ⟨x', y', h3, h4, h5, h6, h7⟩ := arithTV fpu o hj hwt (has_ex fpu hd.fit p hlits u y hu hval)
        rw [h7, h3, h4]
        simp only [Option.bind_some]
        cases arithV fpu o _ x' y' <;> rfl
    rw [h7] at h6
    dsimp only
    cases hval : (Ex.arith o (.var x) p).value fpu Γ ρ with
    | none => rw [hval] at h6; exact h6
    | some z =>
      rw [hval] at h6
      obtain ⟨slots', h8, h9⟩ := h6
      refine ⟨slots', h8, dyn_set hd h9 (has_ex fpu hd.fit _ hop.lits _ z hop.typed hval) fun n v hn => ?_⟩
      by_cases hh : n = x
      · subst hh; rw [hxt] at hn; injection hn with hn; exact .inl ⟨rfl, hn.symm⟩
      · exact .inr ⟨hh, hn⟩

/-! ## Lemmas: statements -/

/-- The codes are in the table from `i` on. -/
def At (table : List Site) (i : Nat) (codes : List Site) : Prop := ∀ k s, codes[k]? = some s → table[i + k]? = some s

theorem At.head {table : List Site} {i : Nat} {s : Site} {codes : List Site} (h : At table i (s :: codes)) : table[i]? = some s := by simpa using h 0 s rfl
theorem At.tail {table : List Site} {i : Nat} {s : Site} {codes : List Site} (h : At table i (s :: codes)) : At table (i + 1) codes := by
  intro k t hk
  have := h (k + 1) t (by simpa using hk)
  rw [← this]; congr 1; omega
theorem At.left {table : List Site} {i : Nat} {a b : List Site} (h : At table i (a ++ b)) : At table i a := by
  intro k t hk
  refine h k t ?_
  have hlt : k < a.length := (List.getElem?_eq_some_iff.1 hk).1
  rw [List.getElem?_append_left hlt]; exact hk
theorem At.right {table : List Site} {i : Nat} {a b : List Site} (h : At table i (a ++ b)) : At table (i + a.length) b := by
  intro k t hk
  have := h (a.length + k) t (by rw [List.getElem?_append_right (by omega)]; simpa using hk)
  rw [← this]; congr 1; omega

/-- How the ends of statements correspond. `Γ'`, `vars'` belong to the point after the statement, `Γ`, `vars` to the point before. -/
def Agree (r : Option MV) (Γ Γ' : Types) (vars vars' : Vars PTy) : End → Out (Nat → MV) MV → Prop
  | .next ρ, .next m => Dyn Γ' vars' m.1 ρ ∧ m.2 = r
  | .brk ρ, .brk m => Dyn Γ vars m.1 ρ ∧ m.2 = r
  | .cont ρ, .cont m => Dyn Γ vars m.1 ρ ∧ m.2 = r
  | .ret z, .ret m => m.2 = some z.enc
  | .undefined, .trap => True
  | .undefined, .ret m => m.2 = some .poison
  | .more, .more => True
  | _, _ => False

theorem Agree.less {r : Option MV} {Γ Δ Γ' Δ' : Types} {vars wars vars' wars' : Vars PTy} {E : End} {O : Out (Nat → MV) MV} (h : Agree r Γ Γ' vars vars' E O)
    (h1 : ∀ slots ρ, Dyn Γ vars slots ρ → Dyn Δ wars slots ρ) (h2 : ∀ slots ρ, Dyn Γ' vars' slots ρ → Dyn Δ' wars' slots ρ) : Agree r Δ Δ' wars wars' E O := by
  cases E <;> cases O <;> simp only [Agree] at h ⊢
  · exact ⟨h2 _ _ h.1, h.2⟩
  · exact ⟨h1 _ _ h.1, h.2⟩
  · exact ⟨h1 _ _ h.1, h.2⟩
  · exact h
  · exact h

def CmdSim (fpu : Fpu) (ret : Ty) (c : Cmd) (s : Stmt) (Γ : Types) (cs : CS PTy) : Prop :=
  ∃ codes cs', sites fpu ret.p s cs = some (codes, cs') ∧ Static (c.after Γ) cs'.vars cs'.nslot ∧ Grow cs.vars cs'.vars c.defs ∧ (∀ i, (mark s i).2 = i + codes.length) ∧
    ∀ table i, At table i codes → ∀ n slots r ρ, Dyn Γ cs.vars slots ρ →
      Agree r Γ (c.after Γ) cs.vars cs'.vars (c.exec fpu ret n Γ ρ) (Gen.exec (machine fpu table) n (mark s i).1 (slots, r))

def CmdsSim (fpu : Fpu) (ret : Ty) (c : Cmds) (s : Stmts) (Γ : Types) (cs : CS PTy) : Prop :=
  ∃ codes cs', sitess fpu ret.p s cs = some (codes, cs') ∧ Static Γ cs'.vars cs'.nslot ∧ Grow cs.vars cs'.vars c.defs ∧ (∀ i, (marks s i).2 = i + codes.length) ∧
    ∀ table i, At table i codes → ∀ n slots r ρ, Dyn Γ cs.vars slots ρ → Agree r Γ Γ cs.vars cs.vars (c.exec fpu ret n Γ ρ) (execs (machine fpu table) n (marks s i).1 (slots, r))

def RestSim (fpu : Fpu) (ret : Ty) (c : Rest) (es : Elifs) (el : Else) (Γ : Types) (cs : CS PTy) : Prop :=
  ∃ codes cs1 codes' cs', sitesElifs fpu ret.p es cs = some (codes, cs1) ∧ sitesElse fpu ret.p el cs1 = some (codes', cs') ∧ Static Γ cs'.vars cs'.nslot ∧ Grow cs.vars cs'.vars c.defs ∧
    (∀ i, (markElifs es i).2 = i + codes.length) ∧ (∀ i, (markElse el i).2 = i + codes'.length) ∧
    ∀ table i, At table i (codes ++ codes') → ∀ n slots r ρ, Dyn Γ cs.vars slots ρ →
      Agree r Γ Γ cs.vars cs.vars (c.exec fpu ret n Γ ρ) (execElifs (machine fpu table) n (markElifs es i).1 (execElse (machine fpu table) n (markElse el (markElifs es i).2).1) (slots, r))

theorem truth_bit (fpu : Fpu) (table : List Site) (b : Bool) : (machine fpu table).truth (.word (bit b)) = b := by cases b <;> rfl

theorem line_sim {fpu : Fpu} {ret : Ty} {c : Cmd} {s : Expr} {Γ : Types} {cs : CS PTy} {x : Name} {value : Store → Option Val}
    (h : LineSim fpu s Γ (c.after Γ) cs x c.defs value) (he : ∀ n ρ, c.exec fpu ret n Γ ρ = withValue (value ρ) fun z => .next (setValue ρ x z)) : CmdSim fpu ret c (.expr s) Γ cs := by
  obtain ⟨site, cs', h1, h2, h3, h4⟩ := h
  refine ⟨[site], cs', by rw [sites, h1]; rfl, h2, h3, fun i => rfl, fun table i ht n slots r ρ hd => ?_⟩
  have h5 := h4 table i ht.head slots ρ hd
  rw [he, mark, Gen.exec]
  cases hv : value ρ with
  | none => rw [hv] at h5; simp only at h5; rw [h5]; trivial
  | some z =>
    rw [hv] at h5
    obtain ⟨slots', h6, h7⟩ := h5
    rw [h6]
    exact ⟨h7, rfl⟩

theorem cond_agree {r : Option MV} {Γ Γ' : Types} {vars vars' : Vars PTy} {fpu : Fpu} {table : List Site} {i : Nat} {slots : Nat → MV} {v : Option Val} {E F : End}
    {O P : Mem (Nat → MV) MV → Out (Nat → MV) MV} (h : (machine fpu table).eval (tag i) slots = v.map fun z => (slots, z.enc)) (hv : ∀ z, v = some z → z.Has .bool)
    (h1 : Agree r Γ Γ' vars vars' E (O (slots, r))) (h2 : Agree r Γ Γ' vars vars' F (P (slots, r))) :
    Agree r Γ Γ' vars vars' (withTest v E F) (Gen.cond (machine fpu table) (tag i) (slots, r) O P) := by
  unfold Gen.cond
  rw [h]
  cases v with
  | none => trivial
  | some z =>
    obtain ⟨b, rfl⟩ := has_bool (hv z rfl)
    simp only [Option.map_some, Val.enc, truth_bit]
    cases b
    · exact h2
    · exact h1

theorem loop_agree {r : Option MV} {Γ : Types} {vars vars' : Vars PTy} {names : List Name} {ns : Nat} {fpu : Fpu} {table : List Site} {i : Nat} {test : Store → Option Val} {body : Store → End}
    {B : Mem (Nat → MV) MV → Out (Nat → MV) MV} (hs : Static Γ vars ns) (hg : Grow vars vars' names)
    (h : ∀ slots ρ, Dyn Γ vars slots ρ → (machine fpu table).eval (tag i) slots = (test ρ).map fun z => (slots, z.enc)) (hv : ∀ slots ρ, Dyn Γ vars slots ρ → ∀ z, test ρ = some z → z.Has .bool)
    (hb : ∀ slots ρ, Dyn Γ vars slots ρ → Agree r Γ Γ vars vars (body ρ) (B (slots, r))) :
    ∀ n slots ρ, Dyn Γ vars slots ρ → Agree r Γ Γ vars vars' (repeated test body n ρ) (iterate (machine fpu table) (tag i) B n (slots, r)) := by
  intro n
  induction n with
  | zero => intro slots ρ _; trivial
  | succ n ih =>
    intro slots ρ hd
    rw [repeated, iterate]
    refine cond_agree (h slots ρ hd) (hv slots ρ hd) ?_ ⟨hd.more hs hg, rfl⟩
    have h2 := hb slots ρ hd
    cases hE : body ρ <;> cases hO : B (slots, r) <;> rw [hE, hO] at h2 <;> simp only [Agree] at h2 ⊢
    · next m => obtain ⟨h3, h4⟩ := h2; subst h4; exact ih m.1 _ h3
    · next m => exact ⟨h2.1.more hs hg, h2.2⟩
    · next m => obtain ⟨h3, h4⟩ := h2; subst h4; exact ih m.1 _ h3
    · exact h2
    · exact h2

/-- The names are new. -/
def FreshIn (vars : Vars PTy) (names : List Name) : Prop := ∀ x ∈ names, vars x = none

theorem FreshIn.left {vars : Vars PTy} {a b : List Name} (h : FreshIn vars (a ++ b)) : FreshIn vars a := fun x hx => h x (by simp [hx])
theorem FreshIn.right {vars vars' : Vars PTy} {a b : List Name} (h : FreshIn vars (a ++ b)) (hg : Grow vars vars' a) (hn : (a ++ b).Nodup) : FreshIn vars' b :=
  fun x hx => hg.new x (h x (by simp [hx])) fun ha => (List.nodup_append.1 hn).2.2 x ha x hx rfl

theorem after_sub {c : Cmd} {Γ : Types} {cs : CS PTy} (hs : Static Γ cs.vars cs.nslot) (hf : FreshIn cs.vars c.defs) : ∀ n t, Γ n = some t → (c.after Γ) n = some t := by
  cases c with
  | define x e => exact set_sub (hs.fresh (hf x (by simp [Cmd.defs]))) _
  | _ => exact fun n t h => h

mutual
theorem cmd_sim (fpu : Fpu) (ret : Ty) (c : Cmd) (s : Stmt) (h : c.Is s) (l : Bool) (Γ : Types) (hok : c.Ok fpu ret l Γ) (cs : CS PTy) (hs : Static Γ cs.vars cs.nslot)
    (hf : FreshIn cs.vars c.defs) (hn : c.defs.Nodup) : CmdSim fpu ret c s Γ cs := by
  match c with
  | .define x e =>
    cases h with
    | define h1 =>
      obtain ⟨e', rfl, h2⟩ := h1
      rw [Cmd.Ok] at hok
      obtain ⟨⟨τ, hp⟩, hb, _⟩ := hok
      exact line_sim (define_line fpu Γ cs hs x (hf x (by simp [Cmd.defs])) e e' h2 τ hp hb) fun n ρ => by rw [Cmd.exec]
  | .assign x e =>
    cases h with
    | assign h1 =>
      obtain ⟨e', rfl, h2⟩ := h1
      rw [Cmd.Ok] at hok
      obtain ⟨τ, hp, hx⟩ := hok
      exact line_sim (assign_line fpu Γ cs hs x e e' h2 τ hp hx) fun n ρ => by rw [Cmd.exec]
  | .update o x e =>
    cases h with
    | update h1 =>
      obtain ⟨e', rfl, h2⟩ := h1
      rw [Cmd.Ok] at hok
      obtain ⟨τ, hp, hx⟩ := hok
      exact line_sim (update_line fpu Γ cs hs o x e e' h2 τ hp hx) fun n ρ => by rw [Cmd.exec]
  | .ret e =>
    cases h with
    | ret h1 =>
      rw [Cmd.Ok] at hok
      obtain ⟨τ, hp, hc⟩ := hok
      obtain ⟨site, cs', h2, h3, h4, h5⟩ := ret_site fpu ret Γ cs hs e _ h1 τ hp hc
      refine ⟨[site], cs', by rw [sites, h2]; rfl, by rw [h3, h4]; exact hs, by rw [h3]; exact Grow.refl _ _, fun i => rfl, fun table i ht n slots r ρ hd => ?_⟩
      rw [Cmd.exec, mark, Gen.exec, h5 table i ht.head slots ρ hd]
      cases e.value fpu Γ ρ with
      | none => trivial
      | some z => cases hz : conv fpu ret z <;> simp [withValue, Agree, result, hz]
  | .brk => cases h; exact ⟨[], cs, rfl, hs, Grow.refl _ _, fun i => rfl, fun table i ht n slots r ρ hd => by rw [Cmd.exec, mark, Gen.exec]; exact ⟨hd, rfl⟩⟩
  | .cont => cases h; exact ⟨[], cs, rfl, hs, Grow.refl _ _, fun i => rfl, fun table i ht n slots r ρ hd => by rw [Cmd.exec, mark, Gen.exec]; exact ⟨hd, rfl⟩⟩
  | .loop c b =>
    cases h with
    | @loop _ _ s ss h1 h2 =>
      rw [Cmd.Ok] at hok
      obtain ⟨site, cs1, g1, g2, g3, g4⟩ := cond_site fpu Γ cs hs c _ h1 hok.1
      rw [Cmd.defs] at hf hn
      obtain ⟨codes, cs', k1, k2, k3, k4, k5⟩ := cmds_sim fpu ret b ss h2 true Γ hok.2 cs1 (by rw [g2, g3]; exact hs) (by rw [g2]; exact hf) hn
      rw [g2] at k3 k5
      refine ⟨site :: codes, cs', by rw [sites, g1]; simp only [Option.bind_some]; rw [k1]; rfl, k2, k3, fun i => ?_, fun table i ht n slots r ρ hd => ?_⟩
      · rw [mark, k4]; simp; omega
      · rw [Cmd.exec, mark, Gen.exec]
        exact loop_agree hs k3 (fun slots ρ hd => g4 table i ht.head slots ρ hd) (fun slots ρ hd z hz => has_ex fpu hd.fit c hok.1.lits .bool z hok.1.typed hz) (fun slots ρ hd => k5 table (i + 1) ht.tail n slots r ρ hd) n slots ρ hd
  | .branch c b rest =>
    cases h with
    | @branch _ _ _ s ss es el h1 h2 h3 =>
      rw [Cmd.Ok] at hok
      obtain ⟨site, cs1, g1, g2, g3, g4⟩ := cond_site fpu Γ cs hs c _ h1 hok.1
      rw [Cmd.defs] at hf hn
      obtain ⟨codes, cs2, k1, k2, k3, k4, k5⟩ := cmds_sim fpu ret b ss h2 l Γ hok.2.1 cs1 (by rw [g2, g3]; exact hs) (by rw [g2]; exact hf.left) (List.nodup_append.1 hn).1
      rw [g2] at k3 k5
      obtain ⟨codes', cs3, codes'', cs', m1, m2, m3, m4, m5, m6, m7⟩ := rest_sim fpu ret rest es el h3 l Γ hok.2.2 cs2 k2 (hf.right k3 hn) (List.nodup_append.1 hn).2.1
      refine ⟨site :: (codes ++ (codes' ++ codes'')), cs', ?_, m3, k3.trans m4, fun i => ?_, fun table i ht n slots r ρ hd => ?_⟩
      · rw [sites, g1]; simp only [Option.bind_some]; rw [k1]; simp only [Option.bind_some]; rw [m1]; simp only [Option.bind_some]; rw [m2]; rfl
      · rw [mark, m6, m5, k4]; simp; omega
      · rw [Cmd.exec, mark, Gen.exec]
        refine cond_agree (g4 table i ht.head slots ρ hd) (fun z hz => has_ex fpu hd.fit c hok.1.lits .bool z hok.1.typed hz) ((k5 table (i + 1) ht.tail.left n slots r ρ hd).less (fun _ _ h => h) fun _ _ h => h.more hs (k3.trans m4)) ?_
        have h5 := m7 table (i + 1 + codes.length) ht.tail.right n slots r ρ (hd.more hs k3)
        rw [k4]
        exact h5.less (fun _ _ h => h.less hs k3 fun _ _ h => h) fun _ _ h => (h.less hs k3 fun _ _ h => h).more hs (k3.trans m4)
theorem cmds_sim (fpu : Fpu) (ret : Ty) (c : Cmds) (s : Stmts) (h : c.Is s) (l : Bool) (Γ : Types) (hok : c.Ok fpu ret l Γ) (cs : CS PTy) (hs : Static Γ cs.vars cs.nslot)
    (hf : FreshIn cs.vars c.defs) (hn : c.defs.Nodup) : CmdsSim fpu ret c s Γ cs := by
  match c with
  | .nil => cases h; exact ⟨[], cs, rfl, hs, Grow.refl _ _, fun i => rfl, fun table i ht n slots r ρ hd => by rw [Cmds.exec, marks, execs]; exact ⟨hd, rfl⟩⟩
  | .cons c cs0 =>
    cases h with
    | @cons _ _ s ss h1 h2 =>
      rw [Cmds.Ok] at hok
      rw [Cmds.defs] at hf hn
      obtain ⟨codes, cs1, k1, k2, k3, k4, k5⟩ := cmd_sim fpu ret c s h1 l Γ hok.1 cs hs hf.left (List.nodup_append.1 hn).1
      obtain ⟨codes', cs', m1, m2, m3, m4, m5⟩ := cmds_sim fpu ret cs0 ss h2 l (c.after Γ) hok.2 cs1 k2 (hf.right k3 hn) (List.nodup_append.1 hn).2.1
      have hsub := after_sub hs hf.left
      have hless : ∀ slots ρ, Dyn (c.after Γ) cs1.vars slots ρ → Dyn Γ cs.vars slots ρ := fun slots ρ h => h.less hs k3 hsub
      refine ⟨codes ++ codes', cs', by rw [sitess, k1]; simp only [Option.bind_some]; rw [m1]; rfl, m2.scope hsub, k3.trans m3, fun i => ?_, fun table i ht n slots r ρ hd => ?_⟩
      · rw [marks, m4, k4]; simp; omega
      · rw [Cmds.exec, marks, execs]
        have h5 := k5 table i ht.left n slots r ρ hd
        cases hE : c.exec fpu ret n Γ ρ <;> cases hO : Gen.exec (machine fpu table) n (mark s i).1 (slots, r) <;> rw [hE, hO] at h5 <;> simp only [Agree] at h5
        · next ρ' m =>
          obtain ⟨h6, h7⟩ := h5
          have h8 := m5 table (i + codes.length) ht.right n m.1 r ρ' h6
          rw [← h7] at h8
          rw [k4]
          rw [← h7]
          exact h8.less hless hless
        · exact h5
        · exact h5
        · exact h5
        · exact h5
        · trivial
        · trivial
theorem rest_sim (fpu : Fpu) (ret : Ty) (c : Rest) (es : Elifs) (el : Else) (h : c.Is es el) (l : Bool) (Γ : Types) (hok : c.Ok fpu ret l Γ) (cs : CS PTy) (hs : Static Γ cs.vars cs.nslot)
    (hf : FreshIn cs.vars c.defs) (hn : c.defs.Nodup) : RestSim fpu ret c es el Γ cs := by
  match c with
  | .none =>
    cases h
    exact ⟨[], cs, [], cs, rfl, rfl, hs, Grow.refl _ _, fun i => rfl, fun i => rfl, fun table i ht n slots r ρ hd => by
      rw [Rest.exec, markElifs, execElifs, markElse, execElse]; exact ⟨hd, rfl⟩⟩
  | .els b =>
    cases h with
    | @els _ ss h1 =>
      rw [Rest.Ok] at hok
      rw [Rest.defs] at hf hn
      obtain ⟨codes, cs', k1, k2, k3, k4, k5⟩ := cmds_sim fpu ret b ss h1 l Γ hok cs hs hf hn
      refine ⟨[], cs, codes, cs', rfl, k1, k2, k3, fun i => rfl, fun i => k4 i, fun table i ht n slots r ρ hd => ?_⟩
      rw [Rest.exec, markElifs, execElifs, markElse, execElse]
      exact k5 table i ht n slots r ρ hd
  | .elif c b rest =>
    cases h with
    | @elif _ _ _ s ss es _ h1 h2 h3 =>
      rw [Rest.Ok] at hok
      obtain ⟨site, cs1, g1, g2, g3, g4⟩ := cond_site fpu Γ cs hs c _ h1 hok.1
      rw [Rest.defs] at hf hn
      obtain ⟨codes, cs2, k1, k2, k3, k4, k5⟩ := cmds_sim fpu ret b ss h2 l Γ hok.2.1 cs1 (by rw [g2, g3]; exact hs) (by rw [g2]; exact hf.left) (List.nodup_append.1 hn).1
      rw [g2] at k3 k5
      obtain ⟨codes', cs3, codes'', cs', m1, m2, m3, m4, m5, m6, m7⟩ := rest_sim fpu ret rest es el h3 l Γ hok.2.2 cs2 k2 (hf.right k3 hn) (List.nodup_append.1 hn).2.1
      refine ⟨site :: (codes ++ codes'), cs3, codes'', cs', ?_, m2, m3, k3.trans m4, fun i => ?_, m6, fun table i ht n slots r ρ hd => ?_⟩
      · rw [sitesElifs, g1]; simp only [Option.bind_some]; rw [k1]; simp only [Option.bind_some]; rw [m1]; rfl
      · rw [markElifs, m5, k4]; simp; omega
      · rw [Rest.exec, markElifs, execElifs]
        rw [List.cons_append, List.append_assoc] at ht
        refine cond_agree (g4 table i ht.head slots ρ hd) (fun z hz => has_ex fpu hd.fit c hok.1.lits .bool z hok.1.typed hz) (k5 table (i + 1) ht.tail.left n slots r ρ hd) ?_
        have h5 := m7 table (i + 1 + codes.length) ht.tail.right n slots r ρ (hd.more hs k3)
        rw [k4]
        exact h5.less (fun _ _ h => h.less hs k3 fun _ _ h => h) fun _ _ h => h.less hs k3 fun _ _ h => h
end

/-! ## Lemmas: the whole function -/

/-- The statements end neither by `break` nor by `continue`. -/
def End.Inside : End → Prop
  | .brk _ => False
  | .cont _ => False
  | _ => True

theorem inside_test (v : Option Val) (E F : End) (h : E.Inside) (h' : F.Inside) : (withTest v E F).Inside := by
  unfold withTest
  split
  · exact h
  · exact h'
  · trivial

theorem next_test (v : Option Val) (E F : End) (ρ : Store) (h : E ≠ .next ρ) (h' : F ≠ .next ρ) : withTest v E F ≠ .next ρ := by
  unfold withTest
  split
  · exact h
  · exact h'
  · simp

theorem inside_repeated (test : Store → Option Val) (body : Store → End) : ∀ n ρ, (repeated test body n ρ).Inside := by
  intro n
  induction n with
  | zero => intro ρ; trivial
  | succ n ih =>
    intro ρ
    rw [repeated]
    refine inside_test _ _ _ ?_ trivial
    split
    · exact ih _
    · exact ih _
    all_goals trivial

mutual
theorem inside_cmd (fpu : Fpu) (ret : Ty) (c : Cmd) (n : Nat) (Γ : Types) (ρ : Store) (h : c.Ok fpu ret false Γ) : (c.exec fpu ret n Γ ρ).Inside := by
  match c with
  | .define x e => rw [Cmd.exec]; cases e.value fpu Γ ρ <;> trivial
  | .assign x e => rw [Cmd.exec]; cases e.value fpu Γ ρ <;> trivial
  | .update o x e => rw [Cmd.exec]; cases (Ex.arith o (.var x) e).value fpu Γ ρ <;> trivial
  | .ret e => rw [Cmd.exec]; cases (e.value fpu Γ ρ).bind (conv fpu ret) <;> trivial
  | .brk => rw [Cmd.Ok] at h; cases h
  | .cont => rw [Cmd.Ok] at h; cases h
  | .loop c b => rw [Cmd.exec]; exact inside_repeated _ _ _ _
  | .branch c b rest =>
    rw [Cmd.Ok] at h
    rw [Cmd.exec]
    exact inside_test _ _ _ (inside_cmds fpu ret b n Γ ρ h.2.1) (inside_rest fpu ret rest n Γ ρ h.2.2)
theorem inside_cmds (fpu : Fpu) (ret : Ty) (c : Cmds) (n : Nat) (Γ : Types) (ρ : Store) (h : c.Ok fpu ret false Γ) : (c.exec fpu ret n Γ ρ).Inside := by
  match c with
  | .nil => rw [Cmds.exec]; trivial
  | .cons c cs =>
    rw [Cmds.Ok] at h
    rw [Cmds.exec]
    have h1 := inside_cmd fpu ret c n Γ ρ h.1
    cases hE : c.exec fpu ret n Γ ρ <;> rw [hE] at h1 <;> simp only [End.andThen]
    · exact inside_cmds fpu ret cs n _ _ h.2
    all_goals exact h1
theorem inside_rest (fpu : Fpu) (ret : Ty) (c : Rest) (n : Nat) (Γ : Types) (ρ : Store) (h : c.Ok fpu ret false Γ) : (c.exec fpu ret n Γ ρ).Inside := by
  match c with
  | .none => rw [Rest.exec]; trivial
  | .els b => rw [Rest.Ok] at h; rw [Rest.exec]; exact inside_cmds fpu ret b n Γ ρ h
  | .elif c b rest =>
    rw [Rest.Ok] at h
    rw [Rest.exec]
    exact inside_test _ _ _ (inside_cmds fpu ret b n Γ ρ h.2.1) (inside_rest fpu ret rest n Γ ρ h.2.2)
end

mutual
theorem ends_cmd (fpu : Fpu) (ret : Ty) (c : Cmd) (n : Nat) (Γ : Types) (ρ ρ' : Store) (h : c.ends = true) : c.exec fpu ret n Γ ρ ≠ .next ρ' := by
  match c with
  | .define x e => cases h
  | .assign x e => cases h
  | .update o x e => cases h
  | .ret e => rw [Cmd.exec]; cases (e.value fpu Γ ρ).bind (conv fpu ret) <;> simp [withValue]
  | .brk => rw [Cmd.exec]; simp
  | .cont => rw [Cmd.exec]; simp
  | .loop c b => cases h
  | .branch c b rest =>
    rw [Cmd.ends, Bool.and_eq_true] at h
    rw [Cmd.exec]
    exact next_test _ _ _ _ (ends_cmds fpu ret b n Γ ρ ρ' h.1) (ends_rest fpu ret rest n Γ ρ ρ' h.2)
theorem ends_cmds (fpu : Fpu) (ret : Ty) (c : Cmds) (n : Nat) (Γ : Types) (ρ ρ' : Store) (h : c.ends = true) : c.exec fpu ret n Γ ρ ≠ .next ρ' := by
  match c with
  | .nil => cases h
  | .cons c .nil =>
    rw [Cmds.ends] at h
    rw [Cmds.exec]
    have h1 := fun ρ' => ends_cmd fpu ret c n Γ ρ ρ' h
    cases hE : c.exec fpu ret n Γ ρ <;> rw [hE] at h1 <;> simp only [End.andThen] <;> simp
    exact absurd rfl (h1 _)
  | .cons c (.cons d ds) =>
    rw [Cmds.ends] at h
    rw [Cmds.exec]
    cases hE : c.exec fpu ret n Γ ρ <;> simp only [End.andThen]
    · exact ends_cmds fpu ret (.cons d ds) n _ _ _ h
    all_goals simp
theorem ends_rest (fpu : Fpu) (ret : Ty) (c : Rest) (n : Nat) (Γ : Types) (ρ ρ' : Store) (h : c.ends = true) : c.exec fpu ret n Γ ρ ≠ .next ρ' := by
  match c with
  | .none => cases h
  | .els b => rw [Rest.ends] at h; rw [Rest.exec]; exact ends_cmds fpu ret b n Γ ρ ρ' h
  | .elif c b rest =>
    rw [Rest.ends, Bool.and_eq_true] at h
    rw [Rest.exec]
    exact next_test _ _ _ _ (ends_cmds fpu ret b n Γ ρ ρ' h.1) (ends_rest fpu ret rest n Γ ρ ρ' h.2)
end

theorem named_type (t : Ty) : typeNamed (typeText t) = some t.p := by
  cases t with
  | bool => rfl
  | int t => cases t <;> rfl
  | flt F => cases F <;> rfl

theorem params_types (ps : List (Name × Ty)) : paramTypes (ps.map fun q => (typeText q.2, q.1)) = some (Real.params ps) := by
  induction ps with
  | nil => rfl
  | cons q ps ih =>
    simp only [List.map_cons]
    rw [paramTypes]
    simp only [named_type, Option.bind_some, ih, Option.map_some]
    rfl

theorem param_slot (x : Name) (ps : List (Name × PTy)) : ∀ k b, Real.paramVars k ps x = some (some b) → k ≤ b.2 ∧ b.2 < k + ps.length ∧ (ps[b.2 - k]?).map (·.1) = some x := by
  induction ps with
  | nil => intro k b h; simp [Real.paramVars] at h
  | cons q ps ih =>
    intro k b h
    obtain ⟨y, t⟩ := q
    rw [Real.paramVars] at h
    cases hp : Real.paramVars (k + 1) ps x with
    | some c =>
      rw [hp] at h
      simp only [Option.some.injEq] at h
      subst h
      obtain ⟨h1, h2, h3⟩ := ih _ _ hp
      refine ⟨by omega, by simp only [List.length_cons]; omega, ?_⟩
      rw [show b.2 - k = (b.2 - (k + 1)) + 1 by omega, List.getElem?_cons_succ]
      exact h3
    | none =>
      rw [hp] at h
      simp only at h
      split at h
      · next e => simp only [Option.some.injEq] at h; subst h; subst e; simp
      · simp at h

theorem params_static (ps : List (Name × Ty)) (hn : (ps.map (·.1)).Nodup) : Static (Real.argType ps) (Real.paramVars 0 (Real.params ps)) (Real.params ps).length where
  typed n := Real.paramVars_typed _ _ _
  below n b h := by have := (param_slot n _ 0 b h).2.1; omega
  apart n m b c h1 h2 h := by
    have h3 := (param_slot n _ 0 b h1).2.2
    have h4 := (param_slot m _ 0 c h2).2.2
    rw [h, h4] at h3
    simpa using h3.symm
  dom n t h := by
    have h1 := Real.tenv_params n ps 0 hn
    rw [h] at h1
    unfold tenvOf at h1
    cases hp : Real.paramVars 0 (Real.params ps) n with
    | none => rw [hp] at h1; simp at h1
    | some b =>
      cases b with
      | none => exact absurd hp (Real.paramVars_typed _ _ _)
      | some b => rw [hp] at h1; simp only [Option.map_some, Option.some.injEq] at h1; exact ⟨b.2, by rw [← h1]⟩

/-! ## The theorems -/

/-- **C158.** A call returns at most one value, and a call that returns is not undefined. -/
theorem real_call_deterministic (fpu : Fpu) (c : FnCode) (junk : Nat → MV) (args : List MV) (v : MV) (h : Returns fpu c junk args v) :
    (∀ w, Returns fpu c junk args w → w = v) ∧ ¬Undefined fpu c junk args := by
  obtain ⟨hv, slots, k, hk⟩ := h
  have key : ∀ k' r, steps (machine fpu c.table) c.blocks.blk k' (start fun i => args.getD i (junk i)) = r → (∀ q, r ≠ .run q) → Res.halt (slots, some v) = r :=
    fun k' r h hr => steps_det (machine fpu c.table) c.blocks.blk hk (by simp) h hr
  refine ⟨?_, ?_⟩
  · rintro w ⟨_, slots', k', h'⟩
    have := key k' _ h' (by simp)
    simp only [Res.halt.injEq, Prod.mk.injEq, Option.some.injEq] at this
    exact this.2.symm
  · rintro (⟨k', h'⟩ | ⟨k', h'⟩ | ⟨slots', r, ⟨k', h'⟩, hr⟩)
    · have := key k' _ h' (by simp); cases this
    · have := key k' _ h' (by simp); cases this
    · have := key k' _ h' (by simp)
      simp only [Res.halt.injEq, Prod.mk.injEq] at this
      rcases hr with rfl | rfl
      · simp at this
      · exact hv (Option.some.inj this.2)

/-! ## Lemmas: validation -/

/-- What validation knows: the variables in scope with their types; variables that become known are among the names. -/
structure VGrow (tenv tenv' : Name → Option PTy) (names : List Name) : Prop where
  keep : ∀ n t, tenv n = some t → tenv' n = some t
  new : ∀ n, tenv n = none → n ∉ names → tenv' n = none

theorem VGrow.refl (tenv : Name → Option PTy) (names : List Name) : VGrow tenv tenv names := ⟨fun _ _ h => h, fun _ h _ => h⟩

theorem VGrow.trans {a b c : Name → Option PTy} {ns ms : List Name} (h : VGrow a b ns) (k : VGrow b c ms) : VGrow a c (ns ++ ms) where
  keep n x hn := k.keep n x (h.keep n x hn)
  new n hn hm := by
    simp only [List.mem_append, not_or] at hm
    exact k.new n (h.new n hn hm.1) hm.2

theorem VGrow.types {Γ : Types} {tenv tenv' : Name → Option PTy} {names : List Name} (h : TypesOk Γ tenv) (hg : VGrow tenv tenv' names) : TypesOk Γ tenv' := fun x t hx => hg.keep x _ (h x t hx)

theorem VGrow.fresh {tenv tenv' : Name → Option PTy} {a b : List Name} (hg : VGrow tenv tenv' a) (h : ∀ x ∈ a ++ b, tenv x = none) (hn : (a ++ b).Nodup) : ∀ x ∈ b, tenv' x = none :=
  fun x hx => hg.new x (h x (by simp [hx])) fun ha => (List.nodup_append.1 hn).2.2 x ha x hx rfl

/-- Validation accepts, knowing the variables afterwards. -/
def Passes (r : Option (Name → Option PTy)) (tenv : Name → Option PTy) (Γ : Types) (names : List Name) : Prop := ∃ tenv', r = some tenv' ∧ TypesOk Γ tenv' ∧ VGrow tenv tenv' names

theorem vcond_ok (fpu : Fpu) (Γ : Types) (tenv : Name → Option PTy) (ht : TypesOk Γ tenv) (p : Ex) (e : Expr) (he : p.Is e.toTree) (hp : ExOk fpu Γ p .bool) :
    vCond (Real.vSem fpu) tenv e = some tenv := by
  obtain ⟨u, h1, h2, _⟩ := (types_ex fpu ht hp _ he).2
  rw [h2.2 rfl] at h1
  unfold vCond
  rw [eval_tree, h1]
  rfl

theorem vex_ok (fpu : Fpu) (Γ : Types) (tenv : Name → Option PTy) (ht : TypesOk Γ tenv) (p : Ex) (e : Expr) (he : p.Is e.toTree) (τ : Ty) (hp : ExOk fpu Γ p τ) :
    ∃ u : Ty, evalE arity (Real.vSem fpu tenv) e = some u.p ∧ (u = .bool ↔ τ = .bool) ∧ (p.Even Γ → u = τ) := by
  rw [eval_tree]
  exact (types_ex fpu ht hp _ he).2

theorem join_some {a b : Ty} (ha : a ≠ .bool) (hb : b ≠ .bool) : ∃ c, join a b = some c := by
  cases h : join a b with
  | some c => exact ⟨c, rfl⟩
  | none => rcases join_none h with h | h <;> contradiction

theorem vcast_like {a b : Ty} (h : a = .bool ↔ b = .bool) : vCast a.p b.p = true := by
  unfold vCast
  by_cases ha : a = .bool
  · rw [ha, h.1 ha]; rfl
  · obtain ⟨c, hc⟩ := join_some ha (fun hb => ha (h.2 hb))
    rw [norm_p hc]; simp

theorem converts_like {a c : Ty} (h : converts c a = true) : c = .bool ↔ a = .bool := by
  cases a <;> cases c <;> simp [converts] at h ⊢

theorem vbin_arith (o : Arith) {a b : Ty} (ha : a ≠ .bool) (hb : b ≠ .bool) : ∃ u, Real.vBin o.sign a.p b.p = some u := by
  obtain ⟨c, hc⟩ := join_some ha hb
  refine ⟨c.p, ?_⟩
  unfold Real.vBin
  rw [if_pos (by cases o <;> rfl)]
  exact norm_p hc

mutual
theorem vcmd_ok (fpu : Fpu) (ret : Ty) (c : Cmd) (s : Stmt) (h : c.Is s) (l : Bool) (Γ : Types) (hok : c.Ok fpu ret l Γ) (tenv : Name → Option PTy) (ht : TypesOk Γ tenv)
    (hf : ∀ x ∈ c.defs, tenv x = none) (hn : c.defs.Nodup) : Passes (vStmt (Real.vSem fpu) ret.p l s tenv) tenv (c.after Γ) c.defs := by
  match c, s, h with
  | .define x e, .expr s, .define he =>
    obtain ⟨e', rfl, he'⟩ := he
    rw [Cmd.Ok] at hok
    obtain ⟨⟨t, hp⟩, hb, hev⟩ := hok
    have hty := hp.typed
    obtain ⟨u, h1, _, h2⟩ := vex_ok fpu Γ tenv ht e e' he' t hp
    have hx : tenv x = none := hf x (by rw [Cmd.defs]; simp)
    refine ⟨fun n => if n = x then some u.p else tenv n, ?_, ?_, ?_⟩
    · rw [vStmt, vExpr, vDefine, hx, h1]; rfl
    · rw [h2 hev, Cmd.after, hty]
      intro n s hs
      unfold setType at hs
      show (if n = x then _ else _) = _
      by_cases hnx : n = x
      · rw [if_pos hnx] at hs ⊢; rw [Option.some.inj hs]
      · rw [if_neg hnx] at hs ⊢; exact ht n s hs
    · rw [Cmd.defs]
      refine ⟨fun n t hk => ?_, fun n hk hm => ?_⟩
      · by_cases hnx : n = x
        · subst hnx; rw [hx] at hk; simp at hk
        · simp only [if_neg hnx]; exact hk
      · have hnx : n ≠ x := by simpa using hm
        simp only [if_neg hnx]; exact hk
  | .assign x e, .expr s, .assign he =>
    obtain ⟨e', rfl, he'⟩ := he
    rw [Cmd.Ok] at hok
    obtain ⟨t, hp, hx⟩ := hok
    obtain ⟨u, h1, h2, _⟩ := vex_ok fpu Γ tenv ht e e' he' t hp
    refine ⟨tenv, ?_, ?_, VGrow.refl _ _⟩
    · rw [vStmt, vExpr]
      · unfold vAssign
        rw [ht x t hx, h1]
        simp only [Option.bind_some, if_true, vcast_like h2.symm]
    · rw [Cmd.after]; exact ht
  | .update o x e, .expr s, .update he =>
    obtain ⟨e', rfl, he'⟩ := he
    rw [Cmd.Ok] at hok
    obtain ⟨w, hp, hx⟩ := hok
    obtain ⟨t', t, hx', hty, hj⟩ := type_arith hp.typed
    have hnum := join_number hj
    obtain ⟨u, h1, h2, _⟩ := vex_ok fpu Γ tenv ht e e' he' t ⟨hty, hp.lits.2, hp.guarded.2, hp.level.2⟩
    refine ⟨tenv, ?_, ?_, VGrow.refl _ _⟩
    · rw [vStmt]
      have : vExpr (Real.vSem fpu) tenv (.bin (.un none (.var x)) (Function.Arith.assignSign o) e') = vAssign (Real.vSem fpu) tenv x (Function.Arith.assignSign o) e' := by cases o <;> rfl
      rw [this]
      unfold vAssign
      rw [ht x w hx, h1]
      simp only [Option.bind_some, if_neg (Function.assign_ne o), Function.base_assign]
      obtain ⟨r, hr⟩ := vbin_arith o hnum.2.2 (fun hh => hnum.2.1 (h2.1 hh))
      rw [hr]; rfl
    · rw [Cmd.after]; exact ht
  | .ret e, .retVal s, .ret he =>
    rw [Cmd.Ok] at hok
    obtain ⟨t, hp, hc⟩ := hok
    obtain ⟨u, h1, h2, _⟩ := vex_ok fpu Γ tenv ht e s he t hp
    refine ⟨tenv, ?_, by rw [Cmd.after]; exact ht, VGrow.refl _ _⟩
    rw [vStmt, h1]
    simp only [Option.bind_some, vcast_like (h2.trans (converts_like hc).symm), if_true]
  | .brk, .brk, .brk =>
    rw [Cmd.Ok] at hok
    exact ⟨tenv, by rw [vStmt, if_pos hok], by rw [Cmd.after]; exact ht, VGrow.refl _ _⟩
  | .cont, .cont, .cont =>
    rw [Cmd.Ok] at hok
    exact ⟨tenv, by rw [vStmt, if_pos hok], by rw [Cmd.after]; exact ht, VGrow.refl _ _⟩
  | .loop c b, .whileLoop s ss, .loop hc hb =>
    rw [Cmd.Ok] at hok
    rw [Cmd.defs] at hf hn ⊢
    obtain ⟨v, h1, h2, h3⟩ := vcmds_ok fpu ret b ss hb true Γ hok.2 tenv ht hf hn
    exact ⟨v, by rw [vStmt, vcond_ok fpu Γ tenv ht c s hc hok.1, Option.bind_some, h1], by rw [Cmd.after]; exact h2, h3⟩
  | .branch c b rest, .ifElse s ss es el, .branch hc hb hr =>
    rw [Cmd.Ok] at hok
    rw [Cmd.defs] at hf hn ⊢
    obtain ⟨v, h1, h2, h3⟩ := vcmds_ok fpu ret b ss hb l Γ hok.2.1 tenv ht (fun x hx => hf x (by simp [hx])) (List.nodup_append.1 hn).1
    obtain ⟨w, h4, h5, h6⟩ := vrest_ok fpu ret rest es el hr l Γ hok.2.2 v h2 (h3.fresh hf hn) (List.nodup_append.1 hn).2.1
    exact ⟨w, by rw [vStmt, vcond_ok fpu Γ tenv ht c s hc hok.1, Option.bind_some, h1, Option.bind_some, h4], by rw [Cmd.after]; exact h5, h3.trans h6⟩
theorem vcmds_ok (fpu : Fpu) (ret : Ty) (c : Cmds) (s : Stmts) (h : c.Is s) (l : Bool) (Γ : Types) (hok : c.Ok fpu ret l Γ) (tenv : Name → Option PTy) (ht : TypesOk Γ tenv)
    (hf : ∀ x ∈ c.defs, tenv x = none) (hn : c.defs.Nodup) : Passes (vStmts (Real.vSem fpu) ret.p l s tenv) tenv Γ c.defs := by
  match c, s, h with
  | .nil, .nil, .nil => exact ⟨tenv, by rw [vStmts], ht, VGrow.refl _ _⟩
  | .cons c cs, .cons s ss, .cons h1 h2 =>
    rw [Cmds.Ok] at hok
    rw [Cmds.defs] at hf hn ⊢
    obtain ⟨v, k1, k2, k3⟩ := vcmd_ok fpu ret c s h1 l Γ hok.1 tenv ht (fun x hx => hf x (by simp [hx])) (List.nodup_append.1 hn).1
    obtain ⟨w, k4, k5, k6⟩ := vcmds_ok fpu ret cs ss h2 l _ hok.2 v k2 (k3.fresh hf hn) (List.nodup_append.1 hn).2.1
    exact ⟨w, by rw [vStmts, k1, Option.bind_some, k4], VGrow.types ht (k3.trans k6), k3.trans k6⟩
theorem vrest_ok (fpu : Fpu) (ret : Ty) (c : Rest) (es : Elifs) (el : Else) (h : c.Is es el) (l : Bool) (Γ : Types) (hok : c.Ok fpu ret l Γ) (tenv : Name → Option PTy) (ht : TypesOk Γ tenv)
    (hf : ∀ x ∈ c.defs, tenv x = none) (hn : c.defs.Nodup) : Passes ((vElifs (Real.vSem fpu) ret.p l es tenv).bind fun v => vElse (Real.vSem fpu) ret.p l el v) tenv Γ c.defs := by
  match c, es, el, h with
  | .none, .nil, .none, .none => exact ⟨tenv, by rw [vElifs, Option.bind_some, vElse], ht, VGrow.refl _ _⟩
  | .els b, .nil, .some ss, .els hb =>
    rw [Rest.Ok] at hok
    rw [Rest.defs] at hf hn ⊢
    obtain ⟨v, h1, h2, h3⟩ := vcmds_ok fpu ret b ss hb l Γ hok tenv ht hf hn
    exact ⟨v, by rw [vElifs, Option.bind_some, vElse, h1], h2, h3⟩
  | .elif c b rest, .cons s ss es, el, .elif hc hb hr =>
    rw [Rest.Ok] at hok
    rw [Rest.defs] at hf hn ⊢
    obtain ⟨v, h1, h2, h3⟩ := vcmds_ok fpu ret b ss hb l Γ hok.2.1 tenv ht (fun x hx => hf x (by simp [hx])) (List.nodup_append.1 hn).1
    obtain ⟨w, h4, h5, h6⟩ := vrest_ok fpu ret rest es el hr l Γ hok.2.2 v h2 (h3.fresh hf hn) (List.nodup_append.1 hn).2.1
    exact ⟨w, by rw [vElifs, vcond_ok fpu Γ tenv ht c s hc hok.1, Option.bind_some, h1, Option.bind_some, h4], h5, h3.trans h6⟩
end

theorem vparams_ok (ps : List (Name × PTy)) : ∀ v : Name → Option PTy, (ps.map (·.1)).Nodup → (∀ q ∈ ps, v q.1 = none) →
    ∃ w, vParams ps v = some w ∧ (∀ q ∈ ps, w q.1 = some q.2) ∧ ∀ n, n ∉ ps.map (·.1) → w n = v n := by
  induction ps with
  | nil => intro v _ _; exact ⟨v, rfl, by simp, by simp⟩
  | cons q ps ih =>
    intro v hn hv
    rw [List.map_cons, List.nodup_cons] at hn
    obtain ⟨w, h1, h2, h3⟩ := ih (fun n => if n = q.1 then some q.2 else v n) hn.2 fun p hp => by
      have : p.1 ≠ q.1 := fun h => hn.1 (by rw [← h]; exact List.mem_map_of_mem hp)
      simp only [if_neg this]
      exact hv p (by simp [hp])
    refine ⟨w, by rw [vParams, hv q (by simp)]; exact h1, fun p hp => ?_, fun n hm => ?_⟩
    · rcases List.mem_cons.1 hp with rfl | hp
      · rw [h3 _ hn.1, if_pos rfl]
      · exact h2 p hp
    · simp only [List.map_cons, List.mem_cons, not_or] at hm
      rw [h3 n hm.2, if_neg hm.1]

/-- Validation accepts the function. -/
theorem valid_function (fpu : Fpu) (ret : Ty) (ps : List (Name × Ty)) (body : Cmds) (ss : Stmts) (his : body.Is ss) (hok : body.Ok fpu ret false (Real.argType ps))
    (hn : (ps.map (·.1) ++ body.defs).Nodup) : ∃ v, ((vParams (Real.params ps) fun _ => none).bind fun v => vStmts (Real.vSem fpu) ret.p false ss v) = some v := by
  have hnp := (List.nodup_append.1 hn).1
  have hp1 : (Real.params ps).map (·.1) = ps.map (·.1) := by simp [Real.params]
  obtain ⟨w, h1, h2, h3⟩ := vparams_ok (Real.params ps) (fun _ => none) (by rw [hp1]; exact hnp) (fun _ _ => rfl)
  have ht : TypesOk (Real.argType ps) w := by
    intro x t hx
    unfold Real.argType at hx
    exact h2 (x, t.p) (by
      simp only [Real.params, List.mem_map]
      exact ⟨(x, t), Function.lookup_mem _ _ _ hx, rfl⟩)
  obtain ⟨v, h4, _⟩ := vcmds_ok fpu ret body ss his false (Real.argType ps) hok w ht
    (fun x hx => h3 x fun hm => (List.nodup_append.1 hn).2.2 x (by rw [hp1] at hm; exact hm) x hx rfl) (List.nodup_append.1 hn).2.1
  exact ⟨v, by rw [h1, Option.bind_some, h4]⟩

/-- **C158.** A text that is read as a function over booleans, integers and floating point numbers, with distinct names of arguments and variables, well typed, and in which control is structured as C36 requires, is compiled; and
for all arguments the code returns exactly what the statements return, converted to the declared type; is undefined exactly if the statements reach an undefined operation or the end of the
body; and runs forever exactly if the statements do not end within any number of iterations. -/
theorem real_function_computes (fpu : Fpu) (cfg : Cfg) (src : List Char) (ret : Ty) (ps : List (Name × Ty)) (body : Cmds) (hsrc : ReadsFn cfg src ret ps body)
    (hok : body.Ok fpu ret false (Real.argType ps)) (hc : body.Clean) (hn : (ps.map (·.1) ++ body.defs).Nodup) :
    ∃ code, compileFn fpu cfg src = some code ∧ ∀ args junk, Real.Passed ps args →
      (∀ v, Returns fpu code junk (args.map Val.enc) v ↔ ∃ n z, body.exec fpu ret n (Real.argType ps) (Real.argValue ps args) = .ret z ∧ v = z.enc) ∧
      (Undefined fpu code junk (args.map Val.enc) ↔ ∃ n, body.exec fpu ret n (Real.argType ps) (Real.argValue ps args) = .undefined ∨ ∃ ρ, body.exec fpu ret n (Real.argType ps) (Real.argValue ps args) = .next ρ) ∧
      ((¬∃ v, Returns fpu code junk (args.map Val.enc) v) ∧ ¬Undefined fpu code junk (args.map Val.enc) ↔ ∀ n, body.exec fpu ret n (Real.argType ps) (Real.argValue ps args) = .more) := by
  suffices hall : ∃ code, compileFn fpu cfg src = some code ∧ ∀ args junk, Real.Passed ps args →
      (∀ v, Returns fpu code junk (args.map Val.enc) v ↔ ∃ n z, body.exec fpu ret n (Real.argType ps) (Real.argValue ps args) = .ret z ∧ v = z.enc) ∧
      (Undefined fpu code junk (args.map Val.enc) ↔ ∃ n, body.exec fpu ret n (Real.argType ps) (Real.argValue ps args) = .undefined ∨ ∃ ρ, body.exec fpu ret n (Real.argType ps) (Real.argValue ps args) = .next ρ) by
    obtain ⟨code, h1, h2⟩ := hall
    refine ⟨code, h1, fun args junk hp => ?_⟩
    obtain ⟨h3, h4⟩ := h2 args junk hp
    refine ⟨h3, h4, ?_⟩
    simp only [h3, h4]
    constructor
    · rintro ⟨h5, h6⟩ n
      have h7 := inside_cmds fpu ret body n (Real.argType ps) (Real.argValue ps args) hok
      cases hE : body.exec fpu ret n (Real.argType ps) (Real.argValue ps args) <;> rw [hE] at h7
      · exact absurd ⟨n, .inr ⟨_, hE⟩⟩ h6
      · cases h7
      · cases h7
      · exact absurd ⟨_, n, _, hE, rfl⟩ h5
      · exact absurd ⟨n, .inl hE⟩ h6
    · intro h
      simp [h]
  obtain ⟨f, rest, h1, h2, h3, h4⟩ := hsrc
  have hnp := (List.nodup_append.1 hn).1
  have hst := params_static ps hnp
  obtain ⟨codes, cs', k1, k2, k3, k4, k5⟩ := cmds_sim fpu ret body f.body h4 false (Real.argType ps) hok ⟨0, (Real.params ps).length, Real.paramVars 0 (Real.params ps)⟩ hst
    (fun x hx => Real.paramVars_none _ _ (fun hm => (List.nodup_append.1 hn).2.2 x (by simpa [Real.params] using hm) x hx rfl) _) (List.nodup_append.1 hn).2.1
  obtain ⟨st, h5⟩ := accepted_body_generates (fun _ => false) (marks f.body 0).1 ((Function.marks_jumps _ _ _).2 (is_jumpss body _ h4 false _ hok))
  have hcl : Stmts.Clean (fun _ => false) (marks f.body 0).1 := (Function.marks_clean _ _).2 (is_cleans body _ h4 hc)
  refine ⟨⟨codes, st⟩, ?_, fun args junk hp => ?_⟩
  · unfold compileFn
    rw [h1]
    simp only
    rw [h2, named_type, h3, params_types]
    obtain ⟨v, hval⟩ := valid_function fpu ret ps body f.body h4 hok hn
    simp only [Option.bind_some]
    rw [hval]
    simp only [Option.bind_some]
    rw [k1]
    simp only [Option.bind_some]
    rw [h5]
    rfl
  · have hd : Dyn (Real.argType ps) (Real.paramVars 0 (Real.params ps)) (fun i => (args.map Val.enc).getD i (junk i)) (Real.argValue ps args) := ⟨Real.env_ok ps hnp args junk (Real.passed_length _ _ hp), Real.args_ok ps args hp⟩
    have h6 := fun n => k5 codes 0 (fun k s hk => by rw [Nat.zero_add]; exact hk) n _ none _ hd
    obtain ⟨c1, c2, c3⟩ := control_flow_partial (machine fpu codes) (fun _ => false) _ hcl st h5 fun i => (args.map Val.enc).getD i (junk i)
    constructor
    · intro v
      unfold Returns
      simp only [c1, Ends]
      constructor
      · rintro ⟨hv, slots, n, h | h⟩
        · have := h6 n; rw [h] at this
          cases hE : body.exec fpu ret n (Real.argType ps) (Real.argValue ps args) <;> rw [hE] at this <;> simp [Agree] at this
        · have := h6 n; rw [h] at this
          cases hE : body.exec fpu ret n (Real.argType ps) (Real.argValue ps args) <;> rw [hE] at this <;> simp [Agree] at this
          · next z => exact ⟨n, z, hE, this⟩
          · exact absurd this hv
      · rintro ⟨n, z, h, rfl⟩
        have := h6 n; rw [h] at this
        cases hO : execs (machine fpu codes) n (marks f.body 0).1 (fun i => (args.map Val.enc).getD i (junk i), none) <;> rw [hO] at this <;> simp only [Agree] at this
        next m => exact ⟨enc_ne z, m.1, n, .inr (by rw [hO, ← this])⟩
    · unfold Undefined
      constructor
      · rintro (h | h | ⟨slots, r, h, hr⟩)
        · obtain ⟨n, h⟩ := c2.1 h
          have := h6 n; rw [h] at this
          cases hE : body.exec fpu ret n (Real.argType ps) (Real.argValue ps args) <;> rw [hE] at this <;> simp [Agree] at this
          exact ⟨n, .inl hE⟩
        · exact absurd h c3
        · obtain ⟨n, h | h⟩ := (c1 _).1 h
          · have := h6 n; rw [h] at this
            cases hE : body.exec fpu ret n (Real.argType ps) (Real.argValue ps args) <;> rw [hE] at this <;> simp [Agree] at this
            exact ⟨n, .inr ⟨_, hE⟩⟩
          · have := h6 n; rw [h] at this
            cases hE : body.exec fpu ret n (Real.argType ps) (Real.argValue ps args) <;> rw [hE] at this <;> simp only [Agree] at this
            · next z =>
              rcases hr with rfl | rfl
              · simp at this
              · exact absurd (Option.some.inj this).symm (enc_ne z)
            · exact ⟨n, .inl hE⟩
      · rintro ⟨n, h | ⟨ρ, h⟩⟩
        · have := h6 n; rw [h] at this
          cases hO : execs (machine fpu codes) n (marks f.body 0).1 (fun i => (args.map Val.enc).getD i (junk i), none) <;> rw [hO] at this <;> simp only [Agree] at this
          · next m => exact .inr (.inr ⟨m.1, m.2, (c1 _).2 ⟨n, .inr hO⟩, .inr this⟩)
          · exact .inl (c2.2 ⟨n, hO⟩)
        · have := h6 n; rw [h] at this
          cases hO : execs (machine fpu codes) n (marks f.body 0).1 (fun i => (args.map Val.enc).getD i (junk i), none) <;> rw [hO] at this <;> simp only [Agree] at this
          next m => exact .inr (.inr ⟨m.1, none, (c1 _).2 ⟨n, .inl (by rw [hO, ← this.2])⟩, .inl rfl⟩)

/-- **C158.** If every way through the body ends with `return`, and the statements return a value, the call returns that value and is defined. -/
theorem real_function_returns (fpu : Fpu) (cfg : Cfg) (src : List Char) (ret : Ty) (ps : List (Name × Ty)) (body : Cmds) (hsrc : ReadsFn cfg src ret ps body)
    (hok : body.Ok fpu ret false (Real.argType ps)) (hc : body.Clean) (hn : (ps.map (·.1) ++ body.defs).Nodup) (he : body.ends = true) :
    ∃ code, compileFn fpu cfg src = some code ∧ ∀ args junk, Real.Passed ps args →
      (Undefined fpu code junk (args.map Val.enc) ↔ ∃ n, body.exec fpu ret n (Real.argType ps) (Real.argValue ps args) = .undefined) ∧
      ∀ n z, body.exec fpu ret n (Real.argType ps) (Real.argValue ps args) = .ret z → Returns fpu code junk (args.map Val.enc) z.enc := by
  obtain ⟨code, h1, h2⟩ := real_function_computes fpu cfg src ret ps body hsrc hok hc hn
  refine ⟨code, h1, fun args junk hp => ?_⟩
  obtain ⟨h3, h4, _⟩ := h2 args junk hp
  refine ⟨?_, fun n z h => (h3 _).2 ⟨n, z, h, rfl⟩⟩
  rw [h4]
  constructor
  · rintro ⟨n, h | ⟨ρ, h⟩⟩
    · exact ⟨n, h⟩
    · exact absurd h (ends_cmds fpu ret body n _ _ _ he)
  · rintro ⟨n, h⟩
    exact ⟨n, .inl h⟩

/-! ## Texts -/

mutual
/-- Variables have names the grammar admits. -/
def Cmd.Writable (cfg : Cfg) : Cmd → Prop
  | .define x e => NameOk cfg x ∧ e.Writable cfg
  | .assign x e => NameOk cfg x ∧ e.Writable cfg
  | .update _ x e => NameOk cfg x ∧ e.Writable cfg
  | .ret e => e.Writable cfg
  | .brk => True
  | .cont => True
  | .loop c b => c.Writable cfg ∧ b.Writable cfg
  | .branch c b rest => c.Writable cfg ∧ b.Writable cfg ∧ rest.Writable cfg
def Cmds.Writable (cfg : Cfg) : Cmds → Prop
  | .nil => True
  | .cons s ss => s.Writable cfg ∧ ss.Writable cfg
def Rest.Writable (cfg : Cfg) : Rest → Prop
  | .none => True
  | .els b => b.Writable cfg
  | .elif c b rest => c.Writable cfg ∧ b.Writable cfg ∧ rest.Writable cfg
end

mutual
/-- A statement as it may be written. -/
def Cmd.stmt : Cmd → Stmt
  | .define x e => .expr (.bin (.un none (.define x)) .assign e.tree.toExpr)
  | .assign x e => .expr (.bin (.un none (.var x)) .assign e.tree.toExpr)
  | .update o x e => .expr (.bin (.un none (.var x)) (assignSign o) e.tree.toExpr)
  | .ret e => .retVal e.tree.toExpr
  | .brk => .brk
  | .cont => .cont
  | .loop c b => .whileLoop c.tree.toExpr b.stmts
  | .branch c b rest => .ifElse c.tree.toExpr b.stmts rest.elifs rest.last
def Cmds.stmts : Cmds → Stmts
  | .nil => .nil
  | .cons s ss => .cons s.stmt ss.stmts
def Rest.elifs : Rest → Elifs
  | .none => .nil
  | .els _ => .nil
  | .elif c b rest => .cons c.tree.toExpr b.stmts rest.elifs
def Rest.last : Rest → Else
  | .none => .none
  | .els b => .some b.stmts
  | .elif _ _ rest => rest.last
end

mutual
theorem stmt_ok (fpu : Fpu) (ret : Ty) (cfg : Cfg) (c : Cmd) (l : Bool) (Γ : Types) (h : c.Ok fpu ret l Γ) (hn : c.Writable cfg) : c.Is c.stmt ∧ c.stmt.WF cfg := by
  match c with
  | .define x e =>
    rw [Cmd.Ok] at h; rw [Cmd.Writable] at hn
    obtain ⟨⟨τ, hp⟩, _⟩ := h
    have hw := ex_tree fpu cfg e hp.lits hn.2
    obtain ⟨h1, h2⟩ := toExpr_spec cfg _ hw.1
    exact ⟨.define ⟨_, rfl, by rw [h2]; exact hw.2⟩, Function.wf_assign cfg _ (by rw [Operand.WF]; exact hn.1) _ rfl _ h1⟩
  | .assign x e =>
    rw [Cmd.Ok] at h; rw [Cmd.Writable] at hn
    obtain ⟨τ, hp, _⟩ := h
    have hw := ex_tree fpu cfg e hp.lits hn.2
    obtain ⟨h1, h2⟩ := toExpr_spec cfg _ hw.1
    exact ⟨.assign ⟨_, rfl, by rw [h2]; exact hw.2⟩, Function.wf_assign cfg _ (by rw [Operand.WF]; exact hn.1) _ rfl _ h1⟩
  | .update o x e =>
    rw [Cmd.Ok] at h; rw [Cmd.Writable] at hn
    obtain ⟨τ, hp, _⟩ := h
    have hw := ex_tree fpu cfg e hp.lits.2 hn.2
    obtain ⟨h1, h2⟩ := toExpr_spec cfg _ hw.1
    exact ⟨.update ⟨_, rfl, by rw [h2]; exact hw.2⟩, Function.wf_assign cfg _ (by rw [Operand.WF]; exact hn.1) _ (by cases o <;> rfl) _ h1⟩
  | .ret e =>
    rw [Cmd.Ok] at h; rw [Cmd.Writable] at hn
    obtain ⟨τ, hp, _⟩ := h
    have hw := ex_tree fpu cfg e hp.lits hn
    obtain ⟨h1, h2⟩ := toExpr_spec cfg _ hw.1
    exact ⟨.ret (by rw [h2]; exact hw.2), by rw [Cmd.stmt, Stmt.WF]; exact h1⟩
  | .brk => exact ⟨.brk, by rw [Cmd.stmt, Stmt.WF]; trivial⟩
  | .cont => exact ⟨.cont, by rw [Cmd.stmt, Stmt.WF]; trivial⟩
  | .loop c b =>
    rw [Cmd.Ok] at h; rw [Cmd.Writable] at hn
    have hw := ex_tree fpu cfg c h.1.lits hn.1
    obtain ⟨h1, h2⟩ := toExpr_spec cfg _ hw.1
    have h2 : c.Is c.tree.toExpr.toTree := by rw [h2]; exact hw.2
    obtain ⟨h3, h4⟩ := stmts_ok fpu ret cfg b true Γ h.2 hn.2
    exact ⟨.loop h2 h3, by rw [Cmd.stmt, Stmt.WF]; exact ⟨h1, h4⟩⟩
  | .branch c b rest =>
    rw [Cmd.Ok] at h; rw [Cmd.Writable] at hn
    have hw := ex_tree fpu cfg c h.1.lits hn.1
    obtain ⟨h1, h2⟩ := toExpr_spec cfg _ hw.1
    have h2 : c.Is c.tree.toExpr.toTree := by rw [h2]; exact hw.2
    obtain ⟨h3, h4⟩ := stmts_ok fpu ret cfg b l Γ h.2.1 hn.2.1
    obtain ⟨h5, h6, h7⟩ := rest_ok fpu ret cfg rest l Γ h.2.2 hn.2.2
    exact ⟨.branch h2 h3 h5, by rw [Cmd.stmt, Stmt.WF]; exact ⟨h1, h4, h6, h7⟩⟩
theorem stmts_ok (fpu : Fpu) (ret : Ty) (cfg : Cfg) (c : Cmds) (l : Bool) (Γ : Types) (h : c.Ok fpu ret l Γ) (hn : c.Writable cfg) : c.Is c.stmts ∧ c.stmts.WF cfg := by
  match c with
  | .nil => exact ⟨.nil, by rw [Cmds.stmts, Stmts.WF]; trivial⟩
  | .cons c cs =>
    rw [Cmds.Ok] at h; rw [Cmds.Writable] at hn
    obtain ⟨h1, h2⟩ := stmt_ok fpu ret cfg c l Γ h.1 hn.1
    obtain ⟨h3, h4⟩ := stmts_ok fpu ret cfg cs l _ h.2 hn.2
    exact ⟨.cons h1 h3, by rw [Cmds.stmts, Stmts.WF]; exact ⟨h2, h4⟩⟩
theorem rest_ok (fpu : Fpu) (ret : Ty) (cfg : Cfg) (c : Rest) (l : Bool) (Γ : Types) (h : c.Ok fpu ret l Γ) (hn : c.Writable cfg) :
    c.Is c.elifs c.last ∧ c.elifs.WF cfg ∧ c.last.WF cfg := by
  match c with
  | .none => exact ⟨.none, by rw [Rest.elifs, Elifs.WF]; trivial, by rw [Rest.last, Else.WF]; trivial⟩
  | .els b =>
    rw [Rest.Ok] at h; rw [Rest.Writable] at hn
    obtain ⟨h3, h4⟩ := stmts_ok fpu ret cfg b l Γ h hn
    exact ⟨.els h3, by rw [Rest.elifs, Elifs.WF]; trivial, by rw [Rest.last, Else.WF]; exact h4⟩
  | .elif c b rest =>
    rw [Rest.Ok] at h; rw [Rest.Writable] at hn
    have hw := ex_tree fpu cfg c h.1.lits hn.1
    obtain ⟨h1, h2⟩ := toExpr_spec cfg _ hw.1
    have h2 : c.Is c.tree.toExpr.toTree := by rw [h2]; exact hw.2
    obtain ⟨h3, h4⟩ := stmts_ok fpu ret cfg b l Γ h.2.1 hn.2.1
    obtain ⟨h5, h6, h7⟩ := rest_ok fpu ret cfg rest l Γ h.2.2 hn.2.2
    exact ⟨.elif h2 h3 h5, by rw [Rest.elifs, Elifs.WF]; exact ⟨h1, h4, h6⟩, by rw [Rest.last]; exact h7⟩
end

theorem type_name (t : Ty) : IsName (typeText t) := by
  cases t with
  | bool => exact ⟨⟨_, _, rfl, by decide, by decide⟩, by decide⟩
  | int t => exact Function.suffix_name t
  | flt F => cases F <;> exact ⟨⟨_, _, rfl, by decide, by decide⟩, by decide⟩

/-- The function as it may be written. -/
def fnSrc (name : Name) (ret : Ty) (ps : List (Name × Ty)) (body : Cmds) : FuncSrc :=
  ⟨⟨typeText ret, []⟩, name, ps.map fun q => (⟨typeText q.2, []⟩, q.1), body.stmts⟩

theorem fn_text (fpu : Fpu) (cfg : Cfg) (ht : ∀ t, cfg.isType (typeText t) = true) (name : Name) (hname : IsName name ∧ validName cfg name = true)
    (ret : Ty) (ps : List (Name × Ty)) (hps : ∀ q ∈ ps, IsName q.1 ∧ validName cfg q.1 = true) (body : Cmds) (hok : body.Ok fpu ret false (Real.argType ps)) (hn : body.Writable cfg)
    (src : List Char) (hs : sourceToks src = sourceToks (writeTokens (fnSrc name ret ps body).print)) : ReadsFn cfg src ret ps body := by
  obtain ⟨h1, h2⟩ := stmts_ok fpu ret cfg body false _ hok hn
  have hty : ∀ t, Ast.Ty.WF cfg ⟨typeText t, []⟩ := fun t => ⟨type_name t, by simp, ht t⟩
  have h3 := parse_function_print cfg (fnSrc name ret ps body) ⟨hty ret, hname, by
    intro p hp
    simp only [fnSrc, List.mem_map] at hp
    obtain ⟨q, hq, rfl⟩ := hp
    exact ⟨hty q.2, hps q hq⟩, h2⟩
  refine ⟨(fnSrc name ret ps body).func, [], ?_, rfl, ?_, h1⟩
  · rw [← h3]; unfold parseFunction; rw [hs]
  · simp only [FuncSrc.func, fnSrc, List.map_map]; rfl

/-- **C158.** Every function of the language has such a text. -/
theorem every_real_function_has_text (fpu : Fpu) (cfg : Cfg) (ht : ∀ t, cfg.isType (typeText t) = true) (name : Name)
    (hname : IsName name ∧ validName cfg name = true) (ret : Ty) (ps : List (Name × Ty)) (hps : ∀ q ∈ ps, IsName q.1 ∧ validName cfg q.1 = true) (body : Cmds)
    (hok : body.Ok fpu ret false (Real.argType ps)) (hn : body.Writable cfg) : ∃ src, ReadsFn cfg src ret ps body :=
  ⟨_, fn_text fpu cfg ht name hname ret ps hps body hok hn _ rfl⟩

/-! ### An instance: the square root of a power -/

def powCfg : Cfg := { isType := fun t => (typeNamed t).isSome, inRange := fun _ => true }
def powArgs : List (Name × Ty) := [(['a'], .flt .f64), (['n'], .int .i32)]
def powText : List Char := "f64 root ( f64 a , i32 n ) { auto s = 1_f64 ; while ( n > 0 ) { s *= a ; n -= 1 ; } return sqrt ( s ) ; } ".toList
def powStep : Cmds := .cons (.update .mul ['s'] (.var ['a'])) (.cons (.update .sub ['n'] (.lit ['1'] none)) .nil)
def powTest : Ex := .rel .gt (.var ['n']) (.lit ['0'] none)
def powBody : Cmds := .cons (.define ['s'] (.lit ['1'] (some (.flt .f64)))) (.cons (.loop powTest powStep) (.cons (.ret (.fn1 .sqrt (.var ['s']))) .nil))
def powTypes : Types := setType (Real.argType powArgs) ['s'] (some (.flt .f64))

theorem pow_ok (fpu : Fpu) : powBody.Ok fpu (.flt .f64) false (Real.argType powArgs) := by
  simp only [powBody, powStep, powTest, Cmds.Ok, Cmd.Ok, Cmd.after, and_true]
  have l0 : (Ex.lit ['0'] none).Lits fpu := ⟨by simp, by decide⟩
  have l1 : (Ex.lit ['1'] none).Lits fpu := ⟨by simp, by decide⟩
  have l2 : (Ex.lit ['1'] (some (.flt .f64))).Lits fpu := ⟨by simp, by decide⟩
  exact ⟨⟨⟨.flt .f64, by decide, l2, trivial, trivial⟩, rfl, trivial⟩, ⟨⟨by decide, ⟨trivial, l0⟩, ⟨trivial, trivial⟩, ⟨trivial, trivial⟩⟩,
    ⟨.flt .f64, ⟨by decide, ⟨trivial, trivial⟩, ⟨trivial, trivial⟩, ⟨trivial, trivial⟩⟩, by decide⟩, ⟨.int .i32, ⟨by decide, ⟨trivial, l1⟩, ⟨trivial, trivial⟩, ⟨trivial, trivial⟩⟩, by decide⟩⟩,
    ⟨.flt .f64, ⟨by decide, trivial, trivial, trivial⟩, by decide⟩⟩

theorem pow_clean : powBody.Clean := by simp [powBody, powStep, Cmds.Clean, Cmd.Clean, Cmds.startsLoop, Cmd.ends]

theorem pow_reads (fpu : Fpu) : ReadsFn powCfg powText (.flt .f64) powArgs powBody := by
  have hv : ∀ c, c = 'a' ∨ c = 'n' ∨ c = 's' → NameOk powCfg [c] := by
    rintro c (rfl | rfl | rfl) <;> exact ⟨example_name _ (by decide), by decide⟩
  have hq : NameOk powCfg (Fn1.name .sqrt) := ⟨⟨⟨'s', ['q', 'r', 't'], rfl, by decide, by decide⟩, by decide⟩, by decide⟩
  refine fn_text fpu powCfg (fun t => by rcases t with _ | t | F; · decide
                                         · cases t <;> decide
                                         · cases F <;> decide) ['r', 'o', 'o', 't'] ⟨⟨⟨_, _, rfl, by decide, by decide⟩, by decide⟩, by decide⟩ (.flt .f64) powArgs
    (by intro q hq; simp [powArgs] at hq; rcases hq with rfl | rfl <;> exact hv _ (by decide)) powBody (pow_ok fpu) ?_ powText
    (by rw [show powText = writeTokens (fnSrc ['r', 'o', 'o', 't'] (.flt .f64) powArgs powBody).print from by decide +kernel])
  have ha := hv 'a' (by decide)
  have hb := hv 'n' (by decide)
  have ht := hv 's' (by decide)
  simp only [powBody, powStep, powTest, Cmds.Writable, Cmd.Writable, Ex.Writable, and_true]
  exact ⟨⟨ht, rfl⟩, ⟨⟨hb, rfl⟩, ⟨ht, ha⟩, hb, rfl⟩, hq, ht⟩

/-- The product of `n` factors. -/
def powers (fpu : Fpu) (a : Flt.Fl Flt.f64) (s : Flt.Fl Flt.f64) : Nat → Flt.Fl Flt.f64
  | 0 => s
  | n + 1 => powers fpu a (fpu.arith .mul .f64 s a) n

theorem pow_loop (fpu : Fpu) (n : Nat) (a : Flt.Fl Flt.f64) : ∀ (k : Nat) (m : Nat) (s : Flt.Fl Flt.f64) (ρ : Store), ρ ['a'] = some (.flt .f64 a) → ρ ['s'] = some (.flt .f64 s) →
    ρ ['n'] = some (.int k) → (k : Int) < 2147483648 → k < m →
    ∃ ρ', repeated (fun ρ => powTest.value fpu powTypes ρ) (fun ρ => powStep.exec fpu (.flt .f64) n powTypes ρ) m ρ = .next ρ' ∧ ρ' ['s'] = some (.flt .f64 (powers fpu a s k)) := by
  have rs : ∀ x : Flt.Fl Flt.f64, fpu.resize .f64 .f64 x = x := fun x => fpu.resize_same .f64 x
  have e0 : ((decimal ['0'] : Nat) : Int) = 0 := by decide
  have e1 : ((decimal ['1'] : Nat) : Int) = 1 := by decide
  have tn : powTypes ['n'] = some (.int .i32) := by decide
  have t1 : (Ex.arith .mul (.var ['s']) (.var ['a'])).type powTypes = some (.flt .f64) := by decide
  have t2 : (Ex.arith .sub (.var ['n']) (.lit ['1'] none)).type powTypes = some (.int .i32) := by decide
  have t3 : (Ex.lit ['0'] none).type powTypes = some (.int .i32) := by decide
  have t4 : join (.int .i32) (.int .i32) = some (.int .i32) := by decide
  intro k
  induction k with
  | zero =>
    intro m s ρ ha hs hn _ hm
    obtain ⟨m, rfl⟩ : ∃ m', m = m' + 1 := ⟨m - 1, by omega⟩
    have ht : powTest.value fpu powTypes ρ = some (.bool false) := by
      simp only [powTest, Ex.value, Ex.type, tn, t3, t4, Option.bind_some, hn, e0]
      rfl
    rw [repeated, ht]
    exact ⟨ρ, rfl, hs⟩
  | succ k ih =>
    intro m s ρ ha hs hn hk hm
    obtain ⟨m, rfl⟩ : ∃ m', m = m' + 1 := ⟨m - 1, by omega⟩
    have hw : Pipeline.wrap .i32 ((k : Int) + 1) = k + 1 := Function.fits_wrap (by omega) (by omega)
    have hw' : Pipeline.wrap .i32 (k : Int) = k := Function.fits_wrap (by omega) (by omega)
    have hw1 : Pipeline.wrap .i32 1 = 1 := by decide
    have hw0 : Pipeline.wrap .i32 0 = 0 := by decide
    have ht : powTest.value fpu powTypes ρ = some (.bool true) := by
      unfold powTest
      rw [Ex.value, show (Ex.var ['n']).type powTypes = some (.int .i32) from tn, t3]
      simp only [Option.bind_some, t4, Ex.value, hn, conv, e0]
      push_cast
      simp only [hw, hw0, relV, Rel.holds]
      simp
    rw [repeated, ht]
    have hst : powStep.exec fpu (.flt .f64) n powTypes ρ = .next (setValue (setValue ρ ['s'] (.flt .f64 (fpu.arith .mul .f64 s a))) ['n'] (.int k)) := by
      have v1 : (Ex.arith .mul (.var ['s']) (.var ['a'])).value fpu powTypes ρ = some (.flt .f64 (fpu.arith .mul .f64 s a)) := by
        rw [Ex.value, t1]
        simp only [Ex.value, hs, ha, Option.bind_some, conv, flt_self, Option.map_some, arithV]
        rw [show ((fpu.resize .f64 .f64 s)) = s from rs s, show fpu.resize .f64 .f64 a = a from rs a]
      have v2 : ∀ ρ : Store, ρ ['n'] = some (.int ((k : Int) + 1)) → (Ex.arith .sub (.var ['n']) (.lit ['1'] none)).value fpu powTypes ρ = some (.int k) := by
        intro ρ hn
        rw [Ex.value, t2]
        simp only [Ex.value, hn, Option.bind_some, conv, e1, hw, hw1, arithV]
        simp [Arith.calc, hw']
      simp only [powStep, Cmds.exec, Cmd.exec, Cmd.after]
      rw [v1]
      simp only [withValue, End.andThen]
      rw [v2 _ (by simpa [setValue] using hn)]
    simp only [hst, withTest]
    obtain ⟨ρ', g1, g2⟩ := ih m (fpu.arith .mul .f64 s a) (setValue (setValue ρ ['s'] (.flt .f64 (fpu.arith .mul .f64 s a))) ['n'] (.int k)) (by simpa [setValue] using ha) (by simp [setValue])
      (by simp [setValue]) (by omega) (by omega)
    exact ⟨ρ', g1, by rw [g2, powers]⟩

/-- The text above is compiled to code that computes the square root of the power. -/
example (fpu : Fpu) : ∃ code, compileFn fpu powCfg powText = some code ∧ ∀ (a : Flt.Fl Flt.f64) (n : Nat), n < 2 ^ 31 → ∀ junk,
    Returns fpu code junk [.flt .f64 a, .word n] (.flt .f64 (fpu.fn1 .sqrt .f64 (powers fpu a (Flt.ofInt Flt.f64 1) n))) ∧ ¬Undefined fpu code junk [.flt .f64 a, .word n] := by
  obtain ⟨code, h1, h2⟩ := real_function_computes fpu powCfg powText (.flt .f64) powArgs powBody (pow_reads fpu) (pow_ok fpu) pow_clean (by decide)
  refine ⟨code, h1, fun a n hn junk => ?_⟩
  obtain ⟨h3, _, _⟩ := h2 [.flt .f64 a, .int n] junk ⟨rfl, ⟨by rw [show IntOps.lo .i32 = -2147483648 by decide]; omega, by rw [show IntOps.hi .i32 = 2147483647 by decide]; omega⟩, trivial⟩
  have e1 : decimal ['1'] = 1 := by decide
  have hr : Returns fpu code junk [.flt .f64 a, .word n] (.flt .f64 (fpu.fn1 .sqrt .f64 (powers fpu a (Flt.ofInt Flt.f64 1) n))) := by
    refine (h3 _).2 ⟨n + 1, .flt .f64 (fpu.fn1 .sqrt .f64 (powers fpu a (Flt.ofInt Flt.f64 1) n)), ?_, rfl⟩
    obtain ⟨ρ', g1, g2⟩ := pow_loop fpu (n + 1) a n (n + 1) (Flt.ofInt Flt.f64 1) (setValue (Real.argValue powArgs [.flt .f64 a, .int n]) ['s'] (.flt .f64 (Flt.ofInt Flt.f64 1))) rfl rfl rfl (by omega) (by omega)
    have v1 : (Ex.lit ['1'] (some (.flt .f64))).value fpu (Real.argType powArgs) (Real.argValue powArgs [.flt .f64 a, .int n]) = some (.flt .f64 (Flt.ofInt Flt.f64 1)) := by
      rw [Ex.value, e1]; exact congrArg (fun x => some (Val.flt .f64 x)) (fpu.resize_same .f64 _)
    rw [powBody, Cmds.exec, Cmd.exec, v1]
    simp only [withValue, End.andThen, Cmds.exec, Cmd.exec, Cmd.after]
    have ht : setType (Real.argType powArgs) ['s'] ((Ex.lit ['1'] (some (.flt .f64))).type (Real.argType powArgs)) = powTypes := rfl
    have tq : (Ex.var ['s']).type powTypes = some (.flt .f64) := by decide
    rw [ht, g1]
    have v2 : (Ex.fn1 .sqrt (.var ['s'])).value fpu powTypes ρ' = some (.flt .f64 (fpu.fn1 .sqrt .f64 (powers fpu a (Flt.ofInt Flt.f64 1) n))) := by
      rw [Ex.value, tq, Option.bind_some, Ex.value, g2, Option.bind_some]; rfl
    have v3 : ∀ x : Flt.Fl Flt.f64, conv fpu (.flt .f64) (.flt .f64 x) = some (.flt .f64 x) := fun x => congrArg (fun x => some (Val.flt .f64 x)) (fpu.resize_same .f64 x)
    have v4 : ((Ex.fn1 .sqrt (.var ['s'])).value fpu powTypes ρ').bind (conv fpu (.flt .f64)) = some (.flt .f64 (fpu.fn1 .sqrt .f64 (powers fpu a (Flt.ofInt Flt.f64 1) n))) := by
      rw [v2]; exact v3 _
    simp only [v4]
  exact ⟨hr, (real_call_deterministic fpu code junk _ _ hr).2⟩

end Verif.Comp.RealFn
