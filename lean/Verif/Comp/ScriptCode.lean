import Verif.Comp.ScriptSites
/-!
# Lemmas about scripts: the code of statements
-/
namespace Verif.Comp.Script
open Verif.Ast Verif.Ast.Rpn Verif.Gen Verif.Gen.Scalar Verif.Types.Conv Verif.Comp.Pipeline Verif.Comp.Function

/-! ## Variables -/

/-- Known variables have types and slots of their own; those in scope are known with their types. -/
structure Static (Γ : Types) (vars : Vars PTy) (ns : Nat) : Prop where
  typed : ∀ n, vars n ≠ some none
  below : ∀ n b, vars n = some (some b) → b.2 < ns
  apart : ∀ n m b c, vars n = some (some b) → vars m = some (some c) → b.2 = c.2 → n = m
  dom : ∀ n t, Γ n = some t → ∃ s, vars n = some (some (t.p, s))

/-- The slots hold the values of the variables in scope. -/
structure Dyn (Γ : Types) (vars : Vars PTy) (slots : Nat → Int) (ρ : Store) : Prop where
  env : EnvOk Γ ρ (envOf vars slots)
  fit : Fit Γ ρ

theorem Static.types {Γ : Types} {vars : Vars PTy} {ns : Nat} (h : Static Γ vars ns) : TypesOk Γ (tenvOf vars) := by
  intro x t hx
  obtain ⟨s, hs⟩ := h.dom x t hx
  unfold tenvOf
  rw [hs]

theorem Dyn.less {Γ Γ' : Types} {vars vars' : Vars PTy} {ns : Nat} {slots : Nat → Int} {ρ : Store} {names : List Name} (h : Dyn Γ' vars' slots ρ) (hs : Static Γ vars ns)
    (hg : Grow vars vars' names) (hsub : ∀ n t, Γ n = some t → Γ' n = some t) : Dyn Γ vars slots ρ where
  env x t hx := by
    obtain ⟨s, h1⟩ := hs.dom x t hx
    have h2 := h.env x t (hsub x t hx)
    unfold envOf at h2 ⊢
    rw [hg.keep _ _ h1] at h2
    rw [h1]
    exact h2
  fit x t hx := h.fit x t (hsub x t hx)

theorem Dyn.more {Γ : Types} {vars vars' : Vars PTy} {ns : Nat} {slots : Nat → Int} {ρ : Store} {names : List Name} (h : Dyn Γ vars slots ρ) (hs : Static Γ vars ns)
    (hg : Grow vars vars' names) : Dyn Γ vars' slots ρ where
  env x t hx := by
    obtain ⟨s, h1⟩ := hs.dom x t hx
    have h2 := h.env x t hx
    unfold envOf at h2 ⊢
    rw [h1] at h2
    rw [hg.keep _ _ h1]
    exact h2
  fit := h.fit

theorem Static.scope {Γ Γ' : Types} {vars : Vars PTy} {ns : Nat} (h : Static Γ' vars ns) (hsub : ∀ n t, Γ n = some t → Γ' n = some t) : Static Γ vars ns :=
  ⟨h.typed, h.below, h.apart, fun n t hn => h.dom n t (hsub n t hn)⟩

theorem Static.fresh {Γ : Types} {vars : Vars PTy} {ns : Nat} (h : Static Γ vars ns) {x : Name} (hx : vars x = none) : Γ x = none := by
  cases hg : Γ x with
  | none => rfl
  | some t => obtain ⟨s, hs⟩ := h.dom x t hg; rw [hx] at hs; simp at hs

theorem set_sub {Γ : Types} {x : Name} (hx : Γ x = none) (u : Option Ty) : ∀ n t, Γ n = some t → (Γ.set x u) n = some t := by
  intro n t hn
  unfold Types.set
  split
  · next h => subst h; rw [hx] at hn; simp at hn
  · exact hn

/-! ## The code of one expression -/

/-- The functions that expressions may call, when they are compiled (`σm`) and when they run (`σa`). -/
structure World (inl : Inline) (P : Name → Prop) (σ : Sigs) (σm σa : MSigs) : Prop where
  now : SigsOk inl P σ σm
  all : SigsOk inl P σ σa
  more : Known σm σa

/-- Calls do what they should. -/
structure Runs (P : Name → Prop) (σ : Sigs) (κ : Calls) (K : MCalls) : Prop where
  typed : CallsOk σ κ
  agree : CallsAgree P σ κ K

theorem eval_tag (σ : MSigs) (K : MCalls) (table : List Site) (i : Nat) (slots : Nat → Int) : (machine σ K table).eval (tag i) slots = runSite σ K table i slots := by
  show runSite σ K table (List.replicate i '0').length slots = _
  rw [List.length_replicate]

theorem run_at {table : List Site} {i : Nat} {is : List (Instr PTy Int)} {o : Opd Int} (h : table[i]? = some (is, o)) (σ : MSigs) (K : MCalls) (slots : Nat → Int) :
    runSite σ K table i slots = (Scalar.run (rt σ K) is ⟨[], slots, ()⟩).bind fun rs => (rs.opd o).map fun v => (rs.slots, v) := by
  unfold runSite
  rw [h]
  rfl

/-- The code of an expression. -/
theorem ex_code {inl : Inline} {P : Name → Prop} {σ : Sigs} {σm σa : MSigs} (hw : World inl P σ σm σa) (Γ : Types) (cs : CS PTy) (htys : TypesOk Γ (tenvOf cs.vars))
    (p : Ex) (e : Expr) (he : p.Is e.toTree) (hu : p.Uses P) (hp : ExOk σ Γ p) (hv : ∀ n, varsE e n → cs.vars n ≠ some none) (t : Ty) (ht : p.type σ Γ = some t) :
    ∃ y is cs', gExpr (gen σm) inl e cs = some (y, is, cs') ∧ cs'.vars = cs.vars ∧ cs'.nslot = cs.nslot ∧ HT cs.vars y t.p := by
  have hpl : Plain inl e := plain_of_tree inl e (plain_ex inl P (fun f hf => (hw.now f hf).1) p hu _ he)
  have h3 := ty_gExpr (rt := gen σm) inl e hpl hv cs rfl
  have e1 : tyE (gen σm) inl (tenvOf cs.vars) e = some t.p := by
    unfold tyE
    rw [eval_tree]
    exact types_ex hw.now _ Γ _ htys p hu hp.lits _ he t ht
  rw [e1] at h3
  obtain ⟨y, is, c2, hg2, hv2, hty⟩ := h3
  have hst := stat_gExpr (rt := gen σm) inl e hpl hv _ _ _ _ hg2
  exact ⟨y, is, c2, hg2, hv2, hst.2, hty⟩

theorem ret_site {inl : Inline} {P : Name → Prop} {σ : Sigs} {σm σa : MSigs} (hw : World inl P σ σm σa) (ret : Ty) (Γ : Types) (cs : CS PTy) (hs : Static Γ cs.vars cs.nslot) (p : Ex) (e : Expr)
    (he : p.Is e.toTree) (hu : p.Uses P) (hp : ExOk σ Γ p) (t : Ty) (ht : p.type σ Γ = some t) (hc : converts ret t = true) :
    ∃ site cs', retSite σm inl ret.p e cs = some (site, cs') ∧ cs'.vars = cs.vars ∧ cs'.nslot = cs.nslot ∧ ∀ κ K, Runs P σ κ K → ∀ table i, table[i]? = some site → ∀ slots ρ,
      Dyn Γ cs.vars slots ρ → (machine σa K table).eval (tag i) slots = (p.value σ κ Γ ρ).bind fun z => (conv ret z).map fun z => (slots, z.enc) := by
  have hpl : Plain inl e := plain_of_tree inl e (plain_ex inl P (fun f hf => (hw.now f hf).1) p hu _ he)
  have hv : ∀ n, varsE e n → cs.vars n ≠ some none := fun n _ => hs.typed n
  have hst : Stat (((gExpr (gen σm) inl e).andThen ld).andThen (castTo (gen σm) ret.p)) :=
    ((stat_gExpr (rt := gen σm) inl e hpl hv).bind fun _ => stat_ld _).bind fun _ => stat_castTo _ _ _
  have hty : TyS cs.vars (((gExpr (gen σm) inl e).andThen ld).andThen (castTo (gen σm) ret.p))
      (((tyE (gen σm) inl (tenvOf cs.vars) e).bind some).bind fun u => castable ints u ret.p) (fun _ _ => True) :=
    TyS.bind (TyS.bind (ty_gExpr (rt := gen σm) inl e hpl hv) fun a b hab => ty_ld hab) fun a b hab => by rw [← hab]; exact ty_castTo (rt := gen σm) ret.p a
  have h3 := hty { cs with nreg := 0 } rfl
  have e1 : tyE (gen σm) inl (tenvOf cs.vars) e = some t.p := by
    unfold tyE
    rw [eval_tree]
    exact types_ex hw.now _ Γ _ hs.types p hu hp.lits _ he t ht
  rw [e1] at h3
  simp only [Option.bind_some, castable_p hc] at h3
  obtain ⟨o, is, cs', hg, hvars, _⟩ := h3
  have h4 := hst _ _ _ _ hg
  refine ⟨(is, o), cs', by unfold retSite site; rw [hg]; rfl, h4.1, h4.2, fun κ K hr table i hi slots ρ hd => ?_⟩
  have hle : Le (((gExpr (gen σm) inl e).andThen ld).andThen (castTo (gen σm) ret.p)) (((gExpr (rt σa K) inl e).andThen ld).andThen (castTo (rt σa K) ret.p)) :=
    Le.bind (Le.bind (gExpr_le hw.more _ K inl e) fun _ => Le.refl _) fun _ => Le.refl _
  have hsm : Sim (rt σa K) cs.vars slots [] (((gExpr (rt σa K) inl e).andThen ld).andThen (castTo (rt σa K) ret.p))
      (((eagerE (rt σa K) inl (envOf cs.vars slots) e).andThen M.ret).andThen fun v => M.lift (castTV (rt σa K) ret.p v)) (fun r o u => opdAt r o = some u) :=
    Sim.bind (Sim.bind (sim_gExpr (rt := rt σa K) inl e hpl hv []) (stat_gExpr (rt := rt σa K) inl e hpl hv) fun ext a b hd => sim_ld hd)
      ((stat_gExpr (rt := rt σa K) inl e hpl hv).bind fun _ => stat_ld _) fun ext a b hd => sim_castTo ret.p hd
  have h5 := hsm { cs with nreg := 0 } rfl rfl o is cs' (hle _ _ hg) ()
  rw [M.then_ret, eager_tree, value_ex hw.all hr.typed hr.agree hd.fit _ hd.env p hu hp.lits hp.guarded _ he t ht] at h5
  rw [eval_tag, run_at hi]
  cases hval : p.value σ κ Γ ρ with
  | none => rw [hval] at h5; simp only [Option.map_none, Option.bind_none] at h5 ⊢; rw [show Scalar.run (rt σa K) is ⟨[], slots, ()⟩ = none from h5]; rfl
  | some z =>
    rw [hval] at h5
    simp only [Option.map_some, M.lift_some, Option.bind_some] at h5 ⊢
    rw [rt_castTV, castTV_p (has_ex hr.typed hd.fit p hp.lits _ ht z hval) hc] at h5
    cases hcv : conv ret z with
    | none => rw [hcv] at h5; simp only [Option.map_none] at h5 ⊢; rw [show Scalar.run (rt σa K) is ⟨[], slots, ()⟩ = none from h5]; rfl
    | some v =>
      rw [hcv] at h5
      obtain ⟨ext, h6, _, h7⟩ := h5
      rw [h6]
      simp only [Option.bind_some, opd_at, h7, Option.map_some]

theorem cond_site {inl : Inline} {P : Name → Prop} {σ : Sigs} {σm σa : MSigs} (hw : World inl P σ σm σa) (Γ : Types) (cs : CS PTy) (hs : Static Γ cs.vars cs.nslot) (p : Ex) (e : Expr)
    (he : p.Is e.toTree) (hu : p.Uses P) (hp : ExOk σ Γ p) (ht : p.type σ Γ = some .bool) :
    ∃ site cs', condSite σm inl e cs = some (site, cs') ∧ cs'.vars = cs.vars ∧ cs'.nslot = cs.nslot ∧ ∀ κ K, Runs P σ κ K → ∀ table i, table[i]? = some site → ∀ slots ρ,
      Dyn Γ cs.vars slots ρ → (p.value σ κ Γ ρ = none ∧ (machine σa K table).eval (tag i) slots = none) ∨
        ∃ b, p.value σ κ Γ ρ = some (.bool b) ∧ (machine σa K table).eval (tag i) slots = some (slots, bit b) := by
  have hpl : Plain inl e := plain_of_tree inl e (plain_ex inl P (fun f hf => (hw.now f hf).1) p hu _ he)
  have hv : ∀ n, varsE e n → cs.vars n ≠ some none := fun n _ => hs.typed n
  have hst : Stat (((gExpr (gen σm) inl e).andThen ld).andThen fun x => if x.1 = .bit then G.ret x.2 else G.fail) :=
    ((stat_gExpr (rt := gen σm) inl e hpl hv).bind fun _ => stat_ld _).bind fun _ => Stat.ite (Stat.ret _) Stat.fail
  have hty : TyS cs.vars (((gExpr (gen σm) inl e).andThen ld).andThen fun x => if x.1 = .bit then G.ret x.2 else G.fail)
      (((tyE (gen σm) inl (tenvOf cs.vars) e).bind some).bind fun u => if u = .bit then some () else none) (fun _ _ => True) :=
    TyS.bind (TyS.bind (ty_gExpr (rt := gen σm) inl e hpl hv) fun a b hab => ty_ld hab) fun a b hab => by
      rw [← hab]
      split
      · exact TyS.ret trivial
      · exact TyS.fail
  have h3 := hty { cs with nreg := 0 } rfl
  have e1 : tyE (gen σm) inl (tenvOf cs.vars) e = some .bit := by
    unfold tyE
    rw [eval_tree]
    exact types_ex hw.now _ Γ _ hs.types p hu hp.lits _ he _ ht
  rw [e1] at h3
  simp only [Option.bind_some, if_true] at h3
  obtain ⟨o, is, cs', hg, hvars, _⟩ := h3
  have h4 := hst _ _ _ _ hg
  refine ⟨(is, o), cs', by unfold condSite site; rw [hg]; rfl, h4.1, h4.2, fun κ K hr table i hi slots ρ hd => ?_⟩
  have hle : Le (((gExpr (gen σm) inl e).andThen ld).andThen fun x => if x.1 = .bit then G.ret x.2 else G.fail)
      (((gExpr (rt σa K) inl e).andThen ld).andThen fun x => if x.1 = .bit then G.ret x.2 else G.fail) :=
    Le.bind (Le.bind (gExpr_le hw.more _ K inl e) fun _ => Le.refl _) fun _ => Le.refl _
  have hsm : Sim (rt σa K) cs.vars slots [] (((gExpr (rt σa K) inl e).andThen ld).andThen fun x => if x.1 = .bit then G.ret x.2 else G.fail)
      (((eagerE (rt σa K) inl (envOf cs.vars slots) e).andThen M.ret).andThen fun v => M.ret v.2) (fun r o u => opdAt r o = some u) :=
    Sim.bind (Sim.bind (sim_gExpr (rt := rt σa K) inl e hpl hv []) (stat_gExpr (rt := rt σa K) inl e hpl hv) fun ext a b hd => sim_ld hd)
      ((stat_gExpr (rt := rt σa K) inl e hpl hv).bind fun _ => stat_ld _) fun ext a b hd => Sim.ite (fun _ => Sim.ret hd.2) (fun _ => Sim.fail)
  have h5 := hsm { cs with nreg := 0 } rfl rfl o is cs' (hle _ _ hg) ()
  rw [M.then_ret, eager_tree, value_ex hw.all hr.typed hr.agree hd.fit _ hd.env p hu hp.lits hp.guarded _ he _ ht] at h5
  rw [eval_tag, run_at hi]
  cases hval : p.value σ κ Γ ρ with
  | none => rw [hval] at h5; refine .inl ⟨rfl, ?_⟩; simp only [Option.map_none] at h5; rw [show Scalar.run (rt σa K) is ⟨[], slots, ()⟩ = none from h5]; rfl
  | some z =>
    obtain ⟨b, rfl⟩ := has_bool (has_ex hr.typed hd.fit p hp.lits _ ht z hval)
    rw [hval] at h5
    refine .inr ⟨b, rfl, ?_⟩
    simp only [Option.map_some, M.lift_some] at h5
    obtain ⟨ext, h6, _, h7⟩ := h5
    rw [h6]
    simp only [Option.bind_some, opd_at, h7, Option.map_some]
    rfl

/-! ## The code of an expression statement -/

theorem dyn_set {Γ Γ' : Types} {vars vars' : Vars PTy} {slots slots' : Nat → Int} {ρ : Store} {x : Name} {t : Ty} {z : Val} (h : Dyn Γ vars slots ρ)
    (he : ∀ n, ((envOf vars slots).set x (t.p, z.enc)) n = envOf vars' slots' n) (hz : z.Has t)
    (hg : ∀ n u, Γ' n = some u → (n = x ∧ u = t) ∨ (n ≠ x ∧ Γ n = some u)) : Dyn Γ' vars' slots' (ρ.set x z) where
  env n u hn := by
    rw [← he n]
    unfold Env.set Store.set
    rcases hg n u hn with ⟨rfl, rfl⟩ | ⟨h1, h2⟩
    · simp
    · rw [if_neg h1, if_neg h1]; exact h.env n u h2
  fit n u hn := by
    unfold Store.set
    rcases hg n u hn with ⟨rfl, rfl⟩ | ⟨h1, h2⟩
    · simpa using hz
    · rw [if_neg h1]; exact h.fit n u h2

/-- The run of an assignment. -/
theorem line_run (inl : Inline) (σa : MSigs) (K : MCalls) (Γ : Types) (cs cs' : CS PTy) (hs : Static Γ cs.vars cs.nslot) (l : Line) (hl : Good inl l) (h : H PTy Int) (is : List (Instr PTy Int))
    (hg : gExpr (rt σa K) inl l.expr { cs with nreg := 0 } = some (h, is, cs')) (slots : Nat → Int) (table : List Site) (i : Nat) (hi : table[i]? = some (is, .const 0)) :
    match lineM (rt σa K) inl (envOf cs.vars slots) l () with
    | none => (machine σa K table).eval (tag i) slots = none
    | some r => ∃ slots', (machine σa K table).eval (tag i) slots = some (slots', 0) ∧ ∀ n, r.2 n = envOf cs'.vars slots' n := by
  have hm : Match (envOf cs.vars slots) { cs with nreg := 0 } (⟨[], slots, ()⟩ : RS Int Unit) := ⟨rfl, hs.typed, fun _ => rfl, hs.below, hs.apart⟩
  have h1 := line_ok (rt := rt σa K) hm hl hg
  rw [eval_tag, run_at hi]
  cases hr : lineM (rt σa K) inl (envOf cs.vars slots) l () with
  | none => rw [show lineM (rt σa K) inl (envOf cs.vars slots) l (⟨[], slots, ()⟩ : RS Int Unit).w = none from hr] at h1; simp only at h1 ⊢; rw [h1]; rfl
  | some r =>
    rw [show lineM (rt σa K) inl (envOf cs.vars slots) l (⟨[], slots, ()⟩ : RS Int Unit).w = some r from hr] at h1
    obtain ⟨rs', h2, _, h3⟩ := h1
    simp only
    rw [h2]
    exact ⟨rs'.slots, rfl, h3.env⟩

/-- What the code of an expression statement does. -/
def LineSim (inl : Inline) (P : Name → Prop) (σ : Sigs) (σm σa : MSigs) (s : Expr) (Γ Γ' : Types) (cs : CS PTy) (names : List Name) (value : Calls → Store → Option Val)
    (then_ : Store → Val → Store) : Prop :=
  ∃ site cs', exprSite σm inl s cs = some (site, cs') ∧ Static Γ' cs'.vars cs'.nslot ∧ Grow cs.vars cs'.vars names ∧ ∀ κ K, Runs P σ κ K → ∀ table i, table[i]? = some site → ∀ slots ρ,
    Dyn Γ cs.vars slots ρ → match value κ ρ with
    | none => (machine σa K table).eval (tag i) slots = none
    | some z => ∃ slots', (machine σa K table).eval (tag i) slots = some (slots', 0) ∧ Dyn Γ' cs'.vars slots' (then_ ρ z)

theorem eval_line {inl : Inline} {P : Name → Prop} {σ : Sigs} {σm σa : MSigs} (hw : World inl P σ σm σa) (Γ : Types) (cs : CS PTy) (hs : Static Γ cs.vars cs.nslot) (p : Ex) (e : Expr)
    (he : p.Is e.toTree) (hu : p.Uses P) (hp : ExOk σ Γ p) : LineSim inl P σ σm σa e Γ Γ cs [] (fun κ ρ => p.value σ κ Γ ρ) (fun ρ _ => ρ) := by
  have hpl : Plain inl e := plain_of_tree inl e (plain_ex inl P (fun f hf => (hw.now f hf).1) p hu _ he)
  have hv : ∀ n, varsE e n → cs.vars n ≠ some none := fun n _ => hs.typed n
  obtain ⟨t, ht⟩ := Option.isSome_iff_exists.1 hp.typed
  obtain ⟨y, is, cs', hg, hv2, hn2, _⟩ := ex_code hw Γ { cs with nreg := 0 } hs.types p e he hu hp hv t ht
  refine ⟨(is, .const 0), cs', by unfold exprSite site; rw [hg]; rfl, by rw [hv2, hn2]; exact hs, by rw [hv2]; exact Grow.refl _ _, fun κ K hr table i hi slots ρ hd => ?_⟩
  have h5 := sim_gExpr (rt := rt σa K) (slots := slots) inl e hpl hv [] { cs with nreg := 0 } rfl rfl y is cs' (gExpr_le hw.more _ K inl e _ _ hg) ()
  rw [eager_tree, value_ex hw.all hr.typed hr.agree hd.fit _ hd.env p hu hp.lits hp.guarded _ he t ht] at h5
  rw [eval_tag, run_at hi]
  dsimp only
  cases hval : p.value σ κ Γ ρ with
  | none => rw [hval] at h5; simp only [Option.map_none] at h5 ⊢; rw [show Scalar.run (rt σa K) is ⟨[], slots, ()⟩ = none from h5]; rfl
  | some z =>
    rw [hval] at h5
    obtain ⟨ext, h6, _, _⟩ := h5
    refine ⟨slots, ?_, by rw [hv2]; exact hd⟩
    rw [h6]
    rfl

theorem define_line {inl : Inline} {P : Name → Prop} {σ : Sigs} {σm σa : MSigs} (hw : World inl P σ σm σa) (Γ : Types) (cs : CS PTy) (hs : Static Γ cs.vars cs.nslot) (x : Name)
    (hx : cs.vars x = none) (p : Ex) (e : Expr) (he : p.Is e.toTree) (hu : p.Uses P) (hp : ExOk σ Γ p) (hb : p.isVar = false) :
    LineSim inl P σ σm σa (.bin (.un none (.define x)) .assign e) Γ (Γ.set x (p.type σ Γ)) cs [x] (fun κ ρ => p.value σ κ Γ ρ) (fun ρ z => ρ.set x z) := by
  have hpl : Plain inl e := plain_of_tree inl e (plain_ex inl P (fun f hf => (hw.now f hf).1) p hu _ he)
  have hbare := bare_ex p e he hb
  obtain ⟨t, ht⟩ := Option.isSome_iff_exists.1 hp.typed
  have hnx : ¬ varsE e x := by
    intro h
    have h1 := used_ex σ Γ p t ht _ he x ((vars_tree e x).1 h)
    rw [hs.fresh hx] at h1
    simp at h1
  let vars1 : Vars PTy := fun k => if k = x then some none else cs.vars k
  have hok : ∀ n, varsE e n → vars1 n ≠ some none := by
    intro n hn
    have : n ≠ x := fun hh => hnx (hh ▸ hn)
    show (if n = x then some none else cs.vars n) ≠ some none
    rw [if_neg this]
    exact hs.typed n
  have htys : TypesOk Γ (tenvOf vars1) := by
    intro n u hn
    have hne : n ≠ x := by rintro rfl; rw [hs.fresh hx] at hn; simp at hn
    have := hs.types n u hn
    unfold tenvOf at this ⊢
    have h1 : vars1 n = cs.vars n := by show (if n = x then some none else cs.vars n) = _; rw [if_neg hne]
    rw [h1]
    exact this
  obtain ⟨y, is, c2, hg2, hv2, hns, hty⟩ := ex_code hw Γ { cs with nreg := 0, vars := vars1 } htys p e he hu hp hok t ht
  have hi := post_imm (rt := gen σm) e hpl hbare _ _ _ _ hg2
  cases y with
  | var _ => exact hi.elim
  | imm u o =>
    have hu' : u = t.p := hty
    subst hu'
    let cs' : CS PTy := { c2 with nslot := c2.nslot + 1, vars := fun k => if k = x then some (some (t.p, c2.nslot)) else c2.vars k }
    have hgen : gExpr (gen σm) inl (Line.define x e).expr { cs with nreg := 0 } = some (.var x, is ++ [.store c2.nslot o], cs') := by
      rw [Line.expr, gExpr_bin (.define x) (.define x) (gDefH x) (by rw [flatO]) (gNode_define x) .assign e (plain_arity inl e hpl)]
      have g0 : gDefH x { cs with nreg := 0 } = some ((H.var x : H PTy Int), ([] : List (Instr PTy Int)), { cs with nreg := 0, vars := vars1 }) := by
        unfold gDefH
        simp only [hx]
        rfl
      have g3 : gOp2 (gen σm) .assign (H.var x) (H.imm t.p o) c2 = some (.var x, [.store c2.nslot o], cs') := by
        have hc : c2.vars x = some none := by rw [hv2]; show (if x = x then some none else cs.vars x) = _; rw [if_pos rfl]
        show gAssign (H.var x) (H.imm t.p o) c2 = _
        unfold gAssign
        simp only [hc]
        rfl
      unfold G.andThen
      rw [g0]
      simp only [Option.bind_some]
      rw [hg2]
      simp only [Option.bind_some]
      rw [g3]
      simp
    have hvars : ∀ k, cs'.vars k = if k = x then some (some (t.p, cs.nslot)) else cs.vars k := by
      intro k
      show (if k = x then some (some (t.p, c2.nslot)) else c2.vars k) = _
      rw [hns, hv2]
      by_cases hk : k = x
      · rw [if_pos hk, if_pos hk]
      · rw [if_neg hk, if_neg hk]; show (if k = x then some none else cs.vars k) = _; rw [if_neg hk]
    have hns' : c2.nslot = cs.nslot := hns
    refine ⟨(is ++ [.store c2.nslot o], .const 0), cs', by
      unfold exprSite site; rw [show gExpr (gen σm) inl (.bin (.un none (.define x)) .assign e) { cs with nreg := 0 } = _ from hgen]; rfl, ?_, ?_, ?_⟩
    · refine ⟨?_, ?_, ?_, ?_⟩
      · intro n; rw [hvars]; split
        · simp
        · exact hs.typed n
      · intro n b hn
        show b.2 < c2.nslot + 1
        rw [hvars] at hn
        split at hn
        · simp at hn; rw [← hn, hns']; simp
        · have := hs.below n b hn; omega
      · intro n m b c h1 h2 h4
        rw [hvars] at h1 h2
        split at h1 <;> split at h2
        · next a a' => rw [a, a']
        · have := hs.below m c h2; simp at h1; rw [← h1] at h4; simp at h4; omega
        · have := hs.below n b h1; simp at h2; rw [← h2] at h4; simp at h4; omega
        · exact hs.apart n m b c h1 h2 h4
      · intro n u hn
        rw [hvars]
        unfold Types.set at hn
        split
        · next hh => rw [if_pos hh, ht] at hn; injection hn with hn; exact ⟨_, by rw [hn]⟩
        · next hh => rw [if_neg hh] at hn; exact hs.dom n u hn
    · refine ⟨fun n b hn => ?_, fun n hn hm => ?_⟩
      · rw [hvars, if_neg (by rintro rfl; rw [hx] at hn; simp at hn)]; exact hn
      · rw [hvars, if_neg (by simpa using hm)]; exact hn
    · intro κ K hr table i hti slots ρ hd
      have h6 := line_run inl σa K Γ cs cs' hs (.define x e) ⟨hpl, hbare, hnx⟩ _ _ (gExpr_le hw.more _ K inl _ _ _ hgen) slots table i hti
      have h7 : lineM (rt σa K) inl (envOf cs.vars slots) (.define x e) () = (p.value σ κ Γ ρ).map fun z => ((), (envOf cs.vars slots).set x (t.p, z.enc)) := by
        simp only [lineM]
        rw [eager_tree, value_ex hw.all hr.typed hr.agree hd.fit _ hd.env p hu hp.lits hp.guarded _ he t ht]
        cases p.value σ κ Γ ρ <;> rfl
      rw [h7] at h6
      dsimp only
      cases hval : p.value σ κ Γ ρ with
      | none => rw [hval] at h6; exact h6
      | some z =>
        rw [hval] at h6
        obtain ⟨slots', h8, h9⟩ := h6
        refine ⟨slots', h8, dyn_set hd h9 (has_ex hr.typed hd.fit p hp.lits t ht z hval) fun n u hn => ?_⟩
        unfold Types.set at hn
        split at hn
        · next hh => rw [ht] at hn; injection hn with hn; exact .inl ⟨hh, hn.symm⟩
        · next hh => exact .inr ⟨hh, hn⟩

theorem assign_line {inl : Inline} {P : Name → Prop} {σ : Sigs} {σm σa : MSigs} (hw : World inl P σ σm σa) (Γ : Types) (cs : CS PTy) (hs : Static Γ cs.vars cs.nslot) (x : Name) (p : Ex)
    (e : Expr) (he : p.Is e.toTree) (hu : p.Uses P) (hp : ExOk σ Γ p) (hx : Γ x = p.type σ Γ) :
    LineSim inl P σ σm σa (.bin (.un none (.var x)) .assign e) Γ Γ cs [] (fun κ ρ => p.value σ κ Γ ρ) (fun ρ z => ρ.set x z) := by
  have hpl : Plain inl e := plain_of_tree inl e (plain_ex inl P (fun f hf => (hw.now f hf).1) p hu _ he)
  obtain ⟨t, ht⟩ := Option.isSome_iff_exists.1 hp.typed
  have hxt : Γ x = some t := hx.trans ht
  obtain ⟨sl, hsl⟩ := hs.dom x t hxt
  have hok : ∀ n, varsE e n → cs.vars n ≠ some none := fun n _ => hs.typed n
  obtain ⟨y, is, c2, hg2, hv2, hns2, hty⟩ := ex_code hw Γ { cs with nreg := 0 } hs.types p e he hu hp hok t ht
  let rest : G PTy Int (H PTy Int) := (ld y).andThen fun z => if z.1 = t.p then fun cs => some (.var x, [.store sl z.2], cs) else G.fail
  have hrest : TyS cs.vars rest ((some t.p).bind fun u => if u = t.p then some () else none) (fun _ _ => True) :=
    TyS.bind (ty_ld hty) fun a b hab => by
      rw [← hab]
      split
      · exact ty_const _ _ _
      · exact TyS.fail
  have srest : Stat rest := (stat_ld y).bind fun _ => Stat.ite (stat_const _ _) Stat.fail
  have h4 := hrest c2 hv2
  simp only [Option.bind_some, if_true] at h4
  obtain ⟨a, js, cs', hgr, hv3, _⟩ := h4
  have hst3 := srest _ _ _ _ hgr
  have hgen : gExpr (gen σm) inl (Line.assign x e).expr { cs with nreg := 0 } = some (a, is ++ js, cs') := by
    rw [Line.expr, gExpr_bin (.var x) (.var x) (gVarH x) (by rw [flatO]) (gNode_var x) .assign e (plain_arity inl e hpl)]
    have g0 : gVarH x { cs with nreg := 0 } = some ((H.var x : H PTy Int), ([] : List (Instr PTy Int)), { cs with nreg := 0 }) := by
      unfold gVarH
      simp only [hsl]
    have g3 : gOp2 (gen σm) .assign (H.var x) y c2 = some (a, js, cs') := by
      show gAssign (H.var x) y c2 = _
      unfold gAssign
      simp only [hv2, hsl]
      exact hgr
    unfold G.andThen
    rw [g0]
    simp only [Option.bind_some]
    rw [hg2]
    simp only [Option.bind_some]
    rw [g3]
    simp
  have hns : cs'.nslot = cs.nslot := hst3.2.trans hns2
  refine ⟨(is ++ js, .const 0), cs', by unfold exprSite site; rw [show gExpr (gen σm) inl (.bin (.un none (.var x)) .assign e) { cs with nreg := 0 } = _ from hgen]; rfl, ?_, ?_, ?_⟩
  · rw [hv3, hns]; exact hs
  · rw [hv3]; exact Grow.refl _ _
  · intro κ K hr table i hti slots ρ hd
    have h6 := line_run inl σa K Γ cs cs' hs (.assign x e) hpl _ _ (gExpr_le hw.more _ K inl _ _ _ hgen) slots table i hti
    have h7 : lineM (rt σa K) inl (envOf cs.vars slots) (.assign x e) () = (p.value σ κ Γ ρ).map fun z => ((), (envOf cs.vars slots).set x (t.p, z.enc)) := by
      simp only [lineM]
      rw [eager_tree, value_ex hw.all hr.typed hr.agree hd.fit _ hd.env p hu hp.lits hp.guarded _ he t ht]
      cases p.value σ κ Γ ρ <;> rfl
    rw [h7] at h6
    dsimp only
    cases hval : p.value σ κ Γ ρ with
    | none => rw [hval] at h6; exact h6
    | some z =>
      rw [hval] at h6
      obtain ⟨slots', h8, h9⟩ := h6
      refine ⟨slots', h8, dyn_set hd h9 (has_ex hr.typed hd.fit p hp.lits t ht z hval) fun n u hn => ?_⟩
      by_cases hh : n = x
      · subst hh; rw [hxt] at hn; injection hn with hn; exact .inl ⟨rfl, hn.symm⟩
      · exact .inr ⟨hh, hn⟩

theorem update_line {inl : Inline} {P : Name → Prop} {σ : Sigs} {σm σa : MSigs} (hw : World inl P σ σm σa) (Γ : Types) (cs : CS PTy) (hs : Static Γ cs.vars cs.nslot) (o : Arith) (x : Name) (p : Ex)
    (e : Expr) (he : p.Is e.toTree) (hu : p.Uses P) (hop : ExOk σ Γ (.arith o (.var x) p)) (hx : Γ x = (Ex.arith o (.var x) p).type σ Γ) :
    LineSim inl P σ σm σa (.bin (.un none (.var x)) (Arith.assignSign o) e) Γ Γ cs [] (fun κ ρ => (Ex.arith o (.var x) p).value σ κ Γ ρ) (fun ρ z => ρ.set x z) := by
  have hpl : Plain inl e := plain_of_tree inl e (plain_ex inl P (fun f hf => (hw.now f hf).1) p hu _ he)
  have hxx : ∃ t u, Γ x = some (.int t) ∧ p.type σ Γ = some (.int u) ∧ wider t u = t := by
    obtain ⟨τ, h0⟩ := Option.isSome_iff_exists.1 hop.typed
    rw [Ex.type] at hx h0
    obtain ⟨t, u, h1, h2, h3⟩ := tArith_some h0
    rw [Ex.type] at h1
    rw [h0, h1, h3] at hx
    injection hx with hx
    injection hx with hx
    exact ⟨t, u, h1, h2, hx.symm⟩
  obtain ⟨t, u, hxt, hut, hwd⟩ := hxx
  have hlits : p.Lits := by have := hop.lits; rw [Ex.Lits] at this; exact this.2
  have hguard : p.Guarded := by have := hop.guarded; rw [Ex.Guarded] at this; exact this.2
  have hlevel : p.Level σ Γ := by have := hop.level; rw [Ex.Level] at this; exact this.2
  have hp : ExOk σ Γ p := ⟨by rw [hut]; rfl, hlits, hguard, hlevel⟩
  obtain ⟨sl, hsl⟩ := hs.dom x _ hxt
  have hok : ∀ n, varsE e n → cs.vars n ≠ some none := fun n _ => hs.typed n
  obtain ⟨y, is, c2, hg2, hv2, hns2, hty⟩ := ex_code hw Γ { cs with nreg := 0 } hs.types p e he hu hp hok _ hut
  obtain ⟨f, hf⟩ := arith_some o t
  let rest : G PTy Int (H PTy Int) := (ld (.var x : H PTy Int)).andThen fun x' => (ld y).andThen fun y => G.get (common ints x'.1 y.1) fun c =>
    if c = PTy.int t then (castTo ints c y).andThen fun v => G.get (ints.binOp o.sign c) fun r =>
      if r.1 = PTy.int t then (G.push (.bin o.sign c x'.2 v)).andThen fun o => fun cs => some (.var x, [.store sl o], cs) else G.fail
    else G.fail
  have hrest : TyS cs.vars rest ((some (PTy.int t)).bind fun a => (some (PTy.int u)).bind fun b => (common ints a b).bind fun c =>
      if c = PTy.int t then (castable ints b c).bind fun _ => (ints.binOp o.sign c).bind fun r => if r.1 = .int t then (some ()).bind fun _ => some () else none else none) (fun _ _ => True) := by
    refine TyS.bind (ty_ld (h := .var x) (show tenvOf cs.vars x = some (.int t) by unfold tenvOf; rw [hsl]; rfl)) fun a b hab => TyS.bind (ty_ld hty) fun a' b' hab' => ?_
    rw [← hab, ← hab']
    refine TyS.get fun c _ => ?_
    split
    · refine TyS.bind (ty_castTo (rt := ints) c a') fun _ _ _ => TyS.get fun r _ => ?_
      split
      · exact TyS.bind (TyS.push _) fun _ _ _ => ty_const _ _ _
      · exact TyS.fail
    · exact TyS.fail
  have srest : Stat rest := (stat_ld _).bind fun _ => (stat_ld _).bind fun _ => Stat.get fun _ => Stat.ite ((stat_castTo _ _ _).bind fun _ => Stat.get fun _ =>
    Stat.ite ((Stat.push _).bind fun _ => stat_const _ _) Stat.fail) Stat.fail
  have h4 := hrest c2 hv2
  simp only [Option.bind_some] at h4
  rw [show common ints (.int t) (.int u) = some (.int t) from by rw [← meet_eq, meet_int, hwd]] at h4
  simp only [Option.bind_some, if_true, castable_int] at h4
  rw [hf] at h4
  simp only [Option.bind_some, if_true] at h4
  obtain ⟨a, js, cs', hgr, hv3, _⟩ := h4
  have hst3 := srest _ _ _ _ hgr
  have hgen : gExpr (gen σm) inl (Line.update (Arith.assignSign o) x e).expr { cs with nreg := 0 } = some (a, is ++ js, cs') := by
    rw [Line.expr, gExpr_bin (.var x) (.var x) (gVarH x) (by rw [flatO]) (gNode_var x) _ e (plain_arity inl e hpl)]
    have g0 : gVarH x { cs with nreg := 0 } = some ((H.var x : H PTy Int), ([] : List (Instr PTy Int)), { cs with nreg := 0 }) := by
      unfold gVarH
      simp only [hsl]
    have g3 : gOp2 (gen σm) (Arith.assignSign o) (H.var x) y c2 = some (a, js, cs') := by
      unfold gOp2
      rw [if_neg (assign_ne o), base_assign]
      show gUpdate (gen σm) o.sign (H.var x) y c2 = _
      unfold gUpdate
      simp only [hv2, hsl]
      exact hgr
    unfold G.andThen
    rw [g0]
    simp only [Option.bind_some]
    rw [hg2]
    simp only [Option.bind_some]
    rw [g3]
    simp
  have hns : cs'.nslot = cs.nslot := hst3.2.trans hns2
  refine ⟨(is ++ js, .const 0), cs', by
    unfold exprSite site; rw [show gExpr (gen σm) inl (.bin (.un none (.var x)) (Arith.assignSign o) e) { cs with nreg := 0 } = _ from hgen]; rfl, ?_, ?_, ?_⟩
  · rw [hv3, hns]; exact hs
  · rw [hv3]; exact Grow.refl _ _
  · intro κ K hr table i hti slots ρ hd
    have h6 := line_run inl σa K Γ cs cs' hs (.update (Arith.assignSign o) x e) ⟨hpl, by rw [base_assign]; simp⟩ _ _ (gExpr_le hw.more _ K inl _ _ _ hgen) slots table i hti
    have h7 : lineM (rt σa K) inl (envOf cs.vars slots) (.update (Arith.assignSign o) x e) () =
        ((Ex.arith o (.var x) p).value σ κ Γ ρ).map fun z => ((), (envOf cs.vars slots).set x (.int t, z.enc)) := by
      simp only [lineM]
      rw [eager_tree, value_ex hw.all hr.typed hr.agree hd.fit _ hd.env p hu hlits hguard _ he _ hut, Ex.value, Ex.type, hxt, hut, Ex.value]
      simp only [tArith, hwd]
      cases hval : p.value σ κ Γ ρ with
      | none => cases ρ x <;> rfl
      | some y =>
        obtain ⟨y, rfl, hy⟩ := has_int (has_ex hr.typed hd.fit p hlits _ hut y hval)
        obtain ⟨x', hxv, hxf⟩ := has_int (hd.fit x _ hxt)
        rw [hxv]
        simp only [Option.map_some, M.lift_some, Option.bind_some]
        rw [hd.env x _ hxt, base_assign, hxv]
        simp only [Option.bind_some]
        rw [rt_binTV]
        simp only [Ty.p, Val.enc]
        rw [arithTV o t u x' y hxf hy, hwd]
        simp only [vArith]
        cases Arith.calc o t (Pipeline.wrap t x') (Pipeline.wrap t y) <;> rfl
    rw [h7] at h6
    dsimp only
    cases hval : (Ex.arith o (.var x) p).value σ κ Γ ρ with
    | none => rw [hval] at h6; exact h6
    | some z =>
      rw [hval] at h6
      obtain ⟨slots', h8, h9⟩ := h6
      refine ⟨slots', h8, dyn_set (t := .int t) hd h9 (has_ex hr.typed hd.fit _ hop.lits _ (by rw [← hx, hxt]) z hval) fun n v hn => ?_⟩
      by_cases hh : n = x
      · subst hh; rw [hxt] at hn; injection hn with hn; exact .inl ⟨rfl, hn.symm⟩
      · exact .inr ⟨hh, hn⟩

end Verif.Comp.Script
