import Verif.Comp.Function
/-!
# Compiled functions do what their statements say: C136
-/
namespace Verif.Comp.Function
open Verif.Ast Verif.Ast.Rpn Verif.Gen Verif.Gen.Scalar Verif.Types.Conv Verif.Comp.Pipeline

/-! ## Lemmas: names in expressions -/

/-- A variable occurs. -/
def Tree.has : Tree → Name → Prop
  | .atom o, n => varsO o n
  | .un _ t, n => Tree.has t n
  | .bin l _ r, n => Tree.has l n ∨ Tree.has r n
  | .sel c t f, n => Tree.has c n ∨ Tree.has t n ∨ Tree.has f n

theorem vars_tree (e : Expr) (n : Name) : varsE e n ↔ Tree.has e.toTree n := by
  match e with
  | .un none (.paren e) => rw [varsE, varsO, Expr.toTree]; exact vars_tree e n
  | .un (some op) (.paren e) => rw [varsE, varsO, Expr.toTree, Tree.has]; exact vars_tree e n
  | .bin l op r => rw [varsE, Expr.toTree, Tree.has, vars_tree l n, vars_tree r n]
  | .sel c t f => rw [varsE, Expr.toTree, Tree.has, vars_tree c n, vars_tree t n, vars_tree f n]
  | .un none (.bool _) | .un none (.str _) | .un none (.num _) | .un none (.define _) | .un none (.var _) | .un none (.array _) | .un none (.call _ _) | .un none (.access _ _) =>
    simp only [varsE, Expr.toTree, Tree.has]
  | .un (some _) (.bool _) | .un (some _) (.str _) | .un (some _) (.num _) | .un (some _) (.define _) | .un (some _) (.var _) | .un (some _) (.array _) | .un (some _) (.call _ _)
  | .un (some _) (.access _ _) => simp only [varsE, Expr.toTree, Tree.has]

theorem bare_tree (e : Expr) (h : BareE e = true) : ∃ n, e.toTree = .atom (.var n) := by
  match e with
  | .un none (.paren e) => rw [BareE, BareO] at h; rw [Expr.toTree]; exact bare_tree e h
  | .un none (.var n) => exact ⟨n, rfl⟩
  | .un none (.bool _) | .un none (.str _) | .un none (.num _) | .un none (.define _) | .un none (.array _) | .un none (.call _ _) | .un none (.access _ _) => simp [BareE, BareO] at h
  | .un (some _) _ => simp [BareE] at h
  | .bin _ _ _ => simp [BareE] at h
  | .sel _ _ _ => simp [BareE] at h

theorem bare_num (p : Num) (e : Expr) (he : e.toTree = p.tree) (h : Num.isArg p = false) : BareE e = false := by
  cases hb : BareE e with
  | false => rfl
  | true =>
    obtain ⟨n, hn⟩ := bare_tree e hb
    rw [hn] at he
    cases p <;> simp [Num.tree, Num.isArg] at he h

mutual
theorem used_num (Γ : Types) (p : Num) (h : (p.type Γ).isSome) (n : Name) (hn : Tree.has p.tree n) : (Γ n).isSome := by
  match p with
  | .lit _ _ => simp [Num.tree, Tree.has, varsO] at hn
  | .arg x => rw [Num.tree, Tree.has, varsO] at hn; subst hn; rw [Num.type] at h; exact h
  | .neg a =>
    rw [Num.tree, Tree.has] at hn
    rw [Num.type] at h
    refine used_num Γ a ?_ n hn
    cases ha : a.type Γ with
    | none => rw [ha] at h; simp at h
    | some _ => rfl
  | .op o a b =>
    rw [Num.tree, Tree.has] at hn
    rw [Num.type] at h
    cases ha : a.type Γ with
    | none => rw [ha] at h; simp at h
    | some s =>
      cases hb : b.type Γ with
      | none => rw [ha, hb] at h; simp at h
      | some t =>
        rcases hn with hn | hn
        · exact used_num Γ a (by rw [ha]; rfl) n hn
        · exact used_num Γ b (by rw [hb]; rfl) n hn
  | .pick c a b =>
    rw [Num.tree, Tree.has] at hn
    rw [Num.type] at h
    cases hc : c.typed Γ with
    | false => rw [hc] at h; simp at h
    | true =>
      rw [hc] at h
      cases ha : a.type Γ with
      | none => rw [ha] at h; simp at h
      | some s =>
        cases hb : b.type Γ with
        | none => rw [ha, hb] at h; simp at h
        | some t =>
          rcases hn with hn | hn | hn
          · exact used_cond Γ c hc n hn
          · exact used_num Γ a (by rw [ha]; rfl) n hn
          · exact used_num Γ b (by rw [hb]; rfl) n hn
theorem used_cond (Γ : Types) (p : Cond) (h : p.typed Γ = true) (n : Name) (hn : Tree.has p.tree n) : (Γ n).isSome := by
  match p with
  | .const _ => simp [Cond.tree, Tree.has, varsO] at hn
  | .rel o a b =>
    rw [Cond.tree, Tree.has] at hn
    rw [Cond.typed, Bool.and_eq_true] at h
    rcases hn with hn | hn
    · exact used_num Γ a h.1 n hn
    · exact used_num Γ b h.2 n hn
  | .and a b =>
    rw [Cond.tree, Tree.has] at hn
    rw [Cond.typed, Bool.and_eq_true] at h
    rcases hn with hn | hn
    · exact used_cond Γ a h.1 n hn
    · exact used_cond Γ b h.2 n hn
  | .or a b =>
    rw [Cond.tree, Tree.has] at hn
    rw [Cond.typed, Bool.and_eq_true] at h
    rcases hn with hn | hn
    · exact used_cond Γ a h.1 n hn
    · exact used_cond Γ b h.2 n hn
  | .not a =>
    rw [Cond.tree, Tree.has] at hn
    rw [Cond.typed] at h
    exact used_cond Γ a h n hn
end

/-! ## Lemmas: variables -/

/-- Known variables have types and slots of their own; those in scope are known with their types. -/
structure Static (Γ : Types) (vars : Vars PTy) (ns : Nat) : Prop where
  typed : ∀ n, vars n ≠ some none
  below : ∀ n b, vars n = some (some b) → b.2 < ns
  apart : ∀ n m b c, vars n = some (some b) → vars m = some (some c) → b.2 = c.2 → n = m
  dom : ∀ n t, Γ n = some t → ∃ s, vars n = some (some (.int t, s))

/-- The slots hold the values of the variables in scope. -/
structure Dyn (Γ : Types) (vars : Vars PTy) (slots : Nat → Int) (ρ : Store) : Prop where
  env : EnvOk Γ ρ (envOf vars slots)
  fit : ArgsFit Γ ρ

/-- Variables stay known, and those that become known are among the names. -/
structure Grow (vars vars' : Vars PTy) (names : List Name) : Prop where
  keep : ∀ n b, vars n = some b → vars' n = some b
  new : ∀ n, vars n = none → n ∉ names → vars' n = none

theorem Grow.refl (vars : Vars PTy) (names : List Name) : Grow vars vars names := ⟨fun _ _ h => h, fun _ h _ => h⟩

theorem Grow.trans {a b c : Vars PTy} {ns ms : List Name} (h : Grow a b ns) (k : Grow b c ms) : Grow a c (ns ++ ms) where
  keep n x hn := k.keep n x (h.keep n x hn)
  new n hn hm := by
    simp only [List.mem_append, not_or] at hm
    exact k.new n (h.new n hn hm.1) hm.2

theorem Static.types {Γ : Types} {vars : Vars PTy} {ns : Nat} (h : Static Γ vars ns) : TypesOk Γ (tenvOf vars) := by
  intro x t hx
  obtain ⟨s, hs⟩ := h.dom x t hx
  unfold tenvOf
  rw [hs]

/-- Fewer variables in scope. -/
theorem Dyn.less {Γ Γ' : Types} {vars vars' : Vars PTy} {ns : Nat} {slots : Nat → Int} {ρ : Store} {names : List Name} (h : Dyn Γ' vars' slots ρ) (hs : Static Γ vars ns)
    (hg : Grow vars vars' names) (hsub : ∀ n t, Γ n = some t → Γ' n = some t) : Dyn Γ vars slots ρ where
  env x t hx := by
    obtain ⟨s, h1⟩ := hs.dom x t hx
    have h2 := h.env x t (hsub x t hx)
    unfold envOf at h2 ⊢
    rw [hg.keep _ _ h1] at h2
    rw [h1]
    exact h2
  fit x t hx := h.fit x t (hsub x t hx)

/-- More variables known. -/
theorem Dyn.more {Γ : Types} {vars vars' : Vars PTy} {ns : Nat} {slots : Nat → Int} {ρ : Store} {names : List Name} (h : Dyn Γ vars slots ρ) (hs : Static Γ vars ns)
    (hg : Grow vars vars' names) : Dyn Γ vars' slots ρ where
  env x t hx := by
    obtain ⟨s, h1⟩ := hs.dom x t hx
    have h2 := h.env x t hx
    unfold envOf at h2 ⊢
    rw [h1] at h2
    rw [hg.keep _ _ h1]
    exact h2
  fit := h.fit

theorem Static.scope {Γ Γ' : Types} {vars : Vars PTy} {ns : Nat} (h : Static Γ' vars ns) (hsub : ∀ n t, Γ n = some t → Γ' n = some t) : Static Γ vars ns :=
  ⟨h.typed, h.below, h.apart, fun n t hn => h.dom n t (hsub n t hn)⟩

theorem Static.fresh {Γ : Types} {vars : Vars PTy} {ns : Nat} (h : Static Γ vars ns) {x : Name} (hx : vars x = none) : Γ x = none := by
  cases hg : Γ x with
  | none => rfl
  | some t => obtain ⟨s, hs⟩ := h.dom x t hg; rw [hx] at hs; simp at hs

theorem set_sub {Γ : Types} {x : Name} (hx : Γ x = none) (u : Option IntTy) : ∀ n t, Γ n = some t → (Γ.set x u) n = some t := by
  intro n t hn
  unfold Types.set
  split
  · next h => subst h; rw [hx] at hn; simp at hn
  · exact hn

/-! ## Lemmas: the code of one expression -/

theorem eval_tag (table : List Site) (i : Nat) (slots : Nat → Int) : (machine table).eval (tag i) slots = runSite table i slots := by
  show runSite table (List.replicate i '0').length slots = _
  rw [List.length_replicate]

theorem run_at {table : List Site} {i : Nat} {is : List (Instr PTy Int)} {o : Opd Int} (h : table[i]? = some (is, o)) (slots : Nat → Int) :
    runSite table i slots = (run ints is ⟨[], slots, ()⟩).bind fun rs => (rs.opd o).map fun v => (rs.slots, v) := by
  unfold runSite
  rw [h]
  rfl

theorem ret_site (inl : Inline) (ret : IntTy) (Γ : Types) (cs : CS PTy) (hs : Static Γ cs.vars cs.nslot) (p : Num) (e : Expr) (he : e.toTree = p.tree) (hp : NumOk Γ p) :
    ∃ site cs', retSite inl ret e cs = some (site, cs') ∧ cs'.vars = cs.vars ∧ cs'.nslot = cs.nslot ∧ ∀ table i, table[i]? = some site → ∀ slots ρ, Dyn Γ cs.vars slots ρ →
      (machine table).eval (tag i) slots = (p.value Γ ρ).map fun z => (slots, Pipeline.wrap ret z) := by
  have hpl : Plain inl e := plain_tree inl e (by rw [he]; exact simple_num p)
  have hv : ∀ n, varsE e n → cs.vars n ≠ some none := fun n _ => hs.typed n
  obtain ⟨t, ht⟩ := Option.isSome_iff_exists.1 hp.typed
  have hst : Stat (((gExpr ints inl e).andThen ld).andThen (castTo ints (.int ret))) :=
    ((stat_gExpr (rt := ints) inl e hpl hv).bind fun _ => stat_ld _).bind fun _ => stat_castTo _ _ _
  have hty : TyS cs.vars (((gExpr ints inl e).andThen ld).andThen (castTo ints (.int ret))) (((tyE ints inl (tenvOf cs.vars) e).bind some).bind fun u => castable ints u (.int ret))
      (fun _ _ => True) :=
    TyS.bind (TyS.bind (ty_gExpr (rt := ints) inl e hpl hv) fun a b hab => ty_ld hab) fun a b hab => by rw [← hab]; exact ty_castTo (rt := ints) (.int ret) a
  have h3 := hty { cs with nreg := 0 } rfl
  have e1 : tyE ints inl (tenvOf cs.vars) e = some (.int t) := by
    unfold tyE
    rw [eval_tree, he]
    exact type_num inl Γ _ hs.types p hp.lits t ht
  rw [e1] at h3
  simp only [Option.bind_some, castable_int] at h3
  obtain ⟨o, is, cs', hg, hvars, _⟩ := h3
  have h4 := hst _ _ _ _ hg
  refine ⟨(is, o), cs', by unfold retSite site; rw [hg]; rfl, h4.1, h4.2, fun table i hi slots ρ hd => ?_⟩
  have hsm : Sim ints cs.vars slots [] (((gExpr ints inl e).andThen ld).andThen (castTo ints (.int ret)))
      (((eagerE ints inl (envOf cs.vars slots) e).andThen M.ret).andThen fun v => M.lift (castTV ints (.int ret) v)) (fun r o u => opdAt r o = some u) :=
    Sim.bind (Sim.bind (sim_gExpr (rt := ints) inl e hpl hv []) (stat_gExpr (rt := ints) inl e hpl hv) fun ext a b hd => sim_ld hd)
      ((stat_gExpr (rt := ints) inl e hpl hv).bind fun _ => stat_ld _) fun ext a b hd => sim_castTo (.int ret) hd
  have h5 := hsm { cs with nreg := 0 } rfl rfl o is cs' hg ()
  rw [M.then_ret, eager_tree, he, value_num inl Γ ρ hd.fit _ hd.env p hp.lits hp.guarded t ht] at h5
  rw [eval_tag, run_at hi]
  cases hval : p.value Γ ρ with
  | none => rw [hval] at h5; simp only [Option.map_none] at h5 ⊢; rw [show run ints is ⟨[], slots, ()⟩ = none from h5]; rfl
  | some z =>
    rw [hval] at h5
    simp only [Option.map_some, M.lift_some] at h5
    rw [castTV_int t ret z (fits_num Γ ρ hd.fit p hp.lits t ht z hval)] at h5
    obtain ⟨ext, h6, _, h7⟩ := h5
    rw [h6]
    simp only [Option.bind_some, opd_at, h7, Option.map_some]

theorem cond_site (inl : Inline) (Γ : Types) (cs : CS PTy) (hs : Static Γ cs.vars cs.nslot) (p : Cond) (e : Expr) (he : e.toTree = p.tree) (hp : CondOk Γ p) :
    ∃ site cs', condSite inl e cs = some (site, cs') ∧ cs'.vars = cs.vars ∧ cs'.nslot = cs.nslot ∧ ∀ table i, table[i]? = some site → ∀ slots ρ, Dyn Γ cs.vars slots ρ →
      (machine table).eval (tag i) slots = (p.value Γ ρ).map fun z => (slots, bit z) := by
  have hpl : Plain inl e := plain_tree inl e (by rw [he]; exact simple_cond p)
  have hv : ∀ n, varsE e n → cs.vars n ≠ some none := fun n _ => hs.typed n
  have hst : Stat (((gExpr ints inl e).andThen ld).andThen fun x => if x.1 = .bit then G.ret x.2 else G.fail) :=
    ((stat_gExpr (rt := ints) inl e hpl hv).bind fun _ => stat_ld _).bind fun _ => Stat.ite (Stat.ret _) Stat.fail
  have hty : TyS cs.vars (((gExpr ints inl e).andThen ld).andThen fun x => if x.1 = .bit then G.ret x.2 else G.fail)
      (((tyE ints inl (tenvOf cs.vars) e).bind some).bind fun u => if u = .bit then some () else none) (fun _ _ => True) :=
    TyS.bind (TyS.bind (ty_gExpr (rt := ints) inl e hpl hv) fun a b hab => ty_ld hab) fun a b hab => by
      rw [← hab]
      split
      · exact TyS.ret trivial
      · exact TyS.fail
  have h3 := hty { cs with nreg := 0 } rfl
  have e1 : tyE ints inl (tenvOf cs.vars) e = some .bit := by
    unfold tyE
    rw [eval_tree, he]
    exact type_cond inl Γ _ hs.types p hp.lits hp.typed
  rw [e1] at h3
  simp only [Option.bind_some, if_true] at h3
  obtain ⟨o, is, cs', hg, hvars, _⟩ := h3
  have h4 := hst _ _ _ _ hg
  refine ⟨(is, o), cs', by unfold condSite site; rw [hg]; rfl, h4.1, h4.2, fun table i hi slots ρ hd => ?_⟩
  have hsm : Sim ints cs.vars slots [] (((gExpr ints inl e).andThen ld).andThen fun x => if x.1 = .bit then G.ret x.2 else G.fail)
      (((eagerE ints inl (envOf cs.vars slots) e).andThen M.ret).andThen fun v => M.ret v.2) (fun r o u => opdAt r o = some u) :=
    Sim.bind (Sim.bind (sim_gExpr (rt := ints) inl e hpl hv []) (stat_gExpr (rt := ints) inl e hpl hv) fun ext a b hd => sim_ld hd)
      ((stat_gExpr (rt := ints) inl e hpl hv).bind fun _ => stat_ld _) fun ext a b hd => Sim.ite (fun _ => Sim.ret hd.2) (fun _ => Sim.fail)
  have h5 := hsm { cs with nreg := 0 } rfl rfl o is cs' hg ()
  rw [M.then_ret, eager_tree, he, value_cond inl Γ ρ hd.fit _ hd.env p hp.lits hp.guarded hp.typed] at h5
  rw [eval_tag, run_at hi]
  cases hval : p.value Γ ρ with
  | none => rw [hval] at h5; simp only [Option.map_none] at h5 ⊢; rw [show run ints is ⟨[], slots, ()⟩ = none from h5]; rfl
  | some z =>
    rw [hval] at h5
    simp only [Option.map_some, M.lift_some] at h5
    obtain ⟨ext, h6, _, h7⟩ := h5
    rw [h6]
    simp only [Option.bind_some, opd_at, h7, Option.map_some]

/-! ## Lemmas: the code of an assignment -/

theorem stat_const {α : Type} (a : α) (is : List (Instr PTy Int)) : Stat (fun cs => some (a, is, cs) : G PTy Int α) := by
  intro cs b js cs' h
  simp at h
  obtain ⟨_, _, rfl⟩ := h
  exact ⟨rfl, rfl⟩

theorem ty_const {α : Type} (vars : Vars PTy) (a : α) (is : List (Instr PTy Int)) : TyS vars (fun cs => some (a, is, cs) : G PTy Int α) (some ()) (fun _ _ => True) :=
  fun cs hv => ⟨a, is, cs, rfl, hv, trivial⟩

theorem dyn_set {Γ Γ' : Types} {vars vars' : Vars PTy} {slots slots' : Nat → Int} {ρ : Store} {x : Name} {t : IntTy} {z : Int} (h : Dyn Γ vars slots ρ)
    (he : ∀ n, ((envOf vars slots).set x (.int t, z)) n = envOf vars' slots' n) (hz : IntOps.Fits t z)
    (hg : ∀ n u, Γ' n = some u → (n = x ∧ u = t) ∨ (n ≠ x ∧ Γ n = some u)) : Dyn Γ' vars' slots' (ρ.set x z) where
  env n u hn := by
    rw [← he n]
    unfold Env.set Store.set
    rcases hg n u hn with ⟨rfl, rfl⟩ | ⟨h1, h2⟩
    · simp
    · rw [if_neg h1, if_neg h1]; exact h.env n u h2
  fit n u hn := by
    unfold Store.set
    rcases hg n u hn with ⟨rfl, rfl⟩ | ⟨h1, h2⟩
    · simpa using hz
    · rw [if_neg h1]; exact h.fit n u h2

/-- The run of an assignment. -/
theorem line_run (inl : Inline) (Γ : Types) (cs cs' : CS PTy) (hs : Static Γ cs.vars cs.nslot) (l : Line) (hl : Good inl l) (h : H PTy Int) (is : List (Instr PTy Int))
    (hg : gExpr ints inl l.expr { cs with nreg := 0 } = some (h, is, cs')) (slots : Nat → Int) (table : List Site) (i : Nat) (hi : table[i]? = some (is, .const 0)) :
    match lineM ints inl (envOf cs.vars slots) l () with
    | none => (machine table).eval (tag i) slots = none
    | some r => ∃ slots', (machine table).eval (tag i) slots = some (slots', 0) ∧ ∀ n, r.2 n = envOf cs'.vars slots' n := by
  have hm : Match (envOf cs.vars slots) { cs with nreg := 0 } (⟨[], slots, ()⟩ : RS Int Unit) := ⟨rfl, hs.typed, fun _ => rfl, hs.below, hs.apart⟩
  have h1 := line_ok (rt := ints) hm hl hg
  rw [eval_tag, run_at hi]
  cases hr : lineM ints inl (envOf cs.vars slots) l () with
  | none => rw [show lineM ints inl (envOf cs.vars slots) l (⟨[], slots, ()⟩ : RS Int Unit).w = none from hr] at h1; simp only at h1 ⊢; rw [h1]; rfl
  | some r =>
    rw [show lineM ints inl (envOf cs.vars slots) l (⟨[], slots, ()⟩ : RS Int Unit).w = some r from hr] at h1
    obtain ⟨rs', h2, _, h3⟩ := h1
    simp only
    rw [h2]
    exact ⟨rs'.slots, rfl, h3.env⟩

/-- What the code of an assignment of `value` to `x` does. -/
def LineSim (inl : Inline) (s : Expr) (Γ Γ' : Types) (cs : CS PTy) (x : Name) (names : List Name) (value : Store → Option Int) : Prop :=
  ∃ site cs', exprSite inl s cs = some (site, cs') ∧ Static Γ' cs'.vars cs'.nslot ∧ Grow cs.vars cs'.vars names ∧ ∀ table i, table[i]? = some site → ∀ slots ρ, Dyn Γ cs.vars slots ρ →
    match value ρ with
    | none => (machine table).eval (tag i) slots = none
    | some z => ∃ slots', (machine table).eval (tag i) slots = some (slots', 0) ∧ Dyn Γ' cs'.vars slots' (ρ.set x z)

theorem define_line (inl : Inline) (Γ : Types) (cs : CS PTy) (hs : Static Γ cs.vars cs.nslot) (x : Name) (hx : cs.vars x = none) (p : Num) (e : Expr) (he : e.toTree = p.tree)
    (hp : NumOk Γ p) (hb : Num.isArg p = false) :
    LineSim inl (.bin (.un none (.define x)) .assign e) Γ (Γ.set x (p.type Γ)) cs x [x] (fun ρ => p.value Γ ρ) := by
  have hpl : Plain inl e := plain_tree inl e (by rw [he]; exact simple_num p)
  have hbare := bare_num p e he hb
  obtain ⟨t, ht⟩ := Option.isSome_iff_exists.1 hp.typed
  have hnx : ¬ varsE e x := by
    intro h
    have h1 := used_num Γ p hp.typed x (by rw [← he]; exact (vars_tree e x).1 h)
    rw [hs.fresh hx] at h1
    simp at h1
  let vars1 : Vars PTy := fun k => if k = x then some none else cs.vars k
  have hok : ∀ n, varsE e n → vars1 n ≠ some none := by
    intro n hn
    have : n ≠ x := fun hh => hnx (hh ▸ hn)
    show (if n = x then some none else cs.vars n) ≠ some none
    rw [if_neg this]
    exact hs.typed n
  have htys : TypesOk Γ (tenvOf vars1) := by
    intro n u hn
    have hne : n ≠ x := by rintro rfl; rw [hs.fresh hx] at hn; simp at hn
    have := hs.types n u hn
    unfold tenvOf at this ⊢
    have h1 : vars1 n = cs.vars n := by show (if n = x then some none else cs.vars n) = _; rw [if_neg hne]
    rw [h1]
    exact this
  have h3 := ty_gExpr (rt := ints) inl e hpl hok { cs with nreg := 0, vars := vars1 } rfl
  have e1 : tyE ints inl (tenvOf vars1) e = some (.int t) := by
    unfold tyE
    rw [eval_tree, he]
    exact type_num inl Γ _ htys p hp.lits t ht
  rw [e1] at h3
  obtain ⟨y, is, c2, hg2, hv2, hty⟩ := h3
  have hst := stat_gExpr (rt := ints) inl e hpl hok _ _ _ _ hg2
  have hi := post_imm (rt := ints) e hpl hbare _ _ _ _ hg2
  cases y with
  | var _ => exact hi.elim
  | imm u o =>
    have hu : u = .int t := hty
    subst hu
    let cs' : CS PTy := { c2 with nslot := c2.nslot + 1, vars := fun k => if k = x then some (some (.int t, c2.nslot)) else c2.vars k }
    have hgen : gExpr ints inl (Line.define x e).expr { cs with nreg := 0 } = some (.var x, is ++ [.store c2.nslot o], cs') := by
      rw [Line.expr, gExpr_bin (.define x) (.define x) (gDefH x) (by rw [flatO]) (gNode_define x) .assign e (plain_arity inl e hpl)]
      have g0 : gDefH x { cs with nreg := 0 } = some ((H.var x : H PTy Int), ([] : List (Instr PTy Int)), { cs with nreg := 0, vars := vars1 }) := by
        unfold gDefH
        simp only [hx]
        rfl
      have g3 : gOp2 ints .assign (H.var x) (H.imm (PTy.int t) o) c2 = some (.var x, [.store c2.nslot o], cs') := by
        have hc : c2.vars x = some none := by rw [hv2]; show (if x = x then some none else cs.vars x) = _; rw [if_pos rfl]
        show gAssign (H.var x) (H.imm (PTy.int t) o) c2 = _
        unfold gAssign
        simp only [hc]
        rfl
      unfold G.andThen
      rw [g0]
      simp only [Option.bind_some]
      rw [hg2]
      simp only [Option.bind_some]
      rw [g3]
      simp
    have hns : c2.nslot = cs.nslot := hst.2
    have hvars : ∀ k, cs'.vars k = if k = x then some (some (.int t, cs.nslot)) else cs.vars k := by
      intro k
      show (if k = x then some (some (PTy.int t, c2.nslot)) else c2.vars k) = _
      rw [hns, hv2]
      by_cases hk : k = x
      · rw [if_pos hk, if_pos hk]
      · rw [if_neg hk, if_neg hk]; show (if k = x then some none else cs.vars k) = _; rw [if_neg hk]
    refine ⟨(is ++ [.store c2.nslot o], .const 0), cs', by unfold exprSite site; rw [show gExpr ints inl (.bin (.un none (.define x)) .assign e) { cs with nreg := 0 } = _ from hgen]; rfl, ?_, ?_, ?_⟩
    · refine ⟨?_, ?_, ?_, ?_⟩
      · intro n; rw [hvars]; split
        · simp
        · exact hs.typed n
      · intro n b hn
        show b.2 < c2.nslot + 1
        rw [hvars] at hn
        split at hn
        · simp at hn; rw [← hn, hns]; simp
        · have := hs.below n b hn; omega
      · intro n m b c h1 h2 h4
        rw [hvars] at h1 h2
        split at h1 <;> split at h2
        · next a a' => rw [a, a']
        · have := hs.below m c h2; simp at h1; rw [← h1] at h4; simp at h4; omega
        · have := hs.below n b h1; simp at h2; rw [← h2] at h4; simp at h4; omega
        · exact hs.apart n m b c h1 h2 h4
      · intro n u hn
        rw [hvars]
        unfold Types.set at hn
        split
        · next hh => rw [if_pos hh, ht] at hn; injection hn with hn; exact ⟨_, by rw [hn]⟩
        · next hh => rw [if_neg hh] at hn; exact hs.dom n u hn
    · refine ⟨fun n b hn => ?_, fun n hn hm => ?_⟩
      · rw [hvars, if_neg (by rintro rfl; rw [hx] at hn; simp at hn)]; exact hn
      · rw [hvars, if_neg (by simpa using hm)]; exact hn
    · intro table i hti slots ρ hd
      have h6 := line_run inl Γ cs cs' hs (.define x e) ⟨hpl, hbare, hnx⟩ _ _ hgen slots table i hti
      have h7 : lineM ints inl (envOf cs.vars slots) (.define x e) () = (p.value Γ ρ).map fun z => ((), (envOf cs.vars slots).set x (.int t, z)) := by
        simp only [lineM]
        rw [eager_tree, he, value_num inl Γ ρ hd.fit _ hd.env p hp.lits hp.guarded t ht]
        cases p.value Γ ρ <;> rfl
      rw [h7] at h6
      dsimp only
      cases hval : p.value Γ ρ with
      | none => rw [hval] at h6; exact h6
      | some z =>
        rw [hval] at h6
        obtain ⟨slots', h8, h9⟩ := h6
        refine ⟨slots', h8, dyn_set hd h9 (fits_num Γ ρ hd.fit p hp.lits t ht z hval) fun n u hn => ?_⟩
        unfold Types.set at hn
        split at hn
        · next hh => rw [ht] at hn; injection hn with hn; exact .inl ⟨hh, hn.symm⟩
        · next hh => exact .inr ⟨hh, hn⟩

theorem assign_line (inl : Inline) (Γ : Types) (cs : CS PTy) (hs : Static Γ cs.vars cs.nslot) (x : Name) (p : Num) (e : Expr) (he : e.toTree = p.tree)
    (hp : NumOk Γ p) (hx : Γ x = p.type Γ) : LineSim inl (.bin (.un none (.var x)) .assign e) Γ Γ cs x [] (fun ρ => p.value Γ ρ) := by
  have hpl : Plain inl e := plain_tree inl e (by rw [he]; exact simple_num p)
  obtain ⟨t, ht⟩ := Option.isSome_iff_exists.1 hp.typed
  have hxt : Γ x = some t := hx.trans ht
  obtain ⟨sl, hsl⟩ := hs.dom x t hxt
  have hok : ∀ n, varsE e n → cs.vars n ≠ some none := fun n _ => hs.typed n
  have h3 := ty_gExpr (rt := ints) inl e hpl hok { cs with nreg := 0 } rfl
  have e1 : tyE ints inl (tenvOf cs.vars) e = some (.int t) := by
    unfold tyE
    rw [eval_tree, he]
    exact type_num inl Γ _ hs.types p hp.lits t ht
  rw [e1] at h3
  obtain ⟨y, is, c2, hg2, hv2, hty⟩ := h3
  have hst := stat_gExpr (rt := ints) inl e hpl hok _ _ _ _ hg2
  let rest : G PTy Int (H PTy Int) := (ld y).andThen fun z => if z.1 = PTy.int t then fun cs => some (.var x, [.store sl z.2], cs) else G.fail
  have hrest : TyS cs.vars rest ((some (PTy.int t)).bind fun u => if u = .int t then some () else none) (fun _ _ => True) :=
    TyS.bind (ty_ld hty) fun a b hab => by
      rw [← hab]
      split
      · exact ty_const _ _ _
      · exact TyS.fail
  have srest : Stat rest := (stat_ld y).bind fun _ => Stat.ite (stat_const _ _) Stat.fail
  have h4 := hrest c2 hv2
  simp only [Option.bind_some, if_true] at h4
  obtain ⟨a, js, cs', hgr, hv3, _⟩ := h4
  have hst3 := srest _ _ _ _ hgr
  have hgen : gExpr ints inl (Line.assign x e).expr { cs with nreg := 0 } = some (a, is ++ js, cs') := by
    rw [Line.expr, gExpr_bin (.var x) (.var x) (gVarH x) (by rw [flatO]) (gNode_var x) .assign e (plain_arity inl e hpl)]
    have g0 : gVarH x { cs with nreg := 0 } = some ((H.var x : H PTy Int), ([] : List (Instr PTy Int)), { cs with nreg := 0 }) := by
      unfold gVarH
      simp only [hsl]
    have g3 : gOp2 ints .assign (H.var x) y c2 = some (a, js, cs') := by
      show gAssign (H.var x) y c2 = _
      unfold gAssign
      simp only [hv2, hsl]
      exact hgr
    unfold G.andThen
    rw [g0]
    simp only [Option.bind_some]
    rw [hg2]
    simp only [Option.bind_some]
    rw [g3]
    simp
  have hns : cs'.nslot = cs.nslot := hst3.2.trans hst.2
  refine ⟨(is ++ js, .const 0), cs', by unfold exprSite site; rw [show gExpr ints inl (.bin (.un none (.var x)) .assign e) { cs with nreg := 0 } = _ from hgen]; rfl, ?_, ?_, ?_⟩
  · rw [hv3, hns]; exact hs
  · rw [hv3]; exact Grow.refl _ _
  · intro table i hti slots ρ hd
    have h6 := line_run inl Γ cs cs' hs (.assign x e) hpl _ _ hgen slots table i hti
    have h7 : lineM ints inl (envOf cs.vars slots) (.assign x e) () = (p.value Γ ρ).map fun z => ((), (envOf cs.vars slots).set x (.int t, z)) := by
      simp only [lineM]
      rw [eager_tree, he, value_num inl Γ ρ hd.fit _ hd.env p hp.lits hp.guarded t ht]
      cases p.value Γ ρ <;> rfl
    rw [h7] at h6
    dsimp only
    cases hval : p.value Γ ρ with
    | none => rw [hval] at h6; exact h6
    | some z =>
      rw [hval] at h6
      obtain ⟨slots', h8, h9⟩ := h6
      refine ⟨slots', h8, dyn_set hd h9 (fits_num Γ ρ hd.fit p hp.lits t ht z hval) fun n u hn => ?_⟩
      by_cases hh : n = x
      · subst hh; rw [hxt] at hn; injection hn with hn; exact .inl ⟨rfl, hn.symm⟩
      · exact .inr ⟨hh, hn⟩

theorem base_assign (o : Arith) : baseOp (Arith.assignSign o) = some o.sign := by cases o <;> rfl
theorem assign_ne (o : Arith) : Arith.assignSign o ≠ .assign := by cases o <;> decide

theorem arith_some (o : Arith) (t : IntTy) : ∃ f, ints.binOp o.sign (.int t) = some (.int t, f) := by cases o <;> exact ⟨_, rfl⟩

theorem update_line (inl : Inline) (Γ : Types) (cs : CS PTy) (hs : Static Γ cs.vars cs.nslot) (o : Arith) (x : Name) (p : Num) (e : Expr) (he : e.toTree = p.tree)
    (hop : NumOk Γ (.op o (.arg x) p)) (hx : Γ x = (Num.op o (.arg x) p).type Γ) :
    LineSim inl (.bin (.un none (.var x)) (Arith.assignSign o) e) Γ Γ cs x [] (fun ρ => (Num.op o (.arg x) p).value Γ ρ) := by
  have hpl : Plain inl e := plain_tree inl e (by rw [he]; exact simple_num p)
  have hxx : ∃ t u, Γ x = some t ∧ p.type Γ = some u ∧ wider t u = t := by
    have h0 := hop.typed
    rw [Num.type, Num.type] at hx h0
    cases hg : Γ x with
    | none => rw [hg] at h0; simp at h0
    | some t =>
      cases hu : p.type Γ with
      | none => rw [hg, hu] at h0; simp at h0
      | some u => rw [hg, hu] at hx; simp at hx; exact ⟨t, u, rfl, rfl, hx.symm⟩
  obtain ⟨t, u, hxt, hu, hw⟩ := hxx
  have hlits : p.Lits := by have := hop.lits; rw [Num.Lits] at this; exact this.2
  have hguard : p.Guarded := by have := hop.guarded; rw [Num.Guarded] at this; exact this.2
  obtain ⟨sl, hsl⟩ := hs.dom x t hxt
  have hok : ∀ n, varsE e n → cs.vars n ≠ some none := fun n _ => hs.typed n
  have h3 := ty_gExpr (rt := ints) inl e hpl hok { cs with nreg := 0 } rfl
  have e1 : tyE ints inl (tenvOf cs.vars) e = some (.int u) := by
    unfold tyE
    rw [eval_tree, he]
    exact type_num inl Γ _ hs.types p hlits u hu
  rw [e1] at h3
  obtain ⟨y, is, c2, hg2, hv2, hty⟩ := h3
  have hst := stat_gExpr (rt := ints) inl e hpl hok _ _ _ _ hg2
  obtain ⟨f, hf⟩ := arith_some o t
  let rest : G PTy Int (H PTy Int) := (ld (.var x : H PTy Int)).andThen fun x' => (ld y).andThen fun y => G.get (common ints x'.1 y.1) fun c =>
    if c = PTy.int t then (castTo ints c y).andThen fun v => G.get (ints.binOp o.sign c) fun r =>
      if r.1 = PTy.int t then (G.push (.bin o.sign c x'.2 v)).andThen fun o => fun cs => some (.var x, [.store sl o], cs) else G.fail
    else G.fail
  have hrest : TyS cs.vars rest ((some (PTy.int t)).bind fun a => (some (PTy.int u)).bind fun b => (common ints a b).bind fun c =>
      if c = PTy.int t then (castable ints b c).bind fun _ => (ints.binOp o.sign c).bind fun r => if r.1 = .int t then (some ()).bind fun _ => some () else none else none) (fun _ _ => True) := by
    refine TyS.bind (ty_ld (h := .var x) (show tenvOf cs.vars x = some (.int t) by unfold tenvOf; rw [hsl])) fun a b hab => TyS.bind (ty_ld hty) fun a' b' hab' => ?_
    rw [← hab, ← hab']
    refine TyS.get fun c _ => ?_
    split
    · refine TyS.bind (ty_castTo (rt := ints) c a') fun _ _ _ => TyS.get fun r _ => ?_
      split
      · exact TyS.bind (TyS.push _) fun _ _ _ => ty_const _ _ _
      · exact TyS.fail
    · exact TyS.fail
  have srest : Stat rest := (stat_ld _).bind fun _ => (stat_ld _).bind fun _ => Stat.get fun _ => Stat.ite ((stat_castTo _ _ _).bind fun _ => Stat.get fun _ =>
    Stat.ite ((Stat.push _).bind fun _ => stat_const _ _) Stat.fail) Stat.fail
  have h4 := hrest c2 hv2
  simp only [Option.bind_some] at h4
  rw [show common ints (.int t) (.int u) = some (.int t) from by rw [← meet_eq, meet_int, hw]] at h4
  simp only [Option.bind_some, if_true, castable_int] at h4
  rw [hf] at h4
  simp only [Option.bind_some, if_true] at h4
  obtain ⟨a, js, cs', hgr, hv3, _⟩ := h4
  have hst3 := srest _ _ _ _ hgr
  have hgen : gExpr ints inl (Line.update (Arith.assignSign o) x e).expr { cs with nreg := 0 } = some (a, is ++ js, cs') := by
    rw [Line.expr, gExpr_bin (.var x) (.var x) (gVarH x) (by rw [flatO]) (gNode_var x) _ e (plain_arity inl e hpl)]
    have g0 : gVarH x { cs with nreg := 0 } = some ((H.var x : H PTy Int), ([] : List (Instr PTy Int)), { cs with nreg := 0 }) := by
      unfold gVarH
      simp only [hsl]
    have g3 : gOp2 ints (Arith.assignSign o) (H.var x) y c2 = some (a, js, cs') := by
      unfold gOp2
      rw [if_neg (assign_ne o), base_assign]
      show gUpdate ints o.sign (H.var x) y c2 = _
      unfold gUpdate
      simp only [hv2, hsl]
      exact hgr
    unfold G.andThen
    rw [g0]
    simp only [Option.bind_some]
    rw [hg2]
    simp only [Option.bind_some]
    rw [g3]
    simp
  have hns : cs'.nslot = cs.nslot := hst3.2.trans hst.2
  refine ⟨(is ++ js, .const 0), cs', by unfold exprSite site; rw [show gExpr ints inl (.bin (.un none (.var x)) (Arith.assignSign o) e) { cs with nreg := 0 } = _ from hgen]; rfl, ?_, ?_, ?_⟩
  · rw [hv3, hns]; exact hs
  · rw [hv3]; exact Grow.refl _ _
  · intro table i hti slots ρ hd
    have h6 := line_run inl Γ cs cs' hs (.update (Arith.assignSign o) x e) ⟨hpl, by rw [base_assign]; simp⟩ _ _ hgen slots table i hti
    have h7 : lineM ints inl (envOf cs.vars slots) (.update (Arith.assignSign o) x e) () =
        ((Num.op o (.arg x) p).value Γ ρ).map fun z => ((), (envOf cs.vars slots).set x (.int t, z)) := by
      simp only [lineM]
      rw [eager_tree, he, value_num inl Γ ρ hd.fit _ hd.env p hlits hguard u hu, Num.value, Num.type, Num.value, hxt, hu]
      simp only [Option.bind_some]
      cases hval : p.value Γ ρ with
      | none => rfl
      | some y =>
        simp only [Option.map_some, M.lift_some, Option.bind_some]
        rw [hd.env x t hxt, base_assign]
        simp only [Option.bind_some]
        rw [arithTV o t u (ρ x) y (hd.fit x t hxt) (fits_num Γ ρ hd.fit p hlits u hu y hval), hw]
        cases Arith.calc o t (Pipeline.wrap t (ρ x)) (Pipeline.wrap t y) <;> rfl
    rw [h7] at h6
    dsimp only
    cases hval : (Num.op o (.arg x) p).value Γ ρ with
    | none => rw [hval] at h6; exact h6
    | some z =>
      rw [hval] at h6
      obtain ⟨slots', h8, h9⟩ := h6
      refine ⟨slots', h8, dyn_set hd h9 (fits_num Γ ρ hd.fit _ hop.lits t (by rw [← hx, hxt]) z hval) fun n v hn => ?_⟩
      by_cases hh : n = x
      · subst hh; rw [hxt] at hn; injection hn with hn; exact .inl ⟨rfl, hn.symm⟩
      · exact .inr ⟨hh, hn⟩

/-! ## Lemmas: statements -/

/-- The codes are in the table from `i` on. -/
def At (table : List Site) (i : Nat) (codes : List Site) : Prop := ∀ k s, codes[k]? = some s → table[i + k]? = some s

theorem At.head {table : List Site} {i : Nat} {s : Site} {codes : List Site} (h : At table i (s :: codes)) : table[i]? = some s := by simpa using h 0 s rfl
theorem At.tail {table : List Site} {i : Nat} {s : Site} {codes : List Site} (h : At table i (s :: codes)) : At table (i + 1) codes := by
  intro k t hk
  have := h (k + 1) t (by simpa using hk)
  rw [← this]; congr 1; omega
theorem At.left {table : List Site} {i : Nat} {a b : List Site} (h : At table i (a ++ b)) : At table i a := by
  intro k t hk
  refine h k t ?_
  have hlt : k < a.length := (List.getElem?_eq_some_iff.1 hk).1
  rw [List.getElem?_append_left hlt]; exact hk
theorem At.right {table : List Site} {i : Nat} {a b : List Site} (h : At table i (a ++ b)) : At table (i + a.length) b := by
  intro k t hk
  have := h (a.length + k) t (by rw [List.getElem?_append_right (by omega)]; simpa using hk)
  rw [← this]; congr 1; omega

/-- How the ends of statements correspond. `Γ'`, `vars'` belong to the point after the statement, `Γ`, `vars` to the point before. -/
def Agree (ret : IntTy) (r : Option Int) (Γ Γ' : Types) (vars vars' : Vars PTy) : End → Out (Nat → Int) Int → Prop
  | .next ρ, .next m => Dyn Γ' vars' m.1 ρ ∧ m.2 = r
  | .brk ρ, .brk m => Dyn Γ vars m.1 ρ ∧ m.2 = r
  | .cont ρ, .cont m => Dyn Γ vars m.1 ρ ∧ m.2 = r
  | .ret z, .ret m => m.2 = some (Pipeline.wrap ret z)
  | .undefined, .trap => True
  | .more, .more => True
  | _, _ => False

theorem Agree.less {ret : IntTy} {r : Option Int} {Γ Δ Γ' Δ' : Types} {vars wars vars' wars' : Vars PTy} {E : End} {O : Out (Nat → Int) Int} (h : Agree ret r Γ Γ' vars vars' E O)
    (h1 : ∀ slots ρ, Dyn Γ vars slots ρ → Dyn Δ wars slots ρ) (h2 : ∀ slots ρ, Dyn Γ' vars' slots ρ → Dyn Δ' wars' slots ρ) : Agree ret r Δ Δ' wars wars' E O := by
  cases E <;> cases O <;> simp only [Agree] at h ⊢
  · exact ⟨h2 _ _ h.1, h.2⟩
  · exact ⟨h1 _ _ h.1, h.2⟩
  · exact ⟨h1 _ _ h.1, h.2⟩
  · exact h

def CmdSim (inl : Inline) (ret : IntTy) (c : Cmd) (s : Stmt) (Γ : Types) (cs : CS PTy) : Prop :=
  ∃ codes cs', sites inl ret s cs = some (codes, cs') ∧ Static (c.after Γ) cs'.vars cs'.nslot ∧ Grow cs.vars cs'.vars c.defs ∧ (∀ i, (mark s i).2 = i + codes.length) ∧
    ∀ table i, At table i codes → ∀ n slots r ρ, Dyn Γ cs.vars slots ρ →
      Agree ret r Γ (c.after Γ) cs.vars cs'.vars (c.exec n Γ ρ) (Gen.exec (machine table) n (mark s i).1 (slots, r))

def CmdsSim (inl : Inline) (ret : IntTy) (c : Cmds) (s : Stmts) (Γ : Types) (cs : CS PTy) : Prop :=
  ∃ codes cs', sitess inl ret s cs = some (codes, cs') ∧ Static Γ cs'.vars cs'.nslot ∧ Grow cs.vars cs'.vars c.defs ∧ (∀ i, (marks s i).2 = i + codes.length) ∧
    ∀ table i, At table i codes → ∀ n slots r ρ, Dyn Γ cs.vars slots ρ → Agree ret r Γ Γ cs.vars cs.vars (c.exec n Γ ρ) (execs (machine table) n (marks s i).1 (slots, r))

def RestSim (inl : Inline) (ret : IntTy) (c : Rest) (es : Elifs) (el : Else) (Γ : Types) (cs : CS PTy) : Prop :=
  ∃ codes cs1 codes' cs', sitesElifs inl ret es cs = some (codes, cs1) ∧ sitesElse inl ret el cs1 = some (codes', cs') ∧ Static Γ cs'.vars cs'.nslot ∧ Grow cs.vars cs'.vars c.defs ∧
    (∀ i, (markElifs es i).2 = i + codes.length) ∧ (∀ i, (markElse el i).2 = i + codes'.length) ∧
    ∀ table i, At table i (codes ++ codes') → ∀ n slots r ρ, Dyn Γ cs.vars slots ρ →
      Agree ret r Γ Γ cs.vars cs.vars (c.exec n Γ ρ) (execElifs (machine table) n (markElifs es i).1 (execElse (machine table) n (markElse el (markElifs es i).2).1) (slots, r))

theorem truth_bit (table : List Site) (b : Bool) : (machine table).truth (bit b) = b := by cases b <;> rfl

theorem line_sim {inl : Inline} {ret : IntTy} {c : Cmd} {s : Expr} {Γ : Types} {cs : CS PTy} {x : Name} {value : Store → Option Int}
    (h : LineSim inl s Γ (c.after Γ) cs x c.defs value) (he : ∀ n ρ, c.exec n Γ ρ = withValue (value ρ) fun z => .next (ρ.set x z)) : CmdSim inl ret c (.expr s) Γ cs := by
  obtain ⟨site, cs', h1, h2, h3, h4⟩ := h
  refine ⟨[site], cs', by rw [sites, h1]; rfl, h2, h3, fun i => rfl, fun table i ht n slots r ρ hd => ?_⟩
  have h5 := h4 table i ht.head slots ρ hd
  rw [he, mark, Gen.exec]
  cases hv : value ρ with
  | none => rw [hv] at h5; simp only at h5; rw [h5]; trivial
  | some z =>
    rw [hv] at h5
    obtain ⟨slots', h6, h7⟩ := h5
    rw [h6]
    exact ⟨h7, rfl⟩

theorem cond_agree {ret : IntTy} {r : Option Int} {Γ Γ' : Types} {vars vars' : Vars PTy} {table : List Site} {i : Nat} {slots : Nat → Int} {v : Option Bool} {E F : End}
    {O P : Mem (Nat → Int) Int → Out (Nat → Int) Int} (h : (machine table).eval (tag i) slots = v.map fun z => (slots, bit z))
    (h1 : Agree ret r Γ Γ' vars vars' E (O (slots, r))) (h2 : Agree ret r Γ Γ' vars vars' F (P (slots, r))) :
    Agree ret r Γ Γ' vars vars' (withValue v fun z => if z = true then E else F) (Gen.cond (machine table) (tag i) (slots, r) O P) := by
  unfold Gen.cond
  rw [h]
  cases v with
  | none => trivial
  | some z =>
    simp only [Option.map_some, withValue, truth_bit]
    cases z
    · exact h2
    · exact h1

theorem loop_agree {ret : IntTy} {r : Option Int} {Γ : Types} {vars vars' : Vars PTy} {names : List Name} {ns : Nat} {table : List Site} {i : Nat} {test : Store → Option Bool} {body : Store → End}
    {B : Mem (Nat → Int) Int → Out (Nat → Int) Int} (hs : Static Γ vars ns) (hg : Grow vars vars' names)
    (h : ∀ slots ρ, Dyn Γ vars slots ρ → (machine table).eval (tag i) slots = (test ρ).map fun z => (slots, bit z))
    (hb : ∀ slots ρ, Dyn Γ vars slots ρ → Agree ret r Γ Γ vars vars (body ρ) (B (slots, r))) :
    ∀ n slots ρ, Dyn Γ vars slots ρ → Agree ret r Γ Γ vars vars' (repeated test body n ρ) (iterate (machine table) (tag i) B n (slots, r)) := by
  intro n
  induction n with
  | zero => intro slots ρ _; trivial
  | succ n ih =>
    intro slots ρ hd
    rw [repeated, iterate]
    refine cond_agree (h slots ρ hd) ?_ ⟨hd.more hs hg, rfl⟩
    have h2 := hb slots ρ hd
    cases hE : body ρ <;> cases hO : B (slots, r) <;> rw [hE, hO] at h2 <;> simp only [Agree] at h2 ⊢
    · next m => obtain ⟨h3, h4⟩ := h2; subst h4; exact ih m.1 _ h3
    · next m => exact ⟨h2.1.more hs hg, h2.2⟩
    · next m => obtain ⟨h3, h4⟩ := h2; subst h4; exact ih m.1 _ h3
    · exact h2

/-- The names are new. -/
def FreshIn (vars : Vars PTy) (names : List Name) : Prop := ∀ x ∈ names, vars x = none

theorem FreshIn.left {vars : Vars PTy} {a b : List Name} (h : FreshIn vars (a ++ b)) : FreshIn vars a := fun x hx => h x (by simp [hx])
theorem FreshIn.right {vars vars' : Vars PTy} {a b : List Name} (h : FreshIn vars (a ++ b)) (hg : Grow vars vars' a) (hn : (a ++ b).Nodup) : FreshIn vars' b :=
  fun x hx => hg.new x (h x (by simp [hx])) fun ha => (List.nodup_append.1 hn).2.2 x ha x hx rfl

theorem after_sub {c : Cmd} {Γ : Types} {cs : CS PTy} (hs : Static Γ cs.vars cs.nslot) (hf : FreshIn cs.vars c.defs) : ∀ n t, Γ n = some t → (c.after Γ) n = some t := by
  cases c with
  | define x e => exact set_sub (hs.fresh (hf x (by simp [Cmd.defs]))) _
  | _ => exact fun n t h => h

mutual
theorem cmd_sim (inl : Inline) (ret : IntTy) (c : Cmd) (s : Stmt) (h : c.Is s) (l : Bool) (Γ : Types) (hok : c.Ok l Γ) (cs : CS PTy) (hs : Static Γ cs.vars cs.nslot)
    (hf : FreshIn cs.vars c.defs) (hn : c.defs.Nodup) : CmdSim inl ret c s Γ cs := by
  match c with
  | .define x e =>
    cases h with
    | define h1 =>
      obtain ⟨e', rfl, h2⟩ := h1
      rw [Cmd.Ok] at hok
      exact line_sim (define_line inl Γ cs hs x (hf x (by simp [Cmd.defs])) e e' h2 hok.1 hok.2.1) fun n ρ => by rw [Cmd.exec]
  | .assign x e =>
    cases h with
    | assign h1 =>
      obtain ⟨e', rfl, h2⟩ := h1
      rw [Cmd.Ok] at hok
      exact line_sim (assign_line inl Γ cs hs x e e' h2 hok.1 hok.2) fun n ρ => by rw [Cmd.exec]
  | .update o x e =>
    cases h with
    | update h1 =>
      obtain ⟨e', rfl, h2⟩ := h1
      rw [Cmd.Ok] at hok
      exact line_sim (update_line inl Γ cs hs o x e e' h2 hok.1 hok.2) fun n ρ => by rw [Cmd.exec]
  | .ret e =>
    cases h with
    | ret h1 =>
      rw [Cmd.Ok] at hok
      obtain ⟨site, cs', h2, h3, h4, h5⟩ := ret_site inl ret Γ cs hs e _ h1 hok
      refine ⟨[site], cs', by rw [sites, h2]; rfl, by rw [h3, h4]; exact hs, by rw [h3]; exact Grow.refl _ _, fun i => rfl, fun table i ht n slots r ρ hd => ?_⟩
      rw [Cmd.exec, mark, Gen.exec, h5 table i ht.head slots ρ hd]
      cases e.value Γ ρ <;> simp [withValue, Agree]
  | .brk => cases h; exact ⟨[], cs, rfl, hs, Grow.refl _ _, fun i => rfl, fun table i ht n slots r ρ hd => by rw [Cmd.exec, mark, Gen.exec]; exact ⟨hd, rfl⟩⟩
  | .cont => cases h; exact ⟨[], cs, rfl, hs, Grow.refl _ _, fun i => rfl, fun table i ht n slots r ρ hd => by rw [Cmd.exec, mark, Gen.exec]; exact ⟨hd, rfl⟩⟩
  | .loop c b =>
    cases h with
    | @loop _ _ s ss h1 h2 =>
      rw [Cmd.Ok] at hok
      obtain ⟨site, cs1, g1, g2, g3, g4⟩ := cond_site inl Γ cs hs c _ h1 hok.1
      rw [Cmd.defs] at hf hn
      obtain ⟨codes, cs', k1, k2, k3, k4, k5⟩ := cmds_sim inl ret b ss h2 true Γ hok.2 cs1 (by rw [g2, g3]; exact hs) (by rw [g2]; exact hf) hn
      rw [g2] at k3 k5
      refine ⟨site :: codes, cs', by rw [sites, g1]; simp only [Option.bind_some]; rw [k1]; rfl, k2, k3, fun i => ?_, fun table i ht n slots r ρ hd => ?_⟩
      · rw [mark, k4]; simp; omega
      · rw [Cmd.exec, mark, Gen.exec]
        exact loop_agree hs k3 (fun slots ρ hd => g4 table i ht.head slots ρ hd) (fun slots ρ hd => k5 table (i + 1) ht.tail n slots r ρ hd) n slots ρ hd
  | .branch c b rest =>
    cases h with
    | @branch _ _ _ s ss es el h1 h2 h3 =>
      rw [Cmd.Ok] at hok
      obtain ⟨site, cs1, g1, g2, g3, g4⟩ := cond_site inl Γ cs hs c _ h1 hok.1
      rw [Cmd.defs] at hf hn
      obtain ⟨codes, cs2, k1, k2, k3, k4, k5⟩ := cmds_sim inl ret b ss h2 l Γ hok.2.1 cs1 (by rw [g2, g3]; exact hs) (by rw [g2]; exact hf.left) (List.nodup_append.1 hn).1
      rw [g2] at k3 k5
      obtain ⟨codes', cs3, codes'', cs', m1, m2, m3, m4, m5, m6, m7⟩ := rest_sim inl ret rest es el h3 l Γ hok.2.2 cs2 k2 (hf.right k3 hn) (List.nodup_append.1 hn).2.1
      refine ⟨site :: (codes ++ (codes' ++ codes'')), cs', ?_, m3, k3.trans m4, fun i => ?_, fun table i ht n slots r ρ hd => ?_⟩
      · rw [sites, g1]; simp only [Option.bind_some]; rw [k1]; simp only [Option.bind_some]; rw [m1]; simp only [Option.bind_some]; rw [m2]; rfl
      · rw [mark, m6, m5, k4]; simp; omega
      · rw [Cmd.exec, mark, Gen.exec]
        refine cond_agree (g4 table i ht.head slots ρ hd) ((k5 table (i + 1) ht.tail.left n slots r ρ hd).less (fun _ _ h => h) fun _ _ h => h.more hs (k3.trans m4)) ?_
        have h5 := m7 table (i + 1 + codes.length) ht.tail.right n slots r ρ (hd.more hs k3)
        rw [k4]
        exact h5.less (fun _ _ h => h.less hs k3 fun _ _ h => h) fun _ _ h => (h.less hs k3 fun _ _ h => h).more hs (k3.trans m4)
theorem cmds_sim (inl : Inline) (ret : IntTy) (c : Cmds) (s : Stmts) (h : c.Is s) (l : Bool) (Γ : Types) (hok : c.Ok l Γ) (cs : CS PTy) (hs : Static Γ cs.vars cs.nslot)
    (hf : FreshIn cs.vars c.defs) (hn : c.defs.Nodup) : CmdsSim inl ret c s Γ cs := by
  match c with
  | .nil => cases h; exact ⟨[], cs, rfl, hs, Grow.refl _ _, fun i => rfl, fun table i ht n slots r ρ hd => by rw [Cmds.exec, marks, execs]; exact ⟨hd, rfl⟩⟩
  | .cons c cs0 =>
    cases h with
    | @cons _ _ s ss h1 h2 =>
      rw [Cmds.Ok] at hok
      rw [Cmds.defs] at hf hn
      obtain ⟨codes, cs1, k1, k2, k3, k4, k5⟩ := cmd_sim inl ret c s h1 l Γ hok.1 cs hs hf.left (List.nodup_append.1 hn).1
      obtain ⟨codes', cs', m1, m2, m3, m4, m5⟩ := cmds_sim inl ret cs0 ss h2 l (c.after Γ) hok.2 cs1 k2 (hf.right k3 hn) (List.nodup_append.1 hn).2.1
      have hsub := after_sub hs hf.left
      have hless : ∀ slots ρ, Dyn (c.after Γ) cs1.vars slots ρ → Dyn Γ cs.vars slots ρ := fun slots ρ h => h.less hs k3 hsub
      refine ⟨codes ++ codes', cs', by rw [sitess, k1]; simp only [Option.bind_some]; rw [m1]; rfl, m2.scope hsub, k3.trans m3, fun i => ?_, fun table i ht n slots r ρ hd => ?_⟩
      · rw [marks, m4, k4]; simp; omega
      · rw [Cmds.exec, marks, execs]
        have h5 := k5 table i ht.left n slots r ρ hd
        cases hE : c.exec n Γ ρ <;> cases hO : Gen.exec (machine table) n (mark s i).1 (slots, r) <;> rw [hE, hO] at h5 <;> simp only [Agree] at h5
        · next ρ' m =>
          obtain ⟨h6, h7⟩ := h5
          have h8 := m5 table (i + codes.length) ht.right n m.1 r ρ' h6
          rw [← h7] at h8
          rw [k4]
          rw [← h7]
          exact h8.less hless hless
        · exact h5
        · exact h5
        · exact h5
        · trivial
        · trivial
theorem rest_sim (inl : Inline) (ret : IntTy) (c : Rest) (es : Elifs) (el : Else) (h : c.Is es el) (l : Bool) (Γ : Types) (hok : c.Ok l Γ) (cs : CS PTy) (hs : Static Γ cs.vars cs.nslot)
    (hf : FreshIn cs.vars c.defs) (hn : c.defs.Nodup) : RestSim inl ret c es el Γ cs := by
  match c with
  | .none =>
    cases h
    exact ⟨[], cs, [], cs, rfl, rfl, hs, Grow.refl _ _, fun i => rfl, fun i => rfl, fun table i ht n slots r ρ hd => by
      rw [Rest.exec, markElifs, execElifs, markElse, execElse]; exact ⟨hd, rfl⟩⟩
  | .els b =>
    cases h with
    | @els _ ss h1 =>
      rw [Rest.Ok] at hok
      rw [Rest.defs] at hf hn
      obtain ⟨codes, cs', k1, k2, k3, k4, k5⟩ := cmds_sim inl ret b ss h1 l Γ hok cs hs hf hn
      refine ⟨[], cs, codes, cs', rfl, k1, k2, k3, fun i => rfl, fun i => k4 i, fun table i ht n slots r ρ hd => ?_⟩
      rw [Rest.exec, markElifs, execElifs, markElse, execElse]
      exact k5 table i ht n slots r ρ hd
  | .elif c b rest =>
    cases h with
    | @elif _ _ _ s ss es _ h1 h2 h3 =>
      rw [Rest.Ok] at hok
      obtain ⟨site, cs1, g1, g2, g3, g4⟩ := cond_site inl Γ cs hs c _ h1 hok.1
      rw [Rest.defs] at hf hn
      obtain ⟨codes, cs2, k1, k2, k3, k4, k5⟩ := cmds_sim inl ret b ss h2 l Γ hok.2.1 cs1 (by rw [g2, g3]; exact hs) (by rw [g2]; exact hf.left) (List.nodup_append.1 hn).1
      rw [g2] at k3 k5
      obtain ⟨codes', cs3, codes'', cs', m1, m2, m3, m4, m5, m6, m7⟩ := rest_sim inl ret rest es el h3 l Γ hok.2.2 cs2 k2 (hf.right k3 hn) (List.nodup_append.1 hn).2.1
      refine ⟨site :: (codes ++ codes'), cs3, codes'', cs', ?_, m2, m3, k3.trans m4, fun i => ?_, m6, fun table i ht n slots r ρ hd => ?_⟩
      · rw [sitesElifs, g1]; simp only [Option.bind_some]; rw [k1]; simp only [Option.bind_some]; rw [m1]; rfl
      · rw [markElifs, m5, k4]; simp; omega
      · rw [Rest.exec, markElifs, execElifs]
        rw [List.cons_append, List.append_assoc] at ht
        refine cond_agree (g4 table i ht.head slots ρ hd) (k5 table (i + 1) ht.tail.left n slots r ρ hd) ?_
        have h5 := m7 table (i + 1 + codes.length) ht.tail.right n slots r ρ (hd.more hs k3)
        rw [k4]
        exact h5.less (fun _ _ h => h.less hs k3 fun _ _ h => h) fun _ _ h => h.less hs k3 fun _ _ h => h
end

/-! ## Lemmas: the whole function -/

/-- The statements end neither by `break` nor by `continue`. -/
def End.Inside : End → Prop
  | .brk _ => False
  | .cont _ => False
  | _ => True

theorem inside_repeated (test : Store → Option Bool) (body : Store → End) : ∀ n ρ, (repeated test body n ρ).Inside := by
  intro n
  induction n with
  | zero => intro ρ; trivial
  | succ n ih =>
    intro ρ
    rw [repeated]
    cases test ρ with
    | none => trivial
    | some b => cases b with
      | false => trivial
      | true =>
        simp only [withValue, if_true]
        split
        · exact ih _
        · exact ih _
        all_goals trivial

mutual
theorem inside_cmd (c : Cmd) (n : Nat) (Γ : Types) (ρ : Store) (h : c.Ok false Γ) : (c.exec n Γ ρ).Inside := by
  match c with
  | .define x e => rw [Cmd.exec]; cases e.value Γ ρ <;> trivial
  | .assign x e => rw [Cmd.exec]; cases e.value Γ ρ <;> trivial
  | .update o x e => rw [Cmd.exec]; cases (Num.op o (.arg x) e).value Γ ρ <;> trivial
  | .ret e => rw [Cmd.exec]; cases e.value Γ ρ <;> trivial
  | .brk => rw [Cmd.Ok] at h; cases h
  | .cont => rw [Cmd.Ok] at h; cases h
  | .loop c b => rw [Cmd.exec]; exact inside_repeated _ _ _ _
  | .branch c b rest =>
    rw [Cmd.Ok] at h
    rw [Cmd.exec]
    cases c.value Γ ρ with
    | none => trivial
    | some z => cases z
                · exact inside_rest rest n Γ ρ h.2.2
                · exact inside_cmds b n Γ ρ h.2.1
theorem inside_cmds (c : Cmds) (n : Nat) (Γ : Types) (ρ : Store) (h : c.Ok false Γ) : (c.exec n Γ ρ).Inside := by
  match c with
  | .nil => rw [Cmds.exec]; trivial
  | .cons c cs =>
    rw [Cmds.Ok] at h
    rw [Cmds.exec]
    have h1 := inside_cmd c n Γ ρ h.1
    cases hE : c.exec n Γ ρ <;> rw [hE] at h1 <;> simp only [End.andThen]
    · exact inside_cmds cs n _ _ h.2
    all_goals exact h1
theorem inside_rest (c : Rest) (n : Nat) (Γ : Types) (ρ : Store) (h : c.Ok false Γ) : (c.exec n Γ ρ).Inside := by
  match c with
  | .none => rw [Rest.exec]; trivial
  | .els b => rw [Rest.Ok] at h; rw [Rest.exec]; exact inside_cmds b n Γ ρ h
  | .elif c b rest =>
    rw [Rest.Ok] at h
    rw [Rest.exec]
    cases c.value Γ ρ with
    | none => trivial
    | some z => cases z
                · exact inside_rest rest n Γ ρ h.2.2
                · exact inside_cmds b n Γ ρ h.2.1
end

mutual
theorem ends_cmd (c : Cmd) (n : Nat) (Γ : Types) (ρ ρ' : Store) (h : c.ends = true) : c.exec n Γ ρ ≠ .next ρ' := by
  match c with
  | .define x e => cases h
  | .assign x e => cases h
  | .update o x e => cases h
  | .ret e => rw [Cmd.exec]; cases e.value Γ ρ <;> simp [withValue]
  | .brk => rw [Cmd.exec]; simp
  | .cont => rw [Cmd.exec]; simp
  | .loop c b => cases h
  | .branch c b rest =>
    rw [Cmd.ends, Bool.and_eq_true] at h
    rw [Cmd.exec]
    cases c.value Γ ρ with
    | none => simp [withValue]
    | some z => cases z
                · exact ends_rest rest n Γ ρ ρ' h.2
                · exact ends_cmds b n Γ ρ ρ' h.1
theorem ends_cmds (c : Cmds) (n : Nat) (Γ : Types) (ρ ρ' : Store) (h : c.ends = true) : c.exec n Γ ρ ≠ .next ρ' := by
  match c with
  | .nil => cases h
  | .cons c .nil =>
    rw [Cmds.ends] at h
    rw [Cmds.exec]
    have h1 := fun ρ' => ends_cmd c n Γ ρ ρ' h
    cases hE : c.exec n Γ ρ <;> rw [hE] at h1 <;> simp only [End.andThen] <;> simp
    exact absurd rfl (h1 _)
  | .cons c (.cons d ds) =>
    rw [Cmds.ends] at h
    rw [Cmds.exec]
    cases hE : c.exec n Γ ρ <;> simp only [End.andThen]
    · exact ends_cmds (.cons d ds) n _ _ _ h
    all_goals simp
theorem ends_rest (c : Rest) (n : Nat) (Γ : Types) (ρ ρ' : Store) (h : c.ends = true) : c.exec n Γ ρ ≠ .next ρ' := by
  match c with
  | .none => cases h
  | .els b => rw [Rest.ends] at h; rw [Rest.exec]; exact ends_cmds b n Γ ρ ρ' h
  | .elif c b rest =>
    rw [Rest.ends, Bool.and_eq_true] at h
    rw [Rest.exec]
    cases c.value Γ ρ with
    | none => simp [withValue]
    | some z => cases z
                · exact ends_rest rest n Γ ρ ρ' h.2
                · exact ends_cmds b n Γ ρ ρ' h.1
end

theorem params_types (ps : List (Name × IntTy)) : paramTypes (ps.map fun q => (suffixText q.2, q.1)) = some (params ps) := by
  induction ps with
  | nil => rfl
  | cons q ps ih =>
    simp only [List.map_cons]
    rw [paramTypes]
    simp only [lookup_suffix, Option.bind_some, ih, Option.map_some]
    rfl

theorem param_slot (x : Name) (ps : List (Name × PTy)) : ∀ k b, paramVars k ps x = some (some b) → k ≤ b.2 ∧ b.2 < k + ps.length ∧ (ps[b.2 - k]?).map (·.1) = some x := by
  induction ps with
  | nil => intro k b h; simp [paramVars] at h
  | cons q ps ih =>
    intro k b h
    obtain ⟨y, t⟩ := q
    rw [paramVars] at h
    cases hp : paramVars (k + 1) ps x with
    | some c =>
      rw [hp] at h
      simp only [Option.some.injEq] at h
      subst h
      obtain ⟨h1, h2, h3⟩ := ih _ _ hp
      refine ⟨by omega, by simp only [List.length_cons]; omega, ?_⟩
      rw [show b.2 - k = (b.2 - (k + 1)) + 1 by omega, List.getElem?_cons_succ]
      exact h3
    | none =>
      rw [hp] at h
      simp only at h
      split at h
      · next e => simp only [Option.some.injEq] at h; subst h; subst e; simp
      · simp at h

theorem params_static (ps : List (Name × IntTy)) (hn : (ps.map (·.1)).Nodup) : Static (argType ps) (paramVars 0 (params ps)) (params ps).length where
  typed n := paramVars_typed _ _ _
  below n b h := by have := (param_slot n _ 0 b h).2.1; omega
  apart n m b c h1 h2 h := by
    have h3 := (param_slot n _ 0 b h1).2.2
    have h4 := (param_slot m _ 0 c h2).2.2
    rw [h, h4] at h3
    simpa using h3.symm
  dom n t h := by
    have h1 := tenv_params n ps hn
    rw [h] at h1
    unfold tenvOf at h1
    cases hp : paramVars 0 (params ps) n with
    | none => rw [hp] at h1; simp at h1
    | some b =>
      cases b with
      | none => exact absurd hp (paramVars_typed _ _ _)
      | some b => rw [hp] at h1; simp only [Option.map_some, Option.some.injEq] at h1; exact ⟨b.2, by rw [← h1]⟩

/-! ## The theorems -/

/-- **C136.** A call returns at most one value, and a call that returns is not undefined. -/
theorem call_deterministic (c : FnCode) (junk : Nat → Int) (args : List Int) (v : Int) (h : Returns c junk args v) : (∀ w, Returns c junk args w → w = v) ∧ ¬Undefined c junk args := by
  obtain ⟨slots, k, hk⟩ := h
  have key : ∀ k' r, steps (machine c.table) c.blocks.blk k' (start fun i => args.getD i (junk i)) = r → (∀ q, r ≠ .run q) → Res.halt (slots, some v) = r :=
    fun k' r h hr => steps_det (machine c.table) c.blocks.blk hk (by simp) h hr
  refine ⟨?_, ?_⟩
  · rintro w ⟨slots', k', h'⟩
    have := key k' _ h' (by simp)
    simp only [Res.halt.injEq, Prod.mk.injEq, Option.some.injEq] at this
    exact this.2.symm
  · rintro (⟨k', h'⟩ | ⟨k', h'⟩ | ⟨slots', k', h'⟩)
    · have := key k' _ h' (by simp); cases this
    · have := key k' _ h' (by simp); cases this
    · have := key k' _ h' (by simp)
      simp at this

/-! ## Lemmas: validation -/

/-- What validation knows: the variables in scope with their types; variables that become known are among the names. -/
structure VGrow (tenv tenv' : Name → Option PTy) (names : List Name) : Prop where
  keep : ∀ n t, tenv n = some t → tenv' n = some t
  new : ∀ n, tenv n = none → n ∉ names → tenv' n = none

theorem VGrow.refl (tenv : Name → Option PTy) (names : List Name) : VGrow tenv tenv names := ⟨fun _ _ h => h, fun _ h _ => h⟩

theorem VGrow.trans {a b c : Name → Option PTy} {ns ms : List Name} (h : VGrow a b ns) (k : VGrow b c ms) : VGrow a c (ns ++ ms) where
  keep n x hn := k.keep n x (h.keep n x hn)
  new n hn hm := by
    simp only [List.mem_append, not_or] at hm
    exact k.new n (h.new n hn hm.1) hm.2

theorem VGrow.types {Γ : Types} {tenv tenv' : Name → Option PTy} {names : List Name} (h : TypesOk Γ tenv) (hg : VGrow tenv tenv' names) : TypesOk Γ tenv' := fun x t hx => hg.keep x _ (h x t hx)

theorem VGrow.fresh {tenv tenv' : Name → Option PTy} {a b : List Name} (hg : VGrow tenv tenv' a) (h : ∀ x ∈ a ++ b, tenv x = none) (hn : (a ++ b).Nodup) : ∀ x ∈ b, tenv' x = none :=
  fun x hx => hg.new x (h x (by simp [hx])) fun ha => (List.nodup_append.1 hn).2.2 x ha x hx rfl

/-- Validation accepts, knowing the variables afterwards. -/
def Passes (r : Option (Name → Option PTy)) (tenv : Name → Option PTy) (Γ : Types) (names : List Name) : Prop := ∃ tenv', r = some tenv' ∧ TypesOk Γ tenv' ∧ VGrow tenv tenv' names

theorem vcond_ok (inl : Inline) (Γ : Types) (tenv : Name → Option PTy) (ht : TypesOk Γ tenv) (p : Cond) (e : Expr) (he : e.toTree = p.tree) (hp : CondOk Γ p) : vCond vSem inl tenv e = some tenv := by
  have h := pred_cond inl Γ tenv ht p hp.lits hp.level
  rw [hp.typed] at h
  unfold vCond
  rw [eval_tree, he, show treeV inl (vSem tenv) p.tree = some .bit from h]
  rfl

theorem vnum_ok (inl : Inline) (Γ : Types) (tenv : Name → Option PTy) (ht : TypesOk Γ tenv) (p : Num) (e : Expr) (he : e.toTree = p.tree) (hl : p.Lits) (hv : p.Level Γ) (t : IntTy)
    (hty : p.type Γ = some t) : ∃ u, evalE inl (vSem tenv) e = some (.int u) ∧ (p.Even Γ → u = t) := by
  have h := pred_num inl Γ tenv ht p hl hv
  rw [hty] at h
  rw [eval_tree, he]
  exact h

theorem vcast_int (a b : IntTy) : vCast (.int a) (.int b) = true := by simp [vCast, normT]

theorem vbin_update (o : Arith) (s t : IntTy) : ∃ u, (match baseOp (Arith.assignSign o) with
      | some o => vBin o (.int s) (.int t)
      | none => vBin (Arith.assignSign o) (.int s) (.int t)) = some u := by cases o <;> exact ⟨_, rfl⟩

mutual
theorem vcmd_ok (inl : Inline) (ret : IntTy) (c : Cmd) (s : Stmt) (h : c.Is s) (l : Bool) (Γ : Types) (hok : c.Ok l Γ) (tenv : Name → Option PTy) (ht : TypesOk Γ tenv)
    (hf : ∀ x ∈ c.defs, tenv x = none) (hn : c.defs.Nodup) : Passes (vStmt vSem inl (.int ret) l s tenv) tenv (c.after Γ) c.defs := by
  match c, s, h with
  | .define x e, .expr s, .define he =>
    obtain ⟨e', rfl, he'⟩ := he
    rw [Cmd.Ok] at hok
    obtain ⟨t, hty⟩ := Option.isSome_iff_exists.1 hok.1.typed
    obtain ⟨u, h1, h2⟩ := vnum_ok inl Γ tenv ht e e' he' hok.1.lits hok.1.level t hty
    have hx : tenv x = none := hf x (by rw [Cmd.defs]; simp)
    refine ⟨fun n => if n = x then some (.int u) else tenv n, ?_, ?_, ?_⟩
    · rw [vStmt, vExpr, vDefine, hx, h1]; rfl
    · rw [h2 hok.2.2, Cmd.after, hty]
      intro n s hs
      unfold Types.set at hs
      show (if n = x then _ else _) = _
      by_cases hnx : n = x
      · rw [if_pos hnx] at hs ⊢; rw [Option.some.inj hs]
      · rw [if_neg hnx] at hs ⊢; exact ht n s hs
    · rw [Cmd.defs]
      refine ⟨fun n t hk => ?_, fun n hk hm => ?_⟩
      · by_cases hnx : n = x
        · subst hnx; rw [hx] at hk; simp at hk
        · simp only [if_neg hnx]; exact hk
      · have hnx : n ≠ x := by simpa using hm
        simp only [if_neg hnx]; exact hk
  | .assign x e, .expr s, .assign he =>
    obtain ⟨e', rfl, he'⟩ := he
    rw [Cmd.Ok] at hok
    obtain ⟨t, hty⟩ := Option.isSome_iff_exists.1 hok.1.typed
    obtain ⟨u, h1, h2⟩ := vnum_ok inl Γ tenv ht e e' he' hok.1.lits hok.1.level t hty
    refine ⟨tenv, ?_, ?_, VGrow.refl _ _⟩
    · rw [vStmt, vExpr]
      · unfold vAssign
        rw [ht x t (hok.2.trans hty), h1]
        simp only [Option.bind_some, if_true, vcast_int]
    · rw [Cmd.after]; exact ht
  | .update o x e, .expr s, .update he =>
    obtain ⟨e', rfl, he'⟩ := he
    rw [Cmd.Ok] at hok
    obtain ⟨w, hw⟩ := Option.isSome_iff_exists.1 hok.1.typed
    have hlv := hok.1.level
    have hli := hok.1.lits
    rw [Num.Level] at hlv
    rw [Num.Lits] at hli
    rw [hw] at hok
    have hx := hok.2
    rw [Num.type, Num.type, hx, Option.bind_some] at hw
    cases hty : e.type Γ with
    | none => rw [hty] at hw; simp at hw
    | some t =>
      obtain ⟨u, h1, _⟩ := vnum_ok inl Γ tenv ht e e' he' hli.2 hlv.2 t hty
      refine ⟨tenv, ?_, ?_, VGrow.refl _ _⟩
      · rw [vStmt]
        have : vExpr vSem inl tenv (.bin (.un none (.var x)) (Arith.assignSign o) e') = vAssign vSem inl tenv x (Arith.assignSign o) e' := by cases o <;> rfl
        rw [this]
        unfold vAssign
        rw [ht x w hx, h1]
        simp only [Option.bind_some, if_neg (assign_ne o)]
        cases o <;> rfl
      · rw [Cmd.after]; exact ht
  | .ret e, .retVal s, .ret he =>
    rw [Cmd.Ok] at hok
    obtain ⟨t, hty⟩ := Option.isSome_iff_exists.1 hok.typed
    obtain ⟨u, h1, _⟩ := vnum_ok inl Γ tenv ht e s he hok.lits hok.level t hty
    refine ⟨tenv, ?_, by rw [Cmd.after]; exact ht, VGrow.refl _ _⟩
    rw [vStmt, h1]
    simp only [Option.bind_some, vcast_int, if_true]
  | .brk, .brk, .brk =>
    rw [Cmd.Ok] at hok
    exact ⟨tenv, by rw [vStmt, if_pos hok], by rw [Cmd.after]; exact ht, VGrow.refl _ _⟩
  | .cont, .cont, .cont =>
    rw [Cmd.Ok] at hok
    exact ⟨tenv, by rw [vStmt, if_pos hok], by rw [Cmd.after]; exact ht, VGrow.refl _ _⟩
  | .loop c b, .whileLoop s ss, .loop hc hb =>
    rw [Cmd.Ok] at hok
    rw [Cmd.defs] at hf hn ⊢
    obtain ⟨v, h1, h2, h3⟩ := vcmds_ok inl ret b ss hb true Γ hok.2 tenv ht hf hn
    exact ⟨v, by rw [vStmt, vcond_ok inl Γ tenv ht c s hc hok.1, Option.bind_some, h1], by rw [Cmd.after]; exact h2, h3⟩
  | .branch c b rest, .ifElse s ss es el, .branch hc hb hr =>
    rw [Cmd.Ok] at hok
    rw [Cmd.defs] at hf hn ⊢
    obtain ⟨v, h1, h2, h3⟩ := vcmds_ok inl ret b ss hb l Γ hok.2.1 tenv ht (fun x hx => hf x (by simp [hx])) (List.nodup_append.1 hn).1
    obtain ⟨w, h4, h5, h6⟩ := vrest_ok inl ret rest es el hr l Γ hok.2.2 v h2 (h3.fresh hf hn) (List.nodup_append.1 hn).2.1
    exact ⟨w, by rw [vStmt, vcond_ok inl Γ tenv ht c s hc hok.1, Option.bind_some, h1, Option.bind_some, h4], by rw [Cmd.after]; exact h5, h3.trans h6⟩
theorem vcmds_ok (inl : Inline) (ret : IntTy) (c : Cmds) (s : Stmts) (h : c.Is s) (l : Bool) (Γ : Types) (hok : c.Ok l Γ) (tenv : Name → Option PTy) (ht : TypesOk Γ tenv)
    (hf : ∀ x ∈ c.defs, tenv x = none) (hn : c.defs.Nodup) : Passes (vStmts vSem inl (.int ret) l s tenv) tenv Γ c.defs := by
  match c, s, h with
  | .nil, .nil, .nil => exact ⟨tenv, by rw [vStmts], ht, VGrow.refl _ _⟩
  | .cons c cs, .cons s ss, .cons h1 h2 =>
    rw [Cmds.Ok] at hok
    rw [Cmds.defs] at hf hn ⊢
    obtain ⟨v, k1, k2, k3⟩ := vcmd_ok inl ret c s h1 l Γ hok.1 tenv ht (fun x hx => hf x (by simp [hx])) (List.nodup_append.1 hn).1
    obtain ⟨w, k4, k5, k6⟩ := vcmds_ok inl ret cs ss h2 l _ hok.2 v k2 (k3.fresh hf hn) (List.nodup_append.1 hn).2.1
    exact ⟨w, by rw [vStmts, k1, Option.bind_some, k4], VGrow.types ht (k3.trans k6), k3.trans k6⟩
theorem vrest_ok (inl : Inline) (ret : IntTy) (c : Rest) (es : Elifs) (el : Else) (h : c.Is es el) (l : Bool) (Γ : Types) (hok : c.Ok l Γ) (tenv : Name → Option PTy) (ht : TypesOk Γ tenv)
    (hf : ∀ x ∈ c.defs, tenv x = none) (hn : c.defs.Nodup) : Passes ((vElifs vSem inl (.int ret) l es tenv).bind fun v => vElse vSem inl (.int ret) l el v) tenv Γ c.defs := by
  match c, es, el, h with
  | .none, .nil, .none, .none => exact ⟨tenv, by rw [vElifs, Option.bind_some, vElse], ht, VGrow.refl _ _⟩
  | .els b, .nil, .some ss, .els hb =>
    rw [Rest.Ok] at hok
    rw [Rest.defs] at hf hn ⊢
    obtain ⟨v, h1, h2, h3⟩ := vcmds_ok inl ret b ss hb l Γ hok tenv ht hf hn
    exact ⟨v, by rw [vElifs, Option.bind_some, vElse, h1], h2, h3⟩
  | .elif c b rest, .cons s ss es, el, .elif hc hb hr =>
    rw [Rest.Ok] at hok
    rw [Rest.defs] at hf hn ⊢
    obtain ⟨v, h1, h2, h3⟩ := vcmds_ok inl ret b ss hb l Γ hok.2.1 tenv ht (fun x hx => hf x (by simp [hx])) (List.nodup_append.1 hn).1
    obtain ⟨w, h4, h5, h6⟩ := vrest_ok inl ret rest es el hr l Γ hok.2.2 v h2 (h3.fresh hf hn) (List.nodup_append.1 hn).2.1
    exact ⟨w, by rw [vElifs, vcond_ok inl Γ tenv ht c s hc hok.1, Option.bind_some, h1, Option.bind_some, h4], h5, h3.trans h6⟩
end

theorem vparams_ok (ps : List (Name × PTy)) : ∀ v : Name → Option PTy, (ps.map (·.1)).Nodup → (∀ q ∈ ps, v q.1 = none) →
    ∃ w, vParams ps v = some w ∧ (∀ q ∈ ps, w q.1 = some q.2) ∧ ∀ n, n ∉ ps.map (·.1) → w n = v n := by
  induction ps with
  | nil => intro v _ _; exact ⟨v, rfl, by simp, by simp⟩
  | cons q ps ih =>
    intro v hn hv
    rw [List.map_cons, List.nodup_cons] at hn
    obtain ⟨w, h1, h2, h3⟩ := ih (fun n => if n = q.1 then some q.2 else v n) hn.2 fun p hp => by
      have : p.1 ≠ q.1 := fun h => hn.1 (by rw [← h]; exact List.mem_map_of_mem hp)
      simp only [if_neg this]
      exact hv p (by simp [hp])
    refine ⟨w, by rw [vParams, hv q (by simp)]; exact h1, fun p hp => ?_, fun n hm => ?_⟩
    · rcases List.mem_cons.1 hp with rfl | hp
      · rw [h3 _ hn.1, if_pos rfl]
      · exact h2 p hp
    · simp only [List.map_cons, List.mem_cons, not_or] at hm
      rw [h3 n hm.2, if_neg hm.1]

theorem lookup_mem {β : Type} (x : Name) (b : β) : ∀ (l : List (Name × β)), l.lookup x = some b → (x, b) ∈ l
  | [], h => by simp at h
  | q :: l, h => by
    rw [List.lookup_cons] at h
    split at h
    · next hq => rw [eq_of_beq hq, ← Option.some.inj h]; exact List.mem_cons_self
    · exact List.mem_cons_of_mem _ (lookup_mem x b l h)

/-- Validation accepts the function. -/
theorem valid_function (inl : Inline) (ret : IntTy) (ps : List (Name × IntTy)) (body : Cmds) (ss : Stmts) (his : body.Is ss) (hok : body.Ok false (argType ps))
    (hn : (ps.map (·.1) ++ body.defs).Nodup) : ∃ v, ((vParams (params ps) fun _ => none).bind fun v => vStmts vSem inl (.int ret) false ss v) = some v := by
  have hnp := (List.nodup_append.1 hn).1
  have hp1 : (params ps).map (·.1) = ps.map (·.1) := by simp [params]
  obtain ⟨w, h1, h2, h3⟩ := vparams_ok (params ps) (fun _ => none) (by rw [hp1]; exact hnp) (fun _ _ => rfl)
  have ht : TypesOk (argType ps) w := by
    intro x t hx
    unfold argType at hx
    exact h2 (x, .int t) (by
      simp only [params, List.mem_map]
      exact ⟨(x, t), lookup_mem _ _ _ hx, rfl⟩)
  obtain ⟨v, h4, _⟩ := vcmds_ok inl ret body ss his false (argType ps) hok w ht
    (fun x hx => h3 x fun hm => (List.nodup_append.1 hn).2.2 x (by rw [hp1] at hm; exact hm) x hx rfl) (List.nodup_append.1 hn).2.1
  exact ⟨v, by rw [h1, Option.bind_some, h4]⟩

/-- **C136.** A text that is read as a function of integers, with distinct names of arguments and variables, well typed, and in which control is structured as C36 requires, is compiled; and
for all arguments the code returns exactly what the statements return, converted to the declared type; is undefined exactly if the statements reach an undefined operation or the end of the
body; and runs forever exactly if the statements do not end within any number of iterations. -/
theorem function_computes (cfg : Cfg) (inl : Inline) (src : List Char) (ret : IntTy) (ps : List (Name × IntTy)) (body : Cmds) (hsrc : ReadsFn cfg src ret ps body)
    (hok : body.Ok false (argType ps)) (hc : body.Clean) (hn : (ps.map (·.1) ++ body.defs).Nodup) :
    ∃ code, compileFn cfg inl src = some code ∧ ∀ args junk, Passed ps args →
      (∀ v, Returns code junk args v ↔ ∃ n z, body.exec n (argType ps) (argValue ps args) = .ret z ∧ v = Pipeline.wrap ret z) ∧
      (Undefined code junk args ↔ ∃ n, body.exec n (argType ps) (argValue ps args) = .undefined ∨ ∃ ρ, body.exec n (argType ps) (argValue ps args) = .next ρ) ∧
      ((¬∃ v, Returns code junk args v) ∧ ¬Undefined code junk args ↔ ∀ n, body.exec n (argType ps) (argValue ps args) = .more) := by
  suffices hall : ∃ code, compileFn cfg inl src = some code ∧ ∀ args junk, Passed ps args →
      (∀ v, Returns code junk args v ↔ ∃ n z, body.exec n (argType ps) (argValue ps args) = .ret z ∧ v = Pipeline.wrap ret z) ∧
      (Undefined code junk args ↔ ∃ n, body.exec n (argType ps) (argValue ps args) = .undefined ∨ ∃ ρ, body.exec n (argType ps) (argValue ps args) = .next ρ) by
    obtain ⟨code, h1, h2⟩ := hall
    refine ⟨code, h1, fun args junk hp => ?_⟩
    obtain ⟨h3, h4⟩ := h2 args junk hp
    refine ⟨h3, h4, ?_⟩
    simp only [h3, h4]
    constructor
    · rintro ⟨h5, h6⟩ n
      have h7 := inside_cmds body n (argType ps) (argValue ps args) hok
      cases hE : body.exec n (argType ps) (argValue ps args) <;> rw [hE] at h7
      · exact absurd ⟨n, .inr ⟨_, hE⟩⟩ h6
      · cases h7
      · cases h7
      · exact absurd ⟨_, n, _, hE, rfl⟩ h5
      · exact absurd ⟨n, .inl hE⟩ h6
    · intro h
      simp [h]
  obtain ⟨f, rest, h1, h2, h3, h4⟩ := hsrc
  have hnp := (List.nodup_append.1 hn).1
  have hst := params_static ps hnp
  obtain ⟨codes, cs', k1, k2, k3, k4, k5⟩ := cmds_sim inl ret body f.body h4 false (argType ps) hok ⟨0, (params ps).length, paramVars 0 (params ps)⟩ hst
    (fun x hx => paramVars_none _ _ (fun hm => (List.nodup_append.1 hn).2.2 x (by simpa [params] using hm) x hx rfl) _) (List.nodup_append.1 hn).2.1
  obtain ⟨st, h5⟩ := accepted_body_generates (fun _ => false) (marks f.body 0).1 ((marks_jumps _ _ _).2 (is_jumpss body _ h4 false _ hok))
  have hcl : Stmts.Clean (fun _ => false) (marks f.body 0).1 := (marks_clean _ _).2 (is_cleans body _ h4 hc)
  refine ⟨⟨codes, st⟩, ?_, fun args junk hp => ?_⟩
  · unfold compileFn
    rw [h1]
    simp only
    rw [h2, lookup_suffix, h3, params_types]
    obtain ⟨v, hval⟩ := valid_function inl ret ps body f.body h4 hok hn
    simp only [Option.bind_some]
    rw [hval]
    simp only [Option.bind_some]
    rw [k1]
    simp only [Option.bind_some]
    rw [h5]
    rfl
  · have hd : Dyn (argType ps) (paramVars 0 (params ps)) (fun i => args.getD i (junk i)) (argValue ps args) := ⟨env_ok ps hnp args junk (passed_length _ _ hp), args_fit ps args hp⟩
    have h6 := fun n => k5 codes 0 (fun k s hk => by rw [Nat.zero_add]; exact hk) n _ none _ hd
    obtain ⟨c1, c2, c3⟩ := control_flow_partial (machine codes) (fun _ => false) _ hcl st h5 fun i => args.getD i (junk i)
    constructor
    · intro v
      unfold Returns
      simp only [c1, Ends]
      constructor
      · rintro ⟨slots, n, h | h⟩
        · have := h6 n; rw [h] at this
          cases hE : body.exec n (argType ps) (argValue ps args) <;> rw [hE] at this <;> simp [Agree] at this
        · have := h6 n; rw [h] at this
          cases hE : body.exec n (argType ps) (argValue ps args) <;> rw [hE] at this <;> simp [Agree] at this
          next z => exact ⟨n, z, hE, this⟩
      · rintro ⟨n, z, h, rfl⟩
        have := h6 n; rw [h] at this
        cases hO : execs (machine codes) n (marks f.body 0).1 (fun i => args.getD i (junk i), none) <;> rw [hO] at this <;> simp only [Agree] at this
        next m => exact ⟨m.1, n, .inr (by rw [hO, ← this])⟩
    · unfold Undefined
      constructor
      · rintro (h | h | ⟨slots, h⟩)
        · obtain ⟨n, h⟩ := c2.1 h
          have := h6 n; rw [h] at this
          cases hE : body.exec n (argType ps) (argValue ps args) <;> rw [hE] at this <;> simp [Agree] at this
          exact ⟨n, .inl hE⟩
        · exact absurd h c3
        · obtain ⟨n, h | h⟩ := (c1 _).1 h
          · have := h6 n; rw [h] at this
            cases hE : body.exec n (argType ps) (argValue ps args) <;> rw [hE] at this <;> simp [Agree] at this
            exact ⟨n, .inr ⟨_, hE⟩⟩
          · have := h6 n; rw [h] at this
            cases hE : body.exec n (argType ps) (argValue ps args) <;> rw [hE] at this <;> simp [Agree] at this
      · rintro ⟨n, h | ⟨ρ, h⟩⟩
        · have := h6 n; rw [h] at this
          cases hO : execs (machine codes) n (marks f.body 0).1 (fun i => args.getD i (junk i), none) <;> rw [hO] at this <;> simp only [Agree] at this
          exact .inl (c2.2 ⟨n, hO⟩)
        · have := h6 n; rw [h] at this
          cases hO : execs (machine codes) n (marks f.body 0).1 (fun i => args.getD i (junk i), none) <;> rw [hO] at this <;> simp only [Agree] at this
          next m => exact .inr (.inr ⟨m.1, (c1 _).2 ⟨n, .inl (by rw [hO, ← this.2])⟩⟩)

/-- **C136.** If every way through the body ends with `return`, and the statements return a value, the call returns that value and is defined. -/
theorem function_returns (cfg : Cfg) (inl : Inline) (src : List Char) (ret : IntTy) (ps : List (Name × IntTy)) (body : Cmds) (hsrc : ReadsFn cfg src ret ps body)
    (hok : body.Ok false (argType ps)) (hc : body.Clean) (hn : (ps.map (·.1) ++ body.defs).Nodup) (he : body.ends = true) :
    ∃ code, compileFn cfg inl src = some code ∧ ∀ args junk, Passed ps args →
      (Undefined code junk args ↔ ∃ n, body.exec n (argType ps) (argValue ps args) = .undefined) ∧
      ∀ n z, body.exec n (argType ps) (argValue ps args) = .ret z → Returns code junk args (Pipeline.wrap ret z) := by
  obtain ⟨code, h1, h2⟩ := function_computes cfg inl src ret ps body hsrc hok hc hn
  refine ⟨code, h1, fun args junk hp => ?_⟩
  obtain ⟨h3, h4, _⟩ := h2 args junk hp
  refine ⟨?_, fun n z h => (h3 _).2 ⟨n, z, h, rfl⟩⟩
  rw [h4]
  constructor
  · rintro ⟨n, h | ⟨ρ, h⟩⟩
    · exact ⟨n, h⟩
    · exact absurd h (ends_cmds body n _ _ _ he)
  · rintro ⟨n, h⟩
    exact ⟨n, .inl h⟩

/-! ## Texts -/

mutual
/-- Variables have names the grammar admits. -/
def Cmd.Names (cfg : Cfg) : Cmd → Prop
  | .define x e => IsName x ∧ validName cfg x = true ∧ e.Names cfg
  | .assign x e => IsName x ∧ validName cfg x = true ∧ e.Names cfg
  | .update _ x e => IsName x ∧ validName cfg x = true ∧ e.Names cfg
  | .ret e => e.Names cfg
  | .brk => True
  | .cont => True
  | .loop c b => c.Names cfg ∧ b.Names cfg
  | .branch c b rest => c.Names cfg ∧ b.Names cfg ∧ rest.Names cfg
def Cmds.Names (cfg : Cfg) : Cmds → Prop
  | .nil => True
  | .cons s ss => s.Names cfg ∧ ss.Names cfg
def Rest.Names (cfg : Cfg) : Rest → Prop
  | .none => True
  | .els b => b.Names cfg
  | .elif c b rest => c.Names cfg ∧ b.Names cfg ∧ rest.Names cfg
end

mutual
/-- A statement as it may be written. -/
def Cmd.stmt : Cmd → Stmt
  | .define x e => .expr (.bin (.un none (.define x)) .assign e.tree.toExpr)
  | .assign x e => .expr (.bin (.un none (.var x)) .assign e.tree.toExpr)
  | .update o x e => .expr (.bin (.un none (.var x)) (Arith.assignSign o) e.tree.toExpr)
  | .ret e => .retVal e.tree.toExpr
  | .brk => .brk
  | .cont => .cont
  | .loop c b => .whileLoop c.tree.toExpr b.stmts
  | .branch c b rest => .ifElse c.tree.toExpr b.stmts rest.elifs rest.last
def Cmds.stmts : Cmds → Stmts
  | .nil => .nil
  | .cons s ss => .cons s.stmt ss.stmts
def Rest.elifs : Rest → Elifs
  | .none => .nil
  | .els _ => .nil
  | .elif c b rest => .cons c.tree.toExpr b.stmts rest.elifs
def Rest.last : Rest → Else
  | .none => .none
  | .els b => .some b.stmts
  | .elif _ _ rest => rest.last
end

theorem level_six (e : Expr) : e.level ≤ 6 := by
  cases e with
  | un _ _ => simp [Expr.level]
  | bin _ op _ => cases op <;> simp [Expr.level, BinOp.level]
  | sel _ _ _ => simp [Expr.level]

theorem wf_assign (cfg : Cfg) (l : Operand) (hl : l.WF cfg) (op : BinOp) (hop : op.level = 6) (e : Expr) (he : e.WF cfg) : Expr.WF cfg (.bin (.un none l) op e) := by
  simp only [Expr.WF, BinOp.leftLevel, BinOp.rightLevel, hop, Expr.level]
  exact ⟨hl, he, by decide, level_six e⟩

mutual
theorem stmt_ok (cfg : Cfg) (hr : ∀ ds, decimal ds < 2 ^ 53 → cfg.inRange ds = true) (c : Cmd) (l : Bool) (Γ : Types) (h : c.Ok l Γ) (hn : c.Names cfg) : c.Is c.stmt ∧ c.stmt.WF cfg := by
  match c with
  | .define x e =>
    rw [Cmd.Ok] at h; rw [Cmd.Names] at hn
    obtain ⟨h1, h2⟩ := toExpr_spec cfg _ (wf_num cfg hr e h.1.lits hn.2.2)
    exact ⟨.define ⟨_, rfl, h2⟩, wf_assign cfg _ (by rw [Operand.WF]; exact ⟨hn.1, hn.2.1⟩) _ rfl _ h1⟩
  | .assign x e =>
    rw [Cmd.Ok] at h; rw [Cmd.Names] at hn
    obtain ⟨h1, h2⟩ := toExpr_spec cfg _ (wf_num cfg hr e h.1.lits hn.2.2)
    exact ⟨.assign ⟨_, rfl, h2⟩, wf_assign cfg _ (by rw [Operand.WF]; exact ⟨hn.1, hn.2.1⟩) _ rfl _ h1⟩
  | .update o x e =>
    rw [Cmd.Ok] at h; rw [Cmd.Names] at hn
    have hl := h.1.lits
    rw [Num.Lits] at hl
    obtain ⟨h1, h2⟩ := toExpr_spec cfg _ (wf_num cfg hr e hl.2 hn.2.2)
    exact ⟨.update ⟨_, rfl, h2⟩, wf_assign cfg _ (by rw [Operand.WF]; exact ⟨hn.1, hn.2.1⟩) _ (by cases o <;> rfl) _ h1⟩
  | .ret e =>
    rw [Cmd.Ok] at h; rw [Cmd.Names] at hn
    obtain ⟨h1, h2⟩ := toExpr_spec cfg _ (wf_num cfg hr e h.lits hn)
    exact ⟨.ret h2, by rw [Cmd.stmt, Stmt.WF]; exact h1⟩
  | .brk => exact ⟨.brk, by rw [Cmd.stmt, Stmt.WF]; trivial⟩
  | .cont => exact ⟨.cont, by rw [Cmd.stmt, Stmt.WF]; trivial⟩
  | .loop c b =>
    rw [Cmd.Ok] at h; rw [Cmd.Names] at hn
    obtain ⟨h1, h2⟩ := toExpr_spec cfg _ (wf_cond cfg hr c h.1.lits hn.1)
    obtain ⟨h3, h4⟩ := stmts_ok cfg hr b true Γ h.2 hn.2
    exact ⟨.loop h2 h3, by rw [Cmd.stmt, Stmt.WF]; exact ⟨h1, h4⟩⟩
  | .branch c b rest =>
    rw [Cmd.Ok] at h; rw [Cmd.Names] at hn
    obtain ⟨h1, h2⟩ := toExpr_spec cfg _ (wf_cond cfg hr c h.1.lits hn.1)
    obtain ⟨h3, h4⟩ := stmts_ok cfg hr b l Γ h.2.1 hn.2.1
    obtain ⟨h5, h6, h7⟩ := rest_ok cfg hr rest l Γ h.2.2 hn.2.2
    exact ⟨.branch h2 h3 h5, by rw [Cmd.stmt, Stmt.WF]; exact ⟨h1, h4, h6, h7⟩⟩
theorem stmts_ok (cfg : Cfg) (hr : ∀ ds, decimal ds < 2 ^ 53 → cfg.inRange ds = true) (c : Cmds) (l : Bool) (Γ : Types) (h : c.Ok l Γ) (hn : c.Names cfg) : c.Is c.stmts ∧ c.stmts.WF cfg := by
  match c with
  | .nil => exact ⟨.nil, by rw [Cmds.stmts, Stmts.WF]; trivial⟩
  | .cons c cs =>
    rw [Cmds.Ok] at h; rw [Cmds.Names] at hn
    obtain ⟨h1, h2⟩ := stmt_ok cfg hr c l Γ h.1 hn.1
    obtain ⟨h3, h4⟩ := stmts_ok cfg hr cs l _ h.2 hn.2
    exact ⟨.cons h1 h3, by rw [Cmds.stmts, Stmts.WF]; exact ⟨h2, h4⟩⟩
theorem rest_ok (cfg : Cfg) (hr : ∀ ds, decimal ds < 2 ^ 53 → cfg.inRange ds = true) (c : Rest) (l : Bool) (Γ : Types) (h : c.Ok l Γ) (hn : c.Names cfg) :
    c.Is c.elifs c.last ∧ c.elifs.WF cfg ∧ c.last.WF cfg := by
  match c with
  | .none => exact ⟨.none, by rw [Rest.elifs, Elifs.WF]; trivial, by rw [Rest.last, Else.WF]; trivial⟩
  | .els b =>
    rw [Rest.Ok] at h; rw [Rest.Names] at hn
    obtain ⟨h3, h4⟩ := stmts_ok cfg hr b l Γ h hn
    exact ⟨.els h3, by rw [Rest.elifs, Elifs.WF]; trivial, by rw [Rest.last, Else.WF]; exact h4⟩
  | .elif c b rest =>
    rw [Rest.Ok] at h; rw [Rest.Names] at hn
    obtain ⟨h1, h2⟩ := toExpr_spec cfg _ (wf_cond cfg hr c h.1.lits hn.1)
    obtain ⟨h3, h4⟩ := stmts_ok cfg hr b l Γ h.2.1 hn.2.1
    obtain ⟨h5, h6, h7⟩ := rest_ok cfg hr rest l Γ h.2.2 hn.2.2
    exact ⟨.elif h2 h3 h5, by rw [Rest.elifs, Elifs.WF]; exact ⟨h1, h4, h6⟩, by rw [Rest.last]; exact h7⟩
end

theorem suffix_name (t : IntTy) : IsName (suffixText t) := by
  cases t <;> exact ⟨⟨_, _, rfl, by decide, by decide⟩, by decide⟩

/-- The function as it may be written. -/
def fnSrc (name : Name) (ret : IntTy) (ps : List (Name × IntTy)) (body : Cmds) : FuncSrc :=
  ⟨⟨suffixText ret, []⟩, name, ps.map fun q => (⟨suffixText q.2, []⟩, q.1), body.stmts⟩

theorem fn_text (cfg : Cfg) (hr : ∀ ds, decimal ds < 2 ^ 53 → cfg.inRange ds = true) (ht : ∀ t, cfg.isType (suffixText t) = true) (name : Name) (hname : IsName name ∧ validName cfg name = true)
    (ret : IntTy) (ps : List (Name × IntTy)) (hps : ∀ q ∈ ps, IsName q.1 ∧ validName cfg q.1 = true) (body : Cmds) (hok : body.Ok false (argType ps)) (hn : body.Names cfg)
    (src : List Char) (hs : sourceToks src = sourceToks (writeTokens (fnSrc name ret ps body).print)) : ReadsFn cfg src ret ps body := by
  obtain ⟨h1, h2⟩ := stmts_ok cfg hr body false _ hok hn
  have hty : ∀ t, Ty.WF cfg ⟨suffixText t, []⟩ := fun t => ⟨suffix_name t, by simp, ht t⟩
  have h3 := parse_function_print cfg (fnSrc name ret ps body) ⟨hty ret, hname, by
    intro p hp
    simp only [fnSrc, List.mem_map] at hp
    obtain ⟨q, hq, rfl⟩ := hp
    exact ⟨hty q.2, hps q hq⟩, h2⟩
  refine ⟨(fnSrc name ret ps body).func, [], ?_, rfl, ?_, h1⟩
  · rw [← h3]; unfold parseFunction; rw [hs]
  · simp only [FuncSrc.func, fnSrc, List.map_map]; rfl

/-- **C136.** Every function of the language has such a text. -/
theorem every_function_has_text (cfg : Cfg) (hr : ∀ ds, decimal ds < 2 ^ 53 → cfg.inRange ds = true) (ht : ∀ t, cfg.isType (suffixText t) = true) (name : Name)
    (hname : IsName name ∧ validName cfg name = true) (ret : IntTy) (ps : List (Name × IntTy)) (hps : ∀ q ∈ ps, IsName q.1 ∧ validName cfg q.1 = true) (body : Cmds)
    (hok : body.Ok false (argType ps)) (hn : body.Names cfg) : ∃ src, ReadsFn cfg src ret ps body :=
  ⟨_, fn_text cfg hr ht name hname ret ps hps body hok hn _ rfl⟩

/-! ### An instance: the greatest common divisor -/

def gcdCfg : Cfg := { isType := fun t => (suffixes.lookup t).isSome, inRange := fun _ => true }
def gcdArgs : List (Name × IntTy) := [(['a'], .i32), (['b'], .i32)]
def gcdText : List Char := "i32 gcd ( i32 a , i32 b ) { while ( b != 0 ) { auto t = a % b ; a = b ; b = t ; } return a ; } ".toList
def gcdStep : Cmds := .cons (.define ['t'] (.op .mod (.arg ['a']) (.arg ['b']))) (.cons (.assign ['a'] (.arg ['b'])) (.cons (.assign ['b'] (.arg ['t'])) .nil))
def gcdTest : Cond := .rel .ne (.arg ['b']) (.lit ['0'] none)
def gcdBody : Cmds := .cons (.loop gcdTest gcdStep) (.cons (.ret (.arg ['a'])) .nil)

theorem gcd_ok : gcdBody.Ok false (argType gcdArgs) := by
  simp only [gcdBody, gcdStep, gcdTest, Cmds.Ok, Cmd.Ok, Cmd.after, and_true]
  refine ⟨⟨⟨by decide, by simp only [Cond.Lits, Num.Lits]; decide, by simp [Cond.Guarded, Num.Guarded], by simp [Cond.Level, Num.Level]⟩, ⟨⟨by decide, by simp [Num.Lits], by simp [Num.Guarded], by simp [Num.Level]⟩, rfl, by simp [Num.Even]⟩,
    ⟨⟨by decide, by simp [Num.Lits], by simp [Num.Guarded], by simp [Num.Level]⟩, by decide⟩, ⟨⟨by decide, by simp [Num.Lits], by simp [Num.Guarded], by simp [Num.Level]⟩, by decide⟩⟩, ⟨by decide, by simp [Num.Lits], by simp [Num.Guarded], by simp [Num.Level]⟩⟩

theorem gcd_clean : gcdBody.Clean := by simp [gcdBody, gcdStep, Cmds.Clean, Cmd.Clean, Cmds.startsLoop, Cmd.ends]

theorem gcd_reads : ReadsFn gcdCfg gcdText .i32 gcdArgs gcdBody := by
  have hv : ∀ c, c = 'a' ∨ c = 'b' ∨ c = 't' → IsName [c] ∧ validName gcdCfg [c] = true := by
    rintro c (rfl | rfl | rfl) <;> exact ⟨example_name _ (by decide), by decide⟩
  refine fn_text gcdCfg (fun _ _ => rfl) (fun t => by cases t <;> decide) ['g', 'c', 'd'] ⟨⟨⟨_, _, rfl, by decide, by decide⟩, by decide⟩, by decide⟩ .i32 gcdArgs
    (by intro q hq; simp [gcdArgs] at hq; rcases hq with rfl | rfl <;> exact hv _ (by decide)) gcdBody gcd_ok ?_ gcdText (by rw [show gcdText = writeTokens (fnSrc ['g', 'c', 'd'] .i32 gcdArgs gcdBody).print from by decide +kernel])
  have ha := hv 'a' (by decide)
  have hb := hv 'b' (by decide)
  have ht := hv 't' (by decide)
  simp [gcdBody, gcdStep, gcdTest, Cmds.Names, Cmd.Names, Cond.Names, Num.Names, ha, hb, ht]

theorem fits_wrap {x : Int} (h0 : 0 ≤ x) (h1 : x < 2147483648) : Pipeline.wrap .i32 x = x := by
  unfold Pipeline.wrap
  simp [IntTy.bits, IntTy.signed]
  omega

theorem gcd_rest {a b : Int} (ha : 0 ≤ a) (hb : 0 < b) : Int.gcd b (a % b) = Int.gcd a b := by
  obtain ⟨m, rfl⟩ := Int.eq_ofNat_of_zero_le ha
  obtain ⟨n, rfl⟩ := Int.eq_ofNat_of_zero_le (by omega : 0 ≤ b)
  show Nat.gcd n (m % n) = Nat.gcd m n
  rw [Nat.gcd_comm, ← Nat.gcd_rec, Nat.gcd_comm]

theorem gcd_loop (n : Nat) : ∀ (k : Nat) (m : Nat) (ρ : Store), 0 ≤ ρ ['a'] → ρ ['a'] < 2147483648 → 0 ≤ ρ ['b'] → ρ ['b'] < 2147483648 → ρ ['b'] < k → k ≤ m →
    ∃ ρ', repeated (fun ρ => gcdTest.value (argType gcdArgs) ρ) (fun ρ => gcdStep.exec n (argType gcdArgs) ρ) m ρ = .next ρ' ∧ ρ' ['a'] = Int.gcd (ρ ['a']) (ρ ['b']) := by
  intro k
  induction k with
  | zero => intro m ρ _ _ h1 _ h2; omega
  | succ k ih =>
    intro m ρ h1 h2 h3 h4 h5 h6
    obtain ⟨m, rfl⟩ : ∃ m', m = m' + 1 := ⟨m - 1, by omega⟩
    have ht : gcdTest.value (argType gcdArgs) ρ = some (decide (ρ ['b'] ≠ 0)) := by
      have e : gcdTest.value (argType gcdArgs) ρ = some (decide (Pipeline.wrap .i32 (ρ ['b']) ≠ 0)) := rfl
      rw [e, fits_wrap h3 h4]
    rw [repeated, ht]
    simp only [withValue]
    by_cases h0 : ρ ['b'] = 0
    · rw [if_neg (by simp [h0])]
      refine ⟨ρ, rfl, ?_⟩
      rw [h0, Int.gcd_zero_right]; omega
    · rw [if_pos (by simpa using h0)]
      have hm : ρ ['a'] % ρ ['b'] < ρ ['b'] := Int.emod_lt_of_pos _ (by omega)
      have hm0 : 0 ≤ ρ ['a'] % ρ ['b'] := Int.emod_nonneg _ h0
      have hs : gcdStep.exec n (argType gcdArgs) ρ = .next (((ρ.set ['t'] (ρ ['a'] % ρ ['b'])).set ['a'] (ρ ['b'])).set ['b'] (ρ ['a'] % ρ ['b'])) := by
        have e : (Num.op .mod (.arg ['a']) (.arg ['b'])).value (argType gcdArgs) ρ = Arith.calc .mod .i32 (Pipeline.wrap .i32 (ρ ['a'])) (Pipeline.wrap .i32 (ρ ['b'])) := rfl
        rw [fits_wrap h1 h2, fits_wrap h3 h4] at e
        have e2 : Arith.calc .mod .i32 (ρ ['a']) (ρ ['b']) = some (ρ ['a'] % ρ ['b']) := by
          unfold Arith.calc
          simp only
          rw [if_neg (by omega), Int.tmod_eq_emod_of_nonneg h1]
        simp only [gcdStep, Cmds.exec, Cmd.exec]
        rw [e, e2]
        rfl
      simp only [hs]
      obtain ⟨ρ', g1, g2⟩ := ih m (((ρ.set ['t'] (ρ ['a'] % ρ ['b'])).set ['a'] (ρ ['b'])).set ['b'] (ρ ['a'] % ρ ['b']))
        (by simpa [Store.set] using h3) (by simpa [Store.set] using h4) (by simpa [Store.set] using hm0) (by simp [Store.set]; omega) (by simp [Store.set]; omega) (by omega)
      refine ⟨ρ', g1, ?_⟩
      rw [g2]
      have e1 : (((ρ.set ['t'] (ρ ['a'] % ρ ['b'])).set ['a'] (ρ ['b'])).set ['b'] (ρ ['a'] % ρ ['b'])) ['a'] = ρ ['b'] := by simp [Store.set]
      have e2 : (((ρ.set ['t'] (ρ ['a'] % ρ ['b'])).set ['a'] (ρ ['b'])).set ['b'] (ρ ['a'] % ρ ['b'])) ['b'] = ρ ['a'] % ρ ['b'] := by simp [Store.set]
      rw [e1, e2, gcd_rest h1 (by omega)]

/-- The text above is compiled to code that computes the greatest common divisor of any two non-negative numbers. -/
example (inl : Inline) : ∃ code, compileFn gcdCfg inl gcdText = some code ∧ ∀ a b : Int, 0 ≤ a → a < 2 ^ 31 → 0 ≤ b → b < 2 ^ 31 → ∀ junk,
    Returns code junk [a, b] (Int.gcd a b) ∧ ¬Undefined code junk [a, b] := by
  obtain ⟨code, h1, h2⟩ := function_computes gcdCfg inl gcdText .i32 gcdArgs gcdBody gcd_reads gcd_ok gcd_clean (by decide)
  refine ⟨code, h1, fun a b ha ha' hb hb' junk => ?_⟩
  have hp : Passed gcdArgs [a, b] := by
    have hlo : IntOps.lo .i32 = -2147483648 := by decide
    have hhi : IntOps.hi .i32 = 2147483647 := by decide
    simp only [gcdArgs, Passed, IntOps.Fits, hlo, hhi]
    exact ⟨⟨by omega, by omega⟩, ⟨by omega, by omega⟩, trivial⟩
  obtain ⟨h3, h4, _⟩ := h2 [a, b] junk hp
  have hg : ∀ n : Nat, b < n → gcdBody.exec n (argType gcdArgs) (argValue gcdArgs [a, b]) = .ret (Int.gcd a b) := by
    intro n hn
    obtain ⟨ρ', g1, g2⟩ := gcd_loop n n n (argValue gcdArgs [a, b]) ha ha' hb hb' hn (Nat.le_refl _)
    rw [gcdBody, Cmds.exec, Cmd.exec, g1]
    show End.ret (ρ' ['a']) = _
    rw [g2]
    rfl
  have hr : Returns code junk [a, b] (Int.gcd a b) := by
    refine (h3 _).2 ⟨b.toNat + 1, _, hg _ (by omega), (fits_wrap (by omega) ?_).symm⟩
    have h5 : Int.gcd a b ≤ a.natAbs ∨ a = 0 := by
      by_cases h0 : a = 0
      · exact .inr h0
      · exact .inl (Nat.gcd_le_left _ (by omega))
    rcases h5 with h5 | h5
    · omega
    · subst h5; rw [Int.gcd_zero_left]; omega
  exact ⟨hr, (call_deterministic code junk [a, b] _ hr).2⟩

end Verif.Comp.Function
