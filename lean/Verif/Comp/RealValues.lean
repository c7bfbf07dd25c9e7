import Verif.Comp.RealTypes
/-! # C152: values -/
namespace Verif.Comp.Real
open Verif.Ast Verif.Ast.Rpn Verif.Gen Verif.Gen.Scalar Verif.Types.Conv Verif.Comp.Pipeline
open Verif.Comp.Script (Tree.PlainT plain_of_tree arith_plain rel_plain)

theorem plain_ex (p : Ex) : ∀ t, p.Is t → Tree.PlainT arity t := by
  induction p with
  | lit ds s => rintro t rfl; rw [Tree.PlainT, PlainO]; trivial
  | frac ip fp s => rintro t rfl; rw [Tree.PlainT, PlainO]; trivial
  | const b => rintro t rfl; rw [Tree.PlainT, PlainO]; trivial
  | var x => rintro t rfl; rw [Tree.PlainT, PlainO]; trivial
  | neg a ih => rintro t ⟨u, rfl, h⟩; exact ih u h
  | not a ih => rintro t ⟨u, rfl, h⟩; exact ih u h
  | arith o a b iha ihb => rintro t ⟨u, v, rfl, h1, h2⟩; exact ⟨iha u h1, (arith_plain o).1, (arith_plain o).2, ihb v h2⟩
  | rel o a b iha ihb => rintro t ⟨u, v, rfl, h1, h2⟩; exact ⟨iha u h1, (rel_plain o).1, (rel_plain o).2, ihb v h2⟩
  | and a b iha ihb => rintro t ⟨u, v, rfl, h1, h2⟩; exact ⟨iha u h1, by decide, rfl, ihb v h2⟩
  | or a b iha ihb => rintro t ⟨u, v, rfl, h1, h2⟩; exact ⟨iha u h1, by decide, rfl, ihb v h2⟩
  | pick c a b ihc iha ihb => rintro t ⟨w, u, v, rfl, h0, h1, h2⟩; exact ⟨ihc w h0, iha u h1, ihb v h2⟩
  | fn1 f a ih =>
    rintro t ⟨x, rfl, h⟩
    rw [Tree.PlainT, PlainO, PlainEs, PlainEs, arity1]
    exact ⟨⟨plain_of_tree _ x (ih _ h), trivial⟩, by simp [Exprs.length]⟩
  | fn2 f a b iha ihb =>
    rintro t ⟨x, y, rfl, h1, h2⟩
    rw [Tree.PlainT, PlainO, PlainEs, PlainEs, PlainEs, arity2]
    exact ⟨⟨plain_of_tree _ x (iha _ h1), plain_of_tree _ y (ihb _ h2), trivial⟩, by simp [Exprs.length]⟩
  | fn3 f a b c iha ihb ihc =>
    rintro t ⟨x, y, z, rfl, h1, h2, h3⟩
    rw [Tree.PlainT, PlainO, PlainEs, PlainEs, PlainEs, PlainEs, arity3]
    exact ⟨⟨plain_of_tree _ x (iha _ h1), plain_of_tree _ y (ihb _ h2), plain_of_tree _ z (ihc _ h3), trivial⟩, by simp [Exprs.length]⟩

/-! ## Operations on values -/

section
variable (fpu : Fpu)

theorem arithTV (o : Arith) {s t c : Ty} (hj : join s t = some c) {v w : Val} (hv : v.Has s) (hw : w.Has t) :
    ∃ x y, conv fpu c v = some x ∧ conv fpu c w = some y ∧ x.Has c ∧ y.Has c ∧ binTV (rt fpu) o.sign (s.p, v.enc) (t.p, w.enc) = (arithV fpu o c x y).map fun z => (c.p, z.enc) := by
  obtain ⟨h1, h2⟩ := join_up hj
  obtain ⟨x, hx, hx2, hx3⟩ := castTV_up fpu h1 hv
  obtain ⟨y, hy, hy2, hy3⟩ := castTV_up fpu h2 hw
  obtain ⟨r, hr1, hr2, hr3⟩ := arith_run fpu o (join_number hj).2.2 hx2 hy2
  refine ⟨x, y, hx, hy, hx2, hy2, ?_⟩
  unfold binTV
  simp only [meet_p fpu hj, Option.bind_some, hx3, hy3, binOp_arith, hr1, hr3, hr2]
  cases arithV fpu o c x y <;> rfl

theorem relTV (o : Rel) {s t c : Ty} (hj : join s t = some c) {v w : Val} (hv : v.Has s) (hw : w.Has t) :
    ∃ x y b, conv fpu c v = some x ∧ conv fpu c w = some y ∧ relV o c x y = some (.bool b) ∧ binTV (rt fpu) o.sign (s.p, v.enc) (t.p, w.enc) = some (.bit, (Val.bool b).enc) := by
  obtain ⟨h1, h2⟩ := join_up hj
  obtain ⟨x, hx, hx2, hx3⟩ := castTV_up fpu h1 hv
  obtain ⟨y, hy, hy2, hy3⟩ := castTV_up fpu h2 hw
  obtain ⟨r, b, hr1, hr2, hr3, hr4⟩ := rel_run fpu o (join_number hj).2.2 hx2 hy2
  refine ⟨x, y, b, hx, hy, hr3, ?_⟩
  unfold binTV
  simp only [meet_p fpu hj, Option.bind_some, hx3, hy3, binOp_rel, hr1, hr4, hr2]
  rfl

theorem truth_bool (b : Bool) : (rt fpu).truth (Val.bool b).enc = b := by cases b <;> rfl
theorem andTV (a b : Bool) : binTV (rt fpu) .and (.bit, (Val.bool a).enc) (.bit, (Val.bool b).enc) = some (.bit, (Val.bool (a && b)).enc) := by cases a <;> cases b <;> rfl
theorem orTV (a b : Bool) : binTV (rt fpu) .or (.bit, (Val.bool a).enc) (.bit, (Val.bool b).enc) = some (.bit, (Val.bool (a || b)).enc) := by cases a <;> cases b <;> rfl
theorem notTV (a : Bool) : unTV (rt fpu) .not (.bit, (Val.bool a).enc) = some (.bit, (Val.bool !a).enc) := by cases a <;> rfl
theorem pick_boolTV (z a b : Bool) : selTV (rt fpu) (.bit, (Val.bool z).enc) (.bit, (Val.bool a).enc) (.bit, (Val.bool b).enc) = some (.bit, (Val.bool (if z = true then a else b)).enc) := by
  cases z <;> cases a <;> cases b <;> rfl

theorem pickTV (z : Bool) {s t c : Ty} (hj : join s t = some c) {v w : Val} (hv : v.Has s) (hw : w.Has t) :
    ∃ x y, conv fpu c v = some x ∧ conv fpu c w = some y ∧ selTV (rt fpu) (.bit, (Val.bool z).enc) (s.p, v.enc) (t.p, w.enc) = some (c.p, if z = true then x.enc else y.enc) := by
  obtain ⟨h1, h2⟩ := join_up hj
  obtain ⟨x, hx, hx2, hx3⟩ := castTV_up fpu h1 hv
  obtain ⟨y, hy, hy2, hy3⟩ := castTV_up fpu h2 hw
  refine ⟨x, y, hx, hy, ?_⟩
  unfold selTV
  simp only [meet_p fpu hj, Option.bind_some, hx3, hy3, truth_bool]
  rfl

theorem fn1TV (f : Fn1) {t : Ty} (hf : f.for t = true) {v : Val} (hv : v.Has t) : ∃ w, f.calc fpu t v = some w ∧ w.Has t ∧ inlTV (rt fpu) f.name [(t.p, v.enc)] = some (t.p, w.enc) := by
  obtain ⟨w, h1, h2, h3⟩ := fn1_run fpu f hf hv
  refine ⟨w, h1, h2, ?_⟩
  show (inlT fpu f.name [t.p]).bind _ = _
  simp only [inlT, name1, Option.bind_some, coded1_for hf, if_true, List.map_cons, List.map_nil, h3]
  rfl

theorem fn2TV (f : Fn2) {s t c : Ty} (hj : join s t = some c) (hf : f.for c = true) {v w : Val} (hv : v.Has s) (hw : w.Has t) :
    ∃ x y, conv fpu c v = some x ∧ conv fpu c w = some y ∧ x.Has c ∧ y.Has c ∧ inlTV (rt fpu) f.name [(s.p, v.enc), (t.p, w.enc)] = (f.calc fpu c x y).map fun z => (c.p, z.enc) := by
  obtain ⟨h1, h2⟩ := join_up hj
  obtain ⟨ca, hca, hca'⟩ := castV_up fpu h1
  obtain ⟨cb, hcb, hcb'⟩ := castV_up fpu h2
  obtain ⟨x, hx, hx2, hx3⟩ := hca' v hv
  obtain ⟨y, hy, hy2, hy3⟩ := hcb' w hw
  refine ⟨x, y, hx, hy, hx2, hy2, ?_⟩
  show (inlT fpu f.name [s.p, t.p]).bind _ = _
  simp only [inlT, name2, Option.bind_some, norm_p hj, registered2_for, hf, if_true, hca, hcb, Option.map_some, List.map_cons, List.map_nil, hx3, hy3, fn2_run fpu f hf hx2 hy2]
  cases f.calc fpu c x y <;> rfl

theorem fn3TV (f : Fn3) {s t r q c : Ty} (hj : join s t = some q) (hk : join q r = some c) (hf : f.for c = true) {u v w : Val} (hu : u.Has s) (hv : v.Has t) (hw : w.Has r) :
    ∃ x y z, conv fpu c u = some x ∧ conv fpu c v = some y ∧ conv fpu c w = some z ∧ x.Has c ∧ y.Has c ∧ z.Has c ∧
      inlTV (rt fpu) f.name [(s.p, u.enc), (t.p, v.enc), (r.p, w.enc)] = (f.calc fpu c x y z).map fun z => (c.p, z.enc) := by
  obtain ⟨h1, h2, h3⟩ := join_up3 hj hk
  obtain ⟨ca, hca, hca'⟩ := castV_up fpu h1
  obtain ⟨cb, hcb, hcb'⟩ := castV_up fpu h2
  obtain ⟨cc, hcc, hcc'⟩ := castV_up fpu h3
  obtain ⟨x, hx, hx2, hx3⟩ := hca' u hu
  obtain ⟨y, hy, hy2, hy3⟩ := hcb' v hv
  obtain ⟨z, hz, hz2, hz3⟩ := hcc' w hw
  refine ⟨x, y, z, hx, hy, hz, hx2, hy2, hz2, ?_⟩
  show (inlT fpu f.name [s.p, t.p, r.p]).bind _ = _
  simp only [inlT, name3, Option.bind_some, norm_p hj, norm_p hk, registered3_for, hf, if_true, hca, hcb, hcc, Option.map_some, List.map_cons, List.map_nil, hx3, hy3, hz3, fn3_run fpu f hf hx2 hy2 hz2]
  cases f.calc fpu c x y z <;> rfl

theorem call1M (env : Env PTy MV) (f : Fn1) (x : Expr) : treeM (rt fpu) arity env (.atom (.call f.name (.cons x .nil))) =
    (treeM (rt fpu) arity env x.toTree).andThen fun a => M.lift (inlTV (rt fpu) f.name [a]) := by
  funext w
  simp only [treeM, eagerO, eagerEs, arity1, eager_tree]
  simp only [M.andThen]
  cases treeM (rt fpu) arity env x.toTree w with
  | none => rfl
  | some r => rfl

theorem call2M (env : Env PTy MV) (f : Fn2) (x y : Expr) : treeM (rt fpu) arity env (.atom (.call f.name (.cons x (.cons y .nil)))) =
    (treeM (rt fpu) arity env x.toTree).andThen fun a => (treeM (rt fpu) arity env y.toTree).andThen fun b => M.lift (inlTV (rt fpu) f.name [a, b]) := by
  funext w
  simp only [treeM, eagerO, eagerEs, arity2, eager_tree]
  simp only [M.andThen]
  cases treeM (rt fpu) arity env x.toTree w with
  | none => rfl
  | some r => simp only [Option.bind_some]; cases treeM (rt fpu) arity env y.toTree r.1 <;> rfl

theorem call3M (env : Env PTy MV) (f : Fn3) (x y z : Expr) : treeM (rt fpu) arity env (.atom (.call f.name (.cons x (.cons y (.cons z .nil))))) =
    (treeM (rt fpu) arity env x.toTree).andThen fun a => (treeM (rt fpu) arity env y.toTree).andThen fun b => (treeM (rt fpu) arity env z.toTree).andThen fun c => M.lift (inlTV (rt fpu) f.name [a, b, c]) := by
  funext w
  simp only [treeM, eagerO, eagerEs, arity3, eager_tree]
  simp only [M.andThen]
  cases treeM (rt fpu) arity env x.toTree w with
  | none => rfl
  | some r =>
    simp only [Option.bind_some]
    cases treeM (rt fpu) arity env y.toTree r.1 with
    | none => rfl
    | some q => simp only [Option.bind_some]; cases treeM (rt fpu) arity env z.toTree q.1 <;> rfl
end

/-! ## Types, inverted -/

theorem type_neg {Γ : Types} {a : Ex} {τ : Ty} (h : (Ex.neg a).type Γ = some τ) : a.type Γ = some τ ∧ τ ≠ .bool ∧ ∀ t, τ = .int t → t.signed = true := by
  rw [Ex.type] at h
  split at h
  · next t ha =>
    split at h
    · next hs => cases h; exact ⟨ha, by simp, fun u hu => by cases hu; exact hs⟩
    · cases h
  · next F ha => cases h; exact ⟨ha, by simp, fun u hu => by cases hu⟩
  · cases h

theorem type_not {Γ : Types} {a : Ex} {τ : Ty} (h : (Ex.not a).type Γ = some τ) : τ = .bool ∧ a.type Γ = some .bool := by
  rw [Ex.type] at h
  split at h
  · next ha => cases h; exact ⟨rfl, ha⟩
  · cases h

theorem type_arith {Γ : Types} {o : Arith} {a b : Ex} {τ : Ty} (h : (Ex.arith o a b).type Γ = some τ) : ∃ s t, a.type Γ = some s ∧ b.type Γ = some t ∧ join s t = some τ := by
  rw [Ex.type] at h
  cases ha : a.type Γ with
  | none => rw [ha] at h; cases h
  | some s => cases hb : b.type Γ with
    | none => rw [ha, hb] at h; cases h
    | some t => rw [ha, hb] at h; exact ⟨s, t, rfl, rfl, h⟩

theorem type_rel {Γ : Types} {o : Rel} {a b : Ex} {τ : Ty} (h : (Ex.rel o a b).type Γ = some τ) : τ = .bool ∧ ∃ s t c, a.type Γ = some s ∧ b.type Γ = some t ∧ join s t = some c := by
  rw [Ex.type] at h
  cases ha : a.type Γ with
  | none => rw [ha] at h; cases h
  | some s => cases hb : b.type Γ with
    | none => rw [ha, hb] at h; cases h
    | some t =>
      rw [ha, hb] at h
      simp only [Option.bind_some] at h
      cases hj : join s t with
      | none => rw [hj] at h; cases h
      | some c => rw [hj] at h; cases h; exact ⟨rfl, s, t, c, rfl, rfl, hj⟩

theorem type_and {Γ : Types} {a b : Ex} {τ : Ty} (h : (Ex.and a b).type Γ = some τ) : τ = .bool ∧ a.type Γ = some .bool ∧ b.type Γ = some .bool := by
  rw [Ex.type] at h
  split at h
  · next ha hb => cases h; exact ⟨rfl, ha, hb⟩
  · cases h

theorem type_or {Γ : Types} {a b : Ex} {τ : Ty} (h : (Ex.or a b).type Γ = some τ) : τ = .bool ∧ a.type Γ = some .bool ∧ b.type Γ = some .bool := by
  rw [Ex.type] at h
  split at h
  · next ha hb => cases h; exact ⟨rfl, ha, hb⟩
  · cases h

theorem type_pick {Γ : Types} {c a b : Ex} {τ : Ty} (h : (Ex.pick c a b).type Γ = some τ) : c.type Γ = some .bool ∧ ∃ s t, a.type Γ = some s ∧ b.type Γ = some t ∧
    ((s = .bool ∧ t = .bool ∧ τ = .bool) ∨ join s t = some τ) := by
  rw [Ex.type] at h
  split at h
  · next hc ha hb => cases h; exact ⟨hc, .bool, .bool, ha, hb, .inl ⟨rfl, rfl, rfl⟩⟩
  · next s t _ hc ha hb => exact ⟨hc, s, t, ha, hb, .inr h⟩
  · cases h

theorem type_fn1 {Γ : Types} {f : Fn1} {a : Ex} {τ : Ty} (h : (Ex.fn1 f a).type Γ = some τ) : a.type Γ = some τ ∧ f.for τ = true := by
  rw [Ex.type] at h
  cases ha : a.type Γ with
  | none => rw [ha] at h; cases h
  | some s =>
    rw [ha, Option.bind_some] at h
    split at h
    · next hf => cases h; exact ⟨rfl, hf⟩
    · cases h

theorem type_fn2 {Γ : Types} {f : Fn2} {a b : Ex} {τ : Ty} (h : (Ex.fn2 f a b).type Γ = some τ) : ∃ s t, a.type Γ = some s ∧ b.type Γ = some t ∧ join s t = some τ ∧ f.for τ = true := by
  rw [Ex.type] at h
  cases ha : a.type Γ with
  | none => rw [ha] at h; cases h
  | some s => cases hb : b.type Γ with
    | none => rw [ha, hb] at h; cases h
    | some t =>
      rw [ha, hb] at h
      simp only [Option.bind_some] at h
      cases hj : join s t with
      | none => rw [hj] at h; cases h
      | some c =>
        rw [hj, Option.bind_some] at h
        split at h
        · next hf => cases h; exact ⟨s, t, rfl, rfl, hj, hf⟩
        · cases h

theorem type_fn3 {Γ : Types} {f : Fn3} {a b c : Ex} {τ : Ty} (h : (Ex.fn3 f a b c).type Γ = some τ) :
    ∃ s t r q, a.type Γ = some s ∧ b.type Γ = some t ∧ c.type Γ = some r ∧ join s t = some q ∧ join q r = some τ ∧ f.for τ = true := by
  rw [Ex.type] at h
  cases ha : a.type Γ with
  | none => rw [ha] at h; cases h
  | some s => cases hb : b.type Γ with
    | none => rw [ha, hb] at h; cases h
    | some t => cases hc : c.type Γ with
      | none => rw [ha, hb, hc] at h; cases h
      | some r =>
        rw [ha, hb, hc] at h
        simp only [Option.bind_some] at h
        cases hj : join s t with
        | none => rw [hj] at h; cases h
        | some q =>
          rw [hj, Option.bind_some] at h
          cases hk : join q r with
          | none => rw [hk] at h; cases h
          | some d =>
            rw [hk, Option.bind_some] at h
            split at h
            · next hf => cases h; exact ⟨s, t, r, q, rfl, rfl, rfl, hj, hk, hf⟩
            · cases h

/-! ## Values have their types -/

/-- The arguments are values of their types. -/
def ArgsOk (Γ : Types) (ρ : Store) : Prop := ∀ x τ, Γ x = some τ → ∃ v, ρ x = some v ∧ v.Has τ

theorem bind_inv {α β : Type} {o : Option α} {f : α → Option β} {b : β} (h : o.bind f = some b) : ∃ a, o = some a ∧ f a = some b := by
  cases o with
  | none => cases h
  | some a => exact ⟨a, rfl, h⟩

theorem has_ex (fpu : Fpu) {Γ : Types} {ρ : Store} (ha : ArgsOk Γ ρ) (p : Ex) (hl : p.Lits fpu) : ∀ τ v, p.type Γ = some τ → p.value fpu Γ ρ = some v → v.Has τ := by
  induction p with
  | lit ds s =>
    intro τ v ht hv
    obtain ⟨σ, w, h1, h2, h3, _⟩ := constant_lit fpu Γ ρ ds s hl
    rw [ht] at h1; rw [hv] at h2; cases h1; cases h2; exact h3
  | frac ip fp s =>
    intro τ v ht hv
    obtain ⟨σ, w, h1, h2, h3, _⟩ := constant_frac fpu Γ ρ ip fp s hl
    rw [ht] at h1; rw [hv] at h2; cases h1; cases h2; exact h3
  | const b => intro τ v ht hv; cases ht; cases hv; trivial
  | var x =>
    intro τ v ht hv
    obtain ⟨w, h1, h2⟩ := ha x τ ht
    have : ρ x = some v := hv
    rw [h1] at this; cases this; exact h2
  | neg a ih =>
    intro τ v ht hv
    obtain ⟨h1, h2, h3⟩ := type_neg ht
    rw [Ex.value, h1, Option.bind_some] at hv
    obtain ⟨w, h4, h5⟩ := bind_inv hv
    obtain ⟨z, h6, h7, _⟩ := neg_run fpu h3 h2 (ih hl τ w h1 h4)
    rw [h5] at h6; cases h6; exact h7
  | not a ih =>
    intro τ v ht hv
    obtain ⟨rfl, h1⟩ := type_not ht
    rw [Ex.value] at hv
    split at hv
    · cases hv; trivial
    · cases hv
  | arith o a b iha ihb =>
    intro τ v ht hv
    obtain ⟨s, t, h1, h2, hj⟩ := type_arith ht
    rw [Ex.value, ht, Option.bind_some] at hv
    obtain ⟨x, hx, hv⟩ := bind_inv hv
    obtain ⟨y, hy, hv⟩ := bind_inv hv
    obtain ⟨x', hx', hv⟩ := bind_inv hv
    obtain ⟨y', hy', hv⟩ := bind_inv hv
    exact arith_has fpu o (conv_has fpu hx') (conv_has fpu hy') hv
  | rel o a b iha ihb =>
    intro τ v ht hv
    obtain ⟨rfl, s, t, c, h1, h2, hj⟩ := type_rel ht
    rw [Ex.value, h1, h2, Option.bind_some, Option.bind_some, hj, Option.bind_some] at hv
    obtain ⟨x, hx, hv⟩ := bind_inv hv
    obtain ⟨y, hy, hv⟩ := bind_inv hv
    obtain ⟨x', y', b', h3, h4, h5, _⟩ := relTV fpu o hj (iha hl.1 s x h1 hx) (ihb hl.2 t y h2 hy)
    rw [h3, Option.bind_some, h4, Option.bind_some, h5] at hv
    cases hv; trivial
  | and a b iha ihb =>
    intro τ v ht hv
    obtain ⟨rfl, h1, h2⟩ := type_and ht
    rw [Ex.value] at hv
    split at hv
    · exact ihb hl.2 _ v h2 hv
    · cases hv; trivial
    · cases hv
  | or a b iha ihb =>
    intro τ v ht hv
    obtain ⟨rfl, h1, h2⟩ := type_or ht
    rw [Ex.value] at hv
    split at hv
    · cases hv; trivial
    · exact ihb hl.2 _ v h2 hv
    · cases hv
  | pick c a b ihc iha ihb =>
    intro τ v ht hv
    rw [Ex.value, ht, Option.bind_some] at hv
    split at hv
    · obtain ⟨x, hx, hv⟩ := bind_inv hv; exact conv_has fpu hv
    · obtain ⟨x, hx, hv⟩ := bind_inv hv; exact conv_has fpu hv
    · cases hv
  | fn1 f a ih =>
    intro τ v ht hv
    obtain ⟨h1, h2⟩ := type_fn1 ht
    rw [Ex.value, h1, Option.bind_some] at hv
    obtain ⟨x, hx, hv⟩ := bind_inv hv
    obtain ⟨w, h3, h4, _⟩ := fn1_run fpu f h2 (ih hl τ x h1 hx)
    rw [hv] at h3; cases h3; exact h4
  | fn2 f a b iha ihb =>
    intro τ v ht hv
    rw [Ex.value, ht, Option.bind_some] at hv
    obtain ⟨x, hx, hv⟩ := bind_inv hv
    obtain ⟨y, hy, hv⟩ := bind_inv hv
    obtain ⟨x', hx', hv⟩ := bind_inv hv
    obtain ⟨y', hy', hv⟩ := bind_inv hv
    exact fn2_has fpu f (conv_has fpu hx') (conv_has fpu hy') hv
  | fn3 f a b c iha ihb ihc =>
    intro τ v ht hv
    rw [Ex.value, ht, Option.bind_some] at hv
    obtain ⟨x, hx, hv⟩ := bind_inv hv
    obtain ⟨y, hy, hv⟩ := bind_inv hv
    obtain ⟨z, hz, hv⟩ := bind_inv hv
    obtain ⟨x', hx', hv⟩ := bind_inv hv
    obtain ⟨y', hy', hv⟩ := bind_inv hv
    obtain ⟨z', hz', hv⟩ := bind_inv hv
    exact fn3_has fpu f (conv_has fpu hx') (conv_has fpu hy') (conv_has fpu hz') hv

/-! ## Safe expressions have values -/

theorem safe_guarded (Γ : Types) (p : Ex) (h : p.Safe Γ) : p.Guarded Γ := by
  induction p with
  | lit _ _ | frac _ _ _ | const _ | var _ => trivial
  | neg a ih => exact ih h
  | not a ih => exact ih h
  | arith o a b iha ihb => exact ⟨iha h.1, ihb h.2.1⟩
  | rel o a b iha ihb => exact ⟨iha h.1, ihb h.2⟩
  | and a b iha ihb => exact ⟨iha h.1, h.2⟩
  | or a b iha ihb => exact ⟨iha h.1, h.2⟩
  | pick c a b ihc iha ihb => exact ⟨ihc h.1, h.2⟩
  | fn1 f a ih => exact ih h
  | fn2 f a b iha ihb => exact ⟨iha h.1, ihb h.2.1⟩
  | fn3 f a b c iha ihb ihc => exact ⟨iha h.1, ihb h.2.1, ihc h.2.2.1⟩

theorem small_value (fpu : Fpu) {Γ : Types} {ρ : Store} {b : Ex} (h : b.SmallDivisor) : ∃ n : Int, b.value fpu Γ ρ = some (.int n) ∧ 1 ≤ n ∧ n ≤ 127 := by
  unfold Ex.SmallDivisor at h
  split at h
  · exact ⟨_, by rw [Ex.value], by omega, by omega⟩
  · next ds t => exact ⟨_, by rw [Ex.value], by rw [wrap_self (small_fits t _ (by omega) (by omega))]; omega, by rw [wrap_self (small_fits t _ (by omega) (by omega))]; omega⟩
  · exact h.elim

theorem arith_safe (fpu : Fpu) (o : Arith) {c : Ty} (hc : c ≠ .bool) {x y : Val} (hx : x.Has c) (hy : y.Has c) (h : o = .div ∨ o = .mod → (∃ n, y = .int n ∧ 1 ≤ n ∧ n ≤ 127) ∨ ∃ F, c = .flt F) :
    ∃ z, arithV fpu o c x y = some z := by
  cases c with
  | bool => exact absurd rfl hc
  | int t =>
    obtain ⟨a, rfl, _⟩ := has_int hx
    obtain ⟨b, rfl, _⟩ := has_int hy
    obtain ⟨z, hz⟩ := calc_safe o t a b fun ho => by
      rcases h ho with ⟨n, hn, h1, h2⟩ | ⟨F, hF⟩
      · cases hn; omega
      · cases hF
    exact ⟨.int z, by simp only [arithV, hz, Option.map_some]⟩
  | flt F =>
    obtain ⟨a, rfl⟩ := has_flt hx
    obtain ⟨b, rfl⟩ := has_flt hy
    exact ⟨.flt F (fpu.arith o F a b), by simp only [arithV, flt_self, Option.bind_some, Option.map_some]⟩

theorem conv_small (fpu : Fpu) {c : Ty} {n : Int} (h1 : 1 ≤ n) (h2 : n ≤ 127) {y : Val} (h : conv fpu c (.int n) = some y) : (∃ m, y = .int m ∧ 1 ≤ m ∧ m ≤ 127) ∨ ∃ F, c = .flt F := by
  cases c with
  | bool => cases h
  | int t =>
    simp only [conv, Option.some.injEq] at h
    rw [wrap_self (small_fits t n h1 h2)] at h
    exact .inl ⟨n, h.symm, h1, h2⟩
  | flt F => exact .inr ⟨F, rfl⟩

theorem fn2_safe (fpu : Fpu) (f : Fn2) {c : Ty} (hf : f.for c = true) {x y : Val} (hx : x.Has c) (hy : y.Has c) (h : f = .absDiff → ∃ F, c = .flt F) : ∃ z, f.calc fpu c x y = some z := by
  cases c with
  | bool => simp [Fn2.for] at hf
  | int t =>
    obtain ⟨a, rfl, _⟩ := has_int hx
    obtain ⟨b, rfl, _⟩ := has_int hy
    cases f with
    | absDiff => obtain ⟨F, hF⟩ := h rfl; cases hF
    | max => exact ⟨_, rfl⟩
    | min => exact ⟨_, rfl⟩
    | pow => simp [Fn2.for] at hf
    | hypot => simp [Fn2.for] at hf
    | atan2 => simp [Fn2.for] at hf
  | flt F =>
    obtain ⟨a, rfl⟩ := has_flt hx
    obtain ⟨b, rfl⟩ := has_flt hy
    exact ⟨.flt F (fpu.fn2 f F a b), by simp only [Fn2.calc, flt_self, Option.bind_some, Option.map_some]⟩

theorem fn3_safe (fpu : Fpu) (f : Fn3) {c : Ty} (hf : f.for c = true) {x y z : Val} (hx : x.Has c) (hy : y.Has c) (hz : z.Has c) (h : f ≠ .clamp) : ∃ r, f.calc fpu c x y z = some r := by
  cases c with
  | bool => simp [Fn3.for] at hf
  | int t => simp [Fn3.for] at hf; exact absurd hf h
  | flt F =>
    obtain ⟨a, rfl⟩ := has_flt hx
    obtain ⟨b, rfl⟩ := has_flt hy
    obtain ⟨c, rfl⟩ := has_flt hz
    exact ⟨.flt F (fpu.fn3 f F a b c), by simp only [Fn3.calc, flt_self, Option.bind_some, Fn3.calcFlt, if_neg h, Option.map_some]⟩

theorem safe_ex (fpu : Fpu) {Γ : Types} {ρ : Store} (ha : ArgsOk Γ ρ) (p : Ex) (hl : p.Lits fpu) (hs : p.Safe Γ) : ∀ τ, p.type Γ = some τ → ∃ v, p.value fpu Γ ρ = some v := by
  induction p with
  | lit ds s => intro τ _; obtain ⟨_, w, _, h2, _⟩ := constant_lit fpu Γ ρ ds s hl; exact ⟨w, h2⟩
  | frac ip fp s => intro τ _; obtain ⟨_, w, _, h2, _⟩ := constant_frac fpu Γ ρ ip fp s hl; exact ⟨w, h2⟩
  | const b => intro τ _; exact ⟨_, rfl⟩
  | var x => intro τ ht; obtain ⟨w, h1, _⟩ := ha x τ ht; exact ⟨w, h1⟩
  | neg a ih =>
    intro τ ht
    obtain ⟨h1, h2, h3⟩ := type_neg ht
    obtain ⟨v, hv⟩ := ih hl hs τ h1
    obtain ⟨z, h6, h7, _⟩ := neg_run fpu h3 h2 (has_ex fpu ha a hl τ v h1 hv)
    exact ⟨z, by rw [Ex.value, h1, Option.bind_some, hv, Option.bind_some, h6]⟩
  | not a ih =>
    intro τ ht
    obtain ⟨rfl, h1⟩ := type_not ht
    obtain ⟨v, hv⟩ := ih hl hs _ h1
    obtain ⟨b, rfl⟩ := has_bool (has_ex fpu ha a hl _ v h1 hv)
    exact ⟨_, by rw [Ex.value, hv]⟩
  | arith o a b iha ihb =>
    intro τ ht
    obtain ⟨s, t, h1, h2, hj⟩ := type_arith ht
    obtain ⟨v, hv⟩ := iha hl.1 hs.1 s h1
    obtain ⟨w, hw⟩ := ihb hl.2 hs.2.1 t h2
    obtain ⟨x, y, h3, h4, h5, h6, _⟩ := arithTV fpu o hj (has_ex fpu ha a hl.1 s v h1 hv) (has_ex fpu ha b hl.2 t w h2 hw)
    obtain ⟨z, hz⟩ := arith_safe fpu o (join_number hj).2.2 h5 h6 fun ho => by
      rcases hs.2.2 ho with hd | ⟨F, hF⟩
      · obtain ⟨n, hn, h7, h8⟩ := small_value fpu (Γ := Γ) (ρ := ρ) hd
        rw [hw] at hn; cases hn
        exact conv_small fpu h7 h8 h4
      · rw [ht] at hF; cases hF; exact .inr ⟨F, rfl⟩
    exact ⟨z, by rw [Ex.value, ht, Option.bind_some, hv, Option.bind_some, hw, Option.bind_some, h3, Option.bind_some, h4, Option.bind_some, hz]⟩
  | rel o a b iha ihb =>
    intro τ ht
    obtain ⟨rfl, s, t, c, h1, h2, hj⟩ := type_rel ht
    obtain ⟨v, hv⟩ := iha hl.1 hs.1 s h1
    obtain ⟨w, hw⟩ := ihb hl.2 hs.2 t h2
    obtain ⟨x', y', b', h3, h4, h5, _⟩ := relTV fpu o hj (has_ex fpu ha a hl.1 s v h1 hv) (has_ex fpu ha b hl.2 t w h2 hw)
    exact ⟨_, by rw [Ex.value, h1, h2, Option.bind_some, Option.bind_some, hj, Option.bind_some, hv, Option.bind_some, hw, Option.bind_some, h3, Option.bind_some, h4, Option.bind_some, h5]⟩
  | and a b iha ihb =>
    intro τ ht
    obtain ⟨rfl, h1, h2⟩ := type_and ht
    obtain ⟨v, hv⟩ := iha hl.1 hs.1 _ h1
    obtain ⟨w, hw⟩ := ihb hl.2 hs.2 _ h2
    obtain ⟨z, rfl⟩ := has_bool (has_ex fpu ha a hl.1 _ v h1 hv)
    rw [Ex.value, hv]
    cases z
    · exact ⟨_, rfl⟩
    · exact ⟨w, hw⟩
  | or a b iha ihb =>
    intro τ ht
    obtain ⟨rfl, h1, h2⟩ := type_or ht
    obtain ⟨v, hv⟩ := iha hl.1 hs.1 _ h1
    obtain ⟨w, hw⟩ := ihb hl.2 hs.2 _ h2
    obtain ⟨z, rfl⟩ := has_bool (has_ex fpu ha a hl.1 _ v h1 hv)
    rw [Ex.value, hv]
    cases z
    · exact ⟨w, hw⟩
    · exact ⟨_, rfl⟩
  | pick c a b ihc iha ihb =>
    intro τ ht
    obtain ⟨h0, s, t, h1, h2, hj⟩ := type_pick ht
    obtain ⟨u, hu⟩ := ihc hl.1 hs.1 _ h0
    obtain ⟨v, hv⟩ := iha hl.2.1 hs.2.1 _ h1
    obtain ⟨w, hw⟩ := ihb hl.2.2 hs.2.2 _ h2
    obtain ⟨z, rfl⟩ := has_bool (has_ex fpu ha c hl.1 _ u h0 hu)
    rw [Ex.value, ht, Option.bind_some, hu]
    have hx := has_ex fpu ha a hl.2.1 _ v h1 hv
    have hy := has_ex fpu ha b hl.2.2 _ w h2 hw
    rcases hj with ⟨rfl, rfl, rfl⟩ | hj
    · obtain ⟨x, rfl⟩ := has_bool hx
      obtain ⟨y, rfl⟩ := has_bool hy
      cases z <;> simp [hv, hw, conv]
    · obtain ⟨x, y, h3, h4, _⟩ := pickTV fpu z hj hx hy
      cases z <;> simp [hv, hw, h3, h4]
  | fn1 f a ih =>
    intro τ ht
    obtain ⟨h1, h2⟩ := type_fn1 ht
    obtain ⟨v, hv⟩ := ih hl hs τ h1
    obtain ⟨w, h3, h4, _⟩ := fn1_run fpu f h2 (has_ex fpu ha a hl τ v h1 hv)
    exact ⟨w, by rw [Ex.value, h1, Option.bind_some, hv, Option.bind_some, h3]⟩
  | fn2 f a b iha ihb =>
    intro τ ht
    obtain ⟨s, t, h1, h2, hj, hf⟩ := type_fn2 ht
    obtain ⟨v, hv⟩ := iha hl.1 hs.1 s h1
    obtain ⟨w, hw⟩ := ihb hl.2 hs.2.1 t h2
    obtain ⟨x, y, h3, h4, h5, h6, _⟩ := fn2TV fpu f hj hf (has_ex fpu ha a hl.1 s v h1 hv) (has_ex fpu ha b hl.2 t w h2 hw)
    obtain ⟨z, hz⟩ := fn2_safe fpu f hf h5 h6 fun hd => by
      obtain ⟨F, hF⟩ := hs.2.2 hd
      rw [ht] at hF; cases hF; exact ⟨F, rfl⟩
    exact ⟨z, by rw [Ex.value, ht, Option.bind_some, hv, Option.bind_some, hw, Option.bind_some, h3, Option.bind_some, h4, Option.bind_some, hz]⟩
  | fn3 f a b c iha ihb ihc =>
    intro τ ht
    obtain ⟨s, t, r, q, h1, h2, h3, hj, hk, hf⟩ := type_fn3 ht
    obtain ⟨u, hu⟩ := iha hl.1 hs.1 s h1
    obtain ⟨v, hv⟩ := ihb hl.2.1 hs.2.1 t h2
    obtain ⟨w, hw⟩ := ihc hl.2.2 hs.2.2.1 r h3
    obtain ⟨x, y, z, h4, h5, h6, h7, h8, h9, _⟩ := fn3TV fpu f hj hk hf (has_ex fpu ha a hl.1 s u h1 hu) (has_ex fpu ha b hl.2.1 t v h2 hv) (has_ex fpu ha c hl.2.2 r w h3 hw)
    obtain ⟨z', hz⟩ := fn3_safe fpu f hf h7 h8 h9 hs.2.2.2
    exact ⟨z', by rw [Ex.value, ht, Option.bind_some, hu, Option.bind_some, hv, Option.bind_some, hw, Option.bind_some, h4, Option.bind_some, h5, Option.bind_some, h6, Option.bind_some, hz]⟩

/-! ## The compiled code computes the value -/

/-- The code sees the arguments as the specification does. -/
def EnvOk (Γ : Types) (ρ : Store) (env : Env PTy MV) : Prop := ∀ x τ v, Γ x = some τ → ρ x = some v → env x = some (τ.p, v.enc)

theorem value_ex (fpu : Fpu) {Γ : Types} {ρ : Store} (ha : ArgsOk Γ ρ) {env : Env PTy MV} (he : EnvOk Γ ρ env) (p : Ex) (hl : p.Lits fpu) (hg : p.Guarded Γ) :
    ∀ τ t, p.type Γ = some τ → p.Is t → treeM (rt fpu) arity env t = M.lift ((p.value fpu Γ ρ).map fun v => (τ.p, v.enc)) := by
  induction p with
  | lit ds s =>
    rintro τ t ht rfl
    obtain ⟨σ, w, h1, h2, h3, h4⟩ := constant_lit fpu Γ ρ ds s hl
    rw [ht] at h1; cases h1
    rw [h2, treeM, eagerO]
    show M.lift (constant fpu _) = _
    rw [h4]; rfl
  | frac ip fp s =>
    rintro τ t ht rfl
    obtain ⟨σ, w, h1, h2, h3, h4⟩ := constant_frac fpu Γ ρ ip fp s hl
    rw [ht] at h1; cases h1
    rw [h2, treeM, eagerO]
    show M.lift (constant fpu _) = _
    rw [h4]; rfl
  | const b => rintro τ t ht rfl; cases ht; rw [treeM, eagerO]; rfl
  | var x =>
    rintro τ t ht rfl
    obtain ⟨v, h1, h2⟩ := ha x τ ht
    rw [treeM, eagerO, he x τ v ht h1, Ex.value, h1]; rfl
  | neg a ih =>
    rintro τ t ht ⟨u, rfl, hu⟩
    obtain ⟨h1, h2, h3⟩ := type_neg ht
    rw [treeM, ih hl hg τ u h1 hu, Ex.value, h1, Option.bind_some]
    cases hv : a.value fpu Γ ρ with
    | none => rfl
    | some v =>
      obtain ⟨w, h4, h5, h6⟩ := neg_run fpu h3 h2 (has_ex fpu ha a hl τ v h1 hv)
      simp only [Option.map_some, M.lift_some, Option.bind_some, h4]
      rw [h6]
  | not a ih =>
    rintro τ t ht ⟨u, rfl, hu⟩
    obtain ⟨rfl, h1⟩ := type_not ht
    rw [treeM, ih hl hg _ u h1 hu, Ex.value]
    cases hv : a.value fpu Γ ρ with
    | none => rfl
    | some v =>
      obtain ⟨b, rfl⟩ := has_bool (has_ex fpu ha a hl _ v h1 hv)
      simp only [Option.map_some, M.lift_some]
      exact congrArg M.lift (notTV fpu b)
  | arith o a b iha ihb =>
    rintro τ t ht ⟨u, v, rfl, hu, hv⟩
    obtain ⟨s, r, h1, h2, hj⟩ := type_arith ht
    rw [treeM, iha hl.1 hg.1 s u h1 hu, ihb hl.2 hg.2 r v h2 hv, Ex.value, ht, Option.bind_some]
    cases hx : a.value fpu Γ ρ with
    | none => rfl
    | some x => cases hy : b.value fpu Γ ρ with
      | none => rfl
      | some y =>
        obtain ⟨x', y', h3, h4, h5, h6, h7⟩ := arithTV fpu o hj (has_ex fpu ha a hl.1 s x h1 hx) (has_ex fpu ha b hl.2 r y h2 hy)
        simp only [Option.map_some, M.lift_some, Option.bind_some, h3, h4]
        rw [h7]
  | rel o a b iha ihb =>
    rintro τ t ht ⟨u, v, rfl, hu, hv⟩
    obtain ⟨rfl, s, r, c, h1, h2, hj⟩ := type_rel ht
    rw [treeM, iha hl.1 hg.1 s u h1 hu, ihb hl.2 hg.2 r v h2 hv, Ex.value, h1, h2, Option.bind_some, Option.bind_some, hj, Option.bind_some]
    cases hx : a.value fpu Γ ρ with
    | none => rfl
    | some x => cases hy : b.value fpu Γ ρ with
      | none => rfl
      | some y =>
        obtain ⟨x', y', b', h3, h4, h5, h7⟩ := relTV fpu o hj (has_ex fpu ha a hl.1 s x h1 hx) (has_ex fpu ha b hl.2 r y h2 hy)
        simp only [Option.map_some, M.lift_some, Option.bind_some, h3, h4, h5]
        rw [h7]; rfl
  | and a b iha ihb =>
    rintro τ t ht ⟨u, v, rfl, hu, hv⟩
    obtain ⟨rfl, h1, h2⟩ := type_and ht
    obtain ⟨y, hy⟩ := safe_ex fpu ha b hl.2 hg.2 _ h2
    obtain ⟨y, rfl⟩ := has_bool (has_ex fpu ha b hl.2 _ y h2 hy)
    rw [treeM, iha hl.1 hg.1 _ u h1 hu, ihb hl.2 (safe_guarded Γ b hg.2) _ v h2 hv, Ex.value, hy]
    cases hx : a.value fpu Γ ρ with
    | none => rfl
    | some x =>
      obtain ⟨x, rfl⟩ := has_bool (has_ex fpu ha a hl.1 _ x h1 hx)
      simp only [Option.map_some, M.lift_some]
      refine (congrArg M.lift (andTV fpu x y)).trans ?_
      cases x <;> rfl
  | or a b iha ihb =>
    rintro τ t ht ⟨u, v, rfl, hu, hv⟩
    obtain ⟨rfl, h1, h2⟩ := type_or ht
    obtain ⟨y, hy⟩ := safe_ex fpu ha b hl.2 hg.2 _ h2
    obtain ⟨y, rfl⟩ := has_bool (has_ex fpu ha b hl.2 _ y h2 hy)
    rw [treeM, iha hl.1 hg.1 _ u h1 hu, ihb hl.2 (safe_guarded Γ b hg.2) _ v h2 hv, Ex.value, hy]
    cases hx : a.value fpu Γ ρ with
    | none => rfl
    | some x =>
      obtain ⟨x, rfl⟩ := has_bool (has_ex fpu ha a hl.1 _ x h1 hx)
      simp only [Option.map_some, M.lift_some]
      refine (congrArg M.lift (orTV fpu x y)).trans ?_
      cases x <;> rfl
  | pick c a b ihc iha ihb =>
    rintro τ t ht ⟨w, u, v, rfl, hw, hu, hv⟩
    obtain ⟨h0, s, r, h1, h2, hj⟩ := type_pick ht
    obtain ⟨x, hx⟩ := safe_ex fpu ha a hl.2.1 hg.2.1 _ h1
    obtain ⟨y, hy⟩ := safe_ex fpu ha b hl.2.2 hg.2.2 _ h2
    have hx2 := has_ex fpu ha a hl.2.1 _ x h1 hx
    have hy2 := has_ex fpu ha b hl.2.2 _ y h2 hy
    rw [treeM, ihc hl.1 hg.1 _ w h0 hw, iha hl.2.1 (safe_guarded Γ a hg.2.1) _ u h1 hu, ihb hl.2.2 (safe_guarded Γ b hg.2.2) _ v h2 hv, Ex.value, ht, Option.bind_some, hx, hy]
    cases hz : c.value fpu Γ ρ with
    | none => rfl
    | some z =>
      obtain ⟨z, rfl⟩ := has_bool (has_ex fpu ha c hl.1 _ z h0 hz)
      simp only [Option.map_some, M.lift_some]
      rcases hj with ⟨rfl, rfl, rfl⟩ | hj
      · obtain ⟨x, rfl⟩ := has_bool hx2
        obtain ⟨y, rfl⟩ := has_bool hy2
        refine (congrArg M.lift (pick_boolTV fpu z x y)).trans ?_
        cases z <;> rfl
      · obtain ⟨x', y', h3, h4, h5⟩ := pickTV fpu z hj hx2 hy2
        refine (congrArg M.lift h5).trans ?_
        cases z <;> simp [h3, h4]
  | fn1 f a ih =>
    rintro τ t ht ⟨x, rfl, hx⟩
    obtain ⟨h1, h2⟩ := type_fn1 ht
    rw [call1M, ih hl hg τ _ h1 hx, Ex.value, h1, Option.bind_some]
    cases hv : a.value fpu Γ ρ with
    | none => rfl
    | some v =>
      obtain ⟨w, h4, h5, h6⟩ := fn1TV fpu f h2 (has_ex fpu ha a hl τ v h1 hv)
      simp only [Option.map_some, M.lift_some, Option.bind_some, h4]
      exact congrArg M.lift h6
  | fn2 f a b iha ihb =>
    rintro τ t ht ⟨u, v, rfl, hu, hv⟩
    obtain ⟨s, r, h1, h2, hj, hf⟩ := type_fn2 ht
    rw [call2M, iha hl.1 hg.1 s _ h1 hu, ihb hl.2 hg.2 r _ h2 hv, Ex.value, ht, Option.bind_some]
    cases hx : a.value fpu Γ ρ with
    | none => rfl
    | some x => cases hy : b.value fpu Γ ρ with
      | none => rfl
      | some y =>
        obtain ⟨x', y', h3, h4, h5, h6, h7⟩ := fn2TV fpu f hj hf (has_ex fpu ha a hl.1 s x h1 hx) (has_ex fpu ha b hl.2 r y h2 hy)
        simp only [Option.map_some, M.lift_some, Option.bind_some, h3, h4]
        exact congrArg M.lift h7
  | fn3 f a b c iha ihb ihc =>
    rintro τ t ht ⟨u, v, w, rfl, hu, hv, hw⟩
    obtain ⟨s, r, q', q, h1, h2, h3, hj, hk, hf⟩ := type_fn3 ht
    rw [call3M, iha hl.1 hg.1 s _ h1 hu, ihb hl.2.1 hg.2.1 r _ h2 hv, ihc hl.2.2 hg.2.2 q' _ h3 hw, Ex.value, ht, Option.bind_some]
    cases hx : a.value fpu Γ ρ with
    | none => rfl
    | some x => cases hy : b.value fpu Γ ρ with
      | none => rfl
      | some y => cases hz : c.value fpu Γ ρ with
        | none => rfl
        | some z =>
          obtain ⟨x', y', z', h4, h5, h6, h7, h8, h9, h10⟩ := fn3TV fpu f hj hk hf (has_ex fpu ha a hl.1 s x h1 hx) (has_ex fpu ha b hl.2.1 r y h2 hy) (has_ex fpu ha c hl.2.2 q' z h3 hz)
          simp only [Option.map_some, M.lift_some, Option.bind_some, h4, h5, h6]
          exact congrArg M.lift h10

end Verif.Comp.Real
