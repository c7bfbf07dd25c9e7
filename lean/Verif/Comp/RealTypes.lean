import Verif.Comp.RealLemmas
/-! # C152: types in the specification, in validation and in the compiled code -/
namespace Verif.Comp.Real
open Verif.Ast Verif.Ast.Rpn Verif.Gen Verif.Gen.Scalar Verif.Types.Conv Verif.Comp.Pipeline

/-! ## Calls in trees -/

theorem call1 {V : Type} (m : Sem V) (f : Fn1) (x : Expr) : treeV arity m (.atom (.call f.name (.cons x .nil))) = (treeV arity m x.toTree).bind fun a => m.inl f.name [a] := by
  rw [treeV, evalO, evalEs, evalEs, eval_tree, arity1]
  cases treeV arity m x.toTree <;> simp

theorem call2 {V : Type} (m : Sem V) (f : Fn2) (x y : Expr) : treeV arity m (.atom (.call f.name (.cons x (.cons y .nil)))) =
    (treeV arity m x.toTree).bind fun a => (treeV arity m y.toTree).bind fun b => m.inl f.name [a, b] := by
  rw [treeV, evalO, evalEs, evalEs, evalEs, eval_tree, eval_tree, arity2]
  cases treeV arity m x.toTree <;> cases treeV arity m y.toTree <;> simp

theorem call3 {V : Type} (m : Sem V) (f : Fn3) (x y z : Expr) : treeV arity m (.atom (.call f.name (.cons x (.cons y (.cons z .nil))))) =
    (treeV arity m x.toTree).bind fun a => (treeV arity m y.toTree).bind fun b => (treeV arity m z.toTree).bind fun c => m.inl f.name [a, b, c] := by
  rw [treeV, evalO, evalEs, evalEs, evalEs, evalEs, eval_tree, eval_tree, eval_tree, arity3]
  cases treeV arity m x.toTree <;> cases treeV arity m y.toTree <;> cases treeV arity m z.toTree <;> simp

/-! ## Operations on types -/

section
variable (fpu : Fpu) (tenv : Name → Option PTy)

theorem ty_bin (op : BinOp) (a b : PTy) : (tySem (rt fpu) tenv).bin op a b =
    (meet (rt fpu) a b).bind fun c => (castable (rt fpu) a c).bind fun _ => (castable (rt fpu) b c).bind fun _ => ((rt fpu).binOp op c).map (·.1) := rfl

theorem ty_meet {a b c : Ty} (h : join a b = some c) (op : BinOp) : (tySem (rt fpu) tenv).bin op a.p b.p = ((rt fpu).binOp op c.p).map (·.1) := by
  obtain ⟨h1, h2⟩ := join_up h
  rw [ty_bin, meet_p fpu h, Option.bind_some, castable_up fpu h1, castable_up fpu h2]
  rfl

theorem ty_bool_bin (op : BinOp) : (tySem (rt fpu) tenv).bin op .bit .bit = ((rt fpu).binOp op .bit).map (·.1) := by
  rw [ty_bin]; rfl

theorem meet_none {a b : Ty} (h : join a b = none) (hn : ¬ (a = .bool ∧ b = .bool)) : meet (rt fpu) a.p b.p = none := by
  have h1 := join_none h
  unfold meet
  rw [if_neg]
  · exact norm_bool h1
  · intro he
    have := p_inj he
    subst this
    simp at h1
    exact hn ⟨h1, h1⟩

theorem arith_type (o : Arith) {c : Ty} (hc : c ≠ .bool) : ((rt fpu).binOp o.sign c.p).map (·.1) = some c.p := by
  rw [binOp_arith]
  cases c with
  | bool => exact absurd rfl hc
  | int t => cases o <;> rfl
  | flt F => simp only [Ty.p, binT, fltOp_sign, Option.map_some]

theorem rel_type (o : Rel) {c : Ty} (hc : c ≠ .bool) : ((rt fpu).binOp o.sign c.p).map (·.1) = some .bit := by
  rw [binOp_rel]
  cases c with
  | bool => exact absurd rfl hc
  | int t => cases o <;> rfl
  | flt F => cases o <;> rfl

theorem ty_arith_none (o : Arith) {a b : Ty} (h : join a b = none) : (tySem (rt fpu) tenv).bin o.sign a.p b.p = none := by
  by_cases hb : a = .bool ∧ b = .bool
  · obtain ⟨rfl, rfl⟩ := hb
    rw [show Ty.p .bool = PTy.bit from rfl, ty_bool_bin, binOp_arith]; rfl
  · rw [ty_bin, meet_none fpu h hb]; rfl

theorem ty_rel_none (o : Rel) {a b : Ty} (h : join a b = none) : (tySem (rt fpu) tenv).bin o.sign a.p b.p = none := by
  by_cases hb : a = .bool ∧ b = .bool
  · obtain ⟨rfl, rfl⟩ := hb
    rw [show Ty.p .bool = PTy.bit from rfl, ty_bool_bin, binOp_rel]; rfl
  · rw [ty_bin, meet_none fpu h hb]; rfl

theorem ty_logic_none (op : BinOp) (ho : op = .and ∨ op = .or) {a b : Ty} (hb : ¬ (a = .bool ∧ b = .bool)) : (tySem (rt fpu) tenv).bin op a.p b.p = none := by
  cases h : join a b with
  | none => rw [ty_bin, meet_none fpu h hb]; rfl
  | some c =>
    rw [ty_meet fpu tenv h]
    have hc := (join_number h).2.2
    have : (rt fpu).isBit c.p = false := by cases c <;> first | rfl | exact absurd rfl hc
    rcases ho with rfl | rfl <;> simp [Rt.binOp, this]

theorem ty_sel (z a b : PTy) : (tySem (rt fpu) tenv).sel z a b =
    if (rt fpu).isBit z = true then (meet (rt fpu) a b).bind fun c => (castable (rt fpu) a c).bind fun _ => (castable (rt fpu) b c).map fun _ => c else none := rfl

theorem ty_sel_some {a b c : Ty} (h : join a b = some c) : (tySem (rt fpu) tenv).sel .bit a.p b.p = some c.p := by
  obtain ⟨h1, h2⟩ := join_up h
  rw [ty_sel, if_pos (by rfl), meet_p fpu h, Option.bind_some, castable_up fpu h1, castable_up fpu h2]
  rfl

theorem v_arith (o : Arith) (a b : PTy) : vBin o.sign a b = normT a b := by unfold vBin; rw [fltOp_sign]; rfl
theorem v_rel (o : Rel) (a b : PTy) : vBin o.sign a b = (normT a b).map fun _ => .bit := by
  unfold vBin
  rw [fltOp_rel, if_neg (by simp), if_pos (by cases o <;> rfl)]

theorem join_some {a b : Ty} (ha : a ≠ .bool) (hb : b ≠ .bool) : ∃ c, join a b = some c := by
  cases h : join a b with
  | none => rcases join_none h with h | h <;> contradiction
  | some c => exact ⟨c, rfl⟩

theorem join_self {a : Ty} (ha : a ≠ .bool) : join a a = some a := by
  cases a with
  | bool => exact absurd rfl ha
  | int t => simp [join, wider]
  | flt F => cases F <;> rfl

theorem vMax_norm {a b c : Ty} (h : join a b = some c) : vMax a.p b.p = c.p := by
  have h1 := norm_p h
  unfold normT at h1
  unfold vMax order
  cases ha : rank a.p with
  | none => rw [ha] at h1; simp at h1
  | some m => cases hb : rank b.p with
    | none => rw [ha, hb] at h1; simp at h1
    | some n => rw [ha, hb] at h1; simpa using h1

theorem inl1 (f : Fn1) (a : Ty) : (inlT fpu f.name [a.p]).map (·.1) = if coded1 f a.p = true then some a.p else none := by
  simp only [inlT, name1, Option.bind_some]
  split <;> rfl

theorem inl2_some (f : Fn2) {a b c : Ty} (h : join a b = some c) : (inlT fpu f.name [a.p, b.p]).map (·.1) = if f.for c = true then some c.p else none := by
  obtain ⟨h1, h2⟩ := join_up h
  obtain ⟨ca, h3, _⟩ := castV_up fpu h1
  obtain ⟨cb, h4, _⟩ := castV_up fpu h2
  simp only [inlT, name2, Option.bind_some, norm_p h, registered2_for, h3, h4, Option.map_some]
  split <;> rfl

theorem inl2_none (f : Fn2) {a b : Ty} (h : join a b = none) : inlT fpu f.name [a.p, b.p] = none := by
  simp only [inlT, name2, Option.bind_some, norm_bool (join_none h), Option.bind_none]

theorem join_up3 {a b c q r : Ty} (h : join a b = some q) (h' : join q c = some r) : Up a r ∧ Up b r ∧ Up c r := by
  have h1 := join_up h
  have h2 := join_up h'
  have tr : ∀ x, Up x q → Up q r → Up x r := fun x hx hq => by cases x <;> cases q <;> cases r <;> simp [Up] at hx hq ⊢
  exact ⟨tr a h1.1 h2.1, tr b h1.2 h2.1, h2.2⟩

theorem inl3_some (f : Fn3) {a b c q r : Ty} (h : join a b = some q) (h' : join q c = some r) :
    (inlT fpu f.name [a.p, b.p, c.p]).map (·.1) = if f.for r = true then some r.p else none := by
  obtain ⟨h1, h2, h3⟩ := join_up3 h h'
  obtain ⟨ca, h4, _⟩ := castV_up fpu h1
  obtain ⟨cb, h5, _⟩ := castV_up fpu h2
  obtain ⟨cc, h6, _⟩ := castV_up fpu h3
  simp only [inlT, name3, Option.bind_some, norm_p h, norm_p h', registered3_for, h4, h5, h6, Option.map_some]
  split <;> rfl

theorem inl3_none (f : Fn3) {a b c : Ty} (h : (join a b).bind (fun q => join q c) = none) : inlT fpu f.name [a.p, b.p, c.p] = none := by
  simp only [inlT, name3, Option.bind_some]
  cases h1 : join a b with
  | none => rw [norm_bool (join_none h1)]; rfl
  | some q =>
    rw [h1, Option.bind_some] at h
    rw [norm_p h1, Option.bind_some, norm_bool (join_none h)]; rfl
end

/-! ## Types of expressions -/

theorem even_level (Γ : Types) (p : Ex) (h : p.Even Γ) : p.Level Γ := by
  induction p with
  | lit _ _ | frac _ _ _ | const _ | var _ => trivial
  | neg a _ => exact h
  | not a ih => rw [Ex.Even] at h; exact ih h
  | arith _ a b iha ihb | rel _ a b iha ihb | and a b iha ihb | or a b iha ihb => rw [Ex.Even] at h; exact ⟨iha h.1, ihb h.2⟩
  | pick c a b ihc iha ihb => rw [Ex.Even] at h; exact ⟨ihc h.1, iha h.2.1, ihb h.2.2.1⟩
  | fn1 _ a _ => exact h
  | fn2 _ a b _ _ => exact h
  | fn3 _ a b c _ _ _ => exact h

/-- What validation (`pr`) and code generation (`ty`) say about an expression. -/
def Seen (Γ : Types) (p : Ex) (pr ty : Option PTy) : Prop :=
  match p.type Γ with
  | some τ => ty = some τ.p ∧ ∃ u : Ty, pr = some u.p ∧ (u = .bool ↔ τ = .bool) ∧ (p.Even Γ → u = τ)
  | none => pr = none ∨ ty = none

theorem Seen.some {Γ : Types} {p : Ex} {pr ty : Option PTy} {τ : Ty} (h : Seen Γ p pr ty) (ht : p.type Γ = some τ) :
    ty = some τ.p ∧ ∃ u : Ty, pr = some u.p ∧ (u = .bool ↔ τ = .bool) ∧ (p.Even Γ → u = τ) := by unfold Seen at h; rw [ht] at h; exact h
theorem Seen.none {Γ : Types} {p : Ex} {pr ty : Option PTy} (h : Seen Γ p pr ty) (ht : p.type Γ = none) : pr = none ∨ ty = none := by unfold Seen at h; rw [ht] at h; exact h

theorem seen_bad {Γ : Types} {p : Ex} {pr ty : Option PTy} (ht : p.type Γ = none) (h : pr = none ∨ ty = none) : Seen Γ p pr ty := by unfold Seen; rw [ht]; exact h
theorem seen_ok {Γ : Types} {p : Ex} {pr ty : Option PTy} {τ : Ty} (u : Ty) (ht : p.type Γ = some τ) (h1 : ty = some τ.p) (h2 : pr = some u.p) (h3 : u = .bool ↔ τ = .bool) (h4 : p.Even Γ → u = τ) :
    Seen Γ p pr ty := by unfold Seen; rw [ht]; exact ⟨h1, u, h2, h3, h4⟩

theorem seen_neg (fpu : Fpu) (tenv : Name → Option PTy) {Γ : Types} {a : Ex} {pr ty : Option PTy} (h : Seen Γ a pr ty) (he : a.Even Γ) :
    Seen Γ (.neg a) (pr.bind (vUn .neg)) (ty.bind ((tySem (rt fpu) tenv).un .neg)) := by
  have e : (tySem (rt fpu) tenv).un .neg = fun t => (unT .neg t).map (·.1) := rfl
  rw [e]
  cases ha : a.type Γ with
  | none => exact seen_bad (by rw [Ex.type, ha]) (by rcases h.none ha with h | h <;> simp [h])
  | some τ =>
    obtain ⟨rfl, u, rfl, _, h4⟩ := h.some ha
    have := h4 he
    subst this
    cases u with
    | bool => exact seen_bad (by rw [Ex.type, ha]) (.inl rfl)
    | int t =>
      by_cases hs : t.signed = true
      · exact seen_ok (.int t) (τ := .int t) (by rw [Ex.type, ha]; simp [hs]) (by simp [Ty.p, unT]) (by simp [Ty.p, vUn, hs]) Iff.rfl fun _ => rfl
      · exact seen_bad (by rw [Ex.type, ha]; simp [hs]) (.inl (by simp [Ty.p, vUn, hs]))
    | flt F => exact seen_ok (.flt F) (τ := .flt F) (by rw [Ex.type, ha]) (by simp [Ty.p, unT]) (by simp [Ty.p, vUn]) Iff.rfl fun _ => rfl

theorem seen_not (fpu : Fpu) (tenv : Name → Option PTy) {Γ : Types} {a : Ex} {pr ty : Option PTy} (h : Seen Γ a pr ty) :
    Seen Γ (.not a) (pr.bind (vUn .not)) (ty.bind ((tySem (rt fpu) tenv).un .not)) := by
  have e : (tySem (rt fpu) tenv).un .not = fun t => (unT .not t).map (·.1) := rfl
  rw [e]
  cases ha : a.type Γ with
  | none => exact seen_bad (by rw [Ex.type, ha]) (by rcases h.none ha with h | h <;> simp [h])
  | some τ =>
    obtain ⟨rfl, u, rfl, h3, h4⟩ := h.some ha
    cases τ with
    | bool =>
      have := h3.2 rfl
      subst this
      exact seen_ok .bool (τ := .bool) (by rw [Ex.type, ha]) rfl rfl Iff.rfl fun _ => rfl
    | int t => exact seen_bad (by rw [Ex.type, ha]) (.inr rfl)
    | flt F => exact seen_bad (by rw [Ex.type, ha]) (.inr rfl)

theorem seen_arith (fpu : Fpu) (tenv : Name → Option PTy) {Γ : Types} (o : Arith) {a b : Ex} {pa ta pb tb : Option PTy} (h1 : Seen Γ a pa ta) (h2 : Seen Γ b pb tb) :
    Seen Γ (.arith o a b) (pa.bind fun x => pb.bind fun y => vBin o.sign x y) (ta.bind fun x => tb.bind fun y => (tySem (rt fpu) tenv).bin o.sign x y) := by
  cases ha : a.type Γ with
  | none => exact seen_bad (by rw [Ex.type, ha]; rfl) (by rcases h1.none ha with h | h <;> simp [h])
  | some s =>
    cases hb : b.type Γ with
    | none => exact seen_bad (by rw [Ex.type, ha, hb]; rfl) (by rcases h2.none hb with h | h <;> simp [h])
    | some t =>
      obtain ⟨rfl, u, rfl, h3, h4⟩ := h1.some ha
      obtain ⟨rfl, w, rfl, h5, h6⟩ := h2.some hb
      simp only [Option.bind_some]
      cases hj : join s t with
      | none => exact seen_bad (by rw [Ex.type, ha, hb]; simp [hj]) (.inr (ty_arith_none fpu tenv o hj))
      | some c =>
        obtain ⟨hs, ht, hc⟩ := join_number hj
        obtain ⟨d, hd⟩ := join_some (a := u) (b := w) (fun h => hs (h3.1 h)) fun h => ht (h5.1 h)
        refine seen_ok d (τ := c) (by rw [Ex.type, ha, hb]; simp [hj]) (by rw [ty_meet fpu tenv hj, arith_type fpu o hc]) (by rw [v_arith, norm_p hd]) ?_ ?_
        · exact ⟨fun h => absurd h (join_number hd).2.2, fun h => absurd h hc⟩
        · intro he
          rw [Ex.Even] at he
          rw [h4 he.1, h6 he.2, hj] at hd
          exact (Option.some.inj hd).symm

theorem seen_rel (fpu : Fpu) (tenv : Name → Option PTy) {Γ : Types} (o : Rel) {a b : Ex} {pa ta pb tb : Option PTy} (h1 : Seen Γ a pa ta) (h2 : Seen Γ b pb tb) :
    Seen Γ (.rel o a b) (pa.bind fun x => pb.bind fun y => vBin o.sign x y) (ta.bind fun x => tb.bind fun y => (tySem (rt fpu) tenv).bin o.sign x y) := by
  cases ha : a.type Γ with
  | none => exact seen_bad (by rw [Ex.type, ha]; rfl) (by rcases h1.none ha with h | h <;> simp [h])
  | some s =>
    cases hb : b.type Γ with
    | none => exact seen_bad (by rw [Ex.type, ha, hb]; rfl) (by rcases h2.none hb with h | h <;> simp [h])
    | some t =>
      obtain ⟨rfl, u, rfl, h3, h4⟩ := h1.some ha
      obtain ⟨rfl, w, rfl, h5, h6⟩ := h2.some hb
      simp only [Option.bind_some]
      cases hj : join s t with
      | none => exact seen_bad (by rw [Ex.type, ha, hb]; simp [hj]) (.inr (ty_rel_none fpu tenv o hj))
      | some c =>
        obtain ⟨hs, ht, hc⟩ := join_number hj
        obtain ⟨d, hd⟩ := join_some (a := u) (b := w) (fun h => hs (h3.1 h)) fun h => ht (h5.1 h)
        exact seen_ok .bool (τ := .bool) (by rw [Ex.type, ha, hb]; simp [hj]) (by rw [ty_meet fpu tenv hj, rel_type fpu o hc]; rfl) (by rw [v_rel, norm_p hd]; rfl) Iff.rfl fun _ => rfl

theorem seen_logic (fpu : Fpu) (tenv : Name → Option PTy) {Γ : Types} (op : BinOp) (ho : op = .and ∨ op = .or) (p : Ex) {a b : Ex}
    (hp : p.type Γ = match a.type Γ, b.type Γ with | some .bool, some .bool => some .bool | _, _ => none) {pa ta pb tb : Option PTy} (h1 : Seen Γ a pa ta) (h2 : Seen Γ b pb tb) :
    Seen Γ p (pa.bind fun x => pb.bind fun y => vBin op x y) (ta.bind fun x => tb.bind fun y => (tySem (rt fpu) tenv).bin op x y) := by
  cases ha : a.type Γ with
  | none => exact seen_bad (by rw [hp, ha]) (by rcases h1.none ha with h | h <;> simp [h])
  | some s =>
    cases hb : b.type Γ with
    | none => exact seen_bad (by rw [hp, hb]; split <;> simp_all) (by rcases h2.none hb with h | h <;> simp [h])
    | some t =>
      obtain ⟨rfl, u, rfl, h3, h4⟩ := h1.some ha
      obtain ⟨rfl, w, rfl, h5, h6⟩ := h2.some hb
      simp only [Option.bind_some]
      by_cases hst : s = .bool ∧ t = .bool
      · obtain ⟨rfl, rfl⟩ := hst
        have := h3.2 rfl
        subst this
        have := h5.2 rfl
        subst this
        refine seen_ok .bool (τ := .bool) (by rw [hp, ha, hb]) ?_ ?_ Iff.rfl fun _ => rfl
        · rw [show Ty.p .bool = PTy.bit from rfl, ty_bool_bin]; rcases ho with rfl | rfl <;> rfl
        · rcases ho with rfl | rfl <;> rfl
      · refine seen_bad ?_ (.inr (ty_logic_none fpu tenv op ho hst))
        rw [hp, ha, hb]
        cases s <;> cases t <;> simp at hst ⊢

theorem seen_pick (fpu : Fpu) (tenv : Name → Option PTy) {Γ : Types} {c a b : Ex} {pc tc pa ta pb tb : Option PTy} (h0 : Seen Γ c pc tc) (h1 : Seen Γ a pa ta) (h2 : Seen Γ b pb tb) :
    Seen Γ (.pick c a b) (pc.bind fun z => pa.bind fun x => pb.bind fun y => vSel z x y) (tc.bind fun z => ta.bind fun x => tb.bind fun y => (tySem (rt fpu) tenv).sel z x y) := by
  cases hc : c.type Γ with
  | none => exact seen_bad (by rw [Ex.type, hc]) (by rcases h0.none hc with h | h <;> simp [h])
  | some r =>
    cases ha : a.type Γ with
    | none => exact seen_bad (by rw [Ex.type, ha]; split <;> simp_all) (by rcases h1.none ha with h | h <;> simp [h])
    | some s =>
      cases hb : b.type Γ with
      | none => exact seen_bad (by rw [Ex.type, hb]; split <;> simp_all) (by rcases h2.none hb with h | h <;> simp [h])
      | some t =>
        obtain ⟨rfl, z, rfl, h7, h8⟩ := h0.some hc
        obtain ⟨rfl, u, rfl, h3, h4⟩ := h1.some ha
        obtain ⟨rfl, w, rfl, h5, h6⟩ := h2.some hb
        simp only [Option.bind_some]
        by_cases hr : r = .bool
        · subst hr
          have := h7.2 rfl
          subst this
          by_cases hst : s = .bool ∧ t = .bool
          · obtain ⟨rfl, rfl⟩ := hst
            have := h3.2 rfl
            subst this
            have := h5.2 rfl
            subst this
            exact seen_ok .bool (τ := .bool) (by rw [Ex.type, hc, ha, hb]) rfl rfl Iff.rfl fun _ => rfl
          · have e : (Ex.pick c a b).type Γ = join s t := by
              rw [Ex.type, hc, ha, hb]
              cases s <;> cases t <;> simp at hst ⊢
            cases hj : join s t with
            | none =>
              refine seen_bad (by rw [e, hj]) (.inr ?_)
              rw [ty_sel, meet_none fpu hj hst]
              split <;> rfl
            | some d =>
              obtain ⟨hs, ht, hd⟩ := join_number hj
              obtain ⟨q, hq⟩ := join_some (a := u) (b := w) (fun h => hs (h3.1 h)) fun h => ht (h5.1 h)
              refine seen_ok w (τ := d) (by rw [e, hj]) (ty_sel_some fpu tenv hj) ?_ ⟨fun h => absurd (h5.1 h) ht, fun h => absurd h hd⟩ ?_
              · unfold vSel
                rw [if_pos ⟨rfl, .inr (by rw [norm_p hq]; rfl)⟩]
              · intro he
                rw [Ex.Even] at he
                have h9 := he.2.2.2
                rw [ha, hb] at h9
                cases h9
                rw [join_self hs] at hj
                cases hj
                exact h6 he.2.2.1
        · refine seen_bad ?_ (.inr ?_)
          · rw [Ex.type, hc]
            cases r <;> simp at hr ⊢
          · rw [ty_sel, if_neg]
            cases r <;> first | exact absurd rfl hr | (intro h; cases h)

theorem seen_fn1 (fpu : Fpu) (tenv : Name → Option PTy) {Γ : Types} (f : Fn1) {a : Ex} {pr ty : Option PTy} (h : Seen Γ a pr ty) (he : a.Even Γ) :
    Seen Γ (.fn1 f a) (pr.bind fun x => vInl f.name [x]) (ty.bind fun x => (tySem (rt fpu) tenv).inl f.name [x]) := by
  cases ha : a.type Γ with
  | none => exact seen_bad (by rw [Ex.type, ha]; rfl) (by rcases h.none ha with h | h <;> simp [h])
  | some τ =>
    obtain ⟨rfl, u, rfl, _, h4⟩ := h.some ha
    have := h4 he
    subst this
    by_cases hf : f.for u = true
    · refine seen_ok u (τ := u) (by rw [Ex.type, ha]; simp [hf]) ?_ ?_ Iff.rfl fun _ => rfl
      · show (inlT fpu f.name [u.p]).map (·.1) = _
        rw [inl1, if_pos (coded1_for hf)]
      · simp only [Option.bind_some, vInl, name1, registered1_for, hf, if_true]
    · refine seen_bad (by rw [Ex.type, ha]; simp [hf]) (.inl ?_)
      simp only [Option.bind_some, vInl, name1, registered1_for, hf, if_false]
      rfl

theorem seen_fn2 (fpu : Fpu) (tenv : Name → Option PTy) {Γ : Types} (f : Fn2) {a b : Ex} {pa ta pb tb : Option PTy} (h1 : Seen Γ a pa ta) (h2 : Seen Γ b pb tb) (he : a.Even Γ) (hf : b.Even Γ) :
    Seen Γ (.fn2 f a b) (pa.bind fun x => pb.bind fun y => vInl f.name [x, y]) (ta.bind fun x => tb.bind fun y => (tySem (rt fpu) tenv).inl f.name [x, y]) := by
  cases ha : a.type Γ with
  | none => exact seen_bad (by rw [Ex.type, ha]; rfl) (by rcases h1.none ha with h | h <;> simp [h])
  | some s =>
    cases hb : b.type Γ with
    | none => exact seen_bad (by rw [Ex.type, ha, hb]; rfl) (by rcases h2.none hb with h | h <;> simp [h])
    | some t =>
      obtain ⟨rfl, u, rfl, _, h4⟩ := h1.some ha
      obtain ⟨rfl, w, rfl, _, h6⟩ := h2.some hb
      have := h4 he
      subst this
      have := h6 hf
      subst this
      simp only [Option.bind_some]
      cases hj : join u w with
      | none =>
        refine seen_bad (by rw [Ex.type, ha, hb]; simp [hj]) (.inr ?_)
        show (inlT fpu f.name [u.p, w.p]).map (·.1) = none
        rw [inl2_none fpu f hj]; rfl
      | some c =>
        by_cases hfc : f.for c = true
        · refine seen_ok c (τ := c) (by rw [Ex.type, ha, hb]; simp [hj, hfc]) ?_ ?_ Iff.rfl fun _ => rfl
          · show (inlT fpu f.name [u.p, w.p]).map (·.1) = _
            rw [inl2_some fpu f hj, if_pos hfc]
          · simp only [vInl, name2, Option.bind_some, vMax_norm hj, registered2_for, hfc, if_true]
        · refine seen_bad (by rw [Ex.type, ha, hb]; simp [hj, hfc]) (.inr ?_)
          show (inlT fpu f.name [u.p, w.p]).map (·.1) = none
          rw [inl2_some fpu f hj, if_neg hfc]

theorem seen_fn3 (fpu : Fpu) (tenv : Name → Option PTy) {Γ : Types} (f : Fn3) {a b c : Ex} {pa ta pb tb pc tc : Option PTy} (h1 : Seen Γ a pa ta) (h2 : Seen Γ b pb tb) (h3 : Seen Γ c pc tc)
    (ea : a.Even Γ) (eb : b.Even Γ) (ec : c.Even Γ) :
    Seen Γ (.fn3 f a b c) (pa.bind fun x => pb.bind fun y => pc.bind fun z => vInl f.name [x, y, z]) (ta.bind fun x => tb.bind fun y => tc.bind fun z => (tySem (rt fpu) tenv).inl f.name [x, y, z]) := by
  cases ha : a.type Γ with
  | none => exact seen_bad (by rw [Ex.type, ha]; rfl) (by rcases h1.none ha with h | h <;> simp [h])
  | some s =>
    cases hb : b.type Γ with
    | none => exact seen_bad (by rw [Ex.type, ha, hb]; rfl) (by rcases h2.none hb with h | h <;> simp [h])
    | some t =>
      cases hc : c.type Γ with
      | none => exact seen_bad (by rw [Ex.type, ha, hb, hc]; rfl) (by rcases h3.none hc with h | h <;> simp [h])
      | some r =>
        obtain ⟨rfl, u, rfl, _, h4⟩ := h1.some ha
        obtain ⟨rfl, v, rfl, _, h5⟩ := h2.some hb
        obtain ⟨rfl, w, rfl, _, h6⟩ := h3.some hc
        have := h4 ea
        subst this
        have := h5 eb
        subst this
        have := h6 ec
        subst this
        simp only [Option.bind_some]
        have hn : (join u v).bind (fun q => join q w) = none → Seen Γ (.fn3 f a b c) (vInl f.name [u.p, v.p, w.p]) ((tySem (rt fpu) tenv).inl f.name [u.p, v.p, w.p]) := fun hj => by
          refine seen_bad ?_ (.inr ?_)
          · rw [Ex.type, ha, hb, hc]
            simp only [Option.bind_some]
            cases h : join u v with
            | none => rfl
            | some q => rw [h, Option.bind_some] at hj; simp [hj]
          · show (inlT fpu f.name [u.p, v.p, w.p]).map (·.1) = none
            rw [inl3_none fpu f hj]; rfl
        cases hj : join u v with
        | none => exact hn (by rw [hj]; rfl)
        | some q =>
          cases hk : join q w with
          | none => exact hn (by rw [hj, Option.bind_some, hk])
          | some d =>
            by_cases hfc : f.for d = true
            · refine seen_ok d (τ := d) (by rw [Ex.type, ha, hb, hc]; simp [hj, hk, hfc]) ?_ ?_ Iff.rfl fun _ => rfl
              · show (inlT fpu f.name [u.p, v.p, w.p]).map (·.1) = _
                rw [inl3_some fpu f hj hk, if_pos hfc]
              · simp only [vInl, name3, Option.bind_some, vMax_norm hj, vMax_norm hk, registered3_for, hfc, if_true]
            · refine seen_bad (by rw [Ex.type, ha, hb, hc]; simp [hj, hk, hfc]) (.inr ?_)
              show (inlT fpu f.name [u.p, v.p, w.p]).map (·.1) = none
              rw [inl3_some fpu f hj hk, if_neg hfc]

/-- Validation and code generation know the types of the specification. -/
theorem seen_ex (fpu : Fpu) (Γ : Types) (tenv : Name → Option PTy) (henv : ∀ x, tenv x = (Γ x).map Ty.p) (p : Ex) (hl : p.Lits fpu) (hv : p.Level Γ) :
    ∀ t, p.Is t → Seen Γ p (treeV arity (vSem fpu tenv) t) (treeV arity (tySem (rt fpu) tenv) t) := by
  induction p with
  | lit ds s =>
    rintro t rfl
    obtain ⟨τ, v, h1, _, _, h2⟩ := constant_lit fpu Γ (fun _ => none) ds s hl
    exact seen_ok τ h1 (by rw [treeV, evalO]; show (constant fpu _).map (·.1) = _; rw [h2]; rfl) (by rw [treeV, evalO]; show (constant fpu _).map (·.1) = _; rw [h2]; rfl) Iff.rfl fun _ => rfl
  | frac ip fp s =>
    rintro t rfl
    obtain ⟨τ, v, h1, _, _, h2⟩ := constant_frac fpu Γ (fun _ => none) ip fp s hl
    exact seen_ok τ h1 (by rw [treeV, evalO]; show (constant fpu _).map (·.1) = _; rw [h2]; rfl) (by rw [treeV, evalO]; show (constant fpu _).map (·.1) = _; rw [h2]; rfl) Iff.rfl fun _ => rfl
  | const b => rintro t rfl; exact seen_ok .bool (τ := .bool) rfl rfl rfl Iff.rfl fun _ => rfl
  | var x =>
    rintro t rfl
    cases hx : Γ x with
    | none => exact seen_bad hx (.inl ((henv x).trans (by rw [hx]; rfl)))
    | some τ => exact seen_ok τ (τ := τ) hx ((henv x).trans (by rw [hx]; rfl)) ((henv x).trans (by rw [hx]; rfl)) Iff.rfl fun _ => rfl
  | neg a ih => rintro t ⟨u, rfl, hu⟩; exact seen_neg fpu tenv (ih hl (even_level Γ a hv) u hu) hv
  | not a ih => rintro t ⟨u, rfl, hu⟩; exact seen_not fpu tenv (ih hl hv u hu)
  | arith o a b iha ihb => rintro t ⟨u, v, rfl, h1, h2⟩; exact seen_arith fpu tenv o (iha hl.1 hv.1 u h1) (ihb hl.2 hv.2 v h2)
  | rel o a b iha ihb => rintro t ⟨u, v, rfl, h1, h2⟩; exact seen_rel fpu tenv o (iha hl.1 hv.1 u h1) (ihb hl.2 hv.2 v h2)
  | and a b iha ihb => rintro t ⟨u, v, rfl, h1, h2⟩; exact seen_logic fpu tenv .and (.inl rfl) _ (by rw [Ex.type]; split <;> simp_all) (iha hl.1 hv.1 u h1) (ihb hl.2 hv.2 v h2)
  | or a b iha ihb => rintro t ⟨u, v, rfl, h1, h2⟩; exact seen_logic fpu tenv .or (.inr rfl) _ (by rw [Ex.type]; split <;> simp_all) (iha hl.1 hv.1 u h1) (ihb hl.2 hv.2 v h2)
  | pick c a b ihc iha ihb => rintro t ⟨w, u, v, rfl, h0, h1, h2⟩; exact seen_pick fpu tenv (ihc hl.1 hv.1 w h0) (iha hl.2.1 hv.2.1 u h1) (ihb hl.2.2 hv.2.2 v h2)
  | fn1 f a ih =>
    rintro t ⟨x, rfl, h1⟩
    rw [call1, call1]
    exact seen_fn1 fpu tenv f (ih hl (even_level Γ a hv) _ h1) hv
  | fn2 f a b iha ihb =>
    rintro t ⟨x, y, rfl, h1, h2⟩
    rw [call2, call2]
    exact seen_fn2 fpu tenv f (iha hl.1 (even_level Γ a hv.1) _ h1) (ihb hl.2 (even_level Γ b hv.2) _ h2) hv.1 hv.2
  | fn3 f a b c iha ihb ihc =>
    rintro t ⟨x, y, z, rfl, h1, h2, h3⟩
    rw [call3, call3]
    exact seen_fn3 fpu tenv f (iha hl.1 (even_level Γ a hv.1) _ h1) (ihb hl.2.1 (even_level Γ b hv.2.1) _ h2) (ihc hl.2.2 (even_level Γ c hv.2.2) _ h3) hv.1 hv.2.1 hv.2.2

end Verif.Comp.Real
