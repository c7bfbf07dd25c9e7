import Verif.Gen.ScalarTy
/-!
# Evaluation of all operands and short-circuit evaluation agree when the operands that may be skipped are quiet
-/
namespace Verif.Gen.Scalar
open Verif.Ast Verif.Ast.Rpn

section
variable {Ty V W : Type} [DecidableEq Ty] {rt : Rt Ty V W} {inl : Inline} {env : Env Ty V} {tenv : Name → Option Ty}

theorem M.some_of_then {α β : Type} {x : M W α} {f : α → M W β} {w : W} {r : W × β} (h : x.andThen f w = some r) : ∃ q, x w = some q ∧ f q.2 q.1 = some r := by
  unfold M.andThen at h
  cases hx : x w with
  | none => rw [hx] at h; simp at h
  | some q => rw [hx] at h; exact ⟨q, rfl, h⟩

theorem M.some_of_lift {α : Type} {o : Option α} {w : W} {r : W × α} (h : (M.lift o : M W α) w = some r) : o = some r.2 := by
  unfold M.lift at h
  cases o with
  | none => simp at h
  | some a => simp at h; rw [← h]

theorem M.some_of_ret {α : Type} {a : α} {w : W} {r : W × α} (h : (M.ret a : M W α) w = some r) : a = r.2 := by
  unfold M.ret at h; simp at h; rw [← h]

theorem unTV_ty {op : UnOp} {a v : TV Ty V} (h : unTV rt op a = some v) : (tySem rt tenv).un op a.1 = some v.1 := by
  unfold unTV at h
  cases hr : rt.un op a.1 with
  | none => rw [hr] at h; simp at h
  | some r =>
    rw [hr] at h
    simp at h
    obtain ⟨_, _, rfl⟩ := h
    simp [tySem, hr]

theorem castTV_castable {t : Ty} {x : TV Ty V} {v : V} (h : castTV rt t x = some v) : castable rt x.1 t = some () := by
  unfold castTV at h
  unfold castable
  by_cases e : x.1 = t
  · rw [if_pos e]
  · rw [if_neg e] at h ⊢
    cases hc : rt.cast x.1 t with
    | none => rw [hc] at h; simp at h
    | some f => rfl

theorem castable_castTV {t : Ty} (x : TV Ty V) (h : castable rt x.1 t = some ()) : ∃ v, castTV rt t x = some v := by
  unfold castable at h
  unfold castTV
  by_cases e : x.1 = t
  · rw [if_pos e]; exact ⟨_, rfl⟩
  · rw [if_neg e] at h ⊢
    cases hc : rt.cast x.1 t with
    | none => rw [hc] at h; simp at h
    | some f => exact ⟨_, rfl⟩

theorem binTV_ty {op : BinOp} {a b v : TV Ty V} (h : binTV rt op a b = some v) : (tySem rt tenv).bin op a.1 b.1 = some v.1 := by
  unfold binTV at h
  cases hc : meet rt a.1 b.1 with
  | none => rw [hc] at h; simp at h
  | some c =>
    rw [hc] at h
    simp only [Option.bind_some] at h
    cases hx : castTV rt c a with
    | none => rw [hx] at h; simp at h
    | some x =>
      rw [hx] at h
      simp only [Option.bind_some] at h
      cases hy : castTV rt c b with
      | none => rw [hy] at h; simp at h
      | some y =>
        rw [hy] at h
        simp only [Option.bind_some] at h
        cases hr : rt.binOp op c with
        | none => rw [hr] at h; simp at h
        | some r =>
          rw [hr] at h
          simp at h
          obtain ⟨_, _, rfl⟩ := h
          simp [tySem, hc, castTV_castable hx, castTV_castable hy, hr]

theorem selTV_ty {z a b v : TV Ty V} (h : selTV rt z a b = some v) : (tySem rt tenv).sel z.1 a.1 b.1 = some v.1 := by
  unfold selTV at h
  by_cases hz : rt.isBit z.1 = true
  · rw [if_pos hz] at h
    cases hc : meet rt a.1 b.1 with
    | none => rw [hc] at h; simp at h
    | some c =>
      rw [hc] at h
      simp only [Option.bind_some] at h
      cases hx : castTV rt c a with
      | none => rw [hx] at h; simp at h
      | some x =>
        rw [hx] at h
        simp only [Option.bind_some] at h
        cases hy : castTV rt c b with
        | none => rw [hy] at h; simp at h
        | some y =>
          rw [hy] at h
          simp at h
          subst h
          simp [tySem, hz, hc, castTV_castable hx, castTV_castable hy]
  · rw [if_neg hz] at h; simp at h

theorem inlTV_ty {n : Name} {vs : List (TV Ty V)} {v : TV Ty V} (h : inlTV rt n vs = some v) : (tySem rt tenv).inl n (vs.map (·.1)) = some v.1 := by
  unfold inlTV at h
  cases hr : rt.inl n (vs.map (·.1)) with
  | none => rw [hr] at h; simp at h
  | some r =>
    rw [hr] at h
    simp at h
    obtain ⟨_, _, rfl⟩ := h
    simp [tySem, hr]

theorem castsTV_castables : ∀ {ts : List Ty} {vs : List (TV Ty V)} {xs : List V}, castsTV rt ts vs = some xs → castables rt ts (vs.map (·.1)) = some () := by
  intro ts
  induction ts with
  | nil => intro vs xs h; cases vs with
    | nil => rfl
    | cons _ _ => simp [castsTV] at h
  | cons t ts ih => intro vs xs h; cases vs with
    | nil => simp [castsTV] at h
    | cons v vs =>
      rw [castsTV] at h
      cases hx : castTV rt t v with
      | none => rw [hx] at h; simp at h
      | some x =>
        rw [hx] at h
        simp only [Option.bind_some] at h
        cases hs : castsTV rt ts vs with
        | none => rw [hs] at h; simp at h
        | some ys => rw [List.map_cons, castables, castTV_castable hx]; exact ih hs

theorem callTV_ty {n : Name} {vs : List (TV Ty V)} {w : W} {r : W × TV Ty V} (h : callTV rt n vs w = some r) : (tySem rt tenv).call n (vs.map (·.1)) = some r.2.1 := by
  unfold callTV at h
  cases hf : rt.fn n with
  | none => rw [hf] at h; simp at h
  | some f =>
    rw [hf] at h
    simp only [Option.bind_some] at h
    cases hx : castsTV rt f.1 vs with
    | none => rw [hx] at h; simp at h
    | some xs =>
      rw [hx] at h
      simp at h
      obtain ⟨a, b, _, rfl⟩ := h
      simp [tySem, hf, castsTV_castables hx]

/-- The types of the values of the variables. -/
def Typed (env : Env Ty V) (tenv : Name → Option Ty) : Prop := ∀ n, tenv n = (env n).map (·.1)

mutual
/-- A value has the type of its expression. -/
theorem eager_ty (ht : Typed env tenv) (e : Expr) (h : Plain inl e) : ∀ w r, eagerE rt inl env e w = some r → tyE rt inl tenv e = some r.2.1 := by
  match e with
  | .un none o => rw [Plain] at h; unfold tyE; rw [eagerE, evalE]; exact eagerO_ty ht o h
  | .un (some op) o =>
    rw [Plain] at h
    have ho := eagerO_ty ht o h
    unfold tyE
    rw [eagerE, evalE]
    intro w r hr
    obtain ⟨q, h1, h2⟩ := M.some_of_then hr
    rw [ho w q h1]
    exact unTV_ty (M.some_of_lift h2)
  | .bin l op r =>
    rw [Plain] at h
    have hl := eager_ty ht l h.1
    have hr := eager_ty ht r h.2.2.2
    unfold tyE at *
    rw [eagerE, evalE]
    intro w r hr'
    obtain ⟨q, h1, h2⟩ := M.some_of_then hr'
    obtain ⟨q2, h3, h4⟩ := M.some_of_then h2
    rw [hl w q h1, Option.bind_some, hr _ q2 h3]
    exact binTV_ty (M.some_of_lift h4)
  | .sel c t f =>
    rw [Plain] at h
    have hc := eager_ty ht c h.1
    have ht' := eager_ty ht t h.2.1
    have hf := eager_ty ht f h.2.2
    unfold tyE at *
    rw [eagerE, evalE]
    intro w r hr'
    obtain ⟨q, h1, h2⟩ := M.some_of_then hr'
    obtain ⟨q2, h3, h4⟩ := M.some_of_then h2
    obtain ⟨q3, h5, h6⟩ := M.some_of_then h4
    rw [hc w q h1, Option.bind_some, ht' _ q2 h3, Option.bind_some, hf _ q3 h5]
    exact selTV_ty (M.some_of_lift h6)
theorem eagerO_ty (ht : Typed env tenv) (o : Operand) (h : PlainO inl o) : ∀ w r, eagerO rt inl env o w = some r → evalO inl (tySem rt tenv) o = some r.2.1 := by
  match o with
  | .bool b => intro w r hr; rw [eagerO] at hr; rw [evalO, ← M.some_of_ret hr]; rfl
  | .str b => intro w r hr; rw [eagerO] at hr; rw [evalO, ← M.some_of_ret hr]; rfl
  | .num b => intro w r hr; rw [eagerO] at hr; rw [evalO]; simp [tySem, M.some_of_lift hr]
  | .var n => intro w r hr; rw [eagerO] at hr; rw [evalO]; show tenv n = _; rw [ht n, M.some_of_lift hr]; rfl
  | .define n => rw [PlainO] at h; exact h.elim
  | .array n => rw [PlainO] at h; exact h.elim
  | .access n _ => rw [PlainO] at h; exact h.elim
  | .paren e => rw [PlainO] at h; rw [eagerO, evalO]; exact eager_ty ht e h
  | .call n es =>
    rw [PlainO] at h
    have he := eagerEs_ty ht es h.1
    intro w r hr
    rw [eagerO] at hr
    obtain ⟨q, h1, h2⟩ := M.some_of_then hr
    rw [evalO, he w q h1, Option.bind_some]
    cases hn : inl n with
    | none => rw [hn] at h2; exact callTV_ty h2
    | some k =>
      rw [hn] at h2
      have hlen : (q.2.map (·.1)).length = k := by
        rw [List.length_map]
        exact (eagerEs_length rt inl env es w q h1).trans (h.2 k hn)
      simp only
      rw [if_pos hlen]
      exact inlTV_ty (M.some_of_lift h2)
theorem eagerEs_ty (ht : Typed env tenv) (es : Exprs) (h : PlainEs inl es) : ∀ w r, eagerEs rt inl env es w = some r → evalEs inl (tySem rt tenv) es = some (r.2.map (·.1)) := by
  match es with
  | .nil => intro w r hr; rw [eagerEs] at hr; rw [evalEs, ← M.some_of_ret hr]; rfl
  | .cons e es =>
    rw [PlainEs] at h
    have he := eager_ty ht e h.1
    have hs := eagerEs_ty ht es h.2
    intro w r hr
    rw [eagerEs] at hr
    obtain ⟨q, h1, h2⟩ := M.some_of_then hr
    obtain ⟨q2, h3, h4⟩ := M.some_of_then h2
    have he' : evalE inl (tySem rt tenv) e = some q.2.1 := he w q h1
    rw [evalEs, he', Option.bind_some, hs _ q2 h3, ← M.some_of_ret h4]
    rfl
end

/-! ## Quiet expressions -/

theorem unTV_quiet {op : UnOp} {a : TV Ty V} {t : Ty} (hq : ∀ t r, rt.un op t = some r → ∀ a, ∃ v, r.2 a = some v) (h : (tySem rt tenv).un op a.1 = some t) :
    ∃ v, unTV rt op a = some v := by
  unfold unTV
  simp only [tySem] at h
  cases hr : rt.un op a.1 with
  | none => rw [hr] at h; simp at h
  | some r => obtain ⟨v, hv⟩ := hq _ r hr a.2; exact ⟨_, by simp [hv]; rfl⟩

theorem binTV_quiet {op : BinOp} {a b : TV Ty V} {t : Ty} (hq : ∀ t r, rt.binOp op t = some r → ∀ a b, ∃ v, r.2 a b = some v) (h : (tySem rt tenv).bin op a.1 b.1 = some t) :
    ∃ v, binTV rt op a b = some v := by
  unfold binTV
  simp only [tySem] at h
  cases hc : meet rt a.1 b.1 with
  | none => rw [hc] at h; simp at h
  | some c =>
    rw [hc] at h
    simp only [Option.bind_some] at h ⊢
    cases h1 : castable rt a.1 c with
    | none => rw [h1] at h; simp at h
    | some _ =>
      cases h2 : castable rt b.1 c with
      | none => rw [h1, h2] at h; simp at h
      | some _ =>
        rw [h1, h2] at h
        simp only [Option.bind_some] at h
        obtain ⟨x, hx⟩ := castable_castTV a h1
        obtain ⟨y, hy⟩ := castable_castTV b h2
        cases hr : rt.binOp op c with
        | none => rw [hr] at h; simp at h
        | some r => obtain ⟨v, hv⟩ := hq _ r hr x y; exact ⟨_, by simp [hx, hy, hv]; rfl⟩

theorem selTV_quiet {z a b : TV Ty V} {t : Ty} (h : (tySem rt tenv).sel z.1 a.1 b.1 = some t) : ∃ v, selTV rt z a b = some v := by
  unfold selTV
  simp only [tySem] at h
  by_cases hz : rt.isBit z.1 = true
  · rw [if_pos hz] at h ⊢
    cases hc : meet rt a.1 b.1 with
    | none => rw [hc] at h; simp at h
    | some c =>
      rw [hc] at h
      simp only [Option.bind_some] at h ⊢
      cases h1 : castable rt a.1 c with
      | none => rw [h1] at h; simp at h
      | some _ =>
        cases h2 : castable rt b.1 c with
        | none => rw [h1, h2] at h; simp at h
        | some _ =>
          obtain ⟨x, hx⟩ := castable_castTV a h1
          obtain ⟨y, hy⟩ := castable_castTV b h2
          exact ⟨_, by simp [hx, hy]; rfl⟩
  · rw [if_neg hz] at h; simp at h

theorem inlTV_quiet {n : Name} {vs : List (TV Ty V)} {t : Ty} (hq : ∀ ts r, rt.inl n ts = some r → ∀ vs, ∃ v, r.2 vs = some v)
    (h : (tySem rt tenv).inl n (vs.map (·.1)) = some t) : ∃ v, inlTV rt n vs = some v := by
  unfold inlTV
  simp only [tySem] at h
  cases hr : rt.inl n (vs.map (·.1)) with
  | none => rw [hr] at h; simp at h
  | some r => obtain ⟨v, hv⟩ := hq _ r hr (vs.map (·.2)); exact ⟨_, by simp [hv]; rfl⟩

theorem bind_some_of {α β : Type} {o : Option α} {f : α → Option β} {b : β} (h : o.bind f = some b) : ∃ a, o = some a ∧ f a = some b := by
  cases o with
  | none => simp at h
  | some a => exact ⟨a, rfl, h⟩

mutual
/-- A quiet expression with a type has a value, and nothing else happens. -/
theorem quiet_val (ht : Typed env tenv) (e : Expr) (h : Plain inl e) (hq : Quiet rt inl e) : ∀ t, tyE rt inl tenv e = some t → ∃ v : TV Ty V, v.1 = t ∧ eagerE rt inl env e = M.ret v := by
  match e with
  | .un none o =>
    rw [Plain] at h; rw [Quiet] at hq
    unfold tyE; rw [eagerE, evalE]; exact quietO_val ht o h hq
  | .un (some op) o =>
    rw [Plain] at h; rw [Quiet] at hq
    have ho := quietO_val ht o h hq.1
    intro t hy
    unfold tyE at hy; rw [evalE] at hy
    obtain ⟨a, h1, h2⟩ := bind_some_of hy
    obtain ⟨v, rfl, hv⟩ := ho a h1
    obtain ⟨u, hu⟩ := unTV_quiet hq.2 h2
    have := unTV_ty (tenv := tenv) hu
    rw [h2] at this
    injection this with this
    exact ⟨u, this.symm, by rw [eagerE, hv, M.ret_then, hu, M.lift_ret]⟩
  | .bin l op r =>
    rw [Plain] at h; rw [Quiet] at hq
    have hl := quiet_val ht l h.1 hq.1
    have hr := quiet_val ht r h.2.2.2 hq.2.1
    intro t hy
    unfold tyE at *; rw [evalE] at hy
    obtain ⟨a, h1, h2⟩ := bind_some_of hy
    obtain ⟨b, h3, h4⟩ := bind_some_of h2
    obtain ⟨v, rfl, hv⟩ := hl a h1
    obtain ⟨v2, rfl, hv2⟩ := hr b h3
    obtain ⟨u, hu⟩ := binTV_quiet hq.2.2 h4
    have := binTV_ty (tenv := tenv) hu
    rw [h4] at this
    injection this with this
    exact ⟨u, this.symm, by rw [eagerE, hv, M.ret_then, hv2, M.ret_then, hu, M.lift_ret]⟩
  | .sel c x f =>
    rw [Plain] at h; rw [Quiet] at hq
    have hc := quiet_val ht c h.1 hq.1
    have hx := quiet_val ht x h.2.1 hq.2.1
    have hf := quiet_val ht f h.2.2 hq.2.2
    intro t hy
    unfold tyE at *; rw [evalE] at hy
    obtain ⟨a, h1, h2⟩ := bind_some_of hy
    obtain ⟨b, h3, h4⟩ := bind_some_of h2
    obtain ⟨d, h5, h6⟩ := bind_some_of h4
    obtain ⟨v, rfl, hv⟩ := hc a h1
    obtain ⟨v2, rfl, hv2⟩ := hx b h3
    obtain ⟨v3, rfl, hv3⟩ := hf d h5
    obtain ⟨u, hu⟩ := selTV_quiet h6
    have := selTV_ty (tenv := tenv) hu
    rw [h6] at this
    injection this with this
    exact ⟨u, this.symm, by rw [eagerE, hv, M.ret_then, hv2, M.ret_then, hv3, M.ret_then, hu, M.lift_ret]⟩
theorem quietO_val (ht : Typed env tenv) (o : Operand) (h : PlainO inl o) (hq : QuietO rt inl o) :
    ∀ t, evalO inl (tySem rt tenv) o = some t → ∃ v : TV Ty V, v.1 = t ∧ eagerO rt inl env o = M.ret v := by
  match o with
  | .bool b => intro t hy; rw [evalO] at hy; injection hy with hy; exact ⟨rt.bool b, hy, by rw [eagerO]⟩
  | .str b => intro t hy; rw [evalO] at hy; injection hy with hy; exact ⟨rt.str b, hy, by rw [eagerO]⟩
  | .num b =>
    intro t hy
    rw [evalO] at hy
    have hy : (rt.num b).map (·.1) = some t := hy
    cases hb : rt.num b with
    | none => rw [hb] at hy; simp at hy
    | some v => rw [hb] at hy; injection hy with hy; exact ⟨v, hy, by rw [eagerO, hb, M.lift_ret]⟩
  | .var n =>
    intro t hy
    rw [evalO] at hy
    have hy : tenv n = some t := hy
    rw [ht n] at hy
    cases hb : env n with
    | none => rw [hb] at hy; simp at hy
    | some v => rw [hb] at hy; injection hy with hy; exact ⟨v, hy, by rw [eagerO, hb, M.lift_ret]⟩
  | .define n => rw [PlainO] at h; exact h.elim
  | .array n => rw [PlainO] at h; exact h.elim
  | .access n _ => rw [PlainO] at h; exact h.elim
  | .paren e => rw [PlainO] at h; rw [QuietO] at hq; rw [eagerO, evalO]; exact quiet_val ht e h hq
  | .call n es =>
    rw [PlainO] at h; rw [QuietO] at hq
    have he := quietEs_val ht es h.1 hq.1
    intro t hy
    rw [evalO] at hy
    obtain ⟨ts, h1, h2⟩ := bind_some_of hy
    obtain ⟨vs, rfl, hvs⟩ := he ts h1
    cases hn : inl n with
    | none => exact absurd hn hq.2.1
    | some k =>
      rw [hn] at h2
      simp only at h2
      split at h2
      · obtain ⟨u, hu⟩ := inlTV_quiet hq.2.2 h2
        have := inlTV_ty (tenv := tenv) hu
        rw [h2] at this
        injection this with this
        exact ⟨u, this.symm, by rw [eagerO, hvs, M.ret_then, hn]; simp only; rw [hu, M.lift_ret]⟩
      · simp at h2
theorem quietEs_val (ht : Typed env tenv) (es : Exprs) (h : PlainEs inl es) (hq : QuietEs rt inl es) :
    ∀ ts, evalEs inl (tySem rt tenv) es = some ts → ∃ vs : List (TV Ty V), vs.map (·.1) = ts ∧ eagerEs rt inl env es = M.ret vs := by
  match es with
  | .nil => intro ts hy; rw [evalEs] at hy; injection hy with hy; exact ⟨[], hy, by rw [eagerEs]⟩
  | .cons e es =>
    rw [PlainEs] at h; rw [QuietEs] at hq
    have he := quiet_val ht e h.1 hq.1
    have hs := quietEs_val ht es h.2 hq.2
    intro ts hy
    rw [evalEs] at hy
    obtain ⟨a, h1, h2⟩ := bind_some_of hy
    obtain ⟨v, rfl, hv⟩ := he a h1
    cases hx : evalEs inl (tySem rt tenv) es with
    | none => rw [hx] at h2; simp at h2
    | some us =>
      rw [hx] at h2
      injection h2 with h2
      obtain ⟨vs, rfl, hvs⟩ := hs us hx
      exact ⟨v :: vs, h2, by rw [eagerEs, hv, M.ret_then, hvs, M.ret_then]⟩
end

/-! ## Short-circuit evaluation -/

theorem and_op (t : Ty) (r : Ty × (V → V → Option V)) (h : rt.binOp .and t = some r) : r = (t, fun a b => some (if rt.truth a = true then b else a)) := by
  unfold Rt.binOp at h
  rw [if_pos rfl] at h
  split at h
  · injection h with h; exact h.symm
  · simp at h

theorem or_op (t : Ty) (r : Ty × (V → V → Option V)) (h : rt.binOp .or t = some r) : r = (t, fun a b => some (if rt.truth a = true then a else b)) := by
  unfold Rt.binOp at h
  rw [if_neg (by decide), if_pos rfl] at h
  split at h
  · injection h with h; exact h.symm
  · simp at h

/-- The parts of a typed binary operation. -/
theorem bin_parts {op : BinOp} {a b t : Ty} (h : (tySem rt tenv).bin op a b = some t) :
    ∃ c, meet rt a b = some c ∧ castable rt a c = some () ∧ castable rt b c = some () ∧ ∃ r, rt.binOp op c = some r := by
  obtain ⟨c, h1, h2⟩ := bind_some_of h
  obtain ⟨_, h3, h4⟩ := bind_some_of h2
  obtain ⟨_, h5, h6⟩ := bind_some_of h4
  refine ⟨c, h1, h3, h5, ?_⟩
  cases hr : rt.binOp op c with
  | none => rw [hr] at h6; simp at h6
  | some r => exact ⟨r, rfl⟩

theorem sel_parts {z a b t : Ty} (h : (tySem rt tenv).sel z a b = some t) :
    rt.isBit z = true ∧ ∃ c, meet rt a b = some c ∧ castable rt a c = some () ∧ castable rt b c = some () := by
  simp only [tySem] at h
  by_cases hz : rt.isBit z = true
  · rw [if_pos hz] at h
    refine ⟨hz, ?_⟩
    obtain ⟨c, h1, h2⟩ := bind_some_of h
    obtain ⟨_, h3, h4⟩ := bind_some_of h2
    cases hr : castable rt b c with
    | none => rw [hr] at h4; simp at h4
    | some _ => exact ⟨c, h1, h3, hr⟩
  · rw [if_neg hz] at h; simp at h

mutual
theorem lazy_eager (ht : Typed env tenv) (e : Expr) (h : Plain inl e) (hg : Guarded rt inl e) : ∀ t, tyE rt inl tenv e = some t → lazyE rt inl env tenv e = eagerE rt inl env e := by
  match e with
  | .un none o =>
    rw [Plain] at h; rw [Guarded] at hg
    unfold tyE; rw [evalE, eagerE, lazyE]; exact lazyO_eager ht o h hg
  | .un (some op) o =>
    rw [Plain] at h; rw [Guarded] at hg
    have ho := lazyO_eager ht o h hg
    intro t hy
    unfold tyE at hy; rw [evalE] at hy
    obtain ⟨a, h1, _⟩ := bind_some_of hy
    rw [eagerE, lazyE, ho a h1]
  | .bin l op r =>
    rw [Plain] at h; rw [Guarded] at hg
    have hl := lazy_eager ht l h.1 hg.1
    have hr := lazy_eager ht r h.2.2.2 hg.2.1
    have hq := fun hop => quiet_val ht r h.2.2.2 (hg.2.2 hop)
    have hlt := eager_ty (rt := rt) ht l h.1
    intro t hy
    unfold tyE at *; rw [evalE] at hy
    obtain ⟨a, h1, h2⟩ := bind_some_of hy
    obtain ⟨b, h3, h4⟩ := bind_some_of h2
    rw [eagerE, lazyE, hl a h1, hr b h3]
    refine M.congr_of _ _ _ fun w q hw => ?_
    have hqa := hlt w q hw
    rw [h1] at hqa
    injection hqa with hqa
    subst hqa
    obtain ⟨c, hc, ca, cb, rr, hrr⟩ := bin_parts h4
    obtain ⟨x, hx⟩ := castable_castTV q.2 ca
    by_cases hand : op = .and
    · rw [if_pos hand]
      obtain ⟨v, rfl, hv⟩ := hq (.inl hand) b h3
      obtain ⟨y, hcy⟩ := castable_castTV v cb
      subst hand
      have := and_op c rr hrr
      subst this
      unfold tyE
      simp only [h3, hv, Option.bind_some, hc, hx, Option.map_some, M.lift_some, M.ret_then, binTV, hcy, hrr]
      by_cases htr : rt.truth x = true
      · simp only [if_pos htr, M.lift_ret]
      · simp only [if_neg htr, M.lift_ret]
    · rw [if_neg hand]
      by_cases hor : op = .or
      · rw [if_pos hor]
        obtain ⟨v, rfl, hv⟩ := hq (.inr hor) b h3
        obtain ⟨y, hcy⟩ := castable_castTV v cb
        subst hor
        have := or_op c rr hrr
        subst this
        unfold tyE
        simp only [h3, hv, Option.bind_some, hc, hx, Option.map_some, M.lift_some, M.ret_then, binTV, hcy, hrr]
        by_cases htr : rt.truth x = true
        · simp only [if_pos htr, M.lift_ret]
        · simp only [if_neg htr, M.lift_ret]
      · rw [if_neg hor]
  | .sel c x f =>
    rw [Plain] at h; rw [Guarded] at hg
    have hc := lazy_eager ht c h.1 hg.1
    have hx := lazy_eager ht x h.2.1 hg.2.1
    have hf := lazy_eager ht f h.2.2 hg.2.2.1
    have qx := quiet_val ht x h.2.1 hg.2.2.2.1
    have qf := quiet_val ht f h.2.2 hg.2.2.2.2
    have hct := eager_ty (rt := rt) ht c h.1
    intro t hy
    unfold tyE at *; rw [evalE] at hy
    obtain ⟨a, h1, h2⟩ := bind_some_of hy
    obtain ⟨b, h3, h4⟩ := bind_some_of h2
    obtain ⟨d, h5, h6⟩ := bind_some_of h4
    rw [eagerE, lazyE, hc a h1, hx b h3, hf d h5]
    refine M.congr_of _ _ _ fun w q hw => ?_
    have hqa := hct w q hw
    rw [h1] at hqa
    injection hqa with hqa
    subst hqa
    obtain ⟨hz, k, hk, ca, cb⟩ := sel_parts h6
    obtain ⟨v, rfl, hv⟩ := qx b h3
    obtain ⟨v2, rfl, hv2⟩ := qf d h5
    obtain ⟨y, hcy⟩ := castable_castTV v ca
    obtain ⟨y2, hy2⟩ := castable_castTV v2 cb
    unfold tyE
    simp only [h3, h5, hv, hv2, Option.bind_some, hk, M.lift_some, M.ret_then, selTV, hz, if_true, hcy, hy2, Option.map_some]
    by_cases htr : rt.truth q.2.2 = true
    · simp only [if_pos htr]
    · simp only [if_neg htr]
theorem lazyO_eager (ht : Typed env tenv) (o : Operand) (h : PlainO inl o) (hg : GuardedO rt inl o) :
    ∀ t, evalO inl (tySem rt tenv) o = some t → lazyO rt inl env tenv o = eagerO rt inl env o := by
  match o with
  | .bool b => intro t _; rw [eagerO, lazyO]
  | .str b => intro t _; rw [eagerO, lazyO]
  | .num b => intro t _; rw [eagerO, lazyO]
  | .var b => intro t _; rw [eagerO, lazyO]
  | .define n => rw [PlainO] at h; exact h.elim
  | .array n => rw [PlainO] at h; exact h.elim
  | .access n _ => rw [PlainO] at h; exact h.elim
  | .paren e => rw [PlainO] at h; rw [GuardedO] at hg; rw [eagerO, lazyO, evalO]; exact lazy_eager ht e h hg
  | .call n es =>
    rw [PlainO] at h; rw [GuardedO] at hg
    have he := lazyEs_eager ht es h.1 hg
    intro t hy
    rw [evalO] at hy
    obtain ⟨ts, h1, _⟩ := bind_some_of hy
    rw [eagerO, lazyO, he ts h1]
theorem lazyEs_eager (ht : Typed env tenv) (es : Exprs) (h : PlainEs inl es) (hg : GuardedEs rt inl es) :
    ∀ ts, evalEs inl (tySem rt tenv) es = some ts → lazyEs rt inl env tenv es = eagerEs rt inl env es := by
  match es with
  | .nil => intro ts _; rw [eagerEs, lazyEs]
  | .cons e es =>
    rw [PlainEs] at h; rw [GuardedEs] at hg
    have he := lazy_eager ht e h.1 hg.1
    have hs := lazyEs_eager ht es h.2 hg.2
    intro ts hy
    rw [evalEs] at hy
    obtain ⟨a, h1, h2⟩ := bind_some_of hy
    cases hx : evalEs inl (tySem rt tenv) es with
    | none => rw [hx] at h2; simp at h2
    | some us => rw [eagerEs, lazyEs, he a h1, hs us hx]
end

end

end Verif.Gen.Scalar
