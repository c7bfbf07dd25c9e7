import Verif.Comp.Script
/-!
# Lemmas about scripts: expressions
-/
namespace Verif.Comp.Script
open Verif.Ast Verif.Ast.Rpn Verif.Gen Verif.Gen.Scalar Verif.Types.Conv Verif.Comp.Pipeline Verif.Comp.Function

/-! ## Types -/

theorem tNeg_some {a : Option Ty} {τ : Ty} (h : tNeg a = some τ) : ∃ t, a = some (.int t) ∧ t.signed = true ∧ τ = .int t := by
  match a with
  | none => cases h
  | some .bool => cases h
  | some (.int t) =>
    simp only [tNeg] at h
    by_cases hs : t.signed = true
    · rw [if_pos hs] at h; injection h with h; exact ⟨t, rfl, hs, h.symm⟩
    · rw [if_neg hs] at h; cases h

theorem tNot_some {a : Option Ty} {τ : Ty} (h : tNot a = some τ) : a = some .bool ∧ τ = .bool := by
  match a with
  | none => cases h
  | some .bool => cases h; exact ⟨rfl, rfl⟩
  | some (.int t) => cases h

theorem tArith_some {a b : Option Ty} {τ : Ty} (h : tArith a b = some τ) : ∃ s t, a = some (.int s) ∧ b = some (.int t) ∧ τ = .int (wider s t) := by
  match a, b with
  | none, _ => cases h
  | some .bool, _ => cases h
  | some (.int _), none => cases h
  | some (.int _), some .bool => cases h
  | some (.int s), some (.int t) => cases h; exact ⟨s, t, rfl, rfl, rfl⟩

theorem tRel_some {a b : Option Ty} {τ : Ty} (h : tRel a b = some τ) : ∃ s t, a = some (.int s) ∧ b = some (.int t) ∧ τ = .bool := by
  match a, b with
  | none, _ => cases h
  | some .bool, _ => cases h
  | some (.int _), none => cases h
  | some (.int _), some .bool => cases h
  | some (.int s), some (.int t) => cases h; exact ⟨s, t, rfl, rfl, rfl⟩

theorem tLogic_some {a b : Option Ty} {τ : Ty} (h : tLogic a b = some τ) : a = some .bool ∧ b = some .bool ∧ τ = .bool := by
  match a, b with
  | none, _ => cases h
  | some (.int _), _ => cases h
  | some .bool, none => cases h
  | some .bool, some (.int _) => cases h
  | some .bool, some .bool => cases h; exact ⟨rfl, rfl, rfl⟩

theorem tPick_some {c a b : Option Ty} {τ : Ty} (h : tPick c a b = some τ) :
    c = some .bool ∧ ((∃ s t, a = some (.int s) ∧ b = some (.int t) ∧ τ = .int (wider s t)) ∨ (a = some .bool ∧ b = some .bool ∧ τ = .bool)) := by
  match c, a, b with
  | none, _, _ => cases h
  | some (.int _), _, _ => cases h
  | some .bool, none, _ => cases h
  | some .bool, some .bool, none => cases h
  | some .bool, some .bool, some (.int _) => cases h
  | some .bool, some .bool, some .bool => cases h; exact ⟨rfl, .inr ⟨rfl, rfl, rfl⟩⟩
  | some .bool, some (.int _), none => cases h
  | some .bool, some (.int _), some .bool => cases h
  | some .bool, some (.int s), some (.int t) => cases h; exact ⟨rfl, .inl ⟨s, t, rfl, rfl, rfl⟩⟩

theorem tCall_some {s : Option (List Ty × Ty)} {ts : Option (List Ty)} {τ : Ty} (h : tCall s ts = some τ) : ∃ q us, s = some q ∧ ts = some us ∧ convertsAll q.1 us = true ∧ τ = q.2 := by
  match s, ts with
  | none, _ => cases h
  | some _, none => cases h
  | some q, some us =>
    simp only [tCall] at h
    by_cases hc : convertsAll q.1 us = true
    · rw [if_pos hc] at h; injection h with h; exact ⟨q, us, rfl, rfl, hc, h.symm⟩
    · rw [if_neg hc] at h; cases h

theorem types_cons {σ : Sigs} {Γ : Types} {e : Ex} {es : Exs} {us : List Ty} (h : (Exs.cons e es).types σ Γ = some us) :
    ∃ t ts, e.type σ Γ = some t ∧ es.types σ Γ = some ts ∧ us = t :: ts := by
  rw [Exs.types] at h
  cases h1 : e.type σ Γ with
  | none => rw [h1] at h; cases h
  | some t =>
    cases h2 : es.types σ Γ with
    | none => rw [h1, h2] at h; cases h
    | some ts => rw [h1, h2] at h; cases h; exact ⟨t, ts, rfl, rfl, rfl⟩

/-! ## Values -/

theorem has_int {v : Val} {t : IntTy} (h : v.Has (.int t)) : ∃ z, v = .int z ∧ IntOps.Fits t z := by
  cases v with
  | bool b => cases h
  | int z => exact ⟨z, rfl, h⟩

theorem has_bool {v : Val} (h : v.Has .bool) : ∃ b, v = .bool b := by
  cases v with
  | bool b => exact ⟨b, rfl⟩
  | int z => cases h

theorem conv_has {t : Ty} {v w : Val} (h : conv t v = some w) : w.Has t := by
  match t, v with
  | .bool, .bool _ => cases h; trivial
  | .bool, .int _ => cases h
  | .int _, .bool _ => cases h
  | .int t, .int z => cases h; exact wrap_fits t z

theorem conv_some {t u : Ty} {v : Val} (h : v.Has u) (hc : converts t u = true) : ∃ w, conv t v = some w := by
  match t, u with
  | .bool, .bool => obtain ⟨b, rfl⟩ := has_bool h; exact ⟨_, rfl⟩
  | .bool, .int _ => cases hc
  | .int _, .bool => cases hc
  | .int t, .int u => obtain ⟨z, rfl, _⟩ := has_int h; exact ⟨_, rfl⟩

theorem convs_has : ∀ {ts : List Ty} {vs ws : List Val}, convs ts vs = some ws → HasAll ws ts
  | [], [], ws, h => by cases h; trivial
  | [], _ :: _, ws, h => by cases h
  | _ :: _, [], ws, h => by cases h
  | t :: ts, v :: vs, ws, h => by
    rw [convs] at h
    cases h1 : conv t v with
    | none => rw [h1] at h; cases h
    | some w =>
      cases h2 : convs ts vs with
      | none => rw [h1, h2] at h; cases h
      | some ws' => rw [h1, h2] at h; cases h; exact ⟨conv_has h1, convs_has h2⟩

/-- Variables hold values of their types. -/
def Fit (Γ : Types) (ρ : Store) : Prop := ∀ x t, Γ x = some t → (ρ x).Has t

/-- Functions return values of their types. -/
def CallsOk (σ : Sigs) (κ : Calls) : Prop := ∀ f s args v, σ f = some s → κ f args = some v → v.Has s.2

theorem lit_value {σ : Sigs} {κ : Calls} {Γ : Types} {ρ : Store} (ds : List Char) (s : Option IntTy) (h0 : ds ≠ []) (h : ∀ c ∈ ds, isDigit c = true) (hb : decimal ds < 2 ^ 53) :
    ∃ t z, (Ex.lit ds s).type σ Γ = some (.int t) ∧ (Ex.lit ds s).value σ κ Γ ρ = some (.int z) ∧ IntOps.Fits t z ∧ constant (litText ds s) = some (.int t, z) := by
  have hc := constant_lit ds s h0 h hb
  cases s with
  | some t => exact ⟨t, _, by rw [Ex.type], by rw [Ex.value, Ex.type]; rfl, wrap_fits _ _, by simpa using hc⟩
  | none =>
    have hf : IntOps.Fits (if decimal ds ≤ 2147483647 then IntTy.i32 else .i64) (decimal ds) := by
      split
      · next h => exact fits_i32 h
      · exact fits_i64 hb
    exact ⟨_, decimal ds, by rw [Ex.type], by rw [Ex.value, Ex.type]; rw [Option.bind_some, conv, wrap_self hf], hf, by simpa using hc⟩

theorem has_ex {σ : Sigs} {κ : Calls} (hκ : CallsOk σ κ) {Γ : Types} {ρ : Store} (hf : Fit Γ ρ) (p : Ex) (hl : p.Lits) (τ : Ty) (ht : p.type σ Γ = some τ) (v : Val)
    (hv : p.value σ κ Γ ρ = some v) : v.Has τ := by
  match p with
  | .lit ds s =>
    rw [Ex.Lits] at hl
    obtain ⟨t, z, h1, h2, h3, _⟩ := lit_value (σ := σ) (κ := κ) (Γ := Γ) (ρ := ρ) ds s hl.1 hl.2.1 hl.2.2
    rw [ht] at h1; rw [hv] at h2
    cases h1; cases h2; exact h3
  | .const b => rw [Ex.type] at ht; rw [Ex.value] at hv; cases ht; cases hv; trivial
  | .var x => rw [Ex.type] at ht; rw [Ex.value] at hv; cases hv; exact hf x τ ht
  | .neg a =>
    rw [Ex.type] at ht; rw [Ex.value] at hv
    obtain ⟨t, h1, _, rfl⟩ := tNeg_some ht
    rw [h1] at hv
    match hw : a.value σ κ Γ ρ with
    | none => rw [hw] at hv; cases hv
    | some (.bool _) => rw [hw] at hv; cases hv
    | some (.int x) => rw [hw] at hv; cases hv; exact wrap_fits _ _
  | .not a =>
    rw [Ex.type] at ht; rw [Ex.value] at hv
    obtain ⟨_, rfl⟩ := tNot_some ht
    match hw : a.value σ κ Γ ρ with
    | none => rw [hw] at hv; cases hv
    | some (.int _) => rw [hw] at hv; cases hv
    | some (.bool x) => rw [hw] at hv; cases hv; trivial
  | .arith o a b =>
    rw [Ex.type] at ht; rw [Ex.value, ht] at hv
    obtain ⟨s, t, _, _, rfl⟩ := tArith_some ht
    match hw : a.value σ κ Γ ρ, hw' : b.value σ κ Γ ρ with
    | none, _ => rw [hw] at hv; cases hv
    | some (.bool _), _ => rw [hw] at hv; cases hv
    | some (.int x), none => rw [hw, hw'] at hv; cases hv
    | some (.int x), some (.bool _) => rw [hw, hw'] at hv; cases hv
    | some (.int x), some (.int y) =>
      rw [hw, hw', vArith] at hv
      cases hr : o.calc (wider s t) (Pipeline.wrap (wider s t) x) (Pipeline.wrap (wider s t) y) with
      | none => rw [hr] at hv; cases hv
      | some z => rw [hr] at hv; cases hv; exact calc_fits o _ _ _ z (wrap_fits _ _) (wrap_fits _ _) hr
  | .rel o a b =>
    rw [Ex.type] at ht; rw [Ex.value] at hv
    obtain ⟨s, t, h1, h2, rfl⟩ := tRel_some ht
    rw [h1, h2] at hv
    match hw : a.value σ κ Γ ρ, hw' : b.value σ κ Γ ρ with
    | none, _ => rw [hw] at hv; cases hv
    | some (.bool _), _ => rw [hw] at hv; cases hv
    | some (.int x), none => rw [hw, hw'] at hv; cases hv
    | some (.int x), some (.bool _) => rw [hw, hw'] at hv; cases hv
    | some (.int x), some (.int y) => rw [hw, hw'] at hv; cases hv; trivial
  | .and a b =>
    rw [Ex.type] at ht; rw [Ex.value] at hv; rw [Ex.Lits] at hl
    obtain ⟨h1, h2, rfl⟩ := tLogic_some ht
    match hw : a.value σ κ Γ ρ with
    | none => rw [hw] at hv; cases hv
    | some (.int _) => rw [hw] at hv; cases hv
    | some (.bool true) => rw [hw] at hv; exact has_ex hκ hf b hl.2 .bool h2 v hv
    | some (.bool false) => rw [hw] at hv; cases hv; trivial
  | .or a b =>
    rw [Ex.type] at ht; rw [Ex.value] at hv; rw [Ex.Lits] at hl
    obtain ⟨h1, h2, rfl⟩ := tLogic_some ht
    match hw : a.value σ κ Γ ρ with
    | none => rw [hw] at hv; cases hv
    | some (.int _) => rw [hw] at hv; cases hv
    | some (.bool false) => rw [hw] at hv; exact has_ex hκ hf b hl.2 .bool h2 v hv
    | some (.bool true) => rw [hw] at hv; cases hv; trivial
  | .pick c a b =>
    rw [Ex.type] at ht; rw [Ex.value, ht] at hv
    match hw : c.value σ κ Γ ρ with
    | none => rw [hw] at hv; cases hv
    | some (.int _) => rw [hw] at hv; cases hv
    | some (.bool true) =>
      rw [hw, vPick] at hv
      cases hx : a.value σ κ Γ ρ with
      | none => rw [hx] at hv; cases hv
      | some x => rw [hx] at hv; exact conv_has hv
    | some (.bool false) =>
      rw [hw, vPick] at hv
      cases hx : b.value σ κ Γ ρ with
      | none => rw [hx] at hv; cases hv
      | some x => rw [hx] at hv; exact conv_has hv
  | .call f as =>
    rw [Ex.type] at ht; rw [Ex.value] at hv
    obtain ⟨q, us, h1, h2, _, rfl⟩ := tCall_some ht
    rw [h1, Option.bind_some] at hv
    cases hw : as.values σ κ Γ ρ with
    | none => rw [hw] at hv; cases hv
    | some vs =>
      rw [hw, Option.bind_some] at hv
      cases hx : convs q.1 vs with
      | none => rw [hx] at hv; cases hv
      | some xs => rw [hx] at hv; exact hκ f q xs v h1 hv

theorem has_exs {σ : Sigs} {κ : Calls} (hκ : CallsOk σ κ) {Γ : Types} {ρ : Store} (hf : Fit Γ ρ) : ∀ (as : Exs) (_ : as.Lits) (us : List Ty) (_ : as.types σ Γ = some us) (vs : List Val)
    (_ : as.values σ κ Γ ρ = some vs), HasAll vs us
  | .nil, _, us, ht, vs, hv => by rw [Exs.types] at ht; rw [Exs.values] at hv; cases ht; cases hv; trivial
  | .cons e es, hl, us, ht, vs, hv => by
    obtain ⟨t, ts, h1, h2, rfl⟩ := types_cons ht
    rw [Exs.values] at hv
    rw [Exs.Lits] at hl
    cases hw : e.value σ κ Γ ρ with
    | none => rw [hw] at hv; cases hv
    | some v =>
      cases hw' : es.values σ κ Γ ρ with
      | none => rw [hw, hw'] at hv; cases hv
      | some ws => rw [hw, hw'] at hv; cases hv; exact ⟨has_ex hκ hf e hl.1 t h1 v hw, has_exs hκ hf es hl.2 ts h2 ws hw'⟩

theorem safe_guarded (p : Ex) (h : p.Safe) : p.Guarded := by
  match p with
  | .lit _ _ | .const _ | .var _ => simp [Ex.Guarded]
  | .neg a => rw [Ex.Safe] at h; rw [Ex.Guarded]; exact safe_guarded a h
  | .not a => rw [Ex.Safe] at h; rw [Ex.Guarded]; exact safe_guarded a h
  | .arith o a b => rw [Ex.Safe] at h; rw [Ex.Guarded]; exact ⟨safe_guarded a h.1, safe_guarded b h.2.1⟩
  | .rel o a b => rw [Ex.Safe] at h; rw [Ex.Guarded]; exact ⟨safe_guarded a h.1, safe_guarded b h.2⟩
  | .and a b => rw [Ex.Safe] at h; rw [Ex.Guarded]; exact ⟨safe_guarded a h.1, h.2⟩
  | .or a b => rw [Ex.Safe] at h; rw [Ex.Guarded]; exact ⟨safe_guarded a h.1, h.2⟩
  | .pick c a b => rw [Ex.Safe] at h; rw [Ex.Guarded]; exact ⟨safe_guarded c h.1, h.2⟩
  | .call _ _ => rw [Ex.Safe] at h; exact h.elim

theorem small_value {σ : Sigs} {κ : Calls} {Γ : Types} {ρ : Store} (p : Ex) (hl : p.Lits) (h : p.SmallDivisor) (t : IntTy) (y : Int) (hy : p.value σ κ Γ ρ = some (.int y)) :
    Pipeline.wrap t y ≠ 0 ∧ Pipeline.wrap t y ≠ -1 := by
  match p with
  | .lit ds s =>
    rw [Ex.SmallDivisor] at h
    have hv : y = decimal ds := by
      cases s with
      | some u =>
        rw [Ex.value, Ex.type] at hy
        have : conv (.int u) (.int (decimal ds)) = some (.int y) := hy
        rw [conv] at this
        rw [wrap_self (small_fits u _ (by omega) (by omega))] at this
        cases this; rfl
      | none =>
        rw [Ex.value, Ex.type] at hy
        have : conv (.int (if decimal ds ≤ 2147483647 then .i32 else .i64)) (.int (decimal ds)) = some (.int y) := hy
        rw [conv] at this
        rw [wrap_self (small_fits _ _ (by omega) (by omega))] at this
        cases this; rfl
    rw [hv, wrap_self (small_fits t _ (by omega) (by omega))]
    omega
  | .const _ | .var _ | .neg _ | .not _ | .arith _ _ _ | .rel _ _ _ | .and _ _ | .or _ _ | .pick _ _ _ | .call _ _ => simp [Ex.SmallDivisor] at h

theorem safe_ex {σ : Sigs} {κ : Calls} (hκ : CallsOk σ κ) {Γ : Types} {ρ : Store} (hf : Fit Γ ρ) (p : Ex) (hl : p.Lits) (h : p.Safe) (τ : Ty) (ht : p.type σ Γ = some τ) :
    ∃ v, p.value σ κ Γ ρ = some v := by
  have num : ∀ (a : Ex) (v : Val) (t : IntTy), a.Lits → a.type σ Γ = some (.int t) → a.value σ κ Γ ρ = some v → ∃ z, v = .int z := fun a v t hl h1 h2 => by
    obtain ⟨z, hz, _⟩ := has_int (has_ex hκ hf a hl _ h1 v h2)
    exact ⟨z, hz⟩
  have boo : ∀ (a : Ex) (v : Val), a.Lits → a.type σ Γ = some .bool → a.value σ κ Γ ρ = some v → ∃ z, v = .bool z := fun a v hl h1 h2 => has_bool (has_ex hκ hf a hl _ h1 v h2)
  match p with
  | .lit ds s =>
    rw [Ex.Lits] at hl
    obtain ⟨t, z, _, h2, _, _⟩ := lit_value (σ := σ) (κ := κ) (Γ := Γ) (ρ := ρ) ds s hl.1 hl.2.1 hl.2.2
    exact ⟨_, h2⟩
  | .const b => exact ⟨_, by rw [Ex.value]⟩
  | .var x => exact ⟨_, by rw [Ex.value]⟩
  | .neg a =>
    rw [Ex.type] at ht; rw [Ex.Lits] at hl; rw [Ex.Safe] at h
    obtain ⟨t, h1, _, rfl⟩ := tNeg_some ht
    obtain ⟨v, hv⟩ := safe_ex hκ hf a hl h _ h1
    obtain ⟨z, rfl⟩ := num a v t hl h1 hv
    exact ⟨_, by rw [Ex.value, h1, hv, vNeg]⟩
  | .not a =>
    rw [Ex.type] at ht; rw [Ex.Lits] at hl; rw [Ex.Safe] at h
    obtain ⟨h1, rfl⟩ := tNot_some ht
    obtain ⟨v, hv⟩ := safe_ex hκ hf a hl h _ h1
    obtain ⟨z, rfl⟩ := boo a v hl h1 hv
    exact ⟨_, by rw [Ex.value, hv, vNot]⟩
  | .arith o a b =>
    rw [Ex.type] at ht; rw [Ex.Lits] at hl; rw [Ex.Safe] at h
    obtain ⟨s, t, h1, h2, rfl⟩ := tArith_some ht
    obtain ⟨v, hv⟩ := safe_ex hκ hf a hl.1 h.1 _ h1
    obtain ⟨w, hw⟩ := safe_ex hκ hf b hl.2 h.2.1 _ h2
    obtain ⟨x, rfl⟩ := num a v s hl.1 h1 hv
    obtain ⟨y, rfl⟩ := num b w t hl.2 h2 hw
    obtain ⟨z, hz⟩ := calc_safe o (wider s t) (Pipeline.wrap (wider s t) x) (Pipeline.wrap (wider s t) y) fun ho => small_value b hl.2 (h.2.2 ho) _ y hw
    exact ⟨.int z, by rw [Ex.value, ht, hv, hw, vArith, hz]; rfl⟩
  | .rel o a b =>
    rw [Ex.type] at ht; rw [Ex.Lits] at hl; rw [Ex.Safe] at h
    obtain ⟨s, t, h1, h2, rfl⟩ := tRel_some ht
    obtain ⟨v, hv⟩ := safe_ex hκ hf a hl.1 h.1 _ h1
    obtain ⟨w, hw⟩ := safe_ex hκ hf b hl.2 h.2 _ h2
    obtain ⟨x, rfl⟩ := num a v s hl.1 h1 hv
    obtain ⟨y, rfl⟩ := num b w t hl.2 h2 hw
    exact ⟨_, by rw [Ex.value, h1, h2, hv, hw, tArith, vRel]⟩
  | .and a b =>
    rw [Ex.type] at ht; rw [Ex.Lits] at hl; rw [Ex.Safe] at h
    obtain ⟨h1, h2, rfl⟩ := tLogic_some ht
    obtain ⟨v, hv⟩ := safe_ex hκ hf a hl.1 h.1 _ h1
    obtain ⟨w, hw⟩ := safe_ex hκ hf b hl.2 h.2 _ h2
    obtain ⟨x, rfl⟩ := boo a v hl.1 h1 hv
    rw [Ex.value, hv, hw]
    cases x <;> exact ⟨_, rfl⟩
  | .or a b =>
    rw [Ex.type] at ht; rw [Ex.Lits] at hl; rw [Ex.Safe] at h
    obtain ⟨h1, h2, rfl⟩ := tLogic_some ht
    obtain ⟨v, hv⟩ := safe_ex hκ hf a hl.1 h.1 _ h1
    obtain ⟨w, hw⟩ := safe_ex hκ hf b hl.2 h.2 _ h2
    obtain ⟨x, rfl⟩ := boo a v hl.1 h1 hv
    rw [Ex.value, hv, hw]
    cases x <;> exact ⟨_, rfl⟩
  | .pick c a b =>
    rw [Ex.type] at ht; rw [Ex.Lits] at hl; rw [Ex.Safe] at h
    obtain ⟨h1, h2⟩ := tPick_some ht
    obtain ⟨v, hv⟩ := safe_ex hκ hf c hl.1 h.1 _ h1
    obtain ⟨x, rfl⟩ := boo c v hl.1 h1 hv
    rw [Ex.value, ht, hv]
    rcases h2 with ⟨s, t, h2, h3, rfl⟩ | ⟨h2, h3, rfl⟩
    · obtain ⟨w, hw⟩ := safe_ex hκ hf a hl.2.1 h.2.1 _ h2
      obtain ⟨w', hw'⟩ := safe_ex hκ hf b hl.2.2 h.2.2 _ h3
      obtain ⟨y, rfl⟩ := num a w s hl.2.1 h2 hw
      obtain ⟨z, rfl⟩ := num b w' t hl.2.2 h3 hw'
      rw [hw, hw']
      cases x <;> exact ⟨_, rfl⟩
    · obtain ⟨w, hw⟩ := safe_ex hκ hf a hl.2.1 h.2.1 _ h2
      obtain ⟨w', hw'⟩ := safe_ex hκ hf b hl.2.2 h.2.2 _ h3
      obtain ⟨y, rfl⟩ := boo a w hl.2.1 h2 hw
      obtain ⟨z, rfl⟩ := boo b w' hl.2.2 h3 hw'
      rw [hw, hw']
      cases x <;> exact ⟨_, rfl⟩
  | .call _ _ => rw [Ex.Safe] at h; exact h.elim

end Verif.Comp.Script
