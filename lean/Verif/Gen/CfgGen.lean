import Verif.Gen.CfgShape
/-! # Form of the generated blocks: induction over statements -/
namespace Verif.Gen
open Verif.Ast

variable {P Q : Nat → Prop} {loop : Option (Nat × Nat)} {st s s' : St}

/-- What the induction says about a statement list. -/
def BodyOk (splits : Expr → Bool) (b : Stmts) : Prop := ∀ loop st s', Inv loop st →
  (closed (st.blk st.cur) = false ∨ ∃ c x r, b = .cons (.whileLoop c x) r) → genStmts splits b loop st = some s' → Shape loop st s' (Stmts.ends b) (Stmts.flat splits b)

theorem goto_open (h : GS P loop st s) (p : Nat) (hp : P p) : closed ((s.goto p).blk (s.goto p).cur) = false := by
  show closed (s.blk p) = false
  rw [(h.pend p hp).2.2]; rfl

/-- A body placed into a pending block and closed with a branch to `endId`. -/
theorem body_step (splits : Expr → Bool) (b : Stmts) (hb : BodyOk splits b) (hi : Inv loop st) (h : GS P loop st s) (hc : closed (s.blk s.cur) = true) (p endId : Nat) (hp : P p)
    (he : P endId) (hne : endId ≠ p) (s2 : St) (hg : genStmts splits b loop (s.goto p) = some s2) :
    Shape loop (s.goto p) s2 (Stmts.ends b) (Stmts.flat splits b) ∧ GS (fun q => P q ∧ q ≠ p) loop st (s2.brUnless endId) ∧
      closed ((s2.brUnless endId).blk (s2.brUnless endId).cur) = true ∧ st.len ≤ (s2.brUnless endId).cur ∧
      (Targets (s2.brUnless endId) endId ↔ Targets s endId ∨ Stmts.ends b = false) ∧ Later s (s2.brUnless endId) := by
  have h1 := h.goto hi.cur_lt hc p hp
  have hi1 := h1.inv hi
  have h2 := hb loop (s.goto p) s2 hi1 (.inl (goto_open h p hp)) hg
  have h3 := h1.comp h2.gs hi.cur_lt hi.ok (fun _ _ x => x) (fun t ht => hi1.hits t ht)
  have hpe := h3.pend endId ⟨he, hne⟩
  have h4 := h3.brUnless hi.ok hi.cur_lt endId ⟨fun hh => by omega, fun _ => ⟨hpe.2.1, by rw [hpe.2.2]; simp⟩⟩
  refine ⟨h2, h4, brUnless_closed _ _, ?_, ?_, ((Later.goto s p).trans h2.gs.later).trans (Later.brUnless _ _)⟩
  · have e : (s2.brUnless endId).cur = s2.cur := by unfold St.brUnless; split <;> rfl
    rw [e]
    have hpl := (h.pend p hp).1
    have hsl : st.len ≤ (s.goto p).len := h1.len_le
    rcases h2.gs.cur_or with e | e
    · rw [e]; exact hpl
    · omega
  · rw [targets_brUnless, h2.targets hi1 endId (h1.pend endId ⟨he, hne⟩).2.1 (fresh_not_hits hi endId (h.pend endId he).1)]
    have : s2.done s2.cur = Stmts.ends b := h2.ends_iff
    rw [this]
    simp
    exact Iff.rfl

/-- A condition placed into a pending block. -/
theorem cond_step (splits : Expr → Bool) (c : Expr) (hi : Inv loop st) (h : GS P loop st s) (hc : closed (s.blk s.cur) = true) (p t f : Nat) (hp : P p) (ht : P t) (hf : P f)
    (htp : t ≠ p) (hfp : f ≠ p) :
    GS (fun q => P q ∧ q ≠ p) loop st (((s.goto p).prep splits c).emit (.cbr c t f)) ∧
      closed ((((s.goto p).prep splits c).emit (.cbr c t f)).blk (((s.goto p).prep splits c).emit (.cbr c t f)).cur) = true ∧
      (∀ x, P x → (Targets (((s.goto p).prep splits c).emit (.cbr c t f)) x ↔ Targets s x ∨ x = t ∨ x = f)) ∧
      Item.gone ∉ (((s.goto p).prep splits c).emit (.cbr c t f)).blk p ∧ Later s (((s.goto p).prep splits c).emit (.cbr c t f)) := by
  have h1 := h.goto hi.cur_lt hc p hp
  obtain ⟨h2, hc2⟩ := h1.prep splits c hi.ok hi.cur_lt (goto_open h p hp)
  have h3 := h2.emit hi.ok hi.cur_lt hc2 (.cbr c t f) (by simp) (fun x hx => by
    have hx' : P x ∧ x ≠ p := by
      simp [Item.targets] at hx
      rcases hx with rfl | rfl
      · exact ⟨ht, htp⟩
      · exact ⟨hf, hfp⟩
    have := h2.pend x hx'
    exact ⟨fun hh => by omega, fun _ => ⟨this.2.1, by rw [this.2.2]; simp⟩⟩)
  refine ⟨h3, ?_, ?_, ?_, ((Later.goto s p).trans (Later.prep splits c _ (goto_open h p hp))).trans (Later.emit _ _ hc2)⟩
  · show closed ((((s.goto p).prep splits c).emit (.cbr c t f)).blk ((s.goto p).prep splits c).cur) = true
    rw [emit_cur, closed_append]; rfl
  rotate_left
  · have hpp := h.pend p hp
    unfold St.prep
    split
    · have hne : p ≠ s.len := by omega
      simp [St.goto, St.emit, St.alloc, upd, hne, hpp.2.2]
    · simp [St.goto, St.emit, upd, hpp.2.2]
  · intro x hx
    rw [targets_emit, targets_prep splits c (s.goto p) x (h.pend x hx).2.1]
    simp [Item.targets]
    exact Iff.rfl

theorem start_shape (hi : Inv loop st) (hc : closed (st.blk st.cur) = false) : Shape loop st st false true where
  gs := GS.start hi
  ends_iff := hc
  flat_iff := by simp

mutual
theorem genStmt_shape (splits : Expr → Bool) (x : Stmt) (hcl : Stmt.Clean splits x) : ∀ loop st s', Inv loop st →
    (closed (st.blk st.cur) = false ∨ ∃ c b, x = .whileLoop c b) → genStmt splits x loop st = some s' → Shape loop st s' (Stmt.ends x) (Stmt.flat splits x) := by
  match x with
  | .cont =>
    intro loop st s' hi hc hg
    have hc : closed (st.blk st.cur) = false := hc.resolve_right (by rintro ⟨_, _, h⟩; cases h)
    cases loop with
    | none => simp [genStmt] at hg
    | some l => simp [genStmt] at hg; subst hg; exact jump_shape hi hc l.1 (.inr ⟨l, rfl, .inl rfl⟩)
  | .brk =>
    intro loop st s' hi hc hg
    have hc : closed (st.blk st.cur) = false := hc.resolve_right (by rintro ⟨_, _, h⟩; cases h)
    cases loop with
    | none => simp [genStmt] at hg
    | some l => simp [genStmt] at hg; subst hg; exact jump_shape hi hc l.2 (.inr ⟨l, rfl, .inr rfl⟩)
  | .ret =>
    intro loop st s' hi hc hg
    have hc : closed (st.blk st.cur) = false := hc.resolve_right (by rintro ⟨_, _, h⟩; cases h)
    simp [genStmt] at hg; subst hg; exact jump_shape hi hc 1 (.inl rfl)
  | .retVal e =>
    intro loop st s' hi hc hg
    have hc : closed (st.blk st.cur) = false := hc.resolve_right (by rintro ⟨_, _, h⟩; cases h)
    simp [genStmt] at hg; subst hg
    have h1 := shape_emit splits e hi hc (.setRet e) (by simp) rfl
    have hc1 : closed (((st.prep splits e).emit (.setRet e)).blk ((st.prep splits e).emit (.setRet e)).cur) = false := by
      show closed (((st.prep splits e).emit (.setRet e)).blk (st.prep splits e).cur) = false
      rw [emit_cur, closed_append]; rfl
    have h2 := jump_shape (h1.inv hi) hc1 1 (.inl rfl)
    have hf : (Stmt.flat splits (.retVal e)) = true ↔ (st.prep splits e).cur = st.cur := prep_cur splits e st hi.cur_lt
    refine ⟨h1.comp h2.gs hi.cur_lt hi.ok (fun _ _ x => x) (fun t ht => (h1.inv hi).hits t ht), h2.ends_iff, ?_⟩
    rw [hf]; exact Iff.rfl
  | .expr e =>
    intro loop st s' hi hc hg
    have hc : closed (st.blk st.cur) = false := hc.resolve_right (by rintro ⟨_, _, h⟩; cases h)
    simp [genStmt] at hg; subst hg
    refine ⟨shape_emit splits e hi hc (.ev e) (by simp) rfl, ?_, ?_⟩
    · show closed (((st.prep splits e).emit (.ev e)).blk (st.prep splits e).cur) = false
      rw [emit_cur, closed_append]; rfl
    · have hf : (Stmt.flat splits (.expr e)) = true ↔ (st.prep splits e).cur = st.cur := prep_cur splits e st hi.cur_lt
      rw [hf]; exact Iff.rfl
  | .whileLoop c b =>
    have hb : BodyOk splits b := genStmts_shape splits b (by rw [Stmt.Clean] at hcl; exact hcl)
    intro loop st s' hi _ hg
    rw [genStmt] at hg
    try simp only at hg
    have h1 := (GS.start hi).alloc 3
    have hfr : ∀ t, st.len ≤ t → t < st.len + 3 → t < (st.alloc 3).len ∧ Item.gone ∉ (st.alloc 3).blk t := fun t ht ht' =>
      ⟨ht', by rw [show (st.alloc 3).blk t = [] from hi.fresh t ht]; simp⟩
    have h2 := h1.brUnless hi.ok hi.cur_lt st.len ⟨fun hh => absurd hh (by omega), fun _ => hfr st.len (Nat.le_refl _) (by omega)⟩
    have hc2 := brUnless_closed (st.alloc 3) st.len
    have h3 := cond_step splits c hi h2 hc2 st.len (st.len + 1) (st.len + 2) (.inr ⟨Nat.le_refl _, by omega⟩) (.inr ⟨by omega, by omega⟩) (.inr ⟨by omega, by omega⟩)
      (by omega) (by omega)
    obtain ⟨h3, hc3, _, hgn, _⟩ := h3
    have hp : ∀ q, q = st.len + 1 ∨ q = st.len + 2 → ((False ∨ (st.len ≤ q ∧ q < st.len + 3)) ∧ q ≠ st.len) := fun q hq => by omega
    have h4 := h3.goto hi.cur_lt hc3 (st.len + 1) (hp _ (.inl rfl))
    have ho4 := goto_open h3 (st.len + 1) (hp _ (.inl rfl))
    obtain ⟨s3, hs3, rfl⟩ := Option.map_eq_some_iff.1 hg
    have hfin := h4.pend (st.len + 2) ⟨hp _ (.inr rfl), by omega⟩
    have hcond : st.len < ((((((st.alloc 3).brUnless st.len).goto st.len).prep splits c).emit (.cbr c (st.len + 1) (st.len + 2))).goto (st.len + 1)).len ∧
        Item.gone ∉ ((((((st.alloc 3).brUnless st.len).goto st.len).prep splits c).emit (.cbr c (st.len + 1) (st.len + 2))).goto (st.len + 1)).blk st.len := by
      refine ⟨by omega, ?_⟩
      exact hgn
    have hi4 : Inv (some (st.len, st.len + 2)) ((((((st.alloc 3).brUnless st.len).goto st.len).prep splits c).emit (.cbr c (st.len + 1) (st.len + 2))).goto (st.len + 1)) := by
      have hi4' := h4.inv hi
      refine ⟨hi4'.cur_lt, hi4'.fresh, hi4'.ok, ?_, hi4'.tok⟩
      rintro t (ht | ⟨l, hl, ht⟩)
      · exact hi4'.hits t (.inl ht)
      · cases hl
        rcases ht with rfl | rfl
        · exact hcond
        · exact ⟨hfin.2.1, by rw [hfin.2.2]; simp⟩
    have h5 := hb _ _ _ hi4 (.inl ho4) hs3
    have h6 := h4.comp h5.gs hi.cur_lt hi.ok (fun t ht hh => by
      rcases hh with hh | ⟨l, hl, hh⟩
      · exact .inl hh
      · cases hl; rcases hh with rfl | rfl <;> omega) (fun t ht => hi4.hits t ht)
    have hcond6 : st.len < s3.len ∧ Item.gone ∉ s3.blk st.len := by
      have := h5.gs.len_le
      exact ⟨by omega, fun hm => hcond.2 (h5.gs.gone_old _ hcond.1 hm)⟩
    have h7 := h6.brUnless hi.ok hi.cur_lt st.len ⟨fun hh => absurd hh (by omega), fun _ => hcond6⟩
    have hpf : ((((False ∨ (st.len ≤ st.len + 2 ∧ st.len + 2 < st.len + 3)) ∧ st.len + 2 ≠ st.len)) ∧ st.len + 2 ≠ st.len + 1) := by omega
    have h8 := h7.goto hi.cur_lt (brUnless_closed s3 st.len) (st.len + 2) hpf
    refine ⟨h8.congr (fun q => ⟨False.elim, ?_⟩), ?_, ?_⟩
    · rintro ⟨⟨⟨h1 | h1, h2⟩, h3⟩, h4⟩
      · exact h1
      · have h1 : st.len ≤ q ∧ q < st.len + 3 := h1
        omega
    · exact goto_open h7 (st.len + 2) hpf
    · have : st.len + 2 ≠ st.cur := by have := hi.cur_lt; omega
      constructor
      · intro h; cases h
      · intro h; exact absurd h this
  | .ifElse c b es el =>
    rw [Stmt.Clean] at hcl
    have hb : BodyOk splits b := genStmts_shape splits b hcl.1
    have hes := genElifs_shape splits es hcl.2.1
    have hel := genElse_shape splits el hcl.2.2
    intro loop st s' hi hc hg
    have hc : closed (st.blk st.cur) = false := hc.resolve_right (by rintro ⟨_, _, h⟩; cases h)
    rw [genStmt] at hg
    try simp only at hg
    obtain ⟨h0, hc0⟩ := (GS.start hi).prep splits c hi.ok hi.cur_lt hc
    generalize hst0 : st.prep splits c = st0 at *
    generalize hk : elifCount es = k at *
    generalize hE : (st0.len + 1 + 2 * k + if hasElse el = true then 1 else 0) = E at *
    generalize hI : (if hasElse el = true then some (st0.len + 1 + 2 * k) else none) = I at *
    have hIv : (hasElse el = true ∧ I = some (st0.len + 1 + 2 * k) ∧ E = st0.len + 2 + 2 * k) ∨ (hasElse el = false ∧ I = none ∧ E = st0.len + 1 + 2 * k) := by
      cases hh : hasElse el <;> simp [hh] at hE hI
      · exact .inr ⟨rfl, hI.symm, hE.symm⟩
      · exact .inl ⟨rfl, hI.symm, by omega⟩
    have h1 := h0.alloc (E + 1 - st0.len)
    have hEl : st0.len < E := by omega
    have hnext : st0.len + 1 ≤ nextBlock es (st0.len + 1) I E ∧ nextBlock es (st0.len + 1) I E ≤ E := by
      apply nextBlock_range
      · exact Nat.le_refl _
      · exact .inl (by omega)
      · exact Nat.le_refl _
      · omega
      · intro b hb; rcases hIv with ⟨_, h2, h3⟩ | ⟨_, h2, h3⟩
        · rw [h2] at hb; cases hb; omega
        · rw [h2] at hb; cases hb
    have hlen0 := h0.len_le
    have hfr : ∀ t, st0.len ≤ t → t ≤ E → t < (st0.alloc (E + 1 - st0.len)).len ∧ Item.gone ∉ (st0.alloc (E + 1 - st0.len)).blk t := fun t ht ht' =>
      ⟨by show t < st0.len + (E + 1 - st0.len); omega, by rw [show (st0.alloc (E + 1 - st0.len)).blk t = [] from h0.fresh t ht]; simp⟩
    have h2 := h1.emit hi.ok hi.cur_lt hc0 (.cbr c st0.len (nextBlock es (st0.len + 1) I E)) (by simp) (fun t ht => by
      have ht' : st0.len ≤ t ∧ t ≤ E := by
        simp [Item.targets] at ht
        rcases ht with rfl | rfl <;> omega
      exact ⟨fun hh => by omega, fun _ => hfr t ht'.1 ht'.2⟩)
    have hc2 : closed (((st0.alloc (E + 1 - st0.len)).emit (.cbr c st0.len (nextBlock es (st0.len + 1) I E))).blk
        ((st0.alloc (E + 1 - st0.len)).emit (.cbr c st0.len (nextBlock es (st0.len + 1) I E))).cur) = true := by
      show closed (((st0.alloc (E + 1 - st0.len)).emit (.cbr c st0.len (nextBlock es (st0.len + 1) I E))).blk (st0.alloc (E + 1 - st0.len)).cur) = true
      rw [emit_cur, closed_append]; rfl
    have h2 := h2.congr (Q := fun q => st0.len ≤ q ∧ q ≤ E) (fun q => by
      constructor
      · intro hq; exact .inr ⟨hq.1, by omega⟩
      · rintro (hq | hq)
        · exact hq.elim
        · exact ⟨hq.1, by have := hq.2; omega⟩)
    have hT2 : Targets ((st0.alloc (E + 1 - st0.len)).emit (.cbr c st0.len (nextBlock es (st0.len + 1) I E))) E ↔ nextBlock es (st0.len + 1) I E = E := by
      rw [targets_emit]
      have : ¬Targets (st0.alloc (E + 1 - st0.len)) E := by
        intro hT
        have := (h0.tok E (by omega) hT).1
        omega
      simp only [this, false_or, Item.targets, List.mem_cons, List.not_mem_nil, or_false]
      constructor
      · rintro (h | h)
        · omega
        · exact h.symm
      · intro h; exact .inr h.symm
    obtain ⟨s2, hs2, hg⟩ := Option.bind_eq_some_iff.1 hg
    obtain ⟨s3, hs3, hg⟩ := Option.bind_eq_some_iff.1 hg
    obtain ⟨s4, hs4, rfl⟩ := Option.map_eq_some_iff.1 hg
    obtain ⟨hsh, h3, hc3, hl3, hT3, _⟩ := body_step splits b hb hi h2 hc2 st0.len E ⟨Nat.le_refl _, by omega⟩ ⟨by omega, Nat.le_refl _⟩ (by omega) s2 hs2
    have h3 := h3.congr (Q := fun q => st0.len + 1 ≤ q ∧ q ≤ E) (fun q => by omega)
    obtain ⟨h4, hc4, hl4, hT4, _⟩ := hes loop st _ s3 (st0.len + 1) I E hi h3 hc3 hl3 (by omega) (by
      intro b hb; rcases hIv with ⟨_, h2, h3⟩ | ⟨_, h2, h3⟩
      · rw [h2] at hb; cases hb; omega
      · rw [h2] at hb; cases hb) hs3
    have h4 := h4.congr (Q := fun q => st0.len + 1 + 2 * k ≤ q ∧ q ≤ E) (fun q => by omega)
    obtain ⟨h5, hc5, hl5, hT5, _⟩ := hel loop st _ s4 (st0.len + 1 + 2 * k) I E hi h4 hc4 hl4 (hIv.imp (fun h => ⟨h.1, h.2.1, by have := h.2.2; omega⟩) id) hs4
    have hends : Targets s4 E ↔ Stmt.ends (.ifElse c b es el) = false := by
      rw [hT5, hT4, hT3, hT2]
      simp only [Stmt.ends, Bool.and_eq_false_iff]
      have hnx : nextBlock es (st0.len + 1) I E = E ↔ es = .nil ∧ I = none := by
        cases es with
        | nil =>
          simp only [nextBlock, true_and]
          rcases hIv with ⟨_, h2, h3⟩ | ⟨_, h2, h3⟩
          · rw [h2]; simp; omega
          · rw [h2]; simp
        | cons c b es =>
          simp only [nextBlock]
          rw [elifCount] at hk
          constructor
          · intro h; omega
          · intro h; cases h.1
      rw [hnx]
      have hel' : Else.ends el = false ↔ I = none ∨ ∃ b, el = .some b ∧ Stmts.ends b = false := by
        cases el with
        | none => simp [Else.ends, hasElse] at hI ⊢; exact hI.symm
        | some b => simp [Else.ends, hasElse] at hI ⊢; rw [← hI]; simp
      rw [hel']
      by_cases hn : es = .nil
      · subst hn; simp [Elifs.ends]; grind
      · simp only [hn, false_and, false_or, ne_eq, not_false_eq_true, true_and]
        grind
    have hfp := hasPred_iff s4 h5.fresh E
    unfold St.finish
    split
    · rename_i hpred
      have hT := hfp.1 hpred
      have h6 := h5.goto hi.cur_lt hc5 E rfl
      refine ⟨h6.congr (fun q => ⟨False.elim, fun h => h.2 h.1⟩), ?_, ?_⟩
      · rw [goto_open h5 E rfl, hends.1 hT]
      · constructor
        · intro h; cases h
        · intro h
          have h : E = st.cur := h
          have := hi.cur_lt
          omega
    · rename_i hpred
      have hT : ¬Targets s4 E := fun h => hpred (hfp.2 h)
      have h6 := h5.remove E rfl hT hi.cur_lt
      refine ⟨h6.congr (fun q => ⟨False.elim, fun h => h.2 h.1⟩), ?_, ?_⟩
      · have hne : s4.cur ≠ E := fun e => h5.cur_np e
        show closed (upd s4.blk E [.gone] s4.cur) = _
        have : upd s4.blk E [.gone] s4.cur = s4.blk s4.cur := by simp [upd, hne]
        rw [this, hc5]
        cases hh : Stmt.ends (.ifElse c b es el)
        · exact absurd (hends.2 hh) hT
        · rfl
      · constructor
        · intro h; cases h
        · intro h
          have h : s4.cur = st.cur := h
          have := hi.cur_lt
          omega
theorem genElifs_shape (splits : Expr → Bool) (es : Elifs) (hcl : Elifs.Clean splits es) : ∀ loop st s s' condId elseId endId, Inv loop st →
    GS (fun q => condId ≤ q ∧ q ≤ endId) loop st s → closed (s.blk s.cur) = true → st.len ≤ s.cur → condId + 2 * elifCount es ≤ endId →
    (∀ b, elseId = some b → condId + 2 * elifCount es ≤ b ∧ b < endId) → genElifs splits es loop condId elseId endId s = some s' →
    GS (fun q => condId + 2 * elifCount es ≤ q ∧ q ≤ endId) loop st s' ∧ closed (s'.blk s'.cur) = true ∧ st.len ≤ s'.cur ∧
      (Targets s' endId ↔ Targets s endId ∨ Elifs.ends es = false ∨ (es ≠ .nil ∧ elseId = none)) ∧ Later s s' := by
  match es with
  | .nil =>
    intro loop st s s' condId elseId endId hi h hc hl hle _ hg
    simp [genElifs] at hg; subst hg
    exact ⟨h.congr (fun q => by simp [elifCount]), hc, hl, by simp [Elifs.ends], Later.refl _⟩
  | .cons c b es =>
    rw [Elifs.Clean] at hcl
    have hb : BodyOk splits b := genStmts_shape splits b hcl.1
    have ih := genElifs_shape splits es hcl.2.2
    intro loop st s s' condId elseId endId hi h hc hl hle hel hg
    rw [elifCount] at hle hel
    rw [genElifs] at hg
    try simp only at hg
    obtain ⟨s2, hs2, hg⟩ := Option.bind_eq_some_iff.1 hg
    have hnext : condId + 2 ≤ nextBlock es (condId + 2) elseId endId ∧ nextBlock es (condId + 2) elseId endId ≤ endId := by
      apply nextBlock_range
      · exact Nat.le_refl _
      · exact .inl (by omega)
      · exact Nat.le_refl _
      · omega
      · intro b hb; have := hel b hb; omega
    obtain ⟨h1, hc1, hT1, _, hL1⟩ := cond_step splits c hi h hc condId (condId + 1) (nextBlock es (condId + 2) elseId endId) ⟨Nat.le_refl _, by omega⟩ ⟨by omega, by omega⟩
      ⟨by omega, hnext.2⟩ (by omega) (by omega)
    obtain ⟨hsh, h2, hc2, hl2, hT2, hL2⟩ := body_step splits b hb hi h1 hc1 (condId + 1) endId ⟨⟨by omega, by omega⟩, by omega⟩ ⟨⟨by omega, by omega⟩, by omega⟩ (by omega) s2 hs2
    rw [end_body (b := condId + 1) hsh hcl.2.1 rfl endId] at hg
    have h2 := h2.congr (Q := fun q => condId + 2 ≤ q ∧ q ≤ endId) (fun q => by omega)
    obtain ⟨h3, hc3, hl3, hT3, hL3⟩ := ih loop st _ s' (condId + 2) elseId endId hi h2 hc2 hl2 (by omega) (fun b hb => by have := hel b hb; omega) hg
    refine ⟨h3.congr (fun q => by rw [elifCount]; omega), hc3, hl3, ?_, (hL1.trans hL2).trans hL3⟩
    rw [hT3, hT2, hT1 endId ⟨by omega, Nat.le_refl _⟩]
    have hnx : endId = nextBlock es (condId + 2) elseId endId ↔ es = .nil ∧ elseId = none := by
      cases es with
      | nil =>
        cases elseId with
        | none => simp [nextBlock]
        | some b => have := hel b rfl; simp [nextBlock]; omega
      | cons c b es =>
        simp only [nextBlock]
        rw [elifCount] at hle
        constructor
        · intro h; omega
        · intro h; cases h.1
    rw [hnx]
    have h1 : endId ≠ condId + 1 := by omega
    simp only [h1, false_or, Elifs.ends, Bool.and_eq_false_iff]
    by_cases hn : es = .nil
    · subst hn; simp; grind
    · simp [hn]; grind
theorem genElse_shape (splits : Expr → Bool) (el : Else) (hcl : Else.Clean splits el) : ∀ loop st s s' n elseId endId, Inv loop st →
    GS (fun q => n ≤ q ∧ q ≤ endId) loop st s → closed (s.blk s.cur) = true → st.len ≤ s.cur →
    ((hasElse el = true ∧ elseId = some n ∧ endId = n + 1) ∨ (hasElse el = false ∧ elseId = none ∧ endId = n)) → genElse splits el loop elseId endId s = some s' →
    GS (fun q => q = endId) loop st s' ∧ closed (s'.blk s'.cur) = true ∧ st.len ≤ s'.cur ∧ (Targets s' endId ↔ Targets s endId ∨ ∃ b, el = .some b ∧ Stmts.ends b = false) ∧
    Later s s' := by
  match el with
  | .none =>
    intro loop st s s' n elseId endId hi h hc hl hI hg
    rcases hI with ⟨h1, _⟩ | ⟨_, rfl, rfl⟩
    · cases h1
    · simp [genElse] at hg; subst hg
      exact ⟨h.congr (fun q => by omega), hc, hl, by simp, Later.refl _⟩
  | .some b =>
    rw [Else.Clean] at hcl
    have hb : BodyOk splits b := genStmts_shape splits b hcl.1
    intro loop st s s' n elseId endId hi h hc hl hI hg
    rcases hI with ⟨_, rfl, rfl⟩ | ⟨h1, _⟩
    · rw [genElse] at hg
      obtain ⟨s2, hs2, hg⟩ := Option.map_eq_some_iff.1 hg
      obtain ⟨hsh, h2, hc2, hl2, hT2, hL2⟩ := body_step splits b hb hi h hc n (n + 1) ⟨Nat.le_refl _, by omega⟩ ⟨by omega, Nat.le_refl _⟩ (by omega) s2 hs2
      rw [end_body (b := n) hsh hcl.2 rfl (n + 1)] at hg
      subst hg
      refine ⟨h2.congr (fun q => by omega), hc2, hl2, ?_, hL2⟩
      rw [hT2]
      simp
    · cases h1
theorem genStmts_shape (splits : Expr → Bool) (b : Stmts) (hcl : Stmts.Clean splits b) : BodyOk splits b := by
  match b with
  | .nil =>
    intro loop st s' hi hc hg
    simp [genStmts] at hg; subst hg
    exact start_shape hi (hc.resolve_right (by rintro ⟨_, _, _, h⟩; cases h))
  | .cons x xs =>
    rw [Stmts.Clean] at hcl
    have hx := genStmt_shape splits x hcl.1
    intro loop st s' hi hc hg
    rw [genStmts] at hg
    obtain ⟨s1, hs1, hg⟩ := Option.bind_eq_some_iff.1 hg
    have h1 := hx loop st s1 hi (hc.imp id (by rintro ⟨c, x', r, h⟩; cases h; exact ⟨c, x', rfl⟩)) hs1
    match xs, hcl, hg with
    | .nil, hcl, hg =>
      simp [genStmts] at hg; subst hg
      have : Stmts.ends (.cons x .nil) = Stmt.ends x := by simp [Stmts.ends]
      rw [this]
      simpa [Stmts.flat] using h1
    | .cons y ys, hcl, hg =>
      have : Stmts.ends (.cons x (.cons y ys)) = Stmts.ends (.cons y ys) := by rw [Stmts.ends]
      rw [this, Stmts.flat]
      refine Shape.trans hi h1 (genStmts_shape splits (.cons y ys) hcl.2.1 loop s1 s' (h1.gs.inv hi) ?_ hg)
      cases he : Stmt.ends x with
      | false => exact .inl (h1.ends_iff.trans he)
      | true =>
        right
        have := hcl.2.2 he
        cases y with
        | whileLoop c x' => exact ⟨c, x', ys, rfl⟩
        | _ => simp [Stmts.startsWhile] at this
end

end Verif.Gen
