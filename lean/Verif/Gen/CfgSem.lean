import Verif.Gen.CfgGen
/-! # The generated blocks do what the statements say: lemmas for C36 -/
namespace Verif.Gen
open Verif.Ast

section
variable {σ V : Type} (L : Lang σ V) (F : Nat → List Item)

theorem steps_add (a b : Nat) : ∀ p, steps L F (a + b) p = match steps L F a p with | .run q => steps L F b q | r => r := by
  induction a with
  | zero => intro p; rw [Nat.zero_add]; rfl
  | succ a ih =>
    intro p
    rw [show a + 1 + b = (a + b) + 1 by omega, steps, steps]
    cases step L F p with
    | run q => exact ih q
    | halt m => rfl
    | trap => rfl
    | ub => rfl

theorem steps_trans {a b : Nat} {p q : Pc σ V} {r : Res σ V} (h : steps L F a p = .run q) (h' : steps L F b q = r) : steps L F (a + b) p = r := by
  rw [steps_add, h]; exact h'

/-- What it means for the code at `p` to implement an outcome: `fall` is where the code ends, `loop` where jumps lead. -/
def Does (n : Nat) (loop : Option (Nat × Nat)) (fall : Nat × Nat) (p : Pc σ V) : Out σ V → Prop
  | .next m => ∃ k, steps L F k p = .run ⟨fall.1, fall.2, m⟩
  | .brk m => ∃ l, loop = some l ∧ ∃ k, steps L F k p = .run ⟨l.2, 0, m⟩
  | .cont m => ∃ l, loop = some l ∧ ∃ k, steps L F k p = .run ⟨l.1, 0, m⟩
  | .ret m => ∃ k, steps L F k p = .run ⟨1, 0, m⟩
  | .trap => ∃ k, steps L F k p = .trap
  | .more => ∃ k, n ≤ k ∧ ∃ q, steps L F k p = .run q

variable {L F}

theorem Does.pre {n k : Nat} {loop : Option (Nat × Nat)} {fall : Nat × Nat} {p q : Pc σ V} {o : Out σ V} (h : steps L F k p = .run q) (h' : Does L F n loop fall q o) :
    Does L F n loop fall p o := by
  cases o with
  | next m => obtain ⟨j, hj⟩ := h'; exact ⟨k + j, steps_trans L F h hj⟩
  | brk m => obtain ⟨l, hl, j, hj⟩ := h'; exact ⟨l, hl, k + j, steps_trans L F h hj⟩
  | cont m => obtain ⟨l, hl, j, hj⟩ := h'; exact ⟨l, hl, k + j, steps_trans L F h hj⟩
  | ret m => obtain ⟨j, hj⟩ := h'; exact ⟨k + j, steps_trans L F h hj⟩
  | trap => obtain ⟨j, hj⟩ := h'; exact ⟨k + j, steps_trans L F h hj⟩
  | more => obtain ⟨j, hn, q, hj⟩ := h'; exact ⟨k + j, by omega, q, steps_trans L F h hj⟩

/-- Continue where the code falls to. -/
theorem Does.post {n : Nat} {loop : Option (Nat × Nat)} {fall fall' : Nat × Nat} {p : Pc σ V} {o : Out σ V} (h : Does L F n loop fall p o)
    (h' : ∀ m, o = .next m → ∃ k, steps L F k ⟨fall.1, fall.2, m⟩ = .run ⟨fall'.1, fall'.2, m⟩) : Does L F n loop fall' p o := by
  cases o with
  | next m => obtain ⟨j, hj⟩ := h; obtain ⟨k, hk⟩ := h' m rfl; exact ⟨j + k, steps_trans L F hj hk⟩
  | brk m => exact h
  | cont m => exact h
  | ret m => exact h
  | trap => exact h
  | more => exact h

/-- An instruction that was added is where it was added. -/
theorem at_emit {s f : St} {i : Item} (h : Later (s.emit i) f) (hc : s.cur < s.len) :
    (f.blk s.cur)[(s.blk s.cur).length]? = some i ∧ (i.isTerm = true → (s.blk s.cur).length + 1 = (f.blk s.cur).length) := by
  obtain ⟨c, e, hcl⟩ := h.2 s.cur hc
  rw [emit_cur] at e hcl
  rw [e]
  constructor
  · simp
  · intro ht
    rw [closed_append] at hcl
    rw [hcl ht]
    simp

theorem step_br {s f : St} {t : Nat} (h : Later (s.emit (.br t)) f) (hc : s.cur < s.len) (m : Mem σ V) :
    steps L f.blk 1 ⟨s.cur, (s.blk s.cur).length, m⟩ = .run ⟨t, 0, m⟩ := by
  obtain ⟨h1, h2⟩ := at_emit h hc
  simp only [steps, step, h1]
  rw [if_neg (by simp [Item.isTerm, h2 rfl])]

theorem step_nop {s f : St} (h : Later (s.emit .nop) f) (hc : s.cur < s.len) (m : Mem σ V) :
    steps L f.blk 1 ⟨s.cur, (s.blk s.cur).length, m⟩ = .run ⟨s.cur, (s.blk s.cur).length + 1, m⟩ := by
  obtain ⟨h1, h2⟩ := at_emit h hc
  simp only [steps, step, h1]
  rw [if_neg (by simp [Item.isTerm])]

theorem step_ev {s f : St} {e : Expr} (h : Later (s.emit (.ev e)) f) (hc : s.cur < s.len) (m : Mem σ V) :
    steps L f.blk 1 ⟨s.cur, (s.blk s.cur).length, m⟩ =
      match L.eval e m.1 with | none => .trap | some r => .run ⟨s.cur, (s.blk s.cur).length + 1, (r.1, m.2)⟩ := by
  obtain ⟨h1, h2⟩ := at_emit h hc
  simp only [steps, step, h1]
  rw [if_neg (by simp [Item.isTerm])]
  cases L.eval e m.1 <;> rfl

theorem step_setRet {s f : St} {e : Expr} (h : Later (s.emit (.setRet e)) f) (hc : s.cur < s.len) (m : Mem σ V) :
    steps L f.blk 1 ⟨s.cur, (s.blk s.cur).length, m⟩ =
      match L.eval e m.1 with | none => .trap | some r => .run ⟨s.cur, (s.blk s.cur).length + 1, (r.1, some r.2)⟩ := by
  obtain ⟨h1, h2⟩ := at_emit h hc
  simp only [steps, step, h1]
  rw [if_neg (by simp [Item.isTerm])]
  cases L.eval e m.1 <;> rfl

theorem step_cbr {s f : St} {e : Expr} {t u : Nat} (h : Later (s.emit (.cbr e t u)) f) (hc : s.cur < s.len) (m : Mem σ V) :
    steps L f.blk 1 ⟨s.cur, (s.blk s.cur).length, m⟩ =
      match L.eval e m.1 with | none => .trap | some r => .run ⟨if L.truth r.2 = true then t else u, 0, (r.1, m.2)⟩ := by
  obtain ⟨h1, h2⟩ := at_emit h hc
  simp only [steps, step, h1]
  rw [if_neg (by simp [Item.isTerm, h2 rfl])]
  cases L.eval e m.1 <;> rfl

theorem prep_cur_lt (splits : Expr → Bool) (e : Expr) (s : St) (h : s.cur < s.len) : (s.prep splits e).cur < (s.prep splits e).len := by
  unfold St.prep
  split
  · show s.len < s.len + 1; omega
  · exact h

/-- The blocks an expression starts with lead to its evaluation. -/
theorem prep_steps (splits : Expr → Bool) (e : Expr) {s f : St} (hc : s.cur < s.len) (hf : s.blk s.len = []) (h : Later (s.prep splits e) f) (m : Mem σ V) :
    ∃ k, steps L f.blk k ⟨s.cur, (s.blk s.cur).length, m⟩ = .run ⟨(s.prep splits e).cur, ((s.prep splits e).blk (s.prep splits e).cur).length, m⟩ := by
  unfold St.prep at h ⊢
  split
  · rename_i hs
    rw [if_pos hs] at h
    have h1 : Later (((s.emit .nop).alloc 1).emit (.br s.len)) f := (Later.goto _ _).trans h
    have hcl : closed (((s.emit .nop).alloc 1).blk ((s.emit .nop).alloc 1).cur) = false := by
      show closed ((s.emit .nop).blk s.cur) = false
      rw [emit_cur, closed_append]; rfl
    have h0 : Later (s.emit .nop) f := ((Later.alloc _ 1).trans (Later.emit _ _ hcl)).trans h1
    have a := step_nop (L := L) h0 hc m
    have b := step_br (L := L) h1 (show s.cur < s.len + 1 by omega) m
    refine ⟨1 + 1, steps_trans L f.blk a ?_⟩
    have e1 : (((s.emit .nop).alloc 1).blk ((s.emit .nop).alloc 1).cur).length = (s.blk s.cur).length + 1 := by
      show ((s.emit .nop).blk s.cur).length = _
      rw [emit_cur]; simp
    rw [e1] at b
    rw [show steps L f.blk 1 ⟨s.cur, (s.blk s.cur).length + 1, m⟩ = .run ⟨s.len, 0, m⟩ from b]
    have e2 : ((((s.emit .nop).alloc 1).emit (.br s.len)).goto s.len).blk s.len = [] := by
      have hn : s.len ≠ s.cur := by omega
      simp [St.goto, St.emit, St.alloc, upd, hn, hf]
    show _ = Res.run ⟨s.len, (((((s.emit .nop).alloc 1).emit (.br s.len)).goto s.len).blk s.len).length, m⟩
    rw [e2]; rfl
  · exact ⟨0, rfl⟩

/-- A condition. -/
theorem cond_steps (splits : Expr → Bool) (c : Expr) {s f : St} {t u : Nat} (hc : s.cur < s.len) (hf : s.blk s.len = []) (ho : closed (s.blk s.cur) = false)
    (ho' : closed ((s.prep splits c).blk (s.prep splits c).cur) = false) (h : Later ((s.prep splits c).emit (.cbr c t u)) f) (m : Mem σ V) :
    ∃ k, steps L f.blk (k + 1) ⟨s.cur, (s.blk s.cur).length, m⟩ =
      match L.eval c m.1 with | none => .trap | some r => .run ⟨if L.truth r.2 = true then t else u, 0, (r.1, m.2)⟩ := by
  obtain ⟨k, hk⟩ := prep_steps (L := L) splits c hc hf ((Later.emit _ _ ho').trans h) m
  exact ⟨k, steps_trans L f.blk hk (step_cbr h (prep_cur_lt splits c s hc) m)⟩

theorem does_cond (splits : Expr → Bool) (c : Expr) {s f : St} {t u n : Nat} {loop : Option (Nat × Nat)} {fall : Nat × Nat} (hc : s.cur < s.len) (hf : s.blk s.len = [])
    (ho : closed (s.blk s.cur) = false) (ho' : closed ((s.prep splits c).blk (s.prep splits c).cur) = false) (h : Later ((s.prep splits c).emit (.cbr c t u)) f) (m : Mem σ V)
    {T U : Mem σ V → Out σ V} (ht : ∀ m, Does L f.blk n loop fall ⟨t, 0, m⟩ (T m)) (hu : ∀ m, Does L f.blk n loop fall ⟨u, 0, m⟩ (U m)) :
    Does L f.blk n loop fall ⟨s.cur, (s.blk s.cur).length, m⟩ (cond L c m T U) := by
  obtain ⟨k, hk⟩ := cond_steps (L := L) splits c hc hf ho ho' h m
  unfold cond
  cases he : L.eval c m.1 with
  | none => rw [he] at hk; exact ⟨_, hk⟩
  | some r =>
    rw [he] at hk
    simp only at hk ⊢
    cases hr : L.truth r.2 with
    | true => simp only [hr, if_true] at hk ⊢; exact Does.pre hk (ht _)
    | false => simp only [hr, if_false, Bool.false_eq_true] at hk ⊢; exact Does.pre hk (hu _)

end

/-! ## Statements that always jump never fall through -/

section
variable {σ V : Type} (L : Lang σ V) (n : Nat)

mutual
theorem exec_ends (x : Stmt) (h : Stmt.ends x = true) : ∀ m m', exec L n x m ≠ .next m' := by
  match x with
  | .cont => intro m m' e; simp [exec] at e
  | .brk => intro m m' e; simp [exec] at e
  | .ret => intro m m' e; simp [exec] at e
  | .retVal e => intro m m' e'; rw [exec] at e'; cases he : L.eval e m.1 <;> rw [he] at e' <;> simp at e'
  | .expr e => simp [Stmt.ends] at h
  | .whileLoop c b => simp [Stmt.ends] at h
  | .ifElse c b es el =>
    simp only [Stmt.ends, Bool.and_eq_true] at h
    have h1 := execs_ends b h.1.1
    have h3 := execElse_ends el h.2
    have h2 := execElifs_ends es h.1.2 (execElse L n el) h3
    intro m m'
    rw [exec]
    unfold cond
    cases L.eval c m.1 with
    | none => simp
    | some r =>
      simp only
      split
      · exact h1 _ _
      · exact h2 _ _
theorem execElifs_ends (es : Elifs) (h : Elifs.ends es = true) : ∀ (k : Mem σ V → Out σ V), (∀ m m', k m ≠ .next m') → ∀ m m', execElifs L n es k m ≠ .next m' := by
  match es with
  | .nil => intro k hk m m'; rw [execElifs]; exact hk m m'
  | .cons c b es =>
    simp only [Elifs.ends, Bool.and_eq_true] at h
    have h1 := execs_ends b h.1
    have h2 := execElifs_ends es h.2
    intro k hk m m'
    rw [execElifs]
    unfold cond
    cases L.eval c m.1 with
    | none => simp
    | some r =>
      simp only
      split
      · exact h1 _ _
      · exact h2 k hk _ _
theorem execElse_ends (el : Else) (h : Else.ends el = true) : ∀ m m', execElse L n el m ≠ .next m' := by
  match el with
  | .none => simp [Else.ends] at h
  | .some b =>
    have := execs_ends b (by simpa [Else.ends] using h)
    intro m m'; rw [execElse]; exact this m m'
theorem execs_ends (b : Stmts) (h : Stmts.ends b = true) : ∀ m m', execs L n b m ≠ .next m' := by
  match b with
  | .nil => simp [Stmts.ends] at h
  | .cons x .nil =>
    have h1 := exec_ends x (by simpa [Stmts.ends] using h)
    intro m m'
    rw [execs]
    cases he : exec L n x m with
    | next m1 => exact absurd he (h1 m m1)
    | _ => simp
  | .cons x (.cons y ys) =>
    have h1 := execs_ends (.cons y ys) (by rw [Stmts.ends] at h; exact h)
    intro m m'
    rw [execs]
    cases he : exec L n x m with
    | next m1 => exact h1 m1 m'
    | _ => simp
end
end

/-! ## Simulation -/

section
variable {σ V : Type} {L : Lang σ V} {P : Nat → Prop} {loop : Option (Nat × Nat)} {st s : St}

/-- What the induction says about a statement list. -/
def BodySem (L : Lang σ V) (splits : Expr → Bool) (n : Nat) (b : Stmts) : Prop := ∀ loop st s', Inv loop st → closed (st.blk st.cur) = false → genStmts splits b loop st = some s' →
  ∀ f, Later s' f → ∀ m, Does L f.blk n loop (s'.cur, (s'.blk s'.cur).length) ⟨st.cur, (st.blk st.cur).length, m⟩ (execs L n b m)

/-- A body in its own block, with a branch to `endId` at its end. -/
theorem body_does (splits : Expr → Bool) (n : Nat) (b : Stmts) (hb : BodyOk splits b) (hs : BodySem L splits n b) (hi : Inv loop s) (hp : s.blk s.cur = []) {s2 f : St}
    (hg : genStmts splits b loop s = some s2) (endId : Nat) (hf : Later (s2.brUnless endId) f) (m : Mem σ V) :
    Does L f.blk n loop (endId, 0) ⟨s.cur, 0, m⟩ (execs L n b m) := by
  have ho : closed (s.blk s.cur) = false := by rw [hp]; rfl
  have h1 := hb loop s s2 hi (.inl ho) hg
  have h2 := hs loop s s2 hi ho hg f ((Later.brUnless _ _).trans hf) m
  rw [hp] at h2
  refine Does.post h2 (fun m' hm => ?_)
  have he : Stmts.ends b = false := by
    cases he : Stmts.ends b
    · rfl
    · exact absurd hm (execs_ends L n b he m m')
  have hd : s2.done s2.cur = false := h1.ends_iff.trans he
  unfold St.brUnless at hf
  rw [if_neg (by simp [hd])] at hf
  exact ⟨1, step_br hf h1.gs.cur_lt m'⟩

mutual
theorem genStmt_sem (splits : Expr → Bool) (n : Nat) (x : Stmt) (hcl : Stmt.Clean splits x) : ∀ loop st s', Inv loop st → closed (st.blk st.cur) = false →
    genStmt splits x loop st = some s' → ∀ f, Later s' f → ∀ m, Does L f.blk n loop (s'.cur, (s'.blk s'.cur).length) ⟨st.cur, (st.blk st.cur).length, m⟩ (exec L n x m) := by
  match x with
  | .cont =>
    intro loop st s' hi hc hg f hf m
    cases loop with
    | none => simp [genStmt] at hg
    | some l => simp [genStmt] at hg; subst hg; rw [exec]; exact ⟨l, rfl, 1, step_br hf hi.cur_lt m⟩
  | .brk =>
    intro loop st s' hi hc hg f hf m
    cases loop with
    | none => simp [genStmt] at hg
    | some l => simp [genStmt] at hg; subst hg; rw [exec]; exact ⟨l, rfl, 1, step_br hf hi.cur_lt m⟩
  | .ret =>
    intro loop st s' hi hc hg f hf m
    simp [genStmt] at hg; subst hg; rw [exec]; exact ⟨1, step_br hf hi.cur_lt m⟩
  | .retVal e =>
    intro loop st s' hi hc hg f hf m
    simp [genStmt] at hg; subst hg
    have hcl2 := ((GS.start hi).prep splits e hi.ok hi.cur_lt hc).2
    have hc1 : closed (((st.prep splits e).emit (.setRet e)).blk ((st.prep splits e).emit (.setRet e)).cur) = false := by
      show closed (((st.prep splits e).emit (.setRet e)).blk (st.prep splits e).cur) = false
      rw [emit_cur, closed_append]; rfl
    have hf1 : Later ((st.prep splits e).emit (.setRet e)) f := (Later.emit _ _ hc1).trans hf
    obtain ⟨k, hk⟩ := prep_steps (L := L) splits e hi.cur_lt (hi.fresh _ (Nat.le_refl _)) ((Later.emit _ _ hcl2).trans hf1) m
    have h1 := step_setRet (L := L) hf1 (prep_cur_lt splits e st hi.cur_lt) m
    rw [exec]
    apply Does.pre hk
    cases he : L.eval e m.1 with
    | none => rw [he] at h1; exact ⟨1, h1⟩
    | some r =>
      rw [he] at h1
      have h2 := step_br (L := L) hf (prep_cur_lt splits e st hi.cur_lt) (r.1, some r.2)
      have e1 : (((st.prep splits e).emit (.setRet e)).blk ((st.prep splits e).emit (.setRet e)).cur).length = ((st.prep splits e).blk (st.prep splits e).cur).length + 1 := by
        show (((st.prep splits e).emit (.setRet e)).blk (st.prep splits e).cur).length = _
        rw [emit_cur]; simp
      rw [e1] at h2
      exact ⟨1 + 1, steps_trans L f.blk h1 h2⟩
  | .expr e =>
    intro loop st s' hi hc hg f hf m
    simp [genStmt] at hg; subst hg
    have hcl2 := ((GS.start hi).prep splits e hi.ok hi.cur_lt hc).2
    obtain ⟨k, hk⟩ := prep_steps (L := L) splits e hi.cur_lt (hi.fresh _ (Nat.le_refl _)) ((Later.emit _ _ hcl2).trans hf) m
    have h1 := step_ev (L := L) hf (prep_cur_lt splits e st hi.cur_lt) m
    rw [exec]
    apply Does.pre hk
    cases he : L.eval e m.1 with
    | none => rw [he] at h1; exact ⟨1, h1⟩
    | some r =>
      rw [he] at h1
      refine ⟨1, ?_⟩
      have e1 : (((st.prep splits e).emit (.ev e)).blk ((st.prep splits e).emit (.ev e)).cur).length = ((st.prep splits e).blk (st.prep splits e).cur).length + 1 := by
        show (((st.prep splits e).emit (.ev e)).blk (st.prep splits e).cur).length = _
        rw [emit_cur]; simp
      show _ = Res.run ⟨(st.prep splits e).cur, (((st.prep splits e).emit (.ev e)).blk ((st.prep splits e).emit (.ev e)).cur).length, (r.1, m.2)⟩
      rw [e1]; exact h1
  | .whileLoop c b =>
    rw [Stmt.Clean] at hcl
    have hb : BodyOk splits b := genStmts_shape splits b hcl
    have hbs : BodySem L splits n b := genStmts_sem splits n b hcl
    intro loop st s' hi hc hg f hf m
    rw [genStmt] at hg
    try simp only at hg
    have h1 := (GS.start hi).alloc 3
    have hfr : ∀ t, st.len ≤ t → t < st.len + 3 → t < (st.alloc 3).len ∧ Item.gone ∉ (st.alloc 3).blk t := fun t ht ht' =>
      ⟨ht', by rw [show (st.alloc 3).blk t = [] from hi.fresh t ht]; simp⟩
    have h2 := h1.brUnless hi.ok hi.cur_lt st.len ⟨fun hh => absurd hh (by omega), fun _ => hfr st.len (Nat.le_refl _) (by omega)⟩
    have hc2 := brUnless_closed (st.alloc 3) st.len
    have hp0 : (fun q => False ∨ (st.len ≤ q ∧ q < st.len + 3)) st.len := .inr ⟨Nat.le_refl _, by omega⟩
    have h3' := h2.goto hi.cur_lt hc2 st.len hp0
    have ho3 := goto_open h2 st.len hp0
    have hp3 := (h3'.prep splits c hi.ok hi.cur_lt ho3).2
    have h3 := cond_step splits c hi h2 hc2 st.len (st.len + 1) (st.len + 2) (.inr ⟨Nat.le_refl _, by omega⟩) (.inr ⟨by omega, by omega⟩) (.inr ⟨by omega, by omega⟩)
      (by omega) (by omega)
    obtain ⟨h3, hc3, _, hgn, hL3⟩ := h3
    have hp : ∀ q, q = st.len + 1 ∨ q = st.len + 2 → ((False ∨ (st.len ≤ q ∧ q < st.len + 3)) ∧ q ≠ st.len) := fun q hq => by omega
    have h4 := h3.goto hi.cur_lt hc3 (st.len + 1) (hp _ (.inl rfl))
    obtain ⟨s3, hs3, rfl⟩ := Option.map_eq_some_iff.1 hg
    have hfin := h4.pend (st.len + 2) ⟨hp _ (.inr rfl), by omega⟩
    generalize hstB : (((((st.alloc 3).brUnless st.len).goto st.len).prep splits c).emit (.cbr c (st.len + 1) (st.len + 2))).goto (st.len + 1) = stB at *
    have hlB : stB.len = (((((st.alloc 3).brUnless st.len).goto st.len).prep splits c).emit (.cbr c (st.len + 1) (st.len + 2))).len := by rw [← hstB]; rfl
    have hbB : stB.blk = (((((st.alloc 3).brUnless st.len).goto st.len).prep splits c).emit (.cbr c (st.len + 1) (st.len + 2))).blk := by rw [← hstB]; rfl
    have hcB : stB.cur = st.len + 1 := by rw [← hstB]; rfl
    have hi4 : Inv (some (st.len, st.len + 2)) stB := by
      have hi4' := h4.inv hi
      refine ⟨hi4'.cur_lt, hi4'.fresh, hi4'.ok, ?_, hi4'.tok⟩
      rintro t (ht | ⟨l, hl, ht⟩)
      · exact hi4'.hits t (.inl ht)
      · cases hl
        rcases ht with rfl | rfl
        · exact ⟨by omega, by rw [hbB]; exact hgn⟩
        · exact ⟨hfin.2.1, by rw [hfin.2.2]; simp⟩
    have hb0 : stB.blk stB.cur = [] := by
      rw [hcB]
      have := (h3.pend (st.len + 1) (hp _ (.inl rfl))).2.2
      rw [hbB]; exact this
    have ho4 : closed (stB.blk stB.cur) = false := by rw [hb0]; rfl
    have h5 := hb _ _ _ hi4 (.inl ho4) hs3
    have hfin3 : s3.blk (st.len + 2) = [] := by
      rw [h5.gs.frame (st.len + 2) hfin.2.1 (by rw [hcB]; omega)]; exact hfin.2.2
    have hf3 : Later (s3.brUnless st.len) f := (Later.goto _ _).trans hf
    have hfB : Later stB f := (h5.gs.later.trans (Later.brUnless _ _)).trans hf3
    have hf2 : Later (((((st.alloc 3).brUnless st.len).goto st.len).prep splits c).emit (.cbr c (st.len + 1) (st.len + 2))) f := by
      refine Later.trans ⟨Nat.le_of_eq hlB.symm, fun id _ => ?_⟩ hfB
      rw [hbB]; exact Sub.refl _
    have hf1 : Later ((st.alloc 3).brUnless st.len) f := hL3.trans hf2
    -- entering the loop
    have henter : steps L f.blk 1 ⟨st.cur, (st.blk st.cur).length, m⟩ = .run ⟨st.len, 0, m⟩ := by
      unfold St.brUnless at hf1
      rw [if_neg (by show ¬closed (st.blk st.cur) = true; simp [hc])] at hf1
      exact step_br hf1 (show st.cur < st.len + 3 by have := hi.cur_lt; omega) m
    have hbody := fun m => body_does splits n b hb hbs hi4 hb0 hs3 st.len hf3 m
    rw [hcB] at hbody
    have hgo : ∀ (j : Nat), j ≤ n → ∀ m, Does L f.blk j loop (st.len + 2, 0) ⟨st.len, 0, m⟩ (iterate L c (execs L n b) j m) := by
      intro j
      induction j with
      | zero => intro _ m; exact ⟨0, Nat.le_refl _, _, rfl⟩
      | succ j ih =>
        intro hj m
        obtain ⟨k, hk⟩ := cond_steps (L := L) (s := (((st.alloc 3).brUnless st.len).goto st.len)) splits c h3'.cur_lt (h3'.fresh _ (Nat.le_refl _)) ho3 hp3 hf2 m
        have e0 : ((((st.alloc 3).brUnless st.len).goto st.len).blk (((st.alloc 3).brUnless st.len).goto st.len).cur).length = 0 := by
          have := (h2.pend st.len hp0).2.2
          show ((((st.alloc 3).brUnless st.len)).blk st.len).length = 0
          rw [this]; rfl
        rw [e0] at hk
        rw [iterate]
        unfold cond
        cases he : L.eval c m.1 with
        | none => rw [he] at hk; exact ⟨_, hk⟩
        | some r =>
          rw [he] at hk
          simp only at hk ⊢
          cases hr : L.truth r.2 with
          | false =>
            simp only [hr, Bool.false_eq_true, if_false] at hk ⊢
            exact ⟨_, hk⟩
          | true =>
            simp only [hr, if_true] at hk ⊢
            have hb1 := hbody (r.1, m.2)
            cases hx : execs L n b (r.1, m.2) with
            | next m1 =>
              rw [hx] at hb1
              obtain ⟨k1, hk1⟩ := hb1
              have h := steps_trans L f.blk hk hk1
              simp only
              have ihm := ih (by omega) m1
              cases ho : iterate L c (execs L n b) j m1 with
              | more =>
                rw [ho] at ihm
                obtain ⟨k2, hk2, q, hq⟩ := ihm
                exact ⟨_, by omega, q, steps_trans L f.blk h hq⟩
              | next a => rw [ho] at ihm; exact Does.pre (n := j) (o := .next a) h ihm
              | brk a => rw [ho] at ihm; exact Does.pre (n := j) (o := .brk a) h ihm
              | cont a => rw [ho] at ihm; exact Does.pre (n := j) (o := .cont a) h ihm
              | ret a => rw [ho] at ihm; exact Does.pre (n := j) (o := .ret a) h ihm
              | trap => rw [ho] at ihm; exact Does.pre (n := j) (o := .trap) h ihm
            | cont m1 =>
              rw [hx] at hb1
              obtain ⟨l, hl, k1, hk1⟩ := hb1
              cases hl
              have h := steps_trans L f.blk hk hk1
              simp only
              have ihm := ih (by omega) m1
              cases ho : iterate L c (execs L n b) j m1 with
              | more =>
                rw [ho] at ihm
                obtain ⟨k2, hk2, q, hq⟩ := ihm
                exact ⟨_, by omega, q, steps_trans L f.blk h hq⟩
              | next a => rw [ho] at ihm; exact Does.pre (n := j) (o := .next a) h ihm
              | brk a => rw [ho] at ihm; exact Does.pre (n := j) (o := .brk a) h ihm
              | cont a => rw [ho] at ihm; exact Does.pre (n := j) (o := .cont a) h ihm
              | ret a => rw [ho] at ihm; exact Does.pre (n := j) (o := .ret a) h ihm
              | trap => rw [ho] at ihm; exact Does.pre (n := j) (o := .trap) h ihm
            | brk m1 =>
              rw [hx] at hb1
              obtain ⟨l, hl, k1, hk1⟩ := hb1
              cases hl
              exact ⟨_, steps_trans L f.blk hk hk1⟩
            | ret m1 =>
              rw [hx] at hb1
              obtain ⟨k1, hk1⟩ := hb1
              exact ⟨_, steps_trans L f.blk hk hk1⟩
            | trap =>
              rw [hx] at hb1
              obtain ⟨k1, hk1⟩ := hb1
              exact ⟨_, steps_trans L f.blk hk hk1⟩
            | more =>
              rw [hx] at hb1
              obtain ⟨k1, hn, q, hk1⟩ := hb1
              exact ⟨_, by omega, q, steps_trans L f.blk hk hk1⟩
    rw [exec]
    have hlast := hgo n (Nat.le_refl _) m
    have e1 : ((s3.brUnless st.len).goto (st.len + 2)).blk (st.len + 2) = [] := by
      show (s3.brUnless st.len).blk (st.len + 2) = []
      have hne : st.len + 2 ≠ s3.cur := by
        intro e
        rcases h5.gs.cur_or with h | h
        · rw [hcB] at h; omega
        · have := hfin.2.1; omega
      unfold St.brUnless
      split
      · exact hfin3
      · rw [emit_other _ _ _ hne]; exact hfin3
    have e2 : (((s3.brUnless st.len).goto (st.len + 2)).blk ((s3.brUnless st.len).goto (st.len + 2)).cur).length = 0 := by
      show (((s3.brUnless st.len).goto (st.len + 2)).blk (st.len + 2)).length = 0
      rw [e1]; rfl
    rw [e2]
    exact Does.pre henter hlast
  | .ifElse c b es el =>
    rw [Stmt.Clean] at hcl
    have hb : BodyOk splits b := genStmts_shape splits b hcl.1
    have hbs : BodySem L splits n b := genStmts_sem splits n b hcl.1
    have hes := genElifs_shape splits es hcl.2.1
    have hess := genElifs_sem splits n es hcl.2.1
    have hel := genElse_shape splits el hcl.2.2
    have hels := genElse_sem splits n el hcl.2.2
    have hshape := genStmt_shape splits (.ifElse c b es el) (by rw [Stmt.Clean]; exact hcl)
    intro loop st s' hi hc hg f hf m
    have hsh := hshape loop st s' hi (.inl hc) hg
    rw [genStmt] at hg
    try simp only at hg
    obtain ⟨h0, hc0⟩ := (GS.start hi).prep splits c hi.ok hi.cur_lt hc
    generalize hst0 : st.prep splits c = st0 at *
    generalize hk : elifCount es = k at *
    generalize hE : (st0.len + 1 + 2 * k + if hasElse el = true then 1 else 0) = E at *
    generalize hI : (if hasElse el = true then some (st0.len + 1 + 2 * k) else none) = I at *
    have hIv : (hasElse el = true ∧ I = some (st0.len + 1 + 2 * k) ∧ E = st0.len + 1 + 2 * k + 1) ∨ (hasElse el = false ∧ I = none ∧ E = st0.len + 1 + 2 * k) := by
      cases hh : hasElse el <;> simp [hh] at hE hI
      · exact .inr ⟨rfl, hI.symm, hE.symm⟩
      · exact .inl ⟨rfl, hI.symm, by omega⟩
    have h1 := h0.alloc (E + 1 - st0.len)
    have hEl : st0.len < E := by omega
    have hIr : ∀ b, I = some b → st0.len + 1 + 2 * k ≤ b ∧ b < E := by
      intro b hb; rcases hIv with ⟨_, h2, h3⟩ | ⟨_, h2, h3⟩
      · rw [h2] at hb; cases hb; omega
      · rw [h2] at hb; cases hb
    have hnext : st0.len + 1 ≤ nextBlock es (st0.len + 1) I E ∧ nextBlock es (st0.len + 1) I E ≤ E := by
      apply nextBlock_range
      · exact Nat.le_refl _
      · exact .inl (by omega)
      · exact Nat.le_refl _
      · omega
      · intro b hb; have := hIr b hb; omega
    have hlen0 := h0.len_le
    have hfr : ∀ t, st0.len ≤ t → t ≤ E → t < (st0.alloc (E + 1 - st0.len)).len ∧ Item.gone ∉ (st0.alloc (E + 1 - st0.len)).blk t := fun t ht ht' =>
      ⟨by show t < st0.len + (E + 1 - st0.len); omega, by rw [show (st0.alloc (E + 1 - st0.len)).blk t = [] from h0.fresh t ht]; simp⟩
    have h2 := h1.emit hi.ok hi.cur_lt hc0 (.cbr c st0.len (nextBlock es (st0.len + 1) I E)) (by simp) (fun t ht => by
      have ht' : st0.len ≤ t ∧ t ≤ E := by
        simp [Item.targets] at ht
        rcases ht with rfl | rfl <;> omega
      exact ⟨fun hh => by omega, fun _ => hfr t ht'.1 ht'.2⟩)
    have hc2 : closed (((st0.alloc (E + 1 - st0.len)).emit (.cbr c st0.len (nextBlock es (st0.len + 1) I E))).blk
        ((st0.alloc (E + 1 - st0.len)).emit (.cbr c st0.len (nextBlock es (st0.len + 1) I E))).cur) = true := by
      show closed (((st0.alloc (E + 1 - st0.len)).emit (.cbr c st0.len (nextBlock es (st0.len + 1) I E))).blk (st0.alloc (E + 1 - st0.len)).cur) = true
      rw [emit_cur, closed_append]; rfl
    have h2 := h2.congr (Q := fun q => st0.len ≤ q ∧ q ≤ E) (fun q => by
      constructor
      · intro hq; exact .inr ⟨hq.1, by omega⟩
      · rintro (hq | hq)
        · exact hq.elim
        · exact ⟨hq.1, by have := hq.2; omega⟩)
    obtain ⟨s2, hs2, hg⟩ := Option.bind_eq_some_iff.1 hg
    obtain ⟨s3, hs3, hg⟩ := Option.bind_eq_some_iff.1 hg
    obtain ⟨s4, hs4, rfl⟩ := Option.map_eq_some_iff.1 hg
    have hpn : st0.len ≤ st0.len ∧ st0.len ≤ E := ⟨Nat.le_refl _, by omega⟩
    obtain ⟨hshb, h3, hc3, hl3, hT3, hL3⟩ := body_step splits b hb hi h2 hc2 st0.len E hpn ⟨by omega, Nat.le_refl _⟩ (by omega) s2 hs2
    have h3 := h3.congr (Q := fun q => st0.len + 1 ≤ q ∧ q ≤ E) (fun q => by omega)
    obtain ⟨h4, hc4, hl4, hT4, hL4⟩ := hes loop st _ s3 (st0.len + 1) I E hi h3 hc3 hl3 (by omega) (fun b hb => by have := hIr b hb; omega) hs3
    have h4 := h4.congr (Q := fun q => st0.len + 1 + 2 * k ≤ q ∧ q ≤ E) (fun q => by omega)
    obtain ⟨h5, hc5, hl5, hT5, hL5⟩ := hel loop st _ s4 (st0.len + 1 + 2 * k) I E hi h4 hc4 hl4 hIv hs4
    have hfp := hasPred_iff s4 h5.fresh E
    have hf4 : Later s4 f := by
      refine Later.trans ?_ hf
      unfold St.finish
      split
      · exact Later.goto _ _
      · refine ⟨Nat.le_refl _, fun id _ => ?_⟩
        simp only [upd]
        split
        · rename_i e; rw [e, (h5.pend E rfl).2.2]; exact Sub.nil _
        · exact Sub.refl _
    have hf3 := hL5.trans hf4
    have hf2 := hL4.trans hf3
    have hf1 := hL3.trans hf2
    -- the parts
    have hi1 := (h2.goto hi.cur_lt hc2 st0.len hpn).inv hi
    have hbe := fun m => body_does (L := L) splits n b hb hbs hi1 (h2.pend st0.len hpn).2.2 hs2 E hf2 m
    have hee := hels loop st _ s4 (st0.len + 1 + 2 * k) I E hi h4 hc4 hIv hs4 f hf4
    have hle := hess loop st _ s3 (st0.len + 1) I E hi h3 hc3 hl3 (by omega) (fun b hb => by have := hIr b hb; omega) hs3 f hf3 (execElse L n el) hee
    have hcond : Does L f.blk n loop (E, 0) ⟨st.cur, (st.blk st.cur).length, m⟩ (exec L n (.ifElse c b es el) m) := by
      rw [exec]
      have hfa : Later st0 f := ((Later.alloc st0 (E + 1 - st0.len)).trans (Later.emit _ _ hc0)).trans hf1
      subst hst0
      obtain ⟨j, hj⟩ := prep_steps (L := L) splits c hi.cur_lt (hi.fresh _ (Nat.le_refl _)) hfa m
      have hj2 := step_cbr (L := L) hf1 (show (st.prep splits c).cur < (st.prep splits c).len + _ by have := h0.cur_lt; omega) m
      unfold cond
      apply Does.pre hj
      cases he : L.eval c m.1 with
      | none => rw [he] at hj2; exact ⟨_, hj2⟩
      | some r =>
        rw [he] at hj2
        simp only at hj2 ⊢
        cases hr : L.truth r.2 with
        | true => simp only [hr, if_true] at hj2 ⊢; exact Does.pre hj2 (hbe _)
        | false => simp only [hr, if_false, Bool.false_eq_true] at hj2 ⊢; exact Does.pre hj2 (hle _)
    refine Does.post hcond (fun m' hm => ?_)
    refine ⟨0, ?_⟩
    have hne : Stmt.ends (.ifElse c b es el) = false := by
      cases he : Stmt.ends (.ifElse c b es el)
      · rfl
      · exact absurd hm (exec_ends L n _ he m m')
    have hcf := hsh.ends_iff
    rw [hne] at hcf
    have hp : s4.hasPred E = true := by
      cases hp : s4.hasPred E
      · unfold St.finish at hcf
        rw [hp] at hcf
        simp only [Bool.false_eq_true, if_false] at hcf
        have hn : s4.cur ≠ E := fun e => h5.cur_np e
        have : upd s4.blk E [.gone] s4.cur = s4.blk s4.cur := by simp [upd, hn]
        rw [this, hc5] at hcf
        cases hcf
      · rfl
    unfold St.finish
    rw [hp]
    simp only [if_true]
    have e1 : ((s4.goto E).blk (s4.goto E).cur).length = 0 := by
      show (s4.blk E).length = 0
      rw [(h5.pend E rfl).2.2]; rfl
    rw [e1]; rfl
theorem genElifs_sem (splits : Expr → Bool) (n : Nat) (es : Elifs) (hcl : Elifs.Clean splits es) : ∀ loop st s s' condId elseId endId, Inv loop st →
    GS (fun q => condId ≤ q ∧ q ≤ endId) loop st s → closed (s.blk s.cur) = true → st.len ≤ s.cur → condId + 2 * elifCount es ≤ endId →
    (∀ b, elseId = some b → condId + 2 * elifCount es ≤ b ∧ b < endId) → genElifs splits es loop condId elseId endId s = some s' →
    ∀ f, Later s' f → ∀ K : Mem σ V → Out σ V, (∀ m, Does L f.blk n loop (endId, 0) ⟨nextBlock .nil 0 elseId endId, 0, m⟩ (K m)) →
      ∀ m, Does L f.blk n loop (endId, 0) ⟨nextBlock es condId elseId endId, 0, m⟩ (execElifs L n es K m) := by
  match es with
  | .nil =>
    intro loop st s s' condId elseId endId hi h hc hl hle _ hg f hf K hK m
    rw [execElifs]
    exact hK m
  | .cons c b es =>
    rw [Elifs.Clean] at hcl
    have hb : BodyOk splits b := genStmts_shape splits b hcl.1
    have hbs : BodySem L splits n b := genStmts_sem splits n b hcl.1
    have ih := genElifs_shape splits es hcl.2.2
    have ihs := genElifs_sem splits n es hcl.2.2
    intro loop st s s' condId elseId endId hi h hc hl hle hel hg f hf K hK m
    rw [elifCount] at hle hel
    rw [genElifs] at hg
    try simp only at hg
    obtain ⟨s2, hs2, hg⟩ := Option.bind_eq_some_iff.1 hg
    have hnext : condId + 2 ≤ nextBlock es (condId + 2) elseId endId ∧ nextBlock es (condId + 2) elseId endId ≤ endId := by
      apply nextBlock_range
      · exact Nat.le_refl _
      · exact .inl (by omega)
      · exact Nat.le_refl _
      · omega
      · intro b hb; have := hel b hb; omega
    have hp0 : condId ≤ condId ∧ condId ≤ endId := ⟨Nat.le_refl _, by omega⟩
    obtain ⟨h1, hc1, hT1, _, hL1⟩ := cond_step splits c hi h hc condId (condId + 1) (nextBlock es (condId + 2) elseId endId) hp0 ⟨by omega, by omega⟩
      ⟨by omega, hnext.2⟩ (by omega) (by omega)
    have hp1 : (condId ≤ condId + 1 ∧ condId + 1 ≤ endId) ∧ condId + 1 ≠ condId := ⟨⟨by omega, by omega⟩, by omega⟩
    obtain ⟨hsh, h2, hc2, hl2, hT2, hL2⟩ := body_step splits b hb hi h1 hc1 (condId + 1) endId hp1 ⟨⟨by omega, by omega⟩, by omega⟩ (by omega) s2 hs2
    rw [end_body (b := condId + 1) hsh hcl.2.1 rfl endId] at hg
    have h2 := h2.congr (Q := fun q => condId + 2 ≤ q ∧ q ≤ endId) (fun q => by omega)
    obtain ⟨h3, hc3, hl3, hT3, hL3⟩ := ih loop st _ s' (condId + 2) elseId endId hi h2 hc2 hl2 (by omega) (fun b hb => by have := hel b hb; omega) hg
    have hrest := ihs loop st _ s' (condId + 2) elseId endId hi h2 hc2 hl2 (by omega) (fun b hb => by have := hel b hb; omega) hg f hf K hK
    have hf2 := hL3.trans hf
    have hf1 := hL2.trans hf2
    have hi1 := (h1.goto hi.cur_lt hc1 (condId + 1) hp1).inv hi
    have hbe := fun m => body_does (L := L) splits n b hb hbs hi1 (h1.pend (condId + 1) hp1).2.2 hs2 endId hf2 m
    have hg0 := h.goto hi.cur_lt hc condId hp0
    have ho0 := goto_open h condId hp0
    have hpr := (hg0.prep splits c hi.ok hi.cur_lt ho0).2
    have := does_cond (L := L) (s := s.goto condId) (n := n) (loop := loop) (fall := (endId, 0)) splits c hg0.cur_lt (hg0.fresh _ (Nat.le_refl _)) ho0 hpr hf1 m
      (T := execs L n b) (U := execElifs L n es K) hbe hrest
    rw [execElifs]
    have e0 : ((s.goto condId).blk (s.goto condId).cur).length = 0 := by
      show (s.blk condId).length = 0
      rw [(h.pend condId hp0).2.2]; rfl
    rw [e0] at this
    exact this
theorem genElse_sem (splits : Expr → Bool) (n : Nat) (el : Else) (hcl : Else.Clean splits el) : ∀ loop st s s' k elseId endId, Inv loop st →
    GS (fun q => k ≤ q ∧ q ≤ endId) loop st s → closed (s.blk s.cur) = true →
    ((hasElse el = true ∧ elseId = some k ∧ endId = k + 1) ∨ (hasElse el = false ∧ elseId = none ∧ endId = k)) → genElse splits el loop elseId endId s = some s' →
    ∀ f, Later s' f → ∀ m, Does L f.blk n loop (endId, 0) ⟨nextBlock .nil 0 elseId endId, 0, m⟩ (execElse L n el m) := by
  match el with
  | .none =>
    intro loop st s s' k elseId endId hi h hc hI hg f hf m
    rcases hI with ⟨h1, _⟩ | ⟨_, rfl, rfl⟩
    · cases h1
    · rw [execElse]; exact ⟨0, rfl⟩
  | .some b =>
    rw [Else.Clean] at hcl
    have hb : BodyOk splits b := genStmts_shape splits b hcl.1
    have hbs : BodySem L splits n b := genStmts_sem splits n b hcl.1
    intro loop st s s' k elseId endId hi h hc hI hg f hf m
    rcases hI with ⟨_, rfl, rfl⟩ | ⟨h1, _⟩
    · rw [genElse] at hg
      obtain ⟨s2, hs2, hg⟩ := Option.map_eq_some_iff.1 hg
      have hp0 : k ≤ k ∧ k ≤ k + 1 := ⟨Nat.le_refl _, by omega⟩
      obtain ⟨hsh, h2, hc2, hl2, hT2, hL2⟩ := body_step splits b hb hi h hc k (k + 1) hp0 ⟨by omega, Nat.le_refl _⟩ (by omega) s2 hs2
      rw [end_body (b := k) hsh hcl.2 rfl (k + 1)] at hg
      subst hg
      have hi1 := (h.goto hi.cur_lt hc k hp0).inv hi
      rw [execElse]
      exact body_does (L := L) splits n b hb hbs hi1 (h.pend k hp0).2.2 hs2 (k + 1) hf m
    · cases h1
theorem genStmts_sem (splits : Expr → Bool) (n : Nat) (b : Stmts) (hcl : Stmts.Clean splits b) : BodySem L splits n b := by
  match b with
  | .nil =>
    intro loop st s' hi hc hg f hf m
    simp [genStmts] at hg; subst hg
    rw [execs]; exact ⟨0, rfl⟩
  | .cons x xs =>
    rw [Stmts.Clean] at hcl
    have hx := genStmt_shape splits x hcl.1
    have hxs := genStmt_sem splits n x hcl.1
    have hr := genStmts_shape splits xs hcl.2.1
    have hrs := genStmts_sem splits n xs hcl.2.1
    intro loop st s' hi hc hg f hf m
    rw [genStmts] at hg
    obtain ⟨s1, hs1, hg⟩ := Option.bind_eq_some_iff.1 hg
    have h1 := hx loop st s1 hi (.inl hc) hs1
    have hi1 := h1.gs.inv hi
    have hL : Later s1 s' := by
      cases xs with
      | nil => simp [genStmts] at hg; subst hg; exact Later.refl _
      | cons y ys =>
        refine (hr loop s1 s' hi1 ?_ hg).gs.later
        cases he : Stmt.ends x with
        | false => exact .inl (h1.ends_iff.trans he)
        | true =>
          right
          have := hcl.2.2 he
          cases y with
          | whileLoop c x' => exact ⟨c, x', ys, rfl⟩
          | _ => simp [Stmts.startsWhile] at this
    have h2 := hxs loop st s1 hi hc hs1 f (hL.trans hf) m
    rw [execs]
    cases hm : exec L n x m with
    | next m1 =>
      rw [hm] at h2
      obtain ⟨k, hk⟩ := h2
      have he : Stmt.ends x = false := by
        cases he : Stmt.ends x
        · rfl
        · exact absurd hm (exec_ends L n x he m m1)
      exact Does.pre hk (hrs loop s1 s' hi1 (h1.ends_iff.trans he) hg f hf m1)
    | brk m1 => rw [hm] at h2; exact h2
    | cont m1 => rw [hm] at h2; exact h2
    | ret m1 => rw [hm] at h2; exact h2
    | trap => rw [hm] at h2; exact h2
    | more => rw [hm] at h2; exact h2
end
end

end Verif.Gen
