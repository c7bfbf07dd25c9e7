import Verif.Gen.Cfg
/-! # Form of the generated blocks: lemmas for C36 -/
namespace Verif.Gen
open Verif.Ast

/-- No terminator inside. -/
def Opn (b : List Item) : Prop := ∀ i ∈ b, i.isTerm = false

/-- Instructions and one terminator at the end. -/
def Good (b : List Item) : Prop := ∃ a t, b = a ++ [t] ∧ Opn a ∧ t.isTerm = true

def Ok (b : List Item) : Prop := Opn b ∨ Good b

/-- `b` continues `a`; nothing is added after a terminator. -/
def Sub (a b : List Item) : Prop := ∃ c, b = a ++ c ∧ (closed a = true → c = [])

theorem closed_append (a : List Item) (i : Item) : closed (a ++ [i]) = i.isTerm := by simp [closed]

theorem closed_nil : closed [] = false := rfl

theorem opn_not_closed {b : List Item} (h : Opn b) : closed b = false := by
  unfold closed
  cases hb : b.getLast? with
  | none => rfl
  | some i => exact h i (List.mem_of_getLast? hb)

theorem good_closed {b : List Item} (h : Good b) : closed b = true := by
  obtain ⟨a, t, rfl, _, ht⟩ := h
  rw [closed_append, ht]

theorem ok_opn {b : List Item} (h : Ok b) (hc : closed b = false) : Opn b := by
  rcases h with h | h
  · exact h
  · rw [good_closed h] at hc; cases hc

theorem ok_good {b : List Item} (h : Ok b) (hc : closed b = true) : Good b := by
  rcases h with h | h
  · rw [opn_not_closed h] at hc; cases hc
  · exact h

theorem opn_nil : Opn [] := fun _ h => by cases h

theorem opn_append {b : List Item} {i : Item} (h : Opn b) (hi : i.isTerm = false) : Opn (b ++ [i]) := by
  intro j hj
  rcases List.mem_append.1 hj with h1 | h1
  · exact h j h1
  · simp at h1; subst h1; exact hi

theorem ok_append {b : List Item} {i : Item} (h : Opn b) : Ok (b ++ [i]) := by
  cases hi : i.isTerm with
  | false => exact .inl (opn_append h hi)
  | true => exact .inr ⟨b, i, rfl, h, hi⟩

theorem Sub.refl (a : List Item) : Sub a a := ⟨[], by simp, fun _ => rfl⟩

theorem Sub.trans {a b c : List Item} (h : Sub a b) (h' : Sub b c) : Sub a c := by
  obtain ⟨x, rfl, hx⟩ := h
  obtain ⟨y, rfl, hy⟩ := h'
  refine ⟨x ++ y, by simp, fun hc => ?_⟩
  have := hx hc
  subst this
  rw [List.append_nil] at hy
  rw [hy hc]
  rfl

theorem Sub.append {a : List Item} (b : List Item) (h : closed a = false) : Sub a (a ++ b) := ⟨b, rfl, fun hc => by rw [h] at hc; cases hc⟩

theorem Sub.nil (b : List Item) : Sub [] b := ⟨b, rfl, fun h => by cases h⟩

/-- Blocks are only continued, and not after a terminator. -/
def Later (st s : St) : Prop := st.len ≤ s.len ∧ ∀ id, id < st.len → Sub (st.blk id) (s.blk id)

theorem Later.refl (st : St) : Later st st := ⟨Nat.le_refl _, fun _ _ => Sub.refl _⟩

theorem Later.trans {a b c : St} (h : Later a b) (h' : Later b c) : Later a c :=
  ⟨Nat.le_trans h.1 h'.1, fun id hid => (h.2 id hid).trans (h'.2 id (Nat.lt_of_lt_of_le hid h.1))⟩

theorem Later.emit (s : St) (i : Item) (h : closed (s.blk s.cur) = false) : Later s (s.emit i) := by
  refine ⟨Nat.le_refl _, fun id _ => ?_⟩
  simp only [St.emit, upd]
  split
  · rename_i e; subst e; exact Sub.append [i] h
  · exact Sub.refl _

theorem Later.alloc (s : St) (k : Nat) : Later s (s.alloc k) := ⟨Nat.le_add_right _ _, fun _ _ => Sub.refl _⟩

theorem Later.goto (s : St) (p : Nat) : Later s (s.goto p) := ⟨Nat.le_refl _, fun _ _ => Sub.refl _⟩

theorem Later.prep (splits : Expr → Bool) (e : Expr) (s : St) (h : closed (s.blk s.cur) = false) : Later s (s.prep splits e) := by
  unfold St.prep
  split
  · refine ((Later.emit s .nop h).trans (Later.alloc _ 1)).trans ((Later.emit _ _ ?_).trans (Later.goto _ _))
    simp [St.emit, St.alloc, upd, closed, Item.isTerm]
  · exact Later.refl _

theorem Later.brUnless (s : St) (b : Nat) : Later s (s.brUnless b) := by
  unfold St.brUnless St.done
  split
  · exact Later.refl _
  · rename_i h; exact Later.emit s _ (by simpa using h)

/-- Some instruction branches to the block. -/
def Targets (st : St) (t : Nat) : Prop := ∃ id, ∃ i ∈ st.blk id, t ∈ i.targets

/-- Jump targets from outside: the exit and the current loop. -/
def Hits (loop : Option (Nat × Nat)) (t : Nat) : Prop := t = 1 ∨ ∃ l, loop = some l ∧ (t = l.1 ∨ t = l.2)

/-- The state `s` reached from `st` while generating one statement; the blocks satisfying `P` are created and still empty. -/
structure GS (P : Nat → Prop) (loop : Option (Nat × Nat)) (st s : St) : Prop where
  len_le : st.len ≤ s.len
  cur_lt : s.cur < s.len
  cur_or : s.cur = st.cur ∨ st.len ≤ s.cur
  cur_np : ¬P s.cur
  frame : ∀ id, id < st.len → id ≠ st.cur → s.blk id = st.blk id
  fresh : ∀ id, s.len ≤ id → s.blk id = []
  sub : Sub (st.blk st.cur) (s.blk st.cur)
  pend : ∀ p, P p → st.len ≤ p ∧ p < s.len ∧ s.blk p = []
  new : ∀ id, st.len ≤ id → id < s.len → ¬P id → Ok (s.blk id) ∧ (id ≠ s.cur → closed (s.blk id) = true)
  ok_cur : Ok (st.blk st.cur) → Ok (s.blk st.cur)
  moved : s.cur ≠ st.cur → closed (s.blk st.cur) = true
  targ : ∀ t, t < st.len → Targets s t → Targets st t ∨ Hits loop t
  gone_old : ∀ id, id < st.len → Item.gone ∈ s.blk id → Item.gone ∈ st.blk id
  tok : ∀ t, st.len ≤ t → Targets s t → t < s.len ∧ Item.gone ∉ s.blk t

/-- Conditions on a state before a statement. -/
structure Inv (loop : Option (Nat × Nat)) (st : St) : Prop where
  cur_lt : st.cur < st.len
  fresh : ∀ id, st.len ≤ id → st.blk id = []
  ok : Ok (st.blk st.cur)
  hits : ∀ t, Hits loop t → t < st.len ∧ Item.gone ∉ st.blk t
  tok : ∀ t, Targets st t → t < st.len ∧ Item.gone ∉ st.blk t

variable {P Q : Nat → Prop} {loop : Option (Nat × Nat)} {st s s' : St}

theorem Inv.one_lt (h : Inv loop st) : 1 < st.len := (h.hits 1 (.inl rfl)).1

theorem GS.start (h : Inv loop st) : GS (fun _ => False) loop st st where
  len_le := Nat.le_refl _
  cur_lt := h.cur_lt
  cur_or := .inl rfl
  cur_np := fun h => h
  frame := fun _ _ _ => rfl
  fresh := h.fresh
  sub := Sub.refl _
  pend := fun _ h => h.elim
  new := fun id h1 h2 _ => absurd h1 (by omega)
  ok_cur := id
  moved := fun h => absurd rfl h
  targ := fun t _ h => .inl h
  gone_old := fun _ _ h => h
  tok := fun t _ ht => h.tok t ht

theorem GS.congr (h : GS P loop st s) (e : ∀ q, Q q ↔ P q) : GS Q loop st s where
  len_le := h.len_le
  cur_lt := h.cur_lt
  cur_or := h.cur_or
  cur_np := fun x => h.cur_np ((e _).1 x)
  frame := h.frame
  fresh := h.fresh
  sub := h.sub
  pend := fun p hp => h.pend p ((e p).1 hp)
  new := fun id h1 h2 h3 => h.new id h1 h2 (fun x => h3 ((e id).2 x))
  ok_cur := h.ok_cur
  moved := h.moved
  targ := h.targ
  gone_old := h.gone_old
  tok := h.tok

theorem targets_emit (s : St) (i : Item) (t : Nat) : Targets (s.emit i) t ↔ Targets s t ∨ t ∈ i.targets := by
  constructor
  · rintro ⟨id, j, hj, ht⟩
    simp only [St.emit, upd] at hj
    split at hj
    · rcases List.mem_append.1 hj with h1 | h1
      · exact .inl ⟨_, j, h1, ht⟩
      · simp at h1; subst h1; exact .inr ht
    · exact .inl ⟨id, j, hj, ht⟩
  · rintro (⟨id, j, hj, ht⟩ | ht)
    · refine ⟨id, j, ?_, ht⟩
      simp only [St.emit, upd]
      split
      · rename_i h; subst h; exact List.mem_append.2 (.inl hj)
      · exact hj
    · exact ⟨s.cur, i, by simp [St.emit, upd], ht⟩

theorem emit_cur (s : St) (i : Item) : (s.emit i).blk s.cur = s.blk s.cur ++ [i] := by simp [St.emit, upd]

theorem emit_other (s : St) (i : Item) (id : Nat) (h : id ≠ s.cur) : (s.emit i).blk id = s.blk id := by simp [St.emit, upd, h]

theorem GS.okNow (h : GS P loop st s) (ho : Ok (st.blk st.cur)) : Ok (s.blk s.cur) := by
  rcases h.cur_or with e | e
  · rw [e]; exact h.ok_cur ho
  · exact (h.new s.cur e h.cur_lt h.cur_np).1

/-- Adding an instruction. -/
theorem GS.emit (h : GS P loop st s) (ho : Ok (st.blk st.cur)) (hst : st.cur < st.len) (hc : closed (s.blk s.cur) = false) (i : Item) (hg : i ≠ .gone)
    (ht : ∀ t ∈ i.targets, (t < st.len → Hits loop t) ∧ (st.len ≤ t → t < s.len ∧ Item.gone ∉ s.blk t)) : GS P loop st (s.emit i) where
  len_le := h.len_le
  cur_lt := h.cur_lt
  cur_or := h.cur_or
  cur_np := h.cur_np
  frame := fun id h1 h2 => by
    rw [emit_other s i id ?_]
    · exact h.frame id h1 h2
    · intro e; subst e
      rcases h.cur_or with e | e
      · exact h2 e
      · omega
  fresh := fun id h1 => by
    rw [emit_other s i id ?_]
    · exact h.fresh id h1
    · intro e; subst e; exact absurd h.cur_lt (Nat.not_lt.2 h1)
  sub := by
    by_cases e : st.cur = s.cur
    · rw [e, emit_cur]
      exact (e ▸ h.sub).trans (Sub.append [i] hc)
    · rw [emit_other s i _ e]; exact h.sub
  pend := fun p hp => by
    rw [emit_other s i p (fun e => h.cur_np (e ▸ hp))]
    exact h.pend p hp
  new := fun id h1 h2 h3 => by
    by_cases e : id = s.cur
    · subst e
      rw [emit_cur]
      exact ⟨ok_append (ok_opn (h.okNow ho) hc), fun hn => absurd rfl hn⟩
    · rw [emit_other s i id e]
      exact h.new id h1 h2 h3
  ok_cur := fun _ => by
    by_cases e : st.cur = s.cur
    · rw [e, emit_cur]
      exact ok_append (ok_opn (h.okNow ho) hc)
    · rw [emit_other s i _ e]; exact h.ok_cur ho
  moved := fun hm => by
    rw [emit_other s i _ (fun e => hm e.symm)]
    exact h.moved hm
  targ := fun t h1 h2 => by
    rcases (targets_emit s i t).1 h2 with h3 | h3
    · exact h.targ t h1 h3
    · exact .inr ((ht t h3).1 h1)
  gone_old := fun id h1 h2 => by
    apply h.gone_old id h1
    by_cases e : id = s.cur
    · subst e
      rw [emit_cur] at h2
      rcases List.mem_append.1 h2 with h3 | h3
      · exact h3
      · simp at h3; exact absurd h3.symm hg
    · rw [emit_other s i id e] at h2; exact h2
  tok := fun t h1 h2 => by
    have key : t < s.len ∧ Item.gone ∉ s.blk t := by
      rcases (targets_emit s i t).1 h2 with h3 | h3
      · exact h.tok t h1 h3
      · exact (ht t h3).2 h1
    refine ⟨key.1, fun hm => key.2 ?_⟩
    by_cases e : t = s.cur
    · subst e
      rw [emit_cur] at hm
      rcases List.mem_append.1 hm with h3 | h3
      · exact h3
      · simp at h3; exact absurd h3.symm hg
    · rw [emit_other s i t e] at hm; exact hm

/-- New blocks. -/
theorem GS.alloc (h : GS P loop st s) (k : Nat) : GS (fun q => P q ∨ (s.len ≤ q ∧ q < s.len + k)) loop st (s.alloc k) where
  len_le := Nat.le_trans h.len_le (Nat.le_add_right _ _)
  cur_lt := Nat.lt_of_lt_of_le h.cur_lt (Nat.le_add_right _ _)
  cur_or := h.cur_or
  cur_np := by
    rintro (h1 | h1)
    · exact h.cur_np h1
    · have := h.cur_lt; simp only [St.alloc] at h1; omega
  frame := h.frame
  fresh := fun id h1 => h.fresh id (by simp only [St.alloc] at h1; omega)
  sub := h.sub
  pend := by
    rintro p (hp | hp)
    · have := h.pend p hp
      exact ⟨this.1, by simp only [St.alloc]; omega, this.2.2⟩
    · exact ⟨by have := h.len_le; omega, by simp only [St.alloc]; omega, h.fresh p hp.1⟩
  new := fun id h1 h2 h3 => by
    refine h.new id h1 ?_ (fun hp => h3 (.inl hp))
    simp only [St.alloc] at h2
    apply Decidable.byContradiction
    intro hn
    exact h3 (.inr ⟨by omega, h2⟩)
  ok_cur := h.ok_cur
  moved := h.moved
  targ := h.targ
  gone_old := h.gone_old
  tok := fun t h1 h2 => by
    have := h.tok t h1 h2
    exact ⟨by simp only [St.alloc]; omega, this.2⟩

/-- Going to an empty block after a terminator. -/
theorem GS.goto (h : GS P loop st s) (hst : st.cur < st.len) (hc : closed (s.blk s.cur) = true) (p : Nat) (hp : P p) : GS (fun q => P q ∧ q ≠ p) loop st (s.goto p) where
  len_le := h.len_le
  cur_lt := (h.pend p hp).2.1
  cur_or := .inr (h.pend p hp).1
  cur_np := fun x => x.2 rfl
  frame := h.frame
  fresh := h.fresh
  sub := h.sub
  pend := fun q hq => h.pend q hq.1
  new := fun id h1 h2 h3 => by
    by_cases e : id = p
    · subst e
      refine ⟨.inl ?_, fun hn => absurd rfl hn⟩
      show Opn (s.blk id)
      rw [(h.pend id hp).2.2]
      exact opn_nil
    · have hn : ¬P id := fun hq => h3 ⟨hq, e⟩
      refine ⟨(h.new id h1 h2 hn).1, fun _ => ?_⟩
      by_cases e' : id = s.cur
      · rw [e']; exact hc
      · exact (h.new id h1 h2 hn).2 e'
  ok_cur := h.ok_cur
  moved := fun _ => by
    by_cases e : s.cur = st.cur
    · show closed (s.blk st.cur) = true
      rw [← e]; exact hc
    · exact h.moved e
  targ := h.targ
  gone_old := h.gone_old
  tok := h.tok

/-- Removing an empty block nobody branches to. -/
theorem GS.remove (h : GS P loop st s) (p : Nat) (hp : P p) (ht : ¬Targets s p) (hst : st.cur < st.len) :
    GS (fun q => P q ∧ q ≠ p) loop st { s with blk := upd s.blk p [.gone] } := by
  have hpb := h.pend p hp
  have hother : ∀ id, id ≠ p → upd s.blk p [.gone] id = s.blk id := fun id hn => by simp [upd, hn]
  have hne : ∀ id, id < st.len → id ≠ p := fun id h1 e => by omega
  have htar : ∀ t, Targets { s with blk := upd s.blk p [.gone] } t → Targets s t := by
    rintro t ⟨id, j, hj, htj⟩
    by_cases e : id = p
    · subst e
      simp [upd] at hj
      subst hj
      cases htj
    · simp only [hother id e] at hj
      exact ⟨id, j, hj, htj⟩
  exact {
    len_le := h.len_le
    cur_lt := h.cur_lt
    cur_or := h.cur_or
    cur_np := fun x => h.cur_np x.1
    frame := fun id h1 h2 => by simp only [hother id (hne id h1)]; exact h.frame id h1 h2
    fresh := fun id h1 => by
      have h1 : s.len ≤ id := h1
      exact (hother id (fun e => by omega)).trans (h.fresh id h1)
    sub := by simp only [hother _ (hne _ hst)]; exact h.sub
    pend := fun q hq => by simp only [hother q hq.2]; exact h.pend q hq.1
    new := fun id h1 h2 h3 => by
      by_cases e : id = p
      · subst e
        have : upd s.blk id [.gone] id = [.gone] := by simp [upd]
        simp only [this]
        exact ⟨.inr ⟨[], .gone, rfl, opn_nil, rfl⟩, fun _ => rfl⟩
      · simp only [hother id e]
        exact h.new id h1 h2 (fun hq => h3 ⟨hq, e⟩)
    ok_cur := by simp only [hother _ (hne _ hst)]; exact h.ok_cur
    moved := by simp only [hother _ (hne _ hst)]; exact h.moved
    targ := fun t h1 h2 => h.targ t h1 (htar t h2)
    gone_old := fun id h1 => by simp only [hother id (hne id h1)]; exact h.gone_old id h1
    tok := fun t h1 h2 => by
      have h3 := htar t h2
      have e : t ≠ p := fun e => ht (e ▸ h3)
      simp only [hother t e]
      exact h.tok t h1 h3 }

/-- Generating a nested statement. -/
theorem GS.comp {loop' : Option (Nat × Nat)} (h : GS P loop st s) (h' : GS (fun _ => False) loop' s s') (hst : st.cur < st.len) (ho : Ok (st.blk st.cur))
    (hl : ∀ t, t < st.len → Hits loop' t → Hits loop t) (hl' : ∀ t, Hits loop' t → t < s.len ∧ Item.gone ∉ s.blk t) : GS P loop st s' := by
  have hcur : s'.cur = s.cur ∨ s.len ≤ s'.cur := h'.cur_or
  have hlen := h.len_le
  have hlen' := h'.len_le
  have hscur := h.cur_lt
  exact {
    len_le := Nat.le_trans h.len_le h'.len_le
    cur_lt := h'.cur_lt
    cur_or := by
      rcases hcur with e | e
      · rw [e]; exact h.cur_or
      · exact .inr (by omega)
    cur_np := fun hp => by
      rcases hcur with e | e
      · exact h.cur_np (e ▸ hp)
      · have := (h.pend _ hp).2.1; omega
    frame := fun id h1 h2 => by
      rw [h'.frame id (by omega) ?_]
      · exact h.frame id h1 h2
      · intro e
        rcases h.cur_or with e' | e'
        · exact h2 (e.trans e')
        · omega
    fresh := h'.fresh
    sub := by
      by_cases e : s.cur = st.cur
      · exact h.sub.trans (e ▸ h'.sub)
      · rw [h'.frame st.cur (by omega) (fun x => e x.symm)]; exact h.sub
    pend := fun p hp => by
      have := h.pend p hp
      rw [h'.frame p this.2.1 (fun e => h.cur_np (e ▸ hp))]
      exact ⟨this.1, by omega, this.2.2⟩
    new := fun id h1 h2 h3 => by
      by_cases hid : id < s.len
      · by_cases e : id = s.cur
        · subst e
          refine ⟨h'.ok_cur (h.okNow ho), fun hn => h'.moved (fun x => hn x.symm)⟩
        · rw [h'.frame id hid e]
          refine ⟨(h.new id h1 hid h3).1, fun _ => (h.new id h1 hid h3).2 e⟩
      · exact h'.new id (by omega) h2 (fun x => x)
    ok_cur := fun x => by
      by_cases e : s.cur = st.cur
      · have := h'.ok_cur (h.okNow ho)
        rw [e] at this; exact this
      · rw [h'.frame st.cur (by omega) (fun x => e x.symm)]; exact h.ok_cur x
    moved := fun hm => by
      by_cases e : s.cur = st.cur
      · have := h'.moved (fun x => hm (x.trans e))
        rw [e] at this; exact this
      · rw [h'.frame st.cur (by omega) (fun x => e x.symm)]; exact h.moved e
    targ := fun t h1 h2 => by
      rcases h'.targ t (by omega) h2 with h3 | h3
      · exact h.targ t h1 h3
      · exact .inr (hl t h1 h3)
    gone_old := fun id h1 h2 => h.gone_old id h1 (h'.gone_old id (by omega) h2)
    tok := fun t h1 h2 => by
      by_cases ht : t < s.len
      · have key : t < s.len ∧ Item.gone ∉ s.blk t := by
          rcases h'.targ t ht h2 with h3 | h3
          · exact h.tok t h1 h3
          · exact hl' t h3
        exact ⟨by omega, fun hm => key.2 (h'.gone_old t ht hm)⟩
      · exact h'.tok t (by omega) h2 }

/-- The state in the middle is a possible starting state. -/
theorem GS.inv (h : GS P loop st s) (hi : Inv loop st) : Inv loop s where
  cur_lt := h.cur_lt
  fresh := h.fresh
  ok := h.okNow hi.ok
  hits := fun t ht => by
    have := hi.hits t ht
    have := h.len_le
    exact ⟨by omega, fun hm => (hi.hits t ht).2 (h.gone_old t (hi.hits t ht).1 hm)⟩
  tok := fun t ht => by
    have hl := h.len_le
    by_cases h1 : t < st.len
    · rcases h.targ t h1 ht with h2 | h2
      · exact ⟨by omega, fun hm => (hi.tok t h2).2 (h.gone_old t h1 hm)⟩
      · exact ⟨by omega, fun hm => (hi.hits t h2).2 (h.gone_old t h1 hm)⟩
    · exact h.tok t (by omega) ht

/-- Branches present stay present. -/
theorem GS.targets_mono (h : GS P loop st s) (hi : Inv loop st) (t : Nat) (ht : Targets st t) : Targets s t := by
  obtain ⟨id, i, hm, ht⟩ := ht
  by_cases h1 : id < st.len
  · by_cases e : id = st.cur
    · subst e
      obtain ⟨c, hc, _⟩ := h.sub
      exact ⟨_, i, by rw [hc]; exact List.mem_append.2 (.inl hm), ht⟩
    · exact ⟨id, i, by rw [h.frame id h1 e]; exact hm, ht⟩
  · rw [hi.fresh id (by omega)] at hm; cases hm

theorem hasPred_iff (s : St) (hf : ∀ id, s.len ≤ id → s.blk id = []) (t : Nat) : s.hasPred t = true ↔ Targets s t := by
  unfold St.hasPred Targets
  simp only [List.any_eq_true, List.mem_range, List.contains_iff_mem]
  constructor
  · rintro ⟨id, _, i, hi, ht⟩; exact ⟨id, i, hi, ht⟩
  · rintro ⟨id, i, hi, ht⟩
    refine ⟨id, ?_, i, hi, ht⟩
    apply Decidable.byContradiction
    intro hn
    rw [hf id (by omega)] at hi
    cases hi

/-- What generating a statement does: whether the insertion block ends with a terminator and whether it is still the same. -/
structure Shape (loop : Option (Nat × Nat)) (st s : St) (ends flat : Bool) : Prop where
  gs : GS (fun _ => False) loop st s
  ends_iff : closed (s.blk s.cur) = ends
  flat_iff : flat = true ↔ s.cur = st.cur

theorem GS.later (h : GS P loop st s) : Later st s := by
  refine ⟨h.len_le, fun id hid => ?_⟩
  by_cases e : id = st.cur
  · rw [e]; exact h.sub
  · rw [h.frame id hid e]; exact Sub.refl _

theorem Shape.trans {e1 e2 f1 f2 : Bool} {s1 s2 : St} (hi : Inv loop st) (h : Shape loop st s1 e1 f1) (h' : Shape loop s1 s2 e2 f2) : Shape loop st s2 e2 (f1 && f2) where
  gs := h.gs.comp h'.gs hi.cur_lt hi.ok (fun _ _ x => x) (fun t ht => (h.gs.inv hi).hits t ht)
  ends_iff := h'.ends_iff
  flat_iff := by
    have a := h.flat_iff
    have b := h'.flat_iff
    have c := h.gs.cur_or
    have d := h'.gs.cur_or
    have e := hi.cur_lt
    have l := h.gs.len_le
    have m := h.gs.cur_lt
    simp only [Bool.and_eq_true, a, b]
    constructor
    · rintro ⟨x, y⟩; omega
    · intro x
      rcases d with d | d
      · omega
      · omega

/-- Putting an expression's own blocks. -/
theorem GS.prep (splits : Expr → Bool) (e : Expr) (h : GS P loop st s) (ho : Ok (st.blk st.cur)) (hst : st.cur < st.len) (hc : closed (s.blk s.cur) = false) :
    GS P loop st (s.prep splits e) ∧ closed ((s.prep splits e).blk (s.prep splits e).cur) = false := by
  unfold St.prep
  split
  · have h1 := h.emit ho hst hc .nop (by simp) (fun t ht => by cases ht)
    have hc1 : closed ((s.emit .nop).blk (s.emit .nop).cur) = false := by
      show closed ((s.emit .nop).blk s.cur) = false
      rw [emit_cur, closed_append]; rfl
    have h2 := h1.alloc 1
    have hlen := h.len_le
    have h3 := h2.emit ho hst hc1 (.br s.len) (by simp) (fun t ht => by
      simp [Item.targets] at ht; subst ht
      refine ⟨fun hh => by omega, fun _ => ⟨by show s.len < s.len + 1; omega, ?_⟩⟩
      show Item.gone ∉ (s.emit .nop).blk s.len
      rw [h1.fresh s.len (Nat.le_refl _)]; simp)
    have hc3 : closed ((((s.emit .nop).alloc 1).emit (.br s.len)).blk (((s.emit .nop).alloc 1).emit (.br s.len)).cur) = true := by
      show closed ((((s.emit .nop).alloc 1).emit (.br s.len)).blk ((s.emit .nop).alloc 1).cur) = true
      rw [emit_cur, closed_append]; rfl
    have h4 := h3.goto hst hc3 s.len (.inr ⟨Nat.le_refl _, by show s.len < s.len + 1; omega⟩)
    refine ⟨h4.congr (fun q => ?_), ?_⟩
    · constructor
      · intro hp
        exact ⟨.inl hp, fun e => by have := (h.pend q hp).2.1; omega⟩
      · rintro ⟨hp | hp, hn⟩
        · exact hp
        · exact absurd (show q = s.len by have h1 : s.len ≤ q := hp.1; have h2 : q < s.len + 1 := hp.2; omega) hn
    · show closed ((((s.emit .nop).alloc 1).emit (.br s.len)).blk s.len) = false
      have hn : s.len ≠ ((s.emit .nop).alloc 1).cur := by show s.len ≠ s.cur; have := h.cur_lt; omega
      rw [emit_other _ _ _ hn]
      show closed ((s.emit .nop).blk s.len) = false
      rw [h1.fresh s.len (Nat.le_refl _)]; rfl
  · exact ⟨h, hc⟩

theorem prep_cur (splits : Expr → Bool) (e : Expr) (s : St) (h : s.cur < s.len) : (!splits e) = true ↔ (s.prep splits e).cur = s.cur := by
  unfold St.prep
  split
  · rename_i h1
    simp only [h1, Bool.not_true]
    constructor
    · intro h2; cases h2
    · intro h2
      have h2 : s.len = s.cur := h2
      omega
  · rename_i h1
    simp at h1
    simp [h1]

theorem brUnless_closed (s : St) (b : Nat) : closed ((s.brUnless b).blk (s.brUnless b).cur) = true := by
  unfold St.brUnless St.done
  split
  · rename_i h; exact h
  · show closed ((s.emit (.br b)).blk s.cur) = true
    rw [emit_cur, closed_append]; rfl

theorem GS.brUnless (h : GS P loop st s) (ho : Ok (st.blk st.cur)) (hst : st.cur < st.len) (b : Nat)
    (hb : (b < st.len → Hits loop b) ∧ (st.len ≤ b → b < s.len ∧ Item.gone ∉ s.blk b)) : GS P loop st (s.brUnless b) := by
  unfold St.brUnless St.done
  split
  · exact h
  · rename_i hc
    refine h.emit ho hst (by simpa using hc) _ (by simp) (fun t ht => ?_)
    simp [Item.targets] at ht; subst ht
    exact hb

/-- Preparation of a single-block statement. -/
theorem shape_emit (splits : Expr → Bool) (e : Expr) (hi : Inv loop st) (hc : closed (st.blk st.cur) = false) (i : Item) (hg : i ≠ .gone) (ht : i.targets = []) :
    GS (fun _ => False) loop st ((st.prep splits e).emit i) := by
  obtain ⟨h1, h2⟩ := (GS.start hi).prep splits e hi.ok hi.cur_lt hc
  exact h1.emit hi.ok hi.cur_lt h2 i hg (fun t h => by rw [ht] at h; cases h)

theorem hits_ok (hi : Inv loop st) (t : Nat) (ht : Hits loop t) : (t < st.len → Hits loop t) ∧ (st.len ≤ t → t < s.len ∧ Item.gone ∉ s.blk t) :=
  ⟨fun _ => ht, fun h => by have := (hi.hits t ht).1; omega⟩

theorem jump_shape (hi : Inv loop st) (hc : closed (st.blk st.cur) = false) (t : Nat) (ht : Hits loop t) : Shape loop st (st.emit (.br t)) true true where
  gs := (GS.start hi).emit hi.ok hi.cur_lt hc _ (by simp) (fun u hu => by simp [Item.targets] at hu; subst hu; exact hits_ok hi u ht)
  ends_iff := by show closed ((st.emit (.br t)).blk st.cur) = true; rw [emit_cur, closed_append]; rfl
  flat_iff := by simp [St.emit]

/-- The end of an `elif` or `else` body is treated like the end of an `if` body when the body has no own blocks or always jumps. -/
theorem end_body {e f : Bool} {b : Nat} (h : Shape loop st s e f) (hcl : f = true ∨ e = true) (hb : st.cur = b) (endId : Nat) :
    (if s.done b = true then s else s.emit (.br endId)) = s.brUnless endId := by
  subst hb
  unfold St.brUnless
  by_cases hcur : s.cur = st.cur
  · rw [hcur]
  · have hf : f = false := by
      cases hf : f
      · rfl
      · exact absurd (h.flat_iff.1 hf) hcur
    have he : e = true := by
      rcases hcl with h1 | h1
      · rw [hf] at h1; cases h1
      · exact h1
    have h1 : s.done st.cur = true := h.gs.moved hcur
    have h2 : s.done s.cur = true := h.ends_iff.trans he
    rw [if_pos h1, if_pos h2]

theorem targets_brUnless (s : St) (b t : Nat) : Targets (s.brUnless b) t ↔ Targets s t ∨ (s.done s.cur = false ∧ t = b) := by
  unfold St.brUnless
  split
  · rename_i h; simp [h]
  · rename_i h
    rw [targets_emit]
    simp [Item.targets, h]

theorem targets_prep (splits : Expr → Bool) (e : Expr) (s : St) (t : Nat) (h : t < s.len) : Targets (s.prep splits e) t ↔ Targets s t := by
  unfold St.prep
  split
  · have h1 : Targets (((s.emit .nop).alloc 1).emit (.br s.len)) t ↔ Targets ((s.emit .nop).alloc 1) t ∨ t ∈ (Item.br s.len).targets := targets_emit _ _ t
    have h2 : Targets ((s.emit .nop).alloc 1) t ↔ Targets (s.emit .nop) t := Iff.rfl
    have h3 : Targets ((((s.emit .nop).alloc 1).emit (.br s.len)).goto s.len) t ↔ Targets (((s.emit .nop).alloc 1).emit (.br s.len)) t := Iff.rfl
    rw [h3, h1, h2, targets_emit]
    simp only [Item.targets, List.not_mem_nil, or_false, List.mem_singleton]
    constructor
    · rintro (h | h)
      · exact h
      · omega
    · exact .inl
  · exact Iff.rfl

theorem Shape.targets {e f : Bool} (h : Shape loop st s e f) (hi : Inv loop st) (t : Nat) (hlt : t < st.len) (hh : ¬Hits loop t) : Targets s t ↔ Targets st t :=
  ⟨fun x => (h.gs.targ t hlt x).resolve_right hh, fun x => h.gs.targets_mono hi t x⟩

/-- A state in which one of the pending blocks is the insertion point can start a statement list. -/
theorem Inv.here (h : GS P loop st s) (hi : Inv loop st) : Inv loop s := h.inv hi

theorem fresh_not_hits (hi : Inv loop st) (t : Nat) (h : st.len ≤ t) : ¬Hits loop t := fun x => by have := (hi.hits t x).1; omega

theorem nextBlock_range (es : Elifs) (condId : Nat) (elseId : Option Nat) (endId lo hi : Nat) (h1 : lo ≤ condId) (h2 : condId ≤ endId ∨ es = .nil) (h3 : endId ≤ hi) (h4 : lo ≤ endId)
    (h5 : ∀ b, elseId = some b → lo ≤ b ∧ b ≤ hi) : lo ≤ nextBlock es condId elseId endId ∧ nextBlock es condId elseId endId ≤ hi := by
  unfold nextBlock
  cases es with
  | cons c b es =>
    rcases h2 with h2 | h2
    · simp only; omega
    · cases h2
  | nil =>
    cases elseId with
    | none => simp only; omega
    | some b => exact h5 b rfl

end Verif.Gen
