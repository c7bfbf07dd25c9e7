/-!
# Strings in arenas: C168

`rapidudf::arena::String`: `/repo/rapidudf/memory/arena_string.h` 22–74 on top of `std::basic_string` with the allocator of `/repo/rapidudf/memory/allocator.h` 39–104, which goes along with
assignments (`propagate_on_container_copy_assignment`, 51–53). The base class is that of libstdc++: up to 15 characters are inside the object, longer texts in memory of the allocator; an assignment
uses the memory the string has if it is large enough.

An arena is a number; resetting it ends the life of all memory it has given. Every block belongs to one string, so its characters are kept with the string here, together with the arena it is from and
the number of resets of that arena when it was given. Nothing is given back to an arena before a reset.
-/
namespace Verif.Memory.ArenaStr

abbrev Text := List (BitVec 8)

/-- What is done with strings; they are numbered in the order of their construction. -/
inductive Op where
  /-- `String s(text, allocator of a)` -/
  | make (a : Nat) (b : Text)
  /-- `String s(t, allocator of a)` -/
  | copyInto (a t : Nat)
  /-- `String s(std::move(t), allocator of a)` -/
  | moveInto (a t : Nat)
  /-- `String s(t)` -/
  | copy (t : Nat)
  /-- `s = t` -/
  | assign (s t : Nat)
  /-- `s = std::move(t)` -/
  | moveAssign (s t : Nat)
  /-- `s = text`, for a text of another kind of string -/
  | set (s : Nat) (b : Text)
  /-- `s.append(text)` -/
  | append (s : Nat) (b : Text)
  /-- the arena is reset -/
  | reset (a : Nat)

/-! ## Specification -/

/-- A string: the arena it was made in, whether that has not been reset since, and its text (`none`: unspecified, after a move). -/
structure Named where
  home : Nat
  alive : Bool
  text : Option Text

/-- String number `i`, if its arena has not been reset. -/
def named (w : List Named) (i : Nat) : Option Named := (w[i]?).bind fun p => if p.alive = true then some p else none

/-- `none`: a string that does not exist or whose arena was reset would be used. -/
def act (w : List Named) : Op → Option (List Named)
  | .make a b => some (w ++ [⟨a, true, some b⟩])
  | .copyInto a t => (named w t).map fun p => w ++ [⟨a, true, p.text⟩]
  | .moveInto a t => (named w t).map fun p => w.set t { p with text := none } ++ [⟨a, true, p.text⟩]
  | .copy t => (named w t).map fun p => w ++ [⟨p.home, true, p.text⟩]
  | .assign s t => (named w s).bind fun q => (named w t).map fun p => w.set s { q with text := p.text }
  | .moveAssign s t => (named w s).bind fun q => (named w t).map fun p => (w.set s { q with text := p.text }).set t { p with text := none }
  | .set s b => (named w s).map fun q => w.set s { q with text := some b }
  | .append s b => (named w s).map fun q => w.set s { q with text := q.text.map (· ++ b) }
  | .reset a => some (w.map fun p => if p.home = a then { p with alive := false } else p)

/-! ## Model -/

/-- Where the characters are: inside the object, or in a block of capacity `cap` given by arena `owner` after `epoch` resets. -/
inductive Body where
  | inside (b : Text)
  | block (owner epoch cap : Nat) (b : Text)

structure Str where
  arena : Nat
  body : Body

structure St where
  strs : List Str
  /-- how often an arena was reset -/
  resets : Nat → Nat

/-- The characters; `none`: the memory is no longer there. -/
def Body.chars (ep : Nat → Nat) : Body → Option Text
  | .inside b => some b
  | .block o e _ b => if ep o = e then some b else none

/-- `basic_string::assign(const C*, size_t)`: the memory there is, or new memory from the allocator (at least twice the old capacity). `none`: memory that is no longer there would be written. -/
def put (ep : Nat → Nat) (a : Nat) (bd : Body) (b : Text) : Option Body :=
  match bd with
  | .inside _ => some (if b.length ≤ 15 then .inside b else .block a (ep a) (max b.length 30) b)
  | .block o e c _ => if b.length ≤ c then (if ep o = e then some (.block o e c b) else none) else some (.block a (ep a) (max b.length (2 * c)) b)

/-- Constructors with a text and an allocator. -/
def create (ep : Nat → Nat) (a : Nat) (b : Text) : Str := ⟨a, if b.length ≤ 15 then .inside b else .block a (ep a) b.length b⟩

/-- `basic_string::operator=(const basic_string&)` with an allocator that goes along: memory of another arena is given up first. -/
def giveUp (ep : Nat → Nat) (s t : Str) (b : Text) : Body :=
  match s.body with
  | .inside c => .inside c
  | .block o e c x => if s.arena = t.arena then .block o e c x else if b.length ≤ 15 then .inside [] else .block t.arena (ep t.arena) b.length []

def assign (ep : Nat → Nat) (s t : Str) : Option Str :=
  (t.body.chars ep).bind fun b => (put ep t.arena (giveUp ep s t b) b).map fun bd => ⟨t.arena, bd⟩

/-- `operator=(BasicString&&)`, arena_string.h 61–68: strings of one arena are swapped. -/
def moveAssign (ep : Nat → Nat) (s t : Str) : Option (Str × Str) :=
  if s.arena = t.arena then some (⟨s.arena, t.body⟩, ⟨t.arena, s.body⟩) else (assign ep s t).map fun r => (r, t)

inductive Out where
  | impossible
  | undefined
  | ok (st : St)

/-- `f` of a string there is. -/
def withStr (st : St) (i : Nat) (f : Str → Out) : Out := match st.strs[i]? with
  | none => .impossible
  | some s => f s

def orUndefined (r : Option α) (f : α → Out) : Out := match r with
  | none => .undefined
  | some x => f x

def step (st : St) : Op → Out
  | .make a b => .ok { st with strs := st.strs ++ [create st.resets a b] }
  | .copyInto a t => withStr st t fun x => orUndefined (x.body.chars st.resets) fun b => .ok { st with strs := st.strs ++ [create st.resets a b] }
  | .moveInto a t => withStr st t fun x => orUndefined (moveAssign st.resets ⟨a, .inside []⟩ x) fun r => .ok { st with strs := st.strs.set t r.2 ++ [r.1] }
  | .copy t => withStr st t fun x => orUndefined (assign st.resets ⟨x.arena, .inside []⟩ x) fun r => .ok { st with strs := st.strs ++ [r] }
  | .assign s t => withStr st s fun y => withStr st t fun x => orUndefined (assign st.resets y x) fun r => .ok { st with strs := st.strs.set s r }
  | .moveAssign s t => withStr st s fun y => withStr st t fun x => orUndefined (moveAssign st.resets y x) fun r => .ok { st with strs := (st.strs.set s r.1).set t r.2 }
  | .set s b => withStr st s fun y => orUndefined (put st.resets y.arena y.body b) fun r => .ok { st with strs := st.strs.set s ⟨y.arena, r⟩ }
  | .append s b => withStr st s fun y => orUndefined ((y.body.chars st.resets).bind fun c => put st.resets y.arena y.body (c ++ b)) fun r => .ok { st with strs := st.strs.set s ⟨y.arena, r⟩ }
  | .reset a => .ok { st with resets := fun x => if x = a then st.resets x + 1 else st.resets x }

def run (st : St) : List Op → Out
  | [] => .ok st
  | o :: os => match step st o with
    | .ok st' => run st' os
    | r => r

def actAll (w : List Named) : List Op → Option (List Named)
  | [] => some w
  | o :: os => (act w o).bind fun w' => actAll w' os

/-- What is read from string `i`. -/
def St.read (st : St) (i : Nat) : Option Text := (st.strs[i]?).bind fun s => s.body.chars st.resets

/-- No strings yet. -/
def empty : St := ⟨[], fun _ => 0⟩

/-! ## Lemmas -/

def Body.text : Body → Text
  | .inside b => b
  | .block _ _ _ b => b

theorem chars_text {ep : Nat → Nat} {bd : Body} {b : Text} (h : bd.chars ep = some b) : bd.text = b := by
  cases bd with
  | inside c => exact Option.some.inj h
  | block o e c x =>
    simp only [Body.chars] at h
    split at h
    · exact Option.some.inj h
    · cases h

theorem put_text {ep : Nat → Nat} {a : Nat} {bd r : Body} {b : Text} (h : put ep a bd b = some r) : r.text = b := by
  cases bd with
  | inside c =>
    simp only [put] at h
    cases h
    split <;> rfl
  | block o e c x =>
    simp only [put] at h
    split at h
    · split at h
      · cases h; rfl
      · cases h
    · cases h; rfl

theorem create_text (ep : Nat → Nat) (a : Nat) (b : Text) : (create ep a b).body.text = b := by
  unfold create
  dsimp only
  split <;> rfl

theorem assign_text {ep : Nat → Nat} {s t r : Str} (h : assign ep s t = some r) : r.body.text = t.body.text := by
  unfold assign at h
  cases hc : t.body.chars ep with
  | none => rw [hc] at h; cases h
  | some b =>
    rw [hc, Option.bind_some] at h
    cases hp : put ep t.arena (giveUp ep s t b) b with
    | none => rw [hp] at h; cases h
    | some bd =>
      rw [hp] at h
      cases h
      rw [chars_text hc]
      exact put_text hp

theorem move_text {ep : Nat → Nat} {s t : Str} {r : Str × Str} (h : moveAssign ep s t = some r) : r.1.body.text = t.body.text := by
  unfold moveAssign at h
  split at h
  · cases h; rfl
  · cases ha : assign ep s t with
    | none => rw [ha] at h; cases h
    | some q => rw [ha] at h; cases h; exact assign_text ha

/-- The memory of a body is there and from an arena related to the string's home. -/
def Body.Good (R : Nat → Nat → Prop) (ep : Nat → Nat) (h : Nat) : Body → Prop
  | .inside _ => True
  | .block o e _ _ => R h o ∧ ep o = e

theorem Good.chars {R : Nat → Nat → Prop} {ep : Nat → Nat} {h : Nat} {bd : Body} (g : bd.Good R ep h) : bd.chars ep = some bd.text := by
  cases bd with
  | inside b => rfl
  | block o e c b => exact if_pos g.2

theorem Good.put {R : Nat → Nat → Prop} {ep : Nat → Nat} {h a : Nat} {bd : Body} (g : bd.Good R ep h) (ha : R h a) (b : Text) : ∃ r, put ep a bd b = some r ∧ r.Good R ep h := by
  cases bd with
  | inside c =>
    simp only [ArenaStr.put]
    refine ⟨_, rfl, ?_⟩
    split
    · trivial
    · exact ⟨ha, rfl⟩
  | block o e c x =>
    simp only [ArenaStr.put]
    split
    · rw [if_pos g.2]; exact ⟨_, rfl, g⟩
    · exact ⟨_, rfl, ha, rfl⟩

theorem Good.create {R : Nat → Nat → Prop} {ep : Nat → Nat} {h a : Nat} (ha : R h a) (b : Text) : (create ep a b).body.Good R ep h := by
  unfold ArenaStr.create
  dsimp only
  split
  · trivial
  · exact ⟨ha, rfl⟩

theorem Good.assign {R : Nat → Nat → Prop} {ep : Nat → Nat} {h k : Nat} {s t : Str} (gs : s.body.Good R ep h) (gt : t.body.Good R ep k) (ha : R h t.arena) :
    ∃ r, assign ep s t = some r ∧ r.arena = t.arena ∧ r.body.Good R ep h := by
  unfold ArenaStr.assign
  rw [Good.chars gt, Option.bind_some]
  have g : (giveUp ep s t t.body.text).Good R ep h := by
    unfold giveUp
    split
    · trivial
    · next o e c x hb =>
      split
      · rw [hb] at gs; exact gs
      · split
        · trivial
        · exact ⟨ha, rfl⟩
  obtain ⟨r, hr, gr⟩ := Good.put g ha t.body.text
  exact ⟨⟨t.arena, r⟩, by rw [hr]; rfl, rfl, gr⟩

theorem Good.move {R : Nat → Nat → Prop} {ep : Nat → Nat} {h k : Nat} {s t : Str} (gs : s.body.Good R ep h) (gt : t.body.Good R ep k) (hs : R h s.arena) (ht : R k t.arena)
    (hk : ∀ x, R h x ↔ R k x) : ∃ r, moveAssign ep s t = some r ∧ (R h r.1.arena ∧ r.1.body.Good R ep h) ∧ R k r.2.arena ∧ r.2.body.Good R ep k := by
  have conv : ∀ {h k : Nat} {bd : Body}, (∀ x, R h x ↔ R k x) → bd.Good R ep h → bd.Good R ep k := by
    intro h k bd hk g
    cases bd with
    | inside b => trivial
    | block o e c b => exact ⟨(hk o).1 g.1, g.2⟩
  unfold moveAssign
  split
  · exact ⟨_, rfl, ⟨hs, conv (fun x => (hk x).symm) gt⟩, ht, conv hk gs⟩
  · obtain ⟨r, hr, e, g⟩ := Good.assign gs gt ((hk _).2 ht)
    exact ⟨(r, t), by rw [hr]; rfl, ⟨by rw [e]; exact (hk _).2 ht, g⟩, ht, gt⟩

/-- The texts are what they should be. -/
structure Texts (st : St) (w : List Named) : Prop where
  len : st.strs.length = w.length
  text : ∀ (i : Nat) (m : Str) (p : Named) (b : Text), st.strs[i]? = some m → w[i]? = some p → p.text = some b → m.body.text = b

/-- The memory of the strings that live is there. -/
def Lives (R : Nat → Nat → Prop) (st : St) (w : List Named) : Prop :=
  ∀ (i : Nat) (m : Str) (p : Named), st.strs[i]? = some m → w[i]? = some p → p.alive = true → R p.home m.arena ∧ m.body.Good R st.resets p.home

theorem named_some {w : List Named} {i : Nat} {p : Named} (h : named w i = some p) : w[i]? = some p ∧ p.alive = true := by
  unfold named at h
  cases hw : w[i]? with
  | none => rw [hw] at h; cases h
  | some q =>
    rw [hw, Option.bind_some] at h
    split at h
    · next ha => cases h; exact ⟨rfl, ha⟩
    · cases h

theorem get_append {α : Type} {l : List α} {a b : α} {j : Nat} (h : (l ++ [a])[j]? = some b) : (j < l.length ∧ l[j]? = some b) ∨ (j = l.length ∧ a = b) := by
  rw [List.getElem?_append] at h
  split at h
  · next e => exact .inl ⟨e, h⟩
  · next e =>
    have := (List.getElem?_eq_some_iff.1 h).1
    have e2 : j = l.length := by simp at this; omega
    subst e2
    simp at h
    exact .inr ⟨rfl, h⟩

theorem get_set {α : Type} {l : List α} {a b : α} {i j : Nat} (h : (l.set i a)[j]? = some b) : (i = j ∧ a = b) ∨ (i ≠ j ∧ l[j]? = some b) := by
  rw [List.getElem?_set] at h
  split at h
  · next e =>
    split at h
    · exact .inl ⟨e, Option.some.inj h⟩
    · cases h
  · next e => exact .inr ⟨e, h⟩

theorem Texts.push {st : St} {w : List Named} (T : Texts st w) {m : Str} {p : Named} (h : ∀ b, p.text = some b → m.body.text = b) : Texts { st with strs := st.strs ++ [m] } (w ++ [p]) := by
  refine ⟨by simp [T.len], ?_⟩
  intro i m' p' b hm hp ht
  rcases get_append hm with ⟨l1, e1⟩ | ⟨l1, e1⟩
  · rcases get_append hp with ⟨l2, e2⟩ | ⟨l2, e2⟩
    · exact T.text i m' p' b e1 e2 ht
    · exact absurd l1 (by rw [l2, T.len]; omega)
  · rcases get_append hp with ⟨l2, e2⟩ | ⟨l2, e2⟩
    · exact absurd l2 (by rw [l1, T.len]; omega)
    · subst e1 e2; exact h b ht

theorem Texts.set {st : St} {w : List Named} (T : Texts st w) (i : Nat) {m : Str} {p : Named} (h : ∀ b, p.text = some b → m.body.text = b) : Texts { st with strs := st.strs.set i m } (w.set i p) := by
  refine ⟨by simp [T.len], ?_⟩
  intro j m' p' b hm hp ht
  rcases get_set hm with ⟨l1, e1⟩ | ⟨l1, e1⟩
  · rcases get_set hp with ⟨l2, e2⟩ | ⟨l2, e2⟩
    · subst e1 e2; exact h b ht
    · exact absurd l1 l2
  · rcases get_set hp with ⟨l2, e2⟩ | ⟨l2, e2⟩
    · exact absurd l2 l1
    · exact T.text j m' p' b e1 e2 ht

theorem Lives.push {R : Nat → Nat → Prop} {st : St} {w : List Named} (hl : st.strs.length = w.length) (L : Lives R st w) {m : Str} {p : Named}
    (h : R p.home m.arena ∧ m.body.Good R st.resets p.home) : Lives R { st with strs := st.strs ++ [m] } (w ++ [p]) := by
  intro i m' p' hm hp ha
  rcases get_append hm with ⟨l1, e1⟩ | ⟨l1, e1⟩
  · rcases get_append hp with ⟨l2, e2⟩ | ⟨l2, e2⟩
    · exact L i m' p' e1 e2 ha
    · exact absurd l1 (by rw [l2, hl]; omega)
  · rcases get_append hp with ⟨l2, e2⟩ | ⟨l2, e2⟩
    · exact absurd l2 (by rw [l1, hl]; omega)
    · subst e1 e2; exact h

theorem Lives.set {R : Nat → Nat → Prop} {st : St} {w : List Named} (L : Lives R st w) (i : Nat) {m : Str} {p : Named} (h : R p.home m.arena ∧ m.body.Good R st.resets p.home) :
    Lives R { st with strs := st.strs.set i m } (w.set i p) := by
  intro j m' p' hm hp ha
  rcases get_set hm with ⟨l1, e1⟩ | ⟨l1, e1⟩
  · rcases get_set hp with ⟨l2, e2⟩ | ⟨l2, e2⟩
    · subst e1 e2; exact h
    · exact absurd l1 l2
  · rcases get_set hp with ⟨l2, e2⟩ | ⟨l2, e2⟩
    · exact absurd l2 l1
    · exact L j m' p' e1 e2 ha

theorem Texts.get {st : St} {w : List Named} (T : Texts st w) {i : Nat} {p : Named} (h : w[i]? = some p) : ∃ m, st.strs[i]? = some m := by
  have := (List.getElem?_eq_some_iff.1 h).1
  rw [← T.len] at this
  exact ⟨_, List.getElem?_eq_getElem this⟩

/-- Strings that are given together have related homes, and no arena is reset from which strings with another home may have memory. -/
def Allowed (R : Nat → Nat → Prop) (w : List Named) : Op → Prop
  | .moveInto a t => ∀ p, w[t]? = some p → ∀ x, R a x ↔ R p.home x
  | .assign s t => ∀ q p, w[s]? = some q → w[t]? = some p → ∀ x, R q.home x ↔ R p.home x
  | .moveAssign s t => ∀ q p, w[s]? = some q → w[t]? = some p → ∀ x, R q.home x ↔ R p.home x
  | .reset a => ∀ h o, R h o → h ≠ a → o ≠ a
  | _ => True

/-- The calls the specification allows keep the texts. -/
theorem step_texts {st st' : St} {w w' : List Named} (T : Texts st w) {o : Op} (hw : act w o = some w') (hs : step st o = .ok st') : Texts st' w' := by
  cases o with
  | make a b => cases hw; cases hs; exact T.push fun c h => by cases h; exact create_text _ _ _
  | copyInto a t =>
    simp only [act] at hw
    cases hn : named w t with
    | none => rw [hn] at hw; cases hw
    | some p =>
      rw [hn] at hw
      cases hw
      obtain ⟨hp, -⟩ := named_some hn
      obtain ⟨m, hm⟩ := T.get hp
      simp only [step, withStr, hm] at hs
      cases hc : m.body.chars st.resets with
      | none => rw [hc] at hs; cases hs
      | some b =>
        rw [hc] at hs
        cases hs
        exact T.push fun c h => by rw [create_text, ← chars_text hc]; exact T.text t m p c hm hp h
  | moveInto a t =>
    simp only [act] at hw
    cases hn : named w t with
    | none => rw [hn] at hw; cases hw
    | some p =>
      rw [hn] at hw
      cases hw
      obtain ⟨hp, -⟩ := named_some hn
      obtain ⟨m, hm⟩ := T.get hp
      simp only [step, withStr, hm] at hs
      cases hc : moveAssign st.resets ⟨a, .inside []⟩ m with
      | none => rw [hc] at hs; cases hs
      | some r =>
        rw [hc] at hs
        cases hs
        exact (T.set t (m := r.2) (p := { p with text := none }) fun c h => by cases h).push fun c h => (move_text hc).trans (T.text t m p c hm hp h)
  | copy t =>
    simp only [act] at hw
    cases hn : named w t with
    | none => rw [hn] at hw; cases hw
    | some p =>
      rw [hn] at hw
      cases hw
      obtain ⟨hp, -⟩ := named_some hn
      obtain ⟨m, hm⟩ := T.get hp
      simp only [step, withStr, hm] at hs
      cases hc : assign st.resets ⟨m.arena, .inside []⟩ m with
      | none => rw [hc] at hs; cases hs
      | some r =>
        rw [hc] at hs
        cases hs
        exact T.push fun c h => (assign_text hc).trans (T.text t m p c hm hp h)
  | assign s t =>
    simp only [act] at hw
    cases hq : named w s with
    | none => rw [hq] at hw; cases hw
    | some q =>
      cases hn : named w t with
      | none => rw [hq, hn] at hw; cases hw
      | some p =>
        rw [hq, hn] at hw
        cases hw
        obtain ⟨hp, -⟩ := named_some hn
        obtain ⟨hq, -⟩ := named_some hq
        obtain ⟨m, hm⟩ := T.get hp
        obtain ⟨y, hy⟩ := T.get hq
        simp only [step, withStr, hm, hy] at hs
        cases hc : assign st.resets y m with
        | none => rw [hc] at hs; cases hs
        | some r =>
          rw [hc] at hs
          cases hs
          exact T.set s fun c h => (assign_text hc).trans (T.text t m p c hm hp h)
  | moveAssign s t =>
    simp only [act] at hw
    cases hq : named w s with
    | none => rw [hq] at hw; cases hw
    | some q =>
      cases hn : named w t with
      | none => rw [hq, hn] at hw; cases hw
      | some p =>
        rw [hq, hn] at hw
        cases hw
        obtain ⟨hp, -⟩ := named_some hn
        obtain ⟨hq, -⟩ := named_some hq
        obtain ⟨m, hm⟩ := T.get hp
        obtain ⟨y, hy⟩ := T.get hq
        simp only [step, withStr, hm, hy] at hs
        cases hc : moveAssign st.resets y m with
        | none => rw [hc] at hs; cases hs
        | some r =>
          rw [hc] at hs
          cases hs
          exact (T.set s (m := r.1) (p := { q with text := p.text }) fun c h => (move_text hc).trans (T.text t m p c hm hp h)).set t fun c h => by cases h
  | set s b =>
    simp only [act] at hw
    cases hq : named w s with
    | none => rw [hq] at hw; cases hw
    | some q =>
      rw [hq] at hw
      cases hw
      obtain ⟨hq, -⟩ := named_some hq
      obtain ⟨y, hy⟩ := T.get hq
      simp only [step, withStr, hy] at hs
      cases hc : put st.resets y.arena y.body b with
      | none => rw [hc] at hs; cases hs
      | some r =>
        rw [hc] at hs
        cases hs
        exact T.set s fun c h => by cases h; exact put_text hc
  | append s b =>
    simp only [act] at hw
    cases hq : named w s with
    | none => rw [hq] at hw; cases hw
    | some q =>
      rw [hq] at hw
      cases hw
      obtain ⟨hq, -⟩ := named_some hq
      obtain ⟨y, hy⟩ := T.get hq
      simp only [step, withStr, hy] at hs
      cases hx : y.body.chars st.resets with
      | none => rw [hx] at hs; cases hs
      | some x =>
        rw [hx, Option.bind_some] at hs
        cases hc : put st.resets y.arena y.body (x ++ b) with
        | none => rw [hc] at hs; cases hs
        | some r =>
          rw [hc] at hs
          cases hs
          refine T.set s fun c h => ?_
          dsimp only at h
          rw [put_text hc, ← chars_text hx]
          cases ht : q.text with
          | none => rw [ht] at h; cases h
          | some z =>
            rw [ht] at h
            cases h
            rw [T.text s y q z hy hq ht]
  | reset a =>
    cases hw
    cases hs
    refine ⟨by simp [T.len], ?_⟩
    intro i m p b hm hp ht
    rw [List.getElem?_map] at hp
    cases hq : w[i]? with
    | none => rw [hq] at hp; cases hp
    | some q =>
      rw [hq, Option.map_some] at hp
      injection hp with hp
      refine T.text i m q b hm hq ?_
      rw [← ht, ← hp]
      split <;> rfl

/-- Calls that are allowed are defined and keep the memory. -/
theorem step_lives {R : Nat → Nat → Prop} (refl : ∀ a, R a a) {st : St} {w w' : List Named} (T : Texts st w) (L : Lives R st w) {o : Op} (ha : Allowed R w o) (hw : act w o = some w') :
    ∃ st', step st o = .ok st' ∧ Lives R st' w' := by
  cases o with
  | make a b => cases hw; exact ⟨_, rfl, L.push T.len ⟨refl a, Good.create (refl a) b⟩⟩
  | copyInto a t =>
    simp only [act] at hw
    cases hn : named w t with
    | none => rw [hn] at hw; cases hw
    | some p =>
      rw [hn] at hw
      cases hw
      obtain ⟨hp, hl⟩ := named_some hn
      obtain ⟨m, hm⟩ := T.get hp
      simp only [step, withStr, hm, Good.chars (L t m p hm hp hl).2, orUndefined]
      exact ⟨_, rfl, L.push T.len ⟨refl a, Good.create (refl a) _⟩⟩
  | moveInto a t =>
    simp only [act] at hw
    cases hn : named w t with
    | none => rw [hn] at hw; cases hw
    | some p =>
      rw [hn] at hw
      cases hw
      obtain ⟨hp, hl⟩ := named_some hn
      obtain ⟨m, hm⟩ := T.get hp
      obtain ⟨l1, l2⟩ := L t m p hm hp hl
      obtain ⟨r, hr, g1, g2⟩ := Good.move (s := ⟨a, .inside []⟩) (h := a) trivial l2 (refl a) l1 (ha p hp)
      simp only [step, withStr, hm, hr, orUndefined]
      exact ⟨_, rfl, (L.set t (p := { p with text := none }) g2).push (by simp [T.len]) g1⟩
  | copy t =>
    simp only [act] at hw
    cases hn : named w t with
    | none => rw [hn] at hw; cases hw
    | some p =>
      rw [hn] at hw
      cases hw
      obtain ⟨hp, hl⟩ := named_some hn
      obtain ⟨m, hm⟩ := T.get hp
      obtain ⟨l1, l2⟩ := L t m p hm hp hl
      obtain ⟨r, hr, e, g⟩ := Good.assign (s := ⟨m.arena, .inside []⟩) (h := p.home) trivial l2 l1
      simp only [step, withStr, hm, hr, orUndefined]
      exact ⟨_, rfl, L.push T.len ⟨by rw [e]; exact l1, g⟩⟩
  | assign s t =>
    simp only [act] at hw
    cases hq : named w s with
    | none => rw [hq] at hw; cases hw
    | some q =>
      cases hn : named w t with
      | none => rw [hq, hn] at hw; cases hw
      | some p =>
        rw [hq, hn] at hw
        cases hw
        obtain ⟨hp, hl⟩ := named_some hn
        obtain ⟨hq, hl'⟩ := named_some hq
        obtain ⟨m, hm⟩ := T.get hp
        obtain ⟨y, hy⟩ := T.get hq
        obtain ⟨l1, l2⟩ := L t m p hm hp hl
        obtain ⟨k1, k2⟩ := L s y q hy hq hl'
        obtain ⟨r, hr, e, g⟩ := Good.assign k2 l2 ((ha q p hq hp _).2 l1)
        simp only [step, withStr, hm, hy, hr, orUndefined]
        exact ⟨_, rfl, L.set s ⟨by rw [e]; exact (ha q p hq hp _).2 l1, g⟩⟩
  | moveAssign s t =>
    simp only [act] at hw
    cases hq : named w s with
    | none => rw [hq] at hw; cases hw
    | some q =>
      cases hn : named w t with
      | none => rw [hq, hn] at hw; cases hw
      | some p =>
        rw [hq, hn] at hw
        cases hw
        obtain ⟨hp, hl⟩ := named_some hn
        obtain ⟨hq, hl'⟩ := named_some hq
        obtain ⟨m, hm⟩ := T.get hp
        obtain ⟨y, hy⟩ := T.get hq
        obtain ⟨l1, l2⟩ := L t m p hm hp hl
        obtain ⟨k1, k2⟩ := L s y q hy hq hl'
        obtain ⟨r, hr, g1, g2⟩ := Good.move k2 l2 k1 l1 (ha q p hq hp)
        simp only [step, withStr, hm, hy, hr, orUndefined]
        exact ⟨_, rfl, (L.set s (m := r.1) (p := { q with text := p.text }) g1).set t g2⟩
  | set s b =>
    simp only [act] at hw
    cases hq : named w s with
    | none => rw [hq] at hw; cases hw
    | some q =>
      rw [hq] at hw
      cases hw
      obtain ⟨hq, hl⟩ := named_some hq
      obtain ⟨y, hy⟩ := T.get hq
      obtain ⟨k1, k2⟩ := L s y q hy hq hl
      obtain ⟨r, hr, g⟩ := Good.put k2 k1 b
      simp only [step, withStr, hy, hr, orUndefined]
      exact ⟨_, rfl, L.set s ⟨k1, g⟩⟩
  | append s b =>
    simp only [act] at hw
    cases hq : named w s with
    | none => rw [hq] at hw; cases hw
    | some q =>
      rw [hq] at hw
      cases hw
      obtain ⟨hq, hl⟩ := named_some hq
      obtain ⟨y, hy⟩ := T.get hq
      obtain ⟨k1, k2⟩ := L s y q hy hq hl
      obtain ⟨r, hr, g⟩ := Good.put k2 k1 (y.body.text ++ b)
      simp only [step, withStr, hy, Good.chars k2, Option.bind_some, hr, orUndefined]
      exact ⟨_, rfl, L.set s ⟨k1, g⟩⟩
  | reset a =>
    cases hw
    refine ⟨_, rfl, ?_⟩
    intro i m p hm hp hl
    rw [List.getElem?_map] at hp
    cases hq : w[i]? with
    | none => rw [hq] at hp; cases hp
    | some q =>
      rw [hq, Option.map_some] at hp
      injection hp with hp
      split at hp
      · subst hp; cases hl
      · next hne =>
        subst hp
        obtain ⟨l1, l2⟩ := L i m q hm hq hl
        refine ⟨l1, ?_⟩
        cases hb : m.body with
        | inside b => trivial
        | block o e c b =>
          rw [hb] at l2
          exact ⟨l2.1, by dsimp only; rw [if_neg (ha _ _ l2.1 hne)]; exact l2.2⟩

/-- Every call of a history is allowed. -/
def AllAllowed (R : Nat → Nat → Prop) (w : List Named) : List Op → Prop
  | [] => True
  | o :: os => Allowed R w o ∧ ∀ w', act w o = some w' → AllAllowed R w' os

theorem run_lives {R : Nat → Nat → Prop} (refl : ∀ a, R a a) {os : List Op} : ∀ {st : St} {w w' : List Named}, Texts st w → Lives R st w → AllAllowed R w os → actAll w os = some w' →
    ∃ st', run st os = .ok st' ∧ Texts st' w' ∧ Lives R st' w' := by
  induction os with
  | nil => intro st w w' T L _ h; cases h; exact ⟨st, rfl, T, L⟩
  | cons o os ih =>
    intro st w w' T L A h
    simp only [actAll] at h
    cases h1 : act w o with
    | none => rw [h1] at h; cases h
    | some w1 =>
      rw [h1, Option.bind_some] at h
      obtain ⟨s1, hs, L1⟩ := step_lives refl T L A.1 h1
      obtain ⟨st', hr, T', L'⟩ := ih (step_texts T h1 hs) L1 (A.2 w1 h1) h
      exact ⟨st', by simp only [run, hs]; exact hr, T', L'⟩

theorem read_of {R : Nat → Nat → Prop} {st : St} {w : List Named} (T : Texts st w) (L : Lives R st w) {i : Nat} {p : Named} {b : Text} (hp : w[i]? = some p) (ha : p.alive = true)
    (ht : p.text = some b) : st.read i = some b := by
  obtain ⟨m, hm⟩ := T.get hp
  unfold St.read
  rw [hm, Option.bind_some, Good.chars (L i m p hm hp ha).2, T.text i m p b hm hp ht]

theorem empty_texts : Texts empty [] := ⟨rfl, fun i m p b h => by cases h⟩
theorem empty_lives {R : Nat → Nat → Prop} : Lives R empty [] := fun i m p h => by cases h

/-! ## Theorems -/

/-- Assignments, also by construction from a string that is moved, are between strings made in one arena. -/
def SameArena (w : List Named) : List Op → Prop
  | [] => True
  | o :: os => (match o with
      | .moveInto a t => ∀ p, w[t]? = some p → a = p.home
      | .assign s t => ∀ q p, w[s]? = some q → w[t]? = some p → q.home = p.home
      | .moveAssign s t => ∀ q p, w[s]? = some q → w[t]? = some p → q.home = p.home
      | _ => True) ∧ ∀ w', act w o = some w' → SameArena w' os

/-- **C168, part.** In a history in which strings are assigned only to strings of the same arena, every call is defined, and every string whose own arena has not been reset since it was made has
the text it should have, whatever other arenas are reset. (The full claim has no condition on assignments: see the theorems below.) -/
theorem strings_live_in_their_arena_partial {os : List Op} {w : List Named} (ha : SameArena [] os) (hw : actAll [] os = some w) :
    ∃ st, run empty os = .ok st ∧ ∀ (i : Nat) (p : Named) (b : Text), w[i]? = some p → p.alive = true → p.text = some b → st.read i = some b := by
  have conv : ∀ (os : List Op) (w : List Named), SameArena w os → AllAllowed Eq w os := by
    intro os
    induction os with
    | nil => intro w _; trivial
    | cons o os ih =>
      intro w h
      refine ⟨?_, fun w' hw => ih w' (h.2 w' hw)⟩
      have h1 := h.1
      cases o with
      | moveInto a t => intro p hp x; rw [h1 p hp]
      | assign s t => intro q p hq hp x; rw [h1 q p hq hp]
      | moveAssign s t => intro q p hq hp x; rw [h1 q p hq hp]
      | reset a => intro h o e hne; rw [← e]; exact hne
      | _ => trivial
  obtain ⟨st, hr, T, L⟩ := run_lives (R := Eq) (fun _ => rfl) empty_texts empty_lives (conv os [] ha) hw
  exact ⟨st, hr, fun i p b hp hl ht => read_of T L hp hl ht⟩

/-- As long as no arena is reset, every call is defined and every string has its text, whatever is assigned to what. -/
theorem strings_without_reset_partial {os : List Op} {w : List Named} (ha : ∀ a, Op.reset a ∉ os) (hw : actAll [] os = some w) :
    ∃ st, run empty os = .ok st ∧ ∀ (i : Nat) (p : Named) (b : Text), w[i]? = some p → p.text = some b → p.alive = true → st.read i = some b := by
  have conv : ∀ (os : List Op) (w : List Named), (∀ a, Op.reset a ∉ os) → AllAllowed (fun _ _ => True) w os := by
    intro os
    induction os with
    | nil => intro w _; trivial
    | cons o os ih =>
      intro w h
      refine ⟨?_, fun w' hw => ih w' fun a hm => h a (List.mem_cons_of_mem _ hm)⟩
      cases o with
      | moveInto a t => intro p hp x; exact Iff.rfl
      | assign s t => intro q p hq hp x; exact Iff.rfl
      | moveAssign s t => intro q p hq hp x; exact Iff.rfl
      | reset a => exact absurd (List.mem_cons_self ..) (h a)
      | _ => trivial
  obtain ⟨st, hr, T, L⟩ := run_lives (R := fun _ _ => True) (fun _ => trivial) empty_texts empty_lives (conv os [] ha) hw
  exact ⟨st, hr, fun i p b hp ht hl => read_of T L hp hl ht⟩

/-- No string ever shows a wrong text: in every history, what is read is the text it should have or memory that is no longer there. -/
theorem never_wrong_text {os : List Op} {w : List Named} {st : St} (hw : actAll [] os = some w) (hr : run empty os = .ok st) (i : Nat) (p : Named) (b c : Text) (hp : w[i]? = some p)
    (ht : p.text = some b) (hc : st.read i = some c) : c = b := by
  suffices h : ∀ (os : List Op) (s0 : St) (w0 : List Named), Texts s0 w0 → actAll w0 os = some w → run s0 os = .ok st → Texts st w by
    have T := h os _ _ empty_texts hw hr
    obtain ⟨m, hm⟩ := T.get hp
    unfold St.read at hc
    rw [hm, Option.bind_some] at hc
    rw [← chars_text hc]
    exact T.text i m p b hm hp ht
  clear hw hr
  intro os
  induction os with
  | nil => intro s0 w0 T hw hr; cases hw; cases hr; exact T
  | cons o os ih =>
    intro s0 w0 T hw hr
    simp only [actAll] at hw
    cases h1 : act w0 o with
    | none => rw [h1] at hw; cases hw
    | some w1 =>
      rw [h1, Option.bind_some] at hw
      simp only [run] at hr
      cases hs : step s0 o with
      | impossible => rw [hs] at hr; cases hr
      | undefined => rw [hs] at hr; cases hr
      | ok s1 =>
        rw [hs] at hr
        exact ih s1 w1 (step_texts T h1 hs) hw hr

def long : Text := List.replicate 20 97#8

/-- A string to which one of another arena was assigned loses its text when that arena is reset. -/
theorem assigned_string_violated : ∃ (os : List Op) (w : List Named) (st : St) (i : Nat) (p : Named) (b : Text), actAll [] os = some w ∧ run empty os = .ok st ∧ w[i]? = some p ∧ p.alive = true ∧
    p.text = some b ∧ st.read i = none :=
  ⟨[.make 0 [], .make 1 long, .assign 0 1, .reset 1], _, _, 0, _, long, rfl, rfl, rfl, rfl, rfl, by decide⟩

/-- A string made in an arena from a string that is moved has its text in the other's arena. -/
theorem moved_string_violated : ∃ (os : List Op) (w : List Named) (st : St) (i : Nat) (p : Named) (b : Text), actAll [] os = some w ∧ run empty os = .ok st ∧ w[i]? = some p ∧ p.alive = true ∧
    p.text = some b ∧ st.read i = none :=
  ⟨[.make 1 long, .moveInto 0 0, .reset 1], _, _, 1, _, long, rfl, rfl, rfl, rfl, rfl, by decide⟩

/-- Even after the assignment of a short text, later texts go to the other's arena. -/
theorem later_text_violated : ∃ (os : List Op) (w : List Named) (st : St) (i : Nat) (p : Named) (b : Text), actAll [] os = some w ∧ run empty os = .ok st ∧ w[i]? = some p ∧ p.alive = true ∧
    p.text = some b ∧ st.read i = none :=
  ⟨[.make 0 [], .make 1 [97#8], .assign 0 1, .set 0 long, .reset 1], _, _, 0, _, long, rfl, rfl, rfl, rfl, rfl, by decide⟩

/-! ## A case -/

def ops0 : List Op := [.make 0 long, .make 1 [98#8], .copyInto 1 0, .assign 1 2, .append 1 long, .moveAssign 2 1, .copy 2, .reset 0]

example : ∃ w, actAll [] ops0 = some w ∧ (w.map fun p => (p.alive, p.text)) = [(false, some long), (true, none), (true, some (long ++ long)), (true, some (long ++ long))] := ⟨_, rfl, rfl⟩
example : SameArena [] ops0 := by
  refine ⟨trivial, fun _ h => ?_⟩; cases h
  refine ⟨trivial, fun _ h => ?_⟩; cases h
  refine ⟨trivial, fun _ h => ?_⟩; cases h
  refine ⟨fun q p hq hp => by cases hq; cases hp; rfl, fun _ h => ?_⟩; cases h
  refine ⟨trivial, fun _ h => ?_⟩; cases h
  refine ⟨fun q p hq hp => by cases hq; cases hp; rfl, fun _ h => ?_⟩; cases h
  refine ⟨trivial, fun _ h => ?_⟩; cases h
  exact ⟨trivial, fun _ h => by cases h; trivial⟩
example : (match run empty ops0 with | .ok st => [st.read 2, st.read 3] | _ => []) = [some (long ++ long), some (long ++ long)] := by decide

end Verif.Memory.ArenaStr
