import Verif.Tbl.History
/-!
# How long tables live: C174

`/repo/rapidudf/table/table.cc` 89–93 (`Table::Deleter`), 249–262 (`Clone`, which gives the new table to the context), `/repo/rapidudf/table/table_schema.cc` 98–110 (`NewTable`, a pointer that the program
owns), `/repo/rapidudf/context/context.h` (`Own`) and `/repo/rapidudf/context/context.cc` 40–51 (`Reset` destroys what the context owns), with the operations of `Verif.Tbl.History` (C172) on tables
that have not been destroyed. A use of a destroyed table is undefined behaviour.
-/
namespace Verif.Tbl.Lifetime
open Verif.Tbl Verif.Tbl.History

/-! ## Specification -/

/-- What a program does: an operation of C172, destroying a table it has made with `NewTable`, or resetting the context. -/
inductive Act (n : Nat) (P : Type) where
  | op (o : Op n P)
  | drop (h : Nat)
  | reset

/-- A table made with `NewTable` belongs to the program, all others to the context. -/
structure Life where
  mine : Bool
  alive : Bool
  deriving DecidableEq

/-- The tables and their lives. -/
structure World (n : Nat) (P : Type) where
  tabs : List (Tab n P)
  lives : List Life

/-- The tables an operation works on. -/
def inputs {n : Nat} {P : Type} : Op n P → List Nat
  | .new => []
  | .add h _ => [h]
  | .insert h _ _ => [h]
  | .append h _ => [h]
  | .filter h _ _ => [h]
  | .split h _ _ => [h]
  | .head h _ => [h]
  | .tail h _ => [h]
  | .rows h _ => [h]
  | .concat h h' => [h, h']

/-- The lives of the tables an operation makes. -/
def born {n : Nat} {P : Type} : Op n P → List Life
  | .new => [⟨true, true⟩]
  | .add _ _ => []
  | .insert _ _ _ => []
  | .append _ _ => []
  | .split _ _ _ => [⟨false, true⟩, ⟨false, true⟩]
  | _ => [⟨false, true⟩]

def World.after {n : Nat} {P : Type} (w : World n P) : Act n P → World n P
  | .op o => ⟨(History.after w.tabs o).1, w.lives ++ born o⟩
  | .drop h => ⟨w.tabs, w.lives.modify h fun l => { l with alive := false }⟩
  | .reset => ⟨w.tabs, w.lives.map fun l => if l.mine = true then l else { l with alive := false }⟩

/-- Operations as in C172 on tables that are alive; only tables of the program that are alive, and not shared, are destroyed. -/
def Act.Fits {n : Nat} {P : Type} (w : World n P) : Act n P → Prop
  | .op o => o.Fits w.tabs ∧ ∀ h ∈ inputs o, ∃ l, w.lives[h]? = some l ∧ l.alive = true
  | .drop h => w.lives[h]? = some ⟨true, true⟩ ∧ ∃ t, w.tabs[h]? = some t ∧ t.shared = false
  | .reset => True

def World.afterAll {n : Nat} {P : Type} (w : World n P) : List (Act n P) → World n P
  | [] => w
  | a :: as => (w.after a).afterAll as
def World.Fit {n : Nat} {P : Type} (w : World n P) : List (Act n P) → Prop
  | [] => True
  | a :: as => a.Fits w ∧ (w.after a).Fit as

/-! ## Model -/

/-- The tables in memory, the numbers of those that were destroyed, and of those the context owns. -/
structure Mem (P : Type) where
  st : St P
  dead : List Nat
  owned : List Nat

/-- A table a pointer points to, if it was not destroyed. -/
def Mem.live {P : Type} (m : Mem P) (h : Nat) : Bool := match m.st.handles[h]? with
  | some id => !m.dead.contains id
  | none => false

/-- The numbers of the new tables; `Clone` gives them to the context, table.cc 259–260, `NewTable` does not. -/
def fresh {n : Nat} {P : Type} (before after : St P) : Op n P → List Nat
  | .new => []
  | _ => (List.range after.objs.length).drop before.objs.length

/-- One step; `none` is undefined behaviour. -/
def step {n : Nat} {P : Type} (E : Env n P) (m : Mem P) : Act n P → Option (Mem P)
  | .op o => if (inputs o).all m.live = true then (History.step E m.st o).map fun x => ⟨x.1, m.dead, m.owned ++ fresh m.st x.1 o⟩ else none
  | .drop h => match m.st.handles[h]? with
    | none => none
    | some id => if m.dead.contains id = true then none else some { m with dead := m.dead ++ [id] }
  | .reset => some { m with dead := m.dead ++ m.owned, owned := [] }

def run {n : Nat} {P : Type} (E : Env n P) (m : Mem P) : List (Act n P) → Option (Mem P)
  | [] => some m
  | a :: as => (step E m a).bind fun m => run E m as

/-! ## Lemmas -/

section
variable {n : Nat} {P : Type} (E : Env n P)

/-- Tables that should be alive are; tables of the program are not owned by the context. -/
structure Inv (m : Mem P) (w : World n P) : Prop where
  tabs : History.Inv E m.st w.tabs
  len : w.lives.length = w.tabs.length
  alive : ∀ (h id : Nat) (l : Life), w.lives[h]? = some l → m.st.handles[h]? = some id → l.alive = true → id ∉ m.dead
  mine : ∀ (h id : Nat) (l : Life), w.lives[h]? = some l → m.st.handles[h]? = some id → l.mine = true → id ∉ m.owned
  dead : ∀ id ∈ m.dead, id < m.st.objs.length
  owned : ∀ id ∈ m.owned, id < m.st.objs.length

theorem inv_live {m : Mem P} {w : World n P} (hi : Inv E m w) {h : Nat} {l : Life} (hl : w.lives[h]? = some l) (ha : l.alive = true) : m.live h = true := by
  have hlt : h < m.st.handles.length := by rw [hi.tabs.len, ← hi.len]; exact (List.getElem?_eq_some_iff.1 hl).1
  have hh := List.getElem?_eq_getElem hlt
  unfold Mem.live
  rw [hh]
  have := hi.alive h _ l hl hh ha
  simpa using this

/-- What an operation does to pointers and memory: old pointers stay; new pointers are to new tables, or to the table the operation worked on; `NewTable` makes a new table. -/
structure Grows (st st' : St P) (o : Op n P) : Prop where
  objs : st.objs.length ≤ st'.objs.length
  handles : ∃ new, st'.handles = st.handles ++ new ∧ new.length = (born o).length ∧ (∀ id ∈ new, st.objs.length ≤ id ∨ ∃ h ∈ inputs o, st.handles[h]? = some id) ∧
    (born o = [⟨true, true⟩] → new = [st.objs.length] ∧ ∀ x : St P, fresh st x o = [])

theorem table_handle {st : St P} {h id : Nat} {t : Table P} (e : st.table h = some (id, t)) : st.handles[h]? = some id := by
  unfold St.table at e
  cases hh : st.handles[h]? with
  | none => rw [hh] at e; simp at e
  | some i =>
    rw [hh] at e
    simp only [Option.bind_some] at e
    cases ho : st.objs[i]? with
    | none => rw [ho] at e; simp at e
    | some t' => rw [ho] at e; simp at e; rw [e.1]

theorem grows (st st' : St P) (o : Op n P) (b : Bool) (h : History.step E st o = some (st', b)) : Grows st st' o := by
  cases o with
  | new =>
    simp only [History.step, Option.some.injEq, Prod.mk.injEq] at h
    obtain ⟨rfl, _⟩ := h
    exact ⟨by simp [St.push], [st.objs.length], rfl, rfl, fun id hid => by simp at hid; omega, fun _ => ⟨rfl, fun _ => rfl⟩⟩
  | add k rows =>
    simp only [History.step, Option.map_eq_some_iff, Prod.mk.injEq] at h
    obtain ⟨x, hx, rfl, _⟩ := h
    exact ⟨by simp [St.put], [], by simp [St.put], rfl, fun id hid => by simp at hid, fun hb => by simp [born] at hb⟩
  | insert k pos r =>
    simp only [History.step, Option.map_eq_some_iff, Prod.mk.injEq] at h
    obtain ⟨x, hx, rfl, _⟩ := h
    exact ⟨by simp [St.put], [], by simp [St.put], rfl, fun id hid => by simp at hid, fun hb => by simp [born] at hb⟩
  | append k r =>
    simp only [History.step, Option.map_eq_some_iff, Prod.mk.injEq] at h
    obtain ⟨x, hx, rfl, _⟩ := h
    exact ⟨by simp [St.put], [], by simp [St.put], rfl, fun id hid => by simp at hid, fun hb => by simp [born] at hb⟩
  | filter k mask bits =>
    simp only [History.step, Option.bind_eq_some_iff, Option.map_eq_some_iff, Prod.mk.injEq] at h
    obtain ⟨x, hx, t, ht, rfl, _⟩ := h
    exact ⟨by simp [St.push], [st.objs.length], rfl, rfl, fun id hid => by simp at hid; omega, fun hb => by simp [born] at hb⟩
  | split k mask bits =>
    simp only [History.step, Option.bind_eq_some_iff, Option.map_eq_some_iff, Prod.mk.injEq] at h
    obtain ⟨x, hx, t, ht, rfl, _⟩ := h
    exact ⟨by simp [St.push], [st.objs.length, st.objs.length + 1], by simp [St.push], rfl, fun id hid => by simp at hid; omega, fun hb => by simp [born] at hb⟩
  | head k j =>
    simp only [History.step, Option.map_eq_some_iff] at h
    obtain ⟨⟨id, t⟩, hx, h⟩ := h
    split at h
    · simp only [Prod.mk.injEq] at h
      obtain ⟨rfl, _⟩ := h
      exact ⟨Nat.le_refl _, [id], rfl, rfl, fun i hi => by simp at hi; subst hi; exact .inr ⟨k, by simp [inputs], table_handle hx⟩, fun hb => by simp [born] at hb⟩
    · simp only [Prod.mk.injEq] at h
      obtain ⟨rfl, _⟩ := h
      exact ⟨by simp [St.push], [st.objs.length], rfl, rfl, fun id hid => by simp at hid; omega, fun hb => by simp [born] at hb⟩
  | tail k j =>
    simp only [History.step, Option.map_eq_some_iff] at h
    obtain ⟨⟨id, t⟩, hx, h⟩ := h
    split at h
    · simp only [Prod.mk.injEq] at h
      obtain ⟨rfl, _⟩ := h
      exact ⟨Nat.le_refl _, [id], rfl, rfl, fun i hi => by simp at hi; subst hi; exact .inr ⟨k, by simp [inputs], table_handle hx⟩, fun hb => by simp [born] at hb⟩
    · simp only [Prod.mk.injEq] at h
      obtain ⟨rfl, _⟩ := h
      exact ⟨by simp [St.push], [st.objs.length], rfl, rfl, fun id hid => by simp at hid; omega, fun hb => by simp [born] at hb⟩
  | rows k numbers =>
    simp only [History.step, Option.bind_eq_some_iff, Option.map_eq_some_iff, Prod.mk.injEq] at h
    obtain ⟨x, hx, t, ht, rfl, _⟩ := h
    exact ⟨by simp [St.push], [st.objs.length], rfl, rfl, fun id hid => by simp at hid; omega, fun hb => by simp [born] at hb⟩
  | concat k k' =>
    simp only [History.step, Option.bind_eq_some_iff, Option.map_eq_some_iff, Prod.mk.injEq] at h
    obtain ⟨x, hx, y, hy, t, ht, rfl, _⟩ := h
    exact ⟨by simp [St.push], [st.objs.length], rfl, rfl, fun id hid => by simp at hid; omega, fun hb => by simp [born] at hb⟩

theorem born_alive (o : Op n P) : ∀ l ∈ born o, l.alive = true := by cases o <;> simp [born]

theorem born_mine (o : Op n P) : ∀ l ∈ born o, l.mine = true → born o = [⟨true, true⟩] := by cases o <;> simp [born]

theorem step_ok (hE : E.Ok) {m : Mem P} {w : World n P} (hi : Inv E m w) (a : Act n P) (hf : a.Fits w) : ∃ m', step E m a = some m' ∧ Inv E m' (w.after a) := by
  cases a with
  | op o =>
    obtain ⟨st', h1, h2⟩ := History.step_ok E hE hi.tabs o hf.1
    have g := grows E m.st st' o _ h1
    obtain ⟨new, g1, g2, g3, g4⟩ := g.handles
    have hall : (inputs o).all m.live = true := by
      rw [List.all_eq_true]
      intro h hh
      obtain ⟨l, hl, ha⟩ := hf.2 h hh
      exact inv_live E hi hl ha
    have hlen : (w.lives ++ born o).length = (History.after w.tabs o).1.length := by
      rw [← h2.len, g1, List.length_append, List.length_append, hi.len, hi.tabs.len, g2]
    have hold : ∀ (h id : Nat) (l : Life), (w.lives ++ born o)[h]? = some l → st'.handles[h]? = some id →
        (w.lives[h]? = some l ∧ m.st.handles[h]? = some id) ∨ (l ∈ born o ∧ id ∈ new) := by
      intro h id l hl hh
      rw [g1] at hh
      have e : w.lives.length = m.st.handles.length := by rw [hi.len, hi.tabs.len]
      rcases Nat.lt_or_ge h w.lives.length with hlt | hge
      · rw [List.getElem?_append_left hlt] at hl
        rw [List.getElem?_append_left (by omega)] at hh
        exact .inl ⟨hl, hh⟩
      · rw [List.getElem?_append_right hge] at hl
        rw [List.getElem?_append_right (by omega)] at hh
        exact .inr ⟨List.mem_of_getElem? hl, List.mem_of_getElem? hh⟩
    refine ⟨⟨st', m.dead, m.owned ++ fresh m.st st' o⟩, by simp only [step]; rw [if_pos hall, h1]; rfl, h2, hlen, ?_, ?_, ?_, ?_⟩
    · intro h id l hl hh ha
      rcases hold h id l hl hh with ⟨k1, k2⟩ | ⟨k1, k2⟩
      · exact hi.alive h id l k1 k2 ha
      · intro hd
        rcases g3 id k2 with k3 | ⟨i, k3, k4⟩
        · have := hi.dead id hd; omega
        · obtain ⟨l', hl', ha'⟩ := hf.2 i k3
          exact hi.alive i id l' hl' k4 ha' hd
    · intro h id l hl hh hm
      rw [List.mem_append, not_or]
      rcases hold h id l hl hh with ⟨k1, k2⟩ | ⟨k1, k2⟩
      · refine ⟨hi.mine h id l k1 k2 hm, fun hfr => ?_⟩
        have hid := inv_lt E hi.tabs k2
        cases o with
        | new => simp [fresh] at hfr
        | _ =>
          simp only [fresh] at hfr
          rw [List.mem_drop_iff_getElem] at hfr
          obtain ⟨j, hj, e⟩ := hfr
          simp at e
          omega
      · have := g4 (born_mine o l k1 hm)
        rw [this.1] at k2
        simp at k2
        refine ⟨fun ho => ?_, by rw [this.2]; simp⟩
        have := hi.owned id ho
        omega
    · intro id hd
      have := hi.dead id hd
      have := g.objs
      show id < st'.objs.length
      omega
    · intro id ho
      show id < st'.objs.length
      rcases List.mem_append.1 ho with ho | ho
      · have := hi.owned id ho
        have := g.objs
        omega
      · cases o with
        | new => simp [fresh] at ho
        | _ => simp only [fresh] at ho; exact List.mem_range.1 (List.mem_of_mem_drop ho)
  | drop h =>
    obtain ⟨hl, t, ht, hs⟩ := hf
    obtain ⟨id, h1, h2, h3⟩ := hi.tabs.tab h t ht
    have hnd := hi.alive h id _ hl h1 rfl
    refine ⟨{ m with dead := m.dead ++ [id] }, by simp only [step, h1]; rw [if_neg (by simpa using hnd)], hi.tabs, by simp [World.after, hi.len], ?_, ?_, ?_, hi.owned⟩
    · intro h' id' l hl' hh' ha
      simp only [World.after, List.getElem?_modify] at hl'
      by_cases e : h = h'
      · subst e
        rw [hl] at hl'
        simp at hl'
        subst hl'
        simp at ha
      · have hl'' : w.lives[h']? = some l := by simpa [e] using hl'
        rw [List.mem_append, not_or]
        refine ⟨hi.alive h' id' l hl'' hh' ha, fun hm => ?_⟩
        simp at hm
        subst hm
        exact e (h3 hs h' hh').symm
    · intro h' id' l hl' hh' hm
      simp only [World.after, List.getElem?_modify] at hl'
      by_cases e : h = h'
      · subst e
        exact hi.mine h id' _ hl hh' rfl
      · have hl'' : w.lives[h']? = some l := by simpa [e] using hl'
        exact hi.mine h' id' l hl'' hh' hm
    · intro id' hd
      rcases List.mem_append.1 hd with hd | hd
      · exact hi.dead id' hd
      · simp at hd; subst hd; exact inv_lt E hi.tabs h1
  | reset =>
    refine ⟨_, rfl, hi.tabs, by simp [World.after, hi.len], ?_, ?_, ?_, by simp⟩
    · intro h id l hl hh ha
      simp only [World.after, List.getElem?_map, Option.map_eq_some_iff] at hl
      obtain ⟨l', hl', e⟩ := hl
      split at e
      · rename_i hm
        subst e
        rw [List.mem_append, not_or]
        exact ⟨hi.alive h id l' hl' hh ha, hi.mine h id l' hl' hh hm⟩
      · subst e; simp at ha
    · intro h id l hl hh hm
      simp
    · intro id hd
      rcases List.mem_append.1 hd with hd | hd
      · exact hi.dead id hd
      · exact hi.owned id hd

theorem run_ok (hE : E.Ok) : ∀ (as : List (Act n P)) {m : Mem P} {w : World n P}, Inv E m w → w.Fit as → ∃ m', run E m as = some m' ∧ Inv E m' (w.afterAll as)
  | [], m, w, hi, _ => ⟨m, rfl, hi⟩
  | a :: as, m, w, hi, hf => by
    obtain ⟨m1, h1, h2⟩ := step_ok E hE hi a hf.1
    obtain ⟨m2, h3, h4⟩ := run_ok hE as h2 hf.2
    exact ⟨m2, by simp only [run, h1, Option.bind_some, h3], h4⟩

end

/-! ## C174 -/

/-- **C174**, partial. Every program that works on tables that are alive is defined, and at its end every table that is alive, a table of the program that it has not destroyed, or a table of the
context since the last reset, can be used and has its rows. Missing: the program must not destroy a table that is shared, see below. -/
theorem tables_live_partial {n : Nat} {P : Type} (E : Env n P) (hE : E.Ok) (as : List (Act n P)) (hf : World.Fit ⟨[], []⟩ as) :
    ∃ m, run E ⟨⟨[], []⟩, [], []⟩ as = some m ∧
      ∀ h rows shared mine, (World.afterAll ⟨[], []⟩ as).tabs[h]? = some ⟨rows, shared⟩ → (World.afterAll ⟨[], []⟩ as).lives[h]? = some ⟨mine, true⟩ →
        m.live h = true ∧ ∃ id t, m.st.table h = some (id, t) ∧ count t = rows.length ∧ ∀ (j : Fin n) (i : Nat), getRow t (E.schema j) i = match rows[i]? with
          | some r => .obj (r j)
          | none => .error := by
  obtain ⟨m, h1, h2⟩ := run_ok E hE as (m := ⟨⟨[], []⟩, [], []⟩) (w := ⟨[], []⟩)
    ⟨⟨rfl, fun h t ht => by simp at ht⟩, rfl, fun h id l hl => by simp at hl, fun h id l hl => by simp at hl, by simp, by simp⟩ hf
  refine ⟨m, h1, fun h rows shared mine ht hl => ⟨inv_live E h2 hl rfl, ?_⟩⟩
  obtain ⟨id, k1, _⟩ := inv_table E h2.tabs ht
  exact ⟨id, _, k1, mk_count E hE.types rows, fun j i => (mk_getRow E hE rows i).1 j⟩

/-- C174 is false of the code: the table returned by `Head(k)` of a table with at most `k` rows, unlike that of a longer table, cannot be used when the program has destroyed the table. -/
theorem head_after_drop_violated {n : Nat} {P : Type} (E : Env n P) (hE : E.Ok) (r s : Row n P) (k : Nat) (hk : 0 < k) :
    (run E ⟨⟨[], []⟩, [], []⟩ [.op .new, .op (.append 0 r), .op (.head 0 k), .drop 0, .op (.append 1 s)] = none) ∧
      run E ⟨⟨[], []⟩, [], []⟩ [.op .new, .op (.append 0 r), .op (.append 0 s), .op (.head 0 1), .drop 0, .op (.append 1 s)] ≠ none := by
  have e1 : appendRow (mk E ([] : List (Row n P))) (part E r) = (true, mk E [r]) := by unfold appendRow; rw [mk_count E hE.types, mk_insert E hE]; rfl
  have hc : k ≥ count (mk E [r]) := by rw [mk_count E hE.types]; exact hk
  refine ⟨?_, ?_⟩
  · simp [run, step, inputs, Mem.live, History.step, St.push, St.table, St.put, St.same, mk_new, e1, hc]
  · have hfit : World.Fit ⟨[], []⟩ [.op .new, .op (.append 0 r), .op (.append 0 s), .op (.head 0 1), .drop 0, .op (.append 1 s)] := by
      simp [World.Fit, Act.Fits, Op.Fits, World.after, History.after, inputs, born, List.modify]
    obtain ⟨m, h, _⟩ := tables_live_partial E hE _ hfit
    rw [h]; simp

/-! ### An instance: a table, its last row, the table is destroyed, another table is made from the row; then the context is reset -/

def exActs : List (Act 2 Nat) := [.op .new, .op (.add 0 [exRow 1 10, exRow 2 20]), .op (.tail 0 1), .drop 0, .op (.concat 1 1), .op .new, .op (.append 3 (exRow 5 50))]

theorem exActs_fit : World.Fit ⟨[], []⟩ exActs := by simp [World.Fit, Act.Fits, Op.Fits, World.after, History.after, inputs, born, exActs, List.modify]

example : ∃ m id t, run exEnv ⟨⟨[], []⟩, [], []⟩ exActs = some m ∧ m.live 2 = true ∧ m.st.table 2 = some (id, t) ∧ getRow t 1 1 = .obj 20 := by
  obtain ⟨m, h1, h2⟩ := tables_live_partial exEnv exEnv_ok exActs exActs_fit
  obtain ⟨h3, id, t, h4, _, h6⟩ := h2 2 [exRow 2 20, exRow 2 20] false false (by simp [exActs, World.afterAll, World.after, History.after]) (by simp [exActs, World.afterAll, World.after, born, List.modify])
  exact ⟨m, id, t, h1, h3, h4, h6 1 1⟩

example : World.Fit ⟨[], []⟩ (exActs ++ [.reset, .op (.head 3 0)]) := by simp [World.Fit, Act.Fits, Op.Fits, World.after, History.after, inputs, born, exActs, List.modify]

end Verif.Tbl.Lifetime
