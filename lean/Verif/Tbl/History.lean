import Verif.Tbl.AddRows
/-!
# Programs that make tables from tables: C172

`/repo/rapidudf/table/table.h` 136–189 (`AddRows`, `InsertRow`, `AppendRow`, `GetRow`), `/repo/rapidudf/table/table.cc` 64–87, 249–262, 306–347, 388–443, 475–480, 732–764: any sequence of the
functions that add rows to a table and of those that return a table (`Filter`, `Split`, `Head`, `Tail`, `Concat`, and the tables of given rows that `OrderBy`, `Topk` and `GroupBy` return, C60, C75).
A program holds pointers to tables; two of them may point to the same one. The functions on the rows of one table are those of `Verif.Tbl.Rows` and `Verif.Tbl.AddRows`.

Row types are numbered; a row has one object of each of the `n` types. Columns are the subject of C74.
-/
namespace Verif.Tbl.History
open Verif.Tbl Verif.Simd

/-! ## Specification -/

/-- A row: one object for each row type of the table. -/
abbrev Row (n : Nat) (P : Type) := Fin n → P

/-- What a program does with its tables, numbered in the order in which it gets them. A mask is given with the bytes of its bit vector. -/
inductive Op (n : Nat) (P : Type) where
  | new
  | add (h : Nat) (rows : List (Row n P))
  | insert (h pos : Nat) (r : Row n P)
  | append (h : Nat) (r : Row n P)
  | filter (h : Nat) (mask : Nat → Bool) (bits : List Byte)
  | split (h : Nat) (mask : Nat → Bool) (bits : List Byte)
  | head (h k : Nat)
  | tail (h k : Nat)
  | rows (h : Nat) (numbers : List Nat)
  | concat (h h' : Nat)

/-- A table is a list of rows. It is `shared` if it was returned by `Head` or `Tail` of a table with no more rows than asked for, or is such a table. -/
structure Tab (n : Nat) (P : Type) where
  rows : List (Row n P)
  shared : Bool

/-- The rows at the places at which the mask is set. -/
def keep {α : Type} (mask : Nat → Bool) : List α → List α
  | [] => []
  | r :: rs => if mask 0 = true then r :: keep (fun i => mask (i + 1)) rs else keep (fun i => mask (i + 1)) rs

/-- What an operation makes of the tables, and whether it succeeds. -/
def after {n : Nat} {P : Type} (ts : List (Tab n P)) : Op n P → List (Tab n P) × Bool
  | .new => (ts ++ [⟨[], false⟩], true)
  | .add h rows => match ts[h]? with
    | some t => if rows = [] then (ts, false) else (ts.set h ⟨t.rows ++ rows, t.shared⟩, true)
    | none => (ts, false)
  | .insert h pos r => match ts[h]? with
    | some t => if pos ≤ t.rows.length then (ts.set h ⟨t.rows.take pos ++ r :: t.rows.drop pos, t.shared⟩, true) else (ts, false)
    | none => (ts, false)
  | .append h r => match ts[h]? with
    | some t => (ts.set h ⟨t.rows ++ [r], t.shared⟩, true)
    | none => (ts, false)
  | .filter h mask _ => match ts[h]? with
    | some t => (ts ++ [⟨keep mask t.rows, false⟩], true)
    | none => (ts, false)
  | .split h mask _ => match ts[h]? with
    | some t => (ts ++ [⟨keep mask t.rows, false⟩, ⟨keep (fun i => !mask i) t.rows, false⟩], true)
    | none => (ts, false)
  | .head h k => match ts[h]? with
    | some t => if t.rows.length ≤ k then (ts.set h ⟨t.rows, true⟩ ++ [⟨t.rows, true⟩], true) else (ts ++ [⟨t.rows.take k, false⟩], true)
    | none => (ts, false)
  | .tail h k => match ts[h]? with
    | some t => if t.rows.length ≤ k then (ts.set h ⟨t.rows, true⟩ ++ [⟨t.rows, true⟩], true) else (ts ++ [⟨t.rows.drop (t.rows.length - k), false⟩], true)
    | none => (ts, false)
  | .rows h numbers => match ts[h]? with
    | some t => (ts ++ [⟨numbers.filterMap fun i => t.rows[i]?, false⟩], true)
    | none => (ts, false)
  | .concat h h' => match ts[h]?, ts[h']? with
    | some t, some t' => (ts ++ [⟨t.rows ++ t'.rows, false⟩], true)
    | _, _ => (ts, false)

/-- Bit `i` of the bytes is the `i`-th one of the mask, for each of the `m` rows. -/
def Holds (bits : List Byte) (mask : Nat → Bool) (m : Nat) : Prop := ∀ i, i < m → ∃ b, bits[i / 8]? = some b ∧ b.getLsbD (i % 8) = mask i

/-- What a program must see to: the tables exist; rows are added to tables that are not shared; masks are as long as tables; `Tail` of at least one row (C59); there are rows of the given numbers. -/
def Op.Fits {n : Nat} {P : Type} (ts : List (Tab n P)) : Op n P → Prop
  | .new => True
  | .add h _ => ∃ t, ts[h]? = some t ∧ t.shared = false
  | .insert h _ _ => ∃ t, ts[h]? = some t ∧ t.shared = false
  | .append h _ => ∃ t, ts[h]? = some t ∧ t.shared = false
  | .filter h mask bits => ∃ t, ts[h]? = some t ∧ Holds bits mask t.rows.length
  | .split h mask bits => ∃ t, ts[h]? = some t ∧ Holds bits mask t.rows.length
  | .head h _ => ∃ t, ts[h]? = some t
  | .tail h k => (∃ t, ts[h]? = some t) ∧ 0 < k
  | .rows h numbers => ∃ t, ts[h]? = some t ∧ ∀ i ∈ numbers, i < t.rows.length
  | .concat h h' => (∃ t, ts[h]? = some t) ∧ ∃ t, ts[h']? = some t

/-- A program. -/
def afterAll {n : Nat} {P : Type} (ts : List (Tab n P)) : List (Op n P) → List (Tab n P) × List Bool
  | [] => (ts, [])
  | o :: os => ((afterAll (after ts o).1 os).1, (after ts o).2 :: (afterAll (after ts o).1 os).2)
def Fit {n : Nat} {P : Type} (ts : List (Tab n P)) : List (Op n P) → Prop
  | [] => True
  | o :: os => o.Fits ts ∧ Fit (after ts o).1 os

/-! ## Model -/

/-- The tables in memory, and which of them the pointers of the program point to. -/
structure St (P : Type) where
  objs : List (Table P)
  handles : List Nat

/-- What the model does not fix: the schemas of the row types, the null pointer, lanes of pointers and of bytes, the contents of fresh memory. -/
structure Env (n : Nat) (P : Type) where
  schema : Fin n → Nat
  null : P
  junk : Nat → Nat → P
  N : Nat
  Nb : Nat
  fresh : Nat → List Byte

/-- A new table, table.cc 64–67. -/
def newTable {n : Nat} {P : Type} (E : Env n P) : Table P := (List.finRange n).map fun j => ⟨E.schema j, []⟩

/-- The arguments of `AddRows` and `InsertRow`: for each row type the objects of the rows. -/
def parts {n : Nat} {P : Type} (E : Env n P) (rows : List (Row n P)) : List (Nat × List P) := (List.finRange n).map fun j => (E.schema j, rows.map (· j))
def part {n : Nat} {P : Type} (E : Env n P) (r : Row n P) : List (Nat × P) := (List.finRange n).map fun j => (E.schema j, r j)

/-- The table a pointer points to. -/
def St.table {P : Type} (st : St P) (h : Nat) : Option (Nat × Table P) := (st.handles[h]?).bind fun id => (st.objs[id]?).map fun t => (id, t)

/-- A table made by `Clone`, table.cc 249–262, or returned as it is. -/
def St.push {P : Type} (st : St P) (t : Table P) : St P := ⟨st.objs ++ [t], st.handles ++ [st.objs.length]⟩
def St.same {P : Type} (st : St P) (id : Nat) : St P := ⟨st.objs, st.handles ++ [id]⟩
def St.put {P : Type} (st : St P) (id : Nat) (t : Table P) : St P := ⟨st.objs.set id t, st.handles⟩

/-- One operation; `none` is undefined behaviour. `Head` and `Tail` return `this` if there are no more rows than asked for, table.cc 423–425, 434–436. -/
def step {n : Nat} {P : Type} (E : Env n P) (st : St P) : Op n P → Option (St P × Bool)
  | .new => some (st.push (newTable E), true)
  | .add h rows => (st.table h).map fun x => (st.put x.1 (addRows x.2 (parts E rows)).2, (addRows x.2 (parts E rows)).1)
  | .insert h pos r => (st.table h).map fun x => (st.put x.1 (insertRow x.2 pos (part E r)).2, (insertRow x.2 pos (part E r)).1)
  | .append h r => (st.table h).map fun x => (st.put x.1 (appendRow x.2 (part E r)).2, (appendRow x.2 (part E r)).1)
  | .filter h _ bits => (st.table h).bind fun x => (Tbl.filter E.null E.junk E.N x.2 bits).map fun t => (st.push t, true)
  | .split h _ bits => (st.table h).bind fun x => (Tbl.split E.null E.junk E.N E.Nb x.2 (count x.2) bits (E.fresh (count x.2))).map fun p => ((st.push p.1).push p.2, true)
  | .head h k => (st.table h).map fun x => if k ≥ count x.2 then (st.same x.1, true) else (st.push (Tbl.head x.2 k), true)
  | .tail h k => (st.table h).map fun x => if k ≥ count x.2 then (st.same x.1, true) else (st.push (Tbl.tail x.2 k), true)
  | .rows h numbers => (st.table h).bind fun x => (gatherSub E.null E.N x.2 numbers).map fun t => (st.push t, true)
  | .concat h h' => (st.table h).bind fun x => (st.table h').bind fun y => (doConcat true x.2 y.2).map fun t => (st.push t, true)

def run {n : Nat} {P : Type} (E : Env n P) (st : St P) : List (Op n P) → Option (St P × List Bool)
  | [] => some (st, [])
  | o :: os => (step E st o).bind fun x => (run E x.1 os).map fun y => (y.1, x.2 :: y.2)

/-- What `GetRow` does: an exception, an access outside the rows, or an object. -/
inductive Got (P : Type) where
  | error
  | outside
  | obj (p : P)

/-- `GetRow<T>(i)`, table.h 174–189; `GetRowIdx`, table.cc 732–739: the first group with the schema of the type. -/
def getRow {P : Type} (t : Table P) (type i : Nat) : Got P :=
  match t.find? fun g => decide (g.schema = type) with
  | none => .error
  | some g => if i ≥ count t then .error else match g.objs[i]? with
    | some p => .obj p
    | none => .outside

/-- The environment: at most eight pointers in a SIMD register, row types have different schemas, fresh memory is as long as asked for. -/
structure Env.Ok {n : Nat} {P : Type} (E : Env n P) : Prop where
  types : 0 < n
  distinct : ∀ i j, E.schema i = E.schema j → i = j
  lanes : 0 < E.N ∧ E.N ≤ 8 ∧ 0 < E.Nb
  fresh : ∀ m, (m + 7) / 8 ≤ (E.fresh m).length

/-! ## Lemmas -/

section
variable {n : Nat} {P : Type} (E : Env n P)

/-- A table with these rows. -/
def mk (rows : List (Row n P)) : Table P := (List.finRange n).map fun j => ⟨E.schema j, rows.map (· j)⟩

theorem mk_new : newTable E = mk E [] := rfl

theorem mk_aligned_len (rows : List (Row n P)) (g : Group P) (h : g ∈ mk E rows) : g.objs.length = rows.length := by
  obtain ⟨j, _, rfl⟩ := List.mem_map.1 h
  simp

theorem mk_ne (hn : 0 < n) (rows : List (Row n P)) : mk E rows ≠ [] := by
  intro h
  have := congrArg List.length h
  simp [mk] at this
  omega

theorem mk_count (hn : 0 < n) (rows : List (Row n P)) : count (mk E rows) = rows.length := by
  cases h : mk E rows with
  | nil => exact absurd h (mk_ne E hn rows)
  | cons g t => exact mk_aligned_len E rows g (by rw [h]; simp)

theorem mk_aligned (hn : 0 < n) (rows : List (Row n P)) : Aligned (mk E rows) := fun g hg => by rw [mk_aligned_len E rows g hg, mk_count E hn]

theorem mk_pick (rows : List (Row n P)) (idx : List Nat) : pick (mk E rows) idx = mk E (idx.filterMap fun i => rows[i]?) := by
  unfold pick mk
  rw [List.map_map]
  apply List.map_congr_left
  intro j _
  simp [List.map_filterMap]

theorem keep_selected {α : Type} (l : List α) : ∀ mask : Nat → Bool, keep mask l = (selected mask l.length).filterMap fun i => l[i]? := by
  induction l with
  | nil => intro mask; rfl
  | cons r rs ih =>
    intro mask
    unfold keep selected
    rw [List.length_cons, List.range_succ_eq_map, List.filter_cons, List.filter_map]
    have e : List.filterMap (fun i => (r :: rs)[i]?) (List.map Nat.succ (List.filter (mask ∘ Nat.succ) (List.range rs.length))) = keep (fun i => mask (i + 1)) rs := by
      rw [ih, List.filterMap_map]
      unfold selected
      rfl
    by_cases h : mask 0 = true
    · rw [if_pos h, if_pos h, List.filterMap_cons]
      simp only [List.getElem?_cons_zero, e]
    · rw [if_neg h, if_neg h, e]

theorem keep_congr {α : Type} (l : List α) : ∀ m m' : Nat → Bool, (∀ i, i < l.length → m i = m' i) → keep m l = keep m' l := by
  induction l with
  | nil => intro _ _ _; rfl
  | cons r rs ih =>
    intro m m' h
    have e := ih (fun i => m (i + 1)) (fun i => m' (i + 1)) (fun i hi => h (i + 1) (by simpa using hi))
    unfold keep
    rw [h 0 (by simp), e]

theorem holds_bit {bits : List Byte} {mask : Nat → Bool} {m : Nat} (h : Holds bits mask m) (i : Nat) (hi : i < m) : bitAt bits i = mask i := by
  obtain ⟨b, h1, h2⟩ := h i hi
  unfold bitAt
  rw [h1]; exact h2

theorem holds_len {bits : List Byte} {mask : Nat → Bool} {m : Nat} (h : Holds bits mask m) : (m + 7) / 8 ≤ bits.length := by
  cases m with
  | zero => simp
  | succ m =>
    obtain ⟨b, h1, _⟩ := h m (by omega)
    have := (List.getElem?_eq_some_iff.1 h1).1
    omega

theorem mk_filter (hE : E.Ok) (rows : List (Row n P)) (mask : Nat → Bool) (bits : List Byte) (h : Holds bits mask rows.length) :
    Tbl.filter E.null E.junk E.N (mk E rows) bits = some (mk E (keep mask rows)) := by
  rw [table_filter E.null E.junk E.N hE.lanes.1 hE.lanes.2.1 (mk E rows) (mk_aligned E hE.types rows) bits (by rw [mk_count E hE.types]; exact holds_len h), mk_count E hE.types, mk_pick,
    ← keep_selected, keep_congr rows _ mask (fun i hi => holds_bit h i hi)]

theorem mk_split (hE : E.Ok) (rows : List (Row n P)) (mask : Nat → Bool) (bits : List Byte) (h : Holds bits mask rows.length) :
    Tbl.split E.null E.junk E.N E.Nb (mk E rows) (count (mk E rows)) bits (E.fresh (count (mk E rows))) = some (mk E (keep mask rows), mk E (keep (fun i => !mask i) rows)) := by
  have hc := mk_count E hE.types rows
  have hb : byteCount rows.length = (rows.length + 7) / 8 := by unfold byteCount; split <;> omega
  have := table_split E.null E.junk E.N E.Nb hE.lanes.1 hE.lanes.2.1 hE.lanes.2.2 (mk E rows) (mk_aligned E hE.types rows) bits (E.fresh (count (mk E rows)))
    (by rw [hc, hb]; exact holds_len h) (by rw [hc, hb]; exact hE.fresh _)
  rw [this, hc, mk_pick, mk_pick, ← keep_selected, ← keep_selected, keep_congr rows _ mask (fun i hi => holds_bit h i hi),
    keep_congr rows (fun i => !bitAt bits i) (fun i => !mask i) (fun i hi => by rw [holds_bit h i hi])]

theorem mk_head (hE : E.Ok) (rows : List (Row n P)) (k : Nat) : Tbl.head (mk E rows) k = mk E (rows.take k) := by
  rw [head_rows _ (mk_aligned E hE.types rows), mk_pick, mk_count E hE.types, ← take_pick]

theorem mk_tail (hE : E.Ok) (rows : List (Row n P)) (k : Nat) (hk : 0 < k) (hl : k ≤ rows.length) : Tbl.tail (mk E rows) k = mk E (rows.drop (rows.length - k)) := by
  rw [tail_rows_partial _ (mk_aligned E hE.types rows) k hk, mk_pick, mk_count E hE.types, Nat.min_eq_left hl, ← drop_pick rows (rows.length - k) k (by omega),
    List.take_of_length_le (by simp; omega)]

theorem mk_rows (hE : E.Ok) (rows : List (Row n P)) (idx : List Nat) (h : ∀ i ∈ idx, i < rows.length) : gatherSub E.null E.N (mk E rows) idx = some (mk E (idx.filterMap fun i => rows[i]?)) := by
  rw [gatherSub_ok E.null E.N hE.lanes.1 (mk E rows) (mk_aligned E hE.types rows) idx (by rw [mk_count E hE.types]; exact h), mk_pick]

theorem mk_schemas (rows : List (Row n P)) : (mk E rows).map (·.schema) = (List.finRange n).map E.schema := by simp [mk, Function.comp_def]

theorem schemas_nodup (hE : E.Ok) : ((List.finRange n).map E.schema).Nodup := by
  rw [List.nodup_iff_pairwise_ne, List.pairwise_map]
  exact (List.nodup_finRange n).imp fun {a b} h e => h (hE.distinct _ _ e)

theorem mk_concat (hE : E.Ok) (rows rows' : List (Row n P)) : doConcat true (mk E rows) (mk E rows') = some (mk E (rows ++ rows')) := by
  unfold doConcat
  simp only [Bool.true_eq_false, if_false, Option.some.injEq]
  show List.map _ (List.map _ _) = List.map _ _
  rw [List.map_map]
  apply List.map_congr_left
  intro j hj
  show appendFirst _ _ = _
  rw [appendFirst_mem ⟨E.schema j, rows.map (· j)⟩ (mk E rows') (by rw [mk_schemas]; exact schemas_nodup E hE) ⟨E.schema j, rows'.map (· j)⟩ (List.mem_map.2 ⟨j, hj, rfl⟩) rfl]
  simp

theorem addLoop_mk (rows new : List (Row n P)) (hn : new ≠ []) : ∀ (L : List (Fin n)) (rc : Nat), rc = 0 ∨ rc = new.length →
    addLoop rc (L.map fun j => (⟨E.schema j, rows.map (· j)⟩ : Group P)) (L.map fun j => (E.schema j, new.map (· j))) = (true, L.map fun j => ⟨E.schema j, (rows ++ new).map (· j)⟩)
  | [], _, _ => rfl
  | j :: L, rc, h => by
    have hl : 0 < new.length := List.length_pos_iff.2 hn
    have ih := addLoop_mk rows new hn L (if rc = 0 then new.length else rc) (by right; split <;> omega)
    simp only [List.map_cons]
    unfold addLoop
    rw [if_neg (by simp), if_neg (by simp; omega)]
    simp only [List.length_map, ih, List.map_append]

theorem mk_add (hE : E.Ok) (rows new : List (Row n P)) : addRows (mk E rows) (parts E new) = if new = [] then (false, mk E rows) else (true, mk E (rows ++ new)) := by
  unfold addRows
  by_cases hn : new = []
  · subst hn
    rw [if_pos rfl, if_pos]
    rw [List.any_eq_true]
    exact ⟨_, List.mem_map.2 ⟨⟨0, hE.types⟩, List.mem_finRange _, rfl⟩, by simp⟩
  · rw [if_neg hn, if_neg, if_neg (by simp [parts, mk])]
    · exact addLoop_mk E rows new hn _ 0 (.inl rfl)
    · rw [List.any_eq_true]
      rintro ⟨r, hr, he⟩
      obtain ⟨j, _, rfl⟩ := List.mem_map.1 hr
      simp at he
      exact hn he

theorem insertLoop_mk (rows : List (Row n P)) (r : Row n P) (pos : Nat) (h : pos ≤ rows.length) : ∀ L : List (Fin n),
    insertLoop pos (L.map fun j => (⟨E.schema j, rows.map (· j)⟩ : Group P)) (L.map fun j => (E.schema j, r j)) = (true, L.map fun j => ⟨E.schema j, (rows.take pos ++ r :: rows.drop pos).map (· j)⟩)
  | [] => rfl
  | j :: L => by
    have ih := insertLoop_mk rows r pos h L
    simp only [List.map_cons]
    unfold insertLoop
    rw [if_neg (by simp)]
    unfold rowsInsert
    rw [if_neg (by simp; omega)]
    simp only [ih, List.map_append, List.map_cons, List.map_take, List.map_drop]

theorem mk_insert (hE : E.Ok) (rows : List (Row n P)) (r : Row n P) (pos : Nat) :
    insertRow (mk E rows) pos (part E r) = if pos ≤ rows.length then (true, mk E (rows.take pos ++ r :: rows.drop pos)) else (false, mk E rows) := by
  by_cases h : pos ≤ rows.length
  · rw [if_pos h]
    unfold insertRow
    rw [if_neg (by simp [part, mk])]
    exact insertLoop_mk E rows r pos h _
  · rw [if_neg h]
    exact (insert_row_partial (mk E rows) (mk_ne E hE.types rows) (mk_aligned E hE.types rows) pos (part E r) (by simp [mk, part, Function.comp_def])).2 (by rw [mk_count E hE.types]; omega)

theorem mk_find (hE : E.Ok) (rows : List (Row n P)) (j : Fin n) : (mk E rows).find? (fun g => decide (g.schema = E.schema j)) = some ⟨E.schema j, rows.map (· j)⟩ := by
  cases h : (mk E rows).find? (fun g => decide (g.schema = E.schema j)) with
  | none => exact absurd (List.find?_eq_none.1 h ⟨E.schema j, rows.map (· j)⟩ (List.mem_map.2 ⟨j, List.mem_finRange _, rfl⟩)) (by simp)
  | some g =>
    have h1 := List.mem_of_find?_eq_some h
    have h2 : g.schema = E.schema j := by simpa using List.find?_some h
    obtain ⟨i, _, rfl⟩ := List.mem_map.1 h1
    have := hE.distinct _ _ h2
    subst this
    rfl

theorem mk_getRow (hE : E.Ok) (rows : List (Row n P)) (i : Nat) :
    (∀ j, getRow (mk E rows) (E.schema j) i = match rows[i]? with
      | some r => .obj (r j)
      | none => .error) ∧ ∀ type, (∀ j, E.schema j ≠ type) → getRow (mk E rows) type i = .error := by
  constructor
  · intro j
    unfold getRow
    rw [mk_find E hE]
    simp only [mk_count E hE.types, List.getElem?_map]
    cases h : rows[i]? with
    | none => rw [if_pos (List.getElem?_eq_none_iff.1 h)]
    | some r => rw [if_neg (by have := (List.getElem?_eq_some_iff.1 h).1; omega)]; rfl
  · intro type ht
    unfold getRow
    rw [List.find?_eq_none.2]
    intro g hg
    obtain ⟨j, _, rfl⟩ := List.mem_map.1 hg
    simpa using ht j

/-- The pointers point to tables with the rows; a pointer to a table that is not shared is the only one to it. -/
structure Inv (st : St P) (ts : List (Tab n P)) : Prop where
  len : st.handles.length = ts.length
  tab : ∀ (h : Nat) (t : Tab n P), ts[h]? = some t → ∃ id, st.handles[h]? = some id ∧ st.objs[id]? = some (mk E t.rows) ∧ (t.shared = false → ∀ h', st.handles[h']? = some id → h' = h)

theorem inv_table {st : St P} {ts : List (Tab n P)} (hi : Inv E st ts) {h : Nat} {t : Tab n P} (ht : ts[h]? = some t) :
    ∃ id, st.table h = some (id, mk E t.rows) ∧ st.handles[h]? = some id ∧ st.objs[id]? = some (mk E t.rows) ∧ (t.shared = false → ∀ h', st.handles[h']? = some id → h' = h) := by
  obtain ⟨id, h1, h2, h3⟩ := hi.tab h t ht
  exact ⟨id, by simp [St.table, h1, h2], h1, h2, h3⟩

/-- Every pointer points to a table. -/
theorem inv_lt {st : St P} {ts : List (Tab n P)} (hi : Inv E st ts) {h id : Nat} (he : st.handles[h]? = some id) : id < st.objs.length := by
  have hl : h < ts.length := by rw [← hi.len]; exact (List.getElem?_eq_some_iff.1 he).1
  obtain ⟨id', h1, h2, _⟩ := hi.tab h _ (List.getElem?_eq_getElem hl)
  rw [he] at h1
  cases h1
  exact (List.getElem?_eq_some_iff.1 h2).1

theorem inv_push {st : St P} {ts : List (Tab n P)} (hi : Inv E st ts) (rows : List (Row n P)) : Inv E (st.push (mk E rows)) (ts ++ [⟨rows, false⟩]) := by
  refine ⟨by simp [St.push, hi.len], fun h t ht => ?_⟩
  rcases Nat.lt_or_ge h ts.length with hl | hl
  · rw [List.getElem?_append_left hl] at ht
    obtain ⟨id, h1, h2, h3⟩ := hi.tab h t ht
    have hid := inv_lt E hi h1
    refine ⟨id, by simp only [St.push]; rw [List.getElem?_append_left (by rw [hi.len]; exact hl)]; exact h1, by simp only [St.push]; rw [List.getElem?_append_left hid]; exact h2, fun hs h' he => ?_⟩
    simp only [St.push] at he
    rcases Nat.lt_or_ge h' st.handles.length with hl' | hl'
    · rw [List.getElem?_append_left hl'] at he; exact h3 hs h' he
    · rw [List.getElem?_append_right hl'] at he
      rw [List.getElem?_singleton] at he
      split at he
      · cases he; omega
      · cases he
  · rw [List.getElem?_append_right hl, List.getElem?_singleton] at ht
    split at ht
    · rename_i he
      cases ht
      have e : h = ts.length := by omega
      subst e
      refine ⟨st.objs.length, by simp only [St.push]; rw [← hi.len]; simp, by simp [St.push], fun _ h' he' => ?_⟩
      simp only [St.push] at he'
      rcases Nat.lt_or_ge h' st.handles.length with hl' | hl'
      · rw [List.getElem?_append_left hl'] at he'
        have := inv_lt E hi he'
        omega
      · have := (List.getElem?_eq_some_iff.1 he').1
        simp at this
        rw [hi.len] at this hl'
        omega
    · cases ht

theorem inv_put {st : St P} {ts : List (Tab n P)} (hi : Inv E st ts) {h id : Nat} {t : Tab n P} (ht : ts[h]? = some t) (hid : st.handles[h]? = some id) (hs : t.shared = false)
    (hu : ∀ h', st.handles[h']? = some id → h' = h) (rows : List (Row n P)) : Inv E (st.put id (mk E rows)) (ts.set h ⟨rows, t.shared⟩) := by
  refine ⟨by simp [St.put, hi.len], fun h0 t0 h0t => ?_⟩
  have hlt := inv_lt E hi hid
  by_cases e : h = h0
  · subst e
    have hl : h < ts.length := (List.getElem?_eq_some_iff.1 ht).1
    rw [List.getElem?_set_self hl] at h0t
    cases h0t
    exact ⟨id, hid, by simp [St.put, hlt], fun _ => hu⟩
  · rw [List.getElem?_set_ne e] at h0t
    obtain ⟨id', h1, h2, h3⟩ := hi.tab h0 t0 h0t
    refine ⟨id', h1, ?_, h3⟩
    have hne : id ≠ id' := fun ee => e (hu h0 (by rw [ee]; exact h1)).symm
    simp only [St.put]
    rw [List.getElem?_set_ne hne]
    exact h2

theorem inv_same {st : St P} {ts : List (Tab n P)} (hi : Inv E st ts) {h id : Nat} {t : Tab n P} (ht : ts[h]? = some t) (hid : st.handles[h]? = some id) (ho : st.objs[id]? = some (mk E t.rows)) :
    Inv E (st.same id) (ts.set h ⟨t.rows, true⟩ ++ [⟨t.rows, true⟩]) := by
  refine ⟨by simp [St.same, hi.len], fun h0 t0 h0t => ?_⟩
  rcases Nat.lt_or_ge h0 ts.length with hl | hl
  · rw [List.getElem?_append_left (by simpa using hl)] at h0t
    by_cases e : h = h0
    · subst e
      rw [List.getElem?_set_self hl] at h0t
      cases h0t
      exact ⟨id, by simp only [St.same]; rw [List.getElem?_append_left (by rw [hi.len]; exact hl)]; exact hid, ho, fun hc => by cases hc⟩
    · rw [List.getElem?_set_ne e] at h0t
      obtain ⟨id', h1, h2, h3⟩ := hi.tab h0 t0 h0t
      refine ⟨id', by simp only [St.same]; rw [List.getElem?_append_left (by rw [hi.len]; exact hl)]; exact h1, h2, fun hs h' he => ?_⟩
      simp only [St.same] at he
      rcases Nat.lt_or_ge h' st.handles.length with hl' | hl'
      · rw [List.getElem?_append_left hl'] at he; exact h3 hs h' he
      · rw [List.getElem?_append_right hl', List.getElem?_singleton] at he
        split at he
        · cases he; exact absurd (h3 hs h hid) e
        · cases he
  · rw [List.getElem?_append_right (by simpa using hl), List.getElem?_singleton] at h0t
    split at h0t
    · rename_i he
      cases h0t
      have e : h0 = ts.length := by simp at he; omega
      subst e
      exact ⟨id, by simp only [St.same]; rw [← hi.len]; simp, ho, fun hc => by cases hc⟩
    · cases h0t

theorem step_ok (hE : E.Ok) {st : St P} {ts : List (Tab n P)} (hi : Inv E st ts) (o : Op n P) (hf : o.Fits ts) : ∃ st', step E st o = some (st', (after ts o).2) ∧ Inv E st' (after ts o).1 := by
  cases o with
  | new => exact ⟨_, rfl, by rw [mk_new]; exact inv_push E hi []⟩
  | add h rows =>
    obtain ⟨t, ht, hs⟩ := hf
    obtain ⟨id, h1, h2, h3, h4⟩ := inv_table E hi ht
    simp only [step, h1, Option.map_some, after, ht, mk_add E hE]
    by_cases hr : rows = []
    · simp only [if_pos hr]
      refine ⟨_, rfl, ?_⟩
      have := inv_put E hi ht h2 hs (h4 hs) t.rows
      have e : ts.set h ⟨t.rows, t.shared⟩ = ts := by
        apply List.ext_getElem? ; intro i
        by_cases hi' : h = i
        · subst hi'; rw [List.getElem?_set_self (List.getElem?_eq_some_iff.1 ht).1, ht]
        · rw [List.getElem?_set_ne hi']
      rw [e] at this; exact this
    · simp only [if_neg hr]
      exact ⟨_, rfl, inv_put E hi ht h2 hs (h4 hs) _⟩
  | insert h pos r =>
    obtain ⟨t, ht, hs⟩ := hf
    obtain ⟨id, h1, h2, h3, h4⟩ := inv_table E hi ht
    simp only [step, h1, Option.map_some, after, ht, mk_insert E hE]
    by_cases hr : pos ≤ t.rows.length
    · simp only [if_pos hr]
      exact ⟨_, rfl, inv_put E hi ht h2 hs (h4 hs) _⟩
    · simp only [if_neg hr]
      refine ⟨_, rfl, ?_⟩
      have := inv_put E hi ht h2 hs (h4 hs) t.rows
      have e : ts.set h ⟨t.rows, t.shared⟩ = ts := by
        apply List.ext_getElem? ; intro i
        by_cases hi' : h = i
        · subst hi'; rw [List.getElem?_set_self (List.getElem?_eq_some_iff.1 ht).1, ht]
        · rw [List.getElem?_set_ne hi']
      rw [e] at this; exact this
  | append h r =>
    obtain ⟨t, ht, hs⟩ := hf
    obtain ⟨id, h1, h2, h3, h4⟩ := inv_table E hi ht
    simp only [step, h1, Option.map_some, after, ht, appendRow, mk_count E hE.types, mk_insert E hE, Nat.le_refl, if_true, List.take_length, List.drop_length]
    exact ⟨_, rfl, inv_put E hi ht h2 hs (h4 hs) _⟩
  | filter h mask bits =>
    obtain ⟨t, ht, hb⟩ := hf
    obtain ⟨id, h1, _⟩ := inv_table E hi ht
    simp only [step, h1, Option.bind_some, after, ht, mk_filter E hE t.rows mask bits hb, Option.map_some]
    exact ⟨_, rfl, inv_push E hi _⟩
  | split h mask bits =>
    obtain ⟨t, ht, hb⟩ := hf
    obtain ⟨id, h1, _⟩ := inv_table E hi ht
    simp only [step, h1, Option.bind_some, after, ht, mk_split E hE t.rows mask bits hb, Option.map_some]
    refine ⟨_, rfl, ?_⟩
    have := inv_push E (inv_push E hi (keep mask t.rows)) (keep (fun i => !mask i) t.rows)
    rw [List.append_assoc] at this
    exact this
  | head h k =>
    obtain ⟨t, ht⟩ := hf
    obtain ⟨id, h1, h2, h3, h4⟩ := inv_table E hi ht
    simp only [step, h1, Option.map_some, after, ht, mk_count E hE.types, mk_head E hE, ge_iff_le]
    by_cases hk : t.rows.length ≤ k
    · simp only [if_pos hk]; exact ⟨_, rfl, inv_same E hi ht h2 h3⟩
    · simp only [if_neg hk]; exact ⟨_, rfl, inv_push E hi _⟩
  | tail h k =>
    obtain ⟨⟨t, ht⟩, h0⟩ := hf
    obtain ⟨id, h1, h2, h3, h4⟩ := inv_table E hi ht
    simp only [step, h1, Option.map_some, after, ht, mk_count E hE.types, ge_iff_le]
    by_cases hk : t.rows.length ≤ k
    · simp only [if_pos hk]; exact ⟨_, rfl, inv_same E hi ht h2 h3⟩
    · simp only [if_neg hk, mk_tail E hE t.rows k h0 (by omega)]; exact ⟨_, rfl, inv_push E hi _⟩
  | rows h numbers =>
    obtain ⟨t, ht, hb⟩ := hf
    obtain ⟨id, h1, _⟩ := inv_table E hi ht
    simp only [step, h1, Option.bind_some, after, ht, mk_rows E hE t.rows numbers hb, Option.map_some]
    exact ⟨_, rfl, inv_push E hi _⟩
  | concat h h' =>
    obtain ⟨⟨t, ht⟩, t', ht'⟩ := hf
    obtain ⟨id, h1, _⟩ := inv_table E hi ht
    obtain ⟨id', h1', _⟩ := inv_table E hi ht'
    simp only [step, h1, h1', Option.bind_some, after, ht, ht', mk_concat E hE, Option.map_some]
    exact ⟨_, rfl, inv_push E hi _⟩

theorem run_ok (hE : E.Ok) : ∀ (os : List (Op n P)) {st : St P} {ts : List (Tab n P)}, Inv E st ts → Fit ts os →
    ∃ st', run E st os = some (st', (afterAll ts os).2) ∧ Inv E st' (afterAll ts os).1
  | [], st, ts, hi, _ => ⟨st, rfl, hi⟩
  | o :: os, st, ts, hi, hf => by
    obtain ⟨st1, h1, h2⟩ := step_ok E hE hi o hf.1
    obtain ⟨st2, h3, h4⟩ := run_ok hE os h2 hf.2
    exact ⟨st2, by simp only [run, h1, Option.bind_some, h3, Option.map_some, afterAll], h4⟩

end

/-! ## C172 -/

/-- **C172**, partial. For every program that makes tables, adds rows to tables that are not shared and makes tables from tables: every operation is defined and succeeds exactly if it should; every
table the program holds has exactly the rows it should have, whatever happened to the others; `GetRow` of any row type and number gives the object of that type in that row, and an exception if
there is no such row or no such type. Missing: adding rows to a shared table, see below; `Tail(0)`, see C59; calls of `AddRows` that fail half way, see C64. -/
theorem tables_hold_rows_partial {n : Nat} {P : Type} (E : Env n P) (hE : E.Ok) (os : List (Op n P)) (hf : Fit [] os) :
    ∃ st, run E ⟨[], []⟩ os = some (st, (afterAll [] os).2) ∧ st.handles.length = (afterAll [] os).1.length ∧
      ∀ h rows shared, (afterAll [] os).1[h]? = some ⟨rows, shared⟩ → ∃ id t, st.table h = some (id, t) ∧ count t = rows.length ∧
        (∀ (j : Fin n) (i : Nat), getRow t (E.schema j) i = match rows[i]? with
          | some r => .obj (r j)
          | none => .error) ∧
        ∀ type i, (∀ j, E.schema j ≠ type) → getRow t type i = .error := by
  obtain ⟨st, h1, h2⟩ := run_ok E hE os (st := ⟨[], []⟩) (ts := []) ⟨rfl, fun h t ht => by simp at ht⟩ hf
  refine ⟨st, h1, h2.len, fun h rows shared ht => ?_⟩
  obtain ⟨id, k1, _⟩ := inv_table E h2 ht
  exact ⟨id, _, k1, mk_count E hE.types rows, fun j i => (mk_getRow E hE rows i).1 j, fun type i => (mk_getRow E hE rows i).2 type⟩

/-- C172 is false of the code: a row appended to the table returned by `Head(k)` of a table with at most `k` rows is also in the table itself. -/
theorem head_of_all_rows_violated {n : Nat} {P : Type} (E : Env n P) (hE : E.Ok) (k : Nat) (hk : 0 < k) (r s : Row n P) :
    ∃ st t, run E ⟨[], []⟩ [.new, .append 0 r, .head 0 k, .append 1 s] = some (st, [true, true, true, true]) ∧ st.table 0 = some (0, t) ∧ count t = 2 ∧ ∀ j, getRow t (E.schema j) 1 = .obj (s j) := by
  have e1 : appendRow (mk E ([] : List (Row n P))) (part E r) = (true, mk E [r]) := by unfold appendRow; rw [mk_count E hE.types, mk_insert E hE]; rfl
  have e2 : appendRow (mk E [r]) (part E s) = (true, mk E [r, s]) := by unfold appendRow; rw [mk_count E hE.types, mk_insert E hE]; rfl
  have hc : k ≥ count (mk E [r]) := by rw [mk_count E hE.types]; exact hk
  refine ⟨⟨[mk E [r, s]], [0, 0]⟩, mk E [r, s], ?_, rfl, mk_count E hE.types _, fun j => (mk_getRow E hE [r, s] 1).1 j⟩
  simp [run, step, St.push, St.table, St.put, St.same, mk_new, e1, e2, hc]

/-! ### An instance: two row types; three rows, the last two of them, the first and third of the table, both together -/

def exEnv : Env 2 Nat := { schema := fun j => j.val, null := 0, junk := fun _ _ => 0, N := 8, Nb := 32, fresh := fun m => List.replicate ((m + 7) / 8) 0 }
theorem exEnv_ok : exEnv.Ok := ⟨by decide, fun i j h => Fin.ext h, by decide, fun m => by simp [exEnv]⟩
def exRow (a b : Nat) : Row 2 Nat := fun j => if j = 0 then a else b
def exOps : List (Op 2 Nat) := [.new, .add 0 [exRow 1 10, exRow 2 20, exRow 3 30], .tail 0 2, .rows 0 [2, 0], .concat 1 2, .append 0 (exRow 4 40), .insert 0 7 (exRow 5 50)]

theorem exOps_after : afterAll [] exOps = ([⟨[exRow 1 10, exRow 2 20, exRow 3 30, exRow 4 40], false⟩, ⟨[exRow 2 20, exRow 3 30], false⟩, ⟨[exRow 3 30, exRow 1 10], false⟩,
    ⟨[exRow 2 20, exRow 3 30, exRow 3 30, exRow 1 10], false⟩], [true, true, true, true, true, true, false]) := by simp [afterAll, after, exOps]

theorem exOps_fit : Fit [] exOps := by simp [Fit, Op.Fits, after, exOps]

example : ∃ st id t, run exEnv ⟨[], []⟩ exOps = some (st, [true, true, true, true, true, true, false]) ∧ st.table 3 = some (id, t) ∧ getRow t 1 2 = .obj 30 ∧ getRow t 0 4 = .error ∧ getRow t 7 0 = .error := by
  obtain ⟨st, h1, _, h3⟩ := tables_hold_rows_partial exEnv exEnv_ok exOps exOps_fit
  rw [exOps_after] at h1 h3
  obtain ⟨id, t, k1, _, k3, k4⟩ := h3 3 _ _ rfl
  exact ⟨st, id, t, h1, k1, k3 1 2, k3 0 4, k4 7 0 (by decide)⟩

end Verif.Tbl.History
