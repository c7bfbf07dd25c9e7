import Verif.Tbl.Rows
/-!
# The cached columns of a table: C74, C76 and the stale keys of C63

`/repo/rapidudf/table/column.cc` 31–69 (`ReserveMemory`, `SetData`, `Clear`, `Unload`), `/repo/rapidudf/table/table.h` 85–121 and 591–606 (`Set`, `LoadColumnByOffset`, `GetColumn`),
`/repo/rapidudf/table/table.cc` 111–247, 360–384 (`SetColumnSize`, `LoadColumn`, `LoadColumnBaseByOffset`), 665–681 (the key columns of `DistinctByColumns`).

One column of one table. Memory is a list of blocks of elements; sizes are in elements, not bytes. `rows` are the values of the field in the row objects, in table order. A block
owned by the column that is freed becomes unreadable.
-/
namespace Verif.Tbl.Col

/-- The state of a column and of its table. -/
structure State (V : Type) where
  /-- All memory blocks; `none` is freed. -/
  heap : List (Option (List V))
  /-- `memory_`, `memory_size_`, `own_memory_`. -/
  mem : Option Nat
  memSize : Nat
  own : Bool
  /-- `vector_`: pointer and size. -/
  data : Option Nat
  size : Nat
  /-- The field in the rows of the table. -/
  rows : List V

/-- `Column::Clear`, column.cc 60–68. -/
def clear {V : Type} (s : State V) : State V :=
  { s with heap := (match s.own, s.mem with | true, some b => s.heap.set b none | _, _ => s.heap), mem := none, memSize := 0, data := none, size := 0 }

/-- `Column::ReserveMemory`, column.cc 31–52; `junk` is the content of new memory. -/
def reserve {V : Type} (junk : V) (n : Nat) (s : State V) : State V :=
  if s.memSize < n then
    let s := clear s
    { s with heap := s.heap ++ [some (List.replicate n junk)], mem := some s.heap.length, memSize := n, data := some s.heap.length, size := 0, own := true }
  else s

/-- Writing the field of every row to the column memory, table.cc 122–180; `none` is a write outside the block. -/
def fill {V : Type} (s : State V) : Option (State V) :=
  match s.mem with
  | none => if s.rows = [] then some s else none
  | some b =>
    match s.heap[b]? with
    | some (some blk) => if s.rows.length ≤ blk.length then some { s with heap := s.heap.set b (some (s.rows ++ blk.drop s.rows.length)) } else none
    | _ => none

/-- `LoadColumn` and `SetColumnSize`, table.cc 111–183. -/
def load {V : Type} (junk : V) (s : State V) : Option (State V) :=
  match fill (reserve junk s.rows.length s) with
  | none => none
  | some s => some (if s.data = s.mem then { s with size := s.rows.length } else s)

/-- Reading `n` elements through the vector's pointer; `none` is an access outside a live block. -/
def readN {V : Type} (s : State V) (n : Nat) : Option (List V) :=
  match s.data with
  | none => if n = 0 then some [] else none
  | some b =>
    match s.heap[b]? with
    | some (some blk) => if n ≤ blk.length then some (blk.take n) else none
    | _ => none

/-- The contents of the vector. -/
def contents {V : Type} (s : State V) : Option (List V) := readN s s.size

/-- `LoadColumnBaseByOffset`, table.cc 360–384: what compiled code and `Dedup`, `GroupBy` use. -/
def readColumn {V : Type} (junk : V) (s : State V) : Option (State V) := if s.size = 0 then load junk s else some s

/-- `GetColumn`, table.h 591–606: what `Get` uses. -/
def getColumn {V : Type} (junk : V) (s : State V) : Option (State V) := if s.data = none then readColumn junk s else some s

/-- `Set(name, vector)`, table.h 85–107, without write-back: the vector is block `b` with `n` elements. The flag is the status. -/
def setColumn {V : Type} (b n : Nat) (s : State V) : Bool × State V :=
  if n ≠ s.rows.length then (false, s)
  else (true, { clear s with own := false, mem := some b, memSize := n, data := some b, size := n })

/-- `Column::Unload`, column.cc 69. -/
def unload {V : Type} (s : State V) : State V := { s with size := 0 }

/-- The functions that change the rows of a table in place and unload its columns: `AddRows`, `InsertRow`, `AppendRow`, `Distinct`. -/
def changeRows {V : Type} (rows : List V) (s : State V) : State V := unload { s with rows := rows }

/-- A fresh column of a table. -/
def init {V : Type} (heap : List (Option (List V))) (rows : List V) : State V :=
  { heap := heap, mem := none, memSize := 0, own := false, data := none, size := 0, rows := rows }

/-- The values that `DistinctByColumns` reads: as many as the table has rows, whatever the size of the loaded vector, table.cc 676–690. -/
def keyValues {V : Type} (junk : V) (s : State V) : Option (List V) :=
  match readColumn junk s with
  | none => none
  | some s => readN s s.rows.length

/-- `DoConcat` on the rows, called by `Merge` without unloading the columns, table.h 405–412. -/
def concatRows {V : Type} (more : List V) (s : State V) : State V := { s with rows := s.rows ++ more }

/-- Operations in a history without `Set`. -/
inductive Op (V : Type) where
  | change (rows : List V)
  | unload
  | read
  | get

/-- One operation. -/
def Op.run {V : Type} (junk : V) (s : State V) : Op V → Option (State V)
  | .change rows => some (changeRows rows s)
  | .unload => some (Col.unload s)
  | .read => readColumn junk s
  | .get => getColumn junk s

/-- A history. -/
def runOps {V : Type} (junk : V) (s : State V) : List (Op V) → Option (State V)
  | [] => some s
  | o :: os =>
    match o.run junk s with
    | none => none
    | some s => runOps junk s os

/-! ## Lemmas -/

/-- The invariant of histories without `Set`. -/
def Inv {V : Type} (s : State V) : Prop :=
  s.data = s.mem ∧ (s.mem = none → s.memSize = 0 ∧ s.size = 0) ∧
    (∀ b, s.mem = some b → s.own = true ∧ ∃ blk, s.heap[b]? = some (some blk) ∧ blk.length = s.memSize) ∧ (s.size ≠ 0 → contents s = some s.rows)

theorem load_ok {V : Type} (junk : V) (s : State V) (h : Inv s) : ∃ s', load junk s = some s' ∧ Inv s' ∧ contents s' = some s.rows ∧ s'.rows = s.rows := by
  obtain ⟨h1, h2, h3, h4⟩ := h
  unfold load
  by_cases hm : s.memSize < s.rows.length
  · -- new memory
    have hr : reserve junk s.rows.length s = { clear s with heap := (clear s).heap ++ [some (List.replicate s.rows.length junk)], mem := some (clear s).heap.length, memSize := s.rows.length, data := some (clear s).heap.length, size := 0, own := true } := by
      unfold reserve; rw [if_pos hm]
    rw [hr]
    have hrows : (clear s).rows = s.rows := rfl
    have hfill : fill { clear s with heap := (clear s).heap ++ [some (List.replicate s.rows.length junk)], mem := some (clear s).heap.length, memSize := s.rows.length, data := some (clear s).heap.length, size := 0, own := true } =
        some { clear s with heap := (clear s).heap ++ [some s.rows], mem := some (clear s).heap.length, memSize := s.rows.length, data := some (clear s).heap.length, size := 0, own := true } := by
      unfold fill
      simp only [List.getElem?_append_right (Nat.le_refl _), Nat.sub_self, List.getElem?_cons_zero, hrows, List.length_replicate, Nat.le_refl, if_true]
      simp [List.set_append_right, hrows]
    rw [hfill]
    simp only [if_true]
    refine ⟨_, rfl, ⟨rfl, fun hh => by simp at hh, ?_, ?_⟩, ?_, rfl⟩
    · intro b hb
      simp only [Option.some.injEq] at hb
      subst hb
      exact ⟨rfl, s.rows, by simp, rfl⟩
    · intro _
      unfold contents readN
      simp [hrows]
    · unfold contents readN
      simp [hrows]
  · have hr : reserve junk s.rows.length s = s := by unfold reserve; rw [if_neg hm]
    rw [hr]
    cases hmem : s.mem with
    | none =>
      obtain ⟨g1, g2⟩ := h2 hmem
      have hnil : s.rows = [] := List.eq_nil_of_length_eq_zero (by omega)
      have hfill : fill s = some s := by unfold fill; rw [hmem]; simp [hnil]
      rw [hfill]
      simp only [h1, if_true]
      refine ⟨_, rfl, ⟨rfl, fun _ => ⟨g1, by simp [hnil]⟩, fun b hb => h3 b hb, ?_⟩, ?_, rfl⟩
      · intro hh; simp [hnil] at hh
      · unfold contents readN
        simp [hmem, hnil]
    | some b =>
      obtain ⟨ho, blk, hb, hbl⟩ := h3 b hmem
      have hlt : b < s.heap.length := (List.getElem?_eq_some_iff.1 hb).1
      have hfill : fill s = some { s with heap := s.heap.set b (some (s.rows ++ blk.drop s.rows.length)) } := by
        unfold fill
        rw [hmem]
        simp only [hb]
        rw [if_pos (by omega)]
      rw [hfill]
      simp only [h1, if_true]
      refine ⟨_, rfl, ⟨rfl, fun hh => by simp [hmem] at hh, ?_, ?_⟩, ?_, rfl⟩
      · intro b' hb'
        simp only [hmem, Option.some.injEq] at hb'
        subst hb'
        refine ⟨ho, s.rows ++ blk.drop s.rows.length, by simp [List.getElem?_set_self hlt], ?_⟩
        simp
        omega
      · intro _
        unfold contents readN
        simp [hmem, List.getElem?_set_self hlt]
      · unfold contents readN
        simp [hmem, List.getElem?_set_self hlt]

theorem read_ok {V : Type} (junk : V) (s : State V) (h : Inv s) : ∃ s', readColumn junk s = some s' ∧ Inv s' ∧ contents s' = some s.rows ∧ s'.rows = s.rows := by
  unfold readColumn
  by_cases hz : s.size = 0
  · rw [if_pos hz]; exact load_ok junk s h
  · rw [if_neg hz]; exact ⟨s, rfl, h, h.2.2.2 hz, rfl⟩

theorem inv_change {V : Type} (rows : List V) (s : State V) (h : Inv s) : Inv (changeRows rows s) := by
  obtain ⟨h1, h2, h3, _⟩ := h
  exact ⟨h1, fun hm => ⟨(h2 hm).1, rfl⟩, h3, fun hh => absurd rfl hh⟩

theorem inv_unload {V : Type} (s : State V) (h : Inv s) : Inv (unload s) := inv_change s.rows s h

theorem run_ok {V : Type} (junk : V) (s : State V) (h : Inv s) (o : Op V) : ∃ s', o.run junk s = some s' ∧ Inv s' := by
  cases o with
  | change rows => exact ⟨_, rfl, inv_change rows s h⟩
  | unload => exact ⟨_, rfl, inv_unload s h⟩
  | read => obtain ⟨s', e, i, _⟩ := read_ok junk s h; exact ⟨s', e, i⟩
  | get =>
    by_cases hd : s.data = none
    · obtain ⟨s', e, i, _⟩ := read_ok junk s h; exact ⟨s', by show getColumn junk s = _; unfold getColumn; rw [if_pos hd]; exact e, i⟩
    · exact ⟨s, by show getColumn junk s = _; unfold getColumn; rw [if_neg hd], h⟩

theorem runOps_ok {V : Type} (junk : V) (ops : List (Op V)) (s : State V) (h : Inv s) : ∃ s', runOps junk s ops = some s' ∧ Inv s' := by
  induction ops generalizing s with
  | nil => exact ⟨s, rfl, h⟩
  | cons o os ih =>
    obtain ⟨s1, e1, i1⟩ := run_ok junk s h o
    obtain ⟨s2, e2, i2⟩ := ih s1 i1
    exact ⟨s2, by unfold runOps; rw [e1]; exact e2, i2⟩

theorem inv_init {V : Type} (heap : List (Option (List V))) (rows : List V) : Inv (init heap rows) :=
  ⟨rfl, fun _ => ⟨rfl, rfl⟩, fun b hb => (by cases hb), fun hh => absurd rfl hh⟩

/-! ## C74 -/

/-- What remains true of C74: after any history of row changes, unloads and reads, a column read by compiled code (and by `Dedup`, `Distinct`, `GroupBy`) has the field of the current
rows, in order. -/
theorem column_current_partial {V : Type} (junk : V) (heap : List (Option (List V))) (rows : List V) (ops : List (Op V)) :
    ∃ s s', runOps junk (init heap rows) ops = some s ∧ readColumn junk s = some s' ∧ contents s' = some s.rows := by
  obtain ⟨s, e, i⟩ := runOps_ok junk ops (init heap rows) (inv_init heap rows)
  obtain ⟨s', e', _, c, _⟩ := read_ok junk s i
  exact ⟨s, s', e, e', c⟩

/-- What remains true of `Get`: the first use of a column in the life of a table gives the current rows. -/
theorem get_column_first_partial {V : Type} (junk : V) (heap : List (Option (List V))) (rows : List V) :
    ∃ s, getColumn junk (init heap rows) = some s ∧ contents s = some rows := by
  obtain ⟨s', e', _, c, _⟩ := read_ok junk (init heap rows) (inv_init heap rows)
  exact ⟨s', by unfold getColumn; rw [if_pos (show (init heap rows).data = none from rfl)]; exact e', c⟩

/-- C74 is false of `Get`: once a column was loaded, `Get` after any change of the rows returns an empty column. -/
theorem get_column_stale_violated {V : Type} (junk : V) (heap : List (Option (List V))) (rows rows' : List V) (hne : rows ≠ []) :
    ∃ s s', getColumn junk (init heap rows) = some s ∧ getColumn junk (changeRows rows' s) = some s' ∧ contents s' = some [] ∧ s'.rows = rows' := by
  obtain ⟨s, e, i, c, hr⟩ := read_ok junk (init heap rows) (inv_init heap rows)
  have hd : s.data ≠ none := by
    intro hd
    unfold contents readN at c
    rw [hd] at c
    simp only at c
    split at c
    · simp only [Option.some.injEq] at c; exact hne c.symm
    · cases c
  refine ⟨s, changeRows rows' s, by unfold getColumn; rw [if_pos (show (init heap rows).data = none from rfl)]; exact e, by unfold getColumn; rw [if_neg]; exact hd, ?_, rfl⟩
  have i' := inv_change rows' s i
  cases hm : s.data with
  | none => exact absurd hm hd
  | some b =>
    obtain ⟨_, blk, hb, _⟩ := i.2.2.1 b (by rw [← i.1]; exact hm)
    unfold contents readN changeRows unload
    simp [hm, hb]

/-- A vector of another length cannot be set as a column. -/
theorem set_column_size {V : Type} (b n : Nat) (s : State V) (h : n ≠ s.rows.length) : setColumn b n s = (false, s) := by unfold setColumn; rw [if_pos h]

/-- A vector that is set as a column is what is read until the rows change. -/
theorem set_column_read {V : Type} (junk : V) (b : Nat) (s : State V) (u : List V) (hb : s.heap[b]? = some (some u)) (hn : u.length = s.rows.length) (hne : u ≠ [])
    (hown : s.own = true → s.mem ≠ some b) :
    (setColumn b u.length s).1 = true ∧ ∃ s', readColumn junk (setColumn b u.length s).2 = some s' ∧ contents s' = some u := by
  have h1 : setColumn b u.length s = (true, { clear s with own := false, mem := some b, memSize := u.length, data := some b, size := u.length }) := by
    unfold setColumn; rw [if_neg (by omega)]
  rw [h1]
  refine ⟨rfl, _, by unfold readColumn; rw [if_neg]; intro h0; exact hne (List.eq_nil_of_length_eq_zero h0), ?_⟩
  have hh : (clear s).heap[b]? = some (some u) := by
    unfold clear
    simp only
    cases ho : s.own with
    | false => simpa [ho] using hb
    | true =>
      cases hm : s.mem with
      | none => simpa [ho, hm] using hb
      | some m =>
        simp only
        rw [List.getElem?_set_ne]
        · exact hb
        · intro e; subst e; exact hown ho hm
  unfold contents readN
  simp [hh]

/-- Setting a column and unloading it again does not leave the caller's vector alone: the next read writes the rows' values into it. -/
theorem set_column_overwritten_violated {V : Type} (junk : V) (rows u : List V) (hn : u.length = rows.length) (hd : u ≠ rows) :
    ∃ s', readColumn junk (unload (setColumn 0 u.length (init [some u] rows)).2) = some s' ∧ s'.heap[0]? = some (some rows) ∧ some (some u) ≠ s'.heap[0]? := by
  have h1 : unload (setColumn 0 u.length (init [some u] rows)).2 = { heap := [some u], mem := some 0, memSize := u.length, own := false, data := some 0, size := 0, rows := rows } := by
    unfold setColumn; rw [if_neg (by simpa [init] using hn)]; rfl
  rw [h1]
  have h2 : readColumn junk { heap := [some u], mem := some 0, memSize := u.length, own := false, data := some 0, size := 0, rows := rows } =
      some { heap := [some rows], mem := some 0, memSize := u.length, own := false, data := some 0, size := rows.length, rows := rows } := by
    unfold readColumn load reserve
    simp only [if_true]
    rw [if_neg (by omega)]
    unfold fill
    simp only [List.getElem?_cons_zero]
    rw [if_pos (by omega)]
    simp [← hn]
  refine ⟨_, h2, rfl, ?_⟩
  simp [hd]

/-! ## C63, stale keys -/

/-- C63 is false of `Merge` if a key column was read before: the rows of the second table are looked up past the end of the loaded column. -/
theorem merge_loaded_column_violated {V : Type} (junk : V) (heap : List (Option (List V))) (rows more : List V) (h1 : rows ≠ []) (h2 : more ≠ []) :
    ∃ s, readColumn junk (init heap rows) = some s ∧ keyValues junk (concatRows more s) = none := by
  have hlt : 0 < rows.length := List.length_pos_iff.2 h1
  have hmt : 0 < more.length := List.length_pos_iff.2 h2
  have hr : readColumn junk (init heap rows) =
      some { heap := heap ++ [some rows], mem := some heap.length, memSize := rows.length, own := true, data := some heap.length, size := rows.length, rows := rows } := by
    unfold readColumn load reserve
    simp only [init, if_true, hlt]
    unfold fill
    simp [clear, List.set_append_right]
  refine ⟨_, hr, ?_⟩
  unfold keyValues readColumn concatRows
  simp only
  rw [if_neg (by omega)]
  unfold readN
  simp
  omega

/-- If no key column was loaded, `Merge` uses the keys of all rows. -/
theorem merge_unloaded_column_partial {V : Type} (junk : V) (heap : List (Option (List V))) (rows more : List V) :
    keyValues junk (concatRows more (init heap rows)) = some (rows ++ more) := by
  have hi : Inv (concatRows more (init heap rows)) := inv_init heap (rows ++ more)
  obtain ⟨s', e, i, c, hr⟩ := read_ok junk _ hi
  unfold keyValues
  rw [e]
  simp only
  rw [hr]
  -- the size of the loaded vector is the number of rows
  have hc : (concatRows more (init heap rows)).rows = rows ++ more := rfl
  rw [hc] at c ⊢
  unfold contents at c
  have hsz : s'.size = (rows ++ more).length := by
    unfold readN at c
    cases hd : s'.data with
    | none =>
      rw [hd] at c
      simp only at c
      split at c
      · rename_i h0; simp only [Option.some.injEq] at c; rw [h0, ← c]; rfl
      · cases c
    | some b =>
      rw [hd] at c
      simp only at c
      cases hb : s'.heap[b]? with
      | none => rw [hb] at c; cases c
      | some o =>
        cases o with
        | none => rw [hb] at c; cases c
        | some blk =>
          rw [hb] at c
          simp only at c
          split at c
          · rename_i hle
            simp only [Option.some.injEq] at c
            rw [← c, List.length_take]
            omega
          · cases c
  rw [← hsz]
  exact c

/-! ## C76 -/

/-- Sorting a loaded column in place, which is what ordering by that column does to its key vector (`Verif.Tbl.Order`). -/
def sortInPlace {V : Type} (sort : List V → List V) (s : State V) : State V :=
  match s.data with
  | none => s
  | some b =>
    match s.heap[b]? with
    | some (some blk) => { s with heap := s.heap.set b (some (sort (blk.take s.size) ++ blk.drop s.size)) }
    | _ => s

/-- C76 is false of the code: ordering by a loaded column sorts the column of the *original* table, whose rows are not reordered; reading the column afterwards does not give the rows'
values. -/
theorem order_by_changes_source_violated {V : Type} (junk : V) (heap : List (Option (List V))) (rows : List V) (sort : List V → List V)
    (hs : sort rows ≠ rows) (hl : (sort rows).length = rows.length) (hne : rows ≠ []) :
    ∃ s s', readColumn junk (init heap rows) = some s ∧ readColumn junk (sortInPlace sort s) = some s' ∧ contents s' = some (sort rows) ∧ s'.rows = rows ∧
      contents s' ≠ some s'.rows := by
  have hlt : 0 < rows.length := List.length_pos_iff.2 hne
  have hr : readColumn junk (init heap rows) =
      some { heap := heap ++ [some rows], mem := some heap.length, memSize := rows.length, own := true, data := some heap.length, size := rows.length, rows := rows } := by
    unfold readColumn load reserve
    simp only [init, if_true, hlt]
    unfold fill
    simp [clear, List.set_append_right]
  have hsort : sortInPlace sort { heap := heap ++ [some rows], mem := some heap.length, memSize := rows.length, own := true, data := some heap.length, size := rows.length, rows := rows } =
      { heap := heap ++ [some (sort rows)], mem := some heap.length, memSize := rows.length, own := true, data := some heap.length, size := rows.length, rows := rows } := by
    unfold sortInPlace
    simp [List.set_append_right]
  have hcont : contents { heap := heap ++ [some (sort rows)], mem := some heap.length, memSize := rows.length, own := true, data := some heap.length, size := rows.length, rows := rows } = some (sort rows) := by
    unfold contents readN
    simp [hl]
    exact List.take_of_length_le (by omega)
  refine ⟨_, _, hr, by rw [hsort]; unfold readColumn; rw [if_neg (by simpa using hne)], hcont, rfl, ?_⟩
  rw [hcont]
  simpa using hs

example : (runOps 0 (init [] [1, 2]) [.read, .change [1, 2, 3], .read, .change [7], .read]).bind contents = some [7] := by decide

end Verif.Tbl.Col
