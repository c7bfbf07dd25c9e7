/-!
# Table schemas: C122, C123, C124, C125


`/repo/rapidudf/table/table_schema.cc` 63–80 (`AddColumn`), 110–217, 219–365, 367–496 (`AddColumns` for protobuf, flatbuffers and structs: one loop with different tables of supported field types),
`/repo/rapidudf/types/dyn_object_schema.cc` 102–122 (`Add`), `/repo/rapidudf/table/table.cc` 64–74, 97–110, 349–384 (the columns of a table).

The fields of a row type are a list with, for each field, what the switch on its type decides. A `RowSchema` object is known by its address (a number) and by what it describes
(`R`: the descriptor, the flatbuffers type or the struct type, which is what `==` compares, `row.h` 46–48). Simplified: offsets do not wrap at 2^32.
-/
namespace Verif.Tbl.Schema

/-- What the loop does with a field of the row type. -/
inductive Kind (D : Type) where
  /-- a column of this type -/
  | column (d : D)
  /-- member functions with further arguments are passed over (`table_schema.cc` 383–388) -/
  | passed
  /-- no column can be made of the field -/
  | unsupported

/-- A field of a row type: name and kind. -/
structure Fld (D : Type) where
  name : String
  kind : Kind D

/-- `TableColumnOptions` (`table_schema.h` 39–46); the sets are given by the predicate `IsAllowed` (`table_schema.cc` 28–36, see `Func.Registry`). -/
structure Opts where
  allowed : String → Bool
  prefix_ : String
  ignoreUnsupported : Bool

/-- `ColumnField` (`column.h` 32–38): `rowAddr` is the pointer to the `RowSchema`. -/
structure Col (D : Type) where
  name : String
  dtype : D
  offset : Nat
  rowAddr : Nat
  fieldIdx : Nat

/-- A `TableSchema`. `fields` is the map `fields_` of the base class from names to offsets, `colBuf` and `colCap` the buffer and capacity of the vector `columns_`,
`rows` the owned `RowSchema` objects, `index` is `row_schema_index_`, the newest entry first. `nextAddr` is the address of the next object. -/
structure Sch (D R : Type) where
  fields : List (String × Nat) := []
  columns : List (Col D) := []
  colCap : Nat := 0
  colBuf : Nat := 0
  rows : List (Nat × R) := []
  index : List (Nat × Nat) := []
  nextAddr : Nat := 0
  allocated : Nat

/-- `sizeof(VectorBase)`, and `ByteSize()` of every column type (`dtype.cc` 361–369). -/
def vectorSize : Nat := 16

/-- `columns_.emplace_back`: a full buffer is replaced by a larger one. -/
def pushColumn {D R : Type} (s : Sch D R) (c : Col D) : Sch D R :=
  if s.columns.length = s.colCap then { s with columns := s.columns ++ [c], colCap := 2 * s.colCap + 1, colBuf := s.colBuf + 1 }
  else { s with columns := s.columns ++ [c] }

/-- `AddColumn` (`table_schema.cc` 63–80) with `Add` (`dyn_object_schema.cc` 102–122). -/
def addColumn {D R : Type} (s : Sch D R) (name : String) (d : D) (rowAddr fieldIdx : Nat) : Bool × Sch D R :=
  if s.fields.any (fun f => f.1 == name) then (false, s)
  else
    let c : Col D := { name := name, dtype := d, offset := s.allocated, rowAddr := rowAddr, fieldIdx := fieldIdx }
    (true, pushColumn { s with fields := (name, s.allocated) :: s.fields, allocated := s.allocated + vectorSize } c)

/-- The name of a column. -/
def columnName (o : Opts) (n : String) : String := if o.prefix_ = "" then n else o.prefix_ ++ n

/-- The loop of `AddColumns` (`table_schema.cc` 117–210, 224–358, 374–488), from field `i` on: the status, `valid_column`, the schema. -/
def addLoop {D R : Type} (o : Opts) (rowAddr : Nat) : Nat → List (Fld D) → Nat → Sch D R → Bool × Nat × Sch D R
  | _, [], valid, s => (true, valid, s)
  | i, f :: fs, valid, s =>
    if o.allowed f.name = false then addLoop o rowAddr (i + 1) fs valid s
    else
      match f.kind with
      | .passed => addLoop o rowAddr (i + 1) fs valid s
      | .unsupported => if o.ignoreUnsupported then addLoop o rowAddr (i + 1) fs valid s else (false, valid, s)
      | .column d =>
        let r := addColumn s (columnName o f.name) d rowAddr i
        if r.1 = false then (false, valid, r.2) else addLoop o rowAddr (i + 1) fs (valid + 1) r.2

/-- `AddColumns`: the `RowSchema` is kept only if everything went well (lines 214–216, 362–364, 492–494), otherwise its owner `schema` frees it. -/
def addColumns {D R : Type} (s : Sch D R) (tid : Nat) (ty : R) (fields : List (Fld D)) (o : Opts) : Bool × Sch D R :=
  let addr := s.nextAddr
  let r := addLoop o addr 0 fields 0 { s with nextAddr := s.nextAddr + 1 }
  if r.1 = false then (false, r.2.2)
  else if r.2.1 = 0 then (false, r.2.2)
  else (true, { r.2.2 with rows := r.2.2.rows ++ [(addr, ty)], index := (tid, addr) :: r.2.2.index })

/-- One call. -/
structure Call (D R : Type) where
  tid : Nat
  ty : R
  fields : List (Fld D)
  opts : Opts

/-- A new schema; `header` is `align_to(sizeof(Table), 16)`. -/
def new {D R : Type} (header : Nat) : Sch D R := { allocated := header }

/-- The schema after a history of calls, whether they succeed or not. -/
def run {D R : Type} (header : Nat) : List (Call D R) → Sch D R
  | [] => new header
  | c :: cs => (addColumns (run header cs) c.tid c.ty c.fields c.opts).2

/-- `GetIdxByOffset` (`table.cc` 97–101). -/
def idxByOffset (header offset : Nat) : Nat := (offset - header) / vectorSize

/-- How `Get` and `GetColumn` find a column by name (`table.cc` 102–109, 360–372): the field table gives the offset, the offset the index. -/
def columnByName {D R : Type} (header : Nat) (s : Sch D R) (name : String) : Option (Col D) :=
  match s.fields.lookup name with
  | none => none
  | some off => s.columns[idxByOffset header off]?

/-- `GetRowsBySchema` (`table.cc` 349–358): the index of the first set of rows whose `RowSchema` is equal. The schema of the column is read through its pointer: `none` if it
has been freed. A table has one set of rows for each entry of `rows` (`table.cc` 65–67). -/
def rowSetOf {D R : Type} [BEq R] (s : Sch D R) (c : Col D) : Option (Option Nat) :=
  match s.rows.lookup c.rowAddr with
  | none => none
  | some ty => some (s.rows.findIdx? (fun e => e.2 == ty))

/-! ## Specification -/

/-- The fields of a row type that should become columns, with their places. -/
def wanted {D : Type} (o : Opts) : Nat → List (Fld D) → List (String × D × Nat)
  | _, [] => []
  | i, f :: fs =>
    match o.allowed f.name, f.kind with
    | true, .column d => ((if o.prefix_ = "" then f.name else o.prefix_ ++ f.name), d, i) :: wanted o (i + 1) fs
    | _, _ => wanted o (i + 1) fs

/-- An allowed field can not become a column, and that is not to be ignored. -/
def Refused {D : Type} (o : Opts) (fs : List (Fld D)) : Prop :=
  o.ignoreUnsupported = false ∧ ∃ f ∈ fs, o.allowed f.name = true ∧ (match f.kind with | .unsupported => True | _ => False)

/-- Name, type and place of a column. -/
def Col.view {D : Type} (c : Col D) : String × D × Nat := (c.name, c.dtype, c.fieldIdx)

/-! ## Lemmas -/

theorem pushColumn_columns {D R : Type} (s : Sch D R) (c : Col D) : (pushColumn s c).columns = s.columns ++ [c] := by
  unfold pushColumn; split <;> rfl
theorem pushColumn_fields {D R : Type} (s : Sch D R) (c : Col D) : (pushColumn s c).fields = s.fields := by
  unfold pushColumn; split <;> rfl
theorem pushColumn_allocated {D R : Type} (s : Sch D R) (c : Col D) : (pushColumn s c).allocated = s.allocated := by
  unfold pushColumn; split <;> rfl
theorem pushColumn_rows {D R : Type} (s : Sch D R) (c : Col D) : (pushColumn s c).rows = s.rows := by
  unfold pushColumn; split <;> rfl
theorem pushColumn_index {D R : Type} (s : Sch D R) (c : Col D) : (pushColumn s c).index = s.index := by
  unfold pushColumn; split <;> rfl
theorem pushColumn_nextAddr {D R : Type} (s : Sch D R) (c : Col D) : (pushColumn s c).nextAddr = s.nextAddr := by
  unfold pushColumn; split <;> rfl

/-- The column added by a successful `AddColumn`. -/
def newCol {D R : Type} (s : Sch D R) (name : String) (d : D) (rowAddr fieldIdx : Nat) : Col D :=
  { name := name, dtype := d, offset := s.allocated, rowAddr := rowAddr, fieldIdx := fieldIdx }

theorem addColumn_false {D R : Type} {s : Sch D R} {name : String} {d : D} {a i : Nat} (h : (addColumn s name d a i).1 = false) :
    (addColumn s name d a i).2 = s ∧ name ∈ s.fields.map (·.1) := by
  unfold addColumn at *
  split
  · rename_i hd
    refine ⟨rfl, ?_⟩
    simp only [List.any_eq_true, beq_iff_eq] at hd
    obtain ⟨f, hf, he⟩ := hd
    exact List.mem_map.mpr ⟨f, hf, he⟩
  · rename_i hd
    rw [if_neg hd] at h
    cases h

theorem addColumn_true {D R : Type} {s : Sch D R} {name : String} {d : D} {a i : Nat} (h : ¬ (addColumn s name d a i).1 = false) :
    name ∉ s.fields.map (·.1) ∧ (addColumn s name d a i).2 =
      pushColumn { s with fields := (name, s.allocated) :: s.fields, allocated := s.allocated + vectorSize } (newCol s name d a i) := by
  unfold addColumn at *
  split
  · rename_i hd
    rw [if_pos hd] at h
    exact absurd rfl h
  · rename_i hd
    refine ⟨?_, rfl⟩
    intro hm
    obtain ⟨f, hf, he⟩ := List.mem_map.mp hm
    exact hd (List.any_eq_true.mpr ⟨f, hf, by simpa using he⟩)

/-- What every history keeps: names, offsets and columns correspond. -/
structure Inv {D R : Type} (header : Nat) (s : Sch D R) : Prop where
  names : s.fields.map (·.1) = (s.columns.map (·.name)).reverse
  offs : s.fields.map (·.2) = (s.columns.map (·.offset)).reverse
  nodup : (s.columns.map (·.name)).Nodup
  place : ∀ (k : Nat) (c : Col D), s.columns[k]? = some c → c.offset = header + k * vectorSize
  alloc : s.allocated = header + s.columns.length * vectorSize

theorem inv_add {D R : Type} {header : Nat} {s : Sch D R} (h : Inv header s) (name : String) (d : D) (a i : Nat) :
    Inv header (addColumn s name d a i).2 := by
  by_cases hf : (addColumn s name d a i).1 = false
  · rw [(addColumn_false hf).1]; exact h
  · obtain ⟨hn, he⟩ := addColumn_true hf
    rw [he]
    have hn' : name ∉ s.columns.map (·.name) := by rw [h.names] at hn; simpa using hn
    constructor
    · rw [pushColumn_fields, pushColumn_columns]
      simp [h.names, newCol]
    · rw [pushColumn_fields, pushColumn_columns]
      simp [h.offs, newCol]
    · rw [pushColumn_columns]
      simp only [List.map_append, List.map_cons, List.map_nil, newCol]
      rw [List.nodup_append]
      refine ⟨h.nodup, by simp, ?_⟩
      intro x hx y hy hxy
      simp only [List.mem_singleton] at hy
      subst hy hxy
      exact hn' hx
    · rw [pushColumn_columns]
      intro k c hc
      rw [List.getElem?_append] at hc
      split at hc
      · exact h.place k c hc
      · rename_i hk
        rw [List.getElem?_singleton] at hc
        split at hc
        · injection hc with hc
          subst hc
          have : k = s.columns.length := by dsimp only at *; omega
          subst this
          exact h.alloc
        · cases hc
    · rw [pushColumn_columns, pushColumn_allocated]
      simp only [List.length_append, List.length_cons, List.length_nil]
      rw [h.alloc, Nat.zero_add, Nat.add_mul, Nat.one_mul, Nat.add_assoc]

theorem inv_loop {D R : Type} {header : Nat} (o : Opts) (a : Nat) : ∀ (fs : List (Fld D)) (i v : Nat) (s : Sch D R), Inv header s → Inv header (addLoop o a i fs v s).2.2
  | [], _, _, _, h => h
  | f :: fs, i, v, s, h => by
    simp only [addLoop]
    split
    · exact inv_loop o a fs _ _ _ h
    · split
      · exact inv_loop o a fs _ _ _ h
      · split
        · exact inv_loop o a fs _ _ _ h
        · exact h
      · split
        · exact inv_add h _ _ _ _
        · exact inv_loop o a fs _ _ _ (inv_add h _ _ _ _)

theorem inv_addColumns {D R : Type} {header : Nat} {s : Sch D R} (h : Inv header s) (tid : Nat) (ty : R) (fs : List (Fld D)) (o : Opts) :
    Inv header (addColumns s tid ty fs o).2 := by
  have h0 : Inv header { s with nextAddr := s.nextAddr + 1 } := ⟨h.names, h.offs, h.nodup, h.place, h.alloc⟩
  have h1 := inv_loop o s.nextAddr fs 0 0 _ h0
  unfold addColumns
  dsimp only
  split
  · exact h1
  · split
    · exact h1
    · exact ⟨h1.names, h1.offs, h1.nodup, h1.place, h1.alloc⟩

theorem inv_run {D R : Type} (header : Nat) : ∀ cs : List (Call D R), Inv header (run header cs)
  | [] => ⟨rfl, rfl, List.nodup_nil, fun k c h => by simp [run, new] at h, by simp [run, new]⟩
  | c :: cs => inv_addColumns (inv_run header cs) _ _ _ _

/-- What a loop leaves: some of the wanted columns were appended, all if it succeeded. -/
theorem loop_spec {D R : Type} (o : Opts) (a : Nat) : ∀ (fs : List (Fld D)) (i v : Nat) (s : Sch D R),
    ∃ new : List (Col D), (addLoop o a i fs v s).2.2.columns = s.columns ++ new ∧ (∀ c ∈ new, c.rowAddr = a) ∧
      (addLoop o a i fs v s).2.2.rows = s.rows ∧ (addLoop o a i fs v s).2.2.index = s.index ∧ (addLoop o a i fs v s).2.2.nextAddr = s.nextAddr ∧
      (addLoop o a i fs v s).2.1 = v + new.length ∧ (new = [] → (addLoop o a i fs v s).2.2 = s) ∧
      ((addLoop o a i fs v s).1 = true → new.map Col.view = wanted o i fs ∧ ¬ Refused o fs) ∧
      (∃ rest, wanted o i fs = new.map Col.view ++ rest)
  | [], i, v, s => ⟨[], by simp [addLoop, wanted, Refused]⟩
  | f :: fs, i, v, s => by
    simp only [addLoop]
    have skip : ∀ (hw : wanted o i (f :: fs) = wanted o (i + 1) fs) (hr : Refused o (f :: fs) → Refused o fs),
        ∃ new : List (Col D), (addLoop o a (i + 1) fs v s).2.2.columns = s.columns ++ new ∧ (∀ c ∈ new, c.rowAddr = a) ∧
          (addLoop o a (i + 1) fs v s).2.2.rows = s.rows ∧ (addLoop o a (i + 1) fs v s).2.2.index = s.index ∧
          (addLoop o a (i + 1) fs v s).2.2.nextAddr = s.nextAddr ∧
          (addLoop o a (i + 1) fs v s).2.1 = v + new.length ∧ (new = [] → (addLoop o a (i + 1) fs v s).2.2 = s) ∧
          ((addLoop o a (i + 1) fs v s).1 = true → new.map Col.view = wanted o i (f :: fs) ∧ ¬ Refused o (f :: fs)) ∧
          (∃ rest, wanted o i (f :: fs) = new.map Col.view ++ rest) := by
      intro hw hr
      obtain ⟨new, h1, h2, h3, h4, h5, h6, h7, h8, h9⟩ := loop_spec o a fs (i + 1) v s
      exact ⟨new, h1, h2, h3, h4, h5, h6, h7, fun h => ⟨by rw [hw]; exact (h8 h).1, fun hh => (h8 h).2 (hr hh)⟩, by rw [hw]; exact h9⟩
    split
    · rename_i ha
      refine skip (by simp [wanted, ha]) ?_
      rintro ⟨h1, g, hg, h2, h3⟩
      rcases List.mem_cons.mp hg with rfl | hg
      · rw [ha] at h2; cases h2
      · exact ⟨h1, g, hg, h2, h3⟩
    · rename_i ha
      have ha : o.allowed f.name = true := by simpa using ha
      split
      · rename_i hk
        refine skip (by simp [wanted, ha, hk]) ?_
        rintro ⟨h1, g, hg, h2, h3⟩
        rcases List.mem_cons.mp hg with rfl | hg
        · rw [hk] at h3; exact absurd h3 (by simp)
        · exact ⟨h1, g, hg, h2, h3⟩
      · rename_i hk
        split
        · rename_i hi
          refine skip (by simp [wanted, ha, hk]) ?_
          rintro ⟨h1, _⟩
          rw [hi] at h1; cases h1
        · exact ⟨[], by simp, by simp, rfl, rfl, rfl, rfl, fun _ => rfl, (fun h => by cases h), ⟨_, rfl⟩⟩
      · rename_i d hk
        have hw : wanted o i (f :: fs) = (columnName o f.name, d, i) :: wanted o (i + 1) fs := by
          simp only [wanted, ha, hk, columnName]
        split
        · rename_i hf
          rw [(addColumn_false hf).1]
          exact ⟨[], by simp, by simp, rfl, rfl, rfl, rfl, fun _ => rfl, (fun h => by cases h), ⟨_, rfl⟩⟩
        · rename_i hf
          obtain ⟨_, he⟩ := addColumn_true hf
          obtain ⟨new, h1, h2, h3, h4, h5, h6, _, h8, rest, h9⟩ := loop_spec o a fs (i + 1) (v + 1) (addColumn s (columnName o f.name) d a i).2
          refine ⟨newCol s (columnName o f.name) d a i :: new, ?_, ?_, ?_, ?_, ?_, ?_, ?_, ?_, ?_⟩
          · rw [h1, he, pushColumn_columns]; simp
          · intro c hc
            rcases List.mem_cons.mp hc with rfl | hc
            · rfl
            · exact h2 c hc
          · rw [h3, he, pushColumn_rows]
          · rw [h4, he, pushColumn_index]
          · rw [h5, he, pushColumn_nextAddr]
          · rw [h6, List.length_cons]; omega
          · intro h; cases h
          · intro h
            refine ⟨by rw [hw, List.map_cons, (h8 h).1]; rfl, ?_⟩
            rintro ⟨g1, g, hg, g2, g3⟩
            rcases List.mem_cons.mp hg with rfl | hg
            · rw [hk] at g3; exact absurd g3 (by simp)
            · exact (h8 h).2 ⟨g1, g, hg, g2, g3⟩
          · exact ⟨rest, by rw [hw, h9]; rfl⟩

/-! ## C122 -/

/-- **C122** (partial: successful calls, and failed ones that have not added a column; the full claim is refuted by `add_columns_failure_violated`). A successful `AddColumns`
appends exactly the wanted fields, in the order of their declaration, as columns of a new set of rows, which from now on is found by the row type; nothing unsupported was
asked for. A failed call that has not come to a first column leaves columns and names as they were. -/
theorem add_columns_partial {D R : Type} (s : Sch D R) (tid : Nat) (ty : R) (fs : List (Fld D)) (o : Opts) :
    ((addColumns s tid ty fs o).1 = true →
      ∃ new : List (Col D), (addColumns s tid ty fs o).2.columns = s.columns ++ new ∧ new.map Col.view = wanted o 0 fs ∧ new ≠ [] ∧ ¬ Refused o fs ∧
        (addColumns s tid ty fs o).2.rows = s.rows ++ [(s.nextAddr, ty)] ∧ (∀ c ∈ new, c.rowAddr = s.nextAddr) ∧
        (addColumns s tid ty fs o).2.index.lookup tid = some s.nextAddr) ∧
    ((addColumns s tid ty fs o).1 = false → (addColumns s tid ty fs o).2.columns = s.columns →
      (addColumns s tid ty fs o).2 = { s with nextAddr := s.nextAddr + 1 }) := by
  obtain ⟨new, h1, h2, h3, h4, h5, h6, h7, h8, h9⟩ := loop_spec o s.nextAddr fs 0 0 { s with nextAddr := s.nextAddr + 1 }
  have nilOf : ∀ l : List (Col D), s.columns ++ new = s.columns → new = [] := by
    intro _ h
    have := congrArg List.length h
    simp only [List.length_append] at this
    exact List.eq_nil_of_length_eq_zero (by omega)
  unfold addColumns
  dsimp only
  split
  · rename_i hf
    refine ⟨(fun h => by cases h), fun _ hc => ?_⟩
    dsimp only at hc
    rw [h1] at hc
    exact h7 (nilOf [] hc)
  · rename_i hf
    split
    · rename_i hv
      refine ⟨(fun h => by cases h), fun _ hc => ?_⟩
      dsimp only at hc
      rw [h1] at hc
      exact h7 (nilOf [] hc)
    · rename_i hv
      refine ⟨fun _ => ?_, fun h => by cases h⟩
      have ht : (addLoop o s.nextAddr 0 fs 0 { s with nextAddr := s.nextAddr + 1 }).1 = true := by simpa using hf
      refine ⟨new, h1, (h8 ht).1, ?_, (h8 ht).2, ?_, h2, ?_⟩
      · intro hn; rw [h6, hn] at hv; simp at hv
      · dsimp only; rw [h3]
      · simp

/-- Addresses of `RowSchema` objects are not used twice. -/
def Fresh {D R : Type} (s : Sch D R) : Prop := ∀ e ∈ s.rows, e.1 < s.nextAddr

theorem fresh_run {D R : Type} (header : Nat) : ∀ cs : List (Call D R), Fresh (run header cs)
  | [] => fun e he => by simp [run, new] at he
  | c :: cs => by
    have ih := fresh_run header cs
    obtain ⟨new, _, _, h3, _, h5, _⟩ := loop_spec c.opts (run header cs).nextAddr c.fields 0 0 { run header cs with nextAddr := (run header cs).nextAddr + 1 }
    have hlt : ∀ e ∈ (run header cs).rows, e.1 < (run header cs).nextAddr + 1 := fun e he => Nat.lt_succ_of_lt (ih e he)
    unfold Fresh
    simp only [run, addColumns]
    split
    · dsimp only; rw [h3, h5]; exact hlt
    · split
      · dsimp only; rw [h3, h5]; exact hlt
      · dsimp only; rw [h3, h5]
        intro e he
        rcases List.mem_append.mp he with he | he
        · exact hlt e he
        · simp only [List.mem_singleton] at he
          subst he
          exact Nat.lt_succ_self _

/-- **C122, negation of the full claim.** After any history, a failing call that has added columns leaves them in the schema, and each of them points to a row schema that has been freed:
reading the column of a table is undefined. -/
theorem add_columns_failure_violated {D R : Type} [BEq R] (header : Nat) (cs : List (Call D R)) (c : Call D R)
    (hf : (addColumns (run header cs) c.tid c.ty c.fields c.opts).1 = false)
    (hc : (run header (c :: cs)).columns ≠ (run header cs).columns) :
    ∃ col ∈ (run header (c :: cs)).columns, col ∉ (run header cs).columns ∧ rowSetOf (run header (c :: cs)) col = none := by
  have hinv := inv_run header (c :: cs)
  have hfr := fresh_run header cs
  obtain ⟨new, h1, h2, h3, h4, h5, h6, h7, h8, h9⟩ :=
    loop_spec c.opts (run header cs).nextAddr c.fields 0 0 { run header cs with nextAddr := (run header cs).nextAddr + 1 }
  have he : (run header (c :: cs)).columns = (run header cs).columns ++ new ∧ (run header (c :: cs)).rows = (run header cs).rows := by
    simp only [run]
    unfold addColumns at *
    dsimp only at *
    split
    · exact ⟨h1, h3⟩
    · rename_i h10
      rw [if_neg h10] at hf
      split
      · exact ⟨h1, h3⟩
      · rename_i h11
        rw [if_neg h11] at hf
        cases hf
  obtain ⟨e1, e2⟩ := he
  cases new with
  | nil => rw [e1] at hc; simp at hc
  | cons col new =>
    refine ⟨col, by rw [e1]; simp, ?_, ?_⟩
    · intro hm
      have hn := hinv.nodup
      rw [e1] at hn
      simp only [List.map_append, List.map_cons] at hn
      rw [List.nodup_append] at hn
      exact hn.2.2 col.name (List.mem_map.mpr ⟨col, hm, rfl⟩) col.name (by simp) rfl
    · unfold rowSetOf
      have : (run header (c :: cs)).rows.lookup col.rowAddr = none := by
        rw [e2, List.lookup_eq_none_iff]
        intro p hp
        have := hfr p hp
        rw [h2 col (by simp)]
        simp only [bne_iff_ne, ne_eq]
        omega
      rw [this]

/-- The second of two fields is not supported. -/
example : let c : Call String Nat := ⟨0, 7, [⟨"a", .column "i32"⟩, ⟨"b", .unsupported⟩], ⟨fun _ => true, "", false⟩⟩
    (addColumns (run 64 []) c.tid c.ty c.fields c.opts).1 = false ∧ (run 64 [c]).columns.length = 1 := by
  simp [run, new, addColumns, addLoop, addColumn, columnName, pushColumn]

/-- Both fields are added under a prefix. -/
example : let c : Call String Nat := ⟨0, 7, [⟨"a", .column "i32"⟩, ⟨"b", .unsupported⟩], ⟨fun _ => true, "p_", true⟩⟩
    (addColumns (run 64 []) c.tid c.ty c.fields c.opts).1 = true ∧ (run 64 [c]).columns.map (·.name) = ["p_a"] := by
  simp [run, new, addColumns, addLoop, addColumn, columnName, pushColumn]

/-! ## C123 -/

/-- **C123.** After any history of calls, successful or not, the column found under a name is the column of that name; every column is found under its name, and no two have the same
name. -/
theorem column_by_name {D R : Type} (header : Nat) (cs : List (Call D R)) :
    (∀ name c, columnByName header (run header cs) name = some c → c.name = name ∧ c ∈ (run header cs).columns) ∧
    (∀ c ∈ (run header cs).columns, columnByName header (run header cs) c.name = some c) ∧
    ((run header cs).columns.map (·.name)).Nodup := by
  have h := inv_run header cs
  generalize run header cs = s at *
  have key : ∀ (k : Nat) (c : Col D), s.columns[k]? = some c → s.columns[idxByOffset header c.offset]? = some c := by
    intro k c hc
    unfold idxByOffset
    rw [h.place k c hc, Nat.add_sub_cancel_left, Nat.mul_div_cancel _ (by decide)]
    exact hc
  have zipF : s.fields = (s.columns.map (fun c => (c.name, c.offset))).reverse := by
    apply List.ext_getElem?
    intro n
    have e1 := congrArg (fun l => l[n]?) h.names
    have e2 := congrArg (fun l => l[n]?) h.offs
    rw [← List.map_reverse] at e1 e2
    rw [← List.map_reverse]
    simp only [List.getElem?_map] at e1 e2 ⊢
    cases hx : s.fields[n]? <;> cases hy : s.columns.reverse[n]? <;> simp [hx, hy] at e1 e2 ⊢
    exact Prod.ext e1 e2
  have mem : ∀ c ∈ s.columns, (c.name, c.offset) ∈ s.fields := by
    intro c hc
    rw [zipF]
    simp only [List.mem_reverse, List.mem_map]
    exact ⟨c, hc, rfl⟩
  have nd : (s.fields.map (·.1)).Nodup := by
    rw [h.names]
    exact List.pairwise_reverse.mpr (List.Pairwise.imp (fun h => Ne.symm h) h.nodup)
  have lk : ∀ (l : List (String × Nat)) (n : String) (v : Nat), (l.map (·.1)).Nodup → (n, v) ∈ l → l.lookup n = some v := by
    intro l
    induction l with
    | nil => intro n v _ h; cases h
    | cons e l ih =>
      intro n v hn hm
      simp only [List.map_cons, List.nodup_cons] at hn
      rcases List.mem_cons.mp hm with rfl | hm'
      · simp
      · have : n ≠ e.1 := by
          rintro rfl
          exact hn.1 (List.mem_map.mpr ⟨_, hm', rfl⟩)
        obtain ⟨e1, e2⟩ := e
        rw [List.lookup_cons]
        simp only [beq_eq_false_iff_ne.mpr this]
        exact ih n v hn.2 hm'
  have second : ∀ c ∈ s.columns, columnByName header s c.name = some c := by
    intro c hc
    unfold columnByName
    rw [lk s.fields c.name c.offset nd (mem c hc)]
    obtain ⟨k, hk⟩ := List.mem_iff_getElem?.mp hc
    exact key k c hk
  refine ⟨?_, second, h.nodup⟩
  intro name c hc
  unfold columnByName at hc
  split at hc
  · cases hc
  · rename_i off ho
    have hmem : (name, off) ∈ s.fields := by
      rw [List.lookup_eq_some_iff] at ho
      obtain ⟨l1, l2, he, _⟩ := ho
      rw [he]; simp
    rw [zipF] at hmem
    simp only [List.mem_reverse, List.mem_map] at hmem
    obtain ⟨c', hc', he⟩ := hmem
    injection he with he1 he2
    obtain ⟨k, hk⟩ := List.mem_iff_getElem?.mp hc'
    have := key k c' hk
    rw [he2, hc] at this
    injection this with this
    subst this
    exact ⟨he1, hc'⟩

/-! ## C124 -/

/-- **C124** (partial: the row types of the sets differ; the full claim is refuted by `row_set_violated`). A column made by a successful call shows the rows of the set that call
has added. -/
theorem row_set_partial {D R : Type} [BEq R] [LawfulBEq R] (s : Sch D R) (col : Col D) (k addr : Nat) (ty : R) (hc : col.rowAddr = addr)
    (hk : s.rows[k]? = some (addr, ty)) (ha : (s.rows.map (·.1)).Nodup) (hd : (s.rows.map (·.2)).Nodup) : rowSetOf s col = some (some k) := by
  have inj : ∀ {β : Type} (g : Nat × R → β) (j : Nat) (e : Nat × R), (s.rows.map g).Nodup → s.rows[j]? = some e → g e = g (addr, ty) → j = k := by
    intro β g j e hn hj he
    have hn := List.pairwise_iff_getElem.mp hn
    obtain ⟨hjl, hje⟩ := List.getElem?_eq_some_iff.mp hj
    obtain ⟨hkl, hke⟩ := List.getElem?_eq_some_iff.mp hk
    rcases Nat.lt_trichotomy j k with h | h | h
    · exact absurd (by rw [List.getElem_map, List.getElem_map, hje, hke, he]) (hn j k (by simpa using hjl) (by simpa using hkl) h)
    · exact h
    · exact absurd (by rw [List.getElem_map, List.getElem_map, hje, hke, he]) (hn k j (by simpa using hkl) (by simpa using hjl) h)
  have h1 : s.rows.lookup col.rowAddr = some ty := by
    cases hl : s.rows.lookup col.rowAddr with
    | none =>
      rw [List.lookup_eq_none_iff] at hl
      have := hl (addr, ty) (List.mem_iff_getElem?.mpr ⟨k, hk⟩)
      rw [hc] at this
      simp at this
    | some v =>
      rw [List.lookup_eq_some_iff] at hl
      obtain ⟨l1, l2, he, _⟩ := hl
      have hj : s.rows[l1.length]? = some (col.rowAddr, v) := by rw [he]; simp
      have := inj (·.1) l1.length (col.rowAddr, v) ha hj hc
      rw [this, hk] at hj
      injection hj with hj
      injection hj with _ hj
      rw [hj]
  unfold rowSetOf
  rw [h1]
  dsimp only
  congr 1
  obtain ⟨hlt, hv⟩ := List.getElem?_eq_some_iff.mp hk
  rw [List.findIdx?_eq_some_iff_getElem]
  refine ⟨hlt, by rw [hv]; simp, ?_⟩
  intro j hj hjj
  have := inj (·.2) j s.rows[j] hd (List.getElem?_eq_getElem (by omega)) (by simpa using hjj)
  omega

/-- **C124, negation of the full claim.** A schema that contains a row type twice, under two prefixes: the columns of the second set show the rows of the first. -/
theorem row_set_violated : let call : String → Call String Nat := fun p => ⟨0, 7, [⟨"x", .column "i32"⟩], ⟨fun _ => true, p, false⟩⟩
    let s := run 64 [call "second_", call "first_"]
    s.rows.length = 2 ∧ ∃ col, columnByName 64 s "second_x" = some col ∧ (∃ ty, s.rows[1]? = some (col.rowAddr, ty)) ∧ rowSetOf s col = some (some 0) := by
  refine ⟨by decide +kernel, ⟨"second_x", "i32", 80, 1, 0⟩, ?_, ⟨7, ?_⟩, ?_⟩
  · rfl
  · rfl
  · rfl

/-! ## C125 -/

/-- The pointers a new table takes to the elements of `columns_` (`table.cc` 68–73): the buffer they point into. -/
def tablePointers {D R : Type} (s : Sch D R) : Nat := s.colBuf

/-- The pointers of a table are valid as long as the vector keeps its buffer. -/
def Valid {D R : Type} (s : Sch D R) (ptrs : Nat) : Prop := s.colBuf = ptrs

theorem pushColumn_buf {D R : Type} (s : Sch D R) (c : Col D) :
    (pushColumn s c).colBuf = s.colBuf ∧ (pushColumn s c).colCap = s.colCap ∧ s.columns.length ≠ s.colCap ∨
    (pushColumn s c).colBuf = s.colBuf + 1 ∧ (pushColumn s c).colCap = 2 * s.colCap + 1 ∧ s.columns.length = s.colCap := by
  unfold pushColumn
  split
  · right; exact ⟨rfl, rfl, by assumption⟩
  · left; exact ⟨rfl, rfl, by assumption⟩

theorem loop_buf {D R : Type} (o : Opts) (a : Nat) : ∀ (fs : List (Fld D)) (i v : Nat) (s : Sch D R), s.columns.length ≤ s.colCap →
    (addLoop o a i fs v s).2.2.columns.length ≤ (addLoop o a i fs v s).2.2.colCap ∧ s.colBuf ≤ (addLoop o a i fs v s).2.2.colBuf ∧
    s.colCap ≤ (addLoop o a i fs v s).2.2.colCap ∧
    ((addLoop o a i fs v s).2.2.colBuf = s.colBuf ↔ (addLoop o a i fs v s).2.2.columns.length ≤ s.colCap)
  | [], _, _, s, h => by simp [addLoop, h]
  | f :: fs, i, v, s, h => by
    simp only [addLoop]
    split
    · exact loop_buf o a fs _ _ s h
    · split
      · exact loop_buf o a fs _ _ s h
      · split
        · exact loop_buf o a fs _ _ s h
        · exact ⟨h, Nat.le_refl _, Nat.le_refl _, by simp [h]⟩
      · rename_i d _
        split
        · rename_i hf
          rw [(addColumn_false hf).1]
          exact ⟨h, Nat.le_refl _, Nat.le_refl _, by simp [h]⟩
        · rename_i hf
          obtain ⟨_, he⟩ := addColumn_true hf
          have hb := pushColumn_buf { s with fields := (columnName o f.name, s.allocated) :: s.fields, allocated := s.allocated + vectorSize }
            (newCol s (columnName o f.name) d a i)
          have hl := congrArg List.length (pushColumn_columns { s with fields := (columnName o f.name, s.allocated) :: s.fields, allocated := s.allocated + vectorSize }
            (newCol s (columnName o f.name) d a i))
          rw [← he] at hb hl
          simp only [List.length_append, List.length_cons, List.length_nil] at hb hl
          obtain ⟨new, h1, _⟩ := loop_spec o a fs (i + 1) (v + 1) (addColumn s (columnName o f.name) d a i).2
          have h1 := congrArg List.length h1
          simp only [List.length_append] at h1
          obtain ⟨g1, g2, g3, g4⟩ := loop_buf o a fs (i + 1) (v + 1) (addColumn s (columnName o f.name) d a i).2 (by omega)
          refine ⟨g1, by omega, by omega, ?_⟩
          constructor
          · intro hh
            have : (addColumn s (columnName o f.name) d a i).2.colBuf = s.colBuf := by omega
            have := g4.mp (by omega)
            omega
          · intro hh
            have h2 : (addColumn s (columnName o f.name) d a i).2.colBuf = s.colBuf := by omega
            rw [← h2]
            exact g4.mpr (by omega)

theorem cap_run {D R : Type} (header : Nat) : ∀ cs : List (Call D R), (run header cs).columns.length ≤ (run header cs).colCap
  | [] => by simp [run, new]
  | c :: cs => by
    have := (loop_buf c.opts (run header cs).nextAddr c.fields 0 0 { run header cs with nextAddr := (run header cs).nextAddr + 1 } (cap_run header cs)).1
    simp only [run, addColumns]
    split
    · exact this
    · split
      · exact this
      · exact this

/-- **C125** (partial, with the exact limit). Extending a schema leaves the tables made from it before usable exactly if the new columns still fit into the spare capacity of the
schema's list of columns; otherwise they refer to freed memory. -/
theorem extend_schema_partial {D R : Type} (header : Nat) (cs : List (Call D R)) (c : Call D R) :
    Valid (run header (c :: cs)) (tablePointers (run header cs)) ↔ (run header (c :: cs)).columns.length ≤ (run header cs).colCap := by
  have := (loop_buf c.opts (run header cs).nextAddr c.fields 0 0 { run header cs with nextAddr := (run header cs).nextAddr + 1 } (cap_run header cs)).2.2.2
  unfold Valid tablePointers
  simp only [run, addColumns]
  split
  · exact this
  · split
    · exact this
    · exact this

/-- **C125, negation of the full claim.** A schema of one column, a table, a second column: the table is left with dangling pointers. -/
theorem extend_schema_violated : let call : String → Call String Nat := fun n => ⟨0, 7, [⟨n, .column "i32"⟩], ⟨fun _ => true, "", false⟩⟩
    ¬ Valid (run 64 [call "b", call "a"]) (tablePointers (run 64 [call "a"])) := by
  intro call
  rw [extend_schema_partial]
  show ¬ (2 ≤ 1)
  decide

end Verif.Tbl.Schema
