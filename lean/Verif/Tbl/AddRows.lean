import Verif.Tbl.Rows
/-!
# Adding and inserting rows: C64

`/repo/rapidudf/table/table.h` 136–172 (`AddRows`, `InsertRow`, `AppendRow`) and 623–662 (`GetPartialRows`, `GetPartialRow`),
`/repo/rapidudf/table/table.cc` 306–347, `/repo/rapidudf/table/row.cc` 54–61. A partial row list is the schema of its C++ type and the pointers; that the type has a
schema registered in the table schema is assumed (otherwise the call fails before it touches the table).
-/
namespace Verif.Tbl

/-- The loop of `DoAddRows`, table.cc 312–325: the groups are compared and extended one after the other. `rc` is `row_count`. The flag is the status. -/
def addLoop {P : Type} (rc : Nat) : Table P → List (Nat × List P) → Bool × Table P
  | g :: t, r :: rs =>
    if g.schema ≠ r.1 then (false, g :: t)
    else if rc ≠ 0 ∧ rc ≠ r.2.length then (false, g :: t)
    else
      let x := addLoop (if rc = 0 then r.2.length else rc) t rs
      (x.1, { g with objs := g.objs ++ r.2 } :: x.2)
  | t, _ => (true, t)

/-- `AddRows`, table.h 136–151 and table.cc 306–328: empty row lists are refused by `GetPartialRows`. -/
def addRows {P : Type} (t : Table P) (rows : List (Nat × List P)) : Bool × Table P :=
  if rows.any (fun r => r.2.isEmpty) = true then (false, t)
  else if rows.length ≠ t.length then (false, t)
  else addLoop 0 t rows

/-- `Rows::Insert`, row.cc 55–61. -/
def rowsInsert {P : Type} (pos : Nat) (p : P) (g : Group P) : Option (Group P) :=
  if pos > g.objs.length then none else some { g with objs := g.objs.take pos ++ p :: g.objs.drop pos }

/-- The loop of `InsertRow`, table.cc 335–344. -/
def insertLoop {P : Type} (pos : Nat) : Table P → List (Nat × P) → Bool × Table P
  | g :: t, r :: rs =>
    if g.schema ≠ r.1 then (false, g :: t)
    else
      match rowsInsert pos r.2 g with
      | none => (false, g :: t)
      | some g' =>
        let x := insertLoop pos t rs
        (x.1, g' :: x.2)
  | t, _ => (true, t)

/-- `InsertRow`, table.h 153–166 and table.cc 330–347. -/
def insertRow {P : Type} (t : Table P) (pos : Nat) (rows : List (Nat × P)) : Bool × Table P :=
  if rows.length ≠ t.length then (false, t) else insertLoop pos t rows

/-- `AppendRow`, table.h 168–172. -/
def appendRow {P : Type} (t : Table P) (rows : List (Nat × P)) : Bool × Table P := insertRow t (count t) rows

/-- What a program can do to the rows of a table with these functions. -/
inductive RowOp (P : Type) where
  | add (rows : List (Nat × List P))
  | insert (pos : Nat) (row : List (Nat × P))
  | append (row : List (Nat × P))

/-- One operation. -/
def RowOp.run {P : Type} (t : Table P) : RowOp P → Bool × Table P
  | .add rows => addRows t rows
  | .insert pos row => insertRow t pos row
  | .append row => appendRow t row

/-- A history: the statuses and the final table. -/
def runOps {P : Type} (t : Table P) : List (RowOp P) → List Bool × Table P
  | [] => ([], t)
  | o :: os =>
    let x := o.run t
    let y := runOps x.2 os
    (x.1 :: y.1, y.2)

/-! ## Lemmas -/

theorem addLoop_ok {P : Type} (t : Table P) (rows : List (Nat × List P)) (rc : Nat) (hl : rows.length = t.length) (hne : ∀ r ∈ rows, r.2 ≠ [])
    (h : (addLoop rc t rows).1 = true) :
    (∃ k, (rc ≠ 0 → k = rc) ∧ (∀ r ∈ rows, r.2.length = k)) ∧ t.map (·.schema) = rows.map (·.1) ∧
      (addLoop rc t rows).2 = List.zipWith (fun g r => { g with objs := g.objs ++ r.2 : Group P }) t rows := by
  induction t generalizing rows rc with
  | nil =>
    cases rows with
    | nil => exact ⟨⟨rc, by simp⟩, rfl, rfl⟩
    | cons r rs => simp at hl
  | cons g t ih =>
    cases rows with
    | nil => simp at hl
    | cons r rs =>
      unfold addLoop at h ⊢
      by_cases h1 : g.schema ≠ r.1
      · rw [if_pos h1] at h; cases h
      · rw [if_neg h1] at h ⊢
        by_cases h2 : rc ≠ 0 ∧ rc ≠ r.2.length
        · rw [if_pos h2] at h; cases h
        · rw [if_neg h2] at h ⊢
          simp only at h ⊢
          have hr : r.2 ≠ [] := hne r (by simp)
          have hrl : r.2.length ≠ 0 := fun hh => hr (List.eq_nil_of_length_eq_zero hh)
          obtain ⟨⟨k, k1, k2⟩, e1, e2⟩ := ih rs _ (by simpa using hl) (fun r' hr' => hne r' (List.mem_cons_of_mem _ hr')) h
          have hk : k = r.2.length := by
            by_cases h0 : rc = 0
            · rw [if_pos h0] at k1; exact k1 hrl
            · rw [if_neg h0] at k1; rw [k1 h0]; omega
          refine ⟨⟨k, fun h0 => by omega, ?_⟩, ?_, ?_⟩
          · intro r' hr'
            rcases List.mem_cons.1 hr' with e | e
            · subst e; exact hk.symm
            · exact k2 r' e
          · have : g.schema = r.1 := by simpa using h1
            simp [this, e1]
          · rw [List.zipWith_cons_cons, e2]

theorem zipAppend_aligned {P : Type} (t : Table P) (rows : List (Nat × List P)) (ha : Aligned t) (k : Nat) (hk : ∀ r ∈ rows, r.2.length = k)
    (hl : rows.length = t.length) (hne : t ≠ []) :
    Aligned (List.zipWith (fun g r => { g with objs := g.objs ++ r.2 : Group P }) t rows) ∧
      count (List.zipWith (fun g r => { g with objs := g.objs ++ r.2 : Group P }) t rows) = count t + k := by
  have hc : count (List.zipWith (fun g r => { g with objs := g.objs ++ r.2 : Group P }) t rows) = count t + k := by
    cases t with
    | nil => exact absurd rfl hne
    | cons g t => cases rows with
      | nil => simp at hl
      | cons r rs => simp [count, hk r (by simp)]
  refine ⟨?_, hc⟩
  intro g hg
  rw [hc]
  obtain ⟨i, hi, rfl⟩ := List.getElem_of_mem hg
  simp only [List.length_zipWith] at hi
  rw [List.getElem_zipWith]
  simp only [List.length_append]
  rw [ha _ (List.getElem_mem _), hk _ (List.getElem_mem _)]

theorem insertLoop_ok {P : Type} (pos : Nat) (t : Table P) (rows : List (Nat × P)) (hl : rows.length = t.length) (h : (insertLoop pos t rows).1 = true) :
    t.map (·.schema) = rows.map (·.1) ∧ (∀ g ∈ t, pos ≤ g.objs.length) ∧
      (insertLoop pos t rows).2 = List.zipWith (fun g r => { g with objs := g.objs.take pos ++ r.2 :: g.objs.drop pos : Group P }) t rows := by
  induction t generalizing rows with
  | nil => cases rows with
    | nil => exact ⟨rfl, by simp, rfl⟩
    | cons r rs => simp at hl
  | cons g t ih =>
    cases rows with
    | nil => simp at hl
    | cons r rs =>
      unfold insertLoop at h ⊢
      by_cases h1 : g.schema ≠ r.1
      · rw [if_pos h1] at h; cases h
      · rw [if_neg h1] at h ⊢
        unfold rowsInsert at h ⊢
        by_cases h2 : pos > g.objs.length
        · simp only [h2, if_true] at h; cases h
        · simp only [h2, if_false] at h ⊢
          obtain ⟨e1, e2, e3⟩ := ih rs (by simpa using hl) h
          have : g.schema = r.1 := by simpa using h1
          refine ⟨by simp [this, e1], ?_, by rw [List.zipWith_cons_cons, e3]⟩
          intro g' hg'
          rcases List.mem_cons.1 hg' with e | e
          · subst e; omega
          · exact e2 g' e

/-! ## C64 -/

/-- What remains true of C64: a successful `AddRows` has appended the given rows, the same number to every group, and the groups stay aligned. -/
theorem add_rows_partial {P : Type} (t : Table P) (hne : t ≠ []) (ha : Aligned t) (rows : List (Nat × List P)) (h : (addRows t rows).1 = true) :
    ∃ k, 0 < k ∧ (∀ r ∈ rows, r.2.length = k) ∧ t.map (·.schema) = rows.map (·.1) ∧
      (addRows t rows).2 = List.zipWith (fun g r => { g with objs := g.objs ++ r.2 : Group P }) t rows ∧
      Aligned (addRows t rows).2 ∧ count (addRows t rows).2 = count t + k := by
  unfold addRows at h ⊢
  split at h
  · cases h
  · rename_i h1
    rw [if_neg h1]
    split at h
    · cases h
    · rename_i h2
      rw [if_neg h2]
      have hl : rows.length = t.length := by simpa using h2
      have hem : ∀ r ∈ rows, r.2 ≠ [] := by
        intro r hr he
        apply h1
        rw [List.any_eq_true]
        exact ⟨r, hr, by rw [he]; rfl⟩
      obtain ⟨⟨k, _, k2⟩, e1, e2⟩ := addLoop_ok t rows 0 hl hem h
      obtain ⟨a1, a2⟩ := zipAppend_aligned t rows ha k k2 hl hne
      refine ⟨k, ?_, k2, e1, e2, by rw [e2]; exact a1, by rw [e2]; exact a2⟩
      cases rows with
      | nil =>
        exfalso
        cases t with
        | nil => exact hne rfl
        | cons g t => simp at hl
      | cons r rs =>
        have := k2 r (by simp)
        have hr := hem r (by simp)
        rcases Nat.eq_zero_or_pos k with h0 | h0
        · exact absurd (List.eq_nil_of_length_eq_zero (by omega)) hr
        · exact h0

/-- Exactly when `AddRows` succeeds. -/
theorem add_rows_succeeds_iff {P : Type} (t : Table P) (hne : t ≠ []) (ha : Aligned t) (rows : List (Nat × List P)) :
    (addRows t rows).1 = true ↔ ∃ k, 0 < k ∧ (∀ r ∈ rows, r.2.length = k) ∧ t.map (·.schema) = rows.map (·.1) := by
  constructor
  · intro h
    obtain ⟨k, h1, h2, h3, _⟩ := add_rows_partial t hne ha rows h
    exact ⟨k, h1, h2, h3⟩
  · rintro ⟨k, h1, h2, h3⟩
    have hl : rows.length = t.length := by simpa using (congrArg List.length h3).symm
    unfold addRows
    rw [if_neg, if_neg (by simpa using hl)]
    · have : ∀ (t : Table P) (rows : List (Nat × List P)) (rc : Nat), (rc = 0 ∨ rc = k) → (∀ r ∈ rows, r.2.length = k) → t.map (·.schema) = rows.map (·.1) →
          (addLoop rc t rows).1 = true := by
        intro t
        induction t with
        | nil =>
          intro rows rc _ _ hs
          cases rows with
          | nil => rfl
          | cons r rs => simp at hs
        | cons g t ih =>
          intro rows rc hrc hk hs
          cases rows with
          | nil => simp at hs
          | cons r rs =>
            simp only [List.map_cons, List.cons.injEq] at hs
            have hr := hk r (by simp)
            unfold addLoop
            rw [if_neg (by simpa using hs.1), if_neg (by omega)]
            apply ih rs _ _ (fun r' hr' => hk r' (List.mem_cons_of_mem _ hr')) hs.2
            split <;> omega
      exact this t rows 0 (Or.inl rfl) h2 h3
    · intro hany
      rw [List.any_eq_true] at hany
      obtain ⟨r, hr, he⟩ := hany
      have := h2 r hr
      cases hr2 : r.2 with
      | nil => rw [hr2] at this; simp at this; omega
      | cons a l => rw [hr2] at he; simp at he

/-- A table with a single row group: failing leaves it unchanged. -/
theorem add_rows_single_partial {P : Type} (g : Group P) (rows : List (Nat × List P)) (h : (addRows [g] rows).1 = false) : (addRows [g] rows).2 = [g] := by
  unfold addRows at h ⊢
  split
  · rfl
  · split
    · rfl
    · rename_i h1 h2
      rw [if_neg h1, if_neg h2] at h
      match rows, h2 with
      | [], h2 => simp at h2
      | [r], _ =>
        unfold addLoop at h ⊢
        by_cases c1 : g.schema ≠ r.1
        · rw [if_pos c1]
        · rw [if_neg c1] at h ⊢
          by_cases c2 : (0 : Nat) ≠ 0 ∧ 0 ≠ r.2.length
          · exact absurd rfl c2.1
          · rw [if_neg c2] at h
            simp [addLoop] at h
      | r :: s :: rs, h2 => simp at h2

/-- C64 is false of the code: adding one row of the first type and two of the second fails, but the first group has grown, so the groups are no longer aligned and
the count has changed. -/
theorem add_rows_failure_violated {P : Type} (s0 s1 : Nat) (a b : List P) (p q r : P) (hab : a.length = b.length) :
    addRows [⟨s0, a⟩, ⟨s1, b⟩] [(s0, [p]), (s1, [q, r])] = (false, [⟨s0, a ++ [p]⟩, ⟨s1, b⟩]) ∧ Aligned [(⟨s0, a⟩ : Group P), ⟨s1, b⟩] ∧
      ¬ Aligned [(⟨s0, a ++ [p]⟩ : Group P), ⟨s1, b⟩] := by
  refine ⟨?_, ?_, ?_⟩
  · simp [addRows, addLoop]
  · intro g hg
    simp only [List.mem_cons, List.not_mem_nil, or_false] at hg
    rcases hg with e | e <;> subst e <;> simp [count, hab]
  · intro h
    have := h ⟨s1, b⟩ (by simp)
    simp [count] at this
    omega

/-- What remains true of C64 for insertion: if the row parts have the types of the table, in order, `InsertRow` succeeds exactly if the position is at most the number of
rows; then the row is at that position in every group, and otherwise the table is unchanged. -/
theorem insert_row_partial {P : Type} (t : Table P) (hne : t ≠ []) (ha : Aligned t) (pos : Nat) (rows : List (Nat × P)) (hs : t.map (·.schema) = rows.map (·.1)) :
    (pos ≤ count t → (insertRow t pos rows).1 = true ∧ Aligned (insertRow t pos rows).2 ∧ count (insertRow t pos rows).2 = count t + 1 ∧
      (∀ i, i < pos → row (insertRow t pos rows).2 i = row t i) ∧ row (insertRow t pos rows).2 pos = rows.map (fun r => some r.2) ∧
      ∀ i, pos ≤ i → row (insertRow t pos rows).2 (i + 1) = row t i) ∧
    (count t < pos → insertRow t pos rows = (false, t)) := by
  have hl : rows.length = t.length := by simpa using (congrArg List.length hs).symm
  constructor
  · intro hp
    have h1 : (insertRow t pos rows).1 = true := by
      unfold insertRow
      rw [if_neg (by simpa using hl)]
      have : ∀ (t : Table P) (rows : List (Nat × P)), (∀ g ∈ t, pos ≤ g.objs.length) → t.map (·.schema) = rows.map (·.1) → (insertLoop pos t rows).1 = true := by
        intro t
        induction t with
        | nil => intro rows _ hs; cases rows with
          | nil => rfl
          | cons r rs => simp at hs
        | cons g t ih =>
          intro rows hp hs
          cases rows with
          | nil => simp at hs
          | cons r rs =>
            simp only [List.map_cons, List.cons.injEq] at hs
            unfold insertLoop
            rw [if_neg (by simpa using hs.1)]
            unfold rowsInsert
            have : ¬ pos > g.objs.length := by have := hp g (by simp); omega
            simp only [this, if_false]
            exact ih rs (fun g' hg' => hp g' (List.mem_cons_of_mem _ hg')) hs.2
      exact this t rows (fun g hg => by rw [ha g hg]; exact hp) hs
    have h2 : (insertRow t pos rows).2 = List.zipWith (fun g r => { g with objs := g.objs.take pos ++ r.2 :: g.objs.drop pos : Group P }) t rows := by
      have h1' := h1
      unfold insertRow at h1' ⊢
      rw [if_neg (by simpa using hl)] at h1' ⊢
      exact (insertLoop_ok pos t rows hl h1').2.2
    rw [h2]
    have hc : count (List.zipWith (fun g r => { g with objs := g.objs.take pos ++ r.2 :: g.objs.drop pos : Group P }) t rows) = count t + 1 := by
      cases t with
      | nil => exact absurd rfl hne
      | cons g t => cases rows with
        | nil => simp at hl
        | cons r rs =>
          simp only [List.zipWith_cons_cons, count, List.length_append, List.length_take, List.length_cons, List.length_drop] at hp ⊢
          omega
    refine ⟨h1, ?_, hc, ?_, ?_, ?_⟩
    · intro g hg
      rw [hc]
      obtain ⟨i, hi, rfl⟩ := List.getElem_of_mem hg
      simp only [List.length_zipWith] at hi
      rw [List.getElem_zipWith]
      have := ha _ (List.getElem_mem (show i < t.length by omega))
      simp only [List.length_append, List.length_take, List.length_cons, List.length_drop]
      omega
    · intro i hi
      apply List.ext_getElem (by simp [row, hl])
      intro j h1 h2
      simp only [row, List.length_map, List.length_zipWith] at h1 h2
      simp only [row, List.getElem_map, List.getElem_zipWith]
      have := ha _ (List.getElem_mem (show j < t.length by omega))
      rw [List.getElem?_append_left (by rw [List.length_take]; omega), List.getElem?_take_of_lt hi]
    · apply List.ext_getElem (by simp [row, hl])
      intro j h1 h2
      simp only [row, List.length_map, List.length_zipWith] at h1 h2
      simp only [row, List.getElem_map, List.getElem_zipWith]
      have := ha _ (List.getElem_mem (show j < t.length by omega))
      have hlt : (List.take pos t[j].objs).length = pos := by rw [List.length_take]; omega
      rw [List.getElem?_append_right (by omega), hlt, Nat.sub_self]
      rfl
    · intro i hi
      apply List.ext_getElem (by simp [row, hl])
      intro j h1 h2
      simp only [row, List.length_map, List.length_zipWith] at h1 h2
      simp only [row, List.getElem_map, List.getElem_zipWith]
      have := ha _ (List.getElem_mem (show j < t.length by omega))
      have hlt : (List.take pos t[j].objs).length = pos := by rw [List.length_take]; omega
      rw [List.getElem?_append_right (by omega), hlt, show i + 1 - pos = (i - pos) + 1 by omega, List.getElem?_cons_succ, List.getElem?_drop]
      congr 1
      omega
  · intro hp
    unfold insertRow
    rw [if_neg (by simpa using hl)]
    cases t with
    | nil => exact absurd rfl hne
    | cons g t =>
      cases rows with
      | nil => simp at hl
      | cons r rs =>
        simp only [List.map_cons, List.cons.injEq] at hs
        unfold insertLoop
        rw [if_neg (by simpa using hs.1)]
        unfold rowsInsert
        have : pos > g.objs.length := hp
        simp only [this, if_true]

/-- C64 is false of `InsertRow` too: a second row part of the wrong type is noticed after the first has been inserted. -/
theorem insert_row_failure_violated {P : Type} (s0 s1 s2 : Nat) (hs : s1 ≠ s2) (a b : List P) (p q : P) (hab : a.length = b.length) :
    insertRow [⟨s0, a⟩, ⟨s1, b⟩] 0 [(s0, p), (s2, q)] = (false, [⟨s0, p :: a⟩, ⟨s1, b⟩]) ∧ ¬ Aligned [(⟨s0, p :: a⟩ : Group P), ⟨s1, b⟩] := by
  refine ⟨by simp [insertRow, insertLoop, rowsInsert, hs], ?_⟩
  intro h
  have := h ⟨s1, b⟩ (by simp)
  simp [count] at this
  omega

theorem insert_row_success {P : Type} (t : Table P) (hne : t ≠ []) (ha : Aligned t) (pos : Nat) (rows : List (Nat × P)) (h : (insertRow t pos rows).1 = true) :
    Aligned (insertRow t pos rows).2 ∧ count (insertRow t pos rows).2 = count t + 1 ∧ (insertRow t pos rows).2 ≠ [] := by
  have h' := h
  unfold insertRow at h'
  split at h'
  · cases h'
  · rename_i hl0
    have hl : rows.length = t.length := by simpa using hl0
    obtain ⟨e1, e2, _⟩ := insertLoop_ok pos t rows hl h'
    have hp : pos ≤ count t := by
      cases t with
      | nil => exact absurd rfl hne
      | cons g t => exact e2 g (by simp)
    obtain ⟨_, a2, a3, _⟩ := (insert_row_partial t hne ha pos rows e1).1 hp
    refine ⟨a2, a3, ?_⟩
    intro he
    rw [he] at a3
    simp [count] at a3

/-- In every history of row additions and insertions all of which succeed, the row groups have the same length. -/
theorem rows_aligned_partial {P : Type} (ops : List (RowOp P)) (t : Table P) (hne : t ≠ []) (ha : Aligned t) (h : ∀ b ∈ (runOps t ops).1, b = true) :
    Aligned (runOps t ops).2 ∧ (runOps t ops).2 ≠ [] := by
  induction ops generalizing t with
  | nil => exact ⟨ha, hne⟩
  | cons o os ih =>
    unfold runOps at h ⊢
    simp only at h ⊢
    have hb : (o.run t).1 = true := h _ (by simp)
    have : Aligned (o.run t).2 ∧ (o.run t).2 ≠ [] := by
      cases o with
      | add rows =>
        obtain ⟨k, h0, _, _, _, h4, h5⟩ := add_rows_partial t hne ha rows hb
        refine ⟨h4, ?_⟩
        intro he
        have h5' : count (addRows t rows).2 = count t + k := h5
        rw [show (addRows t rows).2 = [] from he] at h5'
        simp [count] at h5'
        omega
      | insert pos row =>
        obtain ⟨h1, _, h3⟩ := insert_row_success t hne ha pos row hb
        exact ⟨h1, h3⟩
      | append row =>
        obtain ⟨h1, _, h3⟩ := insert_row_success t hne ha (count t) row hb
        exact ⟨h1, h3⟩
    exact ih (o.run t).2 this.2 this.1 (fun b hb' => h b (List.mem_cons_of_mem _ hb'))

/-- **C64** for `AppendRow`: with the schemas of the table it always succeeds, the earlier rows keep their place and the new row is the last. -/
theorem append_row_last {P : Type} (t : Table P) (hne : t ≠ []) (ha : Aligned t) (rows : List (Nat × P)) (hs : t.map (·.schema) = rows.map (·.1)) :
    (appendRow t rows).1 = true ∧ Aligned (appendRow t rows).2 ∧ count (appendRow t rows).2 = count t + 1 ∧
      (∀ i, i < count t → row (appendRow t rows).2 i = row t i) ∧ row (appendRow t rows).2 (count t) = rows.map (fun r => some r.2) := by
  obtain ⟨h1, h2, h3, h4, h5, _⟩ := (insert_row_partial t hne ha (count t) rows hs).1 (Nat.le_refl _)
  exact ⟨h1, h2, h3, h4, h5⟩

example : (addRows [⟨0, [1]⟩, ⟨1, [2]⟩] [(0, [3, 4]), (1, [5, 6])]).2.map (·.objs) = [[1, 3, 4], [2, 5, 6]] := by decide
example : (insertRow [⟨0, [1, 2]⟩, ⟨1, [3, 4]⟩] 1 [(0, 8), (1, 9)]).2.map (·.objs) = [[1, 8, 2], [3, 9, 4]] := by decide

end Verif.Tbl
