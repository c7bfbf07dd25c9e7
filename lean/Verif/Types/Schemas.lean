/-!
# The registry of schemas: C126

`/repo/rapidudf/types/dyn_object_schema.cc` 24–86 (`get_schema_table`, `GetMutable`, `GetOrCreate`), `/repo/rapidudf/table/table_schema.cc` 38–47 (`TableSchema::GetMutable`),
83–95 (`TableSchema::GetOrCreate`).

Every call holds the mutex of the registry from beginning to end, so that the calls of all threads are ordered by the moments at which they get it: a history is a list of calls.
The initialiser of a schema runs inside the call. It is given by the registry calls it makes itself and the content it leaves in the schema.
-/
namespace Verif.Schemas

/-- A request `GetOrCreate(name, init)` for an object schema or a table schema. -/
inductive Req (V : Type) where
  | mk (name : String) (table : Bool) (nested : List (Req V)) (content : V)

/-- The name asked for. -/
def Req.name {V : Type} : Req V → String | .mk n _ _ _ => n
/-- Asked for through `TableSchema`. -/
def Req.table {V : Type} : Req V → Bool | .mk _ t _ _ => t
/-- The registry calls of the initialiser. -/
def Req.nested {V : Type} : Req V → List (Req V) | .mk _ _ r _ => r
/-- What the initialiser leaves. -/
def Req.content {V : Type} : Req V → V | .mk _ _ _ v => v

/-- A schema object: whether it was made by `TableSchema::GetOrCreate`, and its content. -/
structure Obj (V : Type) where
  table : Bool
  content : V
deriving DecidableEq

/-- The outcomes of a call: the schema, `nullptr`, undefined behaviour, or a thread that waits for the mutex it holds. -/
inductive Out (V : Type) where
  | ok (o : Obj V)
  | null
  | undefined
  | stuck
deriving DecidableEq

/-- The registry: names and schemas, oldest first. -/
abbrev Reg (V : Type) := List (String × Obj V)

/-- `GetOrCreate` (`dyn_object_schema.cc` 67–86), when the mutex is free: the lookup, the initialiser (whose own calls meet the locked mutex), the insertion. The table version
casts whatever it gets (`table_schema.cc` 94): a schema of the other kind is used as a table. -/
def getOrCreate {V : Type} (r : Reg V) (q : Req V) : Out V × Reg V :=
  match r.lookup q.name with
  | some o => if q.table && !o.table then (.undefined, r) else (.ok o, r)
  | none =>
    match q.nested with
    | _ :: _ => (.stuck, r)
    | [] => (.ok ⟨q.table, q.content⟩, r ++ [(q.name, ⟨q.table, q.content⟩)])

/-- `TableSchema::GetMutable` (`table_schema.cc` 38–47): the result of the lookup is dereferenced before it is looked at. -/
def getTable {V : Type} (r : Reg V) (name : String) : Out V :=
  match r.lookup name with
  | none => .undefined
  | some o => if !o.table then .null else .ok o

/-- `DynObjectSchema::GetMutable` (`dyn_object_schema.cc` 35–43). -/
def getObject {V : Type} (r : Reg V) (name : String) : Out V :=
  match r.lookup name with
  | none => .null
  | some o => .ok o

/-- The registry after a history of requests, oldest first. -/
def after {V : Type} (h : List (Req V)) : Reg V := h.foldl (fun r q => (getOrCreate r q).2) []

/-! ## Specification -/

/-- The first request of a history for a name, if its initialiser can run. -/
def firstFor {V : Type} (h : List (Req V)) (name : String) : Option (Req V) :=
  h.find? (fun q => q.name == name && q.nested.isEmpty)

/-! ## Lemmas -/

theorem lookup_append {β : Type} (l : List (String × β)) (n m : String) (v : β) :
    (l ++ [(m, v)]).lookup n = match l.lookup n with | some x => some x | none => if n = m then some v else none := by
  induction l with
  | nil =>
    simp only [List.nil_append, List.lookup_cons, List.lookup_nil]
    by_cases h : n = m
    · subst h; simp
    · rw [beq_eq_false_iff_ne.mpr h, if_neg h]
  | cons e l ih =>
    obtain ⟨a, b⟩ := e
    simp only [List.cons_append, List.lookup_cons]
    cases n == a
    · exact ih
    · rfl

theorem step_lookup {V : Type} (r : Reg V) (q : Req V) (n : String) :
    (getOrCreate r q).2.lookup n = match r.lookup n with
      | some x => some x
      | none => if n = q.name ∧ q.nested = [] then some ⟨q.table, q.content⟩ else none := by
  unfold getOrCreate
  cases h : r.lookup q.name with
  | some o =>
    simp only
    have hs : (if (q.table && !o.table) = true then ((Out.undefined : Out V), r) else (Out.ok o, r)).2 = r := by split <;> rfl
    rw [hs]
    cases h2 : r.lookup n with
    | some x => rfl
    | none =>
      simp only
      rw [if_neg]
      rintro ⟨rfl, _⟩
      rw [h] at h2; cases h2
  | none =>
    simp only
    cases hn : q.nested with
    | cons a l =>
      simp only
      cases h2 : r.lookup n with
      | some x => rfl
      | none => simp
    | nil =>
      simp only
      rw [lookup_append]
      cases h2 : r.lookup n with
      | some x => rfl
      | none => simp

theorem after_lookup {V : Type} (h : List (Req V)) (n : String) :
    (after h).lookup n = (firstFor h n).map (fun q => ⟨q.table, q.content⟩) := by
  have gen : ∀ (h : List (Req V)) (r : Reg V), (h.foldl (fun r q => (getOrCreate r q).2) r).lookup n =
      match r.lookup n with | some x => some x | none => (firstFor h n).map (fun q => ⟨q.table, q.content⟩) := by
    intro h
    induction h with
    | nil => intro r; simp only [List.foldl_nil, firstFor, List.find?_nil, Option.map_none]; cases r.lookup n <;> rfl
    | cons q h ih =>
      intro r
      rw [List.foldl_cons, ih, step_lookup]
      cases hr : r.lookup n with
      | some x => rfl
      | none =>
        simp only [firstFor, List.find?_cons]
        by_cases hq : n = q.name ∧ q.nested = []
        · rw [if_pos hq]
          simp [hq.1, hq.2]
        · rw [if_neg hq]
          have : (q.name == n && q.nested.isEmpty) = false := by
            rw [Bool.eq_false_iff]
            intro hh
            simp only [Bool.and_eq_true, beq_iff_eq, List.isEmpty_iff] at hh
            exact hq ⟨hh.1.symm, hh.2⟩
          rw [this]
  have := gen h []
  simpa [after] using this

/-! ## C126 -/

/-- **C126** (partial: initialisers that make no registry calls, and names asked for with the kind they were made with; the full claim is refuted by `registry_nested_violated`,
`registry_kind_violated` and `registry_get_violated`). For every history and every request: the caller gets the schema made by the first request for that name, with the content
its initialiser left, or its own if there was none; and so does every later lookup, whatever comes in between. -/
theorem registry_partial {V : Type} (h : List (Req V)) (q : Req V) (hn : q.nested = [])
    (hk : ∀ p, firstFor h q.name = some p → p.table = q.table) :
    (getOrCreate (after h) q).1 = .ok ⟨q.table, ((firstFor h q.name).getD q).content⟩ ∧
    ∀ later : List (Req V), getObject (after (h ++ q :: later)) q.name = .ok ⟨q.table, ((firstFor h q.name).getD q).content⟩ ∧
      (q.table = true → getTable (after (h ++ q :: later)) q.name = .ok ⟨q.table, ((firstFor h q.name).getD q).content⟩) := by
  have hl := after_lookup h q.name
  have hlater : ∀ later : List (Req V), (after (h ++ q :: later)).lookup q.name = some ⟨q.table, ((firstFor h q.name).getD q).content⟩ := by
    intro later
    rw [after_lookup]
    have : firstFor (h ++ q :: later) q.name = some ((firstFor h q.name).getD q) := by
      unfold firstFor
      rw [List.find?_append, List.find?_cons]
      simp only [hn, beq_self_eq_true, List.isEmpty_nil, Bool.and_self]
      cases List.find? (fun p => p.name == q.name && p.nested.isEmpty) h <;> rfl
    rw [this]
    cases hf : firstFor h q.name with
    | none => simp
    | some p => simp [hk p hf]
  constructor
  · unfold getOrCreate
    rw [hl]
    cases hf : firstFor h q.name with
    | none => simp [hn]
    | some p => simp [hk p hf]
  · intro later
    refine ⟨?_, fun ht => ?_⟩
    · unfold getObject; rw [hlater later]
    · unfold getTable; rw [hlater later]; simp [ht]

/-- **C126.** At most one schema is ever made for a name. -/
theorem registry_one_schema {V : Type} (h : List (Req V)) : ((after h).map (·.1)).Nodup := by
  have gen : ∀ (h : List (Req V)) (r : Reg V), (r.map (·.1)).Nodup → ((h.foldl (fun r q => (getOrCreate r q).2) r).map (·.1)).Nodup := by
    intro h
    induction h with
    | nil => intro r hr; exact hr
    | cons q h ih =>
      intro r hr
      rw [List.foldl_cons]
      apply ih
      unfold getOrCreate
      cases hl : r.lookup q.name with
      | some o => simp only; split <;> exact hr
      | none =>
        simp only
        cases q.nested with
        | cons a l => exact hr
        | nil =>
          simp only [List.map_append, List.map_cons, List.map_nil]
          rw [List.nodup_append]
          refine ⟨hr, by simp, ?_⟩
          intro a ha b hb hab
          simp only [List.mem_singleton] at hb
          subst hb hab
          obtain ⟨e, he, hee⟩ := List.mem_map.mp ha
          rw [List.lookup_eq_none_iff] at hl
          have := hl e he
          simp [hee] at this
  exact gen h [] (by simp)

/-- **C126, negation of the full claim, first part.** After every history, a request for a new name whose initialiser asks the registry for anything never returns. -/
theorem registry_nested_violated {V : Type} (h : List (Req V)) (q : Req V) (hn : q.nested ≠ []) (hf : firstFor h q.name = none) :
    (getOrCreate (after h) q).1 = .stuck := by
  unfold getOrCreate
  rw [after_lookup, hf]
  cases hq : q.nested with
  | nil => exact absurd hq hn
  | cons a l => simp only [Option.map_none, hq]

/-- **C126, negation of the full claim, second part.** A table schema asked for under the name of an object schema: the object schema is used as a table schema. -/
theorem registry_kind_violated {V : Type} (h : List (Req V)) (q p : Req V) (hf : firstFor h q.name = some p) (ht : q.table = true) (hp : p.table = false) :
    (getOrCreate (after h) q).1 = .undefined := by
  unfold getOrCreate
  rw [after_lookup, hf]
  simp [ht, hp]

/-- **C126, negation of the full claim, third part.** Looking up a table schema nobody made dereferences a null pointer; looking up an object schema gives `nullptr`. -/
theorem registry_get_violated {V : Type} (h : List (Req V)) (name : String) (hf : firstFor h name = none) :
    getTable (after h) name = .undefined ∧ getObject (after h) name = .null := by
  unfold getTable getObject
  rw [after_lookup, hf]
  exact ⟨rfl, rfl⟩

/-- Two requests for one name. -/
example : (getOrCreate (after [.mk "User" true [] 1, .mk "Item" true [] 2]) (.mk "User" true [] 3)).1 = .ok ⟨true, 1⟩ := by decide
/-- An initialiser that builds another schema. -/
example : (getOrCreate (after [.mk "User" true [] 1]) (.mk "Feed" true [.mk "User" true [] 1] 3)).1 = .stuck := by decide
/-- A table under the name of an object. -/
example : (getOrCreate (after [.mk "User" false [] 1]) (.mk "User" true [] 3)).1 = .undefined := by decide

end Verif.Schemas
