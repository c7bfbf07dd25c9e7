import Verif.Types.Names
/-!
# The names of types a script can use: C133

`/repo/rapidudf/ast/symbols.cc` 105–216, `/repo/rapidudf/ast/symbols.h` 32–64 (`Symbols`); `/repo/rapidudf/compiler/compiler.cc` 31–34 (the constructor of `JitCompiler`);
`/repo/rapidudf/meta/dtype.cc` 32–39, 64–70, `/repo/rapidudf/meta/dtype.h` 210–245 (`DTypeFactory`); `/repo/rapidudf/types/dyn_object_schema.cc` 47–85 (the schemas);
`/repo/rapidudf/ast/grammar.cc` 46–54, 762–800 (the uses).

A hash map is the function from keys to values. The order in which a hash map is visited is not specified: `Init` may use any order. `Symbols::Add` is not called by anything
and left out. Names are lists of characters.
-/
namespace Verif.Ast.Symbols
open Verif.Types.DT

abbrev Name := List Char

/-! ## Model -/

/-- The value of a symbol: the type, and the schema in its attributes. -/
abbrev Sym := DType × Option Name

abbrev Map := Name → Option Sym

def Map.set (m : Map) (n : Name) (s : Sym) : Map := fun k => if k = n then some s else m k

/-- The built-in names, `symbols.cc` 157–180; the numbers are the values of the enumeration, `dtype_enums.h` 40–66. -/
def builtins : List (Name × Sym) :=
  [("void", .mk 0 0 1 0 0 []), ("bool", .mk 0 0 3 0 0 []), ("u8", .mk 0 0 4 0 0 []), ("i8", .mk 0 0 5 0 0 []), ("u16", .mk 0 0 6 0 0 []), ("i16", .mk 0 0 7 0 0 []),
   ("u32", .mk 0 0 8 0 0 []), ("i32", .mk 0 0 9 0 0 []), ("u64", .mk 0 0 10 0 0 []), ("i64", .mk 0 0 11 0 0 []), ("f16", .mk 0 0 12 0 0 []), ("f32", .mk 0 0 13 0 0 []),
   ("f64", .mk 0 0 14 0 0 []), ("f80", .mk 0 0 15 0 0 []), ("int", .mk 0 0 9 0 0 []), ("long", .mk 0 0 11 0 0 []), ("float", .mk 0 0 13 0 0 []), ("double", .mk 0 0 14 0 0 []),
   ("json", toPtr (.mk 0 0 20 0 0 [])), ("string", toPtr (.mk 0 0 18 0 0 [])), ("std_string_view", .mk 0 0 16 0 0 []), ("Context", toPtr (.mk 0 0 21 0 0 [])),
   ("string_view", .mk 0 0 17 0 0 [])].map fun p => (p.1.toList, (p.2, none))

/-- `IsPrimitive`, `dtype.h` 98. -/
def isPrimitive (d : DType) : Bool := isFundamental d && 3 ≤ d.t0 && d.t0 ≤ 17

/-- The body of the visitor, 186–197. (`Visit` also passes the built-in numbers and string views, `dtype.cc` 36–38: all of them are primitive and skipped.) -/
def visit (m : Map) (p : Name × DType) : Map :=
  if isPtr p.2 then m.set p.1 (p.2, none)
  else if !isPrimitive p.2 then m.set p.1 (if p.2.container = COLLECTION_SIMD_VECTOR then p.2 else toPtr p.2, none)
  else m

/-- The name under which a schema is known, 204–208. -/
def label (s : Name) (table : Bool) : Name := if table then 't' :: 'a' :: 'b' :: 'l' :: 'e' :: '<' :: (s ++ ['>']) else 'd' :: 'y' :: 'n' :: '_' :: 'o' :: 'b' :: 'j' :: '<' :: (s ++ ['>'])

/-- `DType(DATA_DYN_OBJECT).ToPtr()` -/
def dynObjPtr : DType := toPtr (.mk 0 0 22 0 0 [])

/-- The body of the loop over the schemas, 202–214. -/
def visitSchema (m : Map) (p : Name × Bool) : Map := m.set (label p.1 p.2) (dynObjPtr, some p.1)

/-- `Symbols::Init`, 151–216, with the two hash maps visited in the given orders. -/
def init (ts : List (Name × DType)) (ss : List (Name × Bool)) (m : Map) : Map := ss.foldl visitSchema (ts.foldl visit (builtins.foldl (fun m p => m.set p.1 p.2) m))

/-- The state of the process: the types of `DTypeFactory`, the schemas, the symbols, the flag of `call_once`. -/
structure State where
  types : List (Name × DType) := []
  schemas : List (Name × Bool) := []
  map : Map := fun _ => none
  once : Bool := false

/-- What a program does: register a type, register a schema, create a compiler, compile something (the parser looks up names). -/
inductive Ev where
  | addType (n : Name) (d : DType)
  | addSchema (n : Name) (table : Bool)
  | newCompiler
  | lookup

/-- One event. `Init` visits the hash maps in any order. -/
inductive Step : State → Ev → State → Prop
  /-- `DTypeFactory::Add` refuses pointers and names that are taken. -/
  | addType (s n d) : Step s (.addType n d) (if isPtr d || (s.types.lookup n).isSome then s else { s with types := s.types ++ [(n, d)] })
  /-- `GetOrCreate` returns the schema there is. -/
  | addSchema (s n k) : Step s (.addSchema n k) (if (s.schemas.lookup n).isSome then s else { s with schemas := s.schemas ++ [(n, k)] })
  | newCompiler (s : State) (ts : List (Name × DType)) (ss : List (Name × Bool)) (ht : ts.Perm s.types) (hs : ss.Perm s.schemas) : Step s .newCompiler { s with map := init ts ss s.map }
  | lookupFirst (s : State) (ts : List (Name × DType)) (ss : List (Name × Bool)) (ho : s.once = false) (ht : ts.Perm s.types) (hs : ss.Perm s.schemas) : Step s .lookup { s with map := init ts ss s.map, once := true }
  | lookup (s) (ho : s.once = true) : Step s .lookup s

/-- A run from the start of the process. -/
inductive Run : List Ev → State → Prop
  | nil : Run [] {}
  | snoc (h s e s') : Run h s → Step s e s' → Run (h ++ [e]) s'

/-! ## Specification -/

/-- The type registered under a name: the first one, pointers do not count. -/
def typeOf (h : List Ev) (n : Name) : Option DType :=
  h.findSome? fun e => match e with
    | .addType m d => if m = n ∧ isPtr d = false then some d else none
    | _ => none

/-- Whether the schema registered under a name is that of a table. -/
def schemaOf (h : List Ev) (n : Name) : Option Bool :=
  h.findSome? fun e => match e with
    | .addSchema m k => if m = n then some k else none
    | _ => none

/-- What a script writes for a value of a type: vectors are passed as they are, other objects by pointer. -/
def scriptForm (d : DType) : DType := if d.container = COLLECTION_SIMD_VECTOR then d else toPtr d

/-- How a script names a schema: `table<users>`, `dyn_obj<user>`. -/
def schemaText (x : Name) (table : Bool) : Name := (if table then "table".toList else "dyn_obj".toList) ++ '<' :: x ++ ['>']

/-- The built-in names: four names borrowed from C++, `bool`, the names of the fundamental types from `void` to `string_view` (but `pointer` and `bit`), and three objects passed by pointer. -/
def builtinMeaning (n : Name) : Option Sym :=
  (([("int".toList, (.mk 0 0 9 0 0 [], none)), ("long".toList, (.mk 0 0 11 0 0 [], none)), ("float".toList, (.mk 0 0 13 0 0 [], none)), ("double".toList, (.mk 0 0 14 0 0 [], none)),
     ("bool".toList, (.mk 0 0 3 0 0 [], none))] : List (Name × Sym)).lookup n).or
  ((Verif.Types.Names.fundamentalStrs.idxOf? n).bind fun i =>
    if i = 1 ∨ (4 ≤ i ∧ i ≤ 17) then some (.mk 0 0 i 0 0 [], none)
    else if i = 18 ∨ i = 20 ∨ i = 21 then some (.mk 0 1 i 0 0 [], none)
    else none)

/-- Booleans, numbers and string views: nothing is passed by pointer. -/
def Primitive (d : DType) : Bool := isFundamental d && [3, 4, 5, 6, 7, 8, 9, 10, 11, 12, 13, 14, 15, 16, 17].contains d.t0

/-- The meaning of a name of a type, given the registrations. -/
inductive Means (h : List Ev) (n : Name) : Sym → Prop
  | schema (x k) (hx : schemaOf h x = some k) (hn : n = schemaText x k) : Means h n (dynObjPtr, some x)
  | type (d) (hs : ∀ x k, schemaOf h x = some k → n ≠ schemaText x k) (hd : typeOf h n = some d) (hp : Primitive d = false) : Means h n (scriptForm d, none)
  | builtin (s) (hs : ∀ x k, schemaOf h x = some k → n ≠ schemaText x k) (hd : ∀ d, typeOf h n = some d → Primitive d = true) (hb : builtinMeaning n = some s) : Means h n s

/-- The part of a history that a script can know of: what came before the last creation of a compiler, or before the first compilation if that is later. The first component is the history so far,
the second the part, the third tells whether something was compiled. -/
def seenAux (a : List Ev × Option (List Ev) × Bool) (e : Ev) : List Ev × Option (List Ev) × Bool :=
  match e with
  | .newCompiler => (a.1 ++ [e], some a.1, a.2.2)
  | .lookup => (a.1 ++ [e], if a.2.2 then a.2.1 else some a.1, true)
  | _ => (a.1 ++ [e], a.2)

def seen (h : List Ev) : Option (List Ev) := (h.foldl seenAux ([], none, false)).2.1

/-! ## Lemmas -/

theorem label_inj {x y : Name} {j k : Bool} (h : label x j = label y k) : x = y ∧ j = k := by
  cases j <;> cases k <;> simp [label] at h ⊢ <;> exact h

theorem label_eq (x : Name) (k : Bool) : schemaText x k = label x k := by
  cases k <;> rfl

theorem schemaText_inj {x y : Name} {j k : Bool} (h : schemaText x j = schemaText y k) : x = y ∧ j = k := by
  rw [label_eq, label_eq] at h
  exact label_inj h

theorem builtin_keys1 : builtins.map (fun p => builtinMeaning p.1) = builtins.map (fun p => some p.2) := by rfl

theorem builtin_keys2 :
    (["int".toList, "long".toList, "float".toList, "double".toList, "bool".toList] ++ Verif.Types.Names.fundamentalStrs : List Name).map (fun n => builtins.lookup n) =
    (["int".toList, "long".toList, "float".toList, "double".toList, "bool".toList] ++ Verif.Types.Names.fundamentalStrs : List Name).map (fun n => builtinMeaning n) := by rfl

theorem builtin_keys : (∀ p ∈ builtins, builtinMeaning p.1 = some p.2) ∧
    (∀ n ∈ (["int".toList, "long".toList, "float".toList, "double".toList, "bool".toList] ++ Verif.Types.Names.fundamentalStrs : List Name), builtins.lookup n = builtinMeaning n) :=
  ⟨List.map_inj_left.1 builtin_keys1, List.map_inj_left.1 builtin_keys2⟩

theorem builtin_eq (n : Name) : builtinMeaning n = builtins.lookup n := by
  by_cases h : n ∈ (["int".toList, "long".toList, "float".toList, "double".toList, "bool".toList] ++ Verif.Types.Names.fundamentalStrs : List Name)
  · exact (builtin_keys.2 n h).symm
  · cases hl : builtins.lookup n with
    | some v =>
      obtain ⟨l1, l2, hl', _⟩ := List.lookup_eq_some_iff.1 hl
      exact builtin_keys.1 (n, v) (by rw [hl']; simp)
    | none =>
      have h1 : Verif.Types.Names.fundamentalStrs.idxOf? n = none := by
        rw [List.idxOf?_eq_none_iff]
        intro hm; exact h (List.mem_append_right _ hm)
      have h2 : ∀ m ∈ ["int".toList, "long".toList, "float".toList, "double".toList, "bool".toList], (n == m) = false := by
        intro m hm
        simp only [beq_eq_false_iff_ne, ne_eq]
        rintro rfl
        exact h (List.mem_append_left _ hm)
      unfold builtinMeaning
      rw [h1]
      simp only [List.lookup, h2 "int".toList (by simp), h2 "long".toList (by simp), h2 "float".toList (by simp), h2 "double".toList (by simp), h2 "bool".toList (by simp)]
      rfl

/-- Writing the entries of a list with distinct keys, in any order. -/
theorem foldl_set {α : Type} (key : α → Name) (val : α → Option Sym) (f : Map → α → Map) (hf : ∀ m a k, f m a k = if k = key a ∧ (val a).isSome then val a else m k) :
    ∀ (l : List α), (l.map key).Nodup → ∀ (m : Map) (k : Name),
      (∀ a ∈ l, key a = k → l.foldl f m k = if (val a).isSome then val a else m k) ∧ ((∀ a ∈ l, key a ≠ k) → l.foldl f m k = m k)
  | [], _, m, k => ⟨fun a h => by simp at h, fun _ => rfl⟩
  | b :: l, hn, m, k => by
    rw [List.map_cons, List.nodup_cons] at hn
    obtain ⟨i1, i2⟩ := foldl_set key val f hf l hn.2 (f m b) k
    rw [List.foldl_cons]
    constructor
    · intro a ha hk
      rcases List.mem_cons.1 ha with rfl | ha
      · rw [i2]
        · rw [hf]; subst hk; simp
        · intro c hc hck
          exact hn.1 (List.mem_map.2 ⟨c, hc, by rw [hck, hk]⟩)
      · rw [i1 a ha hk, hf]
        have : k ≠ key b := by
          intro e
          exact hn.1 (List.mem_map.2 ⟨a, ha, by rw [hk, e]⟩)
        simp [this]
    · intro ha
      rw [i2 (fun a h => ha a (List.mem_cons_of_mem _ h)), hf]
      have : k ≠ key b := fun e => ha b List.mem_cons_self e.symm
      simp [this]

theorem builtins_nodup : (builtins.map Prod.fst).Nodup := by decide +kernel

theorem lookup_of_mem {β : Type} : ∀ (l : List (Name × β)), (l.map Prod.fst).Nodup → ∀ (p : Name × β), p ∈ l → l.lookup p.1 = some p.2
  | [], _, p, h => by simp at h
  | q :: l, hn, p, h => by
    rw [List.map_cons, List.nodup_cons] at hn
    rcases List.mem_cons.1 h with rfl | h
    · simp [List.lookup]
    · have : p.1 ≠ q.1 := fun e => hn.1 (e ▸ List.mem_map.2 ⟨p, h, rfl⟩)
      have hb : (p.1 == q.1) = false := by simp [this]
      simp only [List.lookup, hb]
      exact lookup_of_mem l hn.2 p h

theorem mem_of_lookup {β : Type} (l : List (Name × β)) (n : Name) (b : β) (h : l.lookup n = some b) : (n, b) ∈ l := by
  obtain ⟨l1, l2, rfl, _⟩ := List.lookup_eq_some_iff.1 h
  simp

/-- What `Init` makes of the map. -/
theorem prim_eq (d : DType) : isPrimitive d = Primitive d := by
  unfold isPrimitive Primitive
  rw [Bool.eq_iff_iff]
  simp only [Bool.and_eq_true, decide_eq_true_eq, List.contains_iff_mem, List.mem_cons, List.not_mem_nil, or_false]
  constructor
  · rintro ⟨⟨h, h1⟩, h2⟩; exact ⟨h, by omega⟩
  · rintro ⟨h, h1⟩; exact ⟨⟨h, by omega⟩, by omega⟩

theorem init_spec (ts : List (Name × DType)) (ss : List (Name × Bool)) (ht : (ts.map Prod.fst).Nodup) (hs : (ss.map Prod.fst).Nodup) (hp : ∀ p ∈ ts, isPtr p.2 = false) (m : Map) (n : Name) :
    (∀ x k, (x, k) ∈ ss → n = label x k → init ts ss m n = some (dynObjPtr, some x)) ∧
    ((∀ x k, (x, k) ∈ ss → n ≠ label x k) → ∀ d, (n, d) ∈ ts → Primitive d = false → init ts ss m n = some (scriptForm d, none)) ∧
    ((∀ x k, (x, k) ∈ ss → n ≠ label x k) → (∀ d, (n, d) ∈ ts → Primitive d = true) → init ts ss m n = (builtins.lookup n).or (m n)) := by
  have hsn : (ss.map fun p => label p.1 p.2).Nodup := by
    clear ht hp
    induction ss with
    | nil => simp
    | cons p ss ih =>
      rw [List.map_cons, List.nodup_cons] at hs ⊢
      refine ⟨?_, ih hs.2⟩
      intro hm
      obtain ⟨q, hq, he⟩ := List.mem_map.1 hm
      exact hs.1 (List.mem_map.2 ⟨q, hq, (label_inj he).1⟩)
  have S := foldl_set (fun p : Name × Bool => label p.1 p.2) (fun p => some (dynObjPtr, some p.1)) visitSchema (fun m a k => by simp [visitSchema, Map.set]) ss hsn
  have T := foldl_set (fun p : Name × DType => p.1) (fun p => if Primitive p.2 then none else some (if isPtr p.2 then p.2 else scriptForm p.2, none)) visit
    (fun m a k => by
      unfold visit scriptForm
      by_cases h1 : isPtr a.2 = true
      · have : Primitive a.2 = false := by
          simp only [isPtr, beq_iff_eq] at h1
          simp [Primitive, isFundamental, h1]
        simp [h1, this, Map.set]
      · by_cases h2 : Primitive a.2 = true <;> simp [prim_eq, h1, h2, Map.set]) ts ht
  have B := foldl_set (fun p : Name × Sym => p.1) (fun p => some p.2) (fun m p => m.set p.1 p.2) (fun m a k => by simp [Map.set]) builtins builtins_nodup
  refine ⟨?_, ?_, ?_⟩
  · intro x k hx hn
    have := (S (ts.foldl visit (builtins.foldl (fun m p => m.set p.1 p.2) m)) n).1 (x, k) hx hn.symm
    unfold init
    rw [this]; rfl
  · intro hno d hd hpr
    unfold init
    rw [(S _ n).2 (fun a ha e => hno a.1 a.2 ha e.symm), (T _ n).1 (n, d) hd rfl]
    have := hp (n, d) hd
    simp only at this
    simp [hpr, this]
  · intro hno hall
    unfold init
    rw [(S _ n).2 (fun a ha e => hno a.1 a.2 ha e.symm)]
    have hT : ts.foldl visit (builtins.foldl (fun m p => m.set p.1 p.2) m) n = builtins.foldl (fun m p => m.set p.1 p.2) m n := by
      by_cases hex : ∃ a ∈ ts, a.1 = n
      · obtain ⟨a, ha, rfl⟩ := hex
        rw [(T _ a.1).1 a ha rfl, hall a.2 ha]
        simp
      · exact (T _ n).2 (fun a ha e => hex ⟨a, ha, e⟩)
    rw [hT]
    cases hl : builtins.lookup n with
    | some s =>
      have := (B m n).1 (n, s) (mem_of_lookup _ _ _ hl) rfl
      rw [this]; rfl
    | none =>
      have : ∀ a ∈ builtins, a.1 ≠ n := by
        intro a ha e
        have := lookup_of_mem _ builtins_nodup a ha
        rw [e, hl] at this
        simp at this
      rw [(B m n).2 this]; rfl

/-- The registries after a history. -/
structure Regs (s : State) (h : List Ev) : Prop where
  tn : (s.types.map Prod.fst).Nodup
  sn : (s.schemas.map Prod.fst).Nodup
  tp : ∀ p ∈ s.types, isPtr p.2 = false
  types : ∀ n, s.types.lookup n = typeOf h n
  schemas : ∀ n, s.schemas.lookup n = schemaOf h n

theorem lookup_snoc {β : Type} (l : List (Name × β)) (p : Name × β) (a : Name) : (l ++ [p]).lookup a = (l.lookup a).or (if a = p.1 then some p.2 else none) := by
  induction l with
  | nil =>
    by_cases h : a = p.1
    · simp [List.lookup, h]
    · have hb : (a == p.1) = false := by simp [h]
      simp [List.lookup, h, hb]
  | cons q l ih => simp only [List.cons_append, List.lookup]; cases h : a == q.1 <;> simp [ih]

theorem nodup_snoc {β : Type} (l : List (Name × β)) (p : Name × β) (h : (l.map Prod.fst).Nodup) (hn : l.lookup p.1 = none) : ((l ++ [p]).map Prod.fst).Nodup := by
  rw [List.map_append, List.nodup_append]
  refine ⟨h, by simp, ?_⟩
  intro a ha b hb hab
  simp only [List.map_cons, List.map_nil, List.mem_singleton] at hb
  obtain ⟨q, hq, rfl⟩ := List.mem_map.1 ha
  have := List.lookup_eq_none_iff.1 hn q hq
  rw [hb] at hab
  simp [hab] at this

theorem typeOf_snoc (h : List Ev) (e : Ev) (n : Name) : typeOf (h ++ [e]) n = (typeOf h n).or (typeOf [e] n) := by
  unfold typeOf; rw [List.findSome?_append]

theorem schemaOf_snoc (h : List Ev) (e : Ev) (n : Name) : schemaOf (h ++ [e]) n = (schemaOf h n).or (schemaOf [e] n) := by
  unfold schemaOf; rw [List.findSome?_append]

theorem regs_step (s : State) (h : List Ev) (H : Regs s h) (e : Ev) (s' : State) (hs : Step s e s') : Regs s' (h ++ [e]) := by
  have keep : ∀ (m : Map) (o : Bool), (∀ n, typeOf [e] n = none) → (∀ n, schemaOf [e] n = none) → Regs { s with map := m, once := o } (h ++ [e]) := by
    intro m o h1 h2
    refine ⟨H.tn, H.sn, H.tp, fun n => ?_, fun n => ?_⟩
    · rw [typeOf_snoc, h1, Option.or_none]; exact H.types n
    · rw [schemaOf_snoc, h2, Option.or_none]; exact H.schemas n
  cases hs with
  | addType n d =>
    have e1 : ∀ k, typeOf [Ev.addType n d] k = if n = k ∧ isPtr d = false then some d else none := by
      intro k; simp only [typeOf, List.findSome?_cons, List.findSome?_nil]
      by_cases hk : n = k ∧ isPtr d = false <;> simp [hk]
    have e2 : ∀ k, schemaOf [Ev.addType n d] k = none := fun k => rfl
    split
    · rename_i hc
      refine ⟨H.tn, H.sn, H.tp, fun k => ?_, fun k => ?_⟩
      · rw [typeOf_snoc, e1, H.types]
        rcases Bool.or_eq_true _ _ |>.mp hc with hc | hc
        · simp [hc]
        · by_cases hk : n = k
          · subst hk; rw [H.types] at hc
            obtain ⟨x, hx⟩ := Option.isSome_iff_exists.1 hc
            rw [hx]; rfl
          · simp [hk]
      · rw [schemaOf_snoc, e2, Option.or_none]; exact H.schemas k
    · rename_i hc
      simp only [Bool.or_eq_true, not_or, Bool.not_eq_true, Option.isSome_eq_false_iff, Option.isNone_iff_eq_none] at hc
      refine ⟨nodup_snoc _ _ H.tn hc.2, H.sn, ?_, fun k => ?_, fun k => ?_⟩
      · intro p hp
        rcases List.mem_append.1 hp with hp | hp
        · exact H.tp p hp
        · simp only [List.mem_singleton] at hp; rw [hp]; exact hc.1
      · rw [lookup_snoc, H.types, typeOf_snoc, e1]
        by_cases hk : k = n
        · subst hk; simp [hc.1]
        · simp [hk, Ne.symm hk]
      · rw [schemaOf_snoc, e2, Option.or_none]; exact H.schemas k
  | addSchema n k =>
    have e1 : ∀ j, schemaOf [Ev.addSchema n k] j = if n = j then some k else none := by
      intro j; simp only [schemaOf, List.findSome?_cons, List.findSome?_nil]
      split <;> simp_all
    have e2 : ∀ j, typeOf [Ev.addSchema n k] j = none := fun j => rfl
    split
    · rename_i hc
      refine ⟨H.tn, H.sn, H.tp, fun j => ?_, fun j => ?_⟩
      · rw [typeOf_snoc, e2, Option.or_none]; exact H.types j
      · rw [schemaOf_snoc, e1, H.schemas]
        by_cases hj : n = j
        · subst hj; rw [H.schemas] at hc
          obtain ⟨x, hx⟩ := Option.isSome_iff_exists.1 hc
          rw [hx]; rfl
        · simp [hj]
    · rename_i hc
      simp only [Bool.not_eq_true, Option.isSome_eq_false_iff, Option.isNone_iff_eq_none] at hc
      refine ⟨H.tn, nodup_snoc _ _ H.sn hc, H.tp, fun j => ?_, fun j => ?_⟩
      · rw [typeOf_snoc, e2, Option.or_none]; exact H.types j
      · rw [lookup_snoc, H.schemas, schemaOf_snoc, e1]
        by_cases hj : j = n
        · subst hj; simp
        · simp [hj, Ne.symm hj]
  | newCompiler ts ss ht hss => exact keep _ _ (fun _ => rfl) (fun _ => rfl)
  | lookupFirst ts ss ho ht hss => exact keep _ _ (fun _ => rfl) (fun _ => rfl)
  | lookup ho => exact keep s.map s.once (fun _ => rfl) (fun _ => rfl)

theorem typeOf_prefix {p h : List Ev} (hp : p <+: h) {n : Name} {d : DType} (ht : typeOf p n = some d) : typeOf h n = some d := by
  obtain ⟨q, rfl⟩ := hp
  unfold typeOf at ht ⊢
  rw [List.findSome?_append, ht]; rfl

theorem schemaOf_prefix {p h : List Ev} (hp : p <+: h) {n : Name} {k : Bool} (ht : schemaOf p n = some k) : schemaOf h n = some k := by
  obtain ⟨q, rfl⟩ := hp
  unfold schemaOf at ht ⊢
  rw [List.findSome?_append, ht]; rfl

theorem perm_mem_lookup {β : Type} {l l' : List (Name × β)} (hp : l'.Perm l) (hn : (l.map Prod.fst).Nodup) (n : Name) (b : β) : (n, b) ∈ l' ↔ l.lookup n = some b := by
  rw [hp.mem_iff]
  constructor
  · intro h; exact lookup_of_mem l hn (n, b) h
  · intro h; exact mem_of_lookup l n b h

/-- After `Init` the symbols are those of the history so far, if they were those of an earlier part before. -/
theorem init_means (s : State) (h p : List Ev) (H : Regs s h) (hp : p <+: h) (hm : ∀ n sym, s.map n = some sym → Means p n sym) (ts : List (Name × DType)) (ss : List (Name × Bool))
    (ht : ts.Perm s.types) (hs : ss.Perm s.schemas) (n : Name) (sym : Sym) : init ts ss s.map n = some sym ↔ Means h n sym := by
  have htn : (ts.map Prod.fst).Nodup := ((ht.map Prod.fst).nodup_iff).2 H.tn
  have hsn : (ss.map Prod.fst).Nodup := ((hs.map Prod.fst).nodup_iff).2 H.sn
  obtain ⟨i1, i2, i3⟩ := init_spec ts ss htn hsn (fun q hq => H.tp q (ht.mem_iff.1 hq)) s.map n
  simp only [← label_eq, ← builtin_eq] at i1 i2 i3
  have mt : ∀ n d, (n, d) ∈ ts ↔ typeOf h n = some d := fun n d => by rw [perm_mem_lookup ht H.tn, H.types]
  have ms : ∀ x k, (x, k) ∈ ss ↔ schemaOf h x = some k := fun x k => by rw [perm_mem_lookup hs H.sn, H.schemas]
  by_cases hsch : ∃ x k, schemaOf h x = some k ∧ n = schemaText x k
  · obtain ⟨x, k, hx, hn⟩ := hsch
    rw [i1 x k ((ms x k).2 hx) hn]
    constructor
    · intro e; rw [← Option.some.inj e]; exact .schema x k hx hn
    · intro hM
      cases hM with
      | schema y j hy hn' =>
        rw [(schemaText_inj (hn.symm.trans hn')).1]
      | type d hs' _ _ => exact absurd hn (hs' x k hx)
      | builtin _ hs' _ _ => exact absurd hn (hs' x k hx)
  · have hno : ∀ x k, schemaOf h x = some k → n ≠ schemaText x k := fun x k hx hn => hsch ⟨x, k, hx, hn⟩
    have hno' : ∀ x k, (x, k) ∈ ss → n ≠ schemaText x k := fun x k hx => hno x k ((ms x k).1 hx)
    by_cases hty : ∃ d, typeOf h n = some d ∧ Primitive d = false
    · obtain ⟨d, hd, hpr⟩ := hty
      rw [i2 hno' d ((mt n d).2 hd) hpr]
      constructor
      · intro e; rw [← Option.some.inj e]; exact .type d hno hd hpr
      · intro hM
        cases hM with
        | schema y j hy hn' => exact absurd hn' (hno y j hy)
        | type d' _ hd' _ => rw [hd] at hd'; rw [Option.some.inj hd']
        | builtin _ _ hd' _ =>
          have := hd' d hd
          rw [hpr] at this
          simp at this
    · have hall : ∀ d, typeOf h n = some d → Primitive d = true := by
        intro d hd
        cases hq : Primitive d
        · exact absurd ⟨d, hd, hq⟩ hty
        · rfl
      rw [i3 hno' (fun d hd => hall d ((mt n d).1 hd))]
      cases hb : builtinMeaning n with
      | some v =>
        constructor
        · intro e
          have : v = sym := by simpa using e
          rw [← this]
          exact .builtin v hno hall hb
        · intro hM
          cases hM with
          | schema y j hy hn' => exact absurd hn' (hno y j hy)
          | type d' _ hd' hp' => rw [hall d' hd'] at hp'; simp at hp'
          | builtin v' _ _ hb' => rw [hb] at hb'; exact hb'
      | none =>
        constructor
        · intro e
          have e' : s.map n = some sym := by simpa using e
          have hM := hm n sym e'
          cases hM with
          | schema y j hy hn' => exact absurd hn' (hno y j (schemaOf_prefix hp hy))
          | type d' _ hd' hp' => rw [hall d' (typeOf_prefix hp hd')] at hp'; simp at hp'
          | builtin v' _ _ hb' => rw [hb] at hb'; simp at hb'
        · intro hM
          cases hM with
          | schema y j hy hn' => exact absurd hn' (hno y j hy)
          | type d' _ hd' hp' => rw [hall d' hd'] at hp'; simp at hp'
          | builtin v' _ _ hb' => rw [hb] at hb'; simp at hb'

theorem seen_fold (h : List Ev) (e : Ev) : (h ++ [e]).foldl seenAux ([], none, false) = seenAux (h.foldl seenAux ([], none, false)) e := by
  rw [List.foldl_append]; rfl

/-- The invariant of runs. -/
structure Inv (h : List Ev) (s : State) : Prop where
  regs : Regs s h
  fold : h.foldl seenAux ([], none, false) = (h, seen h, s.once)
  none_ : seen h = none → (∀ n, s.map n = none) ∧ s.once = false
  some_ : ∀ p, seen h = some p → p <+: h ∧ ∀ n sym, s.map n = some sym ↔ Means p n sym

theorem inv_init (h : List Ev) (s : State) (I : Inv h s) (ts : List (Name × DType)) (ss : List (Name × Bool)) (ht : ts.Perm s.types) (hs : ss.Perm s.schemas) (n : Name) (sym : Sym) :
    init ts ss s.map n = some sym ↔ Means h n sym := by
  cases hp : seen h with
  | none =>
    refine init_means s h h I.regs (List.prefix_refl h) ?_ ts ss ht hs n sym
    intro n sym e
    rw [(I.none_ hp).1] at e
    simp at e
  | some p =>
    obtain ⟨h1, h2⟩ := I.some_ p hp
    exact init_means s h p I.regs h1 (fun n sym e => (h2 n sym).1 e) ts ss ht hs n sym

theorem run_inv (h : List Ev) (s : State) (r : Run h s) : Inv h s := by
  induction r with
  | nil =>
    refine ⟨⟨by simp, by simp, by simp, fun n => rfl, fun n => rfl⟩, rfl, fun _ => ⟨fun _ => rfl, rfl⟩, fun p hp => ?_⟩
    simp [seen] at hp
  | snoc h s e s' r hst I =>
    have R := regs_step s h I.regs e s' hst
    have F := seen_fold h e
    rw [I.fold] at F
    cases hst with
    | addType n d =>
      have hsn : seen (h ++ [Ev.addType n d]) = seen h := by unfold seen; rw [F]; rfl
      refine ⟨R, ?_, ?_, ?_⟩
      · rw [F, hsn]; split <;> rfl
      · intro hn; rw [hsn] at hn; split <;> exact I.none_ hn
      · intro p hp; rw [hsn] at hp
        obtain ⟨h1, h2⟩ := I.some_ p hp
        refine ⟨h1.trans (List.prefix_append _ _), ?_⟩
        split <;> exact h2
    | addSchema n k =>
      have hsn : seen (h ++ [Ev.addSchema n k]) = seen h := by unfold seen; rw [F]; rfl
      refine ⟨R, ?_, ?_, ?_⟩
      · rw [F, hsn]; split <;> rfl
      · intro hn; rw [hsn] at hn; split <;> exact I.none_ hn
      · intro p hp; rw [hsn] at hp
        obtain ⟨h1, h2⟩ := I.some_ p hp
        refine ⟨h1.trans (List.prefix_append _ _), ?_⟩
        split <;> exact h2
    | newCompiler ts ss ht hs =>
      have hsn : seen (h ++ [Ev.newCompiler]) = some h := by unfold seen; rw [F]; rfl
      refine ⟨R, ?_, ?_, ?_⟩
      · rw [F, hsn]; rfl
      · intro hn; rw [hsn] at hn; simp at hn
      · intro p hp; rw [hsn] at hp
        rw [← Option.some.inj hp]
        exact ⟨List.prefix_append _ _, fun n sym => inv_init h s I ts ss ht hs n sym⟩
    | lookupFirst ts ss ho ht hs =>
      have hsn : seen (h ++ [Ev.lookup]) = some h := by unfold seen; rw [F]; simp [seenAux, ho]
      refine ⟨R, ?_, ?_, ?_⟩
      · rw [F, hsn]; simp [seenAux, ho]
      · intro hn; rw [hsn] at hn; simp at hn
      · intro p hp; rw [hsn] at hp
        rw [← Option.some.inj hp]
        exact ⟨List.prefix_append _ _, fun n sym => inv_init h s I ts ss ht hs n sym⟩
    | lookup ho =>
      have hsn : seen (h ++ [Ev.lookup]) = seen h := by unfold seen; rw [F]; simp [seenAux, ho, seen]
      refine ⟨R, ?_, ?_, ?_⟩
      · rw [F, hsn]; simp [seenAux, ho]
      · intro hn; rw [hsn] at hn; exact absurd ((I.none_ hn).2) (by rw [ho]; simp)
      · intro p hp; rw [hsn] at hp
        obtain ⟨h1, h2⟩ := I.some_ p hp
        exact ⟨h1.trans (List.prefix_append _ _), h2⟩

/-! ## C133 -/

/-- **C133 (part).** In every run, a script compiled now knows a name of a type if and only if it is a built-in name or was registered before the last creation of a compiler (or before the first
compilation, if that is later); and the name then means what was registered first. -/
theorem type_names_known_partial (h : List Ev) (s s' : State) (r : Run h s) (hl : Step s .lookup s') (n : Name) (sym : Sym) :
    s'.map n = some sym ↔ ∃ p, seen (h ++ [.lookup]) = some p ∧ Means p n sym := by
  have I := run_inv _ _ (Run.snoc h s _ s' r hl)
  constructor
  · intro e
    cases hp : seen (h ++ [Ev.lookup]) with
    | none => rw [(I.none_ hp).1] at e; simp at e
    | some p => exact ⟨p, rfl, ((I.some_ p hp).2 n sym).1 e⟩
  · rintro ⟨p, hp, hM⟩
    exact ((I.some_ p hp).2 n sym).2 hM

/-- **C133 (part).** In particular: if a compiler was created after the last registration, every registered type and every registered schema is known to all scripts. -/
theorem registered_before_compiler_known (h post : List Ev) (hpost : ∀ e ∈ post, e = .lookup ∨ e = .newCompiler) (s s' : State) (r : Run (h ++ .newCompiler :: post) s)
    (hl : Step s .lookup s') (n : Name) (sym : Sym) : s'.map n = some sym ↔ Means h n sym := by
  rw [type_names_known_partial _ s s' r hl]
  have reg : ∀ q : List Ev, (∀ e ∈ q, e = .lookup ∨ e = .newCompiler) → ∀ g, typeOf (g ++ q) = typeOf g ∧ schemaOf (g ++ q) = schemaOf g := by
    intro q hq g
    constructor <;> funext m
    · unfold typeOf
      have hz : ∀ f : Ev → Option DType, (f .lookup = none) → (f .newCompiler = none) → q.findSome? f = none := by
        intro f h1 h2
        refine List.findSome?_eq_none_iff.2 ?_
        intro e he
        rcases hq e he with rfl | rfl
        · exact h1
        · exact h2
      rw [List.findSome?_append, hz _ rfl rfl, Option.or_none]
    · unfold schemaOf
      have hz : ∀ f : Ev → Option Bool, (f .lookup = none) → (f .newCompiler = none) → q.findSome? f = none := by
        intro f h1 h2
        refine List.findSome?_eq_none_iff.2 ?_
        intro e he
        rcases hq e he with rfl | rfl
        · exact h1
        · exact h2
      rw [List.findSome?_append, hz _ rfl rfl, Option.or_none]
  -- the part seen is the history followed by events that register nothing
  have key : ∀ (q : List Ev), (∀ e ∈ q, e = .lookup ∨ e = .newCompiler) → ∀ (a : List Ev × Option (List Ev) × Bool),
      (∃ t, a.1 = h ++ t ∧ ∀ e ∈ t, e = .lookup ∨ e = .newCompiler) → (∃ t, a.2.1 = some (h ++ t) ∧ ∀ e ∈ t, e = .lookup ∨ e = .newCompiler) →
      ∃ t, (q.foldl seenAux a).2.1 = some (h ++ t) ∧ ∀ e ∈ t, e = Ev.lookup ∨ e = Ev.newCompiler := by
    intro q
    induction q with
    | nil => intro _ a _ h2; exact h2
    | cons e q ih =>
      intro hq a ⟨t1, e1, q1⟩ ⟨t2, e2, q2⟩
      rw [List.foldl_cons]
      have hq' : ∀ e ∈ q, e = Ev.lookup ∨ e = Ev.newCompiler := fun x hx => hq x (List.mem_cons_of_mem _ hx)
      have he := hq e List.mem_cons_self
      have hfst : (seenAux a e).1 = h ++ (t1 ++ [e]) := by
        rcases he with rfl | rfl <;> simp [seenAux, e1]
      refine ih hq' _ ⟨t1 ++ [e], hfst, ?_⟩ ?_
      · intro x hx
        rcases List.mem_append.1 hx with hx | hx
        · exact q1 x hx
        · simp only [List.mem_singleton] at hx; rw [hx]; exact he
      · rcases he with rfl | rfl
        · simp only [seenAux]
          by_cases ho : a.2.2 = true
          · exact ⟨t2, by rw [if_pos ho]; exact e2, q2⟩
          · exact ⟨t1, by rw [if_neg ho, e1], q1⟩
        · exact ⟨t1, by simp [seenAux, e1], q1⟩
  have hfold : (h.foldl seenAux ([], none, false)).1 = h := by
    have : ∀ (g : List Ev) (a : List Ev × Option (List Ev) × Bool), (g.foldl seenAux a).1 = a.1 ++ g := by
      intro g
      induction g with
      | nil => intro a; simp
      | cons e g ih =>
        intro a
        rw [List.foldl_cons, ih]
        cases e <;> simp [seenAux]
    simpa using this h ([], none, false)
  have hs : ∃ t, seen (h ++ .newCompiler :: post ++ [.lookup]) = some (h ++ t) ∧ ∀ e ∈ t, e = Ev.lookup ∨ e = Ev.newCompiler := by
    unfold seen
    rw [show h ++ Ev.newCompiler :: post ++ [Ev.lookup] = h ++ ([Ev.newCompiler] ++ (post ++ [Ev.lookup])) by simp, List.foldl_append, List.foldl_append]
    refine key (post ++ [.lookup]) ?_ _ ⟨[.newCompiler], ?_, by simp⟩ ⟨[], ?_, by simp⟩
    · intro e he
      rcases List.mem_append.1 he with he | he
      · exact hpost e he
      · simp only [List.mem_singleton] at he; exact Or.inl he
    · simp [seenAux, hfold]
    · simp [seenAux, hfold]
  obtain ⟨t, ht, hq⟩ := hs
  obtain ⟨r1, r2⟩ := reg t hq h
  have eq : Means (h ++ t) n sym ↔ Means h n sym := by
    constructor
    · intro hM
      cases hM with
      | schema x k hx hn => exact .schema x k (by rw [← r2]; exact hx) hn
      | type d h1 h2 h3 => exact .type d (by rw [← r2]; exact h1) (by rw [← r1]; exact h2) h3
      | builtin _ h1 h2 h3 => exact .builtin _ (by rw [← r2]; exact h1) (by rw [← r1]; exact h2) h3
    · intro hM
      cases hM with
      | schema x k hx hn => exact .schema x k (by rw [r2]; exact hx) hn
      | type d h1 h2 h3 => exact .type d (by rw [r2]; exact h1) (by rw [r1]; exact h2) h3
      | builtin _ h1 h2 h3 => exact .builtin _ (by rw [r2]; exact h1) (by rw [r1]; exact h2) h3
  rw [ht]
  constructor
  · rintro ⟨p, hp, hM⟩
    rw [← Option.some.inj hp] at hM
    exact eq.1 hM
  · intro hM
    exact ⟨_, rfl, eq.2 hM⟩

/-- **C133 fails.** A class registered after the compiler was created (and used once) is unknown to scripts, in every run. -/
theorem type_registered_later_unknown_violated (s s' : State) (r : Run [.newCompiler, .lookup, .addType "Foo".toList (.mk 0 0 64 0 0 [])] s) (hl : Step s .lookup s') :
    s'.map "Foo".toList = none := by
  have := type_names_known_partial _ s s' r hl "Foo".toList
  cases hm : s'.map "Foo".toList with
  | none => rfl
  | some sym =>
    obtain ⟨p, hp, hM⟩ := (this sym).1 hm
    have hp' : some [Ev.newCompiler] = some p := hp
    rw [← Option.some.inj hp'] at hM
    cases hM with
    | schema x k hx hn => simp [schemaOf] at hx
    | type d _ hd _ => simp [typeOf] at hd
    | builtin _ _ _ hb =>
      have hb0 : builtinMeaning "Foo".toList = none := by rw [builtin_eq]; decide +kernel
      rw [hb0] at hb; simp at hb

/-- There is such a run. -/
example : ∃ s s', Run [.newCompiler, .lookup, .addType "Foo".toList (.mk 0 0 64 0 0 [])] s ∧ Step s .lookup s' := by
  have r1 := Run.snoc [] {} _ _ .nil (.newCompiler {} _ _ (List.Perm.refl _) (List.Perm.refl _))
  have r2 := Run.snoc _ _ _ _ r1 (.lookupFirst _ _ _ rfl (List.Perm.refl _) (List.Perm.refl _))
  have r3 := Run.snoc _ _ _ _ r2 (.addType _ "Foo".toList (.mk 0 0 64 0 0 []))
  exact ⟨_, _, r3, .lookup _ rfl⟩

/-- **C133 fails.** A name given to a primitive type is registered and never known; the registration reports success. -/
theorem primitive_alias_unknown_violated (s s' : State) (r : Run [.addType "Score".toList (.mk 0 0 13 0 0 []), .newCompiler] s) (hl : Step s .lookup s') : s'.map "Score".toList = none := by
  have := registered_before_compiler_known [.addType "Score".toList (.mk 0 0 13 0 0 [])] [] (by simp) s s' r hl "Score".toList
  cases hm : s'.map "Score".toList with
  | none => rfl
  | some sym =>
    have hM := (this sym).1 hm
    cases hM with
    | schema x k hx hn => simp [schemaOf] at hx
    | type d _ hd hp =>
      have : typeOf [Ev.addType "Score".toList (.mk 0 0 13 0 0 [])] "Score".toList = some (.mk 0 0 13 0 0 []) := rfl
      rw [this] at hd
      rw [← Option.some.inj hd] at hp
      exact absurd hp (by decide)
    | builtin _ _ _ hb =>
      have hb0 : builtinMeaning "Score".toList = none := by rw [builtin_eq]; decide +kernel
      rw [hb0] at hb; simp at hb

/-- Not vacuous: such runs exist, and a class and a schema registered in time are known. -/
example : ∃ s s', Run [.addType "Foo".toList (.mk 0 0 64 0 0 []), .addSchema "users".toList true, .newCompiler] s ∧ Step s .lookup s' ∧
    s'.map "Foo".toList = some (.mk 0 1 64 0 0 [], none) ∧ s'.map "table<users>".toList = some (dynObjPtr, some "users".toList) := by
  have r1 := Run.snoc [] {} _ _ .nil (.addType {} "Foo".toList (.mk 0 0 64 0 0 []))
  have r2 := Run.snoc _ _ _ _ r1 (.addSchema _ "users".toList true)
  have r3 := Run.snoc _ _ _ _ r2 (.newCompiler _ _ _ (List.Perm.refl _) (List.Perm.refl _))
  refine ⟨_, _, r3, .lookupFirst _ _ _ rfl (List.Perm.refl _) (List.Perm.refl _), ?_, ?_⟩
  · rfl
  · rfl

end Verif.Ast.Symbols
