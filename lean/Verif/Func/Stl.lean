/-!
Methods of standard containers in scripts (reflect/stl.h 31–170): `v.get(i)`, `v.set(i, x)`,
`v.add(x)`, `v.size()`, `v.find(x)`, `v.contains(x)` of vectors, `contains`, `insert`, `size` of
sets and `contains`, `get`, `insert`, `size` of maps.

Numbers, pointers and strings travel by value between script and container (strings as
`StringView`); objects of other classes travel as pointers (`STLArgType`, 31–56).
-/
namespace Verif.Stl

/-- An element inside a container: its address and its value. -/
structure Elem (V : Type) where
  addr : Nat
  val : V
  deriving DecidableEq

/-- What a script holds: a value, or a pointer to an object (with the value of the object), or
the null pointer (`STLArgType<T>::arg_type`, reflect/stl.h 31–56). -/
inductive Arg (V : Type)
  | value (v : V)
  | object (addr : Nat) (v : V)
  | null
  deriving DecidableEq

/-- Outcomes of a method: a result, an exception, undefined behaviour (null dereferenced). -/
inductive Out (R : Type)
  | ok (r : R)
  | throws
  | undefined
  deriving DecidableEq

/-- `STLArgType<T>::value` (reflect/stl.h 34, 46, 53); `cls` says that `T` is another class than
a number, pointer or string. -/
def toArg {V : Type} (cls : Bool) (e : Elem V) : Arg V :=
  if cls = true then .object e.addr e.val else .value e.val

/-- `STLArgType<T>::from` (reflect/stl.h 39, 48, 54) -/
def fromArg {V : Type} : Arg V → Out V
  | .value v => .ok v
  | .object _ v => .ok v
  | .null => .undefined

/-- `element_v == val` (reflect/stl.h 73): contents of values, addresses of objects -/
def argEq {V : Type} [DecidableEq V] : Arg V → Arg V → Bool
  | .value a, .value b => decide (a = b)
  | .object a _, .object b _ => decide (a = b)
  | .null, .null => true
  | _, _ => false

/-- A vector: the elements (`none`: a null pointer to the container).  The elements of a real
vector lie at different addresses; `fresh` is the address the next element gets, the elements
are never moved (simplified: reallocation is not followed). -/
structure Vec (V : Type) where
  cls : Bool
  elems : List (Elem V)
  fresh : Nat

/-- `static_cast<int>` of a `size_t` (reflect/stl.h 74) -/
def toInt32 (i : Nat) : Int := (BitVec.ofNat 32 i).toInt

/-- The loop of `VectorHelper::find` (reflect/stl.h 71–76) -/
def findLoop {V : Type} [DecidableEq V] (cls : Bool) (x : Arg V) : Nat → List (Elem V) → Int
  | _, [] => -1
  | i, e :: es => if argEq (toArg cls e) x = true then toInt32 i else findLoop cls x (i + 1) es

/-- `VectorHelper::find` (reflect/stl.h 67–78) -/
def find {V : Type} [DecidableEq V] (v : Option (Vec V)) (x : Arg V) : Int :=
  match v with
  | none => -1
  | some v => findLoop v.cls x 0 v.elems

/-- `VectorHelper::contains` (reflect/stl.h 79–82) -/
def contains {V : Type} [DecidableEq V] (v : Option (Vec V)) (x : Arg V) : Bool :=
  decide (find v x > -1)

/-- `VectorHelper::get` (reflect/stl.h 61–66), `i` is the index as `size_t` -/
def get {V : Type} (v : Option (Vec V)) (i : Nat) : Out (Arg V) :=
  match v with
  | none => .throws
  | some v =>
    match v.elems[i]? with
    | none => .throws
    | some e => .ok (toArg v.cls e)

/-- `VectorHelper::add` (reflect/stl.h 83): no check of the pointer -/
def add {V : Type} (v : Option (Vec V)) (x : Arg V) : Out (Vec V) :=
  match v with
  | none => .undefined
  | some v =>
    match fromArg x with
    | .ok a => .ok { v with elems := v.elems ++ [⟨v.fresh, a⟩], fresh := v.fresh + 1 }
    | .throws => .throws
    | .undefined => .undefined

/-- `VectorHelper::set` (reflect/stl.h 84–91) -/
def set {V : Type} (v : Option (Vec V)) (i : Nat) (x : Arg V) : Out (Vec V) :=
  match v with
  | none => .throws
  | some v =>
    if v.elems.length > i then
      match v.elems[i]?, fromArg x with
      | some e, .ok a => .ok { v with elems := v.elems.set i ⟨e.addr, a⟩ }
      | _, .throws => .throws
      | _, _ => .undefined
    else .ok v

/-- `VectorHelper::size` (reflect/stl.h 92–97) -/
def size {V : Type} (v : Option (Vec V)) : Nat :=
  match v with
  | none => 0
  | some v => v.elems.length

/-! ### Vectors: specification -/

/-- The values a vector holds. -/
def vals {V : Type} (v : Vec V) : List V := v.elems.map Elem.val

/-- The value a script passes, if there is one. -/
def Arg.val? {V : Type} : Arg V → Option V
  | .value v => some v
  | .object _ v => some v
  | .null => none

/-- The arguments a script can pass to the methods of a vector of this kind. -/
def Fits {V : Type} (cls : Bool) : Arg V → Prop
  | .value _ => cls = false
  | .object _ _ => cls = true
  | .null => cls = true

theorem toInt32_small {i : Nat} (h : i < 2 ^ 31) : toInt32 i = i := by
  unfold toInt32
  rw [BitVec.toInt_eq_toNat_of_lt]
  · rw [BitVec.toNat_ofNat, Nat.mod_eq_of_lt (by omega)]
  · rw [BitVec.toNat_ofNat, Nat.mod_eq_of_lt (by omega)]; omega

theorem findLoop_spec {V : Type} [DecidableEq V] (x : V) : ∀ (es : List (Elem V)) (i : Nat),
    i + es.length ≤ 2 ^ 31 →
    findLoop false (.value x) i es =
      match (es.map Elem.val).findIdx? (fun y => decide (y = x)) with
      | some k => ((i + k : Nat) : Int)
      | none => -1 := by
  intro es
  induction es with
  | nil => intro i _; rfl
  | cons e es ih =>
    intro i h
    simp only [List.length_cons] at h
    simp only [findLoop, toArg, Bool.false_eq_true, if_false, argEq, List.map_cons,
      List.findIdx?_cons, decide_eq_true_eq]
    by_cases he : e.val = x
    · simp only [he, if_true]
      rw [toInt32_small (by omega)]
      simp
    · simp only [he, if_false]
      rw [ih (i + 1) (by omega)]
      cases (es.map Elem.val).findIdx? (fun y => decide (y = x)) with
      | none => rfl
      | some k => simp only [Option.map_some]; congr 1; omega

/-- **C106** (partial: for vectors of numbers, pointers and strings with at most 2³¹ elements;
the full claim is for vectors of all element types and is refuted by
`vector_find_object_violated` and `vector_find_large_violated`).  `find` gives the first place
where the value stands, −1 if there is none, and `contains` says whether there is one. -/
theorem vector_find_partial {V : Type} [DecidableEq V] (v : Vec V) (x : V)
    (hc : v.cls = false) (hs : (vals v).length ≤ 2 ^ 31) :
    (∀ k : Nat, find (some v) (.value x) = k ↔
      (vals v)[k]? = some x ∧ ∀ j, j < k → (vals v)[j]? ≠ some x) ∧
    (find (some v) (.value x) = -1 ↔ x ∉ vals v) ∧
    (contains (some v) (.value x) = true ↔ x ∈ vals v) := by
  have hl : v.elems.length ≤ 2 ^ 31 := by simpa [vals] using hs
  have hf := findLoop_spec x v.elems 0 (by omega)
  simp only [contains, find, hc]
  rw [hf]
  have hv : v.elems.map Elem.val = vals v := rfl
  rw [hv]
  cases h : (vals v).findIdx? (fun y => decide (y = x)) with
  | none =>
    have hn : x ∉ vals v := by
      rw [List.findIdx?_eq_none_iff] at h
      intro hx
      simpa using h x hx
    simp only
    refine ⟨?_, ?_, ?_⟩
    · intro k
      constructor
      · intro hk; omega
      · rintro ⟨hk, -⟩; exact absurd (List.mem_of_getElem? hk) hn
    · exact ⟨fun _ => hn, fun _ => trivial⟩
    · constructor
      · intro hc; simp at hc
      · intro hx; exact absurd hx hn
  | some m =>
    rw [List.findIdx?_eq_some_iff_getElem] at h
    obtain ⟨hm, h1, h2⟩ := h
    have h1 : (vals v)[m] = x := by simpa using h1
    have hx : x ∈ vals v := by rw [← h1]; exact List.getElem_mem hm
    simp only [Nat.zero_add]
    refine ⟨?_, ?_, ?_⟩
    · intro k
      constructor
      · intro hk
        have hk : m = k := by omega
        subst hk
        refine ⟨by rw [List.getElem?_eq_getElem hm, h1], ?_⟩
        intro j hj he
        have := h2 j hj
        have hj' : j < (vals v).length := by omega
        rw [List.getElem?_eq_getElem hj'] at he
        simp at this he
        exact this he
      · rintro ⟨hk, hlt⟩
        have : m = k := by
          rcases Nat.lt_trichotomy m k with h | h | h
          · exact absurd (by rw [List.getElem?_eq_getElem hm, h1]) (hlt m h)
          · exact h
          · have := h2 k h
            have hk' : k < (vals v).length := by omega
            rw [List.getElem?_eq_getElem hk'] at hk
            simp at this hk
            exact absurd hk this
        rw [this]
    · constructor
      · intro h; omega
      · intro h; exact absurd hx h
    · constructor
      · intro _; exact hx
      · intro _; simp only [decide_eq_true_eq]; omega

/-- **C106, negation of the full claim, objects.**  A vector of objects that holds an equal
object at another address: `contains` says no. -/
theorem vector_find_object_violated {V : Type} [DecidableEq V] (x : V) (a b : Nat) (h : a ≠ b) :
    x ∈ vals { cls := true, elems := [⟨a, x⟩], fresh := a + 1 } ∧
    find (some { cls := true, elems := [⟨a, x⟩], fresh := a + 1 }) (.object b x) = -1 ∧
    contains (some { cls := true, elems := [⟨a, x⟩], fresh := a + 1 }) (.object b x) = false := by
  simp [vals, find, contains, findLoop, toArg, argEq, h]

theorem findLoop_null {V : Type} [DecidableEq V] (cls : Bool) : ∀ (es : List (Elem V)) (i : Nat), findLoop cls .null i es = -1 := by
  intro es
  induction es with
  | nil => intro i; rfl
  | cons e es ih => intro i; cases cls <;> exact ih (i + 1)

/-- **C106.** No element is equal to a null pointer, and nothing is found in a null vector. -/
theorem vector_find_null {V : Type} [DecidableEq V] (v : Vec V) (x : Arg V) :
    find (some v) .null = -1 ∧ contains (some v) .null = false ∧ find (none : Option (Vec V)) x = -1 ∧ contains (none : Option (Vec V)) x = false := by
  have h : find (some v) .null = -1 := findLoop_null _ _ _
  exact ⟨h, by unfold contains; rw [h]; rfl, rfl, rfl⟩

theorem findLoop_first {V : Type} [DecidableEq V] (x : V) : ∀ (es : List (Elem V)) (k i : Nat),
    (es.map Elem.val)[k]? = some x → (∀ j, j < k → (es.map Elem.val)[j]? ≠ some x) →
    findLoop false (.value x) i es = toInt32 (i + k) := by
  intro es
  induction es with
  | nil => intro k i h; simp at h
  | cons e es ih =>
    intro k i h hlt
    simp only [findLoop, toArg, Bool.false_eq_true, if_false, argEq, decide_eq_true_eq]
    cases k with
    | zero =>
      simp only [List.map_cons, List.getElem?_cons_zero, Option.some.injEq] at h
      rw [if_pos h]; rfl
    | succ k =>
      have h0 := hlt 0 (by omega)
      simp only [List.map_cons, List.getElem?_cons_zero, ne_eq, Option.some.injEq] at h0
      rw [if_neg h0, ih k (i + 1) (by simpa using h) ?_]
      · rw [Nat.add_assoc, Nat.add_comm 1 k]
      · intro j hj
        have := hlt (j + 1) (by omega)
        simpa using this

theorem toInt32_large {k : Nat} (h1 : 2 ^ 31 ≤ k) (h2 : k < 2 ^ 32) : toInt32 k < -1 + 1 := by
  unfold toInt32
  rw [BitVec.toInt_eq_toNat_cond, BitVec.toNat_ofNat, Nat.mod_eq_of_lt h2, if_neg (by omega)]
  omega

/-- **C106, negation of the full claim, large vectors.**  If the first place of a value is
beyond 2³¹, `find` gives a negative number and `contains` says no, for every vector. -/
theorem vector_find_large_violated {V : Type} [DecidableEq V] (v : Vec V) (x : V) (k : Nat)
    (hc : v.cls = false) (hk : (vals v)[k]? = some x) (hlt : ∀ j, j < k → (vals v)[j]? ≠ some x)
    (h1 : 2 ^ 31 ≤ k) (h2 : k < 2 ^ 32) :
    x ∈ vals v ∧ find (some v) (.value x) < 0 ∧ contains (some v) (.value x) = false := by
  have hf := findLoop_first x v.elems k 0 hk hlt
  rw [Nat.zero_add] at hf
  have hneg := toInt32_large h1 h2
  refine ⟨List.mem_of_getElem? hk, ?_, ?_⟩
  · simp only [find, hc, hf]; omega
  · simp only [contains, find, hc, hf, decide_eq_false_iff_not]; omega

/-- The hypotheses of `vector_find_large_violated` can be met at every place. -/
example (k : Nat) : ∃ v : Vec Bool, v.cls = false ∧ (vals v)[k]? = some true ∧
    ∀ j, j < k → (vals v)[j]? ≠ some true := by
  refine ⟨{ cls := false, elems := List.replicate k ⟨0, false⟩ ++ [⟨0, true⟩], fresh := 0 },
    rfl, ?_, ?_⟩
  · simp [vals]
  · intro j hj
    simp [vals, List.getElem?_append, List.getElem?_replicate, hj]

/-- **C107.**  `get` gives the element at a place inside the vector and throws outside; in a
null vector it throws. -/
theorem vector_get {V : Type} (v : Vec V) (i : Nat) :
    (∀ x, (vals v)[i]? = some x → ∃ a, get (some v) i = .ok a ∧ a.val? = some x ∧ Fits v.cls a) ∧
    ((vals v).length ≤ i → get (some v) i = .throws) ∧
    get (none : Option (Vec V)) i = .throws := by
  unfold vals
  refine ⟨?_, ?_, rfl⟩
  · intro x hx
    rw [List.getElem?_map] at hx
    cases he : v.elems[i]? with
    | none => rw [he] at hx; cases hx
    | some e =>
      rw [he] at hx
      cases hx
      refine ⟨toArg v.cls e, by simp only [get, he], ?_, ?_⟩
      · unfold toArg; split <;> rfl
      · unfold toArg
        cases hc : v.cls
        · simp [Fits]
        · simp [Fits]
  · intro hi
    rw [List.length_map] at hi
    simp only [get, List.getElem?_eq_none hi]

/-- **C107.**  `set` replaces the element at a place inside the vector and only this one, and
does nothing outside. -/
theorem vector_set {V : Type} (v : Vec V) (i : Nat) (a : Arg V) (x : V) (ha : a.val? = some x) :
    ∃ v', set (some v) i a = .ok v' ∧ v'.cls = v.cls ∧ (vals v').length = (vals v).length ∧
      (i < (vals v).length → (vals v')[i]? = some x) ∧
      ∀ j, j ≠ i → (vals v')[j]? = (vals v)[j]? := by
  have hfrom : fromArg a = .ok x := by cases a <;> simp_all [Arg.val?, fromArg]
  unfold set
  dsimp only
  by_cases hi : v.elems.length > i
  · rw [if_pos hi]
    have he : v.elems[i]? = some v.elems[i] := List.getElem?_eq_getElem hi
    rw [he, hfrom]
    refine ⟨_, rfl, rfl, by simp [vals], ?_, ?_⟩
    · intro _; simp [vals, hi]
    · intro j hj
      simp only [vals, List.map_set]
      rw [List.getElem?_set_ne (fun h => hj h.symm)]
  · rw [if_neg hi]
    refine ⟨v, rfl, rfl, rfl, ?_, fun _ _ => rfl⟩
    intro h
    simp only [vals, List.length_map] at h
    omega

/-- **C107** (partial: for vectors that are there; the full claim is that a null vector is
handled by all methods, refuted by `vector_add_null_violated`).  `add` appends the value. -/
theorem vector_add_partial {V : Type} (v : Vec V) (a : Arg V) (x : V) (ha : a.val? = some x) :
    ∃ v', add (some v) a = .ok v' ∧ vals v' = vals v ++ [x] ∧ v'.cls = v.cls ∧
      size (some v') = size (some v) + 1 := by
  have hfrom : fromArg a = .ok x := by cases a <;> simp_all [Arg.val?, fromArg]
  refine ⟨{ v with elems := v.elems ++ [⟨v.fresh, x⟩], fresh := v.fresh + 1 }, ?_, ?_, rfl, ?_⟩
  · simp only [add, hfrom]
  · simp [vals]
  · simp [size]

/-- **C107, negation of the full claim.**  `add` dereferences a null vector; all other methods
answer or throw. -/
theorem vector_add_null_violated {V : Type} [DecidableEq V] (a : Arg V) (i : Nat) :
    add (none : Option (Vec V)) a = .undefined ∧ get (none : Option (Vec V)) i = .throws ∧
    set none i a = .throws ∧ find none a = -1 ∧ contains none a = false ∧
    size (none : Option (Vec V)) = 0 := by
  refine ⟨rfl, rfl, rfl, rfl, ?_, rfl⟩
  simp [contains, find]

/-! ### Sets and maps -/

/-- A map: its entries, in the order of the container.  A set is a map to `Unit`.  The order of
the entries cannot be seen by scripts. -/
structure Map (K V : Type) where
  cls : Bool
  entries : List (K × Elem V)
  fresh : Nat

/-- `std::map::find`, `std::unordered_map::find` with the key equality of the container -/
def lookup {K V : Type} [DecidableEq K] (k : K) : List (K × Elem V) → Option (Elem V)
  | [] => none
  | (a, e) :: es => if a = k then some e else lookup k es

/-- `MapHelper::contains`, `SetHelper::contains` (reflect/stl.h 108–113, 138–143) -/
def mapContains {K V : Type} [DecidableEq K] (m : Option (Map K V)) (k : Arg K) : Out Bool :=
  match m with
  | none => .ok false
  | some m =>
    match fromArg k with
    | .ok k => .ok (lookup k m.entries).isSome
    | .throws => .throws
    | .undefined => .undefined

/-- `MapHelper::get` (reflect/stl.h 144–153): `return {}` for a missing key — zero, the empty
string, or a null pointer for objects -/
def mapGet {K V : Type} [DecidableEq K] (zero : V) (m : Option (Map K V)) (k : Arg K) :
    Out (Arg V) :=
  match m with
  | none => .throws
  | some m =>
    match fromArg k with
    | .ok k =>
      match lookup k m.entries with
      | none => .ok (if m.cls = true then .null else .value zero)
      | some e => .ok (toArg m.cls e)
    | .throws => .throws
    | .undefined => .undefined

/-- `MapHelper::insert`, `SetHelper::insert` (reflect/stl.h 114–119, 154–159): `emplace` does
nothing if the key is there -/
def mapInsert {K V : Type} [DecidableEq K] (m : Option (Map K V)) (k : Arg K) (x : Arg V) :
    Out (Bool × Option (Map K V)) :=
  match m with
  | none => .ok (false, none)
  | some m =>
    match fromArg k, fromArg x with
    | .ok k, .ok x =>
      if (lookup k m.entries).isSome then .ok (false, some m)
      else .ok (true, some { m with entries := m.entries ++ [(k, ⟨m.fresh, x⟩)],
                                    fresh := m.fresh + 1 })
    | _, _ => .undefined

/-- `MapHelper::size`, `SetHelper::size` (reflect/stl.h 120–125, 160–165) -/
def mapSize {K V : Type} (m : Option (Map K V)) : Nat :=
  match m with
  | none => 0
  | some m => m.entries.length

/-- The value of a map at a key. -/
def at_ {K V : Type} [DecidableEq K] (m : Map K V) (k : K) : Option V :=
  (m.entries.find? fun p => decide (p.1 = k)).map fun p => p.2.val

theorem lookup_at {K V : Type} [DecidableEq K] (k : K) : ∀ (es : List (K × Elem V)),
    lookup k es = (es.find? fun p => decide (p.1 = k)).map Prod.snd := by
  intro es
  induction es with
  | nil => rfl
  | cons p es ih =>
    obtain ⟨a, e⟩ := p
    simp only [lookup, List.find?_cons]
    by_cases h : a = k
    · simp [h]
    · simp [h, ih]

/-- **C108.**  `insert` of a new key makes the map give the value at this key, leaves all other
keys alone and grows the size by one; `insert` of a key that is there changes nothing and says
so. -/
theorem map_insert {K V : Type} [DecidableEq K] (m : Map K V) (ka : Arg K) (xa : Arg V)
    (k : K) (x : V) (hk : ka.val? = some k) (hx : xa.val? = some x) :
    (at_ m k = none → ∃ m', mapInsert (some m) ka xa = .ok (true, some m') ∧ m'.cls = m.cls ∧
      at_ m' k = some x ∧ (∀ j, j ≠ k → at_ m' j = at_ m j) ∧
      mapSize (some m') = mapSize (some m) + 1) ∧
    (∀ y, at_ m k = some y → mapInsert (some m) ka xa = .ok (false, some m)) := by
  have h1 : fromArg ka = .ok k := by cases ka <;> simp_all [Arg.val?, fromArg]
  have h2 : fromArg xa = .ok x := by cases xa <;> simp_all [Arg.val?, fromArg]
  have hl := lookup_at k m.entries
  unfold mapInsert
  simp only [h1, h2]
  refine ⟨?_, ?_⟩
  · intro hn
    have hn' : m.entries.find? (fun p => decide (p.1 = k)) = none := by
      unfold at_ at hn
      cases hf : m.entries.find? (fun p => decide (p.1 = k)) with
      | none => rfl
      | some p => rw [hf] at hn; cases hn
    rw [hl, hn']
    simp only [Option.map_none, Option.isSome_none, Bool.false_eq_true, if_false]
    refine ⟨_, rfl, rfl, ?_, ?_, ?_⟩
    · simp only [at_, List.find?_append, hn']; simp
    · intro j hj
      simp only [at_, List.find?_append]
      cases m.entries.find? (fun p => decide (p.1 = j)) with
      | some p => rfl
      | none =>
        have : decide (k = j) = false := by simpa using fun h => hj (Eq.symm h)
        simp [List.find?_cons, this]
    · simp [mapSize]
  · intro y hy
    unfold at_ at hy
    cases hf : m.entries.find? (fun p => decide (p.1 = k)) with
    | none => rw [hf] at hy; cases hy
    | some p => rw [hl, hf]; simp

/-- **C108.** A null map is empty: nothing is in it, nothing is inserted, and reading it throws. -/
theorem map_null {K V : Type} [DecidableEq K] (zero : V) (k : Arg K) (x : Arg V) :
    mapSize (none : Option (Map K V)) = 0 ∧ mapContains (none : Option (Map K V)) k = .ok false ∧ mapInsert (none : Option (Map K V)) k x = .ok (false, none) ∧
    mapGet zero (none : Option (Map K V)) k = .throws := ⟨rfl, rfl, rfl, rfl⟩

/-- **C108** (partial: maps to numbers, pointers and strings, or keys that are there; the full
claim is that `get` of any map always gives a value, refuted by `map_get_missing_violated`).
`get` gives the value at the key, or zero (the empty string), and `contains` says whether the
key is there. -/
theorem map_get_partial {K V : Type} [DecidableEq K] (zero : V) (m : Map K V) (ka : Arg K)
    (k : K) (hk : ka.val? = some k) (hc : m.cls = false ∨ (at_ m k).isSome) :
    (∃ a, mapGet zero (some m) ka = .ok a ∧ a.val? = some ((at_ m k).getD zero)) ∧
    mapContains (some m) ka = .ok (at_ m k).isSome := by
  have h1 : fromArg ka = .ok k := by cases ka <;> simp_all [Arg.val?, fromArg]
  have hl := lookup_at k m.entries
  unfold mapGet mapContains
  simp only [h1]
  rw [hl]
  unfold at_ at hc ⊢
  cases hf : m.entries.find? (fun p => decide (p.1 = k)) with
  | none =>
    rw [hf] at hc
    simp only [Option.map_none, Option.isSome_none, Bool.false_eq_true, or_false] at hc
    refine ⟨⟨_, rfl, ?_⟩, rfl⟩
    simp [hc, Arg.val?]
  | some p =>
    refine ⟨⟨_, rfl, ?_⟩, rfl⟩
    unfold toArg
    split <;> rfl

/-- **C108, negation of the full claim.**  For every map to objects and every missing key `get`
gives a null pointer, and adding this to a vector or inserting it into a map dereferences it. -/
theorem map_get_missing_violated {K V : Type} [DecidableEq K] (zero : V) (m : Map K V) (k : K)
    (hc : m.cls = true) (hk : at_ m k = none) (v : Vec V) :
    mapGet zero (some m) (.value k) = .ok .null ∧ add (some v) (.null : Arg V) = .undefined ∧
    mapInsert (some m) (.value k) .null = .undefined := by
  have hl := lookup_at k m.entries
  have hn' : m.entries.find? (fun p => decide (p.1 = k)) = none := by
    unfold at_ at hk
    cases hf : m.entries.find? (fun p => decide (p.1 = k)) with
    | none => rfl
    | some p => rw [hf] at hk; cases hk
  rw [hn'] at hl
  refine ⟨?_, rfl, rfl⟩
  simp [mapGet, fromArg, hl, hc]

/-! ### The hypotheses are met -/

/-- a vector of numbers -/
def numbers : Vec Nat := { cls := false, elems := [⟨0, 7⟩, ⟨1, 5⟩, ⟨2, 5⟩], fresh := 3 }

example : numbers.cls = false ∧ (vals numbers).length ≤ 2 ^ 31 ∧
    find (some numbers) (.value 5) = 1 ∧ get (some numbers) 3 = .throws ∧
    Arg.val? (.value 9 : Arg Nat) = some 9 := by decide

/-- a map to objects with one entry -/
def objects : Map String Nat := { cls := true, entries := [("a", ⟨0, 1⟩)], fresh := 1 }

example : at_ objects "b" = none ∧ objects.cls = true ∧ (at_ objects "a").isSome ∧
    mapGet 0 (some objects) (.value "a") = .ok (.object 0 1) := by decide +kernel

end Verif.Stl
