/-!
# Protobuf and flatbuffers containers in scripts: C160, C161

`/repo/rapidudf/reflect/protobuf.h` 32–171 (`PBArgType`, `PBMapHelper`, `PBRepeatedPtrFieldHelper`, `PBRepeatedFieldHelper`, `PBSetStringHelper`), `/repo/rapidudf/reflect/flatbuffers.h` 25–54
(`FBSVectorHelper`).

A container is given by the list of its elements; `none` is the null pointer. Protobuf and flatbuffers themselves are taken by their documentation: `Get(i)` outside the container
is undefined, `find` of a map uses the equality of the keys. Scripts only read these containers.
-/
namespace Verif.Pb

/-- Outcomes of a method: a result, an exception, undefined behaviour. -/
inductive Out (R : Type)
  | ok (r : R)
  | throws
  | undefined
  deriving DecidableEq

/-- What a script gets for an element: a value, a pointer to the element at a place (`PBArgType::arg_type`, `protobuf.h` 32–57; numbers and strings travel by value, messages by
address), or the null pointer. -/
inductive Arg (V : Type)
  | value (v : V)
  | message (place : Nat)
  | null
  deriving DecidableEq

/-! ## Model -/

/-- `PBArgType<T>::value`, `protobuf.h` 35, 47, 54: `cls` says that the elements are messages. -/
def argOf {V : Type} (cls : Bool) (place : Nat) (v : V) : Arg V := if cls then .message place else .value v

/-- The value `{}` of `PBArgType<T>::arg_type`: zero, the empty string or the null pointer. -/
def emptyArg {V : Type} (cls : Bool) (zero : V) : Arg V := if cls then .null else .value zero

/-- `RepeatedField<T>::Get(int)`, `RepeatedPtrField<T>::Get(int)`: no check in release builds. -/
def pbGet {V : Type} (xs : List V) (i : Int) : Out (Nat × V) :=
  if 0 ≤ i then
    match xs[i.toNat]? with
    | some v => .ok (i.toNat, v)
    | none => .undefined
  else .undefined

/-- `PBRepeatedFieldHelper::Get`, `PBRepeatedPtrFieldHelper::Get`, `protobuf.h` 103–109, 121–127. -/
def repeatedGet {V : Type} (cls : Bool) (f : Option (List V)) (i : Int) : Out (Arg V) :=
  match f with
  | none => .throws
  | some xs =>
    match pbGet xs i with
    | .ok (p, v) => .ok (argOf cls p v)
    | .throws => .throws
    | .undefined => .undefined

/-- `PBRepeatedFieldHelper::Size`, `PBRepeatedPtrFieldHelper::Size`, `protobuf.h` 110–115, 128–133. -/
def repeatedSize {V : Type} (f : Option (List V)) : Nat :=
  match f with
  | none => 0
  | some xs => xs.length

/-- `static_cast<int>(i)` of a `size_t`, `protobuf.h` 141. -/
def toInt32 (i : Nat) : Int := (BitVec.ofNat 32 i).toInt

/-- The loop of `PBRepeatedFieldHelper::Find`, `protobuf.h` 138–143; `eq` is `==` of the elements (for floating point numbers not the equality of values). -/
def findLoop {V : Type} (eq : V → V → Bool) (x : V) : Nat → List V → Int
  | _, [] => -1
  | i, y :: ys => if eq y x then toInt32 i else findLoop eq x (i + 1) ys

/-- `PBRepeatedFieldHelper::Find`, `protobuf.h` 134–145. -/
def repeatedFind {V : Type} (eq : V → V → Bool) (f : Option (List V)) (x : V) : Int :=
  match f with
  | none => -1
  | some xs => findLoop eq x 0 xs

/-- `PBRepeatedFieldHelper::Contains`, `protobuf.h` 146–149. -/
def repeatedContains {V : Type} (eq : V → V → Bool) (f : Option (List V)) (x : V) : Bool := decide (repeatedFind eq f x > -1)

/-- `google::protobuf::Map::find`: the place and the value of a key. -/
def mapFind {K V : Type} [DecidableEq K] (k : K) : Nat → List (K × V) → Option (Nat × V)
  | _, [] => none
  | i, (a, v) :: es => if a = k then some (i, v) else mapFind k (i + 1) es

/-- `PBMapHelper::Get`, `protobuf.h` 74–84. -/
def mapGet {K V : Type} [DecidableEq K] (cls : Bool) (zero : V) (m : Option (List (K × V))) (k : K) : Out (Arg V) :=
  match m with
  | none => .throws
  | some es =>
    match mapFind k 0 es with
    | none => .ok (emptyArg cls zero)
    | some (p, v) => .ok (argOf cls p v)

/-- `PBMapHelper::Size`, `protobuf.h` 85–90. -/
def mapSize {K V : Type} (m : Option (List (K × V))) : Nat :=
  match m with
  | none => 0
  | some es => es.length

/-- `PBMapHelper::Contains`, `protobuf.h` 91–97. -/
def mapContains {K V : Type} [DecidableEq K] (m : Option (List (K × V))) (k : K) : Bool :=
  match m with
  | none => false
  | some es => (mapFind k 0 es).isSome

/-- `FBSVectorHelper::Get`, `flatbuffers.h` 27–35; the index is a `uint32_t`. -/
def fbsGet {V : Type} (cls : Bool) (zero : V) (f : Option (List V)) (i : BitVec 32) : Out (Arg V) :=
  match f with
  | none => .throws
  | some xs =>
    if i.toNat ≥ xs.length then .ok (emptyArg cls zero)
    else
      match xs[i.toNat]? with
      | some v => .ok (argOf cls i.toNat v)
      | none => .undefined

/-- `FBSVectorHelper::Size`, `flatbuffers.h` 36–41. -/
def fbsSize {V : Type} (f : Option (List V)) : Nat :=
  match f with
  | none => 0
  | some xs => xs.length

/-- A script that goes on with a message: calling one of its getters (`MEMBER_FUNC_WRAPPER`, `meta/function.h` 185–196) throws for a null pointer; a struct field of it is loaded
without a check (`codegen.cc`, `Access`). -/
def loadField {V : Type} : Arg V → Out Nat
  | .message p => .ok p
  | .null => .undefined
  | .value _ => .undefined

/-- `PBSetStringHelper::Call`, `protobuf.h` 166–169: the setter of a string field (here a function on messages) on a message or the null pointer, which is not looked at. -/
def setString {M S : Type} (setter : M → S → M) (p : Option M) (s : S) : Out M :=
  match p with
  | some m => .ok (setter m s)
  | none => .undefined

/-- `MemberFunctionWrapper::Call`, `meta/function.h` 163–174: the setter of another field. -/
def setOther {M A : Type} (setter : M → A → M) (p : Option M) (a : A) : Out M :=
  match p with
  | some m => .ok (setter m a)
  | none => .throws

/-! ## Specification -/

/-- The element at a place, seen by a script: the value, or the address of the message at this place. -/
def Shows {V : Type} (cls : Bool) (place : Nat) (v : V) (a : Arg V) : Prop :=
  (cls = false ∧ a = .value v) ∨ (cls = true ∧ a = .message place)

/-- A map holds every key once. -/
def Keys {K V : Type} (es : List (K × V)) : Prop := (es.map Prod.fst).Nodup

/-! ## Lemmas -/

theorem toInt32_small {i : Nat} (h : i < 2 ^ 31) : toInt32 i = i := by
  unfold toInt32
  rw [BitVec.toInt_eq_toNat_of_lt]
  · rw [BitVec.toNat_ofNat, Nat.mod_eq_of_lt (by omega)]
  · rw [BitVec.toNat_ofNat, Nat.mod_eq_of_lt (by omega)]; omega

theorem findLoop_none {V : Type} (eq : V → V → Bool) (x : V) : ∀ (xs : List V) (i : Nat), (∀ y ∈ xs, eq y x = false) → findLoop eq x i xs = -1 := by
  intro xs
  induction xs with
  | nil => intro i _; rfl
  | cons y ys ih =>
    intro i h
    unfold findLoop
    rw [if_neg (by rw [h y (List.mem_cons_self ..)]; exact Bool.false_ne_true)]
    exact ih _ fun z hz => h z (List.mem_cons_of_mem _ hz)

theorem findLoop_some {V : Type} (eq : V → V → Bool) (x : V) : ∀ (xs : List V) (i : Nat), i + xs.length ≤ 2 ^ 31 → (∃ y ∈ xs, eq y x = true) →
    ∃ k : Nat, findLoop eq x i xs = ((i + k : Nat) : Int) ∧ (∃ y, xs[k]? = some y ∧ eq y x = true) ∧ ∀ j, j < k → ∀ z, xs[j]? = some z → eq z x = false := by
  intro xs
  induction xs with
  | nil => intro i _ h; obtain ⟨y, hy, _⟩ := h; cases hy
  | cons y ys ih =>
    intro i hl h
    simp only [List.length_cons] at hl
    unfold findLoop
    by_cases hy : eq y x = true
    · refine ⟨0, ?_, ⟨y, rfl, hy⟩, fun j hj => absurd hj (Nat.not_lt_zero _)⟩
      rw [if_pos hy, toInt32_small (by omega)]
      rfl
    · rw [if_neg hy]
      have h' : ∃ y ∈ ys, eq y x = true := by
        obtain ⟨z, hz, he⟩ := h
        rcases List.mem_cons.1 hz with rfl | hz
        · exact absurd he hy
        · exact ⟨z, hz, he⟩
      obtain ⟨k, h1, ⟨z, hz, he⟩, h3⟩ := ih (i + 1) (by omega) h'
      refine ⟨k + 1, ?_, ⟨z, by simpa using hz, he⟩, ?_⟩
      · rw [h1]; congr 1; omega
      · intro j hj w hw
        cases j with
        | zero =>
          simp only [List.getElem?_cons_zero, Option.some.injEq] at hw
          subst hw
          simpa using hy
        | succ j => exact h3 j (by omega) w (by simpa using hw)

theorem mapFind_none {K V : Type} [DecidableEq K] (k : K) : ∀ (es : List (K × V)) (i : Nat), (mapFind k i es = none ↔ ∀ v, (k, v) ∉ es) := by
  intro es
  induction es with
  | nil => intro i; simp [mapFind]
  | cons e es ih =>
    intro i
    obtain ⟨a, v⟩ := e
    unfold mapFind
    by_cases ha : a = k
    · rw [if_pos ha]
      subst ha
      simp only [reduceCtorEq, false_iff]
      exact fun h => h v (List.mem_cons_self ..)
    · rw [if_neg ha, ih]
      constructor
      · intro h w hw
        rcases List.mem_cons.1 hw with he | he
        · cases he; exact ha rfl
        · exact h w he
      · intro h w hw; exact h w (List.mem_cons_of_mem _ hw)

theorem mapFind_some {K V : Type} [DecidableEq K] (k : K) : ∀ (es : List (K × V)) (i p : Nat) (v : V), mapFind k i es = some (p, v) → i ≤ p ∧ es[p - i]? = some (k, v) := by
  intro es
  induction es with
  | nil => intro i p v h; cases h
  | cons e es ih =>
    intro i p v h
    obtain ⟨a, w⟩ := e
    unfold mapFind at h
    by_cases ha : a = k
    · rw [if_pos ha] at h
      cases h
      subst ha
      simp
    · rw [if_neg ha] at h
      obtain ⟨h1, h2⟩ := ih (i + 1) p v h
      refine ⟨by omega, ?_⟩
      have : p - i = (p - (i + 1)) + 1 := by omega
      rw [this]
      simpa using h2

theorem keys_unique {K V : Type} (es : List (K × V)) (h : Keys es) (k : K) (v w : V) (p q : Nat) (h1 : es[p]? = some (k, v)) (h2 : es[q]? = some (k, w)) : p = q ∧ v = w := by
  have hp : (es.map Prod.fst)[p]? = some k := by rw [List.getElem?_map, h1]; rfl
  have hq : (es.map Prod.fst)[q]? = some k := by rw [List.getElem?_map, h2]; rfl
  have hlt : p < (es.map Prod.fst).length := by
    rcases Nat.lt_or_ge p (es.map Prod.fst).length with h | h
    · exact h
    · rw [List.getElem?_eq_none h] at hp; cases hp
  have hpq : p = q := (List.getElem?_inj hlt h).1 (hp.trans hq.symm)
  refine ⟨hpq, ?_⟩
  rw [hpq, h2] at h1
  cases h1
  rfl

/-! ## C160: size, find and contains -/

/-- **C160.** `find` of a repeated field gives the first place of an equal element, −1 exactly if there is none; `contains` says whether there is one. Protobuf fields have less than
2³¹ elements, so no place is too large. -/
theorem repeated_find {V : Type} (eq : V → V → Bool) (xs : List V) (x : V) (hs : xs.length < 2 ^ 31) :
    (∀ k : Nat, repeatedFind eq (some xs) x = k ↔ (∃ y, xs[k]? = some y ∧ eq y x = true) ∧ ∀ j, j < k → ∀ z, xs[j]? = some z → eq z x = false) ∧
    (repeatedFind eq (some xs) x = -1 ↔ ∀ y ∈ xs, eq y x = false) ∧
    (repeatedContains eq (some xs) x = true ↔ ∃ y ∈ xs, eq y x = true) ∧
    repeatedSize (some xs) = xs.length := by
  by_cases h : ∃ y ∈ xs, eq y x = true
  · obtain ⟨k, hk, ⟨y, hy, he⟩, hlt⟩ := findLoop_some eq x xs 0 (by omega) h
    rw [Nat.zero_add] at hk
    have hf : repeatedFind eq (some xs) x = k := hk
    refine ⟨?_, ?_, ?_, rfl⟩
    · intro m
      rw [hf]
      constructor
      · intro hm
        have : k = m := by omega
        subst this
        exact ⟨⟨y, hy, he⟩, hlt⟩
      · rintro ⟨⟨z, hz, hez⟩, hm⟩
        rcases Nat.lt_trichotomy k m with hh | hh | hh
        · rw [hm k hh y hy] at he; cases he
        · rw [hh]
        · rw [hlt m hh z hz] at hez; cases hez
    · rw [hf]
      constructor
      · intro hh; omega
      · intro hh
        obtain ⟨z, hz, hez⟩ := h
        rw [hh z hz] at hez; cases hez
    · unfold repeatedContains
      rw [hf, decide_eq_true_eq]
      exact ⟨fun _ => h, fun _ => by omega⟩
  · have hn : ∀ y ∈ xs, eq y x = false := by
      intro y hy
      cases he : eq y x with
      | false => rfl
      | true => exact absurd ⟨y, hy, he⟩ h
    have hf : repeatedFind eq (some xs) x = -1 := findLoop_none eq x xs 0 hn
    refine ⟨?_, ?_, ?_, rfl⟩
    · intro m
      rw [hf]
      constructor
      · intro hh; omega
      · rintro ⟨⟨z, hz, hez⟩, _⟩
        rw [hn z (List.mem_of_getElem? hz)] at hez; cases hez
    · rw [hf]; exact ⟨fun _ => hn, fun _ => rfl⟩
    · unfold repeatedContains
      rw [hf, decide_eq_true_eq]
      exact ⟨fun hh => absurd hh (by omega), fun hh => absurd hh h⟩

/-- **C160.** `contains` of a protobuf map says whether the key is there, `size` is the number of keys. -/
theorem map_contains {K V : Type} [DecidableEq K] (es : List (K × V)) (k : K) :
    (mapContains (some es) k = true ↔ ∃ v, (k, v) ∈ es) ∧ mapSize (some es) = es.length := by
  refine ⟨?_, rfl⟩
  unfold mapContains
  dsimp only
  rw [Option.isSome_iff_ne_none, Ne, mapFind_none]
  exact Classical.not_forall_not

/-- **C160.** A null container is empty for `size`, `find` and `contains`, and `get` of it throws: no method dereferences it. -/
theorem null_container {K V : Type} [DecidableEq K] (cls : Bool) (zero : V) (eq : V → V → Bool) (x : V) (k : K) (i : Int) (j : BitVec 32) :
    repeatedSize (none : Option (List V)) = 0 ∧ mapSize (none : Option (List (K × V))) = 0 ∧ fbsSize (none : Option (List V)) = 0 ∧ repeatedFind eq none x = -1 ∧
    repeatedContains eq none x = false ∧ mapContains (none : Option (List (K × V))) k = false ∧ repeatedGet cls (none : Option (List V)) i = .throws ∧
    mapGet cls zero (none : Option (List (K × V))) k = .throws ∧ fbsGet cls zero none j = .throws := by
  refine ⟨rfl, rfl, rfl, rfl, ?_, rfl, rfl, rfl, rfl⟩
  exact decide_eq_false (show ¬ ((-1 : Int) > -1) by omega)

/-- **C160.** `get` of a flatbuffers vector: the element at every place inside, zero (or the null pointer) at every other index, never undefined. -/
theorem fbs_get {V : Type} (cls : Bool) (zero : V) (xs : List V) (i : BitVec 32) :
    (∀ v, xs[i.toNat]? = some v → ∃ a, fbsGet cls zero (some xs) i = .ok a ∧ Shows cls i.toNat v a) ∧
    (xs.length ≤ i.toNat → fbsGet cls zero (some xs) i = .ok (if cls then .null else .value zero)) ∧
    fbsSize (some xs) = xs.length := by
  refine ⟨?_, ?_, rfl⟩
  · intro v hv
    have hlt : i.toNat < xs.length := by
      rcases Nat.lt_or_ge i.toNat xs.length with h | h
      · exact h
      · rw [List.getElem?_eq_none h] at hv; cases hv
    refine ⟨argOf cls i.toNat v, ?_, ?_⟩
    · unfold fbsGet
      dsimp only
      rw [if_neg (by omega), hv]
    · cases cls
      · exact Or.inl ⟨rfl, rfl⟩
      · exact Or.inr ⟨rfl, rfl⟩
  · intro h
    unfold fbsGet
    dsimp only
    rw [if_pos h]
    rfl

/-! ## C161: get of protobuf containers -/

/-- **C161** (partial: indices inside the field, and keys that are there or maps to numbers and strings; the full claim is that `get` gives an element or reports an error for every
index and key, refuted by `repeated_get_range_violated` and `map_get_message_violated`). `get` of a repeated field gives the element at the index. -/
theorem repeated_get_partial {V : Type} (cls : Bool) (xs : List V) (i : Nat) (v : V) (h : xs[i]? = some v) :
    ∃ a, repeatedGet cls (some xs) i = .ok a ∧ Shows cls i v a := by
  refine ⟨argOf cls i v, ?_, ?_⟩
  · unfold repeatedGet pbGet
    dsimp only
    rw [if_pos (by omega), Int.toNat_natCast, h]
  · cases cls
    · exact Or.inl ⟨rfl, rfl⟩
    · exact Or.inr ⟨rfl, rfl⟩

/-- **C161** (partial, as above). `get` of a map gives the value of the key, and zero or the empty string for a missing key. -/
theorem map_get_partial {K V : Type} [DecidableEq K] (cls : Bool) (zero : V) (es : List (K × V)) (hk : Keys es) (k : K) :
    (∀ p v, es[p]? = some (k, v) → ∃ a, mapGet cls zero (some es) k = .ok a ∧ Shows cls p v a) ∧
    ((∀ v, (k, v) ∉ es) → cls = false → mapGet cls zero (some es) k = .ok (.value zero)) := by
  constructor
  · intro p v h
    cases hm : mapFind k 0 es with
    | none => exact absurd (List.mem_of_getElem? h) ((mapFind_none k es 0).1 hm v)
    | some q =>
      obtain ⟨q, w⟩ := q
      obtain ⟨_, h2⟩ := mapFind_some k es 0 q w hm
      obtain ⟨h3, h4⟩ := keys_unique es hk k v w p q h (by simpa using h2)
      subst h3 h4
      refine ⟨argOf cls p v, ?_, ?_⟩
      · unfold mapGet; dsimp only; rw [hm]
      · cases cls
        · exact Or.inl ⟨rfl, rfl⟩
        · exact Or.inr ⟨rfl, rfl⟩
  · intro h hc
    unfold mapGet
    dsimp only
    rw [(mapFind_none k es 0).2 h, hc]
    rfl

/-- **C161, negation of the full claim.** Every index outside a repeated field, negative ones included, is undefined: nothing is checked and nothing reported. -/
theorem repeated_get_range_violated {V : Type} (cls : Bool) (xs : List V) (i : Int) (h : i < 0 ∨ (xs.length : Int) ≤ i) : repeatedGet cls (some xs) i = .undefined := by
  unfold repeatedGet pbGet
  dsimp only
  by_cases h0 : 0 ≤ i
  · rw [if_pos h0, List.getElem?_eq_none (by omega)]
  · rw [if_neg h0]

/-- **C161, negation of the full claim.** A missing key of a map to messages gives the null pointer, and reading a field of it is undefined. -/
theorem map_get_message_violated {K V : Type} [DecidableEq K] (zero : V) (es : List (K × V)) (k : K) (h : ∀ v, (k, v) ∉ es) :
    mapGet true zero (some es) k = .ok .null ∧ loadField (.null : Arg V) = .undefined := by
  refine ⟨?_, rfl⟩
  unfold mapGet
  dsimp only
  rw [(mapFind_none k es 0).2 h]
  rfl

/-- **C161, negation of the full claim.** Setting a string field of a null message is undefined, where setting a field of any other type throws. -/
theorem set_string_null_violated {M S A : Type} (f : M → S → M) (g : M → A → M) (s : S) (a : A) : setString f none s = .undefined ∧ setOther g none a = .throws := ⟨rfl, rfl⟩

/-! ## The hypotheses are met -/

example : ([5, 7, 7] : List Nat).length < 2 ^ 31 ∧ repeatedFind (· == ·) (some [5, 7, 7]) 7 = 1 ∧ repeatedGet false (some [5, 7, 7]) 2 = .ok (.value 7) ∧
    repeatedGet false (some [5, 7, 7]) 3 = .undefined ∧ fbsGet false 0 (some [5, 7, 7]) 3#32 = .ok (.value 0) := by decide +kernel

example : Keys [("a", 1), ("b", 2)] ∧ mapGet true 0 (some [("a", 1), ("b", 2)]) "b" = .ok (.message 1) ∧ mapGet true 0 (some [("a", 1), ("b", 2)]) "c" = .ok .null := by
  unfold Keys
  decide +kernel

end Verif.Pb
