import Verif.Types.GetDType
/-!
# Names of types: C130, C131, C132

`/repo/rapidudf/meta/dtype.cc` 23–70 (`DTypeFactory`), 233–257 (`GetTypeString`), `/repo/rapidudf/meta/dtype.h` 210–245; `/repo/rapidudf/meta/function.cc` 56–59
(`GetMemberFuncName`); `/repo/rapidudf/compiler/codegen.cc` 269–277, 285–357, 602–635 (`DeclareExternFunctions`, `GetFunction`, `CallFunction`);
`/repo/rapidudf/ast/symbols.cc` 113–216 (`Symbols`), `/repo/rapidudf/compiler/compiler.cc` 31–34.
-/
namespace Verif.Types.Names
open Verif.Types.DT

/-- A text, as a list of characters. -/
abbrev Name := List Char

/-! ## Model: the names of types -/

/-- `kFundamentalTypeStrs`, `dtype_enums.h` 83–108. -/
def fundamentalStrs : List Name :=
  ["invalid", "void", "pointer", "bit", "u8", "i8", "u16", "i16", "u32", "i32", "u64", "i64", "f16", "f32", "f64", "f80", "std_string_view", "string_view", "string",
    "fbs_string", "json", "Context", "dyn_obj", "table", "simd_vector_any"].map String.toList

/-- `kCollectionTypeStrs`, `dtype_enums.h` 37–38. -/
def collectionStrs : List Name :=
  ["", "array", "vector", "map", "set", "unordered_map", "unordered_set", "absl_span", "tuple", "simd_vector"].map String.toList

/-- `DATA_BUILTIN_TYPE_END` -/
def BUILTIN_END : Nat := 25

/-- The two maps of `DTypeFactory` (`dtype.cc` 23–30). Of the map from types to names only the entries of classes are kept: the name of a pointer or a collection is never looked up
(42–44), and all other types with an entry are classes, whose descriptor consists of the identifier. Equality of descriptors is identity here (see C25 for the comparison). -/
structure Factory where
  byName : List (Name × DType) := []
  byClass : List (Nat × Name) := []

/-- `AddNameDType`, `dtype.cc` 64–70. -/
def addName (f : Factory) (n : Name) (d : DType) : Factory × Bool :=
  match f.byName.lookup n with
  | some _ => (f, false)
  | none =>
    let g : Factory := { f with byName := f.byName ++ [(n, d)] }
    match d with
    | .mk 0 0 id 0 0 [] => ({ g with byClass := g.byClass ++ [(id, n)] }, true)
    | _ => (g, true)

/-- A list of registrations, from the empty factory. -/
def addAll (f : Factory) : List (Name × DType) → Factory
  | [] => f
  | (n, d) :: rs => addAll (addName f n d).1 rs

/-- `DTypeFactory::GetNameByDType`, `dtype.cc` 41–54; the empty text if there is none. -/
def nameOf (f : Factory) (d : DType) : Name :=
  if isPtr d || isCollection d then []
  else if 1 ≤ d.t0 ∧ d.t0 < BUILTIN_END then (fundamentalStrs[d.t0]?).getD []
  else if d.t1 = 0 ∧ d.arr = 0 ∧ d.elems.isEmpty then (f.byClass.lookup d.t0).getD []
  else []

/-- `GetTypeString`, `dtype.cc` 233–257; `none`: a null pointer is dereferenced (`PtrTo`). -/
def typeString (f : Factory) (d : DType) : Option Name :=
  match ptrTo (elemOf d) with
  | none => none
  | some base =>
    let bn := nameOf f base
    if bn = [] then some []
    else if isCollection d then
      let coll := (collectionStrs[d.container]?).getD []
      if isMapLike d || isTuple d then
        let kn := nameOf f (keyOf d)
        if kn = [] then some []
        else some (coll ++ '<' :: kn ++ ',' :: bn ++ ('>' :: if isPtr d then ['*'] else []))
      else some (coll ++ '<' :: bn ++ ('>' :: if isPtr d then ['*'] else []))
    else some (bn ++ if isPtr d then ['*'] else [])

/-! ## Specification -/

/-- The text a reader would expect for a type, given the names of the types with identifiers. -/
def written (nm : Nat → Name) : CType → Name
  | .prim id => nm id
  | .ptr t => written nm t ++ ['*']
  | .coll c t => (collectionStrs[c]?).getD [] ++ '<' :: written nm t ++ ['>']
  | .arr t n => ['a', 'r', 'r', 'a', 'y', '<'] ++ written nm t ++ ',' :: Nat.toDigits 10 n ++ ['>']
  | .two c k v => (collectionStrs[c]?).getD [] ++ '<' :: written nm k ++ ',' :: written nm v ++ ['>']
  | .tup1 t => ['t', 'u', 'p', 'l', 'e', '<'] ++ written nm t ++ ['>']

/-- The name of a type with an identifier. -/
def primName (f : Factory) (id : Nat) : Name :=
  if 1 ≤ id ∧ id < BUILTIN_END then (fundamentalStrs[id]?).getD [] else (f.byClass.lookup id).getD []

/-- A name without the signs used to build the names of collections and pointers. -/
def Plain (n : Name) : Prop := n ≠ [] ∧ '<' ∉ n ∧ '>' ∉ n ∧ ',' ∉ n ∧ '*' ∉ n

/-- Types with an identifier, collections of them, maps whose value type is a built-in type; and pointers to those. -/
def Simple : CType → Prop
  | .prim _ => True
  | .coll _ (.prim _) => True
  | .two c (.prim _) (.prim v) => (c = COLLECTION_MAP ∨ c = COLLECTION_UNORDERED_MAP) ∧ v < BUILTIN_END
  | .ptr (.prim _) => True
  | .ptr (.coll _ (.prim _)) => True
  | .ptr (.two c (.prim _) (.prim v)) => (c = COLLECTION_MAP ∨ c = COLLECTION_UNORDERED_MAP) ∧ v < BUILTIN_END
  | _ => False

/-- The identifiers in a type. -/
def ids : CType → List Nat
  | .prim id => [id]
  | .ptr t => ids t
  | .coll _ t => ids t
  | .arr t _ => ids t
  | .two _ k v => ids k ++ ids v
  | .tup1 t => ids t

/-! ## The text of simple types -/

theorem nameOf_prim (f : Factory) (p id : Nat) (hp : p = 0) : nameOf f (.mk 0 p id 0 0 []) = primName f id := by
  subst hp
  simp [nameOf, primName, isPtr, isCollection, DType.ptr, DType.container, DType.t0, DType.t1, DType.arr, DType.elems]

theorem not_complex (id : Nat) (h : WF (.prim id)) : id ≠ DATA_COMPLEX_OBJECT := by
  simp only [WF] at h; omega

theorem getDType_two (c : Nat) (k v : CType) :
    getDType (.two c k v) = .mk (c % 2 ^ 6) 0 (baseId (getDType k)) (baseId (getDType v)) 0 (twoElems (getDType k) (getDType v)) := by
  conv => lhs; unfold getDType

theorem complex_false : ∀ id, WF (.prim id) → (id == DATA_COMPLEX_OBJECT) = false := fun id h => by simpa using not_complex id h

theorem typeString_prim (f : Factory) : ∀ (id p : Nat), WF (.prim id) → (p = 0 ∨ p = 1) → primName f id ≠ [] →
      typeString f (.mk 0 p id 0 0 []) = some (primName f id ++ if p = 1 then ['*'] else []) := by
  intro id p h hp hne
  have e1 : elemOf (.mk 0 p id 0 0 []) = .mk 0 p id 0 0 [] := by
    simp [elemOf, isMapLike, DType.container, DType.elems, DType.ptr, DType.t0, DType.t1, DType.arr, COLLECTION_MAP, COLLECTION_UNORDERED_MAP]
  have e2 : ptrTo (.mk 0 p id 0 0 []) = some (.mk 0 0 id 0 0 []) := by simp [ptrTo, isComplexObj, DType.t0, complex_false id h]
  simp only [typeString, e1, e2, nameOf_prim f 0 id rfl, if_neg hne, isCollection, DType.container, isPtr, DType.ptr]
  rcases hp with rfl | rfl <;> rfl

theorem typeString_coll (f : Factory) : ∀ (c id p : Nat), WF (.coll c (.prim id)) → (p = 0 ∨ p = 1) → primName f id ≠ [] →
      typeString f (.mk c p id 0 0 []) = some ((collectionStrs[c]?).getD [] ++ '<' :: primName f id ++ ('>' :: if p = 1 then ['*'] else [])) := by
  intro c id p h hp hne
  have hid := h.2
  have hc := coll_ids c _ h
  have hm : (c == 3 || c == 5) = false := by rcases hc with h | h | h | h | h <;> subst h <;> rfl
  have hz : (c != 0) = true := by rcases hc with h | h | h | h | h <;> subst h <;> rfl
  have ht : (c == 8) = false := by rcases hc with h | h | h | h | h <;> subst h <;> rfl
  have e1 : elemOf (.mk c p id 0 0 []) = .mk 0 p id 0 0 [] := by
    simp [elemOf, isMapLike, DType.container, DType.elems, DType.ptr, DType.t0, DType.t1, DType.arr, COLLECTION_MAP, COLLECTION_UNORDERED_MAP, hm]
  have e2 : ptrTo (.mk 0 p id 0 0 []) = some (.mk 0 0 id 0 0 []) := by simp [ptrTo, isComplexObj, DType.t0, complex_false id hid]
  simp only [typeString, e1, e2, nameOf_prim f 0 id rfl, if_neg hne, isCollection, DType.container, isPtr, DType.ptr, isMapLike, isTuple, COLLECTION_MAP,
    COLLECTION_UNORDERED_MAP, COLLECTION_TUPLE, hm, hz, ht, if_true, Bool.or_false, Bool.false_eq_true, if_false]
  rcases hp with rfl | rfl <;> rfl

theorem typeString_map (f : Factory) : ∀ (c k v p : Nat), (c = COLLECTION_MAP ∨ c = COLLECTION_UNORDERED_MAP) → WF (.prim k) → WF (.prim v) → v < BUILTIN_END → (p = 0 ∨ p = 1) →
      primName f k ≠ [] → primName f v ≠ [] →
      typeString f (.mk c p k v 0 []) =
        some ((collectionStrs[c]?).getD [] ++ '<' :: primName f k ++ ',' :: primName f v ++ ('>' :: if p = 1 then ['*'] else [])) := by
  intro c k v p hc hk hv hb hp hke hve
  have hm : (c == 3 || c == 5) = true := by rcases hc with h | h <;> subst h <;> rfl
  have hz : (c != 0) = true := by rcases hc with h | h <;> subst h <;> rfl
  have e1 : elemOf (.mk c p k v 0 []) = .mk 0 p v v 0 [] := by
    simp [elemOf, isMapLike, DType.container, DType.elems, DType.ptr, DType.t1, DType.arr, COLLECTION_MAP, COLLECTION_UNORDERED_MAP, hm]
  have e2 : ptrTo (.mk 0 p v v 0 []) = some (.mk 0 0 v v 0 []) := by simp [ptrTo, isComplexObj, DType.t0, complex_false v hv]
  have e3 : nameOf f (.mk 0 0 v v 0 []) = primName f v := by
    have : 1 ≤ v ∧ v < BUILTIN_END := ⟨hv.1, hb⟩
    simp [nameOf, primName, isPtr, isCollection, DType.ptr, DType.container, DType.t0, this]
  have e4 : keyOf (.mk c p k v 0 []) = .mk 0 0 k 0 0 [] := by
    simp [keyOf, isMapLike, DType.container, DType.elems, DType.t0, COLLECTION_MAP, COLLECTION_UNORDERED_MAP, hm]
  simp only [typeString, e1, e2, e3, e4, nameOf_prim f 0 k rfl, if_neg hve, if_neg hke, isCollection, DType.container, isPtr, DType.ptr, isMapLike, isTuple,
    COLLECTION_MAP, COLLECTION_UNORDERED_MAP, hm, hz, if_true, Bool.true_or]
  rcases hp with rfl | rfl <;> rfl

theorem nested_prim : ∀ id, WF (.prim id) → nested (.mk 0 0 id 0 0 []) = false := fun id h => by rw [← prim_shape id h]; exact (nested_iff _ h).mpr ⟨id, rfl⟩

theorem getDType_coll_prim : ∀ c id, WF (.coll c (.prim id)) → getDType (.coll c (.prim id)) = .mk c 0 id 0 0 [] := by
  intro c id h
  have hc : c % 2 ^ 6 = c := by rcases coll_ids c _ h with h | h | h | h | h <;> subst h <;> rfl
  rw [getDType, prim_shape id h.2]
  simp only [nested_prim id h.2, toCollection, hc, Bool.false_eq_true, if_false]

theorem getDType_map_prim : ∀ c k v, (c = COLLECTION_MAP ∨ c = COLLECTION_UNORDERED_MAP) → WF (.prim k) → WF (.prim v) → getDType (.two c (.prim k) (.prim v)) = .mk c 0 k v 0 [] := by
  intro c k v hc hk hv
  have h6 : c % 2 ^ 6 = c := by rcases hc with h | h <;> subst h <;> rfl
  rw [getDType_two, prim_shape k hk, prim_shape v hv]
  simp only [baseId, nested_prim k hk, nested_prim v hv, twoElems, DType.t0, h6, Bool.false_eq_true, if_false]

theorem ts_ptr (f : Factory) (t : CType) (d : DType) (n : Name) (hd : getDType t = d) (hp : isPtr d = false) (h : typeString f (toPtr d) = some (n ++ ['*'])) :
    typeString f (getDType (.ptr t)) = some (n ++ ['*']) := by
  rw [getDType, hd]
  simpa [hp] using h

theorem simple_prim (f : Factory) (id : Nat) (hw : WF (.prim id)) (hn : primName f id ≠ []) :
    typeString f (getDType (.prim id)) = some (primName f id) ∧ typeString f (getDType (.ptr (.prim id))) = some (primName f id ++ ['*']) := by
  refine ⟨?_, ts_ptr f _ _ _ (prim_shape id hw) rfl ?_⟩
  · rw [prim_shape id hw, typeString_prim f id 0 hw (Or.inl rfl) hn]
    simp
  · exact typeString_prim f id 1 hw (Or.inr rfl) hn

theorem simple_coll (f : Factory) (c id : Nat) (hw : WF (.coll c (.prim id))) (hn : primName f id ≠ []) :
    typeString f (getDType (.coll c (.prim id))) = some ((collectionStrs[c]?).getD [] ++ '<' :: primName f id ++ ['>']) ∧
    typeString f (getDType (.ptr (.coll c (.prim id)))) = some ((collectionStrs[c]?).getD [] ++ '<' :: primName f id ++ ['>'] ++ ['*']) := by
  refine ⟨?_, ts_ptr f _ _ _ (getDType_coll_prim c id hw) rfl ?_⟩
  · rw [getDType_coll_prim c id hw, typeString_coll f c id 0 hw (Or.inl rfl) hn]
    simp
  · rw [show toPtr (.mk c 0 id 0 0 []) = .mk c 1 id 0 0 [] from rfl, typeString_coll f c id 1 hw (Or.inr rfl) hn]
    simp

theorem simple_map (f : Factory) (c k v : Nat) (hc : c = COLLECTION_MAP ∨ c = COLLECTION_UNORDERED_MAP) (hk : WF (.prim k)) (hv : WF (.prim v)) (hb : v < BUILTIN_END)
    (hnk : primName f k ≠ []) (hnv : primName f v ≠ []) :
    typeString f (getDType (.two c (.prim k) (.prim v))) = some ((collectionStrs[c]?).getD [] ++ '<' :: primName f k ++ ',' :: primName f v ++ ['>']) ∧
    typeString f (getDType (.ptr (.two c (.prim k) (.prim v)))) = some ((collectionStrs[c]?).getD [] ++ '<' :: primName f k ++ ',' :: primName f v ++ ['>'] ++ ['*']) := by
  refine ⟨?_, ts_ptr f _ _ _ (getDType_map_prim c k v hc hk hv) rfl ?_⟩
  · rw [getDType_map_prim c k v hc hk hv, typeString_map f c k v 0 hc hk hv hb (Or.inl rfl) hnk hnv]
    simp
  · rw [show toPtr (.mk c 0 k v 0 []) = .mk c 1 k v 0 [] from rfl, typeString_map f c k v 1 hc hk hv hb (Or.inr rfl) hnk hnv]
    simp

/-- The six forms of simple types. -/
theorem simple_cases (t : CType) (hs : Simple t) :
    (∃ id, t = .prim id ∨ t = .ptr (.prim id)) ∨ (∃ c id, t = .coll c (.prim id) ∨ t = .ptr (.coll c (.prim id))) ∨
    (∃ c k v, (c = COLLECTION_MAP ∨ c = COLLECTION_UNORDERED_MAP) ∧ v < BUILTIN_END ∧
      (t = .two c (.prim k) (.prim v) ∨ t = .ptr (.two c (.prim k) (.prim v)))) := by
  unfold Simple at hs
  split at hs
  · exact Or.inl ⟨_, Or.inl rfl⟩
  · exact Or.inr (Or.inl ⟨_, _, Or.inl rfl⟩)
  · exact Or.inr (Or.inr ⟨_, _, _, hs.1, hs.2, Or.inl rfl⟩)
  · exact Or.inl ⟨_, Or.inr rfl⟩
  · exact Or.inr (Or.inl ⟨_, _, Or.inr rfl⟩)
  · exact Or.inr (Or.inr ⟨_, _, _, hs.1, hs.2, Or.inr rfl⟩)
  · exact absurd hs id

/-- **C130 (part).** The type string of a simple type is the text expected. -/
theorem type_string_partial (f : Factory) (t : CType) (hw : WF t) (hs : Simple t) (hn : ∀ i ∈ ids t, primName f i ≠ []) :
    typeString f (getDType t) = some (written (primName f) t) := by
  rcases simple_cases t hs with ⟨id, rfl | rfl⟩ | ⟨c, id, rfl | rfl⟩ | ⟨c, k, v, hc, hb, rfl | rfl⟩
  · exact (simple_prim f id hw (hn id (by simp [ids]))).1
  · exact (simple_prim f id hw (hn id (by simp [ids]))).2
  · exact (simple_coll f c id hw (hn id (by simp [ids]))).1
  · exact (simple_coll f c id hw (hn id (by simp [ids]))).2
  · exact (simple_map f c k v hc hw.2.1 hw.2.2 hb (hn k (by simp [ids])) (hn v (by simp [ids]))).1
  · exact (simple_map f c k v hc hw.2.1 hw.2.2 hb (hn k (by simp [ids])) (hn v (by simp [ids]))).2

/-! ## Reading a text back -/

theorem split_at (x : Char) : ∀ (a b r s : Name), x ∉ a → x ∉ b → a ++ x :: r = b ++ x :: s → a = b ∧ r = s
  | [], [], r, s, _, _, h => by simpa using h
  | [], y :: b, r, s, _, hb, h => by simp at h hb; exact absurd h.1 hb.1
  | y :: a, [], r, s, ha, _, h => by simp at h ha; exact absurd h.1.symm ha.1
  | y :: a, z :: b, r, s, ha, hb, h => by
    simp only [List.cons_append, List.cons.injEq, List.mem_cons, not_or] at h ha hb
    obtain ⟨h1, h2⟩ := split_at x a b r s ha.2 hb.2 h.2
    exact ⟨by rw [h.1, h1], h2⟩

theorem fundamental_plain (id : Nat) (h : 1 ≤ id ∧ id < BUILTIN_END) : Plain ((fundamentalStrs[id]?).getD []) := by
  obtain ⟨h1, h2⟩ := h
  unfold BUILTIN_END at h2
  unfold Plain
  have : ∀ i : Fin 25, (fundamentalStrs[i.val]?).getD [] ≠ [] ∧ '<' ∉ (fundamentalStrs[i.val]?).getD [] ∧ '>' ∉ (fundamentalStrs[i.val]?).getD [] ∧
      ',' ∉ (fundamentalStrs[i.val]?).getD [] ∧ '*' ∉ (fundamentalStrs[i.val]?).getD [] := by decide +kernel
  exact this ⟨id, h2⟩

theorem fundamental_inj (i j : Nat) (hi : i < BUILTIN_END) (hj : j < BUILTIN_END) (h : (fundamentalStrs[i]?).getD [] = (fundamentalStrs[j]?).getD []) : i = j := by
  unfold BUILTIN_END at hi hj
  have : ∀ i j : Fin 25, (fundamentalStrs[i.val]?).getD [] = (fundamentalStrs[j.val]?).getD [] → i = j := by decide +kernel
  exact congrArg Fin.val (this ⟨i, hi⟩ ⟨j, hj⟩ h)

theorem collection_plain (c : Nat) (h : c < 10) : '<' ∉ (collectionStrs[c]?).getD [] := by
  have : ∀ i : Fin 10, '<' ∉ (collectionStrs[i.val]?).getD [] := by decide +kernel
  exact this ⟨c, h⟩

theorem collection_inj (i j : Nat) (hi : i < 10) (hj : j < 10) (h : (collectionStrs[i]?).getD [] = (collectionStrs[j]?).getD []) : i = j := by
  have : ∀ i j : Fin 10, (collectionStrs[i.val]?).getD [] = (collectionStrs[j.val]?).getD [] → i = j := by decide +kernel
  exact congrArg Fin.val (this ⟨i, hi⟩ ⟨j, hj⟩ h)

/-- The three forms of simple types that are not pointers. -/
inductive Body : CType → Prop
  | prim (id) : Body (.prim id)
  | coll (c id) : Body (.coll c (.prim id))
  | map (c k v) (hc : c = COLLECTION_MAP ∨ c = COLLECTION_UNORDERED_MAP) (hv : v < BUILTIN_END) : Body (.two c (.prim k) (.prim v))

theorem simple_body (t : CType) (hs : Simple t) : Body t ∨ ∃ u, t = .ptr u ∧ Body u := by
  rcases simple_cases t hs with ⟨id, rfl | rfl⟩ | ⟨c, id, rfl | rfl⟩ | ⟨c, k, v, hc, hb, rfl | rfl⟩
  · exact Or.inl (.prim id)
  · exact Or.inr ⟨_, rfl, .prim id⟩
  · exact Or.inl (.coll c id)
  · exact Or.inr ⟨_, rfl, .coll c id⟩
  · exact Or.inl (.map c k v hc hb)
  · exact Or.inr ⟨_, rfl, .map c k v hc hb⟩

/-- The text of a type that is not a pointer does not end with a star. -/
theorem body_last (nm : Nat → Name) (t : CType) (h : Body t) (hp : ∀ i ∈ ids t, Plain (nm i)) (a : Name) : written nm t ≠ a ++ ['*'] := by
  intro he
  cases h with
  | prim id =>
    have := (hp id (by simp [ids])).2.2.2.2
    rw [show written nm (.prim id) = nm id from rfl] at he
    rw [he] at this
    simp at this
  | coll c id =>
    have := congrArg List.getLast? he
    rw [show written nm (.coll c (.prim id)) = ((collectionStrs[c]?).getD [] ++ '<' :: nm id) ++ ['>'] from rfl] at this
    simp only [List.getLast?_concat] at this
    exact absurd this (by decide)
  | map c k v hc hv =>
    have := congrArg List.getLast? he
    rw [show written nm (.two c (.prim k) (.prim v)) = ((collectionStrs[c]?).getD [] ++ '<' :: nm k ++ ',' :: nm v) ++ ['>'] from rfl] at this
    simp only [List.getLast?_concat] at this
    exact absurd this (by decide)

theorem coll_lt (c : Nat) (t : CType) (h : WF (.coll c t)) : c < 10 ∧ c ≠ COLLECTION_MAP ∧ c ≠ COLLECTION_UNORDERED_MAP := by
  rcases h.1 with rfl | rfl | rfl | rfl | rfl <;> decide

theorem map_lt (c : Nat) (h : c = COLLECTION_MAP ∨ c = COLLECTION_UNORDERED_MAP) : c < 10 := by
  rcases h with rfl | rfl <;> decide

theorem no_lt (nm : Nat → Name) (id : Nat) (hp : Plain (nm id)) (a r : Name) : nm id ≠ a ++ '<' :: r := by
  intro h
  have := hp.2.1
  rw [h] at this
  simp at this

theorem body_inj (nm : Nat → Name) (s t : CType) (hs : Body s) (ht : Body t) (ws : WF s) (wt : WF t) (ps : ∀ i ∈ ids s, Plain (nm i)) (pt : ∀ i ∈ ids t, Plain (nm i))
    (inj : ∀ i ∈ ids s, ∀ j ∈ ids t, nm i = nm j → i = j) (h : written nm s = written nm t) : s = t := by
  cases hs with
  | prim id =>
    cases ht with
    | prim id2 => rw [inj id (by simp [ids]) id2 (by simp [ids]) h]
    | coll c id2 =>
      simp only [written, List.append_assoc] at h
      exact absurd h (no_lt nm id (ps id (by simp [ids])) _ _)
    | map c k v hc hv =>
      simp only [written, List.append_assoc] at h
      exact absurd h (no_lt nm id (ps id (by simp [ids])) _ _)
  | coll c id =>
    cases ht with
    | prim id2 =>
      simp only [written, List.append_assoc] at h
      exact absurd h.symm (no_lt nm id2 (pt id2 (by simp [ids])) _ _)
    | coll c2 id2 =>
      simp only [written, List.append_assoc, List.cons_append] at h
      obtain ⟨h1, h2⟩ := split_at _ _ _ _ _ (collection_plain c (coll_lt c _ ws).1) (collection_plain c2 (coll_lt c2 _ wt).1) h
      have h3 := List.append_cancel_right h2
      rw [collection_inj c c2 (coll_lt c _ ws).1 (coll_lt c2 _ wt).1 h1, inj id (by simp [ids]) id2 (by simp [ids]) h3]
    | map c2 k v hc hv =>
      simp only [written, List.append_assoc, List.cons_append] at h
      obtain ⟨h1, h2⟩ := split_at _ _ _ _ _ (collection_plain c (coll_lt c _ ws).1) (collection_plain c2 (map_lt c2 hc)) h
      have hcc := collection_inj c c2 (coll_lt c _ ws).1 (map_lt c2 hc) h1
      have hl := coll_lt c _ ws
      rw [hcc] at hl
      rcases hc with hc | hc
      · exact absurd hc hl.2.1
      · exact absurd hc hl.2.2
  | map c k v hc hv =>
    cases ht with
    | prim id2 =>
      simp only [written, List.append_assoc] at h
      exact absurd h.symm (no_lt nm id2 (pt id2 (by simp [ids])) _ _)
    | coll c2 id2 =>
      simp only [written, List.append_assoc, List.cons_append] at h
      obtain ⟨h1, h2⟩ := split_at _ _ _ _ _ (collection_plain c (map_lt c hc)) (collection_plain c2 (coll_lt c2 _ wt).1) h
      have hcc := collection_inj c c2 (map_lt c hc) (coll_lt c2 _ wt).1 h1
      have hl := coll_lt c2 _ wt
      rw [← hcc] at hl
      rcases hc with hc | hc
      · exact absurd hc hl.2.1
      · exact absurd hc hl.2.2
    | map c2 k2 v2 hc2 hv2 =>
      simp only [written, List.append_assoc, List.cons_append] at h
      obtain ⟨h1, h2⟩ := split_at _ _ _ _ _ (collection_plain c (map_lt c hc)) (collection_plain c2 (map_lt c2 hc2)) h
      obtain ⟨h3, h4⟩ := split_at _ _ _ _ _ (ps k (by simp [ids])).2.2.2.1 (pt k2 (by simp [ids])).2.2.2.1 h2
      have h5 := List.append_cancel_right h4
      rw [collection_inj c c2 (map_lt c hc) (map_lt c2 hc2) h1, inj k (by simp [ids]) k2 (by simp [ids]) h3, inj v (by simp [ids]) v2 (by simp [ids]) h5]

/-- Different simple types have different texts, if different identifiers have different plain names. -/
theorem written_inj (nm : Nat → Name) (s t : CType) (hs : Simple s) (ht : Simple t) (ws : WF s) (wt : WF t) (ps : ∀ i ∈ ids s, Plain (nm i)) (pt : ∀ i ∈ ids t, Plain (nm i))
    (inj : ∀ i ∈ ids s, ∀ j ∈ ids t, nm i = nm j → i = j) (h : written nm s = written nm t) : s = t := by
  rcases simple_body s hs with bs | ⟨s', rfl, bs⟩ <;> rcases simple_body t ht with bt | ⟨t', rfl, bt⟩
  · exact body_inj nm s t bs bt ws wt ps pt inj h
  · exact absurd h (body_last nm s bs ps _)
  · exact absurd h.symm (body_last nm t bt pt _)
  · rw [body_inj nm s' t' bs bt ws wt ps pt inj (List.append_cancel_right h)]

/-! ## Registrations -/

/-- The map from classes to names holds only names that the other map has bound to the class, and every name in the second map occurs once. -/
def Good (f : Factory) : Prop :=
  (f.byName.map Prod.fst).Nodup ∧ ∀ id n, (id, n) ∈ f.byClass → (n, DType.mk 0 0 id 0 0 []) ∈ f.byName

theorem addName_good (f : Factory) (n : Name) (d : DType) (h : Good f) : Good (addName f n d).1 := by
  unfold addName
  split
  · exact h
  · rename_i hl
    have hnot : n ∉ f.byName.map Prod.fst := by
      intro hm
      obtain ⟨p, hp, rfl⟩ := List.mem_map.1 hm
      have := List.lookup_eq_none_iff.1 hl p hp
      simp at this
    have hnd : ((f.byName ++ [(n, d)]).map Prod.fst).Nodup := by
      rw [List.map_append, List.nodup_append]
      refine ⟨h.1, by simp, ?_⟩
      intro a ha b hb hab
      simp at hb
      subst hb; subst hab
      exact hnot ha
    dsimp only
    split
    · rename_i id
      refine ⟨hnd, ?_⟩
      intro i m hm
      dsimp only at hm ⊢
      rcases List.mem_append.1 hm with hm | hm
      · exact List.mem_append_left _ (h.2 i m hm)
      · simp at hm
        obtain ⟨rfl, rfl⟩ := hm
        simp
    · exact ⟨hnd, fun i m hm => List.mem_append_left _ (h.2 i m hm)⟩

theorem addAll_good : ∀ (rs : List (Name × DType)) (f : Factory), Good f → Good (addAll f rs)
  | [], f, h => h
  | (n, d) :: rs, f, h => addAll_good rs _ (addName_good f n d h)

theorem addName_sub (f : Factory) (n : Name) (d : DType) (p : Nat × Name) (h : p ∈ (addName f n d).1.byClass) :
    p ∈ f.byClass ∨ (p.2 = n ∧ d = .mk 0 0 p.1 0 0 []) := by
  unfold addName at h
  split at h
  · exact Or.inl h
  · dsimp only at h
    split at h
    · rcases List.mem_append.1 h with h | h
      · exact Or.inl h
      · simp at h; subst h; exact Or.inr ⟨rfl, rfl⟩
    · exact Or.inl h

/-- The names of classes are names given in a registration of that class. -/
theorem addAll_sub : ∀ (rs : List (Name × DType)) (f : Factory) (p : Nat × Name), p ∈ (addAll f rs).byClass → p ∈ f.byClass ∨ (p.2, DType.mk 0 0 p.1 0 0 []) ∈ rs
  | [], f, p, h => Or.inl h
  | (n, d) :: rs, f, p, h => by
    rcases addAll_sub rs _ p h with h | h
    · rcases addName_sub f n d p h with h | ⟨h1, h2⟩
      · exact Or.inl h
      · exact Or.inr (by rw [h1, ← h2]; simp)
    · exact Or.inr (List.mem_cons_of_mem _ h)

theorem nodup_fst_inj {α β : Type} (l : List (α × β)) (h : (l.map Prod.fst).Nodup) (a : α) (b c : β) (hb : (a, b) ∈ l) (hc : (a, c) ∈ l) : b = c := by
  induction l with
  | nil => simp at hb
  | cons p l ih =>
    rw [List.map_cons, List.nodup_cons] at h
    rcases List.mem_cons.1 hb with e1 | m1 <;> rcases List.mem_cons.1 hc with e2 | m2
    · exact (Prod.mk.inj (e1.trans e2.symm)).2
    · exact absurd (List.mem_map.2 ⟨(a, c), m2, by rw [← e1]⟩) h.1
    · exact absurd (List.mem_map.2 ⟨(a, b), m1, by rw [← e2]⟩) h.1
    · exact ih h.2 m1 m2

theorem lookup_mem {α : Type} [BEq α] [LawfulBEq α] {β : Type} (l : List (α × β)) (a : α) (b : β) (h : l.lookup a = some b) : (a, b) ∈ l := by
  obtain ⟨l1, l2, rfl, _⟩ := List.lookup_eq_some_iff.1 h
  simp

theorem primName_inj (rs : List (Name × DType)) (hb : ∀ p ∈ rs, p.1 ∉ fundamentalStrs) (i j : Nat)
    (hi : primName (addAll {} rs) i ≠ []) (h : primName (addAll {} rs) i = primName (addAll {} rs) j) : i = j := by
  have hg : Good (addAll {} rs) := addAll_good rs {} ⟨List.nodup_nil, fun _ _ h => by simp at h⟩
  have cls : ∀ k, ¬ (1 ≤ k ∧ k < BUILTIN_END) → primName (addAll {} rs) k ≠ [] → (k, primName (addAll {} rs) k) ∈ (addAll {} rs).byClass := by
    intro k hk hne
    rw [primName, if_neg hk] at hne ⊢
    cases hl : (addAll {} rs).byClass.lookup k with
    | none => rw [hl] at hne; exact absurd rfl hne
    | some n => exact lookup_mem _ _ _ hl
  have notb : ∀ k, ¬ (1 ≤ k ∧ k < BUILTIN_END) → primName (addAll {} rs) k ≠ [] → primName (addAll {} rs) k ∉ fundamentalStrs := by
    intro k hk hne
    rcases addAll_sub rs {} _ (cls k hk hne) with h | h
    · simp at h
    · exact hb _ h
  have isb : ∀ k, 1 ≤ k ∧ k < BUILTIN_END → primName (addAll {} rs) k ∈ fundamentalStrs := by
    intro k hk
    rw [primName, if_pos hk]
    have : k < fundamentalStrs.length := hk.2
    rw [List.getElem?_eq_getElem this]
    exact List.getElem_mem this
  have hj : primName (addAll {} rs) j ≠ [] := h ▸ hi
  by_cases bi : 1 ≤ i ∧ i < BUILTIN_END
  · by_cases bj : 1 ≤ j ∧ j < BUILTIN_END
    · rw [primName, primName, if_pos bi, if_pos bj] at h
      exact fundamental_inj i j bi.2 bj.2 h
    · exact absurd (h ▸ isb i bi) (notb j bj hj)
  · by_cases bj : 1 ≤ j ∧ j < BUILTIN_END
    · exact absurd (h ▸ isb j bj) (notb i bi hi)
    · have h1 := hg.2 _ _ (cls i bi hi)
      have h2 := hg.2 _ _ (cls j bj hj)
      rw [h] at h1
      have := nodup_fst_inj _ hg.1 _ _ _ h1 h2
      simpa using this

/-- **C130 (part).** Whatever classes were registered, in whatever order and however often: if the names given to the classes are plain and not names of built-in types, then two simple
types of which every class has a name have the same text only if they are the same type, and the text is the expected one. -/
theorem type_names_determine_types_partial (rs : List (Name × DType)) (hp : ∀ p ∈ rs, Plain p.1) (hb : ∀ p ∈ rs, p.1 ∉ fundamentalStrs) (s t : CType) (ws : WF s) (wt : WF t)
    (hs : Simple s) (ht : Simple t) (ns : ∀ i ∈ ids s, primName (addAll {} rs) i ≠ []) (nt : ∀ i ∈ ids t, primName (addAll {} rs) i ≠ []) :
    typeString (addAll {} rs) (getDType s) = some (written (primName (addAll {} rs)) s) ∧
      (typeString (addAll {} rs) (getDType s) = typeString (addAll {} rs) (getDType t) → s = t) := by
  have pl : ∀ k, primName (addAll {} rs) k ≠ [] → Plain (primName (addAll {} rs) k) := by
    intro k hk
    by_cases bk : 1 ≤ k ∧ k < BUILTIN_END
    · rw [primName, if_pos bk]; exact fundamental_plain k bk
    · have : (k, primName (addAll {} rs) k) ∈ (addAll {} rs).byClass := by
        rw [primName, if_neg bk] at hk ⊢
        cases hl : (addAll {} rs).byClass.lookup k with
        | none => rw [hl] at hk; exact absurd rfl hk
        | some n => exact lookup_mem _ _ _ hl
      rcases addAll_sub rs {} _ this with h | h
      · simp at h
      · exact hp _ h
  refine ⟨type_string_partial _ s ws hs ns, ?_⟩
  intro h
  rw [type_string_partial _ s ws hs ns, type_string_partial _ t wt ht nt] at h
  exact written_inj _ s t hs ht ws wt (fun i hi => pl i (ns i hi)) (fun i hi => pl i (nt i hi)) (fun i hi j hj h => primName_inj rs hb i j (ns i hi) h) (Option.some.inj h)

/-- Not vacuous: two classes are registered, the second one twice and once under the name of the first; pointers to vectors of the two have different texts. -/
example :
    let rs : List (Name × DType) := [("Foo".toList, .mk 0 0 64 0 0 []), ("Bar".toList, .mk 0 0 65 0 0 []), ("Foo".toList, .mk 0 0 65 0 0 []), ("Baz".toList, .mk 0 0 65 0 0 [])]
    typeString (addAll {} rs) (getDType (.ptr (.coll COLLECTION_VECTOR (.prim 65)))) = some "vector<Bar>*".toList ∧
    typeString (addAll {} rs) (getDType (.ptr (.coll COLLECTION_VECTOR (.prim 64)))) = some "vector<Foo>*".toList := by
  decide +kernel

/-- **C130 fails.** A vector of pointers has the name of the vector of what they point to, and a map with pointers as values that of the map with the values themselves. -/
theorem pointer_elements_same_name_violated :
    typeString {} (getDType (.coll COLLECTION_VECTOR (.ptr (.prim 9)))) = typeString {} (getDType (.coll COLLECTION_VECTOR (.prim 9))) ∧
    typeString {} (getDType (.two COLLECTION_MAP (.prim 9) (.ptr (.prim 11)))) = typeString {} (getDType (.two COLLECTION_MAP (.prim 9) (.prim 11))) := by
  decide +kernel

/-- **C130 fails.** Arrays of different lengths have one name. -/
theorem array_lengths_same_name_violated (f : Factory) (id n m : Nat) (hid : id < BUILTIN_END) (hn : WF (.arr (.prim id) n)) (hm : WF (.arr (.prim id) m)) :
    typeString f (getDType (.arr (.prim id) n)) = typeString f (getDType (.arr (.prim id) m)) := by
  have hg : ∀ k, k < 2 ^ 29 → getDType (.arr (.prim id) k) = .mk COLLECTION_ARRAY 0 id 0 k [] := by
    intro k hk
    rw [getDType, prim_shape id hn.2.1, toArray, Nat.mod_eq_of_lt hk]
  have hi : 1 ≤ id ∧ id < BUILTIN_END := ⟨hn.2.1.1, hid⟩
  have hp : ∀ k, ptrTo (elemOf (.mk COLLECTION_ARRAY 0 id 0 k [])) = some (.mk 0 0 id 0 k []) := by
    intro k
    have : isComplexObj (.mk 0 0 id 0 k []) = false := by
      have := hi.2
      unfold BUILTIN_END at this
      simp only [isComplexObj, DType.t0, DATA_COMPLEX_OBJECT]
      simp; omega
    rw [show elemOf (.mk COLLECTION_ARRAY 0 id 0 k []) = .mk 0 0 id 0 k [] from rfl]
    unfold ptrTo
    simp [this]
  have hnm : ∀ k, nameOf f (.mk 0 0 id 0 k []) = (fundamentalStrs[id]?).getD [] := by
    intro k
    unfold nameOf
    rw [if_neg (by simp [isPtr, isCollection, DType.ptr, DType.container]), if_pos (show 1 ≤ (DType.mk 0 0 id 0 k []).t0 ∧ (DType.mk 0 0 id 0 k []).t0 < BUILTIN_END from hi)]
    rfl
  rw [hg n hn.2.2, hg m hm.2.2]
  unfold typeString
  simp only [hp, hnm]
  rfl

/-- **C130 fails.** Collections of collections, tuples and maps with classes as values have no name. -/
theorem nested_types_have_no_name_violated :
    typeString (addAll {} [("Foo".toList, .mk 0 0 64 0 0 [])]) (getDType (.coll COLLECTION_VECTOR (.coll COLLECTION_VECTOR (.prim 9)))) = some [] ∧
    typeString (addAll {} [("Foo".toList, .mk 0 0 64 0 0 [])]) (getDType (.two COLLECTION_TUPLE (.prim 9) (.prim 9))) = some [] ∧
    typeString (addAll {} [("Foo".toList, .mk 0 0 64 0 0 [])]) (getDType (.two COLLECTION_MAP (.prim 9) (.prim 64))) = some [] := by
  decide +kernel

end Verif.Types.Names
