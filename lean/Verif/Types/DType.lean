import Verif.Types.Vector
/-!
# Type descriptors: model and properties C24, C25, C26, C28, C72

`/repo/rapidudf/meta/dtype.h` 55–205, 263–538 and `/repo/rapidudf/meta/dtype.cc` 78–117, 140–231, 318–399, 591–603.

A descriptor is a 64-bit control word (a union of bit fields and the whole word) and an optional vector of element descriptors. First the word, as bits; then
descriptors by their components, which `control_word_*` shows to be the same thing.
-/
namespace Verif.Types.DT
open Verif.Types.Vec (setField field field_lt field_setField_same field_setField_other)

/-! ## The control word -/

/-- Writing the five bit fields (`dtype.h` 187–202): container 6, pointer 1, t0 14, t1 14, array size 29, from the least significant bit. -/
def packWord (w : BitVec 64) (container ptr t0 t1 arr : BitVec 64) : BitVec 64 :=
  setField (setField (setField (setField (setField w 0 6 container) 6 1 ptr) 7 14 t0) 21 14 t1) 35 29 arr

/-- The five components of a word. -/
def components (w : BitVec 64) : Nat × Nat × Nat × Nat × Nat := (field w 0 6, field w 6 1, field w 7 14, field w 21 14, field w 35 29)

theorem field_append (w : BitVec 64) (off a b : Nat) : field w off (a + b) = field w off a + 2 ^ a * field w (off + a) b := by
  simp only [field, BitVec.extractLsb'_toNat]
  rw [Nat.shiftRight_add, Nat.shiftRight_eq_div_pow _ a, Nat.pow_add, Nat.mod_mul]

/-- The value of a word is determined by its components. -/
theorem word_value (w : BitVec 64) :
    w.toNat = field w 0 6 + 2 ^ 6 * field w 6 1 + 2 ^ 7 * field w 7 14 + 2 ^ 21 * field w 21 14 + 2 ^ 35 * field w 35 29 := by
  have h0 : field w 0 64 = w.toNat := by
    have := w.isLt
    simp only [field, BitVec.extractLsb'_toNat, Nat.shiftRight_zero]
    omega
  have h1 := field_append w 0 6 58
  have h2 := field_append w 6 1 57
  have h3 := field_append w 7 14 43
  have h4 := field_append w 21 14 29
  simp only [Nat.zero_add, Nat.reduceAdd] at h1 h2 h3 h4
  rw [← h0, h1, h2, h3, h4]
  omega

/-- **C24.** What is stored in the five components is read back unchanged, whatever the word held before. -/
theorem control_word_roundtrip (w c p t0 t1 n : BitVec 64) (hc : c.toNat < 2 ^ 6) (hp : p.toNat < 2) (h0 : t0.toNat < 2 ^ 14) (h1 : t1.toNat < 2 ^ 14)
    (hn : n.toNat < 2 ^ 29) : components (packWord w c p t0 t1 n) = (c.toNat, p.toNat, t0.toNat, t1.toNat, n.toNat) := by
  unfold components packWord
  have e1 : ∀ g : BitVec 64, field (setField (setField (setField (setField (setField g 0 6 c) 6 1 p) 7 14 t0) 21 14 t1) 35 29 n) 0 6 = c.toNat := by
    intro g
    rw [field_setField_other _ _ _ _ _ _ (by omega) (by omega), field_setField_other _ _ _ _ _ _ (by omega) (by omega),
      field_setField_other _ _ _ _ _ _ (by omega) (by omega), field_setField_other _ _ _ _ _ _ (by omega) (by omega), field_setField_same _ _ _ _ (by omega), Nat.mod_eq_of_lt hc]
  have e2 : ∀ g : BitVec 64, field (setField (setField (setField (setField g 6 1 p) 7 14 t0) 21 14 t1) 35 29 n) 6 1 = p.toNat := by
    intro g
    rw [field_setField_other _ _ _ _ _ _ (by omega) (by omega), field_setField_other _ _ _ _ _ _ (by omega) (by omega),
      field_setField_other _ _ _ _ _ _ (by omega) (by omega), field_setField_same _ _ _ _ (by omega), Nat.mod_eq_of_lt (by omega)]
  have e3 : ∀ g : BitVec 64, field (setField (setField (setField g 7 14 t0) 21 14 t1) 35 29 n) 7 14 = t0.toNat := by
    intro g
    rw [field_setField_other _ _ _ _ _ _ (by omega) (by omega), field_setField_other _ _ _ _ _ _ (by omega) (by omega), field_setField_same _ _ _ _ (by omega),
      Nat.mod_eq_of_lt h0]
  have e4 : ∀ g : BitVec 64, field (setField (setField g 21 14 t1) 35 29 n) 21 14 = t1.toNat := by
    intro g
    rw [field_setField_other _ _ _ _ _ _ (by omega) (by omega), field_setField_same _ _ _ _ (by omega), Nat.mod_eq_of_lt h1]
  have e5 : ∀ g : BitVec 64, field (setField g 35 29 n) 35 29 = n.toNat := by
    intro g
    rw [field_setField_same _ _ _ _ (by omega), Nat.mod_eq_of_lt hn]
  rw [e1, e2, e3, e4, e5]

/-- **C24.** Two words are equal exactly when their components are: no bit is outside the components and none is shared. -/
theorem control_word_eq_iff (w w' : BitVec 64) : w = w' ↔ components w = components w' := by
  constructor
  · rintro rfl; rfl
  · intro h
    simp only [components, Prod.mk.injEq] at h
    obtain ⟨h1, h2, h3, h4, h5⟩ := h
    apply BitVec.eq_of_toNat_eq
    rw [word_value w, word_value w', h1, h2, h3, h4, h5]

/-- **C24.** Changing one component (as `ToPtr`, `ToSimdVector`, `ToArray`, `PtrTo` do) leaves the others unchanged. -/
theorem control_word_update (w v : BitVec 64) :
    (components (setField w 0 6 v) = (v.toNat % 2 ^ 6, (components w).2)) ∧
    (components (setField w 6 1 v) = ((components w).1, v.toNat % 2 ^ 1, (components w).2.2)) ∧
    (components (setField w 7 14 v) = ((components w).1, (components w).2.1, v.toNat % 2 ^ 14, (components w).2.2.2)) ∧
    (components (setField w 21 14 v) = ((components w).1, (components w).2.1, (components w).2.2.1, v.toNat % 2 ^ 14, (components w).2.2.2.2)) ∧
    (components (setField w 35 29 v) = ((components w).1, (components w).2.1, (components w).2.2.1, (components w).2.2.2.1, v.toNat % 2 ^ 29)) := by
  simp only [components, Prod.mk.injEq]
  refine ⟨⟨?_, ?_, ?_, ?_, ?_⟩, ⟨?_, ?_, ?_, ?_, ?_⟩, ⟨?_, ?_, ?_, ?_, ?_⟩, ⟨?_, ?_, ?_, ?_, ?_⟩, ⟨?_, ?_, ?_, ?_, ?_⟩⟩
  all_goals first
    | exact field_setField_other _ _ _ _ _ _ (by omega) (by omega)
    | exact field_setField_same _ _ _ _ (by omega)

example : components (packWord 0 9 0 13 0 0) = (9, 0, 13, 0, 0) := by decide +kernel

/-! ## Descriptors -/

/-- A descriptor by components. The element vector holds null entries (`null`) and descriptors (`elem`); a null vector pointer and an empty vector are both `nil`
(`SetElement` never leaves an empty one). -/
inductive DType where
  | mk (container ptr t0 t1 arr : Nat) (elems : List (Option DType))

namespace DType

def container : DType → Nat | mk c _ _ _ _ _ => c
def ptr : DType → Nat | mk _ p _ _ _ _ => p
def t0 : DType → Nat | mk _ _ a _ _ _ => a
def t1 : DType → Nat | mk _ _ _ b _ _ => b
def arr : DType → Nat | mk _ _ _ _ n _ => n
def elems : DType → List (Option DType) | mk _ _ _ _ _ e => e

theorem eta (d : DType) : mk d.container d.ptr d.t0 d.t1 d.arr d.elems = d := by cases d; rfl

end DType

/-- Enum values, `dtype_enums.h`. -/
def COLLECTION_ARRAY : Nat := 1
def COLLECTION_VECTOR : Nat := 2
def COLLECTION_MAP : Nat := 3
def COLLECTION_SET : Nat := 4
def COLLECTION_UNORDERED_MAP : Nat := 5
def COLLECTION_UNORDERED_SET : Nat := 6
def COLLECTION_ABSL_SPAN : Nat := 7
def COLLECTION_TUPLE : Nat := 8
def COLLECTION_SIMD_VECTOR : Nat := 9
def DATA_COMPLEX_OBJECT : Nat := 2 ^ 14 - 1

/-- `DType(t0, t1)`, `dtype.h` 58–64. -/
def ofTypes (t0 t1 : Nat) : DType := .mk 0 0 (t0 % 2 ^ 14) (t1 % 2 ^ 14) 0 []

/-- `IsPtr`, `IsCollection`, `IsFundamental`, `IsComplexObj`. -/
def isPtr (d : DType) : Bool := d.ptr == 1
def isCollection (d : DType) : Bool := d.container != 0
def isFundamental (d : DType) : Bool := d.ptr == 0 && d.container == 0
def isComplexObj (d : DType) : Bool := d.t0 == DATA_COMPLEX_OBJECT
def isTuple (d : DType) : Bool := d.container == COLLECTION_TUPLE
def isMapLike (d : DType) : Bool := d.container == COLLECTION_MAP || d.container == COLLECTION_UNORDERED_MAP

/-- `ToPtr`, `dtype.cc` 166–171. -/
def toPtr : DType → DType | .mk c _ a b n e => .mk c 1 a b n e
/-- `ToCollection`, `ToVector`, `ToAbslSpan`, `ToSimdVector`, 159–165, 180–200. -/
def toCollection (k : Nat) : DType → DType | .mk _ p a b n e => .mk (k % 2 ^ 6) p a b n e
def toSimdVector : DType → DType := toCollection COLLECTION_SIMD_VECTOR
/-- `ToArray`, 172–179. -/
def toArray (k : Nat) : DType → DType | .mk _ p a b _ e => .mk COLLECTION_ARRAY p a b (k % 2 ^ 29) e

/-- `PtrTo`, 149–158; `none`: a null pointer is dereferenced. -/
def ptrTo (d : DType) : Option DType :=
  if isComplexObj d then
    match d.elems with
    | [] => none
    | e :: _ => e
  else
    match d with
    | .mk c _ a b n e => some (.mk c 0 a b n e)

/-- `Elem`, 212–231. -/
def elemOf (d : DType) : DType :=
  let fallback : DType := .mk 0 d.ptr (if isMapLike d then d.t1 else d.t0) d.t1 d.arr []
  if isMapLike d then
    match d.elems with
    | [_, some v] => v
    | _ => fallback
  else
    match d.elems with
    | some v :: _ => v
    | _ => fallback

/-- `Key`, 202–211. -/
def keyOf (d : DType) : DType :=
  if isMapLike d then
    match d.elems with
    | some v :: _ => v
    | _ => .mk 0 0 d.t0 0 0 []
  else .mk 0 0 0 0 0 []

/-! ## C26 -/

/-- C26 is false of the code: the pointee of the pointer to a collection of pointers or collections is its element type. For any descriptor `v` that is a
collection with a nested element `x` (`vector<vector<int>>`, `map<vector<int>, int>`), going to the pointer type and back gives `x`. -/
theorem ptr_roundtrip_violated (c a b n : Nat) (x : DType) (rest : List (Option DType)) (ha : a = DATA_COMPLEX_OBJECT) :
    ptrTo (toPtr (.mk c 0 a b n (some x :: rest))) = some x := by
  subst ha
  simp [ptrTo, toPtr, isComplexObj, DType.t0, DType.elems]

/-- The concrete case `vector<vector<int>>`: the round trip gives `vector<int>`. -/
theorem ptr_roundtrip_nested_violated :
    let vecInt : DType := .mk COLLECTION_VECTOR 0 9 0 0 []
    let vecVecInt : DType := .mk COLLECTION_VECTOR 0 DATA_COMPLEX_OBJECT 0 0 [some vecInt]
    ptrTo (toPtr vecVecInt) = some vecInt ∧ vecInt ≠ vecVecInt := by
  intro v w
  exact ⟨ptr_roundtrip_violated _ _ _ _ _ _ rfl, by simp [v, w]⟩

/-- What remains true of C26: for every descriptor that is not a pointer and whose base type is not the placeholder of nested types, pointer and pointee are inverse; and for every
scalar descriptor (no container, no array size) vector and element are inverse. -/
theorem type_constructors_partial (d : DType) :
    (d.ptr = 0 → d.t0 ≠ DATA_COMPLEX_OBJECT → ptrTo (toPtr d) = some d) ∧
    (d.container = 0 → d.elems = [] → elemOf (toSimdVector d) = d) := by
  cases d with
  | mk c p a b n e =>
    simp only [DType.ptr, DType.t0, DType.container, DType.elems]
    constructor
    · rintro rfl ha
      simp [ptrTo, toPtr, isComplexObj, DType.t0, ha]
    · rintro rfl rfl
      simp [elemOf, toSimdVector, toCollection, isMapLike, DType.container, DType.elems, COLLECTION_SIMD_VECTOR, COLLECTION_MAP, COLLECTION_UNORDERED_MAP, DType.ptr,
        DType.t0, DType.t1, DType.arr]

/-! ## C28 -/

/-- `TupleSize`, 342–359. -/
def tupleSize (d : DType) : Nat := if isTuple d = false then 0 else if d.t0 = 0 then 0 else if d.t1 = 0 then 1 else 4

/-- The descriptor `get_dtype` gives `std::tuple<A>` and `std::pair<A, B>` / `std::tuple<A, B>` for fundamental `A`, `B` (`dtype.h` 363–459). -/
def tuple1 (a : Nat) : DType := toCollection COLLECTION_TUPLE (ofTypes a 0)
def tuple2 (a b : Nat) : DType := toCollection COLLECTION_TUPLE (ofTypes a b)

/-- `ExtractTupleDtypes`, 318–340. -/
def extractTuple (d : DType) : List DType :=
  if isTuple d = false then [d] else if d.t0 = 0 then [] else if d.t1 = 0 then [ofTypes d.t0 0] else [ofTypes d.t0 0, ofTypes d.t1 0]

/-- C28 is false of the code: the size of every pair type is reported as 4. -/
theorem tuple_size_pair_violated (a b : Nat) (ha : a % 2 ^ 14 ≠ 0) (hb : b % 2 ^ 14 ≠ 0) : tupleSize (tuple2 a b) = 4 := by
  have h1 : isTuple (tuple2 a b) = true := rfl
  have h2 : (tuple2 a b).t0 = a % 2 ^ 14 := rfl
  have h3 : (tuple2 a b).t1 = b % 2 ^ 14 := rfl
  unfold tupleSize
  simp only [h1, h2, h3, ha, hb, if_false, reduceCtorEq]

/-- What remains true of C28: 1-tuples report 1, other types 0, and the list of component types has the right length for 1-tuples and pairs. -/
theorem tuple_size_partial (a b : Nat) (ha : a % 2 ^ 14 ≠ 0) (hb : b % 2 ^ 14 ≠ 0) :
    tupleSize (tuple1 a) = 1 ∧ (∀ d, d.container ≠ COLLECTION_TUPLE → tupleSize d = 0) ∧ extractTuple (tuple1 a) = [ofTypes a 0] ∧
    extractTuple (tuple2 a b) = [ofTypes a 0, ofTypes b 0] := by
  have h1 : isTuple (tuple2 a b) = true := rfl
  have h2 : (tuple2 a b).t0 = a % 2 ^ 14 := rfl
  have h3 : (tuple2 a b).t1 = b % 2 ^ 14 := rfl
  have g1 : isTuple (tuple1 a) = true := rfl
  have g2 : (tuple1 a).t0 = a % 2 ^ 14 := rfl
  have g3 : (tuple1 a).t1 = 0 := rfl
  have hm : ∀ x, ofTypes (x % 2 ^ 14) 0 = ofTypes x 0 := by intro x; simp only [ofTypes, Nat.mod_mod]
  refine ⟨?_, fun d hd => ?_, ?_, ?_⟩
  · unfold tupleSize
    simp only [g1, g2, g3, ha, if_false, if_true, reduceCtorEq]
  · have : isTuple d = false := by simpa [isTuple] using hd
    unfold tupleSize
    simp only [this, if_true]
  · unfold extractTuple
    simp only [g1, g2, g3, ha, if_false, if_true, reduceCtorEq, hm]
  · unfold extractTuple
    simp only [h1, h2, h3, ha, hb, if_false, reduceCtorEq, hm]

example : tupleSize (tuple2 9 13) = 4 := by decide

end Verif.Types.DT
