import Verif.Types.GetDType
import Mathlib.Tactic.IntervalCases
/-!
# What a cell of a table shows: C127, C128, C129

`/repo/rapidudf/table/table_schema.cc` 110–217 (protobuf), 219–365 (flatbuffers), 367–496 (structs): which column is made of a field.
`/repo/rapidudf/table/table.cc` 120–240 (`LoadColumn`): which getter reads it. `/repo/rapidudf/table/column.cc` 73–623: the getters.

A getter reads memory as a value of a C++ type of its own choice. The model makes this explicit: reading a member as a type other than its own is `undefined`.
Simplified: strings are shorter than 2^31 bytes; rows are valid objects or null pointers; the references methods return are valid.
-/
namespace Verif.Tbl.Cells
open Verif.Types.DT Verif.Types.DT.DType

/-- Values of members and of cells. -/
inductive Val where
  | num (x : Int)
  | text (b : List Nat)
  | list (l : List Val)
  /-- the target of a pointer or reference -/
  | ref (v : Val)

/-- Outcomes of adding a column for a member and loading a cell of it. -/
inductive Res where
  /-- `AddColumns` passes over the field or fails -/
  | refused
  /-- `LoadColumn` fails -/
  | loadError
  | undefined
  | cell (v : Val)

/-- `FundamentalType`, `dtype_enums.h` 40–68. -/
def DATA_BIT : Nat := 3
def DATA_U8 : Nat := 4
def DATA_I8 : Nat := 5
def DATA_U16 : Nat := 6
def DATA_I16 : Nat := 7
def DATA_U32 : Nat := 8
def DATA_I32 : Nat := 9
def DATA_U64 : Nat := 10
def DATA_I64 : Nat := 11
def DATA_F16 : Nat := 12
def DATA_F32 : Nat := 13
def DATA_F64 : Nat := 14
def DATA_F80 : Nat := 15
def DATA_STD_STRING_VIEW : Nat := 16
def DATA_STRING_VIEW : Nat := 17
def DATA_STRING : Nat := 18

/-! ## Descriptors, `dtype.h` 69–136 -/

def isPrimitive (d : DType) : Bool := isFundamental d && decide (DATA_BIT ≤ d.t0 ∧ d.t0 ≤ DATA_STRING_VIEW)
def isString (d : DType) : Bool := isFundamental d && d.t0 == DATA_STRING
def isStdStringView (d : DType) : Bool := isFundamental d && d.t0 == DATA_STD_STRING_VIEW
def isVector (d : DType) : Bool := d.container == COLLECTION_VECTOR
def isArray (d : DType) : Bool := d.container == COLLECTION_ARRAY
def isAbslSpan (d : DType) : Bool := d.container == COLLECTION_ABSL_SPAN
/-- A test behind `PtrTo()`; the null pointer of `ptrTo` does not occur for the descriptors of C++ types (`ptrTo_defined`). -/
def ptrToIs (p : DType → Bool) (d : DType) : Bool := match ptrTo d with | some e => p e | none => false
def isStringPtr (d : DType) : Bool := isPtr d && ptrToIs isString d

/-- `create_simd_vector_dtype`, `dtype.cc` 591–603. -/
def createSimdVector (d : DType) : DType :=
  if isPrimitive d then toSimdVector d
  else
    let e := elemOf d
    let e := if isString e || isStringPtr e || isStdStringView e then ofTypes DATA_STRING_VIEW 0 else e
    .mk COLLECTION_SIMD_VECTOR 0 DATA_COMPLEX_OBJECT 0 0 [some (toCollection COLLECTION_ABSL_SPAN e)]

/-- `get_dtype<Vector<T>>()` for a `T` with an identifier. -/
def vectorOf (t : Nat) : DType := getDType (.coll COLLECTION_SIMD_VECTOR (.prim t))

/-! ## Structs -/

/-- The test of the type of a member, `table_schema.cc` 394–413. -/
def validDType (d : DType) : Bool :=
  if !isFundamental d || !isPrimitive d then
    if isString d || isStringPtr d then true
    else if isArray d || isVector d then isPrimitive (elemOf d) || isString (elemOf d) || isStringPtr (elemOf d)
    else false
  else true

/-- The column made for a member of this type, `table_schema.cc` 394–480; `none`: refused or passed over. -/
def structColumn (d : DType) : Option DType :=
  if validDType d = false then none
  else if isArray d || isVector d then some (createSimdVector d)
  else if d.t0 = DATA_I8 then some (vectorOf DATA_I8)
  else if d.t0 = DATA_U8 then some (vectorOf DATA_U8)
  else if d.t0 = DATA_I16 then some (vectorOf DATA_I16)
  else if d.t0 = DATA_U16 then some (vectorOf DATA_U16)
  else if d.t0 = DATA_I32 then some (vectorOf DATA_I32)
  else if d.t0 = DATA_U32 then some (vectorOf DATA_U32)
  else if d.t0 = DATA_I64 then some (vectorOf DATA_I64)
  else if d.t0 = DATA_U64 then some (vectorOf DATA_U64)
  else if d.t0 = DATA_F32 then some (vectorOf DATA_F32)
  else if d.t0 = DATA_F64 then some (vectorOf DATA_F64)
  else if d.t0 = DATA_STRING ∨ d.t0 = DATA_STD_STRING_VIEW ∨ d.t0 = DATA_STRING_VIEW then some (vectorOf DATA_STRING_VIEW)
  else if d.t0 = DATA_BIT then some (vectorOf DATA_BIT)
  else none

/-- Memory (or the result of a call) of type `have_` read as type `want`. -/
def readAs (want have_ : CType) (v : Val) : Res := if want = have_ then .cell v else .undefined

/-- The `StringView` of a string or string view. -/
def view : Val → Res
  | .text b => .cell (.text b)
  | _ => .undefined

/-- The `StringView`s of a list of strings. -/
def views : Val → Res
  | .list l => .cell (.list l)
  | _ => .undefined

/-- What a string getter gives when it does not know the type. -/
def noText : Res := .cell (.text [])
/-- What a getter of spans gives when it does not know the type. -/
def noSpan : Res := .cell (.list [])

/-- `readAs`, then a view of the result. -/
def readThen (f : Val → Res) (want have_ : CType) (v : Val) : Res := if want = have_ then f v else .undefined

/-- `GetString` for structs, `column.cc` 318–352. -/
def getStringStruct (field : Bool) (d : DType) (ty : CType) (v : Val) : Res :=
  if field then
    if isString d then readThen view (.prim DATA_STRING) ty v
    else if isStdStringView d then readThen view (.prim DATA_STD_STRING_VIEW) ty v
    else noText
  else if isStringPtr d then readThen (fun v => match v with | .ref x => view x | _ => .undefined) (.ptr (.prim DATA_STRING)) ty v
  else if isStdStringView d then readThen view (.prim DATA_STD_STRING_VIEW) ty v
  else noText

/-- `GetRepeatedElement<T>` for structs, `column.cc` 436–477; `t` is the identifier of `T`. -/
def getRepeatedStruct (t : Nat) (field : Bool) (d : DType) (ty : CType) (v : Val) : Res :=
  if field then
    if isArray d then readAs (.arr (.prim t) d.arr) ty v
    else if isVector d then if t = DATA_BIT then noSpan else readAs (.coll COLLECTION_VECTOR (.prim t)) ty v
    else noSpan
  else if isPtr d && ptrToIs isArray d then
    readThen (fun v => match v with | .ref x => .cell x | _ => .undefined) (.ptr (.arr (.prim t) d.arr)) ty v
  else if isPtr d && ptrToIs isVector d then
    if t = DATA_BIT then noSpan
    else readThen (fun v => match v with | .ref x => .cell x | _ => .undefined) (.ptr (.coll COLLECTION_VECTOR (.prim t))) ty v
  else noSpan

/-- `GetRepeatedString` for structs, `column.cc` 537–596. -/
def getRepeatedStringStruct (field : Bool) (d : DType) (ty : CType) (v : Val) : Res :=
  if field then
    if isArray d then
      if isStdStringView (elemOf d) then readThen views (.arr (.prim DATA_STD_STRING_VIEW) d.arr) ty v
      else if isString (elemOf d) then readThen views (.arr (.prim DATA_STRING) d.arr) ty v
      else noSpan
    else if isVector d then
      if isStdStringView (elemOf d) then readThen views (.coll COLLECTION_VECTOR (.prim DATA_STD_STRING_VIEW)) ty v
      else if isString (elemOf d) then readThen views (.coll COLLECTION_VECTOR (.prim DATA_STRING)) ty v
      else noSpan
    else noSpan
  else noSpan

/-- The fundamental types `LoadColumn` has getters for, `table.cc` 126–175, 188–235: the identifier of the C++ type read by the getter. -/
def getterOf (t : Nat) : Option Nat :=
  if t = DATA_F32 then some DATA_F32
  else if t = DATA_F64 then some DATA_F64
  else if t = DATA_U64 then some DATA_U64
  else if t = DATA_U32 then some DATA_U32
  else if t = DATA_U16 then some DATA_U16
  else if t = DATA_U8 then some DATA_U8
  else if t = DATA_I64 then some DATA_I64
  else if t = DATA_I32 then some DATA_I32
  else if t = DATA_I16 then some DATA_I16
  else if t = DATA_I8 then some DATA_I8
  else if t = DATA_STRING_VIEW then some DATA_STRING_VIEW
  else if t = DATA_BIT then some DATA_BIT
  else none

/-- `LoadColumn` for one row of a struct, `table.cc` 120–248. -/
def loadStruct (col : DType) (field : Bool) (d : DType) (ty : CType) (v : Val) : Res :=
  let e := elemOf col
  if isPrimitive e then
    match getterOf e.t0 with
    | none => .loadError
    | some t => if t = DATA_STRING_VIEW then getStringStruct field d ty v else readAs (.prim t) ty v
  else if isAbslSpan e then
    match getterOf e.t0 with
    | none => .loadError
    | some t => if t = DATA_STRING_VIEW then getRepeatedStringStruct field d ty v else getRepeatedStruct t field d ty v
  else .loadError

/-- A cell of the column made of a member (`field`) or of a method without further arguments (`¬ field`) of type `ty`, in a row in which it has the value `v`. -/
def structCell (field : Bool) (ty : CType) (v : Val) : Res :=
  match structColumn (getDType ty) with
  | none => .refused
  | some col => loadStruct col field (getDType ty) ty v

/-! ## Specification -/

/-- The numeric types that can be columns: `bool`, integers, `float`, `double`. -/
def Numeric (id : Nat) : Prop := (3 ≤ id ∧ id ≤ 11) ∨ id = 13 ∨ id = 14
instance (id : Nat) : Decidable (Numeric id) := by unfold Numeric; infer_instance

/-- The value is one of the type. -/
inductive HasType : CType → Val → Prop
  | num (id x) (h : id < 16) : HasType (.prim id) (.num x)
  | text (id b) (h : 16 ≤ id ∧ id ≤ 18) : HasType (.prim id) (.text b)
  | object (id v) (h : 18 < id) : HasType (.prim id) v
  | ref (t v) (h : HasType t v) : HasType (.ptr t) (.ref v)
  | array (t n l) (hn : l.length = n) (h : ∀ x ∈ l, HasType t x) : HasType (.arr t n) (.list l)
  | vector (t l) (h : ∀ x ∈ l, HasType t x) : HasType (.coll 2 t) (.list l)
  | coll (c t v) (h : c ≠ 2) : HasType (.coll c t) v
  | two (c k v x) : HasType (.two c k v) x
  | tup (t x) : HasType (.tup1 t) x

/-- The members that are shown as they are. -/
inductive Shown : Bool → CType → Prop
  | numField (f id) (h : Numeric id) : Shown f (.prim id)
  | viewField (f) : Shown f (.prim 16)
  | stringField : Shown true (.prim 18)
  | stringRef : Shown false (.ptr (.prim 18))
  | numArray (id n) (h : Numeric id) : Shown true (.arr (.prim id) n)
  | textArray (id n) (h : id = 16 ∨ id = 18) : Shown true (.arr (.prim id) n)
  | numVector (id) (h : Numeric id) (hb : id ≠ 3) : Shown true (.coll 2 (.prim id))
  | textVector (id) (h : id = 16 ∨ id = 18) : Shown true (.coll 2 (.prim id))

/-- The members that become a column of empty strings or empty spans. -/
inductive Lost : Bool → CType → Prop
  | view (f) : Lost f (.prim 17)
  | stringPtr : Lost true (.ptr (.prim 18))
  | stringMethod : Lost false (.prim 18)
  | bools : Lost true (.coll 2 (.prim 3))
  | viewArray (n) : Lost true (.arr (.prim 17) n)
  | viewVector : Lost true (.coll 2 (.prim 17))
  | pointers (f) : Lost f (.coll 2 (.ptr (.prim 18)))
  | stringsRef (f) : Lost f (.ptr (.coll 2 (.prim 18)))
  | stringArrayRef (f n) : Lost f (.ptr (.arr (.prim 18) n))
  | pointersRef (f) : Lost f (.ptr (.coll 2 (.ptr (.prim 18))))
  | arrayMethod (id n) (h : Numeric id ∨ id = 16 ∨ id = 17 ∨ id = 18) : Lost false (.arr (.prim id) n)
  | vectorMethod (id) (h : Numeric id ∨ id = 16 ∨ id = 17 ∨ id = 18) : Lost false (.coll 2 (.prim id))

/-- What a cell should show of a member: the value; for a reference, its target. -/
def shown : Val → Val
  | .ref v => v
  | v => v

/-! ## Lemmas -/

theorem ptrTo_defined (t : CType) (h : WF t) : ptrTo (getDType t) ≠ none := by
  have key : ∀ d : DType, (isComplexObj d = true → ∃ e r, d.elems = some e :: r) → ptrTo d ≠ none := by
    intro d hd
    unfold ptrTo
    cases hc : isComplexObj d
    · cases d; simp
    · obtain ⟨e, r, he⟩ := hd hc
      simp [he]
  have elems : ∀ t : CType, WF t → isComplexObj (getDType t) = true → ∃ e r, (getDType t).elems = some e :: r := by
    intro t
    induction t with
    | prim id =>
      intro h hc
      rw [prim_shape id h] at hc
      simp only [WF] at h
      simp only [isComplexObj, DType.t0, beq_iff_eq] at hc
      omega
    | ptr t ih =>
      intro h hc
      simp only [getDType] at hc ⊢
      cases hp : isPtr (getDType t)
      · rw [hp] at hc
        simp only [Bool.false_eq_true, if_false] at hc ⊢
        have : isComplexObj (getDType t) = true := by
          revert hc
          cases getDType t; exact id
        obtain ⟨e, r, he⟩ := ih h this
        refine ⟨e, r, ?_⟩
        rw [← he]
        cases getDType t; rfl
      · exact ⟨_, _, rfl⟩
    | coll c t ih =>
      intro h hc
      simp only [getDType] at hc ⊢
      cases hp : nested (getDType t)
      · rw [hp] at hc
        obtain ⟨id, rfl⟩ := (nested_iff t h.2).1 hp
        rw [prim_shape id h.2] at hc
        have := h.2
        simp only [WF] at this
        simp only [Bool.false_eq_true, if_false, toCollection, isComplexObj, DType.t0, beq_iff_eq] at hc
        omega
      · exact ⟨_, _, rfl⟩
    | arr t n ih =>
      intro h hc
      obtain ⟨⟨id, rfl⟩, h2, _⟩ := h
      simp only [getDType] at hc
      have e := prim_shape id h2
      simp only [getDType] at e
      rw [e] at hc
      simp only [WF] at h2
      simp only [toArray, isComplexObj, DType.t0, beq_iff_eq] at hc
      omega
    | two c k v ihk ihv =>
      intro h hc
      simp only [getDType, isComplexObj, DType.t0, DType.elems, twoElems, baseId] at hc ⊢
      cases hk : nested (getDType k)
      · rw [hk] at hc
        obtain ⟨id, rfl⟩ := (nested_iff k h.2.1).1 hk
        rw [prim_shape id h.2.1] at hc
        have := h.2.1
        simp only [WF] at this
        simp only [Bool.false_eq_true, if_false, DType.t0, beq_iff_eq] at hc
        omega
      · cases nested (getDType v) <;> exact ⟨_, _, rfl⟩
    | tup1 t ih =>
      intro h hc
      simp only [getDType, isComplexObj, DType.t0, DType.elems, baseId] at hc ⊢
      cases hk : nested (getDType t)
      · rw [hk] at hc
        obtain ⟨id, rfl⟩ := (nested_iff t h).1 hk
        rw [prim_shape id h] at hc
        have := h
        simp only [WF] at this
        simp only [Bool.false_eq_true, if_false, DType.t0, beq_iff_eq] at hc
        omega
      · exact ⟨_, _, rfl⟩
  exact key _ (elems t h)

theorem arr_shape (id n : Nat) (h : WF (.arr (.prim id) n)) : getDType (.arr (.prim id) n) = .mk 1 0 id 0 n [] := by
  have e := prim_shape id h.2.1
  simp only [getDType] at e ⊢
  rw [e]
  simp only [toArray, COLLECTION_ARRAY, Nat.mod_eq_of_lt h.2.2]

theorem vec_shape (id : Nat) (h : WF (.prim id)) : getDType (.coll 2 (.prim id)) = .mk 2 0 id 0 0 [] := by
  have e := prim_shape id h
  rw [getDType, e]
  rfl

theorem ptr_shape (id : Nat) (h : WF (.prim id)) : getDType (.ptr (.prim id)) = .mk 0 1 id 0 0 [] := by
  have e := prim_shape id h
  rw [getDType, e]
  rfl

theorem ptr_arr_shape (id n : Nat) (h : WF (.arr (.prim id) n)) : getDType (.ptr (.arr (.prim id) n)) = .mk 1 1 id 0 n [] := by
  have e := arr_shape id n h
  rw [getDType, e]
  rfl

theorem ptr_vec_shape (id : Nat) (h : WF (.prim id)) : getDType (.ptr (.coll 2 (.prim id))) = .mk 2 1 id 0 0 [] := by
  have e := vec_shape id h
  rw [getDType, e]
  rfl

theorem fundamental_iff (t : CType) (h : WF t) : isFundamental (getDType t) = true ↔ ∃ id, t = .prim id := by
  constructor
  · intro hf
    simp only [isFundamental, Bool.and_eq_true, beq_iff_eq] at hf
    cases t with
    | prim id => exact ⟨id, rfl⟩
    | ptr u => rw [ptr_fields u h] at hf; exact absurd hf.1 (by decide)
    | coll c u => exact absurd ((nonptr_container _ h (by intro u hu; cases hu)).symm.trans hf.2) (container_pos _ h (by intro u hu; cases hu) (by intro u hu; cases hu))
    | arr u n => exact absurd ((nonptr_container _ h (by intro u hu; cases hu)).symm.trans hf.2) (container_pos _ h (by intro u hu; cases hu) (by intro u hu; cases hu))
    | two c k v => exact absurd ((nonptr_container _ h (by intro u hu; cases hu)).symm.trans hf.2) (container_pos _ h (by intro u hu; cases hu) (by intro u hu; cases hu))
    | tup1 u => exact absurd ((nonptr_container _ h (by intro u hu; cases hu)).symm.trans hf.2) (container_pos _ h (by intro u hu; cases hu) (by intro u hu; cases hu))
  · rintro ⟨id, rfl⟩
    rw [prim_shape id h]
    rfl

theorem not_fund_of_container {d : DType} (h : d.container ≠ 0) : isFundamental d = false := by
  simp [isFundamental, h]

theorem nested_not_fund (t : CType) (h : WF t) (hn : nested (getDType t) = true) : isFundamental (getDType t) = false := by
  rw [Bool.eq_false_iff]
  intro hf
  obtain ⟨id, rfl⟩ := (fundamental_iff t h).1 hf
  rw [prim_shape id h] at hn
  cases hn

/-- The first element descriptor kept by a descriptor is not one of a fundamental type. -/
theorem head_not_fund (t : CType) (h : WF t) (hn : ∀ u, t ≠ .ptr u) (e : DType) (r : List (Option DType)) (he : (getDType t).elems = some e :: r) :
    isFundamental e = false := by
  cases t with
  | prim id => rw [prim_shape id h] at he; cases he
  | ptr u => exact absurd rfl (hn u)
  | coll c u =>
    rw [getDType] at he
    cases hu : nested (getDType u)
    · obtain ⟨id, rfl⟩ := (nested_iff u h.2).1 hu
      rw [hu, prim_shape id h.2] at he
      cases he
    · rw [hu] at he
      simp only [if_true, DType.elems, List.cons.injEq, Option.some.injEq] at he
      rw [← he.1]
      exact nested_not_fund u h.2 hu
  | arr u n =>
    obtain ⟨⟨id, rfl⟩, h2, h3⟩ := h
    rw [arr_shape id n ⟨⟨id, rfl⟩, h2, h3⟩] at he
    cases he
  | two c k v =>
    simp only [getDType, DType.elems, twoElems] at he
    cases hk : nested (getDType k) <;> cases hv : nested (getDType v) <;> simp [hk, hv] at he
    · rw [← he.1]; exact nested_not_fund k h.2.1 hk
    · rw [← he.1]; exact nested_not_fund k h.2.1 hk
  | tup1 u =>
    simp only [getDType, DType.elems] at he
    cases hu : nested (getDType u) <;> simp [hu] at he
    rw [← he.1]; exact nested_not_fund u h hu

theorem stringPtr_imp (t : CType) (h : WF t) (hs : isStringPtr (getDType t) = true) : t = .ptr (.prim 18) := by
  simp only [isStringPtr, Bool.and_eq_true] at hs
  obtain ⟨u, rfl⟩ := (isPtr_iff t h).1 hs.1
  have h2 := hs.2
  by_cases hp : ∃ id, u = .prim id
  · obtain ⟨id, rfl⟩ := hp
    rw [ptr_shape id h] at h2
    have hc : isComplexObj (.mk 0 1 id 0 0 []) = false := by
      simp only [WF] at h
      simp only [isComplexObj, DType.t0, beq_eq_false_iff_ne]
      omega
    simp only [ptrToIs, ptrTo, hc, Bool.false_eq_true, if_false] at h2
    have : id = 18 := by simpa [isString, isFundamental, DType.ptr, DType.container, DType.t0, DATA_STRING] using h2
    rw [this]
  · exfalso
    have hu : nested (getDType u) = true := by
      cases hn : nested (getDType u)
      · exact absurd ((nested_iff u h).1 hn) hp
      · rfl
    rw [getDType] at h2
    cases hpp : isPtr (getDType u)
    · rw [hpp] at h2
      have hnp : ∀ w, u ≠ .ptr w := by
        intro w hw
        rw [(isPtr_iff u h).2 ⟨w, hw⟩] at hpp
        cases hpp
      have hcont : (getDType u).container ≠ 0 := by
        rw [nonptr_container u h hnp]
        exact container_pos u h hnp (fun id hid => hp ⟨id, hid⟩)
      have hhead := head_not_fund u h hnp
      revert h2 hcont hhead
      generalize getDType u = d
      intro h2 hcont hhead
      cases d with
      | mk c p a b n e =>
        simp only [Bool.false_eq_true, if_false, toPtr, ptrToIs, ptrTo] at h2
        cases hco : isComplexObj (.mk c 1 a b n e)
        · rw [hco] at h2
          simp only [Bool.false_eq_true, if_false, isString, Bool.and_eq_true] at h2
          rw [not_fund_of_container (by exact hcont)] at h2
          exact absurd h2.1 (by decide)
        · rw [hco] at h2
          simp only [if_true, DType.elems] at h2
          cases e with
          | nil => cases h2
          | cons x r =>
            cases x with
            | none => cases h2
            | some x =>
              simp only [isString, Bool.and_eq_true] at h2
              rw [hhead x r rfl] at h2
              exact absurd h2.1 (by decide)
    · rw [hpp] at h2
      simp only [if_true, ptrToIs, ptrTo, isComplexObj, DType.t0, beq_self_eq_true, DType.elems, isString, Bool.and_eq_true] at h2
      rw [nested_not_fund u h hu] at h2
      exact absurd h2.1 (by decide)

theorem string_iff (t : CType) (h : WF t) : isString (getDType t) = true ↔ t = .prim 18 := by
  constructor
  · intro hs
    simp only [isString, Bool.and_eq_true] at hs
    obtain ⟨id, rfl⟩ := (fundamental_iff t h).1 hs.1
    rw [prim_shape id h] at hs
    have : id = 18 := by simpa [DType.t0, DATA_STRING] using hs.2
    rw [this]
  · rintro rfl; rfl

theorem primitive_imp (t : CType) (h : WF t) (hs : isPrimitive (getDType t) = true) : ∃ id, t = .prim id ∧ 3 ≤ id ∧ id ≤ 17 := by
  simp only [isPrimitive, Bool.and_eq_true, decide_eq_true_eq] at hs
  obtain ⟨id, rfl⟩ := (fundamental_iff t h).1 hs.1
  rw [prim_shape id h] at hs
  exact ⟨id, rfl, hs.2⟩

/-! ## C127 -/

/-- **C127** (partial: the types of `Shown`; the full claim is refuted by `struct_cell_violated`). The cell shows the member's value: numbers, `std::string` members, references to
`std::string` returned by methods, `std::string_view`, and arrays and vectors of these that are members. -/
theorem struct_cell_partial (field : Bool) (ty : CType) (v : Val) (hs : Shown field ty) (hw : WF ty) (hv : HasType ty v) : structCell field ty v = .cell (shown v) := by
  cases hs with
  | numField _ id h =>
    have hid : id < 16 := by rcases h with h | h | h <;> omega
    cases hv with
    | num _ x _ =>
      rcases h with h | rfl | rfl
      · obtain ⟨h1, h2⟩ := h
        interval_cases id <;> rfl
      · rfl
      · rfl
    | text _ b h => omega
    | object _ _ h => omega
  | viewField =>
    cases hv with
    | num _ x h => omega
    | text _ b h => cases field <;> rfl
    | object _ _ h => omega
  | stringField =>
    cases hv with
    | num _ x h => omega
    | text _ b h => rfl
    | object _ _ h => omega
  | stringRef =>
    cases hv with
    | ref _ _ h =>
      cases h with
      | num _ x h => omega
      | text _ b h => rfl
      | object _ _ h => omega
  | numArray id n h =>
    cases hv with
    | array _ _ l hn hl =>
      unfold structCell
      rw [arr_shape id n hw]
      rcases h with h | rfl | rfl
      · obtain ⟨h1, h2⟩ := h
        interval_cases id <;> exact if_pos rfl
      · exact if_pos rfl
      · exact if_pos rfl
  | textArray id n h =>
    cases hv with
    | array _ _ l hn hl =>
      unfold structCell
      rw [arr_shape id n hw]
      rcases h with rfl | rfl
      · exact if_pos rfl
      · exact if_pos rfl
  | numVector id h hb =>
    cases hv with
    | vector _ l hl =>
      unfold structCell
      rw [vec_shape id hw.2]
      rcases h with h | rfl | rfl
      · obtain ⟨h1, h2⟩ := h
        interval_cases id
        · exact absurd rfl hb
        all_goals rfl
      · rfl
      · rfl
    | coll _ _ _ h => exact absurd rfl h
  | textVector id h =>
    cases hv with
    | vector _ l hl =>
      unfold structCell
      rw [vec_shape id hw.2]
      rcases h with rfl | rfl <;> rfl
    | coll _ _ _ h => exact absurd rfl h

/-- **C127, negation of the full claim.** The members of `Lost` are accepted as columns; whatever their values, the cells are empty. -/
theorem struct_cell_violated (field : Bool) (ty : CType) (v : Val) (hs : Lost field ty) (hw : WF ty) :
    structCell field ty v = .cell (.text []) ∨ structCell field ty v = .cell (.list []) := by
  cases hs with
  | view => left; cases field <;> rfl
  | stringPtr => left; rfl
  | stringMethod => left; rfl
  | bools => right; rfl
  | viewArray n => right; unfold structCell; rw [arr_shape _ n hw]; rfl
  | viewVector => right; rfl
  | pointers => right; cases field <;> rfl
  | stringsRef => right; cases field <;> rfl
  | stringArrayRef _ n => right; unfold structCell; rw [ptr_arr_shape _ n hw]; cases field <;> rfl
  | pointersRef => right; cases field <;> rfl
  | arrayMethod id n h =>
    right; unfold structCell; rw [arr_shape _ n hw]
    have : 3 ≤ id ∧ id ≤ 18 ∧ id ≠ 12 ∧ id ≠ 15 := by rcases h with (h | h | h) | h | h | h <;> omega
    obtain ⟨h1, h2, h3, h4⟩ := this
    interval_cases id <;> first | rfl | omega
  | vectorMethod id h =>
    right; unfold structCell; rw [vec_shape id hw.2]
    have : 3 ≤ id ∧ id ≤ 18 ∧ id ≠ 12 ∧ id ≠ 15 := by rcases h with (h | h | h) | h | h | h <;> omega
    obtain ⟨h1, h2, h3, h4⟩ := this
    interval_cases id <;> first | rfl | omega

/-- **C127.** For every other type of a member no column is made, or it can not be loaded; reading a cell is never undefined. -/
theorem struct_cell_other (field : Bool) (ty : CType) (v : Val) (hs : ¬ Shown field ty) (hl : ¬ Lost field ty) (hw : WF ty) :
    structCell field ty v = .refused ∨ structCell field ty v = .loadError := by
  have reject : validDType (getDType ty) = false → structCell field ty v = .refused ∨ structCell field ty v = .loadError := by
    intro hd
    left
    unfold structCell structColumn
    rw [if_pos hd]
  by_cases hv : validDType (getDType ty) = true
  swap
  · exact reject (by simpa using hv)
  unfold validDType at hv
  split at hv
  · split at hv
    · rename_i hss
      simp only [Bool.or_eq_true] at hss
      rcases hss with hss | hss
      · rw [string_iff ty hw] at hss
        subst hss
        cases field
        · exact absurd Lost.stringMethod hl
        · exact absurd Shown.stringField hs
      · have := stringPtr_imp ty hw hss
        subst this
        cases field
        · exact absurd Shown.stringRef hs
        · exact absurd Lost.stringPtr hl
    · split at hv
      · rename_i hc
        simp only [Bool.or_eq_true] at hv
        have elemOk : ∀ u : CType, WF u → (isPrimitive (getDType u) = true ∨ isString (getDType u) = true) ∨ isStringPtr (getDType u) = true →
            (∃ id, u = .prim id ∧ 3 ≤ id ∧ id ≤ 18) ∨ u = .ptr (.prim 18) := by
          intro u hu hh
          rcases hh with (hh | hh) | hh
          · obtain ⟨id, h1, h2, h3⟩ := primitive_imp u hu hh
            exact Or.inl ⟨id, h1, h2, by omega⟩
          · exact Or.inl ⟨18, (string_iff u hu).1 hh, by omega, by omega⟩
          · exact Or.inr (stringPtr_imp u hu hh)
        have noMod : ∀ id n : Nat, id < DATA_COMPLEX_OBJECT → (isPrimitive (.mk 0 1 id 0 n []) = true ∨ isString (.mk 0 1 id 0 n []) = true) ∨ isStringPtr (.mk 0 1 id 0 n []) = true → id = 18 := by
          intro id n hid hh
          have hco : isComplexObj (.mk 0 1 id 0 n []) = false := by
            simp only [isComplexObj, DType.t0, beq_eq_false_iff_ne]
            omega
          rcases hh with (hh | hh) | hh
          · simp [isPrimitive, isFundamental, DType.ptr] at hh
          · simp [isString, isFundamental, DType.ptr] at hh
          · simpa [isStringPtr, ptrToIs, ptrTo, hco, isString, isFundamental, DType.ptr, DType.container, DType.t0, isPtr, DATA_STRING] using hh
        cases ty with
        | prim id => rw [prim_shape id hw] at hc; cases hc
        | arr u n =>
          obtain ⟨⟨id, rfl⟩, h2, h3⟩ := hw
          have hw : WF (.arr (.prim id) n) := ⟨⟨id, rfl⟩, h2, h3⟩
          have hid : 3 ≤ id ∧ id ≤ 18 := by
            rw [arr_shape id n hw] at hv
            have e : elemOf (.mk 1 0 id 0 n []) = .mk 0 0 id 0 n [] := rfl
            rw [e] at hv
            rcases hv with (hv | hv) | hv
            · simp only [isPrimitive, isFundamental, DType.ptr, DType.container, DType.t0, Bool.and_eq_true, decide_eq_true_eq] at hv
              have h4 := of_decide_eq_true hv.2
              exact ⟨h4.1, Nat.le_succ_of_le h4.2⟩
            · simp only [isString, isFundamental, DType.ptr, DType.container, DType.t0, Bool.and_eq_true, beq_iff_eq, DATA_STRING] at hv
              have := hv.2
              omega
            · simp [isStringPtr, isPtr, DType.ptr] at hv
          obtain ⟨h1, h2⟩ := hid
          cases field
          · have : id = 12 ∨ id = 15 := by
              by_cases hn : id = 12 ∨ id = 15
              · exact hn
              · exact absurd (Lost.arrayMethod id n (by unfold Numeric; omega)) hl
            unfold structCell
            rw [arr_shape id n hw]
            rcases this with rfl | rfl <;> exact Or.inr rfl
          · have : id = 12 ∨ id = 15 := by
              by_cases hn : id = 12 ∨ id = 15
              · exact hn
              · by_cases h17 : id = 17
                · subst h17; exact absurd (Lost.viewArray n) hl
                · by_cases ht : id = 16 ∨ id = 18
                  · exact absurd (Shown.textArray id n ht) hs
                  · exact absurd (Shown.numArray id n (by unfold Numeric; omega)) hs
            unfold structCell
            rw [arr_shape id n hw]
            rcases this with rfl | rfl <;> exact Or.inr rfl
        | coll c u =>
          have hcc : c = 2 := by
            have e := nonptr_container _ hw (by intro u hu; cases hu)
            simp only [isArray, isVector, e, containerOf, Bool.or_eq_true, beq_iff_eq, COLLECTION_ARRAY, COLLECTION_VECTOR] at hc
            rcases coll_ids c u hw with h | h | h | h | h <;> omega
          subst hcc
          rw [(get_dtype_elem_partial 2 u u u hw.2 hw.2 hw.2).1 hw] at hv
          rcases elemOk u hw.2 hv with ⟨id, rfl, h1, h2⟩ | rfl
          · cases field
            · have : id = 12 ∨ id = 15 := by
                by_cases hn : id = 12 ∨ id = 15
                · exact hn
                · exact absurd (Lost.vectorMethod id (by unfold Numeric; omega)) hl
              rcases this with rfl | rfl <;> exact Or.inr rfl
            · have : id = 12 ∨ id = 15 := by
                by_cases hn : id = 12 ∨ id = 15
                · exact hn
                · by_cases h17 : id = 17
                  · subst h17; exact absurd Lost.viewVector hl
                  · by_cases h3 : id = 3
                    · subst h3; exact absurd Lost.bools hl
                    · by_cases ht : id = 16 ∨ id = 18
                      · exact absurd (Shown.textVector id ht) hs
                      · exact absurd (Shown.numVector id (by unfold Numeric; omega) h3) hs
              rcases this with rfl | rfl <;> exact Or.inr rfl
          · exact absurd (Lost.pointers field) hl
        | two c k w =>
          exfalso
          have e := nonptr_container _ hw (by intro u hu; cases hu)
          simp only [isArray, isVector, e, containerOf, Bool.or_eq_true, beq_iff_eq, COLLECTION_ARRAY, COLLECTION_VECTOR] at hc
          rcases two_ids c k w hw with h | h | h <;> omega
        | tup1 u => cases hc
        | ptr u =>
          exfalso
          cases u with
          | prim id => rw [ptr_shape id hw] at hc; cases hc
          | ptr w =>
            rw [getDType, (isPtr_iff (.ptr w) hw).2 ⟨w, rfl⟩] at hc
            cases hc
          | arr w n =>
            obtain ⟨⟨id, rfl⟩, h2, h3⟩ := hw
            have hw : WF (.arr (.prim id) n) := ⟨⟨id, rfl⟩, h2, h3⟩
            rw [ptr_arr_shape id n hw] at hv
            have := noMod id n h2.2 hv
            subst this
            exact hl (Lost.stringArrayRef field n)
          | coll c w =>
            have hnp : isPtr (getDType (.coll c w)) = false := by
              rw [Bool.eq_false_iff]
              intro hh
              obtain ⟨x, hx⟩ := (isPtr_iff (.coll c w) hw).1 hh
              cases hx
            have hcc : c = 2 := by
              have e := nonptr_container (.coll c w) hw (by intro u hu; cases hu)
              rw [getDType, hnp] at hc
              have e2 : (toPtr (getDType (.coll c w))).container = (getDType (.coll c w)).container := by
                generalize getDType (.coll c w) = d
                cases d; rfl
              simp only [Bool.false_eq_true, if_false, isArray, isVector, e2, e, containerOf, Bool.or_eq_true, beq_iff_eq, COLLECTION_ARRAY, COLLECTION_VECTOR] at hc
              rcases coll_ids c w hw with h | h | h | h | h <;> omega
            subst hcc
            by_cases hp : ∃ id, w = .prim id
            · obtain ⟨id, rfl⟩ := hp
              rw [ptr_vec_shape id hw.2] at hv
              have := noMod id 0 hw.2.2 hv
              subst this
              exact hl (Lost.stringsRef field)
            · have hn : nested (getDType w) = true := by
                cases hn : nested (getDType w)
                · exact absurd ((nested_iff w hw.2).1 hn) hp
                · rfl
              have e : getDType (.ptr (.coll 2 w)) = .mk 2 1 DATA_COMPLEX_OBJECT 0 0 [some (getDType w)] := by
                rw [getDType, hnp]
                simp only [Bool.false_eq_true, if_false]
                rw [getDType, hn]
                rfl
              rw [e] at hv
              have e2 : elemOf (.mk 2 1 DATA_COMPLEX_OBJECT 0 0 [some (getDType w)]) = getDType w := rfl
              rw [e2] at hv
              rcases elemOk w hw.2 hv with ⟨id, rfl, _⟩ | rfl
              · exact hp ⟨id, rfl⟩
              · exact hl (Lost.pointersRef field)
          | two c k w =>
            have hnp : isPtr (getDType (.two c k w)) = false := rfl
            have e := nonptr_container (.two c k w) hw (by intro u hu; cases hu)
            rw [getDType, hnp] at hc
            have e2 : (toPtr (getDType (.two c k w))).container = (getDType (.two c k w)).container := rfl
            simp only [Bool.false_eq_true, if_false, isArray, isVector, e2, e, containerOf, Bool.or_eq_true, beq_iff_eq, COLLECTION_ARRAY, COLLECTION_VECTOR] at hc
            rcases two_ids c k w hw with h | h | h <;> omega
          | tup1 w => cases hc
      · cases hv
  · rename_i hc
    have hp : isPrimitive (getDType ty) = true := by
      revert hc
      cases isFundamental (getDType ty) <;> cases isPrimitive (getDType ty) <;> simp
    obtain ⟨id, rfl, h1, h2⟩ := primitive_imp ty hw hp
    interval_cases id
    all_goals first
      | exact absurd (Shown.numField field _ (by decide +revert)) hs
      | exact Or.inl rfl
      | exact absurd (Shown.viewField field) hs
      | exact absurd (Lost.view field) hl

/-- A `std::string` member. -/
example (b : List Nat) : structCell true (.prim 18) (.text b) = .cell (.text b) := struct_cell_partial _ _ _ .stringField (by simp [WF, DATA_COMPLEX_OBJECT]) (.text _ _ (by decide))
/-- A `std::vector<float>` member. -/
example : structCell true (.coll 2 (.prim 13)) (.list [.num 1, .num 2]) = .cell (.list [.num 1, .num 2]) := rfl
/-- A method that returns a `std::vector<float>`. -/
example : structCell false (.coll 2 (.prim 13)) (.list [.num 1, .num 2]) = .cell (.list []) := rfl
/-- A method that returns a reference to a `std::vector<float>` is refused. -/
example : structCell false (.ptr (.coll 2 (.prim 13))) (.ref (.list [.num 1])) = .refused := rfl

/-! ## Protobuf -/

/-- Field types of protobuf, `descriptor.h` of protobuf. -/
inductive PbType where
  | double | float | int64 | uint64 | int32 | fixed64 | fixed32 | bool | string | group | message | bytes | uint32 | enum | sfixed32 | sfixed64 | sint32 | sint64
deriving DecidableEq

/-- The column of a field, `table_schema.cc` 123–205: the identifier of the elements, or of the elements of the spans. -/
def pbColumn : PbType → Option Nat
  | .bool => some DATA_BIT
  | .double => some DATA_F64
  | .float => some DATA_F32
  | .sint64 => some DATA_I64
  | .sfixed64 => some DATA_I64
  | .int64 => some DATA_I64
  | .fixed64 => some DATA_U64
  | .uint64 => some DATA_U64
  | .sint32 => some DATA_I32
  | .sfixed32 => some DATA_I32
  | .int32 => some DATA_I32
  | .fixed32 => some DATA_U32
  | .uint32 => some DATA_U32
  | .string => some DATA_STRING_VIEW
  | .bytes => some DATA_STRING_VIEW
  | .group => none
  | .message => none
  | .enum => none

/-- What the reflection interface of protobuf offers: an accessor for each C++ type; using another one than that of the field ends the program. -/
inductive CppType where
  | int32 | int64 | uint32 | uint64 | double | float | bool | enum | string | message
deriving DecidableEq

/-- The C++ type of a field (documented by protobuf). -/
def cppType : PbType → CppType
  | .double => .double
  | .float => .float
  | .int64 | .sfixed64 | .sint64 => .int64
  | .uint64 | .fixed64 => .uint64
  | .int32 | .sfixed32 | .sint32 => .int32
  | .uint32 | .fixed32 => .uint32
  | .bool => .bool
  | .string | .bytes => .string
  | .group | .message => .message
  | .enum => .enum

/-- The accessor a getter uses, `column.cc` 87, 124–360, 405, 428; `none`: the getter returns 0. -/
def pbAccessor (t : Nat) : Option CppType :=
  if t = DATA_BIT then some .bool
  else if t = DATA_U32 then some .uint32
  else if t = DATA_U64 then some .uint64
  else if t = DATA_I32 then some .int32
  else if t = DATA_I64 then some .int64
  else if t = DATA_STRING_VIEW then some .string
  else if t = DATA_F32 then some .float
  else if t = DATA_F64 then some .double
  else none

/-- A cell of a field that is not repeated; `v` is its value, or its default if it is not set: the accessors see to that. -/
def pbCell (ty : PbType) (v : Val) : Res :=
  match pbColumn ty with
  | none => .refused
  | some t =>
    match getterOf t with
    | none => .loadError
    | some g =>
      match pbAccessor g with
      | none => .cell (.num 0)
      | some a => if a = cppType ty then .cell v else .undefined

/-- The bytes of a `StringView` of a string whose memory has been freed: up to 12 bytes are kept inside the view (`string_view.h` 55–75). -/
def staleView : Val → Option Val
  | .text b => if b.length ≤ 12 then some (.text b) else none
  | _ => none

/-- A cell of a repeated field, `column.cc` 478–486, 597–605: `auto ret = ...` makes a copy, which is destroyed at the end of the getter. -/
def pbRepeatedCell (ty : PbType) (l : List Val) : Res :=
  match pbColumn ty with
  | none => .refused
  | some t =>
    match getterOf t with
    | none => .loadError
    | some g =>
      match pbAccessor g with
      | none => .cell (.list [])
      | some a =>
        if a = cppType ty then
          if g = DATA_STRING_VIEW then
            match l.mapM staleView with
            | some l' => .cell (.list l')
            | none => .undefined
          else if l = [] then .cell (.list []) else .undefined
        else .undefined

instance (l : List Val) : Decidable (l = []) := by cases l <;> infer_instance

/-- The field is no message, group or enumeration. -/
def PbPlain (ty : PbType) : Prop := ty ≠ .message ∧ ty ≠ .group ∧ ty ≠ .enum

/-- **C128.** Fields of protobuf messages that are not repeated: every plain field becomes a column and each cell shows its value; others are refused. -/
theorem pb_cell (ty : PbType) (v : Val) : (PbPlain ty → pbCell ty v = .cell v) ∧ (¬ PbPlain ty → pbCell ty v = .refused) := by
  unfold PbPlain
  cases ty <;> exact ⟨fun h => by first | rfl | (exfalso; simp at h), fun h => by first | rfl | (exfalso; simp at h)⟩

/-- **C128** (partial: what remains of repeated fields). Empty ones are shown as empty, and repeated strings of at most 12 bytes are shown. -/
theorem pb_repeated_partial (ty : PbType) (hp : PbPlain ty) :
    pbRepeatedCell ty [] = .cell (.list []) ∧
    (∀ l : List Val, cppType ty = .string → (∀ x ∈ l, ∃ b, x = .text b ∧ b.length ≤ 12) → pbRepeatedCell ty l = .cell (.list l)) := by
  have hm : ∀ l : List Val, (∀ x ∈ l, ∃ b, x = .text b ∧ b.length ≤ 12) → l.mapM staleView = some l := by
    intro l
    induction l with
    | nil => intro _; rfl
    | cons x l ih =>
      intro h
      obtain ⟨b, rfl, hb⟩ := h x (by simp)
      rw [List.mapM_cons, ih (fun y hy => h y (by simp [hy]))]
      simp [staleView, hb]
  unfold PbPlain at hp
  constructor
  · cases ty <;> first | rfl | (exfalso; simp at hp)
  · intro l hc hl
    have := hm l hl
    cases ty <;> first
      | (exfalso; cases hc; done)
      | (unfold pbRepeatedCell
         simp only [pbColumn, getterOf, pbAccessor, cppType, this]
         rfl)

/-- **C128, negation of the full claim.** Any repeated field of numbers with an element, and any repeated field of strings with one longer than 12 bytes: the cell refers to
freed memory. -/
theorem pb_repeated_violated (ty : PbType) (hp : PbPlain ty) (l : List Val) :
    (cppType ty ≠ .string → l ≠ [] → pbRepeatedCell ty l = .undefined) ∧
    (cppType ty = .string → ∀ b, .text b ∈ l → 12 < b.length → pbRepeatedCell ty l = .undefined) := by
  have hm : ∀ (l : List Val) (b : List Nat), .text b ∈ l → 12 < b.length → l.mapM staleView = none := by
    intro l b
    induction l with
    | nil => intro h; cases h
    | cons x l ih =>
      intro h hb
      rw [List.mapM_cons]
      rcases List.mem_cons.mp h with rfl | h
      · have : staleView (.text b) = none := by simp [staleView]; omega
        rw [this]; rfl
      · rw [ih h hb]
        cases staleView x <;> rfl
  unfold PbPlain at hp
  constructor
  · intro hc hl
    cases ty <;> first
      | (exfalso; simp at hp; done)
      | (exfalso; exact hc rfl)
      | exact if_neg hl
  · intro hc b hb hlen
    have := hm l b hb hlen
    cases ty <;> first
      | (exfalso; cases hc; done)
      | (unfold pbRepeatedCell
         simp only [pbColumn, getterOf, pbAccessor, cppType, this]
         rfl)

/-! ## Flatbuffers -/

/-- `flatbuffers::ElementaryType`. -/
inductive FbType where
  | utype | bool | char | uchar | short | ushort | int | uint | long | ulong | float | double | string | sequence
deriving DecidableEq

/-- The column of a field, `table_schema.cc` 240–352. -/
def fbColumn : FbType → Option Nat
  | .bool => some DATA_BIT
  | .char => some DATA_I8
  | .uchar => some DATA_U8
  | .short => some DATA_I16
  | .ushort => some DATA_U16
  | .int => some DATA_I32
  | .uint => some DATA_U32
  | .long => some DATA_I64
  | .ulong => some DATA_U64
  | .float => some DATA_F32
  | .double => some DATA_F64
  | .string => some DATA_STRING_VIEW
  | .utype => none
  | .sequence => none

/-- The C++ type of the elements of the field (documented by flatbuffers); `bool` is stored in a byte. -/
def fbStored : FbType → Option Nat
  | .bool => some DATA_U8
  | .char => some DATA_I8
  | .uchar => some DATA_U8
  | .short => some DATA_I16
  | .ushort => some DATA_U16
  | .int => some DATA_I32
  | .uint => some DATA_U32
  | .long => some DATA_I64
  | .ulong => some DATA_U64
  | .float => some DATA_F32
  | .double => some DATA_F64
  | .string => some DATA_STRING
  | .utype => some DATA_U8
  | .sequence => none

/-- What the getter reads: `GetBool` a byte (`column.cc` 95), `GetString` a string, the others their own type. -/
def fbRead (g : Nat) : Nat := if g = DATA_BIT then DATA_U8 else if g = DATA_STRING_VIEW then DATA_STRING else g

/-- A cell of a field that is not repeated, `column.cc` 88–96 and the same in the others, 363–371 for strings: `stored` is the value in the buffer, `none` if there is none
(flatbuffers leaves out values that equal the default of the schema). -/
def fbCell (ty : FbType) (stored : Option Val) : Res :=
  match fbColumn ty with
  | none => .refused
  | some t =>
    match getterOf t with
    | none => .loadError
    | some g =>
      match stored with
      | none => if g = DATA_STRING_VIEW then .undefined else .cell (.num 0)
      | some v => if some (fbRead g) = fbStored ty then .cell v else .undefined

/-- A cell of a repeated field, `column.cc` 487–494, 606–621: the null pointer of a missing field is not tested. -/
def fbRepeatedCell (ty : FbType) (stored : Option (List Val)) : Res :=
  match fbColumn ty with
  | none => .refused
  | some t =>
    match getterOf t with
    | none => .loadError
    | some g =>
      match stored with
      | none => .undefined
      | some l => if some (fbRead g) = fbStored ty then .cell (.list l) else .undefined

/-- The field is no union and no table. -/
def FbPlain (ty : FbType) : Prop := ty ≠ .utype ∧ ty ≠ .sequence

/-- **C129** (partial: fields present in the buffer, and missing numbers whose default is zero; the full claim is refuted by `fb_cell_violated`). The cell shows the value of the field:
what is stored, or else the default `dflt` of the schema. -/
theorem fb_cell_partial (ty : FbType) (hp : FbPlain ty) (stored : Option Val) (dflt : Val)
    (h : stored ≠ none ∨ (ty ≠ .string ∧ dflt = .num 0)) : fbCell ty stored = .cell (stored.getD dflt) := by
  unfold FbPlain at hp
  cases stored with
  | some v => cases ty <;> first | rfl | (exfalso; simp at hp)
  | none =>
    rcases h with h | ⟨h1, rfl⟩
    · exact absurd rfl h
    · cases ty <;> first | rfl | (exfalso; simp at hp h1)

/-- **C129** (partial: repeated fields present in the buffer). -/
theorem fb_repeated_partial (ty : FbType) (hp : FbPlain ty) (l : List Val) : fbRepeatedCell ty (some l) = .cell (.list l) := by
  unfold FbPlain at hp
  cases ty <;> first | rfl | (exfalso; simp at hp)

/-- **C129, negation of the full claim.** A number left out because it equals its default is shown as 0, whatever the default; reading a missing string or a missing vector
dereferences a null pointer. -/
theorem fb_cell_violated (ty : FbType) (hp : FbPlain ty) :
    (ty ≠ .string → ∀ dflt : Int, dflt ≠ 0 → fbCell ty none = .cell (.num 0) ∧ fbCell ty none ≠ .cell (.num dflt)) ∧
    (ty = .string → fbCell ty none = .undefined) ∧ fbRepeatedCell ty none = .undefined := by
  unfold FbPlain at hp
  refine ⟨?_, ?_, ?_⟩
  · intro hs dflt hd
    have h : fbCell ty none = .cell (.num 0) := by cases ty <;> first | rfl | (exfalso; simp at hp hs)
    refine ⟨h, ?_⟩
    rw [h]
    intro he
    injection he with he
    injection he with he
    exact hd he.symm
  · rintro rfl; rfl
  · cases ty <;> first | rfl | (exfalso; simp at hp)

end Verif.Tbl.Cells
