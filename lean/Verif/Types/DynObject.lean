import Verif.Types.DTypeOrder
import Verif.Memory.Align
/-!
# Dynamic objects: C22

`/repo/rapidudf/types/dyn_object_schema.cc` 57–134, `/repo/rapidudf/types/dyn_object_impl.h` 24–68, `ByteSize` of `/repo/rapidudf/meta/dtype.cc` 361–399.
The C++ value of a field is the list of its bytes; the object is the allocated byte block.
-/
namespace Verif.Types.Dyn
open Verif.Types.DT Verif.Memory

abbrev Byte := BitVec 8

/-- `IsSimdVector()`, dtype.h 70–80. -/
def isSimdVector (d : DType) : Bool := (isFundamental d && d.t0 == 24) || d.container == COLLECTION_SIMD_VECTOR
/-- `IsPrimitive`, dtype.h 98. -/
def isPrimitive (d : DType) : Bool := isFundamental d && (decide (3 ≤ d.t0) && decide (d.t0 ≤ 17))

/-- The switch of `ByteSize`, dtype.cc 370–398, on the type identifier (see the enumeration in dtype_enums.h). -/
def byteSizeOfId (id : Nat) : Nat :=
  if id = 3 ∨ id = 4 ∨ id = 5 then 1
  else if id = 6 ∨ id = 7 then 2
  else if id = 8 ∨ id = 9 ∨ id = 13 then 4
  else if id = 1 ∨ id = 10 ∨ id = 11 ∨ id = 14 then 8
  else if id = 16 ∨ id = 17 then 16
  else 0

/-- `ByteSize`, dtype.cc 361–399. -/
def byteSize (d : DType) : Nat :=
  if isPtr d then 8 else if d.container = COLLECTION_ABSL_SPAN then 16 else if isSimdVector d then 16 else byteSizeOfId d.t0

/-- What the schema stores per name: `reflect::Field`. -/
structure Field where
  offset : BitVec 32
  dtype : DType

/-- `DynObjectSchema`: the field table (an association list with unique names) and `allocated_offset_`. -/
structure Schema where
  fields : List (String × Field)
  allocated : BitVec 32

/-- `fields_.find`. -/
def Schema.find (s : Schema) (name : String) : Option Field := s.fields.lookup name

/-- `GetOrCreate` and the constructor, lines 57–59 and 67–72: the header size, 8 bytes if none is asked for, rounded up to 16 and cut to 32 bits. -/
def newSchema (header : BitVec 64) : Schema :=
  ⟨[], (alignTo (if header = 0#64 then 8#64 else header) (BitVec.ofNat 64 (2 ^ 4))).setWidth 32⟩

/-- `Add`, lines 102–122; the flag tells whether the field was added. -/
def Schema.add (s : Schema) (name : String) (d : DType) : Schema × Bool :=
  if isPrimitive d || isSimdVector d then
    let byte_size := if byteSize d < 8 then 8 else byteSize d
    match s.find name with
    | some _ => (s, false)
    | none => (⟨(name, ⟨s.allocated, d⟩) :: s.fields, s.allocated + BitVec.ofNat 32 byte_size⟩, true)
  else (s, false)

/-- A schema after a sequence of additions. -/
def build (header : BitVec 64) : List (String × DType) → Schema
  | [] => newSchema header
  | (name, d) :: earlier => ((build header earlier).add name d).1

/-- `sizeof` of the C++ type with the given descriptor: x86-64 sizes. `long double` (15) takes 16 bytes, the half-precision float (12) 2. -/
def storage (d : DType) : Nat :=
  if isPtr d then 8 else if isSimdVector d then 16
  else if d.t0 = 3 ∨ d.t0 = 4 ∨ d.t0 = 5 then 1
  else if d.t0 = 6 ∨ d.t0 = 7 ∨ d.t0 = 12 then 2
  else if d.t0 = 8 ∨ d.t0 = 9 ∨ d.t0 = 13 then 4
  else if d.t0 = 10 ∨ d.t0 = 11 ∨ d.t0 = 14 then 8
  else 16

/-- A `T*` write through a pointer `off` bytes into the object. `none`: undefined behaviour, the write leaves the object. -/
def writeAt (o : List Byte) (off : Nat) (v : List Byte) : Option (List Byte) :=
  if off + v.length ≤ o.length then some (o.take off ++ v ++ o.drop (off + v.length)) else none

/-- `NewObject`, lines 124–134: zeroed bytes, then the constructor stores the 8-byte schema pointer. -/
def newObject (s : Schema) (schemaPtr : List Byte) : Option (List Byte) := writeAt (List.replicate s.allocated.toNat 0) 0 schemaPtr

inductive Status where
  | notFound | mismatch | ok
deriving DecidableEq

/-- `DoSet`, dyn_object_impl.h 24–52, for a value `v` of the C++ type with descriptor `T`. -/
def doSet (s : Schema) (o : List Byte) (name : String) (T : DType) (v : List Byte) : Option (Status × List Byte) :=
  match s.find name with
  | none => some (.notFound, o)
  | some f =>
    if dtypeEq T f.dtype = some true then (writeAt o f.offset.toNat v).map (fun o' => (.ok, o'))
    else some (.mismatch, o)

/-- `Get`, dyn_object_impl.h 54–68. `none`: undefined behaviour; the inner result is the status or the value read. -/
def get (s : Schema) (o : List Byte) (name : String) (T : DType) : Option (Except Status (List Byte)) :=
  match s.find name with
  | none => some (.error .notFound)
  | some f =>
    if dtypeEq T f.dtype = some true then
      if f.offset.toNat + storage T ≤ o.length then some (.ok ((o.drop f.offset.toNat).take (storage T))) else none
    else some (.error .mismatch)

/-- A write request. -/
structure SetCall where
  name : String
  T : DType
  v : List Byte

/-- A sequence of writes, oldest last. -/
def runSets (s : Schema) (o : List Byte) : List SetCall → Option (List Byte)
  | [] => some o
  | c :: earlier => (runSets s o earlier).bind (fun o' => (doSet s o' c.name c.T c.v).map Prod.snd)

/-! ## Specification -/

/-- The bytes a field occupies. -/
def Field.lo (f : Field) : Nat := f.offset.toNat
def Field.hi (f : Field) : Nat := f.offset.toNat + storage f.dtype

def Disjoint (f g : Field) : Prop := f.hi ≤ g.lo ∨ g.hi ≤ f.lo

/-- Not the 16-byte floating point type. -/
def notF80 (d : DType) : Prop := isSimdVector d = true ∨ d.t0 ≠ 15

open Classical in
/-- The abstract object: what a name maps to after a sequence of writes, oldest last. A write counts when the field exists and has the written type. -/
noncomputable def lastWritten (s : Schema) (name : String) : List SetCall → Option (List Byte)
  | [] => none
  | c :: earlier =>
    if c.name = name ∧ (∃ f, s.find name = some f ∧ f.dtype = c.T) then some c.v else lastWritten s name earlier

/-! ## Lemmas -/

theorem storage_le (d : DType) (h : isPrimitive d = true ∨ isSimdVector d = true) (hn : notF80 d) :
    storage d ≤ (if byteSize d < 8 then 8 else byteSize d) := by
  unfold storage byteSize
  by_cases hp : isPtr d = true
  · simp [hp]
  by_cases hs : isSimdVector d = true
  · by_cases ha : d.container = COLLECTION_ABSL_SPAN <;> simp [hp, hs, ha]
  · have hprim : isPrimitive d = true := by rcases h with h | h; exact h; exact absurd h hs
    have hn' : d.t0 ≠ 15 := by rcases hn with h | h; exact absurd h hs; exact h
    have hc : d.container = 0 := by
      simp only [isPrimitive, isFundamental, Bool.and_eq_true, beq_iff_eq] at hprim
      exact hprim.1.2
    have hr : 3 ≤ d.t0 ∧ d.t0 ≤ 17 := by
      simp only [isPrimitive, Bool.and_eq_true, decide_eq_true_eq] at hprim
      exact hprim.2
    have ha : ¬ d.container = COLLECTION_ABSL_SPAN := by rw [hc]; decide
    rw [if_neg hp, if_neg hs, if_neg hp, if_neg ha, if_neg hs]
    obtain ⟨h1, h2⟩ := hr
    generalize d.t0 = k at *
    have : ∀ k : Nat, k < 18 → 3 ≤ k → k ≠ 15 →
        (if k = 3 ∨ k = 4 ∨ k = 5 then 1 else if k = 6 ∨ k = 7 ∨ k = 12 then 2 else if k = 8 ∨ k = 9 ∨ k = 13 then 4
          else if k = 10 ∨ k = 11 ∨ k = 14 then 8 else 16) ≤ (if byteSizeOfId k < 8 then 8 else byteSizeOfId k) := by decide
    exact this k (by omega) h1 hn'

theorem byteSize_le (d : DType) : byteSize d ≤ 16 := by
  unfold byteSize byteSizeOfId
  repeat' split
  all_goals omega

theorem reserved_dvd (d : DType) : 8 ∣ (if byteSize d < 8 then 8 else byteSize d) := by
  unfold byteSize byteSizeOfId
  repeat' split
  all_goals first | omega | exact ⟨1, rfl⟩ | exact ⟨2, rfl⟩

/-- How the table of a schema is laid out: each field has its reserved space, in order of addition. -/
structure Layout (base : Nat) (s : Schema) : Prop where
  low : base ≤ s.allocated.toNat
  al : 8 ∣ s.allocated.toNat
  inside : ∀ n f, s.find n = some f → base ≤ f.lo ∧ 8 ∣ f.lo ∧ (isPrimitive f.dtype = true ∨ isSimdVector f.dtype = true) ∧ (notF80 f.dtype → f.hi ≤ s.allocated.toNat)
  disj : ∀ n m f g, n ≠ m → s.find n = some f → s.find m = some g → notF80 f.dtype → notF80 g.dtype → Disjoint f g

theorem find_cons (name : String) (f : Field) (fs : List (String × Field)) (a : BitVec 32) (n : String) :
    (Schema.mk ((name, f) :: fs) a).find n = if n = name then some f else (Schema.mk fs a).find n := by
  simp only [Schema.find, List.lookup_cons]
  by_cases h : n = name
  · simp [h]
  · rw [beq_eq_false_iff_ne.2 h, if_neg h]

theorem layout_add (base : Nat) (s : Schema) (name : String) (d : DType) (h : Layout base s) (hov : s.allocated.toNat + 16 < 2 ^ 32) :
    Layout base (s.add name d).1 ∧ (s.add name d).1.allocated.toNat ≤ s.allocated.toNat + 16 := by
  unfold Schema.add
  split
  · rename_i hd
    have hd' : isPrimitive d = true ∨ isSimdVector d = true := by simpa using hd
    simp only
    cases hf : s.find name with
    | some f => exact ⟨h, by simp⟩
    | none =>
      have hb := byteSize_le d
      have hr := reserved_dvd d
      have hst := storage_le d hd'
      generalize hsz : (if byteSize d < 8 then 8 else byteSize d) = sz at *
      have hsz' : sz ≤ 16 := by rw [← hsz]; split <;> omega
      have hal : (s.allocated + BitVec.ofNat 32 sz).toNat = s.allocated.toNat + sz := by
        rw [BitVec.toNat_add, BitVec.toNat_ofNat, Nat.mod_eq_of_lt (a := sz) (by omega), Nat.mod_eq_of_lt (by omega)]
      refine ⟨⟨?_, ?_, ?_, ?_⟩, by simp only [hal]; omega⟩
      · simp only [hal]; have := h.low; omega
      · simp only [hal]; exact Nat.dvd_add h.al hr
      · intro n f hn
        rw [find_cons] at hn
        split at hn
        · obtain rfl := Option.some.inj hn
          refine ⟨h.low, h.al, hd', fun hx => ?_⟩
          simp only [Field.hi, hal]
          have := hst hx
          omega
        · obtain ⟨h1, h2, h3, h4⟩ := h.inside n f hn
          refine ⟨h1, h2, h3, fun hx => ?_⟩
          have := h4 hx
          simp only [hal]; omega
      · intro n m f g hnm hn hm hxf hxg
        rw [find_cons] at hn hm
        split at hn
        · split at hm
          · rename_i e1 e2; exact absurd (e1.trans e2.symm) hnm
          · obtain rfl := Option.some.inj hn
            right
            exact (h.inside m g hm).2.2.2 hxg
        · split at hm
          · obtain rfl := Option.some.inj hm
            left
            exact (h.inside n f hn).2.2.2 hxf
          · exact h.disj n m f g hnm hn hm hxf hxg
  · exact ⟨h, by simp⟩

/-- The first offset: the header rounded up to 16. -/
theorem newSchema_offset (header : BitVec 64) (hh : header.toNat < 2 ^ 31) :
    IsRoundUp (if header = 0#64 then 8 else header.toNat) 16 (newSchema header).allocated.toNat := by
  simp only [newSchema, BitVec.toNat_setWidth]
  have key : ∀ x : BitVec 64, x.toNat < 2 ^ 31 → IsRoundUp x.toNat 16 ((alignTo x (BitVec.ofNat 64 (2 ^ 4))).toNat % 2 ^ 32) := by
    intro x hx
    have h1 := align_to_rounds_up x 4 (by decide) (by omega)
    have h2 := alignTo_toNat x 4 (by decide) (by omega)
    have : (alignTo x (BitVec.ofNat 64 (2 ^ 4))).toNat < 2 ^ 32 := by rw [h2]; omega
    rw [Nat.mod_eq_of_lt this]
    exact h1
  split
  · exact key 8#64 (by decide)
  · exact key header hh

theorem newSchema_bounds (header : BitVec 64) (hh : header.toNat < 2 ^ 31) :
    8 ≤ (newSchema header).allocated.toNat ∧ header.toNat ≤ (newSchema header).allocated.toNat ∧ (newSchema header).allocated.toNat ≤ 2 ^ 31 := by
  have h := newSchema_offset header hh
  have h16 := h.1
  have h2 := h.2.1
  have h3 := h.2.2 (2 ^ 31) (by decide) (by split <;> omega)
  split at h2
  · rename_i e; subst e; simp; omega
  · rename_i e
    have : header.toNat ≠ 0 := fun h0 => e (BitVec.eq_of_toNat_eq h0)
    refine ⟨?_, h2, h3⟩
    obtain ⟨c, hc⟩ := h16
    omega

theorem layout_build (header : BitVec 64) (adds : List (String × DType)) (hh : header.toNat < 2 ^ 31) (hn : 16 * adds.length < 2 ^ 31) :
    Layout (newSchema header).allocated.toNat (build header adds) ∧ (build header adds).allocated.toNat ≤ (newSchema header).allocated.toNat + 16 * adds.length := by
  induction adds with
  | nil =>
    refine ⟨⟨Nat.le_refl _, ?_, ?_, ?_⟩, by simp [build]⟩
    · have := (newSchema_offset header hh).1
      exact Nat.dvd_trans (by decide) this
    · intro n f hf; simp [build, newSchema, Schema.find] at hf
    · intro n m f g _ hf; simp [build, newSchema, Schema.find] at hf
  | cons a l ih =>
    obtain ⟨name, d⟩ := a
    simp only [List.length_cons] at hn
    obtain ⟨h1, h2⟩ := ih (by omega)
    have hb := newSchema_bounds header hh
    have h3 := layout_add _ (build header l) name d h1 (by omega)
    simp only [build, List.length_cons]
    exact ⟨h3.1, by omega⟩

/-! ## C22 -/

/-- What remains true of C22: after any sequence of additions (at most 2^27 of them, header below 2^31), fields of any types but the 16-byte floating point type
lie behind the header, inside the object and in pairwise disjoint ranges; all offsets are multiples of 8. -/
theorem dyn_object_layout_partial (header : BitVec 64) (adds : List (String × DType)) (hh : header.toNat < 2 ^ 31) (hn : 16 * adds.length < 2 ^ 31) :
    (∀ n f, (build header adds).find n = some f → notF80 f.dtype →
      8 ≤ f.lo ∧ header.toNat ≤ f.lo ∧ 8 ∣ f.lo ∧ f.hi ≤ (build header adds).allocated.toNat) ∧
    (∀ n m f g, n ≠ m → (build header adds).find n = some f → (build header adds).find m = some g → notF80 f.dtype → notF80 g.dtype → Disjoint f g) := by
  obtain ⟨h, _⟩ := layout_build header adds hh hn
  have hb := newSchema_bounds header hh
  refine ⟨fun n f hf hx => ?_, h.disj⟩
  obtain ⟨h1, h2, _, h4⟩ := h.inside n f hf
  exact ⟨by omega, by omega, h2, h4 hx⟩

theorem small_eq (a b : DType) (ha : Small a) (hb : Small b) : dtypeEq a b = some true ↔ a = b := (dtype_order_partial a b a ha hb ha).1

theorem writeAt_length (o : List Byte) (off : Nat) (v o' : List Byte) (h : writeAt o off v = some o') : o'.length = o.length := by
  unfold writeAt at h
  split at h
  · obtain rfl := Option.some.inj h
    simp only [List.length_append, List.length_take, List.length_drop]
    omega
  · cases h

theorem writeAt_same (o : List Byte) (off : Nat) (v o' : List Byte) (h : writeAt o off v = some o') : (o'.drop off).take v.length = v := by
  unfold writeAt at h
  split at h
  · rename_i hle
    obtain rfl := Option.some.inj h
    have hl : (o.take off).length = off := by simp; omega
    rw [List.append_assoc, List.drop_append_of_le_length (by omega), List.drop_of_length_le (by omega), List.nil_append, List.take_left' rfl]
  · cases h

theorem writeAt_other (o : List Byte) (off : Nat) (v o' : List Byte) (h : writeAt o off v = some o') (lo n : Nat) (hd : lo + n ≤ off ∨ off + v.length ≤ lo) :
    (o'.drop lo).take n = (o.drop lo).take n := by
  unfold writeAt at h
  split at h
  · rename_i hle
    obtain rfl := Option.some.inj h
    apply List.ext_getElem?
    intro i
    simp only [List.getElem?_take, List.getElem?_drop]
    split
    · have hl : (o.take off).length = off := by simp; omega
      rcases hd with hd | hd
      · rw [List.append_assoc, List.getElem?_append_left (by omega), List.getElem?_take, if_pos (by omega)]
      · rw [List.getElem?_append_right (by simp only [List.length_append]; omega), List.getElem?_drop]
        congr 1
        simp only [List.length_append, hl]
        omega
    · rfl
  · cases h

theorem lookup_mem (n : String) (f : Field) (l : List (String × Field)) (h : l.lookup n = some f) : (n, f) ∈ l := by
  induction l with
  | nil => simp at h
  | cons a l ih =>
    rw [List.lookup_cons] at h
    obtain ⟨m, g⟩ := a
    by_cases e : n = m
    · subst e; simp at h; subst h; simp
    · rw [beq_eq_false_iff_ne.2 e] at h; exact List.mem_cons_of_mem _ (ih h)

theorem fields_from_adds (header : BitVec 64) (adds : List (String × DType)) (n : String) (f : Field) (h : (build header adds).find n = some f) : (n, f.dtype) ∈ adds := by
  induction adds with
  | nil => simp [build, newSchema, Schema.find] at h
  | cons a l ih =>
    obtain ⟨name, d⟩ := a
    simp only [build, Schema.add] at h
    split at h
    · split at h
      · exact List.mem_cons_of_mem _ (ih h)
      · rw [find_cons] at h
        split at h
        · rename_i e; obtain rfl := Option.some.inj h; subst e; simp
        · exact List.mem_cons_of_mem _ (ih h)
    · exact List.mem_cons_of_mem _ (ih h)

/-- What remains true of C22, in terms of reads and writes: for a schema without 16-byte floating point fields, an object behaves as one independent variable per
field. No write leaves the object; reading a field returns the value written last under its name and type, or zero bytes; reading with another type or under another name is
an error; the schema pointer survives. -/
theorem dyn_object_refines_partial (header : BitVec 64) (adds : List (String × DType)) (hh : header.toNat < 2 ^ 31) (hn : 16 * adds.length < 2 ^ 31)
    (hadds : ∀ p ∈ adds, Small p.2 ∧ notF80 p.2) (ptr : List Byte) (hptr : ptr.length = 8) (sets : List SetCall)
    (hsets : ∀ c ∈ sets, Small c.T ∧ c.v.length = storage c.T) :
    ∃ o, (newObject (build header adds) ptr).bind (fun o0 => runSets (build header adds) o0 sets) = some o ∧
      o.take 8 = ptr ∧
      (∀ name f, (build header adds).find name = some f →
        get (build header adds) o name f.dtype = some (.ok ((lastWritten (build header adds) name sets).getD (List.replicate (storage f.dtype) 0)))  ∧
          ∀ T, dtypeEq T f.dtype ≠ some true → get (build header adds) o name T = some (.error .mismatch)) ∧
      ∀ name T, (build header adds).find name = none → get (build header adds) o name T = some (.error .notFound) := by
  obtain ⟨hL, _⟩ := layout_build header adds hh hn
  have hb := newSchema_bounds header hh
  generalize hs : build header adds = s at *
  have hf80 : ∀ n f, s.find n = some f → Small f.dtype ∧ notF80 f.dtype := by
    intro n f hf
    rw [← hs] at hf
    exact hadds _ (fields_from_adds header adds n f hf)
  have hlow := hL.low
  -- the new object
  have hnew : ∃ o0, newObject s ptr = some o0 := by
    unfold newObject writeAt
    rw [if_pos (by simp only [List.length_replicate]; omega)]
    exact ⟨_, rfl⟩
  obtain ⟨o0, ho0⟩ := hnew
  rw [ho0]
  simp only [Option.bind_some]
  have hlen0 : o0.length = s.allocated.toNat := by
    have := writeAt_length _ _ _ _ ho0
    simpa using this
  have hp0 : o0.take 8 = ptr := by
    have := writeAt_same _ _ _ _ ho0
    rw [hptr] at this
    simpa using this
  suffices H : ∃ o, runSets s o0 sets = some o ∧ o.length = s.allocated.toNat ∧ o.take 8 = ptr ∧
      ∀ name f, s.find name = some f → (o.drop f.lo).take (storage f.dtype) = (lastWritten s name sets).getD (List.replicate (storage f.dtype) 0) by
    obtain ⟨o, h1, h2, h3, h4⟩ := H
    refine ⟨o, h1, h3, fun name f hf => ⟨?_, fun T hT => by simp only [get, hf, if_neg hT]⟩, fun name T hf => by simp only [get, hf]⟩
    have hsm := hf80 name f hf
    have hi := (hL.inside name f hf).2.2.2 hsm.2
    simp only [get, hf, (small_eq f.dtype f.dtype hsm.1 hsm.1).2 rfl, if_true]
    rw [if_pos (by simp only [Field.hi] at hi; omega)]
    exact congrArg (fun x => some (Except.ok x)) (h4 name f hf)
  clear hadds hs
  induction sets with
  | nil =>
    refine ⟨o0, rfl, hlen0, hp0, fun name f hf => ?_⟩
    have hi := hL.inside name f hf
    have hhi := hi.2.2.2 (hf80 name f hf).2
    simp only [Field.hi, Field.lo] at hi hhi
    have e := writeAt_other _ _ _ _ ho0 f.lo (storage f.dtype) (Or.inr (by simp only [Field.lo]; omega))
    rw [e]
    simp only [lastWritten, Option.getD_none, List.drop_replicate, List.take_replicate, Field.lo]
    congr 1
    omega
  | cons c l ih =>
    obtain ⟨o, h1, h2, h3, h4⟩ := ih (fun c' hc' => hsets c' (List.mem_cons_of_mem _ hc'))
    obtain ⟨hcT, hcv⟩ := hsets c (by simp)
    simp only [runSets, h1, Option.bind_some]
    unfold doSet
    cases hf : s.find c.name with
    | none =>
      refine ⟨o, rfl, h2, h3, fun name f hn => ?_⟩
      rw [h4 name f hn]
      simp only [lastWritten]
      rw [if_neg]
      rintro ⟨e, _⟩
      rw [e, hn] at hf
      cases hf
    | some g =>
      obtain ⟨hg1, hg2⟩ := hf80 c.name g hf
      by_cases he : c.T = g.dtype
      · have hi := hL.inside c.name g hf
        have hhi := hi.2.2.2 hg2
        simp only [Field.hi, Field.lo] at hi hhi
        have hw : ∃ o', writeAt o g.offset.toNat c.v = some o' := by
          unfold writeAt
          rw [if_pos (by rw [hcv, he, h2]; omega)]
          exact ⟨_, rfl⟩
        obtain ⟨o', ho'⟩ := hw
        simp only [(small_eq c.T g.dtype hcT hg1).2 he, if_true, ho', Option.map_some]
        refine ⟨o', rfl, (writeAt_length _ _ _ _ ho').trans h2, ?_, fun name f hn => ?_⟩
        · have := writeAt_other _ _ _ _ ho' 0 8 (Or.inl (by omega))
          simp only [List.drop_zero] at this
          rw [this, h3]
        · by_cases e : c.name = name
          · subst e
            rw [hf] at hn
            obtain rfl := Option.some.inj hn
            have := writeAt_same _ _ _ _ ho'
            rw [hcv, he] at this
            simp only [lastWritten, Field.lo]
            rw [if_pos ⟨rfl, g, hf, he.symm⟩, this]
            rfl
          · have hd := hL.disj name c.name f g (fun x => e x.symm) hn hf (hf80 name f hn).2 hg2
            simp only [Disjoint, Field.hi, Field.lo] at hd
            have := writeAt_other _ _ _ _ ho' f.lo (storage f.dtype) (by simp only [Field.lo]; rw [hcv, he]; exact hd)
            rw [this, h4 name f hn]
            simp only [lastWritten]
            rw [if_neg (fun h => e h.1)]
      · have hne : ¬ dtypeEq c.T g.dtype = some true := fun h => he ((small_eq c.T g.dtype hcT hg1).1 h)
        simp only [hne, if_false, Option.map_some]
        refine ⟨o, rfl, h2, h3, fun name f hn => ?_⟩
        rw [h4 name f hn]
        simp only [lastWritten]
        rw [if_neg]
        rintro ⟨e, f', hf', e'⟩
        rw [← e, hf] at hf'
        obtain rfl := Option.some.inj hf'
        exact he e'.symm

/-- A write is refused exactly when the field does not exist or has another type, and then nothing changes. -/
theorem dyn_object_set_status (s : Schema) (o : List Byte) (name : String) (T : DType) (v : List Byte) (hT : Small T) (hs : ∀ n f, s.find n = some f → Small f.dtype)
    (st : Status) (o' : List Byte) (h : doSet s o name T v = some (st, o')) :
    (st = .ok ↔ ∃ f, s.find name = some f ∧ f.dtype = T) ∧ (st ≠ .ok → o' = o) := by
  unfold doSet at h
  cases hf : s.find name with
  | none =>
    rw [hf] at h
    simp only [Option.some.injEq, Prod.mk.injEq] at h
    obtain ⟨rfl, rfl⟩ := h
    simp
  | some f =>
    rw [hf] at h
    simp only at h
    split at h
    · rename_i he
      cases hw : writeAt o f.offset.toNat v with
      | none => rw [hw] at h; cases h
      | some o1 =>
        rw [hw] at h
        simp only [Option.map_some, Option.some.injEq, Prod.mk.injEq] at h
        obtain ⟨rfl, rfl⟩ := h
        exact ⟨⟨fun _ => ⟨f, rfl, ((small_eq T f.dtype hT (hs name f hf)).1 he).symm⟩, fun _ => rfl⟩, fun h => absurd rfl h⟩
    · rename_i he
      simp only [Option.some.injEq, Prod.mk.injEq] at h
      obtain ⟨rfl, rfl⟩ := h
      refine ⟨⟨fun h => (by cases h), ?_⟩, fun _ => rfl⟩
      rintro ⟨g, hg, e⟩
      obtain rfl := Option.some.inj hg
      exact absurd ((small_eq T f.dtype hT (hs name f hf)).2 e.symm) he

/-- The descriptor of `long double`. -/
def longDouble : DType := .mk 0 0 15 0 0 []
/-- The descriptor of `long`. -/
def int64T : DType := .mk 0 0 11 0 0 []

/-- C22 is false of the code for `long double`: its field reserves 8 of its 16 bytes, so setting it overwrites the next field with its upper half, -/
theorem dyn_object_long_double_violated (ptr v w : List Byte) (hp : ptr.length = 8) (hv : v.length = 16) (hw : w.length = 8) :
    let s := build 0#64 [("b", int64T), ("a", longDouble)]
    ((newObject s ptr).bind (fun o => runSets s o [⟨"a", longDouble, v⟩, ⟨"b", int64T, w⟩])).bind (fun o => get s o "b" int64T) = some (.ok (v.drop 8)) := by
  intro s
  have ha : s.allocated.toNat = 32 := by decide
  have hsome : ∀ (o : List Byte) (off : Nat) (x : List Byte), off + x.length ≤ o.length → ∃ o', writeAt o off x = some o' := by
    intro o off x hx
    unfold writeAt
    rw [if_pos hx]
    exact ⟨_, rfl⟩
  obtain ⟨o0, h0⟩ := hsome (List.replicate s.allocated.toNat 0) 0 ptr (by simp only [List.length_replicate]; omega)
  have l0 := writeAt_length _ _ _ _ h0
  simp only [List.length_replicate, ha] at l0
  obtain ⟨o1, h1⟩ := hsome o0 24 w (by omega)
  have l1 := writeAt_length _ _ _ _ h1
  obtain ⟨o2, h2⟩ := hsome o1 16 v (by omega)
  have l2 := writeAt_length _ _ _ _ h2
  have fa : s.find "a" = some ⟨16#32, longDouble⟩ := by rfl
  have fb : s.find "b" = some ⟨24#32, int64T⟩ := by rfl
  have ea : dtypeEq longDouble longDouble = some true := by rfl
  have eb : dtypeEq int64T int64T = some true := by rfl
  have s1 : doSet s o0 "b" int64T w = some (.ok, o1) := by
    simp only [doSet, fb, eb, if_true]
    rw [show (24#32).toNat = 24 from rfl, h1]
    rfl
  have s2 : doSet s o1 "a" longDouble v = some (.ok, o2) := by
    simp only [doSet, fa, ea, if_true]
    rw [show (16#32).toNat = 16 from rfl, h2]
    rfl
  have hn : newObject s ptr = some o0 := h0
  simp only [hn, Option.bind_some, runSets, s1, s2, Option.map_some, get, fb, eb, if_true]
  rw [show (24#32).toNat = 24 from rfl, show storage int64T = 8 from rfl, if_pos (by omega)]
  have hv2 := writeAt_same _ _ _ _ h2
  rw [hv] at hv2
  rw [← hv2, List.drop_take, List.drop_drop]

/-- and as the last field it is written past the end of the object. -/
theorem dyn_object_long_double_outside_violated (ptr v : List Byte) (hp : ptr.length = 8) (hv : v.length = 16) :
    let s := build 0#64 [("a", longDouble)]
    (newObject s ptr).isSome ∧ (newObject s ptr).bind (fun o => runSets s o [⟨"a", longDouble, v⟩]) = none := by
  intro s
  have ha : s.allocated.toNat = 24 := by decide
  have hsome : ∃ o, newObject s ptr = some o := by
    unfold newObject writeAt
    rw [if_pos (by simp only [List.length_replicate]; omega)]
    exact ⟨_, rfl⟩
  obtain ⟨o, ho⟩ := hsome
  have hl := writeAt_length _ _ _ _ ho
  simp only [List.length_replicate, ha] at hl
  refine ⟨by rw [ho]; rfl, ?_⟩
  rw [ho]
  simp only [Option.bind_some, runSets]
  have hf : s.find "a" = some ⟨16#32, longDouble⟩ := by rfl
  have he : dtypeEq longDouble longDouble = some true := by rfl
  unfold doSet
  simp only [hf, he, if_true]
  unfold writeAt
  rw [if_neg (by rw [hv, hl]; decide)]
  rfl

/-- The header bound is needed: the offset keeps the low 32 bits of the header size, so with a header of 2^32 bytes the first field is the schema pointer. -/
theorem dyn_object_header_violated : (build (BitVec.ofNat 64 (2 ^ 32)) [("a", int64T)]).find "a" = some ⟨0#32, int64T⟩ := by rfl

example : (build 0#64 [("c", .mk 9 0 13 0 0 []), ("b", .mk 0 0 17 0 0 []), ("a", .mk 0 0 4 0 0 [])]).find "c" = some ⟨40#32, .mk 9 0 13 0 0 []⟩ := by rfl

end Verif.Types.Dyn
