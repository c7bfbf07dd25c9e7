import Verif.Types.BitVector
/-!
# Vector headers, slices and two-dimensional vectors: model and properties C19, C20, C21

`/repo/rapidudf/types/vector.h` 65–135 (`VectorBase`), 148–165 (constructors), 229–255 (`Slice`, `Resize`); `/repo/rapidudf/compiler/value.cc` 92–125 (reads of the
raw header by compiled code); `/repo/rapidudf/types/vector2d.h` 22–66.
-/
namespace Verif.Types.Vec

/-- The first word of a vector: bit fields from the least significant bit up (lines 126–131), as laid out on x86-64:
size 30, arrow flag 1, reserved 1, capacity 30, writable 1, reserved 1. -/
abbrev Header := BitVec 64

/-- Assignment to a bit field of `w` bits at offset `off`: the value is cut to the width. -/
def setField (h : Header) (off w : Nat) (v : BitVec 64) : Header :=
  (h &&& ~~~((BitVec.setWidth 64 (BitVec.allOnes w)) <<< off)) ||| ((BitVec.setWidth 64 (BitVec.setWidth w v)) <<< off)

/-- Read of a bit field. -/
def field (h : Header) (off w : Nat) : Nat := (h.extractLsb' off w).toNat

/-- The constructor of `VectorBase`, lines 72–77, on arguments of type `size_t`; the reserved bits are taken to be those of `junk`. -/
def mkBase (junk : Header) (size capacity : BitVec 64) (readonly : Bool) : Header :=
  let h := setField junk 0 30 size
  let h := setField h 30 1 0
  let h := setField h 32 30 capacity
  let h := setField h 62 1 (if readonly then 0 else 1)
  if capacity = 0 then setField h 32 30 (BitVec.ofNat 64 (field h 0 30)) else h

/-- The constructor of `Vector<T>` from data, size and capacity, lines 148–149: the capacity is multiplied by the size of an element. -/
def mkVector (elemSize : BitVec 64) (junk : Header) (size capacity : BitVec 64) (readonly : Bool) : Header :=
  mkBase junk size (capacity * elemSize) readonly

/-- `Size()`, lines 88, 260. -/
def apiSize (h : Header) : Nat := field h 0 30
/-- `Capacity()`, line 89. -/
def apiCapacity (h : Header) : Nat := field h 32 30
/-- `IsReadonly()`, line 84. -/
def apiReadonly (h : Header) : Bool := field h 62 1 == 0

/-- The size as read by compiled code, `value.cc` 101–112: mask with `0x3FFFFFFF`, cut to 32 bits. -/
def rawSize (h : Header) : BitVec 32 := BitVec.setWidth 32 (h &&& 0x3FFFFFFF#64)

/-- `SetSize`, line 91. -/
def setSize (h : Header) (n : BitVec 64) : Header := setField h 0 30 n
/-- `SetReadonly`, `SetWritable`, lines 82–83. -/
def setReadonly (h : Header) : Header := setField h 62 1 0
def setWritable (h : Header) : Header := setField h 62 1 1

/-! ## Lemmas -/

theorem field_lt (h : Header) (off w : Nat) : field h off w < 2 ^ w := (h.extractLsb' off w).isLt

theorem setField_bit (h : Header) (off w : Nat) (v : BitVec 64) (i : Nat) (hi : i < 64) :
    (setField h off w v).getLsbD i = if off ≤ i ∧ i < off + w then v.getLsbD (i - off) else h.getLsbD i := by
  simp only [setField, BitVec.getLsbD_or, BitVec.getLsbD_and, BitVec.getLsbD_not, BitVec.getLsbD_shiftLeft, BitVec.getLsbD_setWidth, BitVec.getLsbD_allOnes]
  by_cases h1 : off ≤ i
  · by_cases h2 : i < off + w
    · simp [hi, h1, h2, show ¬ i < off by omega, show i - off < w by omega, show i - off < 64 by omega]
    · simp [hi, h1, h2, show ¬ i < off by omega, show ¬ i - off < w by omega]
  · simp [hi, h1, show i < off by omega]

theorem field_setField_same (h : Header) (off w : Nat) (v : BitVec 64) (hw : off + w ≤ 64) : field (setField h off w v) off w = v.toNat % 2 ^ w := by
  have : (setField h off w v).extractLsb' off w = BitVec.setWidth w v := by
    apply BitVec.eq_of_getLsbD_eq
    intro i hi
    rw [BitVec.getLsbD_extractLsb', BitVec.getLsbD_setWidth, setField_bit _ _ _ _ _ (by omega)]
    simp [hi]
  rw [field, this, BitVec.toNat_setWidth]

theorem field_setField_other (h : Header) (off w : Nat) (v : BitVec 64) (off2 w2 : Nat) (hw : off2 + w2 ≤ 64)
    (hd : off2 + w2 ≤ off ∨ off + w ≤ off2) : field (setField h off w v) off2 w2 = field h off2 w2 := by
  have : (setField h off w v).extractLsb' off2 w2 = h.extractLsb' off2 w2 := by
    apply BitVec.eq_of_getLsbD_eq
    intro i hi
    rw [BitVec.getLsbD_extractLsb', BitVec.getLsbD_extractLsb', setField_bit _ _ _ _ _ (by omega), if_neg (by omega)]
  rw [field, this, field]

theorem mkBase_size (junk : Header) (n c : BitVec 64) (ro : Bool) : apiSize (mkBase junk n c ro) = n.toNat % 2 ^ 30 := by
  unfold mkBase apiSize
  simp only
  have h : field (setField (setField (setField (setField junk 0 30 n) 30 1 0) 32 30 c) 62 1 (if ro then 0 else 1)) 0 30 = n.toNat % 2 ^ 30 := by
    rw [field_setField_other _ _ _ _ _ _ (by omega) (by omega), field_setField_other _ _ _ _ _ _ (by omega) (by omega),
      field_setField_other _ _ _ _ _ _ (by omega) (by omega), field_setField_same _ _ _ _ (by omega)]
  split
  · rw [field_setField_other _ _ _ _ _ _ (by omega) (by omega), h]
  · exact h

theorem mkBase_capacity (junk : Header) (n c : BitVec 64) (ro : Bool) :
    apiCapacity (mkBase junk n c ro) = if c = 0 then n.toNat % 2 ^ 30 else c.toNat % 2 ^ 30 := by
  unfold mkBase apiCapacity
  simp only
  have h : field (setField (setField (setField (setField junk 0 30 n) 30 1 0) 32 30 c) 62 1 (if ro then 0 else 1)) 0 30 = n.toNat % 2 ^ 30 := by
    rw [field_setField_other _ _ _ _ _ _ (by omega) (by omega), field_setField_other _ _ _ _ _ _ (by omega) (by omega),
      field_setField_other _ _ _ _ _ _ (by omega) (by omega), field_setField_same _ _ _ _ (by omega)]
  by_cases hc : c = 0
  · simp only [hc, if_true]
    rw [hc] at h
    rw [field_setField_same _ _ _ _ (by omega), h, BitVec.toNat_ofNat]
    omega
  · simp only [hc, if_false]
    rw [field_setField_other _ _ _ _ _ _ (by omega) (by omega), field_setField_same _ _ _ _ (by omega)]

theorem mkBase_readonly (junk : Header) (n c : BitVec 64) (ro : Bool) : apiReadonly (mkBase junk n c ro) = ro := by
  unfold mkBase apiReadonly
  simp only
  have h : ∀ g : Header, field (setField g 62 1 (if ro then 0 else 1)) 62 1 = if ro then 0 else 1 := by
    intro g
    rw [field_setField_same _ _ _ _ (by omega)]
    cases ro <;> rfl
  split
  · rw [field_setField_other _ _ _ _ _ _ (by omega) (by omega), h]
    cases ro <;> rfl
  · rw [h]
    cases ro <;> rfl

/-! ## C19 -/

/-- The size read by compiled code from the raw word is the size the API reports, for every header word. -/
theorem raw_size_eq_api (h : Header) : (rawSize h).toNat = apiSize h ∧ (rawSize h).toInt = (apiSize h : Int) := by
  have e : (rawSize h).toNat = apiSize h := by
    have : rawSize h = BitVec.setWidth 32 (h.extractLsb' 0 30) := by
      apply BitVec.eq_of_getLsbD_eq
      intro i hi
      have hm : (0x3FFFFFFF#64).getLsbD i = decide (i < 30) := by
        have : ∀ i : Fin 32, (0x3FFFFFFF#64).getLsbD i.val = decide (i.val < 30) := by decide +kernel
        exact this ⟨i, hi⟩
      simp only [rawSize, BitVec.getLsbD_setWidth, BitVec.getLsbD_and, BitVec.getLsbD_extractLsb', hm, hi, decide_true, Bool.true_and, Nat.zero_add]
      rw [Bool.and_comm]
    rw [this, BitVec.toNat_setWidth]
    exact Nat.mod_eq_of_lt (Nat.lt_of_lt_of_le (h.extractLsb' 0 30).isLt (by decide))
  have hlt : apiSize h < 2 ^ 30 := field_lt h 0 30
  refine ⟨e, ?_⟩
  rw [BitVec.toInt_eq_toNat_of_lt (by omega), e]

/-- What remains true of C19: below 2^30 the header built from a size and a capacity (`VectorBase` constructor, `std::vector` constructors) reports the size, the capacity (the size
if the capacity is 0) and the flag. -/
theorem vector_header_partial (junk : Header) (n c : BitVec 64) (ro : Bool) (hn : n.toNat < 2 ^ 30) (hc : c.toNat < 2 ^ 30) :
    apiSize (mkBase junk n c ro) = n.toNat ∧ (rawSize (mkBase junk n c ro)).toNat = n.toNat ∧ apiReadonly (mkBase junk n c ro) = ro ∧
    apiCapacity (mkBase junk n c ro) = if c = 0 then n.toNat else c.toNat := by
  rw [(raw_size_eq_api _).1, mkBase_size, mkBase_capacity, mkBase_readonly, Nat.mod_eq_of_lt hn, Nat.mod_eq_of_lt hc]
  exact ⟨rfl, rfl, rfl, rfl⟩

/-- Changing the size or the flag leaves the other fields alone. -/
theorem header_updates (h : Header) (n : BitVec 64) (hn : n.toNat < 2 ^ 30) :
    (apiSize (setSize h n) = n.toNat ∧ apiCapacity (setSize h n) = apiCapacity h ∧ apiReadonly (setSize h n) = apiReadonly h) ∧
    (apiSize (setReadonly h) = apiSize h ∧ apiCapacity (setReadonly h) = apiCapacity h ∧ apiReadonly (setReadonly h) = true) ∧
    (apiSize (setWritable h) = apiSize h ∧ apiCapacity (setWritable h) = apiCapacity h ∧ apiReadonly (setWritable h) = false) := by
  unfold apiSize apiCapacity apiReadonly setSize setReadonly setWritable
  refine ⟨⟨?_, ?_, ?_⟩, ⟨?_, ?_, ?_⟩, ⟨?_, ?_, ?_⟩⟩
  · rw [field_setField_same _ _ _ _ (by omega), Nat.mod_eq_of_lt hn]
  all_goals first
    | rw [field_setField_other _ _ _ _ _ _ (by omega) (by omega)]
    | (rw [field_setField_same _ _ _ _ (by omega)]; rfl)

/-- C19 is false of the code: every size from 2^30 up is reported smaller. -/
theorem vector_size_wraps_violated (junk : Header) (n c : BitVec 64) (ro : Bool) (hn : 2 ^ 30 ≤ n.toNat) : apiSize (mkBase junk n c ro) ≠ n.toNat := by
  rw [mkBase_size]
  have := Nat.mod_lt n.toNat (show 0 < 2 ^ 30 by decide)
  omega

/-- C19 is false of the code for small sizes too: a vector built over elements of more than one byte with an explicit capacity reports the capacity in bytes, for
instance 40 for ten 4-byte elements. -/
theorem vector_capacity_scaled_violated (junk : Header) (n c es : BitVec 64) (ro : Bool) (h1 : 1 < es.toNat) (hc : c ≠ 0) (hb : c.toNat * es.toNat < 2 ^ 30) :
    apiCapacity (mkVector es junk n c ro) = c.toNat * es.toNat ∧ apiCapacity (mkVector es junk n c ro) ≠ c.toNat := by
  have hm : (c * es).toNat = c.toNat * es.toNat := by rw [BitVec.toNat_mul, Nat.mod_eq_of_lt (by omega)]
  have hc0 : 0 < c.toNat := by
    apply Nat.pos_of_ne_zero
    intro h
    exact hc (BitVec.eq_of_toNat_eq (by simpa using h))
  have hpos : c.toNat < c.toNat * es.toNat := by
    have := Nat.mul_lt_mul_of_pos_left h1 hc0
    omega
  have hne : c * es ≠ 0 := by
    intro h
    have := congrArg BitVec.toNat h
    rw [hm] at this
    simp at this
    omega
  unfold mkVector
  rw [mkBase_capacity, if_neg hne, hm, Nat.mod_eq_of_lt hb]
  omega

example : apiCapacity (mkVector 4 0 10 10 true) = 40 := by decide +kernel
example : apiSize (mkBase 0 0x40000005 0 true) = 5 := by decide +kernel

/-! ## C20 -/

/-- A vector of plain elements: the memory its pointer points to, the size and the capacity. -/
structure View (α : Type) where
  mem : List α
  size : Nat
  cap : Nat
deriving DecidableEq

/-- Reading element `i`; `none` is a read outside the memory. -/
def View.get {α : Type} (v : View α) (i : Nat) : Option α := v.mem[i]?

/-- A view whose memory covers its size, with a size that fits the header. -/
def View.Valid {α : Type} (v : View α) : Prop := v.size ≤ v.mem.length ∧ v.size < 2 ^ 30

/-- `Slice` on plain elements, lines 229–232, 246–252; `none`: it throws. `pos + len` is computed in 32 bits; size and capacity are cut to 30 bits. -/
def View.slice {α : Type} (v : View α) (pos len : BitVec 32) : Option (View α) :=
  if (pos + len).toNat > v.size then none
  else some { mem := v.mem.drop pos.toNat, size := len.toNat % 2 ^ 30, cap := (2 ^ 30 + v.cap - pos.toNat % 2 ^ 30) % 2 ^ 30 }

/-- `Slice` on bit vectors, lines 233–245. -/
def sliceBits (v : Bits.BV) (pos len : BitVec 32) : Option Bits.BV :=
  if (pos + len).toNat > v.size then none
  else if pos.toNat % 8 = 0 then some { v with bytes := v.bytes.drop (pos.toNat / 8), size := len.toNat % 2 ^ 30 }
  else none

/-- `Resize`, line 255: `size_t` is cut to `uint32_t` by the call. -/
def View.resize {α : Type} (v : View α) (n : BitVec 64) : Option (View α) := v.slice 0 (BitVec.setWidth 32 n)

/-- What remains true of C20 (plain elements): if the sum does not overflow, a slice beyond the end is refused, and otherwise the result consists of the elements
asked for, all inside the vector. -/
theorem slice_partial {α : Type} (v : View α) (hv : v.Valid) (pos len : BitVec 32) (h : pos.toNat + len.toNat < 2 ^ 32) :
    (v.size < pos.toNat + len.toNat → v.slice pos len = none) ∧
    (pos.toNat + len.toNat ≤ v.size → ∃ w, v.slice pos len = some w ∧ w.Valid ∧ w.size = len.toNat ∧ ∀ i, w.get i = v.get (pos.toNat + i)) := by
  have hs : (pos + len).toNat = pos.toNat + len.toNat := by rw [BitVec.toNat_add, Nat.mod_eq_of_lt h]
  constructor
  · intro hlt
    unfold View.slice
    rw [hs, if_pos hlt]
  · intro hle
    have hl : len.toNat % 2 ^ 30 = len.toNat := Nat.mod_eq_of_lt (by have := hv.2; omega)
    refine ⟨_, by unfold View.slice; rw [hs, if_neg (by omega)], ⟨?_, ?_⟩, ?_, ?_⟩
    · simp only [hl, List.length_drop]; have := hv.1; omega
    · simp only [hl]; have := hv.2; omega
    · exact hl
    · intro i; simp [View.get]

/-- The same for bit vectors; a start that is not a multiple of eight is refused. -/
theorem slice_bits_partial (v : Bits.BV) (hv : v.Valid) (hsz : v.size < 2 ^ 30) (pos len : BitVec 32) (h : pos.toNat + len.toNat < 2 ^ 32) :
    (v.size < pos.toNat + len.toNat ∨ pos.toNat % 8 ≠ 0 → sliceBits v pos len = none) ∧
    (pos.toNat + len.toNat ≤ v.size → pos.toNat % 8 = 0 →
      ∃ w, sliceBits v pos len = some w ∧ w.Valid ∧ w.size = len.toNat ∧ ∀ i, w.get i = v.get (pos.toNat + i)) := by
  have hs : (pos + len).toNat = pos.toNat + len.toNat := by rw [BitVec.toNat_add, Nat.mod_eq_of_lt h]
  constructor
  · intro hor
    unfold sliceBits
    rw [hs]
    by_cases h1 : pos.toNat + len.toNat > v.size
    · rw [if_pos h1]
    · rw [if_neg h1, if_neg (by omega)]
  · intro hle h8
    have hl : len.toNat % 2 ^ 30 = len.toNat := Nat.mod_eq_of_lt (by omega)
    refine ⟨_, by unfold sliceBits; rw [hs, if_neg (by omega), if_pos h8], ?_, hl, ?_⟩
    · unfold Bits.BV.Valid at hv ⊢
      simp only [hl, List.length_drop]; omega
    · intro i
      simp only [Bits.BV.get, List.getElem?_drop]
      rw [show pos.toNat / 8 + i / 8 = (pos.toNat + i) / 8 by omega, show (pos.toNat + i) % 8 = i % 8 by omega]

/-- C20 is false of the code: for every vector and every start `pos ≥ 1`, `Slice(pos, 2^32 - pos)` does not fail and returns a view of size `-pos` modulo `2^30`; for
`pos` up to `2^30` it reaches beyond the vector. -/
theorem slice_overflow_violated {α : Type} (v : View α) (hv : v.size < 2 ^ 30) (pos len : BitVec 32) (h1 : 1 ≤ pos.toNat) (h2 : pos.toNat < 2 ^ 30)
    (hl : pos.toNat + len.toNat = 2 ^ 32) : ∃ w, v.slice pos len = some w ∧ v.size < pos.toNat + w.size := by
  have hs : (pos + len).toNat = 0 := by rw [BitVec.toNat_add, hl, Nat.mod_self]
  refine ⟨_, by unfold View.slice; rw [hs, if_neg (by omega)], ?_⟩
  show v.size < pos.toNat + len.toNat % 2 ^ 30
  omega

example : ∃ len : BitVec 32, (5#32).toNat + len.toNat = 2 ^ 32 := ⟨BitVec.ofNat 32 (2 ^ 32 - 5), by decide⟩

/-- The 64-bit argument of `Resize` is cut to 32 bits: `Resize(2^32 + n)` succeeds and gives `n` elements. -/
theorem resize_wraps_violated {α : Type} (v : View α) (n : BitVec 64) (hn : 2 ^ 32 ≤ n.toNat) (hle : n.toNat % 2 ^ 32 ≤ v.size) :
    ∃ w, v.resize n = some w ∧ w.size < n.toNat := by
  refine ⟨_, by unfold View.resize View.slice; rw [if_neg (by simp [BitVec.toNat_setWidth]; omega)], ?_⟩
  simp only [BitVec.toNat_setWidth]
  omega

/-- `Resize` inside the 32-bit range keeps the first `n` elements or fails. -/
theorem resize_partial {α : Type} (v : View α) (hv : v.Valid) (n : BitVec 64) (hn : n.toNat < 2 ^ 32) :
    (v.size < n.toNat → v.resize n = none) ∧
    (n.toNat ≤ v.size → ∃ w, v.resize n = some w ∧ w.Valid ∧ w.size = n.toNat ∧ ∀ i, w.get i = v.get i) := by
  have hw : (BitVec.setWidth 32 n).toNat = n.toNat := by rw [BitVec.toNat_setWidth, Nat.mod_eq_of_lt hn]
  have := slice_partial v hv 0 (BitVec.setWidth 32 n) (by rw [hw]; simpa using hn)
  rw [hw] at this
  simpa [View.resize] using this

example : (⟨[10, 11, 12, 13], 4, 4⟩ : View Nat).slice 1 2 = some ⟨[11, 12, 13], 2, 3⟩ := by decide
example : sliceBits ⟨16, [1#8, 2#8], true⟩ 8 8 = some ⟨8, [2#8], true⟩ := by decide

/-! ## C21 -/

/-- `JaggedVectors`: 32-bit offsets and the concatenated content. -/
structure Jagged (α : Type) where
  offsets : List (BitVec 32) := []
  content : List α := []

/-- `Add`, lines 25–28. -/
def Jagged.add {α : Type} (j : Jagged α) (row : List α) : Jagged α :=
  { offsets := j.offsets ++ [BitVec.ofNat 32 j.content.length], content := j.content ++ row }

/-- `GetOffset`, lines 36–42. -/
def Jagged.offset {α : Type} (j : Jagged α) (i : Nat) : Option Nat :=
  if i = 0 then some 0 else j.offsets[i - 1]?.map (·.toNat)

/-- `Get`, lines 29–31, 35: `subspan(offset(i), offsets_[i] - offset(i))` (`none`: index out of range or `subspan` throws). As written `Get` returns `Span<T>` from a constant span, so it does
not compile when it is instantiated; the model is what it would return. -/
def Jagged.get {α : Type} (j : Jagged α) (i : Nat) : Option (List α) :=
  match j.offset i, j.offsets[i]? with
  | some o, some e => if o ≤ j.content.length ∧ o ≤ e.toNat then some ((j.content.drop o).take (e.toNat - o)) else none
  | _, _ => none

/-- All rows added to an empty value. -/
def Jagged.ofRows {α : Type} (rows : List (List α)) : Jagged α := rows.foldl Jagged.add {}

theorem jagged_content {α : Type} (rows : List (List α)) (j : Jagged α) : (rows.foldl Jagged.add j).content = j.content ++ rows.flatten := by
  induction rows generalizing j with
  | nil => simp
  | cons r rows ih => simp [ih, Jagged.add]

theorem jagged_offsets_length {α : Type} (rows : List (List α)) (j : Jagged α) : (rows.foldl Jagged.add j).offsets.length = j.offsets.length + rows.length := by
  induction rows generalizing j with
  | nil => simp
  | cons r rows ih => simp only [List.foldl_cons, ih, Jagged.add, List.length_append, List.length_cons, List.length_nil]; omega

/-- Offset `i` is the number of elements in the rows before row `i`. -/
theorem jagged_offset_at {α : Type} (rows : List (List α)) (j : Jagged α) (i : Nat) (hi : i < rows.length) :
    (rows.foldl Jagged.add j).offsets[j.offsets.length + i]? = some (BitVec.ofNat 32 (j.content.length + (rows.take i).flatten.length)) := by
  induction rows generalizing j i with
  | nil => simp at hi
  | cons r rows ih =>
    cases i with
    | zero =>
      have : ∀ (rows : List (List α)) (k : Jagged α) (p : Nat) (hp : p < k.offsets.length), (rows.foldl Jagged.add k).offsets[p]? = k.offsets[p]? := by
        intro rows
        induction rows with
        | nil => intro k p hp; rfl
        | cons r rows ih =>
          intro k p hp
          rw [List.foldl_cons, ih _ _ (by simp [Jagged.add]; omega)]
          simp only [Jagged.add]
          rw [List.getElem?_append_left hp]
      rw [List.foldl_cons, Nat.add_zero, this _ _ _ (by simp [Jagged.add])]
      simp [Jagged.add]
    | succ i =>
      have := ih (j.add r) i (by simpa using hi)
      rw [List.foldl_cons]
      rw [show j.offsets.length + (i + 1) = (j.add r).offsets.length + i by simp only [Jagged.add, List.length_append, List.length_cons, List.length_nil]; omega, this]
      simp [Jagged.add, Nat.add_assoc]

/-- What `Get` returns after rows were added: nothing for index 0, and row `i` for index `i + 1`. -/
theorem jagged_get_shifted {α : Type} (rows : List (List α)) (htot : rows.flatten.length < 2 ^ 32) :
    (rows ≠ [] → (Jagged.ofRows rows).get 0 = some []) ∧
    (∀ i, i + 1 < rows.length → (Jagged.ofRows rows).get (i + 1) = rows[i]?) := by
  have hoff : ∀ i, i < rows.length → (Jagged.ofRows rows).offsets[i]? = some (BitVec.ofNat 32 (rows.take i).flatten.length) := by
    intro i hi
    have := jagged_offset_at rows {} i hi
    simpa [Jagged.ofRows] using this
  have hlt : ∀ i, (rows.take i).flatten.length ≤ rows.flatten.length := by
    intro i
    conv => rhs; rw [← List.take_append_drop i rows, List.flatten_append, List.length_append]
    omega
  have hnat : ∀ i, (BitVec.ofNat 32 (rows.take i).flatten.length).toNat = (rows.take i).flatten.length := by
    intro i
    rw [BitVec.toNat_ofNat, Nat.mod_eq_of_lt (by have := hlt i; omega)]
  constructor
  · intro hne
    have hpos : 0 < rows.length := List.length_pos_iff.2 hne
    unfold Jagged.get
    rw [hoff 0 hpos]
    simp [Jagged.offset]
  · intro i hi
    have hi' : i < rows.length := by omega
    unfold Jagged.get
    rw [hoff (i + 1) hi]
    have ho : (Jagged.ofRows rows).offset (i + 1) = some (rows.take i).flatten.length := by
      simp only [Jagged.offset, Nat.add_sub_cancel, hoff i hi', Option.map_some, hnat, Nat.succ_ne_zero, if_false]
    rw [ho]
    have hcont : (Jagged.ofRows rows).content = rows.flatten := by
      have := jagged_content rows {}
      simpa [Jagged.ofRows] using this
    have htake : rows.take (i + 1) = rows.take i ++ [rows[i]] := by rw [List.take_append_getElem hi']
    have hfl : (rows.take (i + 1)).flatten = (rows.take i).flatten ++ rows[i] := by rw [htake, List.flatten_append]; simp
    simp only [hnat, hcont]
    rw [if_pos ⟨hlt i, by rw [hfl]; simp⟩, List.getElem?_eq_getElem hi']
    congr 1
    have hsplit : rows.flatten = (rows.take i).flatten ++ (rows[i] ++ (rows.drop (i + 1)).flatten) := by
      conv => lhs; rw [← List.take_append_drop (i + 1) rows, List.flatten_append, hfl, List.append_assoc]
    rw [hsplit, List.drop_left, hfl, List.length_append, Nat.add_sub_cancel_left, List.take_left]

/-- C21 is false of the code for jagged vectors: a non-empty first row is never returned for index 0. -/
theorem jagged_first_row_violated {α : Type} (r : List α) (rows : List (List α)) (hr : r ≠ []) (htot : (r :: rows).flatten.length < 2 ^ 32) :
    (Jagged.ofRows (r :: rows)).get 0 ≠ some r := by
  rw [(jagged_get_shifted (r :: rows) htot).1 (by simp)]
  simpa [eq_comm] using hr

/-- `Size()` (line 32) is the number of rows added. -/
theorem jagged_size {α : Type} (rows : List (List α)) : (Jagged.ofRows rows).offsets.length = rows.length := by
  have := jagged_offsets_length rows {}
  simpa [Jagged.ofRows] using this

example : (Jagged.ofRows [[1, 2], [3]]).get 1 = some [1, 2] := by decide

/-- `FixedSizeVectors`, lines 47–66. -/
structure Fixed (α : Type) where
  fixedSize : Nat
  content : List α := []

/-- `Add`, lines 51–57. -/
def Fixed.add {α : Type} (f : Fixed α) (row : List α) : Bool × Fixed α :=
  if row.length ≠ f.fixedSize then (false, f) else (true, { f with content := f.content ++ row })

/-- `Get`, lines 58–60 (`none`: `subspan` throws because the position is beyond the content; a length beyond the content is cut). -/
def Fixed.get {α : Type} (f : Fixed α) (i : Nat) : Option (List α) :=
  if i * f.fixedSize ≤ f.content.length then some ((f.content.drop (i * f.fixedSize)).take f.fixedSize) else none

/-- `Size`, line 61 (`none`: division by zero). -/
def Fixed.count {α : Type} (f : Fixed α) : Option Nat := if f.fixedSize = 0 then none else some (f.content.length / f.fixedSize)

/-- Adding a list of rows, whatever each call answers. -/
def Fixed.addAll {α : Type} (f : Fixed α) (rows : List (List α)) : Fixed α := rows.foldl (fun f r => (f.add r).2) f

/-- The rows of the right size, in order. -/
def accepted {α : Type} (n : Nat) (rows : List (List α)) : List (List α) := rows.filter (fun r => r.length == n)

theorem fixed_content {α : Type} (rows : List (List α)) (f : Fixed α) :
    (f.addAll rows).content = f.content ++ (accepted f.fixedSize rows).flatten ∧ (f.addAll rows).fixedSize = f.fixedSize := by
  induction rows generalizing f with
  | nil => simp [Fixed.addAll, accepted]
  | cons r rows ih =>
    have hstep : f.addAll (r :: rows) = (f.add r).2.addAll rows := rfl
    rw [hstep]
    have hfs : (f.add r).2.fixedSize = f.fixedSize := by unfold Fixed.add; split <;> rfl
    obtain ⟨h1, h2⟩ := ih (f.add r).2
    rw [h1, h2, hfs]
    refine ⟨?_, rfl⟩
    by_cases hr : r.length = f.fixedSize
    · simp [Fixed.add, hr, accepted]
    · simp [Fixed.add, hr, accepted]

theorem flatten_fixed_drop {α : Type} (n : Nat) (rows : List (List α)) (h : ∀ r ∈ rows, r.length = n) (i : Nat) (hi : i < rows.length) :
    (rows.flatten.drop (i * n)).take n = rows[i] ∧ i * n ≤ rows.flatten.length := by
  induction rows generalizing i with
  | nil => simp at hi
  | cons r rows ih =>
    have hr : r.length = n := h r (by simp)
    cases i with
    | zero => simp only [Nat.zero_mul, List.drop_zero, List.flatten_cons, List.getElem_cons_zero]; rw [← hr, List.take_left]; simp
    | succ i =>
      have := ih (fun r hr => h r (by simp [hr])) i (by simpa using hi)
      rw [List.flatten_cons, show (i + 1) * n = r.length + i * n by rw [hr, Nat.succ_mul, Nat.add_comm], List.drop_append, List.length_append]
      simp only [List.getElem_cons_succ]
      rw [List.drop_of_length_le (by omega), List.nil_append, Nat.add_sub_cancel_left]
      exact ⟨this.1, by omega⟩

/-- **C21** for fixed-size vectors: rows of the wrong size are refused and change nothing; `Get(i)` returns the `i`-th row accepted, and the size counts them. -/
theorem fixed_rows_returned {α : Type} (n : Nat) (hn : 0 < n) (rows : List (List α)) :
    (∀ f : Fixed α, ∀ r, (f.add r).1 = decide (r.length = f.fixedSize) ∧ ((f.add r).1 = false → (f.add r).2 = f)) ∧
    (({ fixedSize := n } : Fixed α).addAll rows).count = some (accepted n rows).length ∧
    (∀ i, i < (accepted n rows).length → (({ fixedSize := n } : Fixed α).addAll rows).get i = (accepted n rows)[i]?) := by
  obtain ⟨h1, h2⟩ := fixed_content rows ({ fixedSize := n } : Fixed α)
  have hall : ∀ r ∈ accepted n rows, r.length = n := by
    intro r hr
    simp [accepted] at hr
    exact hr.2
  have hlen : (accepted n rows).flatten.length = (accepted n rows).length * n := by
    generalize accepted n rows = rs at hall
    induction rs with
    | nil => simp
    | cons r rs ih =>
      rw [List.flatten_cons, List.length_append, ih (fun r hr => hall r (by simp [hr])), hall r (by simp), List.length_cons, Nat.succ_mul, Nat.add_comm]
  refine ⟨fun f r => ?_, ?_, fun i hi => ?_⟩
  · unfold Fixed.add
    by_cases h : r.length = f.fixedSize
    · simp [h]
    · simp [h]
  · simp only [Fixed.count, h2, h1, List.nil_append, show n ≠ 0 by omega, if_false, hlen, Nat.mul_div_cancel _ hn]
  · obtain ⟨e1, e2⟩ := flatten_fixed_drop n (accepted n rows) hall i hi
    simp only [Fixed.get, h1, h2, List.nil_append, e2, if_true, e1, List.getElem?_eq_getElem hi]

example : (({ fixedSize := 2 } : Fixed Nat).addAll [[1, 2], [9], [3, 4]]).get 1 = some [3, 4] := by decide

end Verif.Types.Vec
