/-!
# String views: model and properties C14, C15, C16

`/repo/rapidudf/types/string_view.h` 44–157, 188–214 and `/repo/rapidudf/types/string_view.cc` 20–54. A string view is 16 bytes: a 32-bit size, four prefix
bytes and a union of eight inlined bytes and a pointer.

Simplifications: a pointer is represented by the bytes it points to (they must stay alive, as for any view); the word comparisons
`sizeAndPrefixAsInt64`/`inlinedAsInt64`/`prefixAsInt` compare the bytes of the words, which is what integer equality of the words means.
-/
namespace Verif.Types.Str

abbrev Byte := BitVec 8

/-- The union `value_`. -/
inductive Val where
  | inlined (b : List Byte)
  | ptr (bytes : List Byte)

structure SV where
  size : BitVec 32
  pre : List Byte
  val : Val

def kPrefixSize : Nat := 4
def kInlineSize : Nat := 12

/-- `isInline`, lines 102–104. -/
def isInline (size : BitVec 32) : Bool := decide (size.toNat ≤ kInlineSize)

/-- `l` followed by zeros, cut to `n` bytes: the contents of a zeroed `n`-byte buffer after `memcpy` of `l`. -/
def pad : Nat → List Byte → List Byte
  | 0, _ => []
  | n + 1, [] => 0 :: pad n []
  | n + 1, x :: xs => x :: pad n xs

/-- The constructor, lines 55–75, on a buffer holding exactly `data`. `junk` is the content of the union before the call: for an empty string it is not
initialised. -/
def SV.mk' (junk : Val) (data : List Byte) : SV :=
  let size := BitVec.ofNat 32 data.length
  if isInline size then
    if size = 0 then { size := size, pre := pad 4 [], val := junk }
    else { size := size, pre := pad 4 data, val := .inlined (pad 8 (data.drop 4)) }
  else { size := size, pre := data.take 4, val := .ptr data }

/-- `inlinedAsInt64() == other.inlinedAsInt64()`; reading the pointer member would compare addresses (`none`: does not happen). -/
def inlinedEq : Val → Val → Option Bool
  | .inlined a, .inlined b => some (a == b)
  | _, _ => none

/-- `value_.data + off`, readable for `n` bytes. -/
def ptrRead (v : Val) (off n : Nat) : Option (List Byte) :=
  match v with
  | .ptr b => if off + n ≤ b.length then some ((b.drop off).take n) else none
  | .inlined _ => none

/-- `memcmp` on two byte blocks of the same size: the sign is that of the first difference (the C standard fixes no more than the sign). -/
def memcmp : List Byte → List Byte → Int
  | x :: xs, y :: ys => if x < y then -1 else if y < x then 1 else memcmp xs ys
  | _, _ => 0

/-- `operator==`, lines 120–133. -/
def SV.eq (a b : SV) : Option Bool :=
  if a.size ≠ b.size ∨ a.pre ≠ b.pre then some false
  else if isInline a.size then
    if a.size.toNat ≤ kPrefixSize then some true else inlinedEq a.val b.val
  else
    match ptrRead a.val 4 (a.size.toNat - 4), ptrRead b.val 4 (b.size.toNat - 4) with
    | some x, some y => some (memcmp x y == 0)
    | _, _ => none

/-- `data() + off` for `n` bytes, line 107: the inline bytes are the prefix followed by the union. -/
def SV.read (a : SV) (off n : Nat) : Option (List Byte) :=
  if isInline a.size then
    match a.val with
    | .inlined b => if off + n ≤ (a.pre ++ b).length then some (((a.pre ++ b).drop off).take n) else none
    | .ptr _ => none
  else ptrRead a.val off n

/-- `compare`, lines 140–157. `min(size_, other.size_) - kPrefixSize` is `size_t`, then converted to `int32_t`; `size_ - other.size_` is `uint32_t`, then
converted to `int32_t`. -/
def SV.compare (a b : SV) : Option Int :=
  let diff : Int := (a.size - b.size).toInt
  if a.pre ≠ b.pre then some (memcmp a.pre b.pre)
  else
    let size : Int := ((min a.size.toNat b.size.toNat : Int) - 4).bmod (2 ^ 32)
    if size ≤ 0 then some diff
    else if size ≤ 12 ∧ isInline a.size = true ∧ isInline b.size = true then
      match a.val, b.val with
      | .inlined x, .inlined y =>
        if size.toNat ≤ 8 then
          let r := memcmp (x.take size.toNat) (y.take size.toNat)
          some (if r ≠ 0 then r else diff)
        else none
      | _, _ => none
    else
      match a.read 4 size.toNat, b.read 4 size.toNat with
      | some x, some y => some (if memcmp x y ≠ 0 then memcmp x y else diff)
      | _, _ => none

/-- The comparison operators of scripts on strings. -/
inductive CmpOp where
  | eq | ne | gt | ge | lt | le
deriving DecidableEq

/-- `compare_string_view`, `string_view.cc` 20–54; operators 135, 159–165. -/
def cmpOp (op : CmpOp) (a b : SV) : Option Bool :=
  match op with
  | .eq => a.eq b
  | .ne => (a.eq b).map (!·)
  | .gt => (a.compare b).map (fun r => decide (r > 0))
  | .ge => (a.compare b).map (fun r => decide (r ≥ 0))
  | .lt => (a.compare b).map (fun r => decide (r < 0))
  | .le => (a.compare b).map (fun r => decide (r ≤ 0))

/-! ## Specification -/

/-- Lexicographic comparison by unsigned byte value; a proper prefix is smaller. -/
def lexCmp : List Byte → List Byte → Ordering
  | [], [] => .eq
  | [], _ :: _ => .lt
  | _ :: _, [] => .gt
  | x :: xs, y :: ys => if x < y then .lt else if y < x then .gt else lexCmp xs ys

/-- The answer of an operator, given how the strings are ordered. -/
def CmpOp.holds : CmpOp → Ordering → Bool
  | .eq, o => o == .eq
  | .ne, o => o != .eq
  | .gt, o => o == .gt
  | .ge, o => o != .lt
  | .lt, o => o == .lt
  | .le, o => o != .gt

/-- The sign of an integer as an ordering. -/
def signOf (r : Int) : Ordering := if r < 0 then .lt else if r = 0 then .eq else .gt

/-! ## Lemmas -/

theorem byte_eq_of_not_lt {x y : Byte} (h1 : ¬ x < y) (h2 : ¬ y < x) : x = y := by
  apply BitVec.eq_of_toNat_eq
  rw [BitVec.lt_def] at h1 h2
  omega

theorem lexCmp_self (a : List Byte) : lexCmp a a = .eq := by
  induction a with
  | nil => rfl
  | cons x a ih => simp [lexCmp, ih]

theorem lexCmp_eq_iff (a b : List Byte) : lexCmp a b = .eq ↔ a = b := by
  induction a generalizing b with
  | nil => cases b <;> simp [lexCmp]
  | cons x a ih =>
    cases b with
    | nil => simp [lexCmp]
    | cons y b =>
      simp only [lexCmp]
      by_cases h1 : x < y
      · simp only [h1, if_true, reduceCtorEq, false_iff]
        rintro h
        have : x = y := by simpa using (List.cons.inj h).1
        subst this
        rw [BitVec.lt_def] at h1; omega
      · by_cases h2 : y < x
        · simp only [h1, h2, if_true, if_false, reduceCtorEq, false_iff]
          rintro h
          have : x = y := (List.cons.inj h).1
          subst this
          rw [BitVec.lt_def] at h2; omega
        · have := byte_eq_of_not_lt h1 h2
          subst this
          simp [h1, ih]

theorem pad_length (n : Nat) (l : List Byte) : (pad n l).length = n := by
  induction n generalizing l with
  | zero => rfl
  | succ n ih => cases l <;> simp [pad, ih]

theorem pad_eq_append (n : Nat) (l : List Byte) (h : l.length ≤ n) : pad n l = l ++ List.replicate (n - l.length) 0 := by
  induction n generalizing l with
  | zero => cases l with
    | nil => rfl
    | cons x l => simp at h
  | succ n ih =>
    cases l with
    | nil =>
      simp only [pad, ih [] (by simp), List.length_nil, Nat.sub_zero, List.nil_append, List.replicate_succ]
    | cons x l =>
      simp only [List.length_cons] at h
      simp only [pad, ih l (by omega), List.length_cons, Nat.add_sub_add_right, List.cons_append]

theorem pad_eq_take (n : Nat) (l : List Byte) (h : n ≤ l.length) : pad n l = l.take n := by
  induction n generalizing l with
  | zero => simp [pad]
  | succ n ih =>
    cases l with
    | nil => simp at h
    | cons x l => simp only [pad, List.take_succ_cons, ih l (by simpa using h)]

theorem take_pad (n k : Nat) (l : List Byte) (h1 : k ≤ n) (h2 : k ≤ l.length) : (pad n l).take k = l.take k := by
  induction n generalizing l k with
  | zero =>
    have : k = 0 := by omega
    simp [this]
  | succ n ih =>
    cases k with
    | zero => simp
    | succ k =>
      cases l with
      | nil => simp at h2
      | cons x l => simp only [pad, List.take_succ_cons, ih k l (by omega) (by simpa using h2)]

/-- Strings of the same length that fit a zeroed buffer are equal when the buffers are. -/
theorem pad_inj {n : Nat} {a b : List Byte} (hl : a.length = b.length) (hn : a.length ≤ n) (h : pad n a = pad n b) : a = b := by
  rw [pad_eq_append n a hn, pad_eq_append n b (by omega), hl] at h
  exact List.append_cancel_right h

theorem memcmp_zero_iff (a b : List Byte) (h : a.length = b.length) : memcmp a b = 0 ↔ a = b := by
  induction a generalizing b with
  | nil => cases b with
    | nil => simp [memcmp]
    | cons => simp at h
  | cons x a ih =>
    cases b with
    | nil => simp at h
    | cons y b =>
      simp only [memcmp]
      by_cases h1 : x < y
      · have hne : x ≠ y := by rintro rfl; rw [BitVec.lt_def] at h1; omega
        simp [h1, hne]
      · by_cases h2 : y < x
        · have hne : x ≠ y := by rintro rfl; rw [BitVec.lt_def] at h2; omega
          simp [h1, h2, hne]
        · have := byte_eq_of_not_lt h1 h2
          subst this
          simp [h1, ih b (by simpa using h)]

theorem signOf_memcmp (a b : List Byte) (h : a.length = b.length) : signOf (memcmp a b) = lexCmp a b := by
  induction a generalizing b with
  | nil => cases b with
    | nil => rfl
    | cons => simp at h
  | cons x a ih =>
    cases b with
    | nil => simp at h
    | cons y b =>
      simp only [memcmp, lexCmp]
      by_cases h1 : x < y
      · simp only [h1, if_true]; rfl
      · by_cases h2 : y < x
        · simp only [h1, h2, if_true, if_false]; rfl
        · simp only [h1, h2, if_false]; exact ih b (by simpa using h)

theorem lexCmp_pad (n : Nat) (a b : List Byte) (h : pad n a ≠ pad n b) : lexCmp (pad n a) (pad n b) = lexCmp a b := by
  induction n generalizing a b with
  | zero => simp [pad] at h
  | succ n ih =>
    cases a with
    | nil =>
      cases b with
      | nil => simp at h
      | cons y b =>
        simp only [pad, lexCmp]
        by_cases h1 : (0 : Byte) < y
        · simp only [h1, if_true]
        · have h2 : ¬ y < 0 := by rw [BitVec.lt_def]; simp
          have := byte_eq_of_not_lt h1 h2
          subst this
          simp only [pad, ne_eq, List.cons.injEq, true_and] at h
          rw [if_neg h1, if_neg h1, ih [] b h]
          cases b with
          | nil => simp at h
          | cons => rfl
    | cons x a =>
      cases b with
      | nil =>
        simp only [pad, lexCmp]
        by_cases h1 : (0 : Byte) < x
        · have : ¬ x < 0 := by rw [BitVec.lt_def]; simp
          simp only [h1, this, if_true, if_false]
        · have h2 : ¬ x < 0 := by rw [BitVec.lt_def]; simp
          have := byte_eq_of_not_lt h1 h2
          subst this
          simp only [pad, ne_eq, List.cons.injEq, true_and] at h
          rw [if_neg h1, if_neg h1, ih a [] h]
          cases a with
          | nil => simp at h
          | cons => rfl
      | cons y b =>
        simp only [pad, lexCmp]
        by_cases h1 : x < y
        · simp [h1]
        · by_cases h2 : y < x
          · simp [h1, h2]
          · have := byte_eq_of_not_lt h1 h2
            subst this
            simp only [pad, ne_eq, List.cons.injEq, true_and] at h
            simp only [h1, if_false]
            exact ih a b h

/-- How two lengths compare. -/
def lenCmp (a b : List Byte) : Ordering := compareOfLessAndEq a.length b.length

theorem lexCmp_short (n : Nat) (a b : List Byte) (h : pad n a = pad n b) (hm : min a.length b.length ≤ n) : lexCmp a b = lenCmp a b := by
  induction n generalizing a b with
  | zero =>
    cases a with
    | nil => cases b <;> simp [lexCmp, lenCmp, compareOfLessAndEq]
    | cons x a => cases b with
      | nil => simp [lexCmp, lenCmp, compareOfLessAndEq]
      | cons y b => simp at hm
  | succ n ih =>
    cases a with
    | nil => cases b <;> simp [lexCmp, lenCmp, compareOfLessAndEq]
    | cons x a => cases b with
      | nil => simp [lexCmp, lenCmp, compareOfLessAndEq]
      | cons y b =>
        simp only [pad, List.cons.injEq] at h
        obtain ⟨rfl, h⟩ := h
        simp only [List.length_cons] at hm
        have := ih a b h (by omega)
        simp only [lexCmp, lenCmp, compareOfLessAndEq, List.length_cons]
        simp only [lenCmp, compareOfLessAndEq] at this
        simp [this]

theorem lexCmp_drop (n : Nat) (a b : List Byte) (h : a.take n = b.take n) (ha : n ≤ a.length) (hb : n ≤ b.length) :
    lexCmp a b = lexCmp (a.drop n) (b.drop n) := by
  induction n generalizing a b with
  | zero => rfl
  | succ n ih =>
    cases a with
    | nil => simp at ha
    | cons x a => cases b with
      | nil => simp at hb
      | cons y b =>
        simp only [List.take_succ_cons, List.cons.injEq] at h
        obtain ⟨rfl, h⟩ := h
        simp only [lexCmp, List.drop_succ_cons]
        simp [ih a b h (by simpa using ha) (by simpa using hb)]

theorem lexCmp_common (m : Nat) (a b : List Byte) (hm : m = min a.length b.length) :
    lexCmp a b = if a.take m = b.take m then lenCmp a b else lexCmp (a.take m) (b.take m) := by
  induction m generalizing a b with
  | zero =>
    cases a with
    | nil => cases b <;> simp [lexCmp, lenCmp, compareOfLessAndEq]
    | cons x a => cases b with
      | nil => simp [lexCmp, lenCmp, compareOfLessAndEq]
      | cons y b => simp at hm
  | succ m ih =>
    cases a with
    | nil => simp at hm
    | cons x a => cases b with
      | nil => simp at hm
      | cons y b =>
        simp only [List.length_cons] at hm
        have := ih a b (by omega)
        simp only [lexCmp, List.take_succ_cons, List.cons.injEq, lenCmp, compareOfLessAndEq, List.length_cons]
        simp only [lenCmp, compareOfLessAndEq] at this
        by_cases h1 : x < y
        · have : x ≠ y := by rintro rfl; rw [BitVec.lt_def] at h1; omega
          simp [h1, this]
        · by_cases h2 : y < x
          · have : x ≠ y := by rintro rfl; rw [BitVec.lt_def] at h2; omega
            simp [h1, h2, this]
          · have e := byte_eq_of_not_lt h1 h2
            subst e
            simp [h1, this]

/-- The size field. -/
theorem size_toNat (junk : Val) (d : List Byte) (h : d.length < 2 ^ 32) : (SV.mk' junk d).size.toNat = d.length := by
  have : (BitVec.ofNat 32 d.length).toNat = d.length := by rw [BitVec.toNat_ofNat, Nat.mod_eq_of_lt h]
  unfold SV.mk'
  simp only
  split
  · split <;> exact this
  · exact this

/-- The constructor by cases of the length. -/
theorem mk'_empty (junk : Val) : SV.mk' junk [] = { size := 0, pre := pad 4 [], val := junk } := rfl

theorem mk'_short (junk : Val) (d : List Byte) (h0 : d ≠ []) (h : d.length ≤ 12) :
    SV.mk' junk d = { size := BitVec.ofNat 32 d.length, pre := pad 4 d, val := .inlined (pad 8 (d.drop 4)) } := by
  have hn : (BitVec.ofNat 32 d.length).toNat = d.length := by rw [BitVec.toNat_ofNat, Nat.mod_eq_of_lt (by omega)]
  have h1 : isInline (BitVec.ofNat 32 d.length) = true := by simp only [isInline, hn, kInlineSize]; exact decide_eq_true h
  have hl : d.length ≠ 0 := by simpa using h0
  have h2 : ¬ BitVec.ofNat 32 d.length = 0 := by
    intro e; apply hl; rw [← hn, e]; rfl
  unfold SV.mk'
  simp only [h1, if_true, h2, if_false]

theorem mk'_long (junk : Val) (d : List Byte) (h : 12 < d.length) (h2 : d.length < 2 ^ 32) :
    SV.mk' junk d = { size := BitVec.ofNat 32 d.length, pre := pad 4 d, val := .ptr d } := by
  have hn : (BitVec.ofNat 32 d.length).toNat = d.length := by rw [BitVec.toNat_ofNat, Nat.mod_eq_of_lt h2]
  have h1 : isInline (BitVec.ofNat 32 d.length) = false := by simp only [isInline, hn, kInlineSize]; exact decide_eq_false (by omega)
  unfold SV.mk'
  simp only [h1, if_false, Bool.false_eq_true]
  rw [pad_eq_take 4 d (by omega)]

theorem mk'_pre (junk : Val) (d : List Byte) (h : d.length < 2 ^ 32) : (SV.mk' junk d).pre = pad 4 d := by
  by_cases h0 : d = []
  · subst h0; rfl
  · by_cases h1 : d.length ≤ 12
    · rw [mk'_short junk d h0 h1]
    · rw [mk'_long junk d (by omega) h]

theorem mk'_isInline (junk : Val) (d : List Byte) (h : d.length < 2 ^ 32) : isInline (SV.mk' junk d).size = decide (d.length ≤ 12) := by
  simp only [isInline, size_toNat junk d h, kInlineSize]

/-- Reading bytes of a view. -/
theorem read_ok (junk : Val) (d : List Byte) (n : Nat) (h : d.length < 2 ^ 32) (hn : 4 + n ≤ d.length) (hn0 : 0 < n) :
    (SV.mk' junk d).read 4 n = some ((d.drop 4).take n) := by
  have h0 : d ≠ [] := by rintro rfl; simp at hn
  unfold SV.read
  rw [mk'_isInline junk d h]
  by_cases h1 : d.length ≤ 12
  · rw [mk'_short junk d h0 h1]
    have hl : (pad 4 d ++ pad 8 (d.drop 4)).length = 12 := by simp [pad_length]
    simp only [h1, decide_true, if_true, hl, show 4 + n ≤ 12 by omega]
    rw [List.drop_append_of_le_length (by rw [pad_length]; omega), List.drop_of_length_le (by rw [pad_length]; omega), List.nil_append,
      take_pad 8 n _ (by omega) (by simp; omega)]
  · rw [mk'_long junk d (by omega) h]
    simp only [h1, decide_false, Bool.false_eq_true, if_false, ptrRead, hn, if_true]

/-! ## C14 -/

/-- **C14.** Views built from byte sequences compare equal exactly when the sequences are identical, whatever the storage of each and whatever was in the
memory before; the comparison reads nothing outside. -/
theorem string_view_eq_iff (j1 j2 : Val) (a b : List Byte) (ha : a.length < 2 ^ 32) (hb : b.length < 2 ^ 32) :
    (SV.mk' j1 a).eq (SV.mk' j2 b) = some (decide (a = b)) := by
  unfold SV.eq
  rw [mk'_pre j1 a ha, mk'_pre j2 b hb, mk'_isInline j1 a ha, size_toNat j1 a ha, size_toNat j2 b hb]
  have hsz : (SV.mk' j1 a).size = (SV.mk' j2 b).size ↔ a.length = b.length := by
    constructor
    · intro h
      have := congrArg BitVec.toNat h
      rwa [size_toNat j1 a ha, size_toNat j2 b hb] at this
    · intro h
      apply BitVec.eq_of_toNat_eq
      rw [size_toNat j1 a ha, size_toNat j2 b hb, h]
  by_cases hl : a.length = b.length
  · by_cases hp : pad 4 a = pad 4 b
    · rw [if_neg (by rintro (h | h); exact h (hsz.2 hl); exact h hp)]
      by_cases h12 : a.length ≤ 12
      · simp only [h12, decide_true, if_true]
        by_cases h4 : a.length ≤ 4
        · simp only [kPrefixSize, h4, if_true]
          have := pad_inj hl h4 hp
          simp [this]
        · simp only [kPrefixSize, h4, if_false]
          have h0a : a ≠ [] := by rintro rfl; simp at h4
          have h0b : b ≠ [] := by rintro rfl; simp at hl; exact h0a hl
          rw [mk'_short j1 a h0a h12, mk'_short j2 b h0b (by omega)]
          simp only [inlinedEq]
          congr 1
          have ht : a.take 4 = b.take 4 := by rw [← pad_eq_take 4 a (by omega), ← pad_eq_take 4 b (by omega), hp]
          by_cases hd : a.drop 4 = b.drop 4
          · have : a = b := by rw [← List.take_append_drop 4 a, ← List.take_append_drop 4 b, ht, hd]
            simp [this]
          · have h1 : pad 8 (a.drop 4) ≠ pad 8 (b.drop 4) := fun h => hd (pad_inj (by simp; omega) (by simp; omega) h)
            have h2 : a ≠ b := fun h => hd (by rw [h])
            simp [h1, h2]
      · simp only [h12, decide_false, Bool.false_eq_true, if_false]
        rw [mk'_long j1 a (by omega) ha, mk'_long j2 b (by omega) hb]
        simp only [ptrRead, show 4 + (a.length - 4) ≤ a.length by omega, show 4 + (b.length - 4) ≤ b.length by omega, if_true]
        have ht : a.take 4 = b.take 4 := by rw [← pad_eq_take 4 a (by omega), ← pad_eq_take 4 b (by omega), hp]
        rw [List.take_of_length_le (by simp), List.take_of_length_le (by simp)]
        congr 1
        by_cases hd : a.drop 4 = b.drop 4
        · have : a = b := by rw [← List.take_append_drop 4 a, ← List.take_append_drop 4 b, ht, hd]
          have hz := (memcmp_zero_iff (a.drop 4) (b.drop 4) (by simp; omega)).2 hd
          simp [this, hz]
          subst this; exact hz
        · have h2 : a ≠ b := fun h => hd (by rw [h])
          have hz : ¬ memcmp (a.drop 4) (b.drop 4) = 0 := fun h => hd ((memcmp_zero_iff _ _ (by simp; omega)).1 h)
          simp [h2, hz]
    · rw [if_pos (Or.inr hp)]
      have : a ≠ b := fun h => hp (by rw [h])
      simp [this]
  · rw [if_pos (Or.inl (fun h => hl (hsz.1 h)))]
    have : a ≠ b := fun h => hl (by rw [h])
    simp [this]

/-! ## C15 -/

theorem diff_sign (x y : BitVec 32) (hx : x.toNat < 2 ^ 31) (hy : y.toNat < 2 ^ 31) :
    signOf (x - y).toInt = compareOfLessAndEq x.toNat y.toNat := by
  have h : (x - y).toInt = (x.toNat : Int) - y.toNat := by
    rw [BitVec.toInt_sub, BitVec.toInt_eq_toNat_of_lt (by omega), BitVec.toInt_eq_toNat_of_lt (by omega)]
    exact Int.bmod_eq_of_le_mul_two (by omega) (by omega)
  rw [h]
  unfold signOf compareOfLessAndEq
  by_cases h1 : x.toNat < y.toNat
  · simp only [h1, if_true, show (x.toNat : Int) - y.toNat < 0 by omega]
  · by_cases h2 : x.toNat = y.toNat
    · simp [h2]
    · simp only [h1, h2, if_false, show ¬ (x.toNat : Int) - y.toNat < 0 by omega, show ¬ (x.toNat : Int) - y.toNat = 0 by omega]

/-- **C15.** `compare` is negative, zero or positive as the byte sequences are ordered lexicographically by unsigned byte. -/
theorem string_view_compare_lex (j1 j2 : Val) (a b : List Byte) (ha : a.length < 2 ^ 31) (hb : b.length < 2 ^ 31) :
    ∃ r, (SV.mk' j1 a).compare (SV.mk' j2 b) = some r ∧ signOf r = lexCmp a b := by
  have ha' : a.length < 2 ^ 32 := by omega
  have hb' : b.length < 2 ^ 32 := by omega
  have hdiff : signOf ((SV.mk' j1 a).size - (SV.mk' j2 b).size).toInt = lenCmp a b := by
    rw [diff_sign _ _ (by rw [size_toNat j1 a ha']; exact ha) (by rw [size_toNat j2 b hb']; exact hb), size_toNat j1 a ha', size_toNat j2 b hb']
    rfl
  unfold SV.compare
  simp only [mk'_pre j1 a ha', mk'_pre j2 b hb', size_toNat j1 a ha', size_toNat j2 b hb', mk'_isInline j1 a ha', mk'_isInline j2 b hb']
  by_cases hp : pad 4 a = pad 4 b
  · have hs : ((min a.length b.length : Int) - 4).bmod (2 ^ 32) = (min a.length b.length : Int) - 4 := by
      exact Int.bmod_eq_of_le_mul_two (by omega) (by omega)
    have hs' : ((min (a.length : Int) (b.length : Int)) - 4).bmod (2 ^ 32) = (min a.length b.length : Int) - 4 := hs
    simp only [hp, ne_eq, not_true_eq_false, if_false, hs']
    by_cases hle : (min a.length b.length : Int) - 4 ≤ 0
    · simp only [hle, if_true]
      exact ⟨_, rfl, by rw [hdiff, lexCmp_short 4 a b hp (by omega)]⟩
    · simp only [hle, if_false]
      have hn : ((min a.length b.length : Int) - 4).toNat = min a.length b.length - 4 := by omega
      rw [hn]
      have ht : a.take 4 = b.take 4 := by rw [← pad_eq_take 4 a (by omega), ← pad_eq_take 4 b (by omega), hp]
      have hlex : lexCmp a b = if (a.drop 4).take (min a.length b.length - 4) = (b.drop 4).take (min a.length b.length - 4) then lenCmp a b
          else lexCmp ((a.drop 4).take (min a.length b.length - 4)) ((b.drop 4).take (min a.length b.length - 4)) := by
        rw [lexCmp_drop 4 a b ht (by omega) (by omega), lexCmp_common (min a.length b.length - 4) (a.drop 4) (b.drop 4) (by simp; omega)]
        have : lenCmp (a.drop 4) (b.drop 4) = lenCmp a b := by
          simp only [lenCmp, compareOfLessAndEq, List.length_drop]
          by_cases h1 : a.length < b.length
          · simp [h1, show a.length - 4 < b.length - 4 by omega]
          · by_cases h2 : a.length = b.length
            · simp [h2]
            · simp [h1, h2, show ¬ a.length - 4 < b.length - 4 by omega, show ¬ a.length - 4 = b.length - 4 by omega]
        rw [this]
      have key : ∀ x y : List Byte, x = (a.drop 4).take (min a.length b.length - 4) → y = (b.drop 4).take (min a.length b.length - 4) →
          signOf (if memcmp x y ≠ 0 then memcmp x y else ((SV.mk' j1 a).size - (SV.mk' j2 b).size).toInt) = lexCmp a b := by
        rintro x y rfl rfl
        rw [hlex]
        have hlen : ((a.drop 4).take (min a.length b.length - 4)).length = ((b.drop 4).take (min a.length b.length - 4)).length := by simp; omega
        by_cases e : (a.drop 4).take (min a.length b.length - 4) = (b.drop 4).take (min a.length b.length - 4)
        · have hz := (memcmp_zero_iff _ _ hlen).2 e
          rw [if_pos e, if_neg (by simp [hz]), hdiff]
        · have hz : memcmp ((a.drop 4).take (min a.length b.length - 4)) ((b.drop 4).take (min a.length b.length - 4)) ≠ 0 :=
            fun h => e ((memcmp_zero_iff _ _ hlen).1 h)
          rw [if_neg e, if_pos hz, signOf_memcmp _ _ hlen]
      by_cases hin : (min a.length b.length : Int) - 4 ≤ 12 ∧ decide (a.length ≤ 12) = true ∧ decide (b.length ≤ 12) = true
      · simp only [hin, if_true, and_self]
        have hal : a.length ≤ 12 := by simpa using hin.2.1
        have hbl : b.length ≤ 12 := by simpa using hin.2.2
        have h0a : a ≠ [] := by rintro rfl; simp at hle; omega
        have h0b : b ≠ [] := by rintro rfl; simp at hle; omega
        have e1 := mk'_short j1 a h0a hal
        have e2 := mk'_short j2 b h0b hbl
        have v1 : (SV.mk' j1 a).val = .inlined (pad 8 (a.drop 4)) := by rw [e1]
        have v2 : (SV.mk' j2 b).val = .inlined (pad 8 (b.drop 4)) := by rw [e2]
        simp only [v1, v2, show min a.length b.length - 4 ≤ 8 by omega, if_true]
        exact ⟨_, rfl, key _ _ (take_pad 8 _ _ (by omega) (by simp; omega)) (take_pad 8 _ _ (by omega) (by simp; omega))⟩
      · simp only [hin, if_false]
        rw [read_ok j1 a _ ha' (by omega) (by omega), read_ok j2 b _ hb' (by omega) (by omega)]
        exact ⟨_, rfl, key _ _ rfl rfl⟩
  · simp only [hp, ne_eq, not_false_eq_true, if_true]
    refine ⟨_, rfl, ?_⟩
    rw [signOf_memcmp _ _ (by rw [pad_length, pad_length]), lexCmp_pad 4 a b hp]

/-- **C15.** The six comparison operators of scripts agree with the lexicographic order. -/
theorem string_ops_lex (op : CmpOp) (j1 j2 : Val) (a b : List Byte) (ha : a.length < 2 ^ 31) (hb : b.length < 2 ^ 31) :
    cmpOp op (SV.mk' j1 a) (SV.mk' j2 b) = some (op.holds (lexCmp a b)) := by
  obtain ⟨r, hr, hs⟩ := string_view_compare_lex j1 j2 a b ha hb
  have he := string_view_eq_iff j1 j2 a b (by omega) (by omega)
  have hd : decide (a = b) = (lexCmp a b == .eq) := by
    by_cases h : a = b
    · subst h; simp [lexCmp_self]
    · have : lexCmp a b ≠ .eq := fun e => h ((lexCmp_eq_iff a b).1 e)
      simp [h, this]
  rw [hd] at he
  cases op <;> simp only [cmpOp, CmpOp.holds, he, hr, Option.map_some, ← hs, bne]
  all_goals
    unfold signOf
    by_cases h1 : r < 0
    · simp [h1]; try omega
    · by_cases h2 : r = 0
      · simp [h2]
      · simp [h1, h2]; try omega

/-- The specification is the usual strict order: antisymmetric in the arguments and `eq` exactly on equal strings. -/
theorem lexCmp_swap (a b : List Byte) : lexCmp b a = (lexCmp a b).swap := by
  induction a generalizing b with
  | nil => cases b <;> rfl
  | cons x a ih => cases b with
    | nil => rfl
    | cons y b =>
      simp only [lexCmp]
      by_cases h1 : x < y
      · have h2 : ¬ y < x := by rw [BitVec.lt_def] at h1 ⊢; omega
        simp [h1, h2]
      · by_cases h2 : y < x
        · simp [h1, h2]
        · simp [h1, h2, ih]

/-- The bound is needed: beyond 2^31 the difference of the sizes changes sign. The empty string compares greater than any longer string of zero bytes. -/
theorem string_compare_long_violated (j1 j2 : Val) (b : List Byte) (hb : 2 ^ 31 < b.length) (hb2 : b.length < 2 ^ 32) (hz : ∀ x ∈ b, x = 0) :
    lexCmp [] b = .lt ∧ ∃ r, (SV.mk' j1 []).compare (SV.mk' j2 b) = some r ∧ 0 < r := by
  have hlt : lexCmp [] b = .lt := by
    cases b with
    | nil => simp at hb
    | cons => rfl
  refine ⟨hlt, ?_⟩
  have hp : pad 4 ([] : List Byte) = pad 4 b := by
    rw [pad_eq_take 4 b (by omega)]
    have : b.take 4 = List.replicate 4 0 := by
      apply List.eq_replicate_iff.2
      exact ⟨by simp; omega, fun x hx => hz x (List.mem_of_mem_take hx)⟩
    rw [this]; rfl
  unfold SV.compare
  have h0 : (SV.mk' j1 []).size.toNat = 0 := rfl
  simp only [mk'_pre j1 [] (by simp), mk'_pre j2 b hb2, h0, size_toNat j2 b hb2, hp, ne_eq, not_true_eq_false, if_false]
  have hs : ((min ((0 : Nat) : Int) (b.length : Int)) - 4).bmod (2 ^ 32) = -4 := by
    rw [show (min ((0 : Nat) : Int) (b.length : Int)) - 4 = -4 by omega]
    decide
  simp only [hs, show (-4 : Int) ≤ 0 by decide, if_true]
  refine ⟨((SV.mk' j1 []).size - (SV.mk' j2 b).size).toInt, rfl, ?_⟩
  have hsz : (SV.mk' j2 b).size.toNat = b.length := size_toNat j2 b hb2
  have : ((SV.mk' j1 []).size - (SV.mk' j2 b).size).toNat = 2 ^ 32 - b.length := by
    rw [BitVec.toNat_sub, hsz, h0]
    omega
  rw [BitVec.toInt_eq_toNat_of_lt (by rw [this]; omega), this]
  omega

example : (SV.mk' (.inlined []) [0x61#8]).compare (SV.mk' (.inlined []) [0x61#8, 0#8]) = some (-1) := by decide
example : (SV.mk' (.ptr []) (List.replicate 13 0xff#8)).compare (SV.mk' (.inlined []) (List.replicate 13 0xff#8 ++ [0#8])) = some (-1) := by decide
example : (SV.mk' (.ptr []) []).eq (SV.mk' (.inlined [7]) []) = some true := by decide

/-! ## C16 -/

/-- `absl::StartsWith`. -/
def startsWith (s part : List Byte) : Bool := part.isPrefixOf s

/-- `absl::EndsWith`. -/
def endsWith (s part : List Byte) : Bool := part.isSuffixOf s

/-- Lines 209–211: calls the case-sensitive function. -/
def startsWithIgnoreCase (s part : List Byte) : Bool := startsWith s part

/-- Lines 212–214. -/
def endsWithIgnoreCase (s part : List Byte) : Bool := endsWith s part

/-- Lower case of an ASCII byte. -/
def lower (b : Byte) : Byte := if 0x41#8 ≤ b ∧ b ≤ 0x5a#8 then b + 0x20#8 else b

/-- Specification: equal up to case. -/
def StartsIgnoringCase (s part : List Byte) : Prop := part.map lower <+: s.map lower
def EndsIgnoringCase (s part : List Byte) : Prop := part.map lower <:+ s.map lower

/-- C16 is false of the code: "Abc" starts with "a" and ends with "C" ignoring case, but the functions say no. -/
theorem ignore_case_violated :
    (StartsIgnoringCase [0x41#8, 0x62#8, 0x63#8] [0x61#8] ∧ startsWithIgnoreCase [0x41#8, 0x62#8, 0x63#8] [0x61#8] = false) ∧
    (EndsIgnoringCase [0x41#8, 0x62#8, 0x63#8] [0x43#8] ∧ endsWithIgnoreCase [0x41#8, 0x62#8, 0x63#8] [0x43#8] = false) := by
  refine ⟨⟨⟨[0x62#8, 0x63#8], by decide⟩, by decide⟩, ⟨⟨[0x61#8, 0x62#8], by decide⟩, by decide⟩⟩

/-- More generally: no string with an upper-case first letter starts with its own lower-case form. -/
theorem ignore_case_never_folds_violated (b : Byte) (s : List Byte) (h : lower b ≠ b) :
    StartsIgnoringCase (b :: s) [lower b] ∧ startsWithIgnoreCase (b :: s) [lower b] = false := by
  have hidem : lower (lower b) = lower b := by
    revert b; intro b _
    have : ∀ b : Byte, lower (lower b) = lower b := by decide +kernel
    exact this b
  refine ⟨⟨s.map lower, by simp [hidem]⟩, ?_⟩
  simp [startsWithIgnoreCase, startsWith, List.isPrefixOf, h]

/-- What remains true: a positive answer is right, and for strings without upper-case letters the answers are exact. -/
theorem ignore_case_partial (s part : List Byte) :
    (startsWithIgnoreCase s part = true → StartsIgnoringCase s part) ∧ (endsWithIgnoreCase s part = true → EndsIgnoringCase s part) ∧
    ((∀ b ∈ s, lower b = b) → (∀ b ∈ part, lower b = b) →
      (startsWithIgnoreCase s part = true ↔ StartsIgnoringCase s part) ∧ (endsWithIgnoreCase s part = true ↔ EndsIgnoringCase s part)) := by
  have h1 : startsWithIgnoreCase s part = true ↔ part <+: s := by simp [startsWithIgnoreCase, startsWith]
  have h2 : endsWithIgnoreCase s part = true ↔ part <:+ s := by simp [endsWithIgnoreCase, endsWith]
  refine ⟨fun h => ?_, fun h => ?_, fun hs hp => ?_⟩
  · obtain ⟨t, rfl⟩ := h1.1 h
    exact ⟨t.map lower, by simp⟩
  · obtain ⟨t, rfl⟩ := h2.1 h
    exact ⟨t.map lower, by simp⟩
  · have e1 : s.map lower = s := by rw [List.map_congr_left hs]; simp
    have e2 : part.map lower = part := by rw [List.map_congr_left hp]; simp
    rw [h1, h2, StartsIgnoringCase, EndsIgnoringCase, e1, e2]
    exact ⟨Iff.rfl, Iff.rfl⟩

end Verif.Types.Str
