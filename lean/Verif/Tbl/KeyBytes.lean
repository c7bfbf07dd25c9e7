import Verif.Tbl.Group
import Verif.Gen.FloatOps
/-!
# Keys of several columns, as bytes: C176

`/repo/rapidudf/table/table.cc` 556–567 (`GroupBy(columns)`), 665–699 (`DistinctByColumns`), `/repo/rapidudf/table/table.h` 546–565 (`DistinctKeyHash`, `DistinctKeyCompare`),
`/repo/rapidudf/meta/dtype.cc` 361–399 (`ByteSize`), 401–435 (`Equal`), 437–475 (`Hash`). `Verif.Tbl.Group` takes keys with a decidable equality; here keys are what they are in the
code: pointers into the loaded columns, compared and hashed by type. The columns have been loaded and have one element for each row (C74).
-/
namespace Verif.Tbl.KeyBytes
open Verif.Tbl Verif.Gen.Flt
open Verif.Simd (Byte)

/-! ## Specification -/

/-- What a key column holds: integers (signed or not) of 1, 2, 4 or 8 bytes as bit patterns, floating point numbers, strings, booleans. -/
inductive Column where
  | i8 (xs : List (BitVec 8))
  | i16 (xs : List (BitVec 16))
  | i32 (xs : List (BitVec 32))
  | i64 (xs : List (BitVec 64))
  | f32 (xs : List (Fl f32))
  | f64 (xs : List (Fl f64))
  | strs (xs : List (List Byte))
  | bools (xs : List Bool)

def Column.length : Column → Nat
  | .i8 xs => xs.length
  | .i16 xs => xs.length
  | .i32 xs => xs.length
  | .i64 xs => xs.length
  | .f32 xs => xs.length
  | .f64 xs => xs.length
  | .strs xs => xs.length
  | .bools xs => xs.length

/-- Both are numbers, and the same number (so the two zeros are the same). -/
def sameNumber {F : Fmt} (xs : List (Fl F)) (i j : Nat) : Prop :=
  ∃ a b, xs[i]? = some a ∧ xs[j]? = some b ∧ a.isNaN = false ∧ b.isNaN = false ∧ a.value = b.value

/-- Rows `i` and `j` have the same value in the column. -/
def Column.same : Column → Nat → Nat → Prop
  | .i8 xs, i, j => xs[i]? = xs[j]?
  | .i16 xs, i, j => xs[i]? = xs[j]?
  | .i32 xs, i, j => xs[i]? = xs[j]?
  | .i64 xs, i, j => xs[i]? = xs[j]?
  | .f32 xs, i, j => sameNumber xs i j
  | .f64 xs, i, j => sameNumber xs i j
  | .strs xs, i, j => xs[i]? = xs[j]?
  | .bools xs, i, j => xs[i]? = xs[j]?

/-- A finite number above -1 and below 2^64. -/
def InRange {F : Fmt} (x : Fl F) : Prop := x.mag < F.inf ∧ -(F.one : Int) < x.value ∧ x.value < 2 ^ 64 * (F.one : Int)

/-- The columns the code treats rightly. -/
def Column.Fine : Column → Prop
  | .f32 xs => ∀ x ∈ xs, InRange x
  | .f64 xs => ∀ x ∈ xs, InRange x
  | .bools _ => False
  | _ => True

/-- No group is empty, every row is in exactly one, and two rows are in the same group exactly if they are the same. -/
def IsGroupingBy (same : Nat → Nat → Prop) (n : Nat) (groups : List (List Nat)) : Prop :=
  (∀ g ∈ groups, g ≠ []) ∧ groups.flatten.Perm (List.range n) ∧ (∀ g ∈ groups, ∀ i ∈ g, ∀ j ∈ g, same i j) ∧
    groups.Pairwise fun g h => ∀ i ∈ g, ∀ j ∈ h, ¬ same i j

/-! ## Model -/

/-- The types of elements, as far as `Equal`, `Hash` and `ByteSize` tell them apart. -/
inductive Elem where
  | w8 | w16 | w32 | w64 | f32 | f64 | str | bit

/-- A loaded column: the type of its elements, its bytes, and the texts its string views show (comparing views compares their texts: C14). -/
structure Raw where
  elem : Elem
  mem : List Byte
  views : List (List Byte)

/-- `ByteSize`, dtype.cc 361–399. -/
def byteSize : Elem → Nat
  | .w8 | .bit => 1
  | .w16 => 2
  | .w32 | .f32 => 4
  | .w64 | .f64 => 8
  | .str => 16

/-- The number little-endian bytes stand for. -/
def leNat : List Byte → Nat
  | [] => 0
  | b :: bs => b.toNat + 256 * leNat bs

/-- Reading `n` bytes at an address; `none` is a read past the end. -/
def readNum (mem : List Byte) (n off : Nat) : Option Nat := if off + n ≤ mem.length then some (leNat ((mem.drop off).take n)) else none

/-- Bits as a floating point number. -/
def decode (F : Fmt) (n : Nat) : Fl F := ⟨decide (n / 2 ^ (F.eb + F.mb) % 2 = 1), n % 2 ^ (F.eb + F.mb), Nat.mod_lt _ (Nat.two_pow_pos _)⟩

def eqNum (r : Raw) (n a b : Nat) : Option Bool := (readNum r.mem n a).bind fun x => (readNum r.mem n b).map fun y => decide (x = y)
def eqFl (F : Fmt) (r : Raw) (n a b : Nat) : Option Bool := (readNum r.mem n a).bind fun x => (readNum r.mem n b).map fun y => fcmp .eq (decode F x) (decode F y)

/-- `DType::Equal`, dtype.cc 401–435. -/
def equal (r : Raw) (a b : Nat) : Option Bool :=
  match r.elem with
  | .w8 => eqNum r 1 a b
  | .w16 => eqNum r 2 a b
  | .w32 => eqNum r 4 a b
  | .w64 => eqNum r 8 a b
  | .f32 => eqFl f32 r 4 a b
  | .f64 => eqFl f64 r 8 a b
  | .str => (r.views[a / 16]?).bind fun x => (r.views[b / 16]?).map fun y => decide (x = y)
  | .bit => some false

def hashNum (r : Raw) (n a : Nat) : Option (BitVec 64) := (readNum r.mem n a).map fun x => BitVec.ofNat 64 x
/-- A floating point number is converted to `size_t`; undefined if its integer part is not one. -/
def hashFl (F : Fmt) (r : Raw) (n a : Nat) : Option (BitVec 64) := (readNum r.mem n a).bind fun x => (toInt false 64 (decode F x)).map fun z => BitVec.ofInt 64 z

/-- `DType::Hash`, dtype.cc 437–475; `sh` is `absl::Hash` of a text. -/
def hash (sh : List Byte → BitVec 64) (r : Raw) (a : Nat) : Option (BitVec 64) :=
  match r.elem with
  | .w8 => hashNum r 1 a
  | .w16 => hashNum r 2 a
  | .w32 => hashNum r 4 a
  | .w64 => hashNum r 8 a
  | .f32 => hashFl f32 r 4 a
  | .f64 => hashFl f64 r 8 a
  | .str => (r.views[a / 16]?).map sh
  | .bit => some 0

def hashMore (sh : List Byte → BitVec 64) (h : BitVec 64) : List Raw → List Nat → Option (BitVec 64)
  | c :: cs, o :: os => (hash sh c o).bind fun x => hashMore sh (h ^^^ x) cs os
  | _, _ => some h

/-- `DistinctKeyHash`, table.h 547–555: `ks[0]` of an empty key is undefined. -/
def keyHash (sh : List Byte → BitVec 64) : List Raw → List Nat → Option (BitVec 64)
  | c :: cs, o :: os => (hash sh c o).bind fun h => hashMore sh h cs os
  | _, _ => none

/-- `DistinctKeyCompare`, table.h 556–565. -/
def keyEqual : List Raw → List Nat → List Nat → Option Bool
  | c :: cs, a :: as, b :: bs => (equal c a b).bind fun e => if e = true then keyEqual cs as bs else some false
  | _, _, _ => some true

/-- Looking up a key in `distinc_table`. Simplified: an entry is found if it has the same hash and compares equal. For keys that compare equal and have different hashes the real map
may or may not find the entry; this does not happen (`key_hash`). -/
def lookup (sh : List Byte → BitVec 64) (cols : List Raw) (key : List Nat) (h : BitVec 64) : List (List Nat × Nat) → Option (Option Nat)
  | [] => some none
  | e :: es => (keyHash sh cols e.1).bind fun h' =>
    if h' = h then (keyEqual cols e.1 key).bind fun b => if b = true then some (some e.2) else lookup sh cols key h es
    else lookup sh cols key h es

/-- The places of the values of a row, table.cc 685–688. -/
def rowKey (cols : List Raw) (i : Nat) : List Nat := cols.map fun c => byteSize c.elem * i

/-- One iteration, table.cc 684–696. -/
def keyStep (sh : List Byte → BitVec 64) (cols : List Raw) (st : DistinctState (List Nat)) (i : Nat) : Option (DistinctState (List Nat)) :=
  (keyHash sh cols (rowKey cols i)).bind fun h => (lookup sh cols (rowKey cols i) h st.reps).map fun f =>
    match f with
    | none => { reps := st.reps ++ [(rowKey cols i, i)], table := st.table ++ [(i, [])] }
    | some r => { st with table := appendTo r i st.table }

/-- The loop, table.cc 684–697: `n` more rows from row `i` on. -/
def keyLoop (sh : List Byte → BitVec 64) (cols : List Raw) (st : DistinctState (List Nat)) (i : Nat) : Nat → Option (DistinctState (List Nat))
  | 0 => some st
  | n + 1 => (keyStep sh cols st i).bind fun st => keyLoop sh cols st (i + 1) n

/-- `GroupBy(columns)`, table.cc 556–567; `none` is undefined behaviour. -/
def groupBy {P : Type} (null : P) (N : Nat) (sh : List Byte → BitVec 64) (iter : List (Nat × List Nat) → List (Nat × List Nat)) (t : Table P) (cols : List Raw) : Option (List (Table P)) :=
  (keyLoop sh cols ⟨[], []⟩ 0 (count t)).bind fun st => gatherAll null N t ((iter st.table).map fun e => e.2 ++ [e.1])

/-! ## How columns lie in memory -/

/-- `n` little-endian bytes. -/
def leBytes : Nat → Nat → List Byte
  | 0, _ => []
  | n + 1, v => BitVec.ofNat 8 (v % 256) :: leBytes n (v / 256)

/-- The bits of a floating point number. -/
def encode {F : Fmt} (x : Fl F) : Nat := (if x.neg = true then 2 ^ (F.eb + F.mb) else 0) + x.mag

/-- A column as it is loaded. The bytes of a vector of booleans are not needed: they are never read. -/
def Column.raw : Column → Raw
  | .i8 xs => ⟨.w8, xs.flatMap fun x => leBytes 1 x.toNat, []⟩
  | .i16 xs => ⟨.w16, xs.flatMap fun x => leBytes 2 x.toNat, []⟩
  | .i32 xs => ⟨.w32, xs.flatMap fun x => leBytes 4 x.toNat, []⟩
  | .i64 xs => ⟨.w64, xs.flatMap fun x => leBytes 8 x.toNat, []⟩
  | .f32 xs => ⟨.f32, xs.flatMap fun x => leBytes 4 (encode x), []⟩
  | .f64 xs => ⟨.f64, xs.flatMap fun x => leBytes 8 (encode x), []⟩
  | .strs xs => ⟨.str, [], xs⟩
  | .bools _ => ⟨.bit, [], []⟩

/-! ## Lemmas -/

theorem leBytes_length (n v : Nat) : (leBytes n v).length = n := by
  induction n generalizing v with
  | zero => rfl
  | succ n ih => simp [leBytes, ih]

theorem leNat_leBytes (n v : Nat) (h : v < 256 ^ n) : leNat (leBytes n v) = v := by
  induction n generalizing v with
  | zero => simp at h; simp [leBytes, leNat, h]
  | succ n ih =>
    rw [leBytes, leNat, ih _ (by rw [Nat.pow_succ] at h; omega)]
    simp only [BitVec.toNat_ofNat]
    omega

theorem read_flatMap {α : Type} (f : α → List Byte) (n : Nat) (hf : ∀ x, (f x).length = n) (xs : List α) (i : Nat) (x : α) (hx : xs[i]? = some x) :
    readNum (xs.flatMap f) n (n * i) = some (leNat (f x)) := by
  induction xs generalizing i with
  | nil => simp at hx
  | cons y ys ih =>
    cases i with
    | zero =>
      simp at hx
      subst hx
      unfold readNum
      rw [if_pos (by simp [hf])]
      simp only [Nat.mul_zero, List.drop_zero, List.flatMap_cons]
      rw [List.take_append_of_le_length (by rw [hf]; exact Nat.le_refl _), List.take_of_length_le (by rw [hf]; exact Nat.le_refl _)]
    | succ i =>
      simp only [List.getElem?_cons_succ] at hx
      have := ih i hx
      unfold readNum at this ⊢
      rw [List.flatMap_cons, Nat.mul_succ]
      have hd : (f y ++ ys.flatMap f).drop (n * i + n) = (ys.flatMap f).drop (n * i) := by
        rw [Nat.add_comm, ← List.drop_drop, List.drop_left' (hf y)]
      rw [hd]
      by_cases hc : n * i + n ≤ (ys.flatMap f).length
      · rw [if_pos hc] at this
        rw [if_pos (by rw [List.length_append, hf]; omega)]
        exact this
      · rw [if_neg hc] at this
        cases this

theorem encode_lt {F : Fmt} (x : Fl F) : encode x < 2 * 2 ^ (F.eb + F.mb) := by
  unfold encode
  have := x.lt
  split <;> omega

theorem decode_encode {F : Fmt} (x : Fl F) : decode F (encode x) = x := by
  obtain ⟨ng, mag, lt⟩ := x
  unfold decode encode
  have hp : 0 < 2 ^ (F.eb + F.mb) := Nat.two_pow_pos _
  cases ng
  · simp only [Bool.false_eq_true, if_false, Nat.zero_add]
    congr 1
    · rw [Nat.div_eq_of_lt lt]; rfl
    · exact Nat.mod_eq_of_lt lt
  · simp only [if_true]
    congr 1
    · rw [Nat.add_comm, Nat.add_div_right _ hp, Nat.div_eq_of_lt lt]; rfl
    · rw [Nat.add_mod_left]; exact Nat.mod_eq_of_lt lt

/-- Values up to the differences that do not count. -/
inductive Norm where
  | num (z : Int)
  | str (s : List Byte)
  | none
  deriving DecidableEq

def ofInts {w : Nat} (xs : List (BitVec w)) (i : Nat) : Norm := match xs[i]? with
  | some x => .num x.toNat
  | Option.none => .none
def ofFls {F : Fmt} (xs : List (Fl F)) (i : Nat) : Norm := match xs[i]? with
  | some x => .num x.key
  | Option.none => .none

def ofStrs (xs : List (List Byte)) (i : Nat) : Norm := match xs[i]? with
  | some x => .str x
  | Option.none => .none

def Column.norm : Column → Nat → Norm
  | .i8 xs, i => ofInts xs i
  | .i16 xs, i => ofInts xs i
  | .i32 xs, i => ofInts xs i
  | .i64 xs, i => ofInts xs i
  | .f32 xs, i => ofFls xs i
  | .f64 xs, i => ofFls xs i
  | .strs xs, i => ofStrs xs i
  | .bools _, _ => .none

theorem inRange_hash {F : Fmt} {x : Fl F} (h : InRange x) : ∃ z, toInt false 64 x = some z := by
  have ho : (0 : Int) < F.one := by have : 0 < F.one := Nat.two_pow_pos _; omega
  obtain ⟨h1, h2, h3⟩ := h
  have ht := trunc_ok x
  refine ⟨_, float_to_int_partial false 64 x _ h1 ht ?_⟩
  generalize (if x.neg then -((mval F x.mag / F.one : Nat) : Int) else ((mval F x.mag / F.one : Nat) : Int)) = r at ht
  unfold Truncated at ht
  unfold Fits
  simp only [Bool.false_eq_true, if_false]
  by_cases hv : 0 ≤ x.value
  · obtain ⟨a, b⟩ := ht.1 hv
    have c1 := Int.lt_of_mul_lt_mul_right (b := 0) (c := r + 1) (a := (F.one : Int)) (by omega) (by omega)
    have c2 := Int.lt_of_mul_lt_mul_right (b := r) (c := 2 ^ 64) (a := (F.one : Int)) (by omega) (by omega)
    omega
  · obtain ⟨a, b⟩ := ht.2 (by omega)
    have c1 := Int.lt_of_mul_lt_mul_right (b := -1) (c := r) (a := (F.one : Int)) (by omega) (by omega)
    have c2 := Int.lt_of_mul_lt_mul_right (b := r - 1) (c := 0) (a := (F.one : Int)) (by omega) (by omega)
    omega

theorem inRange_num {F : Fmt} {x : Fl F} (h : InRange x) : x.isNaN = false := by
  unfold Fl.isNaN
  have := h.1
  simp
  omega

theorem toInt_key {F : Fmt} {x y : Fl F} (h : x.key = y.key) : toInt false 64 x = toInt false 64 y := by
  obtain ⟨a, m, ha⟩ := x
  obtain ⟨b, n, hb⟩ := y
  unfold Fl.key at h
  simp only at h
  have hz : mval F 0 = 0 := by unfold mval; rw [if_pos (Nat.two_pow_pos _)]
  have he : m = n ∧ (a = b ∨ m = 0) := by
    cases a <;> cases b <;> simp at h ⊢ <;> omega
  obtain ⟨rfl, e⟩ := he
  rcases e with rfl | rfl
  · rfl
  · unfold toInt
    simp [hz]

theorem lt_of_getElem? {α : Type} {xs : List α} {i : Nat} {x : α} (h : xs[i]? = some x) : i < xs.length := (List.getElem?_eq_some_iff.1 h).1

theorem get_of_lt {α : Type} {xs : List α} {i : Nat} (h : i < xs.length) : ∃ x, xs[i]? = some x := ⟨_, List.getElem?_eq_getElem h⟩

section
variable (sh : List Byte → BitVec 64)

theorem ints_equal {w n : Nat} (hw : 2 ^ w = 256 ^ n) (xs : List (BitVec w)) (e : Elem) (i j : Nat) (hi : i < xs.length) (hj : j < xs.length) :
    eqNum ⟨e, xs.flatMap fun x => leBytes n x.toNat, []⟩ n (n * i) (n * j) = some (decide (ofInts xs i = ofInts xs j)) := by
  obtain ⟨x, hx⟩ := get_of_lt hi
  obtain ⟨y, hy⟩ := get_of_lt hj
  unfold eqNum ofInts
  rw [read_flatMap _ n (fun x => leBytes_length _ _) xs i x hx, read_flatMap _ n (fun x => leBytes_length _ _) xs j y hy, leNat_leBytes _ _ (hw ▸ x.isLt), leNat_leBytes _ _ (hw ▸ y.isLt), hx, hy]
  simp only [Option.bind_some, Option.map_some, Option.some.injEq, decide_eq_decide, Norm.num.injEq]
  omega

theorem ints_hash {w n : Nat} (hw : 2 ^ w = 256 ^ n) (xs : List (BitVec w)) (e : Elem) (i : Nat) (hi : i < xs.length) :
    ∃ z : Int, ofInts xs i = .num z ∧ hashNum ⟨e, xs.flatMap fun x => leBytes n x.toNat, []⟩ n (n * i) = some (BitVec.ofInt 64 z) := by
  obtain ⟨x, hx⟩ := get_of_lt hi
  refine ⟨x.toNat, by unfold ofInts; rw [hx], ?_⟩
  unfold hashNum
  rw [read_flatMap _ n (fun x => leBytes_length _ _) xs i x hx, leNat_leBytes _ _ (hw ▸ x.isLt)]
  simp

theorem fls_equal {F : Fmt} {n : Nat} (hw : 2 * 2 ^ (F.eb + F.mb) = 256 ^ n) (xs : List (Fl F)) (hr : ∀ x ∈ xs, InRange x) (e : Elem) (i j : Nat) (hi : i < xs.length) (hj : j < xs.length) :
    eqFl F ⟨e, xs.flatMap fun x => leBytes n (encode x), []⟩ n (n * i) (n * j) = some (decide (ofFls xs i = ofFls xs j)) := by
  obtain ⟨x, hx⟩ := get_of_lt hi
  obtain ⟨y, hy⟩ := get_of_lt hj
  unfold eqFl ofFls
  rw [read_flatMap _ n (fun x => leBytes_length _ _) xs i x hx, read_flatMap _ n (fun x => leBytes_length _ _) xs j y hy, leNat_leBytes _ _ (hw ▸ encode_lt x), leNat_leBytes _ _ (hw ▸ encode_lt y), hx, hy]
  simp only [Option.bind_some, Option.map_some, Option.some.injEq, decode_encode, fcmp, inRange_num (hr x (List.mem_of_getElem? hx)), inRange_num (hr y (List.mem_of_getElem? hy)),
    Bool.not_false, Bool.true_and, decide_eq_decide, Norm.num.injEq]

theorem fls_hash {F : Fmt} {n : Nat} (hw : 2 * 2 ^ (F.eb + F.mb) = 256 ^ n) (xs : List (Fl F)) (e : Elem) (i : Nat) (x : Fl F) (hx : xs[i]? = some x) :
    hashFl F ⟨e, xs.flatMap fun x => leBytes n (encode x), []⟩ n (n * i) = (toInt false 64 x).map fun z => BitVec.ofInt 64 z := by
  unfold hashFl
  rw [read_flatMap _ n (fun x => leBytes_length _ _) xs i x hx, leNat_leBytes _ _ (hw ▸ encode_lt x)]
  simp only [Option.bind_some, decode_encode]

theorem fls_hash_ok {F : Fmt} {n : Nat} (hw : 2 * 2 ^ (F.eb + F.mb) = 256 ^ n) (xs : List (Fl F)) (hr : ∀ x ∈ xs, InRange x) (e : Elem) (i j : Nat) (hi : i < xs.length) (hj : j < xs.length) :
    (∃ h, hashFl F ⟨e, xs.flatMap fun x => leBytes n (encode x), []⟩ n (n * i) = some h) ∧
    (ofFls xs i = ofFls xs j → hashFl F ⟨e, xs.flatMap fun x => leBytes n (encode x), []⟩ n (n * i) = hashFl F ⟨e, xs.flatMap fun x => leBytes n (encode x), []⟩ n (n * j)) := by
  obtain ⟨x, hx⟩ := get_of_lt hi
  obtain ⟨y, hy⟩ := get_of_lt hj
  rw [fls_hash hw xs e i x hx, fls_hash hw xs e j y hy]
  obtain ⟨z, hz⟩ := inRange_hash (hr x (List.mem_of_getElem? hx))
  refine ⟨⟨_, by rw [hz]; rfl⟩, ?_⟩
  intro h
  unfold ofFls at h
  rw [hx, hy] at h
  simp only [Norm.num.injEq] at h
  rw [toInt_key h]

theorem col_equal (c : Column) (hc : c.Fine) (i j : Nat) (hi : i < c.length) (hj : j < c.length) :
    equal c.raw (byteSize c.raw.elem * i) (byteSize c.raw.elem * j) = some (decide (c.norm i = c.norm j)) := by
  cases c with
  | i8 xs => exact ints_equal (by decide) xs .w8 i j hi hj
  | i16 xs => exact ints_equal (by decide) xs .w16 i j hi hj
  | i32 xs => exact ints_equal (by decide) xs .w32 i j hi hj
  | i64 xs => exact ints_equal (by decide) xs .w64 i j hi hj
  | f32 xs => exact fls_equal (F := Verif.Gen.Flt.f32) (by decide) xs hc .f32 i j hi hj
  | f64 xs => exact fls_equal (F := Verif.Gen.Flt.f64) (by decide) xs hc .f64 i j hi hj
  | strs xs =>
    obtain ⟨x, hx⟩ := get_of_lt (xs := xs) hi
    obtain ⟨y, hy⟩ := get_of_lt (xs := xs) hj
    have ex : ofStrs xs i = .str x := by unfold ofStrs; rw [hx]
    have ey : ofStrs xs j = .str y := by unfold ofStrs; rw [hy]
    simp only [equal, Column.raw, byteSize, Column.norm, ex, ey]
    rw [Nat.mul_div_cancel_left _ (by decide), Nat.mul_div_cancel_left _ (by decide), hx, hy]
    simp
  | bools xs => exact hc.elim

theorem col_hash (c : Column) (hc : c.Fine) (i j : Nat) (hi : i < c.length) (hj : j < c.length) :
    (∃ h, hash sh c.raw (byteSize c.raw.elem * i) = some h) ∧
    (c.norm i = c.norm j → hash sh c.raw (byteSize c.raw.elem * i) = hash sh c.raw (byteSize c.raw.elem * j)) := by
  have hint : ∀ {w n : Nat} (hw : 2 ^ w = 256 ^ n) (xs : List (BitVec w)) (e : Elem) (hi : i < xs.length) (hj : j < xs.length),
      (∃ h, hashNum ⟨e, xs.flatMap fun x => leBytes n x.toNat, []⟩ n (n * i) = some h) ∧
      (ofInts xs i = ofInts xs j → hashNum ⟨e, xs.flatMap fun x => leBytes n x.toNat, []⟩ n (n * i) = hashNum ⟨e, xs.flatMap fun x => leBytes n x.toNat, []⟩ n (n * j)) := by
    intro w n hw xs e hi hj
    obtain ⟨z, h1, h2⟩ := ints_hash hw xs e i hi
    obtain ⟨z', h1', h2'⟩ := ints_hash hw xs e j hj
    refine ⟨⟨_, h2⟩, ?_⟩
    intro h
    rw [h1, h1'] at h
    cases h
    rw [h2, h2']
  cases c with
  | i8 xs => exact hint (by decide) xs .w8 hi hj
  | i16 xs => exact hint (by decide) xs .w16 hi hj
  | i32 xs => exact hint (by decide) xs .w32 hi hj
  | i64 xs => exact hint (by decide) xs .w64 hi hj
  | f32 xs => exact fls_hash_ok (F := Verif.Gen.Flt.f32) (by decide) xs hc .f32 i j hi hj
  | f64 xs => exact fls_hash_ok (F := Verif.Gen.Flt.f64) (by decide) xs hc .f64 i j hi hj
  | strs xs =>
    obtain ⟨x, hx⟩ := get_of_lt (xs := xs) hi
    obtain ⟨y, hy⟩ := get_of_lt (xs := xs) hj
    have ex : ofStrs xs i = .str x := by unfold ofStrs; rw [hx]
    have ey : ofStrs xs j = .str y := by unfold ofStrs; rw [hy]
    simp only [hash, Column.raw, byteSize, Column.norm, ex, ey]
    rw [Nat.mul_div_cancel_left _ (by decide), Nat.mul_div_cancel_left _ (by decide), hx, hy]
    simp only [Option.map_some, Norm.str.injEq]
    exact ⟨⟨_, rfl⟩, fun h => by rw [h]⟩
  | bools xs => exact hc.elim

/-- Columns with `n` rows that the code treats rightly. -/
def Cols (cols : List Column) (n : Nat) : Prop := ∀ c ∈ cols, c.Fine ∧ c.length = n

def normKey (cols : List Column) (i : Nat) : List Norm := cols.map fun c => c.norm i

theorem key_equal (cols : List Column) (n : Nat) (hc : Cols cols n) (i j : Nat) (hi : i < n) (hj : j < n) :
    keyEqual (cols.map Column.raw) (rowKey (cols.map Column.raw) i) (rowKey (cols.map Column.raw) j) = some (decide (normKey cols i = normKey cols j)) := by
  induction cols with
  | nil => simp [rowKey, keyEqual, normKey]
  | cons c cs ih =>
    obtain ⟨hf, hl⟩ := hc c (by simp)
    have := ih (fun d hd => hc d (by simp [hd]))
    simp only [rowKey, List.map_cons, keyEqual, normKey] at this ⊢
    rw [col_equal c hf i j (by omega) (by omega)]
    simp only [Option.bind_some, decide_eq_true_eq, List.cons.injEq]
    by_cases h : c.norm i = c.norm j
    · rw [if_pos h, this]
      simp [h]
    · rw [if_neg h]
      simp [h]

theorem more_hash (cols : List Column) (n : Nat) (hc : Cols cols n) (h0 : BitVec 64) (i j : Nat) (hi : i < n) (hj : j < n) :
    (∃ h, hashMore sh h0 (cols.map Column.raw) (rowKey (cols.map Column.raw) i) = some h) ∧
    (normKey cols i = normKey cols j →
      hashMore sh h0 (cols.map Column.raw) (rowKey (cols.map Column.raw) i) = hashMore sh h0 (cols.map Column.raw) (rowKey (cols.map Column.raw) j)) := by
  induction cols generalizing h0 with
  | nil => exact ⟨⟨h0, rfl⟩, fun _ => rfl⟩
  | cons c cs ih =>
    obtain ⟨hf, hl⟩ := hc c (by simp)
    obtain ⟨⟨x, hx⟩, hs⟩ := col_hash sh c hf i j (by omega) (by omega)
    obtain ⟨hx1, hx2⟩ := ih (fun d hd => hc d (by simp [hd])) (h0 ^^^ x)
    simp only [rowKey, List.map_cons, hashMore, normKey, List.cons.injEq] at hx1 hx2 ⊢
    refine ⟨by rw [hx]; exact hx1, ?_⟩
    intro h
    rw [← hs h.1, hx]
    exact hx2 h.2

/-- Keys that compare equal have the same hash. -/
theorem key_hash (cols : List Column) (n : Nat) (hne : cols ≠ []) (hc : Cols cols n) (i j : Nat) (hi : i < n) (hj : j < n) :
    (∃ h, keyHash sh (cols.map Column.raw) (rowKey (cols.map Column.raw) i) = some h) ∧
    (normKey cols i = normKey cols j →
      keyHash sh (cols.map Column.raw) (rowKey (cols.map Column.raw) i) = keyHash sh (cols.map Column.raw) (rowKey (cols.map Column.raw) j)) := by
  cases cols with
  | nil => exact absurd rfl hne
  | cons c cs =>
    obtain ⟨hf, hl⟩ := hc c (by simp)
    obtain ⟨⟨x, hx⟩, hs⟩ := col_hash sh c hf i j (by omega) (by omega)
    obtain ⟨hx1, hx2⟩ := more_hash sh cs n (fun d hd => hc d (by simp [hd])) x i j hi hj
    simp only [rowKey, List.map_cons, keyHash, normKey, List.cons.injEq] at hx1 hx2 ⊢
    refine ⟨by rw [hx]; exact hx1, ?_⟩
    intro h
    rw [← hs h.1, hx]
    exact hx2 h.2

/-- The entries are keys of rows. -/
def Reps (cols : List Column) (n : Nat) (es : List (List Nat × Nat)) : Prop := ∀ e ∈ es, e.2 < n ∧ e.1 = rowKey (cols.map Column.raw) e.2

/-- The entries with their values instead of places. -/
def normReps (cols : List Column) (es : List (List Nat × Nat)) : List (List Norm × Nat) := es.map fun e => (normKey cols e.2, e.2)

theorem lookup_ok (cols : List Column) (n : Nat) (hne : cols ≠ []) (hc : Cols cols n) (i : Nat) (hi : i < n) (h : BitVec 64)
    (hh : keyHash sh (cols.map Column.raw) (rowKey (cols.map Column.raw) i) = some h) (es : List (List Nat × Nat)) (hr : Reps cols n es) :
    lookup sh (cols.map Column.raw) (rowKey (cols.map Column.raw) i) h es = some (((normReps cols es).find? fun e => e.1 = normKey cols i).map (·.2)) := by
  induction es with
  | nil => rfl
  | cons e es ih =>
    obtain ⟨he, hk⟩ := hr e (by simp)
    have := ih (fun d hd => hr d (by simp [hd]))
    obtain ⟨⟨h', hh'⟩, hs⟩ := key_hash sh cols n hne hc e.2 i he hi
    simp only [lookup, normReps, List.map_cons, List.find?_cons] at this ⊢
    rw [hk, hh', key_equal cols n hc e.2 i he hi]
    simp only [Option.bind_some, decide_eq_true_eq]
    by_cases hn : normKey cols e.2 = normKey cols i
    · have : h' = h := by
        have := hs hn
        rw [hh', hh] at this
        exact Option.some.inj this
      rw [if_pos this, if_pos hn]
      simp [hn]
    · rw [if_neg hn, this]
      simp [hn]

theorem step_ok (cols : List Column) (n : Nat) (hne : cols ≠ []) (hc : Cols cols n) (i : Nat) (hi : i < n) (st : DistinctState (List Nat)) (hr : Reps cols n st.reps) :
    ∃ st', keyStep sh (cols.map Column.raw) st i = some st' ∧ Reps cols n st'.reps ∧
      distinctStep ⟨normReps cols st.reps, st.table⟩ i (normKey cols i) = ⟨normReps cols st'.reps, st'.table⟩ := by
  obtain ⟨⟨h, hh⟩, _⟩ := key_hash sh cols n hne hc i i hi hi
  unfold keyStep distinctStep
  rw [hh]
  simp only [Option.bind_some]
  rw [lookup_ok sh cols n hne hc i hi h hh st.reps hr]
  simp only [Option.map_some]
  cases hf : (normReps cols st.reps).find? fun e => decide (e.1 = normKey cols i) with
  | none =>
    refine ⟨_, rfl, ?_, ?_⟩
    · intro e he
      simp only [Option.map_none, List.mem_append, List.mem_singleton] at he
      rcases he with he | rfl
      · exact hr e he
      · exact ⟨hi, rfl⟩
    · simp [normReps]
  | some e =>
    exact ⟨_, rfl, hr, rfl⟩

theorem loop_ok (cols : List Column) (n : Nat) (hne : cols ≠ []) (hc : Cols cols n) (k i : Nat) (hi : i + k = n) (st : DistinctState (List Nat)) (hr : Reps cols n st.reps) :
    ∃ st', keyLoop sh (cols.map Column.raw) st i k = some st' ∧
      (distinctLoop ⟨normReps cols st.reps, st.table⟩ i ((List.range' i k).map (normKey cols))).table = st'.table := by
  induction k generalizing i st with
  | zero => exact ⟨st, rfl, rfl⟩
  | succ k ih =>
    obtain ⟨st1, h1, h2, h3⟩ := step_ok sh cols n hne hc i (by omega) st hr
    obtain ⟨st2, h4, h5⟩ := ih (i + 1) (by omega) st1 h2
    refine ⟨st2, by rw [keyLoop, h1]; exact h4, ?_⟩
    rw [List.range'_succ, List.map_cons, distinctLoop, h3]
    exact h5
end

theorem norm_same (c : Column) (hc : c.Fine) (i j : Nat) (hi : i < c.length) (hj : j < c.length) : c.norm i = c.norm j ↔ c.same i j := by
  have hint : ∀ {w : Nat} (xs : List (BitVec w)) (hi : i < xs.length) (hj : j < xs.length), ofInts xs i = ofInts xs j ↔ xs[i]? = xs[j]? := by
    intro w xs hi hj
    obtain ⟨x, hx⟩ := get_of_lt hi
    obtain ⟨y, hy⟩ := get_of_lt hj
    unfold ofInts
    rw [hx, hy]
    simp only [Norm.num.injEq, Option.some.injEq]
    rw [← BitVec.toNat_inj]
    omega
  have hfl : ∀ {F : Fmt} (xs : List (Fl F)) (hr : ∀ x ∈ xs, InRange x) (hi : i < xs.length) (hj : j < xs.length), ofFls xs i = ofFls xs j ↔ sameNumber xs i j := by
    intro F xs hr hi hj
    obtain ⟨x, hx⟩ := get_of_lt hi
    obtain ⟨y, hy⟩ := get_of_lt hj
    unfold ofFls sameNumber
    rw [hx, hy]
    simp only [Norm.num.injEq, key_eq]
    constructor
    · intro h
      exact ⟨x, y, rfl, rfl, inRange_num (hr x (List.mem_of_getElem? hx)), inRange_num (hr y (List.mem_of_getElem? hy)), h⟩
    · rintro ⟨a, b, ha, hb, _, _, h⟩
      cases ha
      cases hb
      exact h
  cases c with
  | i8 xs => exact hint xs hi hj
  | i16 xs => exact hint xs hi hj
  | i32 xs => exact hint xs hi hj
  | i64 xs => exact hint xs hi hj
  | f32 xs => exact hfl xs hc hi hj
  | f64 xs => exact hfl xs hc hi hj
  | strs xs =>
    obtain ⟨x, hx⟩ := get_of_lt (xs := xs) hi
    obtain ⟨y, hy⟩ := get_of_lt (xs := xs) hj
    simp only [Column.norm, Column.same, ofStrs, hx, hy, Norm.str.injEq, Option.some.injEq]
  | bools xs => exact hc.elim

theorem normKey_same (cols : List Column) (n : Nat) (hc : Cols cols n) (i j : Nat) (hi : i < n) (hj : j < n) :
    normKey cols i = normKey cols j ↔ ∀ c ∈ cols, c.same i j := by
  unfold normKey
  rw [List.map_inj_left]
  constructor
  · intro h c hm
    obtain ⟨hf, hl⟩ := hc c hm
    exact (norm_same c hf i j (by omega) (by omega)).1 (h c hm)
  · intro h c hm
    obtain ⟨hf, hl⟩ := hc c hm
    exact (norm_same c hf i j (by omega) (by omega)).2 (h c hm)

/-! ## Property -/

/-- **C176**, the part that holds. Grouping by columns of integers, strings and floating point numbers above -1 and below 2^64 makes one table for each combination of values: two rows are in
one table exactly if they have the same value in every column. Missing: booleans, other floating point numbers, and no columns at all, for which it is false. -/
theorem grouped_by_values_partial {P : Type} (null : P) (N : Nat) (hN : 0 < N) (sh : List Byte → BitVec 64) (iter : List (Nat × List Nat) → List (Nat × List Nat))
    (hi : ∀ m, (iter m).Perm m) (t : Table P) (ha : Aligned t) (cols : List Column) (hne : cols ≠ []) (hl : ∀ c ∈ cols, c.length = count t) (hf : ∀ c ∈ cols, c.Fine) :
    ∃ gs, groupBy null N sh iter t (cols.map Column.raw) = some (gs.map (pick t)) ∧ IsGroupingBy (fun i j => ∀ c ∈ cols, c.same i j) (count t) gs := by
  have hc : Cols cols (count t) := fun c hm => ⟨hf c hm, hl c hm⟩
  obtain ⟨st, h1, h2⟩ := loop_ok sh cols (count t) hne hc (count t) 0 (by omega) ⟨[], []⟩ (fun e he => absurd he List.not_mem_nil)
  obtain ⟨gs, g1, g2⟩ := group_by_columns null N hN iter hi t ha ((List.range' 0 (count t)).map (normKey cols)) (by simp)
  refine ⟨gs, ?_, ?_⟩
  · unfold groupByColumns at g1
    have e : (⟨normReps cols [], []⟩ : DistinctState (List Norm)) = ⟨[], []⟩ := rfl
    simp only [e] at h2
    rw [h2] at g1
    unfold groupBy
    rw [h1]
    exact g1
  · obtain ⟨a1, a2, a3, a4⟩ := g2
    have hlen : ((List.range' 0 (count t)).map (normKey cols)).length = count t := by simp
    have hk : ∀ i, i < count t → ((List.range' 0 (count t)).map (normKey cols))[i]? = some (normKey cols i) := by
      intro i hi
      simp [List.getElem?_range', hi]
    rw [hlen] at a2
    have hlt : ∀ g ∈ gs, ∀ i ∈ g, i < count t := fun g hg i him => List.mem_range.1 (a2.mem_iff.1 (List.mem_flatten.2 ⟨g, hg, him⟩))
    refine ⟨a1, a2, ?_, ?_⟩
    · intro g hg i him j hjm
      have := a3 g hg i him j hjm
      rw [hk i (hlt g hg i him), hk j (hlt g hg j hjm)] at this
      exact (normKey_same cols _ hc i j (hlt g hg i him) (hlt g hg j hjm)).1 (Option.some.inj this)
    · refine List.Pairwise.imp_of_mem ?_ a4
      intro g h hg hh hd i him j hjm hsame
      apply hd i him j hjm
      rw [hk i (hlt g hg i him), hk j (hlt h hh j hjm), (normKey_same cols _ hc i j (hlt g hg i him) (hlt h hh j hjm)).2 hsame]

theorem bools_lookup (sh : List Byte → BitVec 64) (xs : List Bool) (key : List Nat) (k : Nat) (hk : key = [k]) (es : List (List Nat × Nat)) (he : ∀ e ∈ es, ∃ a, e.1 = [a]) :
    lookup sh [(Column.bools xs).raw] key 0 es = some none := by
  induction es with
  | nil => rfl
  | cons e es ih =>
    obtain ⟨a, ha⟩ := he e (by simp)
    rw [lookup, ih (fun d hd => he d (by simp [hd])), ha, hk]
    rfl

theorem bools_loop (sh : List Byte → BitVec 64) (xs : List Bool) (n i : Nat) (st : DistinctState (List Nat)) (he : ∀ e ∈ st.reps, ∃ a, e.1 = [a]) :
    ∃ st', keyLoop sh [(Column.bools xs).raw] st i n = some st' ∧ st'.table = st.table ++ (List.range' i n).map fun i => (i, []) := by
  induction n generalizing i st with
  | zero => exact ⟨st, rfl, by simp⟩
  | succ n ih =>
    have hs : keyStep sh [(Column.bools xs).raw] st i = some ⟨st.reps ++ [([1 * i], i)], st.table ++ [(i, [])]⟩ := by
      unfold keyStep
      have : keyHash sh [(Column.bools xs).raw] (rowKey [(Column.bools xs).raw] i) = some 0 := rfl
      rw [this]
      simp only [Option.bind_some]
      rw [bools_lookup sh xs (rowKey [(Column.bools xs).raw] i) (1 * i) rfl st.reps he]
      rfl
    obtain ⟨st', h1, h2⟩ := ih (i + 1) (st := ⟨st.reps ++ [([1 * i], i)], st.table ++ [(i, [])]⟩) (by
      intro e hm
      simp only [List.mem_append, List.mem_singleton] at hm
      rcases hm with hm | rfl
      · exact he e hm
      · exact ⟨_, rfl⟩)
    refine ⟨st', by rw [keyLoop, hs]; exact h1, ?_⟩
    rw [h2, List.range'_succ]
    simp

/-- Grouping by a column of booleans makes a table for every row, whatever the values: with three rows, two of which have the same value, this is not a grouping by values. -/
theorem boolean_column_violated {P : Type} (null : P) (N : Nat) (hN : 0 < N) (sh : List Byte → BitVec 64) (iter : List (Nat × List Nat) → List (Nat × List Nat))
    (hi : ∀ m, (iter m).Perm m) (t : Table P) (ha : Aligned t) (xs : List Bool) (hl : xs.length = count t) :
    (∃ gs : List (List Nat), groupBy null N sh iter t [(Column.bools xs).raw] = some (gs.map (pick t)) ∧ gs.Perm ((List.range (count t)).map fun i => [i])) ∧
    (3 ≤ count t → ∀ gs : List (List Nat), gs.Perm ((List.range (count t)).map fun i => [i]) → ¬ IsGroupingBy (fun i j => ∀ c ∈ [Column.bools xs], c.same i j) (count t) gs) := by
  constructor
  · obtain ⟨st, h1, h2⟩ := bools_loop sh xs (count t) 0 ⟨[], []⟩ (by intro e he; cases he)
    simp only [List.nil_append] at h2
    have hp : ((iter st.table).map fun e => e.2 ++ [e.1]).Perm ((List.range (count t)).map fun i => [i]) := by
      refine ((hi _).map _).trans (List.Perm.of_eq ?_)
      rw [h2, List.map_map, List.range_eq_range']
      rfl
    refine ⟨_, ?_, hp⟩
    unfold groupBy
    rw [h1]
    simp only [Option.bind_some]
    rw [gatherAll_ok null N hN t ha]
    intro g hg i him
    have := hp.mem_iff.1 hg
    simp only [List.mem_map, List.mem_range] at this
    obtain ⟨k, hk, rfl⟩ := this
    simp at him
    omega
  · intro h3 gs hp ⟨_, _, _, h4⟩
    have key : ∃ i j, i < 3 ∧ j < 3 ∧ i ≠ j ∧ xs[i]? = xs[j]? := by
      match xs, (show 3 ≤ xs.length by omega) with
      | a :: b :: c :: _, _ =>
        cases a <;> cases b <;> cases c <;> first
          | exact ⟨0, 1, by decide, by decide, by decide, rfl⟩
          | exact ⟨0, 2, by decide, by decide, by decide, rfl⟩
          | exact ⟨1, 2, by decide, by decide, by decide, rfl⟩
    obtain ⟨i, j, hi3, hj3, hij, he⟩ := key
    have hi' : [i] ∈ gs := hp.mem_iff.2 (List.mem_map.2 ⟨i, List.mem_range.2 (by omega), rfl⟩)
    have hj' : [j] ∈ gs := hp.mem_iff.2 (List.mem_map.2 ⟨j, List.mem_range.2 (by omega), rfl⟩)
    obtain ⟨p, hp1, hp2⟩ := List.getElem_of_mem hi'
    obtain ⟨q, hq1, hq2⟩ := List.getElem_of_mem hj'
    rw [List.pairwise_iff_getElem] at h4
    have hpq : p ≠ q := by
      intro e
      subst e
      rw [hp2] at hq2
      simp at hq2
      exact hij hq2
    rcases Nat.lt_or_gt_of_ne hpq with h | h
    · exact h4 p q hp1 hq1 h i (by rw [hp2]; simp) j (by rw [hq2]; simp) (by intro c hc; simp at hc; subst hc; exact he)
    · exact h4 q p hq1 hp1 h j (by rw [hq2]; simp) i (by rw [hp2]; simp) (by intro c hc; simp at hc; subst hc; exact he.symm)

/-- Grouping by a column with a number of at most -1, or a NaN, or an infinity, in the first row is undefined, whatever the rest. -/
theorem negative_number_violated {P : Type} (null : P) (N : Nat) (sh : List Byte → BitVec 64) (iter : List (Nat × List Nat) → List (Nat × List Nat))
    (t : Table P) (x : Fl f64) (xs : List (Fl f64)) (cols : List Column) (hl : xs.length + 1 = count t) (hx : f64.inf ≤ x.mag ∨ x.value ≤ -(f64.one : Int)) :
    groupBy null N sh iter t ((Column.f64 (x :: xs) :: cols).map Column.raw) = none := by
  have hn : toInt false 64 x = none := by
    rw [float_to_int_violated]
    rcases hx with h | h
    · exact .inl h
    · right
      intro r hr hf
      have ho : (0 : Int) < f64.one := by have : 0 < f64.one := Nat.two_pow_pos _; omega
      unfold Truncated at hr
      unfold Fits at hf
      simp only [Bool.false_eq_true, if_false] at hf
      obtain ⟨a, b⟩ := hr.2 (by omega)
      have := Int.lt_of_mul_lt_mul_right (b := r - 1) (c := -1) (a := (f64.one : Int)) (by omega) (by omega)
      omega
  have hh := fls_hash (F := Verif.Gen.Flt.f64) (n := 8) (by decide) (x :: xs) .f64 0 x rfl
  rw [hn] at hh
  have hk : keyHash sh ((Column.f64 (x :: xs) :: cols).map Column.raw) (rowKey ((Column.f64 (x :: xs) :: cols).map Column.raw) 0) = none := by
    simp only [List.map_cons, rowKey, keyHash]
    rw [show hash sh (Column.f64 (x :: xs)).raw (byteSize (Column.f64 (x :: xs)).raw.elem * 0) = none from hh]
    rfl
  unfold groupBy
  rw [← hl, keyLoop, keyStep, hk]
  rfl

/-- Grouping rows by no columns is undefined. -/
theorem no_columns_violated {P : Type} (null : P) (N : Nat) (sh : List Byte → BitVec 64) (iter : List (Nat × List Nat) → List (Nat × List Nat)) (t : Table P) (h : count t ≠ 0) :
    groupBy null N sh iter t [] = none := by
  unfold groupBy
  obtain ⟨n, hn⟩ := Nat.exists_eq_succ_of_ne_zero h
  rw [hn]
  rfl

/-- Two columns that meet the hypotheses: the numbers 0, -0, 1.5 and the strings "a", "a", "b" of a table with three rows. -/
example : ∀ c ∈ [Column.f64 [⟨false, 0, by decide⟩, ⟨true, 0, by decide⟩, ⟨false, 0x3FF8000000000000, by decide⟩], Column.strs [[97], [97], [98]]],
    c.length = count [(⟨0, ["p", "q", "r"]⟩ : Group String)] ∧ c.Fine := by
  intro c hc
  simp only [List.mem_cons, List.not_mem_nil, or_false] at hc
  rcases hc with rfl | rfl
  · refine ⟨rfl, ?_⟩
    intro x hx
    simp only [List.mem_cons, List.not_mem_nil, or_false] at hx
    rcases hx with rfl | rfl | rfl <;> unfold InRange <;> decide +kernel
  · exact ⟨rfl, trivial⟩

end Verif.Tbl.KeyBytes
