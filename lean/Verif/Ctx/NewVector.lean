/-!
# Vectors made from `std::vector` objects: C167

`Context::NewVector`, `/repo/rapidudf/context/context.h` 104–149 (numbers with and without `clone`; booleans); `Vector::operator[]`, `Vector::Set`, `MutableData`:
`/repo/rapidudf/types/vector.h` 84–99, 168–205; `bit_set`, `bit_clear`: `/repo/rapidudf/types/bit.h` 44–45.

Memory is a function from addresses to bytes. An element takes `s` bytes. The arena gives memory that nothing else uses (C07); the address is part of the history. `std::vector` objects keep
their size and place (an assignment that moves their elements makes vectors that share them invalid; that is C++'s rule, not modelled here).
-/
namespace Verif.Ctx.NewVec

abbrev Byte := BitVec 8
/-- The bytes of an element. -/
abbrev Elem := List Byte

/-! ## Specification: lists of elements -/

/-- What a vector shows: the elements of a `std::vector`, or elements of its own. -/
inductive View where
  | shared (k : Nat)
  | own (l : List Elem)

/-- The `std::vector` objects, and the vectors made so far, each with the permission to write. -/
structure World where
  vecs : List (List Elem)
  views : List (View × Bool)

/-- What happens: a vector is made from `std::vector` number `k` (at address `p` if it is a copy), an element of a `std::vector` is assigned, an element of vector `j` is set. -/
inductive Op where
  | make (k : Nat) (clone readonly : Bool) (p : Nat)
  | assign (k i : Nat) (v : Elem)
  | set (j i : Nat) (v : Elem)

inductive Ans where
  | done
  | error
  | undefined
  deriving DecidableEq

def View.elems (w : World) : View → Option (List Elem)
  | .shared k => w.vecs[k]?
  | .own l => some l

/-- The elements of vector `j`. -/
def World.shows (w : World) (j : Nat) : Option (List Elem) := (w.views[j]?).bind fun x => x.1.elems w

/-- A copy has its own elements and may be written; otherwise elements are shared. Setting an element outside, or of a vector that must not be written, is an error. `none`: there is no such
`std::vector`, vector or element. -/
def World.act (w : World) : Op → Option (Ans × World)
  | .make k clone readonly _ => (w.vecs[k]?).map fun l => (.done, { w with views := w.views ++ [if clone = true then (.own l, true) else (.shared k, !readonly)] })
  | .assign k i v => (w.vecs[k]?).bind fun l => if i < l.length then some (.done, { w with vecs := w.vecs.set k (l.set i v) }) else none
  | .set j i v => (w.views[j]?).bind fun x => (x.1.elems w).map fun l =>
    if i < l.length ∧ x.2 = true then (match x.1 with
      | .shared k => (.done, { w with vecs := w.vecs.set k (l.set i v) })
      | .own _ => (.done, { w with views := w.views.set j (.own (l.set i v), x.2) }))
    else (.error, w)

/-! ## Model -/

/-- The header of a vector (VectorBase, vector.h 124–135), or the place of a `std::vector`. -/
structure Hdr where
  data : Nat
  size : Nat
  writable : Bool

structure St where
  mem : Nat → Byte
  vecs : List Hdr
  views : List Hdr
  /-- memory in use: start and length -/
  used : List (Nat × Nat)

def store (mem : Nat → Byte) (a : Nat) (v : List Byte) : Nat → Byte := fun x => if a ≤ x ∧ x < a + v.length then v.getD (x - a) 0 else mem x
def load (mem : Nat → Byte) (a n : Nat) : List Byte := (List.range n).map fun i => mem (a + i)
/-- `memcpy(p, q, n)` on ranges that do not overlap. -/
def memcpy (mem : Nat → Byte) (p q n : Nat) : Nat → Byte := fun x => if p ≤ x ∧ x < p + n then mem (q + (x - p)) else mem x

/-- `operator[]`, vector.h 168–178: `Data()[idx]`. -/
def elem (s : Nat) (mem : Nat → Byte) (h : Hdr) (i : Nat) : Elem := load mem (h.data + s * i) s
def elems (s : Nat) (mem : Nat → Byte) (h : Hdr) : List Elem := (List.range h.size).map (elem s mem h)

/-- The size field has 30 bits, vector.h 126. -/
def header (data size : Nat) (readonly : Bool) : Hdr := ⟨data, size % 2 ^ 30, !readonly⟩

/-- Nothing in use overlaps the range. -/
def free (used : List (Nat × Nat)) (p n : Nat) : Bool := used.all fun r => decide (p + n ≤ r.1 ∨ r.1 + r.2 ≤ p)

/-- One call. `none`: there is no such object, or the arena gives no such memory. -/
def step (s : Nat) (st : St) : Op → Option (Ans × St)
  | .make k clone readonly p => (st.vecs[k]?).bind fun d =>
    if clone = true then
      if free st.used p (d.size * s) = true then
        some (.done, { st with mem := memcpy st.mem p d.data (d.size * s), views := st.views ++ [header p d.size false], used := (p, d.size * s) :: st.used })
      else none
    else some (.done, { st with views := st.views ++ [header d.data d.size readonly] })
  | .assign k i v => (st.vecs[k]?).bind fun d => if i < d.size then some (.done, { st with mem := store st.mem (d.data + s * i) v }) else none
  | .set j i v => (st.views[j]?).map fun h =>
    if h.size ≤ i then (.error, st)
    else if h.writable = false then (.undefined, st)  -- `MutableData()` is the null pointer
    else (.done, { st with mem := store st.mem (h.data + s * i) v })

/-! ### Booleans -/

/-- The loop of `NewVector(const std::vector<bool>&)`, context.h 120–130, from index `i` on. -/
def boolLoop (p : Nat) : Nat → List Bool → (Nat → Byte) → (Nat → Byte)
  | _, [], mem => mem
  | i, b :: bs, mem => boolLoop p (i + 1) bs fun x => if x = p + i / 8 then (if b = true then mem x ||| (1#8 <<< (i % 8)) else mem x &&& ~~~(1#8 <<< (i % 8))) else mem x

/-- `Vector<Bit>::operator[]`, vector.h 169–174. -/
def bitAt (mem : Nat → Byte) (p i : Nat) : Bool := decide (((mem (p + i / 8)) >>> (i % 8)) &&& 1#8 > 0#8)

/-! ## Lemmas -/

theorem load_eq {mem mem' : Nat → Byte} {a n : Nat} (h : ∀ i < n, mem (a + i) = mem' (a + i)) : load mem a n = load mem' a n := by
  unfold load
  apply List.map_congr_left
  intro i hi
  exact h i (List.mem_range.1 hi)

theorem load_store_same (mem : Nat → Byte) (a : Nat) (v : List Byte) : load (store mem a v) a v.length = v := by
  apply List.ext_getElem
  · simp [load]
  · intro i h1 h2
    simp only [load, List.getElem_map, List.getElem_range, store]
    rw [if_pos (by omega), show a + i - a = i by omega, List.getD_eq_getElem?_getD, List.getElem?_eq_getElem h2]
    rfl

theorem load_store_apart (mem : Nat → Byte) (a b n : Nat) (v : List Byte) (h : b + n ≤ a ∨ a + v.length ≤ b) : load (store mem a v) b n = load mem b n :=
  load_eq fun i hi => by simp only [store]; rw [if_neg (by omega)]

theorem load_copy_apart (mem : Nat → Byte) (p q m b n : Nat) (h : b + n ≤ p ∨ p + m ≤ b) : load (memcpy mem p q m) b n = load mem b n :=
  load_eq fun i hi => by simp only [memcpy]; rw [if_neg (by omega)]

theorem load_copy_in (mem : Nat → Byte) (p q m o n : Nat) (h : o + n ≤ m) : load (memcpy mem p q m) (p + o) n = load mem (q + o) n := by
  unfold load
  apply List.map_congr_left
  intro i hi
  have := List.mem_range.1 hi
  simp only [memcpy]
  rw [if_pos (by omega), show q + (p + o + i - p) = q + o + i by omega]

theorem elem_inside {s n i : Nat} (h : i < n) : s * i + s ≤ n * s := by
  have := Nat.mul_le_mul_left s (show i + 1 ≤ n from h)
  rw [Nat.mul_add, Nat.mul_one, Nat.mul_comm s n] at this
  exact this

theorem elems_copy_apart {s : Nat} (mem : Nat → Byte) (p q m : Nat) (h : Hdr) (hd : h.data + h.size * s ≤ p ∨ p + m ≤ h.data) : elems s (memcpy mem p q m) h = elems s mem h := by
  unfold elems
  apply List.map_congr_left
  intro i hi
  have := elem_inside (s := s) (List.mem_range.1 hi)
  exact load_copy_apart _ _ _ _ _ _ (by omega)

theorem elems_store_apart {s : Nat} (mem : Nat → Byte) (a : Nat) (v : List Byte) (h : Hdr) (hd : h.data + h.size * s ≤ a ∨ a + v.length ≤ h.data) : elems s (store mem a v) h = elems s mem h := by
  unfold elems
  apply List.map_congr_left
  intro i hi
  have := elem_inside (s := s) (List.mem_range.1 hi)
  exact load_store_apart _ _ _ _ _ (by omega)

theorem elems_store_same {s : Nat} (mem : Nat → Byte) (h : Hdr) (i : Nat) (hi : i < h.size) (v : List Byte) (hv : v.length = s) :
    elems s (store mem (h.data + s * i) v) h = (elems s mem h).set i v := by
  apply List.ext_getElem
  · simp [elems]
  · intro j h1 h2
    have hj : j < h.size := by simpa [elems] using h1
    rw [List.getElem_set]
    simp only [elems, List.getElem_map, List.getElem_range]
    split
    · next e => subst e; subst hv; exact load_store_same _ _ _
    · next e =>
      apply load_store_apart
      rcases Nat.lt_or_gt_of_ne e with h | h
      · have := Nat.mul_le_mul_left s (show i + 1 ≤ j from h)
        rw [Nat.mul_add, Nat.mul_one] at this
        omega
      · have := Nat.mul_le_mul_left s (show j + 1 ≤ i from h)
        rw [Nat.mul_add, Nat.mul_one] at this
        omega

theorem elems_copy_in {s : Nat} (mem : Nat → Byte) (p : Nat) (d : Hdr) (b : Bool) : elems s (memcpy mem p d.data (d.size * s)) ⟨p, d.size, b⟩ = elems s mem d := by
  unfold elems
  apply List.map_congr_left
  intro i hi
  exact load_copy_in _ _ _ _ _ _ (elem_inside (s := s) (List.mem_range.1 hi))

/-- The ranges of two objects do not overlap. -/
def Apart (s : Nat) (h h' : Hdr) : Prop := h.data + h.size * s ≤ h'.data ∨ h'.data + h'.size * s ≤ h.data

theorem Apart.symm {s : Nat} {h h' : Hdr} (a : Apart s h h') : Apart s h' h := Or.symm a

/-- At the beginning: some `std::vector` objects with ranges of their own, and no vectors. -/
structure Start (s : Nat) (st : St) : Prop where
  none : st.views = []
  small : ∀ (k : Nat) (d : Hdr), st.vecs[k]? = some d → d.size < 2 ^ 30
  used : ∀ (k : Nat) (d : Hdr), st.vecs[k]? = some d → (d.data, d.size * s) ∈ st.used
  apart : ∀ (k k' : Nat) (d d' : Hdr), k ≠ k' → st.vecs[k]? = some d → st.vecs[k']? = some d' → Apart s d d'

/-- The elements assigned and set have the size of elements. -/
def Op.Sized (s : Nat) : Op → Prop
  | .make .. => True
  | .assign _ _ v => v.length = s
  | .set _ _ v => v.length = s

/-- The calls in order; after an undefined one nothing is said. -/
def run (s : Nat) (st : St) : List Op → Option (List Ans × St)
  | [] => some ([], st)
  | o :: os => (step s st o).bind fun r => if r.1 = .undefined then some ([.undefined], r.2) else (run s r.2 os).map fun q => (r.1 :: q.1, q.2)

def World.run (w : World) : List Op → Option (List Ans × World)
  | [] => some ([], w)
  | o :: os => (w.act o).bind fun r => (World.run r.2 os).map fun q => (r.1 :: q.1, q.2)

/-- The elements of the `std::vector` objects, read from memory; no vectors. -/
def worldOf (s : Nat) (st : St) : World := ⟨st.vecs.map (elems s st.mem), []⟩

/-- What vector `j` shows for the header and the world. -/
def ViewOk (s : Nat) (st : St) (w : World) (j : Nat) (h : Hdr) (x : View × Bool) : Prop :=
  h.writable = x.2 ∧ match x.1 with
    | .shared k => ∃ d, st.vecs[k]? = some d ∧ d.data = h.data ∧ d.size = h.size
    | .own l => l = elems s st.mem h ∧ (h.data, h.size * s) ∈ st.used ∧ (∀ (k : Nat) (d : Hdr), st.vecs[k]? = some d → Apart s h d) ∧
      ∀ (j' : Nat) (h' : Hdr) (l' : List Elem) (b' : Bool), j' ≠ j → st.views[j']? = some h' → w.views[j']? = some (.own l', b') → Apart s h h'

structure Inv (s : Nat) (st : St) (w : World) : Prop where
  vecs : w.vecs = st.vecs.map (elems s st.mem)
  small : ∀ (k : Nat) (d : Hdr), st.vecs[k]? = some d → d.size < 2 ^ 30
  used : ∀ (k : Nat) (d : Hdr), st.vecs[k]? = some d → (d.data, d.size * s) ∈ st.used
  apart : ∀ (k k' : Nat) (d d' : Hdr), k ≠ k' → st.vecs[k]? = some d → st.vecs[k']? = some d' → Apart s d d'
  len : st.views.length = w.views.length
  view : ∀ (j : Nat) (h : Hdr) (x : View × Bool), st.views[j]? = some h → w.views[j]? = some x → ViewOk s st w j h x

theorem Start.inv {s : Nat} {st : St} (h : Start s st) : Inv s st (worldOf s st) :=
  ⟨rfl, h.small, h.used, h.apart, by rw [h.none]; rfl, fun j hd x e => by rw [h.none] at e; cases e⟩

theorem elems_length (s : Nat) (mem : Nat → Byte) (h : Hdr) : (elems s mem h).length = h.size := by simp [elems]

theorem elems_eq {s : Nat} {mem : Nat → Byte} {h d : Hdr} (e1 : d.data = h.data) (e2 : d.size = h.size) : elems s mem d = elems s mem h := by
  unfold elems elem
  rw [e1, e2]

theorem free_apart {used : List (Nat × Nat)} {p n a m : Nat} (hf : free used p n = true) (hu : (a, m) ∈ used) : p + n ≤ a ∨ a + m ≤ p :=
  of_decide_eq_true (List.all_eq_true.1 hf _ hu)

/-- Writing one element of `std::vector` `k`. -/
theorem inv_vec {s : Nat} {st : St} {w : World} (I : Inv s st w) {k i : Nat} {d : Hdr} (hd : st.vecs[k]? = some d) (hi : i < d.size) {v : Elem} (hv : v.length = s) :
    Inv s { st with mem := store st.mem (d.data + s * i) v } { w with vecs := w.vecs.set k ((elems s st.mem d).set i v) } := by
  have hin := elem_inside (s := s) hi
  refine ⟨?_, I.small, I.used, I.apart, I.len, ?_⟩
  · apply List.ext_getElem?
    intro k'
    rw [List.getElem?_set, I.vecs, List.getElem?_map, List.getElem?_map]
    dsimp only
    split
    · next e =>
      subst e
      have hk : k < (st.vecs.map (elems s st.mem)).length := by rw [List.length_map]; exact (List.getElem?_eq_some_iff.1 hd).1
      rw [if_pos hk, hd, Option.map_some, elems_store_same _ _ _ hi _ hv]
    · next e =>
      cases hk : st.vecs[k']? with
      | none => rfl
      | some d' =>
        have := I.apart k k' d d' e hd hk
        unfold Apart at this
        rw [Option.map_some, Option.map_some, elems_store_apart _ _ _ _ (by omega)]
  · intro j h x hj hx
    obtain ⟨h1, h2⟩ := I.view j h x hj hx
    refine ⟨h1, ?_⟩
    obtain ⟨y, b⟩ := x
    cases y with
    | shared k' => exact h2
    | own l =>
      obtain ⟨h2, h3, h4, h5⟩ := h2
      have := h4 k d hd
      unfold Apart at this
      refine ⟨?_, h3, h4, h5⟩
      show l = elems s (store st.mem (d.data + s * i) v) h
      rw [elems_store_apart _ _ _ _ (by omega)]
      exact h2

/-- Writing one element of a vector that has its own elements. -/
theorem inv_own {s : Nat} {st : St} {w : World} (I : Inv s st w) {j i : Nat} {h : Hdr} (hj : st.views[j]? = some h) {l : List Elem} {b : Bool} (hx : w.views[j]? = some (.own l, b)) (hi : i < h.size)
    {v : Elem} (hv : v.length = s) : Inv s { st with mem := store st.mem (h.data + s * i) v } { w with views := w.views.set j (.own (l.set i v), b) } := by
  have hin := elem_inside (s := s) hi
  obtain ⟨h1, h2, h3, h4, h5⟩ := I.view j h _ hj hx
  have hjl := (List.getElem?_eq_some_iff.1 hx).1
  refine ⟨?_, I.small, I.used, I.apart, by rw [List.length_set]; exact I.len, ?_⟩
  · rw [I.vecs]
    apply List.ext_getElem?
    intro k
    rw [List.getElem?_map, List.getElem?_map]
    cases hk : st.vecs[k]? with
    | none => rfl
    | some d =>
      have := h4 k d hk
      unfold Apart at this
      rw [Option.map_some, Option.map_some, elems_store_apart _ _ _ _ (by omega)]
  · intro j' h' x' hj' hx'
    have hj0 : st.views[j']? = some h' := hj'
    by_cases e : j = j'
    · subst e
      rw [hj] at hj0
      cases hj0
      have hx0 : (w.views.set j (View.own (l.set i v), b))[j]? = some x' := hx'
      rw [List.getElem?_set, if_pos rfl, if_pos hjl] at hx0
      cases hx0
      refine ⟨h1, ?_, h3, h4, ?_⟩
      · show l.set i v = elems s (store st.mem (h.data + s * i) v) h
        rw [elems_store_same _ _ _ hi _ hv, h2]
      · intro j2 g l2 b2 hne hg hw
        have hw0 : (w.views.set j (View.own (l.set i v), b))[j2]? = some (.own l2, b2) := hw
        rw [List.getElem?_set, if_neg (Ne.symm hne)] at hw0
        exact h5 j2 g l2 b2 hne hg hw0
    · have hx0 : (w.views.set j (View.own (l.set i v), b))[j']? = some x' := hx'
      rw [List.getElem?_set, if_neg e] at hx0
      obtain ⟨g1, g2⟩ := I.view j' h' x' hj0 hx0
      refine ⟨g1, ?_⟩
      obtain ⟨y, b'⟩ := x'
      cases y with
      | shared k' => exact g2
      | own l' =>
        obtain ⟨g2, g3, g4, g5⟩ := g2
        have := h5 j' h' l' b' (Ne.symm e) hj0 hx0
        unfold Apart at this
        refine ⟨?_, g3, g4, ?_⟩
        · show l' = elems s (store st.mem (h.data + s * i) v) h'
          rw [elems_store_apart _ _ _ _ (by omega)]
          exact g2
        · intro j2 g l2 b2 hne hg hw
          have hw0 : (w.views.set j (View.own (l.set i v), b))[j2]? = some (.own l2, b2) := hw
          rw [List.getElem?_set] at hw0
          split at hw0
          · next e2 =>
            subst e2
            exact g5 j g l b hne hg hx
          · exact g5 j2 g l2 b2 hne hg hw0

theorem get_append {α : Type} {l : List α} {a b : α} {j : Nat} (h : (l ++ [a])[j]? = some b) : (j < l.length ∧ l[j]? = some b) ∨ (j = l.length ∧ a = b) := by
  rw [List.getElem?_append] at h
  split at h
  · next e => exact .inl ⟨e, h⟩
  · next e =>
    have := (List.getElem?_eq_some_iff.1 h).1
    have e2 : j = l.length := by simp at this; omega
    subst e2
    simp at h
    exact .inr ⟨rfl, h⟩

/-- A vector that shares. -/
theorem inv_share {s : Nat} {st : St} {w : World} (I : Inv s st w) {k : Nat} {d : Hdr} (hd : st.vecs[k]? = some d) (b : Bool) :
    Inv s { st with views := st.views ++ [header d.data d.size b] } { w with views := w.views ++ [(.shared k, !b)] } := by
  refine ⟨I.vecs, I.small, I.used, I.apart, by simp [I.len], ?_⟩
  intro j h x hj hx
  rcases get_append hj with ⟨l1, e1⟩ | ⟨l1, e1⟩
  · rcases get_append hx with ⟨l2, e2⟩ | ⟨l2, e2⟩
    · obtain ⟨h1, h2⟩ := I.view j h x e1 e2
      refine ⟨h1, ?_⟩
      obtain ⟨y, b'⟩ := x
      cases y with
      | shared k' => exact h2
      | own l =>
        obtain ⟨h2, h3, h4, h5⟩ := h2
        refine ⟨h2, h3, h4, ?_⟩
        intro j2 g l2 b2 hne hg hw
        rcases get_append hw with ⟨m2, f2⟩ | ⟨m2, f2⟩
        · rcases get_append hg with ⟨m1, f1⟩ | ⟨m1, f1⟩
          · exact h5 j2 g l2 b2 hne f1 f2
          · exact absurd m2 (by rw [m1, I.len]; omega)
        · cases f2
    · exact absurd l1 (by rw [l2, I.len]; omega)
  · rcases get_append hx with ⟨l2, e2⟩ | ⟨l2, e2⟩
    · exact absurd l2 (by rw [l1, I.len]; omega)
    · subst e1
      subst e2
      exact ⟨rfl, d, hd, rfl, (Nat.mod_eq_of_lt (I.small k d hd)).symm⟩

/-- A copy. -/
theorem inv_clone {s : Nat} {st : St} {w : World} (I : Inv s st w) {k : Nat} {d : Hdr} (hd : st.vecs[k]? = some d) {p : Nat} (hf : free st.used p (d.size * s) = true) :
    Inv s { st with mem := memcpy st.mem p d.data (d.size * s), views := st.views ++ [header p d.size false], used := (p, d.size * s) :: st.used }
      { w with views := w.views ++ [(.own (elems s st.mem d), true)] } := by
  have hsz : d.size % 2 ^ 30 = d.size := Nat.mod_eq_of_lt (I.small k d hd)
  have hh : header p d.size false = ⟨p, d.size, true⟩ := by unfold header; rw [hsz]; rfl
  have keep : ∀ h : Hdr, (h.data, h.size * s) ∈ st.used → elems s (memcpy st.mem p d.data (d.size * s)) h = elems s st.mem h := by
    intro h hu
    have := free_apart hf hu
    exact elems_copy_apart _ _ _ _ _ (by omega)
  rw [hh]
  refine ⟨?_, I.small, fun k d hk => List.mem_cons_of_mem _ (I.used k d hk), I.apart, by simp [I.len], ?_⟩
  · rw [I.vecs]
    apply List.ext_getElem?
    intro k'
    rw [List.getElem?_map, List.getElem?_map]
    cases hk : st.vecs[k']? with
    | none => rfl
    | some d' => rw [Option.map_some, Option.map_some, keep _ (I.used k' d' hk)]
  · intro j h x hj hx
    rcases get_append hj with ⟨l1, e1⟩ | ⟨l1, e1⟩
    · rcases get_append hx with ⟨l2, e2⟩ | ⟨l2, e2⟩
      · obtain ⟨h1, h2⟩ := I.view j h x e1 e2
        refine ⟨h1, ?_⟩
        obtain ⟨y, b'⟩ := x
        cases y with
        | shared k' => exact h2
        | own l =>
          obtain ⟨h2, h3, h4, h5⟩ := h2
          refine ⟨?_, List.mem_cons_of_mem _ h3, h4, ?_⟩
          · show l = elems s (memcpy st.mem p d.data (d.size * s)) h
            rw [keep h h3]
            exact h2
          · intro j2 g l2 b2 hne hg hw
            rcases get_append hw with ⟨m2, f2⟩ | ⟨m2, f2⟩
            · rcases get_append hg with ⟨m1, f1⟩ | ⟨m1, f1⟩
              · exact h5 j2 g l2 b2 hne f1 f2
              · exact absurd m2 (by rw [m1, I.len]; omega)
            · rcases get_append hg with ⟨m1, f1⟩ | ⟨m1, f1⟩
              · exact absurd m1 (by rw [m2, I.len]; omega)
              · subst f1
                have := free_apart hf h3
                show h.data + h.size * s ≤ p ∨ p + d.size * s ≤ h.data
                omega
      · exact absurd l1 (by rw [l2, I.len]; omega)
    · rcases get_append hx with ⟨l2, e2⟩ | ⟨l2, e2⟩
      · exact absurd l2 (by rw [l1, I.len]; omega)
      · subst e1
        subst e2
        refine ⟨rfl, ?_, List.mem_cons_self .., ?_, ?_⟩
        · exact (elems_copy_in _ _ _ _).symm
        · intro k' d' hk
          have := free_apart hf (I.used k' d' hk)
          exact this
        · intro j2 g l2' b2 hne hg hw
          rcases get_append hw with ⟨m2, f2⟩ | ⟨m2, f2⟩
          · rcases get_append hg with ⟨m1, f1⟩ | ⟨m1, f1⟩
            · obtain ⟨-, -, g3, -⟩ := I.view j2 g _ f1 f2
              exact free_apart hf g3
            · exact absurd m2 (by rw [m1, I.len]; omega)
          · exact absurd m2 (by rw [← l2]; exact hne)

/-- The specification has the vector when the model has. -/
theorem Inv.get {s : Nat} {st : St} {w : World} (I : Inv s st w) {j : Nat} {h : Hdr} (hj : st.views[j]? = some h) : ∃ x, w.views[j]? = some x ∧ ViewOk s st w j h x := by
  have hl := (List.getElem?_eq_some_iff.1 hj).1
  rw [I.len] at hl
  exact ⟨_, List.getElem?_eq_getElem hl, I.view j h _ hj (List.getElem?_eq_getElem hl)⟩

theorem Inv.elems {s : Nat} {st : St} {w : World} (I : Inv s st w) {j : Nat} {h : Hdr} {x : View × Bool} (v : ViewOk s st w j h x) : x.1.elems w = some (elems s st.mem h) := by
  obtain ⟨y, b⟩ := x
  cases y with
  | shared k =>
    obtain ⟨-, d, hd, e1, e2⟩ := v
    show w.vecs[k]? = _
    rw [I.vecs, List.getElem?_map, hd, Option.map_some, elems_eq e1 e2]
  | own l =>
    obtain ⟨-, e, -⟩ := v
    exact congrArg some e

/-- What a call answers in the model is what it answers in the specification, except that an undefined call is an error there. -/
theorem step_inv {s : Nat} {st st' : St} {w : World} (I : Inv s st w) {o : Op} (ho : o.Sized s) {a : Ans} (hs : step s st o = some (a, st')) :
    ∃ w', w.act o = some (if a = .undefined then .error else a, w') ∧ Inv s st' w' := by
  cases o with
  | make k clone readonly p =>
    simp only [step] at hs
    cases hd : st.vecs[k]? with
    | none => rw [hd] at hs; cases hs
    | some d =>
      rw [hd] at hs
      simp only [Option.bind_some] at hs
      have hw : w.vecs[k]? = some (NewVec.elems s st.mem d) := by rw [I.vecs, List.getElem?_map, hd]; rfl
      simp only [World.act, hw, Option.map_some]
      cases clone with
      | true =>
        rw [if_pos rfl] at hs
        split at hs
        · next hf =>
          injection hs with hs
          injection hs with h1 h2
          subst h1 h2
          exact ⟨_, rfl, inv_clone I hd hf⟩
        · cases hs
      | false =>
        rw [if_neg Bool.false_ne_true] at hs
        injection hs with hs
        injection hs with h1 h2
        subst h1 h2
        exact ⟨_, rfl, inv_share I hd readonly⟩
  | assign k i v =>
    simp only [step] at hs
    cases hd : st.vecs[k]? with
    | none => rw [hd] at hs; cases hs
    | some d =>
      rw [hd] at hs
      simp only [Option.bind_some] at hs
      have hw : w.vecs[k]? = some (NewVec.elems s st.mem d) := by rw [I.vecs, List.getElem?_map, hd]; rfl
      simp only [World.act, hw, Option.bind_some, elems_length]
      split at hs
      · next hi =>
        injection hs with hs
        injection hs with h1 h2
        subst h1 h2
        rw [if_pos hi]
        exact ⟨_, rfl, inv_vec I hd hi ho⟩
      · cases hs
  | set j i v =>
    simp only [step] at hs
    cases hj : st.views[j]? with
    | none => rw [hj] at hs; cases hs
    | some h =>
      rw [hj] at hs
      simp only [Option.map_some] at hs
      obtain ⟨x, hx, ok⟩ := I.get hj
      have he := I.elems ok
      obtain ⟨hwr, -⟩ := id ok
      simp only [World.act, hx, Option.bind_some, he, Option.map_some, elems_length]
      injection hs with hs
      split at hs
      · next hi =>
        injection hs with h1 h2
        subst h1 h2
        rw [if_neg (by omega)]
        exact ⟨_, rfl, I⟩
      · next hi =>
        split at hs
        · next hr =>
          injection hs with h1 h2
          subst h1 h2
          rw [if_neg (by rw [← hwr, hr]; simp)]
          exact ⟨_, rfl, I⟩
        · next hr =>
          injection hs with h1 h2
          subst h1 h2
          rw [if_pos ⟨by omega, by rw [← hwr]; simpa using hr⟩]
          obtain ⟨y, b⟩ := x
          cases y with
          | shared k =>
            obtain ⟨-, d, hd, e1, e2⟩ := ok
            refine ⟨_, rfl, ?_⟩
            rw [← e1, ← elems_eq e1 e2]
            exact inv_vec I hd (by omega) ho
          | own l =>
            obtain ⟨-, e, -⟩ := id ok
            refine ⟨_, rfl, ?_⟩
            rw [← e]
            exact inv_own I hj hx (by omega) ho

theorem run_inv {s : Nat} {st st' : St} {w : World} (I : Inv s st w) {os : List Op} (ho : ∀ o ∈ os, o.Sized s) {as : List Ans} (hr : run s st os = some (as, st')) (hu : Ans.undefined ∉ as) :
    ∃ w', w.run os = some (as, w') ∧ Inv s st' w' := by
  induction os generalizing st w as with
  | nil => cases hr; exact ⟨w, rfl, I⟩
  | cons o os ih =>
    simp only [run] at hr
    cases h1 : step s st o with
    | none => rw [h1] at hr; cases hr
    | some r =>
      obtain ⟨a, s1⟩ := r
      rw [h1, Option.bind_some] at hr
      dsimp only at hr
      split at hr
      · cases hr; simp at hu
      · next ha =>
        cases h2 : run s s1 os with
        | none => rw [h2] at hr; cases hr
        | some q =>
          rw [h2, Option.map_some] at hr
          injection hr with hr
          injection hr with e1 e2
          subst e1 e2
          obtain ⟨w1, hw1, I1⟩ := step_inv I (ho o (List.mem_cons_self ..)) h1
          rw [if_neg ha] at hw1
          obtain ⟨w', hw', I'⟩ := ih I1 (fun o h => ho o (List.mem_cons_of_mem _ h)) h2 (fun h => hu (List.mem_cons_of_mem _ h))
          refine ⟨w', ?_, I'⟩
          simp only [World.run, hw1, Option.bind_some, hw', Option.map_some]

/-! ## Theorems -/

/-- What vector `j` shows in memory. -/
def St.shows (s : Nat) (st : St) (j : Nat) : Option (List Elem) := (st.views[j]?).map (elems s st.mem)

/-- **C167, part.** After any history of making vectors from `std::vector` objects, assigning elements of these objects, and setting elements of the vectors, in which no call was undefined: every
call answered what the specification says, every vector shows the elements it should, so a copy is independent of its source and of other vectors and a shared one always shows its source, and
every `std::vector` has the elements it should. (The full claim also says what a call to set an element of a vector that must not be written does: see `set_readonly_violated`.) -/
theorem vectors_show_elements_partial {s : Nat} {st st' : St} (h0 : Start s st) {os : List Op} (ho : ∀ o ∈ os, o.Sized s) {as : List Ans} (hr : run s st os = some (as, st'))
    (hu : Ans.undefined ∉ as) : ∃ w', (worldOf s st).run os = some (as, w') ∧ (∀ j, st'.shows s j = w'.shows j) ∧ ∀ k : Nat, (st'.vecs[k]?).map (elems s st'.mem) = w'.vecs[k]? := by
  obtain ⟨w', hw, I⟩ := run_inv h0.inv ho hr hu
  refine ⟨w', hw, fun j => ?_, fun k => by rw [I.vecs, List.getElem?_map]⟩
  unfold St.shows World.shows
  cases hj : st'.views[j]? with
  | none =>
    rw [List.getElem?_eq_none (by rw [← I.len]; exact List.getElem?_eq_none_iff.1 hj)]
    rfl
  | some h =>
    obtain ⟨x, hx, ok⟩ := I.get hj
    rw [hx, Option.map_some, Option.bind_some, I.elems ok]

/-- A call after such a history is undefined only if it sets an element inside a vector that must not be written, where the specification has an error. -/
theorem undefined_only_readonly {s : Nat} {st st1 st' : St} (h0 : Start s st) {os : List Op} (ho : ∀ o ∈ os, o.Sized s) {as : List Ans} (hr : run s st os = some (as, st1))
    (hu : Ans.undefined ∉ as) {o : Op} (hs : step s st1 o = some (.undefined, st')) :
    ∃ w', (worldOf s st).run os = some (as, w') ∧ ∃ j i v x l, o = .set j i v ∧ w'.views[j]? = some (x, false) ∧ w'.shows j = some l ∧ i < l.length := by
  obtain ⟨w', hw, I⟩ := run_inv h0.inv ho hr hu
  refine ⟨w', hw, ?_⟩
  cases o with
  | make k c r p =>
    simp only [step] at hs
    cases hd : st1.vecs[k]? with
    | none => rw [hd] at hs; cases hs
    | some d =>
      rw [hd] at hs
      simp only [Option.bind_some] at hs
      split at hs
      · split at hs <;> cases hs
      · cases hs
  | assign k i v =>
    simp only [step] at hs
    cases hd : st1.vecs[k]? with
    | none => rw [hd] at hs; cases hs
    | some d =>
      rw [hd] at hs
      simp only [Option.bind_some] at hs
      split at hs <;> cases hs
  | set j i v =>
    simp only [step] at hs
    cases hj : st1.views[j]? with
    | none => rw [hj] at hs; cases hs
    | some h =>
      rw [hj, Option.map_some] at hs
      injection hs with hs
      obtain ⟨x, hx, ok⟩ := I.get hj
      have he := I.elems ok
      obtain ⟨hwr, -⟩ := id ok
      split at hs
      · cases hs
      · next hi =>
        split at hs
        · next hrd =>
          obtain ⟨y, b⟩ := x
          have hb : b = false := by rw [← hrd]; exact hwr.symm
          subst hb
          refine ⟨j, i, v, y, elems s st1.mem h, rfl, hx, ?_, by rw [elems_length]; omega⟩
          unfold World.shows
          rw [hx, Option.bind_some]
          exact he
        · cases hs

/-- A call with another address for the copy. -/
def Op.at' : Op → Nat → Op
  | .make k c r _, p => .make k c r p
  | o, _ => o

theorem free_above (used : List (Nat × Nat)) (n : Nat) : ∃ p, free used p n = true := by
  suffices h : ∃ q, ∀ p, q ≤ p → free used p n = true from h.imp fun q h => h q (Nat.le_refl q)
  induction used with
  | nil => exact ⟨0, fun _ _ => rfl⟩
  | cons r rs ih =>
    obtain ⟨q, hq⟩ := ih
    refine ⟨max q (r.1 + r.2), fun p hp => ?_⟩
    have h1 := hq p (by omega)
    unfold free at h1 ⊢
    rw [List.all_cons, h1, Bool.and_true, decide_eq_true_iff]
    omega

/-- After such a history every call the specification allows is possible, given memory from the arena, and there always is such memory. -/
theorem calls_possible {s : Nat} {st st1 : St} (h0 : Start s st) {os : List Op} (ho : ∀ o ∈ os, o.Sized s) {as : List Ans} (hr : run s st os = some (as, st1)) (hu : Ans.undefined ∉ as)
    (o : Op) (w' : World) (hw : (worldOf s st).run os = some (as, w')) (ha : (w'.act o).isSome = true) : ∃ p, (step s st1 (o.at' p)).isSome = true := by
  obtain ⟨w2, hw2, I⟩ := run_inv h0.inv ho hr hu
  rw [hw] at hw2
  injection hw2 with hw2
  injection hw2 with _ hw2
  subst hw2
  cases o with
  | make k c r p0 =>
    simp only [World.act, I.vecs, List.getElem?_map] at ha
    cases hd : st1.vecs[k]? with
    | none => rw [hd] at ha; cases ha
    | some d =>
      obtain ⟨p, hp⟩ := free_above st1.used (d.size * s)
      refine ⟨p, ?_⟩
      simp only [Op.at', step, hd, Option.bind_some]
      cases c with
      | true => rw [if_pos rfl, if_pos hp]; rfl
      | false => rfl
  | assign k i v =>
    simp only [World.act, I.vecs, List.getElem?_map] at ha
    cases hd : st1.vecs[k]? with
    | none => rw [hd] at ha; cases ha
    | some d =>
      refine ⟨0, ?_⟩
      rw [hd] at ha
      simp only [Option.map_some, Option.bind_some, elems_length] at ha
      simp only [Op.at', step, hd, Option.bind_some]
      split at ha
      · next hi => rw [if_pos hi]; rfl
      · cases ha
  | set j i v =>
    refine ⟨0, ?_⟩
    cases hj : st1.views[j]? with
    | none =>
      simp only [World.act, List.getElem?_eq_none (show w'.views.length ≤ j by rw [← I.len]; exact List.getElem?_eq_none_iff.1 hj)] at ha
      cases ha
    | some h => simp only [Op.at', step, hj, Option.map_some, Option.isSome_some]

/-- Setting an element of a vector that must not be written is not an error but writes through the null pointer. -/
theorem set_readonly_violated : ∃ (st : St) (os : List Op) (as : List Ans) (st' : St), Start 1 st ∧ (∀ o ∈ os, o.Sized 1) ∧ run 1 st os = some (as, st') ∧ as.getLast? = some .undefined ∧
    ∃ as' w', (worldOf 1 st).run os = some (as', w') ∧ as'.getLast? = some .error := by
  refine ⟨⟨fun _ => 5, [⟨100, 2, true⟩], [], [(100, 2)]⟩, [.make 0 false true 0, .set 0 1 [7]], _, _, ⟨rfl, ?_, ?_, ?_⟩, ?_, rfl, rfl, _, _, rfl, rfl⟩
  · intro k d h
    cases k with
    | zero => cases h; decide
    | succ k => cases h
  · intro k d h
    cases k with
    | zero => cases h; decide
    | succ k => cases h
  · intro k k' d d' hne h h'
    cases k with
    | zero =>
      cases k' with
      | zero => exact absurd rfl hne
      | succ k' => cases h'
    | succ k => cases h
  · intro o ho
    rcases List.mem_cons.1 ho with e | ho
    · subst e; trivial
    · rcases List.mem_cons.1 ho with e | ho
      · subst e; rfl
      · cases ho

theorem memcpy_outside {mem : Nat → Byte} {p q n x : Nat} (h : ¬ (p ≤ x ∧ x < p + n)) : memcpy mem p q n x = mem x := if_neg h

theorem step_frame {s : Nat} {st st' : St} {w : World} (I : Inv s st w) {o : Op} (ho : o.Sized s) {a : Ans} (hs : step s st o = some (a, st')) :
    (∀ r ∈ st.used, r ∈ st'.used) ∧ ∀ x, (∀ r ∈ st'.used, ¬ (r.1 ≤ x ∧ x < r.1 + r.2)) → st'.mem x = st.mem x := by
  cases o with
  | make k clone readonly p =>
    simp only [step] at hs
    cases hd : st.vecs[k]? with
    | none => rw [hd] at hs; cases hs
    | some d =>
      rw [hd] at hs
      simp only [Option.bind_some] at hs
      split at hs
      · split at hs
        · cases hs
          exact ⟨fun r h => List.mem_cons_of_mem _ h, fun x h => memcpy_outside (h _ (List.mem_cons_self ..))⟩
        · cases hs
      · cases hs
        exact ⟨fun r h => h, fun x h => rfl⟩
  | assign k i v =>
    simp only [step] at hs
    cases hd : st.vecs[k]? with
    | none => rw [hd] at hs; cases hs
    | some d =>
      rw [hd] at hs
      simp only [Option.bind_some] at hs
      split at hs
      · next hi =>
        cases hs
        refine ⟨fun r h => h, fun x h => ?_⟩
        have h1 := h _ (I.used k d hd)
        have h2 := elem_inside (s := s) hi
        have h3 : v.length = s := ho
        dsimp only at h1
        simp only [store]
        rw [if_neg (by omega)]
      · cases hs
  | set j i v =>
    simp only [step] at hs
    cases hj : st.views[j]? with
    | none => rw [hj] at hs; cases hs
    | some h =>
      rw [hj, Option.map_some] at hs
      injection hs with hs
      split at hs
      · cases hs; exact ⟨fun r h => h, fun x h => rfl⟩
      · next hi =>
        split at hs
        · cases hs; exact ⟨fun r h => h, fun x h => rfl⟩
        · cases hs
          refine ⟨fun r h => h, fun x hx => ?_⟩
          have h2 := elem_inside (s := s) (show i < h.size by omega)
          have h3 : v.length = s := ho
          have hm : (h.data, h.size * s) ∈ st.used := by
            obtain ⟨⟨y, b⟩, hxx, -, ok⟩ := I.get hj
            cases y with
            | shared k =>
              obtain ⟨d, hd, e1, e2⟩ := ok
              rw [← e1, ← e2]
              exact I.used k d hd
            | own l => exact ok.2.1
          have h1 := hx _ hm
          dsimp only at h1
          simp only [store]
          rw [if_neg (by omega)]

/-- Nothing else in memory changes: after such a history a byte outside the `std::vector` objects and the copies is what it was. -/
theorem other_memory_kept {s : Nat} {st st' : St} (h0 : Start s st) {os : List Op} (ho : ∀ o ∈ os, o.Sized s) {as : List Ans} (hr : run s st os = some (as, st')) (hu : Ans.undefined ∉ as)
    (x : Nat) (hx : ∀ r ∈ st'.used, ¬ (r.1 ≤ x ∧ x < r.1 + r.2)) : st'.mem x = st.mem x := by
  suffices h : ∀ (os : List Op) (st : St) (w : World) (as : List Ans), Inv s st w → (∀ o ∈ os, o.Sized s) → run s st os = some (as, st') → Ans.undefined ∉ as →
      (∀ r ∈ st.used, r ∈ st'.used) ∧ st'.mem x = st.mem x from (h os st _ as h0.inv ho hr hu).2
  clear h0 ho hr hu
  intro os
  induction os with
  | nil => intro st w as I _ hr _; cases hr; exact ⟨fun _ h => h, rfl⟩
  | cons o os ih =>
    intro st w as I ho hr hu
    simp only [run] at hr
    cases h1 : step s st o with
    | none => rw [h1] at hr; cases hr
    | some r =>
      obtain ⟨a, s1⟩ := r
      rw [h1, Option.bind_some] at hr
      dsimp only at hr
      split at hr
      · cases hr; simp at hu
      · next ha =>
        cases h2 : run s s1 os with
        | none => rw [h2] at hr; cases hr
        | some q =>
          rw [h2, Option.map_some] at hr
          injection hr with hr
          injection hr with e1 e2
          subst e1 e2
          obtain ⟨w1, hw1, I1⟩ := step_inv I (ho o (List.mem_cons_self ..)) h1
          obtain ⟨f1, f2⟩ := ih s1 w1 q.1 I1 (fun o h => ho o (List.mem_cons_of_mem _ h)) h2 (fun h => hu (List.mem_cons_of_mem _ h))
          obtain ⟨g1, g2⟩ := step_frame I (ho o (List.mem_cons_self ..)) h1
          exact ⟨fun r h => f1 r (g1 r h), f2.trans (g2 x fun r h => hx r (f1 r h))⟩

/-! ### Booleans -/

theorem bit_table : ∀ (k k' : Fin 8) (b : BitVec 8), (k ≠ k' → decide (((b ||| (1#8 <<< k.val)) >>> k'.val) &&& 1#8 > 0#8) = decide ((b >>> k'.val) &&& 1#8 > 0#8) ∧
      decide (((b &&& ~~~(1#8 <<< k.val)) >>> k'.val) &&& 1#8 > 0#8) = decide ((b >>> k'.val) &&& 1#8 > 0#8)) ∧
    decide (((b ||| (1#8 <<< k.val)) >>> k.val) &&& 1#8 > 0#8) = true ∧ decide (((b &&& ~~~(1#8 <<< k.val)) >>> k.val) &&& 1#8 > 0#8) = false := by
  have h : ∀ (k k' : Fin 8) (n : Fin 256), (k ≠ k' → decide (((BitVec.ofFin n ||| (1#8 <<< k.val)) >>> k'.val) &&& 1#8 > 0#8) = decide ((BitVec.ofFin n >>> k'.val) &&& 1#8 > 0#8) ∧
      decide (((BitVec.ofFin n &&& ~~~(1#8 <<< k.val)) >>> k'.val) &&& 1#8 > 0#8) = decide ((BitVec.ofFin n >>> k'.val) &&& 1#8 > 0#8)) ∧
    decide (((BitVec.ofFin n ||| (1#8 <<< k.val)) >>> k.val) &&& 1#8 > 0#8) = true ∧ decide (((BitVec.ofFin n &&& ~~~(1#8 <<< k.val)) >>> k.val) &&& 1#8 > 0#8) = false := by decide +kernel
  intro k k' b
  exact h k k' b.toFin

/-- One round of the loop. -/
def put (mem : Nat → Byte) (p i : Nat) (b : Bool) : Nat → Byte :=
  fun x => if x = p + i / 8 then (if b = true then mem x ||| (1#8 <<< (i % 8)) else mem x &&& ~~~(1#8 <<< (i % 8))) else mem x

theorem put_same (mem : Nat → Byte) (p i : Nat) (b : Bool) : bitAt (put mem p i b) p i = b := by
  have := bit_table ⟨i % 8, by omega⟩ ⟨i % 8, by omega⟩ (mem (p + i / 8))
  unfold bitAt put
  rw [if_pos rfl]
  cases b with
  | true => rw [if_pos rfl]; exact this.2.1
  | false => rw [if_neg Bool.false_ne_true]; exact this.2.2

theorem put_other (mem : Nat → Byte) (p i j : Nat) (b : Bool) (h : i ≠ j) : bitAt (put mem p i b) p j = bitAt mem p j := by
  unfold bitAt put
  split
  · next e =>
    have hne : (⟨i % 8, by omega⟩ : Fin 8) ≠ ⟨j % 8, by omega⟩ := by
      intro e2
      have := congrArg Fin.val e2
      dsimp only at this
      omega
    have := (bit_table ⟨i % 8, by omega⟩ ⟨j % 8, by omega⟩ (mem (p + j / 8))).1 hne
    cases b with
    | true => rw [if_pos rfl]; exact this.1
    | false => rw [if_neg Bool.false_ne_true]; exact this.2
  · rfl

theorem loop_low (p : Nat) (bs : List Bool) : ∀ (i : Nat) (mem : Nat → Byte) (j : Nat), j < i → bitAt (boolLoop p i bs mem) p j = bitAt mem p j := by
  induction bs with
  | nil => intro i mem j _; rfl
  | cons b bs ih =>
    intro i mem j hj
    show bitAt (boolLoop p (i + 1) bs (put mem p i b)) p j = _
    rw [ih _ _ _ (by omega), put_other _ _ _ _ _ (by omega)]

/-- **C167, booleans.** Whatever the memory held before, the vector made from a `std::vector<bool>` has its elements, and only the bytes needed for them change. -/
theorem booleans_kept (mem : Nat → Byte) (p : Nat) (bs : List Bool) : (∀ i (h : i < bs.length), bitAt (boolLoop p 0 bs mem) p i = bs[i]) ∧
    ∀ x, (x < p ∨ p + (bs.length + 7) / 8 ≤ x) → boolLoop p 0 bs mem x = mem x := by
  constructor
  · suffices h : ∀ (bs : List Bool) (o : Nat) (mem : Nat → Byte) (i : Nat) (h : i < bs.length), bitAt (boolLoop p o bs mem) p (o + i) = bs[i] by
      intro i hi
      have := h bs 0 mem i hi
      rwa [Nat.zero_add] at this
    intro bs
    induction bs with
    | nil => intro o mem i h; cases h
    | cons b bs ih =>
      intro o mem i h
      show bitAt (boolLoop p (o + 1) bs (put mem p o b)) p (o + i) = _
      cases i with
      | zero => exact (loop_low _ _ _ _ _ (by omega)).trans (put_same _ _ _ _)
      | succ i =>
        rw [show o + (i + 1) = o + 1 + i by omega, ih]
        rfl
  · suffices h : ∀ (bs : List Bool) (o : Nat) (mem : Nat → Byte) (x : Nat), (x < p ∨ p + (o + bs.length + 7) / 8 ≤ x) → boolLoop p o bs mem x = mem x by
      intro x hx
      exact h bs 0 mem x (by rwa [Nat.zero_add])
    intro bs
    induction bs with
    | nil => intro o mem x _; rfl
    | cons b bs ih =>
      intro o mem x hx
      rw [List.length_cons] at hx
      show boolLoop p (o + 1) bs (put mem p o b) x = _
      rw [ih _ _ _ (by rw [show o + 1 + bs.length = o + (bs.length + 1) by omega]; exact hx)]
      unfold put
      rw [if_neg (by omega)]

/-! ## Cases -/

/-- Two objects of two bytes each; a copy and a shared vector of the first. -/
def st0 : St := ⟨fun x => BitVec.ofNat 8 x, [⟨100, 2, true⟩, ⟨102, 2, true⟩], [], [(100, 2), (102, 2)]⟩
def ops0 : List Op := [.make 0 true false 200, .make 0 false false 0, .assign 0 0 [7], .set 0 1 [9], .set 1 1 [8], .set 0 2 [1]]

theorem start0 : Start 1 st0 := by
  refine ⟨rfl, ?_, ?_, ?_⟩
  · intro k d h
    match k, h with
    | 0, h => cases h; decide
    | 1, h => cases h; decide
  · intro k d h
    match k, h with
    | 0, h => cases h; decide
    | 1, h => cases h; decide
  · intro k k' d d' hne h h'
    match k, k', h, h' with
    | 0, 0, _, _ => exact absurd rfl hne
    | 1, 1, _, _ => exact absurd rfl hne
    | 0, 1, h, h' => cases h; cases h'; exact Or.inl (by decide)
    | 1, 0, h, h' => cases h; cases h'; exact Or.inr (by decide)

example : (run 1 st0 ops0).map (fun r => (r.1, r.2.shows 1 0, r.2.shows 1 1)) = some ([.done, .done, .done, .done, .done, .error], some [[100], [9]], some [[7], [8]]) := by decide

example : (List.range 11).map (bitAt (boolLoop 50 0 [true, false, true, true, false, false, true, false, true, true, false] fun _ => 0xA5) 50) =
    [true, false, true, true, false, false, true, false, true, true, false] := by decide

end Verif.Ctx.NewVec
