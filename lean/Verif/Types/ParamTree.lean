/-!
# Parameter trees: C173

`/repo/rapidudf/types/params.h` and `/repo/rapidudf/types/params.cc`: `Params` objects without parents (parents are C23) as trees: values, members and elements; the operators that make places
when they are used (`operator[]` of a name and of a number), `Add`, `Put`, the setters, and reading.

A hash map is a list with one entry for each name. Doubles are their bits. Not modelled: sizes of arrays beyond memory, the iteration over `Members`.
-/
namespace Verif.Types.ParamTree

/-! ## Specification -/

/-- One step from a place in the tree: a name or a number. -/
inductive Key where
  | name (n : String)
  | idx (i : Nat)
  deriving DecidableEq

/-- A value. -/
inductive Scalar where
  | str (s : String)
  | int (v : BitVec 64)
  | dbl (v : BitVec 64)
  | bool (b : Bool)
  deriving DecidableEq

/-- What a program does: set a value, only go to a place, `Put` a value under a name, or `Add` a value to an array. -/
inductive Op where
  | set (p : List Key) (s : Scalar)
  | touch (p : List Key)
  | put (p : List Key) (n : String) (s : Scalar)
  | add (p : List Key) (s : Scalar)

/-- What has happened: the way to a place, and the value set there, if any. -/
abbrev Entry := List Key × Option Scalar

/-- What a place is used for. -/
inductive Use where
  | value
  | object
  | array
  deriving DecidableEq

/-- What an entry uses the place `q` for. -/
def use : List Key → Entry → Option Use
  | [], ([], none) => none
  | [], ([], some _) => some .value
  | [], (.name _ :: _, _) => some .object
  | [], (.idx _ :: _, _) => some .array
  | _ :: _, ([], _) => none
  | k :: q, (k' :: p, s) => if k' = k then use q (p, s) else none

/-- No place is used in two ways. -/
def OneUse (H : List Entry) : Prop := ∀ q, ∀ e ∈ H, ∀ e' ∈ H, ∀ u u', use q e = some u → use q e' = some u' → u = u'

/-- The number of elements an array at `q` must have for this entry. -/
def needs : List Key → List Key → Nat
  | [], .idx i :: _ => i + 1
  | [], _ => 0
  | _ :: _, [] => 0
  | k :: q, k' :: p => if k' = k then needs q p else 0

/-- The size of the array at `q`. -/
def size (H : List Entry) (q : List Key) : Nat := H.foldl (fun m e => max m (needs q e.1)) 0

/-- Another element of the same array, before the first one. -/
def earlier : Key → Key → Bool
  | .idx i, .idx j => decide (j < i)
  | _, _ => false

/-- The way `p` leads to or through `q`, or to or through a later element of the array of which `q` is an element. -/
def reaches : List Key → List Key → Bool
  | _, [] => true
  | [], _ :: _ => false
  | k :: p, k' :: q => if k = k' then reaches p q else earlier k k' && q.isEmpty

/-- There is a place `q`. -/
def reached (H : List Entry) (q : List Key) : Bool := q.isEmpty || H.any fun e => reaches e.1 q

/-- The value set last at `q`. -/
def written (H : List Entry) (q : List Key) : Option Scalar := (H.filterMap fun e => if e.1 = q then e.2 else none).getLast?

/-- What a reader sees at a place. -/
inductive Seen where
  | invalid
  | empty
  | value (s : Scalar)
  | object
  | array (n : Nat)
  deriving DecidableEq

/-- What must be seen at `q`: nothing if there is no such place; otherwise an object or an array, if it has been used so, or the value set last. -/
def seen (H : List Entry) (q : List Key) : Seen :=
  if reached H q = false then .invalid
  else match (H.filterMap (use q)).head? with
    | none => .empty
    | some .object => .object
    | some .array => .array (size H q)
    | some .value => match written H q with
      | some s => .value s
      | none => .empty

/-- What an operation adds to what has happened; `Add` goes to the element after the last. -/
def entry (H : List Entry) : Op → Entry
  | .set p s => (p, some s)
  | .touch p => (p, none)
  | .put p n s => (p ++ [.name n], some s)
  | .add p s => (p ++ [.idx (size H p)], some s)

def history (ops : List Op) : List Entry := ops.foldl (fun H o => H ++ [entry H o]) []

/-! ## Model -/

/-- `ParamType`, params.h 34–43. -/
inductive Kind where
  | invalid | empty | str | int | dbl | bool | object | array
  deriving DecidableEq

/-- `Params`, params.h 44–53; the parent is null. -/
inductive Params where
  | mk (type : Kind) (str : String) (iv : BitVec 64) (dv : BitVec 64) (bv : Bool) (members : List (String × Params)) (arr : List Params)

namespace Params
def type : Params → Kind | .mk t _ _ _ _ _ _ => t
def members : Params → List (String × Params) | .mk _ _ _ _ _ m _ => m
def arr : Params → List Params | .mk _ _ _ _ _ _ a => a
def withType : Params → Kind → Params | .mk _ s i d b m a, t => .mk t s i d b m a
def withMembers : Params → List (String × Params) → Params | .mk t s i d b _ a, m => .mk t s i d b m a
def withArr : Params → List Params → Params | .mk t s i d b m _, a => .mk t s i d b m a
end Params

/-- `Params(false)`, params.cc 22–26. -/
def fresh : Params := .mk .empty "" 0 0 false [] []

/-- `SetString`, `SetInt`, `SetDouble`, `SetBool`, params.cc 86–101: the other values stay. -/
def setScalar : Scalar → Params → Params
  | .str v, .mk _ _ i d b m a => .mk .str v i d b m a
  | .int v, .mk _ s _ d b m a => .mk .int s v d b m a
  | .dbl v, .mk _ s i _ b m a => .mk .dbl s i v b m a
  | .bool v, .mk _ s i d _ m a => .mk .bool s i d v m a

/-- A write to the entry of a name, made if it is not there: `members_[name]`. -/
def upsert (n : String) (g : Option Params → Params) : List (String × Params) → List (String × Params)
  | [] => [(n, g none)]
  | (m, c) :: r => if m = n then (m, g (some c)) :: r else (m, c) :: upsert n g r

/-- `array_.resize(m)`. -/
def resize (m : Nat) (l : List Params) : List Params := l.take m ++ List.replicate (m - l.length) fresh

/-- Is there a valid member: `Get(name)`, then `Valid()`, params.cc 111–121, 129–131. -/
def found (n : String) (p : Params) : Bool := match p.members.lookup n with
  | some c => decide (c.type ≠ .invalid)
  | none => false

/-- Going to a place with the operators that are not `const`, params.cc 128–135 and 174–183, and doing something there. -/
def mutAt : List Key → (Params → Params) → Params → Params
  | [], f, p => f p
  | .name n :: ks, f, p => (if found n p = true then p else p.withType .object).withMembers (upsert n (fun o => mutAt ks f (o.getD fresh)) p.members)
  | .idx i :: ks, f, p => if p.type = .array ∧ i < p.arr.length then p.withArr (p.arr.modify i (mutAt ks f))
      else (p.withType .array).withArr ((resize (i + 1) p.arr).modify i (mutAt ks f))

/-- `Put`, params.cc 149–173. -/
def putMember (n : String) (s : Scalar) (p : Params) : Params := (p.withType .object).withMembers (upsert n (fun o => setScalar s (o.getD fresh)) p.members)

/-- `Add`, params.cc 144–148, with a value set at the new element. -/
def addElem (s : Scalar) (p : Params) : Params := (p.withArr ((resize (p.arr.length + 1) p.arr).modify p.arr.length (setScalar s))).withType .array

/-- One operation. -/
def step (p : Params) : Op → Params
  | .set q s => mutAt q (setScalar s) p
  | .touch q => mutAt q id p
  | .put q n s => mutAt q (putMember n s) p
  | .add q s => mutAt q (addElem s) p

def run (ops : List Op) : Params := ops.foldl step fresh

/-- Reading with the operators that are `const`, params.cc 111–127, 136–143: `none` is the invalid object, whose members and elements are invalid too. -/
def get : List Key → Params → Option Params
  | [], p => some p
  | .name n :: ks, p => (p.members.lookup n).bind (get ks)
  | .idx i :: ks, p => if p.type = .array then (p.arr[i]?).bind (get ks) else none

/-- What `Valid`, `IsInt`, …, `Int`, …, `Size` show, params.cc 44–85, 102–109. -/
def see : Option Params → Seen
  | none => .invalid
  | some (.mk t s i d b _ a) => match t with
    | .invalid => .invalid
    | .empty => .empty
    | .str => .value (.str s)
    | .int => .value (.int i)
    | .dbl => .value (.dbl d)
    | .bool => .value (.bool b)
    | .object => .object
    | .array => .array a.length

/-! ## Lemmas -/

@[simp] theorem type_withType (p : Params) (t : Kind) : (p.withType t).type = t := by cases p; rfl
@[simp] theorem members_withType (p : Params) (t : Kind) : (p.withType t).members = p.members := by cases p; rfl
@[simp] theorem arr_withType (p : Params) (t : Kind) : (p.withType t).arr = p.arr := by cases p; rfl
@[simp] theorem type_withMembers (p : Params) (m : List (String × Params)) : (p.withMembers m).type = p.type := by cases p; rfl
@[simp] theorem members_withMembers (p : Params) (m : List (String × Params)) : (p.withMembers m).members = m := by cases p; rfl
@[simp] theorem arr_withMembers (p : Params) (m : List (String × Params)) : (p.withMembers m).arr = p.arr := by cases p; rfl
@[simp] theorem type_withArr (p : Params) (m : List Params) : (p.withArr m).type = p.type := by cases p; rfl
@[simp] theorem members_withArr (p : Params) (m : List Params) : (p.withArr m).members = p.members := by cases p; rfl
@[simp] theorem arr_withArr (p : Params) (m : List Params) : (p.withArr m).arr = m := by cases p; rfl
@[simp] theorem members_set (s : Scalar) (p : Params) : (setScalar s p).members = p.members := by cases p; cases s <;> rfl
@[simp] theorem arr_set (s : Scalar) (p : Params) : (setScalar s p).arr = p.arr := by cases p; cases s <;> rfl

theorem see_set (s : Scalar) (p : Params) : see (some (setScalar s p)) = .value s := by cases p; cases s <;> rfl

theorem lookup_upsert (n m : String) (g : Option Params → Params) : ∀ l : List (String × Params), (upsert n g l).lookup m = if m = n then some (g (l.lookup n)) else l.lookup m
  | [] => by
    unfold upsert
    rw [List.lookup_cons]
    by_cases h : m = n
    · simp [h]
    · have e : (m == n) = false := by simpa using h
      simp [h, e]
  | (a, c) :: r => by
    unfold upsert
    by_cases ha : a = n
    · subst ha
      simp only [if_true, List.lookup_cons]
      by_cases h : m = a
      · simp [h]
      · have e : (m == a) = false := by simpa using h
        simp [h, e]
    · have ih := lookup_upsert n m g r
      simp only [if_neg ha, List.lookup_cons, ih]
      by_cases h : m = n
      · subst h
        have e : (m == a) = false := by simp; exact fun e => ha e.symm
        simp [e]
      · simp [h]

theorem upsert_congr (n : String) (g g' : Option Params → Params) : ∀ l : List (String × Params), g (l.lookup n) = g' (l.lookup n) → upsert n g l = upsert n g' l
  | [], h => by unfold upsert; exact congrArg (fun x => [(n, x)]) h
  | (a, c) :: r, h => by
    unfold upsert
    by_cases ha : a = n
    · subst ha
      rw [List.lookup_cons] at h
      simp at h
      simp [h]
    · rw [List.lookup_cons] at h
      have e : (n == a) = false := by simp; exact fun e => ha e.symm
      rw [e] at h
      simp only [if_neg ha]
      rw [upsert_congr n g g' r h]

/-- The entries behind a key. -/
def sub (k : Key) (H : List Entry) : List Entry := H.filterMap fun e => match e.1 with
  | k' :: p => if k' = k then some (p, e.2) else none
  | [] => none

def apply : Option Scalar → Params → Params
  | none => id
  | some s => setScalar s

/-- The tree after the entries. -/
def build (H : List Entry) : Params := H.foldl (fun p e => mutAt e.1 (apply e.2) p) fresh

theorem build_snoc (H : List Entry) (e : Entry) : build (H ++ [e]) = mutAt e.1 (apply e.2) (build H) := by simp [build]

theorem sub_snoc (k : Key) (H : List Entry) (e : Entry) : sub k (H ++ [e]) = sub k H ++ sub k [e] := by simp [sub]

theorem mutAt_valid (o : Option Scalar) (ks : List Key) (p : Params) (h : p.type ≠ .invalid) : (mutAt ks (apply o) p).type ≠ .invalid := by
  cases ks with
  | nil =>
    cases o with
    | none => exact h
    | some s => cases p; cases s <;> simp [mutAt, apply, setScalar, Params.type]
  | cons k ks =>
    cases k with
    | name n =>
      simp only [mutAt, type_withMembers]
      split
      · exact h
      · simp
    | idx i =>
      simp only [mutAt]
      split
      · simpa using h
      · simp

theorem snocInd {α : Type} {P : List α → Prop} (h0 : P []) (h1 : ∀ l a, P l → P (l ++ [a])) (l : List α) : P l := by
  have : ∀ r : List α, P r.reverse := by
    intro r
    induction r with
    | nil => exact h0
    | cons a r ih => rw [List.reverse_cons]; exact h1 _ _ ih
  have := this l.reverse
  rwa [List.reverse_reverse] at this

theorem build_valid (H : List Entry) : (build H).type ≠ .invalid := by
  induction H using snocInd with
  | h0 => simp [build, fresh, Params.type]
  | h1 H e ih => rw [build_snoc]; exact mutAt_valid _ _ _ ih

theorem filterMap_sub {β : Type} (k : Key) (f g : Entry → Option β) (h0 : ∀ o, f ([], o) = none) (h1 : ∀ k' p o, f (k' :: p, o) = if k' = k then g (p, o) else none) :
    ∀ H : List Entry, H.filterMap f = (sub k H).filterMap g
  | [] => rfl
  | (p, o) :: H => by
    have ih := filterMap_sub k f g h0 h1 H
    cases p with
    | nil => simp only [List.filterMap_cons, h0, ih, sub]
    | cons k' p =>
      by_cases hk : k' = k
      · simp only [List.filterMap_cons, h1, ih, sub, if_pos hk]
      · simp only [List.filterMap_cons, h1, ih, sub, if_neg hk]

theorem uses_sub (k : Key) (q : List Key) (H : List Entry) : H.filterMap (use (k :: q)) = (sub k H).filterMap (use q) :=
  filterMap_sub k _ _ (fun o => by unfold use; rfl) (fun k' p o => by rw [use]) H

theorem written_sub (k : Key) (q : List Key) (H : List Entry) : written H (k :: q) = written (sub k H) q := by
  unfold written
  rw [filterMap_sub k (fun e => if e.1 = k :: q then e.2 else none) (fun e => if e.1 = q then e.2 else none) (fun o => by simp)
    (fun k' p o => by by_cases h : k' = k <;> simp [h])]

theorem size_snoc (H : List Entry) (e : Entry) (q : List Key) : size (H ++ [e]) q = max (size H q) (needs q e.1) := by simp [size]

theorem size_sub (k : Key) (q : List Key) (H : List Entry) : size H (k :: q) = size (sub k H) q := by
  induction H using snocInd with
  | h0 => rfl
  | h1 H e ih =>
    rw [size_snoc, sub_snoc, ih]
    obtain ⟨p, o⟩ := e
    cases p with
    | nil => simp [sub, needs]
    | cons k' p =>
      by_cases hk : k' = k
      · simp only [sub, needs, hk, if_true, List.filterMap_cons, List.filterMap_nil]
        rw [size_snoc]
      · simp [sub, needs, hk]

theorem mem_sub {k : Key} {H : List Entry} {e : Entry} : e ∈ sub k H ↔ (k :: e.1, e.2) ∈ H := by
  unfold sub
  rw [List.mem_filterMap]
  constructor
  · rintro ⟨⟨p, o⟩, h1, h2⟩
    cases p with
    | nil => simp at h2
    | cons k' p =>
      simp only at h2
      split at h2
      · rename_i hk; cases h2; rw [← hk]; exact h1
      · cases h2
  · intro h
    exact ⟨_, h, by simp⟩

theorem OneUse.sub {H : List Entry} (h : OneUse H) (k : Key) : OneUse (sub k H) := by
  intro q e he e' he' u u' hu hu'
  exact h (k :: q) _ (mem_sub.1 he) _ (mem_sub.1 he') u u' (by rw [use]; simpa using hu) (by rw [use]; simpa using hu')

theorem OneUse.left {H : List Entry} {G : List Entry} (h : OneUse (H ++ G)) : OneUse H :=
  fun q e he e' he' => h q e (List.mem_append_left _ he) e' (List.mem_append_left _ he')

/-- What the top of the tree is used for. -/
def useOf (H : List Entry) : Option Use := (H.filterMap (use [])).head?

theorem useOf_mem {H : List Entry} (h : OneUse H) {e : Entry} (he : e ∈ H) {u : Use} (hu : use [] e = some u) : useOf H = some u := by
  have hm : u ∈ H.filterMap (use []) := List.mem_filterMap.2 ⟨e, he, hu⟩
  unfold useOf
  cases hf : H.filterMap (use []) with
  | nil => rw [hf] at hm; simp at hm
  | cons v l =>
    have hv : v ∈ H.filterMap (use []) := by rw [hf]; simp
    obtain ⟨e', he', hv'⟩ := List.mem_filterMap.1 hv
    rw [List.head?_cons, h [] e' he' e he v u hv' hu]

theorem useOf_snoc_none {H : List Entry} {e : Entry} (hu : use [] e = none) : useOf (H ++ [e]) = useOf H := by simp [useOf, hu]

theorem size_pos {H : List Entry} {i : Nat} (h : i < size H []) : ∃ j p o, i ≤ j ∧ (.idx j :: p, o) ∈ H := by
  induction H using snocInd with
  | h0 => simp [size] at h
  | h1 H e ih =>
    rw [size_snoc] at h
    by_cases h2 : i < size H []
    · obtain ⟨j, p, o, h3, h4⟩ := ih h2
      exact ⟨j, p, o, h3, List.mem_append_left _ h4⟩
    · have h3 : i < needs [] e.1 := by omega
      obtain ⟨p, o⟩ := e
      cases p with
      | nil => simp [needs] at h3
      | cons k p =>
        cases k with
        | name n => simp [needs] at h3
        | idx j => simp [needs] at h3; exact ⟨j, p, o, by omega, by simp⟩

theorem size_le {H : List Entry} {j : Nat} {p : List Key} {o : Option Scalar} (h : (.idx j :: p, o) ∈ H) : j < size H [] := by
  induction H using snocInd with
  | h0 => simp at h
  | h1 H e ih =>
    rw [size_snoc]
    rcases List.mem_append.1 h with h | h
    · have := ih h; omega
    · simp at h; subst h; simp [needs]; omega

theorem sub_nil_of_size {H : List Entry} {i : Nat} (h : size H [] ≤ i) : sub (.idx i) H = [] := by
  rw [List.eq_nil_iff_forall_not_mem]
  intro e he
  have := size_le (mem_sub.1 he)
  omega

theorem size_array {H : List Entry} (h : OneUse H) (h0 : 0 < size H []) : useOf H = some .array := by
  obtain ⟨j, p, o, _, hm⟩ := size_pos h0
  exact useOf_mem h hm (by rw [use])

/-- How the top of the tree follows from the entries. -/
structure Is (H : List Entry) (p : Params) : Prop where
  top : see (some p) = match useOf H with
    | none => .empty
    | some .object => .object
    | some .array => .array (size H [])
    | some .value => match written H [] with
      | some s => .value s
      | none => .empty
  members : ∀ n, p.members.lookup n = if sub (.name n) H = [] then none else some (build (sub (.name n) H))
  len : p.arr.length = size H []
  elem : ∀ i, i < size H [] → p.arr[i]? = some (build (sub (.idx i) H))

theorem see_object {p : Params} : see (some p) = .object ↔ p.type = .object := by
  cases p with
  | mk t s i d b m a => cases t <;> simp [see, Params.type]

theorem see_array {p : Params} : (∃ n, see (some p) = .array n) ↔ p.type = .array := by
  cases p with
  | mk t s i d b m a => cases t <;> simp [see, Params.type]

theorem Is.object {H : List Entry} {p : Params} (h : Is H p) (hu : useOf H = some .object) : p.type = .object := by
  rw [← see_object, h.top, hu]

theorem Is.array {H : List Entry} {p : Params} (h : Is H p) (hu : useOf H = some .array) : p.type = .array := by
  rw [← see_array]
  exact ⟨_, by rw [h.top, hu]⟩

theorem see_withMembers (p : Params) (m : List (String × Params)) : see (some (p.withMembers m)) = see (some p) := by cases p; rfl

theorem sub_other {k : Key} {k' : Key} {p : List Key} {o : Option Scalar} (h : k' ≠ k) : sub k [(k' :: p, o)] = [] := by simp [sub, h]
theorem sub_same (k : Key) (p : List Key) (o : Option Scalar) : sub k [(k :: p, o)] = [(p, o)] := by simp [sub]
theorem sub_empty (k : Key) (o : Option Scalar) : sub k [(([] : List Key), o)] = [] := by simp [sub]

theorem written_snoc_other {H : List Entry} {e : Entry} {q : List Key} (h : e.1 ≠ q) : written (H ++ [e]) q = written H q := by simp [written, h]

theorem resize_get (l : List Params) (i j : Nat) (hl : l.length ≤ i) (hj : j < i + 1) : (resize (i + 1) l)[j]? = some (if h : j < l.length then l[j] else fresh) := by
  unfold resize
  rw [List.take_of_length_le (by omega)]
  by_cases h : j < l.length
  · rw [List.getElem?_append_left h, dif_pos h, List.getElem?_eq_getElem h]
  · rw [List.getElem?_append_right (by omega), dif_neg h, List.getElem?_replicate, if_pos (by omega)]

theorem resize_len (l : List Params) (m : Nat) : (resize m l).length = m := by simp [resize]; omega

theorem lookup_getD {H : List Entry} {p : Params} (h : Is H p) (n : String) : ((p.members.lookup n).getD fresh) = build (sub (.name n) H) := by
  rw [h.members n]
  split
  · rename_i e; rw [e]; rfl
  · rfl

theorem found_iff {H : List Entry} {p : Params} (h : Is H p) (n : String) : found n p = true ↔ sub (.name n) H ≠ [] := by
  unfold found
  rw [h.members n]
  by_cases e : sub (.name n) H = []
  · simp [e]
  · simp [e, build_valid]

theorem sub_name_object {H : List Entry} (ho : OneUse H) {n : String} (h : sub (.name n) H ≠ []) : useOf H = some .object := by
  cases hs : sub (.name n) H with
  | nil => exact absurd hs h
  | cons e l =>
    have : e ∈ sub (.name n) H := by rw [hs]; simp
    exact useOf_mem ho (mem_sub.1 this) (by rw [use])

/-- The element to which a number leads, before anything is done there. -/
theorem idx_elem {H : List Entry} {p : Params} (h : Is H p) (i : Nat) : (resize (i + 1) p.arr)[i]? = some (if h : i < p.arr.length then p.arr[i] else fresh) := by
  by_cases hl : p.arr.length ≤ i
  · exact resize_get _ _ _ hl (by omega)
  · unfold resize
    rw [List.getElem?_append_left (by simp; omega), List.getElem?_take, if_pos (by omega), dif_pos (by omega), List.getElem?_eq_getElem (by omega)]

theorem is_build (H : List Entry) : OneUse H → Is H (build H) := by
  induction H using snocInd with
  | h0 => exact fun _ => ⟨rfl, fun n => rfl, rfl, fun i hi => by simp [size] at hi⟩
  | h1 H e ih =>
    intro ho
    have is := ih ho.left
    rw [build_snoc]
    obtain ⟨p, o⟩ := e
    cases p with
    | nil =>
      cases o with
      | none =>
        refine ⟨?_, ?_, ?_, ?_⟩
        · rw [useOf_snoc_none (by rw [use]), size_snoc]
          have hw : written (H ++ [([], none)]) [] = written H [] := by simp [written]
          rw [hw]
          simpa [mutAt, apply, needs] using is.top
        · intro n; rw [sub_snoc, sub_empty, List.append_nil]; exact is.members n
        · rw [size_snoc]; simpa [mutAt, apply, needs] using is.len
        · intro i hi; rw [size_snoc] at hi; rw [sub_snoc, sub_empty, List.append_nil]; exact is.elem i (by simpa [needs] using hi)
      | some s =>
        refine ⟨?_, ?_, ?_, ?_⟩
        · rw [useOf_mem ho (e := ([], some s)) (by simp) (by rw [use])]
          have hw : written (H ++ [([], some s)]) [] = some s := by simp [written]
          rw [hw]
          exact see_set s _
        · intro n; rw [sub_snoc, sub_empty, List.append_nil]; simpa [mutAt, apply] using is.members n
        · rw [size_snoc]; simpa [mutAt, apply, needs] using is.len
        · intro i hi; rw [size_snoc] at hi; rw [sub_snoc, sub_empty, List.append_nil]; simpa [mutAt, apply] using is.elem i (by simpa [needs] using hi)
    | cons k p =>
      cases k with
      | name n =>
        have hu : useOf (H ++ [(.name n :: p, o)]) = some .object := useOf_mem ho (e := (.name n :: p, o)) (by simp) (by rw [use])
        refine ⟨?_, ?_, ?_, ?_⟩
        · rw [hu]
          simp only [mutAt, see_withMembers]
          rw [see_object]
          split
          · rename_i hf
            exact is.object (sub_name_object ho.left ((found_iff is n).1 hf))
          · simp
        · intro m
          simp only [mutAt, members_withMembers]
          rw [lookup_upsert, sub_snoc]
          by_cases hm : m = n
          · subst hm
            rw [if_pos rfl, sub_same, if_neg (by simp), build_snoc, lookup_getD is]
          · rw [if_neg hm, sub_other (by simp; exact fun e => hm e.symm), List.append_nil]
            exact is.members m
        · rw [size_snoc]
          simp only [mutAt, arr_withMembers, needs]
          have := is.len
          split <;> simp [this]
        · intro i hi
          rw [size_snoc] at hi
          rw [sub_snoc, sub_other (by simp), List.append_nil]
          simp only [mutAt, arr_withMembers, needs] at hi ⊢
          have := is.elem i (by omega)
          split <;> simpa using this
      | idx i =>
        have hu : useOf (H ++ [(.idx i :: p, o)]) = some .array := useOf_mem ho (e := (.idx i :: p, o)) (by simp) (by rw [use])
        have hlen := is.len
        have hs : size (H ++ [(.idx i :: p, o)]) [] = max (size H []) (i + 1) := by rw [size_snoc]; rfl
        have hel : ∀ j, (if h : j < (build H).arr.length then (build H).arr[j] else fresh) = build (sub (.idx j) H) := by
          intro j
          by_cases hj : j < (build H).arr.length
          · rw [dif_pos hj]
            have := is.elem j (by omega)
            rw [List.getElem?_eq_getElem hj] at this
            exact Option.some.inj this
          · rw [dif_neg hj, sub_nil_of_size (by omega)]; rfl
        by_cases hc : (build H).type = .array ∧ i < (build H).arr.length
        · have e : mutAt (.idx i :: p) (apply o) (build H) = (build H).withArr ((build H).arr.modify i (mutAt p (apply o))) := by simp only [mutAt]; rw [if_pos hc]
          simp only at e ⊢
          rw [e]
          have hlt := hc.2
          refine ⟨?_, ?_, ?_, ?_⟩
          · rw [hu, hs]
            have ha : see (some (build H)) = .array (build H).arr.length := by
              have := hc.1
              revert this
              cases build H with
              | mk t s iv d b m a => intro ht; simp only [Params.type] at ht; subst ht; rfl
            have : see (some ((build H).withArr ((build H).arr.modify i (mutAt p (apply o))))) = .array ((build H).arr.modify i (mutAt p (apply o))).length := by
              have := hc.1
              revert this
              cases build H with
              | mk t s iv d b m a => intro ht; simp only [Params.type] at ht; subst ht; rfl
            rw [this, List.length_modify, hlen]
            simp only [Seen.array.injEq]
            omega
          · intro n; rw [sub_snoc, sub_other (by simp), List.append_nil]; simpa using is.members n
          · rw [hs, arr_withArr, List.length_modify]; omega
          · intro j hj
            rw [hs] at hj
            have hj' : j < size H [] := by omega
            rw [arr_withArr, List.getElem?_modify, is.elem j hj', sub_snoc]
            by_cases hij : i = j
            · subst hij; rw [sub_same, build_snoc]; simp
            · rw [sub_other (by simp; exact hij), List.append_nil]; simp [hij]
        · have e : mutAt (.idx i :: p) (apply o) (build H) = ((build H).withType .array).withArr ((resize (i + 1) (build H).arr).modify i (mutAt p (apply o))) := by simp only [mutAt]; rw [if_neg hc]
          simp only at e ⊢
          rw [e]
          have hl : (build H).arr.length ≤ i := by
            rcases Nat.lt_or_ge i (build H).arr.length with h | h
            · exact absurd ⟨is.array (size_array ho.left (by omega)), h⟩ hc
            · exact h
          refine ⟨?_, ?_, ?_, ?_⟩
          · rw [hu, hs]
            have : ∀ (q : Params) (a : List Params), see (some ((q.withType .array).withArr a)) = .array a.length := fun q a => by cases q; rfl
            rw [this, List.length_modify, resize_len]
            simp only [Seen.array.injEq]
            omega
          · intro n; rw [sub_snoc, sub_other (by simp), List.append_nil]; simpa using is.members n
          · rw [hs, arr_withArr, List.length_modify, resize_len]; omega
          · intro j hj
            rw [hs] at hj
            rw [arr_withArr, List.getElem?_modify, resize_get _ _ _ hl (by omega), hel, sub_snoc]
            by_cases hij : i = j
            · subst hij; rw [sub_same, build_snoc]; simp
            · rw [sub_other (by simp; exact hij), List.append_nil]; simp [hij]

/-- The entries behind a way. -/
def derive : List Key → List Entry → List Entry
  | [], H => H
  | k :: q, H => derive q (sub k H)

theorem derive_one : ∀ (q : List Key) (H : List Entry), OneUse H → OneUse (derive q H)
  | [], _, h => h
  | k :: q, H, h => derive_one q (sub k H) (h.sub k)

theorem size_derive : ∀ (q : List Key) (H : List Entry), size H q = size (derive q H) []
  | [], _ => rfl
  | k :: q, H => by rw [size_sub, size_derive q (sub k H)]; rfl

theorem mutAt_append (f : Params → Params) : ∀ (a b : List Key) (p : Params), mutAt (a ++ b) f p = mutAt a (mutAt b f) p
  | [], _, _ => rfl
  | .name n :: a, b, p => by
    have : (fun o : Option Params => mutAt (a ++ b) f (o.getD fresh)) = fun o => mutAt a (mutAt b f) (o.getD fresh) := funext fun o => mutAt_append f a b _
    simp only [List.cons_append, mutAt, this]
  | .idx i :: a, b, p => by
    have : mutAt (a ++ b) f = mutAt a (mutAt b f) := funext fun o => mutAt_append f a b _
    simp only [List.cons_append, mutAt, this]

theorem modify_congr (f g : Params → Params) : ∀ (l : List Params) (i : Nat), (∀ x, l[i]? = some x → f x = g x) → l.modify i f = l.modify i g := by
  intro l i h
  apply List.ext_getElem?
  intro j
  rw [List.getElem?_modify, List.getElem?_modify]
  by_cases e : i = j
  · subst e
    cases hx : l[i]? with
    | none => rfl
    | some x => simp [h x hx]
  · simp [e]

theorem mutAt_congr (g g' : Params → Params) : ∀ (q : List Key) (H : List Entry), OneUse H → g (build (derive q H)) = g' (build (derive q H)) → mutAt q g (build H) = mutAt q g' (build H)
  | [], _, _, h => h
  | .name n :: q, H, ho, h => by
    have is := is_build H ho
    have ih := mutAt_congr g g' q (sub (.name n) H) (ho.sub _) h
    simp only [mutAt]
    rw [upsert_congr n (fun o => mutAt q g (o.getD fresh)) (fun o => mutAt q g' (o.getD fresh)) _ (by rw [lookup_getD is]; exact ih)]
  | .idx i :: q, H, ho, h => by
    have is := is_build H ho
    have ih := mutAt_congr g g' q (sub (.idx i) H) (ho.sub _) h
    have hel : ∀ j, (if h : j < (build H).arr.length then (build H).arr[j] else fresh) = build (sub (.idx j) H) := by
      intro j
      have hlen := is.len
      by_cases hj : j < (build H).arr.length
      · rw [dif_pos hj]
        have := is.elem j (by omega)
        rw [List.getElem?_eq_getElem hj] at this
        exact Option.some.inj this
      · rw [dif_neg hj, sub_nil_of_size (by omega)]; rfl
    simp only [mutAt]
    have e1 : (build H).arr.modify i (mutAt q g) = (build H).arr.modify i (mutAt q g') := by
      apply modify_congr
      intro x hx
      have hi := (List.getElem?_eq_some_iff.1 hx).1
      have := hel i
      rw [dif_pos hi] at this
      rw [List.getElem?_eq_getElem hi] at hx
      cases hx
      rw [this]; exact ih
    have e2 : (resize (i + 1) (build H).arr).modify i (mutAt q g) = (resize (i + 1) (build H).arr).modify i (mutAt q g') := by
      apply modify_congr
      intro x hx
      rw [idx_elem is, hel] at hx
      cases hx
      exact ih
    rw [e1, e2]

theorem step_build (H : List Entry) (ho : OneUse H) (o : Op) : step (build H) o = build (H ++ [entry H o]) := by
  rw [build_snoc]
  cases o with
  | set q s => rfl
  | touch q => rfl
  | put q n s =>
    have is := is_build _ (derive_one q H ho)
    simp only [step, entry, mutAt_append]
    apply mutAt_congr _ _ q H ho
    simp only [mutAt, putMember, apply]
    split
    · rename_i hf
      have ht := is.object (sub_name_object (derive_one q H ho) ((found_iff is n).1 hf))
      have : (build (derive q H)).withType .object = build (derive q H) := by
        revert ht
        cases build (derive q H) with
        | mk t s iv d b m a => intro ht; simp only [Params.type] at ht; subst ht; rfl
      rw [this]
    · rfl
  | add q s =>
    have is := is_build _ (derive_one q H ho)
    simp only [step, entry, mutAt_append]
    apply mutAt_congr _ _ q H ho
    rw [size_derive, ← is.len]
    simp only [mutAt, addElem, apply, Nat.lt_irrefl, and_false, if_false]
    cases build (derive q H) with
    | mk t s iv d b m a => rfl

theorem history_snoc (ops : List Op) (o : Op) : history (ops ++ [o]) = history ops ++ [entry (history ops) o] := by simp [history]

theorem run_build (ops : List Op) : OneUse (history ops) → run ops = build (history ops) := by
  induction ops using snocInd with
  | h0 => intro _; rfl
  | h1 ops o ih =>
    intro h
    rw [history_snoc] at h ⊢
    have : run (ops ++ [o]) = step (run ops) o := by simp [run]
    rw [this, ih h.left, step_build _ h.left]

theorem any_sub (n : String) (q : List Key) (H : List Entry) : (H.any fun e => reaches e.1 (.name n :: q)) = (sub (.name n) H).any fun e => reaches e.1 q := by
  rw [Bool.eq_iff_iff, List.any_eq_true, List.any_eq_true]
  constructor
  · rintro ⟨⟨p, o⟩, h1, h2⟩
    cases p with
    | nil => simp [reaches] at h2
    | cons k p =>
      rw [reaches] at h2
      by_cases hk : k = .name n
      · rw [if_pos hk] at h2; subst hk; exact ⟨(p, o), mem_sub.2 h1, h2⟩
      · rw [if_neg hk] at h2; cases k <;> simp [earlier] at h2
  · rintro ⟨e, h1, h2⟩
    exact ⟨_, mem_sub.1 h1, by rw [reaches, if_pos rfl]; exact h2⟩

theorem reached_name (n : String) (q : List Key) (H : List Entry) : reached H (.name n :: q) = (decide (sub (.name n) H ≠ []) && reached (sub (.name n) H) q) := by
  unfold reached
  rw [any_sub]
  cases hs : sub (.name n) H with
  | nil => simp
  | cons e l =>
    cases q with
    | nil => simp [reaches]
    | cons k q => simp

theorem reached_idx (i : Nat) (q : List Key) (H : List Entry) : reached H (.idx i :: q) = (decide (i < size H []) && reached (sub (.idx i) H) q) := by
  rw [Bool.eq_iff_iff]
  unfold reached
  simp only [List.isEmpty_cons, Bool.false_or, List.any_eq_true, Bool.and_eq_true, decide_eq_true_eq, Bool.or_eq_true, List.isEmpty_iff]
  constructor
  · rintro ⟨⟨p, o⟩, h1, h2⟩
    cases p with
    | nil => simp [reaches] at h2
    | cons k p =>
      rw [reaches] at h2
      by_cases hk : k = .idx i
      · rw [if_pos hk] at h2; subst hk
        exact ⟨size_le h1, .inr ⟨(p, o), mem_sub.2 h1, h2⟩⟩
      · rw [if_neg hk] at h2
        cases k with
        | name m => simp [earlier] at h2
        | idx j =>
          simp [earlier] at h2
          exact ⟨Nat.lt_trans h2.1 (size_le h1), .inl h2.2⟩
  · rintro ⟨h1, h2 | ⟨e, h2, h3⟩⟩
    · subst h2
      obtain ⟨j, p, o, h3, h4⟩ := size_pos h1
      refine ⟨_, h4, ?_⟩
      rw [reaches]
      by_cases e : j = i
      · rw [if_pos (by rw [e])]; cases p <;> rfl
      · rw [if_neg (by simpa using e)]; simp [earlier]; omega
    · exact ⟨_, mem_sub.1 h2, by rw [reaches, if_pos rfl]; exact h3⟩

theorem see_build : ∀ (q : List Key) (H : List Entry), OneUse H → see (get q (build H)) = seen H q
  | [], H, ho => by
    have is := is_build H ho
    simp only [get, seen, reached, List.isEmpty_nil, Bool.true_or, Bool.true_eq_false, if_false]
    exact is.top
  | .name n :: q, H, ho => by
    have is := is_build H ho
    have ih := see_build q (sub (.name n) H) (ho.sub _)
    simp only [get, is.members n]
    unfold seen
    rw [reached_name]
    by_cases hs : sub (.name n) H = []
    · simp [hs, see]
    · rw [if_neg hs, Option.bind_some, ih, uses_sub, written_sub, size_sub, decide_eq_true hs, Bool.true_and]
      rfl
  | .idx i :: q, H, ho => by
    have is := is_build H ho
    have ih := see_build q (sub (.idx i) H) (ho.sub _)
    simp only [get]
    unfold seen
    rw [reached_idx]
    by_cases hs : i < size H []
    · have ht := is.array (size_array ho (by omega))
      simp only [if_pos ht, is.elem i hs, Option.bind_some, ih, uses_sub, written_sub, size_sub, hs, decide_true, Bool.true_and]
      rfl
    · have : (build H).arr[i]? = none := by rw [List.getElem?_eq_none_iff, is.len]; omega
      simp [this, hs, see]

/-! ## C173 -/

/-- **C173.** After any operations on a parameter tree, none of whose places is used in two ways: at every place a reader sees what was written there last, or that it is an object, or an array with
its size; an empty place where nothing was written; and nothing at all where there is no place. -/
theorem reads_last_write (ops : List Op) (h : OneUse (history ops)) (q : List Key) : see (get q (run ops)) = seen (history ops) q := by
  rw [run_build ops h]
  exact see_build q _ h

/-- **C173.** In particular a value is read where it was set last, and stays while other places are written. -/
theorem value_stays (ops later : List Op) (p : List Key) (s : Scalar) (h : OneUse (history (ops ++ [.set p s] ++ later))) (hl : ∀ e ∈ (history (ops ++ [.set p s] ++ later)).drop (ops.length + 1), e.1 ≠ p) :
    see (get p (run (ops ++ [.set p s] ++ later))) = .value s := by
  rw [reads_last_write _ h]
  have pre : ∀ (l : List Op) (a : List Op), ∃ G, history (a ++ l) = history a ++ G ∧ (history a).length = a.length := by
    intro l
    induction l using snocInd with
    | h0 =>
      intro a
      refine ⟨[], by simp, ?_⟩
      induction a using snocInd with
      | h0 => rfl
      | h1 a o ih => rw [history_snoc]; simp [ih]
    | h1 l o ih =>
      intro a
      obtain ⟨G, h1, h2⟩ := ih a
      exact ⟨G ++ [entry (history (a ++ l)) o], by rw [← List.append_assoc, history_snoc, h1, List.append_assoc], h2⟩
  obtain ⟨G, h1, h2⟩ := pre later (ops ++ [.set p s])
  rw [history_snoc] at h1 h2
  rw [h1] at h hl ⊢
  rw [List.drop_left' (by simpa using h2)] at hl
  have he : (p, some s) ∈ (history ops ++ [(p, some s)] ++ G) := by simp
  have hu : ∀ (p : List Key) (o : Scalar), use p (p, some o) = some .value := by
    intro p o
    induction p with
    | nil => rw [use]
    | cons k p ih => rw [use]; simpa using ih
  have hm : Use.value ∈ (history ops ++ [(p, some s)] ++ G).filterMap (use p) := List.mem_filterMap.2 ⟨_, he, hu p s⟩
  have hd : ((history ops ++ [(p, some s)] ++ G).filterMap (use p)).head? = some .value := by
    cases hf : (history ops ++ [(p, some s)] ++ G).filterMap (use p) with
    | nil => rw [hf] at hm; simp at hm
    | cons v l =>
      have hv : v ∈ (history ops ++ [(p, some s)] ++ G).filterMap (use p) := by rw [hf]; simp
      obtain ⟨e', he', hv'⟩ := List.mem_filterMap.1 hv
      rw [List.head?_cons, h p e' he' _ he v .value hv' (hu p s)]
  have hw : written (history ops ++ [(p, some s)] ++ G) p = some s := by
    have hG : G.filterMap (fun e => if e.1 = p then e.2 else none) = [] := by
      rw [List.filterMap_eq_nil_iff]
      intro e he
      rw [if_neg (hl e he)]
    unfold written
    rw [List.filterMap_append, hG, List.append_nil, List.filterMap_append]
    simp
  have hr : reached (history ops ++ [(p, some s)] ++ G) p = true := by
    have : ∀ p : List Key, reaches p p = true := by
      intro p
      induction p with
      | nil => rw [reaches]
      | cons k p ih => rw [reaches, if_pos rfl]; exact ih
    unfold reached
    rw [Bool.or_eq_true]
    right
    rw [List.any_eq_true]
    exact ⟨_, he, this p⟩
  show seen (history ops ++ [(p, some s)] ++ G) p = _
  unfold seen
  rw [hr, hd, hw]
  rfl

/-- Without the condition it is false: an array that is also used as an object loses elements when an earlier one is written. -/
theorem mixed_use_violated (v w x : BitVec 64) :
    see (get [.idx 3] (run [.set [.idx 3] (.int v), .set [.name "n"] (.int w), .set [.idx 0] (.int x)])) = .invalid ∧
      see (get [.idx 3] (run [.set [.idx 3] (.int v), .set [.idx 0] (.int x)])) = .value (.int v) := ⟨rfl, rfl⟩

/-! ### An instance -/

def exOps : List Op := [.put [] "limit" (.int 5), .add [.name "xs"] (.bool true), .set [.name "xs", .idx 2] (.str "c"), .put [] "limit" (.str "none"), .touch [.name "later"], .add [.name "xs"] (.int 7)]

theorem exOps_history : history exOps = [([.name "limit"], some (.int 5)), ([.name "xs", .idx 0], some (.bool true)), ([.name "xs", .idx 2], some (.str "c")),
    ([.name "limit"], some (.str "none")), ([.name "later"], none), ([.name "xs", .idx 3], some (.int 7))] := by decide

theorem exOps_one : OneUse (history exOps) := by
  rw [exOps_history]
  intro q e he e' he' u u' hu hu'
  have key : ∀ x ∈ ([([.name "limit"], some (.int 5)), ([.name "xs", .idx 0], some (.bool true)), ([.name "xs", .idx 2], some (.str "c")),
    ([.name "limit"], some (.str "none")), ([.name "later"], none), ([.name "xs", .idx 3], some (.int 7))] : List Entry), ∀ v, use q x = some v →
      v = (if q = [] then .object else if q = [.name "xs"] then .array else .value) := by
    intro x hx v hv
    simp only [List.mem_cons, List.not_mem_nil, or_false] at hx
    rcases hx with rfl | rfl | rfl | rfl | rfl | rfl <;>
    · rcases q with _ | ⟨k, _ | ⟨k', _ | ⟨k'', q⟩⟩⟩ <;> simp [use] at hv <;> first | exact hv.symm | (obtain ⟨rfl, rfl⟩ := hv; simp) | (obtain ⟨rfl, rfl, rfl⟩ := hv; simp) | simp_all
  rw [key e he u hu, key e' he' u' hu']

example : see (get [.name "limit"] (run exOps)) = .value (.str "none") ∧ see (get [.name "xs"] (run exOps)) = .array 4 ∧ see (get [.name "xs", .idx 1] (run exOps)) = .empty ∧
    see (get [.name "xs", .idx 3] (run exOps)) = .value (.int 7) ∧ see (get [.name "later"] (run exOps)) = .empty ∧ see (get [.name "xs", .idx 4] (run exOps)) = .invalid := by
  simp only [reads_last_write exOps exOps_one]
  rw [exOps_history]
  decide

end Verif.Types.ParamTree
