/-!
# Sorting vectors in place: C164

`/repo/rapidudf/functions/simd/vector_sort.cc` 29–49 and 86–125: `sort`, `select`, `topk` and their versions on keys and values. Vectors are views of buffers that other vectors (slices,
`/repo/rapidudf/types/vector.h` 216–244; columns) may share.

Modelled: the checks, their order, what is passed to the library, and the memory before and after. The sorting library (x86-simd-sort) is a parameter with a contract (`Lib.Keeps`); outside its
contract a call is undefined: not a number among the keys of a context that does not announce it, a `k` beyond the vector, keys and values in the same memory.
-/
namespace Verif.Simd.Sort

/-! ## Memory and vectors -/

/-- Buffers with their elements. -/
abbrev Mem (K : Type) := Nat → List K

/-- `Vector<T>`: a buffer, the first element, the number of elements, and whether they may be changed, vector.h 70–130. -/
structure View where
  buf : Nat
  pos : Nat
  len : Nat
  writable : Bool

section
variable {K : Type}

/-- The elements of a vector. -/
def read (m : Mem K) (v : View) : List K := ((m v.buf).drop v.pos).take v.len

/-- The memory after the elements of a vector have been replaced. -/
def write (m : Mem K) (v : View) (l : List K) : Mem K := fun b => if b = v.buf then (m b).take v.pos ++ l ++ (m b).drop (v.pos + v.len) else m b

/-- The library: order of arguments as in vector_sort.cc, `hasNan` and `descending` last. -/
structure Lib (K : Type) where
  qsort : List K → Bool → Bool → List K
  qselect : List K → Nat → Bool → Bool → List K
  partialSort : List K → Nat → Bool → Bool → List K
  kvSort : List K → List K → Bool → Bool → List K × List K
  kvSelect : List K → List K → Nat → Bool → Bool → List K × List K
  kvPartial : List K → List K → Nat → Bool → Bool → List K × List K

/-- How a call ends. -/
inductive End where
  | done
  /-- `ReadonlyException` -/
  | readonly
  /-- `std::logic_error`, sizes differ -/
  | sizes
  /-- the library is used outside its contract -/
  | undefined
  deriving DecidableEq, Repr

/-- The calls; the context tells whether there may be elements that are not a number (`Context::SetHasNan`). -/
inductive Call where
  | sort (v : View) (descending : Bool)
  | select (v : View) (k : Nat) (descending : Bool)
  | topk (v : View) (k : Nat) (descending : Bool)
  | sortKV (key value : View) (descending : Bool)
  | selectKV (key value : View) (k : Nat) (descending : Bool)
  | topkKV (key value : View) (k : Nat) (descending : Bool)

variable (lib : Lib K) (isNan : K → Bool) (hasNan : Bool) (m : Mem K)

/-- The library can deal with these keys. -/
def keysFine (l : List K) : Bool := hasNan || l.all fun x => !isNan x

/-- Two vectors have no element in common. -/
def apart (v w : View) : Bool := v.buf ≠ w.buf || v.pos + v.len ≤ w.pos || w.pos + w.len ≤ v.pos

/-- A library function on the elements of one vector, vector_sort.cc 30–34, 37–41, 44–48. `k` is 0 for `sort`. -/
def inPlace (v : View) (k : Nat) (f : List K → List K) : End × Mem K :=
  if v.writable = false then (.readonly, m)
  else if keysFine isNan hasNan (read m v) = true ∧ k ≤ v.len then (.done, write m v (f (read m v)))
  else (.undefined, m)

/-- On keys and values, vector_sort.cc 88–100, 103–110, 113–121. -/
def inPlaceKV (key value : View) (k : Nat) (f : List K → List K → List K × List K) : End × Mem K :=
  if key.writable = false ∨ value.writable = false then (.readonly, m)
  else if key.len ≠ value.len then (.sizes, m)
  else if keysFine isNan hasNan (read m key) = true ∧ k ≤ key.len ∧ apart key value = true then
    (.done, write (write m key (f (read m key) (read m value)).1) value (f (read m key) (read m value)).2)
  else (.undefined, m)

/-- `simd_vector_sort`, `simd_vector_select`, `simd_vector_topk`, `simd_vector_sort_key_value`, `simd_vector_select_key_value`, `simd_vector_topk_key_value`. -/
def run : Call → End × Mem K
  | .sort v d => inPlace isNan hasNan m v 0 fun l => lib.qsort l hasNan d
  | .select v k d => inPlace isNan hasNan m v k fun l => lib.qselect l k hasNan d
  | .topk v k d => inPlace isNan hasNan m v k fun l => lib.partialSort l k hasNan d
  | .sortKV a b d => inPlaceKV isNan hasNan m a b 0 fun x y => lib.kvSort x y hasNan d
  | .selectKV a b k d => inPlaceKV isNan hasNan m a b k fun x y => lib.kvSelect x y k hasNan d
  | .topkKV a b k d => inPlaceKV isNan hasNan m a b k fun x y => lib.kvPartial x y k hasNan d

end

/-- A history of calls; the context may announce elements that are not a number anew before each. -/
def runAll {K : Type} (lib : Lib K) (isNan : K → Bool) : List (Bool × Call) → Mem K → List End × Mem K
  | [], m => ([], m)
  | (h, c) :: cs, m =>
    let r := run lib isNan h m c
    let s := runAll lib isNan cs r.2
    (r.1 :: s.1, s.2)

/-! ## Specification -/

/-- The wanted order: ascending or descending. -/
def ordered {K : Type} (le : K → K → Prop) (descending : Bool) (x y : K) : Prop := if descending = true then le y x else le x y

/-- In order. -/
def Sorted {K : Type} (le : K → K → Prop) (descending : Bool) (l : List K) : Prop := l.Pairwise (ordered le descending)

/-- The first `k` come before the others. -/
def First {K : Type} (le : K → K → Prop) (descending : Bool) (k : Nat) (l : List K) : Prop := ∀ x ∈ l.take k, ∀ y ∈ l.drop k, ordered le descending x y

/-- What the library promises, whenever it can deal with the keys: elements (pairs of key and value) are rearranged, all in order, or the first `k` before the others, or both. -/
structure Lib.Keeps {K : Type} (lib : Lib K) (le : K → K → Prop) (isNan : K → Bool) : Prop where
  qsort : ∀ l h d, keysFine isNan h l = true → (lib.qsort l h d).Perm l ∧ Sorted le d (lib.qsort l h d)
  qselect : ∀ l k h d, keysFine isNan h l = true → k ≤ l.length → (lib.qselect l k h d).Perm l ∧ First le d k (lib.qselect l k h d)
  partialSort : ∀ l k h d, keysFine isNan h l = true → k ≤ l.length →
    (lib.partialSort l k h d).Perm l ∧ Sorted le d ((lib.partialSort l k h d).take k) ∧ First le d k (lib.partialSort l k h d)
  kvLen : ∀ x y k h d, x.length = y.length → ((lib.kvSort x y h d).1.length = x.length ∧ (lib.kvSort x y h d).2.length = x.length) ∧
    ((lib.kvSelect x y k h d).1.length = x.length ∧ (lib.kvSelect x y k h d).2.length = x.length) ∧
    (lib.kvPartial x y k h d).1.length = x.length ∧ (lib.kvPartial x y k h d).2.length = x.length
  kvSort : ∀ x y h d, keysFine isNan h x = true → x.length = y.length →
    ((lib.kvSort x y h d).1.zip (lib.kvSort x y h d).2).Perm (x.zip y) ∧ Sorted le d (lib.kvSort x y h d).1
  kvSelect : ∀ x y k h d, keysFine isNan h x = true → x.length = y.length → k ≤ x.length →
    ((lib.kvSelect x y k h d).1.zip (lib.kvSelect x y k h d).2).Perm (x.zip y) ∧ First le d k (lib.kvSelect x y k h d).1
  kvPartial : ∀ x y k h d, keysFine isNan h x = true → x.length = y.length → k ≤ x.length →
    ((lib.kvPartial x y k h d).1.zip (lib.kvPartial x y k h d).2).Perm (x.zip y) ∧ Sorted le d ((lib.kvPartial x y k h d).1.take k) ∧ First le d k (lib.kvPartial x y k h d).1

/-- The element `i` of buffer `b` is one of the vector's. -/
def View.Covers (v : View) (b i : Nat) : Prop := b = v.buf ∧ v.pos ≤ i ∧ i < v.pos + v.len

/-- The vector lies within its buffer. -/
def View.Within {K : Type} (m : Mem K) (v : View) : Prop := v.pos + v.len ≤ (m v.buf).length

/-- The vectors of a call. -/
def Call.views : Call → List View
  | .sort v _ => [v]
  | .select v _ _ => [v]
  | .topk v _ _ => [v]
  | .sortKV a b _ => [a, b]
  | .selectKV a b _ _ => [a, b]
  | .topkKV a b _ _ => [a, b]

/-- The pairs of keys and values. -/
def pairs {K : Type} (m : Mem K) (a b : View) : List (K × K) := (read m a).zip (read m b)

/-- What a finished call leaves in its vectors. -/
def Meets {K : Type} (le : K → K → Prop) (m m' : Mem K) : Call → Prop
  | .sort v d => (read m' v).Perm (read m v) ∧ Sorted le d (read m' v)
  | .select v k d => (read m' v).Perm (read m v) ∧ First le d k (read m' v)
  | .topk v k d => (read m' v).Perm (read m v) ∧ Sorted le d ((read m' v).take k) ∧ First le d k (read m' v)
  | .sortKV a b d => (pairs m' a b).Perm (pairs m a b) ∧ Sorted le d (read m' a)
  | .selectKV a b k d => (pairs m' a b).Perm (pairs m a b) ∧ First le d k (read m' a)
  | .topkKV a b k d => (pairs m' a b).Perm (pairs m a b) ∧ Sorted le d ((read m' a).take k) ∧ First le d k (read m' a)

/-- The `k` of a call, 0 if it has none. -/
def Call.count : Call → Nat
  | .select _ k _ => k
  | .topk _ k _ => k
  | .selectKV _ _ k _ => k
  | .topkKV _ _ k _ => k
  | _ => 0

/-- The keys of a call. -/
def Call.keys : Call → View
  | .sort v _ => v
  | .select v _ _ => v
  | .topk v _ _ => v
  | .sortKV a _ _ => a
  | .selectKV a _ _ _ => a
  | .topkKV a _ _ _ => a

/-- A call the documentation allows: vectors within their buffers, writable, of the same size and without common elements, `k` at most their size, and no key that is not a number unless the
context announces it. -/
structure Allowed {K : Type} (isNan : K → Bool) (hasNan : Bool) (m : Mem K) (c : Call) : Prop where
  within : ∀ v ∈ c.views, v.Within m
  writable : ∀ v ∈ c.views, v.writable = true
  size : ∀ v ∈ c.views, v.len = c.keys.len
  count : c.count ≤ c.keys.len
  apart : ∀ a b, c.views = [a, b] → ∀ i j, ¬ (a.Covers i j ∧ b.Covers i j)
  nan : hasNan = true ∨ ∀ x ∈ read m c.keys, isNan x = false

/-! ## Lemmas -/

section
variable {K : Type} {m : Mem K}

theorem read_length {v : View} (h : v.Within m) : (read m v).length = v.len := by
  unfold read View.Within at *
  rw [List.length_take, List.length_drop]
  omega

theorem write_same {v : View} (l : List K) (h : v.Within m) (hl : l.length = v.len) : read (write m v l) v = l := by
  unfold read write View.Within at *
  have e : ((m v.buf).take v.pos).length = v.pos := by rw [List.length_take]; omega
  simp only [if_true]
  rw [List.append_assoc, List.drop_left' e, List.take_left' hl]

theorem write_at {v : View} (l : List K) (h : v.Within m) (hl : l.length = v.len) (b i : Nat) (hn : ¬ v.Covers b i) : (write m v l b)[i]? = (m b)[i]? := by
  unfold write View.Within View.Covers at *
  by_cases hb : b = v.buf
  · rw [if_pos hb]
    subst hb
    have e : ((m v.buf).take v.pos).length = v.pos := by rw [List.length_take]; omega
    by_cases hi : i < v.pos
    · rw [List.append_assoc, List.getElem?_append_left (by omega), List.getElem?_take_of_lt hi]
    · have hj : v.pos + v.len ≤ i := by
        apply Nat.le_of_not_lt
        intro hc
        exact hn ⟨rfl, by omega, hc⟩
      rw [List.getElem?_append_right (by rw [List.length_append, e, hl]; omega), List.length_append, e, hl, List.getElem?_drop]
      congr 1
      omega
  · rw [if_neg hb]

theorem write_length {v : View} (l : List K) (h : v.Within m) (hl : l.length = v.len) (b : Nat) : (write m v l b).length = (m b).length := by
  unfold write View.Within at *
  by_cases hb : b = v.buf
  · rw [if_pos hb]
    subst hb
    simp only [List.length_append, List.length_take, List.length_drop]
    omega
  · rw [if_neg hb]

theorem write_perm {v : View} (l : List K) (hp : l.Perm (read m v)) (b : Nat) : (write m v l b).Perm (m b) := by
  unfold write
  by_cases hb : b = v.buf
  · rw [if_pos hb]
    subst hb
    have e : (m v.buf).take v.pos ++ read m v ++ (m v.buf).drop (v.pos + v.len) = m v.buf := by
      unfold read
      rw [List.append_assoc, ← List.drop_drop, List.take_append_drop, List.take_append_drop]
    have q : ((m v.buf).take v.pos ++ l ++ (m v.buf).drop (v.pos + v.len)).Perm ((m v.buf).take v.pos ++ read m v ++ (m v.buf).drop (v.pos + v.len)) :=
      ((List.Perm.refl _).append hp).append (List.Perm.refl _)
    rw [e] at q
    exact q
  · rw [if_neg hb]

theorem read_ext {m m' : Mem K} {v : View} (h : ∀ i, v.Covers v.buf i → (m' v.buf)[i]? = (m v.buf)[i]?) : read m' v = read m v := by
  unfold read
  apply List.ext_getElem?
  intro i
  by_cases hi : i < v.len
  · rw [List.getElem?_take_of_lt hi, List.getElem?_take_of_lt hi, List.getElem?_drop, List.getElem?_drop]
    exact h _ ⟨rfl, by omega, by omega⟩
  · rw [List.getElem?_eq_none (by rw [List.length_take]; omega), List.getElem?_eq_none (by rw [List.length_take]; omega)]

theorem apart_covers {v w : View} (h : apart v w = true) (b i : Nat) (h1 : v.Covers b i) (h2 : w.Covers b i) : False := by
  unfold apart View.Covers at *
  simp only [ne_eq, decide_not, Bool.or_eq_true, Bool.not_eq_true', decide_eq_false_iff_not, decide_eq_true_eq] at h
  rcases h with (h | h) | h
  · exact h (h1.1.symm.trans h2.1)
  · omega
  · omega

theorem covers_apart {v w : View} (hl : w.len = v.len) (h : ∀ b i, ¬ (v.Covers b i ∧ w.Covers b i)) : apart v w = true := by
  unfold apart View.Covers at *
  simp only [ne_eq, decide_not, Bool.or_eq_true, Bool.not_eq_true', decide_eq_false_iff_not, decide_eq_true_eq]
  by_cases hb : v.buf = w.buf
  · by_cases h1 : v.pos ≤ w.pos
    · have := h v.buf w.pos
      simp only [true_and, hb] at this
      omega
    · have := h v.buf v.pos
      simp only [true_and, hb] at this
      omega
  · exact .inl (.inl hb)

theorem fine_of {isNan : K → Bool} {h : Bool} {l : List K} (hn : h = true ∨ ∀ x ∈ l, isNan x = false) : keysFine isNan h l = true := by
  unfold keysFine
  rcases hn with hn | hn
  · rw [hn]; rfl
  · rw [List.all_eq_true.2 (fun x hx => by rw [hn x hx]; rfl), Bool.or_true]

end

/-! ## The properties -/

section
variable {K : Type} {lib : Lib K} {le : K → K → Prop} {isNan : K → Bool} {hasNan : Bool} {m : Mem K}

/-- What is true after a finished call on one vector. -/
theorem inPlace_done {v : View} {k : Nat} {f : List K → List K} (hw : v.Within m) (h : (inPlace isNan hasNan m v k f).1 = .done) :
    v.writable = true ∧ keysFine isNan hasNan (read m v) = true ∧ k ≤ v.len ∧ (inPlace isNan hasNan m v k f).2 = write m v (f (read m v)) := by
  have _ := hw
  unfold inPlace at h ⊢
  split at h
  · cases h
  · split at h
    · rename_i h1 h2
      rw [if_neg h1, if_pos h2]
      exact ⟨by simpa using h1, h2.1, h2.2, rfl⟩
    · cases h

theorem inPlaceKV_done {a b : View} {k : Nat} {f : List K → List K → List K × List K} (h : (inPlaceKV isNan hasNan m a b k f).1 = .done) :
    a.writable = true ∧ b.writable = true ∧ a.len = b.len ∧ keysFine isNan hasNan (read m a) = true ∧ k ≤ a.len ∧ apart a b = true ∧
      (inPlaceKV isNan hasNan m a b k f).2 = write (write m a (f (read m a) (read m b)).1) b (f (read m a) (read m b)).2 := by
  unfold inPlaceKV at h ⊢
  split at h
  · cases h
  · split at h
    · cases h
    · split at h
      · rename_i h1 h2 h3
        rw [if_neg h1, if_neg h2, if_pos h3]
        have h1' : a.writable = true ∧ b.writable = true := by
          constructor
          · cases he : a.writable with
            | true => rfl
            | false => exact absurd (.inl he) h1
          · cases he : b.writable with
            | true => rfl
            | false => exact absurd (.inr he) h1
        exact ⟨h1'.1, h1'.2, Decidable.not_not.1 h2, h3.1, h3.2.1, h3.2.2, rfl⟩
      · cases h

theorem zip_fst {α : Type} : ∀ {x y : List α}, x.length = y.length → (x.zip y).map Prod.fst = x
  | [], [], _ => rfl
  | a :: x, b :: y, h => by
    rw [List.zip_cons_cons, List.map_cons, zip_fst (Nat.succ.inj h)]

theorem zip_snd {α : Type} : ∀ {x y : List α}, x.length = y.length → (x.zip y).map Prod.snd = y
  | [], [], _ => rfl
  | a :: x, b :: y, h => by
    rw [List.zip_cons_cons, List.map_cons, zip_snd (Nat.succ.inj h)]

/-- The parts of a memory after keys and values have been replaced. -/
theorem both {a b : View} {x y : List K} (ha : a.Within m) (hb : b.Within m) (hx : x.length = a.len) (hy : y.length = b.len) (hp : apart a b = true) :
    read (write (write m a x) b y) a = x ∧ read (write (write m a x) b y) b = y ∧
      (∀ q i, ¬ a.Covers q i → ¬ b.Covers q i → (write (write m a x) b y q)[i]? = (m q)[i]?) ∧ ∀ q, (write (write m a x) b y q).length = (m q).length := by
  have hb' : b.Within (write m a x) := by
    unfold View.Within at *
    rw [write_length x ha hx]
    exact hb
  refine ⟨?_, write_same y hb' hy, ?_, ?_⟩
  · rw [read_ext (m := write m a x) fun i hi => write_at y hb' hy _ _ fun hc => apart_covers hp _ _ hi hc]
    exact write_same x ha hx
  · intro q i h1 h2
    rw [write_at y hb' hy _ _ h2, write_at x ha hx _ _ h1]
  · intro q
    rw [write_length y hb' hy, write_length x ha hx]

/-- A finished call on one vector: elements elsewhere stay, buffers keep their elements. -/
theorem inPlace_rest {v : View} {k : Nat} {f : List K → List K} (hw : v.Within m) (hf : keysFine isNan hasNan (read m v) = true → k ≤ v.len → (f (read m v)).Perm (read m v))
    (h : (inPlace isNan hasNan m v k f).1 = .done) :
    read (inPlace isNan hasNan m v k f).2 v = f (read m v) ∧ (∀ b i, ¬ v.Covers b i → ((inPlace isNan hasNan m v k f).2 b)[i]? = (m b)[i]?) ∧
      ∀ b, ((inPlace isNan hasNan m v k f).2 b).Perm (m b) := by
  obtain ⟨_, h2, h3, h4⟩ := inPlace_done hw h
  have hp := hf h2 h3
  have hl : (f (read m v)).length = v.len := hp.length_eq.trans (read_length hw)
  rw [h4]
  exact ⟨write_same _ hw hl, write_at _ hw hl, write_perm _ hp⟩

theorem inPlaceKV_rest {a b : View} {k : Nat} {f : List K → List K → List K × List K} (ha : a.Within m) (hb : b.Within m)
    (hl : a.len = b.len → (f (read m a) (read m b)).1.length = a.len ∧ (f (read m a) (read m b)).2.length = a.len)
    (hf : keysFine isNan hasNan (read m a) = true → k ≤ a.len → ((f (read m a) (read m b)).1.zip (f (read m a) (read m b)).2).Perm ((read m a).zip (read m b)))
    (h : (inPlaceKV isNan hasNan m a b k f).1 = .done) :
    read (inPlaceKV isNan hasNan m a b k f).2 a = (f (read m a) (read m b)).1 ∧ read (inPlaceKV isNan hasNan m a b k f).2 b = (f (read m a) (read m b)).2 ∧
      (∀ q i, ¬ a.Covers q i → ¬ b.Covers q i → ((inPlaceKV isNan hasNan m a b k f).2 q)[i]? = (m q)[i]?) ∧ ∀ q, ((inPlaceKV isNan hasNan m a b k f).2 q).Perm (m q) := by
  obtain ⟨_, _, h3, h4, h5, h6, h7⟩ := inPlaceKV_done h
  obtain ⟨hx, hy⟩ := hl h3
  have hp := hf h4 h5
  have e : (f (read m a) (read m b)).1.length = (f (read m a) (read m b)).2.length := hx.trans hy.symm
  have e' : (read m a).length = (read m b).length := by rw [read_length ha, read_length hb, h3]
  have p1 : (f (read m a) (read m b)).1.Perm (read m a) := by
    have := hp.map Prod.fst
    rwa [zip_fst e, zip_fst e'] at this
  have p2 : (f (read m a) (read m b)).2.Perm (read m b) := by
    have := hp.map Prod.snd
    rwa [zip_snd e, zip_snd e'] at this
  obtain ⟨b1, b2, b3, _⟩ := both ha hb hx (hy.trans h3) h6
  rw [h7]
  refine ⟨b1, b2, b3, fun q => ?_⟩
  have r : read (write m a (f (read m a) (read m b)).1) b = read m b := read_ext fun i hi => write_at _ ha hx _ _ fun hc => apart_covers h6 _ _ hc hi
  exact (write_perm _ (by rw [r]; exact p2) q).trans (write_perm _ p1 q)

/-- What is true of every finished call. -/
theorem run_done (hL : lib.Keeps le isNan) (c : Call) (hw : ∀ v ∈ c.views, v.Within m) (h : (run lib isNan hasNan m c).1 = .done) :
    Meets le m (run lib isNan hasNan m c).2 c ∧ (∀ b i, (∀ v ∈ c.views, ¬ v.Covers b i) → ((run lib isNan hasNan m c).2 b)[i]? = (m b)[i]?) ∧
      (∀ b, ((run lib isNan hasNan m c).2 b).Perm (m b)) ∧ ∀ v ∈ c.views, v.writable = true := by
  cases c with
  | sort v d =>
    have hv := hw v (by simp [Call.views])
    obtain ⟨w1, w2, w3, _⟩ := inPlace_done hv h
    obtain ⟨p1, p2⟩ := hL.qsort _ hasNan d w2
    obtain ⟨r1, r2, r3⟩ := inPlace_rest hv (fun _ _ => p1) h
    refine ⟨⟨?_, ?_⟩, fun b i hn => r2 b i (hn v (by simp [Call.views])), r3, by simpa [Call.views] using w1⟩
    · simp only [run, r1]; exact p1
    · simp only [run, r1]; exact p2
  | select v k d =>
    have hv := hw v (by simp [Call.views])
    obtain ⟨w1, w2, w3, _⟩ := inPlace_done hv h
    obtain ⟨p1, p2⟩ := hL.qselect _ k hasNan d w2 (by rw [read_length hv]; exact w3)
    obtain ⟨r1, r2, r3⟩ := inPlace_rest hv (fun _ _ => p1) h
    refine ⟨⟨?_, ?_⟩, fun b i hn => r2 b i (hn v (by simp [Call.views])), r3, by simpa [Call.views] using w1⟩
    · simp only [run, r1]; exact p1
    · simp only [run, r1]; exact p2
  | topk v k d =>
    have hv := hw v (by simp [Call.views])
    obtain ⟨w1, w2, w3, _⟩ := inPlace_done hv h
    obtain ⟨p1, p2, p3⟩ := hL.partialSort _ k hasNan d w2 (by rw [read_length hv]; exact w3)
    obtain ⟨r1, r2, r3⟩ := inPlace_rest hv (fun _ _ => p1) h
    refine ⟨⟨?_, ?_, ?_⟩, fun b i hn => r2 b i (hn v (by simp [Call.views])), r3, by simpa [Call.views] using w1⟩
    · simp only [run, r1]; exact p1
    · simp only [run, r1]; exact p2
    · simp only [run, r1]; exact p3
  | sortKV a b d =>
    have ha := hw a (by simp [Call.views])
    have hb := hw b (by simp [Call.views])
    obtain ⟨w1, w2, w3, w4, w5, _, _⟩ := inPlaceKV_done h
    have e : (read m a).length = (read m b).length := by rw [read_length ha, read_length hb, w3]
    obtain ⟨p1, p2⟩ := hL.kvSort _ _ hasNan d w4 e
    obtain ⟨r1, r2, r3, r4⟩ := inPlaceKV_rest ha hb (fun _ => by rw [← read_length ha]; exact (hL.kvLen _ _ 0 hasNan d e).1) (fun _ _ => p1) h
    refine ⟨⟨?_, ?_⟩, fun q i hn => r3 q i (hn a (by simp [Call.views])) (hn b (by simp [Call.views])), r4, by simpa [Call.views] using ⟨w1, w2⟩⟩
    · simp only [pairs, run, r1, r2]; exact p1
    · simp only [run, r1]; exact p2
  | selectKV a b k d =>
    have ha := hw a (by simp [Call.views])
    have hb := hw b (by simp [Call.views])
    obtain ⟨w1, w2, w3, w4, w5, _, _⟩ := inPlaceKV_done h
    have e : (read m a).length = (read m b).length := by rw [read_length ha, read_length hb, w3]
    obtain ⟨p1, p2⟩ := hL.kvSelect _ _ k hasNan d w4 e (by rw [read_length ha]; exact w5)
    obtain ⟨r1, r2, r3, r4⟩ := inPlaceKV_rest ha hb (fun _ => by rw [← read_length ha]; exact (hL.kvLen _ _ k hasNan d e).2.1) (fun _ _ => p1) h
    refine ⟨⟨?_, ?_⟩, fun q i hn => r3 q i (hn a (by simp [Call.views])) (hn b (by simp [Call.views])), r4, by simpa [Call.views] using ⟨w1, w2⟩⟩
    · simp only [pairs, run, r1, r2]; exact p1
    · simp only [run, r1]; exact p2
  | topkKV a b k d =>
    have ha := hw a (by simp [Call.views])
    have hb := hw b (by simp [Call.views])
    obtain ⟨w1, w2, w3, w4, w5, _, _⟩ := inPlaceKV_done h
    have e : (read m a).length = (read m b).length := by rw [read_length ha, read_length hb, w3]
    obtain ⟨p1, p2, p3⟩ := hL.kvPartial _ _ k hasNan d w4 e (by rw [read_length ha]; exact w5)
    obtain ⟨r1, r2, r3, r4⟩ := inPlaceKV_rest ha hb (fun _ => by rw [← read_length ha]; exact (hL.kvLen _ _ k hasNan d e).2.2) (fun _ _ => p1) h
    refine ⟨⟨?_, ?_, ?_⟩, fun q i hn => r3 q i (hn a (by simp [Call.views])) (hn b (by simp [Call.views])), r4, by simpa [Call.views] using ⟨w1, w2⟩⟩
    · simp only [pairs, run, r1, r2]; exact p1
    · simp only [run, r1]; exact p2
    · simp only [run, r1]; exact p3

/-- **C164.** Every allowed call finishes: the vector (keys with their values) is rearranged in the order asked for. -/
theorem sorts_in_place (hL : lib.Keeps le isNan) (c : Call) (h : Allowed isNan hasNan m c) : (run lib isNan hasNan m c).1 = .done ∧ Meets le m (run lib isNan hasNan m c).2 c := by
  have hd : (run lib isNan hasNan m c).1 = .done := by
    have hn := fine_of h.nan
    have hk := h.count
    have one : ∀ (v : View) (k : Nat) (f : List K → List K), v.writable = true → keysFine isNan hasNan (read m v) = true → k ≤ v.len → (inPlace isNan hasNan m v k f).1 = .done := by
      intro v k f h1 h2 h3
      unfold inPlace
      rw [if_neg (by rw [h1]; exact Bool.noConfusion), if_pos ⟨h2, h3⟩]
    have two : ∀ (a b : View) (k : Nat) (f : List K → List K → List K × List K), a.writable = true → b.writable = true → b.len = a.len → keysFine isNan hasNan (read m a) = true →
        k ≤ a.len → apart a b = true → (inPlaceKV isNan hasNan m a b k f).1 = .done := by
      intro a b k f h1 h2 h3 h4 h5 h6
      unfold inPlaceKV
      rw [if_neg (by rw [h1, h2]; simp), if_neg (by rw [h3]; exact fun hc => hc rfl), if_pos ⟨h4, h5, h6⟩]
    cases c with
    | sort v d => exact one _ _ _ (h.writable v (by simp [Call.views])) hn (Nat.zero_le _)
    | select v k d => exact one _ _ _ (h.writable v (by simp [Call.views])) hn hk
    | topk v k d => exact one _ _ _ (h.writable v (by simp [Call.views])) hn hk
    | sortKV a b d =>
      have hs := h.size b (by simp [Call.views])
      exact two _ _ _ _ (h.writable a (by simp [Call.views])) (h.writable b (by simp [Call.views])) hs hn (Nat.zero_le _) (covers_apart hs (h.apart a b rfl))
    | selectKV a b k d =>
      have hs := h.size b (by simp [Call.views])
      exact two _ _ _ _ (h.writable a (by simp [Call.views])) (h.writable b (by simp [Call.views])) hs hn hk (covers_apart hs (h.apart a b rfl))
    | topkKV a b k d =>
      have hs := h.size b (by simp [Call.views])
      exact two _ _ _ _ (h.writable a (by simp [Call.views])) (h.writable b (by simp [Call.views])) hs hn hk (covers_apart hs (h.apart a b rfl))
  exact ⟨hd, (run_done hL c h.within hd).1⟩

/-- **C164.** A call with a vector that must not be changed is refused, whatever else is wrong with it; one with writable keys and values of different size too. Nothing is changed. -/
theorem sort_refused (c : Call) :
    ((∃ v ∈ c.views, v.writable = false) → run lib isNan hasNan m c = (.readonly, m)) ∧
      ((∀ v ∈ c.views, v.writable = true) → (∃ v ∈ c.views, v.len ≠ c.keys.len) → run lib isNan hasNan m c = (.sizes, m)) := by
  have one : ∀ (v : View) (k : Nat) (f : List K → List K), v.writable = false → inPlace isNan hasNan m v k f = (.readonly, m) := by
    intro v k f h1
    unfold inPlace
    rw [if_pos h1]
  have two : ∀ (a b : View) (k : Nat) (f : List K → List K → List K × List K), (a.writable = false ∨ b.writable = false) → inPlaceKV isNan hasNan m a b k f = (.readonly, m) := by
    intro a b k f h1
    unfold inPlaceKV
    rw [if_pos h1]
  have three : ∀ (a b : View) (k : Nat) (f : List K → List K → List K × List K), (a.writable = true ∧ b.writable = true) → b.len ≠ a.len → inPlaceKV isNan hasNan m a b k f = (.sizes, m) := by
    intro a b k f h1 h2
    unfold inPlaceKV
    rw [if_neg (by rw [h1.1, h1.2]; simp), if_pos (fun hc => h2 hc.symm)]
  constructor
  · intro h
    cases c <;> simp only [Call.views, List.mem_singleton, List.mem_cons, List.not_mem_nil, or_false, exists_eq_left, exists_eq_or_imp] at h
    · simp only [run]; exact one _ _ _ h
    · simp only [run]; exact one _ _ _ h
    · simp only [run]; exact one _ _ _ h
    · simp only [run]; exact two _ _ _ _ h
    · simp only [run]; exact two _ _ _ _ h
    · simp only [run]; exact two _ _ _ _ h
  · intro hw h
    cases c <;> simp only [Call.views, Call.keys, List.mem_singleton, List.mem_cons, List.not_mem_nil, or_false, exists_eq_left, exists_eq_or_imp, forall_eq_or_imp, forall_eq, ne_eq,
      not_true_eq_false, false_or] at h hw
    · simp only [run]; exact three _ _ _ _ hw h
    · simp only [run]; exact three _ _ _ _ hw h
    · simp only [run]; exact three _ _ _ _ hw h

/-- One call, refused or finished. -/
theorem run_kept (hL : lib.Keeps le isNan) (c : Call) (hw : ∀ v ∈ c.views, v.Within m) (h : (run lib isNan hasNan m c).1 ≠ .undefined) :
    (∀ b, ((run lib isNan hasNan m c).2 b).Perm (m b)) ∧ ∀ b i, (∀ v ∈ c.views, v.writable = true → ¬ v.Covers b i) → ((run lib isNan hasNan m c).2 b)[i]? = (m b)[i]? := by
  by_cases hd : (run lib isNan hasNan m c).1 = .done
  · obtain ⟨_, h2, h3, h4⟩ := run_done hL c hw hd
    exact ⟨h3, fun b i hn => h2 b i fun v hv => hn v hv (h4 v hv)⟩
  · have e : (run lib isNan hasNan m c).2 = m := by
      have one : ∀ (v : View) (k : Nat) (f : List K → List K), (inPlace isNan hasNan m v k f).1 ≠ .done → (inPlace isNan hasNan m v k f).2 = m := by
        intro v k f
        unfold inPlace
        split
        · intro _; rfl
        · split
          · intro hc; exact absurd rfl hc
          · intro _; rfl
      have two : ∀ (a b : View) (k : Nat) (f : List K → List K → List K × List K), (inPlaceKV isNan hasNan m a b k f).1 ≠ .done → (inPlaceKV isNan hasNan m a b k f).2 = m := by
        intro a b k f
        unfold inPlaceKV
        split
        · intro _; rfl
        · split
          · intro _; rfl
          · split
            · intro hc; exact absurd rfl hc
            · intro _; rfl
      cases c
      · exact one _ _ _ hd
      · exact one _ _ _ hd
      · exact one _ _ _ hd
      · exact two _ _ _ _ hd
      · exact two _ _ _ _ hd
      · exact two _ _ _ _ hd
    rw [e]
    exact ⟨fun _ => List.Perm.refl _, fun _ _ _ => rfl⟩

end

/-- **C164.** After any history of calls on vectors that may share memory, refused ones among them, every buffer holds the same elements as before, and an element that is in no writable vector passed
to one of the calls is where it was. -/
theorem history_keeps_elements {K : Type} {lib : Lib K} {le : K → K → Prop} {isNan : K → Bool} (hL : lib.Keeps le isNan) :
    ∀ (cs : List (Bool × Call)) (m : Mem K), (∀ c ∈ cs, ∀ v ∈ c.2.views, v.Within m) → .undefined ∉ (runAll lib isNan cs m).1 →
      (∀ b, ((runAll lib isNan cs m).2 b).Perm (m b)) ∧
        ∀ b i, (∀ c ∈ cs, ∀ v ∈ c.2.views, v.writable = true → ¬ v.Covers b i) → ((runAll lib isNan cs m).2 b)[i]? = (m b)[i]?
  | [], _, _, _ => ⟨fun _ => List.Perm.refl _, fun _ _ _ => rfl⟩
  | (h, c) :: cs, m, hw, hu => by
    simp only [runAll, List.mem_cons, not_or] at hu
    obtain ⟨k1, k2⟩ := run_kept hL c (hw (h, c) List.mem_cons_self) (Ne.symm hu.1)
    obtain ⟨j1, j2⟩ := history_keeps_elements hL cs (run lib isNan h m c).2 (fun d hd v hv => by
      unfold View.Within
      rw [(k1 v.buf).length_eq]
      exact hw d (List.mem_cons_of_mem _ hd) v hv) hu.2
    refine ⟨fun b => (j1 b).trans (k1 b), fun b i hn => ?_⟩
    simp only [runAll]
    rw [j2 b i fun d hd => hn d (List.mem_cons_of_mem _ hd)]
    exact k2 b i (hn (h, c) List.mem_cons_self)

/-! ## The hypotheses can be met -/

/-- A library that sorts everything, on natural numbers where 99 stands for not a number. -/
def before (d : Bool) (x y : Nat) : Bool := if d = true then decide (y ≤ x) else decide (x ≤ y)

def exampleLib : Lib Nat where
  qsort l _ d := l.mergeSort (before d)
  qselect l _ _ d := l.mergeSort (before d)
  partialSort l _ _ d := l.mergeSort (before d)
  kvSort x y _ d := ((x.zip y).mergeSort fun p q => before d p.1 q.1).unzip
  kvSelect x y _ _ d := ((x.zip y).mergeSort fun p q => before d p.1 q.1).unzip
  kvPartial x y _ _ d := ((x.zip y).mergeSort fun p q => before d p.1 q.1).unzip

theorem before_trans (d : Bool) (x y z : Nat) (h1 : before d x y = true) (h2 : before d y z = true) : before d x z = true := by
  cases d <;> simp [before] at * <;> omega

theorem before_total (d : Bool) (x y : Nat) : (before d x y || before d y x) = true := by
  cases d <;> simp [before] <;> omega

theorem before_ordered {d : Bool} {x y : Nat} (h : before d x y = true) : ordered (· ≤ ·) d x y := by
  cases d <;> simpa [before, ordered] using h

theorem first_of_sorted {d : Bool} {k : Nat} {l : List Nat} (h : Sorted (· ≤ ·) d l) : First (· ≤ ·) d k l := by
  intro x hx y hy
  unfold Sorted at h
  rw [← List.take_append_drop k l, List.pairwise_append] at h
  exact h.2.2 x hx y hy

theorem exampleLib_keeps : exampleLib.Keeps (· ≤ ·) (fun x => x == 99) := by
  have one : ∀ (l : List Nat) (d : Bool), (l.mergeSort (before d)).Perm l ∧ Sorted (· ≤ ·) d (l.mergeSort (before d)) := fun l d =>
    ⟨List.mergeSort_perm _ _, (List.pairwise_mergeSort (fun a b c => before_trans d a b c) (fun a b => before_total d a b) l).imp before_ordered⟩
  have two : ∀ (x y : List Nat) (d : Bool), x.length = y.length →
      ((((x.zip y).mergeSort fun p q => before d p.1 q.1).unzip.1.length = x.length ∧ ((x.zip y).mergeSort fun p q => before d p.1 q.1).unzip.2.length = x.length) ∧
        ((((x.zip y).mergeSort fun p q => before d p.1 q.1).unzip.1.zip ((x.zip y).mergeSort fun p q => before d p.1 q.1).unzip.2)).Perm (x.zip y)) ∧
        Sorted (· ≤ ·) d ((x.zip y).mergeSort fun p q => before d p.1 q.1).unzip.1 := by
    intro x y d h
    have hl : ((x.zip y).mergeSort fun p q => before d p.1 q.1).length = x.length := by
      rw [List.length_mergeSort, List.length_zip]
      omega
    refine ⟨⟨⟨?_, ?_⟩, ?_⟩, ?_⟩
    · rw [List.unzip_fst, List.length_map]; exact hl
    · rw [List.unzip_snd, List.length_map]; exact hl
    · rw [List.zip_unzip]; exact List.mergeSort_perm _ _
    · rw [List.unzip_fst]
      unfold Sorted
      rw [List.pairwise_map]
      exact (List.pairwise_mergeSort (fun a b c => before_trans d a.1 b.1 c.1) (fun a b => before_total d a.1 b.1) (x.zip y)).imp before_ordered
  exact {
    qsort := fun l _ d _ => one l d
    qselect := fun l _ _ d _ _ => ⟨(one l d).1, first_of_sorted (one l d).2⟩
    partialSort := fun l _ _ d _ _ => ⟨(one l d).1, List.Pairwise.sublist (List.take_sublist _ _) (one l d).2, first_of_sorted (one l d).2⟩
    kvLen := fun x y _ _ d h => ⟨(two x y d h).1.1, (two x y d h).1.1, (two x y d h).1.1⟩
    kvSort := fun x y _ d _ h => ⟨(two x y d h).1.2, (two x y d h).2⟩
    kvSelect := fun x y _ _ d _ h _ => ⟨(two x y d h).1.2, first_of_sorted (two x y d h).2⟩
    kvPartial := fun x y _ _ d _ h _ => ⟨(two x y d h).1.2, List.Pairwise.sublist (List.take_sublist _ _) (two x y d h).2, first_of_sorted (two x y d h).2⟩ }

/-- Two buffers; the middle of the first one is sorted with values from the second. -/
def exampleMem : Mem Nat := fun b => if b = 0 then [9, 3, 5, 4, 0] else [70, 71, 72, 73]

def exampleCall : Call := .topkKV ⟨0, 1, 3, true⟩ ⟨1, 0, 3, true⟩ 2 true

/-- Non-vacuity of `sorts_in_place`. -/
theorem example_allowed : Allowed (fun x => x == 99) false exampleMem exampleCall where
  within := by simp [exampleCall, Call.views, View.Within, exampleMem]
  writable := by simp [exampleCall, Call.views]
  size := by simp [exampleCall, Call.views, Call.keys]
  count := by decide
  apart := by
    intro a b h i j hc
    simp only [exampleCall, Call.views, List.cons.injEq, and_true] at h
    obtain ⟨rfl, rfl⟩ := h
    simp only [View.Covers] at hc
    omega
  nan := by
    right
    intro x hx
    have : x ∈ [3, 5, 4] := hx
    simp only [List.mem_cons, List.not_mem_nil, or_false] at this
    rcases this with rfl | rfl | rfl <;> rfl

example : (run exampleLib (fun x => x == 99) false exampleMem exampleCall).1 = .done := (sorts_in_place exampleLib_keeps exampleCall example_allowed).1

/-- Non-vacuity of `history_keeps_elements`: a finished and a refused call, on vectors that overlap. -/
def exampleCalls : List (Bool × Call) := [(false, exampleCall), (true, .sort ⟨0, 0, 4, false⟩ true), (false, .sortKV ⟨0, 0, 2, true⟩ ⟨1, 0, 3, true⟩ false)]

theorem example_ends : (runAll exampleLib (fun x => x == 99) exampleCalls exampleMem).1 = [.done, .readonly, .sizes] := by
  have h := (sorts_in_place exampleLib_keeps exampleCall example_allowed).1
  have e : (runAll exampleLib (fun x => x == 99) exampleCalls exampleMem).1 = [(run exampleLib (fun x => x == 99) false exampleMem exampleCall).1, .readonly, .sizes] := rfl
  rw [e, h]

example : ∀ b, ((runAll exampleLib (fun x => x == 99) exampleCalls exampleMem).2 b).Perm (exampleMem b) :=
  (history_keeps_elements exampleLib_keeps exampleCalls exampleMem (by simp [exampleCalls, exampleCall, Call.views, View.Within, exampleMem]) (by rw [example_ends]; decide)).1

end Verif.Simd.Sort
