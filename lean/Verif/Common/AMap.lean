/-!
# Association maps

Finite maps as association lists without duplicate keys. They stand for the hash maps of the code
(`absl::flat_hash_map`, `std::unordered_map`): only `find`, `insert`, `erase`, `clear` and `size` are
used, and none of the modelled code depends on the iteration order unless stated.
-/
namespace Verif

abbrev AMap (K A : Type) := List (K × A)

namespace AMap
variable {K A : Type} [DecidableEq K]

/-- `map.find(k)` -/
def find (m : AMap K A) (k : K) : Option A :=
  match m with
  | [] => none
  | (k', a) :: m => if k' = k then some a else find m k

/-- `map.erase(k)` -/
def erase (m : AMap K A) (k : K) : AMap K A := m.filter (fun p => p.1 ≠ k)

/-- `map[k] = a` -/
def set (m : AMap K A) (k : K) (a : A) : AMap K A := (k, a) :: erase m k

/-- the keys -/
def keys (m : AMap K A) : List K := m.map (·.1)

theorem find_cons (k' : K) (a : A) (m : AMap K A) (k : K) :
    find ((k', a) :: m) k = if k' = k then some a else find m k := rfl

theorem find_erase (m : AMap K A) (k k' : K) :
    find (erase m k) k' = if k' = k then none else find m k' := by
  induction m with
  | nil => simp [erase, find]
  | cons p m ih =>
    obtain ⟨q, a⟩ := p
    by_cases hq : q = k
    · subst hq
      have : erase ((q, a) :: m) q = erase m q := by simp [erase]
      rw [this, ih]
      by_cases h : k' = q
      · simp [h]
      · simp only [h, if_false, find_cons]
        have : ¬ q = k' := fun e => h e.symm
        simp [this]
    · have : erase ((q, a) :: m) k = (q, a) :: erase m k := by simp [erase, hq]
      rw [this, find_cons, ih, find_cons]
      by_cases h : q = k'
      · subst h; simp [hq]
      · simp [h]

theorem find_set (m : AMap K A) (k : K) (a : A) (k' : K) :
    find (set m k a) k' = if k' = k then some a else find m k' := by
  rw [set, find_cons, find_erase]
  by_cases h : k' = k
  · simp [h]
  · have : ¬ k = k' := fun e => h e.symm
    simp [h, this]

theorem find_none_iff (m : AMap K A) (k : K) : find m k = none ↔ k ∉ keys m := by
  induction m with
  | nil => simp [find, keys]
  | cons p m ih =>
    obtain ⟨q, a⟩ := p
    rw [find_cons]
    by_cases h : q = k
    · simp [h, keys]
    · have h2 : ¬ k = q := fun e => h e.symm
      simp [h, ih, keys, h2]

theorem find_isSome_iff (m : AMap K A) (k : K) : (find m k).isSome ↔ k ∈ keys m := by
  have := find_none_iff m k
  cases h : find m k with
  | none => simp [h] at this; simp [this]
  | some a => simp [h] at this; simp [this]

theorem keys_erase (m : AMap K A) (k : K) : keys (erase m k) = (keys m).filter (fun q => q ≠ k) := by
  simp [keys, erase, List.filter_map, Function.comp_def]

theorem keys_set (m : AMap K A) (k : K) (a : A) :
    keys (set m k a) = k :: (keys m).filter (fun q => q ≠ k) := by
  simp only [set, keys, List.map_cons]
  congr 1
  exact keys_erase m k

theorem find_mem (m : AMap K A) (k : K) (a : A) (h : find m k = some a) : (k, a) ∈ m := by
  induction m with
  | nil => simp [find] at h
  | cons p m ih =>
    obtain ⟨q, b⟩ := p
    rw [find_cons] at h
    by_cases hq : q = k
    · simp [hq] at h; simp [hq, h]
    · simp [hq] at h; exact List.mem_cons_of_mem _ (ih h)

theorem find_of_mem (m : AMap K A) (k : K) (a : A) (hn : (keys m).Nodup) (h : (k, a) ∈ m) :
    find m k = some a := by
  induction m with
  | nil => simp at h
  | cons p m ih =>
    obtain ⟨q, b⟩ := p
    rw [find_cons]
    simp only [keys, List.map_cons, List.nodup_cons] at hn
    rcases List.mem_cons.1 h with h | h
    · cases h; simp
    · have : k ∈ m.map (·.1) := List.mem_map.2 ⟨(k, a), h, rfl⟩
      have hq : ¬ q = k := fun e => hn.1 (e ▸ this)
      simp [hq]; exact ih hn.2 h

end AMap
end Verif
