import Verif.Lru.Spec
import Verif.Common.ListLemmas
/-!
# Refinement proof of the LRU cache
-/
namespace Verif.Lru
variable {K V : Type} [DecidableEq K]

/-- One cell of the joint view: node identity, key, value. -/
abbrev Cell (K V : Type) := Nat × K × V

def lookupC (c : List (Cell K V)) (k : K) : Option (V × Nat) :=
  (c.find? (fun t => t.2.1 = k)).map (fun t => (t.2.2, t.1))

/-- The model state `s` represents the joint view `c`. -/
structure Rep (s : Lru K V) (c : List (Cell K V)) : Prop where
  list : s.list = c.map (fun t => (t.1, t.2.1))
  map : ∀ k, s.map.find k = lookupC c k
  len : s.map.length = c.length
  mapND : (AMap.keys s.map).Nodup
  idsND : (c.map (·.1)).Nodup
  keysND : (c.map (·.2.1)).Nodup
  fresh : ∀ t ∈ c, t.1 < s.next

def entries (c : List (Cell K V)) : List (K × V) := c.map (fun t => (t.2.1, t.2.2))

theorem lookupC_cons (t : Cell K V) (c : List (Cell K V)) (k : K) :
    lookupC (t :: c) k = if t.2.1 = k then some (t.2.2, t.1) else lookupC c k := by
  unfold lookupC
  by_cases h : t.2.1 = k <;> simp [h]

theorem lookup_entries (c : List (Cell K V)) (k : K) :
    Spec.lookup (entries c) k = (lookupC c k).map (·.1) := by
  induction c with
  | nil => simp [entries, Spec.lookup, lookupC]
  | cons t c ih =>
    rw [lookupC_cons]
    have : entries (t :: c) = (t.2.1, t.2.2) :: entries c := rfl
    rw [this]
    unfold Spec.lookup at *
    by_cases h : t.2.1 = k
    · simp [h]
    · simp [h, ih]

theorem remove_entries (c : List (Cell K V)) (k : K) :
    Spec.remove (entries c) k = entries (c.filter (fun t => t.2.1 ≠ k)) := by
  simp [Spec.remove, entries, List.filter_map, Function.comp_def]

theorem lookupC_none (c : List (Cell K V)) (k : K) :
    lookupC c k = none ↔ ∀ t ∈ c, t.2.1 ≠ k := by
  simp [lookupC]

theorem lookupC_some (c : List (Cell K V)) (k : K) (v : V) (j : Nat)
    (h : lookupC c k = some (v, j)) : (j, k, v) ∈ c := by
  unfold lookupC at h
  rw [Option.map_eq_some_iff] at h
  obtain ⟨t, ht, he⟩ := h
  have h1 := List.mem_of_find?_eq_some ht
  have h2 := List.find?_some ht
  obtain ⟨a, b, d⟩ := t
  simp at h2 he
  obtain ⟨rfl, rfl⟩ := he
  subst h2
  exact h1

theorem lookupC_of_mem (c : List (Cell K V)) (t : Cell K V) (hn : (c.map (·.2.1)).Nodup) (h : t ∈ c) :
    lookupC c t.2.1 = some (t.2.2, t.1) := by
  induction c with
  | nil => simp at h
  | cons u c ih =>
    rw [lookupC_cons]
    simp only [List.map_cons, List.nodup_cons] at hn
    rcases List.mem_cons.1 h with rfl | h
    · simp
    · have hm : t.2.1 ∈ c.map (·.2.1) := List.mem_map.2 ⟨t, h, rfl⟩
      have : u.2.1 ≠ t.2.1 := fun e => hn.1 (e ▸ hm)
      simp [this]; exact ih hn.2 h

theorem lookupC_filter (c : List (Cell K V)) (k k' : K) :
    lookupC (c.filter (fun t => t.2.1 ≠ k)) k' = if k' = k then none else lookupC c k' := by
  induction c with
  | nil => simp [lookupC]
  | cons t c ih =>
    by_cases h : t.2.1 = k
    · rw [List.filter_cons_of_neg (by simp [h]), ih, lookupC_cons]
      by_cases h' : k' = k
      · simp [h']
      · have : t.2.1 ≠ k' := fun e => h' (by rw [← e, h])
        simp [h', this]
    · rw [List.filter_cons_of_pos (by simp [h]), lookupC_cons, lookupC_cons, ih]
      by_cases h' : t.2.1 = k'
      · have : k' ≠ k := fun e => h (by rw [h', e])
        simp [h', this]
      · simp [h']

/-- With unique keys and ids, dropping the node of a key is dropping the key. -/
theorem filter_id_eq_filter_key (c : List (Cell K V)) (j : Nat) (k : K) (v : V)
    (hi : (c.map (·.1)).Nodup) (hk : (c.map (·.2.1)).Nodup) (h : (j, k, v) ∈ c) :
    c.filter (fun t => t.1 ≠ j) = c.filter (fun t => t.2.1 ≠ k) := by
  apply List.filter_congr
  intro t ht
  by_cases e : t.1 = j
  · have : t = (j, k, v) := inj_on_of_nodup_map hi ht h (by simpa using e)
    simp [this]
  · have : t.2.1 ≠ k := by
      intro e2
      have : t = (j, k, v) := inj_on_of_nodup_map hk ht h (by simpa using e2)
      exact e (by rw [this])
    simp [e, this]

theorem listErase_map (c : List (Cell K V)) (j : Nat) :
    listErase (c.map (fun t => (t.1, t.2.1))) j = (c.filter (fun t => t.1 ≠ j)).map (fun t => (t.1, t.2.1)) := by
  simp [listErase, List.filter_map, Function.comp_def]

theorem filter_length_of_mem (c : List (Cell K V)) (j : Nat) (k : K) (v : V)
    (hk : (c.map (·.2.1)).Nodup) (h : (j, k, v) ∈ c) :
    (c.filter (fun t => t.2.1 ≠ k)).length + 1 = c.length := by
  induction c with
  | nil => simp at h
  | cons u c ih =>
    simp only [List.map_cons, List.nodup_cons] at hk
    rcases List.mem_cons.1 h with rfl | h
    · have : ∀ t ∈ c, t.2.1 ≠ k := by
        intro t ht e
        exact hk.1 (List.mem_map.2 ⟨t, ht, e⟩)
      have : c.filter (fun t => decide (t.2.1 ≠ k)) = c := List.filter_eq_self.2 (by simpa using this)
      rw [List.filter_cons_of_neg (by simp), this]
      simp
    · have hu : u.2.1 ≠ k := fun e => hk.1 (List.mem_map.2 ⟨(j, k, v), h, by simp [e]⟩)
      rw [List.filter_cons_of_pos (by simpa using hu)]
      have := ih hk.2 h
      simp only [List.length_cons]; omega

theorem amap_erase_length (m : AMap K (V × Nat)) (k : K) (hn : (AMap.keys m).Nodup) (h : k ∈ AMap.keys m) :
    (AMap.erase m k).length + 1 = m.length := by
  induction m with
  | nil => simp [AMap.keys] at h
  | cons p m ih =>
    simp only [AMap.keys, List.map_cons, List.nodup_cons] at hn
    simp only [AMap.keys, List.map_cons, List.mem_cons] at h
    by_cases hp : p.1 = k
    · have h2 : ∀ q ∈ m, q.1 ≠ k := by
        intro q hq e
        exact hn.1 (by rw [hp, ← e]; exact List.mem_map.2 ⟨q, hq, rfl⟩)
      have h3 : m.filter (fun p => decide (p.1 ≠ k)) = m := List.filter_eq_self.2 (by simpa using h2)
      simp only [AMap.erase]
      rw [List.filter_cons_of_neg (by simp [hp]), h3]
      simp
    · have h4 : k ∈ AMap.keys m := by
        rcases h with h | h
        · exact absurd h.symm hp
        · exact h
      have := ih hn.2 h4
      simp only [AMap.erase] at *
      rw [List.filter_cons_of_pos (by simpa using hp)]
      simp only [List.length_cons]; omega

theorem amap_erase_nodup (m : AMap K (V × Nat)) (k : K) (hn : (AMap.keys m).Nodup) :
    (AMap.keys (AMap.erase m k)).Nodup := by
  rw [AMap.keys_erase]; exact hn.filter _

/-- Removing a cell keeps the representation. -/
theorem rep_remove (s : Lru K V) (c : List (Cell K V)) (hr : Rep s c) (j : Nat) (k : K) (v : V)
    (h : (j, k, v) ∈ c) :
    Rep { s with list := listErase s.list j, map := s.map.erase k } (c.filter (fun t => t.2.1 ≠ k)) := by
  have hmem : k ∈ AMap.keys s.map := by
    rw [← AMap.find_isSome_iff, hr.map]
    have := lookupC_of_mem c (j, k, v) hr.keysND h
    simp at this; simp [this]
  refine ⟨?_, ?_, ?_, ?_, ?_, ?_, ?_⟩
  · simp only [hr.list]
    rw [listErase_map, filter_id_eq_filter_key c j k v hr.idsND hr.keysND h]
  · intro k'
    simp only [AMap.find_erase, hr.map, lookupC_filter]
  · have h1 := amap_erase_length s.map k hr.mapND hmem
    have h2 := filter_length_of_mem c j k v hr.keysND h
    have h3 := hr.len
    simp only; omega
  · exact amap_erase_nodup _ _ hr.mapND
  · exact hr.idsND.sublist ((List.filter_sublist).map _)
  · exact hr.keysND.sublist ((List.filter_sublist).map _)
  · intro t ht
    exact hr.fresh t (List.mem_filter.1 ht).1

theorem erase_absent (m : AMap K (V × Nat)) (k : K) (h : m.find k = none) : AMap.erase m k = m := by
  rw [AMap.find_none_iff] at h
  apply List.filter_eq_self.2
  intro p hp
  simp only [ne_eq, decide_eq_true_eq]
  intro e
  exact h (List.mem_map.2 ⟨p, hp, e⟩)

/-- Adding a fresh key at the front keeps the representation. -/
theorem rep_push (s : Lru K V) (c : List (Cell K V)) (hr : Rep s c) (k : K) (v : V)
    (h : lookupC c k = none) : Rep (pushFront s k v) ((s.next, k, v) :: c) := by
  have hf : s.map.find k = none := by rw [hr.map, h]
  refine ⟨?_, ?_, ?_, ?_, ?_, ?_, ?_⟩
  · simp [pushFront, hr.list]
  · intro k'
    simp only [pushFront, AMap.find_set, lookupC_cons, hr.map]
    by_cases e : k' = k
    · simp [e]
    · have : ¬ k = k' := fun x => e x.symm
      simp [e, this]
  · simp only [pushFront, AMap.set]
    rw [erase_absent _ _ hf]
    simp [hr.len]
  · simp only [pushFront, AMap.keys_set, List.nodup_cons]
    exact ⟨by simp, hr.mapND.filter _⟩
  · simp only [List.map_cons, List.nodup_cons]
    refine ⟨?_, hr.idsND⟩
    intro hm
    obtain ⟨t, ht, e⟩ := List.mem_map.1 hm
    have := hr.fresh t ht
    omega
  · simp only [List.map_cons, List.nodup_cons]
    refine ⟨?_, hr.keysND⟩
    intro hm
    obtain ⟨t, ht, e⟩ := List.mem_map.1 hm
    exact (lookupC_none c k).1 h t ht e
  · intro t ht
    simp only [pushFront]
    rcases List.mem_cons.1 ht with rfl | ht
    · simp
    · have := hr.fresh t ht; omega

theorem dropLast_eq_filter (c : List (Cell K V)) (t : Cell K V)
    (hk : ((c ++ [t]).map (·.2.1)).Nodup) :
    (c ++ [t]).filter (fun u => u.2.1 ≠ t.2.1) = c := by
  rw [List.filter_append]
  simp only [List.map_append, List.map_cons, List.map_nil] at hk
  rw [List.nodup_append] at hk
  have : ∀ u ∈ c, u.2.1 ≠ t.2.1 := by
    intro u hu e
    exact hk.2.2 u.2.1 (List.mem_map.2 ⟨u, hu, rfl⟩) t.2.1 (by simp) e
  have h1 : c.filter (fun u => decide (u.2.1 ≠ t.2.1)) = c := List.filter_eq_self.2 (by simpa using this)
  rw [h1]; simp

/-- `evict` on a non-empty cache drops exactly the last cell. -/
theorem rep_evict (s : Lru K V) (c : List (Cell K V)) (hr : Rep s c) (hne : c ≠ []) :
    ∃ s', evict s = some s' ∧ Rep s' c.dropLast ∧ s'.next = s.next ∧ s'.cap = s.cap := by
  obtain ⟨c', t, rfl⟩ : ∃ c' t, c = c' ++ [t] := ⟨c.dropLast, c.getLast hne, (List.dropLast_concat_getLast hne).symm⟩
  have hl : s.list.getLast? = some (t.1, t.2.1) := by simp [hr.list]
  refine ⟨{ s with map := s.map.erase t.2.1, list := listErase s.list t.1 }, by simp only [evict, hl], ?_, rfl, rfl⟩
  have := rep_remove s _ hr t.1 t.2.1 t.2.2 (by simp)
  rw [dropLast_eq_filter c' t hr.keysND] at this
  simpa using this

/-- Simulation relation. -/
def Sim (s : Lru K V) (a : Spec.S K V) : Prop :=
  ∃ c, Rep s c ∧ a.entries = entries c ∧ a.cap = s.cap

/-- One call: same output, relation kept. The call must not be an insertion of an absent key into a
cache whose capacity is 0. -/
theorem sim_step (s : Lru K V) (a : Spec.S K V) (h : Sim s a) (o : Op K V)
    (hcap : 0 < s.cap) :
    (step s o).2 = (Spec.step a o).2 ∧ Sim (step s o).1 (Spec.step a o).1 := by
  obtain ⟨c, hr, he, hc⟩ := h
  have hlen : s.map.length = a.entries.length := by rw [hr.len, he]; simp [entries]
  have hlk : ∀ k, Spec.lookup a.entries k = (s.map.find k).map (·.1) := by
    intro k; rw [he, lookup_entries, hr.map]
  cases o with
  | size => exact ⟨by simp [step, Spec.step, hlen], c, hr, he, hc⟩
  | empty =>
    refine ⟨?_, c, hr, he, hc⟩
    simp only [step, Spec.step, Out.bool.injEq]
    cases hm : s.map with
    | nil => cases he' : a.entries with
      | nil => rfl
      | cons x l => rw [hm, he'] at hlen; simp at hlen
    | cons x l => cases he' : a.entries with
      | nil => rw [hm, he'] at hlen; simp at hlen
      | cons x l => rfl
  | contains k =>
    refine ⟨?_, c, hr, he, hc⟩
    simp [step, Spec.step, hlk]
  | insert k v =>
    simp only [step, Spec.step, insert, hlk]
    cases hf : s.map.find k with
    | some p => exact ⟨by simp, by simpa using ⟨c, hr, he, hc⟩⟩
    | none =>
      have hcn : lookupC c k = none := by rw [← hr.map, hf]
      by_cases hfull : s.map.length ≥ s.cap
      · have hne : c ≠ [] := by
          intro e; subst e
          have := hr.len; simp at this; rw [this] at hfull; simp at hfull; omega
        obtain ⟨s', hev, hr', hn, hcp⟩ := rep_evict s c hr hne
        have hfull' : a.entries.length ≥ a.cap := by rw [← hlen, hc]; exact hfull
        have hnone : lookupC c.dropLast k = none := by
          rw [lookupC_none] at hcn ⊢
          intro t ht; exact hcn t (List.dropLast_subset _ ht)
        simp only [hfull, if_true, hev, Option.map_none, Option.isSome_none, Bool.false_eq_true, if_false, hfull']
        refine ⟨trivial, _, rep_push s' _ hr' k v hnone, ?_, by simp [pushFront, hcp, hc]⟩
        simp [entries, he, List.map_dropLast]
      · have hfull' : ¬ a.entries.length ≥ a.cap := by rw [← hlen, hc]; exact hfull
        simp only [hfull, if_false, Option.map_none, Option.isSome_none, Bool.false_eq_true, hfull']
        exact ⟨trivial, _, rep_push s _ hr k v hcn, by simp [entries, he], by simp [pushFront, hc]⟩
  | erase k =>
    simp only [step, Spec.step, erase]
    refine ⟨trivial, ?_⟩
    cases hf : s.map.find k with
    | none =>
      have hcn : lookupC c k = none := by rw [← hr.map, hf]
      refine ⟨c, hr, ?_, hc⟩
      simp only [he, remove_entries]
      congr 1
      exact List.filter_eq_self.2 (by simpa using (lookupC_none c k).1 hcn)
    | some p =>
      obtain ⟨v, j⟩ := p
      have hm := lookupC_some c k v j (by rw [← hr.map, hf])
      exact ⟨_, rep_remove s c hr j k v hm, by simp only [he, remove_entries], hc⟩
  | get k =>
    simp only [step, Spec.step, get, hlk]
    cases hf : s.map.find k with
    | none => exact ⟨by simp, by simpa using ⟨c, hr, he, hc⟩⟩
    | some p =>
      obtain ⟨v, j⟩ := p
      have hm := lookupC_some c k v j (by rw [← hr.map, hf])
      by_cases hh : s.list.head?.map (·.1) = some j
      · simp only [hh, if_true, Option.map_some]
        refine ⟨trivial, c, hr, ?_, hc⟩
        -- the cell is already at the front
        cases c with
        | nil => simp at hm
        | cons t c =>
          have ht : t.1 = j := by simpa [hr.list] using hh
          have htt : t = (j, k, v) :=
            inj_on_of_nodup_map hr.idsND (List.mem_cons_self) hm (by simpa using ht)
          subst htt
          simp only [he, remove_entries]
          have hk := hr.keysND
          simp only [List.map_cons, List.nodup_cons] at hk
          have hall : ∀ u ∈ c, u.2.1 ≠ k := by
            intro u hu e; exact hk.1 (List.mem_map.2 ⟨u, hu, e⟩)
          rw [List.filter_cons_of_neg (by simp), List.filter_eq_self.2 (by simpa using hall)]
          rfl
      · simp only [hh, if_false, Option.map_some]
        refine ⟨trivial, ?_⟩
        have hrem := rep_remove s c hr j k v hm
        have hnone : lookupC (c.filter (fun t => t.2.1 ≠ k)) k = none := by
          rw [lookupC_filter]; simp
        have hpush := rep_push _ _ hrem k v hnone
        refine ⟨(s.next, k, v) :: c.filter (fun t => t.2.1 ≠ k), ?_, ?_, hc⟩
        rotate_left
        · simp only [he, remove_entries]
          rfl
        · have hset : AMap.set (AMap.erase s.map k) k (v, s.next) = AMap.set s.map k (v, s.next) := by
            simp [AMap.set, AMap.erase, List.filter_filter]
          simp only [pushFront] at hpush
          rw [hset] at hpush
          exact hpush
  | clear =>
    refine ⟨rfl, [], ⟨rfl, ?_, rfl, ?_, ?_, ?_, ?_⟩, rfl, hc⟩ <;> simp [step, AMap.find, lookupC, AMap.keys]
  | resetCapacity n =>
    exact ⟨rfl, c, ⟨hr.list, hr.map, hr.len, hr.mapND, hr.idsND, hr.keysND, hr.fresh⟩, he, rfl⟩

end Verif.Lru
