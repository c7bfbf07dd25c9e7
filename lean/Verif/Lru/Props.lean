import Verif.Lru.Lemmas
import Verif.Lru.ThreadCached
/-!
# Properties of the LRU cache (C01, C70)
-/
namespace Verif.Lru
variable {K V : Type} [DecidableEq K]

/-! ## C01 -/

/-- Histories in which the capacity is never set to 0. -/
def PosCaps (ops : List (Op K V)) : Prop := ∀ n, Op.resetCapacity n ∈ ops → 0 < n

theorem sim_run (ops : List (Op K V)) (hops : PosCaps ops) (s : Lru K V) (a : Spec.S K V)
    (h : Sim s a) (hcap : 0 < s.cap) :
    (run s ops).2 = (Spec.run a ops).2 ∧ Sim (run s ops).1 (Spec.run a ops).1 := by
  induction ops generalizing s a with
  | nil => exact ⟨rfl, h⟩
  | cons o os ih =>
    have hs := sim_step s a h o hcap
    have hc' : 0 < (step s o).1.cap := by
      cases o with
      | resetCapacity n => exact hops n (by simp)
      | insert k v =>
        have := hs.2
        obtain ⟨c, _, _, e⟩ := this
        rw [← e]
        obtain ⟨_, _, _, e0⟩ := h
        simp only [Spec.step]
        split
        · simpa [e0] using hcap
        · split <;> simpa [e0] using hcap
      | get k => simp only [step, get]; split <;> (try split) <;> simpa using hcap
      | erase k => simp only [step, erase]; split <;> simpa using hcap
      | _ => simpa [step] using hcap
    have := ih (fun n hn => hops n (List.mem_cons_of_mem _ hn)) _ _ hs.2 hc'
    exact ⟨by simp only [run, Spec.run, hs.1, this.1], this.2⟩

theorem sim_init (cap : Nat) : Sim (init cap : Lru K V) ⟨[], cap⟩ :=
  ⟨[], ⟨rfl, fun _ => rfl, rfl, by simp [init, AMap.keys], by simp, by simp, by simp⟩, rfl, rfl⟩

/-- **C01.** Every history of calls on a cache of positive capacity produces exactly the outputs of
the recency-list specification `Spec.step`. -/
theorem lru_refines_recency_list (cap : Nat) (hcap : 0 < cap) (ops : List (Op K V)) (hops : PosCaps ops) :
    (run (init cap) ops).2 = (Spec.run ⟨[], cap⟩ ops).2 :=
  (sim_run ops hops _ _ (sim_init cap) hcap).1

theorem spec_no_ub (ops : List (Op K V)) (a : Spec.S K V) : Out.ub ∉ (Spec.run a ops).2 := by
  induction ops generalizing a with
  | nil => simp [Spec.run]
  | cons o os ih =>
    simp only [Spec.run, List.mem_cons, not_or]
    refine ⟨?_, ih _⟩
    cases o <;> simp only [Spec.step] <;> (try split) <;> (try split) <;> simp

/-- **C01.** No such history runs into undefined behaviour. -/
theorem lru_no_undefined_behaviour (cap : Nat) (hcap : 0 < cap) (ops : List (Op K V)) (hops : PosCaps ops) :
    Out.ub ∉ (run (init cap) ops).2 := by
  rw [lru_refines_recency_list cap hcap ops hops]; exact spec_no_ub _ _

theorem spec_bounded (cap : Nat) (hcap : 0 < cap) (ops : List (Op K V)) (hops : ∀ n, Op.resetCapacity n ∉ ops)
    (a : Spec.S K V) (ha : a.entries.length ≤ cap) (hc : a.cap = cap) :
    (Spec.run a ops).1.entries.length ≤ cap := by
  induction ops generalizing a with
  | nil => exact ha
  | cons o os ih =>
    simp only [Spec.run]
    have hf : ∀ k : K, (Spec.remove a.entries k).length ≤ a.entries.length :=
      fun k => List.length_filter_le _ _
    refine ih (fun n h => hops n (List.mem_cons_of_mem _ h)) _ ?_ ?_
    · cases o with
      | insert k v =>
        simp only [Spec.step]
        split
        · exact ha
        · split <;> simp only [List.length_cons, List.length_dropLast] <;> omega
      | get k =>
        simp only [Spec.step]
        split
        · exact ha
        · rename_i v hv
          have : (Spec.remove a.entries k).length < a.entries.length := by
            unfold Spec.lookup at hv
            rw [Option.map_eq_some_iff] at hv
            obtain ⟨e, he, _⟩ := hv
            have h1 := List.mem_of_find?_eq_some he
            have h2 := List.find?_some he
            apply List.length_filter_lt_length_iff_exists.2
            exact ⟨e, h1, by simpa using h2⟩
          simp only [List.length_cons]; omega
      | erase k => simp only [Spec.step]; have := hf k; omega
      | clear => simp [Spec.step]
      | resetCapacity n => exact absurd (List.mem_cons_self) (hops n)
      | _ => exact ha
    · cases o with
      | insert k v => simp only [Spec.step]; split <;> (try split) <;> exact hc
      | get k => simp only [Spec.step]; split <;> exact hc
      | resetCapacity n => exact absurd (List.mem_cons_self) (hops n)
      | _ => exact hc

/-- **C01.** As long as the capacity is not changed, the number of entries never exceeds it. -/
theorem lru_size_le_capacity (cap : Nat) (hcap : 0 < cap) (ops : List (Op K V))
    (hops : ∀ n, Op.resetCapacity n ∉ ops) :
    ∃ n, (step (run (init cap) ops).1 .size).2 = .nat n ∧ n ≤ cap := by
  obtain ⟨c, hr, he, _⟩ := (sim_run ops (fun n h => absurd h (hops n)) _ _ (sim_init (V := V) cap) hcap).2
  refine ⟨_, rfl, ?_⟩
  have := spec_bounded cap hcap ops hops ⟨[], cap⟩ (by simp) rfl
  rw [he] at this
  rw [hr.len]; simpa [entries] using this

/-- Operations that neither remove `k` explicitly nor change the capacity. -/
def Harmless (k : K) : Op K V → Prop
  | .erase k' => k' ≠ k
  | .clear => False
  | .resetCapacity _ => False
  | _ => True

theorem spec_depth_step (a : Spec.S K V) (o : Op K V) (k : K) (hk : Harmless k o) (m : Nat) (hm : m + 1 < a.cap)
    (h : ∃ pre v post, a.entries = pre ++ (k, v) :: post ∧ pre.length ≤ m) :
    (∃ pre v post, (Spec.step a o).1.entries = pre ++ (k, v) :: post ∧ pre.length ≤ m + 1)
      ∧ (Spec.step a o).1.cap = a.cap := by
  obtain ⟨pre, v, post, he, hl⟩ := h
  cases o with
  | insert k' v' =>
    simp only [Spec.step]
    split
    · exact ⟨⟨pre, v, post, he, by omega⟩, rfl⟩
    · split
      · rename_i hfull
        refine ⟨?_, rfl⟩
        have hp : post ≠ [] := by
          intro e
          rw [he, e] at hfull
          simp at hfull; omega
        refine ⟨(k', v') :: pre, v, post.dropLast, ?_, by simp; omega⟩
        simp only [he]
        rw [List.dropLast_append_of_ne_nil (by simp), List.dropLast_cons_of_ne_nil hp]
        simp
      · exact ⟨⟨(k', v') :: pre, v, post, by simp [he], by simp; omega⟩, rfl⟩
  | get k' =>
    simp only [Spec.step]
    split
    · exact ⟨⟨pre, v, post, he, by omega⟩, rfl⟩
    · rename_i w hw
      refine ⟨?_, rfl⟩
      by_cases hkk : k' = k
      · subst hkk
        exact ⟨[], w, _, rfl, by simp⟩
      · refine ⟨(k', w) :: Spec.remove pre k', v, Spec.remove post k', ?_, ?_⟩
        · have : k ≠ k' := fun e => hkk e.symm
          simp [he, Spec.remove, List.filter_append, List.filter_cons, this]
        · have : (Spec.remove pre k').length ≤ pre.length := List.length_filter_le _ _
          simp; omega
  | erase k' =>
    simp only [Spec.step]
    refine ⟨⟨Spec.remove pre k', v, Spec.remove post k', ?_, ?_⟩, trivial⟩
    · have : k ≠ k' := fun e => hk e.symm
      simp [he, Spec.remove, List.filter_append, List.filter_cons, this]
    · have : (Spec.remove pre k').length ≤ pre.length := List.length_filter_le _ _
      omega
  | clear => exact absurd hk id
  | resetCapacity n => exact absurd hk id
  | _ => exact ⟨⟨pre, v, post, he, by omega⟩, rfl⟩

theorem spec_depth_run (os : List (Op K V)) (a : Spec.S K V) (k : K) (hk : ∀ o ∈ os, Harmless k o) (m : Nat)
    (hm : m + os.length < a.cap)
    (h : ∃ pre v post, a.entries = pre ++ (k, v) :: post ∧ pre.length ≤ m) :
    ∃ pre v post, (Spec.run a os).1.entries = pre ++ (k, v) :: post := by
  induction os generalizing a m with
  | nil => obtain ⟨pre, v, post, he, _⟩ := h; exact ⟨pre, v, post, he⟩
  | cons o os ih =>
    simp only [List.length_cons] at hm
    have h1 := spec_depth_step a o k (hk o (by simp)) m (by omega) h
    exact ih (Spec.step a o).1 (fun o ho => hk o (List.mem_cons_of_mem _ ho)) (m + 1) (by rw [h1.2]; omega) h1.1

theorem spec_run_append (a : Spec.S K V) (os ps : List (Op K V)) :
    Spec.run a (os ++ ps) = ((Spec.run (Spec.run a os).1 ps).1, (Spec.run a os).2 ++ (Spec.run (Spec.run a os).1 ps).2) := by
  induction os generalizing a with
  | nil => simp [Spec.run]
  | cons o os ih => simp [Spec.run, ih]

theorem spec_cap_run (os : List (Op K V)) (a : Spec.S K V) (h : ∀ n, Op.resetCapacity n ∉ os) :
    (Spec.run a os).1.cap = a.cap := by
  induction os generalizing a with
  | nil => rfl
  | cons o os ih =>
    simp only [Spec.run]
    rw [ih _ (fun n hn => h n (List.mem_cons_of_mem _ hn))]
    cases o with
    | insert k v => simp only [Spec.step]; split <;> (try split) <;> rfl
    | get k => simp only [Spec.step]; split <;> rfl
    | resetCapacity n => exact absurd (List.mem_cons_self) (h n)
    | _ => rfl

/-- **C01.** A key that was just read with a hit, or just inserted, survives any following
`cap - 1` operations other than its erasure, `clear` and `reset_capacity`: it is evicted last. -/
theorem lru_recent_key_survives (cap : Nat) (hcap : 0 < cap) (ops : List (Op K V))
    (hops : ∀ n, Op.resetCapacity n ∉ ops) (k : K) (v : V)
    (hit : (run (init cap) (ops ++ [.get k])).2.getLast? = some (.val (some v)))
    (os : List (Op K V)) (hlen : os.length < cap) (hos : ∀ o ∈ os, Harmless k o) :
    (run (init cap) (ops ++ [.get k] ++ os ++ [.contains k])).2.getLast? = some (.bool true) := by
  have hpos : ∀ n, Op.resetCapacity n ∉ (ops ++ [Op.get k] ++ os ++ [Op.contains k] : List (Op K V)) := by
    intro n hn
    simp at hn
    rcases hn with h | h
    · exact hops n h
    · exact hos _ h
  rw [lru_refines_recency_list cap hcap _ (fun n h => absurd h (hpos n))]
  rw [lru_refines_recency_list cap hcap _ (fun n h => absurd h (by intro h; simp at h; exact hops n h))] at hit
  have hc := spec_cap_run ops ⟨[], cap⟩ hops
  simp only [spec_run_append, Spec.run] at hit ⊢
  generalize (Spec.run ⟨[], cap⟩ ops).1 = a at hit hc ⊢
  simp only [List.getLast?_append, List.getLast?_singleton, Option.some_or, Option.some.injEq] at hit ⊢
  simp only at hc
  have hd : ∃ pre v post, (Spec.step a (.get k)).1.entries = pre ++ (k, v) :: post ∧ pre.length ≤ 0 := by
    simp only [Spec.step] at hit ⊢
    split at hit
    · simp at hit
    · rename_i w hw; exact ⟨[], w, _, rfl, by simp⟩
  have hcap' : (Spec.step a (.get k)).1.cap = a.cap := by
    simp only [Spec.step]; split <;> rfl
  obtain ⟨pre, w, post, he⟩ := spec_depth_run os _ k hos 0 (by rw [hcap']; omega) hd
  simp only [Spec.step] at he ⊢
  rw [he]
  simp only [Spec.lookup, Option.isSome_map, Out.bool.injEq]
  rw [List.find?_isSome]
  exact ⟨(k, w), by simp, by simp⟩

example : PosCaps ([.insert 1 10, .insert 2 20, .get 1, .insert 3 30, .contains 2, .resetCapacity 1] : List (Op Nat Nat)) := by
  intro n h; simp at h; omega

-- a test, not a proof: key 2 is the one evicted
example : (run (init 2) ([.insert 1 10, .insert 2 20, .get 1, .insert 3 30, .contains 2, .contains 1] : List (Op Nat Nat))).2
    = [.unit, .unit, .val (some 10), .unit, .bool false, .bool true] := by decide

/-- C01, limits: with capacity 0 the first insertion dereferences `--end()` of an empty list. -/
theorem lru_zero_capacity_violated (k : K) (v : V) : (step (init 0) (.insert k v)).2 = .ub := by
  simp [step, insert, init, AMap.find, evict]

/-- C01, limits: lowering the capacity does not shrink the cache, and insertion evicts only one entry,
so the number of entries stays above the capacity. -/
theorem lru_lowered_capacity_violated :
    (run (init 3) ([.insert 1 1, .insert 2 2, .insert 3 3, .resetCapacity 1, .insert 4 4, .size] : List (Op Nat Nat))).2.getLast?
      = some (.nat 3) := by decide

/-! ## C70: thread-cached LRU -/

/-- **C70.** What a thread sees is what it would see with a private cache: the calls of other threads
have no effect on it. -/
theorem thread_cached_lru_isolated (cap : Nat) (ops : List (Tid × TOp K V)) (t : Tid) :
    ((TC.run (TC.init cap) ops).2.filter (fun p => p.1 = t)).map (·.2)
      = (run1 (init cap) ((ops.filter (fun p => p.1 = t)).map (·.2))).2 := by
  suffices h : ∀ (s : TC K V), ((TC.run s ops).2.filter (fun p => p.1 = t)).map (·.2)
      = (run1 (s.getLRU t) ((ops.filter (fun p => p.1 = t)).map (·.2))).2 by
    have := h (TC.init cap)
    simpa [TC.getLRU, TC.init] using this
  induction ops with
  | nil => intro s; simp [TC.run, run1]
  | cons p os ih =>
    intro s
    obtain ⟨u, o⟩ := p
    by_cases hu : u = t
    · subst hu
      simp only [TC.run, List.filter_cons, decide_true, if_true, List.map_cons, run1]
      rw [ih]
      simp [TC.step, TC.put, TC.getLRU]
    · simp only [TC.run, List.filter_cons, hu, decide_false, Bool.false_eq_true, if_false]
      rw [ih]
      congr 2
      simp only [TC.step, TC.getLRU, TC.put]
      have : ¬ t = u := fun e => hu e.symm
      simp [this]

/-- **C70.** `GetOrInsert` returns the cached value without calling the function exactly when the thread's
cache holds the key. -/
theorem get_or_insert_hit (l : Lru K V) (k : K) (v x : V) :
    (tstep1 l (.getOrInsert k v)).2 = .cached x ↔ (l.map.find k).map (·.1) = some x := by
  simp only [tstep1, get]
  cases h : l.map.find k with
  | none => simp; split <;> simp
  | some p =>
    obtain ⟨w, j⟩ := p
    simp only [Option.map_some, Option.some.injEq]
    split
    · rename_i h2; split at h2 <;> simp_all
    · rename_i h2; split at h2 <;> simp_all

/-- **C70.** After a `GetOrInsert`, a second one of the same thread for the same key returns the same value
and does not call its function. -/
theorem get_or_insert_stable (cap : Nat) (hcap : 0 < cap) (l : Lru K V) (a : Spec.S K V) (h : Sim l a)
    (hc : l.cap = cap) (k : K) (v w x : V)
    (h1 : (tstep1 l (.getOrInsert k v)).2 = .cached x ∨ (tstep1 l (.getOrInsert k v)).2 = .computed x) :
    (tstep1 (tstep1 l (.getOrInsert k v)).1 (.getOrInsert k w)).2 = .cached x := by
  rw [get_or_insert_hit]
  have hget := sim_step l a h (.get k) (by omega)
  rcases h1 with h1 | h1
  · have hx := (get_or_insert_hit l k v x).1 h1
    simp only [tstep1, get]
    cases hf : l.map.find k with
    | none => simp [hf] at hx
    | some p =>
      obtain ⟨y, j⟩ := p
      simp [hf] at hx
      subst hx
      simp only
      split
      · rename_i l' y' heq
        split at heq
        · cases heq; simp [hf]
        · cases heq; simp [AMap.find_set]
      · rename_i l' heq
        split at heq <;> simp at heq
  · simp only [tstep1, get] at h1 ⊢
    cases hf : l.map.find k with
    | some p =>
      obtain ⟨y, j⟩ := p
      rw [hf] at h1
      simp only at h1
      split at h1
      · simp at h1
      · rename_i l' heq
        split at heq <;> simp at heq
    | none =>
      rw [hf] at h1
      simp only at h1 ⊢
      split at h1
      · simp at h1
      · rename_i l'' hi
        simp at h1
        subst h1
        simp only [hi]
        have hs : (insert l k v) = some l'' := hi
        simp only [insert, hf] at hs
        split at hs
        · split at hs
          · simp at hs
          · rename_i s' _
            simp only [Option.some.injEq] at hs
            subst hs
            simp [pushFront, AMap.find_set]
        · simp only [Option.some.injEq] at hs
          subst hs
          simp [pushFront, AMap.find_set]

example : (tstep1 (init 2 : Lru Nat Nat) (.getOrInsert 1 5)).2 = .computed 5 := by decide

end Verif.Lru
