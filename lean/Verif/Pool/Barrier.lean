/-!
# The completion barrier of `ThreadPool::Run`: interleaving model and property C68

`/repo/rapidudf/executors/thread_pool.h` 28-50 (`PoolBarrier`), 72-85 (`Run`), 111-130 (posting).

Every action below is one atomic step of one thread: the mutex operations, the increment, the
notification, the predicate check (lock held) followed by falling asleep (which releases the lock, as
`condition_variable::wait` does), and one call of the closure. Steps of all threads interleave
arbitrarily. `spurious` is a spurious wake-up of the waiting thread. The pool runs each posted task on
some thread: a posted task is simply enabled. Memory is sequentially consistent.
-/
namespace Verif.Pool.Barrier

/-- Position of one submitted task (lines 117-122 and `WorkerArrive` 35-39). `left` = closure calls to make. -/
inductive WPc where
  | unposted (left : Nat)
  | calling (left : Nat)
  | wantLock
  | locked          -- holds the mutex, before `++arrived_`
  | counted         -- after `++arrived_`, before `notify_one`
  | notified        -- after `notify_one`, before the unlock
  | done
deriving DecidableEq

/-- Position of the thread inside `Run`. -/
inductive MPc where
  | posting (next : Nat)
  | wantLock
  | checking        -- holds the mutex
  | sleeping
  | woken           -- has to take the mutex again
  | leaving         -- predicate was true, still holds the mutex
  | returned        -- `Run` returned; the barrier is destroyed
deriving DecidableEq

inductive Who where
  | main
  | worker (i : Nat)
deriving DecidableEq

structure S where
  workers : List WPc
  main : MPc
  arrived : Nat
  owner : Option Who

/-- One entry per submitted task: the number of calls it makes. -/
def init (calls : List Nat) : S :=
  { workers := calls.map WPc.unposted, main := .posting 0, arrived := 0, owner := none }

inductive Act where
  | main
  | worker (i : Nat)
  | spurious
deriving DecidableEq

def stepMain (s : S) : Option S :=
  match s.main with
  | .posting k =>
    match s.workers[k]? with
    | some (.unposted c) => some { s with workers := s.workers.set k (.calling c), main := .posting (k + 1) }  -- line 124
    | some _ => none
    | none => if s.workers.length > 0 then some { s with main := .wantLock } else some { s with main := .returned }  -- 82
  | .wantLock => if s.owner = none then some { s with main := .checking, owner := some .main } else none  -- line 42
  | .checking =>                                                                                         -- line 43
    if s.arrived ≥ s.workers.length then some { s with main := .leaving }
    else some { s with main := .sleeping, owner := none }
  | .sleeping => none
  | .woken => if s.owner = none then some { s with main := .checking, owner := some .main } else none
  | .leaving => some { s with main := .returned, owner := none }
  | .returned => none

def stepWorker (s : S) (i : Nat) : Option S :=
  match s.workers[i]? with
  | some (.calling (c + 1)) => some { s with workers := s.workers.set i (.calling c) }
  | some (.calling 0) => some { s with workers := s.workers.set i .wantLock }
  | some .wantLock =>
    if s.owner = none then some { s with workers := s.workers.set i .locked, owner := some (.worker i) } else none   -- line 36
  | some .locked => some { s with workers := s.workers.set i .counted, arrived := s.arrived + 1 }                   -- line 37
  | some .counted =>                                                                                               -- line 38
    some { s with workers := s.workers.set i .notified, main := if s.main = .sleeping then .woken else s.main }
  | some .notified => some { s with workers := s.workers.set i .done, owner := none }
  | _ => none

def step (s : S) : Act → Option S
  | .main => stepMain s
  | .worker i => stepWorker s i
  | .spurious => if s.main = .sleeping then some { s with main := .woken } else none

inductive Reach (calls : List Nat) : S → Prop where
  | init : Reach calls (init calls)
  | step {s s' : S} (a : Act) : Reach calls s → step s a = some s' → Reach calls s'

/-! ## Invariant -/

def WPc.inCS : WPc → Bool
  | .locked | .counted | .notified => true
  | _ => false

/-- has incremented the counter -/
def WPc.arrived : WPc → Bool
  | .counted | .notified | .done => true
  | _ => false

/-- has not notified yet -/
def WPc.pending : WPc → Bool
  | .notified | .done => false
  | _ => true

def MPc.holds : MPc → Bool
  | .checking | .leaving => true
  | _ => false

structure Inv (s : S) : Prop where
  cnt : s.arrived = s.workers.countP WPc.arrived
  own : ∀ i p, s.workers[i]? = some p → (p.inCS = true ↔ s.owner = some (.worker i))
  ownRange : ∀ i, s.owner = some (.worker i) → i < s.workers.length
  ownMain : s.main.holds = true ↔ s.owner = some .main
  posted : ∀ i p c, s.workers[i]? = some p → p = .unposted c → ∃ k, s.main = .posting k ∧ k ≤ i
  postedInv : ∀ k i p, s.main = .posting k → k ≤ i → s.workers[i]? = some p → ∃ c, p = .unposted c
  sleep : s.main = .sleeping → ∃ (i : Nat) (p : WPc), s.workers[i]? = some p ∧ p.pending = true
  leave : s.main = .leaving → s.arrived ≥ s.workers.length
  ret : s.main = .returned → ∀ p ∈ s.workers, p = .done

theorem countP_eq_length_all {l : List WPc} {f : WPc → Bool} (h : l.countP f ≥ l.length) : ∀ p ∈ l, f p = true := by
  have := List.countP_le_length (p := f) (l := l)
  exact List.countP_eq_length.1 (by omega)

theorem inv_init (calls : List Nat) : Inv (init calls) := by
  constructor
  · simp only [init]
    symm; rw [List.countP_eq_zero]
    intro p hp; obtain ⟨c, _, rfl⟩ := List.mem_map.1 hp; simp [WPc.arrived]
  · intro i p h
    simp only [init, List.getElem?_map, Option.map_eq_some_iff] at h
    obtain ⟨c, _, rfl⟩ := h
    simp [WPc.inCS, init]
  · simp [init]
  · simp [init, MPc.holds]
  · intro i p c _ _; exact ⟨0, rfl, by omega⟩
  · intro k i p _ _ h
    simp only [init, List.getElem?_map, Option.map_eq_some_iff] at h
    obtain ⟨c, _, rfl⟩ := h; exact ⟨c, rfl⟩
  · simp [init]
  · simp [init]
  · simp [init]

/-- Changing worker `i` from `p` to `q`. -/
theorem get_set {l : List WPc} {i j : Nat} {q r : WPc} (h : (l.set i q)[j]? = some r) :
    (j = i ∧ r = q) ∨ (j ≠ i ∧ l[j]? = some r) := by
  rw [List.getElem?_set] at h
  by_cases e : i = j
  · subst e
    simp at h
    exact .inl ⟨rfl, h.2.symm⟩
  · simp [e] at h; exact .inr ⟨fun h' => e h'.symm, h⟩

theorem countP_set' {l : List WPc} {i : Nat} {p q : WPc} {f : WPc → Bool} (h : l[i]? = some p) :
    (l.set i q).countP f + (if f p then 1 else 0) = l.countP f + (if f q then 1 else 0) := by
  obtain ⟨hlt, he⟩ := List.getElem?_eq_some_iff.1 h
  rw [List.countP_set hlt, he]
  have : f p = true → 0 < l.countP f := fun hf => List.countP_pos_iff.2 ⟨p, List.mem_of_getElem? h, hf⟩
  split <;> rename_i hf
  · have := this hf; split <;> omega
  · split <;> omega

theorem inv_step {s s' : S} (h : Inv s) (a : Act) (hs : step s a = some s') : Inv s' := by
  have hlen : ∀ i q, (s.workers.set i q).length = s.workers.length := fun i q => by simp
  cases a with
  | spurious =>
    simp only [step] at hs
    split at hs
    · rename_i hm
      simp only [Option.some.injEq] at hs; subst hs
      exact ⟨h.cnt, h.own, h.ownRange, by have := h.ownMain; simpa [hm, MPc.holds] using this,
        fun i p c h1 h2 => by obtain ⟨k, hk, _⟩ := h.posted i p c h1 h2; rw [hm] at hk; simp at hk,
        by simp, by simp, by simp, by simp⟩
    · simp at hs
  | main =>
    simp only [step, stepMain] at hs
    have hom := h.ownMain
    split at hs
    · -- posting
      rename_i k hm
      split at hs
      · rename_i c hw
        simp only [Option.some.injEq] at hs; subst hs
        constructor
        · have := countP_set' (q := .calling c) (f := WPc.arrived) hw
          simp [WPc.arrived] at this
          simp only [this]; exact h.cnt
        · intro i p hp
          rcases get_set hp with ⟨rfl, rfl⟩ | ⟨_, hp⟩
          · have := h.own _ _ hw; simpa [WPc.inCS] using this
          · exact h.own i p hp
        · simpa using h.ownRange
        · rw [hm] at hom; simpa [MPc.holds] using hom
        · intro i p c' hp he
          rcases get_set hp with ⟨rfl, rfl⟩ | ⟨hne, hp⟩
          · simp at he
          · obtain ⟨k', hk', hle⟩ := h.posted i p c' hp he
            rw [hm] at hk'; simp at hk'; subst hk'
            exact ⟨k + 1, rfl, by omega⟩
        · intro k' i p hk' hle hp
          simp at hk'; subst hk'
          rcases get_set hp with ⟨rfl, rfl⟩ | ⟨hne, hp⟩
          · omega
          · exact h.postedInv k i p hm (by omega) hp
        · simp
        · simp
        · simp
      · simp at hs
      · rename_i hw
        have hno : ∀ (i : Nat) (p : WPc) (c : Nat), s.workers[i]? = some p → p ≠ .unposted c := by
          intro i p c hp he
          obtain ⟨k', hk', hle⟩ := h.posted i p c hp he
          rw [hm] at hk'; simp at hk'; subst hk'
          obtain ⟨hlt, _⟩ := List.getElem?_eq_some_iff.1 hp
          simp at hw; omega
        split at hs
        · simp only [Option.some.injEq] at hs; subst hs
          exact ⟨h.cnt, h.own, h.ownRange, by rw [hm] at hom; simpa [MPc.holds] using hom,
            fun i p c h1 h2 => absurd h2 (hno i p c h1), by simp, by simp, by simp, by simp⟩
        · rename_i hz
          simp only [Option.some.injEq] at hs; subst hs
          have hnil : s.workers = [] := List.length_eq_zero_iff.1 (by omega)
          exact ⟨h.cnt, h.own, h.ownRange, by rw [hm] at hom; simpa [MPc.holds] using hom,
            fun i p c h1 h2 => absurd h2 (hno i p c h1), by simp, by simp, by simp, by simp [hnil]⟩
    · -- wantLock
      rename_i hm
      split at hs
      · rename_i ho
        simp only [Option.some.injEq] at hs; subst hs
        exact ⟨h.cnt, fun i p hp => by have := h.own i p hp; rw [ho] at this; simpa using this, by simp, by simp [MPc.holds],
          fun i p c h1 h2 => by obtain ⟨k, hk, _⟩ := h.posted i p c h1 h2; rw [hm] at hk; simp at hk,
          by simp, by simp, by simp, by simp⟩
      · simp at hs
    · -- checking
      rename_i hm
      have ho : s.owner = some .main := hom.1 (by rw [hm]; rfl)
      have hpost : ∀ (i : Nat) (p : WPc) (c : Nat), s.workers[i]? = some p → p = .unposted c → False := by
        intro i p c h1 h2; obtain ⟨k, hk, _⟩ := h.posted i p c h1 h2; rw [hm] at hk; simp at hk
      split at hs
      · rename_i hge
        simp only [Option.some.injEq] at hs; subst hs
        exact ⟨h.cnt, h.own, h.ownRange, by simp [MPc.holds, ho],
          fun i p c h1 h2 => (hpost i p c h1 h2).elim, by simp, by simp, fun _ => hge, by simp⟩
      · rename_i hlt
        simp only [Option.some.injEq] at hs; subst hs
        refine ⟨h.cnt, fun i p hp => by have := h.own i p hp; rw [ho] at this; simpa using this, by simp, by simp [MPc.holds],
          fun i p c h1 h2 => (hpost i p c h1 h2).elim, by simp, fun _ => ?_, by simp, by simp⟩
        -- somebody has not arrived
        have hc := h.cnt
        have : ∃ p ∈ s.workers, p.arrived ≠ true := by
          apply Classical.byContradiction
          intro hn
          have : s.workers.countP WPc.arrived = s.workers.length :=
            List.countP_eq_length.2 (fun p hp => Classical.byContradiction fun hne => hn ⟨p, hp, hne⟩)
          omega
        obtain ⟨p, hp, hne⟩ := this
        obtain ⟨i, hi⟩ := List.getElem?_of_mem hp
        exact ⟨i, p, hi, by cases p <;> simp_all [WPc.pending, WPc.arrived]⟩
    · simp at hs
    · -- woken
      rename_i hm
      split at hs
      · rename_i ho
        simp only [Option.some.injEq] at hs; subst hs
        exact ⟨h.cnt, fun i p hp => by have := h.own i p hp; rw [ho] at this; simpa using this, by simp, by simp [MPc.holds],
          fun i p c h1 h2 => by obtain ⟨k, hk, _⟩ := h.posted i p c h1 h2; rw [hm] at hk; simp at hk,
          by simp, by simp, by simp, by simp⟩
      · simp at hs
    · -- leaving
      rename_i hm
      have ho : s.owner = some .main := hom.1 (by rw [hm]; rfl)
      simp only [Option.some.injEq] at hs; subst hs
      refine ⟨h.cnt, fun i p hp => by have := h.own i p hp; rw [ho] at this; simpa using this, by simp, by simp [MPc.holds],
        fun i p c h1 h2 => by obtain ⟨k, hk, _⟩ := h.posted i p c h1 h2; rw [hm] at hk; simp at hk,
        by simp, by simp, by simp, fun _ p hp => ?_⟩
      have harr := countP_eq_length_all (by rw [← h.cnt]; exact h.leave hm) p hp
      obtain ⟨i, hi⟩ := List.getElem?_of_mem hp
      have hcs := h.own i p hi
      rw [ho] at hcs
      cases p <;> simp_all [WPc.arrived, WPc.inCS]
    · simp at hs
  | worker i =>
    simp only [step, stepWorker] at hs
    -- facts shared by all worker steps
    have base : ∀ (p q : WPc) (o : Option Who) (m : MPc) (ar : Nat), s.workers[i]? = some p → p ≠ .done → (∀ c, p ≠ .unposted c) → (∀ c, q ≠ .unposted c) →
        ar = (s.workers.set i q).countP WPc.arrived →
        (q.inCS = true ↔ o = some (.worker i)) → (∀ j, j ≠ i → (s.owner = some (.worker j) ↔ o = some (.worker j))) →
        (s.owner = some .main ↔ o = some .main) →
        (m = s.main ∨ (m = .woken ∧ s.main = .sleeping)) →
        (m = .sleeping → q.pending = true) →
        Inv { workers := s.workers.set i q, main := m, arrived := ar, owner := o } := by
      intro p q o m ar hw hpd hpu hqu har hcs hoj hom hm hsl
      have hlt : i < s.workers.length := (List.getElem?_eq_some_iff.1 hw).1
      constructor
      · exact har
      · intro j r hr
        rcases get_set hr with ⟨rfl, rfl⟩ | ⟨hne, hr⟩
        · exact hcs
        · rw [h.own j r hr]; exact hoj j hne
      · intro j hj
        simp only [List.length_set]
        by_cases e : j = i
        · subst e; exact hlt
        · exact h.ownRange j ((hoj j e).2 hj)
      · simp only
        rw [← hom, ← h.ownMain]
        rcases hm with rfl | ⟨rfl, hsm⟩
        · exact Iff.rfl
        · rw [hsm]; simp [MPc.holds]
      · intro j r c hr he
        rcases get_set hr with ⟨rfl, rfl⟩ | ⟨hne, hr⟩
        · exact absurd he (hqu c)
        · obtain ⟨k, hk, hle⟩ := h.posted j r c hr he
          rcases hm with rfl | ⟨rfl, hsm⟩
          · exact ⟨k, hk, hle⟩
          · rw [hsm] at hk; simp at hk
      · intro k j r hk hle hr
        have hk' : s.main = .posting k := by
          rcases hm with rfl | ⟨rfl, hsm⟩
          · exact hk
          · simp at hk
        rcases get_set hr with ⟨rfl, rfl⟩ | ⟨hne, hr⟩
        · obtain ⟨c, hc⟩ := h.postedInv k j p hk' hle hw
          exact absurd hc (hpu c)
        · exact h.postedInv k j r hk' hle hr
      · intro hms
        exact ⟨i, q, by simp [hlt], hsl hms⟩
      · intro hml
        have : s.main = .leaving := by
          rcases hm with rfl | ⟨rfl, _⟩
          · exact hml
          · simp at hml
        have h1 := h.leave this
        have h2 := countP_eq_length_all (by rw [← h.cnt]; exact h1) p (List.mem_of_getElem? hw)
        have ho : s.owner = some .main := h.ownMain.1 (by rw [this]; rfl)
        have h3 := h.own i p hw
        rw [ho] at h3
        cases p <;> simp_all [WPc.arrived, WPc.inCS]
      · intro hmr
        have : s.main = .returned := by
          rcases hm with rfl | ⟨rfl, _⟩
          · exact hmr
          · simp at hmr
        exact absurd (h.ret this p (List.mem_of_getElem? hw)) hpd
    have cnt' := fun (p q : WPc) (hw : s.workers[i]? = some p) => countP_set' (q := q) (f := WPc.arrived) hw
    have hcnt := h.cnt
    split at hs
    · rename_i c hw
      simp only [Option.some.injEq] at hs; subst hs
      have hown := h.own _ _ hw
      refine base _ _ _ _ _ hw (by simp) (by simp) (by simp) ?_ (by simpa [WPc.inCS] using hown) (fun _ _ => Iff.rfl) Iff.rfl (.inl rfl) (by simp [WPc.pending])
      have := cnt' _ (.calling c) hw; simp [WPc.arrived] at this; omega
    · rename_i hw
      simp only [Option.some.injEq] at hs; subst hs
      have hown := h.own _ _ hw
      refine base _ _ _ _ _ hw (by simp) (by simp) (by simp) ?_ (by simpa [WPc.inCS] using hown) (fun _ _ => Iff.rfl) Iff.rfl (.inl rfl) (by simp [WPc.pending])
      have := cnt' _ .wantLock hw; simp [WPc.arrived] at this; omega
    · rename_i hw
      split at hs
      · rename_i ho
        simp only [Option.some.injEq] at hs; subst hs
        refine base _ _ _ _ _ hw (by simp) (by simp) (by simp) ?_ (by simp [WPc.inCS]) (fun j hj => by simp [ho]; exact fun e => hj e.symm) (by simp [ho]) (.inl rfl) (by simp [WPc.pending])
        have := cnt' _ .locked hw; simp [WPc.arrived] at this; omega
      · simp at hs
    · rename_i hw
      simp only [Option.some.injEq] at hs; subst hs
      have hown := h.own _ _ hw
      refine base _ _ _ _ _ hw (by simp) (by simp) (by simp) ?_ (by simpa [WPc.inCS] using hown) (fun _ _ => Iff.rfl) Iff.rfl (.inl rfl) (by simp [WPc.pending])
      have := cnt' _ .counted hw; simp [WPc.arrived] at this; omega
    · rename_i hw
      simp only [Option.some.injEq] at hs; subst hs
      have hown := h.own _ _ hw
      refine base _ _ _ _ _ hw (by simp) (by simp) (by simp) ?_ (by simpa [WPc.inCS] using hown) (fun _ _ => Iff.rfl) Iff.rfl ?_ ?_
      · have := cnt' _ .notified hw; simp [WPc.arrived] at this; omega
      · by_cases e : s.main = .sleeping
        · right; exact ⟨by simp [e], e⟩
        · left; simp [e]
      · intro hx
        by_cases e : s.main = .sleeping
        · simp [e] at hx
        · simp [e] at hx
    · rename_i hw
      simp only [Option.some.injEq] at hs; subst hs
      have hown := (h.own _ _ hw).1 rfl
      have hmain : s.main ≠ .sleeping ∨ s.main = .sleeping := (Decidable.em _).symm
      rcases hmain with hmain | hmain
      · refine base _ _ _ _ _ hw (by simp) (by simp) (by simp) ?_ (by simp [WPc.inCS]) (fun j hj => by simp [hown]; exact fun e => hj e.symm) (by simp [hown]) (.inl rfl) (fun e => absurd e hmain)
        have := cnt' _ .done hw; simp [WPc.arrived] at this; omega
      · -- asleep: the pending witness is another worker
        obtain ⟨j, r, hj, hrp⟩ := h.sleep hmain
        have hji : j ≠ i := by
          intro e; subst e; rw [hw] at hj; simp at hj; subst hj; simp [WPc.pending] at hrp
        have hb := base _ .done none .woken ((s.workers.set i .done).countP WPc.arrived) hw (by simp) (by simp) (by simp) rfl (by simp [WPc.inCS])
          (fun j hj => by simp [hown]; exact fun e => hj e.symm) (by simp [hown]) (.inr ⟨rfl, hmain⟩) (by simp)
        constructor
        · have := cnt' _ .done hw; simp [WPc.arrived] at this; simp only; omega
        · exact hb.own
        · exact hb.ownRange
        · have := hb.ownMain; simp only [hmain]; simpa [MPc.holds] using this
        · intro k p c hp he
          obtain ⟨k', hk', _⟩ := hb.posted k p c hp he; simp at hk'
        · intro k j' p hk; simp [hmain] at hk
        · intro _
          exact ⟨j, r, by simp only; rw [List.getElem?_set_ne (fun e => hji e.symm)]; exact hj, hrp⟩
        · intro hl; simp [hmain] at hl
        · intro hl; simp [hmain] at hl
    · simp at hs

theorem inv_reach {calls : List Nat} {s : S} (h : Reach calls s) : Inv s := by
  induction h with
  | init => exact inv_init calls
  | step a _ hs ih => exact inv_step ih a hs

/-! ## C68 -/

/-- **C68.** When `Run` has returned (and its barrier is destroyed), every submitted task has made all its calls and
has left the barrier. -/
theorem run_returns_after_all_calls {calls : List Nat} {s : S} (h : Reach calls s) (hr : s.main = .returned) :
    ∀ p ∈ s.workers, p = .done := (inv_reach h).ret hr

/-- **C68.** No deadlock and no lost wake-up: as long as `Run` has not returned, some thread can take a step that
is not a spurious wake-up. -/
theorem run_progress {calls : List Nat} {s : S} (h : Reach calls s) (hr : s.main ≠ .returned) :
    ∃ a s', a ≠ .spurious ∧ step s a = some s' := by
  have hi := inv_reach h
  -- a worker in the critical section can always move
  have cs : ∀ i, s.owner = some (.worker i) → ∃ a s', a ≠ Act.spurious ∧ step s a = some s' := by
    intro i ho
    have hlt := hi.ownRange i ho
    have hw : s.workers[i]? = some s.workers[i] := List.getElem?_eq_getElem hlt
    have := (hi.own i _ hw).2 ho
    refine ⟨.worker i, ?_⟩
    simp only [step, stepWorker, hw]
    cases hp : s.workers[i] <;> simp_all [WPc.inCS]
  cases hm : s.main with
  | posting k =>
    refine ⟨.main, ?_⟩
    simp only [step, stepMain, hm]
    cases hw : s.workers[k]? with
    | none => by_cases h0 : s.workers.length > 0 <;> simp [h0]
    | some p =>
      obtain ⟨c, rfl⟩ := hi.postedInv k k p hm (Nat.le_refl _) hw
      simp
  | wantLock =>
    cases ho : s.owner with
    | none => exact ⟨.main, by simp [step, stepMain, hm, ho]⟩
    | some w =>
      cases w with
      | main => have := hi.ownMain.2 ho; simp [hm, MPc.holds] at this
      | worker i => exact cs i ho
  | checking =>
    refine ⟨.main, ?_⟩
    simp only [step, stepMain, hm]
    split <;> simp
  | sleeping =>
    obtain ⟨i, p, hw, hp⟩ := hi.sleep hm
    cases p with
    | unposted c => obtain ⟨k, hk, _⟩ := hi.posted i _ c hw rfl; rw [hm] at hk; simp at hk
    | calling c => cases c <;> exact ⟨.worker i, by simp [step, stepWorker, hw]⟩
    | wantLock =>
      cases ho : s.owner with
      | none => exact ⟨.worker i, by simp [step, stepWorker, hw, ho]⟩
      | some w =>
        cases w with
        | main => have := hi.ownMain.2 ho; simp [hm, MPc.holds] at this
        | worker j => exact cs j ho
    | locked => exact ⟨.worker i, by simp [step, stepWorker, hw]⟩
    | counted => exact ⟨.worker i, by simp [step, stepWorker, hw]⟩
    | notified => simp [WPc.pending] at hp
    | done => simp [WPc.pending] at hp
  | woken =>
    cases ho : s.owner with
    | none => exact ⟨.main, by simp [step, stepMain, hm, ho]⟩
    | some w =>
      cases w with
      | main => have := hi.ownMain.2 ho; simp [hm, MPc.holds] at this
      | worker i => exact cs i ho
  | leaving => exact ⟨.main, by simp [step, stepMain, hm]⟩
  | returned => exact absurd hm hr

/-! Termination: every step that is not a spurious wake-up decreases `measure`. -/

def WPc.weight : WPc → Nat
  | .unposted c => 9 + c
  | .calling c => 8 + c
  | .wantLock => 7
  | .locked => 6
  | .counted => 5
  | .notified => 1
  | .done => 0

def measure (s : S) : Nat :=
  (s.workers.map WPc.weight).sum + match s.main with
    | .posting k => 4 + (s.workers.length - k)
    | .wantLock => 3
    | .woken => 3
    | .checking => 2
    | .sleeping => 1
    | .leaving => 1
    | .returned => 0

theorem sum_set {l : List WPc} {i : Nat} {p q : WPc} (h : l[i]? = some p) :
    ((l.set i q).map WPc.weight).sum + p.weight = (l.map WPc.weight).sum + q.weight := by
  induction l generalizing i with
  | nil => simp at h
  | cons x l ih =>
    cases i with
    | zero => simp at h; subst h; simp; omega
    | succ i =>
      have := ih (i := i) (by simpa using h)
      simp only [List.set_cons_succ, List.map_cons, List.sum_cons]; omega

theorem measure_step {s s' : S} (a : Act) (hs : step s a = some s') :
    (a ≠ .spurious → measure s' < measure s) ∧ (a = .spurious → measure s' ≤ measure s + 2) := by
  cases a with
  | spurious =>
    simp only [step] at hs
    split at hs
    · rename_i hm; simp at hs; subst hs; simp [measure, hm]
    · simp at hs
  | main =>
    refine ⟨fun _ => ?_, by simp⟩
    simp only [step, stepMain] at hs
    split at hs <;> rename_i hm
    · split at hs
      · rename_i c hw
        simp at hs; subst hs
        have := sum_set (q := .calling c) hw
        obtain ⟨hlt, _⟩ := List.getElem?_eq_some_iff.1 hw
        simp [measure, hm, WPc.weight] at *; omega
      · simp at hs
      · split at hs <;> (simp at hs; subst hs; simp [measure, hm]) <;> omega
    · split at hs
      · simp at hs; subst hs; simp [measure, hm]
      · simp at hs
    · split at hs <;> (simp at hs; subst hs; simp [measure, hm])
    · simp at hs
    · split at hs
      · simp at hs; subst hs; simp [measure, hm]
      · simp at hs
    · simp at hs; subst hs; simp [measure, hm]
    · simp at hs
  | worker i =>
    refine ⟨fun _ => ?_, by simp⟩
    simp only [step, stepWorker] at hs
    split at hs
    · rename_i c hw; simp at hs; subst hs
      have := sum_set (q := .calling c) hw; simp [measure, WPc.weight] at *; omega
    · rename_i hw; simp at hs; subst hs
      have := sum_set (q := .wantLock) hw; simp [measure, WPc.weight] at *; omega
    · rename_i hw
      split at hs
      · simp at hs; subst hs
        have := sum_set (q := .locked) hw; simp [measure, WPc.weight] at *; omega
      · simp at hs
    · rename_i hw; simp at hs; subst hs
      have := sum_set (q := .counted) hw; simp [measure, WPc.weight] at *; omega
    · rename_i hw; simp at hs; subst hs
      have := sum_set (q := .notified) hw
      simp only [WPc.weight] at this
      by_cases hm : s.main = .sleeping
      · simp only [measure, hm, if_true]; omega
      · simp only [measure, hm, if_false, List.length_set]; omega
    · rename_i hw; simp at hs; subst hs
      have := sum_set (q := .done) hw; simp [measure, WPc.weight] at *; omega
    · simp at hs

/-- Executions: lists of actions. -/
def exec (s : S) : List Act → Option S
  | [] => some s
  | a :: as => (step s a).bind (fun s' => exec s' as)

/-- **C68.** Termination: with `k` spurious wake-ups, an execution of `Run` over `calls` has at most
`measure (init calls) + 3 k` steps; hence every maximal execution with finitely many spurious wake-ups ends, by
`run_progress`, with `Run` returned. -/
theorem run_terminates (calls : List Nat) (as : List Act) (s : S) (h : exec (init calls) as = some s) :
    as.length ≤ measure (init calls) + 3 * (as.filter (· = .spurious)).length := by
  suffices ∀ (as : List Act) (s0 s : S), exec s0 as = some s →
      as.length + measure s ≤ measure s0 + 3 * (as.filter (· = .spurious)).length by
    have := this as _ s h; omega
  intro as
  induction as with
  | nil => intro s0 s h; simp [exec] at h; subst h; simp
  | cons a as ih =>
    intro s0 s h
    simp only [exec, Option.bind_eq_some_iff] at h
    obtain ⟨s1, h1, h2⟩ := h
    have hm := measure_step a h1
    have := ih s1 s h2
    by_cases ha : a = .spurious
    · have := hm.2 ha
      simp [ha]; omega
    · have := hm.1 ha
      simp [ha]; omega

theorem reach_exec {calls : List Nat} {s0 : S} (h0 : Reach calls s0) (as : List Act) (s : S) (h : exec s0 as = some s) : Reach calls s := by
  induction as generalizing s0 with
  | nil => simp [exec] at h; subst h; exact h0
  | cons a as ih =>
    simp only [exec, Option.bind_eq_some_iff] at h
    obtain ⟨s1, h1, h2⟩ := h
    exact ih (.step a h0 h1) h2

/-- **C68.** From every reachable state `Run` can be completed: there is a continuation without spurious
wake-ups after which it has returned (and by `run_terminates` every long enough one does). -/
theorem run_can_return {calls : List Nat} {s : S} (h : Reach calls s) :
    ∃ as s', exec s as = some s' ∧ s'.main = .returned := by
  induction hn : measure s using Nat.strongRecOn generalizing s with
  | ind n ih =>
    by_cases hr : s.main = .returned
    · exact ⟨[], s, rfl, hr⟩
    · obtain ⟨a, s1, ha, h1⟩ := run_progress h hr
      have hlt := (measure_step a h1).1 ha
      obtain ⟨as, s', h2, h3⟩ := ih (measure s1) (by omega) (.step a h h1) rfl
      exact ⟨a :: as, s', by simp [exec, h1, h2], h3⟩

/-- Two tasks, of two calls and one; the main thread falls asleep, is woken twice and returns. -/
example : ∃ s, exec (init [2, 1]) [.main, .main, .main, .main, .main, .worker 1, .worker 1, .worker 1, .worker 1, .worker 1, .worker 1,
      .main, .main, .worker 0, .worker 0, .worker 0, .worker 0, .worker 0, .worker 0, .worker 0, .main, .main, .main] = some s
      ∧ s.main = .returned := ⟨_, rfl, rfl⟩

end Verif.Pool.Barrier
