/-!
# The thread pool and the cache of the whole program (C183)

`/repo/rapidudf/executors/thread_pool.cc` 20–30: `get_global_thread_pool`, `init_global_thread_pool`. `/repo/rapidudf/common/lru_cache.h` 169–177:
`get_global_lru_cache`, the same for each type of key and value and without a function to initialise it beforehand.

Threads make one access at a time, to the flag of `std::call_once` (others wait while the first is inside) or to the variable with the pool. The variable is
a plain `shared_ptr`; accesses that collide are undefined in C++. Here they take effect one after the other, so what is shown to go wrong goes
wrong even then. Pools are numbered in the order they are made.
-/
namespace Verif.Pool.Global

inductive Flag where
  | unset
  | busy      -- a thread is inside `call_once`
  | done
deriving DecidableEq, Repr

/-- Where a thread is. -/
inductive Pc where
  | idle
  | get (num : Nat)         -- called `get_global_thread_pool(num)`
  | onceCheck (num : Nat)   -- inside `call_once`, about to read the variable
  | onceStore (num : Nat)   -- inside `call_once`, found no pool
  | read                    -- after `call_once`, about to return the pool
  | initCheck (num : Nat)   -- called `init_global_thread_pool(num)`
  | initStore (num : Nat)   -- there, found no pool
deriving DecidableEq, Repr

structure St where
  flag : Flag := .unset
  pool : Option Nat := none                   -- `g_thread_pool`
  made : List Nat := []                       -- number of threads of every pool made
  pc : Nat → Pc := fun _ => .idle
  returned : List (Option Nat) := []          -- what the calls of `get_global_thread_pool` returned

def setPc (s : St) (t : Nat) (p : Pc) : St := { s with pc := fun u => if u = t then p else s.pc u }

/-- How many threads the pool gets: `std::min(num, ThreadPool::MaxThreads())`, but 8 for 0 (`thread_pool.cc` 28, `thread_pool.h` 53, 57–61). -/
def workers (max num : Nat) : Nat := if min num max = 0 then 8 else min num max

/-- `g_thread_pool = std::make_shared<ThreadPool>(std::min(num, ThreadPool::MaxThreads()), …)` (`thread_pool.cc` 28). -/
def store (max : Nat) (s : St) (num : Nat) : St := { s with pool := some s.made.length, made := s.made ++ [workers max num] }

inductive Move where
  | callGet (thread num : Nat)
  | callInit (thread num : Nat)
  | go (thread : Nat)
deriving DecidableEq, Repr

/-- One step (`thread_pool.cc` 22–30); `none`: the thread cannot move. -/
def step (max : Nat) (s : St) : Move → Option St
  | .callGet t num => if s.pc t = .idle then some (setPc s t (.get num)) else none
  | .callInit t num => if s.pc t = .idle then some (setPc s t (.initCheck num)) else none
  | .go t =>
    match s.pc t with
    | .idle => none
    | .get num =>
      match s.flag with
      | .unset => some (setPc { s with flag := .busy } t (.onceCheck num))
      | .busy => none
      | .done => some (setPc s t .read)
    | .onceCheck num =>
      match s.pool with
      | none => some (setPc s t (.onceStore num))
      | some _ => some (setPc { s with flag := .done } t .read)
    | .onceStore num => some (setPc { store max s num with flag := .done } t .read)
    | .read => some (setPc { s with returned := s.returned ++ [s.pool] } t .idle)
    | .initCheck num =>
      match s.pool with
      | none => some (setPc s t (.initStore num))
      | some _ => some (setPc s t .idle)
    | .initStore num => some (setPc (store max s num) t .idle)

/-- A schedule; moves that are not possible are left out. -/
def run (max : Nat) (s : St) : List Move → St
  | [] => s
  | m :: ms => run max ((step max s m).getD s) ms

/-- `init_global_thread_pool` is not called. -/
def OnlyGet (ms : List Move) : Prop := ∀ t num, .callInit t num ∉ ms

/-! ## Invariant -/

/-- Inside `call_once`. -/
def Inside (s : St) (t : Nat) : Prop := (∃ n, s.pc t = .onceCheck n) ∨ ∃ n, s.pc t = .onceStore n

structure Inv (s : St) : Prop where
  noInit : ∀ t n, s.pc t ≠ .initCheck n ∧ s.pc t ≠ .initStore n
  inside : ∀ t, Inside s t → s.flag = .busy
  one : ∀ t u, Inside s t → Inside s u → t = u
  empty : ∀ t n, s.pc t = .onceStore n → s.pool = none
  done : s.flag = .done → s.pool ≠ none
  read : ∀ t, s.pc t = .read → s.flag = .done
  returned : ∀ p ∈ s.returned, p = s.pool ∧ p ≠ none

/-- A step keeps the invariant and does not replace a pool. -/
theorem inv_step (max : Nat) (s s' : St) (m : Move) (hm : ∀ t num, m ≠ .callInit t num) (hi : Inv s) (h : step max s m = some s') :
    Inv s' ∧ (∀ p, s.pool = some p → s'.pool = some p ∧ s'.made = s.made) := by
  have frame : ∀ (t : Nat) (p : Pc), (∀ u, Inside (setPc s t p) u → (u = t ∧ ((∃ n, p = .onceCheck n) ∨ ∃ n, p = .onceStore n)) ∨ (u ≠ t ∧ Inside s u)) := by
    intro t p u hu
    by_cases e : u = t
    · left
      subst e
      simpa [Inside, setPc] using hu
    · right
      simpa [Inside, setPc, e] using hu
  cases m with
  | callInit t num => exact absurd rfl (hm t num)
  | callGet t num =>
    simp only [step] at h
    split at h
    · cases h
      refine ⟨⟨?_, ?_, ?_, ?_, hi.done, ?_, hi.returned⟩, fun p hp => ⟨hp, rfl⟩⟩
      · intro u n
        simp only [setPc]
        split
        · simp
        · exact hi.noInit u n
      · intro u hu
        rcases frame t _ u hu with ⟨_, hx⟩ | ⟨_, hx⟩
        · simp at hx
        · exact hi.inside u hx
      · intro u v hu hv
        rcases frame t _ u hu with ⟨_, hx⟩ | ⟨_, hx⟩
        · simp at hx
        · rcases frame t _ v hv with ⟨_, hy⟩ | ⟨_, hy⟩
          · simp at hy
          · exact hi.one u v hx hy
      · intro u n hu
        simp only [setPc] at hu
        split at hu
        · cases hu
        · exact hi.empty u n hu
      · intro u hu
        simp only [setPc] at hu
        split at hu
        · cases hu
        · exact hi.read u hu
    · cases h
  | go t =>
    simp only [step] at h
    cases e : s.pc t with
    | idle => rw [e] at h; cases h
    | initCheck n => exact absurd e (hi.noInit t n).1
    | initStore n => exact absurd e (hi.noInit t n).2
    | get num =>
      rw [e] at h
      cases ef : s.flag with
      | busy => rw [ef] at h; cases h
      | unset =>
        rw [ef] at h
        cases h
        have nobody : ∀ u, ¬ Inside s u := fun u hu => by
          have := hi.inside u hu
          rw [ef] at this; cases this
        refine ⟨⟨?_, fun _ _ => rfl, ?_, ?_, ?_, ?_, hi.returned⟩, fun p hp => ⟨hp, rfl⟩⟩
        · intro u n
          simp only [setPc]
          split
          · simp
          · exact hi.noInit u n
        · intro u v hu hv
          rcases frame t _ u hu with ⟨hx, _⟩ | ⟨_, hx⟩
          · rcases frame t _ v hv with ⟨hy, _⟩ | ⟨_, hy⟩
            · rw [hx, hy]
            · exact absurd hy (nobody v)
          · exact absurd hx (nobody u)
        · intro u n hu
          simp only [setPc] at hu
          split at hu
          · cases hu
          · exact hi.empty u n hu
        · intro hf; cases hf
        · intro u hu
          simp only [setPc] at hu
          split at hu
          · cases hu
          · have := hi.read u hu
            rw [ef] at this; cases this
      | done =>
        rw [ef] at h
        cases h
        refine ⟨⟨?_, ?_, ?_, ?_, hi.done, fun _ _ => ef, hi.returned⟩, fun p hp => ⟨hp, rfl⟩⟩
        · intro u n
          simp only [setPc]
          split
          · simp
          · exact hi.noInit u n
        · intro u hu
          rcases frame t _ u hu with ⟨_, hx⟩ | ⟨_, hx⟩
          · simp at hx
          · exact hi.inside u hx
        · intro u v hu hv
          rcases frame t _ u hu with ⟨_, hx⟩ | ⟨_, hx⟩
          · simp at hx
          · rcases frame t _ v hv with ⟨_, hy⟩ | ⟨_, hy⟩
            · simp at hy
            · exact hi.one u v hx hy
        · intro u n hu
          simp only [setPc] at hu
          split at hu
          · cases hu
          · exact hi.empty u n hu
    | onceCheck num =>
      rw [e] at h
      have hin : Inside s t := .inl ⟨num, e⟩
      have hb := hi.inside t hin
      cases ep : s.pool with
      | none =>
        rw [ep] at h
        cases h
        refine ⟨⟨?_, fun _ _ => hb, ?_, fun _ _ _ => ep, hi.done, ?_, hi.returned⟩, fun p hp => by cases hp⟩
        · intro u n
          simp only [setPc]
          split
          · simp
          · exact hi.noInit u n
        · intro u v hu hv
          rcases frame t _ u hu with ⟨hx, _⟩ | ⟨hnx, hx⟩
          · rcases frame t _ v hv with ⟨hy, _⟩ | ⟨hny, hy⟩
            · rw [hx, hy]
            · exact absurd (hi.one v t hy hin) hny
          · exact absurd (hi.one u t hx hin) hnx
        · intro u hu
          simp only [setPc] at hu
          split at hu
          · cases hu
          · exact hi.read u hu
      | some p =>
        rw [ep] at h
        cases h
        have nobody : ∀ u, ¬ Inside (setPc s t .read) u := by
          intro u hu
          rcases frame t _ u hu with ⟨_, hx⟩ | ⟨hne, hx⟩
          · simp at hx
          · exact hne (hi.one u t hx hin)
        refine ⟨⟨?_, fun u hu => absurd hu (nobody u), fun u _ hu _ => absurd hu (nobody u), ?_, ?_, fun _ _ => rfl, ?_⟩, fun q hq => ⟨hq, rfl⟩⟩
        · intro u n
          simp only [setPc]
          split
          · simp
          · exact hi.noInit u n
        · intro u n hu
          exact absurd (.inr ⟨n, hu⟩) (nobody u)
        · intro _
          simp only [setPc]
          intro hx; cases hx
        · intro q hq
          have := hi.returned q hq
          rw [ep] at this
          exact this
    | onceStore num =>
      rw [e] at h
      cases h
      have hin : Inside s t := .inr ⟨num, e⟩
      have hnone := hi.empty t num e
      have nobody : ∀ u, ¬ Inside (setPc s t .read) u := by
        intro u hu
        rcases frame t _ u hu with ⟨_, hx⟩ | ⟨hne, hx⟩
        · simp at hx
        · exact hne (hi.one u t hx hin)
      refine ⟨⟨?_, fun u hu => absurd hu (nobody u), fun u _ hu _ => absurd hu (nobody u), fun u n hu => absurd (.inr ⟨n, hu⟩) (nobody u), ?_, fun _ _ => rfl, ?_⟩, ?_⟩
      · intro u n
        simp only [setPc, store]
        split
        · simp
        · exact hi.noInit u n
      · intro _
        simp [setPc, store]
      · intro p hp
        have := hi.returned p hp
        exact absurd (this.1.trans hnone) this.2
      · intro p hp
        rw [hnone] at hp; cases hp
    | read =>
      rw [e] at h
      cases h
      have hf := hi.read t e
      refine ⟨⟨?_, ?_, ?_, ?_, hi.done, ?_, ?_⟩, fun p hp => ⟨hp, rfl⟩⟩
      · intro u n
        simp only [setPc]
        split
        · simp
        · exact hi.noInit u n
      · intro u hu
        rcases frame t _ u hu with ⟨_, hx⟩ | ⟨_, hx⟩
        · simp at hx
        · exact hi.inside u hx
      · intro u v hu hv
        rcases frame t _ u hu with ⟨_, hx⟩ | ⟨_, hx⟩
        · simp at hx
        · rcases frame t _ v hv with ⟨_, hy⟩ | ⟨_, hy⟩
          · simp at hy
          · exact hi.one u v hx hy
      · intro u n hu
        simp only [setPc] at hu
        split at hu
        · cases hu
        · exact hi.empty u n hu
      · intro u hu
        exact hf
      · intro p hp
        simp only [setPc, List.mem_append, List.mem_singleton] at hp
        rcases hp with hp | hp
        · exact hi.returned p hp
        · rw [hp]
          exact ⟨rfl, hi.done hf⟩

theorem inv_run (max : Nat) : ∀ (ms : List Move) (s : St), OnlyGet ms → Inv s →
    Inv (run max s ms) ∧ (∀ p, s.pool = some p → (run max s ms).pool = some p ∧ (run max s ms).made = s.made) := by
  intro ms
  induction ms with
  | nil => intro s _ hi; exact ⟨hi, fun p hp => ⟨hp, rfl⟩⟩
  | cons m ms ih =>
    intro s ho hi
    have ho' : OnlyGet ms := fun t num hx => ho t num (List.mem_cons_of_mem _ hx)
    simp only [run]
    cases e : step max s m with
    | none => exact ih s ho' hi
    | some s' =>
      obtain ⟨h1, h2⟩ := inv_step max s s' m (fun t num hx => ho t num (hx ▸ List.mem_cons_self)) hi e
      obtain ⟨h3, h4⟩ := ih s' ho' h1
      refine ⟨h3, fun p hp => ?_⟩
      obtain ⟨a, b⟩ := h2 p hp
      obtain ⟨c, d⟩ := h4 p a
      exact ⟨c, d.trans b⟩

theorem inv_init : Inv {} where
  noInit := fun _ _ => ⟨by simp, by simp⟩
  inside := fun _ h => by simp [Inside] at h
  one := fun _ _ h => by simp [Inside] at h
  empty := fun _ _ _ => rfl
  done := fun h => by cases h
  read := fun _ h => by cases h
  returned := fun _ h => absurd h List.not_mem_nil

/-- The state after `init_global_thread_pool(num)` on thread `t`, before anything else. -/
def initialised (max t num : Nat) : St := run max {} [.callInit t num, .go t, .go t]

theorem initialised_eq (max t num : Nat) : (initialised max t num).pool = some 0 ∧ (initialised max t num).made = [workers max num] ∧ Inv (initialised max t num) := by
  have hpc : ∀ u, (initialised max t num).pc u = .idle := by
    intro u
    by_cases e : u = t <;> simp [initialised, run, step, setPc, store, e]
  have hp : (initialised max t num).pool = some 0 := by simp [initialised, run, step, setPc, store]
  have hf : (initialised max t num).flag = .unset := by simp [initialised, run, step, setPc, store]
  have hr : (initialised max t num).returned = [] := by simp [initialised, run, step, setPc, store]
  refine ⟨hp, by simp [initialised, run, step, setPc, store], ?_⟩
  constructor
  · intro u n; rw [hpc u]; simp
  · intro u h; simp [Inside, hpc u] at h
  · intro u v h; simp [Inside, hpc u] at h
  · intro u n h; rw [hpc u] at h; cases h
  · intro h; rw [hf] at h; cases h
  · intro u h; rw [hpc u] at h; cases h
  · intro p h; rw [hr] at h; exact absurd h List.not_mem_nil

/-- How many calls of `get_global_thread_pool` end in a schedule. `getting t`: the call thread `t` began last is one of these. -/
def endedGets (max : Nat) (getting : Nat → Bool) (s : St) : List Move → Nat
  | [] => 0
  | m :: ms =>
    match step max s m with
    | none => endedGets max getting s ms
    | some s' =>
      match m with
      | .callGet t _ => endedGets max (fun u => if u = t then true else getting u) s' ms
      | .callInit t _ => endedGets max (fun u => if u = t then false else getting u) s' ms
      | .go t => (if s'.pc t = .idle ∧ getting t = true then 1 else 0) + endedGets max getting s' ms

/-- Whether a thread is in `get_global_thread_pool`. -/
def inGet : Pc → Option Bool
  | .idle => none
  | .get _ => some true
  | .onceCheck _ => some true
  | .onceStore _ => some true
  | .read => some true
  | .initCheck _ => some false
  | .initStore _ => some false

theorem returned_run (max : Nat) : ∀ (ms : List Move) (g : Nat → Bool) (s : St), (∀ t b, inGet (s.pc t) = some b → g t = b) →
    (run max s ms).returned.length = s.returned.length + endedGets max g s ms := by
  intro ms
  induction ms with
  | nil => intro g s _; simp [run, endedGets]
  | cons m ms ih =>
    intro g s hg
    simp only [run, endedGets]
    cases e : step max s m with
    | none => exact ih g s hg
    | some s' =>
      simp only [Option.getD_some]
      have keep : ∀ (s1 : St) (t : Nat) (p : Pc), s1.pc = s.pc → (∀ b, inGet p = some b → g t = b) → ∀ u b, inGet ((setPc s1 t p).pc u) = some b → g u = b := by
        intro s1 t p h1 h2 u b h
        simp only [setPc, h1] at h
        split at h
        · rename_i eu; rw [eu]; exact h2 b h
        · exact hg u b h
      have begin_ : ∀ (t : Nat) (p : Pc) (c : Bool), inGet p = some c → ∀ u b, inGet ((setPc s t p).pc u) = some b → (if u = t then c else g u) = b := by
        intro t p c hc u b h
        simp only [setPc] at h
        by_cases eu : u = t
        · rw [if_pos eu]; rw [if_pos eu, hc] at h; exact Option.some.inj h
        · rw [if_neg eu]; rw [if_neg eu] at h; exact hg u b h
      cases m with
      | callGet t num =>
        simp only [step] at e
        split at e
        · simp only [Option.some.injEq] at e
          subst e
          rw [ih (fun u => if u = t then true else g u)]
          · rfl
          · exact begin_ t _ true rfl
        · cases e
      | callInit t num =>
        simp only [step] at e
        split at e
        · simp only [Option.some.injEq] at e
          subst e
          rw [ih (fun u => if u = t then false else g u)]
          · rfl
          · exact begin_ t _ false rfl
        · cases e
      | go t =>
        simp only [step] at e
        cases ep : s.pc t with
        | idle => rw [ep] at e; cases e
        | get num =>
          have ht := hg t true (by rw [ep]; rfl)
          rw [ep] at e
          simp only at e
          cases ef : s.flag with
          | busy => rw [ef] at e; cases e
          | unset =>
            rw [ef] at e
            simp only [Option.some.injEq] at e
            subst e
            rw [ih g]
            · simp [setPc]
            · exact keep _ t _ rfl (fun b h => ht.trans (Option.some.inj h))
          | done =>
            rw [ef] at e
            simp only [Option.some.injEq] at e
            subst e
            rw [ih g]
            · simp [setPc]
            · exact keep _ t _ rfl (fun b h => ht.trans (Option.some.inj h))
        | onceCheck num =>
          have ht := hg t true (by rw [ep]; rfl)
          rw [ep] at e
          simp only at e
          cases ef : s.pool with
          | none =>
            rw [ef] at e
            simp only [Option.some.injEq] at e
            subst e
            rw [ih g]
            · simp [setPc]
            · exact keep _ t _ rfl (fun b h => ht.trans (Option.some.inj h))
          | some p =>
            rw [ef] at e
            simp only [Option.some.injEq] at e
            subst e
            rw [ih g]
            · simp [setPc]
            · exact keep { s with flag := .done, pool := some p } t _ rfl (fun b h => ht.trans (Option.some.inj h))
        | onceStore num =>
          have ht := hg t true (by rw [ep]; rfl)
          rw [ep] at e
          simp only [Option.some.injEq] at e
          subst e
          rw [ih g]
          · simp [setPc, store]
          · exact keep _ t _ rfl (fun b h => ht.trans (Option.some.inj h))
        | read =>
          have ht := hg t true (by rw [ep]; rfl)
          rw [ep] at e
          simp only [Option.some.injEq] at e
          subst e
          rw [ih g]
          · simp [setPc, ht]; omega
          · exact keep _ t _ rfl (fun b h => by cases h)
        | initCheck num =>
          have ht := hg t false (by rw [ep]; rfl)
          rw [ep] at e
          simp only at e
          cases ef : s.pool with
          | none =>
            rw [ef] at e
            simp only [Option.some.injEq] at e
            subst e
            rw [ih g]
            · simp [setPc]
            · exact keep _ t _ rfl (fun b h => ht.trans (Option.some.inj h))
          | some p =>
            rw [ef] at e
            simp only [Option.some.injEq] at e
            subst e
            rw [ih g]
            · simp [setPc, ht]
            · exact keep _ t _ rfl (fun b h => by cases h)
        | initStore num =>
          have ht := hg t false (by rw [ep]; rfl)
          rw [ep] at e
          simp only [Option.some.injEq] at e
          subst e
          rw [ih g]
          · simp [setPc, store, ht]
          · exact keep _ t _ rfl (fun b h => by cases h)

/-! ## Property C183 -/

/-- **C183, calls return.** In every schedule, every call of `get_global_thread_pool` that ends has returned something, and nothing else has. -/
theorem calls_return (max : Nat) (ms : List Move) : (run max {} ms).returned.length = endedGets max (fun _ => true) {} ms := by
  rw [returned_run max ms (fun _ => true) {} (fun t b h => by cases h)]
  simp

/-- While `call_once` is taken, a thread is inside. -/
theorem holder_step (max : Nat) (s : St) (m : Move) (hh : s.flag = .busy → ∃ u, Inside s u) :
    ((step max s m).getD s).flag = .busy → ∃ u, Inside ((step max s m).getD s) u := by
  have frame : ∀ (s' : St) (t : Nat) (p : Pc), ¬ Inside s t → s'.pc = s.pc → s'.flag = s.flag →
      (setPc s' t p).flag = .busy → ∃ u, Inside (setPc s' t p) u := by
    intro s' t p hn hp hf hb
    have hb' : s.flag = .busy := by rw [← hf]; exact hb
    obtain ⟨u, hu⟩ := hh hb'
    have e : u ≠ t := fun e => hn (e ▸ hu)
    exact ⟨u, by simpa [Inside, setPc, e, hp] using hu⟩
  have out : ∀ (t : Nat) (p : Pc), s.pc t = p → (∀ n, p ≠ .onceCheck n ∧ p ≠ .onceStore n) → ¬ Inside s t := by
    intro t p hp hn hi
    rcases hi with ⟨n, hi⟩ | ⟨n, hi⟩
    · exact (hn n).1 (hp.symm.trans hi)
    · exact (hn n).2 (hp.symm.trans hi)
  cases m with
  | callGet t num =>
    simp only [step]
    split
    · rename_i e
      exact frame s t _ (out t _ e (by simp)) rfl rfl
    · exact hh
  | callInit t num =>
    simp only [step]
    split
    · rename_i e
      exact frame s t _ (out t _ e (by simp)) rfl rfl
    · exact hh
  | go t =>
    cases e : s.pc t with
    | idle =>
      simp only [step, e]
      exact hh
    | get n =>
      cases f : s.flag with
      | unset =>
        simp only [step, e, f]
        exact fun _ => ⟨t, .inl ⟨n, by simp [setPc]⟩⟩
      | busy =>
        simp only [step, e, f]
        exact hh
      | done =>
        simp only [step, e, f]
        exact frame s t _ (out t _ e (by simp)) rfl rfl
    | onceCheck n =>
      cases f : s.pool with
      | none =>
        simp only [step, e, f]
        exact fun _ => ⟨t, .inr ⟨n, by simp [setPc]⟩⟩
      | some q =>
        simp only [step, e, f]
        intro h
        cases h
    | onceStore n =>
      simp only [step, e]
      intro h
      cases h
    | read =>
      simp only [step, e]
      exact frame _ t _ (out t _ e (by simp)) rfl rfl
    | initCheck n =>
      cases f : s.pool with
      | none =>
        simp only [step, e, f]
        exact frame s t _ (out t _ e (by simp)) rfl rfl
      | some q =>
        simp only [step, e, f]
        exact frame s t _ (out t _ e (by simp)) rfl rfl
    | initStore n =>
      simp only [step, e]
      exact frame _ t _ (out t _ e (by simp)) rfl rfl

theorem holder_run (max : Nat) : ∀ (ms : List Move) (s : St), (s.flag = .busy → ∃ u, Inside s u) →
    (run max s ms).flag = .busy → ∃ u, Inside (run max s ms) u
  | [], _, hh => hh
  | m :: ms, s, hh => holder_run max ms _ (holder_step max s m hh)

/-- **C183, waiting ends.** In every state in which some thread is in a call of either function, a thread in a call can go on. -/
theorem no_deadlock (max : Nat) (ms : List Move) (t : Nat) (hp : (run max {} ms).pc t ≠ .idle) :
    ∃ u s', (run max {} ms).pc u ≠ .idle ∧ step max (run max {} ms) (.go u) = some s' := by
  have hh := holder_run max ms {} (fun h => by cases h)
  generalize run max {} ms = s at *
  have hold : ∀ u, Inside s u → ∃ u s', s.pc u ≠ .idle ∧ step max s (.go u) = some s' := by
    intro u hu
    rcases hu with ⟨n, hu⟩ | ⟨n, hu⟩
    · cases e : s.pool with
      | none => exact ⟨u, _, by simp [hu], by simp only [step, hu, e]; rfl⟩
      | some p => exact ⟨u, _, by simp [hu], by simp only [step, hu, e]; rfl⟩
    · exact ⟨u, _, by simp [hu], by simp only [step, hu]; rfl⟩
  cases e : s.pc t with
  | idle => exact absurd e hp
  | get n =>
    cases f : s.flag with
    | unset => exact ⟨t, _, hp, by simp only [step, e, f]; rfl⟩
    | done => exact ⟨t, _, hp, by simp only [step, e, f]; rfl⟩
    | busy =>
      obtain ⟨u, hu⟩ := hh f
      exact hold u hu
  | onceCheck n => exact hold t (.inl ⟨n, e⟩)
  | onceStore n => exact hold t (.inr ⟨n, e⟩)
  | read => exact ⟨t, _, hp, by simp only [step, e]; rfl⟩
  | initCheck n =>
    cases f : s.pool with
    | none => exact ⟨t, _, hp, by simp only [step, e, f]; rfl⟩
    | some q => exact ⟨t, _, hp, by simp only [step, e, f]; rfl⟩
  | initStore n => exact ⟨t, _, hp, by simp only [step, e]; rfl⟩

/-- **C183 (partial), without initialisation.** If only `get_global_thread_pool` is called, on any number of threads and in any schedule, all calls return the same
pool. Missing: initialisation at the same time (`init_at_the_same_time_violated`). -/
theorem one_pool_partial (max : Nat) (ms : List Move) (ho : OnlyGet ms) (p q : Option Nat)
    (hp : p ∈ (run max {} ms).returned) (hq : q ∈ (run max {} ms).returned) : p = q ∧ p ≠ none := by
  have hi := (inv_run max ms {} ho inv_init).1
  exact ⟨(hi.returned p hp).1.trans (hi.returned q hq).1.symm, (hi.returned p hp).2⟩

/-- **C183 (partial), initialised first.** If `init_global_thread_pool(num)` has returned before anything else is called, all calls return the pool it made, which has `num`
threads but no more than the limit of the machine, and no other pool is made. Missing: a limit of zero (`no_limit_violated`). -/
theorem initialised_first_partial (max t num : Nat) (hmax : 1 ≤ max) (hnum : 1 ≤ num) (ms : List Move) (ho : OnlyGet ms) (p : Option Nat)
    (hp : p ∈ (run max (initialised max t num) ms).returned) :
    p = some 0 ∧ (run max (initialised max t num) ms).made = [min num max] := by
  obtain ⟨h1, h2, h3⟩ := initialised_eq max t num
  obtain ⟨hi, hk⟩ := inv_run max ms _ ho h3
  obtain ⟨a, b⟩ := hk 0 h1
  refine ⟨(hi.returned p hp).1.trans a, b.trans (h2.trans ?_)⟩
  unfold workers
  rw [if_neg (by omega)]

/-- **C183 fails of initialisation at the same time.** Thread 0 calls `init_global_thread_pool(n)`, thread 1 `get_global_thread_pool(m)` twice: it gets two different pools. -/
theorem init_at_the_same_time_violated (max n m : Nat) :
    (run max {} [.callInit 0 n, .go 0, .callGet 1 m, .go 1, .go 1, .go 1, .go 1, .go 0, .callGet 1 m, .go 1, .go 1]).returned = [some 0, some 1] ∧
    (run max {} [.callInit 0 n, .go 0, .callGet 1 m, .go 1, .go 1, .go 1, .go 1, .go 0, .callGet 1 m, .go 1, .go 1]).made = [workers max m, workers max n] := by
  constructor <;> simp [run, step, setPc, store]

/-- **C183 fails of initialisation afterwards.** `init_global_thread_pool(n)` after a `get_global_thread_pool(m)` makes no pool: the pool has `m` threads. -/
theorem init_afterwards_violated (max n m : Nat) :
    (run max {} [.callGet 1 m, .go 1, .go 1, .go 1, .go 1, .callInit 0 n, .go 0, .callGet 1 m, .go 1, .go 1]).returned = [some 0, some 0] ∧
    (run max {} [.callGet 1 m, .go 1, .go 1, .go 1, .go 1, .callInit 0 n, .go 0, .callGet 1 m, .go 1, .go 1]).made = [workers max m] := by
  constructor <;> simp [run, step, setPc, store]

/-- **C183 fails where the limit is zero** (`hwy::ThreadPool::MaxThreads` counts the processors besides the one in use): whatever the number asked for, the pool
has 8 threads. -/
theorem no_limit_violated (t num : Nat) : (initialised 0 t num).made = [8] := by
  rw [(initialised_eq 0 t num).2.1]
  simp [workers]

/-! ## Cases -/

/-- Two threads ask at once, the second waits. -/
def trace : List Move := [.callGet 0 4, .callGet 1 9, .go 1, .go 0, .go 1, .go 1, .go 0, .go 1, .go 0]

example : (run 8 {} trace).returned = [some 0, some 0] ∧ (run 8 {} trace).made = [8] := by decide
example : OnlyGet trace := by intro t num h; simp [trace] at h
example : (run 8 (initialised 8 2 3) trace).returned = [some 0, some 0] ∧ (run 8 (initialised 8 2 3) trace).made = [3] := by decide
/-- Thread 0 waits for thread 1, which can go on. -/
example : (run 8 {} (trace.take 3)).pc 0 ≠ .idle ∧ (step 8 (run 8 {} (trace.take 3)) (.go 0)).isNone ∧
    (step 8 (run 8 {} (trace.take 3)) (.go 1)).isSome := by decide

end Verif.Pool.Global
