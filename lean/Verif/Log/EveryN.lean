/-!
# A message logged once in `n` times (C182)

`/repo/rapidudf/log/log.h` 45–56: `RUDF_LOG_EVERY_N`, `RUDF_INFO_EVERY_N`, `RUDF_ERROR_EVERY_N`. Every place with the macro has a static atomic
counter, of which an execution makes up to three accesses: `++`, perhaps `-= n`, and a read. Each access is one step of a thread; other
threads may come between. The other counter, `LOG_OCCURRENCES`, is never read and left out. The counter is an integer without bounds here; by `counter_bounds` it does not leave the
range of `int` while `n` times the number of threads is below 2³¹. `n` is the same in all executions (the macro takes any expression). Whether
the logger accepts the level is not modelled: "logged" means `RUDF_LOG` is reached.
-/
namespace Verif.Log.EveryN

/-- Where a thread is in the macro. -/
inductive Pc where
  | idle     -- outside
  | sub      -- found more than `n`: about to subtract
  | test     -- about to compare with 1
deriving DecidableEq, Repr

structure St where
  counter : Int := 0                      -- `LOG_OCCURRENCES_MOD_N(0)`
  pc : Nat → Pc := fun _ => .idle
  out : List (Nat × Bool) := []           -- the executions in the order they end: the thread, and whether it logged

def setPc (s : St) (t : Nat) (p : Pc) : St := { s with pc := fun u => if u = t then p else s.pc u }

/-- One step of thread `t` (`log.h` 49–50). -/
def step (n : Int) (s : St) (t : Nat) : St :=
  match s.pc t with
  | .idle => setPc { s with counter := s.counter + 1 } t (if s.counter + 1 > n then .sub else .test)
  | .sub => setPc { s with counter := s.counter - n } t .test
  | .test => setPc { s with out := s.out ++ [(t, decide (s.counter = 1))] } t .idle

/-- A schedule: which thread makes each step. -/
def run (n : Int) (s : St) : List Nat → St
  | [] => s
  | t :: ts => run n (step n s t) ts

/-- An execution on thread `t` that no other execution overlaps. -/
def whole (n : Int) (s : St) (t : Nat) : St :=
  let s1 := step n s t
  let s2 := if s1.pc t = .sub then step n s1 t else s1
  step n s2 t

/-- Executions one after another, on the given threads. -/
def serial (n : Int) (s : St) : List Nat → St
  | [] => s
  | t :: ts => serial n (whole n s t) ts

/-- Nobody is in the macro. -/
def Quiet (s : St) : Prop := ∀ t, s.pc t = .idle

/-! ## Executions one after another -/

def next (n c : Int) : Int := if c + 1 > n then c + 1 - n else c + 1

theorem whole_eq (n : Int) (s : St) (t : Nat) (hq : Quiet s) :
    (whole n s t).counter = next n s.counter ∧ Quiet (whole n s t) ∧
      (whole n s t).out = s.out ++ [(t, decide (next n s.counter = 1))] := by
  have h := hq t
  by_cases e : s.counter + 1 > n
  · refine ⟨?_, ?_, ?_⟩
    · simp [whole, step, setPc, h, e, next]
    · intro u
      by_cases eu : u = t
      · simp [whole, step, setPc, h, e, eu]
      · simp [whole, step, setPc, h, e, eu, hq u]
    · simp [whole, step, setPc, h, e, next]
  · refine ⟨?_, ?_, ?_⟩
    · simp [whole, step, setPc, h, e, next]
    · intro u
      by_cases eu : u = t
      · simp [whole, step, setPc, h, e, eu]
      · simp [whole, step, setPc, h, e, eu, hq u]
    · simp [whole, step, setPc, h, e, next]

/-- Which of the executions that follow log, if `i` do not before the first that does and then one in `n`. -/
def Every (n i : Nat) (ts : List Nat) (out : List (Nat × Bool)) : Prop :=
  out.length = ts.length ∧ ∀ j (h : j < ts.length), out[j]? = some (ts[j], decide (i ≤ j ∧ (j - i) % n = 0))

/-- How many executions until the next that logs, from the counter. -/
def wait (n : Nat) (c : Int) : Nat := if c ≤ 0 then (-c).toNat else (n - c).toNat

theorem serial_every (n : Nat) (hn : 1 ≤ n) : ∀ (ts : List Nat) (s : St), Quiet s → s.counter ≤ n →
    ∃ o, (serial n s ts).out = s.out ++ o ∧ Every n (wait n s.counter) ts o := by
  intro ts
  induction ts with
  | nil => intro s _ _; exact ⟨[], by simp [serial], rfl, fun j h => absurd h (Nat.not_lt_zero _)⟩
  | cons t ts ih =>
    intro s hq hc
    obtain ⟨h1, h2, h3⟩ := whole_eq n s t hq
    have hnx : next n s.counter ≤ n := by unfold next; split <;> omega
    obtain ⟨o, ho, hlen, hev⟩ := ih (whole n s t) h2 (by rw [h1]; exact hnx)
    refine ⟨(t, decide (next n s.counter = 1)) :: o, ?_, ?_, ?_⟩
    · simp only [serial]
      rw [ho, h3, List.append_assoc]
      rfl
    · simp [hlen]
    · intro j hj
      have hw0 : next n s.counter = 1 ↔ wait n s.counter = 0 := by
        unfold next wait
        split <;> split <;> omega
      have hw1 : wait n s.counter ≠ 0 → wait n (next n s.counter) + 1 = wait n s.counter := by
        unfold next wait
        split <;> split <;> split <;> omega
      have hw2 : wait n s.counter = 0 → wait n (next n s.counter) + 1 = n := by
        unfold next wait
        split <;> split <;> split <;> omega
      cases j with
      | zero =>
        have : next n s.counter = 1 ↔ (wait n s.counter ≤ 0 ∧ (0 - wait n s.counter) % n = 0) := by
          rw [hw0]
          constructor
          · intro e; rw [e]; simp
          · intro e; omega
        simp [this]
      | succ j =>
        have hj' : j < ts.length := by simpa using hj
        have := hev j hj'
        rw [h1] at this
        rw [List.getElem?_cons_succ, this, List.getElem_cons_succ]
        congr 2
        apply decide_eq_decide.2
        by_cases e : wait n s.counter = 0
        · have e2 := hw2 e
          rw [e]
          constructor
          · rintro ⟨a, b⟩
            refine ⟨Nat.zero_le _, ?_⟩
            have : j + 1 - 0 = (j - wait n (next n s.counter)) + n := by omega
            rw [this, Nat.add_mod_right]; exact b
          · rintro ⟨_, b⟩
            have hle : n ≤ j + 1 := by
              rcases Nat.lt_or_ge (j + 1) n with hlt | hge
              · rw [Nat.mod_eq_of_lt (by omega)] at b; omega
              · exact hge
            refine ⟨by omega, ?_⟩
            have : j + 1 - 0 = (j - wait n (next n s.counter)) + n := by omega
            rw [this, Nat.add_mod_right] at b; exact b
        · have e1 := hw1 e
          have : j + 1 - wait n s.counter = j - wait n (next n s.counter) := by omega
          rw [this]
          constructor
          · rintro ⟨a, b⟩; exact ⟨by omega, b⟩
          · rintro ⟨a, b⟩; exact ⟨by omega, b⟩

/-! ## Executions at the same time -/

/-- How many of the first `T` threads are about to subtract. -/
def pending (pc : Nat → Pc) : Nat → Nat
  | 0 => 0
  | T + 1 => pending pc T + (if pc T = .sub then 1 else 0)

theorem pending_le (pc : Nat → Pc) (T : Nat) : pending pc T ≤ T := by
  induction T with
  | zero => exact Nat.le_refl _
  | succ T ih => simp only [pending]; split <;> omega

theorem pending_out (pc : Nat → Pc) (t : Nat) (p : Pc) (T : Nat) (h : T ≤ t) : pending (fun u => if u = t then p else pc u) T = pending pc T := by
  induction T with
  | zero => rfl
  | succ T ih =>
    simp only [pending]
    have e : ¬ T = t := by omega
    simp only [ih (by omega), e, if_false]

theorem pending_set (pc : Nat → Pc) (t : Nat) (p : Pc) (T : Nat) (h : t < T) :
    pending (fun u => if u = t then p else pc u) T + (if pc t = .sub then 1 else 0) = pending pc T + (if p = .sub then 1 else 0) := by
  induction T with
  | zero => omega
  | succ T ih =>
    simp only [pending]
    by_cases e : T = t
    · subst e
      simp only [pending_out pc T p T (Nat.le_refl _), if_true]
      omega
    · have := ih (by omega)
      simp only [e, if_false]
      omega

structure Inv (n T : Nat) (s : St) : Prop where
  outside : ∀ t, T ≤ t → s.pc t = .idle
  upper : s.counter - n * pending s.pc T ≤ n
  lower : 1 - n * (T : Int) + n ≤ s.counter - n * pending s.pc T ∨ (0 ≤ s.counter - n * pending s.pc T)

theorem inv_init (n T : Nat) : Inv n T {} := by
  have h : pending (fun _ => Pc.idle) T = 0 := by
    induction T with
    | zero => rfl
    | succ T ih => simp [pending, ih]
  exact ⟨fun _ _ => rfl, by simp [h], .inr (by simp [h])⟩

theorem inv_step (n T : Nat) (hn : 1 ≤ n) (s : St) (t : Nat) (ht : t < T) (hi : Inv n T s) : Inv n T (step n s t) := by
  have hs := fun p => pending_set s.pc t p T ht
  have hup := hi.upper
  have hlo := hi.lower
  have hout : ∀ (p : Pc) u, T ≤ u → (if u = t then p else s.pc u) = .idle := by
    intro p u hu
    rw [if_neg (show ¬ u = t by omega)]
    exact hi.outside u hu
  unfold step
  cases e : s.pc t with
  | idle =>
    simp only
    have hp := hs (if s.counter + 1 > n then .sub else .test)
    by_cases c : s.counter + 1 > n
    · rw [if_pos c] at hp ⊢
      rw [e] at hp
      simp only [reduceCtorEq, if_false, if_true, Nat.add_zero] at hp
      refine ⟨hout _, ?_, ?_⟩
      · simp only [setPc]
        rw [hp]
        push_cast
        have : (n : Int) * (pending s.pc T + 1) = n * pending s.pc T + n := by rw [Int.mul_add, Int.mul_one]
        omega
      · left
        simp only [setPc]
        have hle := pending_le (fun u => if u = t then Pc.sub else s.pc u) T
        rw [hp] at hle
        rw [hp]
        push_cast
        have h1 : (n : Int) * (pending s.pc T + 1) ≤ n * T := Int.mul_le_mul_of_nonneg_left (by omega) (by omega)
        omega
    · rw [if_neg c] at hp ⊢
      rw [e] at hp
      simp only [reduceCtorEq, if_false, Nat.add_zero] at hp
      refine ⟨hout _, ?_, ?_⟩
      · simp only [setPc]
        rw [hp]
        have : 0 ≤ (n : Int) * pending s.pc T := Int.mul_nonneg (by omega) (by omega)
        omega
      · simp only [setPc]
        rw [hp]
        omega
  | sub =>
    have hp := hs .test
    rw [e] at hp
    simp only [reduceCtorEq, if_false, if_true, Nat.add_zero] at hp
    have hm : (n : Int) * pending s.pc T = n * pending (fun u => if u = t then Pc.test else s.pc u) T + n := by
      rw [← hp]; push_cast; rw [Int.mul_add, Int.mul_one]
    refine ⟨hout _, ?_, ?_⟩
    · simp only [setPc]
      omega
    · simp only [setPc]
      omega
  | test =>
    have hp := hs .idle
    rw [e] at hp
    simp only [reduceCtorEq, if_false, Nat.add_zero] at hp
    refine ⟨hout _, ?_, ?_⟩
    · simp only [setPc]; rw [hp]; exact hup
    · simp only [setPc]; rw [hp]; exact hlo

theorem inv_run (n T : Nat) (hn : 1 ≤ n) : ∀ (ts : List Nat) (s : St), (∀ t ∈ ts, t < T) → Inv n T s → Inv n T (run n s ts) := by
  intro ts
  induction ts with
  | nil => intro s _ h; exact h
  | cons t ts ih =>
    intro s ht h
    exact ih _ (fun u hu => ht u (List.mem_cons_of_mem _ hu)) (inv_step n T hn s t (ht t List.mem_cons_self) h)

theorem quiet_pending (s : St) (h : Quiet s) (T : Nat) : pending s.pc T = 0 := by
  induction T with
  | zero => rfl
  | succ T ih => simp [pending, ih, h T]

/-! ## Property C182 -/

/-- **C182 (partial), one after another.** If executions do not overlap, on whichever threads, the first logs, and then every `n`th after it.
Missing: overlapping executions (`lost_violated`). -/
theorem every_nth_partial (n : Nat) (hn : 1 ≤ n) (ts : List Nat) (j : Nat) (h : j < ts.length) :
    (serial n {} ts).out[j]? = some (ts[j], decide (j % n = 0)) := by
  obtain ⟨o, ho, _, hev⟩ := serial_every n hn ts {} (fun _ => rfl) (by simp)
  rw [ho]
  have := hev j h
  simpa [wait] using this

/-- **C182 (partial), after overlapping executions.** After any schedule of `T` threads at the end of which nobody is in the macro, executions one
after another log again: the first within `n·T` executions, and then every `n`th. -/
theorem recovers_partial (n T : Nat) (hn : 1 ≤ n) (hT : 1 ≤ T) (sched : List Nat) (hs : ∀ t ∈ sched, t < T) (hq : Quiet (run n {} sched)) (ts : List Nat) :
    ∃ i o, i < n * T ∧ (serial n (run n {} sched) ts).out = (run n {} sched).out ++ o ∧
      ∀ j (h : j < ts.length), o[j]? = some (ts[j], decide (i ≤ j ∧ (j - i) % n = 0)) := by
  have hi := inv_run n T hn sched {} hs (inv_init n T)
  have hp := quiet_pending _ hq T
  have hup := hi.upper
  have hlo := hi.lower
  rw [hp] at hup hlo
  simp only [Int.natCast_zero, Int.mul_zero, Int.sub_zero] at hup hlo
  obtain ⟨o, ho, _, hev⟩ := serial_every n hn ts _ hq hup
  refine ⟨_, o, ?_, ho, hev⟩
  have hnT : n * 1 ≤ n * T := Nat.mul_le_mul_left n hT
  have hc : ((n * T : Nat) : Int) = n * (T : Int) := by push_cast; rfl
  unfold wait
  split <;> omega

/-- The counter in every state, of at most `T` threads: at most `n·(T+1)` and above `−n·T`. -/
theorem counter_bounds (n T : Nat) (hn : 1 ≤ n) (hT : 1 ≤ T) (sched : List Nat) (hs : ∀ t ∈ sched, t < T) :
    -(n * T : Int) < (run n {} sched).counter ∧ (run n {} sched).counter ≤ n * (T + 1) := by
  have hi := inv_run n T hn sched {} hs (inv_init n T)
  have hup := hi.upper
  have hlo := hi.lower
  have hle := pending_le (run n {} sched).pc T
  have h0 : 0 ≤ (n : Int) * pending (run n {} sched).pc T := Int.mul_nonneg (by omega) (by omega)
  have h1 : (n : Int) * pending (run n {} sched).pc T ≤ n * T := Int.mul_le_mul_of_nonneg_left (by omega) (by omega)
  have h2 : (n : Int) * (T + 1) = n * T + n := by rw [Int.mul_add, Int.mul_one]
  have h3 : (n : Int) * 1 ≤ n * T := Int.mul_le_mul_of_nonneg_left (by omega) (by omega)
  omega

/-- **C182 fails of overlapping executions.** For every `n` of at least 2, the first two executions, on two threads, both pass without logging; with `n` = 1,
where every execution should log, one of them does. -/
theorem lost_violated :
    (∀ n : Nat, 2 ≤ n → (run n {} [0, 1, 0, 1]).out = [(0, false), (1, false)] ∧ Quiet (run n {} [0, 1, 0, 1])) ∧
    (run 1 {} [0, 1, 0, 1, 1]).out = [(0, false), (1, true)] := by
  refine ⟨fun n hn => ?_, by decide⟩
  have h1 : ¬ (1 : Int) > n := by omega
  have h2 : ¬ (2 : Int) > n := by omega
  constructor
  · simp [run, step, setPc, h1, h2]
  · intro t
    by_cases e0 : t = 0
    · subst e0; simp [run, step, setPc, h1, h2]
    · by_cases e1 : t = 1
      · subst e1; simp [run, step, setPc, h1, h2]
      · simp [run, step, setPc, h1, h2, e0, e1]

/-! ## Cases -/

example : (serial 3 {} [0, 1, 0, 0, 2]).out = [(0, true), (1, false), (0, false), (0, true), (2, false)] := by decide

/-- Two threads find more than `n` = 3 at once: the counter goes below zero, and the fourth execution, which should log, does not. -/
example : (run 3 {} [0, 0, 0, 0, 0, 0, 0, 1, 0, 1, 0, 1]).counter = -1 := by decide
example : (run 3 {} [0, 0, 0, 0, 0, 0, 0, 1, 0, 1, 0, 1]).out = [(0, true), (0, false), (0, false), (0, false), (1, false)] := by decide
example : ∀ t, (run 3 {} [0, 0, 0, 0, 0, 0, 0, 1, 0, 1, 0, 1]).pc t = .idle := by
  intro t
  by_cases e0 : t = 0
  · subst e0; decide
  · by_cases e1 : t = 1
    · subst e1; decide
    · simp [run, step, setPc, e0, e1]

end Verif.Log.EveryN
