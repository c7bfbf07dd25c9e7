/-!
# Nested parallel loops on one pool: model and property C69

`/repo/rapidudf/executors/thread_pool.h` 72-85, 117-130: a submitted task occupies a pool thread until
it finishes. If its closure calls `Run` on the same pool, it posts the inner tasks and then blocks in
`WaitAll` — still occupying its thread — until all of them have finished.

Tasks are numbered; `parent c = some p` says that task `c` is submitted by a nested `Run` inside task
`p`. The pool has `threads` threads and one first-in first-out queue (`boost::asio::thread_pool`).
Simplification: a task makes at most one nested `Run`; the calls it makes itself are part of its step.
-/
namespace Verif.Pool.Nested

structure Cfg where
  threads : Nat
  tasks : Nat
  parent : Nat → Option Nat

/-- A task is submitted by a task with a smaller number. -/
def Cfg.WF (c : Cfg) : Prop := ∀ i p, c.parent i = some p → p < i

def Cfg.children (c : Cfg) (p : Nat) : List Nat := (List.range c.tasks).filter (fun i => c.parent i = some p)
def Cfg.roots (c : Cfg) : List Nat := (List.range c.tasks).filter (fun i => c.parent i = none)

inductive St where
  | unposted
  | queued
  | posting (k : Nat)   -- running on a thread, `k` inner tasks posted
  | waiting             -- blocked in `WaitAll`, occupies its thread
  | done
deriving DecidableEq

def St.busy : St → Bool
  | .posting _ | .waiting => true
  | _ => false

structure S where
  queue : List Nat
  busy : Nat                 -- occupied threads
  st : Nat → St

def upd (f : Nat → St) (i : Nat) (v : St) : Nat → St := fun j => if j = i then v else f j

/-- The outer `Run` has posted the root tasks. -/
def init (c : Cfg) : S :=
  { queue := c.roots, busy := 0, st := fun i => if c.parent i = none then .queued else .unposted }

inductive Act where
  | start            -- a free thread takes the task at the head of the queue
  | step (i : Nat)   -- the thread running task `i` moves
deriving DecidableEq

def step (c : Cfg) (s : S) : Act → Option S
  | .start =>
    match s.queue with
    | [] => none
    | i :: q => if s.busy < c.threads then some { queue := q, busy := s.busy + 1, st := upd s.st i (.posting 0) } else none
  | .step i =>
    if i < c.tasks then
      match s.st i with
      | .posting k =>
        match (c.children i)[k]? with
        | some x => some { s with queue := s.queue ++ [x], st := upd (upd s.st x .queued) i (.posting (k + 1)) }   -- line 124
        | none => if k = 0 then some { s with busy := s.busy - 1, st := upd s.st i .done }
                  else some { s with st := upd s.st i .waiting }                                                -- line 83
      | .waiting => if ∀ x ∈ c.children i, s.st x = .done then some { s with busy := s.busy - 1, st := upd s.st i .done } else none
      | _ => none
    else none

inductive Reach (c : Cfg) : S → Prop where
  | init : Reach c (init c)
  | step {s s' : S} (a : Act) : Reach c s → step c s a = some s' → Reach c s'

def AllDone (c : Cfg) (s : S) : Prop := ∀ i, i < c.tasks → s.st i = .done

/-! ## Violation -/

/-- `n` outer tasks, each of which runs one nested loop with one submitted task. -/
def nestedCfg (n : Nat) : Cfg :=
  { threads := n, tasks := n + n, parent := fun i => if i < n then none else some (i - n) }

theorem filter_range_lt (n m : Nat) (h : n ≤ m) : (List.range m).filter (fun i => decide (i < n)) = List.range n := by
  induction m with
  | zero => have : n = 0 := by omega
            subst this; rfl
  | succ m ih =>
    rw [List.range_succ, List.filter_append]
    by_cases e : n = m + 1
    · subst e
      rw [List.filter_eq_self.2 (fun a ha => by simp at ha ⊢; omega)]
      simp [List.range_succ]
    · rw [ih (by omega)]; simp; omega

theorem filter_range_eq (j m : Nat) (h : j < m) : (List.range m).filter (fun i => decide (i = j)) = [j] := by
  induction m with
  | zero => omega
  | succ m ih =>
    rw [List.range_succ, List.filter_append]
    by_cases e : j = m
    · subst e
      rw [List.filter_eq_nil_iff.2 (fun a ha => by simp at ha ⊢; omega)]; simp
    · rw [ih (by omega)]; simp; omega

theorem nested_roots (n : Nat) : (nestedCfg n).roots = List.range n := by
  unfold Cfg.roots
  rw [← filter_range_lt n (n + n) (by omega)]
  apply List.filter_congr
  intro i _
  by_cases h : i < n <;> simp [nestedCfg, h]

theorem nested_children (n i : Nat) (h : i < n) : (nestedCfg n).children i = [n + i] := by
  unfold Cfg.children
  rw [← filter_range_eq (n + i) (n + n) (by omega)]
  apply List.filter_congr
  intro j hj
  simp at hj
  by_cases h' : j < n
  · have : ¬ j = n + i := by omega
    simp [nestedCfg, h', this]
  · simp [nestedCfg, h']; omega

/-- After the threads took `j` outer tasks. -/
def afterStarts (n j : Nat) : S :=
  { queue := List.range' j (n - j), busy := j,
    st := fun i => if i < j then .posting 0 else if i < n then .queued else .unposted }

/-- After `j` of the outer tasks posted their inner task and blocked. -/
def afterPosts (n j : Nat) : S :=
  { queue := List.range' n j, busy := n,
    st := fun i => if i < j then .waiting else if i < n then .posting 0 else if i < n + j then .queued else .unposted }

theorem reach_starts (n j : Nat) (h : j ≤ n) : Reach (nestedCfg n) (afterStarts n j) := by
  induction j with
  | zero =>
    have : init (nestedCfg n) = afterStarts n 0 := by
      unfold init afterStarts
      rw [nested_roots, List.range_eq_range']
      simp only [nestedCfg, Nat.sub_zero, S.mk.injEq, true_and]
      funext i
      by_cases h : i < n <;> simp [h]
    rw [← this]; exact .init
  | succ j ih =>
    refine .step .start (ih (by omega)) ?_
    have hq : List.range' j (n - j) = j :: List.range' (j + 1) (n - (j + 1)) := by
      have : n - j = (n - (j + 1)) + 1 := by omega
      rw [this, List.range'_succ]
    have hlt : j < (nestedCfg n).threads := by simp [nestedCfg]; omega
    simp only [step, afterStarts, hq, hlt, if_true, Option.some.injEq, S.mk.injEq, true_and]
    funext i
    simp only [upd]
    by_cases e : i = j
    · subst e; simp
    · simp only [e, if_false]
      by_cases h1 : i < j
      · simp [h1, show i < j + 1 by omega]
      · simp [h1, show ¬ i < j + 1 by omega]

theorem reach_posts (n j : Nat) (h : j ≤ n) : Reach (nestedCfg n) (afterPosts n j) := by
  induction j with
  | zero =>
    have : afterStarts n n = afterPosts n 0 := by
      unfold afterStarts afterPosts
      simp only [Nat.sub_self, List.range'_zero, S.mk.injEq, true_and, Nat.add_zero]
      funext i
      by_cases h : i < n <;> simp [h]
    rw [← this]; exact reach_starts n n (Nat.le_refl _)
  | succ j ih =>
    have hlt : j < (nestedCfg n).tasks := by simp [nestedCfg]; omega
    have hch := nested_children n j (by omega)
    -- post the inner task, then block
    refine .step (.step j) (.step (.step j) (ih (by omega)) (s' := { queue := List.range' n j ++ [n + j], busy := n, st := upd (upd (afterPosts n j).st (n + j) .queued) j (.posting 1) }) ?_) ?_
    · simp only [step, hlt, if_true]
      have : (afterPosts n j).st j = .posting 0 := by simp [afterPosts]; omega
      simp only [this, hch, List.getElem?_cons_zero]
      rfl
    · simp only [step, hlt, if_true]
      simp only [upd, if_true, hch]
      simp only [List.getElem?_cons_succ, List.getElem?_nil]
      simp only [show ¬ (1 = 0) by omega, if_false, Option.some.injEq, afterPosts, S.mk.injEq, true_and]
      refine ⟨by rw [List.range'_concat, Nat.one_mul], ?_⟩
      funext i
      simp only [upd]
      by_cases e : i = j
      · subst e; simp
      · simp only [e, if_false]
        by_cases e2 : i = n + j
        · subst e2
          simp [show ¬ n + j < j + 1 by omega]
        · simp only [e2, if_false]
          by_cases h1 : i < j
          · simp [h1, show i < j + 1 by omega]
          · simp only [h1, show ¬ i < j + 1 by omega, if_false]
            by_cases h2 : i < n
            · simp [h2]
            · simp only [h2, if_false]
              by_cases h3 : i < n + j
              · simp [h3, show i < n + (j + 1) by omega]
              · simp [h3, show ¬ i < n + (j + 1) by omega]

/-- **C69, violated.** For every pool size there is an execution of an outer loop with one task per thread, each
running a nested loop on the same pool, that reaches a deadlock: no thread can move, and no task has
finished. -/
theorem nested_run_deadlock_violated (n : Nat) (hn : 0 < n) :
    ∃ s, Reach (nestedCfg n) s ∧ (∀ a, step (nestedCfg n) s a = none) ∧ ∀ i, i < (nestedCfg n).tasks → s.st i ≠ .done := by
  refine ⟨afterPosts n n, reach_posts n n (Nat.le_refl _), ?_, ?_⟩
  · intro a
    cases a with
    | start =>
      simp only [step, afterPosts]
      have : n = (n - 1) + 1 := by omega
      rw [this, List.range'_succ]
      simp [nestedCfg]
    | step i =>
      simp only [step]
      split
      · rename_i hi
        simp [nestedCfg] at hi
        by_cases h : i < n
        · have h1 : (afterPosts n n).st i = .waiting := by simp [afterPosts, h]
          simp only [h1, nested_children n i h]
          rw [if_neg]
          intro hall
          have := hall (n + i) (by simp)
          simp [afterPosts] at this
          split at this <;> (try split at this) <;> (try split at this) <;> simp at this
        · have h1 : (afterPosts n n).st i = .queued := by simp [afterPosts, h, hi]
          simp [h1]
      · rfl
  · intro i hi
    simp only [afterPosts]
    split
    · simp
    · simp only [nestedCfg] at hi
      simp [hi]

/-! ## What holds: enough threads -/

def sumR (n : Nat) (f : Nat → Nat) : Nat := ((List.range n).map f).sum

theorem sumR_succ (n : Nat) (f : Nat → Nat) : sumR (n + 1) f = sumR n f + f n := by
  simp [sumR, List.range_succ]

theorem sumR_congr {n : Nat} {f g : Nat → Nat} (h : ∀ i, i < n → f i = g i) : sumR n f = sumR n g := by
  induction n with
  | zero => rfl
  | succ n ih => rw [sumR_succ, sumR_succ, ih (fun i hi => h i (by omega)), h n (by omega)]

theorem sumR_le {n : Nat} {f g : Nat → Nat} (h : ∀ i, i < n → f i ≤ g i) : sumR n f ≤ sumR n g := by
  induction n with
  | zero => exact Nat.le_refl _
  | succ n ih =>
    rw [sumR_succ, sumR_succ]
    have := ih (fun i hi => h i (by omega)); have := h n (by omega); omega

theorem sumR_upd {n : Nat} {w : Nat → St → Nat} {f : Nat → St} {j : Nat} {v : St} (hj : j < n) :
    sumR n (fun i => w i (upd f j v i)) + w j (f j) = sumR n (fun i => w i (f i)) + w j v := by
  induction n with
  | zero => omega
  | succ n ih =>
    rw [sumR_succ, sumR_succ]
    by_cases e : j = n
    · subst e
      have : sumR j (fun i => w i (upd f j v i)) = sumR j (fun i => w i (f i)) :=
        sumR_congr (fun i hi => by simp [upd, show i ≠ j by omega])
      rw [this]; simp [upd]; omega
    · have := ih (by omega)
      simp only [upd, show ¬ n = j by omega, if_false] at *
      omega

def busyN (_ : Nat) (s : St) : Nat := if s.busy then 1 else 0

@[simp] theorem busyN_posting (i k : Nat) : busyN i (.posting k) = 1 := rfl
@[simp] theorem busyN_waiting (i : Nat) : busyN i .waiting = 1 := rfl
@[simp] theorem busyN_queued (i : Nat) : busyN i .queued = 0 := rfl
@[simp] theorem busyN_unposted (i : Nat) : busyN i .unposted = 0 := rfl
@[simp] theorem busyN_done (i : Nat) : busyN i .done = 0 := rfl

/-- Tasks that make a nested call. -/
def Cfg.parents (c : Cfg) : Nat := ((List.range c.tasks).filter (fun i => c.children i ≠ [])).length

structure Inv (c : Cfg) (s : S) : Prop where
  busy : s.busy = sumR c.tasks (fun i => busyN i (s.st i))
  queue : ∀ i, i ∈ s.queue ↔ i < c.tasks ∧ s.st i = .queued
  nodup : s.queue.Nodup
  wait : ∀ i, i < c.tasks → s.st i = .waiting → c.children i ≠ []
  root : ∀ i, c.parent i = none → s.st i ≠ .unposted
  posted : ∀ p k j x, (c.children p)[j]? = some x → s.st p = .posting k → (s.st x = .unposted ↔ k ≤ j)
  unposted : ∀ p x, x ∈ c.children p → s.st p = .unposted ∨ s.st p = .queued → s.st x = .unposted
  le : ∀ p k, s.st p = .posting k → k ≤ (c.children p).length
  after : ∀ p x, x ∈ c.children p → s.st p = .waiting ∨ s.st p = .done → s.st x ≠ .unposted

theorem mem_children {c : Cfg} {p x : Nat} : x ∈ c.children p ↔ x < c.tasks ∧ c.parent x = some p := by
  simp [Cfg.children]

theorem inv_init (c : Cfg) (_hc : c.WF) : Inv c (init c) := by
  have nb : ∀ i, (init c).st i = .queued ∨ (init c).st i = .unposted := by
    intro i; simp only [init]; split <;> simp
  constructor
  · simp only [init]
    symm
    have : sumR c.tasks (fun i => busyN i ((init c).st i)) = sumR c.tasks (fun _ => 0) :=
      sumR_congr (fun i _ => by rcases nb i with h | h <;> simp [busyN, h, St.busy])
    simp only [init] at this
    rw [this]
    simp only [sumR]
    rw [List.map_const', List.sum_replicate_nat]; simp
  · intro i
    simp only [init, Cfg.roots, List.mem_filter, List.mem_range]
    by_cases h : c.parent i = none <;> simp [h]
  · exact List.Nodup.sublist List.filter_sublist List.nodup_range
  · intro i _ h; rcases nb i with h' | h' <;> rw [h'] at h <;> simp at h
  · intro i h; simp [init, h]
  · intro p k j x _ h; rcases nb p with h' | h' <;> rw [h'] at h <;> simp at h
  · intro p x hx _
    simp [init, (mem_children.1 hx).2]
  · intro p k h; rcases nb p with h' | h' <;> rw [h'] at h <;> simp at h
  · intro p x hx h
    rcases h with h | h <;> rcases nb p with h' | h' <;> rw [h'] at h <;> simp at h

theorem children_index {c : Cfg} {p j k x : Nat} (h1 : (c.children p)[j]? = some x) (h2 : (c.children p)[k]? = some x) : j = k := by
  have hn : (c.children p).Nodup := List.Nodup.sublist List.filter_sublist List.nodup_range
  obtain ⟨hj, _⟩ := List.getElem?_eq_some_iff.1 h1
  exact List.getElem?_inj hj hn |>.1 (h1.trans h2.symm)

theorem inv_step {c : Cfg} (hc : c.WF) {s s' : S} (h : Inv c s) (a : Act) (hs : step c s a = some s') : Inv c s' := by
  cases a with
  | start =>
    simp only [step] at hs
    split at hs
    · simp at hs
    · rename_i i q hq
      split at hs
      · simp only [Option.some.injEq] at hs; subst hs
        have hi := (h.queue i).1 (by rw [hq]; simp)
        have hnd := h.nodup
        rw [hq, List.nodup_cons] at hnd
        constructor
        · have := sumR_upd (w := busyN) (f := s.st) (v := .posting 0) hi.1
          rw [hi.2] at this
          simp only [busyN_posting, busyN_queued] at this
          have hb := h.busy
          simp only; omega
        · intro j
          simp only [upd]
          by_cases e : j = i
          · subst e; simp [hnd.1]
          · simp only [e, if_false]
            rw [← h.queue j, hq]; simp [e]
        · exact hnd.2
        · intro j hj
          simp only [upd]
          split
          · simp
          · exact h.wait j hj
        · intro j hj
          simp only [upd]
          split
          · simp
          · exact h.root j hj
        · intro p k j x hx hp
          simp only [upd] at hp ⊢
          have hxp := hc x p (mem_children.1 (List.mem_of_getElem? hx)).2
          by_cases ep : p = i
          · subst ep
            simp at hp; subst hp
            have : x ≠ p := by omega
            simp only [this, if_false]
            have := h.unposted p x (List.mem_of_getElem? hx) (.inr hi.2)
            simp [this]
          · simp only [ep, if_false] at hp
            by_cases ex : x = i
            · subst ex
              have := h.posted p k j x hx hp
              rw [hi.2] at this
              simp at this ⊢; exact this
            · simp only [ex, if_false]; exact h.posted p k j x hx hp
        · intro p x hx hp
          simp only [upd] at hp ⊢
          have hxp := hc x p (mem_children.1 hx).2
          by_cases ep : p = i
          · subst ep; simp at hp
          · simp only [ep, if_false] at hp
            have := h.unposted p x hx hp
            by_cases ex : x = i
            · subst ex; rw [hi.2] at this; simp at this
            · simp [ex, this]
        · intro p k hp
          simp only [upd] at hp
          split at hp
          · simp at hp; omega
          · exact h.le p k hp
        · intro p x hx hp
          simp only [upd] at hp ⊢
          by_cases ep : p = i
          · subst ep; simp at hp
          · simp only [ep, if_false] at hp
            split
            · simp
            · exact h.after p x hx hp
      · simp at hs
  | step i =>
    simp only [step] at hs
    split at hs
    · rename_i hi
      split at hs
      · rename_i k hk
        split at hs
        · -- post an inner task
          rename_i x hx
          simp only [Option.some.injEq] at hs; subst hs
          have hxm := mem_children.1 (List.mem_of_getElem? hx)
          have hxi := hc x i hxm.2
          have hxu : s.st x = .unposted := (h.posted i k k x hx hk).2 (Nat.le_refl _)
          constructor
          · have h1 := sumR_upd (w := busyN) (f := s.st) (v := .queued) hxm.1
            have h2 := sumR_upd (w := busyN) (f := upd s.st x .queued) (v := .posting (k + 1)) hi
            have e1 : upd s.st x .queued i = .posting k := by simp [upd, show i ≠ x by omega, hk]
            rw [e1] at h2
            rw [hxu] at h1
            simp only [busyN_posting, busyN_queued, busyN_unposted] at h1 h2
            have hb := h.busy
            simp only; omega
          · intro j
            simp only [upd, List.mem_append, List.mem_singleton]
            rw [h.queue j]
            by_cases e : j = i
            · subst e; simp [hk, show j ≠ x by omega]
            · by_cases e2 : j = x
              · subst e2; simp [hxm.1, e]
              · simp [e, e2]
          · simp only
            rw [List.nodup_append]
            refine ⟨h.nodup, by simp, ?_⟩
            intro a ha b hb e
            simp at hb; subst hb; subst e
            have := ((h.queue a).1 ha).2
            rw [hxu] at this; simp at this
          · intro j hj
            simp only [upd]
            split
            · simp
            · split
              · simp
              · exact h.wait j hj
          · intro j hj
            simp only [upd]
            split
            · simp
            · split
              · simp
              · exact h.root j hj
          · intro p k' j y hy hp
            simp only [upd] at hp ⊢
            have hym := mem_children.1 (List.mem_of_getElem? hy)
            have hyp := hc y p hym.2
            by_cases ep : p = i
            · subst ep
              simp at hp; subst hp
              have hyne : y ≠ p := by omega
              simp only [hyne, if_false]
              by_cases ey : y = x
              · subst ey
                have := children_index hy hx
                simp; omega
              · simp only [ey, if_false]
                rw [h.posted p k j y hy hk]
                constructor
                · intro hle
                  rcases Nat.lt_or_eq_of_le hle with h' | h'
                  · exact h'
                  · subst h'; rw [hx] at hy; simp at hy; exact absurd hy.symm ey
                · omega
            · simp only [ep, if_false] at hp
              by_cases epx : p = x
              · subst epx; simp at hp
              · simp only [epx, if_false] at hp
                by_cases eyi : y = i
                · subst eyi
                  have := h.posted p k' j y hy hp
                  rw [hk] at this; simp at this ⊢; exact this
                · have eyx : y ≠ x := by
                    intro e; subst e
                    rw [hxm.2] at hym; simp at hym; omega
                  simp only [eyi, eyx, if_false]
                  exact h.posted p k' j y hy hp
          · intro p y hy hp
            simp only [upd] at hp ⊢
            have hym := mem_children.1 hy
            have hyp := hc y p hym.2
            by_cases ep : p = i
            · subst ep; simp at hp
            · simp only [ep, if_false] at hp
              by_cases epx : p = x
              · subst epx
                have := h.unposted p y hy (.inl hxu)
                have hyi : y ≠ i := by omega
                have hyx : y ≠ p := by omega
                simp [hyi, hyx, this]
              · simp only [epx, if_false] at hp
                have := h.unposted p y hy hp
                have hyi : y ≠ i := by intro e; subst e; rw [hk] at this; simp at this
                have hyx : y ≠ x := by
                  intro e; subst e
                  rw [hxm.2] at hym; simp at hym; exact ep hym.2.symm
                simp [hyi, hyx, this]
          · intro p k' hp
            simp only [upd] at hp
            split at hp
            · rename_i e; subst e
              simp at hp; subst hp
              exact (List.getElem?_eq_some_iff.1 hx).1
            · split at hp
              · simp at hp
              · exact h.le p k' hp
          · intro p y hy hp
            simp only [upd] at hp ⊢
            by_cases ep : p = i
            · subst ep; simp at hp
            · simp only [ep, if_false] at hp
              by_cases epx : p = x
              · subst epx; simp at hp
              · simp only [epx, if_false] at hp
                have := h.after p y hy hp
                split
                · simp
                · split
                  · simp
                  · exact this
        · rename_i hnone
          have hall : ∀ y, y ∈ c.children i → s.st y ≠ .unposted := by
            intro y hy e
            obtain ⟨j, hj⟩ := List.getElem?_of_mem hy
            have := (h.posted i k j y hj hk).1 e
            obtain ⟨hlt, _⟩ := List.getElem?_eq_some_iff.1 hj
            simp at hnone; omega
          split at hs
          · -- no inner tasks: finish
            simp only [Option.some.injEq] at hs; subst hs
            constructor
            · have := sumR_upd (w := busyN) (f := s.st) (v := .done) hi
              rw [hk] at this
              simp only [busyN_posting, busyN_waiting, busyN_done] at this
              have hb := h.busy
              simp only; omega
            · intro j; simp only [upd]; rw [h.queue j]
              by_cases e : j = i
              · subst e; simp [hk]
              · simp [e]
            · exact h.nodup
            · intro j hj; simp only [upd]; split
              · simp
              · exact h.wait j hj
            · intro j hj; simp only [upd]; split
              · simp
              · exact h.root j hj
            · intro p k' j y hy hp
              simp only [upd] at hp ⊢
              by_cases ep : p = i
              · subst ep; simp at hp
              · simp only [ep, if_false] at hp
                by_cases ey : y = i
                · subst ey; have := h.posted p k' j y hy hp; rw [hk] at this; simp at this ⊢; exact this
                · simp only [ey, if_false]; exact h.posted p k' j y hy hp
            · intro p y hy hp
              simp only [upd] at hp ⊢
              by_cases ep : p = i
              · subst ep; simp at hp
              · simp only [ep, if_false] at hp
                have := h.unposted p y hy hp
                by_cases ey : y = i
                · subst ey; rw [hk] at this; simp at this
                · simp [ey, this]
            · intro p k' hp
              simp only [upd] at hp
              split at hp
              · simp at hp
              · exact h.le p k' hp
            · intro p y hy hp
              simp only [upd] at hp ⊢
              split
              · simp
              · by_cases ep : p = i
                · subst ep; exact hall y hy
                · simp only [ep, if_false] at hp; exact h.after p y hy hp
          · rename_i hk0
            simp only [Option.some.injEq] at hs; subst hs
            constructor
            · have := sumR_upd (w := busyN) (f := s.st) (v := .waiting) hi
              rw [hk] at this
              simp only [busyN_posting, busyN_waiting, busyN_done] at this
              have hb := h.busy
              simp only; omega
            · intro j; simp only [upd]; rw [h.queue j]
              by_cases e : j = i
              · subst e; simp [hk]
              · simp [e]
            · exact h.nodup
            · intro j hj; simp only [upd]; split
              · rename_i e; subst e
                intro _ hnil
                have := h.le j k hk
                rw [hnil] at this
                simp at this; omega
              · exact h.wait j hj
            · intro j hj; simp only [upd]; split
              · simp
              · exact h.root j hj
            · intro p k' j y hy hp
              simp only [upd] at hp ⊢
              by_cases ep : p = i
              · subst ep; simp at hp
              · simp only [ep, if_false] at hp
                by_cases ey : y = i
                · subst ey; have := h.posted p k' j y hy hp; rw [hk] at this; simp at this ⊢; exact this
                · simp only [ey, if_false]; exact h.posted p k' j y hy hp
            · intro p y hy hp
              simp only [upd] at hp ⊢
              by_cases ep : p = i
              · subst ep; simp at hp
              · simp only [ep, if_false] at hp
                have := h.unposted p y hy hp
                by_cases ey : y = i
                · subst ey; rw [hk] at this; simp at this
                · simp [ey, this]
            · intro p k' hp
              simp only [upd] at hp
              split at hp
              · simp at hp
              · exact h.le p k' hp
            · intro p y hy hp
              simp only [upd] at hp ⊢
              split
              · simp
              · by_cases ep : p = i
                · subst ep; exact hall y hy
                · simp only [ep, if_false] at hp; exact h.after p y hy hp
      · rename_i hw
        split at hs
        · simp only [Option.some.injEq] at hs; subst hs
          constructor
          · have := sumR_upd (w := busyN) (f := s.st) (v := .done) hi
            rw [hw] at this
            simp only [busyN_posting, busyN_waiting, busyN_done] at this
            have hb := h.busy
            simp only; omega
          · intro j; simp only [upd]; rw [h.queue j]
            by_cases e : j = i
            · subst e; simp [hw]
            · simp [e]
          · exact h.nodup
          · intro j hj; simp only [upd]; split
            · simp
            · exact h.wait j hj
          · intro j hj; simp only [upd]; split
            · simp
            · exact h.root j hj
          · intro p k' j y hy hp
            simp only [upd] at hp ⊢
            by_cases ep : p = i
            · subst ep; simp at hp
            · simp only [ep, if_false] at hp
              by_cases ey : y = i
              · subst ey; have := h.posted p k' j y hy hp; rw [hw] at this; simp at this ⊢; exact this
              · simp only [ey, if_false]; exact h.posted p k' j y hy hp
          · intro p y hy hp
            simp only [upd] at hp ⊢
            by_cases ep : p = i
            · subst ep; simp at hp
            · simp only [ep, if_false] at hp
              have := h.unposted p y hy hp
              by_cases ey : y = i
              · subst ey; rw [hw] at this; simp at this
              · simp [ey, this]
          · intro p k' hp
            simp only [upd] at hp
            split at hp
            · simp at hp
            · exact h.le p k' hp
          · intro p y hy hp
            simp only [upd] at hp ⊢
            split
            · simp
            · by_cases ep : p = i
              · subst ep; exact h.after p y hy (.inl hw)
              · simp only [ep, if_false] at hp; exact h.after p y hy hp
        · simp at hs
      · simp at hs
    · simp at hs

theorem inv_reach {c : Cfg} (hc : c.WF) {s : S} (h : Reach c s) : Inv c s := by
  induction h with
  | init => exact inv_init c hc
  | step a _ hs ih => exact inv_step hc ih a hs

theorem sumR_ind (n : Nat) (p : Nat → Bool) : sumR n (fun i => if p i then 1 else 0) = ((List.range n).filter p).length := by
  induction n with
  | zero => rfl
  | succ n ih =>
    rw [sumR_succ, List.range_succ, List.filter_append, List.length_append, ih]
    by_cases h : p n <;> simp [h]

/-- Least and greatest witnesses below a bound. -/
theorem exists_max (n : Nat) (P : Nat → Prop) (h : ∃ i, i < n ∧ P i) : ∃ i, i < n ∧ P i ∧ ∀ j, i < j → j < n → ¬ P j := by
  induction n with
  | zero => obtain ⟨i, hi, _⟩ := h; omega
  | succ n ih =>
    by_cases hn : P n
    · exact ⟨n, by omega, hn, fun j h1 h2 => by omega⟩
    · obtain ⟨i, hi, hp⟩ := h
      have : i ≠ n := fun e => hn (e ▸ hp)
      obtain ⟨m, hm, hpm, hmax⟩ := ih ⟨i, by omega, hp⟩
      refine ⟨m, by omega, hpm, fun j h1 h2 => ?_⟩
      by_cases e : j = n
      · subst e; exact hn
      · exact hmax j h1 (by omega)

theorem no_unposted {c : Cfg} (hc : c.WF) {s : S} (h : Inv c s)
    (hp : ∀ i, i < c.tasks → s.st i = .unposted ∨ s.st i = .waiting ∨ s.st i = .done) :
    ∀ i, i < c.tasks → s.st i ≠ .unposted := by
  intro i
  induction i using Nat.strongRecOn with
  | _ i ih =>
    intro hi
    cases hpar : c.parent i with
    | none => exact h.root i hpar
    | some p =>
      have hlt := hc i p hpar
      have hne := ih p hlt (by omega)
      have hst : s.st p = .waiting ∨ s.st p = .done := by
        rcases hp p (by omega) with h' | h'
        · exact absurd h' hne
        · exact h'
      exact h.after p i (mem_children.2 ⟨hi, hpar⟩) hst

/-- Remaining work: strictly decreases with every step. -/
def weight (c : Cfg) (i : Nat) : St → Nat
  | .unposted => (c.children i).length + 5
  | .queued => (c.children i).length + 3
  | .posting k => (c.children i).length - k + 2
  | .waiting => 1
  | .done => 0

theorem weight_unposted (c : Cfg) (i : Nat) : weight c i .unposted = (c.children i).length + 5 := rfl
theorem weight_queued (c : Cfg) (i : Nat) : weight c i .queued = (c.children i).length + 3 := rfl
theorem weight_posting (c : Cfg) (i k : Nat) : weight c i (.posting k) = (c.children i).length - k + 2 := rfl
theorem weight_waiting (c : Cfg) (i : Nat) : weight c i .waiting = 1 := rfl
theorem weight_done (c : Cfg) (i : Nat) : weight c i .done = 0 := rfl

def measure (c : Cfg) (s : S) : Nat := sumR c.tasks (fun i => weight c i (s.st i))

theorem measure_step {c : Cfg} (hc : c.WF) {s s' : S} (h : Inv c s) (a : Act) (hs : step c s a = some s') :
    measure c s' < measure c s := by
  cases a with
  | start =>
    simp only [step] at hs
    split at hs
    · simp at hs
    · rename_i i q hq
      split at hs
      · simp only [Option.some.injEq] at hs; subst hs
        have hi := (h.queue i).1 (by rw [hq]; simp)
        have := sumR_upd (w := weight c) (f := s.st) (v := .posting 0) hi.1
        rw [hi.2] at this
        simp only [weight_unposted, weight_queued, weight_posting, weight_waiting, weight_done] at this
        simp only [measure]; omega
      · simp at hs
  | step i =>
    simp only [step] at hs
    split at hs
    · rename_i hi
      split at hs
      · rename_i k hk
        split at hs
        · rename_i x hx
          simp only [Option.some.injEq] at hs; subst hs
          have hxm := mem_children.1 (List.mem_of_getElem? hx)
          have hxi := hc x i hxm.2
          have hxu : s.st x = .unposted := (h.posted i k k x hx hk).2 (Nat.le_refl _)
          have h1 := sumR_upd (w := weight c) (f := s.st) (v := .queued) hxm.1
          have h2 := sumR_upd (w := weight c) (f := upd s.st x .queued) (v := .posting (k + 1)) hi
          have e1 : upd s.st x .queued i = .posting k := by simp [upd, show i ≠ x by omega, hk]
          rw [e1] at h2
          rw [hxu] at h1
          simp only [weight_unposted, weight_queued, weight_posting, weight_waiting, weight_done] at h1 h2
          simp only [measure]; omega
        · split at hs
          all_goals
            simp only [Option.some.injEq] at hs; subst hs
            first
            | have h1 := sumR_upd (w := weight c) (f := s.st) (v := .done) hi
              rw [hk] at h1
              simp only [weight_unposted, weight_queued, weight_posting, weight_waiting, weight_done] at h1
              simp only [measure]; omega
            | have h1 := sumR_upd (w := weight c) (f := s.st) (v := .waiting) hi
              rw [hk] at h1
              simp only [weight_unposted, weight_queued, weight_posting, weight_waiting, weight_done] at h1
              simp only [measure]; omega
      · rename_i hw
        split at hs
        · simp only [Option.some.injEq] at hs; subst hs
          have h1 := sumR_upd (w := weight c) (f := s.st) (v := .done) hi
          rw [hw] at h1
          simp only [weight_unposted, weight_queued, weight_posting, weight_waiting, weight_done] at h1
          simp only [measure]; omega
        · simp at hs
      · simp at hs
    · simp at hs

/-- **C69 (what holds), progress.** If fewer tasks make a nested call than the pool has threads, some thread can move in
every reachable state in which a task is unfinished. -/
theorem nested_run_progress_partial {c : Cfg} (hc : c.WF) (hpar : c.parents < c.threads) {s : S} (hr : Reach c s)
    (hnd : ¬ AllDone c s) : ∃ a s', step c s a = some s' := by
  have h := inv_reach hc hr
  by_cases hpost : ∃ i k, i < c.tasks ∧ s.st i = .posting k
  · obtain ⟨i, k, hi, hk⟩ := hpost
    refine ⟨.step i, ?_⟩
    simp only [step, hi, if_true, hk]
    split
    · exact ⟨_, rfl⟩
    · split
      · exact ⟨_, rfl⟩
      · exact ⟨_, rfl⟩
  · have hnp : ∀ i k, i < c.tasks → s.st i ≠ .posting k := fun i k hi e => hpost ⟨i, k, hi, e⟩
    have hbusy : s.busy ≤ c.parents := by
      rw [h.busy, Cfg.parents, ← sumR_ind]
      apply sumR_le
      intro i hi
      cases hst : s.st i with
      | posting k => exact absurd hst (hnp i k hi)
      | waiting => simp [h.wait i hi hst]
      | _ => simp
    cases hq : s.queue with
    | cons i q =>
      refine ⟨.start, ?_⟩
      simp only [step, hq]
      rw [if_pos (by omega)]
      exact ⟨_, rfl⟩
    | nil =>
      have hnq : ∀ i, i < c.tasks → s.st i ≠ .queued := by
        intro i hi e
        have := (h.queue i).2 ⟨hi, e⟩
        rw [hq] at this; simp at this
      have hthree : ∀ i, i < c.tasks → s.st i = .unposted ∨ s.st i = .waiting ∨ s.st i = .done := by
        intro i hi
        cases hst : s.st i with
        | posting k => exact absurd hst (hnp i k hi)
        | queued => exact absurd hst (hnq i hi)
        | _ => simp
      have hnu := no_unposted hc h hthree
      have hex : ∃ i, i < c.tasks ∧ s.st i = .waiting := by
        by_cases hw : ∃ i, i < c.tasks ∧ s.st i = .waiting
        · exact hw
        · exfalso; apply hnd
          intro i hi
          rcases hthree i hi with h' | h' | h'
          · exact absurd h' (hnu i hi)
          · exact absurd ⟨i, hi, h'⟩ hw
          · exact h'
      obtain ⟨i, hi, hw, hmax⟩ := exists_max _ _ hex
      refine ⟨.step i, ?_⟩
      simp only [step, hi, if_true, hw]
      rw [if_pos]
      · exact ⟨_, rfl⟩
      · intro x hx
        have hxm := mem_children.1 hx
        have := hc x i hxm.2
        rcases hthree x hxm.1 with h' | h' | h'
        · exact absurd h' (hnu x hxm.1)
        · exact absurd h' (hmax x this hxm.1)
        · exact h'

/-- Executions: a list of moves. -/
def exec (c : Cfg) (s : S) : List Act → Option S
  | [] => some s
  | a :: as => match step c s a with
    | some s' => exec c s' as
    | none => none

/-- **C69 (what holds), termination.** No execution, of any pool, is longer than a bound that depends on the tasks only. -/
theorem nested_run_bounded {c : Cfg} (hc : c.WF) {s s' : S} (hr : Reach c s) (as : List Act) (h : exec c s as = some s') :
    as.length + measure c s' ≤ measure c s := by
  induction as generalizing s with
  | nil => simp [exec] at h; subst h; simp
  | cons a as ih =>
    simp only [exec] at h
    split at h
    · rename_i s1 hs
      have h1 := ih (.step a hr hs) h
      have h2 := measure_step hc (inv_reach hc hr) a hs
      simp only [List.length_cons]; omega
    · simp at h

/-- **C69 (what holds), completion.** With enough threads every execution can be continued until all tasks have finished,
and an execution that cannot be continued has finished all of them. Missing from the full property: the case
of as many nesting tasks as threads, which deadlocks (`nested_run_deadlock_violated`). -/
theorem nested_run_completes_partial {c : Cfg} (hc : c.WF) (hpar : c.parents < c.threads) {s : S} (hr : Reach c s) :
    (∃ as s', exec c s as = some s' ∧ AllDone c s') ∧ ((∀ a, step c s a = none) → AllDone c s) := by
  constructor
  · generalize hm : measure c s = m
    induction m using Nat.strongRecOn generalizing s with
    | _ m ih =>
      by_cases hd : AllDone c s
      · exact ⟨[], s, rfl, hd⟩
      · obtain ⟨a, s1, hs⟩ := nested_run_progress_partial hc hpar hr hd
        have hlt := measure_step hc (inv_reach hc hr) a hs
        obtain ⟨as, s2, he, hd2⟩ := ih (measure c s1) (by omega) (.step a hr hs) rfl
        exact ⟨a :: as, s2, by simp [exec, hs, he], hd2⟩
  · intro hstuck
    by_cases hd : AllDone c s
    · exact hd
    · obtain ⟨a, s1, hs⟩ := nested_run_progress_partial hc hpar hr hd
      rw [hstuck a] at hs; simp at hs

/-- Two threads, two outer tasks, one of which runs a nested loop with two submitted tasks. -/
def oneNested : Cfg := { threads := 2, tasks := 4, parent := fun i => if i = 0 ∨ i = 1 then none else some 1 }

example : oneNested.WF ∧ oneNested.parents < oneNested.threads ∧ oneNested.children 1 = [2, 3] := by
  refine ⟨?_, by decide, by decide⟩
  intro i p h
  simp only [oneNested] at h
  split at h
  · simp at h
  · simp at h; omega

example : (nestedCfg 2).parents = 2 := by decide

end Verif.Pool.Nested
