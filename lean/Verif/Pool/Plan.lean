/-!
# Work splitting of the thread pool: model and property C67

`/repo/rapidudf/executors/thread_pool.h` 57-65, 72-133. 64-bit values are natural numbers reduced
modulo 2^64 where the code can wrap.
-/
namespace Verif.Pool

def W : Nat := 18446744073709551616

/-- A submitted task calls the closure for the indices `start, start+1, ..., stop-1` (lines 117-122). -/
structure Chunk where
  start : Nat
  stop : Nat
deriving DecidableEq

/-- The loop of lines 111-130 from worker `thread` on, `left` workers to go. -/
def planLoop (minTasks remainder stop : Nat) : (left thread task : Nat) → List Chunk
  | 0, _, _ => []
  | left + 1, thread, task =>
    if task ≥ stop then []                                       -- line 112
    else
      let myEnd := (task + minTasks + (if thread < remainder then 1 else 0)) % W   -- line 116
      { start := task, stop := myEnd } :: planLoop minTasks remainder stop left (thread + 1) myEnd

/-- What `Plan` does: call the closure itself in a range, or submit chunks. -/
inductive Planned where
  | inline (c : Chunk)
  | submitted (cs : List Chunk)
deriving DecidableEq

/-- `Plan`, lines 89-133 -/
def plan (b e numWorkers : Nat) : Planned :=
  let numTasks := (e + W - b) % W                                -- line 92
  if numTasks = 0 then .submitted []                             -- line 93
  else if numWorkers ≤ 1 then .inline { start := b, stop := e }  -- lines 97-102
  else .submitted (planLoop (numTasks / numWorkers) (numTasks % numWorkers) e numWorkers 0 b)

/-- The worker count of a pool, lines 57-61. -/
def poolWorkers (numThreads : Nat) : Nat := if numThreads = 0 then 8 else numThreads

/-- `Run`, lines 73-81: worker count used. -/
def runWorkers (pool requested : Nat) : Nat := if requested = 0 then pool else min requested pool

/-- `Run` up to waiting: what gets planned. -/
def run (numThreads b e requested : Nat) : Planned := plan b e (runWorkers (poolWorkers numThreads) requested)

/-- The indices for which one chunk calls the closure, in order (lines 118-120). -/
def Chunk.calls (c : Chunk) : List Nat := List.range' c.start (c.stop - c.start)

/-- All calls if the executor runs the submitted tasks in the given order. -/
def Planned.calls : Planned → List Nat
  | .inline c => c.calls
  | .submitted cs => cs.flatMap Chunk.calls

/-- The calls made when the executor runs the submitted tasks in some order. -/
def Planned.CallsInSomeOrder (p : Planned) (l : List Nat) : Prop :=
  match p with
  | .inline c => l = c.calls
  | .submitted cs => ∃ cs' : List Chunk, cs'.Perm cs ∧ l.Perm (cs'.flatMap Chunk.calls)

/-! ## Proof -/

theorem planLoop_calls (minTasks remainder stop : Nat) (hstop : stop < W) (left thread task : Nat)
    (hle : task ≤ stop) (hcount : stop - task = left * minTasks + (remainder - thread))
    (hrem : remainder - thread ≤ left) :
    (planLoop minTasks remainder stop left thread task).flatMap Chunk.calls = List.range' task (stop - task) := by
  induction left generalizing thread task with
  | zero =>
    have : stop - task = 0 := by omega
    simp [planLoop, this]
  | succ left ih =>
    unfold planLoop
    split
    · rename_i h
      have : stop - task = 0 := by omega
      simp [this]
    · rename_i h
      have hmul : (left + 1) * minTasks = left * minTasks + minTasks := Nat.succ_mul _ _
      simp only
      have hend : task + minTasks + (if thread < remainder then 1 else 0) ≤ stop := by
        split <;> omega
      rw [Nat.mod_eq_of_lt (by omega)]
      rw [List.flatMap_cons, ih]
      · simp only [Chunk.calls]
        have h1 : (task + minTasks + if thread < remainder then 1 else 0) = task + (minTasks + if thread < remainder then 1 else 0) := by omega
        rw [h1, Nat.add_sub_cancel_left]
        have h2 : stop - task = (minTasks + if thread < remainder then 1 else 0) + (stop - (task + (minTasks + if thread < remainder then 1 else 0))) := by
          omega
        rw [h2, List.range'_append_1]
      · exact hend
      · split <;> omega
      · omega

theorem plan_calls (b e n : Nat) (hbe : b ≤ e) (he : e < W) : (plan b e n).calls = List.range' b (e - b) := by
  unfold plan
  have hnt : (e + W - b) % W = e - b := by
    have : e + W - b = (e - b) + W := by omega
    rw [this, Nat.add_mod_right, Nat.mod_eq_of_lt (by omega)]
  rw [hnt]
  simp only
  split
  · rename_i h; simp [Planned.calls, h]
  · split
    · simp [Planned.calls, Chunk.calls]
    · rename_i h1 h2
      simp only [Planned.calls]
      apply planLoop_calls _ _ _ he _ _ _ hbe
      · have h3 := Nat.div_add_mod (e - b) n
        omega
      · have := Nat.mod_lt (e - b) (show 0 < n by omega)
        omega

/-! ## C67 -/

/-- **C67.** Whatever the pool size, the requested worker count and the order in which the executor runs the
submitted tasks, the closure is called exactly once for every index of `[b, e)` and for no other index. -/
theorem run_calls_each_index_once (numThreads requested b e : Nat) (hbe : b ≤ e) (he : e < W) (l : List Nat)
    (hl : (run numThreads b e requested).CallsInSomeOrder l) :
    l.Nodup ∧ ∀ i, i ∈ l ↔ b ≤ i ∧ i < e := by
  have hp : l.Perm (List.range' b (e - b)) := by
    rw [← plan_calls b e (runWorkers (poolWorkers numThreads) requested) hbe he]
    unfold run at hl
    generalize plan b e (runWorkers (poolWorkers numThreads) requested) = p at hl
    cases p with
    | inline c => simp only [Planned.CallsInSomeOrder] at hl; exact List.Perm.of_eq hl
    | submitted cs =>
      obtain ⟨cs', h1, h2⟩ := hl
      exact h2.trans (h1.flatMap_right _)
  refine ⟨hp.nodup_iff.2 (List.nodup_range' ..), ?_⟩
  intro i
  rw [hp.mem_iff, List.mem_range'_1]
  omega

/-- **C67.** Within one submitted task the indices are visited in increasing order. -/
theorem chunk_calls_increasing (c : Chunk) : c.calls.Pairwise (· < ·) := List.pairwise_lt_range' ..

theorem planLoop_length (minTasks remainder stop : Nat) (hstop : stop < W) (left thread task : Nat) (hle : task ≤ stop)
    (hcount : stop - task = left * minTasks + (remainder - thread)) (hrem : remainder - thread ≤ left) :
    (planLoop minTasks remainder stop left thread task).length = min left (stop - task) := by
  induction left generalizing thread task with
  | zero => simp [planLoop]
  | succ left ih =>
    unfold planLoop
    split
    · rename_i h
      have : stop - task = 0 := by omega
      simp [this]
    · rename_i h
      have hmul : (left + 1) * minTasks = left * minTasks + minTasks := Nat.succ_mul _ _
      simp only
      have hend : task + minTasks + (if thread < remainder then 1 else 0) ≤ stop := by split <;> omega
      rw [Nat.mod_eq_of_lt (by omega), List.length_cons, ih _ _ hend (by split <;> omega) (by omega)]
      rcases Nat.eq_zero_or_pos minTasks with hz | hz
      · subst hz
        simp at hcount
        rw [if_pos (by omega)]; omega
      · have : left ≤ left * minTasks := Nat.le_mul_of_pos_right _ hz
        split <;> omega

/-- **C67.** The number of submitted tasks is the smaller of the number of workers and the number of indices.
-/
theorem plan_submits (b e n : Nat) (hbe : b ≤ e) (he : e < W) (hn : 2 ≤ n) (cs : List Chunk)
    (h : plan b e n = .submitted cs) : cs.length = min n (e - b) := by
  unfold plan at h
  have hnt : (e + W - b) % W = e - b := by
    have : e + W - b = (e - b) + W := by omega
    rw [this, Nat.add_mod_right, Nat.mod_eq_of_lt (by omega)]
  rw [hnt] at h
  simp only at h
  split at h
  · rename_i h0; simp at h; subst h; simp [h0]
  · split at h
    · simp at h
    · rename_i h1 h2
      simp at h; subst h
      apply planLoop_length _ _ _ he _ _ _ hbe
      · have h3 := Nat.div_add_mod (e - b) n
        omega
      · have := Nat.mod_lt (e - b) (show 0 < n by omega)
        omega

/-- **C67.** An inverted range calls nothing. -/
theorem run_inverted_range (numThreads requested b e : Nat) (hbe : e ≤ b) (hb : b < W) (l : List Nat)
    (hl : (run numThreads b e requested).CallsInSomeOrder l) : l = [] := by
  unfold run plan at hl
  simp only at hl
  split at hl
  · obtain ⟨cs', h1, h2⟩ := hl
    have := h1.eq_nil; subst this; simpa using h2
  · split at hl
    · simp only [Planned.CallsInSomeOrder, Chunk.calls] at hl
      have : e - b = 0 := by omega
      simpa [this] using hl
    · rename_i h0 h1
      obtain ⟨cs', h2, h3⟩ := hl
      generalize hn : runWorkers (poolWorkers numThreads) requested = n at *
      cases n with
      | zero => omega
      | succ n =>
        unfold planLoop at h2
        rw [if_pos hbe] at h2
        have := h2.eq_nil; subst this; simpa using h3

example : run 3 10 20 0 = .submitted [⟨10, 14⟩, ⟨14, 17⟩, ⟨17, 20⟩] := by decide
example : (run 3 10 20 0).CallsInSomeOrder [17, 18, 19, 10, 11, 14, 12, 13, 15, 16] :=
  ⟨[⟨10, 14⟩, ⟨14, 17⟩, ⟨17, 20⟩], by decide, by decide⟩

end Verif.Pool
