/-!
# The row numbers that sorting starts from: C169

`OrderBy` and `Topk` of a table begin with the numbers `0, 1, 2, …` of its rows (`/repo/rapidudf/table/table.cc` 447, 459), given by `Table::GetIndices` (282–290), which uses `get_indices` (48–62): the
first 10000 numbers are kept in one vector shared by all threads and made by the first call.

Any number of threads call `get_indices`; the model takes the steps of the threads in any order. Reads and writes of single numbers take place one after another, which is more than C++ promises.
Using the shared vector while another thread is inside `resize` is an outcome of its own (`race`).
-/
namespace Verif.Tbl.Indices

/-! ## Specification -/

/-- The numbers of `n` rows. -/
def rows (n : Nat) : List Nat := List.range n

/-! ## Model -/

/-- `kDefaultIndiceCount`, table.cc 49. -/
def kept : Nat := 10000

theorem kept_two : 2 ≤ kept := by decide

attribute [irreducible] kept

/-- Where a call for `n` rows is. -/
inductive Pc where
  /-- before `if (default_indices.empty())`, line 51 -/
  | start (n : Nat)
  /-- before `resize`, line 52 -/
  | grow (n : Nat)
  /-- inside `resize` -/
  | growing (n : Nat)
  /-- in `std::iota`, line 53, before number `k` -/
  | fill (n k : Nat)
  /-- copying, lines 55–60, with the numbers copied so far -/
  | copy (n : Nat) (got : List Nat)
  | done (n : Nat) (r : List Nat)
  | race (n : Nat)
  deriving DecidableEq

structure St where
  /-- `default_indices` -/
  vec : List Nat
  /-- a thread is inside `resize` -/
  busy : Bool
  threads : List Pc

/-- One step of a call: the shared vector, whether it is being resized, and where the call is next. -/
def move (vec : List Nat) (busy : Bool) : Pc → List Nat × Bool × Pc
  | .start n => if busy = true then (vec, busy, .race n) else if vec = [] then (vec, busy, .grow n) else (vec, busy, .copy n [])
  | .grow n => if busy = true then (vec, busy, .race n) else if vec = [] then (vec, true, .growing n) else (vec, busy, .fill n 0)
  | .growing n => (List.replicate kept 0, false, .fill n 0)
  | .fill n k => if k < kept then (vec.set k k, busy, .fill n (k + 1)) else (vec, busy, .copy n [])
  | .copy n got =>
    if kept < n then (vec, busy, .done n (List.range n))
    else if got.length < n then (vec, busy, .copy n (got ++ [vec.getD got.length 0]))
    else (vec, busy, .done n got)
  | .done n r => (vec, busy, .done n r)
  | .race n => (vec, busy, .race n)

/-- A step of thread `i`. -/
def step (st : St) (i : Nat) : St := match st.threads[i]? with
  | none => st
  | some p => ⟨(move st.vec st.busy p).1, (move st.vec st.busy p).2.1, st.threads.set i (move st.vec st.busy p).2.2⟩

/-- The threads take steps in the given order. -/
def run (st : St) (order : List Nat) : St := order.foldl step st

/-- The numbers a thread got. -/
def result (st : St) (i : Nat) : Option (List Nat) := match st.threads[i]? with
  | some (.done _ r) => some r
  | _ => none

/-- Threads about to call for so many rows, in a process that has not called before. -/
def fresh (ns : List Nat) : St := ⟨[], false, ns.map .start⟩

/-- `Table::GetIndices`, 282–290, for a table that has kept `old` and has `n` rows now. Returned are also kept. (`get` is `get_indices`.) -/
def getIndices (get : Nat → List Nat) (old : List Nat) (n : Nat) : List Nat :=
  if old.length < n then get n else if old.length > n then old.take n else old

/-- Calls on one table when it has `ns` rows, one after another. -/
def history (get : Nat → List Nat) : List Nat → List Nat → List (List Nat)
  | _, [] => []
  | old, n :: ns => getIndices get old n :: history get (getIndices get old n) ns

/-! ## Lemmas -/

/-- A call that has seen the finished vector. -/
def Right : Pc → Prop
  | .start _ => True
  | .copy n got => got = List.range got.length ∧ (got.length ≤ n ∨ got = [])
  | .done n r => r = rows n
  | _ => False

structure Inv (st : St) : Prop where
  vec : st.vec = List.range kept
  busy : st.busy = false
  right : ∀ p ∈ st.threads, Right p

theorem range_ne : List.range kept ≠ [] := by
  intro h
  have := congrArg List.length h
  rw [List.length_range, List.length_nil] at this
  have := kept_two
  omega

theorem move_right {p : Pc} (h : Right p) : ∃ p', move (List.range kept) false p = (List.range kept, false, p') ∧ Right p' := by
  cases p with
  | start n => exact ⟨.copy n [], by simp only [move]; rw [if_neg Bool.false_ne_true, if_neg range_ne], rfl, .inr rfl⟩
  | grow n => exact h.elim
  | growing n => exact h.elim
  | fill n k => exact h.elim
  | race n => exact h.elim
  | done n r => exact ⟨_, rfl, h⟩
  | copy n got =>
    obtain ⟨h1, h2⟩ := h
    simp only [move]
    split
    · exact ⟨_, rfl, rfl⟩
    · next hk =>
      split
      · next hl =>
        refine ⟨_, rfl, ?_, .inl (by simp; omega)⟩
        have hlk : got.length < kept := by omega
        rw [List.getD_eq_getElem?_getD, List.getElem?_range hlk, Option.getD_some, List.length_append, List.length_singleton, List.range_succ, ← h1]
      · next hl =>
        refine ⟨_, rfl, ?_⟩
        have : got.length = n := by
          rcases h2 with h2 | h2
          · omega
          · subst h2
            simp only [List.length_nil] at hl ⊢
            omega
        show got = List.range n
        rw [← this]
        exact h1

theorem step_inv {st : St} (I : Inv st) (i : Nat) : Inv (step st i) := by
  unfold step
  split
  · exact I
  · next p hp =>
    obtain ⟨p', hm, hr⟩ := move_right (I.right p (List.mem_of_getElem? hp))
    rw [I.vec, I.busy, hm]
    refine ⟨rfl, rfl, fun q hq => ?_⟩
    rcases List.mem_or_eq_of_mem_set hq with h | h
    · exact I.right q h
    · rw [h]; exact hr

theorem run_inv {st : St} (I : Inv st) (order : List Nat) : Inv (run st order) := by
  induction order generalizing st with
  | nil => exact I
  | cons i order ih => exact ih (step_inv I i)

/-! ## Theorems -/

/-- **C169, part.** Once the shared numbers are made, calls of any number of threads, in any order of their steps, give the numbers of the rows, and none meets a vector that is being resized.
(The full claim is about calls at any time: see below.) -/
theorem indices_after_first_partial (ns : List Nat) (order : List Nat) (i : Nat) (p : Pc) (h : (run ⟨List.range kept, false, ns.map .start⟩ order).threads[i]? = some p) :
    (∀ n, p ≠ .race n) ∧ ∀ n r, p = .done n r → r = rows n := by
  have I : Inv ⟨List.range kept, false, ns.map .start⟩ := ⟨rfl, rfl, fun p hp => by
    obtain ⟨n, -, rfl⟩ := List.mem_map.1 hp
    trivial⟩
  have hr := (run_inv I order).right p (List.mem_of_getElem? h)
  constructor
  · intro n e; rw [e] at hr; exact hr
  · intro n r e; rw [e] at hr; exact hr

theorem set_one {α : Type} (l : List α) (i : Nat) (a b : α) : (l.set i a).set i b = l.set i b := List.set_set ..

/-- Steps of one thread that is at `p`. -/
theorem step_at {st : St} {i : Nat} {p : Pc} (h : st.threads[i]? = some p) :
    step st i = ⟨(move st.vec st.busy p).1, (move st.vec st.busy p).2.1, st.threads.set i (move st.vec st.busy p).2.2⟩ := by
  unfold step
  rw [h]

theorem get_set_same {α : Type} {l : List α} {i : Nat} {p q : α} (h : l[i]? = some p) : (l.set i q)[i]? = some q := by
  rw [List.getElem?_set, if_pos rfl, if_pos (List.getElem?_eq_some_iff.1 h).1]

theorem fill_steps (n : Nat) (ts : List Pc) (i : Nat) (p0 : Pc) (hi : ts[i]? = some p0) : ∀ (d k : Nat), k + d = kept → ∀ rest : List Nat, rest.length = d →
    run ⟨List.range k ++ rest, false, ts.set i (.fill n k)⟩ (List.replicate d i) = ⟨List.range kept, false, ts.set i (.fill n kept)⟩ := by
  intro d
  induction d with
  | zero =>
    intro k hk rest hr
    have : k = kept := by omega
    subst this
    rw [List.eq_nil_of_length_eq_zero hr, List.append_nil]
    rfl
  | succ d ih =>
    intro k hk rest hr
    cases rest with
    | nil => cases hr
    | cons x rest =>
      rw [List.replicate_succ]
      show run (step _ i) _ = _
      rw [step_at (get_set_same hi)]
      have hlt : k < kept := by omega
      simp only [move]
      rw [if_pos hlt]
      dsimp only
      rw [set_one]
      have e : (List.range k ++ x :: rest).set k k = List.range (k + 1) ++ rest := by
        rw [List.set_append_right _ _ (by simp), List.length_range, Nat.sub_self, List.range_succ, List.append_assoc]
        rfl
      rw [e]
      exact ih (k + 1) (by omega) rest (by simpa using hr)

theorem copy_steps (n : Nat) (hn : n ≤ kept) (ts : List Pc) (i : Nat) (p0 : Pc) (hi : ts[i]? = some p0) : ∀ (d k : Nat), k + d = n →
    run ⟨List.range kept, false, ts.set i (.copy n (List.range k))⟩ (List.replicate (d + 1) i) = ⟨List.range kept, false, ts.set i (.done n (List.range n))⟩ := by
  intro d
  induction d with
  | zero =>
    intro k hk
    have : k = n := by omega
    subst this
    show step _ i = _
    rw [step_at (get_set_same hi)]
    simp only [move]
    rw [if_neg (by omega), if_neg (by rw [List.length_range]; omega)]
    dsimp only
    rw [set_one]
  | succ d ih =>
    intro k hk
    rw [List.replicate_succ]
    show run (step _ i) _ = _
    rw [step_at (get_set_same hi)]
    simp only [move]
    rw [if_neg (by omega), if_pos (by rw [List.length_range]; omega)]
    dsimp only
    rw [set_one, List.length_range, List.getD_eq_getElem?_getD, List.getElem?_range (by omega), Option.getD_some, ← List.range_succ]
    exact ih (k + 1) (by omega)

theorem run_append (st : St) (a b : List Nat) : run st (a ++ b) = run (run st a) b := List.foldl_append ..

/-- The first call of a process, with no other thread taking steps, gives the numbers of the rows and leaves the shared numbers made. -/
theorem first_call_alone (ns : List Nat) (i n : Nat) (hi : ns[i]? = some n) : ∃ k, (run (fresh ns) (List.replicate k i)).vec = List.range kept ∧
    (run (fresh ns) (List.replicate k i)).busy = false ∧ (run (fresh ns) (List.replicate k i)).threads = (ns.map Pc.start).set i (.done n (rows n)) := by
  have h0 : (ns.map Pc.start)[i]? = some (.start n) := by rw [List.getElem?_map, hi]; rfl
  have e1 : run (fresh ns) (List.replicate 3 i) = ⟨List.replicate kept 0, false, (ns.map Pc.start).set i (.fill n 0)⟩ := by
    show step (step (step (fresh ns) i) i) i = _
    have s1 : step (fresh ns) i = ⟨[], false, (ns.map Pc.start).set i (.grow n)⟩ := by
      rw [step_at h0]; rfl
    have s2 : step ⟨[], false, (ns.map Pc.start).set i (.grow n)⟩ i = ⟨[], true, (ns.map Pc.start).set i (.growing n)⟩ := by
      rw [step_at (get_set_same h0)]
      simp only [move]
      rw [if_neg Bool.false_ne_true, if_pos trivial]
      dsimp only
      rw [set_one]
    have s3 : step ⟨[], true, (ns.map Pc.start).set i (.growing n)⟩ i = ⟨List.replicate kept 0, false, (ns.map Pc.start).set i (.fill n 0)⟩ := by
      rw [step_at (get_set_same h0)]
      simp only [move]
      rw [set_one]
    rw [s1, s2, s3]
  have e2 := fill_steps n (ns.map Pc.start) i _ h0 kept 0 (by omega) (List.replicate kept 0) List.length_replicate
  have e3 : run ⟨List.range kept, false, (ns.map Pc.start).set i (.fill n kept)⟩ (List.replicate 1 i) = ⟨List.range kept, false, (ns.map Pc.start).set i (.copy n (List.range 0))⟩ := by
    show step _ i = _
    rw [step_at (get_set_same h0)]
    simp only [move]
    rw [if_neg (by omega)]
    dsimp only
    rw [set_one]
    rfl
  have e4 : ∃ d, run ⟨List.range kept, false, (ns.map Pc.start).set i (.copy n (List.range 0))⟩ (List.replicate d i) = ⟨List.range kept, false, (ns.map Pc.start).set i (.done n (List.range n))⟩ := by
    by_cases hn : n ≤ kept
    · exact ⟨n + 1, copy_steps n hn _ i _ h0 n 0 (by omega)⟩
    · refine ⟨1, ?_⟩
      show step _ i = _
      rw [step_at (get_set_same h0)]
      simp only [move]
      rw [if_pos (by omega)]
      dsimp only
      rw [set_one]
  obtain ⟨d, e4⟩ := e4
  refine ⟨3 + (kept + (1 + d)), ?_⟩
  have : run (fresh ns) (List.replicate (3 + (kept + (1 + d))) i) = ⟨List.range kept, false, (ns.map Pc.start).set i (.done n (rows n))⟩ := by
    rw [← List.replicate_append_replicate, run_append, e1, ← List.replicate_append_replicate, run_append]
    rw [show (⟨List.replicate kept 0, false, (ns.map Pc.start).set i (.fill n 0)⟩ : St) = ⟨List.range 0 ++ List.replicate kept 0, false, (ns.map Pc.start).set i (.fill n 0)⟩ from rfl, e2]
    rw [← List.replicate_append_replicate, run_append, e3, e4]
    rfl
  rw [this]
  exact ⟨rfl, rfl, rfl⟩

/-- Two threads that call for the first time at once: the second gets the numbers `0, 0` for its two rows. -/
theorem first_calls_violated : ∃ order, result (run (fresh [2, 2]) order) 1 = some [0, 0] ∧ [0, 0] ≠ rows 2 := by
  refine ⟨[0, 0, 0, 1, 1, 1, 1], ?_, by decide⟩
  have e : ∀ v : List Nat, v ≠ [] → v.getD 0 0 = 0 → v.getD 1 0 = 0 → result (run ⟨v, false, [.fill 2 0, .start 2]⟩ [1, 1, 1, 1]) 1 = some [0, 0] := by
    intro v hv h0 h1
    cases v with
    | nil => exact absurd rfl hv
    | cons a v =>
      have e1 : step ⟨a :: v, false, [.fill 2 0, .start 2]⟩ 1 = ⟨a :: v, false, [.fill 2 0, .copy 2 []]⟩ := rfl
      have hk : ¬ kept < 2 := by have := kept_two; omega
      have e2 : step ⟨a :: v, false, [.fill 2 0, .copy 2 []]⟩ 1 = ⟨a :: v, false, [.fill 2 0, .copy 2 [0]]⟩ := by
        rw [step_at (p := .copy 2 []) rfl]
        simp only [move]
        rw [if_neg hk, if_pos (by decide), List.length_nil, h0]
        rfl
      have e3 : step ⟨a :: v, false, [.fill 2 0, .copy 2 [0]]⟩ 1 = ⟨a :: v, false, [.fill 2 0, .copy 2 [0, 0]]⟩ := by
        rw [step_at (p := .copy 2 [0]) rfl]
        simp only [move]
        rw [if_neg hk, if_pos (by decide), show [0].length = 1 from rfl, h1]
        rfl
      have e4 : step ⟨a :: v, false, [.fill 2 0, .copy 2 [0, 0]]⟩ 1 = ⟨a :: v, false, [.fill 2 0, .done 2 [0, 0]]⟩ := by
        rw [step_at (p := .copy 2 [0, 0]) rfl]
        simp only [move]
        rw [if_neg hk, if_neg (by decide)]
        rfl
      simp only [run, List.foldl_cons, List.foldl_nil]
      rw [e1, e2, e3, e4]
      rfl
  have hx : ∀ k, (List.replicate kept 0).getD k 0 = 0 := by
    intro k
    rw [List.getD_eq_getElem?_getD, List.getElem?_replicate]
    split <;> rfl
  exact e (List.replicate kept 0) (by intro h; have := congrArg List.length h; rw [List.length_replicate, List.length_nil] at this; have := kept_two; omega) (hx 0) (hx 1)

/-- Or both resize the vector. -/
theorem first_calls_race_violated : ∃ order, (run (fresh [2, 2]) order).threads[1]? = some (.race 2) := ⟨[0, 1, 0, 1], rfl⟩

/-- **C169, one table.** Whatever numbers of rows a table has when it is asked, it gives the numbers of its rows, if `get_indices` does. -/
theorem table_indices (get : Nat → List Nat) (hg : ∀ n, get n = rows n) (ns : List Nat) : history get [] ns = ns.map rows := by
  suffices h : ∀ m, history get (rows m) ns = ns.map rows from h 0
  induction ns with
  | nil => intro m; rfl
  | cons n ns ih =>
    intro m
    have e : getIndices get (rows m) n = rows n := by
      unfold getIndices
      have hl : (rows m).length = m := List.length_range
      rw [hl]
      split
      · exact hg n
      · split
        · next h1 h2 =>
          show (List.range m).take n = List.range n
          rw [List.take_range, Nat.min_eq_left (by omega)]
        · next h1 h2 =>
          have : m = n := by omega
          rw [this]
    show getIndices get (rows m) n :: history get (getIndices get (rows m) n) ns = _
    rw [e, ih n]
    rfl

/-! ## Cases -/

example : history rows [] [3, 5, 2, 2, 4] = [[0, 1, 2], [0, 1, 2, 3, 4], [0, 1], [0, 1], [0, 1, 2, 3]] := by decide

end Verif.Tbl.Indices
