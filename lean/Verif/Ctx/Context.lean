/-!
# Objects owned by a context: model and property C13

`/repo/rapidudf/context/context.h` 60-83 (`New`, `GetPtr`), 165-186 (`Own`), `/repo/rapidudf/context/context.cc` 33, 40-50
(`~Context`, `Reset`). The context is used by one thread here; the concurrent cleanup list is `CleanupList`, from
which we use that a sweep runs the registered cleanups once each, in registration order.
Objects are numbered in order of creation. Not modelled: the arena (see `Verif.Memory.Arena`), destructors that call back into
the context.
-/
namespace Verif.Ctx.Context

/-- A call on the context. The validator of `GetPtr` is `none` (no validator) or its answer on the cached
object. -/
inductive Op where
  | new                                            -- `New`, `Own`: create and own an object
  | getPtr (type : Nat) (validate : Option Bool)   -- `GetPtr<T>`
  | reset
deriving DecidableEq, Repr

structure S where
  count : Nat := 0                       -- objects created so far
  ptrs : Nat → Option Nat := fun _ => none
  cleanups : List Nat := []              -- registered, oldest first
  destroyed : List Nat := []             -- destroyed so far, in order

/-- What a call returns: an object, nothing, or undefined behaviour (the validator is called on a
destroyed object). -/
inductive Out where
  | obj (i : Nat)
  | none
  | ub
deriving DecidableEq, Repr

def own (s : S) : S × Nat :=
  ({ s with count := s.count + 1, cleanups := s.cleanups ++ [s.count] }, s.count)

/-- context.h 70-83. -/
def step (s : S) : Op → S × Out
  | .new => let (s, i) := own s; (s, .obj i)
  | .getPtr t v =>
    match s.ptrs t, v with
    | some p, Option.none => (s, .obj p)
    | some p, some ok =>
      if p ∈ s.destroyed then (s, .ub)
      else if ok then (s, .obj p)
      else let (s, i) := own s; ({ s with ptrs := fun u => if u = t then some i else s.ptrs u }, .obj i)
    | Option.none, _ => let (s, i) := own s; ({ s with ptrs := fun u => if u = t then some i else s.ptrs u }, .obj i)
  | .reset => ({ s with destroyed := s.destroyed ++ s.cleanups, cleanups := [] }, .none)   -- `ptrs_` is kept

/-- A history: the state reached and what each call returned, with the objects destroyed before the call. -/
def run (s : S) : List Op → S × List (Out × List Nat)
  | [] => (s, [])
  | op :: ops =>
    let (s1, o) := step s op
    let (s2, os) := run s1 ops
    (s2, (o, s.destroyed) :: os)

/-! ## Destruction -/

structure Inv (s : S) : Prop where
  all : s.destroyed ++ s.cleanups = List.range s.count

theorem inv_step {s : S} (h : Inv s) (op : Op) : Inv (step s op).1 := by
  have hown : Inv (own s).1 := ⟨by simp only [own]; rw [← List.append_assoc, h.all, List.range_succ]⟩
  cases op with
  | new => exact hown
  | reset => exact ⟨by simp [step, h.all]⟩
  | getPtr t v =>
    simp only [step]
    split
    · exact h
    · split
      · exact h
      · split
        · exact h
        · exact ⟨hown.all⟩
    · exact ⟨hown.all⟩

theorem inv_run {s : S} (h : Inv s) (ops : List Op) : Inv (run s ops).1 := by
  induction ops generalizing s with
  | nil => exact h
  | cons op ops ih => exact ih (inv_step h op)

/-- **C13, destruction.** In every history no object is destroyed twice, objects are destroyed in the order they
were created, and after a reset (or the destructor, which is a reset) every object created so far has been
destroyed. -/
theorem context_destroys_once (ops : List Op) :
    let s := (run {} ops).1
    (∃ k, k ≤ s.count ∧ s.destroyed = List.range k) ∧ (step s .reset).1.destroyed = List.range s.count := by
  have h := inv_run (s := {}) ⟨rfl⟩ ops
  refine ⟨?_, h.all⟩
  generalize (run {} ops).1 = s at h
  have hall := h.all
  have hl := congrArg List.length hall
  simp at hl
  refine ⟨s.destroyed.length, by omega, ?_⟩
  have h1 : s.destroyed = (List.range s.count).take s.destroyed.length := by rw [← hall, List.take_left]
  rw [h1, List.take_range]
  congr 1
  simp

/-! ## Dangling pointers -/

/-- **C13, violated.** For every history: look a type up, reset, look it up again without a validator — the second lookup
returns an object that has been destroyed. (With a validator, the validator is called on it.) -/
theorem context_getptr_dangling_violated (ops : List Op) (t : Nat) (h : (run {} ops).1.ptrs t = none) :
    let s := (step (step (run {} ops).1 (.getPtr t none)).1 .reset).1
    ∃ i, (step s (.getPtr t none)).2 = .obj i ∧ i ∈ s.destroyed ∧ ∀ b, (step s (.getPtr t (some b))).2 = .ub := by
  have : (step (run {} ops).1 (.getPtr t none)) = ({ (own (run {} ops).1).1 with ptrs := fun u => if u = t then some (run {} ops).1.count else (run {} ops).1.ptrs u }, .obj (run {} ops).1.count) := by
    simp [step, h, own]
  simp only [this]
  refine ⟨(run {} ops).1.count, ?_, ?_, ?_⟩
  · simp [step]
  · simp [step, own]
  · intro b; simp [step, own]

/-- No type is looked up both before and after a reset: `seen` are the types looked up before the latest reset, `cur` since. -/
def LookupsWithinReset (seen cur : List Nat) : List Op → Prop
  | [] => True
  | .new :: ops => LookupsWithinReset seen cur ops
  | .getPtr t _ :: ops => t ∉ seen ∧ LookupsWithinReset seen (t :: cur) ops
  | .reset :: ops => LookupsWithinReset (cur ++ seen) [] ops

theorem lookups_fresh {s : S} (seen cur : List Nat) (ops : List Op) (h : LookupsWithinReset seen cur ops) (hi : Inv s)
    (hp : ∀ t i, s.ptrs t = some i → (t ∈ seen ∨ t ∈ cur) ∧ (t ∉ seen → i ∈ s.cleanups)) :
    ∀ o ∈ (run s ops).2, o.1 ≠ .ub ∧ ∀ i, o.1 = .obj i → i ∉ o.2 := by
  have hnd : (s.destroyed ++ s.cleanups).Nodup := by rw [hi.all]; exact List.nodup_range
  have hdis : ∀ i, i ∈ s.cleanups → i ∉ s.destroyed := fun i h1 h2 => (List.nodup_append.1 hnd).2.2 i h2 i h1 rfl
  have hnew : s.count ∉ s.destroyed := by
    intro hm
    have : s.count ∈ s.destroyed ++ s.cleanups := by simp [hm]
    rw [hi.all] at this; simp at this
  induction ops generalizing s seen cur with
  | nil => simp [run]
  | cons op ops ih =>
    have rest : ∀ seen cur, LookupsWithinReset seen cur ops →
        (∀ t i, (step s op).1.ptrs t = some i → (t ∈ seen ∨ t ∈ cur) ∧ (t ∉ seen → i ∈ (step s op).1.cleanups)) →
        ∀ o ∈ (run (step s op).1 ops).2, o.1 ≠ .ub ∧ ∀ i, o.1 = .obj i → i ∉ o.2 := by
      intro seen cur h1 h2
      have hi' := inv_step hi op
      have hnd' : ((step s op).1.destroyed ++ (step s op).1.cleanups).Nodup := by rw [hi'.all]; exact List.nodup_range
      refine ih seen cur h1 hi' h2 hnd' (fun i h1 h2 => (List.nodup_append.1 hnd').2.2 i h2 i h1 rfl) ?_
      intro hm
      have : (step s op).1.count ∈ (step s op).1.destroyed ++ (step s op).1.cleanups := by simp [hm]
      rw [hi'.all] at this; simp at this
    intro o ho
    simp only [run, List.mem_cons] at ho
    cases op with
    | new =>
      rcases ho with rfl | ho
      · simp only [step, own]
        refine ⟨by simp, fun i hi => ?_⟩
        simp at hi; subst hi; exact hnew
      · refine rest seen cur h ?_ o ho
        intro t i ht
        have := hp t i ht
        exact ⟨this.1, fun hs => by simp [step, own, this.2 hs]⟩
    | reset =>
      rcases ho with rfl | ho
      · simp [step]
      · refine rest (cur ++ seen) [] h ?_ o ho
        intro t i ht
        have := (hp t i ht).1
        refine ⟨.inl (by simp; rcases this with h | h <;> simp [h]), fun hs => ?_⟩
        exfalso; apply hs; simp; rcases this with h | h <;> simp [h]
    | getPtr t v =>
      obtain ⟨hts, hrest⟩ := h
      cases hpt : s.ptrs t with
      | none =>
        have hst : step s (.getPtr t v) = ({ (own s).1 with ptrs := fun u => if u = t then some s.count else s.ptrs u }, .obj s.count) := by
          simp only [step, hpt]
          rfl
        rcases ho with rfl | ho
        · rw [hst]
          refine ⟨by simp, fun i hi => ?_⟩
          simp at hi; subst hi; exact hnew
        · refine rest seen (t :: cur) hrest ?_ o ho
          rw [hst]
          intro u i hu
          simp only at hu
          split at hu
          · rename_i e; subst e
            simp at hu; subst hu
            exact ⟨.inr (by simp), fun _ => by simp [own]⟩
          · have := hp u i hu
            exact ⟨by rcases this.1 with h | h <;> simp [h], fun hs => by simp [own, this.2 hs]⟩
      | some p =>
        have hpc := (hp t p hpt).2 hts
        have hpd := hdis p hpc
        have same : (step s (.getPtr t v)) = (s, .obj p) ∨
            (step s (.getPtr t v)) = ({ (own s).1 with ptrs := fun u => if u = t then some s.count else s.ptrs u }, .obj s.count) := by
          cases v with
          | none => left; simp [step, hpt]
          | some b => cases b with
            | true => left; simp [step, hpt, hpd]
            | false => right; simp only [step, hpt, hpd, if_false, Bool.false_eq_true]; rfl
        rcases same with hst | hst
        · rcases ho with rfl | ho
          · rw [hst]
            refine ⟨by simp, fun i hi => ?_⟩
            simp at hi; subst hi; exact hpd
          · refine rest seen (t :: cur) hrest ?_ o ho
            rw [hst]
            intro u i hu
            have := hp u i hu
            exact ⟨by rcases this.1 with h | h <;> simp [h], this.2⟩
        · rcases ho with rfl | ho
          · rw [hst]
            refine ⟨by simp, fun i hi => ?_⟩
            simp at hi; subst hi; exact hnew
          · refine rest seen (t :: cur) hrest ?_ o ho
            rw [hst]
            intro u i hu
            simp only at hu
            split at hu
            · rename_i e; subst e
              simp at hu; subst hu
              exact ⟨.inr (by simp), fun _ => by simp [own]⟩
            · have := hp u i hu
              exact ⟨by rcases this.1 with h | h <;> simp [h], fun hs => by simp [own, this.2 hs]⟩

/-- **C13 (what holds).** In a history in which no type is looked up both before and after a reset, no call returns a
destroyed object or runs a validator on one. Missing: lookups of a type across a reset, which do return destroyed
objects (`context_getptr_dangling_violated`). -/
theorem context_no_dangling_partial (ops : List Op) (h : LookupsWithinReset [] [] ops) :
    ∀ o ∈ (run {} ops).2, o.1 ≠ .ub ∧ ∀ i, o.1 = .obj i → i ∉ o.2 :=
  lookups_fresh [] [] ops h ⟨rfl⟩ (by intro t i ht; simp at ht)

example : LookupsWithinReset [] [] [.getPtr 1 none, .getPtr 1 (some false), .new, .reset, .getPtr 2 (some true), .getPtr 2 none] := by
  simp [LookupsWithinReset]

example : (run {} [.getPtr 1 none, .getPtr 1 (some false), .new, .reset, .getPtr 2 (some true), .getPtr 2 none]).2.map (·.1) =
    [.obj 0, .obj 1, .obj 2, .none, .obj 3, .obj 3] := by decide

example : (run {} [.getPtr 1 none, .reset, .getPtr 1 none]).2 = [(.obj 0, []), (.none, []), (.obj 0, [0])] := by decide

end Verif.Ctx.Context
