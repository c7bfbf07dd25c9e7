import Verif.Ast.Symbols
/-!
# The table of symbols and threads: C134

`/repo/rapidudf/ast/symbols.cc` 121–135 (`IsDTypeExist`, `FindDType`), 151–216 (`Init`); `/repo/rapidudf/compiler/compiler.cc` 31–34: every constructor of `JitCompiler` calls `Init`;
`/repo/rapidudf/exec/eval_engine.h` 79, 137: a cache miss creates a compiler, on the calling thread.

Threads run sequences of two operations: create a compiler, look up a name. Each operation is split at the points where another thread can come in between: taking and releasing the mutex, entering
and leaving `call_once`, beginning and ending an access to the hash map. Two accesses that overlap, at least one of which writes, are a data race: undefined behaviour.
-/
namespace Verif.Ast.SymbolsRace

/-- An operation of a thread. -/
inductive Op
  | construct
  | lookup
deriving DecidableEq

/-- Where a thread is. -/
inductive PC
  | idle
  /-- in `Init`, before the mutex (`once`: called from `call_once`) -/
  | wantLock (once : Bool)
  /-- in `Init`, with the mutex, changing the map -/
  | writing (once : Bool)
  /-- before `call_once` -/
  | wantOnce
  /-- reading the map -/
  | reading
deriving DecidableEq

/-- The state of `std::once_flag`. -/
inductive Once
  | fresh
  | running (t : Nat)
  | done
deriving DecidableEq

structure State where
  pc : Nat → PC := fun _ => .idle
  todo : Nat → List Op
  lock : Option Nat := none
  once : Once := .fresh

def upd {α : Type} (f : Nat → α) (t : Nat) (a : α) : Nat → α := fun u => if u = t then a else f u

/-- One step of thread `t`. -/
inductive Step : State → Nat → State → Prop
  /-- `JitCompiler::JitCompiler` calls `Init`. -/
  | construct (s t rest) (h : s.pc t = .idle) (hq : s.todo t = .construct :: rest) : Step s t { s with pc := upd s.pc t (.wantLock false), todo := upd s.todo t rest }
  | lookup (s t rest) (h : s.pc t = .idle) (hq : s.todo t = .lookup :: rest) : Step s t { s with pc := upd s.pc t .wantOnce, todo := upd s.todo t rest }
  /-- `std::lock_guard`, 152 -/
  | lock (s t b) (h : s.pc t = .wantLock b) (hl : s.lock = none) : Step s t { s with pc := upd s.pc t (.writing b), lock := some t }
  /-- the end of `Init` -/
  | unlock (s t) (h : s.pc t = .writing false) : Step s t { s with pc := upd s.pc t .idle, lock := none }
  | unlockOnce (s t) (h : s.pc t = .writing true) : Step s t { s with pc := upd s.pc t .reading, lock := none, once := .done }
  /-- `std::call_once`, 123, 128: the first caller runs `Init`, others wait until it is done. -/
  | onceFirst (s t) (h : s.pc t = .wantOnce) (ho : s.once = .fresh) : Step s t { s with pc := upd s.pc t (.wantLock true), once := .running t }
  | onceDone (s t) (h : s.pc t = .wantOnce) (ho : s.once = .done) : Step s t { s with pc := upd s.pc t .reading }
  /-- the end of the lookup -/
  | read (s t) (h : s.pc t = .reading) : Step s t { s with pc := upd s.pc t .idle }

/-- The states reached from a start with the given programs. -/
inductive Reach (prog : Nat → List Op) : State → Prop
  | init : Reach prog { todo := prog }
  | step (s t s') : Reach prog s → Step s t s' → Reach prog s'

/-! ## Specification -/

/-- Two threads access the map at the same time and one of them writes. -/
def Race (s : State) : Prop := ∃ t u, t ≠ u ∧ (∃ b, s.pc t = .writing b) ∧ ((∃ b, s.pc u = .writing b) ∨ s.pc u = .reading)

/-! ## Proofs -/

/-- The invariant: the thread that writes has the mutex; the first lookup is marked in the flag. -/
structure Inv (s : State) : Prop where
  lock : ∀ t b, s.pc t = .writing b → s.lock = some t
  once : ∀ t, s.pc t = .wantLock true ∨ s.pc t = .writing true → s.once = .running t
  read : ∀ t, s.pc t = .reading → s.once = .done

theorem inv_step (s : State) (t : Nat) (s' : State) (I : Inv s) (h : Step s t s') : Inv s' := by
  obtain ⟨h1, h2, h3⟩ := I
  cases h <;> refine ⟨?_, ?_, ?_⟩ <;> intro u <;> by_cases hu : u = t <;> simp only [upd, hu, if_true, if_false] <;> grind

theorem reach_inv (prog : Nat → List Op) (s : State) (h : Reach prog s) : Inv s := by
  induction h with
  | init => exact ⟨fun t b h => by simp at h, fun t h => by simp at h, fun t h => by simp at h⟩
  | step s t s' _ hs I => exact inv_step s t s' I hs

/-- **C134 (part).** Compilers may be created by any number of threads at once: the map is never changed by two threads at the same time. -/
theorem one_writer (prog : Nat → List Op) (s : State) (h : Reach prog s) (t u : Nat) (b c : Bool) (ht : s.pc t = .writing b) (hu : s.pc u = .writing c) : t = u := by
  have I := reach_inv prog s h
  have h1 := I.lock t b ht
  have h2 := I.lock u c hu
  rw [h1] at h2
  exact Option.some.inj h2

/-- Threads that only look up names have no compiler under construction. -/
theorem only_lookups (prog : Nat → List Op) (hp : ∀ t, Op.construct ∉ prog t) (s : State) (h : Reach prog s) :
    ∀ t, Op.construct ∉ s.todo t ∧ s.pc t ≠ .wantLock false ∧ s.pc t ≠ .writing false := by
  induction h with
  | init => intro t; exact ⟨hp t, by simp, by simp⟩
  | step s t s' _ hs ih =>
    intro u
    have iu := ih u
    have it := ih t
    cases hs <;> by_cases hu : u = t <;> simp only [upd, hu, if_true, if_false] <;> grind

/-- Threads that only create compilers never look up a name. -/
theorem only_constructs (prog : Nat → List Op) (hp : ∀ t, Op.lookup ∉ prog t) (s : State) (h : Reach prog s) :
    ∀ t, Op.lookup ∉ s.todo t ∧ s.pc t ≠ .wantOnce ∧ s.pc t ≠ .wantLock true ∧ s.pc t ≠ .writing true ∧ s.pc t ≠ .reading := by
  induction h with
  | init => intro t; exact ⟨hp t, by simp, by simp, by simp, by simp⟩
  | step s t s' _ hs ih =>
    intro u
    have iu := ih u
    have it := ih t
    cases hs <;> by_cases hu : u = t <;> simp only [upd, hu, if_true, if_false] <;> grind

/-- **C134 (part).** There is no data race in any schedule if all threads only compile (with compilers that exist), or all threads only create compilers. -/
theorem no_race_partial (prog : Nat → List Op) (hp : (∀ t, Op.construct ∉ prog t) ∨ (∀ t, Op.lookup ∉ prog t)) (s : State) (h : Reach prog s) : ¬ Race s := by
  rintro ⟨t, u, htu, ⟨b, ht⟩, hu⟩
  have I := reach_inv prog s h
  rcases hu with ⟨c, hu⟩ | hu
  · exact htu (one_writer prog s h t u b c ht hu)
  · rcases hp with hp | hp
    · have := only_lookups prog hp s h t
      cases b with
      | false => exact this.2.2 ht
      | true =>
        have h1 := I.once t (Or.inr ht)
        have h2 := I.read u hu
        rw [h1] at h2
        simp at h2
    · exact (only_constructs prog hp s h u).2.2.2.2 hu

/-- Not vacuous: two threads that look up a name, the first of them in the middle of `Init`, the second waiting. -/
example : ∃ s, Reach (fun t => if t < 2 then [Op.lookup] else []) s ∧ s.pc 0 = .writing true ∧ s.pc 1 = .wantOnce := by
  have r1 := Reach.step _ _ _ (Reach.init (prog := fun t => if t < 2 then [Op.lookup] else [])) (.lookup _ 0 [] rfl rfl)
  have r2 := Reach.step _ _ _ r1 (.lookup _ 1 [] rfl rfl)
  have r3 := Reach.step _ _ _ r2 (.onceFirst _ 0 rfl rfl)
  have r4 := Reach.step _ _ _ r3 (.lock _ 0 true rfl rfl)
  exact ⟨_, r4, rfl, rfl⟩

/-- **C134 fails.** One thread compiles with a compiler of its own while another one creates a compiler (as `eval_expression` does when it meets a new expression): a data race. -/
theorem symbols_race_violated : ∃ s, Reach (fun t => if t = 0 then [.lookup, .lookup] else if t = 1 then [.construct] else []) s ∧ Race s := by
  have r1 := Reach.step _ _ _ (Reach.init (prog := fun t => if t = 0 then [Op.lookup, .lookup] else if t = 1 then [.construct] else [])) (.lookup _ 0 [.lookup] rfl rfl)
  have r2 := Reach.step _ _ _ r1 (.onceFirst _ 0 rfl rfl)
  have r3 := Reach.step _ _ _ r2 (.lock _ 0 true rfl rfl)
  have r4 := Reach.step _ _ _ r3 (.unlockOnce _ 0 rfl)
  have r5 := Reach.step _ _ _ r4 (.construct _ 1 [] rfl rfl)
  have r6 := Reach.step _ _ _ r5 (.lock _ 1 false rfl rfl)
  exact ⟨_, r6, 1, 0, by decide, ⟨false, rfl⟩, Or.inr rfl⟩

end Verif.Ast.SymbolsRace
