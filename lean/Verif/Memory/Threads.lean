/-!
# An arena for each thread (C111)

`ThreadCachedArena` (`/repo/rapidudf/memory/arena.h` 113–168, `memory/arena.cc` 19–55): every thread allocates from an arena of its own, found through
a thread-specific pointer; `Reset`, `MemoryUsage` and the destructor walk over all arenas, kept in a vector under a mutex.

Threads are interleaved at the places where they touch shared state. An arena is modelled by the number of bytes it has handed out since it was
last reset (its own behaviour is the subject of `Verif.Memory.ArenaProps`); a block is named by arena, number of resets, offset and size.
-/
namespace Verif.Memory.Threads

/-- Where a thread is. -/
inductive Pc where
  /-- outside -/
  | idle
  /-- in `GetArena` (`arena.cc` 27–28): the arena is made and stored in the thread-specific pointer, the mutex is not yet locked -/
  | made (a n : Nat)
  /-- in `GetArena` (29): the mutex is locked, the arena is not yet in the vector -/
  | locked (a n : Nat)
  /-- in `GetArena` (30): the arena is in the vector, the mutex is locked -/
  | pushed (a n : Nat)
  /-- in `Arena::Allocate` of arena `a` for `n` bytes (`arena.h` 85, 138) -/
  | alloc (a n : Nat)
  /-- in `Reset` (`arena.cc` 35–40), arenas still to be reset -/
  | reset (todo : List Nat)
  /-- in `MemoryUsage` (42–49), arenas still to be asked and the sum so far -/
  | usage (todo : List Nat) (sum : Nat)
  deriving DecidableEq

/-- A block handed out: to which thread, from which arena, after how many resets, offset and size. -/
structure Block where
  tid : Nat
  arena : Nat
  gen : Nat
  off : Nat
  size : Nat
  deriving DecidableEq

/-- The shared state. -/
structure State where
  /-- number of arenas made so far; arena `i` is the `i`-th one -/
  made : Nat := 0
  /-- the thread-specific pointers (`arena_`) -/
  tls : Nat → Option Nat := fun _ => none
  /-- `all_arenas_` -/
  all : List Nat := []
  /-- the holder of `threads_mutex_` -/
  lock : Option Nat := none
  pc : Nat → Pc := fun _ => .idle
  used : Nat → Nat := fun _ => 0
  gen : Nat → Nat := fun _ => 0
  blocks : List Block := []
  /-- the last answer of `MemoryUsage` for each thread -/
  answer : Nat → Option Nat := fun _ => none

def upd {α : Type} (f : Nat → α) (i : Nat) (x : α) : Nat → α := fun j => if j = i then x else f j

/-- The steps of thread `t`. -/
inductive Step (t : Nat) : State → State → Prop where
  /-- `Allocate(n)` in a thread without an arena: `arena.cc` 25–28 -/
  | first (s n) : s.pc t = .idle → s.tls t = none →
      Step t s { s with made := s.made + 1, tls := upd s.tls t (some s.made), pc := upd s.pc t (.made s.made n) }
  /-- line 29 -/
  | lock (s a n) : s.pc t = .made a n → s.lock = none → Step t s { s with lock := some t, pc := upd s.pc t (.locked a n) }
  /-- line 30 -/
  | push (s a n) : s.pc t = .locked a n → Step t s { s with all := s.all ++ [a], pc := upd s.pc t (.pushed a n) }
  /-- end of the block, line 31 -/
  | unlock (s a n) : s.pc t = .pushed a n → Step t s { s with lock := none, pc := upd s.pc t (.alloc a n) }
  /-- `Allocate(n)` in a thread with an arena: lines 25, 32 -/
  | again (s n a) : s.pc t = .idle → s.tls t = some a → Step t s { s with pc := upd s.pc t (.alloc a n) }
  /-- the allocation itself -/
  | alloc (s a n) : s.pc t = .alloc a n →
      Step t s { s with used := upd s.used a (s.used a + n), pc := upd s.pc t .idle, blocks := ⟨t, a, s.gen a, s.used a, n⟩ :: s.blocks }
  /-- `Reset`, line 36 -/
  | resetLock (s) : s.pc t = .idle → s.lock = none → Step t s { s with lock := some t, pc := upd s.pc t (.reset s.all) }
  /-- lines 37–39 -/
  | resetOne (s a as) : s.pc t = .reset (a :: as) →
      Step t s { s with used := upd s.used a 0, gen := upd s.gen a (s.gen a + 1), pc := upd s.pc t (.reset as) }
  /-- line 40 -/
  | resetEnd (s) : s.pc t = .reset [] → Step t s { s with lock := none, pc := upd s.pc t .idle }
  /-- `MemoryUsage`, line 44 -/
  | usageLock (s) : s.pc t = .idle → s.lock = none → Step t s { s with lock := some t, pc := upd s.pc t (.usage s.all 0) }
  /-- lines 45–47 -/
  | usageOne (s a as k) : s.pc t = .usage (a :: as) k → Step t s { s with pc := upd s.pc t (.usage as (k + s.used a)) }
  /-- lines 48–49 -/
  | usageEnd (s k) : s.pc t = .usage [] k →
      Step t s { s with lock := none, pc := upd s.pc t .idle, answer := upd s.answer t (some k) }

/-- The states that can be reached by any number of threads in any order. -/
inductive Reachable : State → Prop where
  | init : Reachable {}
  | step {s s' t} : Reachable s → Step t s s' → Reachable s'

/-- The arena a thread is making and has not yet entered into the vector. -/
def Pc.registering : Pc → Option Nat
  | .made a _ => some a
  | .locked a _ => some a
  | _ => none

/-- The arena a thread works on in `Allocate`. -/
def Pc.working : Pc → Option Nat
  | .made a _ => some a
  | .locked a _ => some a
  | .pushed a _ => some a
  | .alloc a _ => some a
  | _ => none

/-- The thread holds the mutex. -/
def Pc.holding : Pc → Bool
  | .locked _ _ => true
  | .pushed _ _ => true
  | .reset _ => true
  | .usage _ _ => true
  | _ => false

/-- The invariant. -/
structure Inv (s : State) : Prop where
  /-- thread-specific pointers point to different arenas, made before -/
  tls_lt : ∀ t a, s.tls t = some a → a < s.made
  tls_inj : ∀ t u a, s.tls t = some a → s.tls u = some a → t = u
  /-- a thread works on its own arena -/
  pc_own : ∀ t a, (s.pc t).working = some a → s.tls t = some a
  /-- the vector holds arenas that were made, each once, and none that is still being registered -/
  all_lt : ∀ a ∈ s.all, a < s.made
  all_nodup : s.all.Nodup
  all_reg : ∀ t a, (s.pc t).registering = some a → a ∉ s.all
  /-- an arena is in the vector or being registered by its thread -/
  all_made : ∀ a, a < s.made → a ∈ s.all ∨ ∃ t, (s.pc t).registering = some a
  /-- blocks come from the arena of their thread, and lie below its fill level if it was not reset since -/
  blk_own : ∀ b ∈ s.blocks, s.tls b.tid = some b.arena
  blk_gen : ∀ b ∈ s.blocks, b.gen ≤ s.gen b.arena
  blk_used : ∀ b ∈ s.blocks, b.gen = s.gen b.arena → b.off + b.size ≤ s.used b.arena
  /-- blocks of one arena and one generation do not overlap -/
  blk_disj : s.blocks.Pairwise fun b c => b.arena = c.arena → b.gen = c.gen → c.off + c.size ≤ b.off ∨ b.off + b.size ≤ c.off
  /-- the holder of the mutex -/
  lock_pc : ∀ t, (s.pc t).holding = true ↔ s.lock = some t
  todo_sub : ∀ t l, s.pc t = .reset l → ∀ a ∈ l, a ∈ s.all

theorem inv_init : Inv {} := by
  constructor <;> simp [Pc.registering, Pc.working, Pc.holding]

theorem reg_working {p : Pc} {a : Nat} (h : p.registering = some a) : p.working = some a := by
  cases p <;> simp_all [Pc.registering, Pc.working]

theorem inv_step {s s' : State} {t : Nat} (h : Inv s) (hs : Step t s s') : Inv s' := by
  obtain ⟨h1, h2, h3, h4, h5, h6, h7, h8, h9, h10, h11, h12, h13⟩ := h
  cases hs with
  | first n hp ht =>
    constructor <;> dsimp only
    · grind [upd, Pc.registering, Pc.working, Pc.holding, reg_working]
    · grind [upd, Pc.registering, Pc.working, Pc.holding, reg_working]
    · grind [upd, Pc.registering, Pc.working, Pc.holding, reg_working]
    · grind [upd, Pc.registering, Pc.working, Pc.holding, reg_working]
    · grind [upd, Pc.registering, Pc.working, Pc.holding, reg_working]
    · grind [upd, Pc.registering, Pc.working, Pc.holding, reg_working]
    · intro x hx
      by_cases hx' : x < s.made
      · rcases h7 x hx' with hm | ⟨u, hu⟩
        · left; grind
        · by_cases hut : u = t
          · subst hut; rw [hp] at hu; cases hu
          · exact .inr ⟨u, by simp only [upd, if_neg hut]; exact hu⟩
      · exact .inr ⟨t, by grind [upd, Pc.registering, Pc.working, Pc.holding, reg_working]⟩
    · grind [upd, Pc.registering, Pc.working, Pc.holding, reg_working]
    · grind [upd, Pc.registering, Pc.working, Pc.holding, reg_working]
    · grind [upd, Pc.registering, Pc.working, Pc.holding, reg_working]
    · grind [upd, Pc.registering, Pc.working, Pc.holding, reg_working]
    · grind [upd, Pc.registering, Pc.working, Pc.holding, reg_working]
    · grind [upd, Pc.registering, Pc.working, Pc.holding, reg_working]
  | lock a n hp hl =>
    constructor <;> dsimp only
    · grind [upd, Pc.registering, Pc.working, Pc.holding, reg_working]
    · grind [upd, Pc.registering, Pc.working, Pc.holding, reg_working]
    · grind [upd, Pc.registering, Pc.working, Pc.holding, reg_working]
    · grind [upd, Pc.registering, Pc.working, Pc.holding, reg_working]
    · grind [upd, Pc.registering, Pc.working, Pc.holding, reg_working]
    · grind [upd, Pc.registering, Pc.working, Pc.holding, reg_working]
    · intro x hx
      by_cases hx' : x < s.made
      · rcases h7 x hx' with hm | ⟨u, hu⟩
        · left; grind
        · by_cases hut : u = t
          · exact .inr ⟨t, by grind [upd, Pc.registering, Pc.working, Pc.holding, reg_working]⟩
          · exact .inr ⟨u, by simp only [upd, if_neg hut]; exact hu⟩
      · exact absurd hx hx'
    · grind [upd, Pc.registering, Pc.working, Pc.holding, reg_working]
    · grind [upd, Pc.registering, Pc.working, Pc.holding, reg_working]
    · grind [upd, Pc.registering, Pc.working, Pc.holding, reg_working]
    · grind [upd, Pc.registering, Pc.working, Pc.holding, reg_working]
    · grind [upd, Pc.registering, Pc.working, Pc.holding, reg_working]
    · grind [upd, Pc.registering, Pc.working, Pc.holding, reg_working]
  | push a n hp =>
    constructor <;> dsimp only
    · grind [upd, Pc.registering, Pc.working, Pc.holding, reg_working]
    · grind [upd, Pc.registering, Pc.working, Pc.holding, reg_working]
    · grind [upd, Pc.registering, Pc.working, Pc.holding, reg_working]
    · grind [upd, Pc.registering, Pc.working, Pc.holding, reg_working]
    · grind [upd, Pc.registering, Pc.working, Pc.holding, reg_working]
    · grind [upd, Pc.registering, Pc.working, Pc.holding, reg_working]
    · intro x hx
      by_cases hx' : x < s.made
      · rcases h7 x hx' with hm | ⟨u, hu⟩
        · left; grind
        · by_cases hut : u = t
          · left; grind [upd, Pc.registering, Pc.working, Pc.holding, reg_working]
          · exact .inr ⟨u, by simp only [upd, if_neg hut]; exact hu⟩
      · exact absurd hx hx'
    · grind [upd, Pc.registering, Pc.working, Pc.holding, reg_working]
    · grind [upd, Pc.registering, Pc.working, Pc.holding, reg_working]
    · grind [upd, Pc.registering, Pc.working, Pc.holding, reg_working]
    · grind [upd, Pc.registering, Pc.working, Pc.holding, reg_working]
    · grind [upd, Pc.registering, Pc.working, Pc.holding, reg_working]
    · grind [upd, Pc.registering, Pc.working, Pc.holding, reg_working]
  | unlock a n hp =>
    constructor <;> dsimp only
    · grind [upd, Pc.registering, Pc.working, Pc.holding, reg_working]
    · grind [upd, Pc.registering, Pc.working, Pc.holding, reg_working]
    · grind [upd, Pc.registering, Pc.working, Pc.holding, reg_working]
    · grind [upd, Pc.registering, Pc.working, Pc.holding, reg_working]
    · grind [upd, Pc.registering, Pc.working, Pc.holding, reg_working]
    · grind [upd, Pc.registering, Pc.working, Pc.holding, reg_working]
    · intro x hx
      by_cases hx' : x < s.made
      · rcases h7 x hx' with hm | ⟨u, hu⟩
        · left; grind
        · by_cases hut : u = t
          · subst hut; rw [hp] at hu; cases hu
          · exact .inr ⟨u, by simp only [upd, if_neg hut]; exact hu⟩
      · exact absurd hx hx'
    · grind [upd, Pc.registering, Pc.working, Pc.holding, reg_working]
    · grind [upd, Pc.registering, Pc.working, Pc.holding, reg_working]
    · grind [upd, Pc.registering, Pc.working, Pc.holding, reg_working]
    · grind [upd, Pc.registering, Pc.working, Pc.holding, reg_working]
    · grind [upd, Pc.registering, Pc.working, Pc.holding, reg_working]
    · grind [upd, Pc.registering, Pc.working, Pc.holding, reg_working]
  | again n a hp ht =>
    constructor <;> dsimp only
    · grind [upd, Pc.registering, Pc.working, Pc.holding, reg_working]
    · grind [upd, Pc.registering, Pc.working, Pc.holding, reg_working]
    · grind [upd, Pc.registering, Pc.working, Pc.holding, reg_working]
    · grind [upd, Pc.registering, Pc.working, Pc.holding, reg_working]
    · grind [upd, Pc.registering, Pc.working, Pc.holding, reg_working]
    · grind [upd, Pc.registering, Pc.working, Pc.holding, reg_working]
    · intro x hx
      by_cases hx' : x < s.made
      · rcases h7 x hx' with hm | ⟨u, hu⟩
        · left; grind
        · by_cases hut : u = t
          · subst hut; rw [hp] at hu; cases hu
          · exact .inr ⟨u, by simp only [upd, if_neg hut]; exact hu⟩
      · exact absurd hx hx'
    · grind [upd, Pc.registering, Pc.working, Pc.holding, reg_working]
    · grind [upd, Pc.registering, Pc.working, Pc.holding, reg_working]
    · grind [upd, Pc.registering, Pc.working, Pc.holding, reg_working]
    · grind [upd, Pc.registering, Pc.working, Pc.holding, reg_working]
    · grind [upd, Pc.registering, Pc.working, Pc.holding, reg_working]
    · grind [upd, Pc.registering, Pc.working, Pc.holding, reg_working]
  | alloc a n hp =>
    constructor <;> dsimp only
    · grind [upd, Pc.registering, Pc.working, Pc.holding, reg_working]
    · grind [upd, Pc.registering, Pc.working, Pc.holding, reg_working]
    · grind [upd, Pc.registering, Pc.working, Pc.holding, reg_working]
    · grind [upd, Pc.registering, Pc.working, Pc.holding, reg_working]
    · grind [upd, Pc.registering, Pc.working, Pc.holding, reg_working]
    · grind [upd, Pc.registering, Pc.working, Pc.holding, reg_working]
    · intro x hx
      by_cases hx' : x < s.made
      · rcases h7 x hx' with hm | ⟨u, hu⟩
        · left; grind
        · by_cases hut : u = t
          · subst hut; rw [hp] at hu; cases hu
          · exact .inr ⟨u, by simp only [upd, if_neg hut]; exact hu⟩
      · exact absurd hx hx'
    · grind [upd, Pc.registering, Pc.working, Pc.holding, reg_working]
    · grind [upd, Pc.registering, Pc.working, Pc.holding, reg_working]
    · grind [upd, Pc.registering, Pc.working, Pc.holding, reg_working]
    · rw [List.pairwise_cons]
      refine ⟨fun c hc ha hg => ?_, h11⟩
      have ha : a = c.arena := ha
      subst ha
      exact .inl (h10 c hc hg.symm)
    · grind [upd, Pc.registering, Pc.working, Pc.holding, reg_working]
    · grind [upd, Pc.registering, Pc.working, Pc.holding, reg_working]
  | resetLock hp hl =>
    constructor <;> dsimp only
    · grind [upd, Pc.registering, Pc.working, Pc.holding, reg_working]
    · grind [upd, Pc.registering, Pc.working, Pc.holding, reg_working]
    · grind [upd, Pc.registering, Pc.working, Pc.holding, reg_working]
    · grind [upd, Pc.registering, Pc.working, Pc.holding, reg_working]
    · grind [upd, Pc.registering, Pc.working, Pc.holding, reg_working]
    · grind [upd, Pc.registering, Pc.working, Pc.holding, reg_working]
    · intro x hx
      by_cases hx' : x < s.made
      · rcases h7 x hx' with hm | ⟨u, hu⟩
        · left; grind
        · by_cases hut : u = t
          · subst hut; rw [hp] at hu; cases hu
          · exact .inr ⟨u, by simp only [upd, if_neg hut]; exact hu⟩
      · exact absurd hx hx'
    · grind [upd, Pc.registering, Pc.working, Pc.holding, reg_working]
    · grind [upd, Pc.registering, Pc.working, Pc.holding, reg_working]
    · grind [upd, Pc.registering, Pc.working, Pc.holding, reg_working]
    · grind [upd, Pc.registering, Pc.working, Pc.holding, reg_working]
    · grind [upd, Pc.registering, Pc.working, Pc.holding, reg_working]
    · grind [upd, Pc.registering, Pc.working, Pc.holding, reg_working]
  | resetOne a as hp =>
    constructor <;> dsimp only
    · grind [upd, Pc.registering, Pc.working, Pc.holding, reg_working]
    · grind [upd, Pc.registering, Pc.working, Pc.holding, reg_working]
    · grind [upd, Pc.registering, Pc.working, Pc.holding, reg_working]
    · grind [upd, Pc.registering, Pc.working, Pc.holding, reg_working]
    · grind [upd, Pc.registering, Pc.working, Pc.holding, reg_working]
    · grind [upd, Pc.registering, Pc.working, Pc.holding, reg_working]
    · intro x hx
      by_cases hx' : x < s.made
      · rcases h7 x hx' with hm | ⟨u, hu⟩
        · left; grind
        · by_cases hut : u = t
          · subst hut; rw [hp] at hu; cases hu
          · exact .inr ⟨u, by simp only [upd, if_neg hut]; exact hu⟩
      · exact absurd hx hx'
    · grind [upd, Pc.registering, Pc.working, Pc.holding, reg_working]
    · grind [upd, Pc.registering, Pc.working, Pc.holding, reg_working]
    · grind [upd, Pc.registering, Pc.working, Pc.holding, reg_working]
    · grind [upd, Pc.registering, Pc.working, Pc.holding, reg_working]
    · grind [upd, Pc.registering, Pc.working, Pc.holding, reg_working]
    · grind [upd, Pc.registering, Pc.working, Pc.holding, reg_working]
  | resetEnd hp =>
    constructor <;> dsimp only
    · grind [upd, Pc.registering, Pc.working, Pc.holding, reg_working]
    · grind [upd, Pc.registering, Pc.working, Pc.holding, reg_working]
    · grind [upd, Pc.registering, Pc.working, Pc.holding, reg_working]
    · grind [upd, Pc.registering, Pc.working, Pc.holding, reg_working]
    · grind [upd, Pc.registering, Pc.working, Pc.holding, reg_working]
    · grind [upd, Pc.registering, Pc.working, Pc.holding, reg_working]
    · intro x hx
      by_cases hx' : x < s.made
      · rcases h7 x hx' with hm | ⟨u, hu⟩
        · left; grind
        · by_cases hut : u = t
          · subst hut; rw [hp] at hu; cases hu
          · exact .inr ⟨u, by simp only [upd, if_neg hut]; exact hu⟩
      · exact absurd hx hx'
    · grind [upd, Pc.registering, Pc.working, Pc.holding, reg_working]
    · grind [upd, Pc.registering, Pc.working, Pc.holding, reg_working]
    · grind [upd, Pc.registering, Pc.working, Pc.holding, reg_working]
    · grind [upd, Pc.registering, Pc.working, Pc.holding, reg_working]
    · grind [upd, Pc.registering, Pc.working, Pc.holding, reg_working]
    · grind [upd, Pc.registering, Pc.working, Pc.holding, reg_working]
  | usageLock hp hl =>
    constructor <;> dsimp only
    · grind [upd, Pc.registering, Pc.working, Pc.holding, reg_working]
    · grind [upd, Pc.registering, Pc.working, Pc.holding, reg_working]
    · grind [upd, Pc.registering, Pc.working, Pc.holding, reg_working]
    · grind [upd, Pc.registering, Pc.working, Pc.holding, reg_working]
    · grind [upd, Pc.registering, Pc.working, Pc.holding, reg_working]
    · grind [upd, Pc.registering, Pc.working, Pc.holding, reg_working]
    · intro x hx
      by_cases hx' : x < s.made
      · rcases h7 x hx' with hm | ⟨u, hu⟩
        · left; grind
        · by_cases hut : u = t
          · subst hut; rw [hp] at hu; cases hu
          · exact .inr ⟨u, by simp only [upd, if_neg hut]; exact hu⟩
      · exact absurd hx hx'
    · grind [upd, Pc.registering, Pc.working, Pc.holding, reg_working]
    · grind [upd, Pc.registering, Pc.working, Pc.holding, reg_working]
    · grind [upd, Pc.registering, Pc.working, Pc.holding, reg_working]
    · grind [upd, Pc.registering, Pc.working, Pc.holding, reg_working]
    · grind [upd, Pc.registering, Pc.working, Pc.holding, reg_working]
    · grind [upd, Pc.registering, Pc.working, Pc.holding, reg_working]
  | usageOne a as k hp =>
    constructor <;> dsimp only
    · grind [upd, Pc.registering, Pc.working, Pc.holding, reg_working]
    · grind [upd, Pc.registering, Pc.working, Pc.holding, reg_working]
    · grind [upd, Pc.registering, Pc.working, Pc.holding, reg_working]
    · grind [upd, Pc.registering, Pc.working, Pc.holding, reg_working]
    · grind [upd, Pc.registering, Pc.working, Pc.holding, reg_working]
    · grind [upd, Pc.registering, Pc.working, Pc.holding, reg_working]
    · intro x hx
      by_cases hx' : x < s.made
      · rcases h7 x hx' with hm | ⟨u, hu⟩
        · left; grind
        · by_cases hut : u = t
          · subst hut; rw [hp] at hu; cases hu
          · exact .inr ⟨u, by simp only [upd, if_neg hut]; exact hu⟩
      · exact absurd hx hx'
    · grind [upd, Pc.registering, Pc.working, Pc.holding, reg_working]
    · grind [upd, Pc.registering, Pc.working, Pc.holding, reg_working]
    · grind [upd, Pc.registering, Pc.working, Pc.holding, reg_working]
    · grind [upd, Pc.registering, Pc.working, Pc.holding, reg_working]
    · grind [upd, Pc.registering, Pc.working, Pc.holding, reg_working]
    · grind [upd, Pc.registering, Pc.working, Pc.holding, reg_working]
  | usageEnd k hp =>
    constructor <;> dsimp only
    · grind [upd, Pc.registering, Pc.working, Pc.holding, reg_working]
    · grind [upd, Pc.registering, Pc.working, Pc.holding, reg_working]
    · grind [upd, Pc.registering, Pc.working, Pc.holding, reg_working]
    · grind [upd, Pc.registering, Pc.working, Pc.holding, reg_working]
    · grind [upd, Pc.registering, Pc.working, Pc.holding, reg_working]
    · grind [upd, Pc.registering, Pc.working, Pc.holding, reg_working]
    · intro x hx
      by_cases hx' : x < s.made
      · rcases h7 x hx' with hm | ⟨u, hu⟩
        · left; grind
        · by_cases hut : u = t
          · subst hut; rw [hp] at hu; cases hu
          · exact .inr ⟨u, by simp only [upd, if_neg hut]; exact hu⟩
      · exact absurd hx hx'
    · grind [upd, Pc.registering, Pc.working, Pc.holding, reg_working]
    · grind [upd, Pc.registering, Pc.working, Pc.holding, reg_working]
    · grind [upd, Pc.registering, Pc.working, Pc.holding, reg_working]
    · grind [upd, Pc.registering, Pc.working, Pc.holding, reg_working]
    · grind [upd, Pc.registering, Pc.working, Pc.holding, reg_working]
    · grind [upd, Pc.registering, Pc.working, Pc.holding, reg_working]

theorem inv_reachable {s : State} (h : Reachable s) : Inv s := by
  induction h with
  | init => exact inv_init
  | step _ hs ih => exact inv_step ih hs

/-! ## What a user relies on -/

/-- Two blocks share a byte: same arena, not separated by a reset, and a common offset. -/
def Overlap (b c : Block) : Prop :=
  b.arena = c.arena ∧ b.gen = c.gen ∧ ∃ x, b.off ≤ x ∧ x < b.off + b.size ∧ c.off ≤ x ∧ x < c.off + c.size

/-- **C111.** However threads are interleaved, two different allocations never share a byte. -/
theorem thread_blocks_disjoint {s : State} (h : Reachable s) (i j : Nat) (b c : Block) (hij : i ≠ j) (hb : s.blocks[i]? = some b)
    (hc : s.blocks[j]? = some c) : ¬ Overlap b c := by
  have key : ∀ (i j : Nat) (b c : Block), i < j → s.blocks[i]? = some b → s.blocks[j]? = some c → ¬ Overlap b c := by
    intro i j b c hij hb hc ⟨ha, hg, x, h1, h2, h3, h4⟩
    obtain ⟨hi, rfl⟩ := List.getElem?_eq_some_iff.mp hb
    obtain ⟨hj, rfl⟩ := List.getElem?_eq_some_iff.mp hc
    have := List.pairwise_iff_getElem.mp (inv_reachable h).blk_disj i j hi hj hij ha hg
    omega
  rcases Nat.lt_or_gt_of_ne hij with hlt | hgt
  · exact key i j b c hlt hb hc
  · intro ⟨ha, hg, x, h1, h2, h3, h4⟩
    exact key j i c b hgt hc hb ⟨ha.symm, hg.symm, x, h3, h4, h1, h2⟩

/-- **C111.** Blocks of different threads come from different arenas, so no two threads allocate from the same arena at the same time. -/
theorem thread_no_race {s : State} (h : Reachable s) :
    (∀ b ∈ s.blocks, ∀ c ∈ s.blocks, b.tid ≠ c.tid → b.arena ≠ c.arena) ∧
    (∀ t u a m n, s.pc t = .alloc a m → s.pc u = .alloc a n → t = u) := by
  have I := inv_reachable h
  refine ⟨fun b hb c hc hne ha => hne ?_, fun t u a m n ht hu => ?_⟩
  · have h1 := I.blk_own b hb
    have h2 := I.blk_own c hc
    rw [ha] at h1
    exact I.tls_inj _ _ _ h1 h2
  · exact I.tls_inj t u a (I.pc_own t a (by rw [ht]; rfl)) (I.pc_own u a (by rw [hu]; rfl))

/-- The thread is about to read or change the vector of arenas. -/
def AtVector (p : Pc) : Prop := (∃ a n, p = .locked a n) ∨ (∃ l, p = .reset l) ∨ ∃ l k, p = .usage l k

/-- **C111.** The vector of arenas is used by one thread at a time. -/
theorem thread_vector_exclusive {s : State} (h : Reachable s) (t u : Nat) (ht : AtVector (s.pc t)) (hu : AtVector (s.pc u)) : t = u := by
  have key : ∀ v, AtVector (s.pc v) → s.lock = some v := by
    intro v hv
    refine ((inv_reachable h).lock_pc v).mp ?_
    rcases hv with ⟨_, _, e⟩ | ⟨_, e⟩ | ⟨_, _, e⟩ <;> rw [e] <;> rfl
  have := (key t ht).symm.trans (key u hu)
  exact Option.some.inj this

/-- No thread is in the middle of making its arena. -/
def Quiet (s : State) : Prop := ∀ t, (s.pc t).registering = none

/-- **C111.** When no thread is in the middle of its first allocation, the vector lists every arena made, each exactly once: the destructor deletes
each arena once, and `Reset` and `MemoryUsage` reach every arena. -/
theorem thread_arenas_complete {s : State} (h : Reachable s) (hq : Quiet s) : s.all.Nodup ∧ ∀ a, a ∈ s.all ↔ a < s.made := by
  have I := inv_reachable h
  refine ⟨I.all_nodup, fun a => ⟨I.all_lt a, fun ha => ?_⟩⟩
  rcases I.all_made a ha with h | ⟨t, ht⟩
  · exact h
  · rw [hq t] at ht
    cases ht

/-- Thread `t` runs alone until it is outside again. -/
inductive Solo (t : Nat) : State → State → Prop where
  | last {s s'} : Step t s s' → s'.pc t = .idle → Solo t s s'
  | more {s s' s''} : Step t s s' → s'.pc t ≠ .idle → Solo t s' s'' → Solo t s s''

theorem upd_self {α : Type} (f : Nat → α) (i : Nat) (x : α) : upd f i x i = x := by simp [upd]

theorem usage_solo {t : Nat} {s s' : State} (h : Solo t s s') : ∀ l k, s.pc t = .usage l k →
    s'.answer t = some (k + (l.map s.used).sum) := by
  induction h with
  | last hs hi =>
    intro l k hp
    cases hs <;> simp_all [upd_self]
  | more hs hi _ ih =>
    intro l k hp
    cases hs <;> simp_all [upd_self]
    rw [← hp.1]
    simp
    omega

theorem reset_solo {t : Nat} {s s' : State} (h : Solo t s s') : ∀ l, s.pc t = .reset l → l.Nodup →
    s'.all = s.all ∧ s'.made = s.made ∧ s'.blocks = s.blocks ∧
    ∀ a, (a ∈ l → s'.used a = 0 ∧ s'.gen a = s.gen a + 1) ∧ (a ∉ l → s'.used a = s.used a ∧ s'.gen a = s.gen a) := by
  induction h with
  | last hs hi =>
    intro l hp hn
    cases hs <;> simp_all [upd_self]
  | more hs hi _ ih =>
    intro l hp hn
    cases hs <;> simp_all [upd_self]
    subst hp
    have hn := List.nodup_cons.mp hn
    obtain ⟨i1, i2, i3, i4⟩ := ih hn.2
    refine ⟨i1, i2, i3, fun a => ?_⟩
    have := i4 a
    grind [upd]

/-- **C111.** `MemoryUsage` with no other thread running (from the step that takes the mutex until it returns) answers the number of bytes handed
out since the last reset, summed over all arenas. -/
theorem memory_usage_quiet {t : Nat} {s s₁ s' : State} (hi : s.pc t = .idle) (h₁ : Step t s s₁) (hu : ∃ l k, s₁.pc t = .usage l k)
    (hr : Solo t s₁ s') : s'.answer t = some ((s.all.map s.used).sum) := by
  obtain ⟨l, k, hu⟩ := hu
  cases h₁ <;> try (simp_all [upd_self]; done)
  have := usage_solo hr s.all 0 (upd_self ..)
  simpa using this

/-- **C111.** `Reset` with no other thread in the middle of its first allocation and no other thread running until it returns: every arena is
empty afterwards and every block handed out before is of an earlier generation; no arena is lost. -/
theorem reset_quiet {t : Nat} {s s₁ s' : State} (h : Reachable s) (hq : Quiet s) (hi : s.pc t = .idle) (h₁ : Step t s s₁)
    (hp : ∃ l, s₁.pc t = .reset l) (hr : Solo t s₁ s') :
    s'.made = s.made ∧ (∀ a, a < s.made → s'.used a = 0) ∧ s'.blocks = s.blocks ∧ ∀ b ∈ s'.blocks, b.gen < s'.gen b.arena := by
  have I := inv_reachable h
  obtain ⟨hn, hc⟩ := thread_arenas_complete h hq
  obtain ⟨l, hp⟩ := hp
  cases h₁ <;> try (simp_all [upd_self]; done)
  obtain ⟨_, h2, h3, h4⟩ := reset_solo hr s.all (upd_self ..) hn
  refine ⟨h2, fun a ha => ((h4 a).1 ((hc a).2 ha)).1, h3, fun b hb => ?_⟩
  rw [h3] at hb
  have := ((h4 b.arena).1 ((hc _).2 (I.tls_lt _ _ (I.blk_own b hb)))).2
  have := I.blk_gen b hb
  simp only at *
  omega

/-- **C111, the exception.** `Reset` and `MemoryUsage` walk over arenas other threads may be allocating from: the mutex does not keep them apart. -/
theorem reset_race_violated :
    (∃ s, Reachable s ∧ ∃ t u a n l, t ≠ u ∧ s.pc t = .reset (a :: l) ∧ s.pc u = .alloc a n) ∧
    (∃ s, Reachable s ∧ ∃ t u a n l k, t ≠ u ∧ s.pc t = .usage (a :: l) k ∧ s.pc u = .alloc a n) := by
  have h1 := Reachable.step .init (Step.first (t := 1) {} 8 rfl rfl)
  have h2 := Reachable.step h1 (Step.lock (t := 1) _ 0 8 (by simp [upd]) rfl)
  have h3 := Reachable.step h2 (Step.push (t := 1) _ 0 8 (by simp [upd]))
  have h4 := Reachable.step h3 (Step.unlock (t := 1) _ 0 8 (by simp [upd]))
  exact ⟨⟨_, Reachable.step h4 (Step.resetLock (t := 0) _ (by simp [upd]) rfl), 0, 1, 0, 8, [], by simp [upd]⟩,
    ⟨_, Reachable.step h4 (Step.usageLock (t := 0) _ (by simp [upd]) rfl), 0, 1, 0, 8, [], 0, by simp [upd]⟩⟩

/-- Two threads, two blocks, then the sum: the hypotheses of the theorems above are met. -/
example : ∃ s, Reachable s ∧ Quiet s ∧ s.all = [1, 0] ∧ s.blocks = [⟨6, 1, 0, 0, 3⟩, ⟨5, 0, 0, 0, 8⟩] ∧
    ∃ s₁ s', Step 7 s s₁ ∧ s₁.pc 7 = .usage [1, 0] 0 ∧ Solo 7 s₁ s' ∧ s'.answer 7 = some 11 := by
  have h1 := Reachable.step .init (Step.first (t := 5) {} 8 rfl rfl)
  have h2 := Reachable.step h1 (Step.first (t := 6) _ 3 (by simp [upd]) (by simp [upd]))
  have h3 := Reachable.step h2 (Step.lock (t := 6) _ 1 3 (by simp [upd]) rfl)
  have h4 := Reachable.step h3 (Step.push (t := 6) _ 1 3 (by simp [upd]))
  have h5 := Reachable.step h4 (Step.unlock (t := 6) _ 1 3 (by simp [upd]))
  have h6 := Reachable.step h5 (Step.lock (t := 5) _ 0 8 (by simp [upd]) rfl)
  have h7 := Reachable.step h6 (Step.push (t := 5) _ 0 8 (by simp [upd]))
  have h8 := Reachable.step h7 (Step.unlock (t := 5) _ 0 8 (by simp [upd]))
  have h9 := Reachable.step h8 (Step.alloc (t := 5) _ 0 8 (by simp [upd]))
  have h10 := Reachable.step h9 (Step.alloc (t := 6) _ 1 3 (by simp [upd]))
  refine ⟨_, h10, ?_, by simp, by simp [upd], _, _, Step.usageLock _ (by simp [upd]) rfl, by simp [upd],
    .more (Step.usageOne _ 1 [0] 0 (by simp [upd])) (by simp [upd])
      (.more (Step.usageOne _ 0 [] 3 (by simp [upd])) (by simp [upd]) (.last (Step.usageEnd _ 11 (by simp [upd])) (by simp [upd]))), ?_⟩
  · intro t
    by_cases h5 : t = 5 <;> by_cases h6 : t = 6 <;> simp [upd, h5, h6, Pc.registering]
  · simp [upd]

end Verif.Memory.Threads
