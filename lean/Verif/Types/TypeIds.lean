import Verif.Common.ListLemmas
/-!
# Numbers of C++ types on several threads (C181)

`/repo/rapidudf/meta/typeid.h` 21–34 (`TypeID::Get`), `/repo/rapidudf/context/context.h` 198–202 and
`/repo/rapidudf/context/context.cc` 27–30 (`GetTypeId`, `NextTypeId`), `/repo/rapidudf/meta/dtype.h` 247–250 and 534–537 (`nextTypeId`, the
last lines of `get_dtype`, for classes): the same code three times.

`static uint32_t id = nextTypeId();` in a function template is one variable for each type, initialised by the first thread that comes by, while the
others wait (C++ standard, [stmt.dcl]); the counter is an atomic initialised at compile time. The first two counters are in members of classes,
of which there is one in the program. The third is in a function declared `static inline` in a header: every translation unit has its own function
with its own counter, and an instance of `get_dtype` calls that of the unit it was compiled in. Types, threads and translation units are
numbered. The schedule is any.
-/
namespace Verif.Types.TypeIds

/-- The value the counters start with, and the unit whose counter is called when a thread initialises the variable of a type. (Every unit that
uses a type has an instance of the function. Which one runs is decided by the linker or, if the calls are inlined, by the thread.) -/
structure Program where
  start : BitVec 32
  unit : Nat → Nat → Nat

/-- `TypeID::Get` (`typeid.h` 31) and `Context::GetTypeId` (`context.cc` 28): one counter. -/
def typeId : Program := ⟨98765#32, fun _ _ => 0⟩

/-- `get_dtype` (`dtype.h` 247–250, 534; `DATA_OBJECT_BEGIN` is 64, `dtype_enums.h` 69), for a program with the given units. -/
def getDType (unit : Nat → Nat → Nat) : Program := ⟨64#32, unit⟩

/-- The variable `id` of one type. -/
inductive Cell where
  | unset
  | busy               -- a thread is initialising it
  | set (id : BitVec 32)
deriving DecidableEq, Repr

/-- Where a thread is. -/
inductive Pc where
  | idle
  | enter (type : Nat)                     -- about to look at the variable
  | count (type : Nat)                     -- initialises it: about to call `fetch_add`
  | publish (type : Nat) (id : BitVec 32)  -- about to store the number and to let others pass
deriving DecidableEq, Repr

structure St where
  seed : Nat → BitVec 32    -- by unit
  cell : Nat → Cell := fun _ => .unset
  pc : Nat → Pc := fun _ => .idle
  returned : List (Nat × BitVec 32) := []   -- what calls of `Get` returned: type and number

/-- Before any call. -/
def init (P : Program) : St := { seed := fun _ => P.start }

/-- A move of the scheduler: a thread calls `Get` for a type, or goes on with its call. -/
inductive Move where
  | call (thread type : Nat)
  | go (thread : Nat)
deriving DecidableEq, Repr

def setPc (s : St) (t : Nat) (p : Pc) : St := { s with pc := fun u => if u = t then p else s.pc u }
def setCell (s : St) (a : Nat) (c : Cell) : St := { s with cell := fun b => if b = a then c else s.cell b }

/-- One step; `none`: the thread cannot move (it has no call, has one already, or waits). -/
def step (P : Program) (s : St) : Move → Option St
  | .call t a =>
    match s.pc t with
    | .idle => some (setPc s t (.enter a))
    | _ => none
  | .go t =>
    match s.pc t with
    | .idle => none
    | .enter a =>
      match s.cell a with
      | .unset => some (setPc (setCell s a .busy) t (.count a))
      | .busy => none
      | .set id => some (setPc { s with returned := s.returned ++ [(a, id)] } t .idle)
    | .count a =>   -- `fetch_add(1)`
      some (setPc { s with seed := fun u => if u = P.unit t a then s.seed u + 1 else s.seed u } t (.publish a (s.seed (P.unit t a))))
    | .publish a id => some (setPc (setCell { s with returned := s.returned ++ [(a, id)] } a (.set id)) t .idle)

/-- A schedule; moves that are not possible are left out. -/
def run (P : Program) (s : St) : List Move → St
  | [] => s
  | m :: ms => run P ((step P s m).getD s) ms

/-! ## Invariant -/

/-- `given`: the types that have a number, in the order of `fetch_add`. -/
structure Inv (P : Program) (n : Nat) (s : St) (given : List Nat) : Prop where
  nodup : given.Nodup
  below : ∀ a ∈ given, a < n
  seed : s.seed 0 = P.start + BitVec.ofNat 32 given.length
  unset : ∀ a, s.cell a = .unset → a ∉ given
  set : ∀ a id, s.cell a = .set id → ∃ i, given[i]? = some a ∧ id = P.start + BitVec.ofNat 32 i
  enter : ∀ t a, s.pc t = .enter a → a < n
  count : ∀ t a, s.pc t = .count a → s.cell a = .busy ∧ a ∉ given ∧ a < n
  publish : ∀ t a id, s.pc t = .publish a id → s.cell a = .busy ∧ ∃ i, given[i]? = some a ∧ id = P.start + BitVec.ofNat 32 i
  one : ∀ t u a, (s.pc t = .count a ∨ ∃ id, s.pc t = .publish a id) → (s.pc u = .count a ∨ ∃ id, s.pc u = .publish a id) → t = u
  holder : ∀ a, s.cell a = .busy → ∃ t, s.pc t = .count a ∨ ∃ id, s.pc t = .publish a id
  returned : ∀ a id, (a, id) ∈ s.returned → s.cell a = .set id

theorem inv_init (P : Program) (n : Nat) : Inv P n (init P) [] where
  nodup := List.nodup_nil
  below := fun _ h => absurd h List.not_mem_nil
  seed := by simp [init]
  unset := fun _ _ => List.not_mem_nil
  set := fun _ _ h => by cases h
  enter := fun _ _ h => by cases h
  count := fun _ _ h => by cases h
  publish := fun _ _ _ h => by cases h
  one := fun _ _ _ h => by rcases h with h | ⟨_, h⟩ <;> cases h
  holder := fun _ h => by cases h
  returned := fun _ _ h => absurd h List.not_mem_nil

/-- The moves call `Get` for types below `n`. -/
def Types (n : Nat) (ms : List Move) : Prop := ∀ t a, Move.call t a ∈ ms → a < n

theorem append_get {α : Type} {l m : List α} {i : Nat} {x : α} (h : l[i]? = some x) : (l ++ m)[i]? = some x := by
  rw [List.getElem?_append_left (List.getElem?_eq_some_iff.1 h).1]
  exact h

theorem inv_step {P : Program} (hu0 : ∀ t a, P.unit t a = 0) {n : Nat} {s s' : St} {g : List Nat} (hi : Inv P n s g) (m : Move) (hm : ∀ t a, m = .call t a → a < n)
    (h : step P s m = some s') : ∃ g', Inv P n s' g' := by
  cases m with
  | call t a =>
    simp only [step] at h
    split at h
    · rename_i hp
      obtain rfl := Option.some.inj h
      refine ⟨g, ⟨hi.nodup, hi.below, hi.seed, hi.unset, hi.set, ?_, ?_, ?_, ?_, ?_, hi.returned⟩⟩
      · intro u b hu
        simp only [setPc] at hu
        split at hu
        · cases hu; exact hm t a rfl
        · exact hi.enter u b hu
      · intro u b hu
        simp only [setPc] at hu
        split at hu
        · cases hu
        · exact hi.count u b hu
      · intro u b id hu
        simp only [setPc] at hu
        split at hu
        · cases hu
        · exact hi.publish u b id hu
      · intro u v b hu hv
        simp only [setPc] at hu hv
        split at hu
        · rcases hu with hu | ⟨_, hu⟩ <;> cases hu
        · split at hv
          · rcases hv with hv | ⟨_, hv⟩ <;> cases hv
          · exact hi.one u v b hu hv
      · intro b hb
        obtain ⟨u, hu⟩ := hi.holder b hb
        refine ⟨u, ?_⟩
        have hne : u ≠ t := fun e => by
          rw [e, hp] at hu
          rcases hu with hu | ⟨_, hu⟩ <;> cases hu
        simp only [setPc, if_neg hne]
        exact hu
    · cases h
  | go t =>
    simp only [step] at h
    split at h
    · cases h
    · rename_i a hp
      split at h
      · -- the first to come
        rename_i hc
        obtain rfl := Option.some.inj h
        refine ⟨g, ⟨hi.nodup, hi.below, hi.seed, ?_, ?_, ?_, ?_, ?_, ?_, ?_, ?_⟩⟩
        · intro b hb
          simp only [setPc, setCell] at hb
          split at hb
          · cases hb
          · exact hi.unset b hb
        · intro b id hb
          simp only [setPc, setCell] at hb
          split at hb
          · cases hb
          · exact hi.set b id hb
        · intro u b hu
          simp only [setPc, setCell] at hu
          split at hu
          · cases hu
          · exact hi.enter u b hu
        · intro u b hu
          simp only [setPc, setCell] at hu ⊢
          split at hu
          · cases hu
            exact ⟨by simp, hi.unset a hc, hi.enter t a hp⟩
          · obtain ⟨h1, h2, h3⟩ := hi.count u b hu
            refine ⟨?_, h2, h3⟩
            split
            · rfl
            · exact h1
        · intro u b id hu
          simp only [setPc, setCell] at hu ⊢
          split at hu
          · cases hu
          · obtain ⟨h1, h2⟩ := hi.publish u b id hu
            refine ⟨?_, h2⟩
            split
            · rfl
            · exact h1
        · have old : ∀ u b, (s.pc u = .count b ∨ ∃ id, s.pc u = .publish b id) → b ≠ a := by
            intro u b hu e
            subst e
            rcases hu with hu | ⟨id, hu⟩
            · rw [(hi.count u b hu).1] at hc; cases hc
            · rw [(hi.publish u b id hu).1] at hc; cases hc
          intro u v b hu hv
          simp only [setPc, setCell] at hu hv
          split at hu
          · rename_i eu
            split at hv
            · rename_i ev
              rw [eu, ev]
            · rcases hu with hu | ⟨_, hu⟩
              · cases hu; exact absurd rfl (old v a hv)
              · cases hu
          · split at hv
            · rcases hv with hv | ⟨_, hv⟩
              · cases hv; exact absurd rfl (old u a hu)
              · cases hv
            · exact hi.one u v b hu hv
        · intro b hb
          simp only [setPc, setCell] at hb ⊢
          split at hb
          · rename_i e
            exact ⟨t, by simp [e]⟩
          · obtain ⟨u, hu⟩ := hi.holder b hb
            refine ⟨u, ?_⟩
            have hne : u ≠ t := fun e => by
              rw [e, hp] at hu
              rcases hu with hu | ⟨_, hu⟩ <;> cases hu
            rw [if_neg hne]
            exact hu
        · intro b id hb
          have h1 := hi.returned b id hb
          simp only [setPc, setCell]
          rw [if_neg (fun e => by rw [e, hc] at h1; cases h1)]
          exact h1
      · cases h
      · -- already there
        rename_i id hc
        obtain rfl := Option.some.inj h
        refine ⟨g, ⟨hi.nodup, hi.below, hi.seed, hi.unset, hi.set, ?_, ?_, ?_, ?_, ?_, ?_⟩⟩
        · intro u b hu
          simp only [setPc] at hu
          split at hu
          · cases hu
          · exact hi.enter u b hu
        · intro u b hu
          simp only [setPc] at hu
          split at hu
          · cases hu
          · exact hi.count u b hu
        · intro u b id hu
          simp only [setPc] at hu
          split at hu
          · cases hu
          · exact hi.publish u b id hu
        · intro u v b hu hv
          simp only [setPc] at hu hv
          split at hu
          · rcases hu with hu | ⟨_, hu⟩ <;> cases hu
          · split at hv
            · rcases hv with hv | ⟨_, hv⟩ <;> cases hv
            · exact hi.one u v b hu hv
        · intro b hb
          obtain ⟨u, hu⟩ := hi.holder b hb
          refine ⟨u, ?_⟩
          have hne : u ≠ t := fun e => by
            rw [e, hp] at hu
            rcases hu with hu | ⟨_, hu⟩ <;> cases hu
          simp only [setPc, if_neg hne]
          exact hu
        · intro b i hb
          rcases List.mem_append.1 hb with hb | hb
          · exact hi.returned b i hb
          · cases List.mem_singleton.1 hb
            exact hc
    · -- `fetch_add`
      rename_i a hp
      obtain rfl := Option.some.inj h
      obtain ⟨hb, hg, hn⟩ := hi.count t a hp
      refine ⟨g ++ [a], ⟨?_, ?_, ?_, ?_, ?_, ?_, ?_, ?_, ?_, ?_, hi.returned⟩⟩
      · rw [List.nodup_append]
        exact ⟨hi.nodup, List.nodup_cons.2 ⟨List.not_mem_nil, List.nodup_nil⟩, fun x hx y hy e => hg (by
          rw [List.mem_singleton.1 hy] at e; exact e ▸ hx)⟩
      · intro b h
        rcases List.mem_append.1 h with h | h
        · exact hi.below b h
        · rw [List.mem_singleton.1 h]; exact hn
      · simp only [setPc, List.length_append, List.length_singleton]
        rw [if_pos (hu0 t a).symm, hi.seed, BitVec.add_assoc]
        congr 1
        rw [BitVec.ofNat_add]
        rfl
      · intro b h hm
        rcases List.mem_append.1 hm with hm | hm
        · exact hi.unset b h hm
        · rw [List.mem_singleton.1 hm] at h
          simp only [setPc] at h
          rw [hb] at h
          cases h
      · intro b id h
        obtain ⟨i, h1, h2⟩ := hi.set b id h
        exact ⟨i, append_get h1, h2⟩
      · intro u b hu
        simp only [setPc] at hu
        split at hu
        · cases hu
        · exact hi.enter u b hu
      · intro u b hu
        simp only [setPc] at hu
        split at hu
        · cases hu
        · rename_i hne
          obtain ⟨h1, h2, h3⟩ := hi.count u b hu
          refine ⟨h1, fun hm => ?_, h3⟩
          rcases List.mem_append.1 hm with hm | hm
          · exact h2 hm
          · rw [List.mem_singleton.1 hm] at hu
            exact hne (hi.one u t a (.inl hu) (.inl hp))
      · intro u b id hu
        simp only [setPc] at hu
        split at hu
        · cases hu
          exact ⟨hb, g.length, by simp, by rw [hu0 t a]; exact hi.seed⟩
        · obtain ⟨h1, i, h2, h3⟩ := hi.publish u b id hu
          exact ⟨h1, i, append_get h2, h3⟩
      · generalize hs1 : ({ s with seed := fun u => if u = P.unit t a then s.seed u + 1 else s.seed u } : St) = s1
        have hs2 : s1.pc = s.pc := by rw [← hs1]
        have conv : ∀ u b, ((setPc s1 t (.publish a (s.seed (P.unit t a)))).pc u = .count b ∨
            ∃ id, (setPc s1 t (.publish a (s.seed (P.unit t a)))).pc u = .publish b id) →
            (s.pc u = .count b ∨ ∃ id, s.pc u = .publish b id) := by
          intro u b hu
          simp only [setPc, hs2] at hu
          split at hu
          · rename_i e
            rcases hu with hu | ⟨_, hu⟩
            · cases hu
            · cases hu; rw [e]; exact .inl hp
          · exact hu
        exact fun u v b hu hv => hi.one u v b (conv u b hu) (conv v b hv)
      · intro b h
        obtain ⟨u, hu⟩ := hi.holder b h
        by_cases e : u = t
        · refine ⟨u, .inr ?_⟩
          rw [e, hp] at hu
          rcases hu with hu | ⟨_, hu⟩
          · cases hu
            exact ⟨s.seed (P.unit t a), by simp [setPc, e]⟩
          · cases hu
        · exact ⟨u, by simp only [setPc, if_neg e]; exact hu⟩
    · -- the number is stored
      rename_i a id hp
      obtain rfl := Option.some.inj h
      obtain ⟨hb, i, hg, hid⟩ := hi.publish t a id hp
      refine ⟨g, ⟨hi.nodup, hi.below, hi.seed, ?_, ?_, ?_, ?_, ?_, ?_, ?_, ?_⟩⟩
      · intro b h
        simp only [setPc, setCell] at h
        split at h
        · cases h
        · exact hi.unset b h
      · intro b j h
        simp only [setPc, setCell] at h
        split at h
        · rename_i e
          cases h
          exact ⟨i, by rw [e]; exact hg, hid⟩
        · exact hi.set b j h
      · intro u b hu
        simp only [setPc, setCell] at hu
        split at hu
        · cases hu
        · exact hi.enter u b hu
      · intro u b hu
        simp only [setPc, setCell] at hu ⊢
        split at hu
        · cases hu
        · rename_i hne
          obtain ⟨h1, h2, h3⟩ := hi.count u b hu
          rw [if_neg (fun e : b = a => hne (hi.one u t a (.inl (e ▸ hu)) (.inr ⟨id, hp⟩)))]
          exact ⟨h1, h2, h3⟩
      · intro u b j hu
        simp only [setPc, setCell] at hu ⊢
        split at hu
        · cases hu
        · rename_i hne
          rw [if_neg (fun e : b = a => hne (hi.one u t a (.inr ⟨j, e ▸ hu⟩) (.inr ⟨id, hp⟩)))]
          exact hi.publish u b j hu
      · intro u v b hu hv
        simp only [setPc, setCell] at hu hv
        split at hu
        · rcases hu with hu | ⟨_, hu⟩ <;> cases hu
        · split at hv
          · rcases hv with hv | ⟨_, hv⟩ <;> cases hv
          · exact hi.one u v b hu hv
      · intro b h
        simp only [setPc, setCell] at h ⊢
        split at h
        · cases h
        · rename_i hba
          obtain ⟨u, hu⟩ := hi.holder b h
          refine ⟨u, ?_⟩
          have hne : u ≠ t := fun e => by
            rw [e, hp] at hu
            rcases hu with hu | ⟨_, hu⟩
            · cases hu
            · cases hu; exact hba rfl
          rw [if_neg hne]
          exact hu
      · intro b j h
        simp only [setPc, setCell]
        rcases List.mem_append.1 h with h | h
        · have h1 := hi.returned b j h
          rw [if_neg (fun e => by rw [e, hb] at h1; cases h1)]
          exact h1
        · cases List.mem_singleton.1 h
          simp

theorem inv_run {P : Program} (hu0 : ∀ t a, P.unit t a = 0) {n : Nat} : ∀ (ms : List Move) (s : St) (g : List Nat), Inv P n s g → Types n ms →
    ∃ g', Inv P n (run P s ms) g'
  | [], _, g, h, _ => ⟨g, h⟩
  | m :: ms, s, g, h, ht => by
    simp only [run]
    cases e : step P s m with
    | none => exact inv_run hu0 ms s g h (fun t a hm => ht t a (List.mem_cons_of_mem _ hm))
    | some s' =>
      obtain ⟨g', h'⟩ := inv_step hu0 h m (fun t a e' => ht t a (by rw [e']; exact List.mem_cons_self)) e
      exact inv_run hu0 ms s' g' h' (fun t a hm => ht t a (List.mem_cons_of_mem _ hm))

theorem nodup_length {n : Nat} (g : List Nat) (hn : g.Nodup) (hb : ∀ a ∈ g, a < n) : g.length ≤ n := by
  have h := hn.length_le_of_subset (l₂ := List.range n) (fun a ha => List.mem_range.2 (hb a ha))
  rwa [List.length_range] at h

/-! ## Lemmas on the length of calls -/

/-- The steps a call has still to make, at most. -/
def left : Pc → Nat
  | .idle => 0
  | .enter _ => 3
  | .count _ => 2
  | .publish _ _ => 1

/-- The steps the first `T` threads have still to make. -/
def total (pc : Nat → Pc) : Nat → Nat
  | 0 => 0
  | T + 1 => total pc T + left (pc T)

theorem total_out (pc : Nat → Pc) (t : Nat) (p : Pc) (T : Nat) (h : T ≤ t) : total (fun u => if u = t then p else pc u) T = total pc T := by
  induction T with
  | zero => rfl
  | succ T ih =>
    have e : ¬ T = t := by omega
    simp only [total, ih (by omega), e, if_false]

theorem total_set (pc : Nat → Pc) (t : Nat) (p : Pc) (T : Nat) (h : t < T) :
    total (fun u => if u = t then p else pc u) T + left (pc t) = total pc T + left p := by
  induction T with
  | zero => omega
  | succ T ih =>
    simp only [total]
    by_cases e : T = t
    · subst e
      simp only [total_out pc T p T (Nat.le_refl _), if_true]
      omega
    · have := ih (by omega)
      simp only [e, if_false]
      omega

def threadOf : Move → Nat
  | .call t _ => t
  | .go t => t

def goes : Move → Nat
  | .go _ => 1
  | .call _ _ => 0

def begins : Move → Nat
  | .go _ => 0
  | .call _ _ => 1

/-- The number of steps made in a schedule, apart from beginning a call. -/
def stepsMade (P : Program) (s : St) : List Move → Nat
  | [] => 0
  | m :: ms =>
    match step P s m with
    | none => stepsMade P s ms
    | some s' => goes m + stepsMade P s' ms

/-- The number of calls begun in a schedule. -/
def callsBegun (P : Program) (s : St) : List Move → Nat
  | [] => 0
  | m :: ms =>
    match step P s m with
    | none => callsBegun P s ms
    | some s' => begins m + callsBegun P s' ms

theorem step_total (P : Program) (T : Nat) (s s' : St) (m : Move) (hm : threadOf m < T) (h : step P s m = some s') :
    goes m + total s'.pc T ≤ total s.pc T + 3 * begins m := by
  cases m with
  | call t a =>
    have hs := total_set s.pc t (.enter a) T hm
    simp only [step] at h
    cases e : s.pc t with
    | idle =>
      rw [e] at h hs
      cases h
      simp only [setPc, goes, begins]
      simp only [left] at hs
      omega
    | _ => rw [e] at h; cases h
  | go t =>
    have hs := fun p => total_set s.pc t p T hm
    simp only [step] at h
    cases e : s.pc t with
    | idle => rw [e] at h; cases h
    | enter a =>
      rw [e] at h hs
      simp only at h
      cases c : s.cell a with
      | busy => rw [c] at h; cases h
      | unset =>
        rw [c] at h
        cases h
        have := hs (.count a)
        simp only [left] at this
        simp only [setPc, setCell, goes, begins]
        omega
      | set id =>
        rw [c] at h
        cases h
        have := hs .idle
        simp only [left] at this
        simp only [setPc, goes, begins]
        omega
    | count a =>
      rw [e] at h hs
      cases h
      have := hs (.publish a (s.seed (P.unit t a)))
      simp only [left] at this
      simp only [setPc, goes, begins]
      omega
    | publish a id =>
      rw [e] at h hs
      cases h
      have := hs .idle
      simp only [left] at this
      simp only [setPc, setCell, goes, begins]
      omega

theorem run_total (P : Program) (T : Nat) : ∀ (ms : List Move) (s : St), (∀ m ∈ ms, threadOf m < T) →
    stepsMade P s ms + total (run P s ms).pc T ≤ total s.pc T + 3 * callsBegun P s ms := by
  intro ms
  induction ms with
  | nil => intro s _; simp [stepsMade, callsBegun, run]
  | cons m ms ih =>
    intro s hT
    have hT' : ∀ m ∈ ms, threadOf m < T := fun m hm => hT m (List.mem_cons_of_mem _ hm)
    simp only [stepsMade, callsBegun, run]
    cases e : step P s m with
    | none => exact ih s hT'
    | some s' =>
      have h1 := step_total P T s s' m (hT m List.mem_cons_self) e
      have h2 := ih s' hT'
      simp only [Option.getD_some]
      omega

theorem total_init (P : Program) (T : Nat) : total (init P).pc T = 0 := by
  induction T with
  | zero => rfl
  | succ T ih => simp only [total, ih]; rfl

theorem threads_bounded (ms : List Move) : ∃ T, ∀ m ∈ ms, threadOf m < T := by
  induction ms with
  | nil => exact ⟨0, fun m h => absurd h List.not_mem_nil⟩
  | cons m ms ih =>
    obtain ⟨T, hT⟩ := ih
    refine ⟨max T (threadOf m + 1), fun x hx => ?_⟩
    rcases List.mem_cons.1 hx with e | hx
    · rw [e]; omega
    · have := hT x hx; omega

/-! ## Lemmas on what calls return -/

/-- The types whose calls end in a schedule, in order. `want t` is the type thread `t` has called for last. -/
def endedCalls (P : Program) (want : Nat → Nat) (s : St) : List Move → List Nat
  | [] => []
  | m :: ms =>
    match step P s m with
    | none => endedCalls P want s ms
    | some s' =>
      match m with
      | .call t a => endedCalls P (fun u => if u = t then a else want u) s' ms
      | .go t => if s'.pc t = .idle then want t :: endedCalls P want s' ms else endedCalls P want s' ms

/-- The type a thread is in a call for. -/
def inCall : Pc → Option Nat
  | .idle => none
  | .enter a => some a
  | .count a => some a
  | .publish a _ => some a

def Wanted (want : Nat → Nat) (s : St) : Prop := ∀ t a, inCall (s.pc t) = some a → want t = a

theorem returned_run (P : Program) : ∀ (ms : List Move) (want : Nat → Nat) (s : St), Wanted want s →
    (run P s ms).returned.map (·.1) = s.returned.map (·.1) ++ endedCalls P want s ms := by
  intro ms
  induction ms with
  | nil => intro want s _; simp [run, endedCalls]
  | cons m ms ih =>
    intro want s hw
    simp only [run, endedCalls]
    cases e : step P s m with
    | none => exact ih want s hw
    | some s' =>
      simp only [Option.getD_some]
      have set_wanted : ∀ (s1 : St) (t : Nat) (p : Pc), s1.pc = s.pc → (∀ a, inCall p = some a → want t = a) → Wanted want (setPc s1 t p) := by
        intro s1 t p h1 h2 u a h
        simp only [setPc, h1] at h
        split at h
        · rename_i eu; rw [eu]; exact h2 a h
        · exact hw u a h
      cases m with
      | call t a =>
        simp only [step] at e
        cases ep : s.pc t with
        | idle =>
          rw [ep] at e
          simp only [Option.some.injEq] at e
          subst e
          rw [ih (fun u => if u = t then a else want u)]
          · rfl
          · intro u b h
            simp only [setPc] at h
            by_cases eu : u = t
            · simp only [eu, if_true] at h ⊢; exact Option.some.inj h
            · simp only [eu, if_false] at h ⊢; exact hw u b h
        | _ => rw [ep] at e; cases e
      | go t =>
        simp only [step] at e
        cases ep : s.pc t with
        | idle => rw [ep] at e; cases e
        | enter a =>
          have hwa := hw t a (by rw [ep]; rfl)
          rw [ep] at e
          simp only at e
          cases c : s.cell a with
          | busy => rw [c] at e; cases e
          | unset =>
            rw [c] at e
            simp only [Option.some.injEq] at e
            subst e
            rw [ih want]
            · simp [setPc, setCell]
            · exact set_wanted _ t _ rfl (fun b h => hwa.trans (Option.some.inj h))
          | set id =>
            rw [c] at e
            simp only [Option.some.injEq] at e
            subst e
            rw [ih want]
            · simp [setPc, hwa]
            · exact set_wanted _ t _ rfl (fun b h => by cases h)
        | count a =>
          have hwa := hw t a (by rw [ep]; rfl)
          rw [ep] at e
          simp only [Option.some.injEq] at e
          subst e
          rw [ih want]
          · simp [setPc]
          · exact set_wanted _ t _ rfl (fun b h => hwa.trans (Option.some.inj h))
        | publish a id =>
          have hwa := hw t a (by rw [ep]; rfl)
          rw [ep] at e
          simp only [Option.some.injEq] at e
          subst e
          rw [ih want]
          · simp [setPc, setCell, hwa]
          · exact set_wanted _ t _ rfl (fun b h => by cases h)

/-! ## Property C181 -/

/-- **C181 (partial), numbers.** On any number of threads and in every schedule, in a program with at most 2³² types, all of which get their numbers
from one counter: two calls return the same number exactly when they are for the same type. This is so of `TypeID::Get` and `Context::GetTypeId`
(`type_ids`). Missing: `get_dtype` in programs of several translation units (`two_units_violated`). -/
theorem numbers_of_types_partial (P : Program) (hu : ∀ t a, P.unit t a = 0) (n : Nat) (hn : n ≤ 2 ^ 32) (ms : List Move) (ht : Types n ms)
    (a b : Nat) (x y : BitVec 32) (hx : (a, x) ∈ (run P (init P) ms).returned) (hy : (b, y) ∈ (run P (init P) ms).returned) : x = y ↔ a = b := by
  obtain ⟨g, hi⟩ := inv_run hu ms (init P) [] (inv_init P n) ht
  have h1 := hi.returned a x hx
  have h2 := hi.returned b y hy
  obtain ⟨i, i1, i2⟩ := hi.set a x h1
  obtain ⟨j, j1, j2⟩ := hi.set b y h2
  have hl := nodup_length g hi.nodup hi.below
  constructor
  · intro e
    have hil := (List.getElem?_eq_some_iff.1 i1).1
    have hjl := (List.getElem?_eq_some_iff.1 j1).1
    have e2 : BitVec.ofNat 32 i = BitVec.ofNat 32 j := by
      rw [i2, j2] at e
      exact (BitVec.add_right_inj P.start).1 e
    have e3 := congrArg BitVec.toNat e2
    rw [BitVec.toNat_ofNat, BitVec.toNat_ofNat, Nat.mod_eq_of_lt (by omega), Nat.mod_eq_of_lt (by omega)] at e3
    rw [e3, j1] at i1
    exact (Option.some.inj i1).symm
  · intro e
    rw [e, h2] at h1
    exact (Cell.set.inj h1).symm

/-- **C181** for `TypeID::Get` and `Context::GetTypeId`. -/
theorem type_ids (n : Nat) (hn : n ≤ 2 ^ 32) (ms : List Move) (ht : Types n ms) (a b : Nat) (x y : BitVec 32)
    (hx : (a, x) ∈ (run typeId (init typeId) ms).returned) (hy : (b, y) ∈ (run typeId (init typeId) ms).returned) : x = y ↔ a = b :=
  numbers_of_types_partial typeId (fun _ _ => rfl) n hn ms ht a b x y hx hy

/-- **C181, waiting ends.** In every state reached, if any thread is in a call, some thread in a call can go on. -/
theorem no_deadlock (P : Program) (hu : ∀ t a, P.unit t a = 0) (n : Nat) (ms : List Move) (ht : Types n ms) (t : Nat)
    (hp : (run P (init P) ms).pc t ≠ .idle) :
    ∃ u s', (run P (init P) ms).pc u ≠ .idle ∧ step P (run P (init P) ms) (.go u) = some s' := by
  obtain ⟨g, hi⟩ := inv_run hu ms (init P) [] (inv_init P n) ht
  generalize run P (init P) ms = s at *
  have hold : ∀ u a, (s.pc u = .count a ∨ ∃ id, s.pc u = .publish a id) → ∃ u s', s.pc u ≠ .idle ∧ step P s (.go u) = some s' := by
    intro u a hu
    rcases hu with hu | ⟨id, hu⟩
    · refine ⟨u, _, ?_, by simp only [step, hu]; rfl⟩
      rw [hu]; intro e; cases e
    · refine ⟨u, _, ?_, by simp only [step, hu]; rfl⟩
      rw [hu]; intro e; cases e
  cases e : s.pc t with
  | idle => exact absurd e hp
  | enter a =>
    cases c : s.cell a with
    | unset => exact ⟨t, _, hp, by simp only [step, e, c]; rfl⟩
    | set id => exact ⟨t, _, hp, by simp only [step, e, c]; rfl⟩
    | busy =>
      obtain ⟨u, hu⟩ := hi.holder a c
      exact hold u a hu
  | count a => exact hold t a (.inl e)
  | publish a id => exact hold t a (.inr ⟨id, e⟩)

/-- **C181, calls are short.** In every schedule, of every program, the threads together make at most three steps for every call begun. With
`no_deadlock`: if the scheduler goes on choosing threads that can move, all calls end. -/
theorem calls_are_short (P : Program) (ms : List Move) : stepsMade P (init P) ms ≤ 3 * callsBegun P (init P) ms := by
  obtain ⟨T, hT⟩ := threads_bounded ms
  have := run_total P T ms (init P) hT
  rw [total_init] at this
  omega

/-- **C181, every call returns a number.** In every schedule, of every program, the calls that end are those that return a number, each one for the type called for. -/
theorem calls_return (P : Program) (ms : List Move) :
    (run P (init P) ms).returned.map (·.1) = endedCalls P (fun _ => 0) (init P) ms := by
  rw [returned_run P ms (fun _ => 0) (init P) (fun t a h => by cases h)]
  rfl

/-- One thread calls for a type and then for another. -/
def oneAfterOther (t a b : Nat) : List Move := [.call t a, .go t, .go t, .go t, .call t b, .go t, .go t, .go t]

/-- **C181 fails of `get_dtype`.** In every program, two classes whose numbers come from the counters of different translation units: a thread that asks for
the one and then for the other gets the same number for both. -/
theorem two_units_violated (unit : Nat → Nat → Nat) (t a b : Nat) (hne : a ≠ b) (hu : unit t a ≠ unit t b) :
    (run (getDType unit) (init (getDType unit)) (oneAfterOther t a b)).returned = [(a, 64#32), (b, 64#32)] := by
  have hne' : b ≠ a := fun e => hne e.symm
  have hu' : unit t b ≠ unit t a := fun e => hu e.symm
  simp [oneAfterOther, run, step, init, setPc, setCell, getDType, hne', hu']

/-! ## Cases -/

/-- Three threads, two types; thread 1 waits for thread 0. -/
def trace : List Move :=
  [.call 0 7, .call 1 7, .call 2 3, .go 0, .go 1, .go 2, .go 2, .go 0, .go 1, .go 0, .go 1, .go 2]

example : Types 8 trace := by
  intro t a h
  simp [trace] at h
  omega

example : (run typeId (init typeId) trace).returned = [(7, 98766#32), (7, 98766#32), (3, 98765#32)] := by decide

example : (run typeId (init typeId) (trace.take 5)).pc 1 = .enter 7 ∧ step typeId (run typeId (init typeId) (trace.take 5)) (.go 1) = none := by
  constructor
  · decide
  · rfl

example : stepsMade typeId (init typeId) trace = 7 ∧ callsBegun typeId (init typeId) trace = 3 := by decide

example : endedCalls typeId (fun _ => 0) (init typeId) trace = [7, 7, 3] := by decide

/-- Two classes of two units. -/
example : (fun _ a => a : Nat → Nat → Nat) 0 1 ≠ (fun _ a => a : Nat → Nat → Nat) 0 2 := by decide

end Verif.Types.TypeIds
