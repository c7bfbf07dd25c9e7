import Verif.Memory.ArenaProps
/-!
# Objects of the syntax tree: C148

`AstPool`, `/repo/rapidudf/ast/ast_pool.h` 44–108, on the arena of `Verif.Memory.Arena`. A parse context has one pool; `SetSource` and `Clear` (`/repo/rapidudf/ast/context.cc` 29–36, 56–57) reset it.
-/
namespace Verif.Ast.Pool
open Verif.Memory

/-! ## Specification -/

/-- What happens to objects with a destructor: their creation in a range of memory, their destruction; and the reuse of all memory of the pool. -/
inductive Event where
  | created (id : Nat) (r : Range)
  | destroyed (id : Nat)
  | reused
  deriving DecidableEq

def made : List Event → List Nat
  | [] => []
  | .created i _ :: es => i :: made es
  | _ :: es => made es

def unmade : List Event → List Nat
  | [] => []
  | .destroyed i :: es => i :: unmade es
  | _ :: es => unmade es

/-- The objects that exist after some events. -/
def existing (es : List Event) : List Nat := (made es).filter (· ∉ unmade es)

/-! ## Model -/

/-- `destructors_`, newest last; `next` numbers the objects; `log` is what happened. -/
structure Pool where
  world : World
  destructors : List Nat
  next : Nat
  log : List Event

def Pool.init : Pool := { world := .init, destructors := [], next := 0, log := [] }

inductive Op where
  /-- `New<T>` with the size of `T`, whether `T` has a destructor, and the answer of the system allocator if it is asked. -/
  | new (size : Nat) (destructible : Bool) (mem : Option Nat)
  /-- `Allocate`, and the growth of containers with the pool's allocator. -/
  | allocate (size : Nat) (mem : Option Nat)
  | reset

/-- The operation of the arena that comes with an operation of the pool. -/
def Op.arena : Op → Memory.Op
  | .new size _ mem => .alloc size mem
  | .allocate size mem => .alloc size mem
  | .reset => .clear

/-- `New`, 57–71. If the arena throws, nothing is constructed and nothing registered. -/
def new (c : Cfg) (s : Pool) (size : Nat) (destructible : Bool) (mem : Option Nat) : Pool :=
  match s.world.step c (.alloc size mem) with
  | (w, .addr a) =>
    let id := s.next
    let s := if destructible = true then { s with world := w, next := id + 1, log := s.log ++ [.created id (a, size)] } else { s with world := w }
    if destructible = true then { s with destructors := s.destructors ++ [id] } else s
  | (w, _) => { s with world := w }

/-- The loop over the destructors from the last to the first, 76–78 and 84–86. -/
def runDestructors (s : Pool) : Pool := { s with log := s.log ++ s.destructors.reverse.map .destroyed }

/-- `Reset`, 75–81. -/
def reset (c : Cfg) (s : Pool) : Pool :=
  let s := { runDestructors s with destructors := [] }
  { s with world := (s.world.step c .clear).1, log := s.log ++ [.reused] }

/-- `~AstPool`, 83–88; the arena is destroyed after that. -/
def destroy (s : Pool) : Pool := { runDestructors s with destructors := [] }

def step (c : Cfg) (s : Pool) : Op → Pool
  | .new size d mem => new c s size d mem
  | .allocate size mem => { s with world := (s.world.step c (.alloc size mem)).1 }
  | .reset => reset c s

def run (c : Cfg) (s : Pool) : List Op → Pool
  | [] => s
  | o :: os => run c (step c s o) os

/-- Blocks from the system as assumed for the arena (C07). -/
def LegalRun (c : Cfg) (os : List Op) : Prop := Memory.LegalRun c .init (os.map Op.arena)

/-! ## Lemmas -/

theorem made_append (a b : List Event) : made (a ++ b) = made a ++ made b := by
  induction a with
  | nil => rfl
  | cons e a ih => cases e <;> simp [made, ih]

theorem unmade_append (a b : List Event) : unmade (a ++ b) = unmade a ++ unmade b := by
  induction a with
  | nil => rfl
  | cons e a ih => cases e <;> simp [unmade, ih]

theorem made_destroyed (l : List Nat) : made (l.map .destroyed) = [] := by
  induction l with
  | nil => rfl
  | cons i l ih => simpa [made] using ih

theorem unmade_destroyed (l : List Nat) : unmade (l.map .destroyed) = l := by
  induction l with
  | nil => rfl
  | cons i l ih => simp [unmade, ih]

/-- Where memory is reused no object exists. -/
def CleanReuse (es : List Event) : Prop := ∀ a b, es = a ++ .reused :: b → existing a = []

theorem clean_append {a b : List Event} (ha : CleanReuse a) (hb : .reused ∉ b) : CleanReuse (a ++ b) := by
  intro x y h
  rcases List.append_eq_append_iff.1 h with ⟨c, h1, h2⟩ | ⟨c, h1, h2⟩
  · exact absurd (h2 ▸ List.mem_append_right c List.mem_cons_self) hb
  · cases c with
    | nil =>
      simp at h2
      exact absurd (h2 ▸ List.mem_cons_self) hb
    | cons e c =>
      simp only [List.cons_append, List.cons.injEq] at h2
      exact ha x c (by rw [h1, h2.1])

/-- Invariant of the pool. -/
structure Inv (s : Pool) : Prop where
  /-- Numbers are given once. -/
  fresh : ∀ i ∈ made s.log, i < s.next
  nodupMade : (made s.log).Nodup
  nodup : (unmade s.log ++ s.destructors).Nodup
  all : ∀ i, i ∈ made s.log ↔ i ∈ unmade s.log ∨ i ∈ s.destructors
  clean : CleanReuse s.log
  /-- Existing objects lie in live memory. -/
  live : ∀ i r, .created i r ∈ s.log → i ∈ s.destructors → r ∈ s.world.live

theorem inv_init : Inv .init := by
  refine ⟨by simp [Pool.init, made], by simp [Pool.init, made], by simp [Pool.init, unmade], by simp [Pool.init, made, unmade], ?_, by simp [Pool.init]⟩
  intro a b h
  simp [Pool.init] at h

theorem created_made {es : List Event} {i : Nat} {r : Range} (h : .created i r ∈ es) : i ∈ made es := by
  induction es with
  | nil => cases h
  | cons e es ih =>
    rcases List.mem_cons.1 h with h1 | h1
    · subst h1; exact List.mem_cons_self
    · cases e <;> simp [made, ih h1]

theorem live_grow (c : Cfg) (w : World) (size : Nat) (mem : Option Nat) : ∀ r ∈ w.live, r ∈ (w.step c (.alloc size mem)).1.live := by
  intro r hr
  simp only [World.step, newLive]
  cases (Memory.step c w.arena (.alloc size mem)).2.1
  · exact List.mem_cons_of_mem _ hr
  all_goals exact hr

theorem live_new (c : Cfg) (w : World) (size : Nat) (mem : Option Nat) (a : Nat) (h : (w.step c (.alloc size mem)).2 = .addr a) :
    (a, size) ∈ (w.step c (.alloc size mem)).1.live := by
  simp only [World.step, newLive] at h ⊢
  rw [h]
  simp

theorem inv_world {s : Pool} (h : Inv s) (w : World) (hw : ∀ r ∈ s.world.live, r ∈ w.live) : Inv { s with world := w } :=
  ⟨h.fresh, h.nodupMade, h.nodup, h.all, h.clean, fun i r a b => hw r (h.live i r a b)⟩

theorem inv_new (c : Cfg) {s : Pool} (h : Inv s) (size : Nat) (d : Bool) (mem : Option Nat) : Inv (new c s size d mem) := by
  unfold new
  have hg := live_grow c s.world size mem
  split
  · next w a he =>
    rw [he] at hg
    have hn : (a, size) ∈ w.live := by have := live_new c s.world size mem a (by rw [he]); rwa [he] at this
    cases d
    · exact inv_world h w hg
    · dsimp only
      rw [if_pos rfl, if_pos rfl]
      have hnot : s.next ∉ made s.log := fun hm => absurd (h.fresh _ hm) (by omega)
      have hnu : s.next ∉ unmade s.log := fun hm => hnot ((h.all _).2 (.inl hm))
      have hnd : s.next ∉ s.destructors := fun hm => hnot ((h.all _).2 (.inr hm))
      have hm1 : made [Event.created s.next (a, size)] = [s.next] := rfl
      have hu1 : unmade [Event.created s.next (a, size)] = [] := rfl
      constructor
      · intro i hi
        simp only [made_append, hm1, List.mem_append, List.mem_singleton] at hi
        rcases hi with hi | hi
        · have := h.fresh i hi; show i < s.next + 1; omega
        · show i < s.next + 1; omega
      · simp only [made_append, hm1]
        refine List.nodup_append.2 ⟨h.nodupMade, by simp, ?_⟩
        intro x hx y hy
        rw [List.mem_singleton.1 hy]
        exact fun e => hnot (e ▸ hx)
      · simp only [unmade_append, hu1, List.append_nil]
        rw [← List.append_assoc]
        refine List.nodup_append.2 ⟨h.nodup, by simp, ?_⟩
        intro x hx y hy
        rw [List.mem_singleton.1 hy]
        rintro rfl
        rcases List.mem_append.1 hx with hx | hx
        · exact hnu hx
        · exact hnd hx
      · intro i
        simp only [made_append, unmade_append, hm1, hu1, List.append_nil, List.mem_append, List.mem_singleton, h.all i]
        exact or_assoc
      · exact clean_append h.clean (by simp)
      · intro i r hc hd
        simp only [List.mem_append, List.mem_singleton] at hc hd
        rcases hc with hc | hc
        · have hi := created_made hc
          rcases hd with hd | hd
          · exact hg r (h.live i r hc hd)
          · exact absurd (hd ▸ hi) hnot
        · injection hc with h1 h2
          subst h2
          exact hn
  · next w r hr he =>
    have := congrArg Prod.fst he
    rw [this] at hg
    exact inv_world h w hg

theorem inv_destroy {s : Pool} (h : Inv s) : Inv (destroy s) := by
  simp only [destroy, runDestructors]
  constructor
  · simp only [made_append, made_destroyed, List.append_nil]; exact h.fresh
  · simp only [made_append, made_destroyed, List.append_nil]; exact h.nodupMade
  · simp only [unmade_append, unmade_destroyed, List.append_nil]
    exact ((List.Perm.refl _).append (List.reverse_perm _)).nodup_iff.2 h.nodup
  · intro i
    simp only [made_append, made_destroyed, unmade_append, unmade_destroyed, List.append_nil, List.mem_append, List.mem_reverse, h.all i, List.not_mem_nil, or_false]
  · exact clean_append h.clean (by simp)
  · intro i r _ hd; cases hd

theorem existing_destroyed {s : Pool} (h : Inv s) : existing (destroy s).log = [] := by
  unfold existing
  rw [List.filter_eq_nil_iff]
  intro i hi
  have := (inv_destroy h).all i
  simp only [destroy, runDestructors, List.not_mem_nil, or_false] at this hi ⊢
  exact fun h => of_decide_eq_true h (this.1 hi)

theorem inv_reset (c : Cfg) {s : Pool} (h : Inv s) : Inv (reset c s) := by
  have h1 := inv_destroy h
  have h2 := existing_destroyed h
  have e : reset c s = { destroy s with world := (s.world.step c .clear).1, log := (destroy s).log ++ [.reused] } := rfl
  rw [e]
  have hm : made [Event.reused] = [] := rfl
  have hu : unmade [Event.reused] = [] := rfl
  constructor
  · simp only [made_append, hm, List.append_nil]; exact h1.fresh
  · simp only [made_append, hm, List.append_nil]; exact h1.nodupMade
  · simp only [unmade_append, hu, List.append_nil]; exact h1.nodup
  · intro i; simp only [made_append, unmade_append, hm, hu, List.append_nil]; exact h1.all i
  · intro a b hab
    rcases List.append_eq_append_iff.1 hab with ⟨x, hx, hy⟩ | ⟨x, hx, hy⟩
    · cases x with
      | nil => rw [hx, List.append_nil]; exact h2
      | cons q x => simp at hy
    · cases x with
      | nil => rw [List.append_nil] at hx; rw [← hx]; exact h2
      | cons q x => simp only [List.cons_append, List.cons.injEq] at hy; exact h1.clean a x (by rw [hx, hy.1])
  · intro i r _ hd; simp [destroy] at hd

theorem inv_step (c : Cfg) {s : Pool} (h : Inv s) (o : Op) : Inv (step c s o) := by
  cases o with
  | new size d mem => exact inv_new c h size d mem
  | allocate size mem => exact inv_world h _ (live_grow c s.world size mem)
  | reset => exact inv_reset c h

theorem inv_run (c : Cfg) (os : List Op) : ∀ {s : Pool}, Inv s → Inv (run c s os) := by
  induction os with
  | nil => exact fun h => h
  | cons o os ih => exact fun h => ih (inv_step c h o)

theorem world_step (c : Cfg) (s : Pool) (o : Op) : (step c s o).world = (s.world.step c o.arena).1 := by
  cases o with
  | new size d mem =>
    simp only [step, new, Op.arena]
    split
    · next w a he => rw [he]; split <;> rfl
    · next w r _ he => rw [show w = (s.world.step c (.alloc size mem)).1 by rw [he]]
  | allocate size mem => rfl
  | reset => rfl

theorem world_run (c : Cfg) (os : List Op) : ∀ s : Pool, (run c s os).world = (World.run c s.world (os.map Op.arena)).1 := by
  induction os with
  | nil => exact fun _ => rfl
  | cons o os ih => intro s; simp only [run, List.map_cons, World.run]; rw [ih, world_step]

/-- Objects that are not destroyed are those with a registered destructor. -/
theorem existing_iff {s : Pool} (h : Inv s) (i : Nat) : i ∈ existing s.log ↔ i ∈ s.destructors := by
  unfold existing
  rw [List.mem_filter, decide_eq_true_iff, h.all i]
  constructor
  · rintro ⟨h1 | h1, h2⟩
    · exact absurd h1 h2
    · exact h1
  · intro hd
    exact ⟨.inr hd, fun hu => (List.nodup_append.1 h.nodup).2.2 i hu i hd rfl⟩

/-! ## C148 -/

/-- **C148.** When the pool is destroyed, every object with a destructor has been destroyed, once. -/
theorem destroyed_exactly_once (c : Cfg) (os : List Op) : (unmade (destroy (run c .init os)).log).Nodup ∧ (unmade (destroy (run c .init os)).log).Perm (made (destroy (run c .init os)).log) := by
  have h := inv_destroy (inv_run c os inv_init)
  have hn : (unmade (destroy (run c .init os)).log).Nodup := (List.nodup_append.1 h.nodup).1
  refine ⟨hn, (List.perm_ext_iff_of_nodup hn h.nodupMade).2 fun i => ?_⟩
  rw [h.all i]
  simp [destroy]

/-- **C148.** The memory of the pool is reused only when no object exists in it. -/
theorem no_reuse_before_destruction (c : Cfg) (os : List Op) (a b : List Event) (h : (destroy (run c .init os)).log = a ++ .reused :: b) : existing a = [] :=
  (inv_destroy (inv_run c os inv_init)).clean a b h

/-- **C148.** Objects that exist have memory of their own: they lie in ranges the arena has given out and not taken back, and these do not overlap. -/
theorem existing_objects_have_memory {c : Cfg} (hc : c.Valid) (os : List Op) (hl : LegalRun c os) (i : Nat) (r : Range) (hi : i ∈ existing (run c .init os).log) (hr : .created i r ∈ (run c .init os).log) :
    r ∈ (World.run c .init (os.map Op.arena)).1.live ∧ (World.run c .init (os.map Op.arena)).1.live.Pairwise (fun a b => 0 < a.2 → 0 < b.2 → Disj a b) := by
  have h := inv_run c os inv_init
  have := h.live i r hr ((existing_iff h i).1 hi)
  rw [world_run] at this
  exact ⟨this, arena_ranges_disjoint hc _ hl⟩

/-- **C148.** A reset destroys the objects that exist from the newest to the oldest, then reuses the memory. -/
theorem reverse_order (c : Cfg) (os : List Op) : (run c .init (os ++ [.reset])).log = (run c .init os).log ++ (existing (run c .init os).log).reverse.map .destroyed ++ [.reused] := by
  have hrun : ∀ (os : List Op) (s : Pool), run c s (os ++ [.reset]) = reset c (run c s os) := by
    intro os
    induction os with
    | nil => exact fun _ => rfl
    | cons o os ih => exact fun s => ih (step c s o)
  have hd : ∀ (os : List Op) (s : Pool), Inv s → existing s.log = s.destructors → existing (run c s os).log = (run c s os).destructors := by
    intro os
    induction os with
    | nil => exact fun _ _ h => h
    | cons o os ih =>
      intro s hs he
      refine ih (step c s o) (inv_step c hs o) ?_
      cases o with
      | new size d mem =>
        have hi := inv_new c hs size d mem
        simp only [step, new] at hi ⊢
        split
        · next w a hw =>
          cases d
          · exact he
          · rw [hw] at hi
            dsimp only at hi ⊢
            rw [if_pos rfl, if_pos rfl]
            have hnot : s.next ∉ unmade s.log := fun hm => absurd (hs.fresh _ ((hs.all _).2 (.inl hm))) (by omega)
            unfold existing at he ⊢
            simp only [made_append, unmade_append, List.filter_append, show made [Event.created s.next (a, size)] = [s.next] from rfl, show unmade [Event.created s.next (a, size)] = [] from rfl, List.append_nil]
            rw [he]
            simp [hnot]
        · exact he
      | allocate size mem => exact he
      | reset =>
        have h2 := existing_destroyed hs
        show existing ((destroy s).log ++ [.reused]) = []
        unfold existing at h2 ⊢
        simp only [made_append, unmade_append, show made [Event.reused] = [] from rfl, show unmade [Event.reused] = [] from rfl, List.append_nil]
        exact h2
  rw [hrun, hd os .init inv_init rfl]
  rfl

/-- Two objects, a reset, a third one in the memory of the first. -/
def sample : List Op := [.new 40 true (some 4096), .allocate 8 none, .new 24 true none, .new 16 false none, .reset, .new 40 true none]

example : (destroy (run defaultCfg .init sample)).log =
    [.created 0 (4112, 40), .created 1 (4176, 24), .destroyed 1, .destroyed 0, .reused, .created 2 (4112, 40), .destroyed 2] := by decide
example : 2 ∈ existing (run defaultCfg .init sample).log ∧ Event.created 2 (4112, 40) ∈ (run defaultCfg .init sample).log := by decide
example : LegalRun defaultCfg sample := by
  simp only [LegalRun, sample, List.map, Op.arena, Memory.LegalRun, Legal]
  refine ⟨?_, ?_, ?_, ?_, ?_, ?_, trivial⟩ <;> intro m n h <;>
    simp [World.init, Arena.init, World.step, Memory.step, Memory.allocate, clear, roundUp, defaultCfg, sub64, canReuse, allocateSlow, alignUp, hdr, W, applyEv] at h ⊢
  all_goals (obtain ⟨rfl, rfl⟩ := h; simp)

end Verif.Ast.Pool
