import Verif.Memory.ArenaLemmas
/-!
# C175: destructors that read memory of the context, when the context is reset

`Context::Reset` (context/context.cc 40-51) first resets the arena and then runs the cleanups of the objects the
context owns. The arena model is that of `Verif.Memory.Arena`; one thread, hence one arena.
-/
namespace Verif.Ctx.ResetOrder
open Verif.Memory

/-- What the user does with a context. The address in `alloc` is what the system allocator answers if it is asked. -/
inductive Act where
  /-- `ArenaAllocate(n)`, context.cc 34-38 -/
  | alloc (size : Nat) (mem : Option Nat)
  /-- `Own(obj)`, context.h 165-186: the destructor of `obj` reads these ranges -/
  | own (reads : List Range)
  /-- `Reset()`, context.cc 40-51; also the destructor, line 32 -/
  | reset

/-- The arena with the system it lives in, and for each owned object what its destructor reads, in the order
in which the cleanups are run. -/
structure St where
  w : World
  objs : List (List Range)

def St.init : St := { w := .init, objs := [] }

/-- Every byte of the range lies in a block that the system has handed out and not got back. -/
def readable (held : List Range) (r : Range) : Bool :=
  r.2 == 0 || held.any (fun b => decide (b.1 ≤ r.1) && decide (r.1 + r.2 ≤ b.1 + b.2))

/-- One destructor; `false` is a read of memory that was given back to the system (undefined behaviour). -/
def destroy (held : List Range) (reads : List Range) : Bool := reads.all (readable held)

/-- One action; `none` is undefined behaviour. In `reset` line 41 (the arena) comes before lines 46-49 (the
cleanups; `sweep` takes the list that `insertHead` built). Simplified: destructors only read, they neither allocate
from nor add objects to the context. -/
def step (c : Cfg) (s : St) : Act → Option St
  | .alloc size mem => some { s with w := (s.w.step c (.alloc size mem)).1 }
  | .own reads => some { s with objs := reads :: s.objs }
  | .reset =>
    let w := (s.w.step c .clear).1
    if s.objs.all (destroy w.held) then some { w := w, objs := [] } else none

def run (c : Cfg) : St → List Act → Option St
  | s, [] => some s
  | s, a :: as =>
    match step c s a with
    | none => none
    | some s' => run c s' as

/-! ## Specification side -/

/-- What the user has to keep: the destructor reads only memory the context gave out since its last reset, and what
the system allocator has to keep. -/
def Proper (c : Cfg) (s : St) : Act → Prop
  | .alloc size mem => Legal c s.w (.alloc size mem)
  | .own reads => ∀ r ∈ reads, r ∈ s.w.live
  | .reset => True

def ProperRun (c : Cfg) (s : St) : List Act → Prop
  | [] => True
  | a :: as => Proper c s a ∧ ∀ s', step c s a = some s' → ProperRun c s' as

/-- No destructor reads memory that was asked for in a piece above `n` bytes. -/
def ReadsUpTo (n : Nat) (as : List Act) : Prop :=
  ∀ reads, Act.own reads ∈ as → ∀ r ∈ reads, r.2 ≤ n

/-! ## Small pieces lie in the blocks that survive a reset -/

/-- Pieces of at most `minBlock` bytes lie in blocks that are not large. -/
def Small (c : Cfg) (w : World) : Prop :=
  ∀ r ∈ w.live, 0 < r.2 → r.2 ≤ c.minBlock → ∃ b ∈ w.arena.blocks, Inside r (b, hdr + c.minBlock)

theorem small_mono {c : Cfg} {w : World} {bs : List Nat} (h : Small c w) (hs : ∀ b ∈ w.arena.blocks, b ∈ bs)
    (r : Range) (hr : r ∈ w.live) (h0 : 0 < r.2) (h1 : r.2 ≤ c.minBlock) :
    ∃ b ∈ bs, Inside r (b, hdr + c.minBlock) := by
  obtain ⟨b, hb, hi⟩ := h r hr h0 h1
  exact ⟨b, hs b hb, hi⟩

theorem roundUp_le {c : Cfg} (hc : c.Valid) (hm : c.minBlock % c.align = 0) {size sz : Nat}
    (hr : roundUp c size = some sz) (h : size ≤ c.minBlock) : sz ≤ c.minBlock := by
  obtain ⟨h1, h2, h3, _⟩ := roundUp_spec hc hr
  rcases hc.cases with e | e | e | e | e <;> rw [e] at hm h2 h3 <;> omega

theorem small_step {c : Cfg} (hc : c.Valid) (hm : c.minBlock % c.align = 0) {w : World} (h : Inv c w)
    (hs : Small c w) (size : Nat) (mem : Option Nat) (hl : Legal c w (.alloc size mem)) :
    Small c (w.step c (.alloc size mem)).1 := by
  unfold Legal at hl
  unfold World.step Memory.step allocate at *
  cases hr : roundUp c size with
  | none => simp only [hr, newLive]; exact hs
  | some sz =>
    obtain ⟨hle, _, _, _⟩ := roundUp_spec hc hr
    simp only [hr] at hl ⊢
    split
    · rename_i hfit
      intro r hrm h0 h1
      simp only [newLive, List.mem_cons] at hrm
      rcases hrm with rfl | hrm
      · simp only at h0 h1 ⊢
        rcases h.cur with ⟨_, hp, he⟩ | ⟨b, hb, hb1, hb2, hb3⟩
        · exfalso
          simp only [hp, he, sub64] at hfit
          unfold W at hfit
          omega
        · refine ⟨b, List.mem_of_getElem? hb, ?_⟩
          have ho := h.ownedOk (b, hdr + c.minBlock) (by
            unfold owned
            exact List.mem_append_left _ (List.mem_map_of_mem (List.mem_of_getElem? hb)))
          simp only [sub64] at hfit
          unfold Inside
          simp only
          have hw : w.arena.end_ ≤ W := by simp only at ho; omega
          have : (w.arena.end_ + W - w.arena.ptr) % W = w.arena.end_ - w.arena.ptr := by
            have hh : hdr = 16 := rfl
            have : w.arena.end_ + W - w.arena.ptr = (w.arena.end_ - w.arena.ptr) + W := by omega
            rw [this, Nat.add_mod_right, Nat.mod_eq_of_lt]
            omega
          omega
      · exact hs r hrm h0 h1
    · rename_i hfit
      rw [if_neg hfit] at hl
      split
      · rename_i hre
        split
        · exact hs
        · rename_i b hb
          intro r hrm h0 h1
          simp only [newLive, List.mem_cons] at hrm
          rcases hrm with rfl | hrm
          · refine ⟨b, List.mem_of_getElem? hb, ?_⟩
            have ho := h.ownedOk (b, hdr + c.minBlock) (by
              unfold owned
              exact List.mem_append_left _ (List.mem_map_of_mem (List.mem_of_getElem? hb)))
            have ha := alignUp_of hc ho.2.1
            simp only at ha h1
            unfold Inside
            simp only [ha]
            have hh : hdr = 16 := rfl
            omega
          · exact hs r hrm h0 h1
      · rename_i hre
        rw [if_neg hre] at hl
        unfold allocateSlow at *
        simp only at hl ⊢
        split
        · exact hs
        · rename_i h1'
          rw [if_neg h1'] at hl
          split
          · exact hs
          · rename_i h2'
            rw [if_neg h2'] at hl
            split
            · rename_i h3
              cases mem with
              | none => exact hs
              | some m =>
                intro r hrm h0 h1
                simp only [newLive, List.mem_cons] at hrm
                rcases hrm with rfl | hrm
                · exfalso
                  have := roundUp_le hc hm hr h1
                  omega
                · exact hs r hrm h0 h1
            · rename_i h3
              rw [if_neg h3] at hl
              cases mem with
              | none => exact hs
              | some m =>
                intro r hrm h0 h1
                simp only [newLive, List.mem_cons] at hrm
                rcases hrm with rfl | hrm
                · refine ⟨m, by simp, ?_⟩
                  have hm16 := (hl m _ (by simp; rfl)).2.1
                  have ha := alignUp_of hc hm16
                  simp only at ha h1
                  unfold Inside
                  simp only [ha]
                  have hh : hdr = 16 := rfl
                  omega
                · exact small_mono hs (by intro b hb; simp [hb]) r hrm h0 h1

theorem clear_blocks (c : Cfg) (w : World) : (w.step c .clear).1.arena.blocks = w.arena.blocks := by
  simp only [World.step, Memory.step, clear]
  split <;> simp_all

theorem clear_live (c : Cfg) (w : World) : (w.step c .clear).1.live = [] := rfl

theorem readable_iff (held : List Range) (r : Range) :
    readable held r = true ↔ (0 < r.2 → ∃ b ∈ held, Inside r b) := by
  unfold readable Inside
  simp only [Bool.or_eq_true, beq_iff_eq, List.any_eq_true, Bool.and_eq_true, decide_eq_true_eq]
  constructor
  · rintro (h | h)
    · omega
    · exact fun _ => h
  · intro h
    by_cases h0 : r.2 = 0
    · exact .inl h0
    · exact .inr (h (by omega))

/-- A history of a context. -/
structure Good (c : Cfg) (s : St) : Prop where
  inv : Inv c s.w
  small : Small c s.w
  objs : ∀ reads ∈ s.objs, ∀ r ∈ reads, r ∈ s.w.live ∧ r.2 ≤ c.minBlock

theorem live_grows (c : Cfg) (w : World) (size : Nat) (mem : Option Nat) (r : Range) (h : r ∈ w.live) :
    r ∈ (w.step c (.alloc size mem)).1.live := by
  simp only [World.step, newLive]
  split
  · simp [h]
  · rename_i h2; cases h2
  · exact h

theorem good_step {c : Cfg} (hc : c.Valid) (hm : c.minBlock % c.align = 0) {s : St} (h : Good c s) (a : Act)
    (hp : Proper c s a) (hr : ReadsUpTo c.minBlock [a]) : ∃ s', step c s a = some s' ∧ Good c s' := by
  cases a with
  | alloc size mem =>
    refine ⟨_, rfl, (inv_step hc h.inv _ hp).1, small_step hc hm h.inv h.small size mem hp, ?_⟩
    intro reads hreads r hrm
    have := h.objs reads hreads r hrm
    exact ⟨live_grows c s.w size mem r this.1, this.2⟩
  | own reads =>
    refine ⟨_, rfl, h.inv, h.small, ?_⟩
    intro rs hrs r hrm
    simp only [List.mem_cons] at hrs
    rcases hrs with rfl | hrs
    · exact ⟨hp r hrm, hr rs (by simp) r hrm⟩
    · exact h.objs rs hrs r hrm
  | reset =>
    have hi := inv_clear hc h.inv
    have hall : s.objs.all (destroy (s.w.step c .clear).1.held) = true := by
      rw [List.all_eq_true]
      intro reads hreads
      unfold destroy
      rw [List.all_eq_true]
      intro r hrm
      rw [readable_iff]
      intro h0
      obtain ⟨hl, hsz⟩ := h.objs reads hreads r hrm
      obtain ⟨b, hb, hin⟩ := h.small r hl h0 hsz
      refine ⟨(b, hdr + c.minBlock), ?_, hin⟩
      rw [hi.heldEq]
      unfold owned
      rw [clear_blocks]
      exact List.mem_append_left _ (List.mem_map_of_mem hb)
    refine ⟨{ w := (s.w.step c .clear).1, objs := [] }, ?_, hi, ?_, by simp⟩
    · simp only [step]
      rw [if_pos hall]
    · intro r hrm
      rw [clear_live] at hrm
      cases hrm

theorem good_run {c : Cfg} (hc : c.Valid) (hm : c.minBlock % c.align = 0) (as : List Act) {s : St} (h : Good c s)
    (hp : ProperRun c s as) (hr : ReadsUpTo c.minBlock as) : ∃ s', run c s as = some s' ∧ Good c s' := by
  induction as generalizing s with
  | nil => exact ⟨s, rfl, h⟩
  | cons a as ih =>
    obtain ⟨s1, e1, g1⟩ := good_step hc hm h a hp.1 (by
      intro reads hin r hrm
      exact hr reads (by simp only [List.mem_singleton] at hin; simp [hin]) r hrm)
    obtain ⟨s2, e2, g2⟩ := ih g1 (hp.2 s1 e1) (fun reads hin => hr reads (List.mem_cons_of_mem _ hin))
    exact ⟨s2, by simp only [run, e1]; exact e2, g2⟩

/-! ## Property -/

/-- **C175**, the part that holds. In every history of a context in which the destructors of owned objects read only
memory the context gave out since its last reset, in pieces of at most 4080 bytes, no reset and no destruction of the
context reads memory that was given back. Missing: pieces above 4080 bytes, for which the claim is false
(`large_piece_violated`). -/
theorem destructors_read_partial (as : List Act) (hp : ProperRun defaultCfg .init as)
    (hr : ReadsUpTo 4080 as) : run defaultCfg .init as ≠ none := by
  obtain ⟨s, e, _⟩ := good_run (c := defaultCfg) defaultCfg_valid rfl as (s := .init)
    ⟨inv_init _, fun r hrm => absurd hrm (List.not_mem_nil), fun r hrm => absurd hrm (List.not_mem_nil)⟩ hp hr
  rw [e]
  simp

/-- The reads are really checked: after a reset, a piece in a history is still not readable if its block was given
back; here the object reads a piece above 4080 bytes. For every size above 4080 that the arena can serve at all, and
every address the system may answer with, the reset is undefined. -/
theorem large_piece_violated (n m : Nat) (h : 4080 < n) (hn : n % 16 = 0) (hm : 0 < m ∧ m % 16 = 0)
    (hw : m + (16 + n) ≤ W) :
    ProperRun defaultCfg .init [.alloc n (some m), .own [(m + 16, n)], .reset] ∧
    run defaultCfg .init [.alloc n (some m), .own [(m + 16, n)], .reset] = none := by
  have hru : roundUp defaultCfg n = some n := by
    have ha : defaultCfg.align = 16 := rfl
    have hW : W = 18446744073709551616 := rfl
    unfold roundUp
    rw [if_neg (by rw [ha]; omega), ha]
    congr 1
    omega
  have hal : alignUp defaultCfg (m + hdr) = m + 16 := alignUp_of defaultCfg_valid hm.2
  have hstep : Memory.step defaultCfg Arena.init (.alloc n (some m)) =
      ({ Arena.init with used := n % W, large := [(m, 16 + n)], total := 16 + n }, .addr (m + 16),
        [.got (m, 16 + n)]) := by
    simp only [Memory.step, allocate, hru]
    have hW : W = 18446744073709551616 := rfl
    have h1 : ¬ sub64 Arena.init.end_ Arena.init.ptr ≥ n := by
      simp only [Arena.init, sub64]
      rw [hW]
      omega
    have h2 : ∀ s : Arena, canReuse defaultCfg s n = false := by
      intro s
      unfold canReuse
      rw [if_pos (show n > defaultCfg.minBlock from h)]
    rw [if_neg (by exact h1), h2]
    unfold allocateSlow
    have h3 : max n defaultCfg.minBlock = n := Nat.max_eq_left (Nat.le_of_lt h)
    have hh : hdr = 16 := rfl
    simp only [h3]
    rw [if_neg (by simp), if_neg (by omega), if_neg (by simp [defaultCfg]),
      if_pos (show n > defaultCfg.minBlock from h), hal]
    simp [Arena.init, hh]
  have hw1 : (World.init.step defaultCfg (.alloc n (some m))).1 =
      { arena := { Arena.init with used := n % W, large := [(m, 16 + n)], total := 16 + n },
        held := [(m, 16 + n)], live := [(m + 16, n)], obtained := 1 } := by
    simp only [World.step]
    rw [show World.init.arena = Arena.init from rfl, hstep]
    rfl
  constructor
  · refine ⟨?_, ?_⟩
    · intro a b hab
      rw [show St.init.w.arena = Arena.init from rfl, hstep] at hab
      simp only [List.mem_singleton, Ev.got.injEq, Prod.mk.injEq] at hab
      obtain ⟨rfl, rfl⟩ := hab
      exact ⟨hm.1, hm.2, hw, by intro b hb; cases hb⟩
    · intro s1 e1
      simp only [step, Option.some.injEq] at e1
      subst e1
      refine ⟨?_, fun s2 e2 => ⟨trivial, fun s3 e3 => trivial⟩⟩
      intro r hrm
      rw [show St.init.w = World.init from rfl, hw1]
      exact hrm
  · simp only [run, step]
    rw [show St.init.w = World.init from rfl, hw1]
    have : ¬ n = 0 := by omega
    simp [World.step, Memory.step, clear, Arena.init, applyEv, destroy, readable, St.init, this]

/-- A history that meets the hypotheses of `destructors_read_partial`: a small piece, an object reading it, a reset,
and the same again. -/
example : ProperRun defaultCfg .init
    [.alloc 100 (some 4096), .own [(4112, 100)], .reset, .alloc 4080 none, .own [(4112, 4080)], .reset] ∧
    ReadsUpTo 4080 [.alloc 100 (some 4096), .own [(4112, 100)], .reset, .alloc 4080 none, .own [(4112, 4080)], .reset] := by
  constructor
  · refine ⟨?_, ?_⟩
    · intro a b hab
      have : (Memory.step defaultCfg St.init.w.arena (.alloc 100 (some 4096))).2.2 = [.got (4096, 4096)] := by rfl
      rw [this] at hab
      simp only [List.mem_singleton, Ev.got.injEq, Prod.mk.injEq] at hab
      obtain ⟨rfl, rfl⟩ := hab
      exact ⟨by decide, by decide, by decide, by intro b hb; cases hb⟩
    · intro s1 e1
      cases e1
      refine ⟨by intro r hr; exact hr, ?_⟩
      intro s2 e2
      cases e2
      refine ⟨trivial, ?_⟩
      intro s3 e3
      cases e3
      refine ⟨?_, ?_⟩
      · intro a b hab
        cases hab
      · intro s4 e4
        cases e4
        exact ⟨by intro r hr; exact hr, fun _ _ => ⟨trivial, fun _ _ => trivial⟩⟩
  · intro reads hin r hr
    simp only [List.mem_cons, Act.own.injEq, reduceCtorEq, List.not_mem_nil, false_or, or_false] at hin
    rcases hin with rfl | rfl <;> simp only [List.mem_singleton] at hr <;> subst hr <;> decide

end Verif.Ctx.ResetOrder
