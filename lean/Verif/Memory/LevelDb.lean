import Verif.Memory.Arena
/-!
# LevelDB-style arena: model and property C11

`/repo/rapidudf/memory/leveldb_arena.h` 53-65 and `leveldb_arena.cc` 20-62. Addresses are natural
numbers, sizes are 64-bit (`needed` in `AllocateAligned` wraps). The system allocator is the
environment, as for the other arena; its failure (`bad_alloc`) is the result `badAlloc`.
-/
namespace Verif.Memory.LevelDb
open Verif.Memory

/-- `kBlockSize`, leveldb_arena.cc -/
def kBlockSize : Nat := 4096

/-- leveldb_arena.h 39-50. `blocks` keeps the sizes too (the destructor only needs the addresses). -/
structure State where
  ptr : Nat
  remaining : Nat
  usage : Nat

def init : State := { ptr := 0, remaining := 0, usage := 0 }

inductive Op where
  | allocate (bytes : Nat) (mem : Option Nat)
  | allocateAligned (bytes : Nat) (mem : Option Nat)

def Op.bytes : Op → Nat
  | .allocate b _ => b
  | .allocateAligned b _ => b

/-- `AllocateNewBlock`, leveldb_arena.cc 57-62 -/
def newBlock (s : State) (n : Nat) (mem : Option Nat) : Option (State × Nat × Range) :=
  mem.map (fun m => ({ s with usage := s.usage + (n + 8) }, m, (m, n)))

/-- `AllocateFallback`, leveldb_arena.cc 20-36 -/
def fallback (s : State) (bytes : Nat) (mem : Option Nat) : State × Res × List Range :=
  if bytes > kBlockSize / 4 then
    match newBlock s bytes mem with
    | none => (s, .badAlloc, [])
    | some (s', m, r) => (s', .addr m, [r])
  else
    match newBlock s kBlockSize mem with
    | none => (s, .badAlloc, [])
    | some (s', m, r) => ({ s' with ptr := m + bytes, remaining := kBlockSize - bytes }, .addr m, [r])

/-- `Allocate`, leveldb_arena.h 53-65 -/
def allocate (s : State) (bytes : Nat) (mem : Option Nat) : State × Res × List Range :=
  if bytes ≤ s.remaining then
    ({ s with ptr := s.ptr + bytes, remaining := s.remaining - bytes }, .addr s.ptr, [])
  else fallback s bytes mem

/-- `AllocateAligned`, leveldb_arena.cc 38-55 -/
def allocateAligned (s : State) (bytes : Nat) (mem : Option Nat) : State × Res × List Range :=
  let currentMod := s.ptr % 8
  let slop := if currentMod = 0 then 0 else 8 - currentMod
  let needed := (bytes + slop) % W
  if needed ≤ s.remaining then
    ({ s with ptr := s.ptr + needed, remaining := s.remaining - needed }, .addr (s.ptr + slop), [])
  else fallback s bytes mem

def step (s : State) : Op → State × Res × List Range
  | .allocate b m => allocate s b m
  | .allocateAligned b m => allocateAligned s b m

/-- The arena, the blocks it got from the system, and the ranges handed out (with a flag: aligned request). -/
structure World where
  arena : State
  held : List Range
  live : List (Range × Bool)

def World.init : World := { arena := LevelDb.init, held := [], live := [] }

def Op.isAligned : Op → Bool
  | .allocate _ _ => false
  | .allocateAligned _ _ => true

def World.step (w : World) (o : Op) : World × Res :=
  let (s, r, got) := LevelDb.step w.arena o
  ({ arena := s, held := got ++ w.held,
     live := match r with
       | .addr a => ((a, o.bytes), o.isAligned) :: w.live
       | _ => w.live }, r)

def World.run (w : World) : List Op → World × List Res
  | [] => (w, [])
  | o :: os =>
    let (w', r) := w.step o
    let (w'', rs) := World.run w' os
    (w'', r :: rs)

/-- Assumption on the system allocator, and the documented precondition `bytes > 0` (assert at leveldb_arena.h 57)
together with a size that does not wrap when the padding is added. -/
def Legal (w : World) (o : Op) : Prop :=
  0 < o.bytes ∧ o.bytes + 8 ≤ W ∧
  ∀ r ∈ (LevelDb.step w.arena o).2.2, 0 < r.1 ∧ r.1 % 16 = 0 ∧ ∀ b ∈ w.held, Disj r b

def LegalRun (w : World) : List Op → Prop
  | [] => True
  | o :: os => Legal w o ∧ LegalRun (w.step o).1 os

structure Inv (w : World) : Prop where
  heldPos : ∀ r ∈ w.held, 0 < r.2
  heldDisj : w.held.Pairwise Disj
  cur : w.arena.remaining = 0 ∨ ∃ b ∈ w.held, Inside (w.arena.ptr, w.arena.remaining) b
  usage : w.arena.usage = (w.held.map (fun r : Range => r.2 + 8)).sum
  livePos : ∀ r ∈ w.live, 0 < r.1.2
  liveIn : ∀ r ∈ w.live, ∃ b ∈ w.held, Inside r.1 b
  liveAl : ∀ r ∈ w.live, r.2 = true → r.1.1 % 8 = 0
  liveDisj : w.live.Pairwise (fun a b => Disj a.1 b.1)
  free : 0 < w.arena.remaining → ∀ r ∈ w.live, Disj r.1 (w.arena.ptr, w.arena.remaining)

theorem inv_init : Inv World.init := by
  constructor <;> simp [World.init, LevelDb.init]

/-- carving a range out of the current block -/
theorem inv_bump {w : World} (h : Inv w) (slop bytes : Nat) (al : Bool) (hpos : 0 < bytes)
    (hfit : bytes + slop ≤ w.arena.remaining) (hal : al = true → (w.arena.ptr + slop) % 8 = 0) :
    Inv { arena := { w.arena with ptr := w.arena.ptr + (bytes + slop), remaining := w.arena.remaining - (bytes + slop) },
          held := w.held, live := ((w.arena.ptr + slop, bytes), al) :: w.live } := by
  have hcur : ∃ b ∈ w.held, Inside (w.arena.ptr, w.arena.remaining) b := by
    rcases h.cur with h0 | h1
    · omega
    · exact h1
  obtain ⟨b, hb, hi⟩ := hcur
  constructor
  · exact h.heldPos
  · exact h.heldDisj
  · right; exact ⟨b, hb, by unfold Inside at *; simp at *; omega⟩
  · exact h.usage
  · intro r hr
    rcases List.mem_cons.1 hr with rfl | hr
    · exact hpos
    · exact h.livePos r hr
  · intro r hr
    rcases List.mem_cons.1 hr with rfl | hr
    · exact ⟨b, hb, by unfold Inside at *; simp at *; omega⟩
    · exact h.liveIn r hr
  · intro r hr
    rcases List.mem_cons.1 hr with rfl | hr
    · exact hal
    · exact h.liveAl r hr
  · refine List.pairwise_cons.2 ⟨?_, h.liveDisj⟩
    intro x hx
    have := h.free (by omega) x hx
    unfold Disj at *; simp at *; omega
  · intro _ r hr
    rcases List.mem_cons.1 hr with rfl | hr
    · unfold Disj; simp; omega
    · have := h.free (by omega) r hr
      unfold Disj at *; simp at *; omega

theorem fresh_live {w : World} (h : Inv w) {m n : Nat} (hfresh : ∀ b ∈ w.held, Disj (m, n) b) :
    ∀ r ∈ w.live, Disj r.1 (m, n) := by
  intro r hr
  obtain ⟨b, hb, hi⟩ := h.liveIn r hr
  have := hfresh b hb
  unfold Disj Inside at *; simp at *; omega

theorem inv_own {w : World} (h : Inv w) (bytes m : Nat) (al : Bool) (hpos : 0 < bytes) (hm : m % 16 = 0)
    (hfresh : ∀ b ∈ w.held, Disj (m, bytes) b) :
    Inv { arena := { w.arena with usage := w.arena.usage + (bytes + 8) }, held := (m, bytes) :: w.held,
          live := ((m, bytes), al) :: w.live } := by
  have hfl := fresh_live h hfresh
  constructor
  · intro r hr
    rcases List.mem_cons.1 hr with rfl | hr
    · exact hpos
    · exact h.heldPos r hr
  · exact List.pairwise_cons.2 ⟨hfresh, h.heldDisj⟩
  · rcases h.cur with h0 | ⟨b, hb, hi⟩
    · exact .inl h0
    · exact .inr ⟨b, List.mem_cons_of_mem _ hb, hi⟩
  · simp [h.usage]; omega
  · intro r hr
    rcases List.mem_cons.1 hr with rfl | hr
    · exact hpos
    · exact h.livePos r hr
  · intro r hr
    rcases List.mem_cons.1 hr with rfl | hr
    · exact ⟨_, List.mem_cons_self, by unfold Inside; simp⟩
    · obtain ⟨b, hb, hi⟩ := h.liveIn r hr
      exact ⟨b, List.mem_cons_of_mem _ hb, hi⟩
  · intro r hr
    rcases List.mem_cons.1 hr with rfl | hr
    · intro _; simp; omega
    · exact h.liveAl r hr
  · refine List.pairwise_cons.2 ⟨fun x hx => ?_, h.liveDisj⟩
    exact (hfl x hx).symm
  · intro h0 r hr
    rcases List.mem_cons.1 hr with rfl | hr
    · rcases h.cur with h1 | ⟨b, hb, hi⟩
      · simp at h0; omega
      · have := hfresh b hb
        unfold Disj Inside at *; simp at *; omega
    · exact h.free h0 r hr

theorem inv_block {w : World} (h : Inv w) (bytes m : Nat) (al : Bool) (hpos : 0 < bytes) (hb : bytes ≤ kBlockSize) (hm : m % 16 = 0)
    (hfresh : ∀ b ∈ w.held, Disj (m, kBlockSize) b) :
    Inv { arena := { ptr := m + bytes, remaining := kBlockSize - bytes, usage := w.arena.usage + (kBlockSize + 8) },
          held := (m, kBlockSize) :: w.held, live := ((m, bytes), al) :: w.live } := by
  have hfl := fresh_live h hfresh
  constructor
  · intro r hr
    rcases List.mem_cons.1 hr with rfl | hr
    · simp [kBlockSize]
    · exact h.heldPos r hr
  · exact List.pairwise_cons.2 ⟨hfresh, h.heldDisj⟩
  · right; exact ⟨_, List.mem_cons_self, by unfold Inside; simp; omega⟩
  · simp [h.usage]; omega
  · intro r hr
    rcases List.mem_cons.1 hr with rfl | hr
    · exact hpos
    · exact h.livePos r hr
  · intro r hr
    rcases List.mem_cons.1 hr with rfl | hr
    · exact ⟨_, List.mem_cons_self, by unfold Inside; simp; omega⟩
    · obtain ⟨b, hb, hi⟩ := h.liveIn r hr
      exact ⟨b, List.mem_cons_of_mem _ hb, hi⟩
  · intro r hr
    rcases List.mem_cons.1 hr with rfl | hr
    · intro _; simp; omega
    · exact h.liveAl r hr
  · refine List.pairwise_cons.2 ⟨fun x hx => ?_, h.liveDisj⟩
    have := hfl x hx
    unfold Disj at *; simp at *; omega
  · intro h0 r hr
    rcases List.mem_cons.1 hr with rfl | hr
    · unfold Disj; simp
    · have := hfl r hr
      unfold Disj at *; simp at *; omega

theorem inv_step {w : World} (h : Inv w) (o : Op) (hl : Legal w o) : Inv (w.step o).1 := by
  obtain ⟨hpos, hov, hsys⟩ := hl
  have hfb : ∀ (bytes : Nat) (mem : Option Nat) (al : Bool), 0 < bytes →
      (∀ r ∈ (fallback w.arena bytes mem).2.2, 0 < r.1 ∧ r.1 % 16 = 0 ∧ ∀ b ∈ w.held, Disj r b) →
      Inv { arena := (fallback w.arena bytes mem).1, held := (fallback w.arena bytes mem).2.2 ++ w.held,
            live := match (fallback w.arena bytes mem).2.1 with
              | .addr a => ((a, bytes), al) :: w.live
              | _ => w.live } := by
    intro bytes mem al hp hs
    unfold fallback newBlock at *
    cases mem with
    | none => split <;> exact ⟨h.heldPos, h.heldDisj, h.cur, h.usage, h.livePos, h.liveIn, h.liveAl, h.liveDisj, h.free⟩
    | some m =>
      simp only [Option.map_some] at hs ⊢
      split
      · rename_i hgt
        rw [if_pos hgt] at hs
        have := hs (m, bytes) (by simp)
        exact inv_own h bytes m al hp this.2.1 this.2.2
      · rename_i hgt
        rw [if_neg hgt] at hs
        have := hs (m, kBlockSize) (by simp)
        exact inv_block h bytes m al hp (by unfold kBlockSize at *; omega) this.2.1 this.2.2
  cases o with
  | allocate bytes mem =>
    simp only [World.step, step, allocate, Op.bytes, Op.isAligned] at *
    split
    · rename_i hfit
      have := inv_bump h 0 bytes false hpos (by omega) (by simp)
      simpa using this
    · rename_i hfit
      rw [if_neg hfit] at hsys
      exact hfb bytes mem false hpos hsys
  | allocateAligned bytes mem =>
    simp only [World.step, step, allocateAligned, Op.bytes, Op.isAligned] at *
    generalize hslop : (if w.arena.ptr % 8 = 0 then 0 else 8 - w.arena.ptr % 8) = slop at *
    have hs8 : slop < 8 ∧ (w.arena.ptr + slop) % 8 = 0 := by
      split at hslop <;> omega
    have hwrap : (bytes + slop) % W = bytes + slop := Nat.mod_eq_of_lt (by omega)
    rw [hwrap] at hsys ⊢
    split
    · rename_i hfit
      exact inv_bump h slop bytes true hpos hfit (fun _ => hs8.2)
    · rename_i hfit
      rw [if_neg hfit] at hsys
      exact hfb bytes mem true hpos hsys

theorem inv_run (ops : List Op) {w : World} (h : Inv w) (hl : LegalRun w ops) : Inv (w.run ops).1 := by
  induction ops generalizing w with
  | nil => exact h
  | cons o os ih => exact ih (inv_step h o hl.1) hl.2

/-! ## C11 -/

/-- **C11.** All ranges handed out are pairwise disjoint. -/
theorem leveldb_ranges_disjoint (ops : List Op) (hl : LegalRun .init ops) :
    (World.run .init ops).1.live.Pairwise (fun a b => Disj a.1 b.1) := (inv_run ops inv_init hl).liveDisj

/-- **C11.** Every range lies inside a block obtained from the system. -/
theorem leveldb_ranges_inside (ops : List Op) (hl : LegalRun .init ops) :
    ∀ r ∈ (World.run .init ops).1.live, ∃ b ∈ (World.run .init ops).1.held, Inside r.1 b :=
  (inv_run ops inv_init hl).liveIn

/-- **C11.** Ranges of aligned requests start at a multiple of 8. -/
theorem leveldb_aligned (ops : List Op) (hl : LegalRun .init ops) :
    ∀ r ∈ (World.run .init ops).1.live, r.2 = true → 8 ∣ r.1.1 :=
  fun r hr h => Nat.dvd_of_mod_eq_zero ((inv_run ops inv_init hl).liveAl r hr h)

/-- **C11.** The reported memory usage is the sum over the blocks of their size plus 8. -/
theorem leveldb_usage (ops : List Op) (hl : LegalRun .init ops) :
    (World.run .init ops).1.arena.usage = ((World.run .init ops).1.held.map (fun r : Range => r.2 + 8)).sum :=
  (inv_run ops inv_init hl).usage

def sampleOps : List Op := [.allocate 13 (some 4096), .allocateAligned 20 none, .allocate 2000 (some 16384), .allocateAligned 1024 (some 8192), .allocateAligned 4000 (some 32768)]

example : (World.run .init sampleOps).2 = [.addr 4096, .addr 4112, .addr 4132, .addr 6136, .addr 32768] := by decide

example : LegalRun .init sampleOps := by
  simp only [sampleOps, LegalRun, Legal]
  refine ⟨?_, ?_, ?_, ?_, ?_, trivial⟩ <;>
    simp [World.init, LevelDb.init, World.step, step, allocate, allocateAligned, fallback, newBlock, kBlockSize, Op.bytes, W, Disj]

/-- C11, limits: an aligned request of almost 2^64 bytes wraps and is handed the current position, overlapping
an earlier range. -/
theorem leveldb_aligned_overflow_violated :
    ¬ (World.run .init [.allocate 13 (some 4096), .allocateAligned (W - 1) none, .allocate 8 none]).1.live.Pairwise (fun a b => Disj a.1 b.1) := by
  have : (World.run .init [.allocate 13 (some 4096), .allocateAligned (W - 1) none, .allocate 8 none]).1.live
      = [((4111, 8), false), ((4112, W - 1), true), ((4096, 13), false)] := by decide
  rw [this]
  simp [Disj, W]

end Verif.Memory.LevelDb
