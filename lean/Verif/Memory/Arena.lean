/-!
# Model of the bump arena

`/repo/rapidudf/memory/folly_arena.h` 57-245 and `folly_arena.cc` 20-63.

Simplifications: addresses and the running total of obtained bytes are natural numbers (blocks obtained
from the system fit the 64-bit address space, so they do not wrap); `sizeof(Block)` and
`sizeof(LargeBlock)` are 16 (one 8-byte link, for the large block one more 8-byte size, `alignas(16)`).
The system allocator (`new char[n]`) is the environment: each allocation request carries the
address it would return, or `none` if it would throw.
-/
namespace Verif.Memory

/-- A byte range: start and length. -/
abbrev Range := Nat × Nat

/-- 2^64 -/
def W : Nat := 18446744073709551616

/-- `sizeof(Block)` = `sizeof(LargeBlock)`, folly_arena.h 142-161. -/
def hdr : Nat := 16

/-- Constructor arguments, folly_arena.h 59-60. -/
structure Cfg where
  minBlock : Nat
  limit : Nat
  align : Nat

/-- Data members, folly_arena.h 235-244. `cur` is the position in `blocks` of `currentBlock_`
(meaningless while `blocks` is empty). -/
structure Arena where
  blocks : List Nat
  cur : Nat
  large : List Range
  ptr : Nat
  end_ : Nat
  total : Nat
  used : Nat

/-- lines 61-68 -/
def Arena.init : Arena := { blocks := [], cur := 0, large := [], ptr := 0, end_ := 0, total := 0, used := 0 }

inductive Res where
  | addr (a : Nat)
  | badAlloc
  | unit
  | ub
deriving DecidableEq

/-- Interaction with the system allocator. -/
inductive Ev where
  | got (r : Range)
  | freed (r : Range)

/-- `size_t` subtraction -/
def sub64 (a b : Nat) : Nat := (a + W - b) % W

/-- `roundUp`, lines 206-216; `none` is `bad_alloc`. `x & ~(a-1)` is `x / a * a` for a power of two
(`and_not_low` in Align.lean). -/
def roundUp (c : Cfg) (size : Nat) : Option Nat :=
  if W - 1 - (c.align - 1) < size then none else some ((size + (c.align - 1)) / c.align * c.align)

/-- `align`, line 218 -/
def alignUp (c : Cfg) (p : Nat) : Nat := (p + c.align - 1) / c.align * c.align

/-- `canReuseExistingBlock`, lines 163-173 -/
def canReuse (c : Cfg) (s : Arena) (size : Nat) : Bool :=
  if size > c.minBlock then false
  else if s.blocks.isEmpty || s.cur + 1 == s.blocks.length then false
  else true

/-- `allocateSlow`, folly_arena.cc 20-61 -/
def allocateSlow (c : Cfg) (s : Arena) (size : Nat) (mem : Option Nat) : Arena × Res × List Ev :=
  let body := max size c.minBlock
  if W - 1 - hdr < body then (s, .badAlloc, [])
  else
    let allocSize := body + hdr
    if c.limit ≠ 0 ∧ allocSize > sub64 c.limit s.total then (s, .badAlloc, [])
    else if size > c.minBlock then
      let n := hdr + size
      match mem with
      | none => (s, .badAlloc, [])
      | some m =>
        ({ s with large := s.large ++ [(m, n)], total := s.total + n }, .addr (alignUp c (m + hdr)), [.got (m, n)])
    else
      let n := hdr + c.minBlock
      match mem with
      | none => (s, .badAlloc, [])
      | some m =>
        let start := alignUp c (m + hdr)
        ({ s with blocks := s.blocks ++ [m], cur := s.blocks.length, ptr := start + size,
                  end_ := start + n - hdr, total := s.total + n }, .addr start, [.got (m, n)])

/-- `allocate`, folly_arena.h 79-106 -/
def allocate (c : Cfg) (s : Arena) (size : Nat) (mem : Option Nat) : Arena × Res × List Ev :=
  match roundUp c size with
  | none => (s, .badAlloc, [])
  | some sz =>
    let s := { s with used := (s.used + sz) % W }
    if sub64 s.end_ s.ptr ≥ sz then ({ s with ptr := s.ptr + sz }, .addr s.ptr, [])
    else if canReuse c s sz then
      match s.blocks[s.cur + 1]? with
      | none => (s, .ub, [])
      | some b =>
        let r := alignUp c (b + hdr)
        ({ s with cur := s.cur + 1, ptr := r + sz, end_ := b + hdr + (hdr + c.minBlock) - hdr }, .addr r, [])
    else allocateSlow c s sz mem

/-- `clear`, folly_arena.h 112-122 (with `freeLargeBlocks` 183-191) -/
def clear (c : Cfg) (s : Arena) : Arena × Res × List Ev :=
  let evs := s.large.map Ev.freed
  let s := { s with used := 0, total := s.total - (s.large.map (fun r : Range => r.2)).sum, large := [] }
  match s.blocks with
  | [] => (s, .unit, evs)
  | b :: _ =>
    ({ s with cur := 0, ptr := alignUp c (b + hdr), end_ := b + hdr + (hdr + c.minBlock) - hdr }, .unit, evs)

inductive Op where
  | alloc (size : Nat) (mem : Option Nat)
  | clear

def step (c : Cfg) (s : Arena) : Op → Arena × Res × List Ev
  | .alloc size mem => allocate c s size mem
  | .clear => clear c s

/-! ## Specification side: what the caller and the system see -/

def Disj (a b : Range) : Prop := a.1 + a.2 ≤ b.1 ∨ b.1 + b.2 ≤ a.1
def Inside (r b : Range) : Prop := b.1 ≤ r.1 ∧ r.1 + r.2 ≤ b.1 + b.2

/-- The arena, the ranges the system has handed out and not got back, and the ranges the caller
obtained since the last `clear` (with the size the caller asked for). -/
structure World where
  arena : Arena
  held : List Range
  live : List Range
  obtained : Nat       -- number of blocks ever requested from the system

def World.init : World := { arena := .init, held := [], live := [], obtained := 0 }

def applyEv (h : List Range) : Ev → List Range
  | .got r => r :: h
  | .freed r => h.filter (fun x => x.1 ≠ r.1)

def Ev.isGot : Ev → Bool
  | .got _ => true
  | .freed _ => false

def newLive (l : List Range) (o : Op) (r : Res) : List Range :=
  match o, r with
  | .alloc size _, .addr a => (a, size) :: l
  | .clear, _ => []
  | _, _ => l

def World.step (c : Cfg) (w : World) (o : Op) : World × Res :=
  let (s, r, evs) := Memory.step c w.arena o
  ({ arena := s, held := evs.foldl applyEv w.held, live := newLive w.live o r,
     obtained := w.obtained + (evs.filter Ev.isGot).length }, r)

/-- What is assumed of the system allocator: a block it hands out is non-null, 16-byte aligned and disjoint from
all blocks it handed out before and did not get back. -/
def Legal (c : Cfg) (w : World) (o : Op) : Prop :=
  ∀ m n, Ev.got (m, n) ∈ (Memory.step c w.arena o).2.2 →
    0 < m ∧ m % 16 = 0 ∧ m + n ≤ W ∧ ∀ b ∈ w.held, Disj (m, n) b

def LegalRun (c : Cfg) (w : World) : List Op → Prop
  | [] => True
  | o :: os => Legal c w o ∧ LegalRun c (w.step c o).1 os

def World.run (c : Cfg) (w : World) : List Op → World × List Res
  | [] => (w, [])
  | o :: os =>
    let (w', r) := w.step c o
    let (w'', rs) := World.run c w' os
    (w'', r :: rs)

/-- Configurations of the arena: the alignment is a power of two not above the alignment that the system
allocator guarantees (the default is 16). -/
structure Cfg.Valid (c : Cfg) : Prop where
  align : ∃ k, c.align = 2 ^ k ∧ k ≤ 4
  min : c.minBlock < W
  lim : c.limit < W

/-- The configuration used by `rapidudf::Arena` (`memory/arena.h` 70, defaults folly_arena.h 194-197). -/
def defaultCfg : Cfg := { minBlock := 4080, limit := 0, align := 16 }

theorem defaultCfg_valid : defaultCfg.Valid := ⟨⟨4, by decide, by decide⟩, by decide, by decide⟩

end Verif.Memory
