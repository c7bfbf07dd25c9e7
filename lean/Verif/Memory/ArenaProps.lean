import Verif.Memory.Align
import Verif.Memory.ArenaLemmas
/-!
# Properties of the bump arena (C07-C10)
-/
namespace Verif.Memory

/-! ## C07 -/

/-- **C07.** In every legal history, the non-empty ranges handed out since the last `clear` are pairwise
disjoint. -/
theorem arena_ranges_disjoint {c : Cfg} (hc : c.Valid) (ops : List Op) (hl : LegalRun c .init ops) :
    (World.run c .init ops).1.live.Pairwise (fun a b => 0 < a.2 → 0 < b.2 → Disj a b) :=
  (inv_run hc ops (inv_init c) hl).1.liveDisj

/-- **C07.** Every range handed out starts at a multiple of the configured alignment. -/
theorem arena_ranges_aligned {c : Cfg} (hc : c.Valid) (ops : List Op) (hl : LegalRun c .init ops) :
    ∀ r ∈ (World.run c .init ops).1.live, c.align ∣ r.1 :=
  fun r hr => Nat.dvd_of_mod_eq_zero ((inv_run hc ops (inv_init c) hl).1.liveAl r hr)

/-- **C07.** Every non-empty range handed out lies inside one block that the system gave to the arena and that
has not been given back, behind the block's header. -/
theorem arena_ranges_inside {c : Cfg} (hc : c.Valid) (ops : List Op) (hl : LegalRun c .init ops) :
    ∀ r ∈ (World.run c .init ops).1.live, 0 < r.2 →
      ∃ b ∈ (World.run c .init ops).1.held, Inside r (b.1 + hdr, b.2 - hdr) := by
  intro r hr hpos
  have h := (inv_run hc ops (inv_init c) hl).1
  obtain ⟨b, hb, hi⟩ := h.liveIn r hr hpos
  exact ⟨b, (h.heldEq b).2 hb, hi⟩

/-- **C07.** No legal history makes the arena step past its block list. -/
theorem arena_no_undefined_behaviour {c : Cfg} (hc : c.Valid) (ops : List Op) (hl : LegalRun c .init ops) :
    Res.ub ∉ (World.run c .init ops).2 :=
  (inv_run hc ops (inv_init c) hl).2

/-- A history touching all paths: block, bump, large block, second block, clear, reuse. -/
def sampleOps : List Op :=
  [.alloc 100 (some 4096), .alloc 5 none, .alloc 5000 (some 16384), .alloc 4000 (some 8192), .clear, .alloc 4080 none, .alloc 16 none]

example : (World.run defaultCfg .init sampleOps).2 =
    [.addr 4112, .addr 4224, .addr 16400, .addr 8208, .unit, .addr 4112, .addr 8208] := by decide

example : LegalRun defaultCfg .init sampleOps := by
  simp only [sampleOps, LegalRun, Legal]
  refine ⟨?_, ?_, ?_, ?_, ?_, ?_, ?_, trivial⟩ <;> intro m n h <;>
    simp [World.init, Arena.init, World.step, step, allocate, clear, roundUp, defaultCfg, sub64, canReuse, allocateSlow, alignUp, hdr, W, applyEv] at h ⊢
  all_goals (obtain ⟨rfl, rfl⟩ := h; simp [Disj])

/-- C07, limits: with an alignment of 64 (above what `new char[]` guarantees) a range leaves its block. -/
theorem arena_over_aligned_violated :
    (World.run { minBlock := 64, limit := 0, align := 64 } .init [.alloc 64 (some 16)]).1.live = [(64, 64)]
    ∧ (World.run { minBlock := 64, limit := 0, align := 64 } .init [.alloc 64 (some 16)]).1.held = [(16, 80)]
    ∧ ¬ Inside (64, 64) (16, 80) := by
  refine ⟨by decide, by decide, ?_⟩
  unfold Inside; simp

/-! ## C08 -/

/-- Sum of the sizes handed out, each rounded up to the alignment. -/
def roundedSum (align : Nat) (l : List Range) : Nat := (l.map (fun r => (r.2 + align - 1) / align * align)).sum

theorem arena_bytes_step {c : Cfg} (hc : c.Valid) (w : World) (o : Op) (h : w.arena.used = roundedSum c.align w.live % W)
    (hok : (w.step c o).2 ≠ .badAlloc) (hub : (w.step c o).2 ≠ .ub) :
    (w.step c o).1.arena.used = roundedSum c.align (w.step c o).1.live % W := by
  cases o with
  | clear =>
    simp only [World.step, step, clear, newLive, roundedSum]
    split <;> simp
  | alloc size mem =>
    have key : ∀ sz a, roundUp c size = some sz →
        (w.arena.used + sz) % W = roundedSum c.align ((a, size) :: w.live) % W := by
      intro sz a hr
      have : sz = (size + c.align - 1) / c.align * c.align := by
        unfold roundUp at hr
        split at hr
        · simp at hr
        · simp only [Option.some.injEq] at hr
          rw [← hr]
          congr 2
          rcases hc.cases with e | e | e | e | e <;> omega
      rw [h, this]
      simp only [roundedSum, List.map_cons, List.sum_cons]
      rw [Nat.mod_add_mod, Nat.add_comm]
    unfold World.step step allocate at *
    cases hr : roundUp c size with
    | none => simp [hr] at hok
    | some sz =>
      simp only [hr] at hok hub ⊢
      split
      · exact key sz _ hr
      · rename_i h1
        rw [if_neg h1] at hok hub
        split
        · rename_i h2
          rw [if_pos h2] at hok hub
          split
          · rename_i h3; simp [h3] at hub
          · exact key sz _ hr
        · rename_i h2
          rw [if_neg h2] at hok
          unfold allocateSlow at *
          simp only at hok ⊢
          split
          · rename_i h3; simp [h3] at hok
          · rename_i h3
            rw [if_neg h3] at hok
            split
            · rename_i h4; simp [h4] at hok
            · rename_i h4
              rw [if_neg h4] at hok
              split
              · rename_i h5
                rw [if_pos h5] at hok
                cases mem with
                | none => simp at hok
                | some m => exact key sz _ hr
              · rename_i h5
                rw [if_neg h5] at hok
                cases mem with
                | none => simp at hok
                | some m => exact key sz _ hr

/-- **C08.** If no allocation of the history failed, the reported number of used bytes is the sum of the
rounded sizes handed out since the last `clear` (as a 64-bit number). -/
theorem arena_bytes_used_exact {c : Cfg} (hc : c.Valid) (ops : List Op) (hl : LegalRun c .init ops)
    (hok : Res.badAlloc ∉ (World.run c .init ops).2) :
    (World.run c .init ops).1.arena.used = roundedSum c.align (World.run c .init ops).1.live % W := by
  suffices h : ∀ (ops : List Op) (w : World), Inv c w → LegalRun c w ops → Res.badAlloc ∉ (World.run c w ops).2 →
      w.arena.used = roundedSum c.align w.live % W →
      (World.run c w ops).1.arena.used = roundedSum c.align (World.run c w ops).1.live % W from
    h ops _ (inv_init c) hl hok (by simp [World.init, Arena.init, roundedSum])
  intro ops
  induction ops with
  | nil => intro w _ _ _ h; exact h
  | cons o os ih =>
    intro w hi hl hok h
    simp only [World.run, List.mem_cons, not_or] at hok
    have h1 := inv_step hc hi o hl.1
    exact ih _ h1.1 hl.2 hok.2 (arena_bytes_step hc w o h (fun e => hok.1 e.symm) h1.2)

example : (World.run defaultCfg .init sampleOps).1.arena.used = 4096 ∧ Res.badAlloc ∉ (World.run defaultCfg .init sampleOps).2 := by
  decide

/-- C08, limits: a failed allocation is counted as used. -/
theorem arena_failed_allocation_counted_violated :
    (World.run { minBlock := 64, limit := 50, align := 16 } .init [.alloc 30 none]).2 = [.badAlloc]
    ∧ (World.run { minBlock := 64, limit := 50, align := 16 } .init [.alloc 30 none]).1.arena.used = 32
    ∧ (World.run { minBlock := 64, limit := 50, align := 16 } .init [.alloc 30 none]).1.live = [] := by decide

/-! ## C09 -/

/-- **C09.** The memory held from the system never exceeds a non-zero limit. -/
theorem arena_limit_respected {c : Cfg} (hc : c.Valid) (hlim : c.limit ≠ 0) (ops : List Op) (hl : LegalRun c .init ops) :
    ((World.run c .init ops).1.held.map (fun r : Range => r.2)).sum ≤ c.limit := by
  have h := (inv_run hc ops (inv_init c) hl).1
  have h1 := h.lim hlim
  have h2 : ((World.run c .init ops).1.held.map (fun r : Range => r.2)).sum = (World.run c .init ops).1.arena.total := by
    rw [h.total]; exact (h.heldPerm.map _).sum_nat
  omega

/-- **C09.** A failed allocation changes nothing but the used-bytes counter: all earlier ranges, the blocks and the
free space stay as they were. -/
theorem arena_failed_allocation_keeps_state (c : Cfg) (w : World) (size : Nat) (mem : Option Nat)
    (hf : (w.step c (.alloc size mem)).2 = .badAlloc) :
    ∃ u, (w.step c (.alloc size mem)).1 = { w with arena := { w.arena with used := u } } := by
  unfold World.step step allocate at *
  cases hr : roundUp c size with
  | none => exact ⟨w.arena.used, by simp [hr, newLive]⟩
  | some sz =>
    simp only [hr] at hf ⊢
    refine ⟨(w.arena.used + sz) % W, ?_⟩
    split
    · rename_i h1; simp [h1] at hf
    · rename_i h1
      rw [if_neg h1] at hf
      split
      · rename_i h2
        rw [if_pos h2] at hf
        split
        · rename_i h3; simp [h3] at hf
        · rename_i h3; simp [h3] at hf
      · rename_i h2
        rw [if_neg h2] at hf
        unfold allocateSlow at *
        simp only at hf ⊢
        split
        · simp [newLive]
        · rename_i h3
          rw [if_neg h3] at hf
          split
          · simp [newLive]
          · rename_i h4
            rw [if_neg h4] at hf
            split
            · rename_i h5
              rw [if_pos h5] at hf
              cases mem with
              | none => simp [newLive]
              | some m => simp at hf
            · rename_i h5
              rw [if_neg h5] at hf
              cases mem with
              | none => simp [newLive]
              | some m => simp at hf

/-- **C09.** An allocation fails only for one of these reasons: the size is within a block of 2^64, the system refuses,
or the limit would be exceeded by the block it needs. -/
theorem arena_failure_reasons {c : Cfg} (hc : c.Valid) (ops : List Op) (hl : LegalRun c .init ops) (size : Nat) (mem : Option Nat)
    (hf : ((World.run c .init ops).1.step c (.alloc size mem)).2 = .badAlloc) :
    W ≤ max size c.minBlock + 32 ∨ mem = none ∨
      (c.limit ≠ 0 ∧ c.limit < ((World.run c .init ops).1.held.map (fun r : Range => r.2)).sum
        + hdr + max ((size + c.align - 1) / c.align * c.align) c.minBlock) := by
  have h := (inv_run hc ops (inv_init c) hl).1
  have h2 : ((World.run c .init ops).1.held.map (fun r : Range => r.2)).sum = (World.run c .init ops).1.arena.total := by
    rw [h.total]; exact (h.heldPerm.map _).sum_nat
  rw [h2]
  generalize (World.run c .init ops).1 = w at *
  unfold World.step step allocate at hf
  cases hr : roundUp c size with
  | none =>
    left
    unfold roundUp at hr
    split at hr
    · rcases hc.cases with e | e | e | e | e <;> unfold W at * <;> omega
    · simp at hr
  | some sz =>
    have hsz : sz = (size + c.align - 1) / c.align * c.align := by
      unfold roundUp at hr
      split at hr
      · simp at hr
      · simp only [Option.some.injEq] at hr
        rw [← hr]; congr 2
        rcases hc.cases with e | e | e | e | e <;> omega
    have hrs := roundUp_spec hc hr
    rw [← hsz]
    simp only [hr] at hf
    split at hf
    · simp at hf
    · split at hf
      · split at hf <;> simp at hf
      · unfold allocateSlow at hf
        simp only at hf
        split at hf
        · rename_i h3
          left
          have : c.align ≤ 16 := by rcases hc.cases with e | e | e | e | e <;> omega
          unfold hdr W at *
          omega
        · split at hf
          · rename_i h4
            right; right
            have := h.lim h4.1
            have hlt := hc.lim
            rw [sub64_of_le this (by omega) (by omega)] at h4
            exact ⟨h4.1, by omega⟩
          · right; left
            split at hf <;> cases mem <;> simp at hf ⊢

example : LegalRun { minBlock := 64, limit := 100, align := 16 } .init [.alloc 30 (some 4096), .alloc 60 (some 8192)] := by
  simp only [LegalRun, Legal]
  refine ⟨?_, ?_, trivial⟩ <;> intro m n h <;>
    simp [World.init, Arena.init, World.step, step, allocate, clear, roundUp, sub64, canReuse, allocateSlow, alignUp, hdr, W, applyEv] at h ⊢
  omega

/-! ## C10 -/

def allocs (sizes : List Nat) (mems : List (Option Nat)) : List Op := List.zipWith Op.alloc sizes mems

/-- The two arenas are at the same position of their block sequences (`a` may still lack its first block). -/
def SamePos (c : Cfg) (a b : Arena) : Prop :=
  (a.blocks = [] ∧ a.ptr = 0 ∧ a.end_ = 0 ∧
    (b.blocks = [] ∧ b.ptr = 0 ∧ b.end_ = 0 ∨ ∃ y, b.blocks[0]? = some y ∧ b.cur = 0 ∧ b.ptr = y + 16 ∧ b.end_ = y + 16 + c.minBlock)) ∨
  (∃ x y, a.blocks[a.cur]? = some x ∧ b.blocks[b.cur]? = some y ∧ a.cur = b.cur ∧ a.ptr + y = b.ptr + x ∧
    a.end_ = x + 16 + c.minBlock ∧ b.end_ = y + 16 + c.minBlock)

theorem allocate_blocks_mono (c : Cfg) (s : Arena) (size : Nat) (mem : Option Nat) :
    s.blocks.length ≤ (allocate c s size mem).1.blocks.length := by
  unfold allocate
  split
  · simp
  · simp only
    split
    · simp
    · split
      · split <;> simp
      · unfold allocateSlow
        simp only
        split
        · simp
        · split
          · simp
          · split <;> cases mem <;> simp

theorem reuse_step {c : Cfg} (hc : c.Valid) {wa wb : World} (ha : Inv c wa) (hb : Inv c wb)
    (hs : SamePos c wa.arena wb.arena) (size : Nat) (hsmall : ∀ sz, roundUp c size = some sz → sz ≤ c.minBlock)
    (mem mem' : Option Nat) (hl : Legal c wa (.alloc size mem)) (hok : (wa.step c (.alloc size mem)).2 ≠ .badAlloc)
    (hlen : (wa.step c (.alloc size mem)).1.arena.blocks.length ≤ wb.arena.blocks.length) :
    (step c wb.arena (.alloc size mem')).2.2 = [] ∧ (∃ a, (wb.step c (.alloc size mem')).2 = .addr a)
    ∧ (wb.step c (.alloc size mem')).1.arena.blocks = wb.arena.blocks
    ∧ SamePos c (wa.step c (.alloc size mem)).1.arena (wb.step c (.alloc size mem')).1.arena := by
  cases hr : roundUp c size with
  | none => simp [World.step, step, allocate, hr] at hok
  | some sz =>
    have hsz := hsmall sz hr
    have hea := end_le_W ha
    have heb := end_le_W hb
    have ha' := (inv_step hc ha _ hl).1
    have hub := (inv_step hc ha _ hl).2
    -- b's fast path and reuse path
    have bfast : sz ≤ sub64 wb.arena.end_ wb.arena.ptr →
        step c wb.arena (.alloc size mem') = ({ wb.arena with used := (wb.arena.used + sz) % W, ptr := wb.arena.ptr + sz }, .addr wb.arena.ptr, []) := by
      intro h; simp [step, allocate, hr, h]
    have breuse : ∀ y, ¬ sz ≤ sub64 wb.arena.end_ wb.arena.ptr → wb.arena.blocks[wb.arena.cur + 1]? = some y →
        step c wb.arena (.alloc size mem') = ({ wb.arena with used := (wb.arena.used + sz) % W, cur := wb.arena.cur + 1, ptr := y + 16 + sz, end_ := y + 16 + c.minBlock }, .addr (y + 16), []) := by
      intro y h hy
      have hmem : y ∈ wb.arena.blocks := List.mem_of_getElem? hy
      have hok := hb.ownedOk (y, hdr + c.minBlock) (by simp [owned, hmem])
      have hre : canReuse c { wb.arena with used := (wb.arena.used + sz) % W } sz = true := by
        unfold canReuse
        rw [if_neg (by omega)]
        obtain ⟨hlt, hlast⟩ := List.getElem?_eq_some_iff.1 hy
        have h2 : wb.arena.blocks.isEmpty = false := by
          cases hbb : wb.arena.blocks with
          | nil => rw [hbb] at hlt; simp at hlt
          | cons _ _ => rfl
        have h1 : (wb.arena.cur + 1 == wb.arena.blocks.length) = false := by
          simp
          intro e
          omega
        simp [h1, h2]
      simp only [step, allocate, hr, ge_iff_le, h, if_false, hre, if_true, hy]
      rw [alignUp_of hc hok.2.1]
      simp [hdr]; omega
    have aslow : ¬ sub64 wa.arena.end_ wa.arena.ptr ≥ sz → canReuse c { wa.arena with used := (wa.arena.used + sz) % W } sz = false →
        ∃ m, step c wa.arena (.alloc size mem) = ({ wa.arena with used := (wa.arena.used + sz) % W, blocks := wa.arena.blocks ++ [m], cur := wa.arena.blocks.length, ptr := m + 16 + sz, end_ := m + 16 + c.minBlock, total := wa.arena.total + (hdr + c.minBlock) }, .addr (m + 16), [.got (m, hdr + c.minBlock)]) := by
      intro hn hnr
      unfold Legal at hl
      simp only [World.step, step, allocate, hr] at hok hl ⊢
      rw [if_neg hn, hnr] at hl hok ⊢
      simp only [Bool.false_eq_true, if_false] at hok hl ⊢
      unfold allocateSlow at hok hl ⊢
      simp only at hok hl ⊢
      split at hok
      · simp at hok
      · rename_i g1
        rw [if_neg g1] at hl ⊢
        split at hok
        · simp at hok
        · rename_i g2
          rw [if_neg g2] at hl ⊢
          rw [if_neg (by omega)] at hok hl ⊢
          cases mem with
          | none => simp at hok
          | some m =>
            simp only at hl ⊢
            have hm := hl m _ (List.mem_singleton.2 rfl)
            refine ⟨m, ?_⟩
            rw [alignUp_of hc hm.2.1]
            simp [hdr]; omega
    unfold World.step at *
    simp only at hlen ⊢
    rcases hs with ⟨h1, h2, h3, h4⟩ | ⟨x, y, hx, hy, hcur, hptr, hexa, hexb⟩
    · -- a has no block yet
      by_cases hz : sz = 0
      · have e1 : step c wa.arena (.alloc size mem) = ({ wa.arena with used := (wa.arena.used + sz) % W, ptr := wa.arena.ptr + sz }, .addr wa.arena.ptr, []) := by
          simp [step, allocate, hr, hz]
        rw [e1, bfast (by omega)]
        refine ⟨rfl, ⟨_, rfl⟩, rfl, .inl ⟨h1, by simpa [hz] using h2, h3, ?_⟩⟩
        rcases h4 with ⟨b1, b2, b3⟩ | ⟨y, hy, b1, b2, b3⟩
        · exact .inl ⟨b1, by simpa [hz] using b2, b3⟩
        · exact .inr ⟨y, hy, b1, by simpa [hz] using b2, b3⟩
      · have hn : ¬ sub64 wa.arena.end_ wa.arena.ptr ≥ sz := by
          rw [h2, h3]; simp [sub64, W]; omega
        have hnr : canReuse c { wa.arena with used := (wa.arena.used + sz) % W } sz = false := by
          unfold canReuse; rw [if_neg (by omega)]; simp [h1]
        obtain ⟨m, em⟩ := aslow hn hnr
        rw [em] at hlen ⊢
        simp only [List.length_append, List.length_singleton] at hlen
        rcases h4 with ⟨b1, b2, b3⟩ | ⟨y, hy, b1, b2, b3⟩
        · rw [b1] at hlen; simp at hlen
        · have hfit : sz ≤ sub64 wb.arena.end_ wb.arena.ptr := by
            rw [sub64_of_le (by omega) heb.1 heb.2]; omega
          rw [bfast hfit]
          refine ⟨rfl, ⟨_, rfl⟩, rfl, .inr ⟨m, y, ?_, ?_, ?_, ?_, ?_, ?_⟩⟩
          · simp
          · simp [b1, hy]
          · simp [b1, h1]
          · simp [b2]; omega
          · simp
          · exact b3
    · -- both inside a block
      have hlea : wa.arena.ptr ≤ wa.arena.end_ := by
        rcases ha.cur with ⟨_, q1, q2⟩ | ⟨b, _, q1, q2, q3⟩ <;> omega
      have hleb : wb.arena.ptr ≤ wb.arena.end_ := by
        rcases hb.cur with ⟨_, q1, q2⟩ | ⟨b, _, q1, q2, q3⟩ <;> omega
      by_cases hfit : sz ≤ sub64 wa.arena.end_ wa.arena.ptr
      · have e1 : step c wa.arena (.alloc size mem) = ({ wa.arena with used := (wa.arena.used + sz) % W, ptr := wa.arena.ptr + sz }, .addr wa.arena.ptr, []) := by
          simp [step, allocate, hr, hfit]
        have hfitb : sz ≤ sub64 wb.arena.end_ wb.arena.ptr := by
          rw [sub64_of_le hleb heb.1 heb.2]; rw [sub64_of_le hlea hea.1 hea.2] at hfit; omega
        rw [e1, bfast hfitb]
        exact ⟨rfl, ⟨_, rfl⟩, rfl, .inr ⟨x, y, hx, hy, hcur, by simp only; omega, hexa, hexb⟩⟩
      · have hnfb : ¬ sz ≤ sub64 wb.arena.end_ wb.arena.ptr := by
          rw [sub64_of_le hleb heb.1 heb.2]; rw [sub64_of_le hlea hea.1 hea.2] at hfit; omega
        obtain ⟨hcl, _⟩ := List.getElem?_eq_some_iff.1 hx
        by_cases hlast : wa.arena.cur + 1 = wa.arena.blocks.length
        · -- a obtains a block
          have hnr : canReuse c { wa.arena with used := (wa.arena.used + sz) % W } sz = false := by
            unfold canReuse; rw [if_neg (by omega)]; simp [hlast]
          obtain ⟨m, em⟩ := aslow hfit hnr
          rw [em] at hlen ⊢
          simp only [List.length_append, List.length_singleton] at hlen
          have hlt : wb.arena.cur + 1 < wb.arena.blocks.length := by omega
          rw [breuse _ hnfb (List.getElem?_eq_getElem hlt)]
          refine ⟨rfl, ⟨_, rfl⟩, rfl, .inr ⟨m, _, ?_, List.getElem?_eq_getElem hlt, ?_, ?_, ?_, ?_⟩⟩
          · simp
          · simp; omega
          · simp; omega
          · simp
          · simp
        · -- a reuses a block
          have hlt : wa.arena.cur + 1 < wa.arena.blocks.length := by omega
          have hmono := allocate_blocks_mono c wa.arena size mem
          have hltb : wb.arena.cur + 1 < wb.arena.blocks.length := by
            simp only [step] at hlen; omega
          have hre : canReuse c { wa.arena with used := (wa.arena.used + sz) % W } sz = true := by
            unfold canReuse
            rw [if_neg (by omega)]
            have h2 : wa.arena.blocks.isEmpty = false := by
              cases hbb : wa.arena.blocks with
              | nil => rw [hbb] at hlt; simp at hlt
              | cons _ _ => rfl
            simp [h2, hlast]
          have hmem : wa.arena.blocks[wa.arena.cur + 1] ∈ wa.arena.blocks := List.getElem_mem hlt
          have hok' := ha.ownedOk (wa.arena.blocks[wa.arena.cur + 1], hdr + c.minBlock) (by simp [owned, hmem])
          have ea : step c wa.arena (.alloc size mem) = ({ wa.arena with used := (wa.arena.used + sz) % W, cur := wa.arena.cur + 1, ptr := wa.arena.blocks[wa.arena.cur + 1] + 16 + sz, end_ := wa.arena.blocks[wa.arena.cur + 1] + 16 + c.minBlock }, .addr (wa.arena.blocks[wa.arena.cur + 1] + 16), []) := by
            simp only [step, allocate, hr, ge_iff_le, hfit, if_false, hre, if_true, List.getElem?_eq_getElem hlt]
            rw [alignUp_of hc hok'.2.1]
            simp [hdr]; omega
          rw [breuse _ hnfb (List.getElem?_eq_getElem hltb), ea]
          refine ⟨rfl, ⟨_, rfl⟩, rfl, .inr ⟨_, _, List.getElem?_eq_getElem hlt, List.getElem?_eq_getElem hltb, ?_, ?_, ?_, ?_⟩⟩
          · simp; omega
          · simp; omega
          · simp
          · simp

theorem run_blocks_mono (c : Cfg) (sizes : List Nat) (mems : List (Option Nat)) (w : World) :
    w.arena.blocks.length ≤ (w.run c (allocs sizes mems)).1.arena.blocks.length := by
  induction sizes generalizing mems w with
  | nil => simp [allocs, World.run]
  | cons n ns ih =>
    cases mems with
    | nil => simp [allocs, World.run]
    | cons m ms =>
      simp only [allocs, List.zipWith_cons_cons, World.run]
      have h1 := allocate_blocks_mono c w.arena n m
      have h2 := ih ms (w.step c (.alloc n m)).1
      unfold allocs at h2
      have h3 : (w.step c (.alloc n m)).1.arena.blocks.length = (allocate c w.arena n m).1.blocks.length := rfl
      omega

theorem reuse_run {c : Cfg} (hc : c.Valid) (sizes : List Nat)
    (hsmall : ∀ n ∈ sizes, ∀ sz, roundUp c n = some sz → sz ≤ c.minBlock)
    (mems mems' : List (Option Nat)) (hm : mems.length = sizes.length) (hm' : mems'.length = sizes.length)
    (wa wb : World) (ha : Inv c wa) (hb : Inv c wb) (hs : SamePos c wa.arena wb.arena)
    (hl : LegalRun c wa (allocs sizes mems)) (hok : Res.badAlloc ∉ (wa.run c (allocs sizes mems)).2)
    (hlen : (wa.run c (allocs sizes mems)).1.arena.blocks.length ≤ wb.arena.blocks.length) :
    (wb.run c (allocs sizes mems')).1.obtained = wb.obtained ∧
    ∀ r ∈ (wb.run c (allocs sizes mems')).2, ∃ a, r = .addr a := by
  induction sizes generalizing mems mems' wa wb with
  | nil => simp [allocs, World.run]
  | cons n ns ih =>
    cases mems with
    | nil => simp at hm
    | cons m ms =>
      cases mems' with
      | nil => simp at hm'
      | cons m' ms' =>
        simp only [allocs, List.zipWith_cons_cons, World.run, LegalRun, List.mem_cons, not_or] at hl hok hlen ⊢
        have hmono := run_blocks_mono c ns ms (wa.step c (.alloc n m)).1
        have h1 := reuse_step hc ha hb hs n (hsmall n (by simp)) m m' hl.1 (fun e => hok.1 e.symm) (by unfold allocs at hmono; omega)
        obtain ⟨e1, ⟨a, e2⟩, e3, e4⟩ := h1
        have hlb : Legal c wb (.alloc n m') := by
          intro p q hpq; rw [e1] at hpq; simp at hpq
        have h2 := ih (fun k hk => hsmall k (by simp [hk])) ms ms' (by simpa using hm) (by simpa using hm') _ _
          (inv_step hc ha _ hl.1).1 (inv_step hc hb _ hlb).1 e4 hl.2 hok.2 (by rw [e3]; exact hlen)
        have ho : (wb.step c (.alloc n m')).1.obtained = wb.obtained := by
          simp only [World.step, e1]; simp
        unfold allocs at h2
        refine ⟨by rw [h2.1, ho], ?_⟩
        intro r hr
        rcases hr with rfl | hr
        · exact ⟨a, e2⟩
        · exact h2.2 r hr

/-- **C10.** Take any history, a `clear`, and then a workload of allocations that fit a normal block and that all
succeed. Repeating the workload after another `clear` requests nothing from the system, and every
allocation succeeds again. -/
theorem arena_reset_reuses_memory {c : Cfg} (hc : c.Valid) (ops : List Op) (sizes : List Nat)
    (hsmall : ∀ n ∈ sizes, (n + c.align - 1) / c.align * c.align ≤ c.minBlock)
    (mems mems' : List (Option Nat)) (hm : mems.length = sizes.length) (hm' : mems'.length = sizes.length)
    (hl : LegalRun c .init (ops ++ .clear :: allocs sizes mems))
    (hok : Res.badAlloc ∉ (World.run c (World.run c .init (ops ++ [.clear])).1 (allocs sizes mems)).2) :
    let w := (World.run c .init (ops ++ .clear :: allocs sizes mems)).1
    let w' := (World.run c w (.clear :: allocs sizes mems')).1
    w'.obtained = w.obtained ∧ ∀ r ∈ (World.run c (w.step c .clear).1 (allocs sizes mems')).2, ∃ a, r = .addr a := by
  have hsm : ∀ n ∈ sizes, ∀ sz, roundUp c n = some sz → sz ≤ c.minBlock := by
    intro n hn sz hr
    have h1 := hsmall n hn
    unfold roundUp at hr
    split at hr
    · simp at hr
    · simp only [Option.some.injEq] at hr
      have : n + (c.align - 1) = n + c.align - 1 := by
        rcases hc.cases with e | e | e | e | e <;> omega
      rw [this] at hr; omega
  have runApp : ∀ (os ps : List Op) (w : World), (w.run c (os ++ ps)).1 = ((w.run c os).1.run c ps).1 := by
    intro os
    induction os with
    | nil => intro ps w; rfl
    | cons o os ih => intro ps w; simp only [List.cons_append, World.run, ih]
  have legApp : ∀ (os ps : List Op) (w : World), LegalRun c w (os ++ ps) ↔ LegalRun c w os ∧ LegalRun c (w.run c os).1 ps := by
    intro os
    induction os with
    | nil => intro ps w; simp [LegalRun, World.run]
    | cons o os ih => intro ps w; simp only [List.cons_append, LegalRun, World.run, ih, and_assoc]
  rw [legApp] at hl
  have hi0 := (inv_run hc ops (inv_init c) hl.1).1
  simp only
  rw [runApp ops]
  rw [runApp ops] at hok
  generalize (World.run c .init ops).1 = w0 at *
  have hl2 := hl.2
  simp only [World.run, LegalRun] at hl2 hok ⊢
  have hi1 := (inv_step hc hi0 .clear hl2.1).1
  generalize hw1 : (w0.step c .clear).1 = w1 at *
  have hi2 := (inv_run hc _ hi1 hl2.2).1
  have hpos : SamePos c w1.arena ((w1.run c (allocs sizes mems)).1.step c .clear).1.arena ∧
      ((w1.run c (allocs sizes mems)).1.step c .clear).1.arena.blocks = (w1.run c (allocs sizes mems)).1.arena.blocks := by
    have hmono := run_blocks_mono c sizes mems w1
    have hlc : Legal c (w1.run c (allocs sizes mems)).1 .clear := by
      intro p q hpq
      simp only [step, clear] at hpq
      split at hpq <;> simp at hpq
    have hi3 := (inv_step hc hi2 .clear hlc).1
    have hcl : ∀ w : World, Inv c w → (w.step c .clear).1.arena.blocks = w.arena.blocks ∧
        ((w.arena.blocks = [] ∧ (w.step c .clear).1.arena.ptr = 0 ∧ (w.step c .clear).1.arena.end_ = 0) ∨
         ∃ y, w.arena.blocks[0]? = some y ∧ (w.step c .clear).1.arena.cur = 0 ∧ (w.step c .clear).1.arena.ptr = y + 16
           ∧ (w.step c .clear).1.arena.end_ = y + 16 + c.minBlock) := by
      intro w hw
      simp only [World.step, step, clear]
      cases hb : w.arena.blocks with
      | nil =>
        refine ⟨rfl, .inl ⟨rfl, ?_⟩⟩
        rcases hw.cur with ⟨_, h1, h2⟩ | ⟨b, hb', _⟩
        · exact ⟨h1, h2⟩
        · rw [hb] at hb'; simp at hb'
      | cons y ys =>
        have hok := hw.ownedOk (y, hdr + c.minBlock) (by simp [owned, hb])
        refine ⟨rfl, .inr ⟨y, rfl, rfl, ?_, ?_⟩⟩
        · simp only; rw [alignUp_of hc hok.2.1]
        · simp [hdr]; omega
    have c1 := hcl w0 hi0
    have c2 := hcl _ hi2
    rw [hw1] at c1
    refine ⟨?_, c2.1⟩
    rcases c1.2 with ⟨p0, p1, p2⟩ | ⟨x, hx, p0, p1, p2⟩
    · left
      refine ⟨by rw [c1.1, p0], p1, p2, ?_⟩
      rcases c2.2 with ⟨q0, q1, q2⟩ | ⟨y, hy, q0, q1, q2⟩
      · exact .inl ⟨by rw [c2.1, q0], q1, q2⟩
      · exact .inr ⟨y, by rw [c2.1]; exact hy, q0, q1, q2⟩
    · right
      rcases c2.2 with ⟨q0, q1, q2⟩ | ⟨y, hy, q0, q1, q2⟩
      · exfalso
        rw [q0, c1.1] at hmono
        obtain ⟨hlt, _⟩ := List.getElem?_eq_some_iff.1 hx
        simp at hmono
        rw [hmono] at hlt; simp at hlt
      · exact ⟨x, y, by rw [p0, c1.1]; exact hx, by rw [q0, c2.1]; exact hy, by rw [p0, q0], by omega, p2, q2⟩
  have hlc : Legal c (w1.run c (allocs sizes mems)).1 .clear := by
    intro p q hpq
    simp only [step, clear] at hpq
    split at hpq <;> simp at hpq
  have hi3 := (inv_step hc hi2 .clear hlc).1
  have hfin := reuse_run hc sizes hsm mems mems' hm hm' w1 _ hi1 hi3 hpos.1 hl2.2 hok (by rw [hpos.2]; exact Nat.le_refl _)
  refine ⟨?_, hfin.2⟩
  rw [hfin.1]
  simp only [World.step, step, clear]
  split <;> simp [Ev.isGot, List.filter_map, Function.comp_def]

/-- The hypotheses of `arena_reset_reuses_memory` are met by a workload that needs two blocks. -/
example : LegalRun defaultCfg .init ([] ++ .clear :: allocs [100, 4000] [some 4096, some 8192]) ∧
    Res.badAlloc ∉ (World.run defaultCfg (World.run defaultCfg .init ([] ++ [.clear])).1 (allocs [100, 4000] [some 4096, some 8192])).2 ∧
    (World.run defaultCfg .init ([] ++ .clear :: allocs [100, 4000] [some 4096, some 8192])).1.obtained = 2 := by
  refine ⟨?_, by decide, by decide⟩
  simp only [allocs, List.zipWith, List.nil_append, LegalRun, Legal]
  refine ⟨?_, ?_, ?_, trivial⟩ <;> intro m n h <;>
    simp [World.init, Arena.init, World.step, step, allocate, clear, roundUp, defaultCfg, sub64, canReuse, allocateSlow, alignUp, hdr, W, applyEv] at h ⊢
  all_goals (obtain ⟨rfl, rfl⟩ := h; simp [Disj])

end Verif.Memory
