import Verif.Memory.Arena
namespace Verif.Memory

theorem Cfg.Valid.cases {c : Cfg} (h : c.Valid) :
    c.align = 1 ∨ c.align = 2 ∨ c.align = 4 ∨ c.align = 8 ∨ c.align = 16 := by
  obtain ⟨k, hk, hk4⟩ := h.align
  have : k = 0 ∨ k = 1 ∨ k = 2 ∨ k = 3 ∨ k = 4 := by omega
  rcases this with rfl | rfl | rfl | rfl | rfl <;> simp_all

theorem alignUp_of {c : Cfg} (h : c.Valid) {m : Nat} (hm : m % 16 = 0) : alignUp c (m + hdr) = m + 16 := by
  unfold alignUp hdr
  rcases h.cases with e | e | e | e | e <;> rw [e] <;> omega

theorem roundUp_spec {c : Cfg} (h : c.Valid) {size sz : Nat} (hr : roundUp c size = some sz) :
    size ≤ sz ∧ sz < size + c.align ∧ sz % c.align = 0 ∧ size + (c.align - 1) < W := by
  unfold roundUp at hr
  split at hr
  · simp at hr
  · rename_i hn
    simp only [Option.some.injEq] at hr
    unfold W at *
    rcases h.cases with e | e | e | e | e <;> rw [e] at hn hr ⊢ <;> omega

/-- The blocks the arena owns, as the system sees them. -/
def owned (c : Cfg) (s : Arena) : List Range := s.blocks.map (fun b => (b, hdr + c.minBlock)) ++ s.large

/-- Structural part of the invariant (does not mention the caller's ranges). -/
structure Inv (c : Cfg) (w : World) : Prop where
  heldPerm : w.held.Perm (owned c w.arena)
  ownedDisj : (owned c w.arena).Pairwise Disj
  ownedOk : ∀ r ∈ owned c w.arena, 0 < r.1 ∧ r.1 % 16 = 0 ∧ 16 ≤ r.2 ∧ r.1 + r.2 ≤ W
  cur : (w.arena.blocks = [] ∧ w.arena.ptr = 0 ∧ w.arena.end_ = 0) ∨
    ∃ b, w.arena.blocks[w.arena.cur]? = some b ∧ b + hdr ≤ w.arena.ptr ∧ w.arena.ptr ≤ w.arena.end_ ∧
      w.arena.end_ = b + hdr + c.minBlock
  ptrAl : w.arena.ptr % c.align = 0
  total : w.arena.total = ((owned c w.arena).map (·.2)).sum
  lim : c.limit ≠ 0 → w.arena.total ≤ c.limit
  liveIn : ∀ r ∈ w.live, 0 < r.2 → ∃ b ∈ owned c w.arena, Inside r (b.1 + hdr, b.2 - hdr)
  liveAl : ∀ r ∈ w.live, r.1 % c.align = 0
  liveDisj : w.live.Pairwise (fun a b => 0 < a.2 → 0 < b.2 → Disj a b)
  freeCur : ∀ r ∈ w.live, 0 < r.2 → Disj r (w.arena.ptr, w.arena.end_ - w.arena.ptr)
  freeNext : ∀ r ∈ w.live, 0 < r.2 → ∀ b ∈ w.arena.blocks.drop (w.arena.cur + 1), Disj r (b, hdr + c.minBlock)

theorem Inv.heldEq {c : Cfg} {w : World} (h : Inv c w) (r : Range) : r ∈ w.held ↔ r ∈ owned c w.arena :=
  h.heldPerm.mem_iff

theorem inv_init (c : Cfg) : Inv c World.init := by
  constructor <;> simp [World.init, Arena.init, owned]

theorem disj_symm {a b : Range} (h : Disj a b) : Disj b a := h.symm

theorem disj_of_inside {r b x : Range} (h : Inside r b) (hb : Disj b x) : Disj r x := by
  unfold Disj Inside at *; omega

theorem pairwise_append_singleton {l : List Range} {x : Range} (h : l.Pairwise Disj) (hx : ∀ b ∈ l, Disj x b) :
    (l ++ [x]).Pairwise Disj := by
  rw [List.pairwise_append]
  refine ⟨h, by simp, ?_⟩
  intro a ha b hb
  simp at hb; subst hb
  exact disj_symm (hx a ha)

theorem sub64_of_le {a b : Nat} (h : b ≤ a) (ha : a ≤ W) (hlt : a - b < W) : sub64 a b = a - b := by
  unfold sub64
  have : a + W - b = (a - b) + W := by omega
  rw [this, Nat.add_mod_right, Nat.mod_eq_of_lt hlt]

theorem owned_disj_blocks {c : Cfg} {s : Arena} (h : (owned c s).Pairwise Disj) {i j : Nat} {a b : Nat}
    (hi : s.blocks[i]? = some a) (hj : s.blocks[j]? = some b) (hij : i < j) :
    Disj (a, hdr + c.minBlock) (b, hdr + c.minBlock) := by
  unfold owned at h
  rw [List.pairwise_append] at h
  have h1 := h.1
  rw [List.pairwise_iff_getElem] at h1
  obtain ⟨hi', hi⟩ := List.getElem?_eq_some_iff.1 hi
  obtain ⟨hj', hj⟩ := List.getElem?_eq_some_iff.1 hj
  have := h1 i j (by simpa using hi') (by simpa using hj') hij
  simpa [hi, hj] using this

theorem end_le_W {c : Cfg} {w : World} (h : Inv c w) : w.arena.end_ ≤ W ∧ w.arena.end_ - w.arena.ptr < W := by
  rcases h.cur with ⟨_, h1, h2⟩ | ⟨b, hb, h1, h2, h3⟩
  · simp [h1, h2, W]
  · have hmem : b ∈ w.arena.blocks := List.mem_of_getElem? hb
    have := h.ownedOk (b, hdr + c.minBlock) (by simp [owned, hmem])
    simp only at this
    omega

/-- Structural facts do not depend on the byte counter. -/
theorem inv_used {c : Cfg} {w : World} (h : Inv c w) (u : Nat) :
    Inv c { w with arena := { w.arena with used := u } } :=
  ⟨h.heldPerm, h.ownedDisj, h.ownedOk, h.cur, h.ptrAl, h.total, h.lim, h.liveIn, h.liveAl, h.liveDisj, h.freeCur, h.freeNext⟩

theorem inv_fast {c : Cfg} (hc : c.Valid) {w : World} (h : Inv c w) {size sz : Nat}
    (hr : roundUp c size = some sz) (hfit : sub64 w.arena.end_ w.arena.ptr ≥ sz) (u : Nat) :
    Inv c { w with arena := { w.arena with used := u, ptr := w.arena.ptr + sz },
                   live := (w.arena.ptr, size) :: w.live } := by
  have hrs := roundUp_spec hc hr
  have hend := end_le_W h
  have hle : w.arena.ptr ≤ w.arena.end_ := by
    rcases h.cur with ⟨_, h1, h2⟩ | ⟨b, hb, h1, h2, h3⟩ <;> omega
  rw [sub64_of_le hle hend.1 hend.2] at hfit
  have hin : 0 < size → ∃ b, w.arena.blocks[w.arena.cur]? = some b ∧
      Inside (w.arena.ptr, size) (b + hdr, c.minBlock) := by
    intro hs
    rcases h.cur with ⟨_, h1, h2⟩ | ⟨b, hb, h1, h2, h3⟩
    · omega
    · exact ⟨b, hb, by unfold Inside; simp; omega⟩
  constructor
  · exact h.heldPerm
  · exact h.ownedDisj
  · exact h.ownedOk
  · rcases h.cur with ⟨h0, h1, h2⟩ | ⟨b, hb, h1, h2, h3⟩
    · left; exact ⟨h0, by simp; omega, h2⟩
    · right; exact ⟨b, hb, by simp; omega, by simp; omega, h3⟩
  · simp only; rw [Nat.add_mod, h.ptrAl, hrs.2.2.1]; simp
  · exact h.total
  · exact h.lim
  · intro r hr' hpos
    rcases List.mem_cons.1 hr' with rfl | hr'
    · obtain ⟨b, hb, hi⟩ := hin hpos
      exact ⟨(b, hdr + c.minBlock), by simp [owned, List.mem_of_getElem? hb], by simpa [hdr] using hi⟩
    · exact h.liveIn r hr' hpos
  · intro r hr'
    rcases List.mem_cons.1 hr' with rfl | hr'
    · exact h.ptrAl
    · exact h.liveAl r hr'
  · refine List.pairwise_cons.2 ⟨?_, h.liveDisj⟩
    intro b hb h1 h2
    have := h.freeCur b hb h2
    unfold Disj at *; simp at *; omega
  · intro r hr' hpos
    rcases List.mem_cons.1 hr' with rfl | hr'
    · unfold Disj; simp; omega
    · have := h.freeCur r hr' hpos
      unfold Disj at *; simp at *; omega
  · intro r hr' hpos b hb
    rcases List.mem_cons.1 hr' with rfl | hr'
    · obtain ⟨a, ha, hi⟩ := hin hpos
      simp only at hb
      obtain ⟨i, hi2⟩ := List.getElem?_of_mem hb
      rw [List.getElem?_drop] at hi2
      have := owned_disj_blocks h.ownedDisj ha hi2 (by omega)
      unfold Disj Inside at *; simp [hdr] at *; omega
    · exact h.freeNext r hr' hpos b hb

theorem inv_reuse {c : Cfg} (hc : c.Valid) {w : World} (h : Inv c w) {size sz b : Nat}
    (hr : roundUp c size = some sz) (hsz : sz ≤ c.minBlock)
    (hb : w.arena.blocks[w.arena.cur + 1]? = some b) (u : Nat) :
    Inv c { w with arena := { w.arena with used := u, cur := w.arena.cur + 1, ptr := alignUp c (b + hdr) + sz,
                                           end_ := b + hdr + (hdr + c.minBlock) - hdr },
                   live := (alignUp c (b + hdr), size) :: w.live } := by
  have hrs := roundUp_spec hc hr
  have hmem : b ∈ w.arena.blocks := List.mem_of_getElem? hb
  have hok := h.ownedOk (b, hdr + c.minBlock) (by simp [owned, hmem])
  simp only at hok
  rw [alignUp_of hc hok.2.1]
  have hbd : b ∈ w.arena.blocks.drop (w.arena.cur + 1) := by
    apply List.mem_of_getElem? (i := 0)
    rw [List.getElem?_drop]; simpa using hb
  have hal : (b + 16) % c.align = 0 := by
    rcases hc.cases with e | e | e | e | e <;> rw [e] <;> omega
  constructor
  · exact h.heldPerm
  · exact h.ownedDisj
  · exact h.ownedOk
  · right; exact ⟨b, hb, by simp only [hdr]; omega, by simp only [hdr]; omega, by simp only [hdr]; omega⟩
  · simp only; rw [Nat.add_mod, hal, hrs.2.2.1]; simp
  · exact h.total
  · exact h.lim
  · intro r hr' hpos
    rcases List.mem_cons.1 hr' with rfl | hr'
    · exact ⟨(b, hdr + c.minBlock), by simp [owned, hmem], by unfold Inside; simp [hdr]; omega⟩
    · exact h.liveIn r hr' hpos
  · intro r hr'
    rcases List.mem_cons.1 hr' with rfl | hr'
    · exact hal
    · exact h.liveAl r hr'
  · refine List.pairwise_cons.2 ⟨?_, h.liveDisj⟩
    intro x hx h1 h2
    have := h.freeNext x hx h2 b hbd
    unfold Disj at *; simp [hdr] at *; omega
  · intro r hr' hpos
    rcases List.mem_cons.1 hr' with rfl | hr'
    · unfold Disj; simp [hdr]; omega
    · have := h.freeNext r hr' hpos b hbd
      unfold Disj at *; simp [hdr] at *; omega
  · intro r hr' hpos x hx
    simp only at hx
    obtain ⟨i, hi2⟩ := List.getElem?_of_mem hx
    rw [List.getElem?_drop] at hi2
    rcases List.mem_cons.1 hr' with rfl | hr'
    · have := owned_disj_blocks h.ownedDisj hb hi2 (by omega)
      unfold Disj at *; simp [hdr] at *; omega
    · apply h.freeNext r hr' hpos x
      apply List.mem_of_getElem? (i := i + 1)
      rw [List.getElem?_drop, ← hi2]; congr 1; omega

theorem inv_large {c : Cfg} (hc : c.Valid) {w : World} (h : Inv c w) {size sz m : Nat}
    (hr : roundUp c size = some sz)
    (hlim : ¬ (c.limit ≠ 0 ∧ sz + hdr > sub64 c.limit w.arena.total))
    (hm : 0 < m ∧ m % 16 = 0 ∧ m + (hdr + sz) ≤ W ∧ ∀ b ∈ w.held, Disj (m, hdr + sz) b) (u o : Nat) :
    Inv c { arena := { w.arena with used := u, large := w.arena.large ++ [(m, hdr + sz)], total := w.arena.total + (hdr + sz) },
            held := (m, hdr + sz) :: w.held, live := (alignUp c (m + hdr), size) :: w.live, obtained := o } := by
  have hrs := roundUp_spec hc hr
  rw [alignUp_of hc hm.2.1]
  have hal : (m + 16) % c.align = 0 := by
    rcases hc.cases with e | e | e | e | e <;> rw [e] <;> omega
  have hfresh : ∀ b ∈ owned c w.arena, Disj (m, hdr + sz) b := fun b hb => hm.2.2.2 b ((h.heldEq b).2 hb)
  have hown : owned c { w.arena with used := u, large := w.arena.large ++ [(m, hdr + sz)], total := w.arena.total + (hdr + sz) }
      = owned c w.arena ++ [(m, hdr + sz)] := by simp [owned]
  constructor
  · rw [hown]
    exact (List.Perm.cons _ h.heldPerm).trans (List.perm_append_singleton _ _).symm
  · rw [hown]; exact pairwise_append_singleton h.ownedDisj hfresh
  · rw [hown]; intro r hr'
    rcases List.mem_append.1 hr' with hr' | hr'
    · exact h.ownedOk r hr'
    · simp at hr'; subst hr'; exact ⟨hm.1, hm.2.1, by simp [hdr], hm.2.2.1⟩
  · exact h.cur
  · exact h.ptrAl
  · rw [hown]; simp [h.total]
  · intro hl
    have h1 := h.lim hl
    have h2 : ¬ sz + hdr > sub64 c.limit w.arena.total := fun e => hlim ⟨hl, e⟩
    have := hc.lim
    rw [sub64_of_le h1 (by omega) (by omega)] at h2
    simp only; omega
  · rw [hown]; intro r hr' hpos
    rcases List.mem_cons.1 hr' with rfl | hr'
    · exact ⟨(m, hdr + sz), by simp, by unfold Inside; simp [hdr]; omega⟩
    · obtain ⟨b, hb, hi⟩ := h.liveIn r hr' hpos
      exact ⟨b, by simp [hb], hi⟩
  · intro r hr'
    rcases List.mem_cons.1 hr' with rfl | hr'
    · exact hal
    · exact h.liveAl r hr'
  · refine List.pairwise_cons.2 ⟨?_, h.liveDisj⟩
    intro x hx h1 h2
    obtain ⟨b, hb, hi⟩ := h.liveIn x hx h2
    have := hfresh b hb
    have := h.ownedOk b hb
    unfold Disj Inside at *; simp [hdr] at *; omega
  · intro r hr' hpos
    rcases List.mem_cons.1 hr' with rfl | hr'
    · rcases h.cur with ⟨h0, h1, h2⟩ | ⟨b, hb, h1, h2, h3⟩
      · simp [h1, h2, Disj]
      · have := hfresh (b, hdr + c.minBlock) (by simp [owned, List.mem_of_getElem? hb])
        unfold Disj at *; simp [hdr] at *; omega
    · exact h.freeCur r hr' hpos
  · intro r hr' hpos x hx
    rcases List.mem_cons.1 hr' with rfl | hr'
    · have := hfresh (x, hdr + c.minBlock) (by simp [owned, List.mem_of_mem_drop hx])
      unfold Disj at *; simp [hdr] at *; omega
    · exact h.freeNext r hr' hpos x hx

theorem inv_block {c : Cfg} (hc : c.Valid) {w : World} (h : Inv c w) {size sz m : Nat}
    (hr : roundUp c size = some sz) (hsz : sz ≤ c.minBlock)
    (hlast : w.arena.blocks = [] ∨ w.arena.cur + 1 = w.arena.blocks.length)
    (hlim : ¬ (c.limit ≠ 0 ∧ c.minBlock + hdr > sub64 c.limit w.arena.total))
    (hm : 0 < m ∧ m % 16 = 0 ∧ m + (hdr + c.minBlock) ≤ W ∧ ∀ b ∈ w.held, Disj (m, hdr + c.minBlock) b) (u o : Nat) :
    Inv c { arena := { w.arena with used := u, blocks := w.arena.blocks ++ [m], cur := w.arena.blocks.length,
                                    ptr := alignUp c (m + hdr) + sz, end_ := alignUp c (m + hdr) + (hdr + c.minBlock) - hdr,
                                    total := w.arena.total + (hdr + c.minBlock) },
            held := (m, hdr + c.minBlock) :: w.held, live := (alignUp c (m + hdr), size) :: w.live, obtained := o } := by
  have hrs := roundUp_spec hc hr
  rw [alignUp_of hc hm.2.1]
  have hal : (m + 16) % c.align = 0 := by
    rcases hc.cases with e | e | e | e | e <;> rw [e] <;> omega
  have hfresh : ∀ b ∈ owned c w.arena, Disj (m, hdr + c.minBlock) b := fun b hb => hm.2.2.2 b ((h.heldEq b).2 hb)
  have hown : ∀ (r : Range) (s : Arena), s.blocks = w.arena.blocks ++ [m] → s.large = w.arena.large → (r ∈ owned c s
      ↔ r = (m, hdr + c.minBlock) ∨ r ∈ owned c w.arena) := by
    intro r s e1 e2; simp only [owned, e1, e2, List.map_append, List.map_cons, List.map_nil, List.mem_append, List.mem_singleton]
    grind
  have hdis : ∀ r ∈ w.live, 0 < r.2 → Disj r (m, hdr + c.minBlock) := by
    intro r hr' hpos
    obtain ⟨b, hb, hi⟩ := h.liveIn r hr' hpos
    have := hfresh b hb
    have := h.ownedOk b hb
    unfold Disj Inside at *; simp [hdr] at *; omega
  constructor
  · have h1 := h.heldPerm
    simp only [owned, List.map_append, List.map_cons, List.map_nil, List.append_assoc, List.singleton_append] at h1 ⊢
    exact (List.Perm.cons _ h1).trans List.perm_middle.symm
  · have hd := h.ownedDisj
    simp only [owned, List.map_append, List.map_cons, List.map_nil, List.append_assoc] at hd ⊢
    rw [List.pairwise_append] at hd ⊢
    refine ⟨hd.1, ?_, ?_⟩
    · simp only [List.singleton_append, List.pairwise_cons]
      exact ⟨fun b hb => hfresh b (by simp only [owned, List.mem_append]; exact .inr hb), hd.2.1⟩
    · intro a ha b hb
      simp only [List.singleton_append, List.mem_cons] at hb
      rcases hb with rfl | hb
      · exact disj_symm (hfresh a (by simp only [owned, List.mem_append]; exact .inl ha))
      · exact hd.2.2 a ha b hb
  · intro r hr'
    rcases (hown r _ (by rfl) (by rfl)).1 hr' with rfl | hr'
    · exact ⟨hm.1, hm.2.1, by simp [hdr], hm.2.2.1⟩
    · exact h.ownedOk r hr'
  · right; refine ⟨m, by simp, by simp only [hdr]; omega, by simp only [hdr]; omega, by simp only [hdr]; omega⟩
  · simp only; rw [Nat.add_mod, hal, hrs.2.2.1]; simp
  · have := h.total
    simp [owned] at this ⊢
    omega
  · intro hl
    have h1 := h.lim hl
    have h2 : ¬ c.minBlock + hdr > sub64 c.limit w.arena.total := fun e => hlim ⟨hl, e⟩
    have := hc.lim
    rw [sub64_of_le h1 (by omega) (by omega)] at h2
    simp only; omega
  · intro r hr' hpos
    rcases List.mem_cons.1 hr' with rfl | hr'
    · exact ⟨(m, hdr + c.minBlock), (hown _ _ (by rfl) (by rfl)).2 (.inl rfl), by unfold Inside; simp [hdr]; omega⟩
    · obtain ⟨b, hb, hi⟩ := h.liveIn r hr' hpos
      exact ⟨b, (hown _ _ (by rfl) (by rfl)).2 (.inr hb), hi⟩
  · intro r hr'
    rcases List.mem_cons.1 hr' with rfl | hr'
    · exact hal
    · exact h.liveAl r hr'
  · refine List.pairwise_cons.2 ⟨?_, h.liveDisj⟩
    intro x hx h1 h2
    have := hdis x hx h2
    unfold Disj at *; simp [hdr] at *; omega
  · intro r hr' hpos
    rcases List.mem_cons.1 hr' with rfl | hr'
    · unfold Disj; simp [hdr]; omega
    · have := hdis r hr' hpos
      unfold Disj at *; simp [hdr] at *; omega
  · intro r hr' hpos x hx
    simp at hx

theorem inv_clear {c : Cfg} (hc : c.Valid) {w : World} (h : Inv c w) : Inv c (w.step c .clear).1 := by
  have hheld : ∀ (l : List Range) (hh : List Range),
      (l.map Ev.freed).foldl applyEv hh = hh.filter (fun r => l.all (fun x => r.1 ≠ x.1)) := by
    intro l
    induction l with
    | nil => intro hh; exact (List.filter_eq_self.2 (by simp)).symm
    | cons x l ih =>
      intro hh
      simp only [List.map_cons, List.foldl_cons, ih, applyEv, List.filter_filter]
      congr 1; funext r; simp only [List.all_cons]; rw [Bool.and_comm]
  have hmem : ((w.arena.large.map Ev.freed).foldl applyEv w.held).Perm
      (w.arena.blocks.map (fun b => (b, hdr + c.minBlock))) := by
    rw [hheld]
    refine (h.heldPerm.filter _).trans (List.Perm.of_eq ?_)
    have hd := h.ownedDisj
    unfold owned at hd ⊢
    rw [List.pairwise_append] at hd
    rw [List.filter_append]
    have e1 : List.filter (fun r : Range => w.arena.large.all (fun x => r.1 ≠ x.1))
        (w.arena.blocks.map (fun b => (b, hdr + c.minBlock))) = w.arena.blocks.map (fun b => (b, hdr + c.minBlock)) := by
      rw [List.filter_eq_self]
      intro r hr
      rw [List.all_eq_true]
      intro x hx
      have := hd.2.2 r hr x hx
      have h1 := h.ownedOk r (by simp only [owned, List.mem_append]; exact .inl hr)
      have h2 := h.ownedOk x (by simp only [owned, List.mem_append]; exact .inr hx)
      unfold Disj at this; simp; omega
    have e2 : List.filter (fun r : Range => w.arena.large.all (fun x => r.1 ≠ x.1)) w.arena.large = [] := by
      rw [List.filter_eq_nil_iff]
      intro r hr h1
      rw [List.all_eq_true] at h1
      have := h1 r hr
      simp at this
    rw [e1, e2, List.append_nil]
  have htot : w.arena.total - (w.arena.large.map (·.2)).sum
      = ((w.arena.blocks.map (fun b => (b, hdr + c.minBlock))).map (·.2)).sum := by
    rw [h.total]; simp only [owned, List.map_append, List.sum_append]; exact Nat.add_sub_cancel ..
  have hd := h.ownedDisj
  have hok := h.ownedOk
  unfold owned at hd
  rw [List.pairwise_append] at hd
  have hlim := h.lim
  unfold World.step step clear
  rcases hb : w.arena.blocks with _ | ⟨b, bs⟩
  · simp only [hb]
    rw [hb] at hmem htot
    constructor
    · refine hmem.trans (List.Perm.of_eq ?_); simp [owned, hb]
    · simp [owned, hb]
    · simp [owned, hb]
    · rcases h.cur with ⟨_, h1, h2⟩ | ⟨b, hb', _⟩
      · left; exact ⟨rfl, h1, h2⟩
      · rw [hb] at hb'; simp at hb'
    · exact h.ptrAl
    · simpa [owned, hb] using htot
    · intro hl; have := hlim hl; simp only; omega
    · simp [newLive]
    · simp [newLive]
    · simp [newLive]
    · simp [newLive]
    · simp [newLive]
  · simp only [hb]
    rw [hb] at hmem htot hd
    have hbok := hok (b, hdr + c.minBlock) (by simp [owned, hb])
    simp only at hbok
    rw [alignUp_of hc hbok.2.1]
    constructor
    · refine hmem.trans (List.Perm.of_eq ?_); simp [owned, hb]
    · simpa [owned, hb] using hd.1
    · intro r hr; apply hok r; simp [owned, hb] at hr ⊢; grind
    · right; exact ⟨b, by simp [hb], by simp only [hdr]; omega, by simp only [hdr]; omega, by simp only [hdr]; omega⟩
    · rcases hc.cases with e | e | e | e | e <;> rw [e] <;> simp only <;> omega
    · simpa [owned, hb] using htot
    · intro hl; have := hlim hl; simp only; omega
    · simp [newLive]
    · simp [newLive]
    · simp [newLive]
    · simp [newLive]
    · simp [newLive]

theorem inv_step {c : Cfg} (hc : c.Valid) {w : World} (h : Inv c w) (o : Op) (hl : Legal c w o) :
    Inv c (w.step c o).1 ∧ (w.step c o).2 ≠ .ub := by
  cases o with
  | clear =>
    refine ⟨inv_clear hc h, ?_⟩
    simp only [World.step, step, clear]; split <;> simp
  | alloc size mem =>
    unfold Legal at hl
    unfold World.step step allocate at *
    cases hr : roundUp c size with
    | none =>
      simp only [hr]
      exact ⟨⟨h.heldPerm, h.ownedDisj, h.ownedOk, h.cur, h.ptrAl, h.total, h.lim, h.liveIn, h.liveAl, h.liveDisj, h.freeCur, h.freeNext⟩, by simp⟩
    | some sz =>
      simp only [hr] at hl ⊢
      split
      · rename_i hfit
        exact ⟨inv_fast hc h hr hfit _, by simp⟩
      · rename_i hfit
        rw [if_neg hfit] at hl
        split
        · rename_i hre
          unfold canReuse at hre
          have hsz : sz ≤ c.minBlock := by
            apply Nat.le_of_not_lt; intro e; simp [e] at hre
          simp only [show ¬ sz > c.minBlock by omega, if_false] at hre
          split
          · rename_i hn
            exfalso
            rcases h.cur with ⟨h0, _⟩ | ⟨b, hb, _⟩
            · simp [h0] at hre
            · obtain ⟨hlt, _⟩ := List.getElem?_eq_some_iff.1 hb
              simp at hn
              simp at hre
              omega
          · rename_i b hb
            exact ⟨inv_reuse hc h hr hsz hb _, by simp⟩
        · rename_i hre
          rw [if_neg hre] at hl
          unfold allocateSlow at *
          simp only at hl ⊢
          split
          · exact ⟨inv_used h _, by simp⟩
          · rename_i h1
            rw [if_neg h1] at hl
            split
            · exact ⟨inv_used h _, by simp⟩
            · rename_i h2
              rw [if_neg h2] at hl
              split
              · rename_i h3
                rw [if_pos h3] at hl
                have hmax : max sz c.minBlock = sz := by omega
                rw [hmax] at h2
                cases mem with
                | none => exact ⟨inv_used h _, by simp⟩
                | some m => exact ⟨inv_large hc h hr h2 (hl m _ (by simp)) _ _, by simp⟩
              · rename_i h3
                rw [if_neg h3] at hl
                have hmax : max sz c.minBlock = c.minBlock := by omega
                rw [hmax] at h2
                cases mem with
                | none => exact ⟨inv_used h _, by simp⟩
                | some m =>
                  refine ⟨inv_block hc h hr (by omega) ?_ h2 (hl m _ (by simp)) _ _, by simp⟩
                  unfold canReuse at hre
                  rw [if_neg h3] at hre
                  simp at hre
                  by_cases hb : w.arena.blocks = []
                  · exact .inl hb
                  · exact .inr (hre hb)

theorem inv_run {c : Cfg} (hc : c.Valid) (ops : List Op) {w : World} (h : Inv c w) (hl : LegalRun c w ops) :
    Inv c (w.run c ops).1 ∧ Res.ub ∉ (w.run c ops).2 := by
  induction ops generalizing w with
  | nil => exact ⟨h, by simp [World.run]⟩
  | cons o os ih =>
    have h1 := inv_step hc h o hl.1
    have h2 := ih h1.1 hl.2
    exact ⟨h2.1, by simp only [World.run, List.mem_cons, not_or]; exact ⟨fun e => h1.2 e.symm, h2.2⟩⟩

end Verif.Memory
