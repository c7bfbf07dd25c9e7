/-!
# The lock-free cleanup list: model and property C12

`/repo/rapidudf/common/AtomicIntrusiveLinkedList.h` 109-201, used by `/repo/rapidudf/context/context.h` 165-186 and
`/repo/rapidudf/context/context.cc` 46-49.

Any number of threads register cleanups (each registration allocates a node and inserts it), while one thread
drains the list any number of times. The nodes live in a heap; a node's address may be reused
after the drain has deleted it. Atomic operations are single sequentially consistent steps; the weak
compare-and-swap may fail spuriously.
-/
namespace Verif.Ctx.CleanupList

abbrev Addr := Nat

/-- The `seq`-th cleanup registered by thread `thread`. -/
structure Tag where
  thread : Nat
  seq : Nat
deriving DecidableEq, Repr

/-- Where a registering thread stands in `insertHead` (lines 109-124). -/
inductive IPc where
  | idle
  | fresh (a : Addr)                            -- node allocated, before line 112
  | have (a : Addr) (old : Option Addr)         -- `oldHead` loaded, before line 114
  | linked (a : Addr) (old : Option Addr)       -- `next(t) = oldHead` done, before the compare-and-swap
deriving DecidableEq

/-- Where the draining thread stands in `sweep` (lines 147-150). -/
inductive SPc where
  | idle
  | swap                                          -- inside `sweep`, before the exchange of line 133
  | rev (h r : Option Addr)                       -- in `reverse` (180-189)
  | unlink (h : Option Addr)                      -- in `unlinkAll` (194-201)
deriving DecidableEq

structure S where
  head : Option Addr := none
  next : Addr → Option Addr := fun _ => none
  tag : Addr → Tag := fun _ => ⟨0, 0⟩
  live : Addr → Bool := fun _ => false
  ins : Nat → IPc := fun _ => .idle
  seq : Nat → Nat := fun _ => 0                 -- number of cleanups the thread has begun to register
  sw : SPc := .idle
  ran : List Tag := []                          -- cleanups run so far, in order
  registered : List Tag := []                   -- registrations completed so far, in order of their compare-and-swap
  drained : List (List Tag) := []               -- for every completed drain, the cleanups run when it returned
  bad : Bool := false                           -- a dead node was accessed or deleted

def upd {α : Type} (f : Nat → α) (i : Nat) (v : α) : Nat → α := fun j => if j = i then v else f j

inductive Act where
  | alloc (t : Nat) (a : Addr)      -- `new CleanupFuncWrapper` in thread `t` returns address `a`
  | load (t : Nat)                  -- line 112
  | link (t : Nat)                  -- line 114
  | casOk (t : Nat)                 -- line 121, success
  | casFail (t : Nat)               -- line 121, failure (spurious or not): `oldHead` is reloaded
  | begin                           -- the drainer calls `sweep`
  | drain                           -- one step of the drainer
deriving DecidableEq

/-- One step; `none` if the action is not possible in this state. -/
def step (s : S) : Act → Option S
  | .alloc t a =>
    if s.ins t = .idle ∧ s.live a = false then
      some { s with next := upd s.next a none, tag := upd s.tag a ⟨t, s.seq t⟩, live := upd s.live a true, ins := upd s.ins t (.fresh a), seq := upd s.seq t (s.seq t + 1) }
    else none
  | .load t => match s.ins t with
    | .fresh a => some { s with ins := upd s.ins t (.have a s.head) }
    | _ => none
  | .link t => match s.ins t with
    | .have a old =>
      some { s with next := upd s.next a old, ins := upd s.ins t (.linked a old), bad := s.bad || !s.live a }
    | _ => none
  | .casOk t => match s.ins t with
    | .linked a old =>
      if s.head = old then
        some { s with head := some a, ins := upd s.ins t .idle, registered := s.registered ++ [s.tag a] }
      else none
    | _ => none
  | .casFail t => match s.ins t with
    | .linked a _ => some { s with ins := upd s.ins t (.have a s.head) }
    | _ => none
  | .begin => match s.sw with
    | .idle => some { s with sw := .swap }
    | _ => none
  | .drain => match s.sw with
    | .idle => none
    | .swap => match s.head with
      | none => some { s with sw := .idle, drained := s.drained ++ [s.ran] }     -- line 138, loop of 148 ends
      | some h => some { s with head := none, sw := .rev (some h) none }
    | .rev (some t) r =>                                                        -- lines 183-186
      some { s with next := upd s.next t r, sw := .rev (s.next t) (some t), bad := s.bad || !s.live t }
    | .rev none r => some { s with sw := .unlink r }
    | .unlink (some t) =>                                                       -- lines 196-199; context.cc 47-48
      some { s with next := upd s.next t none, live := upd s.live t false, ran := s.ran ++ [s.tag t], sw := .unlink (s.next t), bad := s.bad || !s.live t }
    | .unlink none => some { s with sw := .swap }                               -- line 148: try again

inductive Reach : S → Prop where
  | init : Reach {}
  | step {s s' : S} (a : Act) : Reach s → step s a = some s' → Reach s'

/-! ## Invariant -/

/-- `l` is the list of nodes reached from `h`. -/
def chain (next : Addr → Option Addr) : Option Addr → List Addr → Prop
  | none, [] => True
  | some a, b :: l => a = b ∧ chain next (next a) l
  | _, _ => False

theorem chain_congr {next next' : Addr → Option Addr} {h : Option Addr} {l : List Addr} (hc : chain next h l)
    (he : ∀ a ∈ l, next' a = next a) : chain next' h l := by
  induction l generalizing h with
  | nil => cases h <;> simp_all [chain]
  | cons b l ih =>
    cases h with
    | none => simp [chain] at hc
    | some a =>
      obtain ⟨rfl, hc⟩ := hc
      refine ⟨rfl, ?_⟩
      rw [he a (by simp)]
      exact ih hc (fun x hx => he x (by simp [hx]))

theorem chain_upd {next : Addr → Option Addr} {h : Option Addr} {l : List Addr} {a : Addr} {v : Option Addr} (hc : chain next h l)
    (ha : a ∉ l) : chain (upd next a v) h l :=
  chain_congr hc (fun x hx => by simp [upd, show x ≠ a from fun e => ha (e ▸ hx)])

/-- The node a registering thread holds but has not yet inserted. -/
def IPc.addr : IPc → Option Addr
  | .idle => none
  | .fresh a | .have a _ | .linked a _ => some a

/-- The nodes the drainer holds: still to be reversed, already reversed. -/
def heldBy (next : Addr → Option Addr) : SPc → List Addr → List Addr → Prop
  | .idle, hs, rs | .swap, hs, rs => hs = [] ∧ rs = []
  | .rev h r, hs, rs => chain next h hs ∧ chain next r rs
  | .unlink h, hs, rs => hs = [] ∧ chain next h rs

structure Inv (s : S) (l hs rs : List Addr) : Prop where
  chain : chain s.next s.head l
  held : heldBy s.next s.sw hs rs
  nodup : (l ++ hs ++ rs).Nodup
  live : ∀ a ∈ l ++ hs ++ rs, s.live a = true
  insLive : ∀ t a, (s.ins t).addr = some a → s.live a = true
  insNot : ∀ t a, (s.ins t).addr = some a → a ∉ l ++ hs ++ rs
  insDiff : ∀ t u a, (s.ins t).addr = some a → (s.ins u).addr = some a → t = u
  linkedNext : ∀ t a old, s.ins t = .linked a old → s.next a = old
  /-- Everything registered is, in order: run, held by the drainer, in the list. -/
  order : s.registered = s.ran ++ (hs.reverse ++ rs).map s.tag ++ l.reverse.map s.tag
  insTag : ∀ t a, (s.ins t).addr = some a → s.seq t = (s.tag a).seq + 1 ∧ (s.tag a).thread = t
  /-- The registrations of a thread, in order. -/
  perThread : ∀ t, (s.registered.filter (fun g => g.thread = t)).map (·.seq) =
    List.range (s.seq t - (if (s.ins t).addr.isSome then 1 else 0))
  drained : ∀ d ∈ s.drained, d <+: s.ran
  notBad : s.bad = false

theorem addr_upd_ne {s : S} {t u : Nat} {p : IPc} (h : u ≠ t) : (upd s.ins t p u) = s.ins u := by simp [upd, h]

theorem inv_init : Inv {} [] [] [] := by
  constructor <;> simp [chain, heldBy, IPc.addr]

theorem map_tag_upd {f : Addr → Tag} {a : Addr} {v : Tag} {l : List Addr} (h : a ∉ l) : l.map (upd f a v) = l.map f := by
  apply List.map_congr_left
  intro x hx
  simp [upd, show x ≠ a from fun e => h (e ▸ hx)]

theorem heldBy_congr {next next' : Addr → Option Addr} {p : SPc} {hs rs : List Addr} (h : heldBy next p hs rs)
    (he : ∀ a ∈ hs ++ rs, next' a = next a) : heldBy next' p hs rs := by
  cases p with
  | idle => exact h
  | swap => exact h
  | rev x r =>
    exact ⟨chain_congr h.1 (fun a ha => he a (by simp [ha])), chain_congr h.2 (fun a ha => he a (by simp [ha]))⟩
  | unlink x => exact ⟨h.1, chain_congr h.2 (fun a ha => he a (by simp [ha]))⟩

/-- Updating the pc of a registering thread that keeps its node. -/
theorem inv_ins {s : S} {l hs rs : List Addr} (h : Inv s l hs rs) {t : Nat} {p : IPc} (hp : p.addr = (s.ins t).addr)
    (hl : ∀ a old, p = .linked a old → s.next a = old) : Inv { s with ins := upd s.ins t p } l hs rs := by
  have key : ∀ u, (upd s.ins t p u).addr = (s.ins u).addr := by
    intro u; simp only [upd]; split
    · rename_i e; subst e; exact hp
    · rfl
  constructor
  · exact h.chain
  · exact h.held
  · exact h.nodup
  · exact h.live
  · intro u a; simp only [key]; exact h.insLive u a
  · intro u a; simp only [key]; exact h.insNot u a
  · intro u v a; simp only [key]; exact h.insDiff u v a
  · intro u a old hu
    simp only [upd] at hu
    split at hu
    · exact hl a old hu
    · exact h.linkedNext u a old hu
  · exact h.order
  · intro u a; simp only [key]; exact h.insTag u a
  · intro u; simp only [key]; exact h.perThread u
  · exact h.drained
  · exact h.notBad

def pcWeight : SPc → Nat
  | .idle => 0
  | .swap => 1
  | .unlink _ => 2
  | .rev _ _ => 3

/-- Remaining work of the drainer. -/
def work (s : S) (l hs rs : List Addr) : Nat := 6 * l.length + 2 * hs.length + rs.length + pcWeight s.sw

theorem inv_drain {s s' : S} {l hs rs : List Addr} (h : Inv s l hs rs) (hst : step s .drain = some s') :
    ∃ l' hs' rs', Inv s' l' hs' rs' ∧ work s' l' hs' rs' < work s l hs rs := by
  simp only [step] at hst
  split at hst
  · simp at hst
  · rename_i hsw
    have hh := h.held
    rw [hsw] at hh
    obtain ⟨rfl, rfl⟩ := hh
    split at hst
    · rename_i hhead
      simp only [Option.some.injEq] at hst; subst hst
      refine ⟨l, [], [], { h with held := ⟨rfl, rfl⟩, drained := ?_ }, by simp [work, pcWeight, hsw]⟩
      intro d hd
      simp only [List.mem_append, List.mem_singleton] at hd
      rcases hd with hd | rfl
      · exact h.drained d hd
      · exact List.prefix_refl _
    · rename_i x hhead
      simp only [Option.some.injEq] at hst; subst hst
      have hc := h.chain
      rw [hhead] at hc
      have hpos : 0 < l.length := by
        cases l with
        | nil => simp [chain] at hc
        | cons b l => simp
      refine ⟨[], l, [], ?_, by simp only [work, pcWeight, hsw, List.length_nil]; omega⟩
      constructor
      · simp [chain]
      · exact ⟨hc, by simp [chain]⟩
      · simpa using h.nodup
      · simpa using h.live
      · exact h.insLive
      · intro t a ht; simpa using h.insNot t a ht
      · exact h.insDiff
      · exact h.linkedNext
      · simpa using h.order
      · exact h.insTag
      · exact h.perThread
      · exact h.drained
      · exact h.notBad
  · rename_i t r hsw
    simp only [Option.some.injEq] at hst; subst hst
    have hh := h.held
    rw [hsw] at hh
    obtain ⟨hch, hcr⟩ := hh
    cases hs with
    | nil => simp [chain] at hch
    | cons b hs =>
      obtain ⟨rfl, hch⟩ := hch
      have hnd := h.nodup
      simp only [List.nodup_append, List.nodup_cons, List.mem_append, List.mem_cons] at hnd
      have htl : t ∉ l := fun hm => (hnd.1.2.2 t hm t (.inl rfl)) rfl
      have hth : t ∉ hs := hnd.1.2.1.1
      have htr : t ∉ rs := fun hm => hnd.2.2 t (.inr (.inl rfl)) t hm rfl
      have hperm : (l ++ (t :: hs) ++ rs).Perm (l ++ hs ++ (t :: rs)) := by
        rw [List.append_assoc, List.append_assoc]
        refine List.Perm.append_left l ?_
        exact (List.perm_middle).symm
      have hlive := h.live t (by simp)
      refine ⟨l, hs, t :: rs, ?_, by simp only [work, pcWeight, hsw, List.length_cons]; omega⟩
      constructor
      · exact chain_upd h.chain htl
      · refine ⟨chain_upd hch hth, rfl, ?_⟩
        show chain (upd s.next t r) (upd s.next t r t) rs
        have : upd s.next t r t = r := by simp [upd]
        rw [this]; exact chain_upd hcr htr
      · exact hperm.nodup_iff.1 h.nodup
      · intro x hx; exact h.live x (hperm.mem_iff.2 hx)
      · exact h.insLive
      · intro u x hu hx; exact h.insNot u x hu (hperm.mem_iff.2 hx)
      · exact h.insDiff
      · intro u x old hu
        have hx : (s.ins u).addr = some x := by rw [hu]; rfl
        have : x ≠ t := fun e => h.insNot u x hx (by subst e; simp)
        simp only [upd, this, if_false]
        exact h.linkedNext u x old hu
      · simp only [h.order]; simp
      · exact h.insTag
      · exact h.perThread
      · exact h.drained
      · simp only [h.notBad, hlive]; rfl
  · rename_i r hsw
    simp only [Option.some.injEq] at hst; subst hst
    have hh := h.held
    rw [hsw] at hh
    obtain ⟨hch, hcr⟩ := hh
    cases hs with
    | cons b hs => simp [chain] at hch
    | nil => exact ⟨l, [], rs, { h with held := ⟨rfl, hcr⟩ }, by simp [work, pcWeight, hsw]⟩
  · rename_i t hsw
    simp only [Option.some.injEq] at hst; subst hst
    have hh := h.held
    rw [hsw] at hh
    obtain ⟨rfl, hch⟩ := hh
    cases rs with
    | nil => simp [chain] at hch
    | cons b rs =>
      obtain ⟨rfl, hch⟩ := hch
      have hnd := h.nodup
      simp only [List.append_nil, List.nodup_append, List.nodup_cons, List.mem_cons] at hnd
      have htl : t ∉ l := fun hm => (hnd.2.2 t hm t (.inl rfl)) rfl
      have htr : t ∉ rs := hnd.2.1.1
      have hlive := h.live t (by simp)
      refine ⟨l, [], rs, ?_, by simp only [work, pcWeight, hsw, List.length_cons]; omega⟩
      constructor
      · exact chain_upd h.chain htl
      · exact ⟨rfl, chain_upd hch htr⟩
      · simp only [List.append_nil, List.nodup_append]
        exact ⟨hnd.1, hnd.2.1.2, fun a ha b hb => hnd.2.2 a ha b (.inr hb)⟩
      · intro x hx
        simp only [List.append_nil, List.mem_append] at hx
        have : x ≠ t := by
          intro e; subst e
          rcases hx with hx | hx
          · exact htl hx
          · exact htr hx
        simp only [upd, this, if_false]
        exact h.live x (by simp; rcases hx with hx | hx <;> simp [hx])
      · intro u x hu
        have : x ≠ t := fun e => h.insNot u x hu (by subst e; simp)
        simp only [upd, this, if_false]
        exact h.insLive u x hu
      · intro u x hu hx
        refine h.insNot u x hu ?_
        simp only [List.append_nil, List.mem_append] at hx
        simp; rcases hx with hx | hx <;> simp [hx]
      · exact h.insDiff
      · intro u x old hu
        have hx : (s.ins u).addr = some x := by rw [hu]; rfl
        have : x ≠ t := fun e => h.insNot u x hx (by subst e; simp)
        simp only [upd, this, if_false]
        exact h.linkedNext u x old hu
      · simp only [h.order]; simp
      · exact h.insTag
      · exact h.perThread
      · intro d hd; exact (h.drained d hd).trans (List.prefix_append _ _)
      · simp only [h.notBad, hlive]; rfl
  · rename_i hsw
    simp only [Option.some.injEq] at hst; subst hst
    have hh := h.held
    rw [hsw] at hh
    obtain ⟨rfl, hch⟩ := hh
    cases rs with
    | cons b rs => simp [chain] at hch
    | nil => exact ⟨l, [], [], { h with held := ⟨rfl, rfl⟩ }, by simp [work, pcWeight, hsw]⟩

theorem inv_step {s s' : S} {l hs rs : List Addr} (h : Inv s l hs rs) (a : Act) (hst : step s a = some s') :
    ∃ l' hs' rs', Inv s' l' hs' rs' := by
  cases a with
  | alloc t a =>
    simp only [step] at hst
    split at hst
    · rename_i hc
      obtain ⟨hidle, hdead⟩ := hc
      simp only [Option.some.injEq] at hst; subst hst
      have hnot : a ∉ l ++ hs ++ rs := fun hm => by rw [h.live a hm] at hdead; simp at hdead
      have hno : ∀ u, (s.ins u).addr ≠ some a := fun u e => by rw [h.insLive u a e] at hdead; simp at hdead
      have hnl : a ∉ l := fun hm => hnot (by simp [hm])
      have hnh : a ∉ hs := fun hm => hnot (by simp [hm])
      have hnr : a ∉ rs := fun hm => hnot (by simp [hm])
      have key : ∀ u x, (upd s.ins t (.fresh a) u).addr = some x → (u = t ∧ x = a) ∨ (u ≠ t ∧ (s.ins u).addr = some x) := by
        intro u x hu; simp only [upd] at hu; split at hu
        · rename_i e; simp [IPc.addr] at hu; exact .inl ⟨e, hu.symm⟩
        · rename_i e; exact .inr ⟨e, hu⟩
      refine ⟨l, hs, rs, ?_⟩
      constructor
      · exact chain_upd h.chain hnl
      · refine heldBy_congr h.held ?_
        intro x hx
        have : x ≠ a := fun e => hnot (by subst e; simp at hx ⊢; exact .inr hx)
        simp [upd, this]
      · exact h.nodup
      · intro x hx
        simp only [upd]; split
        · rfl
        · exact h.live x hx
      · intro u x hu
        simp only [upd]; split
        · rfl
        · rename_i hxa
          rcases key u x hu with ⟨_, e⟩ | ⟨_, e⟩
          · exact absurd e hxa
          · exact h.insLive u x e
      · intro u x hu
        rcases key u x hu with ⟨_, e⟩ | ⟨_, e⟩
        · subst e; exact hnot
        · exact h.insNot u x e
      · intro u v x hu hv
        rcases key u x hu with ⟨e1, e2⟩ | ⟨e1, e2⟩ <;> rcases key v x hv with ⟨f1, f2⟩ | ⟨f1, f2⟩
        · omega
        · subst e2; exact absurd f2 (hno v)
        · subst f2; exact absurd e2 (hno u)
        · exact h.insDiff u v x e2 f2
      · intro u x old hu
        simp only [upd] at hu
        split at hu
        · simp at hu
        · have hx : (s.ins u).addr = some x := by rw [hu]; rfl
          have : x ≠ a := fun e => hno u (e ▸ hx)
          simp only [upd, this, if_false]
          exact h.linkedNext u x old hu
      · simp only
        rw [map_tag_upd (by simp [hnh, hnr]), map_tag_upd (by simp [hnl])]
        exact h.order
      · intro u x hu
        rcases key u x hu with ⟨e1, e2⟩ | ⟨e1, e2⟩
        · subst e1; subst e2; simp [upd]
        · have : x ≠ a := fun e => hno u (e ▸ e2)
          simp only [upd, this, e1, if_false]
          exact h.insTag u x e2
      · intro u
        simp only
        rw [h.perThread u]
        by_cases e : u = t
        · subst e; simp [upd, IPc.addr, hidle]
        · simp [upd, e]
      · exact h.drained
      · exact h.notBad
    · simp at hst
  | load t =>
    simp only [step] at hst
    split at hst
    · rename_i a ha
      simp only [Option.some.injEq] at hst; subst hst
      exact ⟨l, hs, rs, inv_ins h (by rw [ha]; rfl) (by intro a old e; simp at e)⟩
    · simp at hst
  | casFail t =>
    simp only [step] at hst
    split at hst
    · rename_i a old ha
      simp only [Option.some.injEq] at hst; subst hst
      exact ⟨l, hs, rs, inv_ins h (by rw [ha]; rfl) (by intro a old e; simp at e)⟩
    · simp at hst
  | link t =>
    simp only [step] at hst
    split at hst
    · rename_i a old ha
      simp only [Option.some.injEq] at hst; subst hst
      have haddr : (s.ins t).addr = some a := by rw [ha]; rfl
      have hnot := h.insNot t a haddr
      have hnl : a ∉ l := fun hm => hnot (by simp [hm])
      have h1 : Inv { s with next := upd s.next a old } l hs rs := by
        constructor
        · exact chain_upd h.chain hnl
        · refine heldBy_congr h.held ?_
          intro x hx
          have : x ≠ a := fun e => hnot (by subst e; simp at hx ⊢; exact .inr hx)
          simp [upd, this]
        · exact h.nodup
        · exact h.live
        · exact h.insLive
        · exact h.insNot
        · exact h.insDiff
        · intro u x old' hu
          have hx : (s.ins u).addr = some x := by rw [hu]; rfl
          by_cases e : x = a
          · subst e
            have := h.insDiff u t x hx haddr
            subst this; rw [ha] at hu; simp at hu
          · simp only [upd, e, if_false]; exact h.linkedNext u x old' hu
        · exact h.order
        · exact h.insTag
        · exact h.perThread
        · exact h.drained
        · exact h.notBad
      have h2 := inv_ins h1 (t := t) (p := .linked a old) (by rw [haddr]; rfl) (by
        intro x o e; simp at e; obtain ⟨rfl, rfl⟩ := e; simp [upd])
      refine ⟨l, hs, rs, ?_⟩
      have hb : (s.bad || !s.live a) = s.bad := by rw [h.insLive t a haddr]; simp
      rw [hb]; exact h2
    · simp at hst
  | casOk t =>
    simp only [step] at hst
    split at hst
    · rename_i a old ha
      split at hst
      · rename_i hhead
        simp only [Option.some.injEq] at hst; subst hst
        have haddr : (s.ins t).addr = some a := by rw [ha]; rfl
        have hnot := h.insNot t a haddr
        have hnext := h.linkedNext t a old ha
        have hseq := h.insTag t a haddr
        refine ⟨a :: l, hs, rs, ?_⟩
        have key : ∀ u x, (upd s.ins t .idle u).addr = some x → u ≠ t ∧ (s.ins u).addr = some x := by
          intro u x hu; simp only [upd] at hu; split at hu
          · simp [IPc.addr] at hu
          · rename_i e; exact ⟨e, hu⟩
        constructor
        · refine ⟨rfl, ?_⟩
          show chain s.next (s.next a) l
          rw [hnext, ← hhead]; exact h.chain
        · exact h.held
        · simp only [List.cons_append, List.nodup_cons]; exact ⟨hnot, h.nodup⟩
        · intro x hx
          simp only [List.cons_append, List.mem_cons] at hx
          rcases hx with rfl | hx
          · exact h.insLive t x haddr
          · exact h.live x hx
        · intro u x hu; exact h.insLive u x (key u x hu).2
        · intro u x hu
          simp only [List.cons_append, List.mem_cons, not_or]
          refine ⟨?_, h.insNot u x (key u x hu).2⟩
          intro e; subst e
          exact (key u x hu).1 (h.insDiff u t x (key u x hu).2 haddr)
        · intro u v x hu hv; exact h.insDiff u v x (key u x hu).2 (key v x hv).2
        · intro u x old' hu
          simp only [upd] at hu
          split at hu
          · simp at hu
          · exact h.linkedNext u x old' hu
        · simp only [h.order]; simp
        · intro u x hu; exact h.insTag u x (key u x hu).2
        · intro u
          simp only [List.filter_append, List.map_append, h.perThread u]
          by_cases e : u = t
          · subst e
            have h1 : (upd s.ins u .idle u).addr = none := by simp [upd, IPc.addr]
            simp only [h1, haddr, hseq.2, decide_true]
            simp only [List.filter_cons_of_pos, hseq.2, decide_true, List.filter_nil, List.map_cons, List.map_nil, Option.isSome_some,
              Option.isSome_none, if_true, Bool.false_eq_true, if_false]
            rw [hseq.1, Nat.add_sub_cancel, Nat.sub_zero, List.range_succ]
          · have h1 : upd s.ins t .idle u = s.ins u := by simp [upd, e]
            have h2 : ¬ (t = u) := fun e' => e e'.symm
            simp [h1, hseq.2, h2]
        · exact h.drained
        · exact h.notBad
      · simp at hst
    · simp at hst
  | begin =>
    simp only [step] at hst
    split at hst
    · rename_i hsw
      simp only [Option.some.injEq] at hst; subst hst
      have hh := h.held
      rw [hsw] at hh
      exact ⟨l, hs, rs, { h with held := hh }⟩
    · simp at hst
  | drain => obtain ⟨l', hs', rs', hi, _⟩ := inv_drain h hst; exact ⟨l', hs', rs', hi⟩

theorem inv_reach {s : S} (h : Reach s) : ∃ l hs rs, Inv s l hs rs := by
  induction h with
  | init => exact ⟨[], [], [], inv_init⟩
  | step a _ hst ih => obtain ⟨l, hs, rs, hi⟩ := ih; exact inv_step hi a hst

theorem nodup_of_per_thread : ∀ (l : List Tag), (∀ t, ((l.filter (fun g => g.thread = t)).map (·.seq)).Nodup) → l.Nodup
  | [], _ => List.nodup_nil
  | g :: l, h => by
    rw [List.nodup_cons]
    constructor
    · intro hm
      have := h g.thread
      rw [List.filter_cons_of_pos (by simp), List.map_cons, List.nodup_cons] at this
      exact this.1 (List.mem_map.2 ⟨g, List.mem_filter.2 ⟨hm, by simp⟩, rfl⟩)
    · refine nodup_of_per_thread l (fun t => ?_)
      have := h t
      by_cases e : g.thread = t
      · rw [List.filter_cons_of_pos (by simp [e]), List.map_cons, List.nodup_cons] at this; exact this.2
      · rw [List.filter_cons_of_neg (by simp [e])] at this; exact this

/-! ## C12: the properties -/

/-- **C12.** No cleanup runs twice. -/
theorem cleanup_at_most_once {s : S} (h : Reach s) : s.ran.Nodup := by
  obtain ⟨l, hs, rs, hi⟩ := inv_reach h
  have hn : s.registered.Nodup := nodup_of_per_thread _ (fun t => by rw [hi.perThread t]; exact List.nodup_range)
  rw [hi.order, List.append_assoc] at hn
  exact (List.nodup_append.1 hn).1

/-- **C12.** Cleanups run in the order in which their registrations took effect. -/
theorem cleanup_fifo {s : S} (h : Reach s) : s.ran <+: s.registered := by
  obtain ⟨l, hs, rs, hi⟩ := inv_reach h
  rw [hi.order, List.append_assoc]
  exact List.prefix_append _ _

/-- **C12.** The cleanups of one thread run in the order that thread registered them, without gaps: those that have
run are its registrations number 0, 1, ..., `k - 1`. -/
theorem cleanup_thread_order {s : S} (h : Reach s) (t : Nat) :
    ∃ k, k ≤ s.seq t ∧ (s.ran.filter (fun g => g.thread = t)).map (·.seq) = List.range k := by
  obtain ⟨l, hs, rs, hi⟩ := inv_reach h
  have hp := hi.perThread t
  obtain ⟨rest, hrest⟩ := cleanup_fifo h
  rw [← hrest, List.filter_append, List.map_append] at hp
  generalize (s.ran.filter (fun g => g.thread = t)).map (·.seq) = x at hp
  generalize (rest.filter (fun g => g.thread = t)).map (·.seq) = y at hp
  generalize hm : s.seq t - (if (s.ins t).addr.isSome then 1 else 0) = m at hp
  refine ⟨x.length, ?_, ?_⟩
  · have := congrArg List.length hp
    simp at this; omega
  · have h1 : x = (List.range m).take x.length := by rw [← hp, List.take_left]
    have h2 := congrArg List.length hp
    simp at h2
    rw [h1, List.take_range]
    congr 1
    simp

/-- **C12.** When a drain returns, every cleanup registered so far has run: the list of cleanups run at that moment is the
list of registrations completed at that moment. -/
theorem cleanup_drain_complete {s s' : S} (h : Reach s) (a : Act) (hst : step s a = some s') (hd : s'.drained ≠ s.drained) :
    s'.drained = s.drained ++ [s.registered] ∧ s'.ran = s'.registered := by
  obtain ⟨l, hs, rs, hi⟩ := inv_reach h
  cases a with
  | drain =>
    simp only [step] at hst
    split at hst
    · simp at hst
    · rename_i hsw
      have hh := hi.held
      rw [hsw] at hh
      obtain ⟨rfl, rfl⟩ := hh
      split at hst
      · rename_i hhead
        simp only [Option.some.injEq] at hst; subst hst
        have hc := hi.chain
        rw [hhead] at hc
        have ho := hi.order
        cases l with
        | cons x l => simp [chain] at hc
        | nil => simp at ho; simp [ho]
      · simp only [Option.some.injEq] at hst; subst hst; exact absurd rfl hd
    all_goals (simp only [Option.some.injEq] at hst; subst hst; exact absurd rfl hd)
  | _ =>
    exfalso; apply hd
    simp only [step] at hst
    split at hst
    · first
      | (simp only [Option.some.injEq] at hst; subst hst; rfl)
      | (split at hst
         · simp only [Option.some.injEq] at hst; subst hst; rfl
         · simp at hst)
    · simp at hst

/-- **C12.** No step reads, writes or deletes a node that has been deleted. -/
theorem cleanup_no_use_after_free {s : S} (h : Reach s) : s.bad = false := by
  obtain ⟨l, hs, rs, hi⟩ := inv_reach h
  exact hi.notBad

/-- `n` steps of the drainer alone. -/
def drains : Nat → S → Option S
  | 0, s => some s
  | n + 1, s => match step s .drain with
    | some s' => drains n s'
    | none => none

/-- **C12.** A drain that nobody interferes with returns. -/
theorem cleanup_drain_returns {s : S} (h : Reach s) : ∃ n s', drains n s = some s' ∧ s'.sw = .idle ∧ (s.sw ≠ .idle → s'.ran = s.registered) := by
  obtain ⟨l, hs, rs, hi⟩ := inv_reach h
  generalize hm : work s l hs rs = m
  induction m using Nat.strongRecOn generalizing s l hs rs with
  | _ m ih =>
    cases hst : step s .drain with
    | none =>
      have hidle : s.sw = .idle := by
        simp only [step] at hst
        split at hst
        · assumption
        · split at hst <;> simp at hst
        all_goals simp at hst
      exact ⟨0, s, rfl, hidle, fun h' => absurd hidle h'⟩
    | some s1 =>
      obtain ⟨l1, hs1, rs1, hi1, hlt⟩ := inv_drain hi hst
      obtain ⟨n, s', hn, hs', hr'⟩ := ih _ (by omega) (.step .drain h hst) l1 hs1 rs1 hi1 rfl
      refine ⟨n + 1, s', by simp [drains, hst, hn], hs', fun _ => ?_⟩
      by_cases e : s1.sw = .idle
      · have hd : s1.drained ≠ s.drained ∧ s1.ran = s.ran ∧ s1.registered = s.registered := by
          simp only [step] at hst
          split at hst
          · simp at hst
          · split at hst
            · simp only [Option.some.injEq] at hst; subst hst; simp
            · simp only [Option.some.injEq] at hst; subst hst; simp at e
          all_goals (simp only [Option.some.injEq] at hst; subst hst; simp at e)
        have hc := (cleanup_drain_complete h .drain hst hd.1).2
        have : n = 0 ∨ n ≠ 0 := by omega
        rcases this with rfl | hn0
        · simp [drains] at hn; subst hn; rw [hc, hd.2.2]
        · obtain ⟨k, rfl⟩ : ∃ k, n = k + 1 := ⟨n - 1, by omega⟩
          have : step s1 .drain = none := by simp [step, e]
          simp [drains, this] at hn
      · rw [hr' e]
        simp only [step] at hst
        split at hst
        · simp at hst
        · split at hst <;> (simp only [Option.some.injEq] at hst; subst hst; rfl)
        all_goals (simp only [Option.some.injEq] at hst; subst hst; rfl)

/-- A run with two registering threads, a failed compare-and-swap, and a drain: both cleanups ran, in registration order, and
address 7 was used for the first node and, after its deletion, for a third one. -/
def demo : List Act :=
  [.alloc 0 7, .load 0, .alloc 1 8, .load 1, .link 1, .link 0, .casOk 1, .casFail 0, .link 0, .casOk 0, .begin, .drain, .drain, .drain, .drain,
   .drain, .drain, .drain, .drain, .alloc 1 7]

def exec (s : S) : List Act → Option S
  | [] => some s
  | a :: as => match step s a with
    | some s' => exec s' as
    | none => none

theorem exec_reach {s s' : S} (h : Reach s) (as : List Act) (he : exec s as = some s') : Reach s' := by
  induction as generalizing s with
  | nil => simp [exec] at he; subst he; exact h
  | cons a as ih =>
    simp only [exec] at he
    split at he
    · rename_i s1 hs; exact ih (.step a h hs) he
    · simp at he

example : (exec {} demo).map (fun s => (s.ran, s.registered, s.drained, s.sw)) =
    some ([⟨1, 0⟩, ⟨0, 0⟩], [⟨1, 0⟩, ⟨0, 0⟩], [[⟨1, 0⟩, ⟨0, 0⟩]], .idle) := by decide

end Verif.Ctx.CleanupList
