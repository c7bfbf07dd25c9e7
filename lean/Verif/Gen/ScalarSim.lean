import Verif.Gen.ScalarSem
/-!
# The code emitted for an expression does what the two passes do on values
-/
namespace Verif.Gen.Scalar
open Verif.Ast Verif.Ast.Rpn

/-- Two lists of the same length, related element by element. -/
inductive All2 {α β : Type} (R : α → β → Prop) : List α → List β → Prop
  | nil : All2 R [] []
  | cons {a b as bs} : R a b → All2 R as bs → All2 R (a :: as) (b :: bs)

namespace All2
variable {α β : Type} {R S : α → β → Prop}
theorem mono (h : ∀ a b, R a b → S a b) {as : List α} {bs : List β} (x : All2 R as bs) : All2 S as bs := by
  induction x with
  | nil => exact .nil
  | cons r _ ih => exact .cons (h _ _ r) ih
theorem length {as : List α} {bs : List β} (x : All2 R as bs) : as.length = bs.length := by
  induction x with
  | nil => rfl
  | cons _ _ ih => simp [ih]
theorem take {as : List α} {bs : List β} (x : All2 R as bs) : ∀ n, All2 R (as.take n) (bs.take n) := by
  induction x with
  | nil => intro n; simp; exact .nil
  | cons r _ ih => intro n; cases n with
    | zero => exact .nil
    | succ n => exact .cons r (ih n)
theorem drop {as : List α} {bs : List β} (x : All2 R as bs) : ∀ n, All2 R (as.drop n) (bs.drop n) := by
  induction x with
  | nil => intro n; simp; exact .nil
  | cons r h ih => intro n; cases n with
    | zero => exact .cons r h
    | succ n => exact ih n
theorem append {as cs : List α} {bs ds : List β} (x : All2 R as bs) (y : All2 R cs ds) : All2 R (as ++ cs) (bs ++ ds) := by
  induction x with
  | nil => exact y
  | cons r _ ih => exact .cons r ih
theorem reverse {as : List α} {bs : List β} (x : All2 R as bs) : All2 R as.reverse bs.reverse := by
  induction x with
  | nil => exact .nil
  | cons r _ ih => rw [List.reverse_cons, List.reverse_cons]; exact ih.append (.cons r .nil)
end All2

section
variable {Ty V W : Type} [DecidableEq Ty] (rt : Rt Ty V W)

/-- What `named_values` says. -/
abbrev Vars (Ty : Type) := Name → Option (Option (Ty × Nat))

theorem run_append (a b : List (Instr Ty V)) : ∀ rs, run rt (a ++ b) rs = (run rt a rs).bind (run rt b) := by
  induction a with
  | nil => intro rs; rfl
  | cons i a ih =>
    intro rs
    rw [List.cons_append, run, run]
    cases run1 rt rs i with
    | none => rfl
    | some rs' => exact ih rs'

/-! ## Generators that declare and store nothing -/

def Stat {α : Type} (x : G Ty V α) : Prop := ∀ cs a is cs', x cs = some (a, is, cs') → cs'.vars = cs.vars ∧ cs'.nslot = cs.nslot

theorem Stat.ret {α : Type} (a : α) : Stat (G.ret a : G Ty V α) := by
  intro cs b is cs' h; simp [G.ret] at h; obtain ⟨_, _, rfl⟩ := h; exact ⟨rfl, rfl⟩
theorem Stat.fail {α : Type} : Stat (G.fail : G Ty V α) := by intro cs b is cs' h; simp [G.fail] at h
theorem Stat.bind {α β : Type} {x : G Ty V α} {f : α → G Ty V β} (hx : Stat x) (hf : ∀ a, Stat (f a)) : Stat (x.andThen f) := by
  intro cs b is cs' h
  unfold G.andThen at h
  cases hxc : x cs with
  | none => rw [hxc] at h; simp at h
  | some r =>
    rw [hxc] at h
    simp only [Option.bind_some] at h
    cases hfc : f r.1 r.2.2 with
    | none => rw [hfc] at h; simp at h
    | some q =>
      rw [hfc] at h
      simp only [Option.map_some, Option.some.injEq, Prod.mk.injEq] at h
      obtain ⟨_, _, rfl⟩ := h
      have h1 := hx cs r.1 r.2.1 r.2.2 hxc
      have h2 := hf r.1 r.2.2 q.1 q.2.1 q.2.2 hfc
      exact ⟨h2.1.trans h1.1, h2.2.trans h1.2⟩
theorem Stat.get {α β : Type} {o : Option α} {f : α → G Ty V β} (hf : ∀ a, Stat (f a)) : Stat (G.get o f) := by
  cases o with
  | none => exact Stat.fail
  | some a => exact hf a
theorem Stat.push (i : Instr Ty V) : Stat (G.push i) := by
  intro cs b is cs' h; simp [G.push] at h; obtain ⟨_, _, rfl⟩ := h; exact ⟨rfl, rfl⟩
theorem Stat.ite {α : Type} {p : Prop} [Decidable p] {x y : G Ty V α} (hx : Stat x) (hy : Stat y) : Stat (if p then x else y) := by
  by_cases h : p
  · rw [if_pos h]; exact hx
  · rw [if_neg h]; exact hy

theorem stat_ld (h : H Ty V) : Stat (ld h) := by
  cases h with
  | imm t o => exact Stat.ret _
  | var n =>
    intro cs b is cs' h
    unfold ld at h
    dsimp only at h
    split at h
    · simp at h; obtain ⟨_, _, rfl⟩ := h; exact ⟨rfl, rfl⟩
    · simp at h
theorem stat_castTo (t : Ty) (x : Ty × Opd V) : Stat (castTo rt t x) := Stat.ite (Stat.ret _) (Stat.get fun _ => Stat.push _)
theorem stat_gUn (op : UnOp) (h : H Ty V) : Stat (gUn rt op h) := (stat_ld h).bind fun _ => Stat.get fun _ => (Stat.push _).bind fun _ => Stat.ret _
theorem stat_gBin (op : BinOp) (h1 h2 : H Ty V) : Stat (gBin rt op h1 h2) :=
  (stat_ld h1).bind fun _ => (stat_ld h2).bind fun _ => Stat.get fun _ => (stat_castTo rt _ _).bind fun _ => (stat_castTo rt _ _).bind fun _ => Stat.get fun _ =>
    (Stat.push _).bind fun _ => Stat.ret _
theorem stat_gSel (h1 h2 h3 : H Ty V) : Stat (gSel rt h1 h2 h3) :=
  (stat_ld h1).bind fun _ => (stat_ld h2).bind fun _ => (stat_ld h3).bind fun _ => Stat.ite (Stat.get fun _ => (stat_castTo rt _ _).bind fun _ => (stat_castTo rt _ _).bind fun _ =>
    (Stat.push _).bind fun _ => Stat.ret _) Stat.fail
theorem stat_lds (hs : List (H Ty V)) : Stat (lds hs) := by
  induction hs with
  | nil => exact Stat.ret _
  | cons h hs ih => exact (stat_ld h).bind fun _ => ih.bind fun _ => Stat.ret _
theorem stat_castsTo (ts : List Ty) : ∀ xs : List (Ty × Opd V), Stat (castsTo rt ts xs) := by
  induction ts with
  | nil => intro xs; cases xs with
    | nil => exact Stat.ret _
    | cons _ _ => exact Stat.fail
  | cons t ts ih => intro xs; cases xs with
    | nil => exact Stat.fail
    | cons x xs => exact (stat_castTo rt t x).bind fun _ => (ih xs).bind fun _ => Stat.ret _
theorem stat_gInl (n : Name) (hs : List (H Ty V)) : Stat (gInl rt n hs) := (stat_lds hs).bind fun _ => Stat.get fun _ => (Stat.push _).bind fun _ => Stat.ret _
theorem stat_gCall (n : Name) (hs : List (H Ty V)) : Stat (gCall rt n hs) :=
  Stat.get fun _ => (stat_lds hs).bind fun _ => (stat_castsTo rt _ _).bind fun _ => (Stat.push _).bind fun _ => Stat.ret _

/-! ## Simulation -/

/-- A run from the registers `regs`, with the variables and slots fixed, does what `m` does, and the results are related. -/
def Sim {α β : Type} (vars : Vars Ty) (slots : Nat → V) (regs : List V) (x : G Ty V α) (m : M W β) (R : List V → α → β → Prop) : Prop :=
  ∀ cs, cs.vars = vars → cs.nreg = regs.length → ∀ a is cs', x cs = some (a, is, cs') → ∀ w,
    match m w with
    | none => run rt is ⟨regs, slots, w⟩ = none
    | some r => ∃ ext, run rt is ⟨regs, slots, w⟩ = some ⟨regs ++ ext, slots, r.1⟩ ∧ cs'.nreg = (regs ++ ext).length ∧ R (regs ++ ext) a r.2

variable {rt}
variable {vars : Vars Ty} {slots : Nat → V}

theorem Sim.ret {α β : Type} {regs : List V} {a : α} {b : β} {R : List V → α → β → Prop} (h : R regs a b) : Sim rt vars slots regs (G.ret a) (M.ret b) R := by
  intro cs _ hn a' is cs' h1 w
  simp [G.ret] at h1
  obtain ⟨rfl, rfl, rfl⟩ := h1
  refine ⟨[], ?_, ?_, ?_⟩
  · simp [run]
  · simpa using hn
  · simpa using h

theorem Sim.fail {α β : Type} {regs : List V} {m : M W β} {R : List V → α → β → Prop} : Sim rt vars slots regs (G.fail : G Ty V α) m R := by
  intro cs _ _ a is cs' h
  simp [G.fail] at h

theorem Sim.get {α β γ : Type} {regs : List V} {o : Option α} {f : α → G Ty V β} {m : M W γ} {R : List V → β → γ → Prop}
    (h : ∀ a, o = some a → Sim rt vars slots regs (f a) m R) : Sim rt vars slots regs (G.get o f) m R := by
  cases o with
  | none => exact Sim.fail
  | some a => exact h a rfl

theorem Sim.ite {α β : Type} {regs : List V} {p : Prop} [Decidable p] {x y : G Ty V α} {m : M W β} {R : List V → α → β → Prop}
    (hx : p → Sim rt vars slots regs x m R) (hy : ¬ p → Sim rt vars slots regs y m R) : Sim rt vars slots regs (if p then x else y) m R := by
  by_cases h : p
  · rw [if_pos h]; exact hx h
  · rw [if_neg h]; exact hy h

theorem Sim.bind {α β γ δ : Type} {regs : List V} {x : G Ty V α} {m : M W β} {R : List V → α → β → Prop} {f : α → G Ty V γ} {n : β → M W δ} {Q : List V → γ → δ → Prop}
    (hx : Sim rt vars slots regs x m R) (sx : Stat x) (hf : ∀ ext a b, R (regs ++ ext) a b → Sim rt vars slots (regs ++ ext) (f a) (n b) Q) :
    Sim rt vars slots regs (x.andThen f) (m.andThen n) Q := by
  intro cs hv hn c is cs' h w
  unfold G.andThen at h
  cases hxc : x cs with
  | none => rw [hxc] at h; simp at h
  | some r =>
    rw [hxc] at h
    simp only [Option.bind_some] at h
    cases hfc : f r.1 r.2.2 with
    | none => rw [hfc] at h; simp at h
    | some q =>
      rw [hfc] at h
      simp only [Option.map_some, Option.some.injEq, Prod.mk.injEq] at h
      obtain ⟨rfl, rfl, rfl⟩ := h
      have h1 := hx cs hv hn r.1 r.2.1 r.2.2 hxc w
      rw [run_append]
      unfold M.andThen
      cases hm : m w with
      | none => rw [hm] at h1; simp only at h1; simp [h1]
      | some p =>
        rw [hm] at h1
        obtain ⟨ext, e1, e2, e3⟩ := h1
        have h2 := hf ext r.1 p.2 e3 r.2.2 ((sx cs r.1 r.2.1 r.2.2 hxc).1.trans hv) e2 q.1 q.2.1 q.2.2 hfc p.1
        rw [e1]
        simp only [Option.bind_some]
        cases hnn : n p.2 p.1 with
        | none => rw [hnn] at h2; exact h2
        | some z =>
          rw [hnn] at h2
          obtain ⟨ext2, f1, f2, f3⟩ := h2
          exact ⟨ext ++ ext2, by rw [f1, List.append_assoc], by rw [f2, List.append_assoc], by rw [← List.append_assoc]; exact f3⟩

theorem Sim.conseq {α β : Type} {regs : List V} {x : G Ty V α} {m : M W β} {R Q : List V → α → β → Prop} (h : Sim rt vars slots regs x m R)
    (hq : ∀ ext a b, R (regs ++ ext) a b → Q (regs ++ ext) a b) : Sim rt vars slots regs x m Q := by
  intro cs hv hn a is cs' hx w
  have h1 := h cs hv hn a is cs' hx w
  cases hm : m w with
  | none => rw [hm] at h1; exact h1
  | some r =>
    rw [hm] at h1
    obtain ⟨ext, e1, e2, e3⟩ := h1
    exact ⟨ext, e1, e2, hq _ _ _ e3⟩

/-- The value of an operand among registers. -/
def opdAt (regs : List V) : Opd V → Option V
  | .reg i => regs[i]?
  | .const v => some v

theorem opd_at (regs : List V) (slots : Nat → V) (w : W) (o : Opd V) : RS.opd ⟨regs, slots, w⟩ o = opdAt regs o := by cases o <;> rfl

theorem opdAt_ext {regs : List V} {o : Opd V} {v : V} (h : opdAt regs o = some v) (ext : List V) : opdAt (regs ++ ext) o = some v := by
  cases o with
  | const u => exact h
  | reg i =>
    have h' : regs[i]? = some v := h
    have hi : i < regs.length := (List.getElem?_eq_some_iff.mp h').1
    show (regs ++ ext)[i]? = some v
    rw [List.getElem?_append_left hi]; exact h'

theorem opds_at (slots : Nat → V) (w : W) {regs : List V} {os : List (Opd V)} {vs : List V} (h : All2 (fun o v => opdAt regs o = some v) os vs) :
    RS.opds ⟨regs, slots, w⟩ os = some vs := by
  induction h with
  | nil => rfl
  | cons r _ ih => rw [RS.opds, opd_at, r, ih]; rfl

theorem Sim.push {regs : List V} {i : Instr Ty V} {m : M W V} (h : ∀ w, run1 rt ⟨regs, slots, w⟩ i = (m w).map fun r => ⟨regs ++ [r.2], slots, r.1⟩) :
    Sim rt vars slots regs (G.push i) m (fun regs' o v => opdAt regs' o = some v) := by
  intro cs _ hn a is cs' h1 w
  simp [G.push] at h1
  obtain ⟨rfl, rfl, rfl⟩ := h1
  have hr := h w
  cases hm : m w with
  | none => rw [hm] at hr; simp [run, hr]
  | some r =>
    rw [hm] at hr
    refine ⟨[r.2], ?_, ?_, ?_⟩
    · simp [run, hr]
    · simp [hn]
    · simp [opdAt, hn]

/-! ## Values and their descriptions -/

/-- A handle stands for a value. -/
def Den (vars : Vars Ty) (slots : Nat → V) (regs : List V) (h : H Ty V) (v : TV Ty V) : Prop := match h with
  | .var n => ∃ b, vars n = some (some b) ∧ v = (b.1, slots b.2)
  | .imm t o => v.1 = t ∧ opdAt regs o = some v.2

theorem Den.ext {regs : List V} {h : H Ty V} {v : TV Ty V} (x : Den vars slots regs h v) (ext : List V) : Den vars slots (regs ++ ext) h v := by
  cases h with
  | var n => exact x
  | imm t o => exact ⟨x.1, opdAt_ext x.2 ext⟩

/-- A loaded value. -/
def DenX (regs : List V) (x : Ty × Opd V) (v : TV Ty V) : Prop := v.1 = x.1 ∧ opdAt regs x.2 = some v.2

theorem DenX.ext {regs : List V} {x : Ty × Opd V} {v : TV Ty V} (h : DenX regs x v) (ext : List V) : DenX (regs ++ ext) x v := ⟨h.1, opdAt_ext h.2 ext⟩

theorem sim_ld {regs : List V} {h : H Ty V} {v : TV Ty V} (hd : Den vars slots regs h v) : Sim rt vars slots regs (ld h) (M.ret v) (fun r x u => DenX r x u) := by
  cases h with
  | imm t o => exact Sim.ret hd
  | var n =>
    intro cs hv hn a is cs' h w
    unfold ld at h
    dsimp only at h
    obtain ⟨b, hb, rfl⟩ := hd
    rw [hv, hb] at h
    simp at h
    obtain ⟨rfl, rfl, rfl⟩ := h
    refine ⟨[slots b.2], ?_, ?_, ?_⟩
    · simp [run, run1, RS.push]
    · simp [hn]
    · exact ⟨rfl, by simp [opdAt, hn]⟩

theorem sim_castTo {regs : List V} {x : Ty × Opd V} {v : TV Ty V} (t : Ty) (hd : DenX regs x v) :
    Sim rt vars slots regs (castTo rt t x) (M.lift (castTV rt t v)) (fun r o u => opdAt r o = some u) := by
  unfold castTo castTV
  rw [hd.1]
  by_cases h : x.1 = t
  · rw [if_pos h, if_pos h, M.lift_ret]
    exact Sim.ret hd.2
  · rw [if_neg h, if_neg h]
    refine Sim.get fun f hf => ?_
    rw [hf]
    refine Sim.push fun w => ?_
    simp [run1, hf, opd_at, hd.2, M.lift, RS.push]

theorem sim_gUn {regs : List V} {h : H Ty V} {v : TV Ty V} (op : UnOp) (hd : Den vars slots regs h v) :
    Sim rt vars slots regs (gUn rt op h) (M.lift (unTV rt op v)) (Den vars slots) := by
  unfold gUn
  rw [← M.ret_then v fun u => M.lift (unTV rt op u)]
  refine Sim.bind (sim_ld hd) (stat_ld h) fun ext x u hx => ?_
  refine Sim.get fun r hr => ?_
  have : (M.lift (unTV rt op u) : M W (TV Ty V)) = (M.lift (r.2 u.2)).andThen fun y => M.ret (r.1, y) := by
    unfold unTV; rw [hx.1, hr]; exact M.lift_map _ _
  rw [this]
  refine Sim.bind (Sim.push fun w => ?_) (Stat.push _) fun ext2 o y hy => Sim.ret ⟨rfl, hy⟩
  simp only [run1, hr, opd_at, hx.2, Option.bind_some, M.lift]
  cases r.2 u.2 <;> rfl

theorem sim_gBin {regs : List V} {h1 h2 : H Ty V} {v1 v2 : TV Ty V} (op : BinOp) (d1 : Den vars slots regs h1 v1) (d2 : Den vars slots regs h2 v2) :
    Sim rt vars slots regs (gBin rt op h1 h2) (M.lift (binTV rt op v1 v2)) (Den vars slots) := by
  unfold gBin
  rw [← M.ret_then v1 fun u => M.lift (binTV rt op u v2)]
  refine Sim.bind (sim_ld d1) (stat_ld h1) fun e1 x u hx => ?_
  rw [← M.ret_then v2 fun z => M.lift (binTV rt op u z)]
  refine Sim.bind (sim_ld (d2.ext e1)) (stat_ld h2) fun e2 y z hy => ?_
  refine Sim.get fun c hc => ?_
  have : (M.lift (binTV rt op u z) : M W (TV Ty V)) = (M.lift (castTV rt c u)).andThen fun a => (M.lift (castTV rt c z)).andThen fun b =>
      M.lift ((rt.binOp op c).bind fun r => (r.2 a b).map fun v => (r.1, v)) := by
    unfold binTV; rw [hx.1, hy.1, meet_eq, hc]; simp only [Option.bind_some, M.lift_bind]
  rw [this]
  refine Sim.bind (sim_castTo c (hx.ext e2)) (stat_castTo rt c x) fun e3 a a' ha => ?_
  refine Sim.bind (sim_castTo c (hy.ext e3)) (stat_castTo rt c y) fun e4 b b' hb => ?_
  refine Sim.get fun r hr => ?_
  have : (M.lift ((rt.binOp op c).bind fun r => (r.2 a' b').map fun v => (r.1, v)) : M W (TV Ty V)) = (M.lift (r.2 a' b')).andThen fun v => M.ret (r.1, v) := by
    rw [hr]; exact M.lift_map _ _
  rw [this]
  refine Sim.bind (Sim.push fun w => ?_) (Stat.push _) fun e5 o v ho => Sim.ret ⟨rfl, ho⟩
  simp only [run1, hr, opd_at, opdAt_ext ha, hb, Option.bind_some, M.lift]
  cases r.2 a' b' <;> rfl

theorem sim_gSel {regs : List V} {h1 h2 h3 : H Ty V} {v1 v2 v3 : TV Ty V} (d1 : Den vars slots regs h1 v1) (d2 : Den vars slots regs h2 v2) (d3 : Den vars slots regs h3 v3) :
    Sim rt vars slots regs (gSel rt h1 h2 h3) (M.lift (selTV rt v1 v2 v3)) (Den vars slots) := by
  unfold gSel
  rw [← M.ret_then v1 fun u => M.lift (selTV rt u v2 v3)]
  refine Sim.bind (sim_ld d1) (stat_ld h1) fun e1 c c' hc => ?_
  rw [← M.ret_then v2 fun u => M.lift (selTV rt c' u v3)]
  refine Sim.bind (sim_ld (d2.ext e1)) (stat_ld h2) fun e2 x x' hx => ?_
  rw [← M.ret_then v3 fun u => M.lift (selTV rt c' x' u)]
  refine Sim.bind (sim_ld ((d3.ext e1).ext e2)) (stat_ld h3) fun e3 y y' hy => ?_
  refine Sim.ite (fun hb => Sim.get fun t ht => ?_) fun _ => Sim.fail
  have : (M.lift (selTV rt c' x' y') : M W (TV Ty V)) = (M.lift (castTV rt t x')).andThen fun a => (M.lift (castTV rt t y')).andThen fun b =>
      M.ret (t, if rt.truth c'.2 = true then a else b) := by
    unfold selTV; rw [hx.1, hy.1, hc.1, meet_eq, ht, if_pos hb]; simp only [Option.bind_some, M.lift_bind, M.lift_map]
  rw [this]
  refine Sim.bind (sim_castTo t (hx.ext e3)) (stat_castTo rt t x) fun e4 a a' ha => ?_
  refine Sim.bind (sim_castTo t (hy.ext e4)) (stat_castTo rt t y) fun e5 b b' hb' => ?_
  rw [← M.ret_then (if rt.truth c'.2 = true then a' else b') fun v => (M.ret (t, v) : M W (TV Ty V))]
  refine Sim.bind (Sim.push fun w => ?_) (Stat.push _) fun e6 o v ho => Sim.ret ⟨rfl, ho⟩
  have hcc := opdAt_ext (opdAt_ext (opdAt_ext (opdAt_ext hc.2 e2) e3) e4) e5
  simp only [run1, opd_at, hcc, opdAt_ext ha, hb', Option.bind_some, Option.map_some, M.ret]
  rfl

theorem sim_lds {hs : List (H Ty V)} {vs : List (TV Ty V)} : ∀ {regs : List V}, All2 (Den vars slots regs) hs vs →
    Sim rt vars slots regs (lds hs) (M.ret vs) (fun r xs us => All2 (DenX r) xs us) := by
  induction hs generalizing vs with
  | nil => intro regs h; cases h; exact Sim.ret .nil
  | cons h hs ih =>
    intro regs hd
    cases hd with
    | @cons _ v _ vs d ds =>
    rw [lds, ← M.ret_then v fun u => (M.ret (u :: vs) : M W (List (TV Ty V)))]
    refine Sim.bind (sim_ld d) (stat_ld h) fun e1 x u hx => ?_
    rw [← M.ret_then vs fun us => (M.ret (u :: us) : M W (List (TV Ty V)))]
    refine Sim.bind (ih (ds.mono fun _ _ q => q.ext e1)) (stat_lds hs) fun e2 xs us hxs => Sim.ret (.cons (hx.ext e2) hxs)

theorem sim_castsTo (ts : List Ty) : ∀ {xs : List (Ty × Opd V)} {vs : List (TV Ty V)} {regs : List V}, All2 (DenX regs) xs vs →
    Sim rt vars slots regs (castsTo rt ts xs) (M.lift (castsTV rt ts vs)) (fun r os us => All2 (fun o u => opdAt r o = some u) os us) := by
  induction ts with
  | nil => intro xs vs regs h; cases h with
    | nil => rw [castsTo, castsTV, M.lift_ret]; exact Sim.ret .nil
    | cons _ _ => exact Sim.fail
  | cons t ts ih => intro xs vs regs h; cases h with
    | nil => exact Sim.fail
    | @cons x v xs vs d ds =>
      rw [castsTo, castsTV, M.lift_bind]
      refine Sim.bind (sim_castTo t d) (stat_castTo rt t x) fun e1 o u ho => ?_
      rw [M.lift_map]
      exact Sim.bind (ih (ds.mono fun _ _ q => q.ext e1)) (stat_castsTo rt ts xs) fun e2 os us hos => Sim.ret (.cons (opdAt_ext ho e2) hos)

theorem denX_types {regs : List V} {xs : List (Ty × Opd V)} {vs : List (TV Ty V)} (h : All2 (DenX regs) xs vs) : vs.map (·.1) = xs.map (·.1) := by
  induction h with
  | nil => rfl
  | cons r _ ih => simp [ih, r.1]

theorem denX_opds {regs : List V} {xs : List (Ty × Opd V)} {vs : List (TV Ty V)} (h : All2 (DenX regs) xs vs) :
    All2 (fun o v => opdAt regs o = some v) (xs.map (·.2)) (vs.map (·.2)) := by
  induction h with
  | nil => exact .nil
  | cons r _ ih => exact .cons r.2 ih

theorem sim_gInl {regs : List V} (n : Name) {hs : List (H Ty V)} {vs : List (TV Ty V)} (hd : All2 (Den vars slots regs) hs vs) :
    Sim rt vars slots regs (gInl rt n hs) (M.lift (inlTV rt n vs)) (Den vars slots) := by
  unfold gInl
  rw [← M.ret_then vs fun us => M.lift (inlTV rt n us)]
  refine Sim.bind (sim_lds hd) (stat_lds hs) fun e1 xs us hx => ?_
  refine Sim.get fun r hr => ?_
  have : (M.lift (inlTV rt n us) : M W (TV Ty V)) = (M.lift (r.2 (us.map (·.2)))).andThen fun v => M.ret (r.1, v) := by
    unfold inlTV; rw [denX_types hx, hr]; exact M.lift_map _ _
  rw [this]
  refine Sim.bind (Sim.push fun w => ?_) (Stat.push _) fun e2 o v ho => Sim.ret ⟨rfl, ho⟩
  simp only [run1, hr, opds_at slots w (denX_opds hx), Option.bind_some, M.lift]
  cases r.2 (us.map (·.2)) <;> rfl

theorem sim_gCall {regs : List V} (n : Name) {hs : List (H Ty V)} {vs : List (TV Ty V)} (hd : All2 (Den vars slots regs) hs vs) :
    Sim rt vars slots regs (gCall rt n hs) (callTV rt n vs) (Den vars slots) := by
  unfold gCall
  refine Sim.get fun f hf => ?_
  have : (callTV rt n vs : M W (TV Ty V)) = (M.ret vs).andThen fun us => (M.lift (castsTV rt f.1 us)).andThen fun xs => M.andThen (fun w => f.2.2 xs w) fun v => M.ret (f.2.1, v) := by
    funext w
    simp only [callTV, hf, M.andThen, M.ret, M.lift, Option.bind_some]
    cases castsTV rt f.1 vs with
    | none => rfl
    | some xs => simp only [Option.bind_some, Option.map_some]; cases f.2.2 xs w <;> rfl
  rw [this]
  refine Sim.bind (sim_lds hd) (stat_lds hs) fun e1 xs us hx => ?_
  refine Sim.bind (sim_castsTo f.1 hx) (stat_castsTo rt f.1 xs) fun e2 os zs ho => ?_
  refine Sim.bind (Sim.push fun w => ?_) (Stat.push _) fun e3 o v hv => Sim.ret ⟨rfl, hv⟩
  simp only [run1, hf, opds_at slots w ho, Option.bind_some]

/-! ## The stack machine -/

/-- A built node stands for a node with values; the operators do not assign. -/
def DenN (vars : Vars Ty) (slots : Nat → V) (regs : List V) : ENode (H Ty V) → ENode (TV Ty V) → Prop
  | .val h, .val v => Den vars slots regs h v
  | .op1 o, .op1 p => o = p
  | .op2 o, .op2 p => o = p ∧ o ≠ .assign ∧ baseOp o = none
  | .sel, .sel => True
  | .inl n, .inl m => n = m
  | _, _ => False

theorem DenN.ext {regs : List V} {a : ENode (H Ty V)} {b : ENode (TV Ty V)} (h : DenN vars slots regs a b) (ext : List V) : DenN vars slots (regs ++ ext) a b := by
  cases a <;> cases b <;> first | exact h | exact Den.ext h ext

theorem gOp2_plain (op : BinOp) (h1 h2 : H Ty V) (h : op ≠ .assign) (hb : baseOp op = none) : gOp2 rt op h1 h2 = gBin rt op h1 h2 := by
  unfold gOp2; rw [if_neg h, hb]

/-- Nodes whose operator, if it is one, does not assign. -/
def Calm {α : Type} : ENode α → Prop
  | .op2 o => o ≠ .assign ∧ baseOp o = none
  | _ => True

theorem DenN.calm {regs : List V} {a : ENode (H Ty V)} {b : ENode (TV Ty V)} (h : DenN vars slots regs a b) : Calm a := by
  cases a <;> first | trivial | (cases b <;> first | exact h.2 | exact h.elim)

theorem stat_gStep (inl : Inline) (n : ENode (H Ty V)) (hn : Calm n) (s : List (H Ty V)) : Stat (gStep rt inl n s) := by
  unfold gStep
  split
  · exact Stat.ret _
  · exact (stat_gUn rt _ _).bind fun _ => Stat.ret _
  · rw [gOp2_plain _ _ _ hn.1 hn.2]
    exact (stat_gBin rt _ _ _).bind fun _ => Stat.ret _
  · exact (stat_gSel rt _ _ _).bind fun _ => Stat.ret _
  · exact Stat.get fun _ => Stat.ite Stat.fail ((stat_gInl rt _ _).bind fun _ => Stat.ret _)
  · exact Stat.fail

theorem stat_gStack (inl : Inline) (ns : List (ENode (H Ty V))) (hn : ∀ n ∈ ns, Calm n) : ∀ s, Stat (gStack rt inl ns s) := by
  induction ns with
  | nil => intro s; exact Stat.ret _
  | cons n ns ih =>
    intro s
    rw [gStack]
    exact (stat_gStep inl n (hn n (by simp)) s).bind fun s' => ih (fun m hm => hn m (by simp [hm])) s'

theorem sim_gStep {regs : List V} (inl : Inline) {n : ENode (H Ty V)} {n' : ENode (TV Ty V)} {s : List (H Ty V)} {s' : List (TV Ty V)} (hn : DenN vars slots regs n n')
    (hs : All2 (Den vars slots regs) s s') : Sim rt vars slots regs (gStep rt inl n s) (M.lift (vStep rt inl n' s')) (fun r a b => All2 (Den vars slots r) a b) := by
  have ext : ∀ {regs : List V} {s : List (H Ty V)} {s' : List (TV Ty V)} (e : List V), All2 (Den vars slots regs) s s' → All2 (Den vars slots (regs ++ e)) s s' :=
    fun e h => h.mono fun _ _ q => q.ext e
  cases n with
  | val h => cases n' with
    | val v => rw [gStep, vStep, M.lift_ret]; exact Sim.ret (.cons hn hs)
    | _ => exact hn.elim
  | op1 o => cases n' with
    | op1 p =>
      have : o = p := hn
      subst this
      cases hs with
      | nil => exact Sim.fail
      | cons d ds =>
        rw [gStep, vStep, M.lift_map]
        exact Sim.bind (sim_gUn o d) (stat_gUn rt o _) fun e h v hv => Sim.ret (.cons hv (ext e ds))
    | _ => exact hn.elim
  | op2 o => cases n' with
    | op2 p =>
      obtain ⟨rfl, h1, h2⟩ := hn
      cases hs with
      | nil => exact Sim.fail
      | cons d ds => cases ds with
        | nil => exact Sim.fail
        | cons d2 ds =>
          rw [gStep, vStep, M.lift_map, gOp2_plain _ _ _ h1 h2]
          exact Sim.bind (sim_gBin o d2 d) (stat_gBin rt o _ _) fun e h v hv => Sim.ret (.cons hv (ext e ds))
    | _ => exact hn.elim
  | sel => cases n' with
    | sel =>
      cases hs with
      | nil => exact Sim.fail
      | cons d ds => cases ds with
        | nil => exact Sim.fail
        | cons d2 ds => cases ds with
          | nil => exact Sim.fail
          | cons d3 ds =>
            rw [gStep, vStep, M.lift_map]
            exact Sim.bind (sim_gSel d3 d2 d) (stat_gSel rt _ _ _) fun e h v hv => Sim.ret (.cons hv (ext e ds))
    | _ => exact hn.elim
  | inl m => cases n' with
    | inl p =>
      have : m = p := hn
      subst this
      have hg : gStep rt inl (.inl m) s = G.get (inl m) fun k => if s.length < k then G.fail else (gInl rt m (s.take k).reverse).andThen fun h => G.ret (h :: s.drop k) := by
        rw [gStep.eq_def]
      have hv : vStep rt inl (.inl m) s' = (inl m).bind fun k => if s'.length < k then none else (inlTV rt m (s'.take k).reverse).map (· :: s'.drop k) := by
        rw [vStep.eq_def]
      rw [hg, hv]
      refine Sim.get fun k hk => ?_
      rw [hk]
      simp only [Option.bind_some]
      rw [← hs.length]
      by_cases hl : s.length < k
      · rw [if_pos hl]; exact Sim.fail
      · rw [if_neg hl, if_neg hl, M.lift_map]
        exact Sim.bind (sim_gInl m (hs.take k).reverse) (stat_gInl rt m _) fun e h v hv => Sim.ret (.cons hv (ext e (hs.drop k)))
    | _ => exact hn.elim

theorem sim_gStack (inl : Inline) {ns : List (ENode (H Ty V))} : ∀ {ns' : List (ENode (TV Ty V))} {regs : List V} {s : List (H Ty V)} {s' : List (TV Ty V)},
    All2 (DenN vars slots regs) ns ns' → All2 (Den vars slots regs) s s' →
    Sim rt vars slots regs (gStack rt inl ns s) (M.lift (vStack rt inl ns' s')) (fun r a b => All2 (Den vars slots r) a b) := by
  induction ns with
  | nil => intro ns' regs s s' h hs; cases h; rw [gStack, vStack, M.lift_ret]; exact Sim.ret hs
  | cons n ns ih =>
    intro ns' regs s s' h hs
    cases h with
    | cons hn hns =>
      rw [gStack, vStack, M.lift_bind]
      exact Sim.bind (sim_gStep inl hn hs) (stat_gStep inl n hn.calm s) fun e a b hab => ih (hns.mono fun _ _ q => q.ext e) hab

/-! ## The pass over the operands -/

mutual
/-- Lists in which nothing is declared or assigned and every variable has a type if it is declared. -/
def SafeR (vars : Vars Ty) : Rpn → Prop
  | .nil => True
  | .cons n r => SafeN vars n ∧ SafeR vars r
def SafeN (vars : Vars Ty) : Node → Prop
  | .var n => vars n ≠ some none
  | .op2 o => o ≠ .assign ∧ baseOp o = none
  | .call _ rs => SafeRs vars rs
  | .define _ => False
  | .bool _ => True
  | .str _ => True
  | .num _ => True
  | .op1 _ => True
  | .sel => True
  | .inl _ => True
  | .array _ => False
  | .access _ _ => False
def SafeRs (vars : Vars Ty) : Rpns → Prop
  | .nil => True
  | .cons r rs => SafeR vars r ∧ SafeRs vars rs
end

/-- The environment the compiled code sees. -/
def envOf (vars : Vars Ty) (slots : Nat → V) : Env Ty V := fun n => match vars n with
  | some (some b) => some (b.1, slots b.2)
  | _ => none

theorem stat_single {α : Type} (s : List α) : Stat (G.get (single s) G.ret : G Ty V α) := Stat.get fun _ => Stat.ret _

theorem calm_ret {e : ENode (H Ty V)} (he : Calm e) : ∀ cs a is cs', (G.ret e : G Ty V (ENode (H Ty V))) cs = some (a, is, cs') → Calm a := by
  intro cs a is cs' h; simp [G.ret] at h; rw [← h.1]; exact he

/-- A property of everything a generator may return. -/
def Post {α : Type} (x : G Ty V α) (P : α → Prop) : Prop := ∀ cs a is cs', x cs = some (a, is, cs') → P a

theorem Post.ret {α : Type} {a : α} {P : α → Prop} (h : P a) : Post (G.ret a : G Ty V α) P := by
  intro cs b is cs' e; simp [G.ret] at e; rw [← e.1]; exact h
theorem Post.fail {α : Type} {P : α → Prop} : Post (G.fail : G Ty V α) P := by intro cs b is cs' e; simp [G.fail] at e
theorem Post.bind {α β : Type} {x : G Ty V α} {f : α → G Ty V β} {P : α → Prop} {Q : β → Prop} (hx : Post x P) (hf : ∀ a, P a → Post (f a) Q) : Post (x.andThen f) Q := by
  intro cs b is cs' h
  unfold G.andThen at h
  cases hxc : x cs with
  | none => rw [hxc] at h; simp at h
  | some r =>
    rw [hxc] at h
    simp only [Option.bind_some] at h
    cases hfc : f r.1 r.2.2 with
    | none => rw [hfc] at h; simp at h
    | some q =>
      rw [hfc] at h
      simp only [Option.map_some, Option.some.injEq, Prod.mk.injEq] at h
      rw [← h.1]
      exact hf r.1 (hx cs r.1 r.2.1 r.2.2 hxc) r.2.2 q.1 q.2.1 q.2.2 hfc
theorem Post.triv {α : Type} (x : G Ty V α) : Post x fun _ => True := fun _ _ _ _ _ => trivial
theorem Post.get {α β : Type} {o : Option α} {f : α → G Ty V β} {Q : β → Prop} (hf : ∀ a, Post (f a) Q) : Post (G.get o f) Q := by
  cases o with
  | none => exact Post.fail
  | some a => exact hf a

theorem post_gNode (inl : Inline) (n : Node) (hn : SafeN vars n) : Post (gNode rt inl n) Calm := by
  cases n with
  | bool _ => rw [gNode]; exact Post.ret trivial
  | str _ => rw [gNode]; exact Post.ret trivial
  | num _ => rw [gNode]; exact Post.get fun _ => Post.ret trivial
  | define _ => rw [SafeN] at hn; exact hn.elim
  | array _ => rw [gNode]; exact Post.fail
  | var n =>
    rw [gNode]
    intro cs a is cs' h
    dsimp only at h
    split at h
    · simp at h
    · simp at h; rw [← h.1]; trivial
  | call n rs => rw [gNode]; exact Post.bind (Post.triv _) fun _ _ => Post.bind (Post.triv _) fun _ _ => Post.ret trivial
  | access _ _ => rw [gNode]; exact Post.fail
  | op1 _ => rw [gNode]; exact Post.ret trivial
  | op2 _ => rw [gNode]; rw [SafeN] at hn; exact Post.ret hn
  | sel => rw [gNode]; exact Post.ret trivial
  | inl _ => rw [gNode]; exact Post.ret trivial

theorem post_gBuild (inl : Inline) (r : Rpn) : SafeR vars r → Post (gBuild rt inl r) (fun es => ∀ e ∈ es, Calm e) := by
  induction r using Rpn.rec (motive_1 := fun _ => True) (motive_3 := fun _ => True) (motive_4 := fun _ => True) (motive_5 := fun _ => True) with
  | nil => intro _; rw [gBuild]; exact Post.ret (by simp)
  | cons n r _ ih =>
    intro h
    rw [SafeR] at h
    rw [gBuild]
    refine Post.bind (post_gNode inl n h.1) fun e he => Post.bind (ih h.2) fun es hes => Post.ret ?_
    intro x hx
    rcases List.mem_cons.mp hx with rfl | hx
    · exact he
    · exact hes x hx
  | _ => trivial

/-- As `Stat.bind`, using what the first generator returns. -/
theorem Stat.bindP {α β : Type} {x : G Ty V α} {f : α → G Ty V β} {P : α → Prop} (hx : Stat x) (hp : Post x P) (hf : ∀ a, P a → Stat (f a)) : Stat (x.andThen f) := by
  intro cs b is cs' h
  unfold G.andThen at h
  cases hxc : x cs with
  | none => rw [hxc] at h; simp at h
  | some r =>
    rw [hxc] at h
    simp only [Option.bind_some] at h
    cases hfc : f r.1 r.2.2 with
    | none => rw [hfc] at h; simp at h
    | some q =>
      rw [hfc] at h
      simp only [Option.map_some, Option.some.injEq, Prod.mk.injEq] at h
      obtain ⟨_, _, rfl⟩ := h
      have h1 := hx cs r.1 r.2.1 r.2.2 hxc
      have h2 := hf r.1 (hp cs r.1 r.2.1 r.2.2 hxc) r.2.2 q.1 q.2.1 q.2.2 hfc
      exact ⟨h2.1.trans h1.1, h2.2.trans h1.2⟩

mutual
theorem stat_gBuild (inl : Inline) (r : Rpn) (h : SafeR vars r) : Stat (gBuild rt inl r) := by
  match r with
  | .nil => rw [gBuild]; exact Stat.ret _
  | .cons n r =>
    rw [SafeR] at h
    have h1 := stat_gNode inl n h.1
    have h2 := stat_gBuild inl r h.2
    rw [gBuild]
    exact h1.bind fun _ => h2.bind fun _ => Stat.ret _
theorem stat_gNode (inl : Inline) (n : Node) (h : SafeN vars n) : Stat (gNode rt inl n) := by
  match n with
  | .bool _ => rw [gNode]; exact Stat.ret _
  | .str _ => rw [gNode]; exact Stat.ret _
  | .num _ => rw [gNode]; exact Stat.get fun _ => Stat.ret _
  | .define _ => rw [SafeN] at h; exact h.elim
  | .array _ => rw [gNode]; exact Stat.fail
  | .var n =>
    rw [gNode]
    intro cs a is cs' h
    dsimp only at h
    split at h
    · simp at h
    · simp at h; obtain ⟨_, _, rfl⟩ := h; exact ⟨rfl, rfl⟩
  | .call n rs =>
    rw [SafeN] at h
    have h1 := stat_gRuns inl rs h
    rw [gNode]
    exact h1.bind fun _ => (stat_gCall rt n _).bind fun _ => Stat.ret _
  | .access _ _ => rw [gNode]; exact Stat.fail
  | .op1 _ => rw [gNode]; exact Stat.ret _
  | .op2 _ => rw [gNode]; exact Stat.ret _
  | .sel => rw [gNode]; exact Stat.ret _
  | .inl _ => rw [gNode]; exact Stat.ret _
theorem stat_gRuns (inl : Inline) (rs : Rpns) (h : SafeRs vars rs) : Stat (gRuns rt inl rs) := by
  match rs with
  | .nil => rw [gRuns]; exact Stat.ret _
  | .cons r rs =>
    rw [SafeRs] at h
    have h1 := stat_gBuild inl r h.1
    have h2 := stat_gRuns inl rs h.2
    rw [gRuns]
    exact (h1.bindP (post_gBuild inl r h.1) fun es hes => (stat_gStack inl es hes []).bind fun s => stat_single s).bind fun _ => h2.bind fun _ => Stat.ret _
end

theorem sim_single {regs : List V} {s : List (H Ty V)} {s' : List (TV Ty V)} (h : All2 (Den vars slots regs) s s') :
    Sim rt vars slots regs (G.get (single s) G.ret) (M.lift (single s')) (Den vars slots) := by
  refine Sim.get fun a ha => ?_
  cases h with
  | nil => simp [single] at ha
  | cons d ds => cases ds with
    | nil => simp [single] at ha; subst ha; exact Sim.ret d
    | cons _ _ => simp [single] at ha

theorem all2_calm {regs : List V} {ns : List (ENode (H Ty V))} {ns' : List (ENode (TV Ty V))} (h : All2 (DenN vars slots regs) ns ns') : ∀ n ∈ ns, Calm n := by
  induction h with
  | nil => simp
  | cons r _ ih =>
    intro n hn
    rcases List.mem_cons.mp hn with rfl | hn
    · exact r.calm
    · exact ih n hn

theorem sim_run {regs : List V} (inl : Inline) {x : G Ty V (List (ENode (H Ty V)))} {m : M W (List (ENode (TV Ty V)))} (sx : Stat x)
    (h : Sim rt vars slots regs x m (fun r a b => All2 (DenN vars slots r) a b)) :
    Sim rt vars slots regs (x.andThen fun es => (gStack rt inl es []).andThen fun s => G.get (single s) G.ret) (m.andThen fun es => M.lift ((vStack rt inl es []).bind single)) (Den vars slots) := by
  refine Sim.bind h sx fun e1 es es' hes => ?_
  rw [M.lift_bind]
  exact Sim.bind (sim_gStack inl hes .nil) (stat_gStack inl es (all2_calm hes) []) fun e2 s s' hs => sim_single hs

mutual
theorem sim_gBuild (inl : Inline) (r : Rpn) (h : SafeR vars r) : ∀ regs : List V,
    Sim rt vars slots regs (gBuild rt inl r) (vBuild rt inl (envOf vars slots) r) (fun rg a b => All2 (DenN vars slots rg) a b) := by
  match r with
  | .nil => intro regs; rw [gBuild, vBuild]; exact Sim.ret .nil
  | .cons n r =>
    rw [SafeR] at h
    have h1 := sim_gNode inl n h.1
    have h2 := sim_gBuild inl r h.2
    intro regs
    rw [gBuild, vBuild]
    exact Sim.bind (h1 regs) (stat_gNode inl n h.1) fun e1 a b hab => Sim.bind (h2 _) (stat_gBuild inl r h.2) fun e2 as bs hs => Sim.ret (.cons (hab.ext e2) hs)
theorem sim_gNode (inl : Inline) (n : Node) (h : SafeN vars n) : ∀ regs : List V,
    Sim rt vars slots regs (gNode rt inl n) (vNode rt inl (envOf vars slots) n) (DenN vars slots) := by
  match n with
  | .bool b => intro regs; rw [gNode, vNode]; exact Sim.ret ⟨rfl, rfl⟩
  | .str b => intro regs; rw [gNode, vNode]; exact Sim.ret ⟨rfl, rfl⟩
  | .num b =>
    intro regs
    rw [gNode, vNode]
    refine Sim.get fun x hx => ?_
    rw [hx, Option.map_some, M.lift_ret]
    exact Sim.ret ⟨rfl, rfl⟩
  | .define _ => rw [SafeN] at h; exact h.elim
  | .array _ => intro regs; rw [gNode]; exact Sim.fail
  | .access _ _ => intro regs; rw [gNode]; exact Sim.fail
  | .var n =>
    intro regs
    rw [SafeN] at h
    rw [gNode, vNode]
    intro cs hv hn a is cs' hx w
    dsimp only at hx
    rw [hv] at hx
    cases hvn : vars n with
    | none => rw [hvn] at hx; simp at hx
    | some b => cases b with
      | none => exact absurd hvn h
      | some b =>
        rw [hvn] at hx
        simp at hx
        obtain ⟨rfl, rfl, rfl⟩ := hx
        have : envOf vars slots n = some (b.1, slots b.2) := by unfold envOf; rw [hvn]
        rw [this]
        exact ⟨[], by simp [run], by simpa using hn, b, hvn, rfl⟩
  | .call n rs =>
    rw [SafeN] at h
    have h1 := sim_gRuns inl rs h
    intro regs
    rw [gNode, vNode]
    exact Sim.bind (h1 regs) (stat_gRuns inl rs h) fun e1 hs vs hv => Sim.bind (sim_gCall n hv) (stat_gCall rt n hs) fun e2 a b hab => Sim.ret hab
  | .op1 _ => intro regs; rw [gNode, vNode]; exact Sim.ret rfl
  | .op2 _ => intro regs; rw [SafeN] at h; rw [gNode, vNode]; exact Sim.ret ⟨rfl, h⟩
  | .sel => intro regs; rw [gNode, vNode]; exact Sim.ret trivial
  | .inl _ => intro regs; rw [gNode, vNode]; exact Sim.ret rfl
theorem sim_gRuns (inl : Inline) (rs : Rpns) (h : SafeRs vars rs) : ∀ regs : List V,
    Sim rt vars slots regs (gRuns rt inl rs) (vRuns rt inl (envOf vars slots) rs) (fun rg a b => All2 (Den vars slots rg) a b) := by
  match rs with
  | .nil => intro regs; rw [gRuns, vRuns]; exact Sim.ret .nil
  | .cons r rs =>
    rw [SafeRs] at h
    have h1 := sim_gBuild inl r h.1
    have h2 := sim_gRuns inl rs h.2
    intro regs
    rw [gRuns, vRuns]
    have s1 : Stat (gBuild rt inl r) := stat_gBuild inl r h.1
    exact Sim.bind (sim_run inl s1 (h1 regs)) (s1.bindP (post_gBuild inl r h.1) fun es hes => (stat_gStack inl es hes []).bind fun s => stat_single s) fun e1 a b hab =>
      Sim.bind (h2 _) (stat_gRuns inl rs h.2) fun e2 as bs hs => Sim.ret (.cons (hab.ext e2) hs)
end

/-! ## Expressions -/

mutual
/-- The variables of an expression. -/
def varsE : Expr → Name → Prop
  | .un _ o, n => varsO o n
  | .bin l _ r, n => varsE l n ∨ varsE r n
  | .sel c t f, n => varsE c n ∨ varsE t n ∨ varsE f n
def varsO : Operand → Name → Prop
  | .paren e, n => varsE e n
  | .call _ es, n => varsEs es n
  | .var m, n => m = n
  | .bool _, _ => False
  | .str _, _ => False
  | .num _, _ => False
  | .define _, _ => False
  | .array _, _ => False
  | .access _ _, _ => False
def varsEs : Exprs → Name → Prop
  | .nil, _ => False
  | .cons e es, n => varsE e n ∨ varsEs es n
end

theorem safe_append {a b : Rpn} (ha : SafeR vars a) (hb : SafeR vars b) : SafeR vars (a.append b) := by
  induction a using Rpn.rec (motive_1 := fun _ => True) (motive_3 := fun _ => True) (motive_4 := fun _ => True) (motive_5 := fun _ => True) with
  | nil => exact hb
  | cons n r _ ih => rw [SafeR] at ha; rw [Rpn.append, SafeR]; exact ⟨ha.1, ih ha.2⟩
  | _ => trivial

mutual
theorem safe_flatE (inl : Inline) (e : Expr) (h : Plain inl e) (hv : ∀ n, varsE e n → vars n ≠ some none) : SafeR vars (flatE inl e) := by
  match e with
  | .un none o => rw [Plain] at h; rw [flatE]; exact safe_flatO inl o h (by simpa only [varsE] using hv)
  | .un (some op) o =>
    rw [Plain] at h
    rw [flatE]
    refine safe_append (safe_flatO inl o h (by simpa only [varsE] using hv)) ?_
    rw [SafeR, SafeN, SafeR]; exact ⟨trivial, trivial⟩
  | .bin l op r =>
    rw [Plain] at h
    rw [flatE]
    refine safe_append (safe_flatE inl l h.1 fun n hn => hv n (by rw [varsE]; exact .inl hn)) (safe_append (safe_flatE inl r h.2.2.2 fun n hn => hv n (by rw [varsE]; exact .inr hn)) ?_)
    rw [SafeR, SafeN, SafeR]; exact ⟨⟨h.2.1, h.2.2.1⟩, trivial⟩
  | .sel c t f =>
    rw [Plain] at h
    rw [flatE]
    refine safe_append (safe_flatE inl c h.1 fun n hn => hv n (by rw [varsE]; exact .inl hn)) (safe_append (safe_flatE inl t h.2.1 fun n hn => hv n (by rw [varsE]; exact .inr (.inl hn)))
      (safe_append (safe_flatE inl f h.2.2 fun n hn => hv n (by rw [varsE]; exact .inr (.inr hn))) ?_))
    rw [SafeR, SafeN, SafeR]; exact ⟨trivial, trivial⟩
theorem safe_flatO (inl : Inline) (o : Operand) (h : PlainO inl o) (hv : ∀ n, varsO o n → vars n ≠ some none) : SafeR vars (flatO inl o) := by
  match o with
  | .bool _ => rw [flatO, SafeR, SafeN, SafeR]; exact ⟨trivial, trivial⟩
  | .str _ => rw [flatO, SafeR, SafeN, SafeR]; exact ⟨trivial, trivial⟩
  | .num _ => rw [flatO, SafeR, SafeN, SafeR]; exact ⟨trivial, trivial⟩
  | .var n => rw [flatO, SafeR, SafeN, SafeR]; exact ⟨hv n (by rw [varsO]), trivial⟩
  | .define n => rw [PlainO] at h; exact h.elim
  | .array n => rw [PlainO] at h; exact h.elim
  | .access n _ => rw [PlainO] at h; exact h.elim
  | .paren e => rw [PlainO] at h; rw [flatO]; exact safe_flatE inl e h (by simpa only [varsO] using hv)
  | .call n es =>
    rw [PlainO] at h
    have hv' : ∀ n, varsEs es n → vars n ≠ some none := by simpa only [varsO] using hv
    have h1 := safe_flatEs inl es h.1 hv'
    have h2 := safe_flatArgs inl es h.1 hv'
    rw [flatO]
    cases inl n with
    | none => simp only; rw [SafeR, SafeN, SafeR]; exact ⟨h1, trivial⟩
    | some k => simp only; refine safe_append h2 ?_; rw [SafeR, SafeN, SafeR]; exact ⟨trivial, trivial⟩
theorem safe_flatEs (inl : Inline) (es : Exprs) (h : PlainEs inl es) (hv : ∀ n, varsEs es n → vars n ≠ some none) : SafeRs vars (flatEs inl es) := by
  match es with
  | .nil => rw [flatEs, SafeRs]; trivial
  | .cons e es =>
    rw [PlainEs] at h
    rw [flatEs, SafeRs]
    exact ⟨safe_flatE inl e h.1 fun n hn => hv n (by rw [varsEs]; exact .inl hn), safe_flatEs inl es h.2 fun n hn => hv n (by rw [varsEs]; exact .inr hn)⟩
theorem safe_flatArgs (inl : Inline) (es : Exprs) (h : PlainEs inl es) (hv : ∀ n, varsEs es n → vars n ≠ some none) : SafeR vars (flatArgs inl es) := by
  match es with
  | .nil => rw [flatArgs, SafeR]; trivial
  | .cons e es =>
    rw [PlainEs] at h
    rw [flatArgs]
    exact safe_append (safe_flatE inl e h.1 fun n hn => hv n (by rw [varsEs]; exact .inl hn)) (safe_flatArgs inl es h.2 fun n hn => hv n (by rw [varsEs]; exact .inr hn))
end

/-- The code of an expression without assignments evaluates it from left to right. -/
theorem sim_gExpr (inl : Inline) (e : Expr) (h : Plain inl e) (hv : ∀ n, varsE e n → vars n ≠ some none) (regs : List V) :
    Sim rt vars slots regs (gExpr rt inl e) (eagerE rt inl (envOf vars slots) e) (Den vars slots) := by
  have hs := safe_flatE inl e h hv
  unfold gExpr gRun
  rw [← vRun_eager rt inl (envOf vars slots) e h]
  exact sim_run inl (stat_gBuild inl _ hs) (sim_gBuild inl _ hs regs)

theorem stat_gExpr (inl : Inline) (e : Expr) (h : Plain inl e) (hv : ∀ n, varsE e n → vars n ≠ some none) : Stat (gExpr rt inl e) := by
  have hs := safe_flatE inl e h hv
  unfold gExpr gRun
  exact (stat_gBuild inl _ hs).bindP (post_gBuild inl _ hs) fun es hes => (stat_gStack inl es hes []).bind fun s => stat_single s

end

end Verif.Gen.Scalar
