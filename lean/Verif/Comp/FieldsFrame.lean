import Verif.Comp.DynFn
/-!
# Compiled functions change nothing else in the objects: C166, C170

The theorems of C166 and C170 speak of the numbers and strings among the fields. Here: whatever else is in the objects (booleans, vectors, pointers, containers, padding) is as before after every
call of every compiled function, whatever its text. The argument is about the generated code alone: `store` goes to the slot of a named variable or field, or to a new slot
(`Value::CopyFrom`: `/repo/rapidudf/compiler/value.cc` 50–77; `BinaryOp`: `/repo/rapidudf/compiler/codegen_binary.cc` 268–358). Called functions do not get the address of an object here.
-/
namespace Verif.Comp.FieldsFrame
open Verif.Ast hiding Ty
open Verif.Ast.Rpn Verif.Gen Verif.Gen.Scalar
open Verif.Comp.Real (Fpu MV arity)
open Verif.Comp.Words hiding Out
open Verif.Comp.WordsFn hiding Ty Types Store PTy compileFn Returns Undefined ReadsFn
open Verif.Comp.FieldsFn (Reg Located argAt total resolve cEnv entry object kinds compileFn Returns)

/-! ## Lemmas: code generation -/

section

variable {T V W : Type} [DecidableEq T]

/-- No instruction stores into the slot. -/
def Quiet (P : Nat) (code : List (Instr T V)) : Prop := ∀ s o, Instr.store s o ∈ code → s ≠ P

/-- The slot is taken, and no variable is there. -/
structure Away (P : Nat) (cs : CS T) : Prop where
  taken : P < cs.nslot
  apart : ∀ n b, cs.vars n = some (some b) → b.2 ≠ P

/-- What is generated does not touch the slot. -/
def Keeps {α : Type} (P : Nat) (g : G T V α) : Prop := ∀ cs, Away P cs → ∀ r, g cs = some r → Quiet P r.2.1 ∧ Away P r.2.2

theorem keeps_ret {α : Type} (P : Nat) (a : α) : Keeps P (G.ret a : G T V α) := by
  intro cs h r e; cases e; exact ⟨(fun s o hm => nomatch hm), h⟩
theorem keeps_fail {α : Type} (P : Nat) : Keeps P (G.fail : G T V α) := by intro cs h r e; cases e
theorem keeps_then {α β : Type} {P : Nat} {x : G T V α} {f : α → G T V β} (hx : Keeps P x) (hf : ∀ a, Keeps P (f a)) : Keeps P (x.andThen f) := by
  intro cs h r e
  unfold G.andThen at e
  obtain ⟨q, h1, h2⟩ := Option.bind_eq_some_iff.1 e
  obtain ⟨q', h3, rfl⟩ := Option.map_eq_some_iff.1 h2
  obtain ⟨k1, k2⟩ := hx cs h q h1
  obtain ⟨k3, k4⟩ := hf _ _ k2 q' h3
  refine ⟨fun s o hm => ?_, k4⟩
  rcases List.mem_append.1 hm with hm | hm
  · exact k1 s o hm
  · exact k3 s o hm
theorem keeps_get {α β : Type} {P : Nat} (o : Option α) {f : α → G T V β} (hf : ∀ a, Keeps P (f a)) : Keeps P (G.get o f) := by
  cases o with
  | none => exact keeps_fail P
  | some a => exact hf a
theorem keeps_push {P : Nat} (i : Instr T V) (hi : ∀ s o, i ≠ .store s o) : Keeps P (G.push i) := by
  intro cs h r e
  cases e
  refine ⟨fun s o hm => ?_, ⟨h.taken, h.apart⟩⟩
  simp only [List.mem_singleton] at hm
  exact absurd hm.symm (hi s o)

theorem keeps_ld {P : Nat} (h : H T V) : Keeps P (ld h) := by
  cases h with
  | imm t o => exact keeps_ret P _
  | var n =>
    intro cs h r e
    unfold ld at e
    simp only at e
    split at e
    · cases e
      refine ⟨fun s o hm => ?_, ⟨h.taken, h.apart⟩⟩
      simp at hm
    · cases e

variable (rt : Rt T V W)

theorem keeps_cast {P : Nat} (t : T) (x : T × Opd V) : Keeps P (castTo rt t x) := by
  unfold castTo
  split
  · exact keeps_ret P _
  · exact keeps_get _ fun _ => keeps_push _ (by simp)

theorem keeps_un {P : Nat} (op : UnOp) (h : H T V) : Keeps P (gUn rt op h) :=
  keeps_then (keeps_ld h) fun _ => keeps_get _ fun _ => keeps_then (keeps_push _ (by simp)) fun _ => keeps_ret P _

theorem keeps_bin {P : Nat} (op : BinOp) (h1 h2 : H T V) : Keeps P (gBin rt op h1 h2) :=
  keeps_then (keeps_ld h1) fun _ => keeps_then (keeps_ld h2) fun _ => keeps_get _ fun _ => keeps_then (keeps_cast rt _ _) fun _ => keeps_then (keeps_cast rt _ _) fun _ =>
    keeps_get _ fun _ => keeps_then (keeps_push _ (by simp)) fun _ => keeps_ret P _

theorem keeps_sel {P : Nat} (h1 h2 h3 : H T V) : Keeps P (gSel rt h1 h2 h3) :=
  keeps_then (keeps_ld h1) fun _ => keeps_then (keeps_ld h2) fun _ => keeps_then (keeps_ld h3) fun _ => by
    split
    · exact keeps_get _ fun _ => keeps_then (keeps_cast rt _ _) fun _ => keeps_then (keeps_cast rt _ _) fun _ => keeps_then (keeps_push _ (by simp)) fun _ => keeps_ret P _
    · exact keeps_fail P

theorem keeps_store {α : Type} {P : Nat} (s : Nat) (hs : s ≠ P) (a : α) (o : Opd V) : Keeps P (fun cs : CS T => some (a, [.store s o], cs)) := by
  intro cs h r e
  cases e
  refine ⟨fun s' o' hm => ?_, h⟩
  simp only [List.mem_singleton, Instr.store.injEq] at hm
  rw [hm.1]; exact hs

theorem keeps_assign {P : Nat} (h1 h2 : H T V) : Keeps P (gAssign h1 h2) := by
  cases h1 with
  | imm t o => exact keeps_fail P
  | var n =>
    intro cs h r e
    unfold gAssign at e
    simp only at e
    split at e
    · cases e
    · cases h2 with
      | var m =>
        simp only at e
        split at e
        · next b hb =>
          cases e
          refine ⟨(fun s o hm => nomatch hm), ⟨h.taken, fun k c hk => ?_⟩⟩
          simp only at hk
          split at hk
          · simp only [Option.some.injEq] at hk; rw [← hk]; exact h.apart m b hb
          · exact h.apart k c hk
        · cases e
      | imm t o =>
        cases e
        refine ⟨fun s o' hm => ?_, ⟨Nat.lt_succ_of_lt h.taken, fun k c hk => ?_⟩⟩
        · simp only [List.mem_singleton, Instr.store.injEq] at hm
          rw [hm.1]; exact (Nat.ne_of_lt h.taken).symm
        · simp only at hk
          split at hk
          · simp only [Option.some.injEq] at hk; rw [← hk]; exact (Nat.ne_of_lt h.taken).symm
          · exact h.apart k c hk
    · next b hb =>
      have hs := h.apart n b hb
      exact keeps_then (keeps_ld h2) (fun y => by
        split
        · exact keeps_store b.2 hs _ _
        · exact keeps_fail P) cs h r e

theorem keeps_update {P : Nat} (op : BinOp) (h1 h2 : H T V) : Keeps P (gUpdate rt op h1 h2) := by
  cases h1 with
  | imm t o => exact keeps_fail P
  | var n =>
    intro cs h r e
    unfold gUpdate at e
    simp only at e
    split at e
    · next b hb =>
      have hs := h.apart n b hb
      refine keeps_then (keeps_ld _) (fun x => keeps_then (keeps_ld h2) fun y => keeps_get _ fun c => ?_) cs h r e
      split
      · refine keeps_then (keeps_cast rt _ _) fun v => keeps_get _ fun r => ?_
        split
        · exact keeps_then (keeps_push _ (by simp)) fun o => keeps_store b.2 hs _ _
        · exact keeps_fail P
      · exact keeps_fail P
    · cases e

theorem keeps_op2 {P : Nat} (op : BinOp) (h1 h2 : H T V) : Keeps P (gOp2 rt op h1 h2) := by
  unfold gOp2
  split
  · exact keeps_assign h1 h2
  · split
    · exact keeps_update rt _ h1 h2
    · exact keeps_bin rt op h1 h2

theorem keeps_lds {P : Nat} : ∀ hs : List (H T V), Keeps P (lds hs)
  | [] => keeps_ret P _
  | h :: hs => keeps_then (keeps_ld h) fun _ => keeps_then (keeps_lds hs) fun _ => keeps_ret P _

theorem keeps_casts {P : Nat} : ∀ (ts : List T) (xs : List (T × Opd V)), Keeps P (castsTo rt ts xs)
  | [], [] => keeps_ret P _
  | [], _ :: _ => keeps_fail P
  | _ :: _, [] => keeps_fail P
  | t :: ts, x :: xs => keeps_then (keeps_cast rt t x) fun _ => keeps_then (keeps_casts ts xs) fun _ => keeps_ret P _

theorem keeps_inl {P : Nat} (n : Name) (hs : List (H T V)) : Keeps P (gInl rt n hs) :=
  keeps_then (keeps_lds hs) fun _ => keeps_get _ fun _ => keeps_then (keeps_push _ (by simp)) fun _ => keeps_ret P _

theorem keeps_call {P : Nat} (n : Name) (hs : List (H T V)) : Keeps P (gCall rt n hs) :=
  keeps_get _ fun _ => keeps_then (keeps_lds hs) fun _ => keeps_then (keeps_casts rt _ _) fun _ => keeps_then (keeps_push _ (by simp)) fun _ => keeps_ret P _

theorem keeps_step {P : Nat} (inl : Inline) (n : ENode (H T V)) (s : List (H T V)) : Keeps P (gStep rt inl n s) := by
  unfold gStep
  split
  · exact keeps_ret P _
  · exact keeps_then (keeps_un rt _ _) fun _ => keeps_ret P _
  · exact keeps_then (keeps_op2 rt _ _ _) fun _ => keeps_ret P _
  · exact keeps_then (keeps_sel rt _ _ _) fun _ => keeps_ret P _
  · refine keeps_get _ fun k => ?_
    split
    · exact keeps_fail P
    · exact keeps_then (keeps_inl rt _ _) fun _ => keeps_ret P _
  · exact keeps_fail P

theorem keeps_stack {P : Nat} (inl : Inline) : ∀ (ns : List (ENode (H T V))) (s : List (H T V)), Keeps P (gStack rt inl ns s)
  | [], _ => keeps_ret P _
  | n :: ns, s => keeps_then (keeps_step rt inl n s) fun s' => keeps_stack inl ns s'

mutual
theorem keeps_build {P : Nat} (inl : Inline) (r : Rpn) : Keeps P (gBuild rt inl r) := by
  match r with
  | .nil => rw [gBuild]; exact keeps_ret P _
  | .cons n r => rw [gBuild]; exact keeps_then (keeps_node inl n) fun _ => keeps_then (keeps_build inl r) fun _ => keeps_ret P _
theorem keeps_node {P : Nat} (inl : Inline) (n : Node) : Keeps P (gNode rt inl n) := by
  match n with
  | .bool _ => rw [gNode]; exact keeps_ret P _
  | .str _ => rw [gNode]; exact keeps_ret P _
  | .num _ => rw [gNode]; exact keeps_get _ fun _ => keeps_ret P _
  | .define n =>
    rw [gNode]
    intro cs h r e
    simp only at e
    split at e
    · cases e
      refine ⟨(fun s o hm => nomatch hm), ⟨h.taken, fun k c hk => ?_⟩⟩
      simp only at hk
      split at hk
      · simp at hk
      · exact h.apart k c hk
    · cases e
  | .var n =>
    rw [gNode]
    intro cs h r e
    simp only at e
    split at e
    · cases e
    · cases e; exact ⟨(fun s o hm => nomatch hm), h⟩
  | .call n rs => rw [gNode]; exact keeps_then (keeps_runs inl rs) fun _ => keeps_then (keeps_call rt _ _) fun _ => keeps_ret P _
  | .op1 _ => rw [gNode]; exact keeps_ret P _
  | .op2 _ => rw [gNode]; exact keeps_ret P _
  | .sel => rw [gNode]; exact keeps_ret P _
  | .inl _ => rw [gNode]; exact keeps_ret P _
  | .array _ => rw [gNode]; exact keeps_fail P
  | .access _ _ => rw [gNode]; exact keeps_fail P
theorem keeps_runs {P : Nat} (inl : Inline) (rs : Rpns) : Keeps P (gRuns rt inl rs) := by
  match rs with
  | .nil => rw [gRuns]; exact keeps_ret P _
  | .cons r rs =>
    rw [gRuns]
    exact keeps_then (keeps_then (keeps_build inl r) fun _ => keeps_then (keeps_stack rt inl _ _) fun _ => keeps_get _ fun _ => keeps_ret P _) fun _ =>
      keeps_then (keeps_runs inl rs) fun _ => keeps_ret P _
end

theorem keeps_expr {P : Nat} (inl : Inline) (e : Expr) : Keeps P (gExpr rt inl e) := by
  unfold gExpr gRun
  exact keeps_then (keeps_build rt inl _) fun _ => keeps_then (keeps_stack rt inl _ _) fun _ => keeps_get _ fun _ => keeps_ret P _

/-- Quiet code leaves the slot as it is. -/
theorem quiet_run {P : Nat} : ∀ (code : List (Instr T V)) (rs rs' : RS V W), Quiet P code → Scalar.run rt code rs = some rs' → rs'.slots P = rs.slots P := by
  intro code
  induction code with
  | nil => intro rs rs' _ h; cases h; rfl
  | cons i is ih =>
    intro rs rs' hq h
    rw [Scalar.run] at h
    obtain ⟨r, h1, h2⟩ := Option.bind_eq_some_iff.1 h
    rw [ih r rs' (fun s o hm => hq s o (List.mem_cons_of_mem _ hm)) h2]
    cases i with
    | store s o =>
      simp only [run1, Option.map_eq_some_iff] at h1
      obtain ⟨v, _, rfl⟩ := h1
      exact if_neg (Ne.symm (hq s o (by simp)))
    | load s => simp only [run1, Option.some.injEq] at h1; rw [← h1]; rfl
    | cast a b o =>
      simp only [run1, Option.bind_eq_some_iff, Option.map_eq_some_iff] at h1
      obtain ⟨f, _, v, _, rfl⟩ := h1; rfl
    | un op t o =>
      simp only [run1, Option.bind_eq_some_iff, Option.map_eq_some_iff] at h1
      obtain ⟨f, _, v, _, rfl⟩ := h1; rfl
    | bin op t a b =>
      simp only [run1, Option.bind_eq_some_iff, Option.map_eq_some_iff] at h1
      obtain ⟨f, _, v, _, rfl⟩ := h1; rfl
    | sel c a b =>
      simp only [run1, Option.map_eq_some_iff] at h1
      obtain ⟨v, _, rfl⟩ := h1; rfl
    | inl n ts os =>
      simp only [run1, Option.bind_eq_some_iff, Option.map_eq_some_iff] at h1
      obtain ⟨f, _, v, _, rfl⟩ := h1; rfl
    | call n os =>
      simp only [run1, Option.bind_eq_some_iff, Option.map_eq_some_iff] at h1
      obtain ⟨f, _, v, _, x, _, rfl⟩ := h1; rfl

end

/-! ## Lemmas: statements -/

/-- The code of the expressions does not touch the slot. -/
def QuietSites (P : Nat) (l : List Site) : Prop := ∀ s ∈ l, Quiet P s.code

theorem quiet_nil (P : Nat) : QuietSites P [] := by intro s h; cases h
theorem quiet_cons {P : Nat} {s : Site} {l : List Site} (h : Quiet P s.code) (hl : QuietSites P l) : QuietSites P (s :: l) := by
  intro x hx
  rcases List.mem_cons.1 hx with rfl | hx
  · exact h
  · exact hl x hx
theorem quiet_append {P : Nat} {l m : List Site} (hl : QuietSites P l) (hm : QuietSites P m) : QuietSites P (l ++ m) := by
  intro x hx
  rcases List.mem_append.1 hx with hx | hx
  · exact hl x hx
  · exact hm x hx

theorem site_keeps {P : Nat} {α : Type} {test : Bool} {g : G Real.PTy WV α} {v : α → Opd WV} (hg : Keeps P g) {cs : CS Real.PTy} (h : Away P cs) {r : Site × CS Real.PTy}
    (e : site test g v cs = some r) : Quiet P r.1.code ∧ Away P r.2 := by
  unfold site at e
  obtain ⟨q, h1, rfl⟩ := Option.map_eq_some_iff.1 e
  exact hg { cs with nreg := 0 } ⟨h.taken, h.apart⟩ q h1

theorem expr_keeps {P : Nat} (fpu : Fpu) (ju : Types.Str.Val) (e : Expr) {cs : CS Real.PTy} (h : Away P cs) {r : Site × CS Real.PTy} (hr : exprSite fpu ju e cs = some r) : Quiet P r.1.code ∧ Away P r.2 :=
  site_keeps (keeps_expr _ _ _) h hr
theorem ret_keeps {P : Nat} (fpu : Fpu) (ju : Types.Str.Val) (ret : Real.PTy) (e : Expr) {cs : CS Real.PTy} (h : Away P cs) {r : Site × CS Real.PTy} (hr : retSite fpu ju ret e cs = some r) :
    Quiet P r.1.code ∧ Away P r.2 :=
  site_keeps (keeps_then (keeps_then (keeps_expr _ _ _) fun _ => keeps_ld _) fun _ => keeps_cast _ _ _) h hr
theorem cond_keeps {P : Nat} (fpu : Fpu) (ju : Types.Str.Val) (e : Expr) {cs : CS Real.PTy} (h : Away P cs) {r : Site × CS Real.PTy} (hr : condSite fpu ju e cs = some r) : Quiet P r.1.code ∧ Away P r.2 :=
  site_keeps (keeps_then (keeps_then (keeps_expr _ _ _) fun _ => keeps_ld _) fun x => by
    split
    · exact keeps_ret P _
    · exact keeps_fail P) h hr

mutual
theorem stmt_keeps {P : Nat} (fpu : Fpu) (ju : Types.Str.Val) (ret : Real.PTy) (s : Stmt) (cs : CS Real.PTy) (h : Away P cs) (r : List Site × CS Real.PTy) (e : sites fpu ju ret s cs = some r) :
    QuietSites P r.1 ∧ Away P r.2 := by
  match s with
  | .cont => rw [sites] at e; cases e; exact ⟨quiet_nil P, h⟩
  | .brk => rw [sites] at e; cases e; exact ⟨quiet_nil P, h⟩
  | .ret => rw [sites] at e; cases e; exact ⟨quiet_nil P, h⟩
  | .retVal x =>
    rw [sites] at e
    obtain ⟨q, h1, rfl⟩ := Option.map_eq_some_iff.1 e
    have := ret_keeps fpu ju ret x h h1
    exact ⟨quiet_cons this.1 (quiet_nil P), this.2⟩
  | .expr x =>
    rw [sites] at e
    obtain ⟨q, h1, rfl⟩ := Option.map_eq_some_iff.1 e
    have := expr_keeps fpu ju x h h1
    exact ⟨quiet_cons this.1 (quiet_nil P), this.2⟩
  | .whileLoop c b =>
    rw [sites] at e
    obtain ⟨q, h1, h2⟩ := Option.bind_eq_some_iff.1 e
    obtain ⟨q', h3, rfl⟩ := Option.map_eq_some_iff.1 h2
    have k := cond_keeps fpu ju c h h1
    have k' := stmts_keeps fpu ju ret b _ k.2 _ h3
    exact ⟨quiet_cons k.1 k'.1, k'.2⟩
  | .ifElse c b es el =>
    rw [sites] at e
    obtain ⟨q, h1, h2⟩ := Option.bind_eq_some_iff.1 e
    obtain ⟨q', h3, h4⟩ := Option.bind_eq_some_iff.1 h2
    obtain ⟨q'', h5, h6⟩ := Option.bind_eq_some_iff.1 h4
    obtain ⟨q3, h7, rfl⟩ := Option.map_eq_some_iff.1 h6
    have k := cond_keeps fpu ju c h h1
    have k' := stmts_keeps fpu ju ret b _ k.2 _ h3
    have k2 := elifs_keeps fpu ju ret es _ k'.2 _ h5
    have k3 := else_keeps fpu ju ret el _ k2.2 _ h7
    exact ⟨quiet_cons k.1 (quiet_append k'.1 (quiet_append k2.1 k3.1)), k3.2⟩
theorem stmts_keeps {P : Nat} (fpu : Fpu) (ju : Types.Str.Val) (ret : Real.PTy) (ss : Stmts) (cs : CS Real.PTy) (h : Away P cs) (r : List Site × CS Real.PTy) (e : sitess fpu ju ret ss cs = some r) :
    QuietSites P r.1 ∧ Away P r.2 := by
  match ss with
  | .nil => rw [sitess] at e; cases e; exact ⟨quiet_nil P, h⟩
  | .cons s ss =>
    rw [sitess] at e
    obtain ⟨q, h1, h2⟩ := Option.bind_eq_some_iff.1 e
    obtain ⟨q', h3, rfl⟩ := Option.map_eq_some_iff.1 h2
    have k := stmt_keeps fpu ju ret s _ h _ h1
    have k' := stmts_keeps fpu ju ret ss _ k.2 _ h3
    exact ⟨quiet_append k.1 k'.1, k'.2⟩
theorem elifs_keeps {P : Nat} (fpu : Fpu) (ju : Types.Str.Val) (ret : Real.PTy) (es : Elifs) (cs : CS Real.PTy) (h : Away P cs) (r : List Site × CS Real.PTy) (e : sitesElifs fpu ju ret es cs = some r) :
    QuietSites P r.1 ∧ Away P r.2 := by
  match es with
  | .nil => rw [sitesElifs] at e; cases e; exact ⟨quiet_nil P, h⟩
  | .cons c b es =>
    rw [sitesElifs] at e
    obtain ⟨q, h1, h2⟩ := Option.bind_eq_some_iff.1 e
    obtain ⟨q', h3, h4⟩ := Option.bind_eq_some_iff.1 h2
    obtain ⟨q'', h5, rfl⟩ := Option.map_eq_some_iff.1 h4
    have k := cond_keeps fpu ju c h h1
    have k' := stmts_keeps fpu ju ret b _ k.2 _ h3
    have k2 := elifs_keeps fpu ju ret es _ k'.2 _ h5
    exact ⟨quiet_cons k.1 (quiet_append k'.1 k2.1), k2.2⟩
theorem else_keeps {P : Nat} (fpu : Fpu) (ju : Types.Str.Val) (ret : Real.PTy) (el : Else) (cs : CS Real.PTy) (h : Away P cs) (r : List Site × CS Real.PTy) (e : sitesElse fpu ju ret el cs = some r) :
    QuietSites P r.1 ∧ Away P r.2 := by
  match el with
  | .none => rw [sitesElse] at e; cases e; exact ⟨quiet_nil P, h⟩
  | .some b => rw [sitesElse] at e; exact stmts_keeps fpu ju ret b cs h r e
end

theorem eval_keeps {P : Nat} {fpu : Fpu} {ju : Types.Str.Val} {table : List Site} (hq : QuietSites P table) {e : Expr} {slots : Nat → WV} {r : (Nat → WV) × WV}
    (h : (machine fpu ju table).eval e slots = some r) : r.1 P = slots P := by
  simp only [machine] at h
  split at h
  · unfold runSite at h
    obtain ⟨s, h1, h2⟩ := Option.bind_eq_some_iff.1 h
    obtain ⟨rs, h3, h4⟩ := Option.bind_eq_some_iff.1 h2
    obtain ⟨v, h5, h6⟩ := Option.bind_eq_some_iff.1 h4
    split at h6
    · cases h6
    · cases h6
      exact quiet_run _ _ _ _ (hq s (List.mem_of_getElem? h1)) h3
  · cases h

/-- The slots of a result. -/
def slotsOf : Res (Nat → WV) WV → Option (Nat → WV)
  | .run p => some p.mem.1
  | .halt m => some m.1
  | .trap => none
  | .ub => none

theorem step_keeps {P : Nat} {fpu : Fpu} {ju : Types.Str.Val} {table : List Site} (hq : QuietSites P table) (blk : Nat → List Item) (p : Pc (Nat → WV) WV) :
    ∀ m, slotsOf (Gen.step (machine fpu ju table) blk p) = some m → m P = p.mem.1 P := by
  intro m h
  unfold Gen.step at h
  split at h
  · cases h
  · next i hi =>
    split at h
    · cases h
    · cases i with
      | nop => cases h; rfl
      | ev e =>
        simp only at h
        split at h
        · cases h
        · next r hr => cases h; exact eval_keeps hq hr
      | setRet e =>
        simp only at h
        split at h
        · cases h
        · next r hr => cases h; exact eval_keeps hq hr
      | br t => cases h; rfl
      | cbr e t f =>
        simp only at h
        split at h
        · cases h
        · next r hr => cases h; exact eval_keeps hq hr
      | _ => cases h <;> rfl

theorem steps_keep {P : Nat} {fpu : Fpu} {ju : Types.Str.Val} {table : List Site} (hq : QuietSites P table) (blk : Nat → List Item) :
    ∀ (k : Nat) (p : Pc (Nat → WV) WV) (m : Nat → WV), slotsOf (steps (machine fpu ju table) blk k p) = some m → m P = p.mem.1 P := by
  intro k
  induction k with
  | zero => intro p m h; cases h; rfl
  | succ k ih =>
    intro p m h
    rw [steps] at h
    have key := step_keeps (fpu := fpu) (ju := ju) hq blk p
    split at h
    · next p' hp => rw [ih p' m h]; exact key _ (by rw [hp]; rfl)
    · exact key m h

theorem kinds_mem (reg : Reg) : ∀ (params : List (List Char × List Char)) (ps : List (Name × FieldsFn.Kind)), kinds reg params = some ps → ∀ {t x : Name}, (t, x) ∈ params → typeNamed t = none →
    (x, FieldsFn.Kind.obj t) ∈ ps := by
  intro params
  induction params with
  | nil => intro ps _ t x h; cases h
  | cons q params ih =>
    intro ps h t x hx ht
    rw [kinds] at h
    obtain ⟨k, h1, h2⟩ := Option.bind_eq_some_iff.1 h
    obtain ⟨r, h3, rfl⟩ := Option.map_eq_some_iff.1 h2
    rcases List.mem_cons.1 hx with rfl | hx
    · unfold FieldsFn.kindNamed at h1
      rw [ht] at h1
      simp only at h1
      split at h1
      · cases h1; simp
      · cases h1
    · exact List.mem_cons_of_mem _ (ih r h3 hx ht)

theorem nodup_distinct (ps : List (Name × FieldsFn.Kind)) (hd : FieldsFn.distinct ps = true) : (ps.map (·.1)).Nodup := by
  induction ps with
  | nil => simp
  | cons q ps ih =>
    simp only [FieldsFn.distinct, Bool.and_eq_true, Bool.not_eq_true', List.contains_eq_mem, decide_eq_false_iff_not] at hd
    rw [List.map_cons, List.nodup_cons]
    exact ⟨hd.1, ih hd.2⟩

/-- A field the compiler accepts has the descriptor of a type of scripts. -/
theorem descr_only {d : Types.DT.DType} (hu : d.t1 = 0 ∧ d.arr = 0 ∧ d.elems = []) {u : Real.PTy} (h : DynFn.ptyOf d = some u) : ∃ t : Words.Ty, d = DynFn.descr t ∧ t.p = u := by
  unfold DynFn.ptyOf at h
  split at h
  · next hf =>
    rcases d with ⟨c, p, a, b, n, e⟩
    simp only [Types.DT.DType.t1, Types.DT.DType.arr, Types.DT.DType.elems] at hu
    obtain ⟨rfl, rfl, rfl⟩ := hu
    simp only [Types.DT.isFundamental, Types.DT.DType.ptr, Types.DT.DType.container, Bool.and_eq_true, beq_iff_eq] at hf
    obtain ⟨rfl, rfl⟩ := hf
    split at h <;> simp only [Types.DT.DType.t0] at * <;> subst_vars <;> cases h
    · exact ⟨.num .bool, rfl, rfl⟩
    · exact ⟨.num (.int .u8), rfl, rfl⟩
    · exact ⟨.num (.int .i8), rfl, rfl⟩
    · exact ⟨.num (.int .u16), rfl, rfl⟩
    · exact ⟨.num (.int .i16), rfl, rfl⟩
    · exact ⟨.num (.int .u32), rfl, rfl⟩
    · exact ⟨.num (.int .i32), rfl, rfl⟩
    · exact ⟨.num (.int .u64), rfl, rfl⟩
    · exact ⟨.num (.int .i64), rfl, rfl⟩
    · exact ⟨.num (.flt .f32), rfl, rfl⟩
    · exact ⟨.num (.flt .f64), rfl, rfl⟩
    · exact ⟨.str, rfl, rfl⟩
  · cases h

theorem not_script {d : Types.DT.DType} {u : Real.PTy} (h : ∃ t : Words.Ty, d = DynFn.descr t ∧ t.p = u) (ht : ∀ t : Words.Ty, t ≠ .num .bool → d ≠ DynFn.descr t) : u = .bit := by
  obtain ⟨t, h1, h2⟩ := h
  by_cases e : t = .num .bool
  · rw [← h2, e]; rfl
  · exact absurd h1 (ht t e)

/-! ## C166, C170 -/

/-- **C166.** After every call of a compiled function, whatever its text, each object has at every place that is not a number or string among its fields (`Located`) the content it had before:
boolean fields, and everything that is not a field. -/
theorem other_contents_kept (reg : Reg) (fpu : Fpu) (ju : Types.Str.Val) (cfg : Cfg) (src : List Char) (c : FieldsFn.Code) (hc : compileFn reg fpu ju cfg src = some c) (hr : reg.Sound)
    (junk : Nat → WV) (ws : List WV) (objs : Name → Nat → WV) (v : WV) (objs' : Name → Nat → WV) (h : Returns reg fpu ju c junk ws objs v objs')
    (f : Func) (rest : List Tok) (hp : parseFunction cfg src = .ok f rest) (x t : Name) (hx : (t, x) ∈ f.params) (ht : typeNamed t = none) (o : Nat) (ho : o < reg.size t) (hb : ∀ path u, Located reg t path u o → u = .bit) : objs' x o = objs x o := by
  obtain ⟨slots', ⟨_, k, hk⟩, rfl⟩ := h
  unfold compileFn at hc
  rw [hp] at hc
  simp only at hc
  · obtain ⟨ret, h1, h2⟩ := Option.bind_eq_some_iff.1 hc
    obtain ⟨ps, h3, h4⟩ := Option.bind_eq_some_iff.1 h2
    split at h4
    · next hd =>
      obtain ⟨_, _, h5⟩ := Option.bind_eq_some_iff.1 h4
      obtain ⟨r, h6, h7⟩ := Option.bind_eq_some_iff.1 h5
      obtain ⟨st, h8, rfl⟩ := Option.map_eq_some_iff.1 h7
      have hx := kinds_mem reg f.params ps h3 hx ht
      simp only at hk ⊢
      have hnd := nodup_distinct ps hd
      obtain ⟨i, hi⟩ := List.getElem?_of_mem hx
      obtain ⟨s, ha, _⟩ := FieldsFn.at_of reg ps 0 ps.length i x (.obj t) hnd hi
      have hat := FieldsFn.at_obj reg ps 0 ps.length x t s ha
      have haway : Away (s + o) (⟨0, ps.length + total reg ps, cEnv reg ps⟩ : CS Real.PTy) := by
        refine ⟨by show s + o < _; simp only; omega, fun n b hn => ?_⟩
        obtain ⟨b', e, hres⟩ := FieldsFn.env_some hn
        cases e
        rcases FieldsFn.resolved hres with ⟨g1, _⟩ | ⟨y, fs, u, s', o', g1, g2, g3, g4⟩
        · have := FieldsFn.at_val reg _ _ _ _ _ _ g1; omega
        · have gi := hr.inside _ _ _ _ g3
          rcases FieldsFn.objs_apart reg ps 0 ps.length x y t u s s' ha g2 with e | e | e
          · subst e
            rw [ha] at g2
            cases g2
            intro e
            have ho' : o' = o := by omega
            subst ho'
            have hbit := hb _ _ g3
            have hn : cEnv reg ps n = some (some b) := hn
            unfold cEnv at hn
            rw [hres, Option.bind_some] at hn
            rw [if_pos] at hn
            · cases hn
            · refine ⟨?_, hbit⟩
              rw [g1]
              cases fs with
              | nil => exact absurd rfl (FieldsFn.located_ne g3)
              | cons f fs => simp
          · omega
          · omega
      have hq := (stmts_keeps fpu ju ret f.body _ haway r h6).1
      have := steps_keep (fpu := fpu) (ju := ju) hq st.blk k _ slots' (by rw [hk]; rfl)
      unfold object
      rw [ha]
      simp only
      rw [this]
      show entry reg ps junk ws objs (s + o) = objs x o
      unfold entry
      rw [if_neg (by omega)]
      exact FieldsFn.memory_at reg objs junk ps 0 ps.length x t s o ha ho
    · cases h4

/-- **C170.** After every call of a compiled function over dynamic objects, whatever its text, each field of an object that is not a number or a string (a vector, a boolean) has the content it had
before. -/
theorem dyn_other_fields_kept (ss : List DynFn.Decl) (hs : DynFn.SchemasOk ss) (fpu : Fpu) (ju : Types.Str.Val) (cfg : Cfg) (src : List Char) (c : FieldsFn.Code)
    (hc : DynFn.compileFn ss fpu ju cfg src = some c) (junk : Nat → WV) (ws : List WV) (objs : Name → Nat → WV) (v : WV) (objs' : Name → Nat → WV) (h : DynFn.Returns ss fpu ju c junk ws objs v objs')
    (fn : Func) (rest : List Tok) (hp : parseFunction cfg src = .ok fn rest) (x : Name) (D : DynFn.Decl) (hD : D ∈ ss) (hx : (DynFn.objText D.name, x) ∈ fn.params) (f : String) (fd : Types.Dyn.Field) (hf : D.schema.find f = some fd)
    (hn : Types.Dyn.notF80 fd.dtype) (ht : ∀ t : Words.Ty, t ≠ .num .bool → fd.dtype ≠ DynFn.descr t) (hu : fd.dtype.t1 = 0 ∧ fd.dtype.arr = 0 ∧ fd.dtype.elems = []) :
    objs' x fd.offset.toNat = objs x fd.offset.toNat := by
  have hpos : ∀ d, 0 < Types.Dyn.storage d := by intro d; unfold Types.Dyn.storage; repeat' split
                                                 all_goals omega
  obtain ⟨h1, h2⟩ := Types.Dyn.dyn_object_layout_partial D.header (D.fields.reverse.map fun q => (String.ofList q.1, q.2)) (hs.header D hD)
    (by rw [List.length_map, List.length_reverse]; exact hs.small D hD)
  refine other_contents_kept (DynFn.regOf ss) fpu ju cfg src c hc (DynFn.reg_sound hs) junk ws objs v objs' h fn rest hp x (DynFn.label D.name) hx (DynFn.label_type _) fd.offset.toNat ?_ fun path u hl => ?_
  · show _ < (match DynFn.schemaOf ss (DynFn.label D.name) with | some D => D.schema.allocated.toNat | none => 0)
    rw [DynFn.schema_of hs hD]
    have := (h1 f fd hf hn).2.2.2
    have := hpos fd.dtype
    unfold Types.Dyn.Field.hi at *
    unfold DynFn.Decl.schema
    simp only
    omega
  · obtain ⟨E, g, gd, k1, rfl, k3, k4, k5⟩ := DynFn.located hl
    rw [DynFn.schema_of hs hD] at k1
    cases k1
    have hg : f = String.ofList g := by
      by_cases hne : f = String.ofList g
      · exact hne
      · have := h2 f _ fd gd hne hf k3 hn (DynFn.pty_space k4).1
        have := hpos fd.dtype
        have := hpos gd.dtype
        unfold Types.Dyn.Disjoint Types.Dyn.Field.hi Types.Dyn.Field.lo at *
        omega
    subst hg
    rw [hf] at k3
    cases k3
    exact not_script (descr_only hu k4) ht

/-! ### Instances -/

/-- The boolean `f` of a line, at place 16, is as before after the function of C166. -/
example (fpu : Fpu) (ju : Types.Str.Val) (code : FieldsFn.Code) (hc : compileFn FieldsFn.lineReg fpu ju FieldsFn.lineCfg FieldsFn.lineText = some code) (junk : Nat → WV) (ws : List WV)
    (objs : Name → Nat → WV) (v : WV) (objs' : Name → Nat → WV) (h : Returns FieldsFn.lineReg fpu ju code junk ws objs v objs') : objs' ['p'] 16 = objs ['p'] 16 := by
  obtain ⟨f, rest, h1, _, h3, _⟩ := FieldsFn.line_reads fpu
  refine other_contents_kept FieldsFn.lineReg fpu ju _ _ code hc FieldsFn.line_sound junk ws objs v objs' h f rest h1 ['p'] ['L'] (by rw [h3]; simp [FieldsFn.lineArgs, FieldsFn.Param.text])
    (by decide) 16 (by decide) fun path u hl => ?_
  rcases FieldsFn.line_fields hl with ⟨_, e⟩ | ⟨_, e⟩ | ⟨_, e⟩ | ⟨_, e⟩ | ⟨rfl, _⟩
  · cases e
  · cases e
  · cases e
  · cases e
  · have key : ∀ o, Located FieldsFn.lineReg ['L'] [['f']] u o → u = .bit := by
      intro o hl
      cases hl with
      | leaf hm => simp only [FieldsFn.lineReg] at hm; rw [if_pos (by simp), if_neg (by decide), if_neg (by decide), if_pos (by simp)] at hm; cases hm; rfl
      | sub _ h' => exact absurd rfl (FieldsFn.located_ne h')
    exact key _ hl

/-- A schema with a number `a`, a vector `w` and a boolean `b`. -/
def vecSchema : DynFn.Decl := ⟨['V'], 0#64, [(['a'], DynFn.descr FieldsFn.i32), (['w'], .mk Types.DT.COLLECTION_SIMD_VECTOR 0 13 0 0 []), (['b'], DynFn.descr (.num .bool))]⟩

theorem descr_first (t : Words.Ty) : (DynFn.descr t).container = 0 ∧ (t ≠ .num .bool → (DynFn.descr t).t0 ≠ 3) := by
  rcases t with (_ | t | F) | _
  · exact ⟨rfl, fun h => absurd rfl h⟩
  · cases t <;> exact ⟨rfl, fun _ => by decide⟩
  · cases F <;> exact ⟨rfl, fun _ => by decide⟩
  · exact ⟨rfl, fun _ => by decide⟩

/-- Its vector and its boolean are fields as in `dyn_other_fields_kept`. -/
example : DynFn.SchemasOk [vecSchema] ∧ ∀ f ∈ ["w", "b"], ∃ fd, vecSchema.schema.find f = some fd ∧ Types.Dyn.notF80 fd.dtype ∧ (∀ t : Words.Ty, t ≠ .num .bool → fd.dtype ≠ DynFn.descr t) ∧
    fd.dtype.t1 = 0 ∧ fd.dtype.arr = 0 ∧ fd.dtype.elems = [] := by
  refine ⟨⟨by decide, by intro D h; rw [List.mem_singleton.1 h]; decide, by intro D h; rw [List.mem_singleton.1 h]; decide⟩, fun f hf => ?_⟩
  simp only [List.mem_cons, List.not_mem_nil, or_false] at hf
  rcases hf with rfl | rfl
  · refine ⟨⟨24#32, .mk Types.DT.COLLECTION_SIMD_VECTOR 0 13 0 0 []⟩, rfl, .inl (by decide), fun t _ e => ?_, rfl, rfl, rfl⟩
    have := (descr_first t).1
    rw [← e] at this
    revert this
    decide
  · refine ⟨⟨40#32, DynFn.descr (.num .bool)⟩, rfl, .inr (by decide), fun t ht e => ?_, rfl, rfl, rfl⟩
    exact (descr_first t).2 ht (by rw [← e]; rfl)

end Verif.Comp.FieldsFrame
