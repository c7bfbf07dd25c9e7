import Verif.Gen.ScalarSim
/-!
# Code is generated for exactly the well-typed expressions; evaluation of all operands against evaluation of the needed ones
-/
namespace Verif.Gen.Scalar
open Verif.Ast Verif.Ast.Rpn

section
variable {Ty V W : Type} [DecidableEq Ty] {rt : Rt Ty V W} {vars : Vars Ty}

/-- The types of the variables. -/
def tenvOf (vars : Vars Ty) : Name → Option Ty := fun n => match vars n with
  | some (some b) => some b.1
  | _ => none

/-! ## Typing -/

/-- Generation succeeds exactly if the type exists. -/
def TyS {α β : Type} (vars : Vars Ty) (x : G Ty V α) (t : Option β) (R : α → β → Prop) : Prop := ∀ cs, cs.vars = vars → match t with
  | none => x cs = none
  | some b => ∃ a is cs', x cs = some (a, is, cs') ∧ cs'.vars = vars ∧ R a b

theorem TyS.ret {α β : Type} {a : α} {b : β} {R : α → β → Prop} (h : R a b) : TyS vars (G.ret a : G Ty V α) (some b) R := fun cs hv => ⟨a, [], cs, rfl, hv, h⟩
theorem TyS.fail {α β : Type} {R : α → β → Prop} : TyS vars (G.fail : G Ty V α) none R := fun _ _ => rfl
theorem TyS.bind {α β γ δ : Type} {x : G Ty V α} {t : Option β} {R : α → β → Prop} {f : α → G Ty V γ} {g : β → Option δ} {Q : γ → δ → Prop}
    (hx : TyS vars x t R) (hf : ∀ a b, R a b → TyS vars (f a) (g b) Q) : TyS vars (x.andThen f) (t.bind g) Q := by
  intro cs hv
  have h1 := hx cs hv
  cases t with
  | none => simp only at h1; simp [G.andThen, h1]
  | some b =>
    obtain ⟨a, is, cs', e1, e2, e3⟩ := h1
    have h2 := hf a b e3 cs' e2
    simp only [Option.bind_some]
    cases hg : g b with
    | none => rw [hg] at h2; simp only at h2; simp [G.andThen, e1, h2]
    | some d =>
      rw [hg] at h2
      obtain ⟨c, is2, cs2, f1, f2, f3⟩ := h2
      exact ⟨c, is ++ is2, cs2, by simp [G.andThen, e1, f1], f2, f3⟩
theorem TyS.get {α γ δ : Type} {o : Option α} {f : α → G Ty V γ} {g : α → Option δ} {Q : γ → δ → Prop}
    (hf : ∀ a, o = some a → TyS vars (f a) (g a) Q) : TyS vars (G.get o f) (o.bind g) Q := by
  cases o with
  | none => exact TyS.fail
  | some a => exact hf a rfl
theorem TyS.push (i : Instr Ty V) : TyS vars (G.push i) (some ()) (fun _ _ => True) := fun cs hv => ⟨_, _, _, rfl, hv, trivial⟩
/-- A result computed afterwards. -/
theorem TyS.mapR {α β γ : Type} {x : G Ty V α} {t : Option β} {R : α → β → Prop} {g : β → γ} {Q : α → γ → Prop} (hx : TyS vars x t R) (h : ∀ a b, R a b → Q a (g b)) :
    TyS vars x (t.map g) Q := by
  intro cs hv
  have h1 := hx cs hv
  cases t with
  | none => exact h1
  | some b =>
    obtain ⟨a, is, cs', e1, e2, e3⟩ := h1
    exact ⟨a, is, cs', e1, e2, h a b e3⟩

/-- The type of a handle. -/
def HT (vars : Vars Ty) : H Ty V → Ty → Prop
  | .var n, t => tenvOf vars n = some t
  | .imm u _, t => u = t

theorem ty_ld {h : H Ty V} {t : Ty} (hd : HT vars h t) : TyS vars (ld h) (some t) (fun x u => x.1 = u) := by
  cases h with
  | imm u o => exact TyS.ret hd
  | var n =>
    intro cs hv
    have hd : tenvOf vars n = some t := hd
    unfold tenvOf at hd
    unfold ld
    dsimp only
    rw [hv]
    cases hn : vars n with
    | none => rw [hn] at hd; simp at hd
    | some b => cases b with
      | none => rw [hn] at hd; simp at hd
      | some b => rw [hn] at hd; simp at hd; exact ⟨_, _, _, rfl, rfl, hd⟩

theorem ty_castTo (t : Ty) (x : Ty × Opd V) : TyS vars (castTo rt t x) (castable rt x.1 t) (fun _ _ => True) := by
  unfold castTo castable
  by_cases h : x.1 = t
  · rw [if_pos h, if_pos h]; exact TyS.ret trivial
  · rw [if_neg h, if_neg h]
    have := TyS.get (o := rt.cast x.1 t) (f := fun _ => G.push (.cast x.1 t x.2)) (g := fun _ => some ()) (vars := vars) (Q := fun _ _ => True) fun a _ => TyS.push _
    cases hc : rt.cast x.1 t with
    | none => rw [hc] at this; exact this
    | some f => rw [hc] at this; exact this

theorem tyS_of_eq {α β : Type} {x : G Ty V α} {t u : Option β} {R : α → β → Prop} (h : TyS vars x t R) (e : u = t) : TyS vars x u R := e ▸ h

theorem ty_gUn (op : UnOp) {h : H Ty V} {t : Ty} (hd : HT vars h t) (tenv : Name → Option Ty) : TyS vars (gUn rt op h) ((tySem rt tenv).un op t) (HT vars) := by
  unfold gUn
  refine tyS_of_eq (TyS.bind (g := fun u => (rt.un op u).bind fun r => (some ()).bind fun _ => some r.1) (ty_ld hd) fun x u hx => ?_) ?_
  · subst hx
    exact TyS.get fun r _ => TyS.bind (TyS.push _) fun _ _ _ => TyS.ret rfl
  · simp only [tySem, Option.bind_some, meet_eq]
    cases rt.un op t <;> rfl

theorem ty_gBin (op : BinOp) {h1 h2 : H Ty V} {t1 t2 : Ty} (d1 : HT vars h1 t1) (d2 : HT vars h2 t2) (tenv : Name → Option Ty) :
    TyS vars (gBin rt op h1 h2) ((tySem rt tenv).bin op t1 t2) (HT vars) := by
  unfold gBin
  refine tyS_of_eq (TyS.bind (g := fun u => (some t2).bind fun u2 => (common rt u u2).bind fun c => (castable rt u c).bind fun _ => (castable rt u2 c).bind fun _ =>
    (rt.binOp op c).bind fun r => (some ()).bind fun _ => some r.1) (ty_ld d1) fun x u hx => ?_) ?_
  · subst hx
    refine TyS.bind (ty_ld d2) fun y u2 hy => ?_
    subst hy
    exact TyS.get fun c _ => TyS.bind (ty_castTo c x) fun _ _ _ => TyS.bind (ty_castTo c y) fun _ _ _ => TyS.get fun r _ => TyS.bind (TyS.push _) fun _ _ _ => TyS.ret rfl
  · simp only [tySem, Option.bind_some, meet_eq]
    have : ∀ c, (rt.binOp op c).map (·.1) = (rt.binOp op c).bind fun r => some r.1 := fun c => by cases rt.binOp op c <;> rfl
    simp only [this]

theorem ty_gSel {h1 h2 h3 : H Ty V} {t1 t2 t3 : Ty} (d1 : HT vars h1 t1) (d2 : HT vars h2 t2) (d3 : HT vars h3 t3) (tenv : Name → Option Ty) :
    TyS vars (gSel rt h1 h2 h3) ((tySem rt tenv).sel t1 t2 t3) (HT vars) := by
  unfold gSel
  refine tyS_of_eq (TyS.bind (g := fun z => (some t2).bind fun a => (some t3).bind fun b => if rt.isBit z = true then (common rt a b).bind fun c => (castable rt a c).bind fun _ =>
    (castable rt b c).bind fun _ => (some ()).bind fun _ => some c else none) (ty_ld d1) fun z u hz => ?_) ?_
  · subst hz
    refine TyS.bind (ty_ld d2) fun x u2 hx => ?_
    subst hx
    refine TyS.bind (ty_ld d3) fun y u3 hy => ?_
    subst hy
    by_cases hb : rt.isBit z.1 = true
    · simp only [if_pos hb]
      exact TyS.get fun c _ => TyS.bind (ty_castTo c x) fun _ _ _ => TyS.bind (ty_castTo c y) fun _ _ _ => TyS.bind (TyS.push _) fun _ _ _ => TyS.ret rfl
    · simp only [if_neg hb]; exact TyS.fail
  · simp only [tySem, Option.bind_some, meet_eq]
    by_cases hb : rt.isBit t1 = true
    · simp only [if_pos hb]
      have : ∀ c, ((castable rt t3 c).map fun _ => c) = (castable rt t3 c).bind fun _ => some c := fun c => by cases castable rt t3 c <;> rfl
      simp only [this]
    · simp only [if_neg hb]

theorem ty_lds {hs : List (H Ty V)} {ts : List Ty} (h : All2 (HT vars) hs ts) : TyS vars (lds hs) (some ts) (fun xs us => xs.map (·.1) = us) := by
  induction h with
  | nil => exact TyS.ret rfl
  | @cons a t as ts d _ ih =>
    rw [lds]
    refine tyS_of_eq (TyS.bind (g := fun u => (some ts).bind fun us => some (u :: us)) (ty_ld d) fun x u hx => TyS.bind ih fun xs us hs => TyS.ret ?_) rfl
    simp [hx, hs]

theorem ty_castsTo (ts : List Ty) : ∀ xs : List (Ty × Opd V), TyS vars (castsTo rt ts xs) (castables rt ts (xs.map (·.1))) (fun _ _ => True) := by
  induction ts with
  | nil => intro xs; cases xs with
    | nil => exact TyS.ret trivial
    | cons _ _ => exact TyS.fail
  | cons t ts ih => intro xs; cases xs with
    | nil => exact TyS.fail
    | cons x xs =>
      rw [castsTo, List.map_cons, castables]
      refine TyS.bind (ty_castTo t x) fun _ _ _ => tyS_of_eq (TyS.bind (g := fun _ => some ()) (ih xs) fun _ _ _ => TyS.ret trivial) ?_
      cases castables rt ts (xs.map (·.1)) <;> rfl

theorem ty_gInl (n : Name) {hs : List (H Ty V)} {ts : List Ty} (h : All2 (HT vars) hs ts) (tenv : Name → Option Ty) :
    TyS vars (gInl rt n hs) ((tySem rt tenv).inl n ts) (HT vars) := by
  unfold gInl
  refine tyS_of_eq (TyS.bind (g := fun us => (rt.inl n us).bind fun r => (some ()).bind fun _ => some r.1) (ty_lds h) fun xs us hx => ?_) ?_
  · subst hx
    exact TyS.get fun r _ => TyS.bind (TyS.push _) fun _ _ _ => TyS.ret rfl
  · simp only [tySem, Option.bind_some, meet_eq]
    cases rt.inl n ts <;> rfl

theorem ty_gCall (n : Name) {hs : List (H Ty V)} {ts : List Ty} (h : All2 (HT vars) hs ts) (tenv : Name → Option Ty) :
    TyS vars (gCall rt n hs) ((tySem rt tenv).call n ts) (HT vars) := by
  unfold gCall
  refine tyS_of_eq (TyS.get (g := fun f => (some ts).bind fun us => (castables rt f.1 us).bind fun _ => (some ()).bind fun _ => some f.2.1) fun f _ =>
    TyS.bind (ty_lds h) fun xs us hx => ?_) ?_
  · subst hx
    exact TyS.bind (ty_castsTo f.1 xs) fun _ _ _ => TyS.bind (TyS.push _) fun _ _ _ => TyS.ret rfl
  · simp only [tySem, Option.bind_some, meet_eq]
    cases rt.fn n with
    | none => rfl
    | some f => simp only [Option.bind_some]; cases castables rt f.1 ts <;> rfl

def HTN (vars : Vars Ty) : ENode (H Ty V) → ENode Ty → Prop
  | .val h, .val t => HT vars h t
  | .op1 o, .op1 p => o = p
  | .op2 o, .op2 p => o = p ∧ o ≠ .assign ∧ baseOp o = none
  | .sel, .sel => True
  | .inl n, .inl m => n = m
  | _, _ => False

theorem ty_gStep (inl : Inline) (tenv : Name → Option Ty) {n : ENode (H Ty V)} {n' : ENode Ty} (hn : HTN vars n n') {s : List (H Ty V)} {s' : List Ty} (hs : All2 (HT vars) s s') :
    TyS vars (gStep rt inl n s) (step inl (tySem rt tenv) n' s') (fun a b => All2 (HT vars) a b) := by
  have fin : ∀ {x : G Ty V (H Ty V)} {o : Option Ty} {t : List (H Ty V)} {t' : List Ty}, TyS vars x o (HT vars) → All2 (HT vars) t t' →
      TyS vars (x.andThen fun h => G.ret (h :: t)) (o.map (· :: t')) (fun a b => All2 (HT vars) a b) := by
    intro x o t t' hx ht
    refine tyS_of_eq (TyS.bind (g := fun u => some (u :: t')) hx fun a b hab => TyS.ret (.cons hab ht)) ?_
    cases o <;> rfl
  cases n with
  | val h => cases n' with
    | val t => exact TyS.ret (.cons hn hs)
    | _ => exact hn.elim
  | op1 o => cases n' with
    | op1 p =>
      have : o = p := hn
      subst this
      cases hs with
      | nil => exact TyS.fail
      | cons d ds => exact fin (ty_gUn o d tenv) ds
    | _ => exact hn.elim
  | op2 o => cases n' with
    | op2 p =>
      obtain ⟨rfl, h1, h2⟩ := hn
      cases hs with
      | nil => exact TyS.fail
      | cons d ds => cases ds with
        | nil => exact TyS.fail
        | cons d2 ds =>
          rw [gStep, step, gOp2_plain _ _ _ h1 h2]
          exact fin (ty_gBin o d2 d tenv) ds
    | _ => exact hn.elim
  | sel => cases n' with
    | sel =>
      cases hs with
      | nil => exact TyS.fail
      | cons d ds => cases ds with
        | nil => exact TyS.fail
        | cons d2 ds => cases ds with
          | nil => exact TyS.fail
          | cons d3 ds => exact fin (ty_gSel d3 d2 d tenv) ds
    | _ => exact hn.elim
  | inl m => cases n' with
    | inl p =>
      have : m = p := hn
      subst this
      have hg : gStep rt inl (.inl m) s = G.get (inl m) fun k => if s.length < k then G.fail else (gInl rt m (s.take k).reverse).andThen fun h => G.ret (h :: s.drop k) := by
        rw [gStep.eq_def]
      have hv : step inl (tySem rt tenv) (.inl m) s' = (inl m).bind fun k => if s'.length < k then none else ((tySem rt tenv).inl m (s'.take k).reverse).map (· :: s'.drop k) := by
        rw [step.eq_def]
        dsimp only
        split
        · next h => rw [h]; rfl
        · next h => rw [h]; rfl
      rw [hg, hv]
      refine TyS.get fun k hk => ?_
      rw [← hs.length]
      by_cases hl : s.length < k
      · rw [if_pos hl, if_pos hl]; exact TyS.fail
      · rw [if_neg hl, if_neg hl]
        exact fin (ty_gInl m (hs.take k).reverse tenv) (hs.drop k)
    | _ => exact hn.elim

theorem ty_gStack (inl : Inline) (tenv : Name → Option Ty) {ns : List (ENode (H Ty V))} {ns' : List (ENode Ty)} (hn : All2 (HTN vars) ns ns') :
    ∀ {s : List (H Ty V)} {s' : List Ty}, All2 (HT vars) s s' → TyS vars (gStack rt inl ns s) (stack inl (tySem rt tenv) ns' s') (fun a b => All2 (HT vars) a b) := by
  induction hn with
  | nil => intro s s' hs; exact TyS.ret hs
  | cons r _ ih => intro s s' hs; rw [gStack, stack]; exact TyS.bind (ty_gStep inl tenv r hs) fun a b hab => ih hab

theorem ty_single {s : List (H Ty V)} {s' : List Ty} (h : All2 (HT vars) s s') : TyS vars (G.get (single s) G.ret : G Ty V (H Ty V)) (single s') (HT vars) := by
  cases h with
  | nil => exact TyS.fail
  | cons d ds => cases ds with
    | nil => exact TyS.ret d
    | cons _ _ => exact TyS.fail

theorem ty_run (inl : Inline) (tenv : Name → Option Ty) {x : G Ty V (List (ENode (H Ty V)))} {o : Option (List (ENode Ty))} (h : TyS vars x o (fun a b => All2 (HTN vars) a b)) :
    TyS vars (x.andThen fun es => (gStack rt inl es []).andThen fun s => G.get (single s) G.ret) (o.bind fun es => (stack inl (tySem rt tenv) es []).bind single) (HT vars) :=
  TyS.bind h fun _ _ hes => TyS.bind (ty_gStack inl tenv hes .nil) fun _ _ hs => ty_single hs

theorem tyS_map {α β γ δ : Type} {x : G Ty V α} {t : Option β} {R : α → β → Prop} {f : α → γ} {g : β → δ} {Q : γ → δ → Prop} (hx : TyS vars x t R) (h : ∀ a b, R a b → Q (f a) (g b)) :
    TyS vars (x.andThen fun a => G.ret (f a)) (t.map g) Q := by
  refine tyS_of_eq (TyS.bind (g := fun u => some (g u)) hx fun a b hab => TyS.ret (h a b hab)) ?_
  cases t <;> rfl

mutual
theorem ty_gBuild (inl : Inline) (r : Rpn) (h : SafeR vars r) : TyS vars (gBuild rt inl r) (build inl (tySem rt (tenvOf vars)) r) (fun a b => All2 (HTN vars) a b) := by
  match r with
  | .nil => rw [gBuild, build]; exact TyS.ret .nil
  | .cons n r =>
    rw [SafeR] at h
    have h1 := ty_gNode inl n h.1
    have h2 := ty_gBuild inl r h.2
    rw [gBuild, build]
    exact TyS.bind h1 fun a b hab => tyS_map h2 fun as bs hs => .cons hab hs
theorem ty_gNode (inl : Inline) (n : Node) (h : SafeN vars n) : TyS vars (gNode rt inl n) (buildN inl (tySem rt (tenvOf vars)) n) (HTN vars) := by
  match n with
  | .bool b => rw [gNode, buildN]; exact TyS.ret rfl
  | .str b => rw [gNode, buildN]; exact TyS.ret rfl
  | .num b =>
    rw [gNode, buildN]
    refine tyS_of_eq (TyS.get (g := fun x => some (ENode.val x.1)) fun x _ => TyS.ret (b := ENode.val x.1) (show x.1 = x.1 from rfl)) ?_
    simp only [tySem]
    cases rt.num b <;> rfl
  | .define _ => rw [SafeN] at h; exact h.elim
  | .array _ => rw [SafeN] at h; exact h.elim
  | .access _ _ => rw [SafeN] at h; exact h.elim
  | .var m =>
    rw [SafeN] at h
    rw [gNode, buildN]
    show TyS vars _ ((tenvOf vars m).map ENode.val) _
    cases hm : vars m with
    | none =>
      have : tenvOf vars m = none := by unfold tenvOf; rw [hm]
      rw [this]
      intro cs hv
      simp only [Option.map_none, hv, hm]
    | some b => cases b with
      | none => exact absurd hm h
      | some b =>
        have : tenvOf vars m = some b.1 := by unfold tenvOf; rw [hm]
        rw [this]
        intro cs hv
        refine ⟨ENode.val (.var m), [], cs, ?_, hv, this⟩
        simp only [hv, hm]
  | .call m rs =>
    rw [SafeN] at h
    have h1 := ty_gRuns inl rs h
    rw [gNode, buildN]
    exact TyS.bind h1 fun hs ts ht => tyS_map (ty_gCall m ht (tenvOf vars)) fun _ _ q => q
  | .op1 _ => rw [gNode, buildN]; exact TyS.ret rfl
  | .op2 _ => rw [SafeN] at h; rw [gNode, buildN]; exact TyS.ret ⟨rfl, h⟩
  | .sel => rw [gNode, buildN]; exact TyS.ret trivial
  | .inl _ => rw [gNode, buildN]; exact TyS.ret rfl
theorem ty_gRuns (inl : Inline) (rs : Rpns) (h : SafeRs vars rs) : TyS vars (gRuns rt inl rs) (runs inl (tySem rt (tenvOf vars)) rs) (fun a b => All2 (HT vars) a b) := by
  match rs with
  | .nil => rw [gRuns, runs]; exact TyS.ret .nil
  | .cons r rs =>
    rw [SafeRs] at h
    have h1 := ty_gBuild inl r h.1
    have h2 := ty_gRuns inl rs h.2
    rw [gRuns, runs]
    exact TyS.bind (ty_run inl (tenvOf vars) h1) fun a b hab => tyS_map h2 fun as bs hs => .cons hab hs
end

mutual
theorem plain_arity (inl : Inline) (e : Expr) (h : Plain inl e) : Arity inl e := by
  match e with
  | .un _ o => rw [Plain] at h; rw [Arity]; exact plain_arityO inl o h
  | .bin l _ r => rw [Plain] at h; rw [Arity]; exact ⟨plain_arity inl l h.1, plain_arity inl r h.2.2.2⟩
  | .sel c t f => rw [Plain] at h; rw [Arity]; exact ⟨plain_arity inl c h.1, plain_arity inl t h.2.1, plain_arity inl f h.2.2⟩
theorem plain_arityO (inl : Inline) (o : Operand) (h : PlainO inl o) : ArityO inl o := by
  match o with
  | .paren e => rw [PlainO] at h; rw [ArityO]; exact plain_arity inl e h
  | .call n es => rw [PlainO] at h; rw [ArityO]; exact ⟨plain_arityEs inl es h.1, h.2⟩
  | .bool _ => trivial
  | .str _ => trivial
  | .num _ => trivial
  | .var _ => trivial
  | .define _ => trivial
  | .array _ => rw [PlainO] at h; exact h.elim
  | .access _ _ => rw [PlainO] at h; exact h.elim
theorem plain_arityEs (inl : Inline) (es : Exprs) (h : PlainEs inl es) : ArityEs inl es := by
  match es with
  | .nil => trivial
  | .cons e es => rw [PlainEs] at h; rw [ArityEs]; exact ⟨plain_arity inl e h.1, plain_arityEs inl es h.2⟩
end

/-- Code is generated for an expression exactly if it has a type. -/
theorem ty_gExpr (inl : Inline) (e : Expr) (h : Plain inl e) (hv : ∀ n, varsE e n → vars n ≠ some none) :
    TyS vars (gExpr rt inl e) (tyE rt inl (tenvOf vars) e) (HT vars) := by
  have h1 := ty_run (rt := rt) inl (tenvOf vars) (ty_gBuild (rt := rt) inl _ (safe_flatE inl e h hv))
  have h2 : Rpn.run inl (tySem rt (tenvOf vars)) (flatE inl e) = tyE rt inl (tenvOf vars) e :=
    run_exec inl _ _ _ (flatE_ok inl _ e (plain_arity inl e h))
  rw [← h2]
  exact h1

end

end Verif.Gen.Scalar
