import Verif.Gen.ScalarProps
/-!
# C94: which expressions with assignments, and which straight-line programs, are compiled
-/
namespace Verif.Gen.Scalar
open Verif.Ast Verif.Ast.Rpn

section
variable {Ty V W : Type} [DecidableEq Ty] (rt : Rt Ty V W)

/-! ## Specification -/

mutual
/-- Expressions of literals, variables, operators, assignments, conditionals and calls; built-in functions have their number of arguments. -/
def NoDef (inl : Inline) : Expr → Prop
  | .un _ o => NoDefO inl o
  | .bin l _ r => NoDef inl l ∧ NoDef inl r
  | .sel c t f => NoDef inl c ∧ NoDef inl t ∧ NoDef inl f
def NoDefO (inl : Inline) : Operand → Prop
  | .paren e => NoDef inl e
  | .call n es => NoDefEs inl es ∧ ∀ k, inl n = some k → Exprs.length es = k
  | .bool _ => True
  | .str _ => True
  | .num _ => True
  | .var _ => True
  | .define _ => False
  | .array _ => False
  | .access _ _ => False
def NoDefEs (inl : Inline) : Exprs → Prop
  | .nil => True
  | .cons e es => NoDef inl e ∧ NoDefEs inl es
end

/-- The operator in front of `=`. -/
def updOp : BinOp → Option BinOp
  | .addAssign => some .add
  | .subAssign => some .sub
  | .mulAssign => some .mul
  | .divAssign => some .div
  | .modAssign => some .mod
  | _ => none

/-- The type of the result of an operator on two types: both are converted to the common type. -/
def opTy (op : BinOp) (a b : Ty) : Option Ty :=
  (meet rt a b).bind fun c => (castable rt a c).bind fun _ => (castable rt b c).bind fun _ => (rt.binOp op c).map (·.1)

/-- The type of an expression, and whether it stands for a variable. `x = e` needs a variable and an operand of its type; `x op= e` needs a variable to whose type the other operand is
converted, and an operator with a result of that type; both stand for the variable again. -/
def asgSem (tenv : Name → Option Ty) : Sem (Ty × Bool) where
  bool b := ((rt.bool b).1, false)
  str s := ((rt.str s).1, false)
  num t := (rt.num t).map fun x => (x.1, false)
  define _ := none
  var n := (tenv n).map fun t => (t, true)
  array _ := none
  call n ts := (rt.fn n).bind fun f => (castables rt f.1 (ts.map (·.1))).map fun _ => (f.2.1, false)
  field _ _ := none
  method _ _ _ := none
  key _ _ := none
  index _ _ := none
  ref _ _ := none
  un op t := (rt.un op t.1).map fun r => (r.1, false)
  bin op a b :=
    if op = .assign then (if a.2 = true ∧ b.1 = a.1 then some a else none)
    else match updOp op with
      | some o => if a.2 = true ∧ meet rt a.1 b.1 = some a.1 ∧ opTy rt o a.1 b.1 = some a.1 then some a else none
      | none => (opTy rt op a.1 b.1).map fun t => (t, false)
  sel z a b := if rt.isBit z.1 = true then (meet rt a.1 b.1).bind fun c => (castable rt a.1 c).bind fun _ => (castable rt b.1 c).map fun _ => (c, false) else none
  inl n ts := (rt.inl n (ts.map (·.1))).map fun r => (r.1, false)

/-- The type of an expression with assignments. -/
def asgE (inl : Inline) (tenv : Name → Option Ty) (e : Expr) : Option (Ty × Bool) := evalE inl (asgSem rt tenv) e

/-- What a statement does to the types of the variables: a definition gives a new name the type of its right-hand side. -/
def lineTy (inl : Inline) (tenv : Name → Option Ty) : Line → Option (Name → Option Ty)
  | .define x e => match tenv x with
    | some _ => none
    | none => (asgE rt inl tenv e).map fun t n => if n = x then some t.1 else tenv n
  | l => (asgE rt inl tenv l.expr).map fun _ => tenv

def progTy (inl : Inline) : (Name → Option Ty) → List Line → Option (Name → Option Ty)
  | tenv, [] => some tenv
  | tenv, l :: ls => (lineTy rt inl tenv l).bind fun t => progTy inl t ls

/-- Statements of such expressions; a definition does not mention the variable it defines. -/
def LineOk (inl : Inline) : Line → Prop
  | .define x e => NoDef inl e ∧ ¬ varsE e x
  | .assign _ e => NoDef inl e
  | .update op _ e => NoDef inl e ∧ (updOp op).isSome = true
  | .eval e => NoDef inl e

end

/-! ## Proofs -/

section
variable {Ty V W : Type} [DecidableEq Ty] {rt : Rt Ty V W} {vars : Vars Ty}

/-- The type of a handle, and whether it is a variable. -/
def HA (vars : Vars Ty) (h : H Ty V) (t : Ty × Bool) : Prop := HT vars h t.1 ∧ (t.2 = true ↔ ∃ n, h = .var n)

theorem ha_imm {t : Ty} {o : Opd V} : HA vars (.imm t o : H Ty V) (t, false) := ⟨rfl, by simp⟩

theorem updOp_eq (op : BinOp) : updOp op = baseOp op := by cases op <;> rfl

theorem a_gUn (op : UnOp) {h : H Ty V} {t : Ty × Bool} (hd : HA vars h t) (tenv : Name → Option Ty) : TyS vars (gUn rt op h) ((asgSem rt tenv).un op t) (HA vars) := by
  unfold gUn
  refine tyS_of_eq (TyS.bind (g := fun u => (rt.un op u).bind fun r => (some ()).bind fun _ => some (r.1, false)) (ty_ld hd.1) fun x u hx => ?_) ?_
  · subst hx
    exact TyS.get fun r _ => TyS.bind (TyS.push _) fun _ _ _ => TyS.ret ha_imm
  · simp only [asgSem, Option.bind_some]
    cases rt.un op t.1 <;> rfl

theorem a_gBin (op : BinOp) {h1 h2 : H Ty V} {t1 t2 : Ty × Bool} (d1 : HA vars h1 t1) (d2 : HA vars h2 t2) :
    TyS vars (gBin rt op h1 h2) ((opTy rt op t1.1 t2.1).map fun t => (t, false)) (HA vars) := by
  unfold gBin
  refine tyS_of_eq (TyS.bind (g := fun u => (some t2.1).bind fun u2 => (common rt u u2).bind fun c => (castable rt u c).bind fun _ => (castable rt u2 c).bind fun _ =>
    (rt.binOp op c).bind fun r => (some ()).bind fun _ => some (r.1, false)) (ty_ld d1.1) fun x u hx => ?_) ?_
  · subst hx
    refine TyS.bind (ty_ld d2.1) fun y u2 hy => ?_
    subst hy
    exact TyS.get fun c _ => TyS.bind (ty_castTo c x) fun _ _ _ => TyS.bind (ty_castTo c y) fun _ _ _ => TyS.get fun r _ => TyS.bind (TyS.push _) fun _ _ _ => TyS.ret ha_imm
  · simp only [opTy, Option.bind_some, meet_eq]
    cases common rt t1.1 t2.1 with
    | none => rfl
    | some c =>
      simp only [Option.bind_some]
      cases castable rt t1.1 c with
      | none => rfl
      | some _ =>
        simp only [Option.bind_some]
        cases castable rt t2.1 c with
        | none => rfl
        | some _ => simp only [Option.bind_some]; cases rt.binOp op c <;> rfl

theorem TyS.same {α β : Type} {x y : G Ty V α} {t : Option β} {R : α → β → Prop} (h : TyS vars x t R) (e : ∀ cs, cs.vars = vars → y cs = x cs) : TyS vars y t R := by
  intro cs hv
  have h1 := h cs hv
  cases t with
  | none => exact (e cs hv).trans h1
  | some b => obtain ⟨a, is, cs', e1, e2⟩ := h1; exact ⟨a, is, cs', (e cs hv).trans e1, e2⟩

theorem typed_var {n : Name} {t : Ty} (ht : tenvOf vars n = some t) : ∃ b : Ty × Nat, vars n = some (some b) ∧ b.1 = t := by
  unfold tenvOf at ht
  cases hb : vars n with
  | none => rw [hb] at ht; simp at ht
  | some b => cases b with
    | none => rw [hb] at ht; simp at ht
    | some b => rw [hb] at ht; simp at ht; exact ⟨b, rfl, ht⟩

theorem a_gAssign {h1 h2 : H Ty V} {t1 t2 : Ty × Bool} (d1 : HA vars h1 t1) (d2 : HA vars h2 t2) :
    TyS vars (gAssign h1 h2) (if t1.2 = true ∧ t2.1 = t1.1 then some t1 else none) (HA vars) := by
  cases h1 with
  | imm u o =>
    rw [if_neg (by rintro ⟨h, _⟩; obtain ⟨n, hn⟩ := d1.2.1 h; cases hn)]
    exact TyS.fail
  | var n =>
    have hn : t1.2 = true := d1.2.2 ⟨n, rfl⟩
    have ht : tenvOf vars n = some t1.1 := d1.1
    obtain ⟨b, hb, hbt⟩ := typed_var ht
    have key : TyS vars ((ld h2).andThen fun y => if y.1 = b.1 then fun cs => some ((.var n : H Ty V), [.store b.2 y.2], cs) else G.fail)
        ((some t2.1).bind fun u => if u = t1.1 then some t1 else none) (HA vars) := by
      refine TyS.bind (ty_ld d2.1) fun y u hy => ?_
      subst hy
      rw [hbt]
      by_cases hc : y.1 = t1.1
      · rw [if_pos hc, if_pos hc]; exact fun cs hv => ⟨_, _, _, rfl, hv, d1⟩
      · rw [if_neg hc, if_neg hc]; exact TyS.fail
    have he : (if t1.2 = true ∧ t2.1 = t1.1 then some t1 else none) = ((some t2.1).bind fun u => if u = t1.1 then some t1 else none) := by
      simp only [hn, true_and, Option.bind_some]
    rw [he]
    refine key.same fun cs hv => ?_
    unfold gAssign
    dsimp only
    rw [hv, hb]

theorem a_gUpdate (op : BinOp) {h1 h2 : H Ty V} {t1 t2 : Ty × Bool} (d1 : HA vars h1 t1) (d2 : HA vars h2 t2) :
    TyS vars (gUpdate rt op h1 h2) (if t1.2 = true ∧ meet rt t1.1 t2.1 = some t1.1 ∧ opTy rt op t1.1 t2.1 = some t1.1 then some t1 else none) (HA vars) := by
  cases h1 with
  | imm u o =>
    rw [if_neg (by rintro ⟨h, _⟩; obtain ⟨n, hn⟩ := d1.2.1 h; cases hn)]
    exact TyS.fail
  | var n =>
    have hn : t1.2 = true := d1.2.2 ⟨n, rfl⟩
    have ht : tenvOf vars n = some t1.1 := d1.1
    have key : ∀ b : Ty × Nat, b.1 = t1.1 → TyS vars ((ld (.var n : H Ty V)).andThen fun x => (ld h2).andThen fun y => G.get (common rt x.1 y.1) fun c =>
        if c = b.1 then (castTo rt c y).andThen fun v => G.get (rt.binOp op c) fun r =>
          if r.1 = b.1 then (G.push (.bin op c x.2 v)).andThen fun o => fun cs => some ((.var n : H Ty V), [.store b.2 o], cs) else G.fail
        else G.fail) ((some t1.1).bind fun u => (some t2.1).bind fun u2 => (common rt u u2).bind fun c => if c = t1.1 then (castable rt u2 c).bind fun _ => (rt.binOp op c).bind fun r =>
          if r.1 = t1.1 then (some ()).bind fun _ => some t1 else none else none) (HA vars) := by
      intro b hb
      refine TyS.bind (ty_ld d1.1) fun x u hx => TyS.bind (ty_ld d2.1) fun y u2 hy => ?_
      subst hx hy
      refine TyS.get fun c _ => ?_
      rw [hb]
      by_cases hc : c = t1.1
      · rw [if_pos hc, if_pos hc]
        refine TyS.bind (ty_castTo c y) fun v _ _ => TyS.get fun r _ => ?_
        by_cases hr : r.1 = t1.1
        · rw [if_pos hr, if_pos hr]
          exact TyS.bind (TyS.push _) fun o _ _ => fun cs hv => ⟨_, _, _, rfl, hv, d1⟩
        · rw [if_neg hr, if_neg hr]; exact TyS.fail
      · rw [if_neg hc, if_neg hc]; exact TyS.fail
    obtain ⟨b, hb, hbt⟩ := typed_var ht
    have he : (if t1.2 = true ∧ meet rt t1.1 t2.1 = some t1.1 ∧ opTy rt op t1.1 t2.1 = some t1.1 then some t1 else none) =
        ((some t1.1).bind fun u => (some t2.1).bind fun u2 => (common rt u u2).bind fun c => if c = t1.1 then (castable rt u2 c).bind fun _ => (rt.binOp op c).bind fun r =>
          if r.1 = t1.1 then (some ()).bind fun _ => some t1 else none else none) := by
      simp only [Option.bind_some, opTy, meet_eq, hn, true_and]
      cases hm : common rt t1.1 t2.1 with
      | none => simp
      | some c =>
        simp only [Option.bind_some, Option.some.injEq]
        by_cases hc : c = t1.1
        · subst hc
          have h1 : castable rt t1.1 t1.1 = some () := by simp [castable]
          rw [if_pos rfl, h1]
          simp only [Option.bind_some, true_and]
          cases castable rt t2.1 t1.1 with
          | none => simp
          | some _ =>
            simp only [Option.bind_some]
            cases rt.binOp op t1.1 with
            | none => simp
            | some r => simp
        · rw [if_neg hc, if_neg (fun h => hc h.1)]
    rw [he]
    refine (key b hbt).same fun cs hv => ?_
    unfold gUpdate
    dsimp only
    rw [hv, hb]

theorem a_gOp2 (op : BinOp) {h1 h2 : H Ty V} {t1 t2 : Ty × Bool} (d1 : HA vars h1 t1) (d2 : HA vars h2 t2) (tenv : Name → Option Ty) :
    TyS vars (gOp2 rt op h1 h2) ((asgSem rt tenv).bin op t1 t2) (HA vars) := by
  unfold gOp2
  simp only [asgSem, updOp_eq]
  by_cases ho : op = .assign
  · rw [if_pos ho, if_pos ho]; exact a_gAssign d1 d2
  · rw [if_neg ho, if_neg ho]
    cases hb : baseOp op with
    | some o => exact a_gUpdate o d1 d2
    | none => exact a_gBin op d1 d2

theorem a_gSel {h1 h2 h3 : H Ty V} {t1 t2 t3 : Ty × Bool} (d1 : HA vars h1 t1) (d2 : HA vars h2 t2) (d3 : HA vars h3 t3) (tenv : Name → Option Ty) :
    TyS vars (gSel rt h1 h2 h3) ((asgSem rt tenv).sel t1 t2 t3) (HA vars) := by
  unfold gSel
  refine tyS_of_eq (TyS.bind (g := fun z => (some t2.1).bind fun a => (some t3.1).bind fun b => if rt.isBit z = true then (common rt a b).bind fun c => (castable rt a c).bind fun _ =>
    (castable rt b c).bind fun _ => (some ()).bind fun _ => some (c, false) else none) (ty_ld d1.1) fun z u hz => ?_) ?_
  · subst hz
    refine TyS.bind (ty_ld d2.1) fun x u2 hx => ?_
    subst hx
    refine TyS.bind (ty_ld d3.1) fun y u3 hy => ?_
    subst hy
    by_cases hb : rt.isBit z.1 = true
    · simp only [if_pos hb]
      exact TyS.get fun c _ => TyS.bind (ty_castTo c x) fun _ _ _ => TyS.bind (ty_castTo c y) fun _ _ _ => TyS.bind (TyS.push _) fun _ _ _ => TyS.ret ha_imm
    · simp only [if_neg hb]; exact TyS.fail
  · simp only [asgSem, Option.bind_some, meet_eq]
    by_cases hb : rt.isBit t1.1 = true
    · simp only [if_pos hb]
      have : ∀ c, ((castable rt t3.1 c).map fun _ => (c, false)) = (castable rt t3.1 c).bind fun _ => some (c, false) := fun c => by cases castable rt t3.1 c <;> rfl
      simp only [this]
    · simp only [if_neg hb]

theorem ha_ht {hs : List (H Ty V)} {ts : List (Ty × Bool)} (h : All2 (HA vars) hs ts) : All2 (HT vars) hs (ts.map (·.1)) := by
  induction h with
  | nil => exact .nil
  | cons d _ ih => exact .cons d.1 ih

theorem a_gInl (n : Name) {hs : List (H Ty V)} {ts : List (Ty × Bool)} (h : All2 (HA vars) hs ts) (tenv : Name → Option Ty) :
    TyS vars (gInl rt n hs) ((asgSem rt tenv).inl n ts) (HA vars) := by
  unfold gInl
  refine tyS_of_eq (TyS.bind (g := fun us => (rt.inl n us).bind fun r => (some ()).bind fun _ => some (r.1, false)) (ty_lds (ha_ht h)) fun xs us hx => ?_) ?_
  · subst hx
    exact TyS.get fun r _ => TyS.bind (TyS.push _) fun _ _ _ => TyS.ret ha_imm
  · simp only [asgSem, Option.bind_some]
    cases rt.inl n (ts.map (·.1)) <;> rfl

theorem a_gCall (n : Name) {hs : List (H Ty V)} {ts : List (Ty × Bool)} (h : All2 (HA vars) hs ts) (tenv : Name → Option Ty) :
    TyS vars (gCall rt n hs) ((asgSem rt tenv).call n ts) (HA vars) := by
  unfold gCall
  refine tyS_of_eq (TyS.get (g := fun f => (some (ts.map (·.1))).bind fun us => (castables rt f.1 us).bind fun _ => (some ()).bind fun _ => some (f.2.1, false)) fun f _ =>
    TyS.bind (ty_lds (ha_ht h)) fun xs us hx => ?_) ?_
  · subst hx
    exact TyS.bind (ty_castsTo f.1 xs) fun _ _ _ => TyS.bind (TyS.push _) fun _ _ _ => TyS.ret ha_imm
  · simp only [asgSem, Option.bind_some]
    cases rt.fn n with
    | none => rfl
    | some f => simp only [Option.bind_some]; cases castables rt f.1 (ts.map (·.1)) <;> rfl

def HAN (vars : Vars Ty) : ENode (H Ty V) → ENode (Ty × Bool) → Prop
  | .val h, .val t => HA vars h t
  | .op1 o, .op1 p => o = p
  | .op2 o, .op2 p => o = p
  | .sel, .sel => True
  | .inl n, .inl m => n = m
  | _, _ => False

theorem a_gStep (inl : Inline) (tenv : Name → Option Ty) {n : ENode (H Ty V)} {n' : ENode (Ty × Bool)} (hn : HAN vars n n') {s : List (H Ty V)} {s' : List (Ty × Bool)}
    (hs : All2 (HA vars) s s') : TyS vars (gStep rt inl n s) (step inl (asgSem rt tenv) n' s') (fun a b => All2 (HA vars) a b) := by
  have fin : ∀ {x : G Ty V (H Ty V)} {o : Option (Ty × Bool)} {t : List (H Ty V)} {t' : List (Ty × Bool)}, TyS vars x o (HA vars) → All2 (HA vars) t t' →
      TyS vars (x.andThen fun h => G.ret (h :: t)) (o.map (· :: t')) (fun a b => All2 (HA vars) a b) := by
    intro x o t t' hx ht
    refine tyS_of_eq (TyS.bind (g := fun u => some (u :: t')) hx fun a b hab => TyS.ret (.cons hab ht)) ?_
    cases o <;> rfl
  cases n with
  | val h => cases n' with
    | val t => exact TyS.ret (.cons hn hs)
    | _ => exact hn.elim
  | op1 o => cases n' with
    | op1 p =>
      have : o = p := hn
      subst this
      cases hs with
      | nil => exact TyS.fail
      | cons d ds => exact fin (a_gUn o d tenv) ds
    | _ => exact hn.elim
  | op2 o => cases n' with
    | op2 p =>
      have : o = p := hn
      subst this
      cases hs with
      | nil => exact TyS.fail
      | cons d ds => cases ds with
        | nil => exact TyS.fail
        | cons d2 ds => exact fin (a_gOp2 o d2 d tenv) ds
    | _ => exact hn.elim
  | sel => cases n' with
    | sel =>
      cases hs with
      | nil => exact TyS.fail
      | cons d ds => cases ds with
        | nil => exact TyS.fail
        | cons d2 ds => cases ds with
          | nil => exact TyS.fail
          | cons d3 ds => exact fin (a_gSel d3 d2 d tenv) ds
    | _ => exact hn.elim
  | inl m => cases n' with
    | inl p =>
      have : m = p := hn
      subst this
      have hg : gStep rt inl (.inl m) s = G.get (inl m) fun k => if s.length < k then G.fail else (gInl rt m (s.take k).reverse).andThen fun h => G.ret (h :: s.drop k) := by
        rw [gStep.eq_def]
      have hv : step inl (asgSem rt tenv) (.inl m) s' = (inl m).bind fun k => if s'.length < k then none else ((asgSem rt tenv).inl m (s'.take k).reverse).map (· :: s'.drop k) := by
        rw [step.eq_def]
        dsimp only
        split
        · next h => rw [h]; rfl
        · next h => rw [h]; rfl
      rw [hg, hv]
      refine TyS.get fun k hk => ?_
      rw [← hs.length]
      by_cases hl : s.length < k
      · rw [if_pos hl, if_pos hl]; exact TyS.fail
      · rw [if_neg hl, if_neg hl]
        exact fin (a_gInl m (hs.take k).reverse tenv) (hs.drop k)
    | _ => exact hn.elim

theorem a_gStack (inl : Inline) (tenv : Name → Option Ty) {ns : List (ENode (H Ty V))} {ns' : List (ENode (Ty × Bool))} (hn : All2 (HAN vars) ns ns') :
    ∀ {s : List (H Ty V)} {s' : List (Ty × Bool)}, All2 (HA vars) s s' → TyS vars (gStack rt inl ns s) (stack inl (asgSem rt tenv) ns' s') (fun a b => All2 (HA vars) a b) := by
  induction hn with
  | nil => intro s s' hs; exact TyS.ret hs
  | cons r _ ih => intro s s' hs; rw [gStack, stack]; exact TyS.bind (a_gStep inl tenv r hs) fun a b hab => ih hab

theorem a_single {s : List (H Ty V)} {s' : List (Ty × Bool)} (h : All2 (HA vars) s s') : TyS vars (G.get (single s) G.ret : G Ty V (H Ty V)) (single s') (HA vars) := by
  cases h with
  | nil => exact TyS.fail
  | cons d ds => cases ds with
    | nil => exact TyS.ret d
    | cons _ _ => exact TyS.fail

theorem a_run (inl : Inline) (tenv : Name → Option Ty) {x : G Ty V (List (ENode (H Ty V)))} {o : Option (List (ENode (Ty × Bool)))} (h : TyS vars x o (fun a b => All2 (HAN vars) a b)) :
    TyS vars (x.andThen fun es => (gStack rt inl es []).andThen fun s => G.get (single s) G.ret) (o.bind fun es => (stack inl (asgSem rt tenv) es []).bind single) (HA vars) :=
  TyS.bind h fun _ _ hes => TyS.bind (a_gStack inl tenv hes .nil) fun _ _ hs => a_single hs

/-! ### No definitions in the list, and every variable in it has a type if it is declared -/

mutual
def ClearR (vars : Vars Ty) : Rpn → Prop
  | .nil => True
  | .cons n r => ClearN vars n ∧ ClearR vars r
def ClearN (vars : Vars Ty) : Node → Prop
  | .var n => vars n ≠ some none
  | .call _ rs => ClearRs vars rs
  | .define _ => False
  | .array _ => False
  | .access _ _ => False
  | .bool _ => True
  | .str _ => True
  | .num _ => True
  | .op1 _ => True
  | .op2 _ => True
  | .sel => True
  | .inl _ => True
def ClearRs (vars : Vars Ty) : Rpns → Prop
  | .nil => True
  | .cons r rs => ClearR vars r ∧ ClearRs vars rs
end

theorem clear_append {a b : Rpn} (ha : ClearR vars a) (hb : ClearR vars b) : ClearR vars (a.append b) := by
  induction a using Rpn.rec (motive_1 := fun _ => True) (motive_3 := fun _ => True) (motive_4 := fun _ => True) (motive_5 := fun _ => True) with
  | nil => exact hb
  | cons n r _ ih => rw [ClearR] at ha; rw [Rpn.append, ClearR]; exact ⟨ha.1, ih ha.2⟩
  | _ => trivial

theorem clear_one {n : Node} (h : ClearN vars n) : ClearR vars (.cons n .nil) := by rw [ClearR, ClearR]; exact ⟨h, trivial⟩

mutual
theorem clear_flatE (inl : Inline) (e : Expr) (h : NoDef inl e) (hv : ∀ n, varsE e n → vars n ≠ some none) : ClearR vars (flatE inl e) := by
  match e with
  | .un none o => rw [NoDef] at h; rw [flatE]; exact clear_flatO inl o h (by simpa only [varsE] using hv)
  | .un (some op) o =>
    rw [NoDef] at h
    rw [flatE]
    exact clear_append (clear_flatO inl o h (by simpa only [varsE] using hv)) (clear_one (by rw [ClearN]; trivial))
  | .bin l op r =>
    rw [NoDef] at h
    rw [flatE]
    exact clear_append (clear_flatE inl l h.1 fun n hn => hv n (by rw [varsE]; exact .inl hn))
      (clear_append (clear_flatE inl r h.2 fun n hn => hv n (by rw [varsE]; exact .inr hn)) (clear_one (by rw [ClearN]; trivial)))
  | .sel c t f =>
    rw [NoDef] at h
    rw [flatE]
    exact clear_append (clear_flatE inl c h.1 fun n hn => hv n (by rw [varsE]; exact .inl hn))
      (clear_append (clear_flatE inl t h.2.1 fun n hn => hv n (by rw [varsE]; exact .inr (.inl hn)))
        (clear_append (clear_flatE inl f h.2.2 fun n hn => hv n (by rw [varsE]; exact .inr (.inr hn))) (clear_one (by rw [ClearN]; trivial))))
theorem clear_flatO (inl : Inline) (o : Operand) (h : NoDefO inl o) (hv : ∀ n, varsO o n → vars n ≠ some none) : ClearR vars (flatO inl o) := by
  match o with
  | .bool _ => rw [flatO]; exact clear_one (by rw [ClearN]; trivial)
  | .str _ => rw [flatO]; exact clear_one (by rw [ClearN]; trivial)
  | .num _ => rw [flatO]; exact clear_one (by rw [ClearN]; trivial)
  | .var n => rw [flatO]; exact clear_one (by rw [ClearN]; exact hv n (by rw [varsO]))
  | .define _ => rw [NoDefO] at h; exact h.elim
  | .array _ => rw [NoDefO] at h; exact h.elim
  | .access _ _ => rw [NoDefO] at h; exact h.elim
  | .paren e => rw [NoDefO] at h; rw [flatO]; exact clear_flatE inl e h (by simpa only [varsO] using hv)
  | .call n es =>
    rw [NoDefO] at h
    have hv' : ∀ n, varsEs es n → vars n ≠ some none := by simpa only [varsO] using hv
    rw [flatO]
    cases inl n with
    | none => exact clear_one (by rw [ClearN]; exact clear_flatEs inl es h.1 hv')
    | some k => exact clear_append (clear_flatArgs inl es h.1 hv') (clear_one (by rw [ClearN]; trivial))
theorem clear_flatEs (inl : Inline) (es : Exprs) (h : NoDefEs inl es) (hv : ∀ n, varsEs es n → vars n ≠ some none) : ClearRs vars (flatEs inl es) := by
  match es with
  | .nil => rw [flatEs, ClearRs]; trivial
  | .cons e es =>
    rw [NoDefEs] at h
    rw [flatEs, ClearRs]
    exact ⟨clear_flatE inl e h.1 fun n hn => hv n (by rw [varsEs]; exact .inl hn), clear_flatEs inl es h.2 fun n hn => hv n (by rw [varsEs]; exact .inr hn)⟩
theorem clear_flatArgs (inl : Inline) (es : Exprs) (h : NoDefEs inl es) (hv : ∀ n, varsEs es n → vars n ≠ some none) : ClearR vars (flatArgs inl es) := by
  match es with
  | .nil => rw [flatArgs, ClearR]; trivial
  | .cons e es =>
    rw [NoDefEs] at h
    rw [flatArgs]
    exact clear_append (clear_flatE inl e h.1 fun n hn => hv n (by rw [varsEs]; exact .inl hn)) (clear_flatArgs inl es h.2 fun n hn => hv n (by rw [varsEs]; exact .inr hn))
end

mutual
theorem a_gBuild (inl : Inline) (r : Rpn) (h : ClearR vars r) : TyS vars (gBuild rt inl r) (build inl (asgSem rt (tenvOf vars)) r) (fun a b => All2 (HAN vars) a b) := by
  match r with
  | .nil => rw [gBuild, build]; exact TyS.ret .nil
  | .cons n r =>
    rw [ClearR] at h
    have h1 := a_gNode inl n h.1
    have h2 := a_gBuild inl r h.2
    rw [gBuild, build]
    exact TyS.bind h1 fun a b hab => tyS_map h2 fun as bs hs => .cons hab hs
theorem a_gNode (inl : Inline) (n : Node) (h : ClearN vars n) : TyS vars (gNode rt inl n) (buildN inl (asgSem rt (tenvOf vars)) n) (HAN vars) := by
  match n with
  | .bool b => rw [gNode, buildN]; exact TyS.ret ha_imm
  | .str b => rw [gNode, buildN]; exact TyS.ret ha_imm
  | .num b =>
    rw [gNode, buildN]
    refine tyS_of_eq (TyS.get (g := fun x => some (ENode.val (x.1, false))) fun x _ => TyS.ret (b := ENode.val (x.1, false)) ha_imm) ?_
    simp only [asgSem]
    cases rt.num b <;> rfl
  | .define _ => rw [ClearN] at h; exact h.elim
  | .array _ => rw [ClearN] at h; exact h.elim
  | .access _ _ => rw [ClearN] at h; exact h.elim
  | .var m =>
    rw [ClearN] at h
    rw [gNode, buildN]
    show TyS vars _ (((tenvOf vars m).map fun t => (t, true)).map ENode.val) _
    cases hm : vars m with
    | none =>
      have : tenvOf vars m = none := by unfold tenvOf; rw [hm]
      rw [this]
      intro cs hv
      simp only [Option.map_none, hv, hm]
    | some b => cases b with
      | none => exact absurd hm h
      | some b =>
        have : tenvOf vars m = some b.1 := by unfold tenvOf; rw [hm]
        rw [this]
        intro cs hv
        refine ⟨ENode.val (.var m), [], cs, ?_, hv, this, ?_⟩
        · simp only [hv, hm]
        · simp
  | .call m rs =>
    rw [ClearN] at h
    have h1 := a_gRuns inl rs h
    rw [gNode, buildN]
    exact TyS.bind h1 fun hs ts ht => tyS_map (a_gCall m ht (tenvOf vars)) fun _ _ q => q
  | .op1 _ => rw [gNode, buildN]; exact TyS.ret rfl
  | .op2 _ => rw [gNode, buildN]; exact TyS.ret rfl
  | .sel => rw [gNode, buildN]; exact TyS.ret trivial
  | .inl _ => rw [gNode, buildN]; exact TyS.ret rfl
theorem a_gRuns (inl : Inline) (rs : Rpns) (h : ClearRs vars rs) : TyS vars (gRuns rt inl rs) (runs inl (asgSem rt (tenvOf vars)) rs) (fun a b => All2 (HA vars) a b) := by
  match rs with
  | .nil => rw [gRuns, runs]; exact TyS.ret .nil
  | .cons r rs =>
    rw [ClearRs] at h
    have h1 := a_gBuild inl r h.1
    have h2 := a_gRuns inl rs h.2
    rw [gRuns, runs]
    exact TyS.bind (a_run inl (tenvOf vars) h1) fun a b hab => tyS_map h2 fun as bs hs => .cons hab hs
end

mutual
theorem nodef_arity (inl : Inline) (e : Expr) (h : NoDef inl e) : Arity inl e := by
  match e with
  | .un _ o => rw [NoDef] at h; rw [Arity]; exact nodef_arityO inl o h
  | .bin l _ r => rw [NoDef] at h; rw [Arity]; exact ⟨nodef_arity inl l h.1, nodef_arity inl r h.2⟩
  | .sel c t f => rw [NoDef] at h; rw [Arity]; exact ⟨nodef_arity inl c h.1, nodef_arity inl t h.2.1, nodef_arity inl f h.2.2⟩
theorem nodef_arityO (inl : Inline) (o : Operand) (h : NoDefO inl o) : ArityO inl o := by
  match o with
  | .paren e => rw [NoDefO] at h; rw [ArityO]; exact nodef_arity inl e h
  | .call n es => rw [NoDefO] at h; rw [ArityO]; exact ⟨nodef_arityEs inl es h.1, h.2⟩
  | .bool _ => trivial
  | .str _ => trivial
  | .num _ => trivial
  | .var _ => trivial
  | .define _ => trivial
  | .array _ => rw [NoDefO] at h; exact h.elim
  | .access _ _ => rw [NoDefO] at h; exact h.elim
theorem nodef_arityEs (inl : Inline) (es : Exprs) (h : NoDefEs inl es) : ArityEs inl es := by
  match es with
  | .nil => trivial
  | .cons e es => rw [NoDefEs] at h; rw [ArityEs]; exact ⟨nodef_arity inl e h.1, nodef_arityEs inl es h.2⟩
end

theorem a_gExpr (inl : Inline) (e : Expr) (h : NoDef inl e) (hv : ∀ n, varsE e n → vars n ≠ some none) :
    TyS vars (gExpr rt inl e) (asgE rt inl (tenvOf vars) e) (HA vars) := by
  have h1 := a_run (rt := rt) inl (tenvOf vars) (a_gBuild (rt := rt) inl _ (clear_flatE inl e h hv))
  have h2 : Rpn.run inl (asgSem rt (tenvOf vars)) (flatE inl e) = asgE rt inl (tenvOf vars) e :=
    run_exec inl _ _ _ (flatE_ok inl _ e (nodef_arity inl e h))
  rw [← h2]
  exact h1

/-! ## C94 -/

/-- C94. Code is generated for an expression of literals, variables, operators, assignments, conditionals and calls exactly if it has a type, and the result has that type. -/
theorem well_typed_compiles (inl : Inline) (e : Expr) (cs : CS Ty) (hp : NoDef inl e) (hv : ∀ n, cs.vars n ≠ some none) :
    match asgE rt inl (tenvOf cs.vars) e with
      | none => gExpr rt inl e cs = none
      | some t => ∃ h is cs', gExpr rt inl e cs = some (h, is, cs') ∧ cs'.vars = cs.vars ∧ HT cs.vars h t.1 := by
  have h := a_gExpr (rt := rt) inl e hp (fun n _ => hv n) cs rfl
  cases ht : asgE rt inl (tenvOf cs.vars) e with
  | none => rw [ht] at h; exact h
  | some t => rw [ht] at h; obtain ⟨a, is, cs', e1, e2, e3⟩ := h; exact ⟨a, is, cs', e1, e2, e3.1⟩

/-! ### Programs -/

theorem tenv_undeclared (vars : Vars Ty) {x : Name} (hx : vars x = none) : tenvOf (fun k => if k = x then some none else vars k) = tenvOf vars := by
  funext n
  unfold tenvOf
  by_cases h : n = x
  · subst h; simp [hx]
  · simp [h]

/-- A definition. -/
theorem a_define (inl : Inline) (x : Name) (e : Expr) (cs : CS Ty) (hp : NoDef inl e) (hnx : ¬ varsE e x) (hv : ∀ n, cs.vars n ≠ some none) :
    match lineTy rt inl (tenvOf cs.vars) (.define x e) with
      | none => gExpr rt inl (Line.define x e).expr cs = none
      | some t => ∃ h is cs', gExpr rt inl (Line.define x e).expr cs = some (h, is, cs') ∧ tenvOf cs'.vars = t ∧ ∀ n, cs'.vars n ≠ some none := by
  rw [Line.expr, gExpr_bin (.define x) (.define x) (gDefH x) (by rw [flatO]) (gNode_define x) .assign e (nodef_arity inl e hp)]
  unfold G.andThen gDefH lineTy
  dsimp only
  cases hx : cs.vars x with
  | some b =>
    cases b with
    | none => exact absurd hx (hv x)
    | some b =>
      have : tenvOf cs.vars x = some b.1 := by unfold tenvOf; rw [hx]
      rw [this]
      rfl
  | none =>
    have : tenvOf cs.vars x = none := by unfold tenvOf; rw [hx]
    rw [this]
    simp only [Option.bind_some]
    have hok : ∀ n, varsE e n → (fun k => if k = x then some none else cs.vars k) n ≠ some none := by
      intro n hn
      have : n ≠ x := fun hh => hnx (hh ▸ hn)
      simp only [if_neg this]
      exact hv n
    have h1 := a_gExpr (rt := rt) inl e hp hok { cs with vars := fun k => if k = x then some none else cs.vars k } rfl
    rw [tenv_undeclared cs.vars hx] at h1
    cases ht : asgE rt inl (tenvOf cs.vars) e with
    | none => rw [ht] at h1; simp only at h1; simp [h1]
    | some t =>
      rw [ht] at h1
      obtain ⟨y, is, c2, e1, e2, e3, e4⟩ := h1
      have hb : c2.vars x = some none := by rw [e2]; simp
      have fin : ∀ b : Ty × Nat, b.1 = t.1 → tenvOf (fun k => if k = x then some (some b) else c2.vars k) = (fun n => if n = x then some t.1 else tenvOf cs.vars n) ∧
          ∀ n, (fun k => if k = x then some (some b) else c2.vars k) n ≠ some none := by
        intro b hbt
        constructor
        · funext n
          unfold tenvOf
          by_cases h : n = x
          · subst h; simp [hbt]
          · simp only [if_neg h, e2]
        · intro n
          by_cases h : n = x
          · simp [h]
          · simp only [if_neg h, e2]; exact hv n
      rw [e1]
      simp only [Option.bind_some, gOp2, if_true, Option.map_some]
      cases y with
      | imm u o =>
        have hu : u = t.1 := e3
        obtain ⟨f1, f2⟩ := fin (u, c2.nslot) hu
        refine ⟨.var x, is ++ [.store c2.nslot o], ⟨c2.nreg, c2.nslot + 1, fun k => if k = x then some (some (u, c2.nslot)) else c2.vars k⟩, ?_, f1, f2⟩
        unfold gAssign
        dsimp only
        rw [hb]
        rfl
      | var m =>
        have hm : tenvOf (fun k => if k = x then some none else cs.vars k) m = some t.1 := e3
        obtain ⟨b, hb1, hb2⟩ := typed_var hm
        obtain ⟨f1, f2⟩ := fin b hb2
        refine ⟨.var x, is, ⟨c2.nreg, c2.nslot, fun k => if k = x then some (some b) else c2.vars k⟩, ?_, f1, f2⟩
        unfold gAssign
        dsimp only
        rw [hb]
        dsimp only
        rw [show c2.vars m = some (some b) by rw [e2]; exact hb1]
        simp

/-- C94, for definitions. A variable can be defined by `=` only: `var x op= e` and `var x op e` are refused for every other operator. -/
theorem define_needs_assignment (inl : Inline) (x : Name) (op : BinOp) (e : Expr) (cs : CS Ty) (hop : op ≠ .assign) (hp : NoDef inl e) (hnx : ¬ varsE e x) (hv : ∀ n, cs.vars n ≠ some none) :
    gExpr rt inl (.bin (.un none (.define x)) op e) cs = none := by
  rw [gExpr_bin (.define x) (.define x) (gDefH x) (by rw [flatO]) (gNode_define x) op e (nodef_arity inl e hp)]
  unfold G.andThen gDefH
  dsimp only
  cases hx : cs.vars x with
  | some b => rfl
  | none =>
    simp only [Option.bind_some]
    have hok : ∀ n, varsE e n → (fun k => if k = x then some none else cs.vars k) n ≠ some none := by
      intro n hn
      have : n ≠ x := fun hh => hnx (hh ▸ hn)
      simp only [if_neg this]
      exact hv n
    have h1 := a_gExpr (rt := rt) inl e hp hok { cs with vars := fun k => if k = x then some none else cs.vars k } rfl
    rw [tenv_undeclared cs.vars hx] at h1
    cases ht : asgE rt inl (tenvOf cs.vars) e with
    | none => rw [ht] at h1; simp only at h1; simp [h1]
    | some t =>
      rw [ht] at h1
      obtain ⟨y, is, c2, e1, e2, e3, e4⟩ := h1
      have hb : c2.vars x = some none := by rw [e2]; simp
      rw [e1]
      simp only [Option.bind_some, gOp2, if_neg hop]
      cases baseOp op with
      | some o => simp [gUpdate, hb]
      | none => simp [gBin, ld, G.andThen, hb]

theorem a_line (inl : Inline) (l : Line) (cs : CS Ty) (hp : LineOk inl l) (hv : ∀ n, cs.vars n ≠ some none) :
    match lineTy rt inl (tenvOf cs.vars) l with
      | none => gExpr rt inl l.expr cs = none
      | some t => ∃ h is cs', gExpr rt inl l.expr cs = some (h, is, cs') ∧ tenvOf cs'.vars = t ∧ ∀ n, cs'.vars n ≠ some none := by
  have other : ∀ e : Expr, NoDef inl e → lineTy rt inl (tenvOf cs.vars) l = (asgE rt inl (tenvOf cs.vars) e).map (fun _ => tenvOf cs.vars) → l.expr = e →
      match lineTy rt inl (tenvOf cs.vars) l with
      | none => gExpr rt inl l.expr cs = none
      | some t => ∃ h is cs', gExpr rt inl l.expr cs = some (h, is, cs') ∧ tenvOf cs'.vars = t ∧ ∀ n, cs'.vars n ≠ some none := by
    intro e he h1 h2
    rw [h1, h2]
    have h := a_gExpr (rt := rt) inl e he (fun n _ => hv n) cs rfl
    cases ht : asgE rt inl (tenvOf cs.vars) e with
    | none => rw [ht] at h; exact h
    | some t => rw [ht] at h; obtain ⟨a, is, cs', e1, e2, _⟩ := h; exact ⟨a, is, cs', e1, by rw [e2], by rw [e2]; exact hv⟩
  cases l with
  | define x e => exact a_define inl x e cs hp.1 hp.2 hv
  | assign x e => exact other _ (show NoDef inl (.bin (.un none (.var x)) .assign e) by rw [NoDef, NoDef, NoDefO]; exact ⟨trivial, hp⟩) rfl rfl
  | update op x e => exact other _ (show NoDef inl (.bin (.un none (.var x)) op e) by rw [NoDef, NoDef, NoDefO]; exact ⟨trivial, hp.1⟩) rfl rfl
  | eval e => exact other _ hp rfl rfl

/-- C94, for programs. A straight-line program of definitions, assignments, compound assignments and expressions is compiled exactly if every statement has a type, in the types the
statements before it give the variables. -/
theorem well_typed_program_compiles (inl : Inline) (ls : List Line) : ∀ (cs : CS Ty), (∀ l ∈ ls, LineOk inl l) → (∀ n, cs.vars n ≠ some none) →
    match progTy rt inl (tenvOf cs.vars) ls with
      | none => gProg rt inl (ls.map Line.expr) cs = none
      | some t => ∃ is cs', gProg rt inl (ls.map Line.expr) cs = some ((), is, cs') ∧ tenvOf cs'.vars = t := by
  induction ls with
  | nil => intro cs _ _; exact ⟨[], cs, rfl, rfl⟩
  | cons l ls ih =>
    intro cs hl hv
    have h1 := a_line (rt := rt) inl l cs (hl l (by simp)) hv
    rw [List.map_cons, gProg, progTy]
    unfold G.andThen
    cases ht : lineTy rt inl (tenvOf cs.vars) l with
    | none => rw [ht] at h1; simp only at h1; simp [h1]
    | some t =>
      rw [ht] at h1
      obtain ⟨h, is, c1, e1, e2, e3⟩ := h1
      have h2 := ih c1 (fun m hm => hl m (by simp [hm])) e3
      rw [e2] at h2
      simp only [Option.bind_some, e1]
      cases hq : progTy rt inl t ls with
      | none => rw [hq] at h2; simp only at h2; simp [h2]
      | some u =>
        rw [hq] at h2
        obtain ⟨is2, c2, f1, f2⟩ := h2
        exact ⟨is ++ is2, c2, by simp [f1], f2⟩

end

/-! ## Instances -/

/-- `var b = (a = 5); b += a; f(b = 1);` is compiled; `b` is an integer. -/
def demoLines : List Line := [.define ['b'] (eParen (.bin (eVar ['a']) .assign (eNum ['5']))), .update .addAssign ['b'] (eVar ['a']), .eval (eCall ['f'] (.bin (eVar ['b']) .assign (eNum ['1'])))]

example : ∀ l ∈ demoLines, LineOk noInl l := by
  intro l hl
  simp only [demoLines, List.mem_cons, List.not_mem_nil, or_false] at hl
  rcases hl with rfl | rfl | rfl <;> simp [LineOk, NoDef, NoDefO, NoDefEs, eVar, eNum, eParen, eCall, varsE, varsO, updOp, noInl]

example : ∀ n, (oneVar ['a']).vars n ≠ some none := by intro n; simp only [oneVar]; split <;> simp

example : (progTy demo noInl (tenvOf (oneVar ['a']).vars) demoLines).map (fun t => t ['b']) = some (some .int) := by decide +kernel

/-- `var b += 1` is refused. -/
example : gExpr demo noInl (.bin (.un none (.define ['b'])) .addAssign (eNum ['1'])) (oneVar ['a']) = none :=
  define_needs_assignment noInl ['b'] .addAssign _ _ (by simp) (by simp [NoDef, NoDefO, eNum]) (by simp [varsE, varsO, eNum]) (by intro n; simp only [oneVar]; split <;> simp)

/-- `a = f(1)` and `(a + 1) = 2` have no type: the value is not of the type of `a`, and a sum cannot be assigned to. -/
example : (asgE demo noInl (tenvOf (oneVar ['a']).vars) (.bin (eVar ['a']) .assign (eCall ['f'] (eNum ['1'])))).isNone = true ∧
    (asgE demo noInl (tenvOf (oneVar ['a']).vars) (.bin (eParen (.bin (eVar ['a']) .add (eNum ['1']))) .assign (eNum ['5']))).isNone = true := by
  constructor <;> decide +kernel

end Verif.Gen.Scalar
