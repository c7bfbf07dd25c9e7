import Verif.Gen.ScalarLazy
/-!
# Assignments: the code of a line
-/
namespace Verif.Gen.Scalar
open Verif.Ast Verif.Ast.Rpn

section
variable {Ty V W : Type} [DecidableEq Ty] {rt : Rt Ty V W} {vars : Vars Ty} {inl : Inline}

/-! ## Laws of `G` -/

theorem G.assoc {α β γ : Type} (x : G Ty V α) (f : α → G Ty V β) (g : β → G Ty V γ) : (x.andThen f).andThen g = x.andThen fun a => (f a).andThen g := by
  funext cs
  unfold G.andThen
  cases x cs with
  | none => rfl
  | some r =>
    simp only [Option.bind_some]
    cases f r.1 r.2.2 with
    | none => rfl
    | some q =>
      simp only [Option.map_some, Option.bind_some]
      cases g q.1 q.2.2 with
      | none => rfl
      | some p => simp

theorem G.ret_then {α β : Type} (a : α) (f : α → G Ty V β) : (G.ret a).andThen f = f a := by
  funext cs
  unfold G.andThen G.ret
  simp only [Option.bind_some, List.nil_append]
  cases f a cs <;> rfl

theorem G.then_ret {α : Type} (x : G Ty V α) : x.andThen G.ret = x := by
  funext cs
  unfold G.andThen G.ret
  cases x cs <;> simp

theorem G.congr {α β : Type} (x : G Ty V α) {P : α → Prop} (hp : Post x P) (f g : α → G Ty V β) (h : ∀ a, P a → f a = g a) : x.andThen f = x.andThen g := by
  funext cs
  unfold G.andThen
  cases hx : x cs with
  | none => rfl
  | some r => simp only [Option.bind_some]; rw [h r.1 (hp cs r.1 r.2.1 r.2.2 hx)]

theorem G.congr' {α β : Type} (x : G Ty V α) (f g : α → G Ty V β) (h : ∀ a, f a = g a) : x.andThen f = x.andThen g := by rw [funext h]

theorem G.get_then {α β γ : Type} (o : Option α) (f : α → G Ty V β) (g : β → G Ty V γ) : (G.get o f).andThen g = G.get o fun a => (f a).andThen g := by
  cases o <;> rfl

theorem G.some_of_then {α β : Type} {x : G Ty V α} {f : α → G Ty V β} {cs cs' : CS Ty} {b : β} {is : List (Instr Ty V)} (h : x.andThen f cs = some (b, is, cs')) :
    ∃ a i1 c1 i2, x cs = some (a, i1, c1) ∧ f a c1 = some (b, i2, cs') ∧ is = i1 ++ i2 := by
  unfold G.andThen at h
  cases hx : x cs with
  | none => rw [hx] at h; simp at h
  | some r =>
    rw [hx] at h
    simp only [Option.bind_some] at h
    cases hf : f r.1 r.2.2 with
    | none => rw [hf] at h; simp at h
    | some q =>
      rw [hf] at h
      simp only [Option.map_some, Option.some.injEq, Prod.mk.injEq] at h
      obtain ⟨rfl, rfl, rfl⟩ := h
      exact ⟨r.1, r.2.1, r.2.2, q.2.1, rfl, hf, rfl⟩

theorem gBuild_append (a b : Rpn) : gBuild rt inl (a.append b) = (gBuild rt inl a).andThen fun x => (gBuild rt inl b).andThen fun y => G.ret (x ++ y) := by
  induction a using Rpn.rec (motive_1 := fun _ => True) (motive_3 := fun _ => True) (motive_4 := fun _ => True) (motive_5 := fun _ => True) with
  | nil => rw [Rpn.append, gBuild, G.ret_then]; exact (G.then_ret _).symm
  | cons n r _ ih =>
    rw [Rpn.append, gBuild, gBuild, ih]
    simp only [G.assoc, G.ret_then]
    rfl
  | _ => trivial

theorem gStack_append (x y : List (ENode (H Ty V))) : ∀ s, gStack rt inl (x ++ y) s = (gStack rt inl x s).andThen (gStack rt inl y) := by
  induction x with
  | nil => intro s; rw [List.nil_append, gStack, G.ret_then]
  | cons n x ih =>
    intro s
    rw [List.cons_append, gStack, gStack, G.assoc]
    exact G.congr' _ _ _ fun s' => ih s'

/-! ## The code of an expression does not touch what is below it on the stack -/

/-- Every operation succeeds. -/
def unitSem : Sem Unit where
  bool _ := ()
  str _ := ()
  num _ := some ()
  define _ := some ()
  var _ := some ()
  array _ := some ()
  call _ _ := some ()
  field _ _ := some ()
  method _ _ _ := some ()
  key _ _ := some ()
  index _ _ := some ()
  ref _ _ := some ()
  un _ _ := some ()
  bin _ _ _ := some ()
  sel _ _ _ := some ()
  inl _ _ := some ()

def Shape {α β : Type} : ENode α → ENode β → Prop
  | .val _, .val _ => True
  | .op1 o, .op1 p => o = p
  | .op2 o, .op2 p => o = p
  | .sel, .sel => True
  | .inl n, .inl m => n = m
  | _, _ => False

theorem frame_step {n : ENode (H Ty V)} {n' : ENode Unit} (hn : Shape n n') {s : List (H Ty V)} {u u' : List Unit} (hl : s.length = u.length) (h : step inl unitSem n' u = some u')
    (t : List (H Ty V)) : gStep rt inl n (s ++ t) = ((gStep rt inl n s).andThen fun s' => G.ret (s' ++ t)) ∧ Post (gStep rt inl n s) (fun s' => s'.length = u'.length) := by
  cases n with
  | val hd => cases n' with
    | val q =>
      rw [step] at h
      injection h with h
      subst h
      simp only [gStep]
      exact ⟨by rw [G.ret_then]; rfl, Post.ret (by simp [hl])⟩
    | _ => exact hn.elim
  | op1 o => cases n' with
    | op1 p =>
      cases u with
      | nil => simp [step] at h
      | cons u0 u =>
        cases s with
        | nil => simp at hl
        | cons a s =>
          simp [step, unitSem] at h
          subst h
          simp only [List.cons_append, gStep]
          refine ⟨?_, Post.bind (Post.triv _) fun _ _ => Post.ret (by simpa using hl)⟩
          rw [G.assoc]
          exact G.congr' _ _ _ fun _ => by rw [G.ret_then]; rfl
    | _ => exact hn.elim
  | op2 o => cases n' with
    | op2 p =>
      match u, h with
      | [], h => simp [step] at h
      | [_], h => simp [step] at h
      | u0 :: u1 :: u, h =>
        match s, hl with
        | [], hl => simp at hl
        | [_], hl => simp at hl
        | a :: b :: s, hl =>
          simp [step, unitSem] at h
          subst h
          simp only [List.cons_append, gStep]
          refine ⟨?_, Post.bind (Post.triv _) fun _ _ => Post.ret (by simpa using hl)⟩
          rw [G.assoc]
          exact G.congr' _ _ _ fun _ => by rw [G.ret_then]; rfl
    | _ => exact hn.elim
  | sel => cases n' with
    | sel =>
      match u, h with
      | [], h => simp [step] at h
      | [_], h => simp [step] at h
      | [_, _], h => simp [step] at h
      | u0 :: u1 :: u2 :: u, h =>
        match s, hl with
        | [], hl => simp at hl
        | [_], hl => simp at hl
        | [_, _], hl => simp at hl
        | a :: b :: c :: s, hl =>
          simp [step, unitSem] at h
          subst h
          simp only [List.cons_append, gStep]
          refine ⟨?_, Post.bind (Post.triv _) fun _ _ => Post.ret (by simpa using hl)⟩
          rw [G.assoc]
          exact G.congr' _ _ _ fun _ => by rw [G.ret_then]; rfl
    | _ => exact hn.elim
  | inl m => cases n' with
    | inl p =>
      have : m = p := hn
      subst this
      have hg : ∀ s, gStep rt inl (.inl m) s = G.get (inl m) fun k => if s.length < k then G.fail else (gInl rt m (s.take k).reverse).andThen fun h => G.ret (h :: s.drop k) := by
        intro s; rw [gStep.eq_def]
      have hv : step inl unitSem (.inl m) u = (inl m).bind fun k => if u.length < k then none else some (() :: u.drop k) := by
        rw [step.eq_def]
        dsimp only
        split
        · next hh => rw [hh]; rfl
        · next hh => rw [hh]; rfl
      rw [hv] at h
      obtain ⟨k, hk, h⟩ := bind_some_of h
      rw [hg, hg, hk]
      simp only [G.get]
      by_cases hlt : u.length < k
      · rw [if_pos hlt] at h; simp at h
      · rw [if_neg hlt] at h
        injection h with h
        subst h
        have h1 : ¬ s.length < k := by omega
        have h2 : ¬ (s ++ t).length < k := by simp; omega
        rw [if_neg h1, if_neg h2, List.take_append_of_le_length (by omega), List.drop_append_of_le_length (by omega)]
        refine ⟨?_, Post.bind (Post.triv _) fun _ _ => Post.ret (by simp [hl])⟩
        rw [G.assoc]
        exact G.congr' _ _ _ fun _ => by rw [G.ret_then]; rfl
    | _ => exact hn.elim

theorem frame_stack {ns : List (ENode (H Ty V))} {ns' : List (ENode Unit)} (hn : All2 Shape ns ns') : ∀ {s : List (H Ty V)} {u u' : List Unit}, s.length = u.length →
    stack inl unitSem ns' u = some u' → ∀ t, gStack rt inl ns (s ++ t) = ((gStack rt inl ns s).andThen fun s' => G.ret (s' ++ t)) ∧ Post (gStack rt inl ns s) (fun s' => s'.length = u'.length) := by
  induction hn with
  | nil =>
    intro s u u' hl h t
    rw [stack] at h
    injection h with h
    subst h
    exact ⟨by rw [gStack, gStack, G.ret_then], Post.ret hl⟩
  | cons r _ ih =>
    intro s u u' hl h t
    rw [stack] at h
    obtain ⟨u1, h1, h2⟩ := bind_some_of h
    obtain ⟨f1, f2⟩ := frame_step (rt := rt) r hl h1 t
    rw [gStack, gStack, f1]
    constructor
    · simp only [G.assoc, G.ret_then]
      exact G.congr _ f2 _ _ fun s' hs' => (ih hs' h2 t).1
    · exact Post.bind f2 fun s' hs' => (ih hs' h2 t).2

theorem shape_node {n : Node} {e' : ENode Unit} (h : buildN inl unitSem n = some e') : Post (gNode rt inl n) (fun e => Shape e e') := by
  have val : ∀ {v : Option Unit}, v.map ENode.val = some e' → ∃ u, e' = .val u := by
    intro v hv; cases v with
    | none => simp at hv
    | some u => simp at hv; exact ⟨u, hv.symm⟩
  cases n with
  | bool _ => rw [buildN] at h; injection h with h; subst h; rw [gNode]; exact Post.ret trivial
  | str _ => rw [buildN] at h; injection h with h; subst h; rw [gNode]; exact Post.ret trivial
  | num _ => rw [buildN] at h; obtain ⟨u, rfl⟩ := val h; rw [gNode]; exact Post.get fun _ => Post.ret trivial
  | define _ =>
    rw [buildN] at h; obtain ⟨u, rfl⟩ := val h; rw [gNode]
    intro cs a is cs' hx
    dsimp only at hx
    split at hx
    · simp at hx; rw [← hx.1]; trivial
    · simp at hx
  | array _ => rw [gNode]; exact Post.fail
  | var _ =>
    rw [buildN] at h; obtain ⟨u, rfl⟩ := val h; rw [gNode]
    intro cs a is cs' hx
    dsimp only at hx
    split at hx
    · simp at hx
    · simp at hx; rw [← hx.1]; trivial
  | call m rs =>
    rw [buildN] at h
    obtain ⟨us, _, h⟩ := bind_some_of h
    obtain ⟨u, rfl⟩ := val h
    rw [gNode]; exact Post.bind (Post.triv _) fun _ _ => Post.bind (Post.triv _) fun _ _ => Post.ret trivial
  | access _ _ => rw [gNode]; exact Post.fail
  | op1 _ => rw [buildN] at h; injection h with h; subst h; rw [gNode]; exact Post.ret rfl
  | op2 _ => rw [buildN] at h; injection h with h; subst h; rw [gNode]; exact Post.ret rfl
  | sel => rw [buildN] at h; injection h with h; subst h; rw [gNode]; exact Post.ret trivial
  | inl _ => rw [buildN] at h; injection h with h; subst h; rw [gNode]; exact Post.ret rfl

theorem shape_build (r : Rpn) : ∀ es', build inl unitSem r = some es' → Post (gBuild rt inl r) (fun es => All2 Shape es es') := by
  induction r using Rpn.rec (motive_1 := fun _ => True) (motive_3 := fun _ => True) (motive_4 := fun _ => True) (motive_5 := fun _ => True) with
  | nil => intro es' h; rw [build] at h; injection h with h; subst h; rw [gBuild]; exact Post.ret .nil
  | cons n r _ ih =>
    intro es' h
    rw [build] at h
    obtain ⟨e', h1, h2⟩ := bind_some_of h
    cases h3 : build inl unitSem r with
    | none => rw [h3] at h2; simp at h2
    | some fs =>
      rw [h3] at h2
      simp at h2
      subst h2
      rw [gBuild]
      exact Post.bind (shape_node h1) fun e he => Post.bind (ih fs h3) fun es hes => Post.ret (.cons he hes)
  | _ => trivial

mutual
theorem unit_evalE (e : Expr) (h : Arity inl e) : evalE inl unitSem e = some () := by
  match e with
  | .un none o => rw [Arity] at h; rw [evalE]; exact unit_evalO o h
  | .un (some op) o => rw [Arity] at h; rw [evalE, unit_evalO o h]; rfl
  | .bin l _ r => rw [Arity] at h; rw [evalE, unit_evalE l h.1, unit_evalE r h.2]; rfl
  | .sel c t f => rw [Arity] at h; rw [evalE, unit_evalE c h.1, unit_evalE t h.2.1, unit_evalE f h.2.2]; rfl
theorem unit_evalO (o : Operand) (h : ArityO inl o) : evalO inl unitSem o = some () := by
  match o with
  | .bool _ => rfl
  | .str _ => rfl
  | .num _ => rfl
  | .define _ => rfl
  | .var _ => rfl
  | .paren e => rw [ArityO] at h; rw [evalO]; exact unit_evalE e h
  | .array es => rw [ArityO] at h; obtain ⟨us, hu, _⟩ := unit_evalEs es h; rw [evalO, hu]; rfl
  | .call n es =>
    rw [ArityO] at h
    obtain ⟨us, hu, hl⟩ := unit_evalEs es h.1
    rw [evalO, hu]
    simp only [Option.bind_some]
    cases hn : inl n with
    | none => rfl
    | some k => simp only; rw [if_pos (hl.trans (h.2 k hn))]; rfl
  | .access n ms => rw [ArityO] at h; rw [evalO]; exact unit_evalMs ms h ()
theorem unit_evalEs (es : Exprs) (h : ArityEs inl es) : ∃ us, evalEs inl unitSem es = some us ∧ us.length = Exprs.length es := by
  match es with
  | .nil => exact ⟨[], rfl, rfl⟩
  | .cons e es =>
    rw [ArityEs] at h
    obtain ⟨us, hu, hl⟩ := unit_evalEs es h.2
    exact ⟨() :: us, by rw [evalEs, unit_evalE e h.1, hu]; rfl, by simp [Exprs.length, hl]⟩
theorem unit_evalMs (ms : Members) (h : ArityMs inl ms) (u : Unit) : evalMs inl unitSem ms u = some () := by
  match ms with
  | .nil => rfl
  | .cons (.method _ es) ms =>
    rw [ArityMs] at h
    obtain ⟨us, hu, _⟩ := unit_evalEs es h.1
    rw [evalMs, hu]; exact unit_evalMs ms h.2 ()
  | .cons (.field _) ms => rw [ArityMs] at h; rw [evalMs]; exact unit_evalMs ms h ()
  | .cons (.key _) ms => rw [ArityMs] at h; rw [evalMs]; exact unit_evalMs ms h ()
  | .cons (.index _) ms => rw [ArityMs] at h; rw [evalMs]; exact unit_evalMs ms h ()
  | .cons (.ref _) ms => rw [ArityMs] at h; rw [evalMs]; exact unit_evalMs ms h ()
end

/-- The code of an expression evaluated above a stack. -/
theorem exprOn_eq (e : Expr) (h : Arity inl e) (t : List (H Ty V)) :
    ((gBuild rt inl (flatE inl e)).andThen fun es => gStack rt inl es t) = (gExpr rt inl e).andThen fun hd => G.ret (hd :: t) := by
  have hx := flatE_ok inl unitSem e h []
  rw [unit_evalE e h] at hx
  unfold exec at hx
  obtain ⟨es', h1, h2⟩ := bind_some_of hx
  unfold gExpr gRun
  rw [G.assoc]
  refine G.congr _ (shape_build _ es' h1) _ _ fun es hes => ?_
  obtain ⟨f1, f2⟩ := frame_stack (rt := rt) hes (s := []) rfl h2 t
  rw [List.nil_append] at f1
  rw [f1, G.assoc]
  refine G.congr _ f2 _ _ fun s hs => ?_
  match s, hs with
  | [a], _ => simp only [single, G.get, G.ret_then]; rfl

/-! ## The parts of an assignment -/

/-- A variable as left operand. -/
def gVarH (n : Name) : G Ty V (H Ty V) := fun cs => match cs.vars n with
  | none => none
  | some _ => some (.var n, [], cs)

def gDefH (n : Name) : G Ty V (H Ty V) := fun cs => match cs.vars n with
  | none => some (.var n, [], { cs with vars := fun k => if k = n then some none else cs.vars k })
  | some _ => none

theorem gNode_var (n : Name) : gNode rt inl (.var n) = (gVarH n).andThen fun h => G.ret (.val h) := by
  rw [gNode]
  funext cs
  unfold G.andThen gVarH
  cases cs.vars n <;> rfl

theorem gNode_define (n : Name) : gNode rt inl (.define n) = (gDefH n).andThen fun h => G.ret (.val h) := by
  rw [gNode]
  funext cs
  unfold G.andThen gDefH
  cases cs.vars n <;> rfl

theorem gExpr_bin (o : Operand) (n0 : Node) (x : G Ty V (H Ty V)) (ho : flatO inl o = .cons n0 .nil) (hx : gNode rt inl n0 = x.andThen fun h => G.ret (.val h)) (op : BinOp) (e : Expr)
    (h : Arity inl e) : gExpr rt inl (.bin (.un none o) op e) = x.andThen fun hd => (gExpr rt inl e).andThen fun y => gOp2 rt op hd y := by
  have h1 : gExpr rt inl (.bin (.un none o) op e) = gRun rt inl (.cons n0 ((flatE inl e).append (.cons (.op2 op) .nil))) := by
    unfold gExpr; rw [flatE, flatE, ho]; rfl
  rw [h1]
  unfold gRun
  rw [gBuild, hx, gBuild_append]
  simp only [G.assoc, G.ret_then]
  refine G.congr' _ _ _ fun hd => ?_
  have h2 : gBuild rt inl (.cons (.op2 op) .nil) = G.ret [ENode.op2 op] := by rw [gBuild, gNode, gBuild, G.ret_then, G.ret_then]
  simp only [h2, G.ret_then]
  have h3 : ∀ es : List (ENode (H Ty V)), gStack rt inl (ENode.val hd :: (es ++ [ENode.op2 op])) [] = (gStack rt inl es [hd]).andThen fun s => gStep rt inl (.op2 op) s := by
    intro es
    rw [gStack, gStep, G.ret_then, gStack_append]
    refine G.congr' _ _ _ fun s => ?_
    rw [gStack]
    have : (fun s' => gStack rt inl [] s') = (G.ret : List (H Ty V) → G Ty V (List (H Ty V))) := by funext s'; rw [gStack]
    rw [this, G.then_ret]
  simp only [h3, G.assoc]
  rw [← G.assoc (gBuild rt inl (flatE inl e)) (fun es => gStack rt inl es [hd]), exprOn_eq e h, G.assoc]
  refine G.congr' _ _ _ fun y => ?_
  rw [G.ret_then, gStep, G.assoc]
  have : (fun r : H Ty V => (G.ret [r] : G Ty V (List (H Ty V))).andThen fun s => G.get (single s) G.ret) = G.ret := by funext r; rw [G.ret_then]; rfl
  rw [this, G.then_ret]

/-! ## Expressions that are not a variable come out as values -/

/-- Nodes whose result is in no slot. -/
def Fresh : Node → Prop
  | .var _ => False
  | .define _ => False
  | .array _ => False
  | .access _ _ => False
  | .op2 o => o ≠ .assign ∧ baseOp o = none
  | .bool _ => True
  | .str _ => True
  | .num _ => True
  | .call _ _ => True
  | .op1 _ => True
  | .sel => True
  | .inl _ => True

theorem append_assoc' (a b c : Rpn) : (a.append b).append c = a.append (b.append c) := by
  induction a using Rpn.rec (motive_1 := fun _ => True) (motive_3 := fun _ => True) (motive_4 := fun _ => True) (motive_5 := fun _ => True) with
  | nil => rfl
  | cons n r _ ih => rw [Rpn.append, Rpn.append, Rpn.append, ih]
  | _ => trivial

mutual
theorem last_node (e : Expr) (h : Plain inl e) (hb : BareE e = false) : ∃ a n, flatE inl e = Rpn.append a (.cons n .nil) ∧ Fresh n := by
  match e with
  | .un none o => rw [Plain] at h; rw [BareE] at hb; rw [flatE]; exact last_nodeO o h hb
  | .un (some op) o => exact ⟨flatO inl o, .op1 op, by rw [flatE], trivial⟩
  | .bin l op r => rw [Plain] at h; exact ⟨(flatE inl l).append (flatE inl r), .op2 op, by rw [flatE, append_assoc'], h.2.1, h.2.2.1⟩
  | .sel c t f => exact ⟨(flatE inl c).append ((flatE inl t).append (flatE inl f)), .sel, by rw [flatE, append_assoc', append_assoc'], trivial⟩
theorem last_nodeO (o : Operand) (h : PlainO inl o) (hb : BareO o = false) : ∃ a n, flatO inl o = Rpn.append a (.cons n .nil) ∧ Fresh n := by
  match o with
  | .bool b => exact ⟨.nil, .bool b, by rw [flatO]; rfl, trivial⟩
  | .str b => exact ⟨.nil, .str b, by rw [flatO]; rfl, trivial⟩
  | .num b => exact ⟨.nil, .num b, by rw [flatO]; rfl, trivial⟩
  | .var n => rw [BareO] at hb; simp at hb
  | .paren e => rw [PlainO] at h; rw [BareO] at hb; rw [flatO]; exact last_node e h hb
  | .define n => rw [PlainO] at h; exact h.elim
  | .array n => rw [PlainO] at h; exact h.elim
  | .access n _ => rw [PlainO] at h; exact h.elim
  | .call n es =>
    rw [flatO]
    cases inl n with
    | none => exact ⟨.nil, .call n (flatEs inl es), rfl, trivial⟩
    | some k => exact ⟨flatArgs inl es, .inl n, rfl, trivial⟩
end

/-- The handle of a value in no slot. -/
def IsImm : H Ty V → Prop
  | .var _ => False
  | .imm _ _ => True

theorem fresh_step {n : Node} (hn : Fresh n) : Post (gNode rt inl n) (fun e => ∀ s, Post (gStep rt inl e s) (fun s' => ∃ h t, s' = h :: t ∧ IsImm h)) := by
  have push : ∀ (x : G Ty V (H Ty V)) (t : List (H Ty V)), Post x IsImm → Post (x.andThen fun h => G.ret (h :: t)) (fun s' => ∃ h t, s' = h :: t ∧ IsImm h) :=
    fun x t hx => Post.bind hx fun a ha => Post.ret ⟨a, t, rfl, ha⟩
  have value : ∀ (h : H Ty V), IsImm h → ∀ s, Post (gStep rt inl (.val h) s) (fun s' => ∃ h t, s' = h :: t ∧ IsImm h) := by
    intro h hh s
    rw [gStep]
    exact Post.ret ⟨h, s, rfl, hh⟩
  cases n with
  | var _ => exact hn.elim
  | define _ => exact hn.elim
  | array _ => exact hn.elim
  | access _ _ => exact hn.elim
  | bool _ => rw [gNode]; exact Post.ret (value _ trivial)
  | str _ => rw [gNode]; exact Post.ret (value _ trivial)
  | num _ => rw [gNode]; exact Post.get fun _ => Post.ret (value _ trivial)
  | call m rs =>
    rw [gNode]
    refine Post.bind (Post.triv _) fun hs _ => Post.bind (P := IsImm) ?_ fun h hh => Post.ret (value h hh)
    exact Post.get fun _ => Post.bind (Post.triv _) fun _ _ => Post.bind (Post.triv _) fun _ _ => Post.bind (Post.triv _) fun _ _ => Post.ret trivial
  | op1 o =>
    rw [gNode]
    refine Post.ret fun s => ?_
    cases s with
    | nil => exact Post.fail
    | cons a s =>
      rw [gStep]
      exact push _ s (Post.bind (Post.triv _) fun _ _ => Post.get fun _ => Post.bind (Post.triv _) fun _ _ => Post.ret trivial)
  | op2 o =>
    rw [gNode]
    refine Post.ret fun s => ?_
    match s with
    | [] => exact Post.fail
    | [_] => exact Post.fail
    | b :: a :: s =>
      rw [gStep, gOp2_plain _ _ _ hn.1 hn.2]
      exact push _ s (Post.bind (Post.triv _) fun _ _ => Post.bind (Post.triv _) fun _ _ => Post.get fun _ => Post.bind (Post.triv _) fun _ _ => Post.bind (Post.triv _) fun _ _ =>
        Post.get fun _ => Post.bind (Post.triv _) fun _ _ => Post.ret trivial)
  | sel =>
    rw [gNode]
    refine Post.ret fun s => ?_
    match s with
    | [] => exact Post.fail
    | [_] => exact Post.fail
    | [_, _] => exact Post.fail
    | c :: b :: a :: s =>
      rw [gStep]
      refine push _ s (Post.bind (Post.triv _) fun _ _ => Post.bind (Post.triv _) fun _ _ => Post.bind (Post.triv _) fun _ _ => ?_)
      split
      · exact Post.get fun _ => Post.bind (Post.triv _) fun _ _ => Post.bind (Post.triv _) fun _ _ => Post.bind (Post.triv _) fun _ _ => Post.ret trivial
      · exact Post.fail
  | inl m =>
    rw [gNode]
    refine Post.ret fun s => ?_
    have hg : gStep rt inl (.inl m) s = G.get (inl m) fun k => if s.length < k then G.fail else (gInl rt m (s.take k).reverse).andThen fun h => G.ret (h :: s.drop k) := by
      rw [gStep.eq_def]
    rw [hg]
    refine Post.get fun k => ?_
    split
    · exact Post.fail
    · exact push _ _ (Post.bind (Post.triv _) fun _ _ => Post.get fun _ => Post.bind (Post.triv _) fun _ _ => Post.ret trivial)

theorem post_imm (e : Expr) (h : Plain inl e) (hb : BareE e = false) : Post (gExpr rt inl e) IsImm := by
  obtain ⟨a, n, hf, hn⟩ := last_node e h hb
  unfold gExpr gRun
  rw [hf, gBuild_append, G.assoc]
  refine Post.bind (Post.triv _) fun x _ => ?_
  rw [gBuild, gBuild]
  simp only [G.assoc, G.ret_then]
  refine Post.bind (fresh_step hn) fun en hen => ?_
  have : ∀ s, gStack rt inl [en] s = gStep rt inl en s := by
    intro s
    rw [gStack]
    have : (fun s' => gStack rt inl [] s') = (G.ret : List (H Ty V) → G Ty V (List (H Ty V))) := by funext s'; rw [gStack]
    rw [this, G.then_ret]
  rw [gStack_append, G.assoc]
  refine Post.bind (Post.triv _) fun s _ => ?_
  rw [this]
  refine Post.bind (hen s) fun s' hs' => ?_
  obtain ⟨hd, t, rfl, hi⟩ := hs'
  cases t with
  | nil => exact Post.ret hi
  | cons _ _ => exact Post.fail

/-! ## Lines -/

/-- The variables are in different slots, and hold what the environment says. -/
structure Match (env : Env Ty V) (cs : CS Ty) (rs : RS V W) : Prop where
  regs : cs.nreg = rs.regs.length
  typed : ∀ n, cs.vars n ≠ some none
  env : ∀ n, env n = envOf cs.vars rs.slots n
  below : ∀ n b, cs.vars n = some (some b) → b.2 < cs.nslot
  apart : ∀ n m b c, cs.vars n = some (some b) → cs.vars m = some (some c) → b.2 = c.2 → n = m

/-- Statements whose right-hand side contains no assignments; a new variable is not initialised with a variable alone or with itself. -/
def Good (inl : Inline) : Line → Prop
  | .define x e => Plain inl e ∧ BareE e = false ∧ ¬ varsE e x
  | .assign _ e => Plain inl e
  | .update op _ e => Plain inl e ∧ baseOp op ≠ none
  | .eval e => Plain inl e

theorem envOf_ext {env : Env Ty V} {cs : CS Ty} {rs : RS V W} (h : Match env cs rs) : env = envOf cs.vars rs.slots := funext h.env

theorem line_eval {env : Env Ty V} {cs cs' : CS Ty} {rs : RS V W} {e : Expr} {h : H Ty V} {is : List (Instr Ty V)} (hm : Match env cs rs) (hp : Plain inl e)
    (hg : gExpr rt inl e cs = some (h, is, cs')) : match eagerE rt inl env e rs.w with
      | none => run rt is rs = none
      | some r => ∃ ext, run rt is rs = some ⟨rs.regs ++ ext, rs.slots, r.1⟩ ∧ cs'.nreg = (rs.regs ++ ext).length ∧ Den cs.vars rs.slots (rs.regs ++ ext) h r.2 := by
  have := sim_gExpr (rt := rt) (slots := rs.slots) inl e hp (fun n _ => hm.typed n) rs.regs cs rfl hm.regs h is cs' hg rs.w
  rw [← envOf_ext hm] at this
  cases he : eagerE rt inl env e rs.w with
  | none => rw [he] at this; exact this
  | some r => rw [he] at this; exact this

theorem match_regs {env : Env Ty V} {cs cs' : CS Ty} {rs : RS V W} {w : W} {ext : List V} (hm : Match env cs rs) (hv : cs'.vars = cs.vars) (hs : cs'.nslot = cs.nslot)
    (hn : cs'.nreg = (rs.regs ++ ext).length) : Match env cs' ⟨rs.regs ++ ext, rs.slots, w⟩ where
  regs := hn
  typed := by rw [hv]; exact hm.typed
  env := by rw [hv]; exact hm.env
  below := by rw [hv, hs]; exact hm.below
  apart := by rw [hv]; exact hm.apart

/-- Storing into the slot of a variable. -/
theorem match_store {env : Env Ty V} {cs cs' : CS Ty} {rs : RS V W} {x : Name} {b : Ty × Nat} {v : V} {regs : List V} {w : W} (hm : Match env cs rs) (hx : cs.vars x = some (some b))
    (hv : cs'.vars = cs.vars) (hs : cs'.nslot = cs.nslot) (hn : cs'.nreg = regs.length) :
    Match (env.set x (b.1, v)) cs' ⟨regs, fun i => if i = b.2 then v else rs.slots i, w⟩ where
  regs := hn
  typed := by rw [hv]; exact hm.typed
  env := by
    intro n
    rw [hv]
    unfold Env.set
    by_cases hnx : n = x
    · subst hnx
      rw [if_pos rfl]
      unfold envOf
      rw [hx]
      simp
    · rw [if_neg hnx, hm.env n]
      unfold envOf
      cases hvn : cs.vars n with
      | none => rfl
      | some c => cases c with
        | none => rfl
        | some c =>
          have : c.2 ≠ b.2 := fun he => hnx (hm.apart n x c b hvn hx he)
          simp [this]
  below := by rw [hv, hs]; exact hm.below
  apart := by rw [hv]; exact hm.apart

theorem sim_castTo_same {slots : Nat → V} {regs : List V} (vars : Vars Ty) (t : Ty) (x : Ty × Opd V) (v : TV Ty V) (hd : DenX regs x v) (cs cs' : CS Ty) (o : Opd V) (is : List (Instr Ty V)) (hv : cs.vars = vars)
    (hn : cs.nreg = regs.length) (h : castTo rt t x cs = some (o, is, cs')) (w : W) :
    ∃ u ext, castTV rt t v = some u ∧ run rt is ⟨regs, slots, w⟩ = some ⟨regs ++ ext, slots, w⟩ ∧ cs'.nreg = (regs ++ ext).length ∧ opdAt (regs ++ ext) o = some u := by
  have h1 := sim_castTo (rt := rt) (slots := slots) (vars := vars) t hd cs hv hn o is cs' h w
  have h2 := ty_castTo (rt := rt) (vars := vars) t x cs hv
  cases hc : castable rt x.1 t with
  | none => rw [hc] at h2; simp only at h2; rw [h] at h2; simp at h2
  | some _ =>
    obtain ⟨u, hu⟩ := castable_castTV (rt := rt) (t := t) v (by rw [hd.1, hc])
    rw [hu] at h1
    obtain ⟨ext, e1, e2, e3⟩ := h1
    exact ⟨u, ext, hu, e1, e2, e3⟩

/-- The code of one statement. -/
theorem line_ok {env : Env Ty V} {cs cs' : CS Ty} {rs : RS V W} {l : Line} {h : H Ty V} {is : List (Instr Ty V)} (hm : Match env cs rs) (hl : Good inl l)
    (hg : gExpr rt inl l.expr cs = some (h, is, cs')) : match lineM rt inl env l rs.w with
      | none => run rt is rs = none
      | some r => ∃ rs', run rt is rs = some rs' ∧ rs'.w = r.1 ∧ Match r.2 cs' rs' := by
  cases l with
  | eval e =>
    have hp : Plain inl e := hl
    have h1 := line_eval hm hp hg
    have h2 := stat_gExpr (rt := rt) (vars := cs.vars) inl e hp (fun n _ => hm.typed n) cs h is cs' hg
    simp only [lineM, M.andThen]
    cases he : eagerE rt inl env e rs.w with
    | none => rw [he] at h1; exact h1
    | some r =>
      rw [he] at h1
      obtain ⟨ext, e1, e2, _⟩ := h1
      exact ⟨_, e1, rfl, match_regs hm h2.1 h2.2 e2⟩
  | assign x e =>
    have hp : Plain inl e := hl
    have ha : Arity inl e := plain_arity inl e hp
    rw [Line.expr, gExpr_bin (.var x) (.var x) (gVarH x) (by rw [flatO]) (gNode_var x) .assign e ha] at hg
    obtain ⟨h0, i0, c0, i1, g0, g1, rfl⟩ := G.some_of_then hg
    obtain ⟨y, i2, c2, i3, g2, g3, rfl⟩ := G.some_of_then g1
    unfold gVarH at g0
    cases hx : cs.vars x with
    | none => rw [hx] at g0; simp at g0
    | some b => cases b with
      | none => exact absurd hx (hm.typed x)
      | some b =>
        rw [hx] at g0
        simp at g0
        obtain ⟨rfl, rfl, rfl⟩ := g0
        have h1 := line_eval hm hp g2
        have h2 := stat_gExpr (rt := rt) (vars := cs.vars) inl e hp (fun n _ => hm.typed n) cs y i2 c2 g2
        have g3' : ((ld y).andThen fun z => if z.1 = b.1 then fun cs => some (H.var x, [Instr.store b.2 z.2], cs) else G.fail) c2 = some (h, i3, cs') := by
          have : gAssign (H.var x) y c2 = some (h, i3, cs') := g3
          unfold gAssign at this
          dsimp only at this
          rw [h2.1, hx] at this
          exact this
        obtain ⟨z, j1, c3, j2, k1, k2, rfl⟩ := G.some_of_then g3'
        have sz := stat_ld y c2 z j1 c3 k1
        simp only [lineM, M.andThen, List.nil_append]
        rw [run_append]
        cases he : eagerE rt inl env e rs.w with
        | none => rw [he] at h1; simp only [Option.bind_none]; rw [h1]; rfl
        | some r =>
          rw [he] at h1
          obtain ⟨ext, e1, e2, e3⟩ := h1
          have h3 := sim_ld (rt := rt) e3 c2 h2.1 e2 z j1 c3 k1 r.1
          obtain ⟨ext2, f1, f2, f3⟩ := h3
          by_cases hzb : z.1 = b.1
          · rw [if_pos hzb] at k2
            simp at k2
            obtain ⟨_, rfl, rfl⟩ := k2
            have hst : run rt [Instr.store b.2 z.2] (⟨rs.regs ++ ext ++ ext2, rs.slots, r.1⟩ : RS V W) = some ⟨rs.regs ++ ext ++ ext2, fun i => if i = b.2 then r.2.2 else rs.slots i, r.1⟩ := by
              simp only [run, run1, opd_at, f3.2, Option.map_some, Option.bind_some]
            have hb1 : r.2 = (b.1, r.2.2) := Prod.ext (f3.1.trans hzb) rfl
            have mm := match_store (w := r.1) (v := r.2.2) (regs := rs.regs ++ ext ++ ext2) hm hx (sz.1.trans h2.1) (sz.2.trans h2.2) f2
            rw [← hb1] at mm
            refine ⟨_, ?_, ?_, mm⟩
            · rw [e1]; simp only [Option.bind_some]; rw [run_append]; simp only [M.ret] at f1; rw [f1]; exact hst
            · rfl
          · rw [if_neg hzb] at k2; simp [G.fail] at k2
  | define x e =>
    obtain ⟨hp, hb, hnx⟩ : Plain inl e ∧ BareE e = false ∧ ¬ varsE e x := hl
    have ha : Arity inl e := plain_arity inl e hp
    rw [Line.expr, gExpr_bin (.define x) (.define x) (gDefH x) (by rw [flatO]) (gNode_define x) .assign e ha] at hg
    obtain ⟨h0, i0, c0, i1, g0, g1, rfl⟩ := G.some_of_then hg
    obtain ⟨y, i2, c2, i3, g2, g3, rfl⟩ := G.some_of_then g1
    unfold gDefH at g0
    cases hx : cs.vars x with
    | some b => rw [hx] at g0; simp at g0
    | none =>
      rw [hx] at g0
      simp at g0
      obtain ⟨rfl, rfl, rfl⟩ := g0
      have hok : ∀ n, varsE e n → (fun k => if k = x then some none else cs.vars k) n ≠ some none := by
        intro n hn
        have : n ≠ x := fun hh => hnx (hh ▸ hn)
        simp only [if_neg this]
        exact hm.typed n
      have h1 := sim_gExpr (rt := rt) (slots := rs.slots) inl e hp hok rs.regs { cs with vars := fun k => if k = x then some none else cs.vars k } rfl hm.regs y i2 c2 g2 rs.w
      have hee : envOf (fun k => if k = x then some none else cs.vars k) rs.slots = env := by
        funext n
        rw [hm.env n]
        unfold envOf
        by_cases hh : n = x
        · subst hh; simp [hx]
        · simp [hh]
      rw [hee] at h1
      have h2 := stat_gExpr (rt := rt) (vars := _) inl e hp hok _ y i2 c2 g2
      have hi := post_imm (rt := rt) e hp hb _ y i2 c2 g2
      cases y with
      | var _ => exact hi.elim
      | imm t o =>
        have g3' : gAssign (H.var x) (H.imm t o) c2 = some (h, i3, cs') := g3
        unfold gAssign at g3'
        dsimp only at g3'
        rw [h2.1] at g3'
        simp at g3'
        obtain ⟨_, rfl, rfl⟩ := g3'
        simp only [lineM, M.andThen, List.nil_append]
        rw [run_append]
        cases he : eagerE rt inl env e rs.w with
        | none => rw [he] at h1; simp only [Option.bind_none]; rw [h1]; rfl
        | some r =>
          rw [he] at h1
          obtain ⟨ext, e1, e2, e3⟩ := h1
          refine ⟨⟨rs.regs ++ ext, fun i => if i = c2.nslot then r.2.2 else rs.slots i, r.1⟩, ?_, rfl, ?_⟩
          · rw [e1]
            simp only [Option.bind_some, run, run1, opd_at, e3.2, Option.map_some]
          · have hns : c2.nslot = cs.nslot := h2.2
            have bd := hm.below
            refine ⟨e2, ?_, ?_, ?_, ?_⟩
            · intro n
              dsimp only
              by_cases hh : n = x
              · simp [hh]
              · simp only [if_neg hh]; exact hm.typed n
            · intro n
              unfold Env.set envOf
              dsimp only
              by_cases hh : n = x
              · simp [hh, ← e3.1]
              · simp only [if_neg hh]
                rw [hm.env n]
                unfold envOf
                cases hvn : cs.vars n with
                | none => rfl
                | some c => cases c with
                  | none => rfl
                  | some c =>
                    have hlt := bd n c hvn
                    have : c.2 ≠ c2.nslot := by rw [hns]; omega
                    simp [this]
            · intro n b hb
              dsimp only at hb ⊢
              by_cases hh : n = x
              · simp [hh] at hb; rw [← hb]; simp
              · simp only [if_neg hh] at hb
                have hlt := bd n b hb
                rw [hns]; omega
            · intro n m b c h1 h2' h3
              dsimp only at h1 h2'
              by_cases hh : n = x
              · by_cases hh2 : m = x
                · rw [hh, hh2]
                · simp [hh] at h1
                  simp only [if_neg hh2] at h2'
                  have hlt := bd m c h2'
                  rw [← h1, hns] at h3
                  simp only at h3
                  omega
              · by_cases hh2 : m = x
                · simp [hh2] at h2'
                  simp only [if_neg hh] at h1
                  have hlt := bd n b h1
                  rw [← h2', hns] at h3
                  simp only at h3
                  omega
                · simp only [if_neg hh] at h1
                  simp only [if_neg hh2] at h2'
                  exact hm.apart n m b c h1 h2' h3
  | update op x e =>
    obtain ⟨hp, hbo⟩ : Plain inl e ∧ baseOp op ≠ none := hl
    obtain ⟨o, ho⟩ := Option.ne_none_iff_exists'.mp hbo
    have hna : op ≠ .assign := by intro hh; subst hh; simp [baseOp] at ho
    have ha : Arity inl e := plain_arity inl e hp
    rw [Line.expr, gExpr_bin (.var x) (.var x) (gVarH x) (by rw [flatO]) (gNode_var x) op e ha] at hg
    obtain ⟨h0, i0, c0, i1, g0, g1, rfl⟩ := G.some_of_then hg
    obtain ⟨y, i2, c2, i3, g2, g3, rfl⟩ := G.some_of_then g1
    unfold gVarH at g0
    cases hx : cs.vars x with
    | none => rw [hx] at g0; simp at g0
    | some b => cases b with
      | none => exact absurd hx (hm.typed x)
      | some b =>
        rw [hx] at g0
        simp at g0
        obtain ⟨rfl, rfl, rfl⟩ := g0
        have h1 := line_eval hm hp g2
        have h2 := stat_gExpr (rt := rt) (vars := cs.vars) inl e hp (fun n _ => hm.typed n) cs y i2 c2 g2
        have g3' : ((ld (.var x : H Ty V)).andThen fun p => (ld y).andThen fun z => G.get (common rt p.1 z.1) fun c =>
            if c = b.1 then (castTo rt c z).andThen fun v => G.get (rt.binOp o c) fun r =>
              if r.1 = b.1 then (G.push (.bin o c p.2 v)).andThen fun q => fun cs => some (.var x, [.store b.2 q], cs) else G.fail
            else G.fail) c2 = some (h, i3, cs') := by
          unfold gOp2 at g3
          rw [if_neg hna, ho] at g3
          simp only [gUpdate] at g3
          rw [h2.1, hx] at g3
          exact g3
        obtain ⟨p, j1, c3, j2, k1, k2, rfl⟩ := G.some_of_then g3'
        obtain ⟨z, j3, c4, j4, k3, k4, rfl⟩ := G.some_of_then k2
        have sp := stat_ld (.var x : H Ty V) c2 p j1 c3 k1
        have sz := stat_ld y c3 z j3 c4 k3
        cases hc : common rt p.1 z.1 with
        | none => rw [hc] at k4; simp [G.get, G.fail] at k4
        | some c =>
          rw [hc] at k4
          simp only [G.get] at k4
          by_cases hcb : c = b.1
          · rw [if_pos hcb] at k4
            obtain ⟨v, j5, c5, j6, k5, k6, rfl⟩ := G.some_of_then k4
            have sv := stat_castTo rt c z c4 v j5 c5 k5
            cases hr : rt.binOp o c with
            | none => rw [hr] at k6; simp [G.fail] at k6
            | some q =>
              rw [hr] at k6
              simp only at k6
              by_cases hqb : q.1 = b.1
              · rw [if_pos hqb] at k6
                obtain ⟨a, j7, c6, j8, k7, k8, rfl⟩ := G.some_of_then k6
                simp [G.push] at k7
                obtain ⟨rfl, rfl, rfl⟩ := k7
                simp at k8
                obtain ⟨_, rfl, rfl⟩ := k8
                simp only [lineM, M.andThen, List.nil_append]
                rw [run_append]
                cases he : eagerE rt inl env e rs.w with
                | none => rw [he] at h1; simp only [Option.bind_none]; rw [h1]; rfl
                | some r =>
                  rw [he] at h1
                  obtain ⟨ext, e1, e2, e3⟩ := h1
                  have hdx : Den cs.vars rs.slots (rs.regs ++ ext) (.var x) (b.1, rs.slots b.2) := ⟨b, hx, rfl⟩
                  obtain ⟨ext2, f1, f2, f3⟩ := sim_ld (rt := rt) hdx c2 h2.1 e2 p j1 c3 k1 r.1
                  obtain ⟨ext3, f4, f5, f6⟩ := sim_ld (rt := rt) (e3.ext ext2) c3 (sp.1.trans h2.1) f2 z j3 c4 k3 r.1
                  obtain ⟨u, ext4, f7, f8, f9, f10⟩ := sim_castTo_same (rt := rt) (slots := rs.slots) cs.vars c z r.2 f6 c4 c5 v j5 (sz.1.trans (sp.1.trans h2.1)) f5 k5 r.1
                  have henv : env x = some (b.1, rs.slots b.2) := by rw [hm.env x]; unfold envOf; rw [hx]
                  have hbin : binTV rt o (b.1, rs.slots b.2) r.2 = (q.2 (rs.slots b.2) u).map fun v => (q.1, v) := by
                    unfold binTV
                    have : common rt (b.1, rs.slots b.2).1 r.2.1 = some c := by
                      have h5 : b.1 = p.1 := f3.1
                      have h6 : r.2.1 = z.1 := f6.1
                      rw [h6]; show common rt b.1 z.1 = _; rw [h5]; exact hc
                    rw [meet_eq, this]
                    simp only [Option.bind_some]
                    have : castTV rt c (b.1, rs.slots b.2) = some (rs.slots b.2) := by unfold castTV; rw [if_pos hcb.symm]
                    rw [this, f7]
                    simp only [Option.bind_some, hr]
                  simp only [Option.bind_some, M.lift, henv, ho, hbin]
                  have hp1 : opdAt (rs.regs ++ ext ++ ext2 ++ ext3 ++ ext4) p.2 = some (rs.slots b.2) := opdAt_ext (opdAt_ext f3.2 ext3) ext4
                  simp only [M.ret] at f1 f4
                  have hrun : (run rt i2 rs).bind (run rt (j1 ++ (j3 ++ (j5 ++ ([Instr.bin o c p.2 v] ++ [Instr.store b.2 (Opd.reg c5.nreg)]))))) =
                      (q.2 (rs.slots b.2) u).map fun d => ⟨rs.regs ++ ext ++ ext2 ++ ext3 ++ ext4 ++ [d], fun i => if i = b.2 then d else rs.slots i, r.1⟩ := by
                    rw [e1]
                    simp only [Option.bind_some]
                    rw [run_append, f1]
                    simp only [Option.bind_some]
                    rw [run_append, f4]
                    simp only [Option.bind_some]
                    rw [run_append, f8]
                    simp only [Option.bind_some]
                    rw [run_append]
                    simp only [run, run1, hr, opd_at, hp1, f10, Option.bind_some]
                    cases q.2 (rs.slots b.2) u with
                    | none => rfl
                    | some d =>
                      have : opdAt (rs.regs ++ ext ++ ext2 ++ ext3 ++ ext4 ++ [d]) (Opd.reg c5.nreg) = some d := by
                        simp only [opdAt, f9]
                        simp
                      simp only [Option.map_some, Option.bind_some, RS.push]
                      rw [opd_at, this]
                      rfl
                  rw [hrun]
                  cases hd : q.2 (rs.slots b.2) u with
                  | none => rfl
                  | some d =>
                    simp only [Option.map_some]
                    refine ⟨_, rfl, rfl, ?_⟩
                    rw [hqb]
                    refine match_store hm hx ?_ ?_ ?_
                    · exact sv.1.trans (sz.1.trans (sp.1.trans h2.1))
                    · exact sv.2.trans (sz.2.trans (sp.2.trans h2.2))
                    · simp only [List.length_append, List.length_singleton] at f9 ⊢
                      omega
              · rw [if_neg hqb] at k6; simp [G.fail] at k6
          · rw [if_neg hcb] at k4; simp [G.fail] at k4

end

end Verif.Gen.Scalar
