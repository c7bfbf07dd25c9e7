import Verif.Gen.Scalar
/-!
# Compiled scalar expressions compute what evaluation from left to right computes
-/
namespace Verif.Gen.Scalar
open Verif.Ast Verif.Ast.Rpn

section
variable {Ty V W : Type} [DecidableEq Ty] (rt : Rt Ty V W)

theorem meet_eq (a b : Ty) : meet rt a b = common rt a b := rfl

/-! ## The same two passes on values -/

def vStep (inl : Inline) : ENode (TV Ty V) → List (TV Ty V) → Option (List (TV Ty V))
  | .val h, s => some (h :: s)
  | .op1 o, a :: s => (unTV rt o a).map (· :: s)
  | .op2 o, b :: a :: s => (binTV rt o a b).map (· :: s)
  | .sel, c :: b :: a :: s => (selTV rt a b c).map (· :: s)
  | .inl n, s => (inl n).bind fun k => if s.length < k then none else (inlTV rt n (s.take k).reverse).map (· :: s.drop k)
  | _, _ => none

def vStack (inl : Inline) : List (ENode (TV Ty V)) → List (TV Ty V) → Option (List (TV Ty V))
  | [], s => some s
  | n :: ns, s => (vStep rt inl n s).bind (vStack inl ns)

mutual
def vBuild (inl : Inline) (env : Env Ty V) : Rpn → M W (List (ENode (TV Ty V)))
  | .nil => M.ret []
  | .cons n r => (vNode inl env n).andThen fun e => (vBuild inl env r).andThen fun es => M.ret (e :: es)
def vNode (inl : Inline) (env : Env Ty V) : Node → M W (ENode (TV Ty V))
  | .bool b => M.ret (.val (rt.bool b))
  | .str s => M.ret (.val (rt.str s))
  | .num t => M.lift ((rt.num t).map .val)
  | .define _ => M.lift none
  | .var n => M.lift ((env n).map .val)
  | .call n rs => (vRuns inl env rs).andThen fun hs => (callTV rt n hs).andThen fun h => M.ret (.val h)
  | .op1 o => M.ret (.op1 o)
  | .op2 o => M.ret (.op2 o)
  | .sel => M.ret .sel
  | .inl n => M.ret (.inl n)
  | .array _ => M.lift none
  | .access _ _ => M.lift none
def vRuns (inl : Inline) (env : Env Ty V) : Rpns → M W (List (TV Ty V))
  | .nil => M.ret []
  | .cons r rs => ((vBuild inl env r).andThen fun es => M.lift ((vStack rt inl es []).bind single)).andThen fun h =>
    (vRuns inl env rs).andThen fun hs => M.ret (h :: hs)
end

def vExec (inl : Inline) (env : Env Ty V) (r : Rpn) (s : List (TV Ty V)) : M W (List (TV Ty V)) := (vBuild rt inl env r).andThen fun es => M.lift (vStack rt inl es s)

/-! ## Laws of `M` -/

theorem M.assoc {α β γ : Type} (x : M W α) (f : α → M W β) (g : β → M W γ) : (x.andThen f).andThen g = x.andThen fun a => (f a).andThen g := by
  funext w
  unfold M.andThen
  cases x w <;> rfl

theorem M.ret_then {α β : Type} (a : α) (f : α → M W β) : (M.ret a).andThen f = f a := rfl
theorem M.then_ret {α : Type} (x : M W α) : x.andThen M.ret = x := by
  funext w; unfold M.andThen; cases x w <;> rfl
theorem M.lift_some {α β : Type} (a : α) (f : α → M W β) : (M.lift (some a)).andThen f = f a := rfl
theorem M.lift_none {α β : Type} (f : α → M W β) : (M.lift (none : Option α)).andThen f = M.lift none := rfl
theorem M.then_none {α β : Type} (x : M W α) : (x.andThen fun _ => (M.lift none : M W β)) = M.lift none := by
  funext w; unfold M.andThen; cases x w <;> rfl
theorem M.lift_ret {α : Type} (a : α) : (M.lift (some a) : M W α) = M.ret a := rfl

/-- An operation without effect may be done later. -/
theorem M.swap {α β γ : Type} (o : Option α) (y : M W β) (f : α → β → M W γ) : ((M.lift o).andThen fun a => y.andThen fun b => f a b) = y.andThen fun b => (M.lift o).andThen fun a => f a b := by
  cases o with
  | none =>
    rw [M.lift_none]
    symm
    exact M.then_none y
  | some a => rfl

theorem M.congr {α β : Type} (x : M W α) (f g : α → M W β) (h : ∀ a, f a = g a) : x.andThen f = x.andThen g := by
  rw [funext h]

/-! ## The two passes and the tree -/

theorem vBuild_append (inl : Inline) (env : Env Ty V) (a b : Rpn) :
    vBuild rt inl env (a.append b) = (vBuild rt inl env a).andThen fun x => (vBuild rt inl env b).andThen fun y => M.ret (x ++ y) := by
  induction a using Rpn.rec (motive_1 := fun _ => True) (motive_3 := fun _ => True) (motive_4 := fun _ => True) (motive_5 := fun _ => True) with
  | nil => rw [Rpn.append, vBuild, M.ret_then]; exact (M.then_ret _).symm
  | cons n r _ ih =>
    rw [Rpn.append, vBuild, vBuild, ih]
    simp only [M.assoc, M.ret_then]
    rfl
  | _ => trivial

theorem vStack_append (inl : Inline) (x y : List (ENode (TV Ty V))) : ∀ s, vStack rt inl (x ++ y) s = (vStack rt inl x s).bind (vStack rt inl y) := by
  induction x with
  | nil => intro s; rfl
  | cons n x ih =>
    intro s
    rw [List.cons_append, vStack, vStack]
    cases vStep rt inl n s with
    | none => rfl
    | some s' => exact ih s'

theorem M.lift_bind {α β : Type} (o : Option α) (f : α → Option β) : (M.lift (o.bind f) : M W β) = (M.lift o).andThen fun a => M.lift (f a) := by
  cases o <;> rfl
theorem M.lift_map {α β : Type} (o : Option α) (f : α → β) : (M.lift (o.map f) : M W β) = (M.lift o).andThen fun a => M.ret (f a) := by
  cases o <;> rfl

theorem vExec_append (inl : Inline) (env : Env Ty V) (a b : Rpn) (s : List (TV Ty V)) :
    vExec rt inl env (a.append b) s = (vExec rt inl env a s).andThen (vExec rt inl env b) := by
  unfold vExec
  rw [vBuild_append]
  simp only [M.assoc, M.ret_then]
  refine M.congr _ _ _ fun x => ?_
  rw [M.swap]
  refine M.congr _ _ _ fun y => ?_
  rw [vStack_append, M.lift_bind]

theorem vExec_node (inl : Inline) (env : Env Ty V) (n : Node) (s : List (TV Ty V)) :
    vExec rt inl env (.cons n .nil) s = (vNode rt inl env n).andThen fun e => M.lift (vStep rt inl e s) := by
  unfold vExec
  rw [vBuild, M.assoc]
  refine M.congr _ _ _ fun e => ?_
  rw [vBuild, M.ret_then, M.ret_then, vStack]
  cases vStep rt inl e s <;> rfl

theorem vRun_exec (inl : Inline) (env : Env Ty V) (r : Rpn) (x : M W (TV Ty V)) (h : ∀ s, vExec rt inl env r s = x.andThen fun v => M.ret (v :: s)) :
    ((vBuild rt inl env r).andThen fun es => M.lift ((vStack rt inl es []).bind single)) = x := by
  have h0 := h []
  have : ((vBuild rt inl env r).andThen fun es => M.lift ((vStack rt inl es []).bind single)) = (vExec rt inl env r []).andThen fun s => M.lift (single s) := by
    unfold vExec
    rw [M.assoc]
    exact M.congr _ _ _ fun es => M.lift_bind _ _
  rw [this, h0, M.assoc]
  simp only [M.ret_then, single]
  exact M.then_ret x

theorem eagerEs_length (inl : Inline) (env : Env Ty V) (es : Exprs) : ∀ w r, eagerEs rt inl env es w = some r → r.2.length = Exprs.length es := by
  induction es using Exprs.rec (motive_1 := fun _ => True) (motive_2 := fun _ => True) (motive_4 := fun _ => True) (motive_5 := fun _ => True) with
  | nil => intro w r h; rw [eagerEs] at h; simp [M.ret] at h; subst h; rfl
  | cons e es _ ih =>
    intro w r h
    rw [eagerEs] at h
    simp only [M.andThen] at h
    cases he : eagerE rt inl env e w with
    | none => rw [he] at h; simp at h
    | some v =>
      rw [he] at h
      simp only [Option.bind_some] at h
      cases hs : eagerEs rt inl env es v.1 with
      | none => rw [hs] at h; simp at h
      | some q =>
        rw [hs] at h
        simp [M.ret] at h
        subst h
        simp [Exprs.length, ih _ _ hs]
  | _ => trivial

/-- Replace the continuation on the results the computation can have. -/
theorem M.congr_of {α β : Type} (x : M W α) (f g : α → M W β) (h : ∀ w r, x w = some r → f r.2 = g r.2) : x.andThen f = x.andThen g := by
  funext w
  unfold M.andThen
  cases hx : x w with
  | none => rfl
  | some r => simp only [Option.bind_some]; rw [h w r hx]

mutual
theorem flatE_eager (inl : Inline) (env : Env Ty V) (e : Expr) (h : Plain inl e) : ∀ s, vExec rt inl env (flatE inl e) s = (eagerE rt inl env e).andThen fun v => M.ret (v :: s) := by
  match e with
  | .un none o => rw [Plain] at h; rw [flatE, eagerE]; exact flatO_eager inl env o h
  | .un (some op) o =>
    rw [Plain] at h
    have ho := flatO_eager inl env o h
    intro s
    rw [flatE, eagerE, vExec_append, ho]
    simp only [M.assoc, M.ret_then, vExec_node, vNode, vStep, M.lift_map]
  | .bin l op r =>
    rw [Plain] at h
    have hl := flatE_eager inl env l h.1
    have hr := flatE_eager inl env r h.2.2.2
    intro s
    rw [flatE, eagerE, vExec_append, hl]
    simp only [M.assoc, M.ret_then, vExec_append, hr, vExec_node, vNode, vStep, M.lift_map]
  | .sel c t f =>
    rw [Plain] at h
    have hc := flatE_eager inl env c h.1
    have ht := flatE_eager inl env t h.2.1
    have hf := flatE_eager inl env f h.2.2
    intro s
    rw [flatE, eagerE, vExec_append, hc]
    simp only [M.assoc, M.ret_then, vExec_append, ht, hf, vExec_node, vNode, vStep, M.lift_map]
theorem flatO_eager (inl : Inline) (env : Env Ty V) (o : Operand) (h : PlainO inl o) : ∀ s, vExec rt inl env (flatO inl o) s = (eagerO rt inl env o).andThen fun v => M.ret (v :: s) := by
  match o with
  | .bool b => intro s; rw [flatO, eagerO, vExec_node]; rfl
  | .str t => intro s; rw [flatO, eagerO, vExec_node]; rfl
  | .num t => intro s; rw [flatO, eagerO, vExec_node, vNode, M.lift_map, M.assoc]; rfl
  | .var n => intro s; rw [flatO, eagerO, vExec_node, vNode, M.lift_map, M.assoc]; rfl
  | .define n => rw [PlainO] at h; exact h.elim
  | .array n => rw [PlainO] at h; exact h.elim
  | .access n _ => rw [PlainO] at h; exact h.elim
  | .paren e => rw [PlainO] at h; rw [flatO, eagerO]; exact flatE_eager inl env e h
  | .call n es =>
    rw [PlainO] at h
    have he := flatEs_eager inl env es h.1
    have ha := flatArgs_eager inl env es h.1
    intro s
    rw [flatO, eagerO]
    cases hn : inl n with
    | none =>
      simp only
      rw [vExec_node, vNode, he]
      simp only [M.assoc, M.ret_then, vStep]
      rfl
    | some k =>
      simp only
      rw [vExec_append, ha]
      simp only [M.assoc, M.ret_then, vExec_node, vNode, vStep, hn, Option.bind_some]
      refine M.congr_of _ _ _ fun w r hr => ?_
      have hlen : r.2.length = k := (eagerEs_length rt inl env es w r hr).trans (h.2 k hn)
      have h1 : ¬ (r.2.reverse ++ s).length < k := by simp; omega
      have h2 : (r.2.reverse ++ s).take k = r.2.reverse := by
        rw [List.take_append_of_le_length (by simp [hlen])]
        exact List.take_of_length_le (by simp [hlen])
      have h3 : (r.2.reverse ++ s).drop k = s := by
        rw [List.drop_append_of_le_length (by simp [hlen]), List.drop_of_length_le (by simp [hlen])]
        rfl
      rw [if_neg h1, h2, h3, List.reverse_reverse, M.lift_map]
theorem flatEs_eager (inl : Inline) (env : Env Ty V) (es : Exprs) (h : PlainEs inl es) : vRuns rt inl env (flatEs inl es) = eagerEs rt inl env es := by
  match es with
  | .nil => rw [flatEs, vRuns, eagerEs]
  | .cons e es =>
    rw [PlainEs] at h
    have he := flatE_eager inl env e h.1
    have hs := flatEs_eager inl env es h.2
    rw [flatEs, vRuns, eagerEs, vRun_exec rt inl env _ _ he, hs]
theorem flatArgs_eager (inl : Inline) (env : Env Ty V) (es : Exprs) (h : PlainEs inl es) :
    ∀ s, vExec rt inl env (flatArgs inl es) s = (eagerEs rt inl env es).andThen fun vs => M.ret (vs.reverse ++ s) := by
  match es with
  | .nil => intro s; rw [flatArgs, eagerEs]; rfl
  | .cons e es =>
    rw [PlainEs] at h
    have he := flatE_eager inl env e h.1
    have hs := flatArgs_eager inl env es h.2
    intro s
    rw [flatArgs, eagerEs, vExec_append, he]
    simp only [M.assoc, M.ret_then, hs, List.reverse_cons, List.append_assoc, List.singleton_append]
end

/-- The two passes compute the value of the tree. -/
theorem vRun_eager (inl : Inline) (env : Env Ty V) (e : Expr) (h : Plain inl e) :
    ((vBuild rt inl env (flatE inl e)).andThen fun es => M.lift ((vStack rt inl es []).bind single)) = eagerE rt inl env e :=
  vRun_exec rt inl env _ _ (flatE_eager rt inl env e h)

end

end Verif.Gen.Scalar
