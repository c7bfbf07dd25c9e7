import Verif.Comp.VecPipe
/-!
# Lemmas for `Verif.Comp.VecPipe`: from the tree of an expression to its lanes
-/
namespace Verif.Comp.VecPipe
open Verif.Ast Verif.Ast.Rpn Verif.Gen
open Verif.Types.Conv (IntTy)
open Verif.Gen.Scalar (Name)
open Verif.Comp.Pipeline (Num Cond Arith Rel PTy decimal wrap litText Reads)

/-! ## Trees -/

def treeFlat (inl : Inline) : Tree → Rpn
  | .atom o => flatO inl o
  | .un op t => (treeFlat inl t).append (.cons (.op1 op) .nil)
  | .bin l op r => (treeFlat inl l).append ((treeFlat inl r).append (.cons (.op2 op) .nil))
  | .sel c t f => (treeFlat inl c).append ((treeFlat inl t).append ((treeFlat inl f).append (.cons .sel .nil)))

theorem flat_tree (inl : Inline) (e : Expr) : flatE inl e = treeFlat inl e.toTree := by
  match e with
  | .un none (.paren e) => rw [flatE, flatO, Expr.toTree]; exact flat_tree inl e
  | .un (some op) (.paren e) => rw [flatE, flatO, Expr.toTree, treeFlat, flat_tree inl e]
  | .bin l op r => rw [flatE, Expr.toTree, treeFlat, flat_tree inl l, flat_tree inl r]
  | .sel c t f => rw [flatE, Expr.toTree, treeFlat, flat_tree inl c, flat_tree inl t, flat_tree inl f]
  | .un none (.bool _) | .un none (.str _) | .un none (.num _) | .un none (.define _) | .un none (.array _) | .un none (.var _) | .un none (.call _ _) | .un none (.access _ _) =>
    simp only [flatE, Expr.toTree, treeFlat]
  | .un (some op) (.bool _) | .un (some op) (.str _) | .un (some op) (.num _) | .un (some op) (.define _) | .un (some op) (.array _) | .un (some op) (.var _) | .un (some op) (.call _ _)
  | .un (some op) (.access _ _) => simp only [flatE, Expr.toTree, treeFlat]

def treeTy (env : Name → Option VTy) : Tree → Option VTy
  | .atom o => checkO env o
  | .un op t => (treeTy env t).bind (unTy op)
  | .bin l op r => (treeTy env l).bind fun a => (treeTy env r).bind fun b => binTy op a b
  | .sel c t f => (treeTy env c).bind fun a => (treeTy env t).bind fun b => (treeTy env f).bind fun d => selTy a b d

theorem check_tree (env : Name → Option VTy) (e : Expr) : checkE env e = treeTy env e.toTree := by
  match e with
  | .un none (.paren e) => rw [checkE, checkO, Expr.toTree]; exact check_tree env e
  | .un (some op) (.paren e) => rw [checkE, checkO, Expr.toTree, treeTy, check_tree env e]
  | .bin l op r => rw [checkE, Expr.toTree, treeTy, check_tree env l, check_tree env r]
  | .sel c t f => rw [checkE, Expr.toTree, treeTy, check_tree env c, check_tree env t, check_tree env f]
  | .un none (.bool _) | .un none (.str _) | .un none (.num _) | .un none (.define _) | .un none (.array _) | .un none (.var _) | .un none (.call _ _) | .un none (.access _ _) =>
    simp only [checkE, Expr.toTree, treeTy]
  | .un (some op) (.bool _) | .un (some op) (.str _) | .un (some op) (.num _) | .un (some op) (.define _) | .un (some op) (.array _) | .un (some op) (.var _) | .un (some op) (.call _ _)
  | .un (some op) (.access _ _) => simp only [checkE, Expr.toTree, treeTy]

theorem nodes_append (look : Name → Option (Vec.Node PTy Int VOp)) (a b : Rpn) :
    nodesOf look (a.append b) = (nodesOf look a).bind fun x => (nodesOf look b).map (x ++ ·) := by
  match a with
  | .nil => simp [Rpn.append, nodesOf]
  | .cons n r =>
    rw [Rpn.append, nodesOf, nodesOf, nodes_append look r b]
    cases nodeOf look n <;> simp
    cases nodesOf look r <;> cases nodesOf look b <;> simp

/-! ## The expression of `Verif.Gen.Vec` behind an expression -/

def litVal (ds : List Char) : Option IntTy → Int
  | some t => wrap t (decimal ds)
  | none => decimal ds

abbrev VEx := Vec.VE PTy Int VOp

mutual
def numVE (look : Name → VEx) : Num → VEx
  | .lit ds s => .con (.int (literalType ds s)) (litVal ds s)
  | .arg x => look x
  | .neg a => .app1 (.un .neg) (numVE look a)
  | .op o a b => .app2 (.bin o.sign) (numVE look a) (numVE look b)
  | .pick c a b => .app3 .sel (condVE look c) (numVE look a) (numVE look b)
def condVE (look : Name → VEx) : Cond → VEx
  | .const b => .con .bit (Pipeline.bit b)
  | .rel o a b => .app2 (.bin o.sign) (numVE look a) (numVE look b)
  | .and a b => .app2 (.bin .and) (condVE look a) (condVE look b)
  | .or a b => .app2 (.bin .or) (condVE look a) (condVE look b)
  | .not a => .app1 (.un .not) (condVE look a)
end

theorem lit_const (ds : List Char) (s : Option IntTy) (h : (Num.lit ds s).Lits) : Pipeline.constant (litText ds s) = some (.int (literalType ds s), litVal ds s) := by
  rw [Num.Lits] at h
  rw [Pipeline.constant_lit ds s h.1 h.2.1 h.2.2]
  cases s <;> rfl

theorem arith_node (o : Arith) (look : Name → Option (Vec.Node PTy Int VOp)) : nodeOf look (.op2 o.sign) = some (.op (.bin o.sign)) := by cases o <;> rfl
theorem rel_node (o : Rel) (look : Name → Option (Vec.Node PTy Int VOp)) : nodeOf look (.op2 o.sign) = some (.op (.bin o.sign)) := by cases o <;> rfl

/-- Where the environment describes an argument, the leaf is the one meant. -/
def LookOk (Γ : VEnv) (look : Name → Option (Vec.Node PTy Int VOp)) (lk : Name → VEx) : Prop := ∀ x k, Γ x = some k → (look x).map ([·]) = some (Vec.flat (lk x))

mutual
theorem flat_num (inl : Inline) (Γ : VEnv) (look : Name → Option (Vec.Node PTy Int VOp)) (lk : Name → VEx) (h : LookOk Γ look lk) (p : Num) (hl : p.Lits) (k : Bool × IntTy)
    (hk : elemOf Γ p = some k) : nodesOf look (treeFlat inl p.tree) = some (Vec.flat (numVE lk p)) := by
  match p with
  | .lit ds s =>
    rw [Num.tree, treeFlat, flatO, nodesOf, nodesOf, nodeOf, lit_const ds s hl]
    rfl
  | .arg x =>
    rw [elemOf] at hk
    have := h x k hk
    rw [Num.tree, treeFlat, flatO, nodesOf, nodesOf, nodeOf, numVE, ← this]
    cases look x <;> rfl
  | .neg a =>
    rw [Num.Lits] at hl
    rw [elemOf] at hk
    cases ha : elemOf Γ a with
    | none => rw [ha] at hk; simp at hk
    | some l =>
      rw [Num.tree, treeFlat, nodes_append, flat_num inl Γ look lk h a hl l ha, numVE, Vec.flat]
      rfl
  | .op o a b =>
    rw [Num.Lits] at hl
    rw [elemOf] at hk
    cases ha : elemOf Γ a with
    | none => rw [ha] at hk; simp at hk
    | some l =>
      cases hb : elemOf Γ b with
      | none => rw [ha, hb] at hk; simp at hk
      | some m =>
        rw [Num.tree, treeFlat, nodes_append, nodes_append, flat_num inl Γ look lk h a hl.1 l ha, flat_num inl Γ look lk h b hl.2 m hb, numVE, Vec.flat, nodesOf, nodesOf, arith_node]
        simp
  | .pick c a b =>
    rw [Num.Lits] at hl
    rw [elemOf] at hk
    split at hk
    · next hc =>
      cases ha : elemOf Γ a with
      | none => rw [ha] at hk; simp at hk
      | some l =>
        cases hb : elemOf Γ b with
        | none => rw [ha, hb] at hk; simp at hk
        | some m =>
          rw [Num.tree, treeFlat, nodes_append, nodes_append, nodes_append, flat_cond inl Γ look lk h c hl.1 hc.1, flat_num inl Γ look lk h a hl.2.1 l ha,
            flat_num inl Γ look lk h b hl.2.2 m hb, numVE, Vec.flat, nodesOf, nodesOf, nodeOf]
          simp
    · simp at hk
theorem flat_cond (inl : Inline) (Γ : VEnv) (look : Name → Option (Vec.Node PTy Int VOp)) (lk : Name → VEx) (h : LookOk Γ look lk) (p : Cond) (hl : p.Lits)
    (hk : condOk Γ p = true) : nodesOf look (treeFlat inl p.tree) = some (Vec.flat (condVE lk p)) := by
  match p with
  | .const b => rw [Cond.tree, treeFlat, flatO, nodesOf, nodesOf, nodeOf, condVE]; rfl
  | .rel o a b =>
    rw [Cond.Lits] at hl
    rw [condOk] at hk
    cases ha : elemOf Γ a with
    | none => rw [ha] at hk; simp at hk
    | some l =>
      cases hb : elemOf Γ b with
      | none => rw [ha, hb] at hk; simp at hk
      | some m =>
        rw [Cond.tree, treeFlat, nodes_append, nodes_append, flat_num inl Γ look lk h a hl.1 l ha, flat_num inl Γ look lk h b hl.2 m hb, condVE, Vec.flat, nodesOf, nodesOf, rel_node]
        simp
  | .and a b =>
    rw [Cond.Lits] at hl
    rw [condOk, Bool.and_eq_true, Bool.and_eq_true] at hk
    rw [Cond.tree, treeFlat, nodes_append, nodes_append, flat_cond inl Γ look lk h a hl.1 hk.1.1, flat_cond inl Γ look lk h b hl.2 hk.1.2, condVE, Vec.flat, nodesOf, nodesOf]
    simp [nodeOf, Scalar.baseOp]
  | .or a b =>
    rw [Cond.Lits] at hl
    rw [condOk, Bool.and_eq_true, Bool.and_eq_true] at hk
    rw [Cond.tree, treeFlat, nodes_append, nodes_append, flat_cond inl Γ look lk h a hl.1 hk.1.1, flat_cond inl Γ look lk h b hl.2 hk.1.2, condVE, Vec.flat, nodesOf, nodesOf]
    simp [nodeOf, Scalar.baseOp]
  | .not a =>
    rw [Cond.Lits] at hl
    rw [condOk] at hk
    rw [Cond.tree, treeFlat, nodes_append, flat_cond inl Γ look lk h a hl hk, condVE, Vec.flat, nodesOf, nodesOf]
    simp [nodeOf]
end

/-! ## Validation -/

/-- The type validation computes for an expression of elements of type `t`. -/
theorem together_cases {k l m : Bool × IntTy} {a b : Bool} (h : together k l a b = some m) :
    (k.2 = l.2 ∧ m = (k.1 || l.1, k.2)) ∨ (k.2 ≠ l.2 ∧ k.1 = true ∧ b = true ∧ m = (true, k.2)) ∨ (k.2 ≠ l.2 ∧ ¬ (k.1 = true ∧ b = true) ∧ l.1 = true ∧ a = true ∧ m = (true, l.2)) := by
  unfold together at h
  split at h
  · next h1 => exact .inl ⟨h1, by injection h with h; exact h.symm⟩
  · next h1 =>
    split at h
    · next h2 => exact .inr (.inl ⟨h1, h2.1, h2.2, by injection h with h; exact h.symm⟩)
    · next h2 =>
      split at h
      · next h3 => exact .inr (.inr ⟨h1, h2, h3.1, h3.2, by injection h with h; exact h.symm⟩)
      · cases h

/-- A single number is no vector; elements taken from a vector come from one. -/
theorem single_has (Γ : VEnv) (p : Num) (h : single Γ p = true) : numHas Γ p = false := by
  match p with
  | .lit _ _ => simp [numHas]
  | .arg x => simpa [single] using h
  | .neg _ => simp [single] at h
  | .op _ _ _ => simp [single] at h
  | .pick _ _ _ => simp [single] at h

theorem flag_has (Γ : VEnv) (p : Num) (k : Bool × IntTy) (hk : elemOf Γ p = some k) (h : k.1 = true) : numHas Γ p = true := by
  match p with
  | .lit _ _ => rw [elemOf] at hk; injection hk with hk; subst hk; simp at h
  | .arg x => rw [elemOf] at hk; simp [numHas, hk, h]
  | .neg a =>
    rw [elemOf] at hk
    cases ha : elemOf Γ a with
    | none => rw [ha] at hk; simp at hk
    | some l =>
      rw [ha, Option.bind_some] at hk
      split at hk
      · injection hk with hk; subst hk; rw [numHas]; exact flag_has Γ a l ha h
      · simp at hk
  | .op o a b =>
    rw [elemOf] at hk
    cases ha : elemOf Γ a with
    | none => rw [ha] at hk; simp at hk
    | some l =>
      cases hb : elemOf Γ b with
      | none => rw [ha, hb] at hk; simp at hk
      | some m =>
        rw [ha, hb] at hk
        simp only [Option.bind_some] at hk
        have h1 := flag_has Γ a l ha
        have h2 := flag_has Γ b m hb
        rw [numHas, Bool.or_eq_true]
        rcases together_cases hk with ⟨_, rfl⟩ | ⟨_, h3, _, rfl⟩ | ⟨_, _, h3, _, rfl⟩
        · rcases Bool.or_eq_true_iff.1 h with h | h
          · exact .inl (h1 h)
          · exact .inr (h2 h)
        · exact .inl (h1 h3)
        · exact .inr (h2 h3)
  | .pick c a b =>
    rw [elemOf] at hk
    split at hk
    · cases ha : elemOf Γ a with
      | none => rw [ha] at hk; simp at hk
      | some l =>
        cases hb : elemOf Γ b with
        | none => rw [ha, hb] at hk; simp at hk
        | some m =>
          rw [ha, hb] at hk
          simp only [Option.bind_some] at hk
          have h1 := flag_has Γ a l ha
          have h2 := flag_has Γ b m hb
          rw [numHas, Bool.or_eq_true, Bool.or_eq_true]
          rcases together_cases hk with ⟨_, rfl⟩ | ⟨_, h3, _, rfl⟩ | ⟨_, _, h3, _, rfl⟩
          · rcases Bool.or_eq_true_iff.1 h with h | h
            · exact .inl (.inr (h1 h))
            · exact .inr (h2 h)
          · exact .inl (.inr (h1 h3))
          · exact .inr (h2 h3)
    · simp at hk

theorem unTy_neg (v : Bool) (t : IntTy) (h : t.signed = true) : unTy .neg (v, .int t) = some (v, .int t) := by simp [unTy, h]

theorem bin_same (o : Arith) (v w : Bool) (t : IntTy) : binTy o.sign (v, .int t) (w, .int t) = some (v || w, .int t) := by
  have hc := Pipeline.common_self t
  cases o <;> cases v <;> cases w <;> simp [binTy, Arith.sign, canBin, isNum, leftTy, larger, hc]

theorem bin_left (o : Arith) (s t : IntTy) : binTy o.sign (true, .int t) (false, .int s) = some (true, .int t) := by cases o <;> simp [binTy, Arith.sign, canBin, isNum, leftTy]
theorem bin_right (o : Arith) (s t : IntTy) : binTy o.sign (false, .int s) (true, .int t) = some (true, .int t) := by cases o <;> simp [binTy, Arith.sign, canBin, isNum]
theorem rel_same (o : Rel) (v w : Bool) (t : IntTy) : binTy o.sign (v, .int t) (w, .int t) = some (v || w, .bit) := by
  cases o <;> cases v <;> cases w <;> simp [binTy, Rel.sign, canBin, isNum]
theorem rel_left (o : Rel) (s t : IntTy) : binTy o.sign (true, .int t) (false, .int s) = some (true, .bit) := by cases o <;> simp [binTy, Rel.sign, canBin, isNum]
theorem rel_right (o : Rel) (s t : IntTy) : binTy o.sign (false, .int s) (true, .int t) = some (true, .bit) := by cases o <;> simp [binTy, Rel.sign, canBin, isNum]

theorem sel_same (c v w : Bool) (t : IntTy) (h : c = true ∨ v = w) : selTy (c, .bit) (v, .int t) (w, .int t) = some (c || v || w, .int t) := by
  have hc := Pipeline.common_self t
  cases c <;> cases v <;> cases w <;> simp [selTy, canCast, isNum, larger, hc] at h ⊢
theorem sel_left (s t : IntTy) : selTy (true, .bit) (true, .int t) (false, .int s) = some (true, .int t) := by simp [selTy, canCast, isNum]
theorem sel_right (s t : IntTy) : selTy (true, .bit) (false, .int s) (true, .int t) = some (true, .int t) := by simp [selTy, canCast, isNum]

mutual
theorem check_num (Γ : VEnv) (env : Name → Option VTy) (he : ∀ x, env x = (Γ x).map fun k => (k.1, .int k.2)) (p : Num) (hl : p.Lits) (k : Bool × IntTy) (hk : elemOf Γ p = some k) :
    treeTy env p.tree = some (numHas Γ p, .int k.2) := by
  match p with
  | .lit ds s =>
    rw [elemOf] at hk
    injection hk with hk
    subst hk
    rw [Num.tree, treeTy, checkO, lit_const ds s hl, numHas]
    rfl
  | .arg x =>
    rw [elemOf] at hk
    rw [Num.tree, treeTy, checkO, he, numHas, hk]
    rfl
  | .neg a =>
    rw [Num.Lits] at hl
    rw [elemOf] at hk
    cases ha : elemOf Γ a with
    | none => rw [ha] at hk; simp at hk
    | some l =>
      rw [ha, Option.bind_some] at hk
      split at hk
      · next hs =>
        injection hk with hk
        subst hk
        rw [Num.tree, treeTy, check_num Γ env he a hl l ha, Option.bind_some, unTy_neg _ _ hs, numHas]
      · simp at hk
  | .op o a b =>
    rw [Num.Lits] at hl
    rw [elemOf] at hk
    cases ha : elemOf Γ a with
    | none => rw [ha] at hk; simp at hk
    | some l =>
      cases hb : elemOf Γ b with
      | none => rw [ha, hb] at hk; simp at hk
      | some m =>
        rw [ha, hb] at hk
        simp only [Option.bind_some] at hk
        rw [Num.tree, treeTy, check_num Γ env he a hl.1 l ha, check_num Γ env he b hl.2 m hb, numHas]
        simp only [Option.bind_some]
        rcases together_cases hk with ⟨h1, rfl⟩ | ⟨_, h3, h4, rfl⟩ | ⟨_, _, h3, h4, rfl⟩
        · rw [h1, bin_same]
        · rw [flag_has Γ a l ha h3, single_has Γ b h4, bin_left]; rfl
        · rw [flag_has Γ b m hb h3, single_has Γ a h4, bin_right]; rfl
  | .pick c a b =>
    rw [Num.Lits] at hl
    rw [elemOf] at hk
    split at hk
    · next hc =>
      cases ha : elemOf Γ a with
      | none => rw [ha] at hk; simp at hk
      | some l =>
        cases hb : elemOf Γ b with
        | none => rw [ha, hb] at hk; simp at hk
        | some m =>
          rw [ha, hb] at hk
          simp only [Option.bind_some] at hk
          rw [Num.tree, treeTy, check_cond Γ env he c hl.1 hc.1, check_num Γ env he a hl.2.1 l ha, check_num Γ env he b hl.2.2 m hb, numHas]
          simp only [Option.bind_some]
          rcases together_cases hk with ⟨h1, rfl⟩ | ⟨_, h3, h4, rfl⟩ | ⟨_, _, h3, h4, rfl⟩
          · rw [h1, sel_same _ _ _ _ hc.2]
          · have h5 := flag_has Γ a l ha h3
            have h6 := single_has Γ b h4
            have h7 := hc.2
            rw [h5, h6] at h7
            simp only [Bool.true_eq_false, or_false] at h7
            rw [h5, h6, h7, sel_left]; rfl
          · have h5 := flag_has Γ b m hb h3
            have h6 := single_has Γ a h4
            have h7 := hc.2
            rw [h5, h6] at h7
            simp only [Bool.false_eq_true, or_false] at h7
            rw [h5, h6, h7, sel_right]; rfl
    · simp at hk
theorem check_cond (Γ : VEnv) (env : Name → Option VTy) (he : ∀ x, env x = (Γ x).map fun k => (k.1, .int k.2)) (p : Cond) (hl : p.Lits) (hk : condOk Γ p = true) :
    treeTy env p.tree = some (condHas Γ p, .bit) := by
  match p with
  | .const b => rw [Cond.tree, treeTy, checkO, condHas]
  | .rel o a b =>
    rw [Cond.Lits] at hl
    rw [condOk] at hk
    cases ha : elemOf Γ a with
    | none => rw [ha] at hk; simp at hk
    | some l =>
      cases hb : elemOf Γ b with
      | none => rw [ha, hb] at hk; simp at hk
      | some m =>
        rw [ha, hb] at hk
        simp only [Option.bind_some] at hk
        obtain ⟨q, hk⟩ := Option.isSome_iff_exists.1 hk
        rw [Cond.tree, treeTy, check_num Γ env he a hl.1 l ha, check_num Γ env he b hl.2 m hb, condHas]
        simp only [Option.bind_some]
        rcases together_cases hk with ⟨h1, rfl⟩ | ⟨_, h3, h4, rfl⟩ | ⟨_, _, h3, h4, rfl⟩
        · rw [h1, rel_same]
        · rw [flag_has Γ a l ha h3, single_has Γ b h4, rel_left]; rfl
        · rw [flag_has Γ b m hb h3, single_has Γ a h4, rel_right]; rfl
  | .and a b =>
    rw [Cond.Lits] at hl
    rw [condOk, Bool.and_eq_true, Bool.and_eq_true, beq_iff_eq] at hk
    rw [Cond.tree, treeTy, check_cond Γ env he a hl.1 hk.1.1, check_cond Γ env he b hl.2 hk.1.2, condHas, hk.2]
    cases condHas Γ b <;> rfl
  | .or a b =>
    rw [Cond.Lits] at hl
    rw [condOk, Bool.and_eq_true, Bool.and_eq_true, beq_iff_eq] at hk
    rw [Cond.tree, treeTy, check_cond Γ env he a hl.1 hk.1.1, check_cond Γ env he b hl.2 hk.1.2, condHas, hk.2]
    cases condHas Γ b <;> rfl
  | .not a =>
    rw [Cond.Lits] at hl
    rw [condOk] at hk
    rw [Cond.tree, treeTy, check_cond Γ env he a hl hk, condHas]
    rfl
end

/-! ## Types of the code -/

theorem single_flag (Γ : VEnv) (p : Num) (k : Bool × IntTy) (hk : elemOf Γ p = some k) (h : single Γ p = true) : k.1 = false := by
  cases h1 : k.1 with
  | false => rfl
  | true => have := flag_has Γ p k hk h1; rw [single_has Γ p h] at this; cases this

/-- The leaves are what the environment says. -/
def KindOk (Γ : VEnv) (lk : Name → VEx) : Prop :=
  (∀ x, Vec.noCall (lk x) = true) ∧ ∀ x k, Γ x = some k → (k.1 = true ∧ ∃ b, lk x = .vec (.int k.2) b) ∨ (k.1 = false ∧ ∃ z, lk x = .con (.int k.2) z)

mutual
theorem noCall_num (lk : Name → VEx) (h : ∀ x, Vec.noCall (lk x) = true) (p : Num) : Vec.noCall (numVE lk p) = true := by
  match p with
  | .lit _ _ => rw [numVE, Vec.noCall]
  | .arg x => rw [numVE]; exact h x
  | .neg a => rw [numVE, Vec.noCall]; exact noCall_num lk h a
  | .op _ a b => rw [numVE, Vec.noCall, noCall_num lk h a, noCall_num lk h b]; rfl
  | .pick c a b => rw [numVE, Vec.noCall, noCall_cond lk h c, noCall_num lk h a, noCall_num lk h b]; rfl
theorem noCall_cond (lk : Name → VEx) (h : ∀ x, Vec.noCall (lk x) = true) (p : Cond) : Vec.noCall (condVE lk p) = true := by
  match p with
  | .const _ => rw [condVE, Vec.noCall]
  | .rel _ a b => rw [condVE, Vec.noCall, noCall_num lk h a, noCall_num lk h b]; rfl
  | .and a b => rw [condVE, Vec.noCall, noCall_cond lk h a, noCall_cond lk h b]; rfl
  | .or a b => rw [condVE, Vec.noCall, noCall_cond lk h a, noCall_cond lk h b]; rfl
  | .not a => rw [condVE, Vec.noCall]; exact noCall_cond lk h a
end

theorem isCon_num (Γ : VEnv) (lk : Name → VEx) (h : KindOk Γ lk) (p : Num) (k : Bool × IntTy) (hk : elemOf Γ p = some k) : Vec.isCon (numVE lk p) = single Γ p := by
  match p with
  | .lit _ _ => rfl
  | .arg x =>
    rw [elemOf] at hk
    rw [numVE, single, numHas, hk]
    rcases h.2 x k hk with ⟨h1, b, h2⟩ | ⟨h1, b, h2⟩ <;> rw [h2] <;> simp [Vec.isCon, h1]
  | .neg _ => rfl
  | .op _ _ _ => rfl
  | .pick _ _ _ => rfl

def pty (k : Bool × IntTy) : Bool × PTy := (k.1, .int k.2)

theorem pair_ty {k l m : Bool × IntTy} {ea eb : VEx} {sa sb : Bool} (h : together k l sa sb = some m) (ha : Vec.isCon ea = sa) (hb : Vec.isCon eb = sb) (fa : sa = true → k.1 = false) :
    (if (pty k).1 = true then (pty k).2 else if (pty l).1 = true then (pty l).2 else (pty k).2) = .int m.2 ∧ Vec.canBe vints (.int m.2) ea (pty k).2 ∧ Vec.canBe vints (.int m.2) eb (pty l).2 ∧
      m.1 = (k.1 || l.1) ∧ Vec.meet [pty k, pty l] = some (.int m.2) := by
  obtain ⟨k1, k2⟩ := k
  obtain ⟨l1, l2⟩ := l
  simp only [pty]
  rcases together_cases h with ⟨h1, rfl⟩ | ⟨_, h3, h4, rfl⟩ | ⟨_, _, h3, h4, rfl⟩
  · dsimp only at h1; subst h1
    refine ⟨by cases k1 <;> cases l1 <;> rfl, .inl rfl, .inl rfl, rfl, ?_⟩
    cases k1 <;> cases l1 <;> rfl
  · dsimp only at h3; subst h3
    refine ⟨rfl, .inl rfl, .inr ⟨hb.trans h4, rfl⟩, rfl, rfl⟩
  · have h5 := fa h4
    dsimp only at h3 h5; subst h3 h5
    refine ⟨rfl, .inr ⟨ha.trans h4, rfl⟩, .inl rfl, rfl, rfl⟩

theorem arith_op (o : Arith) (t : IntTy) : Vec.opOk vints (.bin o.sign) 2 (.int t) [.int t, .int t] := by cases o <;> exact ⟨rfl, by simp [vints, opV, binV, Arith.sign, Pipeline.binInt, Pipeline.intOp, cmpV, Pipeline.cmpOp]⟩
theorem rel_op (o : Rel) (t : IntTy) : Vec.opOk vints (.bin o.sign) 2 (.int t) [.int t, .int t] := by cases o <;> exact ⟨rfl, by simp [vints, opV, binV, Rel.sign, Pipeline.binInt, Pipeline.intOp, cmpV, Pipeline.cmpOp]⟩
theorem arith_cmp (o : Arith) : vints.isCmp (.bin o.sign) = false := by cases o <;> rfl
theorem rel_cmp (o : Rel) : vints.isCmp (.bin o.sign) = true := by cases o <;> rfl
theorem neg_op (t : IntTy) (h : t.signed = true) : Vec.opOk vints (.un .neg) 1 (.int t) [.int t] := ⟨rfl, by simp [vints, opV, Pipeline.unT, h, cmpV]⟩
theorem not_op : Vec.opOk vints (.un .not) 1 .bit [.bit] := ⟨rfl, by simp [vints, opV, Pipeline.unT, cmpV]⟩
theorem and_op : Vec.opOk vints (.bin .and) 2 .bit [.bit, .bit] := ⟨rfl, by simp [vints, opV, binV, cmpV, Pipeline.cmpOp]⟩
theorem or_op : Vec.opOk vints (.bin .or) 2 .bit [.bit, .bit] := ⟨rfl, by simp [vints, opV, binV, cmpV, Pipeline.cmpOp]⟩
theorem sel_op (t : IntTy) : Vec.opOk vints .sel 3 (.int t) [.bit, .int t, .int t] := ⟨rfl, by simp [vints, opV, cmpV]⟩

theorem kind_arith (Γ : VEnv) (o : Arith) {k l m : Bool × IntTy} {ea eb : VEx} {sa sb : Bool} (hka : Vec.kind vints ea = some (pty k)) (hkb : Vec.kind vints eb = some (pty l))
    (hn : Vec.noCall eb = true) (h : together k l sa sb = some m) (ha : Vec.isCon ea = sa) (hb : Vec.isCon eb = sb) (fa : sa = true → k.1 = false) :
    Vec.kind vints (.app2 (.bin o.sign) ea eb) = some (pty m) := by
  obtain ⟨h1, h2, h3, h4, h5⟩ := pair_ty h ha hb fa
  rw [Vec.kind, hka, hkb]
  simp only [Option.bind_some]
  rw [h1, if_pos ⟨rfl, hn, h2, h3, arith_op o _⟩, arith_cmp]
  simp [pty, h4]

theorem kind_rel (Γ : VEnv) (o : Rel) {k l m : Bool × IntTy} {ea eb : VEx} {sa sb : Bool} (hka : Vec.kind vints ea = some (pty k)) (hkb : Vec.kind vints eb = some (pty l))
    (hn : Vec.noCall eb = true) (h : together k l sa sb = some m) (ha : Vec.isCon ea = sa) (hb : Vec.isCon eb = sb) (fa : sa = true → k.1 = false) :
    Vec.kind vints (.app2 (.bin o.sign) ea eb) = some (false, .bit) := by
  obtain ⟨h1, h2, h3, h4, h5⟩ := pair_ty h ha hb fa
  rw [Vec.kind, hka, hkb]
  simp only [Option.bind_some]
  rw [h1, if_pos ⟨rfl, hn, h2, h3, rel_op o _⟩, rel_cmp]
  rfl

mutual
theorem kind_num (Γ : VEnv) (lk : Name → VEx) (h : KindOk Γ lk) (p : Num) (k : Bool × IntTy) (hk : elemOf Γ p = some k) : Vec.kind vints (numVE lk p) = some (pty k) := by
  match p with
  | .lit ds s =>
    rw [elemOf] at hk
    injection hk with hk
    subst hk
    rfl
  | .arg x =>
    rw [elemOf] at hk
    rw [numVE]
    rcases h.2 x k hk with ⟨h1, b, h2⟩ | ⟨h1, b, h2⟩ <;> rw [h2] <;> simp [Vec.kind, h1, pty]
  | .neg a =>
    rw [elemOf] at hk
    cases ha : elemOf Γ a with
    | none => rw [ha] at hk; simp at hk
    | some l =>
      rw [ha, Option.bind_some] at hk
      split at hk
      · next hs =>
        injection hk with hk
        subst hk
        rw [numVE, Vec.kind, kind_num Γ lk h a l ha, Option.bind_some, if_pos ⟨rfl, neg_op _ hs⟩]
        simp [vints, cmpV, pty]
      · simp at hk
  | .op o a b =>
    rw [elemOf] at hk
    cases ha : elemOf Γ a with
    | none => rw [ha] at hk; simp at hk
    | some l =>
      cases hb : elemOf Γ b with
      | none => rw [ha, hb] at hk; simp at hk
      | some m =>
        rw [ha, hb] at hk
        simp only [Option.bind_some] at hk
        rw [numVE]
        exact kind_arith Γ o (kind_num Γ lk h a l ha) (kind_num Γ lk h b m hb) (noCall_num lk h.1 b) hk (isCon_num Γ lk h a l ha) (isCon_num Γ lk h b m hb) (single_flag Γ a l ha)
  | .pick c a b =>
    rw [elemOf] at hk
    split at hk
    · next hc =>
      cases ha : elemOf Γ a with
      | none => rw [ha] at hk; simp at hk
      | some l =>
        cases hb : elemOf Γ b with
        | none => rw [ha, hb] at hk; simp at hk
        | some m =>
          rw [ha, hb] at hk
          simp only [Option.bind_some] at hk
          obtain ⟨h1, h2, h3, h4, h5⟩ := pair_ty hk (isCon_num Γ lk h a l ha) (isCon_num Γ lk h b m hb) (single_flag Γ a l ha)
          rw [numVE, Vec.kind, kind_cond Γ lk h c hc.1, kind_num Γ lk h a l ha, kind_num Γ lk h b m hb]
          simp only [Option.bind_some]
          rw [if_pos (show vints.isCond .sel = true from rfl), h1, if_pos ⟨rfl, noCall_num lk h.1 a, noCall_num lk h.1 b, h2, h3, sel_op _⟩]
          simp [pty, h4]
    · simp at hk
theorem kind_cond (Γ : VEnv) (lk : Name → VEx) (h : KindOk Γ lk) (p : Cond) (hk : condOk Γ p = true) : Vec.kind vints (condVE lk p) = some (false, .bit) := by
  match p with
  | .const _ => rfl
  | .rel o a b =>
    rw [condOk] at hk
    cases ha : elemOf Γ a with
    | none => rw [ha] at hk; simp at hk
    | some l =>
      cases hb : elemOf Γ b with
      | none => rw [ha, hb] at hk; simp at hk
      | some m =>
        rw [ha, hb] at hk
        simp only [Option.bind_some] at hk
        obtain ⟨q, hk⟩ := Option.isSome_iff_exists.1 hk
        rw [condVE]
        exact kind_rel Γ o (kind_num Γ lk h a l ha) (kind_num Γ lk h b m hb) (noCall_num lk h.1 b) hk (isCon_num Γ lk h a l ha) (isCon_num Γ lk h b m hb) (single_flag Γ a l ha)
  | .and a b =>
    rw [condOk, Bool.and_eq_true, Bool.and_eq_true] at hk
    rw [condVE, Vec.kind, kind_cond Γ lk h a hk.1.1, kind_cond Γ lk h b hk.1.2]
    simp only [Option.bind_some, Bool.false_eq_true, if_false]
    rw [if_pos ⟨rfl, noCall_cond lk h.1 b, .inl rfl, .inl rfl, and_op⟩]
    rfl
  | .or a b =>
    rw [condOk, Bool.and_eq_true, Bool.and_eq_true] at hk
    rw [condVE, Vec.kind, kind_cond Γ lk h a hk.1.1, kind_cond Γ lk h b hk.1.2]
    simp only [Option.bind_some, Bool.false_eq_true, if_false]
    rw [if_pos ⟨rfl, noCall_cond lk h.1 b, .inl rfl, .inl rfl, or_op⟩]
    rfl
  | .not a =>
    rw [condOk] at hk
    rw [condVE, Vec.kind, kind_cond Γ lk h a hk, Option.bind_some, if_pos ⟨rfl, not_op⟩]
    rfl
end

/-! ## Values that exist, and fit -/

theorem common_of {Γ : VEnv} {a b : Num} {k l m : Bool × IntTy} (ha : elemOf Γ a = some k) (hb : elemOf Γ b = some l) (h : together k l (single Γ a) (single Γ b) = some m) :
    common Γ a b = some m.2 := by simp [common, ha, hb, h]

theorem small_lit (b : Num) (h : b.SmallDivisor) : ∃ ds, b = .lit ds none ∧ 1 ≤ decimal ds ∧ decimal ds ≤ 127 := by
  match b with
  | .lit ds none => exact ⟨ds, rfl, h⟩
  | .lit _ (some _) => simp [Num.SmallDivisor] at h
  | .arg _ => simp [Num.SmallDivisor] at h
  | .neg _ => simp [Num.SmallDivisor] at h
  | .op _ _ _ => simp [Num.SmallDivisor] at h
  | .pick _ _ _ => simp [Num.SmallDivisor] at h

/-- Vectors hold 1, as in unused lanes. -/
def Ones (Γ : VEnv) (ρ : Name → Int) : Prop := ∀ x t, Γ x = some (true, t) → ρ x = 1

mutual
theorem def_num (Γ : VEnv) (ρ : Name → Int) (p : Num) (h : p.Safe ∨ (Ones Γ ρ ∧ numGuarded Γ p)) (k : Bool × IntTy) (hk : elemOf Γ p = some k) : ∃ z, numAt Γ ρ p = some z := by
  match p with
  | .lit ds none => exact ⟨_, by rw [numAt]⟩
  | .lit ds (some t) => exact ⟨_, by rw [numAt]⟩
  | .arg x => exact ⟨_, by rw [numAt]⟩
  | .neg a =>
    rw [Num.Safe, numGuarded] at h
    rw [elemOf] at hk
    rw [numAt]
    cases ha : elemOf Γ a with
    | none => rw [ha] at hk; simp at hk
    | some l =>
      obtain ⟨z, hz⟩ := def_num Γ ρ a h l ha
      rw [hz]; exact ⟨_, rfl⟩
  | .op o a b =>
    rw [Num.Safe, numGuarded] at h
    rw [elemOf] at hk
    rw [numAt]
    cases ha : elemOf Γ a with
    | none => rw [ha] at hk; simp at hk
    | some l =>
      cases hb : elemOf Γ b with
      | none => rw [ha, hb] at hk; simp at hk
      | some m =>
        rw [ha, hb] at hk
        simp only [Option.bind_some] at hk
        obtain ⟨x, hx⟩ := def_num Γ ρ a (h.imp (·.1) fun h => ⟨h.1, h.2.1⟩) l ha
        obtain ⟨y, hy⟩ := def_num Γ ρ b (h.imp (·.2.1) fun h => ⟨h.1, h.2.2.1⟩) m hb
        rw [common_of ha hb hk, hx, hy]
        simp only [Option.bind_some]
        refine Pipeline.calc_safe _ _ _ _ fun ho => ?_
        have hd : b.SmallDivisor ∨ (Ones Γ ρ ∧ ∃ x t, b = .arg x ∧ Γ x = some (true, t)) := by
          rcases h with h | h
          · exact .inl (h.2.2 ho)
          · exact (h.2.2.2 ho).imp id fun h' => ⟨h.1, h'⟩
        rcases hd with hd | ⟨ho', x, t, rfl, hd⟩
        · obtain ⟨ds, rfl, h1, h2⟩ := small_lit b hd
          rw [numAt] at hy
          injection hy with hy
          rw [← hy, Pipeline.wrap_self (Pipeline.small_fits _ _ (by omega) (by omega))]
          omega
        · rw [numAt, ho' x t hd] at hy
          injection hy with hy
          rw [← hy, Pipeline.wrap_self (Pipeline.small_fits _ _ (by omega) (by omega))]
          omega
  | .pick c a b =>
    rw [Num.Safe, numGuarded] at h
    rw [elemOf] at hk
    rw [numAt]
    split at hk
    · next hc =>
      cases ha : elemOf Γ a with
      | none => rw [ha] at hk; simp at hk
      | some l =>
        cases hb : elemOf Γ b with
        | none => rw [ha, hb] at hk; simp at hk
        | some m =>
          rw [ha, hb] at hk
          simp only [Option.bind_some] at hk
          obtain ⟨z, hz⟩ := def_cond Γ ρ c (h.imp (·.1) fun h => ⟨h.1, h.2.1⟩) hc.1
          obtain ⟨x, hx⟩ := def_num Γ ρ a (.inl (h.elim (·.2.1) (·.2.2.1))) l ha
          obtain ⟨y, hy⟩ := def_num Γ ρ b (.inl (h.elim (·.2.2) (·.2.2.2))) m hb
          rw [common_of ha hb hk, hz, hx, hy]
          cases z <;> exact ⟨_, rfl⟩
    · simp at hk
theorem def_cond (Γ : VEnv) (ρ : Name → Int) (p : Cond) (h : p.Safe ∨ (Ones Γ ρ ∧ condGuarded Γ p)) (hk : condOk Γ p = true) : ∃ z, condAt Γ ρ p = some z := by
  match p with
  | .const _ => exact ⟨_, by rw [condAt]⟩
  | .rel o a b =>
    rw [Cond.Safe, condGuarded] at h
    rw [condOk] at hk
    rw [condAt]
    cases ha : elemOf Γ a with
    | none => rw [ha] at hk; simp at hk
    | some l =>
      cases hb : elemOf Γ b with
      | none => rw [ha, hb] at hk; simp at hk
      | some m =>
        rw [ha, hb] at hk
        simp only [Option.bind_some] at hk
        obtain ⟨q, hk⟩ := Option.isSome_iff_exists.1 hk
        obtain ⟨x, hx⟩ := def_num Γ ρ a (h.imp (·.1) fun h => ⟨h.1, h.2.1⟩) l ha
        obtain ⟨y, hy⟩ := def_num Γ ρ b (h.imp (·.2) fun h => ⟨h.1, h.2.2⟩) m hb
        rw [common_of ha hb hk, hx, hy]
        exact ⟨_, rfl⟩
  | .and a b =>
    rw [Cond.Safe, condGuarded] at h
    rw [condOk, Bool.and_eq_true, Bool.and_eq_true] at hk
    obtain ⟨x, hx⟩ := def_cond Γ ρ a (h.imp (·.1) fun h => ⟨h.1, h.2.1⟩) hk.1.1
    obtain ⟨y, hy⟩ := def_cond Γ ρ b (.inl (h.elim (·.2) (·.2.2))) hk.1.2
    rw [condAt, hx, hy]
    cases x <;> exact ⟨_, rfl⟩
  | .or a b =>
    rw [Cond.Safe, condGuarded] at h
    rw [condOk, Bool.and_eq_true, Bool.and_eq_true] at hk
    obtain ⟨x, hx⟩ := def_cond Γ ρ a (h.imp (·.1) fun h => ⟨h.1, h.2.1⟩) hk.1.1
    obtain ⟨y, hy⟩ := def_cond Γ ρ b (.inl (h.elim (·.2) (·.2.2))) hk.1.2
    rw [condAt, hx, hy]
    cases x <;> exact ⟨_, rfl⟩
  | .not a =>
    rw [Cond.Safe, condGuarded] at h
    rw [condOk] at hk
    obtain ⟨x, hx⟩ := def_cond Γ ρ a h hk
    rw [condAt, hx]
    exact ⟨_, rfl⟩
end

def ArgsFit (Γ : VEnv) (ρ : Name → Int) : Prop := ∀ x k, Γ x = some k → IntOps.Fits k.2 (ρ x)

theorem fits_num (Γ : VEnv) (ρ : Name → Int) (hf : ArgsFit Γ ρ) (p : Num) (hl : p.Lits) (k : Bool × IntTy) (hk : elemOf Γ p = some k) (z : Int) (hz : numAt Γ ρ p = some z) : IntOps.Fits k.2 z := by
  match p with
  | .lit ds none =>
    rw [Num.Lits] at hl
    rw [elemOf] at hk
    rw [numAt] at hz
    injection hk with hk
    injection hz with hz
    subst hk hz
    simp only [literalType]
    split
    · next h => exact Pipeline.fits_i32 h
    · exact Pipeline.fits_i64 hl.2.2
  | .lit ds (some u) =>
    rw [elemOf] at hk
    rw [numAt] at hz
    injection hk with hk
    injection hz with hz
    subst hk hz
    exact Pipeline.wrap_fits _ _
  | .arg x =>
    rw [elemOf] at hk
    rw [numAt] at hz
    injection hz with hz
    subst hz
    exact hf x k hk
  | .neg a =>
    rw [elemOf] at hk
    rw [numAt] at hz
    cases ha : elemOf Γ a with
    | none => rw [ha] at hk; simp at hk
    | some s =>
      rw [ha] at hk hz
      simp only [Option.bind_some] at hk hz
      split at hk
      · injection hk with hk
        subst hk
        cases hv : numAt Γ ρ a with
        | none => rw [hv] at hz; simp at hz
        | some v => rw [hv] at hz; simp only [Option.map_some, Option.some.injEq] at hz; rw [← hz]; exact Pipeline.wrap_fits _ _
      · simp at hk
  | .op o a b =>
    rw [elemOf] at hk
    rw [numAt] at hz
    cases ha : elemOf Γ a with
    | none => rw [ha] at hk; simp at hk
    | some l =>
      cases hb : elemOf Γ b with
      | none => rw [ha, hb] at hk; simp at hk
      | some m =>
        rw [ha, hb] at hk
        simp only [Option.bind_some] at hk
        rw [common_of ha hb hk, Option.bind_some] at hz
        cases hv : numAt Γ ρ a with
        | none => rw [hv] at hz; simp at hz
        | some v =>
          cases hw : numAt Γ ρ b with
          | none => rw [hv, hw] at hz; simp at hz
          | some w => rw [hv, hw] at hz; exact Pipeline.calc_fits o _ _ _ z (Pipeline.wrap_fits _ _) (Pipeline.wrap_fits _ _) hz
  | .pick c a b =>
    rw [elemOf] at hk
    rw [numAt] at hz
    split at hk
    · cases ha : elemOf Γ a with
      | none => rw [ha] at hk; simp at hk
      | some l =>
        cases hb : elemOf Γ b with
        | none => rw [ha, hb] at hk; simp at hk
        | some m =>
          rw [ha, hb] at hk
          simp only [Option.bind_some] at hk
          rw [common_of ha hb hk, Option.bind_some] at hz
          cases hv : condAt Γ ρ c with
          | none => rw [hv] at hz; simp at hz
          | some v =>
            rw [hv] at hz
            simp only [Option.bind_some] at hz
            split at hz
            · cases hx : numAt Γ ρ a with
              | none => rw [hx] at hz; simp at hz
              | some x => rw [hx] at hz; simp only [Option.map_some, Option.some.injEq] at hz; rw [← hz]; exact Pipeline.wrap_fits _ _
            · cases hx : numAt Γ ρ b with
              | none => rw [hx] at hz; simp at hz
              | some x => rw [hx] at hz; simp only [Option.map_some, Option.some.injEq] at hz; rw [← hz]; exact Pipeline.wrap_fits _ _
    · simp at hk

/-! ## Values of the code -/

theorem conv_int (a b : IntTy) (x : Int) (hx : IntOps.Fits a x) : Vec.conv vints (.int a) (.int b) x = some (wrap b x) := by
  unfold Vec.conv
  split
  · next h => injection h with h; subst h; rw [Pipeline.wrap_self hx]
  · show some (IntOps.val b (IntOps.cast a b (Pipeline.pat a x))) = _
    rw [Pipeline.cast_wrap a b x hx]

theorem run_arith (o : Arith) (t : IntTy) (x y : Int) (hx : IntOps.Fits t x) (hy : IntOps.Fits t y) :
    ((vints.op (.bin o.sign) (.int t) [.int t, .int t]).bind fun r => r.2 [x, y]) = o.calc t x y := by
  obtain ⟨p, h1, h2⟩ := Pipeline.arith_calc o t x y hx hy
  simp only [vints, opV, binV, Pipeline.binInt, h1, and_self, if_true, Option.map_some, Option.bind_some, h2]

theorem run_rel (o : Rel) (t : IntTy) (x y : Int) (hx : IntOps.Fits t x) (hy : IntOps.Fits t y) :
    ((vints.op (.bin o.sign) (.int t) [.int t, .int t]).bind fun r => r.2 [x, y]) = some (Pipeline.bit (o.holds x y)) := by
  obtain ⟨p, h1, h2, h3⟩ := Pipeline.compare_holds o t x y hx hy
  simp only [vints, opV, binV, Pipeline.binInt, h1, h2, and_self, if_true, Option.map_some, Option.bind_some, h3]

theorem run_neg (t : IntTy) (hs : t.signed = true) (x : Int) (hx : IntOps.Fits t x) : ((vints.op (.un .neg) (.int t) [.int t]).bind fun r => r.2 [x]) = some (wrap t (-x)) := by
  have h := Pipeline.negTV t hs x hx
  unfold Scalar.unTV at h
  change ((Pipeline.unT .neg (.int t)).bind _) = _ at h
  simp only [Pipeline.unT, hs, and_self, if_true, Option.bind_some, Option.map_some, Option.some.injEq, Prod.mk.injEq, true_and] at h
  simp only [vints, opV, Pipeline.unT, hs, and_self, if_true, Option.map_some, Option.bind_some, h]

theorem run_not (a : Bool) : ((vints.op (.un .not) .bit [.bit]).bind fun r => r.2 [Pipeline.bit a]) = some (Pipeline.bit !a) := by cases a <;> rfl
theorem run_and (a b : Bool) : ((vints.op (.bin .and) .bit [.bit, .bit]).bind fun r => r.2 [Pipeline.bit a, Pipeline.bit b]) = some (Pipeline.bit (a && b)) := by cases a <;> cases b <;> rfl
theorem run_or (a b : Bool) : ((vints.op (.bin .or) .bit [.bit, .bit]).bind fun r => r.2 [Pipeline.bit a, Pipeline.bit b]) = some (Pipeline.bit (a || b)) := by cases a <;> cases b <;> rfl
theorem run_sel (z : Bool) (t : IntTy) (x y : Int) : ((vints.op .sel (.int t) [.bit, .int t, .int t]).bind fun r => r.2 [Pipeline.bit z, x, y]) = some (if z = true then x else y) := by
  cases z <;> simp [vints, opV, Pipeline.bit]

theorem conv_bit (x : Int) : Vec.conv vints .bit .bit x = some x := rfl

/-- The leaves hold what the specification is given. -/
def LeafOk (Γ : VEnv) (ρ : Name → Int) (lk : Name → VEx) (leaf : PTy → Nat → Option Int) : Prop := ∀ x k, Γ x = some k → Vec.valE vints leaf (lk x) = some (ρ x)

mutual
theorem val_num (Γ : VEnv) (ρ : Name → Int) (hf : ArgsFit Γ ρ) (lk : Name → VEx) (h : KindOk Γ lk) (leaf : PTy → Nat → Option Int) (hv : LeafOk Γ ρ lk leaf) (p : Num) (hl : p.Lits)
    (hg : p.Safe ∨ numGuarded Γ p) (k : Bool × IntTy) (hk : elemOf Γ p = some k) : Vec.valE vints leaf (numVE lk p) = numAt Γ ρ p := by
  match p with
  | .lit ds none => rfl
  | .lit ds (some t) => rfl
  | .arg x =>
    rw [elemOf] at hk
    rw [numVE, numAt, hv x k hk]
  | .neg a =>
    rw [Num.Safe, numGuarded] at hg
    rw [Num.Lits] at hl
    rw [elemOf] at hk
    cases ha : elemOf Γ a with
    | none => rw [ha] at hk; simp at hk
    | some l =>
      rw [ha, Option.bind_some] at hk
      split at hk
      · next hs =>
        rw [numVE, Vec.valE, kind_num Γ lk h a l ha, val_num Γ ρ hf lk h leaf hv a hl hg l ha, numAt, ha]
        simp only [Option.bind_some]
        cases hz : numAt Γ ρ a with
        | none => rfl
        | some z =>
          simp only [Option.bind_some, Option.map_some]
          exact run_neg l.2 hs z (fits_num Γ ρ hf a hl l ha z hz)
      · simp at hk
  | .op o a b =>
    rw [Num.Safe, numGuarded] at hg
    rw [Num.Lits] at hl
    rw [elemOf] at hk
    cases ha : elemOf Γ a with
    | none => rw [ha] at hk; simp at hk
    | some l =>
      cases hb : elemOf Γ b with
      | none => rw [ha, hb] at hk; simp at hk
      | some m =>
        rw [ha, hb] at hk
        simp only [Option.bind_some] at hk
        obtain ⟨_, _, _, _, h5⟩ := pair_ty hk (isCon_num Γ lk h a l ha) (isCon_num Γ lk h b m hb) (single_flag Γ a l ha)
        rw [numVE, Vec.valE, kind_num Γ lk h a l ha, kind_num Γ lk h b m hb, val_num Γ ρ hf lk h leaf hv a hl.1 (hg.imp (·.1) (·.1)) l ha,
          val_num Γ ρ hf lk h leaf hv b hl.2 (hg.imp (·.2.1) (·.2.1)) m hb, numAt, common_of ha hb hk]
        simp only [Option.bind_some]
        rw [h5]
        simp only [Option.bind_some]
        cases hx : numAt Γ ρ a with
        | none => rfl
        | some x =>
          cases hy : numAt Γ ρ b with
          | none => rfl
          | some y =>
            simp only [Option.bind_some]
            rw [show (pty l).2 = .int l.2 from rfl, show (pty m).2 = .int m.2 from rfl, conv_int _ _ _ (fits_num Γ ρ hf a hl.1 l ha x hx), conv_int _ _ _ (fits_num Γ ρ hf b hl.2 m hb y hy)]
            simp only [Option.bind_some]
            exact run_arith o _ _ _ (Pipeline.wrap_fits _ _) (Pipeline.wrap_fits _ _)
  | .pick c a b =>
    rw [Num.Safe, numGuarded] at hg
    rw [Num.Lits] at hl
    rw [elemOf] at hk
    split at hk
    · next hc =>
      cases ha : elemOf Γ a with
      | none => rw [ha] at hk; simp at hk
      | some l =>
        cases hb : elemOf Γ b with
        | none => rw [ha, hb] at hk; simp at hk
        | some m =>
          rw [ha, hb] at hk
          simp only [Option.bind_some] at hk
          have sa : a.Safe := hg.elim (·.2.1) (·.2.1)
          have sb : b.Safe := hg.elim (·.2.2) (·.2.2)
          obtain ⟨x, hx⟩ := def_num Γ ρ a (.inl sa) l ha
          obtain ⟨y, hy⟩ := def_num Γ ρ b (.inl sb) m hb
          obtain ⟨_, _, _, _, h5⟩ := pair_ty hk (isCon_num Γ lk h a l ha) (isCon_num Γ lk h b m hb) (single_flag Γ a l ha)
          rw [numVE, Vec.valE, kind_cond Γ lk h c hc.1, kind_num Γ lk h a l ha, kind_num Γ lk h b m hb, val_cond Γ ρ hf lk h leaf hv c hl.1 (hg.imp (·.1) (·.1)) hc.1,
            val_num Γ ρ hf lk h leaf hv a hl.2.1 (.inl sa) l ha, val_num Γ ρ hf lk h leaf hv b hl.2.2 (.inl sb) m hb, numAt, common_of ha hb hk, hx, hy]
          simp only [Option.bind_some]
          rw [h5]
          simp only [Option.bind_some]
          cases hz : condAt Γ ρ c with
          | none => rfl
          | some z =>
            simp only [Option.bind_some, Option.map_some]
            rw [if_pos (show vints.isCond .sel = true from rfl), show (pty l).2 = .int l.2 from rfl, show (pty m).2 = .int m.2 from rfl, conv_int _ _ _ (fits_num Γ ρ hf a hl.2.1 l ha x hx),
              conv_int _ _ _ (fits_num Γ ρ hf b hl.2.2 m hb y hy)]
            simp only [Option.bind_some]
            rw [run_sel]
            cases z <;> rfl
    · simp at hk
theorem val_cond (Γ : VEnv) (ρ : Name → Int) (hf : ArgsFit Γ ρ) (lk : Name → VEx) (h : KindOk Γ lk) (leaf : PTy → Nat → Option Int) (hv : LeafOk Γ ρ lk leaf) (p : Cond) (hl : p.Lits)
    (hg : p.Safe ∨ condGuarded Γ p) (hk : condOk Γ p = true) : Vec.valE vints leaf (condVE lk p) = (condAt Γ ρ p).map Pipeline.bit := by
  match p with
  | .const _ => rfl
  | .rel o a b =>
    rw [Cond.Safe, condGuarded] at hg
    rw [Cond.Lits] at hl
    rw [condOk] at hk
    cases ha : elemOf Γ a with
    | none => rw [ha] at hk; simp at hk
    | some l =>
      cases hb : elemOf Γ b with
      | none => rw [ha, hb] at hk; simp at hk
      | some m =>
        rw [ha, hb] at hk
        simp only [Option.bind_some] at hk
        obtain ⟨q, hk⟩ := Option.isSome_iff_exists.1 hk
        obtain ⟨_, _, _, _, h5⟩ := pair_ty hk (isCon_num Γ lk h a l ha) (isCon_num Γ lk h b m hb) (single_flag Γ a l ha)
        rw [condVE, Vec.valE, kind_num Γ lk h a l ha, kind_num Γ lk h b m hb, val_num Γ ρ hf lk h leaf hv a hl.1 (hg.imp (·.1) (·.1)) l ha,
          val_num Γ ρ hf lk h leaf hv b hl.2 (hg.imp (·.2) (·.2)) m hb, condAt, common_of ha hb hk]
        simp only [Option.bind_some]
        rw [h5]
        simp only [Option.bind_some]
        cases hx : numAt Γ ρ a with
        | none => rfl
        | some x =>
          cases hy : numAt Γ ρ b with
          | none => rfl
          | some y =>
            simp only [Option.bind_some, Option.map_some]
            rw [show (pty l).2 = .int l.2 from rfl, show (pty m).2 = .int m.2 from rfl, conv_int _ _ _ (fits_num Γ ρ hf a hl.1 l ha x hx), conv_int _ _ _ (fits_num Γ ρ hf b hl.2 m hb y hy)]
            simp only [Option.bind_some]
            exact run_rel o _ _ _ (Pipeline.wrap_fits _ _) (Pipeline.wrap_fits _ _)
  | .and a b =>
    rw [Cond.Safe, condGuarded] at hg
    rw [Cond.Lits] at hl
    rw [condOk, Bool.and_eq_true, Bool.and_eq_true] at hk
    have sb : b.Safe := hg.elim (·.2) (·.2)
    obtain ⟨y, hy⟩ := def_cond Γ ρ b (.inl sb) hk.1.2
    rw [condVE, Vec.valE, kind_cond Γ lk h a hk.1.1, kind_cond Γ lk h b hk.1.2, val_cond Γ ρ hf lk h leaf hv a hl.1 (hg.imp (·.1) (·.1)) hk.1.1,
      val_cond Γ ρ hf lk h leaf hv b hl.2 (.inl sb) hk.1.2, condAt, hy]
    cases hx : condAt Γ ρ a with
    | none => rfl
    | some x =>
      simp only [Option.bind_some, Option.map_some, Vec.meet, List.find?, List.head?, conv_bit, run_and]
      cases x <;> cases y <;> rfl
  | .or a b =>
    rw [Cond.Safe, condGuarded] at hg
    rw [Cond.Lits] at hl
    rw [condOk, Bool.and_eq_true, Bool.and_eq_true] at hk
    have sb : b.Safe := hg.elim (·.2) (·.2)
    obtain ⟨y, hy⟩ := def_cond Γ ρ b (.inl sb) hk.1.2
    rw [condVE, Vec.valE, kind_cond Γ lk h a hk.1.1, kind_cond Γ lk h b hk.1.2, val_cond Γ ρ hf lk h leaf hv a hl.1 (hg.imp (·.1) (·.1)) hk.1.1,
      val_cond Γ ρ hf lk h leaf hv b hl.2 (.inl sb) hk.1.2, condAt, hy]
    cases hx : condAt Γ ρ a with
    | none => rfl
    | some x =>
      simp only [Option.bind_some, Option.map_some, Vec.meet, List.find?, List.head?, conv_bit, run_or]
      cases x <;> cases y <;> rfl
  | .not a =>
    rw [Cond.Safe, condGuarded] at hg
    rw [Cond.Lits] at hl
    rw [condOk] at hk
    rw [condVE, Vec.valE, kind_cond Γ lk h a hk, val_cond Γ ρ hf lk h leaf hv a hl hg hk, condAt]
    cases hx : condAt Γ ρ a with
    | none => rfl
    | some x => simp only [Option.bind_some, Option.map_some, run_not]
end

end Verif.Comp.VecPipe
