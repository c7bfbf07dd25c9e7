import Verif.Comp.VecPipeProps
/-!
# Vector expressions whose operands do not go together are refused (C185)

About `runVec` of `Verif.Comp.VecPipe`: the types computed by validation, `/repo/rapidudf/ast/expression.cc` 286–657, for texts of expressions over numbers and vectors of integers.
-/
namespace Verif.Comp.VecMistake
open Verif.Ast Verif.Ast.Rpn Verif.Gen Verif.Comp.VecPipe
open Verif.Types.Conv (IntTy)
open Verif.Gen.Scalar (Name)
open Verif.Comp.Pipeline (PTy)

/-! ## Specification -/

/-- `+ - * / %`. -/
def Arithmetic (o : BinOp) : Prop := o = .add ∨ o = .sub ∨ o = .mul ∨ o = .div ∨ o = .mod

/-- `== != < <= > >=`. -/
def Comparison (o : BinOp) : Prop := o = .eq ∨ o = .ne ∨ o = .lt ∨ o = .le ∨ o = .gt ∨ o = .ge

/-- `&& ||`. -/
def Logic (o : BinOp) : Prop := o = .and ∨ o = .or

/-- Expressions that read as a condition. -/
inductive IsCond : Expr → Prop
  | lit (b : Bool) : IsCond (.un none (.bool b))
  | rel (l r : Expr) (o : BinOp) : Comparison o → IsCond (.bin l o r)
  | logic (l r : Expr) (o : BinOp) : Logic o → IsCond (.bin l o r)
  | not (o : Operand) : IsCond (.un (some .not) o)
  | paren (e : Expr) : IsCond e → IsCond (.un none (.paren e))
  | sel (c t f : Expr) : IsCond t → IsCond f → IsCond (.sel c t f)

/-- Expressions that read as a number or as a vector of numbers; all parameters are such. -/
inductive IsNumber : Expr → Prop
  | lit (t : List Char) : IsNumber (.un none (.num t))
  | arg (x : Name) : IsNumber (.un none (.var x))
  | neg (o : Operand) : IsNumber (.un (some .neg) o)
  | arith (l r : Expr) (o : BinOp) : Arithmetic o → IsNumber (.bin l o r)
  | paren (e : Expr) : IsNumber e → IsNumber (.un none (.paren e))
  | sel (c t f : Expr) : IsNumber t → IsNumber f → IsNumber (.sel c t f)

/-- Expressions that read as a vector of numbers of type `a`. -/
inductive VecOf (Γ : VEnv) (a : IntTy) : Expr → Prop
  | arg (x : Name) : Γ x = some (true, a) → VecOf Γ a (.un none (.var x))
  | neg (x : Name) : Γ x = some (true, a) → VecOf Γ a (.un (some .neg) (.var x))
  | left (l r : Expr) (o : BinOp) : Arithmetic o → VecOf Γ a l → VecOf Γ a (.bin l o r)
  | right (l r : Expr) (o : BinOp) : Arithmetic o → VecOf Γ a r → VecOf Γ a (.bin l o r)
  | paren (op : Option UnOp) (e : Expr) : op ≠ some .not → VecOf Γ a e → VecOf Γ a (.un op (.paren e))

/-- Somewhere in the expression operands do not go together with their operator or with each other. -/
inductive Mistake (Γ : VEnv) : Expr → Prop
  -- a condition where a number belongs
  | condLeft (l r : Expr) (o : BinOp) : Arithmetic o ∨ Comparison o → IsCond l → Mistake Γ (.bin l o r)
  | condRight (l r : Expr) (o : BinOp) : Arithmetic o ∨ Comparison o → IsCond r → Mistake Γ (.bin l o r)
  | negCond (e : Expr) : IsCond e → Mistake Γ (.un (some .neg) (.paren e))
  | negBool (b : Bool) : Mistake Γ (.un (some .neg) (.bool b))
  -- a number where a condition belongs
  | numLeft (l r : Expr) (o : BinOp) : Logic o → IsNumber l → Mistake Γ (.bin l o r)
  | numRight (l r : Expr) (o : BinOp) : Logic o → IsNumber r → Mistake Γ (.bin l o r)
  | notNum (t : List Char) : Mistake Γ (.un (some .not) (.num t))
  | notArg (x : Name) : Mistake Γ (.un (some .not) (.var x))
  | notNumber (e : Expr) : IsNumber e → Mistake Γ (.un (some .not) (.paren e))
  | pickNumber (c t f : Expr) : IsNumber c → Mistake Γ (.sel c t f)
  -- a choice between a number and a condition
  | pickMixed (c t f : Expr) : IsCond t → IsNumber f → Mistake Γ (.sel c t f)
  | pickMixed' (c t f : Expr) : IsNumber t → IsCond f → Mistake Γ (.sel c t f)
  -- vectors of different types
  | vectors (l r : Expr) (o : BinOp) (a b : IntTy) : a ≠ b → VecOf Γ a l → VecOf Γ b r → Mistake Γ (.bin l o r)
  | pickVectors (c t f : Expr) (a b : IntTy) : a ≠ b → VecOf Γ a t → VecOf Γ b f → Mistake Γ (.sel c t f)
  -- a name that is not a parameter
  | unknown (op : Option UnOp) (x : Name) : Γ x = none → Mistake Γ (.un op (.var x))
  -- a mistake inside
  | paren (op : Option UnOp) (e : Expr) : Mistake Γ e → Mistake Γ (.un op (.paren e))
  | left (l r : Expr) (o : BinOp) : Mistake Γ l → Mistake Γ (.bin l o r)
  | right (l r : Expr) (o : BinOp) : Mistake Γ r → Mistake Γ (.bin l o r)
  | pick (c t f : Expr) : Mistake Γ c → Mistake Γ (.sel c t f)
  | pickLeft (c t f : Expr) : Mistake Γ t → Mistake Γ (.sel c t f)
  | pickRight (c t f : Expr) : Mistake Γ f → Mistake Γ (.sel c t f)

/-! ## Types of such expressions -/

theorem larger_num (a b : PTy) (h : isNum a = true) : isNum (larger a b) = true := by
  cases a <;> cases b <;> simp_all [larger, isNum]

theorem num_bit (t : PTy) (h : isNum t = true) : t ≠ .bit := by
  rintro rfl
  cases h

theorem arith_ty (o : BinOp) (ho : Arithmetic o) (l r t : VTy) (h : binTy o l r = some t) :
    canBin l r = true ∧ isNum l.2 = true ∧ isNum r.2 = true ∧ t = if r.1 = true then r else leftTy l r := by
  rcases ho with rfl | rfl | rfl | rfl | rfl <;> simp only [binTy] at h <;> split at h <;> first | (cases h; done) | skip
  all_goals
    split at h
    · rename_i h1 h2
      exact ⟨by simpa using h1, h2.1, h2.2, (Option.some.inj h).symm⟩
    · cases h

theorem cmp_ty (o : BinOp) (ho : Comparison o) (l r t : VTy) (h : binTy o l r = some t) :
    isNum l.2 = true ∧ isNum r.2 = true ∧ t = (l.1 || r.1, .bit) := by
  rcases ho with rfl | rfl | rfl | rfl | rfl | rfl <;> simp only [binTy] at h <;> split at h <;> first | (cases h; done) | skip
  all_goals
    split at h
    · rename_i h1 h2
      exact ⟨h2.1, h2.2, (Option.some.inj h).symm⟩
    · cases h

theorem logic_ty (o : BinOp) (ho : Logic o) (l r t : VTy) (h : binTy o l r = some t) : l.2 = .bit ∧ r.2 = .bit ∧ t.2 = .bit := by
  have key : canBin l r = true → l.2 = .bit ∨ r.2 = .bit → l.2 = .bit ∧ r.2 = .bit := by
    intro hc hb
    simp only [canBin, Bool.or_eq_true, decide_eq_true_eq, Bool.and_eq_true] at hc
    rcases hc with rfl | ⟨⟨h1, h2⟩, _⟩
    · exact ⟨hb.elim id id, hb.elim id id⟩
    · exact (hb.elim (num_bit _ h1) (num_bit _ h2)).elim
  rcases ho with rfl | rfl <;> simp only [binTy] at h <;> split at h <;> first | (cases h; done) | skip
  all_goals
    rename_i h1
    have hc : canBin l r = true := by simpa using h1
    split at h
    · rename_i h2
      have := key hc (h2.imp (fun e => by rw [e]) (fun e => by rw [e]))
      cases h
      exact ⟨this.1, this.2, rfl⟩
    · split at h
      · rename_i h2
        cases h
        exact ⟨by rw [h2.1], by rw [h2.2], rfl⟩
      · cases h

theorem bin_can (o : BinOp) (l r t : VTy) (h : binTy o l r = some t) : canBin l r = true := by
  unfold binTy at h
  split at h
  · cases h
  · rename_i h1
    simpa using h1

theorem cast_bit (s t : VTy) (h : canCast s t = true) : (s.2 = .bit ↔ t.2 = .bit) := by
  simp only [canCast, Bool.or_eq_true, decide_eq_true_eq, Bool.and_eq_true] at h
  rcases h with rfl | ⟨⟨_, h1⟩, h2⟩
  · rfl
  · exact ⟨fun e => absurd e (num_bit _ h1), fun e => absurd e (num_bit _ h2)⟩

/-- The condition of a choice is a condition, the alternatives are both conditions or both not, and so is the result. -/
theorem sel_ty (c t f u : VTy) (h : selTy c t f = some u) : c.2 = .bit ∧ (t.2 = .bit ↔ f.2 = .bit) ∧ (u.2 = .bit ↔ t.2 = .bit) := by
  unfold selTy at h
  split at h
  · rename_i hc
    refine ⟨by rw [hc], ?_⟩
    split at h
    · rename_i h1
      cases h
      exact ⟨cast_bit _ _ h1, (cast_bit _ _ h1).symm⟩
    · split at h
      · rename_i h1
        cases h
        exact ⟨(cast_bit _ _ h1).symm, Iff.rfl⟩
      · cases h
  · split at h
    · rename_i hc
      refine ⟨by rw [hc], ?_⟩
      split at h
      · split at h
        · rename_i h1
          cases h
          exact ⟨by rw [h1], Iff.rfl⟩
        · cases h
      · split at h
        · rename_i h1
          cases h
          exact ⟨(cast_bit _ _ h1).symm, Iff.rfl⟩
        · cases h
      · split at h
        · rename_i h1
          cases h
          exact ⟨cast_bit t (false, f.2) h1, (cast_bit t (false, f.2) h1).symm⟩
        · cases h
      · split at h
        · rename_i h1
          cases h
          exact ⟨⟨fun e => absurd e (num_bit _ h1.1), fun e => absurd e (num_bit _ h1.2)⟩,
            ⟨fun e => absurd e (num_bit _ (larger_num _ _ h1.1)), fun e => absurd e (num_bit _ h1.1)⟩⟩
        · cases h
    · cases h

theorem sel_vectors (c t f u : VTy) (h : selTy c t f = some u) (ht : t.1 = true) (hf : f.1 = true) : t = f := by
  have cast : ∀ s t : VTy, s.1 = true → canCast s t = true → s = t := by
    intro s t hs h
    simpa [canCast, hs] using h
  unfold selTy at h
  split at h
  · split at h
    · rename_i h1
      exact cast t f ht h1
    · split at h
      · rename_i h1
        exact (cast f t hf h1).symm
      · cases h
  · split at h
    · rw [ht, hf] at h
      dsimp only at h
      split at h
      · assumption
      · cases h
    · cases h

theorem un_neg (t u : VTy) (h : unTy .neg t = some u) : t.2 ≠ .bit ∧ u = t := by
  obtain ⟨v, t⟩ := t
  cases t with
  | bit => cases h
  | other => cases h
  | int i =>
    simp only [unTy] at h
    split at h
    · exact ⟨by simp, (Option.some.inj h).symm⟩
    · cases h

theorem un_not (t u : VTy) (h : unTy .not t = some u) : t.2 = .bit ∧ u = t := by
  obtain ⟨v, t⟩ := t
  cases t with
  | bit => exact ⟨rfl, (Option.some.inj h).symm⟩
  | other => cases h
  | int i => cases h

theorem const_ty (t : List Char) (c : PTy × Int) (h : Pipeline.constant t = some c) : c.1 ≠ .bit := by
  have key : ∀ l, Pipeline.constOf l = some c → c.1 ≠ .bit := by
    intro l h
    unfold Pipeline.constOf at h
    split at h
    · rw [Option.map_eq_some_iff] at h
      obtain ⟨t, _, rfl⟩ := h
      simp
    · cases h
  unfold Pipeline.constant at h
  split at h
  · split at h
    · exact key _ h
    · cases h
  · rw [Option.bind_eq_some_iff] at h
    obtain ⟨u, _, h⟩ := h
    split at h
    · exact key _ h
    · cases h

theorem arg_ty (ps : Params) (x : Name) (t : VTy) (h : tyOf ps x = some t) : t.2 ≠ .bit := by
  simp only [tyOf, Option.map_eq_some_iff] at h
  obtain ⟨k, _, rfl⟩ := h
  simp

theorem bin_check (env : Name → Option VTy) (l r : Expr) (o : BinOp) (t : VTy) (h : checkE env (.bin l o r) = some t) :
    ∃ a b, checkE env l = some a ∧ checkE env r = some b ∧ binTy o a b = some t := by
  simp only [checkE, Option.bind_eq_some_iff] at h
  obtain ⟨a, ha, b, hb, h⟩ := h
  exact ⟨a, b, ha, hb, h⟩

theorem sel_check (env : Name → Option VTy) (c t f : Expr) (u : VTy) (h : checkE env (.sel c t f) = some u) :
    ∃ a b d, checkE env c = some a ∧ checkE env t = some b ∧ checkE env f = some d ∧ selTy a b d = some u := by
  simp only [checkE, Option.bind_eq_some_iff] at h
  obtain ⟨a, ha, b, hb, d, hd, h⟩ := h
  exact ⟨a, b, d, ha, hb, hd, h⟩

theorem un_check (env : Name → Option VTy) (op : UnOp) (o : Operand) (u : VTy) (h : checkE env (.un (some op) o) = some u) :
    ∃ a, checkO env o = some a ∧ unTy op a = some u := by
  simpa only [checkE, Option.bind_eq_some_iff] using h

theorem cond_ty (env : Name → Option VTy) (e : Expr) (he : IsCond e) : ∀ t, checkE env e = some t → t.2 = .bit := by
  induction he with
  | lit b => intro t h; simp only [checkE, checkO] at h; cases h; rfl
  | rel l r o ho =>
    intro t h
    obtain ⟨a, b, _, _, h⟩ := bin_check env _ _ _ _ h
    rw [(cmp_ty o ho _ _ _ h).2.2]
  | logic l r o ho =>
    intro t h
    obtain ⟨a, b, _, _, h⟩ := bin_check env _ _ _ _ h
    exact (logic_ty o ho _ _ _ h).2.2
  | not o =>
    intro t h
    obtain ⟨a, _, h⟩ := un_check env _ _ _ h
    obtain ⟨h1, rfl⟩ := un_not _ _ h
    exact h1
  | paren e _ ih => intro t h; exact ih t (by simpa only [checkE, checkO] using h)
  | sel c t f _ _ iht _ =>
    intro u h
    obtain ⟨a, b, d, _, hb, _, h⟩ := sel_check env _ _ _ _ h
    exact (sel_ty _ _ _ _ h).2.2.2 (iht b hb)

theorem number_ty (ps : Params) (e : Expr) (he : IsNumber e) : ∀ t, checkE (tyOf ps) e = some t → t.2 ≠ .bit := by
  induction he with
  | lit n =>
    intro t h
    simp only [checkE, checkO, Option.map_eq_some_iff] at h
    obtain ⟨c, hc, rfl⟩ := h
    exact const_ty n c hc
  | arg x => intro t h; exact arg_ty ps x t (by simpa only [checkE, checkO] using h)
  | neg o =>
    intro t h
    obtain ⟨a, _, h⟩ := un_check _ _ _ _ h
    obtain ⟨h1, rfl⟩ := un_neg _ _ h
    exact h1
  | arith l r o ho =>
    intro t h
    obtain ⟨a, b, _, _, h⟩ := bin_check _ _ _ _ _ h
    obtain ⟨_, h1, h2, rfl⟩ := arith_ty o ho _ _ _ h
    split
    · exact num_bit _ h2
    · unfold leftTy
      split
      · exact num_bit _ (larger_num _ _ h1)
      · exact num_bit _ h1
  | paren e _ ih => intro t h; exact ih t (by simpa only [checkE, checkO] using h)
  | sel c t f _ _ iht _ =>
    intro u h
    obtain ⟨a, b, d, _, hb, _, h⟩ := sel_check _ _ _ _ _ h
    exact fun e => iht b hb ((sel_ty _ _ _ _ h).2.2.1 e)

theorem vec_ty (ps : Params) (a : IntTy) (e : Expr) (he : VecOf (envOf ps.reverse) a e) : ∀ t, checkE (tyOf ps) e = some t → t = (true, .int a) := by
  induction he with
  | arg x hx => intro t h; simp only [checkE, checkO, tyOf, hx, Option.map_some] at h; exact (Option.some.inj h).symm
  | neg x hx =>
    intro t h
    obtain ⟨b, hb, h⟩ := un_check _ _ _ _ h
    simp only [checkO, tyOf, hx, Option.map_some] at hb
    rw [(un_neg _ _ h).2]
    exact (Option.some.inj hb).symm
  | left l r o ho _ ih =>
    intro t h
    obtain ⟨b, d, hb, _, h⟩ := bin_check _ _ _ _ _ h
    obtain ⟨hc, _, _, rfl⟩ := arith_ty o ho _ _ _ h
    have := ih b hb
    subst this
    split
    · rename_i h1
      simp only [canBin, h1, Bool.and_self, Bool.not_true, Bool.and_false, Bool.or_false, decide_eq_true_eq] at hc
      exact hc.symm
    · simp [leftTy]
  | right l r o ho _ ih =>
    intro t h
    obtain ⟨b, d, _, hd, h⟩ := bin_check _ _ _ _ _ h
    obtain ⟨_, _, _, rfl⟩ := arith_ty o ho _ _ _ h
    have := ih d hd
    subst this
    rfl
  | paren op e hop _ ih =>
    intro t h
    cases op with
    | none => exact ih t (by simpa only [checkE, checkO] using h)
    | some op =>
      cases op with
      | not => exact absurd rfl hop
      | neg =>
        obtain ⟨b, hb, h⟩ := un_check _ _ _ _ h
        rw [(un_neg _ _ h).2]
        exact ih b (by simpa only [checkO] using hb)

theorem mistake_check (ps : Params) (e : Expr) (he : Mistake (envOf ps.reverse) e) : ∀ t, checkE (tyOf ps) e ≠ some t := by
  induction he with
  | condLeft l r o ho hl =>
    intro t h
    obtain ⟨a, b, ha, _, h⟩ := bin_check _ _ _ _ _ h
    have hn : isNum a.2 = true := ho.elim (fun ho => (arith_ty o ho _ _ _ h).2.1) (fun ho => (cmp_ty o ho _ _ _ h).1)
    exact num_bit _ hn (cond_ty _ l hl a ha)
  | condRight l r o ho hr =>
    intro t h
    obtain ⟨a, b, _, hb, h⟩ := bin_check _ _ _ _ _ h
    have hn : isNum b.2 = true := ho.elim (fun ho => (arith_ty o ho _ _ _ h).2.2.1) (fun ho => (cmp_ty o ho _ _ _ h).2.1)
    exact num_bit _ hn (cond_ty _ r hr b hb)
  | negCond e he =>
    intro t h
    obtain ⟨a, ha, h⟩ := un_check _ _ _ _ h
    exact (un_neg _ _ h).1 (cond_ty _ e he a (by simpa only [checkO] using ha))
  | negBool b =>
    intro t h
    obtain ⟨a, ha, h⟩ := un_check _ _ _ _ h
    exact (un_neg _ _ h).1 (cond_ty (tyOf ps) _ (.lit b) a (by simpa only [checkE, checkO] using ha))
  | numLeft l r o ho hl =>
    intro t h
    obtain ⟨a, b, ha, _, h⟩ := bin_check _ _ _ _ _ h
    exact number_ty ps l hl a ha (logic_ty o ho _ _ _ h).1
  | numRight l r o ho hr =>
    intro t h
    obtain ⟨a, b, _, hb, h⟩ := bin_check _ _ _ _ _ h
    exact number_ty ps r hr b hb (logic_ty o ho _ _ _ h).2.1
  | notNum n =>
    intro t h
    obtain ⟨a, ha, h⟩ := un_check _ _ _ _ h
    exact number_ty ps _ (.lit n) a (by simpa only [checkE] using ha) (un_not _ _ h).1
  | notArg x =>
    intro t h
    obtain ⟨a, ha, h⟩ := un_check _ _ _ _ h
    exact number_ty ps _ (.arg x) a (by simpa only [checkE] using ha) (un_not _ _ h).1
  | notNumber e he =>
    intro t h
    obtain ⟨a, ha, h⟩ := un_check _ _ _ _ h
    exact number_ty ps e he a (by simpa only [checkO] using ha) (un_not _ _ h).1
  | pickNumber c t f hc =>
    intro u h
    obtain ⟨a, b, d, ha, _, _, h⟩ := sel_check _ _ _ _ _ h
    exact number_ty ps c hc a ha (sel_ty _ _ _ _ h).1
  | pickMixed c t f ht hf =>
    intro u h
    obtain ⟨a, b, d, _, hb, hd, h⟩ := sel_check _ _ _ _ _ h
    exact number_ty ps f hf d hd ((sel_ty _ _ _ _ h).2.1.1 (cond_ty _ t ht b hb))
  | pickMixed' c t f ht hf =>
    intro u h
    obtain ⟨a, b, d, _, hb, hd, h⟩ := sel_check _ _ _ _ _ h
    exact number_ty ps t ht b hb ((sel_ty _ _ _ _ h).2.1.2 (cond_ty _ f hf d hd))
  | vectors l r o a b hab hl hr =>
    intro t h
    obtain ⟨x, y, hx, hy, h⟩ := bin_check _ _ _ _ _ h
    have hc := bin_can _ _ _ _ h
    rw [vec_ty ps a l hl x hx, vec_ty ps b r hr y hy] at hc
    simp [canBin, hab] at hc
  | pickVectors c t f a b hab ht hf =>
    intro u h
    obtain ⟨_, x, y, _, hx, hy, h⟩ := sel_check _ _ _ _ _ h
    have h1 := vec_ty ps a t ht x hx
    have h2 := vec_ty ps b f hf y hy
    have := sel_vectors _ _ _ _ h (by rw [h1]) (by rw [h2])
    rw [h1, h2] at this
    cases this
    exact hab rfl
  | unknown op x hx =>
    intro t h
    cases op <;> simp [checkE, checkO, tyOf, hx] at h
  | paren op e _ ih =>
    intro t h
    cases op with
    | none => exact ih t (by simpa only [checkE, checkO] using h)
    | some op =>
      obtain ⟨a, ha, _⟩ := un_check _ _ _ _ h
      exact ih a (by simpa only [checkO] using ha)
  | left l r o _ ih => intro t h; obtain ⟨a, b, ha, _, _⟩ := bin_check _ _ _ _ _ h; exact ih a ha
  | right l r o _ ih => intro t h; obtain ⟨a, b, _, hb, _⟩ := bin_check _ _ _ _ _ h; exact ih b hb
  | pick c t f _ ih => intro u h; obtain ⟨a, b, d, ha, _, _, _⟩ := sel_check _ _ _ _ _ h; exact ih a ha
  | pickLeft c t f _ ih => intro u h; obtain ⟨a, b, d, _, hb, _, _⟩ := sel_check _ _ _ _ _ h; exact ih b hb
  | pickRight c t f _ ih => intro u h; obtain ⟨a, b, d, _, _, hd, _⟩ := sel_check _ _ _ _ _ h; exact ih d hd

/-! ## C185 -/

/-- **C185.** A text that reads as an expression with a mistake is refused, whatever the arguments, the type of the result, and whether there is a context. -/
theorem mistakes_refused (ctx : Bool) (cfg : Cfg) (inl : Inline) (ps : Params) (ret : PTy) (mem : Nat → List Int) (src : List Char) (args : List Arg) (e : Expr) (rest : List Tok)
    (hs : parseExpression cfg src = .ok e rest) (he : Mistake (envOf ps.reverse) e) : runVec ctx cfg inl ps ret mem src args = .error .compile := by
  unfold runVec
  rw [hs]
  dsimp only
  cases h : checkE (tyOf ps) e with
  | none => rfl
  | some t => exact absurd h (mistake_check ps e he t)

def twoTypes : Params := [(['x'], true, .i64), (['y'], true, .i32)]
def exX : Expr := .un none (.var ['x'])
def exY : Expr := .un none (.var ['y'])

theorem reads_expr (src : List Char) (e : Expr) (h : e.WF exCfg) (hs : sourceToks src = sourceToks (writeTokens e.print)) : parseExpression exCfg src = .ok e [] := by
  rw [← parse_print exCfg e h]
  unfold parseExpression
  rw [hs]

/-- `x + y` for vectors of 64-bit and of 32-bit numbers. -/
example (ctx : Bool) (ret : PTy) (mem : Nat → List Int) (args : List Arg) : runVec ctx exCfg Scalar.noInl twoTypes ret mem "x + y".toList args = .error .compile :=
  mistakes_refused ctx exCfg _ _ _ _ _ _ (.bin exX .add exY) _
    (reads_expr _ _ (by simp [exX, exY, Expr.WF, Operand.WF, name1, Expr.level, BinOp.leftLevel, BinOp.rightLevel]) (by decide +kernel))
    (.vectors _ _ _ .i64 .i32 (by decide) (.arg _ (by decide)) (.arg _ (by decide)))

/-- `(x > y) * x`: a condition is not multiplied, whatever the types. -/
example (ctx : Bool) (ps : Params) (ret : PTy) (mem : Nat → List Int) (args : List Arg) : runVec ctx exCfg Scalar.noInl ps ret mem "(x > y) * x".toList args = .error .compile :=
  mistakes_refused ctx exCfg _ _ _ _ _ _ (.bin (.un none (.paren (.bin exX .gt exY))) .mul exX) _
    (reads_expr _ _ (by simp [exX, exY, Expr.WF, Operand.WF, name1, Expr.level, BinOp.leftLevel, BinOp.rightLevel]) (by decide +kernel))
    (.condLeft _ _ _ (.inl (.inr (.inr (.inl rfl)))) (.paren _ (.rel _ _ _ (.inr (.inr (.inr (.inr (.inl rfl))))))))

end Verif.Comp.VecMistake
