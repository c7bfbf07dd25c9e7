import Verif.Ast.Print
import Verif.Ast.Total
/-!
# Printing and parsing expressions: C30
-/
namespace Verif.Ast

/-- The result is this one, unless the fuel of the model ran out. -/
def OF {α : Type} (x : PR α) (a : α) (rest : List Tok) : Prop := x = .ok a rest ∨ x = .fuel

theorem contLevel_levelOp (k : Nat) (t : Kind) (h : k < contLevel t) : levelOp k t = none := by
  unfold levelOp
  split <;> simp_all [contLevel]

theorem contLevel_assign (t : Kind) (h : 6 < contLevel t) : assignOp t = none := by
  unfold assignOp
  split <;> simp_all [contLevel]

theorem levelOp_kind (op : BinOp) (h1 : 2 ≤ op.level) (h2 : op.level ≤ 5) : levelOp op.level op.kind = some op := by
  cases op <;> simp [BinOp.level] at h1 h2 ⊢ <;> rfl

theorem assignOp_kind (op : BinOp) (h : op.level = 6) : assignOp op.kind = some op := by
  cases op <;> simp [BinOp.level] at h ⊢ <;> rfl

theorem contLevel_kind (op : BinOp) : contLevel op.kind = op.level := by cases op <;> rfl

/-! ## One step of each function -/

theorem pExpr_plain (cfg : Cfg) (f : Nat) (toks r : List Tok) (l : Expr) (h : pLevel cfg f 5 toks = .ok l r) (hq : peek r ≠ .question) :
    pExpr cfg (f + 1) toks = match assignOp (peek r) with
      | some op =>
        match pExpr cfg f r.tail with
        | .ok rhs r2 => .ok (.bin l op rhs) r2
        | .fail => .fail
        | .fuel => .fuel
      | none => .ok l r := by
  rw [pExpr, h]
  cases r with
  | nil => rfl
  | cons x r =>
    obtain ⟨k, t⟩ := x
    cases k <;> first | rfl | exact absurd rfl hq

theorem pLevel1_plain (cfg : Cfg) (f : Nat) (toks r : List Tok) (e : Expr) (h : pUnary cfg f toks = .ok e r) (hq : peek r ≠ .caret) : pLevel cfg (f + 1) 1 toks = .ok e r := by
  rw [pLevel, h]
  cases r with
  | nil => rfl
  | cons x r =>
    obtain ⟨k, t⟩ := x
    cases k <;> first | rfl | exact absurd rfl hq

theorem pExprs_last (cfg : Cfg) (f : Nat) (toks r : List Tok) (e : Expr) (h : pExpr cfg f toks = .ok e r) (hq : peek r ≠ .comma) : pExprs cfg (f + 1) toks = .ok (.cons e .nil) r := by
  rw [pExprs, h]
  cases r with
  | nil => rfl
  | cons x r =>
    obtain ⟨k, t⟩ := x
    cases k <;> first | rfl | exact absurd rfl hq

/-- No member access, no call. -/
theorem pOperand_var (cfg : Cfg) (f : Nat) (n : List Char) (r : List Tok) (hv : validName cfg n = true) (h : 0 < contLevel (peek r)) :
    pOperand cfg (f + 1) ((.identifier, n) :: r) = .ok (.var n) r := by
  rw [pOperand.eq_def]
  simp only [hv, if_true]
  cases r with
  | nil => rfl
  | cons x r =>
    obtain ⟨k, t⟩ := x
    cases k <;> first | rfl | exact absurd h (by simp [peek, contLevel])

theorem pOperand_access (cfg : Cfg) (f : Nat) (n : List Char) (r : List Tok) (hv : validName cfg n = true) (h : peek r = .dot ∨ peek r = .lbracket) :
    pOperand cfg (f + 1) ((.identifier, n) :: r) = match pMembers cfg f r with
      | .ok ms r'' => .ok (.access n ms) r''
      | .fail => .fail
      | .fuel => .fuel := by
  rw [pOperand.eq_def]
  simp only [hv, if_true]
  cases r with
  | nil => simp [peek] at h
  | cons x r =>
    obtain ⟨k, t⟩ := x
    rcases h with h | h <;> (simp only [peek] at h; subst h; rfl)

theorem pMembers_field (cfg : Cfg) (f : Nat) (n x : List Char) (r : List Tok) (h : peek r ≠ .lparen) :
    pMembers cfg (f + 1) ((.dot, x) :: (.identifier, n) :: r) = match pMembers cfg f r with
      | .ok ms r' => .ok (.cons (.field n) ms) r'
      | .fail => .fail
      | .fuel => .fuel := by
  rw [pMembers.eq_def]
  cases r with
  | nil => rfl
  | cons y r =>
    obtain ⟨k, t⟩ := y
    cases k <;> first | rfl | exact absurd rfl h

theorem pMembers_stop (cfg : Cfg) (f : Nat) (r : List Tok) (h : 0 < contLevel (peek r)) : pMembers cfg (f + 1) r = .ok .nil r := by
  rw [pMembers.eq_def]
  cases r with
  | nil => rfl
  | cons y r =>
    obtain ⟨k, t⟩ := y
    cases k <;> first | rfl | exact absurd h (by simp [peek, contLevel])

/-! ## First tokens -/

theorem operand_head (o : Operand) (rest : List Tok) : startsExpr (peek (o.print ++ rest)) = true ∧ unaryOp (peek (o.print ++ rest)) = none := by
  cases o <;> simp [Operand.print, peek, startsExpr, unaryOp, tok]

theorem expr_head (e : Expr) (rest : List Tok) : startsExpr (peek (e.print ++ rest)) = true := by
  induction e using Expr.rec (motive_2 := fun _ => True) (motive_3 := fun _ => True) (motive_4 := fun _ => True) (motive_5 := fun _ => True) generalizing rest with
  | un op o _ =>
    cases op with
    | none => exact (operand_head o rest).1
    | some op => cases op <;> simp [Expr.print, peek, startsExpr, tok, UnOp.kind]
  | bin l op r ihl ihr => simp only [Expr.print, List.append_assoc]; exact ihl _
  | sel c t f ih1 ih2 ih3 => simp only [Expr.print, List.append_assoc]; exact ih1 _
  | _ => trivial

theorem stripQuotes_quote (s : List Char) : stripQuotes ('"' :: (s ++ ['"'])) = s := by simp [stripQuotes]

/-! ## Completeness -/

/-- What is to be shown of an expression: each level parses it back. -/
structure Complete (cfg : Cfg) (e : Expr) : Prop where
  unary : e.level = 0 → ∀ f rest, 0 < contLevel (peek rest) → OF (pUnary cfg f (e.print ++ rest)) e rest
  level : ∀ k, 1 ≤ k → k ≤ 5 → e.level ≤ k → ∀ f rest, k < contLevel (peek rest) → OF (pLevel cfg f k (e.print ++ rest)) e rest
  loop : ∀ k, 2 ≤ k → k ≤ 5 → e.level ≤ k → ∀ f rest, k - 1 < contLevel (peek rest) →
    (∃ f', pLevel cfg f k (e.print ++ rest) = pLoop cfg f' k e rest) ∨ pLevel cfg f k (e.print ++ rest) = .fuel
  expr : ∀ f rest, 6 < contLevel (peek rest) → OF (pExpr cfg f (e.print ++ rest)) e rest

theorem pLoop_stop (cfg : Cfg) (f k : Nat) (e : Expr) (rest : List Tok) (h : k < contLevel (peek rest)) : OF (pLoop cfg f k e rest) e rest := by
  cases f with
  | zero => right; rw [pLoop]
  | succ f => left; rw [pLoop, contLevel_levelOp k _ h]

/-- From the parts that depend on the form of the expression to all levels. -/
theorem assemble (cfg : Cfg) (e : Expr)
    (hu : e.level = 0 → ∀ f rest, 0 < contLevel (peek rest) → OF (pUnary cfg f (e.print ++ rest)) e rest)
    (hp : e.level ≤ 1 → ∀ f rest, 1 < contLevel (peek rest) → OF (pLevel cfg f 1 (e.print ++ rest)) e rest)
    (hl : ∀ k, 2 ≤ k → k ≤ 5 → e.level = k → ∀ f rest, k - 1 < contLevel (peek rest) →
      (∃ f', pLevel cfg f k (e.print ++ rest) = pLoop cfg f' k e rest) ∨ pLevel cfg f k (e.print ++ rest) = .fuel)
    (ht : e.level = 6 → ∀ f rest, 6 < contLevel (peek rest) → OF (pExpr cfg f (e.print ++ rest)) e rest)
    (h6 : e.level ≤ 6) : Complete cfg e := by
  have both : ∀ k, 1 ≤ k → k ≤ 5 → e.level ≤ k →
      (∀ f rest, k < contLevel (peek rest) → OF (pLevel cfg f k (e.print ++ rest)) e rest) ∧
      (2 ≤ k → ∀ f rest, k - 1 < contLevel (peek rest) →
        (∃ f', pLevel cfg f k (e.print ++ rest) = pLoop cfg f' k e rest) ∨ pLevel cfg f k (e.print ++ rest) = .fuel) := by
    intro k
    induction k with
    | zero => intro h; omega
    | succ k ih =>
      intro _ hk5 hek
      cases k with
      | zero => exact ⟨fun f rest h => hp hek f rest h, fun h => by omega⟩
      | succ k =>
        have loop : ∀ f rest, k + 2 - 1 < contLevel (peek rest) →
            (∃ f', pLevel cfg f (k + 2) (e.print ++ rest) = pLoop cfg f' (k + 2) e rest) ∨ pLevel cfg f (k + 2) (e.print ++ rest) = .fuel := by
          intro f rest hr
          by_cases he : e.level = k + 2
          · exact hl (k + 2) (by omega) hk5 he f rest hr
          · obtain ⟨i1, _⟩ := ih (by omega) (by omega) (by omega)
            cases f with
            | zero => right; rw [pLevel]
            | succ f =>
              rcases i1 f rest (by omega) with h | h
              · left; exact ⟨f, by rw [pLevel, h]⟩
              · right; rw [pLevel, h]
        refine ⟨?_, fun _ => loop⟩
        intro f rest hr
        rcases loop f rest (by omega) with ⟨f', h⟩ | h
        · unfold OF; rw [h]; exact pLoop_stop cfg f' _ e rest hr
        · right; exact h
  refine ⟨hu, fun k h1 h2 h3 => (both k h1 h2 h3).1, fun k h1 h2 h3 => (both k (by omega) h2 h3).2 h1, ?_⟩
  intro f rest hr
  by_cases he : e.level = 6
  · exact ht he f rest hr
  · cases f with
    | zero => right; rw [pExpr]
    | succ f =>
      rcases (both 5 (by omega) (by omega) (by omega)).1 f rest (by omega) with h | h
      · left
        rw [pExpr_plain cfg f _ rest e h (by intro hq; rw [hq] at hr; simp [contLevel] at hr), contLevel_assign _ hr]
      · right; rw [pExpr, h]

theorem peek_cons (k : Kind) (r : List Tok) : peek (tok k :: r) = k := rfl

mutual
theorem expr_complete (cfg : Cfg) (e : Expr) (hw : e.WF cfg) : Complete cfg e := by
  match e with
  | .un op o =>
    rw [Expr.WF] at hw
    have ho := operand_complete cfg o hw
    have hu : ∀ f rest, 0 < contLevel (peek rest) → OF (pUnary cfg f ((Expr.un op o).print ++ rest)) (.un op o) rest := by
      intro f rest hr
      cases f with
      | zero => right; rw [pUnary]
      | succ f =>
        cases op with
        | none =>
          rw [pUnary]
          simp only [Expr.print, (operand_head o rest).2]
          rcases ho f rest hr with h | h
          · left; rw [h]
          · right; rw [h]
        | some op =>
          have h1 : unaryOp op.kind = some op := by cases op <;> rfl
          rw [pUnary]
          simp only [Expr.print, List.cons_append, peek_cons, h1, List.tail_cons]
          rcases ho f rest hr with h | h
          · left; rw [h]
          · right; rw [h]
    refine assemble cfg _ (fun _ => hu) ?_ ?_ ?_ (by simp [Expr.level])
    · intro _ f rest hr
      cases f with
      | zero => right; rw [pLevel]
      | succ f =>
        rcases hu f rest (by omega) with h | h
        · left; exact pLevel1_plain cfg f _ rest _ h (by intro hq; rw [hq] at hr; simp [contLevel] at hr)
        · right; rw [pLevel, h]
    · intro k h2 _ h; simp [Expr.level] at h; omega
    · intro h; simp [Expr.level] at h
  | .bin l op r =>
    rw [Expr.WF] at hw
    obtain ⟨wl, wr, ll, lr⟩ := hw
    have hl := expr_complete cfg l wl
    have hr := expr_complete cfg r wr
    have hop : 1 ≤ op.level ∧ op.level ≤ 6 := by cases op <;> simp [BinOp.level]
    refine assemble cfg _ ?_ ?_ ?_ ?_ (by simp [Expr.level]; exact hop.2)
    · intro h; simp [Expr.level] at h; omega
    · intro h f rest hrest
      simp [Expr.level] at h
      have h1 : op.level = 1 := by omega
      have hpow : op = .pow := by cases op <;> simp [BinOp.level] at h1 ⊢
      subst hpow
      cases f with
      | zero => right; rw [pLevel]
      | succ f =>
        simp only [Expr.print, List.append_assoc, List.cons_append]
        rcases hl.unary (by simp [BinOp.leftLevel, BinOp.level] at ll; exact ll) f (tok (BinOp.kind .pow) :: (r.print ++ rest)) (by rw [peek_cons]; decide) with e1 | e1
        · rw [pLevel, e1]
          rcases hr.level 1 (by omega) (by omega) (by simp [BinOp.rightLevel, BinOp.level] at lr; exact lr) f rest hrest with e2 | e2
          · left; simp only [tok, BinOp.kind, e2]
          · right; simp only [tok, BinOp.kind, e2]
        · right; rw [pLevel, e1]
    · intro k h2 h5 hk f rest hrest
      simp [Expr.level] at hk
      have hll : l.level ≤ k := by simp [BinOp.leftLevel] at ll; rw [if_neg (by omega), if_neg (by omega)] at ll; omega
      have hlr : r.level ≤ k - 1 := by simp [BinOp.rightLevel] at lr; rw [if_neg (by omega), if_neg (by omega)] at lr; omega
      simp only [Expr.print, List.append_assoc, List.cons_append]
      rcases hl.loop k h2 h5 hll f (tok op.kind :: (r.print ++ rest)) (by rw [peek_cons, contLevel_kind]; omega) with ⟨f', e1⟩ | e1
      · rw [e1]
        cases f' with
        | zero => right; rw [pLoop]
        | succ f' =>
          have ho : levelOp k op.kind = some op := by rw [← hk]; exact levelOp_kind op (by omega) (by omega)
          rw [pLoop, peek_cons, ho]
          simp only [List.tail_cons]
          rcases hr.level (k - 1) (by omega) (by omega) hlr f' rest hrest with e2 | e2
          · left; exact ⟨f', by rw [e2]⟩
          · right; rw [e2]
      · right; exact e1
    · intro h f rest hrest
      simp [Expr.level] at h
      have hll : l.level ≤ 5 := by simp [BinOp.leftLevel, h] at ll; exact ll
      cases f with
      | zero => right; rw [pExpr]
      | succ f =>
        simp only [Expr.print, List.append_assoc, List.cons_append]
        rcases hl.level 5 (by omega) (by omega) hll f (tok op.kind :: (r.print ++ rest)) (by rw [peek_cons, contLevel_kind]; omega) with e1 | e1
        · have hq : peek (tok op.kind :: (r.print ++ rest)) ≠ .question := by rw [peek_cons]; cases op <;> simp [BinOp.kind]
          rw [pExpr_plain cfg f _ _ l e1 hq, peek_cons, assignOp_kind op h]
          simp only [List.tail_cons]
          rcases hr.expr f rest hrest with e2 | e2
          · left; rw [e2]
          · right; rw [e2]
        · right; rw [pExpr, e1]
  | .sel c t e =>
    rw [Expr.WF] at hw
    obtain ⟨wc, wt, we, lc⟩ := hw
    have hc := expr_complete cfg c wc
    have ht := expr_complete cfg t wt
    have he := expr_complete cfg e we
    refine assemble cfg _ ?_ ?_ ?_ ?_ (by simp [Expr.level])
    · intro h; simp [Expr.level] at h
    · intro h; simp [Expr.level] at h
    · intro k _ h5 h; simp [Expr.level] at h; omega
    · intro _ f rest hrest
      cases f with
      | zero => right; rw [pExpr]
      | succ f =>
        simp only [Expr.print, List.append_assoc, List.cons_append]
        rcases hc.level 5 (by omega) (by omega) lc f (tok .question :: (t.print ++ tok .colon :: (e.print ++ rest))) (by rw [peek_cons]; decide) with e1 | e1
        · rw [pExpr, e1]
          simp only [tok]
          rcases ht.expr f (tok .colon :: (e.print ++ rest)) (by rw [peek_cons]; decide) with e2 | e2
          · simp only [tok] at e2
            rw [e2]
            rcases he.expr f rest hrest with e3 | e3
            · left
              simp only [e3, contLevel_assign _ hrest]
            · right; simp only [e3]
          · right
            simp only [tok] at e2
            rw [e2]
        · right; rw [pExpr, e1]
theorem operand_complete (cfg : Cfg) (o : Operand) (hw : o.WF cfg) : ∀ f rest, 0 < contLevel (peek rest) → OF (pOperand cfg f (o.print ++ rest)) o rest := by
  match o with
  | .bool b =>
    intro f rest _
    cases f with
    | zero => right; rw [pOperand]
    | succ f => left; rw [pOperand.eq_def]; cases b <;> simp [Operand.print]
  | .str s =>
    intro f rest _
    cases f with
    | zero => right; rw [pOperand]
    | succ f => left; rw [pOperand.eq_def]; simp [Operand.print, stripQuotes_quote]
  | .num t =>
    rw [Operand.WF] at hw
    intro f rest _
    cases f with
    | zero => right; rw [pOperand]
    | succ f => left; rw [pOperand.eq_def]; simp [Operand.print, hw.2]
  | .define n =>
    rw [Operand.WF] at hw
    intro f rest _
    cases f with
    | zero => right; rw [pOperand]
    | succ f => left; rw [pOperand.eq_def]; simp [Operand.print, hw.2, tok]
  | .paren e =>
    rw [Operand.WF] at hw
    have he := expr_complete cfg e hw
    intro f rest _
    cases f with
    | zero => right; rw [pOperand]
    | succ f =>
      rw [pOperand.eq_def]
      simp only [Operand.print, List.cons_append, List.append_assoc, List.nil_append, tok]
      rcases he.expr f (tok .rparen :: rest) (by rw [peek_cons]; decide) with h | h
      · left; simp only [tok] at h; rw [h]
      · right; simp only [tok] at h; rw [h]
  | .array es =>
    rw [Operand.WF] at hw
    intro f rest _
    cases f with
    | zero => right; rw [pOperand]
    | succ f =>
      rw [pOperand.eq_def]
      simp only [Operand.print, List.cons_append, List.append_assoc, List.nil_append, tok]
      rcases args_complete cfg es hw f .rbracket rest (by decide) (by decide) (by decide) with h | h
      · left; simp only [tok] at h; rw [h]
      · right; simp only [tok] at h; rw [h]
  | .var n =>
    rw [Operand.WF] at hw
    intro f rest hr
    cases f with
    | zero => right; rw [pOperand]
    | succ f => left; exact pOperand_var cfg f n rest hw.2 hr
  | .call n es =>
    rw [Operand.WF] at hw
    intro f rest _
    cases f with
    | zero => right; rw [pOperand]
    | succ f =>
      rw [pOperand.eq_def]
      simp only [Operand.print, List.cons_append, List.append_assoc, List.nil_append, tok, hw.2.1, if_true]
      rcases args_complete cfg es hw.2.2 f .rparen rest (by decide) (by decide) (by decide) with h | h
      · left; simp only [tok] at h; rw [h]
      · right; simp only [tok] at h; rw [h]
  | .access n ms =>
    rw [Operand.WF] at hw
    intro f rest hr
    cases f with
    | zero => right; rw [pOperand]
    | succ f =>
      simp only [Operand.print, List.cons_append]
      have hp : peek (ms.print ++ rest) = .dot ∨ peek (ms.print ++ rest) = .lbracket := by
        cases ms with
        | nil => exact absurd rfl hw.2.2.1
        | cons m ms => cases m <;> simp [Members.print, Member.print, tok, peek]
      rw [pOperand_access cfg f n _ hw.2.1 hp]
      rcases members_complete cfg ms hw.2.2.2 f rest hr with h | h
      · left; rw [h]
      · right; rw [h]
theorem args_complete (cfg : Cfg) (es : Exprs) (hw : es.WF cfg) : ∀ f close rest, 6 < contLevel close → startsExpr close = false → close ≠ .comma →
    OF (pArgs cfg f close (es.print ++ tok close :: rest)) es rest := by
  match es with
  | .nil =>
    intro f close rest _ _ _
    cases f with
    | zero => right; rw [pArgs]
    | succ f => left; rw [pArgs]; simp [Exprs.print, peek_cons]
  | .cons e es =>
    rw [Exprs.WF] at hw
    intro f close rest h1 h2 h3
    cases f with
    | zero => right; rw [pArgs]
    | succ f =>
      have hne : peek ((Exprs.cons e es).print ++ tok close :: rest) ≠ close := by
        intro h
        have := expr_head e (es.printRest ++ tok close :: rest)
        simp only [Exprs.print, List.append_assoc] at h
        rw [h, h2] at this
        simp at this
      rw [pArgs, if_neg hne]
      have he := expr_complete cfg e hw.1
      have hes := rest_complete cfg es hw.2
      have : OF (pExprs cfg f ((Exprs.cons e es).print ++ tok close :: rest)) (.cons e es) (tok close :: rest) := by
        simp only [Exprs.print, List.append_assoc]
        exact hes e he f (tok close :: rest) (by rw [peek_cons]; exact h1) (by rw [peek_cons]; exact h3)
      rcases this with h | h
      · left; rw [h]; simp [peek_cons]
      · right; rw [h]
/-- A list of elements after an expression that parses back. -/
theorem rest_complete (cfg : Cfg) (es : Exprs) (hw : es.WF cfg) : ∀ e, Complete cfg e → ∀ f rest, 6 < contLevel (peek rest) → peek rest ≠ .comma →
    OF (pExprs cfg f (e.print ++ (es.printRest ++ rest))) (.cons e es) rest := by
  match es with
  | .nil =>
    intro e he f rest h1 h2
    cases f with
    | zero => right; rw [pExprs]
    | succ f =>
      simp only [Exprs.printRest, List.nil_append]
      rcases he.expr f rest h1 with h | h
      · left; exact pExprs_last cfg f _ rest e h h2
      · right; rw [pExprs, h]
  | .cons e2 es =>
    rw [Exprs.WF] at hw
    have he2 := expr_complete cfg e2 hw.1
    have hes := rest_complete cfg es hw.2
    intro e he f rest h1 h2
    cases f with
    | zero => right; rw [pExprs]
    | succ f =>
      simp only [Exprs.printRest, List.cons_append, List.append_assoc]
      rcases he.expr f (tok .comma :: (e2.print ++ (es.printRest ++ rest))) (by rw [peek_cons]; decide) with h | h
      · simp only [tok] at h ⊢
        rw [pExprs, h]
        simp only
        rcases hes e2 he2 f rest h1 h2 with h' | h'
        · left; rw [h']
        · right; rw [h']
      · right; rw [pExprs, h]
theorem members_complete (cfg : Cfg) (ms : Members) (hw : ms.WF cfg) : ∀ f rest, 0 < contLevel (peek rest) → OF (pMembers cfg f (ms.print ++ rest)) ms rest := by
  match ms with
  | .nil =>
    intro f rest hr
    cases f with
    | zero => right; rw [pMembers]
    | succ f => left; exact pMembers_stop cfg f rest hr
  | .cons (.field n) ms =>
    rw [Members.WF] at hw
    have hm := members_complete cfg ms hw.2
    intro f rest hr
    cases f with
    | zero => right; rw [pMembers]
    | succ f =>
      simp only [Members.print, Member.print, List.cons_append, List.nil_append]
      have hp : peek (ms.print ++ rest) ≠ .lparen := by
        cases ms with
        | nil => intro h; simp only [Members.print, List.nil_append] at h; rw [h] at hr; simp [contLevel] at hr
        | cons m ms => cases m <;> simp [Members.print, Member.print, tok, peek]
      have := pMembers_field cfg f n (tok .dot).2 (ms.print ++ rest) hp
      rw [show ((Kind.dot, (tok .dot).2) : Tok) = tok .dot from rfl] at this
      rw [this]
      rcases hm f rest hr with h | h
      · left; rw [h]
      · right; rw [h]
  | .cons (.method n es) ms =>
    rw [Members.WF, Member.WF] at hw
    have hm := members_complete cfg ms hw.2
    have ha := args_complete cfg es hw.1.2
    intro f rest hr
    cases f with
    | zero => right; rw [pMembers]
    | succ f =>
      simp only [Members.print, Member.print, List.cons_append, List.nil_append, List.append_assoc]
      rw [pMembers.eq_def]
      simp only [tok]
      rcases ha f .rparen (ms.print ++ rest) (by decide) (by decide) (by decide) with h | h
      · simp only [tok] at h
        rw [h]
        simp only
        rcases hm f rest hr with h | h
        · left; rw [h]
        · right; rw [h]
      · right
        simp only [tok] at h
        rw [h]
  | .cons (.key s) ms =>
    rw [Members.WF] at hw
    have hm := members_complete cfg ms hw.2
    intro f rest hr
    cases f with
    | zero => right; rw [pMembers]
    | succ f =>
      simp only [Members.print, Member.print, List.cons_append, List.nil_append, tok]
      rw [pMembers.eq_def]
      simp only [pIndex, stripQuotes_quote]
      rcases hm f rest hr with h | h
      · left; rw [h]
      · right; rw [h]
  | .cons (.index t) ms =>
    rw [Members.WF] at hw
    have hm := members_complete cfg ms hw.2
    intro f rest hr
    cases f with
    | zero => right; rw [pMembers]
    | succ f =>
      simp only [Members.print, Member.print, List.cons_append, List.nil_append, tok]
      rw [pMembers.eq_def]
      simp only [pIndex]
      rcases hm f rest hr with h | h
      · left; rw [h]
      · right; rw [h]
  | .cons (.ref n) ms =>
    rw [Members.WF] at hw
    have hm := members_complete cfg ms hw.2
    intro f rest hr
    cases f with
    | zero => right; rw [pMembers]
    | succ f =>
      simp only [Members.print, Member.print, List.cons_append, List.nil_append, tok]
      rw [pMembers.eq_def]
      simp only [pIndex]
      rcases hm f rest hr with h | h
      · left; rw [h]
      · right; rw [h]
end

end Verif.Ast
