import Verif.Ast.Parser
/-!
# The parser ends: C85
-/
namespace Verif.Ast

/-- The parsing function did not run out of fuel and leaves fewer than `n` tokens when it succeeds. -/
def Good {α : Type} (n : Nat) : PR α → Prop
  | .ok _ rest => rest.length < n
  | .fail => True
  | .fuel => False

/-- What holds of all expression functions with fuel `f`. -/
structure GoodAll (cfg : Cfg) (f : Nat) : Prop where
  operand : ∀ toks, 16 * toks.length + 1 ≤ f → Good toks.length (pOperand cfg f toks)
  args : ∀ close toks, close ≠ .eof → 16 * toks.length + 10 ≤ f → Good toks.length (pArgs cfg f close toks)
  exprs : ∀ toks, 16 * toks.length + 9 ≤ f → Good toks.length (pExprs cfg f toks)
  members : ∀ toks, 16 * toks.length + 1 ≤ f → Good (toks.length + 1) (pMembers cfg f toks)
  unary : ∀ toks, 16 * toks.length + 2 ≤ f → Good toks.length (pUnary cfg f toks)
  level : ∀ k toks, k ≤ 5 → 16 * toks.length + 2 + k ≤ f → Good toks.length (pLevel cfg f k toks)
  loop : ∀ k e toks, k ≤ 5 → 16 * toks.length + 1 ≤ f → Good (toks.length + 1) (pLoop cfg f k e toks)
  expr : ∀ toks, 16 * toks.length + 8 ≤ f → Good toks.length (pExpr cfg f toks)

theorem pIndex_good (toks : List Tok) : Good toks.length (pIndex toks) := by
  unfold pIndex
  split <;> simp [Good] <;> omega

theorem peek_length (toks : List Tok) (h : peek toks ≠ .eof) : toks.tail.length + 1 = toks.length := by
  cases toks with
  | nil => simp [peek] at h
  | cons a b => simp

theorem levelOp_eof (k : Nat) : levelOp k .eof = none := by
  unfold levelOp
  split <;> simp_all

theorem levelOp_peek (k : Nat) (toks : List Tok) (op : BinOp) (h : levelOp k (peek toks) = some op) : toks.tail.length + 1 = toks.length := by
  apply peek_length
  intro he
  rw [he, levelOp_eof] at h
  simp at h

theorem assignOp_peek (toks : List Tok) (op : BinOp) (h : assignOp (peek toks) = some op) : toks.tail.length + 1 = toks.length := by
  apply peek_length
  intro he
  rw [he] at h
  simp [assignOp] at h

theorem unaryOp_peek (toks : List Tok) (op : UnOp) (h : unaryOp (peek toks) = some op) : toks.tail.length + 1 = toks.length := by
  apply peek_length
  intro he
  rw [he] at h
  simp [unaryOp] at h

theorem goodAll (cfg : Cfg) (f : Nat) : GoodAll cfg f := by
  induction f with
  | zero => constructor <;> intros <;> omega
  | succ f ih =>
    constructor
    · intro toks h
      unfold pOperand
      split
      · simp [Good]
      · simp [Good]
      · split <;> simp [Good]
      · split <;> simp [Good]; omega
      · rename_i x r
        have g := ih.expr r (by simp at h; omega)
        cases e : pExpr cfg f r with
        | fail => simp [Good]
        | fuel => rw [e] at g; exact g
        | ok a rest =>
          rw [e] at g
          simp only [Good] at g
          try simp only
          split
          · rename_i he; simp at he; simp [Good]; rw [he.2] at g; simp at g; omega
          · trivial
          · trivial
          · rename_i he; simp at he
      · rename_i x r
        have g := ih.args .rbracket r (by simp) (by simp at h; omega)
        cases e : pArgs cfg f .rbracket r with
        | fail => simp [Good]
        | fuel => rw [e] at g; exact g
        | ok a rest => rw [e] at g; simp only [Good] at g ⊢; simp; omega
      · rename_i n r
        split
        · split
          · rename_i x r'
            have g := ih.members ((.dot, x) :: r') (by simp at h ⊢; omega)
            cases e : pMembers cfg f ((.dot, x) :: r') with
            | fail => simp [Good]
            | fuel => rw [e] at g; exact g
            | ok a rest => rw [e] at g; simp only [Good] at g ⊢; simp at g ⊢; omega
          · rename_i x r'
            have g := ih.members ((.lbracket, x) :: r') (by simp at h ⊢; omega)
            cases e : pMembers cfg f ((.lbracket, x) :: r') with
            | fail => simp [Good]
            | fuel => rw [e] at g; exact g
            | ok a rest => rw [e] at g; simp only [Good] at g ⊢; simp at g ⊢; omega
          · rename_i x r'
            have g := ih.args .rparen r' (by simp) (by simp at h; omega)
            cases e : pArgs cfg f .rparen r' with
            | fail => simp [Good]
            | fuel => rw [e] at g; exact g
            | ok a rest => rw [e] at g; simp only [Good] at g ⊢; simp; omega
          · simp [Good]
        · trivial
      · trivial
    · intro close toks hc h
      unfold pArgs
      split
      · rename_i hp
        have := peek_length toks (by rw [hp]; exact hc)
        simp only [Good]; omega
      · have g := ih.exprs toks (by omega)
        cases e : pExprs cfg f toks with
        | fail => simp [Good]
        | fuel => rw [e] at g; exact g
        | ok a rest =>
          rw [e] at g
          simp only [Good] at g
          simp only
          split
          · simp only [Good, List.length_tail]; omega
          · trivial
    · intro toks h
      unfold pExprs
      have g := ih.expr toks (by omega)
      cases e : pExpr cfg f toks with
      | fail => simp [Good]
      | fuel => rw [e] at g; exact g
      | ok a rest =>
        rw [e] at g
        simp only [Good] at g
        try simp only
        split
        · rename_i he
          simp at he
          rename_i r
          have hl : rest.length = r.length + 1 := by rw [he.2]; simp
          have g2 := ih.exprs r (by omega)
          cases e2 : pExprs cfg f r with
          | fail => simp [Good]
          | fuel => rw [e2] at g2; exact g2
          | ok a2 rest2 => rw [e2] at g2; simp only [Good] at g2 ⊢; omega
        · rename_i he; simp at he; simp only [Good]; rw [← he.2]; exact g
        · trivial
        · rename_i he; simp at he
    · intro toks h
      unfold pMembers
      split
      · rename_i n x r
        have g := ih.args .rparen r (by simp) (by simp at h; omega)
        cases e : pArgs cfg f .rparen r with
        | fail => simp [Good]
        | fuel => rw [e] at g; exact g
        | ok a rest =>
          rw [e] at g
          simp only [Good] at g
          simp only
          have g2 := ih.members rest (by simp at h; omega)
          cases e2 : pMembers cfg f rest with
          | fail => simp [Good]
          | fuel => rw [e2] at g2; exact g2
          | ok a2 rest2 => rw [e2] at g2; simp only [Good] at g2 ⊢; simp; omega
      · rename_i n r _
        have g2 := ih.members r (by simp at h; omega)
        cases e2 : pMembers cfg f r with
        | fail => simp [Good]
        | fuel => rw [e2] at g2; exact g2
        | ok a2 rest2 => rw [e2] at g2; simp only [Good] at g2 ⊢; simp; omega
      · trivial
      · rename_i x r
        have g := pIndex_good r
        cases e : pIndex r with
        | fail => simp [Good]
        | fuel => rw [e] at g; exact g
        | ok a rest =>
          rw [e] at g
          simp only [Good] at g
          simp only
          have g2 := ih.members rest (by simp at h; omega)
          cases e2 : pMembers cfg f rest with
          | fail => simp [Good]
          | fuel => rw [e2] at g2; exact g2
          | ok a2 rest2 => rw [e2] at g2; simp only [Good] at g2 ⊢; simp; omega
      · simp [Good]
    · intro toks h
      unfold pUnary
      split
      · rename_i op ho
        have hl := unaryOp_peek toks op ho
        have g := ih.operand toks.tail (by omega)
        cases e : pOperand cfg f toks.tail with
        | fail => simp [Good]
        | fuel => rw [e] at g; exact g
        | ok a rest => rw [e] at g; simp only [Good] at g ⊢; omega
      · have g := ih.operand toks (by omega)
        cases e : pOperand cfg f toks with
        | fail => simp [Good]
        | fuel => rw [e] at g; exact g
        | ok a rest => rw [e] at g; exact g
    · intro k toks hk h
      match k with
      | 0 => unfold pLevel; trivial
      | 1 =>
        unfold pLevel
        have g := ih.unary toks (by omega)
        cases e : pUnary cfg f toks with
        | fail => simp [Good]
        | fuel => rw [e] at g; exact g
        | ok a rest =>
          rw [e] at g
          simp only [Good] at g
          try simp only
          split
          · rename_i he
            simp at he
            rename_i r
            have hl : rest.length = r.length + 1 := by rw [he.2]; simp
            have g2 := ih.level 1 r (by omega) (by omega)
            cases e2 : pLevel cfg f 1 r with
            | fail => simp [Good]
            | fuel => rw [e2] at g2; exact g2
            | ok a2 rest2 => rw [e2] at g2; simp only [Good] at g2 ⊢; omega
          · rename_i he; simp at he; simp only [Good]; rw [← he.2]; exact g
          · trivial
          · rename_i he; simp at he
      | k + 2 =>
        unfold pLevel
        have g := ih.level (k + 1) toks (by omega) (by omega)
        cases e : pLevel cfg f (k + 1) toks with
        | fail => simp [Good]
        | fuel => rw [e] at g; exact g
        | ok a rest =>
          rw [e] at g
          simp only [Good] at g
          simp only
          have g2 := ih.loop (k + 2) a rest hk (by omega)
          cases e2 : pLoop cfg f (k + 2) a rest with
          | fail => simp [Good]
          | fuel => rw [e2] at g2; exact g2
          | ok a2 rest2 => rw [e2] at g2; simp only [Good] at g2 ⊢; omega
    · intro k left toks hk h
      unfold pLoop
      split
      · rename_i op ho
        have hl := levelOp_peek k toks op ho
        have g := ih.level (k - 1) toks.tail (by omega) (by omega)
        cases e : pLevel cfg f (k - 1) toks.tail with
        | fail => simp [Good]
        | fuel => rw [e] at g; exact g
        | ok a rest =>
          rw [e] at g
          simp only [Good] at g
          simp only
          have g2 := ih.loop k (.bin left op a) rest hk (by omega)
          cases e2 : pLoop cfg f k (.bin left op a) rest with
          | fail => simp [Good]
          | fuel => rw [e2] at g2; exact g2
          | ok a2 rest2 => rw [e2] at g2; simp only [Good] at g2 ⊢; omega
      · simp [Good]
    · intro toks h
      unfold pExpr
      have g := ih.level 5 toks (by omega) (by omega)
      cases e : pLevel cfg f 5 toks with
      | fail => simp [Good]
      | fuel => rw [e] at g; exact g
      | ok a rest =>
        rw [e] at g
        simp only [Good] at g
        try simp only
        split
        · rename_i he
          simp at he
          rename_i r
          have hl : rest.length = r.length + 1 := by rw [he.2]; simp
          have g2 := ih.expr r (by omega)
          cases e2 : pExpr cfg f r with
          | fail => simp [Good]
          | fuel => rw [e2] at g2; exact g2
          | ok a2 rest2 =>
            rw [e2] at g2
            simp only [Good] at g2
            try simp only
            split
            · rename_i he2
              simp at he2
              rename_i r2
              have hl2 : rest2.length = r2.length + 1 := by rw [he2.2]; simp
              have g3 := ih.expr r2 (by omega)
              cases e3 : pExpr cfg f r2 with
              | fail => simp [Good]
              | fuel => rw [e3] at g3; exact g3
              | ok a3 rest3 =>
                rw [e3] at g3
                simp only [Good] at g3
                simp only
                split
                · rename_i op ho
                  have hl3 := assignOp_peek rest3 op ho
                  have g4 := ih.expr rest3.tail (by omega)
                  cases e4 : pExpr cfg f rest3.tail with
                  | fail => simp [Good]
                  | fuel => rw [e4] at g4; exact g4
                  | ok a4 rest4 => rw [e4] at g4; simp only [Good] at g4 ⊢; omega
                · simp only [Good]; omega
            · trivial
            · trivial
            · rename_i he2; simp at he2
        · rename_i he
          simp at he
          rw [← he.2]
          split
          · rename_i op ho
            have hl3 := assignOp_peek rest op ho
            have g4 := ih.expr rest.tail (by omega)
            cases e4 : pExpr cfg f rest.tail with
            | fail => simp [Good]
            | fuel => rw [e4] at g4; exact g4
            | ok a4 rest4 => rw [e4] at g4; simp only [Good] at g4 ⊢; omega
          · exact g
        · trivial
        · rename_i he; simp at he

/-! ## Statements -/

theorem good_bind {α β : Type} (n m : Nat) (x : PR α) (next : α → List Tok → PR β) (hx : Good n x) (hn : ∀ a r, r.length < n → Good m (next a r)) : Good m (x.bind next) := by
  cases x with
  | ok a r => exact hn a r hx
  | fail => trivial
  | fuel => exact hx

theorem expect_length (k : Kind) (toks r : List Tok) (h : expect k toks = some r) : toks.length = r.length + 1 := by
  unfold expect at h
  split at h
  · simp at h
  · split at h <;> simp at h; subst h; simp

theorem good_withTok {β : Type} (k : Kind) (toks : List Tok) (m : Nat) (next : List Tok → PR β) (hn : ∀ r, r.length + 1 = toks.length → Good m (next r)) : Good m (withTok k toks next) := by
  unfold withTok
  split
  · rename_i r hr
    exact hn r (expect_length k toks r hr).symm
  · trivial

/-- What holds of all statement functions with fuel `f`. -/
structure GoodStmts (cfg : Cfg) (f : Nat) : Prop where
  stmts : ∀ toks, 16 * toks.length + 9 ≤ f → Good (toks.length + 1) (pStmts cfg f toks)
  choice : ∀ toks, 16 * toks.length + 1 ≤ f → Good toks.length (pChoice cfg f toks)
  ifs : ∀ toks, 16 * toks.length + 2 ≤ f → Good toks.length (pIf cfg f toks)
  elifs : ∀ toks, 16 * toks.length + 1 ≤ f → Good (toks.length + 1) (pElifs cfg f toks)
  els : ∀ toks, 16 * toks.length + 1 ≤ f → Good (toks.length + 1) (pElse cfg f toks)

theorem ret_good (cfg : Cfg) (f : Nat) (toks : List Tok) (h : 16 * toks.length + 8 ≤ f) : Good toks.length (pReturn cfg f toks) := by
  unfold pReturn
  split
  · rename_i hp
    have hl := peek_length toks (by rw [hp]; simp)
    simp only [Good]; omega
  · refine good_bind _ _ _ _ ((goodAll cfg f).expr toks h) (fun a r hr => ?_)
    refine good_withTok _ _ _ _ (fun r2 hr2 => ?_)
    simp only [Good]; omega

theorem goodStmts (cfg : Cfg) (f : Nat) : GoodStmts cfg f := by
  induction f with
  | zero => constructor <;> intros <;> omega
  | succ f ih =>
    have ge := goodAll cfg f
    have next : ∀ (n : Nat) (r : List Tok) (g : Stmts → Stmts), r.length < n → 16 * n ≤ f → Good (n + 1) ((pStmts cfg f r).bind fun ss r' => .ok (g ss) r') := by
      intro n r g hr hf
      refine good_bind (r.length + 1) _ _ _ (ih.stmts r (by omega)) ?_
      intro a r' hr'
      simp only [Good]
      omega
    constructor
    · intro toks h
      unfold pStmts
      split
      · rename_i hp
        have hl := peek_length toks (by rw [hp]; simp)
        split
        · rename_i r hr
          have := expect_length _ _ _ hr
          exact next _ r _ (by omega) (by omega)
        · simp only [Good, List.length_tail]; omega
      · rename_i hp
        have hl := peek_length toks (by rw [hp]; simp)
        split
        · rename_i r hr
          have := expect_length _ _ _ hr
          exact next _ r _ (by omega) (by omega)
        · simp only [Good, List.length_tail]; omega
      · rename_i hp
        have hl := peek_length toks (by rw [hp]; simp)
        exact good_bind _ _ _ _ (ret_good cfg f toks.tail (by omega)) (fun a r hr => next _ r _ (by omega) (by omega))
      · rename_i hp
        have hl := peek_length toks (by rw [hp]; simp)
        exact good_bind _ _ _ _ (ih.choice toks.tail (by omega)) (fun a r hr => next _ r _ (by omega) (by omega))
      · rename_i hp
        have hl := peek_length toks (by rw [hp]; simp)
        exact good_bind _ _ _ _ (ih.ifs toks.tail (by omega)) (fun a r hr => next _ r _ (by omega) (by omega))
      · split
        · refine good_bind _ _ _ _ (ge.expr toks (by omega)) (fun a r hr => ?_)
          exact good_withTok _ _ _ _ (fun r2 hr2 => next _ r2 _ (by omega) (by omega))
        · simp [Good]
    · intro toks h
      unfold pChoice
      refine good_withTok _ _ _ _ (fun r hr => ?_)
      refine good_bind _ _ _ _ (ge.expr r (by omega)) (fun e r1 h1 => ?_)
      refine good_withTok _ _ _ _ (fun r2 h2 => good_withTok _ _ _ _ (fun r3 h3 => ?_))
      refine good_bind _ _ _ _ (ih.stmts r3 (by omega)) (fun ss r4 h4 => ?_)
      refine good_withTok _ _ _ _ (fun r5 h5 => ?_)
      simp only [Good]; omega
    · intro toks h
      unfold pIf
      refine good_bind _ _ _ _ (ih.choice toks (by omega)) (fun cb r hr => ?_)
      refine good_bind _ _ _ _ (ih.elifs r (by omega)) (fun es r1 h1 => ?_)
      refine good_bind _ _ _ _ (ih.els r1 (by omega)) (fun el r2 h2 => ?_)
      simp only [Good]; omega
    · intro toks h
      unfold pElifs
      split
      · rename_i hp
        have hl := peek_length toks (by rw [hp]; simp)
        refine good_bind _ _ _ _ (ih.choice toks.tail (by omega)) (fun cb r hr => ?_)
        refine good_bind _ _ _ _ (ih.elifs r (by omega)) (fun es r1 h1 => ?_)
        simp only [Good]; omega
      · simp [Good]
    · intro toks h
      unfold pElse
      split
      · rename_i hp
        have hl := peek_length toks (by rw [hp]; simp)
        refine good_withTok _ _ _ _ (fun r hr => ?_)
        refine good_bind _ _ _ _ (ih.stmts r (by omega)) (fun ss r1 h1 => ?_)
        refine good_withTok _ _ _ _ (fun r2 h2 => ?_)
        simp only [Good]; omega
      · simp [Good]

theorem readTypeArgs_length (toks : List Tok) : ∀ x, readTypeArgs toks = some x → x.2.length < toks.length := by
  fun_induction readTypeArgs toks with
  | case1 => simp
  | case2 => intro x hx; simp at hx; subst hx; simp
  | case3 => simp
  | case4 k t y r h1 h2 ih =>
    intro x hx
    simp at hx
    obtain ⟨a, b, e, rfl⟩ := hx
    have := ih _ e
    simp at this ⊢; omega
  | case5 k t r h1 h2 h3 ih =>
    intro x hx
    simp at hx
    obtain ⟨a, b, e, rfl⟩ := hx
    have := ih _ e
    simp at this ⊢; omega

theorem typedName_good (cfg : Cfg) (toks : List Tok) : Good toks.length (pTypedName cfg toks) := by
  have h : ∀ x, readType toks = some x → x.2.length ≤ toks.length := by
    intro x hx
    unfold readType at hx
    split at hx
    · simp at hx; subst hx; simp
    · simp at hx
      obtain ⟨a, b, e, rfl⟩ := hx
      have := readTypeArgs_length _ _ e
      simp at this ⊢; omega
    · simp at hx; subst hx; simp
  unfold pTypedName
  split
  · trivial
  · rename_i ty r hr
    have := h _ hr
    simp at this
    split
    · split
      · rename_i n r'
        split
        · simp only [Good]; simp at this; omega
        · trivial
      · trivial
    · trivial

theorem params_good (cfg : Cfg) (f : Nat) : ∀ toks, toks.length + 1 ≤ f → Good toks.length (pParams cfg f toks) := by
  induction f with
  | zero => intros; omega
  | succ f ih =>
    intro toks h
    unfold pParams
    refine good_bind _ _ _ _ (typedName_good cfg toks) (fun a r hr => ?_)
    split
    · rename_i hp
      have hl := peek_length r (by rw [hp]; simp)
      refine good_bind _ _ _ _ (ih r.tail (by omega)) (fun as r' hr' => ?_)
      simp only [Good]; omega
    · exact hr

theorem func_good (cfg : Cfg) (f : Nat) (toks : List Tok) (h : 16 * toks.length + 9 ≤ f) : Good toks.length (pFunc cfg f toks) := by
  unfold pFunc
  refine good_bind _ _ _ _ (typedName_good cfg toks) (fun a r hr => ?_)
  refine good_withTok _ _ _ _ (fun r1 h1 => ?_)
  have hp : Good (r1.length + 1) (if peek r1 = .rparen then .ok [] r1 else pParams cfg f r1) := by
    split
    · simp [Good]
    · have := params_good cfg f r1 (by omega)
      cases e : pParams cfg f r1 with
      | fail => trivial
      | fuel => rw [e] at this; exact this
      | ok a rest => rw [e] at this; simp only [Good] at this ⊢; omega
  refine good_bind _ _ _ _ hp (fun ps r2 h2 => ?_)
  refine good_withTok _ _ _ _ (fun r3 h3 => good_withTok _ _ _ _ (fun r4 h4 => ?_))
  refine good_bind _ _ _ _ ((goodStmts cfg f).stmts r4 (by omega)) (fun ss r5 h5 => ?_)
  refine good_withTok _ _ _ _ (fun r6 h6 => ?_)
  simp only [Good]; omega

theorem funcs_good (cfg : Cfg) (f : Nat) : ∀ toks, 16 * toks.length + 10 ≤ f → Good 1 (pFuncs cfg f toks) := by
  induction f with
  | zero => intros; omega
  | succ f ih =>
    intro toks h
    unfold pFuncs
    split
    · simp [Good]
    · rename_i t ts
      refine good_bind _ _ _ _ (func_good cfg f (t :: ts) (by omega)) (fun fn r hr => ?_)
      refine good_bind _ _ _ _ (ih r (by omega)) (fun fs r' hr' => ?_)
      exact hr'

/-- **C85.** Parsing any text as an expression, as a function or as several functions comes to an end: with a tree or with an error. -/
theorem parse_ends (cfg : Cfg) (src : List Char) : parseExpression cfg src ≠ .fuel ∧ parseFunction cfg src ≠ .fuel ∧ parseFunctions cfg src ≠ .fuel := by
  have h1 := (goodAll cfg (fuelFor (sourceToks src))).expr (sourceToks src) (by unfold fuelFor; omega)
  have h2 := func_good cfg (fuelFor (sourceToks src)) (sourceToks src) (by unfold fuelFor; omega)
  have h3 := funcs_good cfg (fuelFor (sourceToks src)) (sourceToks src) (by unfold fuelFor; omega)
  refine ⟨?_, ?_, ?_⟩
  · unfold parseExpression; intro h; rw [h] at h1; exact h1
  · unfold parseFunction; intro h; rw [h] at h2; exact h2
  · unfold parseFunctions; intro h; rw [h] at h3; exact h3

/-- **C31.** When the text is parsed as several functions, success means that every token was consumed. -/
theorem functions_consume_all (cfg : Cfg) (src : List Char) (fs : List Func) (rest : List Tok) (h : parseFunctions cfg src = .ok fs rest) : rest = [] := by
  have h3 := funcs_good cfg (fuelFor (sourceToks src)) (sourceToks src) (by unfold fuelFor; omega)
  unfold parseFunctions at h
  rw [h] at h3
  simp only [Good] at h3
  exact List.length_eq_zero_iff.1 (by omega)

end Verif.Ast
