import Verif.Ast.RoundTrip
/-!
# What the expression parser accepts is what printing produces: C30
-/
namespace Verif.Ast

/-- Tokens as the lexer makes them. -/
def LexToks (toks : List Tok) : Prop := ∀ x ∈ toks, KindText x.1 x.2

theorem LexToks.tail {toks : List Tok} (h : LexToks toks) : LexToks toks.tail := fun x hx => h x (List.mem_of_mem_tail hx)

theorem LexToks.cons {x : Tok} {toks : List Tok} (h : LexToks (x :: toks)) : LexToks toks := fun y hy => h y (by simp [hy])

theorem LexToks.append {a b : List Tok} (h : LexToks (a ++ b)) : LexToks b := fun y hy => h y (by simp [hy])

theorem tok_eq (k : Kind) (t s : List Char) (h : KindText k t) (hs : fixedText k = some s) : (k, t) = tok k := by
  have : t = s := by
    cases k <;> simp only [fixedText, reduceCtorEq] at hs <;>
      (simp only [KindText] at h; obtain ⟨u, hu, rfl⟩ := h; simp only [fixedText] at hu; exact Option.some.inj (hu.symm.trans hs))
  subst this
  simp [tok, hs]

theorem head_tok (k : Kind) (t s : List Char) (r : List Tok) (h : LexToks ((k, t) :: r)) (hs : fixedText k = some s) : (k, t) = tok k := tok_eq k t s (h (k, t) (by simp)) hs

theorem peek_split (toks : List Tok) (k : Kind) (s : List Char) (h : LexToks toks) (hp : peek toks = k) (hk : k ≠ .eof) (hs : fixedText k = some s) : toks = tok k :: toks.tail := by
  cases toks with
  | nil => exact absurd hp.symm hk
  | cons x r =>
    obtain ⟨k', t⟩ := x
    simp only [peek] at hp
    subst hp
    rw [head_tok k' t s r h hs]
    rfl

theorem levelOp_spec (k : Nat) (t : Kind) (op : BinOp) (h : levelOp k t = some op) : t = op.kind ∧ op.level = k := by
  unfold levelOp at h
  split at h <;> simp at h <;> subst h <;> exact ⟨rfl, rfl⟩

theorem assignOp_spec (t : Kind) (op : BinOp) (h : assignOp t = some op) : t = op.kind ∧ op.level = 6 := by
  unfold assignOp at h
  split at h <;> simp at h <;> subst h <;> exact ⟨rfl, rfl⟩

theorem unaryOp_spec (t : Kind) (op : UnOp) (h : unaryOp t = some op) : t = op.kind := by
  unfold unaryOp at h
  split at h <;> simp at h <;> subst h <;> rfl

theorem binop_fixed (op : BinOp) : ∃ s, fixedText op.kind = some s := by cases op <;> exact ⟨_, rfl⟩

theorem string_text (t : List Char) (h : KindText .string t) : StrBody (stripQuotes t) ∧ t = '"' :: (stripQuotes t ++ ['"']) := by
  obtain ⟨body, rfl, hb⟩ := h
  rw [stripQuotes_quote]
  exact ⟨hb, rfl⟩

theorem bool_text (t : List Char) (h : KindText .bool t) : t = if (t == "true".toList) = true then "true".toList else "false".toList := by
  rcases h with rfl | rfl <;> rfl

theorem printRest_cons (e : Expr) (es : Exprs) : (Exprs.cons e es).printRest = tok .comma :: (Exprs.cons e es).print := by rw [Exprs.printRest, Exprs.print]

/-- What holds of all expression functions with fuel `f`. -/
structure SoundAll (cfg : Cfg) (f : Nat) : Prop where
  operand : ∀ toks o rest, LexToks toks → pOperand cfg f toks = .ok o rest → toks = o.print ++ rest ∧ o.WF cfg
  args : ∀ close toks es rest, LexToks toks → close ≠ .eof → (∃ s, fixedText close = some s) → pArgs cfg f close toks = .ok es rest → toks = es.print ++ tok close :: rest ∧ es.WF cfg
  exprs : ∀ toks es rest, LexToks toks → pExprs cfg f toks = .ok es rest → toks = es.print ++ rest ∧ es.WF cfg ∧ ∃ e es', es = .cons e es'
  members : ∀ toks ms rest, LexToks toks → pMembers cfg f toks = .ok ms rest → toks = ms.print ++ rest ∧ ms.WF cfg ∧ ((peek toks = .dot ∨ peek toks = .lbracket) → ms ≠ .nil)
  unary : ∀ toks e rest, LexToks toks → pUnary cfg f toks = .ok e rest → toks = e.print ++ rest ∧ e.WF cfg ∧ e.level = 0
  level : ∀ k toks e rest, LexToks toks → k ≤ 5 → pLevel cfg f k toks = .ok e rest → toks = e.print ++ rest ∧ e.WF cfg ∧ e.level ≤ k
  loop : ∀ k l toks e rest, LexToks toks → 2 ≤ k → k ≤ 5 → l.WF cfg → l.level ≤ k → pLoop cfg f k l toks = .ok e rest →
    l.print ++ toks = e.print ++ rest ∧ e.WF cfg ∧ e.level ≤ k
  expr : ∀ toks e rest, LexToks toks → pExpr cfg f toks = .ok e rest → toks = e.print ++ rest ∧ e.WF cfg ∧ assignOp (peek rest) = none

theorem ident_name (n : List Char) (h : KindText .identifier n) : IsName n := h

theorem index_sound (cfg : Cfg) (toks : List Tok) (m : Member) (rest : List Tok) (x : List Char) (hl : LexToks ((.lbracket, x) :: toks)) (h : pIndex toks = .ok m rest) :
    (Kind.lbracket, x) :: toks = m.print ++ rest ∧ m.WF cfg := by
  have hx := head_tok _ _ _ _ hl rfl
  rw [hx]
  have ht := hl.cons
  unfold pIndex at h
  split at h <;> simp at h
  · rename_i t y r
    obtain ⟨rfl, rfl⟩ := h
    obtain ⟨h1, h2⟩ := string_text t (ht (.string, t) (by simp))
    have hy := head_tok _ _ _ _ ht.cons rfl
    refine ⟨?_, by simpa [Member.WF] using h1⟩
    rw [hy]
    simp only [Member.print, List.cons_append, List.nil_append]
    rw [← h2]
  · rename_i t y r
    obtain ⟨rfl, rfl⟩ := h
    have hy := head_tok _ _ _ _ ht.cons rfl
    refine ⟨?_, by simp only [Member.WF]; exact ht (.number, t) (by simp)⟩
    rw [hy]
    simp only [Member.print, List.cons_append, List.nil_append]
  · rename_i t y r
    obtain ⟨rfl, rfl⟩ := h
    have hy := head_tok _ _ _ _ ht.cons rfl
    refine ⟨?_, by simp only [Member.WF]; exact ht (.identifier, t) (by simp)⟩
    rw [hy]
    simp only [Member.print, List.cons_append, List.nil_append]

theorem soundAll (cfg : Cfg) (f : Nat) : SoundAll cfg f := by
  induction f with
  | zero =>
    constructor
    · intro _ _ _ _ h; simp [pOperand] at h
    · intro _ _ _ _ _ _ _ h; simp [pArgs] at h
    · intro _ _ _ _ h; simp [pExprs] at h
    · intro _ _ _ _ h; simp [pMembers] at h
    · intro _ _ _ _ h; simp [pUnary] at h
    · intro _ _ _ _ _ _ h; simp [pLevel] at h
    · intro _ _ _ _ _ _ _ _ _ _ h; simp [pLoop] at h
    · intro _ _ _ _ h; simp [pExpr] at h
  | succ f ih =>
    constructor
    · intro toks o rest hl h
      rw [pOperand.eq_def] at h
      simp only at h
      split at h
      · rename_i t r
        simp at h
        obtain ⟨rfl, rfl⟩ := h
        refine ⟨?_, by simp [Operand.WF]⟩
        have := bool_text t (hl (.bool, t) (by simp))
        simp only [Operand.print, List.cons_append, List.nil_append]
        conv => lhs; rw [this]
        simp
      · rename_i t r
        simp at h
        obtain ⟨rfl, rfl⟩ := h
        obtain ⟨h1, h2⟩ := string_text t (hl (.string, t) (by simp))
        refine ⟨?_, by simpa [Operand.WF] using h1⟩
        simp only [Operand.print, List.cons_append, List.nil_append]
        rw [← h2]
      · rename_i t r
        split at h <;> simp at h
        rename_i hn
        obtain ⟨rfl, rfl⟩ := h
        exact ⟨rfl, by simp only [Operand.WF]; exact ⟨hl (.number, t) (by simp), hn⟩⟩
      · rename_i x n r
        split at h <;> simp at h
        rename_i hn
        obtain ⟨rfl, rfl⟩ := h
        refine ⟨?_, by simp only [Operand.WF]; exact ⟨hl (.identifier, n) (by simp), hn⟩⟩
        rw [head_tok _ _ _ _ hl rfl]
        rfl
      · rename_i x r
        cases e : pExpr cfg f r with
        | fail => rw [e] at h; simp at h
        | fuel => rw [e] at h; simp at h
        | ok a rest2 =>
          rw [e] at h
          obtain ⟨e1, e2, _⟩ := ih.expr r a rest2 hl.cons e
          split at h <;> simp at h
          rename_i he
          simp at he
          obtain ⟨rfl, rfl⟩ := h
          obtain ⟨rfl, rfl⟩ := he
          refine ⟨?_, by simpa [Operand.WF] using e2⟩
          rw [head_tok _ _ _ _ hl rfl, e1]
          have hy := head_tok _ _ _ _ (LexToks.append (by rw [← e1]; exact hl.cons)) rfl
          rw [hy]
          simp [Operand.print]
      · rename_i x r
        cases e : pArgs cfg f .rbracket r with
        | fail => rw [e] at h; simp at h
        | fuel => rw [e] at h; simp at h
        | ok a rest2 =>
          rw [e] at h
          simp at h
          obtain ⟨rfl, rfl⟩ := h
          obtain ⟨e1, e2⟩ := ih.args .rbracket r a rest2 hl.cons (by simp) ⟨_, rfl⟩ e
          refine ⟨?_, by simpa [Operand.WF] using e2⟩
          rw [head_tok _ _ _ _ hl rfl, e1]
          simp [Operand.print]
      · rename_i n r
        split at h
        · rename_i hv
          have hn := ident_name n (hl (.identifier, n) (by simp))
          split at h
          · rename_i x r'
            cases e : pMembers cfg f ((.dot, x) :: r') with
            | fail => rw [e] at h; simp at h
            | fuel => rw [e] at h; simp at h
            | ok a rest2 =>
              rw [e] at h
              simp at h
              obtain ⟨rfl, rfl⟩ := h
              obtain ⟨e1, e2, e3⟩ := ih.members _ a rest2 hl.cons e
              refine ⟨?_, by simp only [Operand.WF]; exact ⟨hn, hv, e3 (.inl rfl), e2⟩⟩
              rw [e1]
              simp [Operand.print]
          · rename_i x r'
            cases e : pMembers cfg f ((.lbracket, x) :: r') with
            | fail => rw [e] at h; simp at h
            | fuel => rw [e] at h; simp at h
            | ok a rest2 =>
              rw [e] at h
              simp at h
              obtain ⟨rfl, rfl⟩ := h
              obtain ⟨e1, e2, e3⟩ := ih.members _ a rest2 hl.cons e
              refine ⟨?_, by simp only [Operand.WF]; exact ⟨hn, hv, e3 (.inr rfl), e2⟩⟩
              rw [e1]
              simp [Operand.print]
          · rename_i x r'
            cases e : pArgs cfg f .rparen r' with
            | fail => rw [e] at h; simp at h
            | fuel => rw [e] at h; simp at h
            | ok a rest2 =>
              rw [e] at h
              simp at h
              obtain ⟨rfl, rfl⟩ := h
              obtain ⟨e1, e2⟩ := ih.args .rparen r' a rest2 hl.cons.cons (by simp) ⟨_, rfl⟩ e
              refine ⟨?_, by simp only [Operand.WF]; exact ⟨hn, hv, e2⟩⟩
              rw [head_tok _ _ _ _ hl.cons rfl, e1]
              simp [Operand.print]
          · simp at h
            obtain ⟨rfl, rfl⟩ := h
            exact ⟨rfl, by simp only [Operand.WF]; exact ⟨hn, hv⟩⟩
        · simp at h
      · simp at h
    · intro close toks es rest hl hc hs h
      obtain ⟨s, hs⟩ := hs
      rw [pArgs] at h
      split at h
      · rename_i hp
        simp at h
        obtain ⟨rfl, rfl⟩ := h
        refine ⟨?_, by simp [Exprs.WF]⟩
        simp only [Exprs.print, List.nil_append]
        exact peek_split toks close s hl hp hc hs
      · cases e : pExprs cfg f toks with
        | fail => rw [e] at h; simp at h
        | fuel => rw [e] at h; simp at h
        | ok a rest2 =>
          rw [e] at h
          simp only at h
          split at h <;> simp at h
          rename_i hp
          obtain ⟨rfl, rfl⟩ := h
          obtain ⟨e1, e2, _⟩ := ih.exprs toks a rest2 hl e
          refine ⟨?_, e2⟩
          rw [← peek_split rest2 close s (LexToks.append (by rw [← e1]; exact hl)) hp hc hs]
          exact e1
    · intro toks es rest hl h
      rw [pExprs] at h
      cases e : pExpr cfg f toks with
      | fail => rw [e] at h; simp at h
      | fuel => rw [e] at h; simp at h
      | ok a rest2 =>
        rw [e] at h
        obtain ⟨e1, e2, _⟩ := ih.expr toks a rest2 hl e
        split at h
        · rename_i a' x r he
          simp at he
          obtain ⟨rfl, rfl⟩ := he
          have hl2 : LexToks ((Kind.comma, x) :: r) := LexToks.append (by rw [← e1]; exact hl)
          cases e3 : pExprs cfg f r with
          | fail => rw [e3] at h; simp at h
          | fuel => rw [e3] at h; simp at h
          | ok a3 rest3 =>
            rw [e3] at h
            simp at h
            obtain ⟨rfl, rfl⟩ := h
            obtain ⟨e4, e5, b, bs, rfl⟩ := ih.exprs r a3 rest3 hl2.cons e3
            refine ⟨?_, by rw [Exprs.WF]; exact ⟨e2, e5⟩, _, _, rfl⟩
            conv => rhs; rw [Exprs.print, printRest_cons]
            rw [e1, head_tok _ _ _ _ hl2 rfl, e4]
            simp
        · rename_i a' r' hno he
          simp at he h
          obtain ⟨rfl, rfl⟩ := h
          obtain ⟨rfl, rfl⟩ := he
          refine ⟨?_, by simp only [Exprs.WF]; exact ⟨e2, trivial⟩, _, _, rfl⟩
          rw [e1]
          simp [Exprs.print, Exprs.printRest]
        · simp at h
        · simp at h
    · intro toks ms rest hl h
      rw [pMembers.eq_def] at h
      simp only at h
      split at h
      · rename_i x n y r
        cases e : pArgs cfg f .rparen r with
        | fail => rw [e] at h; simp at h
        | fuel => rw [e] at h; simp at h
        | ok a rest2 =>
          rw [e] at h
          simp only at h
          obtain ⟨e1, e2⟩ := ih.args .rparen r a rest2 hl.cons.cons.cons (by simp) ⟨_, rfl⟩ e
          cases e3 : pMembers cfg f rest2 with
          | fail => rw [e3] at h; simp at h
          | fuel => rw [e3] at h; simp at h
          | ok a3 rest3 =>
            rw [e3] at h
            simp at h
            obtain ⟨rfl, rfl⟩ := h
            obtain ⟨e4, e5, _⟩ := ih.members rest2 a3 rest3 (LexToks.cons (LexToks.append (by rw [← e1]; exact hl.cons.cons.cons))) e3
            refine ⟨?_, by simp only [Members.WF, Member.WF]; exact ⟨⟨hl (.identifier, n) (by simp), e2⟩, e5⟩, fun _ => by simp⟩
            rw [head_tok _ _ _ _ hl rfl, head_tok _ _ _ _ hl.cons.cons rfl, e1, e4]
            simp [Members.print, Member.print]
      · rename_i x n r _
        cases e3 : pMembers cfg f r with
        | fail => rw [e3] at h; simp at h
        | fuel => rw [e3] at h; simp at h
        | ok a3 rest3 =>
          rw [e3] at h
          simp at h
          obtain ⟨rfl, rfl⟩ := h
          obtain ⟨e4, e5, _⟩ := ih.members r a3 rest3 hl.cons.cons e3
          refine ⟨?_, by simp only [Members.WF, Member.WF]; exact ⟨hl (.identifier, n) (by simp), e5⟩, fun _ => by simp⟩
          rw [head_tok _ _ _ _ hl rfl, e4]
          simp [Members.print, Member.print]
      · simp at h
      · rename_i x r
        cases e : pIndex r with
        | fail => rw [e] at h; simp at h
        | fuel => rw [e] at h; simp at h
        | ok a rest2 =>
          rw [e] at h
          simp only at h
          obtain ⟨e1, e2⟩ := index_sound cfg r a rest2 x hl e
          cases e3 : pMembers cfg f rest2 with
          | fail => rw [e3] at h; simp at h
          | fuel => rw [e3] at h; simp at h
          | ok a3 rest3 =>
            rw [e3] at h
            simp at h
            obtain ⟨rfl, rfl⟩ := h
            obtain ⟨e4, e5, _⟩ := ih.members rest2 a3 rest3 (LexToks.append (by rw [← e1]; exact hl)) e3
            refine ⟨?_, by simp only [Members.WF]; exact ⟨e2, e5⟩, fun _ => by simp⟩
            rw [e1, e4]
            simp [Members.print]
      · rename_i h1 h2 h3 h4
        simp at h
        obtain ⟨rfl, rfl⟩ := h
        refine ⟨by simp [Members.print], by simp [Members.WF], ?_⟩
        intro hp
        exfalso
        cases toks with
        | nil => simp [peek] at hp
        | cons x r =>
          obtain ⟨k, t⟩ := x
          simp only [peek] at hp
          rcases hp with rfl | rfl
          · exact h3 _ _ rfl
          · exact h4 _ _ rfl
    · intro toks e rest hl h
      rw [pUnary] at h
      split at h
      · rename_i op ho
        have hk := unaryOp_spec _ op ho
        have hsplit : toks = tok op.kind :: toks.tail := by
          cases op <;> exact peek_split toks _ _ hl hk (by simp [UnOp.kind]) rfl
        cases e3 : pOperand cfg f toks.tail with
        | fail => rw [e3] at h; simp at h
        | fuel => rw [e3] at h; simp at h
        | ok a3 rest3 =>
          rw [e3] at h
          simp at h
          obtain ⟨rfl, rfl⟩ := h
          obtain ⟨e4, e5⟩ := ih.operand _ _ _ hl.tail e3
          refine ⟨?_, by simpa only [Expr.WF] using e5, rfl⟩
          rw [hsplit, e4]
          simp [Expr.print]
      · cases e3 : pOperand cfg f toks with
        | fail => rw [e3] at h; simp at h
        | fuel => rw [e3] at h; simp at h
        | ok a3 rest3 =>
          rw [e3] at h
          simp at h
          obtain ⟨rfl, rfl⟩ := h
          obtain ⟨e4, e5⟩ := ih.operand _ _ _ hl e3
          refine ⟨?_, by simpa only [Expr.WF] using e5, rfl⟩
          rw [e4]
          simp [Expr.print]
    · intro k toks e rest hl hk h
      match k with
      | 0 => rw [pLevel] at h; simp at h
      | 1 =>
        rw [pLevel] at h
        cases e3 : pUnary cfg f toks with
        | fail => rw [e3] at h; simp at h
        | fuel => rw [e3] at h; simp at h
        | ok a rest2 =>
          rw [e3] at h
          obtain ⟨e1, e2, e4⟩ := ih.unary toks a rest2 hl e3
          split at h
          · rename_i a' x r he
            simp at he
            obtain ⟨rfl, rfl⟩ := he
            have hl2 : LexToks ((Kind.caret, x) :: r) := LexToks.append (by rw [← e1]; exact hl)
            cases e5 : pLevel cfg f 1 r with
            | fail => rw [e5] at h; simp at h
            | fuel => rw [e5] at h; simp at h
            | ok a5 rest5 =>
              rw [e5] at h
              simp at h
              obtain ⟨rfl, rfl⟩ := h
              obtain ⟨e6, e7, e8⟩ := ih.level 1 r a5 rest5 hl2.cons (by omega) e5
              refine ⟨?_, ?_, by simp [Expr.level, BinOp.level]⟩
              · rw [e1, head_tok _ _ _ _ hl2 rfl, e6]
                simp [Expr.print, BinOp.kind]
              · simp only [Expr.WF]
                exact ⟨e2, e7, by simp [BinOp.leftLevel, BinOp.level]; exact e4, by simp [BinOp.rightLevel, BinOp.level]; exact e8⟩
          · rename_i a' r' hno he
            simp at he h
            obtain ⟨rfl, rfl⟩ := h
            obtain ⟨rfl, rfl⟩ := he
            exact ⟨e1, e2, by omega⟩
          · simp at h
          · simp at h
      | k + 2 =>
        rw [pLevel] at h
        cases e3 : pLevel cfg f (k + 1) toks with
        | fail => rw [e3] at h; simp at h
        | fuel => rw [e3] at h; simp at h
        | ok a rest2 =>
          rw [e3] at h
          obtain ⟨e1, e2, e4⟩ := ih.level (k + 1) toks a rest2 hl (by omega) e3
          simp only at h
          obtain ⟨e5, e6, e7⟩ := ih.loop (k + 2) a rest2 e rest (LexToks.append (by rw [← e1]; exact hl)) (by omega) hk e2 (by omega) h
          exact ⟨by rw [e1, e5], e6, e7⟩
    · intro k l toks e rest hl h2 h5 hw hlev h
      rw [pLoop] at h
      split at h
      · rename_i op ho
        obtain ⟨hk, hlv⟩ := levelOp_spec k _ op ho
        obtain ⟨s, hs⟩ := binop_fixed op
        have hsplit := peek_split toks op.kind s hl hk (by cases op <;> simp [BinOp.kind]) hs
        cases e3 : pLevel cfg f (k - 1) toks.tail with
        | fail => rw [e3] at h; simp at h
        | fuel => rw [e3] at h; simp at h
        | ok a rest2 =>
          rw [e3] at h
          simp only at h
          obtain ⟨e1, e2, e4⟩ := ih.level (k - 1) toks.tail a rest2 hl.tail (by omega) e3
          have hwf : (Expr.bin l op a).WF cfg := by
            simp only [Expr.WF]
            refine ⟨hw, e2, ?_, ?_⟩
            · simp only [BinOp.leftLevel]; rw [if_neg (by omega), if_neg (by omega)]; omega
            · simp only [BinOp.rightLevel]; rw [if_neg (by omega), if_neg (by omega)]; omega
          obtain ⟨e5, e6, e7⟩ := ih.loop k (.bin l op a) rest2 e rest (LexToks.append (by rw [← e1]; exact hl.tail)) h2 h5 hwf (by simp [Expr.level]; omega) h
          refine ⟨?_, e6, e7⟩
          rw [← e5, hsplit, e1]
          simp [Expr.print]
      · simp at h
        obtain ⟨rfl, rfl⟩ := h
        exact ⟨rfl, hw, hlev⟩
    · intro toks e rest hl h
      rw [pExpr] at h
      cases e3 : pLevel cfg f 5 toks with
      | fail => rw [e3] at h; simp at h
      | fuel => rw [e3] at h; simp at h
      | ok a rest2 =>
        rw [e3] at h
        obtain ⟨e1, e2, e4⟩ := ih.level 5 toks a rest2 hl (by omega) e3
        have hl2 : LexToks rest2 := LexToks.append (by rw [← e1]; exact hl)
        split at h
        · rename_i a' x r he
          simp at he
          obtain ⟨rfl, rfl⟩ := he
          cases e5 : pExpr cfg f r with
          | fail => rw [e5] at h; simp at h
          | fuel => rw [e5] at h; simp at h
          | ok a5 rest5 =>
            rw [e5] at h
            obtain ⟨e6, e7, _⟩ := ih.expr r a5 rest5 hl2.cons e5
            have hl5 : LexToks rest5 := LexToks.append (by rw [← e6]; exact hl2.cons)
            split at h
            · rename_i a' y r5 he
              simp at he
              obtain ⟨rfl, rfl⟩ := he
              cases e8 : pExpr cfg f r5 with
              | fail => rw [e8] at h; simp at h
              | fuel => rw [e8] at h; simp at h
              | ok a8 rest8 =>
                rw [e8] at h
                obtain ⟨e9, e10, e11⟩ := ih.expr r5 a8 rest8 hl5.cons e8
                simp only [e11] at h
                simp at h
                obtain ⟨rfl, rfl⟩ := h
                refine ⟨?_, by simp only [Expr.WF]; exact ⟨e2, e7, e10, e4⟩, e11⟩
                rw [e1, head_tok _ _ _ _ hl2 rfl, e6, head_tok _ _ _ _ hl5 rfl, e9]
                simp [Expr.print]
            · simp at h
            · simp at h
            · simp at h
        · rename_i a' r' hno he
          simp at he
          obtain ⟨rfl, rfl⟩ := he
          split at h
          · rename_i op ho
            obtain ⟨hk, hlv⟩ := assignOp_spec _ op ho
            obtain ⟨s, hs⟩ := binop_fixed op
            have hsplit := peek_split rest2 op.kind s hl2 hk (by cases op <;> simp [BinOp.kind]) hs
            cases e5 : pExpr cfg f rest2.tail with
            | fail => rw [e5] at h; simp at h
            | fuel => rw [e5] at h; simp at h
            | ok a5 rest5 =>
              rw [e5] at h
              simp at h
              obtain ⟨rfl, rfl⟩ := h
              obtain ⟨e6, e7, e8⟩ := ih.expr _ a5 rest5 hl2.tail e5
              have hl6 : a5.level ≤ 6 := by
                cases a5 with
                | un => simp [Expr.level]
                | sel => simp [Expr.level]
                | bin l op r => cases op <;> simp [Expr.level, BinOp.level]
              refine ⟨?_, ?_, e8⟩
              · rw [e1, hsplit, e6]
                simp [Expr.print]
              · simp only [Expr.WF]
                exact ⟨e2, e7, by simp [BinOp.leftLevel, hlv]; exact e4, by simp [BinOp.rightLevel, hlv]; exact hl6⟩
          · rename_i hn
            simp at h
            obtain ⟨rfl, rfl⟩ := h
            exact ⟨e1, e2, hn⟩
        · simp at h
        · simp at h

/-! ## Printed tokens can be written -/

theorem tok_writable (k : Kind) (s : List Char) (h : fixedText k = some s) : Writable (tok k).1 (tok k).2 := by
  have : (tok k) = (k, s) := by simp [tok, h]
  rw [this]
  refine ⟨?_, by rintro rfl; simp [fixedText] at h, by rintro rfl; simp [fixedText] at h⟩
  cases k <;> simp only [fixedText, reduceCtorEq] at h <;> exact ⟨s, h, rfl⟩

theorem name_writable (n : List Char) (h : IsName n) : Writable .identifier n := ⟨h, by simp, by simp⟩

/-- Every token of the list can be written. -/
def AllW (toks : List Tok) : Prop := ∀ x ∈ toks, Writable x.1 x.2

theorem AllW.nil : AllW [] := by intro x hx; simp at hx
theorem AllW.cons {x : Tok} {l : List Tok} (h : Writable x.1 x.2) (hl : AllW l) : AllW (x :: l) := by
  intro y hy
  rcases List.mem_cons.1 hy with rfl | hy
  · exact h
  · exact hl y hy
theorem AllW.append {a b : List Tok} (ha : AllW a) (hb : AllW b) : AllW (a ++ b) := by
  intro y hy
  rcases List.mem_append.1 hy with hy | hy
  · exact ha y hy
  · exact hb y hy

mutual
theorem expr_writable (cfg : Cfg) (e : Expr) (hw : e.WF cfg) : AllW e.print := by
  match e with
  | .un none o => rw [Expr.print]; rw [Expr.WF] at hw; exact operand_writable cfg o hw
  | .un (some op) o =>
    rw [Expr.print]; rw [Expr.WF] at hw
    exact .cons (by cases op <;> exact tok_writable _ _ rfl) (operand_writable cfg o hw)
  | .bin l op r =>
    rw [Expr.print]; rw [Expr.WF] at hw
    obtain ⟨s, hs⟩ := binop_fixed op
    exact .append (expr_writable cfg l hw.1) (.cons (tok_writable _ s hs) (expr_writable cfg r hw.2.1))
  | .sel c t f =>
    rw [Expr.print]; rw [Expr.WF] at hw
    exact .append (expr_writable cfg c hw.1) (.cons (tok_writable _ _ rfl) (.append (expr_writable cfg t hw.2.1) (.cons (tok_writable _ _ rfl) (expr_writable cfg f hw.2.2.1))))
theorem operand_writable (cfg : Cfg) (o : Operand) (hw : o.WF cfg) : AllW o.print := by
  match o with
  | .bool b => rw [Operand.print]; exact .cons ⟨by cases b <;> simp [KindText], by simp, by simp⟩ .nil
  | .str s => rw [Operand.print]; rw [Operand.WF] at hw; exact .cons ⟨⟨s, rfl, hw⟩, by simp, by simp⟩ .nil
  | .num t => rw [Operand.print]; rw [Operand.WF] at hw; exact .cons ⟨hw.1, by simp, by simp⟩ .nil
  | .define n => rw [Operand.print]; rw [Operand.WF] at hw; exact .cons (tok_writable _ _ rfl) (.cons (name_writable n hw.1) .nil)
  | .paren e =>
    rw [Operand.print]; rw [Operand.WF] at hw
    exact .cons (tok_writable _ _ rfl) (.append (expr_writable cfg e hw) (.cons (tok_writable _ _ rfl) .nil))
  | .array es =>
    rw [Operand.print]; rw [Operand.WF] at hw
    exact .cons (tok_writable _ _ rfl) (.append (exprs_writable cfg es hw).1 (.cons (tok_writable _ _ rfl) .nil))
  | .var n => rw [Operand.print]; rw [Operand.WF] at hw; exact .cons (name_writable n hw.1) .nil
  | .call n es =>
    rw [Operand.print]; rw [Operand.WF] at hw
    exact .cons (name_writable n hw.1) (.cons (tok_writable _ _ rfl) (.append (exprs_writable cfg es hw.2.2).1 (.cons (tok_writable _ _ rfl) .nil)))
  | .access n ms => rw [Operand.print]; rw [Operand.WF] at hw; exact .cons (name_writable n hw.1) (members_writable cfg ms hw.2.2.2)
theorem exprs_writable (cfg : Cfg) (es : Exprs) (hw : es.WF cfg) : AllW es.print ∧ AllW es.printRest := by
  match es with
  | .nil => rw [Exprs.print, Exprs.printRest]; exact ⟨.nil, .nil⟩
  | .cons e es =>
    rw [Exprs.print, Exprs.printRest]; rw [Exprs.WF] at hw
    have h := AllW.append (expr_writable cfg e hw.1) (exprs_writable cfg es hw.2).2
    exact ⟨h, .cons (tok_writable _ _ rfl) h⟩
theorem members_writable (cfg : Cfg) (ms : Members) (hw : ms.WF cfg) : AllW ms.print := by
  match ms with
  | .nil => rw [Members.print]; exact .nil
  | .cons m ms => rw [Members.print]; rw [Members.WF] at hw; exact .append (member_writable cfg m hw.1) (members_writable cfg ms hw.2)
theorem member_writable (cfg : Cfg) (m : Member) (hw : m.WF cfg) : AllW m.print := by
  match m with
  | .field n => rw [Member.print]; rw [Member.WF] at hw; exact .cons (tok_writable _ _ rfl) (.cons (name_writable n hw) .nil)
  | .method n es =>
    rw [Member.print]; rw [Member.WF] at hw
    exact .cons (tok_writable _ _ rfl) (.cons (name_writable n hw.1) (.cons (tok_writable _ _ rfl) (.append (exprs_writable cfg es hw.2).1 (.cons (tok_writable _ _ rfl) .nil))))
  | .key s =>
    rw [Member.print]; rw [Member.WF] at hw
    exact .cons (tok_writable _ _ rfl) (.cons ⟨⟨s, rfl, hw⟩, by simp, by simp⟩ (.cons (tok_writable _ _ rfl) .nil))
  | .index t =>
    rw [Member.print]; rw [Member.WF] at hw
    exact .cons (tok_writable _ _ rfl) (.cons ⟨hw, by simp, by simp⟩ (.cons (tok_writable _ _ rfl) .nil))
  | .ref n =>
    rw [Member.print]; rw [Member.WF] at hw
    exact .cons (tok_writable _ _ rfl) (.cons (name_writable n hw) (.cons (tok_writable _ _ rfl) .nil))
end

theorem sourceToks_write (ts : List Tok) (h : AllW ts) : sourceToks (writeTokens ts) = ts := by
  unfold sourceToks
  rw [lex_write ts h, List.filter_append]
  simp only [bne_self_eq_false, List.filter_nil, Bool.false_eq_true, not_false_eq_true, List.filter_cons_of_neg, List.append_nil]
  rw [List.filter_eq_self]
  intro x hx
  simpa using (h x hx).2.1

theorem sourceToks_lex (src : List Char) : LexToks (sourceToks src) := by
  intro x hx
  unfold sourceToks at hx
  have := (List.mem_filter.1 hx).1
  simp at this
  obtain ⟨t, ht, rfl⟩ := this
  exact lex_texts src t ht

/-! ## C30 -/

/-- **C30.** Any expression, written out, is parsed back to the same expression with nothing left over. -/
theorem parse_print (cfg : Cfg) (e : Expr) (h : e.WF cfg) : parseExpression cfg (writeTokens e.print) = .ok e [] := by
  have hs := sourceToks_write e.print (expr_writable cfg e h)
  have hc := (expr_complete cfg e h).expr (fuelFor e.print) [] (by decide)
  have hf := (goodAll cfg (fuelFor e.print)).expr e.print (by unfold fuelFor; omega)
  unfold parseExpression
  rw [hs]
  rw [List.append_nil] at hc
  rcases hc with hc | hc
  · exact hc
  · rw [hc] at hf; exact absurd hf (by simp [Good])

/-- **C30.** Any tree of operators and operands, written with only the parentheses that precedence and grouping require, is parsed to an expression with that tree. -/
theorem parse_tree (cfg : Cfg) (t : Tree) (h : t.WF cfg) : ∃ e, parseExpression cfg (writeTokens t.toExpr.print) = .ok e [] ∧ e.toTree = t := by
  obtain ⟨h1, h2⟩ := toExpr_spec cfg t h
  exact ⟨t.toExpr, parse_print cfg _ h1, h2⟩

/-- **C30.** Conversely, whatever text is accepted: the expression is one of the language, and its tokens followed by those left over are the tokens of the text. Nothing in the
consumed part is dropped or changed. -/
theorem parse_sound (cfg : Cfg) (src : List Char) (e : Expr) (rest : List Tok) (h : parseExpression cfg src = .ok e rest) : e.WF cfg ∧ sourceToks src = e.print ++ rest := by
  have := (soundAll cfg _).expr _ _ _ (sourceToks_lex src) h
  exact ⟨this.2.1, this.1⟩

/-- A configuration with two types, for examples. -/
def exampleCfg : Cfg := { isType := fun n => n == "i32".toList || n == "void".toList, inRange := fun _ => true }

/-- `(a + b) * f(1) - x.y`, a tree in which parentheses are needed. -/
def exampleTree : Tree :=
  .bin (.bin (.bin (.atom (.var ['a'])) .add (.atom (.var ['b']))) .mul (.atom (.call ['f'] (.cons (.un none (.num ['1'])) .nil)))) .sub
    (.atom (.access ['x'] (.cons (.field ['y']) .nil)))

theorem example_name (c : Char) (h : isAlpha c = true) : IsName [c] := ⟨⟨c, [], rfl, h, by simp⟩, by simp [keyword]⟩

example : exampleTree.WF exampleCfg := by
  simp only [exampleTree, Tree.WF, Operand.WF, Exprs.WF, Expr.WF, Members.WF, Member.WF]
  have hn : NumberText ['1'] := ⟨['1'], [], [], rfl, by decide, .inl rfl, by simp, .inl rfl⟩
  refine ⟨⟨⟨⟨⟨example_name 'a' (by decide), by decide⟩, by simp⟩, ⟨example_name 'b' (by decide), by decide⟩, by simp⟩, ⟨⟨example_name 'f' (by decide), by decide, ⟨hn, by decide⟩, trivial⟩, by simp⟩⟩,
    ⟨example_name 'x' (by decide), by decide, by simp, example_name 'y' (by decide), trivial⟩, by simp⟩

example : (exampleTree.toExpr.print).map (·.1) =
    [.lparen, .identifier, .plus, .identifier, .rparen, .star, .identifier, .lparen, .number, .rparen, .minus, .identifier, .dot, .identifier] := by decide +kernel

end Verif.Ast
