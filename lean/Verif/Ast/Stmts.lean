import Verif.Ast.Sound
/-!
# Statements and functions: C30, C31, C86
-/
namespace Verif.Ast

mutual
/-- The tokens of a statement as written by hand. -/
def Stmt.print : Stmt → List Tok
  | .cont => [tok .kContinue, tok .semicolon]
  | .brk => [tok .kBreak, tok .semicolon]
  | .ret => [tok .kReturn, tok .semicolon]
  | .retVal e => tok .kReturn :: (e.print ++ [tok .semicolon])
  | .whileLoop c b => tok .kWhile :: tok .lparen :: (c.print ++ tok .rparen :: tok .lbrace :: (b.print ++ [tok .rbrace]))
  | .ifElse c b es el => tok .kIf :: tok .lparen :: (c.print ++ tok .rparen :: tok .lbrace :: (b.print ++ tok .rbrace :: (es.print ++ el.print)))
  | .expr e => e.print ++ [tok .semicolon]
def Stmts.print : Stmts → List Tok
  | .nil => []
  | .cons s ss => s.print ++ ss.print
def Elifs.print : Elifs → List Tok
  | .nil => []
  | .cons c b es => tok .kElif :: tok .lparen :: (c.print ++ tok .rparen :: tok .lbrace :: (b.print ++ tok .rbrace :: es.print))
def Else.print : Else → List Tok
  | .none => []
  | .some b => tok .kElse :: tok .lbrace :: (b.print ++ [tok .rbrace])
end

mutual
/-- The statements of the language: all expressions are well formed. -/
def Stmt.WF (cfg : Cfg) : Stmt → Prop
  | .cont => True
  | .brk => True
  | .ret => True
  | .retVal e => e.WF cfg
  | .whileLoop c b => c.WF cfg ∧ b.WF cfg
  | .ifElse c b es el => c.WF cfg ∧ b.WF cfg ∧ es.WF cfg ∧ el.WF cfg
  | .expr e => e.WF cfg
def Stmts.WF (cfg : Cfg) : Stmts → Prop
  | .nil => True
  | .cons s ss => s.WF cfg ∧ ss.WF cfg
def Elifs.WF (cfg : Cfg) : Elifs → Prop
  | .nil => True
  | .cons c b es => c.WF cfg ∧ b.WF cfg ∧ es.WF cfg
def Else.WF (cfg : Cfg) : Else → Prop
  | .none => True
  | .some b => b.WF cfg
end

/-- A token with which no statement starts and which continues no conditional statement. -/
def stopTok (k : Kind) : Bool :=
  match k with
  | .kContinue | .kBreak | .kReturn | .kWhile | .kIf | .kElif | .kElse => false
  | k => !startsExpr k

theorem withTok_ok {β : Type} (k : Kind) (r : List Tok) (next : List Tok → PR β) : withTok k (tok k :: r) next = next r := by simp [withTok, expect, tok]

theorem OF.bind {α β : Type} {x : PR α} {a : α} {r r' : List Tok} {next : α → List Tok → PR β} {b : β} (h : OF x a r) (hn : OF (next a r) b r') : OF (x.bind next) b r' := by
  rcases h with rfl | rfl
  · exact hn
  · right; rfl

theorem OF.ok {α : Type} (a : α) (r : List Tok) : OF (.ok a r) a r := .inl rfl

theorem pStmts_expr (cfg : Cfg) (f : Nat) (toks : List Tok) (h : startsExpr (peek toks) = true) :
    pStmts cfg (f + 1) toks = (pExpr cfg f toks).bind fun e r => withTok .semicolon r fun r2 => (pStmts cfg f r2).bind fun ss r' => .ok (.cons (.expr e) ss) r' := by
  rw [pStmts]
  cases hk : peek toks <;> rw [hk] at h <;> first | rfl | simp [startsExpr] at h

theorem pStmts_stop (cfg : Cfg) (f : Nat) (toks : List Tok) (h : stopTok (peek toks) = true) : pStmts cfg (f + 1) toks = .ok .nil toks := by
  rw [pStmts]
  cases hk : peek toks <;> rw [hk] at h <;> first | rfl | simp [stopTok, startsExpr] at h

/-- After a statement list come neither `elif` nor `else`. -/
theorem stmts_head (ss : Stmts) (rest : List Tok) (h : stopTok (peek rest) = true) : peek (ss.print ++ rest) ≠ .kElif ∧ peek (ss.print ++ rest) ≠ .kElse := by
  cases ss with
  | nil =>
    simp only [Stmts.print, List.nil_append]
    constructor <;> (intro he; rw [he] at h; simp [stopTok] at h)
  | cons s ss =>
    cases s with
    | expr e =>
      have := expr_head e (tok .semicolon :: (ss.print ++ rest))
      simp only [Stmts.print, Stmt.print, List.append_assoc, List.cons_append, List.nil_append]
      constructor <;> (intro he; rw [he] at this; simp [startsExpr] at this)
    | _ => simp [Stmts.print, Stmt.print, peek, tok]

mutual
theorem stmts_complete (cfg : Cfg) (ss : Stmts) (hw : ss.WF cfg) : ∀ f rest, stopTok (peek rest) = true → OF (pStmts cfg f (ss.print ++ rest)) ss rest := by
  match ss with
  | .nil =>
    intro f rest hr
    cases f with
    | zero => right; rw [pStmts]
    | succ f => left; rw [Stmts.print]; exact pStmts_stop cfg f rest hr
  | .cons s ss =>
    rw [Stmts.WF] at hw
    have hss := stmts_complete cfg ss hw.2
    have hs := stmt_complete cfg s hw.1
    intro f rest hr
    cases f with
    | zero => right; rw [pStmts]
    | succ f => rw [Stmts.print, List.append_assoc]; exact hs ss f rest (stmts_head ss rest hr) (hss f rest hr)
/-- A statement in front of a list that parses back. -/
theorem stmt_complete (cfg : Cfg) (s : Stmt) (hw : s.WF cfg) : ∀ ss f rest, (peek (ss.print ++ rest) ≠ .kElif ∧ peek (ss.print ++ rest) ≠ .kElse) →
    OF (pStmts cfg f (ss.print ++ rest)) ss rest → OF (pStmts cfg (f + 1) (s.print ++ (ss.print ++ rest))) (.cons s ss) rest := by
  match s with
  | .cont =>
    intro ss f rest _ h
    rw [pStmts]
    exact OF.bind h (OF.ok _ _)
  | .brk =>
    intro ss f rest _ h
    rw [pStmts]
    exact OF.bind h (OF.ok _ _)
  | .ret =>
    intro ss f rest _ h
    rw [pStmts]
    exact OF.bind (α := Stmt) (a := .ret) (r := ss.print ++ rest) (.inl rfl) (OF.bind h (OF.ok _ _))
  | .retVal e =>
    rw [Stmt.WF] at hw
    have he := expr_complete cfg e hw
    intro ss f rest _ h
    rw [pStmts]
    simp only [Stmt.print, List.cons_append, List.append_assoc, List.nil_append, peek_cons, List.tail_cons]
    have hret : OF (pReturn cfg f (e.print ++ tok .semicolon :: (ss.print ++ rest))) (.retVal e) (ss.print ++ rest) := by
      unfold pReturn
      rw [if_neg (by intro h; have := expr_head e (tok .semicolon :: (ss.print ++ rest)); rw [h] at this; simp [startsExpr] at this)]
      refine OF.bind (he.expr f (tok .semicolon :: (ss.print ++ rest)) (by rw [peek_cons]; decide)) ?_
      rw [withTok_ok]
      exact OF.ok _ _
    exact OF.bind hret (OF.bind h (OF.ok _ _))
  | .whileLoop c b =>
    rw [Stmt.WF] at hw
    have hc := choice_complete cfg c b hw.1 (stmts_complete cfg b hw.2)
    intro ss f rest _ h
    rw [pStmts]
    simp only [Stmt.print, List.cons_append, List.append_assoc, List.nil_append, peek_cons, List.tail_cons]
    exact OF.bind (hc f (ss.print ++ rest)) (OF.bind h (OF.ok _ _))
  | .ifElse c b es el =>
    rw [Stmt.WF] at hw
    have hc := choice_complete cfg c b hw.1 (stmts_complete cfg b hw.2.1)
    have hes := elifs_complete cfg es hw.2.2.1
    have hel := else_complete cfg el hw.2.2.2
    intro ss f rest hn h
    rw [pStmts]
    simp only [Stmt.print, List.cons_append, List.append_assoc, List.nil_append, peek_cons, List.tail_cons]
    have hif : OF (pIf cfg f (tok .lparen :: (c.print ++ tok .rparen :: tok .lbrace :: (b.print ++ tok .rbrace :: (es.print ++ (el.print ++ (ss.print ++ rest)))))))
        (.ifElse c b es el) (ss.print ++ rest) := by
      cases f with
      | zero => right; rw [pIf]
      | succ f =>
        rw [pIf]
        refine OF.bind (hc f _) (OF.bind (hes f _ ?_) (OF.bind (hel f _ hn.2) (OF.ok _ _)))
        cases el with
        | none => simpa [Else.print] using hn.1
        | some b => simp [Else.print, peek, tok]
    exact OF.bind hif (OF.bind h (OF.ok _ _))
  | .expr e =>
    rw [Stmt.WF] at hw
    have he := expr_complete cfg e hw
    intro ss f rest _ h
    simp only [Stmt.print, List.cons_append, List.append_assoc, List.nil_append]
    rw [pStmts_expr cfg f _ (expr_head e _)]
    refine OF.bind (he.expr f (tok .semicolon :: (ss.print ++ rest)) (by rw [peek_cons]; decide)) ?_
    rw [withTok_ok]
    exact OF.bind h (OF.ok _ _)
/-- A condition and a block. -/
theorem choice_complete (cfg : Cfg) (c : Expr) (b : Stmts) (hc : c.WF cfg) (hb : ∀ f rest, stopTok (peek rest) = true → OF (pStmts cfg f (b.print ++ rest)) b rest) :
    ∀ f rest, OF (pChoice cfg f (tok .lparen :: (c.print ++ tok .rparen :: tok .lbrace :: (b.print ++ tok .rbrace :: rest)))) (c, b) rest := by
  have he := expr_complete cfg c hc
  intro f rest
  cases f with
  | zero => right; rw [pChoice]
  | succ f =>
    rw [pChoice, withTok_ok]
    refine OF.bind (he.expr f _ (by rw [peek_cons]; decide)) ?_
    rw [withTok_ok, withTok_ok]
    refine OF.bind (hb f (tok .rbrace :: rest) (by rw [peek_cons]; decide)) ?_
    rw [withTok_ok]
    exact OF.ok _ _
theorem elifs_complete (cfg : Cfg) (es : Elifs) (hw : es.WF cfg) : ∀ f rest, peek rest ≠ .kElif → OF (pElifs cfg f (es.print ++ rest)) es rest := by
  match es with
  | .nil =>
    intro f rest hr
    cases f with
    | zero => right; rw [pElifs]
    | succ f => left; rw [pElifs, Elifs.print, List.nil_append, if_neg hr]
  | .cons c b es =>
    rw [Elifs.WF] at hw
    have hc := choice_complete cfg c b hw.1 (stmts_complete cfg b hw.2.1)
    have hes := elifs_complete cfg es hw.2.2
    intro f rest hr
    cases f with
    | zero => right; rw [pElifs]
    | succ f =>
      rw [pElifs]
      simp only [Elifs.print, List.cons_append, List.append_assoc, peek_cons, if_true, List.tail_cons]
      exact OF.bind (hc f _) (OF.bind (hes f rest hr) (OF.ok _ _))
theorem else_complete (cfg : Cfg) (el : Else) (hw : el.WF cfg) : ∀ f rest, peek rest ≠ .kElse → OF (pElse cfg f (el.print ++ rest)) el rest := by
  match el with
  | .none =>
    intro f rest hr
    cases f with
    | zero => right; rw [pElse]
    | succ f => left; rw [pElse, Else.print, List.nil_append, if_neg hr]
  | .some b =>
    rw [Else.WF] at hw
    have hb := stmts_complete cfg b hw
    intro f rest hr
    cases f with
    | zero => right; rw [pElse]
    | succ f =>
      rw [pElse]
      simp only [Else.print, List.cons_append, List.append_assoc, peek_cons, if_true, List.tail_cons, withTok_ok, List.nil_append]
      refine OF.bind (hb f (tok .rbrace :: rest) (by rw [peek_cons]; decide)) ?_
      rw [withTok_ok]
      exact OF.ok _ _
end

/-! ## Functions -/

/-- A type as written: a name, or a name with arguments in angle brackets. -/
structure Ty where
  base : List Char
  args : List (List Char)

def Ty.printArgs : List (List Char) → List Tok
  | [] => []
  | [a] => [(.identifier, a)]
  | a :: b :: as => (.identifier, a) :: tok .comma :: Ty.printArgs (b :: as)

def Ty.print (t : Ty) : List Tok :=
  match t.args with
  | [] => [(.identifier, t.base)]
  | a :: as => (.identifier, t.base) :: tok .lt :: (Ty.printArgs (a :: as) ++ [tok .gt])

/-- The arguments with commas between them. -/
def Ty.argsName : List (List Char) → List Char
  | [] => []
  | [a] => a
  | a :: b :: as => a ++ ',' :: Ty.argsName (b :: as)

/-- The name of the type, e.g. `simd_vector<f32>`. -/
def Ty.name (t : Ty) : List Char :=
  match t.args with
  | [] => t.base
  | a :: as => t.base ++ '<' :: (Ty.argsName (a :: as) ++ ['>'])

/-- A function as written. -/
structure FuncSrc where
  ret : Ty
  name : List Char
  params : List (Ty × List Char)
  body : Stmts

def paramPrint (p : Ty × List Char) : List Tok := p.1.print ++ [(.identifier, p.2)]

def paramsPrint : List (Ty × List Char) → List Tok
  | [] => []
  | [p] => paramPrint p
  | p :: q :: ps => paramPrint p ++ tok .comma :: paramsPrint (q :: ps)

def FuncSrc.print (s : FuncSrc) : List Tok :=
  s.ret.print ++ (.identifier, s.name) :: tok .lparen :: (paramsPrint s.params ++ tok .rparen :: tok .lbrace :: (s.body.print ++ [tok .rbrace]))

/-- The function the parser is to return. -/
def FuncSrc.func (s : FuncSrc) : Func := { ret := s.ret.name, name := s.name, params := s.params.map fun p => (p.1.name, p.2), body := s.body }

/-- Types are registered, names are names and not types, expressions are well formed. -/
structure Ty.WF (cfg : Cfg) (t : Ty) : Prop where
  base : IsName t.base
  args : ∀ a ∈ t.args, IsName a
  reg : cfg.isType t.name = true

structure FuncSrc.WF (cfg : Cfg) (s : FuncSrc) : Prop where
  ret : s.ret.WF cfg
  name : IsName s.name ∧ validName cfg s.name = true
  params : ∀ p ∈ s.params, p.1.WF cfg ∧ IsName p.2 ∧ validName cfg p.2 = true
  body : s.body.WF cfg

theorem readTypeArgs_print (as : List (List Char)) (rest : List Tok) : readTypeArgs (Ty.printArgs as ++ tok .gt :: rest) = some (Ty.argsName as ++ ['>'], rest) := by
  match as with
  | [] => simp [Ty.printArgs, Ty.argsName, tok, readTypeArgs]
  | [a] => simp [Ty.printArgs, Ty.argsName, tok, readTypeArgs]
  | a :: b :: as =>
    have ih := readTypeArgs_print (b :: as) rest
    simp only [Ty.printArgs, Ty.argsName, List.cons_append, tok] at ih ⊢
    rw [readTypeArgs]
    · rw [ih]
      simp [tok, List.append_assoc]
    · intro h; simp at h
    · intro h; simp at h

theorem readType_print (t : Ty) (n : List Char) (rest : List Tok) : readType (t.print ++ (.identifier, n) :: rest) = some (t.name, (.identifier, n) :: rest) := by
  unfold Ty.print Ty.name
  cases h : t.args with
  | nil => simp [readType]
  | cons a as =>
    simp only [List.cons_append, List.append_assoc, List.nil_append]
    rw [show tok .lt = (Kind.lt, ['<']) from rfl, readType, readTypeArgs_print (a :: as)]
    simp

theorem pTypedName_print (cfg : Cfg) (t : Ty) (n : List Char) (rest : List Tok) (ht : t.WF cfg) (hn : validName cfg n = true) :
    pTypedName cfg (t.print ++ (.identifier, n) :: rest) = .ok (t.name, n) rest := by
  unfold pTypedName
  rw [readType_print]
  simp [ht.reg, hn]

theorem pParams_print (cfg : Cfg) (ps : List (Ty × List Char)) (hp : ∀ p ∈ ps, p.1.WF cfg ∧ IsName p.2 ∧ validName cfg p.2 = true) (hne : ps ≠ []) :
    ∀ f rest, OF (pParams cfg f (paramsPrint ps ++ tok .rparen :: rest)) (ps.map fun p => (p.1.name, p.2)) (tok .rparen :: rest) := by
  match ps with
  | [] => exact absurd rfl hne
  | [p] =>
    intro f rest
    cases f with
    | zero => right; rw [pParams]
    | succ f =>
      left
      have := hp p (by simp)
      rw [pParams]
      simp only [paramsPrint, paramPrint, List.append_assoc, List.cons_append, List.nil_append]
      rw [pTypedName_print cfg p.1 p.2 _ this.1 this.2.2]
      simp [PR.bind, peek_cons]
  | p :: q :: ps =>
    intro f rest
    cases f with
    | zero => right; rw [pParams]
    | succ f =>
      have h1 := hp p (by simp)
      rw [pParams]
      simp only [paramsPrint, paramPrint, List.append_assoc, List.cons_append, List.nil_append]
      rw [pTypedName_print cfg p.1 p.2 _ h1.1 h1.2.2]
      simp only [PR.bind, peek_cons, if_true, List.tail_cons]
      rcases pParams_print cfg (q :: ps) (fun x hx => hp x (by simp at hx ⊢; right; exact hx)) (by simp) f rest with h | h
      · left; rw [h]; rfl
      · right; rw [h]

/-- The tokens of a parameter list do not start with a closing parenthesis. -/
theorem params_head (ps : List (Ty × List Char)) (hne : ps ≠ []) (rest : List Tok) : peek (paramsPrint ps ++ rest) = .identifier := by
  have hty : ∀ (t : Ty) (r : List Tok), peek (t.print ++ r) = .identifier := by
    intro t r
    unfold Ty.print
    cases t.args <;> simp [peek]
  match ps with
  | [] => exact absurd rfl hne
  | [p] => simp only [paramsPrint, paramPrint, List.append_assoc]; exact hty _ _
  | p :: q :: ps => simp only [paramsPrint, paramPrint, List.append_assoc]; exact hty _ _

theorem func_complete (cfg : Cfg) (s : FuncSrc) (hw : s.WF cfg) : ∀ f rest, OF (pFunc cfg f (s.print ++ rest)) s.func rest := by
  intro f rest
  unfold pFunc FuncSrc.print
  simp only [List.append_assoc, List.cons_append]
  rw [pTypedName_print cfg s.ret s.name _ hw.ret hw.name.2]
  simp only [PR.bind]
  rw [withTok_ok]
  have hps : OF (if peek (paramsPrint s.params ++ tok .rparen :: tok .lbrace :: (s.body.print ++ tok .rbrace :: rest)) = .rparen
      then .ok [] (paramsPrint s.params ++ tok .rparen :: tok .lbrace :: (s.body.print ++ tok .rbrace :: rest))
      else pParams cfg f (paramsPrint s.params ++ tok .rparen :: tok .lbrace :: (s.body.print ++ tok .rbrace :: rest)))
      (s.params.map fun p => (p.1.name, p.2)) (tok .rparen :: tok .lbrace :: (s.body.print ++ tok .rbrace :: rest)) := by
    cases hp : s.params with
    | nil => left; simp [paramsPrint, peek_cons]
    | cons p ps =>
      rw [if_neg (by rw [params_head (p :: ps) (by simp)]; simp)]
      exact pParams_print cfg (p :: ps) (by rw [← hp]; exact hw.params) (by simp) f _
  refine OF.bind hps ?_
  rw [withTok_ok, withTok_ok]
  refine OF.bind (stmts_complete cfg s.body hw.body f (tok .rbrace :: rest) (by rw [peek_cons]; decide)) ?_
  rw [withTok_ok]
  left
  rfl

/-- The functions of a source one after the other. -/
def funcsPrint : List FuncSrc → List Tok
  | [] => []
  | s :: ss => s.print ++ funcsPrint ss

theorem funcs_complete (cfg : Cfg) (ss : List FuncSrc) (hw : ∀ s ∈ ss, s.WF cfg) : ∀ f, OF (pFuncs cfg f (funcsPrint ss)) (ss.map FuncSrc.func) [] := by
  induction ss with
  | nil =>
    intro f
    cases f with
    | zero => right; rw [pFuncs]
    | succ f => left; rfl
  | cons s ss ih =>
    intro f
    cases f with
    | zero => right; rw [pFuncs]
    | succ f =>
      have hcons : ∃ t ts, s.print ++ funcsPrint ss = t :: ts := by
        unfold FuncSrc.print Ty.print
        cases s.ret.args <;> exact ⟨_, _, rfl⟩
      obtain ⟨t, ts, e⟩ := hcons
      rw [funcsPrint, e, pFuncs, ← e]
      refine OF.bind (func_complete cfg s (hw s (by simp)) f _) ?_
      exact OF.bind (ih (fun x hx => hw x (by simp [hx])) f) (OF.ok _ _)

/-! ## The printed tokens can be written -/

mutual
theorem stmt_writable (cfg : Cfg) (s : Stmt) (hw : s.WF cfg) : AllW s.print := by
  match s with
  | .cont => rw [Stmt.print]; exact .cons (tok_writable _ _ rfl) (.cons (tok_writable _ _ rfl) .nil)
  | .brk => rw [Stmt.print]; exact .cons (tok_writable _ _ rfl) (.cons (tok_writable _ _ rfl) .nil)
  | .ret => rw [Stmt.print]; exact .cons (tok_writable _ _ rfl) (.cons (tok_writable _ _ rfl) .nil)
  | .retVal e => rw [Stmt.print]; rw [Stmt.WF] at hw; exact .cons (tok_writable _ _ rfl) (.append (expr_writable cfg e hw) (.cons (tok_writable _ _ rfl) .nil))
  | .whileLoop c b =>
    rw [Stmt.print]; rw [Stmt.WF] at hw
    exact .cons (tok_writable _ _ rfl) (.cons (tok_writable _ _ rfl) (.append (expr_writable cfg c hw.1) (.cons (tok_writable _ _ rfl) (.cons (tok_writable _ _ rfl)
      (.append (stmts_writable cfg b hw.2) (.cons (tok_writable _ _ rfl) .nil))))))
  | .ifElse c b es el =>
    rw [Stmt.print]; rw [Stmt.WF] at hw
    exact .cons (tok_writable _ _ rfl) (.cons (tok_writable _ _ rfl) (.append (expr_writable cfg c hw.1) (.cons (tok_writable _ _ rfl) (.cons (tok_writable _ _ rfl)
      (.append (stmts_writable cfg b hw.2.1) (.cons (tok_writable _ _ rfl) (.append (elifs_writable cfg es hw.2.2.1) (else_writable cfg el hw.2.2.2))))))))
  | .expr e => rw [Stmt.print]; rw [Stmt.WF] at hw; exact .append (expr_writable cfg e hw) (.cons (tok_writable _ _ rfl) .nil)
theorem stmts_writable (cfg : Cfg) (ss : Stmts) (hw : ss.WF cfg) : AllW ss.print := by
  match ss with
  | .nil => rw [Stmts.print]; exact .nil
  | .cons s ss => rw [Stmts.print]; rw [Stmts.WF] at hw; exact .append (stmt_writable cfg s hw.1) (stmts_writable cfg ss hw.2)
theorem elifs_writable (cfg : Cfg) (es : Elifs) (hw : es.WF cfg) : AllW es.print := by
  match es with
  | .nil => rw [Elifs.print]; exact .nil
  | .cons c b es =>
    rw [Elifs.print]; rw [Elifs.WF] at hw
    exact .cons (tok_writable _ _ rfl) (.cons (tok_writable _ _ rfl) (.append (expr_writable cfg c hw.1) (.cons (tok_writable _ _ rfl) (.cons (tok_writable _ _ rfl)
      (.append (stmts_writable cfg b hw.2.1) (.cons (tok_writable _ _ rfl) (elifs_writable cfg es hw.2.2)))))))
theorem else_writable (cfg : Cfg) (el : Else) (hw : el.WF cfg) : AllW el.print := by
  match el with
  | .none => rw [Else.print]; exact .nil
  | .some b =>
    rw [Else.print]; rw [Else.WF] at hw
    exact .cons (tok_writable _ _ rfl) (.cons (tok_writable _ _ rfl) (.append (stmts_writable cfg b hw) (.cons (tok_writable _ _ rfl) .nil)))
end

theorem ty_writable (cfg : Cfg) (t : Ty) (hw : t.WF cfg) : AllW t.print := by
  have hargs : ∀ as : List (List Char), (∀ a ∈ as, IsName a) → AllW (Ty.printArgs as) := by
    intro as
    induction as with
    | nil => intro _; rw [Ty.printArgs]; exact .nil
    | cons a as ih =>
      intro h
      cases as with
      | nil => rw [Ty.printArgs]; exact .cons (name_writable a (h a (by simp))) .nil
      | cons b as => rw [Ty.printArgs]; exact .cons (name_writable a (h a (by simp))) (.cons (tok_writable _ _ rfl) (ih (fun x hx => h x (by simp at hx ⊢; right; exact hx))))
  unfold Ty.print
  cases h : t.args with
  | nil => exact .cons (name_writable _ hw.base) .nil
  | cons a as => exact .cons (name_writable _ hw.base) (.cons (tok_writable _ _ rfl) (.append (hargs _ (by rw [← h]; exact hw.args)) (.cons (tok_writable _ _ rfl) .nil)))

theorem func_writable (cfg : Cfg) (s : FuncSrc) (hw : s.WF cfg) : AllW s.print := by
  have hps : ∀ ps : List (Ty × List Char), (∀ p ∈ ps, p.1.WF cfg ∧ IsName p.2 ∧ validName cfg p.2 = true) → AllW (paramsPrint ps) := by
    intro ps
    induction ps with
    | nil => intro _; rw [paramsPrint]; exact .nil
    | cons p ps ih =>
      intro h
      have hp := h p (by simp)
      have h1 : AllW (paramPrint p) := .append (ty_writable cfg _ hp.1) (.cons (name_writable _ hp.2.1) .nil)
      cases ps with
      | nil => rw [paramsPrint]; exact h1
      | cons q ps => rw [paramsPrint]; exact .append h1 (.cons (tok_writable _ _ rfl) (ih (fun x hx => h x (by simp at hx ⊢; right; exact hx))))
  unfold FuncSrc.print
  exact .append (ty_writable cfg _ hw.ret) (.cons (name_writable _ hw.name.1) (.cons (tok_writable _ _ rfl) (.append (hps _ hw.params) (.cons (tok_writable _ _ rfl)
    (.cons (tok_writable _ _ rfl) (.append (stmts_writable cfg _ hw.body) (.cons (tok_writable _ _ rfl) .nil)))))))

/-- **C30.** Any list of functions, written out, is parsed back to the same functions. -/
theorem parse_functions_print (cfg : Cfg) (ss : List FuncSrc) (hw : ∀ s ∈ ss, s.WF cfg) : parseFunctions cfg (writeTokens (funcsPrint ss)) = .ok (ss.map FuncSrc.func) [] := by
  have hW : AllW (funcsPrint ss) := by
    induction ss with
    | nil => exact .nil
    | cons s ss ih => exact .append (func_writable cfg s (hw s (by simp))) (ih (fun x hx => hw x (by simp [hx])))
  have hs := sourceToks_write _ hW
  unfold parseFunctions
  rw [hs]
  have hf := funcs_good cfg (fuelFor (funcsPrint ss)) (funcsPrint ss) (by unfold fuelFor; omega)
  rcases funcs_complete cfg ss hw (fuelFor (funcsPrint ss)) with h | h
  · exact h
  · rw [h] at hf; exact absurd hf (by simp [Good])

/-- **C30.** A single function, written out, is parsed back. -/
theorem parse_function_print (cfg : Cfg) (s : FuncSrc) (hw : s.WF cfg) : parseFunction cfg (writeTokens s.print) = .ok s.func [] := by
  have hs := sourceToks_write _ (func_writable cfg s hw)
  unfold parseFunction
  rw [hs]
  have hf := func_good cfg (fuelFor s.print) s.print (by unfold fuelFor; omega)
  have hc := func_complete cfg s hw (fuelFor s.print) []
  rw [List.append_nil] at hc
  rcases hc with h | h
  · exact h
  · rw [h] at hf; exact absurd hf (by simp [Good])

/-! ## C31 -/

/-- **C31, violated.** Text after a complete expression is ignored: `a b` is accepted as `a`. -/
theorem expression_trailing_violated : ∃ e rest, parseExpression exampleCfg "a b".toList = .ok e rest ∧ rest ≠ [] := by
  refine ⟨.un none (.var ['a']), [(.identifier, ['b'])], ?_, by simp⟩
  have : sourceToks "a b".toList = [(.identifier, ['a']), (.identifier, ['b'])] := by decide +kernel
  unfold parseExpression
  rw [this]
  rfl

/-- **C31, violated.** Text after a complete function is ignored as well. -/
theorem function_trailing_violated : ∃ fn rest, parseFunction exampleCfg "void f ( ) { } )".toList = .ok fn rest ∧ rest ≠ [] := by
  refine ⟨{ ret := "void".toList, name := ['f'], params := [], body := .nil }, [(.rparen, [')'])], ?_, by simp⟩
  have : sourceToks "void f ( ) { } )".toList = [(.identifier, "void".toList), (.identifier, ['f']), (.lparen, ['(']), (.rparen, [')']), (.lbrace, ['{']), (.rbrace, ['}']), (.rparen, [')'])] := by
    decide +kernel
  unfold parseFunction
  rw [this]
  rfl

/-- **C31, the part that holds.** An accepted expression is the longest prefix in this sense: the tokens left over do not start with an assignment operator, and the consumed
tokens are exactly those of the expression. -/
theorem expression_prefix_partial (cfg : Cfg) (src : List Char) (e : Expr) (rest : List Tok) (h : parseExpression cfg src = .ok e rest) :
    sourceToks src = e.print ++ rest ∧ assignOp (peek rest) = none := by
  have := (soundAll cfg _).expr _ _ _ (sourceToks_lex src) h
  exact ⟨this.1, this.2.2⟩

example : ∃ s : FuncSrc, s.WF exampleCfg ∧ s.body ≠ .nil ∧ s.params ≠ [] := by
  refine ⟨⟨⟨"i32".toList, []⟩, ['f'], [(⟨"i32".toList, []⟩, ['x'])], .cons (.whileLoop (.un none (.var ['x'])) (.cons .brk .nil)) (.cons (.retVal (.un none (.var ['x']))) .nil)⟩, ?_, by simp, by simp⟩
  have hi : IsName "i32".toList := ⟨⟨'i', ['3', '2'], rfl, by decide, by decide⟩, by simp [keyword]⟩
  have hty : Ty.WF exampleCfg ⟨"i32".toList, []⟩ := ⟨hi, by simp, by decide⟩
  have hx : IsName ['x'] ∧ validName exampleCfg ['x'] = true := ⟨example_name 'x' (by decide), by decide⟩
  refine ⟨hty, ⟨example_name 'f' (by decide), by decide⟩, ?_, ?_⟩
  · intro p hp
    simp at hp
    subst hp
    exact ⟨hty, hx⟩
  · simp only [Stmts.WF, Stmt.WF, Expr.WF, Operand.WF]
    exact ⟨⟨hx, trivial, trivial⟩, hx, trivial⟩

/-! ## C86: nothing an accepted program contains is dropped -/

/-- **C86, violated.** A `break` without semicolon is dropped, together with the token in its place: the loop `while ( x ) { break , }` is accepted as a loop with an empty body. -/
theorem break_dropped_violated : parseFunction exampleCfg "void f ( ) { while ( x ) { break , } }".toList =
    .ok { ret := "void".toList, name := ['f'], params := [], body := .cons (.whileLoop (.un none (.var ['x'])) .nil) .nil } [] := by
  have : sourceToks "void f ( ) { while ( x ) { break , } }".toList =
      [(.identifier, "void".toList), (.identifier, ['f']), (.lparen, ['(']), (.rparen, [')']), (.lbrace, ['{']), (.kWhile, "while".toList), (.lparen, ['(']),
       (.identifier, ['x']), (.rparen, [')']), (.lbrace, ['{']), (.kBreak, "break".toList), (.comma, [',']), (.rbrace, ['}']), (.rbrace, ['}'])] := by decide +kernel
  unfold parseFunction
  rw [this]
  rfl

/-- Every `break` and `continue` is followed by a semicolon. -/
def Semis : List Tok → Prop
  | [] => True
  | (k, _) :: r => ((k = .kBreak ∨ k = .kContinue) → peek r = .semicolon) ∧ Semis r

theorem Semis.append {a b : List Tok} (h : Semis (a ++ b)) : Semis b := by
  induction a with
  | nil => exact h
  | cons x a ih => exact ih h.2

/-- What holds of all statement functions with fuel `f`. -/
structure SoundStmts (cfg : Cfg) (f : Nat) : Prop where
  stmts : ∀ toks ss rest, LexToks toks → Semis toks → pStmts cfg f toks = .ok ss rest → toks = ss.print ++ rest ∧ ss.WF cfg
  choice : ∀ toks cb rest, LexToks toks → Semis toks → pChoice cfg f toks = .ok cb rest →
    toks = tok .lparen :: (cb.1.print ++ tok .rparen :: tok .lbrace :: (cb.2.print ++ tok .rbrace :: rest)) ∧ cb.1.WF cfg ∧ cb.2.WF cfg
  ifs : ∀ toks s rest, LexToks toks → Semis toks → pIf cfg f toks = .ok s rest → tok .kIf :: toks = s.print ++ rest ∧ s.WF cfg
  elifs : ∀ toks es rest, LexToks toks → Semis toks → pElifs cfg f toks = .ok es rest → toks = es.print ++ rest ∧ es.WF cfg
  els : ∀ toks el rest, LexToks toks → Semis toks → pElse cfg f toks = .ok el rest → toks = el.print ++ rest ∧ el.WF cfg

theorem bind_ok {α β : Type} {x : PR α} {next : α → List Tok → PR β} {b : β} {r : List Tok} (h : x.bind next = .ok b r) : ∃ a r', x = .ok a r' ∧ next a r' = .ok b r := by
  cases x with
  | ok a r' => exact ⟨a, r', rfl, h⟩
  | fail => simp [PR.bind] at h
  | fuel => simp [PR.bind] at h

theorem withTok_inv {β : Type} {k : Kind} {toks : List Tok} {next : List Tok → PR β} {b : β} {r : List Tok} (s : List Char) (hs : fixedText k = some s) (hl : LexToks toks)
    (h : withTok k toks next = .ok b r) : ∃ r', toks = tok k :: r' ∧ next r' = .ok b r := by
  unfold withTok at h
  cases toks with
  | nil => simp [expect] at h
  | cons x r' =>
    obtain ⟨k', t⟩ := x
    simp only [expect] at h
    by_cases hk : k' = k
    · subst hk
      simp only [if_true] at h
      exact ⟨r', by rw [head_tok k' t s r' hl hs], h⟩
    · rw [if_neg hk] at h; simp at h

theorem return_sound (cfg : Cfg) (f : Nat) (toks : List Tok) (s : Stmt) (rest : List Tok) (hl : LexToks toks) (h : pReturn cfg f toks = .ok s rest) :
    tok .kReturn :: toks = s.print ++ rest ∧ s.WF cfg := by
  unfold pReturn at h
  split at h
  · rename_i hp
    simp at h
    obtain ⟨rfl, rfl⟩ := h
    refine ⟨?_, by simp [Stmt.WF]⟩
    rw [peek_split toks .semicolon _ hl hp (by simp) rfl]
    simp [Stmt.print]
  · obtain ⟨e, r, h1, h2⟩ := bind_ok h
    obtain ⟨e1, e2, _⟩ := (soundAll cfg f).expr _ _ _ hl h1
    obtain ⟨r', h3, h4⟩ := withTok_inv _ rfl (LexToks.append (by rw [← e1]; exact hl)) h2
    simp at h4
    obtain ⟨rfl, rfl⟩ := h4
    refine ⟨?_, by simpa only [Stmt.WF] using e2⟩
    rw [e1, h3]
    simp [Stmt.print]

theorem soundStmts (cfg : Cfg) (f : Nat) : SoundStmts cfg f := by
  induction f with
  | zero =>
    constructor
    · intro _ _ _ _ _ h; simp [pStmts] at h
    · intro _ _ _ _ _ h; simp [pChoice] at h
    · intro _ _ _ _ _ h; simp [pIf] at h
    · intro _ _ _ _ _ h; simp [pElifs] at h
    · intro _ _ _ _ _ h; simp [pElse] at h
  | succ f ih =>
    have se := soundAll cfg f
    constructor
    · intro toks ss rest hl hs h
      -- a statement `s` in front of the rest of the list
      have finish : ∀ (s : Stmt) (r : List Tok), toks = s.print ++ r → s.WF cfg → ((pStmts cfg f r).bind fun ss r' => .ok (.cons s ss) r') = .ok ss rest →
          toks = ss.print ++ rest ∧ ss.WF cfg := by
        intro s r h1 h2 h3
        obtain ⟨ss', r', h4, h5⟩ := bind_ok h3
        simp at h5
        obtain ⟨rfl, rfl⟩ := h5
        obtain ⟨e1, e2⟩ := ih.stmts r ss' r' (LexToks.append (by rw [← h1]; exact hl)) (Semis.append (by rw [← h1]; exact hs)) h4
        refine ⟨?_, by simp only [Stmts.WF]; exact ⟨h2, e2⟩⟩
        rw [h1, e1]
        simp [Stmts.print]
      have semi : ∀ k, (k = Kind.kContinue ∨ k = Kind.kBreak) → peek toks = k → toks = tok k :: toks.tail ∧ toks.tail = tok .semicolon :: toks.tail.tail := by
        intro k hk hp
        have h1 : toks = tok k :: toks.tail := by rcases hk with rfl | rfl <;> exact peek_split toks _ _ hl hp (by simp) rfl
        refine ⟨h1, ?_⟩
        rw [h1] at hs
        have := hs.1 (by rcases hk with rfl | rfl <;> simp)
        exact peek_split _ _ _ hl.tail this (by simp) rfl
      rw [pStmts] at h
      split at h
      · rename_i hp
        obtain ⟨h1, h2⟩ := semi .kContinue (.inl rfl) hp
        rw [h2] at h
        simp only [expect, tok, if_true] at h
        exact finish .cont toks.tail.tail (by rw [h1, h2]; simp [Stmt.print]) (by simp [Stmt.WF]) h
      · rename_i hp
        obtain ⟨h1, h2⟩ := semi .kBreak (.inr rfl) hp
        rw [h2] at h
        simp only [expect, tok, if_true] at h
        exact finish .brk toks.tail.tail (by rw [h1, h2]; simp [Stmt.print]) (by simp [Stmt.WF]) h
      · rename_i hp
        have h1 := peek_split toks .kReturn _ hl hp (by simp) rfl
        obtain ⟨s, r, h2, h3⟩ := bind_ok h
        obtain ⟨e1, e2⟩ := return_sound cfg f _ s r hl.tail h2
        rw [← h1] at e1
        exact finish s r e1 e2 h3
      · rename_i hp
        have h1 := peek_split toks .kWhile _ hl hp (by simp) rfl
        obtain ⟨cb, r, h2, h3⟩ := bind_ok h
        obtain ⟨e1, e2⟩ := ih.choice _ cb r hl.tail (by rw [h1] at hs; exact hs.2) h2
        exact finish (.whileLoop cb.1 cb.2) r (by rw [h1, e1]; simp [Stmt.print]) (by simp only [Stmt.WF]; exact e2) h3
      · rename_i hp
        have h1 := peek_split toks .kIf _ hl hp (by simp) rfl
        obtain ⟨s, r, h2, h3⟩ := bind_ok h
        obtain ⟨e1, e2⟩ := ih.ifs _ s r hl.tail (by rw [h1] at hs; exact hs.2) h2
        rw [← h1] at e1
        exact finish s r e1 e2 h3
      · split at h
        · obtain ⟨e, r, h2, h3⟩ := bind_ok h
          obtain ⟨e1, e2, _⟩ := se.expr _ _ _ hl h2
          obtain ⟨r', h4, h5⟩ := withTok_inv _ rfl (LexToks.append (by rw [← e1]; exact hl)) h3
          exact finish (.expr e) r' (by rw [e1, h4]; simp [Stmt.print]) (by simpa only [Stmt.WF] using e2) h5
        · simp at h
          obtain ⟨rfl, rfl⟩ := h
          exact ⟨by simp [Stmts.print], by simp [Stmts.WF]⟩
    · intro toks cb rest hl hs h
      rw [pChoice] at h
      obtain ⟨r, h1, h⟩ := withTok_inv _ rfl hl h
      have hl1 : LexToks r := by rw [h1] at hl; exact hl.cons
      have hs1 : Semis r := by rw [h1] at hs; exact hs.2
      obtain ⟨e, r1, h2, h⟩ := bind_ok h
      obtain ⟨e1, e2, _⟩ := se.expr _ _ _ hl1 h2
      have hl2 : LexToks r1 := LexToks.append (by rw [← e1]; exact hl1)
      have hs2 : Semis r1 := Semis.append (by rw [← e1]; exact hs1)
      obtain ⟨r2, h3, h⟩ := withTok_inv _ rfl hl2 h
      have hl3 : LexToks r2 := by rw [h3] at hl2; exact hl2.cons
      obtain ⟨r3, h4, h⟩ := withTok_inv _ rfl hl3 h
      have hl4 : LexToks r3 := by rw [h4] at hl3; exact hl3.cons
      have hs4 : Semis r3 := by rw [h3, h4] at hs2; exact hs2.2.2
      obtain ⟨ss, r4, h5, h⟩ := bind_ok h
      obtain ⟨e3, e4⟩ := ih.stmts _ _ _ hl4 hs4 h5
      obtain ⟨r5, h6, h⟩ := withTok_inv _ rfl (LexToks.append (by rw [← e3]; exact hl4)) h
      simp at h
      obtain ⟨rfl, rfl⟩ := h
      refine ⟨?_, e2, e4⟩
      rw [h1, e1, h3, h4, e3, h6]
    · intro toks s rest hl hs h
      rw [pIf] at h
      obtain ⟨cb, r, h1, h⟩ := bind_ok h
      obtain ⟨e1, e2, e3⟩ := ih.choice _ _ _ hl hs h1
      have hr : LexToks r ∧ Semis r := by
        have e1' : toks = (tok .lparen :: (cb.1.print ++ tok .rparen :: tok .lbrace :: (cb.2.print ++ [tok .rbrace]))) ++ r := by rw [e1]; simp
        exact ⟨LexToks.append (by rw [← e1']; exact hl), Semis.append (by rw [← e1']; exact hs)⟩
      obtain ⟨es, r1, h2, h⟩ := bind_ok h
      obtain ⟨e4, e5⟩ := ih.elifs _ _ _ hr.1 hr.2 h2
      have hr1 : LexToks r1 ∧ Semis r1 := ⟨LexToks.append (by rw [← e4]; exact hr.1), Semis.append (by rw [← e4]; exact hr.2)⟩
      obtain ⟨el, r2, h3, h⟩ := bind_ok h
      obtain ⟨e6, e7⟩ := ih.els _ _ _ hr1.1 hr1.2 h3
      simp at h
      obtain ⟨rfl, rfl⟩ := h
      refine ⟨?_, by simp only [Stmt.WF]; exact ⟨e2, e3, e5, e7⟩⟩
      rw [e1, e4, e6]
      simp [Stmt.print]
    · intro toks es rest hl hs h
      rw [pElifs] at h
      split at h
      · rename_i hp
        have h0 := peek_split toks .kElif _ hl hp (by simp) rfl
        obtain ⟨cb, r, h1, h⟩ := bind_ok h
        obtain ⟨e1, e2, e3⟩ := ih.choice _ _ _ hl.tail (by rw [h0] at hs; exact hs.2) h1
        have hr : LexToks r ∧ Semis r := by
          have e1' : toks = (tok .kElif :: tok .lparen :: (cb.1.print ++ tok .rparen :: tok .lbrace :: (cb.2.print ++ [tok .rbrace]))) ++ r := by rw [h0, e1]; simp
          exact ⟨LexToks.append (by rw [← e1']; exact hl), Semis.append (by rw [← e1']; exact hs)⟩
        obtain ⟨es', r1, h2, h⟩ := bind_ok h
        obtain ⟨e4, e5⟩ := ih.elifs _ _ _ hr.1 hr.2 h2
        simp at h
        obtain ⟨rfl, rfl⟩ := h
        refine ⟨?_, by simp only [Elifs.WF]; exact ⟨e2, e3, e5⟩⟩
        rw [h0, e1, e4]
        simp [Elifs.print]
      · simp at h
        obtain ⟨rfl, rfl⟩ := h
        exact ⟨by simp [Elifs.print], by simp [Elifs.WF]⟩
    · intro toks el rest hl hs h
      rw [pElse] at h
      split at h
      · rename_i hp
        have h0 := peek_split toks .kElse _ hl hp (by simp) rfl
        obtain ⟨r, h1, h⟩ := withTok_inv _ rfl hl.tail h
        have e1' : toks = [tok .kElse, tok .lbrace] ++ r := by rw [h0, h1]; rfl
        obtain ⟨ss, r1, h2, h⟩ := bind_ok h
        obtain ⟨e3, e4⟩ := ih.stmts r ss r1 (LexToks.append (by rw [← e1']; exact hl)) (Semis.append (by rw [← e1']; exact hs)) h2
        obtain ⟨r2, h3, h⟩ := withTok_inv _ rfl (LexToks.append (by rw [← e3]; exact LexToks.append (by rw [← e1']; exact hl))) h
        simp at h
        obtain ⟨rfl, rfl⟩ := h
        refine ⟨?_, by simpa only [Else.WF] using e4⟩
        rw [e1', e3, h3]
        simp [Else.print]
      · simp at h
        obtain ⟨rfl, rfl⟩ := h
        exact ⟨by simp [Else.print], by simp [Else.WF]⟩

/-- **C86, the part that holds.** If every `break` and `continue` of the text is followed by a semicolon, then in an accepted function the tokens between the braces are exactly
those of the statements. -/
theorem function_body_kept_partial (cfg : Cfg) (src : List Char) (fn : Func) (rest : List Tok) (hs : Semis (sourceToks src)) (h : parseFunction cfg src = .ok fn rest) :
    ∃ head, sourceToks src = head ++ tok .lbrace :: (fn.body.print ++ tok .rbrace :: rest) ∧ fn.body.WF cfg := by
  unfold parseFunction pFunc at h
  have hl := sourceToks_lex src
  generalize sourceToks src = toks at *
  -- what is consumed before the body is some prefix
  have pre_typed : ∀ t x r, pTypedName cfg t = .ok x r → ∃ p, t = p ++ r := by
    have ha : ∀ (t : List Tok) x, readTypeArgs t = some x → ∃ p, t = p ++ x.2 := by
      intro t
      fun_induction readTypeArgs t with
      | case1 => simp
      | case2 x r => intro y hy; simp at hy; subst hy; exact ⟨[_], rfl⟩
      | case3 => simp
      | case4 k t y r h1 h2 ih =>
        intro x hx
        simp at hx
        obtain ⟨a, b, e, rfl⟩ := hx
        obtain ⟨p, hp⟩ := ih _ e
        exact ⟨(k, t) :: (.comma, y) :: p, by rw [hp]; rfl⟩
      | case5 k t r h1 h2 h3 ih =>
        intro x hx
        simp at hx
        obtain ⟨a, b, e, rfl⟩ := hx
        obtain ⟨p, hp⟩ := ih _ e
        exact ⟨(k, t) :: p, by rw [hp]; rfl⟩
    have hr : ∀ (t : List Tok) x, readType t = some x → ∃ p, t = p ++ x.2 := by
      intro t x hx
      unfold readType at hx
      split at hx
      · simp at hx; subst hx; exact ⟨[], rfl⟩
      · simp at hx
        obtain ⟨a, b, e, rfl⟩ := hx
        obtain ⟨p, hp⟩ := ha _ _ e
        exact ⟨_ :: _ :: p, by rw [hp]; rfl⟩
      · simp at hx; subst hx; exact ⟨[_], rfl⟩
    intro t x r hx
    unfold pTypedName at hx
    split at hx
    · simp at hx
    · rename_i ty r0 hr0
      obtain ⟨p, hp⟩ := hr _ _ hr0
      split at hx
      · split at hx
        · rename_i n r'
          split at hx <;> simp at hx
          obtain ⟨rfl, rfl⟩ := hx
          exact ⟨p ++ [(.identifier, n)], by rw [hp]; simp⟩
        · simp at hx
      · simp at hx
  have pre_params : ∀ f t x r, pParams cfg f t = .ok x r → ∃ p, t = p ++ r := by
    intro f
    induction f with
    | zero => intro t x r hx; simp [pParams] at hx
    | succ f ih =>
      intro t x r hx
      rw [pParams] at hx
      obtain ⟨a, r1, h1, hx⟩ := bind_ok hx
      obtain ⟨p, hp⟩ := pre_typed _ _ _ h1
      split at hx
      · obtain ⟨as, r2, h2, hx⟩ := bind_ok hx
        simp at hx
        obtain ⟨rfl, rfl⟩ := hx
        obtain ⟨p2, hp2⟩ := ih _ _ _ h2
        cases r1 with
        | nil => simp at hp2; exact ⟨p, by rw [hp, hp2.2]⟩
        | cons y r1 => simp at hp2; exact ⟨p ++ y :: p2, by rw [hp, hp2]; simp⟩
      · simp at hx
        obtain ⟨rfl, rfl⟩ := hx
        exact ⟨p, hp⟩
  obtain ⟨rn, r, h1, h⟩ := bind_ok h
  obtain ⟨p1, hp1⟩ := pre_typed _ _ _ h1
  have hl1 : LexToks r := LexToks.append (by rw [← hp1]; exact hl)
  have hs1 : Semis r := Semis.append (by rw [← hp1]; exact hs)
  obtain ⟨r1, h2, h⟩ := withTok_inv _ rfl hl1 h
  have hl2 : LexToks r1 := by rw [h2] at hl1; exact hl1.cons
  have hs2 : Semis r1 := by rw [h2] at hs1; exact hs1.2
  obtain ⟨ps, r2, h3, h⟩ := bind_ok h
  obtain ⟨p2, hp2⟩ : ∃ p, r1 = p ++ r2 := by
    split at h3
    · simp at h3; exact ⟨[], by rw [h3.2]; rfl⟩
    · exact pre_params _ _ _ _ h3
  have hl3 : LexToks r2 := LexToks.append (by rw [← hp2]; exact hl2)
  have hs3 : Semis r2 := Semis.append (by rw [← hp2]; exact hs2)
  obtain ⟨r3, h4, h⟩ := withTok_inv _ rfl hl3 h
  have hl4 : LexToks r3 := by rw [h4] at hl3; exact hl3.cons
  have hs4 : Semis r3 := by rw [h4] at hs3; exact hs3.2
  obtain ⟨r4, h5, h⟩ := withTok_inv _ rfl hl4 h
  have hl5 : LexToks r4 := by rw [h5] at hl4; exact hl4.cons
  have hs5 : Semis r4 := by rw [h5] at hs4; exact hs4.2
  obtain ⟨ss, r5, h6, h⟩ := bind_ok h
  obtain ⟨e1, e2⟩ := (soundStmts cfg _).stmts _ _ _ hl5 hs5 h6
  obtain ⟨r6, h7, h⟩ := withTok_inv _ rfl (LexToks.append (by rw [← e1]; exact hl5)) h
  simp at h
  obtain ⟨rfl, rfl⟩ := h
  refine ⟨p1 ++ tok .lparen :: (p2 ++ [tok .rparen]), ?_, e2⟩
  rw [hp1, h2, hp2, h4, h5, e1, h7]
  simp

/-! ## C84 -/

/-- **C84, the part that holds.** With spaces around the two characters, the conditional operator on names is read as one. -/
theorem conditional_spaced_partial (cfg : Cfg) (a b c : List Char) (ha : IsName a ∧ validName cfg a = true) (hb : IsName b ∧ validName cfg b = true) (hc : IsName c ∧ validName cfg c = true) :
    parseExpression cfg (a ++ [' ', '?', ' '] ++ b ++ [' ', ':', ' '] ++ c ++ [' ']) = .ok (.sel (.un none (.var a)) (.un none (.var b)) (.un none (.var c))) [] := by
  have h := parse_print cfg (.sel (.un none (.var a)) (.un none (.var b)) (.un none (.var c))) (by
    simp only [Expr.WF, Operand.WF, Expr.level]
    exact ⟨ha, hb, hc, by decide⟩)
  have e : writeTokens (Expr.sel (.un none (.var a)) (.un none (.var b)) (.un none (.var c))).print = a ++ [' ', '?', ' '] ++ b ++ [' ', ':', ' '] ++ c ++ [' '] := by
    simp [Expr.print, Operand.print, writeTokens, tok, fixedText]
  rw [e] at h
  exact h

end Verif.Ast
