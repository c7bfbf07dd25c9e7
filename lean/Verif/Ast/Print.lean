import Verif.Ast.LexerProps
import Verif.Ast.Parser
/-!
# Printing expressions: the specification of the expression grammar for C30
-/
namespace Verif.Ast

/-- A token whose text is fixed by its kind. -/
def tok (k : Kind) : Tok := (k, (fixedText k).getD [])

/-- The token of a binary operator. -/
def BinOp.kind : BinOp → Kind
  | .pow => .caret | .mul => .star | .div => .slash | .mod => .percent | .add => .plus | .sub => .minus
  | .eq => .eq | .ne => .ne | .ge => .ge | .le => .le | .gt => .gt | .lt => .lt | .or => .or | .and => .and
  | .assign => .assign | .addAssign => .plusAssign | .subAssign => .minusAssign | .mulAssign => .starAssign | .divAssign => .slashAssign | .modAssign => .percentAssign

/-- Precedence: 1 power, 2 multiplication, 3 addition, 4 comparison, 5 logic (both operators), 6 assignment. -/
def BinOp.level : BinOp → Nat
  | .pow => 1
  | .mul | .div | .mod => 2
  | .add | .sub => 3
  | .eq | .ne | .ge | .le | .gt | .lt => 4
  | .or | .and => 5
  | _ => 6

/-- Operators of levels 2 to 5 group to the left, power and assignment to the right; the base of a power is a unary expression. -/
def BinOp.leftLevel (op : BinOp) : Nat := if op.level = 1 then 0 else if op.level = 6 then 5 else op.level
def BinOp.rightLevel (op : BinOp) : Nat := if op.level = 1 then 1 else if op.level = 6 then 6 else op.level - 1

def UnOp.kind : UnOp → Kind
  | .neg => .minus
  | .not => .not

/-- The precedence of an expression: 0 for unary expressions and operands, 6 for conditionals. -/
def Expr.level : Expr → Nat
  | .un _ _ => 0
  | .bin _ op _ => op.level
  | .sel _ _ _ => 6

mutual
/-- The tokens of an expression as written by hand. -/
def Expr.print : Expr → List Tok
  | .un none o => o.print
  | .un (some op) o => tok op.kind :: o.print
  | .bin l op r => l.print ++ tok op.kind :: r.print
  | .sel c t f => c.print ++ tok .question :: (t.print ++ tok .colon :: f.print)
def Operand.print : Operand → List Tok
  | .bool b => [(.bool, if b then "true".toList else "false".toList)]
  | .str s => [(.string, '"' :: (s ++ ['"']))]
  | .num t => [(.number, t)]
  | .define n => [tok .kAuto, (.identifier, n)]
  | .paren e => tok .lparen :: (e.print ++ [tok .rparen])
  | .array es => tok .lbracket :: (es.print ++ [tok .rbracket])
  | .var n => [(.identifier, n)]
  | .call n es => (.identifier, n) :: tok .lparen :: (es.print ++ [tok .rparen])
  | .access n ms => (.identifier, n) :: ms.print
def Exprs.print : Exprs → List Tok
  | .nil => []
  | .cons e es => e.print ++ es.printRest
/-- Further elements with a comma before each. -/
def Exprs.printRest : Exprs → List Tok
  | .nil => []
  | .cons e es => tok .comma :: (e.print ++ es.printRest)
def Members.print : Members → List Tok
  | .nil => []
  | .cons m ms => m.print ++ ms.print
def Member.print : Member → List Tok
  | .field n => [tok .dot, (.identifier, n)]
  | .method n es => tok .dot :: (.identifier, n) :: tok .lparen :: (es.print ++ [tok .rparen])
  | .key s => [tok .lbracket, (.string, '"' :: (s ++ ['"'])), tok .rbracket]
  | .index t => [tok .lbracket, (.number, t), tok .rbracket]
  | .ref n => [tok .lbracket, (.identifier, n), tok .rbracket]
end

/-- A name the lexer reads as one identifier. -/
def IsName (n : List Char) : Prop := NameText n ∧ keyword n = none

mutual
/-- The expressions of the language: subexpressions of an operator bind tighter than the operator allows, names are not type names, numbers are representable. -/
def Expr.WF (cfg : Cfg) : Expr → Prop
  | .un _ o => o.WF cfg
  | .bin l op r => l.WF cfg ∧ r.WF cfg ∧ l.level ≤ op.leftLevel ∧ r.level ≤ op.rightLevel
  | .sel c t f => c.WF cfg ∧ t.WF cfg ∧ f.WF cfg ∧ c.level ≤ 5
def Operand.WF (cfg : Cfg) : Operand → Prop
  | .bool _ => True
  | .str s => StrBody s
  | .num t => NumberText t ∧ numberOk cfg t = true
  | .define n => IsName n ∧ validName cfg n = true
  | .paren e => e.WF cfg
  | .array es => es.WF cfg
  | .var n => IsName n ∧ validName cfg n = true
  | .call n es => IsName n ∧ validName cfg n = true ∧ es.WF cfg
  | .access n ms => IsName n ∧ validName cfg n = true ∧ ms ≠ .nil ∧ ms.WF cfg
def Exprs.WF (cfg : Cfg) : Exprs → Prop
  | .nil => True
  | .cons e es => e.WF cfg ∧ es.WF cfg
def Members.WF (cfg : Cfg) : Members → Prop
  | .nil => True
  | .cons m ms => m.WF cfg ∧ ms.WF cfg
def Member.WF (cfg : Cfg) : Member → Prop
  | .field n => IsName n
  | .method n es => IsName n ∧ es.WF cfg
  | .key s => StrBody s
  | .index t => NumberText t
  | .ref n => IsName n
end

/-- From which level on a token continues the expression before it: 0 for member access and calls, then the operators; 7 for tokens that never do. -/
def contLevel : Kind → Nat
  | .dot | .lbracket | .lparen => 0
  | .caret => 1
  | .star | .slash | .percent => 2
  | .plus | .minus => 3
  | .eq | .ne | .ge | .le | .gt | .lt => 4
  | .or | .and => 5
  | .question | .assign | .plusAssign | .minusAssign | .starAssign | .slashAssign | .percentAssign => 6
  | _ => 7

/-! ## Every expression as a tree without parentheses -/

/-- Trees built from operators and operands. -/
inductive Tree where
  | atom (o : Operand)
  | un (op : UnOp) (t : Tree)
  | bin (l : Tree) (op : BinOp) (r : Tree)
  | sel (c t f : Tree)

/-- Parentheses where the level is too high. -/
def fit (k : Nat) (e : Expr) : Expr := if e.level ≤ k then e else .un none (.paren e)

/-- The tree as operand of a unary operator. -/
def asOperand (t : Tree) (e : Expr) : Operand :=
  match t with
  | .atom o => o
  | _ => .paren e

/-- The expression that has the tree, with only the parentheses that precedence and grouping require. -/
def Tree.toExpr : Tree → Expr
  | .atom o => .un none o
  | .un op t => .un (some op) (asOperand t t.toExpr)
  | .bin l op r => .bin (fit op.leftLevel l.toExpr) op (fit op.rightLevel r.toExpr)
  | .sel c t f => .sel (fit 5 c.toExpr) t.toExpr f.toExpr

/-- The tree of an expression: parentheses are dropped. -/
def Expr.toTree : Expr → Tree
  | .un none (.paren e) => e.toTree
  | .un none o => .atom o
  | .un (some op) (.paren e) => .un op e.toTree
  | .un (some op) o => .un op (.atom o)
  | .bin l op r => .bin l.toTree op r.toTree
  | .sel c t f => .sel c.toTree t.toTree f.toTree

/-- The operands of a tree are well formed and are not themselves parenthesised. -/
def Tree.WF (cfg : Cfg) : Tree → Prop
  | .atom o => o.WF cfg ∧ ∀ e, o ≠ .paren e
  | .un _ t => t.WF cfg
  | .bin l _ r => l.WF cfg ∧ r.WF cfg
  | .sel c t f => c.WF cfg ∧ t.WF cfg ∧ f.WF cfg

theorem fit_level (k : Nat) (e : Expr) : (fit k e).level ≤ k := by
  unfold fit
  split
  · assumption
  · simp [Expr.level]

theorem fit_wf (cfg : Cfg) (k : Nat) (e : Expr) (h : e.WF cfg) : (fit k e).WF cfg := by
  unfold fit
  split
  · exact h
  · simpa [Expr.WF, Operand.WF] using h

theorem fit_tree (k : Nat) (e : Expr) : (fit k e).toTree = e.toTree := by
  unfold fit
  split
  · rfl
  · simp [Expr.toTree]

/-- The parenthesised expression is well formed and has the tree. -/
theorem toExpr_spec (cfg : Cfg) (t : Tree) (h : t.WF cfg) : t.toExpr.WF cfg ∧ t.toExpr.toTree = t := by
  induction t with
  | atom o =>
    refine ⟨by simpa [Tree.toExpr, Expr.WF] using h.1, ?_⟩
    cases o <;> simp [Tree.toExpr, Expr.toTree]
    exact absurd rfl (h.2 _)
  | un op t ih =>
    obtain ⟨h1, h2⟩ := ih h
    cases t with
    | atom o =>
      refine ⟨by simpa [Tree.toExpr, asOperand, Expr.WF] using h.1, ?_⟩
      cases o <;> simp [Tree.toExpr, asOperand, Expr.toTree]
      exact absurd rfl (h.2 _)
    | un op' t' =>
      refine ⟨by simpa [Tree.toExpr, asOperand, Expr.WF, Operand.WF] using h1, ?_⟩
      rw [Tree.toExpr, asOperand, Expr.toTree, h2]
      simp
    | bin l op' r =>
      refine ⟨by simpa [Tree.toExpr, asOperand, Expr.WF, Operand.WF] using h1, ?_⟩
      rw [Tree.toExpr, asOperand, Expr.toTree, h2]
      simp
    | sel c t' f =>
      refine ⟨by simpa [Tree.toExpr, asOperand, Expr.WF, Operand.WF] using h1, ?_⟩
      rw [Tree.toExpr, asOperand, Expr.toTree, h2]
      simp
  | bin l op r ihl ihr =>
    obtain ⟨h1, h2⟩ := ihl h.1
    obtain ⟨h3, h4⟩ := ihr h.2
    refine ⟨?_, ?_⟩
    · simp only [Tree.toExpr, Expr.WF]
      exact ⟨fit_wf _ _ _ h1, fit_wf _ _ _ h3, fit_level _ _, fit_level _ _⟩
    · simp only [Tree.toExpr, Expr.toTree, fit_tree, h2, h4]
  | sel c t f ihc iht ihf =>
    obtain ⟨h1, h2⟩ := ihc h.1
    obtain ⟨h3, h4⟩ := iht h.2.1
    obtain ⟨h5, h6⟩ := ihf h.2.2
    refine ⟨?_, ?_⟩
    · simp only [Tree.toExpr, Expr.WF]
      exact ⟨fit_wf _ _ _ h1, h3, h5, fit_level _ _⟩
    · simp only [Tree.toExpr, Expr.toTree, fit_tree, h2, h4, h6]

end Verif.Ast
