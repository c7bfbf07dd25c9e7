import Verif.Ast.Lexer
/-!
# The parser

`/repo/rapidudf/ast/grammar.cc` 40–968, function by function. The parser reads the token list that the lexer produces (`Verif.Ast.lexAll`), without the end of input: an empty list
means that every further token is the end of input. Positions kept for error messages are not modelled. `lex.Expect` consumes the token it looks at whether or not it fits
(lexer.cc 324–332); all callers but two fail when it does not fit, and these two are modelled as they are. Recursion is bounded by fuel with a separate outcome; enough fuel is
shown to exist for every input (`Verif.Ast.Total`). The depth of the C++ stack is not modelled.
-/
namespace Verif.Ast

abbrev Tok := Kind × List Char

/-- What a parsing function returns: a value and the remaining tokens, a failure, or no fuel left in the model. -/
inductive PR (α : Type) where
  | ok (a : α) (rest : List Tok)
  | fail
  | fuel

/-- Facts about the environment: the registered type names (`Symbols::IsDTypeExist`, symbols.cc 119–132), and whether `std::from_chars` can represent a decimal (grammar.cc 144). -/
structure Cfg where
  isType : List Char → Bool
  inRange : List Char → Bool

inductive UnOp where
  | neg | not
deriving DecidableEq

inductive BinOp where
  | pow | mul | div | mod | add | sub | eq | ne | ge | le | gt | lt | or | and
  | assign | addAssign | subAssign | mulAssign | divAssign | modAssign
deriving DecidableEq

mutual
/-- `BinaryExpr` with at most one right operand, `UnaryExpr` and `SelectExpr`, `/repo/rapidudf/ast/expression.h`. A `BinaryExpr` without right operand around a unary expression
is the unary expression. -/
inductive Expr where
  | un (op : Option UnOp) (o : Operand)
  | bin (l : Expr) (op : BinOp) (r : Expr)
  | sel (c t f : Expr)
/-- `Operand`, expression.h. Numbers keep their text. -/
inductive Operand where
  | bool (b : Bool)
  | str (s : List Char)
  | num (t : List Char)
  | define (n : List Char)
  | paren (e : Expr)
  | array (es : Exprs)
  | var (n : List Char)
  | call (n : List Char) (es : Exprs)
  | access (n : List Char) (ms : Members)
inductive Exprs where
  | nil
  | cons (e : Expr) (es : Exprs)
inductive Members where
  | nil
  | cons (m : Member) (ms : Members)
/-- `FieldAccess` and `DynamicParamAccess`, expression.h. An index keeps its text. -/
inductive Member where
  | field (n : List Char)
  | method (n : List Char) (es : Exprs)
  | key (s : List Char)
  | index (t : List Char)
  | ref (n : List Char)
end

/-- The kind of the next token (`Peek`, lexer.cc 315–320). -/
def peek : List Tok → Kind
  | [] => .eof
  | (k, _) :: _ => k

/-- `AssignOpFromToken`, grammar.cc 58–68. -/
def assignOp : Kind → Option BinOp
  | .assign => some .assign
  | .plusAssign => some .addAssign
  | .minusAssign => some .subAssign
  | .starAssign => some .mulAssign
  | .slashAssign => some .divAssign
  | .percentAssign => some .modAssign
  | _ => none

/-- The operators of the four left associative levels, grammar.cc 70–105: 2 `MultiplicativeOpFromToken`, 3 `AdditiveOpFromToken`, 4 `CmpOpFromToken`, 5 `LogicOpFromToken`. -/
def levelOp : Nat → Kind → Option BinOp
  | 2, .star => some .mul
  | 2, .slash => some .div
  | 2, .percent => some .mod
  | 3, .plus => some .add
  | 3, .minus => some .sub
  | 4, .eq => some .eq
  | 4, .ne => some .ne
  | 4, .ge => some .ge
  | 4, .le => some .le
  | 4, .gt => some .gt
  | 4, .lt => some .lt
  | 5, .or => some .or
  | 5, .and => some .and
  | _, _ => none

/-- `UnaryOpFromToken`, grammar.cc 107–113. -/
def unaryOp : Kind → Option UnOp
  | .minus => some .neg
  | .not => some .not
  | _ => none

/-- `GetReservedKeywords`, grammar.cc 40–44. -/
def reservedNames : List (List Char) :=
  ["return".toList, "if".toList, "elif".toList, "else".toList, "while".toList, "auto".toList, "break".toList, "continue".toList]

/-- `IsValidIdentifier`, grammar.cc 46–54. -/
def validName (cfg : Cfg) (n : List Char) : Bool := !cfg.isType n && !reservedNames.contains n

/-- `Symbols::GetNumberSymbols`, symbols.cc 57–63. -/
def numberSuffixes : List (List Char) :=
  ["u8".toList, "i8".toList, "u16".toList, "i16".toList, "u32".toList, "i32".toList, "u64".toList, "i64".toList, "f32".toList, "f64".toList, "f80".toList]

/-- The digits and the suffix of a number token: the first underscore after the first character separates them, grammar.cc 127–141. -/
def splitNumber (t : List Char) : List Char × Option (List Char) :=
  let n := 1 + countWhile (fun c => c != '_') (t.drop 1)
  match t.drop n with
  | _ :: suf => (t.take n, some suf)
  | [] => (t, none)

/-- `ParseNumber`, grammar.cc 124–150: does it succeed. Its value is the subject of C35. -/
def numberOk (cfg : Cfg) (t : List Char) : Bool :=
  match splitNumber t with
  | (ds, some suf) => numberSuffixes.contains suf && cfg.inRange ds
  | (ds, none) => cfg.inRange ds

/-- `tok.text.substr(1, tok.text.size() - 2)`, grammar.cc 172, 332. -/
def stripQuotes (t : List Char) : List Char := (t.drop 1).take (t.length - 2)

/-- `parse_dynamic_param_access`, grammar.cc 324–355; the list starts after the bracket. -/
def pIndex : List Tok → PR Member
  | (.string, t) :: (.rbracket, _) :: r => .ok (.key (stripQuotes t)) r
  | (.number, t) :: (.rbracket, _) :: r => .ok (.index t) r
  | (.identifier, n) :: (.rbracket, _) :: r => .ok (.ref n) r
  | _ => .fail

mutual
/-- `parse_operand`, grammar.cc 158–231, `parse_array` 234–256, `parse_var_accessor` 259–284. -/
def pOperand (cfg : Cfg) : Nat → List Tok → PR Operand
  | 0, _ => .fuel
  | f + 1, toks =>
    match toks with
    | (.bool, t) :: r => .ok (.bool (t == "true".toList)) r
    | (.string, t) :: r => .ok (.str (stripQuotes t)) r
    | (.number, t) :: r => if numberOk cfg t = true then .ok (.num t) r else .fail
    | (.kAuto, _) :: (.identifier, n) :: r => if validName cfg n = true then .ok (.define n) r else .fail
    | (.lparen, _) :: r =>
      match pExpr cfg f r with
      | .ok e ((.rparen, _) :: r') => .ok (.paren e) r'
      | .ok _ _ => .fail
      | .fail => .fail
      | .fuel => .fuel
    | (.lbracket, _) :: r =>
      match pArgs cfg f .rbracket r with
      | .ok es r' => .ok (.array es) r'
      | .fail => .fail
      | .fuel => .fuel
    | (.identifier, n) :: r =>
      if validName cfg n = true then
        match r with
        | (.dot, x) :: r' =>
          match pMembers cfg f ((.dot, x) :: r') with
          | .ok ms r'' => .ok (.access n ms) r''
          | .fail => .fail
          | .fuel => .fuel
        | (.lbracket, x) :: r' =>
          match pMembers cfg f ((.lbracket, x) :: r') with
          | .ok ms r'' => .ok (.access n ms) r''
          | .fail => .fail
          | .fuel => .fuel
        | (.lparen, _) :: r' =>
          match pArgs cfg f .rparen r' with
          | .ok es r'' => .ok (.call n es) r''
          | .fail => .fail
          | .fuel => .fuel
        | _ => .ok (.var n) r
      else .fail
    | _ => .fail

/-- The elements of an array or the arguments of a call up to the closing token, after the opening one: `parse_array` 239–255, `parse_func_invoke_args` 362–380. -/
def pArgs (cfg : Cfg) : Nat → Kind → List Tok → PR Exprs
  | 0, _, _ => .fuel
  | f + 1, close, toks =>
    if peek toks = close then .ok .nil toks.tail
    else
      match pExprs cfg f toks with
      | .ok es r => if peek r = close then .ok es r.tail else .fail
      | .fail => .fail
      | .fuel => .fuel

/-- One expression and, after each comma, another: 240–248, 364–372. -/
def pExprs (cfg : Cfg) : Nat → List Tok → PR Exprs
  | 0, _ => .fuel
  | f + 1, toks =>
    match pExpr cfg f toks with
    | .ok e ((.comma, _) :: r) =>
      match pExprs cfg f r with
      | .ok es r' => .ok (.cons e es) r'
      | .fail => .fail
      | .fuel => .fuel
    | .ok e r => .ok (.cons e .nil) r
    | .fail => .fail
    | .fuel => .fuel

/-- `parse_member_access`, grammar.cc 287–302 with `parse_field_access` 305–321. -/
def pMembers (cfg : Cfg) : Nat → List Tok → PR Members
  | 0, _ => .fuel
  | f + 1, toks =>
    match toks with
    | (.dot, _) :: (.identifier, n) :: (.lparen, _) :: r =>
      match pArgs cfg f .rparen r with
      | .ok es r' =>
        match pMembers cfg f r' with
        | .ok ms r'' => .ok (.cons (.method n es) ms) r''
        | .fail => .fail
        | .fuel => .fuel
      | .fail => .fail
      | .fuel => .fuel
    | (.dot, _) :: (.identifier, n) :: r =>
      match pMembers cfg f r with
      | .ok ms r' => .ok (.cons (.field n) ms) r'
      | .fail => .fail
      | .fuel => .fuel
    | (.dot, _) :: _ => .fail
    | (.lbracket, _) :: r =>
      match pIndex r with
      | .ok m r' =>
        match pMembers cfg f r' with
        | .ok ms r'' => .ok (.cons m ms) r''
        | .fail => .fail
        | .fuel => .fuel
      | .fail => .fail
      | .fuel => .fuel
    | _ => .ok .nil toks

/-- `parse_unary_expr`, grammar.cc 384–401. -/
def pUnary (cfg : Cfg) : Nat → List Tok → PR Expr
  | 0, _ => .fuel
  | f + 1, toks =>
    match unaryOp (peek toks) with
    | some op =>
      match pOperand cfg f toks.tail with
      | .ok o r => .ok (.un (some op) o) r
      | .fail => .fail
      | .fuel => .fuel
    | none =>
      match pOperand cfg f toks with
      | .ok o r => .ok (.un none o) r
      | .fail => .fail
      | .fuel => .fuel

/-- Level 1 is `parse_power_expr`, grammar.cc 408–425; levels 2 to 5 are `parse_binary_left` 430–449 with the level below as `parse_next`: `parse_multiplicative_expr`,
`parse_additive_expr`, `parse_cmp_expr`, `parse_logic_expr` 452–477. -/
def pLevel (cfg : Cfg) : Nat → Nat → List Tok → PR Expr
  | 0, _, _ => .fuel
  | _ + 1, 0, _ => .fail
  | f + 1, 1, toks =>
    match pUnary cfg f toks with
    | .ok e ((.caret, _) :: r) =>
      match pLevel cfg f 1 r with
      | .ok e2 r' => .ok (.bin e .pow e2) r'
      | .fail => .fail
      | .fuel => .fuel
    | .ok e r => .ok e r
    | .fail => .fail
    | .fuel => .fuel
  | f + 1, k + 2, toks =>
    match pLevel cfg f (k + 1) toks with
    | .ok e r => pLoop cfg f (k + 2) e r
    | .fail => .fail
    | .fuel => .fuel

/-- The loop of `parse_binary_left`, grammar.cc 435–447. -/
def pLoop (cfg : Cfg) : Nat → Nat → Expr → List Tok → PR Expr
  | 0, _, _, _ => .fuel
  | f + 1, k, left, toks =>
    match levelOp k (peek toks) with
    | some op =>
      match pLevel cfg f (k - 1) toks.tail with
      | .ok e r => pLoop cfg f k (.bin left op e) r
      | .fail => .fail
      | .fuel => .fuel
    | none => .ok left toks

/-- `parse_assign` and `parse_expression`, grammar.cc 480–538. -/
def pExpr (cfg : Cfg) : Nat → List Tok → PR Expr
  | 0, _ => .fuel
  | f + 1, toks =>
    match pLevel cfg f 5 toks with
    | .ok c ((.question, _) :: r) =>
      match pExpr cfg f r with
      | .ok t ((.colon, _) :: r2) =>
        match pExpr cfg f r2 with
        | .ok e r3 =>
          match assignOp (peek r3) with
          | some op =>
            match pExpr cfg f r3.tail with
            | .ok rhs r4 => .ok (.bin (.sel c t e) op rhs) r4
            | .fail => .fail
            | .fuel => .fuel
          | none => .ok (.sel c t e) r3
        | .fail => .fail
        | .fuel => .fuel
      | .ok _ _ => .fail
      | .fail => .fail
      | .fuel => .fuel
    | .ok l r =>
      match assignOp (peek r) with
      | some op =>
        match pExpr cfg f r.tail with
        | .ok rhs r2 => .ok (.bin l op rhs) r2
        | .fail => .fail
        | .fuel => .fuel
      | none => .ok l r
    | .fail => .fail
    | .fuel => .fuel
end

/-! ## Statements and functions -/

mutual
/-- `Statement`, `/repo/rapidudf/ast/statement.h`. -/
inductive Stmt where
  | cont
  | brk
  | ret
  | retVal (e : Expr)
  | whileLoop (c : Expr) (body : Stmts)
  | ifElse (c : Expr) (body : Stmts) (elifs : Elifs) (els : Else)
  | expr (e : Expr)
inductive Stmts where
  | nil
  | cons (s : Stmt) (ss : Stmts)
inductive Elifs where
  | nil
  | cons (c : Expr) (body : Stmts) (rest : Elifs)
inductive Else where
  | none
  | some (body : Stmts)
end

/-- `Expect` for a token that carries no information. -/
def expect (k : Kind) : List Tok → Option (List Tok)
  | [] => none
  | (k', _) :: r => if k' = k then some r else none

/-- A step that needs an expected token. -/
def withTok {α : Type} (k : Kind) (toks : List Tok) (next : List Tok → PR α) : PR α :=
  match expect k toks with
  | some r => next r
  | none => .fail

/-- Continue after success. -/
def PR.bind {α β : Type} (x : PR α) (next : α → List Tok → PR β) : PR β :=
  match x with
  | .ok a r => next a r
  | .fail => .fail
  | .fuel => .fuel

/-- The tokens that start an expression statement, grammar.cc 697–699. -/
def startsExpr : Kind → Bool
  | .identifier | .number | .string | .bool | .kAuto | .lparen | .lbracket | .minus | .not => true
  | _ => false

/-- `parse_return_statement`, grammar.cc 543–558, after the keyword. -/
def pReturn (cfg : Cfg) (f : Nat) (toks : List Tok) : PR Stmt :=
  if peek toks = .semicolon then .ok .ret toks.tail
  else (pExpr cfg f toks).bind fun e r => withTok .semicolon r fun r2 => .ok (.retVal e) r2

mutual
/-- `parse_statements`, grammar.cc 661–708. When the semicolon after `continue` or `break` is missing, the token in its place has been consumed and the loop ends without the
statement and without an error (670–672, 679–681). -/
def pStmts (cfg : Cfg) : Nat → List Tok → PR Stmts
  | 0, _ => .fuel
  | f + 1, toks =>
    match peek toks with
    | .kContinue =>
      match expect .semicolon toks.tail with
      | some r => (pStmts cfg f r).bind fun ss r' => .ok (.cons .cont ss) r'
      | none => .ok .nil toks.tail.tail
    | .kBreak =>
      match expect .semicolon toks.tail with
      | some r => (pStmts cfg f r).bind fun ss r' => .ok (.cons .brk ss) r'
      | none => .ok .nil toks.tail.tail
    | .kReturn =>
      (pReturn cfg f toks.tail).bind fun s r => (pStmts cfg f r).bind fun ss r' => .ok (.cons s ss) r'
    | .kWhile =>
      (pChoice cfg f toks.tail).bind fun cb r => (pStmts cfg f r).bind fun ss r' => .ok (.cons (.whileLoop cb.1 cb.2) ss) r'
    | .kIf =>
      (pIf cfg f toks.tail).bind fun s r => (pStmts cfg f r).bind fun ss r' => .ok (.cons s ss) r'
    | k =>
      if startsExpr k = true then
        (pExpr cfg f toks).bind fun e r => withTok .semicolon r fun r2 => (pStmts cfg f r2).bind fun ss r' => .ok (.cons (.expr e) ss) r'
      else .ok .nil toks

/-- `parse_choice_statement`, grammar.cc 576–607. -/
def pChoice (cfg : Cfg) : Nat → List Tok → PR (Expr × Stmts)
  | 0, _ => .fuel
  | f + 1, toks =>
    withTok .lparen toks fun r => (pExpr cfg f r).bind fun e r1 => withTok .rparen r1 fun r2 => withTok .lbrace r2 fun r3 =>
      (pStmts cfg f r3).bind fun ss r4 => withTok .rbrace r4 fun r5 => .ok (e, ss) r5

/-- `parse_ifelse_statement`, grammar.cc 622–658, after the keyword. -/
def pIf (cfg : Cfg) : Nat → List Tok → PR Stmt
  | 0, _ => .fuel
  | f + 1, toks =>
    (pChoice cfg f toks).bind fun cb r => (pElifs cfg f r).bind fun els r1 => (pElse cfg f r1).bind fun el r2 => .ok (.ifElse cb.1 cb.2 els el) r2

/-- The `elif` branches, grammar.cc 632–637. -/
def pElifs (cfg : Cfg) : Nat → List Tok → PR Elifs
  | 0, _ => .fuel
  | f + 1, toks =>
    if peek toks = .kElif then (pChoice cfg f toks.tail).bind fun cb r => (pElifs cfg f r).bind fun els r' => .ok (.cons cb.1 cb.2 els) r'
    else .ok .nil toks

/-- The `else` branch, grammar.cc 640–655. -/
def pElse (cfg : Cfg) : Nat → List Tok → PR Else
  | 0, _ => .fuel
  | f + 1, toks =>
    if peek toks = .kElse then
      withTok .lbrace toks.tail fun r => (pStmts cfg f r).bind fun ss r1 => withTok .rbrace r1 fun r2 => .ok (.some ss) r2
    else .ok .none toks
end

/-- The inner part of a template type up to `>`, grammar.cc 735–757. -/
def readTypeArgs : List Tok → Option (List Char × List Tok)
  | [] => none
  | (.gt, _) :: r => some (['>'], r)
  | (.error, _) :: _ => none
  | (_, t) :: (.comma, _) :: r => (readTypeArgs r).map fun x => (t ++ ',' :: x.1, x.2)
  | (_, t) :: r => (readTypeArgs r).map fun x => (t ++ x.1, x.2)

/-- `read_type_name`, grammar.cc 731–759. At the end of input the name is empty. -/
def readType : List Tok → Option (List Char × List Tok)
  | [] => some ([], [])
  | (_, t) :: (.lt, _) :: r => (readTypeArgs r).map fun x => (t ++ '<' :: x.1, x.2)
  | (_, t) :: r => some (t, r)

/-- A type name and a name, both checked: `parse_func_arg`, grammar.cc 762–786, and the head of `parse_func` 791–808. -/
def pTypedName (cfg : Cfg) (toks : List Tok) : PR (List Char × List Char) :=
  match readType toks with
  | none => .fail
  | some (ty, r) =>
    if cfg.isType ty = true then
      match r with
      | (.identifier, n) :: r' => if validName cfg n = true then .ok (ty, n) r' else .fail
      | _ => .fail
    else .fail

/-- One argument and, after each comma, another: grammar.cc 815–826. -/
def pParams (cfg : Cfg) : Nat → List Tok → PR (List (List Char × List Char))
  | 0, _ => .fuel
  | f + 1, toks =>
    (pTypedName cfg toks).bind fun a r =>
      if peek r = .comma then (pParams cfg f r.tail).bind fun as r' => .ok (a :: as) r' else .ok [a] r

/-- `Function`, `/repo/rapidudf/ast/function.h`: return type, name, arguments (type and name), body. -/
structure Func where
  ret : List Char
  name : List Char
  params : List (List Char × List Char)
  body : Stmts

/-- `parse_func`, grammar.cc 789–844. -/
def pFunc (cfg : Cfg) (f : Nat) (toks : List Tok) : PR Func :=
  (pTypedName cfg toks).bind fun rn r => withTok .lparen r fun r1 =>
    let params : PR (List (List Char × List Char)) := if peek r1 = .rparen then .ok [] r1 else pParams cfg f r1
    params.bind fun ps r2 => withTok .rparen r2 fun r3 => withTok .lbrace r3 fun r4 =>
      (pStmts cfg f r4).bind fun ss r5 => withTok .rbrace r5 fun r6 => .ok { ret := rn.1, name := rn.2, params := ps, body := ss } r6

/-- The loop of `parse_functions_ast`, grammar.cc 891–907. -/
def pFuncs (cfg : Cfg) : Nat → List Tok → PR (List Func)
  | 0, _ => .fuel
  | f + 1, toks =>
    match toks with
    | [] => .ok [] []
    | t :: ts => (pFunc cfg f (t :: ts)).bind fun fn r => (pFuncs cfg f r).bind fun fs r' => .ok (fn :: fs) r'

/-- Fuel for a token list; `Verif.Ast.Total` shows that it is never used up. -/
def fuelFor (toks : List Tok) : Nat := 16 * toks.length + 64

/-- The tokens of a source without the end of input. -/
def sourceToks (src : List Char) : List Tok := ((lexAll src).map fun t => (t.kind, t.text)).filter fun t => t.1 != .eof

/-- `parse_expression_ast`, grammar.cc 932–968, up to validation: the tokens left over are not looked at. -/
def parseExpression (cfg : Cfg) (src : List Char) : PR Expr := pExpr cfg (fuelFor (sourceToks src)) (sourceToks src)

/-- `parse_function_ast`, grammar.cc 849–882, up to validation: the tokens left over are not looked at. -/
def parseFunction (cfg : Cfg) (src : List Char) : PR Func := pFunc cfg (fuelFor (sourceToks src)) (sourceToks src)

/-- `parse_functions_ast`, grammar.cc 884–930, up to validation. -/
def parseFunctions (cfg : Cfg) (src : List Char) : PR (List Func) := pFuncs cfg (fuelFor (sourceToks src)) (sourceToks src)

end Verif.Ast
