import Verif.Ast.Lexer
/-!
# The text of tokens: C83

Which texts a token of each kind can have, and that writing tokens with a space between them and reading them back gives the same tokens.
-/
namespace Verif.Ast

/-! ## Specification: the texts of each kind -/

/-- Digits, then maybe a point and digits, then maybe an underscore and a type name; at least one digit or a point. -/
def NumberText (t : List Char) : Prop :=
  ∃ a b suf, t = a ++ (b ++ suf) ∧ (∀ c ∈ a, isDigit c = true) ∧ (b = [] ∨ ∃ ds, b = '.' :: ds ∧ ds ≠ [] ∧ ∀ c ∈ ds, isDigit c = true) ∧
    (a ≠ [] ∨ b ≠ []) ∧ (suf = [] ∨ ∃ x, suf = '_' :: x ∧ ∀ c ∈ x, isAlphaNum c = true)

/-- Inside the quotes: no quote and no backslash, or a backslash and any character. -/
inductive StrBody : List Char → Prop where
  | nil : StrBody []
  | char (c : Char) (r : List Char) (h1 : c ≠ '"') (h2 : c ≠ '\\') (hr : StrBody r) : StrBody (c :: r)
  | escape (c : Char) (r : List Char) (hr : StrBody r) : StrBody ('\\' :: c :: r)

/-- A letter or underscore, then letters, digits, underscores and colons. -/
def NameText (t : List Char) : Prop := ∃ c r, t = c :: r ∧ isAlpha c = true ∧ ∀ d ∈ r, isAlphaNum d = true ∨ d = ':'

/-- The fixed text of operators, separators and keywords (not of true and false). -/
def fixedText : Kind → Option (List Char)
  | .kIf => some ['i', 'f'] | .kElif => some ['e', 'l', 'i', 'f'] | .kElse => some ['e', 'l', 's', 'e'] | .kWhile => some ['w', 'h', 'i', 'l', 'e'] | .kReturn => some ['r', 'e', 't', 'u', 'r', 'n'] | .kAuto => some ['a', 'u', 't', 'o']
  | .kBreak => some ['b', 'r', 'e', 'a', 'k'] | .kContinue => some ['c', 'o', 'n', 't', 'i', 'n', 'u', 'e']
  | .plus => some ['+'] | .minus => some ['-'] | .star => some ['*'] | .slash => some ['/'] | .percent => some ['%'] | .caret => some ['^']
  | .assign => some ['='] | .plusAssign => some ['+', '='] | .minusAssign => some ['-', '='] | .starAssign => some ['*', '='] | .slashAssign => some ['/', '='] | .percentAssign => some ['%', '=']
  | .eq => some ['=', '='] | .ne => some ['!', '='] | .lt => some ['<'] | .le => some ['<', '='] | .gt => some ['>'] | .ge => some ['>', '='] | .and => some ['&', '&'] | .or => some ['|', '|']
  | .not => some ['!'] | .question => some ['?'] | .colon => some [':'] | .lparen => some ['('] | .rparen => some [')'] | .lbrace => some ['{'] | .rbrace => some ['}']
  | .lbracket => some ['['] | .rbracket => some [']'] | .comma => some [','] | .semicolon => some [';'] | .dot => some ['.']
  | _ => none

/-- The texts of a kind of token. Nothing is said of the error token; the end of input has no text. -/
def KindText (k : Kind) (t : List Char) : Prop :=
  match k with
  | .identifier => NameText t ∧ keyword t = none
  | .number => NumberText t
  | .string => ∃ body, t = '"' :: (body ++ ['"']) ∧ StrBody body
  | .bool => t = "true".toList ∨ t = "false".toList
  | .eof => t = []
  | .error => t ≠ []
  | k => ∃ s, fixedText k = some s ∧ t = s

/-! ## Lemmas -/

theorem take_countWhile (p : Char → Bool) (s : List Char) : ∀ c ∈ s.take (countWhile p s), p c = true := by
  induction s with
  | nil => simp [countWhile]
  | cons c r ih =>
    unfold countWhile
    split
    · rename_i h
      rw [List.take_succ_cons]
      intro d hd
      rcases List.mem_cons.1 hd with rfl | hd
      · exact h
      · exact ih d hd
    · simp

/-- The loop stops at the first character that fails. -/
theorem countWhile_append (p : Char → Bool) (a b : List Char) (ha : ∀ c ∈ a, p c = true) (hb : ∀ c ∈ b.head?, p c = false) : countWhile p (a ++ b) = a.length := by
  induction a with
  | nil =>
    cases b with
    | nil => rfl
    | cons x y => simp [countWhile, hb x (by simp)]
  | cons c r ih => simp only [List.cons_append, countWhile, ha c (by simp), if_true, ih (fun d hd => ha d (by simp [hd])), List.length_cons]

theorem scanNumber_dot (s : List Char) : ∀ c ∈ s.take (scanNumber true s), isDigit c = true := by
  induction s with
  | nil => simp [scanNumber]
  | cons c r ih =>
    unfold scanNumber
    split
    · rename_i h
      rw [List.take_succ_cons]
      intro d hd
      rcases List.mem_cons.1 hd with rfl | hd
      · exact h
      · exact ih d hd
    · rw [if_neg (by simp)]
      simp

theorem scanNumber_text (s : List Char) : ∃ a b, s.take (scanNumber false s) = a ++ b ∧ (∀ c ∈ a, isDigit c = true) ∧
    (b = [] ∨ ∃ ds, b = '.' :: ds ∧ ds ≠ [] ∧ ∀ c ∈ ds, isDigit c = true) := by
  induction s with
  | nil => exact ⟨[], [], by simp, by simp, .inl rfl⟩
  | cons c r ih =>
    unfold scanNumber
    split
    · rename_i h
      obtain ⟨a, b, e, ha, hb⟩ := ih
      refine ⟨c :: a, b, by rw [List.take_succ_cons, e]; rfl, ?_, hb⟩
      intro d hd
      rcases List.mem_cons.1 hd with rfl | hd
      · exact h
      · exact ha d hd
    · split
      · rename_i h1 h2
        refine ⟨[], '.' :: r.take (scanNumber true r), by rw [List.take_succ_cons, h2.1]; rfl, by simp, .inr ⟨_, rfl, ?_, scanNumber_dot r⟩⟩
        cases r with
        | nil => simp [headDigit] at h2
        | cons x y =>
          have : isDigit x = true := by simpa [headDigit] using h2.2.2
          simp [scanNumber, this]
      · exact ⟨[], [], by simp, by simp, .inl rfl⟩

theorem numberLen_text (c : Char) (r : List Char) (h : isDigit c = true ∨ (c = '.' ∧ headDigit r = true)) : NumberText ((c :: r).take (numberLen (c :: r))) := by
  obtain ⟨a, b, e, ha, hb⟩ := scanNumber_text (c :: r)
  have hpos : 1 ≤ scanNumber false (c :: r) := by
    unfold scanNumber
    split
    · omega
    · rename_i hd
      rcases h with h | h
      · exact absurd h hd
      · rw [if_pos ⟨h.1, rfl, h.2⟩]; omega
  have hne : a ≠ [] ∨ b ≠ [] := by
    cases a with
    | cons x y => exact .inl (by simp)
    | nil =>
      right
      intro hb0
      subst hb0
      rw [show scanNumber false (c :: r) = (scanNumber false (c :: r) - 1) + 1 by omega, List.take_succ_cons] at e
      simp at e
  unfold numberLen
  simp only
  split
  · rename_i x hx
    refine ⟨a, b, '_' :: x.take (countWhile isAlphaNum x), ?_, ha, hb, hne, .inr ⟨_, rfl, take_countWhile _ _⟩⟩
    rw [Nat.add_assoc, List.take_add, hx, e, show 1 + countWhile isAlphaNum x = countWhile isAlphaNum x + 1 by omega, List.take_succ_cons]
    simp
  · exact ⟨a, b, [], by rw [e]; simp, ha, hb, hne, .inl rfl⟩

theorem scanString_text (s : List Char) (h : (scanString s).2 = true) : ∃ body, s.take ((scanString s).1 + 1) = body ++ ['"'] ∧ StrBody body := by
  fun_induction scanString s with
  | case1 => simp at h
  | case2 r => exact ⟨[], by simp, .nil⟩
  | case3 => simp at h
  | case4 d r' h1 ih =>
    obtain ⟨body, e, hb⟩ := ih h
    refine ⟨'\\' :: d :: body, ?_, .escape d body hb⟩
    simp only
    rw [show (scanString r').1 + 2 + 1 = ((scanString r').1 + 1) + 1 + 1 by omega, List.take_succ_cons, List.take_succ_cons, e]
    rfl
  | case5 c r h1 h2 ih =>
    obtain ⟨body, e, hb⟩ := ih h
    refine ⟨c :: body, ?_, .char c body h1 h2 hb⟩
    simp only
    rw [List.take_succ_cons, e]
    rfl

theorem keyword_text (t : List Char) (k : Kind) (h : keyword t = some k) : KindText k t := by
  revert h
  unfold keyword
  split <;> intro h <;> first | (cases h; done) | (injection h with h; subst h; simp [KindText, fixedText])

/-- What a fixed kind's text looks like at an operator. -/
def OpText (k : Kind) (t : List Char) : Prop := t ≠ [] ∧ (k = .error ∨ ∃ s, fixedText k = some s ∧ t = s)

theorem opText_kind (k : Kind) (t : List Char) (h : OpText k t) : KindText k t := by
  obtain ⟨hne, rfl | ⟨s, hs, ht⟩⟩ := h
  · exact hne
  · cases k <;> first | (simp [fixedText] at hs; done) | exact ⟨s, hs, ht⟩

theorem operator_text (c : Char) (r : List Char) : OpText (operator c r).1 ((c :: r).take (operator c r).2) := by
  have two : ∀ (x d : Char) (k1 k2 : Kind), OpText k1 [x] → OpText k2 [x, d] →
      OpText (twoChar r d k1 k2).1 ((x :: r).take (twoChar r d k1 k2).2) := by
    intro x d k1 k2 h1 h2
    unfold twoChar
    split
    · rename_i h
      cases r with
      | nil => simp at h
      | cons u v =>
        simp at h
        subst h
        simpa using h2
    · simpa using h1
  have one : ∀ (x : Char) (k : Kind), OpText k [x] → OpText k ((x :: r).take 1) := by
    intro x k h
    simpa using h
  unfold operator
  by_cases h : c = '+'
  · subst h; exact two '+' '=' _ _ (by simp [OpText, fixedText]) (by simp [OpText, fixedText])
  rw [if_neg h]; clear h
  by_cases h : c = '-'
  · subst h; exact two '-' '=' _ _ (by simp [OpText, fixedText]) (by simp [OpText, fixedText])
  rw [if_neg h]; clear h
  by_cases h : c = '*'
  · subst h; exact two '*' '=' _ _ (by simp [OpText, fixedText]) (by simp [OpText, fixedText])
  rw [if_neg h]; clear h
  by_cases h : c = '/'
  · subst h; exact two '/' '=' _ _ (by simp [OpText, fixedText]) (by simp [OpText, fixedText])
  rw [if_neg h]; clear h
  by_cases h : c = '%'
  · subst h; exact two '%' '=' _ _ (by simp [OpText, fixedText]) (by simp [OpText, fixedText])
  rw [if_neg h]; clear h
  by_cases h : c = '^'
  · subst h; exact one '^' .caret (by simp [OpText, fixedText])
  rw [if_neg h]; clear h
  by_cases h : c = '='
  · subst h; exact two '=' '=' _ _ (by simp [OpText, fixedText]) (by simp [OpText, fixedText])
  rw [if_neg h]; clear h
  by_cases h : c = '!'
  · subst h; exact two '!' '=' _ _ (by simp [OpText, fixedText]) (by simp [OpText, fixedText])
  rw [if_neg h]; clear h
  by_cases h : c = '<'
  · subst h; exact two '<' '=' _ _ (by simp [OpText, fixedText]) (by simp [OpText, fixedText])
  rw [if_neg h]; clear h
  by_cases h : c = '>'
  · subst h; exact two '>' '=' _ _ (by simp [OpText, fixedText]) (by simp [OpText, fixedText])
  rw [if_neg h]; clear h
  by_cases h : c = '&'
  · subst h; exact two '&' '&' _ _ (by simp [OpText]) (by simp [OpText, fixedText])
  rw [if_neg h]; clear h
  by_cases h : c = '|'
  · subst h; exact two '|' '|' _ _ (by simp [OpText]) (by simp [OpText, fixedText])
  rw [if_neg h]; clear h
  by_cases h : c = '?'
  · subst h; exact one '?' .question (by simp [OpText, fixedText])
  rw [if_neg h]; clear h
  by_cases h : c = ':'
  · subst h; exact one ':' .colon (by simp [OpText, fixedText])
  rw [if_neg h]; clear h
  by_cases h : c = '('
  · subst h; exact one '(' .lparen (by simp [OpText, fixedText])
  rw [if_neg h]; clear h
  by_cases h : c = ')'
  · subst h; exact one ')' .rparen (by simp [OpText, fixedText])
  rw [if_neg h]; clear h
  by_cases h : c = '{'
  · subst h; exact one '{' .lbrace (by simp [OpText, fixedText])
  rw [if_neg h]; clear h
  by_cases h : c = '}'
  · subst h; exact one '}' .rbrace (by simp [OpText, fixedText])
  rw [if_neg h]; clear h
  by_cases h : c = '['
  · subst h; exact one '[' .lbracket (by simp [OpText, fixedText])
  rw [if_neg h]; clear h
  by_cases h : c = ']'
  · subst h; exact one ']' .rbracket (by simp [OpText, fixedText])
  rw [if_neg h]; clear h
  by_cases h : c = ','
  · subst h; exact one ',' .comma (by simp [OpText, fixedText])
  rw [if_neg h]; clear h
  by_cases h : c = ';'
  · subst h; exact one ';' .semicolon (by simp [OpText, fixedText])
  rw [if_neg h]; clear h
  by_cases h : c = '.'
  · subst h; exact one '.' .dot (by simp [OpText, fixedText])
  rw [if_neg h]; clear h
  exact one c .error (by simp [OpText])

theorem nextToken_text (c : Char) (r : List Char) : KindText (nextToken c r).1 ((c :: r).take (nextToken c r).2) := by
  unfold nextToken
  split
  · rename_i h; exact numberLen_text c r h
  · split
    · rename_i h1 h2
      simp only
      split
      · rename_i k hk
        exact keyword_text _ _ hk
      · rename_i hk
        refine ⟨⟨c, r.take (countWhile (fun d => isAlphaNum d || d == ':') r), ?_, h2, ?_⟩, hk⟩
        · simp only; rw [Nat.add_comm, List.take_succ_cons]
        · intro d hd
          have := take_countWhile (fun d => isAlphaNum d || d == ':') r d hd
          simpa using this
    · split
      · rename_i hq
        subst hq
        simp only
        split
        · rename_i hx
          obtain ⟨body, e, hb⟩ := scanString_text r hx
          refine ⟨body, ?_, hb⟩
          simp only
          rw [List.take_succ_cons, e]
        · simp [KindText]
      · exact opText_kind _ _ (operator_text c r)

theorem lexLoop_text : ∀ (fuel pos : Nat) (s : List Char), ∀ t ∈ lexLoop fuel pos s, KindText t.kind t.text := by
  intro fuel
  induction fuel with
  | zero => intro pos s t ht; simp [lexLoop] at ht
  | succ fuel ih =>
    intro pos s t ht
    unfold lexLoop at ht
    split at ht
    · simp at ht; subst ht; rfl
    · rename_i c r hs
      rcases List.mem_cons.1 ht with rfl | ht
      · exact nextToken_text c r
      · exact ih _ _ t ht

/-- **C83.** The text of every token the lexer produces is one its kind admits. -/
theorem lex_texts (src : List Char) : ∀ t ∈ lexAll src, KindText t.kind t.text := lexLoop_text _ _ _

/-! ## Reading back -/

/-- The text ends or continues with a space. -/
def Sep (s : List Char) : Prop := s = [] ∨ ∃ r, s = ' ' :: r

theorem Sep.head {s : List Char} (h : Sep s) : ∀ c ∈ s.head?, c = ' ' := by
  rcases h with rfl | ⟨r, rfl⟩ <;> simp

theorem sep_headDigit (s : List Char) (h : Sep s) : headDigit s = false := by
  rcases h with rfl | ⟨r, rfl⟩
  · rfl
  · rfl

theorem scanNumber_digits (b : Bool) (a s : List Char) (ha : ∀ c ∈ a, isDigit c = true) : scanNumber b (a ++ s) = a.length + scanNumber b s := by
  induction a with
  | nil => simp
  | cons c r ih =>
    simp only [List.cons_append, scanNumber, ha c (by simp), if_true, ih (fun d hd => ha d (by simp [hd])), List.length_cons]
    omega

theorem scanNumber_stop (b : Bool) (s : List Char) (h : ∀ c ∈ s.head?, isDigit c = false ∧ c ≠ '.') : scanNumber b s = 0 := by
  cases s with
  | nil => rfl
  | cons c r =>
    have := h c (by simp)
    simp [scanNumber, this]

theorem suffix_head (suf rest : List Char) (hsuf : suf = [] ∨ ∃ x, suf = '_' :: x ∧ ∀ c ∈ x, isAlphaNum c = true) (hs : Sep rest) :
    ∀ c ∈ (suf ++ rest).head?, isDigit c = false ∧ c ≠ '.' := by
  rcases hsuf with rfl | ⟨x, rfl, _⟩
  · intro c hc
    have := hs.head c (by simpa using hc)
    subst this
    decide
  · intro c hc
    simp at hc
    subst hc
    decide

theorem number_back (t rest : List Char) (h : NumberText t) (hs : Sep rest) : numberLen (t ++ rest) = t.length ∧
    ∃ c r, t = c :: r ∧ (isDigit c = true ∨ (c = '.' ∧ headDigit (r ++ rest) = true)) := by
  obtain ⟨a, b, suf, rfl, ha, hb, hne, hsuf⟩ := h
  have hscan : scanNumber false ((a ++ (b ++ suf)) ++ rest) = a.length + b.length := by
    rw [List.append_assoc, scanNumber_digits false a _ ha]
    congr 1
    rcases hb with rfl | ⟨ds, rfl, hds, hd⟩
    · exact scanNumber_stop false _ (by simpa using suffix_head suf rest hsuf hs)
    · cases ds with
      | nil => exact absurd rfl hds
      | cons x y =>
        have hx := hd x (by simp)
        have : scanNumber true ((x :: y) ++ (suf ++ rest)) = (x :: y).length + 0 := by
          rw [scanNumber_digits true _ _ hd, scanNumber_stop true _ (suffix_head suf rest hsuf hs)]
        simp only [List.cons_append, List.append_assoc] at this ⊢
        rw [scanNumber, if_neg (by decide), if_pos ⟨rfl, rfl, by simpa [headDigit] using hx⟩, this]
        simp
  refine ⟨?_, ?_⟩
  · unfold numberLen
    simp only
    have hdrop : ((a ++ (b ++ suf)) ++ rest).drop (a.length + b.length) = suf ++ rest := by
      rw [show (a ++ (b ++ suf)) ++ rest = (a ++ b) ++ (suf ++ rest) by simp, List.drop_left' (by simp)]
    rw [hscan, hdrop]
    rcases hsuf with rfl | ⟨x, rfl, hx⟩
    · rcases hs with rfl | ⟨r, rfl⟩ <;> simp
    · simp only [List.cons_append]
      rw [countWhile_append _ _ _ hx (by intro c hc; have := hs.head c hc; subst this; decide)]
      simp
      omega
  · cases a with
    | cons x y => exact ⟨x, y ++ (b ++ suf), rfl, .inl (ha x (by simp))⟩
    | nil =>
      rcases hb with rfl | ⟨ds, rfl, hds, hd⟩
      · simp at hne
      · cases ds with
        | nil => exact absurd rfl hds
        | cons x y => exact ⟨'.', (x :: y) ++ suf, by simp, .inr ⟨rfl, by simpa [headDigit] using hd x (by simp)⟩⟩

theorem string_back (body rest : List Char) (h : StrBody body) : scanString (body ++ '"' :: rest) = (body.length, true) := by
  induction h with
  | nil => rw [List.nil_append, scanString.eq_def]; simp
  | char c r h1 h2 hr ih => rw [List.cons_append, scanString.eq_def]; simp [h1, h2, ih]
  | escape c r hr ih => rw [List.cons_append, List.cons_append, scanString.eq_def]; simp [ih]

theorem name_chars (c : Char) (h : isAlpha c = true) : isDigit c = false ∧ c ≠ '.' := by
  refine ⟨?_, ?_⟩
  · simp only [isAlpha, isDigit, Bool.or_eq_true, Bool.and_eq_true, decide_eq_true_eq, beq_iff_eq, Bool.and_eq_false_iff, decide_eq_false_iff_not] at h ⊢
    rcases h with (h | h) | h
    · right
      intro h2
      exact absurd (Char.le_trans h.1 h2) (by decide)
    · right
      intro h2
      exact absurd (Char.le_trans h.1 h2) (by decide)
    · subst h; right; decide
  · rintro rfl
    revert h
    decide

theorem name_back (t rest : List Char) (h : NameText t) (hs : Sep rest) : ∃ c r, t = c :: r ∧
    nextToken c (r ++ rest) = ((keyword t).getD .identifier, t.length) := by
  obtain ⟨c, r, rfl, hc, hr⟩ := h
  refine ⟨c, r, rfl, ?_⟩
  have hn := name_chars c hc
  have hcw : countWhile (fun d => isAlphaNum d || d == ':') (r ++ rest) = r.length :=
    countWhile_append _ _ _ (fun d hd => by simpa using hr d hd) (by intro d hd; have := hs.head d hd; subst this; decide)
  unfold nextToken
  rw [if_neg (by simp [hn]), if_pos hc]
  simp only [hcw]
  rw [show (c :: (r ++ rest)).take (1 + r.length) = c :: r by rw [Nat.add_comm, List.take_succ_cons]; simp]
  cases keyword (c :: r) with
  | none => simp; omega
  | some k => simp; omega

theorem keyword_name (t : List Char) (k : Kind) (h : keyword t = some k) : NameText t := by
  revert h
  unfold keyword
  split <;> intro h <;> first | (cases h; done) | exact ⟨_, _, rfl, by decide, by decide⟩

/-- An operator followed by a space or the end is read back. -/
theorem fixed_back (k : Kind) (s : List Char) (h : fixedText k = some s) (rest : List Char) (hs : Sep rest) : ∃ c r, s = c :: r ∧
    nextToken c (r ++ rest) = (k, s.length) := by
  cases k <;> simp only [fixedText, Option.some.injEq, reduceCtorEq] at h <;> subst h
  case kIf => exact name_back ['i', 'f'] rest (keyword_name _ _ rfl) hs
  case kElif => exact name_back ['e', 'l', 'i', 'f'] rest (keyword_name _ _ rfl) hs
  case kElse => exact name_back ['e', 'l', 's', 'e'] rest (keyword_name _ _ rfl) hs
  case kWhile => exact name_back ['w', 'h', 'i', 'l', 'e'] rest (keyword_name _ _ rfl) hs
  case kReturn => exact name_back ['r', 'e', 't', 'u', 'r', 'n'] rest (keyword_name _ _ rfl) hs
  case kAuto => exact name_back ['a', 'u', 't', 'o'] rest (keyword_name _ _ rfl) hs
  case kBreak => exact name_back ['b', 'r', 'e', 'a', 'k'] rest (keyword_name _ _ rfl) hs
  case kContinue => exact name_back ['c', 'o', 'n', 't', 'i', 'n', 'u', 'e'] rest (keyword_name _ _ rfl) hs
  all_goals refine ⟨_, _, rfl, ?_⟩
  all_goals rcases hs with rfl | ⟨r, rfl⟩ <;> simp [nextToken, operator, twoChar, isDigit, isAlpha, headDigit]

/-- A token that can be written: an admitted text of its kind, not the end of input and not an error. -/
def Writable (k : Kind) (t : List Char) : Prop := KindText k t ∧ k ≠ .eof ∧ k ≠ .error

theorem writable_back (k : Kind) (t rest : List Char) (h : Writable k t) (hs : Sep rest) : ∃ c r, t = c :: r ∧ nextToken c (r ++ rest) = (k, t.length) := by
  obtain ⟨h, h1, h2⟩ := h
  cases k
  case identifier =>
    obtain ⟨c, r, rfl, e⟩ := name_back t rest h.1 hs
    exact ⟨c, r, rfl, by rw [e, h.2]; rfl⟩
  case number =>
    obtain ⟨hl, c, r, rfl, hc⟩ := number_back t rest h hs
    refine ⟨c, r, rfl, ?_⟩
    unfold nextToken
    rw [if_pos hc]
    rw [List.cons_append] at hl
    rw [hl]
  case string =>
    obtain ⟨body, rfl, hb⟩ := h
    refine ⟨'"', body ++ ['"'], rfl, ?_⟩
    have : scanString (body ++ ['"'] ++ rest) = (body.length, true) := by
      have := string_back body rest hb
      simpa using this
    simp only [nextToken, this]
    simp [isDigit, isAlpha]
  case bool =>
    rcases h with rfl | rfl
    · exact name_back ['t', 'r', 'u', 'e'] rest (keyword_name _ _ rfl) hs
    · exact name_back ['f', 'a', 'l', 's', 'e'] rest (keyword_name _ _ rfl) hs
  case eof => exact absurd rfl h1
  case error => exact absurd rfl h2
  all_goals
    obtain ⟨s, hs1, rfl⟩ := h
    exact fixed_back _ _ hs1 rest hs

/-- Tokens written with a space after each. -/
def writeTokens : List (Kind × List Char) → List Char
  | [] => []
  | (_, t) :: ts => t ++ ' ' :: writeTokens ts

theorem token_not_skipped (c : Char) (r : List Char) (k : Kind) (n : Nat) (h : nextToken c r = (k, n)) (hk : k ≠ .error) (hr : k = .slash → r.head? ≠ some '/') :
    skip false (c :: r) = c :: r := by
  unfold skip
  by_cases hw : isWs c = true
  · exfalso
    apply hk
    simp only [isWs, Bool.or_eq_true, beq_iff_eq] at hw
    rcases hw with ((rfl | rfl) | rfl) | rfl <;>
      (simp [nextToken, isDigit, isAlpha, operator] at h; exact h.1.symm)
  · rw [if_neg hw]
    split
    · rename_i hc
      subst hc
      split
      · rename_i r'
        exfalso
        simp [nextToken, isDigit, isAlpha, operator, twoChar] at h
        exact hr h.1.symm (by simp)
      · rfl
    · rfl

theorem lexLoop_write : ∀ (ts : List (Kind × List Char)) (fuel pos : Nat) (lead : List Char), (lead = [] ∨ lead = [' ']) → (∀ x ∈ ts, Writable x.1 x.2) → ts.length < fuel →
    (lexLoop fuel pos (lead ++ writeTokens ts)).map (fun t => (t.kind, t.text)) = ts ++ [(.eof, [])] := by
  intro ts
  induction ts with
  | nil =>
    intro fuel pos lead hl hw hf
    cases fuel with
    | zero => omega
    | succ fuel => rcases hl with rfl | rfl <;> simp [lexLoop, writeTokens, skip, isWs]
  | cons x ts ih =>
    intro fuel pos lead hl hw hf
    obtain ⟨k, t⟩ := x
    cases fuel with
    | zero => omega
    | succ fuel =>
      have hx := hw (k, t) (by simp)
      obtain ⟨c, r, rfl, e⟩ := writable_back k t (' ' :: writeTokens ts) hx (.inr ⟨_, rfl⟩)
      have hns : skip false (c :: (r ++ ' ' :: writeTokens ts)) = c :: (r ++ ' ' :: writeTokens ts) := by
        refine token_not_skipped c _ k _ e hx.2.2 ?_
        rintro rfl
        obtain ⟨s, h1, h2⟩ := hx.1
        simp [fixedText] at h1
        subst h1
        simp at h2
        simp [h2]
      have hskip : skip false (lead ++ writeTokens ((k, c :: r) :: ts)) = c :: (r ++ ' ' :: writeTokens ts) := by
        simp only [writeTokens, List.cons_append]
        rcases hl with rfl | rfl
        · exact hns
        · rw [List.cons_append, List.nil_append, skip.eq_def]; simp only; rw [if_pos (by decide)]; exact hns
      rw [lexLoop, hskip]
      simp only [e, List.map_cons, List.cons_append]
      rw [show (c :: (r ++ ' ' :: writeTokens ts)).take (c :: r).length = c :: r by
            rw [← List.cons_append]; exact List.take_left' rfl,
          show (c :: (r ++ ' ' :: writeTokens ts)).drop (c :: r).length = [' '] ++ writeTokens ts by
            rw [← List.cons_append]; exact List.drop_left' rfl]
      rw [ih fuel _ [' '] (.inr rfl) (fun y hy => hw y (by simp [hy])) (by simp at hf; omega)]

/-- **C83.** Any list of tokens, written with a space after each, is read back as the same list followed by the end of input. -/
theorem lex_write (ts : List (Kind × List Char)) (h : ∀ x ∈ ts, Writable x.1 x.2) :
    (lexAll (writeTokens ts)).map (fun t => (t.kind, t.text)) = ts ++ [(.eof, [])] := by
  have hlen : ts.length ≤ (writeTokens ts).length := by
    clear h
    induction ts with
    | nil => simp
    | cons x ts ih => obtain ⟨k, t⟩ := x; simp [writeTokens]; omega
  exact lexLoop_write ts _ 0 [] (.inl rfl) h (by omega)

example : ∀ x ∈ [(Kind.identifier, ['x']), (Kind.plusAssign, ['+', '=']), (Kind.number, ['1', '.', '5', '_', 'f'])], Writable x.1 x.2 := by
  simp only [List.mem_cons, List.not_mem_nil, or_false, forall_eq_or_imp, forall_eq]
  refine ⟨⟨⟨⟨'x', [], rfl, by decide, by simp⟩, rfl⟩, by simp, by simp⟩, ⟨⟨['+', '='], rfl, rfl⟩, by simp, by simp⟩, ⟨⟨['1'], ['.', '5'], ['_', 'f'], rfl, by decide,
    .inr ⟨['5'], rfl, by simp, by decide⟩, by simp, .inr ⟨['f'], rfl, by decide⟩⟩, by simp, by simp⟩⟩

/-! ## C84: the colon of a conditional -/

/-- **C84, violated.** Without a space before it, the colon of a conditional belongs to the name: the three operands of `a?b:c` are read as two names. -/
theorem colon_in_name_violated : (lexAll "a?b:c".toList).map (fun t => (t.kind, t.text)) = [(.identifier, ['a']), (.question, ['?']), (.identifier, ['b', ':', 'c']), (.eof, [])] := by
  decide +kernel

end Verif.Ast
