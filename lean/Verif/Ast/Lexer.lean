/-!
# The lexer: C29, C83

`/repo/rapidudf/ast/lexer.h` 27–88 and `/repo/rapidudf/ast/lexer.cc` 25–345. The source is a list of characters (bytes above 127 are characters that belong to no class). The cursor
`pos_` is represented by the remaining text; a token records its offset. `Peek`, `ConsumeIf` and `Expect` only buffer one token, so the parser sees the list `lexAll`.
-/
namespace Verif.Ast

/-- `TokenType`, lexer.h 27–83. -/
inductive Kind where
  | identifier | number | string | bool
  | kIf | kElif | kElse | kWhile | kReturn | kAuto | kBreak | kContinue
  | plus | minus | star | slash | percent | caret
  | assign | plusAssign | minusAssign | starAssign | slashAssign | percentAssign
  | eq | ne | lt | le | gt | ge | and | or | not | question | colon
  | lparen | rparen | lbrace | rbrace | lbracket | rbracket | comma | semicolon | dot
  | eof | error
deriving DecidableEq

/-- `Token`, lexer.h 85–92. -/
structure Token where
  kind : Kind
  text : List Char
  pos : Nat
deriving DecidableEq

/-- `IsAlpha`, lexer.cc 25. -/
def isAlpha (c : Char) : Bool := (decide ('a' ≤ c) && decide (c ≤ 'z')) || (decide ('A' ≤ c) && decide (c ≤ 'Z')) || c == '_'

/-- `IsDigit`, lexer.cc 26. -/
def isDigit (c : Char) : Bool := decide ('0' ≤ c) && decide (c ≤ '9')

/-- `IsAlphaNum`, lexer.cc 27. -/
def isAlphaNum (c : Char) : Bool := isAlpha c || isDigit c

/-- Space, tab, newline, carriage return, lexer.cc 94. -/
def isWs (c : Char) : Bool := c == ' ' || c == '\t' || c == '\n' || c == '\r'

/-- `kKeywords`, lexer.cc 29–33. -/
def keyword : List Char → Option Kind
  | ['i', 'f'] => some .kIf
  | ['e', 'l', 'i', 'f'] => some .kElif
  | ['e', 'l', 's', 'e'] => some .kElse
  | ['w', 'h', 'i', 'l', 'e'] => some .kWhile
  | ['r', 'e', 't', 'u', 'r', 'n'] => some .kReturn
  | ['a', 'u', 't', 'o'] => some .kAuto
  | ['b', 'r', 'e', 'a', 'k'] => some .kBreak
  | ['c', 'o', 'n', 't', 'i', 'n', 'u', 'e'] => some .kContinue
  | ['t', 'r', 'u', 'e'] => some .bool
  | ['f', 'a', 'l', 's', 'e'] => some .bool
  | _ => none

/-- `SkipWhitespaceAndComments`, lexer.cc 91–106: the remaining text. The flag tells whether the cursor is in the inner loop of a comment (99–101). -/
def skip : Bool → List Char → List Char
  | _, [] => []
  | true, c :: r => if c = '\n' then skip false r else skip true r
  | false, c :: r =>
    if isWs c = true then skip false r
    else if c = '/' then
      match r with
      | '/' :: r' => skip true r'
      | _ => c :: r
    else c :: r

/-- Is there a next character and is it a digit, lexer.cc 115, 203. -/
def headDigit : List Char → Bool
  | [] => false
  | d :: _ => isDigit d

/-- The first loop of `ReadNumber`, lexer.cc 112–122: how many characters it takes. -/
def scanNumber (hasDot : Bool) : List Char → Nat
  | [] => 0
  | c :: r =>
    if isDigit c = true then scanNumber hasDot r + 1
    else if c = '.' ∧ hasDot = false ∧ headDigit r = true then scanNumber true r + 1
    else 0

/-- How many characters satisfy the condition before the first that does not. -/
def countWhile (p : Char → Bool) : List Char → Nat
  | [] => 0
  | c :: r => if p c = true then countWhile p r + 1 else 0

/-- `ReadNumber`, lexer.cc 108–137: the length of the token. -/
def numberLen (s : List Char) : Nat :=
  let n := scanNumber false s
  match s.drop n with
  | '_' :: r => n + 1 + countWhile isAlphaNum r
  | _ => n

/-- The loop of `ReadString` after the opening quote, lexer.cc 143–150: characters taken, and whether it stopped at a quote. -/
def scanString : List Char → Nat × Bool
  | [] => (0, false)
  | c :: r =>
    if c = '"' then (0, true)
    else if c = '\\' then
      match r with
      | [] => (1, false)
      | _ :: r' => ((scanString r').1 + 2, (scanString r').2)
    else ((scanString r).1 + 1, (scanString r).2)

/-- One or two characters, e.g. lexer.cc 215–219. -/
def twoChar (r : List Char) (d : Char) (k1 k2 : Kind) : Kind × Nat := if r.head? = some d then (k2, 2) else (k1, 1)

/-- The operators and separators, lexer.cc 213–312: kind and length. -/
def operator (c : Char) (r : List Char) : Kind × Nat :=
  if c = '+' then twoChar r '=' .plus .plusAssign
  else if c = '-' then twoChar r '=' .minus .minusAssign
  else if c = '*' then twoChar r '=' .star .starAssign
  else if c = '/' then twoChar r '=' .slash .slashAssign
  else if c = '%' then twoChar r '=' .percent .percentAssign
  else if c = '^' then (.caret, 1)
  else if c = '=' then twoChar r '=' .assign .eq
  else if c = '!' then twoChar r '=' .not .ne
  else if c = '<' then twoChar r '=' .lt .le
  else if c = '>' then twoChar r '=' .gt .ge
  else if c = '&' then twoChar r '&' .error .and
  else if c = '|' then twoChar r '|' .error .or
  else if c = '?' then (.question, 1)
  else if c = ':' then (.colon, 1)
  else if c = '(' then (.lparen, 1)
  else if c = ')' then (.rparen, 1)
  else if c = '{' then (.lbrace, 1)
  else if c = '}' then (.rbrace, 1)
  else if c = '[' then (.lbracket, 1)
  else if c = ']' then (.rbracket, 1)
  else if c = ',' then (.comma, 1)
  else if c = ';' then (.semicolon, 1)
  else if c = '.' then (.dot, 1)
  else (.error, 1)

/-- `Next` after the blanks, on non-empty text, lexer.cc 196–312: kind and length of the token. -/
def nextToken (c : Char) (r : List Char) : Kind × Nat :=
  if isDigit c = true ∨ (c = '.' ∧ headDigit r = true) then (.number, numberLen (c :: r))
  else if isAlpha c = true then
    let n := 1 + countWhile (fun d => isAlphaNum d || d == ':') r
    match keyword ((c :: r).take n) with
    | some k => (k, n)
    | none => (.identifier, n)
  else if c = '"' then
    let x := scanString r
    if x.2 = true then (.string, x.1 + 2) else (.error, x.1 + 1)
  else operator c r

/-- Calling `Next` until the end of input; `pos` is the offset of `s` in the source. -/
def lexLoop : Nat → Nat → List Char → List Token
  | 0, _, _ => []
  | fuel + 1, pos, s =>
    match skip false s with
    | [] => [{ kind := .eof, text := [], pos := pos + s.length }]
    | c :: r =>
      let x := nextToken c r
      let start := pos + (s.length - (c :: r).length)
      { kind := x.1, text := (c :: r).take x.2, pos := start } :: lexLoop fuel (start + x.2) ((c :: r).drop x.2)

/-- All tokens of a source, up to and including the end of input. -/
def lexAll (src : List Char) : List Token := lexLoop (src.length + 1) 0 src

/-! ## Specification -/

/-- Text between tokens: whitespace and comments with their line ends. -/
inductive Blank : List Char → Prop where
  | nil : Blank []
  | ws (c : Char) (r : List Char) (h : isWs c = true) (hr : Blank r) : Blank (c :: r)
  | comment (line r : List Char) (h : '\n' ∉ line) (hr : Blank r) : Blank ('/' :: '/' :: (line ++ '\n' :: r))

/-- Text after the last token: its last comment may lack the line end. -/
inductive BlankEnd : List Char → Prop where
  | blank (r : List Char) (h : Blank r) : BlankEnd r
  | comment (r line : List Char) (hr : Blank r) (h : '\n' ∉ line) : BlankEnd (r ++ '/' :: '/' :: line)

/-- The tokens cover the text `s`, which starts at offset `pos` of the source: between them there are only blanks, every token has some text, and the last is the end of input. -/
inductive Covers : Nat → List Char → List Token → Prop where
  | eof (pos : Nat) (gap : List Char) (h : BlankEnd gap) : Covers pos gap [{ kind := .eof, text := [], pos := pos + gap.length }]
  | token (pos : Nat) (gap text rest : List Char) (k : Kind) (ts : List Token) (hg : Blank gap) (hne : text ≠ []) (hk : k ≠ .eof)
      (hr : Covers (pos + gap.length + text.length) rest ts) : Covers pos (gap ++ (text ++ rest)) ({ kind := k, text := text, pos := pos + gap.length } :: ts)

/-! ## Lemmas -/

theorem skip_suffix (b : Bool) (s : List Char) : ∃ gap, s = gap ++ skip b s := by
  fun_induction skip b s with
  | case1 => exact ⟨[], rfl⟩
  | case2 r ih => obtain ⟨g, hg⟩ := ih; exact ⟨'\n' :: g, by rw [List.cons_append, ← hg]⟩
  | case3 c r h ih => obtain ⟨g, hg⟩ := ih; exact ⟨c :: g, by rw [List.cons_append, ← hg]⟩
  | case4 c r h ih => obtain ⟨g, hg⟩ := ih; exact ⟨c :: g, by rw [List.cons_append, ← hg]⟩
  | case5 r' h ih => obtain ⟨g, hg⟩ := ih; exact ⟨'/' :: '/' :: g, by rw [List.cons_append, List.cons_append, ← hg]⟩
  | case6 => exact ⟨[], rfl⟩
  | case7 => exact ⟨[], rfl⟩

/-- What is skipped is blank. In a comment, the rest of the line and then blanks. -/
theorem skip_blank (s : List Char) : ∀ b, (b = false → skip b s ≠ [] → ∃ gap, s = gap ++ skip b s ∧ Blank gap) ∧
    (b = true → skip b s ≠ [] → ∃ line gap, s = line ++ '\n' :: (gap ++ skip b s) ∧ '\n' ∉ line ∧ Blank gap) ∧
    (b = false → skip b s = [] → BlankEnd s) ∧
    (b = true → skip b s = [] → ('\n' ∉ s) ∨ ∃ line r, s = line ++ '\n' :: r ∧ '\n' ∉ line ∧ BlankEnd r) := by
  intro b
  fun_induction skip b s with
  | case1 b => exact ⟨fun _ h => absurd rfl h, fun _ h => absurd rfl h, fun _ _ => .blank _ .nil, fun _ _ => .inl (by simp)⟩
  | case2 r ih =>
    obtain ⟨h1, _, h3, _⟩ := ih
    refine ⟨fun h => by simp at h, ?_, fun h => by simp at h, ?_⟩
    · intro _ hne
      obtain ⟨gap, e, hb⟩ := h1 rfl hne
      exact ⟨[], gap, by rw [List.nil_append, ← e], by simp, hb⟩
    · intro _ hnil
      exact .inr ⟨[], r, rfl, by simp, h3 rfl hnil⟩
  | case3 c r h ih =>
    obtain ⟨_, h2, _, h4⟩ := ih
    refine ⟨fun h => by simp at h, ?_, fun h => by simp at h, ?_⟩
    · intro _ hne
      obtain ⟨line, gap, e, hl, hb⟩ := h2 rfl hne
      exact ⟨c :: line, gap, by rw [List.cons_append, ← e], by simp [hl, Ne.symm h], hb⟩
    · intro _ hnil
      rcases h4 rfl hnil with hh | ⟨line, r', e, hl, hb⟩
      · exact .inl (by simp [hh, Ne.symm h])
      · exact .inr ⟨c :: line, r', by rw [e]; rfl, by simp [hl, Ne.symm h], hb⟩
  | case4 c r h ih =>
    obtain ⟨h1, _, h3, _⟩ := ih
    refine ⟨?_, fun h => by simp at h, ?_, fun h => by simp at h⟩
    · intro _ hne
      obtain ⟨gap, e, hb⟩ := h1 rfl hne
      exact ⟨c :: gap, by rw [List.cons_append, ← e], .ws c gap h hb⟩
    · intro _ hnil
      cases h3 rfl hnil with
      | blank _ hb => exact .blank _ (.ws c r h hb)
      | comment r' line hb hl => exact .comment (c :: r') line (.ws c r' h hb) hl
  | case5 r' h ih =>
    obtain ⟨_, h2, _, h4⟩ := ih
    refine ⟨?_, fun h => by simp at h, ?_, fun h => by simp at h⟩
    · intro _ hne
      obtain ⟨line, gap, e, hl, hb⟩ := h2 rfl hne
      exact ⟨'/' :: '/' :: (line ++ '\n' :: gap), by simp only [List.cons_append, List.append_assoc]; rw [← e], .comment line gap hl hb⟩
    · intro _ hnil
      rcases h4 rfl hnil with hh | ⟨line, r, e, hl, hb⟩
      · exact .comment [] r' .nil hh
      · subst e
        cases hb with
        | blank _ hb => exact .blank _ (.comment line r hl hb)
        | comment r2 line2 hb hl2 =>
          have := BlankEnd.comment ('/' :: '/' :: (line ++ '\n' :: r2)) line2 (.comment line r2 hl hb) hl2
          simpa using this
  | case6 r h1 h2 =>
    exact ⟨fun _ _ => ⟨[], rfl, .nil⟩, fun h => by simp at h, fun _ h => by simp at h, fun h => by simp at h⟩
  | case7 c r h1 h2 =>
    exact ⟨fun _ _ => ⟨[], rfl, .nil⟩, fun h => by simp at h, fun _ h => by simp at h, fun h => by simp at h⟩

theorem countWhile_le (p : Char → Bool) (s : List Char) : countWhile p s ≤ s.length := by
  induction s with
  | nil => simp [countWhile]
  | cons c r ih => unfold countWhile; split <;> simp; omega

theorem scanNumber_le (b : Bool) (s : List Char) : scanNumber b s ≤ s.length := by
  induction s generalizing b with
  | nil => simp [scanNumber]
  | cons c r ih =>
    unfold scanNumber
    split
    · have := ih b; simp; omega
    · split
      · have := ih true; simp; omega
      · simp

theorem scanString_le (s : List Char) : (scanString s).1 ≤ s.length ∧ ((scanString s).2 = true → (scanString s).1 < s.length) := by
  fun_induction scanString s with
  | case1 => simp
  | case2 => simp
  | case3 => simp
  | case4 d r' h ih => simp; omega
  | case5 c r h1 h2 ih => simp; omega

theorem ite_ind {α : Type} (P : α → Prop) {c : Prop} [Decidable c] {a b : α} (ha : P a) (hb : P b) : P (if c then a else b) := by
  split
  · exact ha
  · exact hb

theorem operator_len (c : Char) (r : List Char) : 1 ≤ (operator c r).2 ∧ (operator c r).2 ≤ r.length + 1 ∧ (operator c r).1 ≠ .eof := by
  have two : ∀ (d : Char) (k1 k2 : Kind), k1 ≠ .eof → k2 ≠ .eof → 1 ≤ (twoChar r d k1 k2).2 ∧ (twoChar r d k1 k2).2 ≤ r.length + 1 ∧ (twoChar r d k1 k2).1 ≠ .eof := by
    intro d k1 k2 h1 h2
    unfold twoChar
    split
    · rename_i h
      cases r with
      | nil => simp at h
      | cons x y => simp [h2]
    · simp [h1]
  unfold operator
  repeat' first
    | exact two _ _ _ (by simp) (by simp)
    | refine ite_ind (fun x : Kind × Nat => 1 ≤ x.2 ∧ x.2 ≤ r.length + 1 ∧ x.1 ≠ .eof) ?_ ?_
  all_goals simp

/-- Every token takes at least one character and no more than there are. -/
theorem nextToken_len (c : Char) (r : List Char) : 1 ≤ (nextToken c r).2 ∧ (nextToken c r).2 ≤ r.length + 1 ∧ (nextToken c r).1 ≠ .eof := by
  unfold nextToken
  split
  · rename_i h
    have hs : 1 ≤ scanNumber false (c :: r) := by
      unfold scanNumber
      split
      · omega
      · rename_i hd
        rcases h with h | h
        · exact absurd h hd
        · rw [if_pos ⟨h.1, rfl, h.2⟩]; omega
    have hle := scanNumber_le false (c :: r)
    simp at hle
    refine ⟨?_, ?_, by simp⟩
    · unfold numberLen
      simp only
      split <;> omega
    · unfold numberLen
      simp only
      split
      · rename_i r' he
        have hcw := countWhile_le isAlphaNum r'
        have hl : (List.drop (scanNumber false (c :: r)) (c :: r)).length = r'.length + 1 := by rw [he]; simp
        rw [List.length_drop] at hl
        simp at hl
        omega
      · omega
  · split
    · have hle := countWhile_le (fun d => isAlphaNum d || d == ':') r
      simp only
      split
      · rename_i k hk
        refine ⟨by simp, by simp; omega, ?_⟩
        simp only
        revert hk
        unfold keyword
        split <;> simp <;> (rintro rfl; simp)
      · refine ⟨by simp, by simp; omega, by simp⟩
    · split
      · have := scanString_le r
        simp only
        split
        · rename_i hx
          have h2 := this.2 hx
          exact ⟨by simp, by simp; omega, by simp⟩
        · exact ⟨by simp, by simp; omega, by simp⟩
      · exact operator_len c r

theorem lexLoop_covers : ∀ (fuel pos : Nat) (s : List Char), s.length < fuel → Covers pos s (lexLoop fuel pos s) ∧ (lexLoop fuel pos s).length ≤ s.length + 1 := by
  intro fuel
  induction fuel with
  | zero => intro pos s h; omega
  | succ fuel ih =>
    intro pos s h
    unfold lexLoop
    obtain ⟨h1, _, h3, _⟩ := skip_blank s false
    cases hs : skip false s with
    | nil => exact ⟨.eof pos s (h3 rfl hs), by simp⟩
    | cons c r =>
      obtain ⟨gap, e, hb⟩ := h1 rfl (by rw [hs]; simp)
      rw [hs] at e
      obtain ⟨n1, n2, n3⟩ := nextToken_len c r
      simp only
      have hlen : s.length = gap.length + (r.length + 1) := by rw [e]; simp
      have hstart : s.length - (c :: r).length = gap.length := by simp; omega
      rw [hstart]
      have htl : ((c :: r).take (nextToken c r).2).length = (nextToken c r).2 := by rw [List.length_take]; simp; omega
      have hdl : ((c :: r).drop (nextToken c r).2).length = r.length + 1 - (nextToken c r).2 := by rw [List.length_drop]; simp
      obtain ⟨hc, hl⟩ := ih (pos + gap.length + (nextToken c r).2) ((c :: r).drop (nextToken c r).2) (by omega)
      refine ⟨?_, by simp only [List.length_cons]; omega⟩
      have := Covers.token pos gap ((c :: r).take (nextToken c r).2) ((c :: r).drop (nextToken c r).2) (nextToken c r).1 _ hb
        (by intro h0; rw [h0] at htl; simp at htl; omega) n3 (by rw [htl]; exact hc)
      rw [List.take_append_drop, ← e] at this
      exact this

/-! ## C29 -/

/-- **C29.** For every source the lexer ends, after at most one token per character and the end of input, and the tokens cover the source. -/
theorem lex_covers (src : List Char) : Covers 0 src (lexAll src) ∧ (lexAll src).length ≤ src.length + 1 := lexLoop_covers _ _ _ (by omega)

/-- What covering means for a single token: its text is the slice of the source at its position. -/
theorem covers_slice (full : List Char) (pos : Nat) (s : List Char) (ts : List Token) (h : Covers pos s ts) (hs : full.drop pos = s) (hp : pos ≤ full.length) :
    ∀ t ∈ ts, t.text = (full.drop t.pos).take t.text.length ∧ t.pos + t.text.length ≤ full.length ∧ pos ≤ t.pos := by
  induction h with
  | eof pos gap hb =>
    intro t ht
    simp at ht
    subst ht
    have : gap.length = full.length - pos := by rw [← hs, List.length_drop]
    simp
    omega
  | token pos gap text rest k ts hg hne hk hr ih =>
    have hlen : full.length - pos = gap.length + (text.length + rest.length) := by rw [← List.length_drop, hs]; simp
    have htl : 0 < text.length := List.length_pos_iff.2 hne
    have h1 : full.drop (pos + gap.length) = text ++ rest := by rw [← List.drop_drop, hs]; simp
    have h2 : full.drop (pos + gap.length + text.length) = rest := by rw [← List.drop_drop, h1]; simp
    intro t ht
    rcases List.mem_cons.1 ht with rfl | ht
    · simp only [h1]
      refine ⟨by simp, by omega, by omega⟩
    · obtain ⟨e1, e2, e3⟩ := ih h2 (by omega) t ht
      exact ⟨e1, e2, by omega⟩

/-- **C29.** Tokens are slices of the source and lie inside it. -/
theorem lex_slices (src : List Char) : ∀ t ∈ lexAll src, t.text = (src.drop t.pos).take t.text.length ∧ t.pos + t.text.length ≤ src.length := fun t ht =>
  let h := covers_slice src 0 src (lexAll src) (lex_covers src).1 rfl (by omega) t ht
  ⟨h.1, h.2.1⟩

theorem covers_ordered (pos : Nat) (s : List Char) (ts : List Token) (h : Covers pos s ts) :
    (∀ t ∈ ts, pos ≤ t.pos) ∧ ts.Pairwise (fun a b => a.pos + a.text.length ≤ b.pos) := by
  induction h with
  | eof pos gap hb => exact ⟨by simp, by simp⟩
  | token pos gap text rest k ts hg hne hk hr ih =>
    refine ⟨?_, ?_⟩
    · intro t ht
      rcases List.mem_cons.1 ht with rfl | ht
      · simp
      · have := ih.1 t ht; omega
    · rw [List.pairwise_cons]
      exact ⟨fun t ht => ih.1 t ht, ih.2⟩

/-- **C29.** Tokens are in source order and do not overlap. -/
theorem lex_ordered (src : List Char) : (lexAll src).Pairwise (fun a b => a.pos + a.text.length ≤ b.pos) := (covers_ordered _ _ _ (lex_covers src).1).2

example : (lexAll "x += 1.5_f32 // c".toList).map (·.kind) = [.identifier, .plusAssign, .number, .eof] := by decide +kernel

end Verif.Ast
