/-!
# Line numbers of errors: C32

`/repo/rapidudf/ast/context.cc` 93–133. Characters stand for bytes; the 32-bit cursor is a natural number (a source is shorter than 2^32 bytes, as positions are 32-bit themselves).
-/
namespace Verif.Ast.Lines

/-- `absl::StrSplit(source_, '\n')`, context.cc 95. -/
def splitLines : List Char → List (List Char)
  | [] => [[]]
  | c :: r =>
    if c = '\n' then [] :: splitLines r
    else match splitLines r with
      | l :: ls => (c :: l) :: ls
      | [] => [[c]]

/-- The loop of `GetLineNo`, context.cc 110–119, and of `GetErrorLine`, 124–132. -/
def scan (pos cursor lineno : Nat) : List (List Char) → Nat
  | [] => lineno
  | l :: ls => if pos ≤ cursor + l.length then lineno else scan pos (cursor + l.length) (lineno + 1) ls

/-- `GetLineNo`, context.cc 108–120. -/
def getLineNo (src : List Char) (pos : Nat) : Nat := scan pos 0 1 (splitLines src)

/-- Specification: one plus the number of newlines before the position. -/
def lineOf (src : List Char) (pos : Nat) : Nat := 1 + (src.take pos).count '\n'

/-! ## Proofs -/

/-- A source is its first line, or its first line, a newline and the rest. -/
theorem split_first (src : List Char) : (splitLines src = [src] ∧ src.count '\n' = 0) ∨
    ∃ l rest, src = l ++ '\n' :: rest ∧ l.count '\n' = 0 ∧ splitLines src = l :: splitLines rest := by
  induction src with
  | nil => left; exact ⟨rfl, rfl⟩
  | cons c r ih =>
    by_cases hc : c = '\n'
    · right
      subst hc
      exact ⟨[], r, rfl, rfl, by simp [splitLines]⟩
    · rcases ih with ⟨h1, h2⟩ | ⟨l, rest, h1, h2, h3⟩
      · left
        refine ⟨by simp [splitLines, hc, h1], ?_⟩
        rw [List.count_cons_of_ne hc, h2]
      · right
        refine ⟨c :: l, rest, by rw [h1]; rfl, ?_, by simp [splitLines, hc, h3]⟩
        rw [List.count_cons_of_ne hc, h2]

theorem scan_ge (pos : Nat) (ls : List (List Char)) : ∀ cursor lineno, lineno ≤ scan pos cursor lineno ls := by
  induction ls with
  | nil => intro _ _; exact Nat.le_refl _
  | cons l ls ih =>
    intro cursor lineno
    unfold scan
    split
    · exact Nat.le_refl _
    · exact Nat.le_trans (Nat.le_succ _) (ih _ _)

theorem count_take_mono (l : List Char) (m n : Nat) (h : m ≤ n) : (l.take m).count '\n' ≤ (l.take n).count '\n' := by
  apply List.Sublist.count_le
  exact List.take_sublist_take_left h

theorem scan_lower : ∀ (n : Nat) (src : List Char), src.length = n → ∀ pos cursor lineno, cursor ≤ pos →
    lineno + (src.take (pos - cursor)).count '\n' ≤ scan pos cursor lineno (splitLines src) := by
  intro n
  induction n using Nat.strongRecOn with
  | ind n ih =>
    intro src hn pos cursor lineno hc
    rcases split_first src with ⟨h1, h2⟩ | ⟨l, rest, h1, h2, h3⟩
    · have : (src.take (pos - cursor)).count '\n' = 0 := by
        have := List.Sublist.count_le '\n' (List.take_sublist (pos - cursor) src)
        omega
      rw [this]
      exact scan_ge _ _ _ _
    · rw [h3]
      unfold scan
      split
      · rename_i hp
        have : (src.take (pos - cursor)).count '\n' = 0 := by
          rw [h1, List.take_append_of_le_length (by omega)]
          have := List.Sublist.count_le '\n' (List.take_sublist (pos - cursor) l)
          omega
        omega
      · rename_i hp
        have hlen : rest.length < n := by rw [← hn, h1]; simp; omega
        have := ih rest.length hlen rest rfl pos (cursor + l.length) (lineno + 1) (by omega)
        refine Nat.le_trans ?_ this
        obtain ⟨k, hk⟩ : ∃ k, pos - cursor - l.length = k + 1 := ⟨pos - cursor - l.length - 1, by omega⟩
        have h4 : (src.take (pos - cursor)).count '\n' = 1 + (rest.take k).count '\n' := by
          rw [h1, List.take_append, List.count_append, List.take_of_length_le (by omega), h2, hk, List.take_succ_cons, List.count_cons_self]
          omega
        have h5 := count_take_mono rest k (pos - (cursor + l.length)) (by omega)
        omega

/-- **C32, the part that holds.** The reported line is never before the true one. -/
theorem line_not_before_partial (src : List Char) (pos : Nat) : lineOf src pos ≤ getLineNo src pos := by
  have := scan_lower src.length src rfl pos 0 1 (Nat.zero_le _)
  simpa [lineOf, getLineNo] using this

/-- **C32, the part that holds.** On the first line the reported line is right. -/
theorem first_line_partial (src : List Char) (pos : Nat) (hp : pos ≤ src.length) (h : lineOf src pos = 1) : getLineNo src pos = 1 := by
  unfold getLineNo
  have h0 : (src.take pos).count '\n' = 0 := by unfold lineOf at h; omega
  rcases split_first src with ⟨h1, _⟩ | ⟨l, rest, h1, h2, h3⟩
  · rw [h1]; simp [scan, hp]
  · rw [h3]
    unfold scan
    rw [if_pos]
    apply Nat.le_of_not_lt
    intro hlt
    rw [h1, List.take_append, List.count_append, show pos - l.length = (pos - l.length - 1) + 1 by omega, List.take_succ_cons, List.count_cons_self] at h0
    omega

/-- `n` lines with one letter each. -/
def letters : Nat → List Char
  | 0 => []
  | n + 1 => 'a' :: '\n' :: letters n

theorem scan_letters (k : Nat) : ∀ pos cursor lineno, cursor < pos → pos ≤ cursor + k → scan pos cursor lineno (splitLines (letters k)) = lineno + (pos - cursor) - 1 := by
  induction k with
  | zero => intro pos cursor lineno h1 h2; omega
  | succ k ih =>
    intro pos cursor lineno h1 h2
    have : splitLines (letters (k + 1)) = ['a'] :: splitLines (letters k) := by simp [letters, splitLines]
    rw [this]
    unfold scan
    split
    · rename_i h; simp at h; omega
    · rename_i h
      simp at h
      rw [ih pos _ _ (by simp; omega) (by simp; omega)]
      simp
      omega

theorem count_letters (m : Nat) : ∀ k, m ≤ k → ((letters k).take (2 * m)).count '\n' = m := by
  induction m with
  | zero => intro k _; simp
  | succ m ih =>
    intro k hk
    obtain ⟨j, rfl⟩ : ∃ j, k = j + 1 := ⟨k - 1, by omega⟩
    rw [letters, show 2 * (m + 1) = 2 * m + 1 + 1 by omega, List.take_succ_cons, List.take_succ_cons]
    have := ih j (by omega)
    rw [List.count_cons_of_ne (by decide), List.count_cons_self, this]

/-- **C32, violated.** The loop does not count the newlines themselves, so the number drifts: for every `n` there is a source and a position inside it whose reported line is `n`
too large. -/
theorem line_drift_violated (n : Nat) : ∃ src pos, pos < src.length ∧ getLineNo src pos = lineOf src pos + n := by
  have hlen : ∀ k, (letters k).length = 2 * k := by
    intro k
    induction k with
    | zero => rfl
    | succ k ih => simp [letters, ih]; omega
  refine ⟨letters (2 * (n + 1)), 2 * (n + 1), by rw [hlen]; omega, ?_⟩
  unfold getLineNo lineOf
  rw [scan_letters _ _ _ _ (by omega) (by omega), count_letters (n + 1) _ (by omega)]
  omega

example : lineOf "ab\ncd\nef".toList 4 = 2 ∧ getLineNo "ab\ncd\nef".toList 4 = 2 := by decide

end Verif.Ast.Lines
