import Verif.Simd.Loop
/-!
# Searching and splitting (C47, C54, C55, C56)

`/repo/rapidudf/functions/simd/vector_misc.cc` (find) and `string.cc` (find_char, find_string, split). A string is the list of its bytes.
-/
namespace Verif.Simd

abbrev Byte' := BitVec 8

/-- Conversion of a `size_t` to the `int` that the functions return. -/
def toInt32 (n : Nat) : Int := (n : Int).bmod (2 ^ 32)

/-- One iteration of a search loop: load a block, compare all lanes, and return `f k i` if lane `k` is the first match. -/
def searchBody {α ρ : Type} (N : Nat) (p : α → Bool) (l : List α) (f : Nat → Nat → ρ) (i : Nat) (_ : Unit) : Option (ρ ⊕ Unit) :=
  match loadU l i N with
  | none => none
  | some v =>
    match findFirstTrue (v.map p) with
    | some k => some (.inl (f k i))
    | none => some (.inr ())

/-- Highway's `Find`/`FindIf` (`hwy/contrib/algo/find-inl.h`, not in `/repo`; modelled from its documentation): the first index whose element
satisfies `p`, or the number of elements. The last block is masked with `FirstN`. -/
def hwyFind {α : Type} (zero : α) (N : Nat) (p : α → Bool) (l : List α) : Option Nat :=
  match forLoopRet (fullBlock N l.length) N (searchBody N p l (fun k i => i + k)) (l.length + 1) 0 () with
  | none => none
  | some (.inl r) => some r
  | some (.inr (i, _)) =>
    if i = l.length then some l.length
    else
      match loadN zero l i (l.length - i) N with
      | none => none
      | some v =>
        match findFirstTrue ((v.map p).take (l.length - i)) with
        | some f => some (i + f)
        | none => some l.length

/-- `simd_vector_find` for numbers (`vector_misc.cc` 271–295 and 603–611). -/
def vectorFind {α : Type} (zero : α) (N : Nat) (p : α → Bool) (l : List α) : Option Int :=
  match hwyFind zero N p l with
  | none => none
  | some n => some (if n = l.length then -1 else toInt32 n)

/-- `simd_vector_find` for strings (596–602). -/
def vectorFindString {α : Type} (p : α → Bool) (l : List α) : Option Int :=
  match forLoopRet (fun i => decide (i < l.length)) 1 (fun i (_ : Unit) =>
      match l[i]? with
      | none => none
      | some x => if p x then some (.inl (toInt32 i)) else some (.inr ())) (l.length + 1) 0 () with
  | none => none
  | some (.inl r) => some r
  | some (.inr _) => some (-1)

/-- `simd_string_find_char_impl` (`string.cc` 37–66). -/
def findChar (N : Nat) (s : List Byte') (ch : Byte') : Option Int :=
  match forLoopRet (fullBlock N s.length) N (searchBody N (· == ch) s (fun k i => toInt32 (k + i))) (s.length + 1) 0 () with
  | none => none
  | some (.inl r) => some r
  | some (.inr (i, _)) =>
    if i = s.length then some (-1)
    else
      match loadN 0 s i (s.length - i) N with
      | none => none
      | some v =>
        match findFirstTrue (v.map (· == ch)) with
        | some f => if f < s.length - i then some (toInt32 (f + i)) else some (-1)
        | none => some (-1)

/-- `memcmp(s + a, part, part_len) == 0`. -/
def memEq (s : List Byte') (a : Nat) (part : List Byte') : Option Bool :=
  if a + part.length ≤ s.length then some ((s.drop a).take part.length == part) else none

/-- The candidate lanes of a block: first and last byte of the pattern match. -/
def candMask (v0 v1 : List Byte') (first last : Byte') : List Bool := List.zipWith (· && ·) (v0.map (· == first)) (v1.map (· == last))

/-- The body of the `while` loop in a full block (`string.cc` 95–105). The comparison at line 99 starts at `idx + first_pos + 1`, with
`first_pos = 0`, whatever the lane. -/
def blockCheck (s part : List Byte') (idx k : Nat) (u : Unit) : Option (Act Int Unit) :=
  if part.length = 2 then some (.ret (toInt32 (k + idx)))
  else
    match memEq s (idx + 0 + 1) ((part.drop 1).take (part.length - 2)) with
    | none => none
    | some true => some (.ret (toInt32 (k + idx)))
    | some false => some (.cont u)

/-- The body of the `while` loop in the tail (121–134), where the comparison is at the lane. -/
def tailCheck (s part : List Byte') (idx remaining k : Nat) (u : Unit) : Option (Act Int Unit) :=
  if k ≥ remaining then some (.brk u)
  else if part.length = 2 then some (.ret (toInt32 (k + idx)))
  else
    match memEq s (idx + k + 1) ((part.drop 1).take (part.length - 2)) with
    | none => none
    | some true => some (.ret (toInt32 (k + idx)))
    | some false => some (.cont u)

/-- One iteration over a full block (`string.cc` 88–106). -/
def findStringBody (N : Nat) (s part : List Byte') (first last : Byte') (i : Nat) (_ : Unit) : Option (Int ⊕ Unit) :=
  match loadU s i N, loadU s (i + (part.length - 1)) N with
  | some v0, some v1 => maskLoop (blockCheck s part i) (N + 1) (candMask v0 v1 first last) ()
  | _, _ => none

/-- `simd_string_find_string_impl` (68–136). An empty pattern reads `part[-1]`. -/
def findString (N : Nat) (s part : List Byte') : Option Int :=
  if s.length < part.length then some (-1)
  else
    match part.head?, part.getLast? with
    | some first, some last =>
      if part.length = 1 then findChar N s first
      else
        let lastPos := part.length - 1
        match forLoopRet (fullBlock (N + part.length - 1) s.length) N (findStringBody N s part first last) (s.length + 1) 0 () with
        | none => none
        | some (.inl r) => some r
        | some (.inr (i, _)) =>
          if i > s.length - part.length then some (-1)
          else
            let remaining := s.length - i - part.length + 1
            match loadN 0 s i remaining N, loadN 0 s (i + lastPos) remaining N with
            | some v0, some v1 =>
              match maskLoop (tailCheck s part i remaining) (N + 1) (candMask v0 v1 first last) () with
              | none => none
              | some (.inl r) => some r
              | some (.inr _) => some (-1)
            | _, _ => none
    | _, _ => none

/-- One iteration over a full block (`string.cc` 173–185). -/
def splitBody (N : Nat) (s : List Byte') (ch : Byte') (i : Nat) (acc : List Nat) : Option (List Nat) :=
  match loadU s i N with
  | none => none
  | some v =>
    match maskLoop (ρ := Empty) (fun k acc => some (.cont (acc ++ [(i + k) % 2 ^ 32]))) (N + 1) (v.map (· == ch)) acc with
    | some (.inr acc) => some acc
    | _ => none

/-- `simd_string_split_by_char_impl` (162–205): the positions of the separator, as `uint32_t`. -/
def splitPositions (N : Nat) (s : List Byte') (ch : Byte') : Option (List Nat) :=
  match forLoop (fullBlock N s.length) N (splitBody N s ch) (s.length + 1) 0 [] with
  | none => none
  | some (i, acc) =>
    if i = s.length then some acc
    else
      match loadN 0 s i (s.length - i) N with
      | none => none
      | some v =>
        match maskLoop (ρ := Empty) (fun k acc => if k ≥ s.length - i then some (.brk acc) else some (.cont (acc ++ [(i + k) % 2 ^ 32])))
          (N + 1) (v.map (· == ch)) acc with
        | some (.inr acc) => some acc
        | _ => none

/-- `s.substr(pos, n)`; throws (`none`) when `pos > s.size()`. -/
def substr (s : List Byte') (pos n : Nat) : Option (List Byte') := if pos ≤ s.length then some ((s.drop pos).take n) else none

/-- The loop that cuts the string at the positions (250–268; 275–292 for a separator string). `pos - last_pos` is `size_t` arithmetic: a
negative difference is a huge length. -/
def assemble (s : List Byte') (sepLen : Nat) : List Nat → Nat → List (List Byte') → Option (List (List Byte'))
  | [], lastPos, acc =>
    if lastPos < s.length then
      match substr s lastPos s.length with
      | none => none
      | some part => some (if part ≠ [] then acc ++ [part] else acc)
    else some acc
  | pos :: ps, lastPos, acc =>
    if pos ≠ lastPos then
      match substr s lastPos (if lastPos ≤ pos then pos - lastPos else s.length) with
      | none => none
      | some part => assemble s sepLen ps (pos + sepLen) (if part ≠ [] then acc ++ [part] else acc)
    else assemble s sepLen ps (pos + sepLen) acc

/-- `simd_string_split_by_char` (247–269). -/
def splitByChar (N : Nat) (s : List Byte') (ch : Byte') : Option (List (List Byte')) :=
  match splitPositions N s ch with
  | none => none
  | some ps => assemble s 1 ps 0 []

/-! ## Specification -/

/-- `r` is the answer of a search: the first position, or -1 if there is none. -/
def FindResult {α : Type} (p : α → Bool) (l : List α) (r : Int) : Prop :=
  (∃ n : Nat, r = n ∧ IsFirst p l n) ∨ (r = -1 ∧ ∀ x ∈ l, p x = false)

/-- The pattern occurs in `s` at position `n`. -/
def Occurs (s part : List Byte') (n : Nat) : Prop := ∃ pre post, s = pre ++ part ++ post ∧ pre.length = n

/-- `r` is the first position at which the pattern occurs, or -1 if it does not occur. -/
def FindStringResult (s part : List Byte') (r : Int) : Prop :=
  (∃ n : Nat, r = n ∧ Occurs s part n ∧ ∀ j, j < n → ¬ Occurs s part j) ∨ (r = -1 ∧ ∀ n, ¬ Occurs s part n)

/-- The runs between separators, empty ones included. -/
def runs (ch : Byte') : List Byte' → List (List Byte')
  | [] => [[]]
  | c :: cs =>
    if c = ch then [] :: runs ch cs
    else
      match runs ch cs with
      | [] => [[c]]
      | r :: rs => (c :: r) :: rs

/-- The specification of `split_by_char`. -/
def splitSpec (ch : Byte') (s : List Byte') : List (List Byte') := (runs ch s).filter (fun r => r ≠ [])

/-! ## Helper lemmas -/

theorem toInt32_small {n : Nat} (h : n < 2 ^ 31) : toInt32 n = n := by
  unfold toInt32
  rw [Int.bmod_eq_of_le_mul_two] <;> omega

/-- The block loop of all searches. -/
theorem searchLoop_ok {α : Type} (p : α → Bool) (l : List α) (N : Nat) (hN : 0 < N) {ρ : Type} (f : Nat → Nat → ρ) :
    let run := forLoopRet (fullBlock N l.length) N (searchBody N p l f) (l.length + 1) 0 ()
    (∃ k i, run = some (.inl (f k i)) ∧ IsFirst p l (i + k) ∧ i + k < l.length) ∨
      ∃ i, run = some (.inr (i, ())) ∧ (∀ x ∈ l.take i, p x = false) ∧ i ≤ l.length ∧ l.length < i + N := by
  intro run
  rcases forLoopRet_inv (cond := fullBlock N l.length) (step := N)
    (body := searchBody N p l f)
    (fun i _ => ∀ x ∈ l.take i, p x = false) (fun r => ∃ k i, r = f k i ∧ IsFirst p l (i + k) ∧ i + k < l.length) l.length hN
    (fun i _ _ h => fullBlock_le h)
    (by
      intro i u hpre hc
      have hle := fullBlock_le hc
      unfold searchBody
      rw [loadU_some hle]
      cases hf : findFirstTrue (((l.drop i).take N).map p) with
      | some k =>
        obtain ⟨h1, h2, h3⟩ := first_block p l i N k hpre hf
        exact .inl ⟨f k i, by simp only [hf], k, i, rfl, h1, h3⟩
      | none => exact .inr ⟨(), by simp only [hf], none_block p l i N hpre hf⟩)
    (l.length + 1) 0 () (by simp) (by omega) (by omega) with ⟨r, he, k, i, rfl, h1, h2⟩ | ⟨i, u, he, h1, hc, _, hi⟩
  · exact .inl ⟨k, i, he, h1, h2⟩
  · exact .inr ⟨i, he, h1, hi, fullBlock_false hc⟩

theorem loadN_some {α : Type} (z : α) (l : List α) (i n N : Nat) (h : i + n ≤ l.length) (h2 : n ≤ N) :
    loadN z l i n N = some ((l.drop i).take n ++ List.replicate (N - n) z) := by
  simp only [loadN]
  rw [if_pos ⟨h, h2⟩]

theorem take_map_pad {α : Type} (p : α → Bool) (l : List α) (i n N : Nat) (z : α) (h : i + n ≤ l.length) :
    (((l.drop i).take n ++ List.replicate (N - n) z).map p).take n = ((l.drop i).take n).map p := by
  have hl : (((l.drop i).take n).map p).length = n := by simp; omega
  rw [List.map_append]
  conv => lhs; rw [← hl]
  simp

/-! ## C47 -/

theorem hwyFind_ok {α : Type} (zero : α) (N : Nat) (hN : 0 < N) (p : α → Bool) (l : List α) :
    (∃ n, hwyFind zero N p l = some n ∧ IsFirst p l n ∧ n < l.length) ∨ (hwyFind zero N p l = some l.length ∧ ∀ x ∈ l, p x = false) := by
  unfold hwyFind
  rcases searchLoop_ok p l N hN (fun k i => i + k) with ⟨k, i, he, h1, h2⟩ | ⟨i, he, h1, h2, h3⟩
  · simp only [he]
    exact .inl ⟨i + k, rfl, h1, h2⟩
  · simp only [he]
    by_cases hi : i = l.length
    · simp only [hi, if_true]
      rw [List.take_of_length_le (by omega)] at h1
      exact .inr ⟨trivial, h1⟩
    · simp only [hi, if_false]
      rw [loadN_some _ _ _ _ _ (by omega) (by omega)]
      simp only [take_map_pad p l i (l.length - i) N zero (by omega)]
      cases hf : findFirstTrue (((l.drop i).take (l.length - i)).map p) with
      | some k =>
        obtain ⟨e1, e2, e3⟩ := first_block p l i _ k h1 hf
        exact .inl ⟨i + k, rfl, e1, e3⟩
      | none =>
        have := none_block p l i _ h1 hf
        rw [show i + (l.length - i) = l.length by omega, List.take_of_length_le (Nat.le_refl _)] at this
        exact .inr ⟨rfl, this⟩

/-- C47, numbers: for every lane count, `find` returns the first index whose element satisfies the comparison, or -1 if there is none. A
vector has less than 2^30 elements. -/
theorem find_first {α : Type} (zero : α) (N : Nat) (hN : 0 < N) (p : α → Bool) (l : List α) (hl : l.length < 2 ^ 30) :
    ∃ r, vectorFind zero N p l = some r ∧ FindResult p l r := by
  unfold vectorFind
  rcases hwyFind_ok zero N hN p l with ⟨n, he, h1, h2⟩ | ⟨he, h1⟩
  · rw [he]
    refine ⟨toInt32 n, ?_, .inl ⟨n, toInt32_small (by omega), h1⟩⟩
    have : n ≠ l.length := by omega
    simp only [this, if_false]
  · rw [he]
    exact ⟨-1, by simp, .inr ⟨rfl, h1⟩⟩

/-- C47, strings. -/
theorem find_first_string {α : Type} (p : α → Bool) (l : List α) (hl : l.length < 2 ^ 30) :
    ∃ r, vectorFindString p l = some r ∧ FindResult p l r := by
  unfold vectorFindString
  rcases forLoopRet_inv (cond := fun i => decide (i < l.length)) (step := 1)
    (body := fun i (_ : Unit) =>
      match l[i]? with
      | none => none
      | some x => if p x then some (.inl (toInt32 i)) else some (.inr ()))
    (fun i _ => ∀ j x, j < i → l[j]? = some x → p x = false) (fun r => ∃ n : Nat, r = n ∧ IsFirst p l n) l.length (by omega)
    (fun i _ _ h => by simp at h; omega)
    (by
      intro i u hpre hc
      have hc : i < l.length := by simpa using hc
      rw [List.getElem?_eq_getElem hc]
      cases hp : p l[i] with
      | true =>
        exact .inl ⟨toInt32 i, by simp [hp], i, toInt32_small (by omega), ⟨l[i], List.getElem?_eq_getElem hc, hp⟩, hpre⟩
      | false =>
        refine .inr ⟨(), by simp [hp], ?_⟩
        intro j x hj hx
        by_cases e : j = i
        · subst e
          rw [List.getElem?_eq_getElem hc] at hx
          have : l[j] = x := by simpa using hx
          rw [← this]; exact hp
        · exact hpre j x (by omega) hx)
    (l.length + 1) 0 () (by intro j x h; omega) (by omega) (by omega) with ⟨r, he, h⟩ | ⟨i, u, he, h1, hc, _, hi⟩
  · simp only [he]
    exact ⟨r, rfl, .inl h⟩
  · simp only [he]
    refine ⟨-1, rfl, .inr ⟨rfl, ?_⟩⟩
    intro x hx
    obtain ⟨j, hj⟩ := List.mem_iff_getElem?.mp hx
    have hji : j < l.length := by
      rcases Nat.lt_or_ge j l.length with h | h
      · exact h
      · rw [List.getElem?_eq_none h] at hj; cases hj
    have : l.length ≤ i := by simpa using hc
    exact h1 j x (by omega) hj

example : vectorFind (0 : Int) 2 (· == 7) [3, 9, 4, 7, 7] = some 3 := by decide
example : vectorFind (0 : Int) 4 (· == 0) [3, 9, 4, 7, 7] = some (-1) := by decide

/-! ## C54 -/

theorem findFirst_pad {α : Type} (p : α → Bool) (a b : List α) :
    findFirstTrue ((a ++ b).map p) = (findFirstTrue (a.map p)).or ((findFirstTrue (b.map p)).map (· + a.length)) := by
  unfold findFirstTrue
  rw [List.map_append, List.findIdx?_append, List.length_map]

/-- C54: for every lane count, `find_char` returns the first position of the character, or -1 if it does not occur, for every string of at
most 2^31 bytes. -/
theorem find_char_first (N : Nat) (hN : 0 < N) (s : List Byte') (ch : Byte') (hs : s.length ≤ 2 ^ 31) :
    ∃ r, findChar N s ch = some r ∧ FindResult (· == ch) s r := by
  unfold findChar
  rcases searchLoop_ok (· == ch) s N hN (fun k i => toInt32 (k + i)) with ⟨k, i, he, h1, h2⟩ | ⟨i, he, h1, h2, h3⟩
  · simp only [he]
    refine ⟨_, rfl, .inl ⟨i + k, ?_, h1⟩⟩
    rw [toInt32_small (by omega)]
    omega
  · simp only [he]
    by_cases hi : i = s.length
    · simp only [hi, if_true]
      rw [List.take_of_length_le (by omega)] at h1
      exact ⟨-1, rfl, .inr ⟨rfl, h1⟩⟩
    · simp only [hi, if_false]
      rw [loadN_some _ _ _ _ _ (by omega) (by omega)]
      simp only [findFirst_pad]
      have hlen : ((s.drop i).take (s.length - i)).length = s.length - i := by simp
      cases hf : findFirstTrue (((s.drop i).take (s.length - i)).map (· == ch)) with
      | some k =>
        obtain ⟨e1, e2, e3⟩ := first_block _ s i _ k h1 hf
        simp only [Option.some_or, e2, if_true]
        refine ⟨_, rfl, .inl ⟨i + k, ?_, e1⟩⟩
        rw [toInt32_small (by omega)]
        omega
      | none =>
        have hn := none_block _ s i _ h1 hf
        rw [show i + (s.length - i) = s.length by omega, List.take_of_length_le (Nat.le_refl _)] at hn
        simp only [Option.none_or, hlen]
        refine ⟨-1, ?_, .inr ⟨rfl, hn⟩⟩
        cases findFirstTrue (((List.replicate (N - (s.length - i)) (0 : Byte')).map (· == ch))) with
        | none => rfl
        | some f =>
          simp only [Option.map_some]
          rw [if_neg (by omega)]

/-- Beyond 2^31 bytes the position does not fit the returned `int`: a character found at position 2^31 is reported as absent, more precisely
as a negative number. -/
theorem find_char_long_violated (N : Nat) (hN : 0 < N) (s : List Byte') (ch : Byte') (h : IsFirst (· == ch) s (2 ^ 31)) :
    findChar N s ch = some (-2 ^ 31) := by
  have conv : ∀ n, IsFirst (· == ch) s n → n = 2 ^ 31 := by
    intro n hn
    obtain ⟨⟨x, hx, hpx⟩, hfirst⟩ := h
    obtain ⟨⟨y, hy, hpy⟩, hfirst'⟩ := hn
    rcases Nat.lt_trichotomy n (2 ^ 31) with hlt | heq | hgt
    · have := hfirst n y hlt hy; rw [hpy] at this; cases this
    · exact heq
    · have := hfirst' _ x hgt hx; rw [hpx] at this; cases this
  have hv : toInt32 (2 ^ 31) = -2 ^ 31 := by decide
  have hmem : ∃ x ∈ s, (x == ch) = true := by
    obtain ⟨⟨x, hx, hpx⟩, _⟩ := h
    exact ⟨x, List.mem_iff_getElem?.mpr ⟨_, hx⟩, hpx⟩
  unfold findChar
  rcases searchLoop_ok (· == ch) s N hN (fun k i => toInt32 (k + i)) with ⟨k, i, he, h1, h2⟩ | ⟨i, he, h1, h2, h3⟩
  · simp only [he]
    rw [Nat.add_comm k i, conv _ h1, hv]
  · simp only [he]
    have habs : ¬ ∀ x ∈ s, (x == ch) = false := by
      intro hall
      obtain ⟨x, hx, hpx⟩ := hmem
      rw [hall x hx] at hpx; cases hpx
    by_cases hi : i = s.length
    · rw [List.take_of_length_le (by omega)] at h1
      exact absurd h1 habs
    · simp only [hi, if_false]
      rw [loadN_some _ _ _ _ _ (by omega) (by omega)]
      simp only [findFirst_pad]
      cases hf : findFirstTrue (((s.drop i).take (s.length - i)).map (· == ch)) with
      | some k =>
        obtain ⟨e1, e2, e3⟩ := first_block _ s i _ k h1 hf
        simp only [Option.some_or, e2, if_true]
        rw [Nat.add_comm k i, conv _ e1, hv]
      | none =>
        have hn := none_block _ s i _ h1 hf
        rw [show i + (s.length - i) = s.length by omega, List.take_of_length_le (Nat.le_refl _)] at hn
        exact absurd hn habs

/-- Such strings exist, for any position. -/
theorem first_exists (n : Nat) : IsFirst (· == (1 : Byte')) (List.replicate n 0 ++ [1]) n := by
  refine ⟨⟨1, ?_, by decide⟩, ?_⟩
  · rw [List.getElem?_append_right (by simp)]; simp
  · intro j x hj hx
    rw [List.getElem?_append_left (by simpa using hj), List.getElem?_replicate, if_pos hj] at hx
    have : x = 0 := by simpa using hx.symm
    subst this; decide

example : ∃ s, IsFirst (· == (1 : Byte')) s (2 ^ 31) := ⟨_, first_exists _⟩

example : findChar 4 [1, 2, 3, 4, 5, 6] 6 = some 5 := by decide
example : findChar 4 [1, 2, 3, 4, 5, 6] 0 = some (-1) := by decide

end Verif.Simd
