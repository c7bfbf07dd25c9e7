import Verif.Simd.StrProps
/-!
# Splitting at a separator string (C109)

`/repo/rapidudf/functions/simd/string.cc` 207–225 and 271–292.
-/
namespace Verif.Simd

/-- The loop of `simd_string_split_by_string_impl` (`string.cc` 216–224): `rest` is what `data` and `len` describe, `offset` a `uint32_t`. The
first argument bounds the number of iterations; `none`: undefined behaviour (a search reads outside, or `data` passes the end) or the bound is
reached. -/
def splitStringLoop (N : Nat) (sep : List Byte') : Nat → List Byte' → Nat → List Nat → Option (List Nat)
  | 0, _, _, _ => none
  | fuel + 1, rest, offset, acc =>
    match findString N rest sep with
    | none => none
    | some r =>
      if r ≥ 0 then
        if r.toNat + sep.length ≤ rest.length then
          splitStringLoop N sep fuel (rest.drop (r.toNat + sep.length)) ((offset + (r.toNat + sep.length)) % 2 ^ 32)
            (acc ++ [(offset + r.toNat) % 2 ^ 32])
        else none
      else some acc

/-- `simd_string_split_by_string_impl` (207–225). -/
def splitStringPositions (N : Nat) (s sep : List Byte') : Option (List Nat) :=
  match sep with
  | [c] => splitPositions N s c
  | _ => splitStringLoop N sep (s.length + 1) s 0 []

/-- `simd_string_split_by_string` (271–292). -/
def splitByString (N : Nat) (s sep : List Byte') : Option (List (List Byte')) :=
  match splitStringPositions N s sep with
  | none => none
  | some ps => assemble s sep.length ps 0 []

/-! ## Specification -/

/-- The parts of a string between the occurrences of a separator, looked for from left to right, empty parts included. -/
inductive Parts (sep : List Byte') : List Byte' → List (List Byte') → Prop
  | last {s} : (∀ n, ¬ Occurs s sep n) → Parts sep s [s]
  | more {pre rest parts} : (∀ j, j < pre.length → ¬ Occurs (pre ++ sep ++ rest) sep j) → Parts sep rest parts →
      Parts sep (pre ++ sep ++ rest) (pre :: parts)

/-- There is only one way to split. -/
theorem parts_unique {sep : List Byte'} : ∀ {s : List Byte'} {p q : List (List Byte')}, Parts sep s p → Parts sep s q → p = q := by
  intro s p q hp
  induction hp generalizing q with
  | @last s hn =>
    intro hq
    generalize hs : s = s' at hq
    cases hq with
    | last _ => rfl
    | @more pre rest parts _ _ => subst hs; exact absurd ⟨pre, rest, rfl, rfl⟩ (hn pre.length)
  | @more pre rest parts hn hr ih =>
    intro hq
    generalize hs : pre ++ sep ++ rest = s' at hq
    cases hq with
    | last hn' => subst hs; exact absurd ⟨pre, rest, rfl, rfl⟩ (hn' pre.length)
    | @more pre' rest' parts' hn' hr' =>
      have hlen : pre.length = pre'.length := by
        rcases Nat.lt_trichotomy pre.length pre'.length with h | h | h
        · exact absurd ⟨pre, rest, hs.symm, rfl⟩ (hn' _ h)
        · exact h
        · exact absurd ⟨pre', rest', hs, rfl⟩ (hn _ h)
      have h1 : pre = pre' := by
        have := congrArg (List.take pre.length) hs
        rw [List.append_assoc, List.take_left' rfl, hlen, List.append_assoc, List.take_left' rfl] at this
        exact this
      subst h1
      have h2 : rest = rest' := by
        rw [List.append_assoc, List.append_assoc] at hs
        exact List.append_cancel_left (List.append_cancel_left hs)
      subst h2
      rw [ih hr']

/-- Joining the parts with the separator gives the string back. -/
theorem parts_join {sep : List Byte'} : ∀ {s : List Byte'} {p : List (List Byte')}, Parts sep s p → List.intercalate sep p = s := by
  intro s p h
  induction h with
  | last _ => simp [List.intercalate]
  | @more pre rest parts _ hr ih =>
    cases parts with
    | nil => cases hr
    | cons r rs =>
      simp only [List.intercalate, List.intersperse_cons₂] at ih ⊢
      simp only [List.flatten_cons]
      rw [ih]
      simp

/-! ## Lemmas -/

theorem assemble_last (s : List Byte') (m off : Nat) (acc : List (List Byte')) :
    assemble s m [] off acc = some (acc ++ [s.drop off].filter (fun r => r ≠ [])) := by
  simp only [assemble]
  by_cases h : off < s.length
  · have hne : s.drop off ≠ [] := by simp; omega
    simp only [h, if_true, substr, Nat.le_of_lt h]
    rw [List.take_of_length_le (by simp)]
    simp [hne]
  · have : s.drop off = [] := List.drop_eq_nil_of_le (by omega)
    simp [h, this]

theorem assemble_more (s : List Byte') (m off k : Nat) (ps : List Nat) (acc : List (List Byte')) (h : off + k ≤ s.length) :
    assemble s m ((off + k) :: ps) off acc = assemble s m ps (off + k + m) (acc ++ [(s.drop off).take k].filter (fun r => r ≠ [])) := by
  simp only [assemble]
  by_cases hk : k = 0
  · subst hk; simp
  · rw [if_pos (by omega), if_pos (by omega)]
    unfold substr
    rw [if_pos (by omega), show off + k - off = k by omega]
    have hne : (s.drop off).take k ≠ [] := by simp; omega
    simp [hne]

/-- If every search in a rest of the string is right, the loop finds the places to cut. -/
theorem splitStringLoop_ok (N : Nat) (s sep : List Byte') (hsep : sep ≠ []) (hs : s.length < 2 ^ 32)
    (good : ∀ n, n ≤ s.length → ∃ r, findString N (s.drop n) sep = some r ∧ FindStringResult (s.drop n) sep r) :
    ∀ (fuel off : Nat) (acc : List Nat), off ≤ s.length → s.length - off < fuel →
    ∃ ps parts, splitStringLoop N sep fuel (s.drop off) off acc = some (acc ++ ps) ∧ Parts sep (s.drop off) parts ∧
      ∀ out, assemble s sep.length ps off out = some (out ++ parts.filter (fun r => r ≠ [])) := by
  intro fuel
  induction fuel with
  | zero => intro off acc _ h; omega
  | succ fuel ih =>
    intro off acc hoff hf
    have hpos : 0 < sep.length := List.length_pos_iff.mpr hsep
    obtain ⟨r, hr, hres⟩ := good off hoff
    simp only [splitStringLoop, hr]
    rcases hres with ⟨n, rfl, hocc, hfirst⟩ | ⟨rfl, hnone⟩
    · have hb := ((occurs_iff hsep).mp hocc).1
      rw [List.length_drop] at hb
      obtain ⟨pre, post, he, hl⟩ := hocc
      have h1 : (n : Int) ≥ 0 := by omega
      have h2 : (n : Int).toNat = n := by omega
      rw [if_pos h1, h2, List.length_drop, if_pos hb, List.drop_drop,
        Nat.mod_eq_of_lt (by omega), Nat.mod_eq_of_lt (by omega)]
      obtain ⟨ps, parts, g1, g2, g3⟩ := ih (off + (n + sep.length)) (acc ++ [off + n]) (by omega) (by omega)
      have hpost : s.drop (off + (n + sep.length)) = post := by
        rw [← List.drop_drop, he, ← hl]
        rw [show pre.length + sep.length = (pre ++ sep).length by simp, List.drop_left' rfl]
      rw [hpost] at g1 g2
      have htake : (s.drop off).take n = pre := by
        rw [he, List.append_assoc, List.take_left' hl]
      refine ⟨(off + n) :: ps, pre :: parts, ?_, ?_, ?_⟩
      · rw [hpost, g1]; simp
      · rw [he]
        refine .more (fun j hj => ?_) g2
        rw [← he]
        exact hfirst j (by omega)
      · intro out
        rw [assemble_more s sep.length off n ps out (by omega), htake, show off + n + sep.length = off + (n + sep.length) by omega, g3]
        simp only [List.filter_cons, List.filter_nil, List.append_assoc]
        split <;> simp
    · rw [if_neg (by omega)]
      refine ⟨[], [s.drop off], by simp, .last hnone, ?_⟩
      intro out
      exact assemble_last s sep.length off out

theorem occurs_one {s : List Byte'} {c : Byte'} {n : Nat} : Occurs s [c] n ↔ s[n]? = some c := by
  rw [occurs_iff_getElem (by simp)]
  constructor
  · rintro ⟨_, h⟩; simpa using h 0 (by simp)
  · intro h
    have hlt : n < s.length := by
      rcases Nat.lt_or_ge n s.length with h' | h'
      · exact h'
      · rw [List.getElem?_eq_none h'] at h; cases h
    refine ⟨by simp; omega, fun k hk => ?_⟩
    have : k = 0 := by simpa using hk
    subst this
    simpa using h

theorem runs_parts (c : Byte') : ∀ (n : Nat) (s : List Byte'), s.length = n → Parts [c] s (runs c s) := by
  intro n
  induction n using Nat.strongRecOn with
  | ind n ih =>
    intro s hn
    by_cases h : ∃ pre rest, s = pre ++ c :: rest ∧ ∀ x ∈ pre, x ≠ c
    · obtain ⟨pre, rest, rfl, hp⟩ := h
      rw [runs_sep c pre rest hp]
      have := ih rest.length (by simp at hn; omega) rest rfl
      have hmore := Parts.more (sep := [c]) (pre := pre) (rest := rest) (fun j hj => ?_) this
      · simpa using hmore
      · rw [occurs_one, List.append_assoc, List.getElem?_append_left hj, List.getElem?_eq_getElem hj]
        intro he
        exact hp _ (List.getElem_mem hj) (by simpa using he)
    · have hno : ∀ x ∈ s, x ≠ c := by
        intro x hx he
        subst he
        obtain ⟨as, bs, hs, ha⟩ := List.eq_append_cons_of_mem hx
        exact h ⟨as, bs, hs, fun y hy e => ha (e ▸ hy)⟩
      rw [runs_no_sep c s hno]
      refine .last fun n hn => ?_
      rw [occurs_one] at hn
      exact hno c (List.mem_of_getElem? hn) rfl

/-! ## C109 -/

/-- **C109** (partial: separators of one or two bytes, or strings without a full block; the full claim is for all separators and is refuted by
`split_by_string_violated` and `split_by_empty_violated`). For every lane count `split_by_string` returns the non-empty parts between the
separators, in order. -/
theorem split_by_string_partial (N : Nat) (hN : 0 < N) (s sep : List Byte') (hs : s.length ≤ 2 ^ 31)
    (h : sep.length = 1 ∨ sep.length = 2 ∨ (2 < sep.length ∧ s.length < N + sep.length - 1)) :
    ∃ parts, Parts sep s parts ∧ splitByString N s sep = some (parts.filter (fun r => r ≠ [])) := by
  by_cases h1 : sep.length = 1
  · match sep, h1 with
    | [c], _ =>
      refine ⟨runs c s, runs_parts c s.length s rfl, ?_⟩
      have := split_by_char_runs N hN s c (by omega)
      unfold splitByChar at this
      simp only [splitByString, splitStringPositions, List.length_singleton]
      exact this
  · have hsep : sep ≠ [] := by intro e; subst e; simp at h
    have good : ∀ n, n ≤ s.length → ∃ r, findString N (s.drop n) sep = some r ∧ FindStringResult (s.drop n) sep r := by
      intro n _
      have hl : (s.drop n).length ≤ s.length := by simp
      rcases h with h | h | h
      · exact absurd h h1
      · exact find_string_two_partial N hN _ sep h (by omega)
      · exact find_string_short_partial N hN _ sep hsep (by omega) (by omega) h1
    obtain ⟨ps, parts, g1, g2, g3⟩ := splitStringLoop_ok N s sep hsep (by omega) good (s.length + 1) 0 [] (by omega) (by omega)
    rw [List.drop_zero] at g1 g2
    refine ⟨parts, g2, ?_⟩
    have hpos : splitStringPositions N s sep = splitStringLoop N sep (s.length + 1) s 0 [] := by
      unfold splitStringPositions
      split
      · simp at h1
      · rfl
    rw [splitByString, hpos, g1]
    simp only [List.nil_append]
    rw [g3 []]
    simp

/-- **C109, negation of the full claim.** With 16 lanes, splitting `aXYZb` followed by 16 dots at `XYZ` returns the string in one piece. -/
theorem split_by_string_violated :
    splitByString 16 ([97, 88, 89, 90, 98] ++ List.replicate 16 46) [88, 89, 90] = some [[97, 88, 89, 90, 98] ++ List.replicate 16 46] ∧
    Parts [88, 89, 90] ([97, 88, 89, 90, 98] ++ List.replicate 16 46) [[97], [98] ++ List.replicate 16 46] := by
  refine ⟨by decide +kernel, ?_⟩
  refine Parts.more (pre := [97]) (rest := [98] ++ List.replicate 16 46) ?_ (.last ?_)
  · intro j hj ho
    have : j = 0 := by simpa using hj
    subst this
    have := ((occurs_iff (by simp)).mp ho).2
    revert this
    decide
  · intro n hn
    obtain ⟨h1, h2⟩ := (occurs_iff (by simp)).mp hn
    have hb : n ≤ 14 := by simp at h1; omega
    have : ∀ n, n ≤ 14 → ¬ ((([98] ++ List.replicate 16 46 : List Byte').drop n).take 3 = [88, 89, 90]) := by decide
    exact this n hb h2

/-- An empty separator is undefined behaviour. -/
theorem split_by_empty_violated (N : Nat) (s : List Byte') : splitByString N s [] = none := by
  simp [splitByString, splitStringPositions, splitStringLoop, find_string_empty_violated]

example : splitByString 16 [97, 59, 59, 59, 59, 98, 59] [59, 59] = some [[97], [98, 59]] := by decide +kernel

end Verif.Simd
