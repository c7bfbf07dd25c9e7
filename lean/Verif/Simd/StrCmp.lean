import Verif.Types.StringView
import Verif.Types.BitVector
/-!
# Comparison of vectors of strings (C110)

`/repo/rapidudf/functions/strings.cc` 40–52: one call compares 64 pairs of strings and writes the answers as the bits of eight bytes.
-/
namespace Verif.StrCmp

open Verif.Types.Str (SV CmpOp cmpOp lexCmp Val string_ops_lex)
open Verif.Types.Bits (Byte bitSet bitClear newByte newByte_same newByte_other)

/-- `kVectorUnitSize` (`meta/constants.h`). -/
def lanes : Nat := 64

/-- The loop of `compare_string_views` (`strings.cc` 41–51) from `i` on, `n` iterations. `none`: read or write outside, or undefined behaviour in
a comparison. -/
def cmpLoop (op : CmpOp) (left right : List SV) : Nat → Nat → List Byte → Option (List Byte)
  | 0, _, ret => some ret
  | n + 1, i, ret =>
    match left[i]?, right[i]? with
    | some a, some b =>
      match cmpOp op a b, ret[i / 8]? with
      | some v, some byte => cmpLoop op left right n (i + 1) (ret.set (i / 8) (if v = true then bitSet byte (i % 8) else bitClear byte (i % 8)))
      | _, _ => none
    | _, _ => none

/-- `compare_string_views<op>` (`strings.cc` 40–52). -/
def compareStringViews (op : CmpOp) (left right : List SV) (ret : List Byte) : Option (List Byte) :=
  cmpLoop op left right lanes 0 ret

/-- Bit `i` of a buffer. -/
def bitAt (ret : List Byte) (i : Nat) : Option Bool := (ret[i / 8]?).map fun b => b.getLsbD (i % 8)

theorem set_bitAt {ret : List Byte} {i j : Nat} {byte : Byte} {v : Bool} (hb : ret[i / 8]? = some byte) :
    bitAt (ret.set (i / 8) (newByte byte (i % 8) v)) j = if j = i then some v else bitAt ret j := by
  unfold bitAt
  have hlt : i / 8 < ret.length := by
    rcases Nat.lt_or_ge (i / 8) ret.length with h | h
    · exact h
    · rw [List.getElem?_eq_none h] at hb; cases hb
  by_cases hq : j / 8 = i / 8
  · rw [hq, List.getElem?_set_self hlt, hb]
    simp only [Option.map_some]
    by_cases hj : j = i
    · subst hj; rw [newByte_same _ _ _ (by omega)]; simp
    · rw [if_neg hj, newByte_other _ _ _ _ (by omega) (by omega) (by omega)]
  · rw [List.getElem?_set_ne (fun h => hq h.symm)]
    have : j ≠ i := by intro h; exact hq (by rw [h])
    rw [if_neg this]

/-- `n` iterations write the bits `i … i + n - 1` and no others. -/
theorem cmpLoop_ok (op : CmpOp) (l r : List SV) (a b : List (List Byte))
    (hl : ∀ (k : Nat) (x : List Byte), a[k]? = some x → ∃ j, l[k]? = some (SV.mk' j x)) (hr : ∀ (k : Nat) (x : List Byte), b[k]? = some x → ∃ j, r[k]? = some (SV.mk' j x))
    (ha : ∀ x ∈ a, x.length < 2 ^ 31) (hb : ∀ x ∈ b, x.length < 2 ^ 31) :
    ∀ (n i : Nat) (ret : List Byte), i + n ≤ a.length → i + n ≤ b.length → i + n ≤ 8 * ret.length →
    ∃ out, cmpLoop op l r n i ret = some out ∧ out.length = ret.length ∧
      ∀ j, bitAt out j = if i ≤ j ∧ j < i + n then (match a[j]?, b[j]? with
        | some x, some y => some (op.holds (lexCmp x y))
        | _, _ => none) else bitAt ret j := by
  intro n
  induction n with
  | zero =>
    intro i ret _ _ _
    refine ⟨ret, rfl, rfl, fun j => ?_⟩
    rw [if_neg (by omega)]
  | succ n ih =>
    intro i ret h1 h2 h3
    have e1 : a[i]? = some a[i] := List.getElem?_eq_getElem (by omega)
    have e2 : b[i]? = some b[i] := List.getElem?_eq_getElem (by omega)
    obtain ⟨j1, hj1⟩ := hl i _ e1
    obtain ⟨j2, hj2⟩ := hr i _ e2
    have e3 : ret[i / 8]? = some ret[i / 8] := List.getElem?_eq_getElem (by omega)
    have hop := string_ops_lex op j1 j2 a[i] b[i] (ha _ (List.getElem_mem _)) (hb _ (List.getElem_mem _))
    simp only [cmpLoop, hj1, hj2, hop, e3]
    obtain ⟨out, g1, g2, g3⟩ := ih (i + 1) (ret.set (i / 8) (newByte ret[i / 8] (i % 8) (op.holds (lexCmp a[i] b[i]))))
      (by omega) (by omega) (by rw [List.length_set]; omega)
    refine ⟨out, g1, by rw [g2, List.length_set], fun j => ?_⟩
    rw [g3 j, set_bitAt e3]
    by_cases hj : j = i
    · subst hj
      rw [if_neg (by omega), if_pos rfl, if_pos (by omega), e1, e2]
    · rw [if_neg hj]
      by_cases hin : i + 1 ≤ j ∧ j < i + 1 + n
      · rw [if_pos hin, if_pos (by omega)]
      · rw [if_neg hin, if_neg (by omega)]

/-- **C110.** Comparing 64 pairs of strings writes exactly 64 bits: bit `j` says whether the operator holds for the `j`-th pair in lexicographic
order, whatever the buffer held before; the rest of the buffer keeps its content. -/
theorem compare_strings_lanes (op : CmpOp) (l r : List SV) (a b : List (List Byte)) (ret : List Byte)
    (hl : ∀ (k : Nat) (x : List Byte), a[k]? = some x → ∃ j, l[k]? = some (SV.mk' j x)) (hr : ∀ (k : Nat) (x : List Byte), b[k]? = some x → ∃ j, r[k]? = some (SV.mk' j x))
    (ha : ∀ x ∈ a, x.length < 2 ^ 31) (hb : ∀ x ∈ b, x.length < 2 ^ 31) (hna : 64 ≤ a.length) (hnb : 64 ≤ b.length) (hret : 8 ≤ ret.length) :
    ∃ out, compareStringViews op l r ret = some out ∧ out.length = ret.length ∧
      (∀ j x y, j < 64 → a[j]? = some x → b[j]? = some y → bitAt out j = some (op.holds (lexCmp x y))) ∧
      (∀ j, 64 ≤ j → bitAt out j = bitAt ret j) := by
  obtain ⟨out, h1, h2, h3⟩ := cmpLoop_ok op l r a b hl hr ha hb 64 0 ret (by omega) (by omega) (by omega)
  refine ⟨out, h1, h2, ?_, ?_⟩
  · intro j x y hj hx hy
    rw [h3 j, if_pos (by omega), hx, hy]
  · intro j hj
    rw [h3 j, if_neg (by omega)]

/-- The hypotheses are met by 64 pairs of strings. -/
example : ∃ out, compareStringViews .lt ((List.replicate 64 [97#8]).map (SV.mk' (.inlined []))) ((List.replicate 64 [98#8]).map (SV.mk' (.inlined [])))
    (List.replicate 9 7#8) = some out ∧ bitAt out 63 = some true ∧ bitAt out 64 = some true := by
  have hl : ∀ (c : Byte) (k : Nat) (x : List Byte), (List.replicate 64 [c])[k]? = some x → ∃ j, ((List.replicate 64 [c]).map (SV.mk' (.inlined [])))[k]? = some (SV.mk' j x) := by
    intro c k x h
    exact ⟨.inlined [], by rw [List.getElem?_map, h]; rfl⟩
  obtain ⟨out, h1, _, h3, h4⟩ := compare_strings_lanes .lt _ _ _ _ (List.replicate 9 7#8) (hl 97#8) (hl 98#8)
    (by intro x hx; rw [List.eq_of_mem_replicate hx]; decide) (by intro x hx; rw [List.eq_of_mem_replicate hx]; decide) (by simp) (by simp) (by simp)
  refine ⟨out, h1, ?_, ?_⟩
  · rw [h3 63 [97#8] [98#8] (by omega) (by simp) (by simp)]; rfl
  · rw [h4 64 (by omega)]; decide

end Verif.StrCmp
