import Verif.Simd.Search
/-! # Substring search and splitting (C55, C56) -/
namespace Verif.Simd

/-! ## C55 -/

theorem occurs_iff {s part : List Byte'} {n : Nat} (hp : part ≠ []) :
    Occurs s part n ↔ n + part.length ≤ s.length ∧ (s.drop n).take part.length = part := by
  constructor
  · rintro ⟨pre, post, rfl, rfl⟩
    refine ⟨by simp, ?_⟩
    rw [List.append_assoc, List.drop_left' rfl, List.take_left' rfl]
  · rintro ⟨h1, h2⟩
    refine ⟨s.take n, s.drop (n + part.length), ?_, by simp; omega⟩
    conv => lhs; rw [← List.take_append_drop n s, ← List.take_append_drop part.length (s.drop n), h2, List.drop_drop]
    simp

theorem occurs_iff_getElem {s part : List Byte'} {n : Nat} (hp : part ≠ []) :
    Occurs s part n ↔ n + part.length ≤ s.length ∧ ∀ k, k < part.length → s[n + k]? = part[k]? := by
  rw [occurs_iff hp]
  constructor
  · rintro ⟨h1, h2⟩
    refine ⟨h1, fun k hk => ?_⟩
    have := congrArg (·[k]?) h2
    simp only [List.getElem?_take, hk, if_true, List.getElem?_drop] at this
    exact this
  · rintro ⟨h1, h2⟩
    refine ⟨h1, ?_⟩
    apply List.ext_getElem?
    intro k
    by_cases hk : k < part.length
    · rw [List.getElem?_take, if_pos hk, List.getElem?_drop, h2 k hk]
    · rw [List.getElem?_take, if_neg hk, List.getElem?_eq_none (by omega)]

/-- First and last byte of the pattern match at position `n`. -/
def Cand (s part : List Byte') (first last : Byte') (n : Nat) : Prop := s[n]? = some first ∧ s[n + (part.length - 1)]? = some last

theorem occurs_cand {s part : List Byte'} {n : Nat} {first last : Byte'} (h2 : 2 ≤ part.length) (hf : part.head? = some first)
    (hl : part.getLast? = some last) (h : Occurs s part n) : Cand s part first last n := by
  have hp : part ≠ [] := by intro e; subst e; simp at h2
  rw [occurs_iff_getElem hp] at h
  obtain ⟨_, h⟩ := h
  constructor
  · have := h 0 (by omega)
    rw [Nat.add_zero] at this
    rw [this, ← hf, List.head?_eq_getElem?]
  · rw [h _ (by omega), ← hl, List.getLast?_eq_getElem?]

/-- With two bytes, a candidate is an occurrence. -/
theorem cand_two {s part : List Byte'} {n : Nat} {first last : Byte'} (h2 : part.length = 2) (hf : part.head? = some first)
    (hl : part.getLast? = some last) (h : Cand s part first last n) : Occurs s part n := by
  have hp : part ≠ [] := by intro e; subst e; simp at h2
  rw [occurs_iff_getElem hp]
  obtain ⟨h0, h1⟩ := h
  rw [h2] at h1
  have hlt : n + 1 < s.length := by
    rcases Nat.lt_or_ge (n + 1) s.length with h | h
    · exact h
    · rw [List.getElem?_eq_none h] at h1; cases h1
  refine ⟨by omega, fun k hk => ?_⟩
  have : k = 0 ∨ k = 1 := by omega
  rcases this with rfl | rfl
  · rw [Nat.add_zero, h0, ← hf, List.head?_eq_getElem?]
  · rw [h1, ← hl, List.getLast?_eq_getElem?, h2]

/-- A candidate whose middle matches is an occurrence, and conversely. -/
theorem cand_middle {s part : List Byte'} {n : Nat} {first last : Byte'} (h2 : 2 ≤ part.length) (hf : part.head? = some first)
    (hl : part.getLast? = some last) (h : Cand s part first last n) :
    Occurs s part n ↔ (s.drop (n + 1)).take (part.length - 2) = (part.drop 1).take (part.length - 2) := by
  have hp : part ≠ [] := by intro e; subst e; simp at h2
  rw [occurs_iff_getElem hp]
  obtain ⟨h0, h1⟩ := h
  have hlt : n + (part.length - 1) < s.length := by
    rcases Nat.lt_or_ge (n + (part.length - 1)) s.length with h | h
    · exact h
    · rw [List.getElem?_eq_none h] at h1; cases h1
  constructor
  · rintro ⟨_, h⟩
    apply List.ext_getElem?
    intro k
    by_cases hk : k < part.length - 2
    · rw [List.getElem?_take, if_pos hk, List.getElem?_take, if_pos hk, List.getElem?_drop, List.getElem?_drop]
      have := h (1 + k) (by omega)
      rw [← this]; congr 1; omega
    · rw [List.getElem?_take, if_neg hk, List.getElem?_take, if_neg hk]
  · intro h
    refine ⟨by omega, fun k hk => ?_⟩
    by_cases e0 : k = 0
    · subst e0
      rw [Nat.add_zero, h0, ← hf, List.head?_eq_getElem?]
    · by_cases e1 : k = part.length - 1
      · subst e1
        rw [h1, ← hl, List.getLast?_eq_getElem?]
      · have := congrArg (·[k - 1]?) h
        have hk2 : k - 1 < part.length - 2 := by omega
        simp only [List.getElem?_take, hk2, if_true, List.getElem?_drop] at this
        rw [show n + 1 + (k - 1) = n + k by omega, show 1 + (k - 1) = k by omega] at this
        exact this

theorem memEq_some {s part : List Byte'} {a : Nat} (h : a + part.length ≤ s.length) :
    memEq s a part = some ((s.drop a).take part.length == part) := by
  unfold memEq; rw [if_pos h]

/-- The lanes of a candidate mask. -/
theorem candMask_get {s part : List Byte'} {first last : Byte'} {i n N : Nat} (hlen : i + (part.length - 1) + n ≤ s.length)
    (p0 p1 : List Byte') (k : Nat) (hk : k < n) :
    (candMask ((s.drop i).take n ++ p0) ((s.drop (i + (part.length - 1))).take n ++ p1) first last)[k]? = some true ↔ Cand s part first last (i + k) := by
  have l0 : ((s.drop i).take n).length = n := by simp; omega
  have l1 : ((s.drop (i + (part.length - 1))).take n).length = n := by simp; omega
  have e0 : i + k < s.length := by omega
  have e1 : i + (part.length - 1) + k < s.length := by omega
  have e1' : i + k + (part.length - 1) = i + (part.length - 1) + k := by omega
  unfold candMask Cand
  rw [List.getElem?_zipWith, List.getElem?_map, List.getElem?_map, List.getElem?_append_left (by omega), List.getElem?_append_left (by omega),
    List.getElem?_take, if_pos hk, List.getElem?_take, if_pos hk, List.getElem?_drop, List.getElem?_drop, e1',
    List.getElem?_eq_getElem e0, List.getElem?_eq_getElem e1]
  simp

theorem candMask_length (v0 v1 : List Byte') (f l : Byte') : (candMask v0 v1 f l).length = min v0.length v1.length := by
  simp [candMask]

/-- The `while` loop of the tail. -/
theorem tailLoop_ok {s part : List Byte'} {first last : Byte'} (h2 : 2 ≤ part.length) (hf : part.head? = some first)
    (hl : part.getLast? = some last) (i rem : Nat) (hrem : i + rem + part.length ≤ s.length + 1) :
    ∀ ks : List Nat, ks.Pairwise (· < ·) → (∀ k ∈ ks, k < rem → Cand s part first last (i + k)) →
      (∃ k ∈ ks, k < rem ∧ Occurs s part (i + k) ∧ (∀ j ∈ ks, j < k → ¬ Occurs s part (i + j)) ∧
        laneLoop (tailCheck s part i rem) ks () = some (.inl (toInt32 (k + i)))) ∨
      (laneLoop (tailCheck s part i rem) ks () = some (.inr ()) ∧ ∀ k ∈ ks, k < rem → ¬ Occurs s part (i + k)) := by
  intro ks
  induction ks with
  | nil => intro _ _; exact .inr ⟨rfl, by simp⟩
  | cons k ks ih =>
    intro hs hc
    rw [List.pairwise_cons] at hs
    simp only [laneLoop]
    by_cases hk : k ≥ rem
    · refine .inr ⟨by simp only [tailCheck, hk, if_true], ?_⟩
      intro j hj hjr
      rcases List.mem_cons.mp hj with rfl | hj
      · omega
      · have := hs.1 j hj; omega
    · have hcand := hc k (by simp) (by omega)
      have hocc : Occurs s part (i + k) → (∃ k' ∈ k :: ks, k' < rem ∧ Occurs s part (i + k') ∧ (∀ j ∈ k :: ks, j < k' → ¬ Occurs s part (i + j)) ∧
          some (Sum.inl (toInt32 (k + i))) = some (Sum.inl (β := Unit) (toInt32 (k' + i)))) := by
        intro ho
        refine ⟨k, by simp, by omega, ho, ?_, rfl⟩
        intro j hj hjk
        rcases List.mem_cons.mp hj with rfl | hj
        · omega
        · have := hs.1 j hj; omega
      by_cases hp2 : part.length = 2
      · simp only [tailCheck, hk, if_false, hp2, if_true]
        exact .inl (hocc (cand_two hp2 hf hl hcand))
      · have hml : ((part.drop 1).take (part.length - 2)).length = part.length - 2 := by simp; omega
        have hm := cand_middle h2 hf hl hcand
        simp only [tailCheck, hk, if_false, hp2]
        rw [memEq_some (by rw [hml]; omega), hml]
        by_cases heq : (s.drop (i + k + 1)).take (part.length - 2) = (part.drop 1).take (part.length - 2)
        · rw [heq]
          simp only [BEq.rfl]
          exact .inl (hocc (hm.mpr heq))
        · have hne : ((s.drop (i + k + 1)).take (part.length - 2) == (part.drop 1).take (part.length - 2)) = false := by simpa using heq
          rw [hne]
          simp only
          have hno : ¬ Occurs s part (i + k) := fun h => heq (hm.mp h)
          rcases ih hs.2 (fun j hj => hc j (by simp [hj])) with ⟨k', hk', h3, h4, h5, h6⟩ | ⟨h3, h4⟩
          · refine .inl ⟨k', by simp [hk'], h3, h4, ?_, h6⟩
            intro j hj hjk
            rcases List.mem_cons.mp hj with rfl | hj
            · exact hno
            · exact h5 j hj hjk
          · refine .inr ⟨h3, ?_⟩
            intro j hj hjr
            rcases List.mem_cons.mp hj with rfl | hj
            · exact hno
            · exact h4 j hj hjr

/-- The tail of `find_string` finds the first occurrence if there is none before it. -/
theorem tail_ok {s part : List Byte'} {first last : Byte'} (h2 : 2 ≤ part.length) (hf : part.head? = some first)
    (hl : part.getLast? = some last) (hs : s.length ≤ 2 ^ 31) (N i : Nat) (hi : i + part.length ≤ s.length) (hN : s.length < i + (N + part.length - 1))
    (hpre : ∀ j, j < i → ¬ Occurs s part j) :
    ∃ v0 v1, loadN 0 s i (s.length - i - part.length + 1) N = some v0 ∧
      loadN 0 s (i + (part.length - 1)) (s.length - i - part.length + 1) N = some v1 ∧
      ((∃ r, maskLoop (tailCheck s part i (s.length - i - part.length + 1)) (N + 1) (candMask v0 v1 first last) () = some (.inl r) ∧
          FindStringResult s part r) ∨
        (maskLoop (tailCheck s part i (s.length - i - part.length + 1)) (N + 1) (candMask v0 v1 first last) () = some (.inr ()) ∧
          ∀ n, ¬ Occurs s part n)) := by
  have hp : part ≠ [] := by intro e; subst e; simp at h2
  refine ⟨_, _, loadN_some _ _ _ _ _ (by omega) (by omega), loadN_some _ _ _ _ _ (by omega) (by omega), ?_⟩
  have hfuel : (trueIdx (candMask ((s.drop i).take (s.length - i - part.length + 1) ++ List.replicate (N - (s.length - i - part.length + 1)) 0)
      ((s.drop (i + (part.length - 1))).take (s.length - i - part.length + 1) ++ List.replicate (N - (s.length - i - part.length + 1)) 0) first last)).length < N + 1 := by
    have h := length_trueIdx (candMask ((s.drop i).take (s.length - i - part.length + 1) ++ List.replicate (N - (s.length - i - part.length + 1)) 0)
      ((s.drop (i + (part.length - 1))).take (s.length - i - part.length + 1) ++ List.replicate (N - (s.length - i - part.length + 1)) 0) first last)
    rw [candMask_length] at h
    have l0 : ((s.drop i).take (s.length - i - part.length + 1) ++ List.replicate (N - (s.length - i - part.length + 1)) (0 : Byte')).length ≤ N := by
      simp; omega
    omega
  rw [maskLoop_eq _ _ _ _ hfuel]
  have hmem : ∀ k, k < s.length - i - part.length + 1 →
      (k ∈ trueIdx (candMask ((s.drop i).take (s.length - i - part.length + 1) ++ List.replicate (N - (s.length - i - part.length + 1)) 0)
        ((s.drop (i + (part.length - 1))).take (s.length - i - part.length + 1) ++ List.replicate (N - (s.length - i - part.length + 1)) 0) first last) ↔
        Cand s part first last (i + k)) := by
    intro k hk
    rw [mem_trueIdx, candMask_get (N := N) (by omega) _ _ k hk]
  have hocc : ∀ n, Occurs s part n → n + part.length ≤ s.length := fun n h => ((occurs_iff hp).mp h).1
  rcases tailLoop_ok h2 hf hl i (s.length - i - part.length + 1) (by omega) _ (trueIdx_sorted _) (fun k hk hkr => (hmem k hkr).mp hk) with
    ⟨k, hk, hkr, ho, hfirst, he⟩ | ⟨he, hnone⟩
  · refine .inl ⟨_, he, .inl ⟨i + k, ?_, ho, ?_⟩⟩
    · rw [toInt32_small (by omega)]; omega
    · intro j hj hoj
      by_cases hji : j < i
      · exact hpre j hji hoj
      · have hc := occurs_cand h2 hf hl hoj
        have hij : i + (j - i) = j := by omega
        have := hfirst (j - i) ((hmem (j - i) (by omega)).mpr (by rw [hij]; exact hc)) (by omega)
        rw [hij] at this
        exact this hoj
  · refine .inr ⟨he, fun j hoj => ?_⟩
    by_cases hji : j < i
    · exact hpre j hji hoj
    · have hb := hocc j hoj
      have hij : i + (j - i) = j := by omega
      have hc := occurs_cand h2 hf hl hoj
      have hm := (hmem (j - i) (by omega)).mpr (by rw [hij]; exact hc)
      have := hnone (j - i) hm (by omega)
      rw [hij] at this
      exact this hoj

theorem head_last {part : List Byte'} (h : part ≠ []) : ∃ f l, part.head? = some f ∧ part.getLast? = some l := by
  refine ⟨part.head h, part.getLast h, ?_, ?_⟩
  · exact List.head?_eq_some_head h
  · exact List.getLast?_eq_some_getLast h

/-- After a block loop that preserves "no occurrence so far", the search is correct. -/
theorem findString_of_loop {s part : List Byte'} {first last : Byte'} (N : Nat) (h2 : 2 ≤ part.length) (hf : part.head? = some first)
    (hl : part.getLast? = some last) (hs : s.length ≤ 2 ^ 31) (hle : part.length ≤ s.length)
    (h : let run := forLoopRet (fullBlock (N + part.length - 1) s.length) N (findStringBody N s part first last) (s.length + 1) 0 ()
      (∃ r, run = some (.inl r) ∧ FindStringResult s part r) ∨
      ∃ i, run = some (.inr (i, ())) ∧ (∀ j, j < i → ¬ Occurs s part j) ∧ s.length < i + (N + part.length - 1)) :
    ∃ r, findString N s part = some r ∧ FindStringResult s part r := by
  have hp : part ≠ [] := by intro e; subst e; simp at h2
  have h1 : ¬ s.length < part.length := by omega
  have h1' : part.length ≠ 1 := by omega
  unfold findString
  simp only [h1, if_false, hf, hl, h1']
  rcases h with ⟨r, he, hr⟩ | ⟨i, he, hpre, hi⟩
  · simp only [he]
    exact ⟨r, rfl, hr⟩
  · simp only [he]
    by_cases hgt : i > s.length - part.length
    · simp only [hgt, if_true]
      refine ⟨-1, rfl, .inr ⟨rfl, fun n hn => ?_⟩⟩
      have := ((occurs_iff hp).mp hn).1
      exact hpre n (by omega) hn
    · simp only [hgt, if_false]
      obtain ⟨v0, v1, e0, e1, hres⟩ := tail_ok h2 hf hl hs N i (by omega) hi hpre
      simp only [e0, e1]
      rcases hres with ⟨r, hr, hspec⟩ | ⟨hr, hspec⟩
      · simp only [hr]
        exact ⟨r, rfl, hspec⟩
      · simp only [hr]
        exact ⟨-1, rfl, .inr ⟨rfl, hspec⟩⟩

/-- C55 for patterns of two bytes, every lane count and every string of at most 2^31 bytes. -/
theorem find_string_two_partial (N : Nat) (hN : 0 < N) (s part : List Byte') (h2 : part.length = 2) (hs : s.length ≤ 2 ^ 31) :
    ∃ r, findString N s part = some r ∧ FindStringResult s part r := by
  have hp : part ≠ [] := by intro e; subst e; simp at h2
  obtain ⟨first, last, hf, hl⟩ := head_last hp
  by_cases hle : part.length ≤ s.length
  · apply findString_of_loop N (by omega) hf hl hs hle
    intro run
    rcases forLoopRet_inv (cond := fullBlock (N + part.length - 1) s.length) (step := N)
      (body := findStringBody N s part first last)
      (fun i _ => ∀ j, j < i → ¬ Occurs s part j) (fun r => FindStringResult s part r) s.length hN
      (fun i _ _ h => by have := fullBlock_le h; omega)
      (by
        intro i u hpre hc
        have hle := fullBlock_le hc
        unfold findStringBody
        rw [loadU_some (show i + N ≤ s.length by omega), loadU_some (show i + (part.length - 1) + N ≤ s.length by omega)]
        simp only
        have hmem : ∀ k, k < N → (k ∈ trueIdx (candMask ((s.drop i).take N) ((s.drop (i + (part.length - 1))).take N) first last) ↔
            Cand s part first last (i + k)) := by
          intro k hk
          have := candMask_get (s := s) (part := part) (first := first) (last := last) (i := i) (n := N) (N := N) (by omega) [] [] k hk
          rw [List.append_nil, List.append_nil] at this
          rw [mem_trueIdx, this]
        have hlenm : (candMask ((s.drop i).take N) ((s.drop (i + (part.length - 1))).take N) first last).length = N := by
          rw [candMask_length]; simp; omega
        have hfuel := length_trueIdx (candMask ((s.drop i).take N) ((s.drop (i + (part.length - 1))).take N) first last)
        have hlt : ∀ k, k ∈ trueIdx (candMask ((s.drop i).take N) ((s.drop (i + (part.length - 1))).take N) first last) → k < N := by
          intro k hk
          rw [mem_trueIdx] at hk
          rcases Nat.lt_or_ge k N with h | h
          · exact h
          · rw [List.getElem?_eq_none (by omega)] at hk; cases hk
        have hsorted := trueIdx_sorted (candMask ((s.drop i).take N) ((s.drop (i + (part.length - 1))).take N) first last)
        rw [maskLoop_eq _ _ _ _ (by omega)]
        cases ht : trueIdx (candMask ((s.drop i).take N) ((s.drop (i + (part.length - 1))).take N) first last) with
        | nil =>
          rw [ht] at hmem
          refine .inr ⟨(), rfl, fun j hj hoj => ?_⟩
          by_cases hji : j < i
          · exact hpre j hji hoj
          · have hij : i + (j - i) = j := by omega
            have := (hmem (j - i) (by omega)).mpr (by rw [hij]; exact occurs_cand (by omega) hf hl hoj)
            cases this
        | cons k ks =>
          rw [ht] at hmem hlt hsorted
          rw [List.pairwise_cons] at hsorted
          have hkN := hlt k (by simp)
          refine .inl ⟨toInt32 (k + i), by simp only [laneLoop, blockCheck, h2, if_true], .inl ⟨i + k, ?_, ?_, ?_⟩⟩
          · rw [toInt32_small (by omega)]; omega
          · exact cand_two h2 hf hl ((hmem k hkN).mp (by simp))
          · intro j hj hoj
            by_cases hji : j < i
            · exact hpre j hji hoj
            · have hij : i + (j - i) = j := by omega
              have hin := (hmem (j - i) (by omega)).mpr (by rw [hij]; exact occurs_cand (by omega) hf hl hoj)
              rcases List.mem_cons.mp hin with h | h
              · omega
              · have := hsorted.1 _ h; omega)
      (s.length + 1) 0 () (by intro j h; omega) (by omega) (by omega) with ⟨r, he, h⟩ | ⟨i, u, he, h1, hc, _, hi⟩
    · exact .inl ⟨r, he, h⟩
    · exact .inr ⟨i, he, h1, fullBlock_false hc⟩
  · have h1 : s.length < part.length := by omega
    unfold findString
    simp only [h1, if_true]
    refine ⟨-1, rfl, .inr ⟨rfl, fun n hn => ?_⟩⟩
    have := ((occurs_iff hp).mp hn).1
    omega

/-- C55 for strings without a full block, that is shorter than the lane count plus the pattern length minus one, and any non-empty
pattern. -/
theorem find_string_short_partial (N : Nat) (hN : 0 < N) (s part : List Byte') (hp : part ≠ []) (hs : s.length ≤ 2 ^ 31)
    (hshort : s.length < N + part.length - 1) (h1 : part.length ≠ 1) : ∃ r, findString N s part = some r ∧ FindStringResult s part r := by
  have h2 : 2 ≤ part.length := by
    have : part.length ≠ 0 := by simpa using hp
    omega
  obtain ⟨first, last, hf, hl⟩ := head_last hp
  by_cases hle : part.length ≤ s.length
  · apply findString_of_loop N h2 hf hl hs hle
    refine .inr ⟨0, ?_, by intro j h; omega, by omega⟩
    have hb : fullBlock (N + part.length - 1) s.length 0 = false := by
      unfold fullBlock
      have : ¬ (N + part.length - 1 ≤ s.length) := by omega
      simp [this]
    simp [forLoopRet, hb]
  · have h1 : s.length < part.length := by omega
    unfold findString
    simp only [h1, if_true]
    refine ⟨-1, rfl, .inr ⟨rfl, fun n hn => ?_⟩⟩
    have := ((occurs_iff hp).mp hn).1
    omega

/-- C55 for patterns of one byte. -/
theorem find_string_one_partial (N : Nat) (hN : 0 < N) (s : List Byte') (c : Byte') (hs : s.length ≤ 2 ^ 31) :
    ∃ r, findString N s [c] = some r ∧ FindStringResult s [c] r := by
  have hocc : ∀ n, Occurs s [c] n ↔ s[n]? = some c := by
    intro n
    rw [occurs_iff_getElem (by simp)]
    constructor
    · rintro ⟨_, h⟩; simpa using h 0 (by simp)
    · intro h
      have hlt : n < s.length := by
        rcases Nat.lt_or_ge n s.length with h' | h'
        · exact h'
        · rw [List.getElem?_eq_none h'] at h; cases h
      refine ⟨by simp; omega, fun k hk => ?_⟩
      have : k = 0 := by simpa using hk
      subst this
      simpa using h
  by_cases h : s.length < 1
  · unfold findString
    refine ⟨-1, by simp only [List.length_singleton, h, if_true], .inr ⟨rfl, fun n hn => ?_⟩⟩
    rw [hocc, List.getElem?_eq_none (by omega)] at hn
    cases hn
  · obtain ⟨r, he, hr⟩ := find_char_first N hN s c hs
    refine ⟨r, ?_, ?_⟩
    · unfold findString
      simp only [List.length_singleton, h, if_false, List.head?_cons, List.getLast?_singleton, if_true, he]
    · rcases hr with ⟨n, rfl, ⟨x, hx, hpx⟩, hfirst⟩ | ⟨rfl, hnone⟩
      · have hxc : x = c := by simpa using hpx
        subst hxc
        refine .inl ⟨n, rfl, (hocc n).mpr hx, fun j hj hoj => ?_⟩
        have := hfirst j _ hj ((hocc j).mp hoj)
        simp at this
      · refine .inr ⟨rfl, fun n hn => ?_⟩
        have hm := List.mem_iff_getElem?.mpr ⟨n, (hocc n).mp hn⟩
        have := hnone c hm
        simp at this

/-- C55 is false in full blocks: with four lanes the pattern `abc` is not found in `xxabcx`. -/
theorem find_string_missed_violated :
    findString 4 [120, 120, 97, 98, 99, 120] [97, 98, 99] = some (-1) ∧ Occurs [120, 120, 97, 98, 99, 120] [97, 98, 99] 2 :=
  ⟨by decide, [120, 120], [120], rfl, rfl⟩

/-- And it is reported at position 2 of `xbaxcx`, where it does not occur at all. -/
theorem find_string_false_hit_violated :
    findString 4 [120, 98, 97, 120, 99, 120] [97, 98, 99] = some 2 ∧ ∀ n, ¬ Occurs [120, 98, 97, 120, 99, 120] [97, 98, 99] n := by
  refine ⟨by decide, fun n hn => ?_⟩
  obtain ⟨h1, h2⟩ := (occurs_iff (by simp)).mp hn
  have : n ≤ 3 := by simp at h1; omega
  have hcases : ∀ n, n ≤ 3 → ¬ (([120, 98, 97, 120, 99, 120] : List Byte').drop n).take 3 = [97, 98, 99] := by decide
  exact hcases n this h2

/-- An empty pattern is undefined behaviour. -/
theorem find_string_empty_violated (N : Nat) (s : List Byte') : findString N s [] = none := by
  simp [findString]

example : findString 4 [1, 2, 3, 1, 2, 4] [2, 4] = some 4 := by decide
example : findString 16 [1, 2, 3, 1, 2, 4] [1, 2, 4] = some 3 := by decide

/-! ## C56 -/

theorem laneLoop_push (i : Nat) (ks : List Nat) (acc : List Nat) (h : ∀ k ∈ ks, i + k < 2 ^ 32) :
    laneLoop (ρ := Empty) (fun k acc => some (.cont (acc ++ [(i + k) % 2 ^ 32]))) ks acc = some (.inr (acc ++ ks.map (i + ·))) := by
  induction ks generalizing acc with
  | nil => simp [laneLoop]
  | cons k ks ih =>
    simp only [laneLoop]
    rw [ih _ (fun j hj => h j (by simp [hj]))]
    simp [Nat.mod_eq_of_lt (h k (by simp))]

theorem laneLoop_push_brk (i rem : Nat) (ks : List Nat) (acc : List Nat) (hs : ks.Pairwise (· < ·)) (h : ∀ k ∈ ks, k < rem → i + k < 2 ^ 32) :
    laneLoop (ρ := Empty) (fun k acc => if k ≥ rem then some (.brk acc) else some (.cont (acc ++ [(i + k) % 2 ^ 32]))) ks acc =
      some (.inr (acc ++ (ks.filter (· < rem)).map (i + ·))) := by
  induction ks generalizing acc with
  | nil => simp [laneLoop]
  | cons k ks ih =>
    rw [List.pairwise_cons] at hs
    simp only [laneLoop]
    by_cases hk : k ≥ rem
    · have hf : (k :: ks).filter (fun x => decide (x < rem)) = [] := by
        rw [List.filter_eq_nil_iff]
        intro j hj
        rcases List.mem_cons.mp hj with rfl | hj
        · simpa using hk
        · have := hs.1 j hj; simp; omega
      simp [hk, hf]
    · have hk' : k < rem := by omega
      simp only [hk, if_false]
      rw [ih _ hs.2 (fun j hj => h j (by simp [hj]))]
      simp [Nat.mod_eq_of_lt (h k (by simp) hk'), hk']

theorem trueIdx_lt {m : List Bool} {k : Nat} (h : k ∈ trueIdx m) : k < m.length := by
  rw [mem_trueIdx] at h
  rcases Nat.lt_or_ge k m.length with h' | h'
  · exact h'
  · rw [List.getElem?_eq_none h'] at h; cases h

/-- The positions collected are those of the separator. -/
theorem splitPositions_ok (N : Nat) (hN : 0 < N) (s : List Byte') (ch : Byte') (hs : s.length ≤ 2 ^ 32) :
    splitPositions N s ch = some (trueIdx (s.map (· == ch))) := by
  unfold splitPositions
  have hpos : ∀ i n, i + n ≤ s.length →
      trueIdx ((s.take i).map (· == ch)) ++ (trueIdx (((s.drop i).take n).map (· == ch))).map (i + ·) = trueIdx ((s.take (i + n)).map (· == ch)) := by
    intro i n h
    rw [List.take_add, List.map_append, trueIdx_append]
    congr 1
    have : ((s.take i).map (· == ch)).length = i := by simp; omega
    rw [this]
    apply List.map_congr_left
    intro a _; omega
  obtain ⟨i, acc, he, hacc, hc, _, hi⟩ := forLoop_inv (cond := fullBlock N s.length) (step := N)
    (body := splitBody N s ch)
    (fun i acc => acc = trueIdx ((s.take i).map (· == ch))) s.length hN (fun i _ _ h => fullBlock_le h)
    (by
      rintro i acc rfl hc
      have hle := fullBlock_le hc
      unfold splitBody
      rw [loadU_some hle]
      have hl : (((s.drop i).take N).map (· == ch)).length = N := by simp; omega
      have hfuel := length_trueIdx (((s.drop i).take N).map (· == ch))
      simp only
      rw [maskLoop_eq _ _ _ _ (by omega), laneLoop_push _ _ _ (fun k hk => by have := trueIdx_lt hk; omega)]
      exact ⟨_, rfl, hpos i N hle⟩)
    (s.length + 1) 0 [] (by simp [trueIdx, trueIdx.go]) (by omega) (by omega)
  simp only [he]
  have hlt := fullBlock_false hc
  by_cases h : i = s.length
  · simp only [h, if_true]
    rw [hacc, h, List.take_of_length_le (Nat.le_refl _)]
  · simp only [h, if_false]
    rw [loadN_some _ _ _ _ _ (by omega) (by omega)]
    simp only
    have hl1 : ((s.drop i).take (s.length - i)).length = s.length - i := by simp
    have hl : (((s.drop i).take (s.length - i) ++ List.replicate (N - (s.length - i)) 0).map (· == ch)).length = N := by
      rw [List.length_map, List.length_append, hl1, List.length_replicate]; omega
    have hfuel := length_trueIdx (((s.drop i).take (s.length - i) ++ List.replicate (N - (s.length - i)) 0).map (· == ch))
    rw [maskLoop_eq _ _ _ _ (by omega), laneLoop_push_brk _ _ _ _ (trueIdx_sorted _) (fun k hk _ => by omega)]
    simp only
    congr 1
    have hfilter : (trueIdx (((s.drop i).take (s.length - i) ++ List.replicate (N - (s.length - i)) 0).map (· == ch))).filter
        (fun x => decide (x < s.length - i)) = trueIdx (((s.drop i).take (s.length - i)).map (· == ch)) := by
      rw [List.map_append, trueIdx_append, List.filter_append]
      have h1 : (trueIdx (((s.drop i).take (s.length - i)).map (· == ch))).filter (fun x => decide (x < s.length - i))
          = trueIdx (((s.drop i).take (s.length - i)).map (· == ch)) := by
        rw [List.filter_eq_self]
        intro k hk
        have := trueIdx_lt hk
        rw [List.length_map, hl1] at this
        simpa using this
      rw [h1]
      conv => rhs; rw [← List.append_nil (trueIdx _)]
      congr 1
      rw [List.filter_eq_nil_iff]
      intro k hk
      rw [List.length_map, hl1] at hk
      obtain ⟨j, _, rfl⟩ := List.mem_map.mp hk
      simp
    rw [hfilter, hacc, hpos i _ (by omega), show i + (s.length - i) = s.length by omega, List.take_of_length_le (Nat.le_refl _)]

theorem runs_ne_nil (ch : Byte') (s : List Byte') : runs ch s ≠ [] := by
  induction s with
  | nil => simp [runs]
  | cons c cs ih =>
    simp only [runs]
    split
    · simp
    · split <;> simp

theorem runs_no_sep (ch : Byte') (s : List Byte') (h : ∀ x ∈ s, x ≠ ch) : runs ch s = [s] := by
  induction s with
  | nil => rfl
  | cons c cs ih =>
    have hc : c ≠ ch := h c (by simp)
    simp only [runs, hc, if_false, ih (fun x hx => h x (by simp [hx]))]

theorem runs_sep (ch : Byte') (pre rest : List Byte') (h : ∀ x ∈ pre, x ≠ ch) : runs ch (pre ++ ch :: rest) = pre :: runs ch rest := by
  induction pre with
  | nil => simp [runs]
  | cons c cs ih =>
    have hc : c ≠ ch := h c (by simp)
    simp only [List.cons_append, runs, hc, if_false, ih (fun x hx => h x (by simp [hx]))]

/-- Cutting at all separator positions from `last` on gives the non-empty runs of the rest. -/
theorem assemble_ok (ch : Byte') (s : List Byte') : ∀ (n last : Nat) (acc : List (List Byte')), s.length - last = n → last ≤ s.length →
    assemble s 1 (trueIdx.go last ((s.drop last).map (· == ch))) last acc = some (acc ++ splitSpec ch (s.drop last)) := by
  intro n
  induction n using Nat.strongRecOn with
  | ind n ih =>
    intro last acc hn hlast
    cases hf : (s.drop last).findIdx? (· == ch) with
    | none =>
      rw [List.findIdx?_eq_none_iff] at hf
      have hno : ∀ x ∈ s.drop last, x ≠ ch := fun x hx => by simpa using hf x hx
      have hgo : trueIdx.go last ((s.drop last).map (· == ch)) = [] := by
        rw [List.eq_nil_iff_forall_not_mem]
        intro k hk
        rw [mem_trueIdx_go] at hk
        rw [List.getElem?_map] at hk
        obtain ⟨_, hk⟩ := hk
        cases he : (s.drop last)[k - last]? with
        | none => rw [he] at hk; cases hk
        | some x =>
          rw [he] at hk
          have : x = ch := by simpa using hk
          exact hno x (List.mem_iff_getElem?.mpr ⟨_, he⟩) this
      rw [hgo]
      simp only [assemble, splitSpec, runs_no_sep ch _ hno]
      by_cases hlt : last < s.length
      · simp only [hlt, if_true, substr, hlast]
        rw [List.take_of_length_le (by simp)]
        by_cases he : s.drop last = []
        · simp [he]
        · simp [he]
      · have : s.drop last = [] := List.drop_eq_nil_of_le (by omega)
        simp [hlt, this]
    | some k =>
      rw [List.findIdx?_eq_some_iff_getElem] at hf
      obtain ⟨hk, h1, h2⟩ := hf
      have hk' : last + k < s.length := by simp at hk; omega
      have hch : s[last + k] = ch := by simpa using h1
      have hsplit : s.drop last = (s.drop last).take k ++ ch :: s.drop (last + k + 1) := by
        conv => lhs; rw [← List.take_append_drop k (s.drop last), List.drop_drop, List.drop_eq_getElem_cons hk', hch]
      have hno : ∀ x ∈ (s.drop last).take k, x ≠ ch := by
        intro x hx
        obtain ⟨j, hj⟩ := List.mem_iff_getElem?.mp hx
        rw [List.getElem?_take] at hj
        split at hj
        · rename_i hjk
          have := h2 j hjk
          rw [List.getElem?_eq_getElem (by omega)] at hj
          have hx' : (s.drop last)[j] = x := by simpa using hj
          rw [hx'] at this
          simpa using this
        · cases hj
      have hlenk : ((s.drop last).take k).length = k := by simp; omega
      have hgo0 : trueIdx.go last (((s.drop last).take k).map (· == ch)) = [] := by
        rw [List.eq_nil_iff_forall_not_mem]
        intro k' hk
        rw [mem_trueIdx_go, List.getElem?_map] at hk
        obtain ⟨_, hk⟩ := hk
        cases he : ((s.drop last).take k)[k' - last]? with
        | none => rw [he] at hk; cases hk
        | some x =>
          rw [he] at hk
          have : x = ch := by simpa using hk
          exact hno x (List.mem_iff_getElem?.mpr ⟨_, he⟩) this
      have hgo : trueIdx.go last ((s.drop last).map (· == ch)) =
          (last + k) :: trueIdx.go (last + k + 1) ((s.drop (last + k + 1)).map (· == ch)) := by
        conv => lhs; rw [hsplit, List.map_append, trueIdx_go_append, hgo0, List.length_map, hlenk]
        simp [trueIdx.go]
      rw [hgo]
      have hspec : splitSpec ch (s.drop last) = (if (s.drop last).take k ≠ [] then [(s.drop last).take k] else []) ++ splitSpec ch (s.drop (last + k + 1)) := by
        unfold splitSpec
        conv => lhs; rw [hsplit, runs_sep ch _ _ hno]
        rw [List.filter_cons]
        by_cases hnil : (s.drop last).take k = []
        · rw [hnil]; rfl
        · simp only [ne_eq, hnil, not_false_iff, decide_true, if_true]; rfl
      have hih := fun acc => ih (s.length - (last + k + 1)) (by omega) (last + k + 1) acc rfl (by omega)
      simp only [assemble]
      by_cases hk0 : k = 0
      · subst hk0
        simp only [Nat.add_zero, ne_eq, not_true, if_false] at hih ⊢
        rw [hih, hspec]
        simp
      · have hne : last + k ≠ last := by omega
        have hle : last ≤ last + k := by omega
        simp only [ne_eq, hne, not_false_iff, if_true, substr, hlast, hle, show last + k - last = k by omega]
        rw [hih, hspec]
        have : ¬ (s.drop last).take k = [] := by
          intro h; rw [h] at hlenk; simp at hlenk; omega
        simp [this]

/-- C56: for every lane count, `split_by_char` returns the non-empty runs between separators in order, for every string of at most 2^32
bytes. -/
theorem split_by_char_runs (N : Nat) (hN : 0 < N) (s : List Byte') (ch : Byte') (hs : s.length ≤ 2 ^ 32) :
    splitByChar N s ch = some (splitSpec ch s) := by
  unfold splitByChar
  rw [splitPositions_ok N hN s ch hs]
  have := assemble_ok ch s (s.length - 0) 0 [] rfl (by omega)
  simpa [trueIdx] using this

/-- The specification is a splitting: joining all runs (empty ones included) with the separator gives the string back. -/
theorem join_runs (ch : Byte') (s : List Byte') : List.intercalate [ch] (runs ch s) = s := by
  induction s with
  | nil => simp [runs, List.intercalate]
  | cons c cs ih =>
    simp only [runs]
    have hne := runs_ne_nil ch cs
    cases hr : runs ch cs with
    | nil => exact absurd hr hne
    | cons r rs =>
      rw [hr] at ih
      split
      · rename_i h
        subst h
        simp only [List.intercalate, List.intersperse_cons₂] at ih ⊢
        simp [ih]
      · cases rs with
        | nil => simp [List.intercalate] at ih ⊢; exact ih
        | cons r' rs => simp [List.intercalate, List.intersperse_cons₂] at ih ⊢; exact ih

/-- No run contains the separator. -/
theorem runs_clean (ch : Byte') (s : List Byte') : ∀ r ∈ runs ch s, ch ∉ r := by
  induction s with
  | nil => simp [runs]
  | cons c cs ih =>
    simp only [runs]
    split
    · intro r hr
      rcases List.mem_cons.mp hr with rfl | hr
      · simp
      · exact ih r hr
    · rename_i hne
      cases hr : runs ch cs with
      | nil => exact absurd hr (runs_ne_nil ch cs)
      | cons r rs =>
        rw [hr] at ih
        intro r' hr'
        rcases List.mem_cons.mp hr' with rfl | hr'
        · have := ih r (by simp)
          simp [this]
          exact fun h => hne h.symm
        · exact ih r' (by simp [hr'])

example : splitByChar 4 [44, 97, 98, 44, 44, 99, 44] 44 = some [[97, 98], [99]] := by decide

end Verif.Simd
