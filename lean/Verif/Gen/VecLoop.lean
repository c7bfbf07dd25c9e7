import Verif.Gen.VecSim
/-!
# The block loop and the tail
-/
namespace Verif.Gen.Vec

section
variable {Ty V Op : Type} [DecidableEq Ty] {rt : Rt Ty V Op}

/-- Number of lanes computed for `n` elements. -/
def up64 (n : Nat) : Nat := (n + 63) / 64 * 64

/-- Vector `b` of type `t` has `n` elements and its buffer holds them; a bit vector's buffer consists of words of 64 bits. -/
def Holds (rt : Rt Ty V Op) (bufs : List (Buf V)) (n : Nat) (t : Ty) (b : Nat) : Prop :=
  ∃ x, bufs[b]? = some x ∧ x.size = n ∧ (if rt.isBit t = true then up64 n else n) ≤ x.mem.length

/-- Element `i` of a vector. -/
def elemAt (bufs : List (Buf V)) (i : Nat) (_ : Ty) (b : Nat) : Option V := (bufs[b]?).bind fun x => x.mem[i]?

/-- What lane `i` beyond the last element holds: the bits in memory, the filler for other types. -/
def padAt (rt : Rt Ty V Op) (bufs : List (Buf V)) (i : Nat) (t : Ty) (b : Nat) : Option V := if rt.isBit t = true then elemAt bufs i t b else some (rt.fill t)

theorem valE_congr {l l' : Ty → Nat → Option V} (e : VE Ty V Op) (h : ∀ t b, (t, b) ∈ leaves e → l t b = l' t b) : valE rt l e = valE rt l' e := by
  induction e with
  | vec t b => exact h t b (by simp [leaves])
  | con t v => rfl
  | app1 o a ih => simp only [valE, ih h]
  | app2 o a b iha ihb =>
    simp only [valE, iha fun t b' hm => h t b' (by simp [leaves, hm]), ihb fun t b' hm => h t b' (by simp [leaves, hm])]
  | app3 o a b d iha ihb ihd =>
    simp only [valE, iha fun t b' hm => h t b' (by simp [leaves, hm]), ihb fun t b' hm => h t b' (by simp [leaves, hm]), ihd fun t b' hm => h t b' (by simp [leaves, hm])]
  | call1 f a ih => simp only [valE, ih h]
  | call2 f a b iha ihb =>
    simp only [valE, iha fun t b' hm => h t b' (by simp [leaves, hm]), ihb fun t b' hm => h t b' (by simp [leaves, hm])]

theorem blockVal_good {e : VE Ty V Op} {k : Bool × Ty} {code : List (RNode Ty V Op)} (hg : Good rt e k code) {rd : Ty → Nat → Except Err (List V)} {ld : Ty → Nat → List V}
    (hl : ∀ t b, (t, b) ∈ leaves e → rd t b = .ok (ld t b) ∧ (ld t b).length = 64) : blockVal rt rd code = lanes fun i => valE rt (laneOf ld i) e := by
  unfold blockVal
  rw [hg.block rd ld hl]
  cases lanes fun i => valE rt (laneOf ld i) e <;> rfl

theorem splice_ok {mem l : List V} {cur : Nat} (h : cur + l.length ≤ mem.length) : ∃ out, splice mem cur l = .ok out ∧ out.length = mem.length ∧
    (∀ i, i < cur → out[i]? = mem[i]?) ∧ ∀ i, i < l.length → out[cur + i]? = l[i]? := by
  refine ⟨_, if_pos h, ?_, ?_, ?_⟩
  · simp; omega
  · intro i hi
    rw [List.append_assoc, List.getElem?_append_left (by simp; omega), List.getElem?_take_of_lt hi]
  · intro i hi
    rw [List.append_assoc, List.getElem?_append_right (by simp; omega), List.getElem?_append_left (by simp; omega)]
    congr 1
    simp
    omega

variable {bufs : List (Buf V)} {n : Nat} {e : VE Ty V Op} {k : Bool × Ty} {code : List (RNode Ty V Op)}

/-- A whole block. -/
theorem full_block (hg : Good rt e k code) (hh : ∀ t b, (t, b) ∈ leaves e → Holds rt bufs n t b) {cur : Nat} (hc : cur + 64 ≤ n) :
    blockVal rt (fun _ b => (bufAt bufs b).bind fun x => loadBlock x.mem cur) code = lanes fun i => valE rt (elemAt bufs (cur + i)) e := by
  let ld : Ty → Nat → List V := fun _ b => match bufs[b]? with
    | none => []
    | some x => (x.mem.drop cur).take 64
  have hlen : ∀ t b x, (t, b) ∈ leaves e → bufs[b]? = some x → cur + 64 ≤ x.mem.length := by
    intro t b x hm hx
    obtain ⟨x', h1, h2, h3⟩ := hh t b hm
    rw [hx] at h1
    cases h1
    split at h3 <;> (try simp only [up64] at h3) <;> omega
  have hl : ∀ t b, (t, b) ∈ leaves e → ((bufAt bufs b).bind fun x => loadBlock x.mem cur) = .ok (ld t b) ∧ (ld t b).length = 64 := by
    intro t b hm
    obtain ⟨x, h1, _⟩ := hh t b hm
    have := hlen t b x hm h1
    refine ⟨?_, ?_⟩
    · simp only [bufAt, h1, Except.bind, loadBlock, if_pos this, ld]
    · simp only [ld, h1]
      simp
      omega
  rw [blockVal_good hg hl]
  apply lanes_congr
  intro i hi
  apply valE_congr
  intro t b hm
  obtain ⟨x, h1, _⟩ := hh t b hm
  have := hlen t b x hm h1
  simp only [laneOf, ld, elemAt, h1, Option.bind_some]
  rw [List.getElem?_take_of_lt hi, List.getElem?_drop]

/-- The last block. -/
theorem tail_block (hg : Good rt e k code) (hh : ∀ t b, (t, b) ∈ leaves e → Holds rt bufs n t b) {cur : Nat} (hc : cur < n) (hc' : n < cur + 64) (hm : cur % 64 = 0) :
    blockVal rt (fun t b => (bufAt bufs b).bind fun x => loadTail rt t x.mem cur (n - cur)) code =
      lanes fun i => if i < n - cur then valE rt (elemAt bufs (cur + i)) e else valE rt (padAt rt bufs (cur + i)) e := by
  let ld : Ty → Nat → List V := fun t b => match bufs[b]? with
    | none => []
    | some x => if rt.isBit t = true then (x.mem.drop cur).take 64 else (x.mem.drop cur).take (n - cur) ++ List.replicate (64 - (n - cur)) (rt.fill t)
  have hlb : ∀ t b x, (t, b) ∈ leaves e → bufs[b]? = some x → rt.isBit t = true → cur + 64 ≤ x.mem.length := by
    intro t b x hm hx hb
    obtain ⟨x', h1, h2, h3⟩ := hh t b hm
    rw [hx] at h1
    cases h1
    rw [if_pos hb] at h3
    simp only [up64] at h3
    omega
  have hln : ∀ t b x, (t, b) ∈ leaves e → bufs[b]? = some x → n ≤ x.mem.length := by
    intro t b x hm hx
    obtain ⟨x', h1, h2, h3⟩ := hh t b hm
    rw [hx] at h1
    cases h1
    split at h3 <;> (try simp only [up64] at h3) <;> omega
  have hl : ∀ t b, (t, b) ∈ leaves e → ((bufAt bufs b).bind fun x => loadTail rt t x.mem cur (n - cur)) = .ok (ld t b) ∧ (ld t b).length = 64 := by
    intro t b hm
    obtain ⟨x, h1, _⟩ := hh t b hm
    have h2 := hln t b x hm h1
    by_cases hb : rt.isBit t = true
    · have h3 := hlb t b x hm h1 hb
      refine ⟨?_, ?_⟩
      · simp only [bufAt, h1, Except.bind, loadTail, if_pos hb, loadBlock, if_pos h3, ld]
      · simp only [ld, h1, if_pos hb]
        simp
        omega
    · refine ⟨?_, ?_⟩
      · simp only [bufAt, h1, Except.bind, loadTail, if_neg hb, ld]
        rw [if_pos ⟨by omega, by omega⟩]
      · simp only [ld, h1, if_neg hb]
        simp
        omega
  rw [blockVal_good hg hl]
  apply lanes_congr
  intro i hi
  by_cases hin : i < n - cur
  · rw [if_pos hin]
    apply valE_congr
    intro t b hm
    obtain ⟨x, h1, _⟩ := hh t b hm
    have h2 := hln t b x hm h1
    simp only [laneOf, ld, elemAt, h1, Option.bind_some]
    by_cases hb : rt.isBit t = true
    · rw [if_pos hb, List.getElem?_take_of_lt hi, List.getElem?_drop]
    · rw [if_neg hb, List.getElem?_append_left (by simp; omega), List.getElem?_take_of_lt hin, List.getElem?_drop]
  · rw [if_neg hin]
    apply valE_congr
    intro t b hm
    obtain ⟨x, h1, _⟩ := hh t b hm
    have h2 := hln t b x hm h1
    simp only [laneOf, ld, padAt, elemAt, h1, Option.bind_some]
    by_cases hb : rt.isBit t = true
    · rw [if_pos hb, if_pos hb, List.getElem?_take_of_lt hi, List.getElem?_drop]
    · rw [if_neg hb, if_neg hb, List.getElem?_append_right (by simp; omega), List.getElem?_replicate, if_pos (by simp; omega)]

/-- What the loop leaves behind: the elements before `c` are computed. -/
def Done (rt : Rt Ty V Op) (bufs : List (Buf V)) (e : VE Ty V Op) (c : Nat) (out : List V) : Prop := c ≤ out.length ∧ ∀ i, i < c → out[i]? = valE rt (elemAt bufs i) e

theorem sle_limit {c n : Nat} (hn : n < 2 ^ 30) (hc : c ≤ n) : (BitVec.ofNat 32 c).sle (BitVec.ofNat 32 n - 64) = true ↔ c + 64 ≤ n := by
  rw [BitVec.sle_iff_toInt_le]
  have h1 : (BitVec.ofNat 32 c).toInt = c := by
    rw [BitVec.toInt_ofNat', Int.bmod_eq_of_le] <;> omega
  have h2 : (BitVec.ofNat 32 n - 64).toInt = (n : Int) - 64 := by
    rw [BitVec.toInt_sub]
    have h3 : (BitVec.ofNat 32 n).toInt = n := by
      rw [BitVec.toInt_ofNat', Int.bmod_eq_of_le] <;> omega
    have h4 : (64 : BitVec 32).toInt = 64 := by decide
    rw [h3, h4, Int.bmod_eq_of_le] <;> omega
  rw [h1, h2]
  omega

theorem slt_limit {c n : Nat} (hn : n < 2 ^ 30) (hc : c ≤ n) : (BitVec.ofNat 32 c).slt (BitVec.ofNat 32 n) = true ↔ c < n := by
  rw [BitVec.slt_iff_toInt_lt]
  have h1 : (BitVec.ofNat 32 c).toInt = c := by
    rw [BitVec.toInt_ofNat', Int.bmod_eq_of_le] <;> omega
  have h3 : (BitVec.ofNat 32 n).toInt = n := by
    rw [BitVec.toInt_ofNat', Int.bmod_eq_of_le] <;> omega
  rw [h1, h3]
  omega

theorem toNat32 {c : Nat} (hc : c < 2 ^ 30) : (BitVec.ofNat 32 c).toNat = c := by
  simp
  omega

theorem loop_ok (hg : Good rt e k code) (hh : ∀ t b, (t, b) ∈ leaves e → Holds rt bufs n t b) (hn : n < 2 ^ 30) : ∀ (fuel c : Nat) (out : List V), n < c + 64 * fuel → c ≤ n → c % 64 = 0 → n ≤ out.length →
    Done rt bufs e c out →
      (loop rt bufs code (BitVec.ofNat 32 n) fuel (BitVec.ofNat 32 c) out = .error .trap ∧ ∃ i, i < n ∧ valE rt (elemAt bufs i) e = none) ∨
      ∃ c' out', loop rt bufs code (BitVec.ofNat 32 n) fuel (BitVec.ofNat 32 c) out = .ok (BitVec.ofNat 32 c', out') ∧ c' ≤ n ∧ n < c' + 64 ∧ c' % 64 = 0 ∧ out'.length = out.length ∧ Done rt bufs e c' out' := by
  intro fuel
  induction fuel with
  | zero => intro c out h1 h2; omega
  | succ m ih =>
    intro c out hf hcn hm hlen hd
    by_cases hc : c + 64 ≤ n
    · have hcond : (BitVec.ofNat 32 c).sle (BitVec.ofNat 32 n - 64) = true := (sle_limit hn hcn).2 hc
      have hunf : loop rt bufs code (BitVec.ofNat 32 n) (m + 1) (BitVec.ofNat 32 c) out =
          (blockVal rt (fun _ b => (bufAt bufs b).bind fun x => loadBlock x.mem c) code).bind fun l => (splice out c l).bind (loop rt bufs code (BitVec.ofNat 32 n) m (BitVec.ofNat 32 (c + 64))) := by
        rw [loop, if_pos hcond, toNat32 (by omega)]
        have : BitVec.ofNat 32 c + 64 = BitVec.ofNat 32 (c + 64) := by
          apply BitVec.eq_of_toNat_eq
          simp
        rw [this]
      rw [hunf, full_block hg hh hc]
      rcases lanes_cases (fun i => valE rt (elemAt bufs (c + i)) e) with ⟨i, hi, hnone, he⟩ | ⟨l, hl, he, hval⟩
      · left
        rw [he]
        exact ⟨rfl, c + i, by omega, hnone⟩
      · rw [he]
        obtain ⟨out', hs, hl', h1, h2⟩ := splice_ok (mem := out) (l := l) (cur := c) (by omega)
        simp only [Except.bind, hs]
        have hd' : Done rt bufs e (c + 64) out' := by
          refine ⟨by omega, ?_⟩
          intro i hi
          by_cases hic : i < c
          · rw [h1 i hic, hd.2 i hic]
          · have h3 := h2 (i - c) (by omega)
            have h4 := hval (i - c) (by omega)
            rw [show c + (i - c) = i by omega] at h3 h4
            rw [h3, h4]
        rcases ih (c + 64) out' (by omega) hc (by omega) (by omega) hd' with h | ⟨c', out'', h3, h4, h5, h6, h7, h8⟩
        · exact Or.inl h
        · exact Or.inr ⟨c', out'', h3, h4, h5, h6, by omega, h8⟩
    · right
      refine ⟨c, out, ?_, hcn, by omega, hm, rfl, hd⟩
      rw [loop, if_neg]
      rw [sle_limit hn hcn]
      exact hc

theorem blocks_ok (hg : Good rt e k code) (hh : ∀ t b, (t, b) ∈ leaves e → Holds rt bufs n t b) (hn : n < 2 ^ 30)
    {t : Ty} {out : List V} (hout : out.length = allocated rt t n) :
      (blocks rt bufs code t (BitVec.ofNat 32 n) out = .error .trap ∧ ((∃ i, i < n ∧ valE rt (elemAt bufs i) e = none) ∨ ∃ i, n ≤ i ∧ i < up64 n ∧ valE rt (padAt rt bufs i) e = none)) ∨
      ∃ out', blocks rt bufs code t (BitVec.ofNat 32 n) out = .ok out' ∧ Done rt bufs e n out' ∧ out'.length = out.length ∧
        (rt.isBit t = true → ∀ i, n ≤ i → i < up64 n → out'[i]? = valE rt (padAt rt bufs i) e) := by
  have hlen : n ≤ out.length := by
    rw [hout]
    unfold allocated
    split <;> omega
  unfold blocks
  rw [toNat32 hn]
  rcases loop_ok hg hh hn (n + 1) 0 out (by omega) (by omega) rfl hlen ⟨by omega, fun i hi => by omega⟩ with ⟨h, hi⟩ | ⟨c, out', h, hcn, hcn', hm, hl, hd⟩
  · left
    have : (0 : BitVec 32) = BitVec.ofNat 32 0 := rfl
    rw [this, h]
    exact ⟨rfl, Or.inl hi⟩
  · have : (0 : BitVec 32) = BitVec.ofNat 32 0 := rfl
    rw [this, h]
    simp only [Except.bind]
    by_cases hc : c < n
    · rw [if_pos ((slt_limit hn hcn).2 hc)]
      have hsub : (BitVec.ofNat 32 n - BitVec.ofNat 32 c).toNat = n - c := by
        rw [BitVec.toNat_sub_of_le]
        · rw [toNat32 hn, toNat32 (by omega)]
        · rw [BitVec.le_def, toNat32 hn, toNat32 (by omega)]
          exact hcn
      rw [hsub, toNat32 (by omega)]
      have htb := tail_block hg hh hc hcn' hm
      simp only [Except.bind] at htb
      rw [htb]
      rcases lanes_cases (fun i => if i < n - c then valE rt (elemAt bufs (c + i)) e else valE rt (padAt rt bufs (c + i)) e) with ⟨i, hi, hnone, he⟩ | ⟨l, hl', he, hval⟩
      · left
        rw [he]
        refine ⟨rfl, ?_⟩
        by_cases hin : i < n - c
        · rw [if_pos hin] at hnone
          exact Or.inl ⟨c + i, by omega, hnone⟩
        · rw [if_neg hin] at hnone
          exact Or.inr ⟨c + i, by omega, by unfold up64; omega, hnone⟩
      · right
        rw [he]
        simp only [storeTail]
        by_cases hb : rt.isBit t = true
        · rw [if_pos hb]
          have : c + l.length ≤ out'.length := by
            rw [hl, hout]
            unfold allocated
            rw [if_pos hb]
            omega
          obtain ⟨o, hs, hlo, h1, h2⟩ := splice_ok this
          refine ⟨o, hs, ⟨by omega, ?_⟩, by omega, fun _ i hi hi' => ?_⟩
          · intro i hi
            by_cases hic : i < c
            · rw [h1 i hic, hd.2 i hic]
            · have h3 := h2 (i - c) (by omega)
              have h4 := hval (i - c) (by omega)
              rw [if_pos (by omega), show c + (i - c) = i by omega] at h4
              rw [show c + (i - c) = i by omega] at h3
              rw [h3, h4]
          · unfold up64 at hi'
            have h3 := h2 (i - c) (by omega)
            have h4 := hval (i - c) (by omega)
            rw [if_neg (by omega), show c + (i - c) = i by omega] at h4
            rw [show c + (i - c) = i by omega] at h3
            rw [h3, h4]
        · rw [if_neg hb]
          have hlt : (l.take (n - c)).length = n - c := by
            simp
            omega
          have : c + (l.take (n - c)).length ≤ out'.length := by omega
          obtain ⟨o, hs, hlo, h1, h2⟩ := splice_ok this
          refine ⟨o, hs, ⟨by omega, ?_⟩, by omega, fun h => absurd h hb⟩
          intro i hi
          by_cases hic : i < c
          · rw [h1 i hic, hd.2 i hic]
          · have h3 := h2 (i - c) (by omega)
            have h4 := hval (i - c) (by omega)
            rw [if_pos (by omega), show c + (i - c) = i by omega] at h4
            rw [show c + (i - c) = i by omega, List.getElem?_take_of_lt (by omega)] at h3
            rw [h3, h4]
    · right
      rw [if_neg (by rw [slt_limit hn hcn]; exact hc)]
      exact ⟨out', rfl, by rw [show n = c by omega]; exact hd, hl, fun _ i h1 h2 => by unfold up64 at h2; omega⟩

/-! ## Sizes -/

theorem commonSize_ok {bs : List Nat} (hne : bs ≠ []) (h : ∀ b, b ∈ bs → ∃ x, bufs[b]? = some x ∧ x.size = n) : commonSize bufs bs = .ok n := by
  have hgo : ∀ bs : List Nat, (∀ b, b ∈ bs → ∃ x, bufs[b]? = some x ∧ x.size = n) → commonSize.go bufs n bs = .ok () := by
    intro bs
    induction bs with
    | nil => intro _; rfl
    | cons b bs ih =>
      intro h
      obtain ⟨x, h1, h2⟩ := h b (by simp)
      simp only [commonSize.go, bufAt, h1, Except.bind, if_pos h2]
      exact ih fun b' hb' => h b' (by simp [hb'])
  cases bs with
  | nil => exact absurd rfl hne
  | cons b bs =>
    obtain ⟨x, h1, h2⟩ := h b (by simp)
    simp only [commonSize, bufAt, h1, Except.bind]
    rw [h2, hgo bs fun b' hb' => h b' (by simp [hb'])]

theorem commonSize_bad {bs : List Nat} {x y : Buf V} {b c : Nat} (h : ∀ b, b ∈ bs → ∃ x, bufs[b]? = some x) (hb : b ∈ bs) (hc : c ∈ bs) (hx : bufs[b]? = some x) (hy : bufs[c]? = some y) (hne : x.size ≠ y.size) :
    commonSize bufs bs = .error .sizes := by
  have hgo : ∀ (m : Nat) (bs : List Nat), (∀ b, b ∈ bs → ∃ x, bufs[b]? = some x) → (∃ b x, b ∈ bs ∧ bufs[b]? = some x ∧ x.size ≠ m) → commonSize.go bufs m bs = .error .sizes := by
    intro m bs
    induction bs with
    | nil => intro _ ⟨b, x, hb, _⟩; simp at hb
    | cons d ds ih =>
      intro h ⟨b, x, hb, hx, hs⟩
      obtain ⟨z, hz⟩ := h d (by simp)
      simp only [commonSize.go, bufAt, hz, Except.bind]
      by_cases hzm : z.size = m
      · rw [if_pos hzm]
        apply ih fun b' hb' => h b' (by simp [hb'])
        rcases List.mem_cons.1 hb with rfl | hb
        · rw [hz] at hx
          cases hx
          exact absurd hzm hs
        · exact ⟨b, x, hb, hx, hs⟩
      · rw [if_neg hzm]
  cases bs with
  | nil => simp at hb
  | cons d ds =>
    obtain ⟨z, hz⟩ := h d (by simp)
    simp only [commonSize, bufAt, hz, Except.bind]
    rw [hgo z.size ds fun b' hb' => h b' (by simp [hb'])]
    by_cases hxz : x.size = z.size
    · refine ⟨c, y, ?_, hy, by omega⟩
      rcases List.mem_cons.1 hc with rfl | hc
      · rw [hz] at hy
        cases hy
        exact absurd hxz hne
      · exact hc
    · refine ⟨b, x, ?_, hx, hxz⟩
      rcases List.mem_cons.1 hb with rfl | hb
      · rw [hz] at hx
        cases hx
        exact absurd rfl hxz
      · exact hb

end
end Verif.Gen.Vec
