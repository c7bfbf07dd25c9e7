import Verif.Gen.VecLoop
/-!
# Vector expressions: C39, C41, C98, C99
-/
namespace Verif.Gen.Vec

section
variable {Ty V Op : Type} [DecidableEq Ty] {rt : Rt Ty V Op}

/-- The specification of a vector expression: the list of the values of the expression at every element, or a trap if one of them has none. -/
def elementwise (rt : Rt Ty V Op) (bufs : List (Buf V)) (n : Nat) (e : VE Ty V Op) : Except Err (List V) :=
  match (List.range n).mapM fun i => valE rt (elemAt bufs i) e with
  | none => .error .trap
  | some l => .ok l

theorem elementwise_done {bufs : List (Buf V)} {n : Nat} {e : VE Ty V Op} {out : List V} (hd : Done rt bufs e n out) : elementwise rt bufs n e = .ok (out.take n) := by
  unfold elementwise
  cases h : (List.range n).mapM fun i => valE rt (elemAt bufs i) e with
  | none =>
    obtain ⟨i, hi, hn⟩ := mapM_none.1 h
    have hi' := List.mem_range.1 hi
    have := hd.2 i hi'
    rw [hn, List.getElem?_eq_none_iff] at this
    have := hd.1
    omega
  | some l =>
    obtain ⟨h1, h2⟩ := mapM_some h
    have : l = out.take n → Except.ok l = (Except.ok (out.take n) : Except Err (List V)) := fun h => by rw [h]
    apply this
    apply List.ext_getElem?
    intro i
    by_cases hi : i < n
    · have h3 := h2 i (by simpa using hi)
      rw [List.getElem?_range hi] at h3
      rw [← h3, List.getElem?_take_of_lt hi, hd.2 i hi]
      rfl
    · rw [List.getElem?_eq_none (by simp at h1; omega), List.getElem?_eq_none (by simp; omega)]

theorem elementwise_trap {bufs : List (Buf V)} {n i : Nat} {e : VE Ty V Op} (hi : i < n) (h : valE rt (elemAt bufs i) e = none) : elementwise rt bufs n e = .error .trap := by
  unfold elementwise
  rw [mapM_none.2 ⟨i, List.mem_range.2 hi, h⟩]

theorem flat_ne (e : VE Ty V Op) : flat e ≠ [] := by
  cases e <;> simp [flat]

/-- The code of an expression that is not a single leaf. -/
theorem evalBuf_eq {mem : Nat → List V} {bufs : List (Buf V)} {t : Ty} {ns : List (Node Ty V Op)} (h : 2 ≤ ns.length) : evalBuf rt mem bufs t ns =
    (typePass rt ns [] []).bind fun r => (checkPass rt r.1 []).bind fun tys =>
    match tys.getLast? with
    | none => .error .crash
    | some t' => if t' = t then
        (commonSize bufs (vecs r.1)).bind fun n => (blocks rt bufs r.1 t (BitVec.ofNat 32 n) (mem (allocated rt t n))).bind fun out => .ok ⟨n, out⟩
      else .error .badCode := by
  match ns, h with
  | a :: b :: l, _ => rw [evalBuf.eq_def]; cases a <;> rfl

/-- The result of an expression that is not a single leaf. -/
theorem evalVec_eq {mem : Nat → List V} {bufs : List (Buf V)} {t : Ty} {ns : List (Node Ty V Op)} (h : 2 ≤ ns.length) : evalVec rt mem bufs t ns =
    (typePass rt ns [] []).bind fun r => (checkPass rt r.1 []).bind fun tys =>
    match tys.getLast? with
    | none => .error .crash
    | some t' => if t' = t then
        (commonSize bufs (vecs r.1)).bind fun n => (blocks rt bufs r.1 t (BitVec.ofNat 32 n) (mem (allocated rt t n))).bind fun out => .ok (out.take n)
      else .error .badCode := by
  match ns, h with
  | a :: b :: l, h =>
    unfold evalVec
    rw [evalBuf_eq h]
    cases typePass rt (a :: b :: l) [] [] with
    | error x => rfl
    | ok r =>
      simp only [Except.bind]
      cases checkPass rt r.1 [] with
      | error x => rfl
      | ok tys =>
        simp only
        cases tys.getLast? with
        | none => rfl
        | some t' =>
          by_cases ht : t' = t
          · simp only [if_pos ht]
            cases commonSize bufs (vecs r.1) with
            | error x => rfl
            | ok n =>
              simp only
              cases blocks rt bufs r.1 t (BitVec.ofNat 32 n) (mem (allocated rt t n)) <;> rfl
          · simp only [if_neg ht]

/-- All outcomes of an expression with a kind. -/
theorem evalVec_cases {mem : Nat → List V} {bufs : List (Buf V)} {n : Nat} {e : VE Ty V Op} {k : Bool × Ty} (hk : kind rt e = some k) (hv : leaves e ≠ [])
    (hh : ∀ t b, (t, b) ∈ leaves e → Holds rt bufs n t b) (hn : n < 2 ^ 30) (hmem : ∀ m, (mem m).length = m) :
    (evalVec rt mem bufs k.2 (flat e) = .error .trap ∧ ((∃ i, i < n ∧ valE rt (elemAt bufs i) e = none) ∨ ∃ i, n ≤ i ∧ i < up64 n ∧ valE rt (padAt rt bufs i) e = none)) ∨
    ∃ out, evalVec rt mem bufs k.2 (flat e) = .ok (out.take n) ∧ Done rt bufs e n out := by
  by_cases hl : 2 ≤ (flat e).length
  · obtain ⟨code, hg⟩ := good e k hk
    obtain ⟨idxs, junk, h1, _⟩ := hg.typed [] []
    rw [evalVec_eq hl, h1]
    simp only [Except.bind, List.nil_append, hg.checked, List.getLast?_singleton, if_true]
    rw [hg.vecs, commonSize_ok (n := n) (by simpa using hv)]
    · simp only
      rcases blocks_ok hg hh hn (t := k.2) (out := mem (allocated rt k.2 n)) (hmem _) with ⟨h, hi⟩ | ⟨out, h, hd, _⟩
      · left
        rw [h]
        exact ⟨rfl, hi⟩
      · right
        rw [h]
        exact ⟨out, rfl, hd⟩
    · intro b hb
      obtain ⟨⟨t, b'⟩, hm, rfl⟩ := List.mem_map.1 hb
      obtain ⟨x, h1, h2, _⟩ := hh t b' hm
      exact ⟨x, h1, h2⟩
  · right
    cases e with
    | vec t b =>
      cases hk
      obtain ⟨x, h1, h2, h3⟩ := hh t b (by simp [leaves])
      refine ⟨x.mem, ?_, ?_⟩
      · simp [flat, evalVec, evalBuf, bufAt, h1, Except.bind, h2]
      · refine ⟨by split at h3 <;> (try simp only [up64] at h3) <;> omega, ?_⟩
        intro i hi
        simp [valE, elemAt, h1]
    | con t v => exact absurd rfl hv
    | app1 o a => exact absurd (List.length_pos_iff.2 (flat_ne a)) (by simp [flat] at hl ⊢; exact hl)
    | app2 o a b =>
      have := List.length_pos_iff.2 (flat_ne a)
      simp [flat] at hl
      omega
    | app3 o a b d =>
      have := List.length_pos_iff.2 (flat_ne a)
      simp [flat] at hl
      omega
    | call1 f a => exact absurd (List.length_pos_iff.2 (flat_ne a)) (by simp [flat] at hl ⊢; exact hl)
    | call2 f a b =>
      have := List.length_pos_iff.2 (flat_ne a)
      simp [flat] at hl
      omega

theorem flat_long {e : VE Ty V Op} (h : ∀ t b, e ≠ .vec t b) (h' : ∀ t v, e ≠ .con t v) : 2 ≤ (flat e).length := by
  have := fun a : VE Ty V Op => List.length_pos_iff.2 (flat_ne a)
  cases e with
  | vec t b => exact absurd rfl (h t b)
  | con t v => exact absurd rfl (h' t v)
  | app1 o a => have := this a; simp [flat]; omega
  | app2 o a b => have := this a; simp [flat]; omega
  | app3 o a b d => have := this a; simp [flat]; omega
  | call1 f a => have := this a; simp [flat]; omega
  | call2 f a b => have := this a; simp [flat]; omega

/-- The whole buffer an operator leaves: the elements, and for bits what the unused lanes of the last block compute. -/
theorem evalBuf_done {mem : Nat → List V} {bufs : List (Buf V)} {n : Nat} {e : VE Ty V Op} {k : Bool × Ty} (hk : kind rt e = some k) (hv : leaves e ≠ []) (hne : ∀ t b, e ≠ .vec t b)
    (hh : ∀ t b, (t, b) ∈ leaves e → Holds rt bufs n t b) (hn : n < 2 ^ 30) (hmem : ∀ m, (mem m).length = m)
    (hall : ∀ i, i < n → valE rt (elemAt bufs i) e ≠ none) (hpad : ∀ i, n ≤ i → i < up64 n → valE rt (padAt rt bufs i) e ≠ none) :
    ∃ out, evalBuf rt mem bufs k.2 (flat e) = .ok ⟨n, out⟩ ∧ Done rt bufs e n out ∧ out.length = allocated rt k.2 n ∧
      (rt.isBit k.2 = true → ∀ i, n ≤ i → i < up64 n → out[i]? = valE rt (padAt rt bufs i) e) := by
  have hl : 2 ≤ (flat e).length := flat_long hne fun t v h => by subst h; exact hv rfl
  obtain ⟨code, hg⟩ := good e k hk
  obtain ⟨idxs, junk, h1, _⟩ := hg.typed [] []
  rw [evalBuf_eq hl, h1]
  simp only [Except.bind, List.nil_append, hg.checked, List.getLast?_singleton, if_true]
  rw [hg.vecs, commonSize_ok (n := n) (by simpa using hv)]
  · simp only
    rcases blocks_ok hg hh hn (t := k.2) (out := mem (allocated rt k.2 n)) (hmem _) with ⟨_, ⟨i, hi, hi'⟩ | ⟨i, hi, hi', hx⟩⟩ | ⟨out, h, hd, h2, h3⟩
    · exact absurd hi' (hall i hi)
    · exact absurd hx (hpad i hi hi')
    · rw [h]
      exact ⟨out, rfl, hd, by rw [h2, hmem], h3⟩
  · intro b hb
    obtain ⟨⟨t, b'⟩, hm, rfl⟩ := List.mem_map.1 hb
    obtain ⟨x, h1, h2, _⟩ := hh t b' hm
    exact ⟨x, h1, h2⟩

/-! ## C39 -/

/-- **C39** (part). An expression over vectors of `n` elements, whose operators get operands of one type (constants are converted) and whose calls of vector functions stand in first operands, gives the values of the expression at every element, for
every `n` including 0 and numbers that are not multiples of the block size. Missing: the unused lanes of the last block must not trap. -/
theorem elementwise_partial {mem : Nat → List V} {bufs : List (Buf V)} {n : Nat} {e : VE Ty V Op} {k : Bool × Ty} (hk : kind rt e = some k) (hv : leaves e ≠ [])
    (hh : ∀ t b, (t, b) ∈ leaves e → Holds rt bufs n t b) (hn : n < 2 ^ 30) (hmem : ∀ m, (mem m).length = m) (hpad : ∀ i, n ≤ i → i < up64 n → valE rt (padAt rt bufs i) e ≠ none) :
    evalVec rt mem bufs k.2 (flat e) = elementwise rt bufs n e := by
  rcases evalVec_cases hk hv hh hn hmem with ⟨h, ⟨i, hi, h'⟩ | ⟨i, h1, h2, h3⟩⟩ | ⟨out, h, hd⟩
  · rw [h, elementwise_trap hi h']
  · exact absurd h3 (hpad i h1 h2)
  · rw [h, elementwise_done hd]

/-- **C39**: without unused lanes there is no condition on them. -/
theorem elementwise_whole_blocks {mem : Nat → List V} {bufs : List (Buf V)} {n : Nat} {e : VE Ty V Op} {k : Bool × Ty} (hk : kind rt e = some k) (hv : leaves e ≠ [])
    (hh : ∀ t b, (t, b) ∈ leaves e → Holds rt bufs n t b) (hn : n < 2 ^ 30) (hmem : ∀ m, (mem m).length = m) (h64 : n % 64 = 0) : evalVec rt mem bufs k.2 (flat e) = elementwise rt bufs n e := by
  apply elementwise_partial hk hv hh hn hmem
  intro i h1 h2
  unfold up64 at h2
  omega

/-- **C39**: no load or store leaves the vectors, whatever the lanes hold: the only thing that can go wrong is an element operation without result. -/
theorem vector_memory_safe {mem : Nat → List V} {bufs : List (Buf V)} {n : Nat} {e : VE Ty V Op} {k : Bool × Ty} (hk : kind rt e = some k) (hv : leaves e ≠ [])
    (hh : ∀ t b, (t, b) ∈ leaves e → Holds rt bufs n t b) (hn : n < 2 ^ 30) (hmem : ∀ m, (mem m).length = m) :
    evalVec rt mem bufs k.2 (flat e) = .error .trap ∨ ∃ l, evalVec rt mem bufs k.2 (flat e) = .ok l ∧ l.length = n := by
  rcases evalVec_cases hk hv hh hn hmem with ⟨h, _⟩ | ⟨out, h, hd⟩
  · exact Or.inl h
  · refine Or.inr ⟨_, h, ?_⟩
    have := hd.1
    simp
    omega

/-- **C39**: vectors of different sizes are reported before anything is read. -/
theorem different_sizes_reported {mem : Nat → List V} {bufs : List (Buf V)} {e : VE Ty V Op} {k : Bool × Ty} (hk : kind rt e = some k) (hex : ∀ t b, (t, b) ∈ leaves e → ∃ x, bufs[b]? = some x)
    {t u : Ty} {b c : Nat} {x y : Buf V} (hb : (t, b) ∈ leaves e) (hc : (u, c) ∈ leaves e) (hx : bufs[b]? = some x) (hy : bufs[c]? = some y) (hne : x.size ≠ y.size) :
    evalVec rt mem bufs k.2 (flat e) = .error .sizes := by
  by_cases hl : 2 ≤ (flat e).length
  · obtain ⟨code, hg⟩ := good e k hk
    obtain ⟨idxs, junk, h1, _⟩ := hg.typed [] []
    rw [evalVec_eq hl, h1]
    simp only [Except.bind, List.nil_append, hg.checked, List.getLast?_singleton, if_true]
    rw [hg.vecs, commonSize_bad (b := b) (c := c) (x := x) (y := y) _ (List.mem_map.2 ⟨_, hb, rfl⟩) (List.mem_map.2 ⟨_, hc, rfl⟩) hx hy hne]
    intro b' hb'
    obtain ⟨⟨t', b''⟩, hm, rfl⟩ := List.mem_map.1 hb'
    exact hex t' b'' hm
  · cases e with
    | vec t' b' =>
      simp [leaves] at hb hc
      rw [hb.2] at hx
      rw [hc.2, hx] at hy
      cases hy
      exact absurd rfl hne
    | con t v => simp [leaves] at hb
    | app1 o a => exact absurd (List.length_pos_iff.2 (flat_ne a)) (by simp [flat] at hl ⊢; exact hl)
    | app2 o a b =>
      have := List.length_pos_iff.2 (flat_ne a)
      simp [flat] at hl
      omega
    | app3 o a b d =>
      have := List.length_pos_iff.2 (flat_ne a)
      simp [flat] at hl
      omega
    | call1 f a => exact absurd (List.length_pos_iff.2 (flat_ne a)) (by simp [flat] at hl ⊢; exact hl)
    | call2 f a b =>
      have := List.length_pos_iff.2 (flat_ne a)
      simp [flat] at hl
      omega

/-! ## C41 -/

/-- The value of a scalar expression on its own: operands are converted to the common type of scalar expressions, `norm`; an expression with a vector has no such value. -/
def ownVal (rt : Rt Ty V Op) (norm : Ty → Ty → Ty) : VE Ty V Op → Option (Ty × V)
  | .vec _ _ => none
  | .con t v => some (t, v)
  | .app1 o a => (ownVal rt norm a).bind fun x => (rt.op o x.1 [x.1]).bind fun r => (r.2 [x.2]).map fun v => (r.1, v)
  | .app2 o a b => (ownVal rt norm a).bind fun x => (ownVal rt norm b).bind fun y =>
    (conv rt x.1 (norm x.1 y.1) x.2).bind fun u => (conv rt y.1 (norm x.1 y.1) y.2).bind fun v =>
      (rt.op o (norm x.1 y.1) [norm x.1 y.1, norm x.1 y.1]).bind fun r => (r.2 [u, v]).map fun w => (r.1, w)
  | _ => none

/-- Both operands of every operator have the same type. -/
def SameTypes (rt : Rt Ty V Op) : VE Ty V Op → Prop
  | .vec _ _ => False
  | .con _ _ => True
  | .app1 _ a => SameTypes rt a
  | .app2 _ a b => SameTypes rt a ∧ SameTypes rt b ∧ ety rt a = ety rt b
  | _ => False

/-- **C41** (part). A scalar subexpression all of whose operators have operands of one type has, in every lane, the value it has on its own. Missing: operands of different types, operators of three
operands. -/
theorem scalar_subexpression_partial (norm : Ty → Ty → Ty) (hnorm : ∀ t, norm t t = t) (leaf : Ty → Nat → Option V) (e : VE Ty V Op) (hs : SameTypes rt e) :
    ∀ k, kind rt e = some k → (valE rt leaf e).map (fun v => (k.2, v)) = ownVal rt norm e := by
  induction e with
  | vec t b => exact hs.elim
  | con t v => intro k hk; cases hk; rfl
  | app1 o a ih =>
    intro k hk
    cases hx : kind rt a with
    | none => simp only [kind, hx] at hk; cases hk
    | some x =>
      have iha := ih hs x hx
      simp only [kind, hx, Option.bind_some] at hk
      split at hk
      case isFalse => cases hk
      case isTrue hcond =>
      obtain ⟨_, r, hr, hr1⟩ := opOk_get hcond.2
      simp only [Option.some.injEq] at hk
      subst hk
      simp only [valE, ownVal, hx, Option.bind_some, ← iha]
      cases valE rt leaf a with
      | none => rfl
      | some u => simp [hr, hr1]
  | app2 o a b iha ihb =>
    intro k hk
    obtain ⟨hsa, hsb, hty⟩ := hs
    cases hx : kind rt a with
    | none => simp only [kind, hx] at hk; cases hk
    | some x =>
    cases hy : kind rt b with
    | none => simp only [kind, hx, hy] at hk; cases hk
    | some y =>
      have ia := iha hsa x hx
      have ib := ihb hsb y hy
      have hxy : y.2 = x.2 := by
        simp only [ety, hx, hy, Option.map_some, Option.some.injEq] at hty
        exact hty.symm
      have hm : meet [x, y] = some x.2 := by
        cases h : x.1 <;> cases h' : y.1 <;> simp [meet, h, h', hxy]
      simp only [kind, hx, hy, Option.bind_some, hxy, ite_self] at hk
      split at hk
      case isFalse => cases hk
      case isTrue hcond =>
      obtain ⟨_, r, hr, hr1⟩ := opOk_get hcond.2.2.2.2
      simp only [Option.some.injEq] at hk
      subst hk
      simp only [valE, ownVal, hx, hy, hm, Option.bind_some, ← ia, ← ib]
      cases valE rt leaf a with
      | none => rfl
      | some u =>
        cases valE rt leaf b with
        | none => rfl
        | some v => simp [hxy, hnorm, conv, hr, hr1]
  | app3 o a b d _ _ _ => exact hs.elim
  | call1 f a _ => exact hs.elim
  | call2 f a b _ _ => exact hs.elim

end

deriving instance DecidableEq for Except

/-! ## Concrete types and operators -/

inductive DTy where
  | bit | int | dbl
  deriving DecidableEq, Repr

inductive DOp where
  | add | sub | mul | div | gt | neg | cond
  deriving DecidableEq, Repr

/-- Whole numbers, and numbers with one binary digit after the point, represented by their double. As in `/repo/rapidudf/compiler/codegen_binary.cc` 62–85, sums, differences and products
are computed in the type the operands have; the result must fit into the space reserved for the type `c`. -/
def demo : Rt DTy Int DOp where
  bit := .bit
  isBit t := t == .bit
  fill t := match t with
    | .bit => 0
    | .int => 1
    | .dbl => 2
  cast s t := match s, t with
    | .int, .dbl => some fun v => 2 * v
    | .dbl, .int => some fun v => v.tdiv 2
    | _, _ => none
  arity o := match o with
    | .neg => 1
    | .cond => 3
    | _ => 2
  isCmp o := o == .gt
  isCond o := o == .cond
  op o c ts := match o, c, ts with
    | .add, _, [s, t] => if s = t ∧ s ≠ .bit ∧ (s = .dbl → c = .dbl) then some (s, fun l => match l with | [a, b] => some (a + b) | _ => none) else none
    | .sub, _, [s, t] => if s = t ∧ s ≠ .bit ∧ (s = .dbl → c = .dbl) then some (s, fun l => match l with | [a, b] => some (a - b) | _ => none) else none
    | .mul, _, [.int, .int] => some (.int, fun l => match l with | [a, b] => some (a * b) | _ => none)
    | .mul, .dbl, [.dbl, .dbl] => some (.dbl, fun l => match l with | [a, b] => some ((a * b) / 2) | _ => none)
    | .div, .int, [.int, .int] => some (.int, fun l => match l with | [a, b] => if b = 0 then none else some (a.tdiv b) | _ => none)
    | .gt, _, [s, t] => if s = c ∧ t = c ∧ c ≠ .bit then some (.bit, fun l => match l with | [a, b] => some (if a > b then 1 else 0) | _ => none) else none
    | .neg, _, [s] => if s = c ∧ c ≠ .bit then some (c, fun l => match l with | [a] => some (-a) | _ => none) else none
    | .cond, _, [.bit, s, t] => if s = c ∧ t = c then some (c, fun l => match l with | [a, b, d] => some (if a = 0 then d else b) | _ => none) else none
    | _, _, _ => none
  fn f := if f = 0 then some ([.dbl], .dbl, fun l => match l with | [a] => some (a + 2) | _ => none) else none

/-- The common type of scalar expressions. -/
def demoNorm : DTy → DTy → DTy
  | .dbl, _ => .dbl
  | _, .dbl => .dbl
  | s, _ => s

def zeros (n : Nat) : List Int := List.replicate n 0

/-- `v > 2 ? v : x / 2` over vectors of 3 elements. -/
def demoExpr : VE DTy Int DOp := .app3 .cond (.app2 .gt (.vec .int 0) (.con .int 2)) (.vec .int 0) (.app2 .div (.vec .int 1) (.con .dbl 4))

def demoBufs : List (Buf Int) := [⟨3, [1, 5, 2]⟩, ⟨3, [10, 11, 12]⟩]

example : kind demo demoExpr = some (true, .int) := by decide +kernel

example : ∀ t b, (t, b) ∈ leaves demoExpr → Holds demo demoBufs 3 t b := by
  intro t b h
  simp only [demoExpr, leaves, List.append_nil, List.mem_append, List.mem_singleton, Prod.mk.injEq] at h
  rcases h with (⟨rfl, rfl⟩ | ⟨rfl, rfl⟩) | ⟨rfl, rfl⟩ <;> exact ⟨_, rfl, rfl, by decide⟩

example : ∀ i, 3 ≤ i → i < up64 3 → valE demo (padAt demo demoBufs i) demoExpr ≠ none := by
  intro i h1 h2
  have : i < 64 := h2
  have hh : ∀ j, j < 64 → 3 ≤ j → valE demo (padAt demo demoBufs j) demoExpr ≠ none := by decide +kernel
  exact hh i this h1

example : elementwise demo demoBufs 3 demoExpr = .ok [5, 5, 6] := by decide +kernel

example : evalVec demo zeros demoBufs .int (flat demoExpr) = .ok [5, 5, 6] := by decide +kernel

/-- A comparison gives a bit vector, whose buffer has 64 bits. -/
example : evalVec demo zeros demoBufs .bit (flat (.app2 .gt (.vec .int 0) (.con .int 1))) = .ok [0, 1, 1] := by decide +kernel

example : evalVec demo zeros [⟨3, [1, 2, 3]⟩, ⟨2, [1, 2]⟩] .int (flat (.app2 .add (.vec .int 0) (.vec .int 1))) = .error .sizes := by decide +kernel

/-- `x / (y - 1)`. -/
def divExpr : VE DTy Int DOp := .app2 .div (.vec .int 0) (.app2 .sub (.vec .int 1) (.con .int 1))

/-- **C39** is false: `x / (y - 1)` on vectors with the single elements 6 and 3 has the value 3, but the unused lanes of the block hold 1 and the compiled code divides by zero there. -/
theorem padding_trap_violated : kind demo divExpr = some (true, .int) ∧ elementwise demo [⟨1, [6]⟩, ⟨1, [3]⟩] 1 divExpr = .ok [3] ∧
    evalVec demo zeros [⟨1, [6]⟩, ⟨1, [3]⟩] .int (flat divExpr) = .error .trap := by decide +kernel

/-- `1.5 + 1.5`. -/
def three : VE DTy Int DOp := .app2 .add (.con .dbl 3) (.con .dbl 3)

/-- **C41** is false: `1.5 + 1.5` is 3, but `(1.5 + 1.5) * v` on a vector of whole numbers with the single element 1 gives 2: the two constants are cut to 1 before they are added. And
`(2 + 1.5) * v` on a vector of floating-point numbers computes `2 + 1.5` in the type of `2`, and then stores the sum in too small a place. (Floating-point values are doubled.) -/
theorem scalar_subexpression_violated : ownVal demo demoNorm three = some (.dbl, 6) ∧ evalVec demo zeros [⟨1, [1]⟩] .int (flat (.app2 .mul three (.vec .int 0))) = .ok [2] ∧
    evalVec demo zeros [⟨1, [2]⟩] .dbl (flat (.app2 .mul (.app2 .add (.con .int 2) (.con .dbl 3)) (.vec .dbl 0))) = .error .badCode := by decide +kernel

/-- A product with the scalar 3.5 = 1.5 + 2, operands of one type. -/
example : SameTypes demo (.app2 .add (.con .dbl 3) (.con .dbl 4)) ∧ ownVal demo demoNorm (.app2 .add (.con .dbl 3) (.con .dbl 4)) = some (.dbl, 7) ∧
    evalVec demo zeros [⟨1, [2]⟩] .dbl (flat (.app2 .mul (.app2 .add (.con .dbl 3) (.con .dbl 4)) (.vec .dbl 0))) = .ok [7] :=
  ⟨⟨trivial, trivial, by decide +kernel⟩, by decide +kernel, by decide +kernel⟩

/-! ## C98: the number of operands -/

/-- **C98** is false: an operator of one operand that is given two vectors returns the first one unchanged, and an operator of two operands that is given one makes the compiler read
outside its stack. -/
theorem operand_count_violated : evalVec demo zeros [⟨2, [1, 2]⟩, ⟨2, [3, 4]⟩] .int [.vec .int 0, .vec .int 1, .op .neg] = .ok [1, 2] ∧
    evalVec demo zeros [⟨2, [1, 2]⟩] .int [.vec .int 0, .op .add] = .error .crash := by decide +kernel

section
variable {Ty V Op : Type} [DecidableEq Ty] {rt : Rt Ty V Op}

/-- **C98** (part). With the right numbers of operands, and operands of one type, the expression is compiled: the compiler neither refuses it nor reads outside its stack, and the result is that
of the whole expression (`elementwise_partial`). -/
theorem operand_count_partial {e : VE Ty V Op} {k : Bool × Ty} (hk : kind rt e = some k) : ∃ code st, typePass rt (flat e) [] [] = .ok (code, st) ∧ checkPass rt code [] = .ok [k.2] := by
  obtain ⟨code, hg⟩ := good e k hk
  obtain ⟨idxs, junk, h1, _⟩ := hg.typed [] []
  exact ⟨code, _, h1, hg.checked []⟩

end

/-! ## C99: vector functions -/

/-- **C99** is false: with a vector function `f`, `f(v) + 2` is compiled and `2 + f(v)` is not: the function's operand `v` is taken for the left operand of the sum, so the constant keeps its
type. -/
theorem function_operand_violated : evalVec demo zeros [⟨1, [2]⟩] .dbl [.vec .dbl 0, .call 0, .con .int 2, .op .add] = .ok [8] ∧
    evalVec demo zeros [⟨1, [2]⟩] .dbl [.con .int 2, .vec .dbl 0, .call 0, .op .add] = .error .badCode := by decide +kernel

/-- Calls in first operands, as in `f(v) + 2`, are covered by `elementwise_partial`. -/
example : kind demo (.app2 .add (.call1 0 (.vec .dbl 0)) (.con .int 2)) = some (false, .dbl) := by decide +kernel

example : kind demo (.app2 .add (.con .int 2) (.call1 0 (.vec .dbl 0))) = none := by decide +kernel

end Verif.Gen.Vec
