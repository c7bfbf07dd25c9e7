import Verif.Simd.Loop
/-!
# Distances between vectors: C146, C147

`simd_vector_dot_impl`, `simd_vector_cos_distance_impl`, `simd_vector_l2_distance_impl`, `/repo/rapidudf/functions/simd/vector_misc.cc` 49–138. The loops, loads and tails are modelled for any
number of lanes; numbers and their operations are parameters (`Ops`), of which the theorems assume the laws of exact arithmetic (`Exact`). Floating point rounding is not modelled.
`hn::Dot::Compute` is a function of the Highway library and is taken to do what its documentation says.
-/
namespace Verif.Simd.Distance
open Verif.Simd

/-- Numbers. -/
structure Ops (R : Type) where
  zero : R
  one : R
  add : R → R → R
  sub : R → R → R
  mul : R → R → R
  div : R → R → R
  abs : R → R
  sqrt : R → R
  isZero : R → Bool

/-- The laws of exact arithmetic that are used. -/
structure Exact {R : Type} (o : Ops R) : Prop where
  add_assoc : ∀ a b c, o.add (o.add a b) c = o.add a (o.add b c)
  add_comm : ∀ a b, o.add a b = o.add b a
  zero_add : ∀ a, o.add o.zero a = a
  mul_zero : o.mul o.zero o.zero = o.zero
  sub_zero : o.sub o.zero o.zero = o.zero
  abs_zero : o.abs o.zero = o.zero
  abs_mul : ∀ a, o.mul (o.abs a) (o.abs a) = o.mul a a

/-! ## Specification -/

section
variable {R : Type} (o : Ops R)

/-- The sum of `f` over the pairs of elements at the same place. -/
def total (f : R → R → R) : List R → List R → R
  | a :: as, b :: bs => o.add (f a b) (total f as bs)
  | _, _ => o.zero

def sumSquares (a : List R) : R := total o (fun x _ => o.mul x x) a a

/-- `a₁b₁ + … + aₙbₙ`. -/
def dotSpec (a b : List R) : R := total o o.mul a b

/-- The square root of `(a₁ - b₁)² + … + (aₙ - bₙ)²`. -/
def l2Spec (a b : List R) : R := o.sqrt (total o (fun x y => o.mul (o.sub x y) (o.sub x y)) a b)

/-- One minus the cosine; `none` (NaN) if one of the vectors has length zero. -/
def cosSpec (a b : List R) : Option R :=
  let na := o.sqrt (sumSquares o a)
  let nb := o.sqrt (sumSquares o b)
  if o.isZero na = true ∨ o.isZero nb = true then none else some (o.sub o.one (o.div (dotSpec o a b) (o.mul na nb)))

/-! ## Model -/

/-- What a call does: a C++ exception, undefined behaviour, or a value. -/
inductive Out (α : Type) where
  | thrown
  | undefined
  | value (a : α)
  deriving DecidableEq

/-- `hn::MulAdd(x, y, acc)`. -/
def mulAdd : List R → List R → List R → List R
  | x :: xs, y :: ys, a :: acc => o.add (o.mul x y) a :: mulAdd xs ys acc
  | _, _, _ => []

def subV : List R → List R → List R
  | x :: xs, y :: ys => o.sub x y :: subV xs ys
  | _, _ => []

/-- `hn::ReduceSum`. -/
def reduceSum (v : List R) : R := v.foldl o.add o.zero

/-- One block of the cosine: the three accumulators, 85–87 and 94–96. -/
def cosStep (s : List R × List R × List R) (lv rv : List R) : List R × List R × List R := (mulAdd o lv rv s.1, mulAdd o lv lv s.2.1, mulAdd o rv rv s.2.2)

/-- The loop, 81–89: `idx <= count - N` with `count >= N`. -/
def cosLoop (N : Nat) (l r : List R) (s : List R × List R × List R) : Option (Nat × List R × List R × List R) :=
  if N ≤ l.length then
    forLoop (fun i => decide (i ≤ l.length - N)) N (fun i s => (loadU l i N).bind fun lv => (loadU r i N).map fun rv => cosStep o s lv rv) (l.length + 1) 0 s
  else some (0, s)

/-- 90–97. -/
def cosTail (N : Nat) (l r : List R) (i : Nat) (s : List R × List R × List R) : Option (List R × List R × List R) :=
  if i ≠ l.length then (loadN o.zero l i (l.length - i) N).bind fun lv => (loadN o.zero r i (l.length - i) N).map fun rv => cosStep o s lv rv else some s

/-- `simd_vector_cos_distance_impl`, 67–107; NaN is `none`. -/
def cosDistance (N : Nat) (l r : List R) : Out (Option R) :=
  if l.length ≠ r.length then .thrown
  else
    let z := List.replicate N o.zero
    match (cosLoop o N l r (z, z, z)).bind fun q => cosTail o N l r q.1 q.2 with
    | none => .undefined
    | some s =>
      let nl := o.sqrt (reduceSum o s.2.1)
      let nr := o.sqrt (reduceSum o s.2.2)
      .value (if o.isZero nl = true ∨ o.isZero nr = true then none else some (o.sub o.one (o.div (reduceSum o s.1) (o.mul nl nr))))

/-- One block of the Euclidean distance, 124–125 and 132–133. -/
def l2Step (s : List R) (lv rv : List R) : List R :=
  let d := (subV o lv rv).map o.abs
  mulAdd o d d s

/-- The loop, 120–127. -/
def l2Loop (N : Nat) (l r : List R) (s : List R) : Option (Nat × List R) :=
  if N ≤ l.length then
    forLoop (fun i => decide (i ≤ l.length - N)) N (fun i s => (loadU l i N).bind fun lv => (loadU r i N).map fun rv => l2Step o s lv rv) (l.length + 1) 0 s
  else some (0, s)

/-- 128–134. -/
def l2Tail (N : Nat) (l r : List R) (i : Nat) (s : List R) : Option (List R) :=
  if i ≠ l.length then (loadN o.zero l i (l.length - i) N).bind fun lv => (loadN o.zero r i (l.length - i) N).map fun rv => l2Step o s lv rv else some s

/-- `simd_vector_l2_distance_impl`, 109–137. -/
def l2Distance (N : Nat) (l r : List R) : Out R :=
  if l.length ≠ r.length then .thrown
  else match (l2Loop o N l r (List.replicate N o.zero)).bind fun q => l2Tail o N l r q.1 q.2 with
    | none => .undefined
    | some s => .value (o.sqrt (reduceSum o s))

/-- `hn::Dot::Compute` of `n` elements, from its documentation: with `kAtLeastOneVector`, `n` must be at least the number of lanes; with `kPaddedToVector`, as many elements as the next
multiple of the number of lanes must be accessible. Elements beyond `n` count as zero. -/
def dotCompute (N : Nat) (padded : Bool) (l r : List R) (n : Nat) : Option R :=
  if (if padded = true then (n + N - 1) / N * N ≤ l.length ∧ (n + N - 1) / N * N ≤ r.length else N ≤ n ∧ n ≤ l.length ∧ n ≤ r.length) then some (total o o.mul (l.take n) (r.take n)) else none

/-- `simd_vector_dot_impl`, 49–65. `l` and `r` are the memory the vectors are in, `n` and `m` their sizes. -/
def dot (N : Nat) (l r : List R) (n m : Nat) : Out R :=
  if n ≠ m then .thrown
  else match dotCompute o N (decide (n < N)) l r n with
    | none => .undefined
    | some x => .value x

end

/-! ## Lemmas -/

section
variable {R : Type} {o : Ops R} (hx : Exact o)
include hx

theorem foldl_add (v : List R) (a : R) : v.foldl o.add a = o.add a (v.foldl o.add o.zero) := by
  induction v generalizing a with
  | nil => simp only [List.foldl_nil]; rw [hx.add_comm, hx.zero_add]
  | cons x v ih => rw [List.foldl_cons, List.foldl_cons, ih (o.add a x), ih (o.add o.zero x), hx.zero_add, hx.add_assoc]

theorem reduce_cons (x : R) (v : List R) : reduceSum o (x :: v) = o.add x (reduceSum o v) := by
  unfold reduceSum
  rw [List.foldl_cons, hx.zero_add, foldl_add hx]

theorem reduce_zeros (n : Nat) : reduceSum o (List.replicate n o.zero) = o.zero := by
  induction n with
  | zero => rfl
  | succ n ih => rw [List.replicate_succ, reduce_cons hx, ih, hx.zero_add]

theorem total_append (f : R → R → R) : ∀ (a b c d : List R), a.length = b.length → total o f (a ++ c) (b ++ d) = o.add (total o f a b) (total o f c d)
  | [], [], c, d, _ => by simp only [List.nil_append, total, hx.zero_add]
  | x :: a, y :: b, c, d, h => by
    simp only [List.cons_append, total]
    rw [total_append f a b c d (by simpa using h), hx.add_assoc]
  | [], _ :: _, _, _, h => by simp at h
  | _ :: _, [], _, _, h => by simp at h

theorem total_zeros (f : R → R → R) (hf : f o.zero o.zero = o.zero) (n : Nat) : total o f (List.replicate n o.zero) (List.replicate n o.zero) = o.zero := by
  induction n with
  | zero => rfl
  | succ n ih => rw [List.replicate_succ, total, ih, hf, hx.zero_add]

/-- A block adds its terms. -/
theorem mulAdd_sum : ∀ (x y acc : List R), x.length = acc.length → y.length = acc.length →
    (mulAdd o x y acc).length = acc.length ∧ reduceSum o (mulAdd o x y acc) = o.add (reduceSum o acc) (total o o.mul x y)
  | [], [], [], _, _ => ⟨rfl, by simp only [mulAdd, total, reduceSum, List.foldl_nil, hx.zero_add]⟩
  | x :: xs, y :: ys, a :: acc, h1, h2 => by
    obtain ⟨h3, h4⟩ := mulAdd_sum xs ys acc (by simpa using h1) (by simpa using h2)
    refine ⟨by simp [mulAdd, h3], ?_⟩
    simp only [mulAdd, total]
    rw [reduce_cons hx, reduce_cons hx, h4, hx.add_comm (o.mul x y) a, hx.add_assoc, hx.add_assoc, ← hx.add_assoc (o.mul x y), hx.add_comm (o.mul x y) (reduceSum o acc), hx.add_assoc]
  | [], _ :: _, [], _, h => by simp at h
  | _, [], _ :: _, _, h => by simp at h
  | [], _ :: _, _ :: _, h, _ => by simp at h
  | _ :: _, _, [], h, _ => by simp at h

omit hx in
theorem subV_length : ∀ (x y : List R), x.length = y.length → (subV o x y).length = x.length
  | [], [], _ => rfl
  | _ :: x, _ :: y, h => by simp only [subV, List.length_cons]; rw [subV_length x y (by simpa using h)]
  | [], _ :: _, h => by simp at h
  | _ :: _, [], h => by simp at h

theorem subV_total : ∀ (x y : List R), x.length = y.length →
    total o o.mul ((subV o x y).map o.abs) ((subV o x y).map o.abs) = total o (fun a b => o.mul (o.sub a b) (o.sub a b)) x y
  | [], [], _ => rfl
  | x :: xs, y :: ys, h => by simp only [subV, List.map_cons, total, hx.abs_mul]; rw [subV_total xs ys (by simpa using h)]
  | [], _ :: _, h => by simp at h
  | _ :: _, [], h => by simp at h

/-- The sum over the elements before `i`. -/
def upTo (o : Ops R) (f : R → R → R) (l r : List R) (i : Nat) : R := total o f (l.take i) (r.take i)

theorem upTo_add (f : R → R → R) (l r : List R) (i n : Nat) (hl : i + n ≤ l.length) (hr : i + n ≤ r.length) :
    upTo o f l r (i + n) = o.add (upTo o f l r i) (total o f ((l.drop i).take n) ((r.drop i).take n)) := by
  unfold upTo
  rw [List.take_add, List.take_add, total_append hx]
  rw [List.length_take, List.length_take]; omega

/-- The tail, filled with zeros. -/
theorem upTo_tail (f : R → R → R) (hf : f o.zero o.zero = o.zero) (l r : List R) (i k : Nat) (hi : i ≤ l.length) (hlr : l.length = r.length) :
    o.add (upTo o f l r i) (total o f ((l.drop i).take (l.length - i) ++ List.replicate k o.zero) ((r.drop i).take (l.length - i) ++ List.replicate k o.zero)) = total o f l r := by
  rw [total_append hx _ _ _ _ _ (by simp; omega), total_zeros hx f hf, hx.add_comm _ o.zero, hx.zero_add, ← upTo_add hx f l r i _ (by omega) (by omega)]
  unfold upTo
  rw [List.take_of_length_le (by omega), List.take_of_length_le (by omega)]

theorem l2Step_sum (s x y : List R) (h1 : x.length = s.length) (h2 : y.length = s.length) :
    (l2Step o s x y).length = s.length ∧ reduceSum o (l2Step o s x y) = o.add (reduceSum o s) (total o (fun a b => o.mul (o.sub a b) (o.sub a b)) x y) := by
  unfold l2Step
  have hl : ((subV o x y).map o.abs).length = s.length := by rw [List.length_map, subV_length x y (by omega)]; exact h1
  obtain ⟨h3, h4⟩ := mulAdd_sum hx _ _ s hl hl
  exact ⟨h3, by rw [h4, subV_total hx x y (by omega)]⟩

/-- Blocks of a loop `idx <= count - N`, for any accumulator. -/
theorem block_loop {σ : Type} (P : Nat → σ → Prop) (step : σ → List R → List R → σ) (N : Nat) (hN : 0 < N) (l r : List R) (hlr : l.length = r.length) (s : σ) (h0 : P 0 s)
    (hs : ∀ i s, P i s → i + N ≤ l.length → P (i + N) (step s ((l.drop i).take N) ((r.drop i).take N))) :
    ∃ i s', (if N ≤ l.length then
      forLoop (fun i => decide (i ≤ l.length - N)) N (fun i s => (loadU l i N).bind fun lv => (loadU r i N).map fun rv => step s lv rv) (l.length + 1) 0 s
      else some (0, s)) = some (i, s') ∧ P i s' ∧ i ≤ l.length ∧ l.length - i < N := by
  split
  · next hc =>
    obtain ⟨i, s', he, hp, hcd, _, hi⟩ := forLoop_inv (cond := fun i => decide (i ≤ l.length - N)) (step := N)
      (body := fun i s => (loadU l i N).bind fun lv => (loadU r i N).map fun rv => step s lv rv) P l.length hN
      (fun i _ _ h => by have := of_decide_eq_true h; omega)
      (fun i s hp h => by
        have := of_decide_eq_true h
        refine ⟨step s ((l.drop i).take N) ((r.drop i).take N), ?_, hs i s hp (by omega)⟩
        simp only [loadU]
        rw [if_pos (by omega), if_pos (by omega)]
        rfl) (l.length + 1) 0 s h0 (by omega) (by omega)
    have := of_decide_eq_false hcd
    exact ⟨i, s', he, hp, hi, by omega⟩
  · next hc => exact ⟨0, s, rfl, h0, by omega, by omega⟩

/-! ## C146 -/

/-- **C146**, Euclidean distance: for every number of lanes and every size, in exact arithmetic. Nothing outside the vectors is read. -/
theorem l2_distance (N : Nat) (hN : 0 < N) (l r : List R) (h : l.length = r.length) : l2Distance o N l r = .value (l2Spec o l r) := by
  unfold l2Distance
  rw [if_neg (by simpa using h)]
  obtain ⟨i, s, he, ⟨hp1, hp2⟩, hi, hlt⟩ := block_loop hx (fun i s => s.length = N ∧ reduceSum o s = upTo o (fun a b => o.mul (o.sub a b) (o.sub a b)) l r i) (l2Step o) N hN l r h
    (List.replicate N o.zero) ⟨by simp, by rw [reduce_zeros hx]; rfl⟩
    (fun i s hp hle => by
      obtain ⟨h1, h2⟩ := l2Step_sum hx s ((l.drop i).take N) ((r.drop i).take N) (by simp [hp.1]; omega) (by simp [hp.1]; omega)
      exact ⟨h1.trans hp.1, by rw [h2, hp.2, upTo_add hx _ l r i N hle (by omega)]⟩)
  unfold l2Loop
  rw [he, Option.bind_some]
  dsimp only
  unfold l2Tail
  split
  · next hd heq =>
    split at heq
    · simp only [loadN] at heq
      rw [if_pos (by omega), if_pos (by omega)] at heq
      simp at heq
    · cases heq
  · next s' heq =>
    unfold l2Spec
    refine congrArg (fun z => Out.value (o.sqrt z)) ?_
    split at heq
    · simp only [loadN] at heq
      rw [if_pos (by omega), if_pos (by omega)] at heq
      simp only [Option.bind_some, Option.map_some, Option.some.injEq] at heq
      subst heq
      obtain ⟨_, h2⟩ := l2Step_sum hx s ((l.drop i).take (l.length - i) ++ List.replicate (N - (l.length - i)) o.zero) ((r.drop i).take (l.length - i) ++ List.replicate (N - (l.length - i)) o.zero)
        (by simp [hp1]; omega) (by simp [hp1]; omega)
      rw [h2, hp2, upTo_tail hx _ (by rw [hx.sub_zero, hx.mul_zero]) l r i _ hi h]
    · next hne =>
      injection heq with heq
      subst heq
      have : i = l.length := by omega
      rw [hp2, this]
      unfold upTo
      rw [List.take_of_length_le (by omega), List.take_of_length_le (by omega)]

/-- The three sums of the cosine. -/
def CosInv (o : Ops R) (N : Nat) (l r : List R) (i : Nat) (s : List R × List R × List R) : Prop :=
  (s.1.length = N ∧ s.2.1.length = N ∧ s.2.2.length = N) ∧ reduceSum o s.1 = upTo o o.mul l r i ∧ reduceSum o s.2.1 = upTo o o.mul l l i ∧ reduceSum o s.2.2 = upTo o o.mul r r i

omit hx in
theorem squares (o : Ops R) : ∀ a : List R, sumSquares o a = total o o.mul a a
  | [] => rfl
  | x :: a => by
    have := squares o a
    unfold sumSquares at this ⊢
    simp only [total]
    rw [this]

/-- **C146**, cosine distance: one minus the dot product divided by the product of the norms, NaN if one of the norms is zero. -/
theorem cosine_distance (N : Nat) (hN : 0 < N) (l r : List R) (h : l.length = r.length) : cosDistance o N l r = .value (cosSpec o l r) := by
  unfold cosDistance
  rw [if_neg (by simpa using h)]
  obtain ⟨i, s, he, hp, hi, hlt⟩ := block_loop hx (CosInv o N l r) (cosStep o) N hN l r h
    (List.replicate N o.zero, List.replicate N o.zero, List.replicate N o.zero) ⟨by simp, by simp only; rw [reduce_zeros hx]; exact ⟨rfl, rfl, rfl⟩⟩
    (fun i s hp hle => by
      obtain ⟨⟨l1, l2, l3⟩, s1, s2, s3⟩ := hp
      obtain ⟨a1, a2⟩ := mulAdd_sum hx ((l.drop i).take N) ((r.drop i).take N) s.1 (by simp [l1]; omega) (by simp [l1]; omega)
      obtain ⟨b1, b2⟩ := mulAdd_sum hx ((l.drop i).take N) ((l.drop i).take N) s.2.1 (by simp [l2]; omega) (by simp [l2]; omega)
      obtain ⟨c1, c2⟩ := mulAdd_sum hx ((r.drop i).take N) ((r.drop i).take N) s.2.2 (by simp [l3]; omega) (by simp [l3]; omega)
      refine ⟨⟨a1.trans l1, b1.trans l2, c1.trans l3⟩, ?_, ?_, ?_⟩
      · simp only [cosStep]; rw [a2, s1, upTo_add hx _ l r i N hle (by omega)]
      · simp only [cosStep]; rw [b2, s2, upTo_add hx _ l l i N hle hle]
      · simp only [cosStep]; rw [c2, s3, upTo_add hx _ r r i N (by omega) (by omega)])
  obtain ⟨⟨l1, l2, l3⟩, s1, s2, s3⟩ := hp
  have key : ∃ s', cosTail o N l r i s = some s' ∧ reduceSum o s'.1 = total o o.mul l r ∧ reduceSum o s'.2.1 = total o o.mul l l ∧ reduceSum o s'.2.2 = total o o.mul r r := by
    unfold cosTail
    split
    · simp only [loadN]
      rw [if_pos (by omega), if_pos (by omega)]
      refine ⟨_, rfl, ?_⟩
      let lv := (l.drop i).take (l.length - i) ++ List.replicate (N - (l.length - i)) o.zero
      let rv := (r.drop i).take (l.length - i) ++ List.replicate (N - (l.length - i)) o.zero
      have hlv : lv.length = N := by simp [lv]; omega
      have hrv : rv.length = N := by simp [rv]; omega
      obtain ⟨_, a2⟩ := mulAdd_sum hx lv rv s.1 (by omega) (by omega)
      obtain ⟨_, b2⟩ := mulAdd_sum hx lv lv s.2.1 (by omega) (by omega)
      obtain ⟨_, c2⟩ := mulAdd_sum hx rv rv s.2.2 (by omega) (by omega)
      refine ⟨a2.trans ?_, b2.trans ?_, c2.trans ?_⟩
      · rw [s1]; exact upTo_tail hx _ hx.mul_zero l r i _ hi h
      · rw [s2]; exact upTo_tail hx _ hx.mul_zero l l i _ hi rfl
      · have e : l.length - i = r.length - i := by omega
        simp only [rv]
        rw [s3, e]
        exact upTo_tail hx _ hx.mul_zero r r i _ (by omega) rfl
    · next hne =>
      have hil : i = l.length := by omega
      refine ⟨s, rfl, ?_⟩
      rw [s1, s2, s3, hil]
      unfold upTo
      rw [List.take_of_length_le (by omega), List.take_of_length_le (by omega)]
      exact ⟨rfl, rfl, rfl⟩
  obtain ⟨s', ht, t1, t2, t3⟩ := key
  unfold cosLoop
  simp only [he, Option.bind_some, ht, t1, t2, t3, cosSpec, squares, dotSpec]

omit hx in
/-- **C146**: vectors of different sizes are refused. -/
theorem distance_sizes (o : Ops R) (N : Nat) (l r : List R) (h : l.length ≠ r.length) : l2Distance o N l r = .thrown ∧ cosDistance o N l r = .thrown := by
  simp [l2Distance, cosDistance, h]

end

/-! ## C147 -/

section
variable {R : Type} (o : Ops R)

/-- **C147** (part): vectors of at least as many elements as there are lanes, and shorter ones in memory that goes on for a whole block. -/
theorem dot_partial (N : Nat) (hN : 0 < N) (l r : List R) (n : Nat) (hl : n ≤ l.length) (hr : n ≤ r.length) (h : N ≤ n ∨ (N ≤ l.length ∧ N ≤ r.length)) :
    dot o N l r n n = .value (dotSpec o (l.take n) (r.take n)) := by
  unfold dot dotCompute
  rw [if_neg (by simp)]
  by_cases hn : n < N
  · have hle : N ≤ l.length ∧ N ≤ r.length := by rcases h with h | h; · omega
                                                 · exact h
    have h1 : (n + N - 1) / N * N ≤ N := by
      have : (n + N - 1) / N ≤ 1 := by
        have : (n + N - 1) / N < 2 := Nat.div_lt_of_lt_mul (by omega)
        omega
      calc (n + N - 1) / N * N ≤ 1 * N := Nat.mul_le_mul_right _ this
        _ = N := Nat.one_mul _
    simp only [hn, decide_true, if_true]
    rw [if_pos ⟨by omega, by omega⟩]
    rfl
  · simp only [hn, decide_false, Bool.false_eq_true, if_false]
    rw [if_pos ⟨by omega, hl, hr⟩]
    rfl

/-- **C147** is false: a vector with fewer elements than there are lanes, in memory that ends with it, is read beyond its end. -/
theorem dot_violated (N : Nat) (l r : List R) (h0 : l ≠ []) (hl : l.length < N) (hr : l.length = r.length) : dot o N l r l.length r.length = .undefined := by
  unfold dot dotCompute
  have hpos := List.length_pos_iff.2 h0
  have h1 : (l.length + N - 1) / N = 1 := by
    have a : (l.length + N - 1) / N < 2 := Nat.div_lt_of_lt_mul (by omega)
    have b : 1 ≤ (l.length + N - 1) / N := (Nat.one_le_div_iff (by omega)).2 (by omega)
    omega
  rw [if_neg (by simpa using hr)]
  simp only [hl, decide_true, if_true]
  rw [h1, if_neg (by omega)]

/-- **C147**: vectors of different sizes are refused. -/
theorem dot_sizes (N : Nat) (l r : List R) (n m : Nat) (h : n ≠ m) : dot o N l r n m = .thrown := by simp [dot, h]

end

/-! ## Instances -/

/-- Integers, with the rounded square root. -/
def ints : Ops Int where
  zero := 0
  one := 1
  add := (· + ·)
  sub := (· - ·)
  mul := (· * ·)
  div := Int.tdiv
  abs x := x.natAbs
  sqrt x := (List.range (x.toNat + 1)).foldl (fun s i => if i * i ≤ x.toNat then (i : Int) else s) 0
  isZero x := x == 0

theorem ints_exact : Exact ints where
  add_assoc := Int.add_assoc
  add_comm := Int.add_comm
  zero_add := Int.zero_add
  mul_zero := rfl
  sub_zero := rfl
  abs_zero := rfl
  abs_mul a := Int.natAbs_mul_self

/-- Distance 5 of (1, 2, 0) and (4, 6, 0) on two lanes, by the theorem and by the model. -/
example : l2Distance ints 2 [1, 2, 0] [4, 6, 0] = .value 5 := by
  rw [l2_distance ints_exact 2 (by decide) [1, 2, 0] [4, 6, 0] rfl]; decide
example : cosDistance ints 2 [3, 0, 0] [3, 0, 0] = .value (some 0) ∧ cosDistance ints 2 [3, 0, 0] [0, 0, 0] = .value none := by
  constructor
  · rw [cosine_distance ints_exact 2 (by decide) [3, 0, 0] [3, 0, 0] rfl]; decide
  · rw [cosine_distance ints_exact 2 (by decide) [3, 0, 0] [0, 0, 0] rfl]; decide
example : dot ints 4 [1, 2, 3, 4, 5] [1, 1, 1, 1, 2] 5 5 = .value 20 := by rw [dot_partial ints 4 (by decide) _ _ 5 (by decide) (by decide) (.inl (by decide))]; decide
/-- Two elements on four lanes, in memory of four. -/
example : dot ints 4 [1, 2, 30, 40] [1, 1, 50, 60] 2 2 = .value 3 := by rw [dot_partial ints 4 (by decide) _ _ 2 (by decide) (by decide) (.inr (by decide))]; decide
example : dot ints 4 [1, 2] [1, 1] 2 2 = .undefined := dot_violated ints 4 [1, 2] [1, 1] (by decide) (by decide) rfl

end Verif.Simd.Distance
