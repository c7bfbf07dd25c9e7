import Verif.Tbl.Rows
import Verif.Types.BitVector
/-!
# Visiting rows: C65, C77, C78

`/repo/rapidudf/table/table.h` 191–326 (`Foreach`, `Filter(f)`), 418–519 (`Map`, `FlatMap`), 684–696 (`HandleIteratorValue`). The visitor is a function of a state and the row
number that returns a new state and its result; everything it does, such as recording the rows it sees, is in the state. The loop counter is an `int`; tables have fewer
than `2^31` rows. Rows are given by number: the row objects are those of `Verif.Tbl.row`.
-/
namespace Verif.Tbl

/-- `VisitStatusCode`. -/
inductive Code where
  | next | exit | reset
deriving DecidableEq

/-- The results a visitor may return. -/
inductive Ret where
  | code (c : Code)
  | int (v : Int)
  | other

/-- `HandleIteratorValue`, table.h 684–696. -/
def handle : Ret → Code
  | .code c => c
  | .int v => if v = 0 then .next else .exit
  | .other => .next

/-- The sequential loop of `Foreach`, table.h 226–257 and 281–307, from row `i` on, for at most `fuel` iterations (`none`: still running). `mask` is `none` if no mask
was given. -/
def foreachLoop {S : Type} (n : Nat) (mask : Option (Nat → Bool)) (visit : S → Nat → S × Ret) : Nat → Nat → S → Option S
  | 0, _, _ => none
  | fuel + 1, i, s =>
    if n ≤ i then some s
    else if (match mask with | some m => !m i | none => false) = true then foreachLoop n mask visit fuel (i + 1) s
    else
      match handle (visit s i).2 with
      | .next => foreachLoop n mask visit fuel (i + 1) (visit s i).1
      | .exit => some (visit s i).1
      | .reset => foreachLoop n mask visit fuel 0 (visit s i).1

/-- `Foreach` without a thread pool: a mask of another size is refused (status not OK), table.h 204–208. The mask is its size and its elements. -/
def foreach {S : Type} (n : Nat) (mask : Option (Nat × (Nat → Bool))) (visit : S → Nat → S × Ret) (fuel : Nat) (s : S) : Option (Bool × S) :=
  if (match mask with | some m => decide (m.1 ≠ n) | none => false) = true then some (false, s)
  else (foreachLoop n (mask.map (·.2)) visit fuel 0 s).map (fun s => (true, s))

/-- `Map` with a single result type, table.h 446–466: the non-null results in order. `none` is a null pointer. -/
def mapLoop {R : Type} (f : Nat → Option R) : Nat → Nat → List R → List R
  | 0, _, out => out
  | n + 1, i, out =>
    match f i with
    | none => mapLoop f n (i + 1) out
    | some r => mapLoop f n (i + 1) (out ++ [r])

/-- The inner loop of `FlatMap`, table.h 507–511. -/
def pushAll {R : Type} (out : List R) : List (Option R) → List R
  | [] => out
  | none :: ps => pushAll out ps
  | some r :: ps => pushAll (out ++ [r]) ps

/-- `FlatMap` with a single result type, table.h 495–513. -/
def flatMapLoop {R : Type} (f : Nat → List (Option R)) : Nat → Nat → List R → List R
  | 0, _, out => out
  | n + 1, i, out => flatMapLoop f n (i + 1) (pushAll out (f i))

open Verif.Types.Bits in
/-- `Filter(f)` without a thread pool, table.h 309–323: `f` decides on each row; the mask starts with zero bytes. `Set` is the function of `vector.h`; `fuel` bounds its
loop. -/
def filterMask (f : Nat → Bool) (fuel : Nat) : Nat → Nat → BV → Out
  | 0, _, v => .ret v
  | n + 1, i, v =>
    if f i = true then
      match v.set fuel i true with
      | .ret v' => filterMask f fuel n (i + 1) v'
      | o => o
    else filterMask f fuel n (i + 1) v

/-! ## Specification -/

/-- How a pass over rows ended. -/
inductive PassEnd where
  | done | exit | reset
deriving DecidableEq

/-- One pass: the rows of the list are visited in order until one asks to stop or to start again. -/
def pass {S : Type} (visit : S → Nat → S × Ret) : S → List Nat → S × PassEnd
  | s, [] => (s, .done)
  | s, i :: is =>
    match handle (visit s i).2 with
    | .next => pass visit (visit s i).1 is
    | .exit => ((visit s i).1, .exit)
    | .reset => ((visit s i).1, .reset)

/-- The rows that are to be visited, ascending. -/
def chosen (n : Nat) (mask : Option (Nat → Bool)) : List Nat :=
  match mask with
  | none => List.range n
  | some m => selected m n

/-- What a call does: passes over the chosen rows, as many as the visitor asks to start again. -/
inductive Visited {S : Type} (visit : S → Nat → S × Ret) (rows : List Nat) : S → S → Prop where
  | last (s s' : S) (e : PassEnd) (h : pass visit s rows = (s', e)) (he : e ≠ .reset) : Visited visit rows s s'
  | again (s s1 s' : S) (h : pass visit s rows = (s1, .reset)) (hr : Visited visit rows s1 s') : Visited visit rows s s'

/-! ## C65 -/

/-- The chosen rows from `i` on. -/
def chosenFrom (n : Nat) (mask : Option (Nat → Bool)) (i : Nat) : List Nat :=
  match mask with
  | none => List.range' i (n - i)
  | some m => (List.range' i (n - i)).filter m

theorem chosenFrom_zero (n : Nat) (mask : Option (Nat → Bool)) : chosenFrom n mask 0 = chosen n mask := by
  unfold chosenFrom chosen selected
  cases mask <;> simp [List.range_eq_range']

theorem chosenFrom_end (n : Nat) (mask : Option (Nat → Bool)) (i : Nat) (h : n ≤ i) : chosenFrom n mask i = [] := by
  unfold chosenFrom
  have : n - i = 0 := by omega
  cases mask <;> simp [this]

/-- Whether row `i` is to be visited. -/
def take? (mask : Option (Nat → Bool)) (i : Nat) : Bool := match mask with | some m => m i | none => true

theorem chosenFrom_step (n : Nat) (mask : Option (Nat → Bool)) (i : Nat) (h : i < n) :
    chosenFrom n mask i = if take? mask i then i :: chosenFrom n mask (i + 1) else chosenFrom n mask (i + 1) := by
  unfold chosenFrom take?
  have : n - i = (n - (i + 1)) + 1 := by omega
  cases mask with
  | none => simp [this, List.range'_succ]
  | some m => simp only [this, List.range'_succ, List.filter_cons]

theorem skip_eq (mask : Option (Nat → Bool)) (i : Nat) : (match mask with | some m => !m i | none => false) = !take? mask i := by
  unfold take?; cases mask <;> rfl

/-- If the loop ends, what it did is a sequence of passes, the first of them over the rows from `i` on. -/
theorem foreachLoop_sound {S : Type} (n : Nat) (mask : Option (Nat → Bool)) (visit : S → Nat → S × Ret) (fuel : Nat) :
    ∀ (i : Nat) (s s' : S), foreachLoop n mask visit fuel i s = some s' →
      (∃ e, pass visit s (chosenFrom n mask i) = (s', e) ∧ e ≠ .reset) ∨
      (∃ s1, pass visit s (chosenFrom n mask i) = (s1, .reset) ∧ Visited visit (chosen n mask) s1 s') := by
  induction fuel with
  | zero => intro i s s' h; cases h
  | succ fuel ih =>
    intro i s s' h
    unfold foreachLoop at h
    by_cases hn : n ≤ i
    · rw [if_pos hn] at h
      cases h
      left
      exact ⟨.done, by rw [chosenFrom_end n mask i hn]; rfl, by simp⟩
    · rw [if_neg hn, skip_eq] at h
      rw [chosenFrom_step n mask i (by omega)]
      cases ht : take? mask i with
      | false =>
        rw [ht] at h
        simp only [Bool.not_false, if_true] at h
        simp only [Bool.false_eq_true, if_false]
        exact ih (i + 1) s s' h
      | true =>
        rw [ht] at h
        simp only [Bool.not_true, Bool.false_eq_true, if_false] at h
        simp only [if_true]
        unfold pass
        cases hc : handle (visit s i).2 with
        | next =>
          rw [hc] at h
          exact ih (i + 1) _ s' h
        | exit =>
          rw [hc] at h
          simp only [Option.some.injEq] at h
          left
          exact ⟨.exit, by rw [h], by simp⟩
        | reset =>
          rw [hc] at h
          right
          refine ⟨_, rfl, ?_⟩
          rcases ih 0 _ s' h with ⟨e, h1, h2⟩ | ⟨s1, h1, h2⟩
          · rw [chosenFrom_zero] at h1
            exact .last _ _ e h1 h2
          · rw [chosenFrom_zero] at h1
            exact .again _ _ _ h1 h2

theorem foreachLoop_mono {S : Type} (n : Nat) (mask : Option (Nat → Bool)) (visit : S → Nat → S × Ret) (fuel k : Nat) :
    ∀ (i : Nat) (s s' : S), foreachLoop n mask visit fuel i s = some s' → foreachLoop n mask visit (fuel + k) i s = some s' := by
  induction fuel with
  | zero => intro i s s' h; cases h
  | succ fuel ih =>
    intro i s s' h
    rw [show fuel + 1 + k = (fuel + k) + 1 by omega]
    unfold foreachLoop at h ⊢
    by_cases hn : n ≤ i
    · rw [if_pos hn] at h ⊢; exact h
    · rw [if_neg hn, skip_eq] at h ⊢
      cases ht : take? mask i with
      | false =>
        rw [ht] at h
        simp only [Bool.not_false, if_true] at h ⊢
        exact ih _ _ _ h
      | true =>
        rw [ht] at h
        simp only [Bool.not_true, Bool.false_eq_true, if_false] at h ⊢
        cases hc : handle (visit s i).2 with
        | next => rw [hc] at h; exact ih _ _ _ h
        | exit => rw [hc] at h; exact h
        | reset => rw [hc] at h; exact ih _ _ _ h

/-- A pass can be run. -/
theorem foreachLoop_pass {S : Type} (n : Nat) (mask : Option (Nat → Bool)) (visit : S → Nat → S × Ret) (d : Nat) :
    ∀ (i : Nat), n - i = d → ∀ (s s' : S) (e : PassEnd), pass visit s (chosenFrom n mask i) = (s', e) →
      (e ≠ .reset → ∃ fuel, foreachLoop n mask visit fuel i s = some s') ∧
      (e = .reset → ∀ s2 fuel, foreachLoop n mask visit fuel 0 s' = some s2 → ∃ fuel', foreachLoop n mask visit fuel' i s = some s2) := by
  induction d with
  | zero =>
    intro i hd s s' e hp
    rw [chosenFrom_end n mask i (by omega)] at hp
    simp only [pass, Prod.mk.injEq] at hp
    refine ⟨fun _ => ⟨1, ?_⟩, fun he => ?_⟩
    · unfold foreachLoop
      rw [if_pos (by omega), hp.1]
    · rw [← hp.2] at he; cases he
  | succ d ih =>
    intro i hd s s' e hp
    have hn : ¬ n ≤ i := by omega
    rw [chosenFrom_step n mask i (by omega)] at hp
    cases ht : take? mask i with
    | false =>
      rw [ht] at hp
      simp only [Bool.false_eq_true, if_false] at hp
      obtain ⟨h1, h2⟩ := ih (i + 1) (by omega) s s' e hp
      have hstep : ∀ fuel, foreachLoop n mask visit (fuel + 1) i s = foreachLoop n mask visit fuel (i + 1) s := by
        intro fuel
        conv => lhs; unfold foreachLoop
        rw [if_neg hn, skip_eq, ht]
        simp
      refine ⟨fun he => ?_, fun he s2 fuel hf => ?_⟩
      · obtain ⟨fuel, hf⟩ := h1 he
        exact ⟨fuel + 1, by rw [hstep]; exact hf⟩
      · obtain ⟨fuel', hf'⟩ := h2 he s2 fuel hf
        exact ⟨fuel' + 1, by rw [hstep]; exact hf'⟩
    | true =>
      rw [ht] at hp
      simp only [if_true] at hp
      unfold pass at hp
      have hstep : ∀ fuel, foreachLoop n mask visit (fuel + 1) i s =
          (match handle (visit s i).2 with
            | .next => foreachLoop n mask visit fuel (i + 1) (visit s i).1
            | .exit => some (visit s i).1
            | .reset => foreachLoop n mask visit fuel 0 (visit s i).1) := by
        intro fuel
        conv => lhs; unfold foreachLoop
        rw [if_neg hn, skip_eq, ht]
        simp only [Bool.not_true, Bool.false_eq_true, if_false]
      cases hc : handle (visit s i).2 with
      | next =>
        rw [hc] at hp
        obtain ⟨h1, h2⟩ := ih (i + 1) (by omega) _ s' e hp
        refine ⟨fun he => ?_, fun he s2 fuel hf => ?_⟩
        · obtain ⟨fuel, hf⟩ := h1 he
          exact ⟨fuel + 1, by rw [hstep, hc]; exact hf⟩
        · obtain ⟨fuel', hf'⟩ := h2 he s2 fuel hf
          exact ⟨fuel' + 1, by rw [hstep, hc]; exact hf'⟩
      | exit =>
        rw [hc] at hp
        simp only [Prod.mk.injEq] at hp
        refine ⟨fun _ => ⟨1, by rw [hstep, hc]; simp [hp.1]⟩, fun he => ?_⟩
        rw [← hp.2] at he; cases he
      | reset =>
        rw [hc] at hp
        simp only [Prod.mk.injEq] at hp
        refine ⟨fun he => absurd hp.2.symm he, fun _ s2 fuel hf => ⟨fuel + 1, ?_⟩⟩
        rw [hstep, hc]
        simp only [hp.1]
        exact hf

/-- **C65.** A call returns with state `s'` exactly if `s'` is the result of visiting the chosen rows in ascending order, stopping where the visitor asks to, and starting again
from the first chosen row as often as it asks to. -/
theorem foreach_visits {S : Type} (n : Nat) (mask : Option (Nat × (Nat → Bool))) (hm : ∀ m, mask = some m → m.1 = n) (visit : S → Nat → S × Ret) (s s' : S) :
    (∃ fuel, foreach n mask visit fuel s = some (true, s')) ↔ Visited visit (chosen n (mask.map (·.2))) s s' := by
  have hf : ∀ fuel, foreach n mask visit fuel s = (foreachLoop n (mask.map (·.2)) visit fuel 0 s).map (fun s => (true, s)) := by
    intro fuel
    unfold foreach
    rw [if_neg]
    cases hk : mask with
    | none => simp
    | some m => simp [hm m hk]
  constructor
  · rintro ⟨fuel, h⟩
    rw [hf] at h
    cases hl : foreachLoop n (mask.map (·.2)) visit fuel 0 s with
    | none => rw [hl] at h; cases h
    | some s2 =>
      rw [hl] at h
      simp only [Option.map_some, Option.some.injEq, Prod.mk.injEq, true_and] at h
      subst h
      rcases foreachLoop_sound n _ visit fuel 0 s s2 hl with ⟨e, h1, h2⟩ | ⟨s1, h1, h2⟩
      · rw [chosenFrom_zero] at h1; exact .last _ _ e h1 h2
      · rw [chosenFrom_zero] at h1; exact .again _ _ _ h1 h2
  · intro h
    have : ∃ fuel, foreachLoop n (mask.map (·.2)) visit fuel 0 s = some s' := by
      clear hf
      induction h with
      | last s s' e h he =>
        rw [← chosenFrom_zero] at h
        exact (foreachLoop_pass n _ visit n 0 (by omega) s s' e h).1 he
      | again s s1 s' h _ ih =>
        obtain ⟨fuel, hf⟩ := ih
        rw [← chosenFrom_zero] at h
        exact (foreachLoop_pass n _ visit n 0 (by omega) s s1 .reset h).2 rfl s' fuel hf
    obtain ⟨fuel, h⟩ := this
    exact ⟨fuel, by rw [hf, h]; rfl⟩

/-- **C65.** A visitor that never asks to start again is called once for each chosen row, ascending, up to and including the first for which it asks to stop; here the visitor is seen
through the list of its calls. -/
theorem foreach_order (n : Nat) (mask : Option (Nat → Bool)) (f : Nat → Ret) (hf : ∀ i, handle (f i) ≠ .reset) :
    ∃ k, pass (fun (s : List Nat) i => (s ++ [i], f i)) [] (chosen n mask) =
        ((chosen n mask).take k, if k = (chosen n mask).length ∧ (∀ i ∈ chosen n mask, handle (f i) = .next) then .done else .exit) ∧
      (∀ j i, j + 1 < k → (chosen n mask)[j]? = some i → handle (f i) = .next) ∧
      (k < (chosen n mask).length → ∃ j i, j + 1 = k ∧ (chosen n mask)[j]? = some i ∧ handle (f i) = .exit) := by
  have key : ∀ (l pre : List Nat), ∃ k, k ≤ l.length ∧ pass (fun (s : List Nat) i => (s ++ [i], f i)) pre l =
        (pre ++ l.take k, if k = l.length ∧ (∀ i ∈ l, handle (f i) = .next) then .done else .exit) ∧
      (∀ j i, j + 1 < k → l[j]? = some i → handle (f i) = .next) ∧
      (k < l.length → ∃ j i, j + 1 = k ∧ l[j]? = some i ∧ handle (f i) = .exit) := by
    intro l
    induction l with
    | nil => intro pre; exact ⟨0, by simp, by simp [pass], by simp, by simp⟩
    | cons a l ih =>
      intro pre
      unfold pass
      cases hc : handle (f a) with
      | next =>
        simp only [hc]
        obtain ⟨k, h0, h1, h2, h3⟩ := ih (pre ++ [a])
        refine ⟨k + 1, by simp; omega, ?_, ?_, ?_⟩
        · rw [h1]
          simp only [List.append_assoc, List.singleton_append, List.take_succ_cons, List.length_cons, Nat.add_right_cancel_iff, List.forall_mem_cons, hc, true_and]
        · intro j i hj hi
          cases j with
          | zero => simp only [List.getElem?_cons_zero, Option.some.injEq] at hi; rw [← hi]; exact hc
          | succ j => simp only [List.getElem?_cons_succ] at hi; exact h2 j i (by omega) hi
        · intro hk
          obtain ⟨j, i, g1, g2, g3⟩ := h3 (by simpa using hk)
          exact ⟨j + 1, i, by omega, by simpa using g2, g3⟩
      | exit =>
        simp only [hc]
        refine ⟨1, by simp, ?_, by intro j i hj; omega, fun _ => ⟨0, a, rfl, rfl, hc⟩⟩
        rw [if_neg]
        · simp
        · rintro ⟨_, h2⟩
          have := h2 a (by simp)
          rw [hc] at this
          cases this
      | reset => exact absurd hc (hf a)
  obtain ⟨k, _, h1, h2, h3⟩ := key (chosen n mask) []
  exact ⟨k, by simpa using h1, h2, h3⟩

/-- A mask of another size is refused and nothing is visited. -/
theorem foreach_mask_size {S : Type} (n : Nat) (m : Nat × (Nat → Bool)) (h : m.1 ≠ n) (visit : S → Nat → S × Ret) (fuel : Nat) (s : S) :
    foreach n (some m) visit fuel s = some (false, s) := by
  unfold foreach
  rw [if_pos (by simpa using h)]

/-- A visitor returning an integer stops the iteration with any value but zero; in particular a `bool` visitor goes on with `false` and stops with `true`. -/
theorem handle_int (v : Int) : handle (.int v) = .next ↔ v = 0 := by
  show (if v = 0 then Code.next else Code.exit) = .next ↔ v = 0
  by_cases h : v = 0 <;> simp [h]

/-! ## C77 -/

/-- **C77.** `Map` yields the non-null results, in row order. -/
theorem map_rows {R : Type} (f : Nat → Option R) (n : Nat) : mapLoop f n 0 [] = (List.range n).filterMap f := by
  have key : ∀ (n i : Nat) (out : List R), mapLoop f n i out = out ++ (List.range' i n).filterMap f := by
    intro n
    induction n with
    | zero => intro i out; simp [mapLoop]
    | succ n ih =>
      intro i out
      unfold mapLoop
      rw [List.range'_succ, List.filterMap_cons]
      cases hf : f i with
      | none => simp only; exact ih _ _
      | some r => simp only; rw [ih]; simp
  rw [key, List.range_eq_range']; rfl

theorem pushAll_eq {R : Type} (ps : List (Option R)) (out : List R) : pushAll out ps = out ++ ps.filterMap id := by
  induction ps generalizing out with
  | nil => simp [pushAll]
  | cons p ps ih => cases p <;> simp [pushAll, ih]

/-- **C77.** `FlatMap` yields the non-null results of all rows, in row order and within a row in the order returned. -/
theorem flat_map_rows {R : Type} (f : Nat → List (Option R)) (n : Nat) : flatMapLoop f n 0 [] = (List.range n).flatMap (fun i => (f i).filterMap id) := by
  have key : ∀ (n i : Nat) (out : List R), flatMapLoop f n i out = out ++ (List.range' i n).flatMap (fun i => (f i).filterMap id) := by
    intro n
    induction n with
    | zero => intro i out; simp [flatMapLoop]
    | succ n ih =>
      intro i out
      unfold flatMapLoop
      rw [ih, pushAll_eq, List.range'_succ, List.flatMap_cons, List.append_assoc]
  rw [key, List.range_eq_range']; rfl

/-! ## C78 -/

open Verif.Types.Bits

theorem filterMask_ok (f : Nat → Bool) (fuel : Nat) (hfuel : 2 ≤ fuel) (n : Nat) :
    ∀ (i : Nat) (v : BV), v.Valid → v.writable = true → i + n = v.size → (∀ j, j < i → v.get j = some (f j)) → (∀ j, i ≤ j → j < v.size → v.get j = some false) →
      ∃ v', filterMask f fuel n i v = .ret v' ∧ v'.size = v.size ∧ ∀ j, j < v.size → v'.get j = some (f j) := by
  induction n with
  | zero =>
    intro i v _ _ hs h1 _
    exact ⟨v, rfl, rfl, fun j hj => h1 j (by omega)⟩
  | succ n ih =>
    intro i v hv hw hs h1 h2
    unfold filterMask
    cases hf : f i with
    | false =>
      simp only [Bool.false_eq_true, if_false]
      refine ih (i + 1) v hv hw (by omega) ?_ (fun j hj hjs => h2 j (by omega) hjs)
      intro j hj
      by_cases hji : j = i
      · subst hji; rw [hf]; exact h2 j (Nat.le_refl _) (by omega)
      · exact h1 j (by omega)
    | true =>
      simp only [if_true]
      have hlen : i / 8 < v.bytes.length := by unfold BV.Valid at hv; omega
      have hset : ∃ b', v.set fuel i true = .ret { v with bytes := v.bytes.set (i / 8) b' } := by
        unfold BV.set
        rw [if_neg (by omega)]
        simp only [hw, Bool.true_eq_false, if_false, List.getElem?_eq_getElem hlen]
        have h8 : i % 8 < 8 := Nat.mod_lt _ (by omega)
        obtain ⟨fuel, rfl⟩ : ∃ k, fuel = k + 2 := ⟨fuel - 2, by omega⟩
        have hne := newByte_true_ne v.bytes[i / 8] (i % 8) h8
        by_cases hb : v.bytes[i / 8] = 0
        · refine ⟨newByte (newByte v.bytes[i / 8] (i % 8) true) (i % 8) true, ?_⟩
          simp only [setLoop, casVal, if_true]
          rw [if_neg (by simpa using hb), if_pos (by simpa using hne)]
        · refine ⟨newByte v.bytes[i / 8] (i % 8) true, ?_⟩
          simp only [setLoop, casVal, if_true]
          rw [if_pos (by simpa using hb)]
      obtain ⟨b', hb'⟩ := hset
      obtain ⟨p1, p2, p3⟩ := bit_vector_set_partial v _ fuel i true hb'
      rw [hb']
      simp only
      obtain ⟨v', e1, e2, e3⟩ := ih (i + 1) { v with bytes := v.bytes.set (i / 8) b' } (by unfold BV.Valid at hv ⊢; simpa using hv) hw (by simpa using (show i + 1 + n = v.size by omega))
        (fun j hj => by
          by_cases hji : j = i
          · subst hji; rw [hf]; exact p1
          · rw [p2 j hji]; exact h1 j (by omega))
        (fun j hj hjs => by rw [p2 j (by omega)]; exact h2 j (by omega) hjs)
      exact ⟨v', e1, e2, e3⟩

/-- What remains true of C78: without a thread pool, element `i` of the mask tells whether the predicate holds of row `i`. -/
theorem filter_mask_partial (f : Nat → Bool) (n : Nat) (bytes : List Byte) (hz : ∀ b ∈ bytes, b = 0) (hb : n ≤ 8 * bytes.length) :
    ∃ v, filterMask f 2 n 0 ⟨n, bytes, true⟩ = .ret v ∧ v.size = n ∧ ∀ i, i < n → v.get i = some (f i) := by
  apply filterMask_ok f 2 (by omega) n 0 ⟨n, bytes, true⟩ hb rfl (by simp) (by omega)
  intro j _ hj
  have hl : j / 8 < bytes.length := by simp at hj; omega
  unfold BV.get
  simp only [List.getElem?_eq_getElem hl, hz _ (List.getElem_mem hl), Option.map_some]
  simp

/-- C78 is false of the code with a thread pool: three workers visit rows 0, 1 and 2, of which the predicate holds, on a mask of zero bytes; all calls of `Set` return, and row 2 is
missing from the mask. -/
theorem filter_mask_pool_violated :
    ∃ s : CState (Fin 3), Steps (fun t => ⟨t.val, true⟩) (.init (fun _ => 0#8)) s ∧ (∀ t, s.pc t = .done) ∧ elem s.mem 2 = false := by
  let calls : Fin 3 → Call := fun t => ⟨t.val, true⟩
  let s0 : CState (Fin 3) := .init (fun _ => 0#8)
  refine ⟨_, (((((((((((((Steps.refl s0 : Steps calls s0 s0).tail (.load1 s0 0 rfl)).tail (.load2 _ 0 0#8 rfl)).tail (.swap _ 0 0#8 1#8 (by decide))).tail
    (.load1 _ 0 (by decide))).tail (.load2 _ 0 1#8 (by decide))).tail (.swap _ 0 1#8 1#8 (by decide))).tail
    (.load1 _ 1 (by decide))).tail (.load2 _ 1 1#8 (by decide))).tail (.load1 _ 2 (by decide))).tail (.load2 _ 2 1#8 (by decide))).tail
    (.swap _ 1 1#8 3#8 (by decide))).tail (.swap _ 2 1#8 5#8 (by decide))), ?_, ?_⟩
  · decide
  · decide

example : foreach 4 (some (4, fun i => i ≠ 1)) (fun (s : List Nat) i => (s ++ [i], .int (if i = 2 then 1 else 0))) 10 [] = some (true, [0, 2]) := by decide
example : mapLoop (fun i => if i % 2 = 0 then some (i * 10) else none) 5 0 [] = [0, 20, 40] := by decide

end Verif.Tbl
