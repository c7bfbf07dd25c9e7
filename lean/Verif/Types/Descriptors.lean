import Verif.Types.GetDType
import Verif.Types.TypeIds
/-!
# Descriptors of types whose classes were numbered at run time (C72 with C181)

`/repo/rapidudf/meta/dtype.h` 247–538. `Types/GetDType` takes the numbers of classes as part of the types; here they are those that the calls of
`get_dtype` have drawn (`Types/TypeIds`), on any number of threads and in any order.
-/
namespace Verif.Types.Descriptors

open Verif.Types.DT
open Verif.Types.TypeIds (Program Move run init Types inv_run inv_init nodup_length)

/-! Types in the program: `prim id` with `id` below 64 (`DATA_OBJECT_BEGIN`, `dtype_enums.h` 69) is a built-in type, `prim (64 + a)` is class `a`. -/

/-- The type as `get_dtype` sees it: the number of every class in place of the class (`dtype.h` 534–535). -/
def numbered (number : Nat → Nat) : CType → CType
  | .prim id => .prim (if id < 64 then id else number (id - 64))
  | .ptr t => .ptr (numbered number t)
  | .coll c t => .coll c (numbered number t)
  | .arr t n => .arr (numbered number t) n
  | .two c k v => .two c (numbered number k) (numbered number v)
  | .tup1 t => .tup1 (numbered number t)

/-- `get_dtype` of a type in a program where classes have these numbers. -/
def descriptor (number : Nat → Nat) (t : CType) : DType := DT.getDType (numbered number t)

/-- The classes in a type. -/
def classes : CType → List Nat
  | .prim id => if id < 64 then [] else [id - 64]
  | .ptr t => classes t
  | .coll _ t => classes t
  | .arr t _ => classes t
  | .two _ k v => classes k ++ classes v
  | .tup1 t => classes t

/-! ## Lemmas -/

/-- Numbers that are distinct and in range. -/
structure Good (number : Nat → Nat) (cs : List Nat) : Prop where
  range : ∀ a ∈ cs, 64 ≤ number a ∧ number a < DATA_COMPLEX_OBJECT
  inj : ∀ a ∈ cs, ∀ b ∈ cs, number a = number b → a = b

theorem numbered_wf (number : Nat → Nat) (cs : List Nat) (hg : Good number cs) :
    ∀ t, WF t → (∀ a ∈ classes t, a ∈ cs) → WF (numbered number t) := by
  intro t
  induction t with
  | prim id =>
    intro h hc
    simp only [numbered, classes] at *
    by_cases e : id < 64
    · rw [if_pos e]; exact h
    · rw [if_neg e] at hc ⊢
      have := hg.range _ (hc _ List.mem_cons_self)
      exact ⟨by omega, this.2⟩
  | ptr t ih => intro h hc; exact ih h hc
  | coll c t ih => intro h hc; exact ⟨h.1, ih h.2 hc⟩
  | arr t n ih =>
    intro h hc
    obtain ⟨id, rfl⟩ := h.1
    exact ⟨⟨_, rfl⟩, ih h.2.1 hc, h.2.2⟩
  | two c k v ihk ihv =>
    intro h hc
    exact ⟨h.1, ihk h.2.1 (fun a ha => hc a (List.mem_append_left _ ha)), ihv h.2.2 (fun a ha => hc a (List.mem_append_right _ ha))⟩
  | tup1 t ih => intro h hc; exact ih h hc

theorem numbered_inj (number : Nat → Nat) (cs : List Nat) (hg : Good number cs) :
    ∀ s t, (∀ a ∈ classes s, a ∈ cs) → (∀ a ∈ classes t, a ∈ cs) → numbered number s = numbered number t → s = t := by
  intro s
  induction s with
  | prim id =>
    intro t hs ht h
    cases t with
    | prim id' =>
      simp only [numbered, CType.prim.injEq] at h
      simp only [classes] at hs ht
      congr 1
      by_cases e : id < 64
      · by_cases e' : id' < 64
        · rwa [if_pos e, if_pos e'] at h
        · rw [if_neg e'] at ht
          rw [if_pos e, if_neg e'] at h
          have := hg.range _ (ht _ List.mem_cons_self)
          omega
      · by_cases e' : id' < 64
        · rw [if_neg e] at hs
          rw [if_neg e, if_pos e'] at h
          have := hg.range _ (hs _ List.mem_cons_self)
          omega
        · rw [if_neg e] at hs
          rw [if_neg e'] at ht
          rw [if_neg e, if_neg e'] at h
          have := hg.inj _ (hs _ List.mem_cons_self) _ (ht _ List.mem_cons_self) h
          omega
    | _ => simp [numbered] at h
  | ptr s ih =>
    intro t hs ht h
    cases t with
    | ptr t =>
      simp only [numbered, CType.ptr.injEq] at h
      rw [ih t hs ht h]
    | _ => simp [numbered] at h
  | coll c s ih =>
    intro t hs ht h
    cases t with
    | coll c' t =>
      simp only [numbered, CType.coll.injEq] at h
      rw [h.1, ih t hs ht h.2]
    | _ => simp [numbered] at h
  | arr s n ih =>
    intro t hs ht h
    cases t with
    | arr t n' =>
      simp only [numbered, CType.arr.injEq] at h
      rw [h.2, ih t hs ht h.1]
    | _ => simp [numbered] at h
  | two c k v ihk ihv =>
    intro t hs ht h
    cases t with
    | two c' k' v' =>
      simp only [numbered, CType.two.injEq] at h
      simp only [classes, List.mem_append] at hs ht
      rw [h.1, ihk k' (fun a ha => hs a (.inl ha)) (fun a ha => ht a (.inl ha)) h.2.1,
        ihv v' (fun a ha => hs a (.inr ha)) (fun a ha => ht a (.inr ha)) h.2.2]
    | _ => simp [numbered] at h
  | tup1 s ih =>
    intro t hs ht h
    cases t with
    | tup1 t =>
      simp only [numbered, CType.tup1.injEq] at h
      rw [ih t hs ht h]
    | _ => simp [numbered] at h

/-- The numbers are `start`, `start + 1`, …: below `start + n` with `n` classes. -/
theorem number_range (P : Program) (hu : ∀ t a, P.unit t a = 0) (n : Nat) (ms : List Move) (ht : Types n ms) (a : Nat) (x : BitVec 32)
    (hx : (a, x) ∈ (run P (init P) ms).returned) : ∃ i, i < n ∧ x = P.start + BitVec.ofNat 32 i := by
  obtain ⟨g, hi⟩ := inv_run hu ms (init P) [] (inv_init P n) ht
  obtain ⟨i, i1, i2⟩ := hi.set a x (hi.returned a x hx)
  have hl := nodup_length g hi.nodup hi.below
  exact ⟨i, Nat.lt_of_lt_of_le (List.getElem?_eq_some_iff.1 i1).1 hl, i2⟩

/-! ## C72 and C181 together -/

/-- **C72, C181 (partial).** In a program of at most 16319 classes whose numbers come from one translation unit, after calls of `get_dtype` on any number of
threads in any schedule: different types made of the classes asked for have different descriptors. Missing: several
translation units (`descriptors_violated`). -/
theorem descriptors_partial (unit : Nat → Nat → Nat) (hu : ∀ t a, unit t a = 0) (n : Nat) (hn : n ≤ 16319) (ms : List Move) (hms : Types n ms)
    (number : Nat → Nat) (hnum : ∀ a x, (a, x) ∈ (run (TypeIds.getDType unit) (init (TypeIds.getDType unit)) ms).returned → number a = x.toNat)
    (s t : CType) (hs : WF s) (ht : WF t)
    (has : ∀ a ∈ classes s, ∃ x, (a, x) ∈ (run (TypeIds.getDType unit) (init (TypeIds.getDType unit)) ms).returned)
    (hat : ∀ a ∈ classes t, ∃ x, (a, x) ∈ (run (TypeIds.getDType unit) (init (TypeIds.getDType unit)) ms).returned) :
    descriptor number s = descriptor number t ↔ s = t := by
  have hall : ∀ a ∈ classes s ++ classes t, ∃ x, (a, x) ∈ (run (TypeIds.getDType unit) (init (TypeIds.getDType unit)) ms).returned :=
    fun a ha => (List.mem_append.1 ha).elim (has a) (hat a)
  have hg : Good number (classes s ++ classes t) := by
    constructor
    · intro a ha
      obtain ⟨x, hx⟩ := hall a ha
      obtain ⟨i, hi, e⟩ := number_range (TypeIds.getDType unit) hu n ms hms a x hx
      rw [hnum a x hx, e]
      have h64 : ((TypeIds.getDType unit).start).toNat = 64 := rfl
      rw [BitVec.toNat_add, BitVec.toNat_ofNat, h64]
      simp only [DATA_COMPLEX_OBJECT]
      omega
    · intro a ha b hb e
      obtain ⟨x, hx⟩ := hall a ha
      obtain ⟨y, hy⟩ := hall b hb
      rw [hnum a x hx, hnum b y hy] at e
      exact (TypeIds.numbers_of_types_partial (TypeIds.getDType unit) hu n (by omega) ms hms a b x y hx hy).1 (BitVec.eq_of_toNat_eq e)
  constructor
  · intro h
    have h1 := numbered_wf number _ hg s hs (fun a ha => List.mem_append_left _ ha)
    have h2 := numbered_wf number _ hg t ht (fun a ha => List.mem_append_right _ ha)
    exact numbered_inj number _ hg s t (fun a ha => List.mem_append_left _ ha) (fun a ha => List.mem_append_right _ ha)
      (get_dtype_injective _ _ h1 h2 h)
  · intro h; rw [h]

/-- **It fails with two translation units.** Classes `a` and `b` of different units, asked for one after the other: the descriptors of the classes, and so of the pointers
to them, are the same. -/
theorem descriptors_violated (unit : Nat → Nat → Nat) (t a b : Nat) (hne : a ≠ b) (hu : unit t a ≠ unit t b) (number : Nat → Nat)
    (hnum : ∀ c x, (c, x) ∈ (run (TypeIds.getDType unit) (init (TypeIds.getDType unit)) (TypeIds.oneAfterOther t a b)).returned → number c = x.toNat) :
    descriptor number (.prim (64 + a)) = descriptor number (.prim (64 + b)) ∧
      descriptor number (.ptr (.prim (64 + a))) = descriptor number (.ptr (.prim (64 + b))) := by
  rw [TypeIds.two_units_violated unit t a b hne hu] at hnum
  have h1 := hnum a 64#32 (by simp)
  have h2 := hnum b 64#32 (by simp)
  have e : numbered number (.prim (64 + a)) = numbered number (.prim (64 + b)) := by
    simp only [numbered, CType.prim.injEq]
    rw [if_neg (by omega), if_neg (by omega), Nat.add_sub_cancel_left, Nat.add_sub_cancel_left, h1, h2]
  refine ⟨by simp only [descriptor, e], ?_⟩
  have ep : ∀ u, numbered number (.ptr u) = .ptr (numbered number u) := fun _ => rfl
  simp only [descriptor, ep, e]

/-! ## Cases -/

/-- Two classes drawn by two threads. -/
def trace : List Move := [.call 0 1, .call 1 0, .go 0, .go 1, .go 1, .go 0, .go 1, .go 0]

example : (run (TypeIds.getDType fun _ _ => 0) (init (TypeIds.getDType fun _ _ => 0)) trace).returned = [(0, 64#32), (1, 65#32)] := by decide
example : Types 2 trace := by
  intro t a h
  simp [trace] at h
  omega
example : WF (.two COLLECTION_MAP (.prim 65) (.coll COLLECTION_VECTOR (.ptr (.prim 64)))) := by simp [WF, COLLECTION_MAP, COLLECTION_VECTOR, DATA_COMPLEX_OBJECT]
example : classes (.two COLLECTION_MAP (.prim 65) (.coll COLLECTION_VECTOR (.ptr (.prim 64)))) = [1, 0] := by decide

end Verif.Types.Descriptors
