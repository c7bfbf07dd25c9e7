import Verif.Common.ListLemmas
/-!
# Destroying objects made in an arena (C179)

`/repo/rapidudf/memory/arena.h` 39–48 (`ArenaObjDeleter`), 125–140 (`ThreadCachedArena::New`), 152–160 (`ThreadCachedArena::destroy`),
`/repo/rapidudf/memory/allocator.h` 80–100 (`deallocate`, `destroy` of the allocator), `/repo/rapidudf/memory/arena_container.h` 33–68 (the
containers), 73–119 (`is_trivially_destructible` of the containers), `/repo/rapidudf/memory/arena_string.h` 80–85,
`/repo/rapidudf/meta/type_traits.h` 112–123 (`is_destructor_disabled`).

What an object owns outside the arena (memory of the heap, files, locks) is a list of numbers; a destructor releases some of them. Not
modelled: the arena (C07, C111), construction, reset of the arena while objects are alive (C175), containers that an element is erased from.
-/
namespace Verif.Memory.Destroy

/-- Types of objects. -/
inductive Ty where
  /-- numbers, pointers, string views: no destructor -/
  | plain
  /-- a class whose destructor releases what it owns (`std::string`, `std::unique_ptr`) -/
  | owner
  /-- a class with a destructor and a member `destructor_disabled` of the given value. (A class with such a member and no destructor matches two
  specialisations of `is_destructor_disabled` and does not compile.) -/
  | declared (disabled : Bool)
  /-- `arena::String` -/
  | str
  /-- vector, list, forward list, deque, set: with the allocator of the standard library (`heap`), or of an arena -/
  | seq (heap : Bool) (elem : Ty)
  /-- map -/
  | map (heap : Bool) (key val : Ty)
deriving DecidableEq, Repr

/-- The memory a container has from its allocator: outside the arena, or not. -/
abbrev Buf : Bool → Type
  | true => List Nat
  | false => Unit

/-- Objects of a type, as far as destruction is concerned: what they own outside the arena. -/
@[reducible] def Obj : Ty → Type
  | .plain => Unit
  | .owner => Nat
  | .declared _ => List Nat
  | .str => Unit
  | .seq h e => List (Obj e) × Buf h
  | .map h k v => List (Obj k × Obj v) × Buf h

/-- How the standard library answers `is_trivially_destructible_v<T>`: through the class template `is_trivially_destructible<T>`, which the code
specialises for containers (libstdc++ up to 13), or by asking the compiler (later versions). -/
inductive Lib where
  | trait
  | builtin
deriving DecidableEq, Repr

/-- Whether the compiler finds the destructor trivial. -/
def trivialC : Ty → Bool
  | .plain => true
  | _ => false

/-- `is_destructor_disabled_v` (`type_traits.h` 112–123). The specialisations of `is_trivially_destructible` (`arena_container.h` 74–119,
`arena_string.h` 81–84) are for `arena::Vector<T, A>` and so on, which are other names for `std::vector<T, A>`, with `A` any allocator: they are not
restricted to the allocator of the arena. -/
def disabled (lib : Lib) : Ty → Bool
  | .declared b => b
  | .plain => true
  | .owner => false
  | .str => match lib with | .trait => true | .builtin => trivialC .str
  | .seq h e => match lib with | .trait => disabled lib e | .builtin => trivialC (.seq h e)
  | .map h k v => match lib with | .trait => disabled lib k && disabled lib v | .builtin => trivialC (.map h k v)

/-- What is released when a container gives its memory back: `deallocate` of the arena does nothing (`arena.h` 147–149), that of the standard
allocator frees. -/
def freeBuf : (h : Bool) → Buf h → List Nat
  | true, b => b
  | false, _ => []

/-- The destructor of a type: what it releases. The elements of a container are destroyed through its allocator: that of the arena asks
`is_destructor_disabled_v` of the element (`allocator.h` 95–100, `arena.h` 152–159), that of the standard library runs the destructor. The element of
a map is a `std::pair`, whose destructor runs those of the key and of the value. (It is not run if it is trivial; then it would do nothing.) -/
def dtor (lib : Lib) : (t : Ty) → Obj t → List Nat
  | .plain, _ => []
  | .owner, r => [r]
  | .declared _, rs => rs
  | .str, _ => []
  | .seq true e, (xs, b) => xs.flatMap (fun x => dtor lib e x) ++ freeBuf true b
  | .seq false e, (xs, b) => xs.flatMap (fun x => if disabled lib e then [] else dtor lib e x) ++ freeBuf false b
  | .map h k v, (xs, b) => xs.flatMap (fun x => dtor lib k x.1 ++ dtor lib v x.2) ++ freeBuf h b

/-- `ArenaObjDeleter` (`arena.h` 39–48): what is released when the pointer that `New` gave goes out of scope. -/
def release (lib : Lib) (t : Ty) (x : Obj t) : List Nat := if disabled lib t then [] else dtor lib t x

/-! ## Specification -/

/-- All that an object owns outside the arena, except what belongs to objects of classes that declare their destructor disabled. -/
def owned : (t : Ty) → Obj t → List Nat
  | .plain, _ => []
  | .owner, r => [r]
  | .declared d, rs => if d then [] else rs
  | .str, _ => []
  | .seq h e, (xs, b) => xs.flatMap (fun x => owned e x) ++ (match h, b with | true, b => b | false, _ => [])
  | .map h k v, (xs, b) => xs.flatMap (fun x => owned k x.1 ++ owned v x.2) ++ (match h, b with | true, b => b | false, _ => [])

/-- The type has elements (at any depth) that need their destructor. -/
def needsDestructor : Ty → Bool
  | .plain | .str => false
  | .owner => true
  | .declared d => !d
  | .seq _ e => needsDestructor e
  | .map _ k v => needsDestructor k || needsDestructor v

/-- Containers of the standard library only where their elements need destructors (or with a library that asks the compiler), and classes with
a disabled destructor neither in such a container nor as keys or values of a map. -/
def Plain (lib : Lib) : Ty → Prop
  | .plain | .owner | .declared _ | .str => True
  | .seq h e => Plain lib e ∧ (h = true → e ≠ .declared true ∧ (lib = .builtin ∨ needsDestructor e = true))
  | .map h k v => Plain lib k ∧ Plain lib v ∧ k ≠ .declared true ∧ v ≠ .declared true ∧
      (h = true → lib = .builtin ∨ (needsDestructor k || needsDestructor v) = true)

/-! ## Lemmas -/

theorem disabled_trait : ∀ t, disabled .trait t = !needsDestructor t
  | .plain => rfl
  | .owner => rfl
  | .declared d => by cases d <;> rfl
  | .str => rfl
  | .seq _ e => by simp only [disabled, needsDestructor]; exact disabled_trait e
  | .map _ k v => by simp only [disabled, needsDestructor]; rw [disabled_trait k, disabled_trait v, Bool.not_or]

/-- A skipped destructor would have released nothing. -/
theorem owned_of_disabled (lib : Lib) : ∀ (t : Ty) (x : Obj t), Plain lib t → disabled lib t = true → owned t x = []
  | .plain, _, _, _ => rfl
  | .owner, _, _, h => by cases h
  | .declared d, _, _, h => by
    have h' : d = true := h
    simp [owned, h']
  | .str, _, _, _ => rfl
  | .seq hp e, (xs, b), hc, h => by
    obtain ⟨c1, c2⟩ := hc
    cases lib with
    | builtin => cases h
    | trait =>
      have he : disabled .trait e = true := h
      have e1 : xs.flatMap (fun x => owned e x) = [] := by
        rw [List.flatMap_eq_nil_iff]
        exact fun x _ => owned_of_disabled .trait e x c1 he
      cases hp with
      | false => simp only [owned]; rw [e1]; rfl
      | true =>
        rcases (c2 rfl).2 with h3 | h3
        · cases h3
        · rw [disabled_trait, h3] at he; cases he
  | .map hp k v, (xs, b), hc, h => by
    obtain ⟨c1, c2, _, _, c3⟩ := hc
    cases lib with
    | builtin => cases h
    | trait =>
      have he : (disabled .trait k && disabled .trait v) = true := h
      have hk : disabled .trait k = true := (Bool.and_eq_true _ _ ▸ he : _ ∧ _).1
      have hv : disabled .trait v = true := (Bool.and_eq_true _ _ ▸ he : _ ∧ _).2
      have e1 : xs.flatMap (fun x => owned k x.1 ++ owned v x.2) = [] := by
        rw [List.flatMap_eq_nil_iff]
        intro x _
        rw [owned_of_disabled .trait k x.1 c1 hk, owned_of_disabled .trait v x.2 c2 hv]
        rfl
      cases hp with
      | false => simp only [owned]; rw [e1]; rfl
      | true =>
        rcases c3 rfl with h3 | h3
        · cases h3
        · rw [disabled_trait] at hk hv
          simp only [Bool.not_eq_true'] at hk hv
          rw [hk, hv] at h3
          cases h3

theorem flatMap_congr' {α β : Type} {f g : α → List β} : ∀ (xs : List α), (∀ x ∈ xs, f x = g x) → xs.flatMap f = xs.flatMap g
  | [], _ => rfl
  | x :: xs, h => by
    rw [List.flatMap_cons, List.flatMap_cons, h x List.mem_cons_self, flatMap_congr' xs (fun y hy => h y (List.mem_cons_of_mem _ hy))]

/-- A destructor that is run releases what is owned. -/
theorem dtor_owned (lib : Lib) : ∀ (t : Ty) (x : Obj t), Plain lib t → t ≠ .declared true → dtor lib t x = owned t x
  | .plain, _, _, _ => rfl
  | .owner, _, _, _ => rfl
  | .declared d, _, _, h => by
    cases d with
    | true => exact absurd rfl h
    | false => rfl
  | .str, _, _, _ => rfl
  | .seq true e, (xs, b), hc, _ => by
    simp only [dtor, owned, freeBuf]
    rw [flatMap_congr' xs (fun x _ => dtor_owned lib e x hc.1 (hc.2 rfl).1)]
  | .seq false e, (xs, b), hc, _ => by
    simp only [dtor, owned, freeBuf]
    rw [flatMap_congr' xs (fun x _ => ?_)]
    cases hd : disabled lib e with
    | true => rw [owned_of_disabled lib e x hc.1 hd]; rfl
    | false =>
      rw [if_neg (by simp)]
      exact dtor_owned lib e x hc.1 (fun h => by rw [h] at hd; cases hd)
  | .map h k v, (xs, b), hc, _ => by
    obtain ⟨c1, c2, c3, c4, _⟩ := hc
    simp only [dtor, owned]
    rw [flatMap_congr' xs (fun x _ => by rw [dtor_owned lib k x.1 c1 c3, dtor_owned lib v x.2 c2 c4])]
    cases h <;> rfl

/-! ## Property C179 -/

/-- **C179 (partial).** For both kinds of library, every type and every object of it made in an arena: destroying the object releases exactly
what it and its elements, at any depth, own outside the arena, each once, and nothing of what belongs to classes whose destructor is disabled.
Missing: containers with the standard allocator whose elements need no destructor (`std_vector_violated`) and classes with disabled
destructors in maps (`disabled_in_map_violated`) or in containers with the standard allocator. -/
theorem released_once_partial (lib : Lib) (t : Ty) (x : Obj t) (h : Plain lib t) : release lib t x = owned t x := by
  unfold release
  cases hd : disabled lib t with
  | true => rw [owned_of_disabled lib t x h hd]; rfl
  | false =>
    rw [if_neg (by simp)]
    exact dtor_owned lib t x h (fun e => by rw [e] at hd; cases hd)

/-- **C179 fails of containers with the standard allocator.** A `std::vector` (or list, set …) of elements that need no destructor, made in an
arena or the element of a container in an arena at any depth: none of its memory is freed. -/
theorem std_vector_violated (e : Ty) (he : needsDestructor e = false) (xs : List (Obj e)) (b : List Nat) :
    release .trait (.seq true e) (xs, b) = [] ∧ ∀ ys : List (Obj (.seq true e)), release .trait (.seq false (.seq true e)) (ys, ()) = [] := by
  have h : disabled .trait e = true := by rw [disabled_trait, he]; rfl
  refine ⟨?_, fun ys => ?_⟩
  · unfold release
    rw [if_pos (by exact h)]
  · unfold release
    rw [if_pos (by exact h)]

/-- **C179 fails of disabled destructors in maps.** In a map whose keys need their destructor, the disabled destructors of the values are run. -/
theorem disabled_in_map_violated (lib : Lib) (k r : Nat) :
    release lib (.map false .owner (.declared true)) ([(k, [r])], ()) = [k, r] := by
  cases lib <;> rfl

/-! ## Cases -/

/-- A vector of maps from numbers to lists of strings, and of sets of `std::vector<std::string>`. -/
example : Plain .trait (.seq false (.map false .plain (.seq false .owner))) := by simp [Plain]
example : Plain .trait (.seq false (.seq true .owner)) := by simp [Plain, needsDestructor]
example : release .trait (.seq false (.map false .plain (.seq false .owner))) ([([((), ([1, 2], ())), ((), ([3], ()))], ())], ()) = [1, 2, 3] := rfl
example : release .trait (.seq false (.seq true .owner)) ([([4, 5], [6])], ()) = [4, 5, 6] := rfl
example : owned (.seq true .plain) ([(), ()], [7]) = [7] := rfl
example : release .builtin (.seq true .plain) ([(), ()], [7]) = [7] := rfl
example : release .trait (.seq false (.declared true)) ([[8]], ()) = [] := rfl

end Verif.Memory.Destroy
