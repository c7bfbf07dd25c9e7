import Verif.Gen.FloatOps
/-!
# Access to JSON objects

`json_member_get`, `json_array_get`, `json_extract` (`/repo/rapidudf/functions/json.cc` 33–34, 90–99, registered at 168–172) on top of the `const` member
functions of `nlohmann::json`, whose contract is taken from its documentation: `operator[]` with a key on an object without it, or with an index beyond the end of an
array, is undefined; on a value of another kind it throws; `get<T>` of a value of another kind throws, numbers are converted with `static_cast`.

Simplified: strings are opaque; an object is a list of members of which the first with a name counts (`nlohmann::json` has each name once).
-/
namespace Verif.Func.Json

open Verif.Gen.Flt

/-- A JSON value (`nlohmann::json::value_t`): integers are kept as `int64_t` or `uint64_t`, other numbers as `double`. -/
inductive Json where
  | null
  | bool (b : Bool)
  | int (z : Int)
  | nat (n : Nat)
  | flt (x : Fl f64)
  | str (s : String)
  | arr (l : List Json)
  | obj (m : List (String × Json))

/-- What a call does. Exceptions leave through the generated code. -/
inductive Out (β : Type) where
  | ok (v : β)
  | throws
  | undefined
  deriving DecidableEq

/-- One step of an access chain: `["name"]`, `.name` or `[3]`. -/
inductive Step where
  | key (k : String)
  | idx (i : Nat)

/-- `json[key]` on a `const` object. -/
def memberGet (k : String) : Json → Out Json
  | .obj m => match m.find? (fun e => e.1 == k) with
    | some e => .ok e.2
    | none => .undefined
  | _ => .throws

/-- `json[idx]` on a `const` object. -/
def arrayGet (i : Nat) : Json → Out Json
  | .arr l => match l[i]? with
    | some v => .ok v
    | none => .undefined
  | _ => .throws

/-- The call made for one step (`json.cc` 33–34; `ast/expression.cc` 695–722 chooses by the type of the key). -/
def get : Step → Json → Out Json
  | .key k, j => memberGet k j
  | .idx i, j => arrayGet i j

/-- The calls made for an access chain. -/
def access : List Step → Json → Out Json
  | [], j => .ok j
  | s :: p, j => match get s j with
    | .ok v => access p v
    | .throws => .throws
    | .undefined => .undefined

/-- `static_cast` of an integer to `w` bits. -/
def wrap (signed : Bool) (w : Nat) (z : Int) : Int := if signed then z.bmod (2 ^ w) else z % (2 ^ w : Nat)

/-- `json_extract<T>` for integers (`json.cc` 90–99). `nlohmann` reads booleans as integers too, but not for its own integer types `int64_t` and
`uint64_t`. -/
def extractInt (signed : Bool) (w : Nat) : Json → Out Int
  | .int z => .ok (wrap signed w z)
  | .nat n => .ok (wrap signed w n)
  | .flt x => match toInt signed w x with
    | some r => .ok r
    | none => .undefined
  | .bool b => if w = 64 then .throws else .ok (if b then 1 else 0)
  | _ => .throws

/-! ## Specification -/

/-- The value `v` is found in `j` at the end of the path. -/
inductive At : Json → List Step → Json → Prop where
  | here (j) : At j [] j
  | key {m k v p r} (i : Nat) (hi : m[i]? = some (k, v)) (first : ∀ (i' : Nat) v', m[i']? = some (k, v') → i ≤ i') (h : At v p r) :
      At (.obj m) (.key k :: p) r
  | idx {l i v p r} (hi : l[i]? = some v) (h : At v p r) : At (.arr l) (.idx i :: p) r

/-- The next step asks an object for a member, an array for an element. -/
def RightKind : Step → Json → Prop
  | .key _, .obj _ => True
  | .idx _, .arr _ => True
  | _, _ => False

/-- The next step asks an object for a member it does not have, or an array for an element behind its end. -/
def Missing : Step → Json → Prop
  | .key k, .obj m => ∀ v, (k, v) ∉ m
  | .idx i, .arr l => l.length ≤ i
  | _, _ => False

/-! ## Lemmas -/

theorem find_key {m : List (String × Json)} {k : String} {v : Json} :
    m.find? (fun e => e.1 == k) = some (k, v) ↔
    ∃ i : Nat, m[i]? = some (k, v) ∧ ∀ (i' : Nat) v', m[i']? = some (k, v') → i ≤ i' := by
  constructor
  · intro h
    rw [List.find?_eq_some_iff_getElem] at h
    obtain ⟨_, i, hi, he, hlt⟩ := h
    refine ⟨i, by rw [List.getElem?_eq_getElem hi, he], fun i' v' h' => ?_⟩
    rcases Nat.lt_or_ge i' i with hc | hc
    · have := hlt i' hc
      rw [List.getElem?_eq_getElem (by omega)] at h'
      simp [Option.some.inj h'] at this
    · exact hc
  · rintro ⟨i, hi, hf⟩
    rw [List.find?_eq_some_iff_getElem]
    obtain ⟨hlt, he⟩ := List.getElem?_eq_some_iff.mp hi
    refine ⟨by simp, i, hlt, he, fun j hj => ?_⟩
    simp only [Bool.not_eq_true', beq_eq_false_iff_ne, ne_eq]
    intro hk
    have := hf j m[j].2 (by rw [List.getElem?_eq_getElem (by omega), ← hk])
    omega

theorem get_ok {s : Step} {j v : Json} (h : get s j = .ok v) : ∀ p r, At v p r → At j (s :: p) r := by
  intro p r hr
  cases s with
  | key k =>
    cases j with
    | obj m =>
      simp only [get, memberGet] at h
      split at h
      · rename_i e he
        have hk : e.1 = k := by simpa using List.find?_some he
        injection h with h
        subst h
        obtain ⟨i, h1, h2⟩ := find_key.mp (show m.find? (fun e => e.1 == k) = some (k, e.2) by rw [he, ← hk])
        exact .key i h1 h2 hr
      · cases h
    | _ => simp [get, memberGet] at h
  | idx i =>
    cases j with
    | arr l =>
      simp only [get, arrayGet] at h
      split at h
      · rename_i v' he
        injection h with h
        subst h
        exact .idx he hr
      · cases h
    | _ => simp [get, arrayGet] at h

theorem get_undefined {s : Step} {j : Json} : get s j = .undefined ↔ Missing s j := by
  cases s with
  | key k =>
    cases j with
    | obj m =>
      simp only [get, memberGet, Missing]
      split
      · rename_i e he
        have hk : e.1 = k := by simpa using List.find?_some he
        have hm := List.mem_of_find?_eq_some he
        constructor
        · intro h; cases h
        · intro h; exact absurd (by rw [← hk]; exact hm) (h e.2)
      · rename_i he
        simp only [true_iff]
        intro v hv
        have := List.find?_eq_none.mp he _ hv
        simp at this
    | _ => simp [get, memberGet, Missing]
  | idx i =>
    cases j with
    | arr l =>
      simp only [get, arrayGet, Missing]
      split
      · rename_i v he
        obtain ⟨hlt, _⟩ := List.getElem?_eq_some_iff.mp he
        constructor
        · intro h; cases h
        · intro h; omega
      · rename_i he
        simpa using he
    | _ => simp [get, arrayGet, Missing]

theorem get_throws {s : Step} {j : Json} : get s j = .throws ↔ ¬ RightKind s j := by
  cases s <;> cases j <;> simp only [get, memberGet, arrayGet, RightKind] <;> (try split) <;> simp

theorem access_append (p q : List Step) (j : Json) :
    access (p ++ q) j = match access p j with | .ok v => access q v | .throws => .throws | .undefined => .undefined := by
  induction p generalizing j with
  | nil => rfl
  | cons s p ih =>
    simp only [List.cons_append, access]
    cases get s j with
    | ok v => exact ih v
    | throws => rfl
    | undefined => rfl

/-! ## C120 -/

/-- **C120** (partial: what is there is found, and a value of the wrong kind on the way throws; that the call always gives the value or an error is refuted by
`json_access_violated`). An access chain gives the value `v` exactly if `v` is found at the end of the path. -/
theorem json_access_partial (p : List Step) (j : Json) :
    (∀ v, access p j = .ok v ↔ At j p v) ∧
    (access p j = .throws ↔ ∃ p₁ s p₂ w, p = p₁ ++ s :: p₂ ∧ At j p₁ w ∧ ¬ RightKind s w) := by
  have main : ∀ (p : List Step) (j v : Json), access p j = .ok v ↔ At j p v := by
    intro p
    induction p with
    | nil =>
      intro j v
      constructor
      · intro h; simp only [access] at h; injection h with h; subst h; exact .here _
      · intro h; cases h; rfl
    | cons s p ih =>
      intro j v
      constructor
      · intro h
        simp only [access] at h
        split at h
        · rename_i w hw
          exact get_ok hw p v ((ih w v).mp h)
        · cases h
        · cases h
      · intro h
        cases h with
        | key i hi first h =>
          have := find_key.mpr ⟨i, hi, first⟩
          simp only [access, get, memberGet, this]
          exact (ih _ v).mpr h
        | idx hi h =>
          simp only [access, get, arrayGet, hi]
          exact (ih _ v).mpr h
  refine ⟨main p j, ?_⟩
  constructor
  · intro h
    induction p generalizing j with
    | nil => simp [access] at h
    | cons s p ih =>
      simp only [access] at h
      split at h
      · rename_i w hw
        obtain ⟨p₁, s', p₂, u, he, ha, hk⟩ := ih w h
        exact ⟨s :: p₁, s', p₂, u, by rw [he]; rfl, get_ok hw _ _ ha, hk⟩
      · rename_i hw
        exact ⟨[], s, p, j, rfl, .here _, get_throws.mp hw⟩
      · cases h
  · rintro ⟨p₁, s, p₂, w, rfl, ha, hk⟩
    rw [access_append, (main p₁ j w).mpr ha]
    simp only [access, get_throws.mpr hk]

/-- **C120, negation of the full claim.** The call is undefined exactly if on the way an object lacks the member or an array ends before the element. -/
theorem json_access_violated (p : List Step) (j : Json) :
    access p j = .undefined ↔ ∃ p₁ s p₂ w, p = p₁ ++ s :: p₂ ∧ At j p₁ w ∧ Missing s w := by
  constructor
  · intro h
    induction p generalizing j with
    | nil => simp [access] at h
    | cons s p ih =>
      simp only [access] at h
      split at h
      · rename_i w hw
        obtain ⟨p₁, s', p₂, u, he, ha, hk⟩ := ih w h
        exact ⟨s :: p₁, s', p₂, u, by rw [he]; rfl, get_ok hw _ _ ha, hk⟩
      · cases h
      · rename_i hw
        exact ⟨[], s, p, j, rfl, .here _, get_undefined.mp hw⟩
  · rintro ⟨p₁, s, p₂, w, rfl, ha, hk⟩
    rw [access_append, ((json_access_partial p₁ j).1 w).mpr ha]
    simp only [access, get_undefined.mpr hk]

/-- `{"a": [1, {"b": true}]}`: `["a"][1]["b"]` is there, `["a"][2]` and `["c"]` are missing, `["a"]["b"]` is of the wrong kind. -/
example : let j := Json.obj [("a", .arr [.int 1, .obj [("b", .bool true)]])]
    access [.key "a", .idx 1, .key "b"] j = .ok (.bool true) ∧ access [.key "a", .idx 2] j = .undefined ∧ access [.key "c"] j = .undefined ∧
    access [.key "a", .key "b"] j = .throws := by
  refine ⟨?_, ?_, ?_, ?_⟩ <;> simp [access, get, memberGet, arrayGet]

/-! ## C121 -/

/-- The exact value of a JSON number is the integer `z`. -/
def IsInt : Json → Int → Prop
  | .int a, z => a = z
  | .nat n, z => (n : Int) = z
  | .flt x, z => x.mag < f64.inf ∧ x.value = z * f64.one
  | _, _ => False

/-- **C121** (partial: whole numbers that fit; the full claim is refuted by `json_extract_violated`). Reading a JSON number as an integer gives the number; strings,
arrays, objects and null throw; a boolean throws or is read as 0 or 1. -/
theorem json_extract_partial (signed : Bool) (w : Nat) (hw : 0 < w) (j : Json) :
    (∀ z, IsInt j z → Fits signed w z → extractInt signed w j = .ok z) ∧
    ((∃ s, j = .str s) ∨ (∃ l, j = .arr l) ∨ (∃ m, j = .obj m) ∨ j = .null → extractInt signed w j = .throws) ∧
    (∀ b, j = .bool b → extractInt signed w j = .throws ∨ extractInt signed w j = .ok (if b then 1 else 0)) := by
  have hwrap : ∀ z, Fits signed w z → wrap signed w z = z := by
    intro z hz
    unfold Fits at hz
    unfold wrap
    have h2 : ((2 ^ w : Nat) : Int) = 2 * 2 ^ (w - 1) := by
      obtain ⟨k, rfl⟩ : ∃ k, w = k + 1 := ⟨w - 1, by omega⟩
      simp [Int.pow_succ, Int.mul_comm]
    have h3 : ((2 ^ w : Nat) : Int) = 2 ^ w := by simp
    cases signed
    · simp only [Bool.false_eq_true, if_false] at hz ⊢
      exact Int.emod_eq_of_lt hz.1 (by omega)
    · simp only [if_true] at hz ⊢
      rw [Int.bmod_eq_of_le] <;> omega
  refine ⟨?_, ?_, ?_⟩
  · intro z hz hf
    cases j with
    | int a => simp only [IsInt] at hz; subst hz; simp only [extractInt, hwrap _ hf]
    | nat n => simp only [IsInt] at hz; subst hz; simp only [extractInt, hwrap _ hf]
    | flt x =>
      have : toInt signed w x = some z := by
        refine float_to_int_partial signed w x z hz.1 ?_ hf
        have ho : (0 : Int) < f64.one := by have : 0 < f64.one := Nat.two_pow_pos _; omega
        rw [hz.2]
        unfold Truncated
        rw [Int.add_mul, Int.sub_mul, Int.one_mul]
        omega
      simp only [extractInt, this]
    | _ => exact absurd hz (by simp [IsInt])
  · rintro (⟨s, rfl⟩ | ⟨l, rfl⟩ | ⟨m, rfl⟩ | rfl) <;> rfl
  · rintro b rfl
    simp only [extractInt]
    split
    · exact .inl rfl
    · exact .inr rfl

/-- **C121, negation of the full claim.** An integer that does not fit is cut (300 read as a signed byte is 44) without an error, and reading a number with a
fraction as an integer is undefined if the integer part does not fit. -/
theorem json_extract_violated (signed : Bool) (w : Nat) :
    (∀ z, ¬ Fits signed w z → 0 < w → ∃ r, extractInt signed w (.int z) = .ok r ∧ r ≠ z) ∧ extractInt true 8 (.int 300) = .ok 44 ∧
    (∀ x, extractInt signed w (.flt x) = .undefined ↔ f64.inf ≤ x.mag ∨ ∀ r, Truncated f64.one x.value r → ¬ Fits signed w r) := by
  refine ⟨?_, by decide, ?_⟩
  · intro z hz hw
    refine ⟨_, rfl, fun h => hz ?_⟩
    have h2 : ((2 ^ w : Nat) : Int) = 2 * 2 ^ (w - 1) := by
      obtain ⟨k, rfl⟩ : ∃ k, w = k + 1 := ⟨w - 1, by omega⟩
      simp [Int.pow_succ, Int.mul_comm]
    have h3 : ((2 ^ w : Nat) : Int) = 2 ^ w := by simp
    have hp : 0 < 2 ^ w := Nat.two_pow_pos w
    unfold wrap at h
    unfold Fits
    cases signed
    · simp only [Bool.false_eq_true, if_false] at h ⊢
      have h4 := Int.emod_nonneg z (b := ((2 ^ w : Nat) : Int)) (by omega)
      have h5 := Int.emod_lt_of_pos z (b := ((2 ^ w : Nat) : Int)) (by omega)
      omega
    · simp only [if_true] at h ⊢
      have h4 := Int.le_bmod (x := z) hp
      have h5 := Int.bmod_lt (x := z) hp
      omega
  · intro x
    rw [← float_to_int_violated signed w x]
    simp only [extractInt]
    cases toInt signed w x <;> simp

/-- `7`, `7.0` and `7u` are whole numbers that fit into a byte. -/
example : IsInt (.int (-7)) (-7) ∧ Fits true 8 (-7) ∧ IsInt (.nat 7) 7 ∧ IsInt (.flt (ofInt f64 7)) 7 := by
  refine ⟨rfl, by unfold Fits; decide, rfl, by decide +kernel, ?_⟩
  exact (conv_int f64_ok 7 (ofInt f64 0) (ofInt_not_nan _ _)).2.2.2 (by decide)

end Verif.Func.Json
