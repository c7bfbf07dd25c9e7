/-!
# Parameter trees: C23

`/repo/rapidudf/types/params.cc` 27–43, 110–134, 184–194. Objects are identified by their address; a member is another object. The scalar and array payloads do not
take part in name lookup and are left out, and so is the movement of members when a hash table grows.
-/
namespace Verif.Types.Par

/-- One `Params` object: `param_type_ == PARAM_OBJECT`, `members_`, `parent_`. -/
structure Node where
  isObject : Bool
  members : List (String × Nat)
  parent : Option Nat

/-- All objects by address. -/
abbrev Heap := Nat → Node

def upd (h : Heap) (a : Nat) (n : Node) : Heap := fun x => if x = a then n else h x

/-- `Get`, lines 110–121, running for at most `fuel` calls. Outer `none`: has not returned yet. Inner `none`: the invalid object. -/
def get : Nat → Heap → Nat → String → Option (Option Nat)
  | 0, _, _, _ => none
  | fuel + 1, h, a, name =>
    match (h a).members.lookup name with
    | some m => some (some m)
    | none =>
      match (h a).parent with
      | some p => get fuel h p name
      | none => some none

/-- `Contains`, lines 184–194. -/
def contains : Nat → Heap → Nat → String → Option Bool
  | 0, _, _, _ => none
  | fuel + 1, h, a, name =>
    if (h a).isObject = true ∧ ((h a).members.lookup name).isSome = true then some true
    else
      match (h a).parent with
      | some p => contains fuel h p name
      | none => some false

/-- `SetParent`, lines 27–43. -/
def setParent : Nat → Heap → Nat → Option Nat → Option Heap
  | 0, _, _, _ => none
  | fuel + 1, h, a, q =>
    match q with
    | none => some (upd h a { h a with parent := none })
    | some p =>
      if a = p then some h
      else
        match (h a).parent with
        | none => some (upd h a { h a with parent := some p })
        | some b => if b = p then some h else setParent fuel h b (some p)

/-- `operator[](const ParamString&)` on a mutable object, lines 127–134; `fresh` is the address of the member the table creates. -/
def index (fuel : Nat) (h : Heap) (a : Nat) (name : String) (fresh : Nat) : Option (Heap × Nat) :=
  match get fuel h a name with
  | none => none
  | some (some m) => some (h, m)
  | some none => some (upd h a { h a with isObject := true, members := (name, fresh) :: (h a).members }, fresh)

/-! ## Specification -/

/-- The objects from `a` upwards, ending with one that has no parent. -/
inductive Chain (h : Heap) : Nat → List Nat → Prop where
  | last (a : Nat) : (h a).parent = none → Chain h a [a]
  | cons (a p : Nat) (l : List Nat) : (h a).parent = some p → Chain h p l → Chain h a (a :: l)

/-- The value of the first object of the list that defines the name. -/
def nearest (h : Heap) (name : String) (l : List Nat) : Option Nat := l.findSome? (fun x => (h x).members.lookup name)

/-! ## Lemmas -/

theorem chain_len (h : Heap) (a : Nat) (l : List Nat) (hc : Chain h a l) : 1 ≤ l.length := by cases hc <;> simp

theorem chain_unique (h : Heap) (a : Nat) (l l' : List Nat) (hc : Chain h a l) (hc' : Chain h a l') : l = l' := by
  induction hc generalizing l' with
  | last a hp =>
    cases hc' with
    | last => rfl
    | cons _ _ _ hp' => rw [hp] at hp'; cases hp'
  | cons a p l hp _ ih =>
    cases hc' with
    | last _ hp' => rw [hp] at hp'; cases hp'
    | cons _ p' l' hp' hc' =>
      rw [hp] at hp'
      obtain rfl := Option.some.inj hp'
      rw [ih l' hc']

/-- Whether an object's ancestors depend only on the parent links of the chain. -/
theorem chain_congr (h h' : Heap) (a : Nat) (l : List Nat) (hc : Chain h a l) (he : ∀ x ∈ l, (h' x).parent = (h x).parent) : Chain h' a l := by
  induction hc with
  | last a hp => exact .last a (by rw [he a (by simp), hp])
  | cons a p l hp _ ih => exact .cons a p l (by rw [he a (by simp), hp]) (ih (fun x hx => he x (List.mem_cons_of_mem _ hx)))

/-! ## C23 -/

/-- **C23** for objects whose ancestors end: the value in the nearest ancestor that defines the key is returned, and nothing if none does. -/
theorem params_get_nearest_partial (h : Heap) (a : Nat) (l : List Nat) (hc : Chain h a l) (name : String) (fuel : Nat) (hf : l.length ≤ fuel) :
    get fuel h a name = some (nearest h name l) := by
  induction hc generalizing fuel with
  | last a hp =>
    obtain ⟨k, rfl⟩ : ∃ k, fuel = k + 1 := ⟨fuel - 1, by simp at hf; omega⟩
    simp only [get, hp, nearest, List.findSome?_cons, List.findSome?_nil]
    cases (h a).members.lookup name <;> rfl
  | cons a p l hp hc' ih =>
    have := chain_len h p l hc'
    simp only [List.length_cons] at hf
    obtain ⟨k, rfl⟩ : ∃ k, fuel = k + 1 := ⟨fuel - 1, by omega⟩
    simp only [get, hp, nearest, List.findSome?_cons]
    cases (h a).members.lookup name with
    | some m => rfl
    | none => exact ih k (by omega)

/-- `Contains` tells whether `Get` finds something, when members are only put into objects. -/
theorem params_contains_partial (h : Heap) (a : Nat) (l : List Nat) (hc : Chain h a l) (hobj : ∀ x ∈ l, (h x).members ≠ [] → (h x).isObject = true)
    (name : String) (fuel : Nat) (hf : l.length ≤ fuel) : contains fuel h a name = some (nearest h name l).isSome := by
  have hl : ∀ x ∈ l, ∀ m, (h x).members.lookup name = some m → (h x).isObject = true := by
    intro x hx m hm
    apply hobj x hx
    intro e
    rw [e] at hm
    simp at hm
  induction hc generalizing fuel with
  | last a hp =>
    obtain ⟨k, rfl⟩ : ∃ k, fuel = k + 1 := ⟨fuel - 1, by simp at hf; omega⟩
    simp only [contains, hp, nearest, List.findSome?_cons, List.findSome?_nil]
    cases hm : (h a).members.lookup name with
    | none => simp
    | some m => simp [hl a (by simp) m hm]
  | cons a p l hp hc' ih =>
    have := chain_len h p l hc'
    simp only [List.length_cons] at hf
    obtain ⟨k, rfl⟩ : ∃ k, fuel = k + 1 := ⟨fuel - 1, by omega⟩
    simp only [contains, hp, nearest, List.findSome?_cons]
    cases hm : (h a).members.lookup name with
    | some m => simp [hl a (by simp) m hm]
    | none =>
      simp only [Option.isSome_none, Bool.false_eq_true, and_false, if_false]
      exact ih (fun x hx => hobj x (List.mem_cons_of_mem _ hx)) k (by omega) (fun x hx => hl x (List.mem_cons_of_mem _ hx))

/-- An object turned into a scalar still answers `Get` but not `Contains`. -/
theorem params_contains_violated (h : Heap) (a m : Nat) (name : String) (fuel : Nat) (hm : (h a).members.lookup name = some m) (hs : (h a).isObject = false)
    (hp : (h a).parent = none) : get (fuel + 1) h a name = some (some m) ∧ contains (fuel + 1) h a name = some false := by
  simp [get, contains, hm, hs, hp]

/-- `SetParent` with an object that is already an ancestor (or the object itself) changes nothing. -/
theorem set_parent_known (h : Heap) (a : Nat) (l : List Nat) (hc : Chain h a l) (p : Nat) (hp : p ∈ l) (fuel : Nat) (hf : l.length ≤ fuel) :
    setParent fuel h a (some p) = some h := by
  induction hc generalizing fuel with
  | last a _ =>
    obtain ⟨k, rfl⟩ : ∃ k, fuel = k + 1 := ⟨fuel - 1, by simp at hf; omega⟩
    simp only [List.mem_singleton] at hp
    simp [setParent, hp]
  | cons a b l hb hc' ih =>
    have := chain_len h b l hc'
    simp only [List.length_cons] at hf
    obtain ⟨k, rfl⟩ : ∃ k, fuel = k + 1 := ⟨fuel - 1, by omega⟩
    simp only [setParent, hb]
    by_cases e : a = p
    · simp [e]
    · rw [if_neg e]
      by_cases e2 : b = p
      · simp [e2]
      · rw [if_neg e2]
        rcases List.mem_cons.1 hp with h1 | h1
        · exact absurd h1.symm e
        · exact ih h1 k (by omega)

/-- `SetParent` with a new object whose ancestors end outside the chain: it becomes the root's parent, so its definitions come after all existing ones. -/
theorem set_parent_new (h : Heap) (a : Nat) (l : List Nat) (hc : Chain h a l) (p : Nat) (l' : List Nat) (hp : Chain h p l') (hd : ∀ x ∈ l, x ∉ l') (fuel : Nat)
    (hf : l.length ≤ fuel) : ∃ h', setParent fuel h a (some p) = some h' ∧ Chain h' a (l ++ l') ∧ (∀ name, nearest h' name (l ++ l') = (nearest h name l).or (nearest h name l')) ∧
      (∀ x, (h' x).members = (h x).members) ∧ (∀ x, x ∉ l → h' x = h x) := by
  have hpl : p ∈ l' := by cases hp <;> simp
  have key : ∃ h', setParent fuel h a (some p) = some h' ∧ Chain h' a (l ++ l') ∧ (∀ x, (h' x).members = (h x).members) ∧ (∀ x, x ∉ l → h' x = h x) ∧
      (∀ x, (h' x).parent = (h x).parent ∨ x ∈ l ∧ (h x).parent = none ∧ (h' x).parent = some p) := by
    induction hc generalizing fuel with
    | last a ha =>
      obtain ⟨k, rfl⟩ : ∃ k, fuel = k + 1 := ⟨fuel - 1, by simp at hf; omega⟩
      have hap : a ≠ p := fun e => hd a (by simp) (e ▸ hpl)
      refine ⟨upd h a { h a with parent := some p }, by simp [setParent, ha, hap], ?_, ?_, ?_, ?_⟩
      · refine .cons a p l' (by simp [upd]) (chain_congr h _ p l' hp ?_)
        intro x hx
        have : x ≠ a := fun e => hd a (by simp) (e ▸ hx)
        simp [upd, this]
      · intro x
        by_cases e : x = a
        · subst e; simp [upd]
        · simp [upd, e]
      · intro x hx
        simp only [List.mem_singleton] at hx
        simp [upd, hx]
      · intro x
        by_cases e : x = a
        · subst e; right; simp [upd, ha]
        · left; simp [upd, e]
    | cons a b l hb hc' ih =>
      have := chain_len h b l hc'
      simp only [List.length_cons] at hf
      obtain ⟨k, rfl⟩ : ∃ k, fuel = k + 1 := ⟨fuel - 1, by omega⟩
      have hap : a ≠ p := fun e => hd a (by simp) (e ▸ hpl)
      have hbl : b ∈ l := by cases hc' <;> simp
      have hbp : b ≠ p := fun e => hd b (List.mem_cons_of_mem _ hbl) (e ▸ hpl)
      obtain ⟨h', h1, h2, h3, h4, h5⟩ := ih (fun x hx => hd x (List.mem_cons_of_mem _ hx)) k (by omega)
      refine ⟨h', by simp [setParent, hb, hap, hbp, h1], ?_, h3, ?_, ?_⟩
      · refine .cons a b (l ++ l') ?_ h2
        rcases h5 a with h | ⟨_, h, _⟩
        · rw [h, hb]
        · rw [hb] at h; cases h
      · intro x hx
        exact h4 x (fun h => hx (List.mem_cons_of_mem _ h))
      · intro x
        rcases h5 x with h | ⟨h, h'⟩
        · left; exact h
        · right; exact ⟨List.mem_cons_of_mem _ h, h'⟩
  obtain ⟨h', h1, h2, h3, h4, _⟩ := key
  refine ⟨h', h1, h2, fun name => ?_, h3, h4⟩
  have hg : (fun x => (h' x).members.lookup name) = (fun x => (h x).members.lookup name) := by
    funext x; rw [h3 x]
  simp only [nearest, hg, List.findSome?_append]

/-- The mutable `operator[]` returns the value `Get` finds — that of the ancestor, not a copy — and otherwise a new member of the object itself. -/
theorem params_index (h : Heap) (a : Nat) (l : List Nat) (hc : Chain h a l) (name : String) (fresh : Nat) (fuel : Nat) (hf : l.length ≤ fuel) :
    ∃ h' m, index fuel h a name fresh = some (h', m) ∧ (nearest h name l = some m ∧ h' = h ∨ nearest h name l = none ∧ m = fresh ∧ (h' a).members.lookup name = some fresh) := by
  simp only [index, params_get_nearest_partial h a l hc name fuel hf]
  cases hm : nearest h name l with
  | some m => exact ⟨h, m, rfl, .inl ⟨rfl, rfl⟩⟩
  | none => exact ⟨_, fresh, rfl, .inr ⟨rfl, rfl, by simp [upd]⟩⟩

/-- C23 is false of the code when two objects are made each other's parent, which `SetParent` allows: a lookup of a key neither defines never returns. -/
theorem params_cycle_violated (h : Heap) (a b : Nat) (hab : a ≠ b) (ha : (h a).parent = none) (hb : (h b).parent = none) (name : String)
    (na : (h a).members.lookup name = none) (nb : (h b).members.lookup name = none) :
    ∃ h1 h2, setParent 1 h a (some b) = some h1 ∧ setParent 1 h1 b (some a) = some h2 ∧ ∀ fuel, get fuel h2 a name = none := by
  refine ⟨upd h a { h a with parent := some b }, upd (upd h a { h a with parent := some b }) b { (upd h a { h a with parent := some b }) b with parent := some a }, ?_, ?_, ?_⟩
  · simp [setParent, hab, ha]
  · simp [setParent, Ne.symm hab, upd, hb]
  · generalize hh : (upd (upd h a { h a with parent := some b }) b { (upd h a { h a with parent := some b }) b with parent := some a }) = h2
    have pa : (h2 a).parent = some b := by subst hh; simp [upd, hab]
    have pb : (h2 b).parent = some a := by subst hh; simp [upd]
    have ma : (h2 a).members.lookup name = none := by subst hh; simpa [upd, hab] using na
    have mb : (h2 b).members.lookup name = none := by subst hh; simpa [upd, Ne.symm hab] using nb
    intro fuel
    have : ∀ fuel, get fuel h2 a name = none ∧ get fuel h2 b name = none := by
      intro fuel
      induction fuel with
      | zero => exact ⟨rfl, rfl⟩
      | succ k ih => exact ⟨by simp [get, ma, pa, ih.2], by simp [get, mb, pb, ih.1]⟩
    exact (this fuel).1

/-- Two objects, the second being the parent of the first; both define `x`, only the parent defines `y`. -/
def sample : Heap := fun a => if a = 0 then ⟨true, [("x", 10)], some 1⟩ else if a = 1 then ⟨true, [("y", 12), ("x", 11)], none⟩ else ⟨false, [], none⟩
example : Chain sample 0 [0, 1] := .cons 0 1 [1] rfl (.last 1 rfl)
example : get 2 sample 0 "x" = some (some 10) ∧ get 2 sample 0 "y" = some (some 12) ∧ get 2 sample 0 "z" = some none := by decide

end Verif.Types.Par
