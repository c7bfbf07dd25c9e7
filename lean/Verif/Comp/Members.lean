import Verif.Types.Names
/-!
# Members of registered types, and the calls of member functions in a script: C131, C132

`/repo/rapidudf/reflect/reflect.cc` 25–90, `/repo/rapidudf/reflect/reflect.h` 30–108 (`Reflect`); `/repo/rapidudf/meta/function.cc` 56–59 (`GetMemberFuncName`);
`/repo/rapidudf/ast/context.cc` 198–200 (`AddMemberFuncCall`); `/repo/rapidudf/compiler/codegen.cc` 269–277, 285–357, 602–635 (`DeclareExternFunctions`, `GetFunction`,
`CallFunction`).

A function is a value of an arbitrary type `F`; what it takes and returns is part of it.
-/
namespace Verif.Comp.Members
open Verif.Types.DT Verif.Types.Names

/-! ## Model: the registry -/

/-- `DType::Control`, `dtype.h` 187–203: the 64 bits without the element types. -/
def control (d : DType) : Nat × Nat × Nat × Nat × Nat := (d.container, d.ptr, d.t0, d.t1, d.arr)

abbrev Ctl := Nat × Nat × Nat × Nat × Nat

/-- `StructMember`, `reflect.h` 33–53. -/
structure Member (F : Type) where
  field : Option (DType × Nat) := none
  func : Option F := none

/-- `StructMembers`, `reflect.h` 56–60: the map, and the vector of members in the order of their first registration (of which the names are kept). -/
structure Members (F : Type) where
  map : List (Name × Member F) := []
  order : List Name := []

/-- `GlobalStructMemberIndex`, `reflect.h` 62. -/
abbrev Index (F : Type) := List (Ctl × Members F)

/-- `map[key]` of an `unordered_map`: a default value if the key is new. -/
def getM {F : Type} (ix : Index F) (c : Ctl) : Members F := (ix.lookup c).getD {}

def setM {F : Type} (ix : Index F) (c : Ctl) (m : Members F) : Index F := (c, m) :: ix.filter (fun p => p.1 != c)

def setMap {F : Type} (ms : List (Name × Member F)) (n : Name) (m : Member F) : List (Name × Member F) := ms.map fun p => if p.1 = n then (n, m) else p

/-- `Reflect::AddStructField`, `reflect.cc` 57–73. -/
def addField {F : Type} (ix : Index F) (d : DType) (n : Name) (fd : DType) (off : Nat) : Index F × Bool :=
  let ms := getM ix (control d)
  match ms.map.lookup n with
  | none => (setM ix (control d) { map := ms.map ++ [(n, { field := some (fd, off) })], order := ms.order ++ [n] }, true)
  | some e =>
    match e.field with
    | none => (setM ix (control d) { ms with map := setMap ms.map n { e with field := some (fd, off) } }, true)
    | some _ => (ix, false)

/-- `Reflect::AddStructMethodAccessor`, `reflect.cc` 74–88. -/
def addMethod {F : Type} (ix : Index F) (d : DType) (n : Name) (f : F) : Index F × Bool :=
  let ms := getM ix (control d)
  match ms.map.lookup n with
  | none => (setM ix (control d) { map := ms.map ++ [(n, { func := some f })], order := ms.order ++ [n] }, true)
  | some e =>
    match e.func with
    | none => (setM ix (control d) { ms with map := setMap ms.map n { e with func := some f } }, true)
    | some _ => (ix, false)

/-- `Reflect::GetStructMember`, `reflect.cc` 46–56. -/
def getMember {F : Type} (ix : Index F) (d : DType) (n : Name) : Option (Member F) :=
  match ix.lookup (control d) with
  | none => none
  | some ms => ms.map.lookup n

/-- `Reflect::GetStructMembers`, `reflect.cc` 38–44: the names, `none` is the null pointer. -/
def getMembers {F : Type} (ix : Index F) (d : DType) : Option (List Name) := (ix.lookup (control d)).map Members.order

/-- A registration, for a type (or its descriptor). -/
inductive Reg (T F : Type) where
  | field (t : T) (n : Name) (fd : DType) (off : Nat)
  | method (t : T) (n : Name) (f : F)

def Reg.type {T F : Type} : Reg T F → T
  | .field t .. => t
  | .method t .. => t

def Reg.name {T F : Type} : Reg T F → Name
  | .field _ n .. => n
  | .method _ n .. => n

/-- The registration the program makes for a C++ type: with its descriptor. -/
def Reg.map {T U F : Type} (g : T → U) : Reg T F → Reg U F
  | .field t n fd off => .field (g t) n fd off
  | .method t n f => .method (g t) n f

def add1 {F : Type} (ix : Index F) : Reg DType F → Index F × Bool
  | .field t n fd off => addField ix t n fd off
  | .method t n f => addMethod ix t n f

/-- A history of registrations, from the empty index. -/
def register {F : Type} (rs : List (Reg DType F)) : Index F := rs.foldl (fun ix r => (add1 ix r).1) []

/-! ## Model: declaring the functions a script calls -/

/-- The name LLVM gives to a declaration: the one asked for, or, if the module already has it, another one that is not in the module (`llvm::Function::Create`). -/
inductive LName
  | plain (n : Name)
  | unique (n : Name) (k : Nat)
deriving DecidableEq

/-- The tables written by `DeclareExternFunctions`: the symbols defined for the linker (`extern_func_map`), the declarations calls are compiled to (`extern_funcs_`), the names
in the module. -/
structure Externs (F : Type) where
  syms : List (Name × F) := []
  decl : List (Name × LName) := []
  inModule : List Name := []

/-- One pass of the loops 306–333 and 335–350: `SymbolMap::insert` keeps an entry that is there, `extern_funcs_[name]` is overwritten. -/
def declare1 {F : Type} (s : Externs F) (e : Name × F) : Externs F :=
  { syms := if (s.syms.lookup e.1).isSome then s.syms else s.syms ++ [e]
    decl := (e.1, if e.1 ∈ s.inModule then .unique e.1 (s.inModule.count e.1) else .plain e.1) :: s.decl
    inModule := e.1 :: s.inModule }

def declare {F : Type} (es : List (Name × F)) : Externs F := es.foldl declare1 {}

/-- What a call to the function of this name (`GetFunction`, `CallFunction` 602–612) is linked to. `none`: the symbol is not found and the script is not loaded. The linker knows
the symbols of `extern_func_map`; a name chosen by LLVM is not among them. -/
def linked {F : Type} (s : Externs F) (n : Name) : Option F :=
  match s.decl.lookup n with
  | some (.plain m) => s.syms.lookup m
  | some (.unique _ _) => none
  | none => none

/-- `GetMemberFuncName`, `function.cc` 56–59; `none`: `GetTypeString` dereferences a null pointer. -/
def memberName (fac : Factory) (d : DType) (m : Name) : Option Name := (typeString fac d).map fun t => t ++ '_' :: m

/-- The entries of `member_func_calls`. -/
structure Use (F : Type) where
  type : DType
  member : Name
  func : F

/-- All functions declared for a script: the free functions, then the member functions. -/
def entries {F : Type} (fac : Factory) (free : List (Name × F)) (us : List (Use F)) : Option (List (Name × F)) :=
  (us.mapM fun (u : Use F) => (memberName fac u.type u.member).map fun n => (n, u.func)).map (free ++ ·)

/-- What the call of a member function is linked to. -/
def memberLinked {F : Type} (fac : Factory) (free : List (Name × F)) (us : List (Use F)) (d : DType) (m : Name) : Option F := do
  let es ← entries fac free us
  let n ← memberName fac d m
  linked (declare es) n

/-! ## Specification -/

/-- The first field registered under a name for a type. -/
def firstField {T F : Type} (same : T → Bool) (n : Name) (rs : List (Reg T F)) : Option (DType × Nat) :=
  rs.findSome? fun r => match r with
    | .field t m fd off => if same t && m == n then some (fd, off) else none
    | .method .. => none

/-- The first method registered under a name for a type. -/
def firstMethod {T F : Type} (same : T → Bool) (n : Name) (rs : List (Reg T F)) : Option F :=
  rs.findSome? fun r => match r with
    | .method t m f => if same t && m == n then some f else none
    | .field .. => none

/-- The names registered for a type, each at its first place. -/
def namesFor {T F : Type} (same : T → Bool) (rs : List (Reg T F)) : List Name :=
  rs.foldl (fun acc r => if same r.type && !acc.contains r.name then acc ++ [r.name] else acc) []

/-- The member made of an optional field and an optional method; no member if there is neither. -/
def both {F : Type} (a : Option (DType × Nat)) (b : Option F) : Option (Member F) :=
  match a, b with
  | none, none => none
  | a, b => some { field := a, func := b }

/-- Types without pointers or collections as elements. -/
def Flat : CType → Prop
  | .prim _ => True
  | .coll _ (.prim _) => True
  | .arr (.prim _) _ => True
  | .two _ (.prim _) (.prim _) => True
  | .tup1 (.prim _) => True
  | _ => False

/-! ## Lemmas on the registry -/

theorem lookup_setM {F : Type} (ix : Index F) (c c' : Ctl) (m : Members F) : (setM ix c m).lookup c' = if c' = c then some m else ix.lookup c' := by
  unfold setM
  by_cases h : c' = c
  · subst h; simp [List.lookup]
  · have hb : (c' == c) = false := by simp [h]
    rw [if_neg h]
    simp only [List.lookup, hb]
    induction ix with
    | nil => rfl
    | cons p ix ih =>
      by_cases hp : p.1 = c
      · have : (c' == p.1) = false := by rw [hp]; exact hb
        have h2 : (p.1 != c) = false := by simp [hp]
        simp only [List.filter_cons, h2, List.lookup, this, Bool.false_eq_true, if_false, ih]
      · have : (p.1 != c) = true := by simp [hp]
        simp only [List.filter_cons, this, if_true, List.lookup, ih]

theorem lookup_append {α β : Type} [BEq α] (l : List (α × β)) (p : α × β) (a : α) : (l ++ [p]).lookup a = (l.lookup a).or (if a == p.1 then some p.2 else none) := by
  induction l with
  | nil => simp [List.lookup]; cases h : a == p.1 <;> simp
  | cons q l ih => simp only [List.cons_append, List.lookup]; cases h : a == q.1 <;> simp [ih]

theorem lookup_setMap {F : Type} (ms : List (Name × Member F)) (n : Name) (m e : Member F) (k : Name) (h : ms.lookup n = some e) :
    (setMap ms n m).lookup k = if k = n then some m else ms.lookup k := by
  induction ms with
  | nil => simp [List.lookup] at h
  | cons p ms ih =>
    unfold setMap
    simp only [List.map_cons]
    by_cases hp : p.1 = n
    · rw [if_pos hp]
      by_cases hk : k = n
      · subst hk; simp [List.lookup]
      · have h1 : (k == n) = false := by simp [hk]
        have h2 : (k == p.1) = false := by rw [hp]; exact h1
        simp only [List.lookup, h1, h2, if_neg hk]
        -- the rest of the list
        clear ih h h2
        induction ms with
        | nil => rfl
        | cons q ms ih2 =>
          simp only [List.map_cons]
          by_cases hq : q.1 = n
          · have h3 : (k == q.1) = false := by rw [hq]; exact h1
            simp only [if_pos hq, List.lookup, h1, h3, ih2]
          · rw [if_neg hq]; simp only [List.lookup, ih2]
    · rw [if_neg hp]
      have h1 : (n == p.1) = false := by simp [Ne.symm hp]
      simp only [List.lookup, h1] at h
      have := ih h
      unfold setMap at this
      by_cases hk : k = p.1
      · have hkn : k ≠ n := by rw [hk]; exact hp
        subst hk
        simp [List.lookup, hkn]
      · have h2 : (k == p.1) = false := by simp [hk]
        simp only [List.lookup, h2, this]

theorem getM_setM {F : Type} (ix : Index F) (c c' : Ctl) (m : Members F) : getM (setM ix c m) c' = if c' = c then m else getM ix c' := by
  unfold getM
  rw [lookup_setM]
  by_cases h : c' = c <;> simp [h]

/-- What the index holds, after a history. -/
structure Holds {F : Type} (ix : Index F) (rs : List (Reg DType F)) : Prop where
  map : ∀ c n, (getM ix c).map.lookup n = both (firstField (fun t => control t == c) n rs) (firstMethod (fun t => control t == c) n rs)
  order : ∀ c, (getM ix c).order = namesFor (fun t => control t == c) rs
  mem : ∀ c n, n ∈ (getM ix c).order ↔ ((getM ix c).map.lookup n).isSome
  known : ∀ c, (ix.lookup c).isSome = rs.any (fun r => control r.type == c)

theorem firstField_snoc {F : Type} (same : DType → Bool) (n : Name) (rs : List (Reg DType F)) (r : Reg DType F) :
    firstField same n (rs ++ [r]) = (firstField same n rs).or (firstField same n [r]) := by
  unfold firstField
  rw [List.findSome?_append]

theorem firstMethod_snoc {F : Type} (same : DType → Bool) (n : Name) (rs : List (Reg DType F)) (r : Reg DType F) :
    firstMethod same n (rs ++ [r]) = (firstMethod same n rs).or (firstMethod same n [r]) := by
  unfold firstMethod
  rw [List.findSome?_append]

theorem namesFor_snoc {F : Type} (same : DType → Bool) (rs : List (Reg DType F)) (r : Reg DType F) :
    namesFor same (rs ++ [r]) = if same r.type && !(namesFor same rs).contains r.name then namesFor same rs ++ [r.name] else namesFor same rs := by
  unfold namesFor
  rw [List.foldl_append]
  rfl

theorem first_other {F : Type} (same : DType → Bool) (n : Name) (r : Reg DType F) (h : ¬ (same r.type = true ∧ r.name = n)) :
    firstField same n [r] = none ∧ firstMethod same n [r] = none := by
  cases r with
  | field t m fd off =>
    simp only [Reg.type, Reg.name] at h
    refine ⟨?_, rfl⟩
    simp [firstField]
    intro h1 h2; exact absurd ⟨h1, h2⟩ h
  | method t m f =>
    simp only [Reg.type, Reg.name] at h
    refine ⟨rfl, ?_⟩
    simp [firstMethod]
    intro h1 h2; exact absurd ⟨h1, h2⟩ h

/-- A registration that changes the member of its name and nothing else. -/
theorem holds_change {F : Type} (ix : Index F) (rs : List (Reg DType F)) (h : Holds ix rs) (r : Reg DType F) (ms' : Members F) (e : Member F)
    (hm : ∀ k, ms'.map.lookup k = if k = r.name then some e else (getM ix (control r.type)).map.lookup k)
    (ho : ms'.order = if r.name ∈ (getM ix (control r.type)).order then (getM ix (control r.type)).order else (getM ix (control r.type)).order ++ [r.name])
    (he : some e = both (firstField (fun t => control t == control r.type) r.name (rs ++ [r])) (firstMethod (fun t => control t == control r.type) r.name (rs ++ [r]))) :
    Holds (setM ix (control r.type) ms') (rs ++ [r]) := by
  refine ⟨?_, ?_, ?_, ?_⟩
  · intro c n
    rw [getM_setM]
    by_cases hc : c = control r.type
    · subst hc
      rw [if_pos rfl, hm]
      by_cases hn : n = r.name
      · subst hn; rw [if_pos rfl, he]
      · rw [if_neg hn, h.map, firstField_snoc, firstMethod_snoc]
        obtain ⟨h1, h2⟩ := first_other (fun t => control t == control r.type) n r (fun hh => hn hh.2.symm)
        rw [h1, h2, Option.or_none, Option.or_none]
    · rw [if_neg hc, h.map, firstField_snoc, firstMethod_snoc]
      obtain ⟨h1, h2⟩ := first_other (fun t => control t == c) n r (fun hh => hc (by simpa using (beq_iff_eq.1 hh.1).symm))
      rw [h1, h2, Option.or_none, Option.or_none]
  · intro c
    rw [getM_setM, namesFor_snoc]
    by_cases hc : c = control r.type
    · subst hc
      rw [if_pos rfl, ho, ← h.order]
      by_cases hn : r.name ∈ (getM ix (control r.type)).order
      · simp [hn]
      · simp [hn]
    · rw [if_neg hc, h.order]
      have : (control r.type == c) = false := by simp [Ne.symm hc]
      simp [this]
  · intro c n
    rw [getM_setM]
    by_cases hc : c = control r.type
    · subst hc
      rw [if_pos rfl, hm, ho]
      have := h.mem (control r.type) n
      by_cases hn : n = r.name
      · subst hn
        by_cases hin : r.name ∈ (getM ix (control r.type)).order <;> simp [hin]
      · rw [if_neg hn, ← this]
        by_cases hin : r.name ∈ (getM ix (control r.type)).order <;> simp [hin, hn]
    · rw [if_neg hc]; exact h.mem c n
  · intro c
    rw [lookup_setM, List.any_append]
    by_cases hc : c = control r.type
    · subst hc; simp
    · have : (control r.type == c) = false := by simp [Ne.symm hc]
      rw [if_neg hc, h.known]; simp [this]

/-- A registration that is refused. -/
theorem holds_same {F : Type} (ix : Index F) (rs : List (Reg DType F)) (h : Holds ix rs) (r : Reg DType F)
    (hf : ((getM ix (control r.type)).map.lookup r.name).isSome)
    (he : both (firstField (fun t => control t == control r.type) r.name rs) (firstMethod (fun t => control t == control r.type) r.name rs) =
      both (firstField (fun t => control t == control r.type) r.name (rs ++ [r])) (firstMethod (fun t => control t == control r.type) r.name (rs ++ [r]))) :
    Holds ix (rs ++ [r]) := by
  refine ⟨?_, ?_, h.mem, ?_⟩
  · intro c n
    rw [h.map]
    by_cases hc : c = control r.type
    · subst hc
      by_cases hn : n = r.name
      · subst hn; exact he
      · rw [firstField_snoc, firstMethod_snoc]
        obtain ⟨h1, h2⟩ := first_other (fun t => control t == control r.type) n r (fun hh => hn hh.2.symm)
        rw [h1, h2, Option.or_none, Option.or_none]
    · rw [firstField_snoc, firstMethod_snoc]
      obtain ⟨h1, h2⟩ := first_other (fun t => control t == c) n r (fun hh => hc (by simpa using (beq_iff_eq.1 hh.1).symm))
      rw [h1, h2, Option.or_none, Option.or_none]
  · intro c
    rw [namesFor_snoc, h.order]
    by_cases hc : c = control r.type
    · subst hc
      have := (h.mem (control r.type) r.name).2 hf
      rw [h.order] at this
      simp [this]
    · have : (control r.type == c) = false := by simp [Ne.symm hc]
      simp [this]
  · intro c
    rw [h.known, List.any_append]
    by_cases hc : c = control r.type
    · subst hc
      have hk := h.known (control r.type)
      have : (ix.lookup (control r.type)).isSome = true := by
        unfold getM at hf
        cases hl : ix.lookup (control r.type) with
        | none => rw [hl] at hf; simp [List.lookup] at hf
        | some _ => rfl
      rw [this] at hk
      simp [← hk]
    · have : (control r.type == c) = false := by simp [Ne.symm hc]
      simp [this]

theorem field_self {F : Type} (t : DType) (n : Name) (fd : DType) (off : Nat) :
    firstField (fun u => control u == control t) n [Reg.field (T := DType) (F := F) t n fd off] = some (fd, off) ∧
    firstMethod (fun u => control u == control t) n [Reg.field (T := DType) (F := F) t n fd off] = none := by
  refine ⟨?_, rfl⟩
  simp [firstField]

theorem method_self {F : Type} (t : DType) (n : Name) (f : F) :
    firstMethod (fun u => control u == control t) n [Reg.method (T := DType) t n f] = some f ∧
    firstField (fun u => control u == control t) n [Reg.method (T := DType) t n f] = none := by
  refine ⟨?_, rfl⟩
  simp [firstMethod]

theorem both_none {F : Type} {a : Option (DType × Nat)} {b : Option F} (h : none = both a b) : a = none ∧ b = none := by
  unfold both at h
  split at h
  · exact ⟨rfl, rfl⟩
  · simp at h

theorem both_some {F : Type} {a : Option (DType × Nat)} {b : Option F} {e : Member F} (h : some e = both a b) : e = { field := a, func := b } := by
  unfold both at h
  split at h
  · simp at h
  · simpa using h

theorem both_field {F : Type} (x : DType × Nat) (b : Option F) : both (some x) b = some { field := some x, func := b } := rfl

theorem both_func {F : Type} (a : Option (DType × Nat)) (f : F) : both a (some f) = some { field := a, func := some f } := by
  cases a <;> rfl

/-- One registration: the index holds the longer history, and the answer says whether it is the first of its kind under the name. -/
theorem add1_holds {F : Type} (ix : Index F) (rs : List (Reg DType F)) (h : Holds ix rs) (r : Reg DType F) :
    Holds (add1 ix r).1 (rs ++ [r]) ∧
    (add1 ix r).2 = (match r with
      | .field t n _ _ => (firstField (fun u => control u == control t) n rs).isNone
      | .method t n _ => (firstMethod (fun u => control u == control t) n rs).isNone) := by
  cases r with
  | field t n fd off =>
    obtain ⟨s1, s2⟩ := field_self (F := F) t n fd off
    have hm := h.map (control t) n
    simp only [add1, addField]
    cases hl : (getM ix (control t)).map.lookup n with
    | none =>
      rw [hl] at hm
      obtain ⟨f1, f2⟩ := both_none hm
      refine ⟨holds_change ix rs h (.field t n fd off) _ { field := some (fd, off) } ?_ ?_ ?_, by simp [f1]⟩
      · intro k
        simp only [Reg.name, Reg.type]
        rw [lookup_append]
        by_cases hk : k = n
        · subst hk; simp [hl]
        · simp [hk]
      · have : n ∉ (getM ix (control t)).order := by rw [h.mem, hl]; simp
        simp [Reg.name, Reg.type, this]
      · simp only [Reg.name, Reg.type]
        rw [firstField_snoc, firstMethod_snoc, f1, f2, s1, s2]; rfl
    | some e =>
      rw [hl] at hm
      have he := both_some hm
      have hin : n ∈ (getM ix (control t)).order := by rw [h.mem, hl]; simp
      dsimp only
      cases hf : e.field with
      | none =>
        have f1 : firstField (fun u => control u == control t) n rs = none := by rw [he] at hf; exact hf
        refine ⟨holds_change ix rs h (.field t n fd off) _ { e with field := some (fd, off) } ?_ ?_ ?_, by simp [f1]⟩
        · intro k
          simp only [Reg.name, Reg.type]
          exact lookup_setMap _ _ _ e _ hl
        · simp [Reg.name, Reg.type, hin]
        · simp only [Reg.name, Reg.type]
          rw [firstField_snoc, firstMethod_snoc, f1, s1, s2, Option.or_none, he]; rfl
      | some x =>
        have f1 : firstField (fun u => control u == control t) n rs = some x := by rw [he] at hf; exact hf
        refine ⟨holds_same ix rs h (.field t n fd off) (by simp [Reg.type, Reg.name, hl]) ?_, by simp [f1]⟩
        simp only [Reg.name, Reg.type]
        rw [firstField_snoc, firstMethod_snoc, f1, s1, s2, Option.or_none]; rfl
  | method t n f =>
    obtain ⟨s1, s2⟩ := method_self t n f
    have hm := h.map (control t) n
    simp only [add1, addMethod]
    cases hl : (getM ix (control t)).map.lookup n with
    | none =>
      rw [hl] at hm
      obtain ⟨f1, f2⟩ := both_none hm
      refine ⟨holds_change ix rs h (.method t n f) _ { func := some f } ?_ ?_ ?_, by simp [f2]⟩
      · intro k
        simp only [Reg.name, Reg.type]
        rw [lookup_append]
        by_cases hk : k = n
        · subst hk; simp [hl]
        · simp [hk]
      · have : n ∉ (getM ix (control t)).order := by rw [h.mem, hl]; simp
        simp [Reg.name, Reg.type, this]
      · simp only [Reg.name, Reg.type]
        rw [firstField_snoc, firstMethod_snoc, f1, f2, s1, s2]; rfl
    | some e =>
      rw [hl] at hm
      have he := both_some hm
      have hin : n ∈ (getM ix (control t)).order := by rw [h.mem, hl]; simp
      dsimp only
      cases hf : e.func with
      | none =>
        have f2 : firstMethod (fun u => control u == control t) n rs = none := by rw [he] at hf; exact hf
        refine ⟨holds_change ix rs h (.method t n f) _ { e with func := some f } ?_ ?_ ?_, by simp [f2]⟩
        · intro k
          simp only [Reg.name, Reg.type]
          exact lookup_setMap _ _ _ e _ hl
        · simp [Reg.name, Reg.type, hin]
        · simp only [Reg.name, Reg.type]
          rw [firstField_snoc, firstMethod_snoc, f2, s1, s2, Option.or_none, Option.none_or, both_func, he]
      | some x =>
        have f2 : firstMethod (fun u => control u == control t) n rs = some x := by rw [he] at hf; exact hf
        refine ⟨holds_same ix rs h (.method t n f) (by simp [Reg.type, Reg.name, hl]) ?_, by simp [f2]⟩
        simp only [Reg.name, Reg.type]
        rw [firstField_snoc, firstMethod_snoc, f2, s1, s2, Option.or_none]; rfl

theorem register_snoc {F : Type} (rs : List (Reg DType F)) (r : Reg DType F) : register (rs ++ [r]) = (add1 (register rs) r).1 := by
  unfold register
  rw [List.foldl_append]
  rfl

theorem foldl_holds {F : Type} : ∀ (rs pre : List (Reg DType F)) (ix : Index F), Holds ix pre → Holds (rs.foldl (fun ix r => (add1 ix r).1) ix) (pre ++ rs)
  | [], pre, ix, h => by simpa using h
  | r :: rs, pre, ix, h => by
    have := foldl_holds rs (pre ++ [r]) _ (add1_holds ix pre h r).1
    rw [List.append_assoc] at this
    exact this

theorem register_holds {F : Type} (rs : List (Reg DType F)) : Holds (register rs) rs := by
  have h0 : Holds ([] : Index F) [] := by
    refine ⟨fun c n => rfl, fun c => rfl, fun c n => ?_, fun c => rfl⟩
    simp [getM, List.lookup]
  exact foldl_holds rs [] [] h0

/-! ## Types and descriptors -/

theorem flat_elems (t : CType) (hw : WF t) (hf : Flat t) : (getDType t).elems = [] := by
  unfold Flat at hf
  split at hf
  · rename_i id; rw [prim_shape id hw]; rfl
  · rename_i c id; rw [getDType_coll_prim c id hw]; rfl
  · rename_i id n
    rw [getDType, prim_shape id hw.2.1]; rfl
  · rename_i c k v
    rw [getDType_two, prim_shape k hw.2.1, prim_shape v hw.2.2]
    simp only [twoElems, nested_prim k hw.2.1, nested_prim v hw.2.2, DType.elems, Bool.false_eq_true, if_false]
  · rename_i id
    have : getDType (.tup1 (.prim id)) = .mk COLLECTION_TUPLE 0 (baseId (getDType (.prim id))) 0 0 (if nested (getDType (.prim id)) then [some (getDType (.prim id))] else []) := by
      conv => lhs; unfold getDType
    rw [this, prim_shape id hw]
    simp only [nested_prim id hw, DType.elems, Bool.false_eq_true, if_false]
  · exact absurd hf id

theorem control_inj (s t : CType) (ws : WF s) (wt : WF t) (fs : Flat s) (ft : Flat t) : (control (getDType s) == control (getDType t)) = (s == t) := by
  by_cases h : s = t
  · subst h; simp
  · have : control (getDType s) ≠ control (getDType t) := by
      intro hc
      apply h
      apply get_dtype_injective s t ws wt
      have e1 := flat_elems s ws fs
      have e2 := flat_elems t wt ft
      cases hs : getDType s; cases ht : getDType t
      rw [hs] at hc e1; rw [ht] at hc e2
      simp only [control, DType.container, DType.ptr, DType.t0, DType.t1, DType.arr, DType.elems, Prod.mk.injEq] at hc e1 e2
      obtain ⟨h1, h2, h3, h4, h5⟩ := hc
      rw [h1, h2, h3, h4, h5, e1, e2]
    rw [beq_eq_false_iff_ne.2 this, beq_eq_false_iff_ne.2 h]

theorem firsts_map {F : Type} (t : CType) (wt : WF t) (ft : Flat t) (n : Name) : ∀ (rs : List (Reg CType F)), (∀ r ∈ rs, WF r.type ∧ Flat r.type) →
    firstField (fun d => control d == control (getDType t)) n (rs.map (Reg.map getDType)) = firstField (· == t) n rs ∧
    firstMethod (fun d => control d == control (getDType t)) n (rs.map (Reg.map getDType)) = firstMethod (· == t) n rs
  | [], _ => ⟨rfl, rfl⟩
  | r :: rs, h => by
    obtain ⟨i1, i2⟩ := firsts_map t wt ft n rs (fun r hr => h r (List.mem_cons_of_mem _ hr))
    have hr := h r List.mem_cons_self
    have hc := control_inj r.type t hr.1 wt hr.2 ft
    unfold firstField at i1 ⊢
    unfold firstMethod at i2 ⊢
    cases r with
    | field s m fd off =>
      simp only [Reg.type] at hc
      simp only [List.map_cons, Reg.map, List.findSome?_cons, hc]
      rw [i1, i2]
      exact ⟨rfl, rfl⟩
    | method s m f =>
      simp only [Reg.type] at hc
      simp only [List.map_cons, Reg.map, List.findSome?_cons, hc]
      rw [i1, i2]
      exact ⟨rfl, rfl⟩

theorem namesFor_map {F : Type} (t : CType) (wt : WF t) (ft : Flat t) (rs : List (Reg CType F)) (h : ∀ r ∈ rs, WF r.type ∧ Flat r.type) :
    namesFor (fun d => control d == control (getDType t)) (rs.map (Reg.map getDType)) = namesFor (· == t) rs := by
  have : ∀ (rs : List (Reg CType F)) (acc : List Name), (∀ r ∈ rs, WF r.type ∧ Flat r.type) →
      (rs.map (Reg.map getDType)).foldl (fun acc r => if (control r.type == control (getDType t)) && !acc.contains r.name then acc ++ [r.name] else acc) acc =
      rs.foldl (fun acc r => if (r.type == t) && !acc.contains r.name then acc ++ [r.name] else acc) acc := by
    intro rs
    induction rs with
    | nil => intro acc _; rfl
    | cons r rs ih =>
      intro acc h
      have hr := h r List.mem_cons_self
      have hc := control_inj r.type t hr.1 wt hr.2 ft
      have ht : (Reg.map getDType r).type = getDType r.type := by cases r <;> rfl
      have hn : (Reg.map getDType r).name = r.name := by cases r <;> rfl
      simp only [List.map_cons, List.foldl_cons, ht, hn, hc]
      exact ih _ (fun r hr => h r (List.mem_cons_of_mem _ hr))
  exact this rs [] h

/-! ## C131 -/

/-- **C131 (part).** After any history of registrations for types without pointers or collections as elements: a name of a type has the field first registered under it for this type and
the method first registered under it for this type, and nothing that was registered for another type; the members are listed in the order of their first registration. -/
theorem members_of_a_type_partial {F : Type} (rs : List (Reg CType F)) (h : ∀ r ∈ rs, WF r.type ∧ Flat r.type) (t : CType) (wt : WF t) (ft : Flat t) :
    (∀ n, getMember (register (rs.map (Reg.map getDType))) (getDType t) n = both (firstField (· == t) n rs) (firstMethod (· == t) n rs)) ∧
    getMembers (register (rs.map (Reg.map getDType))) (getDType t) = if ∃ r ∈ rs, r.type = t then some (namesFor (· == t) rs) else none := by
  have H := register_holds (rs.map (Reg.map getDType))
  constructor
  · intro n
    obtain ⟨h1, h2⟩ := firsts_map t wt ft n rs h
    have hm := H.map (control (getDType t)) n
    rw [h1, h2] at hm
    rw [← hm]
    unfold getMember getM
    cases (register (rs.map (Reg.map getDType))).lookup (control (getDType t)) <;> rfl
  · have hk := H.known (control (getDType t))
    have ho := H.order (control (getDType t))
    rw [namesFor_map t wt ft rs h] at ho
    have hany : (rs.map (Reg.map getDType)).any (fun r => control r.type == control (getDType t)) = decide (∃ r ∈ rs, r.type = t) := by
      rw [List.any_map]
      rw [Bool.eq_iff_iff, List.any_eq_true, decide_eq_true_iff]
      constructor
      · rintro ⟨r, hr, hc⟩
        refine ⟨r, hr, ?_⟩
        have ht : (Reg.map getDType r).type = getDType r.type := by cases r <;> rfl
        simp only [Function.comp_apply, ht] at hc
        rw [control_inj r.type t (h r hr).1 wt (h r hr).2 ft] at hc
        exact beq_iff_eq.1 hc
      · rintro ⟨r, hr, rfl⟩
        refine ⟨r, hr, ?_⟩
        have ht : (Reg.map getDType r).type = getDType r.type := by cases r <;> rfl
        simp [ht]
    rw [hany] at hk
    unfold getMembers
    unfold getM at ho
    cases hl : (register (rs.map (Reg.map getDType))).lookup (control (getDType t)) with
    | none => rw [hl] at hk; simp at hk; rw [if_neg (by simpa using hk)]; rfl
    | some ms =>
      rw [hl] at hk ho
      simp only [Option.isSome_some] at hk
      rw [if_pos (of_decide_eq_true hk.symm)]
      exact congrArg some ho

/-- **C131 (part).** A registration is reported as done exactly if nothing of its kind was registered under the name for the type. -/
theorem registration_answer_partial {F : Type} (rs : List (Reg CType F)) (h : ∀ r ∈ rs, WF r.type ∧ Flat r.type) (t : CType) (wt : WF t) (ft : Flat t) (n : Name) :
    (∀ fd off, (add1 (register (rs.map (Reg.map getDType))) (.field (getDType t) n fd off)).2 = (firstField (· == t) n rs).isNone) ∧
    (∀ f, (add1 (register (rs.map (Reg.map getDType))) (.method (getDType t) n f)).2 = (firstMethod (· == t) n rs).isNone) := by
  have H := register_holds (rs.map (Reg.map getDType))
  obtain ⟨h1, h2⟩ := firsts_map t wt ft n rs h
  constructor
  · intro fd off
    rw [(add1_holds _ _ H _).2]
    dsimp only
    rw [h1]
  · intro f
    rw [(add1_holds _ _ H _).2]
    dsimp only
    rw [h2]

/-- **C131 fails.** The index does not look at the element types: a method registered for vectors of vectors is found for vectors of sets, and the method registered for those is refused. -/
theorem members_of_nested_types_violated {F : Type} (n : Name) (f g : F) (a b : CType) (ha : nested (getDType a) = true) (hb : nested (getDType b) = true) :
    getMember (register [Reg.method (getDType (.coll COLLECTION_VECTOR a)) n f]) (getDType (.coll COLLECTION_VECTOR b)) n = some { func := some f } ∧
    (add1 (register [Reg.method (getDType (.coll COLLECTION_VECTOR a)) n f]) (.method (getDType (.coll COLLECTION_VECTOR b)) n g)).2 = false ∧
    getMember (register [Reg.method (getDType (.coll COLLECTION_VECTOR a)) n f, Reg.method (getDType (.coll COLLECTION_VECTOR b)) n g]) (getDType (.coll COLLECTION_VECTOR b)) n =
      some { func := some f } := by
  have hc : control (getDType (.coll COLLECTION_VECTOR b)) = control (getDType (.coll COLLECTION_VECTOR a)) := by
    simp only [getDType, ha, hb, if_true]; rfl
  have H1 := register_holds [Reg.method (getDType (.coll COLLECTION_VECTOR a)) n f]
  have H2 := register_holds [Reg.method (getDType (.coll COLLECTION_VECTOR a)) n f, Reg.method (getDType (.coll COLLECTION_VECTOR b)) n g]
  have get : ∀ (ix : Index F) (d : DType), getMember ix d n = (getM ix (control d)).map.lookup n := by
    intro ix d; unfold getMember getM; cases ix.lookup (control d) <;> rfl
  refine ⟨?_, ?_, ?_⟩
  · rw [get, H1.map]; simp [firstField, firstMethod, hc, both]
  · rw [(add1_holds _ _ H1 _).2]; simp [firstMethod, hc]
  · rw [get, H2.map]; simp [firstField, firstMethod, hc, both]

/-- Not vacuous: vectors of vectors and vectors of sets. -/
example : nested (getDType (.coll COLLECTION_VECTOR (.prim 9))) = true ∧ nested (getDType (.coll COLLECTION_SET (.prim 9))) = true := by decide +kernel

/-- Not vacuous: a struct with a field and a method of one name, a second method refused, and a vector of it with a method of the same name. -/
example :
    let rs : List (Reg CType Nat) := [.method (.prim 64) ['a'] 1, .field (.prim 64) ['a'] (.mk 0 0 9 0 0 []) 8, .method (.prim 64) ['a'] 2, .method (.coll COLLECTION_VECTOR (.prim 64)) ['a'] 3]
    (∀ r ∈ rs, WF r.type ∧ Flat r.type) ∧ firstMethod (· == .prim 64) ['a'] rs = some 1 ∧ (firstField (· == .prim 64) ['a'] rs).isSome ∧
      firstMethod (· == .coll COLLECTION_VECTOR (.prim 64)) ['a'] rs = some 3 := by
  refine ⟨?_, by decide +kernel, by decide +kernel, by decide +kernel⟩
  intro r hr
  simp only [List.mem_cons, List.not_mem_nil, or_false] at hr
  rcases hr with rfl | rfl | rfl | rfl
  all_goals simp [Reg.type, WF, Flat, DATA_COMPLEX_OBJECT]

/-! ## C132: lemmas -/

theorem declare_snoc {F : Type} (es : List (Name × F)) (e : Name × F) : declare (es ++ [e]) = declare1 (declare es) e := by
  unfold declare
  rw [List.foldl_append]
  rfl

/-- What the tables hold after the loops. -/
structure Declared {F : Type} (s : Externs F) (es : List (Name × F)) : Prop where
  syms : ∀ n, s.syms.lookup n = es.lookup n
  names : ∀ n, s.inModule.count n = (es.map Prod.fst).count n
  decl : ∀ n, s.decl.lookup n = if (es.map Prod.fst).count n = 0 then none else if (es.map Prod.fst).count n = 1 then some (.plain n) else some (.unique n ((es.map Prod.fst).count n - 1))

theorem lookup_isSome_count {F : Type} (es : List (Name × F)) (n : Name) : (es.lookup n).isSome = true ↔ (es.map Prod.fst).count n ≠ 0 := by
  induction es with
  | nil => simp [List.lookup]
  | cons p es ih =>
    simp only [List.map_cons, List.count_cons, List.lookup]
    by_cases h : n = p.1
    · subst h; simp
    · have h1 : (n == p.1) = false := by simp [h]
      have h2 : (p.1 == n) = false := by simp [Ne.symm h]
      simp only [h1, h2]
      rw [ih]; simp

theorem declare1_declared {F : Type} (s : Externs F) (es : List (Name × F)) (h : Declared s es) (e : Name × F) : Declared (declare1 s e) (es ++ [e]) := by
  refine ⟨?_, ?_, ?_⟩
  · intro n
    simp only [declare1]
    rw [lookup_append, ← h.syms]
    by_cases hs : (s.syms.lookup e.1).isSome = true
    · rw [if_pos hs]
      by_cases hn : n = e.1
      · subst hn
        obtain ⟨x, hx⟩ := Option.isSome_iff_exists.1 hs
        rw [hx]; rfl
      · simp [hn]
    · rw [if_neg hs, lookup_append]
  · intro n
    simp only [declare1, List.map_append, List.count_append, List.count_cons, h.names, List.map_cons, List.map_nil, List.count_nil, Nat.zero_add]
  · intro n
    simp only [declare1, List.lookup, List.map_append, List.count_append]
    have hone : List.count n (List.map Prod.fst [e]) = if n = e.1 then 1 else 0 := by
      simp only [List.map_cons, List.map_nil, List.count_cons, List.count_nil, Nat.zero_add, beq_iff_eq]
      by_cases hn : n = e.1
      · simp [hn]
      · simp [hn, Ne.symm hn]
    rw [hone]
    by_cases hn : n = e.1
    · subst hn
      simp only [beq_self_eq_true, if_true]
      have hin : e.1 ∈ s.inModule ↔ (es.map Prod.fst).count e.1 ≠ 0 := by
        rw [← h.names]
        simp [List.count_eq_zero]
      rw [h.names]
      by_cases h0 : (es.map Prod.fst).count e.1 = 0
      · have : e.1 ∉ s.inModule := by rw [hin]; simp [h0]
        rw [if_neg this, h0]; rfl
      · rw [if_pos (hin.2 h0), if_neg (by omega), if_neg (by omega), Nat.add_sub_cancel]
    · have hb : (n == e.1) = false := by simp [hn]
      simp only [hb, if_neg hn, Nat.add_zero]
      exact h.decl n

theorem foldl_declared {F : Type} : ∀ (es pre : List (Name × F)) (s : Externs F), Declared s pre → Declared (es.foldl declare1 s) (pre ++ es)
  | [], pre, s, h => by simpa using h
  | e :: es, pre, s, h => by
    have := foldl_declared es (pre ++ [e]) _ (declare1_declared s pre h e)
    rw [List.append_assoc] at this
    exact this

theorem declare_declared {F : Type} (es : List (Name × F)) : Declared (declare es) es := by
  refine foldl_declared es [] {} ⟨fun n => rfl, fun n => rfl, fun n => rfl⟩

/-- The exact outcome of a call: the function declared under the name if it is the only one, no linked program if there are several. -/
theorem linked_iff {F : Type} (es : List (Name × F)) (n : Name) : linked (declare es) n = if (es.map Prod.fst).count n = 1 then es.lookup n else none := by
  have h := declare_declared es
  unfold linked
  rw [h.decl]
  by_cases h0 : (es.map Prod.fst).count n = 0
  · rw [if_pos h0, if_neg (by omega)]
  · by_cases h1 : (es.map Prod.fst).count n = 1
    · rw [if_neg h0, if_pos h1, if_pos h1]
      exact h.syms n
    · rw [if_neg h0, if_neg h1, if_neg h1]

theorem lookup_of_nodup {F : Type} (es : List (Name × F)) (h : (es.map Prod.fst).Nodup) (n : Name) (f : F) (hm : (n, f) ∈ es) : es.lookup n = some f := by
  induction es with
  | nil => simp at hm
  | cons p es ih =>
    rw [List.map_cons, List.nodup_cons] at h
    rcases List.mem_cons.1 hm with e | hm
    · subst e; simp [List.lookup]
    · have : n ≠ p.1 := by
        intro e
        exact h.1 (e ▸ List.mem_map.2 ⟨(n, f), hm, rfl⟩)
      have hb : (n == p.1) = false := by simp [this]
      simp only [List.lookup, hb]
      exact ih h.2 hm

/-! ## C132 -/

/-- The uses of member functions in a script, by C++ type. -/
structure CUse (F : Type) where
  type : CType
  member : Name
  func : F

def CUse.use {F : Type} (u : CUse F) : Use F := { type := getDType u.type, member := u.member, func := u.func }

/-- The text `T_` does not begin the text `T'_`. -/
def Apart (a b : Name) : Prop := ¬ (a ++ ['_']) <+: (b ++ ['_'])

theorem apart_names (a b m k : Name) (h1 : Apart a b) (h2 : Apart b a) : a ++ '_' :: m ≠ b ++ '_' :: k := by
  intro h
  have e1 : (a ++ ['_']) ++ m = (b ++ ['_']) ++ k := by simpa using h
  have p1 : (a ++ ['_']) <+: (b ++ ['_']) ++ k := ⟨m, e1⟩
  have p2 : (b ++ ['_']) <+: (b ++ ['_']) ++ k := List.prefix_append _ _
  rcases List.prefix_or_prefix_of_prefix p1 p2 with h | h
  · exact h1 h
  · exact h2 h

theorem mapM_some {α β : Type} (f : α → Option β) (g : α → β) : ∀ (l : List α), (∀ a ∈ l, f a = some (g a)) → l.mapM f = some (l.map g)
  | [], _ => rfl
  | a :: l, h => by
    rw [List.mapM_cons, h a List.mem_cons_self, mapM_some f g l (fun b hb => h b (List.mem_cons_of_mem _ hb))]
    rfl

/-- **C132 (part).** A script uses member functions of simple types (each member of each type once in the table); the classes have plain names that are not the names of built-in types,
the text of one type followed by `_` never begins the text of another type followed by `_`, and no free function it calls is called like one of the member functions.
Then every call of a member function is linked to the function registered for it. -/
theorem member_calls_partial {F : Type} (rs : List (Name × DType)) (hp : ∀ p ∈ rs, Plain p.1) (hb : ∀ p ∈ rs, p.1 ∉ fundamentalStrs) (free : List (Name × F)) (us : List (CUse F))
    (hfree : (free.map Prod.fst).Nodup) (hus : (us.map fun u => (u.type, u.member)).Nodup)
    (hw : ∀ u ∈ us, WF u.type ∧ Simple u.type ∧ ∀ i ∈ ids u.type, primName (addAll {} rs) i ≠ [])
    (hap : ∀ u ∈ us, ∀ v ∈ us, u.type ≠ v.type → Apart (written (primName (addAll {} rs)) u.type) (written (primName (addAll {} rs)) v.type))
    (hno : ∀ u ∈ us, written (primName (addAll {} rs)) u.type ++ '_' :: u.member ∉ free.map Prod.fst) (u : CUse F) (hu : u ∈ us) :
    memberLinked (addAll {} rs) free (us.map CUse.use) (getDType u.type) u.member = some u.func := by
  have hname : ∀ v ∈ us, memberName (addAll {} rs) (getDType v.type) v.member = some (written (primName (addAll {} rs)) v.type ++ '_' :: v.member) := by
    intro v hv
    obtain ⟨w, s, n⟩ := hw v hv
    unfold memberName
    rw [type_string_partial _ _ w s n]
    rfl
  have hent : entries (addAll {} rs) free (us.map CUse.use) =
      some (free ++ us.map fun v => (written (primName (addAll {} rs)) v.type ++ '_' :: v.member, v.func)) := by
    unfold entries
    rw [List.mapM_map, mapM_some _ (fun v => (written (primName (addAll {} rs)) v.type ++ '_' :: v.member, v.func))]
    · rfl
    · intro v hv
      simp only [Function.comp_apply, CUse.use]
      rw [hname v hv]
      rfl
  have hnd : ((free ++ us.map fun v => (written (primName (addAll {} rs)) v.type ++ '_' :: v.member, v.func)).map Prod.fst).Nodup := by
    rw [List.map_append, List.map_map, List.nodup_append]
    refine ⟨hfree, ?_, ?_⟩
    · clear hent hu
      induction us with
      | nil => simp
      | cons v us ih =>
        rw [List.map_cons, List.nodup_cons] at hus ⊢
        refine ⟨?_, ih hus.2 (fun w h => hw w (List.mem_cons_of_mem _ h)) (fun w h x g => hap w (List.mem_cons_of_mem _ h) x (List.mem_cons_of_mem _ g))
          (fun w h => hno w (List.mem_cons_of_mem _ h)) (fun w h => hname w (List.mem_cons_of_mem _ h))⟩
        intro hm
        obtain ⟨w, hmw, he⟩ := List.mem_map.1 hm
        simp only [Function.comp_apply] at he
        by_cases ht : w.type = v.type
        · have : w.member = v.member := by
            rw [ht] at he
            have := List.append_cancel_left he
            simpa using this
          apply hus.1
          exact List.mem_map.2 ⟨w, hmw, by rw [ht, this]⟩
        · exact apart_names _ _ _ _ (hap w (List.mem_cons_of_mem _ hmw) v List.mem_cons_self ht) (hap v List.mem_cons_self w (List.mem_cons_of_mem _ hmw) (Ne.symm ht)) he
    · intro a ha b hb' e
      obtain ⟨v, hv, rfl⟩ := List.mem_map.1 hb'
      subst e
      exact hno v hv ha
  unfold memberLinked
  rw [hent, hname u hu]
  show linked (declare _) _ = _
  have hmem : (written (primName (addAll {} rs)) u.type ++ '_' :: u.member, u.func) ∈
      free ++ us.map fun v => (written (primName (addAll {} rs)) v.type ++ '_' :: v.member, v.func) :=
    List.mem_append_right _ (List.mem_map.2 ⟨u, hu, rfl⟩)
  rw [linked_iff, if_pos, lookup_of_nodup _ hnd _ _ hmem]
  have h1 := List.nodup_iff_count.1 hnd (written (primName (addAll {} rs)) u.type ++ '_' :: u.member)
  have h2 := List.count_pos_iff.2 (List.mem_map.2 ⟨_, hmem, rfl⟩ : written (primName (addAll {} rs)) u.type ++ '_' :: u.member ∈ List.map Prod.fst _)
  omega

/-- **C132 (part).** Whatever functions are declared: a call is linked to a function only if it is the one function declared under the name. Two functions of one name are never confused. -/
theorem never_another_function {F : Type} (fac : Factory) (free : List (Name × F)) (us : List (Use F)) (d : DType) (m : Name) (f : F)
    (h : memberLinked fac free us d m = some f) (u : Use F) (hu : u ∈ us) (ht : u.type = d) (hm : u.member = m) : f = u.func := by
  unfold memberLinked at h
  cases he : entries fac free us with
  | none => rw [he] at h; simp at h
  | some es =>
    rw [he] at h
    cases hn : memberName fac d m with
    | none => rw [hn] at h; simp at h
    | some n =>
      rw [hn] at h
      have hl : linked (declare es) n = some f := h
      rw [linked_iff] at hl
      split at hl
      · rename_i hc
        have hin : (n, u.func) ∈ es := by
          unfold entries at he
          cases hmm : us.mapM (fun (u : Use F) => (memberName fac u.type u.member).map fun n => (n, u.func)) with
          | none => rw [hmm] at he; simp at he
          | some ls =>
            rw [hmm] at he
            have : es = free ++ ls := by simpa using he.symm
            rw [this]
            apply List.mem_append_right
            clear he this hl hc h
            induction us generalizing ls with
            | nil => simp at hu
            | cons v us ih =>
              rw [List.mapM_cons] at hmm
              cases hv : memberName fac v.type v.member with
              | none => rw [hv] at hmm; simp at hmm
              | some nv =>
                rw [hv] at hmm
                cases hr : us.mapM (fun (u : Use F) => (memberName fac u.type u.member).map fun n => (n, u.func)) with
                | none => rw [hr] at hmm; simp at hmm
                | some ls' =>
                  rw [hr] at hmm
                  have hls : ls = (nv, v.func) :: ls' := by simpa using hmm.symm
                  rw [hls]
                  rcases List.mem_cons.1 hu with e | hu
                  · subst e
                    rw [ht, hm, hn] at hv
                    rw [Option.some.inj hv]
                    exact List.mem_cons_self
                  · exact List.mem_cons_of_mem _ (ih hu ls' hr)
        clear he h
        -- the only entry of the name
        induction es with
        | nil => simp at hin
        | cons p es ih =>
          simp only [List.lookup] at hl
          by_cases hp : n = p.1
          · have hb : (n == p.1) = true := by simp [hp]
            simp only [hb, Option.some.injEq] at hl
            rcases List.mem_cons.1 hin with e | hin
            · rw [← hl, ← e]
            · exfalso
              rw [List.map_cons, List.count_cons, hp] at hc
              simp only [beq_self_eq_true, if_true] at hc
              have : (es.map Prod.fst).count p.1 = 0 := by omega
              exact List.count_eq_zero.1 this (List.mem_map.2 ⟨(n, u.func), hin, hp⟩)
          · have hb : (n == p.1) = false := by simp [hp]
            simp only [hb] at hl
            rcases List.mem_cons.1 hin with e | hin
            · exact absurd (congrArg Prod.fst e) hp
            · refine ih ?_ hl hin
              rw [List.map_cons, List.count_cons] at hc
              have : (p.1 == n) = false := by simp [Ne.symm hp]
              simpa [this] using hc
      · simp at hl

theorem same_name_unlinked {F : Type} (fac : Factory) (u v : Use F) (n : Name) (hu : memberName fac u.type u.member = some n) (hv : memberName fac v.type v.member = some n) :
    memberLinked fac [] [u, v] u.type u.member = none := by
  unfold memberLinked entries
  rw [mapM_some _ (fun w => (n, w.func)), hu]
  · show linked (declare [(n, u.func), (n, v.func)]) n = none
    rw [linked_iff, if_neg]
    simp
  · intro w hw
    simp only [List.mem_cons, List.not_mem_nil, or_false] at hw
    rcases hw with rfl | rfl
    · rw [hu]; rfl
    · rw [hv]; rfl

/-- **C132 fails.** Calls of member functions of two types in one script: if the types have the same text the script cannot be linked, although each of the functions is registered. Vectors of
vectors and vectors of sets both have the empty text; a vector of pointers has the text of the vector of what they point to. -/
theorem member_calls_violated :
    (∀ f g : Nat, memberLinked {} [] [{ type := getDType (.coll COLLECTION_VECTOR (.coll COLLECTION_VECTOR (.prim 9))), member := "size".toList, func := f },
        { type := getDType (.coll COLLECTION_VECTOR (.coll COLLECTION_SET (.prim 9))), member := "size".toList, func := g }]
        (getDType (.coll COLLECTION_VECTOR (.coll COLLECTION_VECTOR (.prim 9)))) "size".toList = none) ∧
    (∀ f g : Nat, memberLinked {} [] [{ type := getDType (.coll COLLECTION_VECTOR (.prim 9)), member := "get".toList, func := f },
        { type := getDType (.coll COLLECTION_VECTOR (.ptr (.prim 9))), member := "get".toList, func := g }]
        (getDType (.coll COLLECTION_VECTOR (.prim 9))) "get".toList = none) := by
  constructor
  · intro f g
    exact same_name_unlinked {} { type := getDType (.coll COLLECTION_VECTOR (.coll COLLECTION_VECTOR (.prim 9))), member := "size".toList, func := f }
      { type := getDType (.coll COLLECTION_VECTOR (.coll COLLECTION_SET (.prim 9))), member := "size".toList, func := g } "_size".toList (by dsimp only; decide +kernel) (by dsimp only; decide +kernel)
  · intro f g
    exact same_name_unlinked {} { type := getDType (.coll COLLECTION_VECTOR (.prim 9)), member := "get".toList, func := f }
      { type := getDType (.coll COLLECTION_VECTOR (.ptr (.prim 9))), member := "get".toList, func := g } "vector<i32>_get".toList (by dsimp only; decide +kernel) (by dsimp only; decide +kernel)

/-- **C132 fails.** Two classes with names without any special signs: `A_b` with a member `c`, `A` with a member `b_c`. -/
theorem member_calls_underscore_violated (f g : Nat) :
    memberLinked (addAll {} [("A".toList, .mk 0 0 64 0 0 []), ("A_b".toList, .mk 0 0 65 0 0 [])]) []
      [{ type := getDType (.prim 64), member := "b_c".toList, func := f }, { type := getDType (.prim 65), member := "c".toList, func := g }] (getDType (.prim 64)) "b_c".toList = none :=
  same_name_unlinked _ { type := getDType (.prim 64), member := "b_c".toList, func := f } { type := getDType (.prim 65), member := "c".toList, func := g } "A_b_c".toList
    (by dsimp only; decide +kernel) (by dsimp only; decide +kernel)

/-- Not vacuous: members of two classes and of a vector of one of them, in one script; a free function is called as well. -/
example : memberLinked (addAll {} [("Foo".toList, .mk 0 0 64 0 0 []), ("Bar".toList, .mk 0 0 65 0 0 [])]) [("sin".toList, 0)]
    ([{ type := .prim 64, member := "get".toList, func := 1 }, { type := .prim 65, member := "get".toList, func := 2 },
      { type := .coll COLLECTION_VECTOR (.prim 65), member := "get".toList, func := 3 }].map CUse.use) (getDType (.prim 65)) "get".toList = some 2 := by
  decide +kernel

end Verif.Comp.Members
