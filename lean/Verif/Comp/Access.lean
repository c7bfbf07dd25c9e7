/-!
Chains of accesses to a variable, `v.f[0].g["k"]` (ast/expression.cc 659–760,
compiler/compiler_expressions.cc 114–147).

The checker walks along the chain with the type reached so far; for a bracket access it notes
the function that does the access (`json_member_get`, `vector<T>_get`, …) in a list.  The code
generator walks along the chain again and takes the function of the `i`-th *access* from this
list, which has an entry for every *bracket access* only.
-/
namespace Verif.Access

/-- One access: `.f` (a field or a method call, `FieldAccess`) or `[a]` (`DynamicParamAccess`:
a string, a number or a variable; ast/expression.h 116–117). -/
inductive Acc (F A : Type)
  | field (f : F)
  | index (a : A)
  deriving DecidableEq

/-- The types: the type of a field or method result (`FieldAccess::Validate`) and, for a bracket
access, the function doing the access and the type of its result (ast/expression.cc 676–752).
`none`: refused. -/
structure Types (T F A : Type) where
  field : T → F → Option T
  getter : T → A → Option (String × T)

/-- The loop of `VarAccessor::Validate` (ast/expression.cc 667–757); `names` is
`access_func_names`, to which every bracket access appends (lines 742, 749). -/
def validate {T F A : Type} (ty : Types T F A) : T → List String → List (Acc F A) →
    Option (T × List String)
  | t, names, [] => some (t, names)
  | t, names, .field f :: as =>
    match ty.field t f with
    | none => none
    | some t' => validate ty t' names as
  | t, names, .index a :: as =>
    match ty.getter t a with
    | none => none
    | some (fn, t') => validate ty t' (names ++ [fn]) as

/-- Code for one access: a field access or a call of a function with the object and the
parameter. -/
inductive Op (F A : Type)
  | field (f : F)
  | call (fn : String) (a : A)
  deriving DecidableEq

/-- The loop of `JitCompiler::BuildIR(VarAccessor)` (compiler/compiler_expressions.cc 120–146),
`i` is `access_idx`.  `none`: "Empty access func." (lines 132–134).  Simplified: the generation
of code for a field and for a call does not fail (calls of functions declared before, with
checked types). -/
def build {F A : Type} (names : List String) : Nat → List (Acc F A) → Option (List (Op F A))
  | _, [] => some []
  | i, .field f :: as =>
    match build names (i + 1) as with
    | none => none
    | some ops => some (.field f :: ops)
  | i, .index a :: as =>
    if names.length ≤ i then none
    else
      match names[i]? with
      | none => none
      | some fn =>
        match build names (i + 1) as with
        | none => none
        | some ops => some (.call fn a :: ops)

/-- Checking followed by code generation; `none` is a refused chain. -/
def compile {T F A : Type} (ty : Types T F A) (t : T) (as : List (Acc F A)) :
    Option (List (Op F A)) :=
  match validate ty t [] as with
  | none => none
  | some (_, names) => build names 0 as

/-! ### Specification -/

/-- The operations a chain stands for: each access by the accessor of the type reached there. -/
inductive Means {T F A : Type} (ty : Types T F A) : T → List (Acc F A) → List (Op F A) → Prop
  | nil (t) : Means ty t [] []
  | field {t f t' as ops} : ty.field t f = some t' → Means ty t' as ops →
      Means ty t (.field f :: as) (.field f :: ops)
  | index {t a fn t' as ops} : ty.getter t a = some (fn, t') → Means ty t' as ops →
      Means ty t (.index a :: as) (.call fn a :: ops)

/-- No bracket access comes after a field access. -/
def BracketsFirst {F A : Type} (as : List (Acc F A)) : Prop :=
  ∀ pre f post a, as = pre ++ .field f :: post → Acc.index a ∉ post

/-! ### Lemmas -/

/-- The accessor functions of the bracket accesses of a list of operations. -/
def callsOf {F A : Type} : List (Op F A) → List String
  | [] => []
  | .field _ :: os => callsOf os
  | .call fn _ :: os => fn :: callsOf os

theorem validate_spec {T F A : Type} (ty : Types T F A) : ∀ (as : List (Acc F A)) (t : T)
    (ns : List String),
    (∀ t' names, validate ty t ns as = some (t', names) →
      ∃ ops, Means ty t as ops ∧ names = ns ++ callsOf ops) ∧
    (∀ ops, Means ty t as ops → ∃ t', validate ty t ns as = some (t', ns ++ callsOf ops)) := by
  intro as
  induction as with
  | nil =>
    intro t ns
    refine ⟨?_, ?_⟩
    · intro t' names h
      simp only [validate, Option.some.injEq, Prod.mk.injEq] at h
      exact ⟨[], .nil t, by simp [callsOf, h.2]⟩
    · intro ops h
      cases h
      exact ⟨t, by simp [validate, callsOf]⟩
  | cons x as ih =>
    intro t ns
    cases x with
    | field f =>
      simp only [validate]
      refine ⟨?_, ?_⟩
      · intro t' names h
        cases hf : ty.field t f with
        | none => rw [hf] at h; cases h
        | some u =>
          rw [hf] at h
          obtain ⟨ops, h1, h2⟩ := (ih u ns).1 t' names h
          exact ⟨_, .field hf h1, h2⟩
      · intro ops h
        cases h with
        | @field _ _ t' _ ops hf h =>
          rw [hf]
          simp only [callsOf]
          exact (ih t' ns).2 ops h
    | index a =>
      simp only [validate]
      refine ⟨?_, ?_⟩
      · intro t' names h
        cases hg : ty.getter t a with
        | none => rw [hg] at h; cases h
        | some r =>
          obtain ⟨fn, u⟩ := r
          rw [hg] at h
          obtain ⟨ops, h1, h2⟩ := (ih u (ns ++ [fn])).1 t' names h
          exact ⟨_, .index hg h1, by simp [h2, callsOf]⟩
      · intro ops h
        cases h with
        | @index _ _ fn _ _ ops hg h =>
          rw [hg]
          obtain ⟨t', ht⟩ := (ih _ (ns ++ [fn])).2 _ h
          exact ⟨t', by dsimp only; rw [ht]; simp [callsOf]⟩

theorem means_unique {T F A : Type} {ty : Types T F A} : ∀ {as : List (Acc F A)} {t : T}
    {ops ops' : List (Op F A)}, Means ty t as ops → Means ty t as ops' → ops = ops' := by
  intro as t ops ops' h
  induction h generalizing ops' with
  | nil => intro h; cases h; rfl
  | field hf _ ih =>
    intro h
    cases h with
    | field hf' h' =>
      rw [hf] at hf'
      cases hf'
      rw [ih h']
  | index hg _ ih =>
    intro h
    cases h with
    | index hg' h' =>
      rw [hg] at hg'
      cases hg'
      rw [ih h']

theorem bracketsFirst_cons_field {F A : Type} {f : F} {as : List (Acc F A)} :
    BracketsFirst (.field f :: as) ↔ ∀ a, Acc.index a ∉ as := by
  constructor
  · intro h a
    exact h [] f as a rfl
  · intro h pre g post a he hm
    cases pre with
    | nil => cases he; exact h a hm
    | cons x pre =>
      cases he
      exact h a (by simp [hm])

theorem bracketsFirst_cons_index {F A : Type} {b : A} {as : List (Acc F A)} :
    BracketsFirst (.index b :: as) ↔ BracketsFirst as := by
  constructor
  · intro h pre g post a he
    exact h (.index b :: pre) g post a (by simp [he])
  · intro h pre g post a he
    cases pre with
    | nil => cases he
    | cons x pre =>
      cases he
      exact h pre g post a rfl

/-- A chain without bracket accesses is always built. -/
theorem build_fields {T F A : Type} {ty : Types T F A} {names : List String} :
    ∀ {as : List (Acc F A)} {t : T} {ops : List (Op F A)} {i : Nat},
    Means ty t as ops → (∀ a, Acc.index a ∉ as) → build names i as = some ops := by
  intro as t ops i h
  induction h generalizing i with
  | nil => intro _; rfl
  | field _ _ ih =>
    intro hn
    simp only [build]
    rw [ih fun a ha => hn a (by simp [ha])]
  | @index _ b _ _ _ _ _ _ _ => intro hn; exact absurd (by simp) (hn b)

theorem callsOf_nil {T F A : Type} {ty : Types T F A} : ∀ {as : List (Acc F A)} {t : T}
    {ops : List (Op F A)}, Means ty t as ops → (∀ a, Acc.index a ∉ as) → callsOf ops = [] := by
  intro as t ops h
  induction h with
  | nil => intro _; rfl
  | field _ _ ih => intro hn; exact ih fun a ha => hn a (by simp [ha])
  | @index _ b _ _ _ _ _ _ _ => intro hn; exact absurd (by simp) (hn b)

/-- With fewer names left than bracket accesses nothing is built. -/
theorem build_short {T F A : Type} {ty : Types T F A} {names : List String} :
    ∀ {as : List (Acc F A)} {t : T} {ops : List (Op F A)} {i : Nat},
    Means ty t as ops → names.length < i + (callsOf ops).length → (∃ a, Acc.index a ∈ as) →
    build names i as = none := by
  intro as t ops i h
  induction h generalizing i with
  | nil => rintro _ ⟨a, ha⟩; simp at ha
  | field _ _ ih =>
    rintro hl ⟨a, ha⟩
    simp only [build]
    rw [ih (by simp only [callsOf] at hl; omega) ⟨a, by simpa using ha⟩]
  | @index _ b _ _ as ops _ hm ih =>
    rintro hl -
    simp only [build]
    simp only [callsOf, List.length_cons] at hl
    split
    · rfl
    · rename_i hi
      by_cases hex : ∃ a, Acc.index a ∈ as
      · rw [ih (by omega) hex]
        split <;> rfl
      · have : callsOf ops = [] := by
          exact callsOf_nil hm fun a ha => hex ⟨a, ha⟩
        rw [this] at hl
        simp only [List.length_nil] at hl
        omega

theorem build_spec {T F A : Type} {ty : Types T F A} :
    ∀ {as : List (Acc F A)} {t : T} {ops : List (Op F A)} (pre : List String),
    Means ty t as ops →
    (BracketsFirst as → build (pre ++ callsOf ops) pre.length as = some ops) ∧
    (¬ BracketsFirst as → build (pre ++ callsOf ops) pre.length as = none) := by
  intro as t ops pre h
  induction h generalizing pre with
  | nil =>
    refine ⟨fun _ => rfl, fun hn => ?_⟩
    exact absurd (fun pre f post a he => by simp at he) hn
  | @field t f t' as ops hf hm ih =>
    rw [bracketsFirst_cons_field]
    refine ⟨fun hn => ?_, fun hn => ?_⟩
    · exact build_fields (.field hf hm) (by intro a ha; exact hn a (by simpa using ha))
    · have hex : ∃ a, Acc.index a ∈ as := by
        apply Classical.byContradiction
        intro hc
        exact hn fun a ha => hc ⟨a, ha⟩
      simp only [build]
      rw [build_short hm (by simp [callsOf]) hex]
  | @index t b fn t' as ops hg hm ih =>
    rw [bracketsFirst_cons_index]
    have hb : ∀ r, build (pre ++ callsOf (.call fn b :: ops)) (pre.length + 1) as = r →
        build (pre ++ callsOf (.call fn b :: ops)) pre.length (.index b :: as) =
          (match r with
          | none => none
          | some ops => some (.call fn b :: ops)) := by
      intro r hr
      simp only [build]
      rw [if_neg (by simp [callsOf])]
      have : (pre ++ callsOf (Op.call fn b :: ops))[pre.length]? = some fn := by simp [callsOf]
      rw [this, hr]
    have hi := ih (pre ++ [fn])
    have he : pre ++ [fn] ++ callsOf ops = pre ++ callsOf (.call fn b :: ops) := by simp [callsOf]
    have hl : (pre ++ [fn]).length = pre.length + 1 := by simp
    rw [he, hl] at hi
    exact ⟨fun h => hb _ (hi.1 h), fun h => hb _ (hi.2 h)⟩

/-! ### Properties -/

/-- **C105.**  What is compiled is right: every access of a compiled chain is done by the
accessor of the type reached at this place. -/
theorem access_chain_right {T F A : Type} (ty : Types T F A) (t : T) (as : List (Acc F A))
    (ops : List (Op F A)) (h : compile ty t as = some ops) : Means ty t as ops := by
  unfold compile at h
  cases hv : validate ty t [] as with
  | none => rw [hv] at h; cases h
  | some r =>
    obtain ⟨t', names⟩ := r
    rw [hv] at h
    dsimp only at h
    obtain ⟨ops', hm, rfl⟩ := (validate_spec ty as t []).1 t' names hv
    have hb := build_spec [] hm
    rw [List.length_nil] at hb
    by_cases hf : BracketsFirst as
    · rw [hb.1 hf] at h; cases h; exact hm
    · rw [hb.2 hf] at h; cases h

/-- **C105** (partial: the full claim is that every well-typed chain is compiled, which is
refuted by `access_chain_violated`).  A well-typed chain is compiled exactly if no bracket
access comes after a field access. -/
theorem access_chain_partial {T F A : Type} (ty : Types T F A) (t : T) (as : List (Acc F A))
    (ops : List (Op F A)) (hm : Means ty t as ops) :
    compile ty t as = some ops ↔ BracketsFirst as := by
  unfold compile
  obtain ⟨t', hv⟩ := (validate_spec ty as t []).2 ops hm
  rw [hv]
  dsimp only
  have hb := build_spec [] hm
  rw [List.length_nil] at hb
  by_cases hf : BracketsFirst as
  · rw [List.nil_append] at hb ⊢
    exact ⟨fun _ => hf, fun _ => hb.1 hf⟩
  · rw [List.nil_append] at hb ⊢
    rw [hb.2 hf]
    exact ⟨fun h => (by cases h), fun h => absurd h hf⟩

/-- **C105.**  A chain that is not well-typed is refused. -/
theorem access_chain_ill_typed {T F A : Type} (ty : Types T F A) (t : T) (as : List (Acc F A))
    (h : ¬ ∃ ops, Means ty t as ops) : compile ty t as = none := by
  cases hc : compile ty t as with
  | none => rfl
  | some ops => exact absurd ⟨ops, access_chain_right ty t as ops hc⟩ h

/-- Three types: a user with the field `scores`, a vector of users, a vector of numbers. -/
inductive Ty
  | users
  | user
  | numbers
  | number
  deriving DecidableEq

/-- fields and bracket accesses of these types -/
def tys : Types Ty String Nat where
  field t f := if t = .user ∧ f = "scores" then some .numbers else none
  getter t _ :=
    match t with
    | .users => some ("vector<User>_get", .user)
    | .numbers => some ("vector<f32>_get", .number)
    | _ => none

/-- **C105, negation of the full claim.**  `user.scores[0]` passes the checker and is refused by
the code generator; `users[1].scores` is compiled. -/
theorem access_chain_violated :
    Means tys .user [.field "scores", .index 0] [.field "scores", .call "vector<f32>_get" 0] ∧
    (validate tys .user [] [.field "scores", .index 0]).isSome ∧
    compile tys .user [.field "scores", .index 0] = none := by
  refine ⟨.field rfl (.index rfl (.nil _)), rfl, rfl⟩

/-- The hypotheses of `access_chain_right` and `access_chain_partial` are met. -/
example : compile tys .users [.index 1, .field "scores"] =
    some [.call "vector<User>_get" 1, .field "scores"] := by decide

/-- Two nested bracket accesses behind a field access, `user.scores[0][1]`: the first one would
be done with the accessor of the second one, but the chain is refused at the second one. -/
example : build (F := String) ["f0", "f1"] 0 [.field "m", .index 0, .index 1] = none ∧
    build (F := String) ["f0", "f1"] 0 [.field "m", .index 0] =
      some [.field "m", .call "f1" 0] := by decide

end Verif.Access
