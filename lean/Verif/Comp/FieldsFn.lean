import Verif.Comp.WordsFnProps
/-!
# From the text of a function over fields of structs to its result: C166

Functions as in `Verif.Comp.WordsFn`, some of whose arguments are objects of registered structs, passed by pointer; their fields, and the fields of structs embedded in them, are read, assigned and
updated like variables: `VarAccessor::Validate`, `FieldAccess::Validate`: `/repo/rapidudf/ast/expression.cc` 216–285, 659–673; `BuildIR(const ast::VarAccessor&)`,
`BuildIR(ValuePtr, const ast::FieldAccess&)`: `/repo/rapidudf/compiler/compiler_expressions.cc` 48–97, 115–155; `GetStructField`: `/repo/rapidudf/compiler/codegen_value.cc` 194–207;
`Reflect::AddStructField`, `GetStructMember`: `/repo/rapidudf/reflect/reflect.cc` 46–72; `RUDF_STRUCT_FIELDS`: `/repo/rapidudf/reflect/struct.h` 57–68.

A field is a place in memory: `GetStructField` gives the address `object + offset` with the type of the field, which is what a local variable is in the generated code (`Verif.Gen.Scalar`). So the
objects are laid out in the slots behind the arguments. Simplifications: a field takes one cell, at its offset (fields do not overlap, see `Reg.Sound`); the objects of different arguments are
different objects; fields of other types than numbers, strings, booleans and embedded structs (vectors, spans, pointers, containers) are not fields here; a pointer to an object by itself is
not a value; that no variable has the name of an object is required by the theorem but not checked by the model of validation. `var y = p.x`, which makes `y` another name of the field, is
excluded as in C37.
-/
namespace Verif.Comp.FieldsFn
open Verif.Ast hiding Ty
open Verif.Ast.Rpn Verif.Gen Verif.Gen.Scalar Verif.Types.Conv
open Verif.Comp.Real (Fpu MV arity)
open Verif.Comp.Words hiding Out
open Verif.Comp.WordsFn hiding Ty Types Store PTy compileFn Returns Undefined ReadsFn
open Verif.Comp.Function (marks)
open Verif.Comp.Pipeline (treeV eval_tree)
open Verif.Comp.Script (NameOk)
abbrev Ty := Words.Ty
abbrev Store := Words.Store
abbrev PTy := Real.PTy

/-! ## Specification -/

/-- What a registered field is: a number, boolean or string, or an embedded struct. -/
inductive Field where
  | val (t : PTy)
  | struct (t : Name)

/-- The registered structs: their fields, with offsets, and their sizes. -/
structure Reg where
  known : Name → Bool
  member : Name → Name → Option (Field × Nat)
  size : Name → Nat

/-- The field reached by a path of names from a struct, with its type and its distance from the start of the object. -/
inductive Located (reg : Reg) : Name → List Name → PTy → Nat → Prop
  | leaf {t f u o} : reg.member t f = some (.val u, o) → Located reg t [f] u o
  | sub {t f t' o fs u o'} : reg.member t f = some (.struct t', o) → Located reg t' fs u o' → Located reg t (f :: fs) u (o + o')

/-- Fields are inside the object, and different fields are at different places. -/
structure Reg.Sound (reg : Reg) : Prop where
  inside : ∀ t fs u o, Located reg t fs u o → o < reg.size t
  apart : ∀ t fs gs u v o, Located reg t fs u o → Located reg t gs v o → fs = gs

/-- A declared argument: a value, or an object of a struct, with the fields the function may use. -/
inductive Param where
  | val (t : Ty)
  | obj (t : Name) (fields : List (List Name × Ty))

/-- The variables at the start: the values, and the fields of the objects. -/
def Param.vars (x : Name) : Param → List (Name × Ty)
  | .val t => [(x, t)]
  | .obj _ fields => fields.map fun q => (dotted x q.1, q.2)
def vars (ps : List (Name × Param)) : List (Name × Ty) := ps.flatMap fun q => q.2.vars q.1

/-- The arguments are declared in terms of registered structs; names contain no dots and are distinct; fields are not boolean (see `boolean_field_violated`). -/
structure Declared (reg : Reg) (ps : List (Name × Param)) : Prop where
  plain : ∀ q ∈ ps, '.' ∉ q.1
  distinct : (ps.map (·.1)).Nodup
  known : ∀ x t fields, (x, Param.obj t fields) ∈ ps → reg.known t = true ∧ typeNamed t = none
  located : ∀ x t fields, (x, Param.obj t fields) ∈ ps → ∀ q ∈ fields, (∃ o, Located reg t q.1 q.2.p o) ∧ q.2 ≠ .num .bool ∧ ∀ f ∈ q.1, '.' ∉ f

/-- How an argument is written. -/
def Param.text : Param → List Char
  | .val t => typeText t
  | .obj t _ => t

/-- A text is read as the function with the given types, arguments and statements. -/
def ReadsFn (cfg : Cfg) (src : List Char) (ret : Ty) (ps : List (Name × Param)) (body : Cmds) : Prop :=
  ∃ f rest, parseFunction cfg src = .ok f rest ∧ f.ret = typeText ret ∧ f.params = (ps.map fun q => (q.2.text, q.1)) ∧ body.Is f.body

/-- The values passed and the contents of the objects (by argument and offset) are those of the variables at the start. -/
structure Given (reg : Reg) (ps : List (Name × Param)) (ws : List WV) (objs : Name → Nat → WV) (ρ : Store) : Prop where
  value : ∀ (i : Nat) x t, ps[i]? = some (x, Param.val t) → ∃ z w, ρ x = some z ∧ z.Has t ∧ ws[i]? = some w ∧ Rep z w
  field : ∀ x t fields, (x, Param.obj t fields) ∈ ps → ∀ q ∈ fields, ∀ o, Located reg t q.1 q.2.p o → ∃ z, ρ (dotted x q.1) = some z ∧ z.Has q.2 ∧ Rep z (objs x o)

/-- The objects hold the values of the variables that stand for their fields. -/
def Holds (reg : Reg) (ps : List (Name × Param)) (objs : Name → Nat → WV) (ρ : Store) : Prop :=
  ∀ x t fields, (x, Param.obj t fields) ∈ ps → ∀ q ∈ fields, ∀ o, Located reg t q.1 q.2.p o → ∃ z, ρ (dotted x q.1) = some z ∧ Rep z (objs x o)

/-! ## Model -/

/-- The type of an argument: `DefineFunction`, codegen.cc 383–414; a struct is passed by pointer. -/
inductive Kind where
  | val (t : PTy)
  | obj (t : Name)

/-- The type with a name: C133, and the registered structs (`DTypeFactory::Add`, struct.h 67). -/
def kindNamed (reg : Reg) (t : List Char) : Option Kind := match typeNamed t with
  | some u => some (.val u)
  | none => if reg.known t = true then some (.obj t) else none

def kinds (reg : Reg) : List (List Char × List Char) → Option (List (Name × Kind))
  | [] => some []
  | p :: ps => (kindNamed reg p.1).bind fun k => (kinds reg ps).map fun r => (p.2, k) :: r

/-- The members of `p.f.g`: expression.cc 668–673 and 259–275 with compiler_expressions.cc 126–133: an embedded struct is a pointer to it (`GetStructField` adds the offset), a member of
anything else is refused. -/
def walk (reg : Reg) : Name → Nat → List Name → Option (PTy × Nat)
  | _, _, [] => none
  | t, off, f :: fs => match reg.member t f with
    | some (.val u, o) => if fs.isEmpty = true then some (u, off + o) else none
    | some (.struct t', o) => walk reg t' (off + o) fs
    | none => none

/-- Where an argument is: a value in the slot with its number (from `k`), an object in the slots from `b` on. -/
def argAt (reg : Reg) : Nat → Nat → List (Name × Kind) → Name → Option (Kind × Nat)
  | _, _, [], _ => none
  | k, b, (x, .val t) :: ps, n => if n = x then some (.val t, k) else argAt reg (k + 1) b ps n
  | k, b, (x, .obj t) :: ps, n => if n = x then some (.obj t, b) else argAt reg (k + 1) (b + reg.size t) ps n

/-- The space of the objects. -/
def total (reg : Reg) : List (Name × Kind) → Nat
  | [] => 0
  | (_, .val _) :: ps => total reg ps
  | (_, .obj t) :: ps => reg.size t + total reg ps

/-- The type and place of a variable or field. -/
def resolve (reg : Reg) (ps : List (Name × Kind)) (n : Name) : Option (PTy × Nat) := match splitDots n with
  | [] => none
  | x :: fs => (argAt reg 0 ps.length ps x).bind fun a => match a.1, fs with
    | .val t, [] => some (t, a.2)
    | .obj t, f :: fs => (walk reg t a.2 (f :: fs))
    | _, _ => none

/-- What validation knows. A boolean field is boolean: `IsPrimitive`, expression.cc 269–275. -/
def vEnv (reg : Reg) (ps : List (Name × Kind)) (n : Name) : Option PTy := (resolve reg ps n).map (·.1)

/-- What code generation knows. A boolean field is a pointer there (`GetStructField` gives values only for `IsNumber`, strings, vectors, spans and pointers), which no operator, assignment or
`return` accepts; here it is unknown. -/
def cEnv (reg : Reg) (ps : List (Name × Kind)) (n : Name) : Option (Option (PTy × Nat)) :=
  (resolve reg ps n).bind fun r => if (splitDots n).length ≠ 1 ∧ r.1 = .bit then none else some (some r)

/-- A compiled function. -/
structure Code where
  params : List (Name × Kind)
  body : FnCode

/-- The names of the arguments are distinct: `Function::Validate`, function.cc 33–52. -/
def distinct : List (Name × Kind) → Bool
  | [] => true
  | q :: ps => !(ps.map (·.1)).contains q.1 && distinct ps

/-- `CompileFunction`, as `WordsFn.compileFn`. -/
def compileFn (reg : Reg) (fpu : Fpu) (ju : Types.Str.Val) (cfg : Cfg) (src : List Char) : Option Code :=
  match parseFunction cfg src with
  | .ok f _ => (typeNamed f.ret).bind fun ret => (kinds reg f.params).bind fun ps =>
    if distinct ps = true then (vStmts (vSem fpu) ret false f.body (vEnv reg ps)).bind fun _ =>
      (sitess fpu ju ret f.body ⟨0, ps.length + total reg ps, cEnv reg ps⟩).bind fun r => (genFunction (fun _ => false) (marks f.body 0).1).map fun st => ⟨ps, ⟨r.1, st⟩⟩
    else none
  | .fail => none
  | .fuel => none

/-- Memory at the start: the objects, from `b` on. -/
def memory (reg : Reg) (objs : Name → Nat → WV) (junk : Nat → WV) : Nat → List (Name × Kind) → Nat → WV
  | _, [], i => junk i
  | b, (_, .val _) :: ps, i => memory reg objs junk b ps i
  | b, (x, .obj t) :: ps, i => if b ≤ i ∧ i < b + reg.size t then objs x (i - b) else memory reg objs junk (b + reg.size t) ps i

/-- The slots at the start of a call: the arguments (those of objects are pointers, of which nothing is assumed), the objects, and anything else. -/
def entry (reg : Reg) (ps : List (Name × Kind)) (junk : Nat → WV) (ws : List WV) (objs : Name → Nat → WV) (i : Nat) : WV :=
  if i < ps.length then ws.getD i (junk i) else memory reg objs junk ps.length ps i

/-- The contents of the object of an argument. -/
def object (reg : Reg) (ps : List (Name × Kind)) (slots : Nat → WV) (x : Name) (o : Nat) : WV := match argAt reg 0 ps.length ps x with
  | some (_, b) => slots (b + o)
  | none => .num .poison

/-- A call returns `v` and leaves the objects with these contents. -/
def Returns (reg : Reg) (fpu : Fpu) (ju : Types.Str.Val) (c : Code) (junk : Nat → WV) (ws : List WV) (objs : Name → Nat → WV) (v : WV) (objs' : Name → Nat → WV) : Prop :=
  ∃ slots', Ran fpu ju c.body (entry reg c.params junk ws objs) slots' v ∧ objs' = object reg c.params slots'

/-- A call is undefined. -/
def Undefined (reg : Reg) (fpu : Fpu) (ju : Types.Str.Val) (c : Code) (junk : Nat → WV) (ws : List WV) (objs : Name → Nat → WV) : Prop :=
  Stuck fpu ju c.body (entry reg c.params junk ws objs)

/-! ## Lemmas: places -/

def Param.kind : Param → Kind
  | .val t => .val t.p
  | .obj t _ => .obj t
def kindsOf (ps : List (Name × Param)) : List (Name × Kind) := ps.map fun q => (q.1, q.2.kind)

theorem walk_located (reg : Reg) : ∀ (fs : List Name) (t : Name) (off : Nat) (u : PTy) (p : Nat), walk reg t off fs = some (u, p) ↔ ∃ o, Located reg t fs u o ∧ p = off + o := by
  intro fs
  induction fs with
  | nil => intro t off u p; simp only [walk]; constructor
           · intro h; cases h
           · rintro ⟨o, h, _⟩; cases h
  | cons f fs ih =>
    intro t off u p
    rw [walk]
    constructor
    · intro h
      split at h
      · next v o hm =>
        split at h
        · next he => cases h; cases fs with
          | nil => exact ⟨o, .leaf hm, rfl⟩
          | cons _ _ => cases he
        · cases h
      · next t' o hm =>
        obtain ⟨o', h1, h2⟩ := (ih _ _ _ _).1 h
        exact ⟨o + o', .sub hm h1, by omega⟩
      · cases h
    · rintro ⟨o, h, rfl⟩
      cases h with
      | leaf hm => rw [hm]; rfl
      | sub hm h' => rw [hm]; exact (ih _ _ _ _).2 ⟨_, h', by omega⟩

theorem at_val (reg : Reg) : ∀ (ps : List (Name × Kind)) (k b : Nat) (n : Name) (t : PTy) (s : Nat), argAt reg k b ps n = some (.val t, s) → k ≤ s ∧ s < k + ps.length := by
  intro ps
  induction ps with
  | nil => intro k b n t s h; cases h
  | cons q ps ih =>
    intro k b n t s h
    rcases q with ⟨x, u | u⟩ <;> rw [argAt] at h <;> split at h
    · cases h; simp
    · have := ih _ _ _ _ _ h; simp only [List.length_cons]; omega
    · cases h
    · have := ih _ _ _ _ _ h; simp only [List.length_cons]; omega

theorem at_obj (reg : Reg) : ∀ (ps : List (Name × Kind)) (k b : Nat) (n : Name) (t : Name) (s : Nat), argAt reg k b ps n = some (.obj t, s) → b ≤ s ∧ s + reg.size t ≤ b + total reg ps := by
  intro ps
  induction ps with
  | nil => intro k b n t s h; cases h
  | cons q ps ih =>
    intro k b n t s h
    rcases q with ⟨x, u | u⟩ <;> rw [argAt] at h <;> split at h <;> rw [total]
    · cases h
    · exact ih _ _ _ _ _ h
    · cases h; omega
    · have := ih _ _ _ _ _ h; omega

theorem vals_apart (reg : Reg) : ∀ (ps : List (Name × Kind)) (k b : Nat) (n m : Name) (t u : PTy) (s : Nat), argAt reg k b ps n = some (.val t, s) → argAt reg k b ps m = some (.val u, s) → n = m := by
  intro ps
  induction ps with
  | nil => intro k b n m t u s h; cases h
  | cons q ps ih =>
    intro k b n m t u s h h'
    rcases q with ⟨x, v | v⟩ <;> rw [argAt] at h h' <;> split at h <;> split at h'
    · next a c => rw [a, c]
    · cases h; have := at_val reg _ _ _ _ _ _ h'; omega
    · cases h'; have := at_val reg _ _ _ _ _ _ h; omega
    · exact ih _ _ _ _ _ _ _ h h'
    · cases h
    · cases h
    · cases h'
    · exact ih _ _ _ _ _ _ _ h h'

theorem objs_apart (reg : Reg) : ∀ (ps : List (Name × Kind)) (k b : Nat) (n m : Name) (t u : Name) (s r : Nat), argAt reg k b ps n = some (.obj t, s) → argAt reg k b ps m = some (.obj u, r) →
    n = m ∨ s + reg.size t ≤ r ∨ r + reg.size u ≤ s := by
  intro ps
  induction ps with
  | nil => intro k b n m t u s r h; cases h
  | cons q ps ih =>
    intro k b n m t u s r h h'
    rcases q with ⟨x, v | v⟩ <;> rw [argAt] at h h' <;> split at h <;> split at h'
    · cases h
    · cases h
    · cases h'
    · exact ih _ _ _ _ _ _ _ _ h h'
    · next a c => exact .inl (by rw [a, c])
    · cases h; have := at_obj reg _ _ _ _ _ _ h'; exact .inr (.inl (by omega))
    · cases h'; have := at_obj reg _ _ _ _ _ _ h; exact .inr (.inr (by omega))
    · exact ih _ _ _ _ _ _ _ _ h h'

theorem at_mem (reg : Reg) : ∀ (ps : List (Name × Kind)) (k b : Nat) (n : Name) (a : Kind × Nat), argAt reg k b ps n = some a → (n, a.1) ∈ ps := by
  intro ps
  induction ps with
  | nil => intro k b n a h; cases h
  | cons q ps ih =>
    intro k b n a h
    rcases q with ⟨x, v | v⟩ <;> rw [argAt] at h <;> split at h
    · next e => cases h; rw [e]; simp
    · exact List.mem_cons_of_mem _ (ih _ _ _ _ h)
    · next e => cases h; rw [e]; simp
    · exact List.mem_cons_of_mem _ (ih _ _ _ _ h)

theorem at_of (reg : Reg) : ∀ (ps : List (Name × Kind)) (k b i : Nat) (n : Name) (c : Kind), (ps.map (·.1)).Nodup → ps[i]? = some (n, c) →
    ∃ s, argAt reg k b ps n = some (c, s) ∧ ∀ t, c = .val t → s = k + i := by
  intro ps
  induction ps with
  | nil => intro k b i n c _ h; simp at h
  | cons q ps ih =>
    intro k b i n c hn h
    rw [List.map_cons, List.nodup_cons] at hn
    cases i with
    | zero =>
      simp only [List.getElem?_cons_zero, Option.some.injEq] at h
      subst h
      cases c with
      | val t => rw [argAt, if_pos rfl]; exact ⟨k, rfl, fun _ _ => rfl⟩
      | obj t => rw [argAt, if_pos rfl]; exact ⟨b, rfl, fun _ h => by cases h⟩
    | succ i =>
      rw [List.getElem?_cons_succ] at h
      have hne : n ≠ q.1 := by
        rintro rfl
        exact hn.1 (List.mem_map.2 ⟨_, List.mem_of_getElem? h, rfl⟩)
      rcases q with ⟨x, v | v⟩
      · obtain ⟨s, h1, h2⟩ := ih (k + 1) b i n c hn.2 h
        exact ⟨s, by rw [argAt, if_neg hne]; exact h1, fun t ht => by rw [h2 t ht]; omega⟩
      · obtain ⟨s, h1, h2⟩ := ih (k + 1) (b + reg.size v) i n c hn.2 h
        exact ⟨s, by rw [argAt, if_neg hne]; exact h1, fun t ht => by rw [h2 t ht]; omega⟩

theorem at_none (reg : Reg) (ps : List (Name × Kind)) (k b : Nat) (n : Name) (h : n ∉ ps.map (·.1)) : argAt reg k b ps n = none := by
  cases ha : argAt reg k b ps n with
  | none => rfl
  | some a => exact absurd (List.mem_map.2 ⟨_, at_mem reg ps k b n a ha, rfl⟩) h

theorem memory_at (reg : Reg) (objs : Name → Nat → WV) (junk : Nat → WV) : ∀ (ps : List (Name × Kind)) (k b : Nat) (x t : Name) (s o : Nat), argAt reg k b ps x = some (.obj t, s) → o < reg.size t →
    memory reg objs junk b ps (s + o) = objs x o := by
  intro ps
  induction ps with
  | nil => intro k b x t s o h; cases h
  | cons q ps ih =>
    intro k b x t s o h ho
    rcases q with ⟨y, v | v⟩ <;> rw [argAt] at h <;> split at h <;> rw [memory]
    · cases h
    · exact ih _ _ _ _ _ _ h ho
    · next e => cases h; rw [if_pos (by omega), e, show b + o - b = o by omega]
    · have := at_obj reg _ _ _ _ _ _ h
      rw [if_neg (by omega)]
      exact ih _ _ _ _ _ _ h ho

/-! ## Lemmas: variables -/

theorem resolve_val {reg : Reg} {ps : List (Name × Kind)} {x : Name} (hx : '.' ∉ x) {t : PTy} {s : Nat} (h : argAt reg 0 ps.length ps x = some (.val t, s)) : resolve reg ps x = some (t, s) := by
  unfold resolve
  rw [split_plain hx]
  simp only [h, Option.bind_some]

theorem located_ne {reg : Reg} {t : Name} {fs : List Name} {u : PTy} {o : Nat} (h : Located reg t fs u o) : fs ≠ [] := by cases h <;> simp

theorem resolve_field {reg : Reg} {ps : List (Name × Kind)} {x : Name} (hx : '.' ∉ x) {fs : List Name} (hf : ∀ f ∈ fs, '.' ∉ f) {t : Name} {s : Nat}
    (h : argAt reg 0 ps.length ps x = some (.obj t, s)) {u : PTy} {o : Nat} (hl : Located reg t fs u o) : resolve reg ps (dotted x fs) = some (u, s + o) := by
  unfold resolve
  rw [split_dotted fs x hx hf]
  simp only [h, Option.bind_some]
  have := (walk_located reg fs t s u (s + o)).2 ⟨o, hl, rfl⟩
  cases fs with
  | nil => exact absurd rfl (located_ne hl)
  | cons f fs => exact this

/-- Where a variable or field is. -/
theorem resolved {reg : Reg} {ps : List (Name × Kind)} {n : Name} {r : PTy × Nat} (h : resolve reg ps n = some r) :
    (argAt reg 0 ps.length ps n = some (.val r.1, r.2) ∧ (splitDots n).length = 1) ∨
    ∃ x fs t s o, splitDots n = x :: fs ∧ argAt reg 0 ps.length ps x = some (.obj t, s) ∧ Located reg t fs r.1 o ∧ r.2 = s + o := by
  unfold resolve at h
  cases hs : splitDots n with
  | nil => exact absurd hs (split_ne n)
  | cons x fs =>
    rw [hs] at h
    simp only at h
    obtain ⟨a, ha, h'⟩ := Real.bind_inv h
    clear h
    have h := h'
    clear h'
    rcases a with ⟨t | t, s⟩
    · cases fs with
      | nil =>
        have hx : n = x := dotted_split n x [] hs
        subst hx
        have h : some (t, s) = some r := h
        cases h
        exact .inl ⟨ha, rfl⟩
      | cons f fs => cases h
    · cases fs with
      | nil => cases h
      | cons f fs =>
        obtain ⟨o, h1, h2⟩ := (walk_located reg (f :: fs) t s r.1 r.2).1 h
        exact .inr ⟨x, f :: fs, t, s, o, rfl, ha, h1, h2⟩

theorem resolve_none {reg : Reg} {ps : List (Name × Kind)} {n : Name} (hd : '.' ∉ n) (hn : n ∉ ps.map (·.1)) : resolve reg ps n = none := by
  unfold resolve
  rw [split_plain hd]
  simp only [at_none reg ps 0 ps.length n hn]
  rfl

theorem env_some {reg : Reg} {ps : List (Name × Kind)} {n : Name} {b : Option (PTy × Nat)} (h : cEnv reg ps n = some b) : ∃ r, b = some r ∧ resolve reg ps n = some r := by
  unfold cEnv at h
  obtain ⟨r, hr, h⟩ := Real.bind_inv h
  split at h
  · cases h
  · cases h; exact ⟨r, rfl, hr⟩

theorem lookup_vars {reg : Reg} {ps : List (Name × Param)} (hd : Declared reg ps) {n : Name} {τ : Ty} (h : argType (vars ps) n = some τ) :
    (∃ i : Nat, ps[i]? = some (n, Param.val τ) ∧ '.' ∉ n) ∨ ∃ x t fields path, (x, Param.obj t fields) ∈ ps ∧ (path, τ) ∈ fields ∧ n = dotted x path := by
  have hm := Function.lookup_mem _ _ _ h
  unfold vars at hm
  rw [List.mem_flatMap] at hm
  obtain ⟨⟨x, q⟩, hq, hm⟩ := hm
  cases q with
  | val t =>
    simp only [Param.vars, List.mem_singleton, Prod.mk.injEq] at hm
    obtain ⟨rfl, rfl⟩ := hm
    obtain ⟨i, hi⟩ := List.mem_iff_getElem?.1 hq
    exact .inl ⟨i, hi, hd.plain _ hq⟩
  | obj t fields =>
    simp only [Param.vars, List.mem_map, Prod.mk.injEq] at hm
    obtain ⟨⟨path, u⟩, hp, rfl, rfl⟩ := hm
    exact .inr ⟨x, t, fields, path, hq, hp, rfl⟩

theorem kinds_names (ps : List (Name × Param)) : (kindsOf ps).map (·.1) = ps.map (·.1) := by simp [kindsOf, List.map_map, Function.comp_def]

theorem kinds_get {ps : List (Name × Param)} {i : Nat} {x : Name} {q : Param} (h : ps[i]? = some (x, q)) : (kindsOf ps)[i]? = some (x, q.kind) := by
  unfold kindsOf
  rw [List.getElem?_map, h]; rfl

theorem obj_at {reg : Reg} {ps : List (Name × Param)} (hd : Declared reg ps) {x t : Name} {fields : List (List Name × Ty)} (h : (x, Param.obj t fields) ∈ ps) :
    ∃ s, argAt reg 0 (kindsOf ps).length (kindsOf ps) x = some (.obj t, s) := by
  obtain ⟨i, hi⟩ := List.mem_iff_getElem?.1 h
  obtain ⟨s, hs, _⟩ := at_of reg (kindsOf ps) 0 (kindsOf ps).length i x (.obj t) (by rw [kinds_names]; exact hd.distinct) (kinds_get hi)
  exact ⟨s, hs⟩

theorem val_at {reg : Reg} {ps : List (Name × Param)} (hd : Declared reg ps) {i : Nat} {x : Name} {t : Ty} (h : ps[i]? = some (x, Param.val t)) :
    argAt reg 0 (kindsOf ps).length (kindsOf ps) x = some (.val t.p, i) := by
  obtain ⟨s, hs, he⟩ := at_of reg (kindsOf ps) 0 (kindsOf ps).length i x (.val t.p) (by rw [kinds_names]; exact hd.distinct) (kinds_get h)
  rw [hs, he _ rfl, Nat.zero_add]

theorem env_val {reg : Reg} {ps : List (Name × Param)} (hd : Declared reg ps) {i : Nat} {x : Name} {t : Ty} (h : ps[i]? = some (x, Param.val t)) : cEnv reg (kindsOf ps) x = some (some (t.p, i)) := by
  have hx : '.' ∉ x := hd.plain _ (List.mem_of_getElem? h)
  unfold cEnv
  rw [resolve_val hx (val_at hd h), Option.bind_some, split_plain hx, if_neg (by simp)]

theorem p_bit {t : Ty} (h : t ≠ .num .bool) : t.p ≠ .bit := by
  cases t with
  | str => intro h; cases h
  | num t => cases t with
    | bool => exact absurd rfl h
    | int t => intro h; cases h
    | flt F => intro h; cases h

theorem env_field {reg : Reg} {ps : List (Name × Param)} (hd : Declared reg ps) {x t : Name} {fields : List (List Name × Ty)} (h : (x, Param.obj t fields) ∈ ps) {path : List Name} {τ : Ty}
    (hp : (path, τ) ∈ fields) {s : Nat} (hs : argAt reg 0 (kindsOf ps).length (kindsOf ps) x = some (.obj t, s)) {o : Nat} (ho : Located reg t path τ.p o) :
    cEnv reg (kindsOf ps) (dotted x path) = some (some (τ.p, s + o)) := by
  obtain ⟨_, h2, h3⟩ := hd.located x t fields h _ hp
  unfold cEnv
  rw [resolve_field (hd.plain _ h) h3 hs ho, Option.bind_some, if_neg (fun h => p_bit h2 h.2)]

theorem static_args {reg : Reg} (hr : reg.Sound) {ps : List (Name × Param)} (hd : Declared reg ps) :
    Static (argType (vars ps)) (cEnv reg (kindsOf ps)) ((kindsOf ps).length + total reg (kindsOf ps)) where
  typed n h := by obtain ⟨r, h, _⟩ := env_some h; cases h
  below n b h := by
    obtain ⟨r, h, hr'⟩ := env_some h
    cases h
    rcases resolved hr' with ⟨h1, _⟩ | ⟨x, fs, t, s, o, _, h1, h2, h3⟩
    · have := at_val reg _ _ _ _ _ _ h1; omega
    · have := at_obj reg _ _ _ _ _ _ h1; have := hr.inside _ _ _ _ h2; omega
  apart n m b c h1 h2 he := by
    obtain ⟨r, h1, hr1⟩ := env_some h1
    obtain ⟨r', h2, hr2⟩ := env_some h2
    cases h1
    cases h2
    rcases resolved hr1 with ⟨a1, _⟩ | ⟨x, fs, t, s, o, a0, a1, a2, a3⟩ <;> rcases resolved hr2 with ⟨b1, _⟩ | ⟨y, gs, u, s', o', b0, b1, b2, b3⟩
    · rw [he] at a1; exact vals_apart reg _ _ _ _ _ _ _ _ a1 b1
    · have := at_val reg _ _ _ _ _ _ a1; have := at_obj reg _ _ _ _ _ _ b1; omega
    · have := at_val reg _ _ _ _ _ _ b1; have := at_obj reg _ _ _ _ _ _ a1; omega
    · have i1 := hr.inside _ _ _ _ a2
      have i2 := hr.inside _ _ _ _ b2
      rcases objs_apart reg _ _ _ _ _ _ _ _ _ a1 b1 with rfl | h | h
      · rw [a1] at b1
        cases b1
        have ho : o = o' := by omega
        subst ho
        have := hr.apart _ _ _ _ _ _ a2 b2
        subst this
        rw [dotted_split n _ _ a0, dotted_split m _ _ b0]
      · omega
      · omega
  dom n τ h := by
    rcases lookup_vars hd h with ⟨i, hi, _⟩ | ⟨x, t, fields, path, h1, h2, rfl⟩
    · exact ⟨i, env_val hd hi⟩
    · obtain ⟨s, hs⟩ := obj_at hd h1
      obtain ⟨⟨o, ho⟩, _⟩ := hd.located x t fields h1 _ h2
      exact ⟨s + o, env_field hd h1 h2 hs ho⟩

theorem types_args {reg : Reg} {ps : List (Name × Param)} (hd : Declared reg ps) : TypesOk (argType (vars ps)) (vEnv reg (kindsOf ps)) := by
  intro n τ h
  unfold vEnv
  rcases lookup_vars hd h with ⟨i, hi, hx⟩ | ⟨x, t, fields, path, h1, h2, rfl⟩
  · rw [resolve_val hx (val_at hd hi)]; rfl
  · obtain ⟨s, hs⟩ := obj_at hd h1
    obtain ⟨⟨o, ho⟩, _, h3⟩ := hd.located x t fields h1 _ h2
    rw [resolve_field (hd.plain _ h1) h3 hs ho]; rfl

theorem dyn_args {reg : Reg} (hr : reg.Sound) {ps : List (Name × Param)} (hd : Declared reg ps) {ws : List WV} {objs : Name → Nat → WV} {ρ : Store} (hg : Given reg ps ws objs ρ) (junk : Nat → WV) :
    Dyn (argType (vars ps)) (cEnv reg (kindsOf ps)) (entry reg (kindsOf ps) junk ws objs) ρ where
  env n τ v h hv := by
    rcases lookup_vars hd h with ⟨i, hi, hx⟩ | ⟨x, t, fields, path, h1, h2, rfl⟩
    · obtain ⟨z, w, g1, g2, g3, g4⟩ := hg.value i n τ hi
      rw [g1] at hv
      cases hv
      have hlt : i < (kindsOf ps).length := (List.getElem?_eq_some_iff.1 (kinds_get hi)).1
      refine ⟨w, ?_, g4⟩
      unfold envOf
      rw [env_val hd hi]
      simp only [entry, if_pos hlt]
      rw [List.getD_eq_getElem?_getD, g3]; rfl
    · obtain ⟨s, hs⟩ := obj_at hd h1
      obtain ⟨⟨o, ho⟩, _⟩ := hd.located x t fields h1 _ h2
      obtain ⟨z, g1, g2, g3⟩ := hg.field x t fields h1 _ h2 o ho
      rw [g1] at hv
      cases hv
      refine ⟨objs x o, ?_, g3⟩
      unfold envOf
      rw [env_field hd h1 h2 hs ho]
      have := at_obj reg _ _ _ _ _ _ hs
      simp only [entry]
      rw [if_neg (by omega), memory_at reg objs junk _ _ _ _ _ _ _ hs (hr.inside _ _ _ _ ho)]
  fit n τ h := by
    rcases lookup_vars hd h with ⟨i, hi, hx⟩ | ⟨x, t, fields, path, h1, h2, rfl⟩
    · obtain ⟨z, w, g1, g2, _⟩ := hg.value i n τ hi
      exact ⟨z, g1, g2⟩
    · obtain ⟨⟨o, ho⟩, _⟩ := hd.located x t fields h1 _ h2
      obtain ⟨z, g1, g2, g3⟩ := hg.field x t fields h1 _ h2 o ho
      exact ⟨z, g1, g2⟩

theorem type_vars {reg : Reg} {ps : List (Name × Param)} {x t : Name} {fields : List (List Name × Ty)} (h : (x, Param.obj t fields) ∈ ps) {path : List Name} {τ : Ty} (hp : (path, τ) ∈ fields)
    : ∃ σ, argType (vars ps) (dotted x path) = some σ := by
  have hm : (dotted x path, τ) ∈ vars ps := by
    unfold vars
    rw [List.mem_flatMap]
    exact ⟨_, h, by simp only [Param.vars, List.mem_map]; exact ⟨_, hp, rfl⟩⟩
  unfold argType
  cases hl : (vars ps).lookup (dotted x path) with
  | some σ => exact ⟨σ, rfl⟩
  | none =>
    have := List.lookup_eq_none_iff.1 hl _ hm
    simp at this

theorem holds_fields {reg : Reg} {ps : List (Name × Param)} (hd : Declared reg ps) {slots : Nat → WV} {ρ : Store}
    (h : Dyn (argType (vars ps)) (cEnv reg (kindsOf ps)) slots ρ) : Holds reg ps (object reg (kindsOf ps) slots) ρ := by
  intro x t fields h1 q h2 o ho
  obtain ⟨s, hs⟩ := obj_at hd h1
  obtain ⟨σ, hσ⟩ := type_vars (reg := reg) h1 h2
  obtain ⟨z, hz, _⟩ := h.fit _ _ hσ
  obtain ⟨w, hw, hr⟩ := h.env _ _ _ hσ hz
  refine ⟨z, hz, ?_⟩
  unfold envOf at hw
  rw [env_field hd h1 h2 hs ho] at hw
  simp only [Option.some.injEq, Prod.mk.injEq] at hw
  unfold object
  rw [hs]
  simp only
  rw [hw.2]
  exact hr

theorem kinds_ok {reg : Reg} {ps : List (Name × Param)} (hk : ∀ x t fields, (x, Param.obj t fields) ∈ ps → reg.known t = true ∧ typeNamed t = none) :
    kinds reg (ps.map fun q => (q.2.text, q.1)) = some (kindsOf ps) := by
  induction ps with
  | nil => rfl
  | cons q ps ih =>
    have h1 := ih fun x t fields h => hk x t fields (List.mem_cons_of_mem _ h)
    rw [List.map_cons, kinds]
    have h2 : kindNamed reg q.2.text = some q.2.kind := by
      unfold kindNamed
      obtain ⟨x, t | ⟨t, fields⟩⟩ := q
      · simp only [Param.text, named_type]; rfl
      · have := hk x t fields (by simp)
        simp only [Param.text, this.2, this.1, if_true]; rfl
    simp only [h2, Option.bind_some]
    rw [h1]
    rfl

theorem distinct_ok (ps : List (Name × Kind)) (h : (ps.map (·.1)).Nodup) : distinct ps = true := by
  induction ps with
  | nil => rfl
  | cons q ps ih =>
    rw [List.map_cons, List.nodup_cons] at h
    rw [distinct, ih h.2]
    simpa using h.1

/-! ## The theorems -/

/-- **C166.** A text that is read as a function over values and objects of registered structs, well typed where the fields are variables, with distinct names, is compiled; and for all values and
objects passed the code returns exactly what the statements return, and then every field of every object holds what the statements have left in it; it is undefined exactly if the statements
reach an undefined operation or the end of the body, and runs forever exactly if the statements do not end. Partial: no field is boolean. -/
theorem fields_function_computes_partial (reg : Reg) (hr : reg.Sound) (fpu : Fpu) (ju : Types.Str.Val) (cfg : Cfg) (src : List Char) (ret : Ty) (ps : List (Name × Param)) (body : Cmds)
    (hsrc : ReadsFn cfg src ret ps body) (hd : Declared reg ps) (hok : body.Ok fpu ret false (argType (vars ps))) (hc : body.Clean) (hn : (ps.map (·.1) ++ body.defs).Nodup)
    (hdots : ∀ x ∈ body.defs, '.' ∉ x) :
    ∃ code, compileFn reg fpu ju cfg src = some code ∧ ∀ ws objs junk ρ, Given reg ps ws objs ρ →
      (∀ v objs', Returns reg fpu ju code junk ws objs v objs' → ∃ n ρ' z, body.exec fpu ret n (argType (vars ps)) ρ = .ret ρ' z ∧ Rep z v ∧ Holds reg ps objs' ρ') ∧
      (∀ n ρ' z, body.exec fpu ret n (argType (vars ps)) ρ = .ret ρ' z → ∃ v objs', Returns reg fpu ju code junk ws objs v objs' ∧ Rep z v ∧ Holds reg ps objs' ρ') ∧
      (Undefined reg fpu ju code junk ws objs ↔ ∃ n, body.exec fpu ret n (argType (vars ps)) ρ = .undefined ∨ ∃ ρ', body.exec fpu ret n (argType (vars ps)) ρ = .next ρ') ∧
      ((¬∃ v objs', Returns reg fpu ju code junk ws objs v objs') ∧ ¬Undefined reg fpu ju code junk ws objs ↔ ∀ n, body.exec fpu ret n (argType (vars ps)) ρ = .more) := by
  obtain ⟨f, rest, h1, h2, h3, h4⟩ := hsrc
  have hfresh : ∀ x ∈ body.defs, resolve reg (kindsOf ps) x = none := fun x hx => resolve_none (hdots x hx) (by
    rw [kinds_names]
    exact fun hm => (List.nodup_append.1 hn).2.2 x hm x hx rfl)
  obtain ⟨codes, cs', st, k1, h5, k5⟩ := body_runs fpu ju ret (argType (vars ps)) ⟨0, (kindsOf ps).length + total reg (kindsOf ps), cEnv reg (kindsOf ps)⟩ (static_args hr hd) body f.body h4 hok hc
    (fun x hx => by show cEnv reg (kindsOf ps) x = none; unfold cEnv; rw [hfresh x hx]; rfl) (List.nodup_append.1 hn).2.1
  refine ⟨⟨kindsOf ps, codes, st⟩, ?_, fun ws objs junk ρ hg => ?_⟩
  · unfold compileFn
    rw [h1]
    simp only
    rw [h2, named_type, h3, kinds_ok hd.known]
    obtain ⟨v, hval, _⟩ := vcmds_ok fpu ju ret body f.body h4 false (argType (vars ps)) hok (vEnv reg (kindsOf ps)) (types_args hd)
      (fun x hx => by unfold vEnv; rw [hfresh x hx]; rfl) (List.nodup_append.1 hn).2.1
    simp only [Option.bind_some]
    rw [if_pos (distinct_ok _ (by rw [kinds_names]; exact hd.distinct)), hval]
    simp only [Option.bind_some]
    rw [k1]
    simp only [Option.bind_some]
    rw [h5]
    rfl
  · obtain ⟨g1, g2, g3, g4⟩ := k5 _ _ (dyn_args hr hd hg junk)
    refine ⟨?_, ?_, g3, ?_⟩
    · rintro v _ ⟨m, hm, rfl⟩
      obtain ⟨n, ρ', z, h6, h7, h8⟩ := g1 m v hm
      exact ⟨n, ρ', z, h6, h7, holds_fields hd h8⟩
    · intro n ρ' z h
      obtain ⟨m, v, h6, h7, h8⟩ := g2 n ρ' z h
      exact ⟨v, _, ⟨m, h6, rfl⟩, h7, holds_fields hd h8⟩
    · rw [← g4]
      exact and_congr_left' (not_congr ⟨fun ⟨v, _, m, h, _⟩ => ⟨m, v, h⟩, fun ⟨m, v, h⟩ => ⟨v, _, m, h, rfl⟩⟩)

/-- **C166.** A call has at most one outcome. -/
theorem fields_call_deterministic (reg : Reg) (fpu : Fpu) (ju : Types.Str.Val) (c : Code) (junk : Nat → WV) (ws : List WV) (objs : Name → Nat → WV) (v : WV) (objs' : Name → Nat → WV)
    (h : Returns reg fpu ju c junk ws objs v objs') :
    (∀ w objs'', Returns reg fpu ju c junk ws objs w objs'' → w = v ∧ objs'' = objs') ∧ ¬Undefined reg fpu ju c junk ws objs := by
  obtain ⟨slots, ⟨hv, k, hk⟩, rfl⟩ := h
  have key : ∀ k' r, steps (machine fpu ju c.body.table) c.body.blocks.blk k' (start (entry reg c.params junk ws objs)) = r → (∀ q, r ≠ .run q) → Res.halt (slots, some v) = r :=
    fun k' r h hr => steps_det (machine fpu ju c.body.table) c.body.blocks.blk hk (by simp) h hr
  refine ⟨?_, ?_⟩
  · rintro w _ ⟨slots', ⟨_, k', h'⟩, rfl⟩
    have := key k' _ h' (by simp)
    simp only [Res.halt.injEq, Prod.mk.injEq, Option.some.injEq] at this
    exact ⟨this.2.symm, by rw [this.1]⟩
  · rintro (⟨k', h'⟩ | ⟨k', h'⟩ | ⟨slots', r, ⟨k', h'⟩, hr⟩)
    · have := key k' _ h' (by simp); cases this
    · have := key k' _ h' (by simp); cases this
    · have := key k' _ h' (by simp)
      simp only [Res.halt.injEq, Prod.mk.injEq] at this
      rcases hr with rfl | rfl
      · simp at this
      · exact hv (Option.some.inj this.2)

/-- **C166** is false of boolean fields: `bool f(T x) { return x.flag; }` is well typed, and refused. -/
theorem boolean_field_violated (reg : Reg) (fpu : Fpu) (ju : Types.Str.Val) (cfg : Cfg) (src : List Char) (x t : Name) (path : List Name) (hx : '.' ∉ x) (hp : ∀ f ∈ path, '.' ∉ f)
    (hk : reg.known t = true ∧ typeNamed t = none) (o : Nat) (hl : Located reg t path .bit o)
    (hsrc : ReadsFn cfg src (.num .bool) [(x, .obj t [(path, .num .bool)])] (.cons (.ret (.var (dotted x path))) .nil)) :
    Cmds.Ok fpu (.num .bool) false (argType (vars [(x, .obj t [(path, .num .bool)])])) (.cons (.ret (.var (dotted x path))) .nil) ∧ compileFn reg fpu ju cfg src = none := by
  have hty : argType (vars [(x, Param.obj t [(path, .num .bool)])]) (dotted x path) = some (.num .bool) := by
    simp [argType, vars, Param.vars, List.lookup]
  refine ⟨⟨⟨.num .bool, ⟨hty, trivial, trivial, trivial⟩, rfl⟩, trivial⟩, ?_⟩
  obtain ⟨f, rest, h1, h2, h3, h4⟩ := hsrc
  have hk' : kinds reg f.params = some [(x, Kind.obj t)] := by
    rw [h3]
    exact kinds_ok (ps := [(x, Param.obj t [(path, .num .bool)])]) fun y u fields h => by
      simp only [List.mem_singleton, Prod.mk.injEq, Param.obj.injEq] at h
      rw [h.2.1]; exact hk
  have hres : resolve reg [(x, Kind.obj t)] (dotted x path) = some (.bit, 1 + o) :=
    resolve_field hx hp (s := 1) (by rw [argAt, if_pos rfl]; rfl) hl
  have henv : cEnv reg [(x, Kind.obj t)] (dotted x path) = none := by
    unfold cEnv
    rw [hres, Option.bind_some, if_pos]
    rw [split_dotted path x hx hp]
    refine ⟨?_, rfl⟩
    cases path with
    | nil => exact absurd rfl (located_ne hl)
    | cons f fs => simp
  cases hb : f.body with
  | nil => rw [hb] at h4; cases h4
  | cons s ss =>
    rw [hb] at h4
    cases h4 with
    | cons h5 h6 =>
    cases h6
    cases h5 with
    | @ret _ e he =>
    have hsite : retSite fpu ju .bit e ⟨0, 1 + total reg [(x, Kind.obj t)], cEnv reg [(x, Kind.obj t)]⟩ = none := by
      have hpl : Plain arity (undotE e) := plain_undot (plain_ex _ _ he)
      have h7 := ty_gExpr (rt := rt fpu ju) (vars := cEnv reg [(x, Kind.obj t)]) arity (undotE e) hpl (fun n _ h => by obtain ⟨_, h, _⟩ := env_some h; cases h)
      have h8 : tyE (rt fpu ju) arity (tenvOf (cEnv reg [(x, Kind.obj t)])) (undotE e) = none := by
        unfold tyE
        rw [eval_tree, undot_tree, var_is he]
        rw [undotT, undotO, treeV]
        show (tySem (rt fpu ju) (tenvOf (cEnv reg [(x, Kind.obj t)]))).var (dotted x path) = none
        show tenvOf (cEnv reg [(x, Kind.obj t)]) (dotted x path) = none
        unfold tenvOf
        rw [henv]
      rw [h8] at h7
      have h9 := h7 ⟨0, 1 + total reg [(x, Kind.obj t)], cEnv reg [(x, Kind.obj t)]⟩ rfl
      unfold retSite site G.andThen
      simp only at h9
      simp only [h9]
      rfl
    unfold compileFn
    rw [h1]
    simp only
    rw [h2, named_type, hk', hb]
    simp only [Option.bind_some]
    split
    · rw [sitess, sites]
      have e : retSite fpu ju (Ty.p (.num .bool)) e ⟨0, [(x, Kind.obj t)].length + total reg [(x, Kind.obj t)], cEnv reg [(x, Kind.obj t)]⟩ = none := hsite
      rw [e]
      simp
    · rfl

/-! ### Every function has a text -/

def fnSrc (name : Name) (ret : Ty) (ps : List (Name × Param)) (body : Cmds) : FuncSrc :=
  ⟨⟨typeText ret, []⟩, name, ps.map fun q => (⟨q.2.text, []⟩, q.1), body.stmts⟩

theorem fn_text (fpu : Fpu) (cfg : Cfg) (ht : ∀ t, cfg.isType (typeText t) = true) (name : Name) (hname : NameOk cfg name)
    (ret : Ty) (ps : List (Name × Param)) (hps : ∀ q ∈ ps, NameOk cfg q.1) (hty : ∀ x t fields, (x, Param.obj t fields) ∈ ps → IsName t ∧ cfg.isType t = true)
    (body : Cmds) (hok : body.Ok fpu ret false (argType (vars ps))) (hn : body.Writable cfg)
    (src : List Char) (hs : sourceToks src = sourceToks (writeTokens (fnSrc name ret ps body).print)) : ReadsFn cfg src ret ps body := by
  obtain ⟨h1, h2⟩ := stmts_ok fpu ret cfg body false _ hok hn
  have hval : ∀ t, Ast.Ty.WF cfg ⟨typeText t, []⟩ := fun t => ⟨type_name t, by simp, ht t⟩
  have h3 := parse_function_print cfg (fnSrc name ret ps body) ⟨hval ret, hname, by
    intro p hp
    simp only [fnSrc, List.mem_map] at hp
    obtain ⟨⟨x, q⟩, hq, rfl⟩ := hp
    refine ⟨?_, hps _ hq⟩
    cases q with
    | val t => exact hval t
    | obj t fields => exact ⟨(hty x t fields hq).1, by simp, (hty x t fields hq).2⟩, h2⟩
  refine ⟨(fnSrc name ret ps body).func, [], ?_, rfl, ?_, h1⟩
  · rw [← h3]; unfold parseFunction; rw [hs]
  · simp only [FuncSrc.func, fnSrc, List.map_map]; rfl

/-- **C166.** Every function of the language has such a text. -/
theorem every_fields_function_has_text (fpu : Fpu) (cfg : Cfg) (ht : ∀ t, cfg.isType (typeText t) = true) (name : Name) (hname : NameOk cfg name)
    (ret : Ty) (ps : List (Name × Param)) (hps : ∀ q ∈ ps, NameOk cfg q.1) (hty : ∀ x t fields, (x, Param.obj t fields) ∈ ps → IsName t ∧ cfg.isType t = true)
    (body : Cmds) (hok : body.Ok fpu ret false (argType (vars ps))) (hn : body.Writable cfg) : ∃ src, ReadsFn cfg src ret ps body :=
  ⟨_, fn_text fpu cfg ht name hname ret ps hps hty body hok hn _ rfl⟩

/-! ### An instance: a line `L` with the embedded points `a` and `b`, of which a coordinate is moved -/

def lineReg : Reg where
  known t := decide (t = ['L'] ∨ t = ['P'])
  member t f :=
    if t = ['L'] then (if f = ['a'] then some (.struct ['P'], 0) else if f = ['b'] then some (.struct ['P'], 8) else if f = ['f'] then some (.val .bit, 16) else none)
    else if t = ['P'] then (if f = ['x'] then some (.val (.int .i32), 0) else if f = ['y'] then some (.val (.int .i32), 4) else none)
    else none
  size t := if t = ['L'] then 17 else 8

theorem point_fields {fs : List Name} {u : PTy} {o : Nat} (h : Located lineReg ['P'] fs u o) : (fs = [['x']] ∧ o = 0) ∨ (fs = [['y']] ∧ o = 4) := by
  cases h with
  | leaf h =>
    simp only [lineReg] at h
    rw [if_neg (by decide), if_pos (by simp)] at h
    split at h
    · next e => cases h; exact .inl ⟨by rw [e], rfl⟩
    · split at h
      · next e => cases h; exact .inr ⟨by rw [e], rfl⟩
      · cases h
  | sub h _ =>
    simp only [lineReg] at h
    rw [if_neg (by decide), if_pos (by simp)] at h
    split at h
    · cases h
    · split at h <;> cases h

theorem line_fields {fs : List Name} {u : PTy} {o : Nat} (h : Located lineReg ['L'] fs u o) :
    (fs = [['a'], ['x']] ∧ o = 0) ∨ (fs = [['a'], ['y']] ∧ o = 4) ∨ (fs = [['b'], ['x']] ∧ o = 8) ∨ (fs = [['b'], ['y']] ∧ o = 12) ∨ (fs = [['f']] ∧ o = 16) := by
  cases h with
  | leaf h =>
    simp only [lineReg] at h
    rw [if_pos (by simp)] at h
    split at h
    · cases h
    · split at h
      · cases h
      · split at h
        · next e => cases h; exact .inr (.inr (.inr (.inr ⟨by rw [e], rfl⟩)))
        · cases h
  | sub h h' =>
    simp only [lineReg] at h
    rw [if_pos (by simp)] at h
    split at h
    · next e =>
      cases h
      rcases point_fields h' with ⟨rfl, rfl⟩ | ⟨rfl, rfl⟩
      · exact .inl ⟨by rw [e], rfl⟩
      · exact .inr (.inl ⟨by rw [e], rfl⟩)
    · split at h
      · next e =>
        cases h
        rcases point_fields h' with ⟨rfl, rfl⟩ | ⟨rfl, rfl⟩
        · exact .inr (.inr (.inl ⟨by rw [e], rfl⟩))
        · exact .inr (.inr (.inr (.inl ⟨by rw [e], rfl⟩)))
      · split at h <;> cases h

theorem no_fields {t : Name} (h1 : t ≠ ['L']) (h2 : t ≠ ['P']) {fs : List Name} {u : PTy} {o : Nat} (h : Located lineReg t fs u o) : False := by
  cases h with
  | leaf h => simp only [lineReg] at h; rw [if_neg h1, if_neg h2] at h; cases h
  | sub h _ => simp only [lineReg] at h; rw [if_neg h1, if_neg h2] at h; cases h

theorem line_sound : lineReg.Sound where
  inside t fs u o h := by
    by_cases h1 : t = ['L']
    · subst h1
      show o < 17
      rcases line_fields h with h | h | h | h | h <;> omega
    · by_cases h2 : t = ['P']
      · subst h2
        show o < 8
        rcases point_fields h with h | h <;> omega
      · exact (no_fields h1 h2 h).elim
  apart t fs gs u v o h k := by
    by_cases h1 : t = ['L']
    · subst h1
      rcases line_fields h with ⟨rfl, e⟩ | ⟨rfl, e⟩ | ⟨rfl, e⟩ | ⟨rfl, e⟩ | ⟨rfl, e⟩ <;>
        rcases line_fields k with ⟨rfl, e'⟩ | ⟨rfl, e'⟩ | ⟨rfl, e'⟩ | ⟨rfl, e'⟩ | ⟨rfl, e'⟩ <;> first | rfl | (exfalso; omega)
    · by_cases h2 : t = ['P']
      · subst h2
        rcases point_fields h with ⟨rfl, e⟩ | ⟨rfl, e⟩ <;> rcases point_fields k with ⟨rfl, e'⟩ | ⟨rfl, e'⟩ <;> first | rfl | (exfalso; omega)
      · exact (no_fields h1 h2 h).elim

def i32 : Ty := .num (.int .i32)
def lineCfg : Cfg := { isType := fun t => (typeNamed t).isSome || decide (t = ['L']), inRange := fun _ => true }
def lineText : List Char := "i32 m ( L p , i32 d ) { p . a . x += d ; return p . a . x + p . b . y ; } ".toList
def lineArgs : List (Name × Param) := [(['p'], .obj ['L'] [([['a'], ['x']], i32), ([['b'], ['y']], i32)]), (['d'], .val i32)]
def ax : Name := ['p', '.', 'a', '.', 'x']
def by' : Name := ['p', '.', 'b', '.', 'y']
def lineBody : Cmds := .cons (.update .add ax (.var ['d'])) (.cons (.ret (.op2 (.arith .add) (.var ax) (.var by'))) .nil)

theorem line_ok (fpu : Fpu) : lineBody.Ok fpu i32 false (argType (vars lineArgs)) :=
  ⟨⟨i32, ⟨by decide, ⟨trivial, trivial⟩, ⟨trivial, trivial⟩, ⟨trivial, trivial⟩⟩, by decide⟩, ⟨i32, ⟨by decide, ⟨trivial, trivial⟩, ⟨trivial, trivial⟩, ⟨trivial, trivial⟩⟩, by decide⟩, trivial⟩

theorem line_reads (fpu : Fpu) : ReadsFn lineCfg lineText i32 lineArgs lineBody := by
  have hv : ∀ c, isAlpha c = true → validName lineCfg [c] = true → NameOk lineCfg [c] := fun c h h' => ⟨example_name _ h, h'⟩
  have hp : ∀ c d, isAlpha c = true → isAlpha d = true → PathOk lineCfg ['p', '.', c, '.', d] := fun c d h h' =>
    ⟨['p'], [[c], [d]], rfl, hv _ (by decide) (by decide), by
      intro f hf
      simp only [List.mem_cons, List.not_mem_nil, or_false] at hf
      rcases hf with rfl | rfl
      · exact example_name _ h
      · exact example_name _ h'⟩
  refine fn_text fpu lineCfg (fun t => by rcases t with (_ | t | F) | _; · decide
                                          · cases t <;> decide
                                          · cases F <;> decide
                                          · decide) ['m'] (hv _ (by decide) (by decide)) i32 lineArgs
    (by intro q hq; simp only [lineArgs, List.mem_cons, List.not_mem_nil, or_false] at hq; rcases hq with rfl | rfl <;> exact hv _ (by decide) (by decide))
    (by intro x t fields h; simp only [lineArgs, List.mem_cons, List.not_mem_nil, or_false, Prod.mk.injEq, Param.obj.injEq, reduceCtorEq, and_false] at h
        rw [h.2.1]; exact ⟨example_name _ (by decide), by decide⟩)
    lineBody (line_ok fpu) ?_ lineText
    (by rw [show lineText = writeTokens (fnSrc ['m'] i32 lineArgs lineBody).print from by decide +kernel])
  simp only [lineBody, Cmds.Writable, Cmd.Writable, Ex.Writable, and_true]
  have h1 := hp 'a' 'x' (by decide) (by decide)
  exact ⟨⟨h1, PathOk.of (hv _ (by decide) (by decide))⟩, by simp, h1, hp 'b' 'y' (by decide) (by decide)⟩

theorem line_declared : Declared lineReg lineArgs where
  plain := by decide
  distinct := by decide
  known x t fields h := by
    simp only [lineArgs, List.mem_cons, List.not_mem_nil, or_false, Prod.mk.injEq, Param.obj.injEq, reduceCtorEq, and_false] at h
    rw [h.2.1]; exact ⟨by decide, by decide⟩
  located x t fields h := by
    simp only [lineArgs, List.mem_cons, List.not_mem_nil, or_false, Prod.mk.injEq, Param.obj.injEq, reduceCtorEq, and_false] at h
    obtain ⟨rfl, rfl, rfl⟩ := h
    intro q hq
    simp only [List.mem_cons, List.not_mem_nil, or_false] at hq
    rcases hq with rfl | rfl
    · exact ⟨⟨0, .sub (t' := ['P']) (o := 0) (o' := 0) rfl (.leaf rfl)⟩, by decide, by decide⟩
    · exact ⟨⟨12, .sub (t' := ['P']) (o := 8) (o' := 4) rfl (.leaf rfl)⟩, by decide, by decide⟩

theorem line_at {u : PTy} {o : Nat} : (Located lineReg ['L'] [['a'], ['x']] u o → o = 0) ∧ (Located lineReg ['L'] [['b'], ['y']] u o → o = 12) := by
  constructor <;> intro h <;> rcases line_fields h with h | h | h | h | h <;> first | exact h.2 | exact absurd h.1 (by decide)

abbrev w32 (z : Int) : Int := Pipeline.wrap .i32 z

theorem add_value (fpu : Fpu) (x y : Int) (hx : IntOps.Fits .i32 x) (hy : IntOps.Fits .i32 y) : op2Value fpu (.arith .add) i32 i32 (.num (.int x)) (.num (.int y)) = some (.num (.int (w32 (x + y)))) := by
  simp only [i32, op2Value, Op2.value, show Real.join (.int .i32) (.int .i32) = some (.int .i32) from by decide, Option.bind_some, Real.conv, Pipeline.wrap_self hx, Pipeline.wrap_self hy, Op2.apply,
    Real.arithV, Pipeline.Arith.calc, Option.map_some]

theorem line_exec (fpu : Fpu) (ρ : Store) (x y d : Int) (hx : IntOps.Fits .i32 x) (hy : IntOps.Fits .i32 y) (hd : IntOps.Fits .i32 d)
    (h1 : ρ ax = some (.num (.int x))) (h2 : ρ by' = some (.num (.int y))) (h3 : ρ ['d'] = some (.num (.int d))) :
    lineBody.exec fpu i32 0 (argType (vars lineArgs)) ρ = .ret (setValue ρ ax (.num (.int (w32 (x + d))))) (.num (.int (w32 (w32 (x + d) + y)))) := by
  have t1 : (Ex.var ax).type (argType (vars lineArgs)) = some i32 := by decide
  have t2 : (Ex.var by').type (argType (vars lineArgs)) = some i32 := by decide
  have t3 : (Ex.var ['d']).type (argType (vars lineArgs)) = some i32 := by decide
  have e1 : (Ex.op2 (.arith .add) (.var ax) (.var ['d'])).value fpu (argType (vars lineArgs)) ρ = some (.num (.int (w32 (x + d)))) := by
    rw [Ex.value, t1, t3, Option.bind_some, Option.bind_some, Ex.value, h1, Option.bind_some, Ex.value, h3, Option.bind_some, add_value fpu x d hx hd]
  have s1 : (setValue ρ ax (.num (.int (w32 (x + d))))) ax = some (.num (.int (w32 (x + d)))) := if_pos rfl
  have s2 : (setValue ρ ax (.num (.int (w32 (x + d))))) by' = some (.num (.int y)) := by rw [← h2]; exact if_neg (by decide)
  have e2 : (Ex.op2 (.arith .add) (.var ax) (.var by')).value fpu (argType (vars lineArgs)) (setValue ρ ax (.num (.int (w32 (x + d))))) = some (.num (.int (w32 (w32 (x + d) + y)))) := by
    rw [Ex.value, t1, t2, Option.bind_some, Option.bind_some, Ex.value, s1, Option.bind_some, Ex.value, s2, Option.bind_some, add_value fpu _ y (Pipeline.wrap_fits _ _) hy]
  rw [lineBody, Cmds.exec, Cmd.exec, e1]
  simp only [withValue, End.andThen, Cmds.exec, Cmd.exec, Cmd.after]
  rw [e2]
  simp only [Option.bind_some, i32, conv, Real.conv, Option.map_some, Pipeline.wrap_self (Pipeline.wrap_fits _ _)]

/-- The text above is compiled to code that moves the coordinate `a.x` of the object, leaves `b.y` as it is, and returns the sum of both. -/
example (fpu : Fpu) (ju : Types.Str.Val) : ∃ code, compileFn lineReg fpu ju lineCfg lineText = some code ∧ ∀ (x y d : Int) (p : WV) (objs : Name → Nat → WV) junk,
    IntOps.Fits .i32 x → IntOps.Fits .i32 y → IntOps.Fits .i32 d → objs ['p'] 0 = .num (Real.Val.int x).enc → objs ['p'] 12 = .num (Real.Val.int y).enc →
    ∃ objs', Returns lineReg fpu ju code junk [p, .num (Real.Val.int d).enc] objs (.num (Real.Val.int (w32 (w32 (x + d) + y))).enc) objs' ∧
      objs' ['p'] 0 = .num (Real.Val.int (w32 (x + d))).enc ∧ objs' ['p'] 12 = .num (Real.Val.int y).enc := by
  obtain ⟨code, h1, h2⟩ := fields_function_computes_partial lineReg line_sound fpu ju lineCfg lineText i32 lineArgs lineBody (line_reads fpu) line_declared (line_ok fpu)
    (by simp [lineBody, Cmds.Clean, Cmd.Clean, Cmd.ends, Cmds.startsLoop]) (by decide) (by decide)
  refine ⟨code, h1, fun x y d p objs junk hx hy hd ox oy => ?_⟩
  have hax : (['p'], Param.obj ['L'] [([['a'], ['x']], i32), ([['b'], ['y']], i32)]) ∈ lineArgs := by simp [lineArgs]
  let ρ : Store := fun n => if n = ax then some (.num (.int x)) else if n = by' then some (.num (.int y)) else if n = ['d'] then some (.num (.int d)) else none
  have r1 : ρ ax = some (.num (.int x)) := if_pos rfl
  have r2 : ρ by' = some (.num (.int y)) := by show (if by' = ax then _ else if by' = by' then _ else _) = _; rw [if_neg (by decide), if_pos rfl]
  have r3 : ρ ['d'] = some (.num (.int d)) := by
    show (if ['d'] = ax then _ else if ['d'] = by' then _ else if ['d'] = ['d'] then _ else _) = _
    rw [if_neg (by decide), if_neg (by decide), if_pos rfl]
  have hg : Given lineReg lineArgs [p, .num (Real.Val.int d).enc] objs ρ := by
    constructor
    · intro i n t h
      match i with
      | 0 => simp [lineArgs] at h
      | 1 =>
        simp only [lineArgs, List.getElem?_cons_succ, List.getElem?_cons_zero, Option.some.injEq, Prod.mk.injEq, Param.val.injEq] at h
        obtain ⟨rfl, rfl⟩ := h
        exact ⟨_, _, r3, hd, rfl, rfl⟩
      | i + 2 => simp [lineArgs] at h
    · intro n t fields h
      simp only [lineArgs, List.mem_cons, List.not_mem_nil, or_false, Prod.mk.injEq, Param.obj.injEq, reduceCtorEq, and_false] at h
      obtain ⟨rfl, rfl, rfl⟩ := h
      intro q hq o ho
      simp only [List.mem_cons, List.not_mem_nil, or_false] at hq
      rcases hq with rfl | rfl
      · rw [line_at.1 ho, ox]; exact ⟨_, r1, hx, rfl⟩
      · rw [line_at.2 ho, oy]; exact ⟨_, r2, hy, rfl⟩
  obtain ⟨_, h3, _⟩ := h2 _ objs junk ρ hg
  obtain ⟨v, objs', h4, h5, h6⟩ := h3 0 _ _ (line_exec fpu ρ x y d hx hy hd r1 r2 r3)
  obtain ⟨z, k1, k2⟩ := h6 _ _ _ hax ([['a'], ['x']], i32) (by simp) 0 (.sub (t' := ['P']) (o := 0) (o' := 0) rfl (.leaf rfl))
  obtain ⟨z', k3, k4⟩ := h6 _ _ _ hax ([['b'], ['y']], i32) (by simp) 12 (.sub (t' := ['P']) (o := 8) (o' := 4) rfl (.leaf rfl))
  have e1 : setValue ρ ax (.num (.int (w32 (x + d)))) ax = some (.num (.int (w32 (x + d)))) := if_pos rfl
  have e2 : setValue ρ ax (.num (.int (w32 (x + d)))) by' = some (.num (.int y)) := by rw [← r2]; exact if_neg (by decide)
  rw [show dotted ['p'] [['a'], ['x']] = ax from rfl, e1] at k1
  rw [show dotted ['p'] [['b'], ['y']] = by' from rfl, e2] at k3
  cases k1
  cases k3
  refine ⟨objs', ?_, ?_, ?_⟩
  · rw [← rep_num h5]; exact h4
  · exact rep_num k2
  · exact rep_num k4

/-- A boolean field meets the hypotheses of `boolean_field_violated`. -/
example (fpu : Fpu) (ju : Types.Str.Val) : ∃ src, compileFn lineReg fpu ju lineCfg src = none ∧
    ReadsFn lineCfg src (.num .bool) [(['p'], .obj ['L'] [([['f']], .num .bool)])] (.cons (.ret (.var ['p', '.', 'f'])) .nil) := by
  have hp : NameOk lineCfg ['p'] := ⟨example_name _ (by decide), by decide⟩
  obtain ⟨src, hsrc⟩ := every_fields_function_has_text fpu lineCfg (fun t => by rcases t with (_ | t | F) | _; · decide
                                                                                · cases t <;> decide
                                                                                · cases F <;> decide
                                                                                · decide) ['m'] ⟨example_name _ (by decide), by decide⟩ (.num .bool)
    [(['p'], .obj ['L'] [([['f']], .num .bool)])] (by intro q hq; simp only [List.mem_singleton] at hq; rw [hq]; exact hp)
    (by intro x t fields h; simp only [List.mem_singleton, Prod.mk.injEq, Param.obj.injEq] at h; rw [h.2.1]; exact ⟨example_name _ (by decide), by decide⟩)
    (.cons (.ret (.var ['p', '.', 'f'])) .nil) ⟨⟨.num .bool, ⟨by decide, trivial, trivial, trivial⟩, rfl⟩, trivial⟩
    ⟨⟨['p'], [['f']], rfl, hp, by intro f hf; simp only [List.mem_singleton] at hf; rw [hf]; exact example_name _ (by decide)⟩, trivial⟩
  exact ⟨src, (boolean_field_violated lineReg fpu ju lineCfg src ['p'] ['L'] [['f']] (by decide) (by decide) ⟨by decide, by decide⟩ 16 (.leaf rfl) hsrc).2, hsrc⟩

end Verif.Comp.FieldsFn
