import Verif.Comp.FieldsFn
import Verif.Types.DynObject
/-!
# From the text of a function over dynamic objects to its result: C170

Functions as in C166, with arguments such as `dyn_obj<User> p`: objects whose fields are those of a schema defined at run time. The host fills an object with `Set`, calls the function, and reads it
with `Get`. `Function::Validate`: `/repo/rapidudf/ast/function.cc` 33–52; `read_type_name`, `parse_func_arg`: `/repo/rapidudf/ast/grammar.cc` 731–783; the names of types:
`/repo/rapidudf/ast/symbols.cc` 197–212; `FieldAccess::Validate`: `/repo/rapidudf/ast/expression.cc` 216–243; `BuildIR(ValuePtr, const ast::FieldAccess&)`:
`/repo/rapidudf/compiler/compiler_expressions.cc` 76–97; `DynObjectSchema::Add`, `GetField`: `/repo/rapidudf/types/dyn_object_schema.cc` 94–122 (the model of C22); `DynObject::Set`, `Get`:
`/repo/rapidudf/types/dyn_object_impl.h` 24–68.

Simplifications: those of C166; in particular a field takes one cell, at its offset (C22 shows that the bytes of different fields do not overlap). The schemas are those of objects, not of tables.
-/
namespace Verif.Comp.DynFn
open Verif.Ast hiding Ty
open Verif.Gen Verif.Gen.Scalar Verif.Types.Conv
open Verif.Comp.Real (Fpu)
open Verif.Comp.Words hiding Out
open Verif.Comp.WordsFn hiding Ty Types Store PTy compileFn Returns Undefined ReadsFn
open Verif.Comp.FieldsFn (Param Reg Located)
open Verif.Types.DT (DType dtypeEq)
abbrev PTy := Real.PTy
open Verif.Types.Dyn (Schema Status)

/-! ## Specification -/

/-- A schema as the host defines it: its name, the size of the header asked for, and the fields added, in order. -/
structure Decl where
  name : Name
  header : BitVec 64
  fields : List (Name × DType)

/-- The descriptors of the types of a script, dtype_enums.h: bit 3, u8 4, i8 5, …, f32 13, f64 14, string_view 17. -/
def descr : Ty → DType
  | .num .bool => .mk 0 0 3 0 0 []
  | .num (.int .u8) => .mk 0 0 4 0 0 []
  | .num (.int .i8) => .mk 0 0 5 0 0 []
  | .num (.int .u16) => .mk 0 0 6 0 0 []
  | .num (.int .i16) => .mk 0 0 7 0 0 []
  | .num (.int .u32) => .mk 0 0 8 0 0 []
  | .num (.int .i32) => .mk 0 0 9 0 0 []
  | .num (.int .u64) => .mk 0 0 10 0 0 []
  | .num (.int .i64) => .mk 0 0 11 0 0 []
  | .num (.flt .f32) => .mk 0 0 13 0 0 []
  | .num (.flt .f64) => .mk 0 0 14 0 0 []
  | .str => .mk 0 0 17 0 0 []

/-- The schema has field `f` of type `t`: it was added, and no field of this name before it. -/
def Decl.Has (D : Decl) (f : Name) (t : Ty) : Prop := ∃ before after, D.fields = before ++ (f, descr t) :: after ∧ f ∉ before.map (·.1)

/-- Schemas of different names, not too large. -/
structure SchemasOk (ss : List Decl) : Prop where
  distinct : (ss.map (·.name)).Nodup
  header : ∀ D ∈ ss, D.header.toNat < 2 ^ 31
  small : ∀ D ∈ ss, 16 * D.fields.length < 2 ^ 31

/-- A declared argument: a value, or an object of a schema with the fields the function may use. -/
inductive Arg where
  | val (t : Ty)
  | obj (D : Decl) (fields : List (Name × Ty))

/-- How an argument is written: `dyn_obj<User>`. -/
def objText (n : Name) : List Char := "dyn_obj<".toList ++ n ++ ">".toList
def Arg.text : Arg → List Char
  | .val t => typeText t
  | .obj D _ => objText D.name

/-- The variables at the start: the values, and the fields of the objects, `x.f`. -/
def Arg.vars (x : Name) : Arg → List (Name × Ty)
  | .val t => [(x, t)]
  | .obj _ fields => fields.map fun q => (x ++ '.' :: q.1, q.2)
def vars (args : List (Name × Arg)) : List (Name × Ty) := args.flatMap fun q => q.2.vars q.1

/-- The arguments are declared in terms of the schemas; names contain no dots and are distinct; the fields used are numbers or strings. -/
structure Declared (ss : List Decl) (args : List (Name × Arg)) : Prop where
  plain : ∀ q ∈ args, '.' ∉ q.1
  distinct : (args.map (·.1)).Nodup
  known : ∀ x D fields, (x, Arg.obj D fields) ∈ args → D ∈ ss
  fields : ∀ x D fields, (x, Arg.obj D fields) ∈ args → ∀ q ∈ fields, D.Has q.1 q.2 ∧ q.2 ≠ .num .bool ∧ '.' ∉ q.1

/-- A text is read as the function with the given types, arguments and statements. -/
def ReadsFn (cfg : Cfg) (src : List Char) (ret : Ty) (args : List (Name × Arg)) (body : Cmds) : Prop :=
  ∃ f rest, parseFunction cfg src = .ok f rest ∧ f.ret = typeText ret ∧ f.params = (args.map fun q => (q.2.text, q.1)) ∧ body.Is f.body

/-! ## Model: the host -/

/-- The schema after its fields are added: `GetOrCreate`, `Add`; C22. -/
def Decl.schema (D : Decl) : Schema := Types.Dyn.build D.header (D.fields.reverse.map fun q => (String.ofList q.1, q.2))

/-- `DynObject::Get<T>(name)`, dyn_object_impl.h 54–68, on the cells of the object. -/
def get (s : Schema) (o : Nat → WV) (f : Name) (T : Ty) : Except Status WV := match s.find (String.ofList f) with
  | none => .error .notFound
  | some fd => if dtypeEq (descr T) fd.dtype = some true then .ok (o fd.offset.toNat) else .error .mismatch

/-- `DynObject::Set(name, v)` with a `v` of type `T`, dyn_object_impl.h 24–52. -/
def set (s : Schema) (o : Nat → WV) (f : Name) (T : Ty) (w : WV) : Status × (Nat → WV) := match s.find (String.ofList f) with
  | none => (.notFound, o)
  | some fd => if dtypeEq (descr T) fd.dtype = some true then (.ok, fun i => if i = fd.offset.toNat then w else o i) else (.mismatch, o)

/-! ## Model: the compiler -/

/-- The type of a field in a script. Half and extended precision, `std::string_view` and vectors are not fields here. -/
def ptyOf (d : DType) : Option PTy :=
  if Types.DT.isFundamental d = true then
    match d.t0 with
    | 3 => some .bit
    | 4 => some (.int .u8)
    | 5 => some (.int .i8)
    | 6 => some (.int .u16)
    | 7 => some (.int .i16)
    | 8 => some (.int .u32)
    | 9 => some (.int .i32)
    | 10 => some (.int .u64)
    | 11 => some (.int .i64)
    | 13 => some (.flt .f32)
    | 14 => some (.flt .f64)
    | 17 => some PTy.view
    | _ => none
  else none

/-- The names of the types of objects, symbols.cc 197–212: `dyn_obj<`, the name of the schema, `>`. -/
def label (n : Name) : List Char := 'd' :: 'y' :: 'n' :: '_' :: 'o' :: 'b' :: 'j' :: '<' :: (n ++ ['>'])
/-- The schema of a type: `arg.schema`, function.cc 42–47. -/
def schemaOf (ss : List Decl) (t : List Char) : Option Decl := ss.find? fun D => decide (label D.name = t)
/-- What the compiler knows of dynamic objects: `FieldAccess::Validate`, expression.cc 224–243, asks the schema for the field, its type and offset; the object is a pointer. -/
def regOf (ss : List Decl) : Reg where
  known t := (schemaOf ss t).isSome
  member t f := (schemaOf ss t).bind fun D => (D.schema.find (String.ofList f)).bind fun fd => (ptyOf fd.dtype).map fun u => (.val u, fd.offset.toNat)
  size t := match schemaOf ss t with
    | some D => D.schema.allocated.toNat
    | none => 0

/-- The compiled function. -/
def compileFn (ss : List Decl) (fpu : Fpu) (ju : Types.Str.Val) (cfg : Cfg) (src : List Char) : Option FieldsFn.Code := FieldsFn.compileFn (regOf ss) fpu ju cfg src
/-- A call with values `ws` (pointers for the objects) and objects with cells `objs` returns `v` and leaves the objects with the cells `objs'`. -/
def Returns (ss : List Decl) (fpu : Fpu) (ju : Types.Str.Val) (c : FieldsFn.Code) (junk : Nat → WV) (ws : List WV) (objs : Name → Nat → WV) (v : WV) (objs' : Name → Nat → WV) : Prop :=
  FieldsFn.Returns (regOf ss) fpu ju c junk ws objs v objs'
def Undefined (ss : List Decl) (fpu : Fpu) (ju : Types.Str.Val) (c : FieldsFn.Code) (junk : Nat → WV) (ws : List WV) (objs : Name → Nat → WV) : Prop :=
  FieldsFn.Undefined (regOf ss) fpu ju c junk ws objs

/-! ## Specification of a call -/

/-- The values passed are those of the variables; reading the fields of the objects with `Get` gives the values of the variables. -/
structure Given (args : List (Name × Arg)) (ws : List WV) (objs : Name → Nat → WV) (ρ : Store) : Prop where
  value : ∀ (i : Nat) x t, args[i]? = some (x, Arg.val t) → ∃ z w, ρ x = some z ∧ z.Has t ∧ ws[i]? = some w ∧ Rep z w
  field : ∀ x D fields, (x, Arg.obj D fields) ∈ args → ∀ q ∈ fields, ∃ z w, ρ (x ++ '.' :: q.1) = some z ∧ z.Has q.2 ∧ get D.schema (objs x) q.1 q.2 = .ok w ∧ Rep z w

/-- Reading the fields of the objects with `Get` gives the values of the variables. -/
def Seen (args : List (Name × Arg)) (objs : Name → Nat → WV) (ρ : Store) : Prop :=
  ∀ x D fields, (x, Arg.obj D fields) ∈ args → ∀ q ∈ fields, ∃ z w, ρ (x ++ '.' :: q.1) = some z ∧ get D.schema (objs x) q.1 q.2 = .ok w ∧ Rep z w

/-! ## Lemmas -/

theorem descr_eq (t : Ty) : dtypeEq (descr t) (descr t) = some true := by
  rcases t with (_ | t | F) | _
  · decide +kernel
  · cases t <;> decide +kernel
  · cases F <;> decide +kernel
  · decide +kernel

theorem descr_pty (t : Ty) : ptyOf (descr t) = some t.p := by
  rcases t with (_ | t | F) | _
  · decide +kernel
  · cases t <;> decide +kernel
  · cases F <;> decide +kernel
  · decide +kernel

theorem descr_ok (t : Ty) : (Types.Dyn.isPrimitive (descr t) || Types.Dyn.isSimdVector (descr t)) = true := by
  rcases t with (_ | t | F) | _
  · decide +kernel
  · cases t <;> decide +kernel
  · cases F <;> decide +kernel
  · decide +kernel

/-- A field of a type of scripts is not a 16-byte floating point number, and takes space. -/
theorem pty_space {d : DType} {u : PTy} (h : ptyOf d = some u) : Types.Dyn.notF80 d ∧ 0 < Types.Dyn.storage d := by
  unfold ptyOf at h
  split at h
  · refine ⟨.inr ?_, ?_⟩
    · intro e; rw [e] at h; cases h
    · unfold Types.Dyn.storage; repeat' split
      all_goals omega
  · cases h

theorem label_text (n : Name) : objText n = label n := rfl

theorem label_inj {n m : Name} (h : label n = label m) : n = m := by
  simp only [label, List.cons.injEq, true_and] at h
  exact List.append_cancel_right h

theorem label_type (n : Name) : typeNamed (label n) = none := by
  have hs : ∀ q ∈ Real.sufTypes, '<' ∉ q.1 := by decide
  have hl : '<' ∈ label n := by simp [label]
  unfold typeNamed
  rw [if_neg (by intro e; rw [e] at hl; revert hl; decide), if_neg (by intro e; rw [e] at hl; revert hl; decide)]
  cases h : Real.sufTypes.lookup (label n) with
  | none => rfl
  | some u =>
    have : ∀ (l : List (List Char × PTy)), (∀ q ∈ l, '<' ∉ q.1) → l.lookup (label n) = none := by
      intro l
      induction l with
      | nil => intro _; rfl
      | cons q l ih =>
        intro hq
        rw [List.lookup_cons, beq_eq_false_iff_ne.2 (by intro e; exact hq q (by simp) (e ▸ hl))]
        exact ih fun r hr => hq r (by simp [hr])
    rw [this _ hs] at h
    cases h

theorem schema_of {ss : List Decl} (hs : SchemasOk ss) {D : Decl} (h : D ∈ ss) : schemaOf ss (label D.name) = some D := by
  have hd := hs.distinct
  clear hs
  unfold schemaOf
  induction ss with
  | nil => cases h
  | cons E ss ih =>
    rw [List.map_cons, List.nodup_cons] at hd
    rw [List.find?_cons]
    by_cases e : label E.name = label D.name
    · simp only [e, decide_true]
      rcases List.mem_cons.1 h with rfl | h
      · rfl
      · exact absurd (List.mem_map.2 ⟨D, h, (label_inj e).symm⟩) hd.1
    · simp only [e, decide_false]
      rcases List.mem_cons.1 h with rfl | h
      · exact absurd rfl e
      · exact ih h hd.2

theorem find_add (s : Schema) (n m : String) (d : DType) (fd : Types.Dyn.Field) (h : s.find n = some fd) : (s.add m d).1.find n = some fd := by
  unfold Types.Dyn.Schema.add
  split
  · simp only
    cases hm : s.find m with
    | some _ => exact h
    | none =>
      simp only
      rw [Types.Dyn.find_cons, if_neg]
      · exact h
      · rintro rfl; rw [hm] at h; cases h
  · exact h

theorem find_none (s : Schema) (n m : String) (d : DType) (h : s.find n = none) (hne : n ≠ m) : (s.add m d).1.find n = none := by
  unfold Types.Dyn.Schema.add
  split
  · simp only
    cases hm : s.find m with
    | some _ => exact h
    | none => simp only; rw [Types.Dyn.find_cons, if_neg hne]; exact h
  · exact h

theorem build_none (header : BitVec 64) (n : String) : ∀ adds : List (String × DType), n ∉ adds.map (·.1) → (Types.Dyn.build header adds).find n = none := by
  intro adds
  induction adds with
  | nil => intro _; rfl
  | cons a l ih =>
    intro h
    rw [List.map_cons, List.mem_cons, not_or] at h
    exact find_none _ _ _ _ (ih h.2) h.1

theorem build_keep (header : BitVec 64) (n : String) (fd : Types.Dyn.Field) (l : List (String × DType)) (h : (Types.Dyn.build header l).find n = some fd) :
    ∀ adds : List (String × DType), (Types.Dyn.build header (adds ++ l)).find n = some fd := by
  intro adds
  induction adds with
  | nil => exact h
  | cons a adds ih => exact find_add _ _ _ _ _ ih

/-- A declared field is in the schema, with its type. -/
theorem has_find {D : Decl} {f : Name} {t : Ty} (h : D.Has f t) : ∃ fd, D.schema.find (String.ofList f) = some fd ∧ fd.dtype = descr t := by
  obtain ⟨before, after, e, hn⟩ := h
  unfold Decl.schema
  rw [e, List.reverse_append, List.reverse_cons, List.append_assoc, List.map_append]
  have h1 : (Types.Dyn.build D.header (before.reverse.map fun q => (String.ofList q.1, q.2))).find (String.ofList f) = none := build_none _ _ _ (by
    rw [List.map_map, List.mem_map]
    rintro ⟨q, hq, he⟩
    exact hn (List.mem_map.2 ⟨q, List.mem_reverse.1 hq, String.ofList_injective he⟩))
  refine ⟨⟨(Types.Dyn.build D.header (before.reverse.map fun q => (String.ofList q.1, q.2))).allocated, descr t⟩, ?_, rfl⟩
  apply build_keep
  show ((Types.Dyn.build D.header (before.reverse.map fun q => (String.ofList q.1, q.2))).add (String.ofList f) (descr t)).1.find _ = _
  unfold Types.Dyn.Schema.add
  rw [if_pos (descr_ok t)]
  simp only [h1]
  rw [Types.Dyn.find_cons, if_pos rfl]

theorem layout {ss : List Decl} (hs : SchemasOk ss) {D : Decl} (h : D ∈ ss) :
    (∀ n fd u, D.schema.find n = some fd → ptyOf fd.dtype = some u → fd.offset.toNat < D.schema.allocated.toNat) ∧
    (∀ n m fd gd u v, D.schema.find n = some fd → D.schema.find m = some gd → ptyOf fd.dtype = some u → ptyOf gd.dtype = some v → fd.offset.toNat = gd.offset.toNat → n = m) := by
  obtain ⟨h1, h2⟩ := Types.Dyn.dyn_object_layout_partial D.header (D.fields.reverse.map fun q => (String.ofList q.1, q.2)) (hs.header D h)
    (by rw [List.length_map, List.length_reverse]; exact hs.small D h)
  refine ⟨fun n fd u hf hu => ?_, fun n m fd gd u v hf hg hu hv e => ?_⟩
  · obtain ⟨k1, k2⟩ := pty_space hu
    obtain ⟨_, _, _, h6⟩ := h1 n fd hf k1
    unfold Types.Dyn.Field.hi at h6
    unfold Decl.schema
    omega
  · by_cases hne : n = m
    · exact hne
    · obtain ⟨k1, k2⟩ := pty_space hu
      obtain ⟨k3, k4⟩ := pty_space hv
      have := h2 n m fd gd hne hf hg k1 k3
      unfold Types.Dyn.Disjoint Types.Dyn.Field.hi Types.Dyn.Field.lo at this
      omega

theorem schema_mem {ss : List Decl} {t : List Char} {D : Decl} (h : schemaOf ss t = some D) : D ∈ ss := List.mem_of_find?_eq_some h

/-- The fields the compiler finds. -/
theorem located {ss : List Decl} {t : Name} {fs : List Name} {u : PTy} {o : Nat} (h : Located (regOf ss) t fs u o) :
    ∃ D f fd, schemaOf ss t = some D ∧ fs = [f] ∧ D.schema.find (String.ofList f) = some fd ∧ ptyOf fd.dtype = some u ∧ o = fd.offset.toNat := by
  cases h with
  | @leaf _ f _ _ hm =>
    simp only [regOf, Option.bind_eq_some_iff, Option.map_eq_some_iff, Prod.mk.injEq, FieldsFn.Field.val.injEq] at hm
    obtain ⟨D, h1, fd, h2, u, h3, rfl, rfl⟩ := hm
    exact ⟨D, f, fd, h1, rfl, h2, h3, rfl⟩
  | sub hm _ =>
    simp only [regOf, Option.bind_eq_some_iff, Option.map_eq_some_iff, Prod.mk.injEq, reduceCtorEq, false_and, and_false, exists_false] at hm

theorem reg_sound {ss : List Decl} (hs : SchemasOk ss) : (regOf ss).Sound where
  inside t fs u o h := by
    obtain ⟨D, f, fd, h1, _, h2, h3, rfl⟩ := located h
    show _ < (match schemaOf ss t with | some D => D.schema.allocated.toNat | none => 0)
    rw [h1]
    exact (layout hs (schema_mem h1)).1 _ _ _ h2 h3
  apart t fs gs u v o h h' := by
    obtain ⟨D, f, fd, h1, rfl, h2, h3, e⟩ := located h
    obtain ⟨D', g, gd, h4, rfl, h5, h6, e'⟩ := located h'
    rw [h1] at h4
    cases h4
    rw [String.ofList_injective ((layout hs (schema_mem h1)).2 _ _ _ _ _ _ h2 h5 h3 h6 (e ▸ e'))]

/-- A declared field, as the compiler and the host find it. -/
theorem field_at {ss : List Decl} (hs : SchemasOk ss) {D : Decl} (hD : D ∈ ss) {f : Name} {t : Ty} (h : D.Has f t) :
    ∃ p, Located (regOf ss) (label D.name) [f] t.p p ∧ (∀ u o, Located (regOf ss) (label D.name) [f] u o → o = p) ∧ ∀ o, get D.schema o f t = .ok (o p) := by
  obtain ⟨fd, h1, h2⟩ := has_find h
  refine ⟨fd.offset.toNat, .leaf ?_, fun u o hl => ?_, fun o => ?_⟩
  · simp only [regOf, schema_of hs hD, h1, h2, descr_pty, Option.bind_some, Option.map_some]
  · obtain ⟨D', g, gd, k1, k2, k3, _, rfl⟩ := located hl
    rw [schema_of hs hD] at k1
    cases k1
    injection k2 with k2
    subst k2
    rw [h1] at k3
    cases k3
    rfl
  · unfold get
    rw [h1]
    simp only [h2, descr_eq, if_pos]

def Arg.param : Arg → Param
  | .val t => .val t
  | .obj D fields => .obj (label D.name) (fields.map fun q => ([q.1], q.2))
def params (args : List (Name × Arg)) : List (Name × Param) := args.map fun q => (q.1, q.2.param)

theorem mem_obj {args : List (Name × Arg)} {x t : Name} {fields : List (List Name × Ty)} (h : (x, Param.obj t fields) ∈ params args) :
    ∃ D fs, (x, Arg.obj D fs) ∈ args ∧ t = label D.name ∧ fields = fs.map fun q => ([q.1], q.2) := by
  obtain ⟨⟨y, a⟩, ha, e⟩ := List.mem_map.1 h
  cases a with
  | val u => cases e
  | obj D fs => cases e; exact ⟨D, fs, ha, rfl, rfl⟩

theorem params_get {args : List (Name × Arg)} {i : Nat} {x : Name} {t : Ty} (h : (params args)[i]? = some (x, Param.val t)) : args[i]? = some (x, Arg.val t) := by
  rw [params, List.getElem?_map, Option.map_eq_some_iff] at h
  obtain ⟨⟨y, a⟩, ha, e⟩ := h
  cases a with
  | val u => cases e; exact ha
  | obj D fs => cases e

theorem vars_params (args : List (Name × Arg)) : FieldsFn.vars (params args) = vars args := by
  unfold FieldsFn.vars vars params
  rw [List.flatMap_map]
  congr 1
  funext q
  rcases q with ⟨x, t | ⟨D, fs⟩⟩
  · rfl
  · simp only [Arg.param, Param.vars, Arg.vars, List.map_map]; rfl

theorem names_params (args : List (Name × Arg)) : (params args).map (·.1) = args.map (·.1) := by simp [params, List.map_map, Function.comp_def]

theorem declared {ss : List Decl} (hs : SchemasOk ss) {args : List (Name × Arg)} (hd : Declared ss args) : FieldsFn.Declared (regOf ss) (params args) where
  plain q hq := by
    obtain ⟨r, hr, rfl⟩ := List.mem_map.1 hq
    exact hd.plain r hr
  distinct := by rw [names_params]; exact hd.distinct
  known x t fields h := by
    obtain ⟨D, fs, h1, rfl, _⟩ := mem_obj h
    exact ⟨by simp only [regOf, schema_of hs (hd.known _ _ _ h1), Option.isSome_some], label_type _⟩
  located x t fields h q hq := by
    obtain ⟨D, fs, h1, rfl, rfl⟩ := mem_obj h
    obtain ⟨r, hr, rfl⟩ := List.mem_map.1 hq
    obtain ⟨k1, k2, k3⟩ := hd.fields _ _ _ h1 r hr
    obtain ⟨p, k4, _⟩ := field_at hs (hd.known _ _ _ h1) k1
    exact ⟨⟨p, k4⟩, k2, by intro f hf; rw [List.mem_singleton.1 hf]; exact k3⟩

theorem given {ss : List Decl} (hs : SchemasOk ss) {args : List (Name × Arg)} (hd : Declared ss args) {ws : List WV} {objs : Name → Nat → WV} {ρ : Store} (hg : Given args ws objs ρ) :
    FieldsFn.Given (regOf ss) (params args) ws objs ρ where
  value i x t h := hg.value i x t (params_get h)
  field x t fields h q hq o ho := by
    obtain ⟨D, fs, h1, rfl, rfl⟩ := mem_obj h
    obtain ⟨r, hr, rfl⟩ := List.mem_map.1 hq
    obtain ⟨k1, _, _⟩ := hd.fields _ _ _ h1 r hr
    obtain ⟨p, _, k5, k6⟩ := field_at hs (hd.known _ _ _ h1) k1
    obtain ⟨z, w, g1, g2, g3, g4⟩ := hg.field _ _ _ h1 r hr
    rw [k6] at g3
    cases g3
    rw [k5 _ _ ho]
    exact ⟨z, g1, g2, g4⟩

theorem seen {ss : List Decl} (hs : SchemasOk ss) {args : List (Name × Arg)} (hd : Declared ss args) {objs : Name → Nat → WV} {ρ : Store} (h : FieldsFn.Holds (regOf ss) (params args) objs ρ) :
    Seen args objs ρ := by
  intro x D fs h1 r hr
  obtain ⟨k1, _, _⟩ := hd.fields _ _ _ h1 r hr
  obtain ⟨p, k4, _, k6⟩ := field_at hs (hd.known _ _ _ h1) k1
  obtain ⟨z, g1, g2⟩ := h x (label D.name) (fs.map fun q => ([q.1], q.2)) (List.mem_map.2 ⟨_, h1, rfl⟩) ([r.1], r.2) (List.mem_map.2 ⟨r, hr, rfl⟩) p k4
  exact ⟨z, _, g1, k6 _, g2⟩

theorem reads {cfg : Cfg} {src : List Char} {ret : Ty} {args : List (Name × Arg)} {body : Cmds} (h : ReadsFn cfg src ret args body) : FieldsFn.ReadsFn cfg src ret (params args) body := by
  obtain ⟨f, rest, h1, h2, h3, h4⟩ := h
  refine ⟨f, rest, h1, h2, ?_, h4⟩
  rw [h3, params, List.map_map]
  apply List.map_congr_left
  rintro ⟨x, t | ⟨D, fs⟩⟩ _ <;> rfl

/-! ## C170 -/

/-- **C170.** The text of a well typed function over values and dynamic objects is compiled. For all values, and all objects of the schemas of the arguments, the code returns exactly what the
statements return when the variables `x.f` start with what `Get` reads from the objects, and then `Get` reads from the objects what the statements have left in these variables; the call is undefined
exactly if the statements reach an undefined operation or the end of the body, and runs forever exactly if the statements do not end. -/
theorem dyn_function_computes (ss : List Decl) (hs : SchemasOk ss) (fpu : Fpu) (ju : Types.Str.Val) (cfg : Cfg) (src : List Char) (ret : Ty) (args : List (Name × Arg)) (body : Cmds)
    (hsrc : ReadsFn cfg src ret args body) (hd : Declared ss args) (hok : body.Ok fpu ret false (argType (vars args))) (hc : body.Clean) (hn : (args.map (·.1) ++ body.defs).Nodup)
    (hdots : ∀ x ∈ body.defs, '.' ∉ x) :
    ∃ code, compileFn ss fpu ju cfg src = some code ∧ ∀ ws objs junk ρ, Given args ws objs ρ →
      (∀ v objs', Returns ss fpu ju code junk ws objs v objs' → ∃ n ρ' z, body.exec fpu ret n (argType (vars args)) ρ = .ret ρ' z ∧ Rep z v ∧ Seen args objs' ρ') ∧
      (∀ n ρ' z, body.exec fpu ret n (argType (vars args)) ρ = .ret ρ' z → ∃ v objs', Returns ss fpu ju code junk ws objs v objs' ∧ Rep z v ∧ Seen args objs' ρ') ∧
      (Undefined ss fpu ju code junk ws objs ↔ ∃ n, body.exec fpu ret n (argType (vars args)) ρ = .undefined ∨ ∃ ρ', body.exec fpu ret n (argType (vars args)) ρ = .next ρ') ∧
      ((¬∃ v objs', Returns ss fpu ju code junk ws objs v objs') ∧ ¬Undefined ss fpu ju code junk ws objs ↔ ∀ n, body.exec fpu ret n (argType (vars args)) ρ = .more) := by
  obtain ⟨code, h1, h2⟩ := FieldsFn.fields_function_computes_partial (regOf ss) (reg_sound hs) fpu ju cfg src ret (params args) body (reads hsrc) (declared hs hd)
    (by rw [vars_params]; exact hok) hc (by rw [names_params]; exact hn) hdots
  refine ⟨code, h1, fun ws objs junk ρ hg => ?_⟩
  obtain ⟨g1, g2, g3, g4⟩ := h2 ws objs junk ρ (given hs hd hg)
  rw [vars_params] at g1 g2 g3 g4
  refine ⟨fun v objs' h => ?_, fun n ρ' z h => ?_, g3, g4⟩
  · obtain ⟨n, ρ', z, k1, k2, k3⟩ := g1 v objs' h
    exact ⟨n, ρ', z, k1, k2, seen hs hd k3⟩
  · obtain ⟨v, objs', k1, k2, k3⟩ := g2 n ρ' z h
    exact ⟨v, objs', k1, k2, seen hs hd k3⟩

/-- **C170.** A call has at most one outcome. -/
theorem dyn_call_deterministic (ss : List Decl) (fpu : Fpu) (ju : Types.Str.Val) (c : FieldsFn.Code) (junk : Nat → WV) (ws : List WV) (objs : Name → Nat → WV) (v : WV) (objs' : Name → Nat → WV)
    (h : Returns ss fpu ju c junk ws objs v objs') :
    (∀ w objs'', Returns ss fpu ju c junk ws objs w objs'' → w = v ∧ objs'' = objs') ∧ ¬Undefined ss fpu ju c junk ws objs :=
  FieldsFn.fields_call_deterministic (regOf ss) fpu ju c junk ws objs v objs' h

/-- **C170.** What the host sets, it gets, and the function starts with: a `Set` of a declared field with its type succeeds, `Get` then reads the value, and all other declared fields are as before;
a `Set` with another type is refused and changes nothing. -/
theorem host_sets (ss : List Decl) (hs : SchemasOk ss) (D : Decl) (hD : D ∈ ss) (f : Name) (t : Ty) (hf : D.Has f t) (o : Nat → WV) (w : WV) :
    (set D.schema o f t w).1 = .ok ∧ get D.schema (set D.schema o f t w).2 f t = .ok w ∧
    (∀ g u, D.Has g u → g ≠ f → get D.schema (set D.schema o f t w).2 g u = get D.schema o g u) ∧
    (∀ u, u ≠ t → set D.schema o f u w = (.mismatch, o) ∧ get D.schema o f u = .error .mismatch) := by
  obtain ⟨fd, h1, h2⟩ := has_find hf
  have hset : set D.schema o f t w = (.ok, fun i => if i = fd.offset.toNat then w else o i) := by
    unfold set
    rw [h1]
    simp only [h2, descr_eq, if_pos]
  refine ⟨by rw [hset], ?_, fun g u hg hne => ?_, fun u hu => ?_⟩
  · rw [hset]
    unfold get
    rw [h1]
    simp only [h2, descr_eq, if_pos]
  · obtain ⟨gd, h3, h4⟩ := has_find hg
    rw [hset]
    unfold get
    rw [h3]
    simp only [h4, descr_eq, if_pos]
    rw [if_neg]
    intro e
    exact hne (String.ofList_injective ((layout hs hD).2 _ _ _ _ _ _ h3 h1 (by rw [h4]; exact descr_pty u) (by rw [h2]; exact descr_pty t) e))
  · have : ¬dtypeEq (descr u) (descr t) = some true := by
      have key : ∀ u t : Ty, u ≠ t → ¬dtypeEq (descr u) (descr t) = some true := by
        intro u t
        rcases u with (_ | u | F) | _ <;> rcases t with (_ | t | G) | _
        all_goals (try cases u) <;> (try cases t) <;> (try cases F) <;> (try cases G) <;> decide +kernel
      exact key u t hu
    unfold set get
    rw [h1]
    simp only [h2, if_neg this, and_self]

theorem not_added {D : Decl} {f : Name} (h : f ∉ D.fields.map (·.1)) : D.schema.find (String.ofList f) = none := build_none _ _ _ (by
  rw [List.map_map, List.mem_map]
  rintro ⟨q, hq, he⟩
  exact h (List.mem_map.2 ⟨q, List.mem_reverse.1 hq, String.ofList_injective he⟩))

/-- **C170.** A field that was never added to the schema is refused when the function is compiled: `T m(dyn_obj<S> x) { return x.f; }`; and the host gets and sets no such field. -/
theorem unknown_field_refused (ss : List Decl) (hs : SchemasOk ss) (fpu : Fpu) (ju : Types.Str.Val) (cfg : Cfg) (src : List Char) (ret : Ty) (x f : Name) (D : Decl) (hD : D ∈ ss)
    (hx : '.' ∉ x) (hf : '.' ∉ f) (hn : f ∉ D.fields.map (·.1)) (hsrc : ReadsFn cfg src ret [(x, .obj D [])] (.cons (.ret (.var (x ++ '.' :: f))) .nil)) :
    compileFn ss fpu ju cfg src = none ∧ ∀ o t w, get D.schema o f t = .error .notFound ∧ set D.schema o f t w = (.notFound, o) := by
  refine ⟨?_, fun o t w => by unfold get set; rw [not_added hn]; exact ⟨rfl, rfl⟩⟩
  obtain ⟨fn, rest, h1, h2, h3, h4⟩ := hsrc
  have hk' : FieldsFn.kinds (regOf ss) fn.params = some [(x, FieldsFn.Kind.obj (label D.name))] := by
    rw [h3]
    exact FieldsFn.kinds_ok (ps := [(x, Param.obj (label D.name) [])]) fun y u fields h => by
      simp only [List.mem_singleton, Prod.mk.injEq, Param.obj.injEq] at h
      rw [h.2.1]
      exact ⟨by simp only [regOf, schema_of hs hD, Option.isSome_some], label_type _⟩
  have hres : FieldsFn.resolve (regOf ss) [(x, FieldsFn.Kind.obj (label D.name))] (x ++ '.' :: f) = none := by
    unfold FieldsFn.resolve
    rw [show x ++ '.' :: f = dotted x [f] from rfl, split_dotted [f] x hx (by intro g hg; rw [List.mem_singleton.1 hg]; exact hf)]
    simp only [FieldsFn.argAt, if_true, Option.bind_some, FieldsFn.walk]
    simp only [regOf, schema_of hs hD, Option.bind_some, not_added hn, Option.bind_none]
  have henv : FieldsFn.cEnv (regOf ss) [(x, FieldsFn.Kind.obj (label D.name))] (x ++ '.' :: f) = none := by
    unfold FieldsFn.cEnv
    rw [hres, Option.bind_none]
  cases hb : fn.body with
  | nil => rw [hb] at h4; cases h4
  | cons s ss' =>
    rw [hb] at h4
    cases h4 with
    | cons h5 h6 =>
    cases h6
    cases h5 with
    | @ret _ e he =>
    have hsite : retSite fpu ju ret.p e ⟨0, [(x, FieldsFn.Kind.obj (label D.name))].length + FieldsFn.total (regOf ss) [(x, FieldsFn.Kind.obj (label D.name))],
        FieldsFn.cEnv (regOf ss) [(x, FieldsFn.Kind.obj (label D.name))]⟩ = none := by
      have hpl := plain_undot (plain_ex _ _ he)
      have h7 := ty_gExpr (rt := rt fpu ju) (vars := FieldsFn.cEnv (regOf ss) [(x, FieldsFn.Kind.obj (label D.name))]) Real.arity (undotE e) hpl
        (fun n _ h => by obtain ⟨_, h, _⟩ := FieldsFn.env_some h; cases h)
      have h8 : tyE (rt fpu ju) Real.arity (tenvOf (FieldsFn.cEnv (regOf ss) [(x, FieldsFn.Kind.obj (label D.name))])) (undotE e) = none := by
        unfold tyE
        rw [Pipeline.eval_tree, undot_tree, var_is he]
        rw [undotT, undotO, Pipeline.treeV]
        show tenvOf (FieldsFn.cEnv (regOf ss) [(x, FieldsFn.Kind.obj (label D.name))]) (x ++ '.' :: f) = none
        unfold tenvOf
        rw [henv]
      rw [h8] at h7
      have h9 := h7 ⟨0, [(x, FieldsFn.Kind.obj (label D.name))].length + FieldsFn.total (regOf ss) [(x, FieldsFn.Kind.obj (label D.name))],
        FieldsFn.cEnv (regOf ss) [(x, FieldsFn.Kind.obj (label D.name))]⟩ rfl
      unfold retSite site G.andThen
      simp only at h9
      simp only [h9]
      rfl
    unfold compileFn FieldsFn.compileFn
    rw [h1]
    simp only
    rw [h2, named_type, hk', hb]
    simp only [Option.bind_some]
    split
    · rw [sitess, sites, hsite]
      simp
    · rfl

/-! ### Every function has a text -/

def Arg.ty : Arg → Ast.Ty
  | .val t => ⟨typeText t, []⟩
  | .obj D _ => ⟨"dyn_obj".toList, [D.name]⟩

def fnSrc (name : Name) (ret : Ty) (args : List (Name × Arg)) (body : Cmds) : FuncSrc := ⟨⟨typeText ret, []⟩, name, args.map fun q => (q.2.ty, q.1), body.stmts⟩

theorem dyn_name : IsName "dyn_obj".toList := ⟨⟨'d', "yn_obj".toList, rfl, by decide, by decide⟩, by decide⟩

theorem arg_text (a : Arg) : a.ty.name = a.text := by
  cases a with
  | val t => rfl
  | obj D _ => rfl

theorem fn_text (fpu : Fpu) (cfg : Cfg) (ht : ∀ t, cfg.isType (typeText t) = true) (name : Name) (hname : Script.NameOk cfg name)
    (ret : Ty) (args : List (Name × Arg)) (hps : ∀ q ∈ args, Script.NameOk cfg q.1) (hty : ∀ x D fields, (x, Arg.obj D fields) ∈ args → IsName D.name ∧ cfg.isType (objText D.name) = true)
    (body : Cmds) (hok : body.Ok fpu ret false (argType (vars args))) (hn : body.Writable cfg)
    (src : List Char) (hs : sourceToks src = sourceToks (writeTokens (fnSrc name ret args body).print)) : ReadsFn cfg src ret args body := by
  obtain ⟨h1, h2⟩ := stmts_ok fpu ret cfg body false _ hok hn
  have hval : ∀ t, Ast.Ty.WF cfg ⟨typeText t, []⟩ := fun t => ⟨type_name t, by simp, ht t⟩
  have h3 := parse_function_print cfg (fnSrc name ret args body) ⟨hval ret, hname, by
    intro p hp
    simp only [fnSrc, List.mem_map] at hp
    obtain ⟨⟨x, q⟩, hq, rfl⟩ := hp
    refine ⟨?_, hps _ hq⟩
    cases q with
    | val t => exact hval t
    | obj D fields => exact ⟨dyn_name, by intro a ha; rw [List.mem_singleton.1 ha]; exact (hty x D fields hq).1, (hty x D fields hq).2⟩, h2⟩
  refine ⟨(fnSrc name ret args body).func, [], ?_, rfl, ?_, h1⟩
  · rw [← h3]; unfold parseFunction; rw [hs]
  · simp only [FuncSrc.func, fnSrc, List.map_map]
    apply List.map_congr_left
    intro q _
    simp only [Function.comp, arg_text]

/-- **C170.** Every function of the language has such a text. -/
theorem every_dyn_function_has_text (fpu : Fpu) (cfg : Cfg) (ht : ∀ t, cfg.isType (typeText t) = true) (name : Name) (hname : Script.NameOk cfg name)
    (ret : Ty) (args : List (Name × Arg)) (hps : ∀ q ∈ args, Script.NameOk cfg q.1) (hty : ∀ x D fields, (x, Arg.obj D fields) ∈ args → IsName D.name ∧ cfg.isType (objText D.name) = true)
    (body : Cmds) (hok : body.Ok fpu ret false (argType (vars args))) (hn : body.Writable cfg) : ∃ src, ReadsFn cfg src ret args body :=
  ⟨_, fn_text fpu cfg ht name hname ret args hps hty body hok hn _ rfl⟩

/-! ### An instance: objects of schema `S` with the fields `a`, an `i32`, `n`, a string, and `b`, an `i32` -/

abbrev i32 : Ty := FieldsFn.i32
def S : Decl := ⟨['S'], 0#64, [(['a'], descr i32), (['n'], descr .str), (['b'], descr i32)]⟩
def exCfg : Cfg := { isType := fun t => (typeNamed t).isSome || decide (t = objText ['S']), inRange := fun _ => true }
def exText : List Char := "i32 m ( dyn_obj < S > p , i32 d ) { p . a += d ; return p . a + p . b ; } ".toList
def exArgs : List (Name × Arg) := [(['p'], .obj S [(['a'], i32), (['b'], i32)]), (['d'], .val i32)]
def pa : Name := ['p', '.', 'a']
def pb : Name := ['p', '.', 'b']
def exBody : Cmds := .cons (.update .add pa (.var ['d'])) (.cons (.ret (.op2 (.arith .add) (.var pa) (.var pb))) .nil)

theorem ex_ok (fpu : Fpu) : exBody.Ok fpu i32 false (argType (vars exArgs)) :=
  ⟨⟨i32, ⟨by decide, ⟨trivial, trivial⟩, ⟨trivial, trivial⟩, ⟨trivial, trivial⟩⟩, by decide⟩, ⟨i32, ⟨by decide, ⟨trivial, trivial⟩, ⟨trivial, trivial⟩, ⟨trivial, trivial⟩⟩, by decide⟩, trivial⟩

theorem ex_types (t : Ty) : exCfg.isType (typeText t) = true := by
  rcases t with (_ | t | F) | _
  · decide
  · cases t <;> decide
  · cases F <;> decide
  · decide

theorem ex_reads (fpu : Fpu) : ReadsFn exCfg exText i32 exArgs exBody := by
  have hv : ∀ c, isAlpha c = true → validName exCfg [c] = true → Script.NameOk exCfg [c] := fun c h h' => ⟨example_name _ h, h'⟩
  have hp : ∀ c, isAlpha c = true → PathOk exCfg ['p', '.', c] := fun c h =>
    ⟨['p'], [[c]], rfl, hv _ (by decide) (by decide), by intro f hf; rw [List.mem_singleton.1 hf]; exact example_name _ h⟩
  refine fn_text fpu exCfg ex_types ['m'] (hv _ (by decide) (by decide)) i32 exArgs
    (by intro q hq; simp only [exArgs, List.mem_cons, List.not_mem_nil, or_false] at hq; rcases hq with rfl | rfl <;> exact hv _ (by decide) (by decide))
    (by intro x D fields h; simp only [exArgs, List.mem_cons, List.not_mem_nil, or_false, Prod.mk.injEq, Arg.obj.injEq, reduceCtorEq, and_false] at h
        rw [h.2.1]; exact ⟨example_name _ (by decide), by decide⟩)
    exBody (ex_ok fpu) ?_ exText
    (by rw [show exText = writeTokens (fnSrc ['m'] i32 exArgs exBody).print from by decide +kernel])
  simp only [exBody, Cmds.Writable, Cmd.Writable, Ex.Writable, and_true]
  have h1 := hp 'a' (by decide)
  exact ⟨⟨h1, PathOk.of (hv _ (by decide) (by decide))⟩, by simp, h1, hp 'b' (by decide)⟩

theorem ex_schemas : SchemasOk [S] where
  distinct := by decide
  header := by intro D h; rw [List.mem_singleton.1 h]; decide
  small := by intro D h; rw [List.mem_singleton.1 h]; decide

theorem has_a : S.Has ['a'] i32 := ⟨[], _, rfl, by simp⟩
theorem has_b : S.Has ['b'] i32 := ⟨[(['a'], descr i32), (['n'], descr .str)], [], rfl, by decide⟩

theorem ex_declared : Declared [S] exArgs where
  plain := by decide
  distinct := by decide
  known x D fields h := by
    simp only [exArgs, List.mem_cons, List.not_mem_nil, or_false, Prod.mk.injEq, Arg.obj.injEq, reduceCtorEq, and_false] at h
    rw [h.2.1]; simp
  fields x D fields h := by
    simp only [exArgs, List.mem_cons, List.not_mem_nil, or_false, Prod.mk.injEq, Arg.obj.injEq, reduceCtorEq, and_false] at h
    obtain ⟨rfl, rfl, rfl⟩ := h
    intro q hq
    simp only [List.mem_cons, List.not_mem_nil, or_false] at hq
    rcases hq with rfl | rfl
    · exact ⟨has_a, by decide, by decide⟩
    · exact ⟨has_b, by decide, by decide⟩

abbrev w32 (z : Int) : Int := Pipeline.wrap .i32 z

theorem ex_exec (fpu : Fpu) (ρ : Store) (x y d : Int) (hx : IntOps.Fits .i32 x) (hy : IntOps.Fits .i32 y) (hd : IntOps.Fits .i32 d)
    (h1 : ρ pa = some (.num (.int x))) (h2 : ρ pb = some (.num (.int y))) (h3 : ρ ['d'] = some (.num (.int d))) :
    exBody.exec fpu i32 0 (argType (vars exArgs)) ρ = .ret (setValue ρ pa (.num (.int (w32 (x + d))))) (.num (.int (w32 (w32 (x + d) + y)))) := by
  have t1 : (Ex.var pa).type (argType (vars exArgs)) = some i32 := by decide
  have t2 : (Ex.var pb).type (argType (vars exArgs)) = some i32 := by decide
  have t3 : (Ex.var ['d']).type (argType (vars exArgs)) = some i32 := by decide
  have e1 : (Ex.op2 (.arith .add) (.var pa) (.var ['d'])).value fpu (argType (vars exArgs)) ρ = some (.num (.int (w32 (x + d)))) := by
    rw [Ex.value, t1, t3, Option.bind_some, Option.bind_some, Ex.value, h1, Option.bind_some, Ex.value, h3, Option.bind_some, FieldsFn.add_value fpu x d hx hd]
  have s1 : (setValue ρ pa (.num (.int (w32 (x + d))))) pa = some (.num (.int (w32 (x + d)))) := if_pos rfl
  have s2 : (setValue ρ pa (.num (.int (w32 (x + d))))) pb = some (.num (.int y)) := by rw [← h2]; exact if_neg (by decide)
  have e2 : (Ex.op2 (.arith .add) (.var pa) (.var pb)).value fpu (argType (vars exArgs)) (setValue ρ pa (.num (.int (w32 (x + d))))) = some (.num (.int (w32 (w32 (x + d) + y)))) := by
    rw [Ex.value, t1, t2, Option.bind_some, Option.bind_some, Ex.value, s1, Option.bind_some, Ex.value, s2, Option.bind_some, FieldsFn.add_value fpu (w32 (x + d)) y (Pipeline.wrap_fits _ _) hy]
  rw [exBody, Cmds.exec, Cmd.exec, e1]
  simp only [withValue, End.andThen, Cmds.exec, Cmd.exec, Cmd.after]
  rw [e2]
  simp only [Option.bind_some, FieldsFn.i32, conv, Real.conv, Option.map_some, Pipeline.wrap_self (Pipeline.wrap_fits _ _)]

/-- The host sets `a` and `b`, calls the function, and gets the new `a` and the old `b`. -/
example (fpu : Fpu) (ju : Types.Str.Val) : ∃ code, compileFn [S] fpu ju exCfg exText = some code ∧ ∀ (x y d : Int) (p : WV) (o : Nat → WV) (objs : Name → Nat → WV) junk,
    IntOps.Fits .i32 x → IntOps.Fits .i32 y → IntOps.Fits .i32 d →
    objs ['p'] = (set S.schema (set S.schema o ['a'] i32 (.num (Real.Val.int x).enc)).2 ['b'] i32 (.num (Real.Val.int y).enc)).2 →
    ∃ objs', Returns [S] fpu ju code junk [p, .num (Real.Val.int d).enc] objs (.num (Real.Val.int (w32 (w32 (x + d) + y))).enc) objs' ∧
      get S.schema (objs' ['p']) ['a'] i32 = .ok (.num (Real.Val.int (w32 (x + d))).enc) ∧ get S.schema (objs' ['p']) ['b'] i32 = .ok (.num (Real.Val.int y).enc) := by
  obtain ⟨code, h1, h2⟩ := dyn_function_computes [S] ex_schemas fpu ju exCfg exText i32 exArgs exBody (ex_reads fpu) ex_declared (ex_ok fpu)
    (by simp [exBody, Cmds.Clean, Cmd.Clean, Cmd.ends, Cmds.startsLoop]) (by decide) (by decide)
  refine ⟨code, h1, fun x y d p o objs junk hx hy hd ho => ?_⟩
  have ga : get S.schema (objs ['p']) ['a'] i32 = .ok (.num (Real.Val.int x).enc) := by
    rw [ho, (host_sets [S] ex_schemas S (by simp) ['b'] i32 has_b _ _).2.2.1 ['a'] i32 has_a (by decide)]
    exact (host_sets [S] ex_schemas S (by simp) ['a'] i32 has_a _ _).2.1
  have gb : get S.schema (objs ['p']) ['b'] i32 = .ok (.num (Real.Val.int y).enc) := by
    rw [ho]
    exact (host_sets [S] ex_schemas S (by simp) ['b'] i32 has_b _ _).2.1
  have hm : (['p'], Arg.obj S [(['a'], i32), (['b'], i32)]) ∈ exArgs := by simp [exArgs]
  let ρ : Store := fun n => if n = pa then some (.num (.int x)) else if n = pb then some (.num (.int y)) else if n = ['d'] then some (.num (.int d)) else none
  have r1 : ρ pa = some (.num (.int x)) := if_pos rfl
  have r2 : ρ pb = some (.num (.int y)) := by show (if pb = pa then _ else if pb = pb then _ else _) = _; rw [if_neg (by decide), if_pos rfl]
  have r3 : ρ ['d'] = some (.num (.int d)) := by
    show (if ['d'] = pa then _ else if ['d'] = pb then _ else if ['d'] = ['d'] then _ else _) = _
    rw [if_neg (by decide), if_neg (by decide), if_pos rfl]
  have hg : Given exArgs [p, .num (Real.Val.int d).enc] objs ρ := by
    constructor
    · intro i n t h
      match i with
      | 0 => simp [exArgs] at h
      | 1 =>
        simp only [exArgs, List.getElem?_cons_succ, List.getElem?_cons_zero, Option.some.injEq, Prod.mk.injEq, Arg.val.injEq] at h
        obtain ⟨rfl, rfl⟩ := h
        exact ⟨_, _, r3, hd, rfl, rfl⟩
      | i + 2 => simp [exArgs] at h
    · intro n D fields h
      simp only [exArgs, List.mem_cons, List.not_mem_nil, or_false, Prod.mk.injEq, Arg.obj.injEq, reduceCtorEq, and_false] at h
      obtain ⟨rfl, rfl, rfl⟩ := h
      intro q hq
      simp only [List.mem_cons, List.not_mem_nil, or_false] at hq
      rcases hq with rfl | rfl
      · exact ⟨_, _, r1, hx, ga, rfl⟩
      · exact ⟨_, _, r2, hy, gb, rfl⟩
  obtain ⟨_, h3, _⟩ := h2 _ objs junk ρ hg
  obtain ⟨v, objs', h4, h5, h6⟩ := h3 0 _ _ (ex_exec fpu ρ x y d hx hy hd r1 r2 r3)
  obtain ⟨z, w, k1, k2, k3⟩ := h6 _ _ _ hm (['a'], i32) (by simp)
  obtain ⟨z', w', k4, k5, k6⟩ := h6 _ _ _ hm (['b'], i32) (by simp)
  have e1 : setValue ρ pa (.num (.int (w32 (x + d)))) pa = some (.num (.int (w32 (x + d)))) := if_pos rfl
  have e2 : setValue ρ pa (.num (.int (w32 (x + d)))) pb = some (.num (.int y)) := by rw [← r2]; exact if_neg (by decide)
  rw [show ['p'] ++ '.' :: ['a'] = pa from rfl, e1] at k1
  rw [show ['p'] ++ '.' :: ['b'] = pb from rfl, e2] at k4
  cases k1
  cases k4
  refine ⟨objs', ?_, ?_, ?_⟩
  · rw [← rep_num h5]; exact h4
  · rw [← rep_num k3]; exact k2
  · rw [← rep_num k6]; exact k5

/-- A field that is not in the schema meets the hypotheses of `unknown_field_refused`. -/
example (fpu : Fpu) (ju : Types.Str.Val) : ∃ src, compileFn [S] fpu ju exCfg src = none ∧ ReadsFn exCfg src i32 [(['p'], .obj S [])] (.cons (.ret (.var ['p', '.', 'z'])) .nil) := by
  have hv : ∀ c, isAlpha c = true → validName exCfg [c] = true → Script.NameOk exCfg [c] := fun c h h' => ⟨example_name _ h, h'⟩
  have hr : ReadsFn exCfg (writeTokens (fnSrc ['m'] i32 [(['p'], .obj S [])] (.cons (.ret (.var ['p', '.', 'z'])) .nil)).print) i32 [(['p'], .obj S [])]
      (.cons (.ret (.var ['p', '.', 'z'])) .nil) := by
    have hp : PathOk exCfg ['p', '.', 'z'] := ⟨['p'], [['z']], rfl, hv _ (by decide) (by decide), by intro f hf; rw [List.mem_singleton.1 hf]; exact example_name _ (by decide)⟩
    obtain ⟨h1, h2⟩ := stmts_ok fpu i32 exCfg (.cons (.ret (.var ['p', '.', 'z'])) .nil) false (fun n => if n = ['p', '.', 'z'] then some i32 else none)
      ⟨⟨i32, ⟨by decide, trivial, trivial, trivial⟩, by decide⟩, trivial⟩ ⟨hp, trivial⟩
    have h3 := parse_function_print exCfg (fnSrc ['m'] i32 [(['p'], .obj S [])] (.cons (.ret (.var ['p', '.', 'z'])) .nil))
      ⟨⟨type_name i32, (fun a ha => nomatch ha), ex_types i32⟩, hv _ (by decide) (by decide), by
        intro q hq
        simp only [fnSrc, List.map_cons, List.map_nil, List.mem_singleton] at hq
        rw [hq]
        exact ⟨⟨dyn_name, by intro a ha; rw [List.mem_singleton.1 ha]; exact example_name _ (by decide), by decide⟩, hv _ (by decide) (by decide)⟩, h2⟩
    exact ⟨_, [], h3, rfl, rfl, h1⟩
  exact ⟨_, (unknown_field_refused [S] ex_schemas fpu ju exCfg _ i32 ['p'] ['z'] S (by simp) (by decide) (by decide) (by decide) hr).1, hr⟩

end Verif.Comp.DynFn
