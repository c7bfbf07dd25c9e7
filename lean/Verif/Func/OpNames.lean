import Verif.Types.Names
import Verif.Types.DynObject
/-!
# Names of built-in functions: C149

`GetFunctionName`, `GetCachedFunctionName`, `/repo/rapidudf/meta/function.cc` 29–90; `kOpTokenStrs`, `/repo/rapidudf/meta/optype.h` 117–212. Built-in functions are registered and looked up under these names
(`/repo/rapidudf/functions/simd_vector.cc` 46–96, `/repo/rapidudf/ast/expression.cc` 824–833, `/repo/rapidudf/compiler/codegen_{unary,binary,ternary}.cc`).
-/
namespace Verif.Func.OpNames
open Verif.Types.DT Verif.Types.Names
open Verif.Types.Dyn (isSimdVector)

/-! ## Model -/

/-- `kOpTokenStrs`, `optype.h` 117–212; the place in the table is the number of the operation. -/
def opStrs : List Name :=
  ["invalid", "unary_begin", "positive", "negative", "not", "sqrt", "cbrt", "floor", "ceil", "round", "rint", "trunc", "erf", "erfc", "abs", "sin", "cos", "tan", "asin", "acos", "atan", "atanh",
    "sinh", "cosh", "tanh", "asinh", "acosh", "exp", "exp2", "expm1", "log", "log2", "log10", "log1p", "approx_recip", "approx_recip_sqrt", "unary_end", "binary_begin", "add", "sub", "multiply",
    "divide", "mod", "assign", "add_assign", "sub_assign", "multiply_assign", "divide_assign", "mod_assign", "eq", "ne", "lt", "le", "gt", "ge", "and", "or", "xor", "atan2", "max", "min", "pow",
    "hypot", "abs_diff", "binary_end", "ternary_begin", "conditional", "clamp", "fma", "fms", "fnma", "fnms", "ternary_end", "misc_begin", "dot", "cos_distance", "l2_distance", "iota", "sort",
    "select", "topk", "sort_kv", "select_kv", "topk_kv", "argsort", "argselect", "sum", "avg", "clone", "filter", "gather", "misc_end"].map String.toList

/-- `kSimdVectorFuncPrefix` and the `_` put before it, `function.h` 78, `function.cc` 36–37. -/
def vecPrefix : Name := ['s', 'i', 'm', 'd', '_', 'v', 'e', 'c', 't', 'o', 'r', '_']

/-- `GetFunctionName(op, dtype)`, 29–40. -/
def functionName (f : Factory) (op : Name) (d : DType) : Option Name :=
  match typeString f (elemOf d) with
  | none => none
  | some t => some ((if isSimdVector d then vecPrefix else []) ++ (op ++ '_' :: t))

/-- `GetFunctionName(op, dtype0, dtype1)`, 41–54. -/
def functionName2 (f : Factory) (op : Name) (d e : DType) : Option Name :=
  match typeString f (elemOf d), typeString f (elemOf e) with
  | some t, some u => some ((if isSimdVector d || isSimdVector e then vecPrefix else []) ++ (op ++ '_' :: t ++ '_' :: u))
  | _, _ => none

/-- `GetCachedFunctionName`, 81–90: the cache of a thread, keyed by the operation and the control word of the type. -/
def cached (f : Factory) (ctrl : DType → Nat) (cache : List ((Nat × Nat) × Name)) (op : Nat) (d : DType) : List ((Nat × Nat) × Name) × Option Name :=
  match cache.lookup (op, ctrl d) with
  | some n => (cache, some n)
  | none =>
    match (opStrs[op]?).bind fun o => functionName f o d with
    | some n => (((op, ctrl d), n) :: cache, some n)
    | none => (cache, none)

/-! ## Specification -/

/-- An operand of a built-in function: a single value or a vector of them, of a built-in type (`DATA_VOID` to `DATA_TABLE`). -/
structure Operand where
  vector : Bool
  id : Nat
  deriving DecidableEq

def Operand.Valid (o : Operand) : Prop := 1 ≤ o.id ∧ o.id < 24

/-- Its descriptor. -/
def Operand.dtype (o : Operand) : DType := getDType (if o.vector then .coll COLLECTION_SIMD_VECTOR (.prim o.id) else .prim o.id)

/-- What the name is asked for: an operation by its number, and one or two operands. -/
structure Request where
  op : Nat
  first : Operand
  second : Option Operand
  deriving DecidableEq

def Request.Valid (r : Request) : Prop := r.op < opStrs.length ∧ r.first.Valid ∧ ∀ o, r.second = some o → o.Valid

def nameOfRequest (f : Factory) (r : Request) : Option Name :=
  (opStrs[r.op]?).bind fun o => match r.second with
    | none => functionName f o r.first.dtype
    | some s => functionName2 f o r.first.dtype s.dtype

/-- What a name tells: the operation, the types of the elements, and whether a vector is among the operands. -/
def meaning (r : Request) : Nat × Nat × Option Nat × Bool := (r.op, r.first.id, r.second.map (·.id), r.first.vector || (r.second.map (·.vector)).getD false)

/-! ## Lemmas -/

def tyName (id : Nat) : Name := (fundamentalStrs[id]?).getD []

theorem operand_string (f : Factory) (o : Operand) (h : o.Valid) : typeString f (elemOf o.dtype) = some (tyName o.id) ∧ isSimdVector o.dtype = o.vector := by
  obtain ⟨v, id⟩ := o
  obtain ⟨h1, h2⟩ := h
  dsimp only at h1 h2
  have hw : WF (.prim id) := ⟨by omega, by unfold DATA_COMPLEX_OBJECT; omega⟩
  have hp : primName f id = tyName id := if_pos ⟨h1, by unfold BUILTIN_END; omega⟩
  have hne : primName f id ≠ [] := hp ▸ (fundamental_plain id ⟨h1, by unfold BUILTIN_END; omega⟩).1
  have e0 : ∀ p, elemOf (.mk p 0 id 0 0 []) = if p = COLLECTION_MAP ∨ p = COLLECTION_UNORDERED_MAP then .mk 0 0 0 0 0 [] else .mk 0 0 id 0 0 [] := by
    intro p
    by_cases hm : p = COLLECTION_MAP ∨ p = COLLECTION_UNORDERED_MAP <;> simp [elemOf, isMapLike, DType.container, DType.elems, DType.ptr, DType.t0, DType.t1, DType.arr, hm]
  cases v
  · simp only [Operand.dtype, Bool.false_eq_true, if_false]
    rw [prim_shape id hw, e0, if_neg (by decide)]
    refine ⟨?_, ?_⟩
    · rw [typeString_prim f id 0 hw (.inl rfl) hne, hp]; simp
    · simp [isSimdVector, DType.container, DType.t0, COLLECTION_SIMD_VECTOR]; omega
  · simp only [Operand.dtype, if_true]
    rw [getDType_coll_prim _ id ⟨by simp, hw⟩, e0, if_neg (by decide)]
    refine ⟨?_, ?_⟩
    · rw [typeString_prim f id 0 hw (.inl rfl) hne, hp]; simp
    · simp [isSimdVector, DType.container]

/-- The parts of a text before and after each `_`. -/
def splits : Name → List (Name × Name)
  | [] => []
  | c :: s => (if c = '_' then [([], s)] else []) ++ (splits s).map fun p => (c :: p.1, p.2)

theorem mem_splits : ∀ (a b : Name), (a, b) ∈ splits (a ++ '_' :: b)
  | [], b => by simp [splits]
  | c :: a, b => by
    simp only [List.cons_append, splits, List.mem_append, List.mem_map]
    exact .inr ⟨(a, b), mem_splits a b, rfl⟩

/-- Two texts joined by `_` are equal only if their parts are, or one part goes over the `_` of the other. -/
theorem join_eq (a b s t : Name) (h : a ++ '_' :: s = b ++ '_' :: t) :
    (a = b ∧ s = t) ∨ (∃ c, b = a ++ '_' :: c ∧ s = c ++ '_' :: t) ∨ ∃ c, a = b ++ '_' :: c ∧ t = c ++ '_' :: s := by
  rcases List.append_eq_append_iff.1 h with ⟨c, h1, h2⟩ | ⟨c, h1, h2⟩
  · cases c with
    | nil => simp at h1 h2; exact .inl ⟨h1.symm, h2⟩
    | cons x c =>
      simp only [List.cons_append, List.cons.injEq] at h2
      exact .inr (.inl ⟨c, by rw [h1, ← h2.1], h2.2⟩)
  · cases c with
    | nil => simp at h1 h2; exact .inl ⟨h1, h2.symm⟩
    | cons x c =>
      simp only [List.cons_append, List.cons.injEq] at h2
      exact .inr (.inr ⟨c, by rw [h1, ← h2.1], h2.2⟩)

/-- Pieces of the name of a type, cut so that the rest is the name of a type. -/
def pieces : List Name := fundamentalStrs.flatMap fun t => ((splits t).filter fun p => decide (p.2 ∈ fundamentalStrs)).map (·.1)

theorem pieces_eq : pieces = [['s', 't', 'd'], ['f', 'b', 's']] := by decide +kernel

theorem tyName_mem (id : Nat) (h : id < 25) : tyName id ∈ fundamentalStrs := by
  have : ∀ i : Fin 25, tyName i.val ∈ fundamentalStrs := by decide +kernel
  exact this ⟨id, h⟩

theorem piece_of (c : Name) (i j : Nat) (hi : i < 25) (hj : j < 25) (h : tyName i = c ++ '_' :: tyName j) : c = ['s', 't', 'd'] ∨ c = ['f', 'b', 's'] := by
  have : c ∈ pieces := by
    unfold pieces
    rw [List.mem_flatMap]
    refine ⟨tyName i, tyName_mem i hi, List.mem_map.2 ⟨(c, tyName j), List.mem_filter.2 ⟨h ▸ mem_splits c _, ?_⟩, rfl⟩⟩
    exact decide_eq_true (tyName_mem j hj)
  rw [pieces_eq] at this
  simpa using this

theorem ops_no_piece (op a : Name) (ho : op ∈ opStrs) : op ≠ a ++ '_' :: ['s', 't', 'd'] ∧ op ≠ a ++ '_' :: ['f', 'b', 's'] := by
  have hd : ∀ o ∈ opStrs, ¬ (['_', 's', 't', 'd'] <:+ o) ∧ ¬ (['_', 'f', 'b', 's'] <:+ o) := by decide +kernel
  exact ⟨fun h => (hd op ho).1 ⟨a, h.symm⟩, fun h => (hd op ho).2 ⟨a, h.symm⟩⟩

theorem types_no_piece (id : Nat) (h : id < 25) : ¬ (['s', 't', 'd'] <:+ tyName id) ∧ ¬ (['f', 'b', 's'] <:+ tyName id) := by
  have : ∀ i : Fin 25, ¬ (['s', 't', 'd'] <:+ tyName i.val) ∧ ¬ (['f', 'b', 's'] <:+ tyName i.val) := by decide +kernel
  exact this ⟨id, h⟩

/-- No operation is named like an operation with a type. -/
theorem op_no_type (op a : Name) (id : Nat) (ho : op ∈ opStrs) (h : id < 25) : op ≠ a ++ '_' :: tyName id := by
  have : ∀ o ∈ opStrs, ∀ i : Fin 25, ¬ (('_' :: tyName i.val) <:+ o) := by decide +kernel
  exact fun e => this op ho ⟨id, h⟩ ⟨a, e.symm⟩

theorem suffix_of_append {a b c d : Name} (h : a ++ b = c ++ d) (hl : d.length ≤ b.length) : d <:+ b := by
  have h1 : b <:+ c ++ d := ⟨a, h⟩
  exact List.suffix_of_suffix_length_le ⟨c, rfl⟩ h1 hl

theorem tyName_len (id : Nat) (h1 : 1 ≤ id) (h : id < 24) : 2 ≤ (tyName id).length := by
  have : ∀ i : Fin 24, 1 ≤ i.val → 2 ≤ (tyName i.val).length := by decide +kernel
  exact this ⟨id, h⟩ h1

theorem opStrs_nodup : opStrs.Nodup := by decide +kernel

theorem opStr_inj (i j : Nat) (o : Name) (hi : opStrs[i]? = some o) (hj : opStrs[j]? = some o) : i = j := by
  obtain ⟨h1, e1⟩ := List.getElem?_eq_some_iff.1 hi
  obtain ⟨h2, e2⟩ := List.getElem?_eq_some_iff.1 hj
  rcases Nat.lt_trichotomy i j with h | h | h
  · exact absurd (e1.trans e2.symm) (List.pairwise_iff_getElem.1 opStrs_nodup i j h1 h2 h)
  · exact h
  · exact absurd (e2.trans e1.symm) (List.pairwise_iff_getElem.1 opStrs_nodup j i h2 h1 h)

/-- One operation and one type. -/
theorem single_inj (o p : Name) (i j : Nat) (ho : o ∈ opStrs) (hp : p ∈ opStrs) (hi : i < 24) (hj : j < 24) (h : o ++ '_' :: tyName i = p ++ '_' :: tyName j) : o = p ∧ i = j := by
  rcases join_eq _ _ _ _ h with ⟨h1, h2⟩ | ⟨c, h1, h2⟩ | ⟨c, h1, h2⟩
  · exact ⟨h1, fundamental_inj i j (by unfold BUILTIN_END; omega) (by unfold BUILTIN_END; omega) h2⟩
  · rcases piece_of c i j (by omega) (by omega) h2 with rfl | rfl
    · exact absurd h1 (ops_no_piece p o hp).1
    · exact absurd h1 (ops_no_piece p o hp).2
  · rcases piece_of c j i (by omega) (by omega) h2 with rfl | rfl
    · exact absurd h1 (ops_no_piece o p ho).1
    · exact absurd h1 (ops_no_piece o p ho).2

/-- Operation and type do not end like a piece. -/
theorem op_type_no_piece (o a : Name) (i : Nat) (c : Name) (h1 : 1 ≤ i) (hi : i < 24) (hc : c = ['s', 't', 'd'] ∨ c = ['f', 'b', 's']) : o ++ '_' :: tyName i ≠ a ++ '_' :: c := by
  intro h
  have hn := types_no_piece i (by omega)
  have hl := tyName_len i h1 hi
  by_cases h3 : 3 ≤ (tyName i).length
  · have : c <:+ tyName i := suffix_of_append (a := o ++ ['_']) (c := a ++ ['_']) (by simpa using h) (by rcases hc with rfl | rfl <;> simpa using h3)
    rcases hc with rfl | rfl
    · exact hn.1 this
    · exact hn.2 this
  · have h2 : (tyName i).length = 2 := by omega
    have : tyName i <:+ c := suffix_of_append (a := a ++ ['_']) (c := o ++ ['_']) (by simpa using h.symm) (by rcases hc with rfl | rfl <;> simp [h2])
    have hd : ∀ k : Fin 24, 1 ≤ k.val → ¬ tyName k.val <:+ ['s', 't', 'd'] ∧ ¬ tyName k.val <:+ ['f', 'b', 's'] := by decide +kernel
    rcases hc with rfl | rfl
    · exact (hd ⟨i, hi⟩ h1).1 this
    · exact (hd ⟨i, hi⟩ h1).2 this

/-- One operation and two types. -/
theorem double_inj (o p : Name) (i j k l : Nat) (ho : o ∈ opStrs) (hp : p ∈ opStrs) (hi : 1 ≤ i ∧ i < 24) (hj : 1 ≤ j ∧ j < 24) (hk : k < 24) (hl : l < 24)
    (h : o ++ '_' :: tyName i ++ '_' :: tyName k = p ++ '_' :: tyName j ++ '_' :: tyName l) : o = p ∧ i = j ∧ k = l := by
  rcases join_eq _ _ _ _ h with ⟨h1, h2⟩ | ⟨c, h1, h2⟩ | ⟨c, h1, h2⟩
  · obtain ⟨h3, h4⟩ := single_inj o p i j ho hp hi.2 hj.2 h1
    exact ⟨h3, h4, fundamental_inj k l (by unfold BUILTIN_END; omega) (by unfold BUILTIN_END; omega) h2⟩
  · exact absurd h1 (op_type_no_piece p _ j c hj.1 hj.2 (piece_of c k l (by omega) (by omega) h2))
  · exact absurd h1 (op_type_no_piece o _ i c hi.1 hi.2 (piece_of c l k (by omega) (by omega) h2))

/-- One type against two types. -/
theorem single_double (o p : Name) (i j k : Nat) (ho : o ∈ opStrs) (hi : i < 24) (hj : 1 ≤ j ∧ j < 24) (hk : k < 24) :
    o ++ '_' :: tyName i ≠ p ++ '_' :: tyName j ++ '_' :: tyName k := by
  intro h
  rcases join_eq _ _ _ _ h with ⟨h1, _⟩ | ⟨c, h1, h2⟩ | ⟨c, h1, h2⟩
  · exact op_no_type o p j ho (by omega) h1
  · exact op_type_no_piece p _ j c hj.1 hj.2 (piece_of c i k (by omega) (by omega) h2) h1
  · rcases piece_of c k i (by omega) (by omega) h2 with rfl | rfl
    · exact (ops_no_piece o _ ho).1 h1
    · exact (ops_no_piece o _ ho).2 h1

theorem not_vec (o r t : Name) (ho : o ∈ opStrs) : vecPrefix ++ r ≠ o ++ '_' :: t := by
  have hd : ∀ o ∈ opStrs, ¬ (o ++ ['_']) <+: vecPrefix ∧ ¬ vecPrefix <+: (o ++ ['_']) := by decide +kernel
  intro h
  have h1 : vecPrefix <+: vecPrefix ++ r := ⟨r, rfl⟩
  have h2 : (o ++ ['_']) <+: vecPrefix ++ r := ⟨t, by rw [h]; simp⟩
  rcases Nat.le_total vecPrefix.length (o ++ ['_']).length with hl | hl
  · exact (hd o ho).2 (List.prefix_of_prefix_length_le h1 h2 hl)
  · exact (hd o ho).1 (List.prefix_of_prefix_length_le h2 h1 hl)

/-- The part of a name after the prefix. -/
def body (o : Name) (i : Nat) : Option Nat → Name
  | none => o ++ '_' :: tyName i
  | some k => o ++ '_' :: tyName i ++ '_' :: tyName k

theorem body_start (o : Name) (i : Nat) (k : Option Nat) : ∃ t, body o i k = o ++ '_' :: t := by
  cases k with
  | none => exact ⟨_, rfl⟩
  | some k => exact ⟨tyName i ++ '_' :: tyName k, by simp [body]⟩

theorem request_name (f : Factory) (r : Request) (h : r.Valid) : ∃ o, opStrs[r.op]? = some o ∧
    nameOfRequest f r = some ((if (meaning r).2.2.2 = true then vecPrefix else []) ++ body o r.first.id (r.second.map (·.id))) := by
  obtain ⟨hop, h1, h2⟩ := h
  refine ⟨opStrs[r.op], List.getElem?_eq_getElem hop, ?_⟩
  unfold nameOfRequest
  rw [List.getElem?_eq_getElem hop]
  obtain ⟨op, a, s⟩ := r
  cases s with
  | none =>
    obtain ⟨ha, hb⟩ := operand_string f a h1
    simp [functionName, ha, hb, body, meaning]
  | some s =>
    obtain ⟨ha, hb⟩ := operand_string f a h1
    obtain ⟨hc, hd⟩ := operand_string f s (h2 s rfl)
    simp [functionName2, ha, hb, hc, hd, body, meaning]

/-! ## C149 -/

/-- **C149.** Two requests get the same name only if they are for the same operation on elements of the same types, both with or both without vectors. -/
theorem names_apart (f g : Factory) (r s : Request) (hr : r.Valid) (hs : s.Valid) (h : nameOfRequest f r = nameOfRequest g s) : meaning r = meaning s := by
  obtain ⟨o, ho, er⟩ := request_name f r hr
  obtain ⟨p, hp, es⟩ := request_name g s hs
  rw [er, es] at h
  injection h with h
  have hom : o ∈ opStrs := List.mem_of_getElem? ho
  have hpm : p ∈ opStrs := List.mem_of_getElem? hp
  have hv : (meaning r).2.2.2 = (meaning s).2.2.2 := by
    obtain ⟨t, ht⟩ := body_start o r.first.id (r.second.map (·.id))
    obtain ⟨u, hu⟩ := body_start p s.first.id (s.second.map (·.id))
    cases ha : (meaning r).2.2.2 <;> cases hb : (meaning s).2.2.2
    · rfl
    · rw [ha, hb, ht] at h; exact absurd h.symm (not_vec o _ t hom)
    · rw [ha, hb, hu] at h; exact absurd h (not_vec p _ u hpm)
    · rfl
  rw [hv] at h
  have hb := List.append_cancel_left h
  have key : o = p ∧ r.first.id = s.first.id ∧ r.second.map (·.id) = s.second.map (·.id) := by
    cases h1 : r.second with
    | none =>
      cases h2 : s.second with
      | none =>
        rw [h1, h2] at hb
        obtain ⟨e1, e2⟩ := single_inj o p _ _ hom hpm hr.2.1.2 hs.2.1.2 hb
        exact ⟨e1, e2, rfl⟩
      | some y =>
        rw [h1, h2] at hb
        exact absurd hb (single_double o p _ _ _ hom hr.2.1.2 hs.2.1 (hs.2.2 y h2).2)
    | some x =>
      cases h2 : s.second with
      | none =>
        rw [h1, h2] at hb
        exact absurd hb.symm (single_double p o _ _ _ hpm hs.2.1.2 hr.2.1 (hr.2.2 x h1).2)
      | some y =>
        rw [h1, h2] at hb
        obtain ⟨e1, e2, e3⟩ := double_inj o p _ _ _ _ hom hpm hr.2.1 hs.2.1 (hr.2.2 x h1).2 (hs.2.2 y h2).2 hb
        exact ⟨e1, e2, congrArg some e3⟩
  obtain ⟨e1, e2, e3⟩ := key
  subst e1
  have e0 := opStr_inj _ _ _ ho hp
  unfold meaning at hv ⊢
  dsimp only at hv
  rw [e0, e2, e3, hv]

/-- **C149.** Every request has a name. -/
theorem names_exist (f : Factory) (r : Request) (hr : r.Valid) : (nameOfRequest f r).isSome = true := by
  obtain ⟨o, _, e⟩ := request_name f r hr
  rw [e]; rfl

/-- A history of cached lookups of one thread. -/
def lookups (f : Factory) (ctrl : DType → Nat) (cache : List ((Nat × Nat) × Name)) : List (Nat × DType) → List (Option Name)
  | [] => []
  | (op, d) :: qs => (cached f ctrl cache op d).2 :: lookups f ctrl (cached f ctrl cache op d).1 qs

/-- **C149.** After any history of lookups the cached name is the name, for types that the control word tells apart. -/
theorem cached_names (f : Factory) (ctrl : DType → Nat) (qs : List (Nat × DType)) (hc : ∀ p ∈ qs, ∀ q ∈ qs, ctrl p.2 = ctrl q.2 → p.2 = q.2) :
    lookups f ctrl [] qs = qs.map fun q => (opStrs[q.1]?).bind fun o => functionName f o q.2 := by
  have key : ∀ (rest done : List (Nat × DType)) (cache : List ((Nat × Nat) × Name)), (∀ q ∈ rest, q ∈ qs) →
      (∀ e ∈ cache, ∃ q ∈ qs, e.1 = (q.1, ctrl q.2) ∧ (opStrs[q.1]?).bind (fun o => functionName f o q.2) = some e.2) →
      lookups f ctrl cache rest = rest.map fun q => (opStrs[q.1]?).bind fun o => functionName f o q.2 := by
    intro rest
    induction rest with
    | nil => intros; rfl
    | cons q rest ih =>
      intro done cache hq hcache
      obtain ⟨op, d⟩ := q
      have hmem : (op, d) ∈ qs := hq _ List.mem_cons_self
      simp only [lookups, List.map_cons]
      cases hl : cache.lookup (op, ctrl d) with
      | some n =>
        have e : cached f ctrl cache op d = (cache, some n) := by simp only [cached, hl]
        rw [e]
        refine congr (congrArg List.cons ?_) (ih done cache (fun q h => hq q (List.mem_cons_of_mem _ h)) hcache)
        have hin : ((op, ctrl d), n) ∈ cache := by
          clear hcache ih e
          induction cache with
          | nil => cases hl
          | cons a cache ih =>
            obtain ⟨k, v⟩ := a
            rw [List.lookup_cons] at hl
            by_cases hk : (op, ctrl d) = k
            · subst hk
              rw [beq_self_eq_true] at hl
              injection hl with hl
              subst hl
              exact List.mem_cons_self
            · rw [beq_false_of_ne hk] at hl
              exact List.mem_cons_of_mem _ (ih hl)
        obtain ⟨⟨op', d'⟩, hq', he, hv⟩ := hcache _ hin
        simp only [Prod.mk.injEq] at he
        have hd := hc _ hmem _ hq' he.2
        dsimp only at hd hv
        rw [he.1, hd, hv]
      | none =>
        cases hn : (opStrs[op]?).bind fun o => functionName f o d with
        | none =>
          have e : cached f ctrl cache op d = (cache, none) := by simp only [cached, hl, hn]
          rw [e]
          exact congrArg (none :: ·) (ih done cache (fun q h => hq q (List.mem_cons_of_mem _ h)) hcache)
        | some n =>
          have e : cached f ctrl cache op d = (((op, ctrl d), n) :: cache, some n) := by simp only [cached, hl, hn]
          rw [e]
          refine congrArg (some n :: ·) (ih done _ (fun q h => hq q (List.mem_cons_of_mem _ h)) ?_)
          intro x hx
          rcases List.mem_cons.1 hx with rfl | hx
          · exact ⟨(op, d), hmem, rfl, hn⟩
          · exact hcache x hx
  exact key qs [] [] (fun _ h => h) (fun _ h => by cases h)

/-- `simd_vector_add_i32` and `sort_kv` on two vectors. -/
def emptyFactory : Factory := { byName := [], byClass := [] }
example : nameOfRequest emptyFactory ⟨38, ⟨true, 9⟩, none⟩ = some "simd_vector_add_i32".toList := by decide +kernel
example : nameOfRequest emptyFactory ⟨81, ⟨true, 9⟩, some ⟨true, 13⟩⟩ = some "simd_vector_sort_kv_i32_f32".toList := by decide +kernel
example : (Request.mk 81 ⟨true, 9⟩ (some ⟨true, 13⟩)).Valid := ⟨by decide, ⟨by decide, by decide⟩, by rintro o ⟨⟩; exact ⟨by decide, by decide⟩⟩

end Verif.Func.OpNames
