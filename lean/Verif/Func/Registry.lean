/-!
# Function registry, signatures, context argument, column options: models and properties C04, C05, C43, C66
-/
namespace Verif.Func

/-! ## C04: the registry -/

/-- What the registry stores, `/repo/rapidudf/meta/function.h` 50-61. Types are abstract (`D`); `ctx t` says that `t` is a context
pointer, `ptr t` that `t` is a pointer. -/
structure Desc (D : Type) where
  name : String
  ret : D
  args : List D
  func : Nat
  ctxIdx : Option Nat := none
  vectorFunc : Bool := false
deriving DecidableEq

/-- meta/function.cc 92-102: the first context pointer; a second one is only logged. -/
def firstCtx {D : Type} (ctx : D → Bool) (args : List D) : Option Nat := args.findIdx? ctx

def Desc.init {D : Type} (ctx : D → Bool) (d : Desc D) : Desc D := { d with ctxIdx := firstCtx ctx d.args }

/-- The registry: an association list in order of registration (`flat_hash_map`). -/
abbrev Registry (D : Type) := List (String × Desc D)

/-- `g_regs->count(name) > 0`, meta/function.cc 193. -/
def known {D : Type} (r : Registry D) (name : String) : Bool := r.any (fun p => p.1 == name)

/-- meta/function.cc 188-199. Returns the registry and whether the registration succeeded. -/
def register {D : Type} (ctx : D → Bool) (r : Registry D) (d : Desc D) : Registry D × Bool :=
  if known r d.name then (r, false) else (r ++ [(d.name, d.init ctx)], true)

/-- meta/function.cc 200-221. -/
def registerVector {D : Type} (ctx ptr : D → Bool) (r : Registry D) (d : Desc D) : Registry D × Bool :=
  if d.args.length < 2 then (r, false)
  else if d.args.all ptr then register ctx r { d with vectorFunc := true }
  else (r, false)

/-- meta/function.cc 223-232. -/
def getFunction {D : Type} (r : Registry D) (name : String) : Option (Desc D) := (r.find? (fun p => p.1 = name)).map (·.2)

/-- A registration request. -/
inductive Req (D : Type) where
  | scalar (d : Desc D)
  | vector (d : Desc D)

def Req.apply {D : Type} (ctx ptr : D → Bool) (r : Registry D) : Req D → Registry D × Bool
  | .scalar d => register ctx r d
  | .vector d => registerVector ctx ptr r d

/-- Registrations in order; the result of each. -/
def registerAll {D : Type} (ctx ptr : D → Bool) (r : Registry D) : List (Req D) → Registry D × List Bool
  | [] => (r, [])
  | q :: qs => ((registerAll ctx ptr (q.apply ctx ptr r).1 qs).1, (q.apply ctx ptr r).2 :: (registerAll ctx ptr (q.apply ctx ptr r).1 qs).2)

/-! ### Specification -/

/-- The name a request registers, and whether the request is well formed: vector functions need at least two arguments, all
pointers. -/
def Req.name {D : Type} : Req D → String
  | .scalar d | .vector d => d.name

def Req.valid {D : Type} (ptr : D → Bool) : Req D → Bool
  | .scalar _ => true
  | .vector d => decide (2 ≤ d.args.length) && d.args.all ptr

/-- The function a request asks to register. -/
def Req.func {D : Type} : Req D → Nat
  | .scalar d | .vector d => d.func

/-- The first valid request for a name. -/
def firstFor {D : Type} (ptr : D → Bool) (qs : List (Req D)) (name : String) : Option (Req D) :=
  qs.find? (fun q => q.valid ptr && decide (q.name = name))

/-! ### Proof -/

theorem apply_eq {D : Type} (ctx ptr : D → Bool) (r : Registry D) (q : Req D) :
    ∃ d : Desc D, d.name = q.name ∧ d.func = q.func ∧
      q.apply ctx ptr r = if q.valid ptr = true ∧ known r q.name = false then (r ++ [(q.name, d)], true) else (r, false) := by
  cases q with
  | scalar d =>
    refine ⟨d.init ctx, rfl, rfl, ?_⟩
    simp only [Req.apply, register, Req.valid, Req.name, true_and]
    cases h : known r d.name <;> simp
  | vector d =>
    refine ⟨{ d with vectorFunc := true }.init ctx, rfl, rfl, ?_⟩
    simp only [Req.apply, registerVector, register, Req.valid, Req.name]
    by_cases h1 : d.args.length < 2
    · have : ¬ 2 ≤ d.args.length := by omega
      simp only [h1, this, if_true, decide_false, Bool.false_and, Bool.false_eq_true, false_and, if_false]
    · have : 2 ≤ d.args.length := by omega
      simp only [h1, this, if_false, decide_true, Bool.true_and]
      cases h2 : d.args.all ptr
      · simp only [Bool.false_eq_true, false_and, if_false]
      · cases h : known r d.name <;> simp

theorem getFunction_append {D : Type} (r : Registry D) (n name : String) (d : Desc D) :
    getFunction (r ++ [(n, d)]) name = (getFunction r name).or (if n = name then some d else none) := by
  simp only [getFunction, List.find?_append]
  cases r.find? (fun p => p.1 = name) with
  | some p => simp
  | none => by_cases h : n = name <;> simp [h]

theorem any_iff {D : Type} (r : Registry D) (name : String) : known r name = false ↔ getFunction r name = none := by
  simp only [known, getFunction, Option.map_eq_none_iff, List.find?_eq_none, List.any_eq_false, beq_iff_eq, decide_eq_true_eq]

theorem registerAll_get {D : Type} (ctx ptr : D → Bool) (qs : List (Req D)) (r : Registry D) (name : String) :
    (getFunction (registerAll ctx ptr r qs).1 name).map (·.func) =
      ((getFunction r name).map (·.func)).or ((firstFor ptr qs name).map (·.func)) := by
  induction qs generalizing r with
  | nil => simp [registerAll, firstFor]
  | cons q qs ih =>
    simp only [registerAll, ih]
    obtain ⟨d, hn, hf, he⟩ := apply_eq ctx ptr r q
    rw [he]
    by_cases hv : q.valid ptr = true ∧ known r q.name = false
    · rw [if_pos hv]
      simp only [getFunction_append]
      by_cases hname : q.name = name
      · have hnone : getFunction r name = none := by rw [← any_iff, ← hname]; exact hv.2
        simp [hnone, hname, firstFor, hv.1, hf]
      · simp [hname, firstFor]
    · rw [if_neg hv]
      by_cases hname : q.name = name
      · by_cases hval : q.valid ptr = true
        · have : ¬ getFunction r name = none := fun h => hv ⟨hval, by rw [any_iff, hname]; exact h⟩
          obtain ⟨x, hx⟩ := Option.ne_none_iff_exists'.1 this
          simp [hx]
        · simp [firstFor, hval]
      · simp [firstFor, hname]

/-- **C04.** After any sequence of registrations, looking a name up returns the function of the first valid registration under that
name; a name without one is not found. -/
theorem registry_first_wins {D : Type} (ctx ptr : D → Bool) (qs : List (Req D)) (name : String) :
    (getFunction (registerAll ctx ptr [] qs).1 name).map (·.func) = (firstFor ptr qs name).map (·.func) := by
  rw [registerAll_get]; simp [getFunction]

/-- **C04.** A registration reports success exactly when it is valid and its name was not registered before; if it reports failure
the registry is unchanged. -/
theorem registry_result {D : Type} (ctx ptr : D → Bool) (r : Registry D) (q : Req D) :
    ((q.apply ctx ptr r).2 = true ↔ q.valid ptr = true ∧ getFunction r q.name = none) ∧ ((q.apply ctx ptr r).2 = false → (q.apply ctx ptr r).1 = r) := by
  obtain ⟨d, _, _, he⟩ := apply_eq ctx ptr r q
  rw [he, ← any_iff]
  by_cases hv : q.valid ptr = true ∧ known r q.name = false
  · rw [if_pos hv]; simp [hv]
  · rw [if_neg hv]; simp [hv]

/-- **C04.** A registration never changes the answer for a name that is already registered. -/
theorem registry_stable {D : Type} (ctx ptr : D → Bool) (r : Registry D) (qs : List (Req D)) (name : String) (d : Desc D)
    (h : getFunction r name = some d) : getFunction (registerAll ctx ptr r qs).1 name = some d := by
  induction qs generalizing r with
  | nil => exact h
  | cons q qs ih =>
    refine ih _ ?_
    obtain ⟨d', _, _, he⟩ := apply_eq ctx ptr r q
    rw [he]
    split
    · simp [getFunction_append, h]
    · exact h

example : let d : Desc Nat := { name := "f", ret := 0, args := [1, 2], func := 10 }
    let qs : List (Req Nat) := [.vector { d with args := [1], func := 9 }, .scalar d, .scalar { d with func := 11 }]
    (getFunction (registerAll (· == 7) (fun _ => true) [] qs).1 "f").map (·.func) = some 10 ∧
    (registerAll (· == 7) (fun _ => true) [] qs).2 = [false, true, false] := by decide

/-! ## C43: the implicit context argument -/

/-- What `CallFunction` does with the argument list. -/
inductive Call (V : Type) where
  | ok (args : List V)
  | countError
deriving DecidableEq, Repr

/-- compiler/codegen.cc 646-662. `ctxIdx` and `arity` are the callee's, `caller` the caller's context value. -/
def callArgs {V : Type} (ctxIdx : Option Nat) (arity : Nat) (caller : Option V) (args : List V) : Call V :=
  let passed := match ctxIdx, caller with
    | some i, some c => if args.length = arity - 1 then args.insertIdx i c else args
    | _, _ => args
  if passed.length ≠ arity then .countError else .ok passed

/-- The callee descriptor used for a call: registered functions have been initialised (function.cc 189); functions defined in
the same source have not (`/repo/rapidudf/ast/function.cc` 22-32), so their context index is -1. -/
def calleeCtx {D : Type} (ctx : D → Bool) (registered : Bool) (args : List D) : Option Nat := if registered then firstCtx ctx args else none

def call {D V : Type} (ctx : D → Bool) (registered : Bool) (sig : List D) (caller : Option V) (args : List V) : Call V :=
  callArgs (calleeCtx ctx registered sig) sig.length caller args

/-- **C43.** Calling a registered function that takes a context, with the context omitted, from a caller that has one: the call passes
as many values as the signature has; at the position of the first context parameter the caller's context; removing that position gives
the arguments in order. -/
theorem context_inserted {D V : Type} (ctx : D → Bool) (sig : List D) (c : V) (args : List V) (k : Nat) (hk : firstCtx ctx sig = some k)
    (hn : args.length + 1 = sig.length) :
    ∃ passed, call ctx true sig (some c) args = .ok passed ∧ passed.length = sig.length ∧ passed[k]? = some c ∧ passed.eraseIdx k = args ∧
      (∀ i, i < k → passed[i]? = args[i]?) ∧ ∀ i, k ≤ i → passed[i + 1]? = args[i]? := by
  have hlt : k < sig.length := by
    obtain ⟨h, _⟩ := List.findIdx?_eq_some_iff_getElem.1 hk; exact h
  have hle : k ≤ args.length := by omega
  have hlen : (args.insertIdx k c).length = sig.length := by rw [List.length_insertIdx_of_le_length hle]; omega
  refine ⟨args.insertIdx k c, ?_, hlen, ?_, ?_, ?_, ?_⟩
  · simp only [call, calleeCtx, if_true, hk, callArgs]
    have : args.length = sig.length - 1 := by omega
    simp only [this, if_true]
    simp [hlen]
  · rw [List.getElem?_insertIdx_self]; simp [hle]
  · exact List.eraseIdx_insertIdx_self _
  · intro i hi; exact List.getElem?_insertIdx_of_lt hi
  · intro i hi; rw [List.getElem?_insertIdx_of_gt (by omega)]; simp

/-- **C43.** A call with all arguments passes them unchanged. -/
theorem full_call_unchanged {D V : Type} (ctx : D → Bool) (reg : Bool) (sig : List D) (caller : Option V) (args : List V)
    (h : args.length = sig.length) : call ctx reg sig caller args = .ok args := by
  simp only [call, callArgs]
  cases hc : calleeCtx ctx reg sig with
  | none => simp [h]
  | some k =>
    have hlt : k < sig.length := by
      simp only [calleeCtx] at hc
      split at hc
      · obtain ⟨h, _⟩ := List.findIdx?_eq_some_iff_getElem.1 hc; exact h
      · simp at hc
    cases caller with
    | none => simp [h]
    | some c =>
      have : ¬ args.length = sig.length - 1 := by omega
      simp only [this, if_false]
      simp [h]

/-- **C43.** Any other number of arguments is an error. -/
theorem count_mismatch_error {D V : Type} (ctx : D → Bool) (reg : Bool) (sig : List D) (caller : Option V) (args : List V)
    (h : args.length ≠ sig.length) (h2 : reg = false ∨ firstCtx ctx sig = none ∨ caller = none ∨ args.length + 1 ≠ sig.length) :
    call ctx reg sig caller args = .countError := by
  simp only [call, callArgs]
  cases hc : calleeCtx ctx reg sig with
  | none => simp [h]
  | some k =>
    cases caller with
    | none => simp [h]
    | some c =>
      have hreg : reg = true ∧ firstCtx ctx sig = some k := by
        cases reg <;> simp [calleeCtx] at hc ⊢; exact hc
      have hlt : k < sig.length := by
        obtain ⟨h, _⟩ := List.findIdx?_eq_some_iff_getElem.1 hreg.2; exact h
      have : ¬ args.length = sig.length - 1 := by
        intro e
        rcases h2 with h2 | h2 | h2 | h2
        · simp [hreg.1] at h2
        · simp [hreg.2] at h2
        · simp at h2
        · omega
      simp only [this, if_false]
      simp [h]

/-- **C43, violated for functions defined in the same source.** Omitting the context of such a function is an error for every
signature, although the caller has a context. -/
theorem script_function_context_violated {D V : Type} (ctx : D → Bool) (sig : List D) (c : V) (args : List V) (hn : args.length + 1 = sig.length) :
    call ctx false sig (some c) args = .countError :=
  count_mismatch_error ctx false sig (some c) args (by omega) (.inl rfl)

example : call (· == 9) true [1, 9, 2] (some 100) [10, 20] = .ok [10, 100, 20] := by decide
example : call (· == 9) false [1, 9, 2] (some 100) [10, 20] = .countError := by decide

/-! ## C05: signatures of compiled functions -/

/-- A compiled function. -/
structure Compiled (D : Type) where
  name : String
  ret : D
  args : List D

/-- `/repo/rapidudf/ast/function.cc` 53-81. -/
def compareSignature {D : Type} [DecidableEq D] (f : Compiled D) (ret : D) (args : List D) : Bool := decide (f.ret = ret ∧ f.args = args)

/-- `/repo/rapidudf/compiler/compiler.cc` 147-158: the result of the comparison is ignored. -/
def verifyFunctionSignature {D : Type} [DecidableEq D] (fs : List (Compiled D)) (name : String) (ret : D) (args : List D) : Option String :=
  match fs with
  | [] => none
  | f :: rest =>
    if name = f.name then
      let _ := compareSignature f ret args
      some f.name
    else verifyFunctionSignature rest name ret args

/-- `/repo/rapidudf/compiler/compiler.h` 57-77 (`LoadFunction`), with the lookup of the compiled symbol succeeding for compiled names.
`none`: refused. -/
def loadFunction {D : Type} [DecidableEq D] (fs : List (Compiled D)) (name : String) (ret : D) (args : List D) : Option String :=
  verifyFunctionSignature fs name ret args

theorem loadFunction_eq {D : Type} [DecidableEq D] (fs : List (Compiled D)) (name : String) (ret : D) (args : List D) :
    loadFunction fs name ret args = if fs.any (fun f => name = f.name) then some name else none := by
  unfold loadFunction
  induction fs with
  | nil => rfl
  | cons f rest ih =>
    simp only [verifyFunctionSignature]
    by_cases h : name = f.name
    · simp [h]
    · simp only [h, if_false, ih, List.any_cons, decide_false, Bool.false_or]

/-- **C05, violated.** Loading a compiled function succeeds with every requested signature, right or wrong. -/
theorem load_ignores_signature_violated {D : Type} [DecidableEq D] (fs : List (Compiled D)) (f : Compiled D) (hf : f ∈ fs) (ret : D) (args : List D) :
    loadFunction fs f.name ret args = some f.name := by
  rw [loadFunction_eq, if_pos (by simp only [List.any_eq_true]; exact ⟨f, hf, by simp⟩)]

/-- **C05 (what holds).** Loading succeeds only for names of compiled functions. Missing: the check of the signature. -/
theorem load_unknown_name_refused_partial {D : Type} [DecidableEq D] (fs : List (Compiled D)) (name : String) (ret : D) (args : List D)
    (h : ∀ f ∈ fs, f.name ≠ name) : loadFunction fs name ret args = none := by
  rw [loadFunction_eq, if_neg]
  simp only [List.any_eq_true, decide_eq_true_eq, not_exists, not_and]
  intro f hf e; exact h f hf e.symm

/-- The comparison whose result is ignored is itself right: it would accept exactly the declared signature. -/
theorem compare_signature_iff {D : Type} [DecidableEq D] (f : Compiled D) (ret : D) (args : List D) :
    compareSignature f ret args = true ↔ ret = f.ret ∧ args = f.args := by
  simp only [compareSignature, decide_eq_true_eq]
  constructor <;> (rintro ⟨rfl, rfl⟩; exact ⟨rfl, rfl⟩)

example : loadFunction [{ name := "f", ret := 1, args := [2] : Compiled Nat }] "f" 5 [] = some "f" := by decide
example : loadFunction [{ name := "f", ret := 1, args := [2] : Compiled Nat }] "g" 1 [2] = none := by decide

/-! ## C66: column options -/

/-- `/repo/rapidudf/table/table_schema.cc` 26-34; the field sets as lists (`count` is 0 or 1 for a set). -/
def isAllowed (incl excl : List String) (field : String) : Bool :=
  if incl ≠ [] then decide (field ∈ incl)
  else if excl ≠ [] then decide (field ∉ excl)
  else true

/-- **C66.** A column is exposed exactly when it is in the include list, if that is non-empty, and otherwise not in the exclude
list. -/
theorem column_allowed_iff (incl excl : List String) (field : String) :
    isAllowed incl excl field = true ↔ (incl ≠ [] → field ∈ incl) ∧ (incl = [] → field ∉ excl) := by
  unfold isAllowed
  by_cases h1 : incl = []
  · by_cases h2 : excl = [] <;> simp [h1, h2]
  · simp [h1]

example : isAllowed [] ["a"] "b" = true ∧ isAllowed [] ["a"] "a" = false ∧ isAllowed ["a"] ["a"] "a" = true := by decide

end Verif.Func
