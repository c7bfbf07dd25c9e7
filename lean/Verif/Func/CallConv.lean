/-!
# Passing arguments by value: model and property C42

`/repo/rapidudf/meta/function.cc` 115-139 (`PassArgByValue`), `/repo/rapidudf/compiler/codegen.cc` 231-254 (`GetFunctionType`),
312-332 (`DeclareExternFunctions`, free functions get the `byval` attribute), 334-349 (member functions do not),
678-689 (`CallFunction` passes the address of such an argument).

Argument classes: one general register (pointer, integer, bit), two (string view, span, vector), one SSE register (float,
double). Other argument types (x87 long double, half) are not modelled.
-/
namespace Verif.Func.CallConv

inductive Cls where
  | int1 | pair | sse
deriving DecidableEq, Repr

/-- Where an argument ends up. -/
inductive Place where
  | gpr (first count : Nat)     -- general registers `first`, ..., `first + count - 1`
  | xmm (r : Nat)
  | stack (slot count : Nat)    -- eightbyte slots of the argument area
  | split (r slot : Nat)        -- half in a register, half on the stack
  | addrGpr (r : Nat)           -- the address of a copy, in a general register
  | addrStack (slot : Nat)      -- the address of a copy, on the stack
deriving DecidableEq, Repr

/-- Registers and stack slots used so far. -/
structure Used where
  gpr : Nat := 0
  xmm : Nat := 0
  slots : Nat := 0
deriving DecidableEq, Repr

/-! ## Specification: System V x86-64 (psABI 3.2.3): an argument whose eightbytes do not all fit in the remaining registers is passed in memory,
and the remaining registers stay available. -/

def sysvArg (u : Used) : Cls → Place × Used
  | .int1 => if u.gpr + 1 ≤ 6 then (.gpr u.gpr 1, { u with gpr := u.gpr + 1 }) else (.stack u.slots 1, { u with slots := u.slots + 1 })
  | .pair => if u.gpr + 2 ≤ 6 then (.gpr u.gpr 2, { u with gpr := u.gpr + 2 }) else (.stack u.slots 2, { u with slots := u.slots + 2 })
  | .sse => if u.xmm + 1 ≤ 8 then (.xmm u.xmm, { u with xmm := u.xmm + 1 }) else (.stack u.slots 1, { u with slots := u.slots + 1 })

def sysv (u : Used) : List Cls → List Place
  | [] => []
  | c :: cs => (sysvArg u c).1 :: sysv (sysvArg u c).2 cs

/-! ## Model -/

/-- function.cc 124-130. -/
def request : Cls → Nat
  | .int1 => 1
  | .pair => 2
  | .sse => 0

/-- function.cc 115-139: `PassArgByValue(argno)`. -/
def passArgByValue (args : List Cls) (argno : Nat) : Bool :=
  match args[argno]? with
  | none => false
  | some c => c = .pair && decide (((args.take (argno + 1)).map request).sum > 6)

/-- How LLVM lowers one parameter: a scalar takes a register or a slot; a two-word struct is split into two scalars; a
`byval` pointer is a copy in the argument area. (Contract of the LLVM x86-64 C calling convention, trusted.) -/
def llvmScalar (u : Used) : Place × Used :=
  if u.gpr + 1 ≤ 6 then (.gpr u.gpr 1, { u with gpr := u.gpr + 1 }) else (.stack u.slots 1, { u with slots := u.slots + 1 })

def llvmArg (u : Used) (c : Cls) (byval hasAttr : Bool) : Place × Used :=
  match c, byval with
  | .pair, true =>
    if hasAttr then (.stack u.slots 2, { u with slots := u.slots + 2 })
    else if u.gpr + 1 ≤ 6 then (.addrGpr u.gpr, { u with gpr := u.gpr + 1 }) else (.addrStack u.slots, { u with slots := u.slots + 1 })
  | .pair, false =>
    if u.gpr + 2 ≤ 6 then (.gpr u.gpr 2, { u with gpr := u.gpr + 2 })
    else if u.gpr + 1 ≤ 6 then (.split u.gpr u.slots, { u with gpr := u.gpr + 1, slots := u.slots + 1 })
    else (.stack u.slots 2, { u with slots := u.slots + 2 })
  | .int1, _ => llvmScalar u
  | .sse, _ => if u.xmm + 1 ≤ 8 then (.xmm u.xmm, { u with xmm := u.xmm + 1 }) else (.stack u.slots 1, { u with slots := u.slots + 1 })

/-- The arguments from position `i` on; `member`: the callee is a member function, declared without the `byval` attribute. -/
def compiledFrom (args : List Cls) (member : Bool) (i : Nat) (u : Used) : List Cls → List Place
  | [] => []
  | c :: cs => (llvmArg u c (passArgByValue args i) (!member)).1 :: compiledFrom args member (i + 1) (llvmArg u c (passArgByValue args i) (!member)).2 cs

/-- Where compiled code puts (and a compiled function expects) the arguments. -/
def compiled (args : List Cls) (member : Bool) : List Place := compiledFrom args member 0 {} args

/-! ## Properties -/

theorem compiledFrom_eq (args pre rest : List Cls) (h : args = pre ++ rest) (u : Used)
    (h1 : (pre.map request).sum ≤ 6 → u.gpr = (pre.map request).sum) (h2 : 6 < (pre.map request).sum → 5 ≤ u.gpr) :
    compiledFrom args false pre.length u rest = sysv u rest := by
  induction rest generalizing pre u with
  | nil => rfl
  | cons c cs ih =>
    have hget : args[pre.length]? = some c := by rw [h]; simp
    have htake : args.take (pre.length + 1) = pre ++ [c] := by
      rw [h, List.take_append, List.take_of_length_le (by omega)]
      simp
    have hb : passArgByValue args pre.length = (decide (c = .pair) && decide ((pre.map request).sum + request c > 6)) := by
      simp only [passArgByValue, hget, htake]
      simp
    have key : (llvmArg u c (passArgByValue args pre.length) true) = sysvArg u c := by
      rw [hb]
      cases c with
      | int1 => simp [llvmArg, sysvArg, llvmScalar]
      | sse => simp [llvmArg, sysvArg]
      | pair =>
        simp only [request, decide_true, Bool.true_and]
        by_cases hs : (pre.map request).sum + 2 > 6
        · have : ¬ u.gpr + 2 ≤ 6 := by
            by_cases h6 : (pre.map request).sum ≤ 6
            · have := h1 h6; omega
            · have := h2 (by omega); omega
          simp [hs, llvmArg, sysvArg, this]
        · have : u.gpr + 2 ≤ 6 := by have := h1 (by omega); omega
          simp [hs, llvmArg, sysvArg, this]
    simp only [compiledFrom, sysv, Bool.not_false, key]
    congr 1
    have := ih (pre ++ [c]) (by rw [h]; simp) (sysvArg u c).2
    rw [List.length_append, List.length_singleton] at this
    apply this
    · intro hle
      simp only [List.map_append, List.map_cons, List.map_nil, List.sum_append, List.sum_cons, List.sum_nil] at hle ⊢
      have hu := h1 (by omega)
      cases c <;> simp only [request, sysvArg] at hle ⊢
      · rw [if_pos (by omega)]; simp only; omega
      · rw [if_pos (by omega)]; simp only; omega
      · split <;> simp only <;> omega
    · intro hlt
      simp only [List.map_append, List.map_cons, List.map_nil, List.sum_append, List.sum_cons, List.sum_nil] at hlt
      have hu : 5 ≤ u.gpr ∨ (u.gpr = (pre.map request).sum ∧ (pre.map request).sum ≤ 6) := by
        by_cases h6 : (pre.map request).sum ≤ 6
        · exact .inr ⟨h1 h6, h6⟩
        · exact .inl (h2 (by omega))
      cases c <;> simp only [request, sysvArg] at hlt ⊢ <;> split <;> simp only <;> omega

/-- **C42, free functions.** For every list of arguments, compiled code and the platform convention put every argument in the same
place. -/
theorem args_follow_sysv (args : List Cls) : compiled args false = sysv {} args :=
  compiledFrom_eq args [] args rfl {} (by simp) (by simp)

/-- **C42.** An argument is marked by-value exactly when it is a two-word argument that the convention passes in memory. -/
theorem by_value_iff_memory (args : List Cls) (i : Nat) :
    passArgByValue args i = true ↔ args[i]? = some .pair ∧ ∃ slot, (sysv {} args)[i]? = some (.stack slot 2) := by
  have gen : ∀ (rest pre : List Cls) (u : Used) (j : Nat), args = pre ++ rest → compiledFrom args false pre.length u rest = sysv u rest →
      (((pre.map request).sum ≤ 6 → u.gpr = (pre.map request).sum) ∧ (6 < (pre.map request).sum → 5 ≤ u.gpr)) →
      (passArgByValue args (pre.length + j) = true ↔ rest[j]? = some .pair ∧ ∃ slot, (sysv u rest)[j]? = some (.stack slot 2)) := by
    intro rest
    induction rest with
    | nil =>
      intro pre u j h _ _
      simp [passArgByValue, h]
    | cons c cs ih =>
      intro pre u j h hc hu
      have hinv : (((pre ++ [c]).map request).sum ≤ 6 → (sysvArg u c).2.gpr = ((pre ++ [c]).map request).sum) ∧
          (6 < ((pre ++ [c]).map request).sum → 5 ≤ (sysvArg u c).2.gpr) := by
        constructor
        · intro hle
          simp only [List.map_append, List.map_cons, List.map_nil, List.sum_append, List.sum_cons, List.sum_nil] at hle ⊢
          have hu := hu.1 (by omega)
          cases c <;> simp only [request, sysvArg] at hle ⊢
          · rw [if_pos (by omega)]; simp only; omega
          · rw [if_pos (by omega)]; simp only; omega
          · split <;> simp only <;> omega
        · intro hlt
          simp only [List.map_append, List.map_cons, List.map_nil, List.sum_append, List.sum_cons, List.sum_nil] at hlt
          have hu : 5 ≤ u.gpr ∨ (u.gpr = (pre.map request).sum ∧ (pre.map request).sum ≤ 6) := by
            by_cases h6 : (pre.map request).sum ≤ 6
            · exact .inr ⟨hu.1 h6, h6⟩
            · exact .inl (hu.2 (by omega))
          cases c <;> simp only [request, sysvArg] at hlt ⊢ <;> split <;> simp only <;> omega
      cases j with
      | zero =>
        have hget : args[pre.length]? = some c := by rw [h]; simp
        have htake : args.take (pre.length + 1) = pre ++ [c] := by
          rw [h, List.take_append, List.take_of_length_le (by omega)]; simp
        simp only [Nat.add_zero, passArgByValue, hget, htake, List.map_append, List.map_cons, List.map_nil, List.sum_append, List.sum_cons,
          List.sum_nil, sysv, List.getElem?_cons_zero]
        cases c with
        | int1 => simp
        | sse => simp
        | pair =>
          simp only [request, sysvArg]
          by_cases hs : (pre.map request).sum + 2 > 6
          · have : ¬ u.gpr + 2 ≤ 6 := by
              by_cases h6 : (pre.map request).sum ≤ 6
              · have := hu.1 h6; omega
              · have := hu.2 (by omega); omega
            simp [this, hs]
          · have : u.gpr + 2 ≤ 6 := by have := hu.1 (by omega); omega
            simp [this, hs]
      | succ j =>
        have h2 := ih (pre ++ [c]) (sysvArg u c).2 j (by rw [h]; simp)
          (compiledFrom_eq args (pre ++ [c]) cs (by rw [h]; simp) _ hinv.1 hinv.2) hinv
        rw [List.length_append, List.length_singleton] at h2
        rw [show pre.length + (j + 1) = pre.length + 1 + j by omega, h2]
        simp [sysv]
  have := gen args [] {} i rfl (args_follow_sysv args) ⟨by simp, by simp⟩
  simpa using this

/-- **C42, violated for member functions.** They are declared without the `byval` attribute but called with the address of
the copy: a method whose string-view argument does not fit in registers is passed an address where the convention expects
the two words themselves. -/
theorem member_args_violated : compiled [.int1, .pair, .pair, .pair] true ≠ sysv {} [.int1, .pair, .pair, .pair] ∧
    (compiled [.int1, .pair, .pair, .pair] true)[3]? = some (.addrGpr 5) := by decide

/-- Every member function with a by-value argument is affected: the argument is passed as an address. -/
theorem member_by_value_arg_violated (args : List Cls) (i : Nat) (h : passArgByValue args i = true) :
    compiled args true ≠ sysv {} args := by
  have gen : ∀ (rest : List Cls) (k j : Nat) (u : Used), passArgByValue args (k + j) = true → rest[j]? = some .pair →
      (∃ r, (compiledFrom args true k u rest)[j]? = some (.addrGpr r)) ∨ (∃ r, (compiledFrom args true k u rest)[j]? = some (.addrStack r)) := by
    intro rest
    induction rest with
    | nil => intro k j u _ h; simp at h
    | cons c cs ih =>
      intro k j u hp hj
      cases j with
      | zero =>
        simp at hj; subst hj
        simp only [Nat.add_zero] at hp
        simp only [compiledFrom, hp, List.getElem?_cons_zero, llvmArg, Bool.not_true, Bool.false_eq_true, if_false]
        split
        · exact .inl ⟨_, rfl⟩
        · exact .inr ⟨_, rfl⟩
      | succ j =>
        simp only [compiledFrom, List.getElem?_cons_succ]
        exact ih (k + 1) j _ (by rw [show k + 1 + j = k + (j + 1) by omega]; exact hp) (by simpa using hj)
  have hm := (by_value_iff_memory args i).1 h
  intro e
  obtain ⟨slot, hs⟩ := hm.2
  have := gen args 0 i {} (by simpa using h) hm.1
  have e' : compiledFrom args true 0 {} args = sysv {} args := e
  rw [e', hs] at this
  simp at this

/-- Five pointers, a string view (in memory, one register is left), an integer (takes the last register), a vector, a float. -/
example : compiled [.int1, .int1, .int1, .int1, .int1, .pair, .int1, .pair, .sse] false =
    [.gpr 0 1, .gpr 1 1, .gpr 2 1, .gpr 3 1, .gpr 4 1, .stack 0 2, .gpr 5 1, .stack 2 2, .xmm 0] := by decide

end Verif.Func.CallConv
