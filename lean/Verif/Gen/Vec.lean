/-!
# Code of vector expressions: C39, C41, C98, C99

`JitCompiler::BuildVectorIR` and `BuildVectorEvalIR`, `/repo/rapidudf/compiler/compiler_eval.cc` 164–509; `LoadVector`, `LoadNVector`, `StoreVector`, `StoreNVector`,
`/repo/rapidudf/compiler/codegen_vector.cc` 159–291.

Modelled: the pass that finds the type of every operator and converts scalar leaves, the code of one block of 64 lanes, the block loop with 32-bit counters, the tail, the bounds of every
load and store. Types, the element-wise meaning of operators and vector functions, and conversions are parameters (`Rt`). An operator on 64 lanes traps if one lane traps; LLVM's vector
instructions and the built-in vector functions are taken to work lane by lane. Not modelled: assignment operators (the assigned variable takes the result), the check that allocations succeed.
-/
namespace Verif.Gen.Vec

/-- What can go wrong. -/
inductive Err where
  /-- the compiler reports an error -/
  | compile
  /-- the compiler reads outside its stack of operands -/
  | crash
  /-- the code is ill-typed, or data of one type is used as data of another -/
  | badCode
  /-- the compiled code reports vectors of different size -/
  | sizes
  /-- an element operation without defined result -/
  | trap
  /-- a load or store outside a buffer -/
  | outside
  /-- the loop does not end -/
  | endless
  deriving DecidableEq, Repr

/-- Element types, values and operators. A missing description is an error, a missing result a trap. -/
structure Rt (Ty V Op : Type) where
  bit : Ty
  isBit : Ty → Bool
  /-- what `LoadNVector` puts into unused lanes, codegen_vector.cc 194–235 -/
  fill : Ty → V
  /-- `CastTo` on scalars -/
  cast : Ty → Ty → Option (V → V)
  /-- `get_operand_count` -/
  arity : Op → Nat
  isCmp : Op → Bool
  isCond : Op → Bool
  /-- the operator, given the type it is to be computed in and the types its operands have -/
  op : Op → Ty → List Ty → Option (Ty × (List V → Option V))
  /-- vector functions: types of operands, type of the result, meaning in one lane -/
  fn : Nat → Option (List Ty × Ty × (List V → Option V))

/-- A node of the flattened expression. Vectors are named by the number of their buffer. -/
inductive Node (Ty V Op : Type) where
  | vec (t : Ty) (b : Nat)
  | con (t : Ty) (v : V)
  | op (o : Op)
  | call (f : Nat)

/-- The same after the first pass: operators know the type they are computed in (`op_compute_dtype`). -/
inductive RNode (Ty V Op : Type) where
  | vec (t : Ty) (b : Nat)
  | con (t : Ty) (v : V)
  | op (o : Op) (c : Ty)
  | call (f : Nat)

/-- An entry of the stack of the first pass: vector or not, element type, leaves below it. -/
structure Entry (Ty : Type) where
  vec : Bool
  ty : Ty
  idxs : List Nat

section
variable {Ty V Op : Type} [DecidableEq Ty] (rt : Rt Ty V Op)

/-! ## First pass: types -/

/-- `CastTo` applied to every leaf below an operand, compiler_eval.cc 348–356. A vector cannot be converted. -/
def castLeaves (c : Ty) : List Nat → List (RNode Ty V Op) → Except Err (List (RNode Ty V Op))
  | [], cur => .ok cur
  | i :: is, cur => match cur[i]? with
    | some (.con t v) => if t = c then castLeaves c is cur else match rt.cast t c with
      | none => .error .compile
      | some f => castLeaves c is (cur.set i (.con c (f v)))
    | some (.vec _ _) => .error .compile
    | _ => .error .crash

/-- The type an operator is computed in: the element type of the first vector among the operands, else the type of the first operand, compiler_eval.cc 330–343. -/
def computeTy (xs : List (Entry Ty)) : Option Ty := match xs.find? (·.vec) with
  | some x => some x.ty
  | none => xs.head?.map (·.ty)

/-- compiler_eval.cc 345–358. -/
def castAll (c : Ty) : List (Entry Ty) → List (RNode Ty V Op) → Except Err (List (RNode Ty V Op))
  | [], cur => .ok cur
  | x :: xs, cur => (if x.ty = c then .ok cur else castLeaves rt c x.idxs cur).bind (castAll c xs)

/-- One node of the first pass, compiler_eval.cc 372–437. Of `? :` only the last two operands count (326–329). A vector function leaves its operands on the stack (393–398). -/
def typeStep (n : Node Ty V Op) (cur : List (RNode Ty V Op)) (st : List (Entry Ty)) : Except Err (List (RNode Ty V Op) × List (Entry Ty)) :=
  match n with
  | .vec t b => .ok (cur ++ [.vec t b], ⟨true, t, [cur.length]⟩ :: st)
  | .con t v => .ok (cur ++ [.con t v], ⟨false, t, [cur.length]⟩ :: st)
  | .call f => match rt.fn f with
    | none => .error .compile
    | some d => .ok (cur ++ [.call f], ⟨false, d.2.1, []⟩ :: st)
  | .op o =>
    if st.length < rt.arity o then .error .crash
    else
      let xs := (st.take (if rt.isCond o = true then 2 else rt.arity o)).reverse
      match computeTy xs with
      | none => .error .crash
      | some c => (castAll rt c xs cur).bind fun cur' =>
        .ok (cur' ++ [.op o c], ⟨!rt.isCmp o && xs.any (·.vec), if rt.isCmp o = true then rt.bit else c, (xs.map (·.idxs)).flatten⟩ :: st.drop (rt.arity o))

def typePass : List (Node Ty V Op) → List (RNode Ty V Op) → List (Entry Ty) → Except Err (List (RNode Ty V Op) × List (Entry Ty))
  | [], cur, st => .ok (cur, st)
  | n :: ns, cur, st => (typeStep rt n cur st).bind fun r => typePass ns r.1 r.2

/-! ## Second pass: the code of one block -/

/-- The types of the code, independent of the data. -/
def checkStep (n : RNode Ty V Op) (st : List Ty) : Except Err (List Ty) :=
  match n with
  | .vec t _ => .ok (t :: st)
  | .con t _ => .ok (t :: st)
  | .op o c => if st.length < rt.arity o then .error .crash else match rt.op o c (st.take (rt.arity o)).reverse with
    | none => .error .badCode
    | some r => .ok (r.1 :: st.drop (rt.arity o))
  | .call f => match rt.fn f with
    | none => .error .compile
    | some d => if st.length < d.1.length then .error .crash else if (st.take d.1.length).reverse = d.1 then .ok (d.2.1 :: st.drop d.1.length) else .error .badCode

def checkPass : List (RNode Ty V Op) → List Ty → Except Err (List Ty)
  | [], st => .ok st
  | n :: ns, st => (checkStep rt n st).bind (checkPass ns)

/-- An operation on 64 lanes. -/
def lanewise (f : List V → Option V) (args : List (List V)) : Except Err (List V) :=
  match (List.range 64).mapM fun i => (args.mapM fun a => a[i]?).bind f with
  | none => .error .trap
  | some vs => .ok vs

/-- `BuildVectorEvalIR`, compiler_eval.cc 164–266: the stack holds types and lanes. `rd` loads a block of a vector. -/
def blockStep (rd : Ty → Nat → Except Err (List V)) (n : RNode Ty V Op) (st : List (Ty × List V)) : Except Err (List (Ty × List V)) :=
  match n with
  | .vec t b => (rd t b).bind fun l => .ok ((t, l) :: st)
  | .con t v => .ok ((t, List.replicate 64 v) :: st)
  | .op o c => match rt.op o c ((st.take (rt.arity o)).reverse.map (·.1)) with
    | none => .error .badCode
    | some r => (lanewise r.2 ((st.take (rt.arity o)).reverse.map (·.2))).bind fun l => .ok ((r.1, l) :: st.drop (rt.arity o))
  | .call f => match rt.fn f with
    | none => .error .compile
    | some d => (lanewise d.2.2 ((st.take d.1.length).reverse.map (·.2))).bind fun l => .ok ((d.2.1, l) :: st.drop d.1.length)

def blockPass (rd : Ty → Nat → Except Err (List V)) : List (RNode Ty V Op) → List (Ty × List V) → Except Err (List (Ty × List V))
  | [], st => .ok st
  | n :: ns, st => (blockStep rt rd n st).bind (blockPass rd ns)

/-- The result is the first entry of `operands`, compiler_eval.cc 267; further entries are ignored. -/
def blockVal (rd : Ty → Nat → Except Err (List V)) (ns : List (RNode Ty V Op)) : Except Err (List V) :=
  (blockPass rt rd ns []).bind fun st => match st.getLast? with
    | none => .error .crash
    | some x => .ok x.2

/-! ## Memory -/

/-- A vector: its size and the contents of its buffer (for bits: one entry per bit of the allocated bytes). -/
structure Buf (V : Type) where
  size : Nat
  mem : List V

/-- `LoadVector`, codegen_vector.cc 159–173: 64 elements. -/
def loadBlock (mem : List V) (cur : Nat) : Except Err (List V) := if cur + 64 ≤ mem.length then .ok ((mem.drop cur).take 64) else .error .outside

/-- `LoadNVector`, codegen_vector.cc 175–246: `n` elements and filler; of bits always 64. -/
def loadTail (t : Ty) (mem : List V) (cur n : Nat) : Except Err (List V) :=
  if rt.isBit t = true then loadBlock mem cur
  else if cur + n ≤ mem.length ∧ n ≤ 64 then .ok ((mem.drop cur).take n ++ List.replicate (64 - n) (rt.fill t)) else .error .outside

/-- Overwriting part of a buffer. -/
def splice (mem : List V) (cur : Nat) (l : List V) : Except Err (List V) :=
  if cur + l.length ≤ mem.length then .ok (mem.take cur ++ l ++ mem.drop (cur + l.length)) else .error .outside

/-- `StoreNVector`, codegen_vector.cc 272–291: `n` elements; of bits always 64. -/
def storeTail (t : Ty) (mem : List V) (cur n : Nat) (l : List V) : Except Err (List V) := if rt.isBit t = true then splice mem cur l else splice mem cur (l.take n)

/-- The vector in a buffer. -/
def bufAt (bufs : List (Buf V)) (b : Nat) : Except Err (Buf V) := match bufs[b]? with
  | none => .error .crash
  | some x => .ok x

/-! ## The loop, compiler_eval.cc 466–497 -/

/-- The block loop. The counter and the limit are 32-bit numbers; `cursor <= size - 64` is a signed comparison. -/
def loop (bufs : List (Buf V)) (ns : List (RNode Ty V Op)) (size : BitVec 32) : Nat → BitVec 32 → List V → Except Err (BitVec 32 × List V)
  | 0, _, _ => .error .endless
  | k + 1, cursor, out =>
    if cursor.sle (size - 64) then
      (blockVal rt (fun _ b => (bufAt bufs b).bind fun x => loadBlock x.mem cursor.toNat) ns).bind fun l => (splice out cursor.toNat l).bind (loop bufs ns size k (cursor + 64))
    else .ok (cursor, out)

/-- The loop and the tail; `t` is the element type of the result. -/
def blocks (bufs : List (Buf V)) (ns : List (RNode Ty V Op)) (t : Ty) (size : BitVec 32) (out : List V) : Except Err (List V) :=
  (loop rt bufs ns size (size.toNat + 1) 0 out).bind fun r =>
    if r.1.slt size then
      (blockVal rt (fun t b => (bufAt bufs b).bind fun x => loadTail rt t x.mem r.1.toNat (size - r.1).toNat) ns).bind fun l => storeTail rt t r.2 r.1.toNat (size - r.1).toNat l
    else .ok r.2

/-- The buffers of the vectors of an expression, in order. -/
def vecs : List (RNode Ty V Op) → List Nat
  | [] => []
  | .vec _ b :: ns => b :: vecs ns
  | _ :: ns => vecs ns

/-- The sizes of the vectors; all are compared with the first, compiler_eval.cc 403–433. Without any vector `vector_size_val` is a null pointer. -/
def commonSize (bufs : List (Buf V)) : List Nat → Except Err Nat
  | [] => .error .crash
  | b :: bs => (bufAt bufs b).bind fun x => (go x.size bs).bind fun _ => .ok x.size
where
  go (n : Nat) : List Nat → Except Err Unit
    | [] => .ok ()
    | b :: bs => (bufAt bufs b).bind fun x => if x.size = n then go n bs else .error .sizes

/-- How many elements are allocated for a result of `n` elements: `NewEmptyVector`, `/repo/rapidudf/context/context.h` 86–102; bits come in multiples of eight bytes. -/
def allocated (t : Ty) (n : Nat) : Nat := if rt.isBit t = true then (n + 63) / 64 * 64 else n

/-- Compiling and running a vector expression with result type `t`. `mem n` is what a new allocation of `n` elements holds. The stored lanes must have the type of the result.
A single vector is returned as it is (compiler_eval.cc 320, 497–499), another single node has no vector value. -/
def evalBuf (mem : Nat → List V) (bufs : List (Buf V)) (t : Ty) (ns : List (Node Ty V Op)) : Except Err (Buf V) :=
  match ns with
  | [.vec t' b] => if t' = t then bufAt bufs b else .error .badCode
  | [_] => .error .crash
  | ns => (typePass rt ns [] []).bind fun r => (checkPass rt r.1 []).bind fun tys =>
    match tys.getLast? with
    | none => .error .crash
    | some t' => if t' = t then
        (commonSize bufs (vecs r.1)).bind fun n => (blocks rt bufs r.1 t (BitVec.ofNat 32 n) (mem (allocated rt t n))).bind fun out => .ok ⟨n, out⟩
      else .error .badCode

/-- The elements of the resulting vector. -/
def evalVec (mem : Nat → List V) (bufs : List (Buf V)) (t : Ty) (ns : List (Node Ty V Op)) : Except Err (List V) :=
  (evalBuf rt mem bufs t ns).bind fun x => .ok (x.mem.take x.size)

end

/-! ## Specification -/

/-- Expressions. -/
inductive VE (Ty V Op : Type) where
  | vec (t : Ty) (b : Nat)
  | con (t : Ty) (v : V)
  | app1 (o : Op) (a : VE Ty V Op)
  | app2 (o : Op) (a b : VE Ty V Op)
  | app3 (o : Op) (a b c : VE Ty V Op)
  | call1 (f : Nat) (a : VE Ty V Op)
  | call2 (f : Nat) (a b : VE Ty V Op)

section
variable {Ty V Op : Type} [DecidableEq Ty] (rt : Rt Ty V Op)

/-- The flattened expression: operands, then the operator. -/
def flat : VE Ty V Op → List (Node Ty V Op)
  | .vec t b => [.vec t b]
  | .con t v => [.con t v]
  | .app1 o a => flat a ++ [.op o]
  | .app2 o a b => flat a ++ flat b ++ [.op o]
  | .app3 o a b c => flat a ++ flat b ++ flat c ++ [.op o]
  | .call1 f a => flat a ++ [.call f]
  | .call2 f a b => flat a ++ flat b ++ [.call f]

/-- Whether an expression calls no vector function. -/
def noCall : VE Ty V Op → Bool
  | .vec _ _ => true
  | .con _ _ => true
  | .app1 _ a => noCall a
  | .app2 _ a b => noCall a && noCall b
  | .app3 _ a b c => noCall a && noCall b && noCall c
  | .call1 _ _ => false
  | .call2 _ _ _ => false

/-- Whether an expression is a constant. -/
def isCon : VE Ty V Op → Bool
  | .con _ _ => true
  | _ => false

/-- A constant can be converted to `c`; anything else must have that type. -/
def canBe (c : Ty) (e : VE Ty V Op) (t : Ty) : Prop := t = c ∨ (isCon e = true ∧ (rt.cast t c).isSome = true)

instance (c : Ty) (e : VE Ty V Op) (t : Ty) : Decidable (canBe rt c e t) := by unfold canBe; infer_instance

/-- The operator has the right number of operands, and is described for operands of the type it is computed in; a comparison gives bits, another operator values of that type. -/
def opOk (o : Op) (k : Nat) (c : Ty) (ts : List Ty) : Prop := rt.arity o = k ∧ ((rt.op o c ts).map (·.1)) = some (if rt.isCmp o = true then rt.bit else c)

instance (o : Op) (k : Nat) (c : Ty) (ts : List Ty) : Decidable (opOk rt o k c ts) := by unfold opOk; infer_instance

/-- The kind of an expression: whether it contains a vector of its own type (comparisons do not count), and its element type. Every operator works on operands of one type, the element
type of its first vector; constants are converted to it. A vector function gets operands of exactly its types, and is called in first operands only. The expressions without a kind are
those whose operands would have to be converted otherwise, and those with calls in other places. -/
def kind : VE Ty V Op → Option (Bool × Ty)
  | .vec t _ => some (true, t)
  | .con t _ => some (false, t)
  | .app1 o a => (kind a).bind fun x =>
    if rt.isCond o = false ∧ opOk rt o 1 x.2 [x.2] then some (!rt.isCmp o && x.1, if rt.isCmp o = true then rt.bit else x.2) else none
  | .app2 o a b => (kind a).bind fun x => (kind b).bind fun y =>
    let c := if x.1 = true then x.2 else if y.1 = true then y.2 else x.2
    if rt.isCond o = false ∧ noCall b = true ∧ canBe rt c a x.2 ∧ canBe rt c b y.2 ∧ opOk rt o 2 c [c, c] then some (!rt.isCmp o && (x.1 || y.1), if rt.isCmp o = true then rt.bit else c) else none
  | .app3 o a b d => (kind a).bind fun x => (kind b).bind fun y => (kind d).bind fun z =>
    if rt.isCond o = true then
      let c := if y.1 = true then y.2 else if z.1 = true then z.2 else y.2
      if rt.isCmp o = false ∧ noCall b = true ∧ noCall d = true ∧ canBe rt c b y.2 ∧ canBe rt c d z.2 ∧ opOk rt o 3 c [x.2, c, c] then some (y.1 || z.1, c) else none
    else
      let c := if x.1 = true then x.2 else if y.1 = true then y.2 else if z.1 = true then z.2 else x.2
      if noCall b = true ∧ noCall d = true ∧ canBe rt c a x.2 ∧ canBe rt c b y.2 ∧ canBe rt c d z.2 ∧ opOk rt o 3 c [c, c, c] then some (!rt.isCmp o && (x.1 || y.1 || z.1), if rt.isCmp o = true then rt.bit else c) else none
  | .call1 f a => (kind a).bind fun x => (rt.fn f).bind fun d => if d.1 = [x.2] then some (false, d.2.1) else none
  | .call2 f a b => (kind a).bind fun x => (kind b).bind fun y => (rt.fn f).bind fun d => if d.1 = [x.2, y.2] then some (false, d.2.1) else none

/-- The element type. -/
def ety (e : VE Ty V Op) : Option Ty := (kind rt e).map (·.2)

/-- A value converted to a type. -/
def conv (t c : Ty) (v : V) : Option V := if t = c then some v else (rt.cast t c).map fun f => f v

/-- The type operands meet in. -/
def meet (ks : List (Bool × Ty)) : Option Ty := match ks.find? (·.1) with
  | some k => some k.2
  | none => ks.head?.map (·.2)

/-- The expression applied to single elements: `leaf t b` is the element of vector `b`. -/
def valE (leaf : Ty → Nat → Option V) : VE Ty V Op → Option V
  | .vec t b => leaf t b
  | .con _ v => some v
  | .app1 o a => (kind rt a).bind fun x => (valE leaf a).bind fun u => (rt.op o x.2 [x.2]).bind fun r => r.2 [u]
  | .app2 o a b => (kind rt a).bind fun x => (kind rt b).bind fun y => (meet [x, y]).bind fun c =>
    (valE leaf a).bind fun u => (valE leaf b).bind fun v => (conv rt x.2 c u).bind fun u' => (conv rt y.2 c v).bind fun v' => (rt.op o c [c, c]).bind fun r => r.2 [u', v']
  | .app3 o a b d => (kind rt a).bind fun x => (kind rt b).bind fun y => (kind rt d).bind fun z =>
    (valE leaf a).bind fun u => (valE leaf b).bind fun v => (valE leaf d).bind fun w =>
      if rt.isCond o = true then (meet [y, z]).bind fun c =>
        (conv rt y.2 c v).bind fun v' => (conv rt z.2 c w).bind fun w' => (rt.op o c [x.2, c, c]).bind fun r => r.2 [u, v', w']
      else (meet [x, y, z]).bind fun c => (conv rt x.2 c u).bind fun u' => (conv rt y.2 c v).bind fun v' => (conv rt z.2 c w).bind fun w' => (rt.op o c [c, c, c]).bind fun r => r.2 [u', v', w']
  | .call1 f a => (valE leaf a).bind fun u => (rt.fn f).bind fun d => d.2.2 [u]
  | .call2 f a b => (valE leaf a).bind fun u => (valE leaf b).bind fun v => (rt.fn f).bind fun d => d.2.2 [u, v]

/-- The vectors of an expression, with their types. -/
def leaves : VE Ty V Op → List (Ty × Nat)
  | .vec t b => [(t, b)]
  | .con _ _ => []
  | .app1 _ a => leaves a
  | .app2 _ a b => leaves a ++ leaves b
  | .app3 _ a b c => leaves a ++ leaves b ++ leaves c
  | .call1 _ a => leaves a
  | .call2 _ a b => leaves a ++ leaves b

end
end Verif.Gen.Vec
