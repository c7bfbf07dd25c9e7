import Verif.Ast.Sound
import Verif.Ast.Literal
import Verif.Gen.ScalarProps
import Verif.Gen.IntOps
/-!
# From the text of an expression to its value: C135

The parts modelled elsewhere put together: lexer and parser (`Verif.Ast.Parser`), reverse Polish form (`Verif.Ast.Rpn`), code of expressions (`Verif.Gen.Scalar`), literals
(`Verif.Ast.Literal`), integer operators and conversions (`Verif.Gen.IntOps`), for functions of integer arguments given by one expression: `JitCompiler::CompileExpression`,
`/repo/rapidudf/compiler/compiler.cc` 112–125; `CodeGen::DefineFunction`, `/repo/rapidudf/compiler/codegen.cc` 383–414; `CodeGen::Return`, codegen.cc 462–478.

The expression is validated first (`/repo/rapidudf/ast/expression.cc`), with the types validation works with. Not modelled: conversions between booleans and integers, floating point numbers, strings, calls.
-/
namespace Verif.Comp.Pipeline
open Verif.Ast Verif.Ast.Rpn Verif.Gen Verif.Gen.Scalar Verif.Types.Conv

/-! ## Specification: a language of arithmetic -/

inductive Arith where
  | add | sub | mul | div | mod
  deriving DecidableEq

inductive Rel where
  | eq | ne | lt | le | gt | ge
  deriving DecidableEq

mutual
/-- Expressions for numbers: literals with or without a type suffix, arguments, negation, arithmetic, `c ? a : b`. -/
inductive Num where
  | lit (digits : List Char) (suffix : Option IntTy)
  | arg (x : Name)
  | neg (a : Num)
  | op (o : Arith) (a b : Num)
  | pick (c : Cond) (a b : Num)
/-- Conditions: comparisons and `&&`, `||`, `!`. -/
inductive Cond where
  | const (b : Bool)
  | rel (o : Rel) (a b : Num)
  | and (a b : Cond)
  | or (a b : Cond)
  | not (a : Cond)
end

/-- The number a string of digits stands for. -/
def decimal : List Char → Nat
  | [] => 0
  | c :: cs => (c.toNat - '0'.toNat) * 10 ^ cs.length + decimal cs

/-- The number of type `t` congruent to `z` modulo two to the width of `t`. -/
def wrap (t : IntTy) (z : Int) : Int :=
  if t.signed = true ∧ 2 ^ (t.bits - 1) ≤ z % 2 ^ t.bits then z % 2 ^ t.bits - 2 ^ t.bits else z % 2 ^ t.bits

/-- The wider of two types; of two types of the same width the signed one. -/
def wider (a b : IntTy) : IntTy := if a.bits < b.bits then b else if b.bits < a.bits then a else if a.signed = true then a else b

mutual
/-- The type of an expression, from the types of the arguments: a literal without suffix has 32 bits if it fits, otherwise 64; only signed numbers can be negated. -/
def Num.type (Γ : Name → Option IntTy) : Num → Option IntTy
  | .lit _ (some t) => some t
  | .lit ds none => some (if decimal ds ≤ 2147483647 then .i32 else .i64)
  | .arg x => Γ x
  | .neg a => (a.type Γ).bind fun t => if t.signed = true then some t else none
  | .op _ a b => (a.type Γ).bind fun s => (b.type Γ).map fun t => wider s t
  | .pick c a b => if c.typed Γ = true then (a.type Γ).bind fun s => (b.type Γ).map fun t => wider s t else none
def Cond.typed (Γ : Name → Option IntTy) : Cond → Bool
  | .const _ => true
  | .rel _ a b => (a.type Γ).isSome && (b.type Γ).isSome
  | .and a b => a.typed Γ && b.typed Γ
  | .or a b => a.typed Γ && b.typed Γ
  | .not a => a.typed Γ
end

/-- Arithmetic on numbers of type `t`: results wrap around; division by zero and the quotient that does not fit are undefined. Division rounds towards zero. -/
def Arith.calc (o : Arith) (t : IntTy) (x y : Int) : Option Int :=
  match o with
  | .add => some (wrap t (x + y))
  | .sub => some (wrap t (x - y))
  | .mul => some (wrap t (x * y))
  | .div => if y = 0 ∨ (t.signed = true ∧ x = -2 ^ (t.bits - 1) ∧ y = -1) then none else some (x.tdiv y)
  | .mod => if y = 0 ∨ (t.signed = true ∧ x = -2 ^ (t.bits - 1) ∧ y = -1) then none else some (x.tmod y)

def Rel.holds (o : Rel) (x y : Int) : Bool :=
  match o with
  | .eq => decide (x = y)
  | .ne => decide (x ≠ y)
  | .lt => decide (x < y)
  | .le => decide (x ≤ y)
  | .gt => decide (x > y)
  | .ge => decide (x ≥ y)

mutual
/-- The value of an expression: operands are brought to the wider type, `&&`, `||` and `? :` evaluate only the operands they need. `none` is undefined behaviour. -/
def Num.value (Γ : Name → Option IntTy) (ρ : Name → Int) : Num → Option Int
  | .lit ds (some t) => some (wrap t (decimal ds))
  | .lit ds none => some (decimal ds)
  | .arg x => some (ρ x)
  | .neg a => (a.type Γ).bind fun t => (a.value Γ ρ).map fun x => wrap t (-x)
  | .op o a b => (a.type Γ).bind fun s => (b.type Γ).bind fun t => (a.value Γ ρ).bind fun x => (b.value Γ ρ).bind fun y => o.calc (wider s t) (wrap (wider s t) x) (wrap (wider s t) y)
  | .pick c a b => (a.type Γ).bind fun s => (b.type Γ).bind fun t => (c.value Γ ρ).bind fun z =>
    if z = true then (a.value Γ ρ).map (wrap (wider s t)) else (b.value Γ ρ).map (wrap (wider s t))
def Cond.value (Γ : Name → Option IntTy) (ρ : Name → Int) : Cond → Option Bool
  | .const b => some b
  | .rel o a b => (a.type Γ).bind fun s => (b.type Γ).bind fun t => (a.value Γ ρ).bind fun x => (b.value Γ ρ).map fun y => o.holds (wrap (wider s t) x) (wrap (wider s t) y)
  | .and a b => (a.value Γ ρ).bind fun x => if x = true then b.value Γ ρ else some false
  | .or a b => (a.value Γ ρ).bind fun x => if x = true then some true else b.value Γ ρ
  | .not a => (a.value Γ ρ).map fun x => !x
end

/-- A literal from 1 to 127, without suffix. -/
def Num.SmallDivisor : Num → Prop
  | .lit ds none => 1 ≤ decimal ds ∧ decimal ds ≤ 127
  | _ => False

mutual
/-- Nothing undefined can happen: the divisors are literals from 1 to 127. -/
def Num.Safe : Num → Prop
  | .lit _ _ => True
  | .arg _ => True
  | .neg a => a.Safe
  | .op o a b => a.Safe ∧ b.Safe ∧ (o = .div ∨ o = .mod → b.SmallDivisor)
  | .pick c a b => c.Safe ∧ a.Safe ∧ b.Safe
def Cond.Safe : Cond → Prop
  | .const _ => True
  | .rel _ a b => a.Safe ∧ b.Safe
  | .and a b => a.Safe ∧ b.Safe
  | .or a b => a.Safe ∧ b.Safe
  | .not a => a.Safe
end

mutual
/-- Operands that might not be needed are safe. (Otherwise the value may be undefined where short-circuit evaluation has one, see C38.) -/
def Num.Guarded : Num → Prop
  | .lit _ _ => True
  | .arg _ => True
  | .neg a => a.Guarded
  | .op _ a b => a.Guarded ∧ b.Guarded
  | .pick c a b => c.Guarded ∧ a.Safe ∧ b.Safe
def Cond.Guarded : Cond → Prop
  | .const _ => True
  | .rel _ a b => a.Guarded ∧ b.Guarded
  | .and a b => a.Guarded ∧ b.Safe
  | .or a b => a.Guarded ∧ b.Safe
  | .not a => a.Guarded
end

mutual
/-- Literals consist of digits and are below 2^53. (For larger ones see C35.) -/
def Num.Lits : Num → Prop
  | .lit ds _ => ds ≠ [] ∧ (∀ c ∈ ds, isDigit c = true) ∧ decimal ds < 2 ^ 53
  | .arg _ => True
  | .neg a => a.Lits
  | .op _ a b => a.Lits ∧ b.Lits
  | .pick c a b => c.Lits ∧ a.Lits ∧ b.Lits
def Cond.Lits : Cond → Prop
  | .const _ => True
  | .rel _ a b => a.Lits ∧ b.Lits
  | .and a b => a.Lits ∧ b.Lits
  | .or a b => a.Lits ∧ b.Lits
  | .not a => a.Lits
end

/-- The `? :` that determine the type of the expression have branches of the same type. -/
def Num.Even (Γ : Name → Option IntTy) : Num → Prop
  | .lit _ _ => True
  | .arg _ => True
  | .neg a => a.Even Γ
  | .op _ a b => a.Even Γ ∧ b.Even Γ
  | .pick _ a b => a.Even Γ ∧ b.Even Γ ∧ a.type Γ = b.type Γ

mutual
/-- What is negated does not choose between numbers of different types. (Validation takes the type of the second branch for the type of `? :`, see C142.) -/
def Num.Level (Γ : Name → Option IntTy) : Num → Prop
  | .lit _ _ => True
  | .arg _ => True
  | .neg a => a.Level Γ ∧ a.Even Γ
  | .op _ a b => a.Level Γ ∧ b.Level Γ
  | .pick c a b => c.Level Γ ∧ a.Level Γ ∧ b.Level Γ
def Cond.Level (Γ : Name → Option IntTy) : Cond → Prop
  | .const _ => True
  | .rel _ a b => a.Level Γ ∧ b.Level Γ
  | .and a b => a.Level Γ ∧ b.Level Γ
  | .or a b => a.Level Γ ∧ b.Level Γ
  | .not a => a.Level Γ
end

/-! ### How the language is written -/

def suffixText : IntTy → List Char
  | .u8 => ['u', '8'] | .u16 => ['u', '1', '6'] | .u32 => ['u', '3', '2'] | .u64 => ['u', '6', '4']
  | .i8 => ['i', '8'] | .i16 => ['i', '1', '6'] | .i32 => ['i', '3', '2'] | .i64 => ['i', '6', '4']

def Arith.sign : Arith → BinOp
  | .add => .add | .sub => .sub | .mul => .mul | .div => .div | .mod => .mod

def Rel.sign : Rel → BinOp
  | .eq => .eq | .ne => .ne | .lt => .lt | .le => .le | .gt => .gt | .ge => .ge

def litText (ds : List Char) : Option IntTy → List Char
  | none => ds
  | some t => ds ++ '_' :: suffixText t

mutual
/-- The tree of operators and operands of the grammar (C30). -/
def Num.tree : Num → Tree
  | .lit ds s => .atom (.num (litText ds s))
  | .arg x => .atom (.var x)
  | .neg a => .un .neg a.tree
  | .op o a b => .bin a.tree o.sign b.tree
  | .pick c a b => .sel c.tree a.tree b.tree
def Cond.tree : Cond → Tree
  | .const b => .atom (.bool b)
  | .rel o a b => .bin a.tree o.sign b.tree
  | .and a b => .bin a.tree .and b.tree
  | .or a b => .bin a.tree .or b.tree
  | .not a => .un .not a.tree
end

/-- The type and the value of an argument, given the declared arguments and the values passed. -/
def argType (ps : List (Name × IntTy)) (x : Name) : Option IntTy := ps.lookup x
def argValue (ps : List (Name × IntTy)) (args : List Int) (x : Name) : Int := (((ps.map (·.1)).zip args).lookup x).getD 0

/-- One value for every argument, of its type. -/
def Passed : List (Name × IntTy) → List Int → Prop
  | [], [] => True
  | q :: ps, z :: args => IntOps.Fits q.2 z ∧ Passed ps args
  | _, _ => False

/-! ### Ordinary arithmetic -/

/-- The result in the integers. -/
def Arith.math (o : Arith) (x y : Int) : Option Int :=
  match o with
  | .add => some (x + y)
  | .sub => some (x - y)
  | .mul => some (x * y)
  | .div => if y = 0 then none else some (x.tdiv y)
  | .mod => if y = 0 then none else some (x.tmod y)

mutual
/-- The value of an expression in the integers; no types. -/
def Num.math (ρ : Name → Int) : Num → Option Int
  | .lit ds _ => some (decimal ds)
  | .arg x => some (ρ x)
  | .neg a => (a.math ρ).map fun x => -x
  | .op o a b => (a.math ρ).bind fun x => (b.math ρ).bind fun y => o.math x y
  | .pick c a b => (c.math ρ).bind fun z => if z = true then a.math ρ else b.math ρ
def Cond.math (ρ : Name → Int) : Cond → Option Bool
  | .const b => some b
  | .rel o a b => (a.math ρ).bind fun x => (b.math ρ).map fun y => o.holds x y
  | .and a b => (a.math ρ).bind fun x => if x = true then b.math ρ else some false
  | .or a b => (a.math ρ).bind fun x => if x = true then some true else b.math ρ
  | .not a => (a.math ρ).map fun x => !x
end

mutual
/-- Nothing overflows: the operands and the result of every operation that is needed fit into the wider type of the operands; for a remainder also the quotient. -/
def Num.Stays (Γ : Name → Option IntTy) (ρ : Name → Int) : Num → Prop
  | .lit _ none => True
  | .lit ds (some t) => IntOps.Fits t (decimal ds)
  | .arg _ => True
  | .neg a => a.Stays Γ ρ ∧ ∀ t x, a.type Γ = some t → a.math ρ = some x → IntOps.Fits t (-x)
  | .op o a b => a.Stays Γ ρ ∧ b.Stays Γ ρ ∧ ∀ s t x y z, a.type Γ = some s → b.type Γ = some t → a.math ρ = some x → b.math ρ = some y → o.math x y = some z →
    IntOps.Fits (wider s t) x ∧ IntOps.Fits (wider s t) y ∧ IntOps.Fits (wider s t) z ∧ (o = .mod → IntOps.Fits (wider s t) (x.tdiv y))
  | .pick c a b => c.Stays Γ ρ ∧
    (c.math ρ = some true → a.Stays Γ ρ ∧ ∀ s t x, a.type Γ = some s → b.type Γ = some t → a.math ρ = some x → IntOps.Fits (wider s t) x) ∧
    (c.math ρ = some false → b.Stays Γ ρ ∧ ∀ s t y, a.type Γ = some s → b.type Γ = some t → b.math ρ = some y → IntOps.Fits (wider s t) y)
def Cond.Stays (Γ : Name → Option IntTy) (ρ : Name → Int) : Cond → Prop
  | .const _ => True
  | .rel _ a b => a.Stays Γ ρ ∧ b.Stays Γ ρ ∧ ∀ s t x y, a.type Γ = some s → b.type Γ = some t → a.math ρ = some x → b.math ρ = some y →
    IntOps.Fits (wider s t) x ∧ IntOps.Fits (wider s t) y
  | .and a b => a.Stays Γ ρ ∧ (a.math ρ = some true → b.Stays Γ ρ)
  | .or a b => a.Stays Γ ρ ∧ (a.math ρ = some false → b.Stays Γ ρ)
  | .not a => a.Stays Γ ρ
end

/-- A text is read as the expression with the given tree. -/
def Reads (cfg : Cfg) (src : List Char) (t : Tree) : Prop := ∃ e rest, parseExpression cfg src = .ok e rest ∧ e.toTree = t

/-! ## Model -/

/-- Types: booleans, integers, and the types of literals that are not modelled. -/
inductive PTy where
  | bit
  | int (t : IntTy)
  | other
  deriving DecidableEq

/-- The 2's complement pattern of a number. -/
def pat (t : IntTy) (z : Int) : BitVec t.bits := BitVec.ofInt t.bits z

/-- `GetNumberSymbols`, symbols.cc 55–61: the integer ones. -/
def suffixes : List (List Char × IntTy) :=
  [(['u', '8'], .u8), (['i', '8'], .i8), (['u', '1', '6'], .u16), (['i', '1', '6'], .i16), (['u', '3', '2'], .u32), (['i', '3', '2'], .i32), (['u', '6', '4'], .u64), (['i', '6', '4'], .i64)]

/-- The type with the given width and sign. -/
def ofBits (bits : Nat) (signed : Bool) : Option IntTy := [IntTy.u8, .u16, .u32, .u64, .i8, .i16, .i32, .i64].find? fun t => t.bits == bits && t.signed == signed

/-- A constant as a typed value. -/
def constOf (c : Literal.Const) : Option (PTy × Int) :=
  match c with
  | .int bits signed v => (ofBits bits signed).map fun t => (.int t, IntOps.val t (pat t v))
  | _ => none

/-- `BuildIR(const ast::ConstantNumber&)`, compiler_constants.cc 24–30, on the text of a token (grammar.cc 124–150). Fractions and floating point suffixes are not modelled. -/
def constant (t : List Char) : Option (PTy × Int) :=
  match splitNumber t with
  | (ds, none) => if ds.all isDigit = true then constOf (Literal.literal ds) else none
  | (ds, some suf) => (suffixes.lookup suf).bind fun u => if ds.all isDigit = true then constOf (Literal.literalTyped ds u.bits u.signed) else none

/-- The integer operators behind the operators of the grammar, codegen_binary.cc 62–108. -/
def intOp : BinOp → Option IntOps.IOp
  | .add => some .add | .sub => some .sub | .mul => some .mul | .div => some .div | .mod => some .mod
  | _ => none

/-- The comparisons, codegen_binary.cc 128–191. -/
def cmpOp : BinOp → Option IntOps.COp
  | .eq => some .eq | .ne => some .ne | .lt => some .lt | .le => some .le | .gt => some .gt | .ge => some .ge
  | _ => none

def bit (b : Bool) : Int := if b = true then 1 else 0

def binInt (op : BinOp) (t : IntTy) : Option (PTy × (Int → Int → Option Int)) :=
  match intOp op with
  | some o => some (.int t, fun x y => (IntOps.arith o t (pat t x) (pat t y)).map (IntOps.val t))
  | none => (cmpOp op).map fun o => (.bit, fun x y => some (bit (IntOps.compare o t (pat t x) (pat t y))))

def binT (op : BinOp) : PTy → Option (PTy × (Int → Int → Option Int))
  | .int t => binInt op t
  | _ => none

/-- `OP_NEGATIVE`, `OP_NOT`: codegen_unary.cc 52–66. -/
def unT (op : UnOp) : PTy → Option (PTy × (Int → Option Int))
  | .int t => if op = .neg then some (.int t, fun x => some (IntOps.val t (IntOps.neg t (pat t x)))) else none
  | .bit => if op = .not then some (.bit, fun x => some (bit (x == 0))) else none
  | .other => none

def normT : PTy → PTy → Option PTy
  | .int a, .int b => some (.int (IntOps.common a b))
  | _, _ => none

def castT : PTy → PTy → Option (Int → Int)
  | .int a, .int b => some fun x => IntOps.val b (IntOps.cast a b (pat a x))
  | _, _ => none

/-- Integers and booleans for the code of `Verif.Gen.Scalar`. A value is held as the number it stands for. -/
def ints : Rt PTy Int Unit where
  bool b := (.bit, bit b)
  str _ := (.other, 0)
  num := constant
  isBit t := decide (t = .bit)
  truth v := decide (v ≠ 0)
  norm := normT
  cast := castT
  un := unT
  bin := binT
  fn _ := none
  inl _ _ := none

/-- `DefineFunction`, codegen.cc 383–414: every argument is stored in a slot; of two arguments with the same name the later one counts. -/
def paramVars : Nat → List (Name × PTy) → Name → Option (Option (PTy × Nat))
  | _, [], _ => none
  | k, (x, t) :: ps, n => match paramVars (k + 1) ps n with
    | some b => some b
    | none => if n = x then some (some (t, k)) else none

/-- A compiled function: code and where the result is. -/
abbrev Code := List (Instr PTy Int) × Opd Int

/-- `UnaryExpr::Validate`, expression.cc 294–326. -/
def vUn (op : UnOp) (a : PTy) : Option PTy :=
  match op, a with
  | .neg, .int t => if t.signed = true then some (.int t) else none
  | .not, .bit => some .bit
  | _, _ => none

/-- `BinaryExpr::Validate`, expression.cc 357–570, for booleans and integers. -/
def vBin (op : BinOp) (a b : PTy) : Option PTy :=
  if (intOp op).isSome = true then normT a b
  else if (cmpOp op).isSome = true then (normT a b).map fun _ => .bit
  else if op = .and ∨ op = .or then (if a = .bit ∧ b = .bit then some .bit else none)
  else none

/-- `SelectExpr::Validate`, expression.cc 596–605: the type of the second branch, if the first one can be converted to it. -/
def vSel (z a b : PTy) : Option PTy := if z = .bit ∧ (a = b ∨ (normT a b).isSome = true) then some b else none

/-- The types validation works with. -/
def vSem (tenv : Name → Option PTy) : Sem PTy where
  bool _ := .bit
  str _ := .other
  num t := (constant t).map (·.1)
  define _ := none
  var := tenv
  array _ := none
  call _ _ := none
  field _ _ := none
  method _ _ _ := none
  key _ _ := none
  index _ _ := none
  ref _ _ := none
  un := vUn
  bin := vBin
  sel := vSel
  inl _ _ := none

/-- `CompileExpression`, compiler.cc 112–125: the expression is parsed (what follows it is not looked at) and validated, and its value is converted to the return type (codegen.cc 462–478). -/
def compile (cfg : Cfg) (inl : Inline) (ps : List (Name × PTy)) (ret : PTy) (src : List Char) : Option Code :=
  match parseExpression cfg src with
  | .ok e _ => (evalE inl (vSem (tenvOf (paramVars 0 ps))) e).bind fun _ => ((((gExpr ints inl e).andThen ld).andThen (castTo ints ret)) ⟨0, ps.length, paramVars 0 ps⟩).map fun r => (r.2.1, r.1)
  | .fail => none
  | .fuel => none

inductive Out where
  | undefined
  | value (z : Int)
  deriving DecidableEq

/-- A call of the function: the arguments are in the first slots, the others hold anything. -/
def call (c : Code) (junk : Nat → Int) (args : List Int) : Out :=
  match run ints c.1 ⟨[], fun i => args.getD i (junk i), ()⟩ with
  | none => .undefined
  | some rs => match rs.opd c.2 with
    | none => .undefined
    | some v => .value v

/-! ## Lemmas: numbers -/

theorem decimal_eq (ds : List Char) : Literal.digitsValue ds = decimal ds := by
  have h : ∀ (ds : List Char) (a : Nat), ds.foldl (fun n c => n * 10 + (c.toNat - '0'.toNat)) a = a * 10 ^ ds.length + decimal ds := by
    intro ds
    induction ds with
    | nil => intro a; simp [decimal]
    | cons c cs ih =>
      intro a
      rw [List.foldl_cons, ih, decimal, List.length_cons, Nat.pow_succ, Nat.add_mul]
      have : a * 10 * 10 ^ cs.length = a * (10 ^ cs.length * 10) := by rw [Nat.mul_assoc, Nat.mul_comm 10]
      omega
  have := h ds 0
  rw [Nat.zero_mul, Nat.zero_add] at this
  exact this

theorem wrap_fits (t : IntTy) (z : Int) : IntOps.Fits t (wrap t z) := by
  have h2 := IntOps.two_pow t.bits (IntOps.bits_pos t)
  have hp : (0 : Int) < 2 ^ (t.bits - 1) := Int.pow_pos (by decide)
  have h3 : 0 ≤ z % 2 ^ t.bits := Int.emod_nonneg _ (by omega)
  have h4 : z % 2 ^ t.bits < 2 ^ t.bits := Int.emod_lt_of_pos _ (by omega)
  unfold IntOps.Fits IntOps.lo IntOps.hi wrap
  cases hs : t.signed <;> simp <;> (try split) <;> omega

theorem wrap_mod (t : IntTy) (z : Int) : wrap t z % 2 ^ t.bits = z % 2 ^ t.bits := by
  unfold wrap
  split
  · rw [Int.sub_emod_right]; simp
  · simp

theorem wrap_unique {t : IntTy} {a z : Int} (ha : IntOps.Fits t a) (h : a % 2 ^ t.bits = z % 2 ^ t.bits) : a = wrap t z :=
  IntOps.fits_unique ha (wrap_fits t z) (h.trans (wrap_mod t z).symm)

theorem wrap_self {t : IntTy} {z : Int} (h : IntOps.Fits t z) : wrap t z = z := (wrap_unique h rfl).symm

theorem pat_val (t : IntTy) (z : Int) : IntOps.val t (pat t z) = wrap t z := by
  refine wrap_unique (IntOps.val_fits _ _) ?_
  rw [IntOps.val_mod]
  unfold pat
  have e : ((2 : Int) ^ t.bits) = ((2 ^ t.bits : Nat) : Int) := by norm_cast
  have h3 : 0 ≤ z % 2 ^ t.bits := Int.emod_nonneg _ (by rw [e]; have := Nat.two_pow_pos t.bits; omega)
  rw [BitVec.toNat_ofInt, e] at *
  omega

theorem wider_eq (a b : IntTy) : wider a b = IntOps.common a b := by cases a <;> cases b <;> decide

theorem cast_wrap (a b : IntTy) (x : Int) (hx : IntOps.Fits a x) : IntOps.val b (IntOps.cast a b (pat a x)) = wrap b x := by
  refine wrap_unique (IntOps.val_fits _ _) ?_
  rw [IntOps.cast_wraps, pat_val, wrap_self hx]

/-- The operators of compiled code are those of the specification. -/
theorem arith_calc (o : Arith) (t : IntTy) (x y : Int) (hx : IntOps.Fits t x) (hy : IntOps.Fits t y) :
    ∃ p, intOp o.sign = some p ∧ (IntOps.arith p t (pat t x) (pat t y)).map (IntOps.val t) = o.calc t x y := by
  have ex : IntOps.val t (pat t x) = x := by rw [pat_val, wrap_self hx]
  have ey : IntOps.val t (pat t y) = y := by rw [pat_val, wrap_self hy]
  have key : ∀ p : IntOps.IOp, p = .add ∨ p = .sub ∨ p = .mul → (IntOps.arith p t (pat t x) (pat t y)).map (IntOps.val t) = some (wrap t (IntOps.meant p x y)) := by
    intro p hp
    obtain ⟨r, h1, h2⟩ := IntOps.arith_wraps p hp t (pat t x) (pat t y)
    rw [ex, ey] at h2
    rw [h1, Option.map_some, wrap_unique (IntOps.val_fits t r) h2]
  have key2 : ∀ p : IntOps.IOp, p = .div ∨ p = .mod → (IntOps.arith p t (pat t x) (pat t y)).map (IntOps.val t) =
      if y = 0 ∨ (t.signed = true ∧ x = -2 ^ (t.bits - 1) ∧ y = -1) then none else some (IntOps.meant p x y) := by
    intro p hp
    have hu := IntOps.division_undefined p t (pat t x) (pat t y)
    rw [ex, ey] at hu
    have hl : (t.signed = true ∧ x = IntOps.lo t ∧ y = -1) ↔ (t.signed = true ∧ x = -2 ^ (t.bits - 1) ∧ y = -1) := by
      constructor <;> rintro ⟨h1, h2, h3⟩ <;> refine ⟨h1, ?_, h3⟩
      · simpa [IntOps.lo, h1] using h2
      · simpa [IntOps.lo, h1] using h2
    rw [hl] at hu
    split
    · next hc => rw [hu.2 ⟨hp, hc⟩]; rfl
    · next hc =>
      cases hr : IntOps.arith p t (pat t x) (pat t y) with
      | none => exact absurd (hu.1 hr).2 hc
      | some r =>
        have := IntOps.division_exact p (by rcases hp with h | h <;> simp [h]) t _ _ r hr
        rw [Option.map_some, this, ex, ey]
  cases o
  · exact ⟨_, rfl, key _ (by simp)⟩
  · exact ⟨_, rfl, key _ (by simp)⟩
  · exact ⟨_, rfl, key _ (by simp)⟩
  · exact ⟨_, rfl, key2 _ (by simp)⟩
  · exact ⟨_, rfl, key2 _ (by simp)⟩

theorem compare_holds (o : Rel) (t : IntTy) (x y : Int) (hx : IntOps.Fits t x) (hy : IntOps.Fits t y) :
    ∃ p, intOp o.sign = none ∧ cmpOp o.sign = some p ∧ IntOps.compare p t (pat t x) (pat t y) = o.holds x y := by
  have ex : IntOps.val t (pat t x) = x := by rw [pat_val, wrap_self hx]
  have ey : IntOps.val t (pat t y) = y := by rw [pat_val, wrap_self hy]
  have key : ∀ p : IntOps.COp, IntOps.compare p t (pat t x) (pat t y) = true ↔ IntOps.meantCmp p x y := by
    intro p
    rw [IntOps.compare_exact, ex, ey]
  cases o <;> refine ⟨_, rfl, rfl, ?_⟩ <;> rw [Bool.eq_iff_iff, key] <;> simp [IntOps.meantCmp, Rel.holds]

/-! ## Lemmas: expressions and their trees -/

section
variable {Ty V W : Type} [DecidableEq Ty] (rt : Rt Ty V W)

def treeM (inl : Inline) (env : Env Ty V) : Tree → M W (TV Ty V)
  | .atom o => eagerO rt inl env o
  | .un op t => (treeM inl env t).andThen fun a => M.lift (unTV rt op a)
  | .bin l op r => (treeM inl env l).andThen fun a => (treeM inl env r).andThen fun b => M.lift (binTV rt op a b)
  | .sel c t f => (treeM inl env c).andThen fun z => (treeM inl env t).andThen fun a => (treeM inl env f).andThen fun b => M.lift (selTV rt z a b)

theorem eager_tree (inl : Inline) (env : Env Ty V) (e : Expr) : eagerE rt inl env e = treeM rt inl env e.toTree := by
  match e with
  | .un none (.paren e) => rw [eagerE, eagerO, Expr.toTree]; exact eager_tree inl env e
  | .un (some op) (.paren e) => rw [eagerE, eagerO, Expr.toTree, treeM, eager_tree inl env e]
  | .bin l op r => rw [eagerE, Expr.toTree, treeM, eager_tree inl env l, eager_tree inl env r]
  | .sel c t f => rw [eagerE, Expr.toTree, treeM, eager_tree inl env c, eager_tree inl env t, eager_tree inl env f]
  | .un none (.bool _) | .un none (.str _) | .un none (.num _) | .un none (.define _) | .un none (.array _) | .un none (.var _) | .un none (.call _ _) | .un none (.access _ _) =>
    simp only [eagerE, Expr.toTree, treeM]
  | .un (some op) (.bool _) | .un (some op) (.str _) | .un (some op) (.num _) | .un (some op) (.define _) | .un (some op) (.array _) | .un (some op) (.var _) | .un (some op) (.call _ _)
  | .un (some op) (.access _ _) => simp only [eagerE, Expr.toTree, treeM]

def treeV (inl : Inline) (m : Sem V) : Tree → Option V
  | .atom o => evalO inl m o
  | .un op t => (treeV inl m t).bind (m.un op)
  | .bin l op r => (treeV inl m l).bind fun a => (treeV inl m r).bind fun b => m.bin op a b
  | .sel c t f => (treeV inl m c).bind fun a => (treeV inl m t).bind fun b => (treeV inl m f).bind fun d => m.sel a b d

theorem eval_tree (inl : Inline) (m : Sem V) (e : Expr) : evalE inl m e = treeV inl m e.toTree := by
  match e with
  | .un none (.paren e) => rw [evalE, evalO, Expr.toTree]; exact eval_tree inl m e
  | .un (some op) (.paren e) => rw [evalE, evalO, Expr.toTree, treeV, eval_tree inl m e]
  | .bin l op r => rw [evalE, Expr.toTree, treeV, eval_tree inl m l, eval_tree inl m r]
  | .sel c t f => rw [evalE, Expr.toTree, treeV, eval_tree inl m c, eval_tree inl m t, eval_tree inl m f]
  | .un none (.bool _) | .un none (.str _) | .un none (.num _) | .un none (.define _) | .un none (.array _) | .un none (.var _) | .un none (.call _ _) | .un none (.access _ _) =>
    simp only [evalE, Expr.toTree, treeV]
  | .un (some op) (.bool _) | .un (some op) (.str _) | .un (some op) (.num _) | .un (some op) (.define _) | .un (some op) (.array _) | .un (some op) (.var _) | .un (some op) (.call _ _)
  | .un (some op) (.access _ _) => simp only [evalE, Expr.toTree, treeV]

/-- Trees of literals, variables and operators that do not assign. -/
def Tree.Simple : Tree → Prop
  | .atom (.bool _) => True
  | .atom (.num _) => True
  | .atom (.var _) => True
  | .atom _ => False
  | .un _ t => Tree.Simple t
  | .bin l op r => Tree.Simple l ∧ op ≠ .assign ∧ baseOp op = none ∧ Tree.Simple r
  | .sel c t f => Tree.Simple c ∧ Tree.Simple t ∧ Tree.Simple f

theorem plain_tree (inl : Inline) (e : Expr) (h : Tree.Simple e.toTree) : Plain inl e := by
  match e with
  | .un none (.paren e) => rw [Expr.toTree] at h; rw [Plain, PlainO]; exact plain_tree inl e h
  | .un (some op) (.paren e) => rw [Expr.toTree, Tree.Simple] at h; rw [Plain, PlainO]; exact plain_tree inl e h
  | .bin l op r => rw [Expr.toTree, Tree.Simple] at h; rw [Plain]; exact ⟨plain_tree inl l h.1, h.2.1, h.2.2.1, plain_tree inl r h.2.2.2⟩
  | .sel c t f => rw [Expr.toTree, Tree.Simple] at h; rw [Plain]; exact ⟨plain_tree inl c h.1, plain_tree inl t h.2.1, plain_tree inl f h.2.2⟩
  | .un none (.bool _) | .un none (.num _) | .un none (.var _) => simp [Plain, PlainO]
  | .un (some op) (.bool _) | .un (some op) (.num _) | .un (some op) (.var _) => simp [Plain, PlainO]
  | .un none (.str _) | .un none (.define _) | .un none (.array _) | .un none (.call _ _) | .un none (.access _ _) => simp [Expr.toTree, Tree.Simple] at h
  | .un (some op) (.str _) | .un (some op) (.define _) | .un (some op) (.array _) | .un (some op) (.call _ _) | .un (some op) (.access _ _) => simp [Expr.toTree, Tree.Simple] at h

end

mutual
theorem simple_num (p : Num) : Tree.Simple p.tree := by
  match p with
  | .lit _ _ => simp [Num.tree, Tree.Simple]
  | .arg _ => simp [Num.tree, Tree.Simple]
  | .neg a => rw [Num.tree, Tree.Simple]; exact simple_num a
  | .op o a b => rw [Num.tree, Tree.Simple]; exact ⟨simple_num a, by cases o <;> simp [Arith.sign], by cases o <;> rfl, simple_num b⟩
  | .pick c a b => rw [Num.tree, Tree.Simple]; exact ⟨simple_cond c, simple_num a, simple_num b⟩
theorem simple_cond (p : Cond) : Tree.Simple p.tree := by
  match p with
  | .const _ => simp [Cond.tree, Tree.Simple]
  | .rel o a b => rw [Cond.tree, Tree.Simple]; exact ⟨simple_num a, by cases o <;> simp [Rel.sign], by cases o <;> rfl, simple_num b⟩
  | .and a b => rw [Cond.tree, Tree.Simple]; exact ⟨simple_cond a, by simp, rfl, simple_cond b⟩
  | .or a b => rw [Cond.tree, Tree.Simple]; exact ⟨simple_cond a, by simp, rfl, simple_cond b⟩
  | .not a => rw [Cond.tree, Tree.Simple]; exact simple_cond a
end

/-! ## Lemmas: literals -/

theorem digit_ne (c : Char) (h : isDigit c = true) : c ≠ '_' := by rintro rfl; simp [isDigit] at h

theorem count_digits (ds : List Char) (h : ∀ c ∈ ds, isDigit c = true) (r : List Char) (hr : r = [] ∨ ∃ s, r = '_' :: s) :
    countWhile (fun c => c != '_') (ds ++ r) = ds.length := by
  induction ds with
  | nil => rcases hr with rfl | ⟨s, rfl⟩ <;> simp [countWhile]
  | cons c cs ih =>
    have := digit_ne c (h c (by simp))
    simp only [List.cons_append, countWhile]
    simp [this, ih fun d hd => h d (by simp [hd]), Nat.add_comm]

theorem split_lit (ds : List Char) (h0 : ds ≠ []) (h : ∀ c ∈ ds, isDigit c = true) (s : Option IntTy) : splitNumber (litText ds s) = (ds, s.map suffixText) := by
  cases ds with
  | nil => exact absurd rfl h0
  | cons c cs =>
    have hcs : ∀ d ∈ cs, isDigit d = true := fun d hd => h d (by simp [hd])
    unfold splitNumber
    cases s with
    | none =>
      simp only [litText, List.drop_one, List.tail_cons]
      have := count_digits cs hcs [] (.inl rfl)
      rw [List.append_nil] at this
      rw [this]
      simp [Nat.add_comm 1]
    | some t =>
      simp only [litText, List.cons_append, List.drop_one, List.tail_cons]
      rw [count_digits cs hcs _ (.inr ⟨_, rfl⟩)]
      simp [Nat.add_comm 1]

theorem lookup_suffix (t : IntTy) : suffixes.lookup (suffixText t) = some t := by cases t <;> decide

theorem ofBits_eq (t : IntTy) : ofBits t.bits t.signed = some t := by cases t <;> decide

theorem fits_i32 {n : Nat} (h : n ≤ 2147483647) : IntOps.Fits .i32 n := by
  have h1 : IntOps.lo .i32 = -2147483648 := by decide
  have h2 : IntOps.hi .i32 = 2147483647 := by decide
  exact ⟨by omega, by omega⟩

theorem fits_i64 {n : Nat} (h : n < 2 ^ 53) : IntOps.Fits .i64 n := by
  have h1 : IntOps.lo .i64 = -9223372036854775808 := by decide
  have h2 : IntOps.hi .i64 = 9223372036854775807 := by decide
  have h3 : (2 : Nat) ^ 53 = 9007199254740992 := by decide
  exact ⟨by omega, by omega⟩

theorem constant_lit (ds : List Char) (s : Option IntTy) (h0 : ds ≠ []) (h : ∀ c ∈ ds, isDigit c = true) (hb : decimal ds < 2 ^ 53) :
    constant (litText ds s) = some (match s with
      | none => (.int (if decimal ds ≤ 2147483647 then .i32 else .i64), (decimal ds : Int))
      | some t => (.int t, wrap t (decimal ds))) := by
  have ha : ds.all isDigit = true := by simpa using h
  unfold constant
  rw [split_lit ds h0 h s]
  have p1 : (2 : Nat) ^ 53 = 9007199254740992 := by decide
  have p2 : (2 : Nat) ^ 63 = 9223372036854775808 := by decide
  have p3 : (2 : Nat) ^ 64 = 18446744073709551616 := by decide
  have p4 : (2 : Nat) ^ 32 = 4294967296 := by decide
  cases s with
  | none =>
    simp only [Option.map_none, ha, if_true, Literal.literal, decimal_eq, Literal.round_small _ hb, Literal.buildPlain, Literal.buildTyped]
    generalize decimal ds = n at *
    rw [if_neg (by omega)]
    split
    · next h2 =>
      rw [if_neg (by omega), Nat.mod_eq_of_lt (by omega)]
      have := ofBits_eq .i32
      simp only [constOf]
      rw [show ofBits 32 true = some .i32 from by decide, Option.map_some, pat_val, wrap_self (fits_i32 h2)]
    · next h2 =>
      rw [if_neg (by omega), Nat.mod_eq_of_lt (by omega)]
      simp only [constOf]
      rw [show ofBits 64 true = some .i64 from by decide, Option.map_some, pat_val, wrap_self (fits_i64 hb)]
  | some t =>
    simp only [Option.map_some, lookup_suffix, Option.bind_some, ha, if_true, Literal.literalTyped, decimal_eq, Literal.round_small _ hb, Literal.buildTyped]
    generalize decimal ds = n at *
    rw [if_neg (by omega)]
    simp only [constOf]
    rw [ofBits_eq, Option.map_some, pat_val]
    congr 2
    refine wrap_unique (wrap_fits _ _) ?_
    rw [wrap_mod]
    have e : ((2 : Int) ^ t.bits) = ((2 ^ t.bits : Nat) : Int) := by norm_cast
    rw [e]
    norm_cast
    simp

/-! ## Lemmas: types -/

theorem castable_int (a b : IntTy) : castable ints (.int a) (.int b) = some () := by
  unfold castable
  split
  · rfl
  · rfl

theorem common_self (a : IntTy) : IntOps.common a a = a := by cases a <;> decide

theorem meet_int (a b : IntTy) : meet ints (.int a) (.int b) = some (.int (wider a b)) := by
  unfold meet
  split
  · next h => injection h with h; subst h; rw [wider_eq, common_self]
  · show some (PTy.int (IntOps.common a b)) = _
    rw [wider_eq]

theorem binOp_arith (o : Arith) (t : PTy) : ints.binOp o.sign t = binT o.sign t := by cases o <;> rfl
theorem binOp_rel (o : Rel) (t : PTy) : ints.binOp o.sign t = binT o.sign t := by cases o <;> rfl

theorem arith_type (o : Arith) (t : IntTy) : (binT o.sign (.int t)).map (·.1) = some (.int t) := by cases o <;> rfl
theorem rel_type (o : Rel) (t : IntTy) : (binT o.sign (.int t)).map (·.1) = some .bit := by cases o <;> rfl

/-- The types of the variables in scope are those of the code; the code may know more variables. -/
def TypesOk (Γ : Name → Option IntTy) (tenv : Name → Option PTy) : Prop := ∀ x t, Γ x = some t → tenv x = some (.int t)

mutual
/-- The types of the code are those of the specification. -/
theorem type_num (inl : Inline) (Γ : Name → Option IntTy) (tenv : Name → Option PTy) (henv : TypesOk Γ tenv) (p : Num) (hl : p.Lits) (t : IntTy) (ht : p.type Γ = some t) :
    treeV inl (tySem ints tenv) p.tree = some (.int t) := by
  match p with
  | .lit ds s =>
    rw [Num.Lits] at hl
    rw [Num.tree, treeV, evalO]
    show (constant (litText ds s)).map (·.1) = _
    rw [constant_lit ds s hl.1 hl.2.1 hl.2.2]
    cases s <;> simp [Num.type] at ht ⊢ <;> exact ht
  | .arg x => rw [Num.type] at ht; rw [Num.tree, treeV, evalO]; exact henv x t ht
  | .neg a =>
    rw [Num.Lits] at hl
    rw [Num.type] at ht
    cases ha : a.type Γ with
    | none => rw [ha] at ht; simp at ht
    | some s =>
      rw [ha, Option.bind_some] at ht
      split at ht <;> simp at ht
      subst ht
      rw [Num.tree, treeV, type_num inl Γ tenv henv a hl s ha]
      rfl
  | .op o a b =>
    rw [Num.Lits] at hl
    rw [Num.type] at ht
    cases ha : a.type Γ with
    | none => rw [ha] at ht; simp at ht
    | some s =>
      cases hb : b.type Γ with
      | none => rw [ha, hb] at ht; simp at ht
      | some u =>
        rw [ha, hb] at ht
        simp only [Option.bind_some, Option.map_some, Option.some.injEq] at ht
        subst ht
        rw [Num.tree, treeV, type_num inl Γ tenv henv a hl.1 s ha, type_num inl Γ tenv henv b hl.2 u hb]
        show ((meet ints (.int s) (.int u)).bind fun c => (castable ints (.int s) c).bind fun _ => (castable ints (.int u) c).bind fun _ => (ints.binOp o.sign c).map (·.1)) = _
        rw [meet_int]
        simp only [Option.bind_some, castable_int, binOp_arith, arith_type]
  | .pick c a b =>
    rw [Num.Lits] at hl
    rw [Num.type] at ht
    cases hc : c.typed Γ with
    | false => rw [hc] at ht; simp at ht
    | true =>
      rw [hc] at ht
      cases ha : a.type Γ with
      | none => rw [ha] at ht; simp at ht
      | some s =>
        cases hb : b.type Γ with
        | none => rw [ha, hb] at ht; simp at ht
        | some u =>
          rw [ha, hb] at ht
          simp only [if_true, Option.bind_some, Option.map_some, Option.some.injEq] at ht
          subst ht
          rw [Num.tree, treeV, type_cond inl Γ tenv henv c hl.1 hc, type_num inl Γ tenv henv a hl.2.1 s ha, type_num inl Γ tenv henv b hl.2.2 u hb]
          show (if ints.isBit .bit = true then (meet ints (.int s) (.int u)).bind fun c => (castable ints (.int s) c).bind fun _ => (castable ints (.int u) c).map fun _ => c else none) = _
          rw [meet_int]
          simp only [Option.bind_some, castable_int]
          rfl
theorem type_cond (inl : Inline) (Γ : Name → Option IntTy) (tenv : Name → Option PTy) (henv : TypesOk Γ tenv) (p : Cond) (hl : p.Lits) (ht : p.typed Γ = true) :
    treeV inl (tySem ints tenv) p.tree = some .bit := by
  match p with
  | .const b => rw [Cond.tree, treeV, evalO]; rfl
  | .rel o a b =>
    rw [Cond.Lits] at hl
    rw [Cond.typed] at ht
    cases ha : a.type Γ with
    | none => rw [ha] at ht; simp at ht
    | some s =>
      cases hb : b.type Γ with
      | none => rw [ha, hb] at ht; simp at ht
      | some u =>
        rw [Cond.tree, treeV, type_num inl Γ tenv henv a hl.1 s ha, type_num inl Γ tenv henv b hl.2 u hb]
        show ((meet ints (.int s) (.int u)).bind fun c => (castable ints (.int s) c).bind fun _ => (castable ints (.int u) c).bind fun _ => (ints.binOp o.sign c).map (·.1)) = _
        rw [meet_int]
        simp only [Option.bind_some, castable_int, binOp_rel, rel_type]
  | .and a b =>
    rw [Cond.Lits] at hl
    rw [Cond.typed, Bool.and_eq_true] at ht
    rw [Cond.tree, treeV, type_cond inl Γ tenv henv a hl.1 ht.1, type_cond inl Γ tenv henv b hl.2 ht.2]
    rfl
  | .or a b =>
    rw [Cond.Lits] at hl
    rw [Cond.typed, Bool.and_eq_true] at ht
    rw [Cond.tree, treeV, type_cond inl Γ tenv henv a hl.1 ht.1, type_cond inl Γ tenv henv b hl.2 ht.2]
    rfl
  | .not a =>
    rw [Cond.Lits] at hl
    rw [Cond.typed] at ht
    rw [Cond.tree, treeV, type_cond inl Γ tenv henv a hl ht]
    rfl
end

theorem vBin_arith (o : Arith) (s t : IntTy) : vBin o.sign (.int s) (.int t) = some (.int (wider s t)) := by
  rw [wider_eq]; cases o <;> rfl
theorem vBin_rel (o : Rel) (s t : IntTy) : vBin o.sign (.int s) (.int t) = some .bit := by cases o <;> rfl
theorem vSel_int (s t : IntTy) : vSel .bit (.int s) (.int t) = some (.int t) := by simp [vSel, normT]

/-- What validation says about an expression of the given type: it accepts what has a type, and knows the type unless a `? :` with branches of different types is in the way. -/
def PredNum (Γ : Name → Option IntTy) (tenv : Name → Option PTy) (even : Prop) (pr : Option PTy) : Option IntTy → Prop
  | some t => ∃ u, pr = some (.int u) ∧ (even → u = t)
  | none => (∀ x, Γ x = none → tenv x = none) → pr = none
def PredCond (Γ : Name → Option IntTy) (tenv : Name → Option PTy) (pr : Option PTy) : Bool → Prop
  | true => pr = some .bit
  | false => (∀ x, Γ x = none → tenv x = none) → pr = none

theorem pred_logic {Γ : Name → Option IntTy} {tenv : Name → Option PTy} {pa pb : Option PTy} {ta tb : Bool} (op : BinOp) (ho : op = .and ∨ op = .or) (ha : PredCond Γ tenv pa ta) (hb : PredCond Γ tenv pb tb) :
    PredCond Γ tenv (pa.bind fun x => pb.bind fun y => vBin op x y) (ta && tb) := by
  cases ta with
  | false => exact fun hx => by rw [ha hx]; rfl
  | true =>
    cases tb with
    | false => exact fun hx => by rw [hb hx]; cases pa <;> rfl
    | true =>
      have h1 : pa = some .bit := ha
      have h2 : pb = some .bit := hb
      rw [h1, h2]
      rcases ho with rfl | rfl <;> rfl

mutual
theorem pred_num (inl : Inline) (Γ : Name → Option IntTy) (tenv : Name → Option PTy) (henv : TypesOk Γ tenv) (p : Num) (hl : p.Lits) (hv : p.Level Γ) :
    PredNum Γ tenv (p.Even Γ) (treeV inl (vSem tenv) p.tree) (p.type Γ) := by
  match p with
  | .lit ds s =>
    rw [Num.Lits] at hl
    rw [Num.tree, treeV, evalO]
    show PredNum Γ tenv _ ((constant (litText ds s)).map (·.1)) _
    rw [constant_lit ds s hl.1 hl.2.1 hl.2.2]
    cases s <;> exact ⟨_, rfl, fun _ => rfl⟩
  | .arg x =>
    rw [Num.type, Num.tree, treeV, evalO]
    show PredNum Γ tenv _ (tenv x) _
    cases hx : Γ x with
    | none => exact fun h => h x hx
    | some t => exact ⟨t, henv x t hx, fun _ => rfl⟩
  | .neg a =>
    rw [Num.Lits] at hl
    rw [Num.Level] at hv
    have h := pred_num inl Γ tenv henv a hl hv.1
    rw [Num.type, Num.tree, treeV]
    cases ha : a.type Γ with
    | none => rw [ha] at h; exact fun hx => by rw [h hx]; rfl
    | some s =>
      rw [ha] at h
      obtain ⟨u, h1, h2⟩ := h
      rw [h1, h2 hv.2]
      cases hs : s.signed with
      | true => simp only [Option.bind_some, hs, if_true]; exact ⟨s, by simp [vSem, vUn, hs], fun _ => rfl⟩
      | false => simp only [Option.bind_some, hs]; exact fun _ => by simp [vSem, vUn, hs]
  | .op o a b =>
    rw [Num.Lits] at hl
    rw [Num.Level] at hv
    have h1 := pred_num inl Γ tenv henv a hl.1 hv.1
    have h2 := pred_num inl Γ tenv henv b hl.2 hv.2
    rw [Num.type, Num.tree, treeV]
    cases ha : a.type Γ with
    | none => rw [ha] at h1; exact fun hx => by rw [h1 hx]; rfl
    | some s =>
      cases hb : b.type Γ with
      | none => rw [hb] at h2; exact fun hx => by rw [h2 hx]; cases treeV inl (vSem tenv) a.tree <;> rfl
      | some t =>
        rw [ha] at h1
        rw [hb] at h2
        obtain ⟨u, e1, f1⟩ := h1
        obtain ⟨v, e2, f2⟩ := h2
        rw [e1, e2]
        refine ⟨wider u v, vBin_arith o u v, fun he => ?_⟩
        rw [Num.Even] at he
        rw [f1 he.1, f2 he.2]
  | .pick c a b =>
    rw [Num.Lits] at hl
    rw [Num.Level] at hv
    have h0 := pred_cond inl Γ tenv henv c hl.1 hv.1
    have h1 := pred_num inl Γ tenv henv a hl.2.1 hv.2.1
    have h2 := pred_num inl Γ tenv henv b hl.2.2 hv.2.2
    rw [Num.type, Num.tree, treeV]
    cases hc : c.typed Γ with
    | false => rw [hc] at h0; exact fun hx => by rw [h0 hx]; rfl
    | true =>
      rw [hc] at h0
      rw [show treeV inl (vSem tenv) c.tree = some .bit from h0]
      cases ha : a.type Γ with
      | none => rw [ha] at h1; exact fun hx => by rw [h1 hx]; rfl
      | some s =>
        cases hb : b.type Γ with
        | none => rw [hb] at h2; exact fun hx => by rw [h2 hx]; cases treeV inl (vSem tenv) a.tree <;> rfl
        | some t =>
          rw [ha] at h1
          rw [hb] at h2
          obtain ⟨u, e1, f1⟩ := h1
          obtain ⟨v, e2, f2⟩ := h2
          rw [e1, e2]
          refine ⟨v, vSel_int u v, fun he => ?_⟩
          rw [Num.Even, ha, hb] at he
          have := Option.some.inj he.2.2
          subst this
          rw [f2 he.2.1]
          show s = wider s s
          cases s <;> rfl
theorem pred_cond (inl : Inline) (Γ : Name → Option IntTy) (tenv : Name → Option PTy) (henv : TypesOk Γ tenv) (p : Cond) (hl : p.Lits) (hv : p.Level Γ) :
    PredCond Γ tenv (treeV inl (vSem tenv) p.tree) (p.typed Γ) := by
  match p with
  | .const b => rw [Cond.tree, treeV, evalO, Cond.typed]; rfl
  | .rel o a b =>
    rw [Cond.Lits] at hl
    rw [Cond.Level] at hv
    have h1 := pred_num inl Γ tenv henv a hl.1 hv.1
    have h2 := pred_num inl Γ tenv henv b hl.2 hv.2
    rw [Cond.typed, Cond.tree, treeV]
    cases ha : a.type Γ with
    | none => rw [ha] at h1; exact fun hx => by rw [h1 hx]; rfl
    | some s =>
      cases hb : b.type Γ with
      | none => rw [hb] at h2; exact fun hx => by rw [h2 hx]; cases treeV inl (vSem tenv) a.tree <;> rfl
      | some t =>
        rw [ha] at h1
        rw [hb] at h2
        obtain ⟨u, e1, f1⟩ := h1
        obtain ⟨v, e2, f2⟩ := h2
        rw [e1, e2]
        exact vBin_rel o u v
  | .and a b =>
    rw [Cond.Lits] at hl
    rw [Cond.Level] at hv
    rw [Cond.tree, treeV, Cond.typed]
    exact pred_logic .and (.inl rfl) (pred_cond inl Γ tenv henv a hl.1 hv.1) (pred_cond inl Γ tenv henv b hl.2 hv.2)
  | .or a b =>
    rw [Cond.Lits] at hl
    rw [Cond.Level] at hv
    rw [Cond.tree, treeV, Cond.typed]
    exact pred_logic .or (.inr rfl) (pred_cond inl Γ tenv henv a hl.1 hv.1) (pred_cond inl Γ tenv henv b hl.2 hv.2)
  | .not a =>
    rw [Cond.Lits] at hl
    rw [Cond.Level] at hv
    have h := pred_cond inl Γ tenv henv a hl hv
    rw [Cond.tree, treeV, Cond.typed]
    cases ha : a.typed Γ with
    | false => rw [ha] at h; exact fun hx => by rw [h hx]; rfl
    | true => rw [ha] at h; rw [show treeV inl (vSem tenv) a.tree = some .bit from h]; rfl
end

/-! ## Lemmas: values -/

mutual
theorem safe_guarded_num (p : Num) (h : p.Safe) : p.Guarded := by
  match p with
  | .lit _ _ => simp [Num.Guarded]
  | .arg _ => simp [Num.Guarded]
  | .neg a => rw [Num.Safe] at h; rw [Num.Guarded]; exact safe_guarded_num a h
  | .op _ a b => rw [Num.Safe] at h; rw [Num.Guarded]; exact ⟨safe_guarded_num a h.1, safe_guarded_num b h.2.1⟩
  | .pick c a b => rw [Num.Safe] at h; rw [Num.Guarded]; exact ⟨safe_guarded_cond c h.1, h.2⟩
theorem safe_guarded_cond (p : Cond) (h : p.Safe) : p.Guarded := by
  match p with
  | .const _ => simp [Cond.Guarded]
  | .rel _ a b => rw [Cond.Safe] at h; rw [Cond.Guarded]; exact ⟨safe_guarded_num a h.1, safe_guarded_num b h.2⟩
  | .and a b => rw [Cond.Safe] at h; rw [Cond.Guarded]; exact ⟨safe_guarded_cond a h.1, h.2⟩
  | .or a b => rw [Cond.Safe] at h; rw [Cond.Guarded]; exact ⟨safe_guarded_cond a h.1, h.2⟩
  | .not a => rw [Cond.Safe] at h; rw [Cond.Guarded]; exact safe_guarded_cond a h
end

theorem small_fits (t : IntTy) (n : Int) (h1 : 1 ≤ n) (h2 : n ≤ 127) : IntOps.Fits t n := by
  have : IntOps.lo t ≤ 0 ∧ 127 ≤ IntOps.hi t := by cases t <;> decide
  exact ⟨by omega, by omega⟩

theorem calc_safe (o : Arith) (t : IntTy) (x y : Int) (h : o = .div ∨ o = .mod → y ≠ 0 ∧ y ≠ -1) : ∃ z, o.calc t x y = some z := by
  cases o <;> simp only [Arith.calc] <;> first | exact ⟨_, rfl⟩ | skip
  · have := h (.inl rfl); rw [if_neg (by omega)]; exact ⟨_, rfl⟩
  · have := h (.inr rfl); rw [if_neg (by omega)]; exact ⟨_, rfl⟩

mutual
theorem safe_num (Γ : Name → Option IntTy) (ρ : Name → Int) (p : Num) (h : p.Safe) (t : IntTy) (ht : p.type Γ = some t) : ∃ z, p.value Γ ρ = some z := by
  match p with
  | .lit ds none => exact ⟨_, by rw [Num.value]⟩
  | .lit ds (some t) => exact ⟨_, by rw [Num.value]⟩
  | .arg x => exact ⟨_, by rw [Num.value]⟩
  | .neg a =>
    rw [Num.Safe] at h
    rw [Num.type] at ht
    rw [Num.value]
    cases ha : a.type Γ with
    | none => rw [ha] at ht; simp at ht
    | some s =>
      obtain ⟨z, hz⟩ := safe_num Γ ρ a h s ha
      rw [hz]; exact ⟨_, rfl⟩
  | .op o a b =>
    rw [Num.Safe] at h
    rw [Num.type] at ht
    rw [Num.value]
    cases ha : a.type Γ with
    | none => rw [ha] at ht; simp at ht
    | some s =>
      cases hb : b.type Γ with
      | none => rw [ha, hb] at ht; simp at ht
      | some u =>
        obtain ⟨x, hx⟩ := safe_num Γ ρ a h.1 s ha
        obtain ⟨y, hy⟩ := safe_num Γ ρ b h.2.1 u hb
        rw [hx, hy]
        simp only [Option.bind_some]
        refine calc_safe _ _ _ _ fun ho => ?_
        have hd := h.2.2 ho
        cases b with
        | lit ds sf =>
          cases sf with
          | none =>
            rw [Num.SmallDivisor] at hd
            rw [Num.value] at hy
            injection hy with hy
            rw [← hy, wrap_self (small_fits _ _ (by omega) (by omega))]
            omega
          | some _ => simp [Num.SmallDivisor] at hd
        | _ => simp [Num.SmallDivisor] at hd
  | .pick c a b =>
    rw [Num.Safe] at h
    rw [Num.type] at ht
    rw [Num.value]
    cases hc : c.typed Γ with
    | false => rw [hc] at ht; simp at ht
    | true =>
      rw [hc] at ht
      simp only [if_true] at ht
      cases ha : a.type Γ with
      | none => rw [ha] at ht; simp at ht
      | some s =>
        cases hb : b.type Γ with
        | none => rw [ha, hb] at ht; simp at ht
        | some u =>
          obtain ⟨x, hx⟩ := safe_num Γ ρ a h.2.1 s ha
          obtain ⟨y, hy⟩ := safe_num Γ ρ b h.2.2 u hb
          obtain ⟨z, hz⟩ := safe_cond Γ ρ c h.1 hc
          rw [hx, hy, hz]
          simp only [Option.bind_some]
          cases z <;> exact ⟨_, rfl⟩
theorem safe_cond (Γ : Name → Option IntTy) (ρ : Name → Int) (p : Cond) (h : p.Safe) (ht : p.typed Γ = true) : ∃ z, p.value Γ ρ = some z := by
  match p with
  | .const b => exact ⟨_, by rw [Cond.value]⟩
  | .rel o a b =>
    rw [Cond.Safe] at h
    rw [Cond.typed] at ht
    rw [Cond.value]
    cases ha : a.type Γ with
    | none => rw [ha] at ht; simp at ht
    | some s =>
      cases hb : b.type Γ with
      | none => rw [ha, hb] at ht; simp at ht
      | some u =>
        obtain ⟨x, hx⟩ := safe_num Γ ρ a h.1 s ha
        obtain ⟨y, hy⟩ := safe_num Γ ρ b h.2 u hb
        rw [hx, hy]; exact ⟨_, rfl⟩
  | .and a b =>
    rw [Cond.Safe] at h
    rw [Cond.typed] at ht
    rw [Cond.value]
    simp only [Bool.and_eq_true] at ht
    obtain ⟨x, hx⟩ := safe_cond Γ ρ a h.1 ht.1
    obtain ⟨y, hy⟩ := safe_cond Γ ρ b h.2 ht.2
    rw [hx, hy]; cases x <;> exact ⟨_, rfl⟩
  | .or a b =>
    rw [Cond.Safe] at h
    rw [Cond.typed] at ht
    rw [Cond.value]
    simp only [Bool.and_eq_true] at ht
    obtain ⟨x, hx⟩ := safe_cond Γ ρ a h.1 ht.1
    obtain ⟨y, hy⟩ := safe_cond Γ ρ b h.2 ht.2
    rw [hx, hy]; cases x <;> exact ⟨_, rfl⟩
  | .not a =>
    rw [Cond.Safe] at h
    rw [Cond.typed] at ht
    rw [Cond.value]
    obtain ⟨x, hx⟩ := safe_cond Γ ρ a h ht
    rw [hx]; exact ⟨_, rfl⟩
end

theorem castTV_int (a b : IntTy) (x : Int) (hx : IntOps.Fits a x) : castTV ints (.int b) (.int a, x) = some (wrap b x) := by
  unfold castTV
  split
  · next h => injection h with h; subst h; rw [wrap_self hx]
  · show some (IntOps.val b (IntOps.cast a b (pat a x))) = _
    rw [cast_wrap a b x hx]

theorem arithTV (o : Arith) (s t : IntTy) (x y : Int) (hx : IntOps.Fits s x) (hy : IntOps.Fits t y) :
    binTV ints o.sign (.int s, x) (.int t, y) = (o.calc (wider s t) (wrap (wider s t) x) (wrap (wider s t) y)).map fun z => (.int (wider s t), z) := by
  unfold binTV
  rw [meet_int]
  simp only [Option.bind_some]
  rw [castTV_int _ _ _ hx, castTV_int _ _ _ hy]
  simp only [Option.bind_some, binOp_arith]
  obtain ⟨p, h1, h2⟩ := arith_calc o (wider s t) _ _ (wrap_fits (wider s t) x) (wrap_fits (wider s t) y)
  simp only [binT, binInt, h1, Option.bind_some]
  rw [h2]

theorem relTV (o : Rel) (s t : IntTy) (x y : Int) (hx : IntOps.Fits s x) (hy : IntOps.Fits t y) :
    binTV ints o.sign (.int s, x) (.int t, y) = some (.bit, bit (o.holds (wrap (wider s t) x) (wrap (wider s t) y))) := by
  unfold binTV
  rw [meet_int]
  simp only [Option.bind_some]
  rw [castTV_int _ _ _ hx, castTV_int _ _ _ hy]
  simp only [Option.bind_some, binOp_rel]
  obtain ⟨p, h1, h2, h3⟩ := compare_holds o (wider s t) _ _ (wrap_fits (wider s t) x) (wrap_fits (wider s t) y)
  simp only [binT, binInt, h1, h2, Option.map_some, Option.bind_some, h3]

theorem truth_bit (b : Bool) : ints.truth (bit b) = b := by cases b <;> rfl

theorem andTV (a b : Bool) : binTV ints .and (.bit, bit a) (.bit, bit b) = some (.bit, bit (a && b)) := by cases a <;> cases b <;> rfl
theorem orTV (a b : Bool) : binTV ints .or (.bit, bit a) (.bit, bit b) = some (.bit, bit (a || b)) := by cases a <;> cases b <;> rfl
theorem notTV (a : Bool) : unTV ints .not (.bit, bit a) = some (.bit, bit (!a)) := by cases a <;> rfl

theorem pickTV (z : Bool) (s t : IntTy) (x y : Int) (hx : IntOps.Fits s x) (hy : IntOps.Fits t y) :
    selTV ints (.bit, bit z) (.int s, x) (.int t, y) = some (.int (wider s t), if z = true then wrap (wider s t) x else wrap (wider s t) y) := by
  unfold selTV
  rw [meet_int]
  simp only [Option.bind_some]
  rw [castTV_int _ _ _ hx, castTV_int _ _ _ hy]
  simp only [truth_bit]
  rfl

theorem negTV (t : IntTy) (hs : t.signed = true) (x : Int) (hx : IntOps.Fits t x) : unTV ints .neg (.int t, x) = some (.int t, wrap t (-x)) := by
  have h : IntOps.val t (IntOps.neg t (pat t x)) = wrap t (-x) := by
    refine wrap_unique (IntOps.val_fits _ _) ?_
    have h0 := IntOps.neg_exact t hs (pat t x)
    rw [pat_val, wrap_self hx] at h0
    rw [h0]
    split
    · next he =>
      subst he
      have h2 := IntOps.two_pow t.bits (IntOps.bits_pos t)
      simp only [IntOps.lo, hs, if_true]
      rw [h2]
      have : (- -(2 : Int) ^ (t.bits - 1)) = -(2 : Int) ^ (t.bits - 1) + 2 * 2 ^ (t.bits - 1) * 1 := by omega
      rw [this, Int.add_mul_emod_self_left]
    · rfl
  unfold unTV
  show ((unT .neg (.int t)).bind _) = _
  simp only [unT, if_true, Option.bind_some, h, Option.map_some]

theorem calc_fits (o : Arith) (t : IntTy) (x y z : Int) (hx : IntOps.Fits t x) (hy : IntOps.Fits t y) (h : o.calc t x y = some z) : IntOps.Fits t z := by
  obtain ⟨p, _, h2⟩ := arith_calc o t x y hx hy
  rw [h] at h2
  cases hr : IntOps.arith p t (pat t x) (pat t y) with
  | none => rw [hr] at h2; simp at h2
  | some r =>
    rw [hr] at h2
    simp only [Option.map_some, Option.some.injEq] at h2
    rw [← h2]
    exact IntOps.val_fits t r

/-- Values of arguments fit into their types. -/
def ArgsFit (Γ : Name → Option IntTy) (ρ : Name → Int) : Prop := ∀ x t, Γ x = some t → IntOps.Fits t (ρ x)

theorem fits_num (Γ : Name → Option IntTy) (ρ : Name → Int) (hf : ArgsFit Γ ρ) (p : Num) (hl : p.Lits) (t : IntTy) (ht : p.type Γ = some t) (z : Int) (hz : p.value Γ ρ = some z) :
    IntOps.Fits t z := by
  match p with
  | .lit ds none =>
    rw [Num.Lits] at hl
    rw [Num.type] at ht
    rw [Num.value] at hz
    injection ht with ht
    injection hz with hz
    subst ht hz
    split
    · next h => exact fits_i32 h
    · exact fits_i64 hl.2.2
  | .lit ds (some u) =>
    rw [Num.type] at ht
    rw [Num.value] at hz
    injection ht with ht
    injection hz with hz
    subst ht hz
    exact wrap_fits _ _
  | .arg x =>
    rw [Num.type] at ht
    rw [Num.value] at hz
    injection hz with hz
    subst hz
    exact hf x t ht
  | .neg a =>
    rw [Num.type] at ht
    rw [Num.value] at hz
    cases ha : a.type Γ with
    | none => rw [ha] at ht; simp at ht
    | some s =>
      rw [ha] at ht hz
      simp only [Option.bind_some] at ht hz
      split at ht
      · injection ht with ht
        subst ht
        cases hv : a.value Γ ρ with
        | none => rw [hv] at hz; simp at hz
        | some v => rw [hv] at hz; simp only [Option.map_some, Option.some.injEq] at hz; rw [← hz]; exact wrap_fits _ _
      · simp at ht
  | .op o a b =>
    rw [Num.type] at ht
    rw [Num.value] at hz
    cases ha : a.type Γ with
    | none => rw [ha] at ht; simp at ht
    | some s =>
      cases hb : b.type Γ with
      | none => rw [ha, hb] at ht; simp at ht
      | some u =>
        rw [ha, hb] at ht hz
        simp only [Option.bind_some, Option.map_some, Option.some.injEq] at ht hz
        subst ht
        cases hv : a.value Γ ρ with
        | none => rw [hv] at hz; simp at hz
        | some v =>
          cases hw : b.value Γ ρ with
          | none => rw [hv, hw] at hz; simp at hz
          | some w => rw [hv, hw] at hz; exact calc_fits o _ _ _ z (wrap_fits _ _) (wrap_fits _ _) hz
  | .pick c a b =>
    rw [Num.type] at ht
    rw [Num.value] at hz
    cases ha : a.type Γ with
    | none => rw [ha] at hz; simp at hz
    | some s =>
      cases hb : b.type Γ with
      | none => rw [ha, hb] at hz; simp at hz
      | some u =>
        rw [ha, hb] at ht hz
        split at ht
        · simp only [Option.bind_some, Option.map_some, Option.some.injEq] at ht hz
          subst ht
          cases hv : c.value Γ ρ with
          | none => rw [hv] at hz; simp at hz
          | some v =>
            rw [hv] at hz
            simp only [Option.bind_some] at hz
            split at hz
            · cases hx : a.value Γ ρ with
              | none => rw [hx] at hz; simp at hz
              | some x => rw [hx] at hz; simp only [Option.map_some, Option.some.injEq] at hz; rw [← hz]; exact wrap_fits _ _
            · cases hx : b.value Γ ρ with
              | none => rw [hx] at hz; simp at hz
              | some x => rw [hx] at hz; simp only [Option.map_some, Option.some.injEq] at hz; rw [← hz]; exact wrap_fits _ _
        · simp at ht

/-- The code sees the arguments as the specification does. -/
def EnvOk (Γ : Name → Option IntTy) (ρ : Name → Int) (env : Env PTy Int) : Prop := ∀ x t, Γ x = some t → env x = some (.int t, ρ x)

mutual
theorem value_num (inl : Inline) (Γ : Name → Option IntTy) (ρ : Name → Int) (hf : ArgsFit Γ ρ) (env : Env PTy Int) (he : EnvOk Γ ρ env) (p : Num) (hl : p.Lits) (hg : p.Guarded)
    (t : IntTy) (ht : p.type Γ = some t) : treeM ints inl env p.tree = M.lift ((p.value Γ ρ).map fun z => (.int t, z)) := by
  match p with
  | .lit ds s =>
    rw [Num.Lits] at hl
    rw [Num.tree, treeM, eagerO]
    show M.lift (constant (litText ds s)) = _
    rw [constant_lit ds s hl.1 hl.2.1 hl.2.2]
    cases s <;> rw [Num.type] at ht <;> injection ht with ht <;> subst ht <;> rw [Num.value] <;> rfl
  | .arg x =>
    rw [Num.type] at ht
    rw [Num.tree, treeM, eagerO, he x t ht, Num.value]
    rfl
  | .neg a =>
    rw [Num.Lits] at hl
    rw [Num.Guarded] at hg
    rw [Num.type] at ht
    rw [Num.value, Num.tree, treeM]
    cases ha : a.type Γ with
    | none => rw [ha] at ht; simp at ht
    | some s =>
      rw [ha] at ht
      simp only [Option.bind_some] at ht
      split at ht
      · next hs =>
        injection ht with ht
        subst ht
        rw [value_num inl Γ ρ hf env he a hl hg s ha]
        cases hv : a.value Γ ρ with
        | none => rfl
        | some v =>
          simp only [Option.map_some, M.lift_some, Option.bind_some]
          rw [negTV s hs v (fits_num Γ ρ hf a hl s ha v hv)]
      · simp at ht
  | .op o a b =>
    rw [Num.Lits] at hl
    rw [Num.Guarded] at hg
    rw [Num.type] at ht
    rw [Num.value, Num.tree, treeM]
    cases ha : a.type Γ with
    | none => rw [ha] at ht; simp at ht
    | some s =>
      cases hb : b.type Γ with
      | none => rw [ha, hb] at ht; simp at ht
      | some u =>
        rw [ha, hb] at ht
        simp only [Option.bind_some, Option.map_some, Option.some.injEq] at ht
        subst ht
        rw [value_num inl Γ ρ hf env he a hl.1 hg.1 s ha, value_num inl Γ ρ hf env he b hl.2 hg.2 u hb]
        cases hv : a.value Γ ρ with
        | none => rfl
        | some v =>
          cases hw : b.value Γ ρ with
          | none => rfl
          | some w =>
            simp only [Option.map_some, M.lift_some, Option.bind_some]
            rw [arithTV o s u v w (fits_num Γ ρ hf a hl.1 s ha v hv) (fits_num Γ ρ hf b hl.2 u hb w hw)]
  | .pick c a b =>
    rw [Num.Lits] at hl
    rw [Num.Guarded] at hg
    rw [Num.type] at ht
    rw [Num.value, Num.tree, treeM]
    cases hc : c.typed Γ with
    | false => rw [hc] at ht; simp at ht
    | true =>
      rw [hc] at ht
      simp only [if_true] at ht
      cases ha : a.type Γ with
      | none => rw [ha] at ht; simp at ht
      | some s =>
        cases hb : b.type Γ with
        | none => rw [ha, hb] at ht; simp at ht
        | some u =>
          rw [ha, hb] at ht
          simp only [Option.bind_some, Option.map_some, Option.some.injEq] at ht
          subst ht
          rw [value_cond inl Γ ρ hf env he c hl.1 hg.1 hc, value_num inl Γ ρ hf env he a hl.2.1 (safe_guarded_num a hg.2.1) s ha,
            value_num inl Γ ρ hf env he b hl.2.2 (safe_guarded_num b hg.2.2) u hb]
          obtain ⟨x, hx⟩ := safe_num Γ ρ a hg.2.1 s ha
          obtain ⟨y, hy⟩ := safe_num Γ ρ b hg.2.2 u hb
          rw [hx, hy]
          cases hv : c.value Γ ρ with
          | none => rfl
          | some v =>
            simp only [Option.map_some, M.lift_some, Option.bind_some]
            rw [pickTV v s u x y (fits_num Γ ρ hf a hl.2.1 s ha x hx) (fits_num Γ ρ hf b hl.2.2 u hb y hy)]
            cases v <;> rfl
theorem value_cond (inl : Inline) (Γ : Name → Option IntTy) (ρ : Name → Int) (hf : ArgsFit Γ ρ) (env : Env PTy Int) (he : EnvOk Γ ρ env) (p : Cond) (hl : p.Lits) (hg : p.Guarded)
    (ht : p.typed Γ = true) : treeM ints inl env p.tree = M.lift ((p.value Γ ρ).map fun z => (.bit, bit z)) := by
  match p with
  | .const b => rw [Cond.tree, treeM, eagerO, Cond.value]; rfl
  | .rel o a b =>
    rw [Cond.Lits] at hl
    rw [Cond.Guarded] at hg
    rw [Cond.typed] at ht
    rw [Cond.value, Cond.tree, treeM]
    cases ha : a.type Γ with
    | none => rw [ha] at ht; simp at ht
    | some s =>
      cases hb : b.type Γ with
      | none => rw [ha, hb] at ht; simp at ht
      | some u =>
        rw [value_num inl Γ ρ hf env he a hl.1 hg.1 s ha, value_num inl Γ ρ hf env he b hl.2 hg.2 u hb]
        cases hv : a.value Γ ρ with
        | none => rfl
        | some v =>
          cases hw : b.value Γ ρ with
          | none => rfl
          | some w =>
            simp only [Option.map_some, M.lift_some, Option.bind_some]
            rw [relTV o s u v w (fits_num Γ ρ hf a hl.1 s ha v hv) (fits_num Γ ρ hf b hl.2 u hb w hw)]
  | .and a b =>
    rw [Cond.Lits] at hl
    rw [Cond.Guarded] at hg
    rw [Cond.typed, Bool.and_eq_true] at ht
    rw [Cond.value, Cond.tree, treeM, value_cond inl Γ ρ hf env he a hl.1 hg.1 ht.1, value_cond inl Γ ρ hf env he b hl.2 (safe_guarded_cond b hg.2) ht.2]
    obtain ⟨y, hy⟩ := safe_cond Γ ρ b hg.2 ht.2
    rw [hy]
    cases a.value Γ ρ with
    | none => rfl
    | some x => simp only [Option.map_some, M.lift_some, Option.bind_some]; rw [andTV]; cases x <;> rfl
  | .or a b =>
    rw [Cond.Lits] at hl
    rw [Cond.Guarded] at hg
    rw [Cond.typed, Bool.and_eq_true] at ht
    rw [Cond.value, Cond.tree, treeM, value_cond inl Γ ρ hf env he a hl.1 hg.1 ht.1, value_cond inl Γ ρ hf env he b hl.2 (safe_guarded_cond b hg.2) ht.2]
    obtain ⟨y, hy⟩ := safe_cond Γ ρ b hg.2 ht.2
    rw [hy]
    cases a.value Γ ρ with
    | none => rfl
    | some x => simp only [Option.map_some, M.lift_some, Option.bind_some]; rw [orTV]; cases x <;> rfl
  | .not a =>
    rw [Cond.Lits] at hl
    rw [Cond.Guarded] at hg
    rw [Cond.typed] at ht
    rw [Cond.value, Cond.tree, treeM, value_cond inl Γ ρ hf env he a hl hg ht]
    cases a.value Γ ρ with
    | none => rfl
    | some x => simp only [Option.map_some, M.lift_some]; rw [notTV]
end

/-! ## Lemmas: arguments -/

/-- The declared arguments as the compiler has them. -/
def params (ps : List (Name × IntTy)) : List (Name × PTy) := ps.map fun q => (q.1, .int q.2)

theorem paramVars_none (ps : List (Name × PTy)) (x : Name) (h : x ∉ ps.map (·.1)) : ∀ k, paramVars k ps x = none := by
  induction ps with
  | nil => intro k; rfl
  | cons q ps ih =>
    intro k
    simp only [List.map_cons, List.mem_cons, not_or] at h
    obtain ⟨y, t⟩ := q
    rw [paramVars, ih h.2]
    simp only
    rw [if_neg h.1]

theorem paramVars_typed (ps : List (Name × PTy)) (x : Name) : ∀ k, paramVars k ps x ≠ some none := by
  induction ps with
  | nil => intro k; simp [paramVars]
  | cons q ps ih =>
    intro k
    obtain ⟨y, t⟩ := q
    rw [paramVars]
    cases h : paramVars (k + 1) ps x with
    | some b => simp only; rw [← h]; exact ih _
    | none => simp only; split <;> simp

theorem env_params (x : Name) : ∀ (ps : List (Name × IntTy)) (args : List Int) (k : Nat) (slots : Nat → Int), (ps.map (·.1)).Nodup → args.length = ps.length →
    (∀ i (h : i < args.length), slots (k + i) = args[i]) →
    envOf (paramVars k (params ps)) slots x = (argType ps x).map fun t => (.int t, argValue ps args x) := by
  intro ps
  induction ps with
  | nil => intro args k slots _ _ _; rfl
  | cons q ps ih =>
    intro args k slots hn hl hs
    obtain ⟨y, t⟩ := q
    cases args with
    | nil => simp at hl
    | cons a args =>
      simp only [List.map_cons, List.nodup_cons] at hn
      have hx : paramVars (k + 1) (params ps) y = none := paramVars_none _ _ (by simpa [params] using hn.1) _
      have hstep : params ((y, t) :: ps) = (y, .int t) :: params ps := rfl
      by_cases hxy : x = y
      · subst hxy
        have h0 := hs 0 (by simp)
        have : envOf (paramVars k (params ((x, t) :: ps))) slots x = some (.int t, slots k) := by
          unfold envOf
          rw [hstep, paramVars, hx]
          simp
        rw [this]
        simp only [argType, argValue, List.map_cons, List.zip_cons_cons, List.lookup_cons, beq_self_eq_true]
        simp only [Nat.add_zero, List.getElem_cons_zero] at h0
        rw [h0]; rfl
      · have : envOf (paramVars k (params ((y, t) :: ps))) slots x = envOf (paramVars (k + 1) (params ps)) slots x := by
          unfold envOf
          rw [hstep, paramVars]
          cases hp : paramVars (k + 1) (params ps) x with
          | none => simp [hxy]
          | some b => rfl
        rw [this, ih args (k + 1) slots hn.2 (by simpa using hl) (fun i hi => by
          have := hs (i + 1) (by simpa using hi)
          rw [List.getElem_cons_succ] at this
          rw [← this]; congr 1; omega)]
        have hb : (x == y) = false := by simpa using hxy
        simp only [argType, argValue, List.map_cons, List.zip_cons_cons, List.lookup_cons, hb]

theorem tenv_params (x : Name) (ps : List (Name × IntTy)) (hn : (ps.map (·.1)).Nodup) : tenvOf (paramVars 0 (params ps)) x = (argType ps x).map .int := by
  have h := env_params x ps (ps.map fun _ => 0) 0 (fun i => (ps.map fun _ => (0 : Int)).getD i 0) hn (by simp) (fun i h => by simp at h; simp [h])
  unfold envOf at h
  unfold tenvOf
  cases hp : paramVars 0 (params ps) x with
  | none => rw [hp] at h; simp only at h ⊢; cases hq : argType ps x with
    | none => rfl
    | some t => rw [hq] at h; simp at h
  | some b =>
    rw [hp] at h
    cases b with
    | none => exact absurd hp (paramVars_typed _ _ _)
    | some b => simp only at h ⊢; cases hq : argType ps x with
      | none => rw [hq] at h; simp at h
      | some t => rw [hq] at h; simp only [Option.map_some, Option.some.injEq, Prod.mk.injEq] at h; simp [h.1]

theorem args_fit (ps : List (Name × IntTy)) (args : List Int) (h : Passed ps args) : ArgsFit (argType ps) (argValue ps args) := by
  intro x t ht
  induction ps generalizing args with
  | nil => simp [argType] at ht
  | cons q ps ih =>
    cases args with
    | nil => simp [Passed] at h
    | cons z args =>
      rw [Passed] at h
      obtain ⟨y, u⟩ := q
      by_cases hxy : x = y
      · subst hxy
        simp only [argType, List.lookup_cons, beq_self_eq_true, Option.some.injEq] at ht
        subst ht
        simpa only [argValue, List.map_cons, List.zip_cons_cons, List.lookup_cons, beq_self_eq_true, Option.getD_some] using h.1
      · have hb : (x == y) = false := by simpa using hxy
        simp only [argType, List.lookup_cons, hb] at ht
        have := ih args h.2 ht
        simpa only [argValue, List.map_cons, List.zip_cons_cons, List.lookup_cons, hb] using this

theorem passed_length : ∀ (ps : List (Name × IntTy)) (args : List Int), Passed ps args → args.length = ps.length
  | [], [], _ => rfl
  | q :: ps, z :: args, h => by rw [Passed] at h; simp [passed_length ps args h.2]
  | [], _ :: _, h => by simp [Passed] at h
  | _ :: _, [], h => by simp [Passed] at h

/-! ## The whole way -/

theorem compile_run (cfg : Cfg) (inl : Inline) (ps : List (Name × IntTy)) (hn : (ps.map (·.1)).Nodup) (ret : PTy) (t : Tree) (hsim : Tree.Simple t) (src : List Char) (hs : Reads cfg src t) :
    match (treeV inl (vSem (tenvOf (paramVars 0 (params ps)))) t).bind fun _ => (treeV inl (tySem ints (tenvOf (paramVars 0 (params ps)))) t).bind fun u => castable ints u ret with
    | none => compile cfg inl (params ps) ret src = none
    | some _ => ∃ code, compile cfg inl (params ps) ret src = some code ∧ ∀ args junk, args.length = ps.length →
      call code junk args = match (treeM ints inl (envOf (paramVars 0 (params ps)) fun i => args.getD i (junk i)) t).andThen (fun v => M.lift (castTV ints ret v)) () with
        | none => .undefined
        | some r => .value r.2 := by
  obtain ⟨e, rest, h1, h2⟩ := hs
  subst h2
  have hp := plain_tree inl e hsim
  have hv : ∀ n, varsE e n → paramVars 0 (params ps) n ≠ some none := fun n _ => paramVars_typed _ _ _
  have hty : TyS (paramVars 0 (params ps)) (((gExpr ints inl e).andThen ld).andThen (castTo ints ret)) (((tyE ints inl (tenvOf (paramVars 0 (params ps))) e).bind some).bind fun u => castable ints u ret)
      (fun _ _ => True) :=
    TyS.bind (TyS.bind (ty_gExpr (rt := ints) inl e hp hv) fun a b hab => ty_ld hab) fun a b hab => by rw [← hab]; exact ty_castTo (rt := ints) ret a
  have h3 := hty ⟨0, (params ps).length, paramVars 0 (params ps)⟩ rfl
  have e1 : tyE ints inl (tenvOf (paramVars 0 (params ps))) e = treeV inl (tySem ints (tenvOf (paramVars 0 (params ps)))) e.toTree := eval_tree inl _ e
  rw [e1] at h3
  have e2 : ∀ o : Option PTy, o.bind some = o := by intro o; cases o <;> rfl
  rw [e2] at h3
  unfold compile
  rw [h1]
  simp only
  rw [show evalE inl (vSem (tenvOf (paramVars 0 (params ps)))) e = treeV inl (vSem (tenvOf (paramVars 0 (params ps)))) e.toTree from eval_tree inl _ e]
  cases treeV inl (vSem (tenvOf (paramVars 0 (params ps)))) e.toTree with
  | none => rfl
  | some w =>
  simp only [Option.bind_some]
  cases hq : (treeV inl (tySem ints (tenvOf (paramVars 0 (params ps)))) e.toTree).bind fun u => castable ints u ret with
  | none => rw [hq] at h3; simp only at h3 ⊢; rw [h3]; rfl
  | some u =>
    rw [hq] at h3
    simp only at h3 ⊢
    obtain ⟨o, is, cs', hg, _⟩ := h3
    refine ⟨(is, o), by rw [hg]; rfl, fun args junk hlen => ?_⟩
    have hsm : Sim ints (paramVars 0 (params ps)) (fun i => args.getD i (junk i)) [] (((gExpr ints inl e).andThen ld).andThen (castTo ints ret))
        (((eagerE ints inl (envOf (paramVars 0 (params ps)) fun i => args.getD i (junk i)) e).andThen M.ret).andThen fun v => M.lift (castTV ints ret v)) (fun r o u => opdAt r o = some u) :=
      Sim.bind (Sim.bind (sim_gExpr (rt := ints) inl e hp hv []) (stat_gExpr (rt := ints) inl e hp hv) fun ext a b hd => sim_ld hd) ((stat_gExpr (rt := ints) inl e hp hv).bind fun _ => stat_ld _)
        fun ext a b hd => sim_castTo ret hd
    have h5 := hsm ⟨0, (params ps).length, paramVars 0 (params ps)⟩ rfl rfl o is cs' hg ()
    rw [M.then_ret, eager_tree] at h5
    unfold call
    simp only
    cases hm : (treeM ints inl (envOf (paramVars 0 (params ps)) fun i => args.getD i (junk i)) e.toTree).andThen (fun v => M.lift (castTV ints ret v)) () with
    | none => rw [hm] at h5; simp only at h5 ⊢; rw [h5]
    | some r =>
      rw [hm] at h5
      obtain ⟨ext, h6, _, h7⟩ := h5
      simp only
      rw [h6]
      simp only [opd_at]
      rw [h7]

theorem env_ok (ps : List (Name × IntTy)) (hn : (ps.map (·.1)).Nodup) (args : List Int) (junk : Nat → Int) (hl : args.length = ps.length) :
    EnvOk (argType ps) (argValue ps args) (envOf (paramVars 0 (params ps)) fun i => args.getD i (junk i)) :=
  fun x t ht => by rw [env_params x ps args 0 _ hn hl fun i h => by simp [h], ht]; rfl

/-! ## Lemmas: ordinary arithmetic -/

theorem calc_math (o : Arith) (t : IntTy) (x y z : Int) (hm : o.math x y = some z) (hx : IntOps.Fits t x) (hy : IntOps.Fits t y) (hz : IntOps.Fits t z)
    (hq : o = .mod → IntOps.Fits t (x.tdiv y)) : o.calc t x y = some z := by
  have hov : IntOps.Fits t (x.tdiv y) → ¬ (t.signed = true ∧ x = -2 ^ (t.bits - 1) ∧ y = -1) := by
    rintro hf ⟨hs, rfl, rfl⟩
    have hp : (0 : Int) < 2 ^ (t.bits - 1) := Int.pow_pos (by decide)
    unfold IntOps.Fits IntOps.hi at hf
    simp only [hs, if_true] at hf
    have e : (-(2 : Int) ^ (t.bits - 1)).tdiv (-1) = 2 ^ (t.bits - 1) := by simp
    rw [e] at hf
    omega
  cases o with
  | add => simp only [Arith.math, Option.some.injEq] at hm; subst hm; simp only [Arith.calc]; rw [wrap_self hz]
  | sub => simp only [Arith.math, Option.some.injEq] at hm; subst hm; simp only [Arith.calc]; rw [wrap_self hz]
  | mul => simp only [Arith.math, Option.some.injEq] at hm; subst hm; simp only [Arith.calc]; rw [wrap_self hz]
  | div =>
    simp only [Arith.math] at hm
    split at hm
    · simp at hm
    · next h0 =>
      simp only [Option.some.injEq] at hm
      subst hm
      simp only [Arith.calc]
      rw [if_neg (not_or.2 ⟨h0, hov hz⟩)]
  | mod =>
    simp only [Arith.math] at hm
    split at hm
    · simp at hm
    · next h0 =>
      simp only [Option.some.injEq] at hm
      subst hm
      simp only [Arith.calc]
      rw [if_neg (not_or.2 ⟨h0, hov (hq rfl)⟩)]

mutual
theorem math_num (Γ : Name → Option IntTy) (ρ : Name → Int) (p : Num) (t : IntTy) (ht : p.type Γ = some t) (hs : p.Stays Γ ρ) (z : Int) (hz : p.math ρ = some z) :
    p.value Γ ρ = some z := by
  match p with
  | .lit ds none => rw [Num.math] at hz; rw [Num.value]; exact hz
  | .lit ds (some u) => rw [Num.math] at hz; rw [Num.Stays] at hs; rw [Num.value, wrap_self hs]; exact hz
  | .arg x => rw [Num.math] at hz; rw [Num.value]; exact hz
  | .neg a =>
    rw [Num.math] at hz
    rw [Num.Stays] at hs
    rw [Num.type] at ht
    rw [Num.value]
    cases ha : a.type Γ with
    | none => rw [ha] at ht; simp at ht
    | some s =>
      cases hv : a.math ρ with
      | none => rw [hv] at hz; simp at hz
      | some v =>
        rw [hv] at hz
        simp only [Option.map_some, Option.some.injEq] at hz
        rw [math_num Γ ρ a s ha hs.1 v hv]
        simp only [Option.bind_some, Option.map_some]
        rw [wrap_self (hs.2 s v ha hv), hz]
  | .op o a b =>
    rw [Num.math] at hz
    rw [Num.Stays] at hs
    rw [Num.type] at ht
    rw [Num.value]
    cases ha : a.type Γ with
    | none => rw [ha] at ht; simp at ht
    | some s =>
      cases hb : b.type Γ with
      | none => rw [ha, hb] at ht; simp at ht
      | some u =>
        cases hv : a.math ρ with
        | none => rw [hv] at hz; simp at hz
        | some v =>
          cases hw : b.math ρ with
          | none => rw [hv, hw] at hz; simp at hz
          | some w =>
            rw [hv, hw] at hz
            simp only [Option.bind_some] at hz
            obtain ⟨h1, h2, h3, h4⟩ := hs.2.2 s u v w z ha hb hv hw hz
            rw [math_num Γ ρ a s ha hs.1 v hv, math_num Γ ρ b u hb hs.2.1 w hw]
            simp only [Option.bind_some]
            rw [wrap_self h1, wrap_self h2]
            exact calc_math o _ v w z hz h1 h2 h3 h4
  | .pick c a b =>
    rw [Num.math] at hz
    rw [Num.Stays] at hs
    rw [Num.type] at ht
    rw [Num.value]
    cases hc : c.typed Γ with
    | false => rw [hc] at ht; simp at ht
    | true =>
      rw [hc] at ht
      simp only [if_true] at ht
      cases ha : a.type Γ with
      | none => rw [ha] at ht; simp at ht
      | some s =>
        cases hb : b.type Γ with
        | none => rw [ha, hb] at ht; simp at ht
        | some u =>
          cases hv : c.math ρ with
          | none => rw [hv] at hz; simp at hz
          | some v =>
            rw [hv] at hz
            simp only [Option.bind_some] at hz
            rw [math_cond Γ ρ c hc hs.1 v hv]
            simp only [Option.bind_some]
            cases v with
            | true =>
              simp only [if_true] at hz ⊢
              obtain ⟨h1, h2⟩ := hs.2.1 hv
              rw [math_num Γ ρ a s ha h1 z hz, Option.map_some, wrap_self (h2 s u z ha hb hz)]
            | false =>
              simp only [Bool.false_eq_true, if_false] at hz ⊢
              obtain ⟨h1, h2⟩ := hs.2.2 hv
              rw [math_num Γ ρ b u hb h1 z hz, Option.map_some, wrap_self (h2 s u z ha hb hz)]
theorem math_cond (Γ : Name → Option IntTy) (ρ : Name → Int) (p : Cond) (ht : p.typed Γ = true) (hs : p.Stays Γ ρ) (z : Bool) (hz : p.math ρ = some z) : p.value Γ ρ = some z := by
  match p with
  | .const b => rw [Cond.math] at hz; rw [Cond.value]; exact hz
  | .rel o a b =>
    rw [Cond.math] at hz
    rw [Cond.Stays] at hs
    rw [Cond.typed] at ht
    rw [Cond.value]
    cases ha : a.type Γ with
    | none => rw [ha] at ht; simp at ht
    | some s =>
      cases hb : b.type Γ with
      | none => rw [ha, hb] at ht; simp at ht
      | some u =>
        cases hv : a.math ρ with
        | none => rw [hv] at hz; simp at hz
        | some v =>
          cases hw : b.math ρ with
          | none => rw [hv, hw] at hz; simp at hz
          | some w =>
            rw [hv, hw] at hz
            simp only [Option.bind_some, Option.map_some, Option.some.injEq] at hz
            obtain ⟨h1, h2⟩ := hs.2.2 s u v w ha hb hv hw
            rw [math_num Γ ρ a s ha hs.1 v hv, math_num Γ ρ b u hb hs.2.1 w hw]
            simp only [Option.bind_some, Option.map_some]
            rw [wrap_self h1, wrap_self h2, hz]
  | .and a b =>
    rw [Cond.math] at hz
    rw [Cond.Stays] at hs
    rw [Cond.typed, Bool.and_eq_true] at ht
    rw [Cond.value]
    cases hv : a.math ρ with
    | none => rw [hv] at hz; simp at hz
    | some v =>
      rw [hv] at hz
      rw [math_cond Γ ρ a ht.1 hs.1 v hv]
      cases v with
      | true => simp only [Option.bind_some, if_true] at hz ⊢; exact math_cond Γ ρ b ht.2 (hs.2 hv) z hz
      | false => exact hz
  | .or a b =>
    rw [Cond.math] at hz
    rw [Cond.Stays] at hs
    rw [Cond.typed, Bool.and_eq_true] at ht
    rw [Cond.value]
    cases hv : a.math ρ with
    | none => rw [hv] at hz; simp at hz
    | some v =>
      rw [hv] at hz
      rw [math_cond Γ ρ a ht.1 hs.1 v hv]
      cases v with
      | true => exact hz
      | false => simp only [Option.bind_some, Bool.false_eq_true, if_false] at hz ⊢; exact math_cond Γ ρ b ht.2 (hs.2 hv) z hz
  | .not a =>
    rw [Cond.math] at hz
    rw [Cond.Stays] at hs
    rw [Cond.typed] at ht
    rw [Cond.value]
    cases hv : a.math ρ with
    | none => rw [hv] at hz; simp at hz
    | some v => rw [hv] at hz; rw [math_cond Γ ρ a ht hs v hv]; exact hz
end

/-! ## C135 -/

/-- **C135.** An expression for a number, in any text that is read as that expression. If it has no type, nothing is compiled. If it has, it is compiled, and a call with any arguments of the
declared types returns its value converted to the return type; it is undefined only where the value is. -/
theorem number_expression (cfg : Cfg) (inl : Inline) (ps : List (Name × IntTy)) (hn : (ps.map (·.1)).Nodup) (ret : IntTy) (p : Num) (hl : p.Lits) (hg : p.Guarded) (hv : p.Level (argType ps))
    (src : List Char) (hs : Reads cfg src p.tree) :
    match p.type (argType ps) with
    | none => compile cfg inl (params ps) (.int ret) src = none
    | some _ => ∃ code, compile cfg inl (params ps) (.int ret) src = some code ∧ ∀ args junk, Passed ps args →
      call code junk args = match p.value (argType ps) (argValue ps args) with
        | none => .undefined
        | some z => .value (wrap ret z) := by
  have h := compile_run cfg inl ps hn (.int ret) p.tree (simple_num p) src hs
  have he : TypesOk (argType ps) (tenvOf (paramVars 0 (params ps))) := fun x t hx => (tenv_params x ps hn).trans (by rw [hx]; rfl)
  have hq := pred_num inl (argType ps) _ he p hl hv
  cases ht : p.type (argType ps) with
  | none => rw [ht] at hq; rw [hq fun x hx => (tenv_params x ps hn).trans (by rw [hx]; rfl)] at h; exact h
  | some t =>
    rw [ht] at hq
    obtain ⟨u, hu, _⟩ := hq
    rw [hu, type_num inl (argType ps) _ he p hl t ht] at h
    simp only [Option.bind_some, castable_int] at h
    obtain ⟨code, h1, h2⟩ := h
    refine ⟨code, h1, fun args junk hp => ?_⟩
    have hlen := passed_length ps args hp
    have hf := args_fit ps args hp
    rw [h2 args junk hlen, value_num inl (argType ps) (argValue ps args) hf _ (env_ok ps hn args junk hlen) p hl hg t ht]
    cases hv : p.value (argType ps) (argValue ps args) with
    | none => rfl
    | some z =>
      simp only [Option.map_some, M.lift_some]
      rw [castTV_int t ret z (fits_num _ _ hf p hl t ht z hv)]
      rfl

/-- **C135.** The same for a condition returned as a boolean. -/
theorem condition_expression (cfg : Cfg) (inl : Inline) (ps : List (Name × IntTy)) (hn : (ps.map (·.1)).Nodup) (p : Cond) (hl : p.Lits) (hg : p.Guarded) (hv : p.Level (argType ps))
    (src : List Char) (hs : Reads cfg src p.tree) :
    if p.typed (argType ps) = true then ∃ code, compile cfg inl (params ps) .bit src = some code ∧ ∀ args junk, Passed ps args →
      call code junk args = match p.value (argType ps) (argValue ps args) with
        | none => .undefined
        | some z => .value (if z = true then 1 else 0)
    else compile cfg inl (params ps) .bit src = none := by
  have h := compile_run cfg inl ps hn .bit p.tree (simple_cond p) src hs
  have he : TypesOk (argType ps) (tenvOf (paramVars 0 (params ps))) := fun x t hx => (tenv_params x ps hn).trans (by rw [hx]; rfl)
  have hq := pred_cond inl (argType ps) _ he p hl hv
  cases ht : p.typed (argType ps) with
  | false => rw [ht] at hq; rw [hq fun x hx => (tenv_params x ps hn).trans (by rw [hx]; rfl)] at h; simpa using h
  | true =>
    rw [ht] at hq
    rw [show treeV inl (vSem (tenvOf (paramVars 0 (params ps)))) p.tree = some .bit from hq, type_cond inl (argType ps) _ he p hl ht] at h
    have hc : castable ints .bit .bit = some () := rfl
    simp only [if_true, Option.bind_some, hc] at h ⊢
    obtain ⟨code, h1, h2⟩ := h
    refine ⟨code, h1, fun args junk hp => ?_⟩
    have hlen := passed_length ps args hp
    have hf := args_fit ps args hp
    rw [h2 args junk hlen, value_cond inl (argType ps) (argValue ps args) hf _ (env_ok ps hn args junk hlen) p hl hg ht]
    cases hv : p.value (argType ps) (argValue ps args) with
    | none => rfl
    | some z => rfl

/-- **C135.** If nothing overflows, the call returns the number the expression has in ordinary arithmetic. -/
theorem number_exact (cfg : Cfg) (inl : Inline) (ps : List (Name × IntTy)) (hn : (ps.map (·.1)).Nodup) (ret : IntTy) (p : Num) (hl : p.Lits) (hg : p.Guarded) (hv : p.Level (argType ps))
    (src : List Char) (hs : Reads cfg src p.tree) (t : IntTy) (ht : p.type (argType ps) = some t) :
    ∃ code, compile cfg inl (params ps) (.int ret) src = some code ∧ ∀ args junk, Passed ps args → p.Stays (argType ps) (argValue ps args) →
      ∀ z, p.math (argValue ps args) = some z → IntOps.Fits ret z → call code junk args = .value z := by
  have h := number_expression cfg inl ps hn ret p hl hg hv src hs
  rw [ht] at h
  obtain ⟨code, h1, h2⟩ := h
  refine ⟨code, h1, fun args junk hp hst z hz hf => ?_⟩
  rw [h2 args junk hp, math_num _ _ p t ht hst z hz]
  simp only
  rw [wrap_self hf]

/-- **C135.** If nothing overflows, a condition is answered as in ordinary arithmetic. -/
theorem condition_exact (cfg : Cfg) (inl : Inline) (ps : List (Name × IntTy)) (hn : (ps.map (·.1)).Nodup) (p : Cond) (hl : p.Lits) (hg : p.Guarded) (hv : p.Level (argType ps))
    (src : List Char) (hs : Reads cfg src p.tree) (ht : p.typed (argType ps) = true) :
    ∃ code, compile cfg inl (params ps) .bit src = some code ∧ ∀ args junk, Passed ps args → p.Stays (argType ps) (argValue ps args) →
      ∀ z, p.math (argValue ps args) = some z → call code junk args = .value (if z = true then 1 else 0) := by
  have h := condition_expression cfg inl ps hn p hl hg hv src hs
  rw [ht] at h
  simp only [if_true] at h
  obtain ⟨code, h1, h2⟩ := h
  refine ⟨code, h1, fun args junk hp hst z hz => ?_⟩
  rw [h2 args junk hp, math_cond _ _ p ht hst z hz]

/-! ### Every expression of the language can be written -/

mutual
/-- Arguments have names the grammar admits. -/
def Num.Names (cfg : Cfg) : Num → Prop
  | .lit _ _ => True
  | .arg x => IsName x ∧ validName cfg x = true
  | .neg a => a.Names cfg
  | .op _ a b => a.Names cfg ∧ b.Names cfg
  | .pick c a b => c.Names cfg ∧ a.Names cfg ∧ b.Names cfg
def Cond.Names (cfg : Cfg) : Cond → Prop
  | .const _ => True
  | .rel _ a b => a.Names cfg ∧ b.Names cfg
  | .and a b => a.Names cfg ∧ b.Names cfg
  | .or a b => a.Names cfg ∧ b.Names cfg
  | .not a => a.Names cfg
end

theorem suffix_alnum (t : IntTy) : ∀ c ∈ suffixText t, isAlphaNum c = true := by cases t <;> decide

theorem suffix_known (t : IntTy) : numberSuffixes.contains (suffixText t) = true := by cases t <;> decide

theorem number_text (ds : List Char) (h0 : ds ≠ []) (h : ∀ c ∈ ds, isDigit c = true) (s : Option IntTy) : NumberText (litText ds s) := by
  cases s with
  | none => exact ⟨ds, [], [], by simp [litText], h, .inl rfl, .inl h0, .inl rfl⟩
  | some t => exact ⟨ds, [], '_' :: suffixText t, by simp [litText], h, .inl rfl, .inl h0, .inr ⟨_, rfl, suffix_alnum t⟩⟩

mutual
theorem wf_num (cfg : Cfg) (hr : ∀ ds, decimal ds < 2 ^ 53 → cfg.inRange ds = true) (p : Num) (hl : p.Lits) (hn : p.Names cfg) : p.tree.WF cfg := by
  match p with
  | .lit ds s =>
    rw [Num.Lits] at hl
    rw [Num.tree, Tree.WF, Operand.WF]
    refine ⟨⟨number_text ds hl.1 hl.2.1 s, ?_⟩, by simp⟩
    unfold numberOk
    rw [split_lit ds hl.1 hl.2.1 s]
    cases s with
    | none => exact hr ds hl.2.2
    | some t => simp only [Option.map_some]; rw [suffix_known, hr ds hl.2.2]; rfl
  | .arg x => rw [Num.Names] at hn; rw [Num.tree, Tree.WF, Operand.WF]; exact ⟨hn, by simp⟩
  | .neg a => rw [Num.Lits] at hl; rw [Num.Names] at hn; rw [Num.tree, Tree.WF]; exact wf_num cfg hr a hl hn
  | .op o a b => rw [Num.Lits] at hl; rw [Num.Names] at hn; rw [Num.tree, Tree.WF]; exact ⟨wf_num cfg hr a hl.1 hn.1, wf_num cfg hr b hl.2 hn.2⟩
  | .pick c a b =>
    rw [Num.Lits] at hl; rw [Num.Names] at hn; rw [Num.tree, Tree.WF]
    exact ⟨wf_cond cfg hr c hl.1 hn.1, wf_num cfg hr a hl.2.1 hn.2.1, wf_num cfg hr b hl.2.2 hn.2.2⟩
theorem wf_cond (cfg : Cfg) (hr : ∀ ds, decimal ds < 2 ^ 53 → cfg.inRange ds = true) (p : Cond) (hl : p.Lits) (hn : p.Names cfg) : p.tree.WF cfg := by
  match p with
  | .const b => rw [Cond.tree, Tree.WF, Operand.WF]; exact ⟨trivial, by simp⟩
  | .rel o a b => rw [Cond.Lits] at hl; rw [Cond.Names] at hn; rw [Cond.tree, Tree.WF]; exact ⟨wf_num cfg hr a hl.1 hn.1, wf_num cfg hr b hl.2 hn.2⟩
  | .and a b => rw [Cond.Lits] at hl; rw [Cond.Names] at hn; rw [Cond.tree, Tree.WF]; exact ⟨wf_cond cfg hr a hl.1 hn.1, wf_cond cfg hr b hl.2 hn.2⟩
  | .or a b => rw [Cond.Lits] at hl; rw [Cond.Names] at hn; rw [Cond.tree, Tree.WF]; exact ⟨wf_cond cfg hr a hl.1 hn.1, wf_cond cfg hr b hl.2 hn.2⟩
  | .not a => rw [Cond.Lits] at hl; rw [Cond.Names] at hn; rw [Cond.tree, Tree.WF]; exact wf_cond cfg hr a hl hn
end

/-- **C135.** Every expression of the language has such a text. -/
theorem every_expression_has_text (cfg : Cfg) (hr : ∀ ds, decimal ds < 2 ^ 53 → cfg.inRange ds = true) (p : Num) (hl : p.Lits) (hn : p.Names cfg) : ∃ src, Reads cfg src p.tree := by
  obtain ⟨e, h1, h2⟩ := parse_tree cfg p.tree (wf_num cfg hr p hl hn)
  exact ⟨_, e, [], h1, h2⟩

/-! ### An instance: `a > 0 && b < 100 ? (a + b) * 3 : -a / 2` with a 32-bit and an 8-bit argument -/

def exCfg : Cfg := { isType := fun _ => false, inRange := fun _ => true }
def exArgs : List (Name × IntTy) := [(['a'], .i32), (['b'], .u8)]
def exNum (c : Char) : Num := .lit [c] none
def exPick : Num :=
  .pick (.and (.rel .gt (.arg ['a']) (exNum '0')) (.rel .lt (.arg ['b']) (.lit ['1', '0', '0'] none))) (.op .mul (.op .add (.arg ['a']) (.arg ['b'])) (exNum '3'))
    (.op .div (.neg (.arg ['a'])) (exNum '2'))
def exText : List Char := "a > 0 && b<100 ? (a + b)*3 : -a / 2".toList

theorem ex_lits : exPick.Lits := by
  simp only [exPick, exNum, Num.Lits, Cond.Lits, true_and]
  decide

theorem ex_guarded : exPick.Guarded := by
  simp only [exPick, exNum, Num.Guarded, Cond.Guarded, Num.Safe, Cond.Safe, Num.SmallDivisor, true_and]
  refine ⟨⟨by simp, by simp⟩, fun _ => by decide⟩

theorem ex_level : exPick.Level (argType exArgs) := by
  simp only [exPick, exNum, Num.Level, Cond.Level, Num.Even, and_self]

theorem ex_reads : Reads exCfg exText exPick.tree := by
  have hw : exPick.tree.WF exCfg := by
    refine wf_num exCfg (fun _ _ => rfl) _ ex_lits ?_
    have ha : IsName ['a'] := ⟨⟨'a', [], rfl, by decide, by simp⟩, by decide⟩
    have hb : IsName ['b'] := ⟨⟨'b', [], rfl, by decide, by simp⟩, by decide⟩
    simp only [exPick, exNum, Num.Names, Cond.Names, and_true, ha, hb, true_and]
    decide
  obtain ⟨e, h1, h2⟩ := parse_tree exCfg exPick.tree hw
  have hs : sourceToks exText = sourceToks (writeTokens exPick.tree.toExpr.print) := by decide +kernel
  refine ⟨e, [], ?_, h2⟩
  rw [← h1]
  unfold parseExpression
  rw [hs]

example : exPick.type (argType exArgs) = some .i32 := by decide
example : (exArgs.map (·.1)).Nodup := by decide

/-- `f(4, 5)` is `(4 + 5) * 3`, as 64-bit integer. -/
example : ∃ code, compile exCfg noInl (params exArgs) (.int .i64) exText = some code ∧ ∀ junk, call code junk [4, 5] = .value 27 ∧ call code junk [-7, 5] = .value 3 ∧
    call code junk [2147483647, 99] = .value (-2147483354) := by
  have h := number_expression exCfg noInl exArgs (by decide) .i64 exPick ex_lits ex_guarded ex_level exText ex_reads
  rw [show exPick.type (argType exArgs) = some .i32 from by decide] at h
  obtain ⟨code, h1, h2⟩ := h
  refine ⟨code, h1, fun junk => ⟨?_, ?_, ?_⟩⟩
  · rw [h2 [4, 5] junk (by simp only [exArgs, Passed]; unfold IntOps.Fits; decide +kernel)]; decide +kernel
  · rw [h2 [-7, 5] junk (by simp only [exArgs, Passed]; unfold IntOps.Fits; decide +kernel)]; decide +kernel
  · rw [h2 [2147483647, 99] junk (by simp only [exArgs, Passed]; unfold IntOps.Fits; decide +kernel)]; decide +kernel

/-- Nothing overflows in `a / 2 + b` for 4 and 5. -/
example : (Num.op .add (.op .div (.arg ['a']) (exNum '2')) (.arg ['b'])).Stays (argType exArgs) (argValue exArgs [4, 5]) := by
  simp only [Num.Stays, exNum, true_and]
  refine ⟨?_, ?_⟩ <;> rintro s t x y z hs ht hx hy hz
  · have e1 : s = .i32 := Option.some.inj (hs.symm.trans (by decide))
    have e2 : t = .i32 := Option.some.inj (ht.symm.trans (by decide))
    have e3 : x = 4 := Option.some.inj (hx.symm.trans (by decide))
    have e4 : y = 2 := Option.some.inj (hy.symm.trans (by decide))
    subst e1 e2 e3 e4
    have e5 : z = 2 := Option.some.inj (hz.symm.trans (by decide))
    subst e5
    unfold IntOps.Fits
    decide
  · have e1 : s = .i32 := Option.some.inj (hs.symm.trans (by decide))
    have e2 : t = .u8 := Option.some.inj (ht.symm.trans (by decide))
    have e3 : x = 2 := Option.some.inj (hx.symm.trans (by decide))
    have e4 : y = 5 := Option.some.inj (hy.symm.trans (by decide))
    subst e1 e2 e3 e4
    have e5 : z = 7 := Option.some.inj (hz.symm.trans (by decide))
    subst e5
    unfold IntOps.Fits
    decide

example : exPick.math (argValue exArgs [4, 5]) = some 27 := by decide +kernel

end Verif.Comp.Pipeline
