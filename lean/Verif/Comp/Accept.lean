import Verif.Gen.ScalarProps
/-!
# What validation accepts is compiled, with the predicted types: C141

`/repo/rapidudf/ast/expression.cc` 86–141 (`validate_operand`), 152–186 (variables), 187–213 and 761–855 (calls), 286–337 (`UnaryExpr::Validate`), 360–568 (`BinaryExpr::Validate`),
570–657 (`SelectExpr::Validate`); `/repo/rapidudf/ast/context.cc` 74–92, 135–144 (variables), 146–195 (conversions and functions made known to the code generator);
`/repo/rapidudf/meta/dtype.h` 98–106, `/repo/rapidudf/meta/dtype.cc` 119–133, 292–316; `/repo/rapidudf/meta/function.cc` 141–171;
`/repo/rapidudf/compiler/codegen.cc` 194–213, 625–676; `/repo/rapidudf/compiler/codegen_binary.cc` 52–362; `/repo/rapidudf/compiler/codegen_cast.cc` 92–131;
`/repo/rapidudf/compiler/codegen_unary.cc` 50–63, 228–243.

Two separate type computations are modelled: the one of validation (`vE`, `vLine`), which also collects the functions whose code will be needed, and the one of the code generator, which
is `Verif.Gen.Scalar` with the types of this file (`Describes`). Modelled: the values of type bool, numbers, string views and pointers to `std::string`; statements that define, assign,
update and evaluate. Not modelled here: vectors, JSON values, structures, arrays, member accesses, built-in functions that are operators, and names of mathematical constants.
-/
namespace Verif.Comp.Accept
open Verif.Ast Verif.Ast.Rpn Verif.Gen.Scalar

/-- The types: `DATA_VOID`, `DATA_BIT`, `DATA_U8` … `DATA_F80` in the order of dtype_enums.h 44–55, `DATA_STRING_VIEW`, and the pointer to `DATA_STRING`. -/
inductive T where
  | void
  | bit
  | num (k : Fin 12)
  | view
  | strPtr
deriving DecidableEq

namespace T
def u32 : T := .num 4
def i32 : T := .num 5
def i64 : T := .num 7
def f32 : T := .num 9
def f64 : T := .num 10

/-- `IsNumber`, dtype.h 100 -/
def isNum : T → Bool
  | .num _ => true
  | _ => false

/-- `IsNumber() && IsSigned()`, dtype.cc 119–133: `f16` and `f80` are not signed. -/
def isSigned : T → Bool
  | .num k => k ∈ [1, 3, 5, 7, 9, 10]
  | _ => false

/-- `DType::CanCastTo`, dtype.cc 292–316. -/
def canCast (a b : T) : Bool := a == b || a == .void || (a.isNum && b.isNum) || (b == .view && a == .strPtr)

/-- `operator<` on numbers (the order of the enumeration). -/
def lt : T → T → Bool
  | .num j, .num k => j < k
  | _, _ => false
end T

/-- Functions outside the script that the generated code calls: the conversion of a `std::string`, the comparison of views, and functions called by name. -/
inductive Helper where
  | castStr
  | cmp
  | fn (n : Name)
deriving DecidableEq

/-- Names with the types of arguments and result, as known to `CheckFuncExist` (context.cc 167–196). -/
abbrev Fns := Name → Option (List T × T)

/-- `local_vars`; a variable that has been defined but not assigned is `void` (expression.cc 177–186). -/
abbrev Tys := Name → Option T

/-! ## Validation -/

/-- `ParseContext::CanCastTo`, context.cc 146–165. -/
def ctxCast (a b : T) : Option (List Helper) := if a.canCast b then some (if b = .view ∧ a = .strPtr then [.castStr] else []) else none

/-- The first half of `BinaryExpr::Validate`, expression.cc 375–417: the types of the left and the right operand afterwards. -/
def unify (a b : T) : Option (T × T × List Helper) :=
  if a = b then some (a, b, [])
  else ((ctxCast a b).or (ctxCast b a)).map fun d =>
    if a.isNum && b.isNum then (if a.lt b then b else a, b, d)
    else if a.canCast b then (b, b, d) else (a, a, d)

/-- The operators of expression.cc 437–447 other than the assigning ones. -/
def isArith : BinOp → Bool
  | .add | .sub | .mul | .div | .mod | .pow => true
  | _ => false

/-- `OP_EQUAL` … `OP_GREATER_EQUAL` -/
def isCmp : BinOp → Bool
  | .eq | .ne | .ge | .le | .gt | .lt => true
  | _ => false

/-- The second half of `BinaryExpr::Validate`, expression.cc 436–560. -/
def vBin (op : BinOp) (a b : T) : Option (T × List Helper) :=
  (unify a b).bind fun (l, r, d) =>
    if isArith op then (if l.isNum && r.isNum then some (l, d) else none)
    else if isCmp op then
      (if l.isNum && r.isNum then some (.bit, d)
       else if l = .view ∧ r = .view then some (.bit, d ++ [.cmp])
       else none)
    else if op = .and ∨ op = .or then (if l = .bit ∧ r = .bit then some (.bit, d) else none)
    else none

/-- `UnaryExpr::Validate`, expression.cc 286–337. -/
def vUn (op : UnOp) (a : T) : Option T := match op with
  | .not => if a = .bit then some a else none
  | .neg => if a.isSigned then some a else none

/-- `SelectExpr::Validate` for a condition of type bool, expression.cc 596–605. -/
def vSel (c a b : T) : Option (T × List Helper) :=
  if c = .bit then
    match ctxCast a b with
    | some d => some (b, d)
    | none => (ctxCast b a).map fun d => (a, d)
  else none

/-- `FunctionDesc::ValidateArgs`, function.cc 141–171, for functions that are not vector functions. -/
def vArgs : List T → List T → Bool
  | [], [] => true
  | p :: ps, t :: ts => t.canCast p && vArgs ps ts
  | _, _ => false

section
variable (lit : Name → Option T) (fns : Fns) (Γ : Tys)

mutual
/-- `Validate` of an expression: its type and the functions to be declared. -/
def vE : Expr → Option (T × List Helper)
  | .un none o => vO o
  | .un (some op) o => (vO o).bind fun x => (vUn op x.1).map fun t => (t, x.2)
  | .bin l op r => (vE l).bind fun x => (vE r).bind fun y => (vBin op x.1 y.1).map fun z => (z.1, x.2 ++ y.2 ++ z.2)
  | .sel c t f => (vE c).bind fun x => (vE t).bind fun y => (vE f).bind fun z => (vSel x.1 y.1 z.1).map fun s => (s.1, x.2 ++ y.2 ++ z.2 ++ s.2)
/-- `validate_operand`, expression.cc 86–141; a call, 761–781 and 838–855. -/
def vO : Operand → Option (T × List Helper)
  | .bool _ => some (.bit, [])
  | .str _ => some (.view, [])
  | .num s => (lit s).map fun t => (t, [])
  | .var n => (Γ n).map fun t => (t, [])
  | .paren e => vE e
  | .call n es => (fns n).bind fun f => (vEs es).bind fun x => if vArgs f.1 x.1 then some (f.2, .fn n :: x.2) else none
  | .define _ => none
  | .array _ => none
  | .access _ _ => none
def vEs : Exprs → Option (List T × List Helper)
  | .nil => some ([], [])
  | .cons e es => (vE e).bind fun x => (vEs es).map fun y => (x.1 :: y.1, x.2 ++ y.2)
end
end

def Tys.set (Γ : Tys) (x : Name) (t : T) : Tys := fun n => if n = x then some t else Γ n

/-- `AddLocalVar`, context.cc 135–144: only a variable without type gets one. -/
def Tys.add (Γ : Tys) (x : Name) (t : T) : Tys := match Γ x with
  | none => Γ.set x t
  | some .void => Γ.set x t
  | some _ => Γ

/-- A statement: `var x = e`, `x = e`, `x op= e` and `e`. The left operand is validated first. -/
def vLine (lit : Name → Option T) (fns : Fns) (Γ : Tys) : Line → Option (Tys × List Helper)
  | .define x e => match Γ x with
    | some _ => none
    | none => (vE lit fns (Γ.set x .void) e).map fun y => ((Γ.set x .void).add x y.1, y.2)
  | .assign x e => (Γ x).bind fun a => (vE lit fns Γ e).bind fun y =>
      if a = .void then some (Γ.add x y.1, y.2) else (unify a y.1).map fun z => (Γ.add x z.2.1, y.2 ++ z.2.2)
  | .update op x e => (Γ x).bind fun a => (vE lit fns Γ e).bind fun y => (baseOp op).bind fun _ => (unify a y.1).bind fun z =>
      if z.1.isNum && z.2.1.isNum then some (Γ, y.2 ++ z.2.2) else none
  | .eval e => (vE lit fns Γ e).map fun y => (Γ, y.2)

def vProg (lit : Name → Option T) (fns : Fns) : Tys → List Line → Option (Tys × List Helper)
  | Γ, [] => some (Γ, [])
  | Γ, l :: ls => (vLine lit fns Γ l).bind fun x => (vProg lit fns x.1 ls).map fun y => (y.1, x.2 ++ y.2)

/-! ## The types of the code generator -/

/-- The larger of a number seen so far and a number, codegen.cc 196–200. -/
def larger (m : Option T) (t : T) : Option T := match m with
  | none => some t
  | some u => if u.lt t then some t else some u

/-- The first loop of `NormalizeDType`, codegen.cc 194–206. -/
def normLoop : List T → Option T → Option T
  | [], m => m
  | t :: ts, m => if t.isNum then normLoop ts (larger m t) else if t = .strPtr ∨ t = .view then some .view else normLoop ts m

/-- `NormalizeDType` of two types. -/
def norm (a b : T) : Option T := (normLoop [a, b] none).bind fun c => if a.canCast c && b.canCast c then some c else none

/-- `CastTo`, codegen_cast.cc 92–131, between types that differ: numbers, and a `std::string` by a call of the declared function. -/
def castable (D : List Helper) (a b : T) : Bool := (a.isNum && b.isNum) || (a == .strPtr && b == .view && D.contains .castStr)

/-- Low-level `BinaryOp` without `&&` and `||`, codegen_binary.cc 52–254, and the comparison of views, 324–336: the type of the result. A view is a 128-bit integer there. -/
def genBin (D : List Helper) (op : BinOp) (t : T) : Option T :=
  if isArith op then (if t.isNum || (op != .pow && (t == .bit || t == .view)) then some t else none)
  else if isCmp op then (if t.isNum || (t == .view && D.contains .cmp) then some .bit else none)
  else none

/-- `UnaryOp`, codegen_unary.cc 50–63: an instruction on integers, floating point numbers for the negation only. -/
def genUn (op : UnOp) (t : T) : Option T := match op with
  | .neg => if t.isNum || t == .bit || t == .view then some t else none
  | .not => if t == .bit || t == .view || (match t with | .num k => k < 8 | _ => false) then some t else none

/-- The code generator works with these types, when the functions `D` have been declared. What the operations compute is arbitrary. -/
structure Describes {V W : Type} (rt : Rt T V W) (lit : Name → Option T) (fns : Fns) (D : List Helper) : Prop where
  bool : ∀ b, (rt.bool b).1 = .bit
  str : ∀ s, (rt.str s).1 = .view
  num : ∀ s, (rt.num s).map (·.1) = lit s
  isBit : ∀ t, rt.isBit t = true ↔ t = .bit
  norm : ∀ a b, rt.norm a b = norm a b
  cast : ∀ a b, (rt.cast a b).isSome = castable D a b
  un : ∀ op t, (rt.un op t).map (·.1) = genUn op t
  bin : ∀ op t, (rt.bin op t).map (·.1) = genBin D op t
  fn : ∀ n, (rt.fn n).map (fun f => (f.1, f.2.1)) = if Helper.fn n ∈ D then fns n else none

/-- A code generator with these types, on values that carry no information. -/
def blank (lit : Name → Option T) (fns : Fns) (D : List Helper) : Rt T Unit Unit where
  bool _ := (.bit, ())
  str _ := (.view, ())
  num s := (lit s).map fun t => (t, ())
  isBit t := t == .bit
  truth _ := true
  norm := norm
  cast a b := if castable D a b then some id else none
  un op t := (genUn op t).map fun u => (u, fun _ => some ())
  bin op t := (genBin D op t).map fun u => (u, fun _ _ => some ())
  fn n := if Helper.fn n ∈ D then (fns n).map fun f => (f.1, f.2, fun _ w => some (w, ())) else none
  inl _ _ := none

theorem blank_describes (lit : Name → Option T) (fns : Fns) (D : List Helper) : Describes (blank lit fns D) lit fns D where
  bool _ := rfl
  str _ := rfl
  num s := by cases h : lit s <;> simp [blank, h]
  isBit t := by simp [blank]
  norm _ _ := rfl
  cast a b := by simp only [blank]; cases castable D a b <;> rfl
  un op t := by simp only [blank]; cases genUn op t <;> rfl
  bin op t := by simp only [blank]; cases genBin D op t <;> rfl
  fn n := by
    simp only [blank]
    split
    · cases fns n <;> rfl
    · rfl

/-! ## Specification -/

/-- No built-in function is an operator here. -/
def noInl : Inline := fun _ => none

/-- The types of the variables are the ones validation works with. -/
def Agree (Γ : Tys) (vars : Vars T) : Prop := ∀ n, match Γ n with
  | none => vars n = none
  | some .void => vars n = some none
  | some t => ∃ s, vars n = some (some (t, s))

/-- Both numbers, or the same type. -/
def Alike (t u : T) : Prop := t = u ∨ (t.isNum = true ∧ u.isNum = true)

/-- The type of a handle in the generated code. -/
def Has {V : Type} (vars : Vars T) (h : H T V) (t : T) : Prop := match h with
  | .var n => ∃ s, vars n = some (some (t, s))
  | .imm u _ => u = t

/-- Functions have results, and literals are numbers. -/
structure Sane (lit : Name → Option T) (fns : Fns) : Prop where
  lit : ∀ s t, lit s = some t → t.isNum = true
  result : ∀ n f, fns n = some f → f.2 ≠ .void
  param : ∀ n f, fns n = some f → T.void ∉ f.1

/-- A pointer to a `std::string` is not passed for a view, or its conversion is declared for another reason. -/
def Passable (fns : Fns) (Γ : Tys) (D : List Helper) : Prop :=
  Helper.castStr ∈ D ∨ ((∀ n, Γ n ≠ some .strPtr) ∧ ∀ n f, fns n = some f → f.2 ≠ .strPtr)

mutual
/-- In every `c ? t : f` on numbers the type of `t` is not larger than the one of `f`. -/
def Ordered (lit : Name → Option T) (fns : Fns) (Γ : Tys) : Expr → Prop
  | .un _ o => OrderedO lit fns Γ o
  | .bin l _ r => Ordered lit fns Γ l ∧ Ordered lit fns Γ r
  | .sel c t f => Ordered lit fns Γ c ∧ Ordered lit fns Γ t ∧ Ordered lit fns Γ f ∧
      ∀ a b da db, vE lit fns Γ t = some (a, da) → vE lit fns Γ f = some (b, db) → b.lt a = false
def OrderedO (lit : Name → Option T) (fns : Fns) (Γ : Tys) : Operand → Prop
  | .paren e => Ordered lit fns Γ e
  | .call _ es => OrderedEs lit fns Γ es
  | _ => True
def OrderedEs (lit : Name → Option T) (fns : Fns) (Γ : Tys) : Exprs → Prop
  | .nil => True
  | .cons e es => Ordered lit fns Γ e ∧ OrderedEs lit fns Γ es
end

/-- The variables of an expression have been given a value. -/
def Assigned (Γ : Tys) (e : Expr) : Prop := ∀ n, varsE e n → Γ n ≠ some .void

/-- A statement that keeps to the types: assigned values have the type of the variable, and updates do not need a larger one. -/
def Keeps (lit : Name → Option T) (fns : Fns) (Γ : Tys) : Line → Prop
  | .define x e => Assigned (Γ.set x .void) e ∧ Ordered lit fns (Γ.set x .void) e
  | .assign x e => Assigned Γ e ∧ Ordered lit fns Γ e ∧ ∀ a t d, Γ x = some a → vE lit fns Γ e = some (t, d) → a = .void ∨ a = t
  | .update _ x e => Assigned Γ e ∧ Ordered lit fns Γ e ∧ Γ x ≠ some .void ∧ ∀ a t d, Γ x = some a → vE lit fns Γ e = some (t, d) → a.lt t = false
  | .eval e => Assigned Γ e

def KeepsAll (lit : Name → Option T) (fns : Fns) : Tys → List Line → Prop
  | _, [] => True
  | Γ, l :: ls => Keeps lit fns Γ l ∧ ∀ Γ' d, vLine lit fns Γ l = some (Γ', d) → KeepsAll lit fns Γ' ls

end Verif.Comp.Accept
