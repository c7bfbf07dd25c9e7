import Verif.Comp.VecFn
import Verif.Tbl.Order
/-!
# From the text of a function over tables to the table: C156, C157

Functions such as `table<Student> f(Context ctx, table<Student> x) { auto filtered = x.filter(x.score > 90 && x.age < 10); return filtered.topk(filtered.score, 10, true); }` (README.md). Put
together from the parser (`Verif.Ast.Parser`), functions over vectors (`Verif.Comp.VecFn`), the tables of `Verif.Tbl`, and from what is modelled here: columns and calls on tables, `FieldAccess::Validate`,
`/repo/rapidudf/ast/expression.cc` 216–284, `FuncInvokeArgs::Validate`, 187–215, `JitCompiler::BuildIR(ValuePtr, const ast::FieldAccess&)`, `/repo/rapidudf/compiler/compiler_expressions.cc` 48–94,
`/repo/rapidudf/functions/simd_table.cc` 29–128, and columns that are loaded when they are first read, `/repo/rapidudf/table/table.cc` 111–199, 360–384.

All tables of a function have the same schema; no two parameters are the same table; columns are integers, floating point numbers and strings. Not modelled: columns of bits, null pointers as rows,
`order_by` and `group_by` with the name of a column, statements other than definitions of tables.
-/
namespace Verif.Comp.TableFn
open Verif.Ast hiding Ty
open Verif.Ast.Rpn Verif.Gen
open Verif.Types.Conv (IntTy)
open Verif.Gen.Scalar (Name)
open Verif.Simd (Byte)
open Verif.Comp.Pipeline (Arith Rel decimal bit)
open Verif.Comp.Real hiding Passed Ex
open Verif.Comp.VecFn (Ex Hw El Str paramKinds viewText)
open Verif.Comp.VecFn (VEnv Vars Cell World elemOf hasV valueAt vectorOf kinds lane Guarded checkE nodesOf evalNodes typeNamed contextText VTy)

/-! ## Specification: tables -/

/-- The values of a column: numbers of a type, or strings, each with the sixteen bytes of its view. -/
inductive Data (P : Type) where
  | num (t : Ty) (f : P → Val)
  | str (f : P → List Byte × Int)

/-- The type of the values. -/
def Data.el {P : Type} : Data P → El
  | .num t _ => .num t
  | .str _ => .str

/-- A column: its name, which of the objects of a row it is taken from, and its values. -/
structure Col (P : Type) where
  name : Name
  group : Nat
  data : Data P

/-- The schema of a table: its name, the number of objects in a row, and its columns. -/
structure Schema (P : Type) where
  text : List Char
  groups : Nat
  cols : List (Col P)

/-- Columns have different names and come from objects that are there; their values have their type. -/
structure Schema.Ok {P : Type} (hw : Hw) (S : Schema P) : Prop where
  some : 0 < S.groups
  names : (S.cols.map (·.name)).Nodup
  inside : ∀ c ∈ S.cols, c.group < S.groups
  number : ∀ c ∈ S.cols, ∀ t f, c.data = .num t f → t ≠ .bool ∧ ∀ p, (f p).Has t
  shown : ∀ c ∈ S.cols, ∀ f, c.data = .str f → ∀ p, hw.Shows (f p).2 (f p).1

/-- A row: one object for each row type. -/
abbrev Row (P : Type) := List P

/-- The values of a column in the given rows. -/
def Col.item {P : Type} (c : Col P) (rows : List (Row P)) : VecFn.Item := match c.data with
  | .num t f => .vec t (rows.filterMap fun r => (r[c.group]?).map f)
  | .str f => .strs (rows.filterMap fun r => (r[c.group]?).map fun p => (f p).1)

/-- The text of column `f` of table `x`, which is its name in expressions: `x.f`. -/
def dotted (x f : Name) : Name := x ++ '.' :: f

/-- Single values: numbers and booleans, and strings with the bytes of their views. -/
inductive Single where
  | num (t : Ty) (v : Val)
  | str (b : List Byte) (w : Int)

def Single.el : Single → El
  | .num t _ => .num t
  | .str _ _ => .str
def Single.item : Single → VecFn.Item
  | .num t v => .num t v
  | .str b _ => .str b

abbrev Nums := List (Name × Single)

/-- The variables of expressions over table `x` with the given rows: its columns, and the single values. -/
def items {P : Type} (cols : List (Col P)) (x : Name) (rows : List (Row P)) (ν : Nums) : List (Name × VecFn.Item) :=
  cols.map (fun c => (dotted x c.name, c.item rows)) ++ ν.map fun q => (q.1, q.2.item)
def seen {P : Type} (cols : List (Col P)) (x : Name) (rows : List (Row P)) (ν : Nums) : Vars := fun y => (items cols x rows ν).lookup y

/-- The types of these variables. -/
def seenTypes {P : Type} (cols : List (Col P)) (x : Name) (ν : List (Name × El)) : VEnv :=
  paramKinds (cols.map (fun c => (dotted x c.name, true, c.data.el)) ++ ν.map fun q => (q.1, false, q.2))

/-! ## Specification: calls -/

/-- A call on a table. Tables are arguments by name; `k` and `desc` are literals or single values. -/
inductive Call where
  | filter (e : Ex)
  | head (k : Ex)
  | tail (k : Ex)
  | orderBy (e desc : Ex)
  | topk (e k desc : Ex)
  | concat (y : Name)

/-- The value of a literal or of a single value. -/
def numOf (fpu : Hw) (ν : Nums) (e : Ex) : Option Val := valueAt fpu (kinds (seen (P := Unit) [] [] [] ν)) (lane (seen (P := Unit) [] [] [] ν) 0) e

/-- A number of rows: converted to 32 bits without sign. -/
def amount (fpu : Hw) (ν : Nums) (e : Ex) : Option Nat := match (numOf fpu ν e).bind (conv fpu (.int .u32)) with
  | some (.int z) => some z.toNat
  | _ => none

def flag (fpu : Hw) (ν : Nums) (e : Ex) : Option Bool := match numOf fpu ν e with
  | some (.bool b) => some b
  | _ => none

/-- Less or equal, which NaN is not even to itself. -/
def leq (v w : Val) : Prop := ∃ t, relV .le t v w = some (.bool true)

/-- The order of keys. -/
def before (desc : Bool) (v w : Val) : Prop := if desc = true then leq w v else leq v w

/-- The rows whose value is true. -/
def keep {P : Type} (rows : List (Row P)) (l : List Val) : List (Row P) := ((rows.zip l).filter fun q => decide (q.2 = .bool true)).map (·.1)

/-- The rows in some order; their keys are in the order asked for, if all of them can be compared. -/
def Ordered {P : Type} (desc : Bool) (keys : List Val) (rows out : List (Row P)) : Prop :=
  ∃ ps : List (Val × Row P), ps.Perm (keys.zip rows) ∧ ((∀ v ∈ keys, leq v v) → ps.Pairwise fun p q => before desc p.1 q.1) ∧ out = ps.map (·.2)

/-- The first `k` rows (or all) of some order; if all keys can be compared, theirs are in order, and none of the others comes before them. -/
def First {P : Type} (desc : Bool) (k : Nat) (keys : List Val) (rows out : List (Row P)) : Prop :=
  ∃ ps qs : List (Val × Row P), (ps ++ qs).Perm (keys.zip rows) ∧ ps.length = min k rows.length ∧
    ((∀ v ∈ keys, leq v v) → ps.Pairwise (fun p q => before desc p.1 q.1) ∧ ∀ p ∈ ps, ∀ q ∈ qs, before desc p.1 q.1) ∧ out = ps.map (·.2)

/-- The tables by name. -/
abbrev Tabs (P : Type) := List (Name × List (Row P))

/-- What a call on a table with the given rows gives; `x` is the name of the table at the beginning of the expression. `none` is undefined behaviour. -/
def Gives {P : Type} (fpu : Hw) (S : Schema P) (ν : Nums) (τ : Tabs P) (x : Name) (rows : List (Row P)) : Call → Option (List (Row P)) → Prop
  | .filter e, o => o = (vectorOf fpu rows.length (seen S.cols x rows ν) e).map (keep rows)
  | .head k, o => o = (amount fpu ν k).map fun m => rows.take m
  | .tail k, o => o = (amount fpu ν k).map fun m => rows.drop (rows.length - m)
  | .orderBy e d, o => match vectorOf fpu rows.length (seen S.cols x rows ν) e, flag fpu ν d with
    | some l, some b => ∃ out, o = some out ∧ Ordered b l rows out
    | _, _ => o = none
  | .topk e k d, o => match vectorOf fpu rows.length (seen S.cols x rows ν) e, amount fpu ν k, flag fpu ν d with
    | some l, some m, some b => ∃ out, o = some out ∧ First b m l rows out
    | _, _, _ => o = none
  | .concat y, o => ∃ other, τ.lookup y = some other ∧ o = some (rows ++ other)

/-- One call after another. -/
inductive Chain {P : Type} (fpu : Hw) (S : Schema P) (ν : Nums) (τ : Tabs P) (x : Name) : List (Row P) → List Call → Option (List (Row P)) → Prop
  | done {rows} : Chain fpu S ν τ x rows [] (some rows)
  | fail {rows c cs} (h : Gives fpu S ν τ x rows c none) : Chain fpu S ν τ x rows (c :: cs) none
  | step {rows c cs rows' o} (h : Gives fpu S ν τ x rows c (some rows')) (hs : Chain fpu S ν τ x rows' cs o) : Chain fpu S ν τ x rows (c :: cs) o

/-- `var y = x.….…;` -/
structure TSt where
  target : Name
  table : Name
  calls : List Call

/-- The kind of a parameter. -/
inductive Kind where
  | table
  | one (t : El)

/-- `table<S> name(Context ctx, params) { body return x.….…; }`. -/
structure TFn where
  name : Name
  ctx : Name
  params : List (Name × Kind)
  body : List TSt
  result : Name
  calls : List Call

/-- One statement after another, then the result. -/
inductive Exec {P : Type} (fpu : Hw) (S : Schema P) (ν : Nums) : Tabs P → List TSt → Name → List Call → Option (List (Row P)) → Prop
  | result {τ x cs rows o} (hx : τ.lookup x = some rows) (h : Chain fpu S ν τ x rows cs o) : Exec fpu S ν τ [] x cs o
  | fail {τ s ss x cs rows} (hx : τ.lookup s.table = some rows) (h : Chain fpu S ν τ s.table rows s.calls none) : Exec fpu S ν τ (s :: ss) x cs none
  | step {τ s ss x cs rows rows' o} (hx : τ.lookup s.table = some rows) (h : Chain fpu S ν τ s.table rows s.calls (some rows'))
      (hs : Exec fpu S ν ((s.target, rows') :: τ) ss x cs o) : Exec fpu S ν τ (s :: ss) x cs o

/-- What is passed: a table, a value, or a string with the bytes of its view. -/
inductive TArg (P : Type) where
  | table (t : Tbl.Table P)
  | num (v : Val)
  | str (b : List Byte) (w : Int)

/-- The rows of a table. -/
def rowsOf {P : Type} (t : Tbl.Table P) : List (Row P) := (List.range (Tbl.count t)).map fun i => t.filterMap fun g => g.objs[i]?

/-- Tables with the objects of the schema, as many of each; values of the type of the parameter. -/
def Passed {P : Type} (hw : Hw) (S : Schema P) : List (Name × Kind) → List (TArg P) → Prop
  | [], [] => True
  | (_, .table) :: ps, .table t :: args => Tbl.Aligned t ∧ t.map (·.schema) = List.range S.groups ∧ Passed hw S ps args
  | (_, .one (.num u)) :: ps, .num v :: args => v.Has u ∧ Passed hw S ps args
  | (_, .one .str) :: ps, .str b w :: args => hw.Shows w b ∧ Passed hw S ps args
  | _, _ => False

/-- The parameters at the beginning. -/
def tables {P : Type} : List (Name × Kind) → List (TArg P) → Tabs P
  | (x, _) :: ps, .table t :: args => (x, rowsOf t) :: tables ps args
  | _ :: ps, _ :: args => tables ps args
  | _, _ => []
def numbers {P : Type} : List (Name × Kind) → List (TArg P) → Nums
  | (x, .one (.num u)) :: ps, .num v :: args => (x, .num u v) :: numbers ps args
  | (x, .one .str) :: ps, .str b w :: args => (x, .str b w) :: numbers ps args
  | _ :: ps, _ :: args => numbers ps args
  | _, _ => []

def TFn.Returns {P : Type} (fpu : Hw) (S : Schema P) (g : TFn) (args : List (TArg P)) (o : Option (List (Row P))) : Prop :=
  Exec fpu S (numbers g.params args) (tables g.params args) g.body g.result g.calls o

/-! ### Functions that make sense -/

def strNames : Str → List Name
  | .text _ => []
  | .var x => [x]

/-- The variables of an expression. -/
def names : Ex → List Name
  | .var x => [x]
  | .neg a => names a
  | .not a => names a
  | .arith _ a b => names a ++ names b
  | .rel _ a b => names a ++ names b
  | .and a b => names a ++ names b
  | .or a b => names a ++ names b
  | .pick c a b => names c ++ names a ++ names b
  | .fn1 _ a => names a
  | .fn2 _ a b => names a ++ names b
  | .fn3 _ a b c => names a ++ names b ++ names c
  | .cmp _ a b => strNames a ++ strNames b
  | _ => []

/-- An expression over the columns of `x`, with elements of type `t`. The columns in `dirty` must not be read any more. -/
def ArgOk {P : Type} (fpu : Hw) (S : Schema P) (ν : List (Name × El)) (x : Name) (dirty : List Name) (e : Ex) (t : Ty) : Prop :=
  e.Lits fpu ∧ Guarded (seenTypes S.cols x ν) e ∧ hasV (seenTypes S.cols x ν) e = true ∧ (∃ v, elemOf (seenTypes S.cols x ν) e = some (v, t)) ∧ ∀ f ∈ dirty, dotted x f ∉ names e

/-- A literal or a single value of a type that passes the test. -/
def NumOk (fpu : Hw) (ν : List (Name × El)) (p : Ty → Bool) (e : Ex) : Prop :=
  e.Lits fpu ∧ VecFn.single (seenTypes (P := Unit) [] [] ν) e = true ∧ ∃ v t, elemOf (seenTypes (P := Unit) [] [] ν) e = some (v, t) ∧ p t = true

def isNumber : Ty → Bool
  | .bool => false
  | _ => true

/-- Keys can be of these types only. -/
def sortable : Ty → Bool
  | .int t => decide (t = .u32 ∨ t = .i32 ∨ t = .u64 ∨ t = .i64)
  | .flt _ => true
  | .bool => false

/-- Calls that make sense. Expressions over columns are arguments of the first call of a chain only. The number of the last rows is not zero (C59). -/
def Call.Ok {P : Type} (fpu : Hw) (S : Schema P) (ν : List (Name × El)) (tabs : List Name) (x : Name) (dirty : List Name) (first : Bool) : Call → Prop
  | .filter e => first = true ∧ ArgOk fpu S ν x dirty e .bool
  | .head k => NumOk fpu ν isNumber k
  | .tail k => NumOk fpu ν isNumber k ∧ ∃ m, 0 < m ∧ amount fpu [] k = some m
  | .orderBy e d => first = true ∧ (∃ t, sortable t = true ∧ ArgOk fpu S ν x dirty e t) ∧ NumOk fpu ν (decide <| · = .bool) d
  | .topk e k d => first = true ∧ (∃ t, sortable t = true ∧ ArgOk fpu S ν x dirty e t) ∧ NumOk fpu ν isNumber k ∧ NumOk fpu ν (decide <| · = .bool) d
  | .concat y => y ∈ tabs

def CallsOk {P : Type} (fpu : Hw) (S : Schema P) (ν : List (Name × El)) (tabs : List Name) (x : Name) (dirty : List Name) : List Call → Prop
  | [] => True
  | c :: cs => c.Ok fpu S ν tabs x dirty true ∧ ∀ c ∈ cs, c.Ok fpu S ν tabs x dirty false

/-- The column a chain sorts by, if its key is nothing but a column. -/
def spoils (x : Name) : List Call → List Name
  | .orderBy (.var y) _ :: _ => [y.drop (x.length + 1)]
  | .topk (.var y) _ _ :: _ => [y.drop (x.length + 1)]
  | _ => []

/-- The tables with the columns that must not be read any more: a column by which a table was sorted, of that table and of those that existed then (C157). -/
abbrev Dirty := List (Name × List Name)

def Dirty.mark (δ : Dirty) (fs : List Name) : Dirty := δ.map fun q => (q.1, fs ++ q.2)

def ChainOk {P : Type} (fpu : Hw) (S : Schema P) (ν : List (Name × El)) (δ : Dirty) (x : Name) (cs : List Call) : Prop :=
  ∃ D, δ.lookup x = some D ∧ CallsOk fpu S ν (δ.map (·.1)) x D cs

/-- A new table has a new name and is not just another table. -/
def BodyOk {P : Type} (fpu : Hw) (S : Schema P) (ν : List (Name × El)) (ctx : Name) : List TSt → Dirty → Name → List Call → Prop
  | [], δ, x, cs => ChainOk fpu S ν δ x cs
  | s :: ss, δ, x, cs => (s.target ∉ δ.map (·.1) ∧ s.target ∉ ν.map (·.1) ∧ s.target ≠ ctx ∧ '.' ∉ s.target) ∧ s.calls ≠ [] ∧ ChainOk fpu S ν δ s.table s.calls ∧
    BodyOk fpu S ν ctx ss ((s.target, if spoils s.table s.calls = [] then (δ.lookup s.table).getD [] else []) :: δ.mark (spoils s.table s.calls)) x cs

/-- The parameters that are tables, and those that are not. -/
def tableNames : List (Name × Kind) → List Name
  | [] => []
  | (x, .table) :: ps => x :: tableNames ps
  | (_, .one _) :: ps => tableNames ps
def numTypes : List (Name × Kind) → List (Name × El)
  | [] => []
  | (_, .table) :: ps => numTypes ps
  | (x, .one t) :: ps => (x, t) :: numTypes ps

/-- No two parameters have the same name; names have no dots. -/
def TFn.Ok {P : Type} (fpu : Hw) (S : Schema P) (g : TFn) : Prop :=
  ((g.params.map (·.1)).Nodup ∧ g.ctx ∉ g.params.map (·.1) ∧ ∀ q ∈ g.params, '.' ∉ q.1) ∧
    BodyOk fpu S (numTypes g.params) g.ctx g.body ((tableNames g.params).map fun x => (x, [])) g.result g.calls

/-- The number of concatenations, which limits how large tables become. -/
def Call.concats : Call → Nat
  | .concat _ => 1
  | _ => 0
def concats (cs : List Call) : Nat := (cs.map Call.concats).sum
def TFn.concats (g : TFn) : Nat := (g.body.map fun s => TableFn.concats s.calls).sum + TableFn.concats g.calls

/-! ### How functions are written -/

/-- A variable, or a column. -/
def VarIs (y : Name) (t : Tree) : Prop := ('.' ∉ y ∧ t = .atom (.var y)) ∨ ∃ x f, '.' ∉ x ∧ y = dotted x f ∧ t = .atom (.access x (.cons (.field f) .nil))

def StrIs : Str → Tree → Prop
  | .text s, t => t = .atom (.str s)
  | .var y, t => VarIs y t

/-- An expression with columns, written as in C153 but for the columns. -/
def CIs : Ex → Tree → Prop
  | .lit ds s, t => t = .atom (.num (withSuffix ds s))
  | .frac ip fp s, t => t = .atom (.num (withSuffix (fracText ip fp) s))
  | .const b, t => t = .atom (.bool b)
  | .var y, t => VarIs y t
  | .neg a, t => ∃ u, t = .un .neg u ∧ CIs a u
  | .not a, t => ∃ u, t = .un .not u ∧ CIs a u
  | .arith o a b, t => ∃ u v, t = .bin u o.sign v ∧ CIs a u ∧ CIs b v
  | .rel o a b, t => ∃ u v, t = .bin u o.sign v ∧ CIs a u ∧ CIs b v
  | .and a b, t => ∃ u v, t = .bin u .and v ∧ CIs a u ∧ CIs b v
  | .or a b, t => ∃ u v, t = .bin u .or v ∧ CIs a u ∧ CIs b v
  | .pick c a b, t => ∃ w u v, t = .sel w u v ∧ CIs c w ∧ CIs a u ∧ CIs b v
  | .fn1 f a, t => ∃ x, t = .atom (.call f.name (.cons x .nil)) ∧ CIs a x.toTree
  | .fn2 f a b, t => ∃ x y, t = .atom (.call f.name (.cons x (.cons y .nil))) ∧ CIs a x.toTree ∧ CIs b y.toTree
  | .fn3 f a b c, t => ∃ x y z, t = .atom (.call f.name (.cons x (.cons y (.cons z .nil)))) ∧ CIs a x.toTree ∧ CIs b y.toTree ∧ CIs c z.toTree
  | .cmp o a b, t => ∃ u v, t = .bin u o.sign v ∧ StrIs a u ∧ StrIs b v

def filterText : List Char := ['f', 'i', 'l', 't', 'e', 'r']
def headText : List Char := ['h', 'e', 'a', 'd']
def tailText : List Char := ['t', 'a', 'i', 'l']
def orderByText : List Char := ['o', 'r', 'd', 'e', 'r', '_', 'b', 'y']
def topkText : List Char := ['t', 'o', 'p', 'k']
def concatText : List Char := ['c', 'o', 'n', 'c', 'a', 't']

def Call.Is : Call → Member → Prop
  | .filter e, m => ∃ a, m = .method filterText (.cons a .nil) ∧ CIs e a.toTree
  | .head k, m => ∃ a, m = .method headText (.cons a .nil) ∧ CIs k a.toTree
  | .tail k, m => ∃ a, m = .method tailText (.cons a .nil) ∧ CIs k a.toTree
  | .orderBy e d, m => ∃ a b, m = .method orderByText (.cons a (.cons b .nil)) ∧ CIs e a.toTree ∧ CIs d b.toTree
  | .topk e k d, m => ∃ a b c, m = .method topkText (.cons a (.cons b (.cons c .nil))) ∧ CIs e a.toTree ∧ CIs k b.toTree ∧ CIs d c.toTree
  | .concat y, m => ∃ a, m = .method concatText (.cons a .nil) ∧ a.toTree = .atom (.var y)

def CallsAre : List Call → Members → Prop
  | [], .nil => True
  | c :: cs, .cons m ms => c.Is m ∧ CallsAre cs ms
  | _, _ => False

/-- `x` or `x.….…`. -/
def ChainIs (x : Name) (cs : List Call) (t : Tree) : Prop := (cs = [] ∧ t = .atom (.var x)) ∨ ∃ ms, cs ≠ [] ∧ t = .atom (.access x ms) ∧ CallsAre cs ms

def BodyIs : List TSt → Name → List Call → Stmts → Prop
  | [], x, cs, .cons (.retVal e) .nil => ChainIs x cs e.toTree
  | s :: ss, x, cs, .cons t ts => (∃ r, t = .expr (.bin (.un none (.define s.target)) .assign r) ∧ ChainIs s.table s.calls r.toTree) ∧ BodyIs ss x cs ts
  | _, _, _, _ => False

/-- `table<S>`. -/
def tableText {P : Type} (S : Schema P) : List Char := ['t', 'a', 'b', 'l', 'e', '<'] ++ S.text ++ ['>']

def Kind.text {P : Type} (S : Schema P) : Kind → List Char
  | .table => tableText S
  | .one t => VecFn.paramText (false, t)

/-- A text is read as the function; the context is anywhere among the parameters. -/
def ReadsFn {P : Type} (cfg : Cfg) (S : Schema P) (src : List Char) (g : TFn) : Prop :=
  ∃ h rest ps qs, parseFunctions cfg src = .ok [h] rest ∧ h.ret = tableText S ∧ g.params = ps ++ qs ∧
    h.params = ps.map (fun q => (q.2.text S, q.1)) ++ (contextText, g.ctx) :: qs.map (fun q => (q.2.text S, q.1)) ∧ BodyIs g.body g.result g.calls h.body

/-! ## Model -/

/-- What can go wrong. -/
inductive TErr where
  /-- compiling and running vector expressions -/
  | code (e : Vec.Err)
  /-- the call throws an exception -/
  | throw
  /-- undefined behaviour in a function on tables -/
  | ub
  /-- not described by this model -/
  | unmodelled
  deriving DecidableEq

/-- What the code runs on: floating point operations, fresh memory, lanes of pointers, a null pointer and what unused lanes hold, and the sorting library
(`x86simdsort::keyvalue_qsort`, `keyvalue_partial_sort`, vector_sort.cc 91–117). -/
structure Lib (P : Type) where
  fpu : Hw
  mem : Nat → List MV
  lanes : Nat
  null : P
  junk : Nat → Nat → P
  sort : PTy → Bool → List MV → List Nat → List MV × List Nat
  topk : PTy → Bool → Nat → List MV → List Nat → List MV × List Nat

/-- A table in memory: the row pointers, and the columns; a column of size 0 is not loaded (table.cc 360–365). -/
structure TObj (P : Type) where
  rows : Tbl.Table P
  cache : Name → List MV

/-- The tables in memory, the variables that are tables and those that are not, and the names of the contexts. -/
structure TWorld (P : Type) where
  objs : List (TObj P)
  tabs : List (Name × Nat)
  nums : List (Name × PTy × MV)
  ctx : List Name

/-- The value of a column for an object, table.cc 120–199; of strings, a view (`Column::GetString`, `/repo/rapidudf/table/column.cc` 319–372). -/
def Col.enc {P : Type} (c : Col P) (p : P) : MV := match c.data with
  | .num _ f => (f p).enc
  | .str f => .word (f p).2

/-- The type of a column, or of a single value; strings are `string_view`. -/
def elTy : El → PTy
  | .num t => t.p
  | .str => .other

/-- `LoadColumnBaseByOffset`, table.cc 360–384, `LoadColumn`, 120–199, on the column named `f` (`DynObjectSchema::GetField`). The values of the first group with the row schema of the column; there
being none, a null pointer is used. Every loaded column is writable (table.cc 111–118). -/
def TObj.load {P : Type} (cols : List (Col P)) (o : TObj P) (f : Name) : Except TErr (TObj P) :=
  match cols.find? fun c => decide (c.name = f) with
  | none => .error (.code .compile)
  | some c => if o.cache f ≠ [] then .ok o else match o.rows.find? fun g => decide (g.schema = c.group) with
    | none => .error .ub
    | some g => .ok { o with cache := fun h => if h = f then g.objs.map c.enc else o.cache h }

def loadAll {P : Type} (cols : List (Col P)) : TObj P → List Name → Except TErr (TObj P)
  | o, [] => .ok o
  | o, f :: fs => (o.load cols f).bind fun o' => loadAll cols o' fs

mutual
/-- The columns read by an expression. -/
def readsE : Expr → List (Name × Name)
  | .un _ o => readsO o
  | .bin l _ r => readsE l ++ readsE r
  | .sel c t f => readsE c ++ readsE t ++ readsE f
def readsO : Operand → List (Name × Name)
  | .access x (.cons (.field f) .nil) => [(x, f)]
  | .paren e => readsE e
  | .call _ es => readsEs es
  | _ => []
def readsEs : Exprs → List (Name × Name)
  | .nil => []
  | .cons e es => readsE e ++ readsEs es
end

/-- The same for a tree. -/
def reads : Tree → List (Name × Name)
  | .atom o => readsO o
  | .un _ t => reads t
  | .bin l _ r => reads l ++ reads r
  | .sel c t f => reads c ++ reads t ++ reads f

mutual
/-- A column is a leaf of an expression as a variable is one (compiler_expressions.cc 79–92); it is looked up by its text. -/
def undotE : Expr → Expr
  | .un u o => .un u (undotO o)
  | .bin l op r => .bin (undotE l) op (undotE r)
  | .sel c t f => .sel (undotE c) (undotE t) (undotE f)
def undotO : Operand → Operand
  | .paren e => .paren (undotE e)
  | .access x (.cons (.field f) .nil) => .var (dotted x f)
  | .call n es => .call n (undotEs es)
  | o => o
def undotEs : Exprs → Exprs
  | .nil => .nil
  | .cons e es => .cons (undotE e) (undotEs es)
end

/-- Numbers for variables, from `k` on. -/
def place : Nat → List (Name × VTy) → Name → Option (VTy × Nat)
  | _, [], _ => none
  | k, q :: qs, x => if x = q.1 then some (q.2, k) else place (k + 1) qs x

/-- The vector a column holds once it is read. -/
def TObj.column {P : Type} (cols : List (Col P)) (o : TObj P) (f : Name) : List MV := match o.load cols f with
  | .ok o' => o'.cache f
  | .error _ => []

/-- The variables of an expression over table `x`. Columns that are not read do not matter. -/
def argWorld {P : Type} (cols : List (Col P)) (x : Name) (o : TObj P) (w : TWorld P) : World where
  vars := place 0 (cols.map (fun c => (dotted x c.name, (true, elTy c.data.el))) ++ w.nums.map fun q => (q.1, (false, q.2.1)))
  cells := cols.map (fun c => .vec ⟨(o.column cols c.name).length, o.column cols c.name⟩) ++ w.nums.map fun q => .num q.2.2
  ctx := w.ctx

/-- A vector that is passed to a function: its elements with what follows them, and the table and column whose memory it is. -/
structure VArg where
  ty : PTy
  buf : Vec.Buf MV
  origin : Option (Nat × Name)

/-- The value of an argument: `FuncInvokeArgs::Validate`, expression.cc 187–215: each argument is compiled on its own, and the type of its list of nodes is its type. Expressions without columns, or
with columns of several tables, are not described. -/
def evalArg {P : Type} (L : Lib P) (S : Schema P) (w : TWorld P) (e : Expr) : Except TErr (TWorld P × VArg) :=
  match reads e.toTree with
  | [] => .error .unmodelled
  | (x, f) :: rs => if rs.all (fun r => decide (r.1 = x)) = false then .error .unmodelled else match w.tabs.lookup x with
    | none => .error (.code .compile)
    | some i => match w.objs[i]? with
      | none => .error .unmodelled
      | some o => (loadAll S.cols o (f :: rs.map (·.2))).bind fun o' =>
        match checkE L.fpu (fun y => ((argWorld S.cols x o w).vars y).map (·.1)) (undotE e), nodesOf L.fpu (argWorld S.cols x o w).leaf (flatE Real.arity (undotE e)) with
        | some (true, t), some ns => match evalNodes L.fpu L.mem (argWorld S.cols x o w) t ns with
          | .error err => .error (.code err)
          | .ok (.new b) => .ok ({ w with objs := w.objs.set i o' }, ⟨t, b, none⟩)
          | .ok (.old t' s) => match S.cols[s]? with
            | none => .error .unmodelled
            | some c => .ok ({ w with objs := w.objs.set i o' }, ⟨t', ⟨(o.column S.cols c.name).length, o.column S.cols c.name⟩, some (i, c.name)⟩)
        | some (false, _), some _ => .error .unmodelled
        | _, _ => .error (.code .compile)

/-- A single value as argument: a literal or a variable, converted to the type of the parameter, codegen.cc 669–679. Other expressions and conversions are not described. -/
def evalNum {P : Type} (L : Lib P) (w : TWorld P) (t : PTy) (e : Expr) : Except TErr MV :=
  match (match e.toTree with
    | .atom (.num s) => some (constant L.fpu s)
    | .atom (.bool b) => some (some (.bit, .word (bit b)))
    | .atom (.var x) => some (w.nums.lookup x)
    | _ => none : Option (Option (PTy × MV))) with
  | none => .error .unmodelled
  | some none => .error (.code .compile)
  | some (some (s, v)) => if s = t then .ok v else match castT L.fpu s t with
    | some g => .ok (g v)
    | none => .error .unmodelled

def wordOf : MV → Except TErr Int
  | .word z => .ok z
  | _ => .error (.code .trap)

def laneBit : Option MV → Option Bool
  | some (.word z) => some (z != 0)
  | _ => none

/-- Eight lanes of bits in memory: the lowest bit first. -/
def packByte (b0 b1 b2 b3 b4 b5 b6 b7 : Bool) : Byte :=
  BitVec.ofNat 8 (b0.toNat + 2 * b1.toNat + 4 * b2.toNat + 8 * b3.toNat + 16 * b4.toNat + 32 * b5.toNat + 64 * b6.toNat + 128 * b7.toNat)

def maskByte (m : List MV) (j : Nat) : Option Byte := do
  let b0 ← laneBit m[8 * j]?
  let b1 ← laneBit m[8 * j + 1]?
  let b2 ← laneBit m[8 * j + 2]?
  let b3 ← laneBit m[8 * j + 3]?
  let b4 ← laneBit m[8 * j + 4]?
  let b5 ← laneBit m[8 * j + 5]?
  let b6 ← laneBit m[8 * j + 6]?
  let b7 ← laneBit m[8 * j + 7]?
  some (packByte b0 b1 b2 b3 b4 b5 b6 b7)

/-- The bytes of a vector of bits. -/
def maskBytes (b : Vec.Buf MV) : Option (List Byte) := (List.range ((b.size + 7) / 8)).mapM (maskByte b.mem)

/-- A new table: `Clone`, table.cc 249–262, has no loaded columns. -/
def TWorld.push {P : Type} (w : TWorld P) (t : Tbl.Table P) : TWorld P × Nat := ({ w with objs := w.objs ++ [⟨t, fun _ => []⟩] }, w.objs.length)

/-- `filter`, simd_table.cc 35, table.cc 402–413. Vectors are not converted (codegen.cc 669–679). -/
def doFilter {P : Type} (L : Lib P) (w : TWorld P) (r : Nat) (a : VArg) : Except TErr (TWorld P × Nat) :=
  if a.ty ≠ .bit then .error (.code .compile) else match w.objs[r]?, maskBytes a.buf with
  | some o, some bits => match Tbl.filter L.null L.junk L.lanes o.rows bits with
    | some t => .ok (w.push t)
    | none => .error .ub
  | _, _ => .error .ub

/-- The types of the functions `order_by_…` and `topk_…`, simd_table.cc 87–100. -/
def keyTy : PTy → Bool
  | .int t => decide (t = .u32 ∨ t = .i32 ∨ t = .u64 ∨ t = .i64)
  | .flt _ => true
  | _ => false

/-- The key vector is sorted in place: if it is a column of a table, that column holds the sorted keys afterwards. -/
def TWorld.spoil {P : Type} (w : TWorld P) (a : VArg) (vals : List MV) : TWorld P := match a.origin with
  | none => w
  | some (i, f) => match w.objs[i]? with
    | none => w
    | some o => { w with objs := w.objs.set i { o with cache := fun h => if h = f then vals else o.cache h } }

def finish {P : Type} (w : TWorld P) (a : VArg) (r : Tbl.Res (Tbl.Table P × Tbl.KeyVec MV)) : Except TErr (TWorld P × Nat) := match r with
  | .throw => .error .throw
  | .ub => .error .ub
  | .ok (t, key) => .ok ((w.spoil a key.vals).push t)

/-- `order_by`, table.cc 446–456. -/
def doOrder {P : Type} (L : Lib P) (w : TWorld P) (r : Nat) (a : VArg) (desc : Bool) : Except TErr (TWorld P × Nat) :=
  if keyTy a.ty = false then .error (.code .compile) else match w.objs[r]? with
  | some o => finish w a (Tbl.orderBy L.null L.lanes (L.sort a.ty desc) o.rows ⟨a.buf.mem.take a.buf.size, true⟩)
  | none => .error .ub

/-- `topk`, table.cc 458–473. -/
def doTopk {P : Type} (L : Lib P) (w : TWorld P) (r : Nat) (a : VArg) (k : Nat) (desc : Bool) : Except TErr (TWorld P × Nat) :=
  if keyTy a.ty = false then .error (.code .compile) else match w.objs[r]? with
  | some o => finish w a (Tbl.topk L.null L.lanes (L.topk a.ty desc) o.rows ⟨a.buf.mem.take a.buf.size, true⟩ k)
  | none => .error .ub

/-- `head`, `tail`, table.cc 422–443: the table itself, if it has no more rows. -/
def doHead {P : Type} (w : TWorld P) (r k : Nat) : Except TErr (TWorld P × Nat) := match w.objs[r]? with
  | some o => .ok (if k ≥ Tbl.count o.rows then (w, r) else w.push (Tbl.head o.rows k))
  | none => .error .ub
def doTail {P : Type} (w : TWorld P) (r k : Nat) : Except TErr (TWorld P × Nat) := match w.objs[r]? with
  | some o => .ok (if k ≥ Tbl.count o.rows then (w, r) else w.push (Tbl.tail o.rows k))
  | none => .error .ub

/-- `concat`, table.cc 741–764. All tables have the same schema here. -/
def doConcat {P : Type} (w : TWorld P) (r : Nat) (e : Expr) : Except TErr (TWorld P × Nat) := match e.toTree with
  | .atom (.var y) => match w.tabs.lookup y with
    | none => .error (.code .compile)
    | some j => match w.objs[r]?, w.objs[j]? with
      | some o, some p => match Tbl.doConcat true o.rows p.rows with
        | some t => .ok (w.push t)
        | none => .error .throw
      | _, _ => .error .ub
  | _ => .error .unmodelled

inductive Meth where
  | filter | head | tail | orderBy | topk | concat

/-- simd_table.cc 84–100; `topk` and `order_by` with more than one argument are resolved by the type of the first one (expression.cc 251–255). -/
def methods : List (List Char × Meth) :=
  [(filterText, .filter), (headText, .head), (tailText, .tail), (orderByText, .orderBy), (topkText, .topk), (concatText, .concat)]

/-- A call on table `r`: the arguments are evaluated from left to right (compiler_expressions.cc 62–72). -/
def callOn {P : Type} (L : Lib P) (S : Schema P) (w : TWorld P) (r : Nat) (m : List Char) (es : Exprs) : Except TErr (TWorld P × Nat) :=
  match methods.lookup m, es with
  | some .filter, .cons e .nil => (evalArg L S w e).bind fun q => doFilter L q.1 r q.2
  | some .head, .cons e .nil => (evalNum L w (.int .u32) e).bind fun k => (wordOf k).bind fun k => doHead w r k.toNat
  | some .tail, .cons e .nil => (evalNum L w (.int .u32) e).bind fun k => (wordOf k).bind fun k => doTail w r k.toNat
  | some .orderBy, .cons e (.cons d .nil) => (evalArg L S w e).bind fun q => (evalNum L q.1 .bit d).bind fun d => (wordOf d).bind fun d => doOrder L q.1 r q.2 (d != 0)
  | some .topk, .cons e (.cons k (.cons d .nil)) => (evalArg L S w e).bind fun q => (evalNum L q.1 (.int .u32) k).bind fun k => (wordOf k).bind fun k =>
      (evalNum L q.1 .bit d).bind fun d => (wordOf d).bind fun d => doTopk L q.1 r q.2 k.toNat (d != 0)
  | some .concat, .cons e .nil => doConcat w r e
  | _, _ => .error .unmodelled

def runChain {P : Type} (L : Lib P) (S : Schema P) : TWorld P → Nat → Members → Except TErr (TWorld P × Nat)
  | w, r, .nil => .ok (w, r)
  | w, r, .cons (.method m es) ms => (callOn L S w r m es).bind fun q => runChain L S q.1 q.2 ms
  | _, _, _ => .error .unmodelled

/-- An expression whose value is a table. -/
def runTab {P : Type} (L : Lib P) (S : Schema P) (w : TWorld P) (t : Tree) : Except TErr (TWorld P × Nat) := match t with
  | .atom (.var x) => match w.tabs.lookup x with
    | some i => .ok (w, i)
    | none => .error (.code .compile)
  | .atom (.access x ms) => match w.tabs.lookup x with
    | some i => runChain L S w i ms
    | none => .error (.code .compile)
  | _ => .error .unmodelled

/-- A name that is in use, expression.cc 178–186. -/
def TWorld.taken {P : Type} (w : TWorld P) (x : Name) : Bool := (w.tabs.lookup x).isSome || (w.nums.lookup x).isSome || decide (x ∈ w.ctx)

/-- The compiler validates all statements before it generates code; each statement is validated, compiled and run in turn here. A new variable is the value itself (value.cc 50–77), and gets the
schema of its table (expression.cc 471–473). -/
def runSt {P : Type} (L : Lib P) (S : Schema P) (w : TWorld P) : Expr → Except TErr (TWorld P)
  | .bin (.un none (.define y)) .assign r => if w.taken y = true then .error (.code .compile)
      else (runTab L S w r.toTree).bind fun q => .ok { q.1 with tabs := (y, q.2) :: q.1.tabs }
  | _ => .error .unmodelled

def runBody {P : Type} (L : Lib P) (S : Schema P) : TWorld P → Stmts → Except TErr (Tbl.Table P)
  | w, .cons (.retVal e) _ => (runTab L S w e.toTree).bind fun q => match q.1.objs[q.2]? with
    | some o => .ok o.rows
    | none => .error .ub
  | w, .cons (.expr f) ss => (runSt L S w f).bind fun w' => runBody L S w' ss
  | _, _ => .error .unmodelled

/-- `DefineFunction`, codegen.cc 383–414: the parameters are the first variables. Contexts are left out of `args`. -/
def enter {P : Type} (S : Schema P) : TWorld P → List (List Char × Name) → List (TArg P) → Except TErr (TWorld P)
  | w, [], [] => .ok w
  | w, p :: ps, args => if w.taken p.2 = true then .error (.code .compile) else
    if p.1 = contextText then enter S { w with ctx := p.2 :: w.ctx } ps args
    else if p.1 = tableText S then match args with
      | .table t :: args => enter S { w with objs := w.objs ++ [⟨t, fun _ => []⟩], tabs := (p.2, w.objs.length) :: w.tabs } ps args
      | _ => .error .unmodelled
    else match typeNamed p.1, args with
      | some (false, .other), .str _ z :: args => enter S { w with nums := w.nums ++ [(p.2, .other, .word z)] } ps args
      | some (false, t), .num v :: args => enter S { w with nums := w.nums ++ [(p.2, t, v.enc)] } ps args
      | _, _ => .error .unmodelled
  | _, _, _ => .error .unmodelled

/-- Compiling and calling a function that returns a table. -/
def runFn {P : Type} (cfg : Cfg) (L : Lib P) (S : Schema P) (src : List Char) (args : List (TArg P)) : Except TErr (Tbl.Table P) :=
  match parseFunctions cfg src with
  | .ok [h] _ => if h.ret = tableText S then (enter S ⟨[], [], [], []⟩ h.params args).bind fun w => runBody L S w h.body else .error .unmodelled
  | _ => .error (.code .compile)

/-! ## What is assumed -/

/-- Fresh memory has the size asked for; pointers have at most eight lanes; the sorting library applies the same permutation to keys and values, which puts the keys in order if all of them can be
compared. -/
structure Lib.Ok {P : Type} (L : Lib P) : Prop where
  mem : ∀ k, (L.mem k).length = k
  lanes : 0 < L.lanes ∧ L.lanes ≤ 8
  sort : ∀ (t : Ty) (desc : Bool) (l : List Val) (idx : List Nat), (∀ v ∈ l, v.Has t) → idx.length = l.length →
    ∃ σ : List Nat, σ.Perm (List.range l.length) ∧ L.sort t.p desc (l.map Val.enc) idx = ((σ.filterMap fun i => l[i]?).map Val.enc, σ.filterMap fun i => idx[i]?) ∧
      ((∀ v ∈ l, leq v v) → (σ.filterMap fun i => l[i]?).Pairwise (before desc))
  topk : ∀ (t : Ty) (desc : Bool) (k : Nat) (l : List Val) (idx : List Nat), (∀ v ∈ l, v.Has t) → idx.length = l.length → k ≤ l.length →
    ∃ σ : List Nat, σ.Perm (List.range l.length) ∧ L.topk t.p desc k (l.map Val.enc) idx = ((σ.filterMap fun i => l[i]?).map Val.enc, σ.filterMap fun i => idx[i]?) ∧
      ((∀ v ∈ l, leq v v) → ((σ.take k).filterMap fun i => l[i]?).Pairwise (before desc) ∧
        ∀ v ∈ (σ.take k).filterMap (fun i => l[i]?), ∀ w ∈ (σ.drop k).filterMap (fun i => l[i]?), before desc v w)

/-- What a call is to give. -/
def outcome {P : Type} : Option (List (Row P)) → Except TErr (List (Row P))
  | some rows => .ok rows
  | none => .error (.code .trap)

end Verif.Comp.TableFn
