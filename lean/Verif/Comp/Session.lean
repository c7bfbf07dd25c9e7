/-
The compiler object between two compilations: the parse context that survives from one
request to the next, the functions known to a script, and the two tables (checker, code
generator) in which the name of a called function is looked up.

  * `ParseContext` (ast/context.h 41–137, ast/context.cc 29–36, 38–42, 56–92, 135–144, 167–197)
  * `Function::Validate` (ast/function.cc 33–52), entry points `parse_function_ast`,
    `parse_functions_ast`, `parse_expression_ast` (ast/grammar.cc 849–968)
  * `JitCompiler::CompileSource`, `CompileFunction`, `CompileExpression`, `CompileFunctions`,
    `NewCodegen` (compiler/compiler.cc 36–136, compiler/compiler.h 79–155)
  * `CodeGen::DeclareExternFunctions`, `DefineFunction`, `CallFunction`, `GetFunctionPtr`
    (compiler/codegen.cc 174–182, 284–419, 602–640)

Simplified: the body of a function is the list of the effects it has on these tables, in the
order in which validation (and later code generation) meets them: a definition of a variable,
a use of a variable, a call of a function.  Types, member functions and the implicit
conversions are left out here.
-/
namespace Verif.Session

/-- What validation of a statement does to the tables. -/
inductive Ev
  /-- `var x` -/
  | define (x : String)
  /-- a variable is read or written -/
  | use (x : String)
  /-- a function is called -/
  | call (f : String)
  deriving DecidableEq, Repr

/-- A parsed function (ast/function.h): its name, its argument names, whether one of its
arguments is a `Context` pointer, its body. -/
structure Fn where
  name : String
  args : List String
  ctx : Bool
  body : List Ev
  deriving DecidableEq, Repr

/-- The world outside of the script: the registered functions (meta/function.cc 221–231) with
"takes a Context", the names of operators (functions/functions.cc 27–45, meta/optype.h 117–213:
`max`, `add`, `abs`, …) with "is defined for these operands" (ast/expression.cc 817–845), the two functions that are declared in every module
(compiler/codegen.cc 291–304) and the named constants (meta/constants.h 22). -/
structure Reg where
  find : String → Option Bool
  op : String → Option Bool
  fixed : List String
  consts : List String

/-- The function a call ends up in: the `i`-th function of the script, an operator or a
registered function. -/
inductive Target
  | script (i : Nat)
  | operator (f : String)
  | registered (f : String)
  deriving DecidableEq, Repr

inductive Err
  | exists_ (x : String)
  | noVar (x : String)
  | noFunc (f : String)
  | noContext (f : String)
  | duplicate (f : String)
  | noSymbol (f : String)
  | syntax_
  deriving DecidableEq, Repr

/-! ### The parse context -/

/-- `ParseContext::FunctionParseContext` (ast/context.h 111–118).  A default-constructed
description has the empty name, which no call can have: modelled as `none`. -/
structure FCtx where
  vars : List String := []
  calls : List String := []
  name : Option String := none
  ctx : Bool := false

/-- `ParseContext` (ast/context.h 41–137): the per-function contexts and the cursor.  The
vector grows on access with default-constructed elements (120–126): modelled as a total
function. -/
structure PCtx where
  fs : Nat → FCtx := fun _ => {}
  cursor : Nat := 0

/-- change one per-function context -/
def PCtx.set (c : PCtx) (i : Nat) (g : FCtx → FCtx) : PCtx :=
  { c with fs := fun j => if j = i then g (c.fs j) else c.fs j }

/-- `ParseContext::Clear` (ast/context.cc 29–36): the cursor keeps its value. -/
def PCtx.clear (c : PCtx) : PCtx := { c with fs := fun _ => {} }

/-- `ParseContext::SetSource(src, true)` (ast/context.cc 56–72) -/
def PCtx.setSource (c : PCtx) : PCtx := { c with fs := fun _ => {} }

/-- `ParseContext::SetSource(src, false)` (ast/context.cc 56–72): only the recorded calls are
dropped. -/
def PCtx.setSourceKeep (c : PCtx) : PCtx :=
  { c with fs := fun j => { c.fs j with calls := [] } }

/-- `ParseContext::SetFuncDesc` (ast/context.cc 38–42) -/
def PCtx.setDesc (c : PCtx) (f : Fn) (i : Nat) : PCtx :=
  c.set i fun x => { x with name := some f.name, ctx := f.ctx }

/-- `IsVarExist(name, true)` followed by `AddLocalVar` (ast/context.cc 74–92, 135–144; used by
`VarDefine::Validate` and `Function::Validate`; compiler.h 143 refuses likewise) -/
def PCtx.define (c : PCtx) (x : String) : Except Err PCtx :=
  if x ∈ (c.fs c.cursor).vars then .error (.exists_ x)
  else .ok (c.set c.cursor fun g => { g with vars := x :: g.vars })

/-- `IsVarExist(name, false)` (ast/context.cc 74–92) -/
def PCtx.use (reg : Reg) (c : PCtx) (x : String) : Except Err Unit :=
  if x ∈ (c.fs c.cursor).vars then .ok ()
  else if x ∈ reg.consts then .ok ()
  else .error (.noVar x)

/-- The loop of `CheckFuncExist` over the contexts up to the cursor (ast/context.cc 170–177) -/
def PCtx.local? (c : PCtx) (f : String) : Option Nat :=
  (List.range (c.cursor + 1)).find? fun i => (c.fs i).name == some f

/-- `ParseContext::CheckFuncExist` (ast/context.cc 167–197) -/
def PCtx.check (reg : Reg) (c : PCtx) (f : String) : Except Err (Target × PCtx) :=
  match c.local? f with
  | some i =>
    if (c.fs i).ctx && !(c.fs c.cursor).ctx then .error (.noContext f)
    else .ok (.script i, c)
  | none =>
    match reg.find f with
    | none => .error (.noFunc f)
    | some need =>
      if need && !(c.fs c.cursor).ctx then .error (.noContext f)
      else .ok (.registered f, c.set c.cursor fun g => { g with calls := f :: g.calls })

/-- `VarAccessor::Validate` for a call (ast/expression.cc 761–781, 817–845): the name of an
operator is an operator, whatever functions there are. -/
def PCtx.checkCall (reg : Reg) (c : PCtx) (f : String) : Except Err (Target × PCtx) :=
  match reg.op f with
  | some true => .ok (.operator f, c)
  | some false => .error (.noFunc f)
  | none => c.check reg f

/-- Validation of a body, with the functions the checker took the calls to mean. -/
def validateBody (reg : Reg) : PCtx → List Ev → Except Err (List Target × PCtx)
  | c, [] => .ok ([], c)
  | c, .define x :: es =>
    match c.define x with
    | .error e => .error e
    | .ok c' => validateBody reg c' es
  | c, .use x :: es =>
    match c.use reg x with
    | .error e => .error e
    | .ok () => validateBody reg c es
  | c, .call f :: es =>
    match c.checkCall reg f with
    | .error e => .error e
    | .ok (t, c') =>
      match validateBody reg c' es with
      | .error e => .error e
      | .ok (ts, c'') => .ok (t :: ts, c'')

/-- The arguments become local variables. -/
def defineArgs : PCtx → List String → Except Err PCtx
  | c, [] => .ok c
  | c, x :: xs =>
    match c.define x with
    | .error e => .error e
    | .ok c' => defineArgs c' xs

/-- `Function::Validate` (ast/function.cc 33–52) -/
def validateFn (reg : Reg) (c : PCtx) (f : Fn) : Except Err (List Target × PCtx) :=
  match defineArgs c f.args with
  | .error e => .error e
  | .ok c' => validateBody reg c' f.body

/-- The validation loop of `parse_functions_ast` (ast/grammar.cc 913–925): `seen` is
`func_names`.  Returns the position of the cursor when it stopped, too. -/
def validateAll (reg : Reg) : PCtx → Nat → List String → List Fn →
    Nat × Except Err (List (List Target) × PCtx)
  | c, _, _, [] => (c.cursor, .ok ([], c))
  | c, i, seen, f :: fs =>
    match validateFn reg (({ c with cursor := i } : PCtx).setDesc f i) f with
    | .error e => (i, .error e)
    | .ok (ts, c') =>
      if f.name ∈ seen then (i, .error (.duplicate f.name))
      else
        match validateAll reg c' (i + 1) (f.name :: seen) fs with
        | (k, .error e) => (k, .error e)
        | (k, .ok (tss, c'')) => (k, .ok (ts :: tss, c''))

/-! ### Code generation -/

/-- `DeclareExternFunctions` for the contexts `0 … n-1` (compiler/compiler.cc 78–94,
compiler/codegen.cc 284–321): the keys of `extern_funcs_`. -/
def externs (reg : Reg) (c : PCtx) (n : Nat) : List String :=
  reg.fixed ++ (List.range n).flatMap fun i => (c.fs i).calls

/-- `CodeGen::CallFunction` (compiler/codegen.cc 623–640): declared functions first, then the
functions of the script defined so far. -/
def genCall (ext : List String) (defs : String → Option Nat) (f : String) : Except Err Target :=
  if f ∈ ext then .ok (.registered f)
  else match defs f with
    | some i => .ok (.script i)
    | none => .error (.noSymbol f)

/-- Code for a call: an operator was flattened into an operator node (ast/expression.cc
840–845), anything else goes through `CallFunction`. -/
def genApply (reg : Reg) (ext : List String) (defs : String → Option Nat) (f : String) :
    Except Err Target :=
  match reg.op f with
  | some _ => .ok (.operator f)
  | none => genCall ext defs f

/-- Code for a body: variables through `named_values` and the constants
(compiler/codegen.cc 245–268). -/
def genBody (reg : Reg) (ext : List String) (defs : String → Option Nat) :
    List String → List Ev → Except Err (List Target)
  | _, [] => .ok []
  | vs, .define x :: es => genBody reg ext defs (x :: vs) es
  | vs, .use x :: es =>
    if x ∈ vs ∨ x ∈ reg.consts then genBody reg ext defs vs es else .error (.noVar x)
  | vs, .call f :: es =>
    match genApply reg ext defs f with
    | .error e => .error e
    | .ok t =>
      match genBody reg ext defs vs es with
      | .error e => .error e
      | .ok ts => .ok (t :: ts)

/-- The loop of `CompileFunctions` (compiler/compiler.cc 100–103) with `DefineFunction`
(compiler/codegen.cc 358–419), which enters the function into `funcs_` before its body. -/
def genAll (reg : Reg) (ext : List String) : (String → Option Nat) → Nat → List Fn →
    Except Err (List (List Target))
  | _, _, [] => .ok []
  | defs, i, f :: fs =>
    let defs' := fun n => if n = f.name then some i else defs n
    match genBody reg ext defs' f.args.reverse f.body with
    | .error e => .error e
    | .ok ts =>
      match genAll reg ext defs' (i + 1) fs with
      | .error e => .error e
      | .ok tss => .ok (ts :: tss)

/-- What a compilation gives: for every function the functions its calls were checked against
and the functions they run, and the function found under each name by `GetFunctionPtr`
(compiler/codegen.cc 174–182: a script function whose name is already declared gets another
symbol name from LLVM, so that the declared function is found). -/
structure Code where
  checked : List (List Target)
  run : List (List Target)
  entry : List Target
  deriving DecidableEq, Repr

/-- `CompileFunctions` (compiler/compiler.cc 73–110) -/
def compileFns (reg : Reg) (c : PCtx) (checked : List (List Target)) (fs : List Fn) :
    Except Err Code :=
  match genAll reg (externs reg c fs.length) (fun _ => none) 0 fs with
  | .error e => .error e
  | .ok run =>
    .ok { checked, run,
          entry := (List.range fs.length).zipWith
            (fun i f => if f.name ∈ externs reg c fs.length then .registered f.name else .script i)
            fs }

/-! ### Requests -/

inductive Req
  /-- `CompileSource` of several functions -/
  | source (fs : List Fn)
  /-- `CompileFunction` of one function -/
  | function (f : Fn)
  /-- `CompileExpression`: the arguments and the body of the generated function
  `rapidudf_expresion` (compiler.h 50, 104–155) -/
  | expression (args : List String) (ctx : Bool) (body : List Ev)
  /-- any of them with a text that is not a program -/
  | garbage
  deriving DecidableEq, Repr

/-- `kExpressionFuncName` (compiler/compiler.h 50) -/
def exprFn (args : List String) (ctx : Bool) (body : List Ev) : Fn :=
  { name := "rapidudf_expresion", args, ctx, body }

/-- One request: the context afterwards and the answer.  After a refusal only the cursor of
the context matters (every request begins with `Clear`), the contexts of the functions are
not followed further. -/
def request (reg : Reg) (c : PCtx) : Req → PCtx × Except Err Code
  | .source fs =>
    let c := c.clear.setSource
    match validateAll reg c 0 [] fs with
    | (k, .error e) => ({ c with cursor := k }, .error e)
    | (_, .ok (ts, c')) => (c', compileFns reg c' ts fs)
  | .function f =>
    let c := (c.clear.setSource).setDesc f 0
    match validateFn reg c f with
    | .error e => (c, .error e)
    | .ok (ts, c') => (c', compileFns reg c' [ts] [f])
  | .expression args ctx body =>
    let f := exprFn args ctx body
    match defineArgs c.clear args with
    | .error e => (c.clear, .error e)
    | .ok c =>
      let c := (c.setSourceKeep).setDesc f 0
      match validateBody reg c body with
      | .error e => (c, .error e)
      | .ok (ts, c') => (c', compileFns reg c' [ts] [f])
  | .garbage => (c.clear.setSource, .error .syntax_)

/-- A compiler that has served a list of requests. -/
def after (reg : Reg) (hist : List Req) : PCtx :=
  hist.foldl (fun c q => (request reg c q).1) {}

/-- The answer to a request from a compiler that has served `hist` before. -/
def answer (reg : Reg) (hist : List Req) (r : Req) : Except Err Code :=
  (request reg (after reg hist) r).2

/-! ### Specification: names in a script -/

/-- The function of the script that a call of `f` in function `i` means: the first function
with this name up to function `i` itself. -/
def owner (fs : List Fn) (i : Nat) (f : String) : Option Nat :=
  (fs.take (i + 1)).findIdx? fun g => g.name == f

/-- The function a call of `f` in function `i` means, if it is allowed: a function of the
script written above (or `i` itself), else an operator, else a registered function; a function
with a `Context` argument only from a function with a `Context` argument. -/
def meaning (reg : Reg) (fs : List Fn) (i : Nat) (ctx : Bool) (f : String) : Option Target :=
  match owner fs i f with
  | some j => if (fs[j]?.map Fn.ctx) = some true ∧ ctx = false then none else some (.script j)
  | none =>
    match reg.op f with
    | some true => some (.operator f)
    | some false => none
    | none =>
      match reg.find f with
      | none => none
      | some need => if need = true ∧ ctx = false then none else some (.registered f)

/-- Every variable is defined once and before its uses, every call has a meaning. -/
def inScope (reg : Reg) (call : String → Option Target) : List String → List Ev → Prop
  | _, [] => True
  | vs, .define x :: es => x ∉ vs ∧ inScope reg call (x :: vs) es
  | vs, .use x :: es => (x ∈ vs ∨ x ∈ reg.consts) ∧ inScope reg call vs es
  | vs, .call f :: es => (call f).isSome ∧ inScope reg call vs es

/-- A script is well scoped. -/
def WellScoped (reg : Reg) (fs : List Fn) : Prop :=
  (fs.map Fn.name).Nodup ∧
  ∀ i f, fs[i]? = some f → f.args.Nodup ∧ inScope reg (meaning reg fs i f.ctx) f.args f.body

/-- The functions called by a body. -/
def callees (call : String → Option Target) : List Ev → List Target
  | [] => []
  | .call f :: es => (call f).toList ++ callees call es
  | _ :: es => callees call es

/-- The functions called by each function of a script. -/
def intended (reg : Reg) (fs : List Fn) : List (List Target) :=
  fs.zipIdx.map fun p => callees (meaning reg fs p.2 p.1.ctx) p.1.body

end Verif.Session
