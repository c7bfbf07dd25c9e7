import Verif.Ast.Parser
/-!
# Validation of statements: C33, C89

`/repo/rapidudf/ast/statement.cc` 20–115, `/repo/rapidudf/ast/context.cc` 52–54, `/repo/rapidudf/ast/grammar.cc` 909–925. The validation of expressions
(`/repo/rapidudf/ast/expression.cc`) is a parameter: a function that takes a state (local variables, recorded calls), may change it, and returns a type or an error. It does not touch
the loop counter (context.cc 52–54 are called in statement.cc only). The counter is a natural number instead of 32 bits: 2^32 nested loops do not fit into a source.
-/
namespace Verif.Ast.Validate

inductive Err where
  /-- an expression is invalid -/
  | expr
  /-- the type of a condition is not a truth value -/
  | cond
  /-- a returned type cannot be converted -/
  | ret
  /-- `break` or `continue` outside a loop -/
  | jump
  /-- a function name is used twice -/
  | dup
deriving DecidableEq

/-- The validation of expressions and the tests on types. -/
structure Types (σ T : Type) where
  check : σ → Expr → σ × Option T
  isBit : T → Bool
  canCast : T → T → Bool

/-- What validation returns: no error or an error, the state, and the loop counter. -/
abbrev Res (σ : Type) := Option Err × σ × Nat

/-- Go on only after success (`if (!status.ok()) return status;`). -/
def Res.next {σ : Type} (r : Res σ) (f : σ → Nat → Res σ) : Res σ :=
  match r with
  | (none, s, d) => f s d
  | (some e, s, d) => (some e, s, d)

/-- The condition of `ChoiceStatement::Validate`, statement.cc 43–51. -/
def vCond {σ T : Type} (ty : Types σ T) (c : Expr) (s : σ) (d : Nat) : Res σ :=
  match ty.check s c with
  | (s', none) => (some .expr, s', d)
  | (s', some t) => if ty.isBit t = true then (none, s', d) else (some .cond, s', d)

/-- `ExpressionStatement::Validate`, statement.cc 32–41. -/
def vExpr {σ T : Type} (ty : Types σ T) (e : Expr) (s : σ) (d : Nat) : Res σ :=
  match ty.check s e with
  | (s', none) => (some .expr, s', d)
  | (s', some _) => (none, s', d)

/-- `ReturnStatement::Validate` with an expression, statement.cc 75–89; `ret` is what `GetFuncReturnDType` returns. -/
def vRet {σ T : Type} (ty : Types σ T) (ret : T) (e : Expr) (s : σ) (d : Nat) : Res σ :=
  match ty.check s e with
  | (s', none) => (some .expr, s', d)
  | (s', some t) => if ty.canCast t ret = true then (none, s', d) else (some .ret, s', d)

/-- `BreakStatement::Validate` and `ContinueStatement::Validate`, statement.cc 100–115. -/
def vJump {σ : Type} (s : σ) (d : Nat) : Res σ := if d > 0 then (none, s, d) else (some .jump, s, d)

/-- `ExitLoop`, context.cc 54, after the body whatever its status, statement.cc 93–98. -/
def leave {σ : Type} (r : Res σ) : Res σ := (r.1, r.2.1, r.2.2 - 1)

mutual
/-- One statement, statement.cc 32–115. -/
def vStmt {σ T : Type} (ty : Types σ T) (ret : T) : Stmt → σ → Nat → Res σ
  | .cont, s, d => vJump s d
  | .brk, s, d => vJump s d
  | .ret, s, d => (none, s, d)
  | .retVal e, s, d => vRet ty ret e s d
  | .whileLoop c b, s, d => leave ((vCond ty c s (d + 1)).next fun s d => vStmts ty ret b s d)
  | .ifElse c b es el, s, d =>
    (vCond ty c s d).next fun s d => (vStmts ty ret b s d).next fun s d => (vElifs ty ret es s d).next fun s d => vElse ty ret el s d
  | .expr e, s, d => vExpr ty e s d
/-- `check_statements`, statement.cc 20–30. -/
def vStmts {σ T : Type} (ty : Types σ T) (ret : T) : Stmts → σ → Nat → Res σ
  | .nil, s, d => (none, s, d)
  | .cons st ss, s, d => (vStmt ty ret st s d).next fun s d => vStmts ty ret ss s d
/-- The loop over the `elif` parts, statement.cc 63–68. -/
def vElifs {σ T : Type} (ty : Types σ T) (ret : T) : Elifs → σ → Nat → Res σ
  | .nil, s, d => (none, s, d)
  | .cons c b es, s, d => (vCond ty c s d).next fun s d => (vStmts ty ret b s d).next fun s d => vElifs ty ret es s d
/-- The `else` part, statement.cc 69–72. -/
def vElse {σ T : Type} (ty : Types σ T) (ret : T) : Else → σ → Nat → Res σ
  | .none, s, d => (none, s, d)
  | .some b, s, d => vStmts ty ret b s d
end

/-- A function with the types resolved. -/
structure Fn (T : Type) where
  name : List Char
  ret : T
  body : Stmts

/-- The loop over all functions of a source, grammar.cc 909–925. Every function has its own state and loop counter (`GetFunctionParseContext(current_function_cursor_)`), but the
return type is always that of function 0 (`GetFuncReturnDType(uint32_t idx = 0)`, context.h 76, called without argument in statement.cc 83): `ret0`. -/
def vFuncs {σ T : Type} (ty : Types σ T) (ret0 : T) (init : Fn T → σ) : List (List Char) → List (Fn T) → Option Err
  | _, [] => none
  | names, f :: fs =>
    match vStmts ty ret0 f.body (init f) 0 with
    | (some e, _, _) => some e
    | (none, _, _) => if f.name ∈ names then some .dup else vFuncs ty ret0 init (f.name :: names) fs

/-- `parse_functions_ast`, validation part. -/
def validateFunctions {σ T : Type} (ty : Types σ T) (init : Fn T → σ) (fs : List (Fn T)) : Option Err :=
  match fs with
  | [] => none
  | f :: _ => vFuncs ty f.ret init [] fs

/-! ## Specification -/

mutual
/-- Every `break` and `continue` is inside a loop; the flag says whether the statement itself is. -/
def Stmt.jumpsOk : Bool → Stmt → Prop
  | l, .cont => l = true
  | l, .brk => l = true
  | _, .ret => True
  | _, .retVal _ => True
  | _, .whileLoop _ b => Stmts.jumpsOk true b
  | l, .ifElse _ b es el => Stmts.jumpsOk l b ∧ Elifs.jumpsOk l es ∧ Else.jumpsOk l el
  | _, .expr _ => True
def Stmts.jumpsOk : Bool → Stmts → Prop
  | _, .nil => True
  | l, .cons s ss => Stmt.jumpsOk l s ∧ Stmts.jumpsOk l ss
def Elifs.jumpsOk : Bool → Elifs → Prop
  | _, .nil => True
  | l, .cons _ b es => Stmts.jumpsOk l b ∧ Elifs.jumpsOk l es
def Else.jumpsOk : Bool → Else → Prop
  | _, .none => True
  | l, .some b => Stmts.jumpsOk l b
end

/-! ## Proofs -/

variable {σ T : Type}

/-- The result of validating something at loop depth `d`: the counter is as before, success implies the jumps are right, and right jumps are not complained about. -/
def Fine (r : Res σ) (d : Nat) (p : Prop) : Prop := r.2.2 = d ∧ (r.1 = none → p) ∧ (p → r.1 ≠ some .jump)

theorem Fine.next {r : Res σ} {d : Nat} {p q : Prop} {f : σ → Nat → Res σ} (h : Fine r d p) (hf : ∀ s, Fine (f s d) d q) : Fine (r.next f) d (p ∧ q) := by
  obtain ⟨e, s, d'⟩ := r
  obtain ⟨h1, h2, h3⟩ := h
  simp only at h1 h2 h3
  subst h1
  cases e with
  | none =>
    obtain ⟨g1, g2, g3⟩ := hf s
    exact ⟨g1, fun h => ⟨h2 rfl, g2 h⟩, fun h => g3 h.2⟩
  | some e => exact ⟨rfl, by simp [Res.next], fun h => h3 h.1⟩

theorem Fine.mono {r : Res σ} {d : Nat} {p q : Prop} (h : Fine r d p) (hpq : p ↔ q) : Fine r d q := ⟨h.1, fun x => hpq.1 (h.2.1 x), fun x => h.2.2 (hpq.2 x)⟩

theorem vCond_fine (ty : Types σ T) (c : Expr) (s : σ) (d : Nat) : Fine (vCond ty c s d) d True := by
  unfold vCond Fine
  split
  · simp
  · split <;> simp

theorem vExpr_fine (ty : Types σ T) (c : Expr) (s : σ) (d : Nat) : Fine (vExpr ty c s d) d True := by
  unfold vExpr Fine
  split <;> simp

theorem vRet_fine (ty : Types σ T) (ret : T) (c : Expr) (s : σ) (d : Nat) : Fine (vRet ty ret c s d) d True := by
  unfold vRet Fine
  split
  · simp
  · split <;> simp

theorem vJump_fine (s : σ) (d : Nat) : Fine (vJump s d) d (decide (d > 0) = true) := by
  unfold vJump Fine
  split
  · rename_i h; simpa using h
  · rename_i h; simp [h]

mutual
theorem vStmt_fine (ty : Types σ T) (ret : T) (st : Stmt) (s : σ) (d : Nat) : Fine (vStmt ty ret st s d) d (Stmt.jumpsOk (decide (d > 0)) st) := by
  match st with
  | .cont => rw [vStmt, Stmt.jumpsOk]; exact vJump_fine s d
  | .brk => rw [vStmt, Stmt.jumpsOk]; exact vJump_fine s d
  | .ret => rw [vStmt, Stmt.jumpsOk]; exact ⟨rfl, by simp, by simp⟩
  | .retVal e => rw [vStmt, Stmt.jumpsOk]; exact vRet_fine ty ret e s d
  | .whileLoop c b =>
    rw [vStmt, Stmt.jumpsOk]
    have h := Fine.next (vCond_fine ty c s (d + 1)) (fun s => vStmts_fine ty ret b s (d + 1))
    have hd : decide (d + 1 > 0) = true := by simp
    rw [hd] at h
    obtain ⟨h1, h2, h3⟩ := h
    exact ⟨by show _ - 1 = d; rw [h1]; rfl, fun x => (h2 x).2, fun x => h3 ⟨trivial, x⟩⟩
  | .ifElse c b es el =>
    rw [vStmt, Stmt.jumpsOk]
    refine Fine.mono (Fine.next (vCond_fine ty c s d) fun s => Fine.next (vStmts_fine ty ret b s d) fun s => Fine.next (vElifs_fine ty ret es s d) fun s => vElse_fine ty ret el s d) ?_
    simp
  | .expr e => rw [vStmt, Stmt.jumpsOk]; exact vExpr_fine ty e s d
theorem vStmts_fine (ty : Types σ T) (ret : T) (ss : Stmts) (s : σ) (d : Nat) : Fine (vStmts ty ret ss s d) d (Stmts.jumpsOk (decide (d > 0)) ss) := by
  match ss with
  | .nil => rw [vStmts, Stmts.jumpsOk]; exact ⟨rfl, by simp, by simp⟩
  | .cons st ss => rw [vStmts, Stmts.jumpsOk]; exact Fine.next (vStmt_fine ty ret st s d) fun s => vStmts_fine ty ret ss s d
theorem vElifs_fine (ty : Types σ T) (ret : T) (es : Elifs) (s : σ) (d : Nat) : Fine (vElifs ty ret es s d) d (Elifs.jumpsOk (decide (d > 0)) es) := by
  match es with
  | .nil => rw [vElifs, Elifs.jumpsOk]; exact ⟨rfl, by simp, by simp⟩
  | .cons c b es =>
    rw [vElifs, Elifs.jumpsOk]
    refine Fine.mono (Fine.next (vCond_fine ty c s d) fun s => Fine.next (vStmts_fine ty ret b s d) fun s => vElifs_fine ty ret es s d) ?_
    simp
theorem vElse_fine (ty : Types σ T) (ret : T) (el : Else) (s : σ) (d : Nat) : Fine (vElse ty ret el s d) d (Else.jumpsOk (decide (d > 0)) el) := by
  match el with
  | .none => rw [vElse, Else.jumpsOk]; exact ⟨rfl, by simp, by simp⟩
  | .some b => rw [vElse, Else.jumpsOk]; exact vStmts_fine ty ret b s d
end

/-- **C33.** In an accepted function every `break` and `continue` is inside a loop, whatever the expressions are. -/
theorem accepted_jumps_in_loops (ty : Types σ T) (ret : T) (body : Stmts) (s : σ) (h : (vStmts ty ret body s 0).1 = none) : Stmts.jumpsOk false body :=
  (vStmts_fine ty ret body s 0).2.1 h

/-- **C33.** A function whose `break` and `continue` are all inside loops is not refused because of them. -/
theorem jumps_in_loops_not_refused (ty : Types σ T) (ret : T) (body : Stmts) (s : σ) (h : Stmts.jumpsOk false body) : (vStmts ty ret body s 0).1 ≠ some .jump :=
  (vStmts_fine ty ret body s 0).2.2 h

/-- **C33.** Validation leaves the loop counter as it was, also when it fails. -/
theorem loop_depth_restored (ty : Types σ T) (ret : T) (body : Stmts) (s : σ) (d : Nat) : (vStmts ty ret body s d).2.2 = d := (vStmts_fine ty ret body s d).1

/-- **C33** for whole sources. -/
theorem accepted_functions_jumps (ty : Types σ T) (init : Fn T → σ) (fs : List (Fn T)) (h : validateFunctions ty init fs = none) : ∀ f ∈ fs, Stmts.jumpsOk false f.body := by
  have key : ∀ (r : T) (fs : List (Fn T)) names, vFuncs ty r init names fs = none → ∀ f ∈ fs, Stmts.jumpsOk false f.body := by
    intro r fs
    induction fs with
    | nil => intro _ _ f hf; simp at hf
    | cons g fs ih =>
      intro names h f hf
      unfold vFuncs at h
      split at h
      · simp at h
      · rename_i hg
        split at h
        · simp at h
        · rcases List.mem_cons.1 hf with rfl | hf
          · exact accepted_jumps_in_loops ty r f.body (init f) (by rw [hg])
          · exact ih _ h f hf
  unfold validateFunctions at h
  split at h
  · intro f hf; simp at hf
  · exact key _ _ _ h

/-- `while (x) { if (x) { break; } continue; }` is accepted by `jumpsOk`, `break;` alone is not. -/
example : Stmts.jumpsOk false (.cons (.whileLoop (.un none (.var ['x'])) (.cons (.ifElse (.un none (.var ['x'])) (.cons .brk .nil) .nil .none) (.cons .cont .nil))) .nil) ∧
    ¬ Stmts.jumpsOk false (.cons .brk .nil) := by
  simp [Stmts.jumpsOk, Stmt.jumpsOk, Elifs.jumpsOk, Else.jumpsOk]

/-! ## C89: returns and the declared type -/

mutual
/-- Specification, with the types of expressions fixed: every expression has a type, conditions are truth values, returned types convert to `ret`. -/
def Stmt.typed (typ : Expr → Option T) (isBit : T → Bool) (canCast : T → T → Bool) (ret : T) : Stmt → Prop
  | .cont => True
  | .brk => True
  | .ret => True
  | .retVal e => ∃ t, typ e = some t ∧ canCast t ret = true
  | .whileLoop c b => (∃ t, typ c = some t ∧ isBit t = true) ∧ Stmts.typed typ isBit canCast ret b
  | .ifElse c b es el => (∃ t, typ c = some t ∧ isBit t = true) ∧ Stmts.typed typ isBit canCast ret b ∧ Elifs.typed typ isBit canCast ret es ∧ Else.typed typ isBit canCast ret el
  | .expr e => ∃ t, typ e = some t
def Stmts.typed (typ : Expr → Option T) (isBit : T → Bool) (canCast : T → T → Bool) (ret : T) : Stmts → Prop
  | .nil => True
  | .cons s ss => Stmt.typed typ isBit canCast ret s ∧ Stmts.typed typ isBit canCast ret ss
def Elifs.typed (typ : Expr → Option T) (isBit : T → Bool) (canCast : T → T → Bool) (ret : T) : Elifs → Prop
  | .nil => True
  | .cons c b es => (∃ t, typ c = some t ∧ isBit t = true) ∧ Stmts.typed typ isBit canCast ret b ∧ Elifs.typed typ isBit canCast ret es
def Else.typed (typ : Expr → Option T) (isBit : T → Bool) (canCast : T → T → Bool) (ret : T) : Else → Prop
  | .none => True
  | .some b => Stmts.typed typ isBit canCast ret b
end

/-- Expression validation without state. -/
def plain (typ : Expr → Option T) (isBit : T → Bool) (canCast : T → T → Bool) : Types Unit T := ⟨fun s e => (s, typ e), isBit, canCast⟩

theorem next_ok {r : Res σ} {f : σ → Nat → Res σ} : (r.next f).1 = none ↔ r.1 = none ∧ (f r.2.1 r.2.2).1 = none := by
  obtain ⟨e, s, d⟩ := r
  cases e <;> simp [Res.next]

section
variable (typ : Expr → Option T) (isBit : T → Bool) (canCast : T → T → Bool) (ret : T)

theorem vCond_typed (c : Expr) (d : Nat) : (vCond (plain typ isBit canCast) c () d).1 = none ↔ ∃ t, typ c = some t ∧ isBit t = true := by
  unfold vCond plain
  cases h : typ c with
  | none => simp [h]
  | some t => by_cases hb : isBit t = true <;> simp [h, hb]

mutual
theorem vStmt_typed (st : Stmt) (d : Nat) : (vStmt (plain typ isBit canCast) ret st () d).1 = none ↔ Stmt.typed typ isBit canCast ret st ∧ Stmt.jumpsOk (decide (d > 0)) st := by
  match st with
  | .cont => rw [vStmt, Stmt.typed, Stmt.jumpsOk]; unfold vJump; split <;> simp_all
  | .brk => rw [vStmt, Stmt.typed, Stmt.jumpsOk]; unfold vJump; split <;> simp_all
  | .ret => rw [vStmt, Stmt.typed, Stmt.jumpsOk]; simp
  | .retVal e =>
    rw [vStmt, Stmt.typed, Stmt.jumpsOk]
    unfold vRet plain
    cases h : typ e with
    | none => simp [h]
    | some t => by_cases hb : canCast t ret = true <;> simp [h, hb]
  | .whileLoop c b =>
    rw [vStmt, Stmt.typed, Stmt.jumpsOk]
    have hb := vStmts_typed b (d + 1)
    have hd : decide (d + 1 > 0) = true := by simp
    rw [hd] at hb
    have : (leave ((vCond (plain typ isBit canCast) c () (d + 1)).next fun s d => vStmts (plain typ isBit canCast) ret b s d)).1 =
      ((vCond (plain typ isBit canCast) c () (d + 1)).next fun s d => vStmts (plain typ isBit canCast) ret b s d).1 := rfl
    rw [this, next_ok, vCond_typed, (vCond_fine _ c () (d + 1)).1, hb, and_assoc]
  | .ifElse c b es el =>
    rw [vStmt, Stmt.typed, Stmt.jumpsOk, next_ok, vCond_typed, (vCond_fine _ c () d).1, next_ok, vStmts_typed b, (vStmts_fine _ ret b _ d).1, next_ok, vElifs_typed es,
      (vElifs_fine _ ret es _ d).1, vElse_typed el]
    constructor
    · rintro ⟨h1, ⟨h2, h3⟩, ⟨h4, h5⟩, h6, h7⟩; exact ⟨⟨h1, h2, h4, h6⟩, h3, h5, h7⟩
    · rintro ⟨⟨h1, h2, h4, h6⟩, h3, h5, h7⟩; exact ⟨h1, ⟨h2, h3⟩, ⟨h4, h5⟩, h6, h7⟩
  | .expr e =>
    rw [vStmt, Stmt.typed, Stmt.jumpsOk]
    unfold vExpr plain
    cases h : typ e <;> simp [h]
theorem vStmts_typed (ss : Stmts) (d : Nat) : (vStmts (plain typ isBit canCast) ret ss () d).1 = none ↔ Stmts.typed typ isBit canCast ret ss ∧ Stmts.jumpsOk (decide (d > 0)) ss := by
  match ss with
  | .nil => rw [vStmts, Stmts.typed, Stmts.jumpsOk]; simp
  | .cons st ss =>
    rw [vStmts, Stmts.typed, Stmts.jumpsOk, next_ok, vStmt_typed st, (vStmt_fine _ ret st _ d).1, vStmts_typed ss]
    constructor
    · rintro ⟨⟨h1, h2⟩, h3, h4⟩; exact ⟨⟨h1, h3⟩, h2, h4⟩
    · rintro ⟨⟨h1, h3⟩, h2, h4⟩; exact ⟨⟨h1, h2⟩, h3, h4⟩
theorem vElifs_typed (es : Elifs) (d : Nat) : (vElifs (plain typ isBit canCast) ret es () d).1 = none ↔ Elifs.typed typ isBit canCast ret es ∧ Elifs.jumpsOk (decide (d > 0)) es := by
  match es with
  | .nil => rw [vElifs, Elifs.typed, Elifs.jumpsOk]; simp
  | .cons c b es =>
    rw [vElifs, Elifs.typed, Elifs.jumpsOk, next_ok, vCond_typed, (vCond_fine _ c () d).1, next_ok, vStmts_typed b, (vStmts_fine _ ret b _ d).1, vElifs_typed es]
    constructor
    · rintro ⟨h1, ⟨h2, h3⟩, h4, h5⟩; exact ⟨⟨h1, h2, h4⟩, h3, h5⟩
    · rintro ⟨⟨h1, h2, h4⟩, h3, h5⟩; exact ⟨h1, ⟨h2, h3⟩, h4, h5⟩
theorem vElse_typed (el : Else) (d : Nat) : (vElse (plain typ isBit canCast) ret el () d).1 = none ↔ Else.typed typ isBit canCast ret el ∧ Else.jumpsOk (decide (d > 0)) el := by
  match el with
  | .none => rw [vElse, Else.typed, Else.jumpsOk]; simp
  | .some b => rw [vElse, Else.typed, Else.jumpsOk, vStmts_typed b]
end
end

theorem vFuncs_typed (typ : Expr → Option T) (isBit : T → Bool) (canCast : T → T → Bool) (r : T) (fs : List (Fn T)) : ∀ names,
    vFuncs (plain typ isBit canCast) r (fun _ => ()) names fs = none ↔
      (∀ f ∈ fs, Stmts.typed typ isBit canCast r f.body ∧ Stmts.jumpsOk false f.body) ∧ (fs.map (·.name)).Nodup ∧ ∀ f ∈ fs, f.name ∉ names := by
  induction fs with
  | nil => intro names; simp [vFuncs]
  | cons f fs ih =>
    intro names
    have hf := vStmts_typed typ isBit canCast r f.body 0
    unfold vFuncs
    split
    · rename_i e s d he
      rw [he] at hf
      simp at hf
      simp only [List.mem_cons, reduceCtorEq, false_iff]
      intro hc
      exact hf (hc.1 f (.inl rfl)).1 (hc.1 f (.inl rfl)).2
    · rename_i s d he
      rw [he] at hf
      simp at hf
      by_cases hn : f.name ∈ names
      · rw [if_pos hn]
        simp only [reduceCtorEq, false_iff]
        intro hc
        exact hc.2.2 f (by simp) hn
      · rw [if_neg hn, ih]
        simp only [List.map_cons, List.nodup_cons, List.mem_cons, forall_eq_or_imp, not_or, List.mem_map, not_exists, not_and]
        constructor
        · rintro ⟨h1, h2, h3⟩
          exact ⟨⟨hf, h1⟩, ⟨fun x hx he => (h3 x hx).1 he, h2⟩, hn, fun x hx => (h3 x hx).2⟩
        · rintro ⟨⟨_, h1⟩, ⟨h4, h2⟩, _, h3⟩
          exact ⟨h1, h2, fun x hx => ⟨fun he => h4 x hx he, h3 x hx⟩⟩

/-- What is accepted, exactly: function names are different, jumps are in loops, and every `return` converts to the return type **of the first function**. -/
theorem functions_accepted_iff (typ : Expr → Option T) (isBit : T → Bool) (canCast : T → T → Bool) (f : Fn T) (fs : List (Fn T)) :
    validateFunctions (plain typ isBit canCast) (fun _ => ()) (f :: fs) = none ↔
      (∀ g ∈ f :: fs, Stmts.typed typ isBit canCast f.ret g.body ∧ Stmts.jumpsOk false g.body) ∧ ((f :: fs).map (·.name)).Nodup := by
  unfold validateFunctions
  rw [vFuncs_typed]
  simp

/-- **C89, the part that holds.** If all functions of the source have the same return type, acceptance means that every function is well typed for its own return type. -/
theorem returns_own_type_partial (typ : Expr → Option T) (isBit : T → Bool) (canCast : T → T → Bool) (f : Fn T) (fs : List (Fn T)) (hr : ∀ g ∈ fs, g.ret = f.ret) :
    validateFunctions (plain typ isBit canCast) (fun _ => ()) (f :: fs) = none ↔
      (∀ g ∈ f :: fs, Stmts.typed typ isBit canCast g.ret g.body ∧ Stmts.jumpsOk false g.body) ∧ ((f :: fs).map (·.name)).Nodup := by
  rw [functions_accepted_iff]
  have : ∀ g ∈ f :: fs, g.ret = f.ret := by
    intro g hg
    rcases List.mem_cons.1 hg with rfl | hg
    · rfl
    · exact hr g hg
  constructor
  · rintro ⟨h1, h2⟩; exact ⟨fun g hg => by rw [this g hg]; exact h1 g hg, h2⟩
  · rintro ⟨h1, h2⟩; exact ⟨fun g hg => by have := h1 g hg; rwa [‹∀ g ∈ f :: fs, g.ret = f.ret› g hg] at this, h2⟩

/-- **C89, violated.** Two functions that are each well typed are refused together, because the second one's `return` is compared with the first one's type; and a pair is accepted
whose second function returns a value that cannot be converted to its type. Types: `true` and `false` with conversion only between equal types. -/
theorem returns_first_type_violated :
    let typ : Expr → Option Bool := fun e => match e with | .un none (.bool b) => some b | _ => none
    let ty := plain typ (fun _ => true) (fun a b => a == b)
    let body : Bool → Stmts := fun b => .cons (.retVal (.un none (.bool b))) .nil
    (Stmts.typed typ (fun _ => true) (fun a b => a == b) true (body true) ∧ Stmts.typed typ (fun _ => true) (fun a b => a == b) false (body false) ∧
      validateFunctions ty (fun _ => ()) [⟨['f'], true, body true⟩, ⟨['g'], false, body false⟩] = some .ret) ∧
    (¬ Stmts.typed typ (fun _ => true) (fun a b => a == b) false (body true) ∧
      validateFunctions ty (fun _ => ()) [⟨['f'], true, body true⟩, ⟨['g'], false, body true⟩] = none) := by
  refine ⟨⟨?_, ?_, ?_⟩, ?_, ?_⟩
  · simp [Stmts.typed, Stmt.typed]
  · simp [Stmts.typed, Stmt.typed]
  · simp [validateFunctions, vFuncs, vStmts, vStmt, vRet, plain, Res.next]
  · simp [Stmts.typed, Stmt.typed]
  · simp [validateFunctions, vFuncs, vStmts, vStmt, vRet, plain, Res.next]

end Verif.Ast.Validate
