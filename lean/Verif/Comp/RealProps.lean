import Verif.Comp.RealValues
import Verif.Comp.ScriptText
/-! # C152: from the text of an expression with floating point numbers and built-in functions to its value -/
namespace Verif.Comp.Real
open Verif.Ast Verif.Ast.Rpn Verif.Gen Verif.Gen.Scalar Verif.Types.Conv Verif.Comp.Pipeline
open Verif.Comp.Script (Tree.PlainT plain_of_tree NameOk)

/-! ## Lemmas: arguments -/

/-- The declared arguments as the compiler has them. -/
def params (ps : List (Name × Ty)) : List (Name × PTy) := ps.map fun q => (q.1, q.2.p)

theorem paramVars_none (ps : List (Name × PTy)) (x : Name) (h : x ∉ ps.map (·.1)) : ∀ k, paramVars k ps x = none := by
  induction ps with
  | nil => intro k; rfl
  | cons q ps ih =>
    intro k
    simp only [List.map_cons, List.mem_cons, not_or] at h
    obtain ⟨y, t⟩ := q
    rw [paramVars, ih h.2]
    simp only
    rw [if_neg h.1]

theorem paramVars_typed (ps : List (Name × PTy)) (x : Name) : ∀ k, paramVars k ps x ≠ some none := by
  induction ps with
  | nil => intro k; simp [paramVars]
  | cons q ps ih =>
    intro k
    obtain ⟨y, t⟩ := q
    rw [paramVars]
    cases h : paramVars (k + 1) ps x with
    | some b => simp only; rw [← h]; exact ih _
    | none => simp only; split <;> simp

theorem env_params (x : Name) : ∀ (ps : List (Name × Ty)) (args : List Val) (k : Nat) (slots : Nat → MV), (ps.map (·.1)).Nodup → args.length = ps.length →
    (∀ i (h : i < args.length), slots (k + i) = (args[i]).enc) →
    envOf (paramVars k (params ps)) slots x = (argType ps x).bind fun t => (argValue ps args x).map fun v => (t.p, v.enc) := by
  intro ps
  induction ps with
  | nil => intro args k slots _ _ _; rfl
  | cons q ps ih =>
    intro args k slots hn hl hs
    obtain ⟨y, t⟩ := q
    cases args with
    | nil => simp at hl
    | cons a args =>
      simp only [List.map_cons, List.nodup_cons] at hn
      have hx : paramVars (k + 1) (params ps) y = none := paramVars_none _ _ (by simpa [params] using hn.1) _
      have hstep : params ((y, t) :: ps) = (y, t.p) :: params ps := rfl
      by_cases hxy : x = y
      · subst hxy
        have h0 := hs 0 (by simp)
        have : envOf (paramVars k (params ((x, t) :: ps))) slots x = some (t.p, slots k) := by
          unfold envOf
          rw [hstep, paramVars, hx]
          simp
        rw [this]
        simp only [argType, argValue, List.map_cons, List.zip_cons_cons, List.lookup_cons, beq_self_eq_true]
        simp only [Nat.add_zero, List.getElem_cons_zero] at h0
        rw [h0]; rfl
      · have : envOf (paramVars k (params ((y, t) :: ps))) slots x = envOf (paramVars (k + 1) (params ps)) slots x := by
          unfold envOf
          rw [hstep, paramVars]
          cases hp : paramVars (k + 1) (params ps) x with
          | none => simp [hxy]
          | some b => rfl
        rw [this, ih args (k + 1) slots hn.2 (by simpa using hl) (fun i hi => by
          have := hs (i + 1) (by simpa using hi)
          rw [List.getElem_cons_succ] at this
          rw [← this]; congr 1; omega)]
        have hb : (x == y) = false := by simpa using hxy
        simp only [argType, argValue, List.map_cons, List.zip_cons_cons, List.lookup_cons, hb]

theorem args_ok (ps : List (Name × Ty)) (args : List Val) (h : Passed ps args) : ArgsOk (argType ps) (argValue ps args) := by
  intro x t ht
  induction ps generalizing args with
  | nil => simp [argType] at ht
  | cons q ps ih =>
    cases args with
    | nil => simp [Passed] at h
    | cons z args =>
      rw [Passed] at h
      obtain ⟨y, u⟩ := q
      by_cases hxy : x = y
      · subst hxy
        simp only [argType, List.lookup_cons, beq_self_eq_true, Option.some.injEq] at ht
        subst ht
        exact ⟨z, by simp only [argValue, List.map_cons, List.zip_cons_cons, List.lookup_cons, beq_self_eq_true], h.1⟩
      · have hb : (x == y) = false := by simpa using hxy
        simp only [argType, List.lookup_cons, hb] at ht
        have := ih args h.2 ht
        simpa only [argValue, List.map_cons, List.zip_cons_cons, List.lookup_cons, hb] using this

theorem tenv_params (x : Name) : ∀ (ps : List (Name × Ty)) (k : Nat), (ps.map (·.1)).Nodup → tenvOf (paramVars k (params ps)) x = (argType ps x).map Ty.p := by
  intro ps
  induction ps with
  | nil => intro k _; rfl
  | cons q ps ih =>
    intro k hn
    obtain ⟨y, t⟩ := q
    simp only [List.map_cons, List.nodup_cons] at hn
    have hx : paramVars (k + 1) (params ps) y = none := paramVars_none _ _ (by simpa [params] using hn.1) _
    have hstep : params ((y, t) :: ps) = (y, t.p) :: params ps := rfl
    by_cases hxy : x = y
    · subst hxy
      unfold tenvOf
      rw [hstep, paramVars, hx]
      simp [argType]
    · have : tenvOf (paramVars k (params ((y, t) :: ps))) x = tenvOf (paramVars (k + 1) (params ps)) x := by
        unfold tenvOf
        rw [hstep, paramVars]
        cases hp : paramVars (k + 1) (params ps) x with
        | none => simp [hxy]
        | some b => rfl
      have hb : (x == y) = false := by simpa using hxy
      rw [this, ih (k + 1) hn.2]
      simp only [argType, List.lookup_cons, hb]

theorem passed_length : ∀ (ps : List (Name × Ty)) (args : List Val), Passed ps args → args.length = ps.length
  | [], [], _ => rfl
  | q :: ps, z :: args, h => by rw [Passed] at h; simp [passed_length ps args h.2]
  | [], _ :: _, h => by simp [Passed] at h
  | _ :: _, [], h => by simp [Passed] at h

/-- What the caller gets to see of a result. -/
def shown : MV → Out
  | .poison => .undefined
  | v => .value v

/-! ## The whole way -/

theorem compile_run (fpu : Fpu) (cfg : Cfg) (ps : List (Name × Ty)) (ret : PTy) (e : Expr) (rest : List Tok) (hp : Plain arity e) (src : List Char) (hs : parseExpression cfg src = .ok e rest) :
    match (treeV arity (vSem fpu (tenvOf (paramVars 0 (params ps)))) e.toTree).bind fun _ => (treeV arity (tySem (rt fpu) (tenvOf (paramVars 0 (params ps)))) e.toTree).bind fun u => castable (rt fpu) u ret with
    | none => compile fpu cfg (params ps) ret src = none
    | some _ => ∃ code, compile fpu cfg (params ps) ret src = some code ∧ ∀ args junk,
      call fpu code junk args = match (treeM (rt fpu) arity (envOf (paramVars 0 (params ps)) fun i => args.getD i (junk i)) e.toTree).andThen (fun v => M.lift (castTV (rt fpu) ret v)) () with
        | none => .undefined
        | some r => shown r.2 := by
  have hv : ∀ n, varsE e n → paramVars 0 (params ps) n ≠ some none := fun n _ => paramVars_typed _ _ _
  have hty : TyS (paramVars 0 (params ps)) (((gExpr (rt fpu) arity e).andThen ld).andThen (castTo (rt fpu) ret)) (((tyE (rt fpu) arity (tenvOf (paramVars 0 (params ps))) e).bind some).bind fun u => castable (rt fpu) u ret)
      (fun _ _ => True) :=
    TyS.bind (TyS.bind (ty_gExpr (rt := rt fpu) arity e hp hv) fun a b hab => ty_ld hab) fun a b hab => by rw [← hab]; exact ty_castTo (rt := rt fpu) ret a
  have h3 := hty ⟨0, (params ps).length, paramVars 0 (params ps)⟩ rfl
  have e1 : tyE (rt fpu) arity (tenvOf (paramVars 0 (params ps))) e = treeV arity (tySem (rt fpu) (tenvOf (paramVars 0 (params ps)))) e.toTree := eval_tree arity _ e
  rw [e1] at h3
  have e2 : ∀ o : Option PTy, o.bind some = o := by intro o; cases o <;> rfl
  rw [e2] at h3
  unfold compile
  rw [hs]
  simp only
  rw [eval_tree]
  cases hw : treeV arity (vSem fpu (tenvOf (paramVars 0 (params ps)))) e.toTree with
  | none => rfl
  | some w =>
    simp only [Option.bind_some]
    cases hq : (treeV arity (tySem (rt fpu) (tenvOf (paramVars 0 (params ps)))) e.toTree).bind fun u => castable (rt fpu) u ret with
    | none => rw [hq] at h3; simp only at h3 ⊢; rw [h3]; rfl
    | some u =>
      rw [hq] at h3
      simp only at h3 ⊢
      obtain ⟨o, is, cs', hg, _⟩ := h3
      refine ⟨(is, o), by rw [hg]; rfl, fun args junk => ?_⟩
      have hsm : Sim (rt fpu) (paramVars 0 (params ps)) (fun i => args.getD i (junk i)) [] (((gExpr (rt fpu) arity e).andThen ld).andThen (castTo (rt fpu) ret))
          (((eagerE (rt fpu) arity (envOf (paramVars 0 (params ps)) fun i => args.getD i (junk i)) e).andThen M.ret).andThen fun v => M.lift (castTV (rt fpu) ret v)) (fun r o u => opdAt r o = some u) :=
        Sim.bind (Sim.bind (sim_gExpr (rt := rt fpu) arity e hp hv []) (stat_gExpr (rt := rt fpu) arity e hp hv) fun ext a b hd => sim_ld hd) ((stat_gExpr (rt := rt fpu) arity e hp hv).bind fun _ => stat_ld _)
          fun ext a b hd => sim_castTo ret hd
      have h5 := hsm ⟨0, (params ps).length, paramVars 0 (params ps)⟩ rfl rfl o is cs' hg ()
      rw [M.then_ret, eager_tree] at h5
      unfold call
      simp only
      cases hm : (treeM (rt fpu) arity (envOf (paramVars 0 (params ps)) fun i => args.getD i (junk i)) e.toTree).andThen (fun v => M.lift (castTV (rt fpu) ret v)) () with
      | none => rw [hm] at h5; simp only at h5 ⊢; rw [h5]
      | some r =>
        rw [hm] at h5
        obtain ⟨ext, h6, _, h7⟩ := h5
        simp only
        rw [h6]
        simp only [opd_at]
        rw [h7]
        cases r.2 <;> rfl

theorem env_ok (ps : List (Name × Ty)) (hn : (ps.map (·.1)).Nodup) (args : List Val) (junk : Nat → MV) (hl : args.length = ps.length) :
    EnvOk (argType ps) (argValue ps args) (envOf (paramVars 0 (params ps)) fun i => (args.map Val.enc).getD i (junk i)) :=
  fun x t v ht hv => by rw [env_params x ps args 0 _ hn hl fun i h => by simp [h], ht, hv]; rfl

/-! ## C152 -/

theorem shown_enc (v : Val) : shown v.enc = .value v.enc := by cases v <;> rfl

/-- **C152.** An expression over booleans, integers and floating point numbers with built-in functions, in any text that is read as it. If it has no type, or one that cannot be converted to
the return type, nothing is compiled. Otherwise it is compiled, and a call with any arguments of the declared types returns its value converted to the return type; the call is undefined
only where the value or the conversion is. -/
theorem real_expression (fpu : Fpu) (cfg : Cfg) (ps : List (Name × Ty)) (hn : (ps.map (·.1)).Nodup) (ret : Ty) (p : Ex) (hl : p.Lits fpu) (hg : p.Guarded (argType ps)) (hv : p.Level (argType ps))
    (src : List Char) (hs : ReadsAs cfg src p) :
    match p.type (argType ps) with
    | none => compile fpu cfg (params ps) ret.p src = none
    | some τ => if converts ret τ = true then ∃ code, compile fpu cfg (params ps) ret.p src = some code ∧ ∀ args junk, Passed ps args →
        call fpu code junk (args.map Val.enc) = match (p.value fpu (argType ps) (argValue ps args)).bind (conv fpu ret) with
          | none => .undefined
          | some z => .value z.enc
      else compile fpu cfg (params ps) ret.p src = none := by
  obtain ⟨e, rest, h1, h2⟩ := hs
  have h := compile_run fpu cfg ps ret.p e rest (plain_of_tree _ e (plain_ex p _ h2)) src h1
  have ht := seen_ex fpu (argType ps) (tenvOf (paramVars 0 (params ps))) (fun x => tenv_params x ps 0 hn) p hl hv e.toTree h2
  cases hp : p.type (argType ps) with
  | none =>
    simp only
    rcases ht.none hp with h3 | h3
    · rw [h3] at h; exact h
    · rw [h3] at h
      cases hq : treeV arity (vSem fpu (tenvOf (paramVars 0 (params ps)))) e.toTree with
      | none => rw [hq] at h; exact h
      | some _ => rw [hq] at h; exact h
  | some τ =>
    obtain ⟨h3, u, h4, _⟩ := ht.some hp
    rw [h3, h4] at h
    simp only [Option.bind_some, castable_conv] at h ⊢
    split
    · next hc =>
      rw [if_pos hc] at h
      obtain ⟨code, h5, h6⟩ := h
      refine ⟨code, h5, fun args junk ha => ?_⟩
      have hlen := passed_length ps args ha
      have hok := args_ok ps args ha
      rw [h6, value_ex fpu hok (env_ok ps hn args junk hlen) p hl hg τ _ hp h2]
      cases hw : p.value fpu (argType ps) (argValue ps args) with
      | none => rfl
      | some w =>
        have h7 := castTV_conv fpu hc (has_ex fpu hok p hl τ w hp hw)
        simp only [Option.map_some, M.lift_some, Option.bind_some]
        rw [h7]
        cases hz : conv fpu ret w with
        | none => rfl
        | some z => exact shown_enc z
    · next hc => rw [if_neg hc] at h; exact h

/-! ### Every expression can be written -/

/-- Literals are in the range of the parser, and names are such that the grammar admits them. -/
def Ex.Writable (cfg : Cfg) : Ex → Prop
  | .lit ds _ => cfg.inRange ds = true
  | .frac ip fp _ => cfg.inRange (fracText ip fp) = true
  | .const _ => True
  | .var x => NameOk cfg x
  | .neg a => a.Writable cfg
  | .not a => a.Writable cfg
  | .arith _ a b => a.Writable cfg ∧ b.Writable cfg
  | .rel _ a b => a.Writable cfg ∧ b.Writable cfg
  | .and a b => a.Writable cfg ∧ b.Writable cfg
  | .or a b => a.Writable cfg ∧ b.Writable cfg
  | .pick c a b => c.Writable cfg ∧ a.Writable cfg ∧ b.Writable cfg
  | .fn1 f a => NameOk cfg f.name ∧ a.Writable cfg
  | .fn2 f a b => NameOk cfg f.name ∧ a.Writable cfg ∧ b.Writable cfg
  | .fn3 f a b c => NameOk cfg f.name ∧ a.Writable cfg ∧ b.Writable cfg ∧ c.Writable cfg

/-- An expression as it may be written. -/
def Ex.tree : Ex → Tree
  | .lit ds s => .atom (.num (withSuffix ds s))
  | .frac ip fp s => .atom (.num (withSuffix (fracText ip fp) s))
  | .const b => .atom (.bool b)
  | .var x => .atom (.var x)
  | .neg a => .un .neg a.tree
  | .not a => .un .not a.tree
  | .arith o a b => .bin a.tree o.sign b.tree
  | .rel o a b => .bin a.tree o.sign b.tree
  | .and a b => .bin a.tree .and b.tree
  | .or a b => .bin a.tree .or b.tree
  | .pick c a b => .sel c.tree a.tree b.tree
  | .fn1 f a => .atom (.call f.name (.cons a.tree.toExpr .nil))
  | .fn2 f a b => .atom (.call f.name (.cons a.tree.toExpr (.cons b.tree.toExpr .nil)))
  | .fn3 f a b c => .atom (.call f.name (.cons a.tree.toExpr (.cons b.tree.toExpr (.cons c.tree.toExpr .nil))))

theorem suf_alnum (s : Suf) : ∀ c ∈ s.text, isAlphaNum c = true := by
  rcases s with t | F
  · exact suffix_alnum t
  · cases F <;> decide

theorem suf_known (s : Suf) : numberSuffixes.contains s.text = true := by
  rcases s with t | F
  · exact suffix_known t
  · cases F <;> decide

theorem number_ok (cfg : Cfg) (ds : List Char) (h0 : ds ≠ []) (h : ∀ c ∈ ds, c ≠ '_') (s : Option Suf) (hr : cfg.inRange ds = true) : numberOk cfg (withSuffix ds s) = true := by
  unfold numberOk
  rw [split_suffix ds h0 h s]
  cases s with
  | none => exact hr
  | some s => simp only [Option.map_some]; rw [suf_known, hr]; rfl

theorem lit_text (ip : List Char) (b : List Char) (h0 : ip ≠ []) (h1 : ∀ c ∈ ip, isDigit c = true) (h2 : b = [] ∨ ∃ ds, b = '.' :: ds ∧ ds ≠ [] ∧ ∀ c ∈ ds, isDigit c = true) (s : Option Suf) :
    NumberText (withSuffix (ip ++ b) s) := by
  cases s with
  | none => exact ⟨ip, b, [], by simp [withSuffix], h1, h2, .inl h0, .inl rfl⟩
  | some s => exact ⟨ip, b, '_' :: s.text, by simp [withSuffix], h1, h2, .inl h0, .inr ⟨_, rfl, suf_alnum s⟩⟩

theorem digit_us {ds : List Char} (h : ∀ c ∈ ds, isDigit c = true) : ∀ c ∈ ds, c ≠ '_' := fun c hc he => by have := h c hc; rw [he] at this; simp [isDigit] at this

theorem ex_tree (fpu : Fpu) (cfg : Cfg) (p : Ex) (hl : p.Lits fpu) (hn : p.Writable cfg) : p.tree.WF cfg ∧ p.Is p.tree := by
  induction p with
  | lit ds s =>
    rw [Ex.tree, Tree.WF, Operand.WF]
    have h := lit_text ds [] hl.1 hl.2.1 (.inl rfl) s
    rw [List.append_nil] at h
    exact ⟨⟨⟨h, number_ok cfg ds hl.1 (digit_us hl.2.1) s hn⟩, by simp⟩, rfl⟩
  | frac ip fp s =>
    rw [Ex.tree, Tree.WF, Operand.WF]
    refine ⟨⟨⟨lit_text ip ('.' :: fp) hl.1 hl.2.2.1 (.inr ⟨fp, rfl, hl.2.1, hl.2.2.2.1⟩) s, number_ok cfg _ (by simp [fracText]) (frac_chars hl.2.2.1 hl.2.2.2.1) s hn⟩, by simp⟩, rfl⟩
  | const b => rw [Ex.tree, Tree.WF, Operand.WF]; exact ⟨⟨trivial, by simp⟩, rfl⟩
  | var x => rw [Ex.tree, Tree.WF, Operand.WF]; exact ⟨⟨hn, by simp⟩, rfl⟩
  | neg a ih => rw [Ex.tree, Tree.WF]; have h := ih hl hn; exact ⟨h.1, _, rfl, h.2⟩
  | not a ih => rw [Ex.tree, Tree.WF]; have h := ih hl hn; exact ⟨h.1, _, rfl, h.2⟩
  | arith o a b iha ihb => rw [Ex.tree, Tree.WF]; have h := iha hl.1 hn.1; have k := ihb hl.2 hn.2; exact ⟨⟨h.1, k.1⟩, _, _, rfl, h.2, k.2⟩
  | rel o a b iha ihb => rw [Ex.tree, Tree.WF]; have h := iha hl.1 hn.1; have k := ihb hl.2 hn.2; exact ⟨⟨h.1, k.1⟩, _, _, rfl, h.2, k.2⟩
  | and a b iha ihb => rw [Ex.tree, Tree.WF]; have h := iha hl.1 hn.1; have k := ihb hl.2 hn.2; exact ⟨⟨h.1, k.1⟩, _, _, rfl, h.2, k.2⟩
  | or a b iha ihb => rw [Ex.tree, Tree.WF]; have h := iha hl.1 hn.1; have k := ihb hl.2 hn.2; exact ⟨⟨h.1, k.1⟩, _, _, rfl, h.2, k.2⟩
  | pick c a b ihc iha ihb =>
    rw [Ex.tree, Tree.WF]
    have g := ihc hl.1 hn.1; have h := iha hl.2.1 hn.2.1; have k := ihb hl.2.2 hn.2.2
    exact ⟨⟨g.1, h.1, k.1⟩, _, _, _, rfl, g.2, h.2, k.2⟩
  | fn1 f a ih =>
    have h := ih hl hn.2
    have s := toExpr_spec cfg _ h.1
    rw [Ex.tree, Tree.WF, Operand.WF, Exprs.WF, Exprs.WF]
    exact ⟨⟨⟨hn.1.1, hn.1.2, s.1, trivial⟩, by simp⟩, _, rfl, by rw [s.2]; exact h.2⟩
  | fn2 f a b iha ihb =>
    have h := iha hl.1 hn.2.1
    have k := ihb hl.2 hn.2.2
    have s := toExpr_spec cfg _ h.1
    have r := toExpr_spec cfg _ k.1
    rw [Ex.tree, Tree.WF, Operand.WF, Exprs.WF, Exprs.WF, Exprs.WF]
    exact ⟨⟨⟨hn.1.1, hn.1.2, s.1, r.1, trivial⟩, by simp⟩, _, _, rfl, by rw [s.2]; exact h.2, by rw [r.2]; exact k.2⟩
  | fn3 f a b c iha ihb ihc =>
    have h := iha hl.1 hn.2.1
    have k := ihb hl.2.1 hn.2.2.1
    have g := ihc hl.2.2 hn.2.2.2
    have s := toExpr_spec cfg _ h.1
    have r := toExpr_spec cfg _ k.1
    have q := toExpr_spec cfg _ g.1
    rw [Ex.tree, Tree.WF, Operand.WF, Exprs.WF, Exprs.WF, Exprs.WF, Exprs.WF]
    exact ⟨⟨⟨hn.1.1, hn.1.2, s.1, r.1, q.1, trivial⟩, by simp⟩, _, _, _, rfl, by rw [s.2]; exact h.2, by rw [r.2]; exact k.2, by rw [q.2]; exact g.2⟩

/-- **C152.** Every expression has such a text. -/
theorem every_real_expression_has_text (fpu : Fpu) (cfg : Cfg) (p : Ex) (hl : p.Lits fpu) (hn : p.Writable cfg) : ∃ src, ReadsAs cfg src p := by
  have h0 := ex_tree fpu cfg p hl hn
  obtain ⟨e, h1, h2⟩ := parse_tree cfg p.tree h0.1
  exact ⟨_, e, [], h1, by rw [h2]; exact h0.2⟩

theorem reads_of (fpu : Fpu) (cfg : Cfg) (src : List Char) (p : Ex) (hl : p.Lits fpu) (hn : p.Writable cfg) (hs : sourceToks src = sourceToks (writeTokens p.tree.toExpr.print)) : ReadsAs cfg src p := by
  have h0 := ex_tree fpu cfg p hl hn
  obtain ⟨e, h1, h2⟩ := parse_tree cfg p.tree h0.1
  refine ⟨e, [], ?_, by rw [h2]; exact h0.2⟩
  rw [← h1]
  unfold parseExpression
  rw [hs]

/-! ### An instance: `max(sqrt(x + n), 2) * 1.5_f32` with `x` a 32-bit floating point number and `n` a 32-bit integer -/

def exR : Ex := .arith .mul (.fn2 .max (.fn1 .sqrt (.arith .add (.var ['x']) (.var ['n']))) (.lit ['2'] none)) (.frac ['1'] ['5'] (some (.flt .f32)))
def exRArgs : List (Name × Ty) := [(['x'], .flt .f32), (['n'], .int .i32)]
def exRText : List Char := "max(sqrt(x+n), 2) * 1.5_f32".toList

/-- One and a half. -/
def oneHalf : Flt.Fl Flt.f64 := ⟨false, 0x3FF8000000000000, by decide⟩

theorem oneHalf_small : Small oneHalf := by unfold Small; decide +kernel
theorem oneHalf_frac : oneHalf.value % Flt.f64.one ≠ 0 := by decide +kernel

theorem exR_lits (fpu : Fpu) (h : fpu.read ['1', '.', '5'] = oneHalf) : exR.Lits fpu := by
  simp only [exR, Ex.Lits, fracText, List.cons_append, List.nil_append, h]
  refine ⟨⟨by simp, by decide⟩, by decide, by decide, by decide, by decide, oneHalf_small, by simp⟩
theorem exR_writable : exR.Writable exCfg := by
  have n1 : Script.NameOk exCfg ['x'] := ⟨⟨⟨'x', [], rfl, by decide, by simp⟩, by decide⟩, by decide⟩
  have n2 : Script.NameOk exCfg ['n'] := ⟨⟨⟨'n', [], rfl, by decide, by simp⟩, by decide⟩, by decide⟩
  have n3 : Script.NameOk exCfg (Fn1.name .sqrt) := ⟨⟨⟨'s', ['q', 'r', 't'], rfl, by decide, by decide⟩, by decide⟩, by decide⟩
  have n4 : Script.NameOk exCfg (Fn2.name .max) := ⟨⟨⟨'m', ['a', 'x'], rfl, by decide, by decide⟩, by decide⟩, by decide⟩
  exact ⟨⟨n4, ⟨n3, n1, n2⟩, rfl⟩, rfl⟩

theorem exR_reads (fpu : Fpu) (h : fpu.read ['1', '.', '5'] = oneHalf) : ReadsAs exCfg exRText exR :=
  reads_of fpu exCfg exRText exR (exR_lits fpu h) exR_writable (by decide +kernel)

example (fpu : Fpu) (h : fpu.read ['1', '.', '5'] = oneHalf) : ∃ code, compile fpu exCfg (params exRArgs) (.flt .f64) exRText = some code ∧ ∀ junk x n, IntOps.Fits .i32 n →
    call fpu code junk [.flt .f32 x, .word n] = .value (.flt .f64 (fpu.resize .f32 .f64 (fpu.arith .mul .f32
      (fpu.fn2 .max .f32 (fpu.fn1 .sqrt .f32 (fpu.arith .add .f32 (fpu.resize .f32 .f32 x) (Flt.ofInt Flt.f32 n))) (Flt.ofInt Flt.f32 2)) (fpu.resize .f64 .f32 oneHalf)))) := by
  have h0 := real_expression fpu exCfg exRArgs (by decide) (.flt .f64) exR (exR_lits fpu h) (by simp [exR, Ex.Guarded]) (by simp [exR, Ex.Level, Ex.Even]) exRText (exR_reads fpu h)
  rw [show exR.type (argType exRArgs) = some (.flt .f32) from by decide] at h0
  obtain ⟨code, h1, h2⟩ := h0
  refine ⟨code, h1, fun junk x n hn => ?_⟩
  refine (h2 [.flt .f32 x, .int n] junk ⟨rfl, hn, trivial⟩).trans ?_
  have t1 : (Ex.var ['x']).type (argType exRArgs) = some (.flt .f32) := by decide
  have t2 : (Ex.arith .add (.var ['x']) (.var ['n'])).type (argType exRArgs) = some (.flt .f32) := by decide
  have t3 : (Ex.fn2 .max (.fn1 .sqrt (.arith .add (.var ['x']) (.var ['n']))) (.lit ['2'] none)).type (argType exRArgs) = some (.flt .f32) := by decide
  have t4 : exR.type (argType exRArgs) = some (.flt .f32) := by decide
  have e2 : argValue exRArgs [.flt .f32 x, .int n] ['x'] = some (.flt .f32 x) := rfl
  have e3 : argValue exRArgs [.flt .f32 x, .int n] ['n'] = some (.int n) := rfl
  have e4 : decimal ['2'] = 2 := by decide
  unfold exR at t4 ⊢
  simp only [Ex.value, t1, t2, t3, t4, e2, e3, e4, Option.bind_some, conv, arithV, flt_self, Fn1.calc, Fn2.calc, Option.map_some, Suf.value, fracText, List.cons_append, List.nil_append, h, fpu.resize_same]
  rfl

/-- There is such arithmetic. -/
example : ∃ fpu : Fpu, fpu.read ['1', '.', '5'] = oneHalf :=
  ⟨{ read := fun _ => oneHalf, resize := fun F G x => if h : F = G then h ▸ x else Flt.ofInt G.fmt 0, resize_same := fun F x => by simp, arith := fun _ _ x _ => x, fn1 := fun _ _ x => x,
     fn2 := fun _ _ x _ => x, fn3 := fun _ _ x _ _ => x }, rfl⟩

/-- `x ? 1 : 2.5` with a number `x`, and a boolean where a number is returned, are not compiled. -/
example (fpu : Fpu) : compile fpu exCfg (params exRArgs) (.int .i32) "x ? 1 : 2".toList = none ∧ compile fpu exCfg (params exRArgs) (.int .i32) "x < n".toList = none := by
  have n1 : Script.NameOk exCfg ['x'] := ⟨⟨⟨'x', [], rfl, by decide, by simp⟩, by decide⟩, by decide⟩
  have n2 : Script.NameOk exCfg ['n'] := ⟨⟨⟨'n', [], rfl, by decide, by simp⟩, by decide⟩, by decide⟩
  have l1 : (Ex.lit ['1'] none).Lits fpu := ⟨by simp, by decide⟩
  have l2 : (Ex.lit ['2'] none).Lits fpu := ⟨by simp, by decide⟩
  refine ⟨?_, ?_⟩
  · have h := real_expression fpu exCfg exRArgs (by decide) (.int .i32) (.pick (.var ['x']) (.lit ['1'] none) (.lit ['2'] none)) ⟨trivial, l1, l2⟩ ⟨trivial, trivial, trivial⟩ ⟨trivial, trivial, trivial⟩ "x ? 1 : 2".toList
      (reads_of fpu exCfg _ _ ⟨trivial, l1, l2⟩ ⟨n1, rfl, rfl⟩ (by decide +kernel))
    rw [show (Ex.pick (.var ['x']) (.lit ['1'] none) (.lit ['2'] none)).type (argType exRArgs) = none from by decide] at h
    exact h
  · have h := real_expression fpu exCfg exRArgs (by decide) (.int .i32) (.rel .lt (.var ['x']) (.var ['n'])) ⟨trivial, trivial⟩ ⟨trivial, trivial⟩ ⟨trivial, trivial⟩ "x < n".toList
      (reads_of fpu exCfg _ _ ⟨trivial, trivial⟩ ⟨n1, n2⟩ (by decide +kernel))
    rw [show (Ex.rel .lt (.var ['x']) (.var ['n'])).type (argType exRArgs) = some .bool from by decide] at h
    exact h

end Verif.Comp.Real
