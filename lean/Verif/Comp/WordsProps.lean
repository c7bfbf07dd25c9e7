import Verif.Comp.WordsValues
/-! # C162: from the text of an expression with strings to its value -/
namespace Verif.Comp.Words
open Verif.Ast Verif.Ast.Rpn Verif.Gen Verif.Gen.Scalar Verif.Types.Conv Verif.Types.Str
open Verif.Comp.Pipeline (Arith Rel decimal bit treeM treeV eager_tree eval_tree exCfg)
open Verif.Comp.StrLit (bytes)
open Verif.Comp.Script (Tree.PlainT plain_of_tree NameOk)
open Verif.Comp.Real (Fpu Fn1 Fn2 Suf PTy MV fracText withSuffix Small paramVars)

/-! ## Lemmas: arguments -/

/-- The declared arguments as the compiler has them. -/
def params (ps : List (Name × Ty)) : List (Name × PTy) := ps.map fun q => (q.1, q.2.p)

theorem env_params (x : Name) : ∀ (ps : List (Name × Ty)) (args : List Val) (ws : List WV) (k : Nat) (slots : Nat → WV), (ps.map (·.1)).Nodup → Passed ps args ws →
    (∀ i (h : i < ws.length), slots (k + i) = ws[i]) → ∀ τ v, argType ps x = some τ → argValue ps args x = some v →
    ∃ w, envOf (paramVars k (params ps)) slots x = some (τ.p, w) ∧ Rep v w := by
  intro ps
  induction ps with
  | nil => intro args ws k slots _ _ _ τ v ht _; simp [argType] at ht
  | cons q ps ih =>
    intro args ws k slots hn hp hs τ v ht hv
    obtain ⟨y, t⟩ := q
    match args, ws, hp with
    | z :: args, w :: ws, hp =>
      rw [Passed] at hp
      simp only [List.map_cons, List.nodup_cons] at hn
      have hx : paramVars (k + 1) (params ps) y = none := Real.paramVars_none _ _ (by simpa [params] using hn.1) _
      have hstep : params ((y, t) :: ps) = (y, t.p) :: params ps := rfl
      by_cases hxy : x = y
      · subst hxy
        have h0 := hs 0 (by simp)
        have : envOf (paramVars k (params ((x, t) :: ps))) slots x = some (t.p, slots k) := by
          unfold envOf
          rw [hstep, paramVars, hx]
          simp
        simp only [argType, argValue, List.map_cons, List.zip_cons_cons, List.lookup_cons, beq_self_eq_true, Option.some.injEq] at ht hv
        subst ht; subst hv
        simp only [Nat.add_zero, List.getElem_cons_zero] at h0
        exact ⟨w, by rw [this, h0], hp.2.1⟩
      · have : envOf (paramVars k (params ((y, t) :: ps))) slots x = envOf (paramVars (k + 1) (params ps)) slots x := by
          unfold envOf
          rw [hstep, paramVars]
          cases hp : paramVars (k + 1) (params ps) x with
          | none => simp [hxy]
          | some b => rfl
        have hb : (x == y) = false := by simpa using hxy
        simp only [argType, argValue, List.map_cons, List.zip_cons_cons, List.lookup_cons, hb] at ht hv
        rw [this]
        exact ih args ws (k + 1) slots hn.2 hp.2.2 (fun i hi => by
          have := hs (i + 1) (by simpa using hi)
          rw [List.getElem_cons_succ] at this
          rw [← this]; congr 1; omega) τ v ht hv

theorem args_ok (ps : List (Name × Ty)) (args : List Val) (ws : List WV) (h : Passed ps args ws) : ArgsOk (argType ps) (argValue ps args) := by
  intro x t ht
  induction ps generalizing args ws with
  | nil => simp [argType] at ht
  | cons q ps ih =>
    match args, ws, h with
    | z :: args, w :: ws, h =>
      rw [Passed] at h
      obtain ⟨y, u⟩ := q
      by_cases hxy : x = y
      · subst hxy
        simp only [argType, List.lookup_cons, beq_self_eq_true, Option.some.injEq] at ht
        subst ht
        exact ⟨z, by simp only [argValue, List.map_cons, List.zip_cons_cons, List.lookup_cons, beq_self_eq_true], h.1⟩
      · have hb : (x == y) = false := by simpa using hxy
        simp only [argType, List.lookup_cons, hb] at ht
        have := ih args ws h.2.2 ht
        simpa only [argValue, List.map_cons, List.zip_cons_cons, List.lookup_cons, hb] using this

theorem tenv_params (x : Name) : ∀ (ps : List (Name × Ty)) (k : Nat), (ps.map (·.1)).Nodup → tenvOf (paramVars k (params ps)) x = (argType ps x).map Ty.p := by
  intro ps
  induction ps with
  | nil => intro k _; rfl
  | cons q ps ih =>
    intro k hn
    obtain ⟨y, t⟩ := q
    simp only [List.map_cons, List.nodup_cons] at hn
    have hx : paramVars (k + 1) (params ps) y = none := Real.paramVars_none _ _ (by simpa [params] using hn.1) _
    have hstep : params ((y, t) :: ps) = (y, t.p) :: params ps := rfl
    by_cases hxy : x = y
    · subst hxy
      unfold tenvOf
      rw [hstep, paramVars, hx]
      simp [argType]
    · have : tenvOf (paramVars k (params ((y, t) :: ps))) x = tenvOf (paramVars (k + 1) (params ps)) x := by
        unfold tenvOf
        rw [hstep, paramVars]
        cases hp : paramVars (k + 1) (params ps) x with
        | none => simp [hxy]
        | some b => rfl
      have hb : (x == y) = false := by simpa using hxy
      rw [this, ih (k + 1) hn.2]
      simp only [argType, List.lookup_cons, hb]

/-! ## Lemmas: the conversion to the return type -/

theorem castable_conv (fpu : Fpu) (junk : Types.Str.Val) (a c : Ty) : castable (rt fpu junk) a.p c.p = if converts c a = true then some () else none := by
  rw [castable_same]
  cases a with
  | num a => cases c with
    | num c => exact Real.castable_conv fpu a c
    | str => cases a <;> rfl
  | str => cases c with
    | num c => cases c <;> rfl
    | str => rfl

/-- What the caller gets to see of a result. -/
def shown : WV → Out
  | .num .poison => .undefined
  | v => .value v

theorem shown_rep {v : Val} {w : WV} (h : Rep v w) : shown w = .value w := by
  cases v with
  | num v => rw [rep_num h]; cases v <;> rfl
  | str b => obtain ⟨j, rfl⟩ := rep_str h; rfl

theorem cast_conv (fpu : Fpu) (junk : Types.Str.Val) {τ ret : Ty} (hc : converts ret τ = true) {v : Val} (hv : v.Has τ) {w : WV} (hw : Rep v w) :
    ∃ x, castTV (rt fpu junk) ret.p (τ.p, w) = some x ∧ match conv fpu ret v with
      | none => shown x = .undefined
      | some z => Rep z x := by
  cases τ with
  | num a => cases ret with
    | str => cases hc
    | num c =>
      obtain ⟨v, rfl, hv⟩ := has_num hv
      rw [rep_num hw]
      refine ⟨_, (cast_num fpu junk c.p (a.p, v.enc)).trans (by rw [Real.castTV_conv fpu hc hv]; rfl), ?_⟩
      simp only [conv]
      cases Real.conv fpu c v <;> rfl
  | str => cases ret with
    | num c => cases hc
    | str =>
      obtain ⟨b, rfl, _⟩ := has_str hv
      exact ⟨w, if_pos rfl, hw⟩

/-! ## The whole way -/

theorem compile_run (fpu : Fpu) (ju : Types.Str.Val) (cfg : Cfg) (ps : List (Name × Ty)) (ret : PTy) (e : Expr) (rest : List Tok) (hp : Plain Real.arity (undotE e)) (src : List Char) (hs : parseExpression cfg src = .ok e rest) :
    match (treeV Real.arity (vSem fpu (tenvOf (paramVars 0 (params ps)))) (undotE e).toTree).bind fun _ => (treeV Real.arity (tySem (rt fpu ju) (tenvOf (paramVars 0 (params ps)))) (undotE e).toTree).bind fun u => castable (rt fpu ju) u ret with
    | none => compile fpu ju cfg (params ps) ret src = none
    | some _ => ∃ code, compile fpu ju cfg (params ps) ret src = some code ∧ ∀ slots args,
      call fpu ju code slots args = match (treeM (rt fpu ju) Real.arity (envOf (paramVars 0 (params ps)) fun i => args.getD i (slots i)) (undotE e).toTree).andThen (fun v => M.lift (castTV (rt fpu ju) ret v)) () with
        | none => .undefined
        | some r => shown r.2 := by
  have hv : ∀ n, varsE (undotE e) n → paramVars 0 (params ps) n ≠ some none := fun n _ => Real.paramVars_typed _ _ _
  have hty : TyS (paramVars 0 (params ps)) (((gExpr (rt fpu ju) Real.arity (undotE e)).andThen ld).andThen (castTo (rt fpu ju) ret)) (((tyE (rt fpu ju) Real.arity (tenvOf (paramVars 0 (params ps))) (undotE e)).bind some).bind fun u => castable (rt fpu ju) u ret)
      (fun _ _ => True) :=
    TyS.bind (TyS.bind (ty_gExpr (rt := rt fpu ju) Real.arity (undotE e) hp hv) fun a b hab => ty_ld hab) fun a b hab => by rw [← hab]; exact ty_castTo (rt := rt fpu ju) ret a
  have h3 := hty ⟨0, (params ps).length, paramVars 0 (params ps)⟩ rfl
  have e1 : tyE (rt fpu ju) Real.arity (tenvOf (paramVars 0 (params ps))) (undotE e) = treeV Real.arity (tySem (rt fpu ju) (tenvOf (paramVars 0 (params ps)))) (undotE e).toTree := eval_tree Real.arity _ (undotE e)
  rw [e1] at h3
  have e2 : ∀ o : Option PTy, o.bind some = o := by intro o; cases o <;> rfl
  rw [e2] at h3
  unfold compile
  rw [hs]
  simp only
  rw [eval_tree]
  cases hw : treeV Real.arity (vSem fpu (tenvOf (paramVars 0 (params ps)))) (undotE e).toTree with
  | none => rfl
  | some w =>
    simp only [Option.bind_some]
    cases hq : (treeV Real.arity (tySem (rt fpu ju) (tenvOf (paramVars 0 (params ps)))) (undotE e).toTree).bind fun u => castable (rt fpu ju) u ret with
    | none => rw [hq] at h3; simp only at h3 ⊢; rw [h3]; rfl
    | some u =>
      rw [hq] at h3
      simp only at h3 ⊢
      obtain ⟨o, is, cs', hg, _⟩ := h3
      refine ⟨(is, o), by rw [hg]; rfl, fun slots args => ?_⟩
      have hsm : Sim (rt fpu ju) (paramVars 0 (params ps)) (fun i => args.getD i (slots i)) [] (((gExpr (rt fpu ju) Real.arity (undotE e)).andThen ld).andThen (castTo (rt fpu ju) ret))
          (((eagerE (rt fpu ju) Real.arity (envOf (paramVars 0 (params ps)) fun i => args.getD i (slots i)) (undotE e)).andThen M.ret).andThen fun v => M.lift (castTV (rt fpu ju) ret v)) (fun r o u => opdAt r o = some u) :=
        Sim.bind (Sim.bind (sim_gExpr (rt := rt fpu ju) Real.arity (undotE e) hp hv []) (stat_gExpr (rt := rt fpu ju) Real.arity (undotE e) hp hv) fun ext a b hd => sim_ld hd) ((stat_gExpr (rt := rt fpu ju) Real.arity (undotE e) hp hv).bind fun _ => stat_ld _)
          fun ext a b hd => sim_castTo ret hd
      have h5 := hsm ⟨0, (params ps).length, paramVars 0 (params ps)⟩ rfl rfl o is cs' hg ()
      rw [M.then_ret, eager_tree] at h5
      unfold call
      simp only
      cases hm : (treeM (rt fpu ju) Real.arity (envOf (paramVars 0 (params ps)) fun i => args.getD i (slots i)) (undotE e).toTree).andThen (fun v => M.lift (castTV (rt fpu ju) ret v)) () with
      | none => rw [hm] at h5; simp only at h5 ⊢; rw [h5]
      | some r =>
        rw [hm] at h5
        obtain ⟨ext, h6, _, h7⟩ := h5
        simp only
        rw [h6]
        simp only [opd_at]
        rw [h7]
        cases r.2 with
        | num v => cases v <;> rfl
        | str _ => rfl

/-! ## C162 -/

/-- **C162.** An expression over strings, booleans and numbers, in any text that is read as it. If it has no type, or one that cannot be converted to the return type, nothing is compiled.
Otherwise it is compiled, and a call with any arguments of the declared types returns its value converted to the return type; the call is undefined only where the value or the conversion is. -/
theorem words_expression (fpu : Fpu) (junk : Types.Str.Val) (cfg : Cfg) (ps : List (Name × Ty)) (hn : (ps.map (·.1)).Nodup) (ret : Ty) (p : Ex) (hl : p.Lits fpu) (hg : p.Guarded (argType ps)) (hv : p.Even (argType ps))
    (src : List Char) (hs : ReadsAs cfg src p) :
    match p.type (argType ps) with
    | none => compile fpu junk cfg (params ps) ret.p src = none
    | some τ => if converts ret τ = true then ∃ code, compile fpu junk cfg (params ps) ret.p src = some code ∧ ∀ args ws slots, Passed ps args ws →
        match (p.value fpu (argType ps) (argValue ps args)).bind (conv fpu ret) with
        | none => call fpu junk code slots ws = .undefined
        | some z => ∃ w, call fpu junk code slots ws = .value w ∧ Rep z w
      else compile fpu junk cfg (params ps) ret.p src = none := by
  obtain ⟨e, rest, h1, h2⟩ := hs
  have h := compile_run fpu junk cfg ps ret.p e rest (plain_undot (plain_ex p _ h2)) src h1
  have ht := seen_ex fpu junk (argType ps) (tenvOf (paramVars 0 (params ps))) (fun x => tenv_params x ps 0 hn) p hl hv e.toTree h2
  rw [undot_tree] at h
  cases hp : p.type (argType ps) with
  | none =>
    simp only
    rw [hp] at ht
    rcases ht with h3 | h3
    · rw [h3] at h; exact h
    · rw [h3] at h
      cases hq : treeV Real.arity (vSem fpu (tenvOf (paramVars 0 (params ps)))) (undotT e.toTree) with
      | none => rw [hq] at h; exact h
      | some _ => rw [hq] at h; exact h
  | some τ =>
    rw [hp] at ht
    obtain ⟨h3, h4⟩ := ht
    rw [h3, h4] at h
    simp only [Option.bind_some, castable_conv] at h ⊢
    split
    · next hc =>
      rw [if_pos hc] at h
      obtain ⟨code, h5, h6⟩ := h
      refine ⟨code, h5, fun args ws slots ha => ?_⟩
      have hok := args_ok ps args ws ha
      have henv : EnvOk (argType ps) (argValue ps args) (envOf (paramVars 0 (params ps)) fun i => ws.getD i (slots i)) :=
        fun x σ v hσ hv => env_params x ps args ws 0 _ hn ha (fun i hi => by simp [hi]) σ v hσ hv
      rw [h6]
      obtain ⟨m, hm, hA⟩ := value_ex fpu junk hok henv p hl hv hg τ _ hp h2
      rw [hm]
      cases hw : p.value fpu (argType ps) (argValue ps args) with
      | none => rw [hw] at hA; rw [show m = none from hA]; rfl
      | some v =>
        rw [hw] at hA
        obtain ⟨w, rfl, hr⟩ := hA
        obtain ⟨x, hx, hx'⟩ := cast_conv fpu junk hc (has_ex fpu hok p hl hv τ v hp hw) hr
        rw [M.lift_some, hx]
        simp only [Option.bind_some]
        cases hz : conv fpu ret v with
        | none => rw [hz] at hx'; exact hx'
        | some z => rw [hz] at hx'; exact ⟨x, shown_rep hx', hx'⟩
    · next hc => rw [if_neg hc] at h; exact h

/-! ### Every expression can be written -/

/-- A field of a variable: `p.f.g`. -/
def dotted (p : Name) : List Name → Name
  | [] => p
  | f :: fs => dotted (p ++ '.' :: f) fs

/-- The parts between dots. -/
def splitDots : Name → List Name
  | [] => [[]]
  | c :: cs => if c = '.' then [] :: splitDots cs else match splitDots cs with
    | [] => [[c]]
    | w :: ws => (c :: w) :: ws

theorem split_ne (n : Name) : splitDots n ≠ [] := by
  cases n with
  | nil => simp [splitDots]
  | cons c cs =>
    rw [splitDots]
    split
    · simp
    · split <;> simp

theorem split_append (p : Name) (hp : '.' ∉ p) (r : Name) : ∀ w ws, splitDots r = w :: ws → splitDots (p ++ r) = (p ++ w) :: ws := by
  induction p with
  | nil => intro w ws h; exact h
  | cons c cs ih =>
    intro w ws h
    rw [List.mem_cons, not_or] at hp
    rw [List.cons_append, splitDots, if_neg (fun h => hp.1 h.symm), ih hp.2 w ws h]
    rfl

theorem split_plain {p : Name} (hp : '.' ∉ p) : splitDots p = [p] := by
  have := split_append p hp [] [] [] rfl
  simpa using this

theorem split_field {p : Name} (hp : '.' ∉ p) (r : Name) : splitDots (p ++ '.' :: r) = p :: splitDots r := by
  have := split_append p hp ('.' :: r) [] (splitDots r) (by rw [splitDots, if_pos rfl])
  simpa using this

theorem dotted_append (a b : Name) (fs : List Name) : dotted (a ++ b) fs = a ++ dotted b fs := by
  induction fs generalizing b with
  | nil => rfl
  | cons f fs ih => rw [dotted, dotted, List.append_assoc, ih]

theorem split_dotted (fs : List Name) : ∀ p : Name, '.' ∉ p → (∀ f ∈ fs, '.' ∉ f) → splitDots (dotted p fs) = p :: fs := by
  induction fs with
  | nil => intro p hp _; exact split_plain hp
  | cons f fs ih =>
    intro p hp hf
    rw [dotted, show p ++ '.' :: f = (p ++ ['.']) ++ f by simp, dotted_append, show (p ++ ['.']) ++ dotted f fs = p ++ '.' :: dotted f fs by simp, split_field hp,
      ih f (hf f (by simp)) fun g hg => hf g (by simp [hg])]

/-- Names are made of their parts. -/
theorem dotted_split (n : Name) : ∀ p fs, splitDots n = p :: fs → n = dotted p fs := by
  induction n with
  | nil => intro p fs h; rw [splitDots] at h; cases h; rfl
  | cons c cs ih =>
    intro p fs h
    rw [splitDots] at h
    split at h
    · next hc =>
      injection h with h1 h2
      subst h1 h2
      cases hs : splitDots cs with
      | nil => exact absurd hs (split_ne cs)
      | cons w ws => rw [dotted, hc, ih w ws hs, List.nil_append, show '.' :: w = ['.'] ++ w from rfl, dotted_append]; rfl
    · cases hs : splitDots cs with
      | nil => exact absurd hs (split_ne cs)
      | cons w ws =>
        rw [hs] at h
        injection h with h1 h2
        subst h1 h2
        rw [ih w ws hs, show c :: w = [c] ++ w from rfl, dotted_append]; rfl

theorem name_dots {n : Name} (h : IsName n) : '.' ∉ n := by
  obtain ⟨⟨c, r, rfl, h1, h2⟩, _⟩ := h
  rw [List.mem_cons, not_or]
  refine ⟨?_, fun h => ?_⟩
  · rintro rfl; exact absurd h1 (by decide)
  · rcases h2 _ h with h | h
    · exact absurd h (by decide)
    · exact absurd h (by decide)

def fieldsOf : List Name → Members → Members
  | [], ms => ms
  | f :: fs, ms => .cons (.field f) (fieldsOf fs ms)

theorem path_fields (fs : List Name) : ∀ (p : Name) (ms : Members) (x : Name) (r : Option (List Char × Exprs)), Path (dotted p fs) ms x r → Path p (fieldsOf fs ms) x r := by
  induction fs with
  | nil => intro p ms x r h; exact h
  | cons f fs ih => intro p ms x r h; exact .field (ih _ _ _ _ h)

theorem fields_wf (cfg : Cfg) (fs : List Name) (ms : Members) (hf : ∀ f ∈ fs, IsName f) (hm : ms.WF cfg) : (fieldsOf fs ms).WF cfg := by
  induction fs with
  | nil => exact hm
  | cons f fs ih => rw [fieldsOf, Members.WF, Member.WF]; exact ⟨hf f (by simp), ih fun g hg => hf g (by simp [hg])⟩

/-- The variable or field with this name, followed by more. -/
def accessTo (x : Name) (ms : Members) : Operand := match splitDots x, ms with
  | [_], .nil => .var x
  | p :: fs, ms => .access p (fieldsOf fs ms)
  | [], ms => .access x ms

/-- A variable or a field, with a name the grammar admits. -/
def PathOk (cfg : Cfg) (x : Name) : Prop := ∃ p fs, x = dotted p fs ∧ NameOk cfg p ∧ ∀ f ∈ fs, IsName f

theorem PathOk.of {cfg : Cfg} {x : Name} (h : NameOk cfg x) : PathOk cfg x := ⟨x, [], rfl, h, by simp⟩

theorem access_names {cfg : Cfg} {x : Name} (h : PathOk cfg x) : (accessTo x .nil).WF cfg ∧ Names (accessTo x .nil) x := by
  obtain ⟨p, fs, rfl, hp, hf⟩ := h
  unfold accessTo
  rw [split_dotted fs p (name_dots hp.1) fun f h => name_dots (hf f h)]
  cases fs with
  | nil => simp only; rw [Operand.WF]; exact ⟨hp, .inl rfl⟩
  | cons f fs =>
    simp only
    rw [Operand.WF]
    exact ⟨⟨hp.1, hp.2, by simp [fieldsOf], fields_wf cfg _ _ hf trivial⟩, .inr ⟨_, _, rfl, path_fields _ _ _ _ _ .here⟩⟩

theorem access_call {cfg : Cfg} {x : Name} (h : PathOk cfg x) (m : List Char) (es : Exprs) (hm : IsName m) (he : es.WF cfg) :
    ∃ p ms, accessTo x (.cons (.method m es) .nil) = .access p ms ∧ (Operand.access p ms).WF cfg ∧ Path p ms x (some (m, es)) := by
  obtain ⟨p, fs, rfl, hp, hf⟩ := h
  unfold accessTo
  rw [split_dotted fs p (name_dots hp.1) fun f h => name_dots (hf f h)]
  refine ⟨p, fieldsOf fs _, by cases fs <;> rfl, ?_, path_fields _ _ _ _ _ .call⟩
  rw [Operand.WF]
  refine ⟨hp.1, hp.2, by cases fs <;> simp [fieldsOf], fields_wf cfg _ _ hf ?_⟩
  rw [Members.WF, Members.WF, Member.WF]
  exact ⟨⟨hm, he⟩, trivial⟩

/-- Literals are in the range of the parser, and names are such that the grammar admits them. -/
def Ex.Writable (cfg : Cfg) : Ex → Prop
  | .text _ => True
  | .lit ds _ => cfg.inRange ds = true
  | .frac ip fp _ => cfg.inRange (fracText ip fp) = true
  | .const _ => True
  | .var x => PathOk cfg x
  | .op1 o a => (∀ f, o = .fn f → NameOk cfg f.name) ∧ a.Writable cfg
  | .op2 o a b => (∀ f, o = .fn f → NameOk cfg f.name) ∧ a.Writable cfg ∧ b.Writable cfg
  | .and a b => a.Writable cfg ∧ b.Writable cfg
  | .or a b => a.Writable cfg ∧ b.Writable cfg
  | .pick c a b => c.Writable cfg ∧ a.Writable cfg ∧ b.Writable cfg
  | .size x => PathOk cfg x
  | .ask _ x a => PathOk cfg x ∧ a.Writable cfg

/-- An expression as it may be written. -/
def Ex.tree : Ex → Tree
  | .text s => .atom (.str s)
  | .lit ds s => .atom (.num (withSuffix ds s))
  | .frac ip fp s => .atom (.num (withSuffix (fracText ip fp) s))
  | .const b => .atom (.bool b)
  | .var x => .atom (accessTo x .nil)
  | .op1 .neg a => .un .neg a.tree
  | .op1 .not a => .un .not a.tree
  | .op1 (.fn f) a => .atom (.call f.name (.cons a.tree.toExpr .nil))
  | .op2 (.arith o) a b => .bin a.tree o.sign b.tree
  | .op2 (.rel o) a b => .bin a.tree o.sign b.tree
  | .op2 (.fn f) a b => .atom (.call f.name (.cons a.tree.toExpr (.cons b.tree.toExpr .nil)))
  | .and a b => .bin a.tree .and b.tree
  | .or a b => .bin a.tree .or b.tree
  | .pick c a b => .sel c.tree a.tree b.tree
  | .size x => .atom (accessTo x (.cons (.method "size".toList .nil) .nil))
  | .ask m x a => .atom (accessTo x (.cons (.method m.name (.cons a.tree.toExpr .nil)) .nil))

theorem ask_name (m : Ask) : IsName m.name := by
  cases m with
  | contains => exact ⟨⟨'c', "ontains".toList, rfl, by decide, by decide⟩, by decide⟩
  | startsWith => exact ⟨⟨'s', "tarts_with".toList, rfl, by decide, by decide⟩, by decide⟩
  | endsWith => exact ⟨⟨'e', "nds_with".toList, rfl, by decide, by decide⟩, by decide⟩
  | containsIgnoringCase => exact ⟨⟨'c', "ontains_ignore_case".toList, rfl, by decide, by decide⟩, by decide⟩

theorem size_name : IsName "size".toList := ⟨⟨'s', "ize".toList, rfl, by decide, by decide⟩, by decide⟩

theorem ex_tree (fpu : Fpu) (cfg : Cfg) (p : Ex) (hl : p.Lits fpu) (hn : p.Writable cfg) : p.tree.WF cfg ∧ p.Is p.tree := by
  induction p with
  | text s => rw [Ex.tree, Tree.WF, Operand.WF]; exact ⟨⟨hl.1, by simp⟩, rfl⟩
  | lit ds s => exact Real.ex_tree fpu cfg (.lit ds s) hl hn
  | frac ip fp s => exact Real.ex_tree fpu cfg (.frac ip fp s) hl hn
  | const b => rw [Ex.tree, Tree.WF, Operand.WF]; exact ⟨⟨trivial, by simp⟩, rfl⟩
  | var x =>
    have h := access_names hn
    rw [Ex.tree, Tree.WF]
    exact ⟨⟨h.1, fun e he => by rcases h.2 with h | ⟨p, ms, h, _⟩ <;> rw [h] at he <;> cases he⟩, _, rfl, h.2⟩
  | op1 o a ih =>
    have h := ih hl hn.2
    cases o with
    | neg => rw [Ex.tree, Tree.WF]; exact ⟨h.1, _, rfl, h.2⟩
    | not => rw [Ex.tree, Tree.WF]; exact ⟨h.1, _, rfl, h.2⟩
    | fn f =>
      have s := toExpr_spec cfg _ h.1
      have n := hn.1 f rfl
      rw [Ex.tree, Tree.WF, Operand.WF, Exprs.WF, Exprs.WF]
      exact ⟨⟨⟨n.1, n.2, s.1, trivial⟩, by simp⟩, _, ⟨_, rfl, rfl⟩, by rw [s.2]; exact h.2⟩
  | op2 o a b iha ihb =>
    have h := iha hl.1 hn.2.1
    have k := ihb hl.2 hn.2.2
    cases o with
    | arith o => rw [Ex.tree, Tree.WF]; exact ⟨⟨h.1, k.1⟩, _, _, rfl, h.2, k.2⟩
    | rel o => rw [Ex.tree, Tree.WF]; exact ⟨⟨h.1, k.1⟩, _, _, rfl, h.2, k.2⟩
    | fn f =>
      have s := toExpr_spec cfg _ h.1
      have r := toExpr_spec cfg _ k.1
      have n := hn.1 f rfl
      rw [Ex.tree, Tree.WF, Operand.WF, Exprs.WF, Exprs.WF, Exprs.WF]
      exact ⟨⟨⟨n.1, n.2, s.1, r.1, trivial⟩, by simp⟩, _, _, ⟨_, _, rfl, rfl, rfl⟩, by rw [s.2]; exact h.2, by rw [r.2]; exact k.2⟩
  | and a b iha ihb => rw [Ex.tree, Tree.WF]; have h := iha hl.1 hn.1; have k := ihb hl.2 hn.2; exact ⟨⟨h.1, k.1⟩, _, _, rfl, h.2, k.2⟩
  | or a b iha ihb => rw [Ex.tree, Tree.WF]; have h := iha hl.1 hn.1; have k := ihb hl.2 hn.2; exact ⟨⟨h.1, k.1⟩, _, _, rfl, h.2, k.2⟩
  | pick c a b ihc iha ihb =>
    rw [Ex.tree, Tree.WF]
    have g := ihc hl.1 hn.1; have h := iha hl.2.1 hn.2.1; have k := ihb hl.2.2 hn.2.2
    exact ⟨⟨g.1, h.1, k.1⟩, _, _, _, rfl, g.2, h.2, k.2⟩
  | size x =>
    obtain ⟨p, ms, h1, h2, h3⟩ := access_call hn "size".toList .nil size_name (by rw [Exprs.WF]; trivial)
    rw [Ex.tree, Tree.WF, h1]
    exact ⟨⟨h2, by simp⟩, _, _, rfl, h3⟩
  | ask m x a ih =>
    have h := ih hl hn.2
    have s := toExpr_spec cfg _ h.1
    obtain ⟨p, ms, h1, h2, h3⟩ := access_call hn.1 m.name (.cons a.tree.toExpr .nil) (ask_name m) (by rw [Exprs.WF, Exprs.WF]; exact ⟨s.1, trivial⟩)
    rw [Ex.tree, Tree.WF, h1]
    exact ⟨⟨h2, by simp⟩, _, _, _, rfl, h3, by rw [s.2]; exact h.2⟩

/-- **C162.** Every expression has such a text. -/
theorem every_words_expression_has_text (fpu : Fpu) (cfg : Cfg) (p : Ex) (hl : p.Lits fpu) (hn : p.Writable cfg) : ∃ src, ReadsAs cfg src p := by
  have h0 := ex_tree fpu cfg p hl hn
  obtain ⟨e, h1, h2⟩ := parse_tree cfg p.tree h0.1
  exact ⟨_, e, [], h1, by rw [h2]; exact h0.2⟩

theorem reads_of (fpu : Fpu) (cfg : Cfg) (src : List Char) (p : Ex) (hl : p.Lits fpu) (hn : p.Writable cfg) (hs : sourceToks src = sourceToks (writeTokens p.tree.toExpr.print)) : ReadsAs cfg src p := by
  have h0 := ex_tree fpu cfg p hl hn
  obtain ⟨e, h1, h2⟩ := parse_tree cfg p.tree h0.1
  refine ⟨e, [], ?_, by rw [h2]; exact h0.2⟩
  rw [← h1]
  unfold parseExpression
  rw [hs]

/-! ### An instance: `s.size() > 3 && s.contains("ab") ? t : "no"` with strings `s` and `t` -/

def exW : Ex := .pick (.and (.op2 (.rel .gt) (.size ['s']) (.lit ['3'] none)) (.ask .contains ['s'] (.text ['a', 'b']))) (.var ['t']) (.text ['n', 'o'])
def exWArgs : List (Name × Ty) := [(['s'], .str), (['t'], .str)]
def exWText : List Char := "s.size() > 3 && s.contains(\"ab\") ? t : \"no\"".toList

theorem exW_named : NameOk exCfg ['s'] ∧ NameOk exCfg ['t'] :=
  ⟨⟨⟨⟨'s', [], rfl, by decide, by simp⟩, by decide⟩, by decide⟩, ⟨⟨⟨'t', [], rfl, by decide, by simp⟩, by decide⟩, by decide⟩⟩

theorem exW_lits (fpu : Fpu) : exW.Lits fpu := by
  have b1 : StrBody ['a', 'b'] := .char _ _ (by decide) (by decide) (.char _ _ (by decide) (by decide) .nil)
  have b2 : StrBody ['n', 'o'] := .char _ _ (by decide) (by decide) (.char _ _ (by decide) (by decide) .nil)
  exact ⟨⟨⟨trivial, by simp, by decide⟩, b1, by decide, by decide⟩, trivial, b2, by decide, by decide⟩

theorem exW_reads (fpu : Fpu) : ReadsAs exCfg exWText exW :=
  reads_of fpu exCfg exWText exW (exW_lits fpu) ⟨⟨⟨by simp, (PathOk.of exW_named.1), rfl⟩, (PathOk.of exW_named.1), trivial⟩, (PathOk.of exW_named.2), trivial⟩ (by decide +kernel)

theorem exW_len (fpu : Fpu) (s t : List Byte) (hs : s.length < 2 ^ 31) :
    (Ex.op2 (.rel .gt) (.size ['s']) (.lit ['3'] none)).value fpu (argType exWArgs) (argValue exWArgs [.str s, .str t]) = some (.num (.bool (decide (3 < s.length)))) := by
  have t1 : (Ex.size ['s']).type (argType exWArgs) = some (.num (.int .u64)) := by decide
  have t2 : (Ex.lit ['3'] none).type (argType exWArgs) = some (.num (.int .i32)) := by decide
  have e1 : argValue exWArgs [.str s, .str t] ['s'] = some (.str s) := rfl
  have e4 : (Ex.lit ['3'] none).value fpu (argType exWArgs) (argValue exWArgs [.str s, .str t]) = some (.num (.int 3)) := by
    rw [Ex.value, Real.Ex.value, show decimal ['3'] = 3 from by decide]; rfl
  have e9 : (Ex.size ['s']).value fpu (argType exWArgs) (argValue exWArgs [.str s, .str t]) = some (.num (.int s.length)) := by rw [Ex.value, e1]; rfl
  have e5 : Pipeline.wrap .u64 (s.length : Int) = s.length := Pipeline.wrap_self ⟨by simp [IntOps.lo, IntTy.signed], by simp [IntOps.hi, IntTy.signed, IntTy.bits]; omega⟩
  have e6 : Pipeline.wrap .u64 3 = 3 := by decide
  rw [Ex.value, t1, t2, Option.bind_some, Option.bind_some, e4, e9]
  simp only [Option.bind_some, op2Value, Op2.value, show Real.join (.int .u64) (.int .i32) = some (.int .u64) from by decide, Real.conv, e5, e6, Op2.apply, Real.relV, Option.map_some, Rel.holds]
  congr 4
  apply propext
  omega

theorem exW_ask (fpu : Fpu) (s t : List Byte) :
    (Ex.ask .contains ['s'] (.text ['a', 'b'])).value fpu (argType exWArgs) (argValue exWArgs [.str s, .str t]) = some (.num (.bool (Ask.contains.ans s [97, 98]))) := by
  have e1 : argValue exWArgs [.str s, .str t] ['s'] = some (.str s) := rfl
  rw [Ex.value, e1, Option.bind_some, Ex.value, show bytes ['a', 'b'] = [97, 98] from by decide]; rfl

open Classical in
theorem exW_value (fpu : Fpu) (s t : List Byte) (hs : s.length < 2 ^ 31) :
    (exW.value fpu (argType exWArgs) (argValue exWArgs [.str s, .str t])).bind (conv fpu .str) = some (.str (if 3 < s.length ∧ ∃ pre post, s = pre ++ [97, 98] ++ post then t else [110, 111])) := by
  have ht : exW.type (argType exWArgs) = some .str := by decide
  have e2 : argValue exWArgs [.str s, .str t] ['t'] = some (.str t) := rfl
  have e3 : bytes ['n', 'o'] = [110, 111] := by decide
  unfold exW at ht ⊢
  simp only [Ex.value.eq_10, ht, Option.bind_some, Ex.value.eq_8, exW_len fpu s t hs, exW_ask, Ex.value.eq_5, Ex.value.eq_1, e2, e3]
  by_cases h3 : 3 < s.length
  · by_cases h4 : Ask.contains.True s [97, 98]
    · rw [if_pos ⟨h3, h4⟩, show Ask.contains.ans s [97, 98] = true from decide_eq_true h4, decide_eq_true h3]; rfl
    · rw [if_neg (fun h => h4 h.2), show Ask.contains.ans s [97, 98] = false from decide_eq_false h4, decide_eq_true h3]; rfl
  · rw [if_neg (fun h => h3 h.1)]; simp [h3, conv]

open Classical in
example (fpu : Fpu) (junk : Types.Str.Val) : ∃ code, compile fpu junk exCfg (params exWArgs) PTy.view exWText = some code ∧ ∀ slots j1 j2 (s t : List Byte), s.length < 2 ^ 31 → t.length < 2 ^ 31 →
    ∃ j, call fpu junk code slots [.str (SV.mk' j1 s), .str (SV.mk' j2 t)] = .value (.str (SV.mk' j (if 3 < s.length ∧ ∃ pre post, s = pre ++ [97, 98] ++ post then t else [110, 111]))) := by
  have h0 := words_expression fpu junk exCfg exWArgs (by decide) .str exW (exW_lits fpu) (by simp [exW, Ex.Guarded, Ex.Safe]) (by simp [exW, Ex.Even, Ex.type]) exWText (exW_reads fpu)
  have ht : exW.type (argType exWArgs) = some .str := by decide
  rw [ht] at h0
  obtain ⟨code, h1, h2⟩ := h0
  refine ⟨code, h1, fun slots j1 j2 s t hs hht => ?_⟩
  have h3 := h2 [.str s, .str t] [.str (SV.mk' j1 s), .str (SV.mk' j2 t)] slots ⟨hs, ⟨j1, rfl⟩, hht, ⟨j2, rfl⟩, trivial⟩
  rw [exW_value fpu s t hs] at h3
  obtain ⟨w, h4, h5⟩ := h3
  obtain ⟨j, rfl⟩ := rep_str h5
  exact ⟨j, h4⟩

/-- `s + 1`, `s < 1` and `s.size()` of a number are not compiled. -/
example (fpu : Fpu) (junk : Types.Str.Val) : compile fpu junk exCfg (params exWArgs) (.int .i32) "s + 1".toList = none ∧ compile fpu junk exCfg (params exWArgs) .bit "s < 1".toList = none := by
  have l1 : (Ex.lit ['1'] none).Lits fpu := ⟨by simp, by decide⟩
  refine ⟨?_, ?_⟩
  · have h := words_expression fpu junk exCfg exWArgs (by decide) (.num (.int .i32)) (.op2 (.arith .add) (.var ['s']) (.lit ['1'] none)) ⟨trivial, l1⟩ ⟨trivial, trivial⟩ ⟨trivial, trivial⟩ "s + 1".toList
      (reads_of fpu exCfg _ _ ⟨trivial, l1⟩ ⟨by simp, (PathOk.of exW_named.1), rfl⟩ (by decide +kernel))
    rw [show (Ex.op2 (.arith .add) (.var ['s']) (.lit ['1'] none)).type (argType exWArgs) = none from by decide] at h
    exact h
  · have h := words_expression fpu junk exCfg exWArgs (by decide) (.num .bool) (.op2 (.rel .lt) (.var ['s']) (.lit ['1'] none)) ⟨trivial, l1⟩ ⟨trivial, trivial⟩ ⟨trivial, trivial⟩ "s < 1".toList
      (reads_of fpu exCfg _ _ ⟨trivial, l1⟩ ⟨by simp, (PathOk.of exW_named.1), rfl⟩ (by decide +kernel))
    rw [show (Ex.op2 (.rel .lt) (.var ['s']) (.lit ['1'] none)).type (argType exWArgs) = none from by decide] at h
    exact h

end Verif.Comp.Words
