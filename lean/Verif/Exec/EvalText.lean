import Verif.Exec.EvalCache
import Verif.Comp.WordsProps
/-!
# Evaluating texts through the cache: C171

`eval_expression`, `/repo/rapidudf/exec/eval_engine.h` 113–173, with the compiler of `Verif.Comp.Words` (C162) in the place of the parameter of `Verif.Exec` (C02): from the text, the
argument names and the arguments of a call to the value that is returned, in every history of calls of any number of threads.

Not modelled: arguments that are dynamic objects, vectors, tables or contexts (their names come with a schema, or their values with memory). `eval_function` is any compiler of sources.
-/
namespace Verif.Exec.EvalText
open Verif.Ast hiding Ty
open Verif.Comp.Words
open Verif.Comp.Real (Fpu)
open Verif.Gen.Scalar (Name)
open Verif.Comp.Pipeline (exCfg)

/-! ## Specification -/

/-- The answer to a call: the text is refused, the value is undefined (division by zero), or a value. -/
inductive Answer where
  | refused
  | undefined
  | value (z : Val)

/-- The answer for an expression over the arguments `ps`, with the result wanted as `ret`. -/
noncomputable def answer (fpu : Fpu) (ps : List (Name × Ty)) (ret : Ty) (p : Ex) (args : List Val) : Answer :=
  match p.type (argType ps) with
  | none => .refused
  | some τ => if converts ret τ = true then match (p.value fpu (argType ps) (argValue ps args)).bind (conv fpu ret) with
    | none => .undefined
    | some z => .value z
    else .refused

/-- Expressions as in C162: literals in range, operands that may not be needed are safe, alternatives of one type. -/
structure Plain (fpu : Fpu) (ps : List (Name × Ty)) (p : Ex) : Prop where
  lits : p.Lits fpu
  guarded : p.Guarded (argType ps)
  even : p.Even (argType ps)

/-! ## Model -/

/-- What is compared by `CompareSignature`: the types of the arguments and of the result. -/
abbrev Sig := List Ty × Ty

/-- What compiled code is given, the contents of the stack and the arguments, and what it gives back. -/
inductive V where
  | given (slots : Nat → WV) (ws : List WV)
  | back (o : Comp.Words.Out)

/-- A call of compiled code. -/
def codeFn (fpu : Fpu) (junk : Types.Str.Val) (c : Comp.Words.Code) : V → V
  | .given slots ws => .back (call fpu junk c slots ws)
  | v => v

/-- `AddLocalVar` refuses a name that is there already, `/repo/rapidudf/ast/context.cc` 135–144. -/
def distinct : List Name → Bool
  | [] => true
  | x :: xs => !xs.contains x && distinct xs

/-- `CompileDynObjExpression`, `/repo/rapidudf/compiler/compiler.h` 104–157: as many names as types, no name twice, then `CompileExpression`. -/
def compileExpr (fpu : Fpu) (junk : Types.Str.Val) (cfg : Cfg) (src : List Char) (names : List Name) (sig : Sig) : Option (V → V) :=
  if names.length ≠ sig.1.length then none
  else if distinct names = false then none
  else (compile fpu junk cfg (names.zip (sig.1.map (·.p))) sig.2.p src).map (codeFn fpu junk)

/-- The compilers used by the two functions; that of sources is anything. -/
def compiler (fpu : Fpu) (junk : Types.Str.Val) (cfg : Cfg) (source : List Char → Option (List (Sig × (V → V)))) : Compiler (List Char) Sig Name V where
  expr := compileExpr fpu junk cfg
  source := source

abbrev TextCall := Call (List Char) Sig Name V
abbrev TextEv := Ev (List Char) Sig Name V
abbrev Compilers := Compiler (List Char) Sig Name V

/-- The calls of one thread after another. -/
def calls (C : Compilers) (st : St (List Char) Sig V) : List TextCall → List (TextCall × Exec.Out V)
  | [] => []
  | c :: cs => let x := evalExpr C false st c
    (c, x.2) :: calls C x.1 cs

/-- The results of a call in a history of sections: that of the first section if it found the text, that of the second one otherwise. -/
def Result (rs : List (TextEv × Exec.Out V)) (c : TextCall) (o : Exec.Out V) : Prop :=
  ((.exprLookup c, o) ∈ rs ∧ o ≠ .miss) ∨ (.exprStore c, o) ∈ rs

/-- What the caller of `eval_expression` sees is the answer. -/
def Sees : Exec.Out V → Answer → Prop
  | o, .refused => o = .error
  | o, .undefined => o = .value (.back .undefined)
  | o, .value z => ∃ w, o = .value (.back (.value w)) ∧ Rep z w

/-! ## Lemmas -/

theorem distinct_iff : ∀ xs : List Name, distinct xs = true ↔ xs.Nodup
  | [] => by simp [distinct]
  | x :: xs => by simp [distinct, distinct_iff xs]

theorem params_zip (ps : List (Name × Ty)) : (ps.map (·.1)).zip ((ps.map (·.2)).map (·.p)) = params ps := by
  induction ps with
  | nil => rfl
  | cons q ps ih => simp only [List.map_cons, List.zip_cons_cons, ih]; rfl

theorem meaning_sees (fpu : Fpu) (junk : Types.Str.Val) (cfg : Cfg) (source : List Char → Option (List (Sig × (V → V)))) (ps : List (Name × Ty)) (hn : (ps.map (·.1)).Nodup) (ret : Ty) (p : Ex)
    (hp : Plain fpu ps p) (src : List Char) (hs : ReadsAs cfg src p) (args : List Val) (ws : List WV) (ha : Passed ps args ws) (slots : Nat → WV) :
    Sees (meaning (compiler fpu junk cfg source) ⟨src, ps.map (·.1), (ps.map (·.2), ret), .given slots ws⟩) (answer fpu ps ret p args) := by
  have h := words_expression fpu junk cfg ps hn ret p hp.lits hp.guarded hp.even src hs
  have hd := (distinct_iff _).2 hn
  unfold answer meaning compiler compileExpr
  simp only [List.length_map, ne_eq, not_true_eq_false, if_false, hd, Bool.true_eq_false, params_zip]
  cases ht : p.type (argType ps) with
  | none =>
    rw [ht] at h
    simp only at h
    rw [h]; rfl
  | some τ =>
    rw [ht] at h
    simp only at h ⊢
    by_cases hc : converts ret τ = true
    · rw [if_pos hc] at h ⊢
      obtain ⟨code, h1, h2⟩ := h
      have h3 := h2 args ws slots ha
      rw [h1]
      cases hz : (p.value fpu (argType ps) (argValue ps args)).bind (conv fpu ret) with
      | none => rw [hz] at h3; simp only at h3; simp only [Option.map_some, codeFn, h3, Sees]
      | some z =>
        rw [hz] at h3
        obtain ⟨w, h4, h5⟩ := h3
        simp only [Option.map_some, codeFn, h4, Sees]
        exact ⟨w, rfl, h5⟩
    · rw [if_neg hc] at h ⊢
      rw [h]; rfl

/-- The sections of the calls of one thread. -/
def sections (C : Compilers) (st : St (List Char) Sig V) : List TextCall → List TextEv
  | [] => []
  | c :: cs => match exprLookup st c with
    | (st', .miss) => .exprLookup c :: .exprStore c :: sections C (exprStore C st' c).1 cs
    | (st', _) => .exprLookup c :: sections C st' cs

theorem sections_mem (C : Compilers) : ∀ (cs : List TextCall) (st : St (List Char) Sig V) (e : TextEv), e ∈ sections C st cs → ∃ c ∈ cs, e = .exprLookup c ∨ e = .exprStore c
  | [], _, _, h => by cases h
  | c :: cs, st, e, h => by
    unfold sections at h
    split at h
    · rcases List.mem_cons.1 h with rfl | h
      · exact ⟨c, by simp, .inl rfl⟩
      · rcases List.mem_cons.1 h with rfl | h
        · exact ⟨c, by simp, .inr rfl⟩
        · obtain ⟨d, h1, h2⟩ := sections_mem C cs _ e h; exact ⟨d, List.mem_cons_of_mem _ h1, h2⟩
    · rcases List.mem_cons.1 h with rfl | h
      · exact ⟨c, by simp, .inl rfl⟩
      · obtain ⟨d, h1, h2⟩ := sections_mem C cs _ e h; exact ⟨d, List.mem_cons_of_mem _ h1, h2⟩

theorem calls_results (C : Compilers) : ∀ (cs : List TextCall) (st : St (List Char) Sig V) (c : TextCall) (o : Exec.Out V), (c, o) ∈ calls C st cs → Result (Exec.run C st (sections C st cs)).2 c o
  | [], _, _, _, h => by cases h
  | d :: cs, st, c, o, h => by
    have step : ∀ (st' : St (List Char) Sig V) (pre : List (TextEv × Exec.Out V)), Result (Exec.run C st' (sections C st' cs)).2 c o → Result (pre ++ (Exec.run C st' (sections C st' cs)).2) c o := by
      intro st' pre hr
      rcases hr with ⟨h1, h2⟩ | h1
      · exact .inl ⟨List.mem_append_right _ h1, h2⟩
      · exact .inr (List.mem_append_right _ h1)
    unfold calls at h
    unfold sections
    rcases hl : exprLookup st d with ⟨st', l⟩
    cases l with
    | miss =>
      simp only [evalExpr, hl, Bool.false_eq_true, if_false] at h
      simp only [Exec.run, Exec.step, hl]
      rcases List.mem_cons.1 h with e | h
      · cases e; exact .inr (by simp)
      · exact step _ [_, _] (calls_results C cs _ c o h)
    | value v =>
      simp only [evalExpr, hl, Bool.false_eq_true, if_false] at h
      simp only [Exec.run, Exec.step, hl]
      rcases List.mem_cons.1 h with e | h
      · cases e; exact .inl ⟨by simp, by simp⟩
      · exact step _ [_] (calls_results C cs _ c o h)
    | error =>
      simp only [evalExpr, hl, Bool.false_eq_true, if_false] at h
      simp only [Exec.run, Exec.step, hl]
      rcases List.mem_cons.1 h with e | h
      · cases e; exact .inl ⟨by simp, by simp⟩
      · exact step _ [_] (calls_results C cs _ c o h)
    | notFound =>
      simp only [evalExpr, hl, Bool.false_eq_true, if_false] at h
      simp only [Exec.run, Exec.step, hl]
      rcases List.mem_cons.1 h with e | h
      · cases e; exact .inl ⟨by simp, by simp⟩
      · exact step _ [_] (calls_results C cs _ c o h)
    | ub =>
      simp only [evalExpr, hl, Bool.false_eq_true, if_false] at h
      simp only [Exec.run, Exec.step, hl]
      rcases List.mem_cons.1 h with e | h
      · cases e; exact .inl ⟨by simp, by simp⟩
      · exact step _ [_] (calls_results C cs _ c o h)
    | blocked =>
      simp only [evalExpr, hl, Bool.false_eq_true, if_false] at h
      simp only [Exec.run, Exec.step, hl]
      rcases List.mem_cons.1 h with e | h
      · cases e; exact .inl ⟨by simp, by simp⟩
      · exact step _ [_] (calls_results C cs _ c o h)

/-! ## C171 -/

/-- **C171.** In every history of sections of calls of any number of threads, in which calls with the same text and types use the same argument names and `eval_function` is not used on these
texts: a call of `eval_expression` with a text of an expression returns the value of the expression for the arguments of this call; it is refused exactly if the expression has no type, or none
that can be converted; the value is undefined exactly if that of the expression is. -/
theorem evaluated_text (fpu : Fpu) (junk : Types.Str.Val) (cfg : Cfg) (source : List Char → Option (List (Sig × (V → V)))) (cap : Nat) (hcap : 0 < cap) (es : List TextEv)
    (names : ∀ c c' : TextCall, .exprStore c ∈ es → .exprLookup c' ∈ es → c.src = c'.src → c.sig = c'.sig → c.args = c'.args)
    (sep : ∀ (f : FCall (List Char) Sig V) (c : TextCall), .funcStore f ∈ es → .exprLookup c ∈ es → f.src ≠ c.src)
    (ps : List (Name × Ty)) (hn : (ps.map (·.1)).Nodup) (ret : Ty) (p : Ex) (hp : Plain fpu ps p) (src : List Char) (hs : ReadsAs cfg src p)
    (args : List Val) (ws : List WV) (ha : Passed ps args ws) (slots : Nat → WV) (o : Exec.Out V)
    (hr : Result (Exec.run (compiler fpu junk cfg source) (Exec.init cap) es).2 ⟨src, ps.map (·.1), (ps.map (·.2), ret), .given slots ws⟩ o) :
    Sees o (answer fpu ps ret p args) := by
  have h := eval_expression_value_partial (compiler fpu junk cfg source) cap hcap es names sep ⟨src, ps.map (·.1), (ps.map (·.2), ret), .given slots ws⟩ o
  have hm := meaning_sees fpu junk cfg source ps hn ret p hp src hs args ws ha slots
  rcases hr with ⟨h1, h2⟩ | h1
  · rcases h.1 h1 with h3 | h3
    · exact absurd h3 h2
    · rw [h3]; exact hm
  · rw [h.2 h1]; exact hm

/-- **C171.** The same for the calls of a program one after another, whatever was evaluated before: it is enough that the program uses one list of argument names for a text and types. -/
theorem evaluated_texts (fpu : Fpu) (junk : Types.Str.Val) (cfg : Cfg) (source : List Char → Option (List (Sig × (V → V)))) (cap : Nat) (hcap : 0 < cap) (cs : List TextCall)
    (names : ∀ c ∈ cs, ∀ c' ∈ cs, c.src = c'.src → c.sig = c'.sig → c.args = c'.args)
    (ps : List (Name × Ty)) (hn : (ps.map (·.1)).Nodup) (ret : Ty) (p : Ex) (hp : Plain fpu ps p) (src : List Char) (hs : ReadsAs cfg src p)
    (args : List Val) (ws : List WV) (ha : Passed ps args ws) (slots : Nat → WV) (o : Exec.Out V)
    (hr : (⟨src, ps.map (·.1), (ps.map (·.2), ret), .given slots ws⟩, o) ∈ calls (compiler fpu junk cfg source) (Exec.init cap) cs) :
    Sees o (answer fpu ps ret p args) := by
  refine evaluated_text fpu junk cfg source cap hcap (sections _ _ cs) ?_ ?_ ps hn ret p hp src hs args ws ha slots o (calls_results _ cs _ _ _ hr)
  · intro c c' h1 h2
    obtain ⟨d, d1, d2⟩ := sections_mem _ _ _ _ h1
    obtain ⟨d', d3, d4⟩ := sections_mem _ _ _ _ h2
    have e1 : c = d := by rcases d2 with e | e <;> cases e; rfl
    have e2 : c' = d' := by rcases d4 with e | e <;> cases e; rfl
    subst e1; subst e2
    exact names _ d1 _ d3
  · intro f c h1
    obtain ⟨d, _, d2⟩ := sections_mem _ _ _ _ h1
    rcases d2 with e | e <;> cases e

/-- **C171.** A text that is not an expression, a name given twice, or a wrong number of names is refused at every call. -/
theorem other_text_refused (fpu : Fpu) (junk : Types.Str.Val) (cfg : Cfg) (source : List Char → Option (List (Sig × (V → V)))) (cap : Nat) (hcap : 0 < cap) (cs : List TextCall)
    (names : ∀ c ∈ cs, ∀ c' ∈ cs, c.src = c'.src → c.sig = c'.sig → c.args = c'.args)
    (c : TextCall) (hc : (∀ e rest, parseExpression cfg c.src ≠ .ok e rest) ∨ ¬ c.args.Nodup ∨ c.args.length ≠ c.sig.1.length) (o : Exec.Out V)
    (hr : (c, o) ∈ calls (compiler fpu junk cfg source) (Exec.init cap) cs) : o = .error := by
  have hm : meaning (compiler fpu junk cfg source) c = .error := by
    have : compileExpr fpu junk cfg c.src c.args c.sig = none := by
      unfold compileExpr
      split
      · rfl
      · split
        · rfl
        · rename_i h1 h2
          rcases hc with h | h | h
          · unfold compile
            cases he : parseExpression cfg c.src with
            | ok e rest => exact absurd he (h e rest)
            | fail => rfl
            | fuel => rfl
          · exact absurd ((distinct_iff _).1 (by simpa using h2)) h
          · exact absurd h h1
    unfold meaning compiler
    simp only [this]
  have h := eval_expression_value_partial (compiler fpu junk cfg source) cap hcap (sections (compiler fpu junk cfg source) (Exec.init cap) cs) ?_ ?_ c o
  · rcases calls_results _ cs _ _ _ hr with ⟨h1, h2⟩ | h1
    · rcases h.1 h1 with h3 | h3
      · exact absurd h3 h2
      · rw [h3, hm]
    · rw [h.2 h1, hm]
  · intro c c' h1 h2
    obtain ⟨d, d1, d2⟩ := sections_mem _ _ _ _ h1
    obtain ⟨d', d3, d4⟩ := sections_mem _ _ _ _ h2
    have e1 : c = d := by rcases d2 with e | e <;> cases e; rfl
    have e2 : c' = d' := by rcases d4 with e | e <;> cases e; rfl
    subst e1; subst e2
    exact names _ d1 _ d3
  · intro f c h1
    obtain ⟨d, _, d2⟩ := sections_mem _ _ _ _ h1
    rcases d2 with e | e <;> cases e

/-- **C171.** Every call of a program is answered. -/
theorem every_call_answered (C : Compilers) (st : St (List Char) Sig V) (cs : List TextCall) : (calls C st cs).map (·.1) = cs := by
  induction cs generalizing st with
  | nil => rfl
  | cons c cs ih => simp only [calls, List.map_cons, ih]

/-! ### What the condition on the names is for: `s` evaluated with the names `s, t`, then with the names `t, s` -/

def exS : Ex := .var ['s']
def exST : List (Name × Ty) := [(['s'], .str), (['t'], .str)]
def exTS : List (Name × Ty) := [(['t'], .str), (['s'], .str)]

theorem exS_reads (fpu : Fpu) : ReadsAs exCfg ['s'] exS := reads_of fpu exCfg ['s'] exS trivial (PathOk.of exW_named.1) (by decide +kernel)

theorem answer_st (fpu : Fpu) (a b : List Types.Str.Byte) :
    answer fpu exST .str exS [.str a, .str b] = .value (.str a) ∧ answer fpu exTS .str exS [.str a, .str b] = .value (.str b) := ⟨rfl, rfl⟩

/-- C171 needs the condition on names (C02): the text `s` evaluated with the names `s`, `t` and strings, and then with the names `t`, `s`, gives the first string again. -/
theorem swapped_names_violated (fpu : Fpu) (junk : Types.Str.Val) (source : List Char → Option (List (Sig × (V → V)))) (cap : Nat) (hcap : 0 < cap) (slots : Nat → WV) (j1 j2 : Types.Str.Val)
    (a b : List Types.Str.Byte) (ha : a.length < 2 ^ 31) (hb : b.length < 2 ^ 31) (hne : a ≠ b) :
    ∃ o1 o2, calls (compiler fpu junk exCfg source) (Exec.init cap)
        [⟨['s'], exST.map (·.1), (exST.map (·.2), .str), .given slots [.str (Types.Str.SV.mk' j1 a), .str (Types.Str.SV.mk' j2 b)]⟩,
         ⟨['s'], exTS.map (·.1), (exTS.map (·.2), .str), .given slots [.str (Types.Str.SV.mk' j1 a), .str (Types.Str.SV.mk' j2 b)]⟩] =
      [(⟨['s'], exST.map (·.1), (exST.map (·.2), .str), .given slots [.str (Types.Str.SV.mk' j1 a), .str (Types.Str.SV.mk' j2 b)]⟩, o1),
       (⟨['s'], exTS.map (·.1), (exTS.map (·.2), .str), .given slots [.str (Types.Str.SV.mk' j1 a), .str (Types.Str.SV.mk' j2 b)]⟩, o2)] ∧
      Sees o1 (answer fpu exST .str exS [.str a, .str b]) ∧ ¬ Sees o2 (answer fpu exTS .str exS [.str a, .str b]) := by
  have hm := meaning_sees fpu junk exCfg source exST (by decide) .str exS ⟨trivial, trivial, trivial⟩ ['s'] (exS_reads fpu) [.str a, .str b]
    [.str (Types.Str.SV.mk' j1 a), .str (Types.Str.SV.mk' j2 b)] ⟨ha, ⟨j1, rfl⟩, hb, ⟨j2, rfl⟩, trivial⟩ slots
  rw [(answer_st fpu a b).1] at hm ⊢
  rw [(answer_st fpu a b).2]
  have two : ∀ (C : Compilers) (st : St (List Char) Sig V) (c d : TextCall), calls C st [c, d] = [(c, (evalExpr C false st c).2), (d, (evalExpr C false (evalExpr C false st c).1 d).2)] :=
    fun _ _ _ _ => rfl
  rw [two]
  refine ⟨_, _, rfl, ?_⟩
  unfold meaning at hm
  cases hf : (compiler fpu junk exCfg source).expr ['s'] (exST.map (·.1)) (exST.map (·.2), .str) with
  | none => rw [hf] at hm; obtain ⟨w, h, _⟩ := hm; cases h
  | some f =>
    rw [hf] at hm
    obtain ⟨w, h1, h2⟩ := hm
    obtain ⟨k1, k2⟩ := eval_expression_first (compiler fpu junk exCfg source) cap hcap
      ⟨['s'], exST.map (·.1), (exST.map (·.2), .str), .given slots [.str (Types.Str.SV.mk' j1 a), .str (Types.Str.SV.mk' j2 b)]⟩ f hf
    rw [k1, k2 ⟨['s'], exTS.map (·.1), (exTS.map (·.2), .str), .given slots [.str (Types.Str.SV.mk' j1 a), .str (Types.Str.SV.mk' j2 b)]⟩ rfl rfl]
    refine ⟨⟨w, h1, h2⟩, ?_⟩
    rintro ⟨w', h3, h4⟩
    have e : w' = w := by
      have := h3.symm.trans h1
      simpa using this
    subst e
    obtain ⟨j, rfl⟩ := rep_str h2
    obtain ⟨j', e⟩ := rep_str h4
    have e' : Types.Str.SV.mk' j a = Types.Str.SV.mk' j' b := by simpa using e
    have := (view_bytes j a ha).symm.trans ((congrArg viewBytes e').trans (view_bytes j' b hb))
    exact hne (by simpa using this)

/-! ### An instance: the expression of `Verif.Comp.Words` evaluated twice, with another text in between, in a cache that has room for one text only -/

theorem calls_three (C : Compilers) (st : St (List Char) Sig V) (a b c : TextCall) : ∃ x y z, calls C st [a, b, c] = [(a, x), (b, y), (c, z)] := ⟨_, _, _, rfl⟩

/-- A text evaluated twice, with another one in between. -/
theorem evaluated_twice (fpu : Fpu) (junk : Types.Str.Val) (cfg : Cfg) (source : List Char → Option (List (Sig × (V → V)))) (cap : Nat) (hcap : 0 < cap) (ps : List (Name × Ty))
    (hn : (ps.map (·.1)).Nodup) (ret : Ty) (p : Ex) (hp : Plain fpu ps p) (src : List Char) (hs : ReadsAs cfg src p) (args : List Val) (ws : List WV) (ha : Passed ps args ws)
    (slots : Nat → WV) (other : TextCall) (ho : other.src ≠ src) (first : V) :
    ∃ o1 o2 o3, calls (compiler fpu junk cfg source) (Exec.init cap) [⟨src, ps.map (·.1), (ps.map (·.2), ret), first⟩, other, ⟨src, ps.map (·.1), (ps.map (·.2), ret), .given slots ws⟩] =
      [(⟨src, ps.map (·.1), (ps.map (·.2), ret), first⟩, o1), (other, o2), (⟨src, ps.map (·.1), (ps.map (·.2), ret), .given slots ws⟩, o3)] ∧ Sees o3 (answer fpu ps ret p args) := by
  obtain ⟨x, y, z, h⟩ := calls_three (compiler fpu junk cfg source) (Exec.init cap) ⟨src, ps.map (·.1), (ps.map (·.2), ret), first⟩ other ⟨src, ps.map (·.1), (ps.map (·.2), ret), .given slots ws⟩
  refine ⟨x, y, z, h, evaluated_texts fpu junk cfg source cap hcap _ ?_ ps hn ret p hp src hs args ws ha slots z (by rw [h]; exact List.mem_cons_of_mem _ (List.mem_cons_of_mem _ List.mem_cons_self))⟩
  intro c hc c' hc' e1 _
  simp only [List.mem_cons, List.not_mem_nil, or_false] at hc hc'
  rcases hc with rfl | rfl | rfl <;> rcases hc' with rfl | rfl | rfl <;> first | rfl | exact absurd e1 ho | exact absurd e1.symm ho

theorem ex_plain (fpu : Fpu) : Plain fpu exWArgs exW := ⟨exW_lits fpu, by simp [exW, Ex.Guarded, Ex.Safe], by simp [exW, Ex.Even, Ex.type]⟩

open Classical in
theorem ex_answer (fpu : Fpu) (s t : List Types.Str.Byte) (hs : s.length < 2 ^ 31) :
    answer fpu exWArgs .str exW [.str s, .str t] = .value (.str (if 3 < s.length ∧ ∃ pre post, s = pre ++ [97, 98] ++ post then t else [110, 111])) := by
  unfold answer
  rw [show exW.type (argType exWArgs) = some .str from by decide]
  simp only [converts, if_true, exW_value fpu s t hs]

example (fpu : Fpu) (junk : Types.Str.Val) (source : List Char → Option (List (Sig × (V → V)))) (other : TextCall) (ho : other.src ≠ exWText) (slots : Nat → WV) (j1 j2 : Types.Str.Val)
    (s t : List Types.Str.Byte) (hs : s.length < 2 ^ 31) (ht : t.length < 2 ^ 31) (first : V) :
    ∃ o1 o2 o3 j, calls (compiler fpu junk exCfg source) (Exec.init 1) [⟨exWText, exWArgs.map (·.1), (exWArgs.map (·.2), .str), first⟩, other,
        ⟨exWText, exWArgs.map (·.1), (exWArgs.map (·.2), .str), .given slots [.str (Types.Str.SV.mk' j1 s), .str (Types.Str.SV.mk' j2 t)]⟩] =
      [(⟨exWText, exWArgs.map (·.1), (exWArgs.map (·.2), .str), first⟩, o1), (other, o2),
       (⟨exWText, exWArgs.map (·.1), (exWArgs.map (·.2), .str), .given slots [.str (Types.Str.SV.mk' j1 s), .str (Types.Str.SV.mk' j2 t)]⟩, o3)] ∧
      ((3 < s.length ∧ ∃ pre post, s = pre ++ [97, 98] ++ post) → o3 = .value (.back (.value (.str (Types.Str.SV.mk' j t))))) ∧
      (¬ (3 < s.length ∧ ∃ pre post, s = pre ++ [97, 98] ++ post) → o3 = .value (.back (.value (.str (Types.Str.SV.mk' j [110, 111]))))) := by
  obtain ⟨o1, o2, o3, h1, h2⟩ := evaluated_twice fpu junk exCfg source 1 (by decide) exWArgs (by decide) .str exW (ex_plain fpu) exWText (exW_reads fpu) [.str s, .str t]
    [.str (Types.Str.SV.mk' j1 s), .str (Types.Str.SV.mk' j2 t)] ⟨hs, ⟨j1, rfl⟩, ht, ⟨j2, rfl⟩, trivial⟩ slots other ho first
  rw [ex_answer fpu s t hs] at h2
  obtain ⟨w, h3, h4⟩ := h2
  obtain ⟨j, rfl⟩ := rep_str h4
  exact ⟨o1, o2, o3, j, h1, fun h => by rw [h3, if_pos h], fun h => by rw [h3, if_neg h]⟩

end Verif.Exec.EvalText
