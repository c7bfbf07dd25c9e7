import Verif.Comp.ScriptValid
/-!
# Lemmas about scripts: one function
-/
namespace Verif.Comp.Script
open Verif.Ast Verif.Ast.Rpn Verif.Gen Verif.Gen.Scalar Verif.Types.Conv Verif.Comp.Pipeline Verif.Comp.Function

/-! ## Parameters -/

theorem type_text (t : Ty) : typeNamed t.text = some t.p := by
  cases t with
  | bool => rfl
  | int t =>
    have h : (Ty.int t).text ≠ ['b', 'o', 'o', 'l'] := by cases t <;> decide
    unfold typeNamed
    rw [if_neg h]
    show (suffixes.lookup (suffixText t)).map _ = _
    rw [lookup_suffix]
    rfl

def paramsP (ps : List (Name × Ty)) : List (Name × PTy) := ps.map fun q => (q.1, q.2.p)

theorem types_text (ps : List (Name × Ty)) : typesNamed (ps.map fun q => (q.2.text, q.1)) = some (paramsP ps) := by
  induction ps with
  | nil => rfl
  | cons q ps ih =>
    simp only [List.map_cons]
    rw [typesNamed]
    simp only [type_text, Option.bind_some, ih, Option.map_some]
    rfl

theorem params_names (ps : List (Name × Ty)) : (paramsP ps).map (·.1) = ps.map (·.1) := by simp [paramsP]

theorem has_length : ∀ {vs : List Val} {ts : List Ty}, HasAll vs ts → vs.length = ts.length
  | [], [], _ => rfl
  | _ :: _, _ :: _, h => by simp [has_length h.2]
  | [], _ :: _, h => h.elim
  | _ :: _, [], h => h.elim

/-- Arguments in slots. -/
theorem params_env (x : Name) : ∀ (ps : List (Name × Ty)) (args : List Val) (k : Nat) (slots : Nat → Int), (ps.map (·.1)).Nodup → HasAll args (ps.map (·.2)) →
    (∀ i (v : Val), args[i]? = some v → slots (k + i) = v.enc) → ∀ t, ps.lookup x = some t → ∃ s v, paramVars k (paramsP ps) x = some (some (t.p, s)) ∧
      ((ps.map (·.1)).zip args).lookup x = some v ∧ slots s = v.enc ∧ v.Has t
  | [], _, _, _, _, _, _, _, h => by cases h
  | (y, u) :: ps, [], _, _, _, h, _, _, _ => h.elim
  | (y, u) :: ps, v :: args, k, slots, hn, hh, hs, t, ht => by
    simp only [List.map_cons, List.nodup_cons] at hn
    simp only [List.map_cons, HasAll] at hh
    by_cases hxy : x = y
    · subst hxy
      simp only [List.lookup_cons, beq_self_eq_true, Option.some.injEq] at ht
      subst ht
      refine ⟨k, v, ?_, by simp, by simpa using hs 0 v rfl, hh.1⟩
      show paramVars k ((x, u.p) :: paramsP ps) x = _
      rw [paramVars, paramVars_none _ _ (by rw [params_names]; exact hn.1)]
      simp
    · have hb : (x == y) = false := by simpa using hxy
      simp only [List.lookup_cons, hb] at ht
      obtain ⟨s, w, h1, h2, h3, h4⟩ := params_env x ps args (k + 1) slots hn.2 hh.2 (fun i w hi => by rw [Nat.add_assoc, Nat.add_comm 1]; exact hs (i + 1) w (by simpa using hi)) t ht
      refine ⟨s, w, ?_, ?_, h3, h4⟩
      · show paramVars k ((y, u.p) :: paramsP ps) x = _
        rw [paramVars, h1]
      · simp only [List.map_cons, List.zip_cons_cons, List.lookup_cons, hb]
        exact h2

theorem params_dom (x : Name) : ∀ (ps : List (Name × Ty)) (k : Nat), (ps.map (·.1)).Nodup → ∀ t, ps.lookup x = some t → ∃ s, paramVars k (paramsP ps) x = some (some (t.p, s))
  | [], _, _, _, h => by cases h
  | (y, u) :: ps, k, hn, t, ht => by
    simp only [List.map_cons, List.nodup_cons] at hn
    by_cases hxy : x = y
    · subst hxy
      simp only [List.lookup_cons, beq_self_eq_true, Option.some.injEq] at ht
      subst ht
      refine ⟨k, ?_⟩
      show paramVars k ((x, u.p) :: paramsP ps) x = _
      rw [paramVars, paramVars_none _ _ (by rw [params_names]; exact hn.1)]
      simp
    · have hb : (x == y) = false := by simpa using hxy
      simp only [List.lookup_cons, hb] at ht
      obtain ⟨s, h1⟩ := params_dom x ps (k + 1) hn.2 t ht
      refine ⟨s, ?_⟩
      show paramVars k ((y, u.p) :: paramsP ps) x = _
      rw [paramVars, h1]

theorem params_static (g : Fn) (hn : (g.params.map (·.1)).Nodup) : Static (startTypes g) (paramVars 0 (paramsP g.params)) (paramsP g.params).length where
  typed n := paramVars_typed _ _ _
  below n b h := by have := (param_slot n _ 0 b h).2.1; omega
  apart n m b c h1 h2 h := by
    have h3 := (param_slot n _ 0 b h1).2.2
    have h4 := (param_slot m _ 0 c h2).2.2
    rw [h, h4] at h3
    simpa using h3.symm
  dom n t h := params_dom n g.params 0 hn t h

theorem params_dyn (g : Fn) (hn : (g.params.map (·.1)).Nodup) (args : List Val) (h : HasAll args (g.params.map (·.2))) (junk : Nat → Int) :
    Dyn (startTypes g) (paramVars 0 (paramsP g.params)) (fun i => (args.map Val.enc).getD i (junk i)) (startStore g args) := by
  have key := fun x => params_env x g.params args 0 (fun i => (args.map Val.enc).getD i (junk i)) hn h (fun i v hi => by simp [hi])
  refine ⟨fun x t ht => ?_, fun x t ht => ?_⟩
  · obtain ⟨s, v, h1, h2, h3, h4⟩ := key x t ht
    unfold envOf startStore
    rw [h1, h2]
    simp only [Option.getD_some]
    rw [← h3]
  · obtain ⟨s, v, h1, h2, h3, h4⟩ := key x t ht
    unfold startStore
    rw [h2]
    exact h4

/-! ## One function -/

/-- Validation accepts the function. -/
theorem valid_func (S : Scene) (g : Fn) (hok : g.body.Ok S.σ g.ret false (startTypes g)) (hu : g.body.Uses S.P) (hn : (g.params.map (·.1) ++ g.body.defs).Nodup) (ss : Stmts) (his : g.body.Is ss) :
    ∃ v, ((vParams (paramsP g.params) fun _ => none).bind fun v => vStmts (vSemC S.σm) S.inl g.ret.p false ss v) = some v := by
  have hnp := (List.nodup_append.1 hn).1
  obtain ⟨w, h1, h2, h3⟩ := vparams_ok (paramsP g.params) (fun _ => none) (by rw [params_names]; exact hnp) (fun _ _ => rfl)
  have ht : TypesOk (startTypes g) w := by
    intro x t hx
    unfold startTypes at hx
    exact h2 (x, t.p) (by
      simp only [paramsP, List.mem_map]
      exact ⟨(x, t), lookup_mem _ _ _ hx, rfl⟩)
  obtain ⟨v, h4, _⟩ := vcmds_ok S g.ret g.body ss his false (startTypes g) hok hu w ht
    (fun x hx => h3 x fun hm => (List.nodup_append.1 hn).2.2 x (by rw [params_names] at hm; exact hm) x hx rfl) (List.nodup_append.1 hn).2.1
  exact ⟨v, by rw [h1, Option.bind_some, h4]⟩

/-- The types of all functions, as the compiler holds them. -/
def full (ext : Exts) (fs : List Fn) : MSigs := fun f => (sigs ext fs f).map fun s => (s.1.map Ty.p, s.2.p)

/-- A compiled function is that of the script. -/
structure Good (ext : Exts) (fs : List Fn) (P : Name → Prop) (g : Fn) (m : MFn) : Prop where
  name : m.name = g.name
  params : m.params = (g.params.map (·.2)).map Ty.p
  ret : m.ret = g.ret.p
  runs : ∀ κ K, Runs P (sigs ext fs) κ K → ∀ args, HasAll args (g.params.map (·.2)) → ∀ junk z, CodeReturns (full ext fs) K m.code junk (args.map Val.enc) z ↔
    ∃ n w, result g.ret (g.body.exec (sigs ext fs) κ n (startTypes g) (startStore g args)) = some w ∧ z = w.enc

theorem func_code (inl : Inline) (ext : Exts) (fs : List Fn) (P : Name → Prop) (g : Fn) (known : MSigs)
    (hw : World inl P (sigs ext fs) (fun n => if n = g.name then some ((g.params.map (·.2)).map Ty.p, g.ret.p) else known n) (full ext fs))
    (hok : g.body.Ok (sigs ext fs) g.ret false (startTypes g)) (hc : g.body.Clean) (hu : g.body.Uses P) (hn : (g.params.map (·.1) ++ g.body.defs).Nodup) (h : Func)
    (h1 : h.name = g.name) (h2 : h.ret = g.ret.text) (h3 : h.params = g.params.map fun q => (q.2.text, q.1)) (h4 : g.body.Is h.body) :
    ∃ m, compileFunc inl known h = some m ∧ Good ext fs P g m := by
  have hnp := (List.nodup_append.1 hn).1
  have hst := params_static g hnp
  let S : Setting := ⟨inl, P, sigs ext fs, _, full ext fs, hw⟩
  obtain ⟨codes, cs', k1, k2, k3, k4, k5⟩ := cmds_sim S g.ret g.body h.body h4 false (startTypes g) hok hu ⟨0, (paramsP g.params).length, paramVars 0 (paramsP g.params)⟩ hst
    (fun x hx => paramVars_none _ _ (fun hm => (List.nodup_append.1 hn).2.2 x (by rw [params_names] at hm; exact hm) x hx rfl) _) (List.nodup_append.1 hn).2.1
  obtain ⟨st, h5⟩ := accepted_body_generates (fun _ => false) (marks h.body 0).1 ((marks_jumps _ _ _).2 (is_jumpss _ _ g.body _ h4 false _ hok))
  have hcl : Stmts.Clean (fun _ => false) (marks h.body 0).1 := (marks_clean _ _).2 (is_cleans g.body _ h4 hc)
  have hps : (paramsP g.params).map (·.2) = (g.params.map (·.2)).map Ty.p := by simp [paramsP]
  refine ⟨⟨g.name, (g.params.map (·.2)).map Ty.p, g.ret.p, ⟨codes, st⟩⟩, ?_, rfl, rfl, rfl, fun κ K hr args ha junk z => ?_⟩
  · unfold compileFunc
    rw [h2, type_text, h3, types_text, h1]
    simp only [Option.bind_some]
    rw [hps]
    obtain ⟨v, hval⟩ := valid_func ⟨inl, P, sigs ext fs, _, hw.now⟩ g hok hu hn h.body h4
    rw [hval]
    simp only [Option.bind_some]
    rw [show sitess (fun n => if n = g.name then some ((g.params.map (·.2)).map Ty.p, g.ret.p) else known n) inl g.ret.p h.body _ = _ from k1]
    simp only [Option.bind_some]
    rw [h5]
    rfl
  · have hd := params_dyn g hnp args ha junk
    have h6 := fun n => k5 κ K hr codes 0 (fun k s hk => by rw [Nat.zero_add]; exact hk) n _ none _ hd
    obtain ⟨c1, c2, c3⟩ := control_flow_partial (machine (full ext fs) K codes) (fun _ => false) _ hcl st h5 fun i => (args.map Val.enc).getD i (junk i)
    unfold CodeReturns
    simp only [c1, Ends]
    constructor
    · rintro ⟨slots, n, h | h⟩
      · have := h6 n; rw [show execs (machine S.σa K codes) n _ _ = _ from h] at this
        cases hE : g.body.exec S.σ κ n (startTypes g) (startStore g args) <;> rw [hE] at this <;> simp [Agree] at this
      · have := h6 n; rw [show execs (machine S.σa K codes) n _ _ = _ from h] at this
        cases hE : g.body.exec S.σ κ n (startTypes g) (startStore g args) <;> rw [hE] at this <;> simp [Agree] at this
        next v => obtain ⟨w, hw1, hw2⟩ := this; exact ⟨n, w, by rw [show g.body.exec (sigs ext fs) κ n _ _ = _ from hE]; exact hw1, hw2⟩
    · rintro ⟨n, w, hh, rfl⟩
      have := h6 n
      cases hE : g.body.exec S.σ κ n (startTypes g) (startStore g args) <;> rw [show g.body.exec (sigs ext fs) κ n _ _ = _ from hE] at hh <;> rw [hE] at this <;> simp only [result] at hh
      · cases hh
      · cases hh
      · cases hh
      · cases hO : execs (machine S.σa K codes) n (marks h.body 0).1 (fun i => (args.map Val.enc).getD i (junk i), none) <;> rw [hO] at this <;> simp only [Agree] at this
        next m => obtain ⟨w', e1, e2⟩ := this; rw [hh] at e1; cases e1; exact ⟨m.1, n, .inr (by rw [← e2]; exact hO)⟩
      · cases hh
      · cases hh

end Verif.Comp.Script
