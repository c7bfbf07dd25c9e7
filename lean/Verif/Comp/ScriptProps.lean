import Verif.Comp.ScriptLimit
/-!
# Scripts of several functions, from their text to the results of calls
-/
namespace Verif.Comp.Script
open Verif.Ast Verif.Ast.Rpn Verif.Gen Verif.Gen.Scalar Verif.Types.Conv Verif.Comp.Pipeline Verif.Comp.Function

/-! ## The functions one after another -/

/-- The compiled functions belong to the functions of the script. -/
def AllGood (ext : Exts) (fs : List Fn) : List Fn → List MFn → Prop
  | [], [] => True
  | g :: gs, m :: ms => (∃ P, Good ext fs P g m) ∧ AllGood ext fs gs ms
  | _, _ => False

theorem find_mid {fs before after : List Fn} {g : Fn} (h : fs = before ++ g :: after) (hn : (fs.map (·.name)).Nodup) : find fs g.name = some g := by
  subst h
  have h1 : before.find? (fun k => decide (k.name = g.name)) = none := by
    rw [List.find?_eq_none]
    intro k hk
    simp only [List.map_append, List.map_cons] at hn
    have := (List.nodup_append.1 hn).2.2 k.name (List.mem_map_of_mem hk) g.name (by simp)
    simpa using this
  unfold find
  rw [List.find?_append, h1]
  simp

theorem find_mem {fs : List Fn} (hn : (fs.map (·.name)).Nodup) {g : Fn} (h : g ∈ fs) : find fs g.name = some g := by
  obtain ⟨b, a, rfl⟩ := List.append_of_mem h
  exact find_mid rfl hn

theorem find_sound {fs : List Fn} {f : Name} {g : Fn} (h : find fs f = some g) : g ∈ fs ∧ g.name = f := by
  unfold find at h
  exact ⟨List.mem_of_find?_eq_some h, by simpa using List.find?_some h⟩

theorem full_fn {ext : Exts} {fs : List Fn} {f : Name} {g : Fn} (h : find fs f = some g) : full ext fs f = some ((g.params.map (·.2)).map Ty.p, g.ret.p) := by
  unfold full sigs
  simp only [h]
  rfl

theorem full_ext {ext : Exts} {fs : List Fn} {f : Name} (h : find fs f = none) : full ext fs f = extSigs ext f := by
  unfold full sigs extSigs
  simp only [h]
  cases ext f <;> rfl

theorem are_names : ∀ {gs : List Fn} {hs : List Func}, AreFuncs gs hs → hs.map (·.name) = gs.map (·.name)
  | [], [], _ => rfl
  | _ :: _, _ :: _, h => by simp only [List.map_cons, h.1.1, are_names h.2]
  | [], _ :: _, h => h.elim
  | _ :: _, [], h => h.elim

theorem funcs_code (inl : Inline) (ext : Exts) (fs : List Fn) (hok : ScriptOk inl ext fs) : ∀ (after : List Fn) (before : List Fn) (known : MSigs) (hs : List Func), fs = before ++ after →
    AreFuncs after hs → Known known (full ext fs) → (∀ f, f ∈ before.map (·.name) ∨ (ext f).isSome → known f = full ext fs f) →
    ∃ ms, compileFuncs inl known hs = some ms ∧ AllGood ext fs after ms := by
  intro after
  induction after with
  | nil =>
    intro before known hs _ ha _ _
    cases hs with
    | nil => exact ⟨[], rfl, trivial⟩
    | cons _ _ => exact ha.elim
  | cons g after ih =>
    intro before known hs hfs ha hk1 hk2
    cases hs with
    | nil => exact ha.elim
    | cons h hs =>
      obtain ⟨⟨h1, h2, h3, h4⟩, ha⟩ := ha
      have hg := find_mid hfs hok.names
      have hgm : g ∈ fs := by rw [hfs]; simp
      have hgok := hok.fns before g after hfs
      let P : Name → Prop := fun f => f ∈ (before ++ [g]).map (·.name) ∨ (ext f).isSome
      let now : MSigs := fun n => if n = g.name then some ((g.params.map (·.2)).map Ty.p, g.ret.p) else known n
      have hmore : Known now (full ext fs) := by
        intro f s hf
        simp only [now] at hf
        split at hf
        · next e => rw [e, full_fn hg]; exact hf
        · exact hk1 f s hf
      have hinl : ∀ f, P f → inl f = none := by
        intro f hf
        rcases hf with hf | hf
        · obtain ⟨k, hk, rfl⟩ := List.mem_map.1 hf
          refine (hok.apart k ?_).2
          rw [hfs]
          simp only [List.mem_append, List.mem_singleton] at hk
          rcases hk with hk | rfl <;> simp [*]
        · exact hok.exts f hf
      have hnow : ∀ f, P f → now f = full ext fs f := by
        intro f hf
        simp only [now]
        split
        · next e => rw [e, full_fn hg]
        · next e =>
          refine hk2 f ?_
          rcases hf with hf | hf
          · simp only [List.map_append, List.map_cons, List.map_nil, List.mem_append, List.mem_singleton] at hf
            rcases hf with hf | hf
            · exact .inl hf
            · exact absurd hf e
          · exact .inr hf
      have hw : World inl P (sigs ext fs) now (full ext fs) := ⟨fun f hf => ⟨hinl f hf, hnow f hf⟩, fun f hf => ⟨hinl f hf, rfl⟩, hmore⟩
      obtain ⟨m, hm, hgood⟩ := func_code inl ext fs P g known hw hgok.body hgok.clean hgok.uses hgok.names h h1 h2 h3 h4
      have hnow' : (fun n => if n = h.name then some (m.params, m.ret) else known n) = now := by
        funext n
        simp only [now, h1, hgood.params, hgood.ret]
      obtain ⟨ms, hms, hgoods⟩ := ih (before ++ [g]) now hs (by rw [hfs]; simp) ha hmore hnow
      refine ⟨m :: ms, ?_, ⟨P, hgood⟩, hgoods⟩
      have hdup : hs.any (fun k => decide (k.name = h.name)) = false := by
        rw [List.any_eq_false]
        intro k hk
        have hnn := hok.names
        rw [hfs] at hnn
        simp only [List.map_append, List.map_cons] at hnn
        have h5 := (List.nodup_cons.1 (List.nodup_append.1 hnn).2.1).1
        rw [← are_names ha] at h5
        intro e
        simp only [decide_eq_true_eq] at e
        exact h5 (by rw [← h1, ← e]; exact List.mem_map_of_mem hk)
      rw [compileFuncs, hdup, hm]
      simp only [Bool.false_eq_true, if_false, Option.bind_some]
      rw [hnow', hms]
      rfl

theorem find_good {ext : Exts} {fs : List Fn} (f : Name) : ∀ {gs : List Fn} {ms : List MFn}, AllGood ext fs gs ms →
    (find gs f = none ∧ findM ms f = none) ∨ ∃ g m P, find gs f = some g ∧ findM ms f = some m ∧ Good ext fs P g m
  | [], [], _ => .inl ⟨rfl, rfl⟩
  | g :: gs, m :: ms, ⟨⟨P, hg⟩, h⟩ => by
    by_cases e : g.name = f
    · exact .inr ⟨g, m, P, by simp [find, e], by simp [findM, hg.name, e], hg⟩
    · have h1 : find (g :: gs) f = find gs f := by simp [find, e]
      have h2 : findM (m :: ms) f = findM ms f := by simp [findM, hg.name, e]
      rw [h1, h2]
      exact find_good f h
  | [], _ :: _, h => h.elim
  | _ :: _, [], h => h.elim

theorem all_sigs {ext : Exts} {fs : List Fn} {ms : List MFn} (h : AllGood ext fs fs ms) : allSigs ext ms = full ext fs := by
  funext f
  unfold allSigs
  rcases find_good f h with ⟨h1, h2⟩ | ⟨g, m, P, h1, h2, hg⟩
  · simp only [h2]; rw [full_ext h1]
  · simp only [h2]; rw [full_fn h1, hg.params, hg.ret]

/-! ## Results are determined by their machine values -/

theorem dec_enc {v : Val} {t : Ty} (h : v.Has t) : dec t v.enc = v := by
  cases t with
  | bool => obtain ⟨b, rfl⟩ := has_bool h; cases b <;> rfl
  | int t => obtain ⟨z, rfl, _⟩ := has_int h; rfl

theorem decs_enc : ∀ {vs : List Val} {ts : List Ty}, HasAll vs ts → decs ts (vs.map Val.enc) = vs
  | [], [], _ => rfl
  | v :: vs, t :: ts, h => by simp only [List.map_cons, decs, dec_enc h.1, decs_enc h.2]
  | [], _ :: _, h => h.elim
  | _ :: _, [], h => h.elim

theorem enc_inj {v w : Val} {t : Ty} (h1 : v.Has t) (h2 : w.Has t) (h : v.enc = w.enc) : v = w := by rw [← dec_enc h1, ← dec_enc h2, h]

theorem result_has {ret : Ty} {E : End} {v : Val} (h : result ret E = some v) : v.Has ret := by
  cases E <;> first | (cases h; done) | exact conv_has h

theorem deep_ok (ext : Exts) (fs : List Fn) (d : Nat) : CallsOk (sigs ext fs) (deep ext fs d) := by
  intro f s args v hs hv
  unfold sigs at hs
  cases hf : find fs f with
  | none =>
    rw [deep_ext hf] at hv
    rw [hf] at hs
    cases he : ext f with
    | none => rw [he] at hv; cases hv
    | some e =>
      rw [he] at hv hs
      cases hs
      exact e.typed args v hv
  | some g =>
    rw [hf] at hs
    cases hs
    cases d with
    | zero => rw [deep_zero hf] at hv; cases hv
    | succ d =>
      obtain ⟨n, hn⟩ := (deep_succ hf d args v).1 hv
      exact result_has hn

theorem called_ext {ext : Exts} {ms : List MFn} {junk : Nat → Name → List Int → Nat → Int} {f : Name} (h : findM ms f = none) (d : Nat) (args : List Int) :
    called ext ms junk d f args = (ext f).bind fun e => (e.run (decs e.params args)).map Val.enc := by
  rw [called]; simp only [h]

theorem called_zero {ext : Exts} {ms : List MFn} {junk : Nat → Name → List Int → Nat → Int} {f : Name} {m : MFn} (h : findM ms f = some m) (args : List Int) :
    called ext ms junk 0 f args = none := by
  rw [called]; simp only [h]

theorem called_succ {ext : Exts} {ms : List MFn} {junk : Nat → Name → List Int → Nat → Int} {f : Name} {m : MFn} (h : findM ms f = some m) (d : Nat) (args : List Int) (o : Option Int)
    (ho : ∀ z, CodeReturns (allSigs ext ms) (called ext ms junk d) m.code (junk d f args) args z ↔ o = some z) : called ext ms junk (d + 1) f args = o := by
  rw [called]
  simp only [h]
  split
  · next hz => exact ((ho _).1 hz.choose_spec).symm
  · next hz =>
    cases o with
    | none => rfl
    | some z => exact absurd ⟨z, (ho z).2 rfl⟩ hz

/-- The compiled functions do what the functions of the script do. -/
theorem called_deep {ext : Exts} {fs : List Fn} {ms : List MFn} (h : AllGood ext fs fs ms) (junk : Nat → Name → List Int → Nat → Int) : ∀ d,
    CallsAgree (fun _ => True) (sigs ext fs) (deep ext fs d) (called ext ms junk d) := by
  intro d
  induction d with
  | zero =>
    intro f _ s hs args ha
    rcases find_good f h with ⟨h1, h2⟩ | ⟨g, m, P, h1, h2, hg⟩
    · rw [called_ext h2, deep_ext h1]
      unfold sigs at hs
      rw [h1] at hs
      cases he : ext f with
      | none => rfl
      | some e =>
        rw [he] at hs
        cases hs
        simp only [Option.bind_some, decs_enc ha]
    · rw [called_zero h2, deep_zero h1]; rfl
  | succ d ih =>
    intro f _ s hs args ha
    rcases find_good f h with ⟨h1, h2⟩ | ⟨g, m, P, h1, h2, hg⟩
    · rw [called_ext h2, deep_ext h1]
      unfold sigs at hs
      rw [h1] at hs
      cases he : ext f with
      | none => rfl
      | some e =>
        rw [he] at hs
        cases hs
        simp only [Option.bind_some, decs_enc ha]
    · have hs' := hs
      unfold sigs at hs'
      rw [h1] at hs'
      cases hs'
      refine called_succ h2 d _ _ fun z => ?_
      rw [all_sigs h, hg.runs (deep ext fs d) (called ext ms junk d) ⟨deep_ok ext fs d, fun f _ => ih f trivial⟩ args ha]
      constructor
      · rintro ⟨n, w, hw, rfl⟩
        rw [(deep_succ h1 d args w).2 ⟨n, hw⟩]
        rfl
      · intro e
        obtain ⟨w, hw, rfl⟩ := Option.map_eq_some_iff.1 e
        obtain ⟨n, hn⟩ := (deep_succ h1 d args w).1 hw
        exact ⟨n, w, hn, rfl⟩

/-! ## The property -/

/-- **C143.** A well-formed script is compiled, and a call of one of its functions returns exactly the values that the script defines: whatever functions call themselves or each other, whatever is in the
memory of the frames, for all arguments of the types of the parameters. -/
theorem script_computes (cfg : Cfg) (inl : Inline) (ext : Exts) (fs : List Fn) (hok : ScriptOk inl ext fs) (src : List Char) (hr : ReadsScript cfg src fs) :
    ∃ ms, compileScript cfg inl ext src = some ms ∧ ∀ junk, ∀ g ∈ fs, ∀ args, HasAll args (g.params.map (·.2)) → ∀ z,
      (Returns ext ms junk g.name (args.map Val.enc) z ↔ ∃ n v, returned ext fs n g.name args = some v ∧ z = v.enc) := by
  obtain ⟨hs, rest, hp, ha⟩ := hr
  have hk : ∀ f, (ext f).isSome → find fs f = none := by
    intro f hf
    cases hfi : find fs f with
    | none => rfl
    | some g =>
      obtain ⟨h1, h2⟩ := find_sound hfi
      have := (hok.apart g h1).1
      rw [h2] at this
      rw [this] at hf
      cases hf
  obtain ⟨ms, hms, hgood⟩ := funcs_code inl ext fs hok fs [] (extSigs ext) hs rfl ha
    (fun f s h => by rw [full_ext (hk f (by unfold extSigs at h; cases he : ext f <;> simp_all))]; exact h)
    (fun f h => by
      rcases h with h | h
      · cases h
      · rw [full_ext (hk f h)])
  refine ⟨ms, by unfold compileScript; rw [hp]; exact hms, fun junk g hg args hargs z => ?_⟩
  have hfi := find_mem hok.names hg
  have hs : sigs ext fs g.name = some (g.params.map (·.2), g.ret) := by unfold sigs; rw [hfi]
  have hc := fun d => called_deep hgood junk d g.name trivial _ hs args hargs
  unfold Returns
  constructor
  · rintro ⟨d, hd⟩
    rw [hc d] at hd
    obtain ⟨v, hv, rfl⟩ := Option.map_eq_some_iff.1 hd
    obtain ⟨n, hn⟩ := (returned_iff ext fs g.name args v).2 ⟨d, hv⟩
    exact ⟨n, v, hn, rfl⟩
  · rintro ⟨n, v, hn, rfl⟩
    obtain ⟨d, hd⟩ := (returned_iff ext fs g.name args v).1 ⟨n, hn⟩
    exact ⟨d, by rw [hc d, hd]; rfl⟩

/-- The bound of calls and iterations does not change a value that is returned. -/
theorem returned_value_stays (ext : Exts) (fs : List Fn) (n m : Nat) (f : Name) (args : List Val) (v w : Val) (h1 : returned ext fs n f args = some v) (h2 : returned ext fs m f args = some w) :
    v = w := by
  obtain ⟨k, h3, h4⟩ := ((returned_stays ext fs n f args v h1).and (returned_stays ext fs m f args w h2)).some
  rw [h3] at h4
  exact Option.some.inj h4

/-- **C143.** A call returns at most one value, the same for all contents of the memory of the frames. -/
theorem script_result_unique (cfg : Cfg) (inl : Inline) (ext : Exts) (fs : List Fn) (hok : ScriptOk inl ext fs) (src : List Char) (hr : ReadsScript cfg src fs) (ms : List MFn)
    (hc : compileScript cfg inl ext src = some ms) (junk junk' : Nat → Name → List Int → Nat → Int) (g : Fn) (hg : g ∈ fs) (args : List Val) (ha : HasAll args (g.params.map (·.2))) (z z' : Int)
    (h1 : Returns ext ms junk g.name (args.map Val.enc) z) (h2 : Returns ext ms junk' g.name (args.map Val.enc) z') : z = z' := by
  obtain ⟨ms', h3, h4⟩ := script_computes cfg inl ext fs hok src hr
  rw [hc] at h3
  cases h3
  obtain ⟨n, v, h5, rfl⟩ := (h4 junk g hg args ha z).1 h1
  obtain ⟨m, w, h6, rfl⟩ := (h4 junk' g hg args ha z').1 h2
  rw [returned_value_stays ext fs n m g.name args v w h5 h6]

end Verif.Comp.Script
