import Verif.Comp.SessionLemmas
/-!
Properties of the compiler object:

* C102 compilation does not depend on what the compiler compiled before,
* C103 exactly the well-scoped scripts are compiled,
* C104 a call runs the function it was checked against.
-/
namespace Verif.Session

/-! ### C103: exactly the well-scoped scripts are compiled -/

theorem inv_nil (k : Nat) : Inv { cursor := k } [] := ⟨by simp, fun _ _ => rfl⟩

theorem cleared (c : PCtx) : c.clear.setSource = { cursor := c.cursor } := rfl

/-- No function of the script is called like an operator. -/
def NoOperator (reg : Reg) (fs : List Fn) : Prop := ∀ f ∈ fs, reg.op f.name = none

/-- Everything about the answer to `CompileSource`. -/
theorem source_spec (reg : Reg) (c : PCtx) (fs : List Fn) (hno : NoOperator reg fs) :
    ((∃ code, (request reg c (.source fs)).2 = .ok code) ↔ WellScoped reg fs) ∧
    ∀ code, (request reg c (.source fs)).2 = .ok code →
      ∃ ext : List String,
        (∀ n, n ∈ ext ↔ n ∈ reg.fixed ∨ ∃ ts ∈ intended reg fs, Target.registered n ∈ ts) ∧
        code.checked = intended reg fs ∧
        code.run = (intended reg fs).map (fun ts => ts.map (redirect ext fs)) ∧
        code.entry = (List.range fs.length).zipWith
          (fun i f => if f.name ∈ ext then .registered f.name else .script i) fs := by
  obtain ⟨v1, v2⟩ := validateAll_spec reg fs [] { cursor := c.cursor } [] (inv_nil _)
    hno (by simp)
  rw [wellScoped_iff] at v1
  simp only [List.length_nil] at v1 v2
  cases hv : validateAll reg { cursor := c.cursor } 0 [] fs with
  | mk k x =>
    cases x with
    | error e =>
      have h : (request reg c (.source fs)).2 = .error e := by
        simp only [request, cleared, hv]
      refine ⟨⟨?_, ?_⟩, ?_⟩
      · rintro ⟨code, hc⟩; rw [h] at hc; cases hc
      · intro hw
        obtain ⟨k', r, hr⟩ := v1.mpr hw
        rw [hv] at hr; cases hr
      · intro code hc; rw [h] at hc; cases hc
    | ok r =>
      obtain ⟨tss, c'⟩ := r
      obtain ⟨j1, -, -, j4⟩ := v2 k tss c' hv
      have hw := v1.mp ⟨k, _, hv⟩
      rw [intended_eq] at j1
      have hlen : tss.length = fs.length := by rw [j1]; simp [intended]
      have hext : ∀ n, n ∈ externs reg c' fs.length ↔
          n ∈ reg.fixed ∨ ∃ ts ∈ intended reg fs, Target.registered n ∈ ts := by
        intro n
        unfold externs
        simp only [List.mem_append, List.mem_flatMap, List.mem_range]
        refine or_congr Iff.rfl ?_
        constructor
        · rintro ⟨i, hi, hn⟩
          have hi' : i < tss.length := by omega
          have := (j4 i _ (List.getElem?_eq_getElem hi') n)
          rw [Nat.zero_add] at this
          exact ⟨tss[i], by rw [← j1]; exact List.getElem_mem hi', this.mp hn⟩
        · rintro ⟨ts, hts, hn⟩
          rw [← j1] at hts
          obtain ⟨i, hi, rfl⟩ := List.getElem_of_mem hts
          have := (j4 i _ (List.getElem?_eq_getElem hi) n)
          rw [Nat.zero_add] at this
          exact ⟨i, by omega, this.mpr hn⟩
      have hg := genAll_spec (reg := reg) (ext := externs reg c' fs.length) fs []
        (fun _ => none) (by simp) ((wellScoped_iff reg fs).mpr hw) hno
        (by
          intro ts hts n hn
          rw [intended_eq] at hts
          exact (hext n).mpr (Or.inr ⟨ts, hts, hn⟩))
      rw [intended_eq] at hg
      simp only [List.length_nil, List.nil_append] at hg
      have h : (request reg c (.source fs)).2 = .ok
          { checked := tss
            run := (intended reg fs).map fun ts => ts.map (redirect (externs reg c' fs.length) fs)
            entry := (List.range fs.length).zipWith
              (fun i f => if f.name ∈ externs reg c' fs.length then .registered f.name
                else .script i) fs } := by
        simp only [request, cleared, hv, compileFns, hg]
      refine ⟨⟨fun _ => hw, fun _ => ⟨_, h⟩⟩, ?_⟩
      intro code hc
      rw [h] at hc
      cases hc
      exact ⟨_, hext, j1, rfl, rfl⟩

/-- **C103** (partial: for scripts none of whose functions has the name of an operator; the full
claim has no such hypothesis and is refuted by `well_scoped_violated`).  Whatever a compiler did
before: a script is compiled exactly if its functions have different names, no variable is
defined twice, every variable is defined (or is a named constant) before it is used and every
called function is written above the call or is the caller itself, or is an operator that is
defined for its operands, or is registered, and needs a `Context` only if the caller has one. -/
theorem well_scoped_partial (reg : Reg) (hist : List Req) (fs : List Fn)
    (hno : NoOperator reg fs) :
    (∃ code, answer reg hist (.source fs) = .ok code) ↔ WellScoped reg fs :=
  (source_spec reg _ fs hno).1

/-- **C103** (partial, same hypothesis).  The checker takes every call for the function the
specification names. -/
theorem checked_as_intended_partial (reg : Reg) (hist : List Req) (fs : List Fn) (code : Code)
    (hno : NoOperator reg fs)
    (h : answer reg hist (.source fs) = .ok code) : code.checked = intended reg fs := by
  obtain ⟨_, _, h1, _⟩ := (source_spec reg _ fs hno).2 code h
  exact h1

/-! ### C104: calls run the function they were checked against -/

/-- No function of the script is called like a function from outside. -/
def NoClash (reg : Reg) (fs : List Fn) : Prop :=
  ∀ f ∈ fs, reg.find f.name = none ∧ reg.op f.name = none ∧ f.name ∉ reg.fixed

theorem intended_registered {reg : Reg} {fs : List Fn} {ts : List Target} {n : String}
    (h : ts ∈ intended reg fs) (hn : Target.registered n ∈ ts) : (reg.find n).isSome := by
  unfold intended at h
  obtain ⟨p, -, rfl⟩ := List.mem_map.mp h
  generalize p.1.body = es at hn
  induction es with
  | nil => simp [callees] at hn
  | cons e es ih =>
    cases e with
    | define x => exact ih hn
    | use x => exact ih hn
    | call f =>
      simp only [callees, List.mem_append] at hn
      rcases hn with hn | hn
      · cases hm : meaning reg fs p.2 p.1.ctx f with
        | none => rw [hm] at hn; simp at hn
        | some t =>
          rw [hm] at hn
          simp only [Option.toList_some, List.mem_singleton] at hn
          subst hn
          obtain ⟨rfl, -, h, -⟩ := meaning_registered hm
          exact h
      · exact ih hn

/-- **C104** (partial: for scripts none of whose functions has the name of a function from
outside; the full claim has no such hypothesis and is refuted by `call_target_violated`).
Every call of a compiled script runs the function it was checked against, and loading a
function of the script by its name gives this function. -/
theorem call_target_partial (reg : Reg) (hist : List Req) (fs : List Fn) (code : Code)
    (hc : NoClash reg fs) (h : answer reg hist (.source fs) = .ok code) :
    code.run = intended reg fs ∧ code.run = code.checked ∧
    code.entry = (List.range fs.length).map Target.script := by
  obtain ⟨ext, hext, h1, h2, h3⟩ := (source_spec reg _ fs fun f hf => (hc f hf).2.1).2 code h
  have hne : ∀ f ∈ fs, f.name ∉ ext := by
    intro f hf hin
    rcases (hext f.name).mp hin with hx | ⟨ts, hts, hn⟩
    · exact (hc f hf).2.2 hx
    · have := intended_registered hts hn
      rw [(hc f hf).1] at this; cases this
  have hred : ∀ t, redirect ext fs t = t := by
    intro t
    cases t with
    | registered f => rfl
    | operator f => rfl
    | script i =>
      cases hi : fs[i]? with
      | none => simp only [redirect, hi]
      | some f =>
        simp only [redirect, hi]
        rw [if_neg (hne f (List.mem_of_getElem? hi))]
  have hrun : code.run = intended reg fs := by
    rw [h2]
    have : (fun ts : List Target => ts.map (redirect ext fs)) = id := by
      funext ts
      have : redirect ext fs = id := funext hred
      rw [this]; simp
    rw [this]; simp
  refine ⟨hrun, by rw [hrun, h1], ?_⟩
  rw [h3]
  apply List.ext_getElem
  · simp
  · intro i hi hi'
    simp only [List.getElem_zipWith, List.getElem_range, List.getElem_map]
    rw [if_neg (hne _ (List.getElem_mem _))]

/-- A small world: `twice` is registered, `now` is registered and takes a `Context`; the operands
of the calls below are numbers, for which the operator `max` is defined and `filter` is not. -/
def world : Reg where
  op n := if n = "max" then some true else if n = "filter" then some false else none
  find n := if n = "twice" then some false else if n = "now" then some true else none
  fixed := ["rapidudf_simd_vector_size", "rapidudf_simd_vector_data"]
  consts := ["pi", "e"]

/-- three functions; the second calls the first and itself -/
def script1 : List Fn :=
  [{ name := "f", args := ["x"], ctx := false, body := [.use "x", .call "twice"] },
   { name := "g", args := ["x"], ctx := false,
     body := [.define "y", .use "x", .call "f", .use "y", .call "g", .call "max"] }]

example : NoClash world script1 := by
  intro f hf
  simp only [script1, List.mem_cons, List.not_mem_nil, or_false] at hf
  rcases hf with rfl | rfl <;> exact ⟨by decide +kernel, by decide +kernel, by decide +kernel⟩

deriving instance DecidableEq for Except

example : answer world [] (.source script1) = .ok
    { checked := [[.registered "twice"], [.script 0, .script 1, .operator "max"]]
      run := [[.registered "twice"], [.script 0, .script 1, .operator "max"]]
      entry := [.script 0, .script 1] } := by decide +kernel

/-- `g` calls the registered `twice`, then the script defines its own `twice`, then `h` calls it. -/
def script2 : List Fn :=
  [{ name := "g", args := [], ctx := false, body := [.call "twice"] },
   { name := "twice", args := [], ctx := false, body := [] },
   { name := "h", args := [], ctx := false, body := [.call "twice"] }]

/-- **C104, negation of the full claim.**  In `script2` the call in `h` is checked against the
script's own `twice` (its types, its argument count) but runs the registered one, and loading
`twice` gives the registered function, too. -/
theorem call_target_violated : ∃ code, answer world [] (.source script2) = .ok code ∧
    code.checked[2]? = some [.script 1] ∧ code.run[2]? = some [.registered "twice"] ∧
    code.entry[1]? = some (.registered "twice") := by
  refine ⟨_, rfl, ?_, ?_, ?_⟩ <;> decide +kernel

/-- A script with its own `max`, and one with its own `filter`. -/
def script3 (n : String) : List Fn :=
  [{ name := n, args := ["x"], ctx := false, body := [.use "x"] },
   { name := "h", args := ["x"], ctx := false, body := [.use "x", .call n] }]

theorem script3_ok (n : String) (hn : n ≠ "h") : WellScoped world (script3 n) := by
  refine ⟨by simp [script3, hn], ?_⟩
  intro i f hi
  match i with
  | 0 =>
    cases hi
    simp [inScope]
  | 1 =>
    cases hi
    refine ⟨by simp, ?_⟩
    simp [inScope, meaning, owner, script3, List.findIdx?_cons]
  | i + 2 => simp [script3] at hi

/-- **C103, negation of the full claim.**  Two well-scoped scripts: in the first the call of the
script's own `max` is taken for the operator, by the checker and in the code; the second is
refused because the call of its own `filter` is taken for the operator. -/
theorem well_scoped_violated :
    WellScoped world (script3 "max") ∧ WellScoped world (script3 "filter") ∧
    (∃ code, answer world [] (.source (script3 "max")) = .ok code ∧
      (intended world (script3 "max"))[1]? = some [.script 0] ∧
      code.checked[1]? = some [.operator "max"] ∧ code.run[1]? = some [.operator "max"]) ∧
    answer world [] (.source (script3 "filter")) = .error (.noFunc "filter") := by
  refine ⟨script3_ok _ (by decide), script3_ok _ (by decide), ⟨_, rfl, ?_, ?_, ?_⟩, ?_⟩
  all_goals decide +kernel

/-! ### C102: compilation does not depend on earlier compilations -/

theorem validateAll_cursor (reg : Reg) (k k' : Nat) (f : Fn) (fs : List Fn) (g : Nat → FCtx) :
    validateAll reg { fs := g, cursor := k } 0 [] (f :: fs) =
      validateAll reg { fs := g, cursor := k' } 0 [] (f :: fs) := by
  rw [validateAll, validateAll]

/-- The answer to a request depends on the past through the cursor only. -/
theorem request_cursor (reg : Reg) (c d : PCtx) (h : c.cursor = d.cursor) (r : Req) :
    request reg c r = request reg d r := by
  have e : c.clear = d.clear := by unfold PCtx.clear; rw [h]
  cases r <;> simp only [request, e]

/-- **C102 for scripts.**  The answer to `CompileSource` does not depend on the requests the
compiler served before. -/
theorem source_independent (reg : Reg) (hist : List Req) (fs : List Fn) :
    answer reg hist (.source fs) = answer reg [] (.source fs) := by
  have key : ∀ c d : PCtx, (request reg c (.source fs)).2 = (request reg d (.source fs)).2 := by
    intro c d
    simp only [request, cleared]
    cases fs with
    | nil => simp [validateAll, compileFns, externs, genAll]
    | cons f fs =>
      rw [validateAll_cursor reg c.cursor d.cursor]
  exact key _ _

/-- The number of functions a request may move the cursor past. -/
def width : Req → Nat
  | .source fs => fs.length
  | _ => 0

theorem validateAll_stop (reg : Reg) : ∀ (fs : List Fn) (c : PCtx) (i : Nat) (seen : List String),
    (validateAll reg c i seen fs).1 = (match (validateAll reg c i seen fs).2 with
      | .ok (_, c') => c'.cursor
      | .error _ => (validateAll reg c i seen fs).1) ∧
    (fs = [] → (validateAll reg c i seen fs).1 = c.cursor) ∧
    (fs ≠ [] → (validateAll reg c i seen fs).1 < i + fs.length) := by
  intro fs
  induction fs with
  | nil => intro c i seen; simp [validateAll]
  | cons f fs ih =>
    intro c i seen
    rw [validateAll]
    cases hv : validateFn reg (({ c with cursor := i } : PCtx).setDesc f i) f with
    | error e => simp
    | ok r =>
      obtain ⟨ts, c'⟩ := r
      have hcur : c'.cursor = i := by
        unfold validateFn at hv
        cases hd : defineArgs (({ c with cursor := i } : PCtx).setDesc f i) f.args with
        | error e => rw [hd] at hv; cases hv
        | ok d =>
          rw [hd] at hv
          have h1 := ((args_iff _ _).2 d hd).1.same.1
          have h2 := ((body_iff reg _ d).2 ts c' hv).2.same.1
          rw [h2, h1]; rfl
      dsimp only
      split
      · simp
      · obtain ⟨i1, i2, i3⟩ := ih c' (i + 1) (f.name :: seen)
        cases hr : validateAll reg c' (i + 1) (f.name :: seen) fs with
        | mk k x =>
          rw [hr] at i1 i2 i3
          cases x with
          | error e =>
            refine ⟨rfl, by simp, ?_⟩
            intro _
            dsimp only
            by_cases he : fs = []
            · have := i2 he; simp only at this; rw [this, hcur, he]; simp
            · have := i3 he; simp only at this; simp only [List.length_cons]; omega
          | ok r =>
            obtain ⟨tss, c''⟩ := r
            refine ⟨i1, by simp, ?_⟩
            intro _
            dsimp only
            by_cases he : fs = []
            · have := i2 he; simp only at this; rw [this, hcur, he]; simp
            · have := i3 he; simp only at this; simp only [List.length_cons]; omega

theorem request_state (reg : Reg) (c : PCtx) (r : Req) (h : width r ≤ 1) (hc : c.cursor = 0) :
    (request reg c r).1.cursor = 0 := by
  cases r with
  | source fs =>
    obtain ⟨h1, h2, h3⟩ := validateAll_stop reg fs { cursor := c.cursor } 0 []
    simp only [request, cleared]
    simp only [width] at h
    have hz : (validateAll reg { cursor := c.cursor } 0 [] fs).1 = 0 := by
      by_cases he : fs = []
      · rw [h2 he]; exact hc
      · have := h3 he; omega
    cases hv : validateAll reg { cursor := c.cursor } 0 [] fs with
    | mk k x =>
      rw [hv] at h1 hz
      cases x with
      | error e => exact hz
      | ok r => dsimp only at h1 hz ⊢; rw [← h1]; exact hz
  | function f =>
    simp only [request, cleared]
    cases hv : validateFn reg (({ cursor := c.cursor } : PCtx).setDesc f 0) f with
    | error e => exact hc
    | ok r =>
      obtain ⟨ts, c'⟩ := r
      dsimp only
      unfold validateFn at hv
      cases hd : defineArgs (({ cursor := c.cursor } : PCtx).setDesc f 0) f.args with
      | error e => rw [hd] at hv; cases hv
      | ok d =>
        rw [hd] at hv
        have h1 := ((args_iff _ _).2 d hd).1.same.1
        have h2 := ((body_iff reg _ d).2 ts c' hv).2.same.1
        rw [h2, h1]; exact hc
  | expression args ctx body =>
    simp only [request]
    cases hd : defineArgs c.clear args with
    | error e => exact hc
    | ok d =>
      have h1 := ((args_iff _ _).2 d hd).1.same.1
      dsimp only
      cases hv : validateBody reg ((d.setSourceKeep).setDesc (exprFn args ctx body) 0) body with
      | error e => exact h1.trans hc
      | ok r =>
        obtain ⟨ts, c'⟩ := r
        have h2 := ((body_iff reg _ _).2 ts c' hv).2.same.1
        exact h2.trans (h1.trans hc)
  | garbage => exact hc

theorem after_state (reg : Reg) : ∀ (hist : List Req) (c : PCtx), c.cursor = 0 →
    (∀ r ∈ hist, width r ≤ 1) →
    (hist.foldl (fun c q => (request reg c q).1) c).cursor = 0 := by
  intro hist
  induction hist with
  | nil => intro c hc _; exact hc
  | cons r rs ih =>
    intro c hc h
    exact ih _ (request_state reg c r (h r (by simp)) hc) fun q hq => h q (by simp [hq])

/-- **C102** (partial: for compilers that have not been given a script of two or more
functions; the full claim has no such hypothesis and is refuted by `history_violated`).
The answer to a request does not depend on the requests served before. -/
theorem history_partial (reg : Reg) (hist : List Req) (r : Req)
    (h : ∀ q ∈ hist, width q ≤ 1) : answer reg hist r = answer reg [] r := by
  unfold answer
  rw [request_cursor reg (after reg hist) (after reg [])
    (by rw [show (after reg []).cursor = 0 from rfl]; exact after_state reg hist _ rfl h) r]

/-! #### What remains true after a script of several functions: nothing wrong is compiled -/

theorem setDesc_define (c : PCtx) (f : Fn) (x : String) :
    (c.setDesc f 0).define x = (c.define x).map fun d => d.setDesc f 0 := by
  unfold PCtx.define PCtx.setDesc PCtx.set
  dsimp only
  by_cases hc : c.cursor = 0
  · simp only [hc, if_true]
    split
    · rfl
    · simp only [Except.map, Except.ok.injEq, PCtx.mk.injEq, and_true]
      funext j
      by_cases hj : j = 0 <;> simp [hj]
  · simp only [hc, if_false]
    split
    · rfl
    · simp only [Except.map, Except.ok.injEq, PCtx.mk.injEq, and_true]
      funext j
      by_cases hj : j = 0
      · have : ¬ j = c.cursor := by omega
        have h0 : ¬ (0 = c.cursor) := by omega
        simp [hj, h0]
      · by_cases hj' : j = c.cursor <;> simp [hj, hj', hc]

theorem setDesc_defineArgs (f : Fn) : ∀ (xs : List String) (c : PCtx),
    defineArgs (c.setDesc f 0) xs = (defineArgs c xs).map fun d => d.setDesc f 0 := by
  intro xs
  induction xs with
  | nil => intro c; rfl
  | cons x xs ih =>
    intro c
    simp only [defineArgs, setDesc_define]
    cases c.define x with
    | error e => rfl
    | ok d => exact ih d

/-- An expression is answered like the function generated from it. -/
theorem expression_eq (reg : Reg) (c : PCtx) (args : List String) (ctx : Bool) (body : List Ev) :
    (request reg c (.expression args ctx body)).2 =
      (request reg c (.function (exprFn args ctx body))).2 := by
  simp only [request, cleared, validateFn]
  rw [setDesc_defineArgs]
  have hcl : c.clear = { cursor := c.cursor } := rfl
  rw [hcl, show (exprFn args ctx body).args = args from rfl,
    show (exprFn args ctx body).body = body from rfl]
  cases hd : defineArgs { cursor := c.cursor } args with
  | error e => rfl
  | ok d =>
    have hk := ((args_iff _ _).2 d hd).1
    have hcalls : ∀ j, (d.fs j).calls = [] := by
      intro j
      by_cases hj : j = c.cursor
      · have := hk.calls
        simp only [List.not_mem_nil, or_self, iff_false] at this
        subst hj
        exact List.eq_nil_iff_forall_not_mem.mpr this
      · rw [hk.others j hj]
    have hkeep : d.setSourceKeep = d := by
      unfold PCtx.setSourceKeep
      cases d with
      | mk g k =>
        simp only [PCtx.mk.injEq, and_true]
        funext j
        have := hcalls j
        dsimp only at this ⊢
        cases hg : g j with
        | mk a b e f => rw [hg] at this; simp only at this; rw [this]
    dsimp only [Except.map]
    rw [hkeep]
    cases validateBody reg (d.setDesc (exprFn args ctx body) 0) body with
    | error e => rfl
    | ok r => rfl

theorem inScope_mono {reg : Reg} {call call' : String → Option Target}
    (h : ∀ f t, call f = some t → call' f = some t) : ∀ (es : List Ev) (vs : List String),
    inScope reg call vs es → inScope reg call' vs es ∧ callees call es = callees call' es := by
  intro es
  induction es with
  | nil => intro vs _; exact ⟨trivial, rfl⟩
  | cons e es ih =>
    intro vs hs
    cases e with
    | define x => simp only [inScope] at hs ⊢; have := ih _ hs.2; exact ⟨⟨hs.1, this.1⟩, this.2⟩
    | use x => simp only [inScope] at hs ⊢; have := ih _ hs.2; exact ⟨⟨hs.1, this.1⟩, this.2⟩
    | call f =>
      simp only [inScope] at hs ⊢
      obtain ⟨t, ht⟩ := Option.isSome_iff_exists.mp hs.1
      have := ih _ hs.2
      refine ⟨⟨by rw [h f t ht]; rfl, this.1⟩, ?_⟩
      simp only [callees, ht, h f t ht, this.2]

theorem genBody_calls {reg : Reg} {ext : List String} {defs : String → Option Nat} :
    ∀ (es : List Ev) (vs : List String) (ts : List Target),
    genBody reg ext defs vs es = .ok ts → ∀ f, Ev.call f ∈ es →
      ∃ t, genApply reg ext defs f = .ok t := by
  intro es
  induction es with
  | nil => intro vs ts _ f hf; simp at hf
  | cons e es ih =>
    intro vs ts h f hf
    cases e with
    | define x =>
      simp only [genBody] at h
      exact ih _ _ h f (by simpa using hf)
    | use x =>
      simp only [genBody] at h
      split at h
      · exact ih _ _ h f (by simpa using hf)
      · cases h
    | call g =>
      simp only [genBody] at h
      cases hg : genApply reg ext defs g with
      | error e => rw [hg] at h; cases h
      | ok t =>
        rw [hg] at h
        cases hb : genBody reg ext defs vs es with
        | error e => rw [hb] at h; cases h
        | ok us =>
          simp only [List.mem_cons, Ev.call.injEq] at hf
          rcases hf with rfl | hf
          · exact ⟨t, hg⟩
          · exact ih _ _ hb f hf

theorem genBody_congr {reg : Reg} {ext ext' : List String} {defs : String → Option Nat} :
    ∀ (es : List Ev) (vs : List String),
    (∀ f, Ev.call f ∈ es → genApply reg ext defs f = genApply reg ext' defs f) →
    genBody reg ext defs vs es = genBody reg ext' defs vs es := by
  intro es
  induction es with
  | nil => intro vs _; rfl
  | cons e es ih =>
    intro vs h
    cases e with
    | define x => simp only [genBody]; exact ih _ fun f hf => h f (by simp [hf])
    | use x => simp only [genBody]; rw [ih _ fun f hf => h f (by simp [hf])]
    | call g =>
      simp only [genBody]
      rw [h g (by simp), ih _ fun f hf => h f (by simp [hf])]

/-- The context at the beginning of the validation of a single function, with the cursor left
over from before. -/
def start (k : Nat) (f : Fn) : PCtx := ({ cursor := k } : PCtx).setDesc f 0

theorem start_local (k : Nat) (f : Fn) (n : String) :
    (start k f).local? n = if f.name = n then some 0 else none := by
  unfold PCtx.local?
  split
  · rename_i h
    rw [List.find?_range_eq_some]
    refine ⟨?_, by simp, by simp⟩
    simp [start, PCtx.setDesc, PCtx.set, h]
  · rename_i h
    rw [List.find?_range_eq_none]
    intro i _
    by_cases hi : i = 0 <;> simp [start, PCtx.setDesc, PCtx.set, hi, h]

theorem start_call {reg : Reg} {k : Nat} {f : Fn} {n : String} {t : Target}
    (h : callOf reg (start k f) n = some t) : callOf reg (start 0 f) n = some t := by
  have hctx : ∀ j, ((start k f).fs j).ctx = true → f.ctx = true := by
    intro j hj
    by_cases h0 : j = 0
    · subst h0; simpa [start, PCtx.setDesc, PCtx.set] using hj
    · simp [start, PCtx.setDesc, PCtx.set, h0] at hj
  have h00 : ((start 0 f).fs 0).ctx = f.ctx := by simp [start, PCtx.setDesc, PCtx.set]
  have hk0 : ((start k f).fs 0).ctx = f.ctx := by simp [start, PCtx.setDesc, PCtx.set]
  have hc0 : (start 0 f).cursor = 0 := rfl
  unfold callOf PCtx.checkCall at h ⊢
  cases hop : reg.op n with
  | some b => rw [hop] at h; cases b <;> exact h
  | none =>
  rw [hop] at h
  dsimp only at h ⊢
  unfold PCtx.check at h ⊢
  rw [start_local] at h ⊢
  rw [hc0, h00]
  by_cases hn : f.name = n
  · simp only [hn, if_true] at h ⊢
    rw [hk0] at h
    split at h
    · rename_i heq
      split at heq
      · cases heq
      · cases heq
        cases h
        simp [h00]
    · cases h
  · simp only [hn, if_false] at h ⊢
    cases hr : reg.find n with
    | none => rw [hr] at h; cases h
    | some need =>
      rw [hr] at h
      dsimp only at h ⊢
      cases need with
      | false => simpa using h
      | true =>
        cases hx : ((start k f).fs (start k f).cursor).ctx with
        | false => simp [hx] at h
        | true => rw [hctx _ hx]; simpa [hx] using h

theorem function_answer (reg : Reg) (c : PCtx) (f : Fn) :
    (request reg c (.function f)).2 =
      match validateFn reg (start c.cursor f) f with
      | .error e => .error e
      | .ok (ts, c') => compileFns reg c' [ts] [f] := by
  simp only [request, cleared]
  unfold start
  cases validateFn reg (({ cursor := c.cursor } : PCtx).setDesc f 0) f with
  | error e => rfl
  | ok r => rfl

theorem callees_call {call : String → Option Target} : ∀ (es : List Ev) (t : Target),
    t ∈ callees call es → ∃ f, Ev.call f ∈ es ∧ call f = some t := by
  intro es
  induction es with
  | nil => intro t h; simp [callees] at h
  | cons e es ih =>
    intro t h
    cases e with
    | define x => obtain ⟨f, h1, h2⟩ := ih t h; exact ⟨f, by simp [h1], h2⟩
    | use x => obtain ⟨f, h1, h2⟩ := ih t h; exact ⟨f, by simp [h1], h2⟩
    | call g =>
      simp only [callees, List.mem_append, Option.mem_toList] at h
      rcases h with h | h
      · exact ⟨g, by simp, h⟩
      · obtain ⟨f, h1, h2⟩ := ih t h; exact ⟨f, by simp [h1], h2⟩

/-- Validation of one function, for any cursor. -/
theorem start_spec (reg : Reg) (k : Nat) (f : Fn) :
    ((∃ r, validateFn reg (start k f) f = .ok r) ↔
      f.args.Nodup ∧ inScope reg (callOf reg (start k f)) f.args f.body) ∧
    ∀ ts c', validateFn reg (start k f) f = .ok (ts, c') →
      ts = callees (callOf reg (start k f)) f.body ∧ Kept (start k f) c' ts := by
  obtain ⟨a1, a2⟩ := args_iff f.args (start k f)
  have hv : ((start k f).fs (start k f).cursor).vars = [] := by
    unfold start PCtx.setDesc PCtx.set; dsimp only; split <;> rfl
  rw [hv] at a1 a2
  cases hd : defineArgs (start k f) f.args with
  | error e =>
    refine ⟨⟨?_, ?_⟩, ?_⟩
    · rintro ⟨r, h⟩; simp [validateFn, hd] at h
    · intro h
      obtain ⟨r, hr⟩ := a1.mpr ⟨h.1, by simp⟩
      rw [hd] at hr; cases hr
    · intro ts c' h; simp [validateFn, hd] at h
  | ok d =>
    obtain ⟨k1, k2⟩ := a2 d hd
    have hn := (a1.mp ⟨d, hd⟩).1
    obtain ⟨b1, b2⟩ := body_iff reg f.body d
    refine ⟨?_, ?_⟩
    · simp only [validateFn, hd]
      rw [b1, inScope_congr (callOf_same k1.same) f.body _ f.args (by intro x; rw [k2]; simp)]
      exact ⟨fun h => ⟨hn, h⟩, fun h => h.2⟩
    · intro ts c' h
      simp only [validateFn, hd] at h
      obtain ⟨j1, j2⟩ := b2 ts c' h
      exact ⟨by rw [j1, callees_congr (callOf_same k1.same)], by simpa using k1.trans j2⟩

theorem function_refuses (reg : Reg) (c : PCtx) (f : Fn) (code : Code)
    (h : (request reg c (.function f)).2 = .ok code) :
    (request reg {} (.function f)).2 = .ok code := by
  by_cases hc : c.cursor = 0
  · rw [request_cursor reg c {} hc] at h; exact h
  rw [function_answer] at h ⊢
  rw [show ({} : PCtx).cursor = 0 from rfl]
  obtain ⟨s1, s2⟩ := start_spec reg c.cursor f
  obtain ⟨z1, z2⟩ := start_spec reg 0 f
  cases hv : validateFn reg (start c.cursor f) f with
  | error e => rw [hv] at h; cases h
  | ok r =>
    obtain ⟨ts, c'⟩ := r
    rw [hv] at h
    dsimp only at h
    obtain ⟨hts, hk⟩ := s2 ts c' hv
    obtain ⟨hn, hs⟩ := s1.mp ⟨_, hv⟩
    obtain ⟨m1, m2⟩ := inScope_mono (fun n t => start_call (reg := reg) (k := c.cursor)
      (f := f) (n := n) (t := t)) f.body f.args hs
    obtain ⟨⟨ts0, c0⟩, hz⟩ := z1.mpr ⟨hn, m1⟩
    obtain ⟨hts0, hk0⟩ := z2 ts0 c0 hz
    have hE : externs reg c' 1 = reg.fixed := by
      have h1 := hk.others 0 (by intro e; exact hc e.symm)
      have h2 : ((start c.cursor f).fs 0).calls = [] := by simp [start, PCtx.setDesc, PCtx.set]
      simp [externs, h1, h2]
    have hE0 : ∀ n, n ∈ externs reg c0 1 ↔ n ∈ reg.fixed ∨ Target.registered n ∈ ts := by
      intro n
      have h1 := hk0.calls n
      have h2 : ((start 0 f).fs 0).calls = [] := by simp [start, PCtx.setDesc, PCtx.set]
      have h3 : (start 0 f).cursor = 0 := rfl
      rw [h3, h2] at h1
      simp only [List.not_mem_nil, false_or] at h1
      have : ts0 = ts := by rw [hts0, hts, m2]
      rw [this] at h1
      simp [externs, h1]
    have hname : ∀ n, Target.registered n ∈ ts → n ≠ f.name := by
      intro n hm
      rw [hts] at hm
      obtain ⟨g, -, hg⟩ := callees_call _ _ hm
      unfold callOf PCtx.checkCall at hg
      cases hop : reg.op g with
      | some b => rw [hop] at hg; cases b <;> simp at hg
      | none =>
      rw [hop] at hg
      dsimp only at hg
      unfold PCtx.check at hg
      rw [start_local] at hg
      by_cases hgn : f.name = g
      · simp only [hgn, if_true] at hg
        split at hg
        · rename_i heq
          split at heq
          · cases heq
          · cases heq; cases hg
        · cases hg
      · simp only [hgn, if_false] at hg
        cases hr : reg.find g with
        | none => rw [hr] at hg; cases hg
        | some need =>
          rw [hr] at hg
          dsimp only at hg
          split at hg
          · rename_i heq
            split at heq
            · cases heq
            · cases heq
              cases hg
              exact fun e => hgn e.symm
          · cases hg
    have hgen : ∀ run, genAll reg reg.fixed (fun _ => none) 0 [f] = .ok run →
        genAll reg (externs reg c0 1) (fun _ => none) 0 [f] = .ok run := by
      intro run hr
      simp only [genAll] at hr ⊢
      cases hb : genBody reg reg.fixed (fun n => if n = f.name then some 0 else none)
          f.args.reverse f.body with
      | error e => rw [hb] at hr; cases hr
      | ok us =>
        rw [hb] at hr
        have hcalls := genBody_calls _ _ _ hb
        rw [genBody_congr (ext' := reg.fixed) f.body f.args.reverse ?_, hb]
        · exact hr
        · intro n hn
          obtain ⟨t, ht⟩ := hcalls n hn
          unfold genApply at ht ⊢
          cases hop : reg.op n with
          | some b => rfl
          | none =>
          rw [hop] at ht
          dsimp only at ht ⊢
          unfold genCall at ht ⊢
          by_cases hfix : n ∈ reg.fixed
          · rw [if_pos hfix, if_pos ((hE0 n).mpr (Or.inl hfix))]
          · rw [if_neg hfix] at ht ⊢
            by_cases hnn : n = f.name
            · rw [if_neg]
              intro hin
              rcases (hE0 n).mp hin with h' | h'
              · exact hfix h'
              · exact hname n h' hnn
            · simp [hnn] at ht
    unfold compileFns at h
    rw [show [f].length = 1 from rfl, hE] at h
    rw [hz]
    dsimp only
    unfold compileFns
    rw [show [f].length = 1 from rfl]
    cases hg : genAll reg reg.fixed (fun _ => none) 0 [f] with
    | error e => rw [hg] at h; cases h
    | ok run =>
      rw [hg] at h
      rw [hgen run hg]
      dsimp only at h ⊢
      cases h
      have hmem : f.name ∈ externs reg c0 1 ↔ f.name ∈ reg.fixed := by
        rw [hE0]
        exact ⟨fun h => h.resolve_right fun h' => hname _ h' rfl, Or.inl⟩
      have : ts0 = ts := by rw [hts0, hts, m2]
      simp [this, hmem, List.range_succ]

/-- **C102, what remains after any history.**  A request that is served is served as by a new
compiler: earlier requests can only make a compiler refuse, never compile something else. -/
theorem history_only_refuses (reg : Reg) (hist : List Req) (r : Req) (code : Code)
    (h : answer reg hist r = .ok code) : answer reg [] r = .ok code := by
  cases r with
  | source fs => rw [← source_independent reg hist fs]; exact h
  | function f => exact function_refuses reg _ f code h
  | expression args ctx body =>
    unfold answer at h ⊢
    rw [expression_eq] at h ⊢
    exact function_refuses reg _ _ code h
  | garbage => simp [answer, request] at h

/-- `f(x) = twice(x)` as a single function, and the expressions `twice(x)` and `now(ctx)` -/
def single : Fn := { name := "f", args := ["x"], ctx := false, body := [.use "x", .call "twice"] }

/-- **C102, negation of the full claim.**  A compiler that has been given a script of two
functions refuses every function and every expression that calls a registered function, and
says that a `Context` argument is missing when it is there. -/
theorem history_violated :
    answer world [] (.function single) =
      .ok { checked := [[.registered "twice"]], run := [[.registered "twice"]], entry := [.script 0] } ∧
    answer world [.source script1] (.function single) = .error (.noSymbol "twice") ∧
    answer world [.source script1] (.expression ["x"] false [.use "x", .call "twice"]) =
      .error (.noSymbol "twice") ∧
    (∃ code, answer world [] (.expression ["c"] true [.call "now"]) = .ok code) ∧
    answer world [.source script1] (.expression ["c"] true [.call "now"]) =
      .error (.noContext "now") := by
  refine ⟨by decide +kernel, by decide +kernel, by decide +kernel, ⟨_, rfl⟩, by decide +kernel⟩

/-- The hypotheses of `history_partial` and `history_only_refuses` are met by non-trivial
histories. -/
example : (∀ q ∈ [Req.source [single], .garbage, .function single], width q ≤ 1) ∧
    answer world [.source script1, .garbage] (.function { single with body := [.use "x", .call "f"] })
      = .ok { checked := [[.script 0]], run := [[.script 0]], entry := [.script 0] } := by
  refine ⟨by decide +kernel, by decide +kernel⟩

end Verif.Session
