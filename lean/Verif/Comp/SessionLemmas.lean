import Verif.Comp.Session
/-! Lemmas for `Verif.Comp.SessionProps`: validation of bodies and scripts. -/
namespace Verif.Session

/-- The checker's view of a call. -/
def callOf (reg : Reg) (c : PCtx) (f : String) : Option Target :=
  match c.checkCall reg f with
  | .ok (t, _) => some t
  | .error _ => none

/-- Two contexts that the checker cannot tell apart as far as functions are concerned. -/
def Same (c d : PCtx) : Prop :=
  c.cursor = d.cursor ∧ ∀ j, (c.fs j).name = (d.fs j).name ∧ (c.fs j).ctx = (d.fs j).ctx

theorem Same.refl (c : PCtx) : Same c c := ⟨rfl, fun _ => ⟨rfl, rfl⟩⟩

theorem Same.symm {c d : PCtx} (h : Same c d) : Same d c :=
  ⟨h.1.symm, fun j => ⟨(h.2 j).1.symm, (h.2 j).2.symm⟩⟩

theorem Same.trans {c d e : PCtx} (h : Same c d) (h' : Same d e) : Same c e :=
  ⟨h.1.trans h'.1, fun j => ⟨(h.2 j).1.trans (h'.2 j).1, (h.2 j).2.trans (h'.2 j).2⟩⟩

theorem local_same {c d : PCtx} (h : Same c d) (f : String) : c.local? f = d.local? f := by
  unfold PCtx.local?
  rw [h.1]
  have : (fun i => (c.fs i).name == some f) = fun i => (d.fs i).name == some f := by
    funext i; rw [(h.2 i).1]
  rw [this]

theorem callOf_same {reg : Reg} {c d : PCtx} (h : Same c d) (f : String) :
    callOf reg c f = callOf reg d f := by
  unfold callOf PCtx.checkCall
  cases hop : reg.op f with
  | some b => cases b <;> rfl
  | none =>
  dsimp only
  unfold PCtx.check
  rw [local_same h f, ← h.1]
  cases d.local? f with
  | some i =>
    simp only [(h.2 i).2, (h.2 c.cursor).2]
    split <;> rename_i hh <;> split <;> rename_i hh' <;> split at hh <;> split at hh' <;>
      simp_all
  | none =>
    cases reg.find f with
    | none => rfl
    | some need =>
      simp only [(h.2 c.cursor).2]
      split <;> rename_i hh <;> split <;> rename_i hh' <;> split at hh <;> split at hh' <;>
        simp_all

theorem set_same (c : PCtx) (i : Nat) (g : FCtx → FCtx)
    (hg : ∀ x, (g x).name = x.name ∧ (g x).ctx = x.ctx) : Same (c.set i g) c := by
  refine ⟨rfl, fun j => ?_⟩
  unfold PCtx.set
  dsimp only
  split
  · exact hg _
  · exact ⟨rfl, rfl⟩

/-- What validation of a body leaves behind. -/
structure Kept (c c' : PCtx) (ts : List Target) : Prop where
  same : Same c' c
  others : ∀ j, j ≠ c.cursor → c'.fs j = c.fs j
  calls : ∀ f, f ∈ (c'.fs c.cursor).calls ↔
    f ∈ (c.fs c.cursor).calls ∨ Target.registered f ∈ ts

theorem define_ok {c c' : PCtx} {x : String} (h : c.define x = .ok c') :
    x ∉ (c.fs c.cursor).vars ∧ Kept c c' [] ∧
      (c'.fs c'.cursor).vars = x :: (c.fs c.cursor).vars := by
  unfold PCtx.define at h
  split at h
  · cases h
  · rename_i hx
    cases h
    refine ⟨hx, ⟨set_same _ _ _ fun _ => ⟨rfl, rfl⟩, ?_, ?_⟩, ?_⟩
    · intro j hj; simp [PCtx.set, hj]
    · intro f; simp [PCtx.set]
    · simp [PCtx.set]

theorem define_some {c : PCtx} {x : String} (h : x ∉ (c.fs c.cursor).vars) :
    ∃ c', c.define x = .ok c' := by
  unfold PCtx.define; rw [if_neg h]; exact ⟨_, rfl⟩

theorem Kept.nil (c : PCtx) : Kept c c [] :=
  ⟨Same.refl c, fun _ _ => rfl, fun f => by simp⟩

theorem Kept.trans {c d e : PCtx} {ts us : List Target} (h : Kept c d ts) (h' : Kept d e us) :
    Kept c e (ts ++ us) := by
  have hc : d.cursor = c.cursor := h.same.1
  refine ⟨h'.same.trans h.same, ?_, ?_⟩
  · intro j hj
    rw [h'.others j (by rw [hc]; exact hj), h.others j hj]
  · intro f
    have := h'.calls f
    rw [hc] at this
    rw [this, h.calls f]
    simp [or_assoc]

theorem check_ok {reg : Reg} {c c' : PCtx} {f : String} {t : Target}
    (h : c.checkCall reg f = .ok (t, c')) :
    callOf reg c f = some t ∧ Kept c c' [t] ∧
      (c'.fs c'.cursor).vars = (c.fs c.cursor).vars ∧
      (∀ g, t = .registered g → g = f) := by
  have h1 : callOf reg c f = some t := by unfold callOf; rw [h]
  refine ⟨h1, ?_⟩
  unfold PCtx.checkCall at h
  cases hop : reg.op f with
  | some b =>
    rw [hop] at h
    cases b with
    | false => cases h
    | true =>
      cases h
      refine ⟨⟨Same.refl c, fun _ _ => rfl, fun f => by simp⟩, rfl, ?_⟩
      intro g hg; cases hg
  | none =>
  rw [hop] at h
  dsimp only at h
  unfold PCtx.check at h
  split at h
  · rename_i i hi
    split at h
    · cases h
    · cases h
      refine ⟨⟨Same.refl c, fun _ _ => rfl, fun f => by simp⟩, rfl, ?_⟩
      intro g hg; cases hg
  · split at h
    · cases h
    · split at h
      · cases h
      · cases h
        refine ⟨⟨set_same _ _ _ fun _ => ⟨rfl, rfl⟩, ?_, ?_⟩, ?_, ?_⟩
        · intro j hj; simp [PCtx.set, hj]
        · intro g; simp [PCtx.set, or_comm]
        · simp [PCtx.set]
        · intro g hg; cases hg; rfl

theorem inScope_congr {reg : Reg} {call call' : String → Option Target}
    (hc : ∀ f, call f = call' f) : ∀ (es : List Ev) (vs vs' : List String),
    (∀ x, x ∈ vs ↔ x ∈ vs') → (inScope reg call vs es ↔ inScope reg call' vs' es) := by
  intro es
  induction es with
  | nil => intro vs vs' _; simp [inScope]
  | cons e es ih =>
    intro vs vs' hv
    cases e with
    | define x =>
      simp only [inScope, hv x]
      rw [ih (x :: vs) (x :: vs') (by intro y; simp [hv y])]
    | use x => simp only [inScope, hv x]; rw [ih vs vs' hv]
    | call f => simp only [inScope, hc f]; rw [ih vs vs' hv]

theorem callees_congr {call call' : String → Option Target} (hc : ∀ f, call f = call' f)
    (es : List Ev) : callees call es = callees call' es := by
  have : call = call' := funext hc
  rw [this]

/-- Validation of a body succeeds exactly on the bodies in scope. -/
theorem body_iff (reg : Reg) : ∀ (es : List Ev) (c : PCtx),
    ((∃ r, validateBody reg c es = .ok r) ↔
      inScope reg (callOf reg c) (c.fs c.cursor).vars es) ∧
    ∀ ts c', validateBody reg c es = .ok (ts, c') →
      ts = callees (callOf reg c) es ∧ Kept c c' ts := by
  intro es
  induction es with
  | nil =>
    intro c
    refine ⟨by simp [validateBody, inScope], ?_⟩
    intro ts c' h
    simp only [validateBody, Except.ok.injEq, Prod.mk.injEq] at h
    obtain ⟨h1, h2⟩ := h
    subst h1; subst h2
    exact ⟨rfl, Kept.nil c⟩
  | cons e es ih =>
    intro c
    cases e with
    | define x =>
      cases hd : c.define x with
      | error e =>
        refine ⟨⟨?_, ?_⟩, ?_⟩
        · rintro ⟨r, h⟩; simp [validateBody, hd] at h
        · intro h
          simp only [inScope] at h
          obtain ⟨c', hc'⟩ := define_some h.1
          rw [hd] at hc'; cases hc'
        · intro ts c' h; simp [validateBody, hd] at h
      | ok d =>
        obtain ⟨hx, hk, hv⟩ := define_ok hd
        obtain ⟨i1, i2⟩ := ih d
        refine ⟨?_, ?_⟩
        · simp only [validateBody, hd, inScope]
          rw [i1, hv, inScope_congr (callOf_same hk.same) es _ _ (fun _ => Iff.rfl)]
          exact ⟨fun h => ⟨hx, h⟩, fun h => h.2⟩
        · intro ts c' h
          simp only [validateBody, hd] at h
          obtain ⟨j1, j2⟩ := i2 ts c' h
          refine ⟨?_, ?_⟩
          · rw [j1]; simp only [callees]
            exact callees_congr (callOf_same hk.same) es
          · simpa using hk.trans j2
    | use x =>
      by_cases hu : x ∈ (c.fs c.cursor).vars ∨ x ∈ reg.consts
      · have hc : c.use reg x = .ok () := by
          unfold PCtx.use
          by_cases h1 : x ∈ (c.fs c.cursor).vars
          · rw [if_pos h1]
          · rw [if_neg h1, if_pos (hu.resolve_left h1)]
        obtain ⟨i1, i2⟩ := ih c
        refine ⟨?_, ?_⟩
        · simp only [validateBody, hc, inScope]
          rw [i1]
          exact ⟨fun h => ⟨hu, h⟩, fun h => h.2⟩
        · intro ts c' h
          simp only [validateBody, hc] at h
          obtain ⟨j1, j2⟩ := i2 ts c' h
          exact ⟨by simpa only [callees] using j1, j2⟩
      · have hc : c.use reg x = .error (.noVar x) := by
          unfold PCtx.use
          rw [if_neg fun h => hu (Or.inl h), if_neg fun h => hu (Or.inr h)]
        refine ⟨⟨?_, ?_⟩, ?_⟩
        · rintro ⟨r, h⟩; simp [validateBody, hc] at h
        · intro h; simp only [inScope] at h; exact absurd h.1 hu
        · intro ts c' h; simp [validateBody, hc] at h
    | call f =>
      cases hd : c.checkCall reg f with
      | error e =>
        have hn : callOf reg c f = none := by unfold callOf; rw [hd]
        refine ⟨⟨?_, ?_⟩, ?_⟩
        · rintro ⟨r, h⟩; simp [validateBody, hd] at h
        · intro h; simp [inScope, hn] at h
        · intro ts c' h; simp [validateBody, hd] at h
      | ok r =>
        obtain ⟨t, d⟩ := r
        obtain ⟨h1, hk, hv, -⟩ := check_ok hd
        obtain ⟨i1, i2⟩ := ih d
        have i1' : (∃ r, validateBody reg d es = .ok r) ↔
            inScope reg (callOf reg c) (c.fs c.cursor).vars es := by
          rw [i1, hv, inScope_congr (callOf_same hk.same) es _ _ (fun _ => Iff.rfl)]
        refine ⟨?_, ?_⟩
        · simp only [inScope, h1, Option.isSome_some, true_and, ← i1']
          cases hb : validateBody reg d es with
          | error e => simp [validateBody, hd, hb]
          | ok r => simp [validateBody, hd, hb]
        · intro ts c' h
          cases hb : validateBody reg d es with
          | error e => simp [validateBody, hd, hb] at h
          | ok r =>
            obtain ⟨us, c''⟩ := r
            simp only [validateBody, hd, hb, Except.ok.injEq, Prod.mk.injEq] at h
            obtain ⟨hts, hcc⟩ := h
            subst hts; subst hcc
            obtain ⟨j1, j2⟩ := i2 us c'' hb
            refine ⟨?_, ?_⟩
            · simp only [callees, h1, Option.toList_some, List.singleton_append]
              rw [j1, callees_congr (callOf_same hk.same) es]
            · simpa using hk.trans j2

theorem args_iff : ∀ (xs : List String) (c : PCtx),
    ((∃ r, defineArgs c xs = .ok r) ↔ xs.Nodup ∧ ∀ x ∈ xs, x ∉ (c.fs c.cursor).vars) ∧
    ∀ c', defineArgs c xs = .ok c' →
      Kept c c' [] ∧ (c'.fs c'.cursor).vars = xs.reverse ++ (c.fs c.cursor).vars := by
  intro xs
  induction xs with
  | nil =>
    intro c
    refine ⟨by simp [defineArgs], ?_⟩
    intro c' h; simp only [defineArgs, Except.ok.injEq] at h; subst h
    exact ⟨Kept.nil c, by simp⟩
  | cons x xs ih =>
    intro c
    cases hd : c.define x with
    | error e =>
      refine ⟨⟨?_, ?_⟩, ?_⟩
      · rintro ⟨r, h⟩; simp [defineArgs, hd] at h
      · rintro ⟨_, h⟩
        obtain ⟨c', hc'⟩ := define_some (h x (by simp))
        rw [hd] at hc'; cases hc'
      · intro c' h; simp [defineArgs, hd] at h
    | ok d =>
      obtain ⟨hx, hk, hv⟩ := define_ok hd
      obtain ⟨i1, i2⟩ := ih d
      refine ⟨?_, ?_⟩
      · simp only [defineArgs, hd]
        rw [i1, hv]
        simp only [List.nodup_cons, List.mem_cons, forall_eq_or_imp, not_or]
        constructor
        · rintro ⟨a, b⟩
          exact ⟨⟨fun h => (b x h).1 rfl, a⟩, hx, fun y hy => (b y hy).2⟩
        · rintro ⟨⟨a, b⟩, _, h⟩
          exact ⟨b, fun y hy => ⟨fun e => a (e ▸ hy), h y hy⟩⟩
      · intro c' h
        simp only [defineArgs, hd] at h
        obtain ⟨j1, j2⟩ := i2 c' h
        exact ⟨by simpa using hk.trans j1, by rw [j2, hv]; simp⟩

/-! ### A function, a script -/

/-- The contexts describe the functions `pre` and nothing else; the context of the next
function is being filled. -/
structure Inv (c : PCtx) (pre : List Fn) : Prop where
  known : ∀ j f, pre[j]? = some f → (c.fs j).name = some f.name ∧ (c.fs j).ctx = f.ctx
  fresh : ∀ j, pre.length ≤ j → c.fs j = {}

theorem owner_pre (pre : List Fn) (f : Fn) (post : List Fn) (n : String) :
    owner (pre ++ f :: post) pre.length n = (pre ++ [f]).findIdx? fun g => g.name == n := by
  unfold owner
  have : (pre ++ f :: post).take (pre.length + 1) = pre ++ [f] := by
    rw [List.take_append, List.take_of_length_le (by omega)]; simp
  rw [this]

theorem local_eq {c : PCtx} {pre : List Fn} {f : Fn} (hcur : c.cursor = pre.length)
    (hk : ∀ j g, (pre ++ [f])[j]? = some g → (c.fs j).name = some g.name) (n : String) :
    c.local? n = (pre ++ [f]).findIdx? fun g => g.name == n := by
  unfold PCtx.local?
  rw [hcur]
  have hname : ∀ j (hj : j < (pre ++ [f]).length), (c.fs j).name = some ((pre ++ [f])[j]).name := by
    intro j hj
    exact hk j _ (List.getElem?_eq_getElem hj)
  cases h : (pre ++ [f]).findIdx? fun g => g.name == n with
  | some i =>
    rw [List.findIdx?_eq_some_iff_getElem] at h
    obtain ⟨hi, h1, h2⟩ := h
    rw [List.find?_range_eq_some]
    refine ⟨?_, ?_, ?_⟩
    · rw [hname i hi]; simpa using h1
    · simpa using hi
    · intro j hj
      have := h2 j hj
      rw [hname j (by omega)]
      simpa using this
  | none =>
    rw [List.findIdx?_eq_none_iff] at h
    rw [List.find?_range_eq_none]
    intro i hi
    have hi' : i < (pre ++ [f]).length := by simpa using hi
    rw [hname i hi']
    simpa using h _ (List.getElem_mem hi')

theorem callOf_eq {reg : Reg} {c : PCtx} {pre post : List Fn} {f : Fn}
    (hcur : c.cursor = pre.length)
    (hk : ∀ j g, (pre ++ [f])[j]? = some g → (c.fs j).name = some g.name ∧ (c.fs j).ctx = g.ctx)
    (hop : ∀ g ∈ pre ++ [f], reg.op g.name = none)
    (n : String) : callOf reg c n = meaning reg (pre ++ f :: post) pre.length f.ctx n := by
  unfold callOf PCtx.checkCall
  by_cases hopn : reg.op n ≠ none
  · have hown : owner (pre ++ f :: post) pre.length n = none := by
      rw [owner_pre, List.findIdx?_eq_none_iff]
      intro g hg
      have := hop g hg
      by_cases e : g.name = n
      · rw [e] at this; exact absurd this hopn
      · simpa using e
    unfold meaning
    rw [hown]
    dsimp only
    cases hb : reg.op n with
    | none => exact absurd hb hopn
    | some b => cases b <;> rfl
  have hopn : reg.op n = none := Classical.not_not.mp hopn
  unfold PCtx.check meaning
  rw [hopn]
  dsimp only
  rw [local_eq hcur (fun j g h => (hk j g h).1) n, owner_pre]
  have hf : (c.fs c.cursor).ctx = f.ctx := by
    rw [hcur]; exact (hk pre.length f (by simp)).2
  rw [hf]
  cases h : (pre ++ [f]).findIdx? fun g => g.name == n with
  | some i =>
    have hi : i < (pre ++ [f]).length := by
      rw [List.findIdx?_eq_some_iff_getElem] at h; exact h.1
    have hx := (hk i _ (List.getElem?_eq_getElem hi)).2
    have hg : (pre ++ f :: post)[i]? = some (pre ++ [f])[i] := by
      have : pre ++ f :: post = (pre ++ [f]) ++ post := by simp
      rw [this, List.getElem?_append_left hi, List.getElem?_eq_getElem hi]
    simp only [hx, hg, Option.map_some, Option.some.injEq]
    cases h1 : ((pre ++ [f])[i]).ctx <;> cases h2 : f.ctx <;> simp
  | none =>
    cases reg.find n with
    | none => rfl
    | some need =>
      cases need <;> cases h2 : f.ctx <;> simp

/-- The context with which the validation of the next function starts. -/
def begin_ (c : PCtx) (f : Fn) (i : Nat) : PCtx := ({ c with cursor := i } : PCtx).setDesc f i

theorem begin_known {c : PCtx} {pre : List Fn} (h : Inv c pre) (f : Fn) :
    (begin_ c f pre.length).cursor = pre.length ∧
    (∀ j g, (pre ++ [f])[j]? = some g →
      ((begin_ c f pre.length).fs j).name = some g.name ∧
      ((begin_ c f pre.length).fs j).ctx = g.ctx) ∧
    ((begin_ c f pre.length).fs pre.length).vars = [] ∧
    ((begin_ c f pre.length).fs pre.length).calls = [] ∧
    ∀ j, j ≠ pre.length → (begin_ c f pre.length).fs j = c.fs j := by
  refine ⟨rfl, ?_, ?_, ?_, ?_⟩
  · intro j g hg
    by_cases hj : j = pre.length
    · subst hj
      simp at hg
      subst hg
      simp [begin_, PCtx.setDesc, PCtx.set]
    · have hlt : j < pre.length := by
        have : j < (pre ++ [f]).length := by
          rcases Nat.lt_or_ge j (pre ++ [f]).length with h' | h'
          · exact h'
          · rw [List.getElem?_eq_none h'] at hg; cases hg
        simp at this; omega
      rw [List.getElem?_append_left hlt] at hg
      simpa [begin_, PCtx.setDesc, PCtx.set, hj] using h.known j g hg
  · simp [begin_, PCtx.setDesc, PCtx.set, h.fresh pre.length (Nat.le_refl _)]
  · simp [begin_, PCtx.setDesc, PCtx.set, h.fresh pre.length (Nat.le_refl _)]
  · intro j hj; simp [begin_, PCtx.setDesc, PCtx.set, hj]

/-- A function is in scope at the end of `pre`. -/
def FnOk (reg : Reg) (fs : List Fn) (i : Nat) (f : Fn) : Prop :=
  f.args.Nodup ∧ inScope reg (meaning reg fs i f.ctx) f.args f.body

/-- Validation of one function from a context with empty variables and calls. -/
theorem fn_iff {reg : Reg} {c : PCtx} {pre : List Fn} {f : Fn} (post : List Fn)
    (hcur : c.cursor = pre.length)
    (hk : ∀ j g, (pre ++ [f])[j]? = some g → (c.fs j).name = some g.name ∧ (c.fs j).ctx = g.ctx)
    (hop : ∀ g ∈ pre ++ [f], reg.op g.name = none)
    (hv : (c.fs pre.length).vars = []) :
    ((∃ r, validateFn reg c f = .ok r) ↔ FnOk reg (pre ++ f :: post) pre.length f) ∧
    ∀ ts c', validateFn reg c f = .ok (ts, c') →
      ts = callees (meaning reg (pre ++ f :: post) pre.length f.ctx) f.body ∧ Kept c c' ts := by
  obtain ⟨a1, a2⟩ := args_iff f.args c
  rw [hcur, hv] at a1
  rw [hcur, hv] at a2
  have hm := callOf_eq (reg := reg) (post := post) hcur hk hop
  cases hd : defineArgs c f.args with
  | error e =>
    refine ⟨⟨?_, ?_⟩, ?_⟩
    · rintro ⟨r, h⟩; simp [validateFn, hd] at h
    · intro h
      obtain ⟨r, hr⟩ := a1.mpr ⟨h.1, by simp⟩
      rw [hd] at hr; cases hr
    · intro ts c' h; simp [validateFn, hd] at h
  | ok d =>
    obtain ⟨k1, k2⟩ := a2 d hd
    have hn := (a1.mp ⟨d, hd⟩).1
    obtain ⟨b1, b2⟩ := body_iff reg f.body d
    have hs : ∀ x, callOf reg d x = meaning reg (pre ++ f :: post) pre.length f.ctx x := by
      intro x; rw [callOf_same k1.same, hm x]
    refine ⟨?_, ?_⟩
    · simp only [validateFn, hd]
      rw [b1, inScope_congr hs f.body _ f.args (by intro x; rw [k2]; simp)]
      exact ⟨fun h => ⟨hn, h⟩, fun h => h.2⟩
    · intro ts c' h
      simp only [validateFn, hd] at h
      obtain ⟨j1, j2⟩ := b2 ts c' h
      exact ⟨by rw [j1, callees_congr hs], by simpa using k1.trans j2⟩

/-- The rest of a script is well scoped after `pre`. -/
def RestOk (reg : Reg) : List Fn → List Fn → Prop
  | _, [] => True
  | pre, f :: fs =>
    FnOk reg (pre ++ f :: fs) pre.length f ∧ f.name ∉ pre.map Fn.name ∧ RestOk reg (pre ++ [f]) fs

/-- The calls of the rest of a script. -/
def restCalls (reg : Reg) : List Fn → List Fn → List (List Target)
  | _, [] => []
  | pre, f :: fs =>
    callees (meaning reg (pre ++ f :: fs) pre.length f.ctx) f.body :: restCalls reg (pre ++ [f]) fs

theorem validateAll_spec (reg : Reg) : ∀ (rest pre : List Fn) (c : PCtx) (seen : List String),
    Inv c pre → (∀ g ∈ pre ++ rest, reg.op g.name = none) →
    (∀ n, n ∈ seen ↔ n ∈ pre.map Fn.name) →
    ((∃ k r, validateAll reg c pre.length seen rest = (k, .ok r)) ↔ RestOk reg pre rest) ∧
    ∀ k tss c', validateAll reg c pre.length seen rest = (k, .ok (tss, c')) →
      tss = restCalls reg pre rest ∧ (rest ≠ [] → c'.cursor = pre.length + rest.length - 1) ∧
      (∀ j, j < pre.length → c'.fs j = c.fs j) ∧
      (∀ i ts, tss[i]? = some ts → ∀ n, n ∈ (c'.fs (pre.length + i)).calls ↔
        Target.registered n ∈ ts) := by
  intro rest
  induction rest with
  | nil =>
    intro pre c seen _ _ _
    refine ⟨by simp [validateAll, RestOk], ?_⟩
    intro k tss c' h
    simp only [validateAll, Prod.mk.injEq, Except.ok.injEq] at h
    obtain ⟨-, h1, h2⟩ := h
    subst h1; subst h2
    exact ⟨rfl, by simp, fun _ _ => rfl, by simp⟩
  | cons f fs ih =>
    intro pre c seen hinv hop hseen
    obtain ⟨q1, q2, q3, q4, q5⟩ := begin_known hinv f
    obtain ⟨f1, f2⟩ := fn_iff (reg := reg) fs q1 q2
      (by
        intro g hg
        have hap : pre ++ f :: fs = (pre ++ [f]) ++ fs := by simp
        exact hop g (by rw [hap]; exact List.mem_append_left _ hg)) q3
    have hun : ∀ x, validateAll reg c pre.length seen (f :: fs) = x ↔
        (match validateFn reg (begin_ c f pre.length) f with
          | .error e => (pre.length, .error e)
          | .ok (ts, c') =>
            if f.name ∈ seen then (pre.length, .error (.duplicate f.name))
            else
              match validateAll reg c' (pre.length + 1) (f.name :: seen) fs with
              | (k, .error e) => (k, .error e)
              | (k, .ok (tss, c'')) => (k, .ok (ts :: tss, c''))) = x := by
      intro x; rw [validateAll]; rfl
    cases hf : validateFn reg (begin_ c f pre.length) f with
    | error e =>
      refine ⟨⟨?_, ?_⟩, ?_⟩
      · rintro ⟨k, r, h⟩; rw [hun, hf] at h; simp at h
      · rintro ⟨h, -, -⟩
        obtain ⟨r, hr⟩ := f1.mpr h
        rw [hf] at hr; cases hr
      · intro k tss c' h; rw [hun, hf] at h; simp at h
    | ok r =>
      obtain ⟨ts, d⟩ := r
      have hok := f1.mp ⟨_, hf⟩
      obtain ⟨g1, g2⟩ := f2 ts d hf
      by_cases hdup : f.name ∈ seen
      · refine ⟨⟨?_, ?_⟩, ?_⟩
        · rintro ⟨k, r, h⟩; rw [hun, hf] at h; simp [hdup] at h
        · rintro ⟨-, h, -⟩; exact absurd ((hseen _).mp hdup) h
        · intro k tss c' h; rw [hun, hf] at h; simp [hdup] at h
      · have hinv' : Inv d (pre ++ [f]) := by
          refine ⟨?_, ?_⟩
          · intro j g hg
            have := g2.same.2 j
            rw [this.1, this.2]
            exact q2 j g hg
          · intro j hj
            have hj' : pre.length + 1 ≤ j := by simpa using hj
            have hne : j ≠ pre.length := by omega
            have e1 := g2.others j (by rw [q1]; exact hne)
            rw [e1, q5 j hne]
            exact hinv.fresh j (by omega)
        have hseen' : ∀ n, n ∈ f.name :: seen ↔ n ∈ (pre ++ [f]).map Fn.name := by
          intro n
          simp only [List.mem_cons, hseen n, List.map_append, List.map_cons, List.map_nil,
            List.mem_append, List.not_mem_nil, or_false]
          exact or_comm
        obtain ⟨i1, i2⟩ := ih (pre ++ [f]) d (f.name :: seen) hinv' (by simpa using hop) hseen'
        have hl : (pre ++ [f]).length = pre.length + 1 := by simp
        rw [hl] at i1 i2
        have hnm : f.name ∉ pre.map Fn.name := fun h => hdup ((hseen _).mpr h)
        refine ⟨?_, ?_⟩
        · constructor
          · rintro ⟨k, r, h⟩
            rw [hun, hf] at h
            simp only [hdup, if_false] at h
            refine ⟨hok, hnm, ?_⟩
            rw [← i1]
            cases hr : validateAll reg d (pre.length + 1) (f.name :: seen) fs with
            | mk k' x =>
              cases x with
              | error e => rw [hr] at h; simp at h
              | ok r => exact ⟨k', r, rfl⟩
          · rintro ⟨-, -, h⟩
            obtain ⟨k, ⟨tss, c''⟩, hr⟩ := i1.mpr h
            refine ⟨k, (ts :: tss, c''), ?_⟩
            rw [hun, hf]
            simp only [hdup, if_false, hr]
        · intro k tss c' h
          rw [hun, hf] at h
          simp only [hdup, if_false] at h
          cases hr : validateAll reg d (pre.length + 1) (f.name :: seen) fs with
          | mk k' x =>
            cases x with
            | error e => rw [hr] at h; simp at h
            | ok r =>
              obtain ⟨uss, c''⟩ := r
              rw [hr] at h
              simp only [Prod.mk.injEq, Except.ok.injEq] at h
              obtain ⟨hk', h1, h2⟩ := h
              subst h1; subst h2
              obtain ⟨j1, j2, j3, j4⟩ := i2 k' uss c'' hr
              refine ⟨?_, ?_, ?_, ?_⟩
              · simp only [restCalls]; rw [j1, g1]
              · intro _
                cases fs with
                | nil =>
                  simp only [validateAll, Prod.mk.injEq, Except.ok.injEq] at hr
                  rw [← hr.2.2, g2.same.1, q1]; simp
                | cons a as =>
                  rw [j2 (by simp)]; simp; omega
              · intro j hj
                rw [j3 j (by omega), g2.others j (by rw [q1]; omega), q5 j (by omega)]
              · intro i us hi n
                cases i with
                | zero =>
                  simp only [List.getElem?_cons_zero, Option.some.injEq] at hi
                  subst hi
                  have e0 : c''.fs pre.length = d.fs pre.length := j3 _ (by omega)
                  have := g2.calls n
                  rw [q1, q4] at this
                  simpa [e0] using this
                | succ i =>
                  simp only [List.getElem?_cons_succ] at hi
                  have := j4 i us hi n
                  rw [← this]
                  have : pre.length + (i + 1) = pre.length + 1 + i := by omega
                  rw [this]

/-! ### Code generation -/

/-- Where a checked call really goes: a script function with the name of a declared function
is not reached. -/
def redirect (ext : List String) (fs : List Fn) : Target → Target
  | .registered f => .registered f
  | .operator f => .operator f
  | .script i =>
    match fs[i]? with
    | some f => if f.name ∈ ext then .registered f.name else .script i
    | none => .script i

theorem genBody_spec {reg : Reg} {ext : List String} {defs : String → Option Nat}
    {call : String → Option Target} {red : Target → Target} :
    ∀ (es : List Ev) (vs vs' : List String), (∀ x, x ∈ vs ↔ x ∈ vs') →
      inScope reg call vs es →
      (∀ f t, call f = some t → t ∈ callees call es → genApply reg ext defs f = .ok (red t)) →
      genBody reg ext defs vs' es = .ok ((callees call es).map red) := by
  intro es
  induction es with
  | nil => intro vs vs' _ _ _; rfl
  | cons e es ih =>
    intro vs vs' hv h hc
    cases e with
    | define x =>
      simp only [inScope] at h
      simp only [genBody, callees]
      exact ih (x :: vs) (x :: vs') (by intro y; simp [hv y]) h.2 hc
    | use x =>
      simp only [inScope, hv x] at h
      simp only [genBody, callees, if_pos h.1]
      exact ih vs vs' hv h.2 hc
    | call f =>
      simp only [inScope] at h
      obtain ⟨t, ht⟩ := Option.isSome_iff_exists.mp h.1
      have hcs : callees call (.call f :: es) = t :: callees call es := by
        simp [callees, ht]
      rw [hcs] at hc
      simp only [genBody, hc f t ht (by simp), hcs]
      rw [ih vs vs' hv h.2 fun g u hg hu => hc g u hg (by simp [hu])]
      rfl

theorem meaning_registered {reg : Reg} {fs : List Fn} {i : Nat} {ctx : Bool} {f g : String}
    (h : meaning reg fs i ctx f = some (.registered g)) : g = f ∧ owner fs i f = none ∧
      (reg.find f).isSome ∧ reg.op f = none := by
  unfold meaning at h
  cases ho : owner fs i f with
  | some j =>
    rw [ho] at h
    dsimp only at h
    split at h <;> cases h
  | none =>
    rw [ho] at h
    dsimp only at h
    cases hop : reg.op f with
    | some b => rw [hop] at h; cases b <;> cases h
    | none =>
    rw [hop] at h
    dsimp only at h
    cases hr : reg.find f with
    | none => rw [hr] at h; cases h
    | some need =>
      rw [hr] at h
      dsimp only at h
      split at h
      · cases h
      · cases h; exact ⟨rfl, rfl, rfl, rfl⟩

theorem meaning_operator {reg : Reg} {fs : List Fn} {i : Nat} {ctx : Bool} {f g : String}
    (h : meaning reg fs i ctx f = some (.operator g)) : g = f ∧ reg.op f = some true := by
  unfold meaning at h
  cases ho : owner fs i f with
  | some j =>
    rw [ho] at h
    dsimp only at h
    split at h <;> cases h
  | none =>
    rw [ho] at h
    dsimp only at h
    cases hop : reg.op f with
    | some b =>
      rw [hop] at h
      cases b with
      | false => cases h
      | true => cases h; exact ⟨rfl, rfl⟩
    | none =>
      rw [hop] at h
      dsimp only at h
      cases hr : reg.find f with
      | none => rw [hr] at h; cases h
      | some need =>
        rw [hr] at h
        dsimp only at h
        split at h <;> cases h

theorem meaning_script {reg : Reg} {fs : List Fn} {i j : Nat} {ctx : Bool} {f : String}
    (h : meaning reg fs i ctx f = some (.script j)) : owner fs i f = some j := by
  unfold meaning at h
  cases ho : owner fs i f with
  | some k =>
    rw [ho] at h
    dsimp only at h
    split at h
    · cases h
    · cases h; rfl
  | none =>
    rw [ho] at h
    dsimp only at h
    cases hop : reg.op f with
    | some b => rw [hop] at h; cases b <;> cases h
    | none =>
    rw [hop] at h
    dsimp only at h
    cases hr : reg.find f with
    | none => rw [hr] at h; cases h
    | some need =>
      rw [hr] at h
      dsimp only at h
      split at h <;> cases h

theorem genAll_spec {reg : Reg} {ext : List String} : ∀ (rest pre : List Fn)
    (defs : String → Option Nat), (∀ n, defs n = pre.findIdx? fun g => g.name == n) →
    RestOk reg pre rest → (∀ g ∈ pre ++ rest, reg.op g.name = none) →
    (∀ ts ∈ restCalls reg pre rest, ∀ n, Target.registered n ∈ ts → n ∈ ext) →
    genAll reg ext defs pre.length rest =
      .ok ((restCalls reg pre rest).map fun ts => ts.map (redirect ext (pre ++ rest))) := by
  intro rest
  induction rest with
  | nil => intro pre defs _ _ _ _; rfl
  | cons f fs ih =>
    intro pre defs hd hok hop hext
    obtain ⟨⟨-, hsc⟩, hn, hrest⟩ := hok
    have hd' : ∀ n, (if n = f.name then some pre.length else defs n) =
        (pre ++ [f]).findIdx? fun g => g.name == n := by
      intro n
      rw [List.findIdx?_append, hd n]
      by_cases h : n = f.name
      · subst h
        have : (pre.findIdx? fun g => g.name == f.name) = none := by
          rw [List.findIdx?_eq_none_iff]
          intro g hg
          have : g.name ≠ f.name := fun e => hn (e ▸ List.mem_map_of_mem hg)
          simpa using this
        simp [this]
      · have : (f.name == n) = false := by simpa using fun e => h e.symm
        rw [if_neg h]
        cases pre.findIdx? fun g => g.name == n <;> simp [this]
    have hbody : genBody reg ext (fun n => if n = f.name then some pre.length else defs n)
        f.args.reverse f.body = .ok ((callees (meaning reg (pre ++ f :: fs) pre.length f.ctx)
          f.body).map (redirect ext (pre ++ f :: fs))) := by
      apply genBody_spec f.body f.args f.args.reverse (by simp) hsc
      intro n t ht hmem
      unfold genApply
      cases t with
      | operator g =>
        obtain ⟨hg, ho⟩ := meaning_operator ht
        subst hg
        rw [ho]
        rfl
      | registered g =>
        obtain ⟨hg, -, -, hno⟩ := meaning_registered ht
        subst hg
        rw [hno]
        dsimp only
        unfold genCall
        rw [if_pos (hext _ (by simp [restCalls]) g hmem)]
        rfl
      | script j =>
        have ho := meaning_script ht
        rw [owner_pre] at ho
        have hno : reg.op n = none := by
          rw [List.findIdx?_eq_some_iff_getElem] at ho
          obtain ⟨hj, h1, -⟩ := ho
          have h2 : ((pre ++ [f])[j]).name = n := by simpa using h1
          rw [← h2]
          have hap : pre ++ f :: fs = (pre ++ [f]) ++ fs := by simp
          exact hop _ (by rw [hap]; exact List.mem_append_left _ (List.getElem_mem hj))
        rw [hno]
        dsimp only
        unfold genCall
        dsimp only
        rw [hd' n, ho]
        rw [List.findIdx?_eq_some_iff_getElem] at ho
        obtain ⟨hj, h1, -⟩ := ho
        have hname : ((pre ++ [f])[j]).name = n := by simpa using h1
        have hg : (pre ++ f :: fs)[j]? = some (pre ++ [f])[j] := by
          have : pre ++ f :: fs = (pre ++ [f]) ++ fs := by simp
          rw [this, List.getElem?_append_left hj, List.getElem?_eq_getElem hj]
        simp only [redirect, hg, hname]
        split <;> rfl
    have hi := ih (pre ++ [f]) (fun n => if n = f.name then some pre.length else defs n) hd' hrest (by simpa using hop)
      (fun ts hts n hm => hext ts (by simp only [restCalls]; exact List.mem_cons_of_mem _ hts) n hm)
    have hl : (pre ++ [f]).length = pre.length + 1 := by simp
    have hap : pre ++ [f] ++ fs = pre ++ f :: fs := by simp
    rw [hl, hap] at hi
    simp only [genAll, hbody, hi, restCalls, List.map_cons]

/-! ### Well-scoped scripts -/

theorem restOk_iff (reg : Reg) : ∀ (rest pre : List Fn),
    RestOk reg pre rest ↔
      ((rest.map Fn.name).Nodup ∧ (∀ n ∈ rest.map Fn.name, n ∉ pre.map Fn.name)) ∧
      ∀ i f, rest[i]? = some f → FnOk reg (pre ++ rest) (pre.length + i) f := by
  intro rest
  induction rest with
  | nil => intro pre; simp [RestOk]
  | cons f fs ih =>
    intro pre
    simp only [RestOk]
    rw [ih (pre ++ [f])]
    have hl : (pre ++ [f]).length = pre.length + 1 := by simp
    have hap : pre ++ [f] ++ fs = pre ++ f :: fs := by simp
    rw [hl, hap]
    constructor
    · rintro ⟨h1, h2, ⟨h3, h4⟩, h5⟩
      refine ⟨⟨?_, ?_⟩, ?_⟩
      · simp only [List.map_cons, List.nodup_cons]
        refine ⟨fun h => ?_, h3⟩
        exact h4 _ h (by simp)
      · intro n hn
        simp only [List.map_cons, List.mem_cons] at hn
        rcases hn with hn | hn
        · rw [hn]; exact h2
        · intro h
          exact h4 n hn (by simp only [List.map_append, List.mem_append]; exact Or.inl h)
      · intro i g hg
        cases i with
        | zero => simp only [List.getElem?_cons_zero, Option.some.injEq] at hg; subst hg; exact h1
        | succ i =>
          simp only [List.getElem?_cons_succ] at hg
          have := h5 i g hg
          have e : pre.length + (i + 1) = pre.length + 1 + i := by omega
          rw [e]; exact this
    · rintro ⟨⟨h1, h2⟩, h3⟩
      simp only [List.map_cons, List.nodup_cons] at h1
      refine ⟨h3 0 f (by simp), h2 _ (by simp), ⟨h1.2, ?_⟩, ?_⟩
      · intro n hn
        simp only [List.map_append, List.map_cons, List.map_nil, List.mem_append, List.mem_cons,
          List.not_mem_nil, or_false, not_or]
        exact ⟨h2 n (by simp only [List.map_cons, List.mem_cons]; exact Or.inr hn),
          fun e => h1.1 (e ▸ hn)⟩
      · intro i g hg
        have := h3 (i + 1) g (by simpa using hg)
        have e : pre.length + (i + 1) = pre.length + 1 + i := by omega
        rw [e] at this; exact this

theorem wellScoped_iff (reg : Reg) (fs : List Fn) : RestOk reg [] fs ↔ WellScoped reg fs := by
  rw [restOk_iff]
  simp [WellScoped, FnOk]

theorem restCalls_eq (reg : Reg) : ∀ (rest pre : List Fn),
    restCalls reg pre rest = (rest.zipIdx pre.length).map fun p =>
      callees (meaning reg (pre ++ rest) p.2 p.1.ctx) p.1.body := by
  intro rest
  induction rest with
  | nil => intro pre; rfl
  | cons f fs ih =>
    intro pre
    have hl : (pre ++ [f]).length = pre.length + 1 := by simp
    have hap : pre ++ [f] ++ fs = pre ++ f :: fs := by simp
    simp only [restCalls, List.zipIdx_cons, List.map_cons]
    rw [ih (pre ++ [f]), hl, hap]

theorem intended_eq (reg : Reg) (fs : List Fn) : restCalls reg [] fs = intended reg fs := by
  rw [restCalls_eq]; rfl

end Verif.Session
