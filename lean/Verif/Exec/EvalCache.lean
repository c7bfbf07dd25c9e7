import Verif.Lru.Props
/-!
# The process-wide evaluation cache: C02, C03, C80–C82

`/repo/rapidudf/exec/eval_engine.h` 31–173 and `/repo/rapidudf/exec/eval_engine.cc` 20–23. `eval_function` and `eval_expression` share one cache from source text to a list of compiled
functions. The compiler is a parameter; compiled code is a function from the argument values to the result. Signatures are compared with `CompareSignature`
(`/repo/rapidudf/meta/function.cc` 173–186), taken here as equality. Each of the two sections under the mutex is one event, so that a list of events is any interleaving of any
number of threads. `std::shared_ptr<void> func_obj` is an object number; an object is alive as long as some record holds its number.
-/
namespace Verif.Exec
open Verif.Lru

/-- The compiler: `CompileDynObjExpression` (an expression with its argument descriptions and signature) and `CompileSource` (the functions of a source, in order). -/
structure Compiler (Src Sig Arg Val : Type) where
  expr : Src → List Arg → Sig → Option (Val → Val)
  source : Src → Option (List (Sig × (Val → Val)))

/-- `EvalFunction`, eval_engine.h 31–43: signature, code, and the function object if it has been made. -/
structure Rec (Sig Val : Type) where
  sig : Sig
  code : Val → Val
  obj : Option Nat

/-- The cache and the number of the next function object. -/
structure St (Src Sig Val : Type) where
  cache : Lru Src (List (Rec Sig Val))
  next : Nat

/-- A call of `eval_expression`. -/
structure Call (Src Sig Arg Val : Type) where
  src : Src
  args : List Arg
  sig : Sig
  val : Val

/-- A call of `eval_function`. -/
structure FCall (Src Sig Val : Type) where
  src : Src
  sig : Sig
  val : Val

/-- What a section yields: `miss` goes on to compile; `ub` is a call of a destroyed object or an eviction from an empty cache; `blocked` never returns. -/
inductive Out (Val : Type) where
  | miss
  | value (v : Val)
  | error
  | notFound
  | ub
  | blocked

variable {Src Sig Arg Val : Type} [DecidableEq Src] [DecidableEq Sig]

/-- The objects held by records: those in scope and those in the cache. -/
def owners (locals : List (Rec Sig Val)) (st : St Src Sig Val) : List (Option Nat) := locals.map (·.obj) ++ st.cache.map.flatMap (fun e => e.2.1.map (·.obj))

/-- `(*found_func)(args...)`. -/
def callObj (locals : List (Rec Sig Val)) (st : St Src Sig Val) (id : Nat) (code : Val → Val) (v : Val) : Out Val :=
  if some id ∈ owners locals st then .value (code v) else .ub

/-- `GetFunc`, eval_engine.h 37–42: the record (changed if it had no object) and the object. -/
def getFunc (next : Nat) (r : Rec Sig Val) : Rec Sig Val × Nat × Nat :=
  match r.obj with
  | some id => (r, id, next)
  | none => ({ r with obj := some next }, next, next + 1)

/-- Reading the cache, eval_engine.h 65 and 119: `get` returns a copy of the entry. -/
def cacheGet (st : St Src Sig Val) (src : Src) : St Src Sig Val × Option (List (Rec Sig Val)) := ({ st with cache := (get st.cache src).1 }, (get st.cache src).2)

/-- The hit, eval_engine.h 69–74 and 126–131: `items` is the local copy of the entry, `r` one of its records. -/
def callHit (st : St Src Sig Val) (items : List (Rec Sig Val)) (r : Rec Sig Val) (v : Val) : St Src Sig Val × Out Val :=
  let x := getFunc st.next r
  ({ st with next := x.2.2 }, callObj (x.1 :: items) { st with next := x.2.2 } x.2.1 r.code v)

/-- The first section of `eval_expression`, eval_engine.h 117–135. -/
def exprLookup (st : St Src Sig Val) (c : Call Src Sig Arg Val) : St Src Sig Val × Out Val :=
  match cacheGet st c.src with
  | (st, none) => (st, .miss)
  | (st, some items) =>
    match items.find? (fun r => r.sig = c.sig) with
    | none => (st, .miss)
    | some r => callHit st items r c.val

/-- The rest of `eval_expression`, eval_engine.h 136–172. If the entry exists the new record is added to the local copy only (159–163). -/
def exprStore (C : Compiler Src Sig Arg Val) (st : St Src Sig Val) (c : Call Src Sig Arg Val) : St Src Sig Val × Out Val :=
  match C.expr c.src c.args c.sig with
  | none => (st, .error)
  | some code =>
    let x := getFunc st.next { sig := c.sig, code := code, obj := none }
    let st := { st with next := x.2.2 }
    match cacheGet st c.src with
    | (st, some _) => (st, callObj [x.1] st x.2.1 code c.val)
    | (st, none) =>
      match insert st.cache c.src [x.1] with
      | none => (st, .ub)
      | some cache => ({ st with cache := cache }, callObj [x.1] { st with cache := cache } x.2.1 code c.val)

/-- The first section of `eval_function`, eval_engine.h 63–79. -/
def funcLookup (st : St Src Sig Val) (c : FCall Src Sig Val) : St Src Sig Val × Out Val :=
  match cacheGet st c.src with
  | (st, none) => (st, .miss)
  | (st, some items) =>
    match items.find? (fun r => r.sig = c.sig) with
    | none => (st, .notFound)
    | some r => callHit st items r c.val

/-- The compile loop of `eval_function`, eval_engine.h 88–103: the record is copied into the item before its object is made; the object belongs to the loop variable. -/
def compileLoop (sig : Sig) (next : Nat) (items : List (Rec Sig Val)) (found : Option (Nat × (Val → Val))) :
    List (Sig × (Val → Val)) → List (Rec Sig Val) × Option (Nat × (Val → Val)) × Nat
  | [] => (items, found, next)
  | f :: fs =>
    let r : Rec Sig Val := { sig := f.1, code := f.2, obj := none }
    if f.1 = sig then
      let x := getFunc next r
      compileLoop sig x.2.2 (items ++ [r]) (some (x.2.1, f.2)) fs
    else compileLoop sig next (items ++ [r]) found fs

/-- The rest of `eval_function`, eval_engine.h 80–111. -/
def funcStore (C : Compiler Src Sig Arg Val) (st : St Src Sig Val) (c : FCall Src Sig Val) : St Src Sig Val × Out Val :=
  match C.source c.src with
  | none => (st, .error)
  | some fs =>
    let x := compileLoop c.sig st.next [] none fs
    let st := { st with next := x.2.2 }
    match insert st.cache c.src x.1 with
    | none => (st, .ub)
    | some cache =>
      let st := { st with cache := cache }
      match x.2.1 with
      | some f => (st, callObj x.1 st f.1 f.2 c.val)
      | none => (st, .notFound)

/-- One section of one call of some thread. -/
inductive Ev (Src Sig Arg Val : Type) where
  | exprLookup (c : Call Src Sig Arg Val)
  | exprStore (c : Call Src Sig Arg Val)
  | funcLookup (c : FCall Src Sig Val)
  | funcStore (c : FCall Src Sig Val)

/-- One event. -/
def step (C : Compiler Src Sig Arg Val) (st : St Src Sig Val) : Ev Src Sig Arg Val → St Src Sig Val × Out Val
  | .exprLookup c => exprLookup st c
  | .exprStore c => exprStore C st c
  | .funcLookup c => funcLookup st c
  | .funcStore c => funcStore C st c

/-- A history. -/
def run (C : Compiler Src Sig Arg Val) (st : St Src Sig Val) : List (Ev Src Sig Arg Val) → St Src Sig Val × List (Ev Src Sig Arg Val × Out Val)
  | [] => (st, [])
  | e :: es =>
    let x := step C st e
    let y := run C x.1 es
    (y.1, (e, x.2) :: y.2)

/-- The process at its start; the code's capacity is 10000. -/
def init (cap : Nat) : St Src Sig Val := { cache := Lru.init cap, next := 0 }

/-- A whole call of `eval_expression`, if the calling thread holds the mutex already (`held`) or not: `std::mutex` cannot be locked twice. -/
def evalExpr (C : Compiler Src Sig Arg Val) (held : Bool) (st : St Src Sig Val) (c : Call Src Sig Arg Val) : St Src Sig Val × Out Val :=
  if held = true then (st, .blocked)
  else
    match exprLookup st c with
    | (st, .miss) => exprStore C st c
    | r => r

/-- A call whose code makes another call while it runs: on a hit the code runs with the mutex held (eval_engine.h 118, 130), otherwise not (172). The result is that of the
inner call. -/
def evalNested (C : Compiler Src Sig Arg Val) (st : St Src Sig Val) (outer inner : Call Src Sig Arg Val) : Out Val :=
  match exprLookup st outer with
  | (st, .miss) =>
    match exprStore C st outer with
    | (st, .value _) => (evalExpr C false st inner).2
    | r => r.2
  | (st, .value _) => (evalExpr C true st inner).2
  | r => r.2

/-! ## Specification -/

/-- What `eval_expression` is to return: the value of the expression with the given argument names. -/
def meaning (C : Compiler Src Sig Arg Val) (c : Call Src Sig Arg Val) : Out Val :=
  match C.expr c.src c.args c.sig with
  | none => .error
  | some f => .value (f c.val)

/-! ## Lemmas -/

/-- Everything in the cache satisfies `P`. -/
def All (P : Src → Rec Sig Val → Prop) (l : Lru Src (List (Rec Sig Val))) : Prop := ∀ e ∈ l.map, ∀ r ∈ e.2.1, P e.1 r

theorem mem_set {K A : Type} [DecidableEq K] (m : AMap K A) (k : K) (a : A) (e : K × A) (h : e ∈ AMap.set m k a) : e = (k, a) ∨ e ∈ m := by
  rcases List.mem_cons.1 h with h | h
  · exact .inl h
  · exact .inr ((List.mem_filter.1 h).1)

theorem all_get (P : Src → Rec Sig Val → Prop) (l : Lru Src (List (Rec Sig Val))) (h : All P l) (k : Src) :
    All P (get l k).1 ∧ ∀ items, (get l k).2 = some items → ∀ r ∈ items, P k r := by
  unfold Lru.get
  cases hf : l.map.find k with
  | none => exact ⟨h, fun items hi => by simp at hi⟩
  | some p =>
    obtain ⟨v, j⟩ := p
    have hm := AMap.find_mem _ _ _ hf
    have hv : ∀ r ∈ v, P k r := fun r hr => h _ hm r hr
    simp only
    split
    · exact ⟨h, fun items hi => by simp at hi; subst hi; exact hv⟩
    · refine ⟨?_, fun items hi => by simp at hi; subst hi; exact hv⟩
      intro e he
      rcases mem_set _ _ _ _ he with he | he
      · subst he; exact hv
      · exact h e he

theorem all_insert (P : Src → Rec Sig Val → Prop) (l : Lru Src (List (Rec Sig Val))) (h : All P l) (k : Src) (v : List (Rec Sig Val)) (hv : ∀ r ∈ v, P k r)
    (l' : Lru Src (List (Rec Sig Val))) (hi : insert l k v = some l') : All P l' := by
  unfold Lru.insert at hi
  have push : ∀ s : Lru Src (List (Rec Sig Val)), All P s → All P (pushFront s k v) := by
    intro s hs e he
    rcases mem_set _ _ _ _ he with he | he
    · subst he; exact hv
    · exact hs e he
  cases hf : l.map.find k with
  | some p => rw [hf] at hi; simp at hi; subst hi; exact h
  | none =>
    rw [hf] at hi
    simp only at hi
    split at hi
    · cases hev : evict l with
      | none => rw [hev] at hi; simp at hi
      | some s =>
        rw [hev] at hi
        simp at hi
        subst hi
        apply push
        unfold evict at hev
        split at hev
        · simp at hev
        · simp at hev
          subst hev
          intro e he
          exact h e ((List.mem_filter.1 he).1)
    · simp at hi
      subst hi
      exact push l h

theorem all_mono {P Q : Src → Rec Sig Val → Prop} (l : Lru Src (List (Rec Sig Val))) (h : All P l) (hpq : ∀ k r, P k r → Q k r) : All Q l :=
  fun e he r hr => hpq _ _ (h e he r hr)

/-- The object of a hit is alive: it belongs to the local copy. -/
theorem callHit_value (st : St Src Sig Val) (items : List (Rec Sig Val)) (r : Rec Sig Val) (v : Val) :
    (callHit st items r v).2 = .value (r.code v) ∧ (callHit st items r v).1.cache = st.cache ∧ st.next ≤ (callHit st items r v).1.next := by
  unfold callHit callObj getFunc owners
  cases h : r.obj with
  | some id => simp [h]
  | none => simp

theorem compileLoop_spec (sig : Sig) (fs : List (Sig × (Val → Val))) : ∀ (next : Nat) (items : List (Rec Sig Val)) (found : Option (Nat × (Val → Val))),
    (compileLoop sig next items found fs).1 = items ++ fs.map (fun f => { sig := f.1, code := f.2, obj := none }) ∧
    next ≤ (compileLoop sig next items found fs).2.2 ∧
    ((∃ f ∈ fs, f.1 = sig) → ∃ id code, (compileLoop sig next items found fs).2.1 = some (id, code) ∧ next ≤ id) ∧
    ((∀ f ∈ fs, f.1 ≠ sig) → (compileLoop sig next items found fs).2.1 = found) ∧
    (∀ lo, lo ≤ next → (∀ id code, found = some (id, code) → lo ≤ id) → ∀ id code, (compileLoop sig next items found fs).2.1 = some (id, code) → lo ≤ id) := by
  induction fs with
  | nil => intro next items found; simp [compileLoop]
  | cons f fs ih =>
    intro next items found
    unfold compileLoop
    simp only [getFunc]
    by_cases hf : f.1 = sig
    · rw [if_pos hf]
      obtain ⟨h1, h2, h3, h4, h5⟩ := ih (next + 1) (items ++ [{ sig := f.1, code := f.2, obj := none }]) (some (next, f.2))
      refine ⟨by rw [h1]; simp, by omega, ?_, ?_, ?_⟩
      · intro _
        by_cases hx : ∃ f ∈ fs, f.1 = sig
        · obtain ⟨id, code, e1, e2⟩ := h3 hx
          exact ⟨id, code, e1, by omega⟩
        · exact ⟨next, f.2, h4 (fun g hg e => hx ⟨g, hg, e⟩), Nat.le_refl _⟩
      · intro h; exact absurd hf (h f (by simp))
      · intro lo hlo _ id code
        exact h5 lo (by omega) (fun id code e => by simp at e; omega) id code
    · rw [if_neg hf]
      obtain ⟨h1, h2, h3, h4, h5⟩ := ih next (items ++ [{ sig := f.1, code := f.2, obj := none }]) found
      refine ⟨by rw [h1]; simp, h2, ?_, ?_, h5⟩
      · rintro ⟨g, hg, e⟩
        rcases List.mem_cons.1 hg with rfl | hg
        · exact absurd e hf
        · exact h3 ⟨g, hg, e⟩
      · intro h; exact h4 (fun g hg => h g (List.mem_cons_of_mem _ hg))

/-- Where a cached record can come from. -/
def Origin (C : Compiler Src Sig Arg Val) (es : List (Ev Src Sig Arg Val)) (k : Src) (r : Rec Sig Val) : Prop :=
  (∃ c : Call Src Sig Arg Val, .exprStore c ∈ es ∧ c.src = k ∧ c.sig = r.sig ∧ C.expr k c.args r.sig = some r.code) ∨
  ∃ c : FCall Src Sig Val, .funcStore c ∈ es ∧ c.src = k

/-- Records in the cache hold only objects that have been made. -/
def Made (n : Nat) (_ : Src) (r : Rec Sig Val) : Prop := ∀ id, r.obj = some id → id < n

theorem cacheGet_spec (st : St Src Sig Val) (src : Src) : (cacheGet st src).1.cache = (get st.cache src).1 ∧ (cacheGet st src).1.next = st.next ∧
    (cacheGet st src).2 = (get st.cache src).2 := ⟨rfl, rfl, rfl⟩

/-- The cache is in a state of the C01 model with a positive capacity. -/
def Ok (l : Lru Src (List (Rec Sig Val))) : Prop := 0 < l.cap ∧ ∃ a, Sim l a

theorem ok_get (l : Lru Src (List (Rec Sig Val))) (h : Ok l) (k : Src) : Ok (get l k).1 := by
  obtain ⟨hc, a, ha⟩ := h
  refine ⟨?_, _, (sim_step l a ha (.get k) hc).2⟩
  unfold Lru.get
  split
  · exact hc
  · split <;> exact hc

theorem ok_insert (l : Lru Src (List (Rec Sig Val))) (h : Ok l) (k : Src) (v : List (Rec Sig Val)) : ∃ l', insert l k v = some l' ∧ Ok l' := by
  obtain ⟨hc, a, ha⟩ := h
  have hs := sim_step l a ha (.insert k v) hc
  unfold Lru.step at hs
  simp only at hs
  cases hi : insert l k v with
  | none =>
    rw [hi] at hs
    have := hs.1
    simp only [Spec.step] at this
    split at this
    · simp at this
    · split at this <;> simp at this
  | some l' =>
    rw [hi] at hs
    refine ⟨l', rfl, ?_, _, hs.2⟩
    unfold Lru.insert at hi
    split at hi
    · simp at hi; subst hi; exact hc
    · split at hi
      · split at hi
        · simp at hi
        · rename_i hev
          simp at hi
          subst hi
          unfold evict at hev
          split at hev
          · simp at hev
          · simp at hev; subst hev; exact hc
      · simp at hi; subst hi; exact hc

/-- The invariants. -/
structure Inv (C : Compiler Src Sig Arg Val) (es : List (Ev Src Sig Arg Val)) (st : St Src Sig Val) : Prop where
  origin : All (Origin C es) st.cache
  made : All (Made st.next) st.cache
  ok : Ok st.cache

/-- The invariants are kept by every event. -/
theorem step_inv (C : Compiler Src Sig Arg Val) (es : List (Ev Src Sig Arg Val)) (st : St Src Sig Val) (e : Ev Src Sig Arg Val) (he : e ∈ es)
    (h : Inv C es st) : Inv C es (step C st e).1 := by
  obtain ⟨h1, h2, h3⟩ := h
  have mono : ∀ (l : Lru Src (List (Rec Sig Val))) (a b : Nat), a ≤ b → All (Made a) l → All (Made b) l :=
    fun l a b hab h => all_mono l h (fun k r hr id hid => Nat.lt_of_lt_of_le (hr id hid) hab)
  have look : ∀ (src : Src) (st' : St Src Sig Val), st'.cache = (get st.cache src).1 → st.next ≤ st'.next →
      Inv C es st' := by
    intro src st' e1 e2
    refine ⟨?_, ?_, ?_⟩ <;> rw [e1]
    · exact (all_get _ _ h1 src).1
    · exact mono _ _ _ e2 (all_get _ _ h2 src).1
    · exact ok_get _ h3 src
  cases e with
  | exprLookup c =>
    simp only [step, exprLookup]
    have hg := cacheGet_spec st c.src
    rcases hx : cacheGet st c.src with ⟨s1, o⟩
    rw [hx] at hg
    cases o with
    | none => exact look c.src s1 hg.1 (Nat.le_of_eq hg.2.1.symm)
    | some items =>
      simp only
      cases hf : items.find? (fun r => r.sig = c.sig) with
      | none => exact look c.src s1 hg.1 (Nat.le_of_eq hg.2.1.symm)
      | some r =>
        obtain ⟨_, e1, e2⟩ := callHit_value s1 items r c.val
        exact look c.src (callHit s1 items r c.val).1 (by rw [e1]; exact hg.1) (Nat.le_trans (Nat.le_of_eq hg.2.1.symm) e2)
  | funcLookup c =>
    simp only [step, funcLookup]
    have hg := cacheGet_spec st c.src
    rcases hx : cacheGet st c.src with ⟨s1, o⟩
    rw [hx] at hg
    cases o with
    | none => exact look c.src s1 hg.1 (Nat.le_of_eq hg.2.1.symm)
    | some items =>
      simp only
      cases hf : items.find? (fun r => r.sig = c.sig) with
      | none => exact look c.src s1 hg.1 (Nat.le_of_eq hg.2.1.symm)
      | some r =>
        obtain ⟨_, e1, e2⟩ := callHit_value s1 items r c.val
        exact look c.src (callHit s1 items r c.val).1 (by rw [e1]; exact hg.1) (Nat.le_trans (Nat.le_of_eq hg.2.1.symm) e2)
  | exprStore c =>
    simp only [step, exprStore]
    cases hc : C.expr c.src c.args c.sig with
    | none => exact ⟨h1, h2, h3⟩
    | some code =>
      simp only [getFunc]
      have hg := cacheGet_spec (⟨st.cache, st.next + 1⟩ : St Src Sig Val) c.src
      rcases hx : cacheGet (⟨st.cache, st.next + 1⟩ : St Src Sig Val) c.src with ⟨s1, o⟩
      rw [hx] at hg
      simp only at hg
      have hl := look c.src s1 hg.1 (by omega)
      cases o with
      | some items => exact hl
      | none =>
        simp only
        cases hi : insert s1.cache c.src [⟨c.sig, code, some st.next⟩] with
        | none => exact hl
        | some cache =>
          simp only
          obtain ⟨l', hl', hok⟩ := ok_insert _ hl.ok c.src [⟨c.sig, code, some st.next⟩]
          rw [hi] at hl'
          simp at hl'
          refine ⟨all_insert _ _ hl.1 _ _ ?_ _ hi, all_insert _ _ hl.2 _ _ ?_ _ hi, by rw [hl']; exact hok⟩
          · intro r hr
            simp at hr
            subst hr
            exact .inl ⟨c, he, rfl, rfl, hc⟩
          · intro r hr id hid
            simp at hr
            subst hr
            simp at hid
            omega
  | funcStore c =>
    simp only [step, funcStore]
    cases hc : C.source c.src with
    | none => exact ⟨h1, h2, h3⟩
    | some fs =>
      simp only
      obtain ⟨e1, e2, _⟩ := compileLoop_spec c.sig fs st.next [] none
      have hm := mono _ _ _ e2 h2
      cases hi : insert st.cache c.src (compileLoop c.sig st.next [] none fs).1 with
      | none => exact ⟨h1, hm, h3⟩
      | some cache =>
        obtain ⟨l', hl', hok⟩ := ok_insert _ h3 c.src (compileLoop c.sig st.next [] none fs).1
        rw [hi] at hl'
        simp at hl'
        have key : Inv C es (⟨cache, (compileLoop c.sig st.next [] none fs).2.2⟩ : St Src Sig Val) := by
          refine ⟨all_insert _ _ h1 _ _ ?_ _ hi, all_insert _ _ hm _ _ ?_ _ hi, by rw [hl']; exact hok⟩
          · intro r _; exact .inr ⟨c, he, rfl⟩
          · intro r hr id hid
            rw [e1] at hr
            simp at hr
            obtain ⟨a, b, _, rfl⟩ := hr
            simp at hid
        simp only
        cases (compileLoop c.sig st.next [] none fs).2.1 with
        | none => exact key
        | some f => exact key

/-- A property of single events, relative to the invariants, holds for all events of a history. -/
theorem run_each (C : Compiler Src Sig Arg Val) (es : List (Ev Src Sig Arg Val)) (Q : Ev Src Sig Arg Val → Out Val → Prop)
    (hq : ∀ (st : St Src Sig Val) (e : Ev Src Sig Arg Val), e ∈ es → Inv C es st → Q e (step C st e).2)
    (fs : List (Ev Src Sig Arg Val)) (hfs : ∀ e ∈ fs, e ∈ es) (st : St Src Sig Val) (h : Inv C es st) :
    ∀ p ∈ (run C st fs).2, Q p.1 p.2 := by
  induction fs generalizing st with
  | nil => intro p hp; simp [run] at hp
  | cons e fs ih =>
    intro p hp
    unfold run at hp
    simp only at hp
    have hi := step_inv C es st e (hfs e (by simp)) h
    rcases List.mem_cons.1 hp with rfl | hp
    · exact hq st e (hfs e (by simp)) h
    · exact ih (fun e he => hfs e (List.mem_cons_of_mem _ he)) _ hi p hp

theorem inv_init (C : Compiler Src Sig Arg Val) (es : List (Ev Src Sig Arg Val)) (cap : Nat) (hcap : 0 < cap) : Inv C es (init cap) :=
  ⟨fun e he => by simp [init, Lru.init] at he, fun e he => by simp [init, Lru.init] at he, hcap, _, sim_init cap⟩

theorem inv_run (C : Compiler Src Sig Arg Val) (es : List (Ev Src Sig Arg Val)) (fs : List (Ev Src Sig Arg Val)) (st : St Src Sig Val) (hm : ∀ e ∈ fs, e ∈ es)
    (h : Inv C es st) : Inv C es (run C st fs).1 := by
  induction fs generalizing st with
  | nil => exact h
  | cons e fs ih => exact ih _ (fun e he => hm e (List.mem_cons_of_mem _ he)) (step_inv C es st e (hm e (by simp)) h)

/-! ## C02 -/

/-- **C02**, partial: in every history of interleaved calls in which calls of `eval_expression` with the same source and signature use the same argument names, and
`eval_function` is not used on the same sources, every value returned is the value of the requested expression. Missing: different argument names for the same source and signature,
sources used with both functions. -/
theorem eval_expression_value_partial (C : Compiler Src Sig Arg Val) (cap : Nat) (hcap : 0 < cap) (es : List (Ev Src Sig Arg Val))
    (names : ∀ c c' : Call Src Sig Arg Val, .exprStore c ∈ es → .exprLookup c' ∈ es → c.src = c'.src → c.sig = c'.sig → c.args = c'.args)
    (sep : ∀ (c : FCall Src Sig Val) (c' : Call Src Sig Arg Val), .funcStore c ∈ es → .exprLookup c' ∈ es → c.src ≠ c'.src)
    (c : Call Src Sig Arg Val) (o : Out Val) :
    ((.exprLookup c, o) ∈ (run C (init cap) es).2 → o = .miss ∨ o = meaning C c) ∧
    ((.exprStore c, o) ∈ (run C (init cap) es).2 → o = meaning C c) := by
  have key := run_each C es (fun e o => match e with
      | .exprLookup c => o = .miss ∨ o = meaning C c
      | .exprStore c => o = meaning C c
      | _ => True) ?_ es (fun e h => h) (init cap) (inv_init C es cap hcap)
  · exact ⟨fun h => key _ h, fun h => key _ h⟩
  · intro st e he hinv
    have h1 := hinv.origin
    cases e with
    | funcLookup c => trivial
    | funcStore c => trivial
    | exprLookup c =>
      simp only [step, exprLookup]
      have hg := cacheGet_spec st c.src
      rcases hx : cacheGet st c.src with ⟨s1, o⟩
      rw [hx] at hg
      cases o with
      | none => exact .inl rfl
      | some items =>
        simp only
        cases hf : items.find? (fun r => r.sig = c.sig) with
        | none => exact .inl rfl
        | some r =>
          right
          simp only
          rw [(callHit_value s1 items r c.val).1]
          have hsig : r.sig = c.sig := by simpa using List.find?_some hf
          have ho := (all_get _ _ h1 c.src).2 items hg.2.2.symm r (List.mem_of_find?_eq_some hf)
          rcases ho with ⟨c', hc', e1, e2, e3⟩ | ⟨c', hc', e1⟩
          · have := names c' c hc' he e1 (by rw [e2, hsig])
            unfold meaning
            rw [this, hsig] at e3
            rw [e3]
          · exact absurd e1 (sep c' c hc' he)
    | exprStore c =>
      simp only [step, exprStore, meaning]
      cases hc : C.expr c.src c.args c.sig with
      | none => rfl
      | some code =>
        simp only [getFunc]
        have hg := cacheGet_spec (⟨st.cache, st.next + 1⟩ : St Src Sig Val) c.src
        rcases hx : cacheGet (⟨st.cache, st.next + 1⟩ : St Src Sig Val) c.src with ⟨s1, o⟩
        rw [hx] at hg
        cases o with
        | some items => simp [callObj, owners]
        | none =>
          obtain ⟨l', hl', _⟩ := ok_insert s1.cache (by rw [hg.1]; exact ok_get _ hinv.ok _) c.src [⟨c.sig, code, some st.next⟩]
          simp [hl', callObj, owners]

/-- What the first call leaves behind, for every compiler: a later call with the same source and signature gets the first call's code, whatever its argument names. -/
theorem eval_expression_first (C : Compiler Src Sig Arg Val) (cap : Nat) (hcap : 0 < cap) (c : Call Src Sig Arg Val) (f : Val → Val) (h : C.expr c.src c.args c.sig = some f) :
    (evalExpr C false (init cap) c).2 = .value (f c.val) ∧
      ∀ c' : Call Src Sig Arg Val, c'.src = c.src → c'.sig = c.sig → (evalExpr C false (evalExpr C false (init cap) c).1 c').2 = .value (f c'.val) := by
  have h0 : ¬ (0 ≥ cap) := by omega
  have e1 : evalExpr C false (init cap) c = (⟨pushFront (Lru.init cap) c.src [⟨c.sig, f, some 0⟩], 1⟩, .value (f c.val)) := by
    simp [evalExpr, exprLookup, exprStore, cacheGet, init, Lru.init, Lru.get, AMap.find, h, getFunc, Lru.insert, callObj, owners, h0, pushFront]
  refine ⟨by rw [e1], ?_⟩
  intro c' hs hg
  rw [e1]
  simp [evalExpr, exprLookup, cacheGet, Lru.get, pushFront, AMap.find_set, hs, hg, callHit, getFunc, callObj, owners, Lru.init]

/-- C02 is false of the code: two calls with the same source and signature but other argument names, for which the expression has another value. -/
theorem eval_expression_names_violated (C : Compiler Src Sig Arg Val) (cap : Nat) (hcap : 0 < cap) (src : Src) (sig : Sig) (a1 a2 : List Arg) (f g : Val → Val) (v : Val)
    (h1 : C.expr src a1 sig = some f) (h2 : C.expr src a2 sig = some g) (hne : f v ≠ g v) :
    (evalExpr C false (evalExpr C false (init cap) ⟨src, a1, sig, v⟩).1 ⟨src, a2, sig, v⟩).2 ≠ meaning C ⟨src, a2, sig, v⟩ := by
  rw [(eval_expression_first C cap hcap ⟨src, a1, sig, v⟩ f h1).2 ⟨src, a2, sig, v⟩ rfl rfl]
  simp only [meaning, h2]
  simpa using hne

/-- The same for a source that does not even compile with the names of the second call. -/
theorem eval_expression_error_hidden_violated (C : Compiler Src Sig Arg Val) (cap : Nat) (hcap : 0 < cap) (src : Src) (sig : Sig) (a1 a2 : List Arg) (f : Val → Val) (v : Val)
    (h1 : C.expr src a1 sig = some f) (h2 : C.expr src a2 sig = none) :
    (evalExpr C false (evalExpr C false (init cap) ⟨src, a1, sig, v⟩).1 ⟨src, a2, sig, v⟩).2 = .value (f v) ∧ meaning C ⟨src, a2, sig, v⟩ = .error := by
  refine ⟨(eval_expression_first C cap hcap ⟨src, a1, sig, v⟩ f h1).2 ⟨src, a2, sig, v⟩ rfl rfl, by simp [meaning, h2]⟩

/-! ## C03 -/

/-- C03 is false of the code: in every reachable state the first call of `eval_function` for a source that has a function of the signature calls a destroyed object. -/
theorem eval_function_first_call_violated (C : Compiler Src Sig Arg Val) (cap : Nat) (hcap : 0 < cap) (es : List (Ev Src Sig Arg Val)) (c : FCall Src Sig Val)
    (fs : List (Sig × (Val → Val))) (hc : C.source c.src = some fs) (hf : ∃ f ∈ fs, f.1 = c.sig) :
    (funcStore C (run C (init cap) es).1 c).2 = .ub := by
  have hinv := inv_run C es es (init cap) (fun e h => h) (inv_init C es cap hcap)
  generalize (run C (init cap) es).1 = st at hinv
  have hi := hinv.made
  simp only [funcStore, hc]
  obtain ⟨e1, e2, e3, _⟩ := compileLoop_spec c.sig fs st.next [] none
  obtain ⟨id, code, e4, e5⟩ := e3 hf
  cases hins : insert st.cache c.src (compileLoop c.sig st.next [] none fs).1 with
  | none => rfl
  | some cache =>
    simp only [e4]
    unfold callObj
    rw [if_neg]
    intro hm
    have hall : All (Made st.next) cache := by
      refine all_insert _ _ hi _ _ ?_ _ hins
      intro r hr id hid
      rw [e1] at hr
      simp at hr
      obtain ⟨a, b, _, rfl⟩ := hr
      simp at hid
    unfold owners at hm
    rw [List.mem_append] at hm
    rcases hm with hm | hm
    · rw [e1] at hm
      simp at hm
    · obtain ⟨e, he, hr⟩ := List.mem_flatMap.1 hm
      obtain ⟨r, hr, ho⟩ := List.mem_map.1 hr
      have := hall e he r hr id ho
      omega

/-- **C03**, partial: in every history no other section calls a destroyed object: hits of both functions and fresh calls of `eval_expression`. Missing: fresh calls of
`eval_function` (see above). -/
theorem eval_calls_alive_partial (C : Compiler Src Sig Arg Val) (cap : Nat) (hcap : 0 < cap) (es : List (Ev Src Sig Arg Val)) (e : Ev Src Sig Arg Val) (o : Out Val)
    (h : (e, o) ∈ (run C (init cap) es).2) (he : ∀ c, e ≠ .funcStore c) : o ≠ .ub := by
  have key := run_each C es (fun e o => (∀ c, e ≠ .funcStore c) → o ≠ .ub) ?_ es (fun e h => h) (init cap) (inv_init C es cap hcap)
  · exact key _ h he
  · intro st e _ hinv he
    cases e with
    | funcStore c => exact absurd rfl (he c)
    | exprLookup c =>
      simp only [step, exprLookup]
      rcases hx : cacheGet st c.src with ⟨s1, o⟩
      cases o with
      | none => simp
      | some items =>
        simp only
        cases hf : items.find? (fun r => r.sig = c.sig) with
        | none => simp
        | some r => simp only; rw [(callHit_value s1 items r c.val).1]; simp
    | funcLookup c =>
      simp only [step, funcLookup]
      rcases hx : cacheGet st c.src with ⟨s1, o⟩
      cases o with
      | none => simp
      | some items =>
        simp only
        cases hf : items.find? (fun r => r.sig = c.sig) with
        | none => simp
        | some r => simp only; rw [(callHit_value s1 items r c.val).1]; simp
    | exprStore c =>
      simp only [step, exprStore]
      cases hc : C.expr c.src c.args c.sig with
      | none => simp
      | some code =>
        simp only [getFunc]
        have hg := cacheGet_spec (⟨st.cache, st.next + 1⟩ : St Src Sig Val) c.src
        rcases hx : cacheGet (⟨st.cache, st.next + 1⟩ : St Src Sig Val) c.src with ⟨s1, o⟩
        rw [hx] at hg
        cases o with
        | some items => simp [callObj, owners]
        | none =>
          obtain ⟨l', hl', _⟩ := ok_insert s1.cache (by rw [hg.1]; exact ok_get _ hinv.ok _) c.src [⟨c.sig, code, some st.next⟩]
          simp [hl', callObj, owners]

/-! ## C80 -/

/-- A call of `eval_expression` compiles iff its first section misses. -/
def compiles (st : St Src Sig Val) (c : Call Src Sig Arg Val) : Prop := (exprLookup st c).2 = .miss

/-- **C80**, partial: repeating the first call for a source does not compile again, whatever the values. Missing: later signatures of the same source. -/
theorem repeated_expression_cached_partial (C : Compiler Src Sig Arg Val) (cap : Nat) (hcap : 0 < cap) (c c' : Call Src Sig Arg Val) (f : Val → Val)
    (h : C.expr c.src c.args c.sig = some f) (hs : c'.src = c.src) (hg : c'.sig = c.sig) : ¬ compiles (evalExpr C false (init cap) c).1 c' := by
  have h0 : ¬ (0 ≥ cap) := by omega
  have e1 : evalExpr C false (init cap) c = (⟨pushFront (Lru.init cap) c.src [⟨c.sig, f, some 0⟩], 1⟩, .value (f c.val)) := by
    simp [evalExpr, exprLookup, exprStore, cacheGet, init, Lru.init, Lru.get, AMap.find, h, getFunc, Lru.insert, callObj, owners, h0, pushFront]
  unfold compiles
  rw [e1]
  simp [exprLookup, cacheGet, Lru.get, pushFront, AMap.find_set, hs, hg, callHit, getFunc, callObj, owners, Lru.init]

/-- A source is cached with records of one signature only. -/
def OnlySig (src : Src) (sig : Sig) (l : Lru Src (List (Rec Sig Val))) : Prop := ∃ items j, l.map.find src = some (items, j) ∧ ∀ r ∈ items, r.sig = sig

theorem get_onlySig (src : Src) (sig : Sig) (l : Lru Src (List (Rec Sig Val))) (h : OnlySig src sig l) : OnlySig src sig (get l src).1 := by
  obtain ⟨items, j, h1, h2⟩ := h
  unfold Lru.get
  rw [h1]
  simp only
  split
  · exact ⟨items, j, h1, h2⟩
  · exact ⟨items, l.next, by simp [AMap.find_set], h2⟩

/-- C80 is false of the code: once a source has been evaluated with one signature, every call with another signature compiles again, however often it is repeated. -/
theorem other_signature_recompiled_violated (C : Compiler Src Sig Arg Val) (cap : Nat) (hcap : 0 < cap) (c : Call Src Sig Arg Val) (f : Val → Val)
    (h : C.expr c.src c.args c.sig = some f) (c' : Call Src Sig Arg Val) (hs : c'.src = c.src) (hg : c'.sig ≠ c.sig) (n : Nat) :
    compiles (Nat.repeat (fun st => (evalExpr C false st c').1) n (evalExpr C false (init cap) c).1) c' := by
  have h0 : ¬ (0 ≥ cap) := by omega
  have start : OnlySig c'.src c.sig (evalExpr C false (init cap) c).1.cache := by
    have e1 : evalExpr C false (init cap) c = (⟨pushFront (Lru.init cap) c.src [⟨c.sig, f, some 0⟩], 1⟩, .value (f c.val)) := by
      simp [evalExpr, exprLookup, exprStore, cacheGet, init, Lru.init, Lru.get, AMap.find, h, getFunc, Lru.insert, callObj, owners, h0, pushFront]
    rw [e1]
    exact ⟨[⟨c.sig, f, some 0⟩], 0, by simp [pushFront, AMap.find_set, hs, Lru.init], by simp⟩
  have miss : ∀ st : St Src Sig Val, OnlySig c'.src c.sig st.cache → exprLookup st c' = (⟨(get st.cache c'.src).1, st.next⟩, .miss) := by
    rintro st ⟨items, j, e1, e2⟩
    have hget : (get st.cache c'.src).2 = some items := by unfold Lru.get; rw [e1]; simp only; split <;> rfl
    have hfind : items.find? (fun r => r.sig = c'.sig) = none := by
      rw [List.find?_eq_none]
      intro r hr e
      simp at e
      exact hg (by rw [← e, e2 r hr])
    unfold exprLookup cacheGet
    rw [hget]
    simp only [hfind]
  have keep : ∀ st : St Src Sig Val, OnlySig c'.src c.sig st.cache → OnlySig c'.src c.sig (evalExpr C false st c').1.cache := by
    intro st hst
    have hg1 := get_onlySig _ _ _ hst
    unfold evalExpr
    simp only [Bool.false_eq_true, if_false, miss st hst]
    unfold exprStore
    cases C.expr c'.src c'.args c'.sig with
    | none => exact hg1
    | some code =>
      have hg2 := get_onlySig _ _ _ hg1
      obtain ⟨items, j, e1, _⟩ := hg1
      have hget : (get (get st.cache c'.src).1 c'.src).2 = some items := by
        generalize (get st.cache c'.src).1 = l at e1
        unfold Lru.get; rw [e1]; simp only; split <;> rfl
      simp only [getFunc, cacheGet, hget]
      exact hg2
  have all : ∀ n, OnlySig c'.src c.sig (Nat.repeat (fun st => (evalExpr C false st c').1) n (evalExpr C false (init cap) c).1).cache := by
    intro n
    induction n with
    | zero => exact start
    | succ n ih => exact keep _ ih
  unfold compiles
  rw [miss _ (all n)]

/-! ## C81 -/

/-- C81 is false of the code: if the outer call finds its code in the cache, an inner call from that code never returns. -/
theorem nested_evaluation_violated (C : Compiler Src Sig Arg Val) (cap : Nat) (hcap : 0 < cap) (outer inner : Call Src Sig Arg Val) (f : Val → Val)
    (h : C.expr outer.src outer.args outer.sig = some f) : evalNested C (evalExpr C false (init cap) outer).1 outer inner = .blocked := by
  have h0 : ¬ (0 ≥ cap) := by omega
  have e1 : evalExpr C false (init cap) outer = (⟨pushFront (Lru.init cap) outer.src [⟨outer.sig, f, some 0⟩], 1⟩, .value (f outer.val)) := by
    simp [evalExpr, exprLookup, exprStore, cacheGet, init, Lru.init, Lru.get, AMap.find, h, getFunc, Lru.insert, callObj, owners, h0, pushFront]
  rw [e1]
  simp [evalNested, evalExpr, exprLookup, cacheGet, Lru.get, pushFront, AMap.find_set, callHit, getFunc, callObj, owners, Lru.init]

theorem evalExpr_not_blocked (C : Compiler Src Sig Arg Val) (st : St Src Sig Val) (c : Call Src Sig Arg Val) :
    (exprLookup st c).2 ≠ .blocked ∧ (exprStore C st c).2 ≠ .blocked ∧ (evalExpr C false st c).2 ≠ .blocked := by
  have hobj : ∀ (l : List (Rec Sig Val)) (st : St Src Sig Val) id code v, callObj l st id code v ≠ .blocked := by
    intro l st id code v
    unfold callObj
    split <;> simp
  have h1 : ∀ st : St Src Sig Val, (exprLookup st c).2 ≠ .blocked := by
    intro st
    unfold exprLookup
    split
    · simp
    · split
      · simp
      · exact hobj _ _ _ _ _
  have h2 : ∀ st : St Src Sig Val, (exprStore C st c).2 ≠ .blocked := by
    intro st
    unfold exprStore
    split
    · simp
    · simp only
      split
      · exact hobj _ _ _ _ _
      · split
        · simp
        · exact hobj _ _ _ _ _
  refine ⟨h1 st, h2 st, ?_⟩
  unfold evalExpr
  simp only [Bool.false_eq_true, if_false]
  split
  · exact h2 _
  · exact h1 st

/-- **C81**, partial: whenever the outer call has to compile, its code runs without the mutex and the inner call returns. Missing: outer calls found in the cache. -/
theorem nested_evaluation_first_partial (C : Compiler Src Sig Arg Val) (st : St Src Sig Val) (outer inner : Call Src Sig Arg Val)
    (h : (exprLookup st outer).2 = .miss) : evalNested C st outer inner ≠ .blocked := by
  unfold evalNested
  rcases hx : exprLookup st outer with ⟨s1, o⟩
  rw [hx] at h
  simp only at h
  subst h
  simp only
  rcases hy : exprStore C s1 outer with ⟨s2, o⟩
  have h2 := (evalExpr_not_blocked C s1 outer).2.1
  rw [hy] at h2
  cases o with
  | value v => exact (evalExpr_not_blocked C s2 inner).2.2
  | _ => exact h2

/-! ## C82 -/

/-- **C82**, partial: in every history in which `eval_expression` is not used on the same sources, a hit of `eval_function` calls a function defined by the source with the requested
signature. Missing: sources used with both. -/
theorem eval_function_own_source_partial (C : Compiler Src Sig Arg Val) (cap : Nat) (es : List (Ev Src Sig Arg Val))
    (sep : ∀ (c : Call Src Sig Arg Val) (c' : FCall Src Sig Val), .exprStore c ∈ es → .funcLookup c' ∈ es → c.src ≠ c'.src)
    (c : FCall Src Sig Val) (v : Val) (h : (.funcLookup c, .value v) ∈ (run C (init cap) es).2) :
    ∃ fs f, C.source c.src = some fs ∧ (c.sig, f) ∈ fs ∧ v = f c.val := by
  -- the invariant: records of these sources come from the source
  let P : Src → Rec Sig Val → Prop := fun k r => (∃ fs, C.source k = some fs ∧ (r.sig, r.code) ∈ fs) ∨ ∃ c : Call Src Sig Arg Val, .exprStore c ∈ es ∧ c.src = k
  have stepP : ∀ (st : St Src Sig Val) (e : Ev Src Sig Arg Val), e ∈ es → All P st.cache → All P (step C st e).1.cache := by
    intro st e he hP
    cases e with
    | exprLookup c =>
      simp only [step, exprLookup]
      have hg := cacheGet_spec st c.src
      rcases hx : cacheGet st c.src with ⟨s1, o⟩
      rw [hx] at hg
      have hl : All P s1.cache := by rw [hg.1]; exact (all_get _ _ hP _).1
      cases o with
      | none => exact hl
      | some items =>
        simp only
        cases hf : items.find? (fun r => r.sig = c.sig) with
        | none => exact hl
        | some r => show All P (callHit s1 items r c.val).1.cache; rw [(callHit_value s1 items r c.val).2.1]; exact hl
    | funcLookup c =>
      simp only [step, funcLookup]
      have hg := cacheGet_spec st c.src
      rcases hx : cacheGet st c.src with ⟨s1, o⟩
      rw [hx] at hg
      have hl : All P s1.cache := by rw [hg.1]; exact (all_get _ _ hP _).1
      cases o with
      | none => exact hl
      | some items =>
        simp only
        cases hf : items.find? (fun r => r.sig = c.sig) with
        | none => exact hl
        | some r => show All P (callHit s1 items r c.val).1.cache; rw [(callHit_value s1 items r c.val).2.1]; exact hl
    | exprStore c =>
      simp only [step, exprStore]
      cases hc : C.expr c.src c.args c.sig with
      | none => exact hP
      | some code =>
        simp only [getFunc]
        have hg := cacheGet_spec (⟨st.cache, st.next + 1⟩ : St Src Sig Val) c.src
        rcases hx : cacheGet (⟨st.cache, st.next + 1⟩ : St Src Sig Val) c.src with ⟨s1, o⟩
        rw [hx] at hg
        have hl : All P s1.cache := by rw [hg.1]; exact (all_get _ _ hP _).1
        cases o with
        | some items => exact hl
        | none =>
          simp only
          cases hi : insert s1.cache c.src [⟨c.sig, code, some st.next⟩] with
          | none => exact hl
          | some cache => exact all_insert _ _ hl _ _ (fun r _ => .inr ⟨c, he, rfl⟩) _ hi
    | funcStore c =>
      simp only [step, funcStore]
      cases hc : C.source c.src with
      | none => exact hP
      | some fs =>
        simp only
        obtain ⟨e1, _⟩ := compileLoop_spec c.sig fs st.next [] none
        cases hi : insert st.cache c.src (compileLoop c.sig st.next [] none fs).1 with
        | none => exact hP
        | some cache =>
          have key : All P cache := by
            refine all_insert _ _ hP _ _ ?_ _ hi
            intro r hr
            rw [e1] at hr
            simp at hr
            obtain ⟨a, b, hab, rfl⟩ := hr
            exact .inl ⟨fs, hc, hab⟩
          simp only
          cases (compileLoop c.sig st.next [] none fs).2.1 with
          | none => exact key
          | some f => exact key
  have runP : ∀ (fs : List (Ev Src Sig Arg Val)) (st : St Src Sig Val), (∀ e ∈ fs, e ∈ es) → All P st.cache → (.funcLookup c, .value v) ∈ (run C st fs).2 →
      ∃ st : St Src Sig Val, All P st.cache ∧ (funcLookup st c).2 = .value v ∧ .funcLookup c ∈ es := by
    intro fs
    induction fs with
    | nil => intro st _ _ h; simp [run] at h
    | cons e fs ih =>
      intro st hm hP hr
      unfold run at hr
      simp only at hr
      rcases List.mem_cons.1 hr with hr | hr
      · simp only [Prod.mk.injEq] at hr
        obtain ⟨rfl, hr⟩ := hr
        exact ⟨st, hP, hr.symm, hm _ (by simp)⟩
      · exact ih _ (fun e he => hm e (List.mem_cons_of_mem _ he)) (stepP st e (hm e (by simp)) hP) hr
  obtain ⟨st, hP, hv, hc⟩ := runP es (init cap) (fun e h => h) (fun e he => by simp [init, Lru.init] at he) h
  unfold funcLookup at hv
  have hg := cacheGet_spec st c.src
  rcases hx : cacheGet st c.src with ⟨s1, o⟩
  rw [hx] at hg hv
  cases o with
  | none => simp at hv
  | some items =>
    simp only at hv
    cases hf : items.find? (fun r => r.sig = c.sig) with
    | none => rw [hf] at hv; simp at hv
    | some r =>
      rw [hf] at hv
      simp only at hv
      rw [(callHit_value s1 items r c.val).1] at hv
      have hsig : r.sig = c.sig := by simpa using List.find?_some hf
      rcases (all_get _ _ hP c.src).2 items hg.2.2.symm r (List.mem_of_find?_eq_some hf) with ⟨fs, h1, h2⟩ | ⟨c', h1, h2⟩
      · exact ⟨fs, r.code, h1, hsig ▸ h2, by simpa using hv.symm⟩
      · exact absurd h2 (sep c' c h1 hc)

/-- C82 is false of the code: after `eval_expression` on a text that is no program at all, `eval_function` on the same text returns a value instead of an error. -/
theorem eval_function_runs_expression_violated (C : Compiler Src Sig Arg Val) (cap : Nat) (hcap : 0 < cap) (c : Call Src Sig Arg Val) (f : Val → Val) (v : Val)
    (h : C.expr c.src c.args c.sig = some f) (hno : C.source c.src = none) :
    (funcLookup (evalExpr C false (init cap) c).1 ⟨c.src, c.sig, v⟩).2 = .value (f v) ∧ (funcLookup (init cap : St Src Sig Val) ⟨c.src, c.sig, v⟩).2 = .miss ∧
      (funcStore C (init cap) ⟨c.src, c.sig, v⟩).2 = .error := by
  have h0 : ¬ (0 ≥ cap) := by omega
  have e1 : evalExpr C false (init cap) c = (⟨pushFront (Lru.init cap) c.src [⟨c.sig, f, some 0⟩], 1⟩, .value (f c.val)) := by
    simp [evalExpr, exprLookup, exprStore, cacheGet, init, Lru.init, Lru.get, AMap.find, h, getFunc, Lru.insert, callObj, owners, h0, pushFront]
  refine ⟨?_, ?_, by simp [funcStore, hno]⟩
  · rw [e1]
    simp [funcLookup, cacheGet, Lru.get, pushFront, AMap.find_set, callHit, getFunc, callObj, owners, Lru.init]
  · simp [funcLookup, cacheGet, Lru.get, init, Lru.init, AMap.find]

/-! ## A compiler that meets the hypotheses -/

/-- Sources are names of variables; the value of a variable is looked up by position. -/
def toy : Compiler String Nat String (List Nat) where
  expr src args sig := if args.length = sig ∧ src ∈ args then some (fun v => (v[args.idxOf src]?).toList) else none
  source src := if src = "f" then some [(1, id)] else none

example : (evalExpr toy false (evalExpr toy false (init 10) ⟨"a", ["a", "b"], 2, [5, 7]⟩).1 ⟨"a", ["b", "a"], 2, [5, 7]⟩).2 ≠ meaning toy ⟨"a", ["b", "a"], 2, [5, 7]⟩ :=
  eval_expression_names_violated toy 10 (by decide) "a" 2 ["a", "b"] ["b", "a"] _ _ [5, 7] rfl rfl (by decide)
example : (funcStore toy (run toy (init 10) [.exprLookup ⟨"a", ["a"], 1, [3]⟩]).1 ⟨"f", 1, []⟩).2 = .ub :=
  eval_function_first_call_violated toy 10 (by decide) _ ⟨"f", 1, []⟩ [(1, id)] rfl ⟨(1, id), by simp, rfl⟩

end Verif.Exec
