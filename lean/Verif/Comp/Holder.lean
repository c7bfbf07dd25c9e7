/-!
# Function objects and their code: C150, C151

`JitFunction`, `/repo/rapidudf/compiler/function.h` 38–80: the pointer to the code, a shared pointer to the code generator that owns it, moves. `JitCompiler::NewCodegen` makes a new code generator for every
compilation (`/repo/rapidudf/compiler/compiler.cc`, `compiler.h` 80–101), `LoadFunction` shares the present one (`compiler.h` 58–76). A code generator is destroyed when the last shared pointer to it goes.

Not modelled: compilations that fail (they assign to no function object), functions kept inside `absl::StatusOr`, other threads.
-/
namespace Verif.Comp.Holder

/-! ## Specification

What the user does with variables of type `JitFunction` and `JitCompiler` (both numbered), and what each variable is meant to hold. -/

inductive Op where
  /-- `f = compiler.CompileFunction(...)`: the compiler forgets its former code. `func` is which function of the source. -/
  | compile (compiler f func : Nat)
  /-- `f = compiler.LoadFunction(...)`: a function of what was compiled last. -/
  | load (compiler f func : Nat)
  /-- `f = std::move(g)`, or `f` constructed from `g`. -/
  | move (f g : Nat)
  /-- `f` ends. -/
  | drop (f : Nat)
  /-- The compiler ends. -/
  | dropCompiler (compiler : Nat)
  deriving DecidableEq

/-- What function of which compilation a variable means after a history (the newest operation first); `none`: no function, because nothing was put there, or it was moved away. -/
def intended : List Op → Nat → Option (Nat × Nat)
  | [], _ => none
  | .compile _ f func :: h, v => if v = f then some (h.length, func) else intended h v
  | .load c f func :: h, v => if v = f then (match lastOf c h with | some n => some (n, func) | none => intended h v) else intended h v
  | .move f g :: h, v => if v = f then intended h g else if v = g then none else intended h v
  | .drop f :: h, v => if v = f then none else intended h v
  | .dropCompiler _ :: h, v => intended h v
where
  /-- The number of the last compilation of a compiler that still exists. -/
  lastOf (c : Nat) : List Op → Option Nat
    | [] => none
    | .compile c' _ _ :: h => if c = c' then some h.length else lastOf c h
    | .dropCompiler c' :: h => if c = c' then none else lastOf c h
    | _ :: h => lastOf c h

/-! ## Model -/

/-- `JitFunction`: `resource_` (a code generator), `f_` (code generator it points into, and the function), `is_from_cache_` (`none`: never written). -/
structure Fn where
  resource : Option Nat
  code : Option (Nat × Nat)
  fromCache : Option Bool
  deriving DecidableEq

/-- A new object, 38–41 and 72–75: members without initialiser are not written. -/
def Fn.default : Fn := { resource := none, code := none, fromCache := none }

/-- Function objects, code generators of the compilers, code generators that exist; the number of compilations so far and operations so far. -/
structure St where
  fns : Nat → Fn
  comps : Nat → Option Nat
  alive : List Nat
  time : Nat

def St.init : St := { fns := fun _ => .default, comps := fun _ => none, alive := [], time := 0 }

def update {α : Type} (m : Nat → α) (i : Nat) (a : α) : Nat → α := fun j => if j = i then a else m j

/-- Whether a shared pointer to a code generator exists. -/
def Held (s : St) (c : Nat) : Prop := (∃ i, (s.fns i).resource = some c) ∨ ∃ k, s.comps k = some c

open Classical in
/-- Reference counting: code generators without a shared pointer are destroyed. -/
noncomputable def collect (s : St) : St := { s with alive := s.alive.filter fun c => decide (Held s c) }

/-- `MoveFrom`, 76–81: name, resource, pointer and statistics; `is_from_cache_` is not copied. The shared pointer is moved out of `other`, its code pointer stays. Moving onto itself changes nothing
(`std::shared_ptr` and `std::string` allow it). -/
def moveFrom (s : St) (f g : Nat) : St :=
  let o := s.fns g
  let fns := update s.fns g { o with resource := none }
  { s with fns := update fns f { resource := o.resource, code := o.code, fromCache := (s.fns f).fromCache } }

/-- The assignment of the temporary a compiler returns: made by the constructor (41–46), moved into `f`. -/
def assign (s : St) (f : Nat) (resource : Nat) (func : Nat) : St :=
  { s with fns := update s.fns f { resource := some resource, code := some (resource, func), fromCache := (s.fns f).fromCache } }

noncomputable def step (s : St) (o : Op) : St :=
  let s := { s with time := s.time + 1 }
  match o with
  | .compile c f func =>
    let g := s.time - 1
    collect (assign { s with comps := update s.comps c (some g), alive := g :: s.alive } f g func)
  | .load c f func =>
    match s.comps c with
    | none => s
    | some g => collect (assign s f g func)
  | .move f g => collect (moveFrom s f g)
  | .drop f => collect { s with fns := update s.fns f .default }
  | .dropCompiler c => collect { s with comps := update s.comps c none }

/-- A history, the newest operation first. -/
noncomputable def run : List Op → St
  | [] => .init
  | o :: h => step (run h) o

/-- What `operator()` jumps to, 56–63: the function, if its code generator exists; `none` is undefined behaviour (also a null pointer). -/
noncomputable def call (s : St) (f : Nat) : Option (Nat × Nat) :=
  match (s.fns f).code with
  | some (c, func) => if c ∈ s.alive then some (c, func) else none
  | none => none

/-! ## Lemmas -/

/-- Objects that mean a function hold the code generator they point into; code generators with a shared pointer exist. -/
structure Inv (h : List Op) (s : St) : Prop where
  time : s.time = h.length
  comps : ∀ c, s.comps c = intended.lastOf c h
  fns : ∀ v, (∀ p, intended h v = some p → (s.fns v).code = some p ∧ (s.fns v).resource = some p.1) ∧ (intended h v = none → (s.fns v).resource = none)
  held : ∀ g, g ∈ s.alive ↔ Held s g
  old : ∀ g, Held s g → g < h.length

theorem collect_alive (s : St) (h : ∀ g, Held s g → g ∈ s.alive) (g : Nat) : g ∈ (collect s).alive ↔ Held (collect s) g := by
  have e : Held (collect s) g ↔ Held s g := Iff.rfl
  rw [e]
  simp only [collect, List.mem_filter, decide_eq_true_eq]
  exact ⟨fun x => x.2, fun x => ⟨h g x, x⟩⟩

theorem inv_init : Inv [] .init := by
  refine ⟨rfl, fun _ => rfl, fun _ => ⟨fun p h => (by cases h), fun _ => rfl⟩, ?_, ?_⟩
  · intro g
    constructor
    · intro h; cases h
    · rintro (⟨i, h⟩ | ⟨k, h⟩) <;> cases h
  · rintro g (⟨i, h⟩ | ⟨k, h⟩) <;> cases h

theorem up_self {α : Type} (m : Nat → α) (i : Nat) (a : α) : update m i a i = a := if_pos rfl
theorem up_other {α : Type} (m : Nat → α) (i j : Nat) (a : α) (h : j ≠ i) : update m i a j = m j := if_neg h

theorem inv_compile {h : List Op} {s : St} (hi : Inv h s) (c f func : Nat) : Inv (.compile c f func :: h) (step s (.compile c f func)) := by
  have ht := hi.time
  have e : (step s (.compile c f func)) = collect (assign { s with time := s.time + 1, comps := update s.comps c (some s.time), alive := s.time :: s.alive } f s.time func) := rfl
  rw [e]
  have hold : ∀ g, Held (assign { s with time := s.time + 1, comps := update s.comps c (some s.time), alive := s.time :: s.alive } f s.time func) g → g = s.time ∨ Held s g := by
    rintro g (⟨i, hg⟩ | ⟨k, hg⟩)
    · by_cases hif : i = f
      · subst hif; simp only [assign, up_self, Option.some.injEq] at hg; exact .inl hg.symm
      · simp only [assign, up_other _ _ _ _ hif] at hg; exact .inr (.inl ⟨i, hg⟩)
    · by_cases hkc : k = c
      · subst hkc; simp only [assign, up_self, Option.some.injEq] at hg; exact .inl hg.symm
      · simp only [assign, up_other _ _ _ _ hkc] at hg; exact .inr (.inr ⟨k, hg⟩)
  refine ⟨by simp [collect, assign, ht], ?_, ?_, ?_, ?_⟩
  · intro k
    simp only [collect, assign, intended.lastOf]
    by_cases hk : k = c
    · subst hk; rw [up_self, if_pos rfl, ht]
    · rw [up_other _ _ _ _ hk, if_neg hk, hi.comps k]
  · intro v
    simp only [collect, assign, intended]
    by_cases hv : v = f
    · subst hv
      simp only [up_self, if_true]
      refine ⟨fun p hp => ?_, fun hp => by cases hp⟩
      injection hp with hp
      subst hp
      exact ⟨by rw [ht], by rw [ht]⟩
    · simp only [up_other _ _ _ _ hv, if_neg hv]
      exact hi.fns v
  · refine collect_alive _ fun g hg => ?_
    rcases hold g hg with rfl | hg
    · exact List.mem_cons_self
    · exact List.mem_cons_of_mem _ ((hi.held g).2 hg)
  · intro g hg
    rcases hold g hg with rfl | hg
    · simp [ht]
    · have := hi.old g hg; simp; omega

theorem inv_load {h : List Op} {s : St} (hi : Inv h s) (c f func : Nat) : Inv (.load c f func :: h) (step s (.load c f func)) := by
  have ht := hi.time
  cases hc : s.comps c with
  | none =>
    have e : step s (.load c f func) = { s with time := s.time + 1 } := by simp only [step, hc]
    rw [e]
    have hl := hi.comps c
    rw [hc] at hl
    refine ⟨by simp [ht], fun k => hi.comps k, ?_, fun g => hi.held g, fun g hg => by have := hi.old g hg; simp; omega⟩
    intro v
    simp only [intended, ← hl]
    split
    · exact hi.fns v
    · exact hi.fns v
  | some g0 =>
    have e : step s (.load c f func) = collect (assign { s with time := s.time + 1 } f g0 func) := by simp only [step, hc]
    rw [e]
    have hl := hi.comps c
    rw [hc] at hl
    have hold : ∀ g, Held (assign { s with time := s.time + 1 } f g0 func) g → Held s g := by
      rintro g (⟨i, hg⟩ | ⟨k, hg⟩)
      · by_cases hif : i = f
        · subst hif; simp only [assign, up_self, Option.some.injEq] at hg; exact .inr ⟨c, hg ▸ hc⟩
        · simp only [assign, up_other _ _ _ _ hif] at hg; exact .inl ⟨i, hg⟩
      · exact .inr ⟨k, hg⟩
    refine ⟨by simp [collect, assign, ht], fun k => hi.comps k, ?_, ?_, fun g hg => by have := hi.old g (hold g hg); simp; omega⟩
    · intro v
      simp only [collect, assign, intended, ← hl]
      by_cases hv : v = f
      · subst hv
        simp only [up_self, if_true]
        refine ⟨fun p hp => ?_, fun hp => by cases hp⟩
        injection hp with hp
        subst hp
        exact ⟨rfl, rfl⟩
      · simp only [up_other _ _ _ _ hv, if_neg hv]
        exact hi.fns v
    · exact collect_alive _ fun g hg => (hi.held g).2 (hold g hg)

theorem inv_move {h : List Op} {s : St} (hi : Inv h s) (f g : Nat) : Inv (.move f g :: h) (step s (.move f g)) := by
  have ht := hi.time
  have e : step s (.move f g) = collect (moveFrom { s with time := s.time + 1 } f g) := rfl
  rw [e]
  have hold : ∀ x, Held (moveFrom { s with time := s.time + 1 } f g) x → Held s x := by
    rintro x (⟨i, hx⟩ | ⟨k, hx⟩)
    · by_cases hif : i = f
      · subst hif; simp only [moveFrom, up_self] at hx; exact .inl ⟨g, hx⟩
      · simp only [moveFrom, up_other _ _ _ _ hif] at hx
        by_cases hig : i = g
        · subst hig; rw [up_self] at hx; cases hx
        · rw [up_other _ _ _ _ hig] at hx; exact .inl ⟨i, hx⟩
    · exact .inr ⟨k, hx⟩
  refine ⟨by simp [collect, moveFrom, ht], fun k => hi.comps k, ?_, collect_alive _ fun x hx => (hi.held x).2 (hold x hx), fun x hx => by have := hi.old x (hold x hx); simp; omega⟩
  intro v
  simp only [collect, moveFrom, intended]
  by_cases hv : v = f
  · subst hv
    simp only [up_self, if_true]
    exact hi.fns g
  · simp only [up_other _ _ _ _ hv, if_neg hv]
    by_cases hg : v = g
    · subst hg
      simp only [up_self, if_true]
      exact ⟨fun p hp => (by cases hp), fun _ => trivial⟩
    · simp only [up_other _ _ _ _ hg, if_neg hg]
      exact hi.fns v

theorem inv_drop {h : List Op} {s : St} (hi : Inv h s) (f : Nat) : Inv (.drop f :: h) (step s (.drop f)) := by
  have ht := hi.time
  have e : step s (.drop f) = collect { s with time := s.time + 1, fns := update s.fns f .default } := rfl
  rw [e]
  have hold : ∀ x, Held { s with time := s.time + 1, fns := update s.fns f .default } x → Held s x := by
    rintro x (⟨i, hx⟩ | ⟨k, hx⟩)
    · by_cases hif : i = f
      · subst hif; simp only [up_self] at hx; cases hx
      · simp only [up_other _ _ _ _ hif] at hx; exact .inl ⟨i, hx⟩
    · exact .inr ⟨k, hx⟩
  refine ⟨by simp [collect, ht], fun k => hi.comps k, ?_, collect_alive _ fun x hx => (hi.held x).2 (hold x hx), fun x hx => by have := hi.old x (hold x hx); simp; omega⟩
  intro v
  simp only [collect, intended]
  by_cases hv : v = f
  · subst hv
    simp only [up_self, if_true]
    exact ⟨fun p hp => (by cases hp), fun _ => rfl⟩
  · simp only [up_other _ _ _ _ hv, if_neg hv]
    exact hi.fns v

theorem inv_dropCompiler {h : List Op} {s : St} (hi : Inv h s) (c : Nat) : Inv (.dropCompiler c :: h) (step s (.dropCompiler c)) := by
  have ht := hi.time
  have e : step s (.dropCompiler c) = collect { s with time := s.time + 1, comps := update s.comps c none } := rfl
  rw [e]
  have hold : ∀ x, Held { s with time := s.time + 1, comps := update s.comps c none } x → Held s x := by
    rintro x (⟨i, hx⟩ | ⟨k, hx⟩)
    · exact .inl ⟨i, hx⟩
    · by_cases hkc : k = c
      · subst hkc; simp only [up_self] at hx; cases hx
      · simp only [up_other _ _ _ _ hkc] at hx; exact .inr ⟨k, hx⟩
  refine ⟨by simp [collect, ht], ?_, fun v => hi.fns v, collect_alive _ fun x hx => (hi.held x).2 (hold x hx), fun x hx => by have := hi.old x (hold x hx); simp; omega⟩
  intro k
  simp only [collect, intended.lastOf]
  by_cases hk : k = c
  · subst hk; rw [up_self, if_pos rfl]
  · rw [up_other _ _ _ _ hk, if_neg hk, hi.comps k]

theorem inv_run (h : List Op) : Inv h (run h) := by
  induction h with
  | nil => exact inv_init
  | cons o h ih =>
    cases o with
    | compile c f func => exact inv_compile ih c f func
    | load c f func => exact inv_load ih c f func
    | move f g => exact inv_move ih f g
    | drop f => exact inv_drop ih f
    | dropCompiler c => exact inv_dropCompiler ih c

/-! ## C150 -/

/-- **C150.** A variable that means a function runs that function, and its code exists, whatever else happened. -/
theorem function_keeps_code (h : List Op) (v : Nat) (p : Nat × Nat) (hp : intended h v = some p) : call (run h) v = some p := by
  have hi := inv_run h
  obtain ⟨h1, h2⟩ := (hi.fns v).1 p hp
  unfold call
  rw [h1]
  have : p.1 ∈ (run h).alive := (hi.held p.1).2 (.inl ⟨v, h2⟩)
  exact if_pos this

/-- **C150.** The code that exists is the code some variable means or some compiler has compiled last: nothing else is kept. -/
theorem unneeded_code_freed (h : List Op) (g : Nat) (hg : g ∈ (run h).alive) : (∃ v func, intended h v = some (g, func)) ∨ ∃ c, intended.lastOf c h = some g := by
  have hi := inv_run h
  rcases (hi.held g).1 hg with ⟨i, hr⟩ | ⟨k, hr⟩
  · left
    cases hp : intended h i with
    | none => rw [(hi.fns i).2 hp] at hr; cases hr
    | some p =>
      have := ((hi.fns i).1 p hp).2
      rw [hr] at this
      injection this with this
      exact ⟨i, p.2, by rw [hp, this]⟩
  · exact .inr ⟨k, by rw [← hi.comps k]; exact hr⟩

/-- Compiled, moved, compiler used again, compiler gone: the function is still the first one. -/
def sample : List Op := [.dropCompiler 0, .compile 0 7 0, .move 2 1, .compile 0 1 5]
example : intended sample 2 = some (0, 5) ∧ intended sample 1 = none ∧ intended sample 7 = some (2, 0) := by decide
example : call (run sample) 2 = some (0, 5) := function_keeps_code sample 2 (0, 5) (by decide)
/-- After both are dropped nothing is left. -/
example : ¬ 0 ∈ (run (.drop 7 :: .drop 2 :: sample)).alive := by
  intro h
  rcases unneeded_code_freed _ 0 h with ⟨v, func, hv⟩ | ⟨c, hc⟩
  · revert hv
    simp only [sample, intended]
    split <;> (try split) <;> (try split) <;> (try split) <;> (try split) <;> simp
  · revert hc
    simp only [sample, intended.lastOf]
    split <;> simp

/-! ## C151 -/

/-- **C151** is false: a compiled function assigned to a new variable has no value in the flag that tells whether it came from the cache. -/
theorem from_cache_violated (c f func : Nat) : ((run [.compile c f func]).fns f).fromCache = none := by
  simp [run, step, collect, assign, update, St.init, Fn.default]

/-- **C151** (part): no operation but the constructor writes the flag; what a variable has it keeps through every history. -/
theorem from_cache_partial (s : St) (o : Op) (v : Nat) (h : o ≠ .drop v) : ((step s o).fns v).fromCache = (s.fns v).fromCache := by
  cases o with
  | compile c f func => by_cases hv : v = f <;> simp [step, collect, assign, update, hv]
  | load c f func =>
    simp only [step]
    split
    · rfl
    · by_cases hv : v = f <;> simp [collect, assign, update, hv]
  | move f g =>
    by_cases hv : v = f
    · simp [step, collect, moveFrom, update, hv]
    · have hv' : ∀ x, v = x → x ≠ f := fun x e q => hv (e.trans q)
      by_cases hg : v = g
      · simp [step, collect, moveFrom, update, hg, hv' g hg]
      · simp [step, collect, moveFrom, update, hv, hg]
  | drop f =>
    have hv : v ≠ f := fun e => h (by rw [e])
    simp [step, collect, update, hv]
  | dropCompiler c => rfl

end Verif.Comp.Holder
