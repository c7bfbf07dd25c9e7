import Verif.Comp.Vars
import Verif.Ast.RoundTrip
/-!
# Variables: the theorems C138, C139, C140

Model in `Verif.Comp.Vars`.
-/
namespace Verif.Comp.Vars
open Verif.Ast

/-! ## Specification -/

mutual
/-- All expressions in the text. -/
def St.flat {α : Type} : St α → List α
  | .cont => []
  | .brk => []
  | .ret => []
  | .retVal a => [a]
  | .whileLoop c b => c :: b.flat
  | .ifElse c b es el => c :: (b.flat ++ (es.flat ++ el.flat))
  | .expr a => [a]
def Sts.flat {α : Type} : Sts α → List α
  | .nil => []
  | .cons s ss => s.flat ++ ss.flat
def Els.flat {α : Type} : Els α → List α
  | .nil => []
  | .cons c b es => c :: (b.flat ++ es.flat)
def Opt.flat {α : Type} : Opt α → List α
  | .none => []
  | .some b => b.flat
end

/-- The expressions of a statement that stand in its blocks. -/
def St.inner {α : Type} : St α → List α
  | .whileLoop _ b => b.flat
  | .ifElse _ b es el => b.flat ++ (es.flat ++ el.flat)
  | _ => []

def Declared (as : List (List Ev)) (x : Name) : Prop := ∃ a ∈ as, Ev.decl x ∈ a
def Used (as : List (List Ev)) (x : Name) : Prop := ∃ a ∈ as, Ev.read x ∈ a ∨ Ev.write x ∈ a

/-- Variables are defined with a value. -/
def Initialised (as : List (List Ev)) : Prop := ∀ a ∈ as, ∀ x, Ev.decl x ∈ a → Ev.write x ∈ a

mutual
/-- No variable is used after the block in which it is defined. -/
def St.Confined : St (List Ev) → Prop
  | .whileLoop _ b => b.Confined
  | .ifElse _ b es el => b.Confined ∧ (∀ x, Declared b.flat x → ¬Used (es.flat ++ el.flat) x) ∧ es.Confined el.flat ∧ el.Confined
  | _ => True
def Sts.Confined : Sts (List Ev) → Prop
  | .nil => True
  | .cons s ss => (∀ x, Declared s.inner x → ¬Used ss.flat x) ∧ s.Confined ∧ ss.Confined
def Els.Confined : Els (List Ev) → List (List Ev) → Prop
  | .nil, _ => True
  | .cons _ b es, last => b.Confined ∧ (∀ x, Declared b.flat x → ¬Used (es.flat ++ last) x) ∧ es.Confined last
def Opt.Confined : Opt (List Ev) → Prop
  | .none => True
  | .some b => b.Confined
end

/-- Every variable that is read was written before; `known` are the parameters. The names of the constants can always be read. -/
def ReadsWritten (known : List Name) (tr : List Ev) : Prop :=
  ∀ pre x post, tr = pre ++ .read x :: post → x ∈ known ∨ Ev.write x ∈ pre ∨ x ∈ [['p', 'i'], ['e']]

/-- Instructions use only places that have been made before; parameters have places. -/
def SlotsMade (known : List Name) (tr : List Code) : Prop :=
  ∀ pre x post, (tr = pre ++ .load x :: post ∨ tr = pre ++ .store x :: post) → x ∈ known ∨ Code.slot x ∈ pre

/-- The number of places a part of a path makes in the stack. They are given back when the function returns. -/
def allocs (s : Site) : Nat := s.code.countP fun c => match c with
  | .slot _ => true
  | .temp => true
  | _ => false

def stack (t : List Site) : Nat := (t.map allocs).sum

mutual
/-- Nothing inside a loop makes a place in the stack. -/
def St.LoopsFree : St Site → Prop
  | .whileLoop c b => ∀ s ∈ c :: b.flat, allocs s = 0
  | .ifElse _ b es el => b.LoopsFree ∧ es.LoopsFree ∧ el.LoopsFree
  | _ => True
def Sts.LoopsFree : Sts Site → Prop
  | .nil => True
  | .cons s ss => s.LoopsFree ∧ ss.LoopsFree
def Els.LoopsFree : Els Site → Prop
  | .nil => True
  | .cons _ b es => b.LoopsFree ∧ es.LoopsFree
def Opt.LoopsFree : Opt Site → Prop
  | .none => True
  | .some b => b.LoopsFree
end

/-! ## Lemmas -/

theorem typed_has {vs : Locals} {x : Name} (h : typed vs x = true) : hasVar vs x = true := by
  simp only [typed, hasVar, List.any_eq_true] at h ⊢
  obtain ⟨v, h1, h2⟩ := h
  exact ⟨v, h1, by simp at h2 ⊢; exact h2.1⟩

theorem typed_cons (v : Name × Bool) (vs : Locals) (x : Name) : typed (v :: vs) x = true ↔ (v.1 = x ∧ v.2 = true) ∨ typed vs x = true := by simp [typed]
theorem has_cons (v : Name × Bool) (vs : Locals) (x : Name) : hasVar (v :: vs) x = true ↔ v.1 = x ∨ hasVar vs x = true := by simp [hasVar]

/-- Which slots an instruction list makes and needs. -/
def OkTr : (Name → Prop) → List Code → Prop
  | _, [] => True
  | A, .load x :: r => A x ∧ OkTr A r
  | A, .store x :: r => A x ∧ OkTr A r
  | A, .slot x :: r => OkTr (fun y => A y ∨ y = x) r
  | A, .temp :: r => OkTr A r

def OkEv : (Name → Prop) → List Ev → Prop
  | _, [] => True
  | A, .read x :: r => (A x ∨ isConst x = true) ∧ OkEv A r
  | A, .write x :: r => OkEv (fun y => A y ∨ y = x) r
  | A, .decl _ :: r => OkEv A r
  | A, .temp :: r => OkEv A r

theorem OkTr.mono {A B : Name → Prop} (h : ∀ x, A x → B x) (t : List Code) : OkTr A t → OkTr B t := by
  induction t generalizing A B with
  | nil => intro _; trivial
  | cons c r ih =>
    cases c with
    | load x => exact fun hh => ⟨h x hh.1, ih h hh.2⟩
    | store x => exact fun hh => ⟨h x hh.1, ih h hh.2⟩
    | slot x => exact fun hh => ih (fun y hy => hy.imp (h y) id) hh
    | temp => exact fun hh => ih h hh

theorem OkEv.mono {A B : Name → Prop} (h : ∀ x, A x → B x) (t : List Ev) : OkEv A t → OkEv B t := by
  induction t generalizing A B with
  | nil => intro _; trivial
  | cons c r ih =>
    cases c with
    | read x => exact fun hh => ⟨hh.1.imp (h x) id, ih h hh.2⟩
    | decl x => exact fun hh => ih h hh
    | write x => exact fun hh => ih (fun y hy => hy.imp (h y) id) hh
    | temp => exact fun hh => ih h hh

theorem OkTr.append (A : Name → Prop) (s t : List Code) : OkTr A (s ++ t) ↔ OkTr A s ∧ OkTr (fun x => A x ∨ Code.slot x ∈ s) t := by
  induction s generalizing A with
  | nil => simp [OkTr]
  | cons c r ih =>
    cases c with
    | load x => simp [OkTr, ih, and_assoc]
    | store x => simp [OkTr, ih, and_assoc]
    | temp => simp [OkTr, ih]
    | slot x => simp [OkTr, ih, or_assoc]

theorem OkEv.append (A : Name → Prop) (s t : List Ev) : OkEv A (s ++ t) ↔ OkEv A s ∧ OkEv (fun x => A x ∨ Ev.write x ∈ s) t := by
  induction s generalizing A with
  | nil => simp [OkEv]
  | cons c r ih =>
    cases c with
    | read x => simp [OkEv, ih, and_assoc]
    | write x => simp [OkEv, ih, or_assoc]
    | temp => simp [OkEv, ih]
    | decl x => simp [OkEv, ih]

/-- Slots are those of variables with a type. -/
def Rel (vs : Locals) (V : Slots) : Prop := ∀ x, x ∈ V ↔ typed vs x = true

theorem checkAll_typed {a : List Ev} {vs vs' : Locals} (h : checkAll a vs = some vs') : (∀ x, typed vs x = true → typed vs' x = true) ∧ (∀ x, Ev.write x ∈ a → typed vs' x = true) := by
  induction a generalizing vs with
  | nil => simp only [checkAll, Option.some.injEq] at h; subst h; exact ⟨fun _ h => h, by simp⟩
  | cons e es ih =>
    simp only [checkAll] at h
    cases hc : check vs e with
    | none => simp [hc] at h
    | some v1 =>
      rw [hc] at h
      have h2 := ih h
      have hmono : ∀ x, typed vs x = true → typed v1 x = true := by
        intro x hx
        cases e with
        | decl y => simp only [check] at hc; split at hc <;> simp at hc; subst hc; rw [typed_cons]; exact .inr hx
        | read y => simp only [check] at hc; repeat' split at hc
                    all_goals simp at hc
                    all_goals subst hc; exact hx
        | write y => simp only [check] at hc; split at hc <;> simp at hc; subst hc; rw [typed_cons]; exact .inr hx
        | temp => simp only [check, Option.some.injEq] at hc; subst hc; exact hx
      refine ⟨fun x hx => h2.1 x (hmono x hx), fun x hx => ?_⟩
      rcases List.mem_cons.1 hx with rfl | hx
      · apply h2.1
        simp only [check] at hc
        split at hc <;> simp at hc
        subst hc; rw [typed_cons]; exact .inl ⟨rfl, rfl⟩
      · exact h2.2 x hx

theorem checkAll_has {a : List Ev} {vs vs' : Locals} (h : checkAll a vs = some vs') (x : Name) (hx : hasVar vs' x = true) : hasVar vs x = true ∨ Ev.decl x ∈ a := by
  induction a generalizing vs with
  | nil => simp only [checkAll, Option.some.injEq] at h; subst h; exact .inl hx
  | cons e es ih =>
    simp only [checkAll] at h
    cases hc : check vs e with
    | none => simp [hc] at h
    | some v1 =>
      rw [hc] at h
      rcases ih h with h2 | h2
      · cases e with
        | decl y =>
          simp only [check] at hc; split at hc <;> simp at hc
          subst hc
          rcases (has_cons _ _ _).1 h2 with h3 | h3
          · right; simp at h3; simp [h3]
          · exact .inl h3
        | read y => simp only [check] at hc; repeat' split at hc
                    all_goals simp at hc
                    all_goals subst hc; exact .inl h2
        | write y =>
          simp only [check] at hc; split at hc <;> simp at hc
          rename_i hy
          subst hc
          rcases (has_cons _ _ _).1 h2 with h3 | h3
          · left; simp at h3; rw [← h3]; exact hy
          · exact .inl h3
        | temp => simp only [check, Option.some.injEq] at hc; subst hc; exact .inl h2
      · exact .inr (List.mem_cons_of_mem _ h2)

/-- One expression. -/
theorem expr_ok {a : List Ev} {vs vs' : Locals} {V : Slots} {A : Name → Prop} (h : checkAll a vs = some vs') (hR : Rel vs V) (hA : ∀ x ∈ V, Ev.read x ∈ a ∨ Ev.write x ∈ a → A x) :
    Rel vs' (genAll a V).2 ∧ OkTr A (genAll a V).1 ∧ OkEv A a ∧ (∀ x ∈ V, x ∈ (genAll a V).2) ∧ (∀ x ∈ (genAll a V).2, x ∈ V ∨ Code.slot x ∈ (genAll a V).1) ∧
      (∀ x, Code.slot x ∈ (genAll a V).1 → Ev.write x ∈ a ∧ (hasVar vs x = true ∧ typed vs x = false ∨ Ev.decl x ∈ a)) := by
  induction a generalizing vs V A with
  | nil => simp only [checkAll, Option.some.injEq] at h; subst h; exact ⟨hR, trivial, trivial, fun _ h => h, fun _ h => .inl h, by simp [genAll]⟩
  | cons e es ih =>
    simp only [checkAll] at h
    cases hc : check vs e with
    | none => simp [hc] at h
    | some v1 =>
      rw [hc] at h
      cases e with
      | decl y =>
        simp only [check] at hc; split at hc <;> simp at hc
        rename_i hy
        subst hc
        have hR1 : Rel ((y, false) :: vs) V := fun x => by rw [typed_cons, hR x]; simp
        obtain ⟨i1, i2, i3, i4, i5, i6⟩ := ih h hR1 fun x hx hu => hA x hx (by simpa using hu)
        simp only [genAll, gen, List.nil_append]
        refine ⟨i1, i2, i3, i4, i5, fun x hx => ?_⟩
        obtain ⟨j1, j2⟩ := i6 x hx
        refine ⟨List.mem_cons_of_mem _ j1, ?_⟩
        rcases j2 with ⟨j2, j3⟩ | j2
        · rcases (has_cons _ _ _).1 j2 with h3 | h3
          · right; simp at h3; simp [h3]
          · refine .inl ⟨h3, ?_⟩
            cases ht : typed vs x with
            | false => rfl
            | true => rw [(typed_cons _ _ _).2 (.inr ht)] at j3; cases j3
        · exact .inr (List.mem_cons_of_mem _ j2)
      | read y =>
        have hv : vs = v1 ∧ ((hasVar vs y = true ∧ typed vs y = true) ∨ (hasVar vs y = false ∧ isConst y = true)) := by
          simp only [check] at hc
          cases h1 : hasVar vs y <;> cases h2 : typed vs y <;> cases h3 : isConst y <;> simp [h1, h2, h3] at hc ⊢ <;> exact hc
        obtain ⟨rfl, hv⟩ := hv
        obtain ⟨i1, i2, i3, i4, i5, i6⟩ := ih h hR fun x hx hu => hA x hx (by rcases hu with hu | hu <;> simp [hu])
        simp only [genAll, gen]
        by_cases hy : y ∈ V
        · have hAy := hA y hy (by simp)
          simp only [hy, if_true]
          refine ⟨i1, ⟨hAy, i2⟩, ⟨.inl hAy, i3⟩, i4, ?_, ?_⟩
          · intro x hx; rcases i5 x hx with h | h <;> simp [h]
          · intro x hx
            obtain ⟨j1, j2⟩ := i6 x (by simpa using hx)
            exact ⟨List.mem_cons_of_mem _ j1, j2.imp id (List.mem_cons_of_mem _)⟩
        · have hcn : isConst y = true := by
            rcases hv with ⟨_, h2⟩ | ⟨_, h2⟩
            · exact absurd ((hR y).2 h2) hy
            · exact h2
          simp only [hy, if_false, List.nil_append]
          refine ⟨i1, i2, ⟨.inr hcn, i3⟩, i4, i5, fun x hx => ?_⟩
          obtain ⟨j1, j2⟩ := i6 x hx
          exact ⟨List.mem_cons_of_mem _ j1, j2.imp id (List.mem_cons_of_mem _)⟩
      | temp =>
        simp only [check, Option.some.injEq] at hc; subst hc
        obtain ⟨i1, i2, i3, i4, i5, i6⟩ := ih h hR fun x hx hu => hA x hx (by simpa using hu)
        simp only [genAll, gen]
        refine ⟨i1, i2, i3, i4, ?_, ?_⟩
        · intro x hx; rcases i5 x hx with h | h <;> simp [h]
        · intro x hx
          obtain ⟨j1, j2⟩ := i6 x (by simpa using hx)
          exact ⟨List.mem_cons_of_mem _ j1, j2.imp id (List.mem_cons_of_mem _)⟩
      | write y =>
        simp only [check] at hc; split at hc <;> simp at hc
        rename_i hy
        subst hc
        by_cases hyV : y ∈ V
        · have hR1 : Rel ((y, true) :: vs) V := fun x => by
            rw [typed_cons, hR x]
            simp only [and_true]
            constructor
            · exact .inr
            · rintro (rfl | h)
              · exact (hR _).1 hyV
              · exact h
          obtain ⟨i1, i2, i3, i4, i5, i6⟩ := ih h hR1 fun x hx hu => hA x hx (by rcases hu with hu | hu <;> simp [hu])
          have hAy := hA y hyV (by simp)
          simp only [genAll, gen, hyV, if_true]
          refine ⟨i1, ⟨hAy, i2⟩, (OkEv.mono (A := A) (B := fun z => A z ∨ z = y) (fun _ => Or.inl) es i3 : OkEv (fun z => A z ∨ z = y) es), i4, ?_, ?_⟩
          · intro x hx; rcases i5 x hx with h | h <;> simp [h]
          · intro x hx
            obtain ⟨j1, j2⟩ := i6 x (by simpa using hx)
            refine ⟨List.mem_cons_of_mem _ j1, ?_⟩
            rcases j2 with ⟨j2, j3⟩ | j2
            · left
              have : typed vs x = false := by
                cases ht : typed vs x with
                | false => rfl
                | true => rw [(typed_cons _ _ _).2 (.inr ht)] at j3; cases j3
              refine ⟨?_, this⟩
              rcases (has_cons _ _ _).1 j2 with h3 | h3
              · simp at h3; rw [← h3]; exact hy
              · exact h3
            · exact .inr (List.mem_cons_of_mem _ j2)
        · have hR1 : Rel ((y, true) :: vs) (y :: V) := fun x => by
            rw [typed_cons, List.mem_cons, hR x]
            simp [eq_comm (a := x) (b := y)]
          obtain ⟨i1, i2, i3, i4, i5, i6⟩ := ih (A := fun z => A z ∨ z = y) h hR1 fun x hx hu => by
            rcases List.mem_cons.1 hx with rfl | hx
            · exact .inr rfl
            · exact .inl (hA x hx (by rcases hu with hu | hu <;> simp [hu]))
          simp only [genAll, gen, hyV, if_false]
          refine ⟨i1, i2, i3, fun x hx => i4 x (List.mem_cons_of_mem _ hx), ?_, ?_⟩
          · intro x hx
            rcases i5 x hx with h | h
            · rcases List.mem_cons.1 h with rfl | h <;> simp [*]
            · simp [h]
          · intro x hx
            have hty : typed vs y = false := by
              cases ht : typed vs y with
              | false => rfl
              | true => exact absurd ((hR y).2 ht) hyV
            simp only [List.singleton_append, List.mem_cons, Code.slot.injEq] at hx
            rcases hx with rfl | hx
            · exact ⟨by simp, .inl ⟨hy, hty⟩⟩
            · obtain ⟨j1, j2⟩ := i6 x hx
              refine ⟨List.mem_cons_of_mem _ j1, ?_⟩
              rcases j2 with ⟨j2, j3⟩ | j2
              · left
                have : typed vs x = false := by
                  cases ht : typed vs x with
                  | false => rfl
                  | true => rw [(typed_cons _ _ _).2 (.inr ht)] at j3; cases j3
                refine ⟨?_, this⟩
                rcases (has_cons _ _ _).1 j2 with h3 | h3
                · simp at h3; rw [← h3]; exact hy
                · exact h3
              · exact .inr (List.mem_cons_of_mem _ j2)

def AllTyped (vs : Locals) : Prop := ∀ x, hasVar vs x = true → typed vs x = true

theorem Initialised.mono {as bs : List (List Ev)} (h : Initialised as) (hs : ∀ a ∈ bs, a ∈ as) : Initialised bs := fun a ha => h a (hs a ha)

/-- The state of validation and code generation at the end of an expression. -/
theorem site_ok {a : List Ev} {vs vs' : Locals} {V : Slots} {A : Name → Prop} (h : checkAll a vs = some vs') (hR : Rel vs V) (hT : AllTyped vs) (hI : Initialised [a])
    (hA : ∀ x ∈ V, Used [a] x → A x) :
    Rel vs' (gSite a V).2 ∧ AllTyped vs' ∧ (∀ x ∈ V, x ∈ (gSite a V).2) ∧ (∀ x ∈ (gSite a V).2, x ∈ V ∨ (Code.slot x ∈ (gSite a V).1.code ∧ Declared [a] x)) ∧
      OkTr A (gSite a V).1.code ∧ OkEv A (gSite a V).1.ev ∧ (∀ x, Code.slot x ∈ (gSite a V).1.code → Ev.write x ∈ (gSite a V).1.ev) := by
  obtain ⟨i1, i2, i3, i4, i5, i6⟩ := expr_ok (A := A) h hR fun x hx hu => hA x hx ⟨a, by simp, hu⟩
  refine ⟨i1, ?_, i4, ?_, i2, i3, fun x hx => (i6 x hx).1⟩
  · intro x hx
    rcases checkAll_has h x hx with h1 | h1
    · exact (checkAll_typed h).1 x (hT x h1)
    · exact (checkAll_typed h).2 x (hI a (by simp) x h1)
  · intro x hx
    rcases i5 x hx with h1 | h1
    · exact .inl h1
    · refine .inr ⟨h1, a, by simp, ?_⟩
      rcases (i6 x h1).2 with ⟨h2, h3⟩ | h2
      · rw [hT x h2] at h3; cases h3
      · exact h2

/-- What validation and code generation do to the sets of variables. -/
def Static (as : List (List Ev)) (vs' : Locals) (V V' : Slots) : Prop := Rel vs' V' ∧ AllTyped vs' ∧ (∀ x ∈ V, x ∈ V') ∧ ∀ x ∈ V', x ∈ V ∨ Declared as x

theorem Static.trans {as bs : List (List Ev)} {v1 v2 : Locals} {V V1 V2 : Slots} (h : Static as v1 V V1) (h' : Static bs v2 V1 V2) : Static (as ++ bs) v2 V V2 := by
  refine ⟨h'.1, h'.2.1, fun x hx => h'.2.2.1 x (h.2.2.1 x hx), fun x hx => ?_⟩
  rcases h'.2.2.2 x hx with h1 | ⟨a, h1, h2⟩
  · rcases h.2.2.2 x h1 with h2 | ⟨a, h2, h3⟩
    · exact .inl h2
    · exact .inr ⟨a, by simp [h2], h3⟩
  · exact .inr ⟨a, by simp [h1], h2⟩

theorem Static.refl {vs : Locals} {V : Slots} (hR : Rel vs V) (hT : AllTyped vs) : Static [] vs V V := ⟨hR, hT, fun _ h => h, fun _ h => .inl h⟩

theorem site_static {a : List Ev} {vs vs' : Locals} {V : Slots} (h : checkAll a vs = some vs') (hR : Rel vs V) (hT : AllTyped vs) (hI : Initialised [a]) : Static [a] vs' V (gSite a V).2 := by
  obtain ⟨i1, i2, i3, i4, _⟩ := site_ok (A := fun _ => True) h hR hT hI fun _ _ _ => trivial
  exact ⟨i1, i2, i3, fun x hx => (i4 x hx).imp id And.right⟩

mutual
theorem st_static (s : St (List Ev)) {vs vs' : Locals} {V : Slots} (h : vSt s vs = some vs') (hR : Rel vs V) (hT : AllTyped vs) (hI : Initialised s.flat) :
    Static s.flat vs' V (gSt s V).2 := by
  match s with
  | .cont => simp only [vSt, Option.some.injEq] at h; subst h; exact Static.refl hR hT
  | .brk => simp only [vSt, Option.some.injEq] at h; subst h; exact Static.refl hR hT
  | .ret => simp only [vSt, Option.some.injEq] at h; subst h; exact Static.refl hR hT
  | .retVal a => exact site_static h hR hT hI
  | .expr a => exact site_static h hR hT hI
  | .whileLoop c b =>
    simp only [vSt, Option.bind_eq_some_iff] at h
    obtain ⟨v1, h1, h2⟩ := h
    have s1 := site_static h1 hR hT (hI.mono (by simp [St.flat]))
    exact s1.trans (sts_static b h2 s1.1 s1.2.1 (hI.mono (by simp +contextual [St.flat])))
  | .ifElse c b es el =>
    simp only [vSt, Option.bind_eq_some_iff] at h
    obtain ⟨v1, h1, v2, h2, v3, h3, h4⟩ := h
    have s1 := site_static h1 hR hT (hI.mono (by simp [St.flat]))
    have s2 := sts_static b h2 s1.1 s1.2.1 (hI.mono (by simp +contextual [St.flat]))
    have s3 := els_static es h3 s2.1 s2.2.1 (hI.mono (by simp +contextual [St.flat]))
    have s4 := opt_static el h4 s3.1 s3.2.1 (hI.mono (by simp +contextual [St.flat]))
    exact s1.trans (s2.trans (s3.trans s4))
theorem sts_static (s : Sts (List Ev)) {vs vs' : Locals} {V : Slots} (h : vSts s vs = some vs') (hR : Rel vs V) (hT : AllTyped vs) (hI : Initialised s.flat) :
    Static s.flat vs' V (gSts s V).2 := by
  match s with
  | .nil => simp only [vSts, Option.some.injEq] at h; subst h; exact Static.refl hR hT
  | .cons s ss =>
    simp only [vSts, Option.bind_eq_some_iff] at h
    obtain ⟨v1, h1, h2⟩ := h
    have s1 := st_static s h1 hR hT (hI.mono (by simp +contextual [Sts.flat]))
    exact s1.trans (sts_static ss h2 s1.1 s1.2.1 (hI.mono (by simp +contextual [Sts.flat])))
theorem els_static (s : Els (List Ev)) {vs vs' : Locals} {V : Slots} (h : vEls s vs = some vs') (hR : Rel vs V) (hT : AllTyped vs) (hI : Initialised s.flat) :
    Static s.flat vs' V (gEls s V).2 := by
  match s with
  | .nil => simp only [vEls, Option.some.injEq] at h; subst h; exact Static.refl hR hT
  | .cons c b es =>
    simp only [vEls, Option.bind_eq_some_iff] at h
    obtain ⟨v1, h1, v2, h2, h3⟩ := h
    have s1 := site_static h1 hR hT (hI.mono (by simp [Els.flat]))
    have s2 := sts_static b h2 s1.1 s1.2.1 (hI.mono (by simp +contextual [Els.flat]))
    have s3 := els_static es h3 s2.1 s2.2.1 (hI.mono (by simp +contextual [Els.flat]))
    exact s1.trans (s2.trans s3)
theorem opt_static (s : Opt (List Ev)) {vs vs' : Locals} {V : Slots} (h : vOpt s vs = some vs') (hR : Rel vs V) (hT : AllTyped vs) (hI : Initialised s.flat) :
    Static s.flat vs' V (gOpt s V).2 := by
  match s with
  | .none => simp only [vOpt, Option.some.injEq] at h; subst h; exact Static.refl hR hT
  | .some b => exact sts_static b h hR hT hI
end

/-- A path is right if the variables in `A` are there. -/
def Good : (Name → Prop) → List Site → Prop
  | _, [] => True
  | A, s :: t => OkTr A s.code ∧ OkEv A s.ev ∧ (∀ x, Code.slot x ∈ s.code → Ev.write x ∈ s.ev) ∧ Good (fun x => A x ∨ Code.slot x ∈ s.code) t

def Made (t : List Site) (x : Name) : Prop := ∃ s ∈ t, Code.slot x ∈ s.code

theorem Good.mono {A B : Name → Prop} (h : ∀ x, A x → B x) (t : List Site) : Good A t → Good B t := by
  induction t generalizing A B with
  | nil => intro _; trivial
  | cons s t ih => exact fun g => ⟨g.1.mono h, g.2.1.mono h, g.2.2.1, ih (fun x hx => hx.imp (h x) id) g.2.2.2⟩

theorem Good.append {A : Name → Prop} {s t : List Site} (h : Good A s) (h' : Good (fun x => A x ∨ Made s x) t) : Good A (s ++ t) := by
  induction s generalizing A with
  | nil => exact h'.mono (by simp [Made])
  | cons a s ih => exact ⟨h.1, h.2.1, h.2.2.1, ih h.2.2.2 (h'.mono fun x hx => by
      rcases hx with hx | ⟨q, hq, hx⟩
      · exact .inl (.inl hx)
      · rcases List.mem_cons.1 hq with rfl | hq
        · exact .inl (.inr hx)
        · exact .inr ⟨q, hq, hx⟩)⟩

theorem Good.right {A : Name → Prop} {t : List Site} (h : Good A t) : OkTr A (compiled t) ∧ OkEv A (source t) := by
  induction t generalizing A with
  | nil => exact ⟨trivial, trivial⟩
  | cons s t ih =>
    obtain ⟨i1, i2⟩ := ih h.2.2.2
    refine ⟨(OkTr.append _ _ _).2 ⟨h.1, i1⟩, (OkEv.append _ _ _).2 ⟨h.2.1, i2.mono fun x hx => hx.imp id (h.2.2.1 x)⟩⟩

theorem OkTr.made {A : Name → Prop} {tr : List Code} (h : OkTr A tr) {pre : List Code} {x : Name} {post : List Code} (e : tr = pre ++ .load x :: post ∨ tr = pre ++ .store x :: post) :
    A x ∨ Code.slot x ∈ pre := by
  rcases e with rfl | rfl <;> exact ((OkTr.append _ _ _).1 h).2.1

theorem OkEv.written {A : Name → Prop} {tr : List Ev} (h : OkEv A tr) {pre : List Ev} {x : Name} {post : List Ev} (e : tr = pre ++ .read x :: post) :
    (A x ∨ Ev.write x ∈ pre) ∨ isConst x = true := by
  subst e
  exact ((OkEv.append _ _ _).1 h).2.1

theorem Used.mono {as bs : List (List Ev)} {x : Name} (h : Used as x) (hs : ∀ a ∈ as, a ∈ bs) : Used bs x := by
  obtain ⟨a, h1, h2⟩ := h
  exact ⟨a, hs a h1, h2⟩

/-- A loop: every iteration begins with the condition. -/
theorem loop_good {c : Site} {B : Sts Site} {A : Name → Prop} (hc : Good A [c]) (hB : ∀ t f, Runs B t f → Good (fun x => A x ∨ Code.slot x ∈ c.code) t) :
    ∀ {w : St Site} {t : List Site} {f : Flow}, Run w t f → w = .whileLoop c B → Good A t ∧ ∃ t', t = c :: t'
  | _, _, _, .loopEnd _ _, e => by cases e; exact ⟨hc, [], rfl⟩
  | _, _, _, .loopStep _ _ t f t' f' h1 _ h3, e => by
    have ih := loop_good hc hB h3 e
    cases e
    refine ⟨⟨hc.1, hc.2.1, hc.2.2.1, (hB t f h1).append ?_⟩, _, rfl⟩
    exact ih.1.mono fun x hx => .inl (.inl hx)
  | _, _, _, .loopBrk _ _ t h1, e => by cases e; exact ⟨⟨hc.1, hc.2.1, hc.2.2.1, hB t _ h1⟩, _, rfl⟩
  | _, _, _, .loopRet _ _ t h1, e => by cases e; exact ⟨⟨hc.1, hc.2.1, hc.2.2.1, hB t _ h1⟩, _, rfl⟩
  | _, _, _, .cont, e => by cases e
  | _, _, _, .brk, e => by cases e
  | _, _, _, .ret, e => by cases e
  | _, _, _, .retVal _, e => by cases e
  | _, _, _, .expr _, e => by cases e
  | _, _, _, .ifThen .., e => by cases e
  | _, _, _, .ifElse .., e => by cases e

mutual
theorem st_dyn (s : St (List Ev)) {vs vs' : Locals} {V : Slots} {A : Name → Prop} (h : vSt s vs = some vs') (hR : Rel vs V) (hT : AllTyped vs) (hI : Initialised s.flat) (hC : s.Confined)
    (hA : ∀ x ∈ V, Used s.flat x → A x) (t : List Site) (f : Flow) (hr : Run (gSt s V).1 t f) :
    Good A t ∧ (f = .norm → ∀ x ∈ (gSt s V).2, x ∈ V ∨ Made t x ∨ Declared s.inner x) := by
  match s with
  | .cont => cases hr; exact ⟨trivial, fun e => by cases e⟩
  | .brk => cases hr; exact ⟨trivial, fun e => by cases e⟩
  | .ret => cases hr; exact ⟨trivial, fun e => by cases e⟩
  | .retVal a =>
    cases hr
    obtain ⟨i1, i2, i3, i4, i5, i6, i7⟩ := site_ok (A := A) h hR hT hI hA
    exact ⟨⟨i5, i6, i7, trivial⟩, fun e => by cases e⟩
  | .expr a =>
    cases hr
    obtain ⟨i1, i2, i3, i4, i5, i6, i7⟩ := site_ok (A := A) h hR hT hI hA
    exact ⟨⟨i5, i6, i7, trivial⟩, fun _ x hx => (i4 x hx).imp id fun hx => .inl ⟨_, by simp, hx.1⟩⟩
  | .whileLoop c b =>
    simp only [vSt, Option.bind_eq_some_iff] at h
    obtain ⟨v1, h1, h2⟩ := h
    have hIc : Initialised [c] := hI.mono (by simp [St.flat])
    have hIb : Initialised b.flat := hI.mono (by simp +contextual [St.flat])
    obtain ⟨i1, i2, i3, i4, i5, i6, i7⟩ := site_ok (A := A) h1 hR hT hIc fun x hx hu => hA x hx (hu.mono (by simp [St.flat]))
    have hB := fun t f hr => sts_dyn b (A := fun x => A x ∨ Code.slot x ∈ (gSite c V).1.code) h2 i1 i2 hIb hC (fun x hx hu => by
      rcases i4 x hx with hx | hx
      · exact .inl (hA x hx (hu.mono (by simp +contextual [St.flat])))
      · exact .inr hx.1) t f hr
    obtain ⟨g, t', e⟩ := loop_good ⟨i5, i6, i7, trivial⟩ hB hr rfl
    refine ⟨g, fun _ x hx => ?_⟩
    rcases (sts_static b h2 i1 i2 hIb).2.2.2 x hx with hx | hx
    · refine (i4 x hx).imp id fun hx => .inl ⟨_, by rw [e]; simp, hx.1⟩
    · exact .inr (.inr hx)
  | .ifElse c b es el =>
    simp only [vSt, Option.bind_eq_some_iff] at h
    obtain ⟨v1, h1, v2, h2, v3, h3, h4⟩ := h
    have hIc : Initialised [c] := hI.mono (by simp [St.flat])
    have hIb : Initialised b.flat := hI.mono (by simp +contextual [St.flat])
    have hIes : Initialised es.flat := hI.mono (by simp +contextual [St.flat])
    have hIel : Initialised el.flat := hI.mono (by simp +contextual [St.flat])
    obtain ⟨i1, i2, i3, i4, i5, i6, i7⟩ := site_ok (A := A) h1 hR hT hIc fun x hx hu => hA x hx (hu.mono (by simp [St.flat]))
    have hA1 : ∀ x ∈ (gSite c V).2, Used (b.flat ++ (es.flat ++ el.flat)) x → A x ∨ Code.slot x ∈ (gSite c V).1.code := fun x hx hu => by
      rcases i4 x hx with hx | hx
      · exact .inl (hA x hx (hu.mono (by simp +contextual [St.flat])))
      · exact .inr hx.1
    have sb := sts_static b h2 i1 i2 hIb
    have se := els_static es h3 sb.1 sb.2.1 hIes
    have so := opt_static el h4 se.1 se.2.1 hIel
    have fin : ∀ t', f = .norm → ∀ x ∈ (gSt (.ifElse c b es el) V).2, x ∈ V ∨ Made ((gSite c V).1 :: t') x ∨ Declared (St.ifElse c b es el).inner x := by
      intro t' _ x hx
      rcases (sb.trans (se.trans so)).2.2.2 x hx with hx | hx
      · exact (i4 x hx).imp id fun hx => .inl ⟨_, by simp, hx.1⟩
      · exact .inr (.inr hx)
    cases hr with
    | ifThen _ _ _ _ t f hb =>
      exact ⟨⟨i5, i6, i7, sts_dyn b h2 i1 i2 hIb hC.1 (fun x hx hu => hA1 x hx (hu.mono (by simp +contextual))) _ _ hb⟩, fin t⟩
    | ifElse _ _ _ _ t f he =>
      refine ⟨⟨i5, i6, i7, els_dyn es el h3 h4 sb.1 sb.2.1 hIes hC.2.2.1 (fun x hx hu => ?_) (fun k1 k2 k3 k4 => opt_dyn el k1 k2 k3 hIel hC.2.2.2 k4) _ _ he⟩, fin t⟩
      rcases sb.2.2.2 x hx with hx | hx
      · exact hA1 x hx (hu.mono (by simp +contextual))
      · exact absurd hu (hC.2.1 x hx)
theorem sts_dyn (s : Sts (List Ev)) {vs vs' : Locals} {V : Slots} {A : Name → Prop} (h : vSts s vs = some vs') (hR : Rel vs V) (hT : AllTyped vs) (hI : Initialised s.flat) (hC : s.Confined)
    (hA : ∀ x ∈ V, Used s.flat x → A x) (t : List Site) (f : Flow) (hr : Runs (gSts s V).1 t f) : Good A t := by
  match s with
  | .nil => cases hr; trivial
  | .cons s ss =>
    simp only [vSts, Option.bind_eq_some_iff] at h
    obtain ⟨v1, h1, h2⟩ := h
    have hIs : Initialised s.flat := hI.mono (by simp +contextual [Sts.flat])
    have hIss : Initialised ss.flat := hI.mono (by simp +contextual [Sts.flat])
    have st := st_static s h1 hR hT hIs
    have hd := st_dyn s (A := A) h1 hR hT hIs hC.2.1 fun x hx hu => hA x hx (hu.mono (by simp +contextual [Sts.flat]))
    cases hr with
    | stop _ _ _ _ hr hf => exact (hd _ _ hr).1
    | cons _ _ t t' f hr hrs =>
      obtain ⟨g, hn⟩ := hd _ _ hr
      refine g.append (sts_dyn ss h2 st.1 st.2.1 hIss hC.2.2 (fun x hx hu => ?_) _ _ hrs)
      rcases hn rfl x hx with hx | hx | hx
      · exact .inl (hA x hx (hu.mono (by simp +contextual [Sts.flat])))
      · exact .inr hx
      · exact absurd hu (hC.1 x hx)
theorem opt_dyn (el : Opt (List Ev)) {vs vs' : Locals} {V : Slots} {A : Name → Prop} (h : vOpt el vs = some vs') (hR : Rel vs V) (hT : AllTyped vs) (hI : Initialised el.flat)
    (hC : el.Confined) (hA : ∀ x ∈ V, Used el.flat x → A x) (t : List Site) (f : Flow) (hr : RunEls .nil (gOpt el V).1 t f) : Good A t := by
  match el with
  | .none => cases hr; trivial
  | .some b =>
    cases hr with
    | els _ _ _ hb => exact sts_dyn b h hR hT hI hC hA _ _ hb
theorem els_dyn (es : Els (List Ev)) (el : Opt (List Ev)) {vs v1 vs' : Locals} {V : Slots} {A : Name → Prop} (h : vEls es vs = some v1) (h' : vOpt el v1 = some vs') (hR : Rel vs V)
    (hT : AllTyped vs) (hI : Initialised es.flat) (hC : es.Confined el.flat)
    (hA : ∀ x ∈ V, Used (es.flat ++ el.flat) x → A x)
    (hel : ∀ {vs vs' : Locals} {V : Slots} {A : Name → Prop}, vOpt el vs = some vs' → Rel vs V → AllTyped vs → (∀ x ∈ V, Used el.flat x → A x) →
      ∀ t f, RunEls .nil (gOpt el V).1 t f → Good A t) (t : List Site) (f : Flow) (hr : RunEls (gEls es V).1 (gOpt el (gEls es V).2).1 t f) : Good A t := by
  match es with
  | .nil =>
    simp only [vEls, Option.some.injEq] at h
    subst h
    exact hel h' hR hT (fun x hx hu => hA x hx (hu.mono (by simp +contextual [Els.flat]))) _ _ hr
  | .cons c b es =>
    simp only [vEls, Option.bind_eq_some_iff] at h
    obtain ⟨w1, h1, w2, h2, h3⟩ := h
    have hIc : Initialised [c] := hI.mono (by simp [Els.flat])
    have hIb : Initialised b.flat := hI.mono (by simp +contextual [Els.flat])
    have hIes : Initialised es.flat := hI.mono (by simp +contextual [Els.flat])
    obtain ⟨i1, i2, i3, i4, i5, i6, i7⟩ := site_ok (A := A) h1 hR hT hIc fun x hx hu => hA x hx (hu.mono (by simp [Els.flat]))
    have hA1 : ∀ x ∈ (gSite c V).2, Used (b.flat ++ (es.flat ++ el.flat)) x → A x ∨ Code.slot x ∈ (gSite c V).1.code := fun x hx hu => by
      rcases i4 x hx with hx | hx
      · exact .inl (hA x hx (hu.mono (by simp [Els.flat]; grind)))
      · exact .inr hx.1
    have sb := sts_static b h2 i1 i2 hIb
    cases hr with
    | take _ _ _ _ t f hb => exact ⟨i5, i6, i7, sts_dyn b h2 i1 i2 hIb hC.1 (fun x hx hu => hA1 x hx (hu.mono (by simp +contextual))) _ _ hb⟩
    | skip _ _ _ _ t f he =>
      refine ⟨i5, i6, i7, els_dyn es el h3 h' sb.1 sb.2.1 hIes hC.2.2 (fun x hx hu => ?_) hel _ _ he⟩
      rcases sb.2.2.2 x hx with hx | hx
      · exact hA1 x hx (hu.mono (by simp +contextual))
      · exact absurd hu (hC.2.1 x hx)
end

theorem stack_append (s t : List Site) : stack (s ++ t) = stack s + stack t := by simp [stack]
theorem stack_cons (s : Site) (t : List Site) : stack (s :: t) = allocs s + stack t := by simp [stack]
theorem stack_zero {t : List Site} (h : ∀ s ∈ t, allocs s = 0) : stack t = 0 := by
  induction t with
  | nil => rfl
  | cons s t ih => rw [stack_cons, h s (by simp), ih fun q hq => h q (by simp [hq])]

mutual
theorem run_mem {α : Type} : ∀ {s : St α} {t : List α} {f : Flow}, Run s t f → ∀ a ∈ t, a ∈ s.flat
  | _, _, _, .cont => by simp
  | _, _, _, .brk => by simp
  | _, _, _, .ret => by simp
  | _, _, _, .retVal a => by simp [St.flat]
  | _, _, _, .expr a => by simp [St.flat]
  | _, _, _, .loopEnd c b => by simp [St.flat]
  | _, _, _, .loopStep c b t f t' f' h1 _ h3 => by
    have i1 := runs_mem h1
    have i3 := run_mem h3
    simp only [St.flat, List.mem_cons, List.mem_append] at i3 ⊢
    grind
  | _, _, _, .loopBrk c b t h1 => by
    have i1 := runs_mem h1
    simp only [St.flat, List.mem_cons]
    grind
  | _, _, _, .loopRet c b t h1 => by
    have i1 := runs_mem h1
    simp only [St.flat, List.mem_cons]
    grind
  | _, _, _, .ifThen c b es el t f h1 => by
    have i1 := runs_mem h1
    simp only [St.flat, List.mem_cons, List.mem_append]
    grind
  | _, _, _, .ifElse c b es el t f h1 => by
    have i1 := runEls_mem h1
    simp only [St.flat, List.mem_cons, List.mem_append]
    grind
theorem runs_mem {α : Type} : ∀ {s : Sts α} {t : List α} {f : Flow}, Runs s t f → ∀ a ∈ t, a ∈ s.flat
  | _, _, _, .nil => by simp
  | _, _, _, .stop s ss t f h1 _ => by
    have i1 := run_mem h1
    simp only [Sts.flat, List.mem_append]
    grind
  | _, _, _, .cons s ss t t' f h1 h2 => by
    have i1 := run_mem h1
    have i2 := runs_mem h2
    simp only [Sts.flat, List.mem_append]
    grind
theorem runEls_mem {α : Type} : ∀ {es : Els α} {el : Opt α} {t : List α} {f : Flow}, RunEls es el t f → ∀ a ∈ t, a ∈ es.flat ∨ a ∈ el.flat
  | _, _, _, _, .none => by simp
  | _, _, _, _, .els b t f h1 => by
    have i1 := runs_mem h1
    simp only [Opt.flat]
    grind
  | _, _, _, _, .take c b es el t f h1 => by
    have i1 := runs_mem h1
    simp only [Els.flat, List.mem_cons, List.mem_append]
    grind
  | _, _, _, _, .skip c b es el t f h1 => by
    have i1 := runEls_mem h1
    simp only [Els.flat, List.mem_cons, List.mem_append]
    grind
end

mutual
theorem run_stack : ∀ {s : St Site} {t : List Site} {f : Flow}, Run s t f → s.LoopsFree → stack t ≤ stack s.flat
  | _, _, _, .cont, _ => by simp [stack]
  | _, _, _, .brk, _ => by simp [stack]
  | _, _, _, .ret, _ => by simp [stack]
  | _, _, _, .retVal a, _ => by simp [St.flat]
  | _, _, _, .expr a, _ => by simp [St.flat]
  | _, _, _, .loopEnd c b, _ => by simp [St.flat, stack_cons, stack]
  | _, _, _, .loopStep c b t f t' f' h1 h2 h3, h => by
    rw [stack_zero fun s hs => h s (run_mem (.loopStep c b t f t' f' h1 h2 h3) s hs)]; exact Nat.zero_le _
  | _, _, _, .loopBrk c b t h1, h => by rw [stack_zero fun s hs => h s (run_mem (.loopBrk c b t h1) s hs)]; exact Nat.zero_le _
  | _, _, _, .loopRet c b t h1, h => by rw [stack_zero fun s hs => h s (run_mem (.loopRet c b t h1) s hs)]; exact Nat.zero_le _
  | _, _, _, .ifThen c b es el t f h1, h => by
    have := runs_stack h1 h.1
    simp only [St.flat, stack_cons, stack_append]
    omega
  | _, _, _, .ifElse c b es el t f h1, h => by
    have := runEls_stack h1 h.2.1 h.2.2
    simp only [St.flat, stack_cons, stack_append]
    omega
theorem runs_stack : ∀ {s : Sts Site} {t : List Site} {f : Flow}, Runs s t f → s.LoopsFree → stack t ≤ stack s.flat
  | _, _, _, .nil, _ => by simp [stack]
  | _, _, _, .stop s ss t f h1 _, h => by
    have := run_stack h1 h.1
    simp only [Sts.flat, stack_append]
    omega
  | _, _, _, .cons s ss t t' f h1 h2, h => by
    have := run_stack h1 h.1
    have := runs_stack h2 h.2
    simp only [Sts.flat, stack_append]
    omega
theorem runEls_stack : ∀ {es : Els Site} {el : Opt Site} {t : List Site} {f : Flow}, RunEls es el t f → es.LoopsFree → el.LoopsFree → stack t ≤ stack es.flat + stack el.flat
  | _, _, _, _, .none, _, _ => by simp [stack]
  | _, _, _, _, .els b t f h1, _, h => by
    have := runs_stack h1 h
    simp only [Opt.flat]
    omega
  | _, _, _, _, .take c b es el t f h1, h, _ => by
    have := runs_stack h1 h.1
    simp only [Els.flat, stack_cons, stack_append]
    omega
  | _, _, _, _, .skip c b es el t f h1, h, h' => by
    have := runEls_stack h1 h.2 h'
    simp only [Els.flat, stack_cons, stack_append]
    omega
end

theorem rel_start (ps : List Name) : Rel (ps.map fun p => (p, true)) ps ∧ AllTyped (ps.map fun p => (p, true)) := by
  constructor
  · intro x; simp [typed]
  · intro x h; simpa [typed, hasVar] using h

theorem all_good (ps : List Name) (b : Sts (List Ev)) (ha : Accepted ps b) (hI : Initialised b.flat) (hC : b.Confined) (t : List Site) (f : Flow) (hr : Runs (code ps b) t f) :
    Good (fun x => x ∈ ps) t := by
  obtain ⟨vs, h⟩ := Option.isSome_iff_exists.1 ha
  exact sts_dyn b h (rel_start ps).1 (rel_start ps).2 hI hC (fun x hx _ => hx) t f hr

/-! ## The theorems -/

/-- **C138, the part that holds.** In a function that is accepted, if variables are defined with a value and not used after the block in which they are defined, on every path a variable that
is read was given a value before. -/
theorem read_variables_written_partial (ps : List Name) (ss : Stmts) (b : Sts (List Ev)) (_hb : ofStmts ss = some b) (ha : Accepted ps b) (hI : Initialised b.flat) (hC : b.Confined)
    (t : List Site) (f : Flow) (hr : Runs (code ps b) t f) : ReadsWritten ps (source t) := by
  intro pre x post e
  rcases (all_good ps b ha hI hC t f hr).right.2.written e with (h | h) | h
  · exact .inl h
  · exact .inr (.inl h)
  · exact .inr (.inr (by simpa [isConst] using h))

/-- **C139, the part that holds.** Under the same conditions, on every path the code uses only places of variables that exist. -/
theorem variable_places_exist_partial (ps : List Name) (ss : Stmts) (b : Sts (List Ev)) (_hb : ofStmts ss = some b) (ha : Accepted ps b) (hI : Initialised b.flat) (hC : b.Confined)
    (t : List Site) (f : Flow) (hr : Runs (code ps b) t f) : SlotsMade ps (compiled t) :=
  fun _ _ _ e => (all_good ps b ha hI hC t f hr).right.1.made e

/-- **C140, the part that holds.** If nothing inside a loop makes a place in the stack, a call makes at most as many as there are in the text. -/
theorem stack_bounded_partial (ps : List Name) (b : Sts (List Ev)) (hL : (code ps b).LoopsFree) (t : List Site) (f : Flow) (hr : Runs (code ps b) t f) :
    stack t ≤ stack (code ps b).flat := runs_stack hr hL

/-- **C140, in general.** A loop whose body can be run through and makes a place in the stack uses any amount of stack. -/
theorem stack_of_loop (c : Site) (b : Sts Site) (t : List Site) (h : Runs b t .norm) (ht : 0 < stack t) (n : Nat) : ∃ t', Run (.whileLoop c b) t' .norm ∧ n ≤ stack t' := by
  induction n with
  | zero => exact ⟨_, .loopEnd c b, Nat.zero_le _⟩
  | succ n ih =>
    obtain ⟨t', h1, h2⟩ := ih
    refine ⟨_, .loopStep c b t .norm t' .norm h (.inl rfl) h1, ?_⟩
    simp only [stack_cons, stack_append]
    omega

/-! ### The properties do not hold in general -/

def nx : Name := ['x']
def ny : Name := ['y']
def var (n : Name) : Expr := .un none (.var n)
def lit (c : Char) : Expr := .un none (.num [c])
def define (n : Name) (e : Expr) : Stmt := .expr (.bin (.un none (.define n)) .assign e)
def set (n : Name) (e : Expr) : Stmt := .expr (.bin (var n) .assign e)

/-- `if (y) { auto x = 1; } return x;` -/
def inBranch : Stmts := .cons (.ifElse (var ny) (.cons (define nx (lit '1')) .nil) .nil .none) (.cons (.retVal (var nx)) .nil)
def inBranchEv : Sts (List Ev) := .cons (.ifElse [.read ny] (.cons (.expr [.decl nx, .write nx]) .nil) .nil .none) (.cons (.retVal [.read nx]) .nil)

/-- **C138 does not hold.** A function is accepted that reads a variable whose definition stands in a branch that was not taken. -/
theorem unwritten_variable_violated : ∃ b, ofStmts inBranch = some b ∧ Accepted [ny] b ∧ ∃ t f, Runs (code [ny] b) t f ∧ ¬ReadsWritten [ny] (source t) ∧ ¬SlotsMade [ny] (compiled t) := by
  refine ⟨inBranchEv, rfl, by unfold Accepted; decide +kernel, [⟨[.read ny], [.load ny]⟩, ⟨[.read nx], [.load nx]⟩], .ret, ?_, ?_, ?_⟩
  · exact .cons _ _ [_] [_] _ (.ifElse _ _ _ _ _ _ .none) (.stop _ _ _ _ (.retVal _) (by decide))
  · intro h
    have := h [.read ny] nx [] (by decide +kernel)
    revert this; decide
  · intro h
    have := h [.load ny] nx [] (.inl (by decide +kernel))
    revert this; decide

/-- `auto x; if (y) { x = 1; } else { x = 2; } return x;` -/
def inBoth : Stmts :=
  .cons (.expr (.un none (.define nx))) (.cons (.ifElse (var ny) (.cons (set nx (lit '1')) .nil) .nil (.some (.cons (set nx (lit '2')) .nil))) (.cons (.retVal (var nx)) .nil))
def inBothEv : Sts (List Ev) :=
  .cons (.expr [.decl nx]) (.cons (.ifElse [.read ny] (.cons (.expr [.write nx]) .nil) .nil (.some (.cons (.expr [.write nx]) .nil))) (.cons (.retVal [.read nx]) .nil))
def inBothCode : Sts Site :=
  .cons (.expr ⟨[.decl nx], []⟩) (.cons (.ifElse ⟨[.read ny], [.load ny]⟩ (.cons (.expr ⟨[.write nx], [.slot nx]⟩) .nil) .nil (.some (.cons (.expr ⟨[.write nx], [.store nx]⟩) .nil)))
    (.cons (.retVal ⟨[.read nx], [.load nx]⟩) .nil))

theorem one_expr {a : Site} {t : List Site} {f : Flow} (h : Runs (.cons (.expr a) .nil) t f) : t = [a] ∧ f = .norm := by
  cases h with
  | stop _ _ _ _ h1 h2 => cases h1; exact absurd rfl h2
  | cons _ _ _ _ _ h1 h2 => cases h1; cases h2; exact ⟨rfl, rfl⟩

theorem inBoth_written (t : List Site) (f : Flow) (h : Runs inBothCode t f) : ReadsWritten [ny] (source t) := by
  have key : OkEv (fun x => x ∈ [ny]) (source t) := by
    cases h with
    | stop _ _ _ _ h1 h2 => cases h1; exact absurd rfl h2
    | cons _ _ _ _ _ h1 h2 =>
      cases h1
      cases h2 with
      | stop _ _ _ _ h3 h4 =>
        cases h3 with
        | ifThen _ _ _ _ _ _ h5 => exact absurd (one_expr h5).2 h4
        | ifElse _ _ _ _ _ _ h5 =>
          cases h5 with
          | els _ _ _ h6 => exact absurd (one_expr h6).2 h4
      | cons _ _ _ _ _ h3 h4 =>
        have hret : ∀ {t f}, Runs (.cons (.retVal (⟨[.read nx], [.load nx]⟩ : Site)) .nil) t f → t = [⟨[.read nx], [.load nx]⟩] := by
          intro t f h
          cases h with
          | stop _ _ _ _ h1 h2 => cases h1; rfl
          | cons _ _ _ _ _ h1 h2 => cases h1
        rw [hret h4]
        cases h3 with
        | ifThen _ _ _ _ _ _ h5 => rw [(one_expr h5).1]; simp [source, OkEv]
        | ifElse _ _ _ _ _ _ h5 =>
          cases h5 with
          | els _ _ _ h6 => rw [(one_expr h6).1]; simp [source, OkEv]
  intro pre x post e
  rcases key.written e with (h | h) | h
  · exact .inl h
  · exact .inr (.inl h)
  · exact .inr (.inr (by simpa [isConst] using h))

/-- **C139 does not hold.** A function is accepted in which every variable that is read was given a value before, on every path; but the place of the variable is made in the first branch
only, and the second one uses it. -/
theorem place_in_branch_violated : ∃ b, ofStmts inBoth = some b ∧ Accepted [ny] b ∧ (∀ t f, Runs (code [ny] b) t f → ReadsWritten [ny] (source t)) ∧
    ∃ t f, Runs (code [ny] b) t f ∧ ¬SlotsMade [ny] (compiled t) := by
  refine ⟨inBothEv, rfl, by unfold Accepted; decide +kernel, fun t f h => inBoth_written t f h,
    [⟨[.decl nx], []⟩, ⟨[.read ny], [.load ny]⟩, ⟨[.write nx], [.store nx]⟩, ⟨[.read nx], [.load nx]⟩], .ret, ?_, ?_⟩
  · exact .cons _ _ [_] [_, _, _] _ (.expr _) (.cons _ _ [_, _] [_] _ (.ifElse _ _ _ _ [_] _ (.els _ _ _ (.cons _ _ [_] [] _ (.expr _) .nil))) (.stop _ _ _ _ (.retVal _) (by decide)))
  · intro h
    have := h [.load ny] nx [.load nx] (.inr (by decide +kernel))
    revert this; decide

/-- `while (y) { auto x = 1; } return y;` -/
def inLoop : Stmts := .cons (.whileLoop (var ny) (.cons (define nx (lit '1')) .nil)) (.cons (.retVal (var ny)) .nil)
def inLoopEv : Sts (List Ev) := .cons (.whileLoop [.read ny] (.cons (.expr [.decl nx, .write nx]) .nil)) (.cons (.retVal [.read ny]) .nil)

/-- **C140 does not hold.** A definition in a loop needs new stack in every iteration. -/
theorem stack_in_loop_violated : ∃ b, ofStmts inLoop = some b ∧ Accepted [ny] b ∧ b.Confined ∧ Initialised b.flat ∧ ∀ n, ∃ t f, Runs (code [ny] b) t f ∧ n ≤ stack t := by
  refine ⟨inLoopEv, rfl, by unfold Accepted; decide +kernel, ?_, ?_, fun n => ?_⟩
  · simp [inLoopEv, Sts.Confined, St.Confined, St.inner, Sts.flat, St.flat, Declared, Used]
    decide
  · simp [inLoopEv, Initialised, Sts.flat, St.flat]
  · obtain ⟨t, h1, h2⟩ := stack_of_loop ⟨[.read ny], [.load ny]⟩ (.cons (.expr ⟨[.decl nx, .write nx], [.slot nx]⟩) .nil) [⟨[.decl nx, .write nx], [.slot nx]⟩]
      (.cons _ _ [_] [] _ (.expr _) .nil) (by decide +kernel) n
    have h3 : Runs (.cons (.whileLoop ⟨[.read ny], [.load ny]⟩ (.cons (.expr ⟨[.decl nx, .write nx], [.slot nx]⟩) .nil)) (.cons (.retVal ⟨[.read ny], [.load ny]⟩) .nil))
      (t ++ [⟨[.read ny], [.load ny]⟩]) .ret := .cons _ _ _ _ _ h1 (.stop _ _ _ _ (.retVal _) (by decide))
    exact ⟨_, .ret, h3, by rw [stack_append]; omega⟩

/-! ### An instance -/

/-- `auto x = 1; while (y) { auto z = x + 1; if (z > y) { break; } x = z; } return x;` -/
def sample : Stmts :=
  .cons (define nx (lit '1')) (.cons (.whileLoop (var ny) (.cons (define ['z'] (.bin (var nx) .add (lit '1'))) (.cons (.ifElse (.bin (var ['z']) .gt (var ny)) (.cons .brk .nil) .nil .none)
    (.cons (set nx (var ['z'])) .nil)))) (.cons (.retVal (var nx)) .nil))
def sampleEv : Sts (List Ev) :=
  .cons (.expr [.decl nx, .write nx]) (.cons (.whileLoop [.read ny] (.cons (.expr [.decl ['z'], .read nx, .write ['z']]) (.cons (.ifElse [.read ['z'], .read ny] (.cons .brk .nil) .nil .none)
    (.cons (.expr [.read ['z'], .write nx]) .nil)))) (.cons (.retVal [.read nx]) .nil))
example : ofStmts sample = some sampleEv ∧ Accepted [ny] sampleEv ∧ Initialised sampleEv.flat ∧ sampleEv.Confined := by
  refine ⟨rfl, by unfold Accepted; decide +kernel, ?_, ?_⟩
  · simp [sampleEv, Initialised, Sts.flat, St.flat, Els.flat, Opt.flat]
  · simp [sampleEv, Sts.Confined, St.Confined, Els.Confined, Opt.Confined, St.inner, Sts.flat, St.flat, Els.flat, Opt.flat, Declared, Used]
    decide
/-- A loop without definitions, strings and calls. -/
example : (code [nx, ny] (.cons (.whileLoop [.read ny] (.cons (.expr [.read nx, .write nx]) .nil)) .nil)).LoopsFree := by
  refine ⟨?_, trivial⟩
  intro s hs
  rcases List.mem_cons.1 hs with rfl | hs
  · decide +kernel
  · rcases List.mem_cons.1 hs with rfl | hs
    · decide +kernel
    · cases hs

end Verif.Comp.Vars
