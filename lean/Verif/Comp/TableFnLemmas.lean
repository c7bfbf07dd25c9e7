import Verif.Comp.TableFn
import Verif.Comp.VecFnProps
/-!
# Functions over tables: lemmas
-/
namespace Verif.Comp.TableFn
open Verif.Ast hiding Ty
open Verif.Ast.Rpn Verif.Gen
open Verif.Types.Conv (IntTy)
open Verif.Gen.Scalar (Name)
open Verif.Simd (Byte)
open Verif.Comp.Pipeline (Arith Rel decimal bit)
open Verif.Comp.Real hiding Passed Ex
open Verif.Comp.VecFn (Ex Hw El Str Lane paramKinds viewText)
open Verif.Comp.VecFn (VEnv Vars Cell World elemOf hasV valueAt vectorOf kinds lane Guarded checkE nodesOf evalNodes typeNamed contextText VTy Fine fine_of Match Held BufOk)
open Verif.Comp.VecPipe (treeFlat flat_tree)

/-! ## Columns in expressions -/

def undotT : Tree → Tree
  | .atom o => .atom (undotO o)
  | .un op t => .un op (undotT t)
  | .bin l op r => .bin (undotT l) op (undotT r)
  | .sel c t f => .sel (undotT c) (undotT t) (undotT f)

theorem undot_paren {o : Operand} (h : ∀ e, o ≠ .paren e) : ∀ e, undotO o ≠ .paren e := by
  intro e
  unfold undotO
  split
  · exact absurd rfl (h _)
  · simp
  · simp
  · exact h e

theorem tree_un {o : Operand} (h : ∀ e, o ≠ .paren e) : (Expr.un none o).toTree = .atom o ∧ ∀ op, (Expr.un (some op) o).toTree = .un op (.atom o) := by
  cases o <;> first | exact absurd rfl (h _) | exact ⟨by simp [Expr.toTree], fun op => by simp [Expr.toTree]⟩

theorem undot_tree (e : Expr) : (undotE e).toTree = undotT e.toTree := by
  match e with
  | .un none (.paren e) => simp only [undotE, undotO, Expr.toTree]; exact undot_tree e
  | .un (some op) (.paren e) => simp only [undotE, undotO, Expr.toTree, undotT, undot_tree e]
  | .bin l op r => simp only [undotE, Expr.toTree, undotT, undot_tree l, undot_tree r]
  | .sel c t f => simp only [undotE, Expr.toTree, undotT, undot_tree c, undot_tree t, undot_tree f]
  | .un u (.bool b) => cases u <;> rfl
  | .un u (.str b) => cases u <;> rfl
  | .un u (.num b) => cases u <;> rfl
  | .un u (.define b) => cases u <;> rfl
  | .un u (.array b) => cases u <;> rfl
  | .un u (.var b) => cases u <;> rfl
  | .un u (.call b c) =>
    have h : ∀ e, Operand.call b c ≠ .paren e := by simp
    cases u with
    | none => rw [(tree_un h).1]; unfold undotE; rw [(tree_un (undot_paren h)).1]; rfl
    | some op => rw [(tree_un h).2]; unfold undotE; rw [(tree_un (undot_paren h)).2]; rfl
  | .un u (.access b c) =>
    have h : ∀ e, Operand.access b c ≠ .paren e := by simp
    cases u with
    | none => rw [(tree_un h).1]; unfold undotE; rw [(tree_un (undot_paren h)).1]; rfl
    | some op => rw [(tree_un h).2]; unfold undotE; rw [(tree_un (undot_paren h)).2]; rfl

theorem reads_tree (e : Expr) : readsE e = reads e.toTree := by
  match e with
  | .un none (.paren e) => simp only [readsE, readsO, Expr.toTree]; exact reads_tree e
  | .un (some op) (.paren e) => simp only [readsE, readsO, Expr.toTree, reads]; exact reads_tree e
  | .bin l op r => simp only [readsE, Expr.toTree, reads, reads_tree l, reads_tree r]
  | .sel c t f => simp only [readsE, Expr.toTree, reads, reads_tree c, reads_tree t, reads_tree f]
  | .un none (.bool _) | .un none (.str _) | .un none (.num _) | .un none (.define _) | .un none (.array _) | .un none (.var _) | .un none (.call _ _) | .un none (.access _ _) =>
    simp only [readsE, Expr.toTree, reads]
  | .un (some op) (.bool _) | .un (some op) (.str _) | .un (some op) (.num _) | .un (some op) (.define _) | .un (some op) (.array _) | .un (some op) (.var _) | .un (some op) (.call _ _)
  | .un (some op) (.access _ _) => simp only [readsE, Expr.toTree, reads]

theorem var_is {y : Name} {t : Tree} (h : VarIs y t) : undotT t = .atom (.var y) := by
  rcases h with ⟨_, rfl⟩ | ⟨x, f, _, rfl, rfl⟩ <;> rfl

theorem str_is : ∀ (a : Str) {t : Tree}, StrIs a t → a.Is (undotT t)
  | .text s, t, h => by rw [StrIs] at h; subst h; rfl
  | .var y, t, h => var_is h

theorem var_reads {y : Name} {t : Tree} (h : VarIs y t) {x f : Name} (hr : (x, f) ∈ reads t) : '.' ∉ x ∧ y = dotted x f := by
  rcases h with ⟨_, rfl⟩ | ⟨x, f, hx, rfl, rfl⟩
  · simp [reads, readsO] at hr
  · simp only [reads, readsO, List.mem_singleton, Prod.mk.injEq] at hr
    obtain ⟨rfl, rfl⟩ := hr
    exact ⟨hx, rfl⟩

theorem str_reads {a : Str} {t : Tree} (h : StrIs a t) {x f : Name} (hr : (x, f) ∈ reads t) : '.' ∉ x ∧ dotted x f ∈ strNames a := by
  cases a with
  | text s => rw [StrIs] at h; subst h; simp [reads, readsO] at hr
  | var y => obtain ⟨h1, rfl⟩ := var_reads h hr; exact ⟨h1, by simp [strNames]⟩

theorem var_dot {y : Name} {t : Tree} (h : VarIs y t) (hd : '.' ∈ y) : reads t ≠ [] := by
  rcases h with ⟨hn, rfl⟩ | ⟨x, f, hx, rfl, rfl⟩
  · exact absurd hd hn
  · simp [reads, readsO]

theorem cis_is (p : Ex) : ∀ t, CIs p t → p.Is (undotT t) := by
  induction p with
  | lit ds s => rintro t rfl; rfl
  | frac ip fp s => rintro t rfl; rfl
  | const b => rintro t rfl; rfl
  | var y =>
    intro t h
    exact var_is h
  | neg a iha => rintro t ⟨u, rfl, ha⟩; exact ⟨_, rfl, iha u ha⟩
  | not a iha => rintro t ⟨u, rfl, ha⟩; exact ⟨_, rfl, iha u ha⟩
  | arith o a b iha ihb => rintro t ⟨u, v, rfl, ha, hb⟩; exact ⟨_, _, rfl, iha u ha, ihb v hb⟩
  | rel o a b iha ihb => rintro t ⟨u, v, rfl, ha, hb⟩; exact ⟨_, _, rfl, iha u ha, ihb v hb⟩
  | and a b iha ihb => rintro t ⟨u, v, rfl, ha, hb⟩; exact ⟨_, _, rfl, iha u ha, ihb v hb⟩
  | or a b iha ihb => rintro t ⟨u, v, rfl, ha, hb⟩; exact ⟨_, _, rfl, iha u ha, ihb v hb⟩
  | pick c a b ihc iha ihb => rintro t ⟨w, u, v, rfl, hc, ha, hb⟩; exact ⟨_, _, _, rfl, ihc w hc, iha u ha, ihb v hb⟩
  | fn1 f a iha => rintro t ⟨u, rfl, ha⟩; exact ⟨undotE u, by simp only [undotT, undotO, undotEs], by rw [undot_tree]; exact iha _ ha⟩
  | fn2 f a b iha ihb =>
    rintro t ⟨u, v, rfl, ha, hb⟩
    exact ⟨undotE u, undotE v, by simp only [undotT, undotO, undotEs], by rw [undot_tree]; exact iha _ ha, by rw [undot_tree]; exact ihb _ hb⟩
  | fn3 f a b c iha ihb ihc =>
    rintro t ⟨u, v, w, rfl, ha, hb, hc⟩
    exact ⟨undotE u, undotE v, undotE w, by simp only [undotT, undotO, undotEs], by rw [undot_tree]; exact iha _ ha, by rw [undot_tree]; exact ihb _ hb, by rw [undot_tree]; exact ihc _ hc⟩
  | cmp o a b => rintro t ⟨u, v, rfl, ha, hb⟩; exact ⟨_, _, rfl, str_is a ha, str_is b hb⟩

/-- The columns read are those whose texts occur. -/
theorem mem_reads (p : Ex) : ∀ t, CIs p t → ∀ x f, (x, f) ∈ reads t → '.' ∉ x ∧ dotted x f ∈ names p := by
  induction p with
  | lit ds s => rintro t rfl; simp [reads, readsO]
  | frac ip fp s => rintro t rfl; simp [reads, readsO]
  | const b => rintro t rfl; simp [reads, readsO]
  | var y =>
    intro t h x f hr
    obtain ⟨h1, rfl⟩ := var_reads h hr
    exact ⟨h1, by simp [names]⟩
  | neg a iha => rintro t ⟨u, rfl, ha⟩; exact iha u ha
  | not a iha => rintro t ⟨u, rfl, ha⟩; exact iha u ha
  | arith o a b iha ihb =>
    rintro t ⟨u, v, rfl, ha, hb⟩ x f h
    simp only [reads, List.mem_append] at h
    simp only [names, List.mem_append]
    rcases h with h | h
    · exact ⟨(iha u ha x f h).1, .inl (iha u ha x f h).2⟩
    · exact ⟨(ihb v hb x f h).1, .inr (ihb v hb x f h).2⟩
  | rel o a b iha ihb =>
    rintro t ⟨u, v, rfl, ha, hb⟩ x f h
    simp only [reads, List.mem_append] at h
    simp only [names, List.mem_append]
    rcases h with h | h
    · exact ⟨(iha u ha x f h).1, .inl (iha u ha x f h).2⟩
    · exact ⟨(ihb v hb x f h).1, .inr (ihb v hb x f h).2⟩
  | and a b iha ihb =>
    rintro t ⟨u, v, rfl, ha, hb⟩ x f h
    simp only [reads, List.mem_append] at h
    simp only [names, List.mem_append]
    rcases h with h | h
    · exact ⟨(iha u ha x f h).1, .inl (iha u ha x f h).2⟩
    · exact ⟨(ihb v hb x f h).1, .inr (ihb v hb x f h).2⟩
  | or a b iha ihb =>
    rintro t ⟨u, v, rfl, ha, hb⟩ x f h
    simp only [reads, List.mem_append] at h
    simp only [names, List.mem_append]
    rcases h with h | h
    · exact ⟨(iha u ha x f h).1, .inl (iha u ha x f h).2⟩
    · exact ⟨(ihb v hb x f h).1, .inr (ihb v hb x f h).2⟩
  | pick c a b ihc iha ihb =>
    rintro t ⟨w, u, v, rfl, hc, ha, hb⟩ x f h
    simp only [reads, List.mem_append] at h
    simp only [names, List.mem_append]
    rcases h with (h | h) | h
    · exact ⟨(ihc w hc x f h).1, .inl (.inl (ihc w hc x f h).2)⟩
    · exact ⟨(iha u ha x f h).1, .inl (.inr (iha u ha x f h).2)⟩
    · exact ⟨(ihb v hb x f h).1, .inr (ihb v hb x f h).2⟩
  | fn1 g a iha =>
    rintro t ⟨u, rfl, ha⟩ x f h
    simp only [reads, readsO, readsEs, reads_tree, List.append_nil] at h
    exact iha _ ha x f h
  | fn2 g a b iha ihb =>
    rintro t ⟨u, v, rfl, ha, hb⟩ x f h
    simp only [reads, readsO, readsEs, reads_tree, List.append_nil, List.mem_append] at h
    simp only [names, List.mem_append]
    rcases h with h | h
    · exact ⟨(iha _ ha x f h).1, .inl (iha _ ha x f h).2⟩
    · exact ⟨(ihb _ hb x f h).1, .inr (ihb _ hb x f h).2⟩
  | fn3 g a b c iha ihb ihc =>
    rintro t ⟨u, v, w, rfl, ha, hb, hc⟩ x f h
    simp only [reads, readsO, readsEs, reads_tree, List.append_nil, List.mem_append] at h
    simp only [names, List.mem_append]
    rcases h with h | h | h
    · exact ⟨(iha _ ha x f h).1, .inl (.inl (iha _ ha x f h).2)⟩
    · exact ⟨(ihb _ hb x f h).1, .inl (.inr (ihb _ hb x f h).2)⟩
    · exact ⟨(ihc _ hc x f h).1, .inr (ihc _ hc x f h).2⟩
  | cmp o a b =>
    rintro t ⟨u, v, rfl, ha, hb⟩ x f h
    simp only [reads, List.mem_append] at h
    simp only [names, List.mem_append]
    rcases h with h | h
    · exact ⟨(str_reads ha h).1, .inl (str_reads ha h).2⟩
    · exact ⟨(str_reads hb h).1, .inr (str_reads hb h).2⟩

/-- A vector in an expression whose vectors all have dots is read. -/
theorem reads_ne (Γ : VEnv) (hΓ : ∀ y t, Γ y = some (true, t) → '.' ∈ y) (hS : ∀ y, Γ.str y = some true → '.' ∈ y) (p : Ex) : ∀ t, CIs p t → hasV Γ p = true → reads t ≠ [] := by
  induction p with
  | lit ds s => intro t _ h; cases h
  | frac ip fp s => intro t _ h; cases h
  | const b => intro t _ h; cases h
  | var y =>
    intro t hi h
    rw [hasV] at h
    cases hk : Γ y with
    | none => rw [hk] at h; cases h
    | some k =>
      obtain ⟨b, u⟩ := k
      rw [hk] at h
      simp only [Option.any_some] at h
      subst h
      exact var_dot hi (hΓ y u hk)
  | neg a iha => rintro t ⟨u, rfl, ha⟩ h; exact iha u ha h
  | not a iha => rintro t ⟨u, rfl, ha⟩ h; exact iha u ha h
  | arith o a b iha ihb =>
    rintro t ⟨u, v, rfl, ha, hb⟩ h
    simp only [hasV, Bool.or_eq_true] at h
    rcases h.imp (iha u ha) (ihb v hb) with h | h <;> simp [reads, h]
  | rel o a b iha ihb =>
    rintro t ⟨u, v, rfl, ha, hb⟩ h
    simp only [hasV, Bool.or_eq_true] at h
    rcases h.imp (iha u ha) (ihb v hb) with h | h <;> simp [reads, h]
  | and a b iha ihb =>
    rintro t ⟨u, v, rfl, ha, hb⟩ h
    simp only [hasV, Bool.or_eq_true] at h
    rcases h.imp (iha u ha) (ihb v hb) with h | h <;> simp [reads, h]
  | or a b iha ihb =>
    rintro t ⟨u, v, rfl, ha, hb⟩ h
    simp only [hasV, Bool.or_eq_true] at h
    rcases h.imp (iha u ha) (ihb v hb) with h | h <;> simp [reads, h]
  | pick c a b ihc iha ihb =>
    rintro t ⟨w, u, v, rfl, hc, ha, hb⟩ h
    simp only [hasV, Bool.or_eq_true] at h
    rcases h.imp (Or.imp (ihc w hc) (iha u ha)) (ihb v hb) with (h | h) | h <;> simp [reads, h]
  | fn1 g a iha => rintro t ⟨u, rfl, ha⟩ h; simp only [reads, readsO, readsEs, reads_tree, List.append_nil]; exact iha _ ha h
  | fn2 g a b iha ihb =>
    rintro t ⟨u, v, rfl, ha, hb⟩ h
    simp only [hasV, Bool.or_eq_true] at h
    rcases h.imp (iha _ ha) (ihb _ hb) with h | h <;> simp [reads, readsO, readsEs, reads_tree, h]
  | fn3 g a b c iha ihb ihc =>
    rintro t ⟨u, v, w, rfl, ha, hb, hc⟩ h
    simp only [hasV, Bool.or_eq_true] at h
    rcases h.imp (Or.imp (iha _ ha) (ihb _ hb)) (ihc _ hc) with (h | h) | h <;> simp [reads, readsO, readsEs, reads_tree, h]
  | cmp o a b =>
    rintro t ⟨u, v, rfl, ha, hb⟩ h
    simp only [hasV, Bool.or_eq_true, decide_eq_true_eq] at h
    have key : ∀ (a : Str) u, StrIs a u → a.vec Γ = some true → reads u ≠ [] := by
      intro a u ha h
      cases a with
      | text s => cases h
      | var y => exact var_dot ha (hS y h)
    rcases h.imp (key a u ha) (key b v hb) with h | h <;> simp [reads, h]

/-- Every variable of a well-typed expression has a type. -/
theorem names_typed {Γ : VEnv} {p : Ex} {k : Bool × Ty} (h : Fine Γ p k) : ∀ y ∈ names p, (∃ k, Γ y = some k) ∨ ∃ v, Γ.str y = some v := by
  induction h with
  | lit => simp [names]
  | frac => simp [names]
  | const => simp [names]
  | @var x k hx => intro y hy; simp only [names, List.mem_singleton] at hy; subst hy; exact .inl ⟨k, hx⟩
  | neg _ _ ih => exact ih
  | not _ ih => exact ih
  | arith _ _ _ _ iha ihb => intro y hy; simp only [names, List.mem_append] at hy; exact hy.elim (iha y) (ihb y)
  | rel _ _ _ _ iha ihb => intro y hy; simp only [names, List.mem_append] at hy; exact hy.elim (iha y) (ihb y)
  | fn1 _ _ _ ih => exact ih
  | fn2 _ _ _ _ _ iha ihb => intro y hy; simp only [names, List.mem_append] at hy; exact hy.elim (iha y) (ihb y)
  | fn3 _ _ _ _ _ _ _ iha ihb ihc => intro y hy; simp only [names, List.mem_append] at hy; exact hy.elim (fun h => h.elim (iha y) (ihb y)) (ihc y)
  | and _ _ _ iha ihb => intro y hy; simp only [names, List.mem_append] at hy; exact hy.elim (iha y) (ihb y)
  | or _ _ _ iha ihb => intro y hy; simp only [names, List.mem_append] at hy; exact hy.elim (iha y) (ihb y)
  | pick _ _ _ _ _ _ ihc iha ihb => intro y hy; simp only [names, List.mem_append] at hy; exact hy.elim (fun h => h.elim (ihc y) (iha y)) (ihb y)
  | cmp ha hb _ =>
    intro y hy
    simp only [names, List.mem_append] at hy
    have key : ∀ (a : Str) v, a.vec Γ = some v → y ∈ strNames a → ∃ v, Γ.str y = some v := by
      intro a v h hy
      cases a with
      | text s => simp [strNames] at hy
      | var z => simp only [strNames, List.mem_singleton] at hy; subst hy; exact ⟨v, h⟩
    exact .inr (hy.elim (key _ _ ha) (key _ _ hb))

/-- The value of an expression depends on its variables only. -/
theorem value_congr (fpu : Hw) (Γ : VEnv) {ρ ρ' : Lane} (p : Ex) : (∀ y ∈ names p, ρ y = ρ' y ∧ ρ.str y = ρ'.str y) → valueAt fpu Γ ρ p = valueAt fpu Γ ρ' p := by
  induction p with
  | lit ds s => intro _; rfl
  | frac ip fp s => intro _; rfl
  | const b => intro _; rfl
  | var y => intro h; exact (h y (by simp [names])).1
  | neg a iha => intro h; simp only [valueAt, iha h]
  | not a iha => intro h; simp only [valueAt, iha h]
  | arith o a b iha ihb => intro h; simp only [names, List.mem_append] at h; simp only [valueAt, iha fun y hy => h y (.inl hy), ihb fun y hy => h y (.inr hy)]
  | rel o a b iha ihb => intro h; simp only [names, List.mem_append] at h; simp only [valueAt, iha fun y hy => h y (.inl hy), ihb fun y hy => h y (.inr hy)]
  | and a b iha ihb => intro h; simp only [names, List.mem_append] at h; simp only [valueAt, iha fun y hy => h y (.inl hy), ihb fun y hy => h y (.inr hy)]
  | or a b iha ihb => intro h; simp only [names, List.mem_append] at h; simp only [valueAt, iha fun y hy => h y (.inl hy), ihb fun y hy => h y (.inr hy)]
  | pick c a b ihc iha ihb =>
    intro h
    simp only [names, List.mem_append] at h
    simp only [valueAt, ihc fun y hy => h y (.inl (.inl hy)), iha fun y hy => h y (.inl (.inr hy)), ihb fun y hy => h y (.inr hy)]
  | fn1 f a iha => intro h; simp only [valueAt, iha h]
  | fn2 f a b iha ihb => intro h; simp only [names, List.mem_append] at h; simp only [valueAt, iha fun y hy => h y (.inl hy), ihb fun y hy => h y (.inr hy)]
  | fn3 f a b c iha ihb ihc =>
    intro h
    simp only [names, List.mem_append] at h
    simp only [valueAt, iha fun y hy => h y (.inl (.inl hy)), ihb fun y hy => h y (.inl (.inr hy)), ihc fun y hy => h y (.inr hy)]
  | cmp o a b =>
    intro h
    simp only [names, List.mem_append] at h
    have key : ∀ a : Str, (∀ y ∈ strNames a, ρ.str y = ρ'.str y) → a.value ρ = a.value ρ' := by
      intro a h
      cases a with
      | text s => rfl
      | var y => exact h y (by simp [strNames])
    simp only [valueAt, key a fun y hy => (h y (.inl hy)).2, key b fun y hy => (h y (.inr hy)).2]

theorem vector_congr (fpu : Hw) (n : Nat) {σ σ' : Vars} (hk : kinds σ = kinds σ') (p : Ex) (h : ∀ y ∈ names p, σ y = σ' y) : vectorOf fpu n σ p = vectorOf fpu n σ' p := by
  unfold vectorOf
  rw [hk]
  refine congrArg (fun f => (List.range n).mapM f) (funext fun i => value_congr fpu _ p fun y hy => ?_)
  simp only [lane, h y hy, and_self]

theorem dotted_inj {x y f g : Name} (hx : '.' ∉ x) (hy : '.' ∉ y) (h : dotted x f = dotted y g) : x = y ∧ f = g := by
  unfold dotted at h
  induction x generalizing y with
  | nil =>
    cases y with
    | nil => simpa using h
    | cons c y => simp only [List.nil_append, List.cons_append, List.cons.injEq] at h; exact absurd (h.1 ▸ List.mem_cons_self) hy
  | cons c x ih =>
    cases y with
    | nil => simp only [List.nil_append, List.cons_append, List.cons.injEq] at h; exact absurd (h.1 ▸ List.mem_cons_self) hx
    | cons d y =>
      simp only [List.cons_append, List.cons.injEq] at h
      have := ih (y := y) (fun h => hx (by simp [h])) (fun h => hy (by simp [h])) h.2
      exact ⟨by rw [h.1, this.1], this.2⟩

theorem dot_dotted (x f : Name) : '.' ∈ dotted x f := by simp [dotted]

/-! ## The variables of an argument -/

theorem place_get : ∀ (qs : List (Name × VTy)) (k i : Nat) (q : Name × VTy), (qs.map (·.1)).Nodup → qs[i]? = some q → place k qs q.1 = some (q.2, k + i)
  | [], _, _, _, _, h => by simp at h
  | a :: qs, k, 0, q, _, h => by
    simp only [List.getElem?_cons_zero, Option.some.injEq] at h
    subst h
    simp [place]
  | a :: qs, k, i + 1, q, hd, h => by
    simp only [List.getElem?_cons_succ] at h
    simp only [List.map_cons, List.nodup_cons] at hd
    have hne : q.1 ≠ a.1 := fun e => hd.1 (e ▸ List.mem_map_of_mem (List.mem_of_getElem? h))
    rw [place, if_neg hne, place_get qs (k + 1) i q hd.2 h]
    congr 2; omega

theorem place_some : ∀ (qs : List (Name × VTy)) (k : Nat) (x : Name) (r : VTy × Nat), place k qs x = some r → ∃ i q, qs[i]? = some q ∧ q.1 = x ∧ r = (q.2, k + i)
  | [], _, _, _, h => by simp [place] at h
  | a :: qs, k, x, r, h => by
    rw [place] at h
    split at h
    · next e => simp only [Option.some.injEq] at h; exact ⟨0, a, rfl, e.symm, by rw [← h]; simp⟩
    · obtain ⟨i, q, h1, h2, h3⟩ := place_some qs (k + 1) x r h
      exact ⟨i + 1, q, by simpa using h1, h2, by rw [h3]; congr 1; omega⟩

theorem lookup_get {α : Type} : ∀ (qs : List (Name × α)) (x : Name) (a : α), qs.lookup x = some a → ∃ i : Nat, qs[i]? = some (x, a)
  | [], _, _, h => by simp at h
  | q :: qs, x, a, h => by
    rw [List.lookup_cons] at h
    split at h
    · next e =>
      simp only [Option.some.injEq] at h
      exact ⟨0, by simp only [List.getElem?_cons_zero]; rw [← h, beq_iff_eq.1 e]⟩
    · obtain ⟨i, hi⟩ := lookup_get qs x a h
      exact ⟨i + 1, by simpa using hi⟩

theorem lookup_none {α : Type} (qs : List (Name × α)) (x : Name) : qs.lookup x = none ↔ x ∉ qs.map (·.1) := by
  induction qs with
  | nil => simp
  | cons q qs ih =>
    rw [List.lookup_cons]
    split
    · next e => simp [beq_iff_eq.1 e]
    · next e =>
      rw [ih, List.map_cons, List.mem_cons, not_or]
      exact ⟨fun h => ⟨fun e' => by simp [e'] at e, h⟩, fun h => h.2⟩

theorem lookup_of_get {α : Type} (qs : List (Name × α)) (hd : (qs.map (·.1)).Nodup) {i : Nat} {q : Name × α} (h : qs[i]? = some q) : qs.lookup q.1 = some q.2 := by
  induction qs generalizing i with
  | nil => simp at h
  | cons a qs ih =>
    simp only [List.map_cons, List.nodup_cons] at hd
    cases i with
    | zero =>
      simp only [List.getElem?_cons_zero, Option.some.injEq] at h
      subst h
      rw [List.lookup_cons, beq_self_eq_true]
    | succ i =>
      simp only [List.getElem?_cons_succ] at h
      have hne : q.1 ≠ a.1 := fun e => hd.1 (e ▸ List.mem_map_of_mem (List.mem_of_getElem? h))
      rw [List.lookup_cons, beq_eq_false_iff_ne.2 hne]
      exact ih hd.2 h

/-- What a cell holds. -/
def CellIs (hw : Hw) (n : Nat) : VecFn.Item → Cell → Prop
  | .num t v, c => v.Has t ∧ c = .num v.enc
  | .vec t l, c => l.length = n ∧ (∀ v ∈ l, v.Has t) ∧ ∃ b, c = .vec b ∧ BufOk n t l b
  | .str b, c => ∃ z, hw.Shows z b ∧ c = .num (.word z)
  | .strs l, c => l.length = n ∧ ∃ b, c = .vec b ∧ VecFn.StrBuf hw n l b

def typeOf : VecFn.Item → VTy
  | .num t _ => (false, t.p)
  | .vec t _ => (true, t.p)
  | .str _ => (false, .other)
  | .strs _ => (true, .other)

/-- Variables and cells in the same order. -/
theorem match_list (hw : Hw) (n : Nat) (is : List (Name × VecFn.Item)) (hd : (is.map (·.1)).Nodup) (cells : List Cell) (h : ∀ (i : Nat) (q : Name × VecFn.Item), is[i]? = some q → ∃ c, cells[i]? = some c ∧ CellIs hw n q.2 c) (cs : List Name) :
    Match hw n (fun y => is.lookup y) ⟨place 0 (is.map fun q => (q.1, typeOf q.2)), cells, cs⟩ := by
  have hd' : ((is.map fun q => (q.1, typeOf q.2)).map (·.1)).Nodup := by simpa [Function.comp_def] using hd
  refine ⟨fun x it hx => ?_, fun x hx => ?_, fun x y q r s hx hy => ?_⟩
  · obtain ⟨i, hi⟩ := lookup_get is x it hx
    obtain ⟨c, h1, h2⟩ := h i _ hi
    have hp := place_get (is.map fun q => (q.1, typeOf q.2)) 0 i (x, typeOf it) hd' (by simp [hi])
    rw [Nat.zero_add] at hp
    cases it with
    | num t v => obtain ⟨h3, rfl⟩ := h2; exact ⟨h3, i, hp, h1⟩
    | vec t l => obtain ⟨h3, h4, b, rfl, h5⟩ := h2; exact ⟨h3, h4, i, b, hp, h1, h5⟩
    | str b => obtain ⟨z, h3, rfl⟩ := h2; exact ⟨z, i, h3, hp, h1⟩
    | strs l => obtain ⟨h3, b, rfl, h5⟩ := h2; exact ⟨h3, i, b, hp, h1, h5⟩
  · have hx := (lookup_none _ _).1 hx
    cases hp : place 0 (is.map fun q => (q.1, typeOf q.2)) x with
    | none => exact hp
    | some r =>
      obtain ⟨i, q, h1, h2, _⟩ := place_some _ _ _ _ hp
      have := List.mem_of_getElem? h1
      rw [List.mem_map] at this
      obtain ⟨q', h3, rfl⟩ := this
      exact absurd (List.mem_map_of_mem (f := (·.1)) h3) (h2 ▸ hx)
  · obtain ⟨i, a, h1, h2, h3⟩ := place_some _ _ _ _ hx
    obtain ⟨j, b, h4, h5, h6⟩ := place_some _ _ _ _ hy
    simp only [Prod.mk.injEq] at h3 h6
    have : i = j := by omega
    subst this
    rw [h1] at h4
    injection h4 with h4
    rw [← h2, ← h5, h4]

/-! ## Rows -/

section
variable {P : Type}

theorem rows_length (t : Tbl.Table P) : (rowsOf t).length = Tbl.count t := by simp [rowsOf]

theorem rows_get (t : Tbl.Table P) {i : Nat} (h : i < Tbl.count t) : (rowsOf t)[i]? = some ((Tbl.row t i).filterMap id) := by
  simp [rowsOf, h, Tbl.row, List.filterMap_map, Function.comp_def]

theorem rows_pick (t : Tbl.Table P) (ha : Tbl.Aligned t) (hne : t ≠ []) (idx : List Nat) (h : ∀ i ∈ idx, i < Tbl.count t) : rowsOf (Tbl.pick t idx) = idx.filterMap fun i => (rowsOf t)[i]? := by
  have h' : ∀ i ∈ idx, i < (rowsOf t).length := fun i hi => by rw [rows_length]; exact h i hi
  have hc : Tbl.count (Tbl.pick t idx) = idx.length := (Tbl.pick_aligned t ha idx h hne).2
  refine List.ext_getElem? fun j => ?_
  rw [Tbl.filterMap_all _ idx h' j]
  by_cases hj : j < idx.length
  · rw [rows_get _ (by rw [hc]; exact hj), Tbl.pick_row t ha idx h j hj, List.getElem?_eq_getElem hj]
    simp only [Option.bind_some]
    rw [rows_get t (h _ (List.getElem_mem hj))]
  · rw [List.getElem?_eq_none (by rw [rows_length, hc]; omega), List.getElem?_eq_none (by omega)]; rfl

theorem find_group : ∀ (t : Tbl.Table P) (k m g : Nat), t.map (·.schema) = List.range' k m → g < m → ∃ G, t[g]? = some G ∧ (t.find? fun G => decide (G.schema = k + g)) = some G ∧ G ∈ t
  | [], k, m, g, h, hg => by
    have := congrArg List.length h
    simp at this
    omega
  | G :: t, k, m, g, h, hg => by
    cases m with
    | zero => omega
    | succ m =>
      rw [List.range'_succ, List.map_cons, List.cons.injEq] at h
      cases g with
      | zero => exact ⟨G, rfl, by simp [h.1], by simp⟩
      | succ g =>
        obtain ⟨G', h1, h2, h3⟩ := find_group t (k + 1) m g h.2 (by omega)
        refine ⟨G', by simpa using h1, ?_, by simp [h3]⟩
        rw [List.find?_cons_of_neg (by simp; omega)]
        rw [← h2]
        congr 1
        funext G
        congr 2
        omega

/-- A table with the objects of the schema. -/
structure Shape (S : Schema P) (t : Tbl.Table P) : Prop where
  aligned : Tbl.Aligned t
  schemas : t.map (·.schema) = List.range S.groups

theorem Shape.ne {S : Schema P} {hw : Hw} (hS : S.Ok hw) {t : Tbl.Table P} (h : Shape S t) : t ≠ [] := by
  rintro rfl
  have := congrArg List.length h.schemas
  have := hS.some
  simp at *
  omega

theorem shape_pick {S : Schema P} {hw : Hw} (hS : S.Ok hw) {t : Tbl.Table P} (h : Shape S t) (idx : List Nat) (hi : ∀ i ∈ idx, i < Tbl.count t) : Shape S (Tbl.pick t idx) :=
  ⟨(Tbl.pick_aligned t h.aligned idx hi (h.ne hS)).1, by rw [← h.schemas]; simp [Tbl.pick, Function.comp_def]⟩

theorem filterMap_same {α β : Type} (l : List α) (f g : α → Option β) (h : ∀ a ∈ l, f a = g a) : l.filterMap f = l.filterMap g := by
  induction l with
  | nil => rfl
  | cons a l ih => rw [List.filterMap_cons, List.filterMap_cons, h a (by simp), ih fun a ha => h a (by simp [ha])]

/-- The values of a column. -/
theorem column_values {S : Schema P} {t : Tbl.Table P} (h : Shape S t) {c : Col P} (hc : c.group < S.groups) :
    ∃ G, (t.find? fun G => decide (G.schema = c.group)) = some G ∧ (∀ {β : Type} (f : P → β), ((rowsOf t).filterMap fun r => (r[c.group]?).map f) = G.objs.map f) ∧ G.objs.length = Tbl.count t := by
  obtain ⟨G, h1, h2, h3⟩ := find_group t 0 S.groups c.group (by rw [h.schemas, List.range_eq_range']) hc
  rw [Nat.zero_add] at h2
  refine ⟨G, h2, fun {β} f => ?_, h.aligned G h3⟩
  have hl := h.aligned G h3
  have : ∀ i ∈ List.range (Tbl.count t), ((t.filterMap fun g => g.objs[i]?)[c.group]?).map f = (G.objs[i]?).map f := by
    intro i hi
    have hi := List.mem_range.1 hi
    have e : (t.filterMap fun g => g.objs[i]?)[c.group]? = G.objs[i]? := by
      have : ∀ (t : Tbl.Table P) (k : Nat), (∀ g ∈ t, i < g.objs.length) → (t.filterMap fun g => g.objs[i]?)[k]? = (t[k]?).bind fun g => g.objs[i]? := by
        intro t
        induction t with
        | nil => intro k _; simp
        | cons g t ih =>
          intro k hg
          rw [List.filterMap_cons, List.getElem?_eq_getElem (hg g (by simp))]
          cases k with
          | zero => simp [hg g (by simp)]
          | succ k => simp only [List.getElem?_cons_succ]; exact ih k fun g h => hg g (by simp [h])
      rw [this t c.group fun g hg => by rw [h.aligned g hg]; exact hi, h1]; rfl
    rw [e]
  unfold rowsOf
  rw [List.filterMap_map]
  refine List.ext_getElem? fun j => ?_
  have e2 : (List.range (Tbl.count t)).filterMap ((fun r : Row P => (r[c.group]?).map f) ∘ fun i => t.filterMap fun g => g.objs[i]?) = (List.range (Tbl.count t)).filterMap fun i => (G.objs.map f)[i]? := by
    refine filterMap_same _ _ _ fun i hi => ?_
    rw [Function.comp_apply, this i hi, List.getElem?_map]
  rw [e2, Tbl.filterMap_all _ _ (fun i hi => by rw [List.length_map, hl]; exact List.mem_range.1 hi)]
  by_cases hj : j < Tbl.count t
  · rw [List.getElem?_range hj]; rfl
  · rw [List.getElem?_eq_none (by simpa using hj), List.getElem?_eq_none (by simpa [hl] using hj)]; rfl

/-! ## Calls on the rows -/

theorem keep_zip (f : Nat → Bool) : ∀ (rows : List (Row P)) (l : List Val) (s : Nat), l.length = rows.length → (∀ i, i < rows.length → f (s + i) = decide (l[i]? = some (.bool true))) →
    ((rows.zipIdx s).filter fun p => f p.2).map (·.1) = keep rows l
  | [], l, s, _, _ => by simp [keep]
  | r :: rows, [], s, h, _ => by simp at h
  | r :: rows, v :: l, s, h, hf => by
    have ih := keep_zip f rows l (s + 1) (by simpa using h) fun i hi => by
      have := hf (i + 1) (by simp; omega)
      rw [List.getElem?_cons_succ] at this
      rw [← this]; congr 1; omega
    have h0 := hf 0 (by simp)
    simp only [Nat.add_zero, List.getElem?_cons_zero, Option.some.injEq] at h0
    unfold keep at ih ⊢
    rw [List.zipIdx_cons, List.zip_cons_cons, List.filter_cons, List.filter_cons]
    simp only [h0]
    split
    · simp only [List.map_cons, ih]
    · exact ih

theorem keep_selected (f : Nat → Bool) (rows : List (Row P)) (l : List Val) (h : l.length = rows.length) (hf : ∀ i, i < rows.length → f i = decide (l[i]? = some (.bool true))) :
    (Tbl.selected f rows.length).filterMap (fun i => rows[i]?) = keep rows l := by
  rw [← Tbl.filterSpec_selected]
  exact keep_zip f rows l 0 h fun i hi => by rw [Nat.zero_add]; exact hf i hi

theorem range_get {α : Type} (l : List α) : (List.range l.length).filterMap (fun i => l[i]?) = l := by
  refine List.ext_getElem? fun j => ?_
  rw [Tbl.filterMap_all l _ fun i hi => List.mem_range.1 hi]
  by_cases hj : j < l.length
  · rw [List.getElem?_range hj]; rfl
  · rw [List.getElem?_eq_none (by simpa using hj), List.getElem?_eq_none (by omega)]; rfl

/-- Keys and rows rearranged alike. -/
theorem zip_perm {α β : Type} (l : List α) (rows : List β) (h : l.length = rows.length) (σ : List Nat) (hσ : σ.Perm (List.range l.length)) :
    (σ.filterMap fun i => (l.zip rows)[i]?).Perm (l.zip rows) := by
  have := hσ.filterMap fun i => (l.zip rows)[i]?
  have e : l.length = (l.zip rows).length := by simp [h]
  rw [e, range_get] at this
  exact this

theorem zip_parts {α β : Type} (l : List α) (rows : List β) (h : l.length = rows.length) (σ : List Nat) (hσ : ∀ i ∈ σ, i < l.length) :
    (σ.filterMap fun i => (l.zip rows)[i]?).map (·.1) = σ.filterMap (fun i => l[i]?) ∧ (σ.filterMap fun i => (l.zip rows)[i]?).map (·.2) = σ.filterMap (fun i => rows[i]?) := by
  have : ∀ i ∈ σ, ∃ a b, l[i]? = some a ∧ rows[i]? = some b ∧ (l.zip rows)[i]? = some (a, b) := by
    intro i hi
    have h1 := hσ i hi
    exact ⟨l[i], rows[i], List.getElem?_eq_getElem h1, List.getElem?_eq_getElem (by omega), by rw [List.getElem?_eq_getElem (by simp; omega)]; simp⟩
  clear hσ
  induction σ with
  | nil => simp
  | cons i σ ih =>
    obtain ⟨a, b, h1, h2, h3⟩ := this i (by simp)
    obtain ⟨i1, i2⟩ := ih fun i hi => this i (by simp [hi])
    simp only [List.filterMap_cons, h1, h2, h3, List.map_cons, i1, i2, and_self]

theorem ordered_of {desc : Bool} {l : List Val} {rows : List (Row P)} (h : l.length = rows.length) {σ : List Nat} (hσ : σ.Perm (List.range l.length))
    (hp : (∀ v ∈ l, leq v v) → (σ.filterMap fun i => l[i]?).Pairwise (before desc)) : Ordered desc l rows (σ.filterMap fun i => rows[i]?) := by
  have hlt : ∀ i ∈ σ, i < l.length := fun i hi => List.mem_range.1 (hσ.mem_iff.1 hi)
  obtain ⟨h1, h2⟩ := zip_parts l rows h σ hlt
  refine ⟨_, zip_perm l rows h σ hσ, fun hv => ?_, h2.symm⟩
  have := hp hv
  rw [← h1, List.pairwise_map] at this
  exact this

theorem first_of {desc : Bool} {l : List Val} {rows : List (Row P)} (h : l.length = rows.length) {σ : List Nat} (hσ : σ.Perm (List.range l.length)) (k : Nat)
    (hp : (∀ v ∈ l, leq v v) → ((σ.take (min k rows.length)).filterMap fun i => l[i]?).Pairwise (before desc) ∧
      ∀ v ∈ (σ.take (min k rows.length)).filterMap (fun i => l[i]?), ∀ w ∈ (σ.drop (min k rows.length)).filterMap (fun i => l[i]?), before desc v w) :
    First desc k l rows ((σ.take (min k rows.length)).filterMap fun i => rows[i]?) := by
  have hlt : ∀ i ∈ σ, i < l.length := fun i hi => List.mem_range.1 (hσ.mem_iff.1 hi)
  obtain ⟨h1, h2⟩ := zip_parts l rows h (σ.take (min k rows.length)) fun i hi => hlt i (List.mem_of_mem_take hi)
  obtain ⟨h3, _⟩ := zip_parts l rows h (σ.drop (min k rows.length)) fun i hi => hlt i (List.mem_of_mem_drop hi)
  have hlen : σ.length = rows.length := by rw [hσ.length_eq, List.length_range, h]
  refine ⟨(σ.take (min k rows.length)).filterMap fun i => (l.zip rows)[i]?, (σ.drop (min k rows.length)).filterMap fun i => (l.zip rows)[i]?, ?_, ?_, fun hv => ?_, h2.symm⟩
  · rw [← List.filterMap_append, List.take_append_drop]; exact zip_perm l rows h σ hσ
  · rw [Tbl.filterMap_length _ _ fun i hi => by
      have := hlt i (List.mem_of_mem_take hi); simp; omega]
    rw [List.length_take]; omega
  · obtain ⟨h4, h5⟩ := hp hv
    rw [← h1, List.pairwise_map] at h4
    refine ⟨h4, fun p hp q hq => h5 p.1 ?_ q.1 ?_⟩
    · rw [← h1]; exact List.mem_map_of_mem hp
    · rw [← h3]; exact List.mem_map_of_mem hq

theorem rows_concat {S : Schema P} {hw : Hw} (hS : S.Ok hw) {t u : Tbl.Table P} (ht : Shape S t) (hu : Shape S u) : ∃ r, Tbl.doConcat true t u = some r ∧ Shape S r ∧ rowsOf r = rowsOf t ++ rowsOf u := by
  obtain ⟨r, h1, h2, h3, h4⟩ := Tbl.concat_rows t u ht.aligned hu.aligned (ht.schemas.trans hu.schemas.symm) (by rw [ht.schemas]; exact List.nodup_range)
  obtain ⟨h5, h6⟩ := h2 (ht.ne hS)
  have h7 : r.map (·.schema) = t.map (·.schema) := by
    simp only [Tbl.doConcat] at h1
    cases h1
    rw [List.map_map]
    refine List.map_congr_left fun g _ => ?_
    have : ∀ (g : Tbl.Group P) (u : Tbl.Table P), (Tbl.appendFirst g u).schema = g.schema := by
      intro g u
      induction u with
      | nil => rfl
      | cons h u ih => unfold Tbl.appendFirst; split <;> simp_all
    exact this g u
  refine ⟨r, h1, ⟨h5, h7.trans ht.schemas⟩, ?_⟩
  refine List.ext_getElem? fun j => ?_
  by_cases hj : j < Tbl.count t
  · rw [rows_get r (by omega), h3 j hj, List.getElem?_append_left (by rw [rows_length]; exact hj), rows_get t hj]
  · rw [List.getElem?_append_right (by rw [rows_length]; omega), rows_length]
    by_cases hj2 : j - Tbl.count t < Tbl.count u
    · rw [rows_get r (by omega), rows_get u hj2, ← h4 (j - Tbl.count t)]
      congr 3; omega
    · rw [List.getElem?_eq_none (by rw [rows_length]; omega), List.getElem?_eq_none (by rw [rows_length]; omega)]

theorem rows_head {S : Schema P} {hw : Hw} (hS : S.Ok hw) {t : Tbl.Table P} (ht : Shape S t) (k : Nat) : Shape S (Tbl.head t k) ∧ rowsOf (Tbl.head t k) = (rowsOf t).take k := by
  have hi : ∀ i ∈ List.range (min k (Tbl.count t)), i < Tbl.count t := fun i hi => by have := List.mem_range.1 hi; omega
  rw [Tbl.head_rows t ht.aligned k]
  refine ⟨shape_pick hS ht _ hi, ?_⟩
  rw [rows_pick t ht.aligned (ht.ne hS) _ hi, ← rows_length, ← Tbl.take_pick]

theorem rows_tail {S : Schema P} {hw : Hw} (hS : S.Ok hw) {t : Tbl.Table P} (ht : Shape S t) (k : Nat) (hk : 0 < k) :
    Shape S (Tbl.tail t k) ∧ rowsOf (Tbl.tail t k) = (rowsOf t).drop ((rowsOf t).length - k) := by
  have hi : ∀ i ∈ List.range' (Tbl.count t - min k (Tbl.count t)) (min k (Tbl.count t)), i < Tbl.count t := fun i hi => by have := List.mem_range'_1.1 hi; omega
  rw [Tbl.tail_rows_partial t ht.aligned k hk]
  refine ⟨shape_pick hS ht _ hi, ?_⟩
  rw [rows_pick t ht.aligned (ht.ne hS) _ hi, ← rows_length, ← Tbl.drop_pick _ _ _ (by omega), List.take_of_length_le (by rw [List.length_drop]; omega)]
  congr 1; omega

end

/-! ## Masks -/

theorem pack_get : ∀ (b0 b1 b2 b3 b4 b5 b6 b7 : Bool), (packByte b0 b1 b2 b3 b4 b5 b6 b7).getLsbD 0 = b0 ∧ (packByte b0 b1 b2 b3 b4 b5 b6 b7).getLsbD 1 = b1 ∧
    (packByte b0 b1 b2 b3 b4 b5 b6 b7).getLsbD 2 = b2 ∧ (packByte b0 b1 b2 b3 b4 b5 b6 b7).getLsbD 3 = b3 ∧ (packByte b0 b1 b2 b3 b4 b5 b6 b7).getLsbD 4 = b4 ∧
    (packByte b0 b1 b2 b3 b4 b5 b6 b7).getLsbD 5 = b5 ∧ (packByte b0 b1 b2 b3 b4 b5 b6 b7).getLsbD 6 = b6 ∧ (packByte b0 b1 b2 b3 b4 b5 b6 b7).getLsbD 7 = b7 := by
  decide +kernel

theorem maskByte_ok {m : List MV} {j : Nat} {f : Nat → Bool} (h : ∀ i, i < 8 → m[8 * j + i]? = some (Val.bool (f (8 * j + i))).enc) :
    ∃ b, maskByte m j = some b ∧ ∀ i, i < 8 → b.getLsbD i = f (8 * j + i) := by
  have e : ∀ c : Bool, laneBit (some (Val.bool c).enc) = some c := by intro c; cases c <;> rfl
  have h0 := h 0 (by omega)
  rw [Nat.add_zero] at h0
  refine ⟨_, by
    unfold maskByte
    rw [h0, h 1 (by omega), h 2 (by omega), h 3 (by omega), h 4 (by omega), h 5 (by omega), h 6 (by omega), h 7 (by omega)]
    simp only [e]
    rfl, ?_⟩
  obtain ⟨p0, p1, p2, p3, p4, p5, p6, p7⟩ := pack_get (f (8 * j)) (f (8 * j + 1)) (f (8 * j + 2)) (f (8 * j + 3)) (f (8 * j + 4)) (f (8 * j + 5)) (f (8 * j + 6)) (f (8 * j + 7))
  intro i hi
  match i, hi with
  | 0, _ => exact p0
  | 1, _ => exact p1
  | 2, _ => exact p2
  | 3, _ => exact p3
  | 4, _ => exact p4
  | 5, _ => exact p5
  | 6, _ => exact p6
  | 7, _ => exact p7

theorem mask_ok {n : Nat} {l : List Val} {b : Vec.Buf MV} (hl : l.length = n) (ht : ∀ v ∈ l, v.Has .bool) (h : BufOk n .bool l b) :
    ∃ bits, maskBytes b = some bits ∧ (n + 7) / 8 ≤ bits.length ∧ ∀ i, i < n → Simd.bitAt bits i = decide (l[i]? = some (.bool true)) := by
  obtain ⟨h1, h2, h3, h4⟩ := h
  have key : ∀ i, ∃ c : Bool, i < Vec.up64 n → b.mem[i]? = some (Val.bool c).enc := by
    intro i
    by_cases hi : i < n
    · obtain ⟨c, hc⟩ := has_bool (ht _ (List.getElem_mem (show i < l.length by omega)))
      exact ⟨c, fun _ => by rw [h3 i hi, List.getElem?_eq_getElem (by omega), hc]; rfl⟩
    · by_cases hi2 : i < Vec.up64 n
      · obtain ⟨c, hc⟩ := h4 rfl i (by omega) hi2
        exact ⟨c, fun _ => hc⟩
      · exact ⟨false, fun h => absurd h hi2⟩
  obtain ⟨f, hf⟩ := Classical.skolem.1 key
  have hb : ∀ j, ∃ y : Byte, j < (n + 7) / 8 → maskByte b.mem j = some y ∧ ∀ i, i < 8 → y.getLsbD i = f (8 * j + i) := by
    intro j
    by_cases hj : j < (n + 7) / 8
    · obtain ⟨y, hy⟩ := maskByte_ok (m := b.mem) (j := j) (f := f) fun i hi => hf _ (by unfold Vec.up64; omega)
      exact ⟨y, fun _ => hy⟩
    · exact ⟨0, fun h => absurd h hj⟩
  obtain ⟨g, hg⟩ := Classical.skolem.1 hb
  have hm : maskBytes b = some ((List.range ((n + 7) / 8)).map g) := by
    unfold maskBytes
    rw [h1]
    have : ∀ js : List Nat, (∀ j ∈ js, j < (n + 7) / 8) → js.mapM (maskByte b.mem) = some (js.map g) := by
      intro js
      induction js with
      | nil => intro _; rfl
      | cons j js ih =>
        intro hj
        rw [List.mapM_cons, (hg j (hj j (by simp))).1, ih fun j h => hj j (by simp [h])]
        rfl
    exact this _ fun j hj => List.mem_range.1 hj
  refine ⟨_, hm, by simp, fun i hi => ?_⟩
  have hj : i / 8 < (n + 7) / 8 := by omega
  unfold Simd.bitAt
  rw [List.getElem?_map, List.getElem?_range hj]
  show (g (i / 8)).getLsbD (i % 8) = _
  rw [(hg _ hj).2 _ (by omega), Nat.div_add_mod]
  have h5 := hf i (by unfold Vec.up64; omega)
  obtain ⟨c, hc⟩ := has_bool (ht _ (List.getElem_mem (show i < l.length by omega)))
  rw [h3 i hi, List.getElem?_eq_getElem (by omega), hc] at h5
  rw [List.getElem?_eq_getElem (by omega), hc]
  cases c <;> cases hfi : f i <;> simp [hfi, Val.enc] at h5 ⊢

end Verif.Comp.TableFn
