import Verif.Comp.VecFn
import Verif.Comp.RealValues
import Verif.Comp.WordsLemmas
import Verif.Comp.VecPipeProps
/-!
# Lemmas for `Verif.Comp.VecFn`: from the tree of an expression to its lanes
-/
namespace Verif.Comp.VecFn
open Verif.Ast hiding Ty
open Verif.Ast.Rpn Verif.Gen
open Verif.Types.Conv (IntTy)
open Verif.Gen.Scalar (Name)
open Verif.Comp.Pipeline (Arith Rel decimal bit pat)
open Verif.Comp.Real hiding Ex
open Verif.Comp.Words (relStr cmpOf)
open Verif.Comp.StrLit (bytes)
open Verif.Types.Str (Byte SV)
open Verif.Comp.VecPipe (treeFlat flat_tree)

/-! ## Expressions with a type, by rules -/

inductive Fine (Γ : VEnv) : Ex → Bool × Ty → Prop
  | lit {ds s t} (h : (Real.Ex.lit ds s).type (fun _ => none) = some t) : Fine Γ (.lit ds s) (false, t)
  | frac {ip fp s t} (h : (Real.Ex.frac ip fp s).type (fun _ => none) = some t) : Fine Γ (.frac ip fp s) (false, t)
  | const {b} : Fine Γ (.const b) (false, .bool)
  | var {x k} (h : Γ x = some k) : Fine Γ (.var x) k
  | neg {a k} (ha : Fine Γ a k) (h : signed k.2 = true) : Fine Γ (.neg a) k
  | not {a f} (ha : Fine Γ a (f, .bool)) : Fine Γ (.not a) (f, .bool)
  | arith {o a b k l m} (ha : Fine Γ a k) (hb : Fine Γ b l) (h : together k l (single Γ a) (single Γ b) = some m) (hm : m.2 ≠ .bool) : Fine Γ (.arith o a b) m
  | rel {o a b k l m} (ha : Fine Γ a k) (hb : Fine Γ b l) (h : together k l (single Γ a) (single Γ b) = some m) (hm : m.2 ≠ .bool) : Fine Γ (.rel o a b) (false, .bool)
  | and {a b f g} (ha : Fine Γ a (f, .bool)) (hb : Fine Γ b (g, .bool)) (h : hasV Γ a = hasV Γ b) : Fine Γ (.and a b) (f || g, .bool)
  | or {a b f g} (ha : Fine Γ a (f, .bool)) (hb : Fine Γ b (g, .bool)) (h : hasV Γ a = hasV Γ b) : Fine Γ (.or a b) (f || g, .bool)
  | fn1 {f a k} (ha : Fine Γ a k) (h : takes1 f k.2 = true) (h1 : hasV Γ a = true ∨ f = .abs ∧ f.for k.2 = true) : Fine Γ (.fn1 f a) k
  | fn2 {f a b k l m} (ha : Fine Γ a k) (hb : Fine Γ b l) (h : together k l (single Γ a) (single Γ b) = some m) (hm : takes2 f m.2 = true) (h1 : hasV Γ a = true ∨ free2 f = true) : Fine Γ (.fn2 f a b) m
  | fn3 {f a b c k l j m q} (ha : Fine Γ a k) (hb : Fine Γ b l) (hc : Fine Γ c j) (h : together k l false (single Γ b) = some m) (h2 : together m j false (single Γ c) = some q)
      (hq : takes3 q.2 = true) (h1 : hasV Γ a = true) : Fine Γ (.fn3 f a b c) q
  | pick {c a b f k l m} (hc : Fine Γ c (f, .bool)) (ha : Fine Γ a k) (hb : Fine Γ b l) (h : together k l (single Γ a) (single Γ b) = some m)
      (h1 : hasV Γ c = true ∨ hasV Γ a = hasV Γ b) (h2 : k.2 = .bool → hasV Γ c = false ∨ hasV Γ a = true ∨ hasV Γ b = true) : Fine Γ (.pick c a b) m
  | cmp {o a b v w} (ha : a.vec Γ = some v) (hb : b.vec Γ = some w) (h : v = true ∨ w = true) : Fine Γ (.cmp o a b) (false, .bool)

theorem fine_of (Γ : VEnv) (p : Ex) : ∀ k, elemOf Γ p = some k → Fine Γ p k := by
  induction p with
  | lit ds s => intro k h; rw [elemOf, Option.map_eq_some_iff] at h; obtain ⟨t, h, rfl⟩ := h; exact .lit h
  | frac ip fp s => intro k h; rw [elemOf, Option.map_eq_some_iff] at h; obtain ⟨t, h, rfl⟩ := h; exact .frac h
  | const b => intro k h; rw [elemOf, Option.some.injEq] at h; subst h; exact .const
  | var x => intro k h; exact .var h
  | neg a ih =>
    intro k h; rw [elemOf, Option.bind_eq_some_iff] at h; obtain ⟨l, h, h2⟩ := h
    split at h2
    · next hs => injection h2 with h2; subst h2; exact .neg (ih _ h) hs
    · cases h2
  | not a ih =>
    intro k h; rw [elemOf, Option.bind_eq_some_iff] at h; obtain ⟨l, h, h2⟩ := h
    split at h2
    · next hs => injection h2 with h2; subst h2; obtain ⟨f, u⟩ := l; simp only at hs; subst hs; exact .not (ih _ h)
    · cases h2
  | arith o a b iha ihb =>
    intro k h; simp only [elemOf, Option.bind_eq_some_iff] at h; obtain ⟨l, hl, m, hm, q, hq, h⟩ := h
    split at h
    · cases h
    · next hn => injection h with h; subst h; exact .arith (iha _ hl) (ihb _ hm) hq hn
  | rel o a b iha ihb =>
    intro k h; simp only [elemOf, Option.bind_eq_some_iff] at h; obtain ⟨l, hl, m, hm, q, hq, h⟩ := h
    split at h
    · cases h
    · next hn => injection h with h; subst h; exact .rel (iha _ hl) (ihb _ hm) hq hn
  | and a b iha ihb =>
    intro k h; simp only [elemOf, Option.bind_eq_some_iff] at h; obtain ⟨⟨f, u⟩, hl, ⟨g, v⟩, hm, h⟩ := h
    split at h
    · next hs => injection h with h; subst h; obtain ⟨h1, h2, h3⟩ := hs; simp only at h1 h2; subst h1 h2; exact .and (iha _ hl) (ihb _ hm) h3
    · cases h
  | or a b iha ihb =>
    intro k h; simp only [elemOf, Option.bind_eq_some_iff] at h; obtain ⟨⟨f, u⟩, hl, ⟨g, v⟩, hm, h⟩ := h
    split at h
    · next hs => injection h with h; subst h; obtain ⟨h1, h2, h3⟩ := hs; simp only at h1 h2; subst h1 h2; exact .or (iha _ hl) (ihb _ hm) h3
    · cases h
  | pick c a b ihc iha ihb =>
    intro k h; simp only [elemOf, Option.bind_eq_some_iff] at h; obtain ⟨⟨f, u⟩, hj, l, hl, m, hm, h⟩ := h
    split at h
    · next hs => obtain ⟨h1, h2, h3⟩ := hs; simp only at h1; subst h1; exact .pick (ihc _ hj) (iha _ hl) (ihb _ hm) h h2 h3
    · cases h
  | fn1 f a ih =>
    intro k h; rw [elemOf, Option.bind_eq_some_iff] at h; obtain ⟨l, h, h2⟩ := h
    split at h2
    · next hs => injection h2 with h2; subst h2; exact .fn1 (ih _ h) hs.1 hs.2
    · cases h2
  | fn2 f a b iha ihb =>
    intro k h; simp only [elemOf, Option.bind_eq_some_iff] at h; obtain ⟨l, hl, m, hm, q, hq, h⟩ := h
    split at h
    · next hs => injection h with h; subst h; exact .fn2 (iha _ hl) (ihb _ hm) hq hs.1 hs.2
    · cases h
  | fn3 f a b c iha ihb ihc =>
    intro k h; simp only [elemOf, Option.bind_eq_some_iff] at h; obtain ⟨l, hl, m, hm, j, hj, q, hq, r, hr, h⟩ := h
    split at h
    · next hs => injection h with h; subst h; exact .fn3 (iha _ hl) (ihb _ hm) (ihc _ hj) hq hr hs.1 hs.2
    · cases h
  | cmp o a b =>
    intro k h; simp only [elemOf, Option.bind_eq_some_iff] at h; obtain ⟨v, hv, w, hw, h⟩ := h
    split at h
    · next hs => injection h with h; subst h; exact .cmp hv hw hs
    · cases h

theorem Fine.elem {Γ : VEnv} {p : Ex} {k : Bool × Ty} (h : Fine Γ p k) : elemOf Γ p = some k := by
  induction h with
  | lit h => rw [elemOf, h]; rfl
  | frac h => rw [elemOf, h]; rfl
  | const => rfl
  | var h => exact h
  | neg _ h ih => rw [elemOf, ih, Option.bind_some, if_pos h]
  | not _ ih => rw [elemOf, ih, Option.bind_some, if_pos rfl]
  | arith _ _ h hm iha ihb => rw [elemOf, iha, ihb]; simp only [Option.bind_some, h, if_neg hm]
  | rel _ _ h hm iha ihb => rw [elemOf, iha, ihb]; simp only [Option.bind_some, h, if_neg hm]
  | and _ _ h iha ihb => rw [elemOf, iha, ihb]; simp only [Option.bind_some]; rw [if_pos ⟨trivial, trivial, h⟩]
  | or _ _ h iha ihb => rw [elemOf, iha, ihb]; simp only [Option.bind_some]; rw [if_pos ⟨trivial, trivial, h⟩]
  | fn1 _ h h1 ih => rw [elemOf, ih, Option.bind_some, if_pos ⟨h, h1⟩]
  | fn2 _ _ h hm h1 iha ihb => rw [elemOf, iha, ihb]; simp only [Option.bind_some, h]; rw [if_pos ⟨hm, h1⟩]
  | fn3 _ _ _ h h2 hm h1 iha ihb ihc => rw [elemOf, iha, ihb, ihc]; simp only [Option.bind_some, h, h2]; rw [if_pos ⟨hm, h1⟩]
  | pick _ _ _ h h1 h2 ihc iha ihb => rw [elemOf, ihc, iha, ihb]; simp only [Option.bind_some]; rw [if_pos ⟨trivial, h1, h2⟩, h]
  | cmp ha hb h => rw [elemOf, ha, hb]; simp only [Option.bind_some]; rw [if_pos h]

theorem Fine.common {Γ : VEnv} {a b : Ex} {k l m : Bool × Ty} (ha : Fine Γ a k) (hb : Fine Γ b l) (h : together k l (single Γ a) (single Γ b) = some m) : common Γ a b = some m.2 := by
  simp [VecFn.common, ha.elem, hb.elem, h]

theorem together_cases {k l m : Bool × Ty} {a b : Bool} (h : together k l a b = some m) :
    (k.2 = l.2 ∧ m = (k.1 || l.1, k.2)) ∨ (k.1 = true ∧ b = true ∧ fits l.2 k.2 = true ∧ m = (true, k.2)) ∨ (l.1 = true ∧ a = true ∧ fits k.2 l.2 = true ∧ m = (true, l.2)) := by
  unfold together at h
  split at h
  · next h1 => exact .inl ⟨h1, by injection h with h; exact h.symm⟩
  · split at h
    · next h2 => exact .inr (.inl ⟨h2.1, h2.2.1, h2.2.2, by injection h with h; exact h.symm⟩)
    · split at h
      · next h3 => exact .inr (.inr ⟨h3.1, h3.2.1, h3.2.2, by injection h with h; exact h.symm⟩)
      · cases h

/-- Beside the first argument of a function of three, the others have its type or are single numbers. -/
theorem together_first {k l m : Bool × Ty} {b : Bool} (h : together k l false b = some m) : m = (k.1 || l.1, k.2) ∧ (k.2 = l.2 ∨ (k.1 = true ∧ b = true ∧ fits l.2 k.2 = true)) := by
  rcases together_cases h with ⟨h1, rfl⟩ | ⟨h1, h2, h3, rfl⟩ | ⟨_, h2, _⟩
  · exact ⟨rfl, .inl h1⟩
  · exact ⟨by rw [h1]; rfl, .inr ⟨h1, h2, h3⟩⟩
  · cases h2

theorem fits_up {a b : Ty} (h : fits a b = true) : Up a b := by cases a <;> cases b <;> simp [fits, Up] at h ⊢

theorem single_has {Γ : VEnv} {p : Ex} (h : single Γ p = true) : hasV Γ p = false := by cases p <;> simp [single, hasV] at h ⊢; exact h

theorem flag_has {Γ : VEnv} {p : Ex} {k : Bool × Ty} (h : Fine Γ p k) : k.1 = true → hasV Γ p = true := by
  induction h with
  | lit h => intro h; cases h
  | frac h => intro h; cases h
  | const => intro h; cases h
  | var h => intro h1; simp [hasV, h, h1]
  | neg _ _ ih => exact ih
  | not _ ih => exact ih
  | arith _ _ h _ iha ihb =>
    intro h1
    rw [hasV, Bool.or_eq_true]
    rcases together_cases h with ⟨_, rfl⟩ | ⟨h2, _⟩ | ⟨h2, _⟩
    · exact (Bool.or_eq_true_iff.1 h1).imp iha ihb
    · exact .inl (iha h2)
    · exact .inr (ihb h2)
  | rel => intro h; cases h
  | cmp => intro h; cases h
  | fn1 _ _ _ ih => exact ih
  | fn2 _ _ h _ _ iha ihb =>
    intro h1
    rw [hasV, Bool.or_eq_true]
    rcases together_cases h with ⟨_, rfl⟩ | ⟨h2, _⟩ | ⟨h2, _⟩
    · exact (Bool.or_eq_true_iff.1 h1).imp iha ihb
    · exact .inl (iha h2)
    · exact .inr (ihb h2)
  | fn3 _ _ _ _ _ _ h1 => intro _; rw [hasV, h1]; rfl
  | and _ _ _ iha ihb => intro h1; rw [hasV, Bool.or_eq_true]; exact (Bool.or_eq_true_iff.1 h1).imp iha ihb
  | or _ _ _ iha ihb => intro h1; rw [hasV, Bool.or_eq_true]; exact (Bool.or_eq_true_iff.1 h1).imp iha ihb
  | pick _ _ _ h _ _ _ iha ihb =>
    intro h1
    rw [hasV, Bool.or_eq_true, Bool.or_eq_true]
    rcases together_cases h with ⟨_, rfl⟩ | ⟨h2, _⟩ | ⟨h2, _⟩
    · exact (Bool.or_eq_true_iff.1 h1).elim (fun h => .inl (.inr (iha h))) fun h => .inr (ihb h)
    · exact .inl (.inr (iha h2))
    · exact .inr (ihb h2)

theorem single_flag {Γ : VEnv} {p : Ex} {k : Bool × Ty} (h : Fine Γ p k) (hs : single Γ p = true) : k.1 = false := by
  cases h1 : k.1 with
  | false => rfl
  | true => have := flag_has h h1; rw [single_has hs] at this; cases this

/-! ## Validation -/

def treeTy (fpu : Hw) (env : Name → Option VTy) : Tree → Option VTy
  | .atom o => checkO fpu env o
  | .un op t => (treeTy fpu env t).bind (unTy op)
  | .bin l op r => (treeTy fpu env l).bind fun a => (treeTy fpu env r).bind fun b => binTy op a b
  | .sel c t f => (treeTy fpu env c).bind fun a => (treeTy fpu env t).bind fun b => (treeTy fpu env f).bind fun d => selTy a b d

theorem check_tree (fpu : Hw) (env : Name → Option VTy) (e : Expr) : checkE fpu env e = treeTy fpu env e.toTree := by
  match e with
  | .un none (.paren e) => rw [checkE, checkO, Expr.toTree]; exact check_tree fpu env e
  | .un (some op) (.paren e) => rw [checkE, checkO, Expr.toTree, treeTy, check_tree fpu env e]
  | .bin l op r => rw [checkE, Expr.toTree, treeTy, check_tree fpu env l, check_tree fpu env r]
  | .sel c t f => rw [checkE, Expr.toTree, treeTy, check_tree fpu env c, check_tree fpu env t, check_tree fpu env f]
  | .un none (.bool _) | .un none (.str _) | .un none (.num _) | .un none (.define _) | .un none (.array _) | .un none (.var _) | .un none (.call _ _) | .un none (.access _ _) =>
    simp only [checkE, Expr.toTree, treeTy]
  | .un (some op) (.bool _) | .un (some op) (.str _) | .un (some op) (.num _) | .un (some op) (.define _) | .un (some op) (.array _) | .un (some op) (.var _) | .un (some op) (.call _ _)
  | .un (some op) (.access _ _) => simp only [checkE, Expr.toTree, treeTy]

theorem larger_self (t : PTy) : larger t t = t := by
  cases h : rank t <;> simp [larger, normT, h]

theorem num_p {t : Ty} (h : t ≠ .bool) : isNum t.p = true := by cases t <;> simp [Ty.p, isNum] at h ⊢
theorem fits_num {a b : Ty} (h : fits a b = true) : a ≠ .bool ∧ b ≠ .bool := by cases a <;> cases b <;> simp [fits] at h ⊢

theorem unTy_neg {v : Bool} {t : Ty} (h : signed t = true) : unTy .neg (v, t.p) = some (v, t.p) := by
  cases t <;> simp [signed] at h <;> simp [unTy, Ty.p, h]

theorem bin_same (o : Arith) (v w : Bool) {t : Ty} (h : t ≠ .bool) : binTy o.sign (v, t.p) (w, t.p) = some (v || w, t.p) := by
  have hn := num_p h
  cases o <;> cases v <;> cases w <;> simp [binTy, Arith.sign, canBin, leftTy, larger_self, hn]
theorem bin_left (o : Arith) {s t : PTy} (hs : isNum s = true) (ht : isNum t = true) : binTy o.sign (true, t) (false, s) = some (true, t) := by
  cases o <;> simp [binTy, Arith.sign, canBin, leftTy, hs, ht]
theorem bin_right (o : Arith) {s t : PTy} (hs : isNum s = true) (ht : isNum t = true) : binTy o.sign (false, s) (true, t) = some (true, t) := by
  cases o <;> simp [binTy, Arith.sign, canBin, hs, ht]
theorem rel_same (o : Rel) (v w : Bool) {t : PTy} (h : isNum t = true) : binTy o.sign (v, t) (w, t) = some (v || w, .bit) := by
  cases o <;> cases v <;> cases w <;> simp [binTy, Rel.sign, canBin, h]
theorem rel_left (o : Rel) {s t : PTy} (hs : isNum s = true) (ht : isNum t = true) : binTy o.sign (true, t) (false, s) = some (true, .bit) := by cases o <;> simp [binTy, Rel.sign, canBin, hs, ht]
theorem rel_right (o : Rel) {s t : PTy} (hs : isNum s = true) (ht : isNum t = true) : binTy o.sign (false, s) (true, t) = some (true, .bit) := by cases o <;> simp [binTy, Rel.sign, canBin, hs, ht]
theorem rel_str (o : Rel) (v w : Bool) : binTy o.sign (v, .other) (w, .other) = some (v || w, .bit) := by cases o <;> cases v <;> cases w <;> rfl
theorem sel_same {c v w : Bool} {t : PTy} (h : c = true ∨ v = w) (hn : isNum t = true ∨ c = false ∨ v = true ∨ w = true) : selTy (c, .bit) (v, t) (w, t) = some (c || v || w, t) := by
  cases c <;> cases v <;> cases w <;> simp [selTy, canCast, larger_self] at h hn ⊢ <;> simp [hn]
theorem sel_left {s t : PTy} (hs : isNum s = true) (ht : isNum t = true) : selTy (true, .bit) (true, t) (false, s) = some (true, t) := by simp [selTy, canCast, hs, ht]
theorem sel_right {s t : PTy} (hs : isNum s = true) (ht : isNum t = true) : selTy (true, .bit) (false, s) (true, t) = some (true, t) := by simp [selTy, canCast, hs, ht]

theorem takes_num1 {f : Fn1} {t : Ty} (h : takes1 f t = true) : t ≠ .bool := by rintro rfl; cases h
theorem takes_num2 {f : Fn2} {t : Ty} (h : takes2 f t = true) : t ≠ .bool := by rintro rfl; cases h
theorem takes_num3 {t : Ty} (h : takes3 t = true) : t ≠ .bool := by rintro rfl; cases h

theorem kernel1_takes {f : Fn1} {t : Ty} (h : takes1 f t = true) (hf : f ≠ .abs) : (kernel1 f).contains t.p = true := by
  cases t with
  | bool => cases h
  | int t => simp [takes1, hf] at h
  | flt F => have : f ≠ .cbrt := by simpa [takes1] using h
             simp only [kernel1, hf, this, or_self, if_false]; cases F <;> decide
theorem kernel2_takes {f : Fn2} {t : Ty} (h : takes2 f t = true) (hf : free2 f = false) : (kernel2 f).contains t.p = true := by
  cases t with
  | bool => cases h
  | int t => cases f <;> simp [takes2] at h <;> (try cases hf) <;> cases t <;> first | (exact absurd h (by decide)) | decide
  | flt F => cases f <;> (try cases hf) <;> cases F <;> decide
theorem kernel2_free {f : Fn2} (hf : free2 f = true) : kernel2 f = [] := by cases f <;> first | rfl | cases hf
theorem registered2_free {f : Fn2} {t : Ty} (h : takes2 f t = true) (hf : free2 f = true) : (registered2 f).contains t.p = true := by
  cases t with
  | bool => cases h
  | int t => cases f <;> (try cases hf) <;> cases t <;> decide
  | flt F => cases f <;> (try cases hf) <;> cases F <;> decide
theorem kernel3_takes (f : Fn3) {t : Ty} (h : takes3 t = true) : (kernel3 f).contains t.p = true := by
  cases t with
  | bool => cases h
  | int t => cases t <;> first | (exact absurd h (by decide)) | rfl
  | flt F => cases F <;> rfl

theorem vMax_self (t : PTy) : vMax t t = t := by unfold vMax; split <;> rfl

theorem call1_ty {f : Fn1} {v : Bool} {t : Ty} (h : takes1 f t = true) (h1 : v = true ∨ f = .abs ∧ f.for t = true) : callTy f.name [(v, t.p)] = some (v, t.p) := by
  simp only [callTy, name1, Option.bind_some]
  cases v with
  | true =>
    by_cases hf : f = .abs
    · subst hf; simp [fnTy, kernel1]
    · simp only [fnTy, List.head?_cons, List.filter, List.getLast?_singleton, kernel1_takes h hf]; rfl
  | false =>
    obtain ⟨rfl, h2⟩ := h1.resolve_left (by decide)
    rw [← registered1_for, List.contains_iff_mem] at h2
    simp [fnTy, kernel1, List.filter, vMax_self, h2]

theorem call2_ty {f : Fn2} {k l m : Bool × Ty} {a b v w : Bool} (h : together k l a b = some m) (hv : k.1 = true → v = true) (hw : l.1 = true → w = true) (ha : a = true → v = false)
    (hb : b = true → w = false) (hm : takes2 f m.2 = true) (h1 : v = true ∨ free2 f = true) : callTy f.name [(v, k.2.p), (w, l.2.p)] = some (v || w, m.2.p) := by
  simp only [callTy, name2, Option.bind_some]
  obtain ⟨k1, k⟩ := k
  obtain ⟨l1, l⟩ := l
  cases hf : free2 f with
  | true =>
    simp only [fnTy, kernel2_free hf]
    rcases together_cases h with ⟨h2, rfl⟩ | ⟨h2, h3, h4, rfl⟩ | ⟨h2, h3, h4, rfl⟩
    · dsimp only at h2; subst h2
      have := registered2_free hm hf
      cases v <;> cases w <;> simp [List.filter, vMax_self] <;> simpa using this
    · rw [hv h2, hb h3]; rfl
    · rw [hw h2, ha h3]; rfl
  | false =>
    have hk := kernel2_takes hm hf
    obtain rfl := h1.resolve_right (by simp [hf])
    rcases together_cases h with ⟨h2, rfl⟩ | ⟨h2, h3, h4, rfl⟩ | ⟨h2, h3, h4, rfl⟩
    · dsimp only at h2 hk; subst h2
      cases w <;> simp only [fnTy, List.head?_cons, List.filter, List.getLast?_singleton, List.getLast?_cons_cons, hk] <;> rfl
    · dsimp only at hk
      rw [hb h3]
      simp only [fnTy, List.head?_cons, List.filter, List.getLast?_singleton, hk]; rfl
    · cases ha h3

theorem call3_ty {f : Fn3} {k l j : Bool × Ty} {b c w z : Bool} (h : k.2 = l.2 ∨ b = true) (h2 : k.2 = j.2 ∨ c = true) (hb : b = true → w = false) (hc : c = true → z = false)
    (hm : takes3 k.2 = true) : callTy f.name [(true, k.2.p), (w, l.2.p), (z, j.2.p)] = some (true, k.2.p) := by
  simp only [callTy, name3, Option.bind_some]
  have hk := kernel3_takes f hm
  have e1 : w = true → l.2 = k.2 := fun hw => h.elim Eq.symm fun hb' => by rw [hb hb'] at hw; cases hw
  have e2 : z = true → j.2 = k.2 := fun hw => h2.elim Eq.symm fun hb' => by rw [hc hb'] at hw; cases hw
  cases w <;> cases z <;> simp only [fnTy, List.head?_cons, List.filter, List.getLast?_singleton, List.getLast?_cons_cons, e1, e2, hk] <;> rfl

/-- What validation knows about the variables. -/
def EnvOk (Γ : VEnv) (env : Name → Option VTy) : Prop := (∀ x k, Γ x = some k → env x = some (k.1, k.2.p)) ∧ ∀ x v, Γ.str x = some v → env x = some (v, .other)

theorem check_str (fpu : Hw) {Γ : VEnv} {env : Name → Option VTy} (he : EnvOk Γ env) {a : Str} {v : Bool} (h : a.vec Γ = some v) {t : Tree} (ht : a.Is t) : treeTy fpu env t = some (v, .other) := by
  cases a with
  | text s => rw [Str.Is] at ht; subst ht; rw [Str.vec, Option.some.injEq] at h; subst h; rfl
  | var x => rw [Str.Is] at ht; subst ht; exact he.2 x v h

theorem has_cmp {Γ : VEnv} {o : Rel} {a b : Str} {v w : Bool} (ha : a.vec Γ = some v) (hb : b.vec Γ = some w) : hasV Γ (.cmp o a b) = (v || w) := by
  rw [hasV, ha, hb]; cases v <;> cases w <;> rfl

theorem check_ex (fpu : Hw) {Γ : VEnv} {env : Name → Option VTy} (he : EnvOk Γ env) {p : Ex} {k : Bool × Ty} (h : Fine Γ p k) : ∀ t, p.Lits fpu → p.Is t → treeTy fpu env t = some (hasV Γ p, k.2.p) := by
  induction h with
  | @lit ds s u h =>
    intro t hl ht
    obtain ⟨τ, v, h1, _, _, h2⟩ := constant_lit fpu (fun _ => none) (fun _ => none) ds s hl
    rw [h1] at h; injection h with h; subst h
    rw [Ex.Is] at ht; subst ht
    rw [treeTy, checkO, h2]; rfl
  | @frac ip fp s u h =>
    intro t hl ht
    obtain ⟨τ, v, h1, _, _, h2⟩ := constant_frac fpu (fun _ => none) (fun _ => none) ip fp s hl
    rw [h1] at h; injection h with h; subst h
    rw [Ex.Is] at ht; subst ht
    rw [treeTy, checkO, h2]; rfl
  | const => intro t hl ht; rw [Ex.Is] at ht; subst ht; rfl
  | var h => intro t hl ht; rw [Ex.Is] at ht; subst ht; rw [treeTy, checkO, he.1 _ _ h]; simp [hasV, h]
  | neg _ h ih =>
    intro t hl ht; rw [Ex.Is] at ht; obtain ⟨u, rfl, hu⟩ := ht
    rw [treeTy, ih u hl hu, Option.bind_some, unTy_neg h, hasV]
  | not _ ih =>
    intro t hl ht; rw [Ex.Is] at ht; obtain ⟨u, rfl, hu⟩ := ht
    rw [treeTy, ih u hl hu, Option.bind_some, hasV]; rfl
  | arith ha hb h hm iha ihb =>
    intro t hl ht; rw [Ex.Is] at ht; obtain ⟨u, v, rfl, hu, hv⟩ := ht
    rw [treeTy, iha u hl.1 hu, ihb v hl.2 hv, hasV]
    simp only [Option.bind_some]
    rcases together_cases h with ⟨h1, rfl⟩ | ⟨h1, h2, h3, rfl⟩ | ⟨h1, h2, h3, rfl⟩
    · rw [← h1, bin_same _ _ _ hm]
    · rw [flag_has ha h1, single_has h2, bin_left _ (num_p (fits_num h3).1) (num_p hm)]; rfl
    · rw [flag_has hb h1, single_has h2, bin_right _ (num_p (fits_num h3).1) (num_p hm)]; rfl
  | rel ha hb h hm iha ihb =>
    intro t hl ht; rw [Ex.Is] at ht; obtain ⟨u, v, rfl, hu, hv⟩ := ht
    rw [treeTy, iha u hl.1 hu, ihb v hl.2 hv, hasV]
    simp only [Option.bind_some]
    rcases together_cases h with ⟨h1, rfl⟩ | ⟨h1, h2, h3, rfl⟩ | ⟨h1, h2, h3, rfl⟩
    · rw [← h1, rel_same _ _ _ (num_p hm)]; rfl
    · rw [flag_has ha h1, single_has h2, rel_left _ (num_p (fits_num h3).1) (num_p hm)]; rfl
    · rw [flag_has hb h1, single_has h2, rel_right _ (num_p (fits_num h3).1) (num_p hm)]; rfl
  | cmp ha hb h =>
    intro t hl ht; rw [Ex.Is] at ht; obtain ⟨u, v, rfl, hu, hv⟩ := ht
    rw [treeTy, check_str fpu he ha hu, check_str fpu he hb hv, has_cmp ha hb]
    exact rel_str ..
  | @fn1 f a k ha h h1 ih =>
    intro t hl ht; rw [Ex.Is] at ht; obtain ⟨x, rfl, hx⟩ := ht
    rw [treeTy, checkO, checkEs, checkEs, check_tree, ih _ hl hx, hasV]
    exact call1_ty h h1
  | @fn2 f a b k l m ha hb h hm h1 iha ihb =>
    intro t hl ht; rw [Ex.Is] at ht; obtain ⟨x, y, rfl, hx, hy⟩ := ht
    rw [treeTy, checkO, checkEs, checkEs, checkEs, check_tree, check_tree, iha _ hl.1 hx, ihb _ hl.2 hy, hasV]
    exact call2_ty h (flag_has ha) (flag_has hb) single_has single_has hm h1
  | @fn3 f a b c k l j m q ha hb hc h h2 hq h1 iha ihb ihc =>
    intro t hl ht; rw [Ex.Is] at ht; obtain ⟨x, y, z, rfl, hx, hy, hz⟩ := ht
    rw [treeTy, checkO, checkEs, checkEs, checkEs, checkEs, check_tree, check_tree, check_tree, iha _ hl.1 hx, ihb _ hl.2.1 hy, ihc _ hl.2.2 hz, hasV, h1]
    obtain ⟨rfl, h3⟩ := together_first h
    obtain ⟨rfl, h4⟩ := together_first h2
    exact call3_ty (h3.imp id (·.2.1)) (h4.imp id (·.2.1)) single_has single_has hq
  | @and a b _ _ _ _ h iha ihb =>
    intro t hl ht; rw [Ex.Is] at ht; obtain ⟨u, v, rfl, hu, hv⟩ := ht
    rw [treeTy, iha u hl.1 hu, ihb v hl.2 hv, hasV, h]
    cases hasV Γ b <;> rfl
  | @or a b _ _ _ _ h iha ihb =>
    intro t hl ht; rw [Ex.Is] at ht; obtain ⟨u, v, rfl, hu, hv⟩ := ht
    rw [treeTy, iha u hl.1 hu, ihb v hl.2 hv, hasV, h]
    cases hasV Γ b <;> rfl
  | @pick c a b _ k l m hc ha hb h h1 h2 ihc iha ihb =>
    intro t hl ht; rw [Ex.Is] at ht; obtain ⟨w, u, v, rfl, hw, hu, hv⟩ := ht
    rw [treeTy, ihc w hl.1 hw, iha u hl.2.1 hu, ihb v hl.2.2 hv, hasV]
    simp only [Option.bind_some, Ty.p]
    rcases together_cases h with ⟨h3, rfl⟩ | ⟨h3, h4, h5, rfl⟩ | ⟨h3, h4, h5, rfl⟩
    · rw [← h3]
      refine sel_same h1 ?_
      by_cases hb : k.2 = .bool
      · exact .inr (h2 hb)
      · exact .inl (num_p hb)
    · have h6 := flag_has ha h3
      have h7 := single_has h4
      rw [h6, h7] at h1 ⊢
      rw [h1.elim id fun h => by cases h]
      exact sel_left (num_p (fits_num h5).1) (num_p (fits_num h5).2)
    · have h6 := flag_has hb h3
      have h7 := single_has h4
      rw [h6, h7] at h1 ⊢
      rw [h1.elim id fun h => by cases h]
      exact sel_right (num_p (fits_num h5).1) (num_p (fits_num h5).2)

/-! ## The expression of `Verif.Gen.Vec` behind an expression -/

abbrev VEx := Vec.VE PTy MV VOp

def conOf : Option (PTy × MV) → VEx
  | some c => .con c.1 c.2
  | none => .con .bit .poison

def strOf (fpu : Hw) (lk : Name → VEx) : Str → VEx
  | .text s => .con .other (.word (fpu.text s))
  | .var x => lk x

def veOf (fpu : Hw) (lk : Name → VEx) : Ex → VEx
  | .lit ds s => conOf (constant fpu (withSuffix ds s))
  | .frac ip fp s => conOf (constant fpu (withSuffix (fracText ip fp) s))
  | .const b => .con .bit (.word (bit b))
  | .var x => lk x
  | .neg a => .app1 (.un .neg) (veOf fpu lk a)
  | .not a => .app1 (.un .not) (veOf fpu lk a)
  | .arith o a b => .app2 (.bin o.sign) (veOf fpu lk a) (veOf fpu lk b)
  | .rel o a b => .app2 (.bin o.sign) (veOf fpu lk a) (veOf fpu lk b)
  | .and a b => .app2 (.bin .and) (veOf fpu lk a) (veOf fpu lk b)
  | .or a b => .app2 (.bin .or) (veOf fpu lk a) (veOf fpu lk b)
  | .pick c a b => .app3 .sel (veOf fpu lk c) (veOf fpu lk a) (veOf fpu lk b)
  | .fn1 f a => .app1 (.fn f.name) (veOf fpu lk a)
  | .fn2 f a b => .app2 (.fn f.name) (veOf fpu lk a) (veOf fpu lk b)
  | .fn3 f a b c => .app3 (.fn f.name) (veOf fpu lk a) (veOf fpu lk b) (veOf fpu lk c)
  | .cmp o a b => .app2 (.bin o.sign) (strOf fpu lk a) (strOf fpu lk b)

theorem nodes_append (fpu : Hw) (look : Name → Option Nd) (a b : Rpn) : nodesOf fpu look (a.append b) = (nodesOf fpu look a).bind fun x => (nodesOf fpu look b).map (x ++ ·) := by
  match a with
  | .nil => simp [Rpn.append, nodesOf]
  | .cons n r =>
    rw [Rpn.append, nodesOf, nodesOf, nodes_append fpu look r b]
    cases nodeOf fpu look n <;> simp
    cases nodesOf fpu look r <;> cases nodesOf fpu look b <;> simp

theorem arith_node (fpu : Hw) (o : Arith) (look : Name → Option Nd) : nodeOf fpu look (.op2 o.sign) = some (.op (.bin o.sign)) := by cases o <;> rfl
theorem rel_node (fpu : Hw) (o : Rel) (look : Name → Option Nd) : nodeOf fpu look (.op2 o.sign) = some (.op (.bin o.sign)) := by cases o <;> rfl

/-- Where the environment describes a variable, the leaf is the one meant. -/
def LookOk (Γ : VEnv) (look : Name → Option Nd) (lk : Name → VEx) : Prop := (∀ x k, Γ x = some k → (look x).map ([·]) = some (Vec.flat (lk x))) ∧ ∀ x v, Γ.str x = some v → (look x).map ([·]) = some (Vec.flat (lk x))

theorem flat_bin (fpu : Hw) (look : Name → Option Nd) (u v : Tree) (o : BinOp) (ea eb : VEx) (ha : nodesOf fpu look (treeFlat Real.arity u) = some (Vec.flat ea))
    (hb : nodesOf fpu look (treeFlat Real.arity v) = some (Vec.flat eb)) (ho : nodeOf fpu look (.op2 o) = some (.op (.bin o))) :
    nodesOf fpu look (treeFlat Real.arity (.bin u o v)) = some (Vec.flat (.app2 (.bin o) ea eb)) := by
  rw [treeFlat, nodes_append, nodes_append, ha, hb, Vec.flat, nodesOf, nodesOf, ho]
  simp

theorem flat_un (fpu : Hw) (look : Name → Option Nd) (u : Tree) (o : UnOp) (ea : VEx) (ha : nodesOf fpu look (treeFlat Real.arity u) = some (Vec.flat ea)) :
    nodesOf fpu look (treeFlat Real.arity (.un o u)) = some (Vec.flat (.app1 (.un o) ea)) := by
  rw [treeFlat, nodes_append, ha, Vec.flat]
  rfl

theorem flat_str (fpu : Hw) {Γ : VEnv} {look : Name → Option Nd} {lk : Name → VEx} (h : LookOk Γ look lk) {a : Str} {v : Bool} (hv : a.vec Γ = some v) {t : Tree} (ht : a.Is t) :
    nodesOf fpu look (treeFlat Real.arity t) = some (Vec.flat (strOf fpu lk a)) := by
  cases a with
  | text s => rw [Str.Is] at ht; subst ht; rfl
  | var x =>
    rw [Str.Is] at ht; subst ht
    rw [treeFlat, flatO, nodesOf, nodesOf, nodeOf, strOf, ← h.2 x v hv]
    cases look x <;> rfl

theorem flat_ex (fpu : Hw) {Γ : VEnv} {look : Name → Option Nd} {lk : Name → VEx} (h : LookOk Γ look lk) {p : Ex} {k : Bool × Ty} (hk : Fine Γ p k) :
    ∀ t, p.Lits fpu → p.Is t → nodesOf fpu look (treeFlat Real.arity t) = some (Vec.flat (veOf fpu lk p)) := by
  induction hk with
  | @lit ds s u _ =>
    intro t hl ht
    obtain ⟨τ, v, _, _, _, h2⟩ := constant_lit fpu (fun _ => none) (fun _ => none) ds s hl
    rw [Ex.Is] at ht; subst ht
    rw [treeFlat, flatO, nodesOf, nodesOf, nodeOf, veOf, h2]; rfl
  | @frac ip fp s u _ =>
    intro t hl ht
    obtain ⟨τ, v, _, _, _, h2⟩ := constant_frac fpu (fun _ => none) (fun _ => none) ip fp s hl
    rw [Ex.Is] at ht; subst ht
    rw [treeFlat, flatO, nodesOf, nodesOf, nodeOf, veOf, h2]; rfl
  | const => intro t hl ht; rw [Ex.Is] at ht; subst ht; rw [treeFlat, flatO, nodesOf, nodesOf, nodeOf, veOf]; rfl
  | @var x k hx =>
    intro t hl ht; rw [Ex.Is] at ht; subst ht
    rw [treeFlat, flatO, nodesOf, nodesOf, nodeOf, veOf, ← h.1 x k hx]
    cases look x <;> rfl
  | neg _ _ ih => intro t hl ht; rw [Ex.Is] at ht; obtain ⟨u, rfl, hu⟩ := ht; exact flat_un fpu look u _ _ (ih u hl hu)
  | not _ ih => intro t hl ht; rw [Ex.Is] at ht; obtain ⟨u, rfl, hu⟩ := ht; exact flat_un fpu look u _ _ (ih u hl hu)
  | arith _ _ _ _ iha ihb =>
    intro t hl ht; rw [Ex.Is] at ht; obtain ⟨u, v, rfl, hu, hv⟩ := ht
    exact flat_bin fpu look u v _ _ _ (iha u hl.1 hu) (ihb v hl.2 hv) (arith_node fpu _ look)
  | rel _ _ _ _ iha ihb =>
    intro t hl ht; rw [Ex.Is] at ht; obtain ⟨u, v, rfl, hu, hv⟩ := ht
    exact flat_bin fpu look u v _ _ _ (iha u hl.1 hu) (ihb v hl.2 hv) (rel_node fpu _ look)
  | cmp ha hb _ =>
    intro t hl ht; rw [Ex.Is] at ht; obtain ⟨u, v, rfl, hu, hv⟩ := ht
    exact flat_bin fpu look u v _ _ _ (flat_str fpu h ha hu) (flat_str fpu h hb hv) (rel_node fpu _ look)
  | fn1 _ _ _ ih =>
    intro t hl ht; rw [Ex.Is] at ht; obtain ⟨x, rfl, hx⟩ := ht
    simp only [treeFlat, flatO, arity1, flatArgs, flat_tree]
    rw [nodes_append, nodes_append, ih _ hl hx, veOf, Vec.flat]
    simp [nodesOf, nodeOf]
  | fn2 _ _ _ _ _ iha ihb =>
    intro t hl ht; rw [Ex.Is] at ht; obtain ⟨x, y, rfl, hx, hy⟩ := ht
    simp only [treeFlat, flatO, arity2, flatArgs, flat_tree]
    rw [nodes_append, nodes_append, nodes_append, iha _ hl.1 hx, ihb _ hl.2 hy, veOf, Vec.flat]
    simp [nodesOf, nodeOf]
  | fn3 _ _ _ _ _ _ _ iha ihb ihc =>
    intro t hl ht; rw [Ex.Is] at ht; obtain ⟨x, y, z, rfl, hx, hy, hz⟩ := ht
    simp only [treeFlat, flatO, arity3, flatArgs, flat_tree]
    rw [nodes_append, nodes_append, nodes_append, nodes_append, iha _ hl.1 hx, ihb _ hl.2.1 hy, ihc _ hl.2.2 hz, veOf, Vec.flat]
    simp [nodesOf, nodeOf]
  | and _ _ _ iha ihb =>
    intro t hl ht; rw [Ex.Is] at ht; obtain ⟨u, v, rfl, hu, hv⟩ := ht
    exact flat_bin fpu look u v _ _ _ (iha u hl.1 hu) (ihb v hl.2 hv) rfl
  | or _ _ _ iha ihb =>
    intro t hl ht; rw [Ex.Is] at ht; obtain ⟨u, v, rfl, hu, hv⟩ := ht
    exact flat_bin fpu look u v _ _ _ (iha u hl.1 hu) (ihb v hl.2 hv) rfl
  | pick _ _ _ _ _ _ ihc iha ihb =>
    intro t hl ht; rw [Ex.Is] at ht; obtain ⟨w, u, v, rfl, hw, hu, hv⟩ := ht
    rw [treeFlat, nodes_append, nodes_append, nodes_append, ihc w hl.1 hw, iha u hl.2.1 hu, ihb v hl.2.2 hv, veOf, Vec.flat, nodesOf, nodesOf, nodeOf]
    simp

/-! ## Types of the code -/

/-- The leaves are what the environment says. -/
def KindOk (Γ : VEnv) (lk : Name → VEx) : Prop :=
  (∀ x, Vec.noCall (lk x) = true) ∧ (∀ x k, Γ x = some k → (k.1 = true ∧ ∃ b, lk x = .vec k.2.p b) ∨ (k.1 = false ∧ ∃ z, lk x = .con k.2.p z)) ∧
    ∀ x v, Γ.str x = some v → (v = true ∧ ∃ b, lk x = .vec .other b) ∨ (v = false ∧ ∃ z, lk x = .con .other z)

theorem noCall_con (c : Option (PTy × MV)) : Vec.noCall (conOf c) = true := by cases c <;> rfl

theorem noCall_str (fpu : Hw) (lk : Name → VEx) (h : ∀ x, Vec.noCall (lk x) = true) (a : Str) : Vec.noCall (strOf fpu lk a) = true := by
  cases a with
  | text => rfl
  | var x => exact h x

theorem noCall_ex (fpu : Hw) (lk : Name → VEx) (h : ∀ x, Vec.noCall (lk x) = true) (p : Ex) : Vec.noCall (veOf fpu lk p) = true := by
  induction p with
  | lit => exact noCall_con _
  | frac => exact noCall_con _
  | const => rfl
  | var x => exact h x
  | neg a ih => exact ih
  | not a ih => exact ih
  | arith o a b iha ihb => rw [veOf, Vec.noCall, iha, ihb]; rfl
  | rel o a b iha ihb => rw [veOf, Vec.noCall, iha, ihb]; rfl
  | and a b iha ihb => rw [veOf, Vec.noCall, iha, ihb]; rfl
  | or a b iha ihb => rw [veOf, Vec.noCall, iha, ihb]; rfl
  | pick c a b ihc iha ihb => rw [veOf, Vec.noCall, ihc, iha, ihb]; rfl
  | fn1 f a ih => exact ih
  | fn2 f a b iha ihb => rw [veOf, Vec.noCall, iha, ihb]; rfl
  | fn3 f a b c iha ihb ihc => rw [veOf, Vec.noCall, iha, ihb, ihc]; rfl
  | cmp o a b => rw [veOf, Vec.noCall, noCall_str fpu lk h, noCall_str fpu lk h]; rfl

theorem isCon_con (c : Option (PTy × MV)) : Vec.isCon (conOf c) = true := by cases c <;> rfl

theorem isCon_ex (fpu : Hw) {Γ : VEnv} {lk : Name → VEx} (h : KindOk Γ lk) {p : Ex} {k : Bool × Ty} (hk : Fine Γ p k) : Vec.isCon (veOf fpu lk p) = single Γ p := by
  cases hk with
  | lit => exact isCon_con _
  | frac => exact isCon_con _
  | var hx =>
    rw [veOf, single, hasV, hx]
    rcases h.2.1 _ k hx with ⟨h1, b, h2⟩ | ⟨h1, b, h2⟩ <;> rw [h2] <;> simp [Vec.isCon, h1]
  | _ => rfl

def pty (k : Bool × Ty) : Bool × PTy := (k.1, k.2.p)

theorem cast_fits (fpu : Hw) {a b : Ty} (h : fits a b = true) : ((vrt fpu).cast a.p b.p).isSome = true := by cases a <;> cases b <;> simp [fits] at h <;> rfl

theorem pair_ty (fpu : Hw) {k l m : Bool × Ty} {ea eb : VEx} {sa sb : Bool} (h : together k l sa sb = some m) (ha : Vec.isCon ea = sa) (hb : Vec.isCon eb = sb) (fa : sa = true → k.1 = false) :
    (if (pty k).1 = true then (pty k).2 else if (pty l).1 = true then (pty l).2 else (pty k).2) = m.2.p ∧ Vec.canBe (vrt fpu) m.2.p ea (pty k).2 ∧ Vec.canBe (vrt fpu) m.2.p eb (pty l).2 ∧
      m.1 = (k.1 || l.1) ∧ Vec.meet [pty k, pty l] = some m.2.p := by
  obtain ⟨k1, k2⟩ := k
  obtain ⟨l1, l2⟩ := l
  simp only [pty]
  rcases together_cases h with ⟨h1, rfl⟩ | ⟨h3, h4, h5, rfl⟩ | ⟨h3, h4, h5, rfl⟩
  · dsimp only at h1; subst h1
    refine ⟨by cases k1 <;> cases l1 <;> rfl, .inl rfl, .inl rfl, rfl, ?_⟩
    cases k1 <;> cases l1 <;> rfl
  · dsimp only at h3; subst h3
    exact ⟨rfl, .inl rfl, .inr ⟨hb.trans h4, cast_fits fpu h5⟩, rfl, rfl⟩
  · have h6 := fa h4
    dsimp only at h3 h6; subst h3 h6
    exact ⟨rfl, .inr ⟨ha.trans h4, cast_fits fpu h5⟩, .inl rfl, rfl, rfl⟩

theorem triple_ty (fpu : Hw) {k l j m q : Bool × Ty} {ea eb ec : VEx} {sb sc : Bool} (h : together k l false sb = some m) (h2 : together m j false sc = some q) (hb : Vec.isCon eb = sb) (hc : Vec.isCon ec = sc)
    (fl : sb = true → l.1 = false) : (if (pty k).1 = true then (pty k).2 else if (pty l).1 = true then (pty l).2 else if (pty j).1 = true then (pty j).2 else (pty k).2) = q.2.p ∧
      Vec.canBe (vrt fpu) q.2.p ea (pty k).2 ∧ Vec.canBe (vrt fpu) q.2.p eb (pty l).2 ∧ Vec.canBe (vrt fpu) q.2.p ec (pty j).2 ∧ q.1 = (k.1 || l.1 || j.1) ∧ Vec.meet [pty k, pty l, pty j] = some q.2.p ∧
      q.2 = k.2 ∧ (l.2 = k.2 ∨ fits l.2 k.2 = true) ∧ (j.2 = k.2 ∨ fits j.2 k.2 = true) := by
  obtain ⟨k1, k2⟩ := k
  obtain ⟨l1, l2⟩ := l
  obtain ⟨j1, j2⟩ := j
  obtain ⟨rfl, h3⟩ := together_first h
  obtain ⟨rfl, h4⟩ := together_first h2
  simp only [pty]
  simp only at h3 h4
  refine ⟨?_, .inl rfl, ?_, ?_, trivial, ?_, trivial, h3.imp Eq.symm (·.2.2), h4.imp Eq.symm (·.2.2)⟩
  · rcases h3 with rfl | ⟨rfl, h3⟩
    · rcases h4 with rfl | ⟨h4, _⟩
      · cases k1 <;> cases l1 <;> cases j1 <;> rfl
      · cases k1 <;> cases l1 <;> simp at h4 ⊢
    · rfl
  · rcases h3 with rfl | ⟨_, h3, h5⟩
    · exact .inl rfl
    · exact .inr ⟨hb.trans h3, cast_fits fpu h5⟩
  · rcases h4 with rfl | ⟨_, h3, h5⟩
    · exact .inl rfl
    · exact .inr ⟨hc.trans h3, cast_fits fpu h5⟩
  · rcases h3 with rfl | ⟨rfl, h3⟩
    · rcases h4 with rfl | ⟨h4, _⟩
      · cases k1 <;> cases l1 <;> cases j1 <;> rfl
      · cases k1 <;> cases l1 <;> simp at h4 <;> rfl
    · rfl

theorem arith_cmp (fpu : Hw) (o : Arith) : (vrt fpu).isCmp (.bin o.sign) = false := by cases o <;> rfl
theorem rel_cmp (fpu : Hw) (o : Rel) : (vrt fpu).isCmp (.bin o.sign) = true := by cases o <;> rfl

theorem someVal (t : Ty) : ∃ v : Val, v.Has t := by
  cases t with
  | bool => exact ⟨.bool true, trivial⟩
  | int t => exact ⟨.int (Pipeline.wrap t 0), Pipeline.wrap_fits _ _⟩
  | flt F => exact ⟨.flt F (Flt.ofInt F.fmt 1), rfl⟩

theorem binV_num (fpu : Hw) (o : BinOp) {t : Ty} (h : t ≠ .bool) : binV fpu o t.p = binT fpu o t.p := by cases t <;> simp [Ty.p, binV] at h ⊢

theorem arith_op (fpu : Hw) (o : Arith) {t : Ty} (h : t ≠ .bool) : Vec.opOk (vrt fpu) (.bin o.sign) 2 t.p [t.p, t.p] := by
  obtain ⟨v, hv⟩ := someVal t
  obtain ⟨r, h1, h2, _⟩ := arith_run fpu o h hv hv
  refine ⟨rfl, ?_⟩
  rw [arith_cmp]
  simp only [vrt, opV, binV_num fpu _ h, h1, and_self, if_true, Option.map_some, h2, Bool.false_eq_true, if_false]
theorem rel_op (fpu : Hw) (o : Rel) {t : Ty} (h : t ≠ .bool) : Vec.opOk (vrt fpu) (.bin o.sign) 2 t.p [t.p, t.p] := by
  obtain ⟨v, hv⟩ := someVal t
  obtain ⟨r, b, h1, h2, _⟩ := rel_run fpu o h hv hv
  refine ⟨rfl, ?_⟩
  rw [rel_cmp]
  simp only [vrt, opV, binV_num fpu _ h, h1, and_self, if_true, Option.map_some, h2]
theorem neg_op (fpu : Hw) {t : Ty} (h : signed t = true) : Vec.opOk (vrt fpu) (.un .neg) 1 t.p [t.p] := by
  refine ⟨rfl, ?_⟩
  cases t <;> simp [signed] at h <;> simp [vrt, opV, unT, cmpV, Ty.p]
theorem not_op (fpu : Hw) : Vec.opOk (vrt fpu) (.un .not) 1 .bit [.bit] := ⟨rfl, by simp [vrt, opV, unT, cmpV]⟩
theorem and_op (fpu : Hw) : Vec.opOk (vrt fpu) (.bin .and) 2 .bit [.bit, .bit] := ⟨rfl, by simp [vrt, opV, binV, cmpV, Pipeline.cmpOp]⟩
theorem or_op (fpu : Hw) : Vec.opOk (vrt fpu) (.bin .or) 2 .bit [.bit, .bit] := ⟨rfl, by simp [vrt, opV, binV, cmpV, Pipeline.cmpOp]⟩
theorem sel_op (fpu : Hw) (t : PTy) : Vec.opOk (vrt fpu) .sel 3 t [.bit, t, t] := ⟨rfl, by simp [vrt, opV, cmpV]⟩

/-! ### Built-in functions on lanes -/

theorem pat_toInt {t : IntTy} (hs : t.signed = true) {x : Int} (hx : IntOps.Fits t x) : (pat t x).toInt = x := by
  have : IntOps.val t (pat t x) = (pat t x).toInt := by simp [IntOps.val, hs]
  rw [← this, Pipeline.pat_val, Pipeline.wrap_self hx]

theorem pat_sub (t : IntTy) (x y : Int) : pat t (x - y) = pat t x - pat t y := by
  rw [Int.sub_eq_add_neg, pat, BitVec.ofInt_add, BitVec.ofInt_neg, ← BitVec.sub_eq_add_neg]; rfl
theorem pat_mul (t : IntTy) (x y : Int) : pat t (x * y) = pat t x * pat t y := BitVec.ofInt_mul ..
theorem pat_add (t : IntTy) (x y : Int) : pat t (x + y) = pat t x + pat t y := BitVec.ofInt_add ..
theorem pat_neg (t : IntTy) (x : Int) : pat t (-x) = -pat t x := BitVec.ofInt_neg ..

theorem diff_lane {t : IntTy} (hs : t.signed = true) {x y : Int} (hx : IntOps.Fits t x) (hy : IntOps.Fits t y) :
    IntOps.val t (MathFns.vectorAbsDiff (pat t x) (pat t y)) = Pipeline.wrap t (x - y).natAbs := by
  rw [← Pipeline.pat_val]
  congr 1
  unfold MathFns.vectorAbsDiff
  rw [BitVec.sle, pat_toInt hs hx, pat_toInt hs hy]
  by_cases h : y ≤ x
  · rw [if_pos (by simpa using h), show ((x - y).natAbs : Int) = x - y by omega]
    exact (pat_sub ..).symm
  · rw [if_neg (by simpa using h), show ((x - y).natAbs : Int) = y - x by omega]
    exact (pat_sub ..).symm

theorem word3_lane (f : Fn3) {t : IntTy} {x y z : Int} (hx : IntOps.Fits t x) (hy : IntOps.Fits t y) (hz : IntOps.Fits t z) : word3 f t x y z = Pipeline.wrap t (int3 f x y z) := by
  cases f with
  | clamp =>
    have h : IntOps.Fits t (Min.min (Max.max x y) z) := by unfold IntOps.Fits at *; omega
    simp only [word3, int3, MathFns.vectorClamp, Pipeline.wrap_self h]; omega
  | fma => simp only [word3, int3]; rw [← Pipeline.pat_val]; simp only [pat_add, pat_mul]
  | fms => simp only [word3, int3]; rw [← Pipeline.pat_val]; simp only [pat_sub, pat_mul]
  | fnma => simp only [word3, int3]; rw [← Pipeline.pat_val]; simp only [pat_sub, pat_mul]
  | fnms => simp only [word3, int3]; rw [← Pipeline.pat_val]; simp only [pat_sub, pat_neg, pat_mul]

theorem lanes1_run (fpu : Hw) {f : Fn1} {t : Ty} (h : takes1 f t = true) : ∃ g, lanes1 fpu f t.p = some g ∧ ∀ v : Val, v.Has t → ∃ w, apply1 fpu f t v = some w ∧ w.Has t ∧ g v.enc = some w.enc := by
  have hc : f = .abs ∨ (kernel1 f).contains t.p = true := Classical.or_iff_not_imp_left.2 (kernel1_takes h)
  cases t with
  | bool => cases h
  | int t =>
    have hs : t.signed = true := by simp [takes1] at h; exact h.2
    refine ⟨_, by simp only [lanes1, Ty.p]; exact if_pos hc, fun v hv => ?_⟩
    obtain ⟨x, rfl, hx⟩ := has_int hv
    exact ⟨.int (Pipeline.wrap t x.natAbs), rfl, Pipeline.wrap_fits _ _, by simp only [Val.enc, onWord, abs_wrap t hs x hx]⟩
  | flt F =>
    refine ⟨_, by simp only [lanes1, Ty.p]; exact if_pos hc, fun v hv => ?_⟩
    obtain ⟨x, rfl⟩ := has_flt hv
    exact ⟨.flt F (fpu.fn1 f F x), by simp only [apply1, flt_self, Option.map_some], rfl, by simp only [Val.enc, onFlt_self]⟩

theorem lanes2_run (fpu : Hw) {f : Fn2} {t : Ty} (h : takes2 f t = true) : ∃ g, lanes2 fpu f t.p = some g ∧
    ∀ v w : Val, v.Has t → w.Has t → ∃ z, apply2 fpu f t v w = some z ∧ z.Has t ∧ g v.enc w.enc = some z.enc := by
  cases t with
  | bool => cases h
  | int t =>
    suffices H : ∃ g, lanes2 fpu f (.int t) = some g ∧ ∀ x y, IntOps.Fits t x → IntOps.Fits t y → g (.word x) (.word y) = some (.word (Pipeline.wrap t (int2 f x y))) by
      obtain ⟨g, h1, h2⟩ := H
      refine ⟨g, h1, fun v w hv hw => ?_⟩
      obtain ⟨x, rfl, hx⟩ := has_int hv
      obtain ⟨y, rfl, hy⟩ := has_int hw
      exact ⟨.int (Pipeline.wrap t (int2 f x y)), rfl, Pipeline.wrap_fits _ _, h2 x y hx hy⟩
    have hm : ∀ x y, IntOps.Fits t x → IntOps.Fits t y → IntOps.Fits t (Max.max x y) ∧ IntOps.Fits t (Min.min x y) := fun x y hx hy => by unfold IntOps.Fits at *; omega
    cases f with
    | max =>
      refine ⟨_, rfl, fun x y hx hy => ?_⟩
      rw [wordOp, max_run t x y hx hy .max (.inl rfl), int2, Pipeline.wrap_self (hm x y hx hy).1]
      simp only [IntOps.meant, Option.some.injEq, MV.word.injEq]; first | done | omega
    | min =>
      refine ⟨_, rfl, fun x y hx hy => ?_⟩
      rw [wordOp, max_run t x y hx hy .min (.inr rfl), int2, Pipeline.wrap_self (hm x y hx hy).2]
      simp only [IntOps.meant, Option.some.injEq, MV.word.injEq]; first | done | omega
    | absDiff =>
      have hs : t.signed = true := by simp [takes2] at h; exact h
      refine ⟨_, by simp only [lanes2]; exact if_pos (kernel2_takes h rfl), fun x y hx hy => ?_⟩
      simp only [onWord, int2, diff_lane hs hx hy]
    | _ => simp [takes2] at h
  | flt F =>
    refine ⟨_, rfl, fun v w hv hw => ?_⟩
    obtain ⟨x, rfl⟩ := has_flt hv
    obtain ⟨y, rfl⟩ := has_flt hw
    exact ⟨.flt F (fpu.fn2 f F x y), by simp only [apply2, flt_self, Option.map_some, Option.bind_some], rfl, by simp only [Val.enc, onFlt_self]⟩

theorem lanes3_run (fpu : Hw) (f : Fn3) {t : Ty} (h : takes3 t = true) : ∃ g, lanes3 fpu f t.p = some g ∧
    ∀ u v w : Val, u.Has t → v.Has t → w.Has t → ∃ z, apply3 fpu f t u v w = some z ∧ z.Has t ∧ g u.enc v.enc w.enc = some z.enc := by
  have hc := kernel3_takes f h
  cases t with
  | bool => cases h
  | int t =>
    refine ⟨_, by simp only [lanes3, Ty.p]; exact if_pos hc, fun u v w hu hv hw => ?_⟩
    obtain ⟨x, rfl, hx⟩ := has_int hu
    obtain ⟨y, rfl, hy⟩ := has_int hv
    obtain ⟨z, rfl, hz⟩ := has_int hw
    exact ⟨.int (Pipeline.wrap t (int3 f x y z)), rfl, Pipeline.wrap_fits _ _, by simp only [Val.enc, onWord, word3_lane f hx hy hz]⟩
  | flt F =>
    refine ⟨_, by simp only [lanes3, Ty.p]; exact if_pos hc, fun u v w hu hv hw => ?_⟩
    obtain ⟨x, rfl⟩ := has_flt hu
    obtain ⟨y, rfl⟩ := has_flt hv
    obtain ⟨z, rfl⟩ := has_flt hw
    exact ⟨.flt F (fpu.fn3 f F x y z), by simp only [apply3, flt_self, Option.map_some, Option.bind_some], rfl, by simp only [Val.enc, onFlt_self]⟩

theorem fn1_op (fpu : Hw) {f : Fn1} {t : Ty} (h : takes1 f t = true) : Vec.opOk (vrt fpu) (.fn f.name) 1 t.p [t.p] := by
  obtain ⟨g, h1, _⟩ := lanes1_run fpu h
  exact ⟨by simp only [vrt, arity1, Option.getD_some], by simp [vrt, opV, fnV, name1, h1, cmpV]⟩
theorem fn2_op (fpu : Hw) {f : Fn2} {t : Ty} (h : takes2 f t = true) : Vec.opOk (vrt fpu) (.fn f.name) 2 t.p [t.p, t.p] := by
  obtain ⟨g, h1, _⟩ := lanes2_run fpu h
  exact ⟨by simp only [vrt, arity2, Option.getD_some], by simp [vrt, opV, fnV, name2, h1, cmpV]⟩
theorem fn3_op (fpu : Hw) (f : Fn3) {t : Ty} (h : takes3 t = true) : Vec.opOk (vrt fpu) (.fn f.name) 3 t.p [t.p, t.p, t.p] := by
  obtain ⟨g, h1, _⟩ := lanes3_run fpu f h
  exact ⟨by simp only [vrt, arity3, Option.getD_some], by simp [vrt, opV, fnV, name3, h1, cmpV]⟩

theorem run_fn1 (fpu : Hw) {f : Fn1} {t : Ty} (h : takes1 f t = true) {v : Val} (hv : v.Has t) :
    (((vrt fpu).op (.fn f.name) t.p [t.p]).bind fun r => r.2 [v.enc]) = (apply1 fpu f t v).map Val.enc := by
  obtain ⟨g, h1, h2⟩ := lanes1_run fpu h
  obtain ⟨w, h3, _, h4⟩ := h2 v hv
  simp [vrt, opV, fnV, name1, h1, h3, h4]
theorem run_fn2 (fpu : Hw) {f : Fn2} {t : Ty} (h : takes2 f t = true) {v w : Val} (hv : v.Has t) (hw : w.Has t) :
    (((vrt fpu).op (.fn f.name) t.p [t.p, t.p]).bind fun r => r.2 [v.enc, w.enc]) = (apply2 fpu f t v w).map Val.enc := by
  obtain ⟨g, h1, h2⟩ := lanes2_run fpu h
  obtain ⟨z, h3, _, h4⟩ := h2 v w hv hw
  simp [vrt, opV, fnV, name2, h1, h3, h4]
theorem run_fn3 (fpu : Hw) (f : Fn3) {t : Ty} (h : takes3 t = true) {u v w : Val} (hu : u.Has t) (hv : v.Has t) (hw : w.Has t) :
    (((vrt fpu).op (.fn f.name) t.p [t.p, t.p, t.p]).bind fun r => r.2 [u.enc, v.enc, w.enc]) = (apply3 fpu f t u v w).map Val.enc := by
  obtain ⟨g, h1, h2⟩ := lanes3_run fpu f h
  obtain ⟨z, h3, _, h4⟩ := h2 u v w hu hv hw
  simp [vrt, opV, fnV, name3, h1, h3, h4]

theorem kind_str (fpu : Hw) {Γ : VEnv} {lk : Name → VEx} (h : KindOk Γ lk) {a : Str} {v : Bool} (hv : a.vec Γ = some v) : Vec.kind (vrt fpu) (strOf fpu lk a) = some (v, .other) := by
  cases a with
  | text s => rw [Str.vec, Option.some.injEq] at hv; subst hv; rfl
  | var x => rw [strOf]; rcases h.2.2 x v hv with ⟨rfl, b, h2⟩ | ⟨rfl, b, h2⟩ <;> rw [h2] <;> rfl

theorem cmp_op (fpu : Hw) (o : Rel) : Vec.opOk (vrt fpu) (.bin o.sign) 2 .other [.other, .other] := by
  refine ⟨rfl, ?_⟩
  rw [rel_cmp]
  cases o <;> rfl

theorem kind_ex (fpu : Hw) {Γ : VEnv} {lk : Name → VEx} (h : KindOk Γ lk) {p : Ex} {k : Bool × Ty} (hk : Fine Γ p k) : p.Lits fpu → Vec.kind (vrt fpu) (veOf fpu lk p) = some (pty k) := by
  induction hk with
  | @lit ds s u hu =>
    intro hl
    obtain ⟨τ, v, h1, _, _, h2⟩ := constant_lit fpu (fun _ => none) (fun _ => none) ds s hl
    rw [h1] at hu; injection hu with hu; subst hu
    rw [veOf, h2]; rfl
  | @frac ip fp s u hu =>
    intro hl
    obtain ⟨τ, v, h1, _, _, h2⟩ := constant_frac fpu (fun _ => none) (fun _ => none) ip fp s hl
    rw [h1] at hu; injection hu with hu; subst hu
    rw [veOf, h2]; rfl
  | const => intro _; rfl
  | @var x k hx => intro _; rw [veOf]; rcases h.2.1 x k hx with ⟨h1, b, h2⟩ | ⟨h1, b, h2⟩ <;> rw [h2] <;> simp [Vec.kind, h1, pty]
  | neg _ hs ih =>
    intro hl
    rw [veOf, Vec.kind, ih hl, Option.bind_some, if_pos ⟨rfl, neg_op fpu hs⟩]
    simp [vrt, cmpV, pty]
  | not _ ih =>
    intro hl
    rw [veOf, Vec.kind, ih hl, Option.bind_some, if_pos ⟨rfl, not_op fpu⟩]
    simp [vrt, cmpV, pty, Ty.p]
  | arith ha hb ht hm iha ihb =>
    intro hl
    obtain ⟨h1, h2, h3, h4, h5⟩ := pair_ty fpu ht (isCon_ex fpu h ha) (isCon_ex fpu h hb) (single_flag ha)
    rw [veOf, Vec.kind, iha hl.1, ihb hl.2]
    simp only [Option.bind_some]
    rw [h1, if_pos ⟨rfl, noCall_ex fpu lk h.1 _, h2, h3, arith_op fpu _ hm⟩, arith_cmp]
    simp [pty, h4]
  | rel ha hb ht hm iha ihb =>
    intro hl
    obtain ⟨h1, h2, h3, h4, h5⟩ := pair_ty fpu ht (isCon_ex fpu h ha) (isCon_ex fpu h hb) (single_flag ha)
    rw [veOf, Vec.kind, iha hl.1, ihb hl.2]
    simp only [Option.bind_some]
    rw [h1, if_pos ⟨rfl, noCall_ex fpu lk h.1 _, h2, h3, rel_op fpu _ hm⟩, rel_cmp]
    rfl
  | @cmp o a b v w ha hb _ =>
    intro _
    rw [veOf, Vec.kind, kind_str fpu h ha, kind_str fpu h hb]
    simp only [Option.bind_some]
    rw [show (if v = true then PTy.other else if w = true then .other else .other) = .other by cases v <;> cases w <;> rfl,
      if_pos ⟨rfl, noCall_str fpu lk h.1 _, .inl rfl, .inl rfl, cmp_op fpu _⟩, rel_cmp]
    rfl
  | fn1 _ hs _ ih =>
    intro hl
    rw [veOf, Vec.kind, ih hl, Option.bind_some, if_pos ⟨rfl, fn1_op fpu hs⟩]
    simp [vrt, cmpV, pty]
  | fn2 ha hb ht hm _ iha ihb =>
    intro hl
    obtain ⟨h1, h2, h3, h4, h5⟩ := pair_ty fpu ht (isCon_ex fpu h ha) (isCon_ex fpu h hb) (single_flag ha)
    rw [veOf, Vec.kind, iha hl.1, ihb hl.2]
    simp only [Option.bind_some]
    rw [h1, if_pos ⟨rfl, noCall_ex fpu lk h.1 _, h2, h3, fn2_op fpu hm⟩]
    simp [vrt, cmpV, pty, h4]
  | @fn3 f a b c k l j m q ha hb hc ht ht2 hm _ iha ihb ihc =>
    intro hl
    obtain ⟨h1, h2, h3, h4, h5, h6, h7⟩ := triple_ty fpu (ea := veOf fpu lk a) ht ht2 (isCon_ex fpu h hb) (isCon_ex fpu h hc) (single_flag hb)
    rw [veOf, Vec.kind, iha hl.1, ihb hl.2.1, ihc hl.2.2]
    simp only [Option.bind_some]
    rw [if_neg (show ¬ (vrt fpu).isCond (.fn f.name) = true from fun h => by cases h), h1, if_pos ⟨noCall_ex fpu lk h.1 _, noCall_ex fpu lk h.1 _, h2, h3, h4, fn3_op fpu _ hm⟩]
    simp [vrt, cmpV, pty, h5]
  | @and a b f g _ _ _ iha ihb =>
    intro hl
    rw [veOf, Vec.kind, iha hl.1, ihb hl.2]
    simp only [Option.bind_some, pty, Ty.p]
    cases f <;> cases g <;> exact if_pos ⟨rfl, noCall_ex fpu lk h.1 _, .inl rfl, .inl rfl, and_op fpu⟩
  | @or a b f g _ _ _ iha ihb =>
    intro hl
    rw [veOf, Vec.kind, iha hl.1, ihb hl.2]
    simp only [Option.bind_some, pty, Ty.p]
    cases f <;> cases g <;> exact if_pos ⟨rfl, noCall_ex fpu lk h.1 _, .inl rfl, .inl rfl, or_op fpu⟩
  | pick hc ha hb ht _ _ ihc iha ihb =>
    intro hl
    obtain ⟨h1, h2, h3, h4, h5⟩ := pair_ty fpu ht (isCon_ex fpu h ha) (isCon_ex fpu h hb) (single_flag ha)
    rw [veOf, Vec.kind, ihc hl.1, iha hl.2.1, ihb hl.2.2]
    simp only [Option.bind_some]
    rw [if_pos (show (vrt fpu).isCond .sel = true from rfl), h1, if_pos ⟨rfl, noCall_ex fpu lk h.1 _, noCall_ex fpu lk h.1 _, h2, h3, sel_op fpu _⟩]
    simp [pty, h4]

/-! ## Values that exist, and have their type -/

/-- The variables have values of their types. -/
def Typed (Γ : VEnv) (ρ : Lane) : Prop := (∀ x k, Γ x = some k → ∃ v, ρ x = some v ∧ v.Has k.2) ∧ ∀ x v, Γ.str x = some v → ∃ b, ρ.str x = some b

/-- Vectors of integers hold 1, as in unused lanes. -/
def Ones (Γ : VEnv) (ρ : Lane) : Prop := ∀ x t, Γ x = some (true, .int t) → ρ x = some (.int 1)

theorem conv_self (fpu : Hw) {t : Ty} {v : Val} (h : v.Has t) : conv fpu t v = some v := by
  cases t with
  | bool => obtain ⟨b, rfl⟩ := has_bool h; rfl
  | int t => obtain ⟨z, rfl, hz⟩ := has_int h; simp only [conv, Pipeline.wrap_self hz]
  | flt F => obtain ⟨x, rfl⟩ := has_flt h; simp only [conv, fpu.resize_same]

theorem conv_fits (fpu : Hw) {a b : Ty} (h : a = b ∨ fits a b = true) {v : Val} (hv : v.Has a) : ∃ w, conv fpu b v = some w ∧ w.Has b := by
  rcases h with rfl | h
  · exact ⟨v, conv_self fpu hv, hv⟩
  · obtain ⟨_, _, h2⟩ := castV_up fpu (fits_up h)
    obtain ⟨w, h3, h4, _⟩ := h2 v hv
    exact ⟨w, h3, h4⟩

theorem together_conv {k l m : Bool × Ty} {a b : Bool} (h : together k l a b = some m) : (k.2 = m.2 ∨ fits k.2 m.2 = true) ∧ (l.2 = m.2 ∨ fits l.2 m.2 = true) := by
  rcases together_cases h with ⟨h1, rfl⟩ | ⟨_, _, h5, rfl⟩ | ⟨_, _, h5, rfl⟩
  · exact ⟨.inl rfl, .inl h1.symm⟩
  · exact ⟨.inl rfl, .inr h5⟩
  · exact ⟨.inr h5, .inl rfl⟩

theorem opposite_has {t : Ty} {v w : Val} (hv : v.Has t) (h : opposite t v = some w) : w.Has t := by
  cases t with
  | bool => obtain ⟨b, rfl⟩ := has_bool hv; simp [opposite] at h
  | int t => obtain ⟨z, rfl, _⟩ := has_int hv; simp only [opposite, Option.some.injEq] at h; subst h; exact Pipeline.wrap_fits _ _
  | flt F => obtain ⟨x, rfl⟩ := has_flt hv; simp only [opposite, flt_self, Option.map_some, Option.some.injEq] at h; subst h; rfl

theorem rel_has {o : Rel} {t : Ty} {v w z : Val} (h : relV o t v w = some z) : z.Has .bool := by
  cases t with
  | bool => cases v <;> simp [relV] at h
  | int t =>
    cases v <;> cases w <;> simp only [relV, reduceCtorEq] at h
    injection h with h; subst h; trivial
  | flt F =>
    simp only [relV, Option.bind_eq_some_iff, Option.map_eq_some_iff] at h
    obtain ⟨_, _, _, _, rfl⟩ := h
    trivial

theorem has_ex (fpu : Hw) {Γ : VEnv} {ρ : Lane} (hρ : Typed Γ ρ) {p : Ex} {k : Bool × Ty} (hk : Fine Γ p k) : p.Lits fpu → ∀ v, valueAt fpu Γ ρ p = some v → v.Has k.2 := by
  induction hk with
  | @lit ds s u hu =>
    intro hl v hv
    obtain ⟨τ, w, h1, h2, h3, _⟩ := constant_lit fpu (fun _ => none) (fun _ => none) ds s hl
    rw [h1] at hu; injection hu with hu; subst hu
    rw [valueAt, h2] at hv; injection hv with hv; subst hv; exact h3
  | @frac ip fp s u hu =>
    intro hl v hv
    obtain ⟨τ, w, h1, h2, h3, _⟩ := constant_frac fpu (fun _ => none) (fun _ => none) ip fp s hl
    rw [h1] at hu; injection hu with hu; subst hu
    rw [valueAt, h2] at hv; injection hv with hv; subst hv; exact h3
  | const => intro _ v hv; rw [valueAt, Option.some.injEq] at hv; subst hv; trivial
  | @var x k hx => intro _ v hv; obtain ⟨w, h1, h2⟩ := hρ.1 x k hx; rw [valueAt, h1] at hv; injection hv with hv; subst hv; exact h2
  | neg ha _ ih =>
    intro hl v hv
    rw [valueAt, ha.elem, Option.bind_some, Option.bind_eq_some_iff] at hv
    obtain ⟨w, h1, h2⟩ := hv
    exact opposite_has (ih hl w h1) h2
  | not _ ih =>
    intro hl v hv
    rw [valueAt] at hv
    split at hv
    · injection hv with hv; subst hv; trivial
    · cases hv
  | arith ha hb h hm iha ihb =>
    intro hl v hv
    simp only [valueAt, ha.common hb h, Option.bind_some, Option.bind_eq_some_iff] at hv
    obtain ⟨x, _, y, _, x', h1, y', h2, h3⟩ := hv
    exact arith_has fpu _ (conv_has fpu h1) (conv_has fpu h2) h3
  | rel ha hb h hm iha ihb =>
    intro hl v hv
    simp only [valueAt, ha.common hb h, Option.bind_some, Option.bind_eq_some_iff] at hv
    obtain ⟨x, _, y, _, x', h1, y', h2, h3⟩ := hv
    exact rel_has h3
  | cmp ha hb _ =>
    intro _ v hv
    simp only [valueAt, Option.bind_eq_some_iff, Option.map_eq_some_iff] at hv
    obtain ⟨x, _, y, _, rfl⟩ := hv
    trivial
  | fn1 ha h _ ih =>
    intro hl v hv
    rw [valueAt, ha.elem, Option.bind_some, Option.bind_eq_some_iff] at hv
    obtain ⟨w, h1, h2⟩ := hv
    obtain ⟨_, _, h3⟩ := lanes1_run fpu h
    obtain ⟨z, h4, h5, _⟩ := h3 w (ih hl w h1)
    rw [h4] at h2; injection h2 with h2; subst h2; exact h5
  | fn2 ha hb h hm _ iha ihb =>
    intro hl v hv
    simp only [valueAt, ha.common hb h, Option.bind_some, Option.bind_eq_some_iff] at hv
    obtain ⟨x, _, y, _, x', h1, y', h2, h3⟩ := hv
    obtain ⟨_, _, h4⟩ := lanes2_run fpu hm
    obtain ⟨z, h5, h6, _⟩ := h4 _ _ (conv_has fpu h1) (conv_has fpu h2)
    rw [h5] at h3; injection h3 with h3; subst h3; exact h6
  | @fn3 f a b c k l j m q ha hb hc h h2 hm _ iha ihb ihc =>
    intro hl v hv
    simp only [valueAt, ha.elem, Option.bind_some, Option.bind_eq_some_iff] at hv
    obtain ⟨x, hx, y, _, z, _, y', h3, z', h4, h5⟩ := hv
    obtain ⟨rfl, _⟩ := together_first h
    obtain ⟨rfl, _⟩ := together_first h2
    obtain ⟨_, _, h6⟩ := lanes3_run fpu f hm
    obtain ⟨r, h7, h8, _⟩ := h6 _ _ _ (iha hl.1 x hx) (conv_has fpu h3) (conv_has fpu h4)
    rw [h7] at h5; injection h5 with h5; subst h5; exact h8
  | and _ _ _ iha ihb =>
    intro hl v hv
    rw [valueAt] at hv
    split at hv
    · exact ihb hl.2 v hv
    · injection hv with hv; subst hv; trivial
    · cases hv
  | or _ _ _ iha ihb =>
    intro hl v hv
    rw [valueAt] at hv
    split at hv
    · injection hv with hv; subst hv; trivial
    · exact ihb hl.2 v hv
    · cases hv
  | pick hc ha hb h _ _ ihc iha ihb =>
    intro hl v hv
    rw [valueAt, ha.common hb h, Option.bind_some] at hv
    split at hv
    · rw [Option.bind_eq_some_iff] at hv; obtain ⟨_, _, hv⟩ := hv; exact conv_has fpu hv
    · rw [Option.bind_eq_some_iff] at hv; obtain ⟨_, _, hv⟩ := hv; exact conv_has fpu hv
    · cases hv

theorem arith_def (fpu : Hw) (o : Arith) {t : Ty} (ht : t ≠ .bool) {v w : Val} (hv : v.Has t) (hw : w.Has t) (hd : o = .div ∨ o = .mod → ∀ u z, t = .int u → w = .int z → z ≠ 0 ∧ z ≠ -1) :
    ∃ z, arithV fpu o t v w = some z := by
  cases t with
  | bool => exact absurd rfl ht
  | int t =>
    obtain ⟨x, rfl, _⟩ := has_int hv
    obtain ⟨y, rfl, _⟩ := has_int hw
    obtain ⟨z, hz⟩ := Pipeline.calc_safe o t x y fun ho => hd ho t y rfl rfl
    exact ⟨.int z, by simp only [arithV, hz, Option.map_some]⟩
  | flt F =>
    obtain ⟨x, rfl⟩ := has_flt hv
    obtain ⟨y, rfl⟩ := has_flt hw
    exact ⟨_, by simp only [arithV, flt_self, Option.bind_some, Option.map_some]; rfl⟩

theorem rel_def (fpu : Hw) (o : Rel) {t : Ty} (ht : t ≠ .bool) {v w : Val} (hv : v.Has t) (hw : w.Has t) : ∃ b, relV o t v w = some (.bool b) := by
  obtain ⟨r, b, _, _, h, _⟩ := rel_run fpu o ht hv hw
  exact ⟨b, h⟩

theorem opposite_def {t : Ty} (ht : signed t = true) {v : Val} (hv : v.Has t) : ∃ w, opposite t v = some w := by
  cases t with
  | bool => simp [signed] at ht
  | int t => obtain ⟨x, rfl, _⟩ := has_int hv; exact ⟨_, rfl⟩
  | flt F => obtain ⟨x, rfl⟩ := has_flt hv; exact ⟨.flt F { x with neg := !x.neg }, by simp only [opposite, flt_self, Option.map_some]⟩

/-- A small literal is that number in every integer type. -/
theorem small_conv (fpu : Hw) {Γ : VEnv} {ρ : Lane} {b : Ex} (h : b.SmallDivisor) {u : IntTy} {w y : Val} (hw : valueAt fpu Γ ρ b = some w) (hy : conv fpu (.int u) w = some y) :
    ∃ n : Int, y = .int n ∧ 1 ≤ n ∧ n ≤ 127 := by
  cases b <;> simp only [Ex.SmallDivisor] at h
  obtain ⟨n, h1, h2, h3⟩ := small_value fpu (Γ := fun _ => none) (ρ := fun _ => none) h
  rw [valueAt, h1] at hw; injection hw with hw; subst hw
  simp only [conv, Option.some.injEq] at hy
  rw [Pipeline.wrap_self (Pipeline.small_fits _ _ (by omega) (by omega))] at hy
  exact ⟨n, hy.symm, h2, h3⟩

theorem str_def {Γ : VEnv} {ρ : Lane} (hρ : Typed Γ ρ) {a : Str} {v : Bool} (hv : a.vec Γ = some v) : ∃ b, a.value ρ = some b := by
  cases a with
  | text s => exact ⟨_, rfl⟩
  | var x => exact hρ.2 x v hv

theorem def_ex (fpu : Hw) {Γ : VEnv} {ρ : Lane} (hρ : Typed Γ ρ) {p : Ex} {k : Bool × Ty} (hk : Fine Γ p k) : p.Lits fpu → (Sure Γ p ∨ (Ones Γ ρ ∧ Guarded Γ p)) →
    ∃ v, valueAt fpu Γ ρ p = some v ∧ v.Has k.2 := by
  suffices H : p.Lits fpu → (Sure Γ p ∨ (Ones Γ ρ ∧ Guarded Γ p)) → ∃ v, valueAt fpu Γ ρ p = some v by
    intro hl hs; obtain ⟨v, hv⟩ := H hl hs; exact ⟨v, hv, has_ex fpu hρ hk hl v hv⟩
  induction hk with
  | @lit ds s u hu =>
    intro hl _
    obtain ⟨τ, w, _, h2, _⟩ := constant_lit fpu (fun _ => none) (fun _ => none) ds s hl
    exact ⟨w, h2⟩
  | @frac ip fp s u hu =>
    intro hl _
    obtain ⟨τ, w, _, h2, _⟩ := constant_frac fpu (fun _ => none) (fun _ => none) ip fp s hl
    exact ⟨w, h2⟩
  | const => intro _ _; exact ⟨_, rfl⟩
  | @var x k hx => intro _ _; obtain ⟨w, h1, _⟩ := hρ.1 x k hx; exact ⟨w, h1⟩
  | neg ha hs ih =>
    intro hl h
    rw [Sure, Guarded] at h
    obtain ⟨v, hv⟩ := ih hl h
    rw [valueAt, ha.elem, hv]
    exact opposite_def hs (has_ex fpu hρ ha hl v hv)
  | not ha ih =>
    intro hl h
    rw [Sure, Guarded] at h
    obtain ⟨v, hv⟩ := ih hl h
    obtain ⟨b, rfl⟩ := has_bool (has_ex fpu hρ ha hl v hv)
    rw [valueAt, hv]
    exact ⟨_, rfl⟩
  | @arith o a b k l m ha hb ht hm iha ihb =>
    intro hl h
    rw [Sure, Guarded] at h
    obtain ⟨x, hx⟩ := iha hl.1 (h.imp (·.1) fun h => ⟨h.1, h.2.1⟩)
    obtain ⟨y, hy⟩ := ihb hl.2 (h.imp (·.2.1) fun h => ⟨h.1, h.2.2.1⟩)
    have hc := together_conv ht
    obtain ⟨x', hx', tx⟩ := conv_fits fpu hc.1 (has_ex fpu hρ ha hl.1 x hx)
    obtain ⟨y', hy', ty⟩ := conv_fits fpu hc.2 (has_ex fpu hρ hb hl.2 y hy)
    rw [valueAt, ha.common hb ht, hx, hy]
    simp only [Option.bind_some, hx', hy']
    refine arith_def fpu o hm tx ty fun ho u z hu hz => ?_
    have hd : b.SmallDivisor ∨ Floating Γ (.arith o a b) ∨ (Ones Γ ρ ∧ ∃ x t, b = .var x ∧ Γ x = some (true, t)) := by
      rcases h with h | h
      · exact (h.2.2 ho).imp id .inl
      · exact (h.2.2.2 ho).imp id fun h' => h'.imp id fun h' => ⟨h.1, h'⟩
    rcases hd with hd | ⟨f, F, hd⟩ | ⟨ho', x, t, rfl, hd⟩
    · rw [hu] at hy'
      obtain ⟨n, h1, h2⟩ := small_conv fpu hd hy hy'
      rw [hz] at h1; injection h1 with h1
      omega
    · rw [(Fine.arith ha hb ht hm).elem, Option.some.injEq] at hd
      rw [hd] at hu
      cases hu
    · have e := hb.elem
      rw [elemOf, hd, Option.some.injEq] at e; subst e
      rcases hc.2 with hc | hc
      · simp only at hc
        rw [hc, hu] at hd
        rw [valueAt, ho' x u hd, Option.some.injEq] at hy; subst hy
        rw [hu] at hy'
        simp only [conv, Option.some.injEq] at hy'
        rw [Pipeline.wrap_self (Pipeline.small_fits _ _ (by omega) (by omega)), hz] at hy'
        injection hy' with hy'
        omega
      · simp only at hc
        rw [hu] at hc
        cases t with
        | bool => cases hc
        | flt F => cases hc
        | int t =>
          rw [valueAt, ho' x t hd, Option.some.injEq] at hy; subst hy
          rw [hu] at hy'
          simp only [conv, Option.some.injEq] at hy'
          rw [Pipeline.wrap_self (Pipeline.small_fits _ _ (by omega) (by omega)), hz] at hy'
          injection hy' with hy'
          omega
  | @rel o a b k l m ha hb ht hm iha ihb =>
    intro hl h
    rw [Sure, Guarded] at h
    obtain ⟨x, hx⟩ := iha hl.1 (h.imp (·.1) fun h => ⟨h.1, h.2.1⟩)
    obtain ⟨y, hy⟩ := ihb hl.2 (h.imp (·.2) fun h => ⟨h.1, h.2.2⟩)
    have hc := together_conv ht
    obtain ⟨x', hx', tx⟩ := conv_fits fpu hc.1 (has_ex fpu hρ ha hl.1 x hx)
    obtain ⟨y', hy', ty⟩ := conv_fits fpu hc.2 (has_ex fpu hρ hb hl.2 y hy)
    rw [valueAt, ha.common hb ht, hx, hy]
    simp only [Option.bind_some, hx', hy']
    obtain ⟨b, hb⟩ := rel_def fpu o hm tx ty
    exact ⟨_, hb⟩
  | cmp ha hb _ =>
    intro _ _
    obtain ⟨x, hx⟩ := str_def hρ ha
    obtain ⟨y, hy⟩ := str_def hρ hb
    rw [valueAt, hx, hy]
    exact ⟨_, rfl⟩
  | fn1 ha hs _ ih =>
    intro hl h
    rw [Sure, Guarded] at h
    obtain ⟨v, hv⟩ := ih hl h
    rw [valueAt, ha.elem, hv]
    obtain ⟨_, _, h3⟩ := lanes1_run fpu hs
    obtain ⟨z, h4, _⟩ := h3 v (has_ex fpu hρ ha hl v hv)
    exact ⟨z, h4⟩
  | @fn2 f a b k l m ha hb ht hm _ iha ihb =>
    intro hl h
    rw [Sure, Guarded] at h
    obtain ⟨x, hx⟩ := iha hl.1 (h.imp (·.1) fun h => ⟨h.1, h.2.1⟩)
    obtain ⟨y, hy⟩ := ihb hl.2 (h.imp (·.2) fun h => ⟨h.1, h.2.2⟩)
    have hc := together_conv ht
    obtain ⟨x', hx', tx⟩ := conv_fits fpu hc.1 (has_ex fpu hρ ha hl.1 x hx)
    obtain ⟨y', hy', ty⟩ := conv_fits fpu hc.2 (has_ex fpu hρ hb hl.2 y hy)
    rw [valueAt, ha.common hb ht, hx, hy]
    simp only [Option.bind_some, hx', hy']
    obtain ⟨_, _, h3⟩ := lanes2_run fpu hm
    obtain ⟨z, h4, _⟩ := h3 _ _ tx ty
    exact ⟨z, h4⟩
  | @fn3 f a b c k l j m q ha hb hc ht ht2 hm _ iha ihb ihc =>
    intro hl h
    rw [Sure, Guarded] at h
    obtain ⟨x, hx⟩ := iha hl.1 (h.imp (·.1) fun h => ⟨h.1, h.2.1⟩)
    obtain ⟨y, hy⟩ := ihb hl.2.1 (h.imp (·.2.1) fun h => ⟨h.1, h.2.2.1⟩)
    obtain ⟨z, hz⟩ := ihc hl.2.2 (h.imp (·.2.2) fun h => ⟨h.1, h.2.2.2⟩)
    obtain ⟨rfl, h3⟩ := together_first ht
    obtain ⟨rfl, h4⟩ := together_first ht2
    obtain ⟨y', hy', ty⟩ := conv_fits fpu (h3.imp Eq.symm (·.2.2)) (has_ex fpu hρ hb hl.2.1 y hy)
    obtain ⟨z', hz', tz⟩ := conv_fits fpu (h4.imp Eq.symm (·.2.2)) (has_ex fpu hρ hc hl.2.2 z hz)
    rw [valueAt, ha.elem, hx, hy, hz]
    simp only [Option.bind_some]
    rw [hy', hz']
    obtain ⟨_, _, h5⟩ := lanes3_run fpu f hm
    obtain ⟨r, h6, _⟩ := h5 _ _ _ (has_ex fpu hρ ha hl.1 x hx) ty tz
    exact ⟨r, h6⟩
  | and ha hb _ iha ihb =>
    intro hl h
    rw [Sure, Guarded] at h
    obtain ⟨x, hx⟩ := iha hl.1 (h.imp (·.1) fun h => ⟨h.1, h.2.1⟩)
    obtain ⟨y, hy⟩ := ihb hl.2 (.inl (h.elim (·.2) (·.2.2)))
    obtain ⟨b, rfl⟩ := has_bool (has_ex fpu hρ ha hl.1 x hx)
    rw [valueAt, hx, hy]
    cases b <;> exact ⟨_, rfl⟩
  | or ha hb _ iha ihb =>
    intro hl h
    rw [Sure, Guarded] at h
    obtain ⟨x, hx⟩ := iha hl.1 (h.imp (·.1) fun h => ⟨h.1, h.2.1⟩)
    obtain ⟨y, hy⟩ := ihb hl.2 (.inl (h.elim (·.2) (·.2.2)))
    obtain ⟨b, rfl⟩ := has_bool (has_ex fpu hρ ha hl.1 x hx)
    rw [valueAt, hx, hy]
    cases b <;> exact ⟨_, rfl⟩
  | pick hc ha hb ht _ _ ihc iha ihb =>
    intro hl h
    rw [Sure, Guarded] at h
    obtain ⟨z, hz⟩ := ihc hl.1 (h.imp (·.1) fun h => ⟨h.1, h.2.1⟩)
    obtain ⟨x, hx⟩ := iha hl.2.1 (.inl (h.elim (·.2.1) (·.2.2.1)))
    obtain ⟨y, hy⟩ := ihb hl.2.2 (.inl (h.elim (·.2.2) (·.2.2.2)))
    have hcv := together_conv ht
    obtain ⟨x', hx', tx⟩ := conv_fits fpu hcv.1 (has_ex fpu hρ ha hl.2.1 x hx)
    obtain ⟨y', hy', ty⟩ := conv_fits fpu hcv.2 (has_ex fpu hρ hb hl.2.2 y hy)
    obtain ⟨b, rfl⟩ := has_bool (has_ex fpu hρ hc hl.1 z hz)
    rw [valueAt, ha.common hb ht, hz, hx, hy, Option.bind_some]
    cases b
    · exact ⟨y', hy'⟩
    · exact ⟨x', hx'⟩

/-! ## Values of the code -/

/-- The leaves hold what the specification is given. -/
def LeafOk (fpu : Hw) (Γ : VEnv) (ρ : Lane) (lk : Name → VEx) (leaf : PTy → Nat → Option MV) : Prop :=
  (∀ x k, Γ x = some k → Vec.valE (vrt fpu) leaf (lk x) = (ρ x).map Val.enc) ∧
    ∀ x v b, Γ.str x = some v → ρ.str x = some b → ∃ w, Vec.valE (vrt fpu) leaf (lk x) = some (.word w) ∧ fpu.Shows w b

theorem conv_vec (fpu : Hw) {a b : Ty} (h : a = b ∨ fits a b = true) {v w : Val} (hv : v.Has a) (hw : conv fpu b v = some w) : Vec.conv (vrt fpu) a.p b.p v.enc = some w.enc := by
  rcases h with rfl | h
  · rw [conv_self fpu hv, Option.some.injEq] at hw; subst hw
    unfold Vec.conv
    rw [if_pos rfl]
  · obtain ⟨f, h1, h2⟩ := castV_up fpu (fits_up h)
    obtain ⟨w', h3, _, h5⟩ := h2 v hv
    rw [h3, Option.some.injEq] at hw; subst hw
    unfold castV at h1
    unfold Vec.conv
    split at h1
    · next e => injection h1 with h1; subst h1; rw [if_pos e]; exact congrArg some h5
    · next e => rw [if_neg e, show (vrt fpu).cast = castT fpu from rfl, h1, Option.map_some, h5]

theorem run_arith (fpu : Hw) (o : Arith) {t : Ty} (h : t ≠ .bool) {v w : Val} (hv : v.Has t) (hw : w.Has t) :
    (((vrt fpu).op (.bin o.sign) t.p [t.p, t.p]).bind fun r => r.2 [v.enc, w.enc]) = (arithV fpu o t v w).map Val.enc := by
  obtain ⟨r, h1, _, h3⟩ := arith_run fpu o h hv hw
  simp only [vrt, opV, binV_num fpu _ h, h1, and_self, if_true, Option.map_some, Option.bind_some, h3]

theorem run_rel (fpu : Hw) (o : Rel) {t : Ty} (h : t ≠ .bool) {v w : Val} (hv : v.Has t) (hw : w.Has t) :
    (((vrt fpu).op (.bin o.sign) t.p [t.p, t.p]).bind fun r => r.2 [v.enc, w.enc]) = (relV o t v w).map Val.enc := by
  obtain ⟨r, b, h1, _, h2, h3⟩ := rel_run fpu o h hv hw
  simp only [vrt, opV, binV_num fpu _ h, h1, and_self, if_true, Option.map_some, Option.bind_some, h3, h2, enc_bool]

theorem run_neg (fpu : Hw) {t : Ty} (h : signed t = true) {v : Val} (hv : v.Has t) : (((vrt fpu).op (.un .neg) t.p [t.p]).bind fun r => r.2 [v.enc]) = (opposite t v).map Val.enc := by
  obtain ⟨w, h1, _, h2⟩ := neg_run fpu (fun u hu => by subst hu; exact h) (fun hu => by subst hu; cases h) hv
  rw [h1]
  simp only [Scalar.unTV, show (rt fpu).un = unT from rfl, Option.bind_eq_some_iff, Option.map_eq_some_iff, Prod.mk.injEq] at h2
  obtain ⟨r, h3, x, h4, h5, h6⟩ := h2
  simp only [vrt, opV, if_true, h3, Option.map_some, Option.bind_some, h4, h6]

theorem run_not (fpu : Hw) (a : Bool) : (((vrt fpu).op (.un .not) .bit [.bit]).bind fun r => r.2 [(Val.bool a).enc]) = some (Val.bool !a).enc := by cases a <;> rfl
theorem run_and (fpu : Hw) (a b : Bool) : (((vrt fpu).op (.bin .and) .bit [.bit, .bit]).bind fun r => r.2 [(Val.bool a).enc, (Val.bool b).enc]) = some (Val.bool (a && b)).enc := by
  cases a <;> cases b <;> rfl
theorem run_or (fpu : Hw) (a b : Bool) : (((vrt fpu).op (.bin .or) .bit [.bit, .bit]).bind fun r => r.2 [(Val.bool a).enc, (Val.bool b).enc]) = some (Val.bool (a || b)).enc := by
  cases a <;> cases b <;> rfl
theorem run_sel (fpu : Hw) (z : Bool) (t : PTy) (x y : MV) : (((vrt fpu).op .sel t [.bit, t, t]).bind fun r => r.2 [(Val.bool z).enc, x, y]) = some (if z = true then x else y) := by
  cases z <;> simp [vrt, opV, Val.enc, pickV]

theorem run_cmp (fpu : Hw) (o : Rel) {x y : Int} {a b : List Byte} (hx : fpu.Shows x a) (hy : fpu.Shows y b) :
    (((vrt fpu).op (.bin o.sign) .other [.other, .other]).bind fun r => r.2 [.word x, .word y]) = some (Val.bool (relStr o a b)).enc := by
  obtain ⟨ha, j1, hx⟩ := hx
  obtain ⟨hb, j2, hy⟩ := hy
  obtain ⟨op, h1, h2⟩ := Words.cmp_sign o
  have key := Types.Str.string_ops_lex op j1 j2 a b ha hb
  rw [h2] at key
  simp [vrt, opV, binV, h1, hx, hy, key, enc_bool]

theorem meet_bit (f g : Bool) : Vec.meet [pty (f, .bool), pty (g, .bool)] = some .bit := by cases f <;> cases g <;> rfl

section
variable (fpu : Hw) {Γ : VEnv} {ρ : Lane} (hρ : Typed Γ ρ) {lk : Name → VEx} (h : KindOk Γ lk) {leaf : PTy → Nat → Option MV} (hv : LeafOk fpu Γ ρ lk leaf)
include hρ h hv

theorem val_str {a : Str} {v : Bool} (ha : a.vec Γ = some v) (hl : ∀ s, a = .text s → '\\' ∉ s ∧ (bytes s).length < 2 ^ 31) :
    ∃ w b, Vec.valE (vrt fpu) leaf (strOf fpu lk a) = some (.word w) ∧ a.value ρ = some b ∧ fpu.Shows w b := by
  cases a with
  | text s => exact ⟨_, _, rfl, rfl, (hl s rfl).2, fpu.view_text s⟩
  | var x =>
    obtain ⟨b, hb⟩ := hρ.2 x v ha
    obtain ⟨w, h1, h2⟩ := hv.2 x v b ha hb
    exact ⟨w, b, h1, hb, h2⟩

theorem val_ex {p : Ex} {k : Bool × Ty} (hk : Fine Γ p k) : p.Lits fpu → (Sure Γ p ∨ Guarded Γ p) → Vec.valE (vrt fpu) leaf (veOf fpu lk p) = (valueAt fpu Γ ρ p).map Val.enc := by
  induction hk with
  | @lit ds s u hu =>
    intro hl _
    obtain ⟨τ, w, _, h2, _, h4⟩ := constant_lit fpu (fun _ => none) (fun _ => none) ds s hl
    rw [veOf, h4, valueAt, h2]; rfl
  | @frac ip fp s u hu =>
    intro hl _
    obtain ⟨τ, w, _, h2, _, h4⟩ := constant_frac fpu (fun _ => none) (fun _ => none) ip fp s hl
    rw [veOf, h4, valueAt, h2]; rfl
  | const => intro _ _; rfl
  | @var x k hx => intro _ _; exact hv.1 x k hx
  | neg ha hs ih =>
    intro hl hg
    rw [Sure, Guarded] at hg
    rw [veOf, Vec.valE, kind_ex fpu h ha hl, ih hl hg, valueAt, ha.elem]
    simp only [Option.bind_some]
    cases hz : valueAt fpu Γ ρ _ with
    | none => rfl
    | some z => exact run_neg fpu hs (has_ex fpu hρ ha hl z hz)
  | not ha ih =>
    intro hl hg
    rw [Sure, Guarded] at hg
    rw [veOf, Vec.valE, kind_ex fpu h ha hl, ih hl hg, valueAt]
    simp only [Option.bind_some]
    cases hz : valueAt fpu Γ ρ _ with
    | none => rfl
    | some z => obtain ⟨b, rfl⟩ := has_bool (has_ex fpu hρ ha hl z hz); exact run_not fpu b
  | arith ha hb ht hm iha ihb =>
    intro hl hg
    rw [Sure, Guarded] at hg
    obtain ⟨_, _, _, _, h5⟩ := pair_ty fpu ht (isCon_ex fpu h ha) (isCon_ex fpu h hb) (single_flag ha)
    rw [veOf, Vec.valE, kind_ex fpu h ha hl.1, kind_ex fpu h hb hl.2, iha hl.1 (hg.imp (·.1) (·.1)), ihb hl.2 (hg.imp (·.2.1) (·.2.1)), valueAt, ha.common hb ht]
    simp only [Option.bind_some]
    rw [h5]
    simp only [Option.bind_some]
    have hc := together_conv ht
    cases hx : valueAt fpu Γ ρ _ with
    | none => rfl
    | some x =>
      cases hy : valueAt fpu Γ ρ _ with
      | none => rfl
      | some y =>
        simp only [Option.bind_some, Option.map_some, pty]
        have tx := has_ex fpu hρ ha hl.1 x hx
        have ty := has_ex fpu hρ hb hl.2 y hy
        obtain ⟨x', hx', tx'⟩ := conv_fits fpu hc.1 tx
        obtain ⟨y', hy', ty'⟩ := conv_fits fpu hc.2 ty
        rw [conv_vec fpu hc.1 tx hx', conv_vec fpu hc.2 ty hy', hx', hy']
        exact run_arith fpu _ hm tx' ty'
  | rel ha hb ht hm iha ihb =>
    intro hl hg
    rw [Sure, Guarded] at hg
    obtain ⟨_, _, _, _, h5⟩ := pair_ty fpu ht (isCon_ex fpu h ha) (isCon_ex fpu h hb) (single_flag ha)
    rw [veOf, Vec.valE, kind_ex fpu h ha hl.1, kind_ex fpu h hb hl.2, iha hl.1 (hg.imp (·.1) (·.1)), ihb hl.2 (hg.imp (·.2) (·.2)), valueAt, ha.common hb ht]
    simp only [Option.bind_some]
    rw [h5]
    simp only [Option.bind_some]
    have hc := together_conv ht
    cases hx : valueAt fpu Γ ρ _ with
    | none => rfl
    | some x =>
      cases hy : valueAt fpu Γ ρ _ with
      | none => rfl
      | some y =>
        simp only [Option.bind_some, Option.map_some, pty]
        have tx := has_ex fpu hρ ha hl.1 x hx
        have ty := has_ex fpu hρ hb hl.2 y hy
        obtain ⟨x', hx', tx'⟩ := conv_fits fpu hc.1 tx
        obtain ⟨y', hy', ty'⟩ := conv_fits fpu hc.2 ty
        rw [conv_vec fpu hc.1 tx hx', conv_vec fpu hc.2 ty hy', hx', hy']
        exact run_rel fpu _ hm tx' ty'
  | @cmp o a b v w ha hb _ =>
    intro hl _
    obtain ⟨x, p, h1, h2, h3⟩ := val_str fpu hρ h hv ha fun s hs => hl s (.inl hs)
    obtain ⟨y, q, h4, h5, h6⟩ := val_str fpu hρ h hv hb fun s hs => hl s (.inr hs)
    rw [veOf, Vec.valE, kind_str fpu h ha, kind_str fpu h hb, h1, h4, valueAt, h2, h5]
    simp only [Option.bind_some, Option.map_some]
    rw [show Vec.meet [(v, PTy.other), (w, .other)] = some .other by cases v <;> cases w <;> rfl]
    simp only [Option.bind_some]
    rw [show Vec.conv (vrt fpu) .other .other (.word x) = some (.word x) from if_pos rfl, show Vec.conv (vrt fpu) .other .other (.word y) = some (.word y) from if_pos rfl]
    exact run_cmp fpu o h3 h6
  | fn1 ha hs _ ih =>
    intro hl hg
    rw [Sure, Guarded] at hg
    rw [veOf, Vec.valE, kind_ex fpu h ha hl, ih hl hg, valueAt, ha.elem]
    simp only [Option.bind_some]
    cases hz : valueAt fpu Γ ρ _ with
    | none => rfl
    | some z => exact run_fn1 fpu hs (has_ex fpu hρ ha hl z hz)
  | fn2 ha hb ht hm _ iha ihb =>
    intro hl hg
    rw [Sure, Guarded] at hg
    obtain ⟨_, _, _, _, h5⟩ := pair_ty fpu ht (isCon_ex fpu h ha) (isCon_ex fpu h hb) (single_flag ha)
    rw [veOf, Vec.valE, kind_ex fpu h ha hl.1, kind_ex fpu h hb hl.2, iha hl.1 (hg.imp (·.1) (·.1)), ihb hl.2 (hg.imp (·.2) (·.2)), valueAt, ha.common hb ht]
    simp only [Option.bind_some]
    rw [h5]
    simp only [Option.bind_some]
    have hc := together_conv ht
    cases hx : valueAt fpu Γ ρ _ with
    | none => rfl
    | some x =>
      cases hy : valueAt fpu Γ ρ _ with
      | none => rfl
      | some y =>
        simp only [Option.bind_some, Option.map_some, pty]
        have tx := has_ex fpu hρ ha hl.1 x hx
        have ty := has_ex fpu hρ hb hl.2 y hy
        obtain ⟨x', hx', tx'⟩ := conv_fits fpu hc.1 tx
        obtain ⟨y', hy', ty'⟩ := conv_fits fpu hc.2 ty
        rw [conv_vec fpu hc.1 tx hx', conv_vec fpu hc.2 ty hy', hx', hy']
        exact run_fn2 fpu hm tx' ty'
  | @fn3 f a b c k l j m q ha hb hc ht ht2 hm _ iha ihb ihc =>
    intro hl hg
    rw [Sure, Guarded] at hg
    obtain ⟨_, _, _, _, _, h6, h7, h8, h9⟩ := triple_ty fpu (ea := veOf fpu lk a) ht ht2 (isCon_ex fpu h hb) (isCon_ex fpu h hc) (single_flag hb)
    rw [veOf, Vec.valE, kind_ex fpu h ha hl.1, kind_ex fpu h hb hl.2.1, kind_ex fpu h hc hl.2.2, iha hl.1 (hg.imp (·.1) (·.1)), ihb hl.2.1 (hg.imp (·.2.1) (·.2.1)),
      ihc hl.2.2 (hg.imp (·.2.2) (·.2.2)), valueAt, ha.elem]
    simp only [Option.bind_some]
    cases hx : valueAt fpu Γ ρ a with
    | none => rfl
    | some x =>
      cases hy : valueAt fpu Γ ρ b with
      | none => rfl
      | some y =>
        cases hz : valueAt fpu Γ ρ c with
        | none => rfl
        | some z =>
          simp only [Option.bind_some, Option.map_some]
          rw [if_neg (show ¬ (vrt fpu).isCond (.fn f.name) = true from fun h => by cases h), h6]
          simp only [Option.bind_some, pty]
          have tx := has_ex fpu hρ ha hl.1 x hx
          have ty := has_ex fpu hρ hb hl.2.1 y hy
          have tz := has_ex fpu hρ hc hl.2.2 z hz
          rw [h7] at hm ⊢
          obtain ⟨y', hy', ty'⟩ := conv_fits fpu h8 ty
          obtain ⟨z', hz', tz'⟩ := conv_fits fpu h9 tz
          rw [conv_vec fpu (.inl rfl) tx (conv_self fpu tx), conv_vec fpu h8 ty hy', conv_vec fpu h9 tz hz', hy', hz']
          exact run_fn3 fpu f hm tx ty' tz'
  | @and a b f g ha hb _ iha ihb =>
    intro hl hg
    rw [Sure, Guarded] at hg
    have sb : Sure Γ b := hg.elim (·.2) (·.2)
    obtain ⟨y, hy, ty⟩ := def_ex fpu hρ hb hl.2 (.inl sb)
    obtain ⟨c, rfl⟩ := has_bool ty
    rw [veOf, Vec.valE, kind_ex fpu h ha hl.1, kind_ex fpu h hb hl.2, iha hl.1 (hg.imp (·.1) (·.1)), ihb hl.2 (.inl sb), valueAt, hy]
    simp only [Option.bind_some, meet_bit]
    cases hx : valueAt fpu Γ ρ _ with
    | none => rfl
    | some x =>
      obtain ⟨b, rfl⟩ := has_bool (has_ex fpu hρ ha hl.1 x hx)
      refine (run_and fpu b c).trans ?_
      cases b <;> rfl
  | @or a b f g ha hb _ iha ihb =>
    intro hl hg
    rw [Sure, Guarded] at hg
    have sb : Sure Γ b := hg.elim (·.2) (·.2)
    obtain ⟨y, hy, ty⟩ := def_ex fpu hρ hb hl.2 (.inl sb)
    obtain ⟨c, rfl⟩ := has_bool ty
    rw [veOf, Vec.valE, kind_ex fpu h ha hl.1, kind_ex fpu h hb hl.2, iha hl.1 (hg.imp (·.1) (·.1)), ihb hl.2 (.inl sb), valueAt, hy]
    simp only [Option.bind_some, meet_bit]
    cases hx : valueAt fpu Γ ρ _ with
    | none => rfl
    | some x =>
      obtain ⟨b, rfl⟩ := has_bool (has_ex fpu hρ ha hl.1 x hx)
      refine (run_or fpu b c).trans ?_
      cases b <;> rfl
  | @pick c a b f k l m hc ha hb ht _ _ ihc iha ihb =>
    intro hl hg
    rw [Sure, Guarded] at hg
    have sa : Sure Γ a := hg.elim (·.2.1) (·.2.1)
    have sb : Sure Γ b := hg.elim (·.2.2) (·.2.2)
    obtain ⟨x, hx, tx⟩ := def_ex fpu hρ ha hl.2.1 (.inl sa)
    obtain ⟨y, hy, ty⟩ := def_ex fpu hρ hb hl.2.2 (.inl sb)
    have hcv := together_conv ht
    obtain ⟨x', hx', tx'⟩ := conv_fits fpu hcv.1 tx
    obtain ⟨y', hy', ty'⟩ := conv_fits fpu hcv.2 ty
    obtain ⟨_, _, _, _, h5⟩ := pair_ty fpu ht (isCon_ex fpu h ha) (isCon_ex fpu h hb) (single_flag ha)
    rw [veOf, Vec.valE, kind_ex fpu h hc hl.1, kind_ex fpu h ha hl.2.1, kind_ex fpu h hb hl.2.2, ihc hl.1 (hg.imp (·.1) (·.1)), iha hl.2.1 (.inl sa), ihb hl.2.2 (.inl sb), valueAt,
      ha.common hb ht, hx, hy]
    simp only [Option.bind_some]
    rw [h5]
    simp only [Option.bind_some]
    cases hz : valueAt fpu Γ ρ _ with
    | none => rfl
    | some z =>
      obtain ⟨d, rfl⟩ := has_bool (has_ex fpu hρ hc hl.1 z hz)
      simp only [Option.bind_some, Option.map_some, pty]
      rw [if_pos (show (vrt fpu).isCond .sel = true from rfl), conv_vec fpu hcv.1 tx hx', conv_vec fpu hcv.2 ty hy']
      refine (run_sel fpu d _ _ _).trans ?_
      cases d
      · simp [hy']
      · simp [hx']

end

/-! ## Vectors of an expression -/

theorem leaves_str (fpu : Hw) {Γ : VEnv} {lk : Name → VEx} (h : KindOk Γ lk) {a : Str} (ha : a.vec Γ = some true) : Vec.leaves (strOf fpu lk a) ≠ [] := by
  cases a with
  | text s => cases ha
  | var x =>
    rw [strOf]
    rcases h.2.2 x true ha with ⟨_, b, h2⟩ | ⟨h1, _⟩
    · rw [h2]; simp [Vec.leaves]
    · cases h1

theorem leaves_ex (fpu : Hw) {Γ : VEnv} {lk : Name → VEx} (h : KindOk Γ lk) {p : Ex} {k : Bool × Ty} (hk : Fine Γ p k) : hasV Γ p = true → Vec.leaves (veOf fpu lk p) ≠ [] := by
  induction hk with
  | lit => intro hv; cases hv
  | frac => intro hv; cases hv
  | const => intro hv; cases hv
  | @var x k hx =>
    intro hv
    rw [hasV, hx] at hv
    rw [veOf]
    rcases h.2.1 x k hx with ⟨h1, b, h2⟩ | ⟨h1, b, h2⟩
    · rw [h2]; simp [Vec.leaves]
    · simp [h1] at hv
  | neg _ _ ih => exact ih
  | not _ ih => exact ih
  | arith _ _ _ _ iha ihb =>
    intro hv he; rw [hasV, Bool.or_eq_true] at hv
    exact hv.elim (fun hv => iha hv (List.append_eq_nil_iff.1 he).1) fun hv => ihb hv (List.append_eq_nil_iff.1 he).2
  | rel _ _ _ _ iha ihb =>
    intro hv he; rw [hasV, Bool.or_eq_true] at hv
    exact hv.elim (fun hv => iha hv (List.append_eq_nil_iff.1 he).1) fun hv => ihb hv (List.append_eq_nil_iff.1 he).2
  | cmp ha hb h3 =>
    intro _ he
    rcases h3 with rfl | rfl
    · exact leaves_str fpu h ha (List.append_eq_nil_iff.1 he).1
    · exact leaves_str fpu h hb (List.append_eq_nil_iff.1 he).2
  | fn1 _ _ _ ih => exact ih
  | fn2 _ _ _ _ _ iha ihb =>
    intro hv he; rw [hasV, Bool.or_eq_true] at hv
    exact hv.elim (fun hv => iha hv (List.append_eq_nil_iff.1 he).1) fun hv => ihb hv (List.append_eq_nil_iff.1 he).2
  | fn3 _ _ _ _ _ _ _ iha ihb ihc =>
    intro hv he; rw [hasV, Bool.or_eq_true, Bool.or_eq_true] at hv
    rcases hv with (hv | hv) | hv
    · exact iha hv (List.append_eq_nil_iff.1 (List.append_eq_nil_iff.1 he).1).1
    · exact ihb hv (List.append_eq_nil_iff.1 (List.append_eq_nil_iff.1 he).1).2
    · exact ihc hv (List.append_eq_nil_iff.1 he).2
  | and _ _ _ iha ihb =>
    intro hv he; rw [hasV, Bool.or_eq_true] at hv
    exact hv.elim (fun hv => iha hv (List.append_eq_nil_iff.1 he).1) fun hv => ihb hv (List.append_eq_nil_iff.1 he).2
  | or _ _ _ iha ihb =>
    intro hv he; rw [hasV, Bool.or_eq_true] at hv
    exact hv.elim (fun hv => iha hv (List.append_eq_nil_iff.1 he).1) fun hv => ihb hv (List.append_eq_nil_iff.1 he).2
  | pick _ _ _ _ _ _ ihc iha ihb =>
    intro hv he; rw [hasV, Bool.or_eq_true, Bool.or_eq_true] at hv
    rcases hv with (hv | hv) | hv
    · exact ihc hv (List.append_eq_nil_iff.1 (List.append_eq_nil_iff.1 he).1).1
    · exact iha hv (List.append_eq_nil_iff.1 (List.append_eq_nil_iff.1 he).1).2
    · exact ihb hv (List.append_eq_nil_iff.1 he).2

/-- The vectors of an expression are variables that it is typed with. -/
theorem mem_leaves (fpu : Hw) {Γ : VEnv} (lk : Name → VEx) {q : PTy × Nat} {p : Ex} {k : Bool × Ty} (hk : Fine Γ p k) : q ∈ Vec.leaves (veOf fpu lk p) → ∃ x, ((∃ l, Γ x = some l) ∨ ∃ v, Γ.str x = some v) ∧ q ∈ Vec.leaves (lk x) := by
  have hstr : ∀ (a : Str) v, a.vec Γ = some v → q ∈ Vec.leaves (strOf fpu lk a) → ∃ x, ((∃ l, Γ x = some l) ∨ ∃ v, Γ.str x = some v) ∧ q ∈ Vec.leaves (lk x) := fun a v ha hq => by
    cases a with
    | text s => simp [strOf, Vec.leaves] at hq
    | var x => exact ⟨x, .inr ⟨v, ha⟩, hq⟩
  have hcon : ∀ c, q ∉ Vec.leaves (conOf c) := fun c => by cases c <;> simp [conOf, Vec.leaves]
  induction hk with
  | lit => intro h; exact absurd h (hcon _)
  | frac => intro h; exact absurd h (hcon _)
  | const => intro h; simp [veOf, Vec.leaves] at h
  | @var x k hx => intro h; exact ⟨x, .inl ⟨k, hx⟩, h⟩
  | neg _ _ ih => exact ih
  | not _ ih => exact ih
  | arith _ _ _ _ iha ihb => intro h; exact (List.mem_append.1 h).elim iha ihb
  | rel _ _ _ _ iha ihb => intro h; exact (List.mem_append.1 h).elim iha ihb
  | cmp ha hb _ => intro h; exact (List.mem_append.1 h).elim (hstr _ _ ha) (hstr _ _ hb)
  | fn1 _ _ _ ih => exact ih
  | fn2 _ _ _ _ _ iha ihb => intro h; exact (List.mem_append.1 h).elim iha ihb
  | fn3 _ _ _ _ _ _ _ iha ihb ihc => intro h; exact (List.mem_append.1 h).elim (fun h => (List.mem_append.1 h).elim iha ihb) ihc
  | and _ _ _ iha ihb => intro h; exact (List.mem_append.1 h).elim iha ihb
  | or _ _ _ iha ihb => intro h; exact (List.mem_append.1 h).elim iha ihb
  | pick _ _ _ _ _ _ ihc iha ihb => intro h; exact (List.mem_append.1 h).elim (fun h => (List.mem_append.1 h).elim ihc iha) ihb

theorem any_vec (e : VEx) (h : Vec.leaves e ≠ []) : (Vec.flat e).any isVec = true := by
  have key : ∀ e : VEx, Vec.leaves e ≠ [] → ∃ t b, Vec.Node.vec t b ∈ Vec.flat e := by
    intro e
    induction e with
    | vec t b => intro _; exact ⟨t, b, by simp [Vec.flat]⟩
    | con t v => intro h; simp [Vec.leaves] at h
    | app1 o a ih => intro h; obtain ⟨t, b, hm⟩ := ih h; exact ⟨t, b, by simp [Vec.flat, hm]⟩
    | app2 o a b iha ihb =>
      intro h
      by_cases h1 : Vec.leaves a = []
      · obtain ⟨t, b, hm⟩ := ihb (by simpa [Vec.leaves, h1] using h); exact ⟨t, b, by simp [Vec.flat, hm]⟩
      · obtain ⟨t, b, hm⟩ := iha h1; exact ⟨t, b, by simp [Vec.flat, hm]⟩
    | app3 o a b c iha ihb ihc =>
      intro h
      by_cases h1 : Vec.leaves a = []
      · by_cases h2 : Vec.leaves b = []
        · obtain ⟨t, b, hm⟩ := ihc (by simpa [Vec.leaves, h1, h2] using h); exact ⟨t, b, by simp [Vec.flat, hm]⟩
        · obtain ⟨t, b, hm⟩ := ihb h2; exact ⟨t, b, by simp [Vec.flat, hm]⟩
      · obtain ⟨t, b, hm⟩ := iha h1; exact ⟨t, b, by simp [Vec.flat, hm]⟩
    | call1 f a ih => intro h; obtain ⟨t, b, hm⟩ := ih h; exact ⟨t, b, by simp [Vec.flat, hm]⟩
    | call2 f a b iha ihb =>
      intro h
      by_cases h1 : Vec.leaves a = []
      · obtain ⟨t, b, hm⟩ := ihb (by simpa [Vec.leaves, h1] using h); exact ⟨t, b, by simp [Vec.flat, hm]⟩
      · obtain ⟨t, b, hm⟩ := iha h1; exact ⟨t, b, by simp [Vec.flat, hm]⟩
  obtain ⟨t, b, hm⟩ := key e h
  exact List.any_eq_true.2 ⟨_, hm, rfl⟩

end Verif.Comp.VecFn
