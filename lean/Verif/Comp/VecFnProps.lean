import Verif.Comp.VecFnLemmas
import Verif.Gen.VecProps
/-!
# Functions over vectors from the text to the vector: C153
-/
namespace Verif.Comp.VecFn
open Verif.Ast hiding Ty
open Verif.Ast.Rpn Verif.Gen
open Verif.Types.Conv (IntTy)
open Verif.Gen.Scalar (Name)
open Verif.Comp.Pipeline (Arith Rel decimal bit)
open Verif.Comp.Real hiding Passed Ex
open Verif.Types.Str (Byte SV)
open Verif.Comp.VecPipe (treeFlat flat_tree)

/-! ## The variables and their cells -/

/-- A vector in memory: the elements, and for bits readable words behind them. -/
def BufOk (n : Nat) (t : Ty) (l : List Val) (b : Vec.Buf MV) : Prop :=
  b.size = n ∧ (if t = .bool then Vec.up64 n else n) ≤ b.mem.length ∧ (∀ i, i < n → b.mem[i]? = (l[i]?).map Val.enc) ∧
    (t = .bool → ∀ i, n ≤ i → i < Vec.up64 n → ∃ c, b.mem[i]? = some (Val.bool c).enc)

/-- A vector of strings in memory: the views of its elements. -/
def StrBuf (fpu : Hw) (n : Nat) (l : List (List Byte)) (b : Vec.Buf MV) : Prop := b.size = n ∧ n ≤ b.mem.length ∧ ∀ (i : Nat) c, l[i]? = some c → ∃ w : Int, b.mem[i]? = some (MV.word w) ∧ fpu.Shows w c

def Held (fpu : Hw) (n : Nat) (w : World) (x : Name) : Item → Prop
  | .num t v => v.Has t ∧ ∃ s, w.vars x = some ((false, t.p), s) ∧ w.cells[s]? = some (.num v.enc)
  | .vec t l => l.length = n ∧ (∀ v ∈ l, v.Has t) ∧ ∃ s b, w.vars x = some ((true, t.p), s) ∧ w.cells[s]? = some (.vec b) ∧ BufOk n t l b
  | .str c => ∃ z s, fpu.Shows z c ∧ w.vars x = some ((false, .other), s) ∧ w.cells[s]? = some (.num (.word z))
  | .strs l => l.length = n ∧ ∃ s b, w.vars x = some ((true, .other), s) ∧ w.cells[s]? = some (.vec b) ∧ StrBuf fpu n l b

/-- The code's variables hold what those of the specification hold, each in a cell of its own. -/
structure Match (fpu : Hw) (n : Nat) (σ : Vars) (w : World) : Prop where
  held : ∀ x it, σ x = some it → Held fpu n w x it
  fresh : ∀ x, σ x = none → w.vars x = none
  apart : ∀ x y q r s, w.vars x = some (q, s) → w.vars y = some (r, s) → x = y

/-- The leaf behind a node. -/
def exOf : Option Nd → VEx
  | some (.vec t b) => .vec t b
  | some (.con t v) => .con t v
  | _ => .con .bit .poison

def lkOf (w : World) (x : Name) : VEx := exOf (w.leaf x)
def World.bufs (w : World) : List (Vec.Buf MV) := w.cells.map Cell.buf
def World.env (w : World) : Name → Option VTy := fun x => (w.vars x).map (·.1)

theorem leaf_num {n : Nat} {w : World} {x : Name} {t : Ty} {v : Val} (h : Held fpu n w x (.num t v)) : w.leaf x = some (.con t.p v.enc) := by
  obtain ⟨_, s, h1, h2⟩ := h
  simp [World.leaf, h1, h2, leafIn]

theorem leaf_vec {n : Nat} {w : World} {x : Name} {t : Ty} {l : List Val} (h : Held fpu n w x (.vec t l)) :
    ∃ s b, w.vars x = some ((true, t.p), s) ∧ w.leaf x = some (.vec t.p s) ∧ w.cells[s]? = some (.vec b) ∧ w.bufs[s]? = some b ∧ BufOk n t l b := by
  obtain ⟨_, _, s, b, h1, h2, h3⟩ := h
  exact ⟨s, b, h1, by simp [World.leaf, h1, h2, leafIn], h2, by simp [World.bufs, h2, Cell.buf], h3⟩

theorem leaf_str {fpu : Hw} {n : Nat} {w : World} {x : Name} {c : List Byte} (h : Held fpu n w x (.str c)) : ∃ z, fpu.Shows z c ∧ w.leaf x = some (.con .other (.word z)) := by
  obtain ⟨z, s, h0, h1, h2⟩ := h
  exact ⟨z, h0, by simp [World.leaf, h1, h2, leafIn]⟩

theorem leaf_strs {fpu : Hw} {n : Nat} {w : World} {x : Name} {l : List (List Byte)} (h : Held fpu n w x (.strs l)) :
    ∃ s b, w.leaf x = some (.vec .other s) ∧ w.bufs[s]? = some b ∧ StrBuf fpu n l b := by
  obtain ⟨_, s, b, h1, h2, h3⟩ := h
  exact ⟨s, b, by simp [World.leaf, h1, h2, leafIn], by simp [World.bufs, h2, Cell.buf], h3⟩

/-- The kind of a variable comes from what it holds. -/
theorem kinds_num {σ : Vars} {x : Name} {k : Bool × Ty} (h : kinds σ x = some k) : (∃ t v, σ x = some (.num t v) ∧ k = (false, t)) ∨ ∃ t l, σ x = some (.vec t l) ∧ k = (true, t) := by
  simp only [kinds, Option.bind_eq_some_iff] at h
  obtain ⟨it, h1, h2⟩ := h
  cases it with
  | num t v => injection h2 with h2; exact .inl ⟨t, v, h1, h2.symm⟩
  | vec t l => injection h2 with h2; exact .inr ⟨t, l, h1, h2.symm⟩
  | str => cases h2
  | strs => cases h2
theorem kinds_str {σ : Vars} {x : Name} {v : Bool} (h : (kinds σ).str x = some v) : (∃ c, σ x = some (.str c) ∧ v = false) ∨ ∃ l, σ x = some (.strs l) ∧ v = true := by
  simp only [kinds, Option.bind_eq_some_iff] at h
  obtain ⟨it, h1, h2⟩ := h
  cases it with
  | num t v => cases h2
  | vec t l => cases h2
  | str c => injection h2 with h2; exact .inl ⟨c, h1, h2.symm⟩
  | strs l => injection h2 with h2; exact .inr ⟨l, h1, h2.symm⟩

section
variable {fpu : Hw} {n : Nat} {σ : Vars} {w : World} (hm : Match fpu n σ w)
include hm

theorem env_ok : EnvOk (kinds σ) w.env := by
  constructor
  · intro x k hx
    rcases kinds_num hx with ⟨t, v, h1, rfl⟩ | ⟨t, l, h1, rfl⟩
    · obtain ⟨_, s, h2, _⟩ := hm.held x _ h1; simp [World.env, h2]
    · obtain ⟨_, _, s, b, h2, _⟩ := hm.held x _ h1; simp [World.env, h2]
  · intro x v hx
    rcases kinds_str hx with ⟨c, h1, rfl⟩ | ⟨l, h1, rfl⟩
    · obtain ⟨z, s, _, h2, _⟩ := hm.held x _ h1; simp [World.env, h2]
    · obtain ⟨_, s, b, h2, _⟩ := hm.held x _ h1; simp [World.env, h2]

theorem look_ok : LookOk (kinds σ) w.leaf (lkOf w) := by
  constructor
  · intro x k hx
    unfold lkOf
    rcases kinds_num hx with ⟨t, v, h1, rfl⟩ | ⟨t, l, h1, rfl⟩
    · rw [leaf_num (hm.held x _ h1)]; rfl
    · obtain ⟨s, b, _, h2, _⟩ := leaf_vec (hm.held x _ h1); rw [h2]; rfl
  · intro x v hx
    unfold lkOf
    rcases kinds_str hx with ⟨c, h1, rfl⟩ | ⟨l, h1, rfl⟩
    · obtain ⟨z, _, h2⟩ := leaf_str (hm.held x _ h1); rw [h2]; rfl
    · obtain ⟨s, b, h2, _⟩ := leaf_strs (hm.held x _ h1); rw [h2]; rfl

theorem kind_ok : KindOk (kinds σ) (lkOf w) := by
  refine ⟨fun x => ?_, fun x k hx => ?_, fun x v hx => ?_⟩
  · unfold lkOf exOf
    split <;> rfl
  · unfold lkOf
    rcases kinds_num hx with ⟨t, v, h1, rfl⟩ | ⟨t, l, h1, rfl⟩
    · rw [leaf_num (hm.held x _ h1)]; exact .inr ⟨rfl, _, rfl⟩
    · obtain ⟨s, b, _, h2, _⟩ := leaf_vec (hm.held x _ h1); rw [h2]; exact .inl ⟨rfl, _, rfl⟩
  · unfold lkOf
    rcases kinds_str hx with ⟨c, h1, rfl⟩ | ⟨l, h1, rfl⟩
    · obtain ⟨z, _, h2⟩ := leaf_str (hm.held x _ h1); rw [h2]; exact .inr ⟨rfl, _, rfl⟩
    · obtain ⟨s, b, h2, _⟩ := leaf_strs (hm.held x _ h1); rw [h2]; exact .inl ⟨rfl, _, rfl⟩

theorem typed_at {i : Nat} (hi : i < n) : Typed (kinds σ) (lane σ i) := by
  constructor
  · intro x k hx
    rcases kinds_num hx with ⟨t, v, h1, rfl⟩ | ⟨t, l, h1, rfl⟩
    · exact ⟨v, by simp [lane, h1, Item.at], (hm.held x _ h1).1⟩
    · obtain ⟨h2, h3, _⟩ := hm.held x _ h1
      exact ⟨l[i]'(by omega), by simp only [lane, h1, Option.bind_some, Item.at]; exact List.getElem?_eq_getElem (by omega), h3 _ (List.getElem_mem _)⟩
  · intro x v hx
    rcases kinds_str hx with ⟨c, h1, rfl⟩ | ⟨l, h1, rfl⟩
    · exact ⟨c, by simp [lane, h1, Item.strAt]⟩
    · obtain ⟨h2, _⟩ := hm.held x _ h1
      exact ⟨l[i]'(by omega), by simp only [lane, h1, Option.bind_some, Item.strAt]; exact List.getElem?_eq_getElem (by omega)⟩

theorem leaf_at {i : Nat} (hi : i < n) : LeafOk fpu (kinds σ) (lane σ i) (lkOf w) (Vec.elemAt w.bufs i) := by
  constructor
  · intro x k hx
    rcases kinds_num hx with ⟨t, v, h1, rfl⟩ | ⟨t, l, h1, rfl⟩
    · simp only [lkOf, leaf_num (hm.held x _ h1), lane, h1]; rfl
    · obtain ⟨s, b, _, h2, _, h4, h5⟩ := leaf_vec (hm.held x _ h1)
      simp only [lkOf, lane, h1, Option.bind_some, Item.at]
      rw [h2, exOf, Vec.valE, Vec.elemAt, h4, Option.bind_some]
      exact h5.2.2.1 i hi
  · intro x v b hx hb
    rcases kinds_str hx with ⟨c, h1, rfl⟩ | ⟨l, h1, rfl⟩
    · obtain ⟨z, h2, h3⟩ := leaf_str (hm.held x _ h1)
      simp only [lane, h1, Option.bind_some, Item.strAt, Option.some.injEq] at hb
      subst hb
      exact ⟨z, by rw [lkOf, h3]; rfl, h2⟩
    · obtain ⟨s, b', h2, h4, h5⟩ := leaf_strs (hm.held x _ h1)
      simp only [lane, h1, Option.bind_some, Item.strAt] at hb
      obtain ⟨z, h6, h7⟩ := h5.2.2 i b hb
      exact ⟨z, by rw [lkOf, h2, exOf, Vec.valE, Vec.elemAt, h4, Option.bind_some]; exact h6, h7⟩

theorem holds_lk {x : Name} (hx : (∃ k, kinds σ x = some k) ∨ ∃ v, (kinds σ).str x = some v) {t : PTy} {b : Nat} (hb : (t, b) ∈ Vec.leaves (lkOf w x)) : Vec.Holds (vrt fpu) w.bufs n t b := by
  unfold lkOf at hb
  rcases hx with ⟨k, hx⟩ | ⟨v, hx⟩
  · rcases kinds_num hx with ⟨u, v, h1, rfl⟩ | ⟨u, l, h1, rfl⟩
    · rw [leaf_num (hm.held x _ h1)] at hb; simp [exOf, Vec.leaves] at hb
    · obtain ⟨s, b', _, h2, _, h4, h5⟩ := leaf_vec (hm.held x _ h1)
      rw [h2] at hb
      simp only [exOf, Vec.leaves, List.mem_singleton, Prod.mk.injEq] at hb
      obtain ⟨rfl, rfl⟩ := hb
      refine ⟨b', h4, h5.1, ?_⟩
      have := h5.2.1
      cases u <;> simpa [vrt, Ty.p] using this
  · rcases kinds_str hx with ⟨c, h1, rfl⟩ | ⟨l, h1, rfl⟩
    · obtain ⟨z, _, h2⟩ := leaf_str (hm.held x _ h1)
      rw [h2] at hb; simp [exOf, Vec.leaves] at hb
    · obtain ⟨s, b', h2, h4, h5⟩ := leaf_strs (hm.held x _ h1)
      rw [h2] at hb
      simp only [exOf, Vec.leaves, List.mem_singleton, Prod.mk.injEq] at hb
      obtain ⟨rfl, rfl⟩ := hb
      exact ⟨b', h4, h5.1, by simpa [vrt] using h5.2.1⟩

/-- What unused lanes hold. -/
theorem pad_at {i : Nat} (h1 : n ≤ i) (h2 : i < Vec.up64 n) :
    ∃ ρ, Typed (kinds σ) ρ ∧ Ones (kinds σ) ρ ∧ LeafOk fpu (kinds σ) ρ (lkOf w) (Vec.padAt (vrt fpu) w.bufs i) := by
  have key : ∀ x k, kinds σ x = some k → ∃ v : Val, v.Has k.2 ∧ (∀ t, k = (true, .int t) → v = .int 1) ∧ Vec.valE (vrt fpu) (Vec.padAt (vrt fpu) w.bufs i) (lkOf w x) = some v.enc := by
    intro x k hx
    unfold lkOf
    rcases kinds_num hx with ⟨t, v, h3, rfl⟩ | ⟨t, l, h3, rfl⟩
    · have h := hm.held x _ h3
      rw [leaf_num h]; exact ⟨v, h.1, fun t ht => by simp at ht, rfl⟩
    · obtain ⟨s, b, _, h4, _, h5, h6⟩ := leaf_vec (hm.held x _ h3)
      rw [h4, exOf, Vec.valE]
      cases t with
      | bool =>
        obtain ⟨c, hc⟩ := h6.2.2.2 rfl i h1 h2
        refine ⟨.bool c, trivial, fun t ht => by simp at ht, ?_⟩
        simp [Vec.padAt, vrt, Ty.p, Vec.elemAt, h5, hc]
      | int t => exact ⟨.int 1, Pipeline.small_fits _ _ (by omega) (by omega), fun _ _ => rfl, by simp [Vec.padAt, vrt, Ty.p, fillV, Val.enc]⟩
      | flt F => exact ⟨.flt F (Flt.ofInt F.fmt 1), rfl, fun t ht => by simp at ht, by simp [Vec.padAt, vrt, Ty.p, fillV, Val.enc]⟩
  have key' : ∀ x, ∃ v : Val, ∀ k, kinds σ x = some k → v.Has k.2 ∧ (∀ t, k = (true, .int t) → v = .int 1) ∧
      Vec.valE (vrt fpu) (Vec.padAt (vrt fpu) w.bufs i) (lkOf w x) = some v.enc := by
    intro x
    cases h : kinds σ x with
    | none => exact ⟨.bool true, fun k hk => by cases hk⟩
    | some k =>
      obtain ⟨v, hv⟩ := key x k h
      exact ⟨v, fun k' hk => by cases hk; exact hv⟩
  have keyS : ∀ x, ∃ c : List Byte, ∀ v, (kinds σ).str x = some v → ∃ z, Vec.valE (vrt fpu) (Vec.padAt (vrt fpu) w.bufs i) (lkOf w x) = some (.word z) ∧ fpu.Shows z c := by
    intro x
    cases h : (kinds σ).str x with
    | none => exact ⟨[], fun v hv => by cases hv⟩
    | some v =>
      unfold lkOf
      rcases kinds_str h with ⟨c, h3, rfl⟩ | ⟨l, h3, rfl⟩
      · obtain ⟨z, h4, h5⟩ := leaf_str (hm.held x _ h3)
        exact ⟨c, fun _ _ => ⟨z, by rw [h5]; rfl, h4⟩⟩
      · obtain ⟨s, b, h4, h5, _⟩ := leaf_strs (hm.held x _ h3)
        exact ⟨[], fun _ _ => ⟨0, by rw [h4]; simp [exOf, Vec.valE, Vec.padAt, vrt, fillV], by simp, fpu.view_zero⟩⟩
  obtain ⟨f, hf⟩ := Classical.skolem.1 key'
  obtain ⟨g, hg⟩ := Classical.skolem.1 keyS
  refine ⟨⟨fun x => some (f x), fun x => some (g x)⟩, ⟨fun x k hx => ⟨f x, rfl, (hf x k hx).1⟩, fun x v _ => ⟨g x, rfl⟩⟩, fun x t hx => congrArg some ((hf x _ hx).2.1 t rfl), fun x k hx => (hf x k hx).2.2,
    fun x v b hx hb => ?_⟩
  injection hb with hb
  subst hb
  exact hg x v hx

end

/-! ## One expression -/

theorem mapM_map {α β : Type} (n : Nat) (f : Nat → Option α) (g : α → β) (f' : Nat → Option β) (h : ∀ i, i < n → f' i = (f i).map g) :
    (List.range n).mapM f' = ((List.range n).mapM f).map (List.map g) := by
  have e : ∀ l : List Nat, (∀ i ∈ l, i < n) → l.mapM f' = (l.mapM f).map (List.map g) := by
    intro l
    induction l with
    | nil => intro _; rfl
    | cons a l ih =>
      intro hl
      rw [List.mapM_cons, List.mapM_cons, h a (hl a (by simp)), ih fun i hi => hl i (by simp [hi])]
      cases f a <;> simp
      cases l.mapM f <;> simp
  exact e _ fun i hi => List.mem_range.1 hi

theorem mapM_get {n : Nat} {l : List Val} (hl : l.length = n) (f : Nat → Option Val) (h : ∀ i, i < n → f i = l[i]?) : (List.range n).mapM f = some l := by
  cases hm : (List.range n).mapM f with
  | none =>
    obtain ⟨i, h1, h2⟩ := Vec.mapM_none.1 hm
    have h1 := List.mem_range.1 h1
    rw [h i h1, List.getElem?_eq_getElem (by omega)] at h2
    cases h2
  | some l' =>
    obtain ⟨h1, h2⟩ := Vec.mapM_some hm
    simp only [List.length_range] at h1 h2
    congr 1
    refine List.ext_getElem? fun i => ?_
    by_cases hi : i < n
    · rw [← h i hi, ← h2 i hi, List.getElem?_range hi]; rfl
    · rw [List.getElem?_eq_none (by omega), List.getElem?_eq_none (by omega)]

theorem trap_buf {rt : Vec.Rt PTy MV VOp} {mem : Nat → List MV} {bufs : List (Vec.Buf MV)} {t : PTy} {ns : List Nd} (h : Vec.evalVec rt mem bufs t ns = .error .trap) :
    Vec.evalBuf rt mem bufs t ns = .error .trap := by
  unfold Vec.evalVec at h
  cases he : Vec.evalBuf rt mem bufs t ns with
  | error e => rw [he] at h; simpa [Except.bind] using h
  | ok x => rw [he] at h; simp [Except.bind] at h

section
variable (fpu : Hw) {n : Nat} {σ : Vars} {w : World} (hm : Match fpu n σ w) (hn : n < 2 ^ 30) {mem : Nat → List MV} (hmem : ∀ k, (mem k).length = k)
include hm hn hmem

theorem eval_vec {p : Ex} {k : Bool × Ty} (hk : Fine (kinds σ) p k) (hl : p.Lits fpu) (hg : Guarded (kinds σ) p) (hv : hasV (kinds σ) p = true) :
    Vec.evalVec (vrt fpu) mem w.bufs k.2.p (Vec.flat (veOf fpu (lkOf w) p)) = outcome (vectorOf fpu n σ p) := by
  have := Vec.elementwise_partial (mem := mem) (bufs := w.bufs) (n := n) (kind_ex fpu (kind_ok hm) hk hl) (leaves_ex fpu (kind_ok hm) hk hv)
    (fun t b h => by obtain ⟨x, hx, hb⟩ := mem_leaves fpu (lkOf w) hk h; exact holds_lk hm hx hb) hn hmem
    (fun i h1 h2 => by
      obtain ⟨ρ, hρ, ho, hlf⟩ := pad_at hm h1 h2
      rw [val_ex fpu hρ (kind_ok hm) hlf hk hl (.inr hg)]
      obtain ⟨v, hv, _⟩ := def_ex fpu hρ hk hl (.inr ⟨ho, hg⟩)
      rw [hv]; simp)
  refine Eq.trans this ?_
  unfold Vec.elementwise vectorOf
  rw [mapM_map n (fun i => valueAt fpu (kinds σ) (lane σ i) p) Val.enc _ fun i hi => val_ex fpu (typed_at hm hi) (kind_ok hm) (leaf_at hm hi) hk hl (.inr hg)]
  cases (List.range n).mapM fun i => valueAt fpu (kinds σ) (lane σ i) p <;> rfl

theorem vector_has {p : Ex} {k : Bool × Ty} (hk : Fine (kinds σ) p k) (hl : p.Lits fpu) {l : List Val} (h : vectorOf fpu n σ p = some l) :
    l.length = n ∧ (∀ i, i < n → valueAt fpu (kinds σ) (lane σ i) p = l[i]?) ∧ ∀ v ∈ l, v.Has k.2 := by
  obtain ⟨h1, h2⟩ := Vec.mapM_some h
  simp only [List.length_range] at h1 h2
  have h3 : ∀ i, i < n → valueAt fpu (kinds σ) (lane σ i) p = l[i]? := by
    intro i hi
    have := h2 i hi
    rw [List.getElem?_range hi] at this
    exact this
  refine ⟨h1, h3, fun v hv => ?_⟩
  obtain ⟨i, hi, rfl⟩ := List.mem_iff_getElem.1 hv
  exact has_ex fpu (typed_at hm (h1 ▸ hi)) hk hl _ (by rw [h3 i (h1 ▸ hi), List.getElem?_eq_getElem hi])

theorem eval_buf {p : Ex} {k : Bool × Ty} (hk : Fine (kinds σ) p k) (hl : p.Lits fpu) (hg : Guarded (kinds σ) p) (hv : hasV (kinds σ) p = true) (hne : ∀ y, p ≠ .var y) :
    (vectorOf fpu n σ p = none ∧ Vec.evalBuf (vrt fpu) mem w.bufs k.2.p (Vec.flat (veOf fpu (lkOf w) p)) = .error .trap) ∨
    ∃ l b, vectorOf fpu n σ p = some l ∧ Vec.evalBuf (vrt fpu) mem w.bufs k.2.p (Vec.flat (veOf fpu (lkOf w) p)) = .ok b ∧ BufOk n k.2 l b := by
  have he := eval_vec fpu hm hn hmem hk hl hg hv
  cases h : vectorOf fpu n σ p with
  | none => rw [h] at he; exact .inl ⟨rfl, trap_buf he⟩
  | some l =>
    obtain ⟨h1, h2, h3⟩ := vector_has fpu hm hn hmem hk hl h
    have hpad : ∀ i, n ≤ i → i < Vec.up64 n → ∃ v : Val, v.Has k.2 ∧ Vec.valE (vrt fpu) (Vec.padAt (vrt fpu) w.bufs i) (veOf fpu (lkOf w) p) = some v.enc := by
      intro i h1 h2
      obtain ⟨ρ, hρ, ho, hlf⟩ := pad_at hm h1 h2
      obtain ⟨v, hv, ht⟩ := def_ex fpu hρ hk hl (.inr ⟨ho, hg⟩)
      exact ⟨v, ht, by rw [val_ex fpu hρ (kind_ok hm) hlf hk hl (.inr hg), hv]; rfl⟩
    have hval : ∀ i, i < n → Vec.valE (vrt fpu) (Vec.elemAt w.bufs i) (veOf fpu (lkOf w) p) = (l[i]?).map Val.enc := by
      intro i hi
      rw [val_ex fpu (typed_at hm hi) (kind_ok hm) (leaf_at hm hi) hk hl (.inr hg), h2 i hi]
    obtain ⟨out, h4, h5, h6, h7⟩ := Vec.evalBuf_done (mem := mem) (bufs := w.bufs) (n := n) (kind_ex fpu (kind_ok hm) hk hl) (leaves_ex fpu (kind_ok hm) hk hv)
      (fun t b he => by
        have : ∀ c, conOf c ≠ .vec t b := fun c => by cases c <;> simp [conOf]
        cases p <;> first | exact absurd rfl (hne _) | exact absurd he (this _) | cases he)
      (fun t b h => by obtain ⟨x, hx, hb⟩ := mem_leaves fpu (lkOf w) hk h; exact holds_lk hm hx hb) hn hmem
      (fun i hi => by rw [hval i hi, List.getElem?_eq_getElem (by omega)]; simp)
      (fun i h1 h2 => by obtain ⟨v, _, hv⟩ := hpad i h1 h2; rw [hv]; simp)
    refine .inr ⟨l, _, rfl, h4, rfl, ?_, fun i hi => by rw [h5.2 i hi, hval i hi], fun hb i h8 h9 => ?_⟩
    · show _ ≤ out.length
      rw [h6]
      unfold Vec.allocated Vec.up64
      obtain ⟨k1, k2⟩ := k
      cases k2 <;> simp [pty, Ty.p, vrt]
    · obtain ⟨v, ht, hv⟩ := hpad i h8 h9
      rw [hb] at ht
      obtain ⟨c, rfl⟩ := has_bool ht
      refine ⟨c, ?_⟩
      rw [← hv]
      exact h7 (by simp [pty, hb, Ty.p, vrt]) i h8 h9

end

/-! ## Assignments -/

theorem match_new {n : Nat} {σ : Vars} {w : World} (hm : Match fpu n σ w) {x : Name} (hx : σ x = none) {t : Ty} {l : List Val} {b : Vec.Buf MV} (h1 : l.length = n) (h2 : ∀ v ∈ l, v.Has t)
    (h3 : BufOk n t l b) : Match fpu n (bind σ x (.vec t l)) ⟨bind w.vars x ((true, t.p), w.cells.length), w.cells ++ [.vec b], w.ctx⟩ := by
  have inside : ∀ y it, σ y = some it → ∃ q s c, w.vars y = some (q, s) ∧ w.cells[s]? = some c := by
    intro y it hy
    have := hm.held y it hy
    cases it with
    | num t v => obtain ⟨_, s, h4, h5⟩ := this; exact ⟨_, s, _, h4, h5⟩
    | vec t l => obtain ⟨_, _, s, b, h4, h5, _⟩ := this; exact ⟨_, s, _, h4, h5⟩
    | str c => obtain ⟨z, s, _, h4, h5⟩ := this; exact ⟨_, s, _, h4, h5⟩
    | strs l => obtain ⟨_, s, b, h4, h5, _⟩ := this; exact ⟨_, s, _, h4, h5⟩
  have below : ∀ y q s, w.vars y = some (q, s) → s < w.cells.length := by
    intro y q s hy
    cases hs : σ y with
    | none => rw [hm.fresh y hs] at hy; cases hy
    | some it =>
      obtain ⟨q', s', c, h4, h5⟩ := inside y it hs
      rw [hy] at h4
      simp only [Option.some.injEq, Prod.mk.injEq] at h4
      obtain ⟨rfl, rfl⟩ := h4
      exact (List.getElem?_eq_some_iff.1 h5).1
  refine ⟨fun y it hy => ?_, fun y hy => ?_, fun y z q r s hy hz => ?_⟩
  · by_cases e : y = x
    · subst e
      simp only [bind, if_true, Option.some.injEq] at hy
      subst hy
      exact ⟨h1, h2, w.cells.length, b, by simp [bind], by simp, h3⟩
    · simp only [bind, e, if_false] at hy
      have h := hm.held y it hy
      have keep : ∀ (s : Nat) c, w.cells[s]? = some c → (w.cells ++ [.vec b])[s]? = some c := by
        intro s c h
        rw [List.getElem?_append_left (List.getElem?_eq_some_iff.1 h).1, h]
      cases it with
      | num t v => obtain ⟨h4, s, h5, h6⟩ := h; exact ⟨h4, s, by simp [bind, e, h5], keep _ _ h6⟩
      | vec t l => obtain ⟨h4, h5, s, b', h6, h7, h8⟩ := h; exact ⟨h4, h5, s, b', by simp [bind, e, h6], keep _ _ h7, h8⟩
      | str c => obtain ⟨z, s, h4, h5, h6⟩ := h; exact ⟨z, s, h4, by simp [bind, e, h5], keep _ _ h6⟩
      | strs l => obtain ⟨h4, s, b', h6, h7, h8⟩ := h; exact ⟨h4, s, b', by simp [bind, e, h6], keep _ _ h7, h8⟩
  · by_cases e : y = x
    · simp [bind, e] at hy
    · simp only [bind, e, if_false] at hy ⊢
      exact hm.fresh y hy
  · simp only [bind] at hy hz
    split at hy <;> split at hz
    · next e1 e2 => rw [e1, e2]
    · simp only [Option.some.injEq, Prod.mk.injEq] at hy
      have := below _ _ _ hz
      omega
    · simp only [Option.some.injEq, Prod.mk.injEq] at hz
      have := below _ _ _ hy
      omega
    · exact hm.apart _ _ _ _ _ hy hz

theorem match_set {n : Nat} {σ : Vars} {w : World} (hm : Match fpu n σ w) {x : Name} {t : Ty} {l' : List Val} (hx : σ x = some (.vec t l')) {s : Nat} (hs : w.vars x = some ((true, t.p), s))
    {l : List Val} {b : Vec.Buf MV} (h1 : l.length = n) (h2 : ∀ v ∈ l, v.Has t) (h3 : BufOk n t l b) : Match fpu n (bind σ x (.vec t l)) { w with cells := w.cells.set s (.vec b) } := by
  obtain ⟨s', b', h4, _, h5, _⟩ := leaf_vec (hm.held x _ hx)
  rw [hs] at h4
  simp only [Option.some.injEq, Prod.mk.injEq, true_and] at h4
  subst h4
  have hlt := (List.getElem?_eq_some_iff.1 h5).1
  refine ⟨fun y it hy => ?_, fun y hy => ?_, hm.apart⟩
  · by_cases e : y = x
    · subst e
      simp only [bind, if_true, Option.some.injEq] at hy
      subst hy
      exact ⟨h1, h2, s, b, hs, by simp [hlt], h3⟩
    · simp only [bind, e, if_false] at hy
      have h := hm.held y it hy
      have keep : ∀ q (r : Nat) c, w.vars y = some (q, r) → w.cells[r]? = some c → (w.cells.set s (.vec b))[r]? = some c := by
        intro q r c h6 h7
        have : s ≠ r := fun e' => by subst e'; exact e (hm.apart y x q _ s h6 hs)
        rw [List.getElem?_set_ne this, h7]
      cases it with
      | num t v => obtain ⟨h4, s, h5, h6⟩ := h; exact ⟨h4, s, h5, keep _ _ _ h5 h6⟩
      | vec t l => obtain ⟨h4, h5, s, b', h6, h7, h8⟩ := h; exact ⟨h4, h5, s, b', h6, keep _ _ _ h6 h7, h8⟩
      | str c => obtain ⟨z, s, h4, h5, h6⟩ := h; exact ⟨z, s, h4, h5, keep _ _ _ h5 h6⟩
      | strs l => obtain ⟨h4, s, b', h6, h7, h8⟩ := h; exact ⟨h4, s, b', h6, keep _ _ _ h6 h7, h8⟩
  · by_cases e : y = x
    · simp [bind, e] at hy
    · simp only [bind, e, if_false] at hy
      exact hm.fresh y hy

theorem kinds_bind (σ : Vars) (x : Name) (t : Ty) (l : List Val) : kinds (bind σ x (.vec t l)) = (kinds σ).bind x (true, t) := by
  simp only [kinds, VEnv.bind, VEnv.mk.injEq]
  constructor <;> funext y <;> simp only [bind] <;> split <;> rfl

theorem eval_long (fpu : Hw) (mem : Nat → List MV) (w : World) (t : PTy) (ns : List Nd) (h : 2 ≤ ns.length) (hc : w.ctx ≠ []) :
    evalNodes fpu mem w t ns = (Vec.evalBuf (vrt fpu) mem w.bufs t ns).bind fun b => .ok (.new b) := by
  match ns, h with
  | a :: b :: l, _ => cases a <;> simp [evalNodes, hc, World.bufs]

/-- An expression with a vector that is not just a variable has more than one node. -/
theorem nodes_long (fpu : Hw) {n : Nat} {σ : Vars} {w : World} (hm : Match fpu n σ w) {p : Ex} {k : Bool × Ty} (hk : Fine (kinds σ) p k) (hv : hasV (kinds σ) p = true) (hne : ∀ y, p ≠ .var y) :
    2 ≤ (Vec.flat (veOf fpu (lkOf w) p)).length := by
  have hl := leaves_ex fpu (kind_ok hm) hk hv
  refine Vec.flat_long (fun t b he => ?_) fun t v he => ?_
  · have : ∀ c, conOf c ≠ .vec t b := fun c => by cases c <;> simp [conOf]
    cases p <;> first | exact absurd rfl (hne _) | exact absurd he (this _) | cases he
  · rw [he] at hl; exact hl rfl

/-! ## Statements -/

theorem update_base (o : Arith) : Scalar.baseOp (updateSign o) = some o.sign := by cases o <;> rfl
theorem update_ne (o : Arith) : updateSign o ≠ .assign := by cases o <;> simp [updateSign]

section
variable (fpu : Hw) {n : Nat} {σ : Vars} {w : World} (hm : Match fpu n σ w) (hn : n < 2 ^ 30) {mem : Nat → List MV} (hmem : ∀ k, (mem k).length = k)
include hm hn hmem

/-- A new vector stored in a variable. -/
theorem store_buf {x : Name} {new : Bool} {t : Ty} (hx : (new = true ∧ σ x = none) ∨ (new = false ∧ ∃ l, σ x = some (.vec t l))) {l : List Val} {b : Vec.Buf MV}
    (h1 : l.length = n) (h2 : ∀ v ∈ l, v.Has t) (h3 : BufOk n t l b) : ∃ w', store w x new t.p (.new b) = .ok w' ∧ Match fpu n (bind σ x (.vec t l)) w' ∧ w'.ctx = w.ctx := by
  rcases hx with ⟨rfl, hx⟩ | ⟨rfl, l', hx⟩
  · exact ⟨_, rfl, match_new hm hx h1 h2 h3, rfl⟩
  · obtain ⟨s, b', h4, _⟩ := leaf_vec (hm.held x _ hx)
    refine ⟨_, ?_, match_set hm hx h4 h1 h2 h3, rfl⟩
    simp [store, h4]

/-- An assignment of an expression that is not a variable. -/
theorem run_general (hctx : w.ctx ≠ []) {x : Name} (hxc : x ∉ w.ctx) {new : Bool} {t : Ty} (hx : (new = true ∧ σ x = none) ∨ (new = false ∧ ∃ l, σ x = some (.vec t l))) {p : Ex} {v : Bool} (hk : Fine (kinds σ) p (v, t))
    (hl : p.Lits fpu) (hg : Guarded (kinds σ) p) (hv : hasV (kinds σ) p = true) (hne : ∀ y, p ≠ .var y) {f r : Expr} {op : BinOp} {en : Name → Option VTy}
    (hp : parts f = some (x, new, op, r)) (hc : checkSt fpu w.env f = some ((true, t.p), en))
    (hs : (nodesOf fpu w.leaf (flatE Real.arity r)).bind (sourceNodes (w.leaf x) op) = some (Vec.flat (veOf fpu (lkOf w) p))) :
    (vectorOf fpu n σ p = none ∧ runSt fpu mem w f = .error .trap) ∨ ∃ l w', vectorOf fpu n σ p = some l ∧ runSt fpu mem w f = .ok w' ∧ Match fpu n (bind σ x (.vec t l)) w' ∧ w'.ctx = w.ctx := by
  have e : runSt fpu mem w f = (Vec.evalBuf (vrt fpu) mem w.bufs t.p (Vec.flat (veOf fpu (lkOf w) p))).bind fun b => store w x new t.p (.new b) := by
    unfold runSt
    rw [show checkSt fpu (fun x => (w.vars x).map (·.1)) f = _ from hc, hp]
    dsimp only
    rw [hs]
    dsimp only
    rw [if_pos ⟨any_vec _ (leaves_ex fpu (kind_ok hm) hk hv), hxc⟩, eval_long _ _ _ _ _ (nodes_long fpu hm hk hv hne) hctx]
    cases Vec.evalBuf (vrt fpu) mem w.bufs t.p (Vec.flat (veOf fpu (lkOf w) p)) <;> rfl
  rcases eval_buf fpu hm hn hmem hk hl hg hv hne with ⟨h1, h2⟩ | ⟨l, b, h1, h2, h3⟩
  · exact .inl ⟨h1, by rw [e, h2]; rfl⟩
  · obtain ⟨h4, _, h5⟩ := vector_has fpu hm hn hmem hk hl h1
    obtain ⟨w', h6, h7⟩ := store_buf fpu hm hn hmem hx h4 h5 h3
    exact .inr ⟨l, w', h1, by rw [e, h2]; exact h6, h7⟩

theorem run_statement (hctx : w.ctx ≠ []) {s : St} (hxc : s.target ∉ w.ctx) {t : Ty} (ho : s.Ok fpu (kinds σ) t) {st : Stmt} (hi : s.Is st) :
    ∃ f, st = .expr f ∧ ((vectorOf fpu n σ s.source = none ∧ runSt fpu mem w f = .error .trap) ∨
      ∃ l w', vectorOf fpu n σ s.source = some l ∧ runSt fpu mem w f = .ok w' ∧ Match fpu n (bind σ s.target (.vec t l)) w' ∧ w'.ctx = w.ctx) := by
  obtain ⟨hl, hg, hv, ⟨v, hk⟩, hx⟩ := ho
  have hk := fine_of _ _ _ hk
  have he := env_ok hm
  cases s with
  | define x e =>
    obtain ⟨r, rfl, hr⟩ := hi
    simp only [St.source, St.target] at *
    have hσ : σ x = none := by
      cases h : σ x with
      | none => rfl
      | some it => cases it <;> simp [kinds, h, Item.kind, Item.strKind] at hx
    have hw : w.env x = none := by simp [World.env, hm.fresh x hσ]
    refine ⟨_, rfl, run_general fpu hm hn hmem hctx hxc (new := true) (op := .assign) (r := r) (en := bind w.env x (true, t.p)) (.inl ⟨rfl, hσ⟩) hk hl hg hv hx.2 rfl ?_ ?_⟩
    · rw [checkSt, parts, Option.bind_some]
      simp only [if_true, hw, Option.isSome_none, if_false, Bool.false_eq_true]
      rw [check_tree, check_ex fpu he hk _ hl hr, hv]; rfl
    · rw [flat_tree, flat_ex fpu (look_ok hm) hk _ hl hr]; rfl
  | assign x e =>
    obtain ⟨r, rfl, hr⟩ := hi
    simp only [St.source, St.target] at *
    obtain ⟨l0, hσ⟩ : ∃ l, σ x = some (.vec t l) := by
      rcases kinds_num hx with ⟨_, _, _, h2⟩ | ⟨_, l, h1, h2⟩
      · cases h2
      · cases h2; exact ⟨l, h1⟩
    have hw : w.env x = some (true, t.p) := he.1 x _ hx
    have hc : checkSt fpu w.env (.bin (.un none (.var x)) .assign r) = some ((true, t.p), w.env) := by
      rw [checkSt, parts, Option.bind_some]
      simp only [Bool.false_eq_true, if_false, hw, Option.bind_some]
      rw [check_tree, check_ex fpu he hk _ hl hr, hv]
      simp [canBin]
    have hf := flat_ex fpu (look_ok hm) hk _ hl hr
    by_cases hy : ∃ y, e = .var y
    · obtain ⟨y, rfl⟩ := hy
      refine ⟨_, rfl, .inr ?_⟩
      obtain ⟨l, hy⟩ : ∃ l, σ y = some (.vec t l) := by
        cases hk with | var hy =>
        rcases kinds_num hy with ⟨_, _, h1, h2⟩ | ⟨_, l, h1, h2⟩
        · simp [hasV, kinds, h1, Item.kind] at hv
        · cases h2; exact ⟨l, h1⟩
      have hvy := hm.held y _ hy
      obtain ⟨s', b, h1, h2, h3, _, h4⟩ := leaf_vec hvy
      obtain ⟨s, b', h5, _⟩ := leaf_vec (hm.held x _ hσ)
      refine ⟨l, { w with cells := w.cells.set s (.vec b) }, ?_, ?_, match_set hm hσ h5 hvy.1 hvy.2.1 h4, rfl⟩
      · unfold vectorOf
        refine mapM_get hvy.1 _ fun i _ => ?_
        simp [valueAt, lane, hy, Item.at]
      · unfold runSt
        rw [show checkSt fpu (fun x => (w.vars x).map (·.1)) _ = _ from hc, parts]
        dsimp only
        rw [flat_tree, hf, veOf, lkOf, h2]
        simp [exOf, Vec.flat, sourceNodes, isVec, evalNodes, Except.bind, store, h5, h3, hxc]
    · refine ⟨_, rfl, run_general fpu hm hn hmem hctx hxc (new := false) (op := .assign) (r := r) (.inr ⟨rfl, l0, hσ⟩) hk hl hg hv (fun y h => hy ⟨y, h⟩) rfl hc ?_⟩
      rw [flat_tree, hf]; rfl
  | update o x e =>
    obtain ⟨r, rfl, hr⟩ := hi
    simp only [St.source, St.target] at *
    obtain ⟨l0, hσ⟩ : ∃ l, σ x = some (.vec t l) := by
      rcases kinds_num hx with ⟨_, _, _, h2⟩ | ⟨_, l, h1, h2⟩
      · cases h2
      · cases h2; exact ⟨l, h1⟩
    have hw : w.env x = some (true, t.p) := he.1 x _ hx
    have hs : (Ex.arith o (.var x) e).Is (.bin (.atom (.var x)) o.sign r.toTree) := by rw [Ex.Is]; exact ⟨_, _, rfl, rfl, hr⟩
    have hc := check_ex fpu he hk _ hl hs
    rw [treeTy, treeTy, checkO, hw, Option.bind_some, hv] at hc
    have hf : ∃ k, Fine (kinds σ) e k := by cases hk with | arith _ hb _ _ => exact ⟨_, hb⟩
    obtain ⟨k, hf⟩ := hf
    have hl' : e.Lits fpu := by rw [Ex.Lits] at hl; exact hl.2
    have hf := flat_ex fpu (look_ok hm) hf _ hl' hr
    refine ⟨_, rfl, run_general fpu hm hn hmem hctx hxc (new := false) (op := updateSign o) (r := r) (en := w.env) (.inr ⟨rfl, l0, hσ⟩) hk hl hg hv (fun y h => by cases h) rfl ?_ ?_⟩
    · rw [checkSt, parts, Option.bind_some]
      simp only [Bool.false_eq_true, if_false, hw, Option.bind_some, update_ne, update_base]
      rw [check_tree]
      cases h : treeTy fpu w.env r.toTree with
      | none => rw [h] at hc; cases hc
      | some b => rw [h, Option.bind_some] at hc; rw [Option.bind_some, hc]; rfl
    · obtain ⟨s, b, _, h2, _⟩ := leaf_vec (hm.held x _ hσ)
      rw [flat_tree, hf, Option.bind_some, sourceNodes, if_neg (update_ne o), update_base, veOf, veOf, lkOf, h2]
      simp [exOf, Vec.flat]

end

/-! ## The result and the body -/

theorem root_sel {p : Ex} {c t f : Expr} (h : p.Is (Expr.sel c t f).toTree) : ∃ c' a b, p = .pick c' a b ∧ a.Is t.toTree := by
  rw [Expr.toTree] at h
  cases p <;> rw [Ex.Is] at h
  case pick c' a b =>
    obtain ⟨x, y, z, h1, _, h2, _⟩ := h
    injection h1 with _ h1 _
    subst h1
    exact ⟨_, _, _, rfl, h2⟩
  all_goals simp at h

theorem list_other (fpu : Hw) (env : Name → Option VTy) (e : Expr) (h : ∀ c t f, e ≠ .sel c t f) : listTy fpu env e = checkE fpu env e := by
  cases e with
  | sel c t f => exact absurd rfl (h c t f)
  | bin _ _ _ => rfl
  | un _ _ => rfl

section
variable (fpu : Hw) {n : Nat} (hn : n < 2 ^ 30) {mem : Nat → List MV} (hmem : ∀ k, (mem k).length = k)
include hn hmem

theorem run_result {σ : Vars} {w : World} (hm : Match fpu n σ w) (hctx : w.ctx ≠ []) {p : Ex} {t : Ty} (ho : ResultOk fpu (kinds σ) p t) {e : Expr} (hi : p.Is e.toTree) :
    runRet fpu mem w t.p e = outcome (vectorOf fpu n σ p) := by
  obtain ⟨hl, hg, hv, ⟨v, hk⟩, hr⟩ := ho
  have hk := fine_of _ _ _ hk
  have he := env_ok hm
  have h1 : checkE fpu w.env e = some (true, t.p) := by rw [check_tree, check_ex fpu he hk _ hl hi, hv]
  have h2 : ∃ u, listTy fpu w.env e = some (u, t.p) := by
    by_cases hsel : ∃ c t f, e = .sel c t f
    · obtain ⟨c, t', f, rfl⟩ := hsel
      obtain ⟨c', a, b, rfl, hta⟩ := root_sel hi
      obtain ⟨u, hu⟩ := hr _ _ _ rfl
      rw [Ex.Lits] at hl
      exact ⟨_, by rw [listTy, check_tree, check_ex fpu he (fine_of _ _ _ hu) _ hl.2.1 hta]⟩
    · exact ⟨_, by rw [list_other _ _ _ fun c t f h => hsel ⟨c, t, f, h⟩, h1]⟩
  obtain ⟨u, h2⟩ := h2
  unfold runRet
  rw [show checkE fpu (fun x => (w.vars x).map (·.1)) e = _ from h1, show listTy fpu (fun x => (w.vars x).map (·.1)) e = _ from h2, flat_tree, flat_ex fpu (look_ok hm) hk _ hl hi]
  dsimp only
  rw [if_pos ⟨any_vec _ (leaves_ex fpu (kind_ok hm) hk hv), rfl, rfl, .inl hctx⟩]
  exact eval_vec fpu hm hn hmem hk hl hg hv

theorem run_body {ss : List St} : ∀ {σ : Vars} {w : World}, Match fpu n σ w → w.ctx ≠ [] → (∀ s ∈ ss, s.target ∉ w.ctx) → ∀ {p : Ex} {t : Ty}, BodyOk fpu ss (kinds σ) p t → ∀ {b : Stmts}, BodyIs ss p b →
    runBody fpu mem t.p w b = outcome ((execute fpu n ss σ).bind fun σ' => vectorOf fpu n σ' p) := by
  induction ss with
  | nil =>
    intro σ w hm hctx hxc p t ho b hi
    match b, hi with
    | .cons (.retVal f) .nil, hi => exact run_result fpu hn hmem hm hctx ho hi
  | cons s ss ih =>
    intro σ w hm hctx hxc p t ho b hi
    match b, hi with
    | .cons st ts, hi =>
      obtain ⟨u, h1, h2⟩ := ho
      obtain ⟨v, hk⟩ := h1.2.2.2.1
      obtain ⟨f, rfl, h | ⟨l, w', h3, h4, h5, h6⟩⟩ := run_statement fpu hm hn hmem hctx (hxc s (by simp)) h1 hi.1
      · rw [runBody, h.2, execute, h.1, hk]; rfl
      · rw [runBody, h4, execute, h3, hk]
        rw [← kinds_bind σ s.target u l] at h2
        exact ih h5 (by rw [h6]; exact hctx) (fun s hs => by rw [h6]; exact hxc s (by simp [hs])) h2 hi.2

end

/-! ## The beginning of a call -/

def El.p : El → PTy
  | .num t => t.p
  | .str => .other

theorem named (q : Bool × Ty) : typeNamed (typeText q) = some (q.1, q.2.p) := by
  obtain ⟨b, t⟩ := q
  cases b <;> cases t with
  | bool => decide
  | int t => cases t <;> decide
  | flt F => cases F <;> decide

theorem named_param (q : Bool × El) : typeNamed (paramText q) = some (q.1, q.2.p) := by
  obtain ⟨b, t⟩ := q
  cases t with
  | num t => exact named (b, t)
  | str => cases b <;> decide

def Item.vty : Item → VTy
  | .num t _ => (false, t.p)
  | .vec t _ => (true, t.p)
  | .str _ => (false, .other)
  | .strs _ => (true, .other)

/-- What is passed for a variable. -/
def ArgIs (fpu : Hw) (n : Nat) : Arg → Item → Prop
  | .num v, .num t v' => v = v' ∧ v.Has t
  | .vec l rest, .vec t l' => l = l' ∧ l.length = n ∧ (∀ v ∈ l, v.Has t) ∧ (t = .bool → (∀ v ∈ rest, v.Has .bool) ∧ (n + 63) / 64 * 64 ≤ n + rest.length)
  | .str b w, .str b' => b = b' ∧ fpu.Shows w b
  | .strs l, .strs l' => l' = l.map (·.1) ∧ l.length = n ∧ ∀ q ∈ l, fpu.Shows q.2 q.1
  | _, _ => False

theorem enter_ok (fpu : Hw) (n : Nat) : ∀ (ps : List (Name × Bool × El)) (args : List Arg) (k : Nat), (ps.map (·.1)).Nodup → Passed fpu n ps args →
    ∃ v, enter k (ps.map fun q => (paramText q.2, q.1)) args = some v ∧ (∀ x, start ps args x = none → v x = none) ∧ (∀ x, x ∉ ps.map (·.1) → start ps args x = none) ∧
      (∀ x it, start ps args x = some it → ∃ j a, args[j]? = some a ∧ v x = some (it.vty, k + j) ∧ ArgIs fpu n a it) ∧
      (∀ x y q r s, v x = some (q, s) → v y = some (r, s) → x = y) ∧ (∀ x q s, v x = some (q, s) → k ≤ s) ∧ ∀ x, (start ps args x).map Item.vty = (ps.lookup x).map fun q => (q.1, q.2.p)
  | [], [], k, _, _ => ⟨_, rfl, fun _ _ => rfl, fun _ _ => rfl, fun _ _ h => (by cases h), fun _ _ _ _ _ h => (by cases h), fun _ _ _ h => (by cases h), fun _ => rfl⟩
  | (x, b, t) :: ps, a :: args, k, hd, hp => by
    simp only [List.map_cons, List.nodup_cons] at hd
    have hstep : Passed fpu n ps args ∧ ∃ it, start ((x, b, t) :: ps) (a :: args) = bind (start ps args) x it ∧ it.vty = (b, t.p) ∧ ArgIs fpu n a it := by
      cases b <;> cases t with
      | num t => cases a with
        | num v => first | exact hp.elim | exact ⟨hp.2, .num t v, rfl, rfl, rfl, hp.1⟩
        | vec l rest => first | exact hp.elim | exact ⟨hp.2.2.2, .vec t l, rfl, rfl, rfl, hp.1, hp.2.1, hp.2.2.1⟩
        | str => exact hp.elim
        | strs => exact hp.elim
      | str => cases a with
        | str c z => first | exact hp.elim | exact ⟨hp.2, .str c, rfl, rfl, rfl, hp.1⟩
        | strs l => first | exact hp.elim | exact ⟨hp.2.2, .strs _, rfl, rfl, rfl, hp.1, hp.2.1⟩
        | num => exact hp.elim
        | vec => exact hp.elim
    obtain ⟨hp, it, h1, h2, h3⟩ := hstep
    obtain ⟨v, e1, e2, e3, e4, e5, e6, e7⟩ := enter_ok fpu n ps args (k + 1) hd.2 hp
    have hx : v x = none := e2 x (e3 x hd.1)
    have hb : ∀ y q s, bind v x ((b, t.p), k) y = some (q, s) → (y = x ∧ s = k) ∨ (y ≠ x ∧ v y = some (q, s) ∧ k + 1 ≤ s) := by
      intro y q s h
      by_cases e : y = x
      · simp only [bind, e, if_true, Option.some.injEq, Prod.mk.injEq] at h
        exact .inl ⟨e, h.2.symm⟩
      · simp only [bind, e, if_false] at h
        exact .inr ⟨e, h, e6 y q s h⟩
    refine ⟨bind v x ((b, t.p), k), ?_, fun y hy => ?_, fun y hy => ?_, fun y i hy => ?_, fun y z q r s hy hz => ?_, fun y q s hy => ?_, fun y => ?_⟩
    · rw [List.map_cons, enter, named_param, e1]
      simp [hx]
    · rw [h1] at hy
      by_cases e : y = x
      · simp [bind, e] at hy
      · simp only [bind, e, if_false] at hy ⊢
        exact e2 y hy
    · simp only [List.map_cons, List.mem_cons, not_or] at hy
      rw [h1]
      simp only [bind, hy.1, if_false]
      exact e3 y hy.2
    · rw [h1] at hy
      by_cases e : y = x
      · simp only [bind, e, if_true, Option.some.injEq] at hy
        subst hy
        exact ⟨0, a, rfl, by simp [bind, e, h2], h3⟩
      · simp only [bind, e, if_false] at hy
        obtain ⟨j, a', g1, g2, g3⟩ := e4 y i hy
        exact ⟨j + 1, a', g1, by simp only [bind, e, if_false]; rw [g2]; congr 2; omega, g3⟩
    · rcases hb y q s hy with ⟨e, e'⟩ | ⟨e, g, g'⟩ <;> rcases hb z r s hz with ⟨f, f'⟩ | ⟨f, i, i'⟩
      · rw [e, f]
      · omega
      · omega
      · exact e5 y z q r s g i
    · rcases hb y q s hy with ⟨e, e'⟩ | ⟨e, g, g'⟩ <;> omega
    · rw [h1]
      by_cases e : y = x
      · subst e; simp [bind, h2]
      · have : (y == x) = false := by simp [e]
        rw [List.lookup_cons, this, ← e7 y]
        simp [bind, e]
  | [], _ :: _, _, _, h => by simp [Passed] at h
  | (_, b, el) :: _, [], _, _, h => by cases b <;> cases el <;> simp [Passed] at h

theorem start_match (fpu : Hw) (n : Nat) (ps : List (Name × Bool × El)) (args : List Arg) (hd : (ps.map (·.1)).Nodup) (hp : Passed fpu n ps args) (cs : List Name) :
    ∃ v, enter 0 (ps.map fun q => (paramText q.2, q.1)) args = some v ∧ (∀ x, x ∉ ps.map (·.1) → v x = none) ∧ Match fpu n (start ps args) ⟨v, args.map Arg.cell, cs⟩ := by
  obtain ⟨v, h1, h2, h2', h3, h4, _⟩ := enter_ok fpu n ps args 0 hd hp
  refine ⟨v, h1, fun x hx => h2 x (h2' x hx), fun x it hx => ?_, h2, h4⟩
  obtain ⟨j, a, h5, h6, h7⟩ := h3 x it hx
  rw [Nat.zero_add] at h6
  cases it with
  | num t z =>
    cases a with
    | vec _ _ => exact absurd h7 (by simp [ArgIs])
    | str _ _ => exact absurd h7 (by simp [ArgIs])
    | strs _ => exact absurd h7 (by simp [ArgIs])
    | num z' => obtain ⟨rfl, h7⟩ := h7; exact ⟨h7, j, h6, by simp [h5, Arg.cell]⟩
  | vec t l =>
    cases a with
    | num _ => exact absurd h7 (by simp [ArgIs])
    | str _ _ => exact absurd h7 (by simp [ArgIs])
    | strs _ => exact absurd h7 (by simp [ArgIs])
    | vec l' rest =>
      obtain ⟨rfl, h7, h8, h9⟩ := h7
      refine ⟨h7, h8, j, ⟨l'.length, (l' ++ rest).map Val.enc⟩, h6, by simp [h5, Arg.cell], h7, ?_, fun i hi => ?_, fun ht i hi hi' => ?_⟩
      · simp only [List.length_map, List.length_append]
        split
        · next ht => have := (h9 ht).2; unfold Vec.up64; omega
        · omega
      · simp only [List.getElem?_map]
        rw [List.getElem?_append_left (by omega)]
      · have := (h9 ht).2
        have hi' : i < (n + 63) / 64 * 64 := hi'
        have hlt : i < (l' ++ rest).length := by simp only [List.length_append]; omega
        simp only [List.getElem?_map]
        rw [List.getElem?_eq_getElem hlt, List.getElem_append_right (by omega)]
        obtain ⟨c, hc⟩ := has_bool ((h9 ht).1 _ (List.getElem_mem (l := rest) (n := i - l'.length) (by simp only [List.length_append] at hlt; omega)))
        exact ⟨c, by rw [hc]; rfl⟩
  | str c =>
    cases a with
    | str c' z => obtain ⟨rfl, h7⟩ := h7; exact ⟨z, j, h7, h6, by simp [h5, Arg.cell]⟩
    | num _ => exact absurd h7 (by simp [ArgIs])
    | vec _ _ => exact absurd h7 (by simp [ArgIs])
    | strs _ => exact absurd h7 (by simp [ArgIs])
  | strs l =>
    cases a with
    | strs l' =>
      obtain ⟨rfl, h7, h8⟩ := h7
      refine ⟨by simpa using h7, j, ⟨l'.length, l'.map fun q => .word q.2⟩, h6, by simp [h5, Arg.cell], h7, by simp [h7], fun i c hc => ?_⟩
      rw [List.getElem?_map, Option.map_eq_some_iff] at hc
      obtain ⟨q, hq, rfl⟩ := hc
      exact ⟨q.2, by simp [hq], h8 q (List.mem_of_getElem? hq)⟩
    | num _ => exact absurd h7 (by simp [ArgIs])
    | vec _ _ => exact absurd h7 (by simp [ArgIs])
    | str _ _ => exact absurd h7 (by simp [ArgIs])

/-! ## Functions -/

theorem not_context (q : Bool × Ty) : typeText q ≠ contextText := by
  obtain ⟨b, t⟩ := q
  cases b <;> cases t with
  | bool => decide
  | int t => cases t <;> decide
  | flt F => cases F <;> decide

theorem not_context_param (q : Bool × El) : paramText q ≠ contextText := by
  obtain ⟨b, t⟩ := q
  cases t with
  | num t => exact not_context (b, t)
  | str => cases b <;> decide

theorem filter_texts (ps : List (Name × Bool × El)) : contexts (ps.map fun q => (paramText q.2, q.1)) = [] ∧ plain (ps.map fun q => (paramText q.2, q.1)) = ps.map fun q => (paramText q.2, q.1) := by
  unfold contexts plain
  constructor
  · rw [List.filter_eq_nil_iff.2, List.map_nil]
    intro p hp
    obtain ⟨q, _, rfl⟩ := List.mem_map.1 hp
    simp [not_context_param]
  · rw [List.filter_eq_self]
    intro p hp
    obtain ⟨q, _, rfl⟩ := List.mem_map.1 hp
    simp [not_context_param]

theorem params_split (ps qs : List (Name × Bool × El)) (c : Name) :
    contexts (ps.map (fun q => (paramText q.2, q.1)) ++ (contextText, c) :: qs.map fun q => (paramText q.2, q.1)) = [c] ∧
      plain (ps.map (fun q => (paramText q.2, q.1)) ++ (contextText, c) :: qs.map fun q => (paramText q.2, q.1)) = (ps ++ qs).map fun q => (paramText q.2, q.1) := by
  have h1 := filter_texts ps
  have h2 := filter_texts qs
  simp only [contexts, plain] at h1 h2 ⊢
  refine ⟨?_, ?_⟩
  · rw [List.filter_append, List.map_append, h1.1, List.nil_append, List.filter_cons, if_pos (by simp), List.map_cons, h2.1]
  · rw [List.filter_append, h1.2, List.filter_cons, if_neg (by simp), h2.2, List.map_append]

theorem kinds_start {ps : List (Name × Bool × El)} {args : List Arg} (h : ∀ x, (start ps args x).map Item.vty = (ps.lookup x).map fun q => (q.1, q.2.p)) : kinds (start ps args) = paramKinds ps := by
  have inj : ∀ t u : Ty, t.p = u.p → t = u := fun t u h => by cases t <;> cases u <;> simp [Ty.p] at h ⊢ <;> exact h
  have other : ∀ t : Ty, t.p ≠ .other := fun t h => by cases t <;> simp [Ty.p] at h
  simp only [kinds, paramKinds, VEnv.mk.injEq]
  constructor <;> funext x <;> have := h x <;> revert this <;> cases start ps args x with
  | none => cases ps.lookup x <;> simp
  | some it => cases ps.lookup x with
    | none => simp
    | some q =>
      obtain ⟨b, el⟩ := q
      intro hq
      simp only [Option.map_some, Option.some.injEq] at hq
      cases it <;> cases el <;> simp only [Item.vty, El.p, Prod.mk.injEq] at hq <;> obtain ⟨rfl, hq⟩ := hq <;>
        first | rfl | (cases inj _ _ hq; rfl) | exact absurd hq (other _) | exact absurd hq.symm (other _)

/-- **C153.** A function over vectors returns, for every length, the vector the statements describe; where an element is not defined, the call is undefined. -/
theorem vector_function (cfg : Cfg) (fpu : Hw) (g : VFn) (hg : g.Ok fpu) (src : List Char) (hs : ReadsFn cfg src g) (n : Nat) (hn : n < 2 ^ 30) (args : List Arg)
    (ha : Passed fpu n g.params args) (mem : Nat → List MV) (hmem : ∀ m, (mem m).length = m) : runFn cfg fpu mem src args = outcome (g.returns fpu n args) := by
  obtain ⟨h, rest, ps, qs, h1, h2, e, h3, h4⟩ := hs
  obtain ⟨⟨hd, hx, hb⟩, hg⟩ := hg
  obtain ⟨v, h5, h8, h6⟩ := start_match fpu n g.params args hd ha [g.ctx]
  obtain ⟨_, _, _, _, _, _, _, h7⟩ := enter_ok fpu n g.params args 0 hd ha
  unfold runFn
  rw [h1]
  dsimp only
  rw [h2, h3, (params_split ps qs g.ctx).1, (params_split ps qs g.ctx).2, ← e, named, h5]
  dsimp only
  rw [if_pos ⟨by simp, by simpa using h8 _ hx⟩]
  refine (run_body fpu hn hmem h6 (by simp) (by simpa using hb) ?_ h4).trans rfl
  rw [kinds_start h7]
  exact hg

/-! ## Functions without a context -/

/-- An expression that is a single operand. -/
def isAtom : Tree → Bool
  | .atom (.call _ _) => false
  | .atom _ => true
  | _ => false

/-- No statement and no result has an operator or calls a function. -/
def bare : Stmts → Bool
  | .cons (.retVal e) _ => isAtom e.toTree
  | .cons (.expr (.bin _ op r)) ss => decide (op = .assign) && isAtom r.toTree && bare ss
  | .cons _ ss => bare ss
  | .nil => true

theorem last_node (fpu : Hw) (look : Name → Option Nd) (a : Rpn) (n : Rpn.Node) (ns : List Nd) (h : nodesOf fpu look (a.append (.cons n .nil)) = some ns) :
    ∃ b m, nodeOf fpu look n = some m ∧ ns = b ++ [m] := by
  rw [nodes_append] at h
  cases ha : nodesOf fpu look a with
  | none => rw [ha] at h; cases h
  | some b =>
    rw [ha, nodesOf, nodesOf] at h
    cases hn : nodeOf fpu look n with
    | none => rw [hn] at h; cases h
    | some m => rw [hn] at h; simp at h; exact ⟨b, m, rfl, h.symm⟩

theorem tree_last (fpu : Hw) (look : Name → Option Nd) (t : Tree) (ht : isAtom t = false) (ns : List Nd) (h : nodesOf fpu look (treeFlat Real.arity t) = some ns) : ∃ b o, ns = b ++ [.op o] := by
  have key : ∃ (a : Rpn) (n : Rpn.Node), treeFlat Real.arity t = a.append (.cons n .nil) ∧ ∀ m, nodeOf fpu look n = some m → ∃ o, m = .op o := by
    cases t with
    | atom o => cases o with
      | call f es =>
        cases ha : Real.arity f with
        | some k => exact ⟨flatArgs Real.arity es, .inl f, by simp only [treeFlat, flatO, ha], fun m hm => by simp only [nodeOf, Option.some.injEq] at hm; exact ⟨_, hm.symm⟩⟩
        | none => simp only [treeFlat, flatO, ha, nodesOf, nodeOf, Option.bind_none, reduceCtorEq] at h
      | _ => cases ht
    | un op t => exact ⟨_, _, rfl, fun m hm => by simp only [nodeOf, Option.some.injEq] at hm; exact ⟨_, hm.symm⟩⟩
    | bin l op r => exact ⟨_, _, by rw [treeFlat, VecPipe.append_assoc], fun m hm => by
        simp only [nodeOf] at hm
        split at hm
        · cases hm
        · simp only [Option.some.injEq] at hm; exact ⟨_, hm.symm⟩⟩
    | sel c t f => exact ⟨_, _, by rw [treeFlat, VecPipe.append_assoc, VecPipe.append_assoc], fun m hm => by simp only [nodeOf, Option.some.injEq] at hm; exact ⟨_, hm.symm⟩⟩
  obtain ⟨a, n, e, hn⟩ := key
  rw [e] at h
  obtain ⟨b, m, h1, rfl⟩ := last_node fpu look a n ns h
  obtain ⟨o, rfl⟩ := hn m h1
  exact ⟨b, o, rfl⟩

section
variable (fpu : Hw) (mem : Nat → List MV)

theorem eval_bare (w : World) (hw : w.ctx = []) (t : PTy) (ns : List Nd) : evalNodes fpu mem w t ns = .error .compile ∨ ∃ t' s, ns = [.vec t' s] ∧ evalNodes fpu mem w t ns = .ok (.old t' s) := by
  match ns with
  | [] => left; simp [evalNodes, hw]
  | [a] => cases a <;> first | exact .inl rfl | exact .inr ⟨_, _, rfl, rfl⟩
  | a :: b :: l => left; cases a <;> simp [evalNodes, hw]

theorem store_bare (w : World) (x : Name) (new : Bool) (t t' : PTy) (s : Nat) :
    store w x new t (.old t' s) = .error .compile ∨ ∃ w', store w x new t (.old t' s) = .ok w' ∧ w'.ctx = w.ctx := by
  unfold store
  split
  · exact .inr ⟨_, rfl, rfl⟩
  · cases w.vars x with
    | none => exact .inl rfl
    | some q =>
      dsimp only
      cases w.cells[s]? with
      | none => exact .inl rfl
      | some c =>
        dsimp only
        split
        · exact .inr ⟨_, rfl, rfl⟩
        · exact .inl rfl

theorem source_long (a : Option Nd) (op : BinOp) (h : op ≠ .assign) (r ns : List Nd) (hn : sourceNodes a op r = some ns) : ∃ b o, ns = b ++ [.op o] := by
  unfold sourceNodes at hn
  rw [if_neg h] at hn
  cases a with
  | none => cases hn
  | some a =>
    cases hb : Scalar.baseOp op with
    | none => rw [hb] at hn; cases hn
    | some o => rw [hb] at hn; simp only [Option.bind_some, Option.map_some, Option.some.injEq] at hn; exact ⟨a :: r, _, by rw [← hn]⟩

theorem st_bare (w : World) (hw : w.ctx = []) (f : Expr) :
    runSt fpu mem w f = .error .compile ∨ ∃ w', runSt fpu mem w f = .ok w' ∧ w'.ctx = [] ∧ ∃ l r, f = .bin l .assign r ∧ isAtom r.toTree = true := by
  unfold runSt
  cases checkSt fpu (fun x => (w.vars x).map (·.1)) f with
  | none => exact .inl rfl
  | some q =>
  cases hp : parts f with
  | none => exact .inl rfl
  | some p =>
  obtain ⟨x, new, op, r⟩ := p
  dsimp only
  cases hn : nodesOf fpu w.leaf (flatE Real.arity r) with
  | none => exact .inl rfl
  | some rs =>
  rw [Option.bind_some]
  cases hs : sourceNodes (w.leaf x) op rs with
  | none => exact .inl rfl
  | some ns =>
  dsimp only
  split
  · rcases eval_bare fpu mem w hw q.1.2 ns with h | ⟨t', s, h1, h2⟩
    · rw [h]; exact .inl rfl
    · rw [h2]
      have ho : op = .assign := by
        apply Decidable.byContradiction
        intro ho
        obtain ⟨b, o, e⟩ := source_long _ op ho _ _ hs
        rw [h1] at e
        have := List.append_inj_right' (s₁ := []) (t₁ := [Vec.Node.vec t' s]) e rfl
        simp at this
      subst ho
      simp only [sourceNodes, if_true, Option.some.injEq] at hs
      subst hs h1
      have ha : isAtom r.toTree = true := by
        cases ha : isAtom r.toTree with
        | true => rfl
        | false =>
          rw [flat_tree] at hn
          obtain ⟨b, o, e⟩ := tree_last fpu _ _ ha _ hn
          have := List.append_inj_right' (s₁ := []) (t₁ := [Vec.Node.vec t' s]) e rfl
          simp at this
      rcases store_bare w x new q.1.2 t' s with h | ⟨w', h3, h4⟩
      · exact .inl h
      · refine .inr ⟨w', h3, h4.trans hw, ?_⟩
        unfold parts at hp
        split at hp
        · simp only [Option.some.injEq, Prod.mk.injEq] at hp
          obtain ⟨_, _, rfl, rfl⟩ := hp; exact ⟨_, _, rfl, ha⟩
        · simp only [Option.some.injEq, Prod.mk.injEq] at hp
          obtain ⟨_, _, rfl, rfl⟩ := hp; exact ⟨_, _, rfl, ha⟩
        · cases hp
  · exact .inl rfl

theorem ret_bare (w : World) (hw : w.ctx = []) (ret : PTy) (e : Expr) (he : isAtom e.toTree = false) : runRet fpu mem w ret e = .error .compile := by
  unfold runRet
  cases checkE fpu (fun x => (w.vars x).map (·.1)) e with
  | none => rfl
  | some t =>
  cases listTy fpu (fun x => (w.vars x).map (·.1)) e with
  | none => rfl
  | some t' =>
  cases hn : nodesOf fpu w.leaf (flatE Real.arity e) with
  | none => rfl
  | some ns =>
  dsimp only
  rw [flat_tree] at hn
  obtain ⟨b, o, rfl⟩ := tree_last fpu _ _ he _ hn
  rw [if_neg]
  rintro ⟨h1, _, _, h2 | h2⟩
  · exact h2 hw
  · simp only [List.length_append, List.length_singleton] at h2
    have : b = [] := List.eq_nil_of_length_eq_zero (by omega)
    subst this
    simp [isVec] at h1

theorem body_bare (ret : PTy) : ∀ (b : Stmts) (w : World), w.ctx = [] → bare b = false → runBody fpu mem ret w b = .error .compile
  | .nil, w, hw, hb => by cases hb
  | .cons s ss, w, hw, hb => by
    cases s with
    | retVal e => rw [runBody]; exact ret_bare fpu mem w hw ret e hb
    | expr f =>
      rw [runBody]
      rcases st_bare fpu mem w hw f with h | ⟨w', h1, h2, l, r, rfl, h3⟩
      · rw [h]; rfl
      · rw [h1]
        refine body_bare ret ss w' h2 ?_
        simpa [bare, h3] using hb
    | _ => rfl

end

/-- **C153**, new vectors need a context: a function without a parameter of type `Context` that has an operator anywhere is refused, whatever is passed. -/
theorem without_context_refused (cfg : Cfg) (fpu : Hw) (mem : Nat → List MV) (src : List Char) (h : Func) (rest : List Tok) (hs : parseFunctions cfg src = .ok [h] rest)
    (hc : ∀ p ∈ h.params, p.1 ≠ contextText) (hb : bare h.body = false) (args : List Arg) : runFn cfg fpu mem src args = .error .compile := by
  have e : contexts h.params = [] := by
    unfold contexts
    rw [List.filter_eq_nil_iff.2, List.map_nil]
    intro p hp
    simp [hc p hp]
  unfold runFn
  rw [hs]
  dsimp only
  cases typeNamed h.ret with
  | none => rfl
  | some t =>
    obtain ⟨b, ret⟩ := t
    cases enter 0 (plain h.params) args with
    | none => cases b <;> rfl
    | some v =>
      cases b with
      | false => rfl
      | true =>
        dsimp only
        split
        · exact body_bare fpu mem ret _ _ e hb
        · rfl

end Verif.Comp.VecFn
