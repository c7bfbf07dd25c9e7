import Verif.Comp.TableFnArgs
/-!
# Functions over tables: theorems
-/
namespace Verif.Comp.TableFn
open Verif.Ast hiding Ty
open Verif.Ast.Rpn Verif.Gen
open Verif.Types.Conv (IntTy)
open Verif.Gen.Scalar (Name)
open Verif.Simd (Byte)
open Verif.Comp.Pipeline (Arith Rel decimal bit)
open Verif.Comp.Real hiding Passed Ex
open Verif.Comp.VecFn (Ex Hw El Str Lane paramKinds viewText)
open Verif.Comp.VecFn (VEnv Vars Cell World elemOf hasV valueAt vectorOf kinds lane Guarded checkE nodesOf evalNodes typeNamed contextText VTy Fine fine_of Match Held BufOk)

section
variable {P : Type} {hw : Hw}

/-! ## Steps -/

/-- Names are kept; no table changes but for the columns in `F`, which must not be read any more. -/
structure Pres (hw : Hw) (S : Schema P) (F : List Name) (w w' : TWorld P) : Prop where
  tabs : w'.tabs = w.tabs
  nums : w'.nums = w.nums
  ctx : w'.ctx = w.ctx
  objs : ∀ (i : Nat) o, w.objs[i]? = some o → ∃ o', w'.objs[i]? = some o' ∧ ∀ D rows, Good hw S D rows o → Good hw S (F ++ D) rows o'

theorem Pres.refl (hw : Hw) (S : Schema P) (w : TWorld P) : Pres hw S [] w w := ⟨rfl, rfl, rfl, fun _ o h => ⟨o, h, fun _ _ h => h⟩⟩

theorem Pres.trans {S : Schema P} {F : List Name} {w w1 w2 : TWorld P} (h : Pres hw S F w w1) (h' : Pres hw S [] w1 w2) : Pres hw S F w w2 :=
  ⟨h'.tabs.trans h.tabs, h'.nums.trans h.nums, h'.ctx.trans h.ctx, fun i o ho => by
    obtain ⟨o1, h1, h2⟩ := h.objs i o ho
    obtain ⟨o2, h3, h4⟩ := h'.objs i o1 h1
    exact ⟨o2, h3, fun D rows hg => h4 _ _ (h2 D rows hg)⟩⟩

theorem Pres.after {S : Schema P} {F : List Name} {w w1 w2 : TWorld P} (h : Pres hw S [] w w1) (h' : Pres hw S F w1 w2) : Pres hw S F w w2 :=
  ⟨h'.tabs.trans h.tabs, h'.nums.trans h.nums, h'.ctx.trans h.ctx, fun i o ho => by
    obtain ⟨o1, h1, h2⟩ := h.objs i o ho
    obtain ⟨o2, h3, h4⟩ := h'.objs i o1 h1
    exact ⟨o2, h3, fun D rows hg => h4 _ _ (h2 D rows hg)⟩⟩

theorem Pres.weaken {S : Schema P} {w w' : TWorld P} (h : Pres hw S [] w w') (F : List Name) : Pres hw S F w w' :=
  ⟨h.tabs, h.nums, h.ctx, fun i o ho => by
    obtain ⟨o', h1, h2⟩ := h.objs i o ho
    exact ⟨o', h1, fun D rows hg => (h2 D rows hg).more F⟩⟩

theorem pres_set {S : Schema P} {F : List Name} {w : TWorld P} {i : Nat} {o o' : TObj P} (ho : w.objs[i]? = some o) (h : ∀ D rows, Good hw S D rows o → Good hw S (F ++ D) rows o') :
    Pres hw S F w { w with objs := w.objs.set i o' } := by
  refine ⟨rfl, rfl, rfl, fun j p hp => ?_⟩
  have hi : i < w.objs.length := (List.getElem?_eq_some_iff.1 ho).1
  by_cases hj : i = j
  · subst hj
    rw [ho] at hp
    injection hp with hp
    subst hp
    exact ⟨o', by simp [hi], h⟩
  · exact ⟨p, by rw [List.getElem?_set_ne hj]; exact hp, fun D rows hg => hg.more F⟩

theorem pres_push (hw : Hw) (S : Schema P) (w : TWorld P) (t : Tbl.Table P) : Pres hw S [] w (w.push t).1 :=
  ⟨rfl, rfl, rfl, fun i o ho => ⟨o, by
    show (w.objs ++ _)[i]? = _
    rw [List.getElem?_append_left (List.getElem?_eq_some_iff.1 ho).1]; exact ho, fun _ _ h => h⟩⟩

theorem push_get {S : Schema P} (w : TWorld P) {t : Tbl.Table P} (ht : Shape S t) (D : List Name) : ∃ o, (w.push t).1.objs[(w.push t).2]? = some o ∧ Good hw S D (rowsOf t) o :=
  ⟨⟨t, fun _ => []⟩, by show (w.objs ++ _)[w.objs.length]? = _; simp, good_new ht⟩

/-! ## Calls -/

theorem buf_take {n : Nat} {t : Ty} {l : List Val} {b : Vec.Buf MV} (hl : l.length = n) (h : BufOk n t l b) : b.mem.take b.size = l.map Val.enc := by
  obtain ⟨h1, h2, h3, _⟩ := h
  have h4 : n ≤ b.mem.length := by
    split at h2
    · unfold Vec.up64 at h2; omega
    · exact h2
  refine List.ext_getElem? fun j => ?_
  rw [List.getElem?_take, List.getElem?_map, h1]
  split
  · next hj => exact h3 j hj
  · next hj => rw [List.getElem?_eq_none (by omega)]; rfl

theorem filter_ok {L : Lib P} (hL : L.Ok) {S : Schema P} (hS : S.Ok L.fpu) {w : TWorld P} {r : Nat} {o : TObj P} (ho : w.objs[r]? = some o) {D : List Name} {rows : List (Row P)} (hg : Good L.fpu S D rows o)
    {l : List Val} {a : VArg} (ha : a.ty = Ty.bool.p) (hb : BufOk rows.length .bool l a.buf) (hl : l.length = rows.length) (ht : ∀ v ∈ l, v.Has .bool) (D' : List Name) :
    ∃ w' r', doFilter L w r a = .ok (w', r') ∧ Pres L.fpu S [] w w' ∧ ∃ o', w'.objs[r']? = some o' ∧ Good L.fpu S D' (keep rows l) o' := by
  obtain ⟨bits, h1, h2, h3⟩ := mask_ok hl ht hb
  have hc : rows.length = Tbl.count o.rows := by rw [← rows_length, hg.eq]
  have hf := Tbl.table_filter L.null L.junk L.lanes hL.lanes.1 hL.lanes.2 o.rows hg.shape.aligned bits (by rw [← hc]; exact h2)
  have hlt : ∀ i ∈ Tbl.selected (Simd.bitAt bits) (Tbl.count o.rows), i < Tbl.count o.rows := fun i hi => List.mem_range.1 (List.mem_filter.1 hi).1
  refine ⟨_, _, by
    unfold doFilter
    rw [if_neg (by simp [ha, Ty.p]), ho, h1]
    dsimp only
    rw [hf], pres_push L.fpu S w _, ?_⟩
  obtain ⟨o', h4, h5⟩ := push_get w (shape_pick hS hg.shape _ hlt) D'
  refine ⟨o', h4, ?_⟩
  rw [rows_pick _ hg.shape.aligned (hg.shape.ne hS) _ hlt, hg.eq, ← hc, keep_selected _ _ _ hl h3] at h5
  exact h5

theorem key_sortable {t : Ty} (h : sortable t = true) : keyTy t.p = true := by cases t <;> simp [sortable, keyTy, Ty.p] at h ⊢; exact h

def keyCol (x : Name) : Ex → List Name
  | .var y => [y.drop (x.length + 1)]
  | _ => []

theorem spoil_ok {S : Schema P} {w : TWorld P} {i : Nat} {o : TObj P} (ho : w.objs[i]? = some o) {D : List Name} {rows : List (Row P)} (hg : Good hw S D rows o) {x : Name} {e : Ex} {t : Ty} {a : VArg}
    (hor : a.origin = none ∨ ∃ c ∈ S.cols, a.origin = some (i, c.name) ∧ e = .var (dotted x c.name) ∧ ∃ f, c.data = .num t f) {l : List Val} (hl : l.length = rows.length) (ht : ∀ v ∈ l, v.Has t) (hS : S.Ok hw) :
    Pres hw S (keyCol x e) w (w.spoil a (l.map Val.enc)) := by
  unfold TWorld.spoil
  rcases hor with h | ⟨c, hc, h, rfl, f, hdat⟩
  · rw [h]; exact (Pres.refl hw S w).weaken _
  · rw [h]
    dsimp only
    rw [ho]
    refine pres_set ho fun D2 rows2 hg2 => ?_
    have e1 : (dotted x c.name).drop (x.length + 1) = c.name := by
      unfold dotted
      rw [List.drop_append, List.drop_of_length_le (by omega), Nat.add_sub_cancel_left]; rfl
    rw [keyCol, e1]
    have e2 : rows2 = rows := by rw [← hg2.eq, ← hg.eq]
    subst e2
    have hgm := hg2.more [c.name]
    refine ⟨hgm.shape, hgm.eq, fun d hd => ?_⟩
    by_cases hn : d.name = c.name
    · have : d = c := by
        have h1 := find_col hS hd
        rw [hn, find_col hS hc] at h1
        exact (Option.some.inj h1).symm
      subst this
      refine .inr ⟨.vec t l, by rw [hdat]; exact ⟨l, rfl, hl, ht, by simp⟩, fun h => absurd (by simp) h⟩
    · simp only [if_neg hn]; exact hgm.cache d hd

theorem values_pick {t : Ty} {l : List Val} (ht : ∀ v ∈ l, v.Has t) {σ : List Nat} (hσ : σ.Perm (List.range l.length)) :
    (σ.filterMap fun i => l[i]?).length = l.length ∧ ∀ v ∈ σ.filterMap (fun i => l[i]?), v.Has t := by
  have hlt : ∀ i ∈ σ, i < l.length := fun i hi => List.mem_range.1 (hσ.mem_iff.1 hi)
  refine ⟨by rw [Tbl.filterMap_length _ _ hlt, hσ.length_eq, List.length_range], fun v hv => ?_⟩
  obtain ⟨i, _, h⟩ := List.mem_filterMap.1 hv
  exact ht v (List.mem_of_getElem? h)

theorem order_ok {L : Lib P} (hL : L.Ok) {S : Schema P} (hS : S.Ok L.fpu) {w : TWorld P} {i : Nat} {o : TObj P} (ho : w.objs[i]? = some o) {D : List Name} {rows : List (Row P)} (hg : Good L.fpu S D rows o)
    {x : Name} {e : Ex} {t : Ty} (hs : sortable t = true) {l : List Val} {a : VArg} (ha : a.ty = t.p) (hb : BufOk rows.length t l a.buf) (hl : l.length = rows.length) (ht : ∀ v ∈ l, v.Has t)
    (hor : a.origin = none ∨ ∃ c ∈ S.cols, a.origin = some (i, c.name) ∧ e = .var (dotted x c.name) ∧ ∃ f, c.data = .num t f) (desc : Bool) (D' : List Name) :
    ∃ out w' r', Ordered desc l rows out ∧ doOrder L w i a desc = .ok (w', r') ∧ Pres L.fpu S (keyCol x e) w w' ∧
      ∃ o', w'.objs[r']? = some o' ∧ Good L.fpu S D' out o' := by
  have hc : rows.length = Tbl.count o.rows := by rw [← rows_length, hg.eq]
  obtain ⟨σ, h1, h2, h3⟩ := hL.sort t desc l (List.range (Tbl.count o.rows)) ht (by simp [hl, hc])
  have hlt : ∀ i ∈ σ, i < Tbl.count o.rows := fun i hi => by have := List.mem_range.1 (h1.mem_iff.1 hi); omega
  rw [Tbl.filterMap_range _ _ hlt] at h2
  obtain ⟨h4, h5⟩ := values_pick ht h1
  have hgs := Tbl.gatherSub_ok L.null L.lanes hL.lanes.1 o.rows hg.shape.aligned σ hlt
  have hrun : doOrder L w i a desc = .ok ((w.spoil a ((σ.filterMap fun i => l[i]?).map Val.enc)).push (Tbl.pick o.rows σ)) := by
    unfold doOrder
    rw [ha, if_neg (by simp [key_sortable hs]), ho, buf_take hl hb]
    dsimp only
    unfold Tbl.orderBy Tbl.sortKeyValue
    rw [if_neg (by simp), if_neg (by simp [hl, hc])]
    dsimp only
    rw [h2]
    dsimp only
    rw [hgs]
    rfl
  refine ⟨_, _, _, ordered_of hl h1 h3, hrun, (spoil_ok ho hg hor (h4.trans hl) h5 hS).trans (pres_push L.fpu S _ _), ?_⟩
  obtain ⟨o', h6, h7⟩ := push_get (w.spoil a ((σ.filterMap fun i => l[i]?).map Val.enc)) (shape_pick hS hg.shape _ hlt) D'
  rw [rows_pick _ hg.shape.aligned (hg.shape.ne hS) _ hlt, hg.eq] at h7
  exact ⟨o', h6, h7⟩

theorem topk_ok {L : Lib P} (hL : L.Ok) {S : Schema P} (hS : S.Ok L.fpu) {w : TWorld P} {i : Nat} {o : TObj P} (ho : w.objs[i]? = some o) {D : List Name} {rows : List (Row P)} (hg : Good L.fpu S D rows o)
    {x : Name} {e : Ex} {t : Ty} (hs : sortable t = true) {l : List Val} {a : VArg} (ha : a.ty = t.p) (hb : BufOk rows.length t l a.buf) (hl : l.length = rows.length) (ht : ∀ v ∈ l, v.Has t)
    (hor : a.origin = none ∨ ∃ c ∈ S.cols, a.origin = some (i, c.name) ∧ e = .var (dotted x c.name) ∧ ∃ f, c.data = .num t f) (k : Nat) (desc : Bool) (D' : List Name) :
    ∃ out w' r', First desc k l rows out ∧ doTopk L w i a k desc = .ok (w', r') ∧ Pres L.fpu S (keyCol x e) w w' ∧
      ∃ o', w'.objs[r']? = some o' ∧ Good L.fpu S D' out o' := by
  have hc : rows.length = Tbl.count o.rows := by rw [← rows_length, hg.eq]
  have hmin : (if k > Tbl.count o.rows then Tbl.count o.rows else k) = min k rows.length := by split <;> omega
  obtain ⟨σ, h1, h2, h3⟩ := hL.topk t desc (min k rows.length) l (List.range (Tbl.count o.rows)) ht (by simp [hl, hc]) (by omega)
  have hlt : ∀ i ∈ σ, i < Tbl.count o.rows := fun i hi => by have := List.mem_range.1 (h1.mem_iff.1 hi); omega
  have hlt' : ∀ i ∈ σ.take (min k rows.length), i < Tbl.count o.rows := fun i hi => hlt i (List.mem_of_mem_take hi)
  rw [Tbl.filterMap_range _ _ hlt] at h2
  obtain ⟨h4, h5⟩ := values_pick ht h1
  have hgs := Tbl.gatherSub_ok L.null L.lanes hL.lanes.1 o.rows hg.shape.aligned _ hlt'
  have hrun : doTopk L w i a k desc = .ok ((w.spoil a ((σ.filterMap fun i => l[i]?).map Val.enc)).push (Tbl.pick o.rows (σ.take (min k rows.length)))) := by
    unfold doTopk
    rw [ha, if_neg (by simp [key_sortable hs]), ho, buf_take hl hb]
    dsimp only
    unfold Tbl.topk Tbl.sortKeyValue
    simp only [hmin]
    rw [if_neg (by simp), if_neg (by simp [hl, hc])]
    dsimp only
    rw [h2]
    dsimp only
    rw [hgs]
    rfl
  refine ⟨_, _, _, first_of hl h1 k h3, hrun, (spoil_ok ho hg hor (h4.trans hl) h5 hS).trans (pres_push L.fpu S _ _), ?_⟩
  obtain ⟨o', h6, h7⟩ := push_get (w.spoil a ((σ.filterMap fun i => l[i]?).map Val.enc)) (shape_pick hS hg.shape _ hlt') D'
  rw [rows_pick _ hg.shape.aligned (hg.shape.ne hS) _ hlt', hg.eq] at h7
  exact ⟨o', h6, h7⟩

theorem head_ok {S : Schema P} (hS : S.Ok hw) {w : TWorld P} {r : Nat} {o : TObj P} (ho : w.objs[r]? = some o) {D : List Name} {rows : List (Row P)} (hg : Good hw S D rows o) (k : Nat) :
    ∃ w' r', doHead w r k = .ok (w', r') ∧ Pres hw S [] w w' ∧ ∃ o', w'.objs[r']? = some o' ∧ Good hw S D (rows.take k) o' := by
  unfold doHead
  rw [ho]
  dsimp only
  split
  · next h =>
    have hc : rows.length = Tbl.count o.rows := by rw [← rows_length, hg.eq]
    exact ⟨_, _, rfl, Pres.refl hw S w, o, ho, by rw [List.take_of_length_le (by omega)]; exact hg⟩
  · obtain ⟨h1, h2⟩ := rows_head hS hg.shape k
    obtain ⟨o', h3, h4⟩ := push_get w h1 D
    exact ⟨_, _, rfl, pres_push hw S w _, o', h3, by rw [← hg.eq, ← h2]; exact h4⟩

theorem tail_ok {S : Schema P} (hS : S.Ok hw) {w : TWorld P} {r : Nat} {o : TObj P} (ho : w.objs[r]? = some o) {D : List Name} {rows : List (Row P)} (hg : Good hw S D rows o) (k : Nat) (hk : 0 < k) :
    ∃ w' r', doTail w r k = .ok (w', r') ∧ Pres hw S [] w w' ∧ ∃ o', w'.objs[r']? = some o' ∧ Good hw S D (rows.drop (rows.length - k)) o' := by
  unfold doTail
  rw [ho]
  dsimp only
  split
  · next h =>
    have hc : rows.length = Tbl.count o.rows := by rw [← rows_length, hg.eq]
    exact ⟨_, _, rfl, Pres.refl hw S w, o, ho, by rw [show rows.length - k = 0 by omega]; exact hg⟩
  · obtain ⟨h1, h2⟩ := rows_tail hS hg.shape k hk
    obtain ⟨o', h3, h4⟩ := push_get w h1 D
    exact ⟨_, _, rfl, pres_push hw S w _, o', h3, by rw [← hg.eq, ← h2]; exact h4⟩

theorem concat_ok {S : Schema P} (hS : S.Ok hw) {w : TWorld P} {r : Nat} {o : TObj P} (ho : w.objs[r]? = some o) {D : List Name} {rows : List (Row P)} (hg : Good hw S D rows o) {y : Name} {j : Nat}
    (hy : w.tabs.lookup y = some j) {p : TObj P} (hp : w.objs[j]? = some p) {D2 : List Name} {other : List (Row P)} (hg2 : Good hw S D2 other p) {a : Expr} (ha : a.toTree = .atom (.var y)) :
    ∃ w' r', doConcat w r a = .ok (w', r') ∧ Pres hw S [] w w' ∧ ∃ o', w'.objs[r']? = some o' ∧ Good hw S D (rows ++ other) o' := by
  obtain ⟨t, h1, h2, h3⟩ := rows_concat hS hg.shape hg2.shape
  obtain ⟨o', h4, h5⟩ := push_get w h2 D
  refine ⟨_, _, by
    unfold doConcat
    rw [ha]
    dsimp only
    rw [hy]
    dsimp only
    rw [ho, hp]
    dsimp only
    rw [h1], pres_push hw S w _, o', h4, by rw [← hg.eq, ← hg2.eq, ← h3]; exact h5⟩

/-! ## The variables -/

/-- The tables of the code have the rows of those of the specification. -/
structure Inv (hw : Hw) (S : Schema P) (ν : Nums) (τ : Tabs P) (δ : Dirty) (w : TWorld P) : Prop where
  nums : NumsOk hw ν w.nums
  ctx : w.ctx ≠ []
  tab : ∀ x rows, τ.lookup x = some rows → ∃ i o D, w.tabs.lookup x = some i ∧ w.objs[i]? = some o ∧ δ.lookup x = some D ∧ Good hw S D rows o
  fresh : ∀ x, τ.lookup x = none → w.tabs.lookup x = none
  names : τ.map (·.1) = δ.map (·.1)
  plain : ∀ x ∈ τ.map (·.1), '.' ∉ x

theorem mark_lookup (δ : Dirty) (F : List Name) (x : Name) : (δ.mark F).lookup x = (δ.lookup x).map (F ++ ·) := lookup_map δ (F ++ ·) x

theorem mark_names (δ : Dirty) (F : List Name) : (δ.mark F).map (·.1) = δ.map (·.1) := by simp [Dirty.mark, Function.comp_def]

theorem Inv.pres {S : Schema P} {ν : Nums} {τ : Tabs P} {δ : Dirty} {w w' : TWorld P} {F : List Name} (h : Inv hw S ν τ δ w) (hp : Pres hw S F w w') : Inv hw S ν τ (δ.mark F) w' := by
  refine ⟨hp.nums ▸ h.nums, hp.ctx ▸ h.ctx, fun x rows hx => ?_, fun x hx => hp.tabs ▸ h.fresh x hx, by rw [mark_names]; exact h.names, h.plain⟩
  obtain ⟨i, o, D, h1, h2, h3, h4⟩ := h.tab x rows hx
  obtain ⟨o', h5, h6⟩ := hp.objs i o h2
  exact ⟨i, o', F ++ D, hp.tabs ▸ h1, h5, by rw [mark_lookup, h3]; rfl, h6 D rows h4⟩

theorem mark_nil (δ : Dirty) : δ.mark [] = δ := by simp [Dirty.mark]

theorem lookup_names {α β : Type} {l : List (Name × α)} {m : List (Name × β)} (h : l.map (·.1) = m.map (·.1)) {x : Name} {b : β} (hx : m.lookup x = some b) : ∃ a, l.lookup x = some a := by
  cases hl : l.lookup x with
  | some a => exact ⟨a, rfl⟩
  | none =>
    have := (lookup_none _ _).1 hl
    rw [h] at this
    rw [(lookup_none _ _).2 this] at hx
    cases hx

theorem amount_lit {fpu : Hw} {ν : Nums} {Γ : VEnv} {e : Ex} (hs : VecFn.single Γ e = true) {m : Nat} (h : amount fpu [] e = some m) : amount fpu ν e = some m := by
  cases e <;> first | exact h | cases hs | skip
  simp [amount, numOf, valueAt, lane, seen, items] at h

/-! ## One call -/

/-- What a call does: what it is to give, or nothing. -/
def Does (fpu : Hw) (S : Schema P) (ν : Nums) (τ : Tabs P) (x : Name) (rows : List (Row P)) (c : Call) (F D' : List Name) (w : TWorld P) (r : Except TErr (TWorld P × Nat)) : Prop :=
  (Gives fpu S ν τ x rows c none ∧ r = .error (.code .trap)) ∨
    ∃ rows' w' r', Gives fpu S ν τ x rows c (some rows') ∧ r = .ok (w', r') ∧ Pres fpu S F w w' ∧ ∃ o', w'.objs[r']? = some o' ∧ Good fpu S D' rows' o'

def plainCall : Call → Bool
  | .head _ => true
  | .tail _ => true
  | .concat _ => true
  | _ => false

theorem call_plain {L : Lib P} {S : Schema P} (hS : S.Ok L.fpu) {ν : Nums} {τ : Tabs P} {δ : Dirty} {w : TWorld P} (hv : Inv L.fpu S ν τ δ w) {r : Nat} {o : TObj P} (ho : w.objs[r]? = some o) {D : List Name}
    {rows : List (Row P)} (hg : Good L.fpu S D rows o) {x : Name} {dirty : List Name} {first : Bool} {c : Call} (hc : c.Ok L.fpu S (typesOf ν) (δ.map (·.1)) x dirty first) (hp : plainCall c = true)
    {m : Member} (hi : c.Is m) : ∃ mt es, m = .method mt es ∧ Does L.fpu S ν τ x rows c [] D w (callOn L S w r mt es) := by
  cases c with
  | head k =>
    obtain ⟨a, rfl, ha⟩ := hi
    refine ⟨_, _, rfl, ?_⟩
    have e : callOn L S w r headText (.cons a .nil) = (evalNum L w (.int .u32) a).bind fun k => (wordOf k).bind fun k => doHead w r k.toNat := rfl
    rw [e]
    rcases amount_ok hv.nums hc ha with ⟨z, h1, h2⟩ | ⟨h1, v, h2, h3⟩
    · obtain ⟨w', r', h3, h4, h5⟩ := head_ok hS ho hg z.toNat
      exact .inr ⟨_, w', r', by simp only [Gives, h1]; rfl, by rw [h2]; exact h3, h4, h5⟩
    · exact .inl ⟨by simp only [Gives, h1]; rfl, by rw [h2]; simp only [Except.bind, h3]⟩
  | tail k =>
    obtain ⟨a, rfl, ha⟩ := hi
    refine ⟨_, _, rfl, ?_⟩
    have e : callOn L S w r tailText (.cons a .nil) = (evalNum L w (.int .u32) a).bind fun k => (wordOf k).bind fun k => doTail w r k.toNat := rfl
    rw [e]
    obtain ⟨hc, n, hn, hm⟩ := hc
    have hm := amount_lit (ν := ν) hc.2.1 hm
    rcases amount_ok hv.nums hc ha with ⟨z, h1, h2⟩ | ⟨h1, v, h2, h3⟩
    · rw [h1, Option.some.injEq] at hm
      obtain ⟨w', r', h3, h4, h5⟩ := tail_ok hS ho hg z.toNat (by omega)
      exact .inr ⟨_, w', r', by simp only [Gives, h1]; rfl, by rw [h2]; exact h3, h4, h5⟩
    · rw [h1] at hm; cases hm
  | concat y =>
    obtain ⟨a, rfl, ha⟩ := hi
    refine ⟨_, _, rfl, ?_⟩
    have e : callOn L S w r concatText (.cons a .nil) = doConcat w r a := rfl
    rw [e]
    obtain ⟨other, hy⟩ : ∃ other, τ.lookup y = some other := by
      cases h : τ.lookup y with
      | some other => exact ⟨other, rfl⟩
      | none => exact absurd (hv.names ▸ hc) ((lookup_none _ _).1 h)
    obtain ⟨j, p, D2, h1, h2, _, h3⟩ := hv.tab y other hy
    obtain ⟨w', r', h4, h5, h6⟩ := concat_ok hS ho hg h1 h2 h3 ha
    exact .inr ⟨_, w', r', ⟨other, hy, rfl⟩, h4, h5, h6⟩
  | _ => cases hp

theorem call_first {L : Lib P} (hL : L.Ok) {S : Schema P} (hS : S.Ok L.fpu) {ν : Nums} {τ : Tabs P} {δ : Dirty} {w : TWorld P} (hv : Inv L.fpu S ν τ δ w) {x : Name} (hxd : '.' ∉ x) {i : Nat}
    (hx : w.tabs.lookup x = some i) {o : TObj P} (ho : w.objs[i]? = some o) {D : List Name} {rows : List (Row P)} (hg : Good L.fpu S D rows o) (hn : rows.length < 2 ^ 30) {c : Call}
    (hc : c.Ok L.fpu S (typesOf ν) (δ.map (·.1)) x D true) {m : Member} (hi : c.Is m) :
    ∃ mt es, m = .method mt es ∧ Does L.fpu S ν τ x rows c (spoils x [c]) (if spoils x [c] = [] then D else []) w (callOn L S w i mt es) := by
  have hi' : i < w.objs.length := (List.getElem?_eq_some_iff.1 ho).1
  cases c with
  | filter e =>
    obtain ⟨a, rfl, ha⟩ := hi
    refine ⟨_, _, rfl, ?_⟩
    have e1 : callOn L S w i filterText (.cons a .nil) = (evalArg L S w a).bind fun q => doFilter L q.1 i q.2 := rfl
    rw [e1]
    rcases arg_ok hL hS hxd hx ho hg hn hv.ctx hv.nums hc.2 ha with ⟨h1, h2⟩ | ⟨l, o', va, h1, h2, h3, h4, h5, h6, h7, _⟩
    · exact .inl ⟨by simp only [Gives, h1]; rfl, by rw [h2]; rfl⟩
    · obtain ⟨w', r', h8, h9, h10⟩ := filter_ok hL hS (w := { w with objs := w.objs.set i o' }) (show (w.objs.set i o')[i]? = some o' by simp [hi']) (h3 D rows hg) h4 h5 h6 h7 D
      exact .inr ⟨_, w', r', by simp only [Gives, h1]; rfl, by rw [h2]; exact h8, (pres_set ho h3).trans h9, h10⟩
  | orderBy e d =>
    obtain ⟨a, b, rfl, ha, hb⟩ := hi
    obtain ⟨_, ⟨t, hs, hc⟩, hd⟩ := hc
    refine ⟨_, _, rfl, ?_⟩
    have e1 : callOn L S w i orderByText (.cons a (.cons b .nil)) =
        (evalArg L S w a).bind fun q => (evalNum L q.1 .bit b).bind fun d => (wordOf d).bind fun d => doOrder L q.1 i q.2 (d != 0) := rfl
    rw [e1]
    have hsp : spoils x [.orderBy e d] = keyCol x e := by cases e <;> rfl
    rw [hsp]
    rcases arg_ok hL hS hxd hx ho hg hn hv.ctx hv.nums hc ha with ⟨h1, h2⟩ | ⟨l, o', va, h1, h2, h3, h4, h5, h6, h7, h8⟩
    · exact .inl ⟨by simp only [Gives, h1], by rw [h2]; rfl⟩
    · have hw : NumsOk L.fpu ν ({ w with objs := w.objs.set i o' } : TWorld P).nums := hv.nums
      obtain ⟨f, hf, z, hz, hzf⟩ := flag_ok hw hd hb
      obtain ⟨out, w', r', h9, h10, h11, h12⟩ := order_ok hL hS (w := { w with objs := w.objs.set i o' }) (show (w.objs.set i o')[i]? = some o' by simp [hi']) (h3 D rows hg) hs h4 h5 h6 h7 h8 f
        (if keyCol x e = [] then D else [])
      exact .inr ⟨out, w', r', by simp only [Gives, h1, hf]; exact ⟨out, rfl, h9⟩, by
        rw [h2]; simp only [Except.bind, hz, wordOf, hzf]; exact h10, (pres_set ho (F := []) h3).after h11, h12⟩
  | topk e k d =>
    obtain ⟨a, b, c, rfl, ha, hb, hc'⟩ := hi
    obtain ⟨_, ⟨t, hs, hc⟩, hk, hd⟩ := hc
    refine ⟨_, _, rfl, ?_⟩
    have e1 : callOn L S w i topkText (.cons a (.cons b (.cons c .nil))) =
        (evalArg L S w a).bind fun q => (evalNum L q.1 (.int .u32) b).bind fun k => (wordOf k).bind fun k =>
      (evalNum L q.1 .bit c).bind fun d => (wordOf d).bind fun d => doTopk L q.1 i q.2 k.toNat (d != 0) := rfl
    rw [e1]
    have hsp : spoils x [.topk e k d] = keyCol x e := by cases e <;> rfl
    rw [hsp]
    rcases arg_ok hL hS hxd hx ho hg hn hv.ctx hv.nums hc ha with ⟨h1, h2⟩ | ⟨l, o', va, h1, h2, h3, h4, h5, h6, h7, h8⟩
    · exact .inl ⟨by simp only [Gives, h1], by rw [h2]; rfl⟩
    · have hw : NumsOk L.fpu ν ({ w with objs := w.objs.set i o' } : TWorld P).nums := hv.nums
      obtain ⟨f, hf, z, hz, hzf⟩ := flag_ok hw hd hc'
      rcases amount_ok hw hk hb with ⟨n, hn1, hn2⟩ | ⟨hn1, v, hn2, hn3⟩
      · obtain ⟨out, w', r', h9, h10, h11, h12⟩ := topk_ok hL hS (w := { w with objs := w.objs.set i o' }) (show (w.objs.set i o')[i]? = some o' by simp [hi']) (h3 D rows hg) hs h4 h5 h6 h7 h8 n.toNat f
          (if keyCol x e = [] then D else [])
        exact .inr ⟨out, w', r', by simp only [Gives, h1, hf, hn1]; exact ⟨out, rfl, h9⟩, by
          rw [h2]; simp only [Except.bind, hz, hn2, wordOf, hzf]; exact h10, (pres_set ho (F := []) h3).after h11, h12⟩
      · exact .inl ⟨by simp only [Gives, h1, hn1], by rw [h2]; simp only [Except.bind, hn2, hn3]⟩
  | head k =>
    obtain ⟨mt, es, h1, h2⟩ := call_plain hS hv ho hg hc rfl hi
    exact ⟨mt, es, h1, by simpa [spoils] using h2⟩
  | tail k =>
    obtain ⟨mt, es, h1, h2⟩ := call_plain hS hv ho hg hc rfl hi
    exact ⟨mt, es, h1, by simpa [spoils] using h2⟩
  | concat y =>
    obtain ⟨mt, es, h1, h2⟩ := call_plain hS hv ho hg hc rfl hi
    exact ⟨mt, es, h1, by simpa [spoils] using h2⟩

/-! ## Chains -/

/-- What a chain of calls does. -/
def DoesAll (fpu : Hw) (S : Schema P) (ν : Nums) (τ : Tabs P) (x : Name) (rows : List (Row P)) (cs : List Call) (F D' : List Name) (w : TWorld P) (r : Except TErr (TWorld P × Nat)) : Prop :=
  (Chain fpu S ν τ x rows cs none ∧ r = .error (.code .trap)) ∨
    ∃ rows' w' r', Chain fpu S ν τ x rows cs (some rows') ∧ r = .ok (w', r') ∧ Pres fpu S F w w' ∧ ∃ o', w'.objs[r']? = some o' ∧ Good fpu S D' rows' o'

theorem plain_later {fpu : Hw} {S : Schema P} {ν : List (Name × El)} {tabs : List Name} {x : Name} {D : List Name} {c : Call} (h : c.Ok fpu S ν tabs x D false) : plainCall c = true := by
  cases c <;> first | rfl | (have := h.1; cases this)

theorem chain_rest {L : Lib P} {S : Schema P} (hS : S.Ok L.fpu) {ν : Nums} {τ : Tabs P} {δ : Dirty} {x : Name} {dirty D : List Name} : ∀ (cs : List Call) (ms : Members) {w : TWorld P}, Inv L.fpu S ν τ δ w →
    ∀ {r : Nat} {o : TObj P}, w.objs[r]? = some o → ∀ {rows : List (Row P)}, Good L.fpu S D rows o →
    (∀ c ∈ cs, c.Ok L.fpu S (typesOf ν) (δ.map (·.1)) x dirty false) → CallsAre cs ms → DoesAll L.fpu S ν τ x rows cs [] D w (runChain L S w r ms)
  | [], .nil, w, hv, r, o, ho, rows, hg, hc, hi => .inr ⟨rows, w, r, .done, rfl, Pres.refl L.fpu S w, o, ho, hg⟩
  | c :: cs, .cons m ms, w, hv, r, o, ho, rows, hg, hc, hi => by
    obtain ⟨mt, es, rfl, h⟩ := call_plain hS hv ho hg (hc c (by simp)) (plain_later (hc c (by simp))) hi.1
    rw [runChain]
    rcases h with ⟨h1, h2⟩ | ⟨rows', w', r', h1, h2, h3, o', h4, h5⟩
    · exact .inl ⟨.fail h1, by rw [h2]; rfl⟩
    · rw [h2]
      rcases chain_rest hS cs ms (mark_nil δ ▸ hv.pres h3) h4 h5 (fun c h => hc c (by simp [h])) hi.2 with ⟨h6, h7⟩ | ⟨rows2, w2, r2, h6, h7, h8, h9⟩
      · exact .inl ⟨.step h1 h6, h7⟩
      · exact .inr ⟨rows2, w2, r2, .step h1 h6, h7, h3.trans h8, h9⟩

theorem spoils_cons (x : Name) (c : Call) (cs : List Call) : spoils x (c :: cs) = spoils x [c] := by
  cases c with
  | orderBy e d => cases e <;> rfl
  | topk e k d => cases e <;> rfl
  | _ => rfl

theorem tab_ok {L : Lib P} (hL : L.Ok) {S : Schema P} (hS : S.Ok L.fpu) {ν : Nums} {τ : Tabs P} {δ : Dirty} {w : TWorld P} (hv : Inv L.fpu S ν τ δ w) {x : Name} {cs : List Call}
    (hc : ChainOk L.fpu S (typesOf ν) δ x cs) (hn : ∀ y rows, τ.lookup y = some rows → rows.length < 2 ^ 30) {t : Tree} (hi : ChainIs x cs t) :
    ∃ rows, τ.lookup x = some rows ∧ DoesAll L.fpu S ν τ x rows cs (spoils x cs) (if spoils x cs = [] then (δ.lookup x).getD [] else []) w (runTab L S w t) := by
  obtain ⟨D, hD, hc⟩ := hc
  obtain ⟨rows, hx⟩ := lookup_names hv.names hD
  obtain ⟨i, o, D', h1, h2, h3, h4⟩ := hv.tab x rows hx
  have hxd := hv.plain x (by
    obtain ⟨j, hj⟩ := lookup_get τ x rows hx
    exact List.mem_map_of_mem (f := (·.1)) (List.mem_of_getElem? hj))
  rw [hD, Option.some.injEq] at h3
  subst h3
  refine ⟨rows, hx, ?_⟩
  rcases hi with ⟨rfl, rfl⟩ | ⟨ms, hne, rfl, hi⟩
  · refine .inr ⟨rows, w, i, .done, by simp only [runTab, h1], Pres.refl L.fpu S w, o, h2, by rw [hD]; exact h4⟩
  · match cs, ms, hne, hi with
    | c :: cs, .cons m ms, _, hi =>
      obtain ⟨mt, es, rfl, h⟩ := call_first hL hS hv hxd h1 h2 h4 (hn x rows hx) hc.1 hi.1
      rw [spoils_cons]
      simp only [runTab, h1, runChain]
      rw [hD]
      rcases h with ⟨h5, h6⟩ | ⟨rows', w', r', h5, h6, h7, o', h8, h9⟩
      · exact .inl ⟨.fail h5, by rw [h6]; rfl⟩
      · rw [h6]
        rcases chain_rest hS cs ms (hv.pres h7) h8 h9 (fun c h => by rw [mark_names]; exact hc.2 c h) hi.2 with ⟨h10, h11⟩ | ⟨rows2, w2, r2, h10, h11, h12, h13⟩
        · exact .inl ⟨.step h5 h10, h11⟩
        · exact .inr ⟨rows2, w2, r2, .step h5 h10, h11, h7.trans h12, h13⟩

/-! ## How large tables become -/

theorem gives_size {fpu : Hw} {S : Schema P} {ν : Nums} {τ : Tabs P} {x : Name} {rows rows' : List (Row P)} {c : Call} (h : Gives fpu S ν τ x rows c (some rows')) {k N : Nat}
    (ho : ∀ y other, τ.lookup y = some other → other.length * 2 ^ (c.concats + k) < N) (hr : rows.length * 2 ^ (c.concats + k) < N) : rows'.length * 2 ^ k < N := by
  have key : rows'.length ≤ rows.length → c.concats = 0 → rows'.length * 2 ^ k < N := fun h1 h2 => by
    rw [h2, Nat.zero_add] at hr
    exact Nat.lt_of_le_of_lt (Nat.mul_le_mul_right _ h1) hr
  cases c with
  | filter e =>
    refine key ?_ rfl
    simp only [Gives] at h
    obtain ⟨l, _, rfl⟩ := Option.map_eq_some_iff.1 h.symm
    unfold keep
    rw [List.length_map]
    refine Nat.le_trans (List.length_filter_le _ _) ?_
    rw [List.length_zip]; omega
  | head e =>
    refine key ?_ rfl
    simp only [Gives] at h
    obtain ⟨l, _, rfl⟩ := Option.map_eq_some_iff.1 h.symm
    rw [List.length_take]; omega
  | tail e =>
    refine key ?_ rfl
    simp only [Gives] at h
    obtain ⟨l, _, rfl⟩ := Option.map_eq_some_iff.1 h.symm
    rw [List.length_drop]; omega
  | orderBy e d =>
    refine key ?_ rfl
    simp only [Gives] at h
    split at h
    · obtain ⟨out, h1, ps, h2, _, rfl⟩ := h
      injection h1 with h1
      subst h1
      rw [List.length_map, h2.length_eq, List.length_zip]; omega
    · cases h
  | topk e m d =>
    refine key ?_ rfl
    simp only [Gives] at h
    split at h
    · obtain ⟨out, h1, ps, qs, _, h2, _, rfl⟩ := h
      injection h1 with h1
      subst h1
      rw [List.length_map, h2]; omega
    · cases h
  | concat y =>
    obtain ⟨other, h1, h2⟩ := h
    injection h2 with h2
    subst h2
    have h3 := ho y other h1
    simp only [Call.concats] at h3 hr
    rw [Nat.add_comm, Nat.pow_succ, ← Nat.mul_assoc] at h3 hr
    rw [List.length_append, Nat.add_mul]
    omega

theorem chain_size {fpu : Hw} {S : Schema P} {ν : Nums} {τ : Tabs P} {x : Name} {k N : Nat} : ∀ (cs : List Call) {rows rows' : List (Row P)}, Chain fpu S ν τ x rows cs (some rows') →
    (∀ y other, τ.lookup y = some other → other.length * 2 ^ (concats cs + k) < N) → rows.length * 2 ^ (concats cs + k) < N → rows'.length * 2 ^ k < N
  | [], rows, rows', h, ho, hr => by
    cases h
    simpa [concats] using hr
  | c :: cs, rows, rows', h, ho, hr => by
    cases h with
    | @step _ _ _ rows1 _ h1 h2 =>
      have e : concats (c :: cs) + k = c.concats + (concats cs + k) := by simp [concats]; omega
      rw [e] at ho hr
      refine chain_size cs h2 (fun y other hy => ?_) (gives_size h1 ho hr)
      refine Nat.lt_of_le_of_lt (Nat.mul_le_mul_left _ (Nat.pow_le_pow_right (by omega) ?_)) (ho y other hy)
      omega

/-! ## Statements -/

theorem body_ok {L : Lib P} (hL : L.Ok) {S : Schema P} (hS : S.Ok L.fpu) {ν : Nums} {ctx x : Name} {cs : List Call} : ∀ (ss : List TSt) {τ : Tabs P} {δ : Dirty} {w : TWorld P}, Inv L.fpu S ν τ δ w → w.ctx = [ctx] →
    BodyOk L.fpu S (typesOf ν) ctx ss δ x cs → ∀ {b : Stmts}, BodyIs ss x cs b →
    (∀ y rows, τ.lookup y = some rows → rows.length * 2 ^ ((ss.map fun s => concats s.calls).sum + concats cs) < 2 ^ 30) →
    ∃ o, Exec L.fpu S ν τ ss x cs o ∧ (runBody L S w b).map rowsOf = outcome o
  | [], τ, δ, w, hv, hcx, hb, b, hi, hn => by
    match b, hi with
    | .cons (.retVal e) .nil, hi =>
      obtain ⟨rows, hx, h⟩ := tab_ok hL hS hv hb (fun y rows hy => Nat.lt_of_le_of_lt (Nat.le_mul_of_pos_right _ (Nat.two_pow_pos _)) (hn y rows hy)) hi
      rcases h with ⟨h1, h2⟩ | ⟨rows', w', r', h1, h2, h3, o', h4, h5⟩
      · exact ⟨none, .result hx h1, by rw [runBody, h2]; rfl⟩
      · refine ⟨some rows', .result hx h1, ?_⟩
        rw [runBody, h2]
        simp only [Except.bind]
        rw [h4, ← h5.eq]
        rfl
  | s :: ss, τ, δ, w, hv, hcx, hb, b, hi, hn => by
    match b, hi with
    | .cons t ts, hi =>
      obtain ⟨⟨r, rfl, hi1⟩, hi2⟩ := hi
      obtain ⟨⟨hb1, hb2, hb3, hb4⟩, _, hb5, hb6⟩ := hb
      have hpos : ∀ y rows, τ.lookup y = some rows → rows.length < 2 ^ 30 := fun y rows hy => Nat.lt_of_le_of_lt (Nat.le_mul_of_pos_right _ (Nat.two_pow_pos _)) (hn y rows hy)
      obtain ⟨rows, hx, h⟩ := tab_ok hL hS hv hb5 hpos hi1
      have hnew : τ.lookup s.target = none := (lookup_none _ _).2 (by rw [hv.names]; exact hb1)
      have htk : w.taken s.target = false := by
        unfold TWorld.taken
        rw [hv.fresh _ hnew, hv.nums.eq, lookup_map ν (fun q => (elTy q.el, q.enc)) s.target, (lookup_none ν s.target).2 (by
          intro h
          refine hb2 ?_
          simpa [typesOf, Function.comp_def] using h), hcx]
        simp [hb3]
      have hrun : runSt L S w (.bin (.un none (.define s.target)) .assign r) = (runTab L S w r.toTree).bind fun q => .ok { q.1 with tabs := (s.target, q.2) :: q.1.tabs } := by
        rw [runSt, if_neg (by simp [htk])]
      rcases h with ⟨h1, h2⟩ | ⟨rows', w', r', h1, h2, h3, o', h4, h5⟩
      · exact ⟨none, .fail hx h1, by rw [runBody, hrun, h2]; rfl⟩
      · have hv' := hv.pres h3
        have hsum : (List.map (fun s => concats s.calls) (s :: ss)).sum + concats cs = concats s.calls + ((ss.map fun s => concats s.calls).sum + concats cs) := by simp; omega
        rw [hsum] at hn
        have hv2 : Inv L.fpu S ν ((s.target, rows') :: τ) ((s.target, if spoils s.table s.calls = [] then (δ.lookup s.table).getD [] else []) :: δ.mark (spoils s.table s.calls))
            { w' with tabs := (s.target, r') :: w'.tabs } := by
          refine ⟨hv'.nums, hv'.ctx, fun y rows2 hy => ?_, fun y hy => ?_, by simp only [List.map_cons, mark_names, hv.names], fun y hy => ?_⟩
          · by_cases hyt : y = s.target
            · subst hyt
              rw [List.lookup_cons, beq_self_eq_true] at hy
              injection hy with hy
              subst hy
              exact ⟨r', o', _, by rw [List.lookup_cons, beq_self_eq_true], h4, by rw [List.lookup_cons, beq_self_eq_true], h5⟩
            · rw [List.lookup_cons, beq_eq_false_iff_ne.2 hyt] at hy
              obtain ⟨i, p, D, h6, h7, h8, h9⟩ := hv'.tab y rows2 hy
              exact ⟨i, p, D, by rw [List.lookup_cons, beq_eq_false_iff_ne.2 hyt]; exact h6, h7, by rw [List.lookup_cons, beq_eq_false_iff_ne.2 hyt]; exact h8, h9⟩
          · by_cases hyt : y = s.target
            · subst hyt
              rw [List.lookup_cons, beq_self_eq_true] at hy
              cases hy
            · rw [List.lookup_cons, beq_eq_false_iff_ne.2 hyt] at hy
              show List.lookup y ((s.target, r') :: w'.tabs) = none
              rw [List.lookup_cons, beq_eq_false_iff_ne.2 hyt]
              exact hv'.fresh y hy
          · rcases List.mem_cons.1 hy with h | h
            · exact h ▸ hb4
            · exact hv.plain y h
        obtain ⟨o, h6, h7⟩ := body_ok hL hS ss hv2 (h3.ctx.trans hcx) hb6 hi2 (fun y rows2 hy => by
          by_cases hyt : y = s.target
          · subst hyt
            rw [List.lookup_cons, beq_self_eq_true] at hy
            injection hy with hy
            subst hy
            exact chain_size s.calls h1 hn (hn _ _ hx)
          · rw [List.lookup_cons, beq_eq_false_iff_ne.2 hyt] at hy
            exact Nat.lt_of_le_of_lt (Nat.mul_le_mul_left _ (Nat.pow_le_pow_right (by omega) (by omega))) (hn y rows2 hy))
        exact ⟨o, .step hx h1 h6, by rw [runBody, hrun, h2]; exact h7⟩

/-! ## The beginning of a call -/

theorem kind_context (S : Schema P) (k : Kind) : k.text S ≠ contextText := by
  cases k with
  | table => simp [Kind.text, tableText, contextText]
  | one t => exact VecFn.not_context_param (false, t)

theorem num_text (S : Schema P) (t : El) : (Kind.one t).text S ≠ tableText S := by
  have h1 : ∀ t : Ty, (VecFn.typeText (false, t)).length ≤ 4 := by
    intro t
    cases t with
    | bool => decide
    | int t => cases t <;> decide
    | flt F => cases F <;> decide
  intro h
  cases t with
  | str => cases h
  | num t =>
    have h2 := h1 t
    rw [show VecFn.typeText (false, t) = (Kind.one (.num t)).text S from rfl, h] at h2
    simp [tableText] at h2

theorem passed_split {S : Schema P} : ∀ (ps qs : List (Name × Kind)) (args : List (TArg P)), Passed hw S (ps ++ qs) args →
    ∃ a b, args = a ++ b ∧ Passed hw S ps a ∧ Passed hw S qs b ∧ tables (ps ++ qs) args = tables ps a ++ tables qs b ∧ numbers (ps ++ qs) args = numbers ps a ++ numbers qs b
  | [], qs, args, h => ⟨[], args, rfl, trivial, h, rfl, rfl⟩
  | (x, .table) :: ps, qs, args, h => by
    match args, h with
    | .table t :: args, h =>
      obtain ⟨a, b, rfl, h1, h2, h3, h4⟩ := passed_split ps qs args h.2.2
      exact ⟨.table t :: a, b, rfl, ⟨h.1, h.2.1, h1⟩, h2, by simp [tables, h3], by simp [numbers, h4]⟩
  | (x, .one (.num u)) :: ps, qs, args, h => by
    match args, h with
    | .num v :: args, h =>
      obtain ⟨a, b, rfl, h1, h2, h3, h4⟩ := passed_split ps qs args h.2
      exact ⟨.num v :: a, b, rfl, ⟨h.1, h1⟩, h2, by simp [tables, h3], by simp [numbers, h4]⟩
  | (x, .one .str) :: ps, qs, args, h => by
    match args, h with
    | .str c z :: args, h =>
      obtain ⟨a, b, rfl, h1, h2, h3, h4⟩ := passed_split ps qs args h.2
      exact ⟨.str c z :: a, b, rfl, ⟨h.1, h1⟩, h2, by simp [tables, h3], by simp [numbers, h4]⟩

theorem passed_names {S : Schema P} : ∀ (ps : List (Name × Kind)) (args : List (TArg P)), Passed hw S ps args → (tables ps args).map (·.1) = tableNames ps ∧ typesOf (numbers ps args) = numTypes ps ∧
    ∀ q ∈ numbers ps args, q.2.Is hw
  | [], [], h => ⟨rfl, rfl, by simp [numbers]⟩
  | (x, .table) :: ps, args, h => by
    match args, h with
    | .table t :: args, h =>
      obtain ⟨h1, h2, h3⟩ := passed_names ps args h.2.2
      exact ⟨by simp [tables, tableNames, h1], by simp [numbers, numTypes, h2], by simpa [numbers] using h3⟩
  | (x, .one (.num u)) :: ps, args, h => by
    match args, h with
    | .num v :: args, h =>
      obtain ⟨h1, h2, h3⟩ := passed_names ps args h.2
      refine ⟨by simp [tables, tableNames, h1], by simp only [numbers, numTypes, ← h2]; rfl, fun q hq => ?_⟩
      simp only [numbers, List.mem_cons] at hq
      rcases hq with rfl | hq
      · exact h.1
      · exact h3 q hq
  | (x, .one .str) :: ps, args, h => by
    match args, h with
    | .str b z :: args, h =>
      obtain ⟨h1, h2, h3⟩ := passed_names ps args h.2
      refine ⟨by simp [tables, tableNames, h1], by simp only [numbers, numTypes, ← h2]; rfl, fun q hq => ?_⟩
      simp only [numbers, List.mem_cons] at hq
      rcases hq with rfl | hq
      · exact h.1
      · exact h3 q hq
  | [], _ :: _, h => by cases h

theorem names_params : ∀ (ps : List (Name × Kind)), (∀ x ∈ tableNames ps, x ∈ ps.map (·.1)) ∧ ∀ q ∈ numTypes ps, q.1 ∈ ps.map (·.1)
  | [] => ⟨by simp [tableNames], by simp [numTypes]⟩
  | (x, .table) :: ps => by
    obtain ⟨h1, h2⟩ := names_params ps
    refine ⟨fun y hy => ?_, fun q hq => ?_⟩
    · rcases List.mem_cons.1 hy with rfl | h
      · simp
      · exact List.mem_cons_of_mem _ (h1 y h)
    · exact List.mem_cons_of_mem _ (h2 q hq)
  | (x, .one t) :: ps => by
    obtain ⟨h1, h2⟩ := names_params ps
    refine ⟨fun y hy => List.mem_cons_of_mem _ (h1 y hy), fun q hq => ?_⟩
    rcases List.mem_cons.1 hq with rfl | h
    · simp
    · exact List.mem_cons_of_mem _ (h2 q h)

theorem types_nodup : ∀ (ps : List (Name × Kind)), (ps.map (·.1)).Nodup → ((numTypes ps).map (·.1)).Nodup
  | [], _ => by simp [numTypes]
  | (x, .table) :: ps, h => types_nodup ps (List.nodup_cons.1 h).2
  | (x, .one t) :: ps, h => by
    obtain ⟨h1, h2⟩ := List.nodup_cons.1 h
    refine List.nodup_cons.2 ⟨fun hx => ?_, types_nodup ps h2⟩
    obtain ⟨q, hq, e⟩ := List.mem_map.1 hx
    exact h1 (e ▸ (names_params ps).2 q hq)

theorem enter_context (S : Schema P) {w : TWorld P} {x : Name} (h : w.taken x = false) (ps : List (List Char × Name)) (args : List (TArg P)) :
    enter S w ((contextText, x) :: ps) args = enter S { w with ctx := x :: w.ctx } ps args := by
  conv => lhs; rw [enter.eq_def]
  dsimp only
  rw [if_neg (by simp [h]), if_pos rfl]

/-- Some parameters, before others. -/
theorem enter_ok {S : Schema P} : ∀ (ps : List (Name × Kind)) (args : List (TArg P)) (w : TWorld P) (rest : List (List Char × Name)) (more : List (TArg P)), Passed hw S ps args → (ps.map (·.1)).Nodup →
    (∀ q ∈ ps, w.taken q.1 = false) →
    ∃ w', enter S w (ps.map (fun q => (q.2.text S, q.1)) ++ rest) (args ++ more) = enter S w' rest more ∧ w'.ctx = w.ctx ∧
      w'.nums = w.nums ++ (numbers ps args).map (fun q => (q.1, elTy q.2.el, q.2.enc)) ∧
      (∀ x rows, (tables ps args).lookup x = some rows → ∃ i o, w'.tabs.lookup x = some i ∧ w'.objs[i]? = some o ∧ Good hw S [] rows o) ∧
      (∀ x, (tables ps args).lookup x = none → w'.tabs.lookup x = w.tabs.lookup x) ∧ ∀ (i : Nat) o, w.objs[i]? = some o → w'.objs[i]? = some o
  | [], args, w, rest, more, hp, hd, ht => by
    match args, hp with
    | [], _ => exact ⟨w, rfl, rfl, by simp [numbers], by simp [tables], by simp [tables], fun _ _ h => h⟩
  | (x, .table) :: ps, args, w, rest, more, hp, hd, ht => by
    match args, hp with
    | .table t :: args, hp =>
      obtain ⟨hd1, hd2⟩ := List.nodup_cons.1 hd
      obtain ⟨w', h1, h2, h3, h4, h5, h6⟩ := enter_ok ps args { w with objs := w.objs ++ [⟨t, fun _ => []⟩], tabs := (x, w.objs.length) :: w.tabs } rest more hp.2.2 hd2 (fun q hq => by
        have hne : q.1 ≠ x := fun e => hd1 (e ▸ List.mem_map_of_mem (f := (·.1)) hq)
        have := ht q (by simp [hq])
        unfold TWorld.taken at this ⊢
        dsimp only
        rw [List.lookup_cons, beq_eq_false_iff_ne.2 hne]
        exact this)
      have hxn : x ∉ (tables ps args).map (·.1) := fun h => hd1 ((names_params ps).1 x ((passed_names ps args hp.2.2).1 ▸ h))
      refine ⟨w', ?_, h2, by simpa [numbers] using h3, fun y rows hy => ?_, fun y hy => ?_, fun i o ho => h6 i o ?_⟩
      · rw [List.map_cons, List.cons_append, List.cons_append, enter, if_neg (by simp [ht (x, .table) (by simp)]), if_neg (kind_context S .table), if_pos (show (Kind.text S (x, Kind.table).snd, (x, Kind.table).fst).fst = tableText S from rfl)]
        exact h1
      · rw [tables, List.lookup_cons] at hy
        by_cases hyx : y = x
        · subst hyx
          rw [beq_self_eq_true] at hy
          injection hy with hy
          subst hy
          refine ⟨w.objs.length, ⟨t, fun _ => []⟩, ?_, h6 _ _ (by simp), good_new ⟨hp.1, hp.2.1⟩⟩
          rw [h5 _ ((lookup_none _ _).2 hxn)]
          show List.lookup y ((y, w.objs.length) :: w.tabs) = _
          rw [List.lookup_cons, beq_self_eq_true]
        · rw [beq_eq_false_iff_ne.2 hyx] at hy
          exact h4 y rows hy
      · rw [tables, List.lookup_cons] at hy
        by_cases hyx : y = x
        · subst hyx
          rw [beq_self_eq_true] at hy
          cases hy
        · rw [beq_eq_false_iff_ne.2 hyx] at hy
          rw [h5 y hy]
          show List.lookup y ((x, w.objs.length) :: w.tabs) = _
          rw [List.lookup_cons, beq_eq_false_iff_ne.2 hyx]
      · show (w.objs ++ _)[i]? = _
        rw [List.getElem?_append_left (List.getElem?_eq_some_iff.1 ho).1]; exact ho
  | (x, .one (.num u)) :: ps, args, w, rest, more, hp, hd, ht => by
    match args, hp with
    | .num v :: args, hp =>
      obtain ⟨hd1, hd2⟩ := List.nodup_cons.1 hd
      obtain ⟨w', h1, h2, h3, h4, h5, h6⟩ := enter_ok ps args { w with nums := w.nums ++ [(x, u.p, v.enc)] } rest more hp.2 hd2 (fun q hq => by
        have hne : q.1 ≠ x := fun e => hd1 (e ▸ List.mem_map_of_mem (f := (·.1)) hq)
        have := ht q (by simp [hq])
        unfold TWorld.taken at this ⊢
        dsimp only
        rw [lookup_app, List.lookup_cons, beq_eq_false_iff_ne.2 hne]
        simpa using this)
      refine ⟨w', ?_, h2, by simpa [numbers, Single.el, Single.enc, elTy, El.p] using h3, h4, h5, h6⟩
      rw [List.map_cons, List.cons_append, List.cons_append, enter, if_neg (by simp [ht (x, .one (.num u)) (by simp)]), if_neg (kind_context S (.one (.num u))), if_neg (num_text S (.num u))]
      · exact h1
      · exact VecFn.named (false, u)
  | (x, .one .str) :: ps, args, w, rest, more, hp, hd, ht => by
    match args, hp with
    | .str c z :: args, hp =>
      obtain ⟨hd1, hd2⟩ := List.nodup_cons.1 hd
      obtain ⟨w', h1, h2, h3, h4, h5, h6⟩ := enter_ok ps args { w with nums := w.nums ++ [(x, .other, .word z)] } rest more hp.2 hd2 (fun q hq => by
        have hne : q.1 ≠ x := fun e => hd1 (e ▸ List.mem_map_of_mem (f := (·.1)) hq)
        have := ht q (by simp [hq])
        unfold TWorld.taken at this ⊢
        dsimp only
        rw [lookup_app, List.lookup_cons, beq_eq_false_iff_ne.2 hne]
        simpa using this)
      refine ⟨w', ?_, h2, by simpa [numbers, Single.el, Single.enc, elTy, El.p] using h3, h4, h5, h6⟩
      rw [List.map_cons, List.cons_append, List.cons_append, enter, if_neg (by simp [ht (x, .one .str) (by simp)]), if_neg (kind_context S (.one .str)), if_neg (num_text S .str)]
      · exact h1
      · rfl

/-! ## Functions -/

/-- **C156.** Calling a function over tables whose text reads as `g` gives a table with the rows that `g` is to return, whatever the tables and values that are passed. -/
theorem table_function (cfg : Cfg) (L : Lib P) (hL : L.Ok) (S : Schema P) (hS : S.Ok L.fpu) (g : TFn) (hg : g.Ok L.fpu S) (src : List Char) (hs : ReadsFn cfg S src g) (args : List (TArg P))
    (ha : Passed L.fpu S g.params args) (hn : ∀ t, .table t ∈ args → Tbl.count t * 2 ^ g.concats < 2 ^ 30) :
    ∃ o, g.Returns L.fpu S args o ∧ (runFn cfg L S src args).map rowsOf = outcome o := by
  obtain ⟨⟨hd, hcx, hdot⟩, hb⟩ := hg
  obtain ⟨h, rest, ps, qs, h1, h2, h3, h4, h5⟩ := hs
  obtain ⟨p1, p2, p3⟩ := passed_names g.params args ha
  unfold runFn
  rw [h1]
  dsimp only
  rw [if_pos h2, h4]
  rw [h3] at hd hcx
  rw [List.map_append] at hd hcx
  obtain ⟨d1, d2, d3⟩ := List.nodup_append.1 hd
  have ha' := ha
  rw [h3] at ha'
  obtain ⟨a, b, rfl, a1, a2, a3, a4⟩ := passed_split ps qs args ha'
  obtain ⟨w1, e1, e2, e3, e4, e5, e6⟩ := enter_ok ps a ⟨[], [], [], []⟩ ((contextText, g.ctx) :: qs.map (fun q => (q.2.text S, q.1))) b a1 d1 (by simp [TWorld.taken])
  have pa := passed_names ps a a1
  have free : ∀ x, x ∉ ps.map (·.1) → w1.tabs.lookup x = none ∧ w1.nums.lookup x = none := by
    intro x hx
    refine ⟨by rw [e5 x ((lookup_none _ _).2 (pa.1 ▸ fun h => hx ((names_params ps).1 x h)))]; rfl, ?_⟩
    rw [e3, List.nil_append, lookup_map (numbers ps a) (fun q => (elTy q.el, q.enc)) x, (lookup_none _ x).2 (fun h => hx ?_)]
    · rfl
    · obtain ⟨q, hq, e⟩ := List.mem_map.1 h
      refine e ▸ (names_params ps).2 (q.1, q.2.el) ?_
      rw [← pa.2.1]
      exact List.mem_map_of_mem (f := fun q : Name × Single => (q.1, q.2.el)) hq
  have hctx1 : w1.taken g.ctx = false := by
    obtain ⟨f1, f2⟩ := free g.ctx fun h => hcx (List.mem_append_left _ h)
    simp [TWorld.taken, f1, f2, e2]
  obtain ⟨w2, f1, f2, f3, f4, f5, f6⟩ := enter_ok qs b { w1 with ctx := g.ctx :: w1.ctx } [] [] a2 d2 (fun q hq => by
    have hq' : q.1 ∈ qs.map (·.1) := List.mem_map_of_mem (f := (·.1)) hq
    obtain ⟨g1, g2⟩ := free q.1 fun h => d3 _ h _ hq' rfl
    have : q.1 ≠ g.ctx := fun e => hcx (List.mem_append_right _ (e ▸ hq'))
    simp [TWorld.taken, g1, g2, e2, this])
  have hent : enter S ⟨[], [], [], []⟩ (ps.map (fun q => (q.2.text S, q.1)) ++ (contextText, g.ctx) :: qs.map (fun q => (q.2.text S, q.1))) (a ++ b) = .ok w2 := by
    rw [List.append_nil, List.append_nil] at f1
    rw [e1, enter_context S hctx1, f1, enter]
  rw [hent]
  have hnames : ∀ q ∈ numbers g.params (a ++ b), q.1 ∈ g.params.map (·.1) := fun q hq => by
    refine (names_params g.params).2 (q.1, q.2.el) ?_
    rw [← p2]
    exact List.mem_map_of_mem (f := fun q : Name × Single => (q.1, q.2.el)) hq
  have hinv : Inv L.fpu S (numbers g.params (a ++ b)) (tables g.params (a ++ b)) ((tableNames g.params).map fun x => (x, [])) w2 := by
    refine ⟨⟨?_, p3, ?_, ?_⟩, ?_, ?_, ?_, ?_, ?_⟩
    · rw [f3, h3, a4]
      dsimp only
      rw [e3]
      simp
    · have : (numbers g.params (a ++ b)).map (·.1) = (numTypes g.params).map (·.1) := by rw [← p2]; simp [typesOf, Function.comp_def]
      rw [this]
      exact types_nodup _ (by rw [h3, List.map_append]; exact hd)
    · intro q hq
      obtain ⟨r, hr, e⟩ := List.mem_map.1 (hnames q hq)
      exact e ▸ hdot r hr
    · rw [f2]; simp
    · intro x rows hx
      have hD : ((tableNames g.params).map fun x => (x, ([] : List Name))).lookup x = some [] := by
        have hm : x ∈ tableNames g.params := by
          rw [← p1]
          obtain ⟨j, hj⟩ := lookup_get _ _ _ hx
          exact List.mem_map_of_mem (f := (·.1)) (List.mem_of_getElem? hj)
        generalize tableNames g.params = l at hm
        induction l with
        | nil => cases hm
        | cons y l ih =>
          rw [List.map_cons, List.lookup_cons]
          by_cases hxy : x = y
          · rw [hxy, beq_self_eq_true]
          · rw [beq_eq_false_iff_ne.2 hxy]
            rcases List.mem_cons.1 hm with h | h
            · exact absurd h hxy
            · exact ih h
      rw [h3, a3, lookup_app] at hx
      cases hq : (tables qs b).lookup x with
      | some rows' =>
        have hp : (tables ps a).lookup x = none := (lookup_none _ _).2 fun h => by
          obtain ⟨j, hj⟩ := lookup_get _ _ _ hq
          have hx2 : x ∈ tableNames qs := (passed_names qs b a2).1 ▸ List.mem_map_of_mem (f := fun q : Name × List (Row P) => q.1) (List.mem_of_getElem? hj)
          exact d3 _ ((names_params ps).1 x (pa.1 ▸ h)) _ ((names_params qs).1 x hx2) rfl
        rw [hp, hq] at hx
        injection hx with hx
        subst hx
        obtain ⟨i, o, g1, g2, g3⟩ := f4 x _ hq
        exact ⟨i, o, [], g1, g2, hD, g3⟩
      | none =>
        rw [hq, Option.or_none] at hx
        obtain ⟨i, o, g1, g2, g3⟩ := e4 x rows hx
        exact ⟨i, o, [], by rw [f5 x hq]; exact g1, f6 i o g2, hD, g3⟩
    · intro x hx
      rw [h3, a3, lookup_app] at hx
      obtain ⟨g1, g2⟩ := Option.or_eq_none_iff.1 hx
      rw [f5 x g2]
      exact (e5 x g1).trans rfl
    · rw [p1]; simp [Function.comp_def]
    · intro x hx
      rw [p1] at hx
      obtain ⟨r, hr, e⟩ := List.mem_map.1 ((names_params g.params).1 x hx)
      exact e ▸ hdot r hr
  rw [← p2] at hb
  refine body_ok hL hS g.body hinv (by rw [f2]; show g.ctx :: w1.ctx = _; rw [e2]) hb h5 fun y rows hy => ?_
  have hmem : ∀ (ps : List (Name × Kind)) (args : List (TArg P)), (tables ps args).lookup y = some rows → ∃ t, .table t ∈ args ∧ rows = rowsOf t := by
    intro ps args
    induction ps generalizing args with
    | nil => intro h; simp [tables] at h
    | cons p ps ih =>
      intro h
      match args, h with
      | .table t :: args, h =>
        rw [tables, List.lookup_cons] at h
        split at h
        · injection h with h; exact ⟨t, by simp, h.symm⟩
        · obtain ⟨u, h1, h2⟩ := ih args h; exact ⟨u, by simp [h1], h2⟩
      | .num v :: args, h =>
        obtain ⟨u, h1, h2⟩ := ih args h; exact ⟨u, by simp [h1], h2⟩
      | .str _ _ :: args, h =>
        obtain ⟨u, h1, h2⟩ := ih args h; exact ⟨u, by simp [h1], h2⟩
      | [], h => simp [tables] at h
  obtain ⟨t, ht, rfl⟩ := hmem _ _ hy
  rw [rows_length]
  exact hn t ht

end

end Verif.Comp.TableFn
