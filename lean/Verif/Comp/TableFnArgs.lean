import Verif.Comp.TableFnLemmas
/-!
# Functions over tables: arguments
-/
namespace Verif.Comp.TableFn
open Verif.Ast hiding Ty
open Verif.Ast.Rpn Verif.Gen
open Verif.Types.Conv (IntTy)
open Verif.Gen.Scalar (Name)
open Verif.Simd (Byte)
open Verif.Comp.Pipeline (Arith Rel decimal bit)
open Verif.Comp.Real hiding Passed Ex
open Verif.Comp.VecFn (Ex Hw El Str Lane paramKinds viewText)
open Verif.Comp.VecFn (VEnv Vars Cell World elemOf hasV valueAt vectorOf kinds lane Guarded checkE nodesOf evalNodes typeNamed contextText VTy Fine fine_of Match Held BufOk)
open Verif.Comp.VecPipe (treeFlat flat_tree)

section
variable {P : Type} {hw : Hw}

/-! ## Columns that are loaded -/

/-- What a column of a table holds, if it is loaded: its values, unless it must not be read any more. -/
def ColIs (hw : Hw) (D : List Name) (rows : List (Row P)) (c : Col P) (m : List MV) (it : VecFn.Item) : Prop :=
  (match c.data with
    | .num t _ => ∃ l : List Val, it = .vec t l ∧ l.length = rows.length ∧ (∀ v ∈ l, v.Has t) ∧ m = l.map Val.enc
    | .str _ => ∃ l : List (List Byte × Int), it = .strs (l.map (·.1)) ∧ l.length = rows.length ∧ (∀ q ∈ l, hw.Shows q.2 q.1) ∧ m = l.map fun q => .word q.2) ∧
  (c.name ∉ D → it = c.item rows)

structure Good (hw : Hw) (S : Schema P) (D : List Name) (rows : List (Row P)) (o : TObj P) : Prop where
  shape : Shape S o.rows
  eq : rowsOf o.rows = rows
  cache : ∀ c ∈ S.cols, o.cache c.name = [] ∨ ∃ it, ColIs hw D rows c (o.cache c.name) it

theorem good_new {S : Schema P} {D : List Name} {t : Tbl.Table P} (h : Shape S t) : Good hw S D (rowsOf t) ⟨t, fun _ => []⟩ := ⟨h, rfl, fun _ _ => .inl rfl⟩

theorem Good.more {S : Schema P} {D : List Name} {rows : List (Row P)} {o : TObj P} (h : Good hw S D rows o) (F : List Name) : Good hw S (F ++ D) rows o :=
  ⟨h.shape, h.eq, fun c hc => (h.cache c hc).imp_right fun ⟨it, h1, h4⟩ => ⟨it, h1, fun hn => h4 fun hd => hn (List.mem_append_right _ hd)⟩⟩

theorem find_col {S : Schema P} (hS : S.Ok hw) {c : Col P} (hc : c ∈ S.cols) : (S.cols.find? fun d => decide (d.name = c.name)) = some c := by
  have hd := hS.names
  generalize S.cols = cols at hc hd
  induction cols with
  | nil => simp at hc
  | cons a cols ih =>
    rw [List.map_cons, List.nodup_cons] at hd
    rcases List.mem_cons.1 hc with rfl | h
    · simp
    · have : a.name ≠ c.name := fun e => hd.1 (e ▸ List.mem_map_of_mem h)
      rw [List.find?_cons_of_neg (by simpa using this)]
      exact ih h hd.2

theorem load_ok {S : Schema P} (hS : S.Ok hw) {D : List Name} {rows : List (Row P)} {o : TObj P} (h : Good hw S D rows o) {c : Col P} (hc : c ∈ S.cols) :
    ∃ o' l, o.load S.cols c.name = .ok o' ∧ Good hw S D rows o' ∧ ColIs hw D rows c (o'.cache c.name) l := by
  unfold TObj.load
  rw [find_col hS hc]
  dsimp only
  by_cases he : o.cache c.name = []
  · rw [if_neg (by simpa using he)]
    obtain ⟨G, h1, h2, h3⟩ := column_values h.shape (hS.inside c hc)
    rw [h1]
    dsimp only
    have hcol : ColIs hw D rows c (G.objs.map c.enc) (c.item rows) := by
      refine ⟨?_, fun _ => rfl⟩
      cases hd : c.data with
      | num t f =>
        refine ⟨G.objs.map f, by simp only [Col.item, hd]; rw [← h2, h.eq], by rw [List.length_map, h3, ← rows_length, h.eq], fun v hv => ?_, by simp [List.map_map, Function.comp_def, Col.enc, hd]⟩
        obtain ⟨p, _, rfl⟩ := List.mem_map.1 hv
        exact (hS.number c hc t f hd).2 p
      | str f =>
        refine ⟨G.objs.map f, by simp only [Col.item, hd]; rw [← h.eq, h2, List.map_map]; rfl, by rw [List.length_map, h3, ← rows_length, h.eq], fun v hv => ?_, by simp [List.map_map, Function.comp_def, Col.enc, hd]⟩
        obtain ⟨p, _, rfl⟩ := List.mem_map.1 hv
        exact hS.shown c hc f hd p
    refine ⟨_, _, rfl, ⟨h.shape, h.eq, fun d hd => ?_⟩, by simpa using hcol⟩
    by_cases hn : d.name = c.name
    · have : d = c := by
        have h1 := find_col hS hd
        have h2 := find_col hS hc
        rw [hn, h2] at h1
        exact (Option.some.inj h1).symm
      subst this
      exact .inr ⟨_, by simpa using hcol⟩
    · simp only [if_neg hn]; exact h.cache d hd
  · rw [if_pos he]
    rcases h.cache c hc with h1 | ⟨l, h1⟩
    · exact absurd h1 he
    · exact ⟨o, l, rfl, h, h1⟩

theorem column_ok {S : Schema P} (hS : S.Ok hw) {D : List Name} {rows : List (Row P)} {o : TObj P} (h : Good hw S D rows o) {c : Col P} (hc : c ∈ S.cols) :
    ∃ l, ColIs hw D rows c (o.column S.cols c.name) l := by
  obtain ⟨o', l, h1, _, h2⟩ := load_ok hS h hc
  exact ⟨l, by unfold TObj.column; rw [h1]; exact h2⟩

theorem loadAll_ok {S : Schema P} (hS : S.Ok hw) {D : List Name} {rows : List (Row P)} : ∀ (fs : List Name) {o : TObj P}, Good hw S D rows o → (∀ f ∈ fs, ∃ c ∈ S.cols, c.name = f) →
    ∃ o', loadAll S.cols o fs = .ok o' ∧ Good hw S D rows o'
  | [], o, h, _ => ⟨o, rfl, h⟩
  | f :: fs, o, h, hf => by
    obtain ⟨c, hc, rfl⟩ := hf f (by simp)
    obtain ⟨o1, _, h1, h2, _⟩ := load_ok hS h hc
    obtain ⟨o2, h3, h4⟩ := loadAll_ok hS fs h2 fun f h => hf f (by simp [h])
    exact ⟨o2, by rw [loadAll, h1]; exact h3, h4⟩

/-! ## The variables of an argument -/

theorem lookup_map {α β γ : Type} [BEq γ] (l : List (γ × α)) (f : α → β) (y : γ) : (l.map fun q => (q.1, f q.2)).lookup y = (l.lookup y).map f := by
  induction l with
  | nil => rfl
  | cons a l ih =>
    rw [List.map_cons, List.lookup_cons, List.lookup_cons]
    split <;> simp_all

theorem lookup_congr {α β : Type} (l : List α) (f g : α → Name × β) (y : Name) (h : ∀ a ∈ l, f a = g a ∨ ((f a).1 = (g a).1 ∧ y ≠ (f a).1)) : (l.map f).lookup y = (l.map g).lookup y := by
  induction l with
  | nil => rfl
  | cons a l ih =>
    have ih := ih fun a ha => h a (by simp [ha])
    rw [List.map_cons, List.map_cons, List.lookup_cons, List.lookup_cons]
    rcases h a (by simp) with e | ⟨e, hne⟩
    · rw [e]; split <;> simp_all
    · rw [beq_eq_false_iff_ne.2 hne, beq_eq_false_iff_ne.2 (e ▸ hne)]; exact ih

theorem lookup_app {α β : Type} [BEq α] (l m : List (α × β)) (y : α) : (l ++ m).lookup y = (l.lookup y).or (m.lookup y) := by
  induction l with
  | nil => simp
  | cons a l ih =>
    rw [List.cons_append, List.lookup_cons, List.lookup_cons]
    split <;> simp_all

/-- A single value in memory. -/
def Single.enc : Single → MV
  | .num _ v => v.enc
  | .str _ w => .word w
def Single.Is (hw : Hw) : Single → Prop
  | .num t v => v.Has t
  | .str b w => hw.Shows w b

/-- The single values of the code are those of the specification. -/
structure NumsOk (hw : Hw) (ν : Nums) (nums : List (Name × PTy × MV)) : Prop where
  eq : nums = ν.map fun q => (q.1, elTy q.2.el, q.2.enc)
  typed : ∀ q ∈ ν, q.2.Is hw
  names : (ν.map (·.1)).Nodup
  plain : ∀ q ∈ ν, '.' ∉ q.1

def typesOf (ν : Nums) : List (Name × El) := ν.map fun q => (q.1, q.2.el)

/-- The variables of an argument, given what the columns hold. -/
def held (cols : List (Col P)) (x : Name) (ls : Col P → VecFn.Item) (ν : Nums) : List (Name × VecFn.Item) :=
  cols.map (fun c => (dotted x c.name, ls c)) ++ ν.map fun q => (q.1, q.2.item)

/-- The kind of what is held. -/
def kindOf : VecFn.Item → Bool × El
  | .num t _ => (false, .num t)
  | .vec t _ => (true, .num t)
  | .str _ => (false, .str)
  | .strs _ => (true, .str)

theorem kinds_list (l : List (Name × VecFn.Item)) : kinds (fun y => l.lookup y) = paramKinds (l.map fun q => (q.1, kindOf q.2)) := by
  unfold kinds paramKinds
  congr 1
  · funext y
    rw [lookup_map]
    dsimp only
    cases l.lookup y with
    | none => rfl
    | some it => cases it <;> rfl
  · funext y
    rw [lookup_map]
    dsimp only
    cases l.lookup y with
    | none => rfl
    | some it => cases it <;> rfl

theorem held_kinds (cols : List (Col P)) (x : Name) (ls : Col P → VecFn.Item) (hls : ∀ c ∈ cols, kindOf (ls c) = (true, c.data.el)) (ν : Nums) :
    kinds (fun y => (held cols x ls ν).lookup y) = seenTypes cols x (typesOf ν) := by
  rw [kinds_list]
  unfold seenTypes held typesOf
  congr 1
  rw [List.map_append, List.map_map, List.map_map, List.map_map]
  congr 1
  · exact List.map_congr_left fun c hc => by rw [Function.comp_apply, hls c hc]
  · exact List.map_congr_left fun q _ => by
      obtain ⟨x, q⟩ := q
      cases q <;> rfl

theorem item_kind (c : Col P) (rows : List (Row P)) : kindOf (c.item rows) = (true, c.data.el) := by
  unfold Col.item
  cases c.data <;> rfl

theorem seen_kinds (cols : List (Col P)) (x : Name) (rows : List (Row P)) (ν : Nums) : kinds (seen cols x rows ν) = seenTypes cols x (typesOf ν) :=
  held_kinds cols x (fun c => c.item rows) (fun c _ => item_kind c rows) ν

theorem col_kind {D : List Name} {rows : List (Row P)} {c : Col P} {m : List MV} {it : VecFn.Item} (h : ColIs hw D rows c m it) : kindOf it = (true, c.data.el) := by
  have h := h.1
  cases hd : c.data with
  | num t f => rw [hd] at h; obtain ⟨l, rfl, _⟩ := h; rfl
  | str f => rw [hd] at h; obtain ⟨l, rfl, _⟩ := h; rfl

theorem type_kind (it : VecFn.Item) : typeOf it = ((kindOf it).1, elTy (kindOf it).2) := by cases it <;> rfl

theorem single_type (q : Single) : typeOf q.item = (false, elTy q.el) := by cases q <;> rfl

theorem held_names {S : Schema P} (hS : S.Ok hw) (x : Name) (ls : Col P → VecFn.Item) {ν : Nums} {nums : List (Name × PTy × MV)} (hν : NumsOk hw ν nums) : ((held S.cols x ls ν).map (·.1)).Nodup := by
  have e : (held S.cols x ls ν).map (·.1) = (S.cols.map (·.name)).map (dotted x) ++ ν.map (·.1) := by simp [held, Function.comp_def]
  rw [e]
  refine List.nodup_append.2 ⟨?_, hν.names, fun a ha b hb e => ?_⟩
  · have hd := hS.names
    generalize S.cols.map (·.name) = l at hd ⊢
    induction l with
    | nil => simp
    | cons a l ih =>
      rw [List.nodup_cons] at hd
      rw [List.map_cons, List.nodup_cons]
      refine ⟨fun h => ?_, ih hd.2⟩
      obtain ⟨b, hb, e⟩ := List.mem_map.1 h
      have : b = a := by
        unfold dotted at e
        have := List.append_cancel_left e
        simpa using this
      exact hd.1 (this ▸ hb)
  · obtain ⟨f, _, rfl⟩ := List.mem_map.1 ha
    obtain ⟨q, hq, rfl⟩ := List.mem_map.1 hb
    exact hν.plain q hq (e ▸ dot_dotted x f)

theorem held_match {S : Schema P} (hS : S.Ok hw) {x : Name} {D : List Name} {rows : List (Row P)} {o : TObj P} {ls : Col P → VecFn.Item}
    (hc : ∀ c ∈ S.cols, ColIs hw D rows c (o.column S.cols c.name) (ls c)) {ν : Nums} {w : TWorld P} (hν : NumsOk hw ν w.nums) :
    Match hw rows.length (fun y => (held S.cols x ls ν).lookup y) (argWorld S.cols x o w) := by
  have := match_list hw rows.length (held S.cols x ls ν) (held_names hS x ls hν) (argWorld S.cols x o w).cells ?_ w.ctx
  · refine cast ?_ this
    congr 1
    unfold argWorld
    congr 2
    rw [held, List.map_append, List.map_map, List.map_map, hν.eq, List.map_map]
    congr 1
    · exact List.map_congr_left fun c h => by rw [Function.comp_apply, type_kind, col_kind (hc c h)]
    · exact List.map_congr_left fun q _ => by rw [Function.comp_apply, single_type]; rfl
  · intro i q hq
    simp only [argWorld, held] at hq ⊢
    by_cases hi : i < S.cols.length
    · rw [List.getElem?_append_left (by simpa using hi)] at hq ⊢
      rw [List.getElem?_map, List.getElem?_eq_getElem hi] at hq ⊢
      simp only [Option.map_some, Option.some.injEq] at hq
      subst hq
      have hm := List.getElem_mem hi
      refine ⟨_, rfl, ?_⟩
      have h := (hc _ hm).1
      cases hd : S.cols[i].data with
      | num t f =>
        rw [hd] at h
        obtain ⟨l, h0, h1, h2, h3⟩ := h
        have hnb := (hS.number _ hm t f hd).1
        dsimp only
        rw [h0]
        refine ⟨h1, h2, _, rfl, ?_, ?_, ?_, fun hb => absurd hb hnb⟩
        · show (o.column S.cols S.cols[i].name).length = _
          rw [h3, List.length_map, h1]
        · show _ ≤ (o.column S.cols S.cols[i].name).length
          rw [if_neg hnb, h3, List.length_map, h1]; omega
        · intro j _
          show (o.column S.cols S.cols[i].name)[j]? = _
          rw [h3, List.getElem?_map]
      | str f =>
        rw [hd] at h
        obtain ⟨l, h0, h1, h2, h3⟩ := h
        dsimp only
        rw [h0]
        refine ⟨by rw [List.length_map, h1], _, rfl, ?_, ?_, ?_⟩
        · show (o.column S.cols S.cols[i].name).length = _
          rw [h3, List.length_map, h1]
        · show _ ≤ (o.column S.cols S.cols[i].name).length
          rw [h3, List.length_map, h1]; omega
        · intro j c hj
          rw [List.getElem?_map, Option.map_eq_some_iff] at hj
          obtain ⟨q, hq, rfl⟩ := hj
          refine ⟨q.2, ?_, h2 q (List.mem_of_getElem? hq)⟩
          show (o.column S.cols S.cols[i].name)[j]? = _
          rw [h3, List.getElem?_map, hq]; rfl
    · rw [List.getElem?_append_right (by simpa using hi)] at hq ⊢
      rw [hν.eq]
      simp only [List.length_map, List.getElem?_map, Option.map_eq_some_iff] at hq
      obtain ⟨p, hp, rfl⟩ := hq
      have ht := hν.typed p (List.mem_of_getElem? hp)
      refine ⟨.num p.2.enc, by simp [hp], ?_⟩
      obtain ⟨y, q⟩ := p
      cases q with
      | num t v => exact ⟨ht, rfl⟩
      | str b z => exact ⟨z, ht, rfl⟩

theorem list_of_type {cols : List (Col P)} {x y : Name} {ν : List (Name × El)} {k : Bool × El}
    (h : (cols.map (fun c => (dotted x c.name, true, c.data.el)) ++ ν.map fun q => (q.1, false, q.2)).lookup y = some k) :
    (∃ c ∈ cols, y = dotted x c.name ∧ k = (true, c.data.el)) ∨ ∃ q ∈ ν, y = q.1 ∧ k = (false, q.2) := by
  obtain ⟨i, hi⟩ := lookup_get _ _ _ h
  rcases List.mem_append.1 (List.mem_of_getElem? hi) with h | h
  · obtain ⟨c, hc, e⟩ := List.mem_map.1 h
    injection e with e1 e2
    exact .inl ⟨c, hc, e1.symm, e2.symm⟩
  · obtain ⟨q, hq, e⟩ := List.mem_map.1 h
    injection e with e1 e2
    exact .inr ⟨q, hq, e1.symm, e2.symm⟩

theorem col_of_type {cols : List (Col P)} {x y : Name} {ν : List (Name × El)} {k : Bool × Ty} (h : seenTypes cols x ν y = some k) :
    (∃ c ∈ cols, y = dotted x c.name ∧ (∃ f, c.data = .num k.2 f) ∧ k.1 = true) ∨ ∃ q ∈ ν, y = q.1 ∧ q.2 = .num k.2 ∧ k.1 = false := by
  simp only [seenTypes, paramKinds, Option.bind_eq_some_iff, Option.map_eq_some_iff] at h
  obtain ⟨⟨b, e⟩, h1, t, h2, rfl⟩ := h
  cases e with
  | str => cases h2
  | num u =>
    injection h2 with h2
    subst h2
    rcases list_of_type h1 with ⟨c, hc, rfl, e⟩ | ⟨q, hq, rfl, e⟩ <;> injection e with e1 e2 <;> subst e1
    · refine .inl ⟨c, hc, rfl, ?_, rfl⟩
      cases hd : c.data with
      | num t f => rw [hd] at e2; injection e2 with e2; exact ⟨f, by rw [e2]⟩
      | str f => rw [hd] at e2; cases e2
    · exact .inr ⟨q, hq, rfl, e2.symm, rfl⟩

theorem str_of_type {cols : List (Col P)} {x y : Name} {ν : List (Name × El)} {v : Bool} (h : (seenTypes cols x ν).str y = some v) :
    (∃ c ∈ cols, y = dotted x c.name ∧ v = true) ∨ ∃ q ∈ ν, y = q.1 ∧ v = false := by
  simp only [seenTypes, paramKinds, Option.bind_eq_some_iff, Option.map_eq_some_iff] at h
  obtain ⟨⟨b, e⟩, h1, _, _, rfl⟩ := h
  rcases list_of_type h1 with ⟨c, hc, rfl, e⟩ | ⟨q, hq, rfl, e⟩ <;> injection e with e1 e2 <;> subst e1
  · exact .inl ⟨c, hc, rfl, rfl⟩
  · exact .inr ⟨q, hq, rfl, rfl⟩

theorem types_plain {ν : Nums} {nums : List (Name × PTy × MV)} (hν : NumsOk hw ν nums) : ∀ q ∈ typesOf ν, '.' ∉ q.1 := by
  intro q hq
  obtain ⟨p, hp, rfl⟩ := List.mem_map.1 hq
  exact hν.plain p hp

/-- An argument that is a vector. -/
theorem arg_ok {L : Lib P} (hL : L.Ok) {S : Schema P} (hS : S.Ok L.fpu) {w : TWorld P} {x : Name} (hxd : '.' ∉ x) {i : Nat} (hx : w.tabs.lookup x = some i) {o : TObj P} (ho : w.objs[i]? = some o)
    {D : List Name} {rows : List (Row P)} (hg : Good L.fpu S D rows o) (hn : rows.length < 2 ^ 30) (hctx : w.ctx ≠ []) {ν : Nums} (hν : NumsOk L.fpu ν w.nums) {e : Ex} {t : Ty}
    (ha : ArgOk L.fpu S (typesOf ν) x D e t) {a : Expr} (hi : CIs e a.toTree) :
    (vectorOf L.fpu rows.length (seen S.cols x rows ν) e = none ∧ evalArg L S w a = .error (.code .trap)) ∨
    ∃ l o' va, vectorOf L.fpu rows.length (seen S.cols x rows ν) e = some l ∧ evalArg L S w a = .ok ({ w with objs := w.objs.set i o' }, va) ∧ (∀ D rows, Good L.fpu S D rows o → Good L.fpu S D rows o') ∧ va.ty = t.p ∧
      BufOk rows.length t l va.buf ∧ l.length = rows.length ∧ (∀ v ∈ l, v.Has t) ∧ (va.origin = none ∨ ∃ c ∈ S.cols, va.origin = some (i, c.name) ∧ e = .var (dotted x c.name) ∧ ∃ f, c.data = .num t f) := by
  obtain ⟨hl, hgd, hv, ⟨u, hk⟩, hD⟩ := ha
  have hk := fine_of _ _ _ hk
  have hcol : ∀ c, ∃ l, c ∈ S.cols → ColIs L.fpu D rows c (o.column S.cols c.name) l := fun c => by
    by_cases hc : c ∈ S.cols
    · obtain ⟨l, h⟩ := column_ok hS hg hc; exact ⟨l, fun _ => h⟩
    · exact ⟨.num .bool (.bool true), fun h => absurd h hc⟩
  obtain ⟨ls, hls⟩ := Classical.skolem.1 hcol
  have hm := held_match hS (x := x) (fun c hc => hls c hc) hν (w := w)
  have hkd := held_kinds S.cols x ls (fun c hc => col_kind (hls c hc)) ν
  have hsn := seen_kinds S.cols x rows ν
  -- the columns that are read hold what they should
  have hcong : vectorOf L.fpu rows.length (seen S.cols x rows ν) e = vectorOf L.fpu rows.length (fun y => (held S.cols x ls ν).lookup y) e := by
    refine vector_congr _ _ (hsn.trans hkd.symm) e fun y hy => ?_
    simp only [seen, items, held, lookup_app]
    congr 1
    refine lookup_congr _ _ _ _ fun c hc => ?_
    by_cases hy2 : y = dotted x c.name
    · left
      have : c.name ∉ D := fun h => hD _ h (hy2 ▸ hy)
      rw [(hls c hc).2 this]
    · exact .inr ⟨rfl, hy2⟩
  rw [hcong]
  rw [← hkd] at hk hgd hv
  have hreads : ∀ r ∈ reads a.toTree, r.1 = x ∧ ∃ c ∈ S.cols, c.name = r.2 := by
    intro r hr
    obtain ⟨h1, h2⟩ := mem_reads e _ hi r.1 r.2 hr
    have h3 := names_typed hk _ h2
    rw [hkd] at h3
    have h4 : (∃ c ∈ S.cols, dotted r.1 r.2 = dotted x c.name) ∨ ∃ q ∈ typesOf ν, dotted r.1 r.2 = q.1 := by
      rcases h3 with ⟨k, h3⟩ | ⟨v, h3⟩
      · rcases col_of_type h3 with ⟨c, hc, h4, _⟩ | ⟨q, hq, h4, _⟩
        · exact .inl ⟨c, hc, h4⟩
        · exact .inr ⟨q, hq, h4⟩
      · rcases str_of_type h3 with ⟨c, hc, h4, _⟩ | ⟨q, hq, h4, _⟩
        · exact .inl ⟨c, hc, h4⟩
        · exact .inr ⟨q, hq, h4⟩
    rcases h4 with ⟨c, hc, h4⟩ | ⟨q, hq, h4⟩
    · obtain ⟨h5, h6⟩ := dotted_inj h1 hxd h4
      exact ⟨h5, c, hc, h6.symm⟩
    · exact absurd (h4 ▸ dot_dotted r.1 r.2) (types_plain hν q hq)
  have hne := reads_ne _ (fun y t h => by
    rw [hkd] at h
    rcases col_of_type h with ⟨c, hc, rfl, _⟩ | ⟨q, hq, _, h5⟩
    · exact dot_dotted _ _
    · cases h5.2) (fun y h => by
    rw [hkd] at h
    rcases str_of_type h with ⟨c, hc, rfl, _⟩ | ⟨q, hq, _, h5⟩
    · exact dot_dotted _ _
    · cases h5) e _ hi hv
  obtain ⟨o', ho', _⟩ := loadAll_ok hS ((reads a.toTree).map (·.2)) hg (fun f hf => by
    obtain ⟨r, hr, rfl⟩ := List.mem_map.1 hf; exact (hreads r hr).2)
  have hg' : ∀ D rows, Good L.fpu S D rows o → Good L.fpu S D rows o' := fun D rows h => by
    obtain ⟨o2, h1, h2⟩ := loadAll_ok hS ((reads a.toTree).map (·.2)) h (fun f hf => by
      obtain ⟨r, hr, rfl⟩ := List.mem_map.1 hf; exact (hreads r hr).2)
    rw [ho'] at h1
    injection h1 with h1
    exact h1 ▸ h2
  have hchk : checkE L.fpu (fun y => ((argWorld S.cols x o w).vars y).map (·.1)) (undotE a) = some (true, t.p) := by
    show checkE L.fpu (argWorld S.cols x o w).env (undotE a) = _
    rw [VecFn.check_tree, undot_tree, VecFn.check_ex L.fpu (VecFn.env_ok hm) hk _ hl (cis_is e _ hi), hv]
  have hnd : nodesOf L.fpu (argWorld S.cols x o w).leaf (flatE Real.arity (undotE a)) = some (Vec.flat (VecFn.veOf L.fpu (VecFn.lkOf (argWorld S.cols x o w)) e)) := by
    rw [flat_tree, undot_tree, VecFn.flat_ex L.fpu (VecFn.look_ok hm) hk _ hl (cis_is e _ hi)]
  have hev : evalArg L S w a = match evalNodes L.fpu L.mem (argWorld S.cols x o w) t.p (Vec.flat (VecFn.veOf L.fpu (VecFn.lkOf (argWorld S.cols x o w)) e)) with
          | .error err => .error (.code err)
          | .ok (.new b) => .ok ({ w with objs := w.objs.set i o' }, ⟨t.p, b, none⟩)
          | .ok (.old t' s) => match S.cols[s]? with
            | none => .error .unmodelled
            | some c => .ok ({ w with objs := w.objs.set i o' }, ⟨t', ⟨(o.column S.cols c.name).length, o.column S.cols c.name⟩, some (i, c.name)⟩) := by
    unfold evalArg
    cases hr : reads a.toTree with
    | nil => exact absurd hr hne
    | cons r rs =>
      obtain ⟨rx, rf⟩ := r
      rw [hr] at hreads ho'
      have e1 : rx = x := (hreads (rx, rf) (by simp)).1
      subst e1
      have e2 : (rs.all fun r => decide (r.1 = rx)) = true := by
        rw [List.all_eq_true]
        intro r hr
        exact decide_eq_true (hreads r (by simp [hr])).1
      dsimp only
      rw [e2, if_neg (by simp), hx]
      dsimp only
      rw [ho]
      dsimp only
      rw [show loadAll S.cols o (rf :: rs.map (·.2)) = .ok o' from ho']
      simp only [Except.bind]
      rw [hchk, hnd]
      rfl
  by_cases hvar : ∃ y, e = .var y
  · right
    obtain ⟨y, rfl⟩ := hvar
    have hk' := hk.elem
    simp only [elemOf] at hk'
    have hu : u = true := by
      simp only [hasV, hk', Option.any_some] at hv
      exact hv
    subst hu
    rw [hkd] at hk'
    obtain ⟨c, hc, rfl, f, hdat⟩ : ∃ c ∈ S.cols, y = dotted x c.name ∧ ∃ f, c.data = .num t f := by
      rcases col_of_type hk' with ⟨c, hc, h1, h2, _⟩ | ⟨q, hq, _, h5⟩
      · exact ⟨c, hc, h1, h2⟩
      · cases h5.2
    have hnb := (hS.number c hc t f hdat).1
    obtain ⟨j, hj, rfl⟩ := List.mem_iff_getElem.1 hc
    have hci := (hls _ hc).1
    rw [hdat] at hci
    obtain ⟨l, c0, c1, c2, c3⟩ := hci
    have hit : (held S.cols x ls ν)[j]? = some (dotted x S.cols[j].name, .vec t l) := by
      unfold held
      rw [List.getElem?_append_left (by simpa using hj), List.getElem?_map, List.getElem?_eq_getElem hj, Option.map_some, c0]
    have hlook := lookup_of_get _ (held_names hS x ls hν) hit
    have hvars : (argWorld S.cols x o w).vars (dotted x S.cols[j].name) = some ((true, t.p), j) := by
      have := place_get ((held S.cols x ls ν).map fun q => (q.1, typeOf q.2)) 0 j (dotted x S.cols[j].name, (true, t.p))
        (by simpa [List.map_map, Function.comp_def] using held_names hS x ls hν) (by rw [List.getElem?_map, hit]; rfl)
      rw [Nat.zero_add] at this
      rw [← this]
      show place 0 _ _ = place 0 _ _
      congr 1
      rw [held, List.map_append, List.map_map, List.map_map, hν.eq, List.map_map]
      congr 1
      · exact List.map_congr_left fun c h => by rw [Function.comp_apply, type_kind, col_kind (hls c h)]
      · exact List.map_congr_left fun q _ => by rw [Function.comp_apply, Function.comp_apply, single_type]
    obtain ⟨s, b, h1, h2, h3, h4, h5⟩ := VecFn.leaf_vec (hm.held _ _ hlook)
    have hs : s = j := by
      rw [hvars] at h1
      injection h1 with h1
      exact (congrArg Prod.snd h1).symm
    subst hs
    refine ⟨l, o', _, ?_, by
      rw [hev]
      simp only [VecFn.veOf, VecFn.lkOf, h2, VecFn.exOf, Vec.flat, evalNodes]
      rw [List.getElem?_eq_getElem hj], hg', rfl, ?_, c1, c2, .inr ⟨_, hc, rfl, rfl, f, hdat⟩⟩
    · refine VecFn.mapM_get c1 _ fun k hk => ?_
      simp only [valueAt, lane, hlook, Option.bind_some, VecFn.Item.at]
    · refine ⟨by simp [c3, c1], by rw [if_neg hnb]; simp [c3, c1], fun k _ => by simp [c3], fun hb => absurd hb hnb⟩
  · have hnv : ∀ y, e ≠ .var y := fun y h => hvar ⟨y, h⟩
    rw [VecFn.eval_long _ _ _ _ _ (VecFn.nodes_long L.fpu hm hk hv hnv) (show (argWorld S.cols x o w).ctx ≠ [] from hctx)] at hev
    rcases VecFn.eval_buf L.fpu hm hn hL.mem hk hl hgd hv hnv with ⟨h1, h2⟩ | ⟨l, b, h1, h2, h3⟩
    · exact .inl ⟨h1, by rw [hev, h2]; rfl⟩
    · obtain ⟨h4, _, h5⟩ := VecFn.vector_has L.fpu hm hn hL.mem hk hl h1
      exact .inr ⟨l, o', ⟨t.p, b, none⟩, h1, by rw [hev, h2]; rfl, hg', rfl, h3, h4, h5, .inl rfl⟩

/-! ## Single values -/

theorem num_ok {L : Lib P} {w : TWorld P} {ν : Nums} (hν : NumsOk L.fpu ν w.nums) {p : Ty → Bool} {e : Ex} (h : NumOk L.fpu (typesOf ν) p e) {a : Expr} (hi : CIs e a.toTree) :
    ∃ s v, p s = true ∧ v.Has s ∧ numOf L.fpu ν e = some v ∧ ∀ t, evalNum L w t a = if s.p = t then .ok v.enc else match castT L.fpu s.p t with
      | some g => .ok (g v.enc)
      | none => .error .unmodelled := by
  obtain ⟨hl, hs, u, s, he, hp⟩ := h
  cases e with
  | lit ds sf =>
    rw [CIs] at hi
    obtain ⟨τ, v, h1, h2, h3, h4⟩ := constant_lit L.fpu (fun _ => none) (fun _ => none) ds sf hl
    simp only [elemOf, h1, Option.map_some, Option.some.injEq, Prod.mk.injEq] at he
    obtain ⟨_, rfl⟩ := he
    refine ⟨τ, v, hp, h3, h2, fun t => ?_⟩
    unfold evalNum
    rw [hi]
    dsimp only
    rw [h4]
    rfl
  | frac ip fp sf =>
    rw [CIs] at hi
    obtain ⟨τ, v, h1, h2, h3, h4⟩ := constant_frac L.fpu (fun _ => none) (fun _ => none) ip fp sf hl
    simp only [elemOf, h1, Option.map_some, Option.some.injEq, Prod.mk.injEq] at he
    obtain ⟨_, rfl⟩ := he
    refine ⟨τ, v, hp, h3, h2, fun t => ?_⟩
    unfold evalNum
    rw [hi]
    dsimp only
    rw [h4]
    rfl
  | const b =>
    rw [CIs] at hi
    simp only [elemOf, Option.some.injEq, Prod.mk.injEq] at he
    obtain ⟨_, rfl⟩ := he
    refine ⟨.bool, .bool b, hp, trivial, rfl, fun t => ?_⟩
    unfold evalNum
    rw [hi]
    rfl
  | var y =>
    simp only [elemOf] at he
    obtain ⟨q, hq, rfl, hs2⟩ : ∃ q ∈ typesOf ν, y = q.1 ∧ q.2 = .num s := by
      rcases col_of_type he with ⟨c, hc, _⟩ | ⟨q, h1, h2, h3, _⟩
      · simp at hc
      · exact ⟨q, h1, h2, h3⟩
    have hd := types_plain hν q hq
    rw [CIs] at hi
    obtain ⟨⟨y, r⟩, hr, rfl⟩ := List.mem_map.1 hq
    obtain ⟨v, rfl⟩ : ∃ v, r = .num s v := by
      cases r with
      | num t v => injection hs2 with hs2; exact ⟨v, by rw [← hs2]⟩
      | str => cases hs2
    obtain ⟨j, hj⟩ := List.mem_iff_getElem?.1 hr
    have h1 : ν.lookup y = some (.num s v) := lookup_of_get _ hν.names hj
    have h2 : w.nums.lookup y = some (s.p, v.enc) := by
      rw [hν.eq, lookup_map ν (fun q => (elTy q.el, q.enc)) y, h1]; rfl
    have h3 : seen (P := Unit) [] [] [] ν y = some (.num s v) := by
      show (ν.map fun q => (q.1, q.2.item)).lookup y = _
      rw [lookup_map ν Single.item y, h1]; rfl
    refine ⟨s, v, hp, hν.typed _ hr, by simp [numOf, valueAt, lane, h3, VecFn.Item.at], fun t => ?_⟩
    rcases hi with ⟨_, hi⟩ | ⟨x, f, _, e, _⟩
    · unfold evalNum
      rw [hi]
      dsimp only
      rw [h2]
      rfl
    · exact absurd (e ▸ dot_dotted x f) hd
  | _ => cases hs

/-- A number of rows. -/
theorem amount_ok {L : Lib P} {w : TWorld P} {ν : Nums} (hν : NumsOk L.fpu ν w.nums) {e : Ex} (h : NumOk L.fpu (typesOf ν) isNumber e) {a : Expr} (hi : CIs e a.toTree) :
    (∃ z : Int, amount L.fpu ν e = some z.toNat ∧ evalNum L w (.int .u32) a = .ok (.word z)) ∨
      (amount L.fpu ν e = none ∧ ∃ v, evalNum L w (.int .u32) a = .ok v ∧ wordOf v = .error (.code .trap)) := by
  obtain ⟨s, v, h1, h2, h3, h4⟩ := num_ok hν h hi
  have hc : converts (.int .u32) s = true := by cases s <;> simp [isNumber] at h1 <;> rfl
  have h5 := castTV_conv L.fpu hc h2
  rw [castTV_V] at h5
  have h6 : evalNum L w (.int .u32) a = .ok (match conv L.fpu (.int .u32) v with
      | some w => w.enc
      | none => .poison) := by
    rw [h4]
    unfold castV at h5
    rw [show (Ty.int .u32).p = PTy.int .u32 from rfl] at h5
    by_cases hs : s.p = .int .u32
    · rw [if_pos hs] at h5 ⊢
      exact congrArg Except.ok (Option.some.inj h5)
    · rw [if_neg hs] at h5 ⊢
      cases hg : castT L.fpu s.p (.int .u32) with
      | none => rw [hg] at h5; cases h5
      | some g =>
        rw [hg] at h5
        exact congrArg Except.ok (Option.some.inj h5)
  unfold amount
  rw [h3, Option.bind_some]
  cases hv : conv L.fpu (.int .u32) v with
  | none => rw [hv] at h6; exact .inr ⟨rfl, _, h6, rfl⟩
  | some y =>
    rw [hv] at h6
    have := conv_has L.fpu hv
    cases y with
    | int z => exact .inl ⟨z, rfl, h6⟩
    | bool b => cases this
    | flt F x => cases this

theorem flag_ok {L : Lib P} {w : TWorld P} {ν : Nums} (hν : NumsOk L.fpu ν w.nums) {e : Ex} (h : NumOk L.fpu (typesOf ν) (decide <| · = .bool) e) {a : Expr} (hi : CIs e a.toTree) :
    ∃ b, flag L.fpu ν e = some b ∧ ∃ z : Int, evalNum L w .bit a = .ok (.word z) ∧ (z != 0) = b := by
  obtain ⟨s, v, h1, h2, h3, h4⟩ := num_ok hν h hi
  have := of_decide_eq_true h1
  subst this
  obtain ⟨b, rfl⟩ := has_bool h2
  exact ⟨b, by simp [flag, h3], _, (h4 .bit).trans (if_pos (show Ty.bool.p = PTy.bit from rfl)), by cases b <;> rfl⟩

end

end Verif.Comp.TableFn
