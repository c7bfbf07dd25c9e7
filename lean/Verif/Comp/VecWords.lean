import Verif.Comp.TableFnText
/-!
# Vectors of strings and columns of strings, compared: C165

What C153 and C156 say of functions in which strings are compared, spelled out: element by element, and row by row.
-/
namespace Verif.Comp.VecWords
open Verif.Ast hiding Ty
open Verif.Ast.Rpn
open Verif.Gen hiding start
open Verif.Gen.Scalar (Name)
open Verif.Comp.Pipeline (Arith Rel bit)
open Verif.Comp.Real (Val Ty FTy Fpu MV)
open Verif.Comp.Words (relStr)
open Verif.Comp.StrLit (bytes)
open Verif.Comp.Script (NameOk)
open Verif.Types.Str (Byte SV)
open Verif.Comp.VecFn (Ex Str Hw El VFn Arg Vars St lane kinds valueAt vectorOf start elemOf hasV paramKinds mapM_get)

/-! ## Vectors of strings -/

/-- `simd_vector<bit> f(Context c, simd_vector<string_view> x) { return x op "text"; }` -/
def withLiteral (f c x : Name) (o : Rel) (s : List Char) : VFn := ⟨f, c, .bool, [(x, true, .str)], [], .cmp o (.var x) (.text s)⟩
/-- `simd_vector<bit> f(Context c, simd_vector<string_view> x, string_view y) { return x op y; }` -/
def withString (f c x y : Name) (o : Rel) : VFn := ⟨f, c, .bool, [(x, true, .str), (y, false, .str)], [], .cmp o (.var x) (.var y)⟩
/-- `simd_vector<bit> f(Context c, simd_vector<string_view> x, simd_vector<string_view> y) { return x op y; }` -/
def withVector (f c x y : Name) (o : Rel) : VFn := ⟨f, c, .bool, [(x, true, .str), (y, true, .str)], [], .cmp o (.var x) (.var y)⟩

theorem literal_ok (hw : Hw) {f c x : Name} (o : Rel) {s : List Char} (hs : '\\' ∉ s ∧ (bytes s).length < 2 ^ 31) (hc : c ≠ x) : (withLiteral f c x o s).Ok hw := by
  have e : (paramKinds [(x, true, .str)]).str x = some true := by simp [paramKinds, El.str?]
  refine ⟨⟨by simp [withLiteral], by simpa [withLiteral] using hc, by simp [withLiteral]⟩, ?_, trivial, ?_, ⟨false, ?_⟩, fun c a b h => by cases h⟩
  · rintro t (h | h)
    · cases h
    · cases h; exact hs
  · simp [withLiteral, hasV, Str.vec, e]
  · simp [withLiteral, elemOf, Str.vec, e]

theorem two_ok (hw : Hw) {f c x y : Name} (o : Rel) (v : Bool) (hc : c ≠ x ∧ c ≠ y) (hxy : x ≠ y) : VFn.Ok hw ⟨f, c, .bool, [(x, true, .str), (y, v, .str)], [], .cmp o (.var x) (.var y)⟩ := by
  have e : (paramKinds [(x, true, .str), (y, v, .str)]).str x = some true := by simp [paramKinds, El.str?]
  have e' : (paramKinds [(x, true, .str), (y, v, .str)]).str y = some v := by simp [paramKinds, El.str?, List.lookup_cons, beq_eq_false_iff_ne.2 (Ne.symm hxy)]
  refine ⟨⟨by simpa using hxy, by simpa using hc, by simp⟩, ?_, trivial, ?_, ⟨false, ?_⟩, fun c a b h => by cases h⟩
  · rintro t (h | h) <;> cases h
  · simp [hasV, Str.vec, e]
  · simp [elemOf, Str.vec, e, e']

/-- **C165.** A vector of strings compared with a literal: the bits tell, for each string, how it compares with the bytes of the literal. -/
theorem vector_with_literal (cfg : Cfg) (hw : Hw) (f c x : Name) (o : Rel) (s : List Char) (hc : c ≠ x) (hs : '\\' ∉ s ∧ (bytes s).length < 2 ^ 31) (src : List Char) (hr : VecFn.ReadsFn cfg src (withLiteral f c x o s))
    (l : List (List Byte × Int)) (hn : l.length < 2 ^ 30) (hl : ∀ q ∈ l, hw.Shows q.2 q.1) (mem : Nat → List MV) (hmem : ∀ m, (mem m).length = m) :
    VecFn.runFn cfg hw mem src [.strs l] = .ok (l.map fun q => .word (bit (relStr o q.1 (bytes s)))) := by
  rw [VecFn.vector_function cfg hw _ (literal_ok hw o hs hc) src hr l.length hn [.strs l] ⟨rfl, hl, trivial⟩ mem hmem]
  have h : vectorOf hw l.length (start [(x, true, .str)] [.strs l]) (.cmp o (.var x) (.text s)) = some (l.map fun q => .bool (relStr o q.1 (bytes s))) := by
    refine mapM_get (by simp) _ fun i hi => ?_
    simp [valueAt, Str.value, lane, start, Arg.item, VecFn.Item.strAt, hi]
  rw [show (withLiteral f c x o s).returns hw l.length [.strs l] = vectorOf hw l.length (start [(x, true, .str)] [.strs l]) (.cmp o (.var x) (.text s)) from rfl, h]
  simp [VecFn.outcome, Val.enc, bit]

/-- **C165.** A vector of strings compared with a string. -/
theorem vector_with_string (cfg : Cfg) (hw : Hw) (f c x y : Name) (o : Rel) (hc : c ≠ x ∧ c ≠ y) (hxy : x ≠ y) (src : List Char) (hr : VecFn.ReadsFn cfg src (withString f c x y o))
    (l : List (List Byte × Int)) (hn : l.length < 2 ^ 30) (hl : ∀ q ∈ l, hw.Shows q.2 q.1) (b : List Byte) (w : Int) (hb : hw.Shows w b) (mem : Nat → List MV) (hmem : ∀ m, (mem m).length = m) :
    VecFn.runFn cfg hw mem src [.strs l, .str b w] = .ok (l.map fun q => .word (bit (relStr o q.1 b))) := by
  rw [VecFn.vector_function cfg hw _ (two_ok hw o false hc hxy) src hr l.length hn [.strs l, .str b w] ⟨rfl, hl, hb, trivial⟩ mem hmem]
  have h : vectorOf hw l.length (start [(x, true, .str), (y, false, .str)] [.strs l, .str b w]) (.cmp o (.var x) (.var y)) = some (l.map fun q => .bool (relStr o q.1 b)) := by
    refine mapM_get (by simp) _ fun i hi => ?_
    simp [valueAt, Str.value, lane, start, Arg.item, VecFn.Item.strAt, hi, Ne.symm hxy]
  rw [show VFn.returns hw ⟨f, c, .bool, [(x, true, .str), (y, false, .str)], [], .cmp o (.var x) (.var y)⟩ l.length [.strs l, .str b w] = _ from h]
  simp [VecFn.outcome, Val.enc, bit]

/-- **C165.** Two vectors of strings compared, element by element. -/
theorem vector_with_vector (cfg : Cfg) (hw : Hw) (f c x y : Name) (o : Rel) (hc : c ≠ x ∧ c ≠ y) (hxy : x ≠ y) (src : List Char) (hr : VecFn.ReadsFn cfg src (withVector f c x y o))
    (l : List ((List Byte × Int) × (List Byte × Int))) (hn : l.length < 2 ^ 30) (hl : ∀ q ∈ l, hw.Shows q.1.2 q.1.1 ∧ hw.Shows q.2.2 q.2.1) (mem : Nat → List MV) (hmem : ∀ m, (mem m).length = m) :
    VecFn.runFn cfg hw mem src [.strs (l.map (·.1)), .strs (l.map (·.2))] = .ok (l.map fun q => .word (bit (relStr o q.1.1 q.2.1))) := by
  rw [VecFn.vector_function cfg hw _ (two_ok hw o true hc hxy) src hr l.length hn [.strs (l.map (·.1)), .strs (l.map (·.2))]
    ⟨by simp, fun q hq => (by obtain ⟨p, hp, rfl⟩ := List.mem_map.1 hq; exact (hl p hp).1), by simp, fun q hq => (by obtain ⟨p, hp, rfl⟩ := List.mem_map.1 hq; exact (hl p hp).2), trivial⟩ mem hmem]
  have h : vectorOf hw l.length (start [(x, true, .str), (y, true, .str)] [.strs (l.map (·.1)), .strs (l.map (·.2))]) (.cmp o (.var x) (.var y)) = some (l.map fun q => .bool (relStr o q.1.1 q.2.1)) := by
    refine mapM_get (by simp) _ fun i hi => ?_
    simp [valueAt, Str.value, lane, start, Arg.item, VecFn.Item.strAt, hi, Ne.symm hxy]
  rw [show VFn.returns hw ⟨f, c, .bool, [(x, true, .str), (y, true, .str)], [], .cmp o (.var x) (.var y)⟩ l.length [.strs (l.map (·.1)), .strs (l.map (·.2))] = _ from h]
  simp [VecFn.outcome, Val.enc, bit]

/-! ## Columns of strings -/

section
open Verif.Comp.TableFn (Schema Col Data Row TFn Lib TArg dotted rowsOf seen seenTypes runFn keep)
variable {P : Type}

/-- `table<S> f(Context c, table<S> x) { return x.filter(x.col op "text"); }` -/
def columnLiteral (f c x col : Name) (o : Rel) (s : List Char) : TFn := ⟨f, c, [(x, .table)], [], x, [.filter (.cmp o (.var (dotted x col)) (.text s))]⟩
/-- `table<S> f(Context c, table<S> x, string_view y) { return x.filter(x.col op y); }` -/
def columnString (f c x y col : Name) (o : Rel) : TFn := ⟨f, c, [(x, .table), (y, .one .str)], [], x, [.filter (.cmp o (.var (dotted x col)) (.var y))]⟩

theorem col_lookup {α : Type} (g : Col P → α) {x : Name} (hx : '.' ∉ x) {cols : List (Col P)} (hd : (cols.map (·.name)).Nodup) {c : Col P} (hc : c ∈ cols) (r : List (Name × α)) :
    (cols.map (fun c => (dotted x c.name, g c)) ++ r).lookup (dotted x c.name) = some (g c) := by
  induction cols with
  | nil => cases hc
  | cons d cols ih =>
    rw [List.map_cons, List.cons_append, List.lookup_cons]
    obtain ⟨h1, h2⟩ := List.nodup_cons.1 hd
    by_cases e : c = d
    · rw [e, beq_self_eq_true]
    · rcases List.mem_cons.1 hc with h | h
      · exact absurd h e
      · have hn : dotted x c.name ≠ dotted x d.name := fun hh => h1 (by show d.name ∈ _; rw [← (TableFn.dotted_inj hx hx hh).2]; exact List.mem_map_of_mem (f := (·.name)) h)
        rw [beq_eq_false_iff_ne.2 hn]
        exact ih h2 h

theorem num_lookup {α : Type} (g : Col P → α) {x y : Name} (hy : '.' ∉ y) (cols : List (Col P)) (a : α) : (cols.map (fun c => (dotted x c.name, g c)) ++ [(y, a)]).lookup y = some a := by
  induction cols with
  | nil => simp
  | cons d cols ih =>
    rw [List.map_cons, List.cons_append, List.lookup_cons, beq_eq_false_iff_ne.2 (fun e : y = dotted x d.name => hy (by rw [e]; exact TableFn.dot_dotted x d.name))]
    exact ih

theorem keep_rows {β : Type} (p : β → Bool) (k : Nat) (g : P → β) (rows : List (Row P)) (h : ∀ r ∈ rows, k < r.length) :
    keep rows ((rows.filterMap fun r => (r[k]?).map g).map fun b => .bool (p b)) = rows.filter fun r => (r[k]?).any fun q => p (g q) := by
  induction rows with
  | nil => rfl
  | cons r rows ih =>
    have ih := ih fun r hr => h r (by simp [hr])
    have hk := h r (by simp)
    unfold keep at ih ⊢
    rw [List.filterMap_cons, List.getElem?_eq_getElem hk]
    simp only [Option.map_some, List.map_cons, List.zip_cons_cons, List.filter_cons, Option.any_some, List.getElem?_eq_getElem hk]
    cases p (g r[k]) <;> simp <;> simpa using ih

theorem row_long {S : Schema P} {t : Tbl.Table P} (ha : Tbl.Aligned t) (hs : t.map (·.schema) = List.range S.groups) : ∀ r ∈ rowsOf t, r.length = S.groups := by
  intro r hr
  simp only [rowsOf, List.mem_map, List.mem_range] at hr
  obtain ⟨i, hi, rfl⟩ := hr
  have : ∀ t : Tbl.Table P, (∀ g ∈ t, i < g.objs.length) → (t.filterMap fun g => g.objs[i]?).length = t.length := by
    intro t
    induction t with
    | nil => intro _; rfl
    | cons g t ih =>
      intro h
      rw [List.filterMap_cons, List.getElem?_eq_getElem (h g (by simp))]
      simp [ih fun g hg => h g (by simp [hg])]
  rw [this t fun g hg => by rw [ha g hg]; exact hi]
  have := congrArg List.length hs
  simpa using this

/-- One filter. -/
theorem filter_returns {hw : Hw} {S : Schema P} {ν : TableFn.Nums} {x : Name} {rows : List (Row P)} {τ : TableFn.Tabs P} {e : Ex} {l : List Val} (hl : vectorOf hw rows.length (seen S.cols x rows ν) e = some l)
    (hx : τ.lookup x = some rows) {o : Option (List (Row P))} (h : TableFn.Exec hw S ν τ [] x [.filter e] o) : o = some (keep rows l) := by
  cases h with
  | result hx' h =>
    rw [hx] at hx'
    cases hx'
    cases h with
    | fail h => simp only [TableFn.Gives] at h; rw [hl] at h; cases h
    | step h hd =>
      cases hd
      simp only [TableFn.Gives] at h
      rw [hl] at h
      exact h

/-- **C165.** A table filtered by comparing a column of strings with a literal: exactly the rows whose string compares so, in their order. -/
theorem column_with_literal (cfg : Cfg) (L : Lib P) (hL : L.Ok) (S : Schema P) (hS : S.Ok L.fpu) (col : Col P) (hcol : col ∈ S.cols) (g : P → List Byte × Int) (hg : col.data = .str g)
    (f c x : Name) (o : Rel) (s : List Char) (hx : '.' ∉ x) (hc : c ≠ x) (hs : '\\' ∉ s ∧ (bytes s).length < 2 ^ 31) (src : List Char) (hr : TableFn.ReadsFn cfg S src (columnLiteral f c x col.name o s))
    (t : Tbl.Table P) (ht : Tbl.Aligned t) (hg' : t.map (·.schema) = List.range S.groups) (hn : Tbl.count t < 2 ^ 30) :
    (runFn cfg L S src [.table t]).map rowsOf = .ok ((rowsOf t).filter fun r => (r[col.group]?).any fun p => relStr o (g p).1 (bytes s)) := by
  have e1 : (seenTypes S.cols x []).str (dotted x col.name) = some true := by
    simp only [seenTypes, paramKinds]
    rw [col_lookup (fun c => (true, c.data.el)) hx hS.names hcol]
    simp [hg, Data.el, El.str?]
  have hok : (columnLiteral f c x col.name o s).Ok L.fpu S := by
    refine ⟨⟨by simp [columnLiteral], by simpa [columnLiteral] using hc, by simpa [columnLiteral] using hx⟩, [], by simp [columnLiteral, TableFn.tableNames], ⟨rfl, ?_, trivial, ?_, ⟨false, ?_⟩, by simp⟩, by simp⟩
    · rintro t (h | h)
      · cases h
      · cases h; exact hs
    · simp only [columnLiteral, TableFn.numTypes, hasV, Str.vec, e1]; rfl
    · simp only [columnLiteral, TableFn.numTypes, elemOf, Str.vec, e1]; rfl
  obtain ⟨out, h1, h2⟩ := TableFn.table_function cfg L hL S hS _ hok src hr [.table t] ⟨ht, hg', trivial⟩ (by simpa [columnLiteral, TFn.concats, TableFn.concats, TableFn.Call.concats] using hn)
  rw [h2]
  have e2 : seen S.cols x (rowsOf t) [] (dotted x col.name) = some (.strs ((rowsOf t).filterMap fun r => (r[col.group]?).map fun p => (g p).1)) := by
    simp only [seen, TableFn.items]
    rw [col_lookup (fun c => c.item (rowsOf t)) hx hS.names hcol]
    simp [Col.item, hg]
  have hlen : ∀ r ∈ rowsOf t, col.group < r.length := fun r hr => by rw [row_long ht hg' r hr]; exact hS.inside col hcol
  have hv : vectorOf L.fpu (rowsOf t).length (seen S.cols x (rowsOf t) []) (.cmp o (.var (dotted x col.name)) (.text s)) =
      some (((rowsOf t).filterMap fun r => (r[col.group]?).map fun p => (g p).1).map fun b => .bool (relStr o b (bytes s))) := by
    have hl : ((rowsOf t).filterMap fun r => (r[col.group]?).map fun p => (g p).1).length = (rowsOf t).length := by
      obtain ⟨G, _, h3, h4⟩ := TableFn.column_values (S := S) ⟨ht, hg'⟩ (hS.inside col hcol)
      rw [h3, List.length_map, h4, TableFn.rows_length]
    refine mapM_get (by simpa using hl) _ fun i hi => ?_
    simp only [valueAt, Str.value, lane, e2, Option.bind_some, VecFn.Item.strAt, List.getElem?_map, Option.map_some]
    cases (List.filterMap (fun r => (r[col.group]?).map fun p => (g p).1) (rowsOf t))[i]? <;> rfl
  have h1 := filter_returns hv (by simp [TableFn.tables, columnLiteral]) h1
  rw [h1, keep_rows (fun b => relStr o b (bytes s)) col.group (fun p => (g p).1) _ hlen]
  rfl

/-- **C165.** A table filtered by comparing a column of strings with a string that is passed. -/
theorem column_with_string (cfg : Cfg) (L : Lib P) (hL : L.Ok) (S : Schema P) (hS : S.Ok L.fpu) (col : Col P) (hcol : col ∈ S.cols) (g : P → List Byte × Int) (hg : col.data = .str g)
    (f c x y : Name) (o : Rel) (hx : '.' ∉ x) (hy : '.' ∉ y) (hc : c ≠ x ∧ c ≠ y) (hxy : x ≠ y) (src : List Char) (hr : TableFn.ReadsFn cfg S src (columnString f c x y col.name o))
    (t : Tbl.Table P) (ht : Tbl.Aligned t) (hg' : t.map (·.schema) = List.range S.groups) (hn : Tbl.count t < 2 ^ 30) (b : List Byte) (w : Int) (hb : L.fpu.Shows w b) :
    (runFn cfg L S src [.table t, .str b w]).map rowsOf = .ok ((rowsOf t).filter fun r => (r[col.group]?).any fun p => relStr o (g p).1 b) := by
  have e1 : (seenTypes S.cols x [(y, .str)]).str (dotted x col.name) = some true := by
    simp only [seenTypes, paramKinds]
    rw [col_lookup (fun c => (true, c.data.el)) hx hS.names hcol]
    simp [hg, Data.el, El.str?]
  have e1' : (seenTypes S.cols x [(y, .str)]).str y = some false := by
    simp only [seenTypes, paramKinds, List.map_cons, List.map_nil]
    rw [num_lookup (fun c => (true, c.data.el)) hy]
    simp [El.str?]
  have hok : (columnString f c x y col.name o).Ok L.fpu S := by
    refine ⟨⟨by simpa [columnString] using hxy, by simpa [columnString] using hc, by simpa [columnString] using ⟨hx, hy⟩⟩, [], by simp [columnString, TableFn.tableNames], ⟨rfl, ?_, trivial, ?_, ⟨false, ?_⟩, by simp⟩, by simp⟩
    · rintro t (h | h) <;> cases h
    · simp only [columnString, TableFn.numTypes, hasV, Str.vec, e1]; rfl
    · simp only [columnString, TableFn.numTypes, elemOf, Str.vec, e1, e1']; rfl
  obtain ⟨out, h1, h2⟩ := TableFn.table_function cfg L hL S hS _ hok src hr [.table t, .str b w] ⟨ht, hg', hb, trivial⟩
    (by simpa [columnString, TFn.concats, TableFn.concats, TableFn.Call.concats] using hn)
  rw [h2]
  have e2 : seen S.cols x (rowsOf t) [(y, .str b w)] (dotted x col.name) = some (.strs ((rowsOf t).filterMap fun r => (r[col.group]?).map fun p => (g p).1)) := by
    simp only [seen, TableFn.items]
    rw [col_lookup (fun c => c.item (rowsOf t)) hx hS.names hcol]
    simp [Col.item, hg]
  have e3 : seen S.cols x (rowsOf t) [(y, .str b w)] y = some (.str b) := by
    simp only [seen, TableFn.items, List.map_cons, List.map_nil]
    rw [num_lookup (fun c => c.item (rowsOf t)) hy]
    rfl
  have hlen : ∀ r ∈ rowsOf t, col.group < r.length := fun r hr => by rw [row_long ht hg' r hr]; exact hS.inside col hcol
  have hv : vectorOf L.fpu (rowsOf t).length (seen S.cols x (rowsOf t) [(y, .str b w)]) (.cmp o (.var (dotted x col.name)) (.var y)) =
      some (((rowsOf t).filterMap fun r => (r[col.group]?).map fun p => (g p).1).map fun a => .bool (relStr o a b)) := by
    have hl : ((rowsOf t).filterMap fun r => (r[col.group]?).map fun p => (g p).1).length = (rowsOf t).length := by
      obtain ⟨G, _, h3, h4⟩ := TableFn.column_values (S := S) ⟨ht, hg'⟩ (hS.inside col hcol)
      rw [h3, List.length_map, h4, TableFn.rows_length]
    refine mapM_get (by simpa using hl) _ fun i hi => ?_
    simp only [valueAt, Str.value, lane, e2, e3, Option.bind_some, VecFn.Item.strAt, List.getElem?_map, Option.map_some]
    cases (List.filterMap (fun r => (r[col.group]?).map fun p => (g p).1) (rowsOf t))[i]? <;> rfl
  have h1 := filter_returns hv (by simp [TableFn.tables, columnString]) h1
  rw [h1, keep_rows (fun a => relStr o a b) col.group (fun p => (g p).1) _ hlen]
  rfl

end

/-! ## A machine -/

/-- A text as a number. -/
def code : List Char → Nat
  | [] => 0
  | c :: s => code s * 2 ^ 32 + (c.toNat + 1)

theorem code_inj : ∀ s t : List Char, code s = code t → s = t
  | [], [], _ => rfl
  | [], c :: t, h => by simp only [code] at h; omega
  | c :: s, [], h => by simp only [code] at h; omega
  | c :: s, d :: t, h => by
    simp only [code] at h
    have hc : c.toNat < 2 ^ 31 := by have := c.val.toNat_lt; have := c.valid; unfold Char.toNat; rcases this with h | h <;> omega
    have hd : d.toNat < 2 ^ 31 := by have := d.val.toNat_lt; have := d.valid; unfold Char.toNat; rcases this with h | h <;> omega
    have h1 : c.toNat = d.toNat := by omega
    rw [code_inj s t (by omega), Char.ext (UInt32.toNat_inj.1 h1)]

open Classical in
/-- A number is the view of the text it is the number of, or of the empty string. -/
noncomputable def someHw (fpu : Fpu) : Hw where
  toFpu := fpu
  view z := if h : ∃ s, (code s : Int) = z then SV.mk' (.inlined []) (bytes h.choose) else SV.mk' (.inlined []) []
  text s := code s
  view_text s := ⟨_, by
    have h : ∃ t, (code t : Int) = code s := ⟨s, rfl⟩
    rw [dif_pos h, code_inj _ _ (Int.ofNat.inj h.choose_spec)]⟩
  view_zero := ⟨_, by
    have h : ∃ t, (code t : Int) = 0 := ⟨[], rfl⟩
    rw [dif_pos h, code_inj _ [] (Int.ofNat.inj h.choose_spec)]; rfl⟩

/-- There are such machines, on which every text has a view. -/
example (fpu : Fpu) (s : List Char) (hs : s.length < 2 ^ 31) : (someHw fpu).Shows (code s) (bytes s) := ⟨by simpa [bytes] using hs, (someHw fpu).view_text s⟩

/-! ## The function of the README -/

def location : Name := ['l', 'o', 'c', 'a', 't', 'i', 'o', 'n']
def score : Name := ['s', 'c', 'o', 'r', 'e']
def boost : Name := ['b', 'o', 'o', 's', 't']
def home : List Char := ['h', 'o', 'm', 'e']
def two : Ex := .lit ['2'] (some (.flt .f32))
def zero : Ex := .lit ['0'] (some (.flt .f32))
def choice : Ex := .pick (.cmp .eq (.var location) (.text home)) two zero
def readme : VFn := ⟨['f'], ['c'], .flt .f32, [(location, true, .str), (score, true, .num (.flt .f32))], [.define boost choice], .arith .mul (.var score) (.var boost)⟩
def readmeText : List Char :=
  "simd_vector < f32 > f ( Context c , simd_vector < string_view > location , simd_vector < f32 > score ) { auto boost = location == \"home\" ? 2_f32 : 0_f32 ; return score * boost ; } ".toList

theorem name_ok (x : Name) (h : x = location ∨ x = score ∨ x = boost) : NameOk VecFn.demoCfg x := by
  rcases h with rfl | rfl | rfl <;> exact ⟨⟨⟨_, _, rfl, by decide, by decide⟩, by decide⟩, by decide⟩

theorem home_body : StrBody home := .char _ _ (by decide) (by decide) (.char _ _ (by decide) (by decide) (.char _ _ (by decide) (by decide) (.char _ _ (by decide) (by decide) .nil)))

theorem two_lits (hw : Hw) : two.Lits hw := by simp only [two, VecFn.Ex.Lits, Real.Ex.Lits]; decide
theorem zero_lits (hw : Hw) : zero.Lits hw := by simp only [zero, VecFn.Ex.Lits, Real.Ex.Lits]; decide
theorem choice_lits (hw : Hw) : choice.Lits hw := by
  refine ⟨?_, two_lits hw, zero_lits hw⟩
  rintro s (h | h)
  · cases h
  · cases h; decide

theorem readme_reads (hw : Hw) : VecFn.ReadsFn VecFn.demoCfg readmeText readme := by
  have e : readmeText = writeTokens (funcsPrint [readme.src]) := by decide +kernel
  rw [e]
  refine VecFn.fn_text VecFn.demoCfg hw VecFn.demo_types readme ⟨?_, trivial, trivial⟩ ⟨VecFn.demo_name 'f' (by decide), VecFn.demo_name 'c' (by decide), ?_, ?_, name_ok _ (by simp), name_ok _ (by simp)⟩
  · simp only [readme, List.mem_singleton]
    rintro s rfl
    exact choice_lits hw
  · simp only [readme, List.mem_cons, List.not_mem_nil, or_false]
    rintro q (rfl | rfl) <;> exact name_ok _ (by simp)
  · simp only [readme, List.mem_singleton]
    rintro s rfl
    exact ⟨name_ok _ (.inr (.inr rfl)), ⟨name_ok _ (.inl rfl), home_body⟩, rfl, rfl⟩

theorem readme_ok (hw : Hw) : readme.Ok hw := by
  refine ⟨⟨by decide, by decide, by decide⟩, .flt .f32, ⟨choice_lits hw, ?_, by decide, ⟨false, by decide⟩, by decide, by simp [choice]⟩, ⟨trivial, trivial⟩, ?_, by decide, ⟨true, by decide⟩, fun c a b h => by cases h⟩
  · simp [St.source, choice, two, zero, VecFn.Guarded, VecFn.Sure]
  · simp [readme, VecFn.Guarded]

/-- The function of the README (with `2_f32` for `2.0_f32`), compiled and called: every score is multiplied by 2 if the place is the one asked for, and by 0 if not, whatever vectors are passed. -/
example (hw : Hw) (l : List ((List Byte × Int) × Flt.Fl FTy.f32.fmt)) (hn : l.length < 2 ^ 30) (hl : ∀ q ∈ l, hw.Shows q.1.2 q.1.1) (mem : Nat → List MV) (hmem : ∀ m, (mem m).length = m) :
    VecFn.runFn VecFn.demoCfg hw mem readmeText [.strs (l.map (·.1)), .vec (l.map fun q => .flt .f32 q.2) []] =
      .ok (l.map fun q => .flt .f32 (hw.arith .mul .f32 q.2 (hw.resize .f64 .f32 (Flt.ofInt Flt.f64 (if q.1.1 = bytes home then 2 else 0))))) := by
  have ha : VecFn.Passed hw l.length readme.params [.strs (l.map (·.1)), .vec (l.map fun q => .flt .f32 q.2) []] := by
    refine ⟨by simp, fun q hq => ?_, by simp, fun v hv => ?_, fun h => (by cases h), trivial⟩
    · obtain ⟨p, hp, rfl⟩ := List.mem_map.1 hq; exact hl p hp
    · obtain ⟨p, _, rfl⟩ := List.mem_map.1 hv; rfl
  rw [VecFn.vector_function VecFn.demoCfg hw readme (readme_ok hw) readmeText (readme_reads hw) l.length hn _ ha mem hmem]
  let σ : Vars := start readme.params [.strs (l.map (·.1)), .vec (l.map fun q => .flt .f32 q.2) []]
  let pick : (List Byte × Int) × Flt.Fl FTy.f32.fmt → Flt.Fl FTy.f32.fmt := fun q => hw.resize .f64 .f32 (Flt.ofInt Flt.f64 (if q.1.1 = bytes home then 2 else 0))
  have h1 : vectorOf hw l.length σ choice = some (l.map fun q => .flt .f32 (pick q)) := by
    refine mapM_get (by simp) _ fun i hi => ?_
    have e1 : (lane σ i).str location = some l[i].1.1 := by simp [lane, σ, readme, start, Arg.item, VecFn.Item.strAt, hi]
    have e2 : VecFn.common (kinds σ) (.lit ['2'] (some (.flt .f32))) (.lit ['0'] (some (.flt .f32))) = some (.flt .f32) := rfl
    have e3 : (Real.Ex.lit ['2'] (some (.flt .f32))).value hw (fun _ => none) (fun _ => none) = some (.flt .f32 (hw.resize .f64 .f32 (Flt.ofInt Flt.f64 2))) := rfl
    have e4 : (Real.Ex.lit ['0'] (some (.flt .f32))).value hw (fun _ => none) (fun _ => none) = some (.flt .f32 (hw.resize .f64 .f32 (Flt.ofInt Flt.f64 0))) := rfl
    by_cases h : l[i].1.1 = bytes home <;> simp [choice, two, zero, valueAt, e2, Str.value, e1, relStr, h, e3, e4, Real.conv, hw.resize_same, pick, hi]
  let τ : Vars := VecFn.bind σ boost (.vec (.flt .f32) (l.map fun q => .flt .f32 (pick q)))
  have h2 : vectorOf hw l.length τ (.arith .mul (.var score) (.var boost)) = some (l.map fun q => .flt .f32 (hw.arith .mul .f32 q.2 (pick q))) := by
    refine mapM_get (by simp) _ fun i hi => ?_
    have e1 : lane τ i score = some (.flt .f32 l[i].2) := by simp [lane, τ, σ, readme, start, Arg.item, VecFn.Item.at, VecFn.bind, hi, score, boost, location]
    have e2 : lane τ i boost = some (.flt .f32 (pick l[i])) := by simp [lane, τ, VecFn.Item.at, VecFn.bind, hi]
    have e3 : VecFn.common (kinds τ) (.var score) (.var boost) = some (.flt .f32) := rfl
    simp [valueAt, e1, e2, e3, Real.conv, hw.resize_same, Real.arithV, Val.flt?, hi]
  have e : readme.returns hw l.length [.strs (l.map (·.1)), .vec (l.map fun q => .flt .f32 q.2) []] = some (l.map fun q => .flt .f32 (hw.arith .mul .f32 q.2 (pick q))) := by
    show (VecFn.execute hw _ _ σ).bind _ = _
    rw [show readme.body = [.define boost choice] from rfl, VecFn.execute, show elemOf (kinds σ) (St.source (.define boost choice)) = some (false, .flt .f32) from rfl]
    simp only [Option.bind_some, VecFn.execute, St.source, St.target]
    rw [h1]
    simp only [Option.bind_some]
    exact h2
  rw [e]
  simp [VecFn.outcome, Val.enc, pick]

/-! ## Instances -/

/-- `x < "home"`. -/
example (hw : Hw) : ∃ src, VecFn.ReadsFn VecFn.demoCfg src (withLiteral ['f'] ['c'] location .lt home) := by
  refine VecFn.every_vector_function_has_text VecFn.demoCfg hw VecFn.demo_types _ (literal_ok hw .lt (by decide) (by decide)) ⟨VecFn.demo_name 'f' (by decide), VecFn.demo_name 'c' (by decide), ?_, by simp [withLiteral], name_ok _ (by simp), home_body⟩
  simp only [withLiteral, List.mem_singleton]
  rintro q rfl
  exact name_ok _ (by simp)

section
open Verif.Comp.TableFn (Schema TypesOk tableText dotted)

/-- People are cities. -/
def People (hw : Hw) : Type := { q : List Byte × Int // hw.Shows q.2 q.1 }
def city : Name := ['c', 'i', 't', 'y']
def people (hw : Hw) : Schema (People hw) := ⟨['P', 'e', 'o', 'p', 'l', 'e'], 1, [⟨city, 0, .str fun p => p.1⟩]⟩
def peopleCfg : Cfg := { isType := fun t => (VecFn.typeNamed t).isSome || decide (t = VecFn.contextText) || decide (t = ['t', 'a', 'b', 'l', 'e', '<', 'P', 'e', 'o', 'p', 'l', 'e', '>']), inRange := fun _ => true }

theorem people_types (hw : Hw) : TypesOk peopleCfg (people hw) := by
  refine ⟨⟨fun q => ?_, by decide⟩, rfl, show IsName ['P', 'e', 'o', 'p', 'l', 'e'] from ⟨⟨_, _, rfl, by decide, by decide⟩, by decide⟩⟩
  show ((VecFn.typeNamed (VecFn.paramText q)).isSome || _ || _) = true
  rw [VecFn.named_param]; rfl

/-- `x.filter(x.city == "home")` and `x.filter(x.city < y)`: all that the theorems ask for. -/
example (hw : Hw) (p : People hw) : (TableFn.someLib (People hw) hw p).Ok ∧ (people hw).Ok hw ∧ (∃ src, TableFn.ReadsFn peopleCfg (people hw) src (columnLiteral ['f'] ['c'] ['x'] city .eq home)) ∧
    ∃ src, TableFn.ReadsFn peopleCfg (people hw) src (columnString ['f'] ['c'] ['x'] ['y'] city .lt) := by
  have hx : NameOk peopleCfg ['x'] := ⟨example_name _ (by decide), by decide⟩
  have hy : NameOk peopleCfg ['y'] := ⟨example_name _ (by decide), by decide⟩
  have hf : NameOk peopleCfg ['f'] := ⟨example_name _ (by decide), by decide⟩
  have hc : NameOk peopleCfg ['c'] := ⟨example_name _ (by decide), by decide⟩
  have hcity : IsName city := ⟨⟨_, _, rfl, by decide, by decide⟩, by decide⟩
  refine ⟨TableFn.someLib_ok _ hw p, ⟨by simp [people], by simp [people], by simp [people], ?_, ?_⟩,
    ⟨_, TableFn.fn_text peopleCfg hw (people hw) (people_types hw) _ ⟨by simp [columnLiteral], ?_⟩ ⟨hf, hc, by simpa [columnLiteral] using hx, by simp [columnLiteral], hx, ?_⟩⟩,
    _, TableFn.fn_text peopleCfg hw (people hw) (people_types hw) _ ⟨by simp [columnString], ?_⟩ ⟨hf, hc, by simpa [columnString] using ⟨hx, hy⟩, by simp [columnString], hx, ?_⟩⟩
  · intro c hc t f h
    simp only [people, List.mem_singleton] at hc
    subst hc; cases h
  · intro c hc f h q
    simp only [people, List.mem_singleton] at hc
    subst hc; cases h; exact q.2
  · simp only [columnLiteral, List.mem_singleton]
    rintro c rfl e he
    simp only [TableFn.Call.exprs, List.mem_singleton] at he
    subst he
    rintro s (h | h)
    · cases h
    · cases h; exact ⟨by decide, by decide⟩
  · simp only [columnLiteral, List.mem_singleton]
    rintro c rfl
    refine ⟨?_, trivial⟩
    simp only [TableFn.Call.exprs, List.mem_singleton]
    rintro e rfl
    exact ⟨.inr ⟨_, _, hx, hcity, rfl⟩, home_body⟩
  · simp only [columnString, List.mem_singleton]
    rintro c rfl e he
    simp only [TableFn.Call.exprs, List.mem_singleton] at he
    subst he
    rintro s (h | h) <;> cases h
  · simp only [columnString, List.mem_singleton]
    rintro c rfl
    refine ⟨?_, trivial⟩
    simp only [TableFn.Call.exprs, List.mem_singleton]
    rintro e rfl
    exact ⟨.inr ⟨_, _, hx, hcity, rfl⟩, .inl hy⟩

end

end Verif.Comp.VecWords
