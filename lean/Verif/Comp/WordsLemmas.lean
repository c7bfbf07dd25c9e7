import Verif.Comp.Words
/-! # C162: lemmas -/
namespace Verif.Comp.Words
open Verif.Ast Verif.Ast.Rpn Verif.Gen Verif.Gen.Scalar Verif.Types.Conv Verif.Types.Str
open Verif.Comp.Pipeline (Arith Rel decimal bit treeM treeV eager_tree eval_tree)
open Verif.Comp.StrLit (bytes)
open Verif.Comp.Script (Tree.PlainT plain_of_tree arith_plain rel_plain)
open Verif.Comp.Real (Fpu Fn1 Fn2 Suf PTy MV fracText withSuffix Small)

/-! ## Views -/

theorem view_bytes (junk : Types.Str.Val) (b : List Byte) (h : b.length < 2 ^ 31) : viewBytes (SV.mk' junk b) = some b := by
  have hs := size_toNat junk b (by omega)
  unfold viewBytes
  by_cases h0 : b = []
  · subst h0
    rw [if_pos (by apply BitVec.eq_of_toNat_eq; rw [hs]; rfl)]
  · have hl : b.length ≠ 0 := by simpa using h0
    rw [if_neg (by intro e; rw [e] at hs; exact hl hs.symm), hs]
    unfold SV.read
    rw [mk'_isInline junk b (by omega)]
    by_cases h1 : b.length ≤ 12
    · rw [mk'_short junk b h0 h1]
      have hp : (pad 4 b ++ pad 8 (b.drop 4)).length = 12 := by simp [pad_length]
      simp only [h1, decide_true, if_true, hp, Nat.zero_add, List.drop_zero, Option.some.injEq]
      by_cases h4 : b.length ≤ 4
      · rw [List.take_append_of_le_length (by rw [pad_length]; exact h4), take_pad 4 _ _ h4 (Nat.le_refl _), List.take_length]
      · rw [List.take_append, pad_length, List.take_of_length_le (by rw [pad_length]; omega), pad_eq_take 4 b (by omega), take_pad 8 _ _ (by omega) (by simp),
          List.take_of_length_le (l := b.drop 4) (by simp), List.take_append_drop]
    · rw [mk'_long junk b (by omega) (by omega)]
      simp [h1, ptrRead]

theorem cmp_sign (r : Rel) : ∃ o, cmpOf r.sign = some o ∧ ∀ a b, o.holds (lexCmp a b) = relStr r a b := by
  have hd : ∀ a b : List Byte, decide (a = b) = (lexCmp a b == .eq) := fun a b => by
    by_cases h : a = b
    · subst h; simp [lexCmp_self]
    · have : lexCmp a b ≠ .eq := fun e => h ((lexCmp_eq_iff a b).1 e)
      simp [h, this]
  have hn : ∀ a b : List Byte, decide (a ≠ b) = !decide (a = b) := fun a b => by simp
  cases r <;> refine ⟨_, rfl, fun a b => ?_⟩ <;> simp only [relStr, CmpOp.holds, hn, hd] <;> cases lexCmp a b <;> rfl

/-! ## Answers -/

theorem contains_true (part s : List Byte) : containsLoop part s = true ↔ Ask.contains.True s part := by
  unfold Ask.True
  induction s with
  | nil =>
    simp only [containsLoop, List.isPrefixOf_iff_prefix, List.prefix_nil]
    constructor
    · rintro rfl; exact ⟨[], [], rfl⟩
    · rintro ⟨l, r, h⟩
      have := congrArg List.length h
      simp at this
      exact List.eq_nil_of_length_eq_zero (by omega)
  | cons b s ih =>
    simp only [containsLoop, Bool.or_eq_true, List.isPrefixOf_iff_prefix]
    rw [ih]
    constructor
    · rintro (⟨r, h⟩ | ⟨l, r, rfl⟩)
      · exact ⟨[], r, by rw [← h]; rfl⟩
      · exact ⟨b :: l, r, rfl⟩
    · rintro ⟨l, r, h⟩
      cases l with
      | nil => exact .inl ⟨r, h.symm⟩
      | cons c l => cases h; exact .inr ⟨l, r, rfl⟩

theorem folded_true (part s : List Byte) : containsFolded part s = true ↔ Ask.containsIgnoringCase.True s part := by
  unfold Ask.True
  induction s with
  | nil =>
    simp only [containsFolded, startsFolded, List.isPrefixOf_iff_prefix, List.map_nil, List.prefix_nil]
    constructor
    · intro h; exact ⟨[], [], [], rfl, h.symm⟩
    · rintro ⟨l, m, r, h, h2⟩
      have := congrArg List.length h
      simp at this
      obtain rfl : m = [] := List.eq_nil_of_length_eq_zero (by omega)
      exact h2.symm
  | cons b s ih =>
    simp only [containsFolded, startsFolded, Bool.or_eq_true, List.isPrefixOf_iff_prefix]
    rw [ih]
    constructor
    · rintro (⟨r, h⟩ | ⟨l, m, r, rfl, h⟩)
      · refine ⟨[], (b :: s).take part.length, (b :: s).drop part.length, by simp, ?_⟩
        rw [List.map_take, ← h]
        simp
      · exact ⟨b :: l, m, r, rfl, h⟩
    · rintro ⟨l, m, r, h, h2⟩
      cases l with
      | nil => left; rw [h, ← h2]; exact ⟨r.map lower, by simp⟩
      | cons c l => cases h; exact .inr ⟨l, m, r, rfl, h2⟩

/-- What the methods compute. -/
def Ask.fn : Ask → List Byte → List Byte → Bool
  | .contains => fun s part => containsLoop part s
  | .startsWith => Types.Str.startsWith
  | .endsWith => Types.Str.endsWith
  | .containsIgnoringCase => fun s part => containsFolded part s

open Classical in
theorem ask_ans (m : Ask) (s part : List Byte) : m.fn s part = m.ans s part := by
  have h : m.fn s part = true ↔ m.True s part := by
    cases m with
    | contains => exact contains_true part s
    | containsIgnoringCase => exact folded_true part s
    | startsWith =>
      simp only [Ask.fn, Ask.True, Types.Str.startsWith, List.isPrefixOf_iff_prefix]
      exact ⟨fun ⟨r, h⟩ => ⟨r, h.symm⟩, fun ⟨r, h⟩ => ⟨r, h.symm⟩⟩
    | endsWith =>
      simp only [Ask.fn, Ask.True, Types.Str.endsWith, List.isSuffixOf_iff_suffix]
      exact ⟨fun ⟨r, h⟩ => ⟨r, h.symm⟩, fun ⟨r, h⟩ => ⟨r, h.symm⟩⟩
  unfold Ask.ans
  by_cases hm : m.True s part
  · rw [decide_eq_true hm]; exact h.2 hm
  · rw [decide_eq_false hm]
    cases hf : m.fn s part with
    | false => rfl
    | true => exact absurd (h.1 hf) hm

theorem method_ask (m : Ask) : methods.lookup ('.' :: m.name) = some ([.other, .other], .bit, askFn m.fn) := by cases m <;> rfl
theorem method_size : methods.lookup ('.' :: "size".toList) = some ([.other], .int .u64, sizeFn) := rfl
theorem arity_ask (m : Ask) : Real.arity ('.' :: m.name) = none := by cases m <;> decide +kernel
theorem arity_size : Real.arity ('.' :: "size".toList) = none := by decide +kernel

/-! ## Numbers among the values -/

section
variable (fpu : Fpu) (junk : Types.Str.Val)

def wn (x : TV PTy MV) : TV PTy WV := (x.1, .num x.2)

theorem cast_num (c : PTy) (x : TV PTy MV) : castTV (rt fpu junk) c (wn x) = (castTV (Real.rt fpu) c x).map .num := by
  unfold castTV
  by_cases h : x.1 = c
  · rw [if_pos h, if_pos (show (wn x).1 = c from h)]; rfl
  · rw [if_neg h, if_neg (show ¬ (wn x).1 = c from h)]
    show ((Real.castT fpu x.1 c).map _).map _ = ((Real.castT fpu x.1 c).map _).map _
    cases Real.castT fpu x.1 c <;> rfl

theorem meet_same (a b : PTy) : meet (rt fpu junk) a b = meet (Real.rt fpu) a b := rfl

theorem meet_ne {a b c : PTy} (ha : a ≠ .other) (hb : b ≠ .other) (h : meet (Real.rt fpu) a b = some c) : c ≠ .other := by
  unfold meet at h
  split at h
  · cases h; exact ha
  · have h : Real.normT a b = some c := h
    unfold Real.normT at h
    cases h1 : Real.rank a with
    | none => rw [h1] at h; cases h
    | some m => cases h2 : Real.rank b with
      | none => rw [h1, h2] at h; cases h
      | some n =>
        rw [h1, h2] at h
        simp only [Option.bind_some, Option.map_some, Option.some.injEq] at h
        split at h <;> cases h <;> assumption

theorem un_num (op : UnOp) (x : TV PTy MV) : unTV (rt fpu junk) op (wn x) = (unTV (Real.rt fpu) op x).map wn := by
  show ((Real.unT op x.1).map _).bind _ = ((Real.unT op x.1).bind _).map _
  cases Real.unT op x.1 with
  | none => rfl
  | some r => simp only [Option.map_some, Option.bind_some, wn, onNum]; cases r.2 x.2 <;> rfl

theorem binOp_num (op : BinOp) {c : PTy} (hc : c ≠ .other) (x y : MV) : ((rt fpu junk).binOp op c).bind (fun r => (r.2 (.num x) (.num y)).map fun v => (r.1, v)) =
    (((Real.rt fpu).binOp op c).bind fun r => (r.2 x y).map fun v => (r.1, v)).map wn := by
  unfold Rt.binOp
  by_cases h1 : op = .and
  · simp only [h1, if_true]
    by_cases h3 : c = .bit
    · subst h3
      show some (PTy.bit, if (Real.rt fpu).truth x = true then WV.num y else WV.num x) = some (wn (PTy.bit, if (Real.rt fpu).truth x = true then y else x))
      split <;> rfl
    · have e1 : (rt fpu junk).isBit c = false := decide_eq_false h3
      have e2 : (Real.rt fpu).isBit c = false := decide_eq_false h3
      rw [e1, e2]; rfl
  · by_cases h2 : op = .or
    · simp only [h2, if_true]
      by_cases h3 : c = .bit
      · subst h3
        show some (PTy.bit, if (Real.rt fpu).truth x = true then WV.num x else WV.num y) = some (wn (PTy.bit, if (Real.rt fpu).truth x = true then x else y))
        split <;> rfl
      · have e1 : (rt fpu junk).isBit c = false := decide_eq_false h3
        have e2 : (Real.rt fpu).isBit c = false := decide_eq_false h3
        rw [e1, e2]; rfl
    · simp only [h1, h2, if_false]
      show (if c = PTy.view then _ else (Real.binT fpu op c).map _).bind _ = ((Real.binT fpu op c).bind _).map _
      rw [if_neg hc]
      cases Real.binT fpu op c with
      | none => rfl
      | some r => simp only [Option.map_some, Option.bind_some, onNum2]; cases r.2 x y <;> rfl

theorem bin_num (op : BinOp) {x y : TV PTy MV} (hx : x.1 ≠ .other) (hy : y.1 ≠ .other) : binTV (rt fpu junk) op (wn x) (wn y) = (binTV (Real.rt fpu) op x y).map wn := by
  unfold binTV
  simp only [cast_num, meet_same]
  show (meet (Real.rt fpu) x.1 y.1).bind _ = ((meet (Real.rt fpu) x.1 y.1).bind _).map wn
  cases hm : meet (Real.rt fpu) x.1 y.1 with
  | none => rfl
  | some c =>
    simp only [Option.bind_some]
    cases castTV (Real.rt fpu) c x with
    | none => rfl
    | some v => cases castTV (Real.rt fpu) c y with
      | none => rfl
      | some w => exact binOp_num fpu junk op (meet_ne fpu hx hy hm) v w

theorem sel_num (z x y : TV PTy MV) : selTV (rt fpu junk) (wn z) (wn x) (wn y) = (selTV (Real.rt fpu) z x y).map wn := by
  unfold selTV
  simp only [cast_num, meet_same]
  show (if (Real.rt fpu).isBit z.1 = true then (meet (Real.rt fpu) x.1 y.1).bind _ else none) = _
  split
  · show _ = ((meet (Real.rt fpu) x.1 y.1).bind _).map wn
    cases meet (Real.rt fpu) x.1 y.1 with
    | none => rfl
    | some c =>
      simp only [Option.bind_some]
      cases castTV (Real.rt fpu) c x with
      | none => rfl
      | some v => cases castTV (Real.rt fpu) c y with
        | none => rfl
        | some w =>
          simp only [Option.map_some, Option.bind_some, wn]
          show some (c, if (Real.rt fpu).truth z.2 = true then _ else _) = _
          split <;> rfl
  · rfl

theorem nums_wn (xs : List (TV PTy MV)) : nums ((xs.map wn).map (·.2)) = some (xs.map (·.2)) := by
  induction xs with
  | nil => rfl
  | cons x xs ih => simp only [List.map_cons, wn, nums]; simp only [List.map_map] at ih ⊢; rw [ih]; rfl

theorem inl_num (n : Name) (xs : List (TV PTy MV)) : inlTV (rt fpu junk) n (xs.map wn) = (inlTV (Real.rt fpu) n xs).map wn := by
  have e : (xs.map wn).map (·.1) = xs.map (·.1) := by simp [wn]
  unfold inlTV
  rw [nums_wn xs |> fun _ => e]
  show ((Real.inlT fpu n (xs.map (·.1))).map _).bind _ = ((Real.inlT fpu n (xs.map (·.1))).bind _).map _
  cases Real.inlT fpu n (xs.map (·.1)) with
  | none => rfl
  | some r =>
    simp only [Option.map_some, Option.bind_some]
    rw [nums_wn]
    simp only [Option.bind_some]
    cases r.2 (xs.map (·.2)) <;> rfl

/-! ## Types of the operations -/

variable (tenv : Name → Option PTy)

theorem castable_same (a b : PTy) : castable (rt fpu junk) a b = castable (Real.rt fpu) a b := by
  unfold castable
  split
  · rfl
  · show ((Real.castT fpu a b).map _).map _ = (Real.castT fpu a b).map _
    cases Real.castT fpu a b <;> rfl

theorem ty_un (op : UnOp) (a : PTy) : (tySem (rt fpu junk) tenv).un op a = (tySem (Real.rt fpu) tenv).un op a := by
  show ((Real.unT op a).map _).map _ = (Real.unT op a).map _
  cases Real.unT op a <;> rfl

theorem ty_inl (n : Name) (ts : List PTy) : (tySem (rt fpu junk) tenv).inl n ts = (tySem (Real.rt fpu) tenv).inl n ts := by
  show ((Real.inlT fpu n ts).map _).map _ = (Real.inlT fpu n ts).map _
  cases Real.inlT fpu n ts <;> rfl

theorem ty_binOp (op : BinOp) {c : PTy} (hc : c ≠ .other) : ((rt fpu junk).binOp op c).map (·.1) = ((Real.rt fpu).binOp op c).map (·.1) := by
  unfold Rt.binOp
  by_cases h1 : op = .and
  · simp only [h1, if_true]
    have e : (rt fpu junk).isBit c = (Real.rt fpu).isBit c := rfl
    rw [e]
    split <;> rfl
  · by_cases h2 : op = .or
    · simp only [h2, if_true]
      have e : (rt fpu junk).isBit c = (Real.rt fpu).isBit c := rfl
      rw [e]
      split <;> first | (exact absurd ‹BinOp.or = BinOp.and› (by simp)) | (split <;> rfl)
    · simp only [h1, h2, if_false]
      show (if c = PTy.view then _ else (Real.binT fpu op c).map _).map _ = (Real.binT fpu op c).map _
      rw [if_neg hc]
      cases Real.binT fpu op c <;> rfl

theorem ty_bin (op : BinOp) {a b : PTy} (ha : a ≠ .other) (hb : b ≠ .other) : (tySem (rt fpu junk) tenv).bin op a b = (tySem (Real.rt fpu) tenv).bin op a b := by
  show (meet (rt fpu junk) a b).bind _ = (meet (Real.rt fpu) a b).bind _
  rw [meet_same]
  cases hm : meet (Real.rt fpu) a b with
  | none => rfl
  | some c => simp only [Option.bind_some, castable_same, ty_binOp fpu junk op (meet_ne fpu ha hb hm)]

theorem ty_sel (z a b : PTy) : (tySem (rt fpu junk) tenv).sel z a b = (tySem (Real.rt fpu) tenv).sel z a b := by
  show (if (Real.rt fpu).isBit z = true then (meet (rt fpu junk) a b).bind _ else _) = _
  simp only [castable_same, meet_same]
  rfl
end

theorem p_ne (t : Real.Ty) : t.p ≠ .other := by cases t <;> simp [Real.Ty.p]

theorem norm_other (a b : PTy) (h : a = .other ∨ b = .other) : Real.normT a b = none := by
  unfold Real.normT
  rcases h with rfl | rfl
  · rfl
  · cases Real.rank a <;> rfl

theorem meet_other (fpu : Fpu) {a b : PTy} (h : a = .other ∨ b = .other) (hn : a ≠ b) : meet (Real.rt fpu) a b = none := by
  unfold meet
  rw [if_neg hn]
  exact norm_other a b h

/-! ## Method calls in trees -/

def undotT : Tree → Tree
  | .atom o => .atom (undotO o)
  | .un op t => .un op (undotT t)
  | .bin l op r => .bin (undotT l) op (undotT r)
  | .sel c t f => .sel (undotT c) (undotT t) (undotT f)

theorem undot_members : ∀ (ms : Members) (x : Name) (e : Expr), undotM x ms ≠ .paren e
  | .nil, x, e => by rw [undotM]; simp
  | .cons (.method _ _) .nil, x, e => by rw [undotM]; simp
  | .cons (.method _ _) (.cons _ _), x, e => by rw [undotM] <;> simp
  | .cons (.field f) ms, x, e => by rw [undotM]; exact undot_members ms _ e
  | .cons (.key _) _, x, e => by rw [undotM] <;> simp
  | .cons (.index _) _, x, e => by rw [undotM] <;> simp
  | .cons (.ref _) _, x, e => by rw [undotM] <;> simp

theorem undot_access (x : List Char) (ms : Members) : ∃ o, undotO (.access x ms) = o ∧ ∀ e, o ≠ .paren e := by
  refine ⟨_, rfl, fun e => ?_⟩
  rw [undotO]
  exact undot_members ms x e

theorem toTree_atom {o : Operand} (h : ∀ e, o ≠ .paren e) : (Expr.un none o).toTree = .atom o ∧ ∀ op, (Expr.un (some op) o).toTree = .un op (.atom o) := by
  cases o <;> first | exact absurd rfl (h _) | exact ⟨rfl, fun _ => rfl⟩

theorem undot_tree (e : Expr) : (undotE e).toTree = undotT e.toTree := by
  match e with
  | .un none (.paren e) => rw [undotE, undotO, Expr.toTree, Expr.toTree]; exact undot_tree e
  | .un (some op) (.paren e) => rw [undotE, undotO, Expr.toTree, Expr.toTree, undotT, undot_tree e]
  | .bin l op r => rw [undotE, Expr.toTree, Expr.toTree, undotT, undot_tree l, undot_tree r]
  | .sel c t f => rw [undotE, Expr.toTree, Expr.toTree, undotT, undot_tree c, undot_tree t, undot_tree f]
  | .un none (.access x ms) =>
    obtain ⟨o, h1, h2⟩ := undot_access x ms
    rw [undotE, h1, (toTree_atom h2).1, ← h1]; rfl
  | .un (some op) (.access x ms) =>
    obtain ⟨o, h1, h2⟩ := undot_access x ms
    rw [undotE, h1, (toTree_atom h2).2, ← h1]; rfl
  | .un none (.bool _) | .un none (.str _) | .un none (.num _) | .un none (.define _) | .un none (.array _) | .un none (.var _) | .un none (.call _ _) => rfl
  | .un (some op) (.bool _) | .un (some op) (.str _) | .un (some op) (.num _) | .un (some op) (.define _) | .un (some op) (.array _) | .un (some op) (.var _) | .un (some op) (.call _ _) => rfl

/-! ## Paths -/

theorem undot_path {p : Name} {ms : Members} {x : Name} {r : Option (List Char × Exprs)} (h : Path p ms x r) :
    undotO (.access p ms) = match (generalizing := false) r with
      | none => .var x
      | some q => .call ('.' :: q.1) (.cons (.un none (.var x)) (undotEs q.2)) := by
  induction h with
  | here => rw [undotO, undotM]
  | call => rw [undotO, undotM]
  | field _ ih => rw [undotO] at ih; rw [undotO, undotM]; exact ih

theorem undot_names {o : Operand} {x : Name} (h : Names o x) : undotO o = .var x := by
  rcases h with rfl | ⟨p, ms, rfl, h⟩
  · rfl
  · exact undot_path h

theorem var_is {x : Name} {t : Tree} (h : (Ex.var x).Is t) : undotT t = undotT (.atom (.var x)) := by
  obtain ⟨o, rfl, h⟩ := h
  rw [undotT, undot_names h]; rfl

theorem size_is {x : Name} {t : Tree} (h : (Ex.size x).Is t) : undotT t = undotT (.atom (.access x (.cons (.method "size".toList .nil) .nil))) := by
  obtain ⟨p, ms, rfl, h⟩ := h
  rw [undotT, undot_path h, undotT, undot_path .call]

theorem ask_is {m : Ask} {x : Name} {a : Ex} {t : Tree} (h : (Ex.ask m x a).Is t) :
    ∃ e, undotT t = undotT (.atom (.access x (.cons (.method m.name (.cons e .nil)) .nil))) ∧ a.Is e.toTree := by
  obtain ⟨p, ms, e, rfl, h, he⟩ := h
  exact ⟨e, by rw [undotT, undot_path h, undotT, undot_path .call], he⟩

end Verif.Comp.Words
