import Verif.Comp.WordsTypes
/-! # C162: values -/
namespace Verif.Comp.Words
open Verif.Ast Verif.Ast.Rpn Verif.Gen Verif.Gen.Scalar Verif.Types.Conv Verif.Types.Str
open Verif.Comp.Pipeline (Arith Rel decimal bit treeM treeV eager_tree eval_tree)
open Verif.Comp.StrLit (bytes)
open Verif.Comp.Script (Tree.PlainT plain_of_tree arith_plain rel_plain)
open Verif.Comp.Real (Fpu Fn1 Fn2 Suf PTy MV fracText withSuffix Small bind_inv)

/-! ## Trees without assignments -/

theorem plain_undot {e : Expr} (h : Tree.PlainT Real.arity (undotT e.toTree)) : Plain Real.arity (undotE e) := plain_of_tree _ _ (by rw [undot_tree]; exact h)

theorem plain_ex (p : Ex) : ∀ t, p.Is t → Tree.PlainT Real.arity (undotT t) := by
  induction p with
  | text s => rintro t rfl; rw [undotT, undotO, Tree.PlainT, PlainO]; trivial; all_goals simp
  | lit ds s => rintro t rfl; rw [undotT, undotO, Tree.PlainT, PlainO]; trivial; all_goals simp
  | frac ip fp s => rintro t rfl; rw [undotT, undotO, Tree.PlainT, PlainO]; trivial; all_goals simp
  | const b => rintro t rfl; rw [undotT, undotO, Tree.PlainT, PlainO]; trivial; all_goals simp
  | var x => intro t ht; rw [var_is ht, undotT, undotO, Tree.PlainT, PlainO]; trivial; all_goals simp
  | op1 o a ih =>
    rintro t ⟨u, h1, h2⟩
    cases o with
    | neg => cases h1; exact ih u h2
    | not => cases h1; exact ih u h2
    | fn f =>
      obtain ⟨x, rfl, rfl⟩ := h1
      rw [undotT, undotO, undotEs, undotEs, Tree.PlainT, PlainO, PlainEs, PlainEs, Real.arity1]
      exact ⟨⟨plain_undot (ih _ h2), trivial⟩, by simp [Exprs.length]⟩
  | op2 o a b iha ihb =>
    rintro t ⟨u, v, h1, h2, h3⟩
    cases o with
    | arith o => cases h1; exact ⟨iha u h2, (arith_plain o).1, (arith_plain o).2, ihb v h3⟩
    | rel o => cases h1; exact ⟨iha u h2, (rel_plain o).1, (rel_plain o).2, ihb v h3⟩
    | fn f =>
      obtain ⟨x, y, rfl, rfl, rfl⟩ := h1
      rw [undotT, undotO, undotEs, undotEs, undotEs, Tree.PlainT, PlainO, PlainEs, PlainEs, PlainEs, Real.arity2]
      exact ⟨⟨plain_undot (iha _ h2), plain_undot (ihb _ h3), trivial⟩, by simp [Exprs.length]⟩
  | and a b iha ihb => rintro t ⟨u, v, rfl, h1, h2⟩; exact ⟨iha u h1, by decide, rfl, ihb v h2⟩
  | or a b iha ihb => rintro t ⟨u, v, rfl, h1, h2⟩; exact ⟨iha u h1, by decide, rfl, ihb v h2⟩
  | pick c a b ihc iha ihb => rintro t ⟨w, u, v, rfl, h0, h1, h2⟩; exact ⟨ihc w h0, iha u h1, ihb v h2⟩
  | size x =>
    intro t ht
    rw [size_is ht, undotT, undotO, undotM, undotEs, Tree.PlainT, PlainO, PlainEs, PlainEs, Plain, PlainO, arity_size]
    exact ⟨⟨trivial, trivial⟩, by simp⟩
  | ask m x a ih =>
    intro t ht
    obtain ⟨e, ht, h⟩ := ask_is ht
    rw [ht, undotT, undotO, undotM, undotEs, undotEs, Tree.PlainT, PlainO, PlainEs, PlainEs, PlainEs, Plain, PlainO, arity_ask]
    exact ⟨⟨trivial, plain_undot (ih _ h), trivial⟩, by simp⟩

/-! ## Operations on values -/

def Op1.run {V : Type} (R : Rt PTy V Unit) (o : Op1) (a : TV PTy V) : Option (TV PTy V) :=
  match o with
  | .neg => unTV R .neg a
  | .not => unTV R .not a
  | .fn f => inlTV R f.name [a]
def Op2.run {V : Type} (R : Rt PTy V Unit) (o : Op2) (a b : TV PTy V) : Option (TV PTy V) :=
  match o with
  | .arith o => binTV R o.sign a b
  | .rel o => binTV R o.sign a b
  | .fn f => inlTV R f.name [a, b]

section
variable (fpu : Fpu) (junk : Types.Str.Val)

theorem op1_value {o : Op1} {t u : Real.Ty} (h : o.type t = some u) {v : Real.Val} (hv : v.Has t) :
    ∃ w, o.value fpu t v = some w ∧ w.Has u ∧ o.run (rt fpu junk) (t.p, .num v.enc) = some (u.p, .num w.enc) := by
  have e : ∀ τ : PTy, ∀ x : MV, ((τ, WV.num x) : TV PTy WV) = wn (τ, x) := fun _ _ => rfl
  cases o with
  | neg =>
    have h2 : u = t ∧ t ≠ .bool ∧ ∀ i, t = .int i → i.signed = true := by
      cases t with
      | bool => cases h
      | int t =>
        simp only [Op1.type] at h
        split at h
        · next hs => cases h; exact ⟨rfl, by simp, fun i hi => by cases hi; exact hs⟩
        · cases h
      | flt F => cases h; exact ⟨rfl, by simp, fun i hi => by cases hi⟩
    obtain ⟨rfl, h3, h4⟩ := h2
    obtain ⟨w, h5, h6, h7⟩ := Real.neg_run fpu h4 h3 hv
    exact ⟨w, h5, h6, by simp only [Op1.run]; rw [e, un_num, h7]; rfl⟩
  | not =>
    cases t with
    | bool =>
      cases h
      obtain ⟨b, rfl⟩ := Real.has_bool hv
      refine ⟨.bool !b, rfl, trivial, ?_⟩
      simp only [Op1.run]
      exact (un_num fpu junk .not (.bit, (Real.Val.bool b).enc)).trans (by rw [Real.notTV]; rfl)
    | int t => cases h
    | flt F => cases h
  | fn f =>
    simp only [Op1.type] at h
    split at h
    · next hf =>
      cases h
      obtain ⟨w, h1, h2, h3⟩ := Real.fn1TV fpu f hf hv
      exact ⟨w, h1, h2, (inl_num fpu junk f.name [(t.p, v.enc)]).trans (by rw [h3]; rfl)⟩
    · cases h

theorem op2_value {o : Op2} {s t u : Real.Ty} (h : o.type s t = some u) {v w : Real.Val} (hv : v.Has s) (hw : w.Has t) :
    o.run (rt fpu junk) (s.p, .num v.enc) (t.p, .num w.enc) = (o.value fpu s t v w).map (fun z => (u.p, WV.num z.enc)) ∧ ∀ z, o.value fpu s t v w = some z → z.Has u := by
  unfold Op2.type at h
  cases hj : Real.join s t with
  | none => rw [hj] at h; cases h
  | some c =>
    rw [hj, Option.bind_some] at h
    unfold Op2.value
    rw [hj, Option.bind_some]
    have bn : ∀ op, binTV (rt fpu junk) op (s.p, .num v.enc) (t.p, .num w.enc) = (binTV (Real.rt fpu) op (s.p, v.enc) (t.p, w.enc)).map wn := fun op => bin_num fpu junk op (x := (s.p, v.enc)) (y := (t.p, w.enc)) (p_ne s) (p_ne t)
    cases o with
    | arith o =>
      cases h
      obtain ⟨x, y, h3, h4, h5, h6, h7⟩ := Real.arithTV fpu o hj hv hw
      simp only [Op2.run, bn, h7, h3, h4, Option.bind_some, Op2.apply]
      exact ⟨by rw [Option.map_map]; rfl, fun z hz => Real.arith_has fpu o h5 h6 hz⟩
    | rel o =>
      cases h
      obtain ⟨x, y, b, h3, h4, h5, h7⟩ := Real.relTV fpu o hj hv hw
      simp only [Op2.run, bn, h7, h3, h4, Option.bind_some, Op2.apply, h5]
      exact ⟨rfl, fun z hz => by cases hz; trivial⟩
    | fn f =>
      simp only at h
      split at h
      · next hf =>
        cases h
        obtain ⟨x, y, h3, h4, h5, h6, h7⟩ := Real.fn2TV fpu f hj hf hv hw
        simp only [h3, h4, Option.bind_some, Op2.apply]
        refine ⟨(inl_num fpu junk f.name [(s.p, v.enc), (t.p, w.enc)]).trans ?_, fun z hz => Real.fn2_has fpu f h5 h6 hz⟩
        rw [h7, Option.map_map]; rfl
      · cases h

theorem op2_safe {o : Op2} {s t u : Real.Ty} (h : o.type s t = some u) {v w : Real.Val} (hv : v.Has s) (hw : w.Has t)
    (hr : o.Risky → (o.Division ∧ ∃ n : Int, w = .int n ∧ 1 ≤ n ∧ n ≤ 127) ∨ ∃ F, u = .flt F) : ∃ z, o.value fpu s t v w = some z := by
  unfold Op2.type at h
  cases hj : Real.join s t with
  | none => rw [hj] at h; cases h
  | some c =>
    rw [hj, Option.bind_some] at h
    unfold Op2.value
    rw [hj, Option.bind_some]
    cases o with
    | arith o =>
      cases h
      obtain ⟨x, y, h3, h4, h5, h6, _⟩ := Real.arithTV fpu o hj hv hw
      simp only [h3, h4, Option.bind_some, Op2.apply]
      refine Real.arith_safe fpu o (Real.join_number hj).2.2 h5 h6 fun ho => ?_
      rcases hr ho with ⟨_, n, rfl, h7, h8⟩ | hF
      · exact Real.conv_small fpu h7 h8 h4
      · exact .inr hF
    | rel o =>
      obtain ⟨x, y, b, h3, h4, h5, h7⟩ := Real.relTV fpu o hj hv hw
      exact ⟨.bool b, by simp only [h3, h4, Option.bind_some, Op2.apply, h5]⟩
    | fn f =>
      simp only at h
      split at h
      · next hf =>
        cases h
        obtain ⟨x, y, h3, h4, h5, h6, h7⟩ := Real.fn2TV fpu f hj hf hv hw
        simp only [h3, h4, Option.bind_some, Op2.apply]
        refine Real.fn2_safe fpu f hf h5 h6 fun hd => ?_
        rcases hr hd with ⟨h, _⟩ | hF
        · exact h.elim
        · exact hF
      · cases h

theorem op1_treeM (R : Rt PTy WV Unit) (env : Env PTy WV) {o : Op1} {t u : Tree} (h : o.Is t u) :
    treeM R Real.arity env (undotT t) = (treeM R Real.arity env (undotT u)).andThen fun a => M.lift (o.run R a) := by
  cases o with
  | neg => cases h; rfl
  | not => cases h; rfl
  | fn f =>
    obtain ⟨x, rfl, rfl⟩ := h
    rw [undotT, undotO, undotEs, undotEs]
    funext w
    simp only [treeM, eagerO, eagerEs, Real.arity1, eager_tree, undot_tree]
    simp only [M.andThen]
    cases treeM R Real.arity env (undotT x.toTree) w <;> rfl

theorem op2_treeM (R : Rt PTy WV Unit) (env : Env PTy WV) {o : Op2} {t u v : Tree} (h : o.Is t u v) :
    treeM R Real.arity env (undotT t) = (treeM R Real.arity env (undotT u)).andThen fun a => (treeM R Real.arity env (undotT v)).andThen fun b => M.lift (o.run R a b) := by
  cases o with
  | arith o => cases h; rfl
  | rel o => cases h; rfl
  | fn f =>
    obtain ⟨x, y, rfl, rfl, rfl⟩ := h
    rw [undotT, undotO, undotEs, undotEs, undotEs]
    funext w
    simp only [treeM, eagerO, eagerEs, Real.arity2, eager_tree, undot_tree]
    simp only [M.andThen]
    cases treeM R Real.arity env (undotT x.toTree) w with
    | none => rfl
    | some r => simp only [Option.bind_some]; cases treeM R Real.arity env (undotT y.toTree) r.1 <;> rfl

theorem size_treeM (R : Rt PTy WV Unit) (env : Env PTy WV) (x : Name) {s : TV PTy WV} (hx : env x = some s) :
    treeM R Real.arity env (undotT (.atom (.access x (.cons (.method "size".toList .nil) .nil)))) = callTV R ('.' :: "size".toList) [s] := by
  rw [undotT, undotO, undotM, undotEs]
  funext w
  simp only [treeM, eagerO, eagerEs, eagerE, arity_size, hx, M.andThen, M.lift, M.ret, Option.map_some, Option.bind_some]

theorem ask_treeM (R : Rt PTy WV Unit) (env : Env PTy WV) (m : Ask) (x : Name) (e : Expr) {s : TV PTy WV} (hx : env x = some s) :
    treeM R Real.arity env (undotT (.atom (.access x (.cons (.method m.name (.cons e .nil)) .nil)))) =
      (treeM R Real.arity env (undotT e.toTree)).andThen fun p => callTV R ('.' :: m.name) [s, p] := by
  rw [undotT, undotO, undotM, undotEs, undotEs]
  funext w
  simp only [treeM, eagerO, eagerEs, eagerE, arity_ask, hx, M.andThen, M.lift, M.ret, Option.map_some, Option.bind_some, eager_tree, undot_tree]
  cases treeM R Real.arity env (undotT e.toTree) w <;> rfl

theorem cast_self (x : TV PTy WV) : castTV (rt fpu junk) x.1 x = some x.2 := if_pos rfl

theorem rel_views (r : Rel) (j1 j2 : Types.Str.Val) {a b : List Byte} (ha : a.length < 2 ^ 31) (hb : b.length < 2 ^ 31) :
    binTV (rt fpu junk) r.sign (.other, .str (SV.mk' j1 a)) (.other, .str (SV.mk' j2 b)) = some (.bit, .num (.word (bit (relStr r a b)))) := by
  obtain ⟨o, h1, h2⟩ := cmp_sign r
  unfold binTV
  dsimp only
  rw [meet_self, Option.bind_some, cast_self fpu junk (.other, .str (SV.mk' j1 a)), Option.bind_some, cast_self fpu junk (.other, .str (SV.mk' j2 b)), Option.bind_some, binOp_cmp fpu junk r h1, Option.bind_some]
  simp only [viewCmp, string_ops_lex o j1 j2 a b ha hb, Option.map_some, h2]

theorem sel_same (z : Bool) (x y : TV PTy WV) (h : x.1 = y.1) : selTV (rt fpu junk) (.bit, .num (Real.Val.bool z).enc) x y = some (x.1, if z = true then x.2 else y.2) := by
  unfold selTV
  rw [if_pos (show (rt fpu junk).isBit .bit = true from rfl), ← h, meet_self, Option.bind_some, cast_self, Option.bind_some]
  rw [show castTV (rt fpu junk) x.1 y = some y.2 from by rw [h]; exact cast_self fpu junk y]
  cases z <;> rfl

theorem and_words (a b : Bool) : binTV (rt fpu junk) .and (.bit, .num (Real.Val.bool a).enc) (.bit, .num (Real.Val.bool b).enc) = some (.bit, .num (Real.Val.bool (a && b)).enc) := by cases a <;> cases b <;> rfl
theorem or_words (a b : Bool) : binTV (rt fpu junk) .or (.bit, .num (Real.Val.bool a).enc) (.bit, .num (Real.Val.bool b).enc) = some (.bit, .num (Real.Val.bool (a || b)).enc) := by cases a <;> cases b <;> rfl

theorem call_size (j : Types.Str.Val) {b : List Byte} (hb : b.length < 2 ^ 31) :
    callTV (rt fpu junk) ('.' :: "size".toList) [(.other, .str (SV.mk' j b))] = M.lift (some (.int .u64, .num (.word b.length))) := by
  funext w
  unfold callTV
  rw [show (rt fpu junk).fn ('.' :: "size".toList) = some ([.other], .int .u64, sizeFn) from method_size, Option.bind_some]
  simp only [castsTV, cast_self fpu junk (.other, _), Option.bind_some, Option.map_some, sizeFn, size_toNat j b (by omega)]
  rfl

theorem call_ask (m : Ask) (j1 j2 : Types.Str.Val) {a b : List Byte} (ha : a.length < 2 ^ 31) (hb : b.length < 2 ^ 31) :
    callTV (rt fpu junk) ('.' :: m.name) [(.other, .str (SV.mk' j1 a)), (.other, .str (SV.mk' j2 b))] = M.lift (some (.bit, .num (.word (bit (m.ans a b))))) := by
  funext w
  unfold callTV
  rw [show (rt fpu junk).fn ('.' :: m.name) = some ([.other, .other], .bit, askFn m.fn) from method_ask m, Option.bind_some]
  simp only [castsTV, cast_self fpu junk (.other, _), Option.bind_some, Option.map_some, askFn, view_bytes j1 a ha, view_bytes j2 b hb, ask_ans]
  rfl
end

/-! ## Types, inverted -/

theorem type_op1 {Γ : Types} {o : Op1} {a : Ex} {τ : Ty} (h : (Ex.op1 o a).type Γ = some τ) : ∃ t u, τ = .num u ∧ a.type Γ = some (.num t) ∧ o.type t = some u := by
  rw [Ex.type] at h
  obtain ⟨s, h1, h2⟩ := bind_inv h
  cases s with
  | str => cases h2
  | num t =>
    cases hu : o.type t with
    | none => simp [hu] at h2
    | some u => simp only [hu, Option.map_some, Option.some.injEq] at h2; exact ⟨t, u, h2.symm, h1, hu⟩

theorem type_op2 {Γ : Types} {o : Op2} {a b : Ex} {τ : Ty} (h : (Ex.op2 o a b).type Γ = some τ) :
    (∃ s t u, τ = .num u ∧ a.type Γ = some (.num s) ∧ b.type Γ = some (.num t) ∧ o.type s t = some u) ∨
    ∃ r, o = .rel r ∧ τ = .num .bool ∧ a.type Γ = some .str ∧ b.type Γ = some .str := by
  rw [Ex.type] at h
  obtain ⟨σ, h1, h⟩ := bind_inv h
  obtain ⟨ρ, h2, h⟩ := bind_inv h
  cases σ with
  | num s => cases ρ with
    | str => cases h
    | num t =>
      simp only [op2Type] at h
      cases hu : o.type s t with
      | none => simp [hu] at h
      | some u => simp only [hu, Option.map_some, Option.some.injEq] at h; exact .inl ⟨s, t, u, h.symm, h1, h2, hu⟩
  | str => cases ρ with
    | num t => cases h
    | str => cases o with
      | rel r => cases h; exact .inr ⟨r, rfl, rfl, h1, h2⟩
      | arith _ => cases h
      | fn _ => cases h

theorem type_logic {Γ : Types} {a b : Ex} {τ : Ty} (h : ((a.type Γ).bind fun s => (b.type Γ).bind fun t => if s = .num .bool ∧ t = .num .bool then some (Ty.num .bool) else none) = some τ) :
    τ = .num .bool ∧ a.type Γ = some (.num .bool) ∧ b.type Γ = some (.num .bool) := by
  obtain ⟨σ, h1, h'⟩ := bind_inv h
  obtain ⟨ρ, h2, h''⟩ := bind_inv h'
  clear h h'
  split at h''
  · next hc => obtain ⟨rfl, rfl⟩ := hc; cases h''; exact ⟨rfl, h1, h2⟩
  · cases h''

theorem type_pick {Γ : Types} {c a b : Ex} {τ : Ty} (h : (Ex.pick c a b).type Γ = some τ) (hv : (Ex.pick c a b).Even Γ) : c.type Γ = some (.num .bool) ∧ a.type Γ = some τ ∧ b.type Γ = some τ := by
  rw [Ex.type] at h
  obtain ⟨ρ, h0, h⟩ := bind_inv h
  obtain ⟨s, h1, h⟩ := bind_inv h
  obtain ⟨t, h2, h⟩ := bind_inv h
  split at h
  · next hr =>
    subst hr
    have he := hv.2.2.2
    rw [h1, h2] at he
    have hst : s = t := by
      rcases he with he | he | he | he | he
      · exact Option.some.inj he
      · cases he
      · cases he
      · cases he; cases t with
        | str => rfl
        | num t => cases h
      · cases he; cases s with
        | str => rfl
        | num s => simp [pickType] at h
    subst hst
    rw [pick_self] at h
    cases h
    exact ⟨h0, h1, h2⟩
  · cases h

theorem has_num {v : Val} {t : Real.Ty} (h : v.Has (.num t)) : ∃ x, v = .num x ∧ x.Has t := by cases v <;> simp [Val.Has] at h; exact ⟨_, rfl, h⟩
theorem has_str {v : Val} (h : v.Has .str) : ∃ b, v = .str b ∧ b.length < 2 ^ 31 := by cases v <;> simp [Val.Has] at h; exact ⟨_, rfl, h⟩
theorem has_bool {v : Val} (h : v.Has (.num .bool)) : ∃ b, v = .num (.bool b) := by
  obtain ⟨x, rfl, h⟩ := has_num h
  obtain ⟨b, rfl⟩ := Real.has_bool h
  exact ⟨b, rfl⟩

theorem conv_self (fpu : Fpu) {τ : Ty} {v : Val} (h : v.Has τ) : conv fpu τ v = some v := by
  cases τ with
  | str => obtain ⟨b, rfl, _⟩ := has_str h; rfl
  | num t =>
    obtain ⟨x, rfl, h⟩ := has_num h
    cases t with
    | bool => obtain ⟨b, rfl⟩ := Real.has_bool h; rfl
    | int t => obtain ⟨z, rfl, hz⟩ := Real.has_int h; simp only [conv, Real.conv, Option.map_some, Pipeline.wrap_self hz]
    | flt F => obtain ⟨y, rfl⟩ := Real.has_flt h; simp only [conv, Real.conv, Option.map_some, fpu.resize_same]

/-! ## Values have their types -/

def ArgsOk (Γ : Types) (ρ : Store) : Prop := ∀ x τ, Γ x = some τ → ∃ v, ρ x = some v ∧ v.Has τ

theorem has_ex (fpu : Fpu) {Γ : Types} {ρ : Store} (ha : ArgsOk Γ ρ) (p : Ex) (hl : p.Lits fpu) (he : p.Even Γ) : ∀ τ v, p.type Γ = some τ → p.value fpu Γ ρ = some v → v.Has τ := by
  induction p with
  | text s =>
    intro τ v ht hv
    cases ht; cases hv
    show (bytes s).length < 2 ^ 31
    unfold bytes
    rw [List.length_map]
    exact hl.2.2
  | lit ds s =>
    intro τ v ht hv
    obtain ⟨σ, w, h1, h2, h3, _⟩ := Real.constant_lit fpu (fun _ => none) (fun _ => none) ds s hl
    rw [Ex.type, h1] at ht; rw [Ex.value, h2] at hv; cases ht; cases hv; exact h3
  | frac ip fp s =>
    intro τ v ht hv
    obtain ⟨σ, w, h1, h2, h3, _⟩ := Real.constant_frac fpu (fun _ => none) (fun _ => none) ip fp s hl
    rw [Ex.type, h1] at ht; rw [Ex.value, h2] at hv; cases ht; cases hv; exact h3
  | const b => intro τ v ht hv; cases ht; cases hv; trivial
  | var x =>
    intro τ v ht hv
    obtain ⟨w, h1, h2⟩ := ha x τ ht
    have : ρ x = some v := hv
    rw [h1] at this; cases this; exact h2
  | op1 o a ih =>
    intro τ v ht hv
    obtain ⟨t, u, rfl, h1, h2⟩ := type_op1 ht
    rw [Ex.value, h1, Option.bind_some] at hv
    obtain ⟨w, h4, h5⟩ := bind_inv hv
    obtain ⟨x, rfl, hx⟩ := has_num (ih hl he _ w h1 h4)
    obtain ⟨z, h6, h7, _⟩ := op1_value fpu (.ptr []) h2 hx
    simp only [h6, Option.map_some] at h5
    cases h5; exact h7
  | op2 o a b iha ihb =>
    intro τ v ht hv
    rcases type_op2 ht with ⟨s, t, u, rfl, h1, h2, h3⟩ | ⟨r, rfl, rfl, h1, h2⟩
    · rw [Ex.value, h1, h2, Option.bind_some, Option.bind_some] at hv
      obtain ⟨x, hx, hv⟩ := bind_inv hv
      obtain ⟨y, hy, hv⟩ := bind_inv hv
      obtain ⟨x', rfl, hx'⟩ := has_num (iha hl.1 he.1 _ x h1 hx)
      obtain ⟨y', rfl, hy'⟩ := has_num (ihb hl.2 he.2 _ y h2 hy)
      simp only [op2Value] at hv
      cases hz : o.value fpu s t x' y' with
      | none => rw [hz] at hv; cases hv
      | some z => rw [hz] at hv; cases hv; exact (op2_value fpu (.ptr []) h3 hx' hy').2 z hz
    · rw [Ex.value, h1, h2, Option.bind_some, Option.bind_some] at hv
      obtain ⟨x, hx, hv⟩ := bind_inv hv
      obtain ⟨y, hy, hv⟩ := bind_inv hv
      obtain ⟨x', rfl, hx'⟩ := has_str (iha hl.1 he.1 _ x h1 hx)
      obtain ⟨y', rfl, hy'⟩ := has_str (ihb hl.2 he.2 _ y h2 hy)
      cases hv; trivial
  | and a b iha ihb =>
    intro τ v ht hv
    obtain ⟨rfl, h1, h2⟩ := type_logic (by rw [Ex.type] at ht; exact ht)
    rw [Ex.value] at hv
    obtain ⟨x, hx, hv⟩ := bind_inv hv
    split at hv
    · exact ihb hl.2 he.2 _ v h2 hv
    · cases hv; trivial
    · cases hv
  | or a b iha ihb =>
    intro τ v ht hv
    obtain ⟨rfl, h1, h2⟩ := type_logic (by rw [Ex.type] at ht; exact ht)
    rw [Ex.value] at hv
    obtain ⟨x, hx, hv⟩ := bind_inv hv
    split at hv
    · cases hv; trivial
    · exact ihb hl.2 he.2 _ v h2 hv
    · cases hv
  | pick c a b ihc iha ihb =>
    intro τ v ht hv
    obtain ⟨h0, h1, h2⟩ := type_pick ht he
    rw [Ex.value, ht, Option.bind_some] at hv
    obtain ⟨z, hz, hv⟩ := bind_inv hv
    split at hv
    · obtain ⟨x, hx, hv⟩ := bind_inv hv
      have := iha hl.2.1 he.2.1 _ x h1 hx
      rw [conv_self fpu this] at hv; cases hv; exact this
    · obtain ⟨x, hx, hv⟩ := bind_inv hv
      have := ihb hl.2.2 he.2.2.1 _ x h2 hx
      rw [conv_self fpu this] at hv; cases hv; exact this
    · cases hv
  | size x =>
    intro τ v ht hv
    rw [Ex.type] at ht
    split at ht
    · next hx =>
      cases ht
      obtain ⟨w, h1, h2⟩ := ha x _ hx
      obtain ⟨b, rfl, hb⟩ := has_str h2
      rw [Ex.value, h1] at hv
      cases hv
      show IntOps.Fits .u64 (b.length : Int)
      exact ⟨by simp [IntOps.lo, IntTy.signed], by simp [IntOps.hi, IntTy.signed, IntTy.bits]; omega⟩
    · cases ht
  | ask m x a ih =>
    intro τ v ht hv
    rw [Ex.type] at ht
    split at ht
    · next hx =>
      cases ht
      obtain ⟨w, h1, h2⟩ := ha x _ hx.1
      obtain ⟨b, rfl, hb⟩ := has_str h2
      rw [Ex.value, h1, Option.bind_some] at hv
      obtain ⟨y, hy, hv⟩ := bind_inv hv
      obtain ⟨y', rfl, hy'⟩ := has_str (ih hl he _ y hx.2 hy)
      cases hv; trivial
    · cases ht

/-! ## Safe expressions have values -/

theorem safe_guarded (Γ : Types) (p : Ex) (h : p.Safe Γ) : p.Guarded Γ := by
  induction p with
  | text _ | lit _ _ | frac _ _ _ | const _ | var _ | size _ => trivial
  | op1 o a ih => exact ih h
  | op2 o a b iha ihb => exact ⟨iha h.1, ihb h.2.1⟩
  | and a b iha ihb => exact ⟨iha h.1, h.2⟩
  | or a b iha ihb => exact ⟨iha h.1, h.2⟩
  | pick c a b ihc iha ihb => exact ⟨ihc h.1, h.2⟩
  | ask m x a ih => exact ih h

theorem small_value (fpu : Fpu) {Γ : Types} {ρ : Store} {b : Ex} (h : b.SmallDivisor) : ∃ n : Int, b.value fpu Γ ρ = some (.num (.int n)) ∧ 1 ≤ n ∧ n ≤ 127 := by
  unfold Ex.SmallDivisor at h
  split at h
  · exact ⟨_, by rw [Ex.value, Real.Ex.value]; rfl, by omega, by omega⟩
  · next ds t =>
    exact ⟨_, by rw [Ex.value, Real.Ex.value]; rfl, by rw [Pipeline.wrap_self (Pipeline.small_fits t _ (by omega) (by omega))]; omega,
      by rw [Pipeline.wrap_self (Pipeline.small_fits t _ (by omega) (by omega))]; omega⟩
  · exact h.elim

theorem safe_ex (fpu : Fpu) {Γ : Types} {ρ : Store} (ha : ArgsOk Γ ρ) (p : Ex) (hl : p.Lits fpu) (he : p.Even Γ) (hs : p.Safe Γ) : ∀ τ, p.type Γ = some τ → ∃ v, p.value fpu Γ ρ = some v := by
  induction p with
  | text s => intro τ _; exact ⟨_, rfl⟩
  | lit ds s => intro τ _; obtain ⟨_, w, _, h2, _⟩ := Real.constant_lit fpu (fun _ => none) (fun _ => none) ds s hl; exact ⟨.num w, by rw [Ex.value, h2]; rfl⟩
  | frac ip fp s => intro τ _; obtain ⟨_, w, _, h2, _⟩ := Real.constant_frac fpu (fun _ => none) (fun _ => none) ip fp s hl; exact ⟨.num w, by rw [Ex.value, h2]; rfl⟩
  | const b => intro τ _; exact ⟨_, rfl⟩
  | var x => intro τ ht; obtain ⟨w, h1, _⟩ := ha x τ ht; exact ⟨w, h1⟩
  | op1 o a ih =>
    intro τ ht
    obtain ⟨t, u, rfl, h1, h2⟩ := type_op1 ht
    obtain ⟨v, hv⟩ := ih hl he hs _ h1
    obtain ⟨x, rfl, hx⟩ := has_num (has_ex fpu ha a hl he _ v h1 hv)
    obtain ⟨z, h6, _⟩ := op1_value fpu (.ptr []) h2 hx
    exact ⟨.num z, by rw [Ex.value, h1, Option.bind_some, hv, Option.bind_some]; simp only [h6, Option.map_some]⟩
  | op2 o a b iha ihb =>
    intro τ ht
    rcases type_op2 ht with ⟨s, t, u, rfl, h1, h2, h3⟩ | ⟨r, rfl, rfl, h1, h2⟩
    · obtain ⟨v, hv⟩ := iha hl.1 he.1 hs.1 _ h1
      obtain ⟨w, hw⟩ := ihb hl.2 he.2 hs.2.1 _ h2
      obtain ⟨x, rfl, hx⟩ := has_num (has_ex fpu ha a hl.1 he.1 _ v h1 hv)
      obtain ⟨y, rfl, hy⟩ := has_num (has_ex fpu ha b hl.2 he.2 _ w h2 hw)
      obtain ⟨z, hz⟩ := op2_safe fpu h3 hx hy fun hr => by
        rcases hs.2.2 hr with ⟨hd, hd'⟩ | ⟨F, hF⟩
        · obtain ⟨n, hn, h7, h8⟩ := small_value fpu (Γ := Γ) (ρ := ρ) hd'
          rw [hw] at hn; cases hn
          exact .inl ⟨hd, n, rfl, h7, h8⟩
        · rw [ht] at hF; cases hF; exact .inr ⟨F, rfl⟩
      exact ⟨.num z, by rw [Ex.value, h1, h2, Option.bind_some, Option.bind_some, hv, Option.bind_some, hw, Option.bind_some]; simp only [op2Value, hz, Option.map_some]⟩
    · obtain ⟨v, hv⟩ := iha hl.1 he.1 hs.1 _ h1
      obtain ⟨w, hw⟩ := ihb hl.2 he.2 hs.2.1 _ h2
      obtain ⟨x, rfl, hx⟩ := has_str (has_ex fpu ha a hl.1 he.1 _ v h1 hv)
      obtain ⟨y, rfl, hy⟩ := has_str (has_ex fpu ha b hl.2 he.2 _ w h2 hw)
      exact ⟨.num (.bool (relStr r x y)), by rw [Ex.value, h1, h2, Option.bind_some, Option.bind_some, hv, Option.bind_some, hw, Option.bind_some]; rfl⟩
  | and a b iha ihb =>
    intro τ ht
    obtain ⟨rfl, h1, h2⟩ := type_logic (by rw [Ex.type] at ht; exact ht)
    obtain ⟨v, hv⟩ := iha hl.1 he.1 hs.1 _ h1
    obtain ⟨w, hw⟩ := ihb hl.2 he.2 hs.2 _ h2
    obtain ⟨z, rfl⟩ := has_bool (has_ex fpu ha a hl.1 he.1 _ v h1 hv)
    rw [Ex.value, hv]
    cases z
    · exact ⟨_, rfl⟩
    · exact ⟨w, hw⟩
  | or a b iha ihb =>
    intro τ ht
    obtain ⟨rfl, h1, h2⟩ := type_logic (by rw [Ex.type] at ht; exact ht)
    obtain ⟨v, hv⟩ := iha hl.1 he.1 hs.1 _ h1
    obtain ⟨w, hw⟩ := ihb hl.2 he.2 hs.2 _ h2
    obtain ⟨z, rfl⟩ := has_bool (has_ex fpu ha a hl.1 he.1 _ v h1 hv)
    rw [Ex.value, hv]
    cases z
    · exact ⟨w, hw⟩
    · exact ⟨_, rfl⟩
  | pick c a b ihc iha ihb =>
    intro τ ht
    obtain ⟨h0, h1, h2⟩ := type_pick ht he
    obtain ⟨u, hu⟩ := ihc hl.1 he.1 hs.1 _ h0
    obtain ⟨v, hv⟩ := iha hl.2.1 he.2.1 hs.2.1 _ h1
    obtain ⟨w, hw⟩ := ihb hl.2.2 he.2.2.1 hs.2.2 _ h2
    obtain ⟨z, rfl⟩ := has_bool (has_ex fpu ha c hl.1 he.1 _ u h0 hu)
    rw [Ex.value, ht, Option.bind_some, hu, Option.bind_some]
    cases z
    · exact ⟨w, by simp only [hw, Option.bind_some]; exact conv_self fpu (has_ex fpu ha b hl.2.2 he.2.2.1 _ w h2 hw)⟩
    · exact ⟨v, by simp only [hv, Option.bind_some]; exact conv_self fpu (has_ex fpu ha a hl.2.1 he.2.1 _ v h1 hv)⟩
  | size x =>
    intro τ ht
    rw [Ex.type] at ht
    split at ht
    · next hx =>
      obtain ⟨w, h1, h2⟩ := ha x _ hx
      obtain ⟨b, rfl, hb⟩ := has_str h2
      exact ⟨_, by rw [Ex.value, h1]; rfl⟩
    · cases ht
  | ask m x a ih =>
    intro τ ht
    rw [Ex.type] at ht
    split at ht
    · next hx =>
      obtain ⟨w, h1, h2⟩ := ha x _ hx.1
      obtain ⟨b, rfl, hb⟩ := has_str h2
      obtain ⟨y, hy⟩ := ih hl he hs _ hx.2
      obtain ⟨y', rfl, hy'⟩ := has_str (has_ex fpu ha a hl he _ y hx.2 hy)
      exact ⟨_, by rw [Ex.value, h1, hy]; rfl⟩
    · cases ht

/-! ## The compiled code computes the value -/

/-- The code sees the arguments as the specification does. -/
def EnvOk (Γ : Types) (ρ : Store) (env : Env PTy WV) : Prop := ∀ x τ v, Γ x = some τ → ρ x = some v → ∃ w, env x = some (τ.p, w) ∧ Rep v w

def Agrees (τ : Ty) (o : Option Val) (m : Option (TV PTy WV)) : Prop :=
  match o with
  | none => m = none
  | some v => ∃ w, m = some (τ.p, w) ∧ Rep v w

theorem rep_num {v : Real.Val} {w : WV} (h : Rep (.num v) w) : w = .num v.enc := by cases w <;> simp [Rep] at h; rw [h]
theorem rep_str {b : List Byte} {w : WV} (h : Rep (.str b) w) : ∃ j, w = .str (SV.mk' j b) := by
  cases w with
  | num v => exact h.elim
  | str s => obtain ⟨j, h⟩ := h; exact ⟨j, by rw [h]⟩

theorem value_ex (fpu : Fpu) (junk : Types.Str.Val) {Γ : Types} {ρ : Store} (ha : ArgsOk Γ ρ) {env : Env PTy WV} (hr : EnvOk Γ ρ env) (p : Ex) (hl : p.Lits fpu) (he : p.Even Γ) (hg : p.Guarded Γ) :
    ∀ τ t, p.type Γ = some τ → p.Is t → ∃ m, treeM (rt fpu junk) Real.arity env (undotT t) = M.lift m ∧ Agrees τ (p.value fpu Γ ρ) m := by
  induction p with
  | text s => rintro τ t ht rfl; cases ht; exact ⟨_, rfl, .str _, rfl, junk, rfl⟩
  | lit ds s =>
    rintro τ t ht rfl
    obtain ⟨σ, w, h1, h2, h3, h4⟩ := Real.constant_lit fpu (fun _ => none) (fun _ => none) ds s hl
    rw [Ex.type, h1] at ht; cases ht
    refine ⟨(Real.constant fpu (withSuffix ds s)).map fun x => (x.1, .num x.2), rfl, ?_⟩
    rw [Ex.value, h2, h4]
    exact ⟨.num _, rfl, rfl⟩
  | frac ip fp s =>
    rintro τ t ht rfl
    obtain ⟨σ, w, h1, h2, h3, h4⟩ := Real.constant_frac fpu (fun _ => none) (fun _ => none) ip fp s hl
    rw [Ex.type, h1] at ht; cases ht
    refine ⟨(Real.constant fpu (withSuffix (fracText ip fp) s)).map fun x => (x.1, .num x.2), rfl, ?_⟩
    rw [Ex.value, h2, h4]
    exact ⟨.num _, rfl, rfl⟩
  | const b => rintro τ t ht rfl; cases ht; exact ⟨_, rfl, .num _, rfl, rfl⟩
  | var x =>
    intro τ t ht hx
    rw [var_is hx]
    obtain ⟨v, h1, h2⟩ := ha x τ ht
    obtain ⟨w, h3, h4⟩ := hr x τ v ht h1
    refine ⟨some (τ.p, w), by rw [← h3]; rfl, ?_⟩
    rw [Ex.value, h1]
    exact ⟨w, rfl, h4⟩
  | op1 o a ih =>
    rintro τ t ht ⟨u, h1, h2⟩
    obtain ⟨t, v, rfl, h3, h4⟩ := type_op1 ht
    obtain ⟨m, hm, hA⟩ := ih hl he hg _ u h3 h2
    rw [op1_treeM _ _ h1, hm, Ex.value, h3, Option.bind_some]
    cases hv : a.value fpu Γ ρ with
    | none => rw [hv] at hA; rw [show m = none from hA]; exact ⟨none, rfl, rfl⟩
    | some x =>
      rw [hv] at hA
      obtain ⟨w, rfl, hw⟩ := hA
      obtain ⟨x', rfl, hx'⟩ := has_num (has_ex fpu ha a hl he _ x h3 hv)
      rw [rep_num hw]
      obtain ⟨z, h6, h7, h8⟩ := op1_value fpu junk h4 hx'
      refine ⟨some (v.p, .num z.enc), ?_, ?_⟩
      · rw [M.lift_some]; exact congrArg M.lift h8
      · simp only [Option.bind_some, h6, Option.map_some]
        exact ⟨.num _, rfl, rfl⟩
  | op2 o a b iha ihb =>
    rintro τ t ht ⟨u, v, h0, h1, h2⟩
    rcases type_op2 ht with ⟨s, r, q, rfl, h3, h4, h5⟩ | ⟨r, rfl, rfl, h3, h4⟩
    · obtain ⟨m, hm, hA⟩ := iha hl.1 he.1 hg.1 _ u h3 h1
      obtain ⟨n, hn, hB⟩ := ihb hl.2 he.2 hg.2 _ v h4 h2
      rw [op2_treeM _ _ h0, hm, hn, Ex.value, h3, h4, Option.bind_some, Option.bind_some]
      cases hx : a.value fpu Γ ρ with
      | none => rw [hx] at hA; rw [show m = none from hA]; exact ⟨none, rfl, rfl⟩
      | some x =>
        rw [hx] at hA
        obtain ⟨x1, rfl, hx1⟩ := hA
        cases hy : b.value fpu Γ ρ with
        | none => rw [hy] at hB; rw [show n = none from hB]; exact ⟨none, rfl, rfl⟩
        | some y =>
          rw [hy] at hB
          obtain ⟨y1, rfl, hy1⟩ := hB
          obtain ⟨x', rfl, hx'⟩ := has_num (has_ex fpu ha a hl.1 he.1 _ x h3 hx)
          obtain ⟨y', rfl, hy'⟩ := has_num (has_ex fpu ha b hl.2 he.2 _ y h4 hy)
          rw [rep_num hx1, rep_num hy1]
          refine ⟨_, by rw [M.lift_some, M.lift_some, show o.run (rt fpu junk) ((Ty.num s).p, WV.num x'.enc) ((Ty.num r).p, WV.num y'.enc) = _ from (op2_value fpu junk h5 hx' hy').1], ?_⟩
          simp only [Option.bind_some, op2Value]
          cases o.value fpu s r x' y' with
          | none => rfl
          | some z => exact ⟨.num _, rfl, rfl⟩
    · obtain ⟨m, hm, hA⟩ := iha hl.1 he.1 hg.1 _ u h3 h1
      obtain ⟨n, hn, hB⟩ := ihb hl.2 he.2 hg.2 _ v h4 h2
      rw [op2_treeM _ _ h0, hm, hn, Ex.value, h3, h4, Option.bind_some, Option.bind_some]
      cases hx : a.value fpu Γ ρ with
      | none => rw [hx] at hA; rw [show m = none from hA]; exact ⟨none, rfl, rfl⟩
      | some x =>
        rw [hx] at hA
        obtain ⟨x1, rfl, hx1⟩ := hA
        cases hy : b.value fpu Γ ρ with
        | none => rw [hy] at hB; rw [show n = none from hB]; exact ⟨none, rfl, rfl⟩
        | some y =>
          rw [hy] at hB
          obtain ⟨y1, rfl, hy1⟩ := hB
          obtain ⟨x', rfl, hx'⟩ := has_str (has_ex fpu ha a hl.1 he.1 _ x h3 hx)
          obtain ⟨y', rfl, hy'⟩ := has_str (has_ex fpu ha b hl.2 he.2 _ y h4 hy)
          obtain ⟨j1, rfl⟩ := rep_str hx1
          obtain ⟨j2, rfl⟩ := rep_str hy1
          refine ⟨some (.bit, .num (.word (bit (relStr r x' y')))), (by rw [M.lift_some, M.lift_some]; exact congrArg M.lift (rel_views fpu junk r j1 j2 hx' hy')), ?_⟩
          exact ⟨.num _, rfl, rfl⟩
  | and a b iha ihb =>
    rintro τ t ht ⟨u, v, rfl, h1, h2⟩
    obtain ⟨rfl, h3, h4⟩ := type_logic (by rw [Ex.type] at ht; exact ht)
    obtain ⟨m, hm, hA⟩ := iha hl.1 he.1 hg.1 _ u h3 h1
    obtain ⟨n, hn, hB⟩ := ihb hl.2 he.2 (safe_guarded Γ b hg.2) _ v h4 h2
    obtain ⟨y, hy⟩ := safe_ex fpu ha b hl.2 he.2 hg.2 _ h4
    obtain ⟨y, rfl⟩ := has_bool (has_ex fpu ha b hl.2 he.2 _ y h4 hy)
    rw [hy] at hB
    obtain ⟨y1, rfl, hy1⟩ := hB
    rw [rep_num hy1] at hn
    rw [undotT, treeM, hm, hn, Ex.value, hy]
    cases hx : a.value fpu Γ ρ with
    | none => rw [hx] at hA; rw [show m = none from hA]; exact ⟨none, rfl, rfl⟩
    | some x =>
      obtain ⟨x, rfl⟩ := has_bool (has_ex fpu ha a hl.1 he.1 _ x h3 hx)
      rw [hx] at hA
      obtain ⟨x1, rfl, hx1⟩ := hA
      rw [rep_num hx1]
      refine ⟨some (.bit, .num (Real.Val.bool (x && y)).enc), by rw [M.lift_some, M.lift_some]; exact congrArg M.lift (and_words fpu junk x y), ?_⟩
      cases x <;> exact ⟨.num _, rfl, rfl⟩
  | or a b iha ihb =>
    rintro τ t ht ⟨u, v, rfl, h1, h2⟩
    obtain ⟨rfl, h3, h4⟩ := type_logic (by rw [Ex.type] at ht; exact ht)
    obtain ⟨m, hm, hA⟩ := iha hl.1 he.1 hg.1 _ u h3 h1
    obtain ⟨n, hn, hB⟩ := ihb hl.2 he.2 (safe_guarded Γ b hg.2) _ v h4 h2
    obtain ⟨y, hy⟩ := safe_ex fpu ha b hl.2 he.2 hg.2 _ h4
    obtain ⟨y, rfl⟩ := has_bool (has_ex fpu ha b hl.2 he.2 _ y h4 hy)
    rw [hy] at hB
    obtain ⟨y1, rfl, hy1⟩ := hB
    rw [rep_num hy1] at hn
    rw [undotT, treeM, hm, hn, Ex.value, hy]
    cases hx : a.value fpu Γ ρ with
    | none => rw [hx] at hA; rw [show m = none from hA]; exact ⟨none, rfl, rfl⟩
    | some x =>
      obtain ⟨x, rfl⟩ := has_bool (has_ex fpu ha a hl.1 he.1 _ x h3 hx)
      rw [hx] at hA
      obtain ⟨x1, rfl, hx1⟩ := hA
      rw [rep_num hx1]
      refine ⟨some (.bit, .num (Real.Val.bool (x || y)).enc), by rw [M.lift_some, M.lift_some]; exact congrArg M.lift (or_words fpu junk x y), ?_⟩
      cases x <;> exact ⟨.num _, rfl, rfl⟩
  | pick c a b ihc iha ihb =>
    rintro τ t ht ⟨w, u, v, rfl, h0, h1, h2⟩
    obtain ⟨h3, h4, h5⟩ := type_pick ht he
    obtain ⟨k, hk, hC⟩ := ihc hl.1 he.1 hg.1 _ w h3 h0
    obtain ⟨m, hm, hA⟩ := iha hl.2.1 he.2.1 (safe_guarded Γ a hg.2.1) _ u h4 h1
    obtain ⟨n, hn, hB⟩ := ihb hl.2.2 he.2.2.1 (safe_guarded Γ b hg.2.2) _ v h5 h2
    obtain ⟨x, hx⟩ := safe_ex fpu ha a hl.2.1 he.2.1 hg.2.1 _ h4
    obtain ⟨y, hy⟩ := safe_ex fpu ha b hl.2.2 he.2.2.1 hg.2.2 _ h5
    rw [hx] at hA
    rw [hy] at hB
    obtain ⟨x1, rfl, hx1⟩ := hA
    obtain ⟨y1, rfl, hy1⟩ := hB
    rw [undotT, treeM, hk, hm, hn, Ex.value, ht, Option.bind_some]
    cases hz : c.value fpu Γ ρ with
    | none => rw [hz] at hC; rw [show k = none from hC]; exact ⟨none, rfl, rfl⟩
    | some z =>
      obtain ⟨z, rfl⟩ := has_bool (has_ex fpu ha c hl.1 he.1 _ z h3 hz)
      rw [hz] at hC
      obtain ⟨z1, rfl, hz1⟩ := hC
      rw [rep_num hz1]
      refine ⟨some (τ.p, if z = true then x1 else y1), by rw [M.lift_some, M.lift_some, M.lift_some]; exact congrArg M.lift (sel_same fpu junk z (τ.p, x1) (τ.p, y1) rfl), ?_⟩
      have cx := conv_self fpu (has_ex fpu ha a hl.2.1 he.2.1 _ x h4 hx)
      have cy := conv_self fpu (has_ex fpu ha b hl.2.2 he.2.2.1 _ y h5 hy)
      cases z
      · simp only [Option.bind_some, hy, cy]; exact ⟨_, rfl, hy1⟩
      · simp only [Option.bind_some, hx, cx]; exact ⟨_, rfl, hx1⟩
  | size x =>
    intro τ t ht hi
    rw [size_is hi]
    rw [Ex.type] at ht
    split at ht
    · next hx =>
      cases ht
      obtain ⟨w, h1, h2⟩ := ha x _ hx
      obtain ⟨b, rfl, hb⟩ := has_str h2
      obtain ⟨s, h3, h4⟩ := hr x _ _ hx h1
      obtain ⟨j, rfl⟩ := rep_str h4
      refine ⟨_, (size_treeM _ _ x h3).trans (call_size fpu junk j hb), ?_⟩
      rw [Ex.value, h1]
      exact ⟨.num _, rfl, rfl⟩
    · cases ht
  | ask m x a ih =>
    intro τ t ht hi
    obtain ⟨e, hi, h⟩ := ask_is hi
    rw [hi]
    rw [Ex.type] at ht
    split at ht
    · next hx =>
      cases ht
      obtain ⟨w, h1, h2⟩ := ha x _ hx.1
      obtain ⟨b, rfl, hb⟩ := has_str h2
      obtain ⟨s, h3, h4⟩ := hr x _ _ hx.1 h1
      obtain ⟨j, rfl⟩ := rep_str h4
      obtain ⟨k, hk, hA⟩ := ih hl he hg _ _ hx.2 h
      rw [ask_treeM _ _ m x e h3, hk, Ex.value, h1, Option.bind_some]
      cases hy : a.value fpu Γ ρ with
      | none => rw [hy] at hA; rw [show k = none from hA]; exact ⟨none, rfl, rfl⟩
      | some y =>
        rw [hy] at hA
        obtain ⟨y1, rfl, hy1⟩ := hA
        obtain ⟨y', rfl, hy'⟩ := has_str (has_ex fpu ha a hl he _ y hx.2 hy)
        obtain ⟨j2, rfl⟩ := rep_str hy1
        refine ⟨_, by rw [M.lift_some]; exact call_ask fpu junk m j j2 hb hy', ?_⟩
        exact ⟨.num _, rfl, rfl⟩
    · cases ht

end Verif.Comp.Words
