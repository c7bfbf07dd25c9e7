import Verif.Comp.VecPipeLemmas
/-!
# Vector expressions from the text to the vector: C144, C145
-/
namespace Verif.Comp.VecPipe
open Verif.Ast Verif.Ast.Rpn Verif.Gen
open Verif.Types.Conv (IntTy)
open Verif.Gen.Scalar (Name)
open Verif.Comp.Pipeline (Num Cond Arith Rel PTy decimal wrap litText Reads)

/-! ## Parameters -/

theorem lookup_iff {α β : Type} [BEq α] [LawfulBEq α] (x : α) (v : β) : ∀ (l : List (α × β)), (l.map (·.1)).Nodup → (l.lookup x = some v ↔ (x, v) ∈ l)
  | [], _ => by simp
  | (y, w) :: l, h => by
    simp only [List.map_cons, List.nodup_cons] at h
    have ih := lookup_iff x v l h.2
    by_cases hx : x = y
    · subst hx
      simp only [List.lookup_cons_self, Option.some.injEq, List.mem_cons, Prod.mk.injEq, true_and]
      constructor
      · rintro rfl; exact .inl rfl
      · rintro (h1 | h1)
        · exact h1.symm
        · exact absurd (List.mem_map_of_mem h1) h.1
    · rw [List.lookup_cons, show (x == y) = false from by simp [hx]]
      simp only [List.mem_cons, Prod.mk.injEq, hx, false_and, false_or]
      exact ih

theorem env_reverse (ps : Params) (h : (ps.map (·.1)).Nodup) (x : Name) : envOf ps.reverse x = envOf ps x := by
  have h' : (ps.reverse.map (·.1)).Nodup := by rw [List.map_reverse]; exact (List.reverse_perm _).nodup_iff.2 h
  apply Option.ext
  intro v
  unfold envOf
  exact (lookup_iff x v _ h').trans (List.mem_reverse.trans (lookup_iff x v _ h).symm)

theorem leaf_none (x : Name) : ∀ (ps : Params) (args : List Arg) (k : Nat), x ∉ ps.map (·.1) → leafOf k ps args x = none
  | [], _, _, _ => by simp [leafOf]
  | _ :: _, [], _, _ => by simp [leafOf]
  | (y, v, t) :: ps, a :: args, k, h => by
    simp only [List.map_cons, List.mem_cons, not_or] at h
    rw [leafOf, leaf_none x ps args (k + 1) h.2]
    simp [h.1]

/-- What the code knows about a parameter. -/
def Known (n : Nat) (args : List Arg) (names : List Name) (k : Nat) (x : Name) (q : Bool × IntTy) (d : Option (Vec.Node PTy Int VOp)) : Prop :=
  (q.1 = true ∧ ∃ b l, d = some (.vec (.int q.2) (k + b)) ∧ args[b]? = some (.vec l) ∧ l.length = n ∧ (∀ z ∈ l, IntOps.Fits q.2 z) ∧ (names.zip args).lookup x = some (.vec l)) ∨
  (q.1 = false ∧ ∃ z, d = some (.con (.int q.2) z) ∧ IntOps.Fits q.2 z ∧ (names.zip args).lookup x = some (.num z))

theorem leaf_env (n : Nat) (x : Name) (q : Bool × IntTy) : ∀ (ps : Params) (args : List Arg) (k : Nat), (ps.map (·.1)).Nodup → Passed n ps args → ps.lookup x = some q →
    Known n args (ps.map (·.1)) k x q (leafOf k ps args x)
  | [], _, _, _, _, hx => by simp at hx
  | (_, v, _) :: _, [], _, _, hp, _ => by cases v <;> simp [Passed] at hp
  | (y, v, t) :: ps, a :: args, k, hn, hp, hx => by
    simp only [List.map_cons, List.nodup_cons] at hn
    have hp' : Passed n ps args := by cases v <;> cases a <;> simp [Passed] at hp <;> simp [hp]
    by_cases hxy : x = y
    · subst hxy
      simp only [List.lookup_cons_self, Option.some.injEq] at hx
      subst hx
      rw [leafOf, leaf_none x ps args (k + 1) hn.1]
      simp only [if_true, Option.none_or]
      cases v <;> cases a <;> simp only [Passed] at hp
      · exact .inr ⟨rfl, _, rfl, hp.1, by simp⟩
      · exact .inl ⟨rfl, 0, _, rfl, rfl, hp.1, hp.2.1, by simp⟩
    · have e : (x == y) = false := by simp [hxy]
      rw [List.lookup_cons, e] at hx
      have ih := leaf_env n x q ps args (k + 1) hn.2 hp' hx
      have e2 : (((y, v, t) :: ps).map (·.1)).zip (a :: args) = (y, a) :: (ps.map (·.1)).zip args := rfl
      unfold Known
      rw [e2, List.lookup_cons, e, leafOf]
      rcases ih with ⟨h1, b, l, h2, h3, h4⟩ | ⟨h1, z, h2, h3⟩
      · refine .inl ⟨h1, b + 1, l, ?_, by simpa using h3, h4⟩
        rw [h2]
        simp only [Option.some_or, Option.some.injEq, Vec.Node.vec.injEq, true_and]
        omega
      · refine .inr ⟨h1, z, ?_, h3⟩
        rw [h2]
        rfl

theorem leaf_vec (n : Nat) (x : Name) (t : PTy) (j : Nat) : ∀ (ps : Params) (args : List Arg) (k : Nat), Passed n ps args → leafOf k ps args x = some (.vec t j) →
    ∃ b l s, j = k + b ∧ args[b]? = some (.vec l) ∧ l.length = n ∧ t = .int s
  | [], _, _, _, hx => by simp [leafOf] at hx
  | (_, _, _) :: _, [], _, _, hx => by simp [leafOf] at hx
  | (y, v, u) :: ps, a :: args, k, hp, hx => by
    have hp' : Passed n ps args := by cases v <;> cases a <;> simp [Passed] at hp <;> simp [hp]
    rw [leafOf] at hx
    cases hd : leafOf (k + 1) ps args x with
    | some d =>
      rw [hd, Option.some_or] at hx
      rw [hx] at hd
      obtain ⟨b, l, s, h1, h2⟩ := leaf_vec n x t j ps args (k + 1) hp' hd
      exact ⟨b + 1, l, s, by omega, by simpa using h2⟩
    | none =>
      rw [hd, Option.none_or] at hx
      split at hx
      · cases v <;> cases a <;> simp [Passed, leafHere] at hp hx
        exact ⟨0, _, u, by omega, rfl, hp.1, hx.1.symm⟩
      · cases hx

/-- The leaf behind a node. -/
def exOf : Option (Vec.Node PTy Int VOp) → VEx
  | some (.vec t b) => .vec t b
  | some (.con t v) => .con t v
  | _ => .con .bit 0

def lkOf (ps : Params) (args : List Arg) (x : Name) : VEx := exOf (leafOf 0 ps args x)

section
variable {n : Nat} {ps : Params} {args : List Arg} (hn : (ps.map (·.1)).Nodup) (hp : Passed n ps args)
include hn hp

theorem known {x : Name} {q : Bool × IntTy} (hx : envOf ps x = some q) : Known n args (ps.map (·.1)) 0 x q (leafOf 0 ps args x) := leaf_env n x q ps args 0 hn hp hx

theorem look_ok : LookOk (envOf ps) (leafOf 0 ps args) (lkOf ps args) := by
  intro x q hx
  unfold lkOf
  rcases known hn hp hx with ⟨_, b, l, h, _⟩ | ⟨_, z, h, _⟩ <;> rw [h] <;> rfl

theorem kind_ok : KindOk (envOf ps) (lkOf ps args) := by
  constructor
  · intro x
    unfold lkOf exOf
    split <;> rfl
  · intro x q hx
    unfold lkOf
    rcases known hn hp hx with ⟨h1, b, l, h, _⟩ | ⟨h1, z, h, _⟩ <;> rw [h]
    · exact .inl ⟨h1, _, rfl⟩
    · exact .inr ⟨h1, _, rfl⟩

theorem fits_at {i : Nat} (hi : i < n) : ArgsFit (envOf ps) (valuesAt ps args i) := by
  intro x q hx
  unfold valuesAt
  rcases known hn hp hx with ⟨h1, b, l, _, _, h2, h3, h⟩ | ⟨h1, z, _, h2, h⟩ <;> rw [h]
  · dsimp only
    rw [List.getElem?_eq_getElem (by omega), Option.getD_some]
    exact h3 _ (List.getElem_mem _)
  · exact h2

theorem leaf_at {i : Nat} (hi : i < n) : LeafOk (envOf ps) (valuesAt ps args i) (lkOf ps args) (Vec.elemAt (args.map bufOf) i) := by
  intro x q hx
  unfold valuesAt lkOf
  rcases known hn hp hx with ⟨h1, b, l, h4, h5, h2, h3, h⟩ | ⟨h1, z, h4, h2, h⟩ <;> rw [h, h4]
  · dsimp only
    rw [exOf, Vec.valE, Vec.elemAt, List.getElem?_map, Nat.zero_add, h5]
    simp only [Option.map_some, Option.bind_some, bufOf]
    rw [List.getElem?_eq_getElem (by omega), Option.getD_some]
  · rfl

/-- What unused lanes hold. -/
def unused (ps : Params) (args : List Arg) (x : Name) : Int := if (envOf ps x).any (·.1) = true then 1 else valuesAt ps args 0 x

theorem fits_unused : ArgsFit (envOf ps) (unused ps args) := by
  intro x q hx
  unfold unused
  rcases known hn hp hx with ⟨h1, b, l, _, _, h2, h3, h⟩ | ⟨h1, z, _, h2, h⟩
  · rw [hx]
    simp only [Option.any_some, h1, if_true]
    exact Pipeline.small_fits _ _ (by omega) (by omega)
  · rw [hx]
    simp only [Option.any_some, h1, Bool.false_eq_true, if_false]
    rw [valuesAt, h]
    exact h2

theorem leaf_unused (i : Nat) : LeafOk (envOf ps) (unused ps args) (lkOf ps args) (Vec.padAt vints (args.map bufOf) i) := by
  intro x q hx
  unfold unused lkOf
  rcases known hn hp hx with ⟨h1, b, l, h4, h5, h2, h3, h⟩ | ⟨h1, z, h4, h2, h⟩ <;> rw [h4, hx]
  · simp only [Option.any_some, h1, if_true]
    rfl
  · simp only [Option.any_some, h1, Bool.false_eq_true, if_false]
    rw [valuesAt, h]
    rfl

omit hn hp in
theorem ones_unused : Ones (envOf ps) (unused ps args) := by
  intro x t hx
  simp [unused, hx]

end

/-! ## Vectors of an expression -/

mutual
theorem leaves_num (Γ : VEnv) (lk : Name → VEx) (h : KindOk Γ lk) (p : Num) (k : Bool × IntTy) (hk : elemOf Γ p = some k) (hv : numHas Γ p = true) : Vec.leaves (numVE lk p) ≠ [] := by
  match p with
  | .lit _ _ => rw [numHas] at hv; cases hv
  | .arg x =>
    rw [elemOf] at hk
    rw [numHas, hk] at hv
    rw [numVE]
    rcases h.2 x k hk with ⟨h1, b, h2⟩ | ⟨h1, b, h2⟩
    · rw [h2]; simp [Vec.leaves]
    · simp [h1] at hv
  | .neg a =>
    rw [numHas] at hv
    rw [elemOf] at hk
    cases ha : elemOf Γ a with
    | none => rw [ha] at hk; simp at hk
    | some l => rw [numVE, Vec.leaves]; exact leaves_num Γ lk h a l ha hv
  | .op o a b =>
    rw [numHas, Bool.or_eq_true] at hv
    rw [elemOf] at hk
    cases ha : elemOf Γ a with
    | none => rw [ha] at hk; simp at hk
    | some l =>
      cases hb : elemOf Γ b with
      | none => rw [ha, hb] at hk; simp at hk
      | some m =>
        rw [numVE, Vec.leaves]
        rcases hv with hv | hv
        · exact fun he => leaves_num Γ lk h a l ha hv (List.append_eq_nil_iff.1 he).1
        · exact fun he => leaves_num Γ lk h b m hb hv (List.append_eq_nil_iff.1 he).2
  | .pick c a b =>
    rw [numHas, Bool.or_eq_true, Bool.or_eq_true] at hv
    rw [elemOf] at hk
    split at hk
    · next hc =>
      cases ha : elemOf Γ a with
      | none => rw [ha] at hk; simp at hk
      | some l =>
        cases hb : elemOf Γ b with
        | none => rw [ha, hb] at hk; simp at hk
        | some m =>
          rw [numVE, Vec.leaves]
          rcases hv with (hv | hv) | hv
          · exact fun he => leaves_cond Γ lk h c hc.1 hv (List.append_eq_nil_iff.1 (List.append_eq_nil_iff.1 he).1).1
          · exact fun he => leaves_num Γ lk h a l ha hv (List.append_eq_nil_iff.1 (List.append_eq_nil_iff.1 he).1).2
          · exact fun he => leaves_num Γ lk h b m hb hv (List.append_eq_nil_iff.1 he).2
    · simp at hk
theorem leaves_cond (Γ : VEnv) (lk : Name → VEx) (h : KindOk Γ lk) (p : Cond) (hk : condOk Γ p = true) (hv : condHas Γ p = true) : Vec.leaves (condVE lk p) ≠ [] := by
  match p with
  | .const _ => rw [condHas] at hv; cases hv
  | .rel o a b =>
    rw [condHas, Bool.or_eq_true] at hv
    rw [condOk] at hk
    cases ha : elemOf Γ a with
    | none => rw [ha] at hk; simp at hk
    | some l =>
      cases hb : elemOf Γ b with
      | none => rw [ha, hb] at hk; simp at hk
      | some m =>
        rw [condVE, Vec.leaves]
        rcases hv with hv | hv
        · exact fun he => leaves_num Γ lk h a l ha hv (List.append_eq_nil_iff.1 he).1
        · exact fun he => leaves_num Γ lk h b m hb hv (List.append_eq_nil_iff.1 he).2
  | .and a b =>
    rw [condHas, Bool.or_eq_true] at hv
    rw [condOk, Bool.and_eq_true, Bool.and_eq_true] at hk
    rw [condVE, Vec.leaves]
    rcases hv with hv | hv
    · exact fun he => leaves_cond Γ lk h a hk.1.1 hv (List.append_eq_nil_iff.1 he).1
    · exact fun he => leaves_cond Γ lk h b hk.1.2 hv (List.append_eq_nil_iff.1 he).2
  | .or a b =>
    rw [condHas, Bool.or_eq_true] at hv
    rw [condOk, Bool.and_eq_true, Bool.and_eq_true] at hk
    rw [condVE, Vec.leaves]
    rcases hv with hv | hv
    · exact fun he => leaves_cond Γ lk h a hk.1.1 hv (List.append_eq_nil_iff.1 he).1
    · exact fun he => leaves_cond Γ lk h b hk.1.2 hv (List.append_eq_nil_iff.1 he).2
  | .not a =>
    rw [condHas] at hv
    rw [condOk] at hk
    rw [condVE, Vec.leaves]
    exact leaves_cond Γ lk h a hk hv
end

mutual
theorem mem_leaves_num (lk : Name → VEx) (q : PTy × Nat) (p : Num) (h : q ∈ Vec.leaves (numVE lk p)) : ∃ x, q ∈ Vec.leaves (lk x) := by
  match p with
  | .lit _ _ => simp [numVE, Vec.leaves] at h
  | .arg x => exact ⟨x, by rwa [numVE] at h⟩
  | .neg a => rw [numVE, Vec.leaves] at h; exact mem_leaves_num lk q a h
  | .op _ a b =>
    rw [numVE, Vec.leaves, List.mem_append] at h
    rcases h with h | h
    · exact mem_leaves_num lk q a h
    · exact mem_leaves_num lk q b h
  | .pick c a b =>
    rw [numVE, Vec.leaves, List.mem_append, List.mem_append] at h
    rcases h with (h | h) | h
    · exact mem_leaves_cond lk q c h
    · exact mem_leaves_num lk q a h
    · exact mem_leaves_num lk q b h
theorem mem_leaves_cond (lk : Name → VEx) (q : PTy × Nat) (p : Cond) (h : q ∈ Vec.leaves (condVE lk p)) : ∃ x, q ∈ Vec.leaves (lk x) := by
  match p with
  | .const _ => simp [condVE, Vec.leaves] at h
  | .rel _ a b =>
    rw [condVE, Vec.leaves, List.mem_append] at h
    rcases h with h | h
    · exact mem_leaves_num lk q a h
    · exact mem_leaves_num lk q b h
  | .and a b =>
    rw [condVE, Vec.leaves, List.mem_append] at h
    rcases h with h | h
    · exact mem_leaves_cond lk q a h
    · exact mem_leaves_cond lk q b h
  | .or a b =>
    rw [condVE, Vec.leaves, List.mem_append] at h
    rcases h with h | h
    · exact mem_leaves_cond lk q a h
    · exact mem_leaves_cond lk q b h
  | .not a => rw [condVE, Vec.leaves] at h; exact mem_leaves_cond lk q a h
end

theorem any_vec (e : VEx) (h : Vec.leaves e ≠ []) : (Vec.flat e).any isVec = true := by
  have key : ∀ e : VEx, Vec.leaves e ≠ [] → ∃ t b, Vec.Node.vec t b ∈ Vec.flat e := by
    intro e
    induction e with
    | vec t b => intro _; exact ⟨t, b, by simp [Vec.flat]⟩
    | con t v => intro h; simp [Vec.leaves] at h
    | app1 o a ih => intro h; obtain ⟨t, b, hm⟩ := ih h; exact ⟨t, b, by simp [Vec.flat, hm]⟩
    | app2 o a b iha ihb =>
      intro h
      by_cases h1 : Vec.leaves a = []
      · obtain ⟨t, b, hm⟩ := ihb (by simpa [Vec.leaves, h1] using h); exact ⟨t, b, by simp [Vec.flat, hm]⟩
      · obtain ⟨t, b, hm⟩ := iha h1; exact ⟨t, b, by simp [Vec.flat, hm]⟩
    | app3 o a b c iha ihb ihc =>
      intro h
      by_cases h1 : Vec.leaves a = []
      · by_cases h2 : Vec.leaves b = []
        · obtain ⟨t, b, hm⟩ := ihc (by simpa [Vec.leaves, h1, h2] using h); exact ⟨t, b, by simp [Vec.flat, hm]⟩
        · obtain ⟨t, b, hm⟩ := ihb h2; exact ⟨t, b, by simp [Vec.flat, hm]⟩
      · obtain ⟨t, b, hm⟩ := iha h1; exact ⟨t, b, by simp [Vec.flat, hm]⟩
    | call1 f a ih => intro h; obtain ⟨t, b, hm⟩ := ih h; exact ⟨t, b, by simp [Vec.flat, hm]⟩
    | call2 f a b iha ihb =>
      intro h
      by_cases h1 : Vec.leaves a = []
      · obtain ⟨t, b, hm⟩ := ihb (by simpa [Vec.leaves, h1] using h); exact ⟨t, b, by simp [Vec.flat, hm]⟩
      · obtain ⟨t, b, hm⟩ := iha h1; exact ⟨t, b, by simp [Vec.flat, hm]⟩
  obtain ⟨t, b, hm⟩ := key e h
  exact List.any_eq_true.2 ⟨_, hm, rfl⟩

theorem holds_lk {n : Nat} {ps : Params} {args : List Arg} (hp : Passed n ps args) (x : Name) (t : PTy) (b : Nat) (h : (t, b) ∈ Vec.leaves (lkOf ps args x)) :
    Vec.Holds vints (args.map bufOf) n t b := by
  unfold lkOf at h
  cases hd : leafOf 0 ps args x with
  | none => rw [hd] at h; simp [exOf, Vec.leaves] at h
  | some d =>
    rw [hd] at h
    cases d with
    | vec t' b' =>
      simp only [exOf, Vec.leaves, List.mem_singleton, Prod.mk.injEq] at h
      obtain ⟨rfl, rfl⟩ := h
      obtain ⟨b', l, s, h1, h2, h3, h4⟩ := leaf_vec n x t b ps args 0 hp hd
      subst h4
      refine ⟨bufOf (.vec l), ?_, h3, ?_⟩
      · rw [h1, Nat.zero_add, List.getElem?_map, h2]; rfl
      · simp [vints, bufOf, h3]
    | con _ _ => simp [exOf, Vec.leaves] at h
    | op _ => simp [exOf, Vec.leaves] at h
    | call _ => simp [exOf, Vec.leaves] at h

theorem outcome_collect {α : Type} (n : Nat) (f : Nat → Option α) (g : α → Int) (bufs : List (Vec.Buf Int)) (e : VEx)
    (hh : ∀ i, i < n → Vec.valE vints (Vec.elemAt bufs i) e = (f i).map g) : Vec.elementwise vints bufs n e = outcome ((collect n f).map (List.map g)) := by
  have e : ∀ l : List Nat, (∀ i ∈ l, i < n) → (l.mapM fun i => Vec.valE vints (Vec.elemAt bufs i) e) = (l.mapM f).map (List.map g) := by
    intro l
    induction l with
    | nil => intro _; rfl
    | cons a l ih =>
      intro hl
      rw [List.mapM_cons, List.mapM_cons, hh a (hl a (by simp)), ih fun i hi => hl i (by simp [hi])]
      cases f a <;> simp
      cases l.mapM f <;> simp
  unfold Vec.elementwise
  rw [e _ fun i hi => List.mem_range.1 hi]
  unfold collect
  cases (List.range n).mapM f <;> rfl

/-! ## C144 -/

theorem sel_root (p : Num) (c t f : Expr) (h : (Expr.sel c t f).toTree = p.tree) : ∃ c' a b, p = .pick c' a b ∧ t.toTree = a.tree := by
  rw [Expr.toTree] at h
  cases p with
  | pick c' a b => rw [Num.tree] at h; injection h with _ h _; exact ⟨_, _, _, rfl, h⟩
  | lit ds s => rw [Num.tree] at h; cases h
  | arg x => rw [Num.tree] at h; cases h
  | neg a => rw [Num.tree] at h; cases h
  | op o a b => rw [Num.tree] at h; cases h

theorem sel_root_cond (p : Cond) (c t f : Expr) (h : (Expr.sel c t f).toTree = p.tree) : False := by
  rw [Expr.toTree] at h
  cases p <;> rw [Cond.tree] at h <;> cases h

theorem list_other (env : Name → Option VTy) (e : Expr) (h : ∀ c t f, e ≠ .sel c t f) : listTy env e = checkE env e := by
  cases e with
  | sel c t f => exact absurd rfl (h c t f)
  | bin _ _ _ => rfl
  | un _ _ => rfl

section
variable (cfg : Cfg) (inl : Inline) (ps : Params) (hn : (ps.map (·.1)).Nodup)
include hn

/-- What a compiled expression computes, if the result has the type of the elements. -/
theorem run_num (p : Num) (hl : p.Lits) (hg : numGuarded (envOf ps) p) (k : Bool × IntTy) (hk : elemOf (envOf ps) p = some k) (hv : numHas (envOf ps) p = true) (src : List Char) (e : Expr)
    (rest : List Tok) (hs : parseExpression cfg src = .ok e rest) (ht : e.toTree = p.tree) (v : Bool) (hr : listTy (tyOf ps) e = some (v, .int k.2)) (n : Nat) (hlt : n < 2 ^ 30)
    (args : List Arg) (ha : Passed n ps args) (mem : Nat → List Int) (hmem : ∀ m, (mem m).length = m) :
    runVec true cfg inl ps (.int k.2) mem src args = outcome (collect n fun i => numAt (envOf ps) (valuesAt ps args i) p) := by
  have hk' := kind_num _ _ (kind_ok hn ha) p k hk
  have hne := leaves_num _ _ (kind_ok hn ha) p k hk hv
  have henv : ∀ x, tyOf ps x = (envOf ps x).map fun k => (k.1, .int k.2) := fun x => by rw [tyOf, env_reverse ps hn]
  unfold runVec
  rw [hs]
  dsimp only
  rw [hr, check_tree, ht, check_num (envOf ps) _ henv p hl k hk, flat_tree, ht, flat_num inl _ _ _ (look_ok hn ha) p hl k hk]
  dsimp only
  rw [if_pos ⟨any_vec _ hne, rfl, .inl rfl⟩]
  have := Vec.elementwise_partial (mem := mem) (bufs := args.map bufOf) (n := n) hk' hne
    (fun t b hm => by obtain ⟨x, hx⟩ := mem_leaves_num _ _ p hm; exact holds_lk ha x t b hx) hlt hmem
    (fun i _ _ => by
      rw [val_num _ _ (fits_unused hn ha) _ (kind_ok hn ha) _ (leaf_unused hn ha i) p hl (.inr hg) k hk]
      obtain ⟨z, hz⟩ := def_num (envOf ps) (unused ps args) p (.inr ⟨ones_unused, hg⟩) k hk
      rw [hz]; simp)
  refine this.trans ?_
  rw [outcome_collect n (fun i => numAt (envOf ps) (valuesAt ps args i) p) id _ _ fun i hi => by
    rw [val_num _ _ (fits_at hn ha hi) _ (kind_ok hn ha) _ (leaf_at hn ha hi) p hl (.inr hg) k hk]; simp]
  simp

/-- **C144**. A text that reads as an expression of integers and vectors of integers is compiled to a function with a vector of the elements' type as result. For vectors of any number `n`
of elements (below 2^30), the empty one included, the result has `n` elements, and each is the value the text describes for the elements at that place; if one has no value, the call is
undefined. A selection that is the whole text needs a first alternative of the elements' type (C145). -/
theorem vector_expression (p : Num) (hl : p.Lits) (hg : numGuarded (envOf ps) p) (k : Bool × IntTy) (hk : elemOf (envOf ps) p = some k) (hv : numHas (envOf ps) p = true)
    (hroot : ∀ c a b, p = .pick c a b → (elemOf (envOf ps) a).map (·.2) = some k.2) (src : List Char) (hs : Reads cfg src p.tree) (n : Nat) (hlt : n < 2 ^ 30) (args : List Arg)
    (ha : Passed n ps args) (mem : Nat → List Int) (hmem : ∀ m, (mem m).length = m) :
    runVec true cfg inl ps (.int k.2) mem src args = outcome (collect n fun i => numAt (envOf ps) (valuesAt ps args i) p) := by
  obtain ⟨e, rest, hs, ht⟩ := hs
  have henv : ∀ x, tyOf ps x = (envOf ps x).map fun k => (k.1, .int k.2) := fun x => by rw [tyOf, env_reverse ps hn]
  have hr : ∃ v, listTy (tyOf ps) e = some (v, .int k.2) := by
    by_cases hsel : ∃ c t f, e = .sel c t f
    · obtain ⟨c, t, f, rfl⟩ := hsel
      obtain ⟨c', a, b, rfl, hta⟩ := sel_root p c t f ht
      have h1 := hroot c' a b rfl
      cases hka : elemOf (envOf ps) a with
      | none => rw [hka] at h1; simp at h1
      | some ka =>
        rw [hka] at h1
        simp only [Option.map_some, Option.some.injEq] at h1
        rw [Num.Lits] at hl
        exact ⟨_, by rw [listTy, check_tree, hta, check_num (envOf ps) _ henv a hl.2.1 ka hka, h1]⟩
    · rw [list_other _ e fun c t f he => hsel ⟨c, t, f, he⟩, check_tree, ht, check_num (envOf ps) _ henv p hl k hk]
      exact ⟨_, rfl⟩
  obtain ⟨v, hr⟩ := hr
  exact run_num cfg inl ps hn p hl hg k hk hv src e rest hs ht v hr n hlt args ha mem hmem

/-- **C144**, conditions: the result is a vector of bits. -/
theorem vector_condition (p : Cond) (hl : p.Lits) (hg : condGuarded (envOf ps) p) (hk : condOk (envOf ps) p = true) (hv : condHas (envOf ps) p = true) (src : List Char)
    (hs : Reads cfg src p.tree) (n : Nat) (hlt : n < 2 ^ 30) (args : List Arg) (ha : Passed n ps args) (mem : Nat → List Int) (hmem : ∀ m, (mem m).length = m) :
    runVec true cfg inl ps .bit mem src args = outcome ((collect n fun i => condAt (envOf ps) (valuesAt ps args i) p).map (List.map Pipeline.bit)) := by
  obtain ⟨e, rest, hs, ht⟩ := hs
  have hk' := kind_cond _ _ (kind_ok hn ha) p hk
  have hne := leaves_cond _ _ (kind_ok hn ha) p hk hv
  have henv : ∀ x, tyOf ps x = (envOf ps x).map fun k => (k.1, .int k.2) := fun x => by rw [tyOf, env_reverse ps hn]
  have hc : checkE (tyOf ps) e = some (condHas (envOf ps) p, .bit) := by rw [check_tree, ht, check_cond (envOf ps) _ henv p hl hk]
  have hr : listTy (tyOf ps) e = some (condHas (envOf ps) p, .bit) := by
    rw [list_other _ e fun c t f he => sel_root_cond p c t f (he ▸ ht), hc]
  unfold runVec
  rw [hs]
  dsimp only
  rw [hr, hc, flat_tree, ht, flat_cond inl _ _ _ (look_ok hn ha) p hl hk]
  dsimp only
  rw [if_pos ⟨any_vec _ hne, rfl, .inl rfl⟩]
  have := Vec.elementwise_partial (mem := mem) (bufs := args.map bufOf) (n := n) hk' hne
    (fun t b hm => by obtain ⟨x, hx⟩ := mem_leaves_cond _ _ p hm; exact holds_lk ha x t b hx) hlt hmem
    (fun i _ _ => by
      rw [val_cond _ _ (fits_unused hn ha) _ (kind_ok hn ha) _ (leaf_unused hn ha i) p hl (.inr hg) hk]
      obtain ⟨z, hz⟩ := def_cond (envOf ps) (unused ps args) p (.inr ⟨ones_unused, hg⟩) hk
      rw [hz]; simp)
  refine this.trans ?_
  rw [outcome_collect n (fun i => condAt (envOf ps) (valuesAt ps args i) p) Pipeline.bit _ _ fun i hi => by
    rw [val_cond _ _ (fits_at hn ha hi) _ (kind_ok hn ha) _ (leaf_at hn ha hi) p hl (.inr hg) hk]]

/-- **C145** (part): any selection in parentheses, or as part of a larger expression. -/
theorem selection_partial (p : Num) (hl : p.Lits) (hg : numGuarded (envOf ps) p) (k : Bool × IntTy) (hk : elemOf (envOf ps) p = some k) (hv : numHas (envOf ps) p = true) (src : List Char)
    (e : Expr) (rest : List Tok) (hs : parseExpression cfg src = .ok e rest) (ht : e.toTree = p.tree) (hroot : ∀ c t f, e ≠ .sel c t f) (n : Nat) (hlt : n < 2 ^ 30) (args : List Arg)
    (ha : Passed n ps args) (mem : Nat → List Int) (hmem : ∀ m, (mem m).length = m) :
    runVec true cfg inl ps (.int k.2) mem src args = outcome (collect n fun i => numAt (envOf ps) (valuesAt ps args i) p) := by
  have henv : ∀ x, tyOf ps x = (envOf ps x).map fun k => (k.1, .int k.2) := fun x => by rw [tyOf, env_reverse ps hn]
  exact run_num cfg inl ps hn p hl hg k hk hv src e rest hs ht _ (by rw [list_other _ e hroot, check_tree, ht, check_num (envOf ps) _ henv p hl k hk]) n hlt args ha mem hmem

end

/-- **C144**: texts for every such expression exist. -/
theorem every_vector_expression_has_text (cfg : Cfg) (hr : ∀ ds, decimal ds < 2 ^ 53 → cfg.inRange ds = true) (p : Num) (hl : p.Lits) (hn : p.Names cfg) : ∃ src, Reads cfg src p.tree :=
  Pipeline.every_expression_has_text cfg hr p hl hn

/-! ## Instances -/

def exCfg : Cfg := { isType := fun _ => false, inRange := fun _ => true }
def var1 (c : Char) : Num := .arg [c]
def dig (c : Char) : Num := .lit [c] none

theorem name1 (c : Char) (h : c = 'x' ∨ c = 'y' ∨ c = 'k') : IsName [c] ∧ validName exCfg [c] = true := by
  rcases h with rfl | rfl | rfl <;> exact ⟨⟨⟨_, [], rfl, by decide, by simp⟩, by decide⟩, by decide⟩

theorem reads_of (src : List Char) (p : Num) (hl : p.Lits) (hn : p.Names exCfg) (hs : sourceToks src = sourceToks (writeTokens p.tree.toExpr.print)) :
    parseExpression exCfg src = .ok p.tree.toExpr [] ∧ p.tree.toExpr.toTree = p.tree := by
  obtain ⟨h1, h2⟩ := toExpr_spec exCfg p.tree (Pipeline.wf_num exCfg (fun _ _ => rfl) p hl hn)
  refine ⟨?_, h2⟩
  rw [← parse_print exCfg _ h1]
  unfold parseExpression
  rw [hs]

/-- `x > 0 && y != 3 ? x * 3 + k : -x / 2` for vectors `x`, `y` of 64-bit numbers and a 32-bit number `k`. -/
def exPick : Num :=
  .pick (.and (.rel .gt (var1 'x') (dig '0')) (.rel .ne (var1 'y') (dig '3'))) (.op .add (.op .mul (var1 'x') (dig '3')) (var1 'k')) (.op .div (.neg (var1 'x')) (dig '2'))
def exParams : Params := [(['x'], true, .i64), (['y'], true, .i64), (['k'], false, .i32)]
def exText : List Char := "x > 0 && y!=3 ? x*3 + k : -x/2".toList

theorem ex_lits : exPick.Lits := by simp [exPick, var1, dig, Num.Lits, Cond.Lits, decimal, isDigit]
theorem ex_reads : Reads exCfg exText exPick.tree := by
  obtain ⟨h1, h2⟩ := reads_of exText exPick ex_lits (by simp [exPick, var1, dig, Num.Names, Cond.Names, name1]) (by decide +kernel)
  exact ⟨_, _, h1, h2⟩

/-- Three elements and a number; `-7 / 2` is rounded towards zero. -/
example (mem : Nat → List Int) (hmem : ∀ m, (mem m).length = m) :
    runVec true exCfg Scalar.noInl exParams (.int .i64) mem exText [.vec [4, -7, 5], .vec [0, 0, 3], .num 100] = .ok [112, 3, -2] := by
  rw [vector_expression exCfg Scalar.noInl exParams (by decide) exPick ex_lits (by simp [exPick, var1, dig, numGuarded, condGuarded, Num.Safe, Cond.Safe, Num.SmallDivisor, decimal]) (true, .i64) (by decide)
    (by decide) (by intro c a b h; simp only [exPick, Num.pick.injEq] at h; obtain ⟨_, rfl, _⟩ := h; decide) exText ex_reads 3 (by decide) _
    (by simp only [exParams, Passed]; unfold IntOps.Fits; decide +kernel) mem hmem]
  decide +kernel

/-- `x / y`: a call with a zero in `y` is undefined, one without gives the quotients. -/
def exDiv : Num := .op .div (var1 'x') (var1 'y')
theorem exDiv_reads : Reads exCfg "x / y".toList exDiv.tree := by
  obtain ⟨h1, h2⟩ := reads_of "x / y".toList exDiv (by simp [exDiv, var1, Num.Lits]) (by simp [exDiv, var1, Num.Names, name1]) (by decide +kernel)
  exact ⟨_, _, h1, h2⟩

theorem exDiv_run (xs ys : List Int) (n : Nat) (hlt : n < 2 ^ 30) (hp : Passed n exParams [.vec xs, .vec ys, .num 0]) (mem : Nat → List Int) (hmem : ∀ m, (mem m).length = m) :
    runVec true exCfg Scalar.noInl exParams (.int .i64) mem "x / y".toList [.vec xs, .vec ys, .num 0] =
      outcome (collect n fun i => numAt (envOf exParams) (valuesAt exParams [.vec xs, .vec ys, .num 0] i) exDiv) :=
  vector_expression exCfg Scalar.noInl exParams (by decide) exDiv (by simp [exDiv, var1, Num.Lits])
    (by simp only [exDiv, var1, numGuarded, true_and]; exact fun _ => .inr ⟨_, _, rfl, rfl⟩) (true, .i64) (by decide) (by decide)
    (by intro c a b h; simp [exDiv] at h) _ exDiv_reads n hlt _ hp mem hmem

example (mem : Nat → List Int) (hmem : ∀ m, (mem m).length = m) :
    runVec true exCfg Scalar.noInl exParams (.int .i64) mem "x / y".toList [.vec [7, 9], .vec [2, -3], .num 0] = .ok [3, -3] ∧
    runVec true exCfg Scalar.noInl exParams (.int .i64) mem "x / y".toList [.vec [7, 9], .vec [2, 0], .num 0] = .error .trap := by
  constructor
  · rw [exDiv_run _ _ 2 (by decide) (by simp only [exParams, Passed]; unfold IntOps.Fits; decide +kernel) mem hmem]; decide +kernel
  · rw [exDiv_run _ _ 2 (by decide) (by simp only [exParams, Passed]; unfold IntOps.Fits; decide +kernel) mem hmem]; decide +kernel

/-- `x > y` gives bits. -/
example (mem : Nat → List Int) (hmem : ∀ m, (mem m).length = m) :
    runVec true exCfg Scalar.noInl exParams .bit mem "x > y".toList [.vec [7, 9], .vec [7, 3], .num 0] = .ok [0, 1] := by
  have hr : Reads exCfg "x > y".toList (Cond.rel .gt (var1 'x') (var1 'y')).tree := by
    have h := Pipeline.wf_cond exCfg (fun _ _ => rfl) (Cond.rel .gt (var1 'x') (var1 'y')) (by simp [var1, Num.Lits, Cond.Lits]) (by simp [var1, Num.Names, Cond.Names, name1])
    obtain ⟨e, h1, h2⟩ := parse_tree exCfg _ h
    exact ⟨e, [], by rw [← h1]; unfold parseExpression; rw [show sourceToks "x > y".toList = sourceToks (writeTokens (Cond.rel .gt (var1 'x') (var1 'y')).tree.toExpr.print) from by decide +kernel], h2⟩
  rw [vector_condition exCfg Scalar.noInl exParams (by decide) (.rel .gt (var1 'x') (var1 'y')) (by simp [var1, Num.Lits, Cond.Lits]) (by simp [var1, numGuarded, condGuarded]) (by decide) (by decide) _
    hr 2 (by decide) _ (by simp only [exParams, Passed]; unfold IntOps.Fits; decide +kernel) mem hmem]
  decide +kernel

/-! ## Functions without a context -/

theorem last_node (look : Name → Option (Vec.Node PTy Int VOp)) (a : Rpn) (n : Rpn.Node) (ns : List (Vec.Node PTy Int VOp)) (h : nodesOf look (a.append (.cons n .nil)) = some ns) :
    ∃ b m, nodeOf look n = some m ∧ ns = b ++ [m] := by
  rw [nodes_append] at h
  cases ha : nodesOf look a with
  | none => rw [ha] at h; cases h
  | some b =>
    rw [ha, nodesOf, nodesOf] at h
    cases hn : nodeOf look n with
    | none => rw [hn] at h; cases h
    | some m => rw [hn] at h; simp at h; exact ⟨b, m, rfl, h.symm⟩

theorem append_assoc (a b c : Rpn) : a.append (b.append c) = (a.append b).append c := by
  match a with
  | .nil => rfl
  | .cons n r => rw [Rpn.append, Rpn.append, Rpn.append, append_assoc r b c]

theorem tree_last (inl : Inline) (look : Name → Option (Vec.Node PTy Int VOp)) (t : Tree) (ht : ∀ o, t ≠ .atom o) (ns : List (Vec.Node PTy Int VOp))
    (h : nodesOf look (treeFlat inl t) = some ns) : ∃ b o, ns = b ++ [.op o] := by
  have key : ∃ (a : Rpn) (n : Rpn.Node), treeFlat inl t = a.append (.cons n .nil) ∧ ∀ m, nodeOf look n = some m → ∃ o, m = .op o := by
    cases t with
    | atom o => exact absurd rfl (ht o)
    | un op t => exact ⟨_, _, rfl, fun m hm => by simp only [nodeOf, Option.some.injEq] at hm; exact ⟨_, hm.symm⟩⟩
    | bin l op r => exact ⟨_, _, by rw [treeFlat, append_assoc], fun m hm => by
        simp only [nodeOf] at hm
        first
        | (split at hm <;> simp only [Option.some.injEq, reduceCtorEq] at hm; exact ⟨_, hm.symm⟩)
        | (simp only [Option.some.injEq] at hm; exact ⟨_, hm.symm⟩)⟩
    | sel c t f => exact ⟨_, _, by rw [treeFlat, append_assoc, append_assoc], fun m hm => by simp only [nodeOf, Option.some.injEq] at hm; exact ⟨_, hm.symm⟩⟩
  obtain ⟨a, n, e, hn⟩ := key
  rw [e] at h
  obtain ⟨b, m, h1, h2⟩ := last_node look a n ns h
  obtain ⟨o, rfl⟩ := hn m h1
  exact ⟨b, o, h2⟩

/-- **C144**, the other side: without a `Context` among its parameters no expression with an operator is accepted, whatever its text, its types and its arguments. -/
theorem without_context_refused (cfg : Cfg) (inl : Inline) (ps : Params) (ret : PTy) (mem : Nat → List Int) (src : List Char) (args : List Arg) (e : Expr) (rest : List Tok)
    (hs : parseExpression cfg src = .ok e rest) (ht : ∀ o, e.toTree ≠ .atom o) : runVec false cfg inl ps ret mem src args = .error .compile := by
  unfold runVec
  rw [hs]
  dsimp only
  cases checkE (tyOf ps) e with
  | none => rfl
  | some _ =>
    cases listTy (tyOf ps) e with
    | none => rfl
    | some t =>
      cases hns : nodesOf (leafOf 0 ps args) (flatE inl e) with
      | none => rfl
      | some ns =>
        dsimp only
        rw [flat_tree] at hns
        obtain ⟨b, o, rfl⟩ := tree_last inl _ _ ht ns hns
        rw [if_neg]
        rintro ⟨h1, _, h2⟩
        simp only [Bool.false_eq_true, List.length_append, List.length_singleton, false_or] at h2
        have : b = [] := List.eq_nil_of_length_eq_zero (by omega)
        subst this
        simp [isVec] at h1

/-- `x / y` once more, compiled without a context. -/
example (mem : Nat → List Int) (args : List Arg) : runVec false exCfg Scalar.noInl exParams (.int .i64) mem "x / y".toList args = .error .compile := by
  obtain ⟨e, rest, h1, h2⟩ := exDiv_reads
  exact without_context_refused _ _ _ _ _ _ _ e rest h1 fun o h => by rw [h2] at h; simp [exDiv, Num.tree] at h

/-! ## C145 -/

/-- `x > 0 ? 1 : x`. -/
def exOne : Num := .pick (.rel .gt (var1 'x') (dig '0')) (dig '1') (var1 'x')
def exOneParams : Params := [(['x'], true, .i64)]

/-- **C145** is false: `x > 0 ? 1 : x` for a vector of 64-bit numbers is an expression with a meaning, of 64-bit numbers. As a function with a vector of such numbers as result it is refused; as
one with a vector of 32-bit numbers it is compiled, to code that stores 64-bit numbers in a vector of 32-bit ones. -/
theorem number_first_violated : elemOf (envOf exOneParams) exOne = some (true, .i64) ∧ Reads exCfg "x > 0 ? 1 : x".toList exOne.tree ∧
    ∀ (l : List Int) (mem : Nat → List Int), runVec true exCfg Scalar.noInl exOneParams (.int .i64) mem "x > 0 ? 1 : x".toList [.vec l] = .error .compile ∧
      runVec true exCfg Scalar.noInl exOneParams (.int .i32) mem "x > 0 ? 1 : x".toList [.vec l] = .error .badCode := by
  obtain ⟨h1, h2⟩ := reads_of "x > 0 ? 1 : x".toList exOne (by simp [exOne, var1, dig, Num.Lits, Cond.Lits, decimal, isDigit])
    (by simp [exOne, var1, dig, Num.Names, Cond.Names, name1]) (by decide +kernel)
  refine ⟨by decide, ⟨_, _, h1, h2⟩, fun l mem => ⟨?_, ?_⟩⟩
  · unfold runVec
    rw [h1]
    rfl
  · unfold runVec
    rw [h1]
    rfl

/-- The same in parentheses. -/
example (mem : Nat → List Int) (hmem : ∀ m, (mem m).length = m) :
    runVec true exCfg Scalar.noInl exOneParams (.int .i64) mem "(x > 0 ? 1 : x)".toList [.vec [5, 0, -5]] = .ok [1, 0, -5] := by
  have hw : (Expr.un none (.paren exOne.tree.toExpr)).WF exCfg := by
    have := (toExpr_spec exCfg exOne.tree (Pipeline.wf_num exCfg (fun _ _ => rfl) exOne (by simp [exOne, var1, dig, Num.Lits, Cond.Lits, decimal, isDigit])
      (by simp [exOne, var1, dig, Num.Names, Cond.Names, name1]))).1
    simpa [Expr.WF, Operand.WF] using this
  have hs : parseExpression exCfg "(x > 0 ? 1 : x)".toList = .ok (.un none (.paren exOne.tree.toExpr)) [] := by
    rw [← parse_print exCfg _ hw]
    unfold parseExpression
    rw [show sourceToks "(x > 0 ? 1 : x)".toList = sourceToks (writeTokens (Expr.un none (.paren exOne.tree.toExpr)).print) from by decide +kernel]
  rw [selection_partial exCfg Scalar.noInl exOneParams (by decide) exOne (by simp [exOne, var1, dig, Num.Lits, Cond.Lits, decimal, isDigit])
    (by simp [exOne, var1, dig, numGuarded, condGuarded, Num.Safe]) (true, .i64) (by decide) (by decide) _ _ _ hs rfl (by intro c t f h; cases h) 3 (by decide) _
    (by simp only [exOneParams, Passed]; unfold IntOps.Fits; decide +kernel) mem hmem]
  decide +kernel

/-! ## C41 -/

/-- `x * -3`. -/
def exNeg : Num := .op .mul (var1 'x') (.neg (dig '3'))

/-- **C41** is false of negative constants: `x * -3` for a vector of 64-bit numbers is accepted, but its code mixes 32-bit and 64-bit numbers. -/
theorem negative_constant_violated (l : List Int) (mem : Nat → List Int) :
    Reads exCfg "x * -3".toList exNeg.tree ∧ runVec true exCfg Scalar.noInl exOneParams (.int .i64) mem "x * -3".toList [.vec l] = .error .badCode := by
  obtain ⟨h1, h2⟩ := reads_of "x * -3".toList exNeg (by simp [exNeg, var1, dig, Num.Lits, decimal, isDigit]) (by simp [exNeg, var1, dig, Num.Names, name1]) (by decide +kernel)
  refine ⟨⟨_, _, h1, h2⟩, ?_⟩
  unfold runVec
  rw [h1]
  rfl

end Verif.Comp.VecPipe
