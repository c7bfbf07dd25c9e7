import Verif.Gen.Vec
/-!
# The code of one block computes the expression in every lane
-/
namespace Verif.Gen.Vec

section
variable {Ty V Op : Type} [DecidableEq Ty] {rt : Rt Ty V Op}

theorem typePass_append (a b : List (Node Ty V Op)) : ∀ cur st, typePass rt (a ++ b) cur st = (typePass rt a cur st).bind fun r => typePass rt b r.1 r.2 := by
  induction a with
  | nil => intro cur st; rfl
  | cons n ns ih =>
    intro cur st
    show (typeStep rt n cur st).bind _ = ((typeStep rt n cur st).bind _).bind _
    cases typeStep rt n cur st with
    | error e => rfl
    | ok r => exact ih r.1 r.2

theorem checkPass_append (a b : List (RNode Ty V Op)) : ∀ st, checkPass rt (a ++ b) st = (checkPass rt a st).bind (checkPass rt b) := by
  induction a with
  | nil => intro st; rfl
  | cons n ns ih =>
    intro st
    show (checkStep rt n st).bind _ = ((checkStep rt n st).bind _).bind _
    cases checkStep rt n st with
    | error e => rfl
    | ok r => exact ih r

theorem blockPass_append (rd : Ty → Nat → Except Err (List V)) (a b : List (RNode Ty V Op)) :
    ∀ st, blockPass rt rd (a ++ b) st = (blockPass rt rd a st).bind (blockPass rt rd b) := by
  induction a with
  | nil => intro st; rfl
  | cons n ns ih =>
    intro st
    show (blockStep rt rd n st).bind _ = ((blockStep rt rd n st).bind _).bind _
    cases blockStep rt rd n st with
    | error e => rfl
    | ok r => exact ih r

theorem vecs_append (a b : List (RNode Ty V Op)) : vecs (a ++ b) = vecs a ++ vecs b := by
  induction a with
  | nil => rfl
  | cons n ns ih => cases n <;> simp [vecs, ih]

/-! ## Lanes -/

/-- Sixty-four results, or none if one is missing. -/
def lanes (g : Nat → Option V) : Except Err (List V) := match (List.range 64).mapM g with
  | none => .error .trap
  | some l => .ok l

theorem mapM_congr {α : Type} {g h : α → Option V} : ∀ {l : List α}, (∀ i, i ∈ l → g i = h i) → l.mapM g = l.mapM h := by
  intro l
  induction l with
  | nil => intro _; rfl
  | cons x xs ih =>
    intro hh
    simp only [List.mapM_cons]
    rw [hh x (by simp), ih fun i hi => hh i (by simp [hi])]

theorem mapM_none {α : Type} {g : α → Option V} : ∀ {l : List α}, l.mapM g = none ↔ ∃ i, i ∈ l ∧ g i = none := by
  intro l
  induction l with
  | nil => simp
  | cons x xs ih =>
    simp only [List.mapM_cons, List.mem_cons, exists_eq_or_imp]
    cases hx : g x with
    | none => simp
    | some y =>
      cases hxs : xs.mapM g with
      | none => simpa [hxs] using ih.1 hxs
      | some ys =>
        simp only [Option.bind_eq_bind, Option.bind_some, Option.pure_def]
        constructor
        · intro h; cases h
        · intro h
          rcases h with h | h
          · cases h
          · rw [ih.2 h] at hxs; cases hxs

theorem mapM_some {α : Type} {g : α → Option V} : ∀ {l : List α} {vs : List V}, l.mapM g = some vs → vs.length = l.length ∧ ∀ i, i < l.length → (l[i]?).bind g = vs[i]? := by
  intro l
  induction l with
  | nil => intro vs h; cases h; simp
  | cons x xs ih =>
    intro vs h
    simp only [List.mapM_cons] at h
    cases hx : g x with
    | none => rw [hx] at h; cases h
    | some y =>
      cases hxs : xs.mapM g with
      | none => rw [hx, hxs] at h; cases h
      | some ys =>
        rw [hx, hxs] at h
        cases h
        obtain ⟨h1, h2⟩ := ih hxs
        refine ⟨by simp [h1], ?_⟩
        intro i hi
        cases i with
        | zero => simpa using hx
        | succ j => simpa using h2 j (by simpa using hi)

theorem lanes_congr {g h : Nat → Option V} (hh : ∀ i, i < 64 → g i = h i) : lanes g = lanes h := by
  unfold lanes
  rw [mapM_congr fun i hi => hh i (List.mem_range.1 hi)]

theorem lanes_none {g : Nat → Option V} {i : Nat} (hi : i < 64) (hg : g i = none) : lanes g = .error .trap := by
  unfold lanes
  rw [mapM_none.2 ⟨i, List.mem_range.2 hi, hg⟩]

theorem lanes_cases (g : Nat → Option V) : (∃ i, i < 64 ∧ g i = none ∧ lanes g = .error .trap) ∨ ∃ l : List V, l.length = 64 ∧ lanes g = .ok l ∧ ∀ i, i < 64 → g i = l[i]? := by
  unfold lanes
  cases h : (List.range 64).mapM g with
  | none =>
    obtain ⟨i, hi, hg⟩ := mapM_none.1 h
    exact Or.inl ⟨i, List.mem_range.1 hi, hg, rfl⟩
  | some l =>
    obtain ⟨h1, h2⟩ := mapM_some h
    refine Or.inr ⟨l, by simpa using h1, rfl, ?_⟩
    intro i hi
    have := h2 i (by simpa using hi)
    rw [List.getElem?_range hi] at this
    exact this

theorem lanewise_eq (f : List V → Option V) (args : List (List V)) : lanewise f args = lanes fun i => (args.mapM fun a => a[i]?).bind f := rfl

theorem lanes_const (v : V) : lanes (fun _ => some v) = .ok (List.replicate 64 v) := by
  rcases lanes_cases (fun _ => some v) with ⟨i, _, h, _⟩ | ⟨l, hl, he, hg⟩
  · cases h
  · rw [he]
    congr 1
    apply List.ext_getElem?
    intro i
    by_cases hi : i < 64
    · rw [← hg i hi, List.getElem?_replicate, if_pos hi]
    · rw [List.getElem?_eq_none (by omega), List.getElem?_eq_none (by simp; omega)]

theorem lanes_list {l : List V} (hl : l.length = 64) : lanes (fun i => l[i]?) = .ok l := by
  rcases lanes_cases (fun i => l[i]?) with ⟨i, hi, h, _⟩ | ⟨m, hm, he, hg⟩
  · rw [List.getElem?_eq_none_iff] at h; omega
  · rw [he]
    congr 1
    apply List.ext_getElem?
    intro i
    by_cases hi : i < 64
    · exact (hg i hi).symm
    · rw [List.getElem?_eq_none (by omega), List.getElem?_eq_none (by omega)]

/-! ## Expressions -/

/-- Lane `i` of the loaded blocks. -/
def laneOf (ld : Ty → Nat → List V) (i : Nat) : Ty → Nat → Option V := fun t b => (ld t b)[i]?

/-- What the two passes make of an expression. -/
structure Good (rt : Rt Ty V Op) (e : VE Ty V Op) (k : Bool × Ty) (code : List (RNode Ty V Op)) : Prop where
  typed : ∀ cur st, ∃ idxs junk, typePass rt (flat e) cur st = .ok (cur ++ code, ⟨k.1, k.2, idxs⟩ :: (junk ++ st)) ∧ (isCon e = true → idxs = [cur.length]) ∧ (noCall e = true → junk = [])
  checked : ∀ st, checkPass rt code st = .ok (k.2 :: st)
  vecs : vecs code = (leaves e).map (·.2)
  block : ∀ rd ld, (∀ t b, (t, b) ∈ leaves e → rd t b = .ok (ld t b) ∧ (ld t b).length = 64) →
    ∀ st, blockPass rt rd code st = (lanes fun i => valE rt (laneOf ld i) e).bind fun l => .ok ((k.2, l) :: st)

/-- The same of an operand, after its conversion to the type `c`. -/
structure Opd (rt : Rt Ty V Op) (e : VE Ty V Op) (t c : Ty) (code code' : List (RNode Ty V Op)) : Prop where
  cast : ∀ pre post idxs, (isCon e = true → idxs = [pre.length]) → (if t = c then .ok (pre ++ code ++ post) else castLeaves rt c idxs (pre ++ code ++ post)) = .ok (pre ++ code' ++ post)
  checked : ∀ st, checkPass rt code' st = .ok (c :: st)
  vecs : vecs code' = (leaves e).map (·.2)
  len : code'.length = code.length
  block : ∀ rd ld, (∀ t b, (t, b) ∈ leaves e → rd t b = .ok (ld t b) ∧ (ld t b).length = 64) →
    ∀ st, blockPass rt rd code' st = (lanes fun i => (valE rt (laneOf ld i) e).bind (conv rt t c)).bind fun l => .ok ((c, l) :: st)

theorem opd_of {e : VE Ty V Op} {k : Bool × Ty} {code : List (RNode Ty V Op)} {c : Ty} (hg : Good rt e k code) (hk : kind rt e = some k) (hc : canBe rt c e k.2) : ∃ code', Opd rt e k.2 c code code' := by
  by_cases h : k.2 = c
  · refine ⟨code, ⟨?_, ?_, hg.vecs, rfl, ?_⟩⟩
    · intro pre post idxs _
      rw [if_pos h]
    · intro st; rw [hg.checked, h]
    · intro rd ld hl st
      rw [hg.block rd ld hl st, h]
      congr 1
      apply lanes_congr
      intro i _
      cases valE rt (laneOf ld i) e with
      | none => rfl
      | some v => simp [conv]
  · rcases hc with hc | ⟨hc, hs⟩
    · exact absurd hc h
    · cases e with
      | con t v =>
        simp only [kind, Option.some.injEq] at hk
        subst hk
        obtain ⟨f, hf⟩ := Option.isSome_iff_exists.1 hs
        have hcode : code = [.con t v] := by
          obtain ⟨idxs, junk, h1, _⟩ := hg.typed [] []
          have h2 : typePass rt (flat (.con t v : VE Ty V Op)) [] [] = .ok ([.con t v], [⟨false, t, [0]⟩]) := rfl
          rw [h2] at h1
          simp only [Except.ok.injEq, Prod.mk.injEq, List.nil_append] at h1
          exact h1.1.symm
        subst hcode
        refine ⟨[.con c (f v)], ⟨?_, ?_, rfl, rfl, ?_⟩⟩
        · intro pre post idxs hi
          rw [if_neg h, hi rfl]
          have : (pre ++ [RNode.con t v] ++ post)[pre.length]? = some (.con t v) := by simp
          simp only at h hf
          simp only [castLeaves, this, if_neg h, hf]
          simp
        · intro st; rfl
        · intro rd ld _ st
          show Except.ok _ = _
          have : (fun i => (valE rt (laneOf ld i) (.con t v)).bind (conv rt t c)) = fun _ => some (f v) := by
            funext i
            simp only at h hf
            simp [valE, conv, h, hf]
          rw [this, lanes_const]
          rfl
      | vec t b => cases hc
      | app1 o a => cases hc
      | app2 o a b => cases hc
      | app3 o a b d => cases hc
      | call1 f a => cases hc
      | call2 f a b => cases hc

theorem type_op {o : Op} {xs : List (Entry Ty)} {c : Ty} {cur cur' : List (RNode Ty V Op)} {st : List (Entry Ty)} (ha : rt.arity o = xs.length) (hn : rt.isCond o = false)
    (hc : computeTy xs = some c) (hcast : castAll rt c xs cur = .ok cur') : typeStep rt (.op o) cur (xs.reverse ++ st) =
      .ok (cur' ++ [.op o c], ⟨!rt.isCmp o && xs.any (·.vec), if rt.isCmp o = true then rt.bit else c, (xs.map (·.idxs)).flatten⟩ :: st) := by
  have h1 : ¬ (xs.reverse ++ st).length < rt.arity o := by simp [ha]
  have h2 : ((xs.reverse ++ st).take (if rt.isCond o = true then 2 else rt.arity o)).reverse = xs := by
    rw [if_neg (by simp [hn]), ha]
    simp [List.take_append]
  have h3 : (xs.reverse ++ st).drop (rt.arity o) = st := by
    rw [ha]
    simp [List.drop_append]
  unfold typeStep
  simp only [if_neg h1, h2, hc, hcast, h3]
  rfl

theorem type_cond {o : Op} {x : Entry Ty} {xs : List (Entry Ty)} {c : Ty} {cur cur' : List (RNode Ty V Op)} {st : List (Entry Ty)} (ha : rt.arity o = 3) (hl : xs.length = 2)
    (hn : rt.isCond o = true) (hc : computeTy xs = some c) (hcast : castAll rt c xs cur = .ok cur') : typeStep rt (.op o) cur (xs.reverse ++ x :: st) =
      .ok (cur' ++ [.op o c], ⟨!rt.isCmp o && xs.any (·.vec), if rt.isCmp o = true then rt.bit else c, (xs.map (·.idxs)).flatten⟩ :: st) := by
  have h1 : ¬ (xs.reverse ++ x :: st).length < rt.arity o := by simp [ha, hl]; omega
  have h2 : ((xs.reverse ++ x :: st).take (if rt.isCond o = true then 2 else rt.arity o)).reverse = xs := by
    rw [if_pos hn, ← hl]
    simp [List.take_append]
  have h3 : (xs.reverse ++ x :: st).drop (rt.arity o) = st := by
    rw [ha]
    simp [List.drop_append, hl]
  unfold typeStep
  simp only [if_neg h1, h2, hc, hcast, h3]
  rfl

theorem check_op {o : Op} {c : Ty} {ts : List Ty} {st : List Ty} {r : Ty × (List V → Option V)} (ha : rt.arity o = ts.length) (hr : rt.op o c ts = some r) :
    checkStep rt (.op o c) (ts.reverse ++ st) = .ok (r.1 :: st) := by
  have h1 : ¬ (ts.reverse ++ st).length < rt.arity o := by simp [ha]
  have h2 : ((ts.reverse ++ st).take (rt.arity o)).reverse = ts := by
    rw [ha]
    simp [List.take_append]
  have h3 : (ts.reverse ++ st).drop (rt.arity o) = st := by
    rw [ha]
    simp [List.drop_append]
  unfold checkStep
  simp only [if_neg h1, h2, hr, h3]

theorem block_op {rd : Ty → Nat → Except Err (List V)} {o : Op} {c : Ty} {zs : List (Ty × List V)} {st : List (Ty × List V)} {r : Ty × (List V → Option V)}
    (ha : rt.arity o = zs.length) (hr : rt.op o c (zs.map (·.1)) = some r) :
    blockStep rt rd (.op o c) (zs.reverse ++ st) = (lanewise r.2 (zs.map (·.2))).bind fun l => .ok ((r.1, l) :: st) := by
  have h2 : ((zs.reverse ++ st).take (rt.arity o)).reverse = zs := by
    rw [ha]
    simp [List.take_append]
  have h3 : (zs.reverse ++ st).drop (rt.arity o) = st := by
    rw [ha]
    simp [List.drop_append]
  unfold blockStep
  simp only [h2, hr, h3]

/-- Lanes of an operation whose operands are lanes. -/
theorem lanes_bind1 (f : List V → Option V) (g : Nat → Option V) (st : List (Ty × List V)) (t : Ty) :
    ((lanes g).bind fun l => (lanewise f [l]).bind fun m => Except.ok ((t, m) :: st)) = (lanes fun i => (g i).bind fun u => f [u]).bind fun m => .ok ((t, m) :: st) := by
  rcases lanes_cases g with ⟨i, hi, h, he⟩ | ⟨l, hl, he, hg⟩
  · rw [he, lanes_none (g := fun i => (g i).bind fun u => f [u]) hi (by simp [h])]
    rfl
  · rw [he]
    show (lanewise f [l]).bind _ = _
    rw [lanewise_eq]
    congr 1
    apply lanes_congr
    intro i hi
    rw [hg i hi]
    cases h : l[i]? with
    | none => simp [List.mapM_cons, h]
    | some v => simp [List.mapM_cons, h]

theorem lanes_bind2 (f : List V → Option V) (g h : Nat → Option V) (st : List (Ty × List V)) (t : Ty) :
    ((lanes g).bind fun l => (lanes h).bind fun l' => (lanewise f [l, l']).bind fun m => Except.ok ((t, m) :: st)) =
      (lanes fun i => (g i).bind fun u => (h i).bind fun v => f [u, v]).bind fun m => .ok ((t, m) :: st) := by
  rcases lanes_cases g with ⟨i, hi, hn, he⟩ | ⟨l, hl, he, hg⟩
  · rw [he, lanes_none (g := fun i => (g i).bind fun u => (h i).bind fun v => f [u, v]) hi (by simp [hn])]
    rfl
  · rcases lanes_cases h with ⟨i, hi, hn, he'⟩ | ⟨l', hl', he', hg'⟩
    · rw [he, he', lanes_none (g := fun i => (g i).bind fun u => (h i).bind fun v => f [u, v]) hi (by simp [hn])]
      rfl
    · rw [he, he']
      show (lanewise f [l, l']).bind _ = _
      rw [lanewise_eq]
      congr 1
      apply lanes_congr
      intro i hi
      rw [hg i hi, hg' i hi]
      cases h1 : l[i]? with
      | none => simp [List.mapM_cons, h1]
      | some v => cases h2 : l'[i]? with
        | none => simp [List.mapM_cons, h1, h2]
        | some w => simp [List.mapM_cons, h1, h2]

theorem lanes_bind3 (f : List V → Option V) (g h d : Nat → Option V) (st : List (Ty × List V)) (t : Ty) :
    ((lanes g).bind fun l => (lanes h).bind fun l' => (lanes d).bind fun l'' => (lanewise f [l, l', l'']).bind fun m => Except.ok ((t, m) :: st)) =
      (lanes fun i => (g i).bind fun u => (h i).bind fun v => (d i).bind fun w => f [u, v, w]).bind fun m => .ok ((t, m) :: st) := by
  rcases lanes_cases g with ⟨i, hi, hn, he⟩ | ⟨l, hl, he, hg⟩
  · rw [he, lanes_none (g := fun i => (g i).bind fun u => (h i).bind fun v => (d i).bind fun w => f [u, v, w]) hi (by simp [hn])]
    rfl
  · rcases lanes_cases h with ⟨i, hi, hn, he'⟩ | ⟨l', hl', he', hg'⟩
    · rw [he, he', lanes_none (g := fun i => (g i).bind fun u => (h i).bind fun v => (d i).bind fun w => f [u, v, w]) hi (by simp [hn])]
      rfl
    · rcases lanes_cases d with ⟨i, hi, hn, he''⟩ | ⟨l'', hl'', he'', hg''⟩
      · rw [he, he', he'', lanes_none (g := fun i => (g i).bind fun u => (h i).bind fun v => (d i).bind fun w => f [u, v, w]) hi (by simp [hn])]
        rfl
      · rw [he, he', he'']
        show (lanewise f [l, l', l'']).bind _ = _
        rw [lanewise_eq]
        congr 1
        apply lanes_congr
        intro i hi
        rw [hg i hi, hg' i hi, hg'' i hi]
        cases h1 : l[i]? with
        | none => simp [List.mapM_cons, h1]
        | some v => cases h2 : l'[i]? with
          | none => simp [List.mapM_cons, h1, h2]
          | some w => cases h3 : l''[i]? with
            | none => simp [List.mapM_cons, h1, h2, h3]
            | some z => simp [List.mapM_cons, h1, h2, h3]

theorem opOk_get {o : Op} {n : Nat} {c : Ty} {ts : List Ty} (h : opOk rt o n c ts) : rt.arity o = n ∧ ∃ r, rt.op o c ts = some r ∧ r.1 = if rt.isCmp o = true then rt.bit else c := by
  refine ⟨h.1, ?_⟩
  cases hr : rt.op o c ts with
  | none =>
    have := h.2
    rw [hr] at this
    cases this
  | some r =>
    have := h.2
    rw [hr] at this
    exact ⟨r, rfl, by simpa using this⟩

theorem good_leaf_vec (t : Ty) (b : Nat) : Good rt (.vec t b) (true, t) [.vec t b] := by
  refine ⟨?_, fun st => rfl, rfl, ?_⟩
  · intro cur st
    exact ⟨[cur.length], [], rfl, (fun h => by cases h), fun _ => rfl⟩
  · intro rd ld hl st
    obtain ⟨h1, h2⟩ := hl t b (by simp [leaves])
    show ((rd t b).bind _).bind _ = _
    rw [h1]
    have : (fun i => valE rt (laneOf ld i) (.vec t b)) = fun i => (ld t b)[i]? := rfl
    rw [this, lanes_list h2]
    rfl

theorem good_leaf_con (t : Ty) (v : V) : Good rt (.con t v) (false, t) [.con t v] := by
  refine ⟨?_, fun st => rfl, rfl, ?_⟩
  · intro cur st
    exact ⟨[cur.length], [], rfl, (fun _ => rfl), fun _ => rfl⟩
  · intro rd ld hl st
    have : (fun i => valE rt (laneOf ld i) (.con t v : VE Ty V Op)) = fun _ => some v := rfl
    rw [this, lanes_const]
    rfl

theorem good_app1 {o : Op} {a : VE Ty V Op} {k : Bool × Ty} (ih : ∀ k, kind rt a = some k → ∃ code, Good rt a k code) (hk : kind rt (.app1 o a) = some k) : ∃ code, Good rt (.app1 o a) k code := by
  cases hx : kind rt a with
  | none => simp only [kind, hx] at hk; cases hk
  | some x =>
    simp only [kind, hx, Option.bind_some] at hk
    split at hk
    case isFalse => cases hk
    case isTrue hcond =>
    obtain ⟨hn, hop⟩ := hcond
    obtain ⟨har, r, hr, hr1⟩ := opOk_get hop
    obtain ⟨ca, ga⟩ := ih x hx
    simp only [Option.some.injEq] at hk
    subst hk
    refine ⟨ca ++ [.op o x.2], ⟨?_, ?_, ?_, ?_⟩⟩
    · intro cur st
      obtain ⟨ia, ja, h1, _, hj⟩ := ga.typed cur st
      refine ⟨[ia].flatten, ja, ?_, (fun h => by cases h), hj⟩
      show typePass rt (flat a ++ [.op o]) cur st = _
      rw [typePass_append, h1]
      show (typeStep rt (.op o) (cur ++ ca) ([⟨x.1, x.2, ia⟩].reverse ++ (ja ++ st))).bind _ = _
      rw [type_op (xs := [⟨x.1, x.2, ia⟩]) (c := x.2) (cur' := cur ++ ca) (by simpa using har) hn (by cases h : x.1 <;> simp [computeTy]) (by simp [castAll, Except.bind])]
      simp [Except.bind, typePass]
    · intro st
      rw [checkPass_append, ga.checked]
      show (checkStep rt (.op o x.2) ([x.2].reverse ++ st)).bind _ = _
      rw [check_op (by simpa using har) hr, hr1]
      rfl
    · rw [vecs_append, ga.vecs]
      simp [vecs, leaves]
    · intro rd ld hl st
      rw [blockPass_append, ga.block rd ld hl]
      have : (fun i => valE rt (laneOf ld i) (.app1 o a)) = fun i => (valE rt (laneOf ld i) a).bind fun u => r.2 [u] := by
        funext i
        simp only [valE, hx, hr, Option.bind_some]
      rw [this]
      have h2 := lanes_bind1 r.2 (fun i => valE rt (laneOf ld i) a) st (if rt.isCmp o = true then rt.bit else x.2)
      rw [← h2]
      cases lanes fun i => valE rt (laneOf ld i) a with
      | error e => rfl
      | ok l =>
        show (blockStep rt rd (.op o x.2) ([(x.2, l)].reverse ++ st)).bind _ = _
        rw [block_op (by simpa using har) (by simpa using hr), hr1]
        simp only [List.map_cons, List.map_nil, Except.bind]
        cases lanewise r.2 [l] <;> rfl

theorem good_app2 {o : Op} {a b : VE Ty V Op} {k : Bool × Ty} (iha : ∀ k, kind rt a = some k → ∃ code, Good rt a k code) (ihb : ∀ k, kind rt b = some k → ∃ code, Good rt b k code)
    (hk : kind rt (.app2 o a b) = some k) : ∃ code, Good rt (.app2 o a b) k code := by
  cases hx : kind rt a with
  | none => simp only [kind, hx] at hk; cases hk
  | some x =>
  cases hy : kind rt b with
  | none => simp only [kind, hx, hy] at hk; cases hk
  | some y =>
    simp only [kind, hx, hy, Option.bind_some] at hk
    generalize hc : (if x.1 = true then x.2 else if y.1 = true then y.2 else x.2) = c at hk
    split at hk
    case isFalse => cases hk
    case isTrue hcond =>
    obtain ⟨hn, hnb, hca, hcb, hop⟩ := hcond
    obtain ⟨har, r, hr, hr1⟩ := opOk_get hop
    obtain ⟨ca, ga⟩ := iha x hx
    obtain ⟨cb, gb⟩ := ihb y hy
    obtain ⟨ca', oa⟩ := opd_of ga hx hca
    obtain ⟨cb', ob⟩ := opd_of gb hy hcb
    simp only [Option.some.injEq] at hk
    subst hk
    refine ⟨ca' ++ cb' ++ [.op o c], ⟨?_, ?_, ?_, ?_⟩⟩
    · intro cur st
      obtain ⟨ia, ja, h1, hia, hja⟩ := ga.typed cur st
      obtain ⟨ib, jb, h2, hib, hjb⟩ := gb.typed (cur ++ ca) (⟨x.1, x.2, ia⟩ :: (ja ++ st))
      obtain rfl := hjb hnb
      refine ⟨[ia, ib].flatten, ja, ?_, (fun h => by cases h), fun h => hja (by simp only [noCall, Bool.and_eq_true] at h; exact h.1)⟩
      show typePass rt (flat a ++ flat b ++ [.op o]) cur st = _
      rw [typePass_append, typePass_append, h1]
      simp only [Except.bind]
      rw [h2]
      show (typeStep rt (.op o) (cur ++ ca ++ cb) ([⟨x.1, x.2, ia⟩, ⟨y.1, y.2, ib⟩].reverse ++ (ja ++ st))).bind _ = _
      rw [type_op (xs := [⟨x.1, x.2, ia⟩, ⟨y.1, y.2, ib⟩]) (c := c) (cur' := cur ++ ca' ++ cb') (by simpa using har) hn]
      · simp [Except.bind, typePass]
      · rw [← hc]
        cases h : x.1 <;> cases h' : y.1 <;> simp [computeTy]
      · simp only [castAll]
        rw [show cur ++ ca ++ cb = cur ++ ca ++ cb from rfl, oa.cast cur cb ia hia]
        simp only [Except.bind]
        have := ob.cast (cur ++ ca') [] ib (by intro h; rw [hib h]; simp [oa.len])
        simp only [List.append_nil] at this
        rw [this]
    · intro st
      rw [checkPass_append, checkPass_append, oa.checked]
      simp only [Except.bind]
      rw [ob.checked]
      show (checkStep rt (.op o c) ([c, c].reverse ++ st)).bind _ = _
      rw [check_op (by simpa using har) hr, hr1]
      rfl
    · rw [vecs_append, vecs_append, oa.vecs, ob.vecs]
      simp [vecs, leaves]
    · intro rd ld hl st
      have hla : ∀ t b', (t, b') ∈ leaves a → rd t b' = .ok (ld t b') ∧ (ld t b').length = 64 := fun t b' h => hl t b' (by simp [leaves, h])
      have hlb : ∀ t b', (t, b') ∈ leaves b → rd t b' = .ok (ld t b') ∧ (ld t b').length = 64 := fun t b' h => hl t b' (by simp [leaves, h])
      rw [blockPass_append, blockPass_append, oa.block rd ld hla]
      have : (fun i => valE rt (laneOf ld i) (.app2 o a b)) =
          fun i => ((valE rt (laneOf ld i) a).bind (conv rt x.2 c)).bind fun u => ((valE rt (laneOf ld i) b).bind (conv rt y.2 c)).bind fun v => r.2 [u, v] := by
        funext i
        have hm : meet [x, y] = some c := by
          rw [← hc]
          cases h : x.1 <;> cases h' : y.1 <;> simp [meet, h, h']
        simp only [valE, hx, hy, hm, hr, Option.bind_some]
        cases valE rt (laneOf ld i) a with
        | none => rfl
        | some u =>
          cases valE rt (laneOf ld i) b with
          | none => simp only [Option.bind_some, Option.bind_none]; cases conv rt x.2 c u <;> rfl
          | some v => rfl
      rw [this]
      have h2 := lanes_bind2 r.2 (fun i => (valE rt (laneOf ld i) a).bind (conv rt x.2 c)) (fun i => (valE rt (laneOf ld i) b).bind (conv rt y.2 c)) st (if rt.isCmp o = true then rt.bit else c)
      rw [← h2]
      cases lanes fun i => (valE rt (laneOf ld i) a).bind (conv rt x.2 c) with
      | error e => rfl
      | ok l =>
        simp only [Except.bind]
        rw [ob.block rd ld hlb]
        cases lanes fun i => (valE rt (laneOf ld i) b).bind (conv rt y.2 c) with
        | error e => rfl
        | ok l' =>
          show (blockStep rt rd (.op o c) ([(c, l), (c, l')].reverse ++ st)).bind _ = _
          rw [block_op (by simpa using har) (by simpa using hr), hr1]
          simp only [List.map_cons, List.map_nil]
          cases lanewise r.2 [l, l'] <;> rfl

theorem good_app3 {o : Op} {a b d : VE Ty V Op} {k : Bool × Ty} (iha : ∀ k, kind rt a = some k → ∃ code, Good rt a k code) (ihb : ∀ k, kind rt b = some k → ∃ code, Good rt b k code)
    (ihd : ∀ k, kind rt d = some k → ∃ code, Good rt d k code) (hk : kind rt (.app3 o a b d) = some k) : ∃ code, Good rt (.app3 o a b d) k code := by
  cases hx : kind rt a with
  | none => simp only [kind, hx] at hk; cases hk
  | some x =>
  cases hy : kind rt b with
  | none => simp only [kind, hx, hy] at hk; cases hk
  | some y =>
  cases hz : kind rt d with
  | none => simp only [kind, hx, hy, hz] at hk; cases hk
  | some z =>
    simp only [kind, hx, hy, hz, Option.bind_some] at hk
    obtain ⟨ca, ga⟩ := iha x hx
    obtain ⟨cb, gb⟩ := ihb y hy
    obtain ⟨cd, gd⟩ := ihd z hz
    by_cases hcnd : rt.isCond o = true
    · rw [if_pos hcnd] at hk
      generalize hc : (if y.1 = true then y.2 else if z.1 = true then z.2 else y.2) = c at hk
      split at hk
      case isFalse => cases hk
      case isTrue hcond =>
      obtain ⟨hncmp, hnb, hnd, hcb, hcd, hop⟩ := hcond
      obtain ⟨har, r, hr, hr1⟩ := opOk_get hop
      rw [if_neg (by simp [hncmp])] at hr1
      obtain ⟨cb', ob⟩ := opd_of gb hy hcb
      obtain ⟨cd', od⟩ := opd_of gd hz hcd
      simp only [Option.some.injEq] at hk
      subst hk
      refine ⟨ca ++ cb' ++ cd' ++ [.op o c], ⟨?_, ?_, ?_, ?_⟩⟩
      · intro cur st
        obtain ⟨ia, ja, h1, hia, hja⟩ := ga.typed cur st
        obtain ⟨ib, jb, h2, hib, hjb⟩ := gb.typed (cur ++ ca) (⟨x.1, x.2, ia⟩ :: (ja ++ st))
        obtain rfl := hjb hnb
        obtain ⟨id, jd, h3, hid, hjd⟩ := gd.typed (cur ++ ca ++ cb) (⟨y.1, y.2, ib⟩ :: ([] ++ ⟨x.1, x.2, ia⟩ :: (ja ++ st)))
        obtain rfl := hjd hnd
        refine ⟨[ib, id].flatten, ja, ?_, (fun h => by cases h), fun h => hja (by simp only [noCall, Bool.and_eq_true] at h; exact h.1.1)⟩
        show typePass rt (flat a ++ flat b ++ flat d ++ [.op o]) cur st = _
        rw [typePass_append, typePass_append, typePass_append, h1]
        simp only [Except.bind]
        rw [h2]
        simp only
        rw [h3]
        show (typeStep rt (.op o) (cur ++ ca ++ cb ++ cd) ([⟨y.1, y.2, ib⟩, ⟨z.1, z.2, id⟩].reverse ++ ⟨x.1, x.2, ia⟩ :: (ja ++ st))).bind _ = _
        rw [type_cond (xs := [⟨y.1, y.2, ib⟩, ⟨z.1, z.2, id⟩]) (c := c) (cur' := cur ++ ca ++ cb' ++ cd') har rfl hcnd]
        · simp [Except.bind, typePass, hncmp]
        · rw [← hc]
          cases h : y.1 <;> cases h' : z.1 <;> simp [computeTy]
        · simp only [castAll]
          rw [ob.cast (cur ++ ca) cd ib hib]
          simp only [Except.bind]
          have := od.cast (cur ++ ca ++ cb') [] id (by intro h; rw [hid h]; simp [ob.len])
          simp only [List.append_nil] at this
          rw [this]
      · intro st
        rw [checkPass_append, checkPass_append, checkPass_append, ga.checked]
        simp only [Except.bind]
        rw [ob.checked]
        simp only
        rw [od.checked]
        show (checkStep rt (.op o c) ([x.2, c, c].reverse ++ st)).bind _ = _
        rw [check_op (by simpa using har) hr, hr1]
        rfl
      · rw [vecs_append, vecs_append, vecs_append, ga.vecs, ob.vecs, od.vecs]
        simp [vecs, leaves]
      · intro rd ld hl st
        have hla : ∀ t b', (t, b') ∈ leaves a → rd t b' = .ok (ld t b') ∧ (ld t b').length = 64 := fun t b' h => hl t b' (by simp [leaves, h])
        have hlb : ∀ t b', (t, b') ∈ leaves b → rd t b' = .ok (ld t b') ∧ (ld t b').length = 64 := fun t b' h => hl t b' (by simp [leaves, h])
        have hld : ∀ t b', (t, b') ∈ leaves d → rd t b' = .ok (ld t b') ∧ (ld t b').length = 64 := fun t b' h => hl t b' (by simp [leaves, h])
        rw [blockPass_append, blockPass_append, blockPass_append, ga.block rd ld hla]
        have : (fun i => valE rt (laneOf ld i) (.app3 o a b d)) =
            fun i => (valE rt (laneOf ld i) a).bind fun u => ((valE rt (laneOf ld i) b).bind (conv rt y.2 c)).bind fun v =>
              ((valE rt (laneOf ld i) d).bind (conv rt z.2 c)).bind fun w => r.2 [u, v, w] := by
          funext i
          have hm : meet [y, z] = some c := by
            rw [← hc]
            cases h : y.1 <;> cases h' : z.1 <;> simp [meet, h, h']
          simp only [valE, hx, hy, hz, hm, hr, Option.bind_some, if_pos hcnd]
          cases valE rt (laneOf ld i) a with
          | none => rfl
          | some u =>
            cases valE rt (laneOf ld i) b with
            | none => rfl
            | some v =>
              cases valE rt (laneOf ld i) d with
              | none => simp only [Option.bind_some, Option.bind_none]; cases conv rt y.2 c v <;> rfl
              | some w => rfl
        rw [this]
        have h2 := lanes_bind3 r.2 (fun i => valE rt (laneOf ld i) a) (fun i => (valE rt (laneOf ld i) b).bind (conv rt y.2 c)) (fun i => (valE rt (laneOf ld i) d).bind (conv rt z.2 c)) st c
        rw [← h2]
        cases lanes fun i => valE rt (laneOf ld i) a with
        | error e => rfl
        | ok l =>
          simp only [Except.bind]
          rw [ob.block rd ld hlb]
          cases lanes fun i => (valE rt (laneOf ld i) b).bind (conv rt y.2 c) with
          | error e => rfl
          | ok l' =>
            simp only [Except.bind]
            rw [od.block rd ld hld]
            cases lanes fun i => (valE rt (laneOf ld i) d).bind (conv rt z.2 c) with
            | error e => rfl
            | ok l'' =>
              show (blockStep rt rd (.op o c) ([(x.2, l), (c, l'), (c, l'')].reverse ++ st)).bind _ = _
              rw [block_op (by simpa using har) (by simpa using hr), hr1]
              simp only [List.map_cons, List.map_nil]
              cases lanewise r.2 [l, l', l''] <;> rfl
    · have hn : rt.isCond o = false := by cases h : rt.isCond o <;> simp_all
      rw [if_neg hcnd] at hk
      generalize hc : (if x.1 = true then x.2 else if y.1 = true then y.2 else if z.1 = true then z.2 else x.2) = c at hk
      split at hk
      case isFalse => cases hk
      case isTrue hcond =>
      obtain ⟨hnb, hnd, hca, hcb, hcd, hop⟩ := hcond
      obtain ⟨har, r, hr, hr1⟩ := opOk_get hop
      obtain ⟨ca', oa⟩ := opd_of ga hx hca
      obtain ⟨cb', ob⟩ := opd_of gb hy hcb
      obtain ⟨cd', od⟩ := opd_of gd hz hcd
      simp only [Option.some.injEq] at hk
      subst hk
      refine ⟨ca' ++ cb' ++ cd' ++ [.op o c], ⟨?_, ?_, ?_, ?_⟩⟩
      · intro cur st
        obtain ⟨ia, ja, h1, hia, hja⟩ := ga.typed cur st
        obtain ⟨ib, jb, h2, hib, hjb⟩ := gb.typed (cur ++ ca) (⟨x.1, x.2, ia⟩ :: (ja ++ st))
        obtain rfl := hjb hnb
        obtain ⟨id, jd, h3, hid, hjd⟩ := gd.typed (cur ++ ca ++ cb) (⟨y.1, y.2, ib⟩ :: ([] ++ ⟨x.1, x.2, ia⟩ :: (ja ++ st)))
        obtain rfl := hjd hnd
        refine ⟨[ia, ib, id].flatten, ja, ?_, (fun h => by cases h), fun h => hja (by simp only [noCall, Bool.and_eq_true] at h; exact h.1.1)⟩
        show typePass rt (flat a ++ flat b ++ flat d ++ [.op o]) cur st = _
        rw [typePass_append, typePass_append, typePass_append, h1]
        simp only [Except.bind]
        rw [h2]
        simp only
        rw [h3]
        show (typeStep rt (.op o) (cur ++ ca ++ cb ++ cd) ([⟨x.1, x.2, ia⟩, ⟨y.1, y.2, ib⟩, ⟨z.1, z.2, id⟩].reverse ++ (ja ++ st))).bind _ = _
        rw [type_op (xs := [⟨x.1, x.2, ia⟩, ⟨y.1, y.2, ib⟩, ⟨z.1, z.2, id⟩]) (c := c) (cur' := cur ++ ca' ++ cb' ++ cd') (by simpa using har) hn]
        · simp [Except.bind, typePass, Bool.or_assoc]
        · rw [← hc]
          cases h : x.1 <;> cases h' : y.1 <;> cases h'' : z.1 <;> simp [computeTy]
        · simp only [castAll]
          have e1 := oa.cast cur (cb ++ cd) ia hia
          have e2 := ob.cast (cur ++ ca') cd ib (by intro h; rw [hib h]; simp [oa.len])
          have e3 := od.cast (cur ++ ca' ++ cb') [] id (by intro h; rw [hid h]; simp [oa.len, ob.len])
          simp only [List.append_nil, List.append_assoc] at e1 e2 e3 ⊢
          rw [e1]
          simp only [Except.bind]
          rw [e2]
          simp only
          rw [e3]
      · intro st
        rw [checkPass_append, checkPass_append, checkPass_append, oa.checked]
        simp only [Except.bind]
        rw [ob.checked]
        simp only
        rw [od.checked]
        show (checkStep rt (.op o c) ([c, c, c].reverse ++ st)).bind _ = _
        rw [check_op (by simpa using har) hr, hr1]
        rfl
      · rw [vecs_append, vecs_append, vecs_append, oa.vecs, ob.vecs, od.vecs]
        simp [vecs, leaves]
      · intro rd ld hl st
        have hla : ∀ t b', (t, b') ∈ leaves a → rd t b' = .ok (ld t b') ∧ (ld t b').length = 64 := fun t b' h => hl t b' (by simp [leaves, h])
        have hlb : ∀ t b', (t, b') ∈ leaves b → rd t b' = .ok (ld t b') ∧ (ld t b').length = 64 := fun t b' h => hl t b' (by simp [leaves, h])
        have hld : ∀ t b', (t, b') ∈ leaves d → rd t b' = .ok (ld t b') ∧ (ld t b').length = 64 := fun t b' h => hl t b' (by simp [leaves, h])
        rw [blockPass_append, blockPass_append, blockPass_append, oa.block rd ld hla]
        have : (fun i => valE rt (laneOf ld i) (.app3 o a b d)) =
            fun i => ((valE rt (laneOf ld i) a).bind (conv rt x.2 c)).bind fun u => ((valE rt (laneOf ld i) b).bind (conv rt y.2 c)).bind fun v =>
              ((valE rt (laneOf ld i) d).bind (conv rt z.2 c)).bind fun w => r.2 [u, v, w] := by
          funext i
          have hm : meet [x, y, z] = some c := by
            rw [← hc]
            cases h : x.1 <;> cases h' : y.1 <;> cases h'' : z.1 <;> simp [meet, h, h', h'']
          simp only [valE, hx, hy, hz, hm, hr, Option.bind_some, if_neg hcnd]
          cases valE rt (laneOf ld i) a with
          | none => rfl
          | some u =>
            cases valE rt (laneOf ld i) b with
            | none => simp only [Option.bind_some, Option.bind_none]; cases conv rt x.2 c u <;> rfl
            | some v =>
              cases valE rt (laneOf ld i) d with
              | none => simp only [Option.bind_some, Option.bind_none]; cases conv rt x.2 c u <;> cases conv rt y.2 c v <;> rfl
              | some w => rfl
        rw [this]
        have h2 := lanes_bind3 r.2 (fun i => (valE rt (laneOf ld i) a).bind (conv rt x.2 c)) (fun i => (valE rt (laneOf ld i) b).bind (conv rt y.2 c))
          (fun i => (valE rt (laneOf ld i) d).bind (conv rt z.2 c)) st (if rt.isCmp o = true then rt.bit else c)
        rw [← h2]
        cases lanes fun i => (valE rt (laneOf ld i) a).bind (conv rt x.2 c) with
        | error e => rfl
        | ok l =>
          simp only [Except.bind]
          rw [ob.block rd ld hlb]
          cases lanes fun i => (valE rt (laneOf ld i) b).bind (conv rt y.2 c) with
          | error e => rfl
          | ok l' =>
            simp only [Except.bind]
            rw [od.block rd ld hld]
            cases lanes fun i => (valE rt (laneOf ld i) d).bind (conv rt z.2 c) with
            | error e => rfl
            | ok l'' =>
              show (blockStep rt rd (.op o c) ([(c, l), (c, l'), (c, l'')].reverse ++ st)).bind _ = _
              rw [block_op (by simpa using har) (by simpa using hr), hr1]
              simp only [List.map_cons, List.map_nil]
              cases lanewise r.2 [l, l', l''] <;> rfl

theorem check_call {f : Nat} {d : List Ty × Ty × (List V → Option V)} {st : List Ty} (hf : rt.fn f = some d) : checkStep rt (.call f) (d.1.reverse ++ st) = .ok (d.2.1 :: st) := by
  have h1 : ¬ (d.1.reverse ++ st).length < d.1.length := by simp
  have h2 : ((d.1.reverse ++ st).take d.1.length).reverse = d.1 := by simp [List.take_append]
  have h3 : (d.1.reverse ++ st).drop d.1.length = st := by simp [List.drop_append]
  unfold checkStep
  simp only [hf, if_neg h1, h2, h3, if_true]

theorem block_call {rd : Ty → Nat → Except Err (List V)} {f : Nat} {d : List Ty × Ty × (List V → Option V)} {zs st : List (Ty × List V)} (hf : rt.fn f = some d) (hl : d.1.length = zs.length) :
    blockStep rt rd (.call f) (zs.reverse ++ st) = (lanewise d.2.2 (zs.map (·.2))).bind fun l => .ok ((d.2.1, l) :: st) := by
  have h2 : ((zs.reverse ++ st).take d.1.length).reverse = zs := by
    rw [hl]
    simp [List.take_append]
  have h3 : (zs.reverse ++ st).drop d.1.length = st := by
    rw [hl]
    simp [List.drop_append]
  unfold blockStep
  simp only [hf, h2, h3]

theorem good_call1 {f : Nat} {a : VE Ty V Op} {k : Bool × Ty} (ih : ∀ k, kind rt a = some k → ∃ code, Good rt a k code) (hk : kind rt (.call1 f a) = some k) : ∃ code, Good rt (.call1 f a) k code := by
  cases hx : kind rt a with
  | none => simp only [kind, hx] at hk; cases hk
  | some x =>
  cases hf : rt.fn f with
  | none => simp only [kind, hx, hf] at hk; cases hk
  | some d =>
    simp only [kind, hx, hf, Option.bind_some] at hk
    split at hk
    case isFalse => cases hk
    case isTrue hd =>
    obtain ⟨ca, ga⟩ := ih x hx
    simp only [Option.some.injEq] at hk
    subst hk
    refine ⟨ca ++ [.call f], ⟨?_, ?_, ?_, ?_⟩⟩
    · intro cur st
      obtain ⟨ia, ja, h1, _, hj⟩ := ga.typed cur st
      refine ⟨[], ⟨x.1, x.2, ia⟩ :: ja, ?_, (fun h => by cases h), fun h => by cases h⟩
      show typePass rt (flat a ++ [.call f]) cur st = _
      rw [typePass_append, h1]
      simp [Except.bind, typePass, typeStep, hf]
    · intro st
      rw [checkPass_append, ga.checked]
      have := check_call (st := st) hf
      rw [hd] at this
      show (checkStep rt (.call f) ([x.2].reverse ++ st)).bind _ = _
      rw [this]
      rfl
    · rw [vecs_append, ga.vecs]
      simp [vecs, leaves]
    · intro rd ld hl st
      rw [blockPass_append, ga.block rd ld hl]
      have : (fun i => valE rt (laneOf ld i) (.call1 f a)) = fun i => (valE rt (laneOf ld i) a).bind fun u => d.2.2 [u] := by
        funext i
        simp only [valE, hf, Option.bind_some]
      rw [this]
      have h2 := lanes_bind1 d.2.2 (fun i => valE rt (laneOf ld i) a) st d.2.1
      rw [← h2]
      cases lanes fun i => valE rt (laneOf ld i) a with
      | error e => rfl
      | ok l =>
        show (blockStep rt rd (.call f) ([(x.2, l)].reverse ++ st)).bind _ = _
        rw [block_call hf (by simp [hd])]
        simp only [List.map_cons, List.map_nil, Except.bind]
        cases lanewise d.2.2 [l] <;> rfl

theorem good_call2 {f : Nat} {a b : VE Ty V Op} {k : Bool × Ty} (iha : ∀ k, kind rt a = some k → ∃ code, Good rt a k code) (ihb : ∀ k, kind rt b = some k → ∃ code, Good rt b k code)
    (hk : kind rt (.call2 f a b) = some k) : ∃ code, Good rt (.call2 f a b) k code := by
  cases hx : kind rt a with
  | none => simp only [kind, hx] at hk; cases hk
  | some x =>
  cases hy : kind rt b with
  | none => simp only [kind, hx, hy] at hk; cases hk
  | some y =>
  cases hf : rt.fn f with
  | none => simp only [kind, hx, hy, hf] at hk; cases hk
  | some d =>
    simp only [kind, hx, hy, hf, Option.bind_some] at hk
    split at hk
    case isFalse => cases hk
    case isTrue hd =>
    obtain ⟨ca, ga⟩ := iha x hx
    obtain ⟨cb, gb⟩ := ihb y hy
    simp only [Option.some.injEq] at hk
    subst hk
    refine ⟨ca ++ cb ++ [.call f], ⟨?_, ?_, ?_, ?_⟩⟩
    · intro cur st
      obtain ⟨ia, ja, h1, _, _⟩ := ga.typed cur st
      obtain ⟨ib, jb, h2, _, _⟩ := gb.typed (cur ++ ca) (⟨x.1, x.2, ia⟩ :: (ja ++ st))
      refine ⟨[], ⟨y.1, y.2, ib⟩ :: (jb ++ ⟨x.1, x.2, ia⟩ :: ja), ?_, (fun h => by cases h), fun h => by cases h⟩
      show typePass rt (flat a ++ flat b ++ [.call f]) cur st = _
      rw [typePass_append, typePass_append, h1]
      simp only [Except.bind]
      rw [h2]
      simp [Except.bind, typePass, typeStep, hf]
    · intro st
      rw [checkPass_append, checkPass_append, ga.checked]
      simp only [Except.bind]
      rw [gb.checked]
      have := check_call (st := st) hf
      rw [hd] at this
      show (checkStep rt (.call f) ([x.2, y.2].reverse ++ st)).bind _ = _
      rw [this]
      rfl
    · rw [vecs_append, vecs_append, ga.vecs, gb.vecs]
      simp [vecs, leaves]
    · intro rd ld hl st
      have hla : ∀ t b', (t, b') ∈ leaves a → rd t b' = .ok (ld t b') ∧ (ld t b').length = 64 := fun t b' h => hl t b' (by simp [leaves, h])
      have hlb : ∀ t b', (t, b') ∈ leaves b → rd t b' = .ok (ld t b') ∧ (ld t b').length = 64 := fun t b' h => hl t b' (by simp [leaves, h])
      rw [blockPass_append, blockPass_append, ga.block rd ld hla]
      have : (fun i => valE rt (laneOf ld i) (.call2 f a b)) = fun i => (valE rt (laneOf ld i) a).bind fun u => (valE rt (laneOf ld i) b).bind fun v => d.2.2 [u, v] := by
        funext i
        simp only [valE, hf, Option.bind_some]
      rw [this]
      have h2 := lanes_bind2 d.2.2 (fun i => valE rt (laneOf ld i) a) (fun i => valE rt (laneOf ld i) b) st d.2.1
      rw [← h2]
      cases lanes fun i => valE rt (laneOf ld i) a with
      | error e => rfl
      | ok l =>
        simp only [Except.bind]
        rw [gb.block rd ld hlb]
        cases lanes fun i => valE rt (laneOf ld i) b with
        | error e => rfl
        | ok l' =>
          show (blockStep rt rd (.call f) ([(x.2, l), (y.2, l')].reverse ++ st)).bind _ = _
          rw [block_call hf (by simp [hd])]
          simp only [List.map_cons, List.map_nil]
          cases lanewise d.2.2 [l, l'] <;> rfl

/-- Every expression with a kind is compiled, and the code of a block computes it in every lane. -/
theorem good (e : VE Ty V Op) : ∀ k, kind rt e = some k → ∃ code, Good rt e k code := by
  induction e with
  | vec t b => intro k hk; cases hk; exact ⟨_, good_leaf_vec t b⟩
  | con t v => intro k hk; cases hk; exact ⟨_, good_leaf_con t v⟩
  | app1 o a ih => intro k hk; exact good_app1 ih hk
  | app2 o a b iha ihb => intro k hk; exact good_app2 iha ihb hk
  | app3 o a b d iha ihb ihd => intro k hk; exact good_app3 iha ihb ihd hk
  | call1 f a ih => intro k hk; exact good_call1 ih hk
  | call2 f a b iha ihb => intro k hk; exact good_call2 iha ihb hk

end
end Verif.Gen.Vec
