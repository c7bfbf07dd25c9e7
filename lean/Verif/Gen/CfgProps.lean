import Verif.Gen.CfgSem
/-! # Compiled control flow: the theorems C36, C92 -/
namespace Verif.Gen
open Verif.Ast Verif.Ast.Validate

/-! ## Specification -/

/-- A block ends with a terminator and has no other one. -/
def OneTerminator (b : List Item) : Prop := (∃ t, b.getLast? = some t ∧ t.isTerm = true) ∧ ∀ t ∈ b.dropLast, t.isTerm = false

/-- Every block has exactly one terminator at its end, and every branch leads to a block that exists. -/
def WellFormed (s : St) : Prop :=
  (∀ id, id < s.len → OneTerminator (s.blk id)) ∧ ∀ id, id < s.len → ∀ i ∈ s.blk id, ∀ t ∈ i.targets, t < s.len ∧ Item.gone ∉ s.blk t

/-- The start of a function: the return slot has no value. -/
def start {σ V : Type} (x : σ) : Pc σ V := ⟨0, 0, (x, none)⟩

/-- The function started with state `x` returns with memory `m`. -/
def Halts {σ V : Type} (L : Lang σ V) (s : St) (x : σ) (m : Mem σ V) : Prop := ∃ k, steps L s.blk k (start x) = .halt m

def Traps {σ V : Type} (L : Lang σ V) (s : St) (x : σ) : Prop := ∃ k, steps L s.blk k (start x) = .trap

/-- Running the function leaves the code that was generated: undefined behaviour. -/
def Goes_wrong {σ V : Type} (L : Lang σ V) (s : St) (x : σ) : Prop := ∃ k, steps L s.blk k (start x) = .ub

/-- The statements, executed as structured statements, end with memory `m` (by a return or at the end of the body). -/
def Ends {σ V : Type} (L : Lang σ V) (body : Stmts) (x : σ) (m : Mem σ V) : Prop := ∃ n, execs L n body (x, none) = .next m ∨ execs L n body (x, none) = .ret m

def EndsTrap {σ V : Type} (L : Lang σ V) (body : Stmts) (x : σ) : Prop := ∃ n, execs L n body (x, none) = .trap

/-! ## Code is generated for every accepted body -/

mutual
theorem genStmt_some (splits : Expr → Bool) (x : Stmt) : ∀ loop : Option (Nat × Nat), Stmt.jumpsOk loop.isSome x → ∀ st, ∃ s, genStmt splits x loop st = some s := by
  match x with
  | .cont => intro loop h st; cases loop <;> simp [Stmt.jumpsOk, genStmt] at h ⊢
  | .brk => intro loop h st; cases loop <;> simp [Stmt.jumpsOk, genStmt] at h ⊢
  | .ret => intro loop h st; exact ⟨_, by rw [genStmt]⟩
  | .retVal e => intro loop h st; exact ⟨_, by rw [genStmt]⟩
  | .expr e => intro loop h st; exact ⟨_, by rw [genStmt]⟩
  | .whileLoop c b =>
    intro loop h st
    rw [Stmt.jumpsOk] at h
    obtain ⟨s, hs⟩ := genStmts_some splits b (some (st.len, st.len + 2)) h
      (((((((st.alloc 3).brUnless st.len).goto st.len)).prep splits c).emit (.cbr c (st.len + 1) (st.len + 2))).goto (st.len + 1))
    rw [genStmt]
    simp only [hs]
    exact ⟨_, rfl⟩
  | .ifElse c b es el =>
    intro loop h st
    rw [Stmt.jumpsOk] at h
    have h1 := genStmts_some splits b loop h.1
    have h2 := genElifs_some splits es loop h.2.1
    have h3 := genElse_some splits el loop h.2.2
    rw [genStmt]
    try simp only
    generalize (((st.prep splits c).alloc _).emit _).goto _ = st1
    obtain ⟨s1, e1⟩ := h1 st1
    rw [e1]
    simp only [Option.bind_some]
    obtain ⟨s2, e2⟩ := h2 ((st.prep splits c).len + 1) (if hasElse el = true then some ((st.prep splits c).len + 1 + 2 * elifCount es) else none)
      ((st.prep splits c).len + 1 + 2 * elifCount es + if hasElse el = true then 1 else 0)
      (s1.brUnless ((st.prep splits c).len + 1 + 2 * elifCount es + if hasElse el = true then 1 else 0))
    rw [e2]
    simp only [Option.bind_some]
    obtain ⟨s3, e3⟩ := h3 (if hasElse el = true then some ((st.prep splits c).len + 1 + 2 * elifCount es) else none)
      ((st.prep splits c).len + 1 + 2 * elifCount es + if hasElse el = true then 1 else 0) s2
    rw [e3]
    exact ⟨_, rfl⟩
theorem genElifs_some (splits : Expr → Bool) (es : Elifs) : ∀ loop : Option (Nat × Nat), Elifs.jumpsOk loop.isSome es → ∀ a b c st, ∃ s, genElifs splits es loop a b c st = some s := by
  match es with
  | .nil => intro loop h a b c st; exact ⟨_, by rw [genElifs]⟩
  | .cons cd bd es =>
    intro loop h a b c st
    rw [Elifs.jumpsOk] at h
    have h1 := genStmts_some splits bd loop h.1
    have h2 := genElifs_some splits es loop h.2
    rw [genElifs]
    try simp only
    obtain ⟨s1, e1⟩ := h1 ((((st.goto a).prep splits cd).emit (.cbr cd (a + 1) (nextBlock es (a + 2) b c))).goto (a + 1))
    rw [e1]
    simp only [Option.bind_some]
    exact h2 _ _ _ _
theorem genElse_some (splits : Expr → Bool) (el : Else) : ∀ loop : Option (Nat × Nat), Else.jumpsOk loop.isSome el → ∀ b c st, ∃ s, genElse splits el loop b c st = some s := by
  match el with
  | .none => intro loop h b c st; exact ⟨_, by rw [genElse]⟩
  | .some bd =>
    intro loop h b c st
    rw [Else.jumpsOk] at h
    have h1 := genStmts_some splits bd loop h
    cases b with
    | none => exact ⟨_, by rw [genElse]⟩
    | some b =>
      rw [genElse]
      obtain ⟨s1, e1⟩ := h1 (st.goto b)
      rw [e1]
      exact ⟨_, rfl⟩
theorem genStmts_some (splits : Expr → Bool) (b : Stmts) : ∀ loop : Option (Nat × Nat), Stmts.jumpsOk loop.isSome b → ∀ st, ∃ s, genStmts splits b loop st = some s := by
  match b with
  | .nil => intro loop h st; exact ⟨_, by rw [genStmts]⟩
  | .cons x xs =>
    intro loop h st
    rw [Stmts.jumpsOk] at h
    have h1 := genStmt_some splits x loop h.1
    have h2 := genStmts_some splits xs loop h.2
    rw [genStmts]
    obtain ⟨s1, e1⟩ := h1 st
    rw [e1]
    exact h2 s1
end

/-- **C36.** For every accepted body (C33) code is generated: a `break` or `continue` always finds its loop. -/
theorem accepted_body_generates (splits : Expr → Bool) (body : Stmts) (h : Stmts.jumpsOk false body) : ∃ s, genFunction splits body = some s := by
  obtain ⟨s, hs⟩ := genStmts_some splits body none h St.init
  exact ⟨_, by rw [genFunction, hs]; rfl⟩

/-! ## The whole function -/

theorem init_inv : Inv none St.init where
  cur_lt := by decide
  fresh := fun _ _ => rfl
  ok := .inl opn_nil
  hits := by
    rintro t (rfl | ⟨l, hl, _⟩)
    · exact ⟨by decide, by simp [St.init]⟩
    · cases hl
  tok := by rintro t ⟨id, i, hi, _⟩; simp [St.init] at hi

theorem good_one {b : List Item} (h : Good b) : OneTerminator b := by
  obtain ⟨a, t, rfl, ha, ht⟩ := h
  refine ⟨⟨t, by simp, ht⟩, ?_⟩
  rw [List.dropLast_concat]; exact ha

/-- **C36, the part that holds: form.** If no statement but a loop follows a statement that always jumps, and every `elif` and `else` body consists of simple statements or always jumps
(`Clean`), then every block of the generated function has exactly one terminator, at its end, and every branch leads to a block of the function. -/
theorem blocks_well_formed_partial (splits : Expr → Bool) (body : Stmts) (hc : Stmts.Clean splits body) (s : St) (hg : genFunction splits body = some s) : WellFormed s := by
  rw [genFunction] at hg
  obtain ⟨s0, h0, rfl⟩ := Option.map_eq_some_iff.1 hg
  have hsh := genStmts_shape splits body hc none St.init s0 init_inv (.inl rfl) h0
  have gs := hsh.gs
  have hinv := gs.inv init_inv
  have h1 := gs.brUnless (s := s0) init_inv.ok init_inv.cur_lt 1 ⟨fun _ => .inl rfl, fun h => absurd h (by decide)⟩
  have hcl := brUnless_closed s0 1
  have hinv1 := h1.inv init_inv
  have hlen : (s0.brUnless 1).len = s0.len := by unfold St.brUnless; split <;> rfl
  have hcur : (s0.brUnless 1).cur = s0.cur := by unfold St.brUnless; split <;> rfl
  rw [hcur] at hcl
  generalize hs1 : s0.brUnless 1 = s1 at *
  have hb1 : s1.blk 1 = [] := h1.frame 1 (by decide) (by decide)
  have hl := h1.len_le
  have hl : 2 ≤ s1.len := hl
  have hgood : ∀ id, id < s1.len → id ≠ 1 → Good (s1.blk id) := by
    intro id hid hn
    by_cases h2 : 2 ≤ id
    · obtain ⟨ho, hc⟩ := h1.new id h2 hid (fun x => x)
      by_cases e : id = s1.cur
      · exact ok_good ho (by rw [e, hcur]; exact hcl)
      · exact ok_good ho (hc e)
    · have : id = 0 := by omega
      subst this
      refine ok_good (h1.ok_cur init_inv.ok) ?_
      by_cases e : s1.cur = 0
      · show closed (s1.blk 0) = true
        rw [← e, hcur]; exact hcl
      · exact h1.moved e
  have hblk : ∀ id, (((s1.goto 1).emit .ret).blk id) = if id = 1 then [.ret] else s1.blk id := by
    intro id
    by_cases e : id = 1
    · subst e
      have := emit_cur (s1.goto 1) .ret
      rw [if_pos rfl]
      exact this.trans (by show s1.blk 1 ++ [Item.ret] = [Item.ret]; rw [hb1]; rfl)
    · rw [if_neg e]; exact emit_other (s1.goto 1) .ret id e
  refine ⟨fun id hid => ?_, fun id hid i hi t ht => ?_⟩
  · rw [hblk]
    split
    · exact good_one ⟨[], .ret, rfl, opn_nil, rfl⟩
    · rename_i e; exact good_one (hgood id hid e)
  · rw [hblk] at hi
    split at hi
    · simp at hi; subst hi; cases ht
    · have := hinv1.tok t ⟨id, i, hi, ht⟩
      refine ⟨this.1, ?_⟩
      rw [hblk]
      split
      · simp
      · exact this.2

/-- The generated function does what the statements say. -/
theorem function_does {σ V : Type} (L : Lang σ V) (splits : Expr → Bool) (body : Stmts) (hc : Stmts.Clean splits body) (s : St) (hg : genFunction splits body = some s) (n : Nat) (x : σ) :
    (∀ m, (execs L n body (x, none) = .next m ∨ execs L n body (x, none) = .ret m) → Halts L s x m) ∧ (execs L n body (x, none) = .trap → Traps L s x) ∧
      (execs L n body (x, none) = .more → ∃ k, n ≤ k ∧ ∃ q, steps L s.blk k (start x) = .run q) ∧
      ∀ m, execs L n body (x, none) ≠ .brk m ∧ execs L n body (x, none) ≠ .cont m := by
  rw [genFunction] at hg
  obtain ⟨s0, h0, rfl⟩ := Option.map_eq_some_iff.1 hg
  have hsh := genStmts_shape splits body hc none St.init s0 init_inv (.inl rfl) h0
  have hb1 : (s0.brUnless 1).blk 1 = [] := by
    have h1 := hsh.gs.brUnless (s := s0) init_inv.ok init_inv.cur_lt 1 ⟨fun _ => .inl rfl, fun h => absurd h (by decide)⟩
    exact h1.frame 1 (by decide) (by decide)
  have hlr : Later (s0.brUnless 1) (((s0.brUnless 1).goto 1).emit .ret) := by
    refine (Later.goto _ 1).trans (Later.emit _ _ ?_)
    show closed ((s0.brUnless 1).blk 1) = false
    rw [hb1]; rfl
  have hbd := body_does (L := L) splits n body (genStmts_shape splits body hc) (genStmts_sem splits n body hc) init_inv rfl h0 1 hlr (x, none)
  have hfin : ∀ m : Mem σ V, steps L (((s0.brUnless 1).goto 1).emit .ret).blk 1 ⟨1, 0, m⟩ = .halt m := by
    intro m
    have e1 : (((s0.brUnless 1).goto 1).emit .ret).blk 1 = [.ret] := by
      refine (emit_cur ((s0.brUnless 1).goto 1) .ret).trans ?_
      show (s0.brUnless 1).blk 1 ++ [Item.ret] = [Item.ret]
      rw [hb1]; rfl
    simp only [steps, step, e1]
    rfl
  refine ⟨?_, ?_, ?_, ?_⟩
  · rintro m (h | h)
    · rw [h] at hbd
      obtain ⟨k, hk⟩ := hbd
      exact ⟨_, steps_trans L _ hk (hfin m)⟩
    · rw [h] at hbd
      obtain ⟨k, hk⟩ := hbd
      exact ⟨_, steps_trans L _ hk (hfin m)⟩
  · intro h; rw [h] at hbd; exact hbd
  · intro h; rw [h] at hbd; exact hbd
  · intro m
    constructor
    · intro h; rw [h] at hbd; obtain ⟨l, hl, _⟩ := hbd; cases hl
    · intro h; rw [h] at hbd; obtain ⟨l, hl, _⟩ := hbd; cases hl

theorem steps_done {σ V : Type} (L : Lang σ V) (F : Nat → List Item) {a b : Nat} {p q : Pc σ V} {r : Res σ V} (h : steps L F a p = r) (hr : ∀ q, r ≠ .run q) (hb : a ≤ b) :
    steps L F b p ≠ .run q := by
  obtain ⟨c, rfl⟩ := Nat.exists_eq_add_of_le hb
  rw [steps_add, h]
  cases r with
  | run q => exact absurd rfl (hr q)
  | halt m => simp
  | trap => simp
  | ub => simp

theorem steps_det {σ V : Type} (L : Lang σ V) (F : Nat → List Item) {a b : Nat} {p : Pc σ V} {r r' : Res σ V} (h : steps L F a p = r) (hr : ∀ q, r ≠ .run q)
    (h' : steps L F b p = r') (hr' : ∀ q, r' ≠ .run q) : r = r' := by
  have key : ∀ {a b : Nat} {r r' : Res σ V}, a ≤ b → steps L F a p = r → (∀ q, r ≠ .run q) → steps L F b p = r' → r = r' := by
    intro a b r r' hab h hr h'
    obtain ⟨c, rfl⟩ := Nat.exists_eq_add_of_le hab
    rw [steps_add, h] at h'
    cases r with
    | run q => exact absurd rfl (hr q)
    | halt m => exact h'
    | trap => exact h'
    | ub => exact h'
  rcases Nat.le_total a b with hab | hab
  · exact key hab h hr h'
  · exact (key hab h' hr' h).symm

/-- Every end of a run of the machine is an end of the statements. -/
theorem run_cases {σ V : Type} (L : Lang σ V) (splits : Expr → Bool) (body : Stmts) (hc : Stmts.Clean splits body) (s : St) (hg : genFunction splits body = some s) (x : σ) (k : Nat)
    (r : Res σ V) (h : steps L s.blk k (start x) = r) (hr : ∀ q, r ≠ .run q) : (∃ m, r = .halt m ∧ Ends L body x m) ∨ (r = .trap ∧ EndsTrap L body x) := by
  obtain ⟨h1, h2, h3, h4⟩ := function_does L splits body hc s hg k x
  cases ho : execs L k body (x, none) with
  | next m =>
    obtain ⟨j, hj⟩ := h1 m (.inl ho)
    exact .inl ⟨m, steps_det L s.blk h hr hj (by simp), k, .inl ho⟩
  | ret m =>
    obtain ⟨j, hj⟩ := h1 m (.inr ho)
    exact .inl ⟨m, steps_det L s.blk h hr hj (by simp), k, .inr ho⟩
  | trap =>
    obtain ⟨j, hj⟩ := h2 ho
    exact .inr ⟨steps_det L s.blk h hr hj (by simp), k, ho⟩
  | more =>
    obtain ⟨j, hj, q, hq⟩ := h3 ho
    exact absurd hq (steps_done L s.blk h hr hj)
  | brk m => exact absurd ho (h4 m).1
  | cont m => exact absurd ho (h4 m).2

/-- **C36, the part that holds: meaning.** For every meaning of the expressions (in particular one whose state records every evaluation), a `Clean` function returns exactly when its
statements end, with the same state and return value; traps exactly when they trap; and never leaves the generated code. A run that does none of these goes on forever, as the statements do. -/
theorem control_flow_partial {σ V : Type} (L : Lang σ V) (splits : Expr → Bool) (body : Stmts) (hc : Stmts.Clean splits body) (s : St) (hg : genFunction splits body = some s) (x : σ) :
    (∀ m, Halts L s x m ↔ Ends L body x m) ∧ (Traps L s x ↔ EndsTrap L body x) ∧ ¬Goes_wrong L s x := by
  refine ⟨fun m => ⟨?_, ?_⟩, ⟨?_, ?_⟩, ?_⟩
  · rintro ⟨k, hk⟩
    rcases run_cases L splits body hc s hg x k _ hk (by simp) with ⟨m', e, h⟩ | ⟨e, _⟩
    · cases e; exact h
    · cases e
  · rintro ⟨n, hn⟩
    exact (function_does L splits body hc s hg n x).1 m hn
  · rintro ⟨k, hk⟩
    rcases run_cases L splits body hc s hg x k _ hk (by simp) with ⟨m', e, h⟩ | ⟨_, h⟩
    · cases e
    · exact h
  · rintro ⟨n, hn⟩
    exact (function_does L splits body hc s hg n x).2.1 hn
  · rintro ⟨k, hk⟩
    rcases run_cases L splits body hc s hg x k _ hk (by simp) with ⟨m', e, h⟩ | ⟨e, _⟩
    · cases e
    · cases e

/-! ### A program the theorem applies to, and programs it does not -/

/-- Expressions for the examples: the variables `c`, `d`. -/
def ec : Expr := .un none (.var ['c'])
def ed : Expr := .un none (.var ['d'])

/-- `while (c) { if (d) { break; } elif (c) { d; } else { continue; } d; } return d;` -/
def sample : Stmts :=
  .cons (.whileLoop ec (.cons (.ifElse ed (.cons .brk .nil) (.cons ec (.cons (.expr ed) .nil) .nil) (.some (.cons .cont .nil))) (.cons (.expr ed) .nil))) (.cons (.retVal ed) .nil)

example : Stmts.Clean (fun _ => false) sample ∧ Stmts.jumpsOk false sample := by
  simp [sample, Stmts.Clean, Stmt.Clean, Elifs.Clean, Else.Clean, Stmt.ends, Stmts.ends, Elifs.ends, Else.ends, Stmts.flat, Stmt.flat, Stmts.jumpsOk, Stmt.jumpsOk, Elifs.jumpsOk,
    Else.jumpsOk, Stmts.startsWhile]

/-- `if (d) {} else { if (c) {} }`: the body of `else` ends with a nested statement. -/
def nestedElse : Stmts := .cons (.ifElse ed .nil .nil (.some (.cons (.ifElse ec .nil .nil .none) .nil))) .nil

/-- `if (d) {} elif (c) { while (d) {} }` -/
def nestedElif : Stmts := .cons (.ifElse ed .nil (.cons ec (.cons (.whileLoop ed .nil) .nil) .nil) .none) .nil

/-- `if (d) {} else { c; }`, to be compiled with `c` a vector expression. -/
def vectorElse : Stmts := .cons (.ifElse ed .nil .nil (.some (.cons (.expr ec) .nil))) .nil

/-- `return; c;` -/
def afterReturn : Stmts := .cons .ret (.cons (.expr ec) .nil)

/-- Expressions without effect; `c` is true, `d` is false. -/
def cd : Lang Unit Bool := ⟨fun e _ => some ((), match e with | .un none (.var ['c']) => true | _ => false), id⟩

/-- **C36, violated.** Accepted functions whose compiled code runs into a block without terminator, or past a terminator, although the statements end normally: an `else` body that ends
with a nested `if`, an `elif` body that ends with a loop, an `else` body that ends with a vector expression, a statement after `return`. -/
theorem control_flow_violated :
    (∀ b, b = nestedElse ∨ b = nestedElif ∨ b = afterReturn →
      Stmts.jumpsOk false b ∧ ∃ s, genFunction (fun _ => false) b = some s ∧ ¬WellFormed s ∧ Goes_wrong cd s () ∧ Ends cd b () ((), none)) ∧
    Stmts.jumpsOk false vectorElse ∧
      ∃ s, genFunction (fun e => match e with | .un none (.var ['c']) => true | _ => false) vectorElse = some s ∧ ¬WellFormed s ∧ Goes_wrong cd s () ∧ Ends cd vectorElse () ((), none) := by
  have nwf : ∀ s : St, Goes_wrong cd s () → (∃ id, id < s.len ∧ ¬OneTerminator (s.blk id)) → ¬WellFormed s := fun s _ ⟨id, h, hn⟩ hw => hn (hw.1 id h)
  have h1 : ∀ b : List Item, (b.getLast?.any Item.isTerm = false ∨ b.dropLast.any Item.isTerm = true) → ¬OneTerminator b := by
    rintro b (h | h) ⟨⟨t, ht, hi⟩, hd⟩
    · rw [ht] at h; simp [hi] at h
    · rw [List.any_eq_true] at h
      obtain ⟨x, hx, hi⟩ := h
      rw [hd x hx] at hi; cases hi
  have key : ∀ (sp : Expr → Bool) (b : Stmts) (s : St) (k id : Nat) (n : Nat), genFunction sp b = some s → steps cd s.blk k (start ()) = .ub → id < s.len →
      ((s.blk id).getLast?.any Item.isTerm = false ∨ (s.blk id).dropLast.any Item.isTerm = true) →
      (execs cd n b ((), none) = .next ((), none) ∨ execs cd n b ((), none) = .ret ((), none)) →
      ∃ s, genFunction sp b = some s ∧ ¬WellFormed s ∧ Goes_wrong cd s () ∧ Ends cd b () ((), none) := fun sp b s k id n a1 a2 a3 a4 a5 =>
    ⟨s, a1, nwf s ⟨k, a2⟩ ⟨id, a3, h1 _ a4⟩, ⟨k, a2⟩, n, a5⟩
  refine ⟨?_, ?_, ?_⟩
  · rintro b (rfl | rfl | rfl)
    · refine ⟨by simp [nestedElse, Stmts.jumpsOk, Stmt.jumpsOk, Elifs.jumpsOk, Else.jumpsOk], key _ _ _ 5 6 1 rfl ?_ (by decide +kernel) ?_ ?_⟩
      · rfl
      · left; rfl
      · left; rfl
    · refine ⟨by simp [nestedElif, Stmts.jumpsOk, Stmt.jumpsOk, Elifs.jumpsOk, Else.jumpsOk], key _ _ _ 6 8 1 rfl ?_ (by decide +kernel) ?_ ?_⟩
      · rfl
      · left; rfl
      · left; rfl
    · refine ⟨by simp [afterReturn, Stmts.jumpsOk, Stmt.jumpsOk], key _ _ _ 5 0 1 rfl ?_ (by decide +kernel) ?_ ?_⟩
      · rfl
      · right; rfl
      · right; rfl
  · simp [vectorElse, Stmts.jumpsOk, Stmt.jumpsOk, Elifs.jumpsOk, Else.jumpsOk]
  · refine key _ _ _ 6 5 1 rfl ?_ (by decide +kernel) ?_ ?_
    · rfl
    · left; rfl
    · left; rfl

/-! ## C92: the returned value -/

mutual
/-- No `return` without a value. -/
def Stmt.noBare : Stmt → Prop
  | .ret => False
  | .whileLoop _ b => Stmts.noBare b
  | .ifElse _ b es el => Stmts.noBare b ∧ Elifs.noBare es ∧ Else.noBare el
  | .cont => True
  | .brk => True
  | .retVal _ => True
  | .expr _ => True
def Stmts.noBare : Stmts → Prop
  | .nil => True
  | .cons s ss => Stmt.noBare s ∧ Stmts.noBare ss
def Elifs.noBare : Elifs → Prop
  | .nil => True
  | .cons _ b es => Stmts.noBare b ∧ Elifs.noBare es
def Else.noBare : Else → Prop
  | .none => True
  | .some b => Stmts.noBare b
end

mutual
/-- `return e` is one of the statements. -/
def Stmt.returns (e : Expr) : Stmt → Prop
  | .retVal e' => e' = e
  | .whileLoop _ b => Stmts.returns e b
  | .ifElse _ b es el => Stmts.returns e b ∨ Elifs.returns e es ∨ Else.returns e el
  | .cont => False
  | .brk => False
  | .ret => False
  | .expr _ => False
def Stmts.returns (e : Expr) : Stmts → Prop
  | .nil => False
  | .cons s ss => Stmt.returns e s ∨ Stmts.returns e ss
def Elifs.returns (e : Expr) : Elifs → Prop
  | .nil => False
  | .cons _ b es => Stmts.returns e b ∨ Elifs.returns e es
def Else.returns (e : Expr) : Else → Prop
  | .none => False
  | .some b => Stmts.returns e b
end

section
variable {σ V : Type} (L : Lang σ V) (n : Nat)

/-- The value is that of one of the return statements, evaluated in some state, which it left as the final state. -/
def FromReturn (p : Expr → Prop) (m : Mem σ V) : Prop := ∃ e y v, p e ∧ L.eval e y = some (m.1, v) ∧ m.2 = some v

theorem FromReturn.mono {p q : Expr → Prop} {m : Mem σ V} (h : FromReturn L p m) (hpq : ∀ e, p e → q e) : FromReturn L q m := by
  obtain ⟨e, y, v, h1, h2, h3⟩ := h
  exact ⟨e, y, v, hpq e h1, h2, h3⟩

theorem cond_ret {c : Expr} {m m' : Mem σ V} {T U : Mem σ V → Out σ V} {p : Expr → Prop} (ht : ∀ m, T m = .ret m' → FromReturn L p m') (hu : ∀ m, U m = .ret m' → FromReturn L p m')
    (h : cond L c m T U = .ret m') : FromReturn L p m' := by
  unfold cond at h
  cases he : L.eval c m.1 with
  | none => rw [he] at h; cases h
  | some r =>
    rw [he] at h
    simp only at h
    split at h
    · exact ht _ h
    · exact hu _ h

mutual
theorem exec_ret (x : Stmt) (h : Stmt.noBare x) : ∀ m m', exec L n x m = .ret m' → FromReturn L (fun e => Stmt.returns e x) m' := by
  match x with
  | .cont => intro m m' h; simp [exec] at h
  | .brk => intro m m' h; simp [exec] at h
  | .ret => simp [Stmt.noBare] at h
  | .retVal e =>
    intro m m' h
    rw [exec] at h
    cases he : L.eval e m.1 with
    | none => rw [he] at h; cases h
    | some r => rw [he] at h; cases h; exact ⟨e, m.1, r.2, rfl, he, rfl⟩
  | .expr e =>
    intro m m' h
    rw [exec] at h
    cases he : L.eval e m.1 <;> rw [he] at h <;> cases h
  | .whileLoop c b =>
    rw [Stmt.noBare] at h
    have hb := execs_ret b h
    intro m m' hx
    rw [exec] at hx
    have key : ∀ j m, iterate L c (execs L n b) j m = .ret m' → FromReturn L (fun e => Stmts.returns e b) m' := by
      intro j
      induction j with
      | zero => intro m h; cases h
      | succ j ih =>
        intro m h
        rw [iterate] at h
        refine cond_ret L ?_ ?_ h
        · intro m1 h1
          try simp only at h1
          cases he : execs L n b m1 with
          | next m2 => rw [he] at h1; exact ih _ h1
          | cont m2 => rw [he] at h1; exact ih _ h1
          | brk m2 => rw [he] at h1; cases h1
          | ret m2 => rw [he] at h1; cases h1; exact hb _ _ he
          | trap => rw [he] at h1; cases h1
          | more => rw [he] at h1; cases h1
        · intro m1 h1; cases h1
    exact (key n m hx).mono L (fun e he => by rw [Stmt.returns]; exact he)
  | .ifElse c b es el =>
    rw [Stmt.noBare] at h
    have hb := execs_ret b h.1
    have hes := execElifs_ret es h.2.1
    have hel := execElse_ret el h.2.2
    intro m m' hx
    rw [exec] at hx
    refine cond_ret L ?_ ?_ hx
    · intro m1 h1; exact (hb _ _ h1).mono L (fun e he => by rw [Stmt.returns]; exact .inl he)
    · intro m1 h1
      rcases hes _ _ _ h1 with h2 | ⟨m2, h2⟩
      · exact h2.mono L (fun e he => by rw [Stmt.returns]; exact .inr (.inl he))
      · exact (hel _ _ h2).mono L (fun e he => by rw [Stmt.returns]; exact .inr (.inr he))
theorem execElifs_ret (es : Elifs) (h : Elifs.noBare es) : ∀ (k : Mem σ V → Out σ V) m m', execElifs L n es k m = .ret m' →
    FromReturn L (fun e => Elifs.returns e es) m' ∨ ∃ m2, k m2 = .ret m' := by
  match es with
  | .nil => intro k m m' hx; rw [execElifs] at hx; exact .inr ⟨m, hx⟩
  | .cons c b es =>
    rw [Elifs.noBare] at h
    have hb := execs_ret b h.1
    have hes := execElifs_ret es h.2
    intro k m m' hx
    rw [execElifs] at hx
    unfold cond at hx
    cases he : L.eval c m.1 with
    | none => rw [he] at hx; cases hx
    | some r =>
      rw [he] at hx
      simp only at hx
      split at hx
      · exact .inl ((hb _ _ hx).mono L (fun e he => by rw [Elifs.returns]; exact .inl he))
      · rcases hes _ _ _ hx with h2 | h2
        · exact .inl (h2.mono L (fun e he => by rw [Elifs.returns]; exact .inr he))
        · exact .inr h2
theorem execElse_ret (el : Else) (h : Else.noBare el) : ∀ m m', execElse L n el m = .ret m' → FromReturn L (fun e => Else.returns e el) m' := by
  match el with
  | .none => intro m m' h; simp [execElse] at h
  | .some b =>
    rw [Else.noBare] at h
    have hb := execs_ret b h
    intro m m' hx
    rw [execElse] at hx
    exact (hb _ _ hx).mono L (fun e he => by rw [Else.returns]; exact he)
theorem execs_ret (b : Stmts) (h : Stmts.noBare b) : ∀ m m', execs L n b m = .ret m' → FromReturn L (fun e => Stmts.returns e b) m' := by
  match b with
  | .nil => intro m m' h; simp [execs] at h
  | .cons x xs =>
    rw [Stmts.noBare] at h
    have hx := exec_ret x h.1
    have hxs := execs_ret xs h.2
    intro m m' hh
    rw [execs] at hh
    cases he : exec L n x m with
    | next m1 => rw [he] at hh; exact (hxs _ _ hh).mono L (fun e he => by rw [Stmts.returns]; exact .inr he)
    | ret m1 => rw [he] at hh; cases hh; exact (hx _ _ he).mono L (fun e he => by rw [Stmts.returns]; exact .inl he)
    | brk m1 => rw [he] at hh; cases hh
    | cont m1 => rw [he] at hh; cases hh
    | trap => rw [he] at hh; cases hh
    | more => rw [he] at hh; cases hh
end
end

/-- **C92, the part that holds.** A `Clean` function in which every path ends with a jump and every `return` has a value returns the value of one of its return statements. -/
theorem returns_a_value_partial {σ V : Type} (L : Lang σ V) (splits : Expr → Bool) (body : Stmts) (hc : Stmts.Clean splits body) (he : Stmts.ends body = true) (hn : Stmts.noBare body)
    (s : St) (hg : genFunction splits body = some s) (x : σ) (m : Mem σ V) (h : Halts L s x m) :
    ∃ e y v, Stmts.returns e body ∧ L.eval e y = some (m.1, v) ∧ m.2 = some v := by
  obtain ⟨n, hx | hx⟩ := ((control_flow_partial L splits body hc s hg x).1 m).1 h
  · exact absurd hx (execs_ends L n body he _ _)
  · exact execs_ret L n body hn _ _ hx

/-- The hypotheses are met by the sample. -/
example : Stmts.ends sample = true ∧ Stmts.noBare sample := by
  simp [sample, Stmts.ends, Stmt.ends, Stmts.noBare, Stmt.noBare, Elifs.noBare, Else.noBare]

/-- **C92, violated.** For every return type and every typing of expressions, the empty body and the body `return;` are accepted; the compiled function returns without a value having been
stored in the return slot: the caller reads uninitialised memory. The same happens when a condition is false: `if (d) { return d; }`. -/
theorem returns_a_value_violated :
    (∀ (σ T : Type) (ty : Types σ T) (ret : T) (t : σ) (b : Stmts), b = .nil ∨ b = .cons .ret .nil → (vStmts ty ret b t 0).1 = none ∧
      ∃ s, genFunction (fun _ => false) b = some s ∧ ∀ (S V : Type) (L : Lang S V) (x : S), Halts L s x (x, none)) ∧
    ∃ s, genFunction (fun _ => false) (.cons (.ifElse ed (.cons (.retVal ed) .nil) .nil .none) .nil) = some s ∧ Halts cd s () ((), none) := by
  refine ⟨?_, ?_⟩
  · rintro σ T ty ret t b (rfl | rfl)
    · exact ⟨rfl, _, rfl, fun S V L x => ⟨2, rfl⟩⟩
    · refine ⟨?_, _, rfl, fun S V L x => ⟨2, rfl⟩⟩
      simp [vStmts, vStmt, Res.next]
  · exact ⟨_, rfl, 3, rfl⟩

end Verif.Gen
