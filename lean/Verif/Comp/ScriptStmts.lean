import Verif.Comp.ScriptCode
/-!
# Lemmas about scripts: statements
-/
namespace Verif.Comp.Script
open Verif.Ast Verif.Ast.Rpn Verif.Gen Verif.Gen.Scalar Verif.Types.Conv Verif.Comp.Pipeline Verif.Comp.Function

/-! ## Statements that are read as commands -/

mutual
theorem is_ends (c : Cmd) (s : Stmt) (h : c.Is s) : Stmt.ends s = c.ends := by
  match c with
  | .define _ _ | .assign _ _ | .update _ _ _ | .eval _ | .ret _ | .brk | .cont | .loop _ _ => cases h <;> rfl
  | .branch _ b rest => cases h with | branch _ h1 h2 => rw [Stmt.ends, Cmd.ends, is_endss b _ h1, Bool.and_assoc, is_endsR rest _ _ h2]
theorem is_endss (c : Cmds) (s : Stmts) (h : c.Is s) : Stmts.ends s = c.ends := by
  match c with
  | .nil => cases h; rfl
  | .cons c .nil => cases h with | cons h1 h2 => cases h2; rw [Stmts.ends, Cmds.ends]; exact is_ends c _ h1
  | .cons c (.cons d ds) => cases h with | cons h1 h2 => cases h2 with | cons h3 h4 => rw [Stmts.ends, Cmds.ends]; exact is_endss (.cons d ds) _ (.cons h3 h4)
theorem is_endsR (c : Rest) (es : Elifs) (el : Else) (h : c.Is es el) : (Elifs.ends es && Else.ends el) = c.ends := by
  match c with
  | .none => cases h; rfl
  | .els b => cases h with | els h1 => rw [Rest.ends, ← is_endss b _ h1]; rfl
  | .elif _ b rest => cases h with | elif _ h1 h2 => rw [Rest.ends, Elifs.ends, is_endss b _ h1, Bool.and_assoc, is_endsR rest _ _ h2]
end

theorem is_flat (c : Cmds) (s : Stmts) (h : c.Is s) : Stmts.flat (fun _ => false) s = c.flat := by
  match c with
  | .nil => cases h; rfl
  | .cons c cs =>
    cases h with
    | cons h1 h2 =>
      rw [Stmts.flat, Cmds.flat, is_flat cs _ h2]
      congr 1
      cases h1 <;> rfl

theorem is_starts (c : Cmds) (s : Stmts) (h : c.Is s) : Stmts.startsWhile s = c.startsLoop := by
  cases h with
  | nil => rfl
  | cons h1 h2 => cases h1 <;> rfl

mutual
theorem is_clean (c : Cmd) (s : Stmt) (h : c.Is s) (hc : c.Clean) : Stmt.Clean (fun _ => false) s := by
  match c with
  | .define _ _ | .assign _ _ | .update _ _ _ | .eval _ | .ret _ | .brk | .cont => cases h <;> simp [Stmt.Clean]
  | .loop _ b => cases h with | loop _ h1 => rw [Cmd.Clean] at hc; rw [Stmt.Clean]; exact is_cleans b _ h1 hc
  | .branch _ b rest => cases h with | branch _ h1 h2 => rw [Cmd.Clean] at hc; rw [Stmt.Clean]; exact ⟨is_cleans b _ h1 hc.1, is_cleanR rest _ _ h2 hc.2⟩
theorem is_cleans (c : Cmds) (s : Stmts) (h : c.Is s) (hc : c.Clean) : Stmts.Clean (fun _ => false) s := by
  match c with
  | .nil => cases h; simp [Stmts.Clean]
  | .cons c cs => cases h with | cons h1 h2 => rw [Cmds.Clean] at hc; rw [Stmts.Clean, is_ends c _ h1, is_starts cs _ h2]; exact ⟨is_clean c _ h1 hc.1, is_cleans cs _ h2 hc.2.1, hc.2.2⟩
theorem is_cleanR (c : Rest) (es : Elifs) (el : Else) (h : c.Is es el) (hc : c.Clean) : Elifs.Clean (fun _ => false) es ∧ Else.Clean (fun _ => false) el := by
  match c with
  | .none => cases h; simp [Elifs.Clean, Else.Clean]
  | .els b => cases h with | els h1 => rw [Rest.Clean] at hc; rw [Elifs.Clean, Else.Clean, is_flat b _ h1, is_endss b _ h1]; exact ⟨trivial, is_cleans b _ h1 hc.1, hc.2⟩
  | .elif _ b rest =>
    cases h with
    | elif _ h1 h2 =>
      rw [Rest.Clean] at hc
      have h3 := is_cleanR rest _ _ h2 hc.2.2
      rw [Elifs.Clean, is_flat b _ h1, is_endss b _ h1]
      exact ⟨⟨is_cleans b _ h1 hc.1, hc.2.1, h3.1⟩, h3.2⟩
end

mutual
theorem is_jumps (σ : Sigs) (ret : Ty) (c : Cmd) (s : Stmt) (h : c.Is s) (l : Bool) (Γ : Types) (hc : c.Ok σ ret l Γ) : Validate.Stmt.jumpsOk l s := by
  match c with
  | .define _ _ | .assign _ _ | .update _ _ _ | .eval _ | .ret _ => cases h <;> simp [Validate.Stmt.jumpsOk]
  | .brk | .cont => cases h; rw [Cmd.Ok] at hc; simp [Validate.Stmt.jumpsOk, hc]
  | .loop _ b => cases h with | loop _ h1 => rw [Cmd.Ok] at hc; rw [Validate.Stmt.jumpsOk]; exact is_jumpss σ ret b _ h1 true Γ hc.2
  | .branch _ b rest =>
    cases h with | branch _ h1 h2 => rw [Cmd.Ok] at hc; rw [Validate.Stmt.jumpsOk]; exact ⟨is_jumpss σ ret b _ h1 l Γ hc.2.1, is_jumpsR σ ret rest _ _ h2 l Γ hc.2.2⟩
theorem is_jumpss (σ : Sigs) (ret : Ty) (c : Cmds) (s : Stmts) (h : c.Is s) (l : Bool) (Γ : Types) (hc : c.Ok σ ret l Γ) : Validate.Stmts.jumpsOk l s := by
  match c with
  | .nil => cases h; simp [Validate.Stmts.jumpsOk]
  | .cons c cs => cases h with | cons h1 h2 => rw [Cmds.Ok] at hc; rw [Validate.Stmts.jumpsOk]; exact ⟨is_jumps σ ret c _ h1 l Γ hc.1, is_jumpss σ ret cs _ h2 l _ hc.2⟩
theorem is_jumpsR (σ : Sigs) (ret : Ty) (c : Rest) (es : Elifs) (el : Else) (h : c.Is es el) (l : Bool) (Γ : Types) (hc : c.Ok σ ret l Γ) :
    Validate.Elifs.jumpsOk l es ∧ Validate.Else.jumpsOk l el := by
  match c with
  | .none => cases h; simp [Validate.Elifs.jumpsOk, Validate.Else.jumpsOk]
  | .els b => cases h with | els h1 => rw [Rest.Ok] at hc; rw [Validate.Elifs.jumpsOk, Validate.Else.jumpsOk]; exact ⟨trivial, is_jumpss σ ret b _ h1 l Γ hc⟩
  | .elif _ b rest =>
    cases h with
    | elif _ h1 h2 =>
      rw [Rest.Ok] at hc
      have h3 := is_jumpsR σ ret rest _ _ h2 l Γ hc.2.2
      rw [Validate.Elifs.jumpsOk]
      exact ⟨⟨is_jumpss σ ret b _ h1 l Γ hc.2.1, h3.1⟩, h3.2⟩
end

/-! ## The code of statements -/

/-- How the ends of statements correspond. `Γ'`, `vars'` belong to the point after the statement, `Γ`, `vars` to the point before. -/
def Agree (ret : Ty) (r : Option Int) (Γ Γ' : Types) (vars vars' : Vars PTy) : End → Out (Nat → Int) Int → Prop
  | .next ρ, .next m => Dyn Γ' vars' m.1 ρ ∧ m.2 = r
  | .brk ρ, .brk m => Dyn Γ vars m.1 ρ ∧ m.2 = r
  | .cont ρ, .cont m => Dyn Γ vars m.1 ρ ∧ m.2 = r
  | .ret z, .ret m => ∃ w, conv ret z = some w ∧ m.2 = some w.enc
  | .stuck, .trap => True
  | .more, .more => True
  | _, _ => False

theorem Agree.less {ret : Ty} {r : Option Int} {Γ Δ Γ' Δ' : Types} {vars wars vars' wars' : Vars PTy} {E : End} {O : Out (Nat → Int) Int} (h : Agree ret r Γ Γ' vars vars' E O)
    (h1 : ∀ slots ρ, Dyn Γ vars slots ρ → Dyn Δ wars slots ρ) (h2 : ∀ slots ρ, Dyn Γ' vars' slots ρ → Dyn Δ' wars' slots ρ) : Agree ret r Δ Δ' wars wars' E O := by
  cases E <;> cases O <;> simp only [Agree] at h ⊢
  · exact ⟨h2 _ _ h.1, h.2⟩
  · exact ⟨h1 _ _ h.1, h.2⟩
  · exact ⟨h1 _ _ h.1, h.2⟩
  · exact h

/-- What is needed to compile and run statements. -/
structure Setting where
  inl : Inline
  P : Name → Prop
  σ : Sigs
  σm : MSigs
  σa : MSigs
  world : World inl P σ σm σa

def CmdSim (S : Setting) (ret : Ty) (c : Cmd) (s : Stmt) (Γ : Types) (cs : CS PTy) : Prop :=
  ∃ codes cs', sites S.σm S.inl ret.p s cs = some (codes, cs') ∧ Static (c.after S.σ Γ) cs'.vars cs'.nslot ∧ Grow cs.vars cs'.vars c.defs ∧ (∀ i, (mark s i).2 = i + codes.length) ∧
    ∀ κ K, Runs S.P S.σ κ K → ∀ table i, At table i codes → ∀ n slots r ρ, Dyn Γ cs.vars slots ρ →
      Agree ret r Γ (c.after S.σ Γ) cs.vars cs'.vars (c.exec S.σ κ n Γ ρ) (Gen.exec (machine S.σa K table) n (mark s i).1 (slots, r))

def CmdsSim (S : Setting) (ret : Ty) (c : Cmds) (s : Stmts) (Γ : Types) (cs : CS PTy) : Prop :=
  ∃ codes cs', sitess S.σm S.inl ret.p s cs = some (codes, cs') ∧ Static Γ cs'.vars cs'.nslot ∧ Grow cs.vars cs'.vars c.defs ∧ (∀ i, (marks s i).2 = i + codes.length) ∧
    ∀ κ K, Runs S.P S.σ κ K → ∀ table i, At table i codes → ∀ n slots r ρ, Dyn Γ cs.vars slots ρ →
      Agree ret r Γ Γ cs.vars cs.vars (c.exec S.σ κ n Γ ρ) (execs (machine S.σa K table) n (marks s i).1 (slots, r))

def RestSim (S : Setting) (ret : Ty) (c : Rest) (es : Elifs) (el : Else) (Γ : Types) (cs : CS PTy) : Prop :=
  ∃ codes cs1 codes' cs', sitesElifs S.σm S.inl ret.p es cs = some (codes, cs1) ∧ sitesElse S.σm S.inl ret.p el cs1 = some (codes', cs') ∧ Static Γ cs'.vars cs'.nslot ∧
    Grow cs.vars cs'.vars c.defs ∧ (∀ i, (markElifs es i).2 = i + codes.length) ∧ (∀ i, (markElse el i).2 = i + codes'.length) ∧
    ∀ κ K, Runs S.P S.σ κ K → ∀ table i, At table i (codes ++ codes') → ∀ n slots r ρ, Dyn Γ cs.vars slots ρ →
      Agree ret r Γ Γ cs.vars cs.vars (c.exec S.σ κ n Γ ρ)
        (execElifs (machine S.σa K table) n (markElifs es i).1 (execElse (machine S.σa K table) n (markElse el (markElifs es i).2).1) (slots, r))

theorem truth_bit (σ : MSigs) (K : MCalls) (table : List Site) (b : Bool) : (machine σ K table).truth (bit b) = b := by cases b <;> rfl

theorem line_sim {S : Setting} {ret : Ty} {c : Cmd} {s : Expr} {Γ : Types} {cs : CS PTy} {value : Calls → Store → Option Val} {f : Store → Val → Store}
    (h : LineSim S.inl S.P S.σ S.σm S.σa s Γ (c.after S.σ Γ) cs c.defs value f) (he : ∀ κ n ρ, c.exec S.σ κ n Γ ρ = withVal (value κ ρ) fun z => .next (f ρ z)) :
    CmdSim S ret c (.expr s) Γ cs := by
  obtain ⟨site, cs', h1, h2, h3, h4⟩ := h
  refine ⟨[site], cs', by rw [sites, h1]; rfl, h2, h3, fun i => rfl, fun κ K hr table i ht n slots r ρ hd => ?_⟩
  have h5 := h4 κ K hr table i ht.head slots ρ hd
  rw [he, mark, Gen.exec]
  cases hv : value κ ρ with
  | none => rw [hv] at h5; simp only at h5; rw [h5]; trivial
  | some z =>
    rw [hv] at h5
    obtain ⟨slots', h6, h7⟩ := h5
    rw [h6]
    exact ⟨h7, rfl⟩

/-- A condition, in the specification and in the code. -/
def TestSim (v : Option Val) (w : Option ((Nat → Int) × Int)) (slots : Nat → Int) : Prop := (v = none ∧ w = none) ∨ ∃ b, v = some (.bool b) ∧ w = some (slots, bit b)

theorem cond_agree {ret : Ty} {r : Option Int} {Γ Γ' : Types} {vars vars' : Vars PTy} {σa : MSigs} {K : MCalls} {table : List Site} {i : Nat} {slots : Nat → Int} {v : Option Val} {E F : End}
    {O P : Mem (Nat → Int) Int → Out (Nat → Int) Int} (h : TestSim v ((machine σa K table).eval (tag i) slots) slots)
    (h1 : Agree ret r Γ Γ' vars vars' E (O (slots, r))) (h2 : Agree ret r Γ Γ' vars vars' F (P (slots, r))) :
    Agree ret r Γ Γ' vars vars' (choose v E F) (Gen.cond (machine σa K table) (tag i) (slots, r) O P) := by
  unfold Gen.cond
  rcases h with ⟨rfl, h⟩ | ⟨b, rfl, h⟩
  · rw [h]; trivial
  · rw [h]
    simp only [truth_bit]
    cases b
    · exact h2
    · exact h1

theorem loop_agree {ret : Ty} {r : Option Int} {Γ : Types} {vars vars' : Vars PTy} {names : List Name} {ns : Nat} {σa : MSigs} {K : MCalls} {table : List Site} {i : Nat}
    {test : Store → Option Val} {body : Store → End} {B : Mem (Nat → Int) Int → Out (Nat → Int) Int} (hs : Static Γ vars ns) (hg : Grow vars vars' names)
    (h : ∀ slots ρ, Dyn Γ vars slots ρ → TestSim (test ρ) ((machine σa K table).eval (tag i) slots) slots)
    (hb : ∀ slots ρ, Dyn Γ vars slots ρ → Agree ret r Γ Γ vars vars (body ρ) (B (slots, r))) :
    ∀ n slots ρ, Dyn Γ vars slots ρ → Agree ret r Γ Γ vars vars' (repeated test body n ρ) (iterate (machine σa K table) (tag i) B n (slots, r)) := by
  intro n
  induction n with
  | zero => intro slots ρ _; trivial
  | succ n ih =>
    intro slots ρ hd
    rw [repeated, iterate]
    refine cond_agree (h slots ρ hd) ?_ ⟨hd.more hs hg, rfl⟩
    have h2 := hb slots ρ hd
    cases hE : body ρ <;> cases hO : B (slots, r) <;> rw [hE, hO] at h2 <;> simp only [Agree] at h2 ⊢
    · next m => obtain ⟨h3, h4⟩ := h2; subst h4; exact ih m.1 _ h3
    · next m => exact ⟨h2.1.more hs hg, h2.2⟩
    · next m => obtain ⟨h3, h4⟩ := h2; subst h4; exact ih m.1 _ h3
    · exact h2
    · trivial
    · trivial

theorem after_sub {σ : Sigs} {c : Cmd} {Γ : Types} {cs : CS PTy} (hs : Static Γ cs.vars cs.nslot) (hf : FreshIn cs.vars c.defs) : ∀ n t, Γ n = some t → (c.after σ Γ) n = some t := by
  cases c with
  | define x e => exact set_sub (hs.fresh (hf x (by simp [Cmd.defs]))) _
  | _ => exact fun n t h => h

mutual
theorem cmd_sim (S : Setting) (ret : Ty) (c : Cmd) (s : Stmt) (h : c.Is s) (l : Bool) (Γ : Types) (hok : c.Ok S.σ ret l Γ) (hu : c.Uses S.P) (cs : CS PTy) (hs : Static Γ cs.vars cs.nslot)
    (hf : FreshIn cs.vars c.defs) (hn : c.defs.Nodup) : CmdSim S ret c s Γ cs := by
  match c with
  | .define x e =>
    cases h with
    | define h1 =>
      rw [Cmd.Ok] at hok
      rw [Cmd.Uses] at hu
      exact line_sim (define_line S.world Γ cs hs x (hf x (by simp [Cmd.defs])) e _ h1 hu hok.1 hok.2.1) fun κ n ρ => by rw [Cmd.exec]
  | .assign x e =>
    cases h with
    | assign h1 =>
      rw [Cmd.Ok] at hok
      rw [Cmd.Uses] at hu
      exact line_sim (assign_line S.world Γ cs hs x e _ h1 hu hok.1 hok.2) fun κ n ρ => by rw [Cmd.exec]
  | .update o x e =>
    cases h with
    | update h1 =>
      rw [Cmd.Ok] at hok
      rw [Cmd.Uses] at hu
      exact line_sim (update_line S.world Γ cs hs o x e _ h1 hu hok.1 hok.2) fun κ n ρ => by rw [Cmd.exec]
  | .eval e =>
    cases h with
    | eval h1 =>
      rw [Cmd.Ok] at hok
      rw [Cmd.Uses] at hu
      exact line_sim (eval_line S.world Γ cs hs e _ h1 hu hok) fun κ n ρ => by rw [Cmd.exec]
  | .ret e =>
    cases h with
    | ret h1 =>
      rw [Cmd.Ok] at hok
      rw [Cmd.Uses] at hu
      obtain ⟨hok, t, ht, hc⟩ := hok
      obtain ⟨site, cs', h2, h3, h4, h5⟩ := ret_site S.world ret Γ cs hs e _ h1 hu hok t ht hc
      refine ⟨[site], cs', by rw [sites, h2]; rfl, by rw [h3, h4]; exact hs, by rw [h3]; exact Grow.refl _ _, fun i => rfl, fun κ K hr table i ht' n slots r ρ hd => ?_⟩
      rw [Cmd.exec, mark, Gen.exec, h5 κ K hr table i ht'.head slots ρ hd]
      cases hv : e.value S.σ κ Γ ρ with
      | none => simp [withVal, Agree]
      | some v =>
        obtain ⟨w, hw⟩ := conv_some (has_ex hr.typed hd.fit e hok.lits t ht v hv) hc
        simp [withVal, Agree, hw]
  | .brk => cases h; exact ⟨[], cs, rfl, hs, Grow.refl _ _, fun i => rfl, fun κ K hr table i ht n slots r ρ hd => by rw [Cmd.exec, mark, Gen.exec]; exact ⟨hd, rfl⟩⟩
  | .cont => cases h; exact ⟨[], cs, rfl, hs, Grow.refl _ _, fun i => rfl, fun κ K hr table i ht n slots r ρ hd => by rw [Cmd.exec, mark, Gen.exec]; exact ⟨hd, rfl⟩⟩
  | .loop c b =>
    cases h with
    | @loop _ _ s ss h1 h2 =>
      rw [Cmd.Ok] at hok
      rw [Cmd.Uses] at hu
      obtain ⟨site, cs1, g1, g2, g3, g4⟩ := cond_site S.world Γ cs hs c _ h1 hu.1 hok.1.1 hok.1.2
      rw [Cmd.defs] at hf hn
      obtain ⟨codes, cs', k1, k2, k3, k4, k5⟩ := cmds_sim S ret b ss h2 true Γ hok.2 hu.2 cs1 (by rw [g2, g3]; exact hs) (by rw [g2]; exact hf) hn
      rw [g2] at k3 k5
      refine ⟨site :: codes, cs', by rw [sites, g1]; simp only [Option.bind_some]; rw [k1]; rfl, k2, k3, fun i => ?_, fun κ K hr table i ht n slots r ρ hd => ?_⟩
      · rw [mark, k4]; simp; omega
      · rw [Cmd.exec, mark, Gen.exec]
        exact loop_agree hs k3 (fun slots ρ hd => g4 κ K hr table i ht.head slots ρ hd) (fun slots ρ hd => k5 κ K hr table (i + 1) ht.tail n slots r ρ hd) n slots ρ hd
  | .branch c b rest =>
    cases h with
    | @branch _ _ _ s ss es el h1 h2 h3 =>
      rw [Cmd.Ok] at hok
      rw [Cmd.Uses] at hu
      obtain ⟨site, cs1, g1, g2, g3, g4⟩ := cond_site S.world Γ cs hs c _ h1 hu.1 hok.1.1 hok.1.2
      rw [Cmd.defs] at hf hn
      obtain ⟨codes, cs2, k1, k2, k3, k4, k5⟩ := cmds_sim S ret b ss h2 l Γ hok.2.1 hu.2.1 cs1 (by rw [g2, g3]; exact hs) (by rw [g2]; exact hf.left) (List.nodup_append.1 hn).1
      rw [g2] at k3 k5
      obtain ⟨codes', cs3, codes'', cs', m1, m2, m3, m4, m5, m6, m7⟩ := rest_sim S ret rest es el h3 l Γ hok.2.2 hu.2.2 cs2 k2 (hf.right k3 hn) (List.nodup_append.1 hn).2.1
      refine ⟨site :: (codes ++ (codes' ++ codes'')), cs', ?_, m3, k3.trans m4, fun i => ?_, fun κ K hr table i ht n slots r ρ hd => ?_⟩
      · rw [sites, g1]; simp only [Option.bind_some]; rw [k1]; simp only [Option.bind_some]; rw [m1]; simp only [Option.bind_some]; rw [m2]; rfl
      · rw [mark, m6, m5, k4]; simp; omega
      · rw [Cmd.exec, mark, Gen.exec]
        refine cond_agree (g4 κ K hr table i ht.head slots ρ hd) ((k5 κ K hr table (i + 1) ht.tail.left n slots r ρ hd).less (fun _ _ h => h) fun _ _ h => h.more hs (k3.trans m4)) ?_
        have h5 := m7 κ K hr table (i + 1 + codes.length) ht.tail.right n slots r ρ (hd.more hs k3)
        rw [k4]
        exact h5.less (fun _ _ h => h.less hs k3 fun _ _ h => h) fun _ _ h => (h.less hs k3 fun _ _ h => h).more hs (k3.trans m4)
theorem cmds_sim (S : Setting) (ret : Ty) (c : Cmds) (s : Stmts) (h : c.Is s) (l : Bool) (Γ : Types) (hok : c.Ok S.σ ret l Γ) (hu : c.Uses S.P) (cs : CS PTy) (hs : Static Γ cs.vars cs.nslot)
    (hf : FreshIn cs.vars c.defs) (hn : c.defs.Nodup) : CmdsSim S ret c s Γ cs := by
  match c with
  | .nil => cases h; exact ⟨[], cs, rfl, hs, Grow.refl _ _, fun i => rfl, fun κ K hr table i ht n slots r ρ hd => by rw [Cmds.exec, marks, execs]; exact ⟨hd, rfl⟩⟩
  | .cons c cs0 =>
    cases h with
    | @cons _ _ s ss h1 h2 =>
      rw [Cmds.Ok] at hok
      rw [Cmds.Uses] at hu
      rw [Cmds.defs] at hf hn
      obtain ⟨codes, cs1, k1, k2, k3, k4, k5⟩ := cmd_sim S ret c s h1 l Γ hok.1 hu.1 cs hs hf.left (List.nodup_append.1 hn).1
      obtain ⟨codes', cs', m1, m2, m3, m4, m5⟩ := cmds_sim S ret cs0 ss h2 l (c.after S.σ Γ) hok.2 hu.2 cs1 k2 (hf.right k3 hn) (List.nodup_append.1 hn).2.1
      have hsub := after_sub (σ := S.σ) hs hf.left
      have hless : ∀ slots ρ, Dyn (c.after S.σ Γ) cs1.vars slots ρ → Dyn Γ cs.vars slots ρ := fun slots ρ h => h.less hs k3 hsub
      refine ⟨codes ++ codes', cs', by rw [sitess, k1]; simp only [Option.bind_some]; rw [m1]; rfl, m2.scope hsub, k3.trans m3, fun i => ?_, fun κ K hr table i ht n slots r ρ hd => ?_⟩
      · rw [marks, m4, k4]; simp; omega
      · rw [Cmds.exec, marks, execs]
        have h5 := k5 κ K hr table i ht.left n slots r ρ hd
        cases hE : c.exec S.σ κ n Γ ρ <;> cases hO : Gen.exec (machine S.σa K table) n (mark s i).1 (slots, r) <;> rw [hE, hO] at h5 <;> simp only [Agree] at h5
        · next ρ' m =>
          obtain ⟨h6, h7⟩ := h5
          have h8 := m5 κ K hr table (i + codes.length) ht.right n m.1 r ρ' h6
          rw [← h7] at h8
          rw [k4]
          rw [← h7]
          exact h8.less hless hless
        · exact h5
        · exact h5
        · exact h5
        · trivial
        · trivial
theorem rest_sim (S : Setting) (ret : Ty) (c : Rest) (es : Elifs) (el : Else) (h : c.Is es el) (l : Bool) (Γ : Types) (hok : c.Ok S.σ ret l Γ) (hu : c.Uses S.P) (cs : CS PTy)
    (hs : Static Γ cs.vars cs.nslot) (hf : FreshIn cs.vars c.defs) (hn : c.defs.Nodup) : RestSim S ret c es el Γ cs := by
  match c with
  | .none =>
    cases h
    exact ⟨[], cs, [], cs, rfl, rfl, hs, Grow.refl _ _, fun i => rfl, fun i => rfl, fun κ K hr table i ht n slots r ρ hd => by
      rw [Rest.exec, markElifs, execElifs, markElse, execElse]; exact ⟨hd, rfl⟩⟩
  | .els b =>
    cases h with
    | @els _ ss h1 =>
      rw [Rest.Ok] at hok
      rw [Rest.Uses] at hu
      rw [Rest.defs] at hf hn
      obtain ⟨codes, cs', k1, k2, k3, k4, k5⟩ := cmds_sim S ret b ss h1 l Γ hok hu cs hs hf hn
      refine ⟨[], cs, codes, cs', rfl, k1, k2, k3, fun i => rfl, fun i => k4 i, fun κ K hr table i ht n slots r ρ hd => ?_⟩
      rw [Rest.exec, markElifs, execElifs, markElse, execElse]
      exact k5 κ K hr table i ht n slots r ρ hd
  | .elif c b rest =>
    cases h with
    | @elif _ _ _ s ss es _ h1 h2 h3 =>
      rw [Rest.Ok] at hok
      rw [Rest.Uses] at hu
      obtain ⟨site, cs1, g1, g2, g3, g4⟩ := cond_site S.world Γ cs hs c _ h1 hu.1 hok.1.1 hok.1.2
      rw [Rest.defs] at hf hn
      obtain ⟨codes, cs2, k1, k2, k3, k4, k5⟩ := cmds_sim S ret b ss h2 l Γ hok.2.1 hu.2.1 cs1 (by rw [g2, g3]; exact hs) (by rw [g2]; exact hf.left) (List.nodup_append.1 hn).1
      rw [g2] at k3 k5
      obtain ⟨codes', cs3, codes'', cs', m1, m2, m3, m4, m5, m6, m7⟩ := rest_sim S ret rest es el h3 l Γ hok.2.2 hu.2.2 cs2 k2 (hf.right k3 hn) (List.nodup_append.1 hn).2.1
      refine ⟨site :: (codes ++ codes'), cs3, codes'', cs', ?_, m2, m3, k3.trans m4, fun i => ?_, m6, fun κ K hr table i ht n slots r ρ hd => ?_⟩
      · rw [sitesElifs, g1]; simp only [Option.bind_some]; rw [k1]; simp only [Option.bind_some]; rw [m1]; rfl
      · rw [markElifs, m5, k4]; simp; omega
      · rw [Rest.exec, markElifs, execElifs]
        rw [List.cons_append, List.append_assoc] at ht
        refine cond_agree (g4 κ K hr table i ht.head slots ρ hd) (k5 κ K hr table (i + 1) ht.tail.left n slots r ρ hd) ?_
        have h5 := m7 κ K hr table (i + 1 + codes.length) ht.tail.right n slots r ρ (hd.more hs k3)
        rw [k4]
        exact h5.less (fun _ _ h => h.less hs k3 fun _ _ h => h) fun _ _ h => h.less hs k3 fun _ _ h => h
end

/-! ## The ends of statements -/

/-- The statements end neither by `break` nor by `continue`. -/
def End.Inside : End → Prop
  | .brk _ => False
  | .cont _ => False
  | _ => True

theorem choose_inside {v : Option Val} {E F : End} (h1 : E.Inside) (h2 : F.Inside) : (choose v E F).Inside := by
  unfold choose
  split
  · exact h1
  · exact h2
  · trivial

theorem withVal_inside {v : Option Val} {f : Val → End} (h : ∀ z, (f z).Inside) : (withVal v f).Inside := by
  cases v with
  | none => trivial
  | some z => exact h z

theorem inside_repeated (test : Store → Option Val) (body : Store → End) : ∀ n ρ, (repeated test body n ρ).Inside := by
  intro n
  induction n with
  | zero => intro ρ; trivial
  | succ n ih =>
    intro ρ
    rw [repeated]
    refine choose_inside ?_ trivial
    cases body ρ with
    | next ρ => exact ih ρ
    | cont ρ => exact ih ρ
    | _ => trivial

mutual
theorem inside_cmd (σ : Sigs) (κ : Calls) (ret : Ty) (c : Cmd) (n : Nat) (Γ : Types) (ρ : Store) (h : c.Ok σ ret false Γ) : (c.exec σ κ n Γ ρ).Inside := by
  match c with
  | .define x e => rw [Cmd.exec]; exact withVal_inside fun _ => trivial
  | .assign x e => rw [Cmd.exec]; exact withVal_inside fun _ => trivial
  | .update o x e => rw [Cmd.exec]; exact withVal_inside fun _ => trivial
  | .eval e => rw [Cmd.exec]; exact withVal_inside fun _ => trivial
  | .ret e => rw [Cmd.exec]; exact withVal_inside fun _ => trivial
  | .brk => rw [Cmd.Ok] at h; cases h
  | .cont => rw [Cmd.Ok] at h; cases h
  | .loop c b => rw [Cmd.exec]; exact inside_repeated _ _ _ _
  | .branch c b rest => rw [Cmd.Ok] at h; rw [Cmd.exec]; exact choose_inside (inside_cmds σ κ ret b n Γ ρ h.2.1) (inside_rest σ κ ret rest n Γ ρ h.2.2)
theorem inside_cmds (σ : Sigs) (κ : Calls) (ret : Ty) (c : Cmds) (n : Nat) (Γ : Types) (ρ : Store) (h : c.Ok σ ret false Γ) : (c.exec σ κ n Γ ρ).Inside := by
  match c with
  | .nil => rw [Cmds.exec]; trivial
  | .cons c cs =>
    rw [Cmds.Ok] at h
    rw [Cmds.exec]
    have h1 := inside_cmd σ κ ret c n Γ ρ h.1
    cases hE : c.exec σ κ n Γ ρ <;> rw [hE] at h1 <;> simp only [End.andThen]
    · exact inside_cmds σ κ ret cs n _ _ h.2
    all_goals exact h1
theorem inside_rest (σ : Sigs) (κ : Calls) (ret : Ty) (c : Rest) (n : Nat) (Γ : Types) (ρ : Store) (h : c.Ok σ ret false Γ) : (c.exec σ κ n Γ ρ).Inside := by
  match c with
  | .none => rw [Rest.exec]; trivial
  | .els b => rw [Rest.Ok] at h; rw [Rest.exec]; exact inside_cmds σ κ ret b n Γ ρ h
  | .elif c b rest => rw [Rest.Ok] at h; rw [Rest.exec]; exact choose_inside (inside_cmds σ κ ret b n Γ ρ h.2.1) (inside_rest σ κ ret rest n Γ ρ h.2.2)
end

end Verif.Comp.Script
