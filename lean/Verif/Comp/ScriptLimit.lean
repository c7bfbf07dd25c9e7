import Verif.Comp.ScriptFunc
/-!
# Lemmas about scripts: more calls and more iterations
-/
namespace Verif.Comp.Script
open Verif.Ast Verif.Ast.Rpn Verif.Gen Verif.Gen.Scalar Verif.Types.Conv Verif.Comp.Pipeline Verif.Comp.Function

/-! ## From some number on -/

def Ev (p : Nat → Prop) : Prop := ∃ N, ∀ n, N ≤ n → p n

theorem Ev.all {p : Nat → Prop} (h : ∀ n, p n) : Ev p := ⟨0, fun n _ => h n⟩
theorem Ev.imp {p q : Nat → Prop} (h : Ev p) (k : ∀ n, p n → q n) : Ev q := let ⟨N, h⟩ := h; ⟨N, fun n hn => k n (h n hn)⟩
theorem Ev.and {p q : Nat → Prop} (h : Ev p) (k : Ev q) : Ev fun n => p n ∧ q n :=
  let ⟨N, h⟩ := h
  let ⟨M, k⟩ := k
  ⟨max N M, fun n hn => ⟨h n (by omega), k n (by omega)⟩⟩
theorem Ev.some {p : Nat → Prop} (h : Ev p) : ∃ n, p n := let ⟨N, h⟩ := h; ⟨N, h N (Nat.le_refl _)⟩
theorem Ev.above (m : Nat) : Ev fun n => m ≤ n := ⟨m, fun _ h => h⟩
theorem Ev.next {p : Nat → Prop} (h : Ev fun n => p (n + 1)) : Ev p :=
  let ⟨N, h⟩ := h
  ⟨N + 1, fun n hn => by obtain ⟨m, rfl⟩ : ∃ m, n = m + 1 := ⟨n - 1, by omega⟩; exact h m (by omega)⟩

/-- A value that is there stays there from some number on. -/
def Up {α : Type} (a : Option α) (as : Nat → Option α) : Prop := ∀ v, a = some v → Ev fun n => as n = some v

theorem Up.const {α : Type} (a : Option α) : Up a fun _ => a := fun _ h => Ev.all fun _ => h

theorem Up.map1 {α β : Type} {a : Option α} {as : Nat → Option α} (h : Up a as) (f : Option α → Option β) (h0 : f none = none) : Up (f a) fun n => f (as n) := by
  intro v hv
  cases a with
  | none => rw [h0] at hv; cases hv
  | some x => exact (h x rfl).imp fun n hn => by dsimp -failIfUnchanged only at hn ⊢; rw [hn]; exact hv

theorem Up.map2 {α β γ : Type} {a : Option α} {as : Nat → Option α} {b : Option β} {bs : Nat → Option β} (h : Up a as) (k : Up b bs) (f : Option α → Option β → Option γ)
    (h0 : ∀ y, f none y = none) (h1 : ∀ x v y, f (some x) none = some v → f (some x) y = some v) : Up (f a b) fun n => f (as n) (bs n) := by
  intro v hv
  cases a with
  | none => rw [h0] at hv; cases hv
  | some x =>
    cases b with
    | none => exact (h x rfl).imp fun n hn => by dsimp -failIfUnchanged only at hn ⊢; rw [hn]; exact h1 x v _ hv
    | some y => exact ((h x rfl).and (k y rfl)).imp fun n hn => by dsimp -failIfUnchanged only at hn ⊢; rw [hn.1, hn.2]; exact hv

/-- More calls return. -/
def Grows (κ : Calls) (κs : Nat → Calls) : Prop := ∀ f args, Up (κ f args) fun n => κs n f args

mutual
theorem value_up {σ : Sigs} {κ : Calls} {κs : Nat → Calls} (hg : Grows κ κs) (Γ : Types) (ρ : Store) (e : Ex) : Up (e.value σ κ Γ ρ) fun n => e.value σ (κs n) Γ ρ := by
  match e with
  | .lit ds s => simp only [Ex.value]; exact Up.const _
  | .const b => simp only [Ex.value]; exact Up.const _
  | .var x => simp only [Ex.value]; exact Up.const _
  | .neg a => simp only [Ex.value]; exact (value_up hg Γ ρ a).map1 _ (by cases a.type σ Γ with | none => rfl | some t => cases t <;> rfl)
  | .not a => simp only [Ex.value]; exact (value_up hg Γ ρ a).map1 _ rfl
  | .arith o a b =>
    simp only [Ex.value]
    exact (value_up hg Γ ρ a).map2 (value_up hg Γ ρ b) _ (fun y => by unfold vArith; split <;> simp_all) fun x v y h => by unfold vArith at h; split at h <;> simp_all
  | .rel o a b =>
    simp only [Ex.value]
    exact (value_up hg Γ ρ a).map2 (value_up hg Γ ρ b) _ (fun y => by unfold vRel; split <;> simp_all) fun x v y h => by unfold vRel at h; split at h <;> simp_all
  | .and a b =>
    simp only [Ex.value]
    exact (value_up hg Γ ρ a).map2 (value_up hg Γ ρ b) _ (fun y => rfl) fun x v y h => by cases x with
      | int _ => cases h
      | bool b => cases b with
        | true => cases h
        | false => exact h
  | .or a b =>
    simp only [Ex.value]
    exact (value_up hg Γ ρ a).map2 (value_up hg Γ ρ b) _ (fun y => rfl) fun x v y h => by cases x with
      | int _ => cases h
      | bool b => cases b with
        | true => exact h
        | false => cases h
  | .pick c a b =>
    simp only [Ex.value]
    have hc := value_up (σ := σ) hg Γ ρ c
    have ha := value_up (σ := σ) hg Γ ρ a
    have hb := value_up (σ := σ) hg Γ ρ b
    intro v hv
    cases ht : tPick (c.type σ Γ) (a.type σ Γ) (b.type σ Γ) with
    | none => rw [ht] at hv; cases hv
    | some t =>
      rw [ht] at hv
      cases hcv : c.value σ κ Γ ρ with
      | none => rw [hcv] at hv; cases hv
      | some z =>
        rw [hcv] at hv
        cases z with
        | int _ => cases hv
        | bool z => cases z with
          | true =>
            exact ((hc _ hcv).and ((ha.map1 (fun o => o.bind (conv t)) rfl) v hv)).imp fun n hn => by dsimp -failIfUnchanged only at hn ⊢; rw [hn.1]; exact hn.2
          | false =>
            exact ((hc _ hcv).and ((hb.map1 (fun o => o.bind (conv t)) rfl) v hv)).imp fun n hn => by dsimp -failIfUnchanged only at hn ⊢; rw [hn.1]; exact hn.2
  | .call f as =>
    simp only [Ex.value]
    intro v hv
    cases hs : σ f with
    | none => rw [hs] at hv; cases hv
    | some s =>
      rw [hs] at hv
      simp only [Option.bind_some] at hv ⊢
      cases hvs : as.values σ κ Γ ρ with
      | none => rw [hvs] at hv; cases hv
      | some vs =>
        rw [hvs] at hv
        simp only [Option.bind_some] at hv
        cases hx : convs s.1 vs with
        | none => rw [hx] at hv; cases hv
        | some xs =>
          rw [hx] at hv
          simp only [Option.bind_some] at hv
          exact ((values_up hg Γ ρ as vs hvs).and (hg f xs v hv)).imp fun n hn => by dsimp -failIfUnchanged only at hn ⊢; rw [hn.1]; simp only [Option.bind_some, hx]; exact hn.2
theorem values_up {σ : Sigs} {κ : Calls} {κs : Nat → Calls} (hg : Grows κ κs) (Γ : Types) (ρ : Store) (e : Exs) : Up (e.values σ κ Γ ρ) fun n => e.values σ (κs n) Γ ρ := by
  match e with
  | .nil => simp only [Exs.values]; exact Up.const _
  | .cons a as =>
    simp only [Exs.values]
    exact (value_up hg Γ ρ a).map2 (values_up hg Γ ρ as) (fun x y => x.bind fun v => y.map (v :: ·)) (fun _ => rfl) fun x v y h => by cases h
end

/-- Ends that stay. -/
def End.Proper : End → Prop
  | .stuck => False
  | .more => False
  | _ => True

/-- A proper end stays. -/
def UpE (E : End) (Es : Nat → End) : Prop := E.Proper → Ev fun n => Es n = E

theorem UpE.withVal {v : Option Val} {vs : Nat → Option Val} (h : Up v vs) (f : Val → End) : UpE (withVal v f) fun n => withVal (vs n) f := by
  intro hp
  cases v with
  | none => exact hp.elim
  | some z => exact (h z rfl).imp fun n hn => by dsimp -failIfUnchanged only at hn ⊢; rw [hn]

theorem UpE.choose {v : Option Val} {vs : Nat → Option Val} {E F : End} {Es Fs : Nat → End} (h : Up v vs) (hE : UpE E Es) (hF : UpE F Fs) :
    UpE (choose v E F) fun n => choose (vs n) (Es n) (Fs n) := by
  intro hp
  cases v with
  | none => exact hp.elim
  | some z => cases z with
    | int _ => exact hp.elim
    | bool b => cases b with
      | true => exact ((h _ rfl).and (hE hp)).imp fun n hn => by dsimp -failIfUnchanged only at hn ⊢; rw [hn.1]; exact hn.2
      | false => exact ((h _ rfl).and (hF hp)).imp fun n hn => by dsimp -failIfUnchanged only at hn ⊢; rw [hn.1]; exact hn.2

theorem UpE.andThen {E : End} {Es : Nat → End} {f : Store → End} {fs : Nat → Store → End} (hE : UpE E Es) (hf : ∀ ρ, UpE (f ρ) fun n => fs n ρ) :
    UpE (E.andThen f) fun n => (Es n).andThen (fs n) := by
  intro hp
  cases E with
  | next ρ => exact ((hE trivial).and (hf ρ hp)).imp fun n hn => by dsimp -failIfUnchanged only at hn ⊢; rw [hn.1]; exact hn.2
  | stuck => exact hp.elim
  | more => exact hp.elim
  | _ => exact (hE trivial).imp fun n hn => by dsimp -failIfUnchanged only at hn ⊢; rw [hn]; rfl

theorem UpE.again {E : End} {Es : Nat → End} {f : Store → End} {fs : Nat → Store → End} (hE : UpE E Es) (hf : ∀ ρ, UpE (f ρ) fun n => fs n ρ) :
    UpE (E.again f) fun n => (Es n).again (fs n) := by
  intro hp
  cases E with
  | next ρ => exact ((hE trivial).and (hf ρ hp)).imp fun n hn => by dsimp -failIfUnchanged only at hn ⊢; rw [hn.1]; exact hn.2
  | cont ρ => exact ((hE trivial).and (hf ρ hp)).imp fun n hn => by dsimp -failIfUnchanged only at hn ⊢; rw [hn.1]; exact hn.2
  | stuck => exact hp.elim
  | more => exact hp.elim
  | _ => exact (hE trivial).imp fun n hn => by dsimp -failIfUnchanged only at hn ⊢; rw [hn]; rfl

/-- The iterations that were made can be made with any larger bound. -/
theorem repeated_up {test : Store → Option Val} {body : Store → End} {tests : Nat → Store → Option Val} {bodies : Nat → Store → End} (ht : ∀ ρ, Up (test ρ) fun n => tests n ρ)
    (hb : ∀ ρ, UpE (body ρ) fun n => bodies n ρ) : ∀ m ρ, (repeated test body m ρ).Proper → Ev fun n => ∀ k, m ≤ k → repeated (tests n) (bodies n) k ρ = repeated test body m ρ := by
  intro m
  induction m with
  | zero => intro ρ h; exact h.elim
  | succ m ih =>
    intro ρ hp
    rw [repeated] at hp ⊢
    have key : ∀ E : End, ∀ h : E = body ρ, (E.again (repeated test body m)).Proper →
        Ev fun n => ∀ k, m ≤ k → (bodies n ρ).again (repeated (tests n) (bodies n) k) = E.again (repeated test body m) := by
      intro E h hp
      have hb' := hb ρ
      rw [← h] at hb'
      cases E with
      | next ρ' => exact ((hb' trivial).and (ih ρ' hp)).imp fun n hn k hk => by dsimp -failIfUnchanged only at hn ⊢; rw [hn.1]; exact hn.2 k hk
      | cont ρ' => exact ((hb' trivial).and (ih ρ' hp)).imp fun n hn k hk => by dsimp -failIfUnchanged only at hn ⊢; rw [hn.1]; exact hn.2 k hk
      | stuck => exact hp.elim
      | more => exact hp.elim
      | _ => exact (hb' trivial).imp fun n hn k hk => by dsimp -failIfUnchanged only at hn ⊢; rw [hn]; rfl
    cases hv : test ρ with
    | none => rw [hv] at hp; exact hp.elim
    | some z =>
      rw [hv] at hp
      cases z with
      | int _ => exact hp.elim
      | bool b => cases b with
        | true =>
          refine ((ht ρ _ hv).and (key _ rfl hp)).imp fun n hn k hk => ?_
          obtain ⟨k, rfl⟩ : ∃ k', k = k' + 1 := ⟨k - 1, by omega⟩
          dsimp -failIfUnchanged only at hn; rw [repeated, hn.1]
          exact hn.2 k (by omega)
        | false =>
          refine (ht ρ _ hv).imp fun n hn k hk => ?_
          obtain ⟨k, rfl⟩ : ∃ k', k = k' + 1 := ⟨k - 1, by omega⟩
          dsimp -failIfUnchanged only at hn; rw [repeated, hn]
          rfl

mutual
theorem cmd_up {σ : Sigs} {κ : Calls} {κs : Nat → Calls} (hg : Grows κ κs) (m : Nat) (Γ : Types) (ρ : Store) (c : Cmd) : UpE (c.exec σ κ m Γ ρ) fun n => c.exec σ (κs n) n Γ ρ := by
  match c with
  | .define x e => simp only [Cmd.exec]; exact UpE.withVal (value_up hg Γ ρ e) _
  | .assign x e => simp only [Cmd.exec]; exact UpE.withVal (value_up hg Γ ρ e) _
  | .update o x e => simp only [Cmd.exec]; exact UpE.withVal (value_up hg Γ ρ _) _
  | .eval e => simp only [Cmd.exec]; exact UpE.withVal (value_up hg Γ ρ e) _
  | .ret e => simp only [Cmd.exec]; exact UpE.withVal (value_up hg Γ ρ e) _
  | .brk => simp only [Cmd.exec]; exact fun _ => Ev.all fun _ => rfl
  | .cont => simp only [Cmd.exec]; exact fun _ => Ev.all fun _ => rfl
  | .loop c b =>
    simp only [Cmd.exec]
    intro hp
    exact ((repeated_up (fun ρ => value_up hg Γ ρ c) (fun ρ => cmds_up hg m Γ ρ b) m ρ hp).and (Ev.above m)).imp fun n hn => hn.1 n hn.2
  | .branch c b rest => simp only [Cmd.exec]; exact UpE.choose (value_up hg Γ ρ c) (cmds_up hg m Γ ρ b) (rest_up hg m Γ ρ rest)
theorem cmds_up {σ : Sigs} {κ : Calls} {κs : Nat → Calls} (hg : Grows κ κs) (m : Nat) (Γ : Types) (ρ : Store) (c : Cmds) : UpE (c.exec σ κ m Γ ρ) fun n => c.exec σ (κs n) n Γ ρ := by
  match c with
  | .nil => simp only [Cmds.exec]; exact fun _ => Ev.all fun _ => rfl
  | .cons s ss => simp only [Cmds.exec]; exact UpE.andThen (cmd_up hg m Γ ρ s) fun ρ => cmds_up hg m _ ρ ss
theorem rest_up {σ : Sigs} {κ : Calls} {κs : Nat → Calls} (hg : Grows κ κs) (m : Nat) (Γ : Types) (ρ : Store) (c : Rest) : UpE (c.exec σ κ m Γ ρ) fun n => c.exec σ (κs n) n Γ ρ := by
  match c with
  | .none => simp only [Rest.exec]; exact fun _ => Ev.all fun _ => rfl
  | .els b => simp only [Rest.exec]; exact cmds_up hg m Γ ρ b
  | .elif c b rest => simp only [Rest.exec]; exact UpE.choose (value_up hg Γ ρ c) (cmds_up hg m Γ ρ b) (rest_up hg m Γ ρ rest)
end

theorem result_up {σ : Sigs} {κ : Calls} {κs : Nat → Calls} (hg : Grows κ κs) (ret : Ty) (m : Nat) (Γ : Types) (ρ : Store) (c : Cmds) :
    Up (result ret (c.exec σ κ m Γ ρ)) fun n => result ret (c.exec σ (κs n) n Γ ρ) := by
  intro v hv
  cases hE : c.exec σ κ m Γ ρ <;> rw [hE] at hv
  · cases hv
  · cases hv
  · cases hv
  · have h := cmds_up (σ := σ) hg m Γ ρ c
    rw [hE] at h
    exact (h trivial).imp fun n hn => by dsimp -failIfUnchanged only at hn ⊢; rw [hn]; exact hv
  · cases hv
  · cases hv

/-! ## All iterations, and at most `d` calls inside each other -/

open Classical in
/-- What functions return with any number of iterations and at most `d` calls inside each other. -/
noncomputable def deep (ext : Exts) (fs : List Fn) : Nat → Calls
  | d, f, args => match find fs f with
    | none => (ext f).bind fun e => e.run args
    | some g => match d with
      | 0 => none
      | d + 1 => if h : ∃ w n, result g.ret (g.body.exec (sigs ext fs) (deep ext fs d) n (startTypes g) (startStore g args)) = some w then some h.choose else none

theorem const_grows (κ : Calls) : Grows κ fun _ => κ := fun _ _ => Up.const _

/-- One result for all numbers of iterations. -/
theorem result_unique {σ : Sigs} {κ : Calls} {ret : Ty} {Γ : Types} {ρ : Store} {c : Cmds} {m n : Nat} {v w : Val} (h1 : result ret (c.exec σ κ m Γ ρ) = some v)
    (h2 : result ret (c.exec σ κ n Γ ρ) = some w) : v = w := by
  obtain ⟨k, h3, h4⟩ := ((result_up (const_grows κ) ret m Γ ρ c v h1).and (result_up (const_grows κ) ret n Γ ρ c w h2)).some
  rw [h3] at h4
  exact Option.some.inj h4

theorem deep_succ {ext : Exts} {fs : List Fn} {f : Name} {g : Fn} (hf : find fs f = some g) (d : Nat) (args : List Val) (w : Val) :
    deep ext fs (d + 1) f args = some w ↔ ∃ n, result g.ret (g.body.exec (sigs ext fs) (deep ext fs d) n (startTypes g) (startStore g args)) = some w := by
  rw [deep]
  simp only [hf]
  split
  · next h =>
    obtain ⟨n, hn⟩ := h.choose_spec
    constructor
    · intro e; cases e; exact ⟨n, hn⟩
    · rintro ⟨m, hm⟩; rw [result_unique hn hm]
  · next h => exact ⟨fun e => (by cases e), fun ⟨n, hn⟩ => absurd ⟨w, n, hn⟩ h⟩

theorem deep_zero {ext : Exts} {fs : List Fn} {f : Name} {g : Fn} (hf : find fs f = some g) (args : List Val) : deep ext fs 0 f args = none := by
  rw [deep]; simp only [hf]

theorem deep_ext {ext : Exts} {fs : List Fn} {f : Name} (hf : find fs f = none) (d : Nat) (args : List Val) : deep ext fs d f args = (ext f).bind fun e => e.run args := by
  rw [deep]; simp only [hf]

theorem returned_ext {ext : Exts} {fs : List Fn} {f : Name} (hf : find fs f = none) (n : Nat) (args : List Val) : returned ext fs n f args = (ext f).bind fun e => e.run args := by
  cases n <;> simp only [returned, hf]

theorem returned_zero {ext : Exts} {fs : List Fn} {f : Name} {g : Fn} (hf : find fs f = some g) (args : List Val) : returned ext fs 0 f args = none := by simp only [returned, hf]

theorem returned_succ {ext : Exts} {fs : List Fn} {f : Name} {g : Fn} (hf : find fs f = some g) (n : Nat) (args : List Val) :
    returned ext fs (n + 1) f args = result g.ret (g.body.exec (sigs ext fs) (returned ext fs n) n (startTypes g) (startStore g args)) := by simp only [returned, hf]

theorem deep_returned (ext : Exts) (fs : List Fn) : ∀ d, Grows (deep ext fs d) (returned ext fs) := by
  intro d
  induction d with
  | zero =>
    intro f args
    cases hf : find fs f with
    | none => rw [deep_ext hf]; simp only [returned_ext hf]; exact Up.const _
    | some g => intro v hv; rw [deep_zero hf] at hv; cases hv
  | succ d ih =>
    intro f args
    cases hf : find fs f with
    | none => rw [deep_ext hf]; simp only [returned_ext hf]; exact Up.const _
    | some g =>
      intro v hv
      obtain ⟨n, hn⟩ := (deep_succ hf d args v).1 hv
      exact Ev.next ((result_up ih g.ret n _ _ g.body v hn).imp fun k hk => (returned_succ hf k args).trans hk)

theorem returned_deep (ext : Exts) (fs : List Fn) : ∀ n, Grows (returned ext fs n) (deep ext fs) := by
  intro n
  induction n with
  | zero =>
    intro f args
    cases hf : find fs f with
    | none => rw [returned_ext hf]; simp only [deep_ext hf]; exact Up.const _
    | some g => intro v hv; rw [returned_zero hf] at hv; cases hv
  | succ n ih =>
    intro f args
    cases hf : find fs f with
    | none => rw [returned_ext hf]; simp only [deep_ext hf]; exact Up.const _
    | some g =>
      intro v hv
      rw [returned_succ hf] at hv
      exact Ev.next ((result_up ih g.ret n _ _ g.body v hv).imp fun k hk => (deep_succ hf k args v).2 ⟨k, hk⟩)

theorem returned_iff (ext : Exts) (fs : List Fn) (f : Name) (args : List Val) (v : Val) : (∃ n, returned ext fs n f args = some v) ↔ ∃ d, deep ext fs d f args = some v :=
  ⟨fun ⟨n, h⟩ => (returned_deep ext fs n f args v h).some, fun ⟨d, h⟩ => (deep_returned ext fs d f args v h).some⟩

/-- What is returned stays with larger bounds. -/
theorem returned_stays (ext : Exts) (fs : List Fn) (n : Nat) (f : Name) (args : List Val) (v : Val) (h : returned ext fs n f args = some v) : Ev fun m => returned ext fs m f args = some v := by
  obtain ⟨d, hd⟩ := (returned_deep ext fs n f args v h).some
  exact deep_returned ext fs d f args v hd

end Verif.Comp.Script
