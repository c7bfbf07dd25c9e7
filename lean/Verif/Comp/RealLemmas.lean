import Verif.Comp.Real
/-! # C152: lemmas about values, literals and operations -/
namespace Verif.Comp.Real
open Verif.Ast Verif.Ast.Rpn Verif.Gen Verif.Gen.Scalar Verif.Types.Conv Verif.Comp.Pipeline

/-! ## Values -/

@[simp] theorem flt_self (F : FTy) (x : Flt.Fl F.fmt) : Val.flt? F (.flt F x) = some x := by simp [Val.flt?]
@[simp] theorem mflt_self (F : FTy) (x : Flt.Fl F.fmt) : MV.flt? F (.flt F x) = some x := by simp [MV.flt?]
@[simp] theorem onFlt_self (F : FTy) (x : Flt.Fl F.fmt) (f : Flt.Fl F.fmt → MV) : onFlt F (.flt F x) f = f x := by simp [onFlt]
@[simp] theorem onWord_word (z : Int) (f : Int → MV) : onWord (.word z) f = f z := rfl

theorem has_bool {v : Val} (h : v.Has .bool) : ∃ b, v = .bool b := by cases v <;> simp [Val.Has] at h; exact ⟨_, rfl⟩
theorem has_int {v : Val} {t : IntTy} (h : v.Has (.int t)) : ∃ z, v = .int z ∧ IntOps.Fits t z := by cases v <;> simp [Val.Has] at h; exact ⟨_, rfl, h⟩
theorem has_flt {v : Val} {F : FTy} (h : v.Has (.flt F)) : ∃ x, v = .flt F x := by
  cases v <;> simp [Val.Has] at h
  subst h; exact ⟨_, rfl⟩

/-! ## Meeting types -/

/-- Conversions within expressions. -/
def Up : Ty → Ty → Prop
  | .int _, .int _ => True
  | .int _, .flt _ => True
  | .flt _, .flt _ => True
  | _, _ => False

theorem join_up {a b c : Ty} (h : join a b = some c) : Up a c ∧ Up b c := by
  cases a with
  | bool => cases b <;> simp [join] at h
  | int s => cases b <;> simp [join] at h <;> subst h <;> simp [Up]
  | flt F => cases b with
    | bool => simp [join] at h
    | int t => simp [join] at h; subst h; simp [Up]
    | flt G => cases F <;> cases G <;> simp [join] at h <;> subst h <;> simp [Up]

theorem up_self {t : Ty} (h : t ≠ .bool) : Up t t := by cases t <;> simp [Up] at h ⊢

theorem join_number {a b c : Ty} (h : join a b = some c) : a ≠ .bool ∧ b ≠ .bool ∧ c ≠ .bool := by
  have := join_up h
  have h1 : ∀ t, ¬ Up .bool t := fun t => by cases t <;> simp [Up]
  have h2 : ∀ t, ¬ Up t .bool := fun t => by cases t <;> simp [Up]
  exact ⟨fun e => h1 c (e ▸ this.1), fun e => h1 c (e ▸ this.2), fun e => h2 a (e ▸ this.1)⟩

theorem rank_lt (t : IntTy) : IntOps.rank t < 13 := by cases t <;> decide

theorem norm_p {a b c : Ty} (h : join a b = some c) : normT a.p b.p = some c.p := by
  cases a with
  | bool => cases b <;> simp [join] at h
  | int s => cases b with
    | bool => simp [join] at h
    | int t =>
      simp only [join, Option.some.injEq] at h; subst h
      simp only [Ty.p, normT, rank, Option.bind_some, Option.map_some, wider_eq, IntOps.common]
      split <;> rfl
    | flt F =>
      simp only [join, Option.some.injEq] at h; subst h
      have := rank_lt s
      cases F <;> simp [Ty.p, normT, rank] <;> omega
  | flt F => cases b with
    | bool => simp [join] at h
    | int t =>
      simp only [join, Option.some.injEq] at h; subst h
      have := rank_lt t
      cases F <;> simp [Ty.p, normT, rank] <;> omega
    | flt G => cases F <;> cases G <;> simp [join] at h <;> subst h <;> rfl

/-- Types that do not meet: one of them is the boolean type. -/
theorem join_none {a b : Ty} (h : join a b = none) : a = .bool ∨ b = .bool := by
  cases a with
  | bool => exact .inl rfl
  | int s => cases b <;> simp [join] at h; exact .inr rfl
  | flt F => cases b with
    | bool => exact .inr rfl
    | int t => simp [join] at h
    | flt G => cases F <;> cases G <;> simp [join] at h

theorem norm_bool {a b : Ty} (h : a = .bool ∨ b = .bool) : normT a.p b.p = none := by
  rcases h with rfl | rfl
  · rfl
  · simp [normT, Ty.p, rank]

theorem p_inj {a b : Ty} (h : a.p = b.p) : a = b := by cases a <;> cases b <;> simp [Ty.p] at h <;> simp [h]

theorem meet_p (fpu : Fpu) {a b c : Ty} (h : join a b = some c) : meet (rt fpu) a.p b.p = some c.p := by
  unfold meet
  split
  · next he =>
    have := p_inj he
    subst this
    have := norm_p h
    unfold normT at this
    cases hr : rank a.p with
    | none => rw [hr] at this; simp at this
    | some m => rw [hr] at this; simpa using this
  · exact norm_p h

/-! ## Conversions -/

theorem castTV_V (fpu : Fpu) (a b : PTy) (v : MV) : castTV (rt fpu) b (a, v) = (castV fpu a b).map (· v) := by
  unfold castTV castV
  dsimp only
  split <;> rfl

theorem castable_V (fpu : Fpu) (a b : PTy) : castable (rt fpu) a b = (castV fpu a b).map fun _ => () := by
  unfold castable castV
  split <;> rfl

theorem castV_up (fpu : Fpu) {a c : Ty} (h : Up a c) : ∃ f, castV fpu a.p c.p = some f ∧ ∀ v, v.Has a → ∃ w, conv fpu c v = some w ∧ w.Has c ∧ f v.enc = w.enc := by
  cases a with
  | bool => cases c <;> simp [Up] at h
  | int s => cases c with
    | bool => simp [Up] at h
    | int t =>
      unfold castV
      split
      · next he =>
        refine ⟨_, rfl, fun v hv => ?_⟩
        obtain ⟨z, rfl, hz⟩ := has_int hv
        simp only [Ty.p, PTy.int.injEq] at he
        subst he
        exact ⟨_, rfl, wrap_fits _ _, by rw [wrap_self hz]; rfl⟩
      · refine ⟨_, rfl, fun v hv => ?_⟩
        obtain ⟨z, rfl, hz⟩ := has_int hv
        refine ⟨_, rfl, wrap_fits _ _, ?_⟩
        simp only [Val.enc, onWord_word, cast_wrap s t z hz]
    | flt F =>
      unfold castV
      rw [if_neg (by simp [Ty.p])]
      refine ⟨_, rfl, fun v hv => ?_⟩
      obtain ⟨z, rfl, hz⟩ := has_int hv
      refine ⟨_, rfl, rfl, ?_⟩
      simp only [Val.enc, onWord_word, pat_val, wrap_self hz]
  | flt F => cases c with
    | bool => simp [Up] at h
    | int t => simp [Up] at h
    | flt G =>
      unfold castV
      split
      · next he =>
        refine ⟨_, rfl, fun v hv => ?_⟩
        obtain ⟨x, rfl⟩ := has_flt hv
        simp only [Ty.p, PTy.flt.injEq] at he
        subst he
        exact ⟨_, rfl, rfl, by simp only [fpu.resize_same]; rfl⟩
      · refine ⟨_, rfl, fun v hv => ?_⟩
        obtain ⟨x, rfl⟩ := has_flt hv
        exact ⟨_, rfl, rfl, by simp only [Val.enc, onFlt_self]⟩

theorem castTV_up (fpu : Fpu) {a c : Ty} (h : Up a c) {v : Val} (hv : v.Has a) : ∃ w, conv fpu c v = some w ∧ w.Has c ∧ castTV (rt fpu) c.p (a.p, v.enc) = some w.enc := by
  obtain ⟨f, h1, h2⟩ := castV_up fpu h
  obtain ⟨w, h3, h4, h5⟩ := h2 v hv
  exact ⟨w, h3, h4, by rw [castTV_V, h1, Option.map_some, h5]⟩

theorem castable_up (fpu : Fpu) {a c : Ty} (h : Up a c) : castable (rt fpu) a.p c.p = some () := by
  obtain ⟨f, h1, _⟩ := castV_up fpu h
  rw [castable_V, h1]; rfl

theorem cut_toInt (t : IntTy) {F : Flt.Fmt} (x : Flt.Fl F) : Flt.toInt t.signed t.bits x = cut t x := by
  have e : (if x.neg then -((Flt.mval F x.mag / F.one : Nat) : Int) else (Flt.mval F x.mag / F.one : Nat)) = x.value.tdiv F.one := by
    unfold Flt.Fl.value
    split
    · rw [Int.neg_tdiv]; norm_cast
    · norm_cast
  unfold Flt.toInt cut
  split
  · rfl
  · dsimp only
    rw [e]
    have h2 := IntOps.two_pow t.bits (IntOps.bits_pos t)
    have hp : (0 : Int) < 2 ^ (t.bits - 1) := Int.pow_pos (by decide)
    cases hs : t.signed <;> simp only [IntOps.lo, IntOps.hi, hs, if_true, Bool.false_eq_true, if_false] <;>
      exact ite_congr (propext ⟨fun h => ⟨by omega, by omega⟩, fun h => ⟨by omega, by omega⟩⟩) (fun _ => rfl) fun _ => rfl

theorem cut_fits {t : IntTy} {F : Flt.Fmt} {x : Flt.Fl F} {z : Int} (h : cut t x = some z) : IntOps.Fits t z := by
  unfold cut at h
  split at h
  · cases h
  · split at h
    · next hb => cases h; exact hb
    · cases h

/-- The conversion of a result. Poison where the specification has no value. -/
theorem castTV_conv (fpu : Fpu) {a c : Ty} (h : converts c a = true) {v : Val} (hv : v.Has a) :
    castTV (rt fpu) c.p (a.p, v.enc) = some (match conv fpu c v with
      | some w => w.enc
      | none => .poison) := by
  by_cases hu : Up a c
  · obtain ⟨w, h1, _, h2⟩ := castTV_up fpu hu hv
    rw [h1, h2]
  · cases a with
    | bool => cases c with
      | bool => obtain ⟨b, rfl⟩ := has_bool hv; cases b <;> rfl
      | int _ => simp [converts] at h
      | flt _ => simp [converts] at h
    | int s => cases c <;> simp [converts, Up] at h hu
    | flt F => cases c with
      | bool => simp [converts] at h
      | flt _ => simp [Up] at hu
      | int t =>
        obtain ⟨x, rfl⟩ := has_flt hv
        rw [castTV_V]
        unfold castV
        rw [if_neg (by simp [Ty.p])]
        simp only [Ty.p, castT, Option.map_some, Val.enc, onFlt_self, cut_toInt, conv]
        cases cut t x <;> rfl

theorem castable_conv (fpu : Fpu) (a c : Ty) : castable (rt fpu) a.p c.p = if converts c a = true then some () else none := by
  unfold castable
  split
  · next h => have := p_inj h; subst this; cases a <;> rfl
  · next h => cases a <;> cases c <;> first | rfl | exact absurd rfl h

theorem conv_has (fpu : Fpu) {c : Ty} {v w : Val} (h : conv fpu c v = some w) : w.Has c := by
  cases c <;> cases v <;> simp [conv] at h
  · subst h; trivial
  · subst h; exact wrap_fits _ _
  · obtain ⟨z, h1, rfl⟩ := h; exact cut_fits h1
  · subst h; rfl
  · subst h; rfl

/-! ## Literals -/

theorem count_chars (ds : List Char) (h : ∀ c ∈ ds, c ≠ '_') (r : List Char) (hr : r = [] ∨ ∃ s, r = '_' :: s) : countWhile (fun c => c != '_') (ds ++ r) = ds.length := by
  induction ds with
  | nil => rcases hr with rfl | ⟨s, rfl⟩ <;> simp [countWhile]
  | cons c cs ih =>
    have := h c (by simp)
    simp only [List.cons_append, countWhile]
    simp [this, ih fun d hd => h d (by simp [hd]), Nat.add_comm]

theorem split_suffix (ds : List Char) (h0 : ds ≠ []) (h : ∀ c ∈ ds, c ≠ '_') (s : Option Suf) : splitNumber (withSuffix ds s) = (ds, s.map Suf.text) := by
  cases ds with
  | nil => exact absurd rfl h0
  | cons c cs =>
    have hcs : ∀ d ∈ cs, d ≠ '_' := fun d hd => h d (by simp [hd])
    unfold splitNumber
    cases s with
    | none =>
      simp only [withSuffix, List.drop_one, List.tail_cons]
      have := count_chars cs hcs [] (.inl rfl)
      rw [List.append_nil] at this
      rw [this]
      simp [Nat.add_comm 1]
    | some t =>
      simp only [withSuffix, List.cons_append, List.drop_one, List.tail_cons]
      rw [count_chars cs hcs _ (.inr ⟨_, rfl⟩)]
      simp [Nat.add_comm 1]

theorem lookup_suf (s : Suf) : sufTypes.lookup s.text = some s.type.p := by
  rcases s with t | F
  · cases t <;> decide
  · cases F <;> decide

theorem frac_chars {ip fp : List Char} (h1 : ∀ c ∈ ip, isDigit c = true) (h2 : ∀ c ∈ fp, isDigit c = true) : ∀ c ∈ fracText ip fp, c ≠ '_' := by
  intro c hc
  simp only [fracText, List.mem_append, List.mem_cons] at hc
  rcases hc with hc | rfl | hc
  · exact digit_ne c (h1 c hc)
  · decide
  · exact digit_ne c (h2 c hc)

theorem read_frac (fpu : Fpu) (ip fp : List Char) : readNumber fpu (fracText ip fp) = fpu.read (fracText ip fp) := by
  unfold readNumber
  rw [if_neg]
  simp [fracText, isDigit]

theorem read_digits (fpu : Fpu) (ds : List Char) (h : ∀ c ∈ ds, isDigit c = true) : readNumber fpu ds = Flt.ofInt Flt.f64 (decimal ds) := by
  unfold readNumber
  rw [if_pos (by simpa using h), decimal_eq]

theorem small_nat (m D : Nat) : ((m : Int) < 2 ^ 53 * (D : Int)) ↔ m < 2 ^ 53 * D := by
  have p : (2 : Int) ^ 53 = ((2 ^ 53 : Nat) : Int) := by decide
  rw [p, ← Int.natCast_mul]
  exact Int.ofNat_lt

/-- A small double as an integer of 64 bits. -/
theorem toInt_small (signed : Bool) (v : Flt.Fl Flt.f64) (h : Small v) : Flt.toInt signed 64 v = some (v.value / Flt.f64.one) := by
  obtain ⟨h1, h2⟩ := h
  have hv : v.value = (Flt.mval Flt.f64 v.mag : Int) := by simp [Flt.Fl.value, h1]
  have hm : Flt.mval Flt.f64 v.mag < 2 ^ 53 * Flt.f64.one := by rw [hv] at h2; exact (small_nat _ _).1 h2
  have hi := Flt.mval_inf Flt.f64_ok
  have hlt : v.mag < Flt.f64.inf := (Flt.mval_lt_iff Flt.f64).1 (by
    rw [hi]
    refine Nat.lt_of_lt_of_le hm (Nat.mul_le_mul_right _ ?_)
    exact Nat.pow_le_pow_right (by decide) (by decide))
  have hq : Flt.mval Flt.f64 v.mag / Flt.f64.one < 2 ^ 53 := Nat.div_lt_of_lt_mul (by rw [Nat.mul_comm]; exact hm)
  unfold Flt.toInt
  rw [if_neg (by omega), h1, hv]
  simp only [Bool.false_eq_true, if_false]
  have e : ((Flt.mval Flt.f64 v.mag : Int) / (Flt.f64.one : Int)) = ((Flt.mval Flt.f64 v.mag / Flt.f64.one : Nat) : Int) := (Int.natCast_ediv _ _).symm
  rw [e]
  generalize Flt.mval Flt.f64 v.mag / Flt.f64.one = q at *
  have p53 : (2 : Nat) ^ 53 = 9007199254740992 := by decide
  have p63 : (2 : Int) ^ 63 = 9223372036854775808 := by decide
  have p64 : (2 : Int) ^ 64 = 18446744073709551616 := by decide
  rw [if_pos]
  cases signed <;> simp <;> omega

theorem small_digits {n : Nat} (h : n < 2 ^ 53) : Small (Flt.ofInt Flt.f64 n) ∧ (Flt.ofInt Flt.f64 n).value = n * Flt.f64.one := by
  have hv := (Flt.conv_int Flt.f64_ok n (Flt.ofInt Flt.f64 n) (Flt.ofInt_not_nan _ _)).2.2.2 (by
    have : (2 : Nat) ^ 53 ≤ 2 ^ (Flt.f64.mb + 1) := Nat.pow_le_pow_right (by decide) (by decide)
    simp only [Int.natAbs_natCast]; omega)
  refine ⟨⟨by simp [Flt.ofInt], ?_⟩, hv⟩
  rw [hv, ← Int.natCast_mul]
  exact (small_nat _ _).2 (Nat.mul_lt_mul_of_pos_right h (Nat.two_pow_pos _))

theorem one_pos : (0 : Int) < Flt.f64.one := by have : 0 < Flt.f64.one := Nat.two_pow_pos _; omega

theorem digits_int {n : Nat} (h : n < 2 ^ 53) : (Flt.ofInt Flt.f64 n).value / Flt.f64.one = n := by
  rw [(small_digits h).2, Int.mul_ediv_cancel _ (by have := one_pos; omega)]

theorem buildAs_small (fpu : Fpu) (v : Flt.Fl Flt.f64) (h : Small v) (s : Suf) : ∃ w, s.value fpu v = some w ∧ w.Has s.type ∧ buildAs fpu v s.type.p = some (s.type.p, w.enc) := by
  cases s with
  | int t =>
    refine ⟨_, rfl, wrap_fits _ _, ?_⟩
    simp only [Suf.type, Ty.p, buildAs, toInt_small _ v h, Option.map_some, pat_val, Val.enc]
  | flt F => exact ⟨_, rfl, rfl, rfl⟩

/-- A small double that is no whole number keeps its fraction. -/
theorem buildPlain_frac (fpu : Fpu) (v : Flt.Fl Flt.f64) (h : Small v) (hf : v.value % Flt.f64.one ≠ 0) : buildPlain fpu v = some (.flt .f64, .flt .f64 v) := by
  unfold buildPlain
  rw [toInt_small _ v h, Option.bind_some, if_neg]
  have h0 : 0 ≤ v.value := by simp [Flt.Fl.value, h.1]
  have hq : (v.value / Flt.f64.one) < 2 ^ 53 := Int.ediv_lt_of_lt_mul one_pos h.2
  have hq0 : 0 ≤ v.value / Flt.f64.one := Int.ediv_nonneg h0 (by have := one_pos; omega)
  have hv := (Flt.conv_int Flt.f64_ok (v.value / Flt.f64.one) (Flt.ofInt Flt.f64 (v.value / Flt.f64.one)) (Flt.ofInt_not_nan _ _)).2.2.2 (by
    have : (2 : Nat) ^ 53 ≤ 2 ^ (Flt.f64.mb + 1) := Nat.pow_le_pow_right (by decide) (by decide)
    have p53 : (2 : Int) ^ 53 = 9007199254740992 := by decide
    have p53' : (2 : Nat) ^ 53 = 9007199254740992 := by decide
    omega)
  intro hc
  rw [Flt.fcmp, Bool.and_eq_true] at hc
  have := hc.2
  simp only [decide_eq_true_eq] at this
  rw [Flt.key_eq, hv] at this
  apply hf
  rw [← this]
  exact Int.mul_emod_left _ _

theorem buildPlain_digits (fpu : Fpu) (n : Nat) (h : n < 2 ^ 53) :
    buildPlain fpu (Flt.ofInt Flt.f64 n) = some (.int (if n ≤ 2147483647 then .i32 else .i64), .word n) := by
  have hs := small_digits h
  unfold buildPlain
  rw [toInt_small _ _ hs.1, digits_int h, Option.bind_some, if_pos (by simp [Flt.fcmp, Flt.ofInt_not_nan])]
  simp only [buildAs, toInt_small _ _ hs.1, digits_int h, Option.map_some, pat_val]
  by_cases h2 : n ≤ 2147483647
  · rw [if_pos (by omega), if_pos h2, wrap_self (fits_i32 h2)]
  · rw [if_neg (by omega), if_neg h2, wrap_self (fits_i64 h)]

theorem constant_lit (fpu : Fpu) (Γ : Types) (ρ : Store) (ds : List Char) (s : Option Suf) (hl : (Ex.lit ds s).Lits fpu) :
    ∃ τ v, (Ex.lit ds s).type Γ = some τ ∧ (Ex.lit ds s).value fpu Γ ρ = some v ∧ v.Has τ ∧ constant fpu (withSuffix ds s) = some (τ.p, v.enc) := by
  rw [Ex.Lits] at hl
  obtain ⟨h0, h1, h2⟩ := hl
  unfold constant
  rw [split_suffix ds h0 (fun c hc => digit_ne c (h1 c hc)) s]
  cases s with
  | none =>
    refine ⟨_, _, by rw [Ex.type], by rw [Ex.value], ?_, ?_⟩
    · show IntOps.Fits _ _
      split
      · next h => exact fits_i32 h
      · exact fits_i64 h2
    · simp only [Option.map_none, read_digits fpu ds h1, buildPlain_digits fpu _ h2, Ty.p, Val.enc]
  | some s =>
    obtain ⟨w, h3, h4, h5⟩ := buildAs_small fpu _ (small_digits h2).1 s
    refine ⟨s.type, w, by rw [Ex.type], ?_, h4, ?_⟩
    · cases s with
      | int t => rw [Ex.value]; rw [← h3, Suf.value, digits_int h2]
      | flt F => rw [Ex.value]; rw [← h3, Suf.value]
    · simp only [Option.map_some, read_digits fpu ds h1, lookup_suf, Option.bind_some, h5]

theorem constant_frac (fpu : Fpu) (Γ : Types) (ρ : Store) (ip fp : List Char) (s : Option Suf) (hl : (Ex.frac ip fp s).Lits fpu) :
    ∃ τ v, (Ex.frac ip fp s).type Γ = some τ ∧ (Ex.frac ip fp s).value fpu Γ ρ = some v ∧ v.Has τ ∧ constant fpu (withSuffix (fracText ip fp) s) = some (τ.p, v.enc) := by
  rw [Ex.Lits] at hl
  obtain ⟨h0, _, h1, h2, h3, h4⟩ := hl
  unfold constant
  rw [split_suffix _ (by simp [fracText]) (frac_chars h1 h2) s]
  cases s with
  | none =>
    refine ⟨.flt .f64, .flt .f64 (fpu.read (fracText ip fp)), by rw [Ex.type], by rw [Ex.value], rfl, ?_⟩
    simp only [Option.map_none, read_frac, buildPlain_frac fpu _ h3 (h4 rfl), Ty.p, Val.enc]
  | some s =>
    obtain ⟨w, h5, h6, h7⟩ := buildAs_small fpu _ h3 s
    exact ⟨s.type, w, by rw [Ex.type], by rw [Ex.value, h5], h6, by simp only [Option.map_some, read_frac, lookup_suf, Option.bind_some, h7]⟩

/-! ## Operations -/

theorem holdsF_fcmp (o : Rel) {F : Flt.Fmt} (x y : Flt.Fl F) : ∃ c, fltCmp o.sign = some c ∧ Flt.fcmp c x y = holdsF o x y := by
  have h1 := Flt.key_lt x y
  have h2 := Flt.key_eq x y
  have h3 := Flt.key_lt y x
  have e : ∀ p q : Prop, [Decidable p] → [Decidable q] → (p ↔ q) → decide p = decide q := fun p q _ _ h => by simp [h]
  cases o <;> refine ⟨_, rfl, ?_⟩ <;> unfold Flt.fcmp holdsF Rel.holds <;> refine congrArg (fun z => !x.isNaN && !y.isNaN && z) ?_ <;> apply e <;> omega

theorem binOp_arith (fpu : Fpu) (o : Arith) (t : PTy) : (rt fpu).binOp o.sign t = binT fpu o.sign t := by cases o <;> rfl
theorem binOp_rel (fpu : Fpu) (o : Rel) (t : PTy) : (rt fpu).binOp o.sign t = binT fpu o.sign t := by cases o <;> rfl

theorem fltOp_sign (o : Arith) : fltOp o.sign = some o := by cases o <;> rfl
theorem fltOp_rel (o : Rel) : fltOp o.sign = none := by cases o <;> rfl
theorem intOp_rel (o : Rel) : intOp o.sign = none := by cases o <;> rfl

/-- Arithmetic on two numbers of a type. -/
theorem arith_run (fpu : Fpu) (o : Arith) {c : Ty} (hc : c ≠ .bool) {v w : Val} (hv : v.Has c) (hw : w.Has c) :
    ∃ r, binT fpu o.sign c.p = some r ∧ r.1 = c.p ∧ r.2 v.enc w.enc = (arithV fpu o c v w).map Val.enc := by
  cases c with
  | bool => exact absurd rfl hc
  | int t =>
    obtain ⟨x, rfl, hx⟩ := has_int hv
    obtain ⟨y, rfl, hy⟩ := has_int hw
    obtain ⟨p, h1, h2⟩ := arith_calc o t x y hx hy
    refine ⟨(.int t, wordOp p t), by simp only [Ty.p, binT, h1], rfl, ?_⟩
    simp only [Val.enc, wordOp, arithV, ← h2, Option.map_map]
    rfl
  | flt F =>
    obtain ⟨x, rfl⟩ := has_flt hv
    obtain ⟨y, rfl⟩ := has_flt hw
    refine ⟨_, by simp only [Ty.p, binT, fltOp_sign]; rfl, rfl, ?_⟩
    simp only [Val.enc, onFlt_self, arithV, flt_self, Option.bind_some, Option.map_some]

theorem arith_has (fpu : Fpu) (o : Arith) {c : Ty} {v w z : Val} (hv : v.Has c) (hw : w.Has c) (h : arithV fpu o c v w = some z) : z.Has c := by
  cases c with
  | bool => cases v <;> simp [arithV] at h
  | int t =>
    obtain ⟨x, rfl, hx⟩ := has_int hv
    obtain ⟨y, rfl, hy⟩ := has_int hw
    simp only [arithV, Option.map_eq_some_iff] at h
    obtain ⟨r, h1, rfl⟩ := h
    exact calc_fits o t x y r hx hy h1
  | flt F =>
    obtain ⟨x, rfl⟩ := has_flt hv
    obtain ⟨y, rfl⟩ := has_flt hw
    simp only [arithV, flt_self, Option.bind_some, Option.map_some, Option.some.injEq] at h
    subst h; rfl

theorem enc_bool (b : Bool) : (Val.bool b).enc = .word (bit b) := rfl

theorem rel_run (fpu : Fpu) (o : Rel) {c : Ty} (hc : c ≠ .bool) {v w : Val} (hv : v.Has c) (hw : w.Has c) :
    ∃ r b, binT fpu o.sign c.p = some r ∧ r.1 = .bit ∧ relV o c v w = some (.bool b) ∧ r.2 v.enc w.enc = some (.word (bit b)) := by
  cases c with
  | bool => exact absurd rfl hc
  | int t =>
    obtain ⟨x, rfl, hx⟩ := has_int hv
    obtain ⟨y, rfl, hy⟩ := has_int hw
    obtain ⟨p, _, h1, h2⟩ := compare_holds o t x y hx hy
    refine ⟨_, o.holds x y, by simp only [Ty.p, binT, intOp_rel, h1]; rfl, rfl, rfl, ?_⟩
    simp only [Val.enc, wordCmp, onWord_word, h2]
  | flt F =>
    obtain ⟨x, rfl⟩ := has_flt hv
    obtain ⟨y, rfl⟩ := has_flt hw
    obtain ⟨p, h1, h2⟩ := holdsF_fcmp o x y
    refine ⟨_, holdsF o x y, by simp only [Ty.p, binT, fltOp_rel, h1]; rfl, rfl, ?_, ?_⟩
    · simp only [relV, flt_self, Option.bind_some, Option.map_some]
    · simp only [Val.enc, onFlt_self, h2]

theorem neg_run (fpu : Fpu) {c : Ty} (hc : ∀ t, c = .int t → t.signed = true) (hb : c ≠ .bool) {v : Val} (hv : v.Has c) :
    ∃ w, opposite c v = some w ∧ w.Has c ∧ unTV (rt fpu) .neg (c.p, v.enc) = some (c.p, w.enc) := by
  cases c with
  | bool => exact absurd rfl hb
  | int t =>
    obtain ⟨x, rfl, hx⟩ := has_int hv
    have h := negTV t (hc t rfl) x hx
    simp only [unTV] at h
    have h2 : (Pipeline.unT .neg (.int t)) = some (.int t, fun x => some (IntOps.val t (IntOps.neg t (pat t x)))) := by simp [Pipeline.unT, hc t rfl]
    rw [show ints.un = Pipeline.unT from rfl, h2] at h
    simp only [Option.bind_some, Option.map_some, Option.some.injEq, Prod.mk.injEq, true_and] at h
    refine ⟨_, rfl, wrap_fits _ _, ?_⟩
    show ((unT .neg (.int t)).bind _) = _
    simp only [unT, if_true, Option.bind_some, Val.enc, onWord_word, Option.map_some, Ty.p, h]
  | flt F =>
    obtain ⟨x, rfl⟩ := has_flt hv
    refine ⟨.flt F { x with neg := !x.neg }, by simp only [opposite, flt_self, Option.map_some], rfl, ?_⟩
    show ((unT .neg (.flt F)).bind _) = _
    simp only [unT, if_true, Option.bind_some, Val.enc, onFlt_self, Option.map_some, Ty.p]

/-! ## Functions -/

theorem name1 (f : Fn1) : names1.lookup f.name = some f := by cases f <;> decide +kernel
theorem name2 (f : Fn2) : names2.lookup f.name = some f := by cases f <;> decide +kernel
theorem name3 (f : Fn3) : names3.lookup f.name = some f := by cases f <;> decide +kernel
theorem arity1 (f : Fn1) : arity f.name = some 1 := by cases f <;> decide +kernel
theorem arity2 (f : Fn2) : arity f.name = some 2 := by cases f <;> decide +kernel
theorem arity3 (f : Fn3) : arity f.name = some 3 := by cases f <;> decide +kernel

theorem registered1_for (f : Fn1) (t : Ty) : (registered1 f).contains t.p = f.for t := by
  cases t with
  | bool => cases f <;> decide
  | int t => cases f <;> cases t <;> decide
  | flt F => cases f <;> cases F <;> decide
theorem registered2_for (f : Fn2) (t : Ty) : (registered2 f).contains t.p = f.for t := by
  cases t with
  | bool => cases f <;> decide
  | int t => cases f <;> cases t <;> decide
  | flt F => cases f <;> cases F <;> decide
theorem registered3_for (f : Fn3) (t : Ty) : (registered3 f).contains t.p = f.for t := by
  cases t with
  | bool => cases f <;> decide
  | int t => cases f <;> cases t <;> decide
  | flt F => cases f <;> cases F <;> decide

theorem coded1_for {f : Fn1} {t : Ty} (h : f.for t = true) : coded1 f t.p = true := by
  cases t with
  | bool => simp [Fn1.for] at h
  | int t => simp [Fn1.for] at h; simp [coded1, Ty.p, h.1]
  | flt F => exact (registered1_for f (.flt F)).trans h

theorem abs_wrap (t : IntTy) (hs : t.signed = true) (x : Int) (hx : IntOps.Fits t x) : IntOps.val t (IntOps.abs t (pat t x)) = Pipeline.wrap t x.natAbs := by
  refine wrap_unique (IntOps.val_fits _ _) ?_
  have ex : IntOps.val t (pat t x) = x := by rw [pat_val, wrap_self hx]
  have hn : (pat t x).slt 0 = decide (x < 0) := by
    have : IntOps.val t (pat t x) = (pat t x).toInt := by simp [IntOps.val, hs]
    rw [BitVec.slt, ← this, ex]; simp
  unfold IntOps.abs
  rw [hn]
  by_cases h0 : x < 0
  · simp only [h0, decide_true, if_true]
    have h := negTV t hs x hx
    have h2 : (Pipeline.unT .neg (.int t)) = some (.int t, fun x => some (IntOps.val t (IntOps.neg t (pat t x)))) := by simp [Pipeline.unT, hs]
    simp only [unTV, show ints.un = Pipeline.unT from rfl, h2, Option.bind_some, Option.map_some, Option.some.injEq, Prod.mk.injEq, true_and] at h
    show IntOps.val t (IntOps.neg t (pat t x)) % _ = _
    rw [h, wrap_mod]
    congr 1
    omega
  · simp only [h0, decide_false, Bool.false_eq_true, if_false, ex]
    congr 1
    omega

theorem fn1_run (fpu : Fpu) (f : Fn1) {t : Ty} (hf : f.for t = true) {v : Val} (hv : v.Has t) : ∃ w, f.calc fpu t v = some w ∧ w.Has t ∧ run1 fpu f t.p v.enc = some w.enc := by
  cases t with
  | bool => simp [Fn1.for] at hf
  | int t =>
    obtain ⟨x, rfl, hx⟩ := has_int hv
    simp only [Fn1.for, Bool.and_eq_true, decide_eq_true_eq, Bool.or_eq_true] at hf
    have hs : t.signed = true := by rcases hf.2 with rfl | rfl <;> rfl
    refine ⟨.int (Pipeline.wrap t x.natAbs), by simp only [Fn1.calc, hf.1, if_true], wrap_fits _ _, ?_⟩
    simp only [run1, Ty.p, Val.enc, onWord_word, abs_wrap t hs x hx]
  | flt F =>
    obtain ⟨x, rfl⟩ := has_flt hv
    exact ⟨.flt F (fpu.fn1 f F x), by simp only [Fn1.calc, flt_self, Option.map_some], rfl, by simp only [run1, Ty.p, Val.enc, onFlt_self]⟩

theorem max_run (t : IntTy) (x y : Int) (hx : IntOps.Fits t x) (hy : IntOps.Fits t y) (o : IntOps.IOp) (ho : o = .max ∨ o = .min) :
    (IntOps.arith o t (pat t x) (pat t y)).map (fun r => MV.word (IntOps.val t r)) = some (.word (IntOps.meant o x y)) := by
  have ex : IntOps.val t (pat t x) = x := by rw [pat_val, wrap_self hx]
  have ey : IntOps.val t (pat t y) = y := by rw [pat_val, wrap_self hy]
  cases hr : IntOps.arith o t (pat t x) (pat t y) with
  | none =>
    have := (IntOps.division_undefined o t (pat t x) (pat t y)).1 hr
    rcases ho with rfl | rfl <;> simp at this
  | some r =>
    have := IntOps.division_exact o (by rcases ho with h | h <;> simp [h]) t _ _ r hr
    rw [Option.map_some, this, ex, ey]

theorem diff_run (t : IntTy) (ht : t = .i32 ∨ t = .i64) (x y : Int) : MathFns.scalarAbsDiff t.bits x y = Fn2.calcInt .absDiff t x y := by
  unfold MathFns.scalarAbsDiff MathFns.check Fn2.calcInt
  have h1 : IntOps.hi t = 2 ^ (t.bits - 1) - 1 := by rcases ht with rfl | rfl <;> rfl
  have hp : (0 : Int) < 2 ^ (t.bits - 1) := Int.pow_pos (by decide)
  simp only [h1]
  generalize (2 : Int) ^ (t.bits - 1) = B at *
  split
  · next h =>
    have e : ((x - y).natAbs : Int) = x - y := by omega
    rw [e]
    exact ite_congr (propext ⟨fun h => by omega, fun h => by omega⟩) (fun _ => rfl) fun _ => rfl
  · next h =>
    have e : ((x - y).natAbs : Int) = y - x := by omega
    rw [e]
    exact ite_congr (propext ⟨fun h => by omega, fun h => by omega⟩) (fun _ => rfl) fun _ => rfl

theorem fn2_run (fpu : Fpu) (f : Fn2) {t : Ty} (hf : f.for t = true) {v w : Val} (hv : v.Has t) (hw : w.Has t) : run2 fpu f t.p v.enc w.enc = (f.calc fpu t v w).map Val.enc := by
  cases t with
  | bool => simp [Fn2.for] at hf
  | int t =>
    obtain ⟨x, rfl, hx⟩ := has_int hv
    obtain ⟨y, rfl, hy⟩ := has_int hw
    cases f with
    | max => simp only [run2, Ty.p, Val.enc, wordOp, max_run t x y hx hy .max (.inl rfl), Fn2.calc, Fn2.calcInt, Option.map_some, IntOps.meant, MV.word.injEq, Option.some.injEq]; first | done | omega
    | min => simp only [run2, Ty.p, Val.enc, wordOp, max_run t x y hx hy .min (.inr rfl), Fn2.calc, Fn2.calcInt, Option.map_some, IntOps.meant, MV.word.injEq, Option.some.injEq]; first | done | omega
    | absDiff =>
      have ht : t = .i32 ∨ t = .i64 := by simpa [Fn2.for] using hf
      simp only [run2, Ty.p, Val.enc, diff_run t ht, Fn2.calc, Option.map_map]; rfl
    | _ => simp [Fn2.for] at hf
  | flt F =>
    obtain ⟨x, rfl⟩ := has_flt hv
    obtain ⟨y, rfl⟩ := has_flt hw
    simp only [run2, Ty.p, Val.enc, onFlt_self, Fn2.calc, flt_self, Option.bind_some, Option.map_some]

theorem fn2_has (fpu : Fpu) (f : Fn2) {t : Ty} {v w z : Val} (hv : v.Has t) (hw : w.Has t) (h : f.calc fpu t v w = some z) : z.Has t := by
  cases t with
  | bool => cases v <;> simp [Fn2.calc] at h
  | int t =>
    obtain ⟨x, rfl, hx⟩ := has_int hv
    obtain ⟨y, rfl, hy⟩ := has_int hw
    simp only [Fn2.calc, Option.map_eq_some_iff] at h
    obtain ⟨r, h1, rfl⟩ := h
    show IntOps.Fits t r
    have hlo : IntOps.lo t ≤ 0 := by cases t <;> decide
    unfold IntOps.Fits at *
    cases f <;> simp only [Fn2.calcInt, Option.some.injEq, reduceCtorEq] at h1
    · split at h1
      · cases h1; omega
      · cases h1
    · omega
    · omega
  | flt F =>
    obtain ⟨x, rfl⟩ := has_flt hv
    obtain ⟨y, rfl⟩ := has_flt hw
    simp only [Fn2.calc, flt_self, Option.bind_some, Option.map_some, Option.some.injEq] at h
    subst h; rfl

theorem clamp_run {F : Flt.Fmt} (x lo hi : Flt.Fl F) :
    clampF x lo hi = if holdsF .lt hi lo = true then none else some (if holdsF .lt x lo = true then lo else if holdsF .lt hi x = true then hi else x) := by
  have e : ∀ a b : Flt.Fl F, Flt.fcmp .lt a b = holdsF .lt a b := fun a b => by
    obtain ⟨c, h1, h2⟩ := holdsF_fcmp .lt a b
    have : c = .lt := by simpa [fltCmp, Rel.sign] using h1.symm
    rw [← this, h2]
  unfold clampF
  rw [e, e, e]

theorem fn3_run (fpu : Fpu) (f : Fn3) {t : Ty} (hf : f.for t = true) {u v w : Val} (hu : u.Has t) (hv : v.Has t) (hw : w.Has t) :
    run3 fpu f t.p u.enc v.enc w.enc = (f.calc fpu t u v w).map Val.enc := by
  cases t with
  | bool => simp [Fn3.for] at hf
  | int t =>
    obtain ⟨x, rfl, hx⟩ := has_int hu
    obtain ⟨y, rfl, hy⟩ := has_int hv
    obtain ⟨z, rfl, hz⟩ := has_int hw
    have hf' : f = .clamp := by simpa [Fn3.for] using hf
    subst hf'
    simp only [run3, Ty.p, Val.enc, Fn3.calc, if_true, MathFns.scalarClamp]
    split
    · rfl
    · next h =>
      simp only [Option.map_some, Val.enc]
      congr 2
      split
      · omega
      · split <;> omega
  | flt F =>
    obtain ⟨x, rfl⟩ := has_flt hu
    obtain ⟨y, rfl⟩ := has_flt hv
    obtain ⟨z, rfl⟩ := has_flt hw
    simp only [run3, Ty.p, Val.enc, mflt_self, Fn3.calc, flt_self, Option.bind_some, Fn3.calcFlt, clamp_run]
    split
    · split <;> rfl
    · rfl

theorem fn3_has (fpu : Fpu) (f : Fn3) {t : Ty} {u v w z : Val} (hu : u.Has t) (hv : v.Has t) (hw : w.Has t) (h : f.calc fpu t u v w = some z) : z.Has t := by
  cases t with
  | bool => cases u <;> simp [Fn3.calc] at h
  | int t =>
    obtain ⟨x, rfl, hx⟩ := has_int hu
    obtain ⟨y, rfl, hy⟩ := has_int hv
    obtain ⟨r, rfl, hr⟩ := has_int hw
    simp only [Fn3.calc] at h
    split at h
    · split at h
      · cases h
      · cases h
        show IntOps.Fits t _
        unfold IntOps.Fits at *
        omega
    · cases h
  | flt F =>
    obtain ⟨x, rfl⟩ := has_flt hu
    obtain ⟨y, rfl⟩ := has_flt hv
    obtain ⟨r, rfl⟩ := has_flt hw
    simp only [Fn3.calc, flt_self, Option.bind_some, Option.map_eq_some_iff] at h
    obtain ⟨_, _, rfl⟩ := h
    rfl

end Verif.Comp.Real
