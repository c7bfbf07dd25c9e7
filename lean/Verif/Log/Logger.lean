/-!
# The logger messages go to (C184)

`/repo/rapidudf/log/log.cc` 18–22 (`g_default_looger`, `set_default_logger`), `/repo/rapidudf/log/log.h` 28–35 (`RUDF_LOG`).

`RUDF_LOG` looks at the shared pointer twice, `g_default_looger ? g_default_looger.get() : spdlog::default_logger_raw()`, and then uses the plain
pointer. Threads make one of these accesses at a time; `set_default_logger` is one access. (Colliding accesses to a `shared_ptr` are undefined in C++. Here they take effect one
after the other, so what is shown to go wrong goes wrong even then.) A logger is destroyed when it is no longer set, unless the user keeps a
pointer to it. Using a destroyed logger is undefined. Loggers are numbered; all accept the level of the messages. spdlog's own logger is never
destroyed or removed.
-/
namespace Verif.Log.Logger

/-- Where a thread is in `RUDF_LOG`. -/
inductive Pc where
  | idle
  | get               -- found a logger set: about to call `get()`
  | use (l : Nat)     -- about to write to logger `l`
  | useDefault        -- found none set: about to write to spdlog's logger
deriving DecidableEq, Repr

/-- What happens. In `wrote`, `none` is spdlog's logger. -/
inductive Event where
  | set (l : Option Nat)
  | wrote (l : Option Nat)
  | dropped                 -- a message that no logger gets
deriving DecidableEq, Repr

structure St where
  cur : Option Nat := none             -- `g_default_looger`
  pc : Nat → Pc := fun _ => .idle
  events : List Event := []

inductive Move where
  | set (l : Option Nat)    -- `set_default_logger`
  | log (thread : Nat)      -- the thread comes to `RUDF_LOG`, or goes on in it
deriving DecidableEq, Repr

def setPc (s : St) (t : Nat) (p : Pc) : St := { s with pc := fun u => if u = t then p else s.pc u }
def emit (s : St) (e : Event) : St := { s with events := s.events ++ [e] }

/-- One step, `kept l`: the user has a pointer to logger `l`. `none`: undefined behaviour. -/
def step (kept : Nat → Bool) (s : St) : Move → Option St
  | .set l => some (emit { s with cur := l } (.set l))                      -- `log.cc` 19
  | .log t =>
    match s.pc t with
    | .idle => some (setPc s t (if s.cur.isSome then .get else .useDefault))    -- `log.h` 31
    | .get =>
      match s.cur with
      | some l => some (setPc s t (.use l))
      | none => some (setPc (emit s .dropped) t .idle)                        -- `nullptr != _local_logger_` fails
    | .use l => if kept l || s.cur == some l then some (setPc (emit s (.wrote (some l))) t .idle) else none
    | .useDefault => some (setPc (emit s (.wrote none)) t .idle)

def run (kept : Nat → Bool) (s : St) : List Move → Option St
  | [] => some s
  | m :: ms => (step kept s m).bind fun s' => run kept s' ms

/-! ## Specification -/

/-- Every message goes to the logger set last, or to spdlog's if none is. -/
def Follows : Option Nat → List Event → Prop
  | _, [] => True
  | _, .set l :: es => Follows l es
  | c, .wrote l :: es => l = c ∧ Follows c es
  | _, .dropped :: _ => False

/-- The logger is set only while no thread is logging. -/
def QuietSets (kept : Nat → Bool) (s : St) : List Move → Prop
  | [] => True
  | m :: ms => ((∃ l, m = .set l) → ∀ t, s.pc t = .idle) ∧ ∀ s', step kept s m = some s' → QuietSets kept s' ms

/-- With this step, after which the state is `s`, a thread comes to the end of `RUDF_LOG`. -/
def ends (s : St) : Move → Nat
  | .set _ => 0
  | .log t => if s.pc t = .idle then 1 else 0

/-- How many times threads came to the end of `RUDF_LOG`. -/
def ended (kept : Nat → Bool) (s : St) : List Move → Nat
  | [] => 0
  | m :: ms =>
    match step kept s m with
    | none => 0
    | some s' => ends s' m + ended kept s' ms

/-- How many messages were written. -/
def written : List Event → Nat
  | [] => 0
  | .wrote _ :: es => written es + 1
  | _ :: es => written es

/-! ## Lemmas -/

def lastSet : Option Nat → List Event → Option Nat
  | c, [] => c
  | _, .set l :: es => lastSet l es
  | c, .wrote _ :: es => lastSet c es
  | c, .dropped :: es => lastSet c es

theorem follows_append (es : List Event) (e : Event) : ∀ c, Follows c (es ++ [e]) ↔ Follows c es ∧ Follows (lastSet c es) [e] := by
  induction es with
  | nil => intro c; simp [Follows, lastSet]
  | cons x es ih =>
    intro c
    cases x with
    | set l => exact ih l
    | wrote l =>
      simp only [List.cons_append, Follows, lastSet, ih c, and_assoc]
    | dropped => simp [Follows]

theorem last_append (es : List Event) (e : Event) : ∀ c, lastSet c (es ++ [e]) = lastSet (lastSet c es) [e] := by
  induction es with
  | nil => intro c; rfl
  | cons x es ih =>
    intro c
    cases x with
    | set l => exact ih l
    | wrote l => exact ih c
    | dropped => exact ih c

structure Inv (s : St) : Prop where
  last : lastSet none s.events = s.cur
  follows : Follows none s.events
  get : ∀ t, s.pc t = .get → s.cur ≠ none
  use : ∀ t l, s.pc t = .use l → s.cur = some l
  useDefault : ∀ t, s.pc t = .useDefault → s.cur = none

theorem inv_step (kept : Nat → Bool) (s : St) (m : Move) (hi : Inv s) (hq : (∃ l, m = .set l) → ∀ t, s.pc t = .idle) :
    ∃ s', step kept s m = some s' ∧ Inv s' := by
  cases m with
  | set l =>
    refine ⟨_, rfl, ?_⟩
    have hidle := hq ⟨l, rfl⟩
    refine ⟨?_, ?_, ?_, ?_, ?_⟩
    · simp only [emit]; rw [last_append]; rfl
    · simp only [emit]; rw [follows_append]; exact ⟨hi.follows, trivial⟩
    · intro t h; simp only [emit] at h; rw [hidle t] at h; cases h
    · intro t l h; simp only [emit] at h; rw [hidle t] at h; cases h
    · intro t h; simp only [emit] at h; rw [hidle t] at h; cases h
  | log t =>
    have other : ∀ (s1 : St) (p : Pc), s1.pc = s.pc → s1.cur = s.cur → lastSet none s1.events = s.cur → Follows none s1.events →
        (p = .get → s.cur ≠ none) → (∀ l, p = .use l → s.cur = some l) → (p = .useDefault → s.cur = none) → Inv (setPc s1 t p) := by
      intro s1 p h1 h2 h3 h4 h5 h6 h7
      refine ⟨h3.trans h2.symm, h4, ?_, ?_, ?_⟩
      · intro u h
        simp only [setPc, h1, h2] at h ⊢
        split at h
        · exact h5 h
        · exact hi.get u h
      · intro u l h
        simp only [setPc, h1, h2] at h ⊢
        split at h
        · exact h6 l h
        · exact hi.use u l h
      · intro u h
        simp only [setPc, h1, h2] at h ⊢
        split at h
        · exact h7 h
        · exact hi.useDefault u h
    cases e : s.pc t with
    | idle =>
      refine ⟨setPc s t (if s.cur.isSome then .get else .useDefault), by simp only [step, e], other s _ rfl rfl hi.last hi.follows ?_ ?_ ?_⟩
      · cases s.cur <;> simp
      · cases s.cur <;> simp
      · cases s.cur <;> simp
    | get =>
      cases ec : s.cur with
      | none => exact absurd ec (hi.get t e)
      | some l =>
        refine ⟨setPc s t (.use l), by simp only [step, e, ec], other s _ rfl rfl hi.last hi.follows ?_ ?_ ?_⟩
        · simp
        · intro l' h; cases h; exact ec
        · simp
    | use l =>
      have ec := hi.use t l e
      refine ⟨setPc (emit s (.wrote (some l))) t .idle, by simp [step, e, ec], other (emit s _) _ rfl rfl ?_ ?_ ?_ ?_ ?_⟩
      · simp only [emit]; rw [last_append]; exact hi.last
      · simp only [emit]; rw [follows_append, hi.last]; exact ⟨hi.follows, ec.symm, trivial⟩
      · simp
      · simp
      · simp
    | useDefault =>
      have ec := hi.useDefault t e
      refine ⟨setPc (emit s (.wrote none)) t .idle, by simp only [step, e], other (emit s _) _ rfl rfl ?_ ?_ ?_ ?_ ?_⟩
      · simp only [emit]; rw [last_append]; exact hi.last
      · simp only [emit]; rw [follows_append, hi.last]; exact ⟨hi.follows, ec.symm, trivial⟩
      · simp
      · simp
      · simp

theorem inv_run (kept : Nat → Bool) : ∀ (ms : List Move) (s : St), Inv s → QuietSets kept s ms → ∃ s', run kept s ms = some s' ∧ Inv s' := by
  intro ms
  induction ms with
  | nil => intro s hi _; exact ⟨s, rfl, hi⟩
  | cons m ms ih =>
    intro s hi hq
    obtain ⟨s', h1, h2⟩ := inv_step kept s m hi hq.1
    obtain ⟨s'', h3, h4⟩ := ih s' h2 (hq.2 s' h1)
    exact ⟨s'', by simp [run, h1, h3], h4⟩

/-- While a logger stays set and all loggers that were set are kept. -/
structure Kept (kept : Nat → Bool) (s : St) : Prop where
  cur : ∀ l, s.cur = some l → kept l = true
  use : ∀ t l, s.pc t = .use l → kept l = true
  get : ∀ t, s.pc t = .get → s.cur ≠ none
  dropped : .dropped ∉ s.events

theorem kept_step (kept : Nat → Bool) (s : St) (m : Move) (hi : Kept kept s) (hm : ∀ l, m = .set l → ∃ x, l = some x ∧ kept x = true) :
    ∃ s', step kept s m = some s' ∧ Kept kept s' := by
  cases m with
  | set l =>
    obtain ⟨x, rfl, hx⟩ := hm l rfl
    refine ⟨_, rfl, ⟨?_, hi.use, ?_, ?_⟩⟩
    · intro l h; cases h; exact hx
    · intro t _ h; cases h
    · simp only [emit, List.mem_append, not_or]; exact ⟨hi.dropped, by simp⟩
  | log t =>
    have other : ∀ (s1 : St) (p : Pc), s1.pc = s.pc → s1.cur = s.cur → .dropped ∉ s1.events →
        (p = .get → s.cur ≠ none) → (∀ l, p = .use l → kept l = true) → Kept kept (setPc s1 t p) := by
      intro s1 p h1 h2 h4 h5 h6
      refine ⟨?_, ?_, ?_, h4⟩
      · intro l h; simp only [setPc, h2] at h; exact hi.cur l h
      · intro u l h
        simp only [setPc, h1] at h
        split at h
        · exact h6 l h
        · exact hi.use u l h
      · intro u h
        simp only [setPc, h1, h2] at h ⊢
        split at h
        · exact h5 h
        · exact hi.get u h
    cases e : s.pc t with
    | idle =>
      refine ⟨setPc s t (if s.cur.isSome then .get else .useDefault), by simp only [step, e], other s _ rfl rfl hi.dropped ?_ ?_⟩
      · cases s.cur <;> simp
      · cases s.cur <;> simp
    | get =>
      cases ec : s.cur with
      | none => exact absurd ec (hi.get t e)
      | some l =>
        refine ⟨setPc s t (.use l), by simp only [step, e, ec], other s _ rfl rfl hi.dropped (by simp) ?_⟩
        intro l' h; cases h; exact hi.cur l ec
    | use l =>
      have hk := hi.use t l e
      refine ⟨setPc (emit s (.wrote (some l))) t .idle, by simp [step, e, hk], other (emit s _) _ rfl rfl ?_ (by simp) (by simp)⟩
      simp only [emit, List.mem_append, not_or]; exact ⟨hi.dropped, by simp⟩
    | useDefault =>
      refine ⟨setPc (emit s (.wrote none)) t .idle, by simp only [step, e], other (emit s _) _ rfl rfl ?_ (by simp) (by simp)⟩
      simp only [emit, List.mem_append, not_or]; exact ⟨hi.dropped, by simp⟩

/-- Messages written or dropped. -/
def outs : List Event → Nat
  | [] => 0
  | .set _ :: es => outs es
  | _ :: es => outs es + 1

theorem outs_append (es : List Event) (e : Event) : outs (es ++ [e]) = outs es + outs [e] := by
  induction es with
  | nil => simp [outs]
  | cons x es ih => cases x <;> simp only [List.cons_append, outs, ih] <;> omega

theorem outs_written (es : List Event) (h : .dropped ∉ es) : outs es = written es := by
  induction es with
  | nil => rfl
  | cons x es ih =>
    have h' := ih (fun hx => h (List.mem_cons_of_mem _ hx))
    cases x with
    | set l => exact h'
    | wrote l => simp only [outs, written, h']
    | dropped => exact absurd List.mem_cons_self h

theorem follows_not_dropped (es : List Event) : ∀ c, Follows c es → .dropped ∉ es := by
  induction es with
  | nil => intro c _; exact List.not_mem_nil
  | cons x es ih =>
    intro c h hx
    rcases List.mem_cons.1 hx with e | hy
    · subst e; exact h
    · clear hx
      cases x with
      | set l => exact ih l h hy
      | wrote l => exact ih c h.2 hy
      | dropped => exact h

theorem step_outs (kept : Nat → Bool) (s s' : St) (m : Move) (h : step kept s m = some s') : outs s'.events = outs s.events + ends s' m := by
  cases m with
  | set l =>
    cases h
    simp only [emit, ends]
    rw [outs_append]
    rfl
  | log t =>
    simp only [step] at h
    cases e : s.pc t with
    | idle =>
      rw [e] at h
      simp only [Option.some.injEq] at h
      subst h
      cases s.cur <;> simp [ends, setPc]
    | get =>
      rw [e] at h
      simp only at h
      cases c : s.cur with
      | some l =>
        rw [c] at h
        simp only [Option.some.injEq] at h
        subst h
        simp [ends, setPc]
      | none =>
        rw [c] at h
        simp only [Option.some.injEq] at h
        subst h
        simp [ends, setPc, emit, outs_append, outs]
    | use l =>
      rw [e] at h
      simp only at h
      split at h
      · simp only [Option.some.injEq] at h
        subst h
        simp [ends, setPc, emit, outs_append, outs]
      · cases h
    | useDefault =>
      rw [e] at h
      simp only [Option.some.injEq] at h
      subst h
      simp [ends, setPc, emit, outs_append, outs]

theorem run_outs (kept : Nat → Bool) : ∀ (ms : List Move) (s s' : St), run kept s ms = some s' → outs s'.events = outs s.events + ended kept s ms := by
  intro ms
  induction ms with
  | nil => intro s s' h; cases h; rfl
  | cons m ms ih =>
    intro s s' h
    simp only [run] at h
    cases e : step kept s m with
    | none => rw [e] at h; cases h
    | some s1 =>
      rw [e] at h
      have h1 := ih s1 s' h
      have h2 := step_outs kept s s1 m e
      simp only [ended, e]
      omega

/-! ## Property C184 -/

/-- **C184 (partial), set between messages.** If the logger is set only while no thread is logging, then in every schedule there is no undefined behaviour, even if
the user keeps no pointer to any logger, every message is written once and goes to the logger set last (spdlog's before the first and after setting
none). Missing: setting it during messages (`destroyed_violated`, `lost_violated`). -/
theorem set_between_partial (kept : Nat → Bool) (ms : List Move) (hq : QuietSets kept {} ms) :
    ∃ s, run kept {} ms = some s ∧ Follows none s.events ∧ written s.events = ended kept {} ms := by
  have h0 : Inv {} := ⟨rfl, trivial, fun _ h => (by cases h), fun _ _ h => (by cases h), fun _ h => (by cases h)⟩
  obtain ⟨s, h1, h2⟩ := inv_run kept ms {} h0 hq
  refine ⟨s, h1, h2.follows, ?_⟩
  rw [← outs_written _ (follows_not_dropped _ _ h2.follows), run_outs kept ms {} s h1]
  simp [outs]

/-- **C184 (partial), loggers kept.** If the user keeps a pointer to every logger they set and never sets none, then the logger may be set at any time: there is no
undefined behaviour and every message is written once. -/
theorem kept_partial (kept : Nat → Bool) (ms : List Move) (hm : ∀ l, .set l ∈ ms → ∃ x, l = some x ∧ kept x = true) :
    ∃ s, run kept {} ms = some s ∧ written s.events = ended kept {} ms := by
  have h0 : Kept kept {} := ⟨fun _ h => (by cases h), fun _ _ h => (by cases h), fun _ h => (by cases h), List.not_mem_nil⟩
  have : ∀ (ms : List Move) (s : St), Kept kept s → (∀ l, .set l ∈ ms → ∃ x, l = some x ∧ kept x = true) → ∃ s', run kept s ms = some s' ∧ Kept kept s' := by
    intro ms
    induction ms with
    | nil => intro s h _; exact ⟨s, rfl, h⟩
    | cons m ms ih =>
      intro s h hm
      obtain ⟨s', h1, h2⟩ := kept_step kept s m h (fun l e => hm l (e ▸ List.mem_cons_self))
      obtain ⟨s'', h3, h4⟩ := ih s' h2 (fun l hl => hm l (List.mem_cons_of_mem _ hl))
      exact ⟨s'', by simp [run, h1, h3], h4⟩
  obtain ⟨s, h1, h2⟩ := this ms {} h0 hm
  refine ⟨s, h1, ?_⟩
  rw [← outs_written _ h2.dropped, run_outs kept ms {} s h1]
  simp [outs]

/-- **C184 fails of setting during a message.** A logger the user does not keep is replaced after a thread has taken its address: the thread uses a destroyed logger. -/
theorem destroyed_violated (a b : Nat) (h : b ≠ a) (kept : Nat → Bool) (hk : kept a = false) :
    run kept {} [.set (some a), .log 0, .log 0, .set (some b), .log 0] = none := by
  simp [run, step, setPc, emit, hk, h]

/-- **C184 fails of setting none during a message.** The message goes to no logger, although spdlog's logger would take it. -/
theorem lost_violated (a : Nat) (kept : Nat → Bool) :
    (run kept {} [.set (some a), .log 0, .set none, .log 0]).map (·.events) = some [.set (some a), .set none, .dropped] := by
  simp [run, step, setPc, emit]

/-! ## Cases -/

/-- Two threads log, the logger changes in between. -/
def trace : List Move := [.log 0, .log 0, .set (some 5), .log 0, .log 1, .log 1, .log 0, .log 0, .log 1, .set none, .log 1, .log 1]

example : (run (fun _ => false) {} trace).map (·.events) =
    some [.wrote none, .set (some 5), .wrote (some 5), .wrote (some 5), .set none, .wrote none] := by decide

example : QuietSets (fun _ => false) {} [.log 0, .log 0, .set (some 5), .log 0, .log 0, .log 0] := by
  refine ⟨by simp, fun s h => ⟨by simp, fun s2 h2 => ⟨fun _ t => ?_, fun s3 h3 => ⟨by simp, fun s4 h4 => ⟨by simp, fun s5 h5 => ⟨by simp, fun _ _ => trivial⟩⟩⟩⟩⟩⟩
  simp [step, setPc] at h
  subst h
  simp [step, setPc, emit] at h2
  subst h2
  simp only
  split <;> rfl

/-- Loggers replaced in the middle of messages, and kept. -/
example : (run (fun _ => true) {} [.log 0, .set (some 1), .log 0, .log 1, .log 1, .set (some 2), .log 1]).map (·.events) =
    some [.set (some 1), .wrote none, .set (some 2), .wrote (some 1)] := by decide

end Verif.Log.Logger
