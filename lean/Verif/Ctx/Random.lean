import Verif.Ctx.Context
/-!
# Vectors of random numbers (C178)

`/repo/rapidudf/functions/simd/vector_misc.cc` 297–309 (`simd_vector_random_impl`), 632–636, on the objects a context owns
(`Verif.Ctx.Context`: `/repo/rapidudf/context/context.h` 69–83, `/repo/rapidudf/context/context.cc` 40–50).

The generator is `hn::VectorXoshiro` of the Highway library, whose code is not in the repository: it is a parameter, a state made from a
seed and a step that gives numbers and the next state. The context is used by one thread.
-/
namespace Verif.Ctx.Random
open Verif.Ctx.Context (S Op Out step own)

/-- The two instances of the function: `uint64_t` (a call of the generator) and `double` (`Uniform`). -/
inductive Kind where
  | bits
  | uniform
deriving DecidableEq, Repr

/-- A random number generator of the library: numbers are given as the 64 bits stored. `vector_misc.cc` 301, 304: both members return as many
numbers as asked for, `kVectorUnitSize` (64). -/
structure Gen (G : Type) where
  init : BitVec 64 → G
  draw : Kind → G → List (BitVec 64) × G
  draw_length : ∀ k g, (draw k g).1.length = 64

/-- A call on a context: any call of `Context`, or `simd_vector_random` with the element type, the seed and the memory `output` points to (all
the elements that may be written there). -/
inductive Call where
  | ctx (op : Op)
  | random (k : Kind) (seed : BitVec 64) (output : List (BitVec 64))

/-- A context and the states of the generators it owns, by the number of the object. -/
structure St (G : Type) where
  ctx : S := {}
  gens : Nat → Option G := fun _ => none

/-- What a call does as seen by the caller: the memory `output` points to afterwards, undefined behaviour, or (for the other calls) nothing of
interest here. -/
inductive Res where
  | mem (m : List (BitVec 64))
  | ub
  | other
deriving DecidableEq, Repr

/-- `memcpy(output, result.data(), result.size() * sizeof(T))` (302, 305); `ub` if `output` has no room. -/
def store (result output : List (BitVec 64)) : Res :=
  if result.length ≤ output.length then .mem (result ++ output.drop result.length) else .ub

/-- `simd_vector_random_impl` (297–309). `x` is the type id of the generator. `GetPtr` returns the generator registered under the type id, or
makes one of `seed`; no validator is given (`{}`). A generator already destroyed is used as if it were there: undefined. -/
def random {G : Type} (g : Gen G) (x : Nat) (s : St G) (k : Kind) (seed : BitVec 64) (output : List (BitVec 64)) : St G × Res :=
  match step s.ctx (.getPtr x none) with
  | (c, .obj i) =>
    let s' : St G :=
      match s.ctx.ptrs x with
      | some _ => { s with ctx := c }
      | none => { ctx := c, gens := fun j => if j = i then some (g.init seed) else s.gens j }
    if i ∈ c.destroyed then (s', .ub)
    else
      match s'.gens i with
      | none => (s', .ub)
      | some st =>
        ({ s' with gens := fun j => if j = i then some (g.draw k st).2 else s'.gens j }, store (g.draw k st).1 output)
  | (c, _) => ({ s with ctx := c }, .ub)

/-- One call. Simplified: a generator that the caller makes through `GetPtr` is not followed (its seed is not among the arguments here). -/
def call {G : Type} (g : Gen G) (x : Nat) (s : St G) : Call → St G × Res
  | .ctx op => ({ s with ctx := (step s.ctx op).1 }, .other)
  | .random k seed output => random g x s k seed output

/-- A history of calls from state `s`: what each call does. -/
def results {G : Type} (g : Gen G) (x : Nat) : St G → List Call → List Res
  | _, [] => []
  | s, c :: cs => (call g x s c).2 :: results g x (call g x s c).1 cs

/-! ## Specification -/

/-- The chunks that generator state `st` gives for requests of the given kinds, one after the other. -/
def chunks {G : Type} (g : Gen G) (st : G) : List Kind → List (List (BitVec 64))
  | [] => []
  | k :: ks => (g.draw k st).1 :: chunks g (g.draw k st).2 ks

/-- The requests for random numbers in a history: the kinds. -/
def kinds : List Call → List Kind
  | [] => []
  | .ctx _ :: cs => kinds cs
  | .random k _ _ :: cs => k :: kinds cs

/-- The seed of the first request. -/
def firstSeed : List Call → Option (BitVec 64)
  | [] => none
  | .ctx _ :: cs => firstSeed cs
  | .random _ seed _ :: _ => some seed

/-- The memory at the outputs, before the calls. -/
def outputs : List Call → List (List (BitVec 64))
  | [] => []
  | .ctx _ :: cs => outputs cs
  | .random _ _ o :: cs => o :: outputs cs

/-- What the requests for random numbers did. -/
def written : List Call → List Res → List Res
  | .random _ _ _ :: cs, r :: rs => r :: written cs rs
  | .ctx _ :: cs, _ :: rs => written cs rs
  | _, _ => []

/-- The caller does not look up generators, resets the context only before the first request, and gives room for 64 numbers. -/
def Allowed (x : Nat) : Bool → List Call → Prop
  | _, [] => True
  | used, .ctx op :: cs => (∀ v, op ≠ .getPtr x v) ∧ (used = true → op ≠ .reset) ∧ Allowed x used cs
  | _, .random _ _ o :: cs => 64 ≤ o.length ∧ Allowed x true cs

/-! ## Lemmas -/

theorem step_ptrs {s : S} {x : Nat} {op : Op} (h : ∀ v, op ≠ .getPtr x v) : (step s op).1.ptrs x = s.ptrs x := by
  cases op with
  | new => rfl
  | reset => rfl
  | getPtr t v =>
    have hne : x ≠ t := fun e => h v (by rw [e])
    simp only [step]
    split
    · rfl
    · split
      · rfl
      · split
        · rfl
        · simp [own, hne]
    · simp [own, hne]

theorem step_destroyed {s : S} {op : Op} (h : op ≠ .reset) : (step s op).1.destroyed = s.destroyed := by
  cases op with
  | new => rfl
  | reset => exact absurd rfl h
  | getPtr t v =>
    simp only [step]
    split
    · rfl
    · split
      · rfl
      · split
        · rfl
        · rfl
    · rfl

theorem store_ok (r o : List (BitVec 64)) (h : r.length = 64) (ho : 64 ≤ o.length) : store r o = .mem (r ++ o.drop 64) := by
  unfold store
  rw [if_pos (by omega), h]

/-- A request when the generator is registered and alive. -/
theorem random_again {G : Type} (g : Gen G) (x : Nat) (s : St G) (k : Kind) (seed : BitVec 64) (o : List (BitVec 64)) {i : Nat} {st : G}
    (hp : s.ctx.ptrs x = some i) (hd : i ∉ s.ctx.destroyed) (hg : s.gens i = some st) :
    random g x s k seed o =
      ({ s with gens := fun j => if j = i then some (g.draw k st).2 else s.gens j }, store (g.draw k st).1 o) := by
  have hs : step s.ctx (.getPtr x none) = (s.ctx, .obj i) := by simp only [step, hp]
  unfold random
  simp only [hs, hp]
  rw [if_neg hd]
  simp only [hg]

/-- The first request. -/
theorem random_first {G : Type} (g : Gen G) (x : Nat) (s : St G) (k : Kind) (seed : BitVec 64) (o : List (BitVec 64))
    (hp : s.ctx.ptrs x = none) (hd : s.ctx.count ∉ s.ctx.destroyed) :
    ∃ s', random g x s k seed o = (s', store (g.draw k (g.init seed)).1 o) ∧ s'.ctx.ptrs x = some s.ctx.count ∧
      s'.ctx.destroyed = s.ctx.destroyed ∧ s'.gens s.ctx.count = some (g.draw k (g.init seed)).2 := by
  have hs : step s.ctx (.getPtr x none) =
      ({ (own s.ctx).1 with ptrs := fun u => if u = x then some s.ctx.count else s.ctx.ptrs u }, .obj s.ctx.count) := by
    simp only [step, hp]
    rfl
  have hd' : s.ctx.count ∉ (own s.ctx).1.destroyed := hd
  unfold random
  simp only [hs, hp]
  rw [if_neg hd']
  simp only [if_true]
  exact ⟨_, rfl, by simp, rfl, by simp⟩

theorem written_again {G : Type} (g : Gen G) (x : Nat) {i : Nat} : ∀ (cs : List Call) (s : St G) (st : G),
    s.ctx.ptrs x = some i → i ∉ s.ctx.destroyed → s.gens i = some st → Allowed x true cs →
    written cs (results g x s cs) = List.zipWith (fun c o => Res.mem (c ++ o.drop 64)) (chunks g st (kinds cs)) (outputs cs)
  | [], _, _, _, _, _, _ => rfl
  | .ctx op :: cs, s, st, hp, hd, hg, ha => by
    obtain ⟨h1, h2, h3⟩ := ha
    simp only [results, written, call, kinds, outputs]
    exact written_again g x cs _ st (by rw [step_ptrs h1]; exact hp) (by rw [step_destroyed (h2 rfl)]; exact hd) hg h3
  | .random k seed o :: cs, s, st, hp, hd, hg, ha => by
    obtain ⟨h1, h2⟩ := ha
    simp only [results, written, call, kinds, outputs, chunks, List.zipWith_cons_cons]
    rw [random_again g x s k seed o hp hd hg, store_ok _ _ (g.draw_length k st) h1]
    simp only
    rw [written_again g x cs _ (g.draw k st).2 (by exact hp) (by exact hd) (by simp) h2]

theorem written_first {G : Type} (g : Gen G) (x : Nat) : ∀ (cs : List Call) (s : St G) (seed : BitVec 64),
    s.ctx.ptrs x = none → Context.Inv s.ctx → Allowed x false cs → firstSeed cs = some seed →
    written cs (results g x s cs) = List.zipWith (fun c o => Res.mem (c ++ o.drop 64)) (chunks g (g.init seed) (kinds cs)) (outputs cs)
  | [], _, _, _, _, _, h => by cases h
  | .ctx op :: cs, s, seed, hp, hi, ha, hf => by
    obtain ⟨h1, _, h3⟩ := ha
    simp only [results, written, call, kinds, outputs]
    exact written_first g x cs _ seed (by rw [step_ptrs h1]; exact hp) (Context.inv_step hi op) h3 hf
  | .random k seed' o :: cs, s, seed, hp, hi, ha, hf => by
    obtain ⟨h1, h2⟩ := ha
    obtain rfl : seed' = seed := by simpa [firstSeed] using hf
    have hd : s.ctx.count ∉ s.ctx.destroyed := by
      intro hm
      have : s.ctx.count ∈ List.range s.ctx.count := by rw [← hi.all]; exact List.mem_append_left _ hm
      simp at this
    obtain ⟨s', e, p1, p2, p3⟩ := random_first g x s k seed' o hp hd
    simp only [results, written, call, kinds, outputs, chunks, List.zipWith_cons_cons]
    rw [e, store_ok _ _ (g.draw_length k _) h1]
    simp only
    rw [written_again g x cs s' (g.draw k (g.init seed')).2 p1 (by rw [p2]; exact hd) p3 h2]

theorem written_none : ∀ (cs : List Call) (rs : List Res), firstSeed cs = none → written cs rs = []
  | [], _, _ => by simp [written]
  | .ctx _ :: cs, [], _ => by simp [written]
  | .ctx _ :: cs, _ :: rs, h => by simp only [written]; exact written_none cs rs h
  | .random _ _ _ :: _, _, h => by cases h

/-! ## Property C178 -/

/-- **C178 (partial).** For every generator, type id and history of calls on a fresh context in which the caller does not look up generators
and resets the context only before the first request: with `seed` the seed of the first request, the requests write, in order, the chunks of 64
numbers of the one sequence started by `seed` (numbers of both kinds taken from the same sequence), each at the beginning of its output, and leave the
rest of the output as it was. Nothing else done with the context changes them. Missing: the seeds of later requests have no effect
(`later_seed_violated`, `same_seed_again_violated`), and a request after a reset uses a destroyed generator (`after_reset_violated`). -/
theorem one_sequence_partial {G : Type} (g : Gen G) (x : Nat) (cs : List Call) (seed : BitVec 64)
    (ha : Allowed x false cs) (hf : firstSeed cs = some seed) :
    written cs (results g x {} cs) =
      List.zipWith (fun c o => Res.mem (c ++ o.drop 64)) (chunks g (g.init seed) (kinds cs)) (outputs cs) :=
  written_first g x cs {} seed rfl ⟨rfl⟩ ha hf

/-- **C178, same numbers.** Two histories, on two contexts, with the same first seed and the same requests write the same numbers whatever else
is done with the contexts. -/
theorem reproducible_partial {G : Type} (g : Gen G) (x : Nat) (cs ds : List Call)
    (hc : Allowed x false cs) (hd : Allowed x false ds) (hf : firstSeed cs = firstSeed ds) (hk : kinds cs = kinds ds) (ho : outputs cs = outputs ds) :
    written cs (results g x {} cs) = written ds (results g x {} ds) := by
  cases e : firstSeed cs with
  | none => rw [written_none cs _ e, written_none ds _ (hf ▸ e)]
  | some seed => rw [one_sequence_partial g x cs seed hc e, one_sequence_partial g x ds seed hd (hf ▸ e), hk, ho]

/-- **C178 fails, later seeds.** Whatever the seed of a second request, it writes the numbers that follow those of the first: two requests with
different seeds never start two sequences. -/
theorem later_seed_violated {G : Type} (g : Gen G) (x : Nat) (k l : Kind) (a b c : BitVec 64) (o p : List (BitVec 64))
    (ho : 64 ≤ o.length) (hp : 64 ≤ p.length) :
    written [.random k a o, .random l b p] (results g x {} [.random k a o, .random l b p]) =
      written [.random k a o, .random l c p] (results g x {} [.random k a o, .random l c p]) :=
  reproducible_partial g x _ _ ⟨ho, hp, trivial⟩ ⟨ho, hp, trivial⟩ rfl rfl rfl

/-- **C178 fails, the same request again.** A request repeated in the same context does not write the same numbers unless the sequence repeats. -/
theorem same_seed_again_violated {G : Type} (g : Gen G) (x : Nat) (k : Kind) (a : BitVec 64) (o : List (BitVec 64)) (ho : 64 ≤ o.length)
    (hne : (g.draw k (g.draw k (g.init a)).2).1 ≠ (g.draw k (g.init a)).1) :
    ∃ m n, written [.random k a o, .random k a o] (results g x {} [.random k a o, .random k a o]) = [.mem m, .mem n] ∧ m ≠ n := by
  refine ⟨_, _, one_sequence_partial g x _ a ⟨ho, ho, trivial⟩ rfl, fun h => hne ?_⟩
  have h1 := congrArg (List.take 64) h
  rw [List.take_left' (g.draw_length _ _), List.take_left' (g.draw_length _ _)] at h1
  exact h1.symm

theorem random_registered {G : Type} (g : Gen G) (x : Nat) (s : St G) (k : Kind) (seed : BitVec 64) (o : List (BitVec 64)) {i : Nat}
    (hp : s.ctx.ptrs x = some i) (hd : i ∈ s.ctx.destroyed) : (random g x s k seed o).2 = .ub := by
  have hs : step s.ctx (.getPtr x none) = (s.ctx, .obj i) := by simp only [step, hp]
  unfold random
  simp only [hs, hp]
  rw [if_pos hd]

/-- The state after a history. -/
def final {G : Type} (g : Gen G) (x : Nat) (s : St G) : List Call → St G
  | [] => s
  | c :: cs => final g x (call g x s c).1 cs

/-- The generator registered, whether alive or not, stays registered, and is destroyed by a reset. -/
theorem stays {G : Type} (g : Gen G) (x : Nat) {i : Nat} : ∀ (cs : List Call) (s : St G), s.ctx.ptrs x = some i → i ∈ s.ctx.destroyed →
    (∀ c ∈ cs, ∀ v, c ≠ .ctx (.getPtr x v)) → (final g x s cs).ctx.ptrs x = some i ∧ i ∈ (final g x s cs).ctx.destroyed
  | [], _, hp, hd, _ => ⟨hp, hd⟩
  | .ctx op :: cs, s, hp, hd, h => by
    refine stays g x cs _ ?_ ?_ (fun c hc => h c (List.mem_cons_of_mem _ hc))
    · simp only [call]
      rw [step_ptrs (fun v e => h _ List.mem_cons_self v (by rw [e]))]
      exact hp
    · simp only [call]
      cases op with
      | reset => simp only [step]; exact List.mem_append_left _ hd
      | new => exact hd
      | getPtr t v => rw [step_destroyed (by intro e; cases e)]; exact hd
  | .random k seed o :: cs, s, hp, hd, h => by
    have hs : step s.ctx (.getPtr x none) = (s.ctx, .obj i) := by simp only [step, hp]
    have e : (random g x s k seed o).1.ctx = s.ctx := by
      unfold random
      simp only [hs, hp]
      rw [if_pos hd]
    refine stays g x cs _ ?_ ?_ (fun c hc => h c (List.mem_cons_of_mem _ hc))
    · simp only [call]; rw [e]; exact hp
    · simp only [call]; rw [e]; exact hd

/-- **C178 fails after a reset.** A request, a reset, then any calls that do not look up generators: every later request uses the destroyed
generator. -/
theorem after_reset_violated {G : Type} (g : Gen G) (x : Nat) (k l : Kind) (a b : BitVec 64) (o p : List (BitVec 64)) (cs : List Call)
    (h : ∀ c ∈ cs, ∀ v, c ≠ .ctx (.getPtr x v)) :
    (call g x (final g x {} (.random k a o :: .ctx .reset :: cs)) (.random l b p)).2 = .ub := by
  obtain ⟨s', e, p1, _, _⟩ := random_first g x ({} : St G) k a o rfl (by simp)
  have hinv : Context.Inv s'.ctx := by
    have : s'.ctx = (step ({} : S) (.getPtr x none)).1 := by
      have e2 := congrArg (fun r => r.1.ctx) e
      simp only at e2
      rw [← e2]
      rfl
    rw [this]
    exact Context.inv_step ⟨rfl⟩ _
  have hmem : (0 : Nat) ∈ (step s'.ctx .reset).1.destroyed := by
    simp only [step]
    rw [hinv.all]
    have : s'.ctx = (step ({} : S) (.getPtr x none)).1 := by
      have e2 := congrArg (fun r => r.1.ctx) e
      simp only at e2
      rw [← e2]
      rfl
    rw [this]
    simp [step, own]
  have := stays g x cs (call g x s' (.ctx .reset)).1 p1 hmem h
  simp only [final, call]
  rw [e]
  exact random_registered g x _ l b p this.1 this.2

/-! ## Cases -/

/-- A generator that counts. -/
def counter : Gen (BitVec 64) where
  init s := s
  draw k s := (List.replicate 64 (match k with | .bits => s | .uniform => s + 1000), s + 1)
  draw_length := by intro k g; simp

/-- Resets before the first request, other objects, both kinds, output longer than a chunk. -/
example : Allowed 7 false [.ctx .new, .ctx .reset, .random .bits 5 (List.replicate 65 9), .ctx (.getPtr 3 (some false)), .random .uniform 80 (List.replicate 64 9),
    .ctx .new] := by
  simp [Allowed]

example : written [.random .bits 5 (List.replicate 65 9), .ctx .new, .random .bits 80 (List.replicate 64 9)]
    (results counter 7 {} [.random .bits 5 (List.replicate 65 9), .ctx .new, .random .bits 80 (List.replicate 64 9)]) =
    [.mem (List.replicate 64 5 ++ [9]), .mem (List.replicate 64 6)] := by decide +kernel

example : (counter.draw .bits (counter.draw .bits (counter.init 3)).2).1 ≠ (counter.draw .bits (counter.init 3)).1 := by decide +kernel

/-- No room. -/
example : results counter 7 {} [.random .bits 5 (List.replicate 63 9)] = [.ub] := by decide +kernel

end Verif.Ctx.Random
