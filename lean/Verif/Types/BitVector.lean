/-!
# Setting elements of a bit vector: model and properties C17, C18

`/repo/rapidudf/types/vector.h` 172–206 (`Vector<Bit>::operator[]` and `Set`) and `/repo/rapidudf/types/bit.h` 44–45, 54–75.
-/
namespace Verif.Types.Bits

abbrev Byte := BitVec 8

/-- `bit_set`, `bit.h` 44: the shift is done in `int` and the result cut to eight bits. -/
def bitSet (b : Byte) (n : Nat) : Byte := b ||| (1#8 <<< n)

/-- `bit_clear`, `bit.h` 45. -/
def bitClear (b : Byte) (n : Nat) : Byte := b &&& ~~~(1#8 <<< n)

/-- Lines 193–198. -/
def newByte (b : Byte) (n : Nat) (v : Bool) : Byte := if v then bitSet b n else bitClear b n

/-- `__sync_val_compare_and_swap`: stores `new` if the byte equals `expected`; the value returned is the old content in either case.
Returns (old value, new content). -/
def casVal (mem expected new : Byte) : Byte × Byte := (mem, if mem = expected then new else mem)

/-- The loop of lines 191–202 in one thread, run for at most `fuel` iterations; `none`: it has not left the loop by then. The loop ends when the value
returned by the swap is non-zero. -/
def setLoop (n : Nat) (v : Bool) : Nat → Byte → Option Byte
  | 0, _ => none
  | fuel + 1, b =>
    let r := casVal b b (newByte b n v)
    if r.1 ≠ 0 then some r.2 else setLoop n v fuel r.2

/-- A bit vector: declared size, bytes behind the pointer, and the writable flag. -/
structure BV where
  size : Nat
  bytes : List Byte
  writable : Bool
deriving DecidableEq

/-- What a call of `Set` has come to after a number of iterations. -/
inductive Out where
  | threw
  | ub
  | running
  | ret (v : BV)
deriving DecidableEq

/-- `operator[]`, lines 172–178; `none` is a read outside the buffer. -/
def BV.get (v : BV) (i : Nat) : Option Bool := v.bytes[i / 8]?.map (fun (b : Byte) => ((b >>> (i % 8)) &&& 1#8) != 0#8)

/-- `Set`, lines 183–203. A read-only vector has a null `MutableData()` (lines 104–109): undefined behaviour. -/
def BV.set (v : BV) (fuel i : Nat) (x : Bool) : Out :=
  if v.size ≤ i then .threw
  else if v.writable = false then .ub
  else
    match v.bytes[i / 8]? with
    | none => .ub
    | some b =>
      match setLoop (i % 8) x fuel b with
      | none => .running
      | some b' => .ret { v with bytes := v.bytes.set (i / 8) b' }

/-- A vector whose buffer covers its size. -/
def BV.Valid (v : BV) : Prop := v.size ≤ 8 * v.bytes.length

/-! ## Lemmas -/

theorem read_bit (b : Byte) (n : Nat) (hn : n < 8) : (((b >>> n) &&& 1#8) != 0#8) = b.getLsbD n := by
  have : ∀ (b : Byte) (n : Fin 8), (((b >>> n.val) &&& 1#8) != 0#8) = b.getLsbD n.val := by decide +kernel
  exact this b ⟨n, hn⟩

theorem newByte_same (b : Byte) (n : Nat) (v : Bool) (hn : n < 8) : (newByte b n v).getLsbD n = v := by
  have : ∀ (b : Byte) (n : Fin 8) (v : Bool), (newByte b n.val v).getLsbD n.val = v := by decide +kernel
  exact this b ⟨n, hn⟩ v

theorem newByte_other (b : Byte) (n m : Nat) (v : Bool) (hm : m < 8) (hnm : m ≠ n) (hn : n < 8) : (newByte b n v).getLsbD m = b.getLsbD m := by
  have hs : (1#8 <<< n).getLsbD m = false := by
    have : ∀ (n m : Fin 8), m ≠ n → (1#8 <<< n.val).getLsbD m.val = false := by decide +kernel
    exact this ⟨n, hn⟩ ⟨m, hm⟩ (by simpa [Fin.ext_iff] using hnm)
  unfold newByte bitSet bitClear
  split
  · rw [BitVec.getLsbD_or, hs, Bool.or_false]
  · rw [BitVec.getLsbD_and, BitVec.getLsbD_not, hs]
    simp [hm]

theorem newByte_idem (b : Byte) (n : Nat) (v : Bool) (hn : n < 8) : newByte (newByte b n v) n v = newByte b n v := by
  apply BitVec.eq_of_getLsbD_eq
  intro i hi
  by_cases h : i = n
  · subst h; rw [newByte_same _ _ _ hn, newByte_same _ _ _ hn]
  · rw [newByte_other _ _ _ _ hi h hn]

theorem newByte_true_ne (b : Byte) (n : Nat) (hn : n < 8) : newByte b n true ≠ 0 := by
  intro h
  have := newByte_same b n true hn
  rw [h] at this
  simp at this

theorem newByte_false_zero (n : Nat) : newByte 0#8 n false = 0#8 := by
  simp [newByte, bitClear]

/-- If the loop ends, the byte is the intended one. -/
theorem setLoop_result (n : Nat) (v : Bool) (hn : n < 8) (fuel : Nat) (b b' : Byte) (h : setLoop n v fuel b = some b') : b' = newByte b n v := by
  induction fuel generalizing b with
  | zero => simp [setLoop] at h
  | succ fuel ih =>
    simp only [setLoop, casVal, if_true] at h
    by_cases hb : b ≠ 0
    · simp only [hb, ne_eq, not_false_eq_true, if_true, Option.some.injEq] at h
      exact h.symm
    · rw [if_neg hb] at h
      rw [ih _ h, newByte_idem _ _ _ hn]

/-- The loop ends exactly when the bit is to be set or the byte is not zero. -/
theorem setLoop_ends_iff (n : Nat) (v : Bool) (hn : n < 8) (b : Byte) : (∃ fuel, setLoop n v fuel b ≠ none) ↔ (v = true ∨ b ≠ 0) := by
  constructor
  · rintro ⟨fuel, h⟩
    by_cases hv : v = true
    · exact Or.inl hv
    · right
      rintro rfl
      have hv' : v = false := by simpa using hv
      subst hv'
      apply h
      clear h
      induction fuel with
      | zero => rfl
      | succ fuel ih =>
        simp only [setLoop, casVal, if_true, ne_eq, not_true_eq_false, if_false]
        rw [show newByte 0 n false = 0 from newByte_false_zero n]
        exact ih
  · intro h
    refine ⟨2, ?_⟩
    by_cases hb : b ≠ 0
    · simp only [setLoop, casVal, if_true]
      rw [if_pos hb]
      simp
    · have hv : v = true := by rcases h with h | h; exact h; exact absurd h hb
      subst hv
      have h1 := newByte_true_ne b n hn
      simp only [setLoop, casVal, if_true]
      rw [if_neg hb, if_pos h1]
      simp

/-! ## C17 -/

/-- What remains true of C17: whenever the call returns, the element reads back the value and every other element is unchanged. -/
theorem bit_vector_set_partial (v v' : BV) (fuel i : Nat) (x : Bool) (h : v.set fuel i x = .ret v') :
    v'.get i = some x ∧ (∀ j, j ≠ i → v'.get j = v.get j) ∧ v'.size = v.size := by
  unfold BV.set at h
  split at h
  · cases h
  · split at h
    · cases h
    · cases hb : v.bytes[i / 8]? with
      | none => rw [hb] at h; simp at h
      | some b =>
        rw [hb] at h
        simp only at h
        cases hl : setLoop (i % 8) x fuel b with
        | none => rw [hl] at h; simp at h
        | some b' =>
          rw [hl] at h
          simp only [Out.ret.injEq] at h
          subst h
          have hi : i % 8 < 8 := Nat.mod_lt _ (by omega)
          have hres := setLoop_result _ _ hi _ _ _ hl
          have hlen : i / 8 < v.bytes.length := by
            rw [List.getElem?_eq_some_iff] at hb; exact hb.1
          refine ⟨?_, fun j hj => ?_, rfl⟩
          · simp only [BV.get, List.getElem?_set_self hlen, Option.map_some, read_bit _ _ hi]
            rw [hres, newByte_same _ _ _ hi]
          · simp only [BV.get]
            by_cases hji : j / 8 = i / 8
            · rw [hji, List.getElem?_set_self hlen, hb]
              have hj8 : j % 8 < 8 := Nat.mod_lt _ (by omega)
              simp only [Option.map_some, read_bit _ _ hj8]
              rw [hres, newByte_other _ _ _ _ hj8 (by omega) hi]
            · rw [List.getElem?_set_ne (by omega)]

/-- When the call returns: the index is in range, the vector writable, and the value is `true` or the byte holding the element is not zero. -/
theorem bit_vector_set_returns_iff (v : BV) (hv : v.Valid) (hw : v.writable = true) (i : Nat) (hi : i < v.size) (x : Bool) :
    (∃ fuel v', v.set fuel i x = .ret v') ↔ (x = true ∨ ∃ j, j / 8 = i / 8 ∧ v.get j = some true) := by
  have hlen : i / 8 < v.bytes.length := by unfold BV.Valid at hv; omega
  have h8 : i % 8 < 8 := Nat.mod_lt _ (by omega)
  have hb : v.bytes[i / 8]? = some v.bytes[i / 8] := List.getElem?_eq_getElem hlen
  have hz : v.bytes[i / 8] ≠ 0 ↔ ∃ j, j / 8 = i / 8 ∧ v.get j = some true := by
    constructor
    · intro hne
      have : ∃ k, k < 8 ∧ v.bytes[i / 8].getLsbD k = true := by
        apply Classical.byContradiction
        intro hno
        apply hne
        apply BitVec.eq_of_getLsbD_eq
        intro k hk
        have : ¬ v.bytes[i / 8].getLsbD k = true := fun h => hno ⟨k, hk, h⟩
        simpa using this
      obtain ⟨k, hk, hk2⟩ := this
      refine ⟨8 * (i / 8) + k, by omega, ?_⟩
      simp only [BV.get, show (8 * (i / 8) + k) / 8 = i / 8 by omega, show (8 * (i / 8) + k) % 8 = k by omega, hb, Option.map_some, read_bit _ _ hk, hk2]
    · rintro ⟨j, hj, hget⟩ h0
      have hj8 : j % 8 < 8 := Nat.mod_lt _ (by omega)
      simp only [BV.get, hj, hb, Option.map_some, read_bit _ _ hj8, h0, Option.some.injEq] at hget
      simp at hget
  rw [← hz, ← setLoop_ends_iff (i % 8) x h8]
  constructor
  · rintro ⟨fuel, v', h⟩
    refine ⟨fuel, fun hn => ?_⟩
    unfold BV.set at h
    rw [if_neg (by omega), hw, hb] at h
    simp [hn] at h
  · rintro ⟨fuel, h⟩
    cases hl : setLoop (i % 8) x fuel v.bytes[i / 8] with
    | none => exact absurd hl h
    | some b' =>
      refine ⟨fuel, { v with bytes := v.bytes.set (i / 8) b' }, ?_⟩
      unfold BV.set
      rw [if_neg (by omega), hw, hb]
      simp [hl]

/-- C17 is false of the code: clearing an element never returns when the eight elements sharing its byte are all false. -/
theorem bit_vector_clear_never_returns_violated (v : BV) (hv : v.Valid) (hw : v.writable = true) (i : Nat) (hi : i < v.size)
    (hz : ∀ j, j / 8 = i / 8 → v.get j = some false) : ∀ fuel, v.set fuel i false = .running := by
  intro fuel
  have hlen : i / 8 < v.bytes.length := by unfold BV.Valid at hv; omega
  have hb : v.bytes[i / 8]? = some v.bytes[i / 8] := List.getElem?_eq_getElem hlen
  have hno : ¬ ∃ fuel v', v.set fuel i false = .ret v' := by
    rw [bit_vector_set_returns_iff v hv hw i hi]
    rintro (h | ⟨j, hj, h⟩)
    · cases h
    · rw [hz j hj] at h; simp at h
  cases hl : setLoop (i % 8) false fuel v.bytes[i / 8] with
  | none => unfold BV.set; rw [if_neg (by omega), hw, hb]; simp [hl]
  | some b' =>
    exact absurd ⟨fuel, { v with bytes := v.bytes.set (i / 8) b' }, by unfold BV.set; rw [if_neg (by omega), hw, hb]; simp [hl]⟩ hno

/-- An index beyond the declared size is refused, a read-only vector is written through a null pointer. -/
theorem bit_vector_set_range (v : BV) (fuel i : Nat) (x : Bool) :
    (v.size ≤ i → v.set fuel i x = .threw) ∧ (i < v.size → v.writable = false → v.set fuel i x = .ub) := by
  constructor
  · intro h; unfold BV.set; rw [if_pos h]
  · intro h hw; unfold BV.set; rw [if_neg (by omega), hw]; simp

example : (⟨9, [0#8, 5#8], true⟩ : BV).set 2 3 true = .ret ⟨9, [8#8, 5#8], true⟩ := by decide
example : ∀ fuel, (⟨9, [0#8, 5#8], true⟩ : BV).set fuel 3 false = .running :=
  bit_vector_clear_never_returns_violated _ (by unfold BV.Valid; decide) rfl 3 (by decide) (fun j hj => by
    have : j < 8 := by omega
    have h : ∀ j : Fin 8, (⟨9, [0#8, 5#8], true⟩ : BV).get j.val = some false := by decide
    exact h ⟨j, this⟩)

/-- `bits_set` on bytes, `bit.h` 67–75, used by the filters: no loop, no swap. `none` is a write outside the buffer. -/
def bitsSet8 (bytes : List Byte) (k : Nat) (x : Bool) : Option (List Byte) :=
  bytes[k / 8]?.map (fun b => bytes.set (k / 8) (newByte b (k % 8) x))

/-- `bits_set` on bytes changes the element and no other. -/
theorem bits_set_frame (bytes : List Byte) (n k : Nat) (x : Bool) (hk : k < 8 * bytes.length) :
    ∃ bytes', bitsSet8 bytes k x = some bytes' ∧ bytes'.length = bytes.length ∧ (BV.get ⟨n, bytes', true⟩ k = some x) ∧
      ∀ j, j ≠ k → BV.get ⟨n, bytes', true⟩ j = BV.get ⟨n, bytes, true⟩ j := by
  have hlen : k / 8 < bytes.length := by omega
  have h8 : k % 8 < 8 := Nat.mod_lt _ (by omega)
  refine ⟨bytes.set (k / 8) (newByte bytes[k / 8] (k % 8) x), ?_, by simp, ?_, fun j hj => ?_⟩
  · simp [bitsSet8, List.getElem?_eq_getElem hlen]
  · simp only [BV.get, List.getElem?_set_self hlen, Option.map_some, read_bit _ _ h8, newByte_same _ _ _ h8]
  · simp only [BV.get]
    by_cases hji : j / 8 = k / 8
    · have hj8 : j % 8 < 8 := Nat.mod_lt _ (by omega)
      rw [hji, List.getElem?_set_self hlen, List.getElem?_eq_getElem hlen]
      simp only [Option.map_some, read_bit _ _ hj8]
      rw [newByte_other _ _ _ _ hj8 (by omega) h8]
    · rw [List.getElem?_set_ne (by omega)]

/-! ## C18: concurrent calls

Interleaving semantics of lines 191–202: the byte is read twice (line 192 and line 195 or 197), then swapped. Every read and swap is one step; the reads are
treated as atomic although the code makes them plain. -/

/-- Where a thread is inside `Set`. -/
inductive PC where
  | start
  | read1 (cur : Byte)
  | read2 (cur new : Byte)
  | done
deriving DecidableEq

/-- The shared bytes and the program counter of every thread. -/
structure CState (ι : Type) where
  mem : Nat → Byte
  pc : ι → PC

/-- The call a thread is making: index and value. -/
structure Call where
  idx : Nat
  val : Bool

/-- Function update. -/
def upd {α β : Type} [DecidableEq α] (f : α → β) (a : α) (b : β) : α → β := fun x => if x = a then b else f x

/-- One step of thread `t`. -/
inductive Step {ι : Type} [DecidableEq ι] (calls : ι → Call) : CState ι → CState ι → Prop where
  | load1 (s : CState ι) (t : ι) (h : s.pc t = .start) :
      Step calls s { s with pc := upd s.pc t (.read1 (s.mem ((calls t).idx / 8))) }
  | load2 (s : CState ι) (t : ι) (cur : Byte) (h : s.pc t = .read1 cur) :
      Step calls s { s with pc := upd s.pc t (.read2 cur (newByte (s.mem ((calls t).idx / 8)) ((calls t).idx % 8) (calls t).val)) }
  | swap (s : CState ι) (t : ι) (cur new : Byte) (h : s.pc t = .read2 cur new) :
      Step calls s { mem := upd s.mem ((calls t).idx / 8) (casVal (s.mem ((calls t).idx / 8)) cur new).2,
                     pc := upd s.pc t (if (casVal (s.mem ((calls t).idx / 8)) cur new).1 ≠ 0 then .done else .start) }

/-- Executions. -/
inductive Steps {ι : Type} [DecidableEq ι] (calls : ι → Call) : CState ι → CState ι → Prop where
  | refl (s : CState ι) : Steps calls s s
  | tail {s t u : CState ι} : Steps calls s t → Step calls t u → Steps calls s u

/-- The state before any thread has done anything. -/
def CState.init {ι : Type} (mem : Nat → Byte) : CState ι := { mem := mem, pc := fun _ => .start }

/-- Element `i` of the shared bytes. -/
def elem (mem : Nat → Byte) (i : Nat) : Bool := (mem (i / 8)).getLsbD (i % 8)

theorem upd_self {α β : Type} [DecidableEq α] (f : α → β) (a : α) (b : β) : upd f a b a = b := by simp [upd]
theorem upd_ne {α β : Type} [DecidableEq α] (f : α → β) (a x : α) (b : β) (h : x ≠ a) : upd f a b x = f x := by simp [upd, h]

/-- C18 is false of the code: two threads set elements 1 and 2 of one byte holding 1, both calls return, and element 1 is lost. -/
theorem concurrent_set_lost_violated :
    ∃ (calls : Bool → Call) (mem : Nat → Byte) (s : CState Bool), (calls true).idx ≠ (calls false).idx ∧ Steps calls (.init mem) s ∧
      (∀ t, s.pc t = .done) ∧ ∃ t, elem s.mem (calls t).idx ≠ (calls t).val := by
  let calls : Bool → Call := fun b => if b then ⟨1, true⟩ else ⟨2, true⟩
  let s0 : CState Bool := .init (fun _ => 1#8)
  refine ⟨calls, fun _ => 1#8, _, by decide,
    ((((((Steps.refl s0).tail (.load1 s0 true rfl)).tail (.load2 _ true 1#8 rfl)).tail (.load1 _ false rfl)).tail (.load2 _ false 1#8 rfl)).tail
      (.swap _ false 1#8 5#8 (by decide))).tail (.swap _ true 1#8 3#8 (by decide)), ?_, true, ?_⟩
  · decide
  · decide

/-- Invariant for threads working on distinct bytes: a thread's local values are current, a finished thread's element is right, and elements no thread sets are
unchanged. -/
def CInv {ι : Type} (calls : ι → Call) (mem0 : Nat → Byte) (s : CState ι) : Prop :=
  (∀ t, match s.pc t with
    | .start => True
    | .read1 cur => cur = s.mem ((calls t).idx / 8)
    | .read2 cur new => cur = s.mem ((calls t).idx / 8) ∧ new = newByte cur ((calls t).idx % 8) (calls t).val
    | .done => elem s.mem (calls t).idx = (calls t).val) ∧
  (∀ i, (∀ t, (calls t).idx ≠ i) → elem s.mem i = elem mem0 i)

theorem cinv_step {ι : Type} [DecidableEq ι] (calls : ι → Call) (mem0 : Nat → Byte) (hd : ∀ t u, t ≠ u → (calls t).idx / 8 ≠ (calls u).idx / 8)
    (s s' : CState ι) (h : CInv calls mem0 s) (hs : Step calls s s') : CInv calls mem0 s' := by
  obtain ⟨h1, h2⟩ := h
  cases hs with
  | load1 t ht =>
    refine ⟨fun u => ?_, h2⟩
    by_cases hu : u = t
    · subst hu; simp only [upd_self]
    · simp only [upd_ne _ _ _ _ hu]; exact h1 u
  | load2 t cur ht =>
    refine ⟨fun u => ?_, h2⟩
    by_cases hu : u = t
    · subst hu
      have := h1 u; rw [ht] at this
      simp only [upd_self]
      simp only at this
      exact ⟨this, by rw [this]⟩
    · simp only [upd_ne _ _ _ _ hu]; exact h1 u
  | swap t cur new ht =>
    have hc := h1 t
    rw [ht] at hc
    simp only at hc
    obtain ⟨hc1, hc2⟩ := hc
    have hcas : (casVal (s.mem ((calls t).idx / 8)) cur new).2 = newByte (s.mem ((calls t).idx / 8)) ((calls t).idx % 8) (calls t).val := by
      simp only [casVal, hc1, if_true]
      rw [hc2, hc1]
    have h8 : (calls t).idx % 8 < 8 := Nat.mod_lt _ (by omega)
    rw [hcas]
    refine ⟨fun u => ?_, fun i hi => ?_⟩
    · by_cases hu : u = t
      · subst hu
        simp only [upd_self]
        by_cases hz : (casVal (s.mem ((calls u).idx / 8)) cur new).1 ≠ 0
        · rw [if_pos hz]
          simp only [elem, upd_self]
          exact newByte_same _ _ _ h8
        · rw [if_neg hz]; trivial
      · simp only [upd_ne _ _ _ _ hu]
        have hb := hd u t hu
        have := h1 u
        revert this
        cases s.pc u with
        | start => exact id
        | read1 c => simp only [upd_ne _ _ _ _ hb]; exact id
        | read2 c n => simp only [upd_ne _ _ _ _ hb]; exact id
        | done => simp only [elem, upd_ne _ _ _ _ hb]; exact id
    · rw [← h2 i hi]
      simp only [elem]
      by_cases hb : i / 8 = (calls t).idx / 8
      · rw [hb, upd_self]
        have hi8 : i % 8 < 8 := Nat.mod_lt _ (by omega)
        have := hi t
        exact newByte_other _ _ _ _ hi8 (by omega) h8
      · rw [upd_ne _ _ _ _ hb]

/-- What remains true of C18: threads whose elements lie in distinct bytes do not disturb one another. At every moment, a call that has returned has
set its element, and elements nobody sets are unchanged. -/
theorem concurrent_set_partial {ι : Type} [DecidableEq ι] (calls : ι → Call) (mem0 : Nat → Byte)
    (hd : ∀ t u, t ≠ u → (calls t).idx / 8 ≠ (calls u).idx / 8) (s : CState ι) (hs : Steps calls (.init mem0) s) :
    (∀ t, s.pc t = .done → elem s.mem (calls t).idx = (calls t).val) ∧ (∀ i, (∀ t, (calls t).idx ≠ i) → elem s.mem i = elem mem0 i) := by
  have hinv : CInv calls mem0 s := by
    generalize hs0 : CState.init mem0 = s0 at hs
    induction hs with
    | refl =>
      subst hs0
      exact ⟨fun t => trivial, fun i _ => rfl⟩
    | tail _ hst ih => exact cinv_step calls mem0 hd _ _ ih hst
  refine ⟨fun t ht => ?_, hinv.2⟩
  have := hinv.1 t
  rw [ht] at this
  exact this

/-- Non-trivial case: threads `k` setting element `8 k`, unboundedly many of them. -/
example : ∀ t u : Nat, t ≠ u → (8 * t) / 8 ≠ (8 * u) / 8 := by omega

end Verif.Types.Bits
