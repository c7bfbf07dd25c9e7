import Verif.Simd.Loop
/-!
# Bit vectors: counting and bitwise operations (C52, C53)

`/repo/rapidudf/functions/simd/bits.cc`. A bit vector is a size in elements and the bytes behind it.
-/
namespace Verif.Simd

abbrev Byte := BitVec 8

/-- Element `i` of the bit vector stored in `mem` (`Vector<Bit>::operator[]`, `types/vector.h` 172–182). -/
def bitAt (mem : List Byte) (i : Nat) : Bool :=
  match mem[i / 8]? with
  | some b => b.getLsbD (i % 8)
  | none => false

/-- `byte_count` (`bits.cc` 66–70 and the same lines in the other kernels). -/
def byteCount (count : Nat) : Nat := count / 8 + (if count % 8 > 0 then 1 else 0)

/-- `padding_bits`. -/
def paddingBits (count : Nat) : Nat := (8 - count % 8) % 8

/-- `static_cast<uint8_t>(~0 >> padding_bits)`: `~0` is the `int` -1 and the shift of a negative `int` is arithmetic. -/
def clearMask (p : Nat) : Byte := ((BitVec.allOnes 32).sshiftRight p).setWidth 8

/-- `static_cast<uint8_t>(~0 << (8 - padding_bits))`. -/
def paddingMask (p : Nat) : Byte := ((BitVec.allOnes 32) <<< (8 - p)).setWidth 8

/-- `out[k] &= m`. -/
def andByte (out : List Byte) (k : Nat) (m : Byte) : Option (List Byte) :=
  match out[k]? with
  | none => none
  | some b => some (out.set k (b &&& m))

/-- Clearing the padding, the last statement of both kernels. -/
def clearPadding (count : Nat) (out : List Byte) : Option (List Byte) :=
  if paddingBits count > 0 then andByte out (byteCount count - 1) (clearMask (paddingBits count)) else some out

/-- `simd_vector_bits_not_impl` (60–94). -/
def bitsNot (N count : Nat) (src dst : List Byte) : Option (List Byte) :=
  match forLoop (fullBlock N (byteCount count)) N (fun i o => do
      let v ← (loadU src i N).map (fun v => v.map (~~~ ·))
      storeU o i v) (byteCount count + 1) 0 dst with
  | none => none
  | some (i, o) =>
    if i = byteCount count then clearPadding count o
    else
      match loadN 0 src i (byteCount count - i) N with
      | none => none
      | some v =>
        match storeN o i (v.map (~~~ ·)) (byteCount count - i) with
        | none => none
        | some o => clearPadding count o

/-- The three binary operations (`do_simd_binary_op`, 48–58). -/
inductive BitOp | and | or | xor
  deriving DecidableEq, Repr

def BitOp.byte : BitOp → Byte → Byte → Byte
  | .and, a, b => a &&& b
  | .or, a, b => a ||| b
  | .xor, a, b => a ^^^ b

def BitOp.bool : BitOp → Bool → Bool → Bool
  | .and, a, b => a && b
  | .or, a, b => a || b
  | .xor, a, b => a != b

/-- One full block of the loop below (`bits.cc` 113–116). -/
def binBlock (op : BitOp) (N : Nat) (l r : List Byte) (i : Nat) : Option (List Byte) := do
  let a ← loadU l i N
  let b ← loadU r i N
  pure (List.zipWith op.byte a b)

/-- `simd_vector_bits_binary_impl` (96–135). The size is that of the left operand; that the right operand has as many bytes is not checked. -/
def bitsBinary (op : BitOp) (N count : Nat) (l r dst : List Byte) : Option (List Byte) :=
  match forLoop (fullBlock N (byteCount count)) N (fun i o => do
      let v ← binBlock op N l r i
      storeU o i v) (byteCount count + 1) 0 dst with
  | none => none
  | some (i, o) =>
    if i = byteCount count then clearPadding count o
    else
      match loadN 0 l i (byteCount count - i) N, loadN 0 r i (byteCount count - i) N with
      | some a, some b =>
        match storeN o i (List.zipWith op.byte a b) (byteCount count - i) with
        | none => none
        | some o => clearPadding count o
      | _, _ => none

/-- Number of set bits of a byte. -/
def pop (b : Byte) : Nat := (List.range 8).countP (fun j => b.getLsbD j)

/-- `hn::ReduceSum` on `uint8_t` lanes. -/
def reduceSum8 (v : List Nat) : Nat := v.sum % 256

/-- Subtracting the padding from the count (`size_t` arithmetic). -/
def subPadding (count : Nat) (src : List Byte) (n : BitVec 64) : Option (BitVec 64) :=
  if paddingBits count > 0 then
    match src[byteCount count - 1]? with
    | none => none
    | some b => some (n - BitVec.ofNat 64 (pop (b &&& paddingMask (paddingBits count))))
  else some n

/-- `simd_vector_count_true_impl` (137–182). -/
def countTrueBits (N count : Nat) (src : List Byte) : Option (BitVec 64) :=
  match forLoop (fullBlock N (byteCount count)) N (fun i (n : BitVec 64) =>
      match loadU src i N with
      | none => none
      | some v => some (n + BitVec.ofNat 64 (reduceSum8 (v.map pop)))) (byteCount count + 1) 0 0 with
  | none => none
  | some (i, n) =>
    if i = byteCount count then subPadding count src n
    else
      match loadN 0 src i (byteCount count - i) N with
      | none => none
      | some v => subPadding count src (n + BitVec.ofNat 64 (reduceSum8 (v.map pop)))

/-! ## Helper lemmas -/

theorem byteCount_spec (count : Nat) : 8 * byteCount count = count + paddingBits count := by
  unfold byteCount paddingBits
  split <;> omega

theorem clearMask_eq (p : Nat) : clearMask p = 0xff#8 := by
  unfold clearMask
  apply BitVec.eq_of_getLsbD_eq
  intro i hi
  have h1 : i < 32 := by omega
  simp only [BitVec.getLsbD_setWidth, BitVec.getLsbD_sshiftRight, hi, decide_true, Bool.true_and]
  have h2 : (0xff#8 : BitVec 8).getLsbD i = true := by
    have : ∀ i, i < 8 → (0xff#8 : BitVec 8).getLsbD i = true := by decide
    exact this i hi
  rw [h2]
  have h3 : ¬ 32 ≤ i := by omega
  simp only [h3, decide_false, Bool.not_false, Bool.true_and]
  split
  · rw [BitVec.getLsbD_allOnes]; simpa
  · decide

theorem clearPadding_id (count : Nat) (out : List Byte) (h : byteCount count ≤ out.length) : clearPadding count out = some out := by
  unfold clearPadding
  split
  · rename_i hp
    have hb := byteCount_spec count
    have hlt : byteCount count - 1 < out.length := by
      unfold paddingBits at hp hb
      omega
    simp only [andByte, List.getElem?_eq_getElem hlt, clearMask_eq]
    congr 1
    have : out[byteCount count - 1] &&& 0xff#8 = out[byteCount count - 1] := by
      have : (0xff#8 : BitVec 8) = BitVec.allOnes 8 := rfl
      rw [this, BitVec.and_allOnes]
    rw [this]
    exact List.set_getElem_self hlt
  · rfl

theorem bitAt_eq {mem : List Byte} {i : Nat} (h : i / 8 < mem.length) : bitAt mem i = mem[i / 8].getLsbD (i % 8) := by
  simp [bitAt, List.getElem?_eq_getElem h]

theorem bitAt_take {mem : List Byte} {i n : Nat} (h : i / 8 < n) : bitAt (mem.take n) i = bitAt mem i := by
  simp [bitAt, List.getElem?_take, h]

theorem take_append_zero {α : Type} (l : List α) (i n N : Nat) (z : α) (hi : i + n ≤ l.length) :
    ((l.drop i).take n ++ List.replicate (N - n) z).take n = (l.drop i).take n := by
  have hl : ((l.drop i).take n).length = n := by simp; omega
  conv => lhs; rw [← hl]
  simp

/-- The contents of the output after `not`: all bytes complemented, padding included. -/
theorem bitsNot_out (N count : Nat) (hN : 0 < N) (src dst : List Byte) (hs : byteCount count ≤ src.length) (hd : byteCount count ≤ dst.length) :
    ∃ out, bitsNot N count src dst = some out ∧ out.length = dst.length ∧
      out.take (byteCount count) = (src.take (byteCount count)).map (~~~ ·) := by
  have hlen : ((src.take (byteCount count)).map (~~~ · : Byte → Byte)).length = byteCount count := by simp; omega
  obtain ⟨i, m, he, h1, h2, h3, h4⟩ := mapLoop_ok ((src.take (byteCount count)).map (~~~ ·)) N hN
    (fun i => (loadU src i N).map (fun v => v.map (~~~ ·)))
    (by
      intro i hi
      rw [hlen] at hi
      simp only [loadU_some (show i + N ≤ src.length by omega), Option.map_some]
      rw [← List.map_drop, ← List.map_take, List.drop_take, List.take_take, Nat.min_eq_left (by omega)])
    dst (by omega)
  rw [hlen] at he h3 h4
  unfold bitsNot
  simp only [he]
  by_cases hi : i = byteCount count
  · subst hi
    simp only [if_true]
    refine ⟨m, clearPadding_id _ _ (by omega), h1, ?_⟩
    rw [h2, List.take_of_length_le (by omega)]
  · simp only [hi, if_false]
    have hl : loadN 0 src i (byteCount count - i) N
        = some ((src.drop i).take (byteCount count - i) ++ List.replicate (N - (byteCount count - i)) 0) := by
      simp only [loadN]
      rw [if_pos]
      omega
    rw [hl]
    simp only
    obtain ⟨m', e1, e2, e3⟩ := mapTail_ok ((src.take (byteCount count)).map (~~~ ·)) m
      (((src.drop i).take (byteCount count - i) ++ List.replicate (N - (byteCount count - i)) 0).map (~~~ ·)) i (by omega) (by omega) h2
      (by
        rw [hlen, ← List.map_take, take_append_zero _ _ _ _ _ (by omega), ← List.map_drop, List.drop_take])
    rw [hlen] at e1 e3
    rw [e1]
    exact ⟨m', clearPadding_id _ _ (by omega), by omega, e3⟩

theorem bitsBinary_out (op : BitOp) (N count : Nat) (hN : 0 < N) (l r dst : List Byte) (hl : byteCount count ≤ l.length)
    (hr : byteCount count ≤ r.length) (hd : byteCount count ≤ dst.length) :
    ∃ out, bitsBinary op N count l r dst = some out ∧ out.length = dst.length ∧
      out.take (byteCount count) = List.zipWith op.byte (l.take (byteCount count)) (r.take (byteCount count)) := by
  have hlen : (List.zipWith op.byte (l.take (byteCount count)) (r.take (byteCount count))).length = byteCount count := by simp; omega
  obtain ⟨i, m, he, h1, h2, h3, h4⟩ := mapLoop_ok (List.zipWith op.byte (l.take (byteCount count)) (r.take (byteCount count))) N hN
    (binBlock op N l r)
    (by
      intro i hi
      rw [hlen] at hi
      simp only [binBlock, loadU_some (show i + N ≤ l.length by omega), loadU_some (show i + N ≤ r.length by omega)]
      simp only [Option.bind_eq_bind, Option.bind_some, Option.pure_def]
      rw [List.drop_zipWith, List.take_zipWith, List.drop_take, List.drop_take, List.take_take, List.take_take, Nat.min_eq_left (by omega)])
    dst (by omega)
  rw [hlen] at he h3 h4
  unfold bitsBinary
  simp only [he]
  by_cases hi : i = byteCount count
  · subst hi
    simp only [if_true]
    refine ⟨m, clearPadding_id _ _ (by omega), h1, ?_⟩
    rw [h2, List.take_of_length_le (by omega)]
  · simp only [hi, if_false]
    have hload : ∀ mem : List Byte, byteCount count ≤ mem.length → loadN 0 mem i (byteCount count - i) N
        = some ((mem.drop i).take (byteCount count - i) ++ List.replicate (N - (byteCount count - i)) 0) := by
      intro mem hm
      simp only [loadN]
      rw [if_pos]
      omega
    rw [hload l hl, hload r hr]
    simp only
    obtain ⟨m', e1, e2, e3⟩ := mapTail_ok (List.zipWith op.byte (l.take (byteCount count)) (r.take (byteCount count))) m
      (List.zipWith op.byte ((l.drop i).take (byteCount count - i) ++ List.replicate (N - (byteCount count - i)) 0)
        ((r.drop i).take (byteCount count - i) ++ List.replicate (N - (byteCount count - i)) 0)) i (by omega) (by omega) h2
      (by
        rw [hlen, List.take_zipWith, take_append_zero _ _ _ _ _ (by omega), take_append_zero _ _ _ _ _ (by omega), List.drop_zipWith,
          List.drop_take, List.drop_take])
    rw [hlen] at e1 e3
    rw [e1]
    exact ⟨m', clearPadding_id _ _ (by omega), by omega, e3⟩

/-! ## C53 -/

theorem bitAt_not {src out : List Byte} {m : Nat} (h : out.take m = (src.take m).map (~~~ ·)) (hs : m ≤ src.length) (i : Nat) (hi : i < 8 * m) :
    bitAt out i = !bitAt src i := by
  have hq : i / 8 < m := by omega
  have hr : i % 8 < 8 := by omega
  rw [← bitAt_take hq, h]
  simp [bitAt, List.getElem?_map, List.getElem?_take, hq, List.getElem?_eq_getElem (show i / 8 < src.length by omega), hr]

theorem bitAt_binary {op : BitOp} {l r out : List Byte} {m : Nat} (h : out.take m = List.zipWith op.byte (l.take m) (r.take m))
    (hl : m ≤ l.length) (hr : m ≤ r.length) (i : Nat) (hi : i < 8 * m) : bitAt out i = op.bool (bitAt l i) (bitAt r i) := by
  have hq : i / 8 < m := by omega
  rw [← bitAt_take hq, h]
  simp only [bitAt, List.getElem?_zipWith, List.getElem?_take, hq, if_true, List.getElem?_eq_getElem (show i / 8 < l.length by omega),
    List.getElem?_eq_getElem (show i / 8 < r.length by omega)]
  cases op <;> simp [BitOp.byte, BitOp.bool]

/-- C53, `not`: element-wise for every lane count, and only the bytes of the vector are written. -/
theorem not_elementwise_partial (N count : Nat) (hN : 0 < N) (src dst : List Byte) (hs : byteCount count ≤ src.length)
    (hd : byteCount count ≤ dst.length) :
    ∃ out, bitsNot N count src dst = some out ∧ out.length = dst.length ∧ ∀ i, i < count → bitAt out i = !bitAt src i := by
  obtain ⟨out, he, hl, ho⟩ := bitsNot_out N count hN src dst hs hd
  refine ⟨out, he, hl, fun i hi => bitAt_not ho hs i ?_⟩
  have := byteCount_spec count
  omega

/-- C53, `and`, `or`, `xor`: element-wise for every lane count, and if both operands have their padding bits clear so has the result. -/
theorem binary_elementwise (op : BitOp) (N count : Nat) (hN : 0 < N) (l r dst : List Byte) (hl : byteCount count ≤ l.length)
    (hr : byteCount count ≤ r.length) (hd : byteCount count ≤ dst.length) :
    ∃ out, bitsBinary op N count l r dst = some out ∧ out.length = dst.length ∧
      (∀ i, i < count → bitAt out i = op.bool (bitAt l i) (bitAt r i)) ∧
      ((∀ i, count ≤ i → i < 8 * byteCount count → bitAt l i = false ∧ bitAt r i = false) →
        ∀ i, count ≤ i → i < 8 * byteCount count → bitAt out i = false) := by
  obtain ⟨out, he, hlen, ho⟩ := bitsBinary_out op N count hN l r dst hl hr hd
  have := byteCount_spec count
  refine ⟨out, he, hlen, fun i hi => bitAt_binary ho hl hr i (by omega), fun hp i h1 h2 => ?_⟩
  rw [bitAt_binary ho hl hr i h2, (hp i h1 h2).1, (hp i h1 h2).2]
  cases op <;> rfl

/-- C53 is false for `not`: if the padding bits of the operand are clear, every padding bit of the result is set, for every lane count and
every size that is not a multiple of eight. -/
theorem not_padding_violated (N count : Nat) (hN : 0 < N) (src dst : List Byte) (hs : byteCount count ≤ src.length)
    (hd : byteCount count ≤ dst.length) (hp : ∀ i, count ≤ i → i < 8 * byteCount count → bitAt src i = false) :
    ∃ out, bitsNot N count src dst = some out ∧ ∀ i, count ≤ i → i < 8 * byteCount count → bitAt out i = true := by
  obtain ⟨out, he, hl, ho⟩ := bitsNot_out N count hN src dst hs hd
  refine ⟨out, he, fun i h1 h2 => ?_⟩
  rw [bitAt_not ho hs i h2, hp i h1 h2]
  rfl

example : bitsNot 2 19 [0x0f#8, 0xff#8, 0x01#8] [0#8, 0#8, 0#8] = some [0xf0#8, 0x00#8, 0xfe#8] := by decide
example : bitsBinary .xor 2 19 [0x0f#8, 0xff#8, 0x01#8] [0x01#8, 0x0f#8, 0x07#8] [0#8, 0#8, 0#8] = some [0x0e#8, 0xf0#8, 0x06#8] := by decide

/-! ## C52 -/

/-- Specification: the number of set elements among the first `count`. -/
def countSpec (mem : List Byte) (count : Nat) : Nat := (List.range count).countP (bitAt mem)

theorem countP_range_add (f : Nat → Bool) (a b : Nat) :
    (List.range (a + b)).countP f = (List.range a).countP f + (List.range b).countP (fun j => f (a + j)) := by
  rw [List.range_add, List.countP_append, List.countP_map]
  rfl

theorem countP_range_congr {f g : Nat → Bool} {n : Nat} (h : ∀ i, i < n → f i = g i) : (List.range n).countP f = (List.range n).countP g := by
  apply List.countP_congr
  intro x hx
  rw [h x (List.mem_range.mp hx)]

theorem pop_eq {mem : List Byte} {k : Nat} (h : k < mem.length) : (List.range 8).countP (fun j => bitAt mem (8 * k + j)) = pop mem[k] := by
  unfold pop
  apply countP_range_congr
  intro j hj
  have h1 : (8 * k + j) / 8 = k := by omega
  have h2 : (8 * k + j) % 8 = j := by omega
  simp [bitAt, h1, h2, List.getElem?_eq_getElem h]

theorem popSum_eq (mem : List Byte) (m : Nat) (h : m ≤ mem.length) : ((mem.take m).map pop).sum = countSpec mem (8 * m) := by
  induction m with
  | zero => simp [countSpec]
  | succ m ih =>
    have hm : m < mem.length := by omega
    rw [List.take_add_one, List.getElem?_eq_getElem hm, List.map_append, List.sum_append, ih (by omega)]
    unfold countSpec
    rw [show 8 * (m + 1) = 8 * m + 8 by omega, countP_range_add, pop_eq hm]
    simp

theorem pop_mask : ∀ (b : Byte) (p : Fin 8), (List.range p.val).countP (fun j => b.getLsbD (8 - p.val + j)) = pop (b &&& paddingMask p.val) := by
  decide +kernel

theorem pop_le (b : Byte) : pop b ≤ 8 := by
  unfold pop
  have := List.countP_le_length (p := fun j => b.getLsbD j) (l := List.range 8)
  simpa using this

theorem popSum_le (v : List Byte) : (v.map pop).sum ≤ 8 * v.length := by
  induction v with
  | nil => simp
  | cons b v ih => simp only [List.map_cons, List.sum_cons, List.length_cons]; have := pop_le b; omega

theorem subPadding_ok (count : Nat) (src : List Byte) (hs : byteCount count ≤ src.length) (n : BitVec 64)
    (hn : n = BitVec.ofNat 64 (countSpec src (8 * byteCount count))) : subPadding count src n = some (BitVec.ofNat 64 (countSpec src count)) := by
  have hb := byteCount_spec count
  have hp8 : paddingBits count < 8 := by unfold paddingBits; omega
  unfold subPadding
  split
  · rename_i hp
    have hlt : byteCount count - 1 < src.length := by omega
    simp only [List.getElem?_eq_getElem hlt]
    congr 1
    have hsplit : countSpec src (8 * byteCount count) = countSpec src count + pop (src[byteCount count - 1] &&& paddingMask (paddingBits count)) := by
      unfold countSpec
      rw [hb, countP_range_add]
      congr 1
      have := pop_mask src[byteCount count - 1] ⟨paddingBits count, hp8⟩
      rw [← this]
      apply countP_range_congr
      intro j hj
      have h1 : (count + j) / 8 = byteCount count - 1 := by omega
      have h2 : (count + j) % 8 = 8 - paddingBits count + j := by omega
      simp [bitAt, h1, h2, List.getElem?_eq_getElem hlt]
    rw [hn, hsplit, BitVec.ofNat_add, BitVec.add_sub_cancel]
  · rename_i hp
    have : 8 * byteCount count = count := by omega
    rw [hn, this]

/-- C52: if no full block has 256 or more set bits, `count_true` is the number of set elements. -/
theorem count_true_small_blocks_partial (N count : Nat) (hN : 0 < N) (src : List Byte) (hs : byteCount count ≤ src.length)
    (hblk : ∀ i n, n ≤ N → (((src.drop i).take n).map pop).sum < 256) :
    countTrueBits N count src = some (BitVec.ofNat 64 (countSpec src count)) := by
  unfold countTrueBits
  have stepEq : ∀ i n, i + n ≤ src.length → n ≤ N →
      BitVec.ofNat 64 (countSpec src (8 * i)) + BitVec.ofNat 64 (reduceSum8 (((src.drop i).take n).map pop))
        = BitVec.ofNat 64 (countSpec src (8 * (i + n))) := by
    intro i n h1 h2
    rw [reduceSum8, Nat.mod_eq_of_lt (hblk i n h2), ← BitVec.ofNat_add, ← popSum_eq _ _ (by omega), ← popSum_eq _ _ h1, List.take_add,
      List.map_append, List.sum_append]
  obtain ⟨i, n, he, hn, hc, _, hi⟩ := forLoop_inv (cond := fullBlock N (byteCount count)) (step := N)
    (body := fun i (n : BitVec 64) =>
      match loadU src i N with
      | none => none
      | some v => some (n + BitVec.ofNat 64 (reduceSum8 (v.map pop))))
    (fun i n => n = BitVec.ofNat 64 (countSpec src (8 * i))) (byteCount count) hN (fun i _ _ h => fullBlock_le h)
    (by
      rintro i n rfl hc
      have hle := fullBlock_le hc
      rw [loadU_some (by omega)]
      exact ⟨_, rfl, stepEq i N (by omega) (Nat.le_refl _)⟩)
    (byteCount count + 1) 0 0 (by simp [countSpec]) (by omega) (by omega)
  simp only [he]
  have hlt := fullBlock_false hc
  by_cases h : i = byteCount count
  · simp only [h, if_true]
    exact subPadding_ok count src hs n (by rw [hn, h])
  · simp only [h, if_false]
    have hl : loadN 0 src i (byteCount count - i) N
        = some ((src.drop i).take (byteCount count - i) ++ List.replicate (N - (byteCount count - i)) 0) := by
      simp only [loadN]
      rw [if_pos]
      omega
    rw [hl]
    simp only
    apply subPadding_ok count src hs
    have hz : (List.replicate (N - (byteCount count - i)) (0 : Byte)).map pop = List.replicate (N - (byteCount count - i)) 0 := by
      rw [List.map_replicate]; rfl
    have hsum : reduceSum8 (((src.drop i).take (byteCount count - i) ++ List.replicate (N - (byteCount count - i)) (0 : Byte)).map pop)
        = reduceSum8 (((src.drop i).take (byteCount count - i)).map pop) := by
      unfold reduceSum8
      rw [List.map_append, List.sum_append, hz, List.sum_replicate_nat]
      simp
    rw [hsum, hn, stepEq i (byteCount count - i) (by omega) (by omega), show i + (byteCount count - i) = byteCount count by omega]

/-- C52 for targets with at most 31 byte lanes (128-bit registers): `count_true` is the number of set elements. -/
theorem count_true_partial (N count : Nat) (hN : 0 < N) (hN2 : N < 32) (src : List Byte) (hs : byteCount count ≤ src.length) :
    countTrueBits N count src = some (BitVec.ofNat 64 (countSpec src count)) := by
  apply count_true_small_blocks_partial N count hN src hs
  intro i n hn
  have h1 := popSum_le ((src.drop i).take n)
  have h2 : ((src.drop i).take n).length ≤ n := by simp; omega
  omega

/-- C52 is false with 32 byte lanes (256-bit registers): a vector of 256 set elements counts as zero. -/
theorem count_true_violated : countTrueBits 32 256 (List.replicate 32 0xff#8) = some 0 ∧ countSpec (List.replicate 32 0xff#8) 256 = 256 := by
  decide +kernel

example : countTrueBits 2 19 [0x0f#8, 0xff#8, 0xff#8] = some 15 := by decide +kernel

end Verif.Simd
