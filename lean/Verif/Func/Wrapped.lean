import Verif.Comp.Members
/-!
# Methods called through their wrappers: C159

`/repo/rapidudf/meta/function.h` 41–49 (`fnv1a_hash`), 148–196 (`MemberFunctionWrapper`), 298–305 (`MEMBER_FUNC_WRAPPER`); `/repo/rapidudf/reflect/reflect.cc` 74–88.

Every class method a program registers for scripts is kept in a static variable of a template instance, chosen by the hash of the file name, the line, the hash of the method's name
and the C++ type of the method. What is registered is the address of the instance's `Call`, which calls whatever the variable holds by then. All methods of one
`RUDF_STRUCT_MEMBER_METHODS` are on one line.
-/
namespace Verif.Wrapped
open Verif.Comp.Members Verif.Types.DT Verif.Types.Names

/-! ## Model -/

/-- `static_cast<uint64_t>(*str)` of a `char`, which is signed. -/
def charBits (c : Char) : BitVec 64 := (BitVec.ofNat 8 c.toNat).signExtend 64

/-- The loop of `fnv1a_hash`, `function.h` 43–46; it ends at a zero byte. -/
def fnvLoop : BitVec 64 → List Char → BitVec 64
  | h, [] => h
  | h, c :: cs => if c.toNat % 256 = 0 then h else fnvLoop ((h ^^^ charBits c) * 1099511628211#64) cs

/-- `fnv1a_hash`, `function.h` 41–48. -/
def fnv1a (s : List Char) : BitVec 64 := fnvLoop 14695981039346656037#64 s

/-- What chooses a template instance: file hash, line, name hash, type of the method. -/
abbrev Key := BitVec 64 × Nat × BitVec 64 × Nat

/-- One use of `MEMBER_FUNC_WRAPPER`. `ty` stands for the C++ type of the method (its class, its arguments, its result, whether it is const), `fn` for the method. -/
structure Bind (M : Type) where
  file : Name
  line : Nat
  name : Name
  cls : DType
  ty : Nat
  fn : M

def Bind.key {M : Type} (b : Bind M) : Key := (fnv1a b.file, b.line, fnv1a b.name, b.ty)

/-- The static variables (`GetFunc`, `GetFuncName`, `function.h` 152–159) and the members registered. -/
structure State (M : Type) where
  slots : List (Key × (Name × M)) := []
  index : Index Key := []

/-- `MEMBER_FUNC_WRAPPER`, `function.h` 298–305: the variables are set first, whatever the registration answers. -/
def bind {M : Type} (s : State M) (b : Bind M) : State M :=
  { slots := (b.key, (b.name, b.fn)) :: s.slots
    index := (addMethod s.index b.cls b.name b.key).1 }

def run {M : Type} (bs : List (Bind M)) : State M := bs.foldl bind {}

/-- What a call of a method by a script does. -/
inductive Called (M : Type)
  | noMember
  | calls (m : M)
  | throws (name : Name)
  | undefined
deriving DecidableEq

/-- `MemberFunctionWrapper::Call`, `function.h` 160–171: `obj` says that the object pointer is not null. -/
def wrapperCall {M : Type} (s : State M) (k : Key) (obj : Bool) : Called M :=
  match s.slots.lookup k with
  | none => if obj then .undefined else .throws []
  | some (n, m) => if obj then .calls m else .throws n

/-- The call of a method of a class from a script. -/
def call {M : Type} (s : State M) (cls : DType) (n : Name) (obj : Bool) : Called M :=
  match getMember s.index cls n with
  | none => .noMember
  | some e =>
    match e.func with
    | none => .noMember
    | some k => wrapperCall s k obj

/-! ## Specification -/

/-- The first registration of a name for a class. -/
def firstBind {M : Type} (bs : List (Bind M)) (cls : DType) (n : Name) : Option (Bind M) := bs.find? fun b => decide (control b.cls = control cls ∧ b.name = n)

/-- Different methods registered on the same line with the same type have names of different hash. -/
def NoClash {M : Type} (bs : List (Bind M)) : Prop :=
  ∀ a ∈ bs, ∀ b ∈ bs, fnv1a a.file = fnv1a b.file → a.line = b.line → a.ty = b.ty → fnv1a a.name = fnv1a b.name → a.name = b.name ∧ a.fn = b.fn

/-! ## Lemmas -/

theorem getMember_getM {F : Type} (ix : Index F) (d : DType) (n : Name) : getMember ix d n = (getM ix (control d)).map.lookup n := by
  unfold getMember getM
  cases ix.lookup (control d) with
  | none => rfl
  | some ms => rfl

theorem run_snoc {M : Type} (bs : List (Bind M)) (b : Bind M) : run (bs ++ [b]) = bind (run bs) b := by
  unfold run
  rw [List.foldl_append]
  rfl

theorem foldl_index {M : Type} : ∀ (bs : List (Bind M)) (s : State M),
    (bs.foldl bind s).index = (bs.map fun b => (Reg.method b.cls b.name b.key : Reg DType Key)).foldl (fun ix r => (add1 ix r).1) s.index
  | [], _ => rfl
  | b :: bs, s => by
    rw [List.foldl_cons, foldl_index bs, List.map_cons, List.foldl_cons]
    rfl

theorem run_index {M : Type} (bs : List (Bind M)) : (run bs).index = register (bs.map fun b => (Reg.method b.cls b.name b.key : Reg DType Key)) := foldl_index bs {}

theorem firstField_methods {M : Type} (same : DType → Bool) (n : Name) : ∀ (bs : List (Bind M)),
    firstField same n (bs.map fun b => (Reg.method b.cls b.name b.key : Reg DType Key)) = none
  | [] => rfl
  | b :: bs => by
    have := firstField_methods same n bs
    unfold firstField at this ⊢
    rw [List.map_cons, List.findSome?_cons]
    exact this

theorem firstMethod_methods {M : Type} (cls : DType) (n : Name) : ∀ (bs : List (Bind M)),
    firstMethod (fun t => control t == control cls) n (bs.map fun b => (Reg.method b.cls b.name b.key : Reg DType Key)) = (firstBind bs cls n).map Bind.key
  | [] => rfl
  | b :: bs => by
    have ih := firstMethod_methods cls n bs
    unfold firstMethod firstBind at ih ⊢
    rw [List.map_cons, List.findSome?_cons, List.find?_cons]
    dsimp only
    by_cases h : control b.cls = control cls ∧ b.name = n
    · rw [if_pos (by simp [h.1, h.2]), decide_eq_true h]
      rfl
    · rw [if_neg (by simpa using h), decide_eq_false h]
      exact ih

theorem slots_mem {M : Type} : ∀ (bs : List (Bind M)) (s : State M) (p : Key × (Name × M)), p ∈ (bs.foldl bind s).slots → p ∈ s.slots ∨ ∃ b ∈ bs, p = (b.key, (b.name, b.fn))
  | [], _, _, h => Or.inl h
  | b :: bs, s, p, h => by
    rcases slots_mem bs (bind s b) p h with h | ⟨c, hc, he⟩
    · rcases List.mem_cons.1 h with h | h
      · exact Or.inr ⟨b, List.mem_cons_self .., h⟩
      · exact Or.inl h
    · exact Or.inr ⟨c, List.mem_cons_of_mem _ hc, he⟩

theorem slots_has {M : Type} : ∀ (bs : List (Bind M)) (s : State M) (p : Key × (Name × M)), p ∈ s.slots ∨ (∃ b ∈ bs, p = (b.key, (b.name, b.fn))) → p ∈ (bs.foldl bind s).slots
  | [], _, _, h => by
    rcases h with h | ⟨b, hb, _⟩
    · exact h
    · cases hb
  | b :: bs, s, p, h => by
    apply slots_has bs (bind s b) p
    rcases h with h | ⟨c, hc, he⟩
    · exact Or.inl (List.mem_cons_of_mem _ h)
    · rcases List.mem_cons.1 hc with rfl | hc
      · exact Or.inl (by rw [he]; exact List.mem_cons_self ..)
      · exact Or.inr ⟨c, hc, he⟩

theorem lookup_mem {α β : Type} [BEq α] [LawfulBEq α] : ∀ (l : List (α × β)) (a : α) (b : β), l.lookup a = some b → (a, b) ∈ l
  | [], _, _, h => by cases h
  | (x, y) :: l, a, b, h => by
    rw [List.lookup_cons] at h
    cases hx : a == x with
    | true => rw [hx] at h; cases h; rw [beq_iff_eq.1 hx]; exact List.mem_cons_self ..
    | false => rw [hx] at h; exact List.mem_cons_of_mem _ (lookup_mem l a b h)

theorem lookup_is {α β : Type} [BEq α] [LawfulBEq α] : ∀ (l : List (α × β)) (a : α) (b : β), (a, b) ∈ l → ∃ b', l.lookup a = some b'
  | [], _, _, h => by cases h
  | (x, y) :: l, a, b, h => by
    rw [List.lookup_cons]
    cases hx : a == x with
    | true => exact ⟨y, rfl⟩
    | false =>
      rcases List.mem_cons.1 h with h | h
      · cases h; rw [beq_self_eq_true] at hx; cases hx
      · exact lookup_is l a b h

theorem slot_of {M : Type} (bs : List (Bind M)) (h : NoClash bs) (b : Bind M) (hb : b ∈ bs) : (run bs).slots.lookup b.key = some (b.name, b.fn) := by
  obtain ⟨⟨n, m⟩, hl⟩ := lookup_is (run bs).slots b.key (b.name, b.fn) (slots_has bs {} _ (Or.inr ⟨b, hb, rfl⟩))
  have hm := lookup_mem _ _ _ hl
  rcases slots_mem bs {} _ hm with hm | ⟨c, hc, he⟩
  · cases hm
  · simp only [Bind.key, Prod.mk.injEq] at he
    obtain ⟨⟨k1, k2, k3, k4⟩, rfl, rfl⟩ := he
    obtain ⟨h1, h2⟩ := h c hc b hb k1.symm k2.symm k4.symm k3.symm
    rw [hl, h1, h2]

/-! ## Lemmas on the hash -/

theorem mul_prime_inj (x y : BitVec 64) (h : x * 1099511628211#64 = y * 1099511628211#64) : x = y := by
  have h2 := congrArg (· * 14886173955864302971#64) h
  rw [BitVec.mul_assoc, BitVec.mul_assoc] at h2
  have e : (1099511628211#64 * 14886173955864302971#64 : BitVec 64) = 1#64 := by decide +kernel
  rw [e, BitVec.mul_one, BitVec.mul_one] at h2
  exact h2

theorem xor_right_inj (a x y : BitVec 64) (h : x ^^^ a = y ^^^ a) : x = y := by
  have h2 := congrArg (· ^^^ a) h
  rwa [BitVec.xor_assoc, BitVec.xor_assoc, BitVec.xor_self, BitVec.xor_zero, BitVec.xor_zero] at h2

theorem xor_left_inj (a x y : BitVec 64) (h : a ^^^ x = a ^^^ y) : x = y := by
  rw [BitVec.xor_comm a x, BitVec.xor_comm a y] at h
  exact xor_right_inj a x y h

theorem charBits_inj (c d : Char) (hc : c.toNat < 256) (hd : d.toNat < 256) (h : charBits c = charBits d) : c = d := by
  unfold charBits at h
  have h2 := congrArg BitVec.toInt h
  rw [BitVec.toInt_signExtend_of_le (by omega), BitVec.toInt_signExtend_of_le (by omega)] at h2
  have h3 := congrArg BitVec.toNat (BitVec.toInt_inj.1 h2)
  simp only [BitVec.toNat_ofNat] at h3
  apply Char.ext
  apply UInt32.toNat_inj.1
  show c.toNat = d.toNat
  omega

theorem fnvLoop_inj : ∀ (s : List Char), (∀ c ∈ s, c.toNat % 256 ≠ 0) → ∀ (g h : BitVec 64), fnvLoop g s = fnvLoop h s → g = h
  | [], _, _, _, e => e
  | c :: s, hs, g, h, e => by
    unfold fnvLoop at e
    rw [if_neg (hs c (List.mem_cons_self ..)), if_neg (hs c (List.mem_cons_self ..))] at e
    have := fnvLoop_inj s (fun d hd => hs d (List.mem_cons_of_mem _ hd)) _ _ e
    exact xor_right_inj _ _ _ (mul_prime_inj _ _ this)

theorem fnvLoop_append : ∀ (a s : List Char), (∀ c ∈ a, c.toNat % 256 ≠ 0) → ∀ (h : BitVec 64), fnvLoop h (a ++ s) = fnvLoop (fnvLoop h a) s
  | [], _, _, _ => rfl
  | c :: a, s, ha, h => by
    rw [List.cons_append, fnvLoop, fnvLoop]
    rw [if_neg (ha c (List.mem_cons_self ..)), if_neg (ha c (List.mem_cons_self ..))]
    exact fnvLoop_append a s (fun d hd => ha d (List.mem_cons_of_mem _ hd)) _

/-! ## C159 -/

/-- **C159.** A script that calls a method of a class by its name calls the method the program registered first under this name, and no other; on a null pointer an exception with the
name of the method is thrown instead; a name never registered for the class is no member. For every history of registrations in which methods on one line with one type have names
of different hash. -/
theorem method_called {M : Type} (bs : List (Bind M)) (h : NoClash bs) (cls : DType) (n : Name) :
    (∀ b, firstBind bs cls n = some b → call (run bs) cls n true = .calls b.fn ∧ call (run bs) cls n false = .throws n) ∧
    (firstBind bs cls n = none → ∀ obj, call (run bs) cls n obj = .noMember) := by
  have hmap := (register_holds (bs.map fun b => (Reg.method b.cls b.name b.key : Reg DType Key))).map (control cls) n
  rw [firstField_methods, firstMethod_methods, ← run_index] at hmap
  rw [← getMember_getM] at hmap
  constructor
  · intro b hb
    rw [hb] at hmap
    have hmem : b ∈ bs := List.mem_of_find?_eq_some hb
    have hn : b.name = n := by
      have := List.find?_some hb
      exact (of_decide_eq_true this).2
    have hk := slot_of bs h b hmem
    have hm : getMember (run bs).index cls n = some { field := none, func := some b.key } := hmap
    unfold call wrapperCall
    rw [hm]
    dsimp only
    rw [hk]
    exact ⟨rfl, by rw [hn]; rfl⟩
  · intro hb obj
    rw [hb] at hmap
    have hm : getMember (run bs).index cls n = none := hmap
    unfold call
    rw [hm]

/-- **C159.** Names that differ in one place have different hashes, whatever comes before and after (names contain no zero byte). -/
theorem one_place_no_clash (pre post : Name) (c d : Char) (hcd : c ≠ d) (hpre : ∀ x ∈ pre, x.toNat % 256 ≠ 0) (hpost : ∀ x ∈ post, x.toNat % 256 ≠ 0)
    (hc : 0 < c.toNat ∧ c.toNat < 256) (hd : 0 < d.toNat ∧ d.toNat < 256) : fnv1a (pre ++ c :: post) ≠ fnv1a (pre ++ d :: post) := by
  intro h
  unfold fnv1a at h
  rw [fnvLoop_append _ _ hpre, fnvLoop_append _ _ hpre, fnvLoop, fnvLoop, if_neg (by omega), if_neg (by omega)] at h
  have h1 := mul_prime_inj _ _ (fnvLoop_inj post hpost _ _ h)
  exact hcd (charBits_inj c d hc.2 hd.2 (xor_left_inj _ _ _ h1))

/-- **C159.** Two methods bound on one line, of one class and one type, whose names differ in one place: each name calls its own method. -/
theorem two_methods {M : Type} (file : Name) (line : Nat) (cls : DType) (ty : Nat) (f g : M) (pre post : Name) (c d : Char) (hcd : c ≠ d)
    (hpre : ∀ x ∈ pre, x.toNat % 256 ≠ 0) (hpost : ∀ x ∈ post, x.toNat % 256 ≠ 0) (hc : 0 < c.toNat ∧ c.toNat < 256) (hd : 0 < d.toNat ∧ d.toNat < 256) :
    let bs : List (Bind M) := [⟨file, line, pre ++ c :: post, cls, ty, f⟩, ⟨file, line, pre ++ d :: post, cls, ty, g⟩]
    call (run bs) cls (pre ++ c :: post) true = .calls f ∧ call (run bs) cls (pre ++ d :: post) true = .calls g := by
  intro bs
  have hne := one_place_no_clash pre post c d hcd hpre hpost hc hd
  have hnn : pre ++ c :: post ≠ pre ++ d :: post := fun e => hne (congrArg fnv1a e)
  have hcl : NoClash bs := by
    intro a ha b hb _ _ _ hn
    simp only [bs, List.mem_cons, List.not_mem_nil, or_false] at ha hb
    rcases ha with rfl | rfl <;> rcases hb with rfl | rfl
    · exact ⟨rfl, rfl⟩
    · exact absurd hn hne
    · exact absurd hn.symm hne
    · exact ⟨rfl, rfl⟩
  constructor
  · exact ((method_called bs hcl cls (pre ++ c :: post)).1 ⟨file, line, pre ++ c :: post, cls, ty, f⟩ (by simp [firstBind, bs])).1
  · exact ((method_called bs hcl cls (pre ++ d :: post)).1 ⟨file, line, pre ++ d :: post, cls, ty, g⟩ (by
      simp only [firstBind, bs, List.find?_cons]
      rw [decide_eq_false (by simp [hnn]), decide_eq_true (by simp)])).1

/-! ## The hypotheses are met -/

example : ('1' : Char) ≠ '2' ∧ (∀ x ∈ "get_".toList, x.toNat % 256 ≠ 0) ∧ 0 < ('1' : Char).toNat ∧ ('2' : Char).toNat < 256 ∧
    fnv1a "get_1".toList ≠ fnv1a "get_2".toList ∧ fnv1a "".toList = 14695981039346656037#64 ∧ fnv1a "a".toList = 12638187200555641996#64 := by decide +kernel

end Verif.Wrapped
