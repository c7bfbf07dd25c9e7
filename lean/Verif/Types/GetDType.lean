import Verif.Types.DTypeOrder
/-!
# From C++ types to type descriptors: C72

`get_dtype`, `/repo/rapidudf/meta/dtype.h` 263–538.
-/
namespace Verif.Types.DT

/-- C++ types, as far as `get_dtype` distinguishes them: `const` is ignored, a reference counts as a pointer, `std::tuple<A, B>` as `std::pair<A, B>`, `bool` as `Bit`
and `char` as `int8_t`. `prim id` is a type with an identifier of its own: built-in types have fixed ones, other classes get the next free one. -/
inductive CType where
  | prim (id : Nat)
  | ptr (t : CType)
  /-- `std::vector`, `std::set`, `std::unordered_set`, `absl::Span`, `Vector`. -/
  | coll (c : Nat) (t : CType)
  /-- `std::array`. -/
  | arr (t : CType) (n : Nat)
  /-- `std::map`, `std::unordered_map`, `std::pair`. -/
  | two (c : Nat) (k v : CType)
  | tup1 (t : CType)
deriving DecidableEq

/-- `IsPtr() || IsCollection()`. -/
def nested (d : DType) : Bool := isPtr d || isCollection d

/-- The type identifier used for a component: the placeholder for nested types. -/
def baseId (d : DType) : Nat := if nested d then DATA_COMPLEX_OBJECT else d.t0

/-- The element vector after the calls of `SetElement` for two components, lines 399–404, 446–451, `dtype.cc` 140–148. -/
def twoElems (k v : DType) : List (Option DType) :=
  if nested v then [if nested k then some k else none, some v]
  else if nested k then [some k] else []

/-- `get_dtype`. -/
def getDType : CType → DType
  | .prim id => ofTypes id 0
  | .ptr t =>
    let v := getDType t
    if isPtr v then .mk 0 1 DATA_COMPLEX_OBJECT 0 0 [some v] else toPtr v
  | .coll c t =>
    let v := getDType t
    if nested v then .mk (c % 2 ^ 6) 0 DATA_COMPLEX_OBJECT 0 0 [some v] else toCollection c v
  | .arr t n => toArray n (getDType t)
  | .two c k v => .mk (c % 2 ^ 6) 0 (baseId (getDType k)) (baseId (getDType v)) 0 (twoElems (getDType k) (getDType v))
  | .tup1 t => .mk COLLECTION_TUPLE 0 (baseId (getDType t)) 0 0 (if nested (getDType t) then [some (getDType t)] else [])

/-- Types `get_dtype` is meant for: identifiers in range (fewer than about sixteen thousand registered classes), the containers above, and arrays of types with identifiers. -/
def WF : CType → Prop
  | .prim id => 0 < id ∧ id < DATA_COMPLEX_OBJECT
  | .ptr t => WF t
  | .coll c t => (c = COLLECTION_VECTOR ∨ c = COLLECTION_SET ∨ c = COLLECTION_UNORDERED_SET ∨ c = COLLECTION_ABSL_SPAN ∨ c = COLLECTION_SIMD_VECTOR) ∧ WF t
  | .arr t n => (∃ id, t = .prim id) ∧ WF t ∧ n < 2 ^ 29
  | .two c k v => (c = COLLECTION_MAP ∨ c = COLLECTION_UNORDERED_MAP ∨ c = COLLECTION_TUPLE) ∧ WF k ∧ WF v
  | .tup1 t => WF t

/-! ## Lemmas -/

theorem prim_shape (id : Nat) (h : WF (.prim id)) : getDType (.prim id) = .mk 0 0 id 0 0 [] := by
  simp only [WF, DATA_COMPLEX_OBJECT] at h
  simp only [getDType, ofTypes]
  rw [Nat.mod_eq_of_lt (by omega)]

theorem ptr_fields (t : CType) (h : WF (.ptr t)) : (getDType (.ptr t)).ptr = 1 := by
  simp only [getDType]
  split
  · rfl
  · cases getDType t; rfl

/-- A type that is not a pointer has no pointer bit. -/
theorem nonptr_fields (t : CType) (h : WF t) (hn : ∀ u, t ≠ .ptr u) : (getDType t).ptr = 0 := by
  cases t with
  | prim id => rw [prim_shape id h]; rfl
  | ptr u => exact absurd rfl (hn u)
  | coll c u =>
    simp only [getDType]
    split
    · rfl
    · rename_i hnest
      simp only [nested, isPtr, Bool.or_eq_true, not_or, beq_iff_eq] at hnest
      have hp : (getDType u).ptr = 0 := by
        cases u with
        | prim id => rw [prim_shape id h.2]; rfl
        | ptr w => exact absurd (ptr_fields w h.2) hnest.1
        | coll c w =>
          exfalso; apply hnest.2
          have hc := h.2.1
          simp only [getDType]
          split
          · rcases hc with h | h | h | h | h <;> subst h <;> rfl
          · cases getDType w; rcases hc with h | h | h | h | h <;> subst h <;> rfl
        | arr w n => exfalso; apply hnest.2; simp only [getDType]; cases getDType w; rfl
        | two c k v =>
          exfalso; apply hnest.2
          have hc := h.2.1
          rcases hc with h | h | h <;> subst h <;> rfl
        | tup1 w => exfalso; apply hnest.2; rfl
      cases hu : getDType u
      rw [hu] at hp
      exact hp
  | arr u n =>
    obtain ⟨id, rfl⟩ := h.1
    simp only [getDType]
    rw [show ofTypes id 0 = getDType (.prim id) from rfl, prim_shape id h.2.1]
    rfl
  | two c k v => rfl
  | tup1 u => rfl

/-- The container of a collection type. -/
def containerOf : CType → Nat
  | .prim _ => 0
  | .ptr _ => 0
  | .coll c _ => c
  | .arr _ _ => COLLECTION_ARRAY
  | .two c _ _ => c
  | .tup1 _ => COLLECTION_TUPLE

theorem nonptr_container (t : CType) (h : WF t) (hn : ∀ u, t ≠ .ptr u) : (getDType t).container = containerOf t := by
  cases t with
  | prim id => rw [prim_shape id h]; rfl
  | ptr u => exact absurd rfl (hn u)
  | coll c u =>
    have hc : c % 2 ^ 6 = c := by rcases h.1 with h | h | h | h | h <;> subst h <;> rfl
    simp only [getDType, containerOf]
    split
    · exact hc
    · cases getDType u; exact hc
  | arr u n => simp only [getDType]; cases getDType u; rfl
  | two c k v =>
    have hc : c % 2 ^ 6 = c := by rcases h.1 with h | h | h <;> subst h <;> rfl
    exact hc
  | tup1 u => rfl

theorem container_pos (t : CType) (h : WF t) (hn : ∀ u, t ≠ .ptr u) (hp : ∀ id, t ≠ .prim id) : containerOf t ≠ 0 := by
  cases t with
  | prim id => exact absurd rfl (hp id)
  | ptr u => exact absurd rfl (hn u)
  | coll c u => rcases h.1 with h | h | h | h | h <;> subst h <;> (simp only [containerOf]; decide)
  | arr u n => simp only [containerOf]; decide
  | two c k v => rcases h.1 with h | h | h <;> subst h <;> (simp only [containerOf]; decide)
  | tup1 u => simp only [containerOf]; decide

/-- Only types with an identifier of their own are not nested. -/
theorem nested_iff (t : CType) (h : WF t) : nested (getDType t) = false ↔ ∃ id, t = .prim id := by
  constructor
  · intro hn
    simp only [nested, Bool.or_eq_false_iff, isPtr, isCollection, bne_eq_false_iff_eq, beq_eq_false_iff_ne, ne_eq] at hn
    by_cases hp : ∃ id, t = .prim id
    · exact hp
    · exfalso
      by_cases hq : ∃ u, t = .ptr u
      · obtain ⟨u, rfl⟩ := hq
        exact hn.1 (ptr_fields u h)
      · have hq' : ∀ u, t ≠ .ptr u := fun u e => hq ⟨u, e⟩
        exact container_pos t h hq' (fun id e => hp ⟨id, e⟩) (by rw [← nonptr_container t h hq']; exact hn.2)
  · rintro ⟨id, rfl⟩
    rw [prim_shape id h]
    rfl

theorem nested_true_iff (t : CType) (h : WF t) : nested (getDType t) = true ↔ ∀ id, t ≠ .prim id := by
  have := nested_iff t h
  constructor
  · intro hn id e
    have := this.2 ⟨id, e⟩
    rw [hn] at this; cases this
  · intro hn
    cases hb : nested (getDType t)
    · obtain ⟨id, e⟩ := this.1 hb; exact absurd e (hn id)
    · rfl

/-- A component is determined by its identifier and its entry in the element vector. -/
theorem component_inj (s t : CType) (hs : WF s) (ht : WF t) (hb : baseId (getDType s) = baseId (getDType t)) :
    nested (getDType s) = nested (getDType t) ∧ (nested (getDType s) = false → getDType s = getDType t) := by
  cases h1 : nested (getDType s) <;> cases h2 : nested (getDType t)
  · refine ⟨rfl, fun _ => ?_⟩
    obtain ⟨i, rfl⟩ := (nested_iff s hs).1 h1
    obtain ⟨j, rfl⟩ := (nested_iff t ht).1 h2
    rw [baseId, baseId, h1, h2] at hb
    rw [prim_shape i hs, prim_shape j ht] at hb ⊢
    simp only [Bool.false_eq_true, if_false, DType.t0] at hb
    rw [hb]
  · exfalso
    obtain ⟨i, rfl⟩ := (nested_iff s hs).1 h1
    rw [baseId, baseId, h1, h2, prim_shape i hs] at hb
    simp only [WF] at hs
    simp only [Bool.false_eq_true, if_false, if_true, DType.t0] at hb
    omega
  · exfalso
    obtain ⟨i, rfl⟩ := (nested_iff t ht).1 h2
    rw [baseId, baseId, h1, h2, prim_shape i ht] at hb
    simp only [WF] at ht
    simp only [Bool.false_eq_true, if_false, if_true, DType.t0] at hb
    omega
  · exact ⟨rfl, by simp⟩

theorem toPtr_inj {d e : DType} (hd : d.ptr = 0) (he : e.ptr = 0) (h : toPtr d = toPtr e) : d = e := by
  cases d; cases e
  simp only [DType.ptr] at hd he
  subst hd; subst he
  simp only [toPtr, DType.mk.injEq, true_and] at h
  simp [h]

theorem isPtr_iff (t : CType) (h : WF t) : isPtr (getDType t) = true ↔ ∃ u, t = .ptr u := by
  constructor
  · intro hp
    by_cases hq : ∃ u, t = .ptr u
    · exact hq
    · have := nonptr_fields t h (fun u e => hq ⟨u, e⟩)
      simp [isPtr, this] at hp
  · rintro ⟨u, rfl⟩
    simp [isPtr, ptr_fields u h]

/-- A non-pointer type with no container and the placeholder as identifier does not exist. -/
theorem no_bare_placeholder (t : CType) (h : WF t) (hn : ∀ u, t ≠ .ptr u) (hc : (getDType t).container = 0) (h0 : (getDType t).t0 = DATA_COMPLEX_OBJECT) : False := by
  by_cases hp : ∃ id, t = .prim id
  · obtain ⟨id, rfl⟩ := hp
    rw [prim_shape id h] at h0
    simp only [DType.t0] at h0
    simp only [WF] at h
    omega
  · exact container_pos t h hn (fun id e => hp ⟨id, e⟩) (by rw [← nonptr_container t h hn]; exact hc)

/-- Types with equal descriptors agree on being a pointer and on the container. -/
theorem same_kind (s t : CType) (hs : WF s) (ht : WF t) (h : getDType s = getDType t) :
    ((∃ u, s = .ptr u) ↔ (∃ u, t = .ptr u)) ∧ ((∀ u, s ≠ .ptr u) → containerOf s = containerOf t) := by
  have h1 : (∃ u, s = .ptr u) ↔ (∃ u, t = .ptr u) := by rw [← isPtr_iff s hs, ← isPtr_iff t ht, h]
  refine ⟨h1, fun hn => ?_⟩
  have hn' : ∀ u, t ≠ .ptr u := fun u e => by
    obtain ⟨w, hw⟩ := h1.2 ⟨u, e⟩
    exact hn w hw
  rw [← nonptr_container s hs hn, ← nonptr_container t ht hn', h]

theorem coll_ids (c : Nat) (t : CType) (h : WF (.coll c t)) : c = 2 ∨ c = 4 ∨ c = 6 ∨ c = 7 ∨ c = 9 := h.1
theorem two_ids (c : Nat) (k v : CType) (h : WF (.two c k v)) : c = 3 ∨ c = 5 ∨ c = 8 := h.1

/-- The second component of a pair type is never the empty identifier. -/
theorem baseId_pos (t : CType) (h : WF t) : baseId (getDType t) ≠ 0 := by
  unfold baseId
  cases hn : nested (getDType t)
  · obtain ⟨id, rfl⟩ := (nested_iff t h).1 hn
    rw [prim_shape id h]
    simp only [WF] at h
    simp only [Bool.false_eq_true, if_false, DType.t0]
    omega
  · simp only [if_true]; decide

/-! ## C72 -/

/-- **C72.** Different types have different descriptors. -/
theorem get_dtype_injective : ∀ (s t : CType), WF s → WF t → getDType s = getDType t → s = t := by
  intro s
  induction s with
  | prim id =>
    intro t hs ht h
    have hk := same_kind _ t hs ht h
    cases t with
    | prim id' =>
      rw [prim_shape id hs, prim_shape id' ht] at h
      injection h with _ _ h
      rw [h]
    | ptr u => obtain ⟨w, hw⟩ := hk.1.2 ⟨u, rfl⟩; cases hw
    | coll c u => have := hk.2 (by simp); have := coll_ids c u ht; simp only [containerOf] at *; omega
    | arr u n => have := hk.2 (by simp); simp [containerOf, COLLECTION_ARRAY] at this
    | two c k v => have := hk.2 (by simp); have := two_ids c k v ht; simp only [containerOf] at *; omega
    | tup1 u => have := hk.2 (by simp); simp [containerOf, COLLECTION_TUPLE] at this
  | ptr s' ih =>
    intro t hs ht h
    have hk := same_kind _ t hs ht h
    obtain ⟨t', rfl⟩ := hk.1.1 ⟨s', rfl⟩
    congr 1
    apply ih t' hs ht
    simp only [getDType] at h
    by_cases p1 : isPtr (getDType s') = true <;> by_cases p2 : isPtr (getDType t') = true
    · rw [if_pos p1, if_pos p2] at h
      simpa using h
    · exfalso
      rw [if_pos p1, if_neg p2] at h
      have hn : ∀ u, t' ≠ .ptr u := fun u e => p2 ((isPtr_iff t' ht).2 ⟨u, e⟩)
      apply no_bare_placeholder t' ht hn
      · cases hd : getDType t'; rw [hd] at h; simp only [toPtr, DType.mk.injEq] at h; simp only [DType.container]; omega
      · cases hd : getDType t'; rw [hd] at h; simp only [toPtr, DType.mk.injEq] at h; simp only [DType.t0]; omega
    · exfalso
      rw [if_neg p1, if_pos p2] at h
      have hn : ∀ u, s' ≠ .ptr u := fun u e => p1 ((isPtr_iff s' hs).2 ⟨u, e⟩)
      apply no_bare_placeholder s' hs hn
      · cases hd : getDType s'; rw [hd] at h; simp only [toPtr, DType.mk.injEq] at h; simp only [DType.container]; omega
      · cases hd : getDType s'; rw [hd] at h; simp only [toPtr, DType.mk.injEq] at h; simp only [DType.t0]; omega
    · rw [if_neg p1, if_neg p2] at h
      exact toPtr_inj (nonptr_fields s' hs (fun u e => p1 ((isPtr_iff s' hs).2 ⟨u, e⟩)))
        (nonptr_fields t' ht (fun u e => p2 ((isPtr_iff t' ht).2 ⟨u, e⟩))) h
  | coll c s' ih =>
    intro t hs ht h
    have hk := same_kind _ t hs ht h
    have hc := coll_ids c s' hs
    cases t with
    | prim id' => have := hk.2 (by simp); simp only [containerOf] at *; omega
    | ptr u => obtain ⟨w, hw⟩ := hk.1.2 ⟨u, rfl⟩; cases hw
    | coll c' t' =>
      have hcc : c = c' := hk.2 (by simp)
      subst hcc
      congr 1
      apply ih t' hs.2 ht.2
      simp only [getDType] at h
      cases n1 : nested (getDType s') <;> cases n2 : nested (getDType t') <;> rw [n1, n2] at h <;> simp only [if_true, Bool.false_eq_true, if_false] at h
      · obtain ⟨i, rfl⟩ := (nested_iff s' hs.2).1 n1
        obtain ⟨j, rfl⟩ := (nested_iff t' ht.2).1 n2
        rw [prim_shape i hs.2, prim_shape j ht.2] at h ⊢
        simp only [toCollection, DType.mk.injEq, true_and, and_true] at h
        rw [h]
      · obtain ⟨i, rfl⟩ := (nested_iff s' hs.2).1 n1
        rw [prim_shape i hs.2] at h
        simp [toCollection] at h
      · obtain ⟨j, rfl⟩ := (nested_iff t' ht.2).1 n2
        rw [prim_shape j ht.2] at h
        simp [toCollection] at h
      · simpa using h
    | arr u n => have := hk.2 (by simp); simp only [containerOf, COLLECTION_ARRAY] at this; omega
    | two c' k v => have := hk.2 (by simp); have := two_ids c' k v ht; simp only [containerOf] at *; omega
    | tup1 u => have := hk.2 (by simp); simp only [containerOf, COLLECTION_TUPLE] at this; omega
  | arr s' n _ =>
    intro t hs ht h
    have hk := same_kind _ t hs ht h
    cases t with
    | prim id' => have := hk.2 (by simp); simp [containerOf, COLLECTION_ARRAY] at this
    | ptr u => obtain ⟨w, hw⟩ := hk.1.2 ⟨u, rfl⟩; cases hw
    | coll c u => have := hk.2 (by simp); have := coll_ids c u ht; simp only [containerOf, COLLECTION_ARRAY] at *; omega
    | arr t' m =>
      simp only [WF] at hs ht
      obtain ⟨⟨i, rfl⟩, w1, hn⟩ := hs
      obtain ⟨⟨j, rfl⟩, w2, hm⟩ := ht
      have e1 := prim_shape i w1
      have e2 := prim_shape j w2
      simp only [getDType] at h e1 e2
      rw [e1, e2] at h
      simp only [toArray, DType.mk.injEq, true_and, and_true] at h
      rw [Nat.mod_eq_of_lt hn, Nat.mod_eq_of_lt hm] at h
      rw [h.1, h.2]
    | two c k v => have := hk.2 (by simp); have := two_ids c k v ht; simp only [containerOf, COLLECTION_ARRAY] at *; omega
    | tup1 u => have := hk.2 (by simp); simp [containerOf, COLLECTION_TUPLE, COLLECTION_ARRAY] at this
  | two c k v ihk ihv =>
    intro t hs ht h
    have hk := same_kind _ t hs ht h
    have hc := two_ids c k v hs
    cases t with
    | prim id' => have := hk.2 (by simp); simp only [containerOf] at *; omega
    | ptr u => obtain ⟨w, hw⟩ := hk.1.2 ⟨u, rfl⟩; cases hw
    | coll c' u => have := hk.2 (by simp); have := coll_ids c' u ht; simp only [containerOf] at *; omega
    | arr u n => have := hk.2 (by simp); simp only [containerOf, COLLECTION_ARRAY] at this; omega
    | two c' k' v' =>
      have hcc : c = c' := hk.2 (by simp)
      subst hcc
      simp only [getDType, DType.mk.injEq, true_and] at h
      obtain ⟨h1, h2, h3⟩ := h
      obtain ⟨nk, sk⟩ := component_inj k k' hs.2.1 ht.2.1 h1
      obtain ⟨nv, sv⟩ := component_inj v v' hs.2.2 ht.2.2 h2
      have hkk : getDType k = getDType k' := by
        cases n1 : nested (getDType k)
        · exact sk n1
        · unfold twoElems at h3
          rw [n1] at nk
          rw [n1, ← nk, ← nv] at h3
          cases n2 : nested (getDType v) <;> rw [n2] at h3 <;> simp at h3
          · exact h3
          · exact h3.1
      have hvv : getDType v = getDType v' := by
        cases n1 : nested (getDType v)
        · exact sv n1
        · unfold twoElems at h3
          rw [n1] at nv
          rw [n1, ← nk, ← nv] at h3
          simp only [if_true, List.cons.injEq, Option.some.injEq, and_true] at h3
          exact h3.2
      rw [ihk k' hs.2.1 ht.2.1 hkk, ihv v' hs.2.2 ht.2.2 hvv]
    | tup1 u =>
      exfalso
      simp only [getDType, DType.mk.injEq] at h
      exact baseId_pos v hs.2.2 h.2.2.2.1
  | tup1 s' ih =>
    intro t hs ht h
    have hk := same_kind _ t hs ht h
    cases t with
    | prim id' => have := hk.2 (by simp); simp [containerOf, COLLECTION_TUPLE] at this
    | ptr u => obtain ⟨w, hw⟩ := hk.1.2 ⟨u, rfl⟩; cases hw
    | coll c u => have := hk.2 (by simp); have := coll_ids c u ht; simp only [containerOf, COLLECTION_TUPLE] at *; omega
    | arr u n => have := hk.2 (by simp); simp [containerOf, COLLECTION_TUPLE, COLLECTION_ARRAY] at this
    | two c k v =>
      exfalso
      simp only [getDType, DType.mk.injEq] at h
      exact baseId_pos v ht.2.2 h.2.2.2.1.symm
    | tup1 t' =>
      congr 1
      apply ih t' hs ht
      simp only [getDType, DType.mk.injEq, true_and] at h
      obtain ⟨n1, s1⟩ := component_inj s' t' hs ht h.1
      cases n2 : nested (getDType s')
      · exact s1 n2
      · rw [n2] at n1
        rw [n2, ← n1] at h
        simpa using h.2

/-- What remains true of C73: the element of a vector, set or span type is the descriptor of its element type; the key of a map type is that of its key type, the value
of a map type is right when it is nested, and otherwise at least names the right fundamental type. -/
theorem get_dtype_elem_partial (c : Nat) (t k v : CType) (ht : WF t) (hk : WF k) (hv : WF v) :
    (WF (.coll c t) → elemOf (getDType (.coll c t)) = getDType t) ∧
    (c = COLLECTION_MAP ∨ c = COLLECTION_UNORDERED_MAP →
      keyOf (getDType (.two c k v)) = getDType k ∧ (nested (getDType v) = true → elemOf (getDType (.two c k v)) = getDType v) ∧
      (nested (getDType v) = false → (elemOf (getDType (.two c k v))).t0 = (getDType v).t0 ∧ nested (elemOf (getDType (.two c k v))) = false)) := by
  constructor
  · intro hw
    have hids := coll_ids c t hw
    have hml : ∀ p a b n e, isMapLike (.mk (c % 2 ^ 6) p a b n e) = false := by
      intro p a b n e
      rcases hids with h | h | h | h | h <;> subst h <;> rfl
    simp only [getDType]
    cases n1 : nested (getDType t)
    · obtain ⟨i, rfl⟩ := (nested_iff t ht).1 n1
      rw [prim_shape i ht]
      simp only [Bool.false_eq_true, if_false, toCollection, elemOf, hml, DType.elems, DType.ptr, DType.t0, DType.t1, DType.arr]
    · simp only [if_true, elemOf, hml, Bool.false_eq_true, if_false, DType.elems]
  · intro hc
    have hml : ∀ p a b n e, isMapLike (.mk (c % 2 ^ 6) p a b n e) = true := by
      intro p a b n e
      rcases hc with h | h <;> subst h <;> rfl
    refine ⟨?_, ?_, ?_⟩
    · simp only [getDType, keyOf, hml, if_true, DType.elems, DType.t0, twoElems]
      cases n1 : nested (getDType k)
      · obtain ⟨i, rfl⟩ := (nested_iff k hk).1 n1
        rw [prim_shape i hk] at n1 ⊢
        cases n2 : nested (getDType v) <;> simp [baseId, n1, DType.t0]
      · cases n2 : nested (getDType v) <;> simp
    · intro n1
      simp only [getDType, elemOf, hml, if_true, DType.elems, twoElems, n1]
    · intro n1
      simp only [getDType, elemOf, hml, if_true, DType.elems, twoElems, n1, Bool.false_eq_true, if_false]
      have hb : baseId (getDType v) = (getDType v).t0 := by simp [baseId, n1]
      cases n2 : nested (getDType k) <;> simp [DType.t0, DType.t1, DType.ptr, nested, isPtr, isCollection, DType.container] <;> exact hb

/-- C73 is false of the code: the value type of a map to a fundamental type carries a leftover second identifier, so it is not equal to the descriptor of that type,
neither as a value nor under `==`. -/
theorem map_value_type_violated (c : Nat) (k : CType) (id : Nat) (hc : c = COLLECTION_MAP ∨ c = COLLECTION_UNORDERED_MAP) (hv : WF (.prim id)) (hid : id < 2 ^ 10) :
    elemOf (getDType (.two c k (.prim id))) ≠ getDType (.prim id) ∧ dtypeEq (elemOf (getDType (.two c k (.prim id)))) (getDType (.prim id)) = some false := by
  have hml : ∀ p a b n e, isMapLike (.mk (c % 2 ^ 6) p a b n e) = true := by
    intro p a b n e
    rcases hc with h | h <;> subst h <;> rfl
  have hpos : 0 < id := hv.1
  have hlt : id < DATA_COMPLEX_OBJECT := hv.2
  have hb : baseId (getDType (.prim id)) = id := by rw [prim_shape id hv]; rfl
  have hn : nested (getDType (.prim id)) = false := by rw [prim_shape id hv]; rfl
  have he : elemOf (getDType (.two c k (.prim id))) = .mk 0 0 id id 0 [] := by
    rw [getDType, hb]
    simp only [elemOf, hml, if_true, DType.elems, twoElems, hn, Bool.false_eq_true, if_false]
    cases n2 : nested (getDType k) <;> rfl
  have hne : elemOf (getDType (.two c k (.prim id))) ≠ getDType (.prim id) := by
    rw [he, prim_shape id hv]
    intro h
    injection h with _ _ _ h
    omega
  refine ⟨hne, ?_⟩
  rw [he, prim_shape id hv] at hne ⊢
  have hs1 : Small (.mk 0 0 id id 0 []) := by
    simp only [Small, SmallList]
    exact ⟨by decide, by decide, by omega, hid, trivial, by simp, trivial⟩
  have hs2 : Small (.mk 0 0 id 0 0 []) := by
    simp only [Small, SmallList]
    exact ⟨by decide, by decide, by omega, by decide, trivial, by simp, trivial⟩
  obtain ⟨r, r1, r2, _⟩ := cmp_law _ _ hs1 hs2
  simp only [dtypeEq, r1, Option.map_some, Option.some.injEq, beq_eq_false_iff_ne]
  intro h0
  exact hne (r2.1 h0)

example : elemOf (getDType (.two COLLECTION_MAP (.prim 18) (.prim 13))) = .mk 0 0 13 13 0 [] := rfl

/-- Arrays of arrays are outside the domain of C72, and there it fails: `std::array<std::array<int, 2>, 3>` and `std::array<int, 3>` get the same descriptor. -/
theorem get_dtype_nested_array_violated (t : CType) (n m : Nat) : getDType (.arr (.arr t n) m) = getDType (.arr t m) := by
  simp only [getDType]
  cases getDType t
  rfl

example : WF (.two COLLECTION_MAP (.prim 9) (.coll COLLECTION_VECTOR (.ptr (.prim 64)))) := by
  simp [WF, COLLECTION_MAP, COLLECTION_VECTOR, DATA_COMPLEX_OBJECT]

end Verif.Types.DT
