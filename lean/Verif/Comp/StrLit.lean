import Verif.Ast.Sound
import Verif.Types.StringView
/-!
# String literals: C137

From the text of a string literal to the sixteen bytes of the `StringView` in compiled code: `ReadString`, `/repo/rapidudf/ast/lexer.cc` 139–160 (in `Verif.Ast.Lexer`), `parse_operand`,
`/repo/rapidudf/ast/grammar.cc` 158–231 (in `Verif.Ast.Parser`), `CodeGen::NewStringView`, `/repo/rapidudf/compiler/codegen_value.cc` 86–148.
-/
namespace Verif.Comp.StrLit
open Verif.Ast Verif.Types.Str

/-! ## Specification -/

/-- The characters of a source are bytes. -/
def bytes (s : List Char) : List Byte := s.map fun c => BitVec.ofNat 8 c.toNat

/-- What a character stands for after a backslash: a line end, a tabulator, a carriage return, a zero, or itself. -/
def escaped (c : Char) : Char := if c = 'n' then '\n' else if c = 't' then '\t' else if c = 'r' then '\r' else if c = '0' then '\x00' else c

/-- The characters a literal stands for, from those between its quotes. -/
def unescape : List Char → List Char
  | [] => []
  | [c] => [c]
  | c :: d :: r => if c = '\\' then escaped d :: unescape r else c :: unescape (d :: r)

/-- The text of a string literal with `s` between the quotes. -/
def ReadsStr (cfg : Cfg) (src s : List Char) : Prop := ∃ rest, parseExpression cfg src = .ok (.un none (.str s)) rest

/-- A view of the bytes `b`: it has their number as size, equals exactly the views of `b`, and is ordered like `b`. (`SV.mk'` is the constructor of `StringView`, see C14 and C15.) -/
def IsView (v : SV) (b : List Byte) : Prop :=
  v.size.toNat = b.length ∧ ∀ junk c, c.length < 2 ^ 31 → v.eq (SV.mk' junk c) = some (decide (b = c)) ∧ ∀ op, cmpOp op v (SV.mk' junk c) = some (op.holds (lexCmp b c))

/-! ## Model -/

/-- The bytes of a number, least significant first: what is in memory after it was stored. -/
def leBytes : Nat → Nat → List Byte
  | 0, _ => []
  | k + 1, x => BitVec.ofNat 8 x :: leBytes k (x / 256)

/-- The number made of bytes, least significant first: what `memcpy` into an integer gives. -/
def leNum : List Byte → Nat
  | [] => 0
  | b :: r => b.toNat + 256 * leNum r

/-- The second eight bytes of a view: a number, or the address of a global of the module. -/
inductive Word where
  | num (x : BitVec 64)
  | addr (g : Nat)

/-- What the compiler keeps while it compiles a module: the globals `.rudf_str`, and `string_globals_`, a map from contents to globals. -/
structure Globals where
  mod : List (List Byte)
  known : List (List Byte × Nat)

/-- The words of a view that was built by the compiler: `memcpy(words, &view, sizeof(view))`, codegen_value.cc 108–109. -/
def words (v : SV) : Option (BitVec 64 × BitVec 64) :=
  match v.val with
  | .inlined b => some (BitVec.ofNat 64 (v.size.toNat + 2 ^ 32 * leNum v.pre), BitVec.ofNat 64 (leNum b))
  | .ptr _ => none

/-- The global with the contents, codegen_value.cc 116–126. -/
def globalFor (v : List Byte) (g : Globals) : Nat × Globals :=
  match g.known.lookup v with
  | some i => (i, g)
  | none => (g.mod.length, ⟨g.mod ++ [v], (v, g.mod.length) :: g.known⟩)

/-- `NewStringView`, codegen_value.cc 86–148: the two words stored at run time. A short string is built by the compiler (`junk`: what is in the union of the compiler's view of an empty
string, which is not initialised) and stored as a number of 128 bits; for a long one the first word is put together by shifts. -/
def newStringView (junk : BitVec 64) (v : List Byte) (g : Globals) : Option ((BitVec 64 × Word) × Globals) :=
  if isInline (BitVec.ofNat 32 v.length) = true then
    (words (SV.mk' (.inlined (leBytes 8 junk.toNat)) v)).map fun w =>
      let bits : BitVec 128 := w.2 ++ w.1
      ((bits.setWidth 64, .num ((bits >>> 64).setWidth 64)), g)
  else
    let low : BitVec 64 := (BitVec.ofNat 32 v.length).setWidth 64
    let prefixBits : BitVec 64 := BitVec.ofNat 64 (leNum (v.take 4))
    let r := globalFor v g
    some ((low ||| prefixBits <<< 32, .addr r.1), r.2)

/-- The view in memory, as the code that uses it reads it: size, prefix, union. -/
def load (g : Globals) (w : BitVec 64 × Word) : Option SV :=
  match w.2 with
  | .num x => some ⟨w.1.setWidth 32, leBytes 4 (w.1 >>> 32).toNat, .inlined (leBytes 8 x.toNat)⟩
  | .addr i => (g.mod[i]?).map fun b => ⟨w.1.setWidth 32, leBytes 4 (w.1 >>> 32).toNat, .ptr b⟩

/-- Compiling several literals one after the other. -/
def newStringViews (junk : List Byte → BitVec 64) : List (List Byte) → Globals → Option (List (BitVec 64 × Word) × Globals)
  | [], g => some ([], g)
  | v :: vs, g => (newStringView (junk v) v g).bind fun r => (newStringViews junk vs r.2).map fun q => (r.1 :: q.1, q.2)

/-! ## Lemmas -/

theorem leBytes_leNum (l : List Byte) : leBytes l.length (leNum l) = l := by
  induction l with
  | nil => rfl
  | cons b r ih =>
    have h1 : (b.toNat + 256 * leNum r) / 256 = leNum r := by have := b.isLt; omega
    have h2 : BitVec.ofNat 8 (b.toNat + 256 * leNum r) = b := by
      apply BitVec.eq_of_toNat_eq
      have := b.isLt
      simp only [BitVec.toNat_ofNat]
      omega
    simp only [List.length_cons, leNum, leBytes, h1, h2, ih]

theorem leNum_lt (l : List Byte) : leNum l < 256 ^ l.length := by
  induction l with
  | nil => simp [leNum]
  | cons b r ih =>
    have := b.isLt
    simp only [leNum, List.length_cons, Nat.pow_succ]
    omega

theorem leBytes_length (k x : Nat) : (leBytes k x).length = k := by
  induction k generalizing x with
  | zero => rfl
  | succ k ih => simp [leBytes, ih]

theorem low_word (s : BitVec 32) (p : Nat) (hp : p < 2 ^ 32) : (BitVec.ofNat 64 (s.toNat + 2 ^ 32 * p)).setWidth 32 = s ∧ (BitVec.ofNat 64 (s.toNat + 2 ^ 32 * p) >>> 32).toNat = p := by
  have hs := s.isLt
  constructor
  · apply BitVec.eq_of_toNat_eq
    simp only [BitVec.toNat_setWidth, BitVec.toNat_ofNat]
    omega
  · simp only [BitVec.toNat_ushiftRight, BitVec.toNat_ofNat, Nat.shiftRight_eq_div_pow]
    omega

theorem or_word (s : BitVec 32) (p : Nat) (hp : p < 2 ^ 32) : s.setWidth 64 ||| BitVec.ofNat 64 p <<< 32 = BitVec.ofNat 64 (s.toNat + 2 ^ 32 * p) := by
  have hs := s.isLt
  apply BitVec.eq_of_toNat_eq
  simp only [BitVec.toNat_or, BitVec.toNat_setWidth, BitVec.toNat_shiftLeft, BitVec.toNat_ofNat]
  rw [Nat.mod_eq_of_lt (by omega : s.toNat < 2 ^ 64), Nat.mod_eq_of_lt (by omega : p < 2 ^ 64), Nat.shiftLeft_eq, Nat.mod_eq_of_lt (by omega : p * 2 ^ 32 < 2 ^ 64),
    Nat.mod_eq_of_lt (by omega), Nat.or_comm, ← Nat.shiftLeft_eq, ← Nat.shiftLeft_add_eq_or_of_lt hs, Nat.shiftLeft_eq]
  omega

theorem halves (a b : BitVec 64) : (b ++ a : BitVec 128).setWidth 64 = a ∧ ((b ++ a : BitVec 128) >>> 64).setWidth 64 = b := by
  have ha := a.isLt
  have hb := b.isLt
  have h : (b ++ a : BitVec 128).toNat = b.toNat * 2 ^ 64 + a.toNat := by
    rw [BitVec.toNat_append, ← Nat.shiftLeft_add_eq_or_of_lt ha, Nat.shiftLeft_eq]
  constructor
  · apply BitVec.eq_of_toNat_eq
    rw [BitVec.toNat_setWidth, h]
    omega
  · apply BitVec.eq_of_toNat_eq
    rw [BitVec.toNat_setWidth, BitVec.toNat_ushiftRight, h, Nat.shiftRight_eq_div_pow]
    omega

/-- The map and the module agree. -/
def GOk (g : Globals) : Prop := ∀ v i, g.known.lookup v = some i → g.mod[i]? = some v

theorem global_ok (v : List Byte) (g : Globals) (h : GOk g) : GOk (globalFor v g).2 ∧ (globalFor v g).2.mod[(globalFor v g).1]? = some v ∧ g.mod <+: (globalFor v g).2.mod := by
  unfold globalFor
  cases hl : g.known.lookup v with
  | some i => exact ⟨h, h v i hl, List.prefix_refl _⟩
  | none =>
    refine ⟨?_, by simp, by simp⟩
    intro w i hw
    simp only [List.lookup_cons] at hw
    by_cases e : w = v
    · subst e; simp at hw; subst hw; simp
    · have hb : (w == v) = false := by simpa using e
      rw [hb] at hw
      have := h w i hw
      rw [List.getElem?_append_left (List.getElem?_eq_some_iff.1 this).1]
      exact this

theorem new_ok (junk : BitVec 64) (v : List Byte) (hv : v.length < 2 ^ 32) (g : Globals) (h : GOk g) : ∃ w g', newStringView junk v g = some (w, g') ∧ GOk g' ∧ g.mod <+: g'.mod ∧
    ∀ g'', g'.mod <+: g''.mod → load g'' w = some (SV.mk' (.inlined (leBytes 8 junk.toNat)) v) := by
  have hsz : (BitVec.ofNat 32 v.length).toNat = v.length := by rw [BitVec.toNat_ofNat, Nat.mod_eq_of_lt hv]
  unfold newStringView
  by_cases hi : isInline (BitVec.ofNat 32 v.length) = true
  · rw [if_pos hi]
    have hview : ∃ b, SV.mk' (.inlined (leBytes 8 junk.toNat)) v = ⟨BitVec.ofNat 32 v.length, pad 4 v, .inlined b⟩ ∧ b.length = 8 := by
      by_cases h0 : v = []
      · subst h0; exact ⟨_, rfl, leBytes_length _ _⟩
      · refine ⟨_, mk'_short _ v h0 (by simpa [isInline, hsz, kInlineSize] using hi), pad_length _ _⟩
    obtain ⟨b, e, hb⟩ := hview
    rw [e]
    have h4 : leNum (pad 4 v) < 2 ^ 32 := by have := leNum_lt (pad 4 v); rw [pad_length] at this; exact this
    have h8 : leNum b < 2 ^ 64 := by have := leNum_lt b; rw [hb] at this; exact this
    simp only [words, Option.map_some]
    refine ⟨_, g, rfl, h, List.prefix_refl _, fun g'' _ => ?_⟩
    simp only [load]
    rw [(halves _ _).1, (halves _ _).2, (low_word _ _ h4).1, (low_word _ _ h4).2, BitVec.toNat_ofNat, Nat.mod_eq_of_lt h8]
    have e4 := leBytes_leNum (pad 4 v)
    have e8 := leBytes_leNum b
    rw [pad_length] at e4
    rw [hb] at e8
    rw [e4, e8]
  · rw [if_neg hi]
    have hlen : 12 < v.length := by simpa [isInline, hsz, kInlineSize] using hi
    obtain ⟨h1, h2, h3⟩ := global_ok v g h
    refine ⟨_, _, rfl, h1, h3, fun g'' hg => ?_⟩
    have ht : (v.take 4).length = 4 := by rw [List.length_take]; omega
    have h4 : leNum (v.take 4) < 2 ^ 32 := by have := leNum_lt (v.take 4); rw [ht] at this; exact this
    have hg2 : g''.mod[(globalFor v g).1]? = some v := by
      obtain ⟨t, e⟩ := hg
      rw [← e, List.getElem?_append_left (List.getElem?_eq_some_iff.1 h2).1]
      exact h2
    simp only [load]
    rw [hg2, or_word _ _ h4, (low_word _ _ h4).1, (low_word _ _ h4).2]
    have e4 := leBytes_leNum (v.take 4)
    rw [ht] at e4
    rw [e4, mk'_long _ v hlen hv, pad_eq_take 4 v (by omega)]
    rfl

theorem all_ok (junk : List Byte → BitVec 64) (vs : List (List Byte)) : ∀ g, GOk g → (∀ v ∈ vs, v.length < 2 ^ 32) → ∃ ws g', newStringViews junk vs g = some (ws, g') ∧ g.mod <+: g'.mod ∧
    ∀ (i : Nat) (v : List Byte), vs[i]? = some v → ∃ w, ws[i]? = some w ∧ load g' w = some (SV.mk' (.inlined (leBytes 8 (junk v).toNat)) v) := by
  induction vs with
  | nil => intro g _ _; exact ⟨[], g, rfl, List.prefix_refl _, by simp⟩
  | cons v vs ih =>
    intro g hg hv
    obtain ⟨w, g1, h1, h2, h3, h4⟩ := new_ok (junk v) v (hv v (by simp)) g hg
    obtain ⟨ws, g', h5, h6, h7⟩ := ih g1 h2 fun u hu => hv u (by simp [hu])
    refine ⟨w :: ws, g', by rw [newStringViews, h1]; simp [h5], h3.trans h6, ?_⟩
    intro i u hu
    cases i with
    | zero => simp at hu; subst hu; exact ⟨w, by simp, h4 g' h6⟩
    | succ i => simp only [List.getElem?_cons_succ] at hu ⊢; exact h7 i u hu

theorem view_of (junk : Val) (b : List Byte) (hb : b.length < 2 ^ 31) : IsView (SV.mk' junk b) b := by
  refine ⟨size_toNat _ _ (by omega), fun j c hc => ⟨?_, fun op => ?_⟩⟩
  · exact string_view_eq_iff _ _ _ _ (by omega) (by omega)
  · exact string_ops_lex op junk j b c hb hc

theorem unescape_id (s : List Char) (h : '\\' ∉ s) : unescape s = s := by
  fun_induction unescape s with
  | case1 => rfl
  | case2 c => rfl
  | case3 c r ih => simp at h
  | case4 c d r hc ih => rw [ih (by simp at h ⊢; exact h.2)]

theorem unescape_length (s : List Char) : (unescape s).length ≤ s.length := by
  fun_induction unescape s with
  | case1 => simp
  | case2 c => simp
  | case3 c r ih => simp only [List.length_cons]; omega
  | case4 c d r hc ih => simp only [List.length_cons] at ih ⊢; omega

theorem unescape_shorter (s : List Char) (hs : StrBody s) (h : '\\' ∈ s) : (unescape s).length < s.length := by
  induction hs with
  | nil => simp at h
  | char c r h1 h2 hr ih =>
    have h3 : '\\' ∈ r := by
      rcases List.mem_cons.1 h with e | e
      · exact absurd e.symm h2
      · exact e
    cases r with
    | nil => simp at h3
    | cons d r =>
      rw [unescape, if_neg h2]
      simp only [List.length_cons] at ih ⊢
      have := ih h3
      omega
  | escape c r hr ih =>
    rw [unescape, if_pos rfl]
    have := unescape_length r
    simp only [List.length_cons]
    omega

theorem reads_body (cfg : Cfg) (src s : List Char) (h : ReadsStr cfg src s) : StrBody s := by
  obtain ⟨rest, h⟩ := h
  have := (parse_sound cfg src _ rest h).1
  rw [Expr.WF, Operand.WF] at this
  exact this

theorem view_size {v : SV} {a b : List Byte} (h : IsView v a) (h' : IsView v b) : a.length = b.length := by rw [← h.1, h'.1]

/-! ## The theorems -/

/-- **C137, what the code does.** All literals of a module, one after the other, are compiled; each becomes a view of the characters between its quotes, as they are written. -/
theorem literals_verbatim (cfg : Cfg) (junk : List Byte → BitVec 64) (lits : List (List Char × List Char)) (h : ∀ q ∈ lits, ReadsStr cfg q.1 q.2) (hl : ∀ q ∈ lits, q.2.length < 2 ^ 31) :
    ∃ ws g, newStringViews junk (lits.map fun q => bytes q.2) ⟨[], []⟩ = some (ws, g) ∧
      ∀ (i : Nat) q, lits[i]? = some q → ∃ w v, ws[i]? = some w ∧ load g w = some v ∧ IsView v (bytes q.2) := by
  obtain ⟨ws, g, h1, _, h2⟩ := all_ok junk (lits.map fun q => bytes q.2) ⟨[], []⟩ (by intro v i hv; simp at hv) (by
    intro v hv
    obtain ⟨q, hq, rfl⟩ := List.mem_map.1 hv
    have := hl q hq
    simp only [bytes, List.length_map]
    omega)
  refine ⟨ws, g, h1, fun i q hq => ?_⟩
  obtain ⟨w, h3, h4⟩ := h2 i (bytes q.2) (by rw [List.getElem?_map, hq]; rfl)
  exact ⟨w, _, h3, h4, view_of _ _ (by simpa [bytes] using hl q (List.mem_of_getElem? hq))⟩

/-- **C137, the part that holds.** A literal without backslash is the string between its quotes. -/
theorem literals_denote_partial (cfg : Cfg) (junk : List Byte → BitVec 64) (lits : List (List Char × List Char)) (h : ∀ q ∈ lits, ReadsStr cfg q.1 q.2) (hl : ∀ q ∈ lits, q.2.length < 2 ^ 31) :
    ∃ ws g, newStringViews junk (lits.map fun q => bytes q.2) ⟨[], []⟩ = some (ws, g) ∧
      ∀ (i : Nat) q, lits[i]? = some q → '\\' ∉ q.2 → ∃ w v, ws[i]? = some w ∧ load g w = some v ∧ IsView v (bytes (unescape q.2)) := by
  obtain ⟨ws, g, h1, h2⟩ := literals_verbatim cfg junk lits h hl
  refine ⟨ws, g, h1, fun i q hq hb => ?_⟩
  rw [unescape_id _ hb]
  exact h2 i q hq

/-- **C137.** Every string without quotes and backslashes has a literal. -/
theorem every_plain_string_has_literal (cfg : Cfg) (s : List Char) (h : ∀ c ∈ s, c ≠ '"' ∧ c ≠ '\\') : ReadsStr cfg ('"' :: (s ++ ['"', ' '])) s := by
  have hb : StrBody s := by
    induction s with
    | nil => exact .nil
    | cons c r ih => exact .char c r (h c (by simp)).1 (h c (by simp)).2 (ih fun d hd => h d (by simp [hd]))
  have := parse_print cfg (.un none (.str s)) (by rw [Expr.WF, Operand.WF]; exact hb)
  refine ⟨[], ?_⟩
  rw [← this]
  congr 1
  simp [Expr.print, Operand.print, writeTokens]

/-- **C137 does not hold.** A literal with a backslash never is the string it stands for: the backslash stays in it. -/
theorem escaped_literal_violated (cfg : Cfg) (junk : BitVec 64) (src s : List Char) (h : ReadsStr cfg src s) (hl : s.length < 2 ^ 31) (hb : '\\' ∈ s) :
    ∃ w g v, newStringView junk (bytes s) ⟨[], []⟩ = some (w, g) ∧ load g w = some v ∧ ¬IsView v (bytes (unescape s)) := by
  obtain ⟨w, g, h1, _, _, h2⟩ := new_ok junk (bytes s) (by simp only [bytes, List.length_map]; omega) ⟨[], []⟩ (by intro v i hv; simp at hv)
  refine ⟨w, g, _, h1, h2 g (List.prefix_refl _), fun hv => ?_⟩
  have := view_size (view_of (.inlined (leBytes 8 junk.toNat)) (bytes s) (by simpa [bytes] using hl)) hv
  have h3 := unescape_shorter s (reads_body cfg src s h) hb
  simp only [bytes, List.length_map] at this
  omega

/-- **C137 does not hold.** No literal is a string that begins with a quote. -/
theorem quote_violated (cfg : Cfg) (src s : List Char) (h : ReadsStr cfg src s) : s.head? ≠ some '"' := by
  cases reads_body cfg src s h with
  | nil => simp
  | char c r h1 h2 hr => simpa using h1
  | escape c r hr => simp

/-! ### Instances -/

def exCfg : Cfg := { isType := fun _ => false, inRange := fun _ => true }

example : ReadsStr exCfg "\"hello, world!\" ".toList "hello, world!".toList := every_plain_string_has_literal exCfg "hello, world!".toList (by decide)
example : ReadsStr exCfg "\"a\\\"b\" ".toList "a\\\"b".toList := by
  have := parse_print exCfg (.un none (.str "a\\\"b".toList)) (by rw [Expr.WF, Operand.WF]; exact .char _ _ (by decide) (by decide) (.escape _ _ (.char _ _ (by decide) (by decide) .nil)))
  exact ⟨[], this⟩
/-- A long and a short literal, and the long one again: one global. -/
example : (newStringViews (fun _ => 0#64) [bytes "hello, world!".toList, bytes "x".toList, bytes "hello, world!".toList] ⟨[], []⟩).map (·.2.mod.length) = some 1 := by decide +kernel

end Verif.Comp.StrLit
