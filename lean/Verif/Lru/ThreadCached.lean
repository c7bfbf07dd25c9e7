import Verif.Lru.Model
/-!
# Model of `ThreadCachedLRU` (`/repo/rapidudf/common/lru_cache.h` 131-167)

`boost::thread_specific_ptr` is a map from threads to owned caches. Calls of different threads
interleave call by call (each touches only its own thread's slot).
-/
namespace Verif.Lru
variable {K V : Type} [DecidableEq K]

abbrev Tid := Nat

/-- lines 165-166 -/
structure TC (K V : Type) where
  slots : Tid → Option (Lru K V)
  cap : Nat

def TC.init (cap : Nat) : TC K V := { slots := fun _ => none, cap := cap }

/-- lines 157-164 `GetLRU`: creates the thread's cache on first use. -/
def TC.getLRU (s : TC K V) (t : Tid) : Lru K V :=
  match s.slots t with
  | some l => l
  | none => Lru.init s.cap

def TC.put (s : TC K V) (t : Tid) (l : Lru K V) : TC K V :=
  { s with slots := fun u => if u = t then some l else s.slots u }

/-- lines 140-154. `getOrInsert k v` is the call `GetOrInsert(k, f)` where `f` would return `v`. -/
inductive TOp (K V : Type) where
  | contains (k : K)
  | insert (k : K) (v : V)
  | get (k : K)
  | erase (k : K)
  | getOrInsert (k : K) (v : V)

/-- Output of a call; `computed v` means `GetOrInsert` called the function. -/
inductive TOut (V : Type) where
  | lru (o : Out V)
  | cached (v : V)
  | computed (v : V)
  | ub
deriving DecidableEq

def tstep1 (l : Lru K V) : TOp K V → Lru K V × TOut V
  | .contains k => let (l', o) := step l (.contains k); (l', .lru o)
  | .insert k v => let (l', o) := step l (.insert k v); (l', .lru o)
  | .get k => let (l', o) := step l (.get k); (l', .lru o)
  | .erase k => let (l', o) := step l (.erase k); (l', .lru o)
  | .getOrInsert k v =>                                   -- lines 146-154
    match get l k with
    | (l', some x) => (l', .cached x)
    | (l', none) =>
      match insert l' k v with
      | none => (l', .ub)
      | some l'' => (l'', .computed v)

def TC.step (s : TC K V) (t : Tid) (o : TOp K V) : TC K V × TOut V :=
  let (l, r) := tstep1 (s.getLRU t) o
  (s.put t l, r)

def TC.run (s : TC K V) : List (Tid × TOp K V) → TC K V × List (Tid × TOut V)
  | [] => (s, [])
  | (t, o) :: os =>
    let (s', r) := s.step t o
    let (s'', rs) := TC.run s' os
    (s'', (t, r) :: rs)

/-- The same operations on a single private cache. -/
def run1 (l : Lru K V) : List (TOp K V) → Lru K V × List (TOut V)
  | [] => (l, [])
  | o :: os =>
    let (l', r) := tstep1 l o
    let (l'', rs) := run1 l' os
    (l'', r :: rs)

end Verif.Lru
