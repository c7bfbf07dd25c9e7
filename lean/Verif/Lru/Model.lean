import Verif.Common.AMap
/-!
# Model of `lru_cache` (`/repo/rapidudf/common/lru_cache.h`)

The recency list is a list of nodes with identity, because the hash map stores list iterators
(`std::list` iterators stay valid until their node is erased). A node is `(id, key)`.
-/
namespace Verif.Lru
variable {K V : Type} [DecidableEq K]

/-- lru_cache.h 126-128: `m_map`, `m_list` (front first), `m_capacity`; `next` supplies fresh node
identities (not in the code, stands for the address of a new list node). -/
structure Lru (K V : Type) where
  map : AMap K (V × Nat)
  list : List (Nat × K)
  cap : Nat
  next : Nat

/-- Operations of the class: lru_cache.h 42, 46, 48, 50, 52, 67, 82, 112. -/
inductive Op (K V : Type) where
  | size
  | empty
  | contains (k : K)
  | insert (k : K) (v : V)
  | erase (k : K)
  | get (k : K)
  | clear
  | resetCapacity (n : Nat)

/-- What the caller observes. `ub` is undefined behaviour. -/
inductive Out (V : Type) where
  | unit
  | nat (n : Nat)
  | bool (b : Bool)
  | val (v : Option V)
  | ub
deriving DecidableEq

/-- lru_cache.h 38 (constructor) -/
def init (cap : Nat) : Lru K V := { map := [], list := [], cap := cap, next := 0 }

/-- `m_list.erase(j)`: drops the node with identity `j`. -/
def listErase (l : List (Nat × K)) (j : Nat) : List (Nat × K) := l.filter (fun p => p.1 ≠ j)

/-- lru_cache.h 118-123 `evict`: `--m_list.end()` on an empty list is undefined behaviour (`none`). -/
def evict (s : Lru K V) : Option (Lru K V) :=
  match s.list.getLast? with
  | none => none
  | some (i, k) => some { s with map := s.map.erase k, list := listErase s.list i }

/-- lru_cache.h 61-63: `push_front` and map store. -/
def pushFront (s : Lru K V) (k : K) (v : V) : Lru K V :=
  { s with
    list := (s.next, k) :: s.list
    map := s.map.set k (v, s.next)
    next := s.next + 1 }

/-- lru_cache.h 52-65 `insert` -/
def insert (s : Lru K V) (k : K) (v : V) : Option (Lru K V) :=
  match s.map.find k with
  | some _ => some s
  | none =>
    if s.map.length ≥ s.cap then
      match evict s with
      | none => none
      | some s' => some (pushFront s' k v)
    else some (pushFront s k v)

/-- lru_cache.h 67-80 `erase` -/
def erase (s : Lru K V) (k : K) : Lru K V :=
  match s.map.find k with
  | none => s
  | some (_, j) => { s with list := listErase s.list j, map := s.map.erase k }

/-- lru_cache.h 82-110 `get` -/
def get (s : Lru K V) (k : K) : Lru K V × Option V :=
  match s.map.find k with
  | none => (s, none)
  | some (v, j) =>
    if s.list.head?.map (·.1) = some j then (s, some v)
    else
      ({ s with
         list := (s.next, k) :: listErase s.list j
         map := s.map.set k (v, s.next)
         next := s.next + 1 }, some v)

/-- One call on the cache. After undefined behaviour the state is kept, the output is `ub`. -/
def step (s : Lru K V) : Op K V → Lru K V × Out V
  | .size => (s, .nat s.map.length)                     -- line 42
  | .empty => (s, .bool s.map.isEmpty)                  -- line 48
  | .contains k => (s, .bool (s.map.find k).isSome)     -- line 50
  | .insert k v =>
    match insert s k v with
    | none => (s, .ub)
    | some s' => (s', .unit)
  | .erase k => (erase s k, .unit)
  | .get k => let (s', r) := get s k; (s', .val r)
  | .clear => ({ s with map := [], list := [] }, .unit) -- lines 112-115
  | .resetCapacity n => ({ s with cap := n }, .unit)    -- line 46

/-- A history of calls and the outputs the caller sees. -/
def run (s : Lru K V) : List (Op K V) → Lru K V × List (Out V)
  | [] => (s, [])
  | o :: os =>
    let (s', r) := step s o
    let (s'', rs) := run s' os
    (s'', r :: rs)

end Verif.Lru
