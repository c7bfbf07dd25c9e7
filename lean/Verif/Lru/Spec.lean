import Verif.Lru.Model
/-!
# Specification: a bounded list ordered by recency

Entries are `(key, value)` pairs, most recently used first. This file does not use the model's
state, only its operation and output types.
-/
namespace Verif.Lru.Spec
open Verif.Lru
variable {K V : Type} [DecidableEq K]

structure S (K V : Type) where
  entries : List (K × V)
  cap : Nat

def lookup (l : List (K × V)) (k : K) : Option V := (l.find? (fun e => e.1 = k)).map (·.2)
def remove (l : List (K × V)) (k : K) : List (K × V) := l.filter (fun e => e.1 ≠ k)

def step (s : S K V) : Op K V → S K V × Out V
  | .size => (s, .nat s.entries.length)
  | .empty => (s, .bool s.entries.isEmpty)
  | .contains k => (s, .bool (lookup s.entries k).isSome)
  | .insert k v =>
    -- a present key: nothing changes
    if (lookup s.entries k).isSome then (s, .unit)
    -- full: exactly the least recently used (last) entry goes
    else if s.entries.length ≥ s.cap then ({ s with entries := (k, v) :: s.entries.dropLast }, .unit)
    else ({ s with entries := (k, v) :: s.entries }, .unit)
  | .erase k => ({ s with entries := remove s.entries k }, .unit)
  | .get k =>
    match lookup s.entries k with
    | none => (s, .val none)
    | some v => ({ s with entries := (k, v) :: remove s.entries k }, .val (some v))
  | .clear => ({ s with entries := [] }, .unit)
  | .resetCapacity n => ({ s with cap := n }, .unit)

def run (s : S K V) : List (Op K V) → S K V × List (Out V)
  | [] => (s, [])
  | o :: os =>
    let (s', r) := step s o
    let (s'', rs) := run s' os
    (s'', r :: rs)

end Verif.Lru.Spec
