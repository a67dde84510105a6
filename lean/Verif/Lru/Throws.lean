import Verif.Lru.Model
/-! `put` of `cache::lru` when copying, comparing or hashing keys and values, or allocating memory, throws
(lru.hpp:34-61).  What `Model` says about the three places that do not compile applies here too.

Containers are taken to give the guarantees of the standard: a `push_front` or an insertion of `operator[]` that throws
leaves the container as it was.  An assignment of a key or of a value that throws leaves its target as it was; the
assignment of a tuple goes from its first component to its last. -/
namespace Verif.Lru.Throws
open Verif

variable {K V : Type} [DecidableEq K]

/-- Where an exception may come from, in the order of `put`: hashing or comparing in `contains` (lru.hpp:40), copying or comparing in
`find_if` and its predicate (41-42), making `obj` (44, 57), copying it or allocating in `push_front` (46, 58), hashing, comparing,
copying the key or allocating in `map_[key]` (47, 59), assigning the key and assigning the value there. -/
inductive Point where
  | contains
  | find
  | obj
  | push
  | index
  | assignKey
  | assignValue
deriving DecidableEq

/-- How a call ends: it comes back as in `Model`, or with an exception of the user's or of the allocation. -/
inductive End where
  | out (o : Out Unit)
  | thrown
deriving DecidableEq

/-- What an exception at the point leaves of the map in `map_[key] = obj` (lru.hpp:47, 59): `operator[]` makes an element of default
values if there is none; the assignment may then stop after the key. -/
def cutMap [Inhabited K] [Inhabited V] (m : List (K × Item K V)) (k : K) : Point → List (K × Item K V)
  | .assignKey => setMap m k ((findMap m k).getD ⟨default, default, 0⟩)
  | .assignValue => setMap m k { (findMap m k).getD ⟨default, default, 0⟩ with key := k }
  | _ => m

/-- `put` of a key that is in the map and in the list (lru.hpp:44-47). -/
def renew [Inhabited K] [Inhabited V] (c : Cache K V) (k : K) (o : Item K V) : Point → Cache K V
  | .contains | .find | .obj => c
  | .push => { c with list := c.list.eraseP fun i => i.key = k }
  | p => ⟨o :: c.list.eraseP fun i => i.key = k, cutMap c.map k p⟩

/-- `put` of a key that is not in the map (lru.hpp:54-59); `l` is the list after `pop_back`, if it comes to that. -/
def insert [Inhabited K] [Inhabited V] (c : Cache K V) (l : List (Item K V)) (k : K) (v : V) (now : Int) : Point → Cache K V
  | .contains | .find => c
  | .obj | .push => { c with list := l }
  | p => ⟨⟨k, v, now⟩ :: l, cutMap c.map k p⟩

/-- `put` (lru.hpp:34-61) with an exception at the given point, if there is one there and the call comes to that point. -/
def put [Inhabited K] [Inhabited V] (size : Nat) (exc : Bool) (c : Cache K V) (k : K) (v : V) (now : Int) :
    Option Point → Res (Cache K V × End)
  | none => do
    let (c', o) ← Lru.put size exc c k v now
    .ok (c', .out o)
  | some p =>
    if p = .contains then .ok (c, .thrown)
    else if c.contains k then
      if p = .find then .ok (c, .thrown)
      else match c.list.find? fun i => i.key = k with
        | some o => .ok (renew c k o p, .thrown)
        | none => .ok (c, .out (if exc then .missed else .value ()))
    else if p = .find then do
      let (c', o) ← Lru.put size exc c k v now
      .ok (c', .out o)
    else if c.list.length ≥ size then
      if c.list = [] then .ub else .ok (insert c c.list.dropLast k v now p, .thrown)
    else .ok (insert c c.list k v now p, .thrown)

/-- A call of `put`. -/
structure Call (K V : Type) where
  key : K
  value : V
  now : Int
  at? : Option Point
deriving DecidableEq

/-- The caches that calls of `put` lead to, whatever they throw; the calls with how they ended, the last one first. -/
inductive Reach [Inhabited K] [Inhabited V] (size : Nat) (exc : Bool) : List (Call K V × End) → Cache K V → Prop
  | new : Reach size exc [] Cache.new
  | put (h : List (Call K V × End)) (c c' : Cache K V) (a : Call K V) (e : End) :
      Reach size exc h c → put size exc c a.key a.value a.now a.at? = .ok (c', e) → Reach size exc ((a, e) :: h) c'

end Verif.Lru.Throws
