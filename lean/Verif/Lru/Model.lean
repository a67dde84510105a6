import Verif.Basic
/-! `cache::lru`.  No member function of the class can be instantiated: `std::tuple` has no member
`get`, a tuple of three is bound to two names, and a number is compared with a `time_point`
(lru.hpp:41, 70, 71).  The model reads these three places as `std::get<0>(item)`, as a binding of all
three components and as a comparison of durations, and everything else as it is written. -/
namespace Verif.Lru
open Verif

variable {K V : Type} [DecidableEq K]

/-- `data_item` (lru.hpp:26). -/
structure Item (K V : Type) where
  key : K
  value : V
  time : Int
deriving DecidableEq

/-- The list and the map (lru.hpp:90-91).  The map is a list of pairs with different keys. -/
structure Cache (K V : Type) where
  list : List (Item K V)
  map : List (K × Item K V)
deriving DecidableEq

/-- A new cache (lru.hpp:32). -/
def Cache.new : Cache K V := ⟨[], []⟩

/-- `map_.contains(key)` (lru.hpp:40, 69). -/
def Cache.contains (c : Cache K V) (k : K) : Bool := c.map.any fun p => p.1 = k

/-- `map_[key] = obj` (lru.hpp:47, 59). -/
def setMap (m : List (K × Item K V)) (k : K) (o : Item K V) : List (K × Item K V) :=
  match m with
  | [] => [(k, o)]
  | p :: m => if p.1 = k then (k, o) :: m else p :: setMap m k o

/-- `map_.find(key)` (lru.hpp:70). -/
def findMap (m : List (K × Item K V)) (k : K) : Option (Item K V) := (m.find? fun p => p.1 = k).map (·.2)

/-- Return normally or with an exception (lru.hpp:50, 73). -/
inductive Out (α : Type) where
  | value (a : α)
  | missed
  | timeout
deriving DecidableEq

/-- `put` (lru.hpp:34-61).  `now` is the reading of the clock; `exc` is the parameter `Exception`. -/
def put (size : Nat) (exc : Bool) (c : Cache K V) (k : K) (v : V) (now : Int) : Res (Cache K V × Out Unit) :=
  if c.contains k then
    match c.list.find? fun i => i.key = k with
    | some obj =>
      .ok (⟨obj :: c.list.eraseP fun i => i.key = k, setMap c.map k obj⟩, .value ())
    | none => .ok (c, if exc then .missed else .value ())
  else if c.list.length ≥ size then
    if c.list = [] then .ub
    else .ok (⟨⟨k, v, now⟩ :: c.list.dropLast, setMap c.map k ⟨k, v, now⟩⟩, .value ())
  else .ok (⟨⟨k, v, now⟩ :: c.list, setMap c.map k ⟨k, v, now⟩⟩, .value ())

/-- `get` (lru.hpp:63-80).  A hit that has not expired runs off the end of a function that returns a
value. -/
def get (exc : Bool) (expiry : Int) (c : Cache K V) (k : K) (now : Int) : Res (Out (Option (Item K V))) :=
  match findMap c.map k with
  | some o =>
    if now - o.time ≥ expiry then .ok (if exc then .timeout else .value none) else .ub
  | none => .ok (.value none)

/-- The caches that calls of `put` lead to; `h` lists the keys of all these calls, the last one first. -/
inductive Reach (size : Nat) (exc : Bool) : List K → Cache K V → Prop
  | new : Reach size exc [] Cache.new
  | put (h : List K) (c c' : Cache K V) (k : K) (v : V) (now : Int) (o : Out Unit) :
      Reach size exc h c → put size exc c k v now = .ok (c', o) → Reach size exc (k :: h) c'

end Verif.Lru
