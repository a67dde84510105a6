import Verif.Basic
/-! `argv_parser`: the options, the registration and the parsing.  A string is a list of characters; the
fields of `Opts` are numbered, one family for each type. -/
namespace Verif.Argv
open Verif

/-- `std::string` (argv_parser.hpp:17) and `std::string_view` (argv_parser.hpp:36). -/
abbrev Str := List Char

/-- `std::isspace` in the "C" locale, which the streams use (argv_parser.hpp:78). -/
def isSpace (c : Char) : Bool :=
  c = ' ' || c = '\t' || c = '\n' || c = '\x0b' || c = '\x0c' || c = '\r'

/-- `stream >> string`: the first word; the string is left alone if there is none (argv_parser.hpp:76-78). -/
def readWord (s : Str) : Option Str :=
  let t := s.dropWhile isSpace
  if t = [] then none else some (t.takeWhile fun c => !isSpace c)

/-- Limit a number to the range of `int` (argv_parser.hpp:78). -/
def clamp (x : Int) : Int := if x < -2147483648 then -2147483648 else if x > 2147483647 then 2147483647 else x

/-- The digits at the beginning of a string, as a number; no digits give zero (argv_parser.hpp:78). -/
def digits (s : Str) : Nat := Nat.ofDigitChars 10 (s.takeWhile Char.isDigit) 0

/-- `stream >> int`: an optional sign and digits; zero if there are none, limited to the range of `int`;
the number is left alone if the stream is blank (argv_parser.hpp:76-78). -/
def readInt (s : Str) : Option Int :=
  match s.dropWhile isSpace with
  | [] => none
  | '-' :: t => some (clamp (-(digits t : Int)))
  | '+' :: t => some (clamp (digits t))
  | t => some (clamp (digits t))

/-- The fields of `Opts`; `D` are the values of type `double` (argv_parser.hpp:14-16). -/
structure Opts (D : Type) where
  str : Nat → Str
  int : Nat → Int
  dbl : Nat → D
  flag : Nat → Bool

/-- `parameter_type` (argv_parser.hpp:16). -/
inductive Param
  | str (i : Nat)
  | int (i : Nat)
  | dbl (i : Nat)
  | flag (i : Nat)
deriving DecidableEq

/-- `operator<` of `std::string` (the order of the map, argv_parser.hpp:54). -/
def lt : Str → Str → Bool
  | [], [] => false
  | [], _ :: _ => true
  | _ :: _, [] => false
  | a :: s, b :: t => if a.toNat < b.toNat then true else if b.toNat < a.toNat then false else lt s t

/-- `callbacks_`, in the order of the names (argv_parser.hpp:54). -/
abbrev Callbacks := List (Str × Param)

/-- `callbacks_[name] = …` (argv_parser.hpp:67). -/
def insert (m : Callbacks) (k : Str) (p : Param) : Callbacks :=
  match m with
  | [] => [(k, p)]
  | q :: m => if q.1 = k then (k, p) :: m else if lt k q.1 then (k, p) :: q :: m else q :: insert m k p

/-- `instance` (argv_parser.hpp:43-50, 58-67). -/
def register (regs : List (Str × Param)) : Callbacks := regs.foldl (fun m r => insert m r.1 r.2) []

/-- Replace one value of a function (no code). -/
def upd {β : Type} (f : Nat → β) (k : Nat) (v : β) : Nat → β := fun j => if j = k then v else f j

variable {D : Type} (readDouble : Str → Option D)

/-- `value >> this->*arg` (argv_parser.hpp:76-78).  Reading a `double` is a parameter of the model. -/
def store (o : Opts D) (p : Param) (t : Str) : Opts D :=
  match p with
  | .str i =>
    match readWord t with
    | some w => { o with str := upd o.str i w }
    | none => o
  | .int i =>
    match readInt t with
    | some w => { o with int := upd o.int i w }
    | none => o
  | .dbl i =>
    match readDouble t with
    | some w => { o with dbl := upd o.dbl i w }
    | none => o
  | .flag _ => o

/-- A callback (argv_parser.hpp:67-83); `argv[…]` is not checked. -/
def callback (r : Str × Param) (argv : List Str) (idx : Nat) (o : Opts D) : Res (Opts D) :=
  match argv[idx]? with
  | none => .ub
  | some a =>
    if a = r.1 then
      match r.2 with
      | .flag i => .ok { o with flag := upd o.flag i true }
      | p =>
        if (idx : Int) < (argv.length : Int) - 1 then
          match argv[idx + 1]? with
          | none => .ub
          | some t => .ok (store readDouble o p t)
        else .ok o
    else .ok o

/-- The inner loop (argv_parser.hpp:38-39). -/
def runAll (argv : List Str) (idx : Nat) : Callbacks → Opts D → Res (Opts D)
  | [], o => .ok o
  | r :: m, o => do
    let o' ← callback readDouble r argv idx o
    runAll argv idx m o'

/-- The outer loop, from `idx` with `n` rounds to go (argv_parser.hpp:37-39). -/
def loop (m : Callbacks) (argv : List Str) : Nat → Nat → Opts D → Res (Opts D)
  | _, 0, o => .ok o
  | idx, n + 1, o => do
    let o' ← runAll readDouble argv idx m o
    loop m argv (idx + 1) n o'

/-- `parse` (argv_parser.hpp:33-41).  The result is a copy of the fields of the parser, which has changed. -/
def parse (m : Callbacks) (argv : List Str) (o : Opts D) : Res (Opts D) := loop readDouble m argv 0 argv.length o

end Verif.Argv
