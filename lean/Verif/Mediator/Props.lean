import Verif.Mediator.Lemmas
import Verif.Data.Pods
/-! The properties of the mediator. -/
namespace Verif.Mediator
open Verif Verif.Data

/-! ### Values for examples -/

namespace Ex

/-- Two message types: type 0 is a 16-bit number, every other type is a 32-bit number.  Module 1 sends
type 0 and receives nothing; module 2 receives types 1 and 0 and sends type 1; module 3 receives types
0 and 2 and sends type 2; module 4 sends and receives type 0. -/
def W : World where
  Val t := BitVec (8 * if t = 0 then 2 else 4)
  pod t := intPod .little (if t = 0 then 2 else 4)
  hash t := 10 * t + 7
  sends m := if m = 1 then 0 else if m = 2 then 1 else if m = 3 then 2 else 0
  recvs m := if m = 1 then [] else if m = 2 then [1, 0] else if m = 3 then [0, 2] else [0]

theorem hash_inj (a b : Nat) (h : W.hash a = W.hash b) : a = b := by
  simp only [W] at h
  omega

/-- The callback of module 2 answers each message of type 0 once with a message of its own type; the
other modules do nothing.  The user state counts the calls. -/
def H : Handlers W Nat := fun u m t _ =>
  if m = 2 ∧ t = 0 ∧ u < 2 then .send 2 (5#32) fun u => .ret (u + 1) else .ret (u + 1)

/-- A form of an event that can be compared. -/
def key : Ev W → List Nat
  | .start n src t bytes => [0, n, (src.map (· + 1)).getD 0, t] ++ bytes.map BitVec.toNat
  | .hook n id bytes => [1, n, id] ++ bytes.map BitVec.toNat
  | .recv n m t v => [2, n, m, t] ++ ((W.pod t).enc v).map BitVec.toNat

/-- Run operations with plenty of fuel. -/
def play : List (Op W Nat) → St W Nat → Res (St W Nat)
  | [], s => .ok s
  | o :: os, s => do
    let s ← step H 20 s o
    play os s

/-- What is left of a run. -/
def view (r : Res (St W Nat)) : Option (List (Option Nat) × Nat × List (List Nat)) :=
  match r with
  | .ok s => some (s.registered, s.user, s.log.map key)
  | _ => none

/-- Everything the operations below do. -/
def demo : List (Op W Nat) :=
  [.construct 3, .construct 1, .construct 4, .construct 2, .destroy 4, .construct 4,
   .run (.send 1 (0x1234#16) fun u => .ret u)]

theorem demo_run : view (play demo (St.new 6 0)) =
    some ([some 3, some 1, some 2, some 4], 2,
      [[0, 0, 2, 0, 0x34, 0x12], [1, 0, 7, 0x34, 0x12], [2, 0, 3, 0, 0x34, 0x12],
       [2, 0, 2, 0, 0x34, 0x12], [0, 1, 3, 1, 5, 0, 0, 0], [1, 1, 17, 5, 0, 0, 0]]) := by
  decide +kernel

/-- The state before the message of `demo` is a state of a history. -/
theorem demo_reach (s : St W Nat) (h : play (demo.take 6) (St.new 6 0) = .ok s) :
    Reach H 6 [3, 1, 2, 4] s := by
  simp only [demo, List.take_succ_cons, List.take_zero, play, step] at h
  have r0 : Reach H 6 [] (St.new 6 0) := .new 0
  cases h1 : addModule (St.new (W := W) 6 0) 3 with
  | ub => rw [h1] at h; cases h
  | hang => rw [h1] at h; cases h
  | ok s1 =>
  rw [h1, Res.ok_bind] at h
  have r1 := Reach.construct _ _ _ 3 r0 (by decide) (by decide) h1
  cases h2 : addModule s1 1 with
  | ub => rw [h2] at h; cases h
  | hang => rw [h2] at h; cases h
  | ok s2 =>
  rw [h2, Res.ok_bind] at h
  have r2 := Reach.construct _ _ _ 1 r1 (by decide) (by decide) h2
  cases h3 : addModule s2 4 with
  | ub => rw [h3] at h; cases h
  | hang => rw [h3] at h; cases h
  | ok s3 =>
  rw [h3, Res.ok_bind] at h
  have r3 := Reach.construct _ _ _ 4 r2 (by decide) (by decide) h3
  cases h4 : addModule s3 2 with
  | ub => rw [h4] at h; cases h
  | hang => rw [h4] at h; cases h
  | ok s4 =>
  rw [h4, Res.ok_bind] at h
  have r4 := Reach.construct _ _ _ 2 r3 (by decide) (by decide) h4
  cases h5 : removeModule s4 4 with
  | ub => rw [h5] at h; cases h
  | hang => rw [h5] at h; cases h
  | ok s5 =>
  rw [h5, Res.ok_bind] at h
  have r5 := Reach.destroy _ _ _ 4 r4 (by decide) h5
  cases h6 : addModule s5 4 with
  | ub => rw [h6] at h; cases h
  | hang => rw [h6] at h; cases h
  | ok s6 =>
  rw [h6, Res.ok_bind] at h
  have r6 := Reach.construct _ _ _ 4 r5 (by decide) (by decide) h6
  cases h
  exact r6

end Ex

variable {W : World} {U : Type}

/-- The deliveries of message `k` in a log: module and type of each. -/
def receivers (k : Nat) : List (Ev W) → List (Nat × Nat)
  | [] => []
  | .recv n m t _ :: es => if n = k then (m, t) :: receivers k es else receivers k es
  | _ :: es => receivers k es

theorem receivers_about (k : Nat) : ∀ log : List (Ev W), receivers k (about k log) = receivers k log
  | [] => rfl
  | e :: es => by
    have ih := receivers_about k es
    cases e <;> simp only [about, List.filter_cons, Ev.num, receivers] at ih ⊢ <;>
      (split <;> simp_all [receivers])

theorem receivers_deliveries (l : List Nat) (k t : Nat) (bytes : List Byte)
    (h : bytes.length = (W.pod t).size) :
    receivers k (deliveries W l k t bytes) =
      (l.filter fun m => decide (t ∈ W.recvs m ∧ W.sends m ≠ t)).map fun m => (m, t) := by
  rw [deliveries, if_pos h, interested]
  induction l.filter fun m => decide (t ∈ W.recvs m ∧ W.sends m ≠ t) with
  | nil => rfl
  | cons a l ih => simpa [receivers] using ih

/-! ### C49 -/

/-- C49: a value sent by module `m` is delivered exactly once, in registration order, to every
registered module that lists its type among the received types and does not send that type itself, and
to no other module: `receivers` lists all deliveries of this message, in order, among everything else
that happens (callbacks may send further messages in between).  `s.count` is the number of the message,
and it is new. -/
theorem C49_delivery {H : Handlers W U} {sources : Nat}
    (hinj : ∀ a b, W.hash a = W.hash b → a = b) {l : List Nat} {s s' : St W U}
    (h : Reach H sources l s) (f m : Nat) (v : W.Val (W.sends m)) (k : U → Prog W U)
    (he : exec H f (.send m v k) s = .ok s') :
    s.registered = l.map some ∧ receivers s.count s.log = [] ∧
    receivers s.count s'.log =
      (l.filter fun p => decide (W.sends m ∈ W.recvs p ∧ W.sends p ≠ W.sends m)).map
        fun p => (p, W.sends m) := by
  obtain ⟨_, _, _, i4, i5⟩ := h.inv hinj
  refine ⟨i4.registered, ?_, ?_⟩
  · rw [← receivers_about, about_nil_of fun e he h => by have := i5 e he; omega]
    rfl
  · obtain ⟨_, _, _, hx⟩ := h.run_log hinj he
    rcases hx with hu | hx
    · cases hu
    · rw [← receivers_about, hx, firstMessage]
      exact receivers_deliveries l _ _ _ ((W.pod _).enc_length v)

/-- Four modules with a history, one of which answers from its callback: module 3 and then module 2 get
the message, module 1 (the sender) and module 4 (which sends the type itself) do not. -/
example : ∃ s s', Reach Ex.H 6 [3, 1, 2, 4] s ∧
    exec Ex.H 20 (.send 1 (0x1234#16) fun u => .ret u) s = .ok s' ∧
    receivers s.count s'.log = [(3, 0), (2, 0)] ∧ s'.count = 2 :=
  ⟨_, _, Ex.demo_reach _ rfl, rfl, by decide +kernel, by decide +kernel⟩

/-- C49, for every message sent while some code runs, those sent by callbacks included: all that
happens under its number is its sending, the manager's hook if a module sent it, and its deliveries. -/
theorem C49_every_message {H : Handlers W U} {sources : Nat}
    (hinj : ∀ a b, W.hash a = W.hash b → a = b) {l : List Nat} {s s' : St W U}
    (h : Reach H sources l s) (f : Nat) (p : Prog W U) (he : exec H f p s = .ok s') :
    (∃ new, s'.log = s.log ++ new ∧ ∀ e ∈ new, s.count ≤ e.num ∧ e.num < s'.count) ∧
    ∀ k, s.count ≤ k → k < s'.count →
      (∃ m bytes, about k s'.log = .start k (some m) (W.sends m) bytes ::
          .hook k (W.hash (W.sends m)) bytes ::
          (if bytes.length = (W.pod (W.sends m)).size then
            (l.filter fun p => decide (W.sends m ∈ W.recvs p ∧ W.sends p ≠ W.sends m)).map fun p =>
              .recv k p (W.sends m) ((W.pod (W.sends m)).dec bytes)
          else [])) ∨
      (∃ t v, about k s'.log = .start k none t ((W.pod t).enc v) ::
          (l.filter fun p => decide (t ∈ W.recvs p ∧ W.sends p ≠ t)).map fun p => .recv k p t v) := by
  obtain ⟨_, h1, h2, _⟩ := h.run_log hinj he
  refine ⟨h1, fun k hk1 hk2 => ?_⟩
  rcases h2 k hk1 hk2 with ⟨m, b, h⟩ | ⟨t, v, h⟩
  · exact .inl ⟨m, b, h⟩
  · refine .inr ⟨t, v, ?_⟩
    rw [h, deliveries, if_pos ((W.pod t).enc_length v), (W.pod t).dec_enc]
    rfl

/-- The same run contains the message of module 2, which nobody receives. -/
example : ∃ s s', Reach Ex.H 6 [3, 1, 2, 4] s ∧
    exec Ex.H 20 (.send 1 (0x1234#16) fun u => .ret u) s = .ok s' ∧
    (about 1 s'.log).map Ex.key = [[0, 1, 3, 1, 5, 0, 0, 0], [1, 1, 17, 5, 0, 0, 0]] :=
  ⟨_, _, Ex.demo_reach _ rfl, rfl, by decide +kernel⟩

/-- Types 0 and 1 have the same hash and the same size.  Module 1 sends type 0, module 2 sends type 2
and receives type 1 only. -/
def Ex.clash : World where
  Val _ := BitVec (8 * 2)
  pod _ := intPod .little 2
  hash t := if t = 2 then 8 else 7
  sends m := if m = 1 then 0 else 2
  recvs m := if m = 2 then [1] else []

/-- Callbacks that do nothing. -/
def Ex.idle : Handlers Ex.clash Unit := fun u _ _ _ => .ret u

/-- The assumption on the hashes is needed for C49: where two types have the same hash, a module that
does not list the type sent receives the message, as a value of a type that was not sent. -/
theorem C49_collision_refuted : ∃ s s', Reach Ex.idle 3 [1, 2] s ∧
    exec Ex.idle 5 (.send 1 (0x1234#16) fun u => .ret u) s = .ok s' ∧
    Ex.clash.sends 1 ∉ Ex.clash.recvs 2 ∧ receivers s.count s'.log = [(2, 1)] :=
  ⟨_, _, .construct [1] _ _ 2 (.construct [] (St.new 3 ()) _ 1 (.new ()) (by decide) (by decide) rfl)
    (by decide) (by decide) rfl, rfl, by decide, by decide +kernel⟩

/-! ### C50 -/

/-- C50: every delivery of a message sent by a module hands over the value that was sent. -/
theorem C50_intact {H : Handlers W U} {sources : Nat}
    (hinj : ∀ a b, W.hash a = W.hash b → a = b) {l : List Nat} {s s' : St W U}
    (h : Reach H sources l s) (f m : Nat) (v : W.Val (W.sends m)) (k : U → Prog W U)
    (he : exec H f (.send m v k) s = .ok s') (p t : Nat) (w : W.Val t)
    (hr : Ev.recv s.count p t w ∈ s'.log) :
    Ev.recv s.count p t w = Ev.recv s.count p (W.sends m) v := by
  obtain ⟨_, _, _, hx⟩ := h.run_log hinj he
  rcases hx with hu | hx
  · cases hu
  · have hm : Ev.recv s.count p t w ∈ about s.count s'.log := by simp [about, hr, Ev.num]
    rw [hx, firstMessage, deliveries, if_pos ((W.pod _).enc_length v), (W.pod _).dec_enc] at hm
    simp only [List.mem_cons, List.mem_map, reduceCtorEq, false_or] at hm
    obtain ⟨q, _, hq⟩ := hm
    cases hq
    rfl

example : ∃ s s', Reach Ex.H 6 [3, 1, 2, 4] s ∧
    exec Ex.H 20 (.send 1 (0x1234#16) fun u => .ret u) s = .ok s' ∧
    (s'.log.map Ex.key).contains [2, 0, 3, 0, 0x34, 0x12] = true :=
  ⟨_, _, Ex.demo_reach _ rfl, rfl, by decide +kernel⟩

/-- C50: bytes sent under the name of a type (`module::send(ptr, sz)`) are dropped by every module if
their number is not the size of the type, and decoded if it is; `manager::convert_field` throws in the
first case and decodes in the second. -/
theorem C50_size {H : Handlers W U} {sources : Nat}
    (hinj : ∀ a b, W.hash a = W.hash b → a = b) {l : List Nat} {s s' : St W U}
    (h : Reach H sources l s) (f m : Nat) (bytes : List Byte) (k : U → Prog W U)
    (he : exec H f (.raw m bytes k) s = .ok s') :
    (bytes.length ≠ (W.pod (W.sends m)).size → ∀ p t w, Ev.recv s.count p t w ∉ s'.log) ∧
    (bytes.length = (W.pod (W.sends m)).size → ∀ p t w, Ev.recv s.count p t w ∈ s'.log →
      Ev.recv s.count p t w = Ev.recv s.count p (W.sends m) ((W.pod (W.sends m)).dec bytes)) := by
  obtain ⟨_, _, _, hx⟩ := h.run_log hinj he
  rcases hx with hu | hx
  · cases hu
  · have hm : ∀ p t w, Ev.recv s.count p t w ∈ s'.log →
        Ev.recv s.count p t w ∈ about s.count s'.log := fun p t w hr => by
      simp [about, hr, Ev.num]
    rw [hx] at hm
    simp only [firstMessage, deliveries] at hm
    refine ⟨fun hs p t w hr => ?_, fun hs p t w hr => ?_⟩
    · have := hm p t w hr
      rw [if_neg hs] at this
      simp at this
    · have := hm p t w hr
      rw [if_pos hs] at this
      simp only [List.mem_cons, List.mem_map, reduceCtorEq, false_or] at this
      obtain ⟨q, _, hq⟩ := this
      cases hq
      rfl

/-- Three bytes under the name of a two-byte type reach nobody, two bytes do. -/
example : ∃ s s' s'', Reach Ex.H 6 [3, 1, 2, 4] s ∧
    exec Ex.H 20 (.raw 1 [1, 2, 3] fun u => .ret u) s = .ok s' ∧
    s'.log.map Ex.key = [[0, 0, 2, 0, 1, 2, 3], [1, 0, 7, 1, 2, 3]] ∧
    exec Ex.H 20 (.raw 1 [1, 2] fun u => .ret u) s = .ok s'' ∧
    receivers s.count s''.log = [(3, 0), (2, 0)] :=
  ⟨_, _, _, Ex.demo_reach _ rfl, rfl, by decide +kernel, rfl, by decide +kernel⟩

/-- C50 for `manager::convert_field` (`none` is the exception). -/
theorem C50_convert {α : Type} (P : Pod α) :
    (∀ v, managerConvert P (P.enc v) = some v) ∧
    ∀ bytes : List Byte, managerConvert P bytes = none ↔ bytes.length ≠ P.size := by
  refine ⟨fun v => ?_, fun bytes => ?_⟩
  · rw [managerConvert, if_neg (by simp [P.enc_length]), P.dec_enc]
  · rw [managerConvert]
    by_cases h : P.size ≠ bytes.length
    · simp [h, h.symm]
    · rw [if_neg h]
      simp only [reduceCtorEq, false_iff]
      omega

example : managerConvert (intPod .little 2) [0x34, 0x12] = some 0x1234#16 ∧
    managerConvert (intPod .little 2) [0x34, 0x12, 0] = none := by decide +kernel

/-! ### C51 -/

/-- C51: `manager::send` delivers the value exactly once, in registration order, to each registered
module that receives its type and does not send it, and to no other module; there is no hook call. -/
theorem C51_broadcast {H : Handlers W U} {sources : Nat}
    (hinj : ∀ a b, W.hash a = W.hash b → a = b) {l : List Nat} {s s' : St W U}
    (h : Reach H sources l s) (f t : Nat) (v : W.Val t) (k : U → Prog W U)
    (he : exec H f (.cast t v k) s = .ok s') :
    about s.count s.log = [] ∧
    about s.count s'.log = .start s.count none t ((W.pod t).enc v) ::
      (l.filter fun p => decide (t ∈ W.recvs p ∧ W.sends p ≠ t)).map
        fun p => .recv s.count p t v := by
  obtain ⟨_, _, _, _, i5⟩ := h.inv hinj
  refine ⟨about_nil_of fun e he h => by have := i5 e he; omega, ?_⟩
  obtain ⟨_, _, _, hx⟩ := h.run_log hinj he
  rcases hx with hu | hx
  · cases hu
  · rw [hx, firstMessage, deliveries, if_pos ((W.pod t).enc_length v), (W.pod t).dec_enc]
    rfl

example : ∃ s s', Reach Ex.H 6 [3, 1, 2, 4] s ∧
    exec Ex.H 20 (.cast 0 (0x1234#16) fun u => .ret u) s = .ok s' ∧
    (about s.count s'.log).map Ex.key = [[0, 0, 0, 0, 0x34, 0x12], [2, 0, 3, 0, 0x34, 0x12],
      [2, 0, 2, 0, 0x34, 0x12]] :=
  ⟨_, _, Ex.demo_reach _ rfl, rfl, by decide +kernel⟩

/-! ### C52 -/

/-- C52, as far as it holds, for any hashes: constructing a module, destroying one while there is at
least one free place, and running code that sends are all free of undefined behaviour; and in every
state of a history exactly the living modules are registered, in the order of their construction.  What
is missing is the destruction of a module while the manager is full, see `C52_refuted`. -/
theorem C52_registration_partial {H : Handlers W U} {sources : Nat} {l : List Nat} {s : St W U}
    (h : Reach H sources l s) :
    s.registered = l.map some ∧ l.Nodup ∧ l.length ≤ sources ∧
    (∀ m, m ∉ l → l.length < sources → ∃ s', addModule s m = .ok s' ∧
      Reach H sources (l ++ [m]) s') ∧
    (∀ m, m ∈ l → l.length < sources → ∃ s', removeModule s m = .ok s' ∧
      Reach H sources (l.filter (· != m)) s') ∧
    (∀ f p, exec H f p s ≠ .ub) := by
  obtain ⟨i1, i2, i3, i4⟩ := h.knows
  refine ⟨i4.registered, i1, i2, fun m hm hl => ?_, fun m hm hl => ?_, fun f p hu => ?_⟩
  · obtain ⟨s', e, _⟩ := add_ok l s i4 (by omega) m
    exact ⟨s', e, .construct l s s' m h hm hl e⟩
  · obtain ⟨s', e, _⟩ := remove_ok l i1 s i4 (by omega) m hm
    exact ⟨s', e, .destroy l s s' m h hm e⟩
  · have := exec_safe H l f p s i4
    rw [hu] at this
    exact this

example : ∃ s s', Reach Ex.H 6 [3, 1, 2, 4] s ∧ removeModule s 1 = .ok s' ∧
    s'.registered = [some 3, some 2, some 4] :=
  ⟨_, _, Ex.demo_reach _ rfl, rfl, by decide +kernel⟩

/-- The bound of C52 is needed: constructing one module more than there are places writes beyond the
end of the array. -/
theorem C52_one_more {H : Handlers W U} {sources : Nat} {l : List Nat} {s : St W U}
    (h : Reach H sources l s) (hfull : l.length = sources) (m : Nat) : addModule s m = .ub := by
  obtain ⟨_, i2, i3, i4⟩ := h.knows
  exact add_full l s i4 (by omega) m

/-- A manager with one place and a second module. -/
example : ∃ s, Reach Ex.H 1 [1] s ∧ addModule s 2 = .ub :=
  ⟨_, .construct [] (St.new 1 0) _ 1 (.new 0) (by decide) (by decide) rfl, rfl⟩

/-- C52 refuted: destroying any module of a full manager writes beyond the end of the array. -/
theorem C52_refuted {H : Handlers W U} {sources : Nat} {l : List Nat} {s : St W U}
    (h : Reach H sources l s) (hfull : l.length = sources) (m : Nat) (hm : m ∈ l) :
    removeModule s m = .ub := by
  obtain ⟨i1, i2, i3, i4⟩ := h.knows
  exact remove_full l i1 s i4 (by omega) m hm

/-- A manager with one place, one module constructed and destroyed. -/
example : ∃ s, Reach Ex.H 1 [1] s ∧ removeModule s 1 = .ub :=
  ⟨_, .construct [] (St.new 1 0) _ 1 (.new 0) (by decide) (by decide) rfl, rfl⟩

/-! ### C53 -/

/-- C53: for a message sent by a module the hook of the manager is called exactly once, before any
delivery, with the type id of the sender and the bytes sent. -/
theorem C53_hook_first {H : Handlers W U} {sources : Nat}
    (hinj : ∀ a b, W.hash a = W.hash b → a = b) {l : List Nat} {s s' : St W U}
    (h : Reach H sources l s) (f m : Nat) (v : W.Val (W.sends m)) (k : U → Prog W U)
    (he : exec H f (.send m v k) s = .ok s') :
    ∃ rest, about s.count s'.log =
        .start s.count (some m) (W.sends m) ((W.pod (W.sends m)).enc v) ::
        .hook s.count (W.hash (W.sends m)) ((W.pod (W.sends m)).enc v) :: rest ∧
      ∀ e ∈ rest, ∃ p t w, e = .recv s.count p t w := by
  obtain ⟨_, _, _, hx⟩ := h.run_log hinj he
  rcases hx with hu | hx
  · cases hu
  · refine ⟨_, hx, fun e he => ?_⟩
    rw [deliveries] at he
    split at he
    · obtain ⟨p, _, hp⟩ := List.mem_map.1 he
      exact ⟨p, _, _, hp.symm⟩
    · simp at he

example : ∃ s s', Reach Ex.H 6 [3, 1, 2, 4] s ∧
    exec Ex.H 20 (.send 1 (0x1234#16) fun u => .ret u) s = .ok s' ∧
    (about s.count s'.log).map Ex.key = [[0, 0, 2, 0, 0x34, 0x12], [1, 0, 7, 0x34, 0x12],
      [2, 0, 3, 0, 0x34, 0x12], [2, 0, 2, 0, 0x34, 0x12]] :=
  ⟨_, _, Ex.demo_reach _ rfl, rfl, by decide +kernel⟩

end Verif.Mediator
