import Verif.Mediator.Props
import Verif.Mediator.ThreadsProps
/-! Executions of the mediator with threads, and refutations (C132, C133). -/
namespace Verif.Mediator.Conc
open Verif Verif.HB Verif.Data

namespace Ex

/-- `Careful`, for executions of threads 0 and 1. -/
def carefulB {W : World} (sources : Nat) (m : State W) (l : Lbl W) : Bool :=
  decide (l.who < 2) && match l with
  | .call t c =>
    if c.changes then (m.stack 0).isEmpty && (m.stack 1).isEmpty && m.mem.log.all (fun a => decide (a.time ≤ m.mem.clk t a.who)) &&
      decide ((registered m.hist).length < sources)
    else (m.stack 0).all (fun f => !f.call.changes) && (m.stack 1).all (fun f => !f.call.changes) &&
      m.mem.log.all fun a => !a.wr || decide (a.time ≤ m.mem.clk t a.who)
  | _ => true

/-- Make these steps if users take care and the steps are possible. -/
def play {W : World} (sources : Nat) : List (Lbl W) → State W → Option (State W)
  | [], m => some m
  | l :: ls, m => if carefulB sources m l then (step m l).bind (play sources ls) else none

theorem step_stack {W : World} {m m' : State W} {l : Lbl W} (hs : step m l = some m') {u : Nat} (hu : u ≠ l.who) :
    m'.stack u = m.stack u := by
  cases l with
  | call t c =>
    simp only [step] at hs
    split at hs
    · cases hs
      exact put_ne _ _ hu
    · cases hs
  | act t =>
    simp only [step] at hs
    split at hs
    · split at hs
      · cases hs
      · rename_i f fs hf _
        obtain ⟨n, c, p, b⟩ := f
        cases p <;> simp only [act, Option.some.injEq, Option.map_eq_some_iff] at hs <;>
          first
          | (subst hs; exact put_ne _ _ hu)
          | (obtain ⟨r, _, rfl⟩ := hs; exact put_ne _ _ hu)
    · cases hs
  | back t =>
    simp only [step] at hs
    split at hs
    · split at hs
      · cases hs
        exact put_ne _ _ hu
      · cases hs
    · cases hs
  | rel t n | acq t n =>
    simp only [step] at hs
    split at hs
    · cases hs; rfl
    · cases hs

theorem careful_of {W : World} {sources : Nat} {m : State W} {l : Lbl W} (h : ∀ u, 2 ≤ u → m.stack u = [])
    (hc : carefulB sources m l = true) : Careful sources m l ∧ l.who < 2 := by
  unfold carefulB at hc
  rw [Bool.and_eq_true, decide_eq_true_eq] at hc
  obtain ⟨hw, hc⟩ := hc
  refine ⟨?_, hw⟩
  cases l with
  | call t c =>
    simp only [Careful]
    simp only at hc
    split at hc
    · rename_i hch
      rw [if_pos hch]
      simp only [Bool.and_eq_true, List.isEmpty_iff, List.all_eq_true, decide_eq_true_eq] at hc
      obtain ⟨⟨⟨e0, e1⟩, e2⟩, e3⟩ := hc
      refine ⟨fun u => ?_, e2, e3⟩
      rcases Nat.lt_or_ge u 2 with hu | hu
      · match u, hu with
        | 0, _ => exact e0
        | 1, _ => exact e1
      · exact h u hu
    · rename_i hch
      rw [if_neg hch]
      simp only [Bool.and_eq_true, List.all_eq_true, Bool.not_eq_true', Bool.or_eq_true, decide_eq_true_eq] at hc
      obtain ⟨⟨e0, e1⟩, e2⟩ := hc
      refine ⟨fun u f hf => ?_, fun a ha hwr => ?_⟩
      · rcases Nat.lt_or_ge u 2 with hu | hu
        · match u, hu with
          | 0, _ => exact e0 f hf
          | 1, _ => exact e1 f hf
        · rw [h u hu] at hf
          cases hf
      · rcases e2 a ha with e | e
        · rw [hwr] at e; cases e
        · exact e
  | _ => trivial

theorem play_run {W : World} {sources : Nat} : ∀ (ls : List (Lbl W)) {m m' : State W}, Run sources (Careful sources) m →
    (∀ u, 2 ≤ u → m.stack u = []) → play sources ls m = some m' → Run sources (Careful sources) m' ∧ ∀ u, 2 ≤ u → m'.stack u = []
  | [], m, m', r, h, e => by cases e; exact ⟨r, h⟩
  | l :: ls, m, m', r, h, e => by
    rw [play] at e
    split at e
    · rename_i hc
      rw [Option.bind_eq_some_iff] at e
      obtain ⟨m1, h1, h2⟩ := e
      obtain ⟨g1, g2⟩ := careful_of h hc
      exact play_run ls (.step m m1 l r g1 h1) (fun u hu => by rw [step_stack h1 (by omega)]; exact h u hu) h2
    · cases e

/-- The same for executions all of whose steps satisfy `P`. -/
theorem play_only {W : World} {sources : Nat} {P : Lbl W → Prop} : ∀ (ls : List (Lbl W)), (∀ l ∈ ls, P l) → ∀ {m m' : State W},
    Run sources (fun m l => Careful sources m l ∧ P l) m → (∀ u, 2 ≤ u → m.stack u = []) → play sources ls m = some m' →
    Run sources (fun m l => Careful sources m l ∧ P l) m'
  | [], _, m, m', r, _, e => by cases e; exact r
  | l :: ls, hp, m, m', r, h, e => by
    rw [play] at e
    split at e
    · rename_i hc
      rw [Option.bind_eq_some_iff] at e
      obtain ⟨m1, h1, h2⟩ := e
      obtain ⟨g1, g2⟩ := careful_of h hc
      exact play_only ls (fun l hl => hp l (List.mem_cons_of_mem _ hl)) (.step m m1 l r ⟨g1, hp l List.mem_cons_self⟩ h1)
        (fun u hu => by rw [step_stack h1 (by omega)]; exact h u hu) h2
    · cases e

/-- From the beginning. -/
theorem play_start {W : World} {sources : Nat} {ls : List (Lbl W)} {m : State W} (h : play sources ls (State.new sources) = some m) :
    Run sources (Careful sources) m := (play_run ls .start (fun _ _ => rfl) h).1

/-- Classes for the executions below.  Type 0 is a 16-bit number, every other type a 32-bit number.  Module 1 sends type 0, module 2
sends type 1; module 3 and all others receive both and send type 2. -/
def V : World where
  Val t := BitVec (8 * if t = 0 then 2 else 4)
  pod t := intPod .little (if t = 0 then 2 else 4)
  hash t := 10 * t + 7
  sends m := if m = 1 then 0 else if m = 2 then 1 else 2
  recvs m := if m = 1 ∨ m = 2 then [] else [0, 1]

theorem V_inj (a b : Nat) (h : V.hash a = V.hash b) : a = b := by
  simp only [V] at h
  omega

/-- The number of a message and the module that gets it. -/
def got : Nat × Ev V → Option (Nat × Nat)
  | (_, .recv n m _ _) => some (n, m)
  | _ => none

/-- Thread 0 constructs modules 1, 2, 3 and 4, and tells thread 1. -/
def setUp : List (Lbl V) :=
  [1, 2, 3, 4].flatMap (fun p => .call 0 (.make p) :: List.replicate 5 (.act 0)) ++ [.rel 0 0, .acq 1 0]

/-- Steps of a call of thread `t` from the beginning up to the second delivery: the hook, two modules that get nothing, the third. -/
def upTo (t : Nat) (c : Call V) (n : Nat) : List (Lbl V) :=
  .call t c :: .act t :: .act t :: .back t :: List.replicate n (.act t)

/-- Thread 0 sends, and its message is delivered to module 3; then thread 1 sends, and its message is delivered to all; then
thread 0 goes on. -/
def overlap : List (Lbl V) :=
  setUp ++ upTo 0 (.send 1 [0x34, 0x12]) 19 ++
    (upTo 1 (.send 2 [1, 2, 3, 4]) 19 ++ [.back 1] ++ List.replicate 8 (.act 1) ++ [.back 1] ++ List.replicate 2 (.act 1)) ++
    ([.back 0] ++ List.replicate 8 (.act 0) ++ [.back 0] ++ List.replicate 2 (.act 0))

/-- What is left of an execution: the deliveries, the oldest first, the calls that have returned, and whether any call is going on. -/
def view (o : Option (State V)) : Option (List (Nat × Nat) × List (Nat × Nat) × Nat) :=
  o.map fun m => (m.log.reverse.filterMap got, m.hist.reverse.map fun d => (d.who, d.num), (m.stack 0).length + (m.stack 1).length)

end Ex

/-- The numbers of the messages that module `p` gets, in the order in which it gets them. -/
def State.received {W : World} (m : State W) (p : Nat) : List Nat :=
  m.log.reverse.filterMap fun e => match e.2 with
    | .recv n q _ _ => if q = p then some n else none
    | _ => none

/-- **C133 refuted for calls that overlap.** Two threads send; both messages go to modules 3 and 4, but in different orders. -/
theorem C133_overlap_refuted : ∃ m : State Ex.V, Run 6 (Careful 6) m ∧ (∀ t, m.stack t = []) ∧
    m.received 3 = [4, 5] ∧ m.received 4 = [5, 4] := by
  have h : (Ex.play 6 Ex.overlap (State.new 6)).map (fun m => (m.received 3, m.received 4, (m.stack 0).length, (m.stack 1).length)) =
      some ([4, 5], [5, 4], 0, 0) := by decide +kernel
  obtain ⟨m, h1, h2⟩ := Option.map_eq_some_iff.1 h
  simp only [Prod.mk.injEq, List.length_eq_zero_iff] at h2
  obtain ⟨r, hr⟩ := Ex.play_run Ex.overlap .start (fun _ _ => rfl) h1
  refine ⟨m, r, fun t => ?_, h2.1, h2.2.1⟩
  rcases Nat.lt_or_ge t 2 with ht | ht
  · match t, ht with
    | 0, _ => exact h2.2.2.1
    | 1, _ => exact h2.2.2.2
  · exact hr t ht

/-- Module 1 sends; the callback of module 3 has module 2 send. -/
def Ex.nested : List (Lbl Ex.V) :=
  setUp ++ upTo 0 (.send 1 [0x34, 0x12]) 19 ++
    (upTo 0 (.send 2 [1, 2, 3, 4]) 19 ++ [.back 0] ++ List.replicate 8 (.act 0) ++ [.back 0] ++ List.replicate 2 (.act 0)) ++
    ([.back 0] ++ List.replicate 8 (.act 0) ++ [.back 0] ++ List.replicate 2 (.act 0))

/-- **C133 refuted for callbacks that send**, with all calls made by one thread: both messages go to modules 3 and 4, but in different
orders. -/
theorem C133_nested_refuted : ∃ m : State Ex.V, Run 6 (fun m l => Careful 6 m l ∧ ∀ t c, l = .call t c → t = 0) m ∧
    (∀ t, m.stack t = []) ∧ m.received 3 = [4, 5] ∧ m.received 4 = [5, 4] := by
  have h : (Ex.play 6 Ex.nested (State.new 6)).map (fun m => (m.received 3, m.received 4, (m.stack 0).length, (m.stack 1).length)) =
      some ([4, 5], [5, 4], 0, 0) := by decide +kernel
  obtain ⟨m, h1, h2⟩ := Option.map_eq_some_iff.1 h
  simp only [Prod.mk.injEq, List.length_eq_zero_iff] at h2
  obtain ⟨_, hr⟩ := Ex.play_run Ex.nested .start (fun _ _ => rfl) h1
  refine ⟨m, ?_, fun t => ?_, h2.1, h2.2.1⟩
  · exact Ex.play_only Ex.nested (P := fun l => ∀ t c, l = .call t c → t = 0) (by
      intro l hl t c e
      subst e
      have : ∀ x ∈ Ex.nested, (match x with | .call t _ => decide (t = 0) | _ => true) = true := by
        rw [← List.all_eq_true]
        decide +kernel
      simpa using this _ hl) .start (fun _ _ => rfl) h1
  · rcases Nat.lt_or_ge t 2 with ht | ht
    · match t, ht with
      | 0, _ => exact h2.2.2.1
      | 1, _ => exact h2.2.2.2
    · exact hr t ht

/-! ### Examples -/

/-- C132: two calls overlap, and there is no race (`C132_no_race`, `C132_goes_on`). -/
example : ∃ m : State Ex.V, Run 6 (Careful 6) m ∧ m.stack 0 ≠ [] ∧ m.stack 1 ≠ [] ∧
    (∀ l, ¬ Race m l) ∧ ∀ t, m.stack t ≠ [] → (∃ m', step m (.act t) = some m') ∨ ∃ m', step m (.back t) = some m' := by
  have h : (Ex.play 6 (Ex.overlap.take 60) (State.new 6)).map (fun m => ((m.stack 0).length, (m.stack 1).length)) =
      some (1, 1) := by decide +kernel
  obtain ⟨m, h1, h2⟩ := Option.map_eq_some_iff.1 h
  simp only [Prod.mk.injEq] at h2
  have r := Ex.play_start h1
  refine ⟨m, r, fun e => ?_, fun e => ?_, C132_no_race Ex.V_inj r, fun t => C132_goes_on Ex.V_inj r⟩
  · have := h2.1
    rw [e] at this
    cases this
  · have := h2.2
    rw [e] at this
    cases this

/-- A form of an event that can be compared. -/
def Ex.key : Nat × Ev Ex.V → List Nat
  | (w, .start n src t bytes) => [0, w, n, (src.map (· + 1)).getD 0, t] ++ bytes.map BitVec.toNat
  | (w, .hook n id bytes) => [1, w, n, id] ++ bytes.map BitVec.toNat
  | (w, .recv n m t v) => [2, w, n, m, t] ++ ((Ex.V.pod t).enc v).map BitVec.toNat

/-- C132_sent: all that happens under the number of the message of thread 1, which overlaps with another one. -/
example : ∃ m : State Ex.V, Run 6 (Careful 6) m ∧ registered m.hist = [1, 2, 3, 4] ∧ m.hist.map (·.num) = [4, 5, 3, 2, 1, 0] ∧
    (m.about 5).map Ex.key = [[0, 1, 5, 3, 1, 1, 2, 3, 4], [1, 1, 5, 17, 1, 2, 3, 4], [2, 1, 5, 3, 1, 1, 2, 3, 4],
      [2, 1, 5, 4, 1, 1, 2, 3, 4]] := by
  have h : (Ex.play 6 Ex.overlap (State.new 6)).map (fun m => (registered m.hist, m.hist.map (·.num), (m.about 5).map Ex.key)) =
      some ([1, 2, 3, 4], [4, 5, 3, 2, 1, 0], [[0, 1, 5, 3, 1, 1, 2, 3, 4], [1, 1, 5, 17, 1, 2, 3, 4],
        [2, 1, 5, 3, 1, 1, 2, 3, 4], [2, 1, 5, 4, 1, 1, 2, 3, 4]]) := by decide +kernel
  obtain ⟨m, h1, h2⟩ := Option.map_eq_some_iff.1 h
  simp only [Prod.mk.injEq] at h2
  exact ⟨m, Ex.play_start h1, h2⟩

/-- Thread 0 destroys module 3 after the calls above, having heard from thread 1, and the manager sends. -/
def Ex.later : List (Lbl Ex.V) :=
  overlap ++ [.rel 1 7, .acq 0 7] ++ (.call 0 (.drop 3) :: List.replicate 16 (.act 0)) ++
    (.call 0 (.cast 0 (5 : BitVec 16)) :: List.replicate 14 (.act 0)) ++ [.back 0] ++ List.replicate 2 (.act 0)

/-- C132_cast, C132_registered and C133_order_partial: module 3 is no longer told; the earlier messages come before. -/
example : ∃ m : State Ex.V, Run 6 (Careful 6) m ∧ registered m.hist = [1, 2, 4] ∧
    m.sh.arr.take m.sh.cnt = [some 1, some 2, some 4] ∧ m.received 3 = [4, 5] ∧ m.received 4 = [5, 4, 7] ∧
    m.hist.map (fun d => (d.num, d.upto)) = [(7, 8), (6, 7), (4, 6), (5, 6), (3, 4), (2, 3), (1, 2), (0, 1)] := by
  have h : (Ex.play 6 Ex.later (State.new 6)).any (fun m => decide (registered m.hist = [1, 2, 4] ∧
    m.sh.arr.take m.sh.cnt = [some 1, some 2, some 4] ∧ m.received 3 = [4, 5] ∧ m.received 4 = [5, 4, 7] ∧
    m.hist.map (fun d => (d.num, d.upto)) = [(7, 8), (6, 7), (4, 6), (5, 6), (3, 4), (2, 3), (1, 2), (0, 1)])) = true := by
    decide +kernel
  cases h1 : Ex.play 6 Ex.later (State.new 6) with
  | none => rw [h1] at h; cases h
  | some m =>
    rw [h1] at h
    exact ⟨m, Ex.play_start h1, of_decide_eq_true h⟩

end Verif.Mediator.Conc
