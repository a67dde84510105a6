import Verif.Heap.ThreadsRace
import Verif.Heap.Props
/-!
`static_heap` used by several threads.

* Nothing in the class keeps threads apart (C129).
* With a lock around the calls it behaves as if one client alone used it (C130).
-/
namespace Verif.Heap.Conc
open Verif Verif.HB

attribute [local irreducible] wsub wadd wmul

section
variable {size base st : Nat} {h0 : Heap} {mem : Verif.Heap.Mem} {m : State} {ls : List Lbl}

/-! ### Without a lock -/

/-- Calls only: no locks, nothing else. -/
def Lbl.OfCall : Lbl → Prop
  | .call _ _ | .act _ | .ret _ => True
  | _ => False

/-- **C129, the same block twice.** Whenever an allocation would succeed, two threads that make it at the same time can both
be given the same block. -/
theorem C129_same_block (hl : Layout size base st) (hr : Roomy size base) {w : World} (hw : Reach size base st w)
    {n p : Nat} {h' : Heap} (hn : n < 2 ^ 64) (ha : w.heap.allocate n = .ok (h', p)) (hp : p ≠ 0) {t u : Nat}
    (htu : t ≠ u) : ∃ ls m, Run (.start w.heap) (fun _ l => l.OfCall ∧ (l.who = t ∨ l.who = u)) ls m ∧
      m.hist = [.done t (.alloc n) p, .done u (.alloc n) p] := by
  obtain ⟨bs, wi⟩ := reach_inv hl hr hw
  exact twice wi hn ha hp htu fun m v hv => ⟨⟨trivial, hv⟩, ⟨trivial, hv⟩, ⟨trivial, hv⟩⟩

/-- **C129, a race otherwise.** In an execution in which threads do not synchronise and no step is a data race, no thread
asks how much is free, resets the low-water mark or gets memory once another one has got memory, nor before. -/
theorem C129_race {h : Heap} (r : Run (.start h) (fun m l => l.Plain ∧ ¬ Race m l) ls m) {t u : Nat} {c d : Call}
    {p q : Nat} (ht : .done t c p ∈ m.hist) (hu : .done u d q ∈ m.hist) (hc : c.wants ≠ none ∧ p ≠ 0)
    (hd : (d.wants ≠ none ∧ q ≠ 0) ∨ d = .freeSize ∨ d = .resetMin) : t = u := by
  have x := run_apart r
  obtain ⟨a, ha, rfl, h1, h2⟩ := (x.got t c p ht).1 hc
  rcases hd with hd | hd
  · obtain ⟨b, hb, rfl, h3, _⟩ := (x.got u d q hu).1 hd
    exact x.pair a ha b hb (h1.trans h3.symm) (.inl (h2 rfl))
  · obtain ⟨b, hb, rfl, h3, _⟩ := (x.got u d q hu).2 hd
    exact x.pair a ha b hb (h1.trans h3.symm) (.inl (h2 rfl))

/-! ### With a lock -/

/-- **C130, no races.** No step of users who take care is a data race: neither those of the calls nor those of the users. -/
theorem C130_no_race (hl : Layout size base st) (hr : Roomy size base) (hc : Heap.construct size base st mem = .ok h0)
    (r : Run (.start h0) Careful ls m) {l : Lbl} (hg : Careful m l) : ¬ Race m l := by
  obtain ⟨w, i⟩ := run_inv hl hr hc r
  exact i.no_race hg

/-- **C130, no undefined access.** A call in progress can always make its next access, or return. -/
theorem C130_goes_on (hl : Layout size base st) (hr : Roomy size base) (hc : Heap.construct size base st mem = .ok h0)
    (r : Run (.start h0) Careful ls m) {t : Nat} {c : Call} {p : Prog} (hp : m.pc t = some (c, p)) :
    (∃ m', step m (.act t) = some m') ∨ ∃ m', step m (.ret t) = some m' := by
  obtain ⟨w, i⟩ := run_inv hl hr hc r
  rcases (i.busy t c p hp).2.1.go with ⟨q, rfl⟩ | ⟨q, hq⟩
  · right
    simp only [step, hp]
    exact ⟨_, rfl⟩
  · left
    simp only [step, hp, hq, Option.map_some]
    exact ⟨_, rfl⟩

/-- **C130, the history is what threads observe.** A call enters the history when it returns, as its thread made it and with its
result, and a write when it is done; nothing else does. -/
theorem C130_recorded {m' : State} {l : Lbl} (hs : step m l = some m') :
    (∀ t c p, m.pc t = some (c, p) → m'.pc t = none →
      ∃ r, p = .ret r ∧ m'.hist = .done t c r :: m.hist) ∧
    (∀ t c p c' p', m.pc t = some (c, p) → m'.pc t = some (c', p') → c' = c) ∧
    (∀ t c p, m.pc t = none → m'.pc t = some (c, p) → l = .call t c) ∧
    (∀ t x v, l = .write t x v → m'.hist = .wrote t x v :: m.hist ∧ m'.heap.mem x = v) ∧
    ((∀ t, m.pc t ≠ none → m'.pc t ≠ none) → (∀ t x v, l ≠ .write t x v) → m'.hist = m.hist) := by
  have put_at : ∀ {t u : Nat} {x : Option (Call × Prog)}, HB.put m.pc t x u = if u = t then x else m.pc u := fun {t u x} => rfl
  have same : m'.pc = m.pc → (∀ t c p, m.pc t = some (c, p) → m'.pc t = none →
      ∃ r, p = .ret r ∧ m'.hist = .done t c r :: m.hist) ∧
      (∀ t c p c' p', m.pc t = some (c, p) → m'.pc t = some (c', p') → c' = c) ∧
      (∀ t c p, m.pc t = none → m'.pc t = some (c, p) → l = .call t c) := by
    intro h
    rw [h]
    exact ⟨fun t c p h1 h2 => (by rw [h1] at h2; cases h2), fun t c p c' p' h1 h2 => (by rw [h1] at h2; cases h2; rfl),
      fun t c p h1 h2 => (by rw [h1] at h2; cases h2)⟩
  cases l with
  | read t x =>
    simp only [step] at hs
    split at hs
    · cases hs
    · cases hs
      obtain ⟨a, b, c⟩ := same rfl
      exact ⟨a, b, c, by simp, fun _ _ => rfl⟩
  | lock t =>
    simp only [step] at hs
    split at hs
    · cases hs
    · cases hs
      obtain ⟨a, b, c⟩ := same rfl
      exact ⟨a, b, c, by simp, fun _ _ => rfl⟩
  | unlock t =>
    simp only [step] at hs
    split at hs
    · cases hs
    · cases hs
      obtain ⟨a, b, c⟩ := same rfl
      exact ⟨a, b, c, by simp, fun _ _ => rfl⟩
  | rel t n =>
    simp only [step] at hs
    split at hs
    · cases hs
    · cases hs
      obtain ⟨a, b, c⟩ := same rfl
      exact ⟨a, b, c, by simp, fun _ _ => rfl⟩
  | acq t n =>
    simp only [step] at hs
    split at hs
    · cases hs
    · cases hs
      obtain ⟨a, b, c⟩ := same rfl
      exact ⟨a, b, c, by simp, fun _ _ => rfl⟩
  | write t x v =>
    simp only [step] at hs
    split at hs
    · cases hs
    · cases hs
      obtain ⟨a, b, c⟩ := same rfl
      refine ⟨a, b, c, fun t' x' v' e => ?_, fun _ h => absurd rfl (h t x v)⟩
      cases e
      exact ⟨rfl, by simp⟩
  | call t c =>
    simp only [step] at hs
    split at hs
    · cases hs
    · rename_i hn
      have hn : m.pc t = none := by simpa using hn
      cases hs
      refine ⟨fun u c p h1 h2 => ?_, fun u c p c' p' h1 h2 => ?_, fun u c' p h1 h2 => ?_, by simp, fun _ _ => rfl⟩
      · simp only [put_at] at h2
        split at h2
        · cases h2
        · rw [h1] at h2; cases h2
      · simp only [put_at] at h2
        split at h2
        · rename_i e; rw [e, hn] at h1; cases h1
        · rw [h1] at h2; cases h2; rfl
      · simp only [put_at] at h2
        split at h2
        · rename_i e; cases h2; rw [e]
        · rw [h1] at h2; cases h2
  | act t =>
    simp only [step] at hs
    split at hs
    · rename_i c p hp
      rw [Option.map_eq_some_iff] at hs
      obtain ⟨r, _, rfl⟩ := hs
      refine ⟨fun u d q h1 h2 => ?_, fun u d q d' q' h1 h2 => ?_, fun u d q h1 h2 => ?_, by simp, fun _ _ => rfl⟩
      · simp only [put_at] at h2
        split at h2
        · cases h2
        · rw [h1] at h2; cases h2
      · simp only [put_at] at h2
        split at h2
        · rename_i e; rw [e, hp] at h1; cases h1; cases h2; rfl
        · rw [h1] at h2; cases h2; rfl
      · simp only [put_at] at h2
        split at h2
        · rename_i e; rw [e, hp] at h1; cases h1
        · rw [h1] at h2; cases h2
    · cases hs
  | ret t =>
    simp only [step] at hs
    split at hs
    · rename_i c p hp
      cases hs
      refine ⟨fun u d q h1 h2 => ?_, fun u d q d' q' h1 h2 => ?_, fun u d q h1 h2 => ?_, by simp, fun h _ => ?_⟩
      · simp only [put_at] at h2
        split at h2
        · rename_i e
          rw [e, hp] at h1
          cases h1
          exact ⟨p, rfl, by rw [e]⟩
        · rw [h1] at h2; cases h2
      · simp only [put_at] at h2
        split at h2
        · cases h2
        · rw [h1] at h2; cases h2; rfl
      · simp only [put_at] at h2
        split at h2
        · cases h2
        · rw [h1] at h2; cases h2
      · exact absurd (by simp) (h t (by rw [hp]; simp))
    · cases hs

/-- **C130, one after another.** Results and memory are those of one client alone that makes the same calls and writes in
the order in which they have returned: this is a legal history, each call has returned what it returns there, what is in
use here is in use there, the bytes in use are the same, and so is the whole heap when no call is in progress. -/
theorem C130_one_after_another (hl : Layout size base st) (hr : Roomy size base)
    (hc : Heap.construct size base st mem = .ok h0) (r : Run (.start h0) Careful ls m) :
    ∃ w, Explains h0 m.hist w ∧ Reach size base st w ∧ ((∀ t, m.pc t = none) → m.heap = w.heap) ∧
      (∀ b ∈ m.blocks, ∃ l ∈ w.live, l.ptr = b.ptr ∧ l.len = b.len) ∧
      ∀ b ∈ m.blocks, ∀ x, b.ptr ≤ x → x < b.ptr + b.len → m.heap.mem x = w.heap.mem x := by
  obtain ⟨w, i⟩ := run_inv hl hr hc r
  refine ⟨w, i.ex, i.ex.reach hc, i.idle, i.blocks, fun b hb x h1 h2 => ?_⟩
  have hu := i.inUse hb (has_iff.mpr ⟨h1, h2⟩)
  by_cases hid : ∀ t, m.pc t = none
  · rw [i.idle hid]
  · obtain ⟨t, ht⟩ : ∃ t, m.pc t ≠ none := Classical.byContradiction fun h => hid fun t =>
      Classical.byContradiction fun h' => h ⟨t, h'⟩
    cases e : m.pc t with
    | none => exact absurd e ht
    | some cp => exact (i.busy t cp.1 cp.2 e).2.2.2 x hu

/-- What the byte at `x` was last given: by a write, or zero by `callocate`; not known after `allocate` (events, the newest
first). -/
def lastTo (x : Nat) : List Event → Option Byte
  | [] => none
  | .wrote _ y v :: es => if x = y then some v else lastTo x es
  | .done _ (.alloc n) p :: es => if p ≠ 0 ∧ p ≤ x ∧ x < p + n then none else lastTo x es
  | .done _ (.calloc k n) p :: es => if p ≠ 0 ∧ p ≤ x ∧ x < p + k * n then some 0 else lastTo x es
  | .done _ _ _ :: es => lastTo x es

theorem after_wrote {w : World} {h' : Heap} {p n x : Nat} {z : Option Byte} :
    (w.afterAlloc h' p n z).wrote x = if p ≠ 0 ∧ p ≤ x ∧ x < p + n then z else w.wrote x := by
  unfold World.afterAlloc
  by_cases h : p = 0
  · rw [if_pos h, if_neg fun h' => h'.1 h]
  · rw [if_neg h]
    by_cases h1 : p ≤ x ∧ x < p + n
    · rw [if_pos ⟨h, h1⟩]
      simp only [if_pos h1]
    · rw [if_neg fun h' => h1 h'.2]
      simp only [if_neg h1]

theorem Explains.last {es : List Event} {w : World} (e : Explains h0 es w) (x : Nat) : w.wrote x = lastTo x es := by
  induction e with
  | start => rfl
  | free t _ ih => exact ih
  | least t _ ih => exact ih
  | wrote t y v _ _ hs ih =>
    cases hs
    rw [lastTo]
    by_cases h : x = y
    · simp only [if_pos h]
    · simp only [if_neg h]; exact ih
  | @done es w w' op r t c _ ho _ hs ih =>
    cases c with
    | alloc n =>
      cases ho
      simp only [World.step] at hs
      cases ha : w.heap.allocate n with
      | ok q =>
        rw [ha, Res.ok_bind] at hs
        cases hs
        rw [lastTo, after_wrote, ih]
      | ub => rw [ha, Res.ub_bind] at hs; cases hs
      | hang => rw [ha, Res.hang_bind] at hs; cases hs
    | calloc k n =>
      cases ho
      simp only [World.step] at hs
      cases ha : w.heap.callocate k n with
      | ok q =>
        rw [ha, Res.ok_bind] at hs
        cases hs
        rw [lastTo, after_wrote, ih]
      | ub => rw [ha, Res.ub_bind] at hs; cases hs
      | hang => rw [ha, Res.hang_bind] at hs; cases hs
    | free p =>
      cases ho
      simp only [World.step] at hs
      cases ha : w.heap.deallocate p with
      | ok q =>
        rw [ha, Res.ok_bind] at hs
        cases hs
        exact ih
      | ub => rw [ha, Res.ub_bind] at hs; cases hs
      | hang => rw [ha, Res.hang_bind] at hs; cases hs
    | resetMin => cases ho; cases hs; exact ih
    | onFail s => cases ho; cases hs; exact ih
    | freeSize => cases ho
    | minEver => cases ho

/-- **C130, blocks.** Blocks in use lie in the buffer and do not overlap, and a byte in use holds what it was last given. -/
theorem C130_blocks (hl : Layout size base st) (hr : Roomy size base) (hc : Heap.construct size base st mem = .ok h0)
    (r : Run (.start h0) Careful ls m) :
    m.blocks.Pairwise (fun a b => a.ptr + a.len ≤ b.ptr ∨ b.ptr + b.len ≤ a.ptr) ∧
    (∀ b ∈ m.blocks, 0 < b.len ∧ base ≤ b.ptr ∧ b.ptr + b.len ≤ base + size) ∧
    ∀ b ∈ m.blocks, ∀ x, b.ptr ≤ x → x < b.ptr + b.len → ∀ v, lastTo x m.hist = some v → m.heap.mem x = v := by
  obtain ⟨w, i⟩ := run_inv hl hr hc r
  obtain ⟨w2, e2, re2, _, b2, m2⟩ := C130_one_after_another hl hr hc r
  have c3 := C03_disjoint hl hr re2
  obtain ⟨bs, wi⟩ := reach_inv hl hr re2
  refine ⟨?_, fun b hb => ?_, fun b hb x h1 h2 v hv => ?_⟩
  · refine i.pair.imp_of_mem ?_
    intro a b ha hb hab
    obtain ⟨l, l1, l2, l3⟩ := b2 a ha
    obtain ⟨k, k1, k2, k3⟩ := b2 b hb
    have hl1 := c3.2.2 l l1
    have hk1 := c3.2.2 k k1
    apply Classical.byContradiction
    intro hn
    have := live_overlap wi l1 k1 (x := max l.ptr k.ptr) (by omega) (by omega)
    exact hab.1 (by omega)
  · obtain ⟨l, l1, l2, l3⟩ := b2 b hb
    have := c3.2.2 l l1
    omega
  · rw [m2 b hb x h1 h2]
    obtain ⟨l, l1, l2, l3⟩ := b2 b hb
    exact wi.wrote l l1 x (by omega) (by omega) v (by rw [e2.last]; exact hv)

/-! ### An execution -/

/-- A thread locks, makes a call and unlocks. -/
theorem turn (r : Run (.start h0) Careful ls m) (hidle : ∀ u, m.pc u = none) (hh : m.holder = none) (t : Nat) (c : Call)
    (hf : ∀ m1 : State, m1.blocks = m.blocks → m1.mem.log = m.mem.log → (∀ u, m.mem.sync .lock u ≤ m1.mem.clk t u) →
      m1.Fair t c) {h' : Heap} {q : Nat} (hd : c.does m.heap = .ok (h', q)) :
    ∃ ls' m', Run (.start h0) Careful ls' m' ∧ m'.heap = h' ∧ (∀ u, m'.pc u = none) ∧ m'.holder = none ∧
      m'.hist = .done t c q :: m.hist ∧ m'.ids = m.ids + 1 ∧ (∀ a ∈ m'.mem.log, a ∈ m.mem.log ∨ a.tag = 0) ∧
      (∀ u, m.mem.clk t u ≤ m'.mem.sync .lock u) ∧
      (∀ p, c = .free p → m'.blocks = m.blocks.filter fun b => b.ptr ≠ p) ∧
      (∀ n, c.wants = some n → q ≠ 0 → ∃ birth, m'.blocks = ⟨q, n, m.ids + 1, birth⟩ :: m.blocks ∧
        ∀ u, birth u ≤ m'.mem.clk t u) ∧
      (c = .freeSize → m'.blocks = m.blocks) ∧ ∀ v u, m.mem.clk v u ≤ m'.mem.clk v u := by
  obtain ⟨m1, r1, e1⟩ : ∃ m1, Run (.start h0) Careful (.lock t :: ls) m1 ∧ m1 = { m with
      mem := m.mem.run t [.acq .lock], holder := some t } := by
    refine ⟨_, .step _ _ _ _ r trivial ?_, rfl⟩
    simp only [step, hidle t, hh]
    rfl
  have f1 : m1.Fair t c := by
    refine hf m1 (by rw [e1]) (by rw [e1]; rfl) fun u => ?_
    rw [e1]
    simp only [Mem.run, Mem.op, put_same]
    omega
  have c1 : ∀ v u, m.mem.clk v u ≤ m1.mem.clk v u := by rw [e1]; exact fun v u => Mem.clk_run _ _ _ _ _
  obtain ⟨m2, r2, a2, b2, d2, g2, i2, j2, k2⟩ := call_goes (c := c) r1 ⟨by rw [e1], f1⟩ (t := t) (by rw [e1]; exact hidle t)
  have hm1 : m1.heap = m.heap := by rw [e1]
  rw [hm1] at a2 b2
  obtain ⟨ls3, m3, r3, g3⟩ := acts (G := Careful) (fun _ => trivial) _ (h' := h') (r := q) r2 (by rw [b2, put_same])
    (by rw [a2, prog_run]; exact hd)
  have p3 : m3.pc t = some (c, .ret q) := by rw [g3.pc, put_same]
  obtain ⟨m4, r4, a4, b4, d4, h4, i4, j4, k4⟩ := ret_goes r3 trivial p3
  have hidle4 : ∀ u, m4.pc u = none := by
    intro u
    rw [b4, g3.pc, put_put, b2, put_put, e1]
    by_cases h : u = t
    · rw [h, put_same]
    · rw [put_ne _ _ h]; exact hidle u
  have hh4 : m4.holder = some t := by rw [d4, g3.holder, d2, e1]
  obtain ⟨m5, r5, e5⟩ : ∃ m5, Run (.start h0) Careful (.unlock t :: .ret t :: ls3) m5 ∧ m5 = { m4 with
      mem := m4.mem.run t [.rel .lock], holder := none } := by
    refine ⟨_, .step _ _ _ _ r4 trivial ?_, rfl⟩
    simp only [step, hidle4 t, hh4]
    rw [if_neg (by simp)]
    rfl
  have hk5 : m5.blocks = blocksAfter m3 (.ret t) := by rw [e5]; exact k4
  have hk2 : m3.blocks = blocksAfter m1 (.call t c) := by rw [g3.blocks, k2]
  refine ⟨_, m5, r5, ?_, ?_, ?_, ?_, ?_, ?_, ?_, ?_, ?_, ?_, ?_⟩
  · rw [e5]; exact a4.trans g3.heap
  · rw [e5]; exact hidle4
  · rw [e5]
  · rw [e5]
    show m4.hist = _
    rw [h4, g3.hist, g2, e1]
  · rw [e5]
    show m4.ids = _
    rw [i4, g3.ids, i2, e1]
  · rw [e5]
    intro a ha
    have ha : a ∈ m4.mem.log := ha
    rw [j4] at ha
    refine (g3.log a ha).imp (fun h => ?_) id
    rw [j2, e1] at h
    exact h
  · intro u
    rw [e5]
    show m.mem.clk t u ≤ (m4.mem.run t [.rel .lock]).sync .lock u
    simp only [Mem.run, Mem.op, put_same]
    have h1 := c1 t u
    have h2 := g3.clk t u
    rw [j2] at h2
    rw [j4]
    omega
  · intro p hp
    subst hp
    rw [hk5]
    simp only [blocksAfter, p3, Call.wants]
    rw [hk2, e1]
    rfl
  · intro n hn hq
    refine ⟨m3.mem.clk t, ?_, fun u => ?_⟩
    · rw [hk5]
      simp only [blocksAfter, p3, hn, if_neg hq]
      rw [hk2, g3.ids, i2, e1]
      congr 1
      cases c <;> try rfl
      cases hn
    · rw [e5]
      show m3.mem.clk t u ≤ (m4.mem.run t [.rel .lock]).clk t u
      rw [j4]
      exact Mem.clk_run _ _ _ _ _
  · intro hc
    subst hc
    rw [hk5]
    simp only [blocksAfter, p3, Call.wants]
    rw [hk2, e1]
    rfl
  · intro v u
    rw [e5]
    refine Nat.le_trans (c1 v u) (Nat.le_trans ?_ (Mem.clk_run _ _ _ _ _))
    have := g3.clk v u
    rw [j2] at this
    rw [j4]
    exact this

/-- Ten bytes, a write, twenty bytes, and the ten bytes back. -/
theorem demo_heaps : ∃ h0 h1 h2 h3, Heap.construct 256 4099 8192 (fun _ => 0) = .ok h0 ∧
    h0.allocate 10 = .ok (h1, 4120) ∧ (poke h1 4125 7).allocate 20 = .ok (h2, 4152) ∧ h2.deallocate 4120 = .ok h3 := by
  have : (match Heap.construct 256 4099 8192 (fun _ => 0) with
    | .ok h0 => (match h0.allocate 10 with
      | .ok (h1, p) => (match (poke h1 4125 7).allocate 20 with
        | .ok (h2, q) => (match h2.deallocate 4120 with | .ok _ => (p, q) | _ => (0, 0))
        | _ => (0, 0))
      | _ => (0, 0))
    | _ => (0, 0)) = (4120, 4152) := by decide +kernel
  split at this
  · rename_i h0 e0
    split at this
    · rename_i h1 p e1
      split at this
      · rename_i h2 q e2
        split at this
        · rename_i h3 e3
          cases this
          exact ⟨h0, h1, h2, h3, e0, e1, e2, e3⟩
        · cases this
      · cases this
    · cases this
  · cases this

/-- Thread 1 gets ten bytes and writes to one of them; thread 2 gets twenty bytes; thread 1 asks how much is free, which
puts its write before what thread 2 does next; thread 2 gives the ten bytes back. -/
theorem demo_run : ∃ h0, Heap.construct 256 4099 8192 (fun _ => 0) = .ok h0 ∧
    (∃ ls m, Run (.start h0) Careful ls m ∧
      m.hist = [.done 2 (.alloc 20) 4152, .wrote 1 4125 7, .done 1 (.alloc 10) 4120] ∧
      m.blocks.map (fun b => (b.ptr, b.len)) = [(4152, 20), (4120, 10)]) ∧
    ∃ ls m r, Run (.start h0) Careful ls m ∧ m.hist = [.done 2 (.free 4120) 0, .done 1 .freeSize r,
      .done 2 (.alloc 20) 4152, .wrote 1 4125 7, .done 1 (.alloc 10) 4120] ∧
      m.blocks.map (fun b => (b.ptr, b.len)) = [(4152, 20)] := by
  obtain ⟨h0, h1, h2, h3, e0, e1, e2, e3⟩ := demo_heaps
  refine ⟨h0, e0, ?_⟩
  obtain ⟨ls1, m1, r1, a1, b1, c1, d1, i1, j1, k1, _, f1, _⟩ := turn (h0 := h0) .start (fun _ => rfl) rfl 1 (.alloc 10)
    (fun _ _ _ _ => by show 10 < 2 ^ 64; decide) (h' := h1) (q := 4120) e1
  obtain ⟨birth, f1, f2⟩ := f1 10 rfl (by decide)
  have j1 : ∀ a ∈ m1.mem.log, a.tag = 0 := fun a ha => (j1 a ha).elim (fun h => by cases h) id
  have f1 : m1.blocks = [⟨4120, 10, 1, birth⟩] := f1
  have may : m1.May 1 4125 true := by
    refine ⟨_, by rw [f1]; exact List.mem_singleton.mpr rfl, by rfl, f2, ?_⟩
    rintro ⟨a, ha, _, h, _⟩
    rw [j1 a ha] at h
    cases h
  obtain ⟨m2, r2, x2⟩ : ∃ m2, Run (.start h0) Careful (.write 1 4125 7 :: ls1) m2 ∧ m2 = { m1 with
      mem := m1.mem.run 1 [.acc (.byte 4125) true (m1.idAt 4125)], heap := poke m1.heap 4125 7,
      hist := .wrote 1 4125 7 :: m1.hist } := by
    refine ⟨_, .step _ _ _ (.write 1 4125 7) r1 may ?_, rfl⟩
    simp only [step, b1 1]
    rfl
  have l2 : ∀ a ∈ m2.mem.log, a.tag ≠ 0 → a.who = 1 ∧ a.time ≤ m2.mem.clk 1 1 := by
    rw [x2]
    intro a ha h
    rcases run_log _ _ _ a ha with h' | ⟨h1, h2, _⟩
    · exact absurd (j1 a h') h
    · exact ⟨h1, h2⟩
  obtain ⟨ls3, m3, r3, a3, b3, c3, d3, i3, j3, k3, _, f3, _, n3⟩ := turn r2 (by rw [x2]; exact b1) (by rw [x2]; exact c1) 2
    (.alloc 20) (fun _ _ _ _ => by show 20 < 2 ^ 64; decide) (h' := h2) (q := 4152)
    (by rw [x2]; show (poke m1.heap 4125 7).allocate 20 = _; rw [a1]; exact e2)
  obtain ⟨birth3, f3, _⟩ := f3 20 rfl (by decide)
  have f3 : m3.blocks = [⟨4152, 20, m2.ids + 1, birth3⟩, ⟨4120, 10, 1, birth⟩] := by
    rw [f3, x2]; show _ :: m1.blocks = _; rw [f1]
  have d3 : m3.hist = [.done 2 (.alloc 20) 4152, .wrote 1 4125 7, .done 1 (.alloc 10) 4120] := by
    rw [d3, x2]; show _ :: _ :: m1.hist = _; rw [d1]; rfl
  refine ⟨⟨ls3, m3, r3, d3, by rw [f3]; rfl⟩, ?_⟩
  obtain ⟨ls4, m4, r4, a4, b4, c4, d4, i4, j4, k4, _, _, f4, n4⟩ := turn r3 b3 c3 1 .freeSize (fun _ _ _ _ => trivial) rfl
  have f4 := f4 rfl
  have hlog : ∀ a ∈ m4.mem.log, a.tag = 1 → a.time ≤ m4.mem.sync .lock a.who := by
    intro a ha h
    have h0 : a.tag ≠ 0 := by rw [h]; decide
    obtain ⟨hw, ht⟩ := l2 a ((j3 a ((j4 a ha).resolve_right h0)).resolve_right h0) h0
    rw [hw]
    exact Nat.le_trans ht (Nat.le_trans (n3 1 1) (k4 1))
  obtain ⟨ls5, m5, r5, a5, b5, c5, d5, i5, j5, k5, f5, _⟩ := turn r4 b4 c4 2 (.free 4120) (fun m' hb hl hs => by
    refine .inr ⟨⟨4120, 10, 1, birth⟩, by rw [hb, f4, f3]; simp, rfl, fun a ha h => ?_⟩
    rw [hl] at ha
    exact Nat.le_trans (hlog a ha h) (hs _)) (h' := h3) (q := 0) (by
      rw [a4, a3]
      simp only [Call.does, e3, Res.ok_bind])
  refine ⟨ls5, m5, _, r5, by rw [d5, d4, d3], ?_⟩
  rw [f5 4120 rfl, f4, f3]
  rfl

/-- C129, C130: the hypotheses can be met. -/
example : ∃ h0 ls m, Layout 256 4099 8192 ∧ Roomy 256 4099 ∧ Heap.construct 256 4099 8192 (fun _ => 0) = .ok h0 ∧
    Run (.start h0) Careful ls m ∧ m.blocks.length = 2 ∧ lastTo 4125 m.hist = some 7 := by
  obtain ⟨h0, e0, ⟨ls, m, r, hh, hb⟩, _⟩ := demo_run
  refine ⟨h0, ls, m, demo_layout, demo_roomy, e0, r, ?_, by rw [hh]; decide⟩
  have := congrArg List.length hb
  rw [List.length_map] at this
  exact this

/-- C130: a block can be given back by a thread that did not get it. -/
example : ∃ h0 ls m, Heap.construct 256 4099 8192 (fun _ => 0) = .ok h0 ∧ Run (.start h0) Careful ls m ∧
    .done 1 (.alloc 10) 4120 ∈ m.hist ∧ .done 2 (.free 4120) 0 ∈ m.hist := by
  obtain ⟨h0, e0, _, ls, m, r, r', hh, _⟩ := demo_run
  exact ⟨h0, ls, m, e0, r', by rw [hh]; simp, by rw [hh]; simp⟩

/-- C129: the hypotheses can be met. -/
example : ∃ w h' p, Layout 256 4099 8192 ∧ Roomy 256 4099 ∧ Reach 256 4099 8192 w ∧ w.heap.allocate 10 = .ok (h', p) ∧
    p ≠ 0 := by
  obtain ⟨h0, h1, _, _, e0, e1, _⟩ := demo_heaps
  exact ⟨.start h0, h1, 4120, demo_layout, demo_roomy, .init e0, e1, by decide⟩

/-- A thread alone does not race. -/
theorem alone {h : Heap} {t : Nat} (r : Run (.start h) (fun _ l => l.Plain ∧ l.who = t) ls m) :
    (∀ a ∈ m.mem.log, a.who = t ∧ a.time ≤ m.mem.clk t t) ∧ Run (.start h) (fun m l => l.Plain ∧ ¬ Race m l) ls m := by
  induction r with
  | start => exact ⟨fun a ha => (nomatch ha), .start⟩
  | step ls m m' l _ hg hs ih =>
    refine ⟨fun a ha => ?_, .step _ _ _ _ ih.2 ⟨hg.1, fun h => ?_⟩ hs⟩
    · rw [step_mem hs, hg.2] at ha ⊢
      rcases run_log _ _ _ a ha with h | ⟨h1, h2, _⟩
      · exact ⟨(ih.1 a h).1, Nat.le_trans (ih.1 a h).2 (Mem.clk_run _ _ _ _ _)⟩
      · exact ⟨h1, h2⟩
    · obtain ⟨a, ha, _, _, _, _, h⟩ := races_before h
      have := ih.1 a ha
      rw [hg.2, this.1] at h
      omega

/-- C129: the hypotheses can be met. -/
example : ∃ h ls m, Run (.start h) (fun m l => l.Plain ∧ ¬ Race m l) ls m ∧ .done 1 (.alloc 10) 4120 ∈ m.hist := by
  obtain ⟨h0, h1, _, _, e0, e1, _⟩ := demo_heaps
  obtain ⟨m1, r1, a1, b1, _⟩ := call_goes (c := .alloc 10) (t := 1) (i := .start h0)
    (G := fun _ l => l.Plain ∧ l.who = 1) .start ⟨trivial, rfl⟩ rfl
  obtain ⟨ls2, m2, r2, g2⟩ := acts (fun _ => ⟨trivial, rfl⟩) _ (h' := h1) (r := 4120) r1 (by rw [b1, put_same])
    (by rw [a1, prog_run]; exact e1)
  obtain ⟨m3, r3, _, _, _, c3, _⟩ := ret_goes r2 ⟨trivial, rfl⟩ (by rw [g2.pc, put_same])
  exact ⟨h0, _, m3, (alone r3).2, by rw [c3]; exact List.mem_cons_self⟩

end

end Verif.Heap.Conc
