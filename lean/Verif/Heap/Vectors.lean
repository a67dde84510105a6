import Verif.Heap.Allocator
/-!
Property C177: any number of vectors that share a heap through `static_heap_allocator` (static_heap_allocator.hpp:42-56).

The vectors are those of a client: `std::vector` with elements of `e` bytes that are copied as bytes.  A `push` that finds the block full asks the
allocator for a larger one, copies, and gives the old one back; the capacities grow in any way (`grow`).  Whatever the vectors do to the heap
counts as undefined unless it is legal (`Legal`, `reads`): they read and write only their blocks and give back only what they got.
-/
namespace Verif.Heap.Vectors
open Verif Verif.Heap

/-- An operation on the heap; undefined if it is not legal (static_heap.hpp). -/
def act (w : World) (op : Op) : Res (World × Nat) := if Legal w op then w.step op else .ub

/-- The request of a vector is `allocate` of the allocator (static_heap_allocator.hpp:42-50): the same heap and pointer, an exception for null. -/
theorem through_allocator {w w' : World} {n e p : Nat} (hn : n * e < 2 ^ 64) (h : act w (.alloc (n * e)) = .ok (w', p)) :
    Allocator.allocate w.heap e n = .ok (if p ≠ 0 then .ptr w'.heap p else .badAlloc w'.heap) := by
  rw [act, if_pos (show Legal w (.alloc (n * e)) from hn)] at h
  have hmul : wmul n e = n * e := Nat.mod_eq_of_lt hn
  unfold Allocator.allocate
  rw [hmul]
  simp only [World.step] at h
  cases ha : w.heap.allocate (n * e) with
  | ub => rw [ha] at h; exact nomatch h
  | hang => rw [ha] at h; exact nomatch h
  | ok q =>
    rw [ha] at h
    obtain ⟨h', q⟩ := q
    cases h
    have hh : (w.afterAlloc h' q (n * e) none).heap = h' := by unfold World.afterAlloc; split <;> rfl
    rw [hh]
    by_cases hq : q = 0 <;> simp [Bind.bind, Res.bind, hq]

/-- Write bytes from `p` on (no code). -/
def writes (w : World) (p : Nat) : List Byte → Res World
  | [] => .ok w
  | b :: bs => do
    let (w, _) ← act w (.write p b)
    writes w (p + 1) bs

/-- Read `n` bytes from `p` on (no code). -/
def readN (m : Mem) (p n : Nat) : List Byte := (List.range n).map fun k => m (p + k)

/-- A read by a client: undefined unless the bytes lie in a block that it has (no code). -/
def reads (w : World) (p n : Nat) : Res (List Byte) :=
  if n = 0 ∨ ∃ l ∈ w.live, l.ptr ≤ p ∧ p + n ≤ l.ptr + l.len then .ok (readN w.heap.mem p n) else .ub

/-- The members of a vector; the pointer is null if the capacity is 0 (no code). -/
structure Vec where
  ptr : Nat
  size : Nat
  cap : Nat
  deriving DecidableEq, Repr

/-- The heap and the vectors (no code). -/
structure St where
  w : World
  vecs : Nat → Vec

/-- A function changed in one place (no code). -/
def set (f : Nat → Vec) (i : Nat) (v : Vec) : Nat → Vec := fun j => if j = i then v else f j

/-- `push_back` with an element whose bytes are `x`; the result says whether it returned or threw (`std::length_error`, or `std::bad_alloc`
of static_heap_allocator.hpp:42-50). -/
def push (e : Nat) (grow : Nat → Nat) (s : St) (i : Nat) (x : List Byte) : Res (St × Bool) :=
  let v := s.vecs i
  if v.size < v.cap then do
    let w ← writes s.w (v.ptr + v.size * e) x
    .ok (⟨w, set s.vecs i { v with size := v.size + 1 }⟩, true)
  else if 2 ^ 63 ≤ grow v.cap * e then .ok (s, false)
  else do
    let (w, p) ← act s.w (.alloc (grow v.cap * e))
    if p = 0 then .ok (⟨w, s.vecs⟩, false)
    else do
      let old ← reads w v.ptr (v.size * e)
      let w ← writes w p (old ++ x)
      let (w, _) ← act w (.free v.ptr)
      .ok (⟨w, set s.vecs i ⟨p, v.size + 1, grow v.cap⟩⟩, true)

/-- `pop_back`, if there is an element (no code). -/
def pop (s : St) (i : Nat) : St :=
  let v := s.vecs i
  ⟨s.w, set s.vecs i { v with size := v.size - 1 }⟩

/-- Assign the element at `k`; there has to be one (no code). -/
def assign (e : Nat) (s : St) (i k : Nat) (x : List Byte) : Res St :=
  let v := s.vecs i
  if k < v.size then do
    let w ← writes s.w (v.ptr + k * e) x
    .ok ⟨w, s.vecs⟩
  else .ub

/-- The vector is destroyed, or swapped with an empty one (static_heap_allocator.hpp:52-56). -/
def drop (s : St) (i : Nat) : Res St := do
  let (w, _) ← act s.w (.free (s.vecs i).ptr)
  .ok ⟨w, set s.vecs i ⟨0, 0, 0⟩⟩

/-- What a vector holds, as it would be read (no code). -/
def content (e : Nat) (s : St) (i : Nat) : List Byte := readN s.w.heap.mem (s.vecs i).ptr ((s.vecs i).size * e)

/-- The histories (no code). -/
inductive Hist (size base st e : Nat) (grow : Nat → Nat) : St → Prop
  | new {mem : Mem} {h : Heap} : Heap.construct size base st mem = .ok h → Hist size base st e grow ⟨.start h, fun _ => ⟨0, 0, 0⟩⟩
  | push {s s' : St} {i : Nat} {x : List Byte} {r : Bool} : Hist size base st e grow s → x.length = e →
      push e grow s i x = .ok (s', r) → Hist size base st e grow s'
  | pop {s : St} {i : Nat} : Hist size base st e grow s → Hist size base st e grow (pop s i)
  | assign {s s' : St} {i k : Nat} {x : List Byte} : Hist size base st e grow s → x.length = e → k < (s.vecs i).size →
      assign e s i k x = .ok s' → Hist size base st e grow s'
  | drop {s s' : St} {i : Nat} : Hist size base st e grow s → drop s i = .ok s' → Hist size base st e grow s'

variable {size base st e : Nat} {grow : Nat → Nat}

/-- What holds between the vectors and the heap. -/
structure Inv (size base st e : Nat) (s : St) : Prop where
  reach : Reach size base st s.w
  le : ∀ i, (s.vecs i).size ≤ (s.vecs i).cap
  null : ∀ i, (s.vecs i).cap = 0 → (s.vecs i).ptr = 0
  block : ∀ i, 0 < (s.vecs i).cap → ∃ l ∈ s.w.live, l.ptr = (s.vecs i).ptr ∧ l.len = (s.vecs i).cap * e
  apart : ∀ i j, i ≠ j → 0 < (s.vecs i).cap → 0 < (s.vecs j).cap → (s.vecs i).ptr ≠ (s.vecs j).ptr
  owned : ∀ l ∈ s.w.live, ∃ i, 0 < (s.vecs i).cap ∧ l.ptr = (s.vecs i).ptr

theorem readN_length (m : Mem) (p n : Nat) : (readN m p n).length = n := by simp [readN]

theorem readN_congr {m m' : Mem} {p n : Nat} (h : ∀ a, p ≤ a → a < p + n → m' a = m a) : readN m' p n = readN m p n := by
  refine List.map_congr_left fun k hk => h _ (by omega) ?_
  have := List.mem_range.mp hk
  omega

theorem readN_append (m : Mem) (p n k : Nat) : readN m p (n + k) = readN m p n ++ readN m (p + n) k := by
  simp only [readN, List.range_add, List.map_append, List.map_map, Function.comp_def, Nat.add_assoc]

theorem readN_eq {m : Mem} {p : Nat} {bs : List Byte} (h : ∀ a, p ≤ a → a < p + bs.length → some (m a) = bs[a - p]?) :
    readN m p bs.length = bs := by
  refine List.ext_getElem? fun k => ?_
  by_cases hk : k < bs.length
  · rw [readN, List.getElem?_map, List.getElem?_range hk, Option.map_some, h (p + k) (by omega) (by omega)]
    congr 1
    omega
  · rw [List.getElem?_eq_none (by rw [readN_length]; omega), List.getElem?_eq_none (by omega)]

/-- Writing inside a block is legal and changes these bytes only. -/
theorem writes_ok : ∀ (bs : List Byte) {w : World} {p : Nat} {l : Live}, Reach size base st w → l ∈ w.live → l.ptr ≤ p →
    p + bs.length ≤ l.ptr + l.len → ∃ w', writes w p bs = .ok w' ∧ Reach size base st w' ∧ w'.live = w.live ∧
      (∀ a, p ≤ a → a < p + bs.length → some (w'.heap.mem a) = bs[a - p]?) ∧
      ∀ a, a < p ∨ p + bs.length ≤ a → w'.heap.mem a = w.heap.mem a
  | [], w, p, l, hr, _, _, _ => ⟨w, rfl, hr, rfl, fun a h1 h2 => by simp at h2; omega, fun _ _ => rfl⟩
  | b :: bs, w, p, l, hr, hl, h1, h2 => by
    simp only [List.length_cons] at h2
    have hlegal : Legal w (.write p b) := ⟨l, hl, h1, by omega⟩
    obtain ⟨w1, hw1⟩ : ∃ w1, w.step (.write p b) = .ok (w1, 0) := ⟨_, rfl⟩
    have hm : ∀ a, w1.heap.mem a = if a = p then b else w.heap.mem a := by cases hw1; intro a; rfl
    have hlive : w1.live = w.live := by cases hw1; rfl
    obtain ⟨w', e1, e2, e3, e4, e5⟩ := writes_ok bs (Reach.step hr hlegal hw1) (hlive ▸ hl) (Nat.le_succ_of_le h1) (by omega)
    refine ⟨w', ?_, e2, e3.trans hlive, fun a ha1 ha2 => ?_, fun a ha => ?_⟩
    · rw [writes, act, if_pos hlegal, hw1]
      exact e1
    · simp only [List.length_cons] at ha2
      by_cases hap : a = p
      · subst hap
        rw [e5 a (by omega), hm, if_pos rfl]
        simp
      · rw [e4 a (by omega) (by omega), show a - p = (a - (p + 1)) + 1 by omega, List.getElem?_cons_succ]
    · simp only [List.length_cons] at ha
      rw [e5 a (by omega), hm, if_neg (by omega)]

theorem pairwise_mem {α : Type} {R : α → α → Prop} (hs : ∀ a b, R a b → R b a) : ∀ {l : List α}, l.Pairwise R →
    ∀ a ∈ l, ∀ b ∈ l, a ≠ b → R a b
  | [], _, a, ha, _, _, _ => absurd ha (by simp)
  | x :: l, h, a, ha, b, hb, hne => by
    obtain ⟨h1, h2⟩ := List.pairwise_cons.mp h
    rcases List.mem_cons.mp ha with ha' | ha'
    · rcases List.mem_cons.mp hb with hb' | hb'
      · exact absurd (ha'.trans hb'.symm) hne
      · exact ha' ▸ h1 b hb'
    · rcases List.mem_cons.mp hb with hb' | hb'
      · exact hb' ▸ hs _ _ (h1 a ha')
      · exact pairwise_mem hs h2 a ha' b hb' hne

theorem disjoint (hl : Layout size base st) (hr : Roomy size base) {w : World} (hw : Reach size base st w) {l k : Live} (h1 : l ∈ w.live)
    (h2 : k ∈ w.live) (hne : l.ptr ≠ k.ptr) : l.ptr + l.len ≤ k.ptr ∨ k.ptr + k.len ≤ l.ptr :=
  pairwise_mem (R := fun l k : Live => l.ptr + l.len ≤ k.ptr ∨ k.ptr + k.len ≤ l.ptr) (fun _ _ h => h.symm)
    (C03_disjoint hl hr hw).1 l h1 k h2 (fun h => hne (by rw [h]))

/-- Bytes written into the block of one vector leave the contents of the others alone. -/
theorem others (hl : Layout size base st) (hr : Roomy size base) {s : St} (hi : Inv size base st e s) {i : Nat} {w' : World} {p n : Nat}
    {l : Live} (hlv : l ∈ s.w.live) (hp : l.ptr = (s.vecs i).ptr) (h1 : l.ptr ≤ p) (h2 : p + n ≤ l.ptr + l.len)
    (hm : ∀ a, a < p ∨ p + n ≤ a → w'.heap.mem a = s.w.heap.mem a) (hcap : 0 < (s.vecs i).cap) (j : Nat) (hj : j ≠ i) :
    readN w'.heap.mem (s.vecs j).ptr ((s.vecs j).size * e) = content e s j := by
  by_cases hc : 0 < (s.vecs j).cap
  · obtain ⟨k, k1, k2, k3⟩ := hi.block j hc
    have hd := disjoint hl hr hi.reach hlv k1 (by rw [hp, k2]; exact hi.apart i j (Ne.symm hj) hcap hc)
    have hle := Nat.mul_le_mul_right e (hi.le j)
    refine readN_congr fun a ha1 ha2 => hm a ?_
    rw [← k2] at ha1 ha2
    omega
  · have hz : (s.vecs j).size = 0 := by have := hi.le j; omega
    simp [content, readN, hz]

theorem alloc_ok (hl : Layout size base st) (hr : Roomy size base) {w : World} (hw : Reach size base st w) {n : Nat} (hn : n < 2 ^ 64) :
    ∃ w' p, act w (.alloc n) = .ok (w', p) ∧ Reach size base st w' ∧ (p = 0 → w'.live = w.live) ∧
      (p ≠ 0 → ∃ c, w'.live = ⟨p, n, c⟩ :: w.live) ∧
      ∀ l ∈ w.live, ∀ a, l.ptr ≤ a → a < l.ptr + l.len → w'.heap.mem a = w.heap.mem a := by
  have hlg : Legal w (.alloc n) := hn
  obtain ⟨w', p, h1, _⟩ := (C01_safe_and_terminating hl hr).2 w hw _ hlg
  have hlive : (p = 0 → w'.live = w.live) ∧ (p ≠ 0 → ∃ c, w'.live = ⟨p, n, c⟩ :: w.live) := by
    have h2 := h1
    simp only [World.step] at h2
    cases ha : w.heap.allocate n with
    | ub => rw [ha] at h2; exact nomatch h2
    | hang => rw [ha] at h2; exact nomatch h2
    | ok q =>
      rw [ha] at h2
      obtain ⟨h', q⟩ := q
      cases h2
      unfold World.afterAlloc
      refine ⟨fun h => by rw [if_pos h], fun h => ⟨_, by rw [if_neg h]⟩⟩
  refine ⟨w', p, by rw [act, if_pos hlg, h1], Reach.step hw hlg h1, hlive.1, hlive.2, fun l hlv a ha1 ha2 => ?_⟩
  refine (C04_contents_preserved hl hr hw).1 _ _ _ hlg (fun _ _ h => nomatch h) h1 l hlv ?_ a ha1 ha2
  by_cases hp : p = 0
  · rw [hlive.1 hp]; exact hlv
  · obtain ⟨c, hc⟩ := hlive.2 hp
    rw [hc]; exact List.mem_cons_of_mem _ hlv

theorem free_ok (hl : Layout size base st) (hr : Roomy size base) {w : World} (hw : Reach size base st w) {p : Nat}
    (hp : p = 0 ∨ ∃ l ∈ w.live, l.ptr = p) :
    ∃ w', act w (.free p) = .ok (w', 0) ∧ Reach size base st w' ∧ (∀ l, l ∈ w'.live ↔ l ∈ w.live ∧ l.ptr ≠ p) ∧
      ∀ l ∈ w.live, l.ptr ≠ p → ∀ a, l.ptr ≤ a → a < l.ptr + l.len → w'.heap.mem a = w.heap.mem a := by
  have hlg : Legal w (.free p) := hp
  obtain ⟨w', q, h1, _⟩ := (C01_safe_and_terminating hl hr).2 w hw _ hlg
  have hlive : q = 0 ∧ ∀ l, l ∈ w'.live ↔ l ∈ w.live ∧ l.ptr ≠ p := by
    have h2 := h1
    simp only [World.step] at h2
    cases ha : w.heap.deallocate p with
    | ub => rw [ha] at h2; exact nomatch h2
    | hang => rw [ha] at h2; exact nomatch h2
    | ok h' =>
      rw [ha] at h2
      cases h2
      exact ⟨rfl, fun l => by simp [List.mem_filter]⟩
  obtain ⟨rfl, hlive⟩ := hlive
  refine ⟨w', by rw [act, if_pos hlg, h1], Reach.step hw hlg h1, hlive, fun l hlv hne a ha1 ha2 => ?_⟩
  exact (C04_contents_preserved hl hr hw).1 _ _ _ hlg (fun _ _ h => nomatch h) h1 l hlv ((hlive l).2 ⟨hlv, hne⟩) a ha1 ha2

theorem live_pos (hl : Layout size base st) (hr : Roomy size base) {w : World} (hw : Reach size base st w) {l : Live} (h : l ∈ w.live) :
    0 < l.ptr ∧ 0 < l.len := by
  have := (C03_disjoint hl hr hw).2.2 l h
  omega

theorem inv_new {mem : Mem} {h : Heap} (hc : Heap.construct size base st mem = .ok h) :
    Inv size base st e ⟨.start h, fun _ => ⟨0, 0, 0⟩⟩ where
  reach := .init hc
  le := fun _ => Nat.le_refl _
  null := fun _ _ => rfl
  block := fun _ h => absurd h (Nat.lt_irrefl _)
  apart := fun _ _ _ h => absurd h (Nat.lt_irrefl _)
  owned := fun _ h => absurd h (by simp [World.start])

/-- The vectors over the same blocks, with other bytes in them and another size of one. -/
theorem Inv.resize {s : St} (hi : Inv size base st e s) {w' : World} (hw : Reach size base st w') (hlive : w'.live = s.w.live) {i n : Nat}
    (hn : n ≤ (s.vecs i).cap) : Inv size base st e ⟨w', set s.vecs i { s.vecs i with size := n }⟩ := by
  have hp : ∀ j, (set s.vecs i { s.vecs i with size := n } j).ptr = (s.vecs j).ptr := by
    intro j; unfold set; split
    · next h => rw [h]
    · rfl
  have hc : ∀ j, (set s.vecs i { s.vecs i with size := n } j).cap = (s.vecs j).cap := by
    intro j; unfold set; split
    · next h => rw [h]
    · rfl
  refine ⟨hw, fun j => ?_, fun j => ?_, fun j => ?_, fun j k => ?_, fun l hlv => ?_⟩
  · dsimp only
    rw [hc]
    unfold set
    split
    · next h => rw [h]; exact hn
    · exact hi.le j
  · dsimp only; rw [hp, hc]; exact hi.null j
  · dsimp only; rw [hp, hc, hlive]; exact hi.block j
  · dsimp only; rw [hp, hp, hc, hc]; exact hi.apart j k
  · dsimp only at hlv
    rw [hlive] at hlv
    obtain ⟨j, j1, j2⟩ := hi.owned l hlv
    exact ⟨j, by dsimp only; rw [hc]; exact j1, by dsimp only; rw [hp]; exact j2⟩

theorem set_same (f : Nat → Vec) (i : Nat) (v : Vec) : set f i v i = v := by simp [set]
theorem set_other (f : Nat → Vec) {i j : Nat} (v : Vec) (h : j ≠ i) : set f i v j = f j := by simp [set, h]

/-- What `push` does. -/
theorem push_spec (hl : Layout size base st) (hr : Roomy size base) (he : 0 < e) (hg : ∀ c, c < grow c) {s : St} (hi : Inv size base st e s)
    (i : Nat) {x : List Byte} (hx : x.length = e) : ∃ s' r, push e grow s i x = .ok (s', r) ∧ Inv size base st e s' ∧
      content e s' i = (if r then content e s i ++ x else content e s i) ∧ ∀ j, j ≠ i → content e s' j = content e s j := by
  unfold push
  dsimp only
  by_cases hroom : (s.vecs i).size < (s.vecs i).cap
  · rw [if_pos hroom]
    obtain ⟨l, l1, l2, l3⟩ := hi.block i (by omega)
    have hmul : ((s.vecs i).size + 1) * e ≤ (s.vecs i).cap * e := Nat.mul_le_mul_right e hroom
    rw [Nat.succ_mul] at hmul
    have hin : (s.vecs i).ptr + (s.vecs i).size * e + x.length ≤ l.ptr + l.len := by rw [l2, l3, hx]; omega
    obtain ⟨w', e1, e2, e3, e4, e5⟩ := writes_ok x (p := (s.vecs i).ptr + (s.vecs i).size * e) hi.reach l1 (by omega) hin
    rw [e1]
    refine ⟨_, true, rfl, hi.resize e2 e3 hroom, ?_, fun j hj => ?_⟩
    · rw [if_pos rfl]
      unfold content
      dsimp only
      rw [set_same]
      dsimp only
      rw [Nat.succ_mul, readN_append, readN_congr (fun a _ h => e5 a (Or.inl h))]
      congr 1
      rw [← hx] at e4 e1 ⊢
      exact readN_eq e4
    · unfold content
      dsimp only
      rw [set_other _ _ hj]
      exact others hl hr hi l1 l2 (by omega) hin e5 (by omega) j hj
  · rw [if_neg hroom]
    by_cases hbig : 2 ^ 63 ≤ grow (s.vecs i).cap * e
    · rw [if_pos hbig]
      exact ⟨s, false, rfl, hi, by simp, fun _ _ => rfl⟩
    · rw [if_neg hbig]
      obtain ⟨w1, p, a1, a2, a3, a4, a5⟩ := alloc_ok hl hr hi.reach (n := grow (s.vecs i).cap * e) (by omega)
      rw [a1]
      dsimp only [Bind.bind, Res.bind]
      have hold : ∀ j, readN w1.heap.mem (s.vecs j).ptr ((s.vecs j).size * e) = content e s j := by
        intro j
        by_cases hc : 0 < (s.vecs j).cap
        · obtain ⟨k, k1, k2, k3⟩ := hi.block j hc
          have hle := Nat.mul_le_mul_right e (hi.le j)
          exact readN_congr fun a h1 h2 => a5 k k1 a (by omega) (by omega)
        · have hz : (s.vecs j).size = 0 := by have := hi.le j; omega
          simp [content, readN, hz]
      by_cases hp : p = 0
      · rw [if_pos hp]
        refine ⟨_, false, rfl, ?_, ?_, fun j _ => hold j⟩
        · exact ⟨a2, hi.le, hi.null, by dsimp only; rw [a3 hp]; exact hi.block, hi.apart, by dsimp only; rw [a3 hp]; exact hi.owned⟩
        · simp only [Bool.false_eq_true, if_false]
          exact hold i
      · rw [if_neg hp]
        obtain ⟨c, hc⟩ := a4 hp
        have hmem : (⟨p, grow (s.vecs i).cap * e, c⟩ : Live) ∈ w1.live := by rw [hc]; exact List.mem_cons_self
        have hgi := hg (s.vecs i).cap
        have hlei := hi.le i
        have hmul : ((s.vecs i).size + 1) * e ≤ grow (s.vecs i).cap * e := Nat.mul_le_mul_right e (by omega)
        rw [Nat.succ_mul] at hmul
        have hlen : (readN w1.heap.mem (s.vecs i).ptr ((s.vecs i).size * e) ++ x).length = (s.vecs i).size * e + e := by
          rw [List.length_append, readN_length, hx]
        obtain ⟨w2, e1, e2, e3, e4, e5⟩ := writes_ok (readN w1.heap.mem (s.vecs i).ptr ((s.vecs i).size * e) ++ x) (p := p) a2 hmem
          (Nat.le_refl _) (by rw [hlen]; dsimp only; omega)
        have hread : reads w1 (s.vecs i).ptr ((s.vecs i).size * e) = .ok (readN w1.heap.mem (s.vecs i).ptr ((s.vecs i).size * e)) := by
          refine if_pos ?_
          by_cases h0 : (s.vecs i).cap = 0
          · exact Or.inl (by rw [show (s.vecs i).size = 0 by omega, Nat.zero_mul])
          · obtain ⟨k, k1, k2, k3⟩ := hi.block i (by omega)
            have hle := Nat.mul_le_mul_right e hlei
            exact Or.inr ⟨k, by rw [hc]; exact List.mem_cons_of_mem _ k1, by omega, by omega⟩
        rw [hread]
        dsimp only [Bind.bind, Res.bind]
        rw [e1]
        dsimp only [Bind.bind, Res.bind]
        have hfresh : ∀ l ∈ s.w.live, (p + grow (s.vecs i).cap * e ≤ l.ptr ∨ l.ptr + l.len ≤ p) ∧ l.ptr ≠ p := by
          intro l hlv
          have hd := (C03_disjoint hl hr a2).1
          rw [hc] at hd
          have hd := (List.pairwise_cons.mp hd).1 l hlv
          dsimp only at hd
          have hpos := live_pos hl hr hi.reach hlv
          refine ⟨hd, ?_⟩
          omega
        have hptr : p ≠ (s.vecs i).ptr := by
          by_cases h0 : (s.vecs i).cap = 0
          · rw [hi.null i h0]; exact hp
          · obtain ⟨k, k1, k2, _⟩ := hi.block i (by omega)
            rw [← k2]; exact Ne.symm (hfresh k k1).2
        have hfree : (s.vecs i).ptr = 0 ∨ ∃ l ∈ w2.live, l.ptr = (s.vecs i).ptr := by
          by_cases h0 : (s.vecs i).cap = 0
          · exact Or.inl (hi.null i h0)
          · obtain ⟨k, k1, k2, _⟩ := hi.block i (by omega)
            exact Or.inr ⟨k, by rw [e3, hc]; exact List.mem_cons_of_mem _ k1, k2⟩
        obtain ⟨w3, f1, f2, f3, f4⟩ := free_ok hl hr e2 hfree
        rw [f1]
        have hoff : ∀ j, j ≠ i → ∀ k ∈ s.w.live, k.ptr = (s.vecs j).ptr → 0 < (s.vecs j).cap → k.ptr ≠ (s.vecs i).ptr := by
          intro j hj k k1 k2 hcj
          by_cases h0 : (s.vecs i).cap = 0
          · have := live_pos hl hr hi.reach k1
            rw [hi.null i h0]; omega
          · rw [k2]; exact hi.apart j i hj hcj (by omega)
        refine ⟨_, true, rfl, ?_, ?_, fun j hj => ?_⟩
        · refine ⟨f2, fun j => ?_, fun j => ?_, fun j => ?_, fun j k => ?_, fun l hlv => ?_⟩
          · by_cases hj : j = i
            · subst hj; dsimp only; rw [set_same]; dsimp only; omega
            · dsimp only; rw [set_other _ _ hj]; exact hi.le j
          · by_cases hj : j = i
            · subst hj; dsimp only; rw [set_same]; dsimp only; omega
            · dsimp only; rw [set_other _ _ hj]; exact hi.null j
          · by_cases hj : j = i
            · subst hj
              dsimp only
              rw [set_same]
              intro _
              exact ⟨_, (f3 _).2 ⟨by rw [e3]; exact hmem, hptr⟩, rfl, rfl⟩
            · dsimp only
              rw [set_other _ _ hj]
              intro hcj
              obtain ⟨k, k1, k2, k3⟩ := hi.block j hcj
              exact ⟨k, (f3 k).2 ⟨by rw [e3, hc]; exact List.mem_cons_of_mem _ k1, hoff j hj k k1 k2 hcj⟩, k2, k3⟩
          · dsimp only
            intro hjk
            have hnew : ∀ j, j ≠ i → 0 < (s.vecs j).cap → (s.vecs j).ptr ≠ p := by
              intro j hj hcj
              obtain ⟨m, m1, m2, _⟩ := hi.block j hcj
              rw [← m2]; exact (hfresh m m1).2
            by_cases hj : j = i
            · subst hj
              rw [set_same, set_other _ _ (Ne.symm hjk)]
              intro _ hck
              exact Ne.symm (hnew k (Ne.symm hjk) hck)
            · by_cases hk : k = i
              · subst hk
                rw [set_same, set_other _ _ hj]
                intro hcj _
                exact hnew j hj hcj
              · rw [set_other _ _ hj, set_other _ _ hk]
                exact hi.apart j k hjk
          · obtain ⟨g1, g2⟩ := (f3 l).1 hlv
            rw [e3, hc] at g1
            rcases List.mem_cons.mp g1 with rfl | g1
            · exact ⟨i, by dsimp only; rw [set_same]; dsimp only; omega, by dsimp only; rw [set_same]⟩
            · obtain ⟨j, j1, j2⟩ := hi.owned l g1
              have hj : j ≠ i := fun h => g2 (by rw [j2, h])
              exact ⟨j, by dsimp only; rw [set_other _ _ hj]; exact j1, by dsimp only; rw [set_other _ _ hj]; exact j2⟩
        · rw [if_pos rfl]
          unfold content
          dsimp only
          rw [set_same]
          dsimp only
          rw [Nat.succ_mul]
          have h1 : readN w3.heap.mem p ((s.vecs i).size * e + e) = readN w2.heap.mem p ((s.vecs i).size * e + e) :=
            readN_congr fun a h1 h2 => f4 _ (by rw [e3]; exact hmem) hptr a h1 (by dsimp only; omega)
          rw [h1]
          have h2 := readN_eq e4
          rw [hlen] at h2
          rw [h2, hold i]
          rfl
        · unfold content
          dsimp only
          rw [set_other _ _ hj]
          rw [show readN s.w.heap.mem (s.vecs j).ptr ((s.vecs j).size * e) = content e s j from rfl, ← hold j]
          by_cases hcj : 0 < (s.vecs j).cap
          · obtain ⟨k, k1, k2, k3⟩ := hi.block j hcj
            have hle := Nat.mul_le_mul_right e (hi.le j)
            have hd := (hfresh k k1).1
            refine readN_congr fun a h1 h2 => ?_
            rw [f4 k (by rw [e3, hc]; exact List.mem_cons_of_mem _ k1) (hoff j hj k k1 k2 hcj) a (by omega) (by omega)]
            exact e5 a (by rw [hlen]; omega)
          · have hz : (s.vecs j).size = 0 := by have := hi.le j; omega
            simp [readN, hz]

theorem content_length (e : Nat) (s : St) (i : Nat) : (content e s i).length = (s.vecs i).size * e := readN_length _ _ _

theorem inv_pop {s : St} (hi : Inv size base st e s) (i : Nat) : Inv size base st e (pop s i) :=
  hi.resize hi.reach rfl (Nat.le_trans (Nat.sub_le _ _) (hi.le i))

theorem readN_take (m : Mem) (p : Nat) {n k : Nat} (h : k ≤ n) : (readN m p n).take k = readN m p k := by
  obtain ⟨d, rfl⟩ : ∃ d, n = k + d := ⟨n - k, by omega⟩
  rw [readN_append, List.take_append_of_le_length (by rw [readN_length]; exact Nat.le_refl k), List.take_of_length_le (by rw [readN_length]; exact Nat.le_refl k)]

theorem readN_drop (m : Mem) (p : Nat) {n k : Nat} (h : k ≤ n) : (readN m p n).drop k = readN m (p + k) (n - k) := by
  obtain ⟨d, rfl⟩ : ∃ d, n = k + d := ⟨n - k, by omega⟩
  rw [readN_append, List.drop_left' (readN_length _ _ _), Nat.add_sub_cancel_left]

/-- What `assign` does. -/
theorem assign_spec (hl : Layout size base st) (hr : Roomy size base) {s : St} (hi : Inv size base st e s) (i : Nat) {k : Nat}
    (hk : k < (s.vecs i).size) {x : List Byte} (hx : x.length = e) : ∃ s', assign e s i k x = .ok s' ∧ Inv size base st e s' ∧
      content e s' i = (content e s i).take (k * e) ++ x ++ (content e s i).drop ((k + 1) * e) ∧
      ∀ j, j ≠ i → content e s' j = content e s j := by
  unfold assign
  dsimp only
  rw [if_pos hk]
  have hlei := hi.le i
  obtain ⟨l, l1, l2, l3⟩ := hi.block i (by omega)
  have h1 : (k + 1) * e ≤ (s.vecs i).size * e := Nat.mul_le_mul_right e hk
  have h2 := Nat.mul_le_mul_right e hlei
  have h3 : (k + 1) * e = k * e + e := Nat.succ_mul k e
  have hin : (s.vecs i).ptr + k * e + x.length ≤ l.ptr + l.len := by rw [l2, l3, hx]; omega
  obtain ⟨w', e1, e2, e3, e4, e5⟩ := writes_ok x (p := (s.vecs i).ptr + k * e) hi.reach l1 (by omega) hin
  rw [e1]
  refine ⟨_, rfl, ⟨e2, hi.le, hi.null, ?_, hi.apart, ?_⟩, ?_, fun j hj => ?_⟩
  · dsimp only; rw [e3]; exact hi.block
  · dsimp only; rw [e3]; exact hi.owned
  · unfold content
    dsimp only
    rw [readN_take _ _ (by omega), readN_drop _ _ h1]
    obtain ⟨d, hd⟩ : ∃ d, (s.vecs i).size * e = k * e + e + d := ⟨(s.vecs i).size * e - (k * e + e), by omega⟩
    rw [hd, readN_append, readN_append, h3, Nat.add_sub_cancel_left]
    have g1 : readN w'.heap.mem (s.vecs i).ptr (k * e) = readN s.w.heap.mem (s.vecs i).ptr (k * e) :=
      readN_congr fun a _ h => e5 a (Or.inl h)
    have g2 : readN w'.heap.mem ((s.vecs i).ptr + k * e) e = x := by
      have := readN_eq e4
      rwa [hx] at this
    have g3 : readN w'.heap.mem ((s.vecs i).ptr + (k * e + e)) d = readN s.w.heap.mem ((s.vecs i).ptr + (k * e + e)) d :=
      readN_congr fun a h _ => e5 a (Or.inr (by rw [hx]; omega))
    rw [g1, g2, g3]
  · exact others hl hr hi l1 l2 (by omega) hin e5 (by omega) j hj

/-- What `drop` does. -/
theorem drop_spec (hl : Layout size base st) (hr : Roomy size base) {s : St} (hi : Inv size base st e s) (i : Nat) :
    ∃ s', drop s i = .ok s' ∧ Inv size base st e s' ∧ (∀ j, s'.vecs j = if j = i then ⟨0, 0, 0⟩ else s.vecs j) ∧
      ∀ j, j ≠ i → content e s' j = content e s j := by
  have hfree : (s.vecs i).ptr = 0 ∨ ∃ l ∈ s.w.live, l.ptr = (s.vecs i).ptr := by
    by_cases h0 : (s.vecs i).cap = 0
    · exact Or.inl (hi.null i h0)
    · obtain ⟨k, k1, k2, _⟩ := hi.block i (by omega)
      exact Or.inr ⟨k, k1, k2⟩
  obtain ⟨w', f1, f2, f3, f4⟩ := free_ok hl hr hi.reach hfree
  have hoff : ∀ j, j ≠ i → ∀ k ∈ s.w.live, k.ptr = (s.vecs j).ptr → 0 < (s.vecs j).cap → k.ptr ≠ (s.vecs i).ptr := by
    intro j hj k k1 k2 hcj
    by_cases h0 : (s.vecs i).cap = 0
    · have := live_pos hl hr hi.reach k1
      rw [hi.null i h0]; omega
    · rw [k2]; exact hi.apart j i hj hcj (by omega)
  unfold drop
  rw [f1]
  refine ⟨_, rfl, ⟨f2, fun j => ?_, fun j => ?_, fun j => ?_, fun j k => ?_, fun l hlv => ?_⟩, fun j => rfl, fun j hj => ?_⟩
  · by_cases hj : j = i
    · subst hj; dsimp only; rw [set_same]; exact Nat.le_refl _
    · dsimp only; rw [set_other _ _ hj]; exact hi.le j
  · by_cases hj : j = i
    · subst hj; dsimp only; rw [set_same]; intro _; rfl
    · dsimp only; rw [set_other _ _ hj]; exact hi.null j
  · by_cases hj : j = i
    · subst hj; dsimp only; rw [set_same]; intro h; exact absurd h (Nat.lt_irrefl _)
    · dsimp only
      rw [set_other _ _ hj]
      intro hcj
      obtain ⟨k, k1, k2, k3⟩ := hi.block j hcj
      exact ⟨k, (f3 k).2 ⟨k1, hoff j hj k k1 k2 hcj⟩, k2, k3⟩
  · dsimp only
    intro hjk
    by_cases hj : j = i
    · subst hj; rw [set_same]; intro h; exact absurd h (Nat.lt_irrefl _)
    · by_cases hk : k = i
      · subst hk; rw [set_same]; intro _ h; exact absurd h (Nat.lt_irrefl _)
      · rw [set_other _ _ hj, set_other _ _ hk]; exact hi.apart j k hjk
  · obtain ⟨g1, g2⟩ := (f3 l).1 hlv
    obtain ⟨j, j1, j2⟩ := hi.owned l g1
    have hj : j ≠ i := fun h => g2 (by rw [j2, h])
    exact ⟨j, by dsimp only; rw [set_other _ _ hj]; exact j1, by dsimp only; rw [set_other _ _ hj]; exact j2⟩
  · unfold content
    dsimp only
    rw [set_other _ _ hj]
    by_cases hcj : 0 < (s.vecs j).cap
    · obtain ⟨k, k1, k2, k3⟩ := hi.block j hcj
      have hle := Nat.mul_le_mul_right e (hi.le j)
      exact readN_congr fun a h1 h2 => f4 k k1 (hoff j hj k k1 k2 hcj) a (by omega) (by omega)
    · have hz : (s.vecs j).size = 0 := by have := hi.le j; omega
      simp [readN, hz]

theorem hist_inv (hl : Layout size base st) (hr : Roomy size base) (he : 0 < e) (hg : ∀ c, c < grow c) {s : St}
    (h : Hist size base st e grow s) : Inv size base st e s := by
  induction h with
  | new hc => exact inv_new hc
  | push _ hx hp ih =>
    obtain ⟨s', r, h1, h2, _⟩ := push_spec hl hr he hg ih _ hx
    rw [hp] at h1
    cases h1
    exact h2
  | pop _ ih => exact inv_pop ih _
  | assign _ hx hk hp ih =>
    obtain ⟨s', h1, h2, _⟩ := assign_spec hl hr ih _ hk hx
    rw [hp] at h1
    cases h1
    exact h2
  | drop _ hp ih =>
    obtain ⟨s', h1, h2, _⟩ := drop_spec hl hr ih _
    rw [hp] at h1
    cases h1
    exact h2

/-- **C177.** A push never does anything undefined; if it returns, its vector holds what it held and the new element, if it throws, what it
held; the other vectors hold what they held. -/
theorem C177_push (hl : Layout size base st) (hr : Roomy size base) (he : 0 < e) (hg : ∀ c, c < grow c) {s : St}
    (h : Hist size base st e grow s) (i : Nat) {x : List Byte} (hx : x.length = e) : ∃ s' r, push e grow s i x = .ok (s', r) ∧
      content e s' i = (if r then content e s i ++ x else content e s i) ∧ ∀ j, j ≠ i → content e s' j = content e s j := by
  obtain ⟨s', r, h1, _, h2⟩ := push_spec hl hr he hg (hist_inv hl hr he hg h) i hx
  exact ⟨s', r, h1, h2⟩

/-- **C177.** A push throws exactly if the vector is full and the heap has no gap for the larger block (or the request is beyond
`max_size()`); then the vectors are as before, and so is the free size. -/
theorem C177_throws (hl : Layout size base st) (hr : Roomy size base) (he : 0 < e) (hg : ∀ c, c < grow c) {s s' : St}
    (h : Hist size base st e grow s) {i : Nat} {x : List Byte} {r : Bool} (hp : push e grow s i x = .ok (s', r)) :
    (r = false ↔ (s.vecs i).size = (s.vecs i).cap ∧ (2 ^ 63 ≤ grow (s.vecs i).cap * e ∨
      ∀ a b, Gap s.w.live (areaLo base) (areaHi size base) a b → b - a < required (grow (s.vecs i).cap * e))) ∧
    (r = false → s'.vecs = s.vecs ∧ s'.w.live = s.w.live ∧ s'.w.heap.freeHeapSize = s.w.heap.freeHeapSize) := by
  have hi := hist_inv hl hr he hg h
  have hle := hi.le i
  unfold push at hp
  dsimp only at hp
  by_cases hroom : (s.vecs i).size < (s.vecs i).cap
  · rw [if_pos hroom] at hp
    cases hw : writes s.w ((s.vecs i).ptr + (s.vecs i).size * e) x with
    | ub => rw [hw] at hp; exact nomatch hp
    | hang => rw [hw] at hp; exact nomatch hp
    | ok w' =>
      rw [hw] at hp
      cases hp
      exact ⟨⟨fun h => (Bool.noConfusion h), fun h => by omega⟩, fun h => Bool.noConfusion h⟩
  · rw [if_neg hroom] at hp
    have heq : (s.vecs i).size = (s.vecs i).cap := by omega
    by_cases hbig : 2 ^ 63 ≤ grow (s.vecs i).cap * e
    · rw [if_pos hbig] at hp
      cases hp
      exact ⟨⟨fun _ => ⟨heq, Or.inl hbig⟩, fun _ => rfl⟩, fun _ => ⟨rfl, rfl, rfl⟩⟩
    · rw [if_neg hbig] at hp
      have hn : grow (s.vecs i).cap * e < 2 ^ 64 := by omega
      have hpos : 0 < grow (s.vecs i).cap * e := Nat.mul_pos (by have := hg (s.vecs i).cap; omega) he
      obtain ⟨w1, p, a1, a2, a3, a4, _⟩ := alloc_ok hl hr hi.reach hn
      rw [a1] at hp
      dsimp only [Bind.bind, Res.bind] at hp
      have hgap : p ≠ 0 ↔ ∃ a b, Gap s.w.live (areaLo base) (areaHi size base) a b ∧ required (grow (s.vecs i).cap * e) ≤ b - a := by
        have hlg : Legal s.w (.alloc (grow (s.vecs i).cap * e)) := hn
        rw [act, if_pos hlg] at a1
        simp only [World.step] at a1
        cases ha : s.w.heap.allocate (grow (s.vecs i).cap * e) with
        | ub => rw [ha] at a1; exact nomatch a1
        | hang => rw [ha] at a1; exact nomatch a1
        | ok q =>
          rw [ha] at a1
          obtain ⟨h', q⟩ := q
          cases a1
          rw [(C10_first_fit hl hr hi.reach hn ha).1]
          exact ⟨fun h => h.2, fun h => ⟨hpos, h⟩⟩
      by_cases h0 : p = 0
      · rw [if_pos h0] at hp
        cases hp
        refine ⟨⟨fun _ => ⟨heq, Or.inr fun a b hab => ?_⟩, fun _ => rfl⟩, fun _ => ⟨rfl, a3 h0, ?_⟩⟩
        · refine Nat.lt_of_not_le fun hc => ?_
          exact (hgap.2 ⟨a, b, hab, hc⟩) h0
        · obtain ⟨h0', hc0, _⟩ := (C01_safe_and_terminating hl hr).1 (fun _ => 0)
          have b1 := (C05_free_size_exact hl hr hi.reach hc0).1
          have b2 := (C05_free_size_exact hl hr a2 hc0).1
          rw [a3 h0] at b2
          dsimp only
          omega
      · rw [if_neg h0] at hp
        have hr' : r = true := by
          cases ho : reads w1 (s.vecs i).ptr ((s.vecs i).size * e) with
          | ub => rw [ho] at hp; exact nomatch hp
          | hang => rw [ho] at hp; exact nomatch hp
          | ok old =>
            rw [ho] at hp
            dsimp only [Bind.bind, Res.bind] at hp
            cases hw : writes w1 p (old ++ x) with
            | ub => rw [hw] at hp; exact nomatch hp
            | hang => rw [hw] at hp; exact nomatch hp
            | ok w2 =>
              rw [hw] at hp
              dsimp only [Bind.bind, Res.bind] at hp
              cases hf : act w2 (.free (s.vecs i).ptr) with
              | ub => rw [hf] at hp; exact nomatch hp
              | hang => rw [hf] at hp; exact nomatch hp
              | ok q => rw [hf] at hp; cases hp; rfl
        subst hr'
        refine ⟨⟨fun h => Bool.noConfusion h, fun h => ?_⟩, fun h => Bool.noConfusion h⟩
        exfalso
        rcases h.2 with h | h
        · omega
        · obtain ⟨a, b, hab, hc⟩ := hgap.1 h0
          have := h a b hab
          omega

/-- **C177.** Removing the last element, assigning to one and destroying a vector do what they say, to this vector only, and are never
undefined. -/
theorem C177_others (hl : Layout size base st) (hr : Roomy size base) (he : 0 < e) (hg : ∀ c, c < grow c) {s : St}
    (h : Hist size base st e grow s) (i : Nat) :
    (content e (pop s i) i = (content e s i).take ((content e s i).length - e) ∧ ∀ j, j ≠ i → content e (pop s i) j = content e s j) ∧
    (∀ k x, k < (s.vecs i).size → x.length = e → ∃ s', assign e s i k x = .ok s' ∧
      content e s' i = (content e s i).take (k * e) ++ x ++ (content e s i).drop ((k + 1) * e) ∧
      ∀ j, j ≠ i → content e s' j = content e s j) ∧
    ∃ s', drop s i = .ok s' ∧ content e s' i = [] ∧ ∀ j, j ≠ i → content e s' j = content e s j := by
  have hi := hist_inv hl hr he hg h
  refine ⟨⟨?_, fun j hj => ?_⟩, fun k x hk hx => ?_, ?_⟩
  · rw [content_length]
    unfold content pop
    dsimp only
    rw [set_same]
    dsimp only
    rw [readN_take _ _ (Nat.sub_le _ _), Nat.sub_mul, Nat.one_mul]
  · unfold content pop
    dsimp only
    rw [set_other _ _ hj]
  · obtain ⟨s', h1, _, h2⟩ := assign_spec hl hr hi i hk hx
    exact ⟨s', h1, h2⟩
  · obtain ⟨s', h1, _, h2, h3⟩ := drop_spec hl hr hi i
    refine ⟨s', h1, ?_, h3⟩
    unfold content
    rw [h2, if_pos rfl]
    simp [readN]

/-- **C177.** What a vector holds can be read: it lies in a block of the heap. -/
theorem C177_readable (hl : Layout size base st) (hr : Roomy size base) (he : 0 < e) (hg : ∀ c, c < grow c) {s : St}
    (h : Hist size base st e grow s) (i : Nat) : reads s.w (s.vecs i).ptr ((s.vecs i).size * e) = .ok (content e s i) := by
  have hi := hist_inv hl hr he hg h
  have hlei := hi.le i
  refine if_pos ?_
  by_cases h0 : (s.vecs i).cap = 0
  · exact Or.inl (by rw [show (s.vecs i).size = 0 by omega, Nat.zero_mul])
  · obtain ⟨k, k1, k2, k3⟩ := hi.block i (by omega)
    have hle := Nat.mul_le_mul_right e hlei
    exact Or.inr ⟨k, k1, by omega, by omega⟩

/-- **C177.** When the vectors are destroyed, the heap is as free as at the start. -/
theorem C177_restored (hl : Layout size base st) (hr : Roomy size base) (he : 0 < e) (hg : ∀ c, c < grow c) {s : St}
    (h : Hist size base st e grow s) (hcap : ∀ i, (s.vecs i).cap = 0) {mem : Mem} {h0 : Heap}
    (hc : Heap.construct size base st mem = .ok h0) : s.w.live = [] ∧ s.w.heap.freeHeapSize = h0.freeHeapSize := by
  have hi := hist_inv hl hr he hg h
  have hlive : s.w.live = [] := by
    refine List.eq_nil_iff_forall_not_mem.mpr fun l hlv => ?_
    obtain ⟨i, i1, _⟩ := hi.owned l hlv
    have := hcap i
    omega
  exact ⟨hlive, (C06_all_freed_restores hl hr hi.reach hc hlive).1⟩

/-- Two vectors of 4-byte elements in a heap of 256 bytes, one pushed into until it throws. -/
def demoRun : Res (List Bool × List Byte × List Byte × List Nat × Nat) := do
  let h ← Heap.construct 256 4099 8192 (fun _ => 0)
  let g := fun c => 2 * c + 1
  let (s, r1) ← push 4 g ⟨.start h, fun _ => ⟨0, 0, 0⟩⟩ 0 [1, 2, 3, 4]
  let (s, r2) ← push 4 g s 1 [11, 12, 13, 14]
  let (s, r3) ← push 4 g s 0 [5, 6, 7, 8]
  let (s, r4) ← push 4 (fun _ => 40) s 1 [15, 16, 17, 18]
  let s ← assign 4 s 0 0 [9, 9, 9, 9]
  let c0 := content 4 s 0
  let c1 := content 4 s 1
  let caps := [(s.vecs 0).cap, (s.vecs 1).cap]
  let s ← drop s 0
  let s ← drop s 1
  .ok ([r1, r2, r3, r4], c0, c1, caps, h.freeHeapSize - s.w.heap.freeHeapSize)

example : demoRun = .ok ([true, true, true, false], [9, 9, 9, 9, 5, 6, 7, 8], [11, 12, 13, 14], [3, 1], 0) := by decide +kernel
/-- The hypotheses can be met: a vector with one element. -/
example : ∃ s, Layout 256 4099 8192 ∧ Roomy 256 4099 ∧ (∀ c, c < (fun c => 2 * c + 1) c) ∧
    Hist 256 4099 8192 4 (fun c => 2 * c + 1) s ∧ content 4 s 0 = [1, 2, 3, 4] := by
  obtain ⟨h, hc, _⟩ := (C01_safe_and_terminating demo_layout demo_roomy).1 (fun _ => 0)
  have hg : ∀ c, c < (fun c => 2 * c + 1) c := fun c => by dsimp only; omega
  have hn : Hist 256 4099 8192 4 (fun c => 2 * c + 1) ⟨.start h, fun _ => ⟨0, 0, 0⟩⟩ := .new hc
  obtain ⟨s', r, h1, h2, _⟩ := C177_push demo_layout demo_roomy (by decide) hg hn 0 (x := [1, 2, 3, 4]) rfl
  have hr : r = true := by
    have hd : (do
      let h ← Heap.construct 256 4099 8192 (fun _ => 0)
      let (_, r) ← push 4 (fun c => 2 * c + 1) ⟨.start h, fun _ => ⟨0, 0, 0⟩⟩ 0 [1, 2, 3, 4]
      Res.ok r) = Res.ok true := by decide +kernel
    rw [hc] at hd
    dsimp only [Bind.bind, Res.bind] at hd
    rw [h1] at hd
    dsimp only at hd
    exact Res.ok.inj hd
  subst hr
  exact ⟨s', demo_layout, demo_roomy, hg, .push hn rfl h1, by rw [h2]; simp [content, readN]⟩

end Verif.Heap.Vectors
