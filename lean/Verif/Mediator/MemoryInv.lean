import Verif.Mediator.Memory
/-!
What the log of a run of `Mediator/Memory.lean` looks like.
-/
namespace Verif.Mediator.Memory
open Verif Verif.Data

variable {W : World} {U : Type}

/-! ### Memory -/

theorem replay_append (M : Mem) (a b : List (Ev W)) : replay M (a ++ b) = replay (replay M a) b := by
  induction a generalizing M with
  | nil => rfl
  | cons e a ih => exact ih (after M e)

theorem length_after (M : Mem) (e : Ev W) : M.length ≤ (after M e).length := by
  cases e <;> simp [after]

theorem length_replay (M : Mem) (l : List (Ev W)) : M.length ≤ (replay M l).length := by
  induction l generalizing M with
  | nil => exact Nat.le_refl _
  | cons e l ih => exact Nat.le_trans (length_after M e) (ih _)

theorem object_append (M : Mem) (x : List Byte) {b : Nat} (h : b < M.length) : object (M ++ [some x]) b = object M b := by
  unfold object
  rw [List.getElem?_append_left h]

theorem object_new (M : Mem) (x : List Byte) : object (M ++ [some x]) M.length = some x := by
  simp [object]

theorem object_set (M : Mem) (b c : Nat) : object (M.set b none) c = if b = c then none else object M c := by
  unfold object
  rw [List.getElem?_set]
  split
  · split <;> rfl
  · rfl

theorem object_modify (M : Mem) (b c : Nat) (g : List Byte → List Byte) :
    object (M.modify b (Option.map g)) c = if b = c then (object M c).map g else object M c := by
  unfold object
  rw [List.getElem?_modify]
  split
  · rename_i h
    cases M[c]? with
    | none => rfl
    | some o => cases o <;> rfl
  · rename_i h
    simp

/-- An object whose life has ended does not come back. -/
theorem dead_after {M : Mem} {b : Nat} (hb : b < M.length) (h : object M b = none) (e : Ev W) : object (after M e) b = none := by
  cases e <;> simp only [after]
  all_goals first
    | exact h
    | (rw [object_append M _ hb]; exact h)
    | (rw [object_set]; split <;> first | rfl | exact h)
    | (rw [object_modify]; split <;> first | (rw [h]; rfl) | exact h)

theorem dead_replay {b : Nat} (l : List (Ev W)) : ∀ {M : Mem}, b < M.length → object M b = none → object (replay M l) b = none := by
  induction l with
  | nil => intro M _ h; exact h
  | cons e l ih => intro M hb h; exact ih (Nat.lt_of_lt_of_le hb (length_after M e)) (dead_after hb h e)

/-! ### Something about each event and the memory before it -/

/-- `P` holds for each event of a log with the memory before it. -/
def AllAt (P : Mem → Ev W → Prop) : Mem → List (Ev W) → Prop
  | _, [] => True
  | M, e :: es => P M e ∧ AllAt P (after M e) es

theorem AllAt.append {P : Mem → Ev W → Prop} {a b : List (Ev W)} : ∀ {M : Mem}, AllAt P M a → AllAt P (replay M a) b →
    AllAt P M (a ++ b) := by
  induction a with
  | nil => intro M _ h; exact h
  | cons e a ih => intro M h1 h2; exact ⟨h1.1, ih h1.2 h2⟩

theorem AllAt.split {P : Mem → Ev W → Prop} {pre : List (Ev W)} {e : Ev W} {post : List (Ev W)} : ∀ {M : Mem},
    AllAt P M (pre ++ e :: post) → P (replay M pre) e := by
  induction pre with
  | nil => intro M h; exact h.1
  | cons e' a ih => intro M h; exact ih h.2

theorem AllAt.of {P : Mem → Ev W → Prop} {l : List (Ev W)} : ∀ {M : Mem}, (∀ M, ∀ e ∈ l, P M e) → AllAt P M l := by
  induction l with
  | nil => intro M _; trivial
  | cons e l ih =>
    intro M h
    exact ⟨h M e (List.mem_cons_self ..), ih fun M' e' he' => h M' e' (List.mem_cons_of_mem _ he')⟩

/-- The number of the message an event belongs to. -/
def Ev.num : Ev W → Option Nat
  | .start n _ _ _ => some n
  | .cast n _ _ => some n
  | .hook n _ _ _ => some n
  | .told n _ _ _ _ => some n
  | _ => none

/-- What is true of an event at the time it happens: new objects get the next number, and `data` gets the value of the
bytes at the pointer, of a type that the module lists. -/
def Fine (M : Mem) (e : Ev W) : Prop :=
  match e with
  | .made b _ => b = M.length
  | .enter b _ => b = M.length
  | .data m t v p => t ∈ W.recvs m ∧ ∃ bytes, region M p (W.pod t).size = some bytes ∧ v = (W.pod t).dec bytes
  | _ => True

/-- `receive` for the value `v` of a message `n` of the manager finds that value. -/
def Fresh (n t : Nat) (v : W.Val t) (M : Mem) (e : Ev W) : Prop :=
  ∀ m id p sz, e = .told n m id p sz → region M p sz = some ((W.pod t).enc v)

/-- Module `m` does not override `receive`. -/
def Handlers.Plain (H : Handlers W U) (m : Nat) : Prop := ∀ u id p sz, H.receive u m id p sz = plain m id p sz

/-- The calls that a message of module `m` from `p` leads to. -/
def expected (W : World) (mods : List Nat) (m : Nat) (p : Ptr) (sz : Nat) : List (Option Nat × Nat × Ptr × Nat) :=
  (none, W.hash (W.sends m), p, sz) ::
    (mods.filter fun q => W.hash (W.sends q) ≠ W.hash (W.sends m)).map fun q => (some q, W.hash (W.sends m), p, sz)

/-- `data` is the next thing after `receive` of a module that does not override it. -/
def Next (H : Handlers W U) (l : List (Ev W)) : Prop :=
  ∀ pre n m id p sz post t, l = pre ++ Ev.told n m id p sz :: post → H.Plain m → accepts W m id sz = some t →
    ∃ v post', post = Ev.data m t v p :: post'

/-- What is true of the events `l` between two moments with numbers of messages `c` and `c'`, beginning with memory `M`.
`x` is a message that is under way. -/
structure Good (H : Handlers W U) (mods : List Nat) (x : Option Nat) (c : Nat) (M : Mem) (c' : Nat) (l : List (Ev W)) :
    Prop where
  le : c ≤ c'
  nums : ∀ e ∈ l, ∀ n, e.num = some n → x = some n ∨ (c ≤ n ∧ n < c')
  open_start : ∀ n m p sz, Ev.start n m p sz ∈ l → x ≠ some n
  open_cast : ∀ n t v, Ev.cast n t v ∈ l → x ≠ some n
  own : ∀ b, Ev.leave b ∈ l → M.length ≤ b
  dead : ∀ b bytes, Ev.enter b bytes ∈ l → b < (replay M l).length ∧ object (replay M l) b = none
  starts : ∀ n m p sz, Ev.start n m p sz ∈ l → calls n l = expected W mods m p sz
  kept : ∀ n m p sz pre mid m' id' p' sz' post,
    l = pre ++ Ev.start n m p sz :: (mid ++ Ev.told n m' id' p' sz' :: post) → p.buf < (replay M pre).length →
      Ev.leave p.buf ∉ mid
  casts : ∀ n t v, Ev.cast n t v ∈ l → (calls n l).map (fun c => (c.1, c.2.1, c.2.2.2)) =
    (mods.filter fun q => W.hash (W.sends q) ≠ W.hash t).map fun q => (some q, W.hash t, (W.pod t).size)
  fresh : ∀ n t v, Ev.cast n t v ∈ l → AllAt (Fresh n t v) M l
  fine : AllAt Fine M l
  next : Next H l

theorem calls_append (n : Nat) (a b : List (Ev W)) : calls n (a ++ b) = calls n a ++ calls n b := by
  induction a with
  | nil => rfl
  | cons e a ih => cases e <;> simp only [List.cons_append, calls, ih] <;> split <;> rfl

theorem calls_nil {n : Nat} {l : List (Ev W)} (h : ∀ e ∈ l, e.num ≠ some n) : calls n l = [] := by
  induction l with
  | nil => rfl
  | cons e l ih =>
    have h1 := h e (List.mem_cons_self ..)
    have h2 := ih fun e' he' => h e' (List.mem_cons_of_mem _ he')
    cases e <;> simp only [calls, h2] <;> rw [if_neg (fun hh => h1 (by rw [← hh]; rfl))]

theorem Next.append {H : Handlers W U} {a b : List (Ev W)} (ha : Next H a) (hb : Next H b) : Next H (a ++ b) := by
  intro pre n m id p sz post t h hp ht
  rcases List.append_eq_append_iff.mp h with ⟨r, h1, h2⟩ | ⟨r, h1, h2⟩
  · exact hb r n m id p sz post t h2 hp ht
  · cases r with
    | nil => exact hb [] n m id p sz post t h2.symm hp ht
    | cons e r =>
      rw [List.cons_append] at h2
      injection h2 with h2 h3
      subst h2
      obtain ⟨v, post', h4⟩ := ha pre n m id p sz r t h1 hp ht
      exact ⟨v, post' ++ b, by rw [h3, h4]; rfl⟩

variable {H : Handlers W U} {mods : List Nat}

theorem Good.nil (x : Option Nat) (c : Nat) (M : Mem) : Good H mods x c M c ([] : List (Ev W)) where
  le := Nat.le_refl _
  nums := by intro e he; cases he
  open_start := by intro _ _ _ _ h; cases h
  open_cast := by intro _ _ _ h; cases h
  own := by intro _ h; cases h
  dead := by intro _ _ h; cases h
  starts := by intro _ _ _ _ h; cases h
  kept := by intro n m p sz pre mid m' id' p' sz' post h; simp at h
  casts := by intro _ _ _ h; cases h
  fresh := by intro _ _ _ h; cases h
  fine := trivial
  next := by intro pre n m id p sz post t h; simp at h

/-- An event that belongs to no message and is neither the end nor the beginning of a union. -/
theorem Good.quiet (x : Option Nat) (c : Nat) (M : Mem) {e : Ev W} (hn : e.num = none) (h1 : ∀ b, e ≠ .leave b)
    (h2 : ∀ b bytes, e ≠ .enter b bytes) (hf : Fine M e) : Good H mods x c M c [e] where
  le := Nat.le_refl _
  nums := by
    intro e' he' n h
    rw [List.mem_singleton.mp he', hn] at h
    cases h
  open_start := by
    intro n m p sz h
    rw [← List.mem_singleton.mp h] at hn
    cases hn
  open_cast := by
    intro n t v h
    rw [← List.mem_singleton.mp h] at hn
    cases hn
  own := by
    intro b h
    exact absurd (List.mem_singleton.mp h).symm (h1 b)
  dead := by
    intro b bytes h
    exact absurd (List.mem_singleton.mp h).symm (h2 b bytes)
  starts := by
    intro n m p sz h
    rw [← List.mem_singleton.mp h] at hn
    cases hn
  kept := by
    intro n m p sz pre mid m' id' p' sz' post h
    have := congrArg List.length h
    simp at this
    omega
  casts := by
    intro n t v h
    rw [← List.mem_singleton.mp h] at hn
    cases hn
  fresh := by
    intro n t v h
    rw [← List.mem_singleton.mp h] at hn
    cases hn
  fine := ⟨hf, trivial⟩
  next := by
    intro pre n m id p sz post t h
    have : Ev.told n m id p sz ∈ [e] := by rw [h]; simp
    rw [← List.mem_singleton.mp this] at hn
    cases hn

theorem Good.append {x : Option Nat} {c c1 c2 : Nat} {M : Mem} {a b : List (Ev W)}
    (ha : Good H mods x c M c1 a) (hb : Good H mods x c1 (replay M a) c2 b) : Good H mods x c M c2 (a ++ b) where
  le := Nat.le_trans ha.le hb.le
  nums := by
    intro e he n hn
    rcases List.mem_append.mp he with h | h
    · rcases ha.nums e h n hn with h' | h'
      · exact .inl h'
      · exact .inr ⟨h'.1, Nat.lt_of_lt_of_le h'.2 hb.le⟩
    · rcases hb.nums e h n hn with h' | h'
      · exact .inl h'
      · exact .inr ⟨Nat.le_trans ha.le h'.1, h'.2⟩
  open_start := by
    intro n m p sz h
    rcases List.mem_append.mp h with h | h
    · exact ha.open_start n m p sz h
    · exact hb.open_start n m p sz h
  open_cast := by
    intro n t v h
    rcases List.mem_append.mp h with h | h
    · exact ha.open_cast n t v h
    · exact hb.open_cast n t v h
  own := by
    intro q h
    rcases List.mem_append.mp h with h | h
    · exact ha.own q h
    · exact Nat.le_trans (length_replay M a) (hb.own q h)
  dead := by
    intro q bytes h
    rw [replay_append]
    rcases List.mem_append.mp h with h | h
    · have := ha.dead q bytes h
      exact ⟨Nat.lt_of_lt_of_le this.1 (length_replay _ b), dead_replay b this.1 this.2⟩
    · exact hb.dead q bytes h
  starts := by
    intro n m p sz h
    rw [calls_append]
    rcases List.mem_append.mp h with h | h
    · have hn := ha.nums _ h n rfl
      rw [ha.starts n m p sz h, calls_nil, List.append_nil]
      intro e he hen
      rcases hn with hn | hn
      · exact ha.open_start n m p sz h hn
      · rcases hb.nums e he n hen with h' | h'
        · exact ha.open_start n m p sz h h'
        · omega
    · have hn := hb.nums _ h n rfl
      rw [hb.starts n m p sz h, calls_nil (l := a), List.nil_append]
      intro e he hen
      rcases hn with hn | hn
      · exact hb.open_start n m p sz h hn
      · rcases ha.nums e he n hen with h' | h'
        · exact hb.open_start n m p sz h h'
        · omega
  kept := by
    intro n m p sz pre mid m' id' p' sz' post h hp
    rcases List.append_eq_append_iff.mp h with ⟨r, h1, h2⟩ | ⟨r, h1, h2⟩
    · rw [h1, replay_append] at hp
      exact hb.kept n m p sz r mid m' id' p' sz' post h2 hp
    · cases r with
      | nil =>
        rw [List.append_nil] at h1
        subst h1
        exact hb.kept n m p sz [] mid m' id' p' sz' post h2.symm hp
      | cons e r =>
        rw [List.cons_append] at h2
        injection h2 with h2 h3
        subst h2
        have hin : Ev.start n m p sz ∈ a := by rw [h1]; simp
        have hn := ha.nums _ hin n rfl
        rcases List.append_eq_append_iff.mp h3 with ⟨q, h4, h5⟩ | ⟨q, h4, h5⟩
        · cases q with
          | nil =>
            rw [List.append_nil] at h4
            rw [List.nil_append] at h5
            have hin2 : Ev.told n m' id' p' sz' ∈ b := by rw [← h5]; simp
            exfalso
            rcases hn with hn | hn
            · exact ha.open_start n m p sz hin hn
            · rcases hb.nums _ hin2 n rfl with h' | h'
              · exact ha.open_start n m p sz hin h'
              · omega
          | cons e' q =>
            rw [List.cons_append] at h5
            injection h5 with h5 h6
            subst h5
            exact ha.kept n m p sz pre mid m' id' p' sz' q (by rw [h1, h4]) hp
        · exfalso
          have hin2 : Ev.told n m' id' p' sz' ∈ b := by rw [h5]; simp
          rcases hn with hn | hn
          · exact ha.open_start n m p sz hin hn
          · rcases hb.nums _ hin2 n rfl with h' | h'
            · exact ha.open_start n m p sz hin h'
            · omega
  casts := by
    intro n t v h
    rw [calls_append]
    rcases List.mem_append.mp h with h | h
    · have hn := ha.nums _ h n rfl
      rw [calls_nil (l := b), List.append_nil]
      · exact ha.casts n t v h
      · intro e he hen
        rcases hn with hn | hn
        · exact ha.open_cast n t v h hn
        · rcases hb.nums e he n hen with h' | h'
          · exact ha.open_cast n t v h h'
          · omega
    · have hn := hb.nums _ h n rfl
      rw [calls_nil (l := a), List.nil_append]
      · exact hb.casts n t v h
      · intro e he hen
        rcases hn with hn | hn
        · exact hb.open_cast n t v h hn
        · rcases ha.nums e he n hen with h' | h'
          · exact hb.open_cast n t v h h'
          · omega
  fresh := by
    intro n t v h
    rcases List.mem_append.mp h with h | h
    · have hn := ha.nums _ h n rfl
      refine AllAt.append (ha.fresh n t v h) (AllAt.of ?_)
      intro M' e he m id p sz hen
      exfalso
      rcases hn with hn | hn
      · exact ha.open_cast n t v h hn
      · rcases hb.nums e he n (by rw [hen]; rfl) with h' | h'
        · exact ha.open_cast n t v h h'
        · omega
    · have hn := hb.nums _ h n rfl
      refine AllAt.append (AllAt.of ?_) (hb.fresh n t v h)
      intro M' e he m id p sz hen
      exfalso
      rcases hn with hn | hn
      · exact hb.open_cast n t v h hn
      · rcases ha.nums e he n (by rw [hen]; rfl) with h' | h'
        · exact hb.open_cast n t v h h'
        · omega
  fine := ha.fine.append hb.fine
  next := ha.next.append hb.next

/-- Events between messages are also events during a message that began before. -/
theorem Good.during {c c' : Nat} {M : Mem} {l : List (Ev W)} (h : Good H mods none c M c' l) {n : Nat} (hn : n < c) :
    Good H mods (some n) c M c' l where
  le := h.le
  nums := by
    intro e he k hk
    rcases h.nums e he k hk with h' | h'
    · cases h'
    · exact .inr h'
  open_start := by
    intro k m p sz hk hnk
    injection hnk with hnk
    rcases h.nums _ hk k rfl with h' | h'
    · cases h'
    · omega
  open_cast := by
    intro k t v hk hnk
    injection hnk with hnk
    rcases h.nums _ hk k rfl with h' | h'
    · cases h'
    · omega
  own := h.own
  dead := h.dead
  starts := h.starts
  kept := h.kept
  casts := h.casts
  fresh := h.fresh
  fine := h.fine
  next := h.next

theorem Good.no_calls {c c' : Nat} {M : Mem} {l : List (Ev W)} (h : Good H mods none c M c' l) {n : Nat} (hn : n < c) :
    calls n l = [] := by
  apply calls_nil
  intro e he hk
  rcases h.nums e he n hk with h' | h'
  · cases h'
  · omega

/-- An event `told` of the message that is under way, with what follows. -/
theorem Good.told {n c c' : Nat} {M : Mem} {m id : Nat} {p : Ptr} {sz : Nat} {l : List (Ev W)}
    (h : Good H mods (some n) c M c' l)
    (hl : H.Plain m → ∀ t, accepts W m id sz = some t → ∃ v r, l = Ev.data m t v p :: r) :
    Good H mods (some n) c M c' (Ev.told n m id p sz :: l) where
  le := h.le
  nums := by
    intro e he k hk
    rcases List.mem_cons.mp he with rfl | he
    · exact .inl hk
    · exact h.nums e he k hk
  open_start := by
    intro k m' p' sz' hk
    rcases List.mem_cons.mp hk with hk | hk
    · cases hk
    · exact h.open_start k m' p' sz' hk
  open_cast := by
    intro k t v hk
    rcases List.mem_cons.mp hk with hk | hk
    · cases hk
    · exact h.open_cast k t v hk
  own := by
    intro b hb
    rcases List.mem_cons.mp hb with hb | hb
    · cases hb
    · exact h.own b hb
  dead := by
    intro b bytes hb
    rcases List.mem_cons.mp hb with hb | hb
    · cases hb
    · exact h.dead b bytes hb
  starts := by
    intro k m' p' sz' hk
    rcases List.mem_cons.mp hk with hk | hk
    · cases hk
    · have := h.open_start k m' p' sz' hk
      unfold calls
      rw [if_neg fun hh => this (by rw [hh])]
      exact h.starts k m' p' sz' hk
  kept := by
    intro k m' p' sz' pre mid m2 id2 p2 sz2 post hk hp
    cases pre with
    | nil => rw [List.nil_append] at hk; cases hk
    | cons e pre =>
      rw [List.cons_append] at hk
      injection hk with hk1 hk
      subst hk1
      exact h.kept k m' p' sz' pre mid m2 id2 p2 sz2 post hk hp
  casts := by
    intro k t v hk
    rcases List.mem_cons.mp hk with hk | hk
    · cases hk
    · have := h.open_cast k t v hk
      unfold calls
      rw [if_neg fun hh => this (by rw [hh])]
      exact h.casts k t v hk
  fresh := by
    intro k t v hk
    rcases List.mem_cons.mp hk with hk | hk
    · cases hk
    · have := h.open_cast k t v hk
      refine ⟨?_, h.fresh k t v hk⟩
      intro m' id' p' sz' hh
      injection hh with hh
      exact absurd (by rw [hh]) this
  fine := ⟨trivial, h.fine⟩
  next := by
    intro pre k m' id' p' sz' post t hk hp ht
    cases pre with
    | nil =>
      rw [List.nil_append] at hk
      injection hk with hk1 hk
      cases hk1
      rw [← hk]
      exact hl hp t ht
    | cons e pre =>
      rw [List.cons_append] at hk
      injection hk with hk1 hk
      exact h.next pre k m' id' p' sz' post t hk hp ht

/-- The hook is called. -/
theorem Good.hook (n c : Nat) (M : Mem) (id : Nat) (p : Ptr) (sz : Nat) :
    Good H mods (some n) c M c [Ev.hook (W := W) n id p sz] where
  le := Nat.le_refl _
  nums := by
    intro e he k hk
    rw [List.mem_singleton.mp he] at hk
    exact .inl hk
  open_start := by intro _ _ _ _ h; cases List.mem_singleton.mp h
  open_cast := by intro _ _ _ h; cases List.mem_singleton.mp h
  own := by intro _ h; cases List.mem_singleton.mp h
  dead := by intro _ _ h; cases List.mem_singleton.mp h
  starts := by intro _ _ _ _ h; cases List.mem_singleton.mp h
  kept := by
    intro k m p sz pre mid m' id' p' sz' post h
    have := congrArg List.length h
    simp at this
    omega
  casts := by intro _ _ _ h; cases List.mem_singleton.mp h
  fresh := by intro _ _ _ h; cases List.mem_singleton.mp h
  fine := ⟨trivial, trivial⟩
  next := by
    intro pre k m id' p' sz' post t h
    have : Ev.told k m id' p' sz' ∈ ([Ev.hook n id p sz] : List (Ev W)) := by rw [h]; simp
    cases List.mem_singleton.mp this

/-- A message of a module, from beginning to end. -/
theorem Good.start {c c' : Nat} {M : Mem} {m : Nat} {p : Ptr} {sz : Nat} {l : List (Ev W)}
    (h : Good H mods (some c) (c + 1) M c' l) (hc : calls c l = expected W mods m p sz) :
    Good H mods none c M c' (Ev.start c m p sz :: l) where
  le := Nat.le_trans (Nat.le_succ c) h.le
  nums := by
    intro e he k hk
    refine .inr ?_
    rcases List.mem_cons.mp he with rfl | he
    · injection hk with hk
      have := h.le
      omega
    · rcases h.nums e he k hk with h' | h'
      · injection h' with h'
        have := h.le
        omega
      · omega
  open_start := by intro _ _ _ _ _ h; cases h
  open_cast := by intro _ _ _ _ h; cases h
  own := by
    intro b hb
    rcases List.mem_cons.mp hb with hb | hb
    · cases hb
    · exact h.own b hb
  dead := by
    intro b bytes hb
    rcases List.mem_cons.mp hb with hb | hb
    · cases hb
    · exact h.dead b bytes hb
  starts := by
    intro k m' p' sz' hk
    unfold calls
    rcases List.mem_cons.mp hk with hk | hk
    · cases hk
      exact hc
    · exact h.starts k m' p' sz' hk
  kept := by
    intro k m' p' sz' pre mid m2 id2 p2 sz2 post hk hp
    cases pre with
    | nil =>
      rw [List.nil_append] at hk
      injection hk with hk1 hk
      cases hk1
      intro hl
      have := h.own _ (by rw [hk]; exact List.mem_append_left _ hl)
      unfold replay at hp
      omega
    | cons e pre =>
      rw [List.cons_append] at hk
      injection hk with hk1 hk
      subst hk1
      exact h.kept k m' p' sz' pre mid m2 id2 p2 sz2 post hk hp
  casts := by
    intro k t v hk
    unfold calls
    rcases List.mem_cons.mp hk with hk | hk
    · cases hk
    · exact h.casts k t v hk
  fresh := by
    intro k t v hk
    rcases List.mem_cons.mp hk with hk | hk
    · cases hk
    · refine ⟨?_, h.fresh k t v hk⟩
      intro m' id' p' sz' hh
      cases hh
  fine := ⟨trivial, h.fine⟩
  next := by
    intro pre k m' id' p' sz' post t hk hp ht
    cases pre with
    | nil => rw [List.nil_append] at hk; cases hk
    | cons e pre =>
      rw [List.cons_append] at hk
      injection hk with hk1 hk
      exact h.next pre k m' id' p' sz' post t hk hp ht

/-- A message of the manager, from beginning to end. -/
theorem Good.cast {c c' : Nat} {M : Mem} {t : Nat} {v : W.Val t} {l : List (Ev W)}
    (h : Good H mods (some c) (c + 1) M c' l) (hc : (calls c l).map (fun c => (c.1, c.2.1, c.2.2.2)) =
      (mods.filter fun q => W.hash (W.sends q) ≠ W.hash t).map fun q => (some q, W.hash t, (W.pod t).size))
    (hf : AllAt (Fresh c t v) M l) : Good H mods none c M c' (Ev.cast c t v :: l) where
  le := Nat.le_trans (Nat.le_succ c) h.le
  nums := by
    intro e he k hk
    refine .inr ?_
    rcases List.mem_cons.mp he with rfl | he
    · injection hk with hk
      have := h.le
      omega
    · rcases h.nums e he k hk with h' | h'
      · injection h' with h'
        have := h.le
        omega
      · omega
  open_start := by intro _ _ _ _ _ h; cases h
  open_cast := by intro _ _ _ _ h; cases h
  own := by
    intro b hb
    rcases List.mem_cons.mp hb with hb | hb
    · cases hb
    · exact h.own b hb
  dead := by
    intro b bytes hb
    rcases List.mem_cons.mp hb with hb | hb
    · cases hb
    · exact h.dead b bytes hb
  starts := by
    intro k m' p' sz' hk
    unfold calls
    rcases List.mem_cons.mp hk with hk | hk
    · cases hk
    · exact h.starts k m' p' sz' hk
  kept := by
    intro k m' p' sz' pre mid m2 id2 p2 sz2 post hk hp
    cases pre with
    | nil => rw [List.nil_append] at hk; cases hk
    | cons e pre =>
      rw [List.cons_append] at hk
      injection hk with hk1 hk
      subst hk1
      exact h.kept k m' p' sz' pre mid m2 id2 p2 sz2 post hk hp
  casts := by
    intro k t' v' hk
    unfold calls
    rcases List.mem_cons.mp hk with hk | hk
    · cases hk
      exact hc
    · exact h.casts k t' v' hk
  fresh := by
    intro k t' v' hk
    refine ⟨(by intro _ _ _ _ hh; cases hh), ?_⟩
    rcases List.mem_cons.mp hk with hk | hk
    · cases hk
      exact hf
    · exact h.fresh k t' v' hk
  fine := ⟨trivial, h.fine⟩
  next := by
    intro pre k m' id' p' sz' post t' hk hp ht
    cases pre with
    | nil => rw [List.nil_append] at hk; cases hk
    | cons e pre =>
      rw [List.cons_append] at hk
      injection hk with hk1 hk
      exact h.next pre k m' id' p' sz' post t' hk hp ht

/-- The life of a union, with what happens meanwhile. -/
theorem Good.block {x : Option Nat} {c c' : Nat} {M : Mem} {bytes : List Byte} {l : List (Ev W)}
    (h : Good H mods x c (M ++ [some bytes]) c' l) :
    Good H mods x c M c' (Ev.enter M.length bytes :: (l ++ [Ev.leave M.length])) where
  le := h.le
  nums := by
    intro e he k hk
    rcases List.mem_cons.mp he with rfl | he
    · cases hk
    · rcases List.mem_append.mp he with he | he
      · exact h.nums e he k hk
      · rw [List.mem_singleton.mp he] at hk
        cases hk
  open_start := by
    intro k m p sz hk
    rcases List.mem_cons.mp hk with hk | hk
    · cases hk
    · rcases List.mem_append.mp hk with hk | hk
      · exact h.open_start k m p sz hk
      · cases List.mem_singleton.mp hk
  open_cast := by
    intro k t v hk
    rcases List.mem_cons.mp hk with hk | hk
    · cases hk
    · rcases List.mem_append.mp hk with hk | hk
      · exact h.open_cast k t v hk
      · cases List.mem_singleton.mp hk
  own := by
    intro b hb
    rcases List.mem_cons.mp hb with hb | hb
    · cases hb
    · rcases List.mem_append.mp hb with hb | hb
      · have := h.own b hb
        simp at this
        omega
      · cases List.mem_singleton.mp hb
        exact Nat.le_refl _
  dead := by
    intro b bs hb
    have e1 : replay M (Ev.enter M.length bytes :: (l ++ [Ev.leave M.length]) : List (Ev W)) =
        (replay (M ++ [some bytes]) l).set M.length none := by
      show replay (M ++ [some bytes]) (l ++ [Ev.leave M.length]) = _
      rw [replay_append]
      rfl
    rw [e1, List.length_set, object_set]
    have hlen := length_replay (M ++ [some bytes]) l
    simp at hlen
    rcases List.mem_cons.mp hb with hb | hb
    · cases hb
      exact ⟨by omega, if_pos rfl⟩
    · rcases List.mem_append.mp hb with hb | hb
      · have := h.dead b bs hb
        refine ⟨this.1, ?_⟩
        split
        · rfl
        · exact this.2
      · cases List.mem_singleton.mp hb
  starts := by
    intro k m p sz hk
    have hk' : Ev.start k m p sz ∈ l := by
      rcases List.mem_cons.mp hk with hk | hk
      · cases hk
      · rcases List.mem_append.mp hk with hk | hk
        · exact hk
        · cases List.mem_singleton.mp hk
    unfold calls
    rw [calls_append, h.starts k m p sz hk']
    exact List.append_nil _
  kept := by
    intro k m p sz pre mid m' id' p' sz' post hk hp
    cases pre with
    | nil => rw [List.nil_append] at hk; cases hk
    | cons e pre =>
      rw [List.cons_append] at hk
      injection hk with hk1 hk
      subst hk1
      rcases List.append_eq_append_iff.mp hk with ⟨r, h1, h2⟩ | ⟨r, h1, h2⟩
      · have := congrArg List.length h2
        simp at this
        omega
      · cases r with
        | nil =>
          rw [List.nil_append] at h2
          injection h2 with h2
          cases h2
        | cons e r =>
          rw [List.cons_append] at h2
          injection h2 with h2 h3
          subst h2
          rcases List.append_eq_append_iff.mp h3 with ⟨q, h4, h5⟩ | ⟨q, h4, h5⟩
          · cases q with
            | nil =>
              rw [List.nil_append] at h5
              injection h5 with h5
              cases h5
            | cons e' q =>
              rw [List.cons_append] at h5
              injection h5 with h5 h6
              subst h5
              exact h.kept k m p sz pre mid m' id' p' sz' q (by rw [h1, h4]) hp
          · have := congrArg List.length h5
            simp at this
            cases q with
            | nil => rw [List.nil_append] at h5; injection h5 with h5; cases h5
            | cons e' q => simp at this; omega
  casts := by
    intro k t v hk
    have hk' : Ev.cast k t v ∈ l := by
      rcases List.mem_cons.mp hk with hk | hk
      · cases hk
      · rcases List.mem_append.mp hk with hk | hk
        · exact hk
        · cases List.mem_singleton.mp hk
    unfold calls
    rw [calls_append]
    have : calls k ([Ev.leave M.length] : List (Ev W)) = [] := rfl
    rw [this, List.append_nil]
    exact h.casts k t v hk'
  fresh := by
    intro k t v hk
    have hk' : Ev.cast k t v ∈ l := by
      rcases List.mem_cons.mp hk with hk | hk
      · cases hk
      · rcases List.mem_append.mp hk with hk | hk
        · exact hk
        · cases List.mem_singleton.mp hk
    refine ⟨(by intro _ _ _ _ hh; cases hh), AllAt.append (h.fresh k t v hk') ⟨?_, trivial⟩⟩
    intro _ _ _ _ hh
    cases hh
  fine := ⟨rfl, AllAt.append h.fine ⟨trivial, trivial⟩⟩
  next := by
    refine Next.append (a := [Ev.enter M.length bytes]) ?_ (Next.append h.next ?_)
    · intro pre k m id p sz post t hk
      have : Ev.told k m id p sz ∈ ([Ev.enter M.length bytes] : List (Ev W)) := by rw [hk]; simp
      cases List.mem_singleton.mp this
    · intro pre k m id p sz post t hk
      have : Ev.told k m id p sz ∈ ([Ev.leave M.length] : List (Ev W)) := by rw [hk]; simp
      cases List.mem_singleton.mp this

/-! ### Runs -/

/-- What happens from `s` to `s'` is `l`. -/
structure Goes (H : Handlers W U) (mods : List Nat) (x : Option Nat) (s s' : St W U) (l : List (Ev W)) : Prop where
  log : s'.log = s.log ++ l
  mem : s'.mem = replay s.mem l
  good : Good H mods x s.count s.mem s'.count l

theorem Goes.refl (H : Handlers W U) (mods : List Nat) (x : Option Nat) (s : St W U) (u : U) :
    Goes H mods x s { s with user := u } [] := ⟨(List.append_nil _).symm, rfl, Good.nil ..⟩

theorem Goes.trans {x : Option Nat} {s t u : St W U} {a b : List (Ev W)} (h1 : Goes H mods x s t a)
    (h2 : Goes H mods x t u b) : Goes H mods x s u (a ++ b) :=
  ⟨by rw [h2.log, h1.log, List.append_assoc], by rw [h2.mem, h1.mem, replay_append],
    h1.good.append (h1.mem ▸ h2.good)⟩

theorem emit_mem (s : St W U) (e : Ev W) : (s.emit e).mem = after s.mem e := rfl

theorem emit_log (s : St W U) (e : Ev W) : (s.emit e).log = s.log ++ [e] := rfl

theorem bind_ok {α β : Type} {r : Res α} {g : α → Res β} {b : β} (h : (r >>= g) = .ok b) : ∃ a, r = .ok a ∧ g a = .ok b := by
  cases r with
  | ok a => exact ⟨a, rfl, h⟩
  | ub => cases h
  | hang => cases h

theorem close_ok {s s' : St W U} {b : Nat} {e : Ev W} (h : s.close b e = .ok s') : object s.mem b ≠ none ∧ s' = s.emit e := by
  unfold St.close at h
  split at h
  · cases h
  · rename_i heq
    injection h with h
    exact ⟨(by rw [heq]; simp), h.symm⟩

theorem load_ok {s : St W U} {p : Ptr} {sz : Nat} {bytes : List Byte} (h : s.load p sz = .ok bytes) :
    region s.mem p sz = some bytes := by
  unfold St.load at h
  split at h
  · cases h
  · rename_i heq
    injection h with h
    rw [heq, h]

/-- What is known about running `receive` of a module. -/
def RecvOk (H : Handlers W U) (mods : List Nat) (recv : Recv W U) : Prop :=
  ∀ u m id p sz s s', recv u m id p sz s = .ok s' → ∃ l, Goes H mods none s s' l ∧
    (H.Plain m → ∀ t, accepts W m id sz = some t → ∃ v r, l = Ev.data m t v p :: r)

theorem deliver_goes {recv : Recv W U} (hr : RecvOk H mods recv) {n id : Nat} {p : Ptr} {sz : Nat} : ∀ (ms : List Nat)
    (s s' : St W U), n < s.count → deliver recv n id p sz ms s = .ok s' → ∃ l, Goes H mods (some n) s s' l ∧
      calls n l = (ms.filter fun q => W.hash (W.sends q) ≠ id).map fun q => (some q, id, p, sz) := by
  intro ms
  induction ms with
  | nil =>
    intro s s' _ h
    injection h with h
    subst h
    exact ⟨[], Goes.refl H mods _ s s.user, rfl⟩
  | cons m ms ih =>
    intro s s' hn h
    unfold deliver at h
    split at h
    · rename_i hm
      obtain ⟨s1, h1, h2⟩ := bind_ok h
      obtain ⟨l1, g1, k1⟩ := hr _ _ _ _ _ _ _ h1
      have hle := g1.good.le
      change s.count ≤ s1.count at hle
      obtain ⟨l2, g2, k2⟩ := ih s1 s' (Nat.lt_of_lt_of_le hn hle) h2
      have gg : Goes H mods (some n) s s1 (Ev.told n m id p sz :: l1) :=
        ⟨by rw [g1.log]; simp [St.emit], g1.mem, (g1.good.during hn).told k1⟩
      refine ⟨_, gg.trans g2, ?_⟩
      rw [calls_append, k2]
      unfold calls
      rw [if_pos rfl, g1.good.no_calls hn, List.filter_cons_of_pos (by simpa using hm)]
      rfl
    · rename_i hm
      obtain ⟨l2, g2, k2⟩ := ih s s' hn h
      refine ⟨l2, g2, ?_⟩
      rw [k2, List.filter_cons_of_neg (by simpa using hm)]

/-- What is known about running the hook. -/
def HookOk (H : Handlers W U) (mods : List Nat) (hook : U → Nat → Ptr → Nat → St W U → Res (St W U)) : Prop :=
  ∀ u id p sz s s', hook u id p sz s = .ok s' → ∃ l, Goes H mods none s s' l

theorem distribute_goes {recv : Recv W U} (hr : RecvOk H mods recv) {hook : U → Nat → Ptr → Nat → St W U → Res (St W U)}
    (hh : HookOk H mods hook) {m : Nat} {p : Ptr} {sz : Nat} {s s' : St W U}
    (h : distribute recv hook mods m p sz s = .ok s') :
    ∃ l, Goes H mods none s s' (Ev.start s.count m p sz :: l) := by
  unfold distribute at h
  obtain ⟨s1, h1, h2⟩ := bind_ok h
  obtain ⟨l1, g1⟩ := hh _ _ _ _ _ _ h1
  have hle := g1.good.le
  change s.count + 1 ≤ s1.count at hle
  obtain ⟨l2, g2, k2⟩ := deliver_goes hr mods s1 s' hle h2
  have e1 : s1.mem = replay s.mem l1 := g1.mem
  have gd : Good H mods none (s.count + 1) s.mem s1.count l1 := g1.good
  have g2' := g2.good
  rw [e1] at g2'
  refine ⟨[Ev.hook s.count (W.hash (W.sends m)) p sz] ++ (l1 ++ l2), ⟨?_, ?_, ?_⟩⟩
  · rw [g2.log, g1.log]
    simp [St.emit]
  · rw [g2.mem, e1, ← replay_append]
    rfl
  · refine Good.start ?_ ?_
    · exact (Good.hook s.count (s.count + 1) s.mem _ p sz).append ((gd.during (Nat.lt_succ_self _)).append g2')
    · rw [calls_append, calls_append, gd.no_calls (Nat.lt_succ_self _), k2]
      unfold calls
      rw [if_pos rfl]
      rfl

theorem sendField_goes {recv : Recv W U} (hr : RecvOk H mods recv) {hook : U → Nat → Ptr → Nat → St W U → Res (St W U)}
    (hh : HookOk H mods hook) {m : Nat} {v : W.Val (W.sends m)} {s s' : St W U}
    (h : sendField recv hook mods m v s = .ok s') :
    ∃ l, Goes H mods none s s' (Ev.enter s.mem.length ((W.pod (W.sends m)).enc v) ::
      (Ev.start s.count m ⟨s.mem.length, 0⟩ (W.pod (W.sends m)).size :: l ++ [Ev.leave s.mem.length])) := by
  unfold sendField at h
  obtain ⟨s1, h1, h2⟩ := bind_ok h
  obtain ⟨l, g⟩ := distribute_goes hr hh h1
  obtain ⟨_, rfl⟩ := close_ok h2
  refine ⟨l, ⟨?_, ?_, Good.block g.good⟩⟩
  · rw [emit_log, g.log]
    simp [St.emit]
  · rw [emit_mem, g.mem]
    show _ = replay (s.mem ++ [_]) (_ ++ [_])
    rw [replay_append]
    rfl

theorem region_new (M : Mem) (x : List Byte) {n : Nat} (h : x.length = n) : region (M ++ [some x]) ⟨M.length, 0⟩ n = some x := by
  unfold region
  rw [object_new]
  simp [h]
  rw [← h, List.take_length]

theorem castOne_goes {recv : Recv W U} (hr : RecvOk H mods recv) {n t : Nat} {v : W.Val t} {m : Nat} {s s' : St W U}
    (hn : n < s.count) (h : castOne recv n t v m s = .ok s') : ∃ l, Goes H mods (some n) s s' l ∧
      (calls n l).map (fun c => (c.1, c.2.1, c.2.2.2)) =
        ([m].filter fun q => W.hash (W.sends q) ≠ W.hash t).map (fun q => (some q, W.hash t, (W.pod t).size)) ∧
      AllAt (Fresh n t v) s.mem l := by
  unfold castOne at h
  obtain ⟨s1, h1, h2⟩ := bind_ok h
  obtain ⟨_, rfl⟩ := close_ok h2
  unfold castTell at h1
  by_cases hm : W.hash (W.sends m) ≠ W.hash t
  · rw [if_pos hm] at h1
    obtain ⟨l, g, k⟩ := hr _ _ _ _ _ _ _ h1
    have gd : Good H mods none s.count (s.mem ++ [some ((W.pod t).enc v)]) s1.count l := g.good
    have gt := Good.block ((gd.during hn).told (n := n) k)
    refine ⟨_, ⟨?_, ?_, gt⟩, ?_, ?_⟩
    · rw [emit_log, g.log]
      simp [St.emit]
    · rw [emit_mem, g.mem]
      show _ = replay (s.mem ++ [_]) (_ ++ [_])
      rw [replay_append]
      rfl
    · rw [List.filter_cons_of_pos (by simpa using hm)]
      show (calls n ((Ev.told n m _ _ _ :: l) ++ [_])).map _ = _
      rw [calls_append]
      unfold calls
      rw [if_pos rfl, gd.no_calls hn]
      rfl
    · refine ⟨(by intro _ _ _ _ hh; cases hh), ⟨?_, AllAt.append (AllAt.of ?_) ⟨(by intro _ _ _ _ hh; cases hh), trivial⟩⟩⟩
      · intro m' id p sz hh
        cases hh
        exact region_new _ _ ((W.pod t).enc_length v)
      · intro M e he m' id p sz hh
        exfalso
        rcases gd.nums e he n (by rw [hh]; rfl) with h' | h'
        · cases h'
        · omega
  · rw [if_neg hm] at h1
    injection h1 with h1
    subst h1
    refine ⟨_, ⟨?_, ?_, Good.block (l := []) (bytes := (W.pod t).enc v) (Good.nil ..)⟩, ?_, ?_⟩
    · simp [St.emit]
    · rfl
    · rw [List.filter_cons_of_neg (by simpa using hm)]
      rfl
    · exact ⟨(by intro _ _ _ _ hh; cases hh), (by intro _ _ _ _ hh; cases hh), trivial⟩

theorem castTo_goes {recv : Recv W U} (hr : RecvOk H mods recv) {n t : Nat} {v : W.Val t} : ∀ (ms : List Nat)
    (s s' : St W U), n < s.count → castTo recv n t v ms s = .ok s' → ∃ l, Goes H mods (some n) s s' l ∧
      (calls n l).map (fun c => (c.1, c.2.1, c.2.2.2)) =
        (ms.filter fun q => W.hash (W.sends q) ≠ W.hash t).map (fun q => (some q, W.hash t, (W.pod t).size)) ∧
      AllAt (Fresh n t v) s.mem l := by
  intro ms
  induction ms with
  | nil =>
    intro s s' _ h
    injection h with h
    subst h
    exact ⟨[], Goes.refl H mods _ s s.user, rfl, trivial⟩
  | cons m ms ih =>
    intro s s' hn h
    unfold castTo at h
    obtain ⟨s1, h1, h2⟩ := bind_ok h
    obtain ⟨l1, g1, k1, f1⟩ := castOne_goes hr hn h1
    obtain ⟨l2, g2, k2, f2⟩ := ih s1 s' (Nat.lt_of_lt_of_le hn g1.good.le) h2
    refine ⟨l1 ++ l2, g1.trans g2, ?_, f1.append (g1.mem ▸ f2)⟩
    rw [calls_append, List.map_append, k1, k2, ← List.map_append, ← List.filter_append]
    rfl

theorem accepts_mem {m id sz t : Nat} (h : accepts W m id sz = some t) : t ∈ W.recvs m ∧ (W.pod t).size = sz := by
  have hm : ∀ (l : List Nat) t', matchType W id l = some t' → t' ∈ l := by
    intro l
    induction l with
    | nil => intro t' h; cases h
    | cons a l ih =>
      intro t' h
      unfold matchType at h
      split at h
      · injection h with h
        rw [h]
        exact List.mem_cons_self ..
      · exact List.mem_cons_of_mem _ (ih t' h)
  unfold accepts at h
  split at h
  · cases h
  · rename_i t' ht
    split at h
    · cases h
    · rename_i hs
      injection h with h
      subst h
      exact ⟨hm _ _ ht, Decidable.not_not.mp hs⟩

theorem receive_goes {call : U → (m t : Nat) → W.Val t → St W U → Res (St W U)}
    (hc : ∀ u m t v s s', call u m t v s = .ok s' → ∃ l, Goes H mods none s s' l) {m id : Nat} {p : Ptr} {sz : Nat}
    {s s' : St W U} (h : receive call m id p sz s = .ok s') : ∃ l, Goes H mods none s s' l ∧
      (∀ t, accepts W m id sz = some t → ∃ v r, l = Ev.data m t v p :: r) := by
  unfold receive at h
  split at h
  · rename_i ha
    injection h with h
    subst h
    exact ⟨[], Goes.refl H mods _ s s.user, by intro t ht; rw [ha] at ht; cases ht⟩
  · rename_i t ha
    obtain ⟨bytes, h1, h2⟩ := bind_ok h
    obtain ⟨l, g⟩ := hc _ _ _ _ _ _ h2
    have hm := accepts_mem ha
    have hq : Goes H mods none s (s.emit (.data m t ((W.pod t).dec bytes) p)) [.data m t ((W.pod t).dec bytes) p] :=
      ⟨rfl, rfl, Good.quiet _ _ _ rfl (by intro b hb; cases hb) (by intro b bs hb; cases hb)
        ⟨hm.1, bytes, by rw [hm.2]; exact load_ok h1, rfl⟩⟩
    refine ⟨_, hq.trans g, ?_⟩
    intro t' ht'
    rw [ha] at ht'
    injection ht' with ht'
    subst ht'
    exact ⟨_, l, rfl⟩

/-- Running `receive` of a module is as required. -/
theorem recv_ok {f : Nat} (ih : ∀ (p : Prog W U) (s s' : St W U), exec H mods f p s = .ok s' → ∃ l, Goes H mods none s s' l) :
    RecvOk H mods (fun u m id p sz => exec H mods f (H.receive u m id p sz)) := by
  intro u m id p sz s s' h
  obtain ⟨l, g⟩ := ih _ _ _ h
  by_cases hp : H.Plain m
  · dsimp only at h
    rw [hp u id p sz] at h
    unfold plain at h
    cases f with
    | zero => cases h
    | succ f =>
      unfold exec at h
      obtain ⟨s1, h1, h2⟩ := bind_ok h
      obtain ⟨l1, g1, k1⟩ := receive_goes (H := H) (mods := mods) (fun u m t v s s' hh => by
        have : exec H mods (f + 1) (.set s.user (H.data u m t v)) s = .ok s' := hh
        exact ih _ _ _ this) h1
      have e1 : s'.log = s1.log ∧ True := by
        cases f with
        | zero => cases h2
        | succ f =>
          unfold exec at h2
          injection h2 with h2
          rw [← h2]
          exact ⟨rfl, trivial⟩
      have : l = l1 := by
        have := g.log
        rw [e1.1, g1.log] at this
        exact (List.append_cancel_left this).symm
      subst this
      exact ⟨l, g, fun _ => k1⟩
  · exact ⟨l, g, fun h => absurd h hp⟩

theorem exec_goes (H : Handlers W U) (mods : List Nat) : ∀ (f : Nat) (p : Prog W U) (s s' : St W U),
    exec H mods f p s = .ok s' → ∃ l, Goes H mods none s s' l := by
  intro f
  induction f with
  | zero => intro p s s' h; cases h
  | succ f ih =>
    have hook : HookOk H mods (fun u id p sz => exec H mods f (H.hook u id p sz)) := fun u id p sz s s' h => ih _ _ _ h
    have recv := recv_ok ih
    intro p s s' h
    cases p with
    | ret u =>
      unfold exec at h
      injection h with h
      subst h
      exact ⟨[], Goes.refl H mods none s u⟩
    | set u k =>
      unfold exec at h
      obtain ⟨l, g⟩ := ih _ _ _ h
      exact ⟨l, g.log, g.mem, g.good⟩
    | send m v k =>
      unfold exec at h
      obtain ⟨s1, h1, h2⟩ := bind_ok h
      obtain ⟨l1, g1⟩ := sendField_goes recv hook h1
      obtain ⟨l2, g2⟩ := ih _ _ _ h2
      exact ⟨_, g1.trans g2⟩
    | raw m p sz k =>
      unfold exec at h
      obtain ⟨s1, h1, h2⟩ := bind_ok h
      obtain ⟨l1, g1⟩ := distribute_goes recv hook h1
      obtain ⟨l2, g2⟩ := ih _ _ _ h2
      exact ⟨_, g1.trans g2⟩
    | cast t v k =>
      unfold exec at h
      obtain ⟨s1, h1, h2⟩ := bind_ok h
      obtain ⟨l1, g1, k1, f1⟩ := castTo_goes recv mods _ _ (Nat.lt_succ_self _) h1
      obtain ⟨l2, g2⟩ := ih _ _ _ h2
      have g : Goes H mods none s s1 (Ev.cast s.count t v :: l1) :=
        ⟨by rw [g1.log]; simp [St.emit], g1.mem, Good.cast g1.good k1 f1⟩
      exact ⟨_, g.trans g2⟩
    | alloc bytes k =>
      unfold exec at h
      obtain ⟨l, g⟩ := ih _ _ _ h
      have hq : Goes H mods none s (s.emit (.made s.mem.length bytes)) [.made s.mem.length bytes] :=
        ⟨rfl, rfl, Good.quiet _ _ _ rfl (by intro b hb; cases hb) (by intro b bs hb; cases hb) rfl⟩
      exact ⟨_, hq.trans g⟩
    | free b k =>
      unfold exec at h
      obtain ⟨s1, h1, h2⟩ := bind_ok h
      obtain ⟨_, rfl⟩ := close_ok h1
      obtain ⟨l, g⟩ := ih _ _ _ h2
      have hq : Goes H mods none s (s.emit (.freed b)) [.freed b] :=
        ⟨rfl, rfl, Good.quiet _ _ _ rfl (by intro b hb; cases hb) (by intro b bs hb; cases hb) trivial⟩
      exact ⟨_, hq.trans g⟩
    | write p x k =>
      unfold exec at h
      obtain ⟨_, h1, h2⟩ := bind_ok h
      obtain ⟨l, g⟩ := ih _ _ _ h2
      have hq : Goes H mods none s (s.emit (.wrote p x)) [.wrote p x] :=
        ⟨rfl, rfl, Good.quiet _ _ _ rfl (by intro b hb; cases hb) (by intro b bs hb; cases hb) trivial⟩
      exact ⟨_, hq.trans g⟩
    | read p k =>
      unfold exec at h
      obtain ⟨_, h1, h2⟩ := bind_ok h
      exact ih _ _ _ h2
    | inherited m id p sz k =>
      unfold exec at h
      obtain ⟨s1, h1, h2⟩ := bind_ok h
      obtain ⟨l1, g1, _⟩ := receive_goes (H := H) (mods := mods) (fun u m t v s s' hh => ih _ _ _ hh) h1
      obtain ⟨l2, g2⟩ := ih _ _ _ h2
      exact ⟨_, g1.trans g2⟩

/-- What `send(field)` leads to, up to what the program does next. -/
theorem send_goes {s s' : St W U} {f m : Nat} {v : W.Val (W.sends m)} {k : U → Prog W U}
    (hx : exec H mods f (.send m v k) s = .ok s') : ∃ l, Goes H mods none s s'
      (Ev.enter s.mem.length ((W.pod (W.sends m)).enc v) ::
        Ev.start s.count m ⟨s.mem.length, 0⟩ (W.pod (W.sends m)).size :: l) := by
  cases f with
  | zero => cases hx
  | succ f =>
    unfold exec at hx
    obtain ⟨s1, h1, h2⟩ := bind_ok hx
    obtain ⟨l1, g1⟩ := sendField_goes (recv_ok (exec_goes H mods f)) (fun u id p sz s s' h => exec_goes H mods f _ _ _ h) h1
    obtain ⟨l2, g2⟩ := exec_goes H mods f _ _ _ h2
    have g := g1.trans g2
    simp only [List.cons_append, List.append_assoc] at g
    exact ⟨_, g⟩

/-- What `send(ptr, sz)` leads to, up to what the program does next. -/
theorem raw_goes {s s' : St W U} {f m : Nat} {p : Ptr} {sz : Nat} {k : U → Prog W U}
    (hx : exec H mods f (.raw m p sz k) s = .ok s') : ∃ l, Goes H mods none s s' (Ev.start s.count m p sz :: l) := by
  cases f with
  | zero => cases hx
  | succ f =>
    unfold exec at hx
    obtain ⟨s1, h1, h2⟩ := bind_ok hx
    obtain ⟨l1, g1⟩ := distribute_goes (recv_ok (exec_goes H mods f)) (fun u id p sz s s' h => exec_goes H mods f _ _ _ h) h1
    obtain ⟨l2, g2⟩ := exec_goes H mods f _ _ _ h2
    exact ⟨_, g1.trans g2⟩

/-- What `send` of the manager leads to, up to what the program does next. -/
theorem cast_goes {s s' : St W U} {f t : Nat} {v : W.Val t} {k : U → Prog W U}
    (hx : exec H mods f (.cast t v k) s = .ok s') : ∃ l, Goes H mods none s s' (Ev.cast s.count t v :: l) := by
  cases f with
  | zero => cases hx
  | succ f =>
    unfold exec at hx
    obtain ⟨s1, h1, h2⟩ := bind_ok hx
    obtain ⟨l1, g1, k1, f1⟩ := castTo_goes (recv_ok (exec_goes H mods f)) mods _ _ (Nat.lt_succ_self _) h1
    obtain ⟨l2, g2⟩ := exec_goes H mods f _ _ _ h2
    have g : Goes H mods none s s1 (Ev.cast s.count t v :: l1) :=
      ⟨by rw [g1.log]; simp [St.emit], g1.mem, Good.cast g1.good k1 f1⟩
    exact ⟨_, g.trans g2⟩

theorem Reach.goes {s : St W U} (h : Reach H mods s) : ∃ u, Goes H mods none (St.new u) s s.log := by
  induction h with
  | new u => exact ⟨u, Goes.refl H mods none (St.new u) u⟩
  | run s s' f p _ hx ih =>
    obtain ⟨u, g⟩ := ih
    obtain ⟨l, g2⟩ := exec_goes H mods f p s s' hx
    exact ⟨u, by rw [g2.log]; exact g.trans g2⟩

end Verif.Mediator.Memory
