import Verif.Mediator.MemoryProps
/-!
Property C155: programs that use the memory of messages only while the messages are sent meet nothing undefined.
-/
namespace Verif.Mediator.Memory
open Verif Verif.Data

variable {W : World} {U : Type} {H : Handlers W U} {mods : List Nat}

/-- The `n` bytes at `q` are among the `sz` bytes at `p`. -/
def Within (q : Ptr) (n : Nat) (p : Ptr) (sz : Nat) : Prop := q.buf = p.buf ∧ p.off ≤ q.off ∧ q.off + n ≤ p.off + sz

/-- A program that uses, and sends from, only the bytes that `may` allows and memory that it has acquired itself, and that
releases only memory that is its own (`own`) or that it has acquired itself, and does not use it after that. -/
def Tame (own : Nat → Prop) (may : Ptr → Nat → Prop) : Prog W U → Prop
  | .ret _ => True
  | .set _ k => Tame own may k
  | .send _ _ k => ∀ u, Tame own may (k u)
  | .raw _ p sz k => may p sz ∧ ∀ u, Tame own may (k u)
  | .cast _ _ k => ∀ u, Tame own may (k u)
  | .alloc bytes k => ∀ u b,
      Tame (fun c => own c ∨ c = b) (fun p n => may p n ∨ (p.buf = b ∧ p.off + n ≤ bytes.length)) (k u b)
  | .free b k => own b ∧ ∀ u, Tame (fun c => own c ∧ c ≠ b) (fun p n => may p n ∧ p.buf ≠ b) (k u)
  | .write p _ k => may p 1 ∧ ∀ u, Tame own may (k u)
  | .read p k => may p 1 ∧ ∀ u x, Tame own may (k u x)
  | .inherited _ _ p sz k => may p sz ∧ ∀ u, Tame own may (k u)

/-- The callbacks use the bytes that `may` allows to all, memory that they acquire themselves, and, in `receive` and the
hook, the message that they get. -/
structure Handlers.Tame (H : Handlers W U) (may : Ptr → Nat → Prop) : Prop where
  data : ∀ u m t v, Memory.Tame (fun _ => False) may (H.data u m t v)
  receive : ∀ u m id p sz,
    Memory.Tame (fun _ => False) (fun q n => may q n ∨ Within q n p sz) (H.receive u m id p sz)
  hook : ∀ u id p sz, Memory.Tame (fun _ => False) (fun q n => may q n ∨ Within q n p sz) (H.hook u id p sz)

/-- All that is allowed lies in objects that exist. -/
def Holds (may : Ptr → Nat → Prop) (M : Mem) : Prop := ∀ p n, may p n → ∃ l, object M p.buf = some l ∧ p.off + n ≤ l.length

/-- The objects that are not of `own` are there as before, and as long. -/
def Same (own : Nat → Prop) (M M' : Mem) : Prop :=
  M.length ≤ M'.length ∧ ∀ b, b < M.length → ¬ own b → (object M' b).map List.length = (object M b).map List.length

theorem Same.refl (own : Nat → Prop) (M : Mem) : Same own M M := ⟨Nat.le_refl _, fun _ _ _ => rfl⟩

theorem Same.trans {own own' : Nat → Prop} {M M' M'' : Mem} (h1 : Same own M M') (h2 : Same own' M' M'')
    (hs : ∀ b, b < M.length → ¬ own b → ¬ own' b) : Same own M M'' :=
  ⟨Nat.le_trans h1.1 h2.1, fun b hb ho => by
    rw [h2.2 b (Nat.lt_of_lt_of_le hb h1.1) (hs b hb ho), h1.2 b hb ho]⟩

theorem Same.weak {own : Nat → Prop} {M M' : Mem} (h : Same (fun _ => False) M M') : Same own M M' :=
  ⟨h.1, fun b hb _ => h.2 b hb fun hh => hh⟩

theorem object_lt {M : Mem} {b : Nat} {l : List Byte} (h : object M b = some l) : b < M.length := by
  apply Nat.lt_of_not_le
  intro hge
  unfold object at h
  rw [List.getElem?_eq_none hge] at h
  cases h

theorem Same.object {own : Nat → Prop} {M M' : Mem} (h : Same own M M') {b : Nat} {l : List Byte} (ho : ¬ own b)
    (hb : Memory.object M b = some l) : ∃ l', Memory.object M' b = some l' ∧ l'.length = l.length := by
  have := h.2 b (object_lt hb) ho
  rw [hb] at this
  cases h' : Memory.object M' b with
  | none => rw [h'] at this; cases this
  | some l' =>
    rw [h'] at this
    injection this with this
    exact ⟨l', rfl, this⟩

theorem Holds.same {may : Ptr → Nat → Prop} {own : Nat → Prop} {M M' : Mem} (h : Holds may M) (hs : Same own M M')
    (hd : ∀ p n, may p n → ¬ own p.buf) : Holds may M' := by
  intro p n hp
  obtain ⟨l, h1, h2⟩ := h p n hp
  obtain ⟨l', h3, h4⟩ := hs.object (hd p n hp) h1
  exact ⟨l', h3, by omega⟩

theorem Holds.region {may : Ptr → Nat → Prop} {M : Mem} (h : Holds may M) {p : Ptr} {n : Nat} (hp : may p n) :
    ∃ bytes, Memory.region M p n = some bytes := by
  obtain ⟨l, h1, h2⟩ := h p n hp
  unfold Memory.region
  rw [h1]
  exact ⟨_, if_pos h2⟩

/-- Not undefined, and `P` holds if it ends. -/
def Safe {α : Type} (r : Res α) (P : α → Prop) : Prop :=
  match r with
  | .ok a => P a
  | .ub => False
  | .hang => True

theorem Safe.bind {α β : Type} {r : Res α} {P : α → Prop} {Q : β → Prop} {g : α → Res β} (h : Safe r P)
    (hg : ∀ a, P a → Safe (g a) Q) : Safe (r >>= g) Q := by
  cases r with
  | ok a => exact hg a h
  | ub => exact h
  | hang => trivial

theorem Safe.mono {α : Type} {r : Res α} {P Q : α → Prop} (h : Safe r P) (hPQ : ∀ a, P a → Q a) : Safe r Q := by
  cases r with
  | ok a => exact hPQ a h
  | ub => exact h
  | hang => trivial

/-- Nobody's own. -/
abbrev no : Nat → Prop := fun _ => False

/-- A call of the user's code that leaves memory as it is, but for what is written, whenever the message and what is allowed
to all are there. -/
def Polite (may : Ptr → Nat → Prop) (p : Ptr) (sz : Nat) (run : St W U → Res (St W U)) : Prop :=
  ∀ s, Holds may s.mem → (∃ l, object s.mem p.buf = some l ∧ p.off + sz ≤ l.length) →
    Safe (run s) fun s' => Same no s.mem s'.mem

theorem Same.there {M M' : Mem} (h : Same no M M') {p : Ptr} {sz : Nat}
    (hp : ∃ l, Memory.object M p.buf = some l ∧ p.off + sz ≤ l.length) :
    ∃ l, Memory.object M' p.buf = some l ∧ p.off + sz ≤ l.length := by
  obtain ⟨l, h1, h2⟩ := hp
  obtain ⟨l', h3, h4⟩ := h.object (fun hh => hh) h1
  exact ⟨l', h3, by omega⟩

theorem deliver_safe {may : Ptr → Nat → Prop} {recv : Recv W U} {n id : Nat} {p : Ptr} {sz : Nat}
    (hr : ∀ u m id, Polite may p sz (recv u m id p sz)) : ∀ (ms : List Nat) (s : St W U), Holds may s.mem →
      (∃ l, object s.mem p.buf = some l ∧ p.off + sz ≤ l.length) →
      Safe (deliver recv n id p sz ms s) fun s' => Same no s.mem s'.mem := by
  intro ms
  induction ms with
  | nil => intro s _ _; exact Same.refl _ _
  | cons m ms ih =>
    intro s hm hp
    unfold deliver
    split
    · refine Safe.bind (hr s.user m id (s.emit (.told n m id p sz)) hm hp) fun s1 h1 => ?_
      have h1' : Same no s.mem s1.mem := h1
      exact (ih s1 (hm.same h1' fun _ _ _ hh => hh) (h1'.there hp)).mono fun s2 h2 => h1'.trans h2 fun _ _ hh => hh
    · exact ih s hm hp

theorem distribute_safe {may : Ptr → Nat → Prop} {recv : Recv W U} {hook : U → Nat → Ptr → Nat → St W U → Res (St W U)}
    {m : Nat} {p : Ptr} {sz : Nat} (hr : ∀ u m id, Polite may p sz (recv u m id p sz))
    (hh : ∀ u id, Polite may p sz (hook u id p sz)) (s : St W U) (hm : Holds may s.mem)
    (hp : ∃ l, object s.mem p.buf = some l ∧ p.off + sz ≤ l.length) :
    Safe (distribute recv hook mods m p sz s) fun s' => Same no s.mem s'.mem := by
  unfold distribute
  refine Safe.bind (hh _ _ _ hm hp) fun s1 h1 => ?_
  have h1' : Same no s.mem s1.mem := h1
  exact (deliver_safe hr mods s1 (hm.same h1' fun _ _ _ hh => hh) (h1'.there hp)).mono
    fun s2 h2 => h1'.trans h2 fun _ _ hh => hh

theorem same_append (M : Mem) (x : List Byte) : Same no M (M ++ [some x]) :=
  ⟨by simp, fun b hb _ => by rw [object_append M x hb]⟩

/-- The union of `send` is there until the end and goes away then. -/
theorem block_safe {may : Ptr → Nat → Prop} {s : St W U} {x : List Byte} {run : St W U → Res (St W U)} (hm : Holds may s.mem)
    (h : ∀ t : St W U, Holds may t.mem → (∃ l, object t.mem s.mem.length = some l ∧ 0 + x.length ≤ l.length) →
      Safe (run t) fun t' => Same no t.mem t'.mem) :
    Safe (run (s.emit (.enter s.mem.length x)) >>= fun t => t.close s.mem.length (.leave s.mem.length))
      fun t' => Same no s.mem t'.mem := by
  have hs : Same no s.mem (s.emit (.enter s.mem.length x)).mem := same_append s.mem x
  refine Safe.bind (h _ (hm.same hs fun _ _ _ hh => hh) ⟨x, object_new _ _, by omega⟩) fun t ht => ?_
  obtain ⟨l', h3, _⟩ := ht.object (fun hh => hh) (object_new s.mem x)
  unfold St.close
  rw [h3]
  refine ⟨?_, ?_⟩
  · have h1 := hs.1
    have h2 := ht.1
    rw [emit_mem]
    simp only [after, List.length_set]
    omega
  · intro b hb _
    rw [emit_mem]
    simp only [after]
    rw [object_set, if_neg (by omega)]
    exact (hs.trans ht fun _ _ hh => hh).2 b hb fun hh => hh

theorem castTo_safe {may : Ptr → Nat → Prop} {recv : Recv W U} {n t : Nat} {v : W.Val t}
    (hr : ∀ u m id b, Polite may ⟨b, 0⟩ (W.pod t).size (recv u m id ⟨b, 0⟩ (W.pod t).size)) : ∀ (ms : List Nat) (s : St W U),
      Holds may s.mem → Safe (castTo recv n t v ms s) fun s' => Same no s.mem s'.mem := by
  intro ms
  induction ms with
  | nil => intro s _; exact Same.refl _ _
  | cons m ms ih =>
    intro s hm
    unfold castTo
    have h1 : Safe (castOne recv n t v m s) fun s' => Same no s.mem s'.mem := by
      unfold castOne
      refine block_safe (run := castTell recv n t m s.mem.length) hm fun t' ht hb => ?_
      unfold castTell
      split
      · refine hr _ _ _ _ _ ht ?_
        rw [(W.pod t).enc_length] at hb
        exact hb
      · exact Same.refl _ _
    refine Safe.bind h1 fun s1 h1 => ?_
    exact (ih s1 (hm.same h1 fun _ _ _ hh => hh)).mono fun s2 h2 => h1.trans h2 fun _ _ hh => hh

theorem exec_safe {may0 : Ptr → Nat → Prop} (hH : H.Tame may0) : ∀ (f : Nat) (p : Prog W U) (own : Nat → Prop)
    (may : Ptr → Nat → Prop) (s : St W U), Tame own may p → Holds may s.mem → Holds may0 s.mem →
      (∀ b, own b → ∀ q n, may0 q n → q.buf ≠ b) → (∀ b, own b → object s.mem b ≠ none) →
      Safe (exec H mods f p s) fun s' => Same own s.mem s'.mem := by
  intro f
  induction f with
  | zero => intro p own may s _ _ _ _ _; trivial
  | succ f ih =>
    have both : ∀ (p : Ptr) (sz : Nat) (g : Prog W U), Tame no (fun q n => may0 q n ∨ Within q n p sz) g →
        Polite may0 p sz (exec H mods f g) := by
      intro p sz g hg s hm hp
      refine ih g no _ s hg ?_ hm (fun b hb => hb.elim) fun b hb => hb.elim
      intro q n hq
      rcases hq with hq | hq
      · exact hm q n hq
      · obtain ⟨l, h1, h2⟩ := hp
        exact ⟨l, by rw [hq.1]; exact h1, by have := hq.2.2; omega⟩
    have recv : ∀ u m id p sz, Polite may0 p sz (exec H mods f (H.receive u m id p sz)) :=
      fun u m id p sz => both p sz _ (hH.receive u m id p sz)
    have hook : ∀ u id p sz, Polite may0 p sz (exec H mods f (H.hook u id p sz)) :=
      fun u id p sz => both p sz _ (hH.hook u id p sz)
    intro p own may s hp hm hm0 hd ho
    -- what follows a step that keeps all objects
    have next : ∀ (g : Prog W U) (s1 : St W U), Same no s.mem s1.mem → Tame own may g →
        Safe (exec H mods f g s1) fun s' => Same own s.mem s'.mem := by
      intro g s1 h1 hg
      refine (ih g own may s1 hg (hm.same h1 fun _ _ _ hh => hh) (hm0.same h1 fun _ _ _ hh => hh) hd ?_).mono
        fun s2 h2 => (Same.weak h1).trans h2 fun _ _ hh => hh
      intro b hb
      cases hob : object s.mem b with
      | none => exact absurd hob (ho b hb)
      | some l =>
        obtain ⟨l', h3, _⟩ := h1.object (fun hh => hh) hob
        rw [h3]
        simp
    cases p with
    | ret u => exact Same.refl _ _
    | set u k => unfold exec; exact next k _ (Same.refl _ _) hp
    | send m v k =>
      unfold exec
      refine Safe.bind (P := fun s' : St W U => Same no s.mem s'.mem) ?_ fun s1 h1 => next _ s1 h1 (hp _)
      unfold sendField
      refine block_safe (run := distribute _ _ mods m ⟨s.mem.length, 0⟩ (W.pod (W.sends m)).size) hm0 fun t ht hb => ?_
      refine distribute_safe (fun u m id => recv u m id _ _) (fun u id => hook u id _ _) t ht ?_
      rw [(W.pod (W.sends m)).enc_length] at hb
      exact hb
    | raw m p sz k =>
      unfold exec
      exact Safe.bind (distribute_safe (fun u m id => recv u m id _ _) (fun u id => hook u id _ _) s hm0 (hm p sz hp.1))
        fun s1 h1 => next _ s1 h1 (hp.2 _)
    | cast t v k =>
      unfold exec
      exact Safe.bind (castTo_safe (fun u m id b => recv u m id _ _) mods ({ s with count := s.count + 1 }.emit _) hm0)
        fun s1 h1 => next _ s1 h1 (hp _)
    | alloc bytes k =>
      unfold exec
      have hs : Same no s.mem (s.emit (.made s.mem.length bytes)).mem := same_append s.mem bytes
      have hin : object (s.emit (.made s.mem.length bytes)).mem s.mem.length = some bytes := object_new _ _
      refine (ih _ _ _ _ (hp s.user s.mem.length) ?_ (hm0.same hs fun _ _ _ hh => hh) ?_ ?_).mono
        fun s2 h2 => (Same.weak hs).trans h2 ?_
      · intro q n hq
        rcases hq with hq | ⟨hq, hq'⟩
        · exact (hm.same hs fun _ _ _ hh => hh) q n hq
        · exact ⟨bytes, by rw [hq]; exact hin, hq'⟩
      · intro b hb q n hq
        rcases hb with hb | hb
        · exact hd b hb q n hq
        · obtain ⟨l, h1, _⟩ := hm0 q n hq
          have := object_lt h1
          omega
      · intro b hb
        rcases hb with hb | hb
        · cases hob : object s.mem b with
          | none => exact absurd hob (ho b hb)
          | some l =>
            obtain ⟨l', h3, _⟩ := hs.object (fun hh => hh) hob
            rw [h3]
            simp
        · rw [hb, hin]
          simp
      · intro b hb hno hh
        rcases hh with hh | hh
        · exact hno hh
        · omega
    | free b k =>
      unfold exec
      obtain ⟨hob, hk⟩ := hp
      cases hol : object s.mem b with
      | none => exact absurd hol (ho b hob)
      | some l =>
        unfold St.close
        rw [hol]
        show Safe (exec H mods f _ (s.emit (.freed b))) _
        have hobj : ∀ c, object (s.emit (.freed b)).mem c = if b = c then none else object s.mem c := by
          intro c
          rw [emit_mem]
          exact object_set s.mem b c
        have hs : Same own s.mem (s.emit (.freed b)).mem := by
          refine ⟨by rw [emit_mem]; simp [after], ?_⟩
          intro c _ hc
          rw [hobj, if_neg (fun hh : b = c => hc (hh ▸ hob))]
        refine (ih _ _ _ _ (hk s.user) ?_ ?_ ?_ ?_).mono fun s2 h2 => hs.trans h2 fun c _ hno hh => hno hh.1
        · intro q n hq
          obtain ⟨l', h1, h2⟩ := hm q n hq.1
          exact ⟨l', by rw [hobj, if_neg fun hh => hq.2 hh.symm]; exact h1, h2⟩
        · intro q n hq
          obtain ⟨l', h1, h2⟩ := hm0 q n hq
          exact ⟨l', by rw [hobj, if_neg fun hh => hd b hob q n hq hh.symm]; exact h1, h2⟩
        · intro c hc
          exact hd c hc.1
        · intro c hc
          rw [hobj, if_neg fun hh => hc.2 hh.symm]
          exact ho c hc.1
    | write p x k =>
      unfold exec
      obtain ⟨bytes, hb⟩ := hm.region hp.1
      unfold St.load
      rw [hb]
      show Safe (exec H mods f _ (s.emit (.wrote p x))) _
      refine next _ _ ⟨by rw [emit_mem]; simp [after], ?_⟩ (hp.2 _)
      intro c _ _
      rw [emit_mem]
      simp only [after]
      rw [object_modify]
      split
      · cases object s.mem c <;> simp
      · rfl
    | read p k =>
      unfold exec
      obtain ⟨bytes, hb⟩ := hm.region hp.1
      unfold St.load
      rw [hb]
      exact next _ s (Same.refl _ _) (hp.2 _ _)
    | inherited m id p sz k =>
      unfold exec
      refine Safe.bind (P := fun s' : St W U => Same no s.mem s'.mem) ?_ fun s1 h1 => next _ s1 h1 (hp.2 _)
      unfold receive
      split
      · exact Same.refl _ _
      · obtain ⟨bytes, hb⟩ := hm.region hp.1
        unfold St.load
        rw [hb]
        rename_i t _
        exact ih _ no may0 (s.emit _) (hH.data _ _ _ _) hm0 hm0 (fun b hb => hb.elim) fun b hb => hb.elim

/-- Nothing undefined happens, from any reachable state, if the callbacks use only memory that is there for all (`may`),
memory that they acquire themselves and, until they return, the message they get; if the program that runs uses only
memory that is there for all and memory that it acquires itself; and if each releases only what it has acquired, and does
not use it after that. -/
theorem C155_safe_partial {may : Ptr → Nat → Prop} (hH : H.Tame may) {s : St W U} (_h : Reach H mods s)
    (hm : ∀ p n, may p n → region s.mem p n ≠ none) (f : Nat) (p : Prog W U) (hp : Tame (fun _ => False) may p) :
    exec H mods f p s ≠ .ub := by
  have hold : Holds may s.mem := by
    intro q n hq
    have := hm q n hq
    unfold region at this
    cases ho : object s.mem q.buf with
    | none => rw [ho] at this; exact absurd rfl this
    | some l =>
      rw [ho] at this
      dsimp only at this
      by_cases hle : q.off + n ≤ l.length
      · exact ⟨l, rfl, hle⟩
      · rw [if_neg hle] at this
        exact absurd rfl this
  have := exec_safe (mods := mods) hH f p (fun _ => False) may s hp hold hold (fun b hb => hb.elim) fun b hb => hb.elim
  intro hub
  rw [hub] at this
  exact this

/-- What is there for all stays there. -/
theorem C155_stays {may : Ptr → Nat → Prop} (hH : H.Tame may) {s s' : St W U} (_h : Reach H mods s)
    (f : Nat) (p : Prog W U) (hp : Tame (fun _ => False) may p) (hm : ∀ p n, may p n → region s.mem p n ≠ none)
    (hx : exec H mods f p s = .ok s') : ∀ p n, may p n → region s'.mem p n ≠ none := by
  have hold : Holds may s.mem := by
    intro q n hq
    have := hm q n hq
    unfold region at this
    cases ho : object s.mem q.buf with
    | none => rw [ho] at this; exact absurd rfl this
    | some l =>
      rw [ho] at this
      dsimp only at this
      by_cases hle : q.off + n ≤ l.length
      · exact ⟨l, rfl, hle⟩
      · rw [if_neg hle] at this
        exact absurd rfl this
  have := exec_safe (mods := mods) hH f p (fun _ => False) may s hp hold hold (fun b hb => hb.elim) fun b hb => hb.elim
  rw [hx] at this
  intro q n hq hn
  obtain ⟨bytes, hb⟩ := (hold.same this fun _ _ _ hh => hh).region hq
  rw [hb] at hn
  cases hn

/-- The callbacks of `Ex.scribble`, which write to the message, are as required. -/
theorem Ex.scribble_tame : Ex.scribble.Tame fun _ _ => False where
  data := fun _ _ _ _ => trivial
  receive := by
    intro u m id p sz
    show Tame _ _ (if m = 2 ∧ 0 < sz then _ else _)
    split
    · rename_i h
      exact ⟨.inr ⟨rfl, Nat.le_refl _, by omega⟩, fun _ => ⟨.inr ⟨rfl, Nat.le_refl _, Nat.le_refl _⟩, fun _ => trivial⟩⟩
    · exact ⟨.inr ⟨rfl, Nat.le_refl _, Nat.le_refl _⟩, fun _ => trivial⟩
  hook := fun _ _ _ _ => trivial

/-- A program that sends from the second byte of memory that it acquires, reads what the modules have left there, releases
the memory, and sends a field. -/
def Ex.tidy : Prog Ex.V Nat :=
  .alloc [1#8, 2#8, 3#8] fun _ b => .raw 1 ⟨b, 1⟩ 2 fun _ => .read ⟨b, 1⟩ fun _ x => .free b fun _ =>
    .send 1 (0x1234#16) fun _ => .ret x.toNat

theorem Ex.tidy_tame : Tame (fun _ => False) (fun _ _ => False) Ex.tidy := by
  intro u b
  refine ⟨.inr ⟨rfl, Nat.le_refl _⟩, fun _ => ⟨.inr ⟨rfl, by simp⟩, fun _ x => ⟨.inr rfl, fun _ _ => trivial⟩⟩⟩

/-- A case of `C155_safe_partial`; the program ends and has read the byte that module 2 wrote. -/
example : exec Ex.scribble [1, 2, 3] 9 Ex.tidy Ex.done ≠ .ub ∧
    (match exec Ex.scribble [1, 2, 3] 9 Ex.tidy Ex.done with | .ok s => s.user | _ => 0) = 255 :=
  ⟨C155_safe_partial Ex.scribble_tame Ex.done_reach (fun _ _ h => h.elim) 9 Ex.tidy Ex.tidy_tame, rfl⟩

end Verif.Mediator.Memory
