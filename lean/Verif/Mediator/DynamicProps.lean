import Verif.Mediator.DynamicLemmas
import Verif.Mediator.Props
/-! The properties of the mediator with callbacks that construct and destroy modules and throw, and with a hook that
writes to messages (C96, C97, C101, C102). -/
namespace Verif.Mediator.Dyn
open Verif Verif.Data
variable {W : World} {U : Type}

/-! ### Safety -/

/-- A program that constructs modules of `A` only, sends from modules of `S` only and destroys none of `S`. -/
def Keeps (A S : List Nat) : Prog W U → Prop
  | .ret _ => True
  | .send m _ k => m ∈ S ∧ ∀ u, Keeps A S (k u)
  | .raw m _ k => m ∈ S ∧ ∀ u b, Keeps A S (k u b)
  | .cast _ _ k => ∀ u, Keeps A S (k u)
  | .make m k => m ∈ A ∧ ∀ u, Keeps A S (k u)
  | .drop m k => m ∉ S ∧ ∀ u, Keeps A S (k u)
  | .throw _ => True
  | .attempt p k => Keeps A S p ∧ ∀ u b, Keeps A S (k u b)

/-- All callbacks and the hook are such programs. -/
def Handlers.Keep (H : Handlers W U) (A S : List Nat) : Prop :=
  (∀ u m t v, Keeps A S (H.data u m t v)) ∧ ∀ u id b, Keeps A S (H.hook u id b)

/-- No undefined behaviour, and `P` if there is a result. -/
def Safe {α : Type} (r : Res α) (P : α → Prop) : Prop :=
  match r with
  | .ok s => P s
  | .ub => False
  | .hang => True

theorem Safe.bind {α β : Type} {r : Res α} {P : α → Prop} {Q : β → Prop} {g : α → Res β}
    (h : Safe r P) (hg : ∀ s, P s → Safe (g s) Q) : Safe (r >>= g) Q := by
  cases r with
  | ok s => simpa using hg s h
  | ub => exact h.elim
  | hang => simp [Safe]

theorem Safe.mono {α : Type} {r : Res α} {P Q : α → Prop} (h : Safe r P) (hPQ : ∀ s, P s → Q s) : Safe r Q := by
  cases r with
  | ok s => exact hPQ s h
  | ub => exact h
  | hang => trivial

/-- If the result has `R` when there is one, then it has. -/
theorem Safe.and {α : Type} {r : Res α} {P R : α → Prop} (h : Safe r P) (hR : ∀ s, r = .ok s → R s) :
    Safe r fun s => P s ∧ R s := by
  cases r with
  | ok s => exact ⟨h, hR s rfl⟩
  | ub => exact h
  | hang => trivial

/-- The living modules are of `A`, and there is always a free place. -/
structure Fits (A : List Nat) (s : St W U) : Prop where
  inv : Inv s
  sub : ∀ m ∈ s.live, m ∈ A
  room : A.length < s.arr.length

/-- From `s` to `s'`, with all modules of `S` still alive. -/
def Stays (A S : List Nat) (s s' : St W U) : Prop :=
  Fits A s' ∧ (∀ m ∈ S, m ∈ s.live → m ∈ s'.live) ∧ s'.arr.length = s.arr.length

theorem Stays.refl {A S : List Nat} {s : St W U} (h : Fits A s) : Stays A S s s := ⟨h, fun _ _ h => h, rfl⟩

theorem Stays.trans {A S : List Nat} {s t u : St W U} (h1 : Stays A S s t) (h2 : Stays A S t u) : Stays A S s u :=
  ⟨h2.1, fun m hm hl => h2.2.1 m hm (h1.2.1 m hm hl), h2.2.2.trans h1.2.2⟩

theorem Fits.lt {A : List Nat} {s : St W U} (h : Fits A s) : s.live.length < s.arr.length :=
  Nat.lt_of_le_of_lt (List.Nodup.length_le_of_subset h.inv.nodup fun _ hm => h.sub _ hm) h.room

theorem make_safe {A S : List Nat} {s : St W U} (h : Fits A s) {c : Nat} (hc : c ∈ A) :
    Safe (make s c) (Stays A S s) := by
  cases he : make s c with
  | ok s' =>
    have hr := make_ran h.inv he
    unfold make at he
    by_cases hl : c ∈ s.live
    · rw [if_pos hl] at he
      cases he
      exact Stays.refl h
    · rw [if_neg hl] at he
      obtain ⟨r, e, -⟩ := add_ok s.live s.reg h.inv.knows h.lt c
      rw [e] at he
      simp only [Res.ok_bind, Res.ok.injEq] at he
      subst he
      refine ⟨⟨hr.inv, fun m hm => ?_, by rw [hr.size]; exact h.room⟩, fun m _ hm => List.mem_append_left _ hm, hr.size⟩
      rcases List.mem_append.1 hm with hm | hm
      · exact h.sub m hm
      · rw [List.mem_singleton.1 hm]
        exact hc
  | ub =>
    unfold make at he
    by_cases hl : c ∈ s.live
    · rw [if_pos hl] at he
      exact nomatch he
    · rw [if_neg hl] at he
      obtain ⟨r, e, -⟩ := add_ok s.live s.reg h.inv.knows h.lt c
      rw [e] at he
      simp at he
  | hang => trivial

theorem drop_safe {A S : List Nat} {s : St W U} (h : Fits A s) {c : Nat} (hc : c ∉ S) :
    Safe (drop s c) (Stays A S s) := by
  by_cases hl : c ∈ s.live
  · obtain ⟨r, e, -⟩ := remove_ok s.live h.inv.nodup s.reg h.inv.knows h.lt c hl
    have he : drop s c = .ok ⟨r.arr, r.cnt, s.live.filter (· != c), s.user, s.log ++ [Ev.gone c], s.count, s.sent,
      s.thrown⟩ := by
      rw [drop, if_pos hl, e]
      rfl
    have hr := drop_ran h.inv he
    rw [he]
    refine ⟨⟨hr.inv, fun m hm => h.sub m (List.mem_filter.1 hm).1, by rw [hr.size]; exact h.room⟩, fun m hm hin => ?_, hr.size⟩
    refine List.mem_filter.2 ⟨hin, ?_⟩
    have : m ≠ c := fun h' => hc (h' ▸ hm)
    simpa using this
  · rw [drop, if_neg hl]
    exact Stays.refl h

/-- The sender is of `S` and alive, or the manager. -/
def SenderOk (S : List Nat) (src : Option Nat) (s : St W U) : Prop := ∀ m, src = some m → m ∈ S ∧ m ∈ s.live

theorem deliver_safe {A S : List Nat} {call : Call W U}
    (hcall : ∀ u m t v s, Fits A s → s.thrown = false → Safe (call u m t v s) (Stays A S s)) {k id : Nat}
    {src : Option Nat} {bytes : List Byte} : ∀ (n i : Nat) (s : St W U), Fits A s → s.thrown = false →
      SenderOk S src s → s.arr.length ≤ i + n → Safe (deliver call k id src bytes n i s) (Stays A S s)
  | 0, i, s, h, _, hsrc, hn => by
    have hc : s.cnt = s.live.length := h.inv.knows.cnt
    have hr := h.inv.room
    rw [deliver, if_neg (by omega)]
    exact Stays.refl h
  | n + 1, i, s, h, hth, hsrc, hn => by
    have hc : s.cnt = s.live.length := h.inv.knows.cnt
    rw [deliver]
    by_cases hi : i < s.cnt
    · have hil : i < s.live.length := by omega
      have hat : s.arr[i]? = some (s.live[i]?) := h.inv.knows.at_ i hil
      rw [if_pos hi, hat, List.getElem?_eq_getElem hil]
      simp only
      have hs : senderLives src s = true := by
        cases src with
        | none => rfl
        | some m => simpa [senderLives] using (hsrc m rfl).2
      rw [if_pos ⟨List.getElem_mem hil, hs⟩]
      generalize s.live[i] = m
      have go : ∀ s2, Stays A S s s2 → s2.thrown = false →
          Safe (deliver call k id src bytes n (i + 1) s2) (Stays A S s) := fun s2 h2 ht2 =>
        (deliver_safe hcall n (i + 1) s2 h2.1 ht2 (fun m hm => ⟨(hsrc m hm).1, h2.2.1 m (hsrc m hm).1 (hsrc m hm).2⟩)
          (by rw [h2.2.2]; omega)).mono fun s3 h3 => h2.trans h3
      by_cases hid : W.hash (W.sends m) ≠ id
      · rw [if_pos hid]
        refine Safe.bind (P := Stays A S s) ?_ fun s2 h2 => ?_
        · unfold receive
          cases hmt : matchType W id (W.recvs m) with
          | none => exact Stays.refl h
          | some t =>
            cases hcf : convertField W t bytes with
            | none =>
              simp only [hcf]
              exact Stays.refl h
            | some v =>
              simp only [hcf]
              have hf : Fits A (s.emit (Ev.recv k m t v)) := ⟨h.inv.emit _ fun _ => rfl, h.sub, h.room⟩
              exact (hcall s.user m t v _ hf hth).mono fun s2 h2 => ⟨h2.1, h2.2.1, h2.2.2⟩
        · by_cases ht2 : s2.thrown = true
          · rw [if_pos ht2]
            exact ⟨⟨h2.1.inv.emit _ fun _ => rfl, h2.1.sub, h2.1.room⟩, h2.2.1, h2.2.2⟩
          · rw [if_neg ht2]
            exact go s2 h2 (by simpa using ht2)
      · rw [if_neg hid]
        exact go s (Stays.refl h) hth
    · rw [if_neg hi]
      exact Stays.refl h

theorem Inv.counted {s : St W U} (h : Inv s) (n : Nat) : Inv { s with count := n } :=
  ⟨⟨h.knows.cnt, h.knows.at_⟩, h.nodup, h.room, h.live, h.sent⟩

/-- `Stays` without the invariant. -/
def Calm (A S : List Nat) (s s' : St W U) : Prop :=
  (∀ m ∈ s'.live, m ∈ A) ∧ (∀ m ∈ S, m ∈ s.live → m ∈ s'.live) ∧ s'.arr.length = s.arr.length

theorem Calm.stays {A S : List Nat} {s s' : St W U} (hs : Fits A s) (h : Calm A S s s') (hi : Inv s') :
    Stays A S s s' :=
  ⟨⟨hi, h.1, by rw [h.2.2]; exact hs.room⟩, h.2⟩

theorem distribute_safe {A S : List Nat} {call : Call W U}
    (hcall : ∀ u m t v s, Fits A s → s.thrown = false → Safe (call u m t v s) (Stays A S s))
    {hook : U → Nat → List Byte → St W U → Res (St W U)} {edit : Edit U}
    (hhook : ∀ u id b s, Fits A s → s.thrown = false → Safe (hook u id b s) (Stays A S s)) {m : Nat} {bytes : List Byte}
    {s : St W U} (h : Fits A s) (hth : s.thrown = false) (hm : m ∈ S) (hl : m ∈ s.live) :
    Safe (distribute call hook edit m bytes s) fun r => Calm A S s r.1 := by
  unfold distribute
  simp only
  have h1 : Fits A ((({ s with count := s.count + 1 } : St W U).emit
      (.start s.count (some m) (W.sends m) bytes)).emit (.hook s.count (W.hash (W.sends m)) bytes)) :=
    ⟨((h.inv.counted _).emit _ fun _ => rfl).emit _ fun _ => rfl, h.sub, h.room⟩
  refine (hhook _ _ _ _ h1 hth).bind fun s2 h2 => ?_
  unfold afterHook
  by_cases ht2 : s2.thrown = true
  · rw [if_pos ht2]
    exact ⟨h2.1.sub, h2.2.1, h2.2.2⟩
  · rw [if_neg ht2]
    simp only
    generalize overwrite (edit s2.user (W.hash (W.sends m)) bytes) bytes = told
    have hsrc : SenderOk S (some m) (s2.emit (.left s.count told)) := fun m' he => by
      cases he
      exact ⟨hm, h2.2.1 m hm hl⟩
    refine (deliver_safe hcall _ 0 (s2.emit (.left s.count told)) ⟨h2.1.inv.emit _ fun _ => rfl, h2.1.sub, h2.1.room⟩
      (show s2.thrown = false by simpa using ht2) hsrc (by omega)).bind fun s3 h3 => ?_
    exact ⟨h3.1.sub, fun m' hm' hl' => h3.2.1 m' hm' (h2.2.1 m' hm' hl'), h3.2.2.trans h2.2.2⟩

theorem castAll_safe {A S : List Nat} {call : Call W U}
    (hcall : ∀ u m t v s, Fits A s → s.thrown = false → Safe (call u m t v s) (Stays A S s)) {t : Nat} {v : W.Val t}
    {s : St W U} (h : Fits A s) (hth : s.thrown = false) : Safe (castAll call t v s) (Calm A S s) := by
  unfold castAll
  simp only
  have h1 : Fits A (({ s with count := s.count + 1 } : St W U).emit
      (.start s.count none t ((W.pod t).enc v))) :=
    ⟨(h.inv.counted _).emit _ fun _ => rfl, h.sub, h.room⟩
  refine (deliver_safe hcall _ 0 _ h1 hth (fun m (he : none = some m) => nomatch he) (by omega)).bind fun s3 h3 => ?_
  exact ⟨h3.1.sub, h3.2.1, h3.2.2⟩

theorem onward_safe {A S : List Nat} {s : St W U} {g : St W U → Res (St W U)} {s1 : St W U} (h1 : Stays A S s s1)
    (hg : s1.thrown = false → Safe (g s1) (Stays A S s1)) : Safe (onward g s1) (Stays A S s) := by
  unfold onward
  by_cases ht : s1.thrown = true
  · rw [if_pos ht]
    exact h1
  · rw [if_neg ht]
    exact (hg (by simpa using ht)).mono fun _ h2 => h1.trans h2

theorem exec_safe (hinj : ∀ a b, W.hash a = W.hash b → a = b) {H : Handlers W U} {A S : List Nat}
    (hH : H.Keep A S) : ∀ (f : Nat) (p : Prog W U) (s : St W U), Keeps A S p → Fits A s → s.thrown = false →
      Safe (exec H f p s) (Stays A S s)
  | 0, _, _, _, _, _ => trivial
  | f + 1, p, s, hp, h, hth => by
    have ih := exec_safe hinj hH f
    have hcall : ∀ u m t v (s : St W U), Fits A s → s.thrown = false →
        Safe (exec H f (H.data u m t v) s) (Stays A S s) :=
      fun u m t v s hs ht => ih _ s (hH.1 u m t v) hs ht
    have hcallOk : CallOk (fun u m t v => exec H f (H.data u m t v)) :=
      fun u m t v s s' hs ht h => exec_ran hinj H f _ s s' hs ht h
    have hdist : ∀ m bytes, m ∈ S → m ∈ s.live →
        Safe (distribute (fun u m t v => exec H f (H.data u m t v)) (fun u id b => exec H f (H.hook u id b)) H.edit m
          bytes s) (fun r => Stays A S s r.1) := fun m bytes hm hl =>
      ((distribute_safe hcall (fun u id b s hs ht => ih _ s (hH.2 u id b) hs ht) h hth hm hl).and fun s' hr =>
        (distribute_ran hinj hcallOk (fun _ _ _ _ _ hs ht h => exec_ran hinj H f _ _ _ hs ht h) h.inv hth hr).inv).mono
        fun s' h' => h'.1.stays h h'.2
    cases p with
    | ret u => exact ⟨⟨h.inv.user u, h.sub, h.room⟩, fun _ _ h => h, rfl⟩
    | send m v k =>
      rw [exec]
      by_cases hm : m ∈ s.live
      · rw [if_pos hm]
        exact (hdist m _ hp.1 hm).bind fun s1 h1 => onward_safe h1 fun ht => ih _ s1.1 (hp.2 _) h1.1 ht
      · rw [if_neg hm]
        exact ih _ s (hp.2 _) h hth
    | raw m bytes k =>
      rw [exec]
      by_cases hm : m ∈ s.live
      · rw [if_pos hm]
        exact (hdist m _ hp.1 hm).bind fun s1 h1 => onward_safe h1 fun ht => ih _ s1.1 (hp.2 _ _) h1.1 ht
      · rw [if_neg hm]
        exact ih _ s (hp.2 _ _) h hth
    | cast t v k =>
      rw [exec]
      have hc : Safe (castAll (fun u m t v => exec H f (H.data u m t v)) t v s) (Stays A S s) :=
        ((castAll_safe hcall h hth).and fun s' hr => (castAll_ran hinj hcallOk h.inv hth hr).inv).mono
          fun s' h' => h'.1.stays h h'.2
      exact hc.bind fun s1 h1 => onward_safe h1 fun ht => ih _ s1 (hp _) h1.1 ht
    | make m k =>
      rw [exec]
      exact ((make_safe (S := S) h hp.1).and fun s' hr => (make_thrown hr).trans hth).bind fun s1 h1 =>
        (ih _ s1 (hp.2 _) h1.1.1 h1.2).mono fun _ h2 => h1.1.trans h2
    | drop m k =>
      rw [exec]
      exact ((drop_safe (S := S) h hp.1).and fun s' hr => (drop_thrown hr).trans hth).bind fun s1 h1 =>
        (ih _ s1 (hp.2 _) h1.1.1 h1.2).mono fun _ h2 => h1.1.trans h2
    | throw u => exact ⟨⟨(h.inv.user u).thrown true, h.sub, h.room⟩, fun _ _ h => h, rfl⟩
    | attempt p k =>
      rw [exec]
      refine (ih p s hp.1 h hth).bind fun s1 h1 => ?_
      have h1' : Stays A S s { s1 with thrown := false } := ⟨⟨h1.1.inv.thrown _, h1.1.sub, h1.1.room⟩, h1.2⟩
      exact (ih _ _ (hp.2 _ _) h1'.1 rfl).mono fun _ h2 => h1'.trans h2

/-! ### Values for examples -/

namespace Ex

/-- The world of `Mediator/Props.lean`: module 1 sends type 0; modules 2 and 3 receive it; modules from 4 on send and
receive it. -/
abbrev V : World := Mediator.Ex.W

/-- Callbacks given per module; the hook does nothing and leaves messages as they are. -/
def on (g : Nat → Prog V Nat) : Handlers V Nat := ⟨fun _ m _ _ => g m, fun u _ _ => .ret u, fun _ _ b i => b.getD i 0⟩

/-- Construct modules, then let module 1 send. -/
def build : List Nat → Prog V Nat → Prog V Nat
  | [], p => p
  | m :: ms, p => .make m fun _ => build ms p

def sending : Prog V Nat := .send 1 (0x1234#16) fun u => .ret u

/-- Who got message `k`, and the modules alive at the end. -/
def view (k : Nat) (r : Res (St V Nat)) : Option (List Nat × List Nat) :=
  match r with
  | .ok s => some ((deliveries k s.log).map (·.1), s.live)
  | _ => none

def isUb (r : Res (St V Nat)) : Bool :=
  match r with
  | .ub => true
  | _ => false

theorem eq_ub {r : Res (St V Nat)} (h : isUb r = true) : r = .ub := by
  cases r <;> simp_all [isUb]

/-- Module 2 leaves when it gets a message. -/
def leaver : Handlers V Nat := on fun m => if m = 2 then .drop 2 fun u => .ret u else .ret 0

/-- Module 2 destroys the sender. -/
def killer : Handlers V Nat := on fun m => if m = 2 then .drop 1 fun u => .ret u else .ret 0

/-- Module 2 constructs module 3, and module 3 destroys module 2. -/
def relay : Handlers V Nat := on fun m => if m = 2 then .make 3 fun u => .ret u else .drop 2 fun u => .ret u

end Ex

/-! ### C96: callbacks may construct and destroy modules -/

/-- If all modules ever constructed are among fewer than `sources` ones, and no callback destroys a module that sends,
then nothing undefined happens.  Missing from the full property: modules that fill the manager (`C52_refuted`), and
senders that are destroyed while they send (`C96_sender_refuted`). -/
theorem C96_safe_partial {H : Handlers W U} {sources : Nat} {A S : List Nat} {s : St W U}
    (hinj : ∀ a b, W.hash a = W.hash b → a = b) (hs : Reach H sources s) (hA : A.length < sources)
    (hlive : ∀ m ∈ living s.log, m ∈ A) (hH : H.Keep A S) (f : Nat) (p : Prog W U) (hp : Keeps A S p) :
    exec H f p s ≠ .ub := by
  obtain ⟨hi, hl, hth⟩ := hs.inv hinj
  have h := exec_safe hinj hH f p s hp ⟨hi, fun m hm => hlive m (hi.live ▸ hm), by omega⟩ hth
  intro he
  rw [he] at h
  exact h

/-- The manager always knows exactly the living modules, in order of construction, whatever callbacks do. -/
theorem C96_registered {H : Handlers W U} {sources : Nat} {s : St W U}
    (hinj : ∀ a b, W.hash a = W.hash b → a = b) (hs : Reach H sources s) :
    s.arr.take s.cnt = (living s.log).map some ∧ (living s.log).Nodup := by
  obtain ⟨hi, -⟩ := hs.inv hinj
  have hc : s.cnt = s.live.length := hi.knows.cnt
  have hr := hi.room
  rw [← hi.live]
  refine ⟨List.ext_getElem? fun i => ?_, hi.nodup⟩
  rw [List.getElem?_take, List.getElem?_map]
  by_cases h : i < s.cnt
  · have hat : s.arr[i]? = some (s.live[i]?) := hi.knows.at_ i (by omega)
    rw [if_pos h, hat, List.getElem?_eq_getElem (by omega)]
    rfl
  · rw [if_neg h, List.getElem?_eq_none (by omega)]
    rfl

theorem relay_keeps : Ex.relay.Keep [1, 2, 3] [1] := by
  refine ⟨fun u m t v => ?_, fun u id b => trivial⟩
  show Keeps [1, 2, 3] [1] (if m = 2 then _ else _)
  by_cases h : m = 2
  · rw [if_pos h]
    exact ⟨by simp, fun _ => trivial⟩
  · rw [if_neg h]
    exact ⟨by simp, fun _ => trivial⟩

example (f : Nat) : exec Ex.relay f (Ex.build [1, 2] Ex.sending) (St.new 4 0) ≠ .ub :=
  C96_safe_partial (S := [1]) (A := [1, 2, 3]) Mediator.Ex.hash_inj (.new 0) (by decide) (by simp [St.new, living])
    relay_keeps f _ ⟨by simp, fun _ => ⟨by simp, fun _ => ⟨by simp, fun _ => trivial⟩⟩⟩

/-- A callback that destroys the sender: the loop goes on to read the sender's id. -/
theorem C96_sender_refuted : exec Ex.killer 9 (Ex.build [1, 2, 3, 4] Ex.sending) (St.new 6 0) = .ub :=
  Ex.eq_ub (by decide +kernel)

/-- If the loop ends there, the same is harmless. -/
example : Ex.view 0 (exec Ex.killer 9 (Ex.build [1, 2] Ex.sending) (St.new 5 0)) = some ([2], [2]) := by
  decide +kernel

/-! A history for the examples: module 3 is constructed by a callback while the message is under way, and nothing is
destroyed. -/

def Ex.grower : Handlers Ex.V Nat := Ex.on fun m => if m = 2 then .make 3 fun u => .ret u else .ret 0

/-- The event is no destruction. -/
def Ex.keeps : Ev Ex.V → Bool
  | .gone _ => false
  | _ => true

/-- What the examples need to know of a result. -/
def Ex.grownOk (r : Res (St Ex.V Nat)) : Bool :=
  match r with
  | .ok s => living s.log = [1, 2, 3] && s.sent.any fun r => r.t = 0 && r.bytes = [0x34#8, 0x12#8] &&
      living r.before = [1, 2] && r.during.all Ex.keeps && (deliveries r.num r.during).map (·.1) = [2, 3] &&
      r.told = [0x34#8, 0x12#8] && !r.cut && !s.thrown
  | _ => false

theorem grown : ∃ s, Reach Ex.grower 5 s ∧ living s.log = [1, 2, 3] ∧ ∃ r ∈ s.sent, r.t = 0 ∧
    r.bytes = [0x34#8, 0x12#8] ∧ living r.before = [1, 2] ∧ (∀ q, Ev.gone q ∉ r.during) ∧
    (deliveries r.num r.during).map (·.1) = [2, 3] ∧ r.told = [0x34#8, 0x12#8] ∧ r.cut = false := by
  have hb : Ex.grownOk (exec Ex.grower 9 (Ex.build [1, 2] Ex.sending) (St.new 5 0)) = true := by decide +kernel
  cases h : exec Ex.grower 9 (Ex.build [1, 2] Ex.sending) (St.new 5 0) with
  | ok s =>
    rw [h] at hb
    simp only [Ex.grownOk, Bool.and_eq_true, List.any_eq_true, decide_eq_true_eq, Bool.not_eq_true'] at hb
    obtain ⟨h1, r, hr, ⟨⟨⟨⟨⟨⟨h2, h3⟩, h4⟩, h5⟩, h6⟩, h7⟩, h8⟩, h9⟩ := hb
    refine ⟨s, .run _ s 9 _ (.new 0) h h9, h1, r, hr, h2, h3, h4, fun q hq => ?_, h6, h7, h8⟩
    exact absurd (List.all_eq_true.1 h5 _ hq) (by simp [Ex.keeps])
  | ub => rw [h] at hb; exact nomatch hb
  | hang => rw [h] at hb; exact nomatch hb

/-! ### C97: who gets a message while modules come and go -/

/-- The source, type and bytes of the message with which a program starts, if it starts with one. -/
def first : Prog W U → Option (Option Nat × Nat × List Byte)
  | .send m v _ => some (some m, W.sends m, (W.pod (W.sends m)).enc v)
  | .raw m bytes _ => some (some m, W.sends m, bytes)
  | .cast t v _ => some (none, t, (W.pod t).enc v)
  | _ => none

/-- A message that a program starts with is recorded; if it ended by an exception the program ends with it. -/
theorem first_sent {H : Handlers W U} {sources : Nat} {s s' : St W U} (hinj : ∀ a b, W.hash a = W.hash b → a = b)
    (hs : Reach H sources s) {f : Nat} {p : Prog W U} {src : Option Nat} {t : Nat} {bytes : List Byte}
    (hp : first p = some (src, t, bytes)) (hm : ∀ m, src = some m → m ∈ living s.log) (h : exec H f p s = .ok s') :
    ∃ r ∈ s'.sent, r.num = s.count ∧ r.src = src ∧ r.t = t ∧ r.bytes = bytes ∧ r.before = s.log ∧
      (r.cut = true → s'.thrown = true ∧ s'.log = r.before ++ r.during) := by
  obtain ⟨hi, -, hth⟩ := hs.inv hinj
  cases f with
  | zero => simp [exec] at h
  | succ f =>
    have hcall : CallOk (fun u m t v => exec H f (H.data u m t v)) :=
      fun _ _ _ _ _ _ hs ht h => exec_ran hinj H f _ _ _ hs ht h
    have goal : ∀ (s1 : St W U) (g : St W U → Res (St W U)), onward g s1 = .ok s' → Inv s1 →
        (s1.thrown = false → g s1 = .ok s' → Ran s1 s') →
        (∃ r ∈ s1.sent, r.num = s.count ∧ r.src = src ∧ r.t = t ∧ r.bytes = bytes ∧ r.before = s.log ∧
          r.cut = s1.thrown ∧ s1.log = r.before ++ r.during) →
        ∃ r ∈ s'.sent, r.num = s.count ∧ r.src = src ∧ r.t = t ∧ r.bytes = bytes ∧ r.before = s.log ∧
          (r.cut = true → s'.thrown = true ∧ s'.log = r.before ++ r.during) := by
      rintro s1 g hq i1 hg ⟨r, hr, e1, e2, e3, e4, e5, e6, e7⟩
      unfold onward at hq
      by_cases ht : s1.thrown = true
      · rw [if_pos ht] at hq
        cases hq
        exact ⟨r, hr, e1, e2, e3, e4, e5, fun _ => ⟨ht, e7⟩⟩
      · rw [if_neg ht] at hq
        obtain ⟨x, hx⟩ := (hg (by simpa using ht) hq).sent
        exact ⟨r, by rw [hx]; exact List.mem_append_left _ hr, e1, e2, e3, e4, e5,
          fun hc => absurd (e6.symm.trans hc) ht⟩
    have hdist : ∀ (m : Nat) (k : List Byte → St W U → Prog W U), src = some m → t = W.sends m →
        (distribute (fun u m t v => exec H f (H.data u m t v)) (fun u id b => exec H f (H.hook u id b)) H.edit m bytes s
          >>= fun r => onward (fun s => exec H f (k r.2 s) s) r.1) = .ok s' →
        ∃ r ∈ s'.sent, r.num = s.count ∧ r.src = src ∧ r.t = t ∧ r.bytes = bytes ∧ r.before = s.log ∧
          (r.cut = true → s'.thrown = true ∧ s'.log = r.before ++ r.during) := by
      intro m k hsrc ht h
      cases hd : distribute (fun u m t v => exec H f (H.data u m t v)) (fun u id b => exec H f (H.hook u id b)) H.edit m
          bytes s with
      | ub => rw [hd] at h; simp at h
      | hang => rw [hd] at h; simp at h
      | ok q =>
        rw [hd] at h
        simp only [Res.ok_bind] at h
        have h1 := distribute_ran hinj hcall (fun _ _ _ _ _ hs ht h => exec_ran hinj H f _ _ _ hs ht h) hi hth hd
        refine goal q.1 _ h h1.inv (fun ht h2 => exec_ran hinj H f _ _ _ h1.inv ht h2) ?_
        obtain ⟨r, hr, e1, e2, e3, e4, e5, e6, -, e8⟩ := distribute_sent hd
        refine ⟨r, hr, e1, e2.trans hsrc.symm, e3.trans ht.symm, e4, e5, e6, ?_⟩
        obtain ⟨new, e, -⟩ := h1.log
        rw [e8, e5, e, List.drop_left]
    cases p with
    | ret u => simp [first] at hp
    | make m k => simp [first] at hp
    | drop m k => simp [first] at hp
    | throw u => simp [first] at hp
    | attempt p k => simp [first] at hp
    | send m v k =>
      cases hp
      rw [exec, if_pos (hi.live ▸ hm m rfl)] at h
      exact hdist m (fun _ s => k s.user) rfl rfl h
    | raw m b k =>
      cases hp
      rw [exec, if_pos (hi.live ▸ hm m rfl)] at h
      exact hdist m (fun b s => k s.user b) rfl rfl h
    | cast t v k =>
      cases hp
      rw [exec] at h
      cases hd : castAll (fun u m t v => exec H f (H.data u m t v)) t v s with
      | ub => rw [hd] at h; simp at h
      | hang => rw [hd] at h; simp at h
      | ok q =>
        rw [hd] at h
        simp only [Res.ok_bind] at h
        have h1 := castAll_ran hinj hcall hi hth hd
        refine goal q _ h h1.inv (fun ht h2 => exec_ran hinj H f _ _ _ h1.inv ht h2) ?_
        obtain ⟨r, hr, e1, e2, e3, e4, e5, e6, -, e8⟩ := castAll_sent hd
        refine ⟨r, hr, e1, e2, e3, e4, e5, e6, ?_⟩
        obtain ⟨new, e, -⟩ := h1.log
        rw [e8, e5, e, List.drop_left]

/-- Every message that a living module or the manager sends is recorded once it has ended, with what was logged before
it. -/
theorem C97_sent {H : Handlers W U} {sources : Nat} {s s' : St W U} (hinj : ∀ a b, W.hash a = W.hash b → a = b)
    (hs : Reach H sources s) {f : Nat} {p : Prog W U} {src : Option Nat} {t : Nat} {bytes : List Byte}
    (hp : first p = some (src, t, bytes)) (hm : ∀ m, src = some m → m ∈ living s.log) (h : exec H f p s = .ok s') :
    ∃ r ∈ s'.sent, r.num = s.count ∧ r.src = src ∧ r.t = t ∧ r.bytes = bytes ∧ r.before = s.log := by
  obtain ⟨r, hr, e1, e2, e3, e4, e5, -⟩ := first_sent hinj hs hp hm h
  exact ⟨r, hr, e1, e2, e3, e4, e5⟩

/-- Every recorded message stands in the log as recorded, from its start on; for messages of modules the hook of the
manager comes first. -/
theorem C97_recorded {H : Handlers W U} {sources : Nat} {s : St W U}
    (hinj : ∀ a b, W.hash a = W.hash b → a = b) (hs : Reach H sources s) :
    ∀ r ∈ s.sent, r.before ++ r.during <+: s.log ∧
      ∃ rest, r.during = Ev.start r.num r.src r.t r.bytes ::
        ((if r.src = none then [] else [Ev.hook r.num (W.hash r.t) r.bytes]) ++ rest) :=
  fun r hr =>
    let ⟨h1, rest, h2, _⟩ := ((hs.inv hinj).1.sent r hr).2
    ⟨h1, rest, h2⟩

theorem wants_told {W : World} {t : Nat} {a b : List Byte} (h : a.length = b.length) (p : Nat) :
    Wants W t a p ↔ Wants W t b p := by
  unfold Wants
  rw [h]

/-- No module gets a message twice: at each address the message arrives at most once for every module that lived there,
one from the start and those constructed meanwhile.  It only gets to modules that want it, as the hook left it. -/
theorem C97_at_most_once {H : Handlers W U} {sources : Nat} {s : St W U}
    (hinj : ∀ a b, W.hash a = W.hash b → a = b) (hs : Reach H sources s) (r : Msg W) (hr : r ∈ s.sent) :
    (∀ p, ((deliveries r.num r.during).filter (·.1 == p)).length ≤
      (if p ∈ living r.before then 1 else 0) + built p r.during) ∧
    ∀ d ∈ deliveries r.num r.during, Wants W r.t r.bytes d.1 ∧ d = (d.1, ⟨r.t, (W.pod r.t).dec r.told⟩) :=
  let h := ((hs.inv hinj).1.sent r hr).1
  ⟨h.once, fun d hd => ⟨(wants_told h.size _).1 (h.value d hd).1, (h.value d hd).2⟩⟩

/-- A module gets the message exactly once, if it wants it, provided that neither it nor any module constructed before
it is destroyed meanwhile and no callback throws.  Missing from the full property: a module registered after one that is
destroyed (`C97_skipped_refuted`) or that throws (`C102_others_refuted`). -/
theorem C97_exactly_once_partial {H : Handlers W U} {sources : Nat} {s : St W U}
    (hinj : ∀ a b, W.hash a = W.hash b → a = b) (hs : Reach H sources s) (r : Msg W) (hr : r ∈ s.sent)
    (hc : r.cut = false) (j p : Nat) (hj : (living r.before)[j]? = some p)
    (hg : ∀ q ∈ (living r.before).take (j + 1), Ev.gone q ∉ r.during) :
    (deliveries r.num r.during).filter (·.1 == p) =
      if Wants W r.t r.bytes p then [(p, ⟨r.t, (W.pod r.t).dec r.told⟩)] else [] := by
  have h := ((hs.inv hinj).1.sent r hr).1
  rw [h.exact_ hc j p hj hg]
  by_cases hw : Wants W r.t r.told p
  · rw [if_pos hw, if_pos ((wants_told h.size p).1 hw)]
    rfl
  · rw [if_neg hw, if_neg (fun h' => hw ((wants_told h.size p).2 h'))]

/-- If no module is destroyed meanwhile and no callback throws, all modules that want the message get it once, in order
of construction, those constructed meanwhile included. -/
theorem C97_everybody_partial {H : Handlers W U} {sources : Nat} {s : St W U}
    (hinj : ∀ a b, W.hash a = W.hash b → a = b) (hs : Reach H sources s) (r : Msg W) (hr : r ∈ s.sent)
    (hc : r.cut = false) (hg : ∀ q, Ev.gone q ∉ r.during) :
    deliveries r.num r.during =
      ((living (r.before ++ r.during)).filter fun p => decide (Wants W r.t r.bytes p)).map
        fun p => (p, ⟨r.t, (W.pod r.t).dec r.told⟩) := by
  have h := ((hs.inv hinj).1.sent r hr).1
  rw [h.all hc hg]
  simp only [wants_told h.size]
  rfl

/-- The hypotheses of the theorems above are met: two modules live at the start, a third comes meanwhile, and the
second and the third get the message. -/
example : ∃ s r, Reach Ex.grower 5 s ∧ r ∈ s.sent ∧ (∀ q, Ev.gone q ∉ r.during) ∧
    deliveries r.num r.during = [(2, ⟨0, (Ex.V.pod 0).dec [0x34#8, 0x12#8]⟩), (3, ⟨0, (Ex.V.pod 0).dec [0x34#8, 0x12#8]⟩)] ∧
    (deliveries r.num r.during).filter (·.1 == 2) = [(2, ⟨0, (Ex.V.pod 0).dec [0x34#8, 0x12#8]⟩)] := by
  obtain ⟨s, hs, hl, r, hr, ht, hb, hbe, hg, hd, hto, -⟩ := grown
  have hw : ∀ d ∈ deliveries r.num r.during, d = (d.1, ⟨0, (Ex.V.pod 0).dec [0x34#8, 0x12#8]⟩) := fun d hd => by
    have := ((C97_at_most_once Mediator.Ex.hash_inj hs r hr).2 d hd).2
    obtain ⟨n, src, t, b, to, c, be, du⟩ := r
    simp only at ht hto
    subst ht hto
    exact this
  have hlist : deliveries r.num r.during =
      [(2, ⟨0, (Ex.V.pod 0).dec [0x34#8, 0x12#8]⟩), (3, ⟨0, (Ex.V.pod 0).dec [0x34#8, 0x12#8]⟩)] := by
    have hmap : deliveries r.num r.during = ((deliveries r.num r.during).map (·.1)).map
        fun p => (p, ⟨0, (Ex.V.pod 0).dec [0x34#8, 0x12#8]⟩) := by
      rw [List.map_map]
      conv => lhs; rw [← List.map_id (deliveries r.num r.during)]
      exact List.map_congr_left fun d hd => hw d hd
    rw [hmap, hd]
    rfl
  refine ⟨s, r, hs, hr, hg, hlist, ?_⟩
  rw [hlist]
  rfl

/-- The manager knows the three modules of that history. -/
example : ∃ s, Reach Ex.grower 5 s ∧ s.arr.take s.cnt = [some 1, some 2, some 3] := by
  obtain ⟨s, hs, hl, -⟩ := grown
  exact ⟨s, hs, by rw [(C96_registered Mediator.Ex.hash_inj hs).1, hl]; rfl⟩

/-- A module that leaves when it gets a message: the next one does not get it, though it lives on. -/
theorem C97_skipped_refuted :
    Ex.view 0 (exec Ex.leaver 9 (Ex.build [1, 2, 3] Ex.sending) (St.new 5 0)) = some ([2], [1, 3]) ∧
    Wants Ex.V 0 [0x34#8, 0x12#8] 3 := by
  refine ⟨by decide +kernel, ?_⟩
  unfold Wants
  decide +kernel

/-- A module constructed by a callback gets the message that is under way. -/
example : Ex.view 0 (exec Ex.relay 9 (Ex.build [1, 2] Ex.sending) (St.new 5 0)) = some ([2, 3], [1, 3]) := by
  decide +kernel

/-! ### C101: what the hook of the manager leaves is what modules get -/

/-- What is known of the told bytes of a message: what the hook wrote, or the message is one of the manager, or the
hook has thrown. -/
def Written (H : Handlers W U) (r : Msg W) : Prop :=
  (r.src = none ∧ r.told = r.bytes) ∨ (∃ u, r.told = overwrite (H.edit u (W.hash r.t) r.bytes) r.bytes) ∨
    (r.cut = true ∧ ∃ pre, r.during = pre ++ [Ev.threw r.num none])

/-- From `s` to `s'` only messages of this kind were recorded, and all that were started. -/
def Wrote (H : Handlers W U) (s s' : St W U) : Prop :=
  ∃ new x, s'.log = s.log ++ new ∧ s'.sent = s.sent ++ x ∧ (∀ r ∈ x, Written H r) ∧
    ∀ n src t b, Ev.start n src t b ∈ new → ∃ r ∈ x, r.num = n ∧ r.src = src ∧ r.t = t ∧ r.bytes = b

/-- The event is not the start of a message. -/
def noStart : Ev W → Prop
  | .start _ _ _ _ => False
  | _ => True

theorem Wrote.same {H : Handlers W U} {s s' : St W U} (new : List (Ev W)) (h1 : s'.log = s.log ++ new)
    (h2 : s'.sent = s.sent) (hn : ∀ e ∈ new, noStart e) : Wrote H s s' :=
  ⟨new, [], h1, by simp [h2], fun r hr => by simp at hr, fun _ _ _ _ h => (hn _ h).elim⟩

theorem Wrote.refl (H : Handlers W U) {s s' : St W U} (h1 : s'.log = s.log) (h2 : s'.sent = s.sent) : Wrote H s s' :=
  Wrote.same [] (by simp [h1]) h2 fun e he => by simp at he

theorem Wrote.trans {H : Handlers W U} {s t u : St W U} (h1 : Wrote H s t) (h2 : Wrote H t u) : Wrote H s u := by
  obtain ⟨n1, x, a1, e1, b1, c1⟩ := h1
  obtain ⟨n2, y, a2, e2, b2, c2⟩ := h2
  refine ⟨n1 ++ n2, x ++ y, by rw [a2, a1, List.append_assoc], by rw [e2, e1, List.append_assoc], fun r hr => ?_,
    fun n src t b h => ?_⟩
  · rcases List.mem_append.1 hr with hr | hr
    · exact b1 r hr
    · exact b2 r hr
  · rcases List.mem_append.1 h with h | h
    · obtain ⟨r, hr, h⟩ := c1 n src t b h
      exact ⟨r, List.mem_append_left _ hr, h⟩
    · obtain ⟨r, hr, h⟩ := c2 n src t b h
      exact ⟨r, List.mem_append_right _ hr, h⟩

theorem Wrote.emit {H : Handlers W U} {s s' : St W U} (h : Wrote H s s') (e : Ev W) (he : noStart e) :
    Wrote H s (s'.emit e) :=
  h.trans (Wrote.same [e] rfl rfl fun e' h' => by rw [List.mem_singleton.1 h']; exact he)

/-- A message that has ended: `s1` is the state after its start. -/
theorem Wrote.finish {H : Handlers W U} {s s1 s3 : St W U} {k : Nat} {src : Option Nat} {t : Nat} {bytes told : List Byte}
    {pre : List (Ev W)} (h1 : s1 = { s with count := s.count + 1, log := s.log ++ (Ev.start k src t bytes :: pre) })
    (hpre : ∀ e ∈ pre, noStart e) (h : Wrote H s1 s3)
    (hw : Written H (⟨k, src, t, bytes, told, s3.thrown, s.log, s3.log.drop s.log.length⟩ : Msg W)) :
    Wrote H s (s3.finish k src t bytes told s) := by
  obtain ⟨new, x, a, e, b, c⟩ := h
  refine ⟨Ev.start k src t bytes :: pre ++ new, x ++ [⟨k, src, t, bytes, told, s3.thrown, s.log,
    s3.log.drop s.log.length⟩], ?_, ?_, fun r hr => ?_, fun n src' t' b' h => ?_⟩
  · show s3.log = _
    rw [a, h1, List.append_assoc]
  · show s3.sent ++ _ = _
    rw [e, h1, List.append_assoc]
  · rcases List.mem_append.1 hr with hr | hr
    · exact b r hr
    · rw [List.mem_singleton.1 hr]
      exact hw
  · rcases List.mem_append.1 h with h | h
    · rcases List.mem_cons.1 h with h | h
      · cases h
        exact ⟨_, List.mem_append_right _ (List.mem_singleton.2 rfl), rfl, rfl, rfl, rfl⟩
      · exact (hpre _ h).elim
    · obtain ⟨r, hr, h⟩ := c n src' t' b' h
      exact ⟨r, List.mem_append_left _ hr, h⟩

theorem make_wrote {H : Handlers W U} {s s' : St W U} {c : Nat} (h : make s c = .ok s') : Wrote H s s' := by
  unfold make at h
  by_cases hc : c ∈ s.live
  · rw [if_pos hc] at h
    cases h
    exact Wrote.refl H rfl rfl
  · rw [if_neg hc] at h
    generalize addModule s.reg c = q at h
    cases q with
    | ok r =>
      simp only [Res.ok_bind, Res.ok.injEq] at h
      subst h
      exact Wrote.same [_] rfl rfl fun e he => by rw [List.mem_singleton.1 he]; trivial
    | ub => simp at h
    | hang => simp at h

theorem drop_wrote {H : Handlers W U} {s s' : St W U} {c : Nat} (h : drop s c = .ok s') : Wrote H s s' := by
  unfold drop at h
  by_cases hc : c ∈ s.live
  · rw [if_pos hc] at h
    generalize removeModule s.reg c = q at h
    cases q with
    | ok r =>
      simp only [Res.ok_bind, Res.ok.injEq] at h
      subst h
      exact Wrote.same [_] rfl rfl fun e he => by rw [List.mem_singleton.1 he]; trivial
    | ub => simp at h
    | hang => simp at h
  · rw [if_neg hc] at h
    cases h
    exact Wrote.refl H rfl rfl

theorem receive_wrote {H : Handlers W U} {call : Call W U} (hcall : ∀ u m t v s s', call u m t v s = .ok s' → Wrote H s s')
    {k m id : Nat} {bytes : List Byte} {s s' : St W U} (h : receive call k m id bytes s = .ok s') : Wrote H s s' := by
  unfold receive at h
  cases hmt : matchType W id (W.recvs m) with
  | none =>
    rw [hmt] at h
    cases h
    exact Wrote.refl H rfl rfl
  | some t =>
    rw [hmt] at h
    simp only at h
    cases hcf : convertField W t bytes with
    | none =>
      rw [hcf] at h
      cases h
      exact Wrote.refl H rfl rfl
    | some v =>
      rw [hcf] at h
      exact (Wrote.emit (Wrote.refl H rfl rfl) (.recv k m t v) trivial).trans (hcall _ _ _ _ _ _ h)

theorem deliver_wrote {H : Handlers W U} {call : Call W U} (hcall : ∀ u m t v s s', call u m t v s = .ok s' → Wrote H s s')
    {k id : Nat} {src : Option Nat} {bytes : List Byte} : ∀ (n i : Nat) (s s' : St W U),
      deliver call k id src bytes n i s = .ok s' → Wrote H s s'
  | 0, i, s, s', h => by
    rw [deliver] at h
    by_cases hi : i < s.cnt
    · rw [if_pos hi] at h
      exact nomatch h
    · rw [if_neg hi] at h
      cases h
      exact Wrote.refl H rfl rfl
  | n + 1, i, s, s', h => by
    rw [deliver] at h
    by_cases hi : i < s.cnt
    · rw [if_pos hi] at h
      cases hat : s.arr[i]? with
      | none => rw [hat] at h; exact nomatch h
      | some o =>
        cases o with
        | none => rw [hat] at h; exact nomatch h
        | some m =>
          rw [hat] at h
          simp only at h
          by_cases ha : m ∈ s.live ∧ senderLives src s = true
          · rw [if_pos ha] at h
            by_cases hid : W.hash (W.sends m) ≠ id
            · rw [if_pos hid] at h
              cases hr : receive call k m id bytes s with
              | ok s2 =>
                rw [hr] at h
                simp only [Res.ok_bind] at h
                have h1 := receive_wrote hcall hr
                by_cases ht : s2.thrown = true
                · rw [if_pos ht] at h
                  cases h
                  exact h1.emit _ trivial
                · rw [if_neg ht] at h
                  exact h1.trans (deliver_wrote hcall n (i + 1) s2 s' h)
              | ub => rw [hr] at h; simp at h
              | hang => rw [hr] at h; simp at h
            · rw [if_neg hid] at h
              exact deliver_wrote hcall n (i + 1) s s' h
          · rw [if_neg ha] at h
            exact nomatch h
    · rw [if_neg hi] at h
      cases h
      exact Wrote.refl H rfl rfl

theorem distribute_wrote {H : Handlers W U} {call : Call W U}
    (hcall : ∀ u m t v s s', call u m t v s = .ok s' → Wrote H s s')
    {hook : U → Nat → List Byte → St W U → Res (St W U)} (hhook : ∀ u id b s s', hook u id b s = .ok s' → Wrote H s s')
    {m : Nat} {bytes : List Byte} {s : St W U} {s' : St W U × List Byte}
    (h : distribute call hook H.edit m bytes s = .ok s') : Wrote H s s'.1 := by
  unfold distribute at h
  simp only [callHook] at h
  generalize hs1 : ((({ s with count := s.count + 1 } : St W U).emit
    (.start s.count (some m) (W.sends m) bytes)).emit (.hook s.count (W.hash (W.sends m)) bytes)) = s1 at h
  have h0 : s1 = { s with count := s.count + 1, log := s.log ++ (Ev.start s.count (some m) (W.sends m) bytes ::
      [Ev.hook s.count (W.hash (W.sends m)) bytes]) } := by
    rw [← hs1]
    simp [St.emit]
  have hpre : ∀ e ∈ [(Ev.hook s.count (W.hash (W.sends m)) bytes : Ev W)], noStart e := fun e he => by
    rw [List.mem_singleton.1 he]
    trivial
  generalize hq : hook _ _ _ s1 = q at h
  cases q with
  | ub => simp at h
  | hang => simp at h
  | ok s2 =>
    have h1 := hhook _ _ _ _ _ hq
    simp only [Res.ok_bind, afterHook] at h
    by_cases hth : s2.thrown = true
    · rw [if_pos hth] at h
      cases h
      refine Wrote.finish h0 hpre (h1.emit _ trivial) (.inr (.inr ⟨hth, s2.log.drop s.log.length, ?_⟩))
      show (s2.log ++ [Ev.threw s.count none]).drop _ = _
      obtain ⟨new, x, a, -⟩ := h1
      rw [List.drop_append_of_le_length]
      rw [a, h0]
      simp
    · rw [if_neg hth] at h
      generalize hd : deliver _ _ _ _ _ _ _ _ = q at h
      cases q with
      | ub => simp at h
      | hang => simp at h
      | ok s3 =>
        simp only [Res.ok_bind, Res.ok.injEq] at h
        subst h
        exact Wrote.finish h0 hpre ((h1.emit (.left s.count _) trivial).trans (deliver_wrote hcall _ _ _ _ hd))
          (.inr (.inl ⟨s2.user, rfl⟩))

theorem castAll_wrote {H : Handlers W U} {call : Call W U}
    (hcall : ∀ u m t v s s', call u m t v s = .ok s' → Wrote H s s') {t : Nat} {v : W.Val t} {s s' : St W U}
    (h : castAll call t v s = .ok s') : Wrote H s s' := by
  unfold castAll at h
  simp only at h
  generalize hs1 : (({ s with count := s.count + 1 } : St W U).emit
    (.start s.count none t ((W.pod t).enc v))) = s1 at h
  have h0 : s1 = { s with count := s.count + 1, log := s.log ++ (Ev.start s.count none t ((W.pod t).enc v) :: []) } := by
    rw [← hs1]
    rfl
  generalize hd : deliver _ _ _ _ _ _ _ _ = q at h
  cases q with
  | ub => simp at h
  | hang => simp at h
  | ok s3 =>
    simp only [Res.ok_bind, Res.ok.injEq] at h
    subst h
    exact Wrote.finish h0 (fun e he => by simp at he) (deliver_wrote hcall _ _ _ _ hd) (.inl ⟨rfl, rfl⟩)

theorem onward_wrote {H : Handlers W U} {g : St W U → Res (St W U)} {s s' : St W U}
    (hg : g s = .ok s' → Wrote H s s') (h : onward g s = .ok s') : Wrote H s s' := by
  unfold onward at h
  by_cases hth : s.thrown = true
  · rw [if_pos hth] at h
    cases h
    exact Wrote.refl H rfl rfl
  · rw [if_neg hth] at h
    exact hg h

theorem bind_wrote {H : Handlers W U} {α : Type} {r : Res α} {g : α → Res (St W U)} {s s' : St W U} (p : α → St W U)
    (h1 : ∀ a, r = .ok a → Wrote H s (p a)) (h2 : ∀ a, g a = .ok s' → Wrote H (p a) s') (h : (r >>= g) = .ok s') :
    Wrote H s s' := by
  cases r with
  | ok a => exact (h1 a rfl).trans (h2 a (by simpa using h))
  | ub => simp at h
  | hang => simp at h

theorem exec_wrote (H : Handlers W U) : ∀ (f : Nat) (p : Prog W U) (s s' : St W U), exec H f p s = .ok s' → Wrote H s s'
  | 0, _, _, _, h => by simp [exec] at h
  | f + 1, p, s, s', h => by
    have ih := exec_wrote H f
    cases p with
    | ret u =>
      rw [exec] at h
      cases h
      exact Wrote.refl H rfl rfl
    | send m v k =>
      rw [exec] at h
      by_cases hm : m ∈ s.live
      · rw [if_pos hm] at h
        exact bind_wrote Prod.fst (fun a ha => distribute_wrote (fun _ _ _ _ _ _ h => ih _ _ _ h)
          (fun _ _ _ _ _ h => ih _ _ _ h) ha) (fun a ha => onward_wrote (ih _ _ _) ha) h
      · rw [if_neg hm] at h
        exact ih _ _ _ h
    | raw m bytes k =>
      rw [exec] at h
      by_cases hm : m ∈ s.live
      · rw [if_pos hm] at h
        exact bind_wrote Prod.fst (fun a ha => distribute_wrote (fun _ _ _ _ _ _ h => ih _ _ _ h)
          (fun _ _ _ _ _ h => ih _ _ _ h) ha) (fun a ha => onward_wrote (ih _ _ _) ha) h
      · rw [if_neg hm] at h
        exact ih _ _ _ h
    | cast t v k =>
      rw [exec] at h
      exact bind_wrote id (fun a ha => castAll_wrote (fun _ _ _ _ _ _ h => ih _ _ _ h) ha)
        (fun a ha => onward_wrote (ih _ _ _) ha) h
    | make m k =>
      rw [exec] at h
      exact bind_wrote id (fun a ha => make_wrote ha) (fun a ha => ih _ _ _ ha) h
    | drop m k =>
      rw [exec] at h
      exact bind_wrote id (fun a ha => drop_wrote ha) (fun a ha => ih _ _ _ ha) h
    | throw u =>
      rw [exec] at h
      cases h
      exact Wrote.refl H rfl rfl
    | attempt p k =>
      rw [exec] at h
      exact bind_wrote (fun a => { a with thrown := false })
        (fun a ha => (ih _ _ _ ha).trans (Wrote.refl H rfl rfl)) (fun a ha => ih _ _ _ ha) h

theorem Reach.wrote {H : Handlers W U} {sources : Nat} {s : St W U} (h : Reach H sources s) :
    ∀ r ∈ s.sent, Written H r := by
  induction h with
  | new u => exact fun r hr => absurd hr (by simp [St.new])
  | run s s' f p _ he _ ih =>
    obtain ⟨-, x, -, hx, hw, -⟩ := exec_wrote H f p s s' he
    intro r hr
    rw [hx] at hr
    rcases List.mem_append.1 hr with hr | hr
    · exact ih r hr
    · exact hw r hr

/-- Every message that was ever started, by whatever code, is recorded. -/
theorem C97_complete {H : Handlers W U} {sources : Nat} {s : St W U} (h : Reach H sources s) (n : Nat)
    (src : Option Nat) (t : Nat) (b : List Byte) (hb : Ev.start n src t b ∈ s.log) :
    ∃ r ∈ s.sent, r.num = n ∧ r.src = src ∧ r.t = t ∧ r.bytes = b := by
  induction h with
  | new u => simp [St.new] at hb
  | run s s' f p _ he _ ih =>
    obtain ⟨new, x, hl, hx, -, hc⟩ := exec_wrote H f p s s' he
    rw [hl] at hb
    rw [hx]
    rcases List.mem_append.1 hb with hb | hb
    · obtain ⟨r, hr, h⟩ := ih hb
      exact ⟨r, List.mem_append_left _ hr, h⟩
    · obtain ⟨r, hr, h⟩ := hc n src t b hb
      exact ⟨r, List.mem_append_right _ hr, h⟩

example : ∃ s r, Reach Ex.grower 5 s ∧ r ∈ s.sent ∧ r.t = 0 := by
  obtain ⟨s, hs, -, r, hr, ht, -⟩ := grown
  obtain ⟨h1, rest, h2⟩ := C97_recorded Mediator.Ex.hash_inj hs r hr
  obtain ⟨r', hr', -, -, h, -⟩ := C97_complete hs r.num r.src r.t r.bytes
    (h1.subset (List.mem_append_right _ (by rw [h2]; exact List.mem_cons_self)))
  exact ⟨s, r', hs, hr', h.trans ht⟩

/-- Modules are told what the hook wrote over the message, byte by byte; what the manager itself sends does not pass the
hook. -/
theorem C101_written {H : Handlers W U} {sources : Nat} {s : St W U} (hinj : ∀ a b, W.hash a = W.hash b → a = b)
    (hs : Reach H sources s) (r : Msg W) (hr : r ∈ s.sent) (hd : deliveries r.num r.during ≠ []) :
    r.told.length = r.bytes.length ∧
    if r.src = none then r.told = r.bytes
    else ∃ u, ∀ i, i < r.bytes.length → r.told[i]? = some (H.edit u (W.hash r.t) r.bytes i) := by
  obtain ⟨hR, -, rest, -, hM⟩ := (hs.inv hinj).1.sent r hr
  refine ⟨hR.size, ?_⟩
  unfold Middle at hM
  split
  · rename_i hsrc
    rw [if_pos hsrc] at hM
    exact hM
  · rename_i hsrc
    rcases hs.wrote r hr with h | ⟨u, h⟩ | ⟨hc, pre, h⟩
    · exact absurd h.1 hsrc
    · refine ⟨u, fun i hi => ?_⟩
      rw [h, overwrite, List.getElem?_map, List.getElem?_range hi]
      rfl
    · rcases hR.cutAt hc with h' | ⟨m, h'⟩
      · exact absurd h'.2 hd
      · obtain ⟨pre', h''⟩ := h'.last
        rw [h] at h''
        have := (List.append_inj' h'' rfl).2
        simp at this

/-- All modules get the same bytes, which the log shows as what the hook left, before the first module gets the message. -/
theorem C101_same {H : Handlers W U} {sources : Nat} {s : St W U} (hinj : ∀ a b, W.hash a = W.hash b → a = b)
    (hs : Reach H sources s) (r : Msg W) (hr : r ∈ s.sent) (hsrc : r.src ≠ none)
    (hd : deliveries r.num r.during ≠ []) :
    (∀ d ∈ deliveries r.num r.during, d.2 = ⟨r.t, (W.pod r.t).dec r.told⟩) ∧
    ∃ mid rest, r.during = Ev.start r.num r.src r.t r.bytes :: Ev.hook r.num (W.hash r.t) r.bytes ::
      (mid ++ Ev.left r.num r.told :: rest) ∧ deliveries r.num mid = [] := by
  obtain ⟨hR, -, rest, he, hM⟩ := (hs.inv hinj).1.sent r hr
  refine ⟨fun d hd => by rw [(hR.value d hd).2]; rfl, ?_⟩
  unfold Middle at hM
  rw [if_neg hsrc] at hM he
  obtain ⟨mid, tail, e1, e2, e3⟩ := hM
  rcases e3 with ⟨-, e3⟩ | ⟨tail', e3⟩
  · refine absurd ?_ hd
    rw [he, e1, e3]
    simp only [List.cons_append, List.nil_append, deliveries, deliveries_append, e2]
  · exact ⟨mid, tail', by rw [he, e1, e3]; rfl, e2⟩

/-- A hook that does not write: modules get what was sent. -/
theorem C101_intact {H : Handlers W U} {sources : Nat} {s : St W U} (hinj : ∀ a b, W.hash a = W.hash b → a = b)
    (hs : Reach H sources s) (hH : ∀ u id b i, i < b.length → b[i]? = some (H.edit u id b i)) (r : Msg W)
    (hr : r ∈ s.sent) : ∀ d ∈ deliveries r.num r.during, d = (d.1, ⟨r.t, (W.pod r.t).dec r.bytes⟩) := by
  intro d hd
  obtain ⟨h1, h2⟩ := C101_written hinj hs r hr (List.ne_nil_of_mem hd)
  have : r.told = r.bytes := by
    by_cases hsrc : r.src = none
    · rwa [if_pos hsrc] at h2
    · rw [if_neg hsrc] at h2
      obtain ⟨u, h2⟩ := h2
      refine List.ext_getElem? fun i => ?_
      by_cases hi : i < r.bytes.length
      · rw [h2 i hi, hH u _ _ i hi]
      · rw [List.getElem?_eq_none (by omega), List.getElem?_eq_none (by omega)]
  have := this ▸ ((C97_at_most_once hinj hs r hr).2 d hd).2
  exact this

/-- A module that sends memory of its own with `send(ptr, sz)` then finds there what the modules were told. -/
theorem C101_sender {H : Handlers W U} {sources : Nat} {s s' : St W U} (hinj : ∀ a b, W.hash a = W.hash b → a = b)
    (hs : Reach H sources s) {f m : Nat} {bytes : List Byte} (hm : m ∈ living s.log) {k : U → List Byte → Prog W U}
    (h : exec H (f + 1) (.raw m bytes k) s = .ok s') :
    ∃ s1 r, r ∈ s1.sent ∧ r.num = s.count ∧ (r.cut = true → s' = s1) ∧
      (r.cut = false → exec H f (k s1.user r.told) s1 = .ok s') := by
  obtain ⟨hi, -, hth⟩ := hs.inv hinj
  rw [exec, if_pos (hi.live ▸ hm)] at h
  cases hd : distribute (fun u m t v => exec H f (H.data u m t v)) (fun u id b => exec H f (H.hook u id b)) H.edit m
      bytes s with
  | ub => rw [hd] at h; simp at h
  | hang => rw [hd] at h; simp at h
  | ok q =>
    obtain ⟨r, hr, e1, -, -, -, -, e6, e7, -⟩ := distribute_sent hd
    rw [hd] at h
    simp only [Res.ok_bind, onward] at h
    refine ⟨q.1, r, hr, e1, fun hc => ?_, fun hc => ?_⟩
    · rw [if_pos (e6 ▸ hc)] at h
      exact (Res.ok.inj h).symm
    · rw [if_neg (by rw [← e6, hc]; exact Bool.false_ne_true)] at h
      rw [e7]
      exact h

/-! Values for the examples.  The hook reads a message of type 0 with `convert_field`, which throws if the size is wrong,
and sets its low byte to 0; module 2 throws at every message but the first. -/

/-- The hook: `convert_field` (mediator.hpp:357-369), and note what was there. -/
def Ex.watch (u : Nat) (b : List Byte) : Prog Ex.V Nat :=
  match managerConvert (Ex.V.pod 0) b with
  | none => .throw u
  | some _ => .ret u

/-- Callbacks: module 2 counts its messages and throws from the second on. -/
def Ex.fussy : Handlers Ex.V Nat :=
  ⟨fun u m _ _ => if m = 2 then (if u = 0 then .ret 1 else .throw u) else .ret u, fun u _ b => Ex.watch u b,
    fun _ _ b i => if i = 0 then 0 else b.getD i 0⟩

/-- Module 1 sends, and catches exceptions; then a raw message that is too short. -/
def Ex.tries : Prog Ex.V Nat :=
  .attempt Ex.sending fun _ _ => .attempt Ex.sending fun _ _ => .attempt (.raw 1 [0x07#8] fun u _ => .ret u)
    fun u _ => .ret u

/-- What the examples need to know of a message: the modules that got it, what they were told, if it was cut. -/
def Ex.brief (r : Msg Ex.V) : List Nat × List Byte × Bool := ((deliveries r.num r.during).map (·.1), r.told, r.cut)

def Ex.triesOk (r : Res (St Ex.V Nat)) : Bool :=
  match r with
  | .ok s => (s.sent.map Ex.brief == [([2, 3], [0x00#8, 0x12#8], false), ([2], [0x00#8, 0x12#8], true),
      ([], [0x07#8], true)]) && !s.thrown && (living s.log == [1, 2, 3]) && s.sent.all (fun r => r.src == some 1) &&
      s.sent.all (fun r => r.during.all Ex.keeps) && s.sent.all (fun r => r.t == 0 && living r.before == [1, 2, 3])
  | _ => false

theorem three {α β : Type} {g : α → β} {l : List α} {a b c : β} (h : l.map g = [a, b, c]) :
    ∃ x y z, l = [x, y, z] ∧ g x = a ∧ g y = b ∧ g z = c := by
  match l, h with
  | [], h => simp at h
  | [x], h => simp at h
  | [x, y], h => simp at h
  | [x, y, z], h =>
    simp only [List.map_cons, List.map_nil, List.cons.injEq, and_true] at h
    exact ⟨x, y, z, rfl, h.1, h.2.1, h.2.2⟩
  | x :: y :: z :: w :: l, h => simp at h

theorem tried : ∃ s, Reach Ex.fussy 5 s ∧ s.sent.map Ex.brief = [([2, 3], [0x00#8, 0x12#8], false),
    ([2], [0x00#8, 0x12#8], true), ([], [0x07#8], true)] ∧ living s.log = [1, 2, 3] ∧
    (∀ r ∈ s.sent, r.src = some 1) ∧ (∀ r ∈ s.sent, ∀ q, Ev.gone q ∉ r.during) ∧
    ∀ r ∈ s.sent, r.t = 0 ∧ living r.before = [1, 2, 3] := by
  have hb : Ex.triesOk (exec Ex.fussy 15 (Ex.build [1, 2, 3] Ex.tries) (St.new 5 0)) = true := by decide +kernel
  cases h : exec Ex.fussy 15 (Ex.build [1, 2, 3] Ex.tries) (St.new 5 0) with
  | ok s =>
    rw [h] at hb
    simp only [Ex.triesOk, Bool.and_eq_true, List.all_eq_true, beq_iff_eq, Bool.not_eq_true'] at hb
    obtain ⟨⟨⟨⟨⟨h1, h2⟩, h3⟩, h4⟩, h5⟩, h6⟩ := hb
    refine ⟨s, .run _ s 15 _ (.new 0) h h2, h1, h3, h4, fun r hr q hq => ?_, h6⟩
    exact absurd (h5 r hr _ hq) (by simp [Ex.keeps])
  | ub => rw [h] at hb; exact nomatch hb
  | hang => rw [h] at hb; exact nomatch hb

/-- The first message of that history: modules 2 and 3 are told the message with its low byte set to 0. -/
example : ∃ s r, Reach Ex.fussy 5 s ∧ r ∈ s.sent ∧ r.told = [0x00#8, 0x12#8] ∧
    (∃ u : Nat, r.told[0]? = some (Ex.fussy.edit u (Ex.V.hash r.t) r.bytes 0)) ∧
    deliveries r.num r.during ≠ [] := by
  obtain ⟨s, hs, hl, -, hsrc, -⟩ := tried
  match hq : s.sent, hl with
  | r :: rest, hl =>
    rw [List.map_cons, List.cons.injEq] at hl
    have hr : r ∈ s.sent := by rw [hq]; exact List.mem_cons_self
    have h1 : (deliveries r.num r.during).map (·.1) = [2, 3] := congrArg (·.1) hl.1
    have h2 : r.told = [0x00#8, 0x12#8] := congrArg (·.2.1) hl.1
    have hne : deliveries r.num r.during ≠ [] := fun h => by rw [h] at h1; simp at h1
    obtain ⟨h3, h4⟩ := C101_written Mediator.Ex.hash_inj hs r hr hne
    rw [if_neg (by rw [hsrc r hr]; simp)] at h4
    obtain ⟨u, h4⟩ := h4
    exact ⟨s, r, hs, hr, h2, ⟨u, h4 0 (by rw [← h3, h2]; decide)⟩, hne⟩

/-! ### C102: exceptions from callbacks and from the hook -/

/-- How a message ends that ends by an exception: either the hook threw it, and no module gets the message; or a
module did, and then it is the last one to get it, and the modules up to it got it. -/
theorem C102_cut {H : Handlers W U} {sources : Nat} {s : St W U} (hinj : ∀ a b, W.hash a = W.hash b → a = b)
    (hs : Reach H sources s) (r : Msg W) (hr : r ∈ s.sent) (hc : r.cut = true) :
    ((∃ pre, r.during = pre ++ [Ev.threw r.num none]) ∧ deliveries r.num r.during = []) ∨
    ∃ m, (∃ pre, r.during = pre ++ [Ev.threw r.num (some m)]) ∧
      (∃ ds, deliveries r.num r.during = ds ++ [(m, ⟨r.t, (W.pod r.t).dec r.told⟩)]) ∧
      ∀ jm, (living r.before)[jm]? = some m → (∀ q ∈ (living r.before).take (jm + 1), Ev.gone q ∉ r.during) →
        ∀ j p, (living r.before)[j]? = some p → (∀ q ∈ (living r.before).take (j + 1), Ev.gone q ∉ r.during) →
          (deliveries r.num r.during).filter (·.1 == p) =
            if j ≤ jm ∧ Wants W r.t r.bytes p then [(p, ⟨r.t, (W.pod r.t).dec r.told⟩)] else [] := by
  have h := ((hs.inv hinj).1.sent r hr).1
  rcases h.cutAt hc with h' | ⟨m, h'⟩
  · exact .inl h'
  · refine .inr ⟨m, h'.last, h'.final, fun jm hjm hg j p hj hgj => ?_⟩
    rw [h'.upto jm hjm hg j p hj hgj]
    simp only [wants_told h.size]
    rfl

/-- Also if a callback throws, what modules get is a part of what they should, from the start, as long as no module is
destroyed meanwhile. -/
theorem C102_prefix {H : Handlers W U} {sources : Nat} {s : St W U} (hinj : ∀ a b, W.hash a = W.hash b → a = b)
    (hs : Reach H sources s) (r : Msg W) (hr : r ∈ s.sent) (hg : ∀ q, Ev.gone q ∉ r.during) :
    deliveries r.num r.during <+:
      ((living (r.before ++ r.during)).filter fun p => decide (Wants W r.t r.bytes p)).map
        fun p => (p, ⟨r.t, (W.pod r.t).dec r.told⟩) := by
  have h := ((hs.inv hinj).1.sent r hr).1
  have := h.part hg
  simp only [wants_told h.size] at this
  exact this

/-- The exception reaches the program that sent the message, which does nothing more. -/
theorem C102_reaches_sender {H : Handlers W U} {sources : Nat} {s s' : St W U}
    (hinj : ∀ a b, W.hash a = W.hash b → a = b) (hs : Reach H sources s) {f : Nat} {p : Prog W U} {src : Option Nat}
    {t : Nat} {bytes : List Byte} (hp : first p = some (src, t, bytes)) (hm : ∀ m, src = some m → m ∈ living s.log)
    (h : exec H f p s = .ok s') : ∃ r ∈ s'.sent, r.num = s.count ∧ r.src = src ∧ r.t = t ∧ r.bytes = bytes ∧
      (r.cut = true → s'.thrown = true ∧ s'.log = s.log ++ r.during) := by
  obtain ⟨r, hr, e1, e2, e3, e4, e5, e6⟩ := first_sent hinj hs hp hm h
  exact ⟨r, hr, e1, e2, e3, e4, fun hc => ⟨(e6 hc).1, by rw [(e6 hc).2, e5]⟩⟩

/-- After any program that catches its exceptions the manager knows exactly the living modules, whatever was thrown
meanwhile, and the next program can be run. -/
theorem C102_registered {H : Handlers W U} {sources : Nat} {s s1 s' : St W U}
    (hinj : ∀ a b, W.hash a = W.hash b → a = b) (hs : Reach H sources s) {f : Nat} {p : Prog W U} (u : U)
    (h1 : exec H f p s = .ok s1) (h : exec H (f + 1) (.attempt p fun _ _ => .ret u) s = .ok s') :
    Reach H sources s' ∧ s'.log = s1.log ∧ s'.sent = s1.sent ∧
      s'.arr.take s'.cnt = (living s1.log).map some ∧ (living s1.log).Nodup := by
  cases f with
  | zero => simp [exec] at h1
  | succ f =>
    rw [exec, h1] at h
    simp only [Res.ok_bind] at h
    rw [exec] at h
    have ht : s'.thrown = false := by cases h; rfl
    have hl : s'.log = s1.log := by cases h; rfl
    have hsent : s'.sent = s1.sent := by cases h; rfl
    have hr : Reach H sources s' := .run s s' (f + 2) (.attempt p fun _ _ => .ret u) hs (by
      rw [exec, h1]
      simp only [Res.ok_bind]
      rw [exec]
      exact h) ht
    obtain ⟨a, b⟩ := C96_registered hinj hr
    exact ⟨hr, hl, hsent, by rw [a, hl], by rw [← hl]; exact b⟩

/-- The second message of the history above: module 2 throws, and module 3, which wants the message, does not get it;
of the third message, where the hook throws, nobody gets anything. -/
theorem C102_others_refuted : ∃ s r, Reach Ex.fussy 5 s ∧ r ∈ s.sent ∧ (∀ q, Ev.gone q ∉ r.during) ∧
    3 ∈ living r.before ∧ Wants Ex.V r.t r.bytes 3 ∧ (deliveries r.num r.during).map (·.1) = [2] := by
  obtain ⟨s, hs, hl, -, hsrc, hg, hb⟩ := tried
  obtain ⟨r1, r, r3, hq, -, hl, -⟩ := three hl
  have hr : r ∈ s.sent := by rw [hq]; simp
  have h1 : (deliveries r.num r.during).map (·.1) = [2] := congrArg (·.1) hl
  have h2 : r.told = [0x00#8, 0x12#8] := congrArg (·.2.1) hl
  obtain ⟨ht, hbe⟩ := hb r hr
  refine ⟨s, r, hs, hr, hg r hr, by rw [hbe]; decide, ?_, h1⟩
  rw [← wants_told ((hs.inv Mediator.Ex.hash_inj).1.sent r hr).1.size, ht, h2]
  unfold Wants
  decide +kernel

/-- The hypotheses of the theorems are met by that message and the next. -/
example : ∃ s r r', Reach Ex.fussy 5 s ∧ r ∈ s.sent ∧ r.cut = true ∧ (∃ pre, r.during = pre ++ [Ev.threw r.num (some 2)]) ∧
    r' ∈ s.sent ∧ r'.cut = true ∧ deliveries r'.num r'.during = [] := by
  obtain ⟨s, hs, hl, -, hsrc, hg, hb⟩ := tried
  obtain ⟨r1, r, r', hq, -, hl, hl'⟩ := three hl
  have hr : r ∈ s.sent := by rw [hq]; simp
  have hr' : r' ∈ s.sent := by rw [hq]; simp
  have h1 : (deliveries r.num r.during).map (·.1) = [2] := congrArg (·.1) hl
  have h1' : (deliveries r'.num r'.during).map (·.1) = [] := congrArg (·.1) hl'
  have hc : r.cut = true := congrArg (·.2.2) hl
  refine ⟨s, r, r', hs, hr, hc, ?_, hr', congrArg (·.2.2) hl', List.map_eq_nil_iff.1 h1'⟩
  rcases C102_cut Mediator.Ex.hash_inj hs r hr hc with h | ⟨m, h, ⟨ds, hds⟩, -⟩
  · rw [h.2] at h1
    simp at h1
  · rw [hds, List.map_append, List.map_cons, List.map_nil] at h1
    have hm : m = 2 := by
      have := congrArg List.getLast? h1
      simpa using this
    rw [hm] at h
    exact h

/-- The state of a result. -/
def Ex.get (r : Res (St Ex.V Nat)) : St Ex.V Nat :=
  match r with
  | .ok s => s
  | _ => St.new 0 0

def Ex.isOk (r : Res (St Ex.V Nat)) : Bool :=
  match r with
  | .ok _ => true
  | _ => false

theorem Ex.get_ok {r : Res (St Ex.V Nat)} (h : Ex.isOk r = true) : r = .ok (Ex.get r) := by
  cases r <;> simp_all [Ex.isOk, Ex.get]

/-- Modules 1, 2 and 3 live, and module 2 will throw. -/
def Ex.ready : St Ex.V Nat := Ex.get (exec Ex.fussy 9 (Ex.build [1, 2, 3] (.ret 1)) (St.new 5 0))

theorem ready_reach : Reach Ex.fussy 5 Ex.ready :=
  .run _ _ 9 _ (.new 0) (Ex.get_ok (by decide +kernel)) (by decide +kernel)

/-- A raw message with module 2 throwing. -/
example : ∃ s1 r, r ∈ s1.sent ∧ r.num = Ex.ready.count ∧
    (r.cut = true → Ex.get (exec Ex.fussy 9 (.raw 1 [0x01#8, 0x02#8] fun u _ => .ret u) Ex.ready) = s1) := by
  obtain ⟨s1, r, h1, h2, h3, -⟩ := C101_sender Mediator.Ex.hash_inj ready_reach (f := 8) (m := 1)
    (bytes := [0x01#8, 0x02#8]) (k := fun u _ => .ret u) (by decide +kernel) (Ex.get_ok (by decide +kernel))
  exact ⟨s1, r, h1, h2, h3⟩

/-- The sender sees the low byte gone. -/
def Ex.seen (r : Res (St Ex.V Nat)) : Option Nat :=
  match r with
  | .ok s => some s.user
  | _ => none

example : Ex.seen (exec Ex.fussy 9 (.make 1 fun _ => .raw 1 [0x01#8, 0x02#8] fun _ b => .ret (b.getD 0 9).toNat)
    (St.new 5 7)) = some 0 := by decide +kernel

example : ∃ r ∈ (Ex.get (exec Ex.fussy 9 Ex.sending Ex.ready)).sent, r.num = Ex.ready.count ∧ r.src = some 1 ∧
    r.t = 0 ∧ r.bytes = [0x34#8, 0x12#8] := by
  obtain ⟨r, h1, h2, h3, h4, h5, -⟩ := C102_reaches_sender Mediator.Ex.hash_inj ready_reach (f := 9) (p := Ex.sending)
    (src := some 1) (t := 0) (bytes := [0x34#8, 0x12#8]) rfl (fun m hm => by cases hm; decide +kernel)
    (Ex.get_ok (by decide +kernel))
  exact ⟨r, h1, h2, h3, h4, h5⟩

example : (Ex.get (exec Ex.fussy 9 Ex.sending Ex.ready)).thrown = true := by decide +kernel

example : Reach Ex.fussy 5 (Ex.get (exec Ex.fussy 10 (.attempt Ex.sending fun _ _ => .ret 1) Ex.ready)) :=
  (C102_registered Mediator.Ex.hash_inj ready_reach (f := 9) (p := Ex.sending) 1
    (Ex.get_ok (by decide +kernel)) (Ex.get_ok (by decide +kernel))).1

/-- A hook that does not write. -/
example : ∃ s r, Reach Ex.grower 5 s ∧ r ∈ s.sent ∧ (deliveries r.num r.during).map (·.1) = [2, 3] ∧
    ∀ d ∈ deliveries r.num r.during, d = (d.1, ⟨r.t, (Ex.V.pod r.t).dec r.bytes⟩) := by
  obtain ⟨s, hs, hl, r, hr, ht, hb, hbe, hg, hd, -⟩ := grown
  refine ⟨s, r, hs, hr, hd, C101_intact Mediator.Ex.hash_inj hs (fun u id b i hi => ?_) r hr⟩
  show b[i]? = some (b.getD i 0)
  simp [List.getElem?_eq_getElem hi]

/-- Of the messages of the history above no module was destroyed meanwhile. -/
example : ∃ s r, Reach Ex.fussy 5 s ∧ r ∈ s.sent ∧ r.cut = true ∧ deliveries r.num r.during <+:
    ((living (r.before ++ r.during)).filter fun p => decide (Wants Ex.V r.t r.bytes p)).map
      fun p => (p, ⟨r.t, (Ex.V.pod r.t).dec r.told⟩) := by
  obtain ⟨s, hs, hl, -, -, hg, -⟩ := tried
  obtain ⟨r1, r, r', hq, -, hl, -⟩ := three hl
  have hr : r ∈ s.sent := by rw [hq]; simp
  exact ⟨s, r, hs, hr, congrArg (·.2.2) hl, C102_prefix Mediator.Ex.hash_inj hs r hr (hg r hr)⟩

/-- And modules 2 and 3 get the same of the first. -/
example : ∃ s r, Reach Ex.fussy 5 s ∧ r ∈ s.sent ∧ (deliveries r.num r.during).map (·.1) = [2, 3] ∧
    ∀ d ∈ deliveries r.num r.during, d.2 = ⟨r.t, (Ex.V.pod r.t).dec r.told⟩ := by
  obtain ⟨s, hs, hl, -, hsrc, -⟩ := tried
  obtain ⟨r, r2, r3, hq, hl, -⟩ := three hl
  have hr : r ∈ s.sent := by rw [hq]; simp
  have h1 : (deliveries r.num r.during).map (·.1) = [2, 3] := congrArg (·.1) hl
  exact ⟨s, r, hs, hr, h1, (C101_same Mediator.Ex.hash_inj hs r hr (by rw [hsrc r hr]; simp)
    (fun h => by rw [h] at h1; simp at h1)).1⟩

end Verif.Mediator.Dyn
