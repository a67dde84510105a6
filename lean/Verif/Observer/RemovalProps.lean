import Verif.Observer.Props
import Verif.Observer.Removal
/-! C36 and C38 for callbacks that make any calls at all. -/
namespace Verif.Observer
open Verif

variable {V U : Type}

/-- **C36 (partial): the number of calls.** Whatever the callbacks do — adding, removing, clearing,
notifying — a notification succeeds, makes exactly as many calls as observers were registered at its
start, all with its own address and the value, and only calls observers that are registered at some
moment of the notification.  Missing: who is called (see `C36_front_partial` and the refutations). -/
theorem C36_calls_partial (H : Handlers V U) (max : Nat) (s : St V U) (h : Reach H max s) (v : V)
    (n : Nat) (s' : St V U) (e : Err) (hs : exec H n s (.notify v) = .ok (s', e)) :
    e = .ok ∧ ∃ new, s'.log = s.log ++ new ∧
      (entered new).length = (regs max s.log).length ∧
      ∀ c ∈ entered new, c.1 = s.self ∧ c.2.2 = v ∧
        ∃ a b, new = a ++ b ∧ c.2.1 ∈ regs max (s.log ++ a) := by
  obtain ⟨h1, calls, new, h2, h3, h4, h5, _⟩ := exec_notify_front h v [] n s' e hs
  refine ⟨h1, new, h2, by rw [h3, List.length_map, h4], ?_⟩
  intro c hc
  rw [h3, List.mem_map] at hc
  obtain ⟨o, ho, rfl⟩ := hc
  exact ⟨rfl, rfl, h5 o ho⟩

/-- **C36 (partial): the observers at the front.** Whatever the callbacks do: if the first observers of
the list (`pre`) stay the first ones during the whole notification, they are notified first, in order, and
nobody of them is notified again.  So an observer is notified exactly once unless it or an observer
registered before it is removed during the visit.  Missing: the observers behind a removed one, for which
the claim is false (`C36_skipped_refuted`, `C36_called_twice_refuted`,
`C36_called_after_removal_refuted`). -/
theorem C36_front_partial (H : Handlers V U) (max : Nat) (s : St V U) (h : Reach H max s) (v : V)
    (n : Nat) (s' : St V U) (e : Err) (hs : exec H n s (.notify v) = .ok (s', e))
    (new : List (Ev V)) (hnew : s'.log = s.log ++ new) (pre : List Nat)
    (hstay : ∀ a b, new = a ++ b → pre <+: regs max (s.log ++ a)) :
    ∃ rest : List Nat, entered new = pre.map (fun o => (s.self, o, v)) ++ rest.map (fun o => (s.self, o, v)) ∧
      (∀ x ∈ pre, x ∉ rest) ∧ pre.length + rest.length = (regs max s.log).length := by
  obtain ⟨_, calls, new', h2, h3, h4, _, h6⟩ := exec_notify_front h v pre n s' e hs
  have : new' = new := List.append_cancel_left (h2.symm.trans hnew)
  subst this
  obtain ⟨rest, hr, hx⟩ := h6 hstay
  refine ⟨rest, by rw [h3, hr, List.map_append], hx, ?_⟩
  rw [← h4, hr, List.length_append]

/-- **C36 (partial): one observer.** The observer behind `pre` is notified exactly once if neither it nor
an observer registered before it is removed during the notification. -/
theorem C36_once_partial (H : Handlers V U) (max : Nat) (s : St V U) (h : Reach H max s) (v : V)
    (n : Nat) (s' : St V U) (e : Err) (hs : exec H n s (.notify v) = .ok (s', e))
    (new : List (Ev V)) (hnew : s'.log = s.log ++ new) (pre : List Nat) (o : Nat)
    (hstay : ∀ a b, new = a ++ b → pre ++ [o] <+: regs max (s.log ++ a)) :
    (entered new).filter (fun c => c.2.1 == o) = [(s.self, o, v)] := by
  obtain ⟨rest, h1, h2, _⟩ := C36_front_partial H max s h v n s' e hs new hnew (pre ++ [o]) hstay
  have hn : (pre ++ [o]).Nodup := by
    have := hstay [] new rfl
    exact this.sublist.nodup (spec_bounded max _).1
  have ho : o ∉ pre := by
    intro hm
    exact (List.nodup_append.1 hn).2.2 o hm o (by simp) rfl
  have none : ∀ l : List Nat, o ∉ l →
      (l.map (fun o => (s.self, o, v))).filter (fun c => c.2.1 == o) = [] := by
    intro l hl
    rw [List.filter_eq_nil_iff]
    intro c hc
    rw [List.mem_map] at hc
    obtain ⟨x, hx, rfl⟩ := hc
    simp only [beq_iff_eq]
    intro he
    exact hl (he ▸ hx)
  rw [h1, List.map_append, List.filter_append, List.filter_append, none pre ho,
    none rest (h2 o (by simp))]
  simp

/-- **C38 (partial): the observers at the front.** Whatever the `disconnect` callbacks do: if the first
observers of the list (`pre`) stay the first ones until `clear_observers()` returns, they are disconnected
first, in order, and nobody of them is disconnected again.  Missing: the observers behind a removed one,
for which the claim is false (`C38_unsubscribing_refuted`). -/
theorem C38_front_partial (H : Handlers V U) (max : Nat) (s : St V U) (h : Reach H max s) (n : Nat)
    (s' : St V U) (e : Err) (hs : exec H n s .clear = .ok (s', e)) (new : List (Ev V))
    (hnew : s'.log = s.log ++ (new ++ [.ret .clear e])) (pre : List Nat) (hne : pre ≠ [])
    (hstay : ∀ a b, new = a ++ b → pre <+: regs max (s.log ++ a)) :
    ∃ rest : List Nat, disconnected new = pre.map (fun o => (s.self, o)) ++ rest.map (fun o => (s.self, o)) ∧
      (∀ x ∈ pre, x ∉ rest) ∧ pre.length + rest.length = (regs max s.log).length := by
  obtain ⟨hI, hin⟩ := reach_inv h
  have hb := hI.base
  cases n with
  | zero => cases hs
  | succ n =>
    rw [exec_clear n hI, ← hb.cnt] at hs
    cases hr : clearLoop (exec H n) H 0 s.count s with
    | ub => rw [hr] at hs; cases hs
    | hang => rw [hr] at hs; cases hs
    | ok t =>
      rw [hr] at hs
      simp only [Res.ok_bind, Res.ok.injEq, Prod.mk.injEq] at hs
      obtain ⟨rfl, rfl⟩ := hs
      have hlog : t.log = s.log ++ new := by
        simp only [St.emit] at hnew
        rw [← List.append_assoc] at hnew
        exact (List.append_inj' hnew rfl).1
      have hst : Stay max pre s.log t.log := by
        intro a ⟨a', ha'⟩ ⟨b, hb'⟩
        rw [← ha']
        refine hstay a' b ?_
        rw [hlog, ← ha', List.append_assoc] at hb'
        exact (List.append_cancel_left hb').symm
      have hpre := hst s.log (List.prefix_refl _) (by rw [hlog]; exact List.prefix_append _ _)
      obtain ⟨calls, hlen, hdis, hfr⟩ := clearLoop_front n pre hne s.log s.count 0 s t hI
        (by intro j _ hj; exact hb.slots' j (by omega)) (List.prefix_refl _)
        (by
          intro _
          rw [Nat.zero_add]
          exact clean_start hb hpre) hr hst
      obtain ⟨rest, hre, hx⟩ := front_split (by rw [hlen, hb.cnt]; exact hpre.length_le) hfr
      refine ⟨rest, ?_, hx, by rw [← hb.cnt, ← hlen, hre, List.length_append]⟩
      rw [hlog, disconnected_append] at hdis
      rw [List.append_cancel_left hdis, hre, List.map_append]

/-! ### Examples -/

/-- All beginnings of a concrete log, by their lengths. -/
theorem of_takes {P : List (Ev V) → Prop} {new : List (Ev V)}
    (h : ∀ k ∈ List.range (new.length + 1), P (new.take k)) : ∀ a b, new = a ++ b → P a := by
  intro a b hab
  have := h a.length (by rw [hab]; simp; omega)
  rw [hab, List.take_left] at this
  exact this

/-- Observer 2 of 1, 2, 3 unsubscribes 3 while it is notified: 1 and 2 are notified once each; three calls
are made (the third one to the removed observer). -/
example : ∃ s' e new, exec (remover 2 3) 8 three (.notify 5) = .ok (s', e) ∧
    s'.log = three.log ++ new ∧ regs 4 s'.log = [1, 2] ∧
    (∀ a b, new = a ++ b → [1] ++ [2] <+: regs 4 (three.log ++ a)) ∧
    entered new = [(100, 1, 5), (100, 2, 5), (100, 3, 5)] :=
  ⟨_, _, _, rfl, rfl, by decide +kernel, of_takes (by decide +kernel), by decide +kernel⟩

/-- Observers whose `disconnect` unsubscribes observer 3. -/
def dropThree : Handlers Nat Unit :=
  ⟨fun _ _ _ => .ret (), fun _ _ => .call (.remove 3) (fun _ _ => .ret ())⟩

/-- All three observers unsubscribe 3 when they are disconnected: 1 and 2 are disconnected once each. -/
example : ∃ s' e new, exec dropThree 8 three .clear = .ok (s', e) ∧
    s'.log = three.log ++ (new ++ [.ret .clear e]) ∧
    (∀ a b, new = a ++ b → [1, 2] <+: regs 4 (three.log ++ a)) ∧
    disconnected new = [(100, 1), (100, 2), (100, 3)] :=
  ⟨_, .ok, [.disc 100 1, .ret (.remove 3) .ok, .disc 100 2, .ret (.remove 3) .notFound, .disc 100 3,
      .ret (.remove 3) .notFound], rfl, rfl, of_takes (by decide +kernel), by decide +kernel⟩

end Verif.Observer
