import Verif.Observer.Notify
/-!
Properties C32-C38 of the fixed-capacity observable.

The statements speak about the log of callbacks and call results (`Spec.lean`): `regs max log` is the
list of observers registered after the log, `depth log` the number of notification callbacks in
progress.  Callbacks are arbitrary programs calling back into the observable unless restricted.
-/
namespace Verif.Observer
open Verif

variable {V U : Type}

/-! ### Concrete objects for the examples -/

/-- Run a list of calls. -/
def play (H : Handlers V U) : List (Op V) → St V U → Res (St V U)
  | [], s => .ok s
  | op :: ops, s => do
    let r ← exec H 8 s op
    play H ops r.1

theorem play_reach {H : Handlers V U} {max : Nat} (ops : List (Op V)) (s s' : St V U)
    (h : Reach H max s) (hp : play H ops s = .ok s') : Reach H max s' := by
  induction ops generalizing s with
  | nil => simp only [play, Res.ok.injEq] at hp; exact hp ▸ h
  | cons op ops ih =>
    simp only [play] at hp
    cases hr : exec H 8 s op with
    | ub => rw [hr] at hp; cases hp
    | hang => rw [hr] at hp; cases hp
    | ok r =>
      rw [hr] at hp
      exact ih r.1 (Reach.call s r.1 8 op r.2 h hr) hp

/-- Callbacks that call nothing. -/
def silent : Handlers Nat Unit := ⟨fun _ _ _ => .ret (), fun _ _ => .ret ()⟩

/-- Callbacks that do one call, chosen by observer. -/
def oneCall (f : Nat → Option (Op Nat)) : Handlers Nat Unit :=
  ⟨fun _ o _ => match f o with
    | some op => .call op (fun _ _ => .ret ())
    | none => .ret (), fun _ _ => .ret ()⟩

/-- A new object with observers 1, 2, 3 (capacity 4). -/
def three : St Nat Unit :=
  { self := 100, arr := [some 1, some 2, some 3, none], count := 3, inside := false, user := (),
    log := [.ret (.add 1) .ok, .ret (.add 2) .ok, .ret (.add 3) .ok] }

theorem three_reach (H : Handlers Nat Unit) : Reach H 4 three :=
  play_reach [.add 1, .add 2, .add 3] (St.new 100 4 ()) three (.new 100 ()) rfl

/-! ### Ordered set -/

theorem spec_bounded (max : Nat) (log : List (Ev V)) :
    (regs max log).Nodup ∧ (regs max log).length ≤ max := by
  suffices h : ∀ l : List Nat, l.Nodup → l.length ≤ max →
      (log.foldl (specEv max) l).Nodup ∧ (log.foldl (specEv max) l).length ≤ max from
    h [] (by simp) (by simp)
  induction log with
  | nil => intro l h1 h2; exact ⟨h1, h2⟩
  | cons e log ih =>
    intro l h1 h2
    apply ih
    · cases e with
      | ret op e =>
        cases op with
        | add o =>
          simp only [specEv, specNext]
          split
          · rename_i hc
            rw [List.nodup_append]
            refine ⟨h1, by simp, ?_⟩
            intro a ha b hb hab
            simp only [List.mem_singleton] at hb
            subst hb hab
            exact hc.2 ha
          · exact h1
        | remove o => exact h1.filter _
        | clear => simp [specEv, specNext]
        | notify v => exact h1
      | _ => exact h1
    · cases e with
      | ret op e =>
        cases op with
        | add o =>
          simp only [specEv, specNext]
          split
          · rename_i hc
            simp; omega
          · exact h2
        | remove o => exact Nat.le_trans (List.length_filter_le _ _) h2
        | clear => simp [specEv, specNext]
        | notify v => exact h2
      | _ => exact h2

/-- **C32.** After any history of calls — including calls made by callbacks — the pointers stored in
the object are the registered observers in order of subscription; every call that returned, returned
what the ordered set of the calls before it prescribes, and changed nothing if it failed; the set
has no duplicates and at most `Max` elements at all times. -/
theorem C32_ordered_set (H : Handlers V U) (max : Nat) (s : St V U) (h : Reach H max s) :
    s.arr.take s.count = (regs max s.log).map some ∧
    (∀ pre op e post, s.log = pre ++ Ev.ret op e :: post →
      e = specErr max (regs max pre) (depth pre) op ∧
      (e ≠ .ok → regs max (pre ++ [Ev.ret op e]) = regs max pre)) ∧
    (∀ pre post, s.log = pre ++ post → (regs max pre).Nodup ∧ (regs max pre).length ≤ max) := by
  obtain ⟨hI, _⟩ := reach_inv h
  refine ⟨hI.base.lst, ?_, fun pre _ _ => spec_bounded max pre⟩
  intro pre op e post hl
  have he : e = specErr max (regs max pre) (depth pre) op := hI.base.logok pre _ post hl
  refine ⟨he, ?_⟩
  intro hne
  rw [regs_snoc]
  rw [he] at hne
  cases op with
  | add o =>
    simp only [specErr] at hne
    simp only [specEv, specNext]
    rw [if_neg]
    rintro ⟨h1, h2⟩
    rw [if_neg (by omega), if_neg h2] at hne
    exact hne rfl
  | remove o =>
    simp only [specErr] at hne
    simp only [specEv, specNext]
    by_cases ho : o ∈ regs max pre
    · rw [if_pos ho] at hne
      exact absurd rfl hne
    · exact filter_eq_of_not_mem ho
  | clear => exact absurd rfl hne
  | notify v => rfl

/-- A history that meets every kind of result: add, duplicate, full, remove, absent, clear. -/
example : ∃ s : St Nat Unit,
    play silent [.add 5, .add 5, .add 6, .add 7, .remove 9, .remove 5, .add 7, .clear, .add 8]
      (St.new 1 2 ()) = .ok s ∧ Reach silent 2 s ∧ regs 2 s.log = [8] := by
  refine ⟨{ self := 1, arr := [some 8, some 7], count := 1, inside := false, user := (), log := [
    .ret (.add 5) .ok, .ret (.add 5) .alreadyContains, .ret (.add 6) .ok,
    .ret (.add 7) .listIsFull, .ret (.remove 9) .notFound, .ret (.remove 5) .ok,
    .ret (.add 7) .ok, .disc 1 6, .disc 1 7, .ret .clear .ok, .ret (.add 8) .ok] }, ?_, ?_, ?_⟩
  · decide +kernel
  · exact play_reach [.add 5, .add 5, .add 6, .add 7, .remove 9, .remove 5, .add 7, .clear, .add 8]
      _ _ (.new 1 ()) (by decide +kernel)
  · decide +kernel

/-! ### Notification -/

theorem notify_adds {H : Handlers V U} {max : Nat} {s : St V U} (h : Reach H max s) (v : V)
    (hq : ∀ o ∈ regs max s.log, ∀ u, (H.data u o v).Only Op.AddOrNotify) (n : Nat) :
    ∃ s' new added, exec H (n + 2) s (.notify v) = .ok (s', .ok) ∧ s'.log = s.log ++ new ∧
      entered new = (regs max s.log).map (fun o => (s.self, o, v)) ∧ disconnected new = [] ∧
      regs max s'.log = regs max s.log ++ added ∧
      ((∀ o ∈ regs max s.log, ∀ u, (H.data u o v).Only Op.IsNotify) → added = []) := by
  obtain ⟨hI, hin⟩ := reach_inv h
  have hb := hI.base
  have h1 := hb.len
  have h2 := hb.count_le
  have hd : depth s.log = 0 := by rw [hI.dep, hin]; rfl
  obtain ⟨t, new, added, hr, hlog, he, hdi, hg, ha⟩ :=
    notifyLoop_adds (H := H) n v (regs max s.log) [] [] { s with inside := true }
      ⟨hb.len, hb.lst, hb.cnt, hb.nodup, hb.logok⟩ rfl hd (by simp) hq
  refine ⟨({ t with inside := false } : St V U).emit (.ret (.notify v) .ok),
    new ++ [.ret (.notify v) .ok], added, ?_, ?_, ?_, ?_, ?_, ha⟩
  · simp only [List.length_nil] at hr
    rw [exec_notify_outside (n + 1) hI hin, hr, Res.ok_bind]
  · simp [St.emit, hlog]
  · rw [entered_append, he]; simp [entered]
  · rw [disconnected_append, hdi]; rfl
  · simp only [St.emit, regs_snoc, specEv, specNext]
    exact hg

/-- **C33.** If the callbacks of the registered observers do not modify the subscription list (they may
notify), `notify_observers(v)` terminates and returns `ok`, calls every registered observer exactly
once in order of subscription with `v` and the address of the observable, calls no one else,
disconnects no one and leaves the list as it was. -/
theorem C33_notify_each_once (H : Handlers V U) (max : Nat) (s : St V U) (h : Reach H max s) (v : V)
    (hq : ∀ o ∈ regs max s.log, ∀ u, (H.data u o v).Only Op.IsNotify) (n : Nat) :
    ∃ s' new, exec H (n + 2) s (.notify v) = .ok (s', .ok) ∧ s'.log = s.log ++ new ∧
      entered new = (regs max s.log).map (fun o => (s.self, o, v)) ∧
      disconnected new = [] ∧ regs max s'.log = regs max s.log := by
  have hq' : ∀ o ∈ regs max s.log, ∀ u, (H.data u o v).Only Op.AddOrNotify := by
    have mono : ∀ p : Prog V U, p.Only Op.IsNotify → p.Only Op.AddOrNotify := by
      intro p
      induction p with
      | ret u => intro _; trivial
      | set u k ih => exact ih
      | call op k ih =>
        rintro ⟨h1, h2⟩
        refine ⟨?_, fun e u => ih e u (h2 e u)⟩
        cases op with
        | notify v => trivial
        | _ => exact h1.elim
    exact fun o ho u => mono _ (hq o ho u)
  obtain ⟨s', new, added, h1, h2, h3, h4, h5, h6⟩ := notify_adds h v hq' n
  exact ⟨s', new, h1, h2, h3, h4, by rw [h5, h6 hq]; simp⟩

example : Reach silent 4 three ∧ regs 4 three.log = [1, 2, 3] ∧
    (∀ o ∈ regs 4 three.log, ∀ u, (silent.data u o 7).Only Op.IsNotify) :=
  ⟨three_reach _, by decide +kernel, fun _ _ _ => trivial⟩

/-- **C34.** Whatever the callbacks do: a `notify_observers` call made while a notification callback is
running returns `notify_recursion_detected`, no delivery ever starts inside another delivery, and a
call made when no notification callback is running returns `ok` — in particular every call from
outside, whatever happened before. -/
theorem C34_recursion_detected (H : Handlers V U) (max : Nat) (s : St V U) (h : Reach H max s) :
    (∀ pre v e post, s.log = pre ++ Ev.ret (.notify v) e :: post →
      (depth pre ≠ 0 → e = .notifyRecursionDetected) ∧ (depth pre = 0 → e = .ok)) ∧
    (∀ pre src o v post, s.log = pre ++ Ev.enter src o v :: post → depth pre = 0) ∧
    depth s.log = 0 ∧
    (∀ n v s' e, exec H n s (.notify v) = .ok (s', e) → e = .ok) := by
  obtain ⟨hI, hin⟩ := reach_inv h
  have hlog : ∀ pre v e post, s.log = pre ++ Ev.ret (.notify v) e :: post →
      e = if depth pre = 0 then Err.ok else .notifyRecursionDetected :=
    fun pre v e post hl => hI.base.logok pre _ post hl
  refine ⟨?_, fun pre src o v post hl => hI.base.logok pre _ post hl,
    by rw [hI.dep, hin]; rfl, ?_⟩
  · intro pre v e post hl
    have := hlog pre v e post hl
    exact ⟨fun hd => by rw [this, if_neg hd], fun hd => by rw [this, if_pos hd]⟩
  · intro n v s' e hs
    cases n with
    | zero => simp [exec] at hs
    | succ n =>
      rw [exec_notify_outside n hI hin] at hs
      cases hr : notifyLoop (exec H n) H v 0 (regs max s.log).length { s with inside := true } with
      | ub => rw [hr] at hs; simp at hs
      | hang => rw [hr] at hs; simp at hs
      | ok t => rw [hr] at hs; simp at hs; exact hs.2.symm

/-- Observer 2 notifies from its callback: refused; the next call from outside works. -/
example : ∃ s, play (oneCall fun o => if o = 2 then some (.notify 9) else none)
      [.notify 5, .notify 6] three = .ok s ∧
    s.log.drop 3 = [.enter 100 1 5, .leave 1, .enter 100 2 5,
      .ret (.notify 9) .notifyRecursionDetected, .leave 2, .enter 100 3 5, .leave 3, .ret (.notify 5) .ok,
      .enter 100 1 6, .leave 1, .enter 100 2 6,
      .ret (.notify 9) .notifyRecursionDetected, .leave 2, .enter 100 3 6, .leave 3, .ret (.notify 6) .ok] :=
  ⟨_, rfl, by decide +kernel⟩

/-- A callback may change the user's state before it calls: observer 1 sets it to 7 and clears, and the disconnect callbacks
see the 7 and count from there. -/
example : ∃ s, Reach ⟨fun u o _ => if o = 1 then .set 7 (.call .clear fun _ u => .ret u) else .ret u, fun u _ => .ret (u + 1)⟩
      3 s ∧ s.user = 9 ∧
    s.log = [.ret (.add 1) .ok, .ret (.add 2) .ok, .enter 100 1 5, .disc 100 1, .disc 100 2, .ret .clear .ok, .leave 1,
      .enter 100 2 5, .leave 2, .ret (.notify 5) .ok] := by
  refine ⟨_, .call _ _ 8 (.notify 5) .ok (.call _ _ 8 (.add 2) .ok (.call _ _ 8 (.add 1) .ok (.new 100 0) rfl) rfl) rfl, ?_⟩
  decide +kernel

/-- **C35.** Whatever calls the callbacks make — adding, removing, clearing, notifying, at any depth —
no call ever reads outside the array or calls through a null pointer, and after every event the
registered observers are a duplicate-free list within the capacity. -/
theorem C35_memory_safe (H : Handlers V U) (max : Nat) (s : St V U) (h : Reach H max s) (n : Nat)
    (op : Op V) :
    exec H n s op ≠ .ub ∧
    ∀ s' e, exec H n s op = .ok (s', e) →
      s'.arr.length = max ∧ s'.arr.take s'.count = (regs max s'.log).map some ∧
      ∀ pre post, s'.log = pre ++ post → (regs max pre).Nodup ∧ (regs max pre).length ≤ max := by
  obtain ⟨hI, hin⟩ := reach_inv h
  obtain ⟨h1, h2⟩ := exec_good H max n s op hI
  refine ⟨h1, ?_⟩
  intro s' e hs
  exact ⟨(h2 s' e hs).1.base.len, (h2 s' e hs).1.base.lst, fun pre _ _ => spec_bounded max pre⟩

/-- Observer 1 clears the whole list from its callback; the rest of the loop is still defined. -/
example : ∃ s, play (oneCall fun o => if o = 1 then some .clear else none) [.notify 5] three = .ok s ∧
    regs 4 s.log = [] ∧ entered s.log = [(100, 1, 5), (100, 2, 5), (100, 3, 5)] :=
  ⟨_, rfl, by decide +kernel, by decide +kernel⟩

/-- **C36 (partial).** If only the callback of the *last* registered observer removes or clears (it may
make any calls; the others may add and notify), every observer registered at the start is called
exactly once, in order, and nobody is called after a removal.  Missing: removals by callbacks of other
observers, where the claim is false (`C36_skipped_refuted`, `C36_called_twice_refuted`,
`C36_called_after_removal_refuted`). -/
theorem C36_last_may_remove_partial (H : Handlers V U) (max : Nat) (s : St V U) (h : Reach H max s)
    (v : V) (init : List Nat) (last : Nat) (hreg : regs max s.log = init ++ [last])
    (hq : ∀ o ∈ init, ∀ u, (H.data u o v).Only Op.AddOrNotify)
    (n : Nat) (s' : St V U) (e : Err) (hs : exec H (n + 2) s (.notify v) = .ok (s', e)) :
    e = .ok ∧ ∃ a b, s'.log = s.log ++ (a ++ Ev.enter s.self last v :: b) ∧
      entered a = init.map (fun o => (s.self, o, v)) ∧ entered b = [] ∧
      (∃ added, regs max (s.log ++ a) = regs max s.log ++ added) := by
  obtain ⟨hI, hin⟩ := reach_inv h
  have hb := hI.base
  have h1 := hb.len
  have h2 := hb.count_le
  have hd : depth s.log = 0 := by rw [hI.dep, hin]; rfl
  have hb' : Base max { s with inside := true } := ⟨hb.len, hb.lst, hb.cnt, hb.nodup, hb.logok⟩
  obtain ⟨t, new, added, hr, hlog, he, hdi, hg, _⟩ :=
    notifyLoop_adds (H := H) n v init [] [last] { s with inside := true }
      hb' rfl hd hreg hq
  simp only [List.length_nil] at hr
  have hcnt : s.count = init.length + 1 := by rw [hb.cnt, hreg]; simp
  obtain ⟨bt, dt, kt⟩ := (notifyLoop_good (exec_good H max (n + 1)) H v init.length 0 _ hb' rfl hd
    (by intro j _ hj; exact hb.slots' j (by omega))).2 t hr
  have hslot : t.arr[init.length]? = some (some last) := by
    rw [bt.slots init.length (by rw [bt.cnt, hg]; simp only [hreg]; simp), hg]
    simp [hreg]
  have hI2 : Inv max (t.emit (.enter t.self last v)) := by
    refine ⟨bt.emit_enter dt _ _ _, ?_⟩
    simp [St.emit, depth_snoc, depthEv, dt, kt.inside]
  obtain ⟨hp1, hp2⟩ := runProg_good (exec_good H max (n + 1))
    (H.data (t.emit (.enter t.self last v)).user last v) _ hI2
  have hlen : (regs max s.log).length = init.length + 1 := by rw [hreg]; simp
  rw [exec_notify_outside (n + 1) hI hin, hlen, notifyLoop_split] at hs
  rw [hr] at hs
  simp only [Res.ok_bind, notifyLoop, Nat.zero_add, deref_some hslot, callData] at hs
  cases hrun : runProg (exec H (n + 1)) (H.data (t.emit (.enter t.self last v)).user last v)
      (t.emit (.enter t.self last v)) with
  | ub => exact absurd hrun hp1
  | hang => rw [hrun] at hs; simp at hs
  | ok w =>
    rw [hrun] at hs
    simp only [Res.ok_bind, Res.pure_eq, Res.ok.injEq, Prod.mk.injEq] at hs
    obtain ⟨rfl, rfl⟩ := hs
    obtain ⟨_, kw, qw⟩ := hp2 w hrun
    obtain ⟨nw, hnw, hnw'⟩ := qw (by simp [St.emit, kt.inside])
    refine ⟨rfl, new, nw ++ [.leave last, .ret (.notify v) .ok], ?_, he, ?_, added, ?_⟩
    · simp only [St.emit] at hnw ⊢
      rw [hnw, hlog]
      have : t.self = s.self := kt.self
      rw [this]
      simp
    · rw [entered_append, hnw']; rfl
    · have : t.log = s.log ++ new := hlog
      rw [← this]
      exact hg

/-- The last observer unsubscribes itself and observer 1 from its callback. -/
example : ∃ s, play (oneCall fun o => if o = 3 then some (.remove 3) else none) [.notify 5] three = .ok s ∧
    entered s.log = [(100, 1, 5), (100, 2, 5), (100, 3, 5)] ∧ regs 4 s.log = [1, 2] :=
  ⟨_, rfl, by decide +kernel, by decide +kernel⟩

/-- The callbacks only remove observers. -/
def OnlyRemove (H : Handlers V U) : Prop :=
  ∀ u o v, (H.data u o v).Only (fun op => ∃ o, op = Op.remove o)

theorem oneCall_onlyRemove (f : Nat → Option Nat) :
    OnlyRemove (oneCall fun o => (f o).map Op.remove) := by
  intro u o v
  simp only [oneCall]
  cases f o with
  | none => trivial
  | some p => exact ⟨⟨p, rfl⟩, fun _ _ => trivial⟩

/-- Observer `a` removes observer `b` from its callback. -/
def remover (a b : Nat) : Handlers Nat Unit :=
  oneCall fun o => (if o = a then some b else none).map Op.remove

theorem remover_ok (a b : Nat) : OnlyRemove (remover a b) := oneCall_onlyRemove _

/-- **C36 is false: an observer that stays registered is skipped.**  Observers 1, 2, 3; observer 1
unsubscribes itself: 2 is not notified. -/
theorem C36_skipped_refuted :
    ¬ ∀ (H : Handlers Nat Unit) (max n : Nat) (s s' : St Nat Unit) (v : Nat) (e : Err)
        (new : List (Ev Nat)), Reach H max s → OnlyRemove H →
        exec H n s (.notify v) = .ok (s', e) → s'.log = s.log ++ new →
        ∀ o ∈ regs max s.log, o ∈ regs max s'.log → (s.self, o, v) ∈ entered new := by
  intro h
  have := h (remover 1 1) 4 8 three _ 5 _ _ (three_reach _) (remover_ok 1 1) rfl rfl 2
    (by decide +kernel) (by decide +kernel)
  revert this
  decide +kernel

/-- **C36 is false: an observer that stays registered is notified twice.**  Observers 1, 2, 3; observer 1
unsubscribes itself: 3 is notified twice. -/
theorem C36_called_twice_refuted :
    ¬ ∀ (H : Handlers Nat Unit) (max n : Nat) (s s' : St Nat Unit) (v : Nat) (e : Err)
        (new : List (Ev Nat)), Reach H max s → OnlyRemove H →
        exec H n s (.notify v) = .ok (s', e) → s'.log = s.log ++ new →
        ∀ o ∈ regs max s.log, o ∈ regs max s'.log → (entered new).count (s.self, o, v) ≤ 1 := by
  intro h
  have := h (remover 1 1) 4 8 three _ 5 _ _ (three_reach _) (remover_ok 1 1) rfl rfl 3
    (by decide +kernel) (by decide +kernel)
  revert this
  decide +kernel

/-- **C36 is false: a removed observer is called.**  Observers 1, 2, 3; observer 1 unsubscribes 3: 3 is
notified although it is no longer registered (it may already be destroyed). -/
theorem C36_called_after_removal_refuted :
    ¬ ∀ (H : Handlers Nat Unit) (max n : Nat) (s s' : St Nat Unit) (v : Nat) (e : Err)
        (a b : List (Ev Nat)) (o : Nat), Reach H max s → OnlyRemove H →
        exec H n s (.notify v) = .ok (s', e) →
        s'.log = s.log ++ (a ++ Ev.enter s.self o v :: b) → o ∈ regs max (s.log ++ a) := by
  intro h
  have := h (remover 1 3) 4 8 three _ 5 _
    [.enter 100 1 5, .ret (.remove 3) .ok, .leave 1, .enter 100 2 5, .leave 2] _ 3
    (three_reach _) (remover_ok 1 3) rfl rfl
  revert this
  decide +kernel

/-- **C37.** If the callbacks of the observers registered at the start only add and notify, exactly those
observers are called, once each and in order; the observers added meanwhile (`added`) are registered
behind them when the call returns, and — if their callbacks too only add and notify — the next
notification calls all of them. -/
theorem C37_added_next_time (H : Handlers V U) (max : Nat) (s : St V U) (h : Reach H max s) (v : V)
    (hq : ∀ o ∈ regs max s.log, ∀ u, (H.data u o v).Only Op.AddOrNotify) (n : Nat) :
    ∃ s' new added, exec H (n + 2) s (.notify v) = .ok (s', .ok) ∧ s'.log = s.log ++ new ∧
      entered new = (regs max s.log).map (fun o => (s.self, o, v)) ∧ disconnected new = [] ∧
      regs max s'.log = regs max s.log ++ added ∧
      ∀ w, (∀ o ∈ regs max s'.log, ∀ u, (H.data u o w).Only Op.AddOrNotify) → ∀ m,
        ∃ s'' new', exec H (m + 2) s' (.notify w) = .ok (s'', .ok) ∧ s''.log = s'.log ++ new' ∧
          entered new' = (regs max s.log ++ added).map (fun o => (s.self, o, w)) := by
  obtain ⟨s', new, added, h1, h2, h3, h4, h5, _⟩ := notify_adds h v hq n
  refine ⟨s', new, added, h1, h2, h3, h4, h5, ?_⟩
  intro w hw m
  have hr' : Reach H max s' := .call s s' _ _ _ h h1
  obtain ⟨s'', new', _, g1, g2, g3, _⟩ := notify_adds hr' w hw m
  have hk := ((exec_good H max (n + 2) s (.notify v) (reach_inv h).1).2 s' _ h1).2.1
  exact ⟨s'', new', g1, g2, by rw [g3, h5, hk.self]⟩

/-- Observer 1 subscribes observer 9 from its callback. -/
example : ∃ s, play (oneCall fun o => if o = 1 then some (.add 9) else none) [.notify 5, .notify 6] three
      = .ok s ∧
    entered s.log = [(100, 1, 5), (100, 2, 5), (100, 3, 5),
      (100, 1, 6), (100, 2, 6), (100, 3, 6), (100, 9, 6)] := ⟨_, rfl, by decide +kernel⟩

/-- **C38 (partial).** `clear_observers()` (and hence the destructor) leaves no subscription, whatever
the callbacks do; if the `disconnect` callbacks do not call back, it terminates, disconnects each
registered observer exactly once in order, and notifies no one.  Missing: exactly-once for `disconnect`
callbacks that call back, where it is false (`C38_unsubscribing_refuted`). -/
theorem C38_clear_partial (H : Handlers V U) (max : Nat) (s : St V U) (h : Reach H max s) :
    (∀ n s' e, exec H n s .clear = .ok (s', e) → regs max s'.log = [] ∧ s'.count = 0) ∧
    ((∀ o ∈ regs max s.log, ∀ u, (H.disconnect u o).Only (fun _ => False)) → ∀ n,
      ∃ s' new, exec H (n + 1) s .clear = .ok (s', .ok) ∧ s'.log = s.log ++ new ∧
        disconnected new = (regs max s.log).map (fun o => (s.self, o)) ∧ entered new = []) := by
  obtain ⟨hI, hin⟩ := reach_inv h
  refine ⟨?_, ?_⟩
  · intro n s' e hs
    obtain ⟨hI', _⟩ := (exec_good H max n s .clear hI).2 s' e hs
    cases n with
    | zero => simp [exec] at hs
    | succ n =>
      rw [exec_clear n hI] at hs
      cases hr : clearLoop (exec H n) H 0 (regs max s.log).length s with
      | ub => rw [hr] at hs; simp at hs
      | hang => rw [hr] at hs; simp at hs
      | ok t =>
        rw [hr] at hs
        simp only [Res.ok_bind, Res.pure_eq, Res.ok.injEq, Prod.mk.injEq] at hs
        obtain ⟨rfl, rfl⟩ := hs
        refine ⟨?_, rfl⟩
        simp only [St.emit, regs_snoc, specEv, specNext]
  · intro hq n
    obtain ⟨t, new, hr, hlog, he, hdi, hg⟩ :=
      clearLoop_quiet (H := H) (exec H n) (regs max s.log) [] s hI.base (by simp) hq
    refine ⟨({ t with count := 0 } : St V U).emit (.ret .clear .ok), new ++ [.ret .clear .ok],
      ?_, ?_, ?_, ?_⟩
    · simp only [List.length_nil] at hr
      rw [exec_clear n hI, hr, Res.ok_bind]
    · simp [St.emit, hlog]
    · rw [disconnected_append, hdi]; simp [disconnected]
    · rw [entered_append, he]; rfl

example : ∃ s, play silent [.clear] three = .ok s ∧
    disconnected s.log = [(100, 1), (100, 2), (100, 3)] ∧ regs 4 s.log = [] :=
  ⟨_, rfl, by decide +kernel, by decide +kernel⟩

/-- Observers that unsubscribe in `disconnect`. -/
def unsubscriber : Handlers Nat Unit :=
  ⟨fun _ _ _ => .ret (), fun _ o => .call (.remove o) (fun _ _ => .ret ())⟩

/-- **C38 is false for `disconnect` callbacks that unsubscribe**: with observers 1, 2, 3, observer 2 is
never disconnected and observer 3 twice. -/
theorem C38_unsubscribing_refuted :
    ∃ s s' : St Nat Unit, ∃ new, Reach unsubscriber 4 s ∧ regs 4 s.log = [1, 2, 3] ∧
      exec unsubscriber 8 s .clear = .ok (s', .ok) ∧ s'.log = s.log ++ new ∧
      disconnected new = [(100, 1), (100, 3), (100, 3)] :=
  ⟨three, _, _, three_reach _, by decide +kernel, rfl, rfl, by decide +kernel⟩

end Verif.Observer
