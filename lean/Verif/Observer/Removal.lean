import Verif.Observer.Notify
/-! Notification and clearing with callbacks that make any calls: what holds of the observers at the front
of the list that stay registered. -/
namespace Verif.Observer
open Verif

variable {V U : Type}

/-- A property of states kept by every elementary change of an observable. -/
structure Prim (max : Nat) (P : St V U → Prop) : Prop where
  user : ∀ s u, P s → P { s with user := u }
  inside : ∀ s b, P s → P { s with inside := b }
  ev : ∀ s ev, P s → regs max (s.log ++ [ev]) = regs max s.log → P (s.emit ev)
  add : ∀ s o, Base max s → P s → s.count < max → o ∉ regs max s.log →
    P (({ s with arr := s.arr.set s.count (some o), count := s.count + 1 } : St V U).emit
      (.ret (.add o) .ok))
  remove : ∀ s o, Base max s → P s → o ∈ regs max s.log →
    P (({ s with
          arr := ((regs max s.log).filter (· != o)).map some ++ s.arr.drop (s.count - 1),
          count := s.count - 1 } : St V U).emit (.ret (.remove o) .ok))
  clear : ∀ s, Base max s → P s → P (({ s with count := 0 } : St V U).emit (.ret .clear .ok))

/-- Nested calls keep `P`. -/
def Hold (max : Nat) (P : St V U → Prop) (ex : St V U → Op V → Res (St V U × Err)) : Prop :=
  ∀ s op s' e, Inv max s → P s → ex s op = .ok (s', e) → P s'

section
variable {max : Nat} {P : St V U → Prop} {ex : St V U → Op V → Res (St V U × Err)}

theorem runProg_hold (hP : Prim max P) (hg : Good max ex) (hex : Hold max P ex) (p : Prog V U)
    (s s' : St V U) (h : Inv max s) (hp : P s) (hs : runProg ex p s = .ok s') : P s' := by
  induction p generalizing s with
  | ret u =>
    simp only [runProg, Res.ok.injEq] at hs
    subst hs
    exact hP.user s u hp
  | set u k ih =>
    exact ih { s with user := u } ⟨⟨h.base.len, h.base.lst, h.base.cnt, h.base.nodup, h.base.logok⟩, h.dep⟩ (hP.user s u hp) hs
  | call op k ih =>
    simp only [runProg] at hs
    cases hr : ex s op with
    | ub => rw [hr] at hs; cases hs
    | hang => rw [hr] at hs; cases hs
    | ok r =>
      obtain ⟨t, e⟩ := r
      rw [hr] at hs
      exact ih e t.user t ((hg s op h).2 t e hr).1 (hex s op t e h hp hr) hs

theorem callData_hold (hP : Prim max P) (hg : Good max ex) (hex : Hold max P ex) (H : Handlers V U)
    (v : V) (o : Nat) (s s' : St V U) (hb : Base max s) (hi : s.inside = true)
    (hd : depth s.log = 0) (hp : P s) (hs : callData ex H v o s = .ok s') : P s' := by
  have hI : Inv max (s.emit (.enter s.self o v)) := by
    refine ⟨hb.emit_enter hd _ _ _, ?_⟩
    simp [St.emit, depth_snoc, depthEv, hd, hi]
  simp only [callData] at hs
  cases hr : runProg ex (H.data (s.emit (.enter s.self o v)).user o v)
      (s.emit (.enter s.self o v)) with
  | ub => rw [hr] at hs; cases hs
  | hang => rw [hr] at hs; cases hs
  | ok t =>
    rw [hr] at hs
    simp only [Res.ok_bind, Res.pure_eq, Res.ok.injEq] at hs
    subst hs
    refine hP.ev t _ ?_ (by rw [regs_snoc]; rfl)
    exact runProg_hold hP hg hex _ _ t hI (hP.ev s _ hp (by rw [regs_snoc]; rfl)) hr

theorem notifyLoop_hold (hP : Prim max P) (hg : Good max ex) (hex : Hold max P ex)
    (H : Handlers V U) (v : V) (left i : Nat) (s s' : St V U) (hb : Base max s)
    (hi : s.inside = true) (hd : depth s.log = 0) (hp : P s)
    (hs : notifyLoop ex H v i left s = .ok s') : P s' := by
  induction left generalizing i s with
  | zero =>
    simp only [notifyLoop, Res.ok.injEq] at hs
    subst hs
    exact hp
  | succ left ih =>
    simp only [notifyLoop] at hs
    cases hde : deref s i with
    | ub => rw [hde] at hs; cases hs
    | hang => rw [hde] at hs; cases hs
    | ok o =>
      rw [hde] at hs
      simp only [Res.ok_bind] at hs
      cases hr : callData ex H v o s with
      | ub => rw [hr] at hs; cases hs
      | hang => rw [hr] at hs; cases hs
      | ok t =>
        rw [hr] at hs
        obtain ⟨b1, d1, k1⟩ := (callData_good hg H v o s hb hi hd).2 t hr
        exact ih (i + 1) t b1 (by rw [k1.inside, hi]) d1
          (callData_hold hP hg hex H v o s t hb hi hd hp hr) hs

/-- One `disconnect` callback (observer.hpp:137). -/
theorem disc_step (hg : Good max ex) (H : Handlers V U) (o : Nat) (s t : St V U) (h : Inv max s)
    (hr : runProg ex (H.disconnect (s.emit (.disc s.self o)).user o) (s.emit (.disc s.self o))
      = .ok t) : Inv max (s.emit (.disc s.self o)) ∧ Inv max t ∧ Keeps s t := by
  have hI : Inv max (s.emit (.disc s.self o)) := by
    refine ⟨h.base.emit_disc _ _, ?_⟩
    simp only [St.emit, depth_snoc, depthEv]; exact h.dep
  obtain ⟨i1, k1, _⟩ := (runProg_good hg _ _ hI).2 t hr
  exact ⟨hI, i1, (Keeps.emit s _).trans k1⟩

theorem clearLoop_hold (hP : Prim max P) (hg : Good max ex) (hex : Hold max P ex)
    (H : Handlers V U) (left i : Nat) (s s' : St V U) (h : Inv max s) (hp : P s)
    (hs : clearLoop ex H i left s = .ok s') : P s' := by
  induction left generalizing i s with
  | zero =>
    simp only [clearLoop, Res.ok.injEq] at hs
    subst hs
    exact hp
  | succ left ih =>
    simp only [clearLoop] at hs
    cases hde : deref s i with
    | ub => rw [hde] at hs; cases hs
    | hang => rw [hde] at hs; cases hs
    | ok o =>
      rw [hde] at hs
      simp only [Res.ok_bind] at hs
      cases hr : runProg ex (H.disconnect (s.emit (.disc s.self o)).user o)
          (s.emit (.disc s.self o)) with
      | ub => rw [hr] at hs; cases hs
      | hang => rw [hr] at hs; cases hs
      | ok t =>
        rw [hr] at hs
        obtain ⟨hI, i1, k1⟩ := disc_step hg H o s t h hr
        exact ih (i + 1) t i1
          (runProg_hold hP hg hex _ _ t hI (hP.ev s _ hp (by rw [regs_snoc]; rfl)) hr) hs

theorem execStep_hold (hP : Prim max P) (hg : Good max ex) (hex : Hold max P ex)
    (H : Handlers V U) : Hold max P (execStep ex H) := by
  intro s op s' e h hp hs
  have hb := h.base
  have hl := hb.len
  have hc := hb.count_le
  cases op with
  | add o =>
    simp only [execStep, add_spec hb o, Res.ok_bind, Res.pure_eq, Res.ok.injEq, Prod.mk.injEq] at hs
    obtain ⟨rfl, rfl⟩ := hs
    by_cases hcond : s.count < max ∧ o ∉ regs max s.log
    · rw [if_pos hcond]
      exact hP.add s o hb hp hcond.1 hcond.2
    · rw [if_neg hcond]
      refine hP.ev s _ hp ?_
      rw [regs_snoc]
      simp only [specEv, specNext]
      rw [if_neg (by rw [← hb.cnt]; exact hcond)]
  | remove o =>
    simp only [execStep, remove_spec hb o, Res.ok_bind, Res.pure_eq, Res.ok.injEq,
      Prod.mk.injEq] at hs
    obtain ⟨rfl, rfl⟩ := hs
    by_cases hm : o ∈ regs max s.log
    · rw [if_pos hm]
      exact hP.remove s o hb hp hm
    · rw [if_neg hm]
      refine hP.ev s _ hp ?_
      rw [regs_snoc]
      simp only [specEv, specNext]
      rw [filter_eq_of_not_mem hm]
  | clear =>
    simp only [execStep, clearObservers] at hs
    cases hr : clearLoop ex H 0 s.count s with
    | ub => rw [hr] at hs; cases hs
    | hang => rw [hr] at hs; cases hs
    | ok t =>
      rw [hr] at hs
      simp only [Res.ok_bind, Res.pure_eq, Res.ok.injEq, Prod.mk.injEq] at hs
      obtain ⟨rfl, rfl⟩ := hs
      have i1 := ((clearLoop_good hg H s.count 0 s h (by
        intro j _ hj; exact hb.slots' j (by omega))).2 t hr).1
      exact hP.clear t i1.base (clearLoop_hold hP hg hex H s.count 0 s t h hp hr)
  | notify v =>
    simp only [execStep, notifyObservers] at hs
    rw [if_neg (by omega)] at hs
    by_cases hi : s.inside = true
    · rw [if_pos hi] at hs
      simp only [Res.ok_bind, Res.pure_eq, Res.ok.injEq, Prod.mk.injEq] at hs
      obtain ⟨rfl, rfl⟩ := hs
      exact hP.ev s _ hp (by rw [regs_snoc]; rfl)
    · rw [if_neg hi] at hs
      have hi : s.inside = false := by simpa using hi
      have hd : depth s.log = 0 := by rw [h.dep, hi]; rfl
      cases hr : notifyLoop ex H v 0 s.count { s with inside := true } with
      | ub => rw [hr] at hs; cases hs
      | hang => rw [hr] at hs; cases hs
      | ok t =>
        rw [hr] at hs
        simp only [Res.ok_bind, Res.pure_eq, Res.ok.injEq, Prod.mk.injEq] at hs
        obtain ⟨rfl, rfl⟩ := hs
        refine hP.ev _ _ (hP.inside t false ?_) (by rw [regs_snoc]; rfl)
        exact notifyLoop_hold hP hg hex H v s.count 0 { s with inside := true } t
          ⟨hb.len, hb.lst, hb.cnt, hb.nodup, hb.logok⟩ rfl hd (hP.inside s true hp) hr

theorem exec_hold (hP : Prim max P) (H : Handlers V U) (n : Nat) : Hold max P (exec H n) := by
  induction n with
  | zero =>
    intro s op s' e _ _ hs
    cases hs
  | succ n ih => exact execStep_hold hP (exec_good H max n) ih H

end

/-! ### Observers that stay registered -/

/-- From `base` to `log` the list of registered observers always begins with `pre`. -/
def Stay (max : Nat) (pre : List Nat) (base log : List (Ev V)) : Prop :=
  ∀ a, base <+: a → a <+: log → pre <+: regs max a

theorem Stay.mono {max : Nat} {pre : List Nat} {base log log' : List (Ev V)}
    (h : Stay max pre base log') (hl : log <+: log') : Stay max pre base log :=
  fun a h1 h2 => h a h1 (h2.trans hl)

/-- The slots behind the front that the loop can still reach do not hold an observer of the front. -/
def Clean (pre : List Nat) (N : Nat) (s : St V U) : Prop :=
  ∀ j x, pre.length ≤ j → j < N → x ∈ pre → s.arr[j]? ≠ some (some x)

theorem regs_ne_of_front {pre l : List Nat} (hn : l.Nodup) (hp : pre <+: l) {j x : Nat}
    (hj : pre.length ≤ j) (hx : x ∈ pre) : l[j]? ≠ some x := by
  obtain ⟨rest, rfl⟩ := hp
  intro h
  rw [List.getElem?_append_right hj] at h
  have hm := List.mem_of_getElem? h
  exact (List.nodup_append.1 hn).2.2 x hx x hm rfl

theorem prim_clean (max : Nat) (pre : List Nat) (base : List (Ev V)) (N : Nat) :
    Prim max (fun s : St V U => base <+: s.log ∧ (Stay max pre base s.log → Clean pre N s)) := by
  have pfx : ∀ (l : List (Ev V)) (e : Ev V), l <+: l ++ [e] := fun l e => List.prefix_append l [e]
  refine ⟨fun s u h => h, fun s b h => h, ?_, ?_, ?_, ?_⟩
  · intro s ev h _
    exact ⟨h.1.trans (pfx _ _), fun hst => h.2 (hst.mono (pfx _ _))⟩
  · intro s o hb h hc ho
    refine ⟨h.1.trans (pfx _ _), fun hst => ?_⟩
    have hst' : Stay max pre base s.log := hst.mono (pfx _ _)
    have hcl := h.2 hst'
    have hpre := hst' s.log h.1 (List.prefix_refl _)
    intro j x hj hN hx
    simp only [St.emit]
    by_cases hjc : s.count = j
    · subst hjc
      rw [List.getElem?_set_self (by rw [hb.len]; exact hc)]
      intro he
      cases he
      exact ho (hpre.subset hx)
    · rw [List.getElem?_set_ne hjc]
      exact hcl j x hj hN hx
  · intro s o hb h ho
    refine ⟨h.1.trans (pfx _ _), fun hst => ?_⟩
    have hst' : Stay max pre base s.log := hst.mono (pfx _ _)
    have hcl := h.2 hst'
    have hpre := hst _ (h.1.trans (pfx s.log _)) (List.prefix_refl _)
    simp only [St.emit, regs_snoc, specEv, specNext] at hpre
    have hlen := filter_ne_length hb.nodup o
    rw [if_pos ho, ← hb.cnt] at hlen
    intro j x hj hN hx
    simp only [St.emit]
    by_cases hjc : j < s.count - 1
    · rw [List.getElem?_append_left (by simp only [List.length_map, hlen]; exact hjc),
        List.getElem?_map]
      have := regs_ne_of_front (hb.nodup.filter _) hpre hj hx
      intro he
      cases hq : (List.filter (fun x => x != o) (regs max s.log))[j]? with
      | none => rw [hq] at he; cases he
      | some y =>
        rw [hq] at he
        cases he
        exact this hq
    · rw [List.getElem?_append_right (by simp only [List.length_map, hlen]; omega)]
      simp only [List.length_map, hlen, List.getElem?_drop]
      have : s.count - 1 + (j - (s.count - 1)) = j := by omega
      rw [this]
      exact hcl j x hj hN hx
  · intro s _ h
    exact ⟨h.1.trans (pfx _ _), fun hst => h.2 (hst.mono (pfx _ _))⟩

/-- Every slot the loop can reach holds an observer that was registered at some time since `base`. -/
theorem prim_known (max : Nat) (base : List (Ev V)) (N : Nat) :
    Prim max (fun s : St V U => base <+: s.log ∧ ∀ j x, j < N → s.arr[j]? = some (some x) →
      ∃ a, base <+: a ∧ a <+: s.log ∧ x ∈ regs max a) := by
  have pfx : ∀ (l : List (Ev V)) (e : Ev V), l <+: l ++ [e] := fun l e => List.prefix_append l [e]
  have keep : ∀ (s : St V U) (e : Ev V), (∀ j x, j < N → s.arr[j]? = some (some x) →
      ∃ a, base <+: a ∧ a <+: s.log ∧ x ∈ regs max a) → ∀ j x, j < N → s.arr[j]? = some (some x) →
      ∃ a, base <+: a ∧ a <+: s.log ++ [e] ∧ x ∈ regs max a := by
    intro s e h j x hj hx
    obtain ⟨a, h1, h2, h3⟩ := h j x hj hx
    exact ⟨a, h1, h2.trans (pfx _ _), h3⟩
  refine ⟨fun s u h => h, fun s b h => h, ?_, ?_, ?_, ?_⟩
  · intro s ev h _
    exact ⟨h.1.trans (pfx _ _), keep s ev h.2⟩
  · intro s o hb h hc ho
    refine ⟨h.1.trans (pfx _ _), ?_⟩
    intro j x hj hx
    simp only [St.emit] at hx ⊢
    by_cases hjc : s.count = j
    · subst hjc
      rw [List.getElem?_set_self (by rw [hb.len]; exact hc)] at hx
      cases hx
      refine ⟨_, h.1.trans (pfx _ _), List.prefix_refl _, ?_⟩
      rw [regs_snoc]
      simp only [specEv, specNext]
      rw [if_pos ⟨by rw [← hb.cnt]; exact hc, ho⟩]
      simp
    · rw [List.getElem?_set_ne hjc] at hx
      exact keep s _ h.2 j x hj hx
  · intro s o hb h ho
    refine ⟨h.1.trans (pfx _ _), ?_⟩
    have hlen := filter_ne_length hb.nodup o
    rw [if_pos ho, ← hb.cnt] at hlen
    intro j x hj hx
    simp only [St.emit] at hx ⊢
    by_cases hjc : j < s.count - 1
    · rw [List.getElem?_append_left (by simp only [List.length_map, hlen]; exact hjc),
        List.getElem?_map] at hx
      cases hq : (List.filter (fun x => x != o) (regs max s.log))[j]? with
      | none => rw [hq] at hx; cases hx
      | some y =>
        rw [hq] at hx
        cases hx
        exact ⟨s.log, h.1, pfx _ _, (List.mem_filter.1 (List.mem_of_getElem? hq)).1⟩
    · rw [List.getElem?_append_right (by simp only [List.length_map, hlen]; omega)] at hx
      simp only [List.length_map, hlen, List.getElem?_drop] at hx
      have : s.count - 1 + (j - (s.count - 1)) = j := by omega
      rw [this] at hx
      exact keep s _ h.2 j x hj hx
  · intro s _ h
    exact ⟨h.1.trans (pfx _ _), keep s _ h.2⟩

theorem deref_slot {s : St V U} {i o : Nat} (h : deref s i = .ok o) : s.arr[i]? = some (some o) := by
  unfold deref at h
  cases hq : s.arr[i]? with
  | none => rw [hq] at h; cases h
  | some x =>
    cases x with
    | none => rw [hq] at h; cases h
    | some y => rw [hq] at h; cases h; rfl

/-- One delivery: exactly one notification is recorded. -/
theorem callData_entered {max : Nat} {ex : St V U → Op V → Res (St V U × Err)} (hg : Good max ex)
    (H : Handlers V U) (v : V) (o : Nat) (s s' : St V U) (hb : Base max s) (hi : s.inside = true)
    (hd : depth s.log = 0) (hs : callData ex H v o s = .ok s') :
    ∃ new, s'.log = s.log ++ new ∧ entered new = [(s.self, o, v)] := by
  have hI : Inv max (s.emit (.enter s.self o v)) := by
    refine ⟨hb.emit_enter hd _ _ _, ?_⟩
    simp [St.emit, depth_snoc, depthEv, hd, hi]
  simp only [callData] at hs
  cases hr : runProg ex (H.data (s.emit (.enter s.self o v)).user o v)
      (s.emit (.enter s.self o v)) with
  | ub => rw [hr] at hs; cases hs
  | hang => rw [hr] at hs; cases hs
  | ok t =>
    rw [hr] at hs
    simp only [Res.ok_bind, Res.pure_eq, Res.ok.injEq] at hs
    subst hs
    obtain ⟨_, _, q1⟩ := (runProg_good hg _ _ hI).2 t hr
    obtain ⟨new, hl, he⟩ := q1 hi
    refine ⟨.enter s.self o v :: new ++ [.leave o], ?_, ?_⟩
    · simp only [St.emit] at hl ⊢
      rw [hl]; simp
    · rw [entered_append]
      simp [entered, he]

/-- The loop of a notification, whatever the callbacks do: one call for each of the elements; if the
observers of the front stay registered, their calls come first and nobody of them is called again. -/
theorem notifyLoop_front {H : Handlers V U} {max : Nat} (n : Nat) (v : V) (pre : List Nat)
    (base : List (Ev V)) (left i : Nat) (s s' : St V U) (hb : Base max s) (hi : s.inside = true)
    (hd : depth s.log = 0) (hbase : base <+: s.log) 
    (hcl : Stay max pre base s.log → Clean pre (i + left) s)
    (hkn : ∀ j x, j < i + left → s.arr[j]? = some (some x) →
      ∃ a, base <+: a ∧ a <+: s.log ∧ x ∈ regs max a)
    (hs : notifyLoop (exec H n) H v i left s = .ok s') :
    ∃ calls : List Nat, calls.length = left ∧
      (∃ new, s'.log = s.log ++ new ∧ entered new = calls.map (fun o => (s.self, o, v))) ∧
      (∀ x ∈ calls, ∃ a, base <+: a ∧ a <+: s'.log ∧ x ∈ regs max a) ∧
      (Stay max pre base s'.log → ∀ k x, calls[k]? = some x →
        (i + k < pre.length → pre[i + k]? = some x) ∧ (pre.length ≤ i + k → x ∉ pre)) := by
  induction left generalizing i s with
  | zero =>
    simp only [notifyLoop, Res.ok.injEq] at hs
    subst hs
    exact ⟨[], rfl, ⟨[], by simp, rfl⟩, by simp, by intro _ k x h; simp at h⟩
  | succ left ih =>
    simp only [notifyLoop] at hs
    cases hde : deref s i with
    | ub => rw [hde] at hs; cases hs
    | hang => rw [hde] at hs; cases hs
    | ok o =>
      rw [hde] at hs
      have hsl := deref_slot hde
      simp only [Res.ok_bind] at hs
      cases hr : callData (exec H n) H v o s with
      | ub => rw [hr] at hs; cases hs
      | hang => rw [hr] at hs; cases hs
      | ok t =>
        rw [hr] at hs
        have hg := exec_good H max n
        obtain ⟨b1, d1, k1⟩ := (callData_good hg H v o s hb hi hd).2 t hr
        obtain ⟨c, hcl1, hce⟩ := callData_entered hg H v o s t hb hi hd hr
        have hct := callData_hold (prim_clean max pre base (i + (left + 1))) hg
          (exec_hold (prim_clean max pre base (i + (left + 1))) H n) H v o s t hb hi hd
          ⟨hbase, hcl⟩ hr
        have hkt := callData_hold (prim_known max base (i + (left + 1))) hg
          (exec_hold (prim_known max base (i + (left + 1))) H n) H v o s t hb hi hd
          ⟨hbase, hkn⟩ hr
        have hi' : t.inside = true := by rw [k1.inside, hi]
        have e1 : i + (left + 1) = i + 1 + left := by omega
        obtain ⟨calls, hlen, ⟨new, hnl, hne⟩, hkc, hfr⟩ := ih (i + 1) t b1 hi' d1 hct.1
          (by rw [← e1]; exact hct.2) (by rw [← e1]; exact hkt.2) hs
        refine ⟨o :: calls, by simp [hlen], ⟨c ++ new, ?_, ?_⟩, ?_, ?_⟩
        · rw [hnl, hcl1, List.append_assoc]
        · rw [entered_append, hce, hne, k1.self]; rfl
        · intro x hx
          rcases List.mem_cons.1 hx with rfl | hx
          · obtain ⟨a, h1, h2, h3⟩ := hkn i x (by omega) hsl
            refine ⟨a, h1, ?_, h3⟩
            rw [hnl, hcl1, List.append_assoc]
            exact h2.trans (List.prefix_append _ _)
          · exact hkc x hx
        · intro hst' k x hx
          cases k with
          | succ k =>
            have := hfr hst' k x (by simpa using hx)
            rw [show i + (k + 1) = i + 1 + k by omega]
            exact this
          | zero =>
            simp only [List.getElem?_cons_zero, Option.some.injEq] at hx
            subst hx
            have hst : Stay max pre base s.log := hst'.mono (by
              rw [hnl, hcl1, List.append_assoc]; exact List.prefix_append _ _)
            have hpre : pre <+: regs max s.log := hst s.log hbase (List.prefix_refl _)
            simp only [Nat.add_zero]
            refine ⟨?_, ?_⟩
            · intro hlt
              have hcnt : i < s.count := by
                rw [hb.cnt]
                exact Nat.lt_of_lt_of_le hlt hpre.length_le
              have h1 := hb.slots i hcnt
              rw [hsl] at h1
              have h2 : (regs max s.log)[i]? = some o := (Option.some.inj h1).symm
              obtain ⟨rest, hrest⟩ := hpre
              rw [← hrest, List.getElem?_append_left hlt] at h2
              exact h2
            · intro hle hx
              exact hcl hst i o hle (by omega) hx hsl

/-! ### No nested `clear` while someone stays registered -/

/-- Nested calls during which the front stays registered disconnect nobody. -/
def NoDisc (max : Nat) (pre : List Nat) (base : List (Ev V))
    (ex : St V U → Op V → Res (St V U × Err)) : Prop :=
  ∀ s op s' e, Inv max s → base <+: s.log → ex s op = .ok (s', e) → Stay max pre base s'.log →
    disconnected s'.log = disconnected s.log

section
variable {max : Nat} {pre : List Nat} {base : List (Ev V)}
  {ex : St V U → Op V → Res (St V U × Err)}

theorem runProg_noDisc (hg : Good max ex) (hex : NoDisc max pre base ex) (p : Prog V U)
    (s s' : St V U) (h : Inv max s) (hbase : base <+: s.log) (hs : runProg ex p s = .ok s')
    (hst : Stay max pre base s'.log) : disconnected s'.log = disconnected s.log := by
  induction p generalizing s with
  | ret u =>
    simp only [runProg, Res.ok.injEq] at hs
    subst hs
    rfl
  | set u k ih =>
    exact ih { s with user := u } ⟨⟨h.base.len, h.base.lst, h.base.cnt, h.base.nodup, h.base.logok⟩, h.dep⟩ hbase hs
  | call op k ih =>
    simp only [runProg] at hs
    cases hr : ex s op with
    | ub => rw [hr] at hs; cases hs
    | hang => rw [hr] at hs; cases hs
    | ok r =>
      obtain ⟨t, e⟩ := r
      rw [hr] at hs
      obtain ⟨i1, k1, _⟩ := (hg s op h).2 t e hr
      obtain ⟨a, ha⟩ := k1.log
      simp only [Res.ok_bind] at hs
      obtain ⟨b, hb⟩ := ((runProg_good hg _ t i1).2 s' hs).2.1.log
      rw [ih e t.user t i1 (by rw [ha]; exact hbase.trans (List.prefix_append _ _)) hs]
      exact hex s op t e h hbase hr (hst.mono (by rw [hb]; exact List.prefix_append _ _))

theorem notifyLoop_noDisc (hg : Good max ex) (hex : NoDisc max pre base ex) (H : Handlers V U)
    (v : V) (left i : Nat) (s s' : St V U) (hb : Base max s) (hi : s.inside = true)
    (hd : depth s.log = 0) (hsl : ∀ j, i ≤ j → j < i + left → ∃ o, s.arr[j]? = some (some o))
    (hbase : base <+: s.log) (hs : notifyLoop ex H v i left s = .ok s')
    (hst : Stay max pre base s'.log) : disconnected s'.log = disconnected s.log := by
  induction left generalizing i s with
  | zero =>
    simp only [notifyLoop, Res.ok.injEq] at hs
    subst hs
    rfl
  | succ left ih =>
    obtain ⟨o, ho⟩ := hsl i (Nat.le_refl _) (by omega)
    simp only [notifyLoop, deref_some ho, Res.ok_bind] at hs
    cases hr : callData ex H v o s with
    | ub => rw [hr] at hs; cases hs
    | hang => rw [hr] at hs; cases hs
    | ok t =>
      rw [hr] at hs
      obtain ⟨b1, d1, k1⟩ := (callData_good hg H v o s hb hi hd).2 t hr
      have hi' : t.inside = true := by rw [k1.inside, hi]
      have hsl' : ∀ j, i + 1 ≤ j → j < i + 1 + left → ∃ o, t.arr[j]? = some (some o) := by
        intro j hj1 hj2
        obtain ⟨o', ho'⟩ := hsl j (by omega) (by omega)
        exact k1.slots j o' ho'
      obtain ⟨a, ha⟩ := k1.log
      simp only [Res.ok_bind] at hs
      obtain ⟨_, _, k2⟩ := (notifyLoop_good hg H v left (i + 1) t b1 hi' d1 hsl').2 s' hs
      obtain ⟨c, hc⟩ := k2.log
      rw [ih (i + 1) t b1 hi' d1 hsl' (by rw [ha]; exact hbase.trans (List.prefix_append _ _)) hs]
      -- the callback itself
      have hst' : Stay max pre base t.log := hst.mono (by rw [hc]; exact List.prefix_append _ _)
      have hI : Inv max (s.emit (.enter s.self o v)) := by
        refine ⟨hb.emit_enter hd _ _ _, ?_⟩
        simp [St.emit, depth_snoc, depthEv, hd, hi]
      simp only [callData] at hr
      cases hr' : runProg ex (H.data (s.emit (.enter s.self o v)).user o v)
          (s.emit (.enter s.self o v)) with
      | ub => rw [hr'] at hr; cases hr
      | hang => rw [hr'] at hr; cases hr
      | ok w =>
        rw [hr'] at hr
        simp only [Res.ok_bind, Res.pure_eq, Res.ok.injEq] at hr
        subst hr
        have := runProg_noDisc hg hex _ _ w hI
          (hbase.trans (List.prefix_append _ _)) hr' (hst'.mono (List.prefix_append _ _))
        simp only [St.emit, disconnected_append] at this ⊢
        rw [this]
        simp [disconnected]

theorem execStep_noDisc (hne : pre ≠ []) (hg : Good max ex) (hex : NoDisc max pre base ex)
    (H : Handlers V U) : NoDisc max pre base (execStep ex H) := by
  intro s op s' e h hbase hs hst
  have hb := h.base
  have hl := hb.len
  have hc := hb.count_le
  cases op with
  | add o =>
    simp only [execStep, add_spec hb o, Res.ok_bind, Res.pure_eq, Res.ok.injEq, Prod.mk.injEq] at hs
    obtain ⟨rfl, rfl⟩ := hs
    split <;> simp [St.emit, disconnected_append, disconnected]
  | remove o =>
    simp only [execStep, remove_spec hb o, Res.ok_bind, Res.pure_eq, Res.ok.injEq,
      Prod.mk.injEq] at hs
    obtain ⟨rfl, rfl⟩ := hs
    split <;> simp [St.emit, disconnected_append, disconnected]
  | clear =>
    have hk := (execStep_good hg H s .clear h).2 s' e hs
    obtain ⟨new, hnew⟩ := hk.2.1.log
    have hpre := hst s'.log (by rw [hnew]; exact hbase.trans (List.prefix_append _ _))
      (List.prefix_refl _)
    simp only [execStep, clearObservers] at hs
    cases hr : clearLoop ex H 0 s.count s with
    | ub => rw [hr] at hs; cases hs
    | hang => rw [hr] at hs; cases hs
    | ok t =>
      rw [hr] at hs
      simp only [Res.ok_bind, Res.pure_eq, Res.ok.injEq, Prod.mk.injEq] at hs
      obtain ⟨rfl, rfl⟩ := hs
      simp only [St.emit, regs_snoc, specEv, specNext] at hpre
      exact absurd (List.prefix_nil.1 hpre) hne
  | notify v =>
    simp only [execStep, notifyObservers] at hs
    rw [if_neg (by omega)] at hs
    by_cases hi : s.inside = true
    · rw [if_pos hi] at hs
      simp only [Res.ok_bind, Res.pure_eq, Res.ok.injEq, Prod.mk.injEq] at hs
      obtain ⟨rfl, rfl⟩ := hs
      simp [St.emit, disconnected_append, disconnected]
    · rw [if_neg hi] at hs
      have hi : s.inside = false := by simpa using hi
      have hd : depth s.log = 0 := by rw [h.dep, hi]; rfl
      cases hr : notifyLoop ex H v 0 s.count { s with inside := true } with
      | ub => rw [hr] at hs; cases hs
      | hang => rw [hr] at hs; cases hs
      | ok t =>
        rw [hr] at hs
        simp only [Res.ok_bind, Res.pure_eq, Res.ok.injEq, Prod.mk.injEq] at hs
        obtain ⟨rfl, rfl⟩ := hs
        have := notifyLoop_noDisc hg hex H v s.count 0 { s with inside := true } t
          ⟨hb.len, hb.lst, hb.cnt, hb.nodup, hb.logok⟩ rfl hd
          (by intro j _ hj; exact hb.slots' j (by omega)) hbase hr
          (hst.mono (List.prefix_append _ _))
        simp only [St.emit, disconnected_append, this]
        simp [disconnected]

theorem exec_noDisc (hne : pre ≠ []) (H : Handlers V U) (n : Nat) :
    NoDisc max pre base (exec H n) := by
  induction n with
  | zero =>
    intro s op s' e _ _ hs
    cases hs
  | succ n ih => exact execStep_noDisc hne (exec_good H max n) ih H

end

/-- The loop of `clear_observers`, whatever the callbacks do: if the observers of the front stay
registered until it ends, they are disconnected first, in order, and nobody of them again. -/
theorem clearLoop_front {H : Handlers V U} {max : Nat} (n : Nat) (pre : List Nat) (hne : pre ≠ [])
    (base : List (Ev V)) (left i : Nat) (s s' : St V U) (h : Inv max s)
    (hsl : ∀ j, i ≤ j → j < i + left → ∃ o, s.arr[j]? = some (some o)) (hbase : base <+: s.log)
    (hcl : Stay max pre base s.log → Clean pre (i + left) s)
    (hs : clearLoop (exec H n) H i left s = .ok s') (hst : Stay max pre base s'.log) :
    ∃ calls : List Nat, calls.length = left ∧
      disconnected s'.log = disconnected s.log ++ calls.map (fun o => (s.self, o)) ∧
      ∀ k x, calls[k]? = some x →
        (i + k < pre.length → pre[i + k]? = some x) ∧ (pre.length ≤ i + k → x ∉ pre) := by
  induction left generalizing i s with
  | zero =>
    simp only [clearLoop, Res.ok.injEq] at hs
    subst hs
    exact ⟨[], rfl, by simp, by intro k x h; simp at h⟩
  | succ left ih =>
    have hg := exec_good H max n
    have hP := prim_clean (U := U) max pre base (i + (left + 1))
    obtain ⟨o, ho⟩ := hsl i (Nat.le_refl _) (by omega)
    simp only [clearLoop, deref_some ho, Res.ok_bind] at hs
    cases hr : runProg (exec H n) (H.disconnect (s.emit (.disc s.self o)).user o)
        (s.emit (.disc s.self o)) with
    | ub => rw [hr] at hs; cases hs
    | hang => rw [hr] at hs; cases hs
    | ok t =>
      rw [hr] at hs
      simp only [Res.ok_bind] at hs
      obtain ⟨hI, i1, k1⟩ := disc_step hg H o s t h hr
      obtain ⟨a, ha⟩ := k1.log
      have hct := runProg_hold hP hg (exec_hold hP H n) _ _ t hI
        (hP.ev s _ ⟨hbase, hcl⟩ (by rw [regs_snoc]; rfl)) hr
      have hsl' : ∀ j, i + 1 ≤ j → j < i + 1 + left → ∃ o, t.arr[j]? = some (some o) := by
        intro j hj1 hj2
        obtain ⟨o', ho'⟩ := hsl j (by omega) (by omega)
        exact k1.slots j o' ho'
      obtain ⟨c, hc⟩ := ((clearLoop_good hg H left (i + 1) t i1 hsl').2 s' hs).2.1.log
      have hst1 : Stay max pre base t.log := hst.mono (by rw [hc]; exact List.prefix_append _ _)
      have hst0 : Stay max pre base s.log := hst1.mono (by rw [ha]; exact List.prefix_append _ _)
      have e1 : i + (left + 1) = i + 1 + left := by omega
      obtain ⟨calls, hlen, hdis, hfr⟩ := ih (i + 1) t i1 hsl' hct.1 (by rw [← e1]; exact hct.2) hs
      have hnd := runProg_noDisc hg (exec_noDisc hne H n) _ _ t hI
        (hbase.trans (List.prefix_append _ _)) hr hst1
      refine ⟨o :: calls, by simp [hlen], ?_, ?_⟩
      · rw [hdis, hnd, k1.self]
        simp [St.emit, disconnected_append, disconnected]
      · intro k x hx
        cases k with
        | succ k =>
          have := hfr k x (by simpa using hx)
          rw [show i + (k + 1) = i + 1 + k by omega]
          exact this
        | zero =>
          simp only [List.getElem?_cons_zero, Option.some.injEq] at hx
          subst hx
          have hb := h.base
          have hpre : pre <+: regs max s.log := hst0 s.log hbase (List.prefix_refl _)
          simp only [Nat.add_zero]
          refine ⟨?_, ?_⟩
          · intro hlt
            have hcnt : i < s.count := by
              rw [hb.cnt]
              exact Nat.lt_of_lt_of_le hlt hpre.length_le
            have h1 := hb.slots i hcnt
            rw [ho] at h1
            have h2 : (regs max s.log)[i]? = some o := (Option.some.inj h1).symm
            obtain ⟨rest, hrest⟩ := hpre
            rw [← hrest, List.getElem?_append_left hlt] at h2
            exact h2
          · intro hle hx
            exact hcl hst0 i o hle (by omega) hx ho

/-- A list whose first elements are those of `pre` and whose other elements are not in `pre`. -/
theorem front_split {pre calls : List Nat} (hle : pre.length ≤ calls.length)
    (h : ∀ k x, calls[k]? = some x →
      (0 + k < pre.length → pre[0 + k]? = some x) ∧ (pre.length ≤ 0 + k → x ∉ pre)) :
    ∃ rest, calls = pre ++ rest ∧ ∀ x ∈ pre, x ∉ rest := by
  simp only [Nat.zero_add] at h
  refine ⟨calls.drop pre.length, ?_, ?_⟩
  · have : calls.take pre.length = pre := by
      apply List.ext_getElem?
      intro k
      by_cases hk : k < pre.length
      · rw [List.getElem?_take_of_lt hk]
        have hk' : k < calls.length := by omega
        have h1 := (h k _ (List.getElem?_eq_getElem hk')).1 hk
        rw [h1, List.getElem?_eq_getElem hk']
      · rw [List.getElem?_eq_none (by simp only [List.length_take]; omega),
          List.getElem?_eq_none (by omega)]
    conv => lhs; rw [← List.take_append_drop pre.length calls, this]
  · intro x hx hr
    obtain ⟨k, hk⟩ := List.getElem?_of_mem hr
    rw [List.getElem?_drop] at hk
    exact (h (pre.length + k) x hk).2 (by omega) hx

theorem clean_start {max : Nat} {s : St V U} (hb : Base max s) {pre : List Nat}
    (hpre : pre <+: regs max s.log) : Clean pre s.count s := by
  intro j x hj hN hx he
  rw [hb.slots j hN] at he
  exact regs_ne_of_front hb.nodup hpre hj hx (Option.some.inj he)

theorem exec_notify_front {H : Handlers V U} {max : Nat} {s : St V U} (h : Reach H max s) (v : V)
    (pre : List Nat) (n : Nat) (s' : St V U) (e : Err)
    (hs : exec H n s (.notify v) = .ok (s', e)) :
    e = .ok ∧ ∃ calls new, s'.log = s.log ++ new ∧
      entered new = calls.map (fun o => (s.self, o, v)) ∧
      calls.length = (regs max s.log).length ∧
      (∀ x ∈ calls, ∃ a b, new = a ++ b ∧ x ∈ regs max (s.log ++ a)) ∧
      ((∀ a b, new = a ++ b → pre <+: regs max (s.log ++ a)) →
        ∃ rest, calls = pre ++ rest ∧ ∀ x ∈ pre, x ∉ rest) := by
  obtain ⟨hI, hin⟩ := reach_inv h
  have hb := hI.base
  cases n with
  | zero => cases hs
  | succ n =>
    rw [exec_notify_outside n hI hin, ← hb.cnt] at hs
    cases hr : notifyLoop (exec H n) H v 0 s.count { s with inside := true } with
    | ub => rw [hr] at hs; cases hs
    | hang => rw [hr] at hs; cases hs
    | ok t =>
      rw [hr] at hs
      simp only [Res.ok_bind, Res.ok.injEq, Prod.mk.injEq] at hs
      obtain ⟨rfl, rfl⟩ := hs
      have hd : depth s.log = 0 := by rw [hI.dep, hin]; rfl
      obtain ⟨calls, hlen, ⟨new, hnl, hne⟩, hkc, hfr⟩ := notifyLoop_front n v pre s.log s.count 0
        { s with inside := true } t ⟨hb.len, hb.lst, hb.cnt, hb.nodup, hb.logok⟩ rfl hd
        (List.prefix_refl _)
        (by
          intro hst
          rw [Nat.zero_add]
          exact clean_start hb (hst s.log (List.prefix_refl _) (List.prefix_refl _)))
        (by
          intro j x hj hx
          rw [Nat.zero_add] at hj
          refine ⟨s.log, List.prefix_refl _, List.prefix_refl _, ?_⟩
          have h1 := hb.slots j hj
          simp only at hx
          rw [hx] at h1
          exact List.mem_of_getElem? (Option.some.inj h1).symm) hr
      simp only at hnl hne
      refine ⟨rfl, calls, new ++ [.ret (.notify v) .ok], ?_, ?_, ?_, ?_, ?_⟩
      · simp only [St.emit, hnl, List.append_assoc]
      · rw [entered_append, hne]; simp [entered]
      · rw [hlen, hb.cnt]
      · intro x hx
        obtain ⟨a, ⟨a', ha'⟩, ⟨b, hb'⟩, h3⟩ := hkc x hx
        refine ⟨a', b ++ [.ret (.notify v) .ok], ?_, by rw [ha']; exact h3⟩
        rw [hnl, ← ha', List.append_assoc] at hb'
        rw [← List.append_assoc, List.append_cancel_left hb']
      · intro hst
        refine front_split ?_ (hfr ?_)
        · have := hst [] _ rfl
          rw [List.append_nil] at this
          rw [hlen, hb.cnt]
          exact this.length_le
        · intro a ⟨a', ha'⟩ ⟨b, hb'⟩
          rw [← ha']
          refine hst a' (b ++ [.ret (.notify v) .ok]) ?_
          rw [hnl, ← ha', List.append_assoc] at hb'
          rw [← List.append_assoc, List.append_cancel_left hb']

end Verif.Observer
