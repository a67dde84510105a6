import Verif.Observer.Spec
/-! Invariant of the fixed-capacity observable under arbitrary re-entrant callbacks. -/
namespace Verif.Observer
open Verif

variable {V U : Type}

/-- What has to hold of an event given the log before it. -/
def EvOK (max : Nat) (pre : List (Ev V)) : Ev V → Prop
  | .ret op e => e = specErr max (regs max pre) (depth pre) op
  | .enter _ _ _ => depth pre = 0
  | .leave _ => depth pre = 1
  | .disc _ _ => True

/-- Every event is as it has to be. -/
def LogOK (max : Nat) (log : List (Ev V)) : Prop :=
  ∀ pre ev post, log = pre ++ ev :: post → EvOK max pre ev

theorem LogOK.nil (max : Nat) : LogOK max ([] : List (Ev V)) := by
  intro pre ev post h
  simp at h

theorem LogOK.snoc {max : Nat} {log : List (Ev V)} {ev : Ev V} (h : LogOK max log)
    (he : EvOK max log ev) : LogOK max (log ++ [ev]) := by
  intro pre e post heq
  rcases List.eq_nil_or_concat post with hp | ⟨post', x, hp⟩
  · subst hp
    have := List.append_inj' heq rfl
    obtain ⟨h1, h2⟩ := this
    cases h2
    rw [← h1]
    exact he
  · rw [hp] at heq
    simp only [List.concat_eq_append] at heq
    have h' : pre ++ e :: (post' ++ [x]) = (pre ++ e :: post') ++ [x] := by simp
    rw [h'] at heq
    exact h pre e post' (List.append_inj' heq rfl).1

theorem regs_snoc (max : Nat) (log : List (Ev V)) (e : Ev V) :
    regs max (log ++ [e]) = specEv max (regs max log) e := by
  simp [regs]

theorem depth_snoc (log : List (Ev V)) (e : Ev V) : depth (log ++ [e]) = depthEv (depth log) e := by
  simp [depth]

/-- The invariant except for the `inside` flag. -/
structure Base (max : Nat) (s : St V U) : Prop where
  len : s.arr.length = max
  lst : s.arr.take s.count = (regs max s.log).map some
  cnt : s.count = (regs max s.log).length
  nodup : (regs max s.log).Nodup
  logok : LogOK max s.log

theorem Base.count_le {max : Nat} {s : St V U} (h : Base max s) : s.count ≤ max := by
  have h1 := congrArg List.length h.lst
  rw [List.length_take, List.length_map, ← h.cnt, h.len] at h1
  omega

/-- The invariant. -/
structure Inv (max : Nat) (s : St V U) : Prop where
  base : Base max s
  dep : depth s.log = if s.inside then 1 else 0

/-- What no call ever changes, and that slots of the array never become null again. -/
structure Keeps (s s' : St V U) : Prop where
  self : s'.self = s.self
  inside : s'.inside = s.inside
  slots : ∀ i o : Nat, s.arr[i]? = some (some o) → ∃ o', s'.arr[i]? = some (some o')
  log : ∃ new, s'.log = s.log ++ new

theorem Keeps.refl (s : St V U) : Keeps s s := ⟨rfl, rfl, fun _ o h => ⟨o, h⟩, [], by simp⟩

theorem Keeps.trans {s t u : St V U} (h1 : Keeps s t) (h2 : Keeps t u) : Keeps s u := by
  refine ⟨h2.self.trans h1.self, h2.inside.trans h1.inside, ?_, ?_⟩
  · intro i o h
    obtain ⟨o', h'⟩ := h1.slots i o h
    exact h2.slots i o' h'
  · obtain ⟨a, ha⟩ := h1.log
    obtain ⟨b, hb⟩ := h2.log
    exact ⟨a ++ b, by rw [hb, ha, List.append_assoc]⟩

theorem Keeps.emit (s : St V U) (e : Ev V) : Keeps s (s.emit e) :=
  ⟨rfl, rfl, fun _ o h => ⟨o, h⟩, [e], rfl⟩

theorem entered_append (a b : List (Ev V)) : entered (a ++ b) = entered a ++ entered b := by
  induction a with
  | nil => rfl
  | cons e a ih => cases e <;> simp [entered, ih]

theorem disconnected_append (a b : List (Ev V)) :
    disconnected (a ++ b) = disconnected a ++ disconnected b := by
  induction a with
  | nil => rfl
  | cons e a ih => cases e <;> simp [disconnected, ih]

/-- While a notification is in progress no other one delivers anything. -/
def Quiet (s s' : St V U) : Prop :=
  s.inside = true → ∃ new, s'.log = s.log ++ new ∧ entered new = []

theorem Quiet.refl (s : St V U) : Quiet s s := fun _ => ⟨[], by simp, rfl⟩

theorem Quiet.trans {s t u : St V U} (k : Keeps s t) (h1 : Quiet s t) (h2 : Quiet t u) :
    Quiet s u := by
  intro hi
  obtain ⟨a, ha, ha'⟩ := h1 hi
  obtain ⟨b, hb, hb'⟩ := h2 (by rw [k.inside]; exact hi)
  exact ⟨a ++ b, by rw [hb, ha, List.append_assoc], by rw [entered_append, ha', hb']; rfl⟩

/-- A way of running nested calls that respects the invariant. -/
def Good (max : Nat) (ex : St V U → Op V → Res (St V U × Err)) : Prop :=
  ∀ s op, Inv max s → ex s op ≠ .ub ∧ ∀ s' e, ex s op = .ok (s', e) →
    Inv max s' ∧ Keeps s s' ∧ Quiet s s'

theorem runProg_good {max : Nat} {ex : St V U → Op V → Res (St V U × Err)} (hex : Good max ex)
    (p : Prog V U) (s : St V U) (h : Inv max s) :
    runProg ex p s ≠ .ub ∧ ∀ s', runProg ex p s = .ok s' → Inv max s' ∧ Keeps s s' ∧ Quiet s s' := by
  induction p generalizing s with
  | ret u =>
    refine ⟨by simp [runProg], ?_⟩
    intro s' hs
    simp only [runProg, Res.ok.injEq] at hs
    subst hs
    exact ⟨⟨⟨h.base.len, h.base.lst, h.base.cnt, h.base.nodup, h.base.logok⟩, h.dep⟩,
      ⟨rfl, rfl, fun _ o h => ⟨o, h⟩, [], by simp⟩, fun _ => ⟨[], by simp, rfl⟩⟩
  | set u k ih =>
    obtain ⟨h3, h4⟩ := ih { s with user := u } ⟨⟨h.base.len, h.base.lst, h.base.cnt, h.base.nodup, h.base.logok⟩, h.dep⟩
    have k1 : Keeps s { s with user := u } := ⟨rfl, rfl, fun _ o h => ⟨o, h⟩, [], by simp⟩
    have q1 : Quiet s { s with user := u } := fun _ => ⟨[], by simp, rfl⟩
    exact ⟨h3, fun s' hs => ⟨(h4 s' hs).1, k1.trans (h4 s' hs).2.1, q1.trans k1 (h4 s' hs).2.2⟩⟩
  | call op k ih =>
    obtain ⟨h1, h2⟩ := hex s op h
    simp only [runProg]
    cases hr : ex s op with
    | ub => exact absurd hr h1
    | hang => exact ⟨by simp, by simp⟩
    | ok r =>
      obtain ⟨t, e⟩ := r
      obtain ⟨i1, k1, q1⟩ := h2 t e hr
      simp only [Res.ok_bind]
      obtain ⟨h3, h4⟩ := ih e t.user t i1
      exact ⟨h3, fun s' hs => ⟨(h4 s' hs).1, k1.trans (h4 s' hs).2.1, q1.trans k1 (h4 s' hs).2.2⟩⟩

theorem Base.emit_enter {max : Nat} {s : St V U} (h : Base max s) (hd : depth s.log = 0)
    (src o : Nat) (v : V) : Base max (s.emit (.enter src o v)) := by
  refine ⟨h.len, ?_, ?_, ?_, h.logok.snoc hd⟩ <;>
    simp only [St.emit, regs_snoc, specEv]
  · exact h.lst
  · exact h.cnt
  · exact h.nodup

theorem Base.emit_leave {max : Nat} {s : St V U} (h : Base max s) (hd : depth s.log = 1)
    (o : Nat) : Base max (s.emit (.leave o)) := by
  refine ⟨h.len, ?_, ?_, ?_, h.logok.snoc hd⟩ <;>
    simp only [St.emit, regs_snoc, specEv]
  · exact h.lst
  · exact h.cnt
  · exact h.nodup

theorem Base.emit_disc {max : Nat} {s : St V U} (h : Base max s)
    (src o : Nat) : Base max (s.emit (.disc src o)) := by
  refine ⟨h.len, ?_, ?_, ?_, h.logok.snoc trivial⟩ <;>
    simp only [St.emit, regs_snoc, specEv]
  · exact h.lst
  · exact h.cnt
  · exact h.nodup

theorem callData_good {max : Nat} {ex : St V U → Op V → Res (St V U × Err)} (hex : Good max ex)
    (H : Handlers V U) (v : V) (o : Nat) (s : St V U) (hb : Base max s) (hi : s.inside = true)
    (hd : depth s.log = 0) :
    callData ex H v o s ≠ .ub ∧ ∀ s', callData ex H v o s = .ok s' →
      Base max s' ∧ depth s'.log = 0 ∧ Keeps s s' := by
  have hI : Inv max (s.emit (.enter s.self o v)) := by
    refine ⟨hb.emit_enter hd _ _ _, ?_⟩
    simp [St.emit, depth_snoc, depthEv, hd, hi]
  obtain ⟨h1, h2⟩ := runProg_good hex
    (H.data (s.emit (.enter s.self o v)).user o v) _ hI
  simp only [callData]
  cases hr : runProg ex (H.data (s.emit (.enter s.self o v)).user o v) (s.emit (.enter s.self o v)) with
  | ub => exact absurd hr h1
  | hang => exact ⟨by simp, by simp⟩
  | ok t =>
    obtain ⟨i1, k1, _⟩ := h2 t hr
    have hdt : depth t.log = 1 := by
      rw [i1.dep, k1.inside]
      simp [St.emit, hi]
    refine ⟨by simp, ?_⟩
    intro s' hs
    simp only [Res.ok_bind, Res.pure_eq, Res.ok.injEq] at hs
    subst hs
    refine ⟨i1.base.emit_leave hdt o, ?_, (Keeps.emit s _).trans (k1.trans (Keeps.emit t _))⟩
    simp [St.emit, depth_snoc, depthEv, hdt]

theorem deref_some {s : St V U} {i o : Nat} (h : s.arr[i]? = some (some o)) : deref s i = .ok o := by
  simp [deref, h]

theorem notifyLoop_good {max : Nat} {ex : St V U → Op V → Res (St V U × Err)} (hex : Good max ex)
    (H : Handlers V U) (v : V) (left i : Nat) (s : St V U) (hb : Base max s) (hi : s.inside = true)
    (hd : depth s.log = 0)
    (hsl : ∀ j, i ≤ j → j < i + left → ∃ o, s.arr[j]? = some (some o)) :
    notifyLoop ex H v i left s ≠ .ub ∧ ∀ s', notifyLoop ex H v i left s = .ok s' →
      Base max s' ∧ depth s'.log = 0 ∧ Keeps s s' := by
  induction left generalizing i s with
  | zero =>
    refine ⟨by simp [notifyLoop], ?_⟩
    intro s' hs
    simp only [notifyLoop, Res.ok.injEq] at hs
    subst hs
    exact ⟨hb, hd, Keeps.refl s⟩
  | succ left ih =>
    obtain ⟨o, ho⟩ := hsl i (Nat.le_refl _) (by omega)
    obtain ⟨h1, h2⟩ := callData_good hex H v o s hb hi hd
    simp only [notifyLoop, deref_some ho, Res.ok_bind]
    cases hr : callData ex H v o s with
    | ub => exact absurd hr h1
    | hang => exact ⟨by simp, by simp⟩
    | ok t =>
      obtain ⟨b1, d1, k1⟩ := h2 t hr
      simp only [Res.ok_bind]
      obtain ⟨h3, h4⟩ := ih (i + 1) t b1 (by rw [k1.inside, hi]) d1 (by
        intro j hj1 hj2
        obtain ⟨o', ho'⟩ := hsl j (by omega) (by omega)
        exact k1.slots j o' ho')
      exact ⟨h3, fun s' hs => ⟨(h4 s' hs).1, (h4 s' hs).2.1, k1.trans (h4 s' hs).2.2⟩⟩

theorem clearLoop_good {max : Nat} {ex : St V U → Op V → Res (St V U × Err)} (hex : Good max ex)
    (H : Handlers V U) (left i : Nat) (s : St V U) (h : Inv max s)
    (hsl : ∀ j, i ≤ j → j < i + left → ∃ o, s.arr[j]? = some (some o)) :
    clearLoop ex H i left s ≠ .ub ∧ ∀ s', clearLoop ex H i left s = .ok s' →
      Inv max s' ∧ Keeps s s' ∧ Quiet s s' := by
  induction left generalizing i s with
  | zero =>
    refine ⟨by simp [clearLoop], ?_⟩
    intro s' hs
    simp only [clearLoop, Res.ok.injEq] at hs
    subst hs
    exact ⟨h, Keeps.refl s, Quiet.refl s⟩
  | succ left ih =>
    obtain ⟨o, ho⟩ := hsl i (Nat.le_refl _) (by omega)
    have hI : Inv max (s.emit (.disc s.self o)) := by
      refine ⟨h.base.emit_disc _ _, ?_⟩
      simp only [St.emit, depth_snoc, depthEv]; exact h.dep
    obtain ⟨h1, h2⟩ := runProg_good hex
      (H.disconnect (s.emit (.disc s.self o)).user o) _ hI
    simp only [clearLoop, deref_some ho, Res.ok_bind]
    cases hr : runProg ex (H.disconnect (s.emit (.disc s.self o)).user o) (s.emit (.disc s.self o)) with
    | ub => exact absurd hr h1
    | hang => exact ⟨by simp, by simp⟩
    | ok t =>
      obtain ⟨i1, k1, q1⟩ := h2 t hr
      have q1 : Quiet s t := Quiet.trans (Keeps.emit s (.disc s.self o)) (fun _ => ⟨[_], rfl, rfl⟩) q1
      have k1 := (Keeps.emit s (.disc s.self o)).trans k1
      simp only [Res.ok_bind]
      obtain ⟨h3, h4⟩ := ih (i + 1) t i1 (by
        intro j hj1 hj2
        obtain ⟨o', ho'⟩ := hsl j (by omega) (by omega)
        exact k1.slots j o' ho')
      exact ⟨h3, fun s' hs => ⟨(h4 s' hs).1, k1.trans (h4 s' hs).2.1, q1.trans k1 (h4 s' hs).2.2⟩⟩

theorem Base.slots {max : Nat} {s : St V U} (h : Base max s) (j : Nat) (hj : j < s.count) :
    s.arr[j]? = some (regs max s.log)[j]? := by
  have h1 := congrArg (fun l => l[j]?) h.lst
  simp only [List.getElem?_take_of_lt hj, List.getElem?_map] at h1
  rw [h1]
  have : j < (regs max s.log).length := by rw [← h.cnt]; exact hj
  rw [List.getElem?_eq_getElem this]
  rfl

theorem Base.slots' {max : Nat} {s : St V U} (h : Base max s) (j : Nat) (hj : j < s.count) :
    ∃ o, s.arr[j]? = some (some o) := by
  have h1 := h.slots j hj
  have : j < (regs max s.log).length := by rw [← h.cnt]; exact hj
  rw [List.getElem?_eq_getElem this] at h1
  exact ⟨_, h1⟩

theorem contains_iff {max : Nat} {s : St V U} (h : Base max s) (o : Nat) :
    contains s o = true ↔ o ∈ regs max s.log := by
  unfold contains
  rw [h.lst]
  simp

/-- `add_observer` computed on the registered list. -/
theorem add_spec {max : Nat} {s : St V U} (h : Base max s) (o : Nat) :
    addObserver s o = .ok (
      if s.count < max ∧ o ∉ regs max s.log then
        ({ s with arr := s.arr.set s.count (some o), count := s.count + 1 }, .ok)
      else (s, if max ≤ s.count then .listIsFull else .alreadyContains)) := by
  have hl := h.len
  unfold addObserver
  by_cases hf : s.count ≥ s.arr.length
  · rw [if_pos hf, if_neg (by omega), if_pos (by omega)]
  · rw [if_neg hf]
    by_cases hc : o ∈ regs max s.log
    · have := (contains_iff h o).2 hc
      simp [this, hc]
      omega
    · have : contains s o = false := by
        cases hx : contains s o
        · rfl
        · exact absurd ((contains_iff h o).1 hx) hc
      simp [this, hc]
      omega

theorem filter_ne_length {l : List Nat} (hn : l.Nodup) (o : Nat) :
    (l.filter (· != o)).length = if o ∈ l then l.length - 1 else l.length := by
  induction l with
  | nil => simp
  | cons a l ih =>
    have hn' := List.nodup_cons.1 hn
    have ih := ih hn'.2
    by_cases ha : a = o
    · subst ha
      have : (l.filter (· != a)).length = l.length := by
        rw [ih, if_neg hn'.1]
      simp [this]
    · have : (a != o) = true := by simp [ha]
      simp only [List.filter_cons, this, if_true, List.length_cons, ih, List.mem_cons]
      have hao : ¬ o = a := fun h => ha h.symm
      simp only [hao, false_or]
      by_cases hm : o ∈ l
      · simp only [hm, if_true]
        have : 0 < l.length := List.length_pos_of_mem hm
        omega
      · simp only [hm, if_false]

theorem filter_eq_of_not_mem {l : List Nat} {o : Nat} (h : o ∉ l) : l.filter (· != o) = l := by
  apply List.filter_eq_self.2
  intro a ha
  have : a ≠ o := by
    intro h'
    subst h'
    exact h ha
  simp [this]

/-- `remove_observer` computed on the registered list. -/
theorem remove_spec {max : Nat} {s : St V U} (h : Base max s) (o : Nat) :
    removeObserver s o = .ok (
      if o ∈ regs max s.log then
        ({ s with
            arr := ((regs max s.log).filter (· != o)).map some ++ s.arr.drop (s.count - 1),
            count := s.count - 1 }, .ok)
      else (s, .notFound)) := by
  have hl := h.len
  have hc := h.count_le
  have hk : kept s o = ((regs max s.log).filter (· != o)).map some := by
    unfold kept
    rw [h.lst, List.filter_map]
    congr 1
  have hlen := filter_ne_length h.nodup o
  unfold removeObserver
  rw [if_neg (by omega)]
  by_cases h0 : s.count = 0
  · rw [if_pos h0]
    have : regs max s.log = [] := by
      apply List.eq_nil_of_length_eq_zero
      rw [← h.cnt, h0]
    simp [this]
  · rw [if_neg h0]
    simp only [hk, List.length_map, hlen]
    by_cases hm : o ∈ regs max s.log
    · simp only [hm, if_true, ← h.cnt]
      rw [if_pos (by omega)]
    · simp only [hm, if_false, ← h.cnt]
      rw [if_neg (by omega), filter_eq_of_not_mem hm, ← h.lst, List.take_append_drop]

theorem execStep_good {max : Nat} {ex : St V U → Op V → Res (St V U × Err)} (hex : Good max ex)
    (H : Handlers V U) : Good max (execStep ex H) := by
  intro s op h
  have hb := h.base
  have hl := hb.len
  have hc := hb.count_le
  cases op with
  | add o =>
    simp only [execStep, add_spec hb o, Res.ok_bind, Res.pure_eq]
    refine ⟨by simp, ?_⟩
    intro s' e hs
    simp only [Res.ok.injEq, Prod.mk.injEq] at hs
    obtain ⟨rfl, rfl⟩ := hs
    by_cases hcond : s.count < max ∧ o ∉ regs max s.log
    · rw [if_pos hcond]
      have hsl : ∀ i p : Nat, s.arr[i]? = some (some p) →
          ∃ o', (s.arr.set s.count (some o))[i]? = some (some o') := by
        intro i p hi
        by_cases hip : s.count = i
        · subst hip
          refine ⟨o, ?_⟩
          rw [List.getElem?_set_self (by omega)]
        · exact ⟨p, by rw [List.getElem?_set_ne hip]; exact hi⟩
      refine ⟨⟨⟨?_, ?_, ?_, ?_, ?_⟩, ?_⟩, ⟨rfl, rfl, hsl, [_], rfl⟩, fun _ => ⟨[_], rfl, rfl⟩⟩
      · simp [St.emit, hl]
      · simp only [St.emit, regs_snoc, specEv, specNext]
        rw [if_pos (by rw [← hb.cnt]; exact hcond), List.map_append, ← hb.lst]
        rw [List.take_add_one, List.take_set_of_le (Nat.le_refl _), List.getElem?_set_self (by omega)]
        rfl
      · simp only [St.emit, regs_snoc, specEv, specNext]
        rw [if_pos (by rw [← hb.cnt]; exact hcond)]
        simp [hb.cnt]
      · simp only [St.emit, regs_snoc, specEv, specNext]
        rw [if_pos (by rw [← hb.cnt]; exact hcond)]
        rw [List.nodup_append]
        refine ⟨hb.nodup, by simp, ?_⟩
        intro a ha b hb' hab
        simp only [List.mem_singleton] at hb'
        subst hb' hab
        exact hcond.2 ha
      · refine hb.logok.snoc ?_
        simp only [EvOK, specErr]
        rw [if_neg (by rw [← hb.cnt]; omega), if_neg hcond.2]
      · simp only [St.emit, depth_snoc, depthEv]; exact h.dep
    · rw [if_neg hcond]
      refine ⟨⟨⟨hl, ?_, ?_, ?_, ?_⟩, ?_⟩, Keeps.emit s _, fun _ => ⟨[_], rfl, rfl⟩⟩
      · simp only [St.emit, regs_snoc, specEv, specNext]
        rw [if_neg (by rw [← hb.cnt]; exact hcond)]
        exact hb.lst
      · simp only [St.emit, regs_snoc, specEv, specNext]
        rw [if_neg (by rw [← hb.cnt]; exact hcond)]
        exact hb.cnt
      · simp only [St.emit, regs_snoc, specEv, specNext]
        rw [if_neg (by rw [← hb.cnt]; exact hcond)]
        exact hb.nodup
      · refine hb.logok.snoc ?_
        simp only [EvOK, specErr, ← hb.cnt]
        by_cases hf : max ≤ s.count
        · simp [hf]
        · have hm : o ∈ regs max s.log := by
            by_cases hm : o ∈ regs max s.log
            · exact hm
            · exact absurd ⟨by omega, hm⟩ hcond
          simp [hf, hm]
      · simp only [St.emit, depth_snoc, depthEv]; exact h.dep
  | remove o =>
    simp only [execStep, remove_spec hb o, Res.ok_bind, Res.pure_eq]
    refine ⟨by simp, ?_⟩
    intro s' e hs
    simp only [Res.ok.injEq, Prod.mk.injEq] at hs
    obtain ⟨rfl, rfl⟩ := hs
    have hlen := filter_ne_length hb.nodup o
    by_cases hm : o ∈ regs max s.log
    · rw [if_pos hm]
      rw [if_pos hm, ← hb.cnt] at hlen
      have hpos : 0 < s.count := by rw [hb.cnt]; exact List.length_pos_of_mem hm
      have hsl : ∀ i p : Nat, s.arr[i]? = some (some p) → ∃ o',
          (((regs max s.log).filter (· != o)).map some ++ s.arr.drop (s.count - 1))[i]?
            = some (some o') := by
        intro i p hi
        by_cases hip : i < s.count - 1
        · rw [List.getElem?_append_left (by simp only [List.length_map, hlen]; exact hip),
            List.getElem?_map, List.getElem?_eq_getElem (by rw [hlen]; exact hip)]
          exact ⟨_, rfl⟩
        · rw [List.getElem?_append_right (by simp only [List.length_map, hlen]; omega)]
          simp only [List.length_map, hlen, List.getElem?_drop]
          refine ⟨p, ?_⟩
          rw [← hi]
          congr 1
          omega
      refine ⟨⟨⟨?_, ?_, ?_, ?_, ?_⟩, ?_⟩, ⟨rfl, rfl, hsl, [_], rfl⟩, fun _ => ⟨[_], rfl, rfl⟩⟩
      · simp only [St.emit, List.length_append, List.length_map, hlen, List.length_drop]
        omega
      · simp only [St.emit, regs_snoc, specEv, specNext]
        rw [List.take_append_of_le_length (by simp only [List.length_map, hlen]; omega),
          List.take_of_length_le (by simp only [List.length_map, hlen]; omega)]
      · simp only [St.emit, regs_snoc, specEv, specNext]
        exact hlen.symm
      · simp only [St.emit, regs_snoc, specEv, specNext]
        exact hb.nodup.filter _
      · refine hb.logok.snoc ?_
        simp only [EvOK, specErr]
        rw [if_pos hm]
      · simp only [St.emit, depth_snoc, depthEv]; exact h.dep
    · rw [if_neg hm]
      refine ⟨⟨⟨hl, ?_, ?_, ?_, ?_⟩, ?_⟩, Keeps.emit s _, fun _ => ⟨[_], rfl, rfl⟩⟩
      · simp only [St.emit, regs_snoc, specEv, specNext]
        rw [filter_eq_of_not_mem hm]
        exact hb.lst
      · simp only [St.emit, regs_snoc, specEv, specNext]
        rw [filter_eq_of_not_mem hm]
        exact hb.cnt
      · simp only [St.emit, regs_snoc, specEv, specNext]
        rw [filter_eq_of_not_mem hm]
        exact hb.nodup
      · refine hb.logok.snoc ?_
        simp only [EvOK, specErr]
        rw [if_neg hm]
      · simp only [St.emit, depth_snoc, depthEv]; exact h.dep
  | clear =>
    obtain ⟨h1, h2⟩ := clearLoop_good hex H s.count 0 s h (by
      intro j _ hj
      exact hb.slots' j (by omega))
    simp only [execStep, clearObservers]
    cases hr : clearLoop ex H 0 s.count s with
    | ub => exact absurd hr h1
    | hang => exact ⟨by simp, by simp⟩
    | ok t =>
      obtain ⟨i1, k1, q1⟩ := h2 t hr
      simp only [Res.ok_bind, Res.pure_eq]
      refine ⟨by simp, ?_⟩
      intro s' e hs
      simp only [Res.ok.injEq, Prod.mk.injEq] at hs
      obtain ⟨rfl, rfl⟩ := hs
      refine ⟨⟨⟨i1.base.len, ?_, ?_, ?_, ?_⟩, ?_⟩, k1.trans ⟨rfl, rfl, fun _ o h => ⟨o, h⟩, [_], rfl⟩,
        q1.trans k1 (fun _ => ⟨[_], rfl, rfl⟩)⟩
      · simp [St.emit, regs_snoc, specEv, specNext]
      · simp [St.emit, regs_snoc, specEv, specNext]
      · simp [St.emit, regs_snoc, specEv, specNext]
      · exact i1.base.logok.snoc rfl
      · simp only [St.emit, depth_snoc, depthEv]; exact i1.dep
  | notify v =>
    simp only [execStep, notifyObservers]
    rw [if_neg (by omega)]
    by_cases hi : s.inside = true
    · rw [if_pos hi]
      simp only [Res.ok_bind, Res.pure_eq]
      refine ⟨by simp, ?_⟩
      intro s' e hs
      simp only [Res.ok.injEq, Prod.mk.injEq] at hs
      obtain ⟨rfl, rfl⟩ := hs
      refine ⟨⟨⟨hl, ?_, ?_, ?_, ?_⟩, ?_⟩, Keeps.emit s _, fun _ => ⟨[_], rfl, rfl⟩⟩
      · simp only [St.emit, regs_snoc, specEv, specNext]
        exact hb.lst
      · simp only [St.emit, regs_snoc, specEv, specNext]
        exact hb.cnt
      · simp only [St.emit, regs_snoc, specEv, specNext]
        exact hb.nodup
      · refine hb.logok.snoc ?_
        simp [EvOK, specErr, h.dep, hi]
      · simp only [St.emit, depth_snoc, depthEv]; exact h.dep
    · rw [if_neg hi]
      have hi : s.inside = false := by simpa using hi
      have hd : depth s.log = 0 := by rw [h.dep, hi]; rfl
      obtain ⟨h1, h2⟩ := notifyLoop_good hex H v s.count 0 { s with inside := true }
        ⟨hb.len, hb.lst, hb.cnt, hb.nodup, hb.logok⟩ rfl hd (by
          intro j _ hj
          exact hb.slots' j (by omega))
      cases hr : notifyLoop ex H v 0 s.count { s with inside := true } with
      | ub => exact absurd hr h1
      | hang => exact ⟨by simp, by simp⟩
      | ok t =>
        obtain ⟨b1, d1, k1⟩ := h2 t hr
        simp only [Res.ok_bind, Res.pure_eq]
        refine ⟨by simp, ?_⟩
        intro s' e hs
        simp only [Res.ok.injEq, Prod.mk.injEq] at hs
        obtain ⟨rfl, rfl⟩ := hs
        obtain ⟨new, hnew⟩ := k1.log
        refine ⟨⟨⟨b1.len, ?_, ?_, ?_, ?_⟩, ?_⟩, ⟨k1.self, hi.symm, k1.slots, new ++ [.ret (.notify v) .ok], ?_⟩,
          fun h => absurd (hi.symm.trans h) (by simp)⟩
        · simp only [St.emit, regs_snoc, specEv, specNext]
          exact b1.lst
        · simp only [St.emit, regs_snoc, specEv, specNext]
          exact b1.cnt
        · simp only [St.emit, regs_snoc, specEv, specNext]
          exact b1.nodup
        · refine b1.logok.snoc ?_
          simp [EvOK, specErr, d1]
        · simp [St.emit, depth_snoc, depthEv, d1]
        · simp only [St.emit, hnew, List.append_assoc]

theorem exec_good (H : Handlers V U) (max n : Nat) : Good max (exec H n) := by
  induction n with
  | zero =>
    intro s op _
    exact ⟨by simp [exec], by simp [exec]⟩
  | succ n ih => exact execStep_good ih H

theorem reach_inv {H : Handlers V U} {max : Nat} {s : St V U} (h : Reach H max s) :
    Inv max s ∧ s.inside = false := by
  induction h with
  | new self u =>
    refine ⟨⟨⟨by simp [St.new], ?_, rfl, by simp [St.new, regs], LogOK.nil max⟩, rfl⟩, rfl⟩
    simp [St.new, regs]
  | call s s' n op e _ hs ih =>
    obtain ⟨h1, h2⟩ := (exec_good H max n s op ih.1).2 s' e hs
    exact ⟨h1, by rw [h2.1.inside]; exact ih.2⟩
  | user s u _ ih =>
    exact ⟨⟨⟨ih.1.base.len, ih.1.base.lst, ih.1.base.cnt, ih.1.base.nodup, ih.1.base.logok⟩, ih.1.dep⟩, ih.2⟩

end Verif.Observer
