import Verif.Values.RacesDemo
/-!
`values::observable` used by several threads: registrations that are refused (C110), registrations and updates under a
lock of the user's (C111, C113), and the pointers that `remove_observer` of the dynamic variant moves (C111).
-/
namespace Verif.Values.HB
open Verif Verif.HB Verif.Values

variable {T : IntTy} {i m m' : State} {G : State → Lbl → Prop} {ls : List Lbl} {l : Lbl}

/-! ### Registrations that are refused -/

/-- The step is not a registration, or it is an `add_observer` or `remove_observer` that reports an error. -/
def refused (T : IntTy) (m : State) : Lbl → Prop
  | .config _ op => (∃ o, op = .add o ∨ op = .remove o) ∧ ∃ s' e, exec T m.st op = .ok (s', .err e) ∧ e ≠ .ok
  | _ => True

theorem findOps_reads (o : Nat) (loc : Loc) (tag : Nat) : ∀ (l : List (Option Nat)) (i : Nat),
    .acc loc true tag ∉ findOps o l i
  | [], _ => by simp [findOps]
  | p :: l, i => by
    simp only [findOps, List.mem_cons, not_or]
    refine ⟨by simp, ?_⟩
    split
    · simp
    · exact findOps_reads o loc tag l (i + 1)

theorem removeOps_reads (o : Nat) (loc : Loc) (tag : Nat) : ∀ (l : List (Option Nat)) (i : Nat), some o ∉ l →
    .acc loc true tag ∉ removeOps o l i i
  | [], _, _ => by simp [removeOps]
  | p :: l, i, h => by
    simp only [List.mem_cons, not_or] at h
    simp only [removeOps, List.mem_cons, not_or]
    refine ⟨by simp, ?_⟩
    rw [if_neg fun e => h.1 e.symm]
    simpa using removeOps_reads o loc tag l (i + 1) h.2

theorem containsArr_true {o : Nat} {arr : List (Option Nat)} : ∀ (n i : Nat), containsArr o arr n i = .ok true →
    some o ∈ (arr.drop i).take n
  | 0, _, h => by simp [containsArr] at h
  | n + 1, i, h => by
    simp only [containsArr] at h
    cases hi : arr[i]? with
    | none => rw [hi] at h; cases h
    | some p =>
      rw [hi] at h
      obtain ⟨hlt, rfl⟩ := List.getElem?_eq_some_iff.1 hi
      rw [List.drop_eq_getElem_cons hlt, List.take_succ_cons, List.mem_cons]
      simp only at h
      split at h
      · next hp => exact .inl hp.symm
      · exact .inr (containsArr_true n (i + 1) h)

theorem kept_of_absent {α : Type} [DecidableEq α] {x : α} {l : List α} (h : (stdRemove x l).2 = l.length) : x ∉ l := by
  intro hx
  simp only [stdRemove] at h
  have := List.length_filter_lt_length_iff_exists (p := fun y => decide (y ≠ x)) (l := l) |>.2 ⟨x, hx, by simp⟩
  omega

/-- A registration that is refused writes nothing. -/
theorem refused_reads {t : Nat} {op : Values.Op} (h : refused T m (.config t op)) (loc : Loc) (tag : Nat) :
    .acc loc true tag ∉ configOps m.st.reg op := by
  obtain ⟨⟨o, rfl | rfl⟩, s', e, he, hne⟩ := h
  · simp only [exec, errOf, add] at he
    simp only [configOps]
    cases hr : m.st.reg with
    | fixed arr n =>
      simp only [hr] at he
      simp only [addOps]
      split at he
      · next hn => simp [hn]
      · next hn =>
        rw [if_neg hn]
        cases hc : containsArr o arr n 0 with
        | ok b =>
          cases b with
          | false =>
            simp only [hc, Res.ok_bind, Bool.not_false, if_true, Res.ok.injEq, Prod.mk.injEq, Ret.err.injEq] at he
            exact absurd he.2.symm hne
          | true =>
            have := containsArr_true n 0 hc
            simp only [List.drop_zero] at this
            simp [this, findOps_reads]
        | ub => rw [hc] at he; cases he
        | hang => rw [hc] at he; cases he
    | dyn vec =>
      simp only [hr, containsVec_eq] at he
      by_cases ho : o ∈ vec
      · simp [addOps, ho, findOps_reads]
      · simp only [ho, decide_false, Bool.not_false, if_true, Res.ok_bind, Res.ok.injEq, Prod.mk.injEq,
          Ret.err.injEq] at he
        exact absurd he.2.symm hne
  · simp only [exec, errOf, remove] at he
    simp only [configOps]
    cases hr : m.st.reg with
    | fixed arr n =>
      simp only [hr] at he
      simp only [rmOps]
      split at he
      · next hn => simp [hn]
      · next hn =>
        rw [if_neg hn]
        split at he
        · next h0 => simp [h0]
        · next h0 =>
          rw [if_neg h0]
          by_cases hz : n - (stdRemove (some o) (arr.take n)).2 ≠ 0
          · rw [if_pos hz] at he
            simp only [Res.ok_bind, Res.ok.injEq, Prod.mk.injEq, Ret.err.injEq] at he
            exact absurd he.2.symm hne
          · have hle : (stdRemove (some o) (arr.take n)).2 ≤ (arr.take n).length := List.length_filter_le _ _
            have hlen : (arr.take n).length = n := by rw [List.length_take]; omega
            have ho : some o ∉ arr.take n := kept_of_absent (by omega)
            simp [ho, removeOps_reads o loc tag _ 0 ho]
    | dyn vec =>
      simp only [hr] at he
      simp only [rmOps]
      split at he
      · next hn => simp [hn]
      · next hn =>
        by_cases hz : (stdRemove o vec).2 ≠ vec.length
        · rw [if_pos hz] at he
          simp only [Res.ok_bind, Res.ok.injEq, Prod.mk.injEq, Ret.err.injEq] at he
          exact absurd he.2.symm hne
        · have ho : o ∉ vec := kept_of_absent (by omega)
          have ho : some o ∉ vec.map some := by simpa using ho
          simp [hn, removeOps_reads o loc tag _ 0 ho]

theorem ops_refused (h : refused T m l) (loc : Loc) (tag : Nat) (ha : .acc loc true tag ∈ ops m l) : ¬ lib loc := by
  cases l with
  | config t op => exact absurd ha (refused_reads h loc tag)
  | _ => exact ops_reads m (by trivial) loc tag ha

theorem Run.refused_writes (hi : Settled i) (h : Run T i (refused T) ls m) :
    ∀ a ∈ m.mem.log, lib a.loc → a.wr = true → ∀ t, a.time ≤ m.mem.clk t a.who := by
  induction h with
  | start => exact fun a ha hl _ => hi.2 a ha hl
  | step ls m m' l _ hg hs ih =>
    intro a ha hl hw t
    rw [step_mem hs] at ha ⊢
    rcases log_run _ _ _ _ ha with ha | ⟨-, ha⟩
    · exact Nat.le_trans (ih a ha hl hw t) (m.mem.clk_run _ _ _ _)
    · rw [hw] at ha
      exact absurd hl (ops_refused hg _ _ ha)

/-- **C110, C111 (partial)**: threads may also call `add_observer` and `remove_observer` while others update, as long as
these calls report an error: the observer is registered already, there is no room, or it is not registered.  Then no
access to memory of the library's is a data race.  Missing for C111: calls that succeed, for which it is false. -/
theorem C111_refused_partial (hi : Settled i) (h : Run T i (refused T) ls m) (hl : refused T m l)
    (_ : step T m l = some m') : ¬ Race lib m l :=
  no_race _ _ (fun loc tag h => ops_refused hl loc tag h) fun a ha hla hw => h.refused_writes hi a ha hla hw _

/-! ### A lock of the user's -/

/-- What threads may do without holding the lock `k` that protects the data `D`: read values, touch other data, and use
other objects for synchronisation. -/
def unlocked (k : Nat) (D : Nat → Prop) : Lbl → Prop
  | .value _ | .held _ _ => True
  | .touch _ n _ => ¬ D n
  | .rel _ n | .acq _ n => n ≠ k
  | _ => False

/-- Executions in which `k` is used as a mutex that protects the observable, its observers and the data `D`; the first
argument tells who holds it.  It is released outside of updates only. -/
inductive Locked (T : IntTy) (st : St) (k : Nat) (D : Nat → Prop) : Option Nat → State → Prop
  | start : Locked T st k D none (State.start st)
  | lock {m m' : State} {t : Nat} : Locked T st k D none m → step T m (.acq t k) = some m' →
      Locked T st k D (some t) m'
  | unlock {m m' : State} {t : Nat} : Locked T st k D (some t) m → m.pc t = [] → step T m (.rel t k) = some m' →
      Locked T st k D none m'
  | inside {m m' : State} {t : Nat} {l : Lbl} : Locked T st k D (some t) m → l.who = t → l ≠ .acq t k → l ≠ .rel t k →
      step T m l = some m' → Locked T st k D (some t) m'
  | outside {h : Option Nat} {m m' : State} {l : Lbl} : Locked T st k D h m → unlocked k D l → step T m l = some m' →
      Locked T st k D h m'

/-- Memory that the lock protects. -/
def guarded (D : Nat → Prop) : Loc → Prop
  | .data n => D n
  | _ => True

/-- Who comes after all accesses to places in `R` does not race on them. -/
theorem no_race_after {R : Loc → Prop} {t : Nat} : ∀ (os : List MOp) (m : Mem Nat Loc Obj),
    (∀ a ∈ m.log, R a.loc → a.time ≤ m.clk t a.who) → ¬ m.Races R t os
  | [], _, _ => id
  | o :: os, m, hk => by
    have hk' : ∀ a ∈ (m.op t o).log, R a.loc → a.time ≤ (m.op t o).clk t a.who := by
      intro a ha hl
      have old : a ∈ m.log → a.time ≤ (m.op t o).clk t a.who := fun ha =>
        Nat.le_trans (hk a ha hl) (m.op_clk_le t o t _)
      cases o with
      | acc loc wr tag =>
        simp only [Mem.op, List.mem_cons] at ha
        rcases ha with rfl | ha
        · simp [Mem.op]
        · exact old ha
      | _ => exact old ha
    have ih := no_race_after os (m.op t o) hk'
    cases o with
    | acc loc wr tag =>
      simp only [Mem.Races]
      rintro (⟨hR, a, ha, hl, hw, hlt⟩ | h)
      · have := hk a ha (by rw [hl]; exact hR)
        omega
      · exact ih h
    | _ => simpa only [Mem.Races] using ih

theorem after_run {R : Loc → Prop} {t : Nat} : ∀ (os : List MOp) (m : Mem Nat Loc Obj),
    (∀ a ∈ m.log, R a.loc → a.time ≤ m.clk t a.who) →
    ∀ a ∈ (m.run t os).log, R a.loc → a.time ≤ (m.run t os).clk t a.who
  | [], _, hk => hk
  | o :: os, m, hk => by
    refine after_run os (m.op t o) ?_
    intro a ha hl
    have old : a ∈ m.log → a.time ≤ (m.op t o).clk t a.who := fun ha =>
      Nat.le_trans (hk a ha hl) (m.op_clk_le t o t _)
    cases o with
    | acc loc wr tag =>
      simp only [Mem.op, List.mem_cons] at ha
      rcases ha with rfl | ha
      · simp [Mem.op]
      · exact old ha
    | _ => exact old ha

theorem sync_run {k t u : Nat} : ∀ (os : List MOp) (m : Mem Nat Loc Obj), (∀ o, .sto (.user o) ∉ os) →
    m.sync (.user k) u ≤ (m.run t os).sync (.user k) u
  | [], _, _ => Nat.le_refl _
  | o :: os, m, h => Nat.le_trans
      (m.op_sync_le t o (.user k) u fun e => h k (by rw [← e]; exact List.mem_cons_self))
      (sync_run os (m.op t o) fun x hx => h x (List.mem_cons_of_mem _ hx))

theorem unlocked_ops {k : Nat} {D : Nat → Prop} (h : unlocked k D l) :
    (∀ o, .sto (.user o) ∉ ops m l) ∧ ∀ loc wr tag, .acc loc wr tag ∈ ops m l → ¬ guarded D loc := by
  cases l with
  | value t => simp [ops]
  | held t o => simp [ops]
  | touch t n wr =>
    simp only [unlocked] at h
    refine ⟨by simp [ops], fun loc wr tag ha => ?_⟩
    simp only [ops, List.mem_singleton, Op.acc.injEq] at ha
    rw [ha.1]
    exact h
  | rel t n => simp [ops]
  | acq t n => simp [ops]
  | _ => exact h.elim

theorem unlocked_pc {k : Nat} {D : Nat → Prop} (h : unlocked k D l) (hs : step T m l = some m') (t : Nat) :
    m'.pc t = m.pc t := by
  obtain ⟨r, hr, rfl⟩ := step_eq hs
  have : r.2 = m.pc l.who := by
    cases l <;> first
      | exact h.elim
      | (simp only [effect] at hr
         split at hr
         · cases hr; rfl
         · cases hr)
  simp only [put]
  split
  · next e => rw [this, e]
  · rfl

theorem other_pc {t : Nat} (h : l.who ≠ t) (hs : step T m l = some m') : m'.pc t = m.pc t := by
  obtain ⟨r, -, rfl⟩ := step_eq hs
  exact put_ne _ _ (Ne.symm h)

/-- The holder of the lock, or the lock itself, comes after all accesses to what it protects. -/
def Covered (k : Nat) (D : Nat → Prop) (h : Option Nat) (m : State) : Prop :=
  ∀ a ∈ m.mem.log, guarded D a.loc → a.time ≤
    match h with
    | some t => m.mem.clk t a.who
    | none => m.mem.sync (.user k) a.who

theorem Locked.covered {st : St} {k : Nat} {D : Nat → Prop} {h : Option Nat} (hl : Locked T st k D h m) :
    Covered k D h m ∧ ∀ t, m.pc t ≠ [] → h = some t := by
  induction hl with
  | start => exact ⟨fun _ ha => (by cases ha), fun t ht => absurd rfl ht⟩
  | @lock m m' t _ hs ih =>
    have hm : m'.mem = m.mem.run t [.acq (.user k)] := step_mem hs
    refine ⟨fun a ha hg => ?_, fun u hu => ?_⟩
    · rw [hm] at ha ⊢
      have := ih.1 a ha hg
      simp only at this
      simp only [Mem.run, Mem.op, put_same]
      omega
    · rw [unlocked_pc (k := k + 1) (D := D) (l := .acq t k) (show k ≠ k + 1 by omega) hs] at hu
      cases ih.2 u hu
  | @unlock m m' t _ hpc hs ih =>
    have hm : m'.mem = m.mem.run t [.rel (.user k)] := step_mem hs
    refine ⟨fun a ha hg => ?_, fun u hu => ?_⟩
    · rw [hm] at ha ⊢
      have := ih.1 a ha hg
      simp only at this
      simp only [Mem.run, Mem.op, put_same]
      omega
    · exfalso
      rw [unlocked_pc (k := k + 1) (D := D) (l := .rel t k) (show k ≠ k + 1 by omega) hs] at hu
      have := Option.some.inj (ih.2 u hu)
      subst this
      exact hu hpc
  | @inside m m' t l _ hw _ _ hs ih =>
    refine ⟨fun a ha hg => ?_, fun u hu => ?_⟩
    · rw [step_mem hs, hw] at ha ⊢
      exact after_run _ _ (fun a ha hg => ih.1 a ha hg) a ha hg
    · by_cases e : u = t
      · rw [e]
      · rw [other_pc (by rw [hw]; exact Ne.symm e) hs] at hu
        exact ih.2 u hu
  | @outside h m m' l _ hu hs ih =>
    obtain ⟨h1, h2⟩ := unlocked_ops (m := m) hu
    refine ⟨fun a ha hg => ?_, fun u hne => ?_⟩
    · rw [step_mem hs] at ha ⊢
      rcases log_run _ _ _ _ ha with ha | ⟨-, ha⟩
      · have := ih.1 a ha hg
        cases h with
        | some t => exact Nat.le_trans this (m.mem.clk_run _ _ _ _)
        | none => exact Nat.le_trans this (sync_run _ _ h1)
      · exact absurd hg (h2 _ _ _ ha)
    · rw [unlocked_pc hu hs] at hne
      exact ih.2 u hne

/-- **C111, C113 (partial)**: if the user takes a lock around updates and registrations (and releases it outside of them
only), then neither these nor the `on_update` functions that they run, to any depth, are data races, not on memory of the
library's and not on data that is used under the lock only; `value()` may be read without it.
Missing: C111 and C113 claim this without the lock, which is false. -/
theorem C111_locked_partial {st : St} {k : Nat} {D : Nat → Prop} {h : Option Nat} (hl : Locked T st k D h m)
    (hn : h = some l.who ∨ unlocked k D l) : ¬ Race (guarded D) m l := by
  rcases hn with rfl | hu
  · exact no_race_after _ _ fun a ha hg => hl.covered.1 a ha hg
  · have h2 := (unlocked_ops (m := m) hu).2
    suffices H : ∀ (os : List MOp) (mm : Mem Nat Loc Obj), (∀ loc wr tag, .acc loc wr tag ∈ os → ¬ guarded D loc) →
        ¬ mm.Races (guarded D) l.who os from H _ _ h2
    intro os
    induction os with
    | nil => exact fun _ _ => id
    | cons o os ih =>
      intro mm h2
      have ih := ih (mm.op l.who o) fun loc wr tag h => h2 loc wr tag (List.mem_cons_of_mem _ h)
      cases o with
      | acc loc wr tag =>
        simp only [Mem.Races]
        rintro (⟨hR, -⟩ | h)
        · exact h2 _ _ _ List.mem_cons_self hR
        · exact ih h
      | _ => simpa only [Mem.Races] using ih

/-- **C113 (partial)**: under such a lock no two threads are in updates, and so in `on_update` functions, at a time. -/
theorem C113_locked_partial {st : St} {k : Nat} {D : Nat → Prop} {h : Option Nat} (hl : Locked T st k D h m) {t u : Nat}
    (ht : m.pc t ≠ []) (hu : m.pc u ≠ []) : t = u :=
  Option.some.inj ((hl.covered.2 t ht).symm.trans (hl.covered.2 u hu))

/-! ### Pointers that are moved -/

theorem removeOps_moves (o : Nat) : ∀ (l : List (Option Nat)) (i w j : Nat), w < i →
    j < (l.filter (fun p => p ≠ some o)).length → .acc (.slot (w + j)) true 1 ∈ removeOps o l i w
  | [], _, _, _, _, h => by simp at h
  | p :: l, i, w, j, hw, h => by
    simp only [removeOps, List.mem_cons]
    right
    by_cases hp : p = some o
    · rw [if_pos hp]
      refine removeOps_moves o l (i + 1) w j (by omega) ?_
      simpa [hp] using h
    · rw [if_neg hp, if_pos hw]
      rw [List.filter_cons_of_pos (by simpa using hp)] at h
      cases j with
      | zero => simp
      | succ j =>
        have := removeOps_moves o l (i + 1) (w + 1) j (by omega) (by simpa using h)
        rw [show w + (j + 1) = w + 1 + j by omega]
        exact List.mem_append_right _ this

theorem removeOps_first (o : Nat) : ∀ (pre post : List (Option Nat)) (i j : Nat), some o ∉ pre →
    j < (post.filter (fun p => p ≠ some o)).length →
    .acc (.slot (i + pre.length + j)) true 1 ∈ removeOps o (pre ++ some o :: post) i i
  | [], post, i, j, _, h => by
    simp only [List.nil_append, removeOps, if_true, List.mem_cons]
    exact .inr (removeOps_moves o post (i + 1) i j (by omega) h)
  | p :: pre, post, i, j, hn, h => by
    simp only [List.mem_cons, not_or] at hn
    simp only [List.cons_append, removeOps, List.mem_cons]
    right
    rw [if_neg fun e => hn.1 e.symm]
    have := removeOps_first o pre post (i + 1) j hn.2 h
    rw [List.length_cons, show i + (pre.length + 1) + j = i + 1 + pre.length + j by omega]
    exact List.mem_append_right _ this

theorem moves {u o j : Nat} {pre post : List Nat} (hr : m.st.reg = .dyn (pre ++ o :: post)) (ho : o ∉ pre ++ post)
    (hj : pre.length ≤ j) (hj' : j < pre.length + post.length) :
    .acc (.slot j) true 1 ∈ ops m (.config u (.remove o)) := by
  simp only [List.mem_append, not_or] at ho
  have hf : (post.map some).filter (fun p => p ≠ some o) = post.map some := by
    rw [List.filter_eq_self]
    intro a ha
    obtain ⟨b, hb, rfl⟩ := List.mem_map.1 ha
    simp only [ne_eq, Option.some.injEq, decide_not, Bool.not_eq_eq_eq_not, Bool.not_true, decide_eq_false_iff_not]
    rintro rfl
    exact ho.2 hb
  have := removeOps_first o (pre.map some) (post.map some) 0 (j - pre.length) (by simpa using ho.1)
    (by rw [hf, List.length_map]; omega)
  rw [List.length_map, show 0 + pre.length + (j - pre.length) = j by omega] at this
  simp only [ops, configOps, hr, rmOps, List.mem_cons]
  right
  rw [if_neg (by simp), List.map_append, List.map_cons]
  exact this

theorem Run.deaf {u t : Nat} (hne : t ≠ u) (hap : ∀ m l, G m l → l.who = u → ¬ l.acquires) (h : Run T i G ls m) :
    m.mem.clk u t = i.mem.clk u t := by
  induction h with
  | start => rfl
  | step ls m m' l _ hg hs ih =>
    rw [step_mem hs, ← ih]
    by_cases e : l.who = u
    · rw [e]
      exact Mem.clk_acq _ _ (not_acquires (hap m l hg e) m) hne
    · rw [Mem.clk_other _ (Ne.symm e)]

/-- **C111 is false also for `remove_observer` of the dynamic variant**, which leaves the number of observers as it is:
after a thread has told the observer in place `j`, a `remove_observer` of another thread that moves a pointer to this
place (the one of an observer at or before it, with another one behind) is a data race, as long as that thread has not
acquired anything since. -/
theorem C111_move_races {i0 m0 m1 : State} {G0 : State → Lbl → Prop} {ls0 : List Lbl} (hi : i0.mem.Ok)
    (h0 : Run T i0 G0 ls0 m0) {t u o p j n : Nat} {v : Int} {fs : List Frame} (hne : t ≠ u)
    (hpc : m0.pc t = ⟨v, .loop j n⟩ :: fs) (h1 : step T m0 (.deliver t p) = some m1)
    (hap : ∀ m l, G m l → l.who = u → ¬ l.acquires) (h : Run T m1 G ls m) {pre post : List Nat}
    (hr : m.st.reg = .dyn (pre ++ o :: post)) (ho : o ∉ pre ++ post) (hj : pre.length ≤ j)
    (hj' : j < pre.length + post.length) : Race lib m (.config u (.remove o)) := by
  have hops : ∃ os, ops m0 (.deliver t p) = .acc (.slot j) false 0 :: os := by simp [ops, hpc, deliverOps]
  obtain ⟨os, hops⟩ := hops
  have hm1 : m1.mem = (m0.mem.op t (.acc (.slot j) false 0)).run t os := by rw [step_mem h1, hops]; rfl
  have hclk : m.mem.clk u t ≤ m0.mem.clk t t := by
    rw [h.deaf hne hap, step_mem h1]
    rw [Mem.clk_other _ (t := (Lbl.deliver t p).who) (v := u) (Ne.symm hne)]
    exact (h0.memOk hi).clk u t
  refine races_of_mem (a := ⟨t, m0.mem.clk t t + 1, .slot j, false, 0⟩) (tag := 1) trivial (.inr rfl) hne _ _
    (not_acquires (l := .config u (.remove o)) id m) (moves hr ho hj hj') (h.log _ ?_) (Nat.lt_succ_of_le hclk)
  rw [hm1]
  exact Mem.log_mono _ _ _ _ (by simp [Mem.op])

/-- The other way round: after such a `remove_observer`, a delivery by another thread to the observer in place `j`. -/
theorem C111_moved_races {i0 m0 m1 : State} {G0 : State → Lbl → Prop} {ls0 : List Lbl} (hi : i0.mem.Ok)
    (h0 : Run T i0 G0 ls0 m0) {t u o p j n : Nat} {v : Int} {fs : List Frame} (hne : t ≠ u) {pre post : List Nat}
    (hr : m0.st.reg = .dyn (pre ++ o :: post)) (ho : o ∉ pre ++ post) (hj : pre.length ≤ j)
    (hj' : j < pre.length + post.length) (h1 : step T m0 (.config t (.remove o)) = some m1) (hap : Apart G t u)
    (h : Run T m1 G ls m) (hpc : m.pc u = ⟨v, .loop j n⟩ :: fs) : Race lib m (.deliver u p) := by
  refine race_later (l1 := .config t (.remove o)) (loc := .slot j) (w1 := true) (w2 := false) (tag2 := 0) (h0.memOk hi) h1
    hne rfl ⟨[], _, rfl, moves (u := t) hr ho hj hj', fun x => not_releases (l := .config t (.remove o)) id m0 x⟩ hap h id ?_
    (.inl rfl) trivial
  simp [ops, hpc, deliverOps]

/-! ### Examples -/

/-- Thread 0 updates; meanwhile thread 1 adds an observer that is registered already and removes one that is not. -/
example : ∃ ls m m', Run .int (demo false) (refused .int) ls m ∧ Settled (demo false) ∧
    refused .int m (.config 1 (.remove 9)) ∧ step .int m (.config 1 (.remove 9)) = some m' ∧ m.pc 0 ≠ [] ∧
    ¬ Race lib m (.config 1 (.remove 9)) := by
  have h : ∃ ma mb mc md m', step .int (demo false) (.begin 0 (.assign 1)) = some ma ∧ step .int ma (.enter 0) = some mb ∧
      step .int mb (.config 1 (.add 7)) = some mc ∧ step .int mc (.deliver 0 7) = some md ∧
      step .int md (.config 1 (.remove 9)) = some m' ∧
      (∃ s', exec .int mb.st (.add 7) = .ok (s', .err .alreadyContains)) ∧
      (∃ s', exec .int md.st (.remove 9) = .ok (s', .err .notFound)) ∧ md.pc 0 = [⟨1, .loop 1 1⟩] :=
    ⟨_, _, _, _, _, rfl, rfl, rfl, rfl, rfl, ⟨_, rfl⟩, ⟨_, rfl⟩, rfl⟩
  obtain ⟨ma, mb, mc, md, m', h1, h2, h3, h4, h5, ⟨s1, h6⟩, ⟨s2, h7⟩, h8⟩ := h
  have hr : refused .int md (.config 1 (.remove 9)) := ⟨⟨9, .inr rfl⟩, s2, _, h7, by decide⟩
  have hrun : Run .int (demo false) (refused .int) [.deliver 0 7, .config 1 (.add 7), .enter 0, .begin 0 (.assign 1)] md :=
    .step _ _ _ _ (.step _ _ _ _ (.step _ _ _ _ (.step _ _ _ _ .start trivial h1) trivial h2)
      ⟨⟨7, .inl rfl⟩, s1, _, h6, by decide⟩ h3) trivial h4
  exact ⟨_, md, m', hrun, Settled.start _, hr, h5, by rw [h8]; simp, C111_refused_partial (Settled.start _) hrun hr h5⟩

/-- Under lock 3, thread 1 adds observer 8, then thread 0 updates and the function of observer 7 writes data 5; thread 2
reads the value without the lock; thread 1 takes the lock again: it may touch the data and remove observer 7. -/
example : ∃ m, Locked .int (demo true).st 3 (fun n => n = 5) (some 1) m ∧ m.st.held 8 = 4 ∧
    (∃ a ∈ m.mem.log, a.loc = .data 5 ∧ a.who = 0 ∧ a.wr = true) ∧
    (∃ m', step .int m (.config 1 (.remove 7)) = some m') ∧
    ¬ Race (guarded fun n => n = 5) m (.touch 1 5 true) ∧
    ¬ Race (guarded fun n => n = 5) m (.config 1 (.remove 7)) := by
  have h : ∃ m1 m2 m3 m4 m5 m6 m7 m8 m9 m10 m11 m12 m13 m14 m15 m',
      step .int (State.start (demo true).st) (.acq 1 3) = some m1 ∧ step .int m1 (.config 1 (.add 8)) = some m2 ∧
      step .int m2 (.rel 1 3) = some m3 ∧ step .int m3 (.acq 0 3) = some m4 ∧
      step .int m4 (.begin 0 (.assign 4)) = some m5 ∧ step .int m5 (.enter 0) = some m6 ∧
      step .int m6 (.deliver 0 7) = some m7 ∧ step .int m7 (.touch 0 5 true) = some m8 ∧
      step .int m8 (.value 2) = some m9 ∧ step .int m9 (.back 0) = some m10 ∧ step .int m10 (.deliver 0 8) = some m11 ∧
      step .int m11 (.back 0) = some m12 ∧ step .int m12 (.leave 0) = some m13 ∧ step .int m13 (.rel 0 3) = some m14 ∧
      step .int m14 (.acq 1 3) = some m15 ∧ m13.pc 0 = [] ∧ m2.pc 1 = [] ∧ m15.st.held 8 = 4 ∧
      (m15.mem.log.any fun a => decide (a.loc = .data 5) && (a.who == 0) && a.wr) = true ∧
      step .int m15 (.config 1 (.remove 7)) = some m' :=
    ⟨_, _, _, _, _, _, _, _, _, _, _, _, _, _, _, _, rfl, rfl, rfl, rfl, rfl, rfl, rfl, rfl, rfl, rfl, rfl, rfl, rfl, rfl, rfl,
      rfl, rfl, rfl, rfl, rfl⟩
  obtain ⟨m1, m2, m3, m4, m5, m6, m7, m8, m9, m10, m11, m12, m13, m14, m15, m', h1, h2, h3, h4, h5, h6, h7, h8, h9, h10, h11,
    h12, h13, h14, h15, p0, p1, e, hlog, hr⟩ := h
  have l2 := (Locked.start (T := .int) (st := (demo true).st) (k := 3) (D := fun n => n = 5)).lock h1
  have l4 := ((l2.inside rfl (by simp) (by simp) h2).unlock p1 h3).lock h4
  have l7 := (((l4.inside rfl (by simp) (by simp) h5).inside rfl (by simp) (by simp) h6).inside rfl (by simp) (by simp) h7)
  have l9 := (l7.inside rfl (by simp) (by simp) h8).outside (l := .value 2) trivial h9
  have l11 := (l9.inside rfl (by simp) (by simp) h10).inside rfl (by simp) (by simp) h11
  have l13 := (l11.inside rfl (by simp) (by simp) h12).inside rfl (by simp) (by simp) h13
  have l15 := (l13.unlock p0 h14).lock h15
  obtain ⟨a, ha, hb⟩ := List.any_eq_true.1 hlog
  simp only [Bool.and_eq_true, decide_eq_true_eq, beq_iff_eq] at hb
  exact ⟨m15, l15, e, ⟨a, ha, hb.1.1, hb.1.2, hb.2⟩, ⟨m', hr⟩, C111_locked_partial l15 (.inl rfl),
    C111_locked_partial l15 (.inl rfl)⟩

/-- A vector with observers 7 and 8. -/
def demoDyn : State := State.start ⟨0, .dyn [7, 8], fun _ => 0, fun _ => false, []⟩

/-- Thread 0 has told observer 7; thread 1 removes it, which moves observer 8 to its place: a data race.  And after
thread 1 has done so, thread 2, which has started an update, delivers to the first place: a data race. -/
example : ∃ ls m, Run .int demoDyn anyLbl ls m ∧ Race lib m (.config 1 (.remove 7)) ∧
    ∃ m', step .int m (.config 1 (.remove 7)) = some m' ∧ Race lib m' (.deliver 2 8) ∧
      ∃ m'', step .int m' (.deliver 2 8) = some m'' := by
  have h : ∃ m0 m1 m' m'' mb mc, step .int demoDyn (.begin 0 (.assign 1)) = some mb ∧ step .int mb (.enter 0) = some mc ∧
      runs .int mc [.begin 2 (.assign 5), .enter 2] = some m0 ∧
      step .int m0 (.deliver 0 7) = some m1 ∧ step .int m1 (.config 1 (.remove 7)) = some m' ∧
      step .int m' (.deliver 2 8) = some m'' ∧ m0.pc 0 = [⟨1, .loop 0 2⟩] ∧ m1.st.reg = .dyn [7, 8] ∧
      m'.pc 2 = [⟨5, .loop 0 2⟩] := ⟨_, _, _, _, _, _, rfl, rfl, rfl, rfl, rfl, rfl, rfl, rfl, rfl⟩
  obtain ⟨m0, m1, m', m'', mb, mc, h1, h2, h3, h4, h5, h6, h7, h8, h9⟩ := h
  have r0 := runs_run (.step _ _ _ _ (.step _ _ _ _ (.start (T := .int) (i := demoDyn) (G := anyLbl)) trivial h1) trivial h2) h3
  have hok : demoDyn.mem.Ok := Mem.Ok.new
  refine ⟨_, m1, .step _ _ _ _ r0 trivial h4, ?_, m', h5, ?_, m'', h6⟩
  · exact C111_move_races (G := fun _ _ => False) (pre := []) (post := [8]) hok r0 (by decide) h7 h4 (fun _ _ h => h.elim) .start
      h8 (by decide) (by decide) (by decide)
  · exact C111_moved_races (G := fun _ _ => False) (pre := []) (post := [8]) (t := 1) hok (.step _ _ _ _ r0 trivial h4)
      (by decide) h8 (by decide) (by decide) (by decide) h5 (.inl fun _ _ h => h.elim) .start h9

end Verif.Values.HB
