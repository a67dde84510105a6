import Verif.Values.Races
/-!
`values::observable` used by several threads: updates and reads (C110), registrations (C111), what a reader may rely on
(C112), and the `on_update` functions (C113).
-/
namespace Verif.Values.HB
open Verif Verif.HB Verif.Values

variable {T : IntTy} {i m m' : State} {G : State → Lbl → Prop} {ls : List Lbl} {l : Lbl}

theorem step_eq (h : step T m l = some m') : ∃ r, effect T m l = some r ∧
    m' = ⟨r.1, put m.pc l.who r.2, m.mem.run l.who (ops m l), record T m l⟩ := by
  unfold step at h
  split at h
  · next r hr => exact ⟨r, hr, (Option.some.inj h).symm⟩
  · cases h

theorem step_mem (h : step T m l = some m') : m'.mem = m.mem.run l.who (ops m l) := by
  obtain ⟨r, -, rfl⟩ := step_eq h
  rfl

theorem Run.memOk (h : Run T i G ls m) (hi : i.mem.Ok) : m.mem.Ok := by
  induction h with
  | start => exact hi
  | step ls m m' l _ _ hs ih => rw [step_mem hs]; exact ih.run _ _

/-! ### C110 -/

/-- Operations that only read places in `R`, by a thread that comes after all writes to them, do not race. -/
theorem no_race {R : Loc → Prop} {t : Nat} : ∀ (os : List MOp) (m : Mem Nat Loc Obj),
    (∀ loc tag, .acc loc true tag ∈ os → ¬ R loc) →
    (∀ a ∈ m.log, R a.loc → a.wr = true → a.time ≤ m.clk t a.who) → ¬ m.Races R t os
  | [], _, _, _ => id
  | o :: os, m, ho, hk => by
    have hk' : ∀ a ∈ (m.op t o).log, R a.loc → a.wr = true → a.time ≤ (m.op t o).clk t a.who := by
      intro a ha hl hw
      have old : a ∈ m.log → a.time ≤ (m.op t o).clk t a.who := fun ha =>
        Nat.le_trans (hk a ha hl hw) (m.op_clk_le t o t _)
      cases o with
      | acc loc wr tag =>
        simp only [Mem.op, List.mem_cons] at ha
        rcases ha with rfl | ha
        · simp only at hw hl
          subst hw
          exact absurd hl (ho loc tag List.mem_cons_self)
        · exact old ha
      | _ => exact old ha
    have ih := no_race os (m.op t o) (fun loc tag h => ho loc tag (List.mem_cons_of_mem _ h)) hk'
    cases o with
    | acc loc wr tag =>
      simp only [Mem.Races]
      rintro (⟨hR, a, ha, hl, hw, hlt⟩ | h)
      · have hwr : wr = false := by
          cases wr with
          | false => rfl
          | true => exact absurd hR (ho loc tag List.mem_cons_self)
        subst hwr
        have := hk a ha (by rw [hl]; exact hR) (by simpa using hw)
        omega
      · exact ih h
    | _ => simpa only [Mem.Races] using ih

/-- Updates and reads write nothing of the library's that is not atomic. -/
theorem ops_reads (m : State) {l : Lbl} (hl : noConfig m l) (loc : Loc) (tag : Nat) (h : .acc loc true tag ∈ ops m l) :
    ¬ lib loc := by
  cases l with
  | config t op => exact hl.elim
  | begin t op => cases op <;> simp [ops, updateOps] at h
  | enter t =>
    simp only [ops] at h
    split at h <;> simp at h
  | deliver t o =>
    simp only [ops] at h
    split at h
    · simp only [deliverOps] at h
      split at h <;> simp at h
    · simp at h
  | touch t n wr =>
    simp only [ops, List.mem_singleton] at h
    cases h
    exact id
  | _ => simp [ops] at h

/-- Every thread comes after everything that was done to the memory of the library's. -/
def Settled (m : State) : Prop := m.mem.Ok ∧ ∀ a ∈ m.mem.log, lib a.loc → ∀ t, a.time ≤ m.mem.clk t a.who

theorem Settled.start (st : St) : Settled (State.start st) := ⟨Mem.Ok.new, fun _ h => by cases h⟩

theorem log_run (t : Nat) (a : Access Nat Loc) : ∀ (os : List MOp) (m : Mem Nat Loc Obj), a ∈ (m.run t os).log →
    a ∈ m.log ∨ a.who = t ∧ .acc a.loc a.wr a.tag ∈ os
  | [], _, h => .inl h
  | o :: os, m, h => by
    rcases log_run t a os (m.op t o) h with h | ⟨h1, h2⟩
    · cases o with
      | acc loc wr tag =>
        simp only [Mem.op, List.mem_cons] at h
        rcases h with rfl | h
        · exact .inr ⟨rfl, List.mem_cons_self⟩
        · exact .inl h
      | _ => exact .inl h
    · exact .inr ⟨h1, List.mem_cons_of_mem _ h2⟩

theorem Run.writes (hi : Settled i) (h : Run T i noConfig ls m) :
    ∀ a ∈ m.mem.log, lib a.loc → a.wr = true → ∀ t, a.time ≤ m.mem.clk t a.who := by
  induction h with
  | start => exact fun a ha hl _ => hi.2 a ha hl
  | step ls m m' l _ hg hs ih =>
    intro a ha hl hw t
    rw [step_mem hs] at ha ⊢
    rcases log_run _ _ _ _ ha with ha | ⟨-, ha⟩
    · exact Nat.le_trans (ih a ha hl hw t) (m.mem.clk_run _ _ _ _)
    · rw [hw] at ha
      exact absurd hl (ops_reads m hg _ _ ha)

/-- **C110**: from any state in which all threads come after what was registered, any number of threads may update the
observable and read values, in any order and also from `on_update` functions: no access to memory of the library's is a
data race. -/
theorem C110_no_races (hi : Settled i) (h : Run T i noConfig ls m) (hl : noConfig m l) (_ : step T m l = some m') :
    ¬ Race lib m l :=
  no_race _ _ (fun loc tag h => ops_reads m hl loc tag h) fun a ha hla hw => h.writes hi a ha hla hw _

/-! ### C111 -/

theorem Mem.clk_acq {t u v : Nat} : ∀ (os : List MOp) (m : Mem Nat Loc Obj), (∀ o, .acq o ∉ os) → v ≠ t →
    (m.run t os).clk u v = m.clk u v
  | [], _, _, _ => rfl
  | o :: os, m, h, hv => by
    rw [Mem.run, Mem.clk_acq os _ (fun x hx => h x (List.mem_cons_of_mem _ hx)) hv]
    cases o with
    | acq o => exact absurd List.mem_cons_self (h o)
    | acc loc wr tag =>
      by_cases e : u = t
      · subst e; simp only [Mem.op, put_same, put_ne _ _ hv]
      · simp only [Mem.op, put_ne _ _ e]
    | _ => rfl

theorem not_acquires {l : Lbl} (h : ¬ l.acquires) (m : State) (o : Obj) : .acq o ∉ ops m l := by
  have hre : ∀ (i n : Nat), .acq o ∉ readOps i n := by
    intro i n
    induction n generalizing i with
    | zero => simp [readOps]
    | succ n ih => simp [readOps, ih]
  have hfi : ∀ (p : Nat) (l : List (Option Nat)) (i : Nat), .acq o ∉ findOps p l i := by
    intro p l
    induction l with
    | nil => simp [findOps]
    | cons a l ih => intro i; simp only [findOps]; split <;> simp [ih]
  have hrm : ∀ (p : Nat) (l : List (Option Nat)) (i w : Nat), .acq o ∉ removeOps p l i w := by
    intro p l
    induction l with
    | nil => simp [removeOps]
    | cons a l ih => intro i w; simp only [removeOps]; (repeat' split) <;> simp [ih]
  cases l with
  | begin t op => cases op <;> simp_all [ops, updateOps, Lbl.acquires]
  | enter t => simp only [ops]; split <;> simp
  | deliver t o =>
    simp only [ops]
    split
    · simp only [deliverOps]; split <;> simp
    · simp
  | config t op =>
    cases op with
    | add p =>
      simp only [ops, configOps]
      cases m.st.reg <;> simp only [addOps] <;> (repeat' split) <;> simp [hfi]
    | remove p =>
      simp only [ops, configOps]
      cases m.st.reg <;> simp only [rmOps] <;> (repeat' split) <;> simp [hrm]
    | clear =>
      simp only [ops, configOps]
      cases m.st.reg <;> simp [clearOps, hre]
    | _ => simp [ops, configOps]
  | value t => exact absurd trivial h
  | held t p => exact absurd trivial h
  | acq t n => exact absurd trivial h
  | _ => simp [ops]

theorem not_releases {l : Lbl} (h : ¬ l.releases) (m : State) (o : Obj) : .rel o ∉ ops m l ∧ .sto o ∉ ops m l := by
  have hre : ∀ (i n : Nat), .rel o ∉ readOps i n ∧ .sto o ∉ readOps i n := by
    intro i n
    induction n generalizing i with
    | zero => simp [readOps]
    | succ n ih => simp [readOps, ih]
  have hfi : ∀ (p : Nat) (l : List (Option Nat)) (i : Nat), .rel o ∉ findOps p l i ∧ .sto o ∉ findOps p l i := by
    intro p l
    induction l with
    | nil => simp [findOps]
    | cons a l ih => intro i; simp only [findOps]; split <;> simp [ih]
  have hrm : ∀ (p : Nat) (l : List (Option Nat)) (i w : Nat), .rel o ∉ removeOps p l i w ∧ .sto o ∉ removeOps p l i w := by
    intro p l
    induction l with
    | nil => simp [removeOps]
    | cons a l ih => intro i w; simp only [removeOps]; (repeat' split) <;> simp [ih]
  cases l with
  | begin t op => exact absurd trivial h
  | deliver t p => exact absurd trivial h
  | rel t n => exact absurd trivial h
  | enter t => simp only [ops]; split <;> simp
  | config t op =>
    cases op with
    | add p =>
      simp only [ops, configOps]
      cases m.st.reg <;> simp only [addOps] <;> (repeat' split) <;> simp [hfi]
    | remove p =>
      simp only [ops, configOps]
      cases m.st.reg <;> simp only [rmOps] <;> (repeat' split) <;> simp [hrm]
    | clear =>
      simp only [ops, configOps]
      cases m.st.reg <;> simp [clearOps, hre]
    | _ => simp [ops, configOps]
  | _ => simp [ops]

/-- Nobody else, and no object, knows of access `n` of `t`. -/
def Hidden (m : Mem Nat Loc Obj) (t n : Nat) : Prop := (∀ u, u ≠ t → m.clk u t < n) ∧ ∀ o, m.sync o t < n

theorem Hidden.op {m : Mem Nat Loc Obj} {t n v : Nat} (h : Hidden m t n) (o : MOp)
    (ho : v = t → ∀ x, o ≠ .rel x ∧ o ≠ .sto x) : Hidden (m.op v o) t n := by
  refine ⟨fun u hu => ?_, fun x => ?_⟩
  · have h1 := h.1 u hu
    cases o with
    | acq x =>
      have h2 := h.2 x
      by_cases e : u = v
      · subst e; simp only [Mem.op, put_same]; omega
      · simp only [Mem.op, put_ne _ _ e]; exact h1
    | acc loc wr tag =>
      by_cases e : u = v
      · subst e; simp only [Mem.op, put_same, put_ne _ _ (Ne.symm hu)]; exact h1
      · simp only [Mem.op, put_ne _ _ e]; exact h1
    | rel x => exact h1
    | sto x => exact h1
  · have h2 := h.2 x
    cases o with
    | rel y =>
      have hv : v ≠ t := fun e => (ho e y).1 rfl
      have h1 := h.1 v hv
      by_cases e : x = y
      · subst e; simp only [Mem.op, put_same]; omega
      · simp only [Mem.op, put_ne _ _ e]; exact h2
    | sto y =>
      have hv : v ≠ t := fun e => (ho e y).2 rfl
      have h1 := h.1 v hv
      by_cases e : x = y
      · subst e; simp only [Mem.op, put_same]; exact h1
      · simp only [Mem.op, put_ne _ _ e]; exact h2
    | acq y => exact h2
    | acc loc wr tag => exact h2

theorem Hidden.run {m : Mem Nat Loc Obj} {t n v : Nat} (h : Hidden m t n) (os : List MOp)
    (ho : v = t → ∀ x, .rel x ∉ os ∧ .sto x ∉ os) : Hidden (m.run v os) t n := by
  induction os generalizing m with
  | nil => exact h
  | cons o os ih =>
    refine ih (h.op o fun e x => ⟨?_, ?_⟩) fun e x => ⟨?_, ?_⟩
    · rintro rfl; exact (ho e x).1 List.mem_cons_self
    · rintro rfl; exact (ho e x).2 List.mem_cons_self
    · exact fun hx => (ho e x).1 (List.mem_cons_of_mem _ hx)
    · exact fun hx => (ho e x).2 (List.mem_cons_of_mem _ hx)

/-- An access among operations that release nothing is hidden at first. -/
theorem hidden_first {t : Nat} {loc : Loc} {wr : Bool} {tag : Nat} : ∀ (os : List MOp) (m : Mem Nat Loc Obj), m.Ok →
    (.acc loc wr tag ∈ os) → (∀ x, .rel x ∉ os ∧ .sto x ∉ os) →
    ∃ a ∈ (m.run t os).log, a.who = t ∧ a.loc = loc ∧ a.wr = wr ∧ Hidden (m.run t os) t a.time
  | o :: os, m, hok, hin, hno => by
    have hno' : ∀ x, .rel x ∉ os ∧ .sto x ∉ os := fun x =>
      ⟨fun h => (hno x).1 (List.mem_cons_of_mem _ h), fun h => (hno x).2 (List.mem_cons_of_mem _ h)⟩
    rcases List.mem_cons.1 hin with e | hin
    · subst e
      refine ⟨⟨t, m.clk t t + 1, loc, wr, tag⟩, Mem.log_mono (m.op t (.acc loc wr tag)) t os _ (by simp [Mem.op]),
        rfl, rfl, rfl, ?_⟩
      refine Hidden.run (m := m.op t (.acc loc wr tag)) ⟨fun u hu => ?_, fun x => ?_⟩ os fun _ => hno'
      · simp only [Mem.op, put_ne _ _ hu]
        have := hok.clk u t
        omega
      · have := hok.sync x t
        simp only [Mem.op]
        omega
    · exact hidden_first os (m.op t o) (hok.op t o) hin hno'

/-- An access that `u` does not know of races with an access of `u` to the same place, if one of the two writes. -/
theorem races_of_mem {R : Loc → Prop} {u : Nat} {a : Access Nat Loc} {wr : Bool} {tag : Nat} (hR : R a.loc)
    (hw : a.wr = true ∨ wr = true) (hu : a.who ≠ u) : ∀ (os : List MOp) (m : Mem Nat Loc Obj),
    (∀ o, .acq o ∉ os) → (.acc a.loc wr tag ∈ os) → a ∈ m.log → m.clk u a.who < a.time → m.Races R u os
  | o :: os, m, hno, hin, ha, hlt => by
    rcases List.mem_cons.1 hin with e | hin
    · subst e
      exact .inl ⟨hR, a, ha, rfl, hw, hlt⟩
    · have hno' : ∀ x, .acq x ∉ os := fun x h => hno x (List.mem_cons_of_mem _ h)
      have ih := races_of_mem hR hw hu os (m.op u o) hno' hin (Mem.log_mono m u [o] a ha) (by
        have := Mem.clk_acq (t := u) (u := u) (v := a.who) [o] m
          (fun x h => hno x (by rw [List.mem_singleton.1 h]; exact List.mem_cons_self)) hu
        simp only [Mem.run] at this
        omega)
      cases o with
      | acc loc wr tag => exact .inr ih
      | _ => exact ih

theorem Run.log (h : Run T i G ls m) : ∀ a ∈ i.mem.log, a ∈ m.mem.log := by
  induction h with
  | start => exact fun a ha => ha
  | step ls m m' l _ _ hs ih =>
    intro a ha
    rw [step_mem hs]
    exact Mem.log_mono _ _ _ _ (ih a ha)

theorem Run.apart {t u n : Nat} (hne : u ≠ t) (hap : Apart G t u) (h : Run T i G ls m) (hh : Hidden i.mem t n) :
    m.mem.clk u t < n := by
  rcases hap with hap | hap
  · induction h with
    | start => exact hh.1 u hne
    | step ls m m' l _ hg hs ih =>
      rw [step_mem hs]
      by_cases e : l.who = u
      · rw [e, Mem.clk_acq _ _ (not_acquires (hap _ l hg e) m) (Ne.symm hne)]
        exact ih
      · rw [Mem.clk_other _ (Ne.symm e)]
        exact ih
  · have : Hidden m.mem t n := by
      induction h with
      | start => exact hh
      | step ls m m' l _ hg hs ih =>
        rw [step_mem hs]
        exact ih.run _ fun e x => not_releases (hap _ l hg e) m x
    exact this.1 u hne

/-- The step `l1` of `t` accesses a place, then nothing is passed on to `u`, and then the step `l2` of `u` accesses the
same place: a data race if one of the two writes. -/
theorem race_later {m0 m1 : State} {l1 l2 : Lbl} {u : Nat} {loc : Loc} {w1 w2 : Bool} {tag1 tag2 : Nat}
    (hok : m0.mem.Ok) (h1 : step T m0 l1 = some m1) (hne : l1.who ≠ u) (hu : l2.who = u)
    (hpass : ∃ pre post, ops m0 l1 = pre ++ post ∧ .acc loc w1 tag1 ∈ post ∧ ∀ x, .rel x ∉ post ∧ .sto x ∉ post)
    (hap : Apart G l1.who u) (h : Run T m1 G ls m) (hno : ¬ l2.acquires) (hin : .acc loc w2 tag2 ∈ ops m l2)
    (hw : w1 = true ∨ w2 = true) {R : Loc → Prop} (hR : R loc) : Race R m l2 := by
  subst hu
  obtain ⟨pre, post, he, hin1, hrel⟩ := hpass
  have run_append : ∀ (xs ys : List MOp) (m : Mem Nat Loc Obj) (t : Nat), m.run t (xs ++ ys) = (m.run t xs).run t ys := by
    intro xs
    induction xs with
    | nil => intros; rfl
    | cons x xs ih => intro ys m t; exact ih ys _ t
  obtain ⟨a, ha, hwho, hloc, hwr, hhid⟩ := hidden_first (t := l1.who) post (m0.mem.run l1.who pre) (hok.run _ _) hin1 hrel
  have hm1 : m1.mem = (m0.mem.run l1.who pre).run l1.who post := by rw [step_mem h1, he, run_append]
  rw [← hm1] at ha hhid
  subst hloc
  exact races_of_mem hR (by rw [hwr]; exact hw) (by rw [hwho]; exact hne) _ _ (not_acquires hno m) hin (h.log a ha)
    (by rw [hwho]; exact h.apart (Ne.symm hne) hap hhid)

theorem containsArr_false {o : Nat} {arr : List (Option Nat)} : ∀ (n i : Nat), containsArr o arr n i = .ok false →
    some o ∉ (arr.drop i).take n
  | 0, _, _ => by simp
  | n + 1, i, h => by
    simp only [containsArr] at h
    cases hi : arr[i]? with
    | none => rw [hi] at h; cases h
    | some p =>
      rw [hi] at h
      simp only at h
      split at h
      · cases h
      · next hp =>
        have ih := containsArr_false n (i + 1) h
        obtain ⟨hlt, rfl⟩ := List.getElem?_eq_some_iff.1 hi
        rw [List.drop_eq_getElem_cons hlt, List.take_succ_cons, List.mem_cons]
        rintro (e | e)
        · exact hp e.symm
        · exact ih e

/-- The operation changes the number of observers: `clear_observers`, or an `add_observer` that returns `ok`, or, for the
fixed-capacity variant, a `remove_observer` that returns `ok`.  (Of the dynamic variant `remove_observer` only moves
pointers, C47.) -/
def Changes (T : IntTy) (s : St) (op : Values.Op) : Prop :=
  op = .clear ∨ (∃ o s', op = .add o ∧ exec T s op = .ok (s', .err .ok)) ∨
    ∃ o s' arr n, op = .remove o ∧ s.reg = .fixed arr n ∧ exec T s op = .ok (s', .err .ok)

theorem Changes.writes {s : St} {op : Values.Op} (h : Changes T s op) : .acc .count true 1 ∈ configOps s.reg op := by
  rcases h with rfl | ⟨o, s', rfl, h⟩ | ⟨o, s', arr, n, rfl, hr, h⟩
  · simp only [configOps]
    cases s.reg <;> simp [clearOps]
  · simp only [configOps]
    simp only [exec, errOf, add] at h
    cases hr : s.reg with
    | fixed arr n =>
      simp only [hr] at h
      split at h
      · simp only [Res.ok_bind] at h; cases h
      · next hn =>
        cases hc : containsArr o arr n 0 with
        | ok b =>
          cases b with
          | true => simp [hc, Res.ok_bind] at h
          | false =>
            have := containsArr_false n 0 hc
            simp only [List.drop_zero] at this
            simp [addOps, hn, this]
        | ub => rw [hc] at h; cases h
        | hang => rw [hc] at h; cases h
    | dyn vec =>
      simp only [hr, containsVec_eq] at h
      by_cases ho : o ∈ vec
      · simp [ho, Res.ok_bind] at h
      · simp [addOps, ho]
  · simp only [configOps, hr]
    simp only [exec, errOf, remove, hr] at h
    split at h
    · simp only [Res.ok_bind] at h; cases h
    · next hn =>
      split at h
      · simp only [Res.ok_bind] at h; cases h
      · next h0 =>
        by_cases ho : some o ∈ arr.take n
        · simp [rmOps, hn, h0, ho]
        · have hf : (arr.take n).filter (fun y => y ≠ some o) = arr.take n := by
            rw [List.filter_eq_self]
            intro a ha
            simp only [ne_eq, decide_not, Bool.not_eq_eq_eq_not, Bool.not_true, decide_eq_false_iff_not]
            rintro rfl
            exact ho ha
          have hlen : n - (stdRemove (some o) (arr.take n)).2 = 0 := by
            simp only [stdRemove, hf, List.length_take]
            omega
          simp only [hlen, ne_eq, not_true, if_false, Res.ok_bind] at h
          cases h

/-- **C111 is false, always**: once an update of thread `t` has read the number of observers, every `clear_observers`,
successful `add_observer` and (fixed capacity) successful `remove_observer` of another thread is a data race, as long as
nothing has been passed on from `t` to that thread since: it has not read an atomic or acquired an object, or `t` has not
delivered to an observer, started another update or released an object.  In particular it does not help to wait until
`value()` has changed. -/
theorem C111_registration_races {i0 m0 m1 : State} {G0 : State → Lbl → Prop} {ls0 : List Lbl} (hi : i0.mem.Ok)
    (h0 : Run T i0 G0 ls0 m0) {t u : Nat} (hne : t ≠ u) (h1 : step T m0 (.enter t) = some m1) (hap : Apart G t u)
    (h : Run T m1 G ls m) {op : Values.Op} (hop : Changes T m.st op) : Race lib m (.config u op) := by
  refine race_later (l1 := .enter t) (loc := .count) (w1 := false) (w2 := true) (tag1 := 0) (h0.memOk hi) h1 hne rfl
    ⟨[], ops m0 (.enter t), rfl, ?_, fun x => not_releases (l := .enter t) id m0 x⟩ hap h id hop.writes (.inr rfl) trivial
  simp only [ops]
  cases m0.st.reg <;> simp

/-- The other way round: after such a change, an update of another thread races when it reads the number of observers, as
long as nothing has been passed on to that thread. -/
theorem C111_update_races {i0 m0 m1 : State} {G0 : State → Lbl → Prop} {ls0 : List Lbl} (hi : i0.mem.Ok)
    (h0 : Run T i0 G0 ls0 m0) {t u : Nat} (hne : t ≠ u) {op : Values.Op} (hop : Changes T m0.st op)
    (h1 : step T m0 (.config t op) = some m1) (hap : Apart G t u) (h : Run T m1 G ls m) : Race lib m (.enter u) := by
  refine race_later (l1 := .config t op) (loc := .count) (w1 := true) (w2 := false) (tag2 := 0) (h0.memOk hi) h1 hne rfl
    ⟨[], _, rfl, hop.writes, fun x => not_releases (l := .config t op) id m0 x⟩ hap h id ?_ (.inl rfl) trivial
  simp only [ops]
  cases m.st.reg <;> simp

/-- The same for the functions: after a delivery to `o`, `on_update` of `o` in another thread is a data race as long as
nothing has been passed on to that thread. -/
theorem C111_on_update_races {i0 m0 m1 : State} {G0 : State → Lbl → Prop} {ls0 : List Lbl} (hi : i0.mem.Ok)
    (h0 : Run T i0 G0 ls0 m0) {t u o : Nat} (hne : t ≠ u) (h1 : step T m0 (.deliver t o) = some m1) (hap : Apart G t u)
    (h : Run T m1 G ls m) (b : Bool) : Race lib m (.config u (.onUpdate o b)) := by
  obtain ⟨r, he, -⟩ := step_eq h1
  simp only [effect] at he
  split at he
  · next v i n fs hpc =>
    have hops : ops m0 (.deliver t o) = [.acc (.slot i) false 0, .sto (.held o)] ++
        (.acc (.fn o) false 0 :: if m0.st.fn o then [.acc (.fn o) false 0] else []) := by
      simp [ops, hpc, deliverOps]
    refine race_later (l1 := .deliver t o) (loc := .fn o) (w1 := false) (w2 := true) (tag1 := 0) (tag2 := 1) (h0.memOk hi)
      h1 hne rfl ⟨_, _, hops, by simp, fun x => ?_⟩ hap h id (by simp [ops, configOps]) (.inr rfl) trivial
    split <;> simp
  · cases he

/-- And back: after `on_update` of `o`, a delivery to `o` by another thread. -/
theorem C111_delivery_races {i0 m0 m1 : State} {G0 : State → Lbl → Prop} {ls0 : List Lbl} (hi : i0.mem.Ok)
    (h0 : Run T i0 G0 ls0 m0) {t u o : Nat} (hne : t ≠ u) {b : Bool} (h1 : step T m0 (.config t (.onUpdate o b)) = some m1)
    (hap : Apart G t u) (h : Run T m1 G ls m) (h2 : step T m (.deliver u o) = some m') : Race lib m (.deliver u o) := by
  obtain ⟨r, he, -⟩ := step_eq h2
  simp only [effect] at he
  split at he
  · next v i n fs hpc =>
    refine race_later (l1 := .config t (.onUpdate o b)) (loc := .fn o) (w1 := true) (w2 := false) (tag1 := 1) (tag2 := 0)
      (h0.memOk hi) h1 hne rfl ⟨[], _, rfl, by simp [ops, configOps], fun x => by simp [ops, configOps]⟩
      hap h id ?_ (.inl rfl) trivial
    simp [ops, hpc, deliverOps]
  · cases he

end Verif.Values.HB
