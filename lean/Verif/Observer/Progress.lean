import Verif.Observer.Threads
/-!
Property C84: the lock of `observable<T, false>` (observer.hpp:200-344) is never lost.  Unless a callback calls
back into the object (C41), every call that was begun returns.
-/
namespace Verif.Observer.Conc
open Verif Verif.Observer

variable {V : Type}

/-- A step of thread `t` that does not begin a call: neither the thread nor a callback calls a function. -/
def Calm (t : Nat) (s s' : Sys V) : Prop := Step true t s s' ∧ (s'.stk t).length ≤ (s.stk t).length

/-- `n` such steps of any threads. -/
inductive CalmRun : Sys V → Nat → Sys V → Prop
  | nil (s : Sys V) : CalmRun s 0 s
  | step (s s1 s2 : Sys V) (n t : Nat) : Calm t s s1 → CalmRun s1 n s2 → CalmRun s (n + 1) s2

/-- The steps a call still needs when at most `k` observers are registered. -/
def work (k : Nat) : Pc → Nat
  | .enter => 2 * k + 5
  | .check => 3
  | .push => 2
  | .scan i => 2 * (k - i) + 2
  | .inside i _ => 2 * (k - i) + 1
  | .finish _ => 1

/-- The steps a thread still needs. -/
def stackWork (k : Nat) : List (Frame V) → Nat
  | [] => 0
  | f :: _ => work k f.pc

/-- The observers a thread may still add. -/
def mayAdd : List (Frame V) → Nat
  | [⟨.add _, .enter⟩] => 1
  | [⟨.add _, .check⟩] => 1
  | [⟨.add _, .push⟩] => 1
  | _ => 0

/-- Sum over the threads below `n`. -/
def sumTo (f : Nat → Nat) : Nat → Nat
  | 0 => 0
  | n + 1 => sumTo f n + f n

theorem sumTo_mono {f g : Nat → Nat} : ∀ {n : Nat}, (∀ k, k < n → f k ≤ g k) → sumTo f n ≤ sumTo g n
  | 0, _ => Nat.le_refl _
  | n + 1, h => by
    have h1 := sumTo_mono (n := n) fun k hk => h k (by omega)
    have h2 := h n (by omega)
    simp only [sumTo]
    omega

/-- All terms but one grow weakly; that one by `d`. -/
theorem sumTo_gap {f g : Nat → Nat} {d : Nat} : ∀ {n : Nat} (j : Nat), j < n → (∀ k, k < n → f k ≤ g k) →
    f j + d ≤ g j → sumTo f n + d ≤ sumTo g n
  | 0, j, hj, _, _ => by omega
  | n + 1, j, hj, h, hlt => by
    have h2 := h n (by omega)
    simp only [sumTo]
    by_cases hn : j = n
    · subst hn
      have h1 := sumTo_mono (n := j) fun k hk => h k (by omega)
      omega
    · have h1 := sumTo_gap (n := n) j (by omega) (fun k hk => h k (by omega)) hlt
      omega

theorem sumTo_le (f : Nat → Nat) (c : Nat) (h : ∀ k, f k ≤ c) : ∀ n, sumTo f n ≤ n * c
  | 0 => by simp [sumTo]
  | n + 1 => by
    have := sumTo_le f c h n
    have := h n
    simp only [sumTo, Nat.succ_mul]
    omega

theorem work_mono {k k' : Nat} (h : k ≤ k') (pc : Pc) : work k pc ≤ work k' pc := by
  cases pc <;> simp only [work] <;> omega

theorem stackWork_mono {k k' : Nat} (h : k ≤ k') (st : List (Frame V)) : stackWork k st ≤ stackWork k' st := by
  cases st with
  | nil => exact Nat.le_refl _
  | cons f st => exact work_mono h f.pc

/-- A bound on the number of observers that can be registered by the calls under way. -/
def limit (n : Nat) (s : Sys V) : Nat := s.obs.length + sumTo (fun t => mayAdd (s.stk t)) n

/-- The steps all threads together still need. -/
def total (n : Nat) (s : Sys V) : Nat := sumTo (fun t => stackWork (limit n s) (s.stk t)) n

/-- All calls are calls of threads below `n` and no callback has made one. -/
structure Flat (n : Nat) (s : Sys V) : Prop where
  idle : ∀ t, n ≤ t → s.stk t = []
  flat : ∀ t, (s.stk t).length ≤ 1

/-- What a calm step does. -/
theorem Calm.moves {n t : Nat} {s s' : Sys V} (hi : Inv s) (hf : Flat n s) (h : Calm t s s') :
    Flat n s' ∧ total n s' < total n s ∧
    ∃ op pc, s.stk t = [⟨op, pc⟩] ∧ (∀ u, u ≠ t → s'.stk u = s.stk u ∧ s'.done u = s.done u) ∧
      ((∃ pc', s'.stk t = [⟨op, pc'⟩] ∧ s'.done t = s.done t) ∨
        ∃ r, s'.stk t = [] ∧ s'.done t = s.done t ++ [(op, r)]) := by
  obtain ⟨hs, hlen⟩ := h
  -- a step of thread `t` from frame to frame
  have key : ∀ (op : Op V) (pc : Pc) (st' : List (Frame V)) (obs' : List Nat) (lock' : Option Nat)
      (log' : List (Nat × Ev V)) (done' : Nat → List (Op V × Err)), s.stk t = [⟨op, pc⟩] →
      st'.length ≤ 1 → mayAdd st' ≤ mayAdd (s.stk t) → obs'.length + mayAdd st' ≤ s.obs.length + mayAdd (s.stk t) →
      (∀ k, s.obs.length ≤ k → stackWork k st' < work k pc) →
      let s' : Sys V := { s with stk := upd s.stk t st', obs := obs', lock := lock', log := log', done := done' }
      Flat n s' ∧ total n s' < total n s := by
    intro op pc st' obs' lock' log' done' hst hl hm hobs hw
    have htn : t < n := by
      apply Nat.lt_of_not_le
      intro hge
      rw [hf.idle t hge] at hst
      cases hst
    refine ⟨⟨fun u hu => ?_, fun u => ?_⟩, ?_⟩
    · have hne : u ≠ t := by omega
      simp only [upd_other _ _ hne]
      exact hf.idle u hu
    · by_cases hu : u = t
      · subst hu
        simpa only [upd_same] using hl
      · simp only [upd_other _ _ hu]
        exact hf.flat u
    · have hlim : limit n { s with stk := upd s.stk t st', obs := obs', lock := lock', log := log', done := done' } ≤
          limit n s := by
        simp only [limit]
        have := sumTo_gap (f := fun u => mayAdd (upd s.stk t st' u)) (g := fun u => mayAdd (s.stk u))
          (d := mayAdd (s.stk t) - mayAdd st') (n := n) t htn
          (fun u _ => by
            by_cases hu : u = t
            · subst hu; simpa only [upd_same] using hm
            · simp only [upd_other _ _ hu]; exact Nat.le_refl _)
          (by simp only [upd_same]; omega)
        omega
      have := sumTo_gap
        (f := fun u => stackWork (limit n { s with stk := upd s.stk t st', obs := obs', lock := lock', log := log', done := done' })
          (upd s.stk t st' u))
        (g := fun u => stackWork (limit n s) (s.stk u)) (d := 1) (n := n) t htn
        (fun u _ => by
          by_cases hu : u = t
          · subst hu
            simp only [upd_same]
            rw [hst]
            refine Nat.le_trans (stackWork_mono hlim st') (Nat.le_of_lt (hw _ ?_))
            simp only [limit]
            omega
          · simp only [upd_other _ _ hu]
            exact stackWork_mono hlim _)
        (by
          simp only [upd_same]
          rw [hst]
          have h1 := stackWork_mono hlim st'
          have h2 := hw (limit n s) (by simp only [limit]; omega)
          simp only [stackWork] at *
          omega)
      simp only [total]
      omega
  have single : ∀ (f : Frame V) (rest : List (Frame V)), s.stk t = f :: rest → rest = [] := by
    intro f rest hst
    have := hf.flat t
    rw [hst] at this
    simp only [List.length_cons] at this
    exact List.length_eq_zero_iff.1 (by omega)
  have others : ∀ (st' : List (Frame V)) (u : Nat), u ≠ t → upd s.stk t st' u = s.stk u ∧ s.done u = s.done u :=
    fun st' u hu => ⟨upd_other _ _ hu, rfl⟩
  cases hs with
  | invoke op h1 => simp only [upd_same, h1] at hlen; simp at hlen
  | nested op f i o rest h1 => simp only [upd_same, h1, List.length_cons] at hlen; omega
  | acquire op rest h1 h2 =>
    obtain rfl := single _ _ h1
    obtain ⟨k1, k2⟩ := key op .enter [⟨op, start op⟩] s.obs (if true then some t else s.lock) s.log s.done h1
      (by simp) (by rw [h1]; cases op <;> simp [start, mayAdd]) (by rw [h1]; cases op <;> simp [start, mayAdd])
      (fun k hk => by cases op <;> simp only [stackWork, start, work] <;> omega)
    exact ⟨k1, k2, op, .enter, h1, others _, .inl ⟨_, upd_same _ _ _, rfl⟩⟩
  | check o rest h1 =>
    obtain rfl := single _ _ h1
    obtain ⟨k1, k2⟩ := key (.add o) .check
      [⟨.add o, if !Dyn.scan o s.obs then .push else .finish .alreadyContains⟩] s.obs s.lock s.log s.done h1
      (by simp) (by rw [h1]; split <;> simp [mayAdd]) (by rw [h1]; split <;> simp [mayAdd])
      (fun k hk => by simp only [stackWork]; split <;> simp only [work] <;> omega)
    exact ⟨k1, k2, _, _, h1, others _, .inl ⟨_, upd_same _ _ _, rfl⟩⟩
  | push o rest h1 =>
    obtain rfl := single _ _ h1
    obtain ⟨k1, k2⟩ := key (.add o) .push [⟨.add o, .finish .ok⟩] (s.obs ++ [o]) s.lock s.log s.done h1
      (by simp) (by simp [mayAdd]) (by rw [h1]; simp [mayAdd]) (fun k hk => by simp only [stackWork, work]; omega)
    exact ⟨k1, k2, _, _, h1, others _, .inl ⟨_, upd_same _ _ _, rfl⟩⟩
  | erase o rest h1 =>
    obtain rfl := single _ _ h1
    have hle : (Dyn.erase o s.obs).length ≤ s.obs.length := by
      rw [Dyn.erase_eq]
      exact List.length_filter_le _ _
    obtain ⟨k1, k2⟩ := key (.remove o) .check [⟨.remove o,
        .finish (if s.obs.length - (Dyn.erase o s.obs).length = 0 then .notFound else .ok)⟩]
      (Dyn.erase o s.obs) s.lock s.log s.done h1 (by simp) (by simp [mayAdd]) (by rw [h1]; simp only [mayAdd]; omega)
      (fun k hk => by simp only [stackWork, work]; omega)
    exact ⟨k1, k2, _, _, h1, others _, .inl ⟨_, upd_same _ _ _, rfl⟩⟩
  | visit v i o rest h1 h2 =>
    obtain rfl := single _ _ h1
    obtain ⟨k1, k2⟩ := key (.notify v) (.scan i) [⟨.notify v, .inside i o⟩] s.obs s.lock
      (s.log ++ [(t, .enter s.self o v)]) s.done h1
      (by simp) (by simp [mayAdd]) (by rw [h1]; simp [mayAdd]) (fun k hk => by simp only [stackWork, work]; omega)
    exact ⟨k1, k2, _, _, h1, others _, .inl ⟨_, upd_same _ _ _, rfl⟩⟩
  | leave v i o rest h1 =>
    obtain rfl := single _ _ h1
    obtain ⟨_, _, _, ext, _, hrun⟩ := hi.holds h1 (by simp)
    simp only [Running] at hrun
    have hlt : i < s.obs.length := by
      rw [hrun.1]
      exact (List.getElem?_eq_some_iff.1 hrun.2.1).1
    obtain ⟨k1, k2⟩ := key (.notify v) (.inside i o) [⟨.notify v, .scan (i + 1)⟩] s.obs s.lock
      (s.log ++ [(t, .leave o)]) s.done h1
      (by simp) (by simp [mayAdd]) (by rw [h1]; simp [mayAdd]) (fun k hk => by simp only [stackWork, work]; omega)
    exact ⟨k1, k2, _, _, h1, others _, .inl ⟨_, upd_same _ _ _, rfl⟩⟩
  | last v i rest h1 h2 =>
    obtain rfl := single _ _ h1
    obtain ⟨k1, k2⟩ := key (.notify v) (.scan i) [⟨.notify v, .finish .ok⟩] s.obs s.lock s.log s.done h1
      (by simp) (by simp [mayAdd]) (by rw [h1]; simp [mayAdd]) (fun k hk => by simp only [stackWork, work]; omega)
    exact ⟨k1, k2, _, _, h1, others _, .inl ⟨_, upd_same _ _ _, rfl⟩⟩
  | disc i o rest h1 h2 =>
    obtain rfl := single _ _ h1
    obtain ⟨k1, k2⟩ := key .clear (.scan i) [⟨.clear, .inside i o⟩] s.obs s.lock
      (s.log ++ [(t, .disc s.self o)]) s.done h1
      (by simp) (by simp [mayAdd]) (by rw [h1]; simp [mayAdd]) (fun k hk => by simp only [stackWork, work]; omega)
    exact ⟨k1, k2, _, _, h1, others _, .inl ⟨_, upd_same _ _ _, rfl⟩⟩
  | discEnd i o rest h1 =>
    obtain rfl := single _ _ h1
    obtain ⟨_, _, _, ext, _, hrun⟩ := hi.holds h1 (by simp)
    simp only [Running] at hrun
    have hlt : i < s.obs.length := by
      rw [hrun.1]
      exact (List.getElem?_eq_some_iff.1 hrun.2.1).1
    obtain ⟨k1, k2⟩ := key .clear (.inside i o) [⟨.clear, .scan (i + 1)⟩] s.obs s.lock s.log s.done h1
      (by simp) (by simp [mayAdd]) (by rw [h1]; simp [mayAdd]) (fun k hk => by simp only [stackWork, work]; omega)
    exact ⟨k1, k2, _, _, h1, others _, .inl ⟨_, upd_same _ _ _, rfl⟩⟩
  | empty i rest h1 h2 =>
    obtain rfl := single _ _ h1
    obtain ⟨k1, k2⟩ := key .clear (.scan i) [⟨.clear, .finish .ok⟩] [] s.lock s.log s.done h1
      (by simp) (by simp [mayAdd]) (by rw [h1]; simp [mayAdd]) (fun k hk => by simp only [stackWork, work]; omega)
    exact ⟨k1, k2, _, _, h1, others _, .inl ⟨_, upd_same _ _ _, rfl⟩⟩
  | finish op r rest h1 =>
    obtain rfl := single _ _ h1
    obtain ⟨k1, k2⟩ := key op (.finish r) [] s.obs (if true then none else s.lock)
      (s.log ++ [(t, .ret op r)]) (upd s.done t (s.done t ++ [(op, r)])) h1
      (by simp) (by simp [mayAdd]) (by rw [h1]; simp [mayAdd]) (fun k hk => by simp only [stackWork, work]; omega)
    exact ⟨k1, k2, op, _, h1, fun u hu => ⟨upd_other _ _ hu, upd_other _ _ hu⟩,
      .inr ⟨r, upd_same _ _ _, upd_same _ _ _⟩⟩

/-- Somebody can move as long as a call is under way. -/
theorem can_move {n : Nat} {s : Sys V} (hi : Inv s) (hf : Flat n s) {t : Nat} (ht : s.stk t ≠ []) :
    ∃ u s', Calm u s s' := by
  cases hl : s.lock with
  | none =>
    rcases (hi.free hl).2.2 t with h | ⟨op, h⟩
    · exact absurd h ht
    · exact ⟨t, _, .acquire s op [] h fun _ => hl, by simp only [upd_same, h]; simp⟩
  | some u =>
    obtain ⟨_, ext, _, op, pc, hrun, hst⟩ := hi.held u hl
    have h1 : s.stk u = [⟨op, pc⟩] := by
      rcases hst with h | ⟨op', i, o, _, h⟩
      · exact h
      · have := hf.flat u
        rw [h] at this
        simp at this
    refine ⟨u, ?_⟩
    have len : ∀ (f g : Frame V), (upd s.stk u [f] u).length ≤ [g].length := fun f g => by
      rw [upd_same]
      simp
    cases op with
    | add o =>
      cases pc with
      | check => exact ⟨_, .check s o [] h1, by rw [h1]; exact len _ _⟩
      | push => exact ⟨_, .push s o [] h1, by rw [h1]; exact len _ _⟩
      | finish r => exact ⟨_, .finish s _ r [] h1, by simp only [upd_same]; simp⟩
      | enter => exact hrun.elim
      | scan i => exact hrun.elim
      | inside i o => exact hrun.elim
    | remove o =>
      cases pc with
      | check => exact ⟨_, .erase s o [] h1, by rw [h1]; exact len _ _⟩
      | finish r => exact ⟨_, .finish s _ r [] h1, by simp only [upd_same]; simp⟩
      | push => exact hrun.elim
      | enter => exact hrun.elim
      | scan i => exact hrun.elim
      | inside i o => exact hrun.elim
    | notify v =>
      cases pc with
      | scan i =>
        cases ho : s.obs[i]? with
        | some o => exact ⟨_, .visit s v i o [] h1 ho, by rw [h1]; exact len _ _⟩
        | none => exact ⟨_, .last s v i [] h1 (List.getElem?_eq_none_iff.1 ho), by rw [h1]; exact len _ _⟩
      | inside i o => exact ⟨_, .leave s v i o [] h1, by rw [h1]; exact len _ _⟩
      | finish r => exact ⟨_, .finish s _ r [] h1, by simp only [upd_same]; simp⟩
      | check => exact hrun.elim
      | push => exact hrun.elim
      | enter => exact hrun.elim
    | clear =>
      cases pc with
      | scan i =>
        cases ho : s.obs[i]? with
        | some o => exact ⟨_, .disc s i o [] h1 ho, by rw [h1]; exact len _ _⟩
        | none => exact ⟨_, .empty s i [] h1 (List.getElem?_eq_none_iff.1 ho), by rw [h1]; exact len _ _⟩
      | inside i o => exact ⟨_, .discEnd s i o [] h1, by rw [h1]; exact len _ _⟩
      | finish r => exact ⟨_, .finish s _ r [] h1, by simp only [upd_same]; simp⟩
      | check => exact hrun.elim
      | push => exact hrun.elim
      | enter => exact hrun.elim

theorem total_le (n : Nat) (s : Sys V) : total n s ≤ n * (2 * (s.obs.length + n) + 5) := by
  have hlim : limit n s ≤ s.obs.length + n := by
    have := sumTo_le (fun t => mayAdd (s.stk t)) 1 (fun t => by unfold mayAdd; split <;> omega) n
    simp only [limit]
    omega
  refine sumTo_le _ _ (fun t => ?_) n
  refine Nat.le_trans (stackWork_mono hlim _) ?_
  cases s.stk t with
  | nil => simp [stackWork]
  | cons f st =>
    simp only [stackWork]
    cases f.pc <;> simp only [work] <;> omega

/-- **C84.**  Take any reachable state in which `n` threads may be inside calls and no callback has called back.
Whatever the schedule, while no further call is begun: there are at most `n * (2 * (registered + n) + 5)` steps; as
long as a call is under way some thread can take a step; and when no step is left, every call that was under way
has returned, once, to its thread. -/
theorem C84_calls_return {s : Sys V} (h : Reach true s) {n : Nat} (hidle : ∀ t, n ≤ t → s.stk t = [])
    (hflat : ∀ t, (s.stk t).length ≤ 1) {m : Nat} {s' : Sys V} (hr : CalmRun s m s') :
    m ≤ n * (2 * (s.obs.length + n) + 5) ∧
    ((∃ t, s'.stk t ≠ []) → ∃ u s'', Calm u s' s'') ∧
    ((∀ u s'', ¬ Calm u s' s'') → ∀ t, s'.stk t = [] ∧
      (s.stk t = [] → s'.done t = s.done t) ∧
      ∀ op pc, s.stk t = [⟨op, pc⟩] → ∃ r, s'.done t = s.done t ++ [(op, r)]) := by
  have key : ∀ {s s' : Sys V} {m : Nat}, CalmRun s m s' → Inv s → Flat n s → Inv s' ∧ Flat n s' ∧
      m + total n s' ≤ total n s ∧ ∀ t, (s.stk t = [] → s'.stk t = [] ∧ s'.done t = s.done t) ∧
        ∀ op pc, s.stk t = [⟨op, pc⟩] → (∃ pc', s'.stk t = [⟨op, pc'⟩] ∧ s'.done t = s.done t) ∨
          (s'.stk t = [] ∧ ∃ r, s'.done t = s.done t ++ [(op, r)]) := by
    intro s s' m hr
    induction hr with
    | nil s => exact fun hi hf => ⟨hi, hf, by omega, fun t => ⟨fun h => ⟨h, rfl⟩, fun op pc h => .inl ⟨pc, h, rfl⟩⟩⟩
    | step s s1 s2 n' t hc _ ih =>
      intro hi hf
      obtain ⟨f1, f2, op, pc, f3, f4, f5⟩ := hc.moves hi hf
      obtain ⟨i1, i2, i3, i4⟩ := ih (inv_step hi hc.1) f1
      refine ⟨i1, i2, by omega, fun u => ?_⟩
      by_cases hu : u = t
      · subst hu
        refine ⟨fun h => ?_, fun op' pc' h => ?_⟩
        · rw [f3] at h
          cases h
        · rw [f3] at h
          cases h
          rcases f5 with ⟨pc'', g1, g2⟩ | ⟨r, g1, g2⟩
          · rw [← g2]
            exact (i4 u).2 op pc'' g1
          · obtain ⟨j1, j2⟩ := (i4 u).1 g1
            exact .inr ⟨j1, r, by rw [j2, g2]⟩
      · obtain ⟨g1, g2⟩ := f4 u hu
        rw [← g1, ← g2]
        exact i4 u
  obtain ⟨k1, k2, k3, k4⟩ := key hr (reach_inv h) ⟨hidle, hflat⟩
  have hmove : (∃ t, s'.stk t ≠ []) → ∃ u s'', Calm u s' s'' := fun ⟨t, ht⟩ => can_move k1 k2 ht
  refine ⟨?_, hmove, fun hno t => ?_⟩
  · have := total_le n s
    omega
  · have hempty : ∀ t, s'.stk t = [] := fun t => Classical.byContradiction fun hne =>
      let ⟨u, s'', hu⟩ := hmove ⟨t, hne⟩
      hno u s'' hu
    refine ⟨hempty t, fun h0 => ((k4 t).1 h0).2, fun op pc hop => ?_⟩
    rcases (k4 t).2 op pc hop with ⟨pc', h1, _⟩ | ⟨_, h1⟩
    · rw [hempty t] at h1
      cases h1
    · exact h1

/-- Three threads inside calls: one notifies two observers, one waits to add a third, one waits to remove one. -/
example : ∃ s : Sys Nat, Reach true s ∧ (∀ t, 3 ≤ t → s.stk t = []) ∧ (∀ t, (s.stk t).length ≤ 1) ∧
    s.stk 0 = [⟨.notify 3, .inside 0 5⟩] ∧ s.stk 1 = [⟨.add 7, .enter⟩] ∧ s.stk 2 = [⟨.remove 5, .enter⟩] ∧
    s.obs = [5, 6] := by
  obtain ⟨s, h1, h2, h3, h4⟩ := follow_reach (V := Nat) (lk := true) (self := 9)
    [(1, .call (.add 5)), (1, .go), (1, .go), (1, .go), (1, .go), (0, .call (.add 6)), (0, .go), (0, .go), (0, .go),
     (0, .go), (0, .call (.notify 3)), (1, .call (.add 7)), (2, .call (.remove 5)), (0, .go), (0, .go)]
    (fun s => decide (s.stk 0 = [⟨.notify 3, .inside 0 5⟩] ∧ s.stk 1 = [⟨.add 7, .enter⟩] ∧
      s.stk 2 = [⟨.remove 5, .enter⟩] ∧ s.obs = ([5, 6] : List Nat))) (by decide +kernel)
  obtain ⟨k0, k1, k2, k3⟩ := of_decide_eq_true h4
  have hrest : ∀ t, 3 ≤ t → s.stk t = [] := fun t ht =>
    (follow_steps _ h3).2 t (by
      simp only [List.map_cons, List.map_nil, List.mem_cons, List.not_mem_nil, or_false]
      omega)
  refine ⟨s, h1, hrest, fun t => ?_, k0, k1, k2, k3⟩
  match t with
  | 0 => rw [k0]; simp
  | 1 => rw [k1]; simp
  | 2 => rw [k2]; simp
  | t + 3 => rw [hrest (t + 3) (by omega)]; simp

end Verif.Observer.Conc
