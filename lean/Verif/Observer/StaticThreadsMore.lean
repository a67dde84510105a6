import Verif.Observer.StaticThreadsProps
/-! More about the compile-time observable used by several threads: what is recorded, the order in which values arrive, and what users have to observe
(properties C151 and C152). -/
namespace Verif.Observer.Static
open Verif Verif.HB

variable {V : Type} {self n : Nat}

/-! ### The record of accesses -/

/-- The two agree at the place (observer_static.hpp:39-43, 62). -/
def SameAt (s s' : Sh) : Loc → Prop
  | .obs i => s.obs i = s'.obs i
  | .root i => s.root i = s'.root i
  | .observer o => s.alive o = s'.alive o

theorem wipe_all : ∀ n, .acc (.obs n) true 0 ∈ wipe n ∧ ∀ i, i < n → .acc (.obs i) true 0 ∈ wipe n ∧ .acc (.root i) true 0 ∈ wipe n
  | 0 => ⟨by simp [wipe], fun i h => absurd h (Nat.not_lt_zero i)⟩
  | n + 1 => by
    refine ⟨by simp [wipe], fun i h => ?_⟩
    simp only [wipe, List.mem_cons]
    by_cases hi : i = n
    · subst hi; exact ⟨.inr (.inr (wipe_all i).1), .inr (.inl rfl)⟩
    · obtain ⟨h1, h2⟩ := (wipe_all n).2 i (by omega)
      exact ⟨.inr (.inr h1), .inr (.inr h2)⟩

/-- Only the layers of the observable have references. -/
def Sh.Fits (s : Sh) (n : Nat) : Prop := (∀ i, n < i → s.obs i = none) ∧ ∀ i, n ≤ i → s.root i = none

/-- What is left of a call initialises only references of the observable. -/
def Within (n : Nat) : Prog V → Prop
  | .ret => True
  | .obs _ k | .root _ k => ∀ x, Within n (k x)
  | .setObs i _ k => i ≤ n ∧ Within n k
  | .setRoot i _ k => i < n ∧ Within n k
  | .tell _ _ _ k | .left _ k => Within n k

theorem make_within (self : Nat) (os : List Nat) : ∀ (i : Nat) (k : Prog V), i + os.length ≤ n + 1 → Within n k → Within n (make self os i k) := by
  induction os with
  | nil => intro i k _ h; exact h
  | cons o os ih =>
    intro i k hl hk
    simp only [List.length_cons] at hl
    match os with
    | [] => exact ⟨by simpa using hl, hk⟩
    | [o'] =>
      simp only [List.length_cons, List.length_nil] at hl
      exact ih (i + 1) _ (by simp; omega) ⟨by omega, by omega, hk⟩
    | o' :: o'' :: os =>
      simp only [List.length_cons] at hl
      exact ih (i + 1) _ (by simp; omega) ⟨by omega, fun r => ⟨by omega, hk⟩⟩

theorem notify_within (v : V) : ∀ left i, Within n (notifyFrom self v left i)
  | 0, _ => fun _ => trivial
  | left + 1, i => fun _ _ => notify_within v left (i + 1)

/-- At any time only the layers of the observable have references. -/
theorem Run.fits {G : State V → Lbl V → Prop} {m : State V} (r : Run self n G m) :
    m.sh.Fits m.n ∧ ∀ t, ∀ f ∈ m.stack t, Within m.n f.prog := by
  induction r with
  | start => exact ⟨⟨fun _ _ => rfl, fun _ _ => rfl⟩, fun t f hf => by simp [State.new] at hf⟩
  | step m m' l _ hg hs ih =>
    clear hg
    obtain ⟨ih1, ih2⟩ := ih
    have push : ∀ (t : Nat) (x : List (Frame V)), (∀ f ∈ x, Within m.n f.prog) → ∀ u, ∀ f ∈ HB.put m.stack t x u, Within m.n f.prog := by
      intro t x hx u f hf
      by_cases hu : u = t
      · subst hu; rw [put_same] at hf; exact hx f hf
      · rw [put_ne _ _ hu] at hf; exact ih2 u f hf
    cases l <;> simp only [Static.step] at hs
    case act t =>
      cases hst : m.stack t with
      | nil => rw [hst] at hs; cases hs
      | cons f fs =>
      have hw : Within m.n f.prog := ih2 t f (by rw [hst]; simp)
      have hfs : ∀ x ∈ fs, Within m.n x.prog := fun x hx => ih2 t x (by rw [hst]; exact List.mem_cons_of_mem _ hx)
      have one : ∀ g : Frame V, Within m.n g.prog → ∀ u, ∀ f ∈ HB.put m.stack t (g :: fs) u, Within m.n f.prog := by
        intro g hg
        refine push t _ fun x hx => ?_
        rcases List.mem_cons.1 hx with rfl | hx
        · exact hg
        · exact hfs x hx
      rw [hst] at hs
      dsimp only at hs
      split at hs
      case isTrue => cases hs
      unfold act at hs
      dsimp only at hs
      split at hs
      case h_1 hp => split at hs <;> (cases hs; exact ⟨ih1, push t fs hfs⟩)
      case h_2 hp =>
        simp only [Option.map_eq_some_iff] at hs; obtain ⟨x, -, rfl⟩ := hs
        rw [hp] at hw
        exact ⟨ih1, one _ (hw x)⟩
      case h_3 hp =>
        simp only [Option.map_eq_some_iff] at hs; obtain ⟨x, -, rfl⟩ := hs
        rw [hp] at hw
        exact ⟨ih1, one _ (hw x)⟩
      case h_4 i o k hp =>
        cases hs
        rw [hp] at hw
        exact ⟨⟨fun j hj => by
          dsimp only at hj ⊢
          rw [put_ne _ _ (show j ≠ i from by have := hw.1; omega)]; exact ih1.1 j hj, ih1.2⟩, one _ hw.2⟩
      case h_5 i o k hp =>
        cases hs
        rw [hp] at hw
        exact ⟨⟨ih1.1, fun j hj => by
          dsimp only at hj ⊢
          rw [put_ne _ _ (show j ≠ i from by have := hw.1; omega)]; exact ih1.2 j hj⟩, one _ hw.2⟩
      case h_6 hp =>
        rw [hp] at hw
        split at hs
        · cases hs; exact ⟨ih1, one _ hw⟩
        · cases hs
      case h_7 hp => rw [hp] at hw; cases hs; exact ⟨ih1, one _ hw⟩
    case back t =>
      split at hs
      · rename_i f fs hst
        split at hs
        · cases hs
          refine ⟨ih1, push t _ fun x hx => ?_⟩
          rcases List.mem_cons.1 hx with rfl | hx
          · exact ih2 t f (by rw [hst]; simp)
          · exact ih2 t x (by rw [hst]; exact List.mem_cons_of_mem _ hx)
        · cases hs
      · cases hs
    case make t os =>
      split at hs
      · rename_i hu
        cases hs
        refine ⟨ih1, push t _ fun x hx => ?_⟩
        rcases List.mem_cons.1 hx with rfl | hx
        · exact make_within _ os 0 .ret (by have := hu.2; omega) trivial
        · exact ih2 t x hx
      · cases hs
    case notify t v =>
      split at hs
      · cases hs
        refine ⟨ih1, push t _ fun x hx => ?_⟩
        rcases List.mem_cons.1 hx with rfl | hx
        · exact notify_within v _ _
        · exact ih2 t x hx
      · cases hs
    case destroy t =>
      split at hs
      · cases hs; exact ⟨⟨fun _ _ => rfl, fun _ _ => rfl⟩, ih2⟩
      · cases hs
    all_goals
      split at hs
      · cases hs; exact ⟨ih1, ih2⟩
      · cases hs

/-- A step records its accesses in memory, and whatever it changes it records as a write. -/
theorem C151_accesses {G : State V → Lbl V → Prop} {m m' : State V} (r : Run self n G m) {l : Lbl V} (hs : step m l = some m') :
    m'.mem = m.mem.run l.who (ops m l) ∧ ∀ loc, ¬ SameAt m.sh m'.sh loc → .acc loc true 0 ∈ ops m l := by
  have hf := r.fits.1
  have same : m'.sh = m.sh → ∀ loc, ¬ SameAt m.sh m'.sh loc → HB.Op.acc loc true 0 ∈ ops m l := by
    intro h loc hn; exact absurd (by rw [h]; cases loc <;> rfl) hn
  cases l <;> simp only [step] at hs
  case act t =>
    cases hst : m.stack t with
    | nil => rw [hst] at hs; cases hs
    | cons f fs =>
    rw [hst] at hs
    dsimp only at hs
    split at hs
    case isTrue => cases hs
    simp only [ops, hst] at same ⊢
    unfold act at hs
    dsimp only at hs
    split at hs
    case h_1 hp => rw [hp] at same ⊢; split at hs <;> (cases hs; exact ⟨rfl, same rfl⟩)
    case h_2 hp => simp only [Option.map_eq_some_iff] at hs; obtain ⟨_, -, rfl⟩ := hs; exact ⟨by rw [hp]; rfl, same rfl⟩
    case h_3 hp => simp only [Option.map_eq_some_iff] at hs; obtain ⟨_, -, rfl⟩ := hs; exact ⟨by rw [hp]; rfl, same rfl⟩
    case h_4 i o k hp =>
      cases hs
      refine ⟨by rw [hp]; rfl, fun loc hn => ?_⟩
      rw [hp]
      cases loc with
      | obs j =>
        by_cases hj : j = i
        · subst hj; simp [Prog.ops]
        · exact absurd (put_ne m.sh.obs _ hj).symm hn
      | root j => exact absurd rfl hn
      | observer j => exact absurd rfl hn
    case h_5 i o k hp =>
      cases hs
      refine ⟨by rw [hp]; rfl, fun loc hn => ?_⟩
      rw [hp]
      cases loc with
      | root j =>
        by_cases hj : j = i
        · subst hj; simp [Prog.ops]
        · exact absurd (put_ne m.sh.root _ hj).symm hn
      | obs j => exact absurd rfl hn
      | observer j => exact absurd rfl hn
    case h_6 hp =>
      split at hs
      · cases hs; exact ⟨by rw [hp]; rfl, same rfl⟩
      · cases hs
    case h_7 hp => cases hs; exact ⟨by rw [hp]; rfl, same rfl⟩
  case back t =>
    split at hs
    · split at hs
      · cases hs; exact ⟨rfl, same rfl⟩
      · cases hs
    · cases hs
  case destroy t =>
    split at hs
    · cases hs
      refine ⟨rfl, fun loc hn => ?_⟩
      cases loc with
      | obs j =>
        rcases Nat.lt_trichotomy j m.n with h | h | h
        · exact ((wipe_all m.n).2 j h).1
        · subst h; exact (wipe_all _).1
        · exact absurd (hf.1 j h) hn
      | root j =>
        by_cases h : j < m.n
        · exact ((wipe_all m.n).2 j h).2
        · exact absurd (hf.2 j (by omega)) hn
      | observer j => exact absurd rfl hn
    · cases hs
  case born t o =>
    split at hs
    · cases hs
      refine ⟨rfl, fun loc hn => ?_⟩
      cases loc with
      | observer j =>
        by_cases hj : j = o
        · subst hj; simp [ops]
        · exact absurd (put_ne m.sh.alive _ hj).symm hn
      | obs j => exact absurd rfl hn
      | root j => exact absurd rfl hn
    · cases hs
  case die t o =>
    split at hs
    · cases hs
      refine ⟨rfl, fun loc hn => ?_⟩
      cases loc with
      | observer j =>
        by_cases hj : j = o
        · subst hj; simp [ops]
        · exact absurd (put_ne m.sh.alive _ hj).symm hn
      | obs j => exact absurd rfl hn
      | root j => exact absurd rfl hn
    · cases hs
  all_goals
    split at hs
    · cases hs; exact ⟨rfl, same rfl⟩
    · cases hs

/-- What a step of a call does depends only on the places that it records. -/
theorem C151_depends {m m' : State V} {t : Nat} {f : Frame V} {fs : List (Frame V)} (hs : act m t f fs = some m') (s : Sh)
    (ha : ∀ loc wr, .acc loc wr 0 ∈ f.prog.ops → SameAt m.sh s loc) :
    ∃ m1, act { m with sh := s } t f fs = some m1 ∧ m1.stack = m'.stack ∧ m1.log = m'.log ∧ m1.mem = m'.mem ∧ m1.ready = m'.ready ∧
      ∀ loc wr, .acc loc wr 0 ∈ f.prog.ops → SameAt m'.sh m1.sh loc := by
  obtain ⟨id, op, p, b⟩ := f
  cases p with
  | ret =>
    cases op <;>
    · simp only [act, Option.some.injEq] at hs ⊢
      subst hs
      exact ⟨_, rfl, rfl, rfl, rfl, rfl, by simp [Prog.ops]⟩
  | obs i k =>
    have h1 : m.sh.obs i = s.obs i := ha (.obs i) false (by simp [Prog.ops])
    simp only [act, Option.map_eq_some_iff] at hs ⊢
    obtain ⟨o, ho, rfl⟩ := hs
    exact ⟨_, ⟨o, by rw [← h1, ho], rfl⟩, rfl, rfl, rfl, rfl, ha⟩
  | root i k =>
    have h1 : m.sh.root i = s.root i := ha (.root i) false (by simp [Prog.ops])
    simp only [act, Option.map_eq_some_iff] at hs ⊢
    obtain ⟨o, ho, rfl⟩ := hs
    exact ⟨_, ⟨o, by rw [← h1, ho], rfl⟩, rfl, rfl, rfl, rfl, ha⟩
  | setObs i o k =>
    simp only [act, Option.some.injEq] at hs ⊢
    subst hs
    refine ⟨_, rfl, rfl, rfl, rfl, rfl, fun loc wr hm => ?_⟩
    simp only [Prog.ops, List.mem_singleton, HB.Op.acc.injEq] at hm
    rw [hm.1]
    simp [SameAt]
  | setRoot i o k =>
    simp only [act, Option.some.injEq] at hs ⊢
    subst hs
    refine ⟨_, rfl, rfl, rfl, rfl, rfl, fun loc wr hm => ?_⟩
    simp only [Prog.ops, List.mem_singleton, HB.Op.acc.injEq] at hm
    rw [hm.1]
    simp [SameAt]
  | tell o src v k =>
    have h1 : m.sh.alive o = s.alive o := ha (.observer o) false (by simp [Prog.ops])
    simp only [act] at hs ⊢
    rw [← h1]
    split at hs
    · rename_i hal
      cases hs
      rw [if_pos hal]
      exact ⟨_, rfl, rfl, rfl, rfl, rfl, ha⟩
    · cases hs
  | left o k =>
    simp only [act, Option.some.injEq] at hs ⊢
    subst hs
    exact ⟨_, rfl, rfl, rfl, rfl, rfl, by simp [Prog.ops]⟩

/-- What a step of a call records as a write it does change, if other things were there. -/
theorem C151_writes {m : State V} {t : Nat} {f : Frame V} {fs : List (Frame V)} {loc : Loc} (hw : .acc loc true 0 ∈ f.prog.ops) :
    ∃ s m1, act { m with sh := s } t f fs = some m1 ∧ ¬ SameAt s m1.sh loc := by
  obtain ⟨id, op, p, b⟩ := f
  cases p <;> simp only [Prog.ops, List.mem_singleton, HB.Op.acc.injEq, List.not_mem_nil] at hw
  case setObs i o k =>
    refine ⟨⟨fun _ => none, fun _ => none, fun _ => false⟩, _, rfl, ?_⟩
    rw [hw.1]; simp [SameAt]
  case setRoot i o k =>
    refine ⟨⟨fun _ => none, fun _ => none, fun _ => false⟩, _, rfl, ?_⟩
    rw [hw.1]; simp [SameAt]
  all_goals simp at hw

/-- What a step of a call records as a read can matter: with something else there it would not be possible, or undefined. -/
theorem C151_reads {m m' : State V} {t : Nat} {f : Frame V} {fs : List (Frame V)} (hs : act m t f fs = some m') {loc : Loc}
    (hr : .acc loc false 0 ∈ f.prog.ops) :
    ∃ s, (∀ loc', loc' ≠ loc → SameAt m.sh s loc') ∧ act { m with sh := s } t f fs = none := by
  obtain ⟨id, op, p, b⟩ := f
  cases p <;> simp only [Prog.ops, List.mem_singleton, HB.Op.acc.injEq, List.not_mem_nil] at hr
  case obs i k =>
    refine ⟨{ m.sh with obs := HB.put m.sh.obs i none }, fun loc' hl => ?_, by simp [act]⟩
    rw [hr.1] at hl
    cases loc' with
    | obs j => exact (put_ne m.sh.obs _ (fun h => hl (by rw [h]))).symm
    | root => rfl
    | observer => rfl
  case root i k =>
    refine ⟨{ m.sh with root := HB.put m.sh.root i none }, fun loc' hl => ?_, by simp [act]⟩
    rw [hr.1] at hl
    cases loc' with
    | root j => exact (put_ne m.sh.root _ (fun h => hl (by rw [h]))).symm
    | obs => rfl
    | observer => rfl
  case tell o src v k =>
    refine ⟨{ m.sh with alive := HB.put m.sh.alive o false }, fun loc' hl => ?_, by simp [act]⟩
    rw [hr.1] at hl
    cases loc' with
    | observer j => exact (put_ne m.sh.alive _ (fun h => hl (by rw [h]))).symm
    | obs => rfl
    | root => rfl
  all_goals simp at hr

/-- The model keeps users from nothing: a thread that is in no call, or in a function of an observer, can do all that users do; and such a function
may return at any time. -/
theorem C151_users {m : State V} {t : Nat} (h : m.user t = true) :
    (∀ os, os.length = m.n + 1 → ∃ m' f, step m (.make t os) = some m' ∧ m'.stack t = f :: m.stack t ∧ f.op = .make os ∧ f.busy = false ∧
      f.prog = make m.self os 0 .ret ∧ m'.sh = m.sh ∧ m'.list = some os ∧ m'.log = m.log) ∧
    (∀ v, ∃ m' f, step m (.notify t v) = some m' ∧ m'.stack t = f :: m.stack t ∧ f.op = .notify v ∧ f.busy = false ∧
      f.prog = notifyFrom m.self v m.n 0 ∧ m'.sh = m.sh ∧ m'.log = m.log ++ [(t, .began f.id v)]) ∧
    (∃ m', step m (.destroy t) = some m' ∧ m'.stack = m.stack ∧ m'.list = none ∧ m'.log = m.log ++ [(t, .gone)] ∧ m'.sh.alive = m.sh.alive ∧
      ∀ i, m'.sh.obs i = none ∧ m'.sh.root i = none) ∧
    (∀ o, ∃ m', step m (.born t o) = some m' ∧ m'.stack = m.stack ∧ m'.log = m.log ∧ m'.sh.alive o = true) ∧
    (∀ o, ∃ m', step m (.die t o) = some m' ∧ m'.stack = m.stack ∧ m'.log = m.log ∧ m'.sh.alive o = false) ∧
    (∀ s, ∃ m', step m (.rel t s) = some m' ∧ m'.stack = m.stack ∧ m'.sh = m.sh) ∧
    (∀ s, ∃ m', step m (.acq t s) = some m' ∧ m'.stack = m.stack ∧ m'.sh = m.sh) ∧
    (m.stack t ≠ [] → ∃ m' f fs, m.stack t = f :: fs ∧ step m (.back t) = some m' ∧ m'.stack t = { f with busy := false } :: fs ∧
      m'.sh = m.sh ∧ m'.log = m.log) := by
  refine ⟨fun os ho => ?_, fun v => ?_, ?_, fun o => ?_, fun o => ?_, fun s => ?_, fun s => ?_, fun hne => ?_⟩
  · refine ⟨_, _, by simp only [step]; rw [if_pos ⟨h, ho⟩], put_same _ _ _, ?_, ?_, ?_, ?_, ?_, ?_⟩ <;> rfl
  · refine ⟨_, _, by simp only [step]; rw [if_pos h], put_same _ _ _, ?_, ?_, ?_, ?_, ?_⟩ <;> rfl
  · refine ⟨_, by simp only [step]; rw [if_pos h], ?_, ?_, ?_, ?_, fun i => ⟨?_, ?_⟩⟩ <;> rfl
  · refine ⟨_, by simp only [step]; rw [if_pos h], ?_, ?_, ?_⟩
    · rfl
    · rfl
    · exact put_same _ _ _
  · refine ⟨_, by simp only [step]; rw [if_pos h], ?_, ?_, ?_⟩
    · rfl
    · rfl
    · exact put_same _ _ _
  · refine ⟨_, by simp only [step]; rw [if_pos h], ?_, ?_⟩ <;> rfl
  · refine ⟨_, by simp only [step]; rw [if_pos h], ?_, ?_⟩ <;> rfl
  · cases hst : m.stack t with
    | nil => exact absurd hst hne
    | cons f fs =>
      have hb : f.busy = true := by simpa [State.user, hst] using h
      refine ⟨_, f, fs, rfl, by simp only [step, hst, hb, if_true]; rfl, ?_, ?_, ?_⟩
      · exact put_same _ _ _
      · rfl
      · rfl

/-! ### Numbers and threads of notifications -/

theorem step_log {m m' : State V} {l : Lbl V} (hs : step m l = some m') :
    (∃ v, l = .notify l.who v ∧ m'.log = m.log ++ [(l.who, .began m.fresh v)] ∧ m'.fresh = m.fresh + 1) ∨
      (m.fresh ≤ m'.fresh ∧ ∃ new, m'.log = m.log ++ new ∧ new.length ≤ 1 ∧ ∀ u id (v : V), (u, Ev.began id v) ∉ new) := by
  cases l <;> simp only [step] at hs
  case notify t v =>
    split at hs
    · cases hs; exact .inl ⟨v, rfl, rfl, rfl⟩
    · cases hs
  all_goals right
  case act t =>
    split at hs
    · split at hs
      · cases hs
      · unfold act at hs
        dsimp only at hs
        split at hs
        · split at hs <;> (cases hs; exact ⟨Nat.le_refl _, [_], rfl, by simp, by simp⟩)
        · simp only [Option.map_eq_some_iff] at hs; obtain ⟨_, -, rfl⟩ := hs; exact ⟨Nat.le_refl _, [], by simp, by simp, by simp⟩
        · simp only [Option.map_eq_some_iff] at hs; obtain ⟨_, -, rfl⟩ := hs; exact ⟨Nat.le_refl _, [], by simp, by simp, by simp⟩
        · cases hs; exact ⟨Nat.le_refl _, [], by simp, by simp, by simp⟩
        · cases hs; exact ⟨Nat.le_refl _, [], by simp, by simp, by simp⟩
        · split at hs
          · cases hs; exact ⟨Nat.le_refl _, [_], rfl, by simp, by simp⟩
          · cases hs
        · cases hs; exact ⟨Nat.le_refl _, [_], rfl, by simp, by simp⟩
    · cases hs
  case back t =>
    split at hs
    · split at hs
      · cases hs; exact ⟨Nat.le_refl _, [], by simp, by simp, by simp⟩
      · cases hs
    · cases hs
  case make t os =>
    split at hs
    · cases hs; exact ⟨Nat.le_succ _, [], by simp, by simp, by simp⟩
    · cases hs
  case destroy t =>
    split at hs
    · cases hs; exact ⟨Nat.le_refl _, [_], rfl, by simp, by simp⟩
    · cases hs
  all_goals
    split at hs
    · cases hs; exact ⟨Nat.le_refl _, [], by simp, by simp, by simp⟩
    · cases hs

/-- Notifications have numbers of their own, in the order in which they begin. -/
theorem C151_numbers {G : State V → Lbl V → Prop} {m : State V} (r : Run self n G m) {p1 p2 p3 : List (Nat × Ev V)} {t u a b : Nat} {v w : V}
    (hl : m.log = p1 ++ (t, .began a v) :: p2 ++ (u, .began b w) :: p3) : a < b := by
  have main : (∀ t a v, (t, Ev.began a v) ∈ m.log → a < m.fresh) ∧ ∀ (p1 p2 p3 : List (Nat × Ev V)) (t u a b : Nat) (v w : V),
      m.log = p1 ++ (t, .began a v) :: p2 ++ (u, .began b w) :: p3 → a < b := by
    clear hl
    induction r with
    | start => exact ⟨by simp [State.new], by simp [State.new]⟩
    | step m m' l _ _ hs ih =>
      obtain ⟨ih1, ih2⟩ := ih
      rcases step_log hs with ⟨x, -, hlog, hfr⟩ | ⟨hfr, new, hlog, hlen, hno⟩
      · rw [hlog, hfr]
        refine ⟨fun t a v hm => ?_, fun p1 p2 p3 t u a b v w hl => ?_⟩
        · rcases List.mem_append.1 hm with hm | hm
          · exact Nat.lt_succ_of_lt (ih1 t a v hm)
          · simp only [List.mem_singleton, Prod.mk.injEq, Ev.began.injEq] at hm
            omega
        · rcases split_snoc hl (by simp) with ⟨p3', -, hl⟩ | ⟨he, hl, -⟩
          · exact ih2 p1 p2 p3' t u a b v w hl
          · simp only [List.cons.injEq, Prod.mk.injEq, Ev.began.injEq, and_true] at he
            rw [← he.2.1]
            exact ih1 t a v (by rw [hl]; simp)
      · rw [hlog]
        refine ⟨fun t a v hm => ?_, fun p1 p2 p3 t u a b v w hl => ?_⟩
        · rcases List.mem_append.1 hm with hm | hm
          · exact Nat.lt_of_lt_of_le (ih1 t a v hm) hfr
          · exact absurd hm (hno t a v)
        · rcases split_snoc hl hlen with ⟨p3', -, hl⟩ | ⟨he, hl, -⟩
          · exact ih2 p1 p2 p3' t u a b v w hl
          · exact absurd (by rw [he]; simp) (hno u b w)
  exact main.2 p1 p2 p3 t u a b v w hl

/-- Observers are called, and calls end, only in notifications that have begun, in the thread in which they have begun. -/
theorem C151_only {m : State V} (r : Run self n Careful m) {pre post : List (Nat × Ev V)} {t id : Nat} {ev : Ev V}
    (hl : m.log = pre ++ (t, ev) :: post) (hev : ev.Of id = true) : ∃ v, (t, Ev.began id v) ∈ pre := by
  have main : (∀ t, ∀ f ∈ m.stack t, ∀ v, f.op = .notify v → (t, Ev.began f.id v) ∈ m.log) ∧
      ∀ (pre post : List (Nat × Ev V)) (t id : Nat) (ev : Ev V), m.log = pre ++ (t, ev) :: post → ev.Of id = true →
        ∃ v, (t, Ev.began id v) ∈ pre := by
    clear hl hev
    induction r with
    | start => exact ⟨by simp [State.new], by simp [State.new]⟩
    | step m m' l r hc hs ih =>
      obtain ⟨ih1, ih2⟩ := ih
      have hi := r.inv
      have next : ∀ (st : Nat → List (Frame V)) (new : List (Nat × Ev V)), new.length ≤ 1 →
          (∀ t, ∀ f ∈ st t, ∀ v, f.op = .notify v → (t, Ev.began f.id v) ∈ m.log ++ new) →
          (∀ t ev id, (t, ev) ∈ new → ev.Of id = true → ∃ v, (t, Ev.began id v) ∈ m.log) →
          (∀ t, ∀ f ∈ st t, ∀ v, f.op = .notify v → (t, Ev.began f.id v) ∈ m.log ++ new) ∧
          ∀ (pre post : List (Nat × Ev V)) (t id : Nat) (ev : Ev V), m.log ++ new = pre ++ (t, ev) :: post → ev.Of id = true →
            ∃ v, (t, Ev.began id v) ∈ pre := by
        intro st new hlen h1 h2
        refine ⟨h1, fun pre post t id ev hl hev => ?_⟩
        rcases split_snoc hl hlen with ⟨post', -, hl⟩ | ⟨he, rfl, -⟩
        · exact ih2 pre post' t id ev hl hev
        · exact h2 t ev id (by rw [he]; simp) hev
      have same : ∀ (st : Nat → List (Frame V)), (∀ t, ∀ f ∈ st t, ∃ g ∈ m.stack t, g.id = f.id ∧ g.op = f.op) →
          ∀ new : List (Nat × Ev V), ∀ t, ∀ f ∈ st t, ∀ v, f.op = .notify v → (t, Ev.began f.id v) ∈ m.log ++ new := by
        intro st hst new t f hf v hop
        obtain ⟨g, hg, h1, h2⟩ := hst t f hf
        rw [← h1]
        exact List.mem_append_left _ (ih1 t g hg v (by rw [h2, hop]))
      have keep : ∀ t (f g : Frame V) fs, m.stack t = f :: fs → f.id = g.id → f.op = g.op →
          ∀ u, ∀ x ∈ HB.put m.stack t (g :: fs) u, ∃ y ∈ m.stack u, y.id = x.id ∧ y.op = x.op := by
        intro t f g fs hst h1 h2 u x hx
        by_cases hu : u = t
        · subst hu
          rw [put_same] at hx
          rcases List.mem_cons.1 hx with rfl | hx
          · exact ⟨f, by rw [hst]; simp, h1, h2⟩
          · exact ⟨x, by rw [hst]; exact List.mem_cons_of_mem _ hx, rfl, rfl⟩
        · rw [put_ne _ _ hu] at hx; exact ⟨x, hx, rfl, rfl⟩
      have pop : ∀ t (f : Frame V) fs, m.stack t = f :: fs → ∀ u, ∀ x ∈ HB.put m.stack t fs u, ∃ y ∈ m.stack u, y.id = x.id ∧ y.op = x.op := by
        intro t f fs hst u x hx
        by_cases hu : u = t
        · subst hu
          rw [put_same] at hx
          exact ⟨x, by rw [hst]; exact List.mem_cons_of_mem _ hx, rfl, rfl⟩
        · rw [put_ne _ _ hu] at hx; exact ⟨x, hx, rfl, rfl⟩
      have refl : ∀ u, ∀ x ∈ m.stack u, ∃ y ∈ m.stack u, y.id = x.id ∧ y.op = x.op := fun u x hx => ⟨x, hx, rfl, rfl⟩
      have none0 : ∀ st : Nat → List (Frame V), (∀ u, ∀ x ∈ st u, ∃ y ∈ m.stack u, y.id = x.id ∧ y.op = x.op) →
          (∀ t, ∀ f ∈ st t, ∀ v, f.op = .notify v → (t, Ev.began f.id v) ∈ m.log) ∧
          ∀ (pre post : List (Nat × Ev V)) (t id : Nat) (ev : Ev V), m.log = pre ++ (t, ev) :: post → ev.Of id = true →
            ∃ v, (t, Ev.began id v) ∈ pre := by
        intro st hst
        have := next st [] (by simp) (same st hst []) (by simp)
        simpa using this
      clear hc
      cases l <;> simp only [Static.step] at hs
      case act t =>
        cases hst : m.stack t with
        | nil => rw [hst] at hs; cases hs
        | cons f fs =>
        rw [hst] at hs
        obtain ⟨id, op, p, b⟩ := f
        dsimp only at hs
        split at hs
        case isTrue => cases hs
        have isNotify : (∃ o src v k, p = .tell o src v k) ∨ (∃ o k, p = .left o k) ∨ (p = .ret ∧ ∃ v, op = .notify v) →
            ∃ v, (t, Ev.began id v) ∈ m.log := by
          intro hp
          cases hl : m.list with
          | none => have := (hi.empty hl).2 t; rw [hst] at this; cases this
          | some os =>
          cases hr : m.ready with
          | false =>
            obtain ⟨u, id', q, h1, h2, h3, h4⟩ := hi.build os hl hr
            have hut : t = u := Classical.byContradiction fun hne => by rw [h2 t hne] at hst; cases hst
            subst hut
            rw [h1] at hst
            cases hst
            rcases hp with ⟨o, src, v, k, rfl⟩ | ⟨o, k, rfl⟩ | ⟨-, v, hv⟩
            · cases h3
            · cases h3
            · cases hv
          | true =>
            obtain ⟨v, evs, hop, -⟩ := hi.frames os hl hr t _ (by rw [hst]; exact List.mem_cons_self)
            exact ⟨v, ih1 t ⟨id, op, p, b⟩ (by rw [hst]; simp) v hop⟩
        unfold act at hs
        dsimp only at hs
        split at hs
        · split at hs
          · cases hs
            exact next _ [_] (by simp) (same _ (pop t _ fs hst) _) (by
            intro u ev k hm hk
            simp only [List.mem_singleton, Prod.mk.injEq] at hm
            obtain ⟨rfl, rfl⟩ := hm
            cases hk)
          · cases hs
            refine next _ [_] (by simp) (same _ (pop t _ fs hst) _) ?_
            intro u ev k hm hk
            simp only [List.mem_singleton, Prod.mk.injEq] at hm
            obtain ⟨rfl, rfl⟩ := hm
            simp only [Ev.Of, beq_iff_eq] at hk
            subst hk
            exact isNotify (.inr (.inr ⟨rfl, _, rfl⟩))
        · simp only [Option.map_eq_some_iff] at hs; obtain ⟨_, -, rfl⟩ := hs; exact none0 _ (keep t _ _ fs hst (by rfl) (by rfl))
        · simp only [Option.map_eq_some_iff] at hs; obtain ⟨_, -, rfl⟩ := hs; exact none0 _ (keep t _ _ fs hst (by rfl) (by rfl))
        · cases hs; exact none0 _ (keep t _ _ fs hst (by rfl) (by rfl))
        · cases hs; exact none0 _ (keep t _ _ fs hst (by rfl) (by rfl))
        · split at hs
          · cases hs
            refine next _ [_] (by simp) (same _ (keep t _ _ fs hst (by rfl) (by rfl)) _) ?_
            intro u ev k hm hk
            simp only [List.mem_singleton, Prod.mk.injEq] at hm
            obtain ⟨rfl, rfl⟩ := hm
            simp only [Ev.Of, beq_iff_eq] at hk
            subst hk
            exact isNotify (.inl ⟨_, _, _, _, rfl⟩)
          · cases hs
        · cases hs
          refine next _ [_] (by simp) (same _ (keep t _ _ fs hst (by rfl) (by rfl)) _) ?_
          intro u ev k hm hk
          simp only [List.mem_singleton, Prod.mk.injEq] at hm
          obtain ⟨rfl, rfl⟩ := hm
          simp only [Ev.Of, beq_iff_eq] at hk
          subst hk
          exact isNotify (.inr (.inl ⟨_, _, rfl⟩))
      case back t =>
        split at hs
        · rename_i f fs hst
          split at hs
          · cases hs; exact none0 _ (keep t _ _ fs hst (by rfl) (by rfl))
          · cases hs
        · cases hs
      case make t os =>
        split at hs
        · cases hs
          refine ⟨fun u f hf v hop => ?_, ih2⟩
          dsimp only at hf
          by_cases hu : u = t
          · subst hu
            rw [put_same] at hf
            rcases List.mem_cons.1 hf with rfl | hf
            · cases hop
            · exact ih1 u f hf v hop
          · rw [put_ne _ _ hu] at hf; exact ih1 u f hf v hop
        · cases hs
      case notify t v =>
        split at hs
        · cases hs
          refine next _ [_] (by simp) ?_ (by
            intro u ev k hm hk
            simp only [List.mem_singleton, Prod.mk.injEq] at hm
            obtain ⟨rfl, rfl⟩ := hm
            cases hk)
          intro u f hf w hop
          dsimp only at hf
          by_cases hu : u = t
          · subst hu
            rw [put_same] at hf
            rcases List.mem_cons.1 hf with rfl | hf
            · cases hop; simp
            · exact List.mem_append_left _ (ih1 u f hf w hop)
          · rw [put_ne _ _ hu] at hf; exact List.mem_append_left _ (ih1 u f hf w hop)
        · cases hs
      case destroy t =>
        split at hs
        · cases hs
          exact next _ [_] (by simp) (same _ refl _) (by
            intro u ev k hm hk
            simp only [List.mem_singleton, Prod.mk.injEq] at hm
            obtain ⟨rfl, rfl⟩ := hm
            cases hk)
        · cases hs
      all_goals
        split at hs
        · cases hs; exact ⟨ih1, ih2⟩
        · cases hs
  exact main.2 pre post t id ev hl hev

/-! ### The order of the values -/

/-- Nobody notifies while a notification is in progress. -/
def Alone (m : State V) (l : Lbl V) : Prop :=
  Careful m l ∧ ∀ t v, l = .notify t v → ∀ u, m.stack u = []

theorem Run.mono {G H : State V → Lbl V → Prop} (h : ∀ m l, G m l → H m l) {m : State V} (r : Run self n G m) : Run self n H m := by
  induction r with
  | start => exact .start
  | step m m' l _ hg hs ih => exact .step m m' l ih (h m l hg) hs

theorem tail_nil {α : Type} {a b x : List α} {e : α} (h : a ++ b = x ++ [e]) (he : e ∈ a) (hx : e ∉ x) : b = [] := by
  rcases List.eq_nil_or_concat b with hb | ⟨b', z, hb⟩
  · exact hb
  · rw [List.concat_eq_append] at hb
    subst hb
    rw [← List.append_assoc] at h
    have := (List.append_inj' h rfl).1
    exact absurd (by rw [← this]; exact List.mem_append_left _ he) hx

/-- Values arrive in the same order at all observers if nobody notifies while a notification is in progress: when one begins, those before it have
called all their observers, and they call none later. -/
theorem C152_order_partial {m : State V} (r : Run self n Alone m) {p1 p2 p3 : List (Nat × Ev V)} {t u a b : Nat} {v w : V}
    (hl : m.log = p1 ++ (t, .began a v) :: p2 ++ (u, .began b w) :: p3) :
    ∃ os, listed p1 = some os ∧ doings t a p2 = visits a self v os ++ [.ret a] ∧ doings t a p3 = [] := by
  have r' : Run self n Careful m := r.mono fun _ _ h => h.1
  have hret : ∀ (p1 p2 p3 : List (Nat × Ev V)) (t u a b : Nat) (v w : V),
      m.log = p1 ++ (t, .began a v) :: p2 ++ (u, .began b w) :: p3 → Ev.ret a ∈ doings t a p2 := by
    clear hl r'
    induction r with
    | start => simp [State.new]
    | step m m' l r hg hs ih =>
      intro p1 p2 p3 t u a b v w hl
      rcases step_log hs with ⟨x, hx, hlog, -⟩ | ⟨-, new, hlog, hlen, hno⟩
      · rw [hlog] at hl
        rcases split_snoc hl (by simp) with ⟨p3', -, hl⟩ | ⟨-, hl, -⟩
        · exact ih p1 p2 p3' t u a b v w hl
        · have hst := hg.2 _ _ hx t
          obtain ⟨os, -, hc⟩ := (r.mono fun _ _ h => h.1).inv.hist p1 p2 t a v hl
          rcases hc with ⟨-, -, f, hf, -⟩ | ⟨-, -, hd⟩
          · rw [hst] at hf; cases hf
          · rw [hd]; simp
      · rw [hlog] at hl
        rcases split_snoc hl hlen with ⟨p3', -, hl⟩ | ⟨he, -, -⟩
        · exact ih p1 p2 p3' t u a b v w hl
        · exact absurd (by rw [he]; simp) (hno u b w)
  have hr := hret p1 p2 p3 t u a b v w hl
  rw [List.append_assoc, List.cons_append] at hl
  obtain ⟨os, ho, -, -, hall, -⟩ := C151_tells r' hl
  have hsplit : doings t a (p2 ++ (u, .began b w) :: p3) = doings t a p2 ++ doings t a p3 := by
    rw [doings_append]
    congr 1
    simp [doings, Ev.Of]
  rw [hsplit] at hall
  have he := hall (List.mem_append_left _ hr)
  have hn := tail_nil he hr (ret_not_visits a self v os)
  rw [hn, List.append_nil] at he
  exact ⟨os, ho, he, hn⟩

/-! ### What users have to observe -/

/-- What is left of the constructor initialises the outermost `obs_`. -/
def Outer : Prog V → Prop
  | .setObs i _ k => i = 0 ∨ Outer k
  | .setRoot _ _ k => Outer k
  | .root _ k => ∀ r, Outer (k r)
  | _ => False

theorem make_outer (os : List Nat) : ∀ (i : Nat) (k : Prog V), Outer k → Outer (make self os i k) := by
  induction os with
  | nil => intro i k h; exact h
  | cons o os ih =>
    intro i k hk
    match os with
    | [] => exact .inr hk
    | [o'] => exact ih (i + 1) _ (.inr hk)
    | o' :: o'' :: os => exact ih (i + 1) _ (.inr fun _ => hk)

theorem make_outer0 {os : List Nat} (h : os ≠ []) (k : Prog V) : Outer (make self os 0 k) := by
  match os with
  | [] => exact absurd rfl h
  | [o] => exact .inl rfl
  | [o, o'] => exact make_outer (self := self) [o'] 1 _ (.inl rfl)
  | o :: o' :: o'' :: os => exact make_outer (self := self) (o' :: o'' :: os) 1 _ (.inl rfl)

/-- Without synchronisation no thread comes after another one. -/
theorem clk_zero {m : HB.Mem Nat Loc Nat} (h : (∀ t u, t ≠ u → m.clk t u = 0) ∧ ∀ a ∈ m.log, 0 < a.time) (t : Nat) (os : List (HB.Op Loc Nat))
    (ho : ∀ s, .acq s ∉ os) : (∀ x u, x ≠ u → (m.run t os).clk x u = 0) ∧ ∀ a ∈ (m.run t os).log, 0 < a.time := by
  induction os generalizing m with
  | nil => exact h
  | cons o os ih =>
    refine ih ?_ fun s hs => ho s (List.mem_cons_of_mem _ hs)
    cases o with
    | acq s => exact absurd List.mem_cons_self (ho s)
    | rel s => exact h
    | sto s => exact h
    | acc loc wr tag =>
      refine ⟨fun x u hx => ?_, fun a ha => ?_⟩
      · simp only [Mem.op, HB.put]
        split
        · subst_vars; rw [put_ne _ _ (Ne.symm hx)]; exact h.1 _ u hx
        · exact h.1 x u hx
      · simp only [Mem.op, List.mem_cons] at ha
        rcases ha with rfl | ha
        · exact Nat.succ_pos _
        · exact h.2 a ha

/-- If the threads do not synchronise, the first access of a notification in a thread other than the one that has constructed the observable is a
data race, whatever else has happened. -/
theorem C151_unsynchronised {G : State V → Lbl V → Prop} (hG : ∀ m t s, ¬ G m (.acq t s)) {m : State V} (r : Run self n G m) {u t : Nat}
    {os : List Nat} (hm : (u, Ev.made os) ∈ m.log) (hne : t ≠ u) {f : Frame V} {fs : List (Frame V)} {v : V} (hst : m.stack t = f :: fs)
    (hf : f.prog = notifyFrom m.self v m.n 0) : Race m (.act t) := by
  have main : ((∀ t u, t ≠ u → m.mem.clk t u = 0) ∧ ∀ a ∈ m.mem.log, 0 < a.time) ∧
      (∀ u os, (u, Ev.made os) ∈ m.log → ∃ a ∈ m.mem.log, a.who = u ∧ a.loc = .obs 0 ∧ a.wr = true) ∧
      (∀ u, ∀ f ∈ m.stack u, ∀ os, f.op = .make os → Outer f.prog ∨ ∃ a ∈ m.mem.log, a.who = u ∧ a.loc = .obs 0 ∧ a.wr = true) := by
    clear hm hst hf
    induction r with
    | start => exact ⟨⟨fun _ _ _ => rfl, by simp [State.new, Mem.new]⟩, by simp [State.new], by simp [State.new]⟩
    | step m m' l r hg hs ih =>
      obtain ⟨ih0, ih1, ih2⟩ := ih
      have hmem := (C151_accesses r hs).1
      have hno : ∀ s, HB.Op.acq s ∉ ops m l := by
        intro s
        cases l <;> simp only [ops, List.mem_singleton, List.not_mem_nil, not_false_eq_true, reduceCtorEq]
        case act t =>
          split
          · rename_i f _ _; cases f.prog <;> simp [Prog.ops]
          · simp
        case destroy t =>
          have : ∀ n, HB.Op.acq s ∉ wipe n := by
            intro n; induction n with
            | zero => simp [wipe]
            | succ n ih => simp [wipe, ih]
          exact this _
        case acq t s' => exact absurd hg (hG m t s')
      have h0 := clk_zero ih0 l.who _ hno
      rw [← hmem] at h0
      have old : ∀ u, (∃ a ∈ m.mem.log, a.who = u ∧ a.loc = .obs 0 ∧ a.wr = true) → ∃ a ∈ m'.mem.log, a.who = u ∧ a.loc = .obs 0 ∧ a.wr = true := by
        rintro u ⟨a, ha, h⟩
        exact ⟨a, by rw [hmem]; exact m.mem.log_mono _ _ a ha, h⟩
      have ih1' := fun u os h => old u (ih1 u os h)
      have ih2' : ∀ u, ∀ f ∈ m.stack u, ∀ os, f.op = .make os → Outer f.prog ∨ ∃ a ∈ m'.mem.log, a.who = u ∧ a.loc = .obs 0 ∧ a.wr = true :=
        fun u f hf os ho => (ih2 u f hf os ho).imp id (old u)
      have push : ∀ (t : Nat) (x : List (Frame V)), (∀ f ∈ x, ∀ os, f.op = .make os →
            Outer f.prog ∨ ∃ a ∈ m'.mem.log, a.who = t ∧ a.loc = .obs 0 ∧ a.wr = true) →
          ∀ u, ∀ f ∈ HB.put m.stack t x u, ∀ os, f.op = .make os →
            Outer f.prog ∨ ∃ a ∈ m'.mem.log, a.who = u ∧ a.loc = .obs 0 ∧ a.wr = true := by
        intro t x hx u f hf
        by_cases hu : u = t
        · subst hu; rw [put_same] at hf; exact hx f hf
        · rw [put_ne _ _ hu] at hf; exact ih2' u f hf
      refine ⟨h0, ?_⟩
      clear hg h0 hno
      cases l <;> simp only [Static.step] at hs
      case act t =>
        cases hst : m.stack t with
        | nil => rw [hst] at hs; cases hs
        | cons f fs =>
        have hw := ih2' t f (by rw [hst]; simp)
        have hfs : ∀ x ∈ fs, ∀ os, x.op = .make os → Outer x.prog ∨ ∃ a ∈ m'.mem.log, a.who = t ∧ a.loc = .obs 0 ∧ a.wr = true :=
          fun x hx => ih2' t x (by rw [hst]; exact List.mem_cons_of_mem _ hx)
        have one : ∀ g : Frame V, (∀ os, g.op = .make os → Outer g.prog ∨ ∃ a ∈ m'.mem.log, a.who = t ∧ a.loc = .obs 0 ∧ a.wr = true) →
            ∀ u, ∀ f ∈ HB.put m.stack t (g :: fs) u, ∀ os, f.op = .make os →
              Outer f.prog ∨ ∃ a ∈ m'.mem.log, a.who = u ∧ a.loc = .obs 0 ∧ a.wr = true := by
          intro g hg
          refine push t _ fun x hx => ?_
          rcases List.mem_cons.1 hx with rfl | hx
          · exact hg
          · exact hfs x hx
        rw [hst] at hs
        obtain ⟨fid, op, p, b⟩ := f
        dsimp only at hs hw
        split at hs
        case isTrue => cases hs
        simp only [ops, hst, Lbl.who] at hmem
        cases p with
        | ret =>
          cases op with
          | make os =>
            simp only [act, Option.some.injEq] at hs
            subst hs
            refine ⟨fun u os' hm => ?_, push t fs hfs⟩
            rcases List.mem_append.1 hm with hm | hm
            · exact ih1' u os' hm
            · simp only [List.mem_singleton, Prod.mk.injEq] at hm
              rw [hm.1]
              exact (hw os rfl).resolve_left id
          | notify v =>
            simp only [act, Option.some.injEq] at hs
            subst hs
            exact ⟨fun u os' hm => ih1' u os' (by simpa using hm), push t fs hfs⟩
        | obs i k =>
          simp only [act, Option.map_eq_some_iff] at hs
          obtain ⟨x, -, rfl⟩ := hs
          exact ⟨ih1', one _ fun os ho => .inr ((hw os ho).resolve_left id)⟩
        | root i k =>
          simp only [act, Option.map_eq_some_iff] at hs
          obtain ⟨x, -, rfl⟩ := hs
          exact ⟨ih1', one _ fun os ho => (hw os ho).imp (fun h => h x) id⟩
        | setObs i o k =>
          simp only [act, Option.some.injEq] at hs
          subst hs
          refine ⟨ih1', one _ fun os ho => ?_⟩
          rcases hw os ho with (h | h) | h
          · subst h
            exact .inr ⟨⟨t, m.mem.clk t t + 1, .obs 0, true, 0⟩, by simp [Prog.ops, Mem.run, Mem.op], rfl, rfl, rfl⟩
          · exact .inl h
          · exact .inr h
        | setRoot i o k =>
          simp only [act, Option.some.injEq] at hs
          subst hs
          exact ⟨ih1', one _ fun os ho => hw os ho⟩
        | tell o src v k =>
          simp only [act] at hs
          split at hs
          · cases hs
            exact ⟨fun u os' hm => ih1' u os' (by simpa using hm), one _ fun os ho => .inr ((hw os ho).resolve_left id)⟩
          · cases hs
        | left o k =>
          simp only [act, Option.some.injEq] at hs
          subst hs
          exact ⟨fun u os' hm => ih1' u os' (by simpa using hm), one _ fun os ho => .inr ((hw os ho).resolve_left id)⟩
      case back t =>
        split at hs
        · rename_i f fs hst
          split at hs
          · cases hs
            refine ⟨ih1', push t _ fun x hx => ?_⟩
            rcases List.mem_cons.1 hx with rfl | hx
            · exact ih2' t f (by rw [hst]; simp)
            · exact ih2' t x (by rw [hst]; exact List.mem_cons_of_mem _ hx)
          · cases hs
        · cases hs
      case make t os =>
        split at hs
        · rename_i hu
          cases hs
          refine ⟨ih1', push t _ fun x hx => ?_⟩
          rcases List.mem_cons.1 hx with rfl | hx
          · exact fun _ _ => .inl (make_outer0 (by intro he; have := hu.2; rw [he] at this; simp at this) _)
          · exact ih2' t x hx
        · cases hs
      case notify t v =>
        split at hs
        · cases hs
          refine ⟨fun u os hm => ih1' u os (by simpa using hm), push t _ fun x hx => ?_⟩
          rcases List.mem_cons.1 hx with rfl | hx
          · intro os ho; cases ho
          · exact ih2' t x hx
        · cases hs
      case destroy t =>
        split at hs
        · cases hs
          exact ⟨fun u os hm => ih1' u os (by simpa using hm), ih2'⟩
        · cases hs
      all_goals
        split at hs
        · cases hs; exact ⟨ih1', ih2'⟩
        · cases hs
  obtain ⟨h0, h1, -⟩ := main
  obtain ⟨a, ha, rfl, hloc, hwr⟩ := h1 u os hm
  have hops : ∃ k, f.prog = .obs 0 k := by
    rw [hf]; cases m.n <;> exact ⟨_, rfl⟩
  obtain ⟨k, hk⟩ := hops
  unfold Race
  simp only [ops, hst, hk, Prog.ops, Lbl.who]
  exact .inl ⟨trivial, a, ha, hloc, .inl hwr, by rw [h0.1 t a.who hne]; exact h0.2 a ha⟩

/-! ### Examples -/

def memberB : Loc → Bool
  | .observer _ => false
  | _ => true

theorem memberB_iff {loc : Loc} : memberB loc = true ↔ loc.Member := by cases loc <;> simp [memberB, Loc.Member]

def knowsB (m : State V) (t : Nat) (P : Loc → Bool → Bool) : Bool := m.mem.log.all fun a => !P a.loc a.wr || decide (a.time ≤ m.mem.clk t a.who)

theorem knowsB_iff {m : State V} {t : Nat} {P : Loc → Bool → Bool} {Q : Loc → Bool → Prop} (hQ : ∀ loc wr, Q loc wr → P loc wr = true)
    (h : knowsB m t P = true) : m.Knows t Q := by
  intro a ha hq
  simp only [knowsB, List.all_eq_true, Bool.or_eq_true, decide_eq_true_eq] at h
  rcases h a ha with h | h
  · rw [hQ _ _ hq] at h; cases h
  · exact h

def writesB (m : State V) (loc : Loc) (wr : Bool) : Bool :=
  wr && (memberB loc || match loc, m.list with
    | .observer o, some os => os.contains o
    | _, _ => false)

theorem writesB_of {m : State V} (loc : Loc) (wr : Bool) (h : m.Writes loc wr) : writesB m loc wr = true := by
  obtain ⟨rfl, h | ⟨o, os, rfl, hl, hm⟩⟩ := h
  · simp [writesB, memberB_iff.2 h]
  · simp [writesB, hl, hm]

/-- Enough for what users have to observe. -/
def carefulB (m : State V) : Lbl V → Bool
  | .make t os => m.list.isNone && os.all m.sh.alive && knowsB m t fun loc _ => memberB loc
  | .notify t _ => m.ready && knowsB m t (writesB m)
  | .destroy _ => false
  | .born t o => !m.sh.alive o && knowsB m t fun loc _ => loc == .observer o
  | .die _ _ => false
  | _ => true

theorem careful_of {m : State V} {l : Lbl V} (h : carefulB m l = true) : Careful m l := by
  cases l <;> simp only [carefulB, Bool.and_eq_true, Bool.false_eq_true, Option.isNone_iff_eq_none, List.all_eq_true, Bool.not_eq_true'] at h
  case make t os => exact ⟨h.1.1, h.1.2, knowsB_iff (fun _ _ => memberB_iff.2) h.2⟩
  case notify t v => exact ⟨h.1, knowsB_iff writesB_of h.2⟩
  case born t o => exact ⟨h.1, knowsB_iff (fun _ _ he => by simp [he]) h.2⟩
  all_goals trivial

/-- Careful users make these steps. -/
def go (m : State V) : List (Lbl V) → Option (State V)
  | [] => some m
  | l :: ls => if carefulB m l then (step m l).bind fun m' => go m' ls else none

theorem go_run {m m' : State V} (ls : List (Lbl V)) : Run self n Careful m → go m ls = some m' → Run self n Careful m' := by
  induction ls generalizing m with
  | nil => intro r h; cases h; exact r
  | cons l ls ih =>
    intro r h
    simp only [go] at h
    split at h
    · rename_i hc
      simp only [Option.bind_eq_some_iff] at h
      obtain ⟨m1, h1, h2⟩ := h
      exact ih (.step _ _ l r (careful_of hc) h1) h2
    · cases h

/-- Thread 0 constructs two observers and the observable, and releases an object that thread 1 acquires. -/
def setup2 : List (Lbl Nat) :=
  [.born 0 1, .born 0 2, .make 0 [1, 2], .act 0, .act 0, .act 0, .act 0, .rel 0 9, .acq 1 9]

/-- Thread 0 constructs one observer and the observable, and releases an object that thread 1 acquires. -/
def setup1 : List (Lbl Nat) := [.born 0 1, .make 0 [1], .act 0, .act 0, .rel 0 9, .acq 1 9]

/-- Two threads notify at the same time, and both notifications come to their ends. -/
example : ∃ m : State Nat, Run 7 1 Careful m ∧ m.log = [(0, .made [1, 2]), (0, .began 1 5), (1, .began 2 6), (0, .told 1 7 1 5), (1, .told 2 7 1 6),
    (1, .left 2 1), (0, .left 1 1), (0, .told 1 7 2 5), (0, .left 1 2), (0, .ret 1), (1, .told 2 7 2 6), (1, .left 2 2), (1, .ret 2)] := by
  have h : (go (State.new 7 1) (setup2 ++ [.notify 0 5, .notify 1 6, .act 0, .act 1, .act 0, .act 1, .act 0, .act 1, .back 1, .act 1, .back 0, .act 0,
      .act 0, .act 0, .back 0, .act 0, .act 0, .act 1, .act 1, .back 1, .act 1, .act 1])).map (·.log) =
      some [(0, .made [1, 2]), (0, .began 1 5), (1, .began 2 6), (0, .told 1 7 1 5), (1, .told 2 7 1 6),
    (1, .left 2 1), (0, .left 1 1), (0, .told 1 7 2 5), (0, .left 1 2), (0, .ret 1), (1, .told 2 7 2 6), (1, .left 2 2), (1, .ret 2)] := by decide
  obtain ⟨m, h1, h2⟩ := Option.map_eq_some_iff.1 h
  exact ⟨m, go_run _ .start h1, h2⟩

/-- An observer is not called by one thread at a time: two threads are in the same function at once, without synchronisation between them. -/
theorem C152_overlap_refuted : ∃ m : State Nat, Run 7 0 Careful m ∧
    m.log = [(0, .made [1]), (0, .began 1 5), (1, .began 2 6), (0, .told 1 7 1 5), (1, .told 2 7 1 6)] ∧
    m.user 0 = true ∧ m.user 1 = true ∧ m.mem.clk 0 1 = 0 ∧ 0 < m.mem.clk 1 1 := by
  have h : (go (State.new 7 0) (setup1 ++ [.notify 0 5, .notify 1 6, .act 0, .act 1, .act 0, .act 1])).map
      (fun m => (m.log, m.user 0, m.user 1, m.mem.clk 0 1, m.mem.clk 1 1)) =
      some ([(0, .made [1]), (0, .began 1 5), (1, .began 2 6), (0, .told 1 7 1 5), (1, .told 2 7 1 6)], true, true, 0, 2) := by decide
  obtain ⟨m, h1, h2⟩ := Option.map_eq_some_iff.1 h
  simp only [Prod.mk.injEq] at h2
  exact ⟨m, go_run _ .start h1, h2.1, h2.2.1, h2.2.2.1, h2.2.2.2.1, by rw [h2.2.2.2.2]; decide⟩

/-- Observers get values in different orders: observer 1 gets 5 and then 6, observer 2 gets 6 and then 5. -/
theorem C152_order_refuted : ∃ m : State Nat, Run 7 1 Careful m ∧
    m.log = [(0, .made [1, 2]), (0, .began 1 5), (0, .told 1 7 1 5), (1, .began 2 6), (1, .told 2 7 1 6), (1, .left 2 1), (1, .told 2 7 2 6),
      (1, .left 2 2), (1, .ret 2), (0, .left 1 1), (0, .told 1 7 2 5), (0, .left 1 2), (0, .ret 1)] := by
  have h : (go (State.new 7 1) (setup2 ++ [.notify 0 5, .act 0, .act 0, .act 0, .notify 1 6, .act 1, .act 1, .act 1, .back 1, .act 1, .act 1, .act 1,
      .back 1, .act 1, .act 1, .back 0, .act 0, .act 0, .act 0, .back 0, .act 0, .act 0])).map (·.log) =
      some [(0, .made [1, 2]), (0, .began 1 5), (0, .told 1 7 1 5), (1, .began 2 6), (1, .told 2 7 1 6), (1, .left 2 1), (1, .told 2 7 2 6),
        (1, .left 2 2), (1, .ret 2), (0, .left 1 1), (0, .told 1 7 2 5), (0, .left 1 2), (0, .ret 1)] := by decide
  obtain ⟨m, h1, h2⟩ := Option.map_eq_some_iff.1 h
  exact ⟨m, go_run _ .start h1, h2⟩

/-- The same in a single thread: the function of observer 1 notifies the observable that calls it. -/
theorem C152_nested_refuted : ∃ m : State Nat, Run 7 1 Careful m ∧
    m.log = [(0, .made [1, 2]), (0, .began 1 5), (0, .told 1 7 1 5), (0, .began 2 6), (0, .told 2 7 1 6), (0, .left 2 1), (0, .told 2 7 2 6),
      (0, .left 2 2), (0, .ret 2), (0, .left 1 1), (0, .told 1 7 2 5), (0, .left 1 2), (0, .ret 1)] := by
  have h : (go (State.new 7 1) (setup2 ++ [.notify 0 5, .act 0, .act 0, .act 0, .notify 0 6, .act 0, .act 0, .act 0, .back 0, .act 0, .act 0, .act 0,
      .back 0, .act 0, .act 0, .back 0, .act 0, .act 0, .act 0, .back 0, .act 0, .act 0])).map (·.log) =
      some [(0, .made [1, 2]), (0, .began 1 5), (0, .told 1 7 1 5), (0, .began 2 6), (0, .told 2 7 1 6), (0, .left 2 1), (0, .told 2 7 2 6),
        (0, .left 2 2), (0, .ret 2), (0, .left 1 1), (0, .told 1 7 2 5), (0, .left 1 2), (0, .ret 1)] := by decide
  obtain ⟨m, h1, h2⟩ := Option.map_eq_some_iff.1 h
  exact ⟨m, go_run _ .start h1, h2⟩

/-- Nothing keeps an observer from being called while it is being called, to any depth: there is a notification inside a notification, and so on. -/
theorem C152_deep_refuted (k : Nat) : ∃ m : State Nat, Run 7 0 Careful m ∧ (m.stack 0).length = k ∧ (∀ f ∈ m.stack 0, f.busy = true) ∧
    m.log = (0, .made [1]) :: (List.range k).flatMap fun i => [(0, .began (i + 1) i), (0, .told (i + 1) 7 1 i)] := by
  suffices h : ∃ m : State Nat, Run 7 0 Careful m ∧ (m.stack 0).length = k ∧ (∀ f ∈ m.stack 0, f.busy = true) ∧
      m.log = ((0, .made [1]) :: (List.range k).flatMap fun i => [(0, .began (i + 1) i), (0, .told (i + 1) 7 1 i)]) ∧
      m.list = some [1] ∧ m.ready = true ∧ m.Knows 0 m.Writes ∧ m.fresh = k + 1 by
    obtain ⟨m, h1, h2, h3, h4, -⟩ := h
    exact ⟨m, h1, h2, h3, h4⟩
  induction k with
  | zero =>
    have h : (go (State.new 7 0) setup1).map (fun m => (m.log, (m.stack 0).length, m.list, m.ready, knowsB m 0 (writesB m), m.fresh)) =
        some ([(0, .made [1])], 0, some [1], true, true, 1) := rfl
    obtain ⟨m, h1, h2⟩ := Option.map_eq_some_iff.1 h
    simp only [Prod.mk.injEq] at h2
    obtain ⟨h2, h3, h4, h5, h6, h7⟩ := h2
    have h3' : m.stack 0 = [] := List.eq_nil_of_length_eq_zero h3
    exact ⟨m, go_run _ .start h1, h3, by rw [h3']; simp, by rw [h2]; rfl, h4, h5, knowsB_iff writesB_of h6, h7⟩
  | succ k ih =>
    obtain ⟨m, r, hk, hb, hlog, hl, hr, hkn, hfr⟩ := ih
    have hu : m.user 0 = true := by
      unfold State.user
      cases hst : m.stack 0 with
      | nil => rfl
      | cons f fs => exact hb f (by rw [hst]; simp)
    have hself := r.fixed.1
    have hn := r.fixed.2
    have hobs : m.sh.obs 0 = some 1 := (r.inv.whole [1] hl hr).1 0 1 rfl
    have hal : m.sh.alive 1 = true := (r.inv.len [1] hl).2 1 (by simp)
    have s1 : step m (.notify 0 k) = some { m with
        stack := HB.put m.stack 0 (⟨m.fresh, .notify k, .obs 0 fun o => .tell o 7 k (.left o .ret), false⟩ :: m.stack 0),
        fresh := m.fresh + 1, log := m.log ++ [(0, .began m.fresh k)] } := by
      simp only [step, hu, if_true, hself, hn, notifyFrom]
    have r1 := Run.step _ _ _ r (show Careful m (.notify 0 k) from ⟨hr, hkn⟩) s1
    generalize hm1 : ({ m with
        stack := HB.put m.stack 0 (⟨m.fresh, .notify k, .obs 0 fun o => .tell o 7 k (.left o .ret), false⟩ :: m.stack 0),
        fresh := m.fresh + 1, log := m.log ++ [(0, .began m.fresh k)] } : State Nat) = m1 at r1
    have e1 : m1.stack 0 = ⟨m.fresh, .notify k, .obs 0 fun o => .tell o 7 k (.left o .ret), false⟩ :: m.stack 0 := by
      rw [← hm1]; simp
    have s2 : step m1 (.act 0) = some { m1 with
        mem := m1.mem.run 0 [.acc (.obs 0) false 0],
        stack := HB.put m1.stack 0 (⟨m.fresh, .notify k, .tell 1 7 k (.left 1 .ret), false⟩ :: m.stack 0) } := by
      simp only [step, e1, Bool.false_eq_true, if_false, act]
      rw [show m1.sh.obs 0 = some 1 by rw [← hm1]; exact hobs]
      rfl
    have r2 := Run.step _ _ (.act 0) r1 trivial s2
    generalize hm2 : ({ m1 with
        mem := m1.mem.run 0 [.acc (.obs 0) false 0],
        stack := HB.put m1.stack 0 (⟨m.fresh, .notify k, .tell 1 7 k (.left 1 .ret), false⟩ :: m.stack 0) } : State Nat) = m2 at r2
    have e2 : m2.stack 0 = ⟨m.fresh, .notify k, .tell 1 7 k (.left 1 .ret), false⟩ :: m.stack 0 := by
      rw [← hm2]; simp
    have s3 : step m2 (.act 0) = some { m2 with
        mem := m2.mem.run 0 [.acc (.observer 1) false 0],
        stack := HB.put m2.stack 0 (⟨m.fresh, .notify k, .left 1 .ret, true⟩ :: m.stack 0),
        log := m2.log ++ [(0, .told m.fresh 7 1 k)] } := by
      simp only [step, e2, Bool.false_eq_true, if_false, act]
      rw [show m2.sh.alive 1 = true by rw [← hm2, ← hm1]; exact hal]
      rfl
    have r3 := Run.step _ _ (.act 0) r2 trivial s3
    generalize hm3 : ({ m2 with
        mem := m2.mem.run 0 [.acc (.observer 1) false 0],
        stack := HB.put m2.stack 0 (⟨m.fresh, .notify k, .left 1 .ret, true⟩ :: m.stack 0),
        log := m2.log ++ [(0, .told m.fresh 7 1 k)] } : State Nat) = m3 at r3
    have e3 : m3.stack 0 = ⟨m.fresh, .notify k, .left 1 .ret, true⟩ :: m.stack 0 := by rw [← hm3]; simp
    have hr3 : m3.ready = true := by rw [← hm3, ← hm2, ← hm1]; exact hr
    refine ⟨m3, r3, by rw [e3, List.length_cons, hk], ?_, ?_, by rw [← hm3, ← hm2, ← hm1]; exact hl, hr3,
      r3.inv.knows hr3 0 (by rw [e3]; simp), by rw [← hm3, ← hm2, ← hm1]; show m.fresh + 1 = _; rw [hfr]⟩
    · intro f hf
      rw [e3] at hf
      rcases List.mem_cons.1 hf with rfl | hf
      · rfl
      · exact hb f hf
    · rw [← hm3, ← hm2, ← hm1]
      show m.log ++ [(0, .began m.fresh k)] ++ [(0, .told m.fresh 7 1 k)] = _
      rw [hlog, hfr, List.range_succ, List.flatMap_append]
      simp

/-- If an observer is destroyed before the observable is, a notification can come to a call of it: undefined. -/
theorem C151_observer_gone : ∃ m m1 m2 m3 : State Nat, Run 7 0 Careful m ∧ m.ready = true ∧ (∀ v, Careful m (.notify 0 v)) ∧
    step m (.die 0 1) = some m1 ∧ step m1 (.notify 0 5) = some m2 ∧ step m2 (.act 0) = some m3 ∧
    m3.user 0 = false ∧ step m3 (.act 0) = none ∧ step m3 (.back 0) = none := by
  have h : (go (State.new 7 0) setup1).map (fun m => (m.ready, knowsB m 0 (writesB m),
      ((step m (.die 0 1)).bind fun m1 => (step m1 (.notify 0 5)).bind fun m2 => (step m2 (.act 0)).map fun m3 =>
        (m3.user 0, (step m3 (.act 0)).isNone, (step m3 (.back 0)).isNone)))) =
      some (true, true, some (false, true, true)) := by decide
  obtain ⟨m, h1, h2⟩ := Option.map_eq_some_iff.1 h
  simp only [Prod.mk.injEq, Option.bind_eq_some_iff, Option.map_eq_some_iff, Option.isNone_iff_eq_none] at h2
  obtain ⟨h2, h3, m1, e1, m2, e2, m3, e3, h4, h5, h6⟩ := h2
  exact ⟨m, m1, m2, m3, go_run _ .start h1, h2, fun v => ⟨h2, knowsB_iff writesB_of h3⟩, e1, e2, e3, h4, h5, h6⟩

/-- Threads that do not synchronise with each other do meet the hypotheses of `C151_unsynchronised`. -/
example : ∃ m : State Nat, Run 7 0 (fun _ l => ∀ t s, l ≠ .acq t s) m ∧ (0, Ev.made [1]) ∈ m.log ∧
    ∃ f fs, m.stack 1 = f :: fs ∧ f.prog = notifyFrom m.self 6 m.n 0 := by
  have h0 : step (State.new 7 0 : State Nat) (.born 0 1) ≠ none := by decide
  refine ⟨_, .step _ _ (.notify 1 6) (.step _ _ (.act 0) (.step _ _ (.act 0) (.step _ _ (.make 0 [1]) (.step _ _ (.born 0 1) .start
    (by simp) rfl) (by simp) rfl) (by simp) rfl) (by simp) rfl) (by simp) rfl, ?_, _, _, rfl, rfl⟩
  simp [State.new]

/-- Notifications one after another, as `C152_order_partial` asks for. -/
example : ∃ m : State Nat, Run 7 0 Alone m ∧ (m.log.filter fun e => match e.2 with | .began _ _ => true | _ => false) = [(0, .began 1 5)] := by
  refine ⟨_, .step _ _ (.notify 0 5) (.step _ _ (.act 0) (.step _ _ (.act 0) (.step _ _ (.make 0 [1]) (.step _ _ (.born 0 1) .start
    ⟨careful_of rfl, fun _ _ h => by cases h⟩ rfl) ⟨careful_of rfl, fun _ _ h => by cases h⟩ rfl) ⟨trivial, fun _ _ h => by cases h⟩ rfl)
    ⟨trivial, fun _ _ h => by cases h⟩ rfl) ⟨careful_of (by decide), fun t v h u => ?_⟩ rfl, rfl⟩
  show HB.put (HB.put (HB.put _ 0 _) 0 _) 0 [] u = []
  by_cases hu : u = 0
  · subst hu; rfl
  · rw [put_ne _ _ hu, put_ne _ _ hu, put_ne _ _ hu]; rfl

end Verif.Observer.Static
