import Verif.Pimpl.Model
/-! `fast_pimpl`: properties C75 and C76. -/
namespace Verif.Pimpl
open Verif

/-! ### C75: the storage fits the object -/

/-- Whenever the checks pass, the object at `get()` of a wrapper at any address that is a multiple of its alignment is
aligned and lies inside the wrapper. -/
theorem C75_fits (l : Layout) (ha : 0 < l.align) (hv : validated l = true) (w : Nat) (hw : l.align ∣ w) :
    l.tAlign ∣ getAddr w ∧ w ≤ getAddr w ∧ getAddr w + l.tSize ≤ w + storageSize l := by
  simp only [validated, Bool.and_eq_true, decide_eq_true_eq, beq_iff_eq] at hv
  obtain ⟨⟨h1, -⟩, h3⟩ := hv
  refine ⟨Nat.dvd_trans (Nat.dvd_of_mod_eq_zero h3) hw, Nat.le_refl _, ?_⟩
  have hr : l.size ≤ storageSize l := by
    have h := Nat.div_add_mod (l.size + l.align - 1) l.align
    have hm := Nat.mod_lt (l.size + l.align - 1) ha
    unfold storageSize
    rw [Nat.mul_comm]
    omega
  show w + l.tSize ≤ w + storageSize l
  omega

/-- In an array of wrappers every object is aligned, and different objects do not overlap. -/
theorem C75_array (l : Layout) (ha : 0 < l.align) (hv : validated l = true) (w : Nat) (hw : l.align ∣ w) (i j : Nat)
    (hij : i < j) :
    l.tAlign ∣ getAddr (w + j * storageSize l) ∧
      getAddr (w + i * storageSize l) + l.tSize ≤ getAddr (w + j * storageSize l) := by
  have hd : ∀ k, l.align ∣ w + k * storageSize l := fun k =>
    Nat.dvd_add hw (Nat.dvd_trans (Nat.dvd_mul_left _ _) (Nat.dvd_mul_left _ _))
  refine ⟨(C75_fits l ha hv _ (hd j)).1, Nat.le_trans (C75_fits l ha hv _ (hd i)).2.2 ?_⟩
  show w + i * storageSize l + storageSize l ≤ w + j * storageSize l
  have : (i + 1) * storageSize l ≤ j * storageSize l := Nat.mul_le_mul_right _ hij
  rw [Nat.succ_mul] at this
  omega

/-- The checks are necessary: if the alignment check fails, there is a wrapper whose object is misaligned; if the size
check fails and the size is a multiple of the alignment, the object does not fit. -/
theorem C75_necessary (l : Layout) :
    (l.align % l.tAlign ≠ 0 → ∃ w, l.align ∣ w ∧ ¬ l.tAlign ∣ getAddr w) ∧
    (l.size < l.tSize → l.align ∣ l.size → 0 < l.align → ∀ w, w + storageSize l < getAddr w + l.tSize) := by
  constructor
  · intro h
    exact ⟨l.align, Nat.dvd_refl _, fun hd => h (Nat.mod_eq_zero_of_dvd hd)⟩
  · rintro h ⟨k, hk⟩ ha w
    have : storageSize l = l.size := by
      unfold storageSize
      rw [hk, show l.align * k + l.align - 1 = l.align - 1 + l.align * k by omega, Nat.add_mul_div_left _ _ ha,
        Nat.div_eq_of_lt (by omega), Nat.zero_add, Nat.mul_comm]
    rw [this]
    show w + l.size < w + l.tSize
    omega

/-- With `Strict` nothing is wasted: the sizes are equal. -/
theorem C75_strict (l : Layout) (hs : l.strict = true) (hv : validated l = true) : l.size = l.tSize := by
  simp only [validated, Bool.and_eq_true, Bool.or_eq_true, beq_iff_eq, hs] at hv
  rcases hv.1.2 with h | h
  · exact h
  · cases h

example : ∃ l : Layout, validated l = true ∧ l.tSize = 12 ∧ l.align ∣ 48 ∧ storageSize l = 16 :=
  ⟨{ size := 14, align := 8, strict := false, tSize := 12, tAlign := 4 }, by decide, rfl, by decide, by decide⟩

example : ∃ l : Layout, l.align % l.tAlign ≠ 0 ∧ l.size < l.tSize ∧ l.align ∣ l.size :=
  ⟨{ size := 8, align := 4, strict := false, tSize := 12, tAlign := 8 }, by decide, by decide, by decide⟩

example : ∃ l : Layout, validated l = true ∧ l.strict = true :=
  ⟨{ size := 12, align := 8, strict := true, tSize := 12, tAlign := 4 }, by decide, rfl⟩

/-! ### C76: value semantics -/

variable {T : Ty}

/-- The `noexcept` operators in the declarations of the wrapper are right: what is declared not to throw does not. -/
structure Coherent (T : Ty) : Prop where
  ctor : ∀ a, T.ctorNoexcept a = true → ∃ v, T.ctor a = .ok v
  copy : T.copyNoexcept = true → ∀ v, ∃ w, T.copy v = .ok w
  move : T.moveNoexcept = true → ∀ v, ∃ w, (T.move v).1 = .ok w
  assign : T.assignNoexcept = true → ∀ a b, (T.assign a b).1 = none ∧ (T.selfAssign a).1 = none
  moveAssign : T.moveAssignNoexcept = true → ∀ a b, (T.moveAssign a b).1 = none ∧ (T.selfMove a).1 = none

/-- The wrappers hold the values of the plain variables. -/
def Same (s : St T) (up : Nat → Bool) (P : Nat → Option T.V) : Prop :=
  ∀ x, (s.mem x).map (·.2) = P x ∧ up x = (P x).isSome

theorem Same.live {s : St T} {up : Nat → Bool} {P : Nat → Option T.V} (h : Same s up P) {x : Nat} {v : T.V}
    (hx : P x = some v) : up x = true ∧ ∃ n, s.mem x = some (n, v) ∧ deref s x = .ok (n, v) := by
  have hs := h x
  rw [hx] at hs
  refine ⟨hs.2, ?_⟩
  obtain ⟨o, ho, rfl⟩ := Option.map_eq_some_iff.mp hs.1
  exact ⟨o.1, ho, by unfold deref; rw [ho]⟩

theorem Same.dead {s : St T} {up : Nat → Bool} {P : Nat → Option T.V} (h : Same s up P) {x : Nat}
    (hx : P x = none) : up x = false := by
  have hs := (h x).2
  rwa [hx] at hs

theorem Same.put {s : St T} {up : Nat → Bool} {P : Nat → Option T.V} (h : Same s up P) {x : Nat} {v : T.V}
    (hx : P x = some v) (n : Nat) (w : T.V) : Same (put s x n w) up (upd P x (some w)) := by
  intro y
  by_cases hy : y = x
  · subst hy
    simp [Pimpl.put, upd, (h.live hx).1]
  · simp [Pimpl.put, upd, hy, h y]

theorem Same.new {s : St T} {up : Nat → Bool} {P : Nat → Option T.V} (h : Same s up P) (x n : Nat) (l : List Ev) (v : T.V) :
    Same { mem := upd s.mem x (some (s.next, v)), next := n, log := l } (upd up x true) (upd P x (some v)) := by
  intro y
  by_cases hy : y = x
  · subst hy
    simp [upd]
  · simp [upd, hy, h y]

theorem sealed_ok {ne : Bool} {s : St T} {o : Out T} (h : ∀ e, o = .threw e → ne = false) : sealed ne (s, o) = (s, o) := by
  cases o with
  | threw e => simp [sealed, h e rfl]
  | done => rfl
  | saw _ => rfl
  | terminated => rfl

theorem outOf_ended (e : Option T.E) : (outOf e).ended = false := by cases e <;> rfl

/-- One operation. -/
theorem step_same (hc : Coherent T) {s : St T} {up : Nat → Bool} {P P' : Nat → Option T.V} {op : Op T} {o : Out T}
    (h : Same s up P) (hop : ∀ x y, op ≠ .copyLvalue x y) (hs : plainStep P op = .ok (P', o)) :
    ∃ s', step s up op = .ok (s', o) ∧ o.ended = false ∧ Same s' (upAfter up op o) P' := by
  have newCase : ∀ (s : St T) (P : Nat → Option T.V) (x : Nat) (r : Except T.E T.V) (ne : Bool),
      Same s up P → (∀ e, r = .error e → ne = false) →
      (match r with
        | .ok v => Res.ok (upd P x (some v), Out.done)
        | .error e => .ok (P, .threw e)) = .ok (P', o) →
      (∀ o : Out T, o.ended = false → (∀ e, o ≠ .threw e) → upAfter up op o = upd up x true) →
      (∀ e, upAfter up op (.threw e) = up) →
      ∃ s', sealed ne (newAt s x r) = (s', o) ∧ o.ended = false ∧ Same s' (upAfter up op o) P' := by
    intro s P x r ne h hne hr hu hut
    cases r with
    | ok v =>
      simp only [Res.ok.injEq, Prod.mk.injEq] at hr
      obtain ⟨rfl, rfl⟩ := hr
      refine ⟨_, rfl, rfl, ?_⟩
      rw [hu .done rfl (by simp)]
      exact h.new x _ _ v
    | error e =>
      simp only [Res.ok.injEq, Prod.mk.injEq] at hr
      obtain ⟨rfl, rfl⟩ := hr
      refine ⟨s, ?_, rfl, by rw [hut]; exact h⟩
      exact sealed_ok (fun e' he => hne e rfl)
  cases op with
  | construct x a =>
    simp only [plainStep] at hs
    cases hx : P x with
    | some v => rw [hx] at hs; cases hs
    | none =>
      rw [hx] at hs
      simp only at hs
      obtain ⟨s', h1, h2, h3⟩ := newCase s P x (T.ctor a) (T.ctorNoexcept a) h (fun e he => by
        cases hn : T.ctorNoexcept a with
        | false => rfl
        | true => obtain ⟨v, hv⟩ := hc.ctor a hn; rw [he] at hv; cases hv) hs
        (fun o h1 h2 => by cases o with | threw e => exact absurd rfl (h2 e) | terminated => cases h1 | done => rfl | saw _ => rfl)
        (fun e => rfl)
      refine ⟨s', ?_, h2, h3⟩
      simp only [step, h.dead hx]
      rw [← h1]
      rfl
  | copy x y =>
    simp only [plainStep] at hs
    cases hx : P x with
    | some v => rw [hx] at hs; cases hs
    | none =>
      cases hy : P y with
      | none => rw [hx, hy] at hs; cases hs
      | some v =>
        rw [hx, hy] at hs
        simp only at hs
        obtain ⟨hu, n, -, hd⟩ := h.live hy
        obtain ⟨s', h1, h2, h3⟩ := newCase s P x (T.copy v) T.copyNoexcept h (fun e he => by
          cases hn : T.copyNoexcept with
          | false => rfl
          | true => obtain ⟨w, hw⟩ := hc.copy hn v; rw [he] at hw; cases hw) hs
          (fun o h1 h2 => by cases o with | threw e => exact absurd rfl (h2 e) | terminated => cases h1 | done => rfl | saw _ => rfl)
          (fun e => rfl)
        refine ⟨s', ?_, h2, h3⟩
        simp only [step, h.dead hx, hu, copyCtor, hd, Res.ok_bind]
        rw [← h1]
        rfl
  | copyLvalue x y => exact absurd rfl (hop x y)
  | move x y =>
    simp only [plainStep] at hs
    cases hx : P x with
    | some v => rw [hx] at hs; cases hs
    | none =>
      cases hy : P y with
      | none => rw [hx, hy] at hs; cases hs
      | some v =>
        rw [hx, hy] at hs
        simp only at hs
        obtain ⟨hu, n, -, hd⟩ := h.live hy
        have hs' : (match (T.move v).1 with
            | .ok w => Res.ok (upd (upd P y (some (T.move v).2)) x (some w), Out.done)
            | .error e => .ok (upd P y (some (T.move v).2), .threw e)) = .ok (P', o) := by
          revert hs
          rcases T.move v with ⟨r, v'⟩
          cases r <;> exact id
        obtain ⟨s', h1, h2, h3⟩ := newCase (put s y n (T.move v).2) _ x (T.move v).1 T.moveNoexcept (h.put hy n _)
          (fun e he => by
          cases hn : T.moveNoexcept with
          | false => rfl
          | true => obtain ⟨w, hw⟩ := hc.move hn v; rw [he] at hw; cases hw) hs'
          (fun o h1 h2 => by cases o with | threw e => exact absurd rfl (h2 e) | terminated => cases h1 | done => rfl | saw _ => rfl)
          (fun e => rfl)
        refine ⟨s', ?_, h2, h3⟩
        simp only [step, h.dead hx, hu, moveCtor, hd, Res.ok_bind]
        rw [← h1]
        rfl
  | assign x y =>
    have hu0 : ∀ o : Out T, upAfter up (.assign x y) o = up := fun o => by cases o <;> rfl
    simp only [plainStep] at hs
    cases hx : P x with
    | none => rw [hx] at hs; cases hs
    | some a =>
      cases hy : P y with
      | none => rw [hx, hy] at hs; cases hs
      | some b =>
        rw [hx, hy] at hs
        simp only at hs
        obtain ⟨hux, n, -, hdx⟩ := h.live hx
        obtain ⟨huy, m, -, hdy⟩ := h.live hy
        by_cases he : x = y
        · rw [if_pos he] at hs
          simp only [Res.ok.injEq, Prod.mk.injEq] at hs
          obtain ⟨rfl, rfl⟩ := hs
          refine ⟨put s x n (T.selfAssign a).2, ?_, outOf_ended _, by rw [hu0]; exact h.put hx n _⟩
          simp only [step, hux, huy, copyAssign, hdx, hdy, Res.ok_bind, if_pos he]
          exact congrArg Res.ok (sealed_ok fun e hh => by
            cases hn : T.assignNoexcept with
            | false => rfl
            | true => rw [(hc.assign hn a b).2] at hh; cases hh)
        · rw [if_neg he] at hs
          simp only [Res.ok.injEq, Prod.mk.injEq] at hs
          obtain ⟨rfl, rfl⟩ := hs
          refine ⟨put s x n (T.assign a b).2, ?_, outOf_ended _, by rw [hu0]; exact h.put hx n _⟩
          simp only [step, hux, huy, copyAssign, hdx, hdy, Res.ok_bind, if_neg he]
          exact congrArg Res.ok (sealed_ok fun e hh => by
            cases hn : T.assignNoexcept with
            | false => rfl
            | true => rw [(hc.assign hn a b).1] at hh; cases hh)
  | moveAssign x y =>
    have hu0 : ∀ o : Out T, upAfter up (.moveAssign x y) o = up := fun o => by cases o <;> rfl
    simp only [plainStep] at hs
    cases hx : P x with
    | none => rw [hx] at hs; cases hs
    | some a =>
      cases hy : P y with
      | none => rw [hx, hy] at hs; cases hs
      | some b =>
        rw [hx, hy] at hs
        simp only at hs
        obtain ⟨hux, n, -, hdx⟩ := h.live hx
        obtain ⟨huy, m, -, hdy⟩ := h.live hy
        by_cases he : x = y
        · rw [if_pos he] at hs
          simp only [Res.ok.injEq, Prod.mk.injEq] at hs
          obtain ⟨rfl, rfl⟩ := hs
          refine ⟨put s x n (T.selfMove a).2, ?_, outOf_ended _, by rw [hu0]; exact h.put hx n _⟩
          simp only [step, hux, huy, moveAssign, hdx, hdy, Res.ok_bind, if_pos he]
          exact congrArg Res.ok (sealed_ok fun e hh => by
            cases hn : T.moveAssignNoexcept with
            | false => rfl
            | true => rw [(hc.moveAssign hn a b).2] at hh; cases hh)
        · rw [if_neg he] at hs
          simp only [Res.ok.injEq, Prod.mk.injEq] at hs
          obtain ⟨rfl, rfl⟩ := hs
          refine ⟨put (put s y m (T.moveAssign a b).2.2) x n (T.moveAssign a b).2.1, ?_, outOf_ended _, ?_⟩
          · simp only [step, hux, huy, moveAssign, hdx, hdy, Res.ok_bind, if_neg he]
            exact congrArg Res.ok (sealed_ok fun e hh => by
              cases hn : T.moveAssignNoexcept with
              | false => rfl
              | true => rw [(hc.moveAssign hn a b).1] at hh; cases hh)
          · rw [hu0]
            exact (h.put hy m _).put (v := a) (by simp [upd, he, hx]) n _
  | access x u =>
    simp only [plainStep] at hs
    cases hx : P x with
    | none => rw [hx] at hs; cases hs
    | some a =>
      rw [hx] at hs
      simp only [Res.ok.injEq, Prod.mk.injEq] at hs
      obtain ⟨rfl, rfl⟩ := hs
      obtain ⟨hux, n, -, hdx⟩ := h.live hx
      refine ⟨put s x n (T.use u a).1, ?_, rfl, h.put hx n _⟩
      simp only [step, hux, access, hdx, Res.ok_bind]
      rfl
  | destroy x =>
    simp only [plainStep] at hs
    cases hx : P x with
    | none => rw [hx] at hs; cases hs
    | some a =>
      rw [hx] at hs
      simp only [Res.ok.injEq, Prod.mk.injEq] at hs
      obtain ⟨rfl, rfl⟩ := hs
      obtain ⟨hux, n, -, hdx⟩ := h.live hx
      refine ⟨{ s with mem := upd s.mem x none, log := s.log ++ [.dtor n] }, ?_, rfl, ?_⟩
      · simp only [step, hux, dtor, hdx, Res.ok_bind]
        rfl
      · intro y
        by_cases hy : y = x
        · subst hy
          simp [upd, upAfter]
        · simp [upd, upAfter, hy, h y]

/-- Every history that is legal for plain variables of type `T` is legal for wrappers, with the same observations and
exceptions, and leaves the same values.  Missing: types whose `noexcept(T{…})` does not tell whether `T(…)` throws
(`C76_terminates_refuted`), and copies of variables that are not const in the form `T x(y)`
(`C76_copy_refuted`). -/
theorem C76_same_values_partial (T : Ty) (hc : Coherent T) (h : List (Op T)) (hop : ∀ x y, Op.copyLvalue x y ∉ h)
    (P : Nat → Option T.V) (outs : List (Out T)) (hp : plainRun (fun _ => none) h = .ok (P, outs)) :
    ∃ s, run {} (fun _ => false) h = .ok (s, outs) ∧ ∀ x, (s.mem x).map (·.2) = P x := by
  have key : ∀ (h : List (Op T)) (s : St T) (up : Nat → Bool) (P P' : Nat → Option T.V) (outs : List (Out T)),
      (∀ x y, Op.copyLvalue x y ∉ h) → Same s up P → plainRun P h = .ok (P', outs) →
      ∃ s', run s up h = .ok (s', outs) ∧ ∀ x, (s'.mem x).map (·.2) = P' x := by
    intro h
    induction h with
    | nil =>
      intro s up P P' outs _ hs hp
      simp only [plainRun, Res.ok.injEq, Prod.mk.injEq] at hp
      obtain ⟨rfl, rfl⟩ := hp
      exact ⟨s, rfl, fun x => (hs x).1⟩
    | cons op h ih =>
      intro s up P P' outs hop hs hp
      simp only [plainRun] at hp
      cases hr : plainStep P op with
      | ub => rw [hr] at hp; cases hp
      | hang => rw [hr] at hp; cases hp
      | ok r =>
        rw [hr, Res.ok_bind] at hp
        cases hq : plainRun r.1 h with
        | ub => rw [hq] at hp; cases hp
        | hang => rw [hq] at hp; cases hp
        | ok q =>
          rw [hq, Res.ok_bind] at hp
          simp only [Res.ok.injEq, Prod.mk.injEq] at hp
          obtain ⟨rfl, rfl⟩ := hp
          obtain ⟨s', h1, h2, h3⟩ := step_same hc hs (fun x y e => hop x y (e ▸ .head _)) (show plainStep P op = .ok (r.1, r.2) from hr)
          obtain ⟨s'', h4, h5⟩ := ih s' _ r.1 q.1 q.2 (fun x y hm => hop x y (.tail _ hm)) h3 hq
          refine ⟨s'', ?_, h5⟩
          rw [run, h1, Res.ok_bind]
          simp only [h2, Bool.false_eq_true, if_false, h4, Res.ok_bind]
  exact key h {} _ (fun _ => none) P outs hop (fun x => ⟨rfl, rfl⟩) hp

/-! ### C76: balanced lifetimes -/

def Ev.ctorId : Ev → Option Nat
  | .ctor n => some n
  | _ => none

def Ev.dtorId : Ev → Option Nat
  | .dtor n => some n
  | _ => none

/-- The numbers are given once; the objects in the storages are those constructed and not destroyed. -/
structure Balanced (s : St T) (up : Nat → Bool) : Prop where
  up_iff : ∀ x, up x = (s.mem x).isSome
  ctors : s.log.filterMap Ev.ctorId = List.range s.next
  dtors : (s.log.filterMap Ev.dtorId).Nodup
  below : ∀ n ∈ s.log.filterMap Ev.dtorId, n < s.next
  live : ∀ x n v, s.mem x = some (n, v) → n < s.next ∧ n ∉ s.log.filterMap Ev.dtorId
  apart : ∀ x y n v w, s.mem x = some (n, v) → s.mem y = some (n, w) → x = y
  complete : ∀ n, n < s.next → n ∉ s.log.filterMap Ev.dtorId → ∃ x v, s.mem x = some (n, v)

theorem Balanced.put {s : St T} {up : Nat → Bool} (h : Balanced s up) {x n : Nat} {v : T.V} (hx : s.mem x = some (n, v))
    (w : T.V) : Balanced (put s x n w) up := by
  have hm : ∀ y m u, (Pimpl.put s x n w).mem y = some (m, u) → ∃ u', s.mem y = some (m, u') := by
    intro y m u hy
    by_cases e : y = x
    · subst e
      simp only [Pimpl.put, upd, if_true, Option.some.injEq, Prod.mk.injEq] at hy
      exact ⟨v, by rw [hx, hy.1]⟩
    · simp only [Pimpl.put, upd, if_neg e] at hy
      exact ⟨u, hy⟩
  refine ⟨fun y => ?_, h.ctors, h.dtors, h.below, ?_, ?_, ?_⟩
  · by_cases e : y = x
    · subst e
      simp [Pimpl.put, upd, h.up_iff y, hx]
    · simp [Pimpl.put, upd, e, h.up_iff y]
  · intro y m u hy
    obtain ⟨u', hy⟩ := hm y m u hy
    exact h.live y m u' hy
  · intro y z m u u' hy hz
    obtain ⟨_, hy⟩ := hm y m u hy
    obtain ⟨_, hz⟩ := hm z m u' hz
    exact h.apart y z m _ _ hy hz
  · intro m h1 h2
    obtain ⟨y, u, hy⟩ := h.complete m h1 h2
    by_cases e : y = x
    · subst e
      rw [hx] at hy
      exact ⟨y, w, by simp only [Pimpl.put, upd, if_true]; rw [← (Prod.mk.inj (Option.some.inj hy)).1]⟩
    · exact ⟨y, u, by simp only [Pimpl.put, upd, if_neg e]; exact hy⟩

theorem Balanced.new {s : St T} {up : Nat → Bool} (h : Balanced s up) {x : Nat} (hx : up x = false) (v : T.V) :
    Balanced { mem := upd s.mem x (some (s.next, v)), next := s.next + 1, log := s.log ++ [.ctor s.next] }
      (upd up x true) := by
  have hd : (s.log ++ [Ev.ctor s.next]).filterMap Ev.dtorId = s.log.filterMap Ev.dtorId := by
    simp [List.filterMap_append, Ev.dtorId]
  have hx0 : s.mem x = none := by
    have := h.up_iff x
    rw [hx] at this
    cases hm : s.mem x with
    | none => rfl
    | some o => rw [hm] at this; cases this
  refine ⟨fun y => ?_, ?_, ?_, ?_, ?_, ?_, ?_⟩
  · by_cases e : y = x <;> simp [upd, e, h.up_iff y]
  · rw [List.filterMap_append, h.ctors, List.range_succ]
    rfl
  · simp only [hd]; exact h.dtors
  · simp only [hd]; exact fun n hn => Nat.lt_succ_of_lt (h.below n hn)
  · simp only [hd]
    intro y n u hy
    by_cases e : y = x
    · simp only [upd, if_pos e, Option.some.injEq, Prod.mk.injEq] at hy
      rw [← hy.1]
      exact ⟨Nat.lt_succ_self _, fun hn => absurd (h.below _ hn) (Nat.lt_irrefl _)⟩
    · simp only [upd, if_neg e] at hy
      exact ⟨Nat.lt_succ_of_lt (h.live y n u hy).1, (h.live y n u hy).2⟩
  · intro y z n u u' hy hz
    by_cases e : y = x <;> by_cases e' : z = x
    · rw [e, e']
    · simp only [upd, if_pos e, if_neg e', Option.some.injEq, Prod.mk.injEq] at hy hz
      have := (h.live z n u' hz).1
      omega
    · simp only [upd, if_neg e, if_pos e', Option.some.injEq, Prod.mk.injEq] at hy hz
      have := (h.live y n u hy).1
      omega
    · simp only [upd, if_neg e, if_neg e'] at hy hz
      exact h.apart y z n u u' hy hz
  · simp only [hd]
    intro n h1 h2
    by_cases e : n = s.next
    · exact ⟨x, v, by simp [upd, e]⟩
    · obtain ⟨y, u, hy⟩ := h.complete n (by omega) h2
      refine ⟨y, u, ?_⟩
      have : y ≠ x := by rintro rfl; rw [hx0] at hy; cases hy
      simp only [upd, if_neg this]
      exact hy

theorem deref_ok {s : St T} {x : Nat} {o : Nat × T.V} (h : deref s x = .ok o) : s.mem x = some (o.1, o.2) := by
  unfold deref at h
  cases hm : s.mem x with
  | none => rw [hm] at h; cases h
  | some p => rw [hm] at h; cases h; rfl

theorem bind_ok {α β : Type} {r : Res α} {f : α → Res β} {b : β} (h : (r >>= f) = .ok b) : ∃ a, r = .ok a ∧ f a = .ok b := by
  cases r with
  | ok a => exact ⟨a, rfl, by rwa [Res.ok_bind] at h⟩
  | ub => cases h
  | hang => cases h

theorem sealed_fst (ne : Bool) (r : St T × Out T) : (sealed ne r).1 = r.1 := by
  rcases r with ⟨s, o⟩
  cases o with
  | threw e => cases ne <;> rfl
  | done => rfl
  | saw _ => rfl
  | terminated => rfl

theorem upAfter_sealed (up : Nat → Bool) (op : Op T) (ne : Bool) (r : St T × Out T) :
    upAfter up op (sealed ne r).2 = upAfter up op r.2 := by
  rcases r with ⟨s, o⟩
  cases o with
  | threw e => cases ne <;> rfl
  | done => rfl
  | saw _ => rfl
  | terminated => rfl

theorem newAt_balanced {s : St T} {up : Nat → Bool} {op : Op T} {x : Nat} {r : Except T.E T.V} {ne : Bool}
    (h : Balanced s up) (hx : up x = false) (hu : upAfter up op .done = upd up x true) :
    Balanced (sealed ne (newAt s x r)).1 (upAfter up op (sealed ne (newAt s x r)).2) := by
  rw [sealed_fst, upAfter_sealed]
  cases r with
  | ok v =>
    show Balanced _ (upAfter up op .done)
    rw [hu]
    exact h.new hx v
  | error e => exact h

theorem step_balanced {s : St T} {up : Nat → Bool} {op : Op T} {r : St T × Out T} (h : Balanced s up)
    (hs : step s up op = .ok r) : Balanced r.1 (upAfter up op r.2) := by
  cases op with
  | construct x a =>
    simp only [step] at hs
    cases hx : up x with
    | true => rw [hx] at hs; cases hs
    | false =>
      rw [hx] at hs
      cases hs
      exact newAt_balanced h hx rfl
  | copy x y =>
    simp only [step] at hs
    cases hx : up x with
    | true => rw [hx] at hs; cases hs
    | false =>
      rw [hx] at hs
      cases hy : up y with
      | false => rw [hy] at hs; cases hs
      | true =>
        rw [hy] at hs
        obtain ⟨o, -, hs⟩ := bind_ok hs
        cases hs
        exact newAt_balanced h hx rfl
  | copyLvalue x y =>
    simp only [step] at hs
    cases hx : up x with
    | true => rw [hx] at hs; cases hs
    | false =>
      rw [hx] at hs
      cases hy : up y with
      | false => rw [hy] at hs; cases hs
      | true =>
        rw [hy] at hs
        obtain ⟨o, -, hs⟩ := bind_ok hs
        cases hs
        exact newAt_balanced h hx rfl
  | move x y =>
    simp only [step] at hs
    cases hx : up x with
    | true => rw [hx] at hs; cases hs
    | false =>
      rw [hx] at hs
      cases hy : up y with
      | false => rw [hy] at hs; cases hs
      | true =>
        rw [hy] at hs
        obtain ⟨o, ho, hs⟩ := bind_ok hs
        cases hs
        exact newAt_balanced (h.put (deref_ok ho) _) hx rfl
  | assign x y =>
    have hu0 : ∀ o : Out T, upAfter up (.assign x y) o = up := fun o => by cases o <;> rfl
    rw [hu0]
    simp only [step] at hs
    split at hs
    · cases hs
    · obtain ⟨o, ho, hs⟩ := bind_ok hs
      obtain ⟨p, hp, hs⟩ := bind_ok hs
      cases hs
      rw [sealed_fst]
      exact h.put (deref_ok ho) _
  | moveAssign x y =>
    have hu0 : ∀ o : Out T, upAfter up (.moveAssign x y) o = up := fun o => by cases o <;> rfl
    rw [hu0]
    simp only [step] at hs
    split at hs
    · cases hs
    · obtain ⟨o, ho, hs⟩ := bind_ok hs
      obtain ⟨p, hp, hs⟩ := bind_ok hs
      by_cases he : x = y
      · rw [if_pos he] at hs
        cases hs
        rw [sealed_fst]
        exact h.put (deref_ok ho) _
      · rw [if_neg he] at hs
        cases hs
        rw [sealed_fst]
        refine (h.put (deref_ok hp) _).put (v := o.2) ?_ _
        simp only [put, upd, if_neg he]
        exact deref_ok ho
  | access x u =>
    simp only [step] at hs
    split at hs
    · cases hs
    · obtain ⟨o, ho, hs⟩ := bind_ok hs
      cases hs
      exact h.put (deref_ok ho) _
  | destroy x =>
    simp only [step] at hs
    split at hs
    · cases hs
    · obtain ⟨o, ho, hs⟩ := bind_ok hs
      cases hs
      have hx := deref_ok ho
      have hd : (s.log ++ [Ev.dtor o.1]).filterMap Ev.dtorId = s.log.filterMap Ev.dtorId ++ [o.1] := by
        simp [List.filterMap_append, Ev.dtorId]
      have hl := h.live x o.1 o.2 hx
      refine ⟨fun y => ?_, ?_, ?_, ?_, ?_, ?_, ?_⟩
      · by_cases e : y = x <;> simp [upAfter, upd, e, h.up_iff y]
      · simp only [List.filterMap_append, h.ctors]
        simp [Ev.ctorId]
      · simp only [hd]
        rw [List.nodup_append]
        refine ⟨h.dtors, by simp, fun a ha b hb => ?_⟩
        rintro rfl
        rw [List.mem_singleton] at hb
        exact hl.2 (hb ▸ ha)
      · simp only [hd, List.mem_append, List.mem_singleton]
        rintro n (hn | rfl)
        · exact h.below n hn
        · exact hl.1
      · simp only [hd, List.mem_append, List.mem_singleton]
        intro y n u hy
        by_cases e : y = x
        · simp only [upd, if_pos e] at hy; cases hy
        · simp only [upd, if_neg e] at hy
          refine ⟨(h.live y n u hy).1, ?_⟩
          rintro (hn | rfl)
          · exact (h.live y n u hy).2 hn
          · exact e (h.apart y x _ _ _ hy hx)
      · intro y z n u u' hy hz
        by_cases e : y = x
        · simp only [upd, if_pos e] at hy; cases hy
        · by_cases e' : z = x
          · simp only [upd, if_pos e'] at hz; cases hz
          · simp only [upd, if_neg e, if_neg e'] at hy hz
            exact h.apart y z n u u' hy hz
      · simp only [hd, List.mem_append, List.mem_singleton]
        intro n h1 h2
        obtain ⟨y, u, hy⟩ := h.complete n h1 fun hn => h2 (.inl hn)
        refine ⟨y, u, ?_⟩
        have : y ≠ x := by
          rintro rfl
          rw [hx] at hy
          exact h2 (.inr (Prod.mk.inj (Option.some.inj hy)).1.symm)
        simp only [upd, if_neg this]
        exact hy

theorem run_balanced : ∀ (h : List (Op T)) (s : St T) (up : Nat → Bool) (r : St T × List (Out T)),
    Balanced s up → run s up h = .ok r → ∃ up', Balanced r.1 up'
  | [], s, up, r, hb, hr => by cases hr; exact ⟨up, hb⟩
  | op :: h, s, up, r, hb, hr => by
    rw [run] at hr
    obtain ⟨q, hq, hr⟩ := bind_ok hr
    have hb' := step_balanced hb hq
    by_cases he : q.2.ended = true
    · rw [if_pos he] at hr
      cases hr
      exact ⟨_, hb'⟩
    · rw [if_neg he] at hr
      obtain ⟨p, hp, hr⟩ := bind_ok hr
      cases hr
      exact run_balanced h q.1 _ p hb' hp

/-- In every history each inner object is constructed once and destroyed at most once, after its construction; those
not yet destroyed are exactly the ones in the wrappers that exist, one in each. -/
theorem C76_balanced (T : Ty) (h : List (Op T)) (s : St T) (outs : List (Out T))
    (hr : run {} (fun _ => false) h = .ok (s, outs)) :
    (s.log.filterMap Ev.ctorId).Nodup ∧ (s.log.filterMap Ev.dtorId).Nodup ∧
      (∀ n ∈ s.log.filterMap Ev.dtorId, n ∈ s.log.filterMap Ev.ctorId) ∧
      (∀ n, (n ∈ s.log.filterMap Ev.ctorId ∧ n ∉ s.log.filterMap Ev.dtorId) ↔ ∃ x v, s.mem x = some (n, v)) ∧
      (∀ x y n v w, s.mem x = some (n, v) → s.mem y = some (n, w) → x = y) := by
  have hb0 : Balanced ({} : St T) (fun _ => false) :=
    ⟨fun _ => rfl, rfl, .nil, (by simp), fun _ _ _ h => (by cases h), fun _ _ _ _ _ h => (by cases h), fun n h => (by simp at h)⟩
  obtain ⟨up, hb⟩ := run_balanced h {} _ (s, outs) hb0 hr
  refine ⟨by rw [hb.ctors]; exact List.nodup_range, hb.dtors, fun n hn => ?_, fun n => ?_, hb.apart⟩
  · rw [hb.ctors]; exact List.mem_range.mpr (hb.below n hn)
  · rw [hb.ctors, List.mem_range]
    constructor
    · rintro ⟨h1, h2⟩
      exact hb.complete n h1 h2
    · rintro ⟨x, v, hx⟩
      exact hb.live x n v hx

/-- A history that ends with no wrapper left has destroyed every object that was constructed. -/
theorem C76_all_destroyed (T : Ty) (h : List (Op T)) (s : St T) (outs : List (Out T))
    (hr : run {} (fun _ => false) h = .ok (s, outs)) (he : ∀ x, s.mem x = none) (n : Nat) :
    n ∈ s.log.filterMap Ev.ctorId ↔ n ∈ s.log.filterMap Ev.dtorId := by
  obtain ⟨-, -, h3, h4, -⟩ := C76_balanced T h s outs hr
  constructor
  · intro hc
    apply Decidable.byContradiction
    intro hd
    obtain ⟨x, v, hx⟩ := (h4 n).mp ⟨hc, hd⟩
    rw [he x] at hx
    cases hx
  · exact h3 n

/-! ### Examples and refutations -/

/-- A number that can be moved from (it becomes zero); constructing and copying 13 throws. -/
def exTy : Ty where
  V := Nat
  Args := Nat
  E := Unit
  Use := Nat
  O := Nat
  ctor a := if a = 13 then .error () else .ok a
  ctorNoexcept _ := false
  copy v := if v = 13 then .error () else .ok v
  copyNoexcept := false
  move v := (.ok v, 0)
  moveNoexcept := true
  assign a b := if b = 13 then (some (), a) else (none, b)
  selfAssign a := (none, a)
  assignNoexcept := false
  moveAssign _ b := (none, b, 0)
  selfMove a := (none, a)
  moveAssignNoexcept := true
  use u v := (v + u, v)
  fromWrapper v := .ok (v + 1000)
  fromWrapperNoexcept := false

theorem exTy_coherent : Coherent exTy :=
  ⟨fun _ h => (by cases h), fun h => (by cases h), fun _ v => ⟨v, rfl⟩, fun h => (by cases h), fun _ _ _ => ⟨rfl, rfl⟩⟩

/-- Construct, throw, copy, change, move, assign, destroy. -/
def exHist : List (Op exTy) :=
  [.construct 0 (5 : Nat), .construct 1 (13 : Nat), .copy 1 0, .access 1 (8 : Nat), .copy 2 1, .move 2 1, .assign 0 2,
    .access 0 (0 : Nat), .access 1 (0 : Nat), .destroy 1, .moveAssign 0 2, .destroy 0, .destroy 2]

def exOuts : List (Out exTy) :=
  [.done, .threw (), .done, .saw (5 : Nat), .threw (), .done, .threw (), .saw (5 : Nat), .saw (0 : Nat), .done, .done, .done,
    .done]

example : (∀ x y, Op.copyLvalue x y ∉ exHist) ∧ ∃ P, plainRun (fun _ => none) exHist = .ok (P, exOuts) :=
  ⟨fun x y h => by simp [exHist] at h, _, rfl⟩

example : ∃ s, run {} (fun _ => false) exHist = .ok (s, exOuts) ∧ (∀ x, s.mem x = none) ∧
    s.log = [.ctor 0, .ctor 1, .ctor 2, .dtor 1, .dtor 0, .dtor 2] := by
  refine ⟨_, rfl, fun x => ?_, rfl⟩
  match x with
  | 0 | 1 | 2 => rfl
  | n + 3 =>
    simp [upd, put, sealed, newAt, forward, exTy, outOf]

/-- `fast_pimpl b(a)` for a variable `a` that is not const does not copy the object: the forwarding constructor
builds a `T` from the wrapper (or does not compile). -/
theorem C76_copy_refuted : ∃ (T : Ty) (h : List (Op T)) (P : Nat → Option T.V) (outs : List (Out T)) (s : St T),
    Coherent T ∧ plainRun (fun _ => none) h = .ok (P, outs) ∧ run {} (fun _ => false) h = .ok (s, outs) ∧
      (s.mem 1).map (·.2) ≠ P 1 := by
  refine ⟨exTy, [.construct 0 (5 : Nat), .copyLvalue 1 0], _, _, _, exTy_coherent, rfl, rfl, ?_⟩
  intro h
  have h' : some (1005 : Nat) = some (5 : Nat) := h
  exact absurd h' (by decide)

/-- A type whose constructor from a list does not throw, while the constructor the wrapper calls does: plain variables
report the exception, the wrapper ends the program. -/
theorem C76_terminates_refuted : ∃ (T : Ty) (h : List (Op T)) (P : Nat → Option T.V) (s : St T) (e : T.E),
    (∀ x y, Op.copyLvalue x y ∉ h) ∧ plainRun (fun _ => none) h = .ok (P, [.threw e]) ∧
      run {} (fun _ => false) h = .ok (s, [.terminated]) :=
  ⟨{ exTy with ctorNoexcept := fun _ => true }, [.construct 0 (13 : Nat)], _, _, (), by simp, rfl, rfl⟩

end Verif.Pimpl
