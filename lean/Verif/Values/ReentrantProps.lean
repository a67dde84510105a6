import Verif.Values.Reentrant
/-! Properties C85 to C87: `values::observable<T, Max>` whose `on_update` functions call back. -/
namespace Verif.Values.Re
open Verif

variable {U : Type}

/-! ### C85 -/

/-- **C85.**  Whatever the functions of the observed objects do - updates, registrations, removals, `clear`, to
any depth - no call has undefined behaviour, as long as no operator computes in a signed type (where C45 applies);
and the registrations stay without repetition and within the capacity. -/
theorem C85_memory_safe {H : Handlers U} {T : IntTy} {max : Nat} {s : St U} (h : Reach H T max s)
    (hH : H.Only (Op.Safe T)) (op : Op) (ho : op.Safe T) (n : Nat) :
    exec H T n s op ≠ .ub ∧ (regs s).Nodup ∧ (regs s).length ≤ max :=
  ⟨(exec_good (P := Op.Safe T) (fun _ h => h) H (fun hn => absurd hH hn) max n s op h.inv).1 ho, h.inv.nodup,
    by rw [h.inv.cnt]; exact h.inv.le⟩

/-- Functions for the examples: object 1 registers object 3 when it is told 1, assigns 9 when it is told 2,
removes object 2 when it is told 3, clears when it is told 4 and otherwise does nothing. -/
def busy : Handlers Unit where
  update := fun _ o v =>
    if o = 1 ∧ v = 1 then .call (.add 3) fun _ u => .ret u
    else if o = 1 ∧ v = 2 then .call (.upd (.assign 9)) fun _ u => .ret u
    else if o = 1 ∧ v = 3 then .call (.remove 2) fun _ u => .ret u
    else if o = 1 ∧ v = 4 then .call .clear fun _ u => .ret u
    else .ret ()
  disconnect := fun _ o => if o = 2 then .call (.remove 1) fun _ u => .ret u else .ret ()

theorem busy_safe (T : IntTy) : busy.Only (Op.Safe T) := by
  constructor
  · intro u o v
    simp only [busy]
    repeat' split
    all_goals simp [Prog.Only, Op.Safe]
  · intro u o
    simp only [busy]
    split <;> simp [Prog.Only, Op.Safe]

/-- A sequence of calls from outside. -/
def runAll (H : Handlers U) (T : IntTy) (n : Nat) : List Op → St U → Res (St U)
  | [], s => .ok s
  | op :: ops, s => do
    let r ← exec H T n s op
    runAll H T n ops r.1

theorem runAll_reach {H : Handlers U} {T : IntTy} {max n : Nat} (ops : List Op) {s s' : St U} (h : Reach H T max s)
    (hr : runAll H T n ops s = .ok s') : Reach H T max s' := by
  induction ops generalizing s with
  | nil =>
    simp only [runAll, Res.ok.injEq] at hr
    exact hr ▸ h
  | cons op ops ih =>
    simp only [runAll] at hr
    cases he : exec H T n s op with
    | ub => rw [he] at hr; cases hr
    | hang => rw [he] at hr; cases hr
    | ok r => rw [he, Res.ok_bind] at hr; exact ih (.call _ _ n op r.2 h he) hr

example : ∃ s, Reach busy .int 3 s ∧ regs s = [1, 2, 3] ∧ s.log = [(1, 1), (2, 1)] ∧
    (∃ t r, exec busy .int 3 s (.upd (.assign 4)) = .ok (t, r) ∧ regs t = [] ∧
      t.log = [(1, 1), (2, 1), (1, 4), (3, 4), (3, 4)]) ∧
    exec busy .int 3 s (.upd (.assign 4)) ≠ .ub :=
  have h : ∃ s, runAll busy .int 2 [.add 1, .add 2, .upd (.assign 1)] (St.new 3 ()) = .ok s ∧
      regs s = [1, 2, 3] ∧ s.log = [(1, 1), (2, 1)] ∧
      (∃ t r, exec busy .int 3 s (.upd (.assign 4)) = .ok (t, r) ∧ regs t = [] ∧
      t.log = [(1, 1), (2, 1), (1, 4), (3, 4), (3, 4)]) := ⟨_, rfl, rfl, rfl, _, _, rfl, rfl, rfl⟩
  let ⟨s, h1, h2, h3, h4⟩ := h
  have hs := runAll_reach _ (Reach.new (max := 3) ()) h1
  ⟨s, hs, h2, h3, h4, (C85_memory_safe hs (busy_safe _) (.upd (.assign 4)) trivial 3).1⟩

/-! ### C86 -/

/-- The operators that send the value they store. -/
def Upd.Tracks : Upd → Prop
  | .assign _ | .addEq _ | .subEq _ | .preInc => True
  | _ => False

theorem result_stored {T : IntTy} (hT : T.Valid) {old v : Int} {u : Upd} (hu : u.Tracks)
    (h : result T old u = .ok v) : stored T old u = v := by
  have key : ∀ x, (do let r ← T.common.arith x; Res.ok (T.wrap r)) = .ok v → T.wrap x = v := by
    intro x hx
    cases hr : T.common.arith x with
    | ub => rw [hr] at hx; cases hx
    | hang => rw [hr] at hx; cases hx
    | ok r =>
      rw [hr, Res.ok_bind, Res.ok.injEq] at hx
      rw [← hx, IntTy.arith_wrap hT hr]
  cases u with
  | assign w => simpa [result, stored] using h
  | addEq n =>
    simp only [stored, IntTy.wrap_add_wrap hT]
    rw [← (int_common_wrap hT old n).1]
    exact key _ h
  | subEq n =>
    simp only [stored, IntTy.wrap_sub_wrap hT]
    rw [← (int_common_wrap hT old n).2]
    exact key _ h
  | preInc => exact key _ h
  | preDec => exact hu.elim
  | postInc => exact hu.elim
  | postDec => exact hu.elim

/-- A call that is an update by one of the operators that send the value they store. -/
def Op.Tracks : Op → Prop
  | .upd u => u.Tracks
  | _ => False

/-- Every registered object holds the value. -/
def InStep (s : St U) : Prop := ∀ o ∈ regs s, s.held o = s.value

theorem regs_congr {s t : St U} (h1 : t.arr = s.arr) (h2 : t.count = s.count) : regs t = regs s := by
  rw [regs, regs, h1, h2]

/-- Running a program without calls changes the user state only. -/
theorem runProg_none (ex : Ex U) (p : Prog U) (hp : p.Only fun _ => False) (s : St U) :
    ∃ u, runProg ex p s = .ok { s with user := u } := by
  induction p generalizing s with
  | ret u => exact ⟨u, rfl⟩
  | set u k ih => exact ih hp { s with user := u }
  | call op k => exact hp.1.elim

/-- The loop over objects whose functions make no calls. -/
theorem notifyLoop_quiet (ex : Ex U) (H : Handlers U) (v : Int) (l : List Nat)
    (hq : ∀ o ∈ l, ∀ u, (H.update u o v).Only fun _ => False) (left i : Nat) (s : St U) (hl : left = l.length)
    (hs : ∀ j, j < l.length → s.arr[i + j]? = some l[j]?) :
    ∃ t, notifyLoop ex H v i left s = .ok t ∧ t.arr = s.arr ∧ t.count = s.count ∧ t.value = s.value ∧
      (∀ o, t.held o = if o ∈ l then v else s.held o) ∧ t.log = s.log ++ l.map fun o => (o, v) := by
  subst hl
  induction l generalizing i s with
  | nil => exact ⟨s, rfl, rfl, rfl, rfl, fun o => by simp, by simp⟩
  | cons o l ih =>
    have h0 := hs 0 (by simp)
    simp only [Nat.add_zero, List.getElem?_cons_zero] at h0
    simp only [List.length_cons, notifyLoop, deref_some h0, Res.ok_bind, deliver]
    obtain ⟨u, hu⟩ := runProg_none ex (H.update s.user o v) (hq o (List.mem_cons_self ..) _)
      { s with held := fun p => if p = o then v else s.held p, log := s.log ++ [(o, v)] }
    rw [hu, Res.ok_bind]
    obtain ⟨t, t1, t2, t3, t4, t5, t6⟩ := ih (fun o' ho' => hq o' (List.mem_cons_of_mem _ ho')) (i + 1)
      { s with held := fun p => if p = o then v else s.held p, user := u, log := s.log ++ [(o, v)] } (by
        intro j hj
        have := hs (j + 1) (by simpa using hj)
        rw [show i + (j + 1) = i + 1 + j by omega, List.getElem?_cons_succ] at this
        exact this)
    refine ⟨t, t1, t2, t3, t4, fun p => ?_, ?_⟩
    · rw [t5 p]
      by_cases hp : p ∈ l
      · simp [hp]
      · by_cases hpo : p = o <;> simp [hp, hpo]
    · rw [t6]; simp

theorem notifyLoop_append (ex : Ex U) (H : Handlers U) (v : Int) (a b i : Nat) (s : St U) :
    notifyLoop ex H v i (a + b) s = (do
      let t ← notifyLoop ex H v i a s
      notifyLoop ex H v (i + a) b t) := by
  induction a generalizing i s with
  | zero => simp [notifyLoop]
  | succ a ih =>
    rw [show a + 1 + b = (a + b) + 1 by omega]
    simp only [notifyLoop]
    cases deref s i with
    | ub => rfl
    | hang => rfl
    | ok o =>
      simp only [Res.ok_bind]
      cases deliver ex H v o s with
      | ub => rfl
      | hang => rfl
      | ok t =>
        simp only [Res.ok_bind]
        rw [ih, show i + 1 + a = i + (a + 1) by omega]

/-- A program of tracking updates, run in a state where all hold the value, ends in such a state. -/
theorem runProg_inStep {ex : Ex U} {l : List (Option Nat)} {c : Nat}
    (hex : ∀ s op s' r, s.arr = l → s.count = c → op.Tracks → ex s op = .ok (s', r) →
      s'.arr = l ∧ s'.count = c ∧ InStep s') (p : Prog U) (hp : p.Only Op.Tracks) (s s' : St U) (h1 : s.arr = l)
    (h2 : s.count = c) (h3 : InStep s) (hr : runProg ex p s = .ok s') : s'.arr = l ∧ s'.count = c ∧ InStep s' := by
  induction p generalizing s with
  | ret u =>
    simp only [runProg, Res.ok.injEq] at hr
    subst hr
    exact ⟨h1, h2, h3⟩
  | set u k ih => exact ih hp { s with user := u } h1 h2 h3 hr
  | call op k ih =>
    simp only [runProg] at hr
    cases he : ex s op with
    | ub => rw [he] at hr; cases hr
    | hang => rw [he] at hr; cases hr
    | ok r =>
      rw [he, Res.ok_bind] at hr
      obtain ⟨a, b, d⟩ := hex s op r.1 r.2 h1 h2 hp.1 he
      exact ih r.2 r.1.user (hp.2 _ _) r.1 a b d hr

theorem update_inStep {T : IntTy} (hT : T.Valid) {max : Nat} {H : Handlers U} {l : List (Option Nat)} {c : Nat}
    (hinv : ∀ s : St U, s.arr = l → s.count = c → Inv max s) {rs : List Nat} {last : Nat}
    (hrs : ∀ s : St U, s.arr = l → s.count = c → regs s = rs ++ [last])
    (hq : ∀ o ∈ rs, ∀ u v, (H.update u o v).Only fun _ => False)
    (hlast : ∀ u v, (H.update u last v).Only Op.Tracks) (n : Nat) :
    ∀ s op s' r, s.arr = l → s.count = c → op.Tracks → exec H T n s op = .ok (s', r) →
      s'.arr = l ∧ s'.count = c ∧ InStep s' := by
  induction n with
  | zero => intro s op s' r _ _ _ h; cases h
  | succ n ih =>
    intro s op s' r ha hc ht hr
    cases op with
    | add o => exact ht.elim
    | remove o => exact ht.elim
    | clear => exact ht.elim
    | upd u =>
      simp only [exec, execStep, update] at hr
      cases hv : result T s.value u with
      | ub => rw [hv] at hr; cases hr
      | hang => rw [hv] at hr; cases hr
      | ok v =>
        have hst := result_stored hT ht hv
        rw [hv, Res.ok_bind, notify, hst] at hr
        have hi : Inv max { s with value := v } := hinv _ ha hc
        have hreg : regs { s with value := v } = rs ++ [last] := hrs _ ha hc
        have hcl : s.count = rs.length + 1 := by
          have := hi.cnt
          rw [hreg] at this
          simpa using this.symm
        have hle := hi.le
        have hlen := hi.len
        simp only at hle hlen
        rw [if_neg (by simp only; omega)] at hr
        simp only at hr
        have hx := notifyLoop_append (exec H T n) H v rs.length 1 0 { s with value := v }
        rw [← hcl] at hx
        rw [hx] at hr
        have hslot : ∀ j, j < rs.length + 1 → s.arr[j]? = some (rs ++ [last])[j]? := by
          intro j hj
          have := hi.slots j (by simp only; omega)
          rwa [hreg] at this
        obtain ⟨t, t1, t2, t3, t4, t5, -⟩ := notifyLoop_quiet (exec H T n) H v rs
          (fun o ho u => hq o ho u v) rs.length 0 { s with value := v } rfl (by
            intro j hj
            simp only [Nat.zero_add]
            rw [hslot j (by omega), List.getElem?_append_left hj])
        rw [t1, Res.ok_bind] at hr
        have hl : t.arr[0 + rs.length]? = some (some last) := by
          rw [t2, Nat.zero_add]
          simp only
          rw [hslot _ (by omega), List.getElem?_append_right (Nat.le_refl _)]
          simp
        simp only [notifyLoop, deref_some hl, Res.ok_bind, deliver] at hr
        cases hp : runProg (exec H T n) (H.update t.user last v)
            { t with held := fun p => if p = last then v else t.held p, log := t.log ++ [(last, v)] } with
        | ub => rw [hp] at hr; cases hr
        | hang => rw [hp] at hr; cases hr
        | ok w =>
          rw [hp] at hr
          simp only [Res.ok_bind, Res.ok.injEq, Prod.mk.injEq] at hr
          obtain ⟨rfl, -⟩ := hr
          refine runProg_inStep ih _ (hlast _ _) _ _ (by simpa [t2] using ha) (by simpa [t3] using hc) ?_ hp
          intro o ho
          have hreg' : regs ({ t with held := fun p => if p = last then v else t.held p, log := t.log ++ [(last, v)] } : St U) =
              rs ++ [last] := hrs _ (by simpa [t2] using ha) (by simpa [t3] using hc)
          rw [hreg'] at ho
          simp only [t4]
          by_cases hol : o = last
          · rw [if_pos hol]
          · rw [if_neg hol, t5 o, if_pos]
            rcases List.mem_append.1 ho with h | h
            · exact h
            · exact absurd (List.mem_singleton.1 h) hol

/-- **C86 when only the object registered last updates back**: for every integral type, if the functions of all
other registered objects make no calls and the function of the last one makes any number of `=`, `+=`, `-=` and
prefix `++` updates, themselves answered in the same way to any depth, then whenever an update with one of these
operators returns, every registered object holds `value()`.

Missing: the claim for functions of other objects, which is false (`C86_clamp_refuted`), and that the update
returns, which is false too (`C86_endless_refuted`). -/
theorem C86_in_step_partial {T : IntTy} (hT : T.Valid) {H : Handlers U} {max : Nat} {s : St U}
    (h : Reach H T max s) {rs : List Nat} {last : Nat} (hrs : regs s = rs ++ [last])
    (hq : ∀ o ∈ rs, ∀ u v, (H.update u o v).Only fun _ => False)
    (hlast : ∀ u v, (H.update u last v).Only fun op => (∃ v, op = .upd (.assign v)) ∨ (∃ n, op = .upd (.addEq n)) ∨
      (∃ n, op = .upd (.subEq n)) ∨ op = .upd .preInc)
    {u : Upd} (hu : (∃ v, u = .assign v) ∨ (∃ n, u = .addEq n) ∨ (∃ n, u = .subEq n) ∨ u = .preInc)
    {n : Nat} {s' : St U} {r : Ret} (hr : exec H T n s (.upd u) = .ok (s', r)) :
    regs s' = regs s ∧ ∀ o ∈ regs s, s'.held o = s'.value := by
  have hmono : ∀ p : Prog U, (p.Only fun op => (∃ v, op = .upd (.assign v)) ∨ (∃ n, op = .upd (.addEq n)) ∨
      (∃ n, op = .upd (.subEq n)) ∨ op = .upd .preInc) → p.Only Op.Tracks := by
    intro p
    induction p with
    | ret u => exact fun _ => trivial
    | set u k ih => exact ih
    | call op k ih =>
      intro hp
      refine ⟨?_, fun r u => ih r u (hp.2 r u)⟩
      rcases hp.1 with ⟨v, h⟩ | ⟨v, h⟩ | ⟨v, h⟩ | h <;> subst h <;> trivial
  have hu' : (Op.upd u).Tracks := by
    rcases hu with ⟨v, h⟩ | ⟨v, h⟩ | ⟨v, h⟩ | h <;> subst h <;> trivial
  obtain ⟨h1, h2, h3⟩ := update_inStep hT (H := H) (max := max) (l := s.arr) (c := s.count)
    (fun t ht1 ht2 => h.inv.congr ht1 ht2) (fun t ht1 ht2 => by rw [regs_congr ht1 ht2]; exact hrs) hq
    (fun u v => hmono _ (hlast u v)) n s _ s' r rfl rfl hu' hr
  have hreg := regs_congr h1 h2
  exact ⟨hreg, fun o ho => h3 o (by rw [hreg]; exact ho)⟩

/-- Functions for the examples: object `c` limits the value to 100 by assigning 100. -/
def clamp (c : Nat) : Handlers Unit where
  update := fun _ o v => if o = c ∧ v > 100 then .call (.upd (.assign 100)) fun _ u => .ret u else .ret ()
  disconnect := fun _ _ => .ret ()

/-- The limiting object is registered last: all hold 100 at the end. -/
example : ∃ s, Reach (clamp 2) .int 3 s ∧ regs s = [1] ++ [2] ∧
    (∃ s' r, exec (clamp 2) .int 3 s (.upd (.addEq 150)) = .ok (s', r) ∧ s'.value = 100 ∧ s'.held 1 = 100 ∧
      s'.held 2 = 100 ∧ s'.log = [(1, 150), (2, 150), (1, 100), (2, 100)] ∧
      (regs s' = regs s ∧ ∀ o ∈ regs s, s'.held o = s'.value)) :=
  have h : ∃ s, runAll (clamp 2) .int 2 [.add 1, .add 2] (St.new 3 ()) = .ok s ∧ regs s = [1] ++ [2] ∧
      ∃ s' r, exec (clamp 2) .int 3 s (.upd (.addEq 150)) = .ok (s', r) ∧ s'.value = 100 ∧ s'.held 1 = 100 ∧
        s'.held 2 = 100 ∧ s'.log = [(1, 150), (2, 150), (1, 100), (2, 100)] :=
    ⟨_, rfl, rfl, _, _, rfl, rfl, rfl, rfl, rfl⟩
  let ⟨s, h1, h2, s', r, h3, h4, h5, h6, h7⟩ := h
  have hs := runAll_reach _ (Reach.new (max := 3) ()) h1
  ⟨s, hs, h2, s', r, h3, h4, h5, h6, h7, C86_in_step_partial (by simp [IntTy.Valid, IntTy.int]) hs h2
    (by
      intro o ho u v
      rw [List.mem_singleton.1 ho]
      simp [clamp, Prog.Only])
    (by
      intro u v
      simp only [clamp, true_and]
      split <;> simp [Prog.Only])
    (Or.inr (Or.inl ⟨150, rfl⟩)) h3⟩

/-- **C86 is false when another object updates back**: the object registered first limits the value to 100; after
`x = 150` the observable holds 100, but the second object was told 100 and then 150, and keeps 150. -/
theorem C86_clamp_refuted : ∃ s, Reach (clamp 1) .int 3 s ∧ regs s = [1, 2] ∧
    ∃ s' r, exec (clamp 1) .int 3 s (.upd (.assign 150)) = .ok (s', r) ∧ s'.value = 100 ∧ s'.held 1 = 100 ∧
      s'.held 2 = 150 ∧ s'.log = [(1, 150), (1, 100), (2, 100), (2, 150)] :=
  have h : ∃ s, runAll (clamp 1) .int 2 [.add 1, .add 2] (St.new 3 ()) = .ok s ∧ regs s = [1, 2] ∧
      ∃ s' r, exec (clamp 1) .int 3 s (.upd (.assign 150)) = .ok (s', r) ∧ s'.value = 100 ∧ s'.held 1 = 100 ∧
        s'.held 2 = 150 ∧ s'.log = [(1, 150), (1, 100), (2, 100), (2, 150)] :=
    ⟨_, rfl, rfl, _, _, rfl, rfl, rfl, rfl, rfl⟩
  let ⟨s, h1, h2⟩ := h
  ⟨s, runAll_reach _ (Reach.new (max := 3) ()) h1, h2⟩

/-- Functions for the examples: object 1 assigns what it is told back. -/
def echo : Handlers Unit where
  update := fun _ o v => if o = 1 then .call (.upd (.assign v)) fun _ u => .ret u else .ret ()
  disconnect := fun _ _ => .ret ()

/-- **C86, the update does not return**: nothing detects recursion (`observer_errors::notify_recursion_detected`
is documented at observable.hpp:228 and never returned), so a function that assigns the value it is told recurses
without end. -/
theorem C86_endless_refuted : ∃ s, Reach echo .int 1 s ∧ regs s = [1] ∧ ∀ v n, exec echo .int n s (.upd (.assign v)) = .hang := by
  have h : ∃ s, runAll echo .int 1 [.add 1] (St.new 1 ()) = .ok s ∧ regs s = [1] ∧ s.arr = [some 1] ∧ s.count = 1 :=
    ⟨_, rfl, rfl, rfl, rfl⟩
  obtain ⟨s, h1, h2, h3, h4⟩ := h
  refine ⟨s, runAll_reach _ (Reach.new (max := 1) ()) h1, h2, fun v n => ?_⟩
  have key : ∀ n, ∀ s : St Unit, s.arr = [some 1] → s.count = 1 → exec echo .int n s (.upd (.assign v)) = .hang := by
    intro n
    induction n with
    | zero => intro s _ _; rfl
    | succ n ih =>
      intro s ha hc
      obtain ⟨val, arr, cnt, held, us, lg⟩ := s
      simp only at ha hc
      subst ha hc
      show (do
        let t ← (do
          let t ← (do
            let r ← exec echo .int n ⟨v, [some 1], 1, fun p => if p = 1 then v else held p, us, lg ++ [(1, v)]⟩ (.upd (.assign v))
            runProg (exec echo .int n) (.ret r.1.user) r.1)
          notifyLoop (exec echo .int n) echo v 1 0 t)
        Res.ok (t, Ret.val v)) = .hang
      rw [ih _ rfl rfl]
      rfl
  exact key n s h3 h4

/-! ### Agreement with the model without calls from functions -/

/-- The state of the model of `Values/Model.lean` in which every object has a function that only records. -/
def plain (s : St U) : Values.St := ⟨s.value, .fixed s.arr s.count, s.held, fun _ => true, s.log⟩

/-- The same call there. -/
def Op.plain : Op → Values.Op
  | .upd (.assign v) => .assign v
  | .upd (.addEq n) => .addEq n
  | .upd (.subEq n) => .subEq n
  | .upd .preInc => .preInc
  | .upd .preDec => .preDec
  | .upd .postInc => .postInc
  | .upd .postDec => .postDec
  | .add o => .add o
  | .remove o => .remove o
  | .clear => .clear

theorem notifyLoop_plain (ex : Ex U) {H : Handlers U} (hH : H.Only fun _ => False) (v : Int) (left i : Nat) (s : St U) :
    (do let t ← notifyLoop ex H v i left s; Res.ok (plain t)) = Values.notifyArr v s.arr left i (plain s) := by
  induction left generalizing i s with
  | zero => rfl
  | succ left ih =>
    simp only [notifyLoop, deref, Values.notifyArr]
    cases ha : s.arr[i]? with
    | none => rfl
    | some x =>
      cases x with
      | none => rfl
      | some o =>
        simp only [Res.ok_bind, deliver]
        obtain ⟨u, hu⟩ := runProg_none ex (H.update s.user o v) (hH.1 _ _ _)
          { s with held := fun p => if p = o then v else s.held p, log := s.log ++ [(o, v)] }
        rw [hu, Res.ok_bind, ih]
        rfl

theorem clearLoop_plain (ex : Ex U) {H : Handlers U} (hH : H.Only fun _ => False) (left i : Nat) (s : St U) :
    (do let t ← clearLoop ex H i left s; Res.ok (plain { t with count := 0 })) =
      (do Values.clearArr s.arr left i; Res.ok { plain s with reg := .fixed s.arr 0 }) := by
  induction left generalizing i s with
  | zero => rfl
  | succ left ih =>
    simp only [clearLoop, deref, Values.clearArr]
    cases ha : s.arr[i]? with
    | none => rfl
    | some x =>
      cases x with
      | none => rfl
      | some o =>
        simp only [Res.ok_bind]
        obtain ⟨u, hu⟩ := runProg_none ex (H.disconnect s.user o) (hH.2 _ _) s
        rw [hu, Res.ok_bind, ih]
        rfl

theorem contains_plain (o : Nat) (arr : List (Option Nat)) (n i : Nat) (h : i + n ≤ arr.length) :
    Values.containsArr o arr n i = .ok (((arr.drop i).take n).contains (some o)) := by
  induction n generalizing i with
  | zero => simp [Values.containsArr]
  | succ n ih =>
    have hi : i < arr.length := by omega
    rw [Values.containsArr, List.getElem?_eq_getElem hi, List.drop_eq_getElem_cons hi]
    simp only [List.take_succ_cons, List.contains_cons]
    by_cases hx : arr[i] = some o
    · simp [hx]
    · rw [if_neg hx, ih (i + 1) (by omega)]
      have : (some o == arr[i]) = false := by simpa using fun h => hx h.symm
      rw [this, Bool.false_or]

/-- If no function makes calls, this model and the model of `Values/Model.lean` agree: the properties C43 to C46
speak about the same behaviour. -/
theorem agrees {H : Handlers U} (hH : H.Only fun _ => False) {T : IntTy} {max : Nat} {s : St U} (h : Inv max s)
    (op : Op) (n : Nat) :
    (do let p ← exec H T (n + 1) s op; Res.ok (plain p.1, p.2)) = Values.exec T (plain s) op.plain := by
  have hN : ∀ (w v : Int), (do let t ← notify (exec H T n) H { s with value := w } v; Res.ok (plain t)) =
      Values.notify { plain s with value := w } v := by
    intro w v
    simp only [notify, Values.notify, plain]
    have hle := h.le
    have hlen := h.len
    rw [if_neg (by omega), if_neg (by omega)]
    exact notifyLoop_plain (exec H T n) hH v s.count 0 { s with value := w }
  have hU : ∀ (w v : Int), (do
      let t ← notify (exec H T n) H { s with value := w } v
      Res.ok (plain t, Ret.val v)) = (do
      let t ← Values.notify { plain s with value := w } v
      Res.ok (t, Ret.val v)) := by
    intro w v
    rw [← hN]
    cases notify (exec H T n) H { s with value := w } v <;> rfl
  have hB : ∀ (r : Res Int) (f : Int → Int) (w : Int), (do
      let v ← (do let x ← r; Res.ok (f x))
      let t ← notify (exec H T n) H { s with value := w } v
      Res.ok (plain t, Ret.val v)) = valOf (do
      let x ← r
      let t ← Values.notify { plain s with value := w } (f x)
      Res.ok (t, f x)) := by
    intro r f w
    cases r with
    | ub => rfl
    | hang => rfl
    | ok x =>
      simp only [Res.ok_bind]
      rw [hU, valOf]
      cases Values.notify { plain s with value := w } (f x) <;> rfl
  have hV : ∀ (w v : Int), (do
      let t ← notify (exec H T n) H { s with value := w } v
      Res.ok (plain t, Ret.val v)) = valOf (do
      let t ← Values.notify { plain s with value := w } v
      Res.ok (t, v)) := by
    intro w v
    rw [hU, valOf]
    cases Values.notify { plain s with value := w } v <;> rfl
  have hE : ∀ u, (do let p ← exec H T (n + 1) s (.upd u); Res.ok (plain p.1, p.2)) = (do
      let v ← result T s.value u
      let t ← notify (exec H T n) H { s with value := stored T s.value u } v
      Res.ok (plain t, Ret.val v)) := by
    intro u
    simp only [exec, execStep, update]
    cases result T s.value u with
    | ub => rfl
    | hang => rfl
    | ok v =>
      simp only [Res.ok_bind]
      cases notify (exec H T n) H { s with value := stored T s.value u } v <;> rfl
  cases op with
  | upd u =>
    rw [hE]
    cases u with
    | assign v => exact hV v v
    | addEq k => exact hB _ _ _
    | subEq k => exact hB _ _ _
    | preInc => exact hB _ _ _
    | preDec => exact hB _ _ _
    | postInc => exact hV _ _
    | postDec => exact hV _ _
  | add o =>
    have hle := h.le
    have hlen := h.len
    by_cases hf : s.count ≥ s.arr.length
    · have h1 : add s o = .ok (s, .err .listIsFull) := by rw [add, if_pos hf]
      have h2 : Values.add (plain s) o = .ok (plain s, .listIsFull) := by
        simp only [Values.add, plain]
        rw [if_pos hf]
      simp only [exec, execStep, Op.plain, Values.exec, h1, h2]
      rfl
    · have hc := contains_plain o s.arr s.count 0 (by omega)
      rw [show (s.arr.drop 0).take s.count = s.arr.take s.count from rfl] at hc
      have h2 : Values.add (plain s) o = (do
          let c ← Values.containsArr o s.arr s.count 0
          if !c then .ok ({ plain s with reg := .fixed (s.arr.set s.count (some o)) (s.count + 1) }, .ok)
          else .ok (plain s, .alreadyContains)) := by
        simp only [Values.add, plain]
        rw [if_neg hf]
      cases hb : contains s o with
      | false =>
        rw [show (s.arr.take s.count).contains (some o) = false from hb] at hc
        have h1 : add s o = .ok ({ s with arr := s.arr.set s.count (some o), count := s.count + 1 }, .err .ok) := by
          rw [add, if_neg hf, if_pos (by rw [hb]; rfl)]
        rw [hc] at h2
        simp only [exec, execStep, Op.plain, Values.exec, h1, h2]
        rfl
      | true =>
        rw [show (s.arr.take s.count).contains (some o) = true from hb] at hc
        have h1 : add s o = .ok (s, .err .alreadyContains) := by
          rw [add, if_neg hf, if_neg (by rw [hb]; decide)]
        rw [hc] at h2
        simp only [exec, execStep, Op.plain, Values.exec, h1, h2]
        rfl
  | remove o =>
    simp only [exec, execStep, remove, Op.plain, Values.exec, Values.remove, plain, errOf]
    split
    · rfl
    · split
      · rfl
      · split <;> rfl
  | clear =>
    simp only [exec, execStep, Re.clear, Op.plain, Values.exec, Values.clear]
    have := clearLoop_plain (exec H T n) hH s.count 0 s
    show (do
      let p ← (do
        let t ← clearLoop (exec H T n) H 0 s.count s
        Res.ok (({ t with count := 0 } : St U), Ret.unit))
      Res.ok (plain p.1, p.2)) = (do
      let t ← (do
        Values.clearArr s.arr s.count 0
        Res.ok { plain s with reg := .fixed s.arr 0 })
      Res.ok (t, Ret.unit))
    rw [← this]
    cases clearLoop (exec H T n) H 0 s.count s <;> rfl

/-! ### C87 -/

/-- What the array keeps while functions only register objects. -/
def Grows (s t : St U) : Prop := ∃ m, regs t = regs s ++ m

theorem runProg_adds {max : Nat} {ex : Ex U}
    (hex : ∀ s o s' r, Inv max s → ex s (.add o) = .ok (s', r) → Inv max s' ∧ Grows s s' ∧ s'.log = s.log ∧
      s'.value = s.value ∧ s'.held = s.held)
    (p : Prog U) (hp : p.Only fun op => ∃ o, op = .add o) (s s' : St U) (h : Inv max s)
    (hr : runProg ex p s = .ok s') : Inv max s' ∧ Grows s s' ∧ s'.log = s.log ∧ s'.value = s.value ∧ s'.held = s.held := by
  induction p generalizing s with
  | ret u =>
    simp only [runProg, Res.ok.injEq] at hr
    subst hr
    exact ⟨h.congr rfl rfl, ⟨[], by rw [List.append_nil]; exact regs_congr rfl rfl⟩, rfl, rfl, rfl⟩
  | set u k ih => exact ih hp { s with user := u } (h.congr rfl rfl) hr
  | call op k ih =>
    obtain ⟨o, ho⟩ := hp.1
    subst ho
    simp only [runProg] at hr
    cases he : ex s (.add o) with
    | ub => rw [he] at hr; cases hr
    | hang => rw [he] at hr; cases hr
    | ok r =>
      rw [he, Res.ok_bind] at hr
      obtain ⟨a, ⟨m, b⟩, d, e, f⟩ := hex s o r.1 r.2 h he
      obtain ⟨a', ⟨m', b'⟩, d', e', f'⟩ := ih r.2 r.1.user (hp.2 _ _) r.1 a hr
      exact ⟨a', ⟨m ++ m', by rw [b', b, List.append_assoc]⟩, by rw [d', d], by rw [e', e], by rw [f', f]⟩

theorem exec_adds {H : Handlers U} {T : IntTy} {max : Nat} (n : Nat) (s : St U) (o : Nat) (s' : St U) (r : Ret)
    (h : Inv max s) (hr : exec H T n s (.add o) = .ok (s', r)) :
    Inv max s' ∧ Grows s s' ∧ s'.log = s.log ∧ s'.value = s.value ∧ s'.held = s.held := by
  cases n with
  | zero => cases hr
  | succ n =>
    have hr : add s o = .ok (s', r) := hr
    obtain ⟨a, -, b, c, d, -⟩ := add_spec h hr
    refine ⟨a, ?_, ?_, d, c⟩
    · rw [Grows, b]
      split
      · exact ⟨[o], rfl⟩
      · exact ⟨[], by simp⟩
    · unfold add at hr
      split at hr
      · cases hr; rfl
      · split at hr <;> (cases hr; rfl)

theorem notifyLoop_adds {max : Nat} {H : Handlers U} {T : IntTy} {n : Nat} {v : Int}
    (hH : ∀ u o v, (H.update u o v).Only fun op => ∃ o, op = .add o) (l : List Nat) (i : Nat) (s s' : St U)
    (h : Inv max s) (hl : ∀ j, j < l.length → (regs s)[i + j]? = l[j]?)
    (hr : notifyLoop (exec H T n) H v i l.length s = .ok s') :
    Inv max s' ∧ Grows s s' ∧ s'.log = s.log ++ (l.map fun o => (o, v)) ∧ s'.value = s.value ∧
      ∀ o, s'.held o = if o ∈ l then v else s.held o := by
  induction l generalizing i s with
  | nil =>
    simp only [List.length_nil, notifyLoop, Res.ok.injEq] at hr
    subst hr
    exact ⟨h, ⟨[], by simp⟩, by simp, rfl, by simp⟩
  | cons o l ih =>
    have h0 := hl 0 (by simp)
    simp only [Nat.add_zero, List.getElem?_cons_zero] at h0
    have hi : i < s.count := by
      rw [← h.cnt]
      exact (List.getElem?_eq_some_iff.1 h0).1
    have hsl := h.slots i hi
    rw [h0] at hsl
    simp only [List.length_cons, notifyLoop, deref_some hsl, Res.ok_bind, deliver] at hr
    cases hp : runProg (exec H T n) (H.update s.user o v)
        { s with held := fun p => if p = o then v else s.held p, log := s.log ++ [(o, v)] } with
    | ub => rw [hp] at hr; cases hr
    | hang => rw [hp] at hr; cases hr
    | ok t =>
      rw [hp, Res.ok_bind] at hr
      obtain ⟨a, ⟨m, b⟩, c, d, e⟩ := runProg_adds (max := max) (ex := exec H T n)
        (fun s o s' r => exec_adds n s o s' r) _ (hH s.user o v)
        { s with held := fun p => if p = o then v else s.held p, log := s.log ++ [(o, v)] } t (h.congr rfl rfl) hp
      have b : regs t = regs s ++ m := b
      obtain ⟨a', ⟨m', b'⟩, c', d', e'⟩ := ih (i + 1) t a (by
        intro j hj
        have h1 := hl (j + 1) (by simpa using hj)
        rw [show i + (j + 1) = i + 1 + j by omega, List.getElem?_cons_succ] at h1
        rw [b, List.getElem?_append_left, h1]
        rw [List.getElem?_eq_getElem hj] at h1
        exact (List.getElem?_eq_some_iff.1 h1).1) hr
      refine ⟨a', ⟨m ++ m', by rw [b', b, List.append_assoc]⟩, ?_, by rw [d', d], ?_⟩
      · rw [c', c]; simp
      · intro p
        rw [e' p, e]
        by_cases hp1 : p ∈ l
        · simp [hp1]
        · by_cases hp2 : p = o <;> simp [hp1, hp2]

/-- **C87 when the functions only register objects**: an update delivers the value it sends exactly once to each
object registered when it starts, in order of registration, and to no object registered meanwhile; these stay
registered.  The values of all other objects do not change.

Missing: functions that remove objects (`C87_skip_refuted`, `C87_removed_refuted`). -/
theorem C87_once_partial {T : IntTy} {H : Handlers U} {max : Nat} {s : St U} (h : Reach H T max s)
    (hH : ∀ u o v, (H.update u o v).Only fun op => ∃ o, op = .add o) {u : Upd} {n : Nat} {s' : St U} {v : Int}
    (hr : exec H T n s (.upd u) = .ok (s', .val v)) :
    s'.log = s.log ++ ((regs s).map fun o => (o, v)) ∧ (∃ m, regs s' = regs s ++ m) ∧
    ∀ o, s'.held o = if o ∈ regs s then v else s.held o := by
  have hi := h.inv
  cases n with
  | zero => cases hr
  | succ n =>
    simp only [exec, execStep, update] at hr
    cases hv : result T s.value u with
    | ub => rw [hv] at hr; cases hr
    | hang => rw [hv] at hr; cases hr
    | ok w =>
      rw [hv, Res.ok_bind, notify] at hr
      have hle := hi.le
      have hlen := hi.len
      rw [if_neg (by simp only; omega)] at hr
      simp only at hr
      cases hl : notifyLoop (exec H T n) H w 0 s.count { s with value := stored T s.value u } with
      | ub => rw [hl] at hr; cases hr
      | hang => rw [hl] at hr; cases hr
      | ok t =>
        rw [hl] at hr
        simp only [Res.ok_bind, Res.ok.injEq, Prod.mk.injEq, Ret.val.injEq] at hr
        obtain ⟨rfl, rfl⟩ := hr
        obtain ⟨-, b, c, -, e⟩ := notifyLoop_adds (max := max) hH (regs s) 0 { s with value := stored T s.value u } t
          (hi.congr rfl rfl) (fun j _ => by rw [Nat.zero_add]; rfl) (by rw [hi.cnt]; exact hl)
        exact ⟨c, b, e⟩

/-- Functions for the examples: object 1 registers object 3. -/
def adder : Handlers Unit where
  update := fun _ o _ => if o = 1 then .call (.add 3) fun _ u => .ret u else .ret ()
  disconnect := fun _ _ => .ret ()

example : ∃ s, Reach adder .int 4 s ∧ regs s = [2, 1] ∧
    (∃ s', exec adder .int 2 s (.upd (.assign 5)) = .ok (s', .val 5) ∧ regs s' = [2, 1, 3] ∧
      s'.log = [(2, 5), (1, 5)] ∧ s'.log = s.log ++ ((regs s).map fun o => (o, 5))) :=
  have h : ∃ s, runAll adder .int 2 [.add 2, .add 1] (St.new 4 ()) = .ok s ∧ regs s = [2, 1] ∧
      ∃ s', exec adder .int 2 s (.upd (.assign 5)) = .ok (s', .val 5) ∧ regs s' = [2, 1, 3] ∧
        s'.log = [(2, 5), (1, 5)] := ⟨_, rfl, rfl, _, rfl, rfl, rfl⟩
  let ⟨s, h1, h2, s', h3, h4, h5⟩ := h
  have hs := runAll_reach _ (Reach.new (max := 4) ()) h1
  ⟨s, hs, h2, s', h3, h4, h5, (C87_once_partial hs (by
    intro u o v
    simp only [adder]
    split <;> simp [Prog.Only]) h3).1⟩

/-- Functions for the examples: object 1 removes object `r`. -/
def remover (r : Nat) : Handlers Unit where
  update := fun _ o _ => if o = 1 then .call (.remove r) fun _ u => .ret u else .ret ()
  disconnect := fun _ _ => .ret ()

/-- **C87 is false when a function removes its own object**: with 1, 2 and 3 registered, object 2 is skipped and
object 3 is told twice, although both stay registered. -/
theorem C87_skip_refuted : ∃ s, Reach (remover 1) .int 4 s ∧ regs s = [1, 2, 3] ∧
    ∃ s' r, exec (remover 1) .int 2 s (.upd (.assign 5)) = .ok (s', r) ∧ regs s' = [2, 3] ∧
      s'.log = [(1, 5), (3, 5), (3, 5)] ∧ s'.held 2 = 0 :=
  have h : ∃ s, runAll (remover 1) .int 2 [.add 1, .add 2, .add 3] (St.new 4 ()) = .ok s ∧ regs s = [1, 2, 3] ∧
      ∃ s' r, exec (remover 1) .int 2 s (.upd (.assign 5)) = .ok (s', r) ∧ regs s' = [2, 3] ∧
        s'.log = [(1, 5), (3, 5), (3, 5)] ∧ s'.held 2 = 0 := ⟨_, rfl, rfl, _, _, rfl, rfl, rfl, rfl⟩
  let ⟨s, h1, h2⟩ := h
  ⟨s, runAll_reach _ (Reach.new (max := 4) ()) h1, h2⟩

/-- **C87, a removed object is still told**: object 1 removes object 2, which then is told the value; if object 2
were destroyed after its removal this call would go to a dead object. -/
theorem C87_removed_refuted : ∃ s, Reach (remover 2) .int 4 s ∧ regs s = [1, 2] ∧
    ∃ s' r, exec (remover 2) .int 2 s (.upd (.assign 5)) = .ok (s', r) ∧ regs s' = [1] ∧
      s'.log = [(1, 5), (2, 5)] :=
  have h : ∃ s, runAll (remover 2) .int 2 [.add 1, .add 2] (St.new 4 ()) = .ok s ∧ regs s = [1, 2] ∧
      ∃ s' r, exec (remover 2) .int 2 s (.upd (.assign 5)) = .ok (s', r) ∧ regs s' = [1] ∧
        s'.log = [(1, 5), (2, 5)] := ⟨_, rfl, rfl, _, _, rfl, rfl, rfl⟩
  let ⟨s, h1, h2⟩ := h
  ⟨s, runAll_reach _ (Reach.new (max := 4) ()) h1, h2⟩

end Verif.Values.Re
