import Verif.Pipeline.PoolPushProps
import Verif.Pipeline.PoolDrain
/-! Destruction of a pool whose handler pushes into it. -/
namespace Verif.Pipeline.Pool.Push
open Verif Verif.Pipeline Verif.Pipeline.Pool
variable {α : Type}

/-- Handler calls that take at most 214748364 ms (two and a half days). -/
def brief : State α → Label α → Prop
  | _, .work _ e => 0 ≤ e ∧ e ≤ 214748364
  | _, _ => True

/-- No worker looks at a slot in vain: the item it waits for has been stored when it looks (this is what the worker's
inner loop waits for, pipeline_stage_pool.hpp:72-76). -/
def patient : State α → Label α → Prop
  | s, .work n _ => (s.qs n).pc = .check → (s.qs n).slots[(s.qs n).head % (s.qs n).slots.length]? ≠ some none
  | _, _ => True

/-- `n` steps that satisfy `G`. -/
inductive Run (size : Nat) (tf : Bool) (h : Handler α) (G : State α → Label α → Prop) : State α → Nat → State α → Prop
  | nil (s : State α) : Run size tf h G s 0 s
  | step (s s1 s2 : State α) (n : Nat) (l : Label α) : G s l → Step size tf h s l (.ok s1) → Run size tf h G s1 n s2 →
      Run size tf h G s (n + 1) s2

/-- The items of queue `k` not yet handled. -/
def State.left (s : State α) (k : Nat) : List α := (s.qs k).pushed.drop (s.qs k).handled.length

/-- What a push still costs. -/
def pcost (w : α → Nat) : Prod α → Nat
  | .idle => 0
  | .scan x k _ _ => 34 * (w x - 1) + 33 - 2 * k
  | .read x k _ _ _ => 34 * (w x - 1) + 32 - 2 * k
  | .chosen x _ _ => 34 * (w x - 1) + 17
  | .claimed _ _ _ => 1

/-- What is left to do for a handler, and for a worker. -/
def State.duty (w : α → Nat) (s : State α) (n : Nat) : Nat := 34 * weight w (s.todo n) + pcost w (s.prod (2 * n))
def State.stock (w : α → Nat) (s : State α) (k : Nat) : Nat := 34 * weight (fun x => w x - 1) (s.left k) + (s.qs k).fuel

def State.burden (w : α → Nat) (s : State α) : Nat := sumTo (s.duty w) 8 + sumTo (s.stock w) 8

theorem sumTo_upd {f f' : Nat → Nat} {j a c : Nat} (hj : f' j + a ≤ f j + c) (ho : ∀ k, k ≠ j → f' k = f k) :
    ∀ n, j < n → sumTo f' n + a ≤ sumTo f n + c
  | 0, h => by omega
  | n + 1, h => by
    simp only [sumTo]
    by_cases hn : j = n
    · subst hn
      have : sumTo f' j = sumTo f j := by
        apply Nat.le_antisymm
        · exact sumTo_mono fun k hk => Nat.le_of_eq (ho k (by omega))
        · exact sumTo_mono fun k hk => Nat.le_of_eq (ho k (by omega)).symm
      omega
    · have := sumTo_upd hj ho n (by omega)
      rw [ho n (Ne.symm hn)]
      omega

theorem weight_cons (w : α → Nat) (x : α) (l : List α) : weight w (x :: l) = w x + weight w l := by
  simp [weight]

theorem weight_snoc (w : α → Nat) (x : α) (l : List α) : weight w (l ++ [x]) = weight w l + w x := by
  simp [weight]

/-- An item more is at most 15 steps more. -/
theorem fuel_claim {q : Q α} (x : α) (hq : ((q.tail + 1) % word = q.tail + 1 ∧ q.head ≤ q.tail) ∨ q.pc = .ended) :
    (q.claim x).fuel ≤ q.fuel + 15 := by
  rcases hq with ⟨ht, hle⟩ | he
  · cases hpc : q.pc <;> simp only [Q.fuel, Q.claim, hpc, ht] <;> (repeat split) <;> omega
  · simp [Q.fuel, Q.claim, he]

theorem burden_step {b size : Nat} (hb : 0 < b) {tf : Bool} {h : Handler α} {w : α → Nat}
    (hw : ∀ n x, 1 + weight w (h n x) ≤ w x) {G : State α → Label α → Prop} {s s' : State α} {l : Label α}
    (hr : Reach b size tf h G s) (hcl : s.closed = true) (hlog : s'.log.length < 2 ^ 64)
    (hord : ∀ k, k < 8 → (s'.qs k).handled = (s'.qs k).pushed.take (s'.qs k).handled.length) (hg : G s l)
    (hp : patient s l) (hs : Step size tf h s l (.ok s')) :
    s'.closed = true ∧ s'.burden w + 1 ≤ s.burden w := by
  have hc := hr.ctl
  have hr' : Reach b size tf h G s' := .step s s' l hr hg hs
  have hc' := hr'.ctl
  have hone : ∀ x, 1 ≤ w x := fun x => by have := hw 0 x; omega
  have even : ∀ j, s.prod j ≠ .idle → ∃ n, n < 8 ∧ j = 2 * n := by
    intro j hj
    rcases even_or_odd j with ⟨n, rfl⟩ | ⟨p, rfl⟩
    · exact ⟨n, (hc.busy n (.inr hj)).2.1, rfl⟩
    · exact absurd (hc.outside hcl p) hj
  generalize hres : Res.ok s' = r at hs
  cases hs with
  | start p x h1 h2 => rw [hcl] at h1; cases h1
  | close h1 h2 => rw [hcl] at h1; cases h1
  | begin n x rest h1 h2 =>
    cases hres
    refine ⟨hcl, ?_⟩
    have hn := (hc.busy n (.inl (by rw [h1]; simp))).2.1
    have h0 := hone x
    have := sumTo_upd (f := s.duty w) (f' := State.duty w { s with
        prod := upd s.prod (2 * n) (.scan x 0 (intMax, 0) [])
        todo := upd s.todo n rest }) (j := n) (a := 1) (c := 0) (by
      simp only [State.duty, upd_same, h1, h2, weight_cons, pcost]
      omega) (fun k hk => by
      simp only [State.duty, upd_other s.todo _ hk, upd_other s.prod _ (show 2 * k ≠ 2 * n by omega)]) 8 hn
    simp only [State.burden]
    have he : ∀ k, State.stock w { s with
        prod := upd s.prod (2 * n) (.scan x 0 (intMax, 0) [])
        todo := upd s.todo n rest } k = s.stock w k := fun _ => rfl
    have he' : State.stock w { s with
        prod := upd s.prod (2 * n) (.scan x 0 (intMax, 0) [])
        todo := upd s.todo n rest } = s.stock w := funext he
    rw [he']
    omega
  | scan j x k acc seen h1 =>
    cases hres
    refine ⟨hcl, ?_⟩
    obtain ⟨n, hn, rfl⟩ := even j (by rw [h1]; simp)
    have hk := hc.ok (2 * n)
    rw [h1] at hk
    have := sumTo_upd (f := s.duty w) (f' := State.duty w { s with
        prod := upd s.prod (2 * n) (.read x k (if tf then (s.qs k).tail else (s.qs k).head) acc seen) })
        (j := n) (a := 1) (c := 0) (by
      simp only [State.duty, upd_same, h1, pcost]
      have := hk.1
      omega) (fun k hk => by
      simp only [State.duty, upd_other s.prod _ (show 2 * k ≠ 2 * n by omega)]) 8 hn
    simp only [State.burden]
    have he : State.stock w { s with
        prod := upd s.prod (2 * n) (.read x k (if tf then (s.qs k).tail else (s.qs k).head) acc seen) } = s.stock w := rfl
    rw [he]
    omega
  | read j x k v acc seen h1 =>
    cases hres
    refine ⟨hcl, ?_⟩
    obtain ⟨n, hn, rfl⟩ := even j (by rw [h1]; simp)
    have hk := hc.ok (2 * n)
    rw [h1] at hk
    generalize hsz : (if tf then (v + word - (s.qs k).head) % word else ((s.qs k).tail + word - v) % word) = sz
    have := sumTo_upd (f := s.duty w) (f' := State.duty w { s with
        prod := upd s.prod (2 * n) (nextScan x k sz acc seen) })
        (j := n) (a := 1) (c := 0) (by
      simp only [State.duty, upd_same, h1]
      have := hk.1
      unfold nextScan
      split
      · simp only [pcost]; omega
      · simp only [pcost]; omega) (fun k hk => by
      simp only [State.duty, upd_other s.prod _ (show 2 * k ≠ 2 * n by omega)]) 8 hn
    simp only [State.burden]
    have he : State.stock w { s with prod := upd s.prod (2 * n) (nextScan x k sz acc seen) } = s.stock w := rfl
    rw [he]
    omega
  | claim j x id seen h1 =>
    cases hres
    refine ⟨hcl, ?_⟩
    obtain ⟨n, hn, rfl⟩ := even j (by rw [h1]; simp)
    have hid := hc.ok (2 * n)
    rw [h1] at hid
    have h0 := hone x
    have hlen := hc'.queue_le id
    simp only [upd_same, Q.claim, List.length_append, List.length_cons, List.length_nil] at hlen hlog
    have := sumTo_upd (f := s.duty w) (f' := State.duty w { s with
          qs := upd s.qs id ((s.qs id).claim x)
          prod := upd s.prod (2 * n) (.claimed x id (s.qs id).tail)
          log := s.log ++ [⟨origin (2 * n), id, x, decide ((s.qs id).pc = .ended)⟩] })
        (j := n) (a := 34 * (w x - 1) + 16) (c := 0) (by
      simp only [State.duty, upd_same, h1, pcost]
      omega) (fun k hk => by
      simp only [State.duty, upd_other s.prod _ (show 2 * k ≠ 2 * n by omega)]) 8 hn
    have h2 := sumTo_upd (f := s.stock w) (f' := State.stock w { s with
          qs := upd s.qs id ((s.qs id).claim x)
          prod := upd s.prod (2 * n) (.claimed x id (s.qs id).tail)
          log := s.log ++ [⟨origin (2 * n), id, x, decide ((s.qs id).pc = .ended)⟩] })
        (j := id) (a := 0) (c := 34 * (w x - 1) + 15) (by
      have hpw : (s.qs id).pushed.length < word := by simp only [word]; omega
      obtain ⟨q1, q2⟩ := hr.queue hb id hpw
      have hfuel : ((s.qs id).claim x).fuel ≤ (s.qs id).fuel + 15 := by
        refine fuel_claim x ?_
        by_cases he : (s.qs id).pc = .ended
        · exact .inr he
        · have ht := (q1 he).tail
          exact .inl ⟨Nat.mod_eq_of_lt (by simp only [word]; omega), (q1 he).le⟩
      have hle : (s.qs id).handled.length ≤ (s.qs id).pushed.length := by
        by_cases he : (s.qs id).pc = .ended
        · rw [(q2 he).1, ← hc.split id, List.length_append]
          omega
        · have e1 := (q1 he).head
          have e2 := (q1 he).le
          have e3 := (q1 he).tail
          omega
      simp only [State.stock, State.left, upd_same]
      have hd : ((s.qs id).claim x).pushed.drop ((s.qs id).claim x).handled.length =
          (s.qs id).pushed.drop (s.qs id).handled.length ++ [x] := by
        simp only [Q.claim]
        rw [List.drop_append_of_le_length hle]
      rw [hd, weight_snoc]
      omega) (fun k hk => by
      simp only [State.stock, State.left, upd_other s.qs _ hk]) 8 hid
    simp only [State.burden]
    omega
  | store j x id i h1 =>
    cases hq : (s.qs id).store i x with
    | ub => rw [hq] at hres; cases hres
    | hang => rw [hq] at hres; cases hres
    | ok q =>
      rw [hq] at hres
      simp only [Res.ok_bind, Res.pure_eq, Res.ok.injEq] at hres
      subst hres
      refine ⟨hcl, ?_⟩
      obtain ⟨n, hn, rfl⟩ := even j (by rw [h1]; simp)
      have hsame := Q.store_same hq
      have := sumTo_upd (f := s.duty w) (f' := State.duty w { s with qs := upd s.qs id q, prod := upd s.prod (2 * n) .idle })
          (j := n) (a := 1) (c := 0) (by
        simp only [State.duty, upd_same, h1, pcost]
        omega) (fun k hk => by
        simp only [State.duty, upd_other s.prod _ (show 2 * k ≠ 2 * n by omega)]) 8 hn
      have he : State.stock w { s with qs := upd s.qs id q, prod := upd s.prod (2 * n) .idle } = s.stock w := by
        funext k
        by_cases hk : k = id
        · subst hk
          subst hsame
          simp only [State.stock, State.left, upd_same, Q.fuel]
        · simp only [State.stock, State.left, upd_other s.qs _ hk]
      simp only [State.burden, he]
      omega
  | work n e h1 h2 h3 h4 =>
    split at hres
    · rename_i h8
      cases hq : (s.qs n).work s.closed e with
      | ub => rw [hq] at hres; cases hres
      | hang => rw [hq] at hres; cases hres
      | ok q =>
        rw [hq] at hres
        simp only [Res.ok_bind, Res.pure_eq, Res.ok.injEq] at hres
        subst hres
        refine ⟨hcl, ?_⟩
        have hq0 := hq
        have hpl := hc'.queue_le n
        have hlt' : (s.qs n).pushed.length ≤ s.log.length := hc.queue_le n
        have hi := (hr.queue hb n (Nat.lt_of_le_of_lt hlt' hlog)).1 h2
        rw [hcl] at hq hi
        have hlt := hi.fuel_lt_of hp hq
        have ho := hord n h8
        simp only [upd_same] at ho
        have hmain : weight (fun x => w x - 1) (q.pushed.drop q.handled.length) + weight w (asked (h n) (s.qs n)) ≤
            weight (fun x => w x - 1) (s.left n) := by
          rw [State.left]
          obtain ⟨_, _, w3⟩ := Q.work_same hq
          rcases Q.work_handled hq with ⟨h4, h5⟩ | ⟨i, v, hpc, hsl, h4⟩
          · have : asked (h n) (s.qs n) = [] := by
              cases hpc : (s.qs n).pc with
              | call i => exact absurd hpc (h5 i)
              | _ => simp [asked, hpc]
            rw [this, h4, w3]
            exact Nat.le_refl _
          · have ha : asked (h n) (s.qs n) = h n v := by simp [asked, hpc, hsl]
            rw [h4, w3] at ho
            rw [ha, h4, w3, drop_of_order ho]
            have := hw n v
            rw [weight_cons]
            omega
        have d1 := sumTo_upd (f := s.duty w) (f' := State.duty w { s with
              qs := upd s.qs n q
              todo := upd s.todo n (asked (h n) (s.qs n)) }) (j := n) (a := 0)
            (c := 34 * weight w (asked (h n) (s.qs n))) (by
          simp only [State.duty, upd_same]
          omega) (fun k hk => by
          simp only [State.duty, upd_other s.todo _ hk]) 8 h8
        have d2 := sumTo_upd (f := s.stock w) (f' := State.stock w { s with
              qs := upd s.qs n q
              todo := upd s.todo n (asked (h n) (s.qs n)) }) (j := n)
            (a := 34 * weight w (asked (h n) (s.qs n)) + 1) (c := 0) (by
          simp only [State.stock, State.left, upd_same] at hmain ⊢
          omega) (fun k hk => by
          simp only [State.stock, State.left, upd_other s.qs _ hk]) 8 h8
        simp only [State.burden]
        omega
    · cases hres

theorem Step.log_le {size : Nat} {tf : Bool} {h : Handler α} {s s' : State α} {l : Label α}
    (hs : Step size tf h s l (.ok s')) : s.log.length ≤ s'.log.length := by
  rcases hs.cases_ok with ⟨p, x, -, h1, h2, rfl⟩ | ⟨n, x, rest, -, h1, h2, rfl⟩ |
    ⟨j, st, -, h1, h2, h3, h3', h4, h5, rfl⟩ | ⟨j, x, id, seen, -, h1, rfl⟩ | ⟨j, x, id, i, q, -, h1, hst, rfl⟩ |
    ⟨-, h1, h2, rfl⟩ | ⟨n, e, q, -, h1, h2, h3, h4, h5, hwk, rfl⟩ <;> simp

theorem ends_run {b size : Nat} (hb : 0 < b) {tf : Bool} {h : Handler α} {w : α → Nat}
    (hw : ∀ n x, 1 + weight w (h n x) ≤ w x) {G : State α → Label α → Prop} {s s' : State α} {n : Nat}
    (hr : Reach b size tf h G s) (hcl : s.closed = true) (hrun : Run size tf h (fun s l => G s l ∧ patient s l) s n s')
    (hlog : s'.log.length < 2 ^ 64)
    (hord : ∀ t, Reach b size tf h G t → t.log.length < 2 ^ 64 → (∀ k, (t.qs k).pushed.length ≤ (s'.qs k).pushed.length) →
      ∀ k, k < 8 → (t.qs k).handled = (t.qs k).pushed.take (t.qs k).handled.length) :
    Reach b size tf h G s' ∧ s'.closed = true ∧ s'.burden w + n ≤ s.burden w ∧ s.log.length ≤ s'.log.length ∧
    ∀ k, (s.qs k).pushed.length ≤ (s'.qs k).pushed.length := by
  induction hrun with
  | nil s => exact ⟨hr, hcl, Nat.le_refl _, Nat.le_refl _, fun _ => Nat.le_refl _⟩
  | step s s1 s2 n l hg hs _ ih =>
    have hr1 : Reach b size tf h G s1 := .step s s1 l hr hg.1 hs
    have hcl1 : s1.closed = true := by
      rcases hs.cases_ok with ⟨p, x, -, h1, h2, rfl⟩ | ⟨n, x, rest, -, h1, h2, rfl⟩ |
        ⟨j, st, -, h1, h2, h3, h3', h4, h5, rfl⟩ | ⟨j, x, id, seen, -, h1, rfl⟩ | ⟨j, x, id, i, q, -, h1, hst, rfl⟩ |
        ⟨-, h1, h2, rfl⟩ | ⟨n, e, q, -, h1, h2, h3, h4, h5, hwk, rfl⟩ <;> first | exact hcl | rfl
    obtain ⟨i1, i2, i3, i4, i5⟩ := ih hr1 hcl1 hlog hord
    have := (burden_step hb hw hr hcl (Nat.lt_of_le_of_lt i4 hlog) (hord s1 hr1 (Nat.lt_of_le_of_lt i4 hlog) i5) hg.1 hg.2 hs).2
    exact ⟨i1, i2, by omega, Nat.le_trans hs.log_le i4, fun k => Nat.le_trans (hs.pushed_le k) (i5 k)⟩

theorem Reach.smallSamples {b size : Nat} (hb : 0 < b) {tf : Bool} {h : Handler α} {s : State α}
    (hr : Reach b size tf h brief s) (hn : s.log.length ≤ 214748364) (k : Nat) : SmallSamples (s.qs k).samples := by
  induction hr generalizing k with
  | new => intro x hx; simp [State.new, Q.new] at hx
  | step s s' l hr hg hs ih =>
    have hm := hs.log_le
    have ih := ih (by omega)
    rcases hs.cases_ok with ⟨p, x, -, h1, h2, rfl⟩ | ⟨n, x, rest, -, h1, h2, rfl⟩ |
      ⟨j, st, -, h1, h2, h3, h3', h4, h5, rfl⟩ | ⟨j, x, id, seen, -, h1, rfl⟩ | ⟨j, x, id, i, q, -, h1, hst, rfl⟩ |
      ⟨-, h1, h2, rfl⟩ | ⟨n, e, q, rfl, h1, h2, h3, h4, h5, hwk, rfl⟩
    · exact ih k
    · exact ih k
    · exact ih k
    · simp only [upd]
      split
      · exact ih id
      · exact ih k
    · have := Q.store_same hst
      subst this
      simp only [upd]
      split
      · exact ih id
      · exact ih k
    · exact ih k
    · simp only [upd]
      split
      · have hle := hr.ctl.queue_le n
        have hi := (hr.queue hb n (by simp only [word]; omega)).1 h3
        exact SmallSamples.work hi (ih n) hg (by omega) hwk
      · exact ih k

/-- As long as a worker has not ended, something can be done: one of its own steps, or the store it waits for. -/
theorem can_go_on {b size : Nat} (hb : 0 < b) (hsz : size ≤ 8) {tf : Bool} {h : Handler α} {s : State α}
    (hr : Reach b size tf h brief s) (hn : s.log.length ≤ 214748364) {k : Nat} (hk : k < size) (hne : (s.qs k).pc ≠ .ended) :
    ∃ l s', brief s l ∧ patient s l ∧ Step size tf h s l (.ok s') := by
  have hc := hr.ctl
  have hle := hc.queue_le k
  have hi := (hr.queue hb k (by simp only [word]; omega)).1 hne
  have hput : ∀ j x id i, s.prod j = .claimed x id i → ∃ l s', brief s l ∧ patient s l ∧ Step size tf h s l (.ok s') := by
    intro j x id i hj
    have st := Step.store (size := size) (tailFirst := tf) (h := h) s j x id i hj
    have hl := hc.slots id
    rw [Q.store, if_pos (Nat.mod_lt _ (by omega))] at st
    exact ⟨.store j, _, trivial, trivial, st⟩
  cases hp : s.prod (2 * k) with
  | scan x i acc seen => exact ⟨.scan (2 * k), _, trivial, trivial, .scan s (2 * k) x i acc seen hp⟩
  | read x i v acc seen => exact ⟨.scan (2 * k), _, trivial, trivial, .read s (2 * k) x i v acc seen hp⟩
  | chosen x id seen => exact ⟨.claim (2 * k), _, trivial, trivial, .claim s (2 * k) x id seen hp⟩
  | claimed x id i => exact hput _ x id i hp
  | idle =>
    cases ht : s.todo k with
    | cons x rest => exact ⟨.begin k, _, trivial, trivial, .begin s k x rest ht hp⟩
    | nil =>
      by_cases hlook : (s.qs k).pc = .check ∧ (s.qs k).slots[(s.qs k).head % (s.qs k).slots.length]? = some none
      · have hlt := hi.busy (.inl hlook.1)
        have hmod : (s.qs k).head % (s.qs k).slots.length ≤ (s.qs k).head := Nat.mod_le _ _
        obtain ⟨p, x, hpx⟩ := hi.filled _ (by omega) (Nat.mod_lt _ hi.len) hlook.2
        cases hj : s.prod p with
        | claimed x' id i => exact hput _ x' id i hj
        | _ => simp [pendOf, hj] at hpx
      · obtain ⟨q, hq⟩ := hi.progress (hr.smallSamples hb hn k) 0 hne
        have st := Step.work (size := size) (tailFirst := tf) (h := h) s k 0 hk hne ht hp
        rw [if_pos (by omega), hq] at st
        exact ⟨.work k 0, _, by simp [brief], fun h1 h2 => hlook ⟨h1, h2⟩, st⟩

theorem weight_pred {w : α → Nat} (hw : ∀ x, 1 ≤ w x) (l : List α) :
    weight (fun x => w x - 1) l + l.length = weight w l := by
  induction l with
  | nil => rfl
  | cons x l ih =>
    have := hw x
    rw [weight_cons, weight_cons, List.length_cons]
    omega

theorem burden_le {b size : Nat} (hb : 0 < b) {tf : Bool} {h : Handler α} {w : α → Nat} (hw : ∀ x, 1 ≤ w x)
    {G : State α → Label α → Prop} {s : State α} (hr : Reach b size tf h G s) (hlog : s.log.length < 2 ^ 64) :
    s.burden w ≤ 34 * (sumTo (fun n => weight w (s.left n) + weight w (s.todo n) + weight w (s.prod (2 * n)).coming) 8) + 104 := by
  have hc := hr.ctl
  have key : ∀ n, s.duty w n + s.stock w n ≤
      34 * (weight w (s.left n) + weight w (s.todo n) + weight w (s.prod (2 * n)).coming) + 13 := by
    intro n
    obtain ⟨q1, q2⟩ := hr.queue hb n (Nat.lt_of_le_of_lt (hc.queue_le n) hlog)
    have h1 : (s.qs n).fuel ≤ 5 * (s.left n).length + 12 := by
      by_cases he : (s.qs n).pc = .ended
      · simp [Q.fuel, he]
      · have e1 := (q1 he).head
        have e2 := (q1 he).le
        have e3 := (q1 he).tail
        rw [State.left, List.length_drop]
        unfold Q.fuel
        split <;> (try split) <;> omega
    have h2 := weight_pred hw (s.left n)
    have h3 : pcost w (s.prod (2 * n)) ≤ 34 * weight w (s.prod (2 * n)).coming + 1 := by
      cases s.prod (2 * n) with
      | idle => simp [pcost]
      | scan x k acc seen => have := hw x; simp only [pcost, Prod.coming, weight, List.map_cons, List.map_nil, List.sum_cons, List.sum_nil]; omega
      | read x k v acc seen => have := hw x; simp only [pcost, Prod.coming, weight, List.map_cons, List.map_nil, List.sum_cons, List.sum_nil]; omega
      | chosen x id seen => have := hw x; simp only [pcost, Prod.coming, weight, List.map_cons, List.map_nil, List.sum_cons, List.sum_nil]; omega
      | claimed x id i => simp [pcost, Prod.coming]
    simp only [State.duty, State.stock]
    omega
  have h1 := sumTo_mono (n := 8) fun n _ => key n
  rw [sumTo_linear] at h1
  have h2 : ∀ (f g : Nat → Nat) (n : Nat), sumTo (fun k => f k + g k) n = sumTo f n + sumTo g n := by
    intro f g n
    induction n with
    | zero => rfl
    | succ n ih => simp only [sumTo, ih]; omega
  rw [h2] at h1
  exact h1

theorem Run.reach {b size : Nat} {tf : Bool} {h : Handler α} {G G' : State α → Label α → Prop} (hG : ∀ s l, G s l → G' s l)
    {s s' : State α} {n : Nat} (hr : Reach b size tf h G' s) (hrun : Run size tf h G s n s') : Reach b size tf h G' s' := by
  induction hrun with
  | nil s => exact hr
  | step s s1 s2 n l hg hs _ ih => exact ih (.step s s1 l hr (hG s l hg) hs)

/-- C122, for at most eight workers, queues that are not filled more than once, at most 214748364 pushes and handler calls of at
most 214748364 ms: if the pushes of the handler get lighter (each item outweighs the pushes for it), then, once destruction has
begun, no schedule takes more than `34 * weight + 104` steps, not counting the looks of a worker at a slot whose item is still
to be stored, where the weight is that of the items not yet handled or still to be pushed; as long as a worker has not ended,
there is a further step that is counted.  What is missing are the schedules in which a queue wraps around, where an item may be
handled again, see `C59_overrun_refuted`. -/
theorem C122_ends_partial {b size : Nat} (hb : 0 < b) (hsz : size ≤ 8) {tf : Bool} {h : Handler α} {w : α → Nat}
    (hw : ∀ n x, 1 + weight w (h n x) ≤ w x) {s s' : State α} {n : Nat} (hr : Reach b size tf h brief s)
    (hcl : s.closed = true) (hrun : Run size tf h (fun s l => brief s l ∧ patient s l) s n s')
    (hlog : s'.log.length ≤ 214748364) (hl : ∀ k, k < 8 → (s'.log.filter fun t => t.q = k).length ≤ b) :
    n ≤ 34 * (sumTo (fun k => weight w (s.left k) + weight w (s.todo k) + weight w (s.prod (2 * k)).coming) 8) + 104 ∧
    ((∃ k, k < size ∧ (s'.qs k).pc ≠ .ended) → ∃ l s'', (brief s' l ∧ patient s' l) ∧ Step size tf h s' l (.ok s'')) ∧
    ∀ k, k < size → (s'.qs k).pc = .ended → (s'.qs k).handled = (s'.log.filter fun t => t.q = k ∧ t.late = false).map Entry.item := by
  have hreach := Run.reach (fun _ _ h => h.1) hr hrun
  have hpl : ∀ k, k < 8 → (s'.qs k).pushed.length ≤ b := fun k hk => Nat.le_trans (hreach.ctl.queue_len k) (hl k hk)
  obtain ⟨_, _, k3, k4, _⟩ := ends_run hb hw hr hcl hrun (by omega) fun t ht hlt hle k hk =>
    (ht.order hb k (Nat.lt_of_le_of_lt (ht.ctl.queue_le k) hlt) (Nat.le_trans (hle k) (hpl k hk))).2
  have hle := burden_le (w := w) hb (fun x => by have := hw 0 x; omega) hr (by omega)
  refine ⟨by omega, fun ⟨k, hk, hne⟩ => ?_, fun k hk he => ?_⟩
  · obtain ⟨l, s'', h1, h2, h3⟩ := can_go_on hb hsz hreach hlog hk hne
    exact ⟨l, s'', ⟨h1, h2⟩, h3⟩
  · exact C120_order_partial hb (hreach.mono fun _ _ _ => trivial) (by omega) he (hl k (by omega))

/-- A check for both conditions. -/
def ready (s : State α) : Label α → Bool
  | .work n e => decide (0 ≤ e ∧ e ≤ 214748364) && (decide ((s.qs n).pc ≠ .check) ||
    match (s.qs n).slots[(s.qs n).head % (s.qs n).slots.length]? with
    | some none => false
    | _ => true)
  | _ => true

theorem ready_spec (s : State α) (l : Label α) (h : ready s l = true) : brief s l ∧ patient s l := by
  cases l with
  | work n e =>
    simp only [ready, Bool.and_eq_true, decide_eq_true_eq, Bool.or_eq_true] at h
    refine ⟨h.1, fun hpc he => ?_⟩
    rcases h.2 with h2 | h2
    · exact h2 hpc
    · rw [he] at h2
      cases h2
  | _ => exact ⟨trivial, trivial⟩

theorem follow_run {size : Nat} {tf : Bool} {h : Handler α} {m : Nat} {s s' : State α} (ls : List (Label α))
    (hi : ∀ p, m ≤ p → s.prod (2 * p + 1) = .idle) (hf : follow size tf h m ready s ls = some s') :
    Run size tf h (fun s l => brief s l ∧ patient s l) s ls.length s' ∧ ∀ p, m ≤ p → s'.prod (2 * p + 1) = .idle := by
  induction ls generalizing s with
  | nil => cases hf; exact ⟨.nil _, hi⟩
  | cons l ls ih =>
    rw [follow] at hf
    split at hf
    · rename_i s1 hg1 h1
      obtain ⟨hs, hi'⟩ := fire_step hi h1
      obtain ⟨j1, j2⟩ := ih hi' hf
      exact ⟨.step s s1 s' ls.length l (ready_spec s l hg1) hs j1, j2⟩
    · cases hf

/-- Two schedules, one after the other. -/
theorem follow_two {b size : Nat} {tf : Bool} {h : Handler α} {P P' : State α → Prop} [DecidablePred P] [DecidablePred P']
    (m : Nat) (l1 l2 : List (Label α))
    (hf : (match follow size tf h m ready (State.new b) l1 with
      | none => false
      | some s => decide (P s) && (follow size tf h m ready s l2).any fun s' => decide (P' s')) = true) :
    ∃ s s', Reach b size tf h brief s ∧ P s ∧ Run size tf h (fun s l => brief s l ∧ patient s l) s l2.length s' ∧ P' s' := by
  split at hf
  · cases hf
  · rename_i s hs
    cases hs' : follow size tf h m ready s l2 with
    | none => rw [hs'] at hf; simp at hf
    | some s' =>
      rw [hs'] at hf
      simp only [Option.any_some, Bool.and_eq_true, decide_eq_true_eq] at hf
      obtain ⟨j1, j2⟩ := follow_run l1 (fun _ _ => rfl) hs
      exact ⟨s, s', Run.reach (fun _ _ h => h.1) .new j1, hf.1, (follow_run l2 j2 hs').1, hf.2⟩

/-- Weights for the handler that splits 10. -/
example : ∀ n x, 1 + weight (fun y => if y = 10 then 3 else 1) (Ex.split n x) ≤ if x = 10 then 3 else 1 := by
  intro n x
  unfold Ex.split
  split <;> simp [weight]

/-- Destruction begins while 10 is to be handled; its weight is 3, so that at most 206 steps follow.  Here are 75. -/
example : ∃ s s', Reach 4 8 true Ex.split brief s ∧ (s.closed = true ∧ s.left 0 = [10]) ∧
    Run 8 true Ex.split (fun s l => brief s l ∧ patient s l) s 75 s' ∧ (∀ k, k < 8 → (s'.qs k).pc = .ended) ∧
      (∀ k, k < 8 → (s'.log.filter fun t => t.q = k).length ≤ 4) :=
  follow_two 1 (Ex.push 0 10 ++ [.close]) (Ex.w 0 6 ++ Ex.back 0 ++ Ex.back 0 ++ Ex.w 0 9 ++ Ex.w 1 10 ++
    (List.range 6).flatMap fun n => Ex.w (n + 2) 2) (by decide +kernel)

end Verif.Pipeline.Pool.Push
