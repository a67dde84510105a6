import Verif.Pipeline.PoolRaces
/-!
Data races and visibility in a pool (C115-C118).
-/
namespace Verif.HB
variable {τ ℓ σ : Type} [DecidableEq τ] [DecidableEq σ]

/-- Which accesses there are after some operations of a thread. -/
theorem Mem.log_run_cases (m : Mem τ ℓ σ) (t : τ) (os : List (Op ℓ σ)) : ∀ a ∈ (m.run t os).log,
    a ∈ m.log ∨ (a.who = t ∧ m.clk t t < a.time ∧ .acc a.loc a.wr a.tag ∈ os) := by
  induction os generalizing m with
  | nil => exact fun a ha => .inl ha
  | cons o os ih =>
    intro a ha
    rcases ih (m.op t o) a ha with h | ⟨h1, h2, h3⟩
    · cases o with
      | acc l w i =>
        simp only [Mem.op, List.mem_cons] at h
        rcases h with rfl | h
        · exact .inr ⟨rfl, Nat.lt_succ_self _, List.mem_cons_self⟩
        · exact .inl h
      | _ => exact .inl h
    · exact .inr ⟨h1, Nat.lt_of_le_of_lt (m.op_clk_le t o t t) h2, List.mem_cons_of_mem _ h3⟩

/-- A thread learns of others only what it acquires. -/
theorem Mem.clk_run_le (m : Mem τ ℓ σ) (t u : τ) (hu : u ≠ t) (N : Nat) (os : List (Op ℓ σ)) (h1 : m.clk t u ≤ N)
    (h2 : ∀ o, .acq o ∈ os → m.sync o u ≤ N) : (m.run t os).clk t u ≤ N := by
  induction os generalizing m with
  | nil => exact h1
  | cons o os ih =>
    refine ih _ ?_ fun x hx => ?_
    · cases o with
      | acq o =>
        have := h2 o List.mem_cons_self
        simp only [Mem.op, put_same]
        omega
      | acc l w i => simpa only [Mem.op, put_same, put_ne _ _ hu] using h1
      | _ => exact h1
    · have h3 := h2 x (List.mem_cons_of_mem _ hx)
      cases o with
      | rel o =>
        by_cases e : x = o
        · subst e; simp only [Mem.op, put_same]; omega
        · simp only [Mem.op, put_ne _ _ e]; exact h3
      | sto o =>
        by_cases e : x = o
        · subst e; simp only [Mem.op, put_same]; exact h1
        · simp only [Mem.op, put_ne _ _ e]; exact h3
      | _ => exact h3

/-- Without releases objects keep what they carry, and it only grows with read-modify-write operations. -/
theorem Mem.sync_run (m : Mem τ ℓ σ) (t : τ) (o : σ) (u : τ) (os : List (Op ℓ σ)) (h : .sto o ∉ os) :
    m.sync o u ≤ (m.run t os).sync o u := by
  induction os generalizing m with
  | nil => exact Nat.le_refl _
  | cons x os ih =>
    exact Nat.le_trans (m.op_sync_le t x o u fun e => h (by rw [e]; exact List.mem_cons_self))
      (ih _ fun hx => h (List.mem_cons_of_mem _ hx))

/-- Accesses that come after all others that they could conflict with do not race. -/
theorem Mem.Races.known {R : ℓ → Prop} {t : τ} {os : List (Op ℓ σ)} {m : Mem τ ℓ σ} (hok : m.Ok)
    (h : ∀ a ∈ m.log, R a.loc → a.who ≠ t → ∀ w i, .acc a.loc w i ∈ os → a.wr = true ∨ w = true →
      a.time ≤ m.clk t a.who) : ¬ m.Races R t os := by
  induction os generalizing m with
  | nil => exact fun h => h
  | cons o os ih =>
    have key : ∀ a ∈ (m.op t o).log, R a.loc → a.who ≠ t → ∀ w i, Op.acc a.loc w i ∈ os → a.wr = true ∨ w = true →
        a.time ≤ (m.op t o).clk t a.who := by
      intro a ha hR hne w i hin hw
      have hal : a ∈ m.log := by
        cases o with
        | acc l w i =>
          simp only [Mem.op, List.mem_cons] at ha
          rcases ha with rfl | ha
          · exact absurd rfl hne
          · exact ha
        | _ => exact ha
      exact Nat.le_trans (h a hal hR hne w i (List.mem_cons_of_mem _ hin) hw) (m.op_clk_le t o t _)
    cases o with
    | acc l w i =>
      rintro (⟨hR, a, ha, hl, hw, hlt⟩ | hr)
      · by_cases e : a.who = t
        · have := hok.log a ha
          rw [e] at this hlt
          omega
        · subst hl
          have := h a ha hR e w i List.mem_cons_self hw
          omega
      · exact ih (hok.op _ _) key hr
    | acq o => exact ih (hok.op _ _) key
    | rel o => exact ih (hok.op _ _) key
    | sto o => exact ih (hok.op _ _) key

/-- No places, no races. -/
theorem Mem.Races.nowhere {R : ℓ → Prop} (hR : ∀ l, ¬ R l) {t : τ} (os : List (Op ℓ σ)) (m : Mem τ ℓ σ) :
    ¬ m.Races R t os := by
  induction os generalizing m with
  | nil => exact fun h => h
  | cons o os ih =>
    cases o with
    | acc l w i =>
      rintro (⟨h, -⟩ | h)
      · exact hR _ h
      · exact ih _ h
    | acq o => exact ih _
    | rel o => exact ih _
    | sto o => exact ih _

end Verif.HB

namespace Verif.Pipeline.Pool.HB
open Verif Verif.HB Verif.Pipeline Verif.Pipeline.Pool
variable {α : Type}

/-! ### What a step does -/

/-- The step of a pool, by its label. -/
def Effect (size : Nat) (tf : Bool) (s : Pool.State α) (s' : Pool.State α) : Pool.Label α → Prop
  | .start p x => s.closed = false ∧ s.prod p = .idle ∧ s' = { s with prod := upd s.prod p (.scan x 0 (intMax, 0) []) }
  | .scan p => (∃ x k acc seen, s.prod p = .scan x k acc seen ∨ ∃ v, s.prod p = .read x k v acc seen) ∧
      ∃ st, st.quiet ∧ s' = { s with prod := upd s.prod p st }
  | .claim p => ∃ x id seen, s.prod p = .chosen x id seen ∧
      s' = { s with
        qs := upd s.qs id ((s.qs id).claim x)
        prod := upd s.prod p (.claimed x id (s.qs id).tail)
        pushed := s.pushed ++ [x] }
  | .store p => ∃ x id i, s.prod p = .claimed x id i ∧
      s' = { s with
        qs := upd s.qs id { s.qs id with slots := (s.qs id).slots.set (i % (s.qs id).slots.length) (some x) }
        prod := upd s.prod p .idle }
  | .close => s.closed = false ∧ (∀ p, s.prod p = .idle) ∧ s' = { s with closed := true }
  | .work n e => ∃ q, n < size ∧ n < 8 ∧ (s.qs n).pc ≠ .ended ∧ (s.qs n).work s.closed e = .ok q ∧
      s' = { s with qs := upd s.qs n q }

theorem effect {size : Nat} {tf : Bool} {s s' : Pool.State α} {l : Pool.Label α} (h : Pool.Step size tf s l (.ok s')) :
    Effect size tf s s' l := by
  generalize hr : Res.ok s' = r at h
  cases h with
  | start p x h1 h2 => cases hr; exact ⟨h1, h2, rfl⟩
  | scan p x k acc seen h1 =>
    cases hr
    exact ⟨⟨x, k, acc, seen, .inl h1⟩, .read x k (if tf then (s.qs k).tail else (s.qs k).head) acc seen, trivial, rfl⟩
  | read p x k v acc seen h1 =>
    cases hr
    refine ⟨⟨x, k, acc, seen, .inr ⟨v, h1⟩⟩, _, ?_, rfl⟩
    unfold nextScan
    split <;> trivial
  | claim p x id seen h1 => cases hr; exact ⟨x, id, seen, h1, rfl⟩
  | store p x id i h1 =>
    cases hq : (s.qs id).store i x with
    | ub => rw [hq] at hr; cases hr
    | hang => rw [hq] at hr; cases hr
    | ok q =>
      rw [hq] at hr
      simp only [Res.ok_bind, Res.pure_eq, Res.ok.injEq] at hr
      have := Q.store_same hq
      subst this
      exact ⟨x, id, i, h1, hr⟩
  | close h1 h2 => cases hr; exact ⟨h1, h2, rfl⟩
  | work n e h1 h2 =>
    split at hr
    · rename_i h8
      cases hq : (s.qs n).work s.closed e with
      | ub => rw [hq] at hr; cases hr
      | hang => rw [hq] at hr; cases hr
      | ok q =>
        rw [hq] at hr
        simp only [Res.ok_bind, Res.pure_eq, Res.ok.injEq] at hr
        exact ⟨q, h1, h8, h2, hq, hr⟩
    · cases hr

theorem Run.reach {b size : Nat} {tf : Bool} {R : Loc → Prop} {G : State α → Lbl α → Prop} {ls : List (Lbl α)}
    {m : State α} (h : Run b size tf R G ls m) : Pool.Reach b size tf m.st := by
  induction h with
  | new => exact .new
  | step ls m m' l _ _ hs _ ih =>
    obtain ⟨h1, -⟩ := hs
    cases l with
    | start p x => exact .step _ _ _ ih h1
    | scan p => exact .step _ _ _ ih h1
    | claim p => exact .step _ _ _ ih h1
    | store p => exact .step _ _ _ ih h1
    | close p => exact .step _ _ _ ih h1
    | work n e => exact .step _ _ _ ih h1
    | join p => rw [h1.2]; exact ih
    | touch t d w => rw [h1.2]; exact ih
    | rel t u => rw [h1.2]; exact ih
    | acq t u => rw [h1.2]; exact ih

theorem Run.memOk {b size : Nat} {tf : Bool} {R : Loc → Prop} {G : State α → Lbl α → Prop} {ls : List (Lbl α)}
    {m : State α} (h : Run b size tf R G ls m) : m.mem.Ok := by
  induction h with
  | new => exact Mem.Ok.new
  | step ls m m' l _ _ hs _ ih => rw [hs.2.1]; exact ih.run _ _

/-! ### C115: samples -/

/-- Only worker `n` uses the samples of queue `n`. -/
theorem stat_owner {tf : Bool} {m : State α} {l : Lbl α} {n : Nat} {w : Bool} {i : Nat}
    (h : .acc (.stat n) w i ∈ ops tf m l) : l.who = .worker n := by
  cases l with
  | start p x => cases h
  | scan p =>
    simp only [ops, scanOps] at h
    split at h <;> simp at h
  | claim p =>
    simp only [ops, claimOps] at h
    split at h <;> simp at h
  | store p =>
    simp only [ops, storeOps] at h
    split at h <;> simp at h
  | close p => simp [ops] at h
  | work k e =>
    simp only [ops, workOps] at h
    split at h
    · split at h <;> simp at h
    · split at h <;> simp at h
    all_goals simp at h
    all_goals (first | (rw [h.1]; rfl))
  | join p =>
    simp only [ops, joinOps] at h
    split at h <;> simp at h
  | touch t d w => simp [ops] at h
  | rel t u => simp [ops] at h
  | acq t u => simp [ops] at h

theorem Run.statOwner {b size : Nat} {tf : Bool} {R : Loc → Prop} {G : State α → Lbl α → Prop} {ls : List (Lbl α)}
    {m : State α} (h : Run b size tf R G ls m) : ∀ a ∈ m.mem.log, ∀ n, a.loc = .stat n → a.who = .worker n := by
  induction h with
  | new => intro a ha; cases ha
  | step ls m m' l _ _ hs _ ih =>
    intro a ha n hl
    rw [hs.2.1] at ha
    rcases Mem.log_run_cases _ _ _ a ha with ha | ⟨h1, -, h3⟩
    · exact ih a ha n hl
    · rw [hl] at h3
      rw [h1]
      exact stat_owner h3

/-- **C115**: no access to the samples of a pool is a data race, whatever the threads and handlers do and whatever else
races. -/
theorem C115_statistics {b size : Nat} {tf : Bool} {ls : List (Lbl α)} {m m' : State α} {l : Lbl α}
    (h : Run b size tf noLoc anyLbl ls m) (_ : Step size tf m l m') : ¬ Race deques tf m l := by
  refine Mem.Races.known h.memOk fun a ha hR hne w i hin _ => ?_
  obtain ⟨n, hn⟩ := hR
  rw [hn] at hin
  exact absurd ((h.statOwner a ha n hn).trans (stat_owner hin).symm) hne

/-! ### C116: slots -/

/-- The handler, when worker `n` runs it, acquires nothing. -/
def deaf (n : Nat) : State α → Lbl α → Prop := fun _ l => ∀ u, l ≠ .acq (.worker n) u

/-- The place is a slot of queue `n`. -/
def OfQueue (n : Nat) (l : Loc) : Prop := ∃ k, l = .slot n k

/-- What holds of queue `n` and the accesses to its slots until the destructor begins. -/
structure Deaf (b n : Nat) (m : State α) : Prop where
  head : ∀ u, m.mem.sync (.head n) u ≤ m.mem.clk (.worker n) u
  reads : ∀ a ∈ m.mem.log, a.who = .worker n → OfQueue n a.loc → a.tag < (m.st.qs n).pushed.length ∧
    a.loc = .slot n (a.tag % b)
  fresh : ∀ p x i, m.st.prod p = .claimed x n i → ∀ r ∈ m.mem.log, r.who = .worker n → OfQueue n r.loc → r.tag = i →
    m.mem.clk (.out p) (.worker n) < r.time
  writes : ∀ a ∈ m.mem.log, a.wr = true → OfQueue n a.loc → a.who ≠ .worker n ∧ a.tag < (m.st.qs n).pushed.length ∧
    a.loc = .slot n (a.tag % b) ∧ (a.tag + 1 = (m.st.qs n).pushed.length → m.mem.sync (.tail n) a.who < a.time ∧
      m.mem.clk (.worker n) a.who < a.time ∧ ∀ r ∈ m.mem.log, r.who = .worker n → OfQueue n r.loc → r.tag ≠ a.tag)
  stored : ∀ i, i < (m.st.qs n).pushed.length → (∃ p x, m.st.prod p = .claimed x n i) ∨
    ∃ a ∈ m.mem.log, a.wr = true ∧ OfQueue n a.loc ∧ a.tag = i
  handled : ∀ i, i < (m.st.qs n).handled.length →
    ∃ a ∈ m.mem.log, a.who = .worker n ∧ OfQueue n a.loc ∧ a.tag = i

theorem Deaf.new (b n : Nat) : Deaf b n (State.new b : State α) := by
  refine ⟨?_, ?_, ?_, ?_, ?_, ?_⟩ <;> simp [State.new, Mem.new, Pool.State.new, Q.new]

/-- Steps that do not concern queue `n`. -/
theorem Deaf.other {b n : Nat} {m m' : State α} (h : Deaf b n m) (t : Thr) (os : List (Op Loc Obj))
    (hmem : m'.mem = m.mem.run t os)
    (hp : (m'.st.qs n).pushed = (m.st.qs n).pushed) (hh : (m'.st.qs n).handled = (m.st.qs n).handled)
    (hprod : ∀ p x i, m'.st.prod p = .claimed x n i ↔ m.st.prod p = .claimed x n i)
    (hos : ∀ o ∈ os, o ≠ .rel (.tail n) ∧ o ≠ .sto (.tail n) ∧ o ≠ .rel (.head n) ∧ o ≠ .sto (.head n) ∧
      (∀ k w i, o ≠ .acc (.slot n k) w i))
    (hacq : ∀ o, .acq o ∈ os → t ≠ .worker n ∧ ∀ p, t = .out p → ∀ x i, m.st.prod p ≠ .claimed x n i) :
    Deaf b n m' := by
  have hlog : ∀ a ∈ m'.mem.log, OfQueue n a.loc → a ∈ m.mem.log := by
    intro a ha hq
    rw [hmem] at ha
    rcases Mem.log_run_cases _ _ _ a ha with ha | ⟨-, -, h3⟩
    · exact ha
    · obtain ⟨k, hk⟩ := hq
      rw [hk] at h3
      exact absurd rfl ((hos _ h3).2.2.2.2 k _ _)
  have hmono : ∀ a ∈ m.mem.log, a ∈ m'.mem.log := by rw [hmem]; exact Mem.log_mono _ _ _
  have htail : m'.mem.sync (.tail n) = m.mem.sync (.tail n) := by
    rw [hmem]
    exact Mem.sync_other _ _ _ _ fun x hx => ⟨(hos x hx).1, (hos x hx).2.1⟩
  have hhead : m'.mem.sync (.head n) = m.mem.sync (.head n) := by
    rw [hmem]
    exact Mem.sync_other _ _ _ _ fun x hx => ⟨(hos x hx).2.2.1, (hos x hx).2.2.2.1⟩
  have hclk : ∀ u, u ≠ .worker n → m'.mem.clk (.worker n) u ≤ m.mem.clk (.worker n) u := by
    intro u hu
    rw [hmem]
    by_cases ht : Thr.worker n = t
    · subst ht
      exact Mem.clk_run_le _ _ _ hu _ _ (Nat.le_refl _) fun o ho => absurd rfl (hacq o ho).1
    · rw [Mem.clk_other _ ht]; exact Nat.le_refl _
  refine ⟨fun u => ?_, fun a ha hw hq => ?_, fun p x i hx r hr hw hq ht => ?_, fun a ha hw hq => ?_, fun i hi => ?_,
    fun i hi => ?_⟩
  · rw [hhead]
    refine Nat.le_trans (h.head u) ?_
    rw [hmem]
    exact Mem.clk_run _ _ _ _ _
  · rw [hp]
    exact h.reads a (hlog a ha hq) hw hq
  · rw [hprod] at hx
    have h1 := h.fresh p x i hx r (hlog r hr hq) hw hq ht
    refine Nat.lt_of_le_of_lt ?_ h1
    rw [hmem]
    by_cases ht : Thr.out p = t
    · subst ht
      exact Mem.clk_run_le _ _ _ (by simp) _ _ (Nat.le_refl _) fun o ho => absurd hx ((hacq o ho).2 p rfl x i)
    · rw [Mem.clk_other _ ht]; exact Nat.le_refl _
  · obtain ⟨h1, h2, h3, h4⟩ := h.writes a (hlog a ha hq) hw hq
    rw [hp, htail]
    refine ⟨h1, h2, h3, fun e => ?_⟩
    obtain ⟨h5, h6, h7⟩ := h4 e
    exact ⟨h5, Nat.lt_of_le_of_lt (hclk _ h1) h6, fun r hr hrw hrq => h7 r (hlog r hr hrq) hrw hrq⟩
  · rw [hp] at hi
    rcases h.stored i hi with ⟨p, x, hpx⟩ | ⟨a, ha, ha'⟩
    · exact .inl ⟨p, x, (hprod p x i).2 hpx⟩
    · exact .inr ⟨a, hmono a ha, ha'⟩
  · rw [hh] at hi
    obtain ⟨a, ha, ha'⟩ := h.handled i hi
    exact ⟨a, hmono a ha, ha'⟩

/-- A push into queue `n` increments the counter. -/
theorem Deaf.claim {b n : Nat} {m m' : State α} (h : Deaf b n m) (p : Nat) (x : α)
    (hmem : m'.mem = m.mem.run (.out p) [.acq (.tail n), .rel (.tail n)])
    (hp : (m'.st.qs n).pushed = (m.st.qs n).pushed ++ [x]) (hh : (m'.st.qs n).handled = (m.st.qs n).handled)
    (hquiet : (m.st.prod p).quiet) (hprod : m'.st.prod = upd m.st.prod p (.claimed x n (m.st.qs n).pushed.length)) :
    Deaf b n m' := by
  have hlog : m'.mem.log = m.mem.log := by rw [hmem]; rfl
  have hclk : ∀ t, t ≠ .out p → m'.mem.clk t = m.mem.clk t := fun t ht => by rw [hmem]; exact Mem.clk_other _ ht _
  have hhead : m'.mem.sync (.head n) = m.mem.sync (.head n) := by
    rw [hmem]
    exact Mem.sync_other _ _ _ _ (by simp)
  have hlen : (m'.st.qs n).pushed.length = (m.st.qs n).pushed.length + 1 := by rw [hp]; simp
  refine ⟨fun u => ?_, fun a ha hw hq => ?_, fun p' x' i hx r hr hw hq ht => ?_, fun a ha hw hq => ?_, fun i hi => ?_,
    fun i hi => ?_⟩
  · rw [hhead, hclk _ (by simp)]; exact h.head u
  · rw [hlog] at ha
    obtain ⟨h1, h2⟩ := h.reads a ha hw hq
    exact ⟨by omega, h2⟩
  · rw [hlog] at hr
    rw [hprod] at hx
    by_cases e : p' = p
    · subst e
      rw [upd_same] at hx
      cases hx
      have := (h.reads r hr hw hq).1
      omega
    · rw [upd_other _ _ e] at hx
      rw [hclk _ (by simpa using e)]
      exact h.fresh p' x' i hx r hr hw hq ht
  · rw [hlog] at ha
    obtain ⟨h1, h2, h3, h4⟩ := h.writes a ha hw hq
    exact ⟨h1, by omega, h3, fun e => by omega⟩
  · by_cases e : i = (m.st.qs n).pushed.length
    · exact .inl ⟨p, x, by rw [hprod, upd_same, e]⟩
    · rcases h.stored i (by omega) with ⟨p', x', hpx⟩ | ⟨a, ha⟩
      · refine .inl ⟨p', x', ?_⟩
        rw [hprod, upd_other]
        · exact hpx
        · rintro rfl
          rw [hpx] at hquiet
          exact hquiet
      · exact .inr ⟨a, by rw [hlog]; exact ha⟩
  · rw [hh] at hi
    rw [hlog]
    exact h.handled i hi

/-- A push stores into queue `n`, without a race. -/
theorem Deaf.store {b n : Nat} {m m' : State α} (h : Deaf b n m) (hok : m.mem.Ok) (p : Nat) (x : α) (i : Nat)
    (hpx : m.st.prod p = .claimed x n i) (hi : i < (m.st.qs n).pushed.length)
    (hmem : m'.mem = m.mem.run (.out p) [.acc (.slot n (i % b)) true i])
    (hp : (m'.st.qs n).pushed = (m.st.qs n).pushed) (hh : (m'.st.qs n).handled = (m.st.qs n).handled)
    (hprod : m'.st.prod = upd m.st.prod p .idle)
    (hnr : ¬ m.mem.Conflict (.out p) (.slot n (i % b)) true) : Deaf b n m' := by
  have hlog : m'.mem.log = ⟨.out p, m.mem.clk (.out p) (.out p) + 1, .slot n (i % b), true, i⟩ :: m.mem.log := by
    rw [hmem]; rfl
  have hclk : ∀ t, t ≠ .out p → m'.mem.clk t = m.mem.clk t := fun t ht => by rw [hmem]; exact Mem.clk_other _ ht _
  have hsync : m'.mem.sync = m.mem.sync := by rw [hmem]; rfl
  refine ⟨fun u => ?_, fun a ha hw hq => ?_, fun p' x' j hx r hr hw hq ht => ?_, fun a ha hw hq => ?_, fun j hj => ?_,
    fun j hj => ?_⟩
  · rw [hsync, hclk _ (by simp)]; exact h.head u
  · rw [hlog, List.mem_cons] at ha
    rcases ha with rfl | ha
    · cases hw
    · rw [hp]; exact h.reads a ha hw hq
  · rw [hlog, List.mem_cons] at hr
    rcases hr with rfl | hr
    · cases hw
    · rw [hprod] at hx
      by_cases e : p' = p
      · subst e; rw [upd_same] at hx; cases hx
      · rw [upd_other _ _ e] at hx
        rw [hclk _ (by simpa using e)]
        exact h.fresh p' x' j hx r hr hw hq ht
  · rw [hlog, List.mem_cons] at ha
    rcases ha with rfl | ha
    · refine ⟨by simp, by rw [hp]; exact hi, rfl, fun _ => ?_⟩
      have h1 := hok.sync (.tail n) (.out p)
      have h2 := hok.clk (.worker n) (.out p)
      refine ⟨by rw [hsync]; simp only; omega, by rw [hclk _ (by simp)]; simp only; omega, fun r hr hrw hrq hrt => ?_⟩
      rw [hlog, List.mem_cons] at hr
      rcases hr with rfl | hr
      · cases hrw
      · simp only at hrt
        have h3 := h.fresh p x i hpx r hr hrw hrq hrt
        have h4 := (h.reads r hr hrw hrq).2
        refine hnr ⟨r, hr, by rw [h4, hrt], .inr rfl, ?_⟩
        rw [hrw]
        exact h3
    · obtain ⟨h1, h2, h3, h4⟩ := h.writes a ha hw hq
      rw [hp, hsync, hclk _ (by simp)]
      refine ⟨h1, h2, h3, fun e => ?_⟩
      obtain ⟨h5, h6, h7⟩ := h4 e
      refine ⟨h5, h6, fun r hr hrw hrq => ?_⟩
      rw [hlog, List.mem_cons] at hr
      rcases hr with rfl | hr
      · cases hrw
      · exact h7 r hr hrw hrq
  · rw [hp] at hj
    rw [hlog]
    rcases h.stored j hj with ⟨p', x', hx⟩ | ⟨a, ha, ha'⟩
    · by_cases e : p' = p
      · subst e
        rw [hpx] at hx
        cases hx
        exact .inr ⟨_, List.mem_cons_self, rfl, ⟨_, rfl⟩, rfl⟩
      · exact .inl ⟨p', x', by rw [hprod, upd_other _ _ e]; exact hx⟩
    · exact .inr ⟨a, List.mem_cons_of_mem _ ha, ha'⟩
  · rw [hh] at hj
    rw [hlog]
    obtain ⟨a, ha, ha'⟩ := h.handled j hj
    exact ⟨a, List.mem_cons_of_mem _ ha, ha'⟩

/-- The worker of queue `n`, which acquires nothing but the counters and reads nothing but one slot, without a race. -/
theorem Deaf.work {b n : Nat} {m m' : State α} (h : Deaf b n m) (hok : m.mem.Ok) (os : List (Op Loc Obj))
    (hmem : m'.mem = m.mem.run (.worker n) os)
    (hp : (m'.st.qs n).pushed = (m.st.qs n).pushed) (hprod : m'.st.prod = m.st.prod)
    (hos : ∀ o ∈ os, o ≠ .rel (.tail n) ∧ (∀ o', o ≠ .sto o') ∧ (∀ o', o = .acq o' → o' = .tail n ∨ o' = .head n) ∧
      ∀ k w i, o = .acc (.slot n k) w i → w = false ∧ k = i % b ∧ i < (m.st.qs n).pushed.length)
    (hh : ∀ i, i < (m'.st.qs n).handled.length → i < (m.st.qs n).handled.length ∨ .acc (.slot n (i % b)) false i ∈ os)
    (hnr : ¬ m.mem.Races slots (.worker n) os) : Deaf b n m' := by
  have hlog : ∀ a ∈ m'.mem.log, OfQueue n a.loc → a ∈ m.mem.log ∨ (a.who = .worker n ∧ a.wr = false ∧
      a.loc = .slot n (a.tag % b) ∧ a.tag < (m.st.qs n).pushed.length ∧ m.mem.clk (.worker n) (.worker n) < a.time ∧
      .acc a.loc false a.tag ∈ os) := by
    intro a ha hq
    rw [hmem] at ha
    rcases Mem.log_run_cases _ _ _ a ha with ha | ⟨h1, h2, h3⟩
    · exact .inl ha
    · obtain ⟨k, hk⟩ := hq
      rw [hk] at h3
      obtain ⟨h4, h5, h6⟩ := (hos _ h3).2.2.2 k _ _ rfl
      refine .inr ⟨h1, h4, by rw [hk, h5], h6, h2, ?_⟩
      rw [hk, ← h4]
      exact h3
  have hmono : ∀ a ∈ m.mem.log, a ∈ m'.mem.log := by rw [hmem]; exact Mem.log_mono _ _ _
  have htail : m'.mem.sync (.tail n) = m.mem.sync (.tail n) := by
    rw [hmem]
    exact Mem.sync_other _ _ _ _ fun x hx => ⟨(hos x hx).1, (hos x hx).2.1 _⟩
  -- the newest store is not known, and so its slot is not read
  have hclk : ∀ a ∈ m.mem.log, a.wr = true → OfQueue n a.loc → a.tag + 1 = (m.st.qs n).pushed.length →
      ∀ os', (∀ o ∈ os', o ∈ os) → (m.mem.run (.worker n) os').clk (.worker n) a.who < a.time := by
    intro a ha hw hq e os' hos'
    obtain ⟨h1, h2, h3, h4⟩ := h.writes a ha hw hq
    obtain ⟨h5, h6, h7⟩ := h4 e
    have := Mem.clk_run_le m.mem (.worker n) a.who h1 (a.time - 1) os' (by omega) (fun o ho => by
      rcases (hos _ (hos' _ ho)).2.2.1 o rfl with rfl | rfl
      · omega
      · have := h.head a.who
        omega)
    omega
  have hread : ∀ a ∈ m.mem.log, a.wr = true → OfQueue n a.loc → a.tag + 1 = (m.st.qs n).pushed.length →
      .acc a.loc false a.tag ∉ os := by
    intro a ha hw hq e hin
    obtain ⟨os1, os2, hsplit⟩ := List.append_of_mem hin
    refine hnr ?_
    rw [hsplit]
    have key : ∀ (os1 : List (Op Loc Obj)) (mm : Mem Thr Loc Obj), a ∈ mm.log →
        (mm.run (.worker n) os1).clk (.worker n) a.who < a.time →
        mm.Races slots (.worker n) (os1 ++ .acc a.loc false a.tag :: os2) := by
      intro os1
      induction os1 with
      | nil =>
        intro mm hmm hlt
        obtain ⟨k, hk⟩ := hq
        exact .inl ⟨⟨n, k, hk⟩, a, hmm, rfl, .inl hw, hlt⟩
      | cons o os1 ih =>
        intro mm hmm hlt
        have hmm' : a ∈ (mm.op (.worker n) o).log := Mem.log_mono mm (.worker n) [o] a hmm
        have := ih (mm.op (.worker n) o) hmm' hlt
        cases o with
        | acc l w i => exact .inr this
        | _ => exact this
    refine key os1 m.mem ha (hclk a ha hw hq e os1 fun o ho => ?_)
    rw [hsplit]
    exact List.mem_append_left _ ho
  refine ⟨fun u => ?_, fun a ha hw hq => ?_, fun p x i hx r hr hw hq ht => ?_, fun a ha hw hq => ?_, fun i hi => ?_,
    fun i hi => ?_⟩
  · -- what the counter carries is known
    rw [hmem]
    have key : ∀ (os : List (Op Loc Obj)) (mm : Mem Thr Loc Obj), (∀ o ∈ os, ∀ o', o ≠ .sto o') →
        (∀ u, mm.sync (.head n) u ≤ mm.clk (.worker n) u) →
        ∀ u, (mm.run (.worker n) os).sync (.head n) u ≤ (mm.run (.worker n) os).clk (.worker n) u := by
      intro os
      induction os with
      | nil => exact fun mm _ h => h
      | cons o os ih =>
        intro mm ho h0
        refine ih _ (fun o' ho' => ho o' (List.mem_cons_of_mem _ ho')) fun v => ?_
        refine Nat.le_trans ?_ (Nat.le_refl ((mm.op (.worker n) o).clk (.worker n) v))
        have h1 := mm.op_clk_le (.worker n) o (.worker n) v
        have h2 := h0 v
        cases o with
        | rel o' =>
          by_cases e : Obj.head n = o'
          · subst e; simp only [Mem.op, put_same]; omega
          · simp only [Mem.op, put_ne _ _ e]; exact h2
        | sto o' => exact absurd rfl (ho _ List.mem_cons_self o')
        | acq o' => exact Nat.le_trans h2 h1
        | acc l w i => exact Nat.le_trans h2 h1
    exact key os m.mem (fun o ho => (hos o ho).2.1) h.head u
  · rw [hp]
    rcases hlog a ha hq with ha | ⟨h1, h2, h3, h4, -⟩
    · exact h.reads a ha hw hq
    · exact ⟨h4, h3⟩
  · rw [hprod] at hx
    have hc : m'.mem.clk (.out p) = m.mem.clk (.out p) := by rw [hmem]; exact Mem.clk_other _ (by simp) _
    rw [hc]
    rcases hlog r hr hq with hr | ⟨h1, h2, h3, h4, h5, -⟩
    · exact h.fresh p x i hx r hr hw hq ht
    · have := hok.clk (.out p) (.worker n)
      omega
  · rcases hlog a ha hq with ha | ⟨h1, h2, -⟩
    · obtain ⟨h1, h2, h3, h4⟩ := h.writes a ha hw hq
      rw [hp, htail]
      refine ⟨h1, h2, h3, fun e => ?_⟩
      obtain ⟨h5, h6, h7⟩ := h4 e
      refine ⟨h5, by rw [hmem]; exact hclk a ha hw hq e os fun o ho => ho, fun r hr hrw hrq => ?_⟩
      rcases hlog r hr hrq with hr | ⟨-, -, k3, -, -, k6⟩
      · exact h7 r hr hrw hrq
      · intro e'
        rw [k3, e', ← h3] at k6
        exact hread a ha hw hq e k6
    · rw [hw] at h2; cases h2
  · rw [hp] at hi
    rw [hprod]
    rcases h.stored i hi with hx | ⟨a, ha, ha'⟩
    · exact .inl hx
    · exact .inr ⟨a, hmono a ha, ha'⟩
  · rcases hh i hi with hi | hin
    · obtain ⟨a, ha, ha'⟩ := h.handled i hi
      exact ⟨a, hmono a ha, ha'⟩
    · rw [hmem]
      have key : ∀ (os : List (Op Loc Obj)) (mm : Mem Thr Loc Obj) (l : Loc) (w : Bool) (i : Nat), .acc l w i ∈ os →
          ∃ a ∈ (mm.run (.worker n) os).log, a.who = .worker n ∧ a.loc = l ∧ a.tag = i := by
        intro os
        induction os with
        | nil => intro mm l w i hin; cases hin
        | cons o os ih =>
          intro mm l w i hin
          rcases List.mem_cons.1 hin with rfl | hin
          · exact ⟨⟨.worker n, mm.clk (.worker n) (.worker n) + 1, l, w, i⟩,
              Mem.log_mono (mm.op (.worker n) (.acc l w i)) (.worker n) os _ List.mem_cons_self, rfl, rfl, rfl⟩
          · exact ih _ l w i hin
      obtain ⟨a, ha, h1, h2, h3⟩ := key os m.mem _ _ _ hin
      exact ⟨a, ha, h1, ⟨_, h2⟩, h3⟩

/-- What no step undoes. -/
theorem Step.mono {size : Nat} {tf : Bool} {m m' : State α} {l : Lbl α} (h : Step size tf m l m') :
    (m.st.closed = true → m'.st.closed = true) ∧ m.st.pushed.length ≤ m'.st.pushed.length := by
  obtain ⟨h1, -⟩ := h
  have key : ∀ pl, Pool.Step size tf m.st pl (.ok m'.st) →
      (m.st.closed = true → m'.st.closed = true) ∧ m.st.pushed.length ≤ m'.st.pushed.length := by
    intro pl hp
    rcases hp.cases_ok with ⟨p, st, _, _, _, _, e⟩ | ⟨p, x, id, seen, _, e⟩ | ⟨p, x, id, i, q, _, hq, e⟩ | ⟨_, _, e⟩ |
      ⟨n, e, q, _, _, _, hq, e⟩ <;> rw [e] <;> simp
  cases l with
  | start p x => exact key _ h1
  | scan p => exact key _ h1
  | claim p => exact key _ h1
  | store p => exact key _ h1
  | close p => exact key _ h1
  | work n e => exact key _ h1
  | join p => rw [h1.2]; exact ⟨id, Nat.le_refl _⟩
  | touch t d w => rw [h1.2]; exact ⟨id, Nat.le_refl _⟩
  | rel t u => rw [h1.2]; exact ⟨id, Nat.le_refl _⟩
  | acq t u => rw [h1.2]; exact ⟨id, Nat.le_refl _⟩

theorem Run.qinv {b size : Nat} (hb : 0 < b) {tf : Bool} {R : Loc → Prop} {G : State α → Lbl α → Prop}
    {ls : List (Lbl α)} {m : State α} (h : Run b size tf R G ls m) (hw : m.st.pushed.length < word) (n : Nat) :
    QInv m.st.closed (m.st.qs n) (pendOf m.st.prod n) :=
  (h.reach.inv hb fun k => Nat.lt_of_le_of_lt (h.reach.queue_le k) hw).1 n

theorem mem_scanOps {tf : Bool} {m : State α} {p : Nat} {o : Op Loc Obj} (h : o ∈ scanOps tf m p) : ∃ o', o = .acq o' := by
  unfold scanOps at h
  split at h <;> simp only [List.mem_singleton, List.not_mem_nil] at h
  · exact ⟨_, h⟩
  · exact ⟨_, h⟩

/-- What the worker of a queue does concerns this queue only. -/
theorem mem_workOps {m : State α} {k : Nat} {o : Op Loc Obj} (h : o ∈ workOps m k) :
    o = .acq .closed ∨ o = .acq (.tail k) ∨ o = .acq (.head k) ∨ o = .rel (.done k) ∨ o = .rel (.head k) ∨
      (∃ i, o = .acc (.slot k i) false ((m.st.qs k).head)) ∨
      (∃ i, (m.st.qs k).pc = .call i ∧ o = .acc (.slot k (i % (m.st.qs k).slots.length)) false i) ∨
      ∃ w, o = .acc (.stat k) w 0 := by
  unfold workOps at h
  simp only at h
  split at h
  · split at h <;> simp_all
  · rw [List.mem_append] at h
    rcases h with h | h
    · simp only [List.mem_cons, List.not_mem_nil, or_false] at h
      rcases h with rfl | rfl <;> simp
    · split at h <;> simp_all
  all_goals simp only [List.mem_cons, List.not_mem_nil, or_false] at h
  · rcases h with rfl | rfl <;> simp
  · rcases h with rfl | rfl <;> simp
  · rcases h with rfl | rfl <;> simp
  · rename_i i hi
    rcases h with rfl | rfl
    · exact .inr (.inr (.inr (.inr (.inr (.inr (.inl ⟨i, hi, rfl⟩))))))
    · simp
  · rcases h with rfl | rfl | rfl <;> simp

theorem Run.deaf {b size : Nat} (hb : 0 < b) {tf : Bool} {n : Nat} {ls : List (Lbl α)} {m : State α}
    (h : Run b size tf slots (deaf n) ls m) (hw : m.st.pushed.length < word) (hc : m.st.closed = false) : Deaf b n m := by
  induction h with
  | new => exact Deaf.new b n
  | step ls m m' l hr hg hs hnr ih =>
    have hmono := hs.mono
    have hc0 : m.st.closed = false := by
      cases e : m.st.closed with
      | false => rfl
      | true => rw [hmono.1 e] at hc; cases hc
    have hw0 : m.st.pushed.length < word := Nat.lt_of_le_of_lt hmono.2 hw
    have ih := ih hw0 hc0
    have hi := fun k => hr.qinv hb hw0 k
    have hsl := fun k => hr.reach.slots k
    obtain ⟨h1, hmem, -, -⟩ := hs
    cases l with
    | start p x =>
      obtain ⟨-, h2, h3⟩ := effect (l := .start p x) h1
      refine ih.other (.out p) [] hmem (by rw [h3]) (by rw [h3]) (fun p' x' i => ?_) (by simp) (by simp)
      rw [h3]
      by_cases e : p' = p
      · subst e; simp [upd_same, h2]
      · simp [upd_other _ _ e]
    | scan p =>
      obtain ⟨⟨x, k, acc, seen, h2⟩, st, h3, h4⟩ := effect (l := .scan p) h1
      have hp : ∀ x i, m.st.prod p ≠ .claimed x n i := by
        intro x i e
        rcases h2 with h2 | ⟨v, h2⟩ <;> rw [h2] at e <;> cases e
      refine ih.other (.out p) _ hmem (by rw [h4]) (by rw [h4]) (fun p' x' i => ?_) (fun o ho => ?_) (fun o ho => ?_)
      · rw [h4]
        by_cases e : p' = p
        · subst e
          simp only [upd_same, hp, iff_false]
          intro e
          rw [e] at h3
          exact h3
        · simp [upd_other _ _ e]
      · obtain ⟨o', rfl⟩ := mem_scanOps ho
        simp
      · refine ⟨by simp [Lbl.who], fun p' e => ?_⟩
        cases e
        exact hp
    | claim p =>
      obtain ⟨x, id, seen, h2, h3⟩ := effect (l := .claim p) h1
      have hops : ops tf m (.claim p) = [.acq (.tail id), .rel (.tail id)] := by simp [ops, claimOps, h2]
      rw [hops] at hmem
      by_cases e : id = n
      · subst e
        refine ih.claim p x hmem (by rw [h3]; simp [upd_same, Q.claim]) (by rw [h3]; simp [upd_same, Q.claim])
          (by rw [h2]; trivial) ?_
        rw [h3, ← (hi id).tail]
      · refine ih.other (.out p) _ hmem (by rw [h3]; simp [upd_other _ _ (Ne.symm e)])
          (by rw [h3]; simp [upd_other _ _ (Ne.symm e)]) (fun p' x' i => ?_) (by simp [e]) (fun o ho => ?_)
        · rw [h3]
          by_cases e' : p' = p
          · subst e'; simp [upd_same, h2, e]
          · simp [upd_other _ _ e']
        · refine ⟨by simp [Lbl.who], fun p' e => ?_⟩
          cases e
          simp [h2]
    | store p =>
      obtain ⟨x, id, i, h2, h3⟩ := effect (l := .store p) h1
      have hops : ops tf m (.store p) = [.acc (.slot id (i % b)) true i] := by simp [ops, storeOps, h2, hsl]
      rw [hops] at hmem
      by_cases e : id = n
      · subst e
        have hlt : i < (m.st.qs id).pushed.length := by
          have := (hi id).pendOk p i x (by simp [pendOf, h2])
          exact (List.getElem?_eq_some_iff.1 this).1
        refine ih.store hr.memOk p x i h2 hlt hmem (by rw [h3]; simp [upd_same]) (by rw [h3]; simp [upd_same])
          (by rw [h3]) fun hcf => hnr ?_
        rw [Race, hops]
        exact .inl ⟨⟨_, _, rfl⟩, hcf⟩
      · refine ih.other (.out p) _ hmem (by rw [h3]; simp [upd_other _ _ (Ne.symm e)])
          (by rw [h3]; simp [upd_other _ _ (Ne.symm e)]) (fun p' x' i => ?_) (by simp [e]) (by simp)
        rw [h3]
        by_cases e' : p' = p
        · subst e'; simp [upd_same, h2, e]
        · simp [upd_other _ _ e']
    | close p =>
      obtain ⟨-, -, h3⟩ := effect (l := .close) h1
      rw [h3] at hc
      cases hc
    | work k e =>
      obtain ⟨q, h2, h8, hne, hq, h3⟩ := effect (l := .work k e) h1
      obtain ⟨-, -, hqp⟩ := Q.work_same hq
      by_cases ek : k = n
      · subst ek
        have hik := hi k
        refine ih.work hr.memOk _ hmem (by rw [h3]; simp [upd_same, hqp]) (by rw [h3]) (fun o ho => ?_) (fun i hlt => ?_) hnr
        · have ho' : o ∈ workOps m k := ho
          refine ⟨?_, ?_, fun o' eo => ?_, fun k' w' i' eo => ?_⟩
          · rcases mem_workOps ho' with h | h | h | h | h | ⟨_, h⟩ | ⟨_, _, h⟩ | ⟨_, h⟩ <;> simp [h]
          · rcases mem_workOps ho' with h | h | h | h | h | ⟨_, h⟩ | ⟨_, _, h⟩ | ⟨_, h⟩ <;> simp [h]
          · subst eo
            rcases mem_workOps ho' with h | h | h | h | h | ⟨_, h⟩ | ⟨_, _, h⟩ | ⟨_, h⟩
            · exfalso
              cases h
              unfold workOps at ho'
              simp only [hc0] at ho'
              split at ho' <;> simp at ho'
            · cases h; exact .inl rfl
            · cases h; exact .inr rfl
            all_goals cases h
          · subst eo
            unfold workOps at ho'
            simp only [hc0, hsl] at ho'
            split at ho' <;> simp at ho'
            · rename_i hpc
              obtain ⟨rfl, rfl, rfl⟩ := ho'
              have := hik.busy (.inl hpc)
              have := hik.tail
              exact ⟨rfl, rfl, by omega⟩
            · rename_i j hpc
              obtain ⟨rfl, rfl, rfl⟩ := ho'
              have := hik.callIdx _ hpc
              have := hik.le
              have := hik.tail
              exact ⟨rfl, rfl, by omega⟩
        · rw [h3] at hlt
          simp only [upd_same] at hlt
          rcases Q.work_handled hq with ⟨hh, -⟩ | ⟨j, v, hpc, -, hh⟩
          · rw [hh] at hlt; exact .inl hlt
          · rw [hh] at hlt
            simp only [List.length_append, List.length_singleton] at hlt
            by_cases e' : i < (m.st.qs k).handled.length
            · exact .inl e'
            · refine .inr ?_
              have h4 := hik.callIdx _ hpc
              have h5 := hik.head
              rw [hpc] at h5
              simp only [Pc.taken] at h5
              have : i = j := by omega
              subst this
              simp [ops, workOps, hpc, hsl]
      · refine ih.other (.worker k) _ hmem (by rw [h3]; simp [upd_other _ _ (Ne.symm ek)])
          (by rw [h3]; simp [upd_other _ _ (Ne.symm ek)]) (fun p' x' i => by rw [h3]) (fun o ho => ?_) (fun o ho => ?_)
        · rcases mem_workOps ho with h | h | h | h | h | ⟨_, h⟩ | ⟨_, _, h⟩ | ⟨_, h⟩ <;> simp [h, ek]
        · exact ⟨by simp [Lbl.who, ek], fun p e => by cases e⟩
    | join p =>
      obtain ⟨⟨k, -, -, hk⟩, -⟩ := h1
      have := ((hi k).ended hk).1
      rw [hc0] at this
      cases this
    | touch t d w => exact ih.other t _ hmem (by rw [h1.2]) (by rw [h1.2]) (by rw [h1.2]; simp) (by simp [ops]) (by simp [ops])
    | rel t u => exact ih.other t _ hmem (by rw [h1.2]) (by rw [h1.2]) (by rw [h1.2]; simp) (by simp [ops]) (by simp [ops])
    | acq t u =>
      refine ih.other t _ hmem (by rw [h1.2]) (by rw [h1.2]) (by rw [h1.2]; simp) (by simp [ops]) fun o ho => ?_
      refine ⟨fun e => hg u (by rw [← e]), fun p e x i => ?_⟩
      have := h1.1
      rw [e] at this
      rw [this.1]
      simp

/-- **C116** (refuted): unless the handler acquires something by itself, a pool that is still open has a data race on the slots
before it has handled everything pushed into a queue: in an execution without such a race the last item pushed into a queue is
never handled before the destructor begins. -/
theorem C116_last_refuted {b size : Nat} (hb : 0 < b) {tf : Bool} {n : Nat} {ls : List (Lbl α)} {m : State α}
    (h : Run b size tf slots (deaf n) ls m) (hw : m.st.pushed.length < 2 ^ 64) (hc : m.st.closed = false)
    (hp : ∀ p x i, m.st.prod p ≠ .claimed x n i) (hne : (m.st.qs n).pushed ≠ []) :
    (m.st.qs n).handled.length < (m.st.qs n).pushed.length := by
  have hd := h.deaf hb hw hc
  have hi := h.qinv hb hw n
  have h1 := hi.head
  have h2 := hi.le
  have h3 := hi.tail
  have h4 := List.length_pos_iff.2 hne
  by_cases hlt : (m.st.qs n).handled.length < (m.st.qs n).pushed.length
  · exact hlt
  · rcases hd.stored ((m.st.qs n).pushed.length - 1) (by omega) with ⟨p, x, hx⟩ | ⟨a, ha, haw, haq, hat⟩
    · exact absurd hx (hp p x _)
    · obtain ⟨r, hr, hrw, hrq, hrt⟩ := hd.handled ((m.st.qs n).pushed.length - 1) (by omega)
      exact absurd (hrt.trans hat.symm) (((hd.writes a ha haw haq).2.2.2 (by omega)).2.2 r hr hrw hrq)

end Verif.Pipeline.Pool.HB
