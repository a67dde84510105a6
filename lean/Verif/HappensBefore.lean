import Verif.Basic
/-!
Happens-before and data races as the C++ standard defines them, for threads that use sequentially consistent atomics
(the only kind in `/repo`): a vector clock for each thread and each synchronisation object, and the list of all accesses
to ordinary memory.  Two accesses to the same place, at least one of them a write, that are not ordered by
happens-before are a data race, no matter how far apart they are in the interleaving.

A synchronisation object is an atomic or a mutex.  Whoever reads an atomic (or locks the mutex) acquires it; a
read-modify-write operation (or an unlock) releases it, and whoever acquires it later comes after all these releases; an
atomic store also releases it, but cuts off the releases before: who reads the stored value does not come after them.
(`queue_.tail` and `closed_` of pipeline_stage.hpp:37-42, 97-98; `keep_running_` of interval_event.hpp:131.)
-/
namespace Verif.HB

/-- An access to ordinary memory: the thread, the number of this access in the thread, the place, whether it writes, and
a number that only records (what the access was made for). -/
structure Access (τ ℓ : Type) where
  who : τ
  time : Nat
  loc : ℓ
  wr : Bool
  tag : Nat
  deriving DecidableEq

/-- `clk t u`: how many accesses of thread `u` happen before what thread `t` does next; `sync o u`: how many happen before
what a thread does that acquires `o`; `log`: all accesses, the newest first. -/
structure Mem (τ ℓ σ : Type) where
  clk : τ → τ → Nat
  sync : σ → τ → Nat
  log : List (Access τ ℓ)

/-- What a thread does to memory: it acquires an object, releases it by a read-modify-write operation or by a store, or
accesses a place. -/
inductive Op (ℓ σ : Type) where
  | acq (o : σ)
  | rel (o : σ)
  | sto (o : σ)
  | acc (loc : ℓ) (wr : Bool) (tag : Nat)

variable {τ ℓ σ : Type} [DecidableEq τ] [DecidableEq σ]

/-- Nothing has happened. -/
def Mem.new : Mem τ ℓ σ := ⟨fun _ _ => 0, fun _ _ => 0, []⟩

/-- A function changed in one place. -/
def put {ι β : Type} [DecidableEq ι] (f : ι → β) (i : ι) (v : β) : ι → β := fun j => if j = i then v else f j

/-- The effect of an operation of thread `t`. -/
def Mem.op (m : Mem τ ℓ σ) (t : τ) : Op ℓ σ → Mem τ ℓ σ
  | .acq o => { m with clk := put m.clk t fun u => max (m.clk t u) (m.sync o u) }
  | .rel o => { m with sync := put m.sync o fun u => max (m.sync o u) (m.clk t u) }
  | .sto o => { m with sync := put m.sync o (m.clk t) }
  | .acc loc wr tag =>
    { m with
      clk := put m.clk t (put (m.clk t) t (m.clk t t + 1))
      log := ⟨t, m.clk t t + 1, loc, wr, tag⟩ :: m.log }

/-- Thread `t` does several things in order. -/
def Mem.run (m : Mem τ ℓ σ) (t : τ) : List (Op ℓ σ) → Mem τ ℓ σ
  | [] => m
  | o :: os => (m.op t o).run t os

/-- An access by `t` would race with an access made before: same place, one of the two writes, and the earlier one does
not happen before the later one. -/
def Mem.Conflict (m : Mem τ ℓ σ) (t : τ) (loc : ℓ) (wr : Bool) : Prop :=
  ∃ a ∈ m.log, a.loc = loc ∧ (a.wr = true ∨ wr = true) ∧ m.clk t a.who < a.time

/-- Some access among these operations of `t`, to a place in `R`, races. -/
def Mem.Races (R : ℓ → Prop) (m : Mem τ ℓ σ) (t : τ) : List (Op ℓ σ) → Prop
  | [] => False
  | .acc loc wr tag :: os => (R loc ∧ m.Conflict t loc wr) ∨ (m.op t (.acc loc wr tag)).Races R t os
  | .acq o :: os => (m.op t (.acq o)).Races R t os
  | .rel o :: os => (m.op t (.rel o)).Races R t os
  | .sto o :: os => (m.op t (.sto o)).Races R t os

@[simp] theorem put_same {ι β : Type} [DecidableEq ι] (f : ι → β) (i : ι) (v : β) : put f i v i = v := if_pos rfl
theorem put_ne {ι β : Type} [DecidableEq ι] (f : ι → β) {i j : ι} (v : β) (h : j ≠ i) : put f i v j = f j := if_neg h

/-- Nobody knows of more accesses of a thread than it has made. -/
structure Mem.Ok (m : Mem τ ℓ σ) : Prop where
  clk : ∀ t u, m.clk t u ≤ m.clk u u
  sync : ∀ o u, m.sync o u ≤ m.clk u u
  log : ∀ a ∈ m.log, a.time ≤ m.clk a.who a.who
  pos : ∀ a ∈ m.log, 0 < a.time

theorem Mem.Ok.new : (Mem.new : Mem τ ℓ σ).Ok := by
  constructor <;> simp [Mem.new]

/-- What a thread knows only grows. -/
theorem Mem.op_clk_le (m : Mem τ ℓ σ) (t : τ) (o : Op ℓ σ) (v u : τ) : m.clk v u ≤ (m.op t o).clk v u := by
  cases o with
  | acq o =>
    by_cases h : v = t
    · subst h; simp only [Mem.op, put_same]; omega
    · simp only [Mem.op, put_ne _ _ h]; omega
  | rel o => exact Nat.le_refl _
  | sto o => exact Nat.le_refl _
  | acc loc wr tag =>
    by_cases h : v = t
    · subst h
      simp only [Mem.op, put_same]
      by_cases hu : u = v
      · subst hu; simp
      · rw [put_ne _ _ hu]; exact Nat.le_refl _
    · simp only [Mem.op, put_ne _ _ h]; omega

theorem Mem.op_sync_le (m : Mem τ ℓ σ) (t : τ) (o : Op ℓ σ) (v : σ) (u : τ) (ho : o ≠ .sto v) :
    m.sync v u ≤ (m.op t o).sync v u := by
  cases o with
  | acq o => exact Nat.le_refl _
  | rel o =>
    by_cases h : v = o
    · subst h; simp only [Mem.op, put_same]; omega
    · simp only [Mem.op, put_ne _ _ h]; omega
  | sto o =>
    have h : v ≠ o := fun e => ho (by rw [e])
    simp only [Mem.op, put_ne _ _ h]; omega
  | acc loc wr tag => exact Nat.le_refl _

theorem Mem.Ok.op {m : Mem τ ℓ σ} (h : m.Ok) (t : τ) (o : Op ℓ σ) : (m.op t o).Ok := by
  have hle := fun u => m.op_clk_le t o u u
  cases o with
  | acq o =>
    refine ⟨fun v u => ?_, fun v u => Nat.le_trans (h.sync v u) (hle u), fun a ha => Nat.le_trans (h.log a ha) (hle _),
      h.pos⟩
    refine Nat.le_trans ?_ (hle u)
    have h1 := h.clk v u
    have h2 := h.sync o u
    by_cases hv : v = t
    · subst hv; simp only [Mem.op, put_same]; omega
    · simp only [Mem.op, put_ne _ _ hv]; omega
  | rel o =>
    refine ⟨h.clk, fun v u => ?_, h.log, h.pos⟩
    have h1 := h.clk t u
    have h2 := h.sync v u
    by_cases hv : v = o
    · subst hv; simp only [Mem.op, put_same]; omega
    · simp only [Mem.op, put_ne _ _ hv]; omega
  | sto o =>
    refine ⟨h.clk, fun v u => ?_, h.log, h.pos⟩
    by_cases hv : v = o
    · subst hv; simp only [Mem.op, put_same]; exact h.clk t u
    · simp only [Mem.op, put_ne _ _ hv]; exact h.sync v u
  | acc loc wr tag =>
    refine ⟨fun v u => ?_, fun v u => Nat.le_trans (h.sync v u) (hle u), fun a ha => ?_, fun a ha => ?_⟩
    · by_cases hv : v = t
      · subst hv
        by_cases hu : u = v
        · subst hu; exact Nat.le_refl _
        · refine Nat.le_trans ?_ (hle u)
          simp only [Mem.op, put_same, put_ne _ _ hu]
          exact h.clk v u
      · refine Nat.le_trans ?_ (hle u)
        simp only [Mem.op, put_ne _ _ hv]
        exact h.clk v u
    · simp only [Mem.op, List.mem_cons] at ha
      rcases ha with rfl | ha
      · simp [Mem.op]
      · exact Nat.le_trans (h.log a ha) (hle _)
    · simp only [Mem.op, List.mem_cons] at ha
      rcases ha with rfl | ha
      · simp
      · exact h.pos a ha

theorem Mem.Ok.run {m : Mem τ ℓ σ} (h : m.Ok) (t : τ) (os : List (Op ℓ σ)) : (m.run t os).Ok := by
  induction os generalizing m with
  | nil => exact h
  | cons o os ih => exact ih (h.op t o)

/-- Whoever comes after access `n` of `u` also comes after the first `k` accesses of `w`. -/
structure Mem.Carries (m : Mem τ ℓ σ) (u : τ) (n : Nat) (w : τ) (k : Nat) : Prop where
  clk : ∀ t, n ≤ m.clk t u → k ≤ m.clk t w
  sync : ∀ o, n ≤ m.sync o u → k ≤ m.sync o w

theorem Mem.Carries.op {m : Mem τ ℓ σ} {u w : τ} {n k : Nat} (h : m.Carries u n w k) (hn : n ≤ m.clk u u) (t : τ)
    (o : Op ℓ σ) : (m.op t o).Carries u n w k := by
  cases o with
  | acq o =>
    refine ⟨fun v hv => ?_, h.sync⟩
    by_cases e : v = t
    · subst e
      simp only [Mem.op, put_same] at hv ⊢
      have h1 := h.clk v
      have h2 := h.sync o
      omega
    · simp only [Mem.op, put_ne _ _ e] at hv ⊢
      exact h.clk v hv
  | rel o =>
    refine ⟨h.clk, fun v hv => ?_⟩
    by_cases e : v = o
    · subst e
      simp only [Mem.op, put_same] at hv ⊢
      have h1 := h.clk t
      have h2 := h.sync v
      omega
    · simp only [Mem.op, put_ne _ _ e] at hv ⊢
      exact h.sync v hv
  | sto o =>
    refine ⟨h.clk, fun v hv => ?_⟩
    by_cases e : v = o
    · subst e
      simp only [Mem.op, put_same] at hv ⊢
      exact h.clk t hv
    · simp only [Mem.op, put_ne _ _ e] at hv ⊢
      exact h.sync v hv
  | acc l wr i =>
    refine ⟨fun v hv => ?_, h.sync⟩
    refine Nat.le_trans (h.clk v ?_) (m.op_clk_le t _ v w)
    by_cases e : v = t
    · subst e
      simp only [Mem.op, put_same] at hv
      by_cases e' : u = v
      · subst e'; exact hn
      · rwa [put_ne _ _ e'] at hv
    · simpa only [Mem.op, put_ne _ _ e] using hv

theorem Mem.Carries.run {m : Mem τ ℓ σ} {u w : τ} {n k : Nat} (h : m.Carries u n w k) (hn : n ≤ m.clk u u) (t : τ)
    (os : List (Op ℓ σ)) : (m.run t os).Carries u n w k := by
  induction os generalizing m with
  | nil => exact h
  | cons o os ih => exact ih (h.op hn t o) (Nat.le_trans hn (m.op_clk_le t o u u))

theorem Mem.clk_run (m : Mem τ ℓ σ) (t v u : τ) (os : List (Op ℓ σ)) : m.clk v u ≤ (m.run t os).clk v u := by
  induction os generalizing m with
  | nil => exact Nat.le_refl _
  | cons o os ih => exact Nat.le_trans (m.op_clk_le t o v u) (ih _)

/-- What a thread does changes only what this thread knows. -/
theorem Mem.clk_other (m : Mem τ ℓ σ) {t v : τ} (h : v ≠ t) (os : List (Op ℓ σ)) : (m.run t os).clk v = m.clk v := by
  induction os generalizing m with
  | nil => rfl
  | cons o os ih =>
    rw [Mem.run, ih]
    cases o <;> simp [Mem.op, put_ne _ _ h]

/-- An object that is not released keeps what it carries. -/
theorem Mem.sync_other (m : Mem τ ℓ σ) (t : τ) (o : σ) (os : List (Op ℓ σ))
    (h : ∀ x ∈ os, x ≠ .rel o ∧ x ≠ .sto o) : (m.run t os).sync o = m.sync o := by
  induction os generalizing m with
  | nil => rfl
  | cons x os ih =>
    rw [Mem.run, ih _ fun y hy => h y (List.mem_cons_of_mem _ hy)]
    have hx := h x List.mem_cons_self
    cases x with
    | rel v =>
      have : o ≠ v := fun e => hx.1 (by rw [e])
      simp only [Mem.op, put_ne _ _ this]
    | sto v =>
      have : o ≠ v := fun e => hx.2 (by rw [e])
      simp only [Mem.op, put_ne _ _ this]
    | _ => rfl

/-- Accesses are never forgotten. -/
theorem Mem.log_mono (m : Mem τ ℓ σ) (t : τ) (os : List (Op ℓ σ)) : ∀ a ∈ m.log, a ∈ (m.run t os).log := by
  induction os generalizing m with
  | nil => exact fun a ha => ha
  | cons o os ih =>
    intro a ha
    refine ih _ a ?_
    cases o with
    | acc l w i => exact List.mem_cons_of_mem _ ha
    | _ => exact ha

/-- `Mem.Races`, computed. -/
def Mem.racesB [DecidableEq ℓ] (R : ℓ → Bool) (m : Mem τ ℓ σ) (t : τ) : List (Op ℓ σ) → Bool
  | [] => false
  | .acc loc wr tag :: os =>
    (R loc && m.log.any fun a => a.loc = loc && (a.wr || wr) && m.clk t a.who < a.time) ||
      (m.op t (.acc loc wr tag)).racesB R t os
  | .acq o :: os => (m.op t (.acq o)).racesB R t os
  | .rel o :: os => (m.op t (.rel o)).racesB R t os
  | .sto o :: os => (m.op t (.sto o)).racesB R t os

theorem Mem.racesB_iff [DecidableEq ℓ] (R : ℓ → Bool) (t : τ) : ∀ (os : List (Op ℓ σ)) (m : Mem τ ℓ σ),
    m.racesB R t os = true ↔ m.Races (fun l => R l = true) t os
  | [], m => by simp [racesB, Mem.Races]
  | .acc loc wr tag :: os, m => by
    simp only [racesB, Mem.Races, Bool.or_eq_true, Bool.and_eq_true, List.any_eq_true, racesB_iff R t os, Mem.Conflict,
      decide_eq_true_eq, and_assoc]
  | .acq o :: os, m => by simp only [racesB, Mem.Races, racesB_iff R t os]
  | .rel o :: os, m => by simp only [racesB, Mem.Races, racesB_iff R t os]
  | .sto o :: os, m => by simp only [racesB, Mem.Races, racesB_iff R t os]

/-- Fewer places, fewer races. -/
theorem Mem.Races.mono {R R' : ℓ → Prop} (hR : ∀ l, R' l → R l) (t : τ) : ∀ (os : List (Op ℓ σ)) (m : Mem τ ℓ σ),
    m.Races R' t os → m.Races R t os
  | [], _, h => h
  | .acc _ _ _ :: os, m, h => h.imp (fun h => ⟨hR _ h.1, h.2⟩) fun h => Mem.Races.mono hR t os _ h
  | .acq _ :: os, m, h => Mem.Races.mono hR t os _ h
  | .rel _ :: os, m, h => Mem.Races.mono hR t os _ h
  | .sto _ :: os, m, h => Mem.Races.mono hR t os _ h

end Verif.HB
