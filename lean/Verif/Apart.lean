import Verif.HappensBefore
/-! Threads that neither synchronise nor race know nothing of each other, and do not share what one of them writes. -/
namespace Verif.HB
variable {τ ℓ σ : Type} [DecidableEq τ] [DecidableEq σ]

/-- No thread knows of another one, and of two accesses to one place, one of them a write, both are by the same thread. -/
structure Mem.Apart (M : Mem τ ℓ σ) : Prop where
  clk : ∀ t u, u ≠ t → M.clk t u = 0
  pair : ∀ a ∈ M.log, ∀ b ∈ M.log, a.loc = b.loc → a.wr = true ∨ b.wr = true → a.who = b.who
  pos : ∀ a ∈ M.log, 0 < a.time

theorem Mem.Apart.new : (Mem.new : Mem τ ℓ σ).Apart := ⟨fun _ _ _ => rfl, by simp [Mem.new], by simp [Mem.new]⟩

/-- An access that is no race keeps threads apart. -/
theorem Mem.Apart.acc {M : Mem τ ℓ σ} (h : M.Apart) {t : τ} {loc : ℓ} {wr : Bool} {tag : Nat} (hr : ¬ M.Conflict t loc wr) :
    (M.op t (.acc loc wr tag)).Apart := by
  have key : ∀ a ∈ M.log, a.loc = loc → a.wr = true ∨ wr = true → a.who = t := fun a ha h1 h2 =>
    Classical.byContradiction fun e => hr ⟨a, ha, h1, h2, by rw [h.clk t a.who e]; exact h.pos a ha⟩
  refine ⟨fun v u e => ?_, fun a ha b hb h1 h2 => ?_, fun a ha => ?_⟩
  · by_cases e' : v = t
    · subst e'
      simp only [Mem.op, put_same, put_ne _ _ e]
      exact h.clk v u e
    · simp only [Mem.op, put_ne _ _ e']
      exact h.clk v u e
  · simp only [Mem.op, List.mem_cons] at ha hb
    rcases ha with rfl | ha
    · rcases hb with rfl | hb
      · rfl
      · exact (key b hb h1.symm h2.symm).symm
    · rcases hb with rfl | hb
      · exact key a ha h1 h2
      · exact h.pair a ha b hb h1 h2
  · simp only [Mem.op, List.mem_cons] at ha
    rcases ha with rfl | ha
    · simp
    · exact h.pos a ha

/-- The same for several accesses. -/
theorem Mem.Apart.run {t : τ} : ∀ (os : List (Op ℓ σ)) {M : Mem τ ℓ σ}, M.Apart → (∀ o ∈ os, ∃ loc wr tag, o = .acc loc wr tag) →
    ¬ M.Races (fun _ => True) t os → (M.run t os).Apart
  | [], _, h, _, _ => h
  | o :: os, M, h, ho, hr => by
    obtain ⟨loc, wr, tag, rfl⟩ := ho o List.mem_cons_self
    simp only [Mem.Races, true_and, not_or] at hr
    exact Mem.Apart.run os (h.acc hr.1) (fun o h => ho o (List.mem_cons_of_mem _ h)) hr.2

end Verif.HB
