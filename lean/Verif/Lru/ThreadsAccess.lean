import Verif.Lru.Threads
/-!
The record of accesses of the model of threads in the cache tells the truth: a step that changes a container records a write of
it, and what a step does depends only on the containers that it records.
-/
namespace Verif.Lru.Conc
open Verif Verif.HB

variable {K V : Type} [DecidableEq K]

/-- The two agree in the container (lru.hpp:90-91). -/
def SameAt (c c' : Cache K V) : Loc → Prop
  | .list => c.list = c'.list
  | .map => c.map = c'.map

omit [DecidableEq K] in
theorem same_self (c : Cache K V) (loc : Loc) : SameAt c c loc := by cases loc <;> rfl

theorem writes_body {p : Par} {c c' : Cache K V} {now : Int} {call : Call K V} {pc pc' : Pc K V}
    (h : body p c now call pc = some (c', pc')) {loc : Loc} (hn : ¬ SameAt c c' loc) : .acc loc true 0 ∈ pc.ops p.mtx := by
  have same : c' ≠ c := fun e => hn (e ▸ same_self c loc)
  unfold body at h
  split at h
  · simp only [Option.some.injEq, Prod.mk.injEq] at h
    exact absurd h.1.symm same
  · split at h
    all_goals
      simp only [Option.some.injEq, Prod.mk.injEq] at h
      exact absurd h.1.symm same
  · simp only [Option.some.injEq, Prod.mk.injEq] at h
    obtain ⟨rfl, _⟩ := h
    cases loc with
    | list => simp [Pc.ops]
    | map => exact absurd rfl hn
  · simp only [Option.some.injEq, Prod.mk.injEq] at h
    exact absurd h.1.symm same
  · split at h
    · cases h
    · simp only [Option.some.injEq, Prod.mk.injEq] at h
      obtain ⟨rfl, _⟩ := h
      cases loc with
      | list => simp [Pc.ops]
      | map => exact absurd rfl hn
  · simp only [Option.some.injEq, Prod.mk.injEq] at h
    exact absurd h.1.symm same
  · simp only [Option.some.injEq, Prod.mk.injEq] at h
    obtain ⟨rfl, _⟩ := h
    cases loc with
    | list => simp [Pc.ops]
    | map => exact absurd rfl hn
  · simp only [Option.some.injEq, Prod.mk.injEq] at h
    obtain ⟨rfl, _⟩ := h
    cases loc with
    | list => exact absurd rfl hn
    | map => simp [Pc.ops]
  · simp only [Option.some.injEq, Prod.mk.injEq] at h
    exact absurd h.1.symm same
  · split at h
    · simp only [Option.some.injEq, Prod.mk.injEq] at h
      exact absurd h.1.symm same
    · cases h
  · split at h
    · simp only [Option.some.injEq, Prod.mk.injEq] at h
      exact absurd h.1.symm same
    · cases h
  · cases h

/-- **C131.** A step records the accesses that it makes, and a container that changes in a step is among those that it writes. -/
theorem C131_accesses {p : Par} {m m' : State K V} {l : Lbl K V} (hs : step p m l = some m') :
    m'.mem = m.mem.run l.who (ops p m l) ∧ ∀ loc, ¬ SameAt m.cache m'.cache loc → .acc loc true 0 ∈ ops p m l := by
  have same : m'.cache = m.cache → ∀ loc, ¬ SameAt m.cache m'.cache loc → HB.Op.acc loc true 0 ∈ ops p m l :=
    fun h loc hn => absurd (h ▸ same_self _ loc) hn
  cases l with
  | call t c =>
    simp only [step] at hs
    split at hs
    · cases hs
    · cases hs
      exact ⟨rfl, same rfl⟩
  | act t now =>
    simp only [step, Option.bind_eq_some_iff] at hs
    obtain ⟨f, hf, hs⟩ := hs
    have ho : ops p m (.act t now) = f.pc.ops p.mtx := by simp only [ops, hf]
    unfold act at hs
    dsimp only at hs
    split at hs
    · split at hs
      · cases hs
      · cases hs
        exact ⟨by rw [ho]; rfl, same rfl⟩
    · cases hs
      exact ⟨by rw [ho]; rfl, same rfl⟩
    · simp only [Option.map_eq_some_iff] at hs
      obtain ⟨⟨c', q⟩, h1, rfl⟩ := hs
      exact ⟨by rw [ho]; rfl, fun loc hn => by rw [ho]; exact writes_body h1 hn⟩
  | rel t n =>
    simp only [step] at hs
    split at hs
    · cases hs
    · cases hs
      exact ⟨rfl, same rfl⟩
  | acq t n =>
    simp only [step] at hs
    split at hs
    · cases hs
    · cases hs
      exact ⟨rfl, same rfl⟩

/-- **C131.** What a step writes, and what a call does next, depend only on the containers that the step records as accesses. -/
theorem C131_depends {p : Par} {c c' c1 : Cache K V} {now : Int} {call : Call K V} {pc pc' : Pc K V}
    (h : body p c now call pc = some (c', pc')) (ha : ∀ loc wr, .acc loc wr 0 ∈ pc.ops p.mtx → SameAt c c1 loc) :
    ∃ c1', body p c1 now call pc = some (c1', pc') ∧ ∀ loc, .acc loc true 0 ∈ pc.ops p.mtx → SameAt c' c1' loc := by
  have hl : ∀ wr, .acc .list wr 0 ∈ pc.ops p.mtx → c.list = c1.list := fun wr => ha .list wr
  have hm : ∀ wr, .acc .map wr 0 ∈ pc.ops p.mtx → c.map = c1.map := fun wr => ha .map wr
  unfold body at h
  split at h <;> simp [Pc.ops] at hl hm
  · simp only [Option.some.injEq, Prod.mk.injEq] at h
    exact ⟨c1, by simp only [body, Cache.contains, ← hm]; rw [← h.2]; rfl, by simp [Pc.ops]⟩
  · split at h
    all_goals
      rename_i hx
      simp only [Option.some.injEq, Prod.mk.injEq] at h
      exact ⟨c1, by simp only [body, ← hl, hx, h.2], by simp [Pc.ops]⟩
  · simp only [Option.some.injEq, Prod.mk.injEq] at h
    obtain ⟨rfl, rfl⟩ := h
    exact ⟨_, rfl, by simp [Pc.ops, SameAt, hl]⟩
  · simp only [Option.some.injEq, Prod.mk.injEq] at h
    exact ⟨c1, by simp only [body, ← hl, h.2], by simp [Pc.ops]⟩
  · split at h
    · cases h
    · rename_i hx
      simp only [Option.some.injEq, Prod.mk.injEq] at h
      obtain ⟨rfl, rfl⟩ := h
      exact ⟨_, by simp only [body, ← hl]; rw [if_neg hx], by simp [Pc.ops, SameAt]⟩
  · simp only [Option.some.injEq, Prod.mk.injEq] at h
    obtain ⟨rfl, rfl⟩ := h
    exact ⟨c1, rfl, by simp [Pc.ops]⟩
  · simp only [Option.some.injEq, Prod.mk.injEq] at h
    obtain ⟨rfl, rfl⟩ := h
    exact ⟨_, rfl, by simp [Pc.ops, SameAt, hl]⟩
  · simp only [Option.some.injEq, Prod.mk.injEq] at h
    obtain ⟨rfl, rfl⟩ := h
    exact ⟨_, rfl, by simp [Pc.ops, SameAt, hm]⟩
  · simp only [Option.some.injEq, Prod.mk.injEq] at h
    exact ⟨c1, by simp only [body, Cache.contains, ← hm]; rw [← h.2]; rfl, by simp [Pc.ops]⟩
  · split at h
    · rename_i hx
      simp only [Option.some.injEq, Prod.mk.injEq] at h
      obtain ⟨rfl, rfl⟩ := h
      exact ⟨c1, by simp only [body, ← hm, hx], by simp [Pc.ops, SameAt, hm]⟩
    · cases h
  · split at h
    · rename_i hx
      simp only [Option.some.injEq, Prod.mk.injEq] at h
      exact ⟨c1, by simp only [body, if_pos hx, h.2], by simp [Pc.ops]⟩
    · cases h
  · cases h

/-- Moving an item to the front of the list. -/
example (x : Item Nat Nat) : body ⟨true, 3, false, 10⟩ ⟨[], []⟩ 5 (.put x.key x.value) (.front x) = some (⟨[x], []⟩, .store x) ∧
    ¬ SameAt (⟨[], []⟩ : Cache Nat Nat) ⟨[x], []⟩ .list ∧ .acc .list true 0 ∈ (Pc.front x).ops true := by
  simp [body, SameAt, Pc.ops]

/-- **C131, users are free.** The model keeps no thread that is in no call from anything: it can begin any call and synchronise with
others. -/
theorem C131_users {p : Par} {m : State K V} {t : Nat} (h : m.pc t = none) :
    (∀ c, ∃ m', step p m (.call t c) = some m' ∧ m'.cache = m.cache) ∧ (∀ n, ∃ m', step p m (.rel t n) = some m') ∧
    ∀ n, ∃ m', step p m (.acq t n) = some m' := by
  simp only [step, h, Option.isSome_none, Bool.false_eq_true, if_false]
  exact ⟨fun c => ⟨_, rfl, rfl⟩, fun n => ⟨_, rfl⟩, fun n => ⟨_, rfl⟩⟩

end Verif.Lru.Conc
