import Verif.Values.VisibleProps
/-! `values::observable` used by several threads: executions that refute C111 and C113 and parts of C112, and executions
that meet the hypotheses of the theorems. -/
namespace Verif.Values.HB
open Verif Verif.HB Verif.Values

/-- Steps in order, the first one first. -/
def runs (T : IntTy) : State → List Lbl → Option State
  | m, [] => some m
  | m, l :: ls =>
    match step T m l with
    | some m' => runs T m' ls
    | none => none

theorem runs_run {T : IntTy} {i : State} : ∀ {ls : List Lbl} {m m' : State} {ls0 : List Lbl}, Run T i anyLbl ls0 m →
    runs T m ls = some m' → Run T i anyLbl (ls.reverse ++ ls0) m'
  | [], m, m', ls0, h0, h => by cases h; exact h0
  | l :: ls, m, m', ls0, h0, h => by
    simp only [runs] at h
    split at h
    · next m1 hs =>
      have := runs_run (ls := ls) (.step _ _ _ l h0 trivial hs) h
      simpa using this
    · cases h

/-- All steps satisfy `G`. -/
theorem runs_guard {T : IntTy} {i : State} {G : State → Lbl → Prop} :
    ∀ {ls : List Lbl} {m m' : State} {ls0 : List Lbl}, Run T i G ls0 m → runs T m ls = some m' →
    (∀ pre l post m1, ls = pre ++ l :: post → runs T m pre = some m1 → G m1 l) → Run T i G (ls.reverse ++ ls0) m'
  | [], m, m', ls0, h0, h, _ => by cases h; exact h0
  | l :: ls, m, m', ls0, h0, h, hg => by
    simp only [runs] at h
    split at h
    · next m1 hs =>
      have := runs_guard (ls := ls) (.step _ _ _ l h0 (hg [] l ls m rfl rfl) hs) h (by
        intro pre x post m2 he hr
        refine hg (l :: pre) x post m2 (by rw [he]; rfl) ?_
        simp only [runs, hs]
        exact hr)
      simpa using this
    · cases h

/-- Two places, observer 7 registered, with a function or without. -/
def demo (f : Bool) : State := State.start ⟨0, .fixed [some 7, none] 1, fun _ => 0, fun _ => f, []⟩

/-- Whether a step races on memory of the library's, or on data `n`, computed. -/
def libB : Loc → Bool
  | .data _ => false
  | _ => true
def raceB (R : Loc → Bool) (m : State) (l : Lbl) : Bool := m.mem.racesB R l.who (ops m l)

theorem raceB_lib {m : State} {l : Lbl} : raceB libB m l = true ↔ Race lib m l := by
  rw [raceB, Mem.racesB_iff, Race]
  have : (fun l => libB l = true) = lib := by funext x; cases x <;> simp [libB, lib]
  rw [this]

theorem raceB_data {m : State} {l : Lbl} {n : Nat} :
    raceB (fun x => x = .data n) m l = true ↔ Race (fun x => x = .data n) m l := by
  rw [raceB, Mem.racesB_iff, Race]
  simp

/-- **C111 is false**: thread 0 assigns 1 and has read the number of observers; thread 1 sees the new value and adds
observer 8: a data race. -/
theorem C111_refuted : ∃ ls m, Run .int (demo false) anyLbl ls m ∧ m.st.value = 1 ∧
    (∃ m', step .int m (.config 1 (.add 8)) = some m') ∧ Race lib m (.config 1 (.add 8)) := by
  have h : ∃ m, runs .int (demo false) [.begin 0 (.assign 1), .enter 0, .value 1] = some m ∧ m.st.value = 1 ∧
      (step .int m (.config 1 (.add 8))).isSome = true ∧ raceB libB m (.config 1 (.add 8)) = true := ⟨_, rfl, rfl, rfl, rfl⟩
  obtain ⟨m, h1, h2, h3, h4⟩ := h
  exact ⟨_, m, runs_run .start h1, h2, Option.isSome_iff_exists.1 h3, raceB_lib.1 h4⟩

/-- **Not in C112**: who reads `value()` comes after the update that it sees, but not after the earlier ones.  Thread 0
writes data and adds 1; thread 1 assigns 5; thread 2 reads 5 and then the data: a data race. -/
theorem C112_earlier_refuted : ∃ ls m, Run .int (demo false) anyLbl ls m ∧ ls.head? = some (.value 2) ∧ m.st.value = 5 ∧
    .begin 0 (.addEq 1) ∈ ls ∧ Race (fun x => x = .data 0) m (.touch 2 0 false) := by
  have h : ∃ m, runs .int (demo false) [.touch 0 0 true, .begin 0 (.addEq 1), .begin 1 (.assign 5), .value 2] = some m ∧
      m.st.value = 5 ∧ raceB (fun x => x = .data 0) m (.touch 2 0 false) = true := ⟨_, rfl, rfl, rfl⟩
  obtain ⟨m, h1, h2, h3⟩ := h
  exact ⟨_, m, runs_run .start h1, rfl, h2, by decide, raceB_data.1 h3⟩

/-- **C113 is false**: threads 0 and 1 update and are both in the function of observer 7; what it writes is written by
both: a data race. -/
theorem C113_refuted : ∃ ls m v w, Run .int (demo true) anyLbl ls m ∧ m.pc 0 = [⟨v, .call 0 1⟩] ∧
    m.pc 1 = [⟨w, .call 0 1⟩] ∧ slotAt m.st.reg 0 = some 7 ∧ Race (fun x => x = .data 0) m (.touch 1 0 true) := by
  have h : ∃ m, runs .int (demo true) [.begin 0 (.addEq 1), .begin 1 (.addEq 1), .enter 0, .enter 1, .deliver 0 7,
      .deliver 1 7, .touch 0 0 true] = some m ∧ m.pc 0 = [⟨1, .call 0 1⟩] ∧ m.pc 1 = [⟨2, .call 0 1⟩] ∧
      slotAt m.st.reg 0 = some 7 ∧ raceB (fun x => x = .data 0) m (.touch 1 0 true) = true := ⟨_, rfl, rfl, rfl, rfl, rfl⟩
  obtain ⟨m, h1, h2, h3, h4, h5⟩ := h
  exact ⟨_, m, 1, 2, runs_run .start h1, h2, h3, h4, raceB_data.1 h5⟩

/-- An execution for C110: two threads update and a third one reads, all at the same time. -/
example : ∃ ls m m', Run .int (demo true) noConfig ls m ∧ Settled (demo true) ∧ step .int m (.deliver 1 7) = some m' ∧
    m.st.held 7 = 1 ∧ m'.st.held 7 = 3 := by
  have h : ∃ m m', runs .int (demo true) [.begin 0 (.assign 1), .enter 0, .begin 1 (.addEq 2), .value 2, .deliver 0 7,
      .enter 1, .held 2 7] = some m ∧ step .int m (.deliver 1 7) = some m' ∧ m.st.held 7 = 1 ∧ m'.st.held 7 = 3 :=
    ⟨_, _, rfl, rfl, rfl, rfl⟩
  obtain ⟨m, m', h1, h2, h3, h4⟩ := h
  refine ⟨_, m, m', runs_guard (G := noConfig) .start h1 ?_,
    Settled.start _, h2, h3, h4⟩
  intro pre l post m1 he _
  have hl : l ∈ pre ++ l :: post := by simp
  rw [← he] at hl
  simp only [List.mem_cons, List.not_mem_nil, or_false] at hl
  rcases hl with rfl | rfl | rfl | rfl | rfl | rfl | rfl <;> trivial

/-- Steps for `C111_registration_races`: after `enter` of thread 0, thread 1 only touches data, and `add_observer` of
observer 8 returns `ok`. -/
example : ∃ ls m0 m1 m, Run .int (demo false) anyLbl ls m0 ∧ step .int m0 (.enter 0) = some m1 ∧
    Run .int m1 (fun _ l => l.who = 1 → ¬ l.acquires) [.touch 1 0 true] m ∧
    Apart (fun _ l => l.who = 1 → ¬ l.acquires) 0 1 ∧ Changes .int m.st (.add 8) := by
  have h : ∃ m0 m1 m, runs .int (demo false) [.begin 0 (.assign 1)] = some m0 ∧ step .int m0 (.enter 0) = some m1 ∧
      step .int m1 (.touch 1 0 true) = some m ∧ ∃ s', exec .int m.st (.add 8) = .ok (s', .err .ok) :=
    ⟨_, _, _, rfl, rfl, rfl, _, rfl⟩
  obtain ⟨m0, m1, m, h1, h2, h3, s', h4⟩ := h
  exact ⟨_, m0, m1, m, runs_run .start h1, h2, .step _ _ _ _ .start (fun _ h => h) h3, .inl fun _ _ h e => h e,
    .inr (.inl ⟨8, s', rfl, h4⟩)⟩

/-- An execution for C112: thread 0 writes data and adds 1, thread 1 adds 2, thread 2 reads 3 and then the data, which is
not a data race; the observer shows 1 to it. -/
example : ∃ ls m0 m1 m m', Run .int (demo false) anyLbl ls m0 ∧ step .int m0 (.begin 0 (.addEq 1)) = some m1 ∧
    Run .int m1 noAssign [.deliver 0 7, .enter 0, .begin 1 (.addEq 2)] m ∧ step .int m (.value 2) = some m' ∧
    m.st.value = 3 ∧ m.st.held 7 = 1 ∧ m0.mem.log ≠ [] ∧ (since m.updates).length = 2 ∧
    (∃ m'', step .int m (.held 2 7) = some m'') ∧ ¬ Race (fun x => x = .data 0) m' (.touch 2 0 false) := by
  have h : ∃ m0 m1 ma mb m m' m'', runs .int (demo false) [.touch 0 0 true] = some m0 ∧
      step .int m0 (.begin 0 (.addEq 1)) = some m1 ∧ step .int m1 (.begin 1 (.addEq 2)) = some ma ∧
      step .int ma (.enter 0) = some mb ∧ step .int mb (.deliver 0 7) = some m ∧ step .int m (.value 2) = some m' ∧
      m.st.value = 3 ∧ m.st.held 7 = 1 ∧ m0.mem.log.length = 1 ∧ (since m.updates).length = 2 ∧
      step .int m (.held 2 7) = some m'' ∧ raceB (fun x => x = .data 0) m' (.touch 2 0 false) = false :=
    ⟨_, _, _, _, _, _, _, rfl, rfl, rfl, rfl, rfl, rfl, rfl, rfl, rfl, rfl, rfl, rfl⟩
  obtain ⟨m0, m1, ma, mb, m, m', m'', h1, h2, h3, h4, h5, h6, h7, h8, h9, h10, h11, h12⟩ := h
  refine ⟨_, m0, m1, m, m', runs_run .start h1, h2, .step _ _ _ _ (.step _ _ _ _ (.step _ _ _ _ .start trivial h3) trivial h4)
    trivial h5, h6, h7, h8, ?_, h10, ⟨m'', h11⟩, ?_⟩
  · intro e; rw [e] at h9; cases h9
  · rw [← raceB_data, h12]; simp

/-- An execution for C113: thread 0 updates and touches data in the function, thread 1 only reads values. -/
example : ∃ ls m m', Run .int (demo true) (fun m l => oneThread 0 m l ∧ inside 5 m l) ls m ∧ (m.pc 0).length = 1 ∧
    step .int m (.touch 0 5 true) = some m' ∧ inside 5 m (.touch 0 5 true) := by
  have h : ∃ ma mb mc m m', step .int (demo true) (.begin 0 (.assign 1)) = some ma ∧ step .int ma (.value 1) = some mb ∧
      step .int mb (.enter 0) = some mc ∧ step .int mc (.deliver 0 7) = some m ∧ (m.pc 0).length = 1 ∧
      step .int m (.touch 0 5 true) = some m' := ⟨_, _, _, _, _, rfl, rfl, rfl, rfl, rfl, rfl⟩
  obtain ⟨ma, mb, mc, m, m', h1, h2, h3, h4, h5, h6⟩ := h
  refine ⟨_, m, m', .step _ _ _ (.deliver 0 7) (.step _ _ _ (.enter 0) (.step _ _ _ (.value 1)
    (.step _ _ _ (.begin 0 (.assign 1)) .start ⟨⟨rfl, rfl⟩, trivial⟩ h1) ⟨trivial, trivial⟩ h2) ⟨trivial, trivial⟩ h3)
    ⟨trivial, trivial⟩ h4, h5, h6, ?_⟩
  intro _ e
  rw [e] at h5
  cases h5

end Verif.Values.HB
