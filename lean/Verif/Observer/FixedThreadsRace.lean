import Verif.Apart
import Verif.Observer.FixedThreadsProps
/-! The fixed-capacity observable used by threads at the same time (C135). -/
namespace Verif.Observer.Fixed
open Verif Verif.HB

variable {V : Type} {m m' : State V} {l : Lbl V} {self max : Nat}

/-- The thread has accessed the place, and has written to it if `wr`. -/
def Touched (m : State V) (t : Nat) (loc : Loc) (wr : Bool) : Prop :=
  ∃ a ∈ m.mem.log, a.who = t ∧ a.loc = loc ∧ (wr = true → a.wr = true)

/-- Every way through the program to a result in `E` reads the place, and writes it if `wr`. -/
def Prog.Will (loc : Loc) (wr : Bool) (E : Err → Prop) : Prog V → Prop
  | .ret e => ¬ E e
  | .cnt k => (loc = .cnt ∧ wr = false) ∨ ∀ n, (k n).Will loc wr E
  | .setCnt _ k => loc = .cnt ∨ k.Will loc wr E
  | .at _ k => ∀ p, (k p).Will loc wr E
  | .setAt _ _ k => k.Will loc wr E
  | .ins k => (loc = .ins ∧ wr = false) ∨ ∀ b, (k b).Will loc wr E
  | .setIns _ k => loc = .ins ∨ k.Will loc wr E
  | .data _ _ k => k.Will loc wr E
  | .disc _ k => k.Will loc wr E
  | .left _ k => k.Will loc wr E
  | .undef => True

/-- What a call with this result has read or written. -/
def Owes (op : Op V) : Loc → Bool → Err → Prop
  | .cnt, false, _ => True
  | .cnt, true, e => ¬ op.IsNotify ∧ e = .ok
  | .ins, false, e => op.IsNotify ∧ (e = .ok ∨ e = .notifyRecursionDetected)
  | .ins, true, e => op.IsNotify ∧ e = .ok
  | .slot _, _, _ => False

theorem will_none (p : Prog V) (loc : Loc) (wr : Bool) {E : Err → Prop} (h : ∀ e, ¬ E e) : p.Will loc wr E := by
  induction p with
  | ret e => exact h e
  | cnt k ih => exact .inr ih
  | setCnt n k ih => exact .inr ih
  | «at» i k ih => exact ih
  | setAt i p k ih => exact ih
  | ins k ih => exact .inr ih
  | setIns b k ih => exact .inr ih
  | data o v k ih => exact ih
  | disc o k ih => exact ih
  | left o k ih => exact ih
  | undef => trivial

theorem will_contains {o : Nat} {yes no : Prog V} {loc : Loc} {wr : Bool} {E : Err → Prop} (h1 : yes.Will loc wr E)
    (h2 : no.Will loc wr E) : ∀ left i, (contains o yes no left i).Will loc wr E
  | 0, _ => h2
  | left + 1, i => fun p => by
    dsimp only
    split
    · exact h1
    · exact will_contains h1 h2 left (i + 1)

theorem will_cut {E : Err → Prop} (h : ∀ e, E e → e = .ok) (j : Nat) : (cut j : Prog V).Will .cnt true E := by
  refine .inr fun n => ?_
  dsimp only
  split
  · exact .inl rfl
  · exact fun he => by have := h _ he; cases this

theorem will_shift {E : Err → Prop} (h : ∀ e, E e → e = .ok) (o : Nat) : ∀ left i j, (shift o left i j : Prog V).Will .cnt true E
  | 0, _, j => will_cut h j
  | left + 1, i, j => fun p => by
    dsimp only
    split
    · exact will_shift h o left (i + 1) j
    · exact fun p => will_shift h o left (i + 1) (j + 1)

theorem will_find {E : Err → Prop} (h : ∀ e, E e → e = .ok) (o : Nat) : ∀ left i, (find o left i : Prog V).Will .cnt true E
  | 0, i => will_cut h i
  | left + 1, i => fun p => by
    dsimp only
    split
    · exact will_shift h o left (i + 1) i
    · exact will_find h o left (i + 1)

theorem will_clearLoop {E : Err → Prop} : ∀ left i, (clearLoop left i : Prog V).Will .cnt true E
  | 0, _ => .inl rfl
  | left + 1, i => fun p => by
    cases p with
    | some o => exact will_clearLoop left (i + 1)
    | none => trivial

/-- Every call reads and writes what it owes. -/
theorem will_prog (max : Nat) (op : Op V) (loc : Loc) (wr : Bool) : (prog max op).Will loc wr (Owes op loc wr) := by
  cases loc with
  | slot i => exact will_none _ _ _ fun _ h => h
  | cnt =>
    cases wr with
    | false => cases op <;> exact .inl ⟨rfl, rfl⟩
    | true =>
      have h : ∀ e, Owes op .cnt true e → e = .ok := fun e h => h.2
      cases op with
      | add o =>
        refine .inr fun n => ?_
        dsimp only
        split
        · exact fun he => by have := h _ he; cases this
        · refine .inr fun n => will_contains ?_ ?_ _ _
          · exact fun he => by have := h _ he; cases this
          · exact .inr fun n => .inl rfl
      | remove o =>
        refine .inr fun n => ?_
        dsimp only
        split
        · exact fun he => by have := h _ he; cases this
        · refine .inr fun n => ?_
          dsimp only
          split
          · exact fun he => by have := h _ he; cases this
          · exact .inr fun n => will_find h o n 0
      | clear => exact .inr fun n => will_clearLoop n 0
      | notify v => exact will_none _ _ _ fun e he => he.1 trivial
  | ins =>
    cases op with
    | notify v =>
      refine .inr fun n => ?_
      dsimp only
      split
      · cases wr
        · exact fun he => by rcases he.2 with h | h <;> cases h
        · exact fun he => by cases he.2
      · cases wr
        · exact .inl ⟨rfl, rfl⟩
        · refine .inr fun b => ?_
          dsimp only
          split
          · exact fun he => by cases he.2
          · exact .inl rfl
    | add | remove | clear => exact will_none _ _ _ fun e he => by cases wr <;> exact he.1

/-- Threads that do not synchronise and do not race: each call has touched what it owes or will. -/
structure Apart (m : State V) : Prop where
  mem : m.mem.Apart
  frame : ∀ t, ∀ f ∈ m.stack t, ∀ loc wr, f.prog.Will loc wr (Owes f.op loc wr) ∨ Touched m t loc wr
  log : ∀ t op e, (t, .ret op e) ∈ m.log → ∀ loc wr, Owes op loc wr e → Touched m t loc wr

theorem Touched.mono {t : Nat} {loc : Loc} {wr : Bool} (h : Touched m t loc wr) (hl : ∀ a ∈ m.mem.log, a ∈ m'.mem.log) :
    Touched m' t loc wr :=
  let ⟨a, ha, h1, h2, h3⟩ := h
  ⟨a, hl a ha, h1, h2, h3⟩

/-- After its next access the call has touched the place or still will. -/
theorem will_next {p q : Prog V} {s s' : Sh} (h : p.next s = some (s', q)) {loc : Loc} {wr : Bool} {E : Err → Prop}
    (hw : p.Will loc wr E) {M : HB.Mem Nat Loc Nat} {t : Nat} :
    q.Will loc wr E ∨ ∃ a ∈ (M.run t p.ops).log, a.who = t ∧ a.loc = loc ∧ (wr = true → a.wr = true) := by
  cases p with
  | cnt k =>
    cases h
    rcases hw with ⟨rfl, rfl⟩ | hw
    · exact .inr ⟨_, List.mem_cons_self, rfl, rfl, by simp⟩
    · exact .inl (hw _)
  | setCnt n k =>
    cases h
    rcases hw with rfl | hw
    · exact .inr ⟨_, List.mem_cons_self, rfl, rfl, fun _ => rfl⟩
    · exact .inl hw
  | ins k =>
    cases h
    rcases hw with ⟨rfl, rfl⟩ | hw
    · exact .inr ⟨_, List.mem_cons_self, rfl, rfl, by simp⟩
    · exact .inl (hw _)
  | setIns n k =>
    cases h
    rcases hw with rfl | hw
    · exact .inr ⟨_, List.mem_cons_self, rfl, rfl, fun _ => rfl⟩
    · exact .inl hw
  | «at» i k =>
    simp only [Prog.next] at h
    split at h
    · cases h
      exact .inl (hw _)
    · cases h
  | setAt i p k =>
    simp only [Prog.next] at h
    split at h
    · cases h
      exact .inl hw
    · cases h
  | ret | data | disc | left | undef => cases h

theorem mem_top {t u : Nat} {f g x : Frame V} {fs : List (Frame V)} (hf : m.stack t = f :: fs)
    (hx : x ∈ HB.put m.stack t (g :: fs) u) : (u = t ∧ x = g) ∨ x ∈ m.stack u := by
  by_cases e : u = t
  · subst e
    rw [put_same] at hx
    rcases List.mem_cons.1 hx with rfl | hx
    · exact .inl ⟨rfl, rfl⟩
    · exact .inr (by rw [hf]; exact List.mem_cons_of_mem _ hx)
  · rw [put_ne _ _ e] at hx
    exact .inr hx

theorem apart_step (x : Apart m) (hp : l.Plain) (hr : ¬ Race m l) (hs : step m l = some m') : Apart m' := by
  cases l with
  | rel | acq => exact absurd hp id
  | call t op =>
    simp only [step] at hs
    split at hs
    · cases hs
      refine ⟨x.mem, fun u f hf => ?_, x.log⟩
      by_cases e : u = t
      · subst e
        simp only [put_same, List.mem_cons] at hf
        rcases hf with rfl | hf
        · exact fun loc wr => .inl (will_prog _ op loc wr)
        · exact x.frame u f hf
      · simp only [put_ne _ _ e] at hf
        exact x.frame u f hf
    · cases hs
  | back t =>
    simp only [step] at hs
    cases hf : m.stack t with
    | nil => rw [hf] at hs; cases hs
    | cons f fs =>
      rw [hf] at hs
      simp only at hs
      split at hs
      · cases hs
        refine ⟨x.mem, fun u g hg => ?_, x.log⟩
        rcases mem_top hf hg with ⟨rfl, rfl⟩ | hg
        · exact x.frame u f (by rw [hf]; exact List.mem_cons_self)
        · exact x.frame u g hg
      · cases hs
  | act t =>
    simp only [step] at hs
    cases hf : m.stack t with
    | nil => rw [hf] at hs; cases hs
    | cons f fs =>
      rw [hf] at hs
      simp only at hs
      split at hs
      · cases hs
      have hft := x.frame t f (by rw [hf]; exact List.mem_cons_self)
      by_cases hret : ∃ e, f.prog = .ret e
      · obtain ⟨e, hret⟩ := hret
        simp only [act, hret, Option.some.injEq] at hs
        subst hs
        simp only [hret, Prog.Will] at hft
        refine ⟨x.mem, fun u g hg => ?_, fun u op e' hd loc wr ho => ?_⟩
        · refine x.frame u g ?_
          by_cases e : u = t
          · subst e
            simp only [put_same] at hg
            rw [hf]
            exact List.mem_cons_of_mem _ hg
          · simpa only [put_ne _ _ e] using hg
        · rcases List.mem_append.1 hd with hd | hd
          · exact x.log u op e' hd loc wr ho
          · rw [List.mem_singleton] at hd
            cases hd
            exact (hft loc wr).resolve_left fun h => h ho
      have h1 : ∀ e, f.prog ≠ .ret e := fun e h => hret ⟨e, h⟩
      have other : ∀ (k : Prog V) (b : Bool) (ev : Ev V), (∀ op e, ev ≠ .ret op e) →
          (∀ loc wr, k.Will loc wr (Owes f.op loc wr) ∨ Touched m t loc wr) →
          Apart { m with stack := HB.put m.stack t ({ f with prog := k, busy := b } :: fs), log := m.log ++ [(t, ev)] } := by
        intro k b ev he hk
        refine ⟨x.mem, fun u g hg => ?_, fun u op e' hd => ?_⟩
        · rcases mem_top hf hg with ⟨rfl, rfl⟩ | hg
          · exact hk
          · exact x.frame u g hg
        · rcases List.mem_append.1 hd with hd | hd
          · exact x.log u op e' hd
          · rw [List.mem_singleton] at hd
            cases hd
            exact absurd rfl (he op e')
      by_cases hd : ∃ o v k, f.prog = .data o v k
      · obtain ⟨o, v, k, hd⟩ := hd
        simp only [act, hd, Option.some.injEq] at hs
        subst hs
        simp only [hd, Prog.Will] at hft
        exact other k true _ (fun _ _ h => by cases h) hft
      have h2 : ∀ o v k, f.prog ≠ .data o v k := fun o v k h => hd ⟨o, v, k, h⟩
      by_cases hd : ∃ o k, f.prog = .disc o k
      · obtain ⟨o, k, hd⟩ := hd
        simp only [act, hd, Option.some.injEq] at hs
        subst hs
        simp only [hd, Prog.Will] at hft
        exact other k true _ (fun _ _ h => by cases h) hft
      have h3 : ∀ o k, f.prog ≠ .disc o k := fun o k h => hd ⟨o, k, h⟩
      by_cases hd : ∃ o k, f.prog = .left o k
      · obtain ⟨o, k, hd⟩ := hd
        simp only [act, hd, Option.some.injEq] at hs
        subst hs
        simp only [hd, Prog.Will] at hft
        exact other k f.busy _ (fun _ _ h => by cases h) hft
      have h4 : ∀ o k, f.prog ≠ .left o k := fun o k h => hd ⟨o, k, h⟩
      rw [act_next h1 h2 h3 h4, Option.map_eq_some_iff] at hs
      obtain ⟨⟨s', q⟩, hn, rfl⟩ := hs
      have hmem : (m.mem.run t f.prog.ops).Apart := by
        refine Mem.Apart.run _ x.mem (fun o ho => ?_) ?_
        · cases hp : f.prog <;> rw [hp] at ho <;> simp only [Prog.ops, List.mem_singleton, List.not_mem_nil] at ho <;>
            first
            | exact ⟨_, _, _, ho⟩
            | exact ho.elim
        · have : ops m (.act t) = f.prog.ops := by simp only [ops, hf]
          unfold Race at hr
          rw [this] at hr
          exact hr
      have hmono : ∀ a ∈ m.mem.log, a ∈ (m.mem.run t f.prog.ops).log := Mem.log_mono _ _ _
      refine ⟨hmem, fun u g hg => ?_, fun u op e hd loc wr ho => (x.log u op e hd loc wr ho).mono hmono⟩
      rcases mem_top hf hg with ⟨rfl, rfl⟩ | hg
      · exact fun loc wr => (hft loc wr).elim (fun h => will_next hn h) fun h => .inr (h.mono hmono)
      · exact fun loc wr => (x.frame u g hg loc wr).imp id fun h => h.mono hmono

theorem run_apart (r : Run self max (fun m l => l.Plain ∧ ¬ Race m l) m) : Apart m := by
  induction r with
  | start => exact ⟨.new, by simp [State.new], by simp [State.new]⟩
  | step m m' l _ hg hs ih => exact apart_step ih hg.1 hg.2 hs

/-- **C135 refuted: races.** In an execution without data races in which threads do not synchronise outside the observable, once a
thread has added or removed an observer or has cleared them all, only that thread has completed any call; and once a thread has
notified the observers, every other notification that succeeded, or was refused as one from inside a notification, was of the same
thread. -/
theorem C135_race_refuted (r : Run self max (fun m l => l.Plain ∧ ¬ Race m l) m) :
    (∀ t op, (t, .ret op .ok) ∈ m.log → (∀ v, op ≠ .notify v) → ∀ u op' e, (u, .ret op' e) ∈ m.log → u = t) ∧
    (∀ t v, (t, .ret (.notify v) .ok) ∈ m.log → ∀ u w e, (u, .ret (.notify w) e) ∈ m.log →
      e = .ok ∨ e = .notifyRecursionDetected → u = t) := by
  have x := run_apart r
  refine ⟨fun t op h1 h2 u op' e h3 => ?_, fun t v h1 u w e h2 h3 => ?_⟩
  · obtain ⟨a, ha, a1, a2, a3⟩ := x.log t op .ok h1 .cnt true ⟨by cases op <;> simp_all [Op.IsNotify], rfl⟩
    obtain ⟨b, hb, b1, b2, -⟩ := x.log u op' e h3 .cnt false trivial
    rw [← a1, ← b1]
    exact x.mem.pair b hb a ha (b2.trans a2.symm) (.inr (a3 rfl))
  · obtain ⟨a, ha, a1, a2, a3⟩ := x.log t _ .ok h1 .ins true ⟨trivial, rfl⟩
    obtain ⟨b, hb, b1, b2, -⟩ := x.log u _ e h2 .ins false ⟨trivial, h3⟩
    rw [← a1, ← b1]
    exact x.mem.pair b hb a ha (b2.trans a2.symm) (.inr (a3 rfl))

/-- Make these steps if they are possible and none is a synchronisation. -/
def Ex.free : List (Lbl V) → State V → Option (State V)
  | [], m => some m
  | .rel _ _ :: _, _ | .acq _ _ :: _, _ => none
  | l :: ls, m => (step m l).bind (free ls)

theorem Ex.free_run : ∀ (ls : List (Lbl V)) {m m' : State V}, Run self max (fun _ l => l.Plain) m → Ex.free ls m = some m' →
    Run self max (fun _ l => l.Plain) m'
  | [], m, m', r, e => by cases e; exact r
  | l :: ls, m, m', r, e => by
    cases l with
    | rel | acq => cases e
    | call | act | back =>
      simp only [free, Option.bind_eq_some_iff] at e
      obtain ⟨m1, h1, h2⟩ := e
      exact free_run ls (.step m m1 _ r (by trivial) h1) h2

/-- A run of these steps ends in a state with a property that can be computed. -/
theorem Ex.free_ends (self max : Nat) (ls : List (Lbl V)) (p : State V → Bool) (h : (Ex.free ls (State.new self max)).any p = true) :
    ∃ m, Run self max (fun _ l => l.Plain) m ∧ p m = true :=
  let ⟨m, h1, h2⟩ := (Option.any_eq_true _ _).1 h
  ⟨m, free_run ls .start h1, h2⟩

/-- The thread is about to do what is undefined: it is in a call and in no callback, and cannot take the next step. -/
def State.Undefined (m : State V) (t : Nat) : Prop :=
  ∃ f fs, m.stack t = f :: fs ∧ f.busy = false ∧ step m (.act t) = none

/-- `State.Undefined`, computed. -/
def Ex.undefinedB (m : State V) (t : Nat) : Bool :=
  match m.stack t with
  | f :: _ => !f.busy && (step m (.act t)).isNone
  | [] => false

theorem Ex.undefined_of {t : Nat} (h : Ex.undefinedB m t = true) : m.Undefined t := by
  unfold undefinedB at h
  split at h
  · rename_i f fs hf
    simp only [Bool.and_eq_true, Bool.not_eq_true', Option.isNone_iff_eq_none] at h
    exact ⟨f, fs, hf, h⟩
  · cases h

/-- So many steps of a thread. -/
def Ex.acts (t n : Nat) : List (Lbl Nat) := List.replicate n (.act t)

/-- Thread 0 adds observer 5 and notifies it of 1; while it is told, thread 1 notifies of 7. -/
def Ex.refused : List (Lbl Nat) :=
  .call 0 (.add 5) :: Ex.acts 0 6 ++ .call 0 (.notify 1) :: Ex.acts 0 6 ++ .call 1 (.notify 7) :: Ex.acts 1 3 ++ .back 0 :: Ex.acts 0 3

/-- **C135 refuted: a notification is lost.** While one thread notifies, another one that is in no callback is told that it has tried
to notify from inside a notification, and its notification reaches nobody. -/
theorem C135_refused_refuted : ∃ m : State Nat, Run 9 2 (fun _ l => l.Plain) m ∧ (∀ t, t < 2 → m.stack t = []) ∧
    m.log = [(0, .ret (.add 5) .ok), (0, .enter 9 5 1), (1, .ret (.notify 7) .notifyRecursionDetected), (0, .leave 5),
      (0, .ret (.notify 1) .ok)] := by
  obtain ⟨m, h1, h2⟩ := Ex.free_ends 9 2 Ex.refused (fun m => (m.stack 0).isEmpty && ((m.stack 1).isEmpty &&
    decide (m.log = [(0, .ret (.add 5) .ok), (0, .enter 9 5 1), (1, .ret (.notify 7) .notifyRecursionDetected), (0, .leave 5),
      (0, .ret (.notify 1) .ok)]))) (by decide +kernel)
  simp only [Bool.and_eq_true, List.isEmpty_iff, decide_eq_true_eq] at h2
  refine ⟨m, h1, fun t ht => ?_, h2.2.2⟩
  match t, ht with
  | 0, _ => exact h2.1
  | 1, _ => exact h2.2.1

/-- Threads 0 and 1 add observers 5 and 6; both read the count before either writes it.  Then thread 0 notifies of 1. -/
def Ex.lost : List (Lbl Nat) :=
  .call 0 (.add 5) :: Ex.acts 0 3 ++ .call 1 (.add 6) :: Ex.acts 1 3 ++ Ex.acts 0 3 ++ Ex.acts 1 3 ++
    .call 0 (.notify 1) :: Ex.acts 0 6 ++ .back 0 :: Ex.acts 0 3

/-- **C135 refuted: an observer is lost.** Two threads add an observer each and are told that it succeeded; one observer is not
registered, and a notification afterwards does not reach it. -/
theorem C135_lost_refuted : ∃ m : State Nat, Run 9 2 (fun _ l => l.Plain) m ∧ (∀ t, t < 2 → m.stack t = []) ∧ m.sh.cnt = 1 ∧
    regs 2 m.events = [5, 6] ∧
    m.log = [(0, .ret (.add 5) .ok), (1, .ret (.add 6) .ok), (0, .enter 9 6 1), (0, .leave 6), (0, .ret (.notify 1) .ok)] := by
  obtain ⟨m, h1, h2⟩ := Ex.free_ends 9 2 Ex.lost (fun m => (m.stack 0).isEmpty && ((m.stack 1).isEmpty &&
    decide (m.sh.cnt = 1 ∧ regs 2 m.events = [5, 6] ∧
    m.log = [(0, .ret (.add 5) .ok), (1, .ret (.add 6) .ok), (0, .enter 9 6 1), (0, .leave 6), (0, .ret (.notify 1) .ok)])))
    (by decide +kernel)
  simp only [Bool.and_eq_true, List.isEmpty_iff, decide_eq_true_eq] at h2
  refine ⟨m, h1, fun t ht => ?_, h2.2.2⟩
  match t, ht with
  | 0, _ => exact h2.1
  | 1, _ => exact h2.2.1

/-- Thread 0 adds observer 5; thread 1 notifies of 1 and has read the pointer to it; thread 0 removes it; thread 1 goes on. -/
def Ex.gone : List (Lbl Nat) :=
  .call 0 (.add 5) :: Ex.acts 0 6 ++ .call 1 (.notify 1) :: Ex.acts 1 5 ++ .call 0 (.remove 5) :: Ex.acts 0 7 ++ Ex.acts 1 1

/-- **C135 refuted: an observer that has been removed.** A thread removes an observer from outside callbacks and is told that it
succeeded; after that the observer is called. -/
theorem C135_gone_refuted : ∃ m : State Nat, Run 9 2 (fun _ l => l.Plain) m ∧ m.stack 0 = [] ∧ m.sh.cnt = 0 ∧
    m.log = [(0, .ret (.add 5) .ok), (0, .ret (.remove 5) .ok), (1, .enter 9 5 1)] := by
  obtain ⟨m, h1, h2⟩ := Ex.free_ends 9 2 Ex.gone (fun m => (m.stack 0).isEmpty && decide (m.sh.cnt = 0 ∧
    m.log = [(0, .ret (.add 5) .ok), (0, .ret (.remove 5) .ok), (1, .enter 9 5 1)])) (by decide +kernel)
  simp only [Bool.and_eq_true, List.isEmpty_iff, decide_eq_true_eq] at h2
  exact ⟨m, h1, h2⟩

/-- Thread 0 adds observer 5 and has counted it but not entered it; thread 1 notifies. -/
def Ex.early : List (Lbl Nat) := .call 0 (.add 5) :: Ex.acts 0 4 ++ .call 1 (.notify 1) :: Ex.acts 1 5

/-- **C135 refuted: a null pointer.** An observer is counted before it is entered (line 99).  A notification by another thread in
between follows a null pointer. -/
theorem C135_null_refuted : ∃ m : State Nat, Run 9 2 (fun _ l => l.Plain) m ∧ m.log = [] ∧ m.Undefined 1 := by
  obtain ⟨m, h1, h2⟩ := Ex.free_ends 9 2 Ex.early (fun m => decide (m.log = []) && Ex.undefinedB m 1) (by decide +kernel)
  rw [Bool.and_eq_true, decide_eq_true_eq] at h2
  exact ⟨m, h1, h2.1, Ex.undefined_of h2.2⟩

/-- One place is left; threads 0 and 1 both see this, and add observers 5 and 6. -/
def Ex.overrun : List (Lbl Nat) :=
  .call 0 (.add 5) :: Ex.acts 0 1 ++ .call 1 (.add 6) :: Ex.acts 1 1 ++ Ex.acts 0 5 ++ Ex.acts 1 4

/-- **C135 refuted: a write outside the array.** Two threads add an observer when one place is left: one of them succeeds, the other
one writes outside the array. -/
theorem C135_overrun_refuted : ∃ m : State Nat, Run 9 1 (fun _ l => l.Plain) m ∧ m.log = [(0, .ret (.add 5) .ok)] ∧ m.Undefined 1 ∧
    ∃ f fs k, m.stack 1 = f :: fs ∧ f.prog = .setAt 1 (some 6) k ∧ m.sh.arr.length = 1 := by
  obtain ⟨m, h1, h2⟩ := Ex.free_ends 9 1 Ex.overrun (fun m => decide (m.log = [(0, .ret (.add 5) .ok)] ∧ m.sh.arr.length = 1) &&
    (Ex.undefinedB m 1 && match m.stack 1 with
      | f :: _ => match f.prog with
        | .setAt i p _ => decide (i = 1 ∧ p = some 6)
        | _ => false
      | [] => false)) (by decide +kernel)
  rw [Bool.and_eq_true, decide_eq_true_eq, Bool.and_eq_true] at h2
  obtain ⟨h2, h3, h4⟩ := h2
  refine ⟨m, h1, h2.1, Ex.undefined_of h3, ?_⟩
  cases hf : m.stack 1 with
  | nil => rw [hf] at h4; cases h4
  | cons f fs =>
    rw [hf] at h4
    simp only at h4
    cases hp : f.prog <;> rw [hp] at h4 <;> simp only [Bool.false_eq_true, decide_eq_true_eq] at h4
    obtain ⟨rfl, rfl⟩ := h4
    exact ⟨f, fs, _, rfl, hp, h2.2⟩

/-- Make these steps if they are possible and no data race, and none is a synchronisation. -/
def Ex.calm : List (Lbl V) → State V → Option (State V)
  | [], m => some m
  | .rel _ _ :: _, _ | .acq _ _ :: _, _ => none
  | l :: ls, m => if m.mem.racesB (fun _ => true) l.who (ops m l) then none else (step m l).bind (calm ls)

theorem Ex.calm_run : ∀ (ls : List (Lbl V)) {m m' : State V}, Run self max (fun m l => l.Plain ∧ ¬ Race m l) m →
    Ex.calm ls m = some m' → Run self max (fun m l => l.Plain ∧ ¬ Race m l) m'
  | [], m, m', r, e => by cases e; exact r
  | l :: ls, m, m', r, e => by
    cases l with
    | rel | acq => cases e
    | call | act | back =>
      simp only [calm] at e
      split at e
      · cases e
      · rename_i hr
        rw [Option.bind_eq_some_iff] at e
        obtain ⟨m1, h1, h2⟩ := e
        refine calm_run ls (.step m m1 _ r ⟨by trivial, fun h => hr ?_⟩ h1) h2
        rw [Mem.racesB_iff]
        simpa only [Race] using h

/-- C135_race_refuted: thread 0 adds observer 5 and notifies; thread 1 has begun a call but not read the count. -/
example : ∃ m : State Nat, Run 9 2 (fun m l => l.Plain ∧ ¬ Race m l) m ∧ (m.stack 1).length = 1 ∧
    m.log = [(0, .ret (.add 5) .ok), (0, .enter 9 5 1), (0, .leave 5), (0, .ret (.notify 1) .ok)] := by
  have h : (Ex.calm (.call 0 (.add 5) :: Ex.acts 0 6 ++ .call 1 .clear :: .call 0 (.notify 1) :: Ex.acts 0 6 ++
      .back 0 :: Ex.acts 0 3) (State.new 9 2)).any (fun m => decide ((m.stack 1).length = 1 ∧
    m.log = [(0, .ret (.add 5) .ok), (0, .enter 9 5 1), (0, .leave 5), (0, .ret (.notify 1) .ok)])) = true := by decide +kernel
  obtain ⟨m, h1, h2⟩ := (Option.any_eq_true _ _).1 h
  exact ⟨m, Ex.calm_run _ .start h1, of_decide_eq_true h2⟩

/-- Two threads notify an observable that nobody has observers in; one has finished when the other one has only seen that it may:
no data race so far. -/
example : ∃ m : State Nat, Run 9 2 (fun m l => l.Plain ∧ ¬ Race m l) m ∧ (m.stack 1).length = 1 ∧ m.log = [(0, .ret (.notify 1) .ok)] ∧
    1 ∈ m.mem.log.map (·.who) := by
  have h : (Ex.calm (.call 1 (.notify 2) :: Ex.acts 1 1 ++ .call 0 (.notify 1) :: Ex.acts 0 6) (State.new 9 2)).any (fun m =>
    decide ((m.stack 1).length = 1 ∧ m.log = [(0, .ret (.notify 1) .ok)] ∧ 1 ∈ m.mem.log.map (·.who))) = true := by decide +kernel
  obtain ⟨m, h1, h2⟩ := (Option.any_eq_true _ _).1 h
  exact ⟨m, Ex.calm_run _ .start h1, of_decide_eq_true h2⟩

end Verif.Observer.Fixed
