import Verif.Apart
import Verif.Mediator.ThreadsDemo
/-! Modules that are constructed while others are in use (C134). -/
namespace Verif.Mediator.Conc
open Verif Verif.HB Verif.Data

variable {W : World} {m m' : State W} {l : Lbl W} {sources : Nat}

/-- The thread has accessed the count, and has written to it if `wr`. -/
def Touched (m : State W) (t : Nat) (wr : Bool) : Prop :=
  ∃ a ∈ m.mem.log, a.who = t ∧ a.loc = .cnt ∧ (wr = true → a.wr = true)

/-- Every way through the program reads the count, and writes it if `wr`. -/
def Prog.Will (wr : Bool) : Prog W → Prop
  | .ret => False
  | .cnt k => wr = false ∨ ∀ n, (k n).Will wr
  | .setCnt _ _ => True
  | .at _ k => ∀ p, (k p).Will wr
  | .setAt _ _ k => k.Will wr
  | .obj _ k => k.Will wr
  | .setObj _ _ k => k.Will wr
  | .call _ k => k.Will wr
  | .undef => True

/-- The call constructs a module. -/
def Call.isMake : Call W → Bool
  | .make _ => true
  | _ => false

theorem will_prog (sources n : Nat) (c : Call W) : (c.prog sources n).Will false ∧ (c.isMake = true → (c.prog sources n).Will true) := by
  cases c with
  | make p => simp [Call.prog, make, Prog.Will]
  | drop p => exact ⟨.inl rfl, fun h => by cases h⟩
  | send p bytes => exact ⟨.inl rfl, fun h => by cases h⟩
  | cast t v => exact ⟨.inl rfl, fun h => by cases h⟩

/-- Threads that do not synchronise and do not race: each call has touched the count or will. -/
structure Apart (m : State W) : Prop where
  mem : m.mem.Apart
  frame : ∀ t, ∀ f ∈ m.stack t, (f.prog.Will false ∨ Touched m t false) ∧
    (f.call.isMake = true → f.prog.Will true ∨ Touched m t true)
  hist : ∀ d ∈ m.hist, Touched m d.who false ∧ (d.call.isMake = true → Touched m d.who true)

theorem Touched.mono {t : Nat} {wr : Bool} (h : Touched m t wr) (hl : ∀ a ∈ m.mem.log, a ∈ m'.mem.log) : Touched m' t wr :=
  let ⟨a, ha, h1, h2, h3⟩ := h
  ⟨a, hl a ha, h1, h2, h3⟩

/-- After its next step the call has touched the count or still will. -/
theorem will_next {p q : Prog W} {s s' : Sh} (h : p.next s = some (s', q)) {wr : Bool} (hw : p.Will wr) {M : HB.Mem Nat Loc Nat}
    {t : Nat} : q.Will wr ∨ ∃ a ∈ (M.run t p.ops).log, a.who = t ∧ a.loc = .cnt ∧ (wr = true → a.wr = true) := by
  cases p with
  | cnt k =>
    simp only [Prog.next, Option.some.injEq, Prod.mk.injEq] at h
    rcases hw with rfl | hw
    · exact .inr ⟨_, List.mem_cons_self, rfl, rfl, by simp⟩
    · exact .inl (h.2 ▸ hw _)
  | setCnt n k => exact .inr ⟨_, List.mem_cons_self, rfl, rfl, fun _ => rfl⟩
  | «at» i k =>
    simp only [Prog.next] at h
    split at h
    · simp only [Option.some.injEq, Prod.mk.injEq] at h
      exact .inl (h.2 ▸ hw _)
    · cases h
  | setAt i p k =>
    simp only [Prog.next] at h
    split at h
    · simp only [Option.some.injEq, Prod.mk.injEq] at h
      exact .inl (h.2 ▸ hw)
    · cases h
  | obj p k =>
    simp only [Prog.next] at h
    split at h
    · simp only [Option.some.injEq, Prod.mk.injEq] at h
      exact .inl (h.2 ▸ hw)
    · cases h
  | setObj p b k =>
    simp only [Prog.next, Option.some.injEq, Prod.mk.injEq] at h
    exact .inl (h.2 ▸ hw)
  | ret | call | undef => cases h

theorem apart_step (x : Apart m) (hp : l.Plain) (hr : ¬ Race m l) (hs : step m l = some m') : Apart m' := by
  cases l with
  | rel | acq => exact absurd hp id
  | call t c =>
    simp only [step] at hs
    split at hs
    · cases hs
      refine ⟨x.mem, fun u f hf => ?_, x.hist⟩
      by_cases e : u = t
      · subst e
        simp only [put_same, List.mem_cons] at hf
        rcases hf with rfl | hf
        · exact ⟨.inl (will_prog _ _ c).1, fun h => .inl ((will_prog _ _ c).2 h)⟩
        · exact x.frame u f hf
      · simp only [put_ne _ _ e] at hf
        exact x.frame u f hf
    · cases hs
  | back t =>
    simp only [step] at hs
    cases hf : m.stack t with
    | nil => rw [hf] at hs; cases hs
    | cons f fs =>
      rw [hf] at hs
      simp only at hs
      split at hs
      · cases hs
        refine ⟨x.mem, fun u g hg => ?_, x.hist⟩
        rcases mem_top hf hg with ⟨rfl, rfl⟩ | ⟨hg, _⟩
        · exact x.frame u f (by rw [hf]; exact List.mem_cons_self)
        · exact x.frame u g hg
      · cases hs
  | act t =>
    simp only [step] at hs
    cases hf : m.stack t with
    | nil => rw [hf] at hs; cases hs
    | cons f fs =>
      rw [hf] at hs
      simp only at hs
      split at hs
      · cases hs
      have hft := x.frame t f (by rw [hf]; exact List.mem_cons_self)
      have hmem : (m.mem.run t f.prog.ops).Apart := by
        refine Mem.Apart.run _ x.mem (fun o ho => ?_) ?_
        · rcases ops_cases f.prog with h | ⟨loc, wr, h⟩
          · rw [h] at ho; cases ho
          · rw [h] at ho
            exact ⟨loc, wr, 0, List.mem_singleton.1 ho⟩
        · have : ops m (.act t) = f.prog.ops := by simp only [ops, hf]
          unfold Race at hr
          rw [this] at hr
          exact hr
      have hmono : ∀ a ∈ m.mem.log, a ∈ (m.mem.run t f.prog.ops).log := Mem.log_mono _ _ _
      by_cases hret : f.prog = .ret
      · simp only [act, hret, Option.some.injEq] at hs
        subst hs
        simp only [hret, Prog.Will, false_or] at hft
        refine ⟨x.mem, fun u g hg => ?_, fun d hd => ?_⟩
        · refine x.frame u g ?_
          by_cases e : u = t
          · subst e
            simp only [put_same] at hg
            rw [hf]
            exact List.mem_cons_of_mem _ hg
          · simpa only [put_ne _ _ e] using hg
        · rcases List.mem_cons.1 hd with rfl | hd
          · exact hft
          · exact x.hist d hd
      · by_cases hcall : ∃ e k, f.prog = .call e k
        · obtain ⟨e, k, hcall⟩ := hcall
          simp only [act, hcall, Option.some.injEq] at hs
          subst hs
          simp only [hcall, Prog.Will] at hft
          refine ⟨x.mem, fun u g hg => ?_, x.hist⟩
          rcases mem_top hf hg with ⟨rfl, rfl⟩ | ⟨hg, _⟩
          · exact hft
          · exact x.frame u g hg
        · have hcall' : ∀ e k, f.prog ≠ .call e k := fun e k h => hcall ⟨e, k, h⟩
          rw [act_next hret hcall', Option.map_eq_some_iff] at hs
          obtain ⟨⟨s', q⟩, hn, rfl⟩ := hs
          refine ⟨hmem, fun u g hg => ?_, fun d hd => ⟨(x.hist d hd).1.mono hmono, fun h => ((x.hist d hd).2 h).mono hmono⟩⟩
          rcases mem_top hf hg with ⟨rfl, rfl⟩ | ⟨hg, _⟩
          · exact ⟨hft.1.elim (fun h => will_next hn h) fun h => .inr (h.mono hmono), fun h => (hft.2 h).elim
              (fun h => will_next hn h) fun h => .inr (h.mono hmono)⟩
          · have := x.frame u g hg
            exact ⟨this.1.imp id fun h => h.mono hmono, fun h => (this.2 h).imp id fun h => h.mono hmono⟩

theorem run_apart (r : Run sources (fun m l => l.Plain ∧ ¬ Race m l) m) : Apart m := by
  induction r with
  | start => exact ⟨.new, by simp [State.new], by simp [State.new]⟩
  | step m m' l _ hg hs ih => exact apart_step ih hg.1 hg.2 hs

/-- **C134 refuted: races.** In an execution without data races in which threads do not synchronise outside the mediator, once a
module has been constructed only the thread that did so has completed any call at all. -/
theorem C134_race_refuted (r : Run sources (fun m l => l.Plain ∧ ¬ Race m l) m) {d e : Done W} (hd : d ∈ m.hist) {p : Nat}
    (hc : d.call = .make p) (he : e ∈ m.hist) : d.who = e.who := by
  have x := run_apart r
  obtain ⟨a, ha, h1, h2, h3⟩ := (x.hist d hd).2 (by rw [hc]; rfl)
  obtain ⟨b, hb, h4, h5, _⟩ := (x.hist e he).1
  rw [← h1, ← h4]
  exact x.mem.pair a ha b hb (h2.trans h5.symm) (.inl (h3 rfl))

/-- Make these steps if they are possible and none is a synchronisation. -/
def Ex.free : List (Lbl W) → State W → Option (State W)
  | [], m => some m
  | .rel _ _ :: _, _ | .acq _ _ :: _, _ => none
  | l :: ls, m => (step m l).bind (free ls)

theorem Ex.free_run : ∀ (ls : List (Lbl W)) {m m' : State W}, Run sources (fun _ l => l.Plain) m → Ex.free ls m = some m' →
    Run sources (fun _ l => l.Plain) m'
  | [], m, m', r, e => by cases e; exact r
  | l :: ls, m, m', r, e => by
    cases l with
    | rel | acq => cases e
    | call | act | back =>
      simp only [free, Option.bind_eq_some_iff] at e
      obtain ⟨m1, h1, h2⟩ := e
      exact free_run ls (.step m m1 _ r (by trivial) h1) h2

/-- The thread is about to do what is undefined: to follow a pointer that has not been written or is null, or to use a module that
does not exist. -/
def State.Undefined (m : State W) (t : Nat) : Prop :=
  ∃ f fs, m.stack t = f :: fs ∧ (f.prog = .undef ∨ ∃ p k, f.prog = .obj p k ∧ m.sh.live p = false)

/-- `State.Undefined`, computed. -/
def Ex.undefinedB (m : State W) (t : Nat) : Bool :=
  match m.stack t with
  | f :: _ => match f.prog with
    | .undef => true
    | .obj p _ => !m.sh.live p
    | _ => false
  | [] => false

theorem Ex.undefined_of {t : Nat} (h : Ex.undefinedB m t = true) : m.Undefined t := by
  unfold undefinedB at h
  split at h
  · rename_i f fs hf
    refine ⟨f, fs, hf, ?_⟩
    split at h
    · exact .inl ‹_›
    · exact .inr ⟨_, _, ‹_›, by simpa using h⟩
    · cases h
  · cases h

/-- Thread 0 constructs module 3 and has counted it but not entered it; thread 1 has the manager send. -/
def Ex.early : List (Lbl Ex.V) :=
  [.call 0 (.make 3), .act 0, .act 0, .act 0, .call 1 (.cast 0 (5 : BitVec 16)), .act 1, .act 1]

/-- **C134 refuted: a module under construction.** A module is counted before it is entered (line 280).  A message that another
thread sends in between follows a pointer that has not been written. -/
theorem C134_early_refuted : ∃ m : State Ex.V, Run 6 (fun _ l => l.Plain) m ∧ m.hist = [] ∧ m.Undefined 1 := by
  have h : (Ex.free Ex.early (State.new 6)).any (fun m => m.hist.isEmpty && Ex.undefinedB m 1) = true := by decide +kernel
  cases h1 : Ex.free Ex.early (State.new 6) with
  | none => rw [h1] at h; cases h
  | some m =>
    rw [h1] at h
    simp only [Option.any_some, Bool.and_eq_true, List.isEmpty_iff] at h
    exact ⟨m, Ex.free_run _ .start h1, h.1, Ex.undefined_of h.2⟩

/-- Threads 0 and 1 construct modules 3 and 4; both read the count before either writes it.  Then the manager sends. -/
def Ex.lost : List (Lbl Ex.V) :=
  [.call 0 (.make 3), .act 0, .act 0, .call 1 (.make 4), .act 1, .act 1, .act 0, .act 0, .act 0, .act 1, .act 1, .act 1,
    .call 0 (.cast 0 (5 : BitVec 16))] ++ List.replicate 6 (.act 0) ++ [.back 0] ++ List.replicate 2 (.act 0)

/-- **C134 refuted: a module is lost.** Two threads construct a module each.  Both constructors return; one module is not
registered, and a message sent afterwards does not reach it. -/
theorem C134_lost_refuted : ∃ m : State Ex.V, Run 6 (fun _ l => l.Plain) m ∧ (∀ t, t < 2 → m.stack t = []) ∧
    registered m.hist = [3, 4] ∧ m.hist.map (fun d => (d.who, d.num, d.upto)) = [(0, 2, 3), (1, 1, 2), (0, 0, 2)] ∧
    m.received 4 = [2] ∧ m.received 3 = [] := by
  have h : (Ex.free Ex.lost (State.new 6)).any (fun m => (m.stack 0).isEmpty && (m.stack 1).isEmpty &&
    decide (registered m.hist = [3, 4] ∧ m.hist.map (fun d => (d.who, d.num, d.upto)) = [(0, 2, 3), (1, 1, 2), (0, 0, 2)] ∧
    m.received 4 = [2] ∧ m.received 3 = [])) = true := by decide +kernel
  cases h1 : Ex.free Ex.lost (State.new 6) with
  | none => rw [h1] at h; cases h
  | some m =>
    rw [h1] at h
    simp only [Option.any_some, Bool.and_eq_true, List.isEmpty_iff, decide_eq_true_eq] at h
    refine ⟨m, Ex.free_run _ .start h1, fun t ht => ?_, h.2⟩
    match t, ht with
    | 0, _ => exact h.1.1
    | 1, _ => exact h.1.2

/-- Thread 0 constructs module 3; the manager sends in thread 1 and has read the pointer to module 3; thread 0 destroys it. -/
def Ex.gone : List (Lbl Ex.V) :=
  .call 0 (.make 3) :: List.replicate 5 (.act 0) ++ [.call 1 (.cast 0 (5 : BitVec 16)), .act 1, .act 1] ++
    .call 0 (.drop 3) :: List.replicate 9 (.act 0)

/-- **C134 refuted: a module is destroyed.** The destructor of a module returns; another thread that is sending then uses the
module. -/
theorem C134_gone_refuted : ∃ m : State Ex.V, Run 6 (fun _ l => l.Plain) m ∧ m.stack 0 = [] ∧ registered m.hist = [] ∧
    m.hist.length = 2 ∧ m.Undefined 1 := by
  have h : (Ex.free Ex.gone (State.new 6)).any (fun m => (m.stack 0).isEmpty && (decide (registered m.hist = [] ∧
    m.hist.length = 2) && Ex.undefinedB m 1)) = true := by decide +kernel
  cases h1 : Ex.free Ex.gone (State.new 6) with
  | none => rw [h1] at h; cases h
  | some m =>
    rw [h1] at h
    simp only [Option.any_some, Bool.and_eq_true, List.isEmpty_iff, decide_eq_true_eq] at h
    exact ⟨m, Ex.free_run _ .start h1, h.1, h.2.1.1, h.2.1.2, Ex.undefined_of h.2.2⟩

/-- Make these steps if they are possible and no data race, and none is a synchronisation. -/
def Ex.calm : List (Lbl W) → State W → Option (State W)
  | [], m => some m
  | .rel _ _ :: _, _ | .acq _ _ :: _, _ => none
  | l :: ls, m => if m.mem.racesB (fun _ => true) l.who (ops m l) then none else (step m l).bind (calm ls)

theorem Ex.calm_run : ∀ (ls : List (Lbl W)) {m m' : State W}, Run sources (fun m l => l.Plain ∧ ¬ Race m l) m →
    Ex.calm ls m = some m' → Run sources (fun m l => l.Plain ∧ ¬ Race m l) m'
  | [], m, m', r, e => by cases e; exact r
  | l :: ls, m, m', r, e => by
    cases l with
    | rel | acq => cases e
    | call | act | back =>
      simp only [calm] at e
      split at e
      · cases e
      · rename_i hr
        rw [Option.bind_eq_some_iff] at e
        obtain ⟨m1, h1, h2⟩ := e
        refine calm_run ls (.step m m1 _ r ⟨by trivial, fun h => hr ?_⟩ h1) h2
        rw [Mem.racesB_iff]
        simpa only [Race] using h

/-- C134_race_refuted: thread 0 constructs module 3, which then sends; thread 1 has begun to construct module 4 but not read the
count.  There is no data race so far, and all calls that have returned are those of thread 0. -/
example : ∃ m : State Ex.V, Run 6 (fun m l => l.Plain ∧ ¬ Race m l) m ∧ (m.stack 1).length = 1 ∧
    m.hist.map (fun d => (d.who, d.num, d.call.isMake)) = [(0, 2, false), (0, 0, true)] := by
  have h : (Ex.calm ((.call 0 (.make 3) :: List.replicate 5 (.act 0)) ++ [.call 1 (.make 4), .act 1] ++
      [.call 0 (.send 3 [1, 2, 3, 4]), .act 0, .act 0, .back 0] ++ List.replicate 6 (.act 0)) (State.new (W := Ex.V) 6)).any
      (fun m => decide ((m.stack 1).length = 1 ∧
        m.hist.map (fun d => (d.who, d.num, d.call.isMake)) = [(0, 2, false), (0, 0, true)])) = true := by decide +kernel
  obtain ⟨m, h1, h2⟩ := (Option.any_eq_true _ _).1 h
  exact ⟨m, Ex.calm_run _ .start h1, of_decide_eq_true h2⟩

end Verif.Mediator.Conc
