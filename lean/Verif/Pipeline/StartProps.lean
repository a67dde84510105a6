import Verif.Pipeline.Start
/-!
The workers of stages and pools use only members that live (C139), and thread starts that fail (C140).
-/
namespace Verif.Pipeline.Start
open Verif Verif.HB

variable {S : Shape} {m m' : State} {l : Lbl}

/-- The worker has been started and not been joined. -/
def State.active (m : State) (n : Nat) : Prop := m.wk n = .started ∨ m.wk n = .running ∨ m.wk n = .ended

instance (m : State) (n : Nat) : Decidable (m.active n) := by unfold State.active; infer_instance

/-- What makes a class safe: workers are started when all that they use has been initialised, and joined before anything is
destroyed. -/
structure Good (S : Shape) (first : List Member) (rest : List Act) (body : List Fin) (last : List Member) (ns : List Nat) : Prop where
  ctor : S.ctor = first.map .init ++ rest
  used : ∀ x, S.uses x = true → x ∈ first
  later : ∀ x, .init x ∈ rest → S.uses x = false
  vector : S.uses .threads = false
  dtor : S.dtor = body ++ last.map .destroy
  nodup : ns.Nodup
  spawns : ∀ n, .spawn n ∈ rest → n ∈ ns
  once : ∀ a n b, rest = a ++ .spawn n :: b → .spawn n ∉ a
  joins : ∀ n, .spawn n ∈ rest → .join n ∈ body
  body : ∀ x, .destroy x ∉ body
  kept : ∀ a n b, rest = a ++ .keep n :: b → .spawn n ∈ a
  fails : ∀ a n b, rest = a ++ .spawn n :: b → (∀ k, .spawn k ∉ a) ∨ (first.getLast? = some .threads ∧ ∀ x, .init x ∉ a)

/-- What holds of the workers at all times. -/
structure Facts (S : Shape) (m : State) : Prop where
  ok : m.mem.Ok
  silent : ∀ n, m.wk n = .none → ∀ a ∈ m.mem.log, a.who ≠ .worker n
  begun : ∀ n, m.active n → ∀ x, S.uses x = true → m.life x = .alive ∧
    ∀ a ∈ m.mem.log, a.wr = true → a.loc = .member x → ∃ p, a.who = .user p ∧ a.time ≤ m.mem.sync (.begun n) (.user p)
  entered : ∀ n, m.wk n = .running ∨ m.wk n = .ended → ∀ u, m.mem.sync (.begun n) u ≤ m.mem.clk (.worker n) u
  knew : ∀ n, m.active n → ∀ u, m.knew u ≤ m.mem.sync (.begun n) u
  ended : ∀ n, m.wk n = .ended → ∀ a ∈ m.mem.log, a.who = .worker n → a.time ≤ m.mem.sync (.done n) (.worker n)

theorem log_op {M : Mem Who Loc Obj} {t : Who} {o : Op Loc Obj} {a : Access Who Loc} (h : a ∈ (M.op t o).log) :
    a ∈ M.log ∨ ∃ loc wr tag, o = .acc loc wr tag ∧ a = ⟨t, M.clk t t + 1, loc, wr, tag⟩ := by
  cases o with
  | acq o => exact .inl h
  | rel o => exact .inl h
  | sto o => exact .inl h
  | acc loc wr tag =>
    rcases List.mem_cons.1 h with h | h
    · exact .inr ⟨loc, wr, tag, rfl, h⟩
    · exact .inl h

theorem sync_op {M : Mem Who Loc Obj} {t : Who} {o : Op Loc Obj} {k : Obj} (h1 : o ≠ .rel k) (h2 : ∀ j, o ≠ .sto j) :
    (M.op t o).sync k = M.sync k := by
  cases o with
  | acq o => rfl
  | rel o =>
    simp only [Mem.op]
    rw [put_ne]
    intro e
    exact h1 (by rw [e])
  | sto o => exact absurd rfl (h2 o)
  | acc loc wr tag => rfl

/-- Steps that only use memory. -/
theorem Facts.op (f : Facts S m) (t : Who) (o : Op Loc Obj) (h1 : ∀ n, o ≠ .rel (.begun n)) (h0 : ∀ j, o ≠ .sto j)
    (h2 : ∀ x tag, o = .acc (.member x) true tag → S.uses x = true → ∀ n, ¬ m.active n)
    (h3 : ∀ n, t = .worker n → m.wk n = .running) : Facts S { m with mem := m.mem.run t [o] } := by
  show Facts S { m with mem := m.mem.op t o }
  have hs : ∀ n, (m.mem.op t o).sync (.begun n) = m.mem.sync (.begun n) := fun n => sync_op (h1 n) h0
  refine ⟨f.ok.op t o, fun n hn a ha => ?_, fun n hn x hx => ⟨(f.begun n hn x hx).1, fun a ha hw hl => ?_⟩, fun n hn u => ?_,
    fun n hn u => ?_, fun n hn a ha hw => ?_⟩
  · rcases log_op ha with ha | ⟨loc, wr, tag, _, rfl⟩
    · exact f.silent n hn a ha
    · intro e
      have := h3 n e
      rw [show m.wk n = .none from hn] at this
      cases this
  · rcases log_op ha with ha | ⟨loc, wr, tag, rfl, rfl⟩
    · show ∃ p, _ ∧ _ ≤ (m.mem.op t o).sync _ _
      rw [hs]
      exact (f.begun n hn x hx).2 a ha hw hl
    · simp only at hw hl
      subst hw hl
      exact absurd hn (h2 x tag rfl hx n)
  · show (m.mem.op t o).sync _ u ≤ _
    rw [hs]
    exact Nat.le_trans (f.entered n hn u) (m.mem.op_clk_le t o _ u)
  · show _ ≤ (m.mem.op t o).sync _ u
    rw [hs]
    exact f.knew n hn u
  · rcases log_op ha with ha | ⟨loc, wr, tag, rfl, rfl⟩
    · exact Nat.le_trans (f.ended n hn a ha hw) (m.mem.op_sync_le t o _ _ (h0 _))
    · have := h3 n hw
      rw [show m.wk n = .ended from hn] at this
      cases this

/-- Nothing that `Facts` is about changes, or no worker is active. -/
theorem Facts.of (f : Facts S m) (hm : m'.mem = m.mem) (hw : m'.wk = m.wk) (hk : m'.knew = m.knew ∨ ∀ n, ¬ m.active n)
    (hl : (∀ x, S.uses x = true → m.life x = .alive → m'.life x = .alive) ∨ ∀ n, ¬ m.active n) : Facts S m' := by
  have ha : ∀ n, m'.active n ↔ m.active n := fun n => by unfold State.active; rw [hw]
  refine ⟨hm ▸ f.ok, ?_, fun n hn x hx => ?_, ?_, fun n hn => ?_, ?_⟩
  · rw [hm, hw]; exact f.silent
  · rcases hl with hl | hl
    · rw [hm]
      have := f.begun n ((ha n).1 hn) x hx
      exact ⟨hl x hx this.1, this.2⟩
    · exact absurd ((ha n).1 hn) (hl n)
  · rw [hm, hw]; exact f.entered
  · rcases hk with hk | hk
    · rw [hm, hk]; exact f.knew n ((ha n).1 hn)
    · exact absurd ((ha n).1 hn) (hk n)
  · rw [hm, hw]; exact f.ended

/-- What holds in each phase. -/
def Ph (first : List Member) (rest : List Act) (body : List Fin) (last : List Member) (m : State) : Phase → Prop
  | .fresh => (∀ n, m.wk n = .none) ∧ (∀ x, m.life x = .raw) ∧ ∀ a ∈ m.mem.log, ∀ x, a.wr = true → a.loc ≠ .member x
  | .building done todo => (∀ a ∈ m.mem.log, ∀ x, a.wr = true → a.loc = .member x → a.who = .user m.maker) ∧
    (∀ u, m.knew u ≤ m.mem.clk (.user m.maker) u) ∧ (∀ x, m.life x = .alive ↔ x ∈ done) ∧ (∀ x, m.life x ≠ .dead) ∧
    (∀ n, m.wk n ≠ .joined) ∧
    ((∃ f1 f2 : List Member, first = f1 ++ f2 ∧ done = f1.reverse ∧ todo = f2.map .init ++ rest ∧ ∀ n, m.wk n = .none) ∨
     (∃ (r1 r2 : List Act) (ini : List Member), rest = r1 ++ r2 ∧ todo = r2 ∧ done = ini ++ first.reverse ∧
        ((∃ x, .init x ∈ r1) ∨ ini = []) ∧ ∀ n, m.wk n ≠ .none ↔ .spawn n ∈ r1))
  | .up => ∀ n, m.wk n ≠ .joined
  | .closing p todo =>
    (∀ n, m.wk n = .joined → ∀ a ∈ m.mem.log, a.who = .worker n → a.time ≤ m.mem.clk (.user p) (.worker n)) ∧
    ((∃ b1 b2 : List Fin, body = b1 ++ b2 ∧ todo = b2 ++ last.map .destroy ∧ ∀ n, .join n ∈ b1 → ¬ m.active n) ∨
     (∃ l2 : List Member, todo = l2.map .destroy ∧ ∀ n, ¬ m.active n))
  | .unwinding todo => (∀ x, m.life x = .alive → x ∈ todo) ∧ (∀ n, m.wk n ≠ .joined) ∧
    ((∀ n, m.wk n = .none) ∨ ((∃ r, todo = .threads :: r) ∧ first.getLast? = some .threads))
  | .thrown => (∀ n, m.wk n = .none) ∧ ∀ x, m.life x ≠ .alive
  | .gone => ∀ n, ¬ m.active n
  | .aborted => (∃ n, m.active n) ∧ ((∃ n, .keep n ∈ rest) ∨ first.getLast? = some .threads)

/-- Everything. -/
structure Inv (S : Shape) (first : List Member) (rest : List Act) (body : List Fin) (last : List Member) (ns : List Nat)
    (m : State) : Prop where
  facts : Facts S m
  only : ∀ n, m.wk n ≠ .none → .spawn n ∈ rest
  count : m.joinable = ns.countP fun n => m.active n
  dead : ∀ x, m.life x = .dead → ∀ n, ¬ m.active n
  phase : Ph first rest body last m m.phase

variable {first last : List Member} {rest : List Act} {body : List Fin} {ns : List Nat}

theorem Ph.op {ph : Phase} (h : Ph first rest body last m ph) (t : Who) (o : Op Loc Obj)
    (h2 : ∀ x tag, o ≠ .acc (.member x) true tag) (h3 : ∀ n, t = .worker n → m.wk n ≠ .joined) :
    Ph first rest body last { m with mem := m.mem.run t [o] } ph := by
  show Ph first rest body last { m with mem := m.mem.op t o } ph
  cases ph with
  | building done todo =>
    obtain ⟨h4, h5, h6⟩ := h
    refine ⟨fun a ha x hw hl => ?_, fun u => Nat.le_trans (h5 u) (m.mem.op_clk_le t o _ u), h6⟩
    rcases log_op ha with ha | ⟨loc, wr, tag, rfl, rfl⟩
    · exact h4 a ha x hw hl
    · simp only at hw hl
      exact absurd rfl (hw ▸ hl ▸ h2 x tag)
  | closing p todo =>
    refine ⟨fun n hn a ha hw => ?_, h.2⟩
    rcases log_op ha with ha | ⟨loc, wr, tag, rfl, rfl⟩
    · exact Nat.le_trans (h.1 n hn a ha hw) (m.mem.op_clk_le t o _ _)
    · exact absurd hn (h3 n hw)
  | fresh =>
    refine ⟨h.1, h.2.1, fun a ha x hw hl => ?_⟩
    rcases log_op ha with ha | ⟨loc, wr, tag, rfl, rfl⟩
    · exact h.2.2 a ha x hw hl
    · simp only at hw hl
      exact absurd rfl (hw ▸ hl ▸ h2 x tag)
  | up => exact h
  | unwinding todo => exact h
  | thrown => exact h
  | gone => exact h
  | aborted => exact h

/-- Steps that only use memory. -/
theorem Inv.op (i : Inv S first rest body last ns m) (t : Who) (o : Op Loc Obj) (h1 : ∀ n, o ≠ .rel (.begun n))
    (h0 : ∀ j, o ≠ .sto j) (h2 : ∀ x tag, o ≠ .acc (.member x) true tag) (h3 : ∀ n, t = .worker n → m.wk n = .running) :
    Inv S first rest body last ns { m with mem := m.mem.run t [o] } :=
  ⟨i.facts.op t o h1 h0 (fun x tag e => absurd e (h2 x tag)) h3, i.only, i.count, i.dead,
    i.phase.op t o h2 fun n e h => by rw [h3 n e] at h; cases h⟩

theorem count_up {p q : Nat → Bool} {n : Nat} (hp : p n = false) (hq : q n = true) (h : ∀ k, k ≠ n → q k = p k) :
    ∀ {ns : List Nat}, ns.Nodup → n ∈ ns → ns.countP q = ns.countP p + 1
  | [], _, hn => by cases hn
  | k :: ns, hd, hn => by
    rw [List.nodup_cons] at hd
    rw [List.countP_cons, List.countP_cons]
    by_cases e : k = n
    · subst e
      have : ns.countP q = ns.countP p := List.countP_congr fun j hj => by
        rw [h j (fun e => hd.1 (e ▸ hj))]
      rw [hp, hq, this]
      simp
    · rw [count_up hp hq h hd.2 ((List.mem_cons.1 hn).resolve_left (Ne.symm e)), h k e]
      omega

theorem count_same {p q : Nat → Bool} (h : ∀ k, q k = p k) (ns : List Nat) : ns.countP q = ns.countP p := by
  rw [show q = p from funext h]

theorem none_active (hm : m.wk = fun _ => .none) (n : Nat) : ¬ m.active n := by
  unfold State.active
  rw [hm]
  simp

theorem not_active {n : Nat} (h : m.wk n = .none) : ¬ m.active n := by
  unfold State.active
  rw [h]
  simp

theorem holds_iff (i : Inv S first rest body last ns m) (g : Good S first rest body last ns) {x : Member} :
    m.holds x = true ↔ (x = .worker ∨ x = .threads) ∧ ∃ n, m.active n := by
  unfold State.holds
  simp only [Bool.decide_and, Bool.decide_or, Bool.and_eq_true, Bool.or_eq_true, decide_eq_true_eq]
  refine and_congr Iff.rfl ?_
  rw [i.count]
  constructor
  · intro h
    obtain ⟨n, _, hn⟩ := List.countP_pos_iff.1 (Nat.pos_of_ne_zero h)
    exact ⟨n, by simpa using hn⟩
  · rintro ⟨n, hn⟩
    refine Nat.ne_of_gt (List.countP_pos_iff.2 ⟨n, g.spawns n (i.only n ?_), by simpa using hn⟩)
    intro h
    exact not_active h hn

theorem inv_start : Inv S first rest body last ns .start := by
  have h : ∀ n, ¬ State.start.active n := fun n => not_active rfl
  refine ⟨⟨Mem.Ok.new, ?_, fun n hn => absurd hn (h n), ?_, fun n hn => absurd hn (h n), ?_⟩, ?_, ?_, ?_, ?_⟩
  · simp [State.start, Mem.new]
  · simp [State.start]
  · simp [State.start]
  · simp [State.start]
  · rw [List.countP_eq_zero.2]
    · rfl
    · intro n _
      simpa using h n
  · simp [State.start]
  · exact ⟨fun _ => rfl, fun _ => rfl, by simp [State.start, Mem.new]⟩

theorem active_of (hw : m'.wk = m.wk) (n : Nat) : m'.active n ↔ m.active n := by unfold State.active; rw [hw]

/-- Steps that leave the workers alone. -/
theorem Inv.of (i : Inv S first rest body last ns m) (hm : m'.mem = m.mem) (hw : m'.wk = m.wk)
    (hj : m'.joinable = m.joinable) (hk : m'.knew = m.knew ∨ ∀ n, ¬ m.active n)
    (hl : m'.life = m.life ∨ ((∀ x, S.uses x = true → m.life x = .alive → m'.life x = .alive) ∧
      ∀ x, m'.life x = .dead → m.life x = .dead) ∨ ∀ n, ¬ m.active n)
    (hp : Ph first rest body last m' m'.phase) : Inv S first rest body last ns m' := by
  refine ⟨i.facts.of hm hw hk ?_, fun n => by rw [hw]; exact i.only n, ?_, fun x hx n hn => ?_, hp⟩
  · rcases hl with hl | ⟨hl, _⟩ | hl
    · rw [hl]; exact .inl fun _ _ h => h
    · exact .inl hl
    · exact .inr hl
  · rw [hj, i.count]
    exact count_same (fun k => by simp only [active_of hw]) ns
  · rcases hl with hl | ⟨_, hl⟩ | hl
    · exact i.dead x (hl ▸ hx) n ((active_of hw n).1 hn)
    · exact i.dead x (hl x hx) n ((active_of hw n).1 hn)
    · exact hl n ((active_of hw n).1 hn)

theorem put_at {ι β : Type} [DecidableEq ι] (f : ι → β) (i j : ι) (v : β) : put f i v j = if j = i then v else f j := rfl

theorem building_cases {done : List Member} {todo : List Act} (h : Ph first rest body last m (.building done todo)) :
    (∃ f1 x f2, first = f1 ++ x :: f2 ∧ done = f1.reverse ∧ todo = .init x :: (f2.map .init ++ rest) ∧ ∀ n, m.wk n = .none) ∨
    (∃ (r1 r2 : List Act) (ini : List Member), rest = r1 ++ r2 ∧ todo = r2 ∧ done = ini ++ first.reverse ∧
        ((∃ x, .init x ∈ r1) ∨ ini = []) ∧ ∀ n, m.wk n ≠ .none ↔ .spawn n ∈ r1) := by
  obtain ⟨_, _, _, _, _, ⟨f1, f2, e1, e2, e3, e4⟩ | h⟩ := h
  · cases f2 with
    | nil => exact .inr ⟨[], rest, [], rfl, e3, by rw [e2, e1]; simp, .inr rfl, fun n => by simp [e4 n]⟩
    | cons x f2 => exact .inl ⟨f1, x, f2, e1, e2, e3, e4⟩
  · exact .inr h

theorem closing_done (g : Good S first rest body last ns) (i : Inv S first rest body last ns m) {p : Nat} {x : Member} {todo : List Fin}
    (h : Ph first rest body last m (.closing p (.destroy x :: todo))) :
    (∀ n, ¬ m.active n) ∧ ∃ l2 : List Member, todo = l2.map .destroy := by
  obtain ⟨_, ⟨b1, b2, e1, e2, e3⟩ | ⟨l2, e1, e2⟩⟩ := h
  · cases b2 with
    | nil =>
      refine ⟨fun n hn => e3 n ?_ hn, ?_⟩
      · have := g.joins n (i.only n fun h => not_active h hn)
        rw [e1] at this
        simpa using this
      · cases last with
        | nil => cases e2
        | cons y last =>
          simp only [List.nil_append, List.map_cons, List.cons.injEq] at e2
          exact ⟨last, e2.2⟩
    | cons b b2 =>
      simp only [List.cons_append, List.cons.injEq] at e2
      exact absurd (by rw [e1, ← e2.1]; simp) (g.body x)
  · cases l2 with
    | nil => cases e1
    | cons y l2 =>
      simp only [List.map_cons, List.cons.injEq] at e1
      exact ⟨e2, l2, e1.2⟩

theorem Inv.build (g : Good S first rest body last ns) (i : Inv S first rest body last ns m) (hs : step S m .build = some m') :
    Inv S first rest body last ns m' := by
  have hp := i.phase
  simp only [step] at hs
  split at hs
  · rename_i done e
    cases hs
    rw [e] at hp
    exact i.of rfl rfl rfl (.inl rfl) (.inl rfl) hp.2.2.2.2.1
  · rename_i done x todo e
    cases hs
    rw [e] at hp
    have hc := building_cases hp
    obtain ⟨p1, p2, p3, p4, p5, _⟩ := hp
    have hu : S.uses x = true → ∀ n, ¬ m.active n := by
      intro hx
      rcases hc with ⟨_, _, _, _, _, _, h⟩ | ⟨r1, r2, ini, e1, e2, _⟩
      · exact fun n => not_active (h n)
      · have := g.later x (by rw [e1, ← e2]; simp)
        rw [hx] at this
        cases this
    have f := i.facts.op (.user m.maker) (.acc (.member x) true 0) (by simp) (by simp)
      (fun y tag e h => by simp only [Op.acc.injEq, Loc.member.injEq] at e; exact hu (e.1 ▸ h)) (by simp)
    refine ⟨f.of rfl rfl (.inl rfl) (.inl fun y _ hy => ?_), i.only, i.count, fun y hy => ?_, ?_⟩
    · simp only [put_at]
      split
      · rfl
      · exact hy
    · simp only [put_at] at hy
      split at hy
      · cases hy
      · exact absurd hy (p4 y)
    · refine ⟨fun a ha y hw hl => ?_, fun u => Nat.le_trans (p2 u) (m.mem.clk_run _ _ u _), fun y => ?_, fun y => ?_, p5, ?_⟩
      · rcases log_op ha with ha | ⟨loc, wr, tag, _, rfl⟩
        · exact p1 a ha y hw hl
        · rfl
      · simp only [put_at, List.mem_cons]
        split
        · rename_i e
          simp [e]
        · rename_i ne
          simp [ne, p3]
      · simp only [put_at]
        split
        · simp
        · exact p4 y
      · rcases hc with ⟨f1, z, f2, e1, e2, e3, h⟩ | ⟨r1, r2, ini, e1, e2, e3, e4, h⟩
        · simp only [List.cons.injEq, Act.init.injEq] at e3
          exact .inl ⟨f1 ++ [x], f2, by rw [e1, e3.1]; simp, by rw [e2]; simp, e3.2, h⟩
        · exact .inr ⟨r1 ++ [.init x], todo, x :: ini, by rw [e1, ← e2]; simp, rfl, by rw [e3]; rfl, .inl ⟨x, by simp⟩,
            fun n => by rw [h n]; simp⟩
  · rename_i done n todo e
    cases hs
    rw [e] at hp
    have hc := building_cases hp
    obtain ⟨p1, p2, p3, p4, p5, _⟩ := hp
    rcases hc with ⟨_, _, _, _, _, e3, _⟩ | ⟨r1, r2, ini, e1, e2, e3, e4, h⟩
    · simp at e3
    have hn : m.wk n = .none := by
      have := g.once r1 n todo (by rw [e1, e2])
      exact Classical.byContradiction fun h' => this ((h n).1 h')
    have hsp : Act.spawn n ∈ rest := by rw [e1, ← e2]; simp
    have ha : ∀ {m1 : State}, m1.wk = put m.wk n .started → ∀ k, m1.active k ↔ k = n ∨ m.active k := by
      intro m1 e k
      unfold State.active
      simp only [e, put_at]
      split
      · rename_i e; simp [e]
      · rename_i ne; simp [ne]
    have hsy : ∀ k, k ≠ n → (m.mem.run (.user m.maker) [.rel (.begun n)]).sync (.begun k) = m.mem.sync (.begun k) :=
      fun k hk => sync_op (M := m.mem) (t := .user m.maker) (o := .rel (.begun n)) (by simp [Ne.symm hk]) (by simp)
    have hge : ∀ u, m.mem.clk (.user m.maker) u ≤ (m.mem.op (.user m.maker) (.rel (.begun n))).sync (.begun n) u := by
      intro u
      simp only [Mem.op, put_same]
      omega
    refine ⟨⟨i.facts.ok.run _ _, fun k hk a hal => ?_, fun k hk x hx => ?_, fun k hk u => ?_, fun k hk u => ?_, fun k hk a hal hw => ?_⟩,
      fun k hk => ?_, ?_, fun x hx => absurd hx (p4 x), ?_⟩
    · simp only [put_at] at hk
      split at hk
      · cases hk
      · exact i.facts.silent k hk a hal
    · by_cases ek : k = n
      · subst ek
        refine ⟨(p3 x).2 (by rw [e3]; simp [g.used x hx]), fun a hal hw hl => ⟨m.maker, p1 a hal x hw hl, ?_⟩⟩
        have := i.facts.ok.log a hal
        rw [p1 a hal x hw hl] at this
        exact Nat.le_trans this (hge _)
      · obtain ⟨h1, h2⟩ := i.facts.begun k (((ha rfl k).1 hk).resolve_left ek) x hx
        refine ⟨h1, ?_⟩
        simp only [hsy k ek]
        exact h2
    · have ek : k ≠ n := by
        intro ek
        subst ek
        simp at hk
      simp only [put_at, if_neg ek] at hk
      simp only [hsy k ek]
      exact i.facts.entered k hk u
    · by_cases ek : k = n
      · subst ek
        exact Nat.le_trans (p2 u) (hge u)
      · simp only [hsy k ek]
        exact i.facts.knew k (((ha rfl k).1 hk).resolve_left ek) u
    · have ek : k ≠ n := by
        intro ek
        subst ek
        simp at hk
      simp only [put_at, if_neg ek] at hk
      exact Nat.le_trans (i.facts.ended k hk a hal hw) (m.mem.op_sync_le (.user m.maker) (.rel (.begun n)) _ _ (by simp))
    · simp only [put_at] at hk
      split at hk
      · rename_i ek; rw [ek]; exact hsp
      · exact i.only k hk
    · show m.joinable + 1 = _
      rw [i.count]
      refine (count_up (n := n) ?_ ?_ (fun k hk => ?_) g.nodup (g.spawns n hsp)).symm
      · simpa using not_active hn
      · simpa using (ha rfl n).2 (.inl rfl)
      · exact decide_eq_decide.2 ((ha rfl k).trans (by simp [hk]))
    · refine ⟨p1, p2, p3, p4, fun k => ?_, .inr ⟨r1 ++ [.spawn n], todo, ini, by rw [e1, ← e2]; simp, rfl, e3, ?_, fun k => ?_⟩⟩
      · simp only [put_at]
        split
        · simp
        · exact p5 k
      · exact e4.imp (fun ⟨x, hx⟩ => ⟨x, List.mem_append_left _ hx⟩) id
      · simp only [put_at]
        split
        · rename_i ek; rw [ek]; simp
        · rename_i ek; rw [h k]; simp [ek]
  · rename_i done n todo e
    cases hs
    rw [e] at hp
    have hc := building_cases hp
    obtain ⟨p1, p2, p3, p4, p5, _⟩ := hp
    rcases hc with ⟨_, _, _, _, _, e3, _⟩ | ⟨r1, r2, ini, e1, e2, e3, e4, h⟩
    · simp at e3
    have f := i.facts.op (.user m.maker) (.acc (.member .threads) true 0) (by simp) (by simp)
      (fun y tag e h => by
        simp only [Op.acc.injEq, Loc.member.injEq] at e
        rw [← e.1, g.vector] at h
        cases h) (by simp)
    refine ⟨f.of rfl rfl (.inl rfl) (.inl fun y _ hy => hy), i.only, i.count, i.dead, ?_⟩
    refine ⟨fun a ha y hw hl => ?_, fun u => Nat.le_trans (p2 u) (m.mem.clk_run _ _ u _), p3, p4, p5,
      .inr ⟨r1 ++ [.keep n], todo, ini, by rw [e1, ← e2]; simp, rfl, e3, ?_, fun k => by rw [h k]; simp⟩⟩
    · rcases log_op ha with ha | ⟨loc, wr, tag, _, rfl⟩
      · exact p1 a ha y hw hl
      · rfl
    · exact e4.imp (fun ⟨x, hx⟩ => ⟨x, List.mem_append_left _ hx⟩) id
  · cases hs

theorem Inv.shut (g : Good S first rest body last ns) (i : Inv S first rest body last ns m) (hs : step S m .shut = some m') :
    Inv S first rest body last ns m' := by
  have hp := i.phase
  simp only [step] at hs
  split at hs
  · rename_i p e
    cases hs
    rw [e] at hp
    refine i.of rfl rfl rfl (.inl rfl) (.inl rfl) fun n hn => ?_
    obtain ⟨_, ⟨b1, b2, e1, e2, e3⟩ | ⟨l2, e1, e2⟩⟩ := hp
    · have hj := g.joins n (i.only n fun h => not_active h hn)
      have : b2 = [] := (List.append_eq_nil_iff.1 e2.symm).1
      rw [e1, this, List.append_nil] at hj
      exact e3 n hj hn
    · exact e2 n hn
  · rename_i p x todo e
    cases hs
    have j := i.op (.user p) (.acc (.member x) false 0) (by simp) (by simp) (by simp) (by simp)
    have hp := j.phase
    simp only [e] at hp
    refine j.of rfl rfl rfl (.inl rfl) (.inl rfl) ⟨hp.1, ?_⟩
    obtain ⟨_, ⟨b1, b2, e1, e2, e3⟩ | ⟨l2, e1, e2⟩⟩ := hp
    · cases b2 with
      | nil => cases last <;> simp at e2
      | cons b b2 =>
        simp only [List.cons_append, List.cons.injEq] at e2
        refine .inl ⟨b1 ++ [b], b2, by rw [e1]; simp, e2.2, fun n hn => ?_⟩
        rw [← e2.1] at hn
        exact e3 n (by simpa using hn)
    · cases l2 <;> simp at e1
  · rename_i p n todo e
    split at hs
    · rename_i hn
      cases hs
      rw [e] at hp
      have ha : ∀ {m1 : State}, m1.wk = put m.wk n .joined → ∀ k, m1.active k ↔ k ≠ n ∧ m.active k := by
        intro m1 e k
        unfold State.active
        simp only [e, put_at]
        split
        · rename_i e; simp [e]
        · rename_i ne; simp [ne]
      have f := i.facts.op (.user p) (.acq (.done n)) (by simp) (by simp) (by simp) (by simp)
      refine ⟨⟨f.ok, fun k hk => ?_, fun k hk => f.begun k ((ha rfl k).1 hk).2, fun k hk => ?_, fun k hk => f.knew k ((ha rfl k).1 hk).2,
        fun k hk => ?_⟩, fun k hk => ?_, ?_, fun x hx k hk => i.dead x hx k ((ha rfl k).1 hk).2, fun k hk a hal hw => ?_, ?_⟩
      · simp only [put_at] at hk
        split at hk
        · cases hk
        · exact f.silent k hk
      · simp only [put_at] at hk
        split at hk
        · simp at hk
        · exact f.entered k hk
      · simp only [put_at] at hk
        split at hk
        · simp at hk
        · exact f.ended k hk
      · simp only [put_at] at hk
        split at hk
        · rename_i ek; rw [ek]; exact i.only n (by rw [hn]; simp)
        · exact i.only k hk
      · show m.joinable - 1 = _
        have : ns.countP (fun k => m.active k) = ns.countP (fun k => k ≠ n ∧ m.active k) + 1 := by
          refine count_up (n := n) (by simp) ?_ (fun k hk => by simp [hk]) g.nodup (g.spawns n (i.only n (by rw [hn]; simp)))
          simp [State.active, hn]
        rw [i.count, this, Nat.add_sub_cancel]
        exact count_same (fun k => (decide_eq_decide.2 (ha rfl k)).symm) ns
      · by_cases ek : k = n
        · subst ek
          refine Nat.le_trans (i.facts.ended k hn a hal hw) ?_
          simp only [Mem.run, Mem.op, put_same]
          omega
        · simp only [put_at, if_neg ek] at hk
          exact Nat.le_trans (hp.1 k hk a hal hw) (m.mem.clk_run _ _ _ _)
      · obtain ⟨_, ⟨b1, b2, e1, e2, e3⟩ | ⟨l2, e1, e2⟩⟩ := hp
        · cases b2 with
          | nil => cases last <;> simp at e2
          | cons b b2 =>
            simp only [List.cons_append, List.cons.injEq] at e2
            refine .inl ⟨b1 ++ [b], b2, by rw [e1]; simp, e2.2, fun k hk hka => ?_⟩
            rw [← e2.1] at hk
            obtain ⟨h1, h2⟩ := (ha rfl k).1 hka
            refine e3 k ?_ h2
            simpa [h1] using hk
        · cases l2 <;> simp at e1
    · cases hs
  · rename_i p x todo e
    rw [e] at hp
    obtain ⟨hno, l2, hl2⟩ := closing_done g i hp
    split at hs
    · rename_i hh
      obtain ⟨_, n, hn⟩ := (holds_iff i g).1 hh
      exact absurd hn (hno n)
    · cases hs
      have f := i.facts.op (.user p) (.acc (.member x) true 0) (by simp) (by simp) (fun _ _ _ _ => hno) (by simp)
      refine ⟨f.of rfl rfl (.inl rfl) (.inr hno), i.only, i.count, fun y hy => hno, fun n hn a ha hw => ?_, .inr ⟨l2, hl2, hno⟩⟩
      rcases log_op ha with ha | ⟨loc, wr, tag, _, rfl⟩
      · exact Nat.le_trans (hp.1 n hn a ha hw) (m.mem.clk_run _ _ _ _)
      · cases hw
  · cases hs

theorem last_reverse {xs : List Member} (h : xs.getLast? = some x) : ∃ r, xs.reverse = x :: r := by
  rw [← List.head?_reverse] at h
  cases hx : xs.reverse with
  | nil => rw [hx] at h; cases h
  | cons y r =>
    rw [hx] at h
    cases h
    exact ⟨r, rfl⟩

theorem Inv.unwind (g : Good S first rest body last ns) (i : Inv S first rest body last ns m) (hs : step S m .unwind = some m') :
    Inv S first rest body last ns m' := by
  have hp := i.phase
  simp only [step] at hs
  split at hs
  · rename_i e
    cases hs
    rw [e] at hp
    refine i.of rfl rfl rfl (.inl rfl) (.inl rfl) ⟨?_, fun x hx => ?_⟩
    · obtain ⟨_, _, h | ⟨⟨r, h⟩, _⟩⟩ := hp
      · exact h
      · cases h
    · have := hp.1 x hx
      cases this
  · rename_i x todo e
    rw [e] at hp
    split at hs
    · rename_i hh
      cases hs
      obtain ⟨_, n, hn⟩ := (holds_iff i g).1 hh
      refine i.of rfl rfl rfl (.inl rfl) (.inl rfl) ⟨⟨n, hn⟩, .inr ?_⟩
      rcases hp.2.2 with h | ⟨_, h⟩
      · exact absurd hn (not_active (h n))
      · exact h
    · rename_i hh
      cases hs
      rw [holds_iff i g] at hh
      have hn : ∀ n, m.wk n = .none := by
        obtain ⟨_, h3, h | ⟨⟨r, h⟩, _⟩⟩ := hp
        · exact h
        · intro n
          simp only [List.cons.injEq] at h
          refine Classical.byContradiction fun hn => hh ⟨.inr h.1, n, ?_⟩
          unfold State.active
          have := h3 n
          cases hw : m.wk n <;> simp_all
      have hno : ∀ n, ¬ m.active n := fun n => not_active (hn n)
      have f := i.facts.op (.user m.maker) (.acc (.member x) true 0) (by simp) (by simp) (fun _ _ _ _ => hno) (by simp)
      refine ⟨f.of rfl rfl (.inl rfl) (.inr hno), i.only, i.count, fun y hy => hno, fun y hy => ?_, hp.2.1, .inl hn⟩
      simp only [put_at] at hy
      split at hy
      · cases hy
      · rename_i ne
        exact (List.mem_cons.1 (hp.1 y hy)).resolve_left ne
  · cases hs

theorem Inv.fail (g : Good S first rest body last ns) (i : Inv S first rest body last ns m) (hs : step S m .fail = some m') :
    Inv S first rest body last ns m' := by
  have hp := i.phase
  simp only [step] at hs
  split at hs
  · rename_i done n todo e
    cases hs
    rw [e] at hp
    have hc := building_cases hp
    refine i.of rfl rfl rfl (.inl rfl) (.inl rfl) ⟨fun x hx => (hp.2.2.1 x).1 hx, hp.2.2.2.2.1, ?_⟩
    rcases hc with ⟨_, _, _, _, _, e3, _⟩ | ⟨r1, r2, ini, e1, e2, e3, e4, h⟩
    · simp at e3
    rcases g.fails r1 n todo (by rw [e1, e2]) with h1 | ⟨h1, h2⟩
    · exact .inl fun n => Classical.byContradiction fun hn => h1 n ((h n).1 hn)
    · have : ini = [] := e4.resolve_left fun ⟨x, hx⟩ => h2 x hx
      obtain ⟨r, hr⟩ := last_reverse h1
      exact .inr ⟨⟨r, by rw [e3, this, hr]; rfl⟩, h1⟩
  · rename_i done n todo e
    cases hs
    rw [e] at hp
    have hc := building_cases hp
    rcases hc with ⟨_, _, _, _, _, e3, _⟩ | ⟨r1, r2, ini, e1, e2, e3, e4, h⟩
    · simp at e3
    refine i.of rfl rfl rfl (.inl rfl) (.inl rfl) ⟨⟨n, ?_⟩, .inl ⟨n, by rw [e1, ← e2]; simp⟩⟩
    have h1 := (h n).2 (g.kept r1 n todo (by rw [e1, e2]))
    have h2 := hp.2.2.2.2.1 n
    unfold State.active
    cases hw : m.wk n <;> simp_all
  · cases hs

theorem Inv.enter (i : Inv S first rest body last ns m) {n : Nat} (hs : step S m (.enter n) = some m') :
    Inv S first rest body last ns m' := by
  simp only [step] at hs
  split at hs
  · rename_i hn
    cases hs
    have ha : ∀ {m1 : State}, m1.wk = put m.wk n .running → ∀ k, m1.active k ↔ m.active k := by
      intro m1 e k
      unfold State.active
      simp only [e, put_at]
      split
      · rename_i e; simp [e, hn.1]
      · rfl
    have hj : ∀ {k}, (put m.wk n .running) k = .joined ↔ m.wk k = .joined := by
      intro k
      simp only [put_at]
      split
      · rename_i e; simp [e, hn.1]
      · rfl
    have hz : ∀ {k}, (put m.wk n .running) k = .none ↔ m.wk k = .none := by
      intro k
      simp only [put_at]
      split
      · rename_i e; simp [e, hn.1]
      · rfl
    refine ⟨⟨i.facts.ok.run _ _, fun k hk => i.facts.silent k (hz.1 hk), fun k hk => i.facts.begun k ((ha rfl k).1 hk), fun k hk u => ?_,
      fun k hk => i.facts.knew k ((ha rfl k).1 hk), fun k hk => ?_⟩, fun k hk => i.only k fun h => hk (hz.2 h), ?_,
      fun x hx k hk => i.dead x hx k ((ha rfl k).1 hk), ?_⟩
    · by_cases ek : k = n
      · subst ek
        simp only [Mem.run, Mem.op, put_same]
        omega
      · simp only [put_at, if_neg ek] at hk
        exact Nat.le_trans (i.facts.entered k hk u) (m.mem.clk_run (.worker n) (.worker k) u [.acq (.begun n)])
    · simp only [put_at] at hk
      split at hk
      · cases hk
      · exact i.facts.ended k hk
    · rw [i.count]
      exact (count_same (fun k => decide_eq_decide.2 (ha rfl k)) ns).symm
    · have hp := i.phase.op (.worker n) (.acq (.begun n)) (by simp) (fun k e => by cases e; rw [hn.1]; simp)
      show Ph _ _ _ _ _ m.phase
      cases e : m.phase <;> rw [e] at hp
      · exact ⟨fun k => hz.2 (hp.1 k), hp.2⟩
      · obtain ⟨p1, p2, p3, p4, p5, p6⟩ := hp
        refine ⟨p1, p2, p3, p4, fun k hk => p5 k (hj.1 hk), ?_⟩
        rcases p6 with ⟨f1, f2, e1, e2, e3, h⟩ | ⟨r1, r2, ini, e1, e2, e3, e4, h⟩
        · exact .inl ⟨f1, f2, e1, e2, e3, fun k => hz.2 (h k)⟩
        · exact .inr ⟨r1, r2, ini, e1, e2, e3, e4, fun k => (not_congr hz).trans (h k)⟩
      · exact fun k hk => hp k (hj.1 hk)
      · refine ⟨fun k hk => hp.1 k (hj.1 hk), ?_⟩
        rcases hp.2 with ⟨b1, b2, e1, e2, e3⟩ | ⟨l2, e1, e2⟩
        · exact .inl ⟨b1, b2, e1, e2, fun k hk h => e3 k hk ((ha rfl k).1 h)⟩
        · exact .inr ⟨l2, e1, fun k h => e2 k ((ha rfl k).1 h)⟩
      · exact ⟨hp.1, fun k hk => hp.2.1 k (hj.1 hk), hp.2.2.imp (fun h k => hz.2 (h k)) id⟩
      · exact ⟨fun k => hz.2 (hp.1 k), hp.2⟩
      · exact fun k hk => hp k ((ha rfl k).1 hk)
      · obtain ⟨⟨k, hk⟩, h⟩ := hp
        exact ⟨⟨k, (ha rfl k).2 hk⟩, h⟩
  · cases hs

theorem Inv.leave (i : Inv S first rest body last ns m) {n : Nat} (hs : step S m (.leave n) = some m') :
    Inv S first rest body last ns m' := by
  simp only [step] at hs
  split at hs
  · rename_i hn
    cases hs
    have ha : ∀ {m1 : State}, m1.wk = put m.wk n .ended → ∀ k, m1.active k ↔ m.active k := by
      intro m1 e k
      unfold State.active
      simp only [e, put_at]
      split
      · rename_i e; simp [e, hn.1]
      · rfl
    have hj : ∀ {k}, (put m.wk n .ended) k = .joined ↔ m.wk k = .joined := by
      intro k
      simp only [put_at]
      split
      · rename_i e; simp [e, hn.1]
      · rfl
    have hz : ∀ {k}, (put m.wk n .ended) k = .none ↔ m.wk k = .none := by
      intro k
      simp only [put_at]
      split
      · rename_i e; simp [e, hn.1]
      · rfl
    have f := i.facts.op (.worker n) (.rel (.done n)) (by simp) (by simp) (by simp) (fun k e => by cases e; exact hn.1)
    refine ⟨⟨f.ok, fun k hk => f.silent k (hz.1 hk), fun k hk => f.begun k ((ha rfl k).1 hk), fun k hk u => ?_,
      fun k hk => f.knew k ((ha rfl k).1 hk), fun k hk a hal hw => ?_⟩, fun k hk => i.only k fun h => hk (hz.2 h), ?_,
      fun x hx k hk => i.dead x hx k ((ha rfl k).1 hk), ?_⟩
    · refine f.entered k ?_ u
      by_cases ek : k = n
      · subst ek; exact .inl hn.1
      · simpa only [put_at, if_neg ek] using hk
    · by_cases ek : k = n
      · subst ek
        have h1 : a.time ≤ m.mem.clk a.who a.who := i.facts.ok.log a hal
        rw [hw] at h1
        simp only [Mem.run, Mem.op, put_same]
        omega
      · simp only [put_at, if_neg ek] at hk
        exact f.ended k hk a hal hw
    · rw [i.count]
      exact (count_same (fun k => decide_eq_decide.2 (ha rfl k)) ns).symm
    · have hp := i.phase.op (.worker n) (.rel (.done n)) (by simp) (fun k e => by cases e; rw [hn.1]; simp)
      show Ph _ _ _ _ _ m.phase
      cases e : m.phase <;> rw [e] at hp
      · exact ⟨fun k => hz.2 (hp.1 k), hp.2⟩
      · obtain ⟨p1, p2, p3, p4, p5, p6⟩ := hp
        refine ⟨p1, p2, p3, p4, fun k hk => p5 k (hj.1 hk), ?_⟩
        rcases p6 with ⟨f1, f2, e1, e2, e3, h⟩ | ⟨r1, r2, ini, e1, e2, e3, e4, h⟩
        · exact .inl ⟨f1, f2, e1, e2, e3, fun k => hz.2 (h k)⟩
        · exact .inr ⟨r1, r2, ini, e1, e2, e3, e4, fun k => (not_congr hz).trans (h k)⟩
      · exact fun k hk => hp k (hj.1 hk)
      · refine ⟨fun k hk => hp.1 k (hj.1 hk), ?_⟩
        rcases hp.2 with ⟨b1, b2, e1, e2, e3⟩ | ⟨l2, e1, e2⟩
        · exact .inl ⟨b1, b2, e1, e2, fun k hk h => e3 k hk ((ha rfl k).1 h)⟩
        · exact .inr ⟨l2, e1, fun k h => e2 k ((ha rfl k).1 h)⟩
      · exact ⟨hp.1, fun k hk => hp.2.1 k (hj.1 hk), hp.2.2.imp (fun h k => hz.2 (h k)) id⟩
      · exact ⟨fun k => hz.2 (hp.1 k), hp.2⟩
      · exact fun k hk => hp k ((ha rfl k).1 hk)
      · obtain ⟨⟨k, hk⟩, h⟩ := hp
        exact ⟨⟨k, (ha rfl k).2 hk⟩, h⟩
  · cases hs

theorem Inv.step (g : Good S first rest body last ns) (i : Inv S first rest body last ns m) (hs : step S m l = some m') :
    Inv S first rest body last ns m' := by
  cases l with
  | touch p d wr =>
    simp only [Start.step] at hs
    split at hs
    · cases hs
    · cases hs
      exact i.op _ _ (by simp) (by simp) (by simp) (by simp)
  | rel p k =>
    simp only [Start.step] at hs
    split at hs
    · cases hs
    · cases hs
      exact i.op _ _ (by simp) (by simp) (by simp) (by simp)
  | acq p k =>
    simp only [Start.step] at hs
    split at hs
    · cases hs
    · cases hs
      exact i.op _ _ (by simp) (by simp) (by simp) (by simp)
  | make p =>
    simp only [Start.step] at hs
    split at hs
    · rename_i e
      cases hs
      have hp := i.phase
      rw [e] at hp
      refine i.of rfl rfl rfl (.inr fun n => not_active (hp.1 n)) (.inl rfl) ?_
      refine ⟨fun a ha x hw hl => absurd hl (hp.2.2 a ha x hw), fun u => Nat.le_refl _, fun x => ?_, fun x => ?_, fun n => ?_,
        .inl ⟨[], first, rfl, rfl, g.ctor, hp.1⟩⟩
      · rw [show m.life x = .raw from hp.2.1 x]
        simp
      · rw [show m.life x = .raw from hp.2.1 x]
        simp
      · rw [show m.wk n = .none from hp.1 n]
        simp
    · cases hs
  | build => exact i.build g hs
  | fail => exact i.fail g hs
  | unwind => exact i.unwind g hs
  | call p x =>
    simp only [Start.step] at hs
    split at hs
    · cases hs
      exact i.op _ _ (by simp) (by simp) (by simp) (by simp)
    · cases hs
  | close p =>
    simp only [Start.step] at hs
    split at hs
    · rename_i e
      cases hs
      have hp := i.phase
      rw [e] at hp
      exact i.of rfl rfl rfl (.inl rfl) (.inl rfl) ⟨fun n hn => absurd hn (hp n), .inl ⟨[], body, rfl, g.dtor, by simp⟩⟩
    · cases hs
  | shut => exact i.shut g hs
  | enter n => exact i.enter hs
  | use n x =>
    simp only [Start.step] at hs
    split at hs
    · rename_i h
      cases hs
      exact i.op _ _ (by simp) (by simp) (by simp) (fun k e => by cases e; exact h.1)
    · cases hs
  | handler n d wr =>
    simp only [Start.step] at hs
    split at hs
    · rename_i h
      cases hs
      exact i.op _ _ (by simp) (by simp) (by simp) (fun k e => by cases e; exact h.1)
    · cases hs
  | leave n => exact i.leave hs

theorem Run.inv (g : Good S first rest body last ns) (r : Run S m) : Inv S first rest body last ns m := by
  induction r with
  | start => exact inv_start
  | step _ hs ih => exact ih.step g hs

theorem good_stage : Good stage [.tail, .closed, .queue, .func, .stat] [.spawn 0, .init .worker] [.use .closed, .use .worker, .join 0]
    [.worker, .stat, .func, .queue, .closed, .tail] [0] where
  ctor := rfl
  used x := by cases x <;> simp [stage]
  later x := by cases x <;> simp [stage]
  vector := rfl
  dtor := rfl
  nodup := by simp
  spawns n := by simp
  once a n b h := by
    cases a with
    | nil => simp
    | cons x a =>
      cases a with
      | nil => simp at h
      | cons y a => simp at h
  joins n := by simp
  body x := by simp
  kept a n b h := by
    have : Act.keep n ∈ [Act.spawn 0, Act.init .worker] := by rw [h]; simp
    simp at this
  fails a n b h := by
    cases a with
    | nil => exact .inl (by simp)
    | cons x a =>
      cases a with
      | nil => simp at h
      | cons y a => simp at h

theorem spawn_mem {size n : Nat} : Act.spawn n ∈ (List.range size).flatMap (fun n => [Act.spawn n, Act.keep n]) ↔ n < size := by
  simp

theorem spawn_once (k : Nat) : ∀ (size : Nat) (a b : List Act) (n : Nat),
    (List.range' k size).flatMap (fun n => [Act.spawn n, Act.keep n]) = a ++ .spawn n :: b → Act.spawn n ∉ a := by
  intro size
  induction size generalizing k with
  | zero => intro a b n h; simp at h
  | succ size ih =>
    intro a b n h
    rw [List.range'_succ, List.flatMap_cons] at h
    cases a with
    | nil => simp
    | cons x a =>
      cases a with
      | nil => simp at h
      | cons y a =>
        simp only [List.cons_append, List.nil_append, List.cons.injEq] at h
        obtain ⟨h1, h2, h3⟩ := h
        have hn : Act.spawn n ∈ (List.range' (k + 1) size).flatMap (fun n => [Act.spawn n, Act.keep n]) := by rw [h3]; simp
        simp only [List.mem_flatMap, List.mem_range'_1, List.mem_cons, Act.spawn.injEq, reduceCtorEq, List.not_mem_nil, or_false] at hn
        obtain ⟨j, hj, rfl⟩ := hn
        rw [List.mem_cons, List.mem_cons]
        rintro (e | e | e)
        · rw [← h1] at e
          cases e
          omega
        · rw [← h2] at e
          cases e
        · exact ih (k + 1) a b n h3 e

theorem kept_after (k : Nat) : ∀ (size : Nat) (a b : List Act) (n : Nat),
    (List.range' k size).flatMap (fun n => [Act.spawn n, Act.keep n]) = a ++ .keep n :: b → Act.spawn n ∈ a := by
  intro size
  induction size generalizing k with
  | zero => intro a b n h; simp at h
  | succ size ih =>
    intro a b n h
    rw [List.range'_succ, List.flatMap_cons] at h
    cases a with
    | nil => simp at h
    | cons x a =>
      cases a with
      | nil =>
        simp only [List.cons_append, List.nil_append, List.cons.injEq, Act.keep.injEq] at h
        rw [← h.1, h.2.1]
        simp
      | cons y a =>
        simp only [List.cons_append, List.nil_append, List.cons.injEq] at h
        exact List.mem_cons_of_mem _ (List.mem_cons_of_mem _ (ih (k + 1) a b n h.2.2))

theorem good_pool (size : Nat) : Good (pool size) [.closed, .func, .stat, .size, .pool, .threads]
    ((List.range size).flatMap fun n => [.spawn n, .keep n]) ([.use .closed, .use .threads] ++ (List.range size).map .join)
    [.threads, .pool, .size, .stat, .func, .closed] (List.range size) where
  ctor := rfl
  used x := by cases x <;> simp [pool]
  later x h := by simp at h
  vector := rfl
  dtor := rfl
  nodup := List.nodup_range
  spawns n h := by simpa using h
  once a n b h := spawn_once 0 size a b n (by rw [← h, List.range_eq_range'])
  joins n h := by simpa using h
  body x := by simp
  kept a n b h := kept_after 0 size a b n (by rw [← h, List.range_eq_range'])
  fails a n b h := by
    refine .inr ⟨rfl, fun x hx => ?_⟩
    have : Act.init x ∈ (List.range size).flatMap (fun n => [Act.spawn n, Act.keep n]) := by rw [h]; simp [hx]
    simp at this

/-- What C139 says about a class, whatever has happened: a worker that uses a member finds it alive and does not race with its
initialisation or destruction; a member is destroyed when all that the workers did is over and known to the thread that destroys it;
when a member has been destroyed no worker uses members any more; and what came before the constructor is visible to the workers. -/
structure Sound (S : Shape) (m : State) : Prop where
  alive : ∀ n x m', step S m (.use n x) = some m' → m.life x = .alive ∧ ¬ m.mem.Conflict (.worker n) (.member x) false
  destroyed : ∀ l m' x, step S m l = some m' → m.life x ≠ .dead → m'.life x = .dead → ∃ p, m'.mem.log.head? = some ⟨.user p,
    m'.mem.clk (.user p) (.user p), .member x, true, 0⟩ ∧ ∀ a ∈ m.mem.log, ∀ n, a.who = .worker n → a.time ≤ m.mem.clk (.user p) (.worker n)
  over : ∀ x, m.life x = .dead → ∀ n y, step S m (.use n y) = none
  before : ∀ n, m.wk n = .running → ∀ a ∈ m.mem.log, a.time ≤ m.knew a.who → a.time ≤ m.mem.clk (.worker n) a.who

theorem Inv.sound (g : Good S first rest body last ns) (i : Inv S first rest body last ns m) : Sound S m := by
  refine ⟨fun n x m' hs => ?_, fun l m' x hs hx hd => ?_, fun x hx n y => ?_, fun n hn a ha h => ?_⟩
  · simp only [Start.step] at hs
    split at hs
    · rename_i h
      obtain ⟨h1, h2⟩ := i.facts.begun n (.inr (.inl h.1)) x h.2.1
      refine ⟨h1, ?_⟩
      rintro ⟨a, ha, hl, hw, ht⟩
      obtain ⟨p, hp, hle⟩ := h2 a ha (hw.resolve_right (by simp)) hl
      have := i.facts.entered n (.inl h.1) (.user p)
      rw [hp] at ht
      omega
    · cases hs
  · have known : ∀ {p : Nat}, ((∀ n, ¬ m.active n) ∧ ∀ n, m.wk n = .joined → ∀ a ∈ m.mem.log, a.who = .worker n →
        a.time ≤ m.mem.clk (.user p) (.worker n)) →
        ∀ a ∈ m.mem.log, ∀ n, a.who = .worker n → a.time ≤ m.mem.clk (.user p) (.worker n) := by
      rintro p ⟨h1, h2⟩ a ha n hw
      have := h1 n
      unfold State.active at this
      cases e : m.wk n with
      | none => exact absurd hw (i.facts.silent n e a ha)
      | joined => exact h2 n e a ha hw
      | started => simp [e] at this
      | running => simp [e] at this
      | ended => simp [e] at this
    have hp := i.phase
    cases l with
    | build =>
      simp only [Start.step] at hs
      split at hs <;> cases hs
      · exact absurd hd hx
      · simp only [put_at] at hd
        split at hd
        · cases hd
        · exact absurd hd hx
      · exact absurd hd hx
      · exact absurd hd hx
    | unwind =>
      have j := i.unwind g hs
      simp only [Start.step] at hs
      split at hs
      · cases hs
        exact absurd hd hx
      · rename_i y todo e
        split at hs
        · cases hs
          exact absurd hd hx
        · cases hs
          simp only [put_at] at hd
          split at hd
          · rename_i exy
            subst exy
            rw [e] at hp
            refine ⟨m.maker, by simp [Mem.run, Mem.op], known ⟨?_, fun n hn => absurd hn (hp.2.1 n)⟩⟩
            exact fun n hn => j.dead x (put_same _ _ _) n hn
          · exact absurd hd hx
      · cases hs
    | shut =>
      simp only [Start.step] at hs
      split at hs
      · cases hs
        exact absurd hd hx
      · cases hs
        exact absurd hd hx
      · split at hs
        · cases hs
          exact absurd hd hx
        · cases hs
      · rename_i p y todo e
        split at hs
        · cases hs
          exact absurd hd hx
        · cases hs
          simp only [put_at] at hd
          split at hd
          · rename_i exy
            subst exy
            rw [e] at hp
            exact ⟨p, by simp [Mem.run, Mem.op], known ⟨(closing_done g i hp).1, hp.1⟩⟩
          · exact absurd hd hx
      · cases hs
    | fail =>
      simp only [Start.step] at hs
      split at hs <;> cases hs <;> exact absurd hd hx
    | touch p d wr => simp only [Start.step] at hs; split at hs <;> cases hs; exact absurd hd hx
    | rel p k => simp only [Start.step] at hs; split at hs <;> cases hs; exact absurd hd hx
    | acq p k => simp only [Start.step] at hs; split at hs <;> cases hs; exact absurd hd hx
    | make p => simp only [Start.step] at hs; split at hs <;> cases hs; exact absurd hd hx
    | call p y => simp only [Start.step] at hs; split at hs <;> cases hs; exact absurd hd hx
    | close p => simp only [Start.step] at hs; split at hs <;> cases hs; exact absurd hd hx
    | enter n => simp only [Start.step] at hs; split at hs <;> cases hs; exact absurd hd hx
    | use n y => simp only [Start.step] at hs; split at hs <;> cases hs; exact absurd hd hx
    | handler n d wr => simp only [Start.step] at hs; split at hs <;> cases hs; exact absurd hd hx
    | leave n => simp only [Start.step] at hs; split at hs <;> cases hs; exact absurd hd hx
  · simp only [Start.step]
    rw [if_neg]
    rintro ⟨h, _⟩
    exact i.dead x hx n (.inr (.inl h))
  · exact Nat.le_trans h (Nat.le_trans (i.facts.knew n (.inr (.inl hn)) a.who) (i.facts.entered n (.inl hn) a.who))

/-- Which members live, phase by phase. -/
def Lives (S : Shape) (m : State) : Phase → Prop
  | .fresh => ∀ x, m.life x = .raw
  | .building done todo => (∀ x, m.life x = .alive ↔ x ∈ done) ∧ (∀ x, m.life x ≠ .dead) ∧
    ∃ pre, S.ctor = pre ++ todo ∧ ∀ x, .init x ∈ pre ↔ x ∈ done
  | .up => (∀ x, m.life x = .alive ↔ .init x ∈ S.ctor) ∧ ∀ x, m.life x ≠ .dead
  | .closing _ todo => ∀ x, m.life x = .alive → .destroy x ∈ todo
  | .gone => ∀ x, m.life x ≠ .alive
  | _ => True

theorem Lives.step (hd : ∀ x, .init x ∈ S.ctor → .destroy x ∈ S.dtor) (h : Lives S m m.phase) (hs : step S m l = some m') :
    Lives S m' m'.phase ∧ (∀ x, m.life x = .alive → m'.life x ≠ .raw) ∧ ∀ x, m.life x = .dead → m'.life x = .dead := by
  have same : m'.life = m.life → (∀ x, m.life x = .alive → m'.life x ≠ .raw) ∧ ∀ x, m.life x = .dead → m'.life x = .dead := by
    intro e
    rw [e]
    exact ⟨fun x hx => by rw [hx]; simp, fun _ h => h⟩
  have keep : m'.life = m.life → m'.phase = m.phase →
      Lives S m' m'.phase ∧ (∀ x, m.life x = .alive → m'.life x ≠ .raw) ∧ ∀ x, m.life x = .dead → m'.life x = .dead := by
    intro e1 e2
    refine ⟨?_, same e1⟩
    rw [e2]
    cases e : m.phase <;> rw [e] at h <;> simp only [Lives, e1] at h ⊢ <;> exact h
  have dies : ∀ {x : Member}, m'.life = put m.life x .dead →
      (∀ x, m.life x = .alive → m'.life x ≠ .raw) ∧ ∀ x, m.life x = .dead → m'.life x = .dead := by
    intro x e
    rw [e]
    refine ⟨fun y hy => ?_, fun y hy => ?_⟩ <;> rw [put_at] <;> split <;> simp [hy]
  cases l with
  | build =>
    simp only [Start.step] at hs
    split at hs
    · rename_i e
      cases hs
      rw [e] at h
      obtain ⟨h1, h2, pre, e1, e2⟩ := h
      rw [List.append_nil] at e1
      exact ⟨⟨fun x => by rw [e1, e2]; exact h1 x, h2⟩, same rfl⟩
    · rename_i done x todo e
      cases hs
      rw [e] at h
      obtain ⟨h1, h2, pre, e1, e2⟩ := h
      refine ⟨⟨fun y => ?_, fun y => ?_, pre ++ [.init x], by rw [e1]; simp, fun y => ?_⟩, fun y hy => ?_, fun y hy => absurd hy (h2 y)⟩
      · simp only [put_at, List.mem_cons]
        split
        · rename_i e; simp [e]
        · rename_i ne; simp [ne, h1]
      · simp only [put_at]
        split
        · simp
        · exact h2 y
      · simp only [List.mem_append, e2, List.mem_cons, Act.init.injEq, List.not_mem_nil, or_false]
        exact or_comm
      · simp only [put_at]
        split
        · simp
        · rw [hy]; simp
    · rename_i done n todo e
      cases hs
      rw [e] at h
      obtain ⟨h1, h2, pre, e1, e2⟩ := h
      exact ⟨⟨h1, h2, pre ++ [.spawn n], by rw [e1]; simp, fun y => by rw [← e2]; simp⟩, same rfl⟩
    · rename_i done n todo e
      cases hs
      rw [e] at h
      obtain ⟨h1, h2, pre, e1, e2⟩ := h
      exact ⟨⟨h1, h2, pre ++ [.keep n], by rw [e1]; simp, fun y => by rw [← e2]; simp⟩, same rfl⟩
    · cases hs
  | fail =>
    simp only [Start.step] at hs
    split at hs <;> cases hs
    · exact ⟨trivial, same rfl⟩
    · exact ⟨trivial, same rfl⟩
  | unwind =>
    simp only [Start.step] at hs
    split at hs
    · cases hs
      exact ⟨trivial, same rfl⟩
    · split at hs
      · cases hs
        exact ⟨trivial, same rfl⟩
      · cases hs
        exact ⟨trivial, dies rfl⟩
    · cases hs
  | shut =>
    simp only [Start.step] at hs
    split at hs
    · rename_i e
      cases hs
      rw [e] at h
      exact ⟨fun x hx => (by have := h x hx; cases this), same rfl⟩
    · rename_i p y todo e
      cases hs
      rw [e] at h
      exact ⟨fun x hx => by simpa using h x hx, same rfl⟩
    · rename_i p n todo e
      rw [e] at h
      split at hs
      · cases hs
        exact ⟨fun x hx => by simpa using h x hx, same rfl⟩
      · cases hs
    · rename_i p y todo e
      rw [e] at h
      split at hs
      · cases hs
        exact ⟨trivial, same rfl⟩
      · cases hs
        refine ⟨fun x hx => ?_, dies rfl⟩
        simp only [put_at] at hx
        split at hx
        · cases hx
        · rename_i ne
          have := h x hx
          simp only [List.mem_cons, Fin.destroy.injEq] at this
          exact this.resolve_left ne
    · cases hs
  | make p =>
    simp only [Start.step] at hs
    split at hs <;> cases hs
    rename_i e
    rw [e] at h
    have h : ∀ x, m.life x = .raw := h
    exact ⟨⟨fun x => by simp [h x], fun x => by simp [h x], [], rfl, fun x => by simp⟩, same rfl⟩
  | close p =>
    simp only [Start.step] at hs
    split at hs <;> cases hs
    rename_i e
    rw [e] at h
    exact ⟨fun x hx => hd x ((h.1 x).1 hx), same rfl⟩
  | touch p d wr => simp only [Start.step] at hs; split at hs <;> cases hs; exact keep rfl rfl
  | rel p k => simp only [Start.step] at hs; split at hs <;> cases hs; exact keep rfl rfl
  | acq p k => simp only [Start.step] at hs; split at hs <;> cases hs; exact keep rfl rfl
  | call p y => simp only [Start.step] at hs; split at hs <;> cases hs; exact keep rfl rfl
  | enter n => simp only [Start.step] at hs; split at hs <;> cases hs; exact keep rfl rfl
  | use n y => simp only [Start.step] at hs; split at hs <;> cases hs; exact keep rfl rfl
  | handler n d wr => simp only [Start.step] at hs; split at hs <;> cases hs; exact keep rfl rfl
  | leave n => simp only [Start.step] at hs; split at hs <;> cases hs; exact keep rfl rfl

theorem Run.lives (hd : ∀ x, .init x ∈ S.ctor → .destroy x ∈ S.dtor) (r : Run S m) : Lives S m m.phase := by
  induction r with
  | start => exact fun _ => rfl
  | step _ hs ih => exact (ih.step hd hs).1

theorem all_stage (x : Member) (h : .init x ∈ stage.ctor) : .destroy x ∈ stage.dtor := by cases x <;> simp [stage] at h ⊢

theorem all_pool (size : Nat) (x : Member) (h : .init x ∈ (pool size).ctor) : .destroy x ∈ (pool size).dtor := by
  cases x <;> simp [pool] at h ⊢

/-- **C139, the lives of members** are what the name says, for both classes: when the constructor has finished exactly the members it
initialises live, when the destructor has finished none does; what lives ends by being destroyed, and what has been destroyed stays so. -/
theorem C139_lives {size : Nat} (hS : S = stage ∨ S = pool size) (r : Run S m) :
    (m.phase = .up → ∀ x, m.life x = .alive ↔ .init x ∈ S.ctor) ∧ (m.phase = .gone → ∀ x, m.life x ≠ .alive) ∧
    ∀ l m', step S m l = some m' → (∀ x, m.life x = .alive → m'.life x ≠ .raw) ∧ ∀ x, m.life x = .dead → m'.life x = .dead := by
  have hd : ∀ x, .init x ∈ S.ctor → .destroy x ∈ S.dtor := by
    rcases hS with rfl | rfl
    · exact all_stage
    · exact all_pool size
  have h := r.lives hd
  refine ⟨fun e => ?_, fun e => ?_, fun l m' hs => (h.step hd hs).2⟩
  · rw [e] at h
    exact h.1
  · rw [e] at h
    exact h

/-- **C139, the record** that `Sound.before` is about is what the thread that constructs comes after when it begins. -/
theorem C139_record (hs : step S m l = some m') :
    (∀ p, l = .make p → m'.knew = m.mem.clk (.user p)) ∧ ((∀ p, l ≠ .make p) → m'.knew = m.knew) := by
  cases l with
  | build => simp only [step] at hs; split at hs <;> cases hs <;> exact ⟨by simp, fun _ => rfl⟩
  | fail => simp only [step] at hs; split at hs <;> cases hs <;> exact ⟨by simp, fun _ => rfl⟩
  | unwind =>
    simp only [step] at hs
    split at hs
    · cases hs; exact ⟨by simp, fun _ => rfl⟩
    · split at hs <;> cases hs <;> exact ⟨by simp, fun _ => rfl⟩
    · cases hs
  | shut =>
    simp only [step] at hs
    split at hs
    · cases hs; exact ⟨by simp, fun _ => rfl⟩
    · cases hs; exact ⟨by simp, fun _ => rfl⟩
    · split at hs <;> cases hs; exact ⟨by simp, fun _ => rfl⟩
    · split at hs <;> cases hs <;> exact ⟨by simp, fun _ => rfl⟩
    · cases hs
  | make p => simp only [step] at hs; split at hs <;> cases hs; exact ⟨fun q e => by cases e; rfl, fun h => absurd rfl (h p)⟩
  | close p => simp only [step] at hs; split at hs <;> cases hs; exact ⟨by simp, fun _ => rfl⟩
  | touch p d wr => simp only [step] at hs; split at hs <;> cases hs; exact ⟨by simp, fun _ => rfl⟩
  | rel p k => simp only [step] at hs; split at hs <;> cases hs; exact ⟨by simp, fun _ => rfl⟩
  | acq p k => simp only [step] at hs; split at hs <;> cases hs; exact ⟨by simp, fun _ => rfl⟩
  | call p y => simp only [step] at hs; split at hs <;> cases hs; exact ⟨by simp, fun _ => rfl⟩
  | enter n => simp only [step] at hs; split at hs <;> cases hs; exact ⟨by simp, fun _ => rfl⟩
  | use n y => simp only [step] at hs; split at hs <;> cases hs; exact ⟨by simp, fun _ => rfl⟩
  | handler n d wr => simp only [step] at hs; split at hs <;> cases hs; exact ⟨by simp, fun _ => rfl⟩
  | leave n => simp only [step] at hs; split at hs <;> cases hs; exact ⟨by simp, fun _ => rfl⟩

/-- **C139 for a stage.** -/
theorem C139_stage (r : Run stage m) : Sound stage m := (r.inv good_stage).sound good_stage

/-- **C139 for a pool** with any number of threads. -/
theorem C139_pool {size : Nat} (r : Run (pool size) m) : Sound (pool size) m := (r.inv (good_pool size)).sound (good_pool size)

/-- **C140 for a stage.** Construction and destruction never end the program; if the thread cannot be started the constructor is left
by an exception, and then no member is left and no worker was ever there. -/
theorem C140_stage (r : Run stage m) :
    m.phase ≠ .aborted ∧ (m.phase = .thrown → (∀ x, m.life x ≠ .alive) ∧ ∀ n, m.wk n = .none) := by
  have := (r.inv good_stage).phase
  refine ⟨fun h => ?_, fun h => ?_⟩
  · rw [h] at this
    obtain ⟨_, ⟨n, hn⟩ | hl⟩ := this
    · simp at hn
    · simp at hl
  · rw [h] at this
    exact ⟨this.2, this.1⟩

/-- **C140 for a pool, as far as it holds.** If the constructor is left by an exception then no member is left and no worker was ever
there; and the program is ended only if a worker has been started.  What is missing is that it is not ended. -/
theorem C140_pool_partial {size : Nat} (r : Run (pool size) m) :
    (m.phase = .thrown → (∀ x, m.life x ≠ .alive) ∧ ∀ n, m.wk n = .none) ∧ (m.phase = .aborted → ∃ n, m.active n) := by
  have := (r.inv (good_pool size)).phase
  refine ⟨fun h => ?_, fun h => ?_⟩
  · rw [h] at this
    exact ⟨this.2, this.1⟩
  · rw [h] at this
    exact this.1

/-- **C140 refuted for a pool.** Whenever the start of a thread fails and another has been started before, the next thing the
constructing thread does is to end the program. -/
theorem C140_pool_refuted {size : Nat} (r : Run (pool size) m) (hs : step (pool size) m .fail = some m') {n : Nat}
    (hn : m.wk n ≠ .none) : m'.phase = .aborted ∨ ∃ m'', step (pool size) m' .unwind = some m'' ∧ m''.phase = .aborted := by
  have i := (r.inv (good_pool size)).step (good_pool size) hs
  have hw : m'.wk n ≠ .none := by
    simp only [step] at hs
    split at hs <;> cases hs <;> exact hn
  have hp := i.phase
  have : (∃ t, m'.phase = .unwinding t) ∨ m'.phase = .aborted := by
    simp only [step] at hs
    split at hs <;> cases hs <;> simp
  rcases this with ⟨t, ht⟩ | h
  · rw [ht] at hp
    obtain ⟨_, h1, h | ⟨⟨t', rfl⟩, _⟩⟩ := hp
    · exact absurd (h n) hw
    · have : m'.holds .threads = true := by
        rw [holds_iff i (good_pool size)]
        refine ⟨.inr rfl, n, ?_⟩
        have := h1 n
        unfold State.active
        cases e : m'.wk n <;> simp_all
      refine .inr ⟨{ m' with phase := .aborted }, ?_, rfl⟩
      simp only [step, ht, this, if_true]
  · exact .inl h

/-- The constructor can get as far as one likes. -/
theorem builds : ∀ (acts : List Act) {m : State} {done : List Member} {todo : List Act}, Run S m →
    m.phase = .building done (acts ++ todo) → ∃ m' done', Run S m' ∧ m'.phase = .building done' todo ∧
      (∀ n, .spawn n ∈ acts → m'.wk n ≠ .none) ∧ ∀ n, m.wk n ≠ .none → m'.wk n ≠ .none
  | [], m, done, todo, r, h => ⟨m, done, r, h, by simp, fun _ h => h⟩
  | a :: acts, m, done, todo, r, h => by
    have : ∃ m1 done1, step S m .build = some m1 ∧ m1.phase = .building done1 (acts ++ todo) ∧
        (∀ n, a = .spawn n → m1.wk n ≠ .none) ∧ ∀ n, m.wk n ≠ .none → m1.wk n ≠ .none := by
      simp only [step, h, List.cons_append]
      cases a with
      | init x => exact ⟨_, _, rfl, rfl, by simp, fun _ h => h⟩
      | spawn k =>
        refine ⟨_, _, rfl, rfl, fun n e => ?_, fun n hn => ?_⟩
        · cases e
          simp
        · simp only [put_at]
          split
          · simp
          · exact hn
      | keep k => exact ⟨_, _, rfl, rfl, by simp, fun _ h => h⟩
    obtain ⟨m1, done1, h1, h2, h3, h4⟩ := this
    obtain ⟨m2, done2, r2, e2, g2, k2⟩ := builds acts (.step r h1) h2
    refine ⟨m2, done2, r2, e2, fun n hn => ?_, fun n hn => k2 n (h4 n hn)⟩
    rcases List.mem_cons.1 hn with hn | hn
    · exact k2 n (h3 n hn.symm)
    · exact g2 n hn

/-- **C140 refuted for a pool**: for every pool with at least two threads, there are executions in which the start of the last one
fails after the others have been started; and for every pool with at least one, those in which there is no memory to keep it. -/
theorem C140_pool_possible_refuted (size : Nat) :
    (∃ m m', Run (pool (size + 2)) m ∧ step (pool (size + 2)) m .fail = some m' ∧ m'.phase ≠ .aborted ∧ m.wk 0 ≠ .none) ∧
    ∃ m m', Run (pool (size + 1)) m ∧ step (pool (size + 1)) m .fail = some m' ∧ m'.phase = .aborted := by
  constructor
  · obtain ⟨m, done, r, e, h, _⟩ := builds (S := pool (size + 2))
      ([.init .closed, .init .func, .init .stat, .init .size, .init .pool, .init .threads] ++
        (List.range (size + 1)).flatMap fun n => [.spawn n, .keep n]) (todo := [.spawn (size + 1), .keep (size + 1)])
      (.step (l := .make 0) .start rfl) (done := []) (by simp [pool, List.range_succ])
    exact ⟨m, { m with phase := .unwinding done }, r, by simp only [step, e], by simp, h 0 (by simp)⟩
  · obtain ⟨m, done, r, e, _⟩ := builds (S := pool (size + 1))
      ([.init .closed, .init .func, .init .stat, .init .size, .init .pool, .init .threads] ++
        ((List.range size).flatMap fun n => [.spawn n, .keep n]) ++ [.spawn size]) (todo := [.keep size])
      (.step (l := .make 0) .start rfl) (done := []) (by simp [pool, List.range_succ])
    exact ⟨m, { m with phase := .aborted }, r, by simp only [step, e], rfl⟩

/-- Several steps. -/
def go (S : Shape) : State → List Lbl → Option State
  | m, [] => some m
  | m, l :: ls => (step S m l).bind fun m => go S m ls

theorem go_run : ∀ (ls : List Lbl) {m m' : State}, Run S m → go S m ls = some m' → Run S m'
  | [], _, _, r, h => by cases h; exact r
  | l :: ls, m, m', r, h => by
    simp only [go, Option.bind_eq_some_iff] at h
    obtain ⟨m1, h1, h2⟩ := h
    exact go_run ls (.step r h1) h2

/-- A stage whose worker uses members and, in the handler, what thread 7 wrote before it constructed the stage; another thread
destroys the stage, after synchronisation. -/
def demo : List Lbl := [.touch 7 1 true, .make 7, .build, .build, .build, .build, .build, .build, .enter 0, .use 0 .closed, .build, .build,
  .use 0 .queue, .handler 0 1 true, .rel 7 3, .acq 8 3, .close 8, .shut, .shut, .use 0 .closed, .leave 0, .shut, .shut]

example : ∃ m, Run stage m ∧ m.life .worker = .dead ∧ m.life .stat = .alive ∧ m.wk 0 = .joined ∧
    m.mem.clk (.user 8) (.worker 0) = 4 := by
  refine ⟨_, go_run demo .start rfl, ?_, ?_, ?_, ?_⟩ <;> decide +kernel

example : ∃ m m', Run stage m ∧ step stage m (.use 0 .queue) = some m' ∧ m.knew (.user 7) = 1 ∧
    (⟨.user 7, 1, .data 1, true, 0⟩ : Access Who Loc) ∈ m.mem.log := by
  refine ⟨_, _, go_run (demo.take 12) .start rfl, rfl, ?_, ?_⟩ <;> decide +kernel

/-- A stage whose thread cannot be started. -/
example : ∃ m, Run stage m ∧ m.phase = .thrown ∧ m.life .queue = .dead :=
  ⟨_, go_run [.make 7, .build, .build, .build, .build, .build, .fail, .unwind, .unwind, .unwind, .unwind, .unwind, .unwind] .start rfl,
    by decide +kernel, by decide +kernel⟩

/-- A pool with three threads, the last of which cannot be started. -/
example : ∃ m, Run (pool 3) m ∧ m.phase = .aborted ∧ m.wk 0 = .running :=
  ⟨_, go_run [.make 7, .build, .build, .build, .build, .build, .build, .build, .build, .build, .build, .enter 0, .fail, .unwind] .start rfl,
    by decide +kernel, by decide +kernel⟩

/-- `Sound` says something: were `func_` declared behind the thread, it would not hold. -/
example : ∃ m, Run { stage with ctor := [.init .tail, .init .closed, .init .queue, .init .stat, .spawn 0, .init .worker, .init .func] } m ∧
    ¬ Sound { stage with ctor := [.init .tail, .init .closed, .init .queue, .init .stat, .spawn 0, .init .worker, .init .func] } m := by
  refine ⟨_, go_run [.make 7, .build, .build, .build, .build, .build, .enter 0] .start rfl, fun h => ?_⟩
  have := (h.alive 0 .func _ rfl).1
  revert this
  decide +kernel

/-- Nor would it if the destructor did not join. -/
example : ∃ m, Run { stage with dtor := [.use .closed, .destroy .stat, .destroy .func] } m ∧
    ¬ Sound { stage with dtor := [.use .closed, .destroy .stat, .destroy .func] } m := by
  refine ⟨_, go_run [.make 7, .build, .build, .build, .build, .build, .build, .build, .build, .enter 0, .close 7, .shut, .shut] .start rfl,
    fun h => ?_⟩
  have := (h.alive 0 .stat _ rfl).1
  revert this
  decide +kernel

end Verif.Pipeline.Start
