import Verif.Observer.Throws
/-!
Properties C105 and C106 of the unbounded observable with callbacks that throw.

The statements speak about the log: `regs log` lists the observers registered after it, `running [] log` the functions
that are running, `top 0 log` the callbacks begun by the outermost call.
-/
namespace Verif.Observer.Throw
open Verif

variable {V U α β : Type}

/-- If a run returns, `P` holds; if it ends the program, `T` holds of the log. -/
def Post (P : α → Prop) (T : List (Ev V) → Prop) : Out V α → Prop
  | .ok a => P a
  | .term l => T l
  | _ => True

theorem Out.ok_bind (a : α) (f : α → Out V β) : (Out.ok a).bind f = f a := rfl

theorem Post.bind {P : α → Prop} {Q : β → Prop} {T : List (Ev V) → Prop} {m : Out V α} {f : α → Out V β}
    (h : Post P T m) (hf : ∀ a, P a → Post Q T (f a)) : Post Q T (m.bind f) := by
  cases m with
  | ok a => exact hf a h
  | term l => exact h
  | _ => trivial

theorem Post.mono {P Q : α → Prop} {S T : List (Ev V) → Prop} {m : Out V α} (h : Post P S m)
    (hp : ∀ a, P a → Q a) (ht : ∀ l, S l → T l) : Post Q T m := by
  cases m with
  | ok a => exact hp a h
  | term l => exact ht l h
  | _ => trivial

/-- No exception in the log had to end the program; `st` are running at its start. -/
def Safe : List (Frame V) → List (Ev V) → Prop
  | _, [] => True
  | st, .threw o x :: es => ¬ Fatal st ∧ Safe (frameEv st (.threw o x)) es
  | st, e :: es => Safe (frameEv st e) es

theorem Safe.append {st : List (Frame V)} {a b : List (Ev V)} (ha : Safe st a) (hb : Safe (running st a) b) :
    Safe st (a ++ b) := by
  induction a generalizing st with
  | nil => exact hb
  | cons e a ih =>
    cases e with
    | threw o x => exact ⟨ha.1, ih ha.2 hb⟩
    | _ => exact ih ha hb

theorem Safe.at {st : List (Frame V)} {pre post : List (Ev V)} {o : Nat} {x : Exc}
    (h : Safe st (pre ++ .threw o x :: post)) : ¬ Fatal (running st pre) := by
  induction pre generalizing st with
  | nil => exact h.1
  | cons e pre ih =>
    cases e with
    | threw o' x' => exact ih h.2
    | _ => exact ih h

/-- The last event is an exception that had to end the program. -/
def Ends (st : List (Frame V)) (new : List (Ev V)) : Prop :=
  ∃ pre o x, new = pre ++ [.threw o x] ∧ Fatal (running st pre)

theorem Ends.append {st : List (Frame V)} {a b : List (Ev V)} (h : Ends (running st a) b) : Ends st (a ++ b) := by
  obtain ⟨pre, o, x, rfl, hf⟩ := h
  exact ⟨a ++ pre, o, x, by simp, by rw [running_append]; exact hf⟩

theorem discs_cons (o : Nat) (e : Ev V) (l : List (Ev V)) : discs o (e :: l) = discs o [e] + discs o l :=
  discs_append o [e] l

/-- What running something adds to the log, and how the object changes with it, if the functions running at the start
satisfy `Q`. -/
structure Ran (Q : List (Frame V) → Prop) (s s' : St V U) (new : List (Ev V)) : Prop where
  log : s'.log = s.log ++ new
  self : s'.self = s.self
  locked : s'.locked = s.locked
  obs : s'.obs = new.foldl regEv s.obs
  frames : ∀ st, running st new = st
  mono : s.gen ≤ s'.gen
  still : s'.gen = s.gen → Still s.obs new
  bal : ∀ d rest, top (d + 1) (new ++ rest) = top (d + 1) rest
  safe : ∀ st, Q st → Safe st new

/-- Disconnections against subscriptions. -/
structure Tally (s s' : St V U) (new : List (Ev V)) : Prop where
  none : s'.gen = s.gen → s.obs ≠ [] → ClearsReturn new → ∀ o, discs o new = 0
  le : ClearsReturn new → ∀ o, discs o new + s'.obs.count o ≤ adds o new + s.obs.count o

theorem Ran.refl (Q : List (Frame V) → Prop) (s : St V U) (u : U) : Ran Q s { s with user := u } [] where
  log := by simp
  self := rfl
  locked := rfl
  obs := rfl
  frames := fun _ => rfl
  mono := Nat.le_refl _
  still := by intro _ op h; simp at h
  bal := fun _ _ => rfl
  safe := fun _ _ => trivial

theorem Tally.refl (s : St V U) (u : U) : Tally s { s with user := u } [] where
  none := fun _ _ _ _ => rfl
  le := fun _ _ => Nat.le_refl _

theorem Ran.trans {Q : List (Frame V) → Prop} {s t u : St V U} {a b : List (Ev V)} (h1 : Ran Q s t a)
    (h2 : Ran Q t u b) : Ran Q s u (a ++ b) where
  log := by rw [h2.log, h1.log, List.append_assoc]
  self := by rw [h2.self, h1.self]
  locked := by rw [h2.locked, h1.locked]
  obs := by rw [h2.obs, h1.obs, List.foldl_append]
  frames := fun st => by rw [running_append, h1.frames, h2.frames]
  mono := Nat.le_trans h1.mono h2.mono
  still := by
    intro h
    have m1 := h1.mono
    have m2 := h2.mono
    have s1 := h1.still (by omega)
    have s2 := h2.still (by omega)
    rw [h1.obs, s1.regs] at s2
    exact s1.append s2
  bal := fun d rest => by rw [List.append_assoc, h1.bal, h2.bal]
  safe := fun st hq => (h1.safe st hq).append (by rw [h1.frames]; exact h2.safe st hq)

theorem Ran.obs_eq {Q : List (Frame V) → Prop} {s t : St V U} {a : List (Ev V)} (h : Ran Q s t a)
    (hg : t.gen = s.gen) : t.obs = s.obs := by rw [h.obs, (h.still hg).regs]

theorem Tally.trans {Q : List (Frame V) → Prop} {s t u : St V U} {a b : List (Ev V)} (r1 : Ran Q s t a)
    (r2 : Ran Q t u b) (h1 : Tally s t a) (h2 : Tally t u b) : Tally s u (a ++ b) where
  none := by
    intro hg hne hc o
    have m1 := r1.mono
    have m2 := r2.mono
    rw [discs_append, h1.none (by omega) hne hc.left,
      h2.none (by omega) (by rw [r1.obs_eq (by omega)]; exact hne) hc.right]
  le := by
    intro hc o
    have a1 := h1.le hc.left o
    have a2 := h2.le hc.right o
    rw [discs_append, adds_append]
    omega

/-- Any functions may be running. -/
def anywhere : List (Frame V) → Prop := fun _ => True

/-- What is known of a program that ended. -/
def Dead (s : St V U) (l : List (Ev V)) : Prop := ∃ new, l = s.log ++ new ∧ ∀ st, Ends st new

/-- A way of running calls that keeps the books. -/
def Good (ex : Ex V U) : Prop := ∀ s op, Post (fun r => ∃ new, Ran anywhere s r.1 new ∧ Tally s r.1 new) (Dead s) (ex s op)

theorem Dead.trans {Q : List (Frame V) → Prop} {s t : St V U} {a l : List (Ev V)} (h : Ran Q s t a) (hd : Dead t l) :
    Dead s l := by
  obtain ⟨b, h1, h2⟩ := hd
  exact ⟨a ++ b, by rw [h1, h.log, List.append_assoc], fun st => (h2 _).append⟩

theorem runProg_ran {ex : Ex V U} (hex : Good ex) (p : Prog V U) (s : St V U) :
    Post (fun r => ∃ new, Ran anywhere s r.1 new ∧ Tally s r.1 new) (Dead s) (runProg ex p s) := by
  induction p generalizing s with
  | ret u => exact ⟨[], .refl _ s u, .refl s u⟩
  | set u k ih =>
    have ha : Ran anywhere s { s with user := u } [] := .refl _ s u
    refine (ih { s with user := u }).mono ?_ fun l hl => hl.trans ha
    rintro r' ⟨b, hb, tb⟩
    exact ⟨[] ++ b, ha.trans hb, (Tally.refl s u).trans ha hb tb⟩
  | throw x u => exact ⟨[], .refl _ s u, .refl s u⟩
  | call op k ih =>
    refine Post.bind (hex s op) ?_
    rintro ⟨t, r⟩ ⟨a, ha, ta⟩
    refine (ih r t.user t).mono ?_ fun l hl => hl.trans ha
    rintro r' ⟨b, hb, tb⟩
    exact ⟨a ++ b, ha.trans hb, ta.trans ha hb tb⟩

/-- The frame of a callback. -/
def Ev.frame : Ev V → Option (Frame V)
  | .enter _ o _ => some (.data o)
  | .disc _ o => some (.disc o)
  | _ => none

/-- The events that start a callback. -/
def Ev.starts (e : Ev V) (f : Frame V) : Prop := e.frame = some f

theorem Ev.starts.reg {e : Ev V} {f : Frame V} (h : e.starts f) (l : List Nat) : regEv l e = l := by
  cases e <;> first | rfl | cases h

theorem Ev.starts.running {e : Ev V} {f : Frame V} (h : e.starts f) (st : List (Frame V)) :
    Throw.running st [e] = f :: st := by
  cases e <;> cases h <;> rfl

theorem Ev.starts.safe {e : Ev V} {f : Frame V} (h : e.starts f) (st : List (Frame V)) : Safe st [e] := by
  cases e <;> cases h <;> trivial

theorem Ev.starts.not_ret {e : Ev V} {f : Frame V} (h : e.starts f) (op : Op V) (r : Option Exc) : e ≠ .ret op r := by
  cases e <;> cases h <;> simp

theorem Ev.starts.adds {e : Ev V} {f : Frame V} (h : e.starts f) (o : Nat) : Throw.adds o [e] = 0 := by
  cases e <;> cases h <;> rfl

theorem Ev.starts.top_zero {e : Ev V} {f : Frame V} (h : e.starts f) (es : List (Ev V)) :
    top 0 (e :: es) = e :: top 1 es := by
  cases e <;> cases h <;> rfl

theorem Ev.starts.top_succ {e : Ev V} {f : Frame V} (h : e.starts f) (d : Nat) (es : List (Ev V)) :
    top (d + 1) (e :: es) = top (d + 2) es := by
  cases e <;> cases h <;> simp [Throw.top]

/-- The events of a callback from its start to its end `z`. -/
theorem ran_callback {Q : List (Frame V) → Prop} {s t : St V U} {e z : Ev V} {f : Frame V} {a : List (Ev V)}
    (he : e.starts f) (ha : Ran anywhere (s.emit e) t a) (hz : (∃ o, z = .leave o) ∨ ∃ o x, z = .threw o x ∧
      ∀ st, Q st → ¬ Fatal (f :: st)) :
    Ran Q s (t.emit z) (e :: a ++ [z]) ∧ (∀ rest, top 0 ((e :: a ++ [z]) ++ rest) = e :: top 0 rest) ∧
      ∀ o, discs o (e :: a ++ [z]) = discs o [e] + discs o a := by
  have hzr : ∀ l, regEv l z = l := by
    intro l
    rcases hz with ⟨o, rfl⟩ | ⟨o, x, rfl, _⟩ <;> rfl
  have hzn : ∀ op r, z ≠ .ret op r := by
    intro op r
    rcases hz with ⟨o, rfl⟩ | ⟨o, x, rfl, _⟩ <;> simp
  have hzt : ∀ d rest, top (d + 1) (z :: rest) = top d rest := by
    intro d rest
    rcases hz with ⟨o, rfl⟩ | ⟨o, x, rfl, _⟩ <;> simp [top]
  refine ⟨⟨?_, ha.self, ha.locked, ?_, ?_, ha.mono, ?_, ?_, ?_⟩, ?_, ?_⟩
  · show t.log ++ [z] = _
    rw [ha.log]
    simp [St.emit]
  · show t.obs = _
    rw [List.foldl_append, List.foldl_cons, List.foldl_nil, hzr, List.foldl_cons, he.reg, ha.obs]
    rfl
  · intro st
    rw [running_append, show (e :: a) = [e] ++ a from rfl, running_append, he.running, ha.frames]
    rcases hz with ⟨o, rfl⟩ | ⟨o, x, rfl, _⟩ <;> rfl
  · intro hg
    have hs : Still s.obs a := ha.still hg
    rw [show e :: a ++ [z] = [e] ++ (a ++ [z]) from rfl]
    exact (Still.single fun op h => absurd h (he.not_ret op _)).append
      (hs.append (Still.single fun op h => absurd h (hzn op _)))
  · intro d rest
    simp only [List.cons_append, List.append_assoc, List.nil_append]
    rw [he.top_succ, ha.bal, hzt]
  · intro st hq
    rw [show e :: a ++ [z] = [e] ++ (a ++ [z]) from rfl]
    refine (he.safe st).append ?_
    rw [he.running]
    refine (ha.safe _ trivial).append ?_
    rw [ha.frames]
    rcases hz with ⟨o, rfl⟩ | ⟨o, x, rfl, hf⟩
    · trivial
    · exact ⟨hf st hq, trivial⟩
  · intro rest
    simp only [List.cons_append, List.append_assoc, List.nil_append]
    rw [he.top_zero, ha.bal, hzt]
  · intro o
    rw [show e :: a ++ [z] = [e] ++ (a ++ [z]) from rfl, discs_append, discs_append]
    have : discs o [z] = 0 := by
      rcases hz with ⟨p, rfl⟩ | ⟨p, x, rfl, _⟩ <;> rfl
    omega

/-- What a loop does: it has called everyone from position `i` on, or the callback of one observer has thrown. -/
def LoopRan (Q : List (Frame V) → Prop) (e : St V U → Nat → Ev V) (i : Nat) (s s' : St V U) (new : List (Ev V)) :
    Option Exc → Prop
  | none => s'.gen = s.gen ∧ (∀ rest, top 0 (new ++ rest) = (s.obs.drop i).map (e s) ++ top 0 rest) ∧
      (ClearsReturn new → ∀ o, discs o new = discs o ((s.obs.drop i).map (e s))) ∧ Ran anywhere s s' new
  | some x => ∃ told o rest a b t, s.obs.drop i = told ++ o :: rest ∧ new = a ++ e s o :: b ++ [.threw o x] ∧
      Ran anywhere s t a ∧ t.gen = s.gen ∧ (∀ st, running st b = st) ∧ (∀ rest, top 0 (a ++ rest) = told.map (e s) ++ top 0 rest) ∧
      ∀ rest, top 0 (new ++ rest) = (told ++ [o]).map (e s) ++ top 0 rest

theorem callback_ran {ex : Ex V U} (hex : Good ex) {Q : List (Frame V) → Prop} {noex : Bool} {e : Ev V} {f : Frame V}
    (he : e.starts f) (hn : noex = true → ∀ st : List (Frame V), Fatal (f :: st))
    (hq : noex = false → ∀ st, Q st → ¬ Fatal (f :: st)) (p : U → Prog V U) (o : Nat) (s : St V U) :
    Post (fun r => ∃ a t z, r.1 = t.emit z ∧ Ran anywhere (s.emit e) t a ∧ Tally (s.emit e) t a ∧
        ((z = .leave o ∧ r.2 = none) ∨ ∃ x, noex = false ∧ z = .threw o x ∧ r.2 = some x) ∧
        Ran Q s r.1 (e :: a ++ [z]) ∧ (r.2 = none → Ran anywhere s r.1 (e :: a ++ [z])) ∧ (∀ rest, top 0 ((e :: a ++ [z]) ++ rest) = e :: top 0 rest) ∧
        ∀ o, discs o (e :: a ++ [z]) = discs o [e] + discs o a) (Dead s) (callback ex noex e p o s) := by
  refine Post.bind ((runProg_ran hex (p s.user) (s.emit e)).mono (fun _ h => h) ?_) ?_
  · rintro l ⟨new, h1, h2⟩
    exact ⟨e :: new, by rw [h1]; simp [St.emit], fun st => Ends.append (a := [e]) (h2 _)⟩
  · rintro ⟨t, r⟩ ⟨a, ha, ta⟩
    cases r with
    | none =>
      obtain ⟨h1, h2, h3⟩ := ran_callback (Q := Q) he ha (z := .leave o) (.inl ⟨o, rfl⟩)
      exact ⟨a, t, .leave o, rfl, ha, ta, .inl ⟨rfl, rfl⟩, h1,
        fun _ => (ran_callback he ha (z := .leave o) (.inl ⟨o, rfl⟩)).1, h2, h3⟩
    | some x =>
      simp only [finish]
      cases noex with
      | true =>
        refine ⟨(e :: a) ++ [.threw o x], ?_, fun st => ⟨e :: a, o, x, rfl, ?_⟩⟩
        · show t.log ++ _ = _
          rw [ha.log]
          simp [St.emit]
        · rw [show (e :: a) = [e] ++ a from rfl, running_append, he.running, ha.frames]
          exact hn rfl st
      | false =>
        obtain ⟨h1, h2, h3⟩ := ran_callback (Q := Q) he ha (z := .threw o x) (.inr ⟨o, x, rfl, hq rfl⟩)
        exact ⟨a, t, .threw o x, rfl, ha, ta, .inr ⟨x, rfl, rfl, rfl⟩, h1, (fun h => by cases h), h2, h3⟩

theorem loop_gen {ex : Ex V U} {noex : Bool} {e : St V U → Nat → Ev V} {p : Nat → U → Prog V U} {g i left : Nat}
    {s : St V U} (h : s.gen ≠ g) : loop ex noex e p g i left s = .ub := by
  cases left <;> simp [loop, h]

theorem loop_ran {ex : Ex V U} (hex : Good ex) {Q : List (Frame V) → Prop} {noex : Bool} {e : St V U → Nat → Ev V}
    {f : Nat → Frame V} (he : ∀ s o, (e s o).starts (f o)) (hself : ∀ s t o, s.self = t.self → e s o = e t o)
    (hn : noex = true → ∀ o (st : List (Frame V)), Fatal (f o :: st))
    (hq : noex = false → ∀ o st, Q st → ¬ Fatal (f o :: st)) (p : Nat → U → Prog V U) (g i left : Nat) (s : St V U)
    (hl : i + left = s.obs.length) :
    Post (fun r => (r.2 ≠ none → noex = false) ∧ ∃ new, Ran Q s r.1 new ∧ LoopRan Q e i s r.1 new r.2) (Dead s)
      (loop ex noex e p g i left s) := by
  induction left generalizing i s with
  | zero =>
    simp only [loop]
    split
    · refine ⟨fun h => absurd rfl h, [], .refl Q s s.user, rfl, ?_, ?_, .refl _ s s.user⟩
      · intro rest
        rw [List.drop_eq_nil_of_le (by omega)]
        rfl
      · intro _ o
        rw [List.drop_eq_nil_of_le (by omega)]
        rfl
    · trivial
  | succ left ih =>
    simp only [loop]
    split
    · rename_i hg
      have hi : i < s.obs.length := by omega
      simp only [deref, List.getElem?_eq_getElem hi, Out.ok_bind]
      refine Post.bind (callback_ran hex (Q := Q) (he s s.obs[i]) (fun h => hn h _) (fun h => hq h _) _ _ _) ?_
      rintro ⟨t, r⟩ ⟨a, t0, z, h1, ha, ta, hz, hr, hr0, ht, hd⟩
      simp only at h1 hz hr hr0
      rcases hz with ⟨rfl, rfl⟩ | ⟨x, hx, rfl, rfl⟩
      · simp only [onward]
        by_cases htg : t.gen = g
        · have hobs : t.obs = s.obs := hr.obs_eq (by omega)
          have hgen : t.gen = s.gen := by omega
          refine (ih (i + 1) t (by rw [hobs]; omega)).mono ?_ fun l hl => hl.trans hr
          rintro ⟨s', r'⟩ ⟨h2, b, hb, hlb⟩
          simp only at hb
          have hmap : ∀ l : List Nat, l.map (e t) = l.map (e s) := fun l =>
            List.map_congr_left fun o _ => hself t s o hr.self
          refine ⟨h2, (e s s.obs[i] :: a ++ [.leave s.obs[i]]) ++ b, hr.trans hb, ?_⟩
          cases r' with
          | none =>
            obtain ⟨b1, b2, b3, b4⟩ := hlb
            rw [hobs, hmap] at b2 b3
            refine ⟨by omega, ?_, ?_, (hr0 rfl).trans b4⟩
            · intro rest
              rw [List.append_assoc, ht, b2, List.drop_eq_getElem_cons hi]
              rfl
            · intro hc o
              have hne : s.obs ≠ [] := by
                intro h
                rw [h] at hi
                simp at hi
              have h0 : discs o a = 0 := ta.none (by rw [h1] at hgen; exact hgen) hne
                (fun x hx => hc x (by simp [hx])) o
              rw [discs_append, hd, h0, b3 hc.right, List.drop_eq_getElem_cons hi, List.map_cons,
                discs_cons o _ (List.map _ _)]
              rfl
          | some x =>
            obtain ⟨told, o, rest, a', b', t', c1, c2, c3, c4, c7, c5, c6⟩ := hlb
            rw [hobs] at c1
            refine ⟨s.obs[i] :: told, o, rest, (e s s.obs[i] :: a ++ [.leave s.obs[i]]) ++ a', b', t', ?_, ?_,
              (hr0 rfl).trans c3, by omega, c7, ?_, ?_⟩
            · rw [List.drop_eq_getElem_cons hi, c1]
              rfl
            · rw [c2, hself t s o hr.self]
              simp only [List.append_assoc]
            · intro r
              rw [List.append_assoc, ht, c5, hmap]
              rfl
            · intro r
              rw [List.append_assoc, ht, c6, hmap]
              rfl
        · rw [loop_gen htg]
          trivial
      · refine ⟨fun _ => hx, e s s.obs[i] :: a ++ [.threw s.obs[i] x], hr, [], s.obs[i], s.obs.drop (i + 1), [], a, s,
          ?_, rfl, .refl _ s s.user, rfl, ha.frames, fun _ => rfl, ht⟩
        rw [List.drop_eq_getElem_cons hi]
        rfl
    · trivial

/-! ### Calls -/

theorem add_ran (s : St V U) (o : Nat) :
    (o ∉ s.obs ∧ add s o = ({ s with obs := s.obs ++ [o], gen := s.gen + 1 }, none)) ∨
    (o ∈ s.obs ∧ add s o = (s, some .alreadyContains)) := by
  by_cases h : o ∈ s.obs
  · exact .inr ⟨h, by rw [add, (Dyn.scan_iff o s.obs).2 h]; rfl⟩
  · have hs : Dyn.scan o s.obs = false := by
      cases hs : Dyn.scan o s.obs
      · rfl
      · exact absurd ((Dyn.scan_iff o s.obs).1 hs) h
    exact .inl ⟨h, by rw [add, hs]; rfl⟩

theorem remove_ran (s : St V U) (o : Nat) :
    (o ∈ s.obs ∧ remove s o = ({ s with obs := s.obs.filter (· != o), gen := s.gen + 1 }, none)) ∨
    (o ∉ s.obs ∧ remove s o = (s, some .notFound)) := by
  obtain ⟨e1, e2⟩ := Dyn.erase_length o s.obs
  by_cases h : o ∈ s.obs
  · have hlt := e1 h
    refine .inl ⟨h, ?_⟩
    rw [← Dyn.erase_eq]
    exact if_neg (by omega)
  · exact .inr ⟨h, if_pos (by rw [e2 h]; omega)⟩

/-- The stacks on which a call of `op` is running. -/
def inside (op : Op V) : List (Frame V) → Prop := fun st => ∃ st', st = .op op :: st'

/-- The state after a call that ended with `t` and `r`. -/
def after (t : St V U) (op : Op V) (r : Option Exc) : St V U := { t.emit (.ret op r) with locked := false }

theorem wrap {mtx : Bool} {s t0 t : St V U} {op : Op V} {r : Option Exc} {new : List (Ev V)} (hs : s.locked = false)
    (h : Ran (inside op) (lockOn mtx s op) t0 new) (h1 : t.log = t0.log) (h2 : t.self = t0.self)
    (h3 : t.obs = regEv t0.obs (.ret op r)) (h4 : t0.gen ≤ t.gen)
    (h5 : t.gen = t0.gen → regEv t0.obs (.ret op r) = t0.obs) :
    Ran anywhere s (after t op r) (.begin op :: new ++ [.ret op r]) where
  log := by
    show t.log ++ _ = _
    rw [h1, h.log]
    simp [lockOn, St.emit]
  self := by
    show t.self = _
    rw [h2, h.self]
    rfl
  locked := hs.symm
  obs := by
    show t.obs = _
    rw [h3, h.obs, List.foldl_append]
    rfl
  frames := by
    intro st
    rw [running_append, show .begin op :: new = [.begin op] ++ new from rfl, running_append, h.frames]
    rfl
  mono := Nat.le_trans h.mono h4
  still := by
    intro hg
    have m : (lockOn mtx s op).gen ≤ t0.gen := h.mono
    have hg : t.gen = (lockOn mtx s op).gen := hg
    have hst := h.still (by omega)
    have ho := h.obs_eq (by omega)
    have h6 := h5 (by omega)
    intro op' hm
    simp only [List.cons_append, List.mem_cons, List.mem_append, List.not_mem_nil, or_false] at hm
    rcases hm with hm | hm | hm
    · cases hm
    · exact hst op' hm
    · obtain ⟨rfl, rfl⟩ := Ev.ret.inj hm
      rw [ho] at h6
      exact h6
  bal := by
    intro d rest
    simp only [List.cons_append, List.append_assoc, List.nil_append, top]
    rw [h.bal]
    rfl
  safe := by
    intro st _
    rw [show .begin op :: new ++ [.ret op r] = [.begin op] ++ (new ++ [.ret op r]) from rfl]
    exact Safe.append trivial ((h.safe _ ⟨st, rfl⟩).append trivial)

theorem discs_wrap (op : Op V) (r : Option Exc) (o : Nat) (new : List (Ev V)) :
    discs o (.begin op :: new ++ [.ret op r]) = discs o new := by
  rw [show .begin op :: new ++ [.ret op r] = [.begin op] ++ (new ++ [.ret op r]) from rfl, discs_append, discs_append]
  exact Nat.zero_add _

theorem adds_wrap (op : Op V) (r : Option Exc) (o : Nat) (new : List (Ev V)) :
    adds o (.begin op :: new ++ [.ret op r]) = adds o new + adds o [.ret op r] := by
  rw [show .begin op :: new ++ [.ret op r] = [.begin op] ++ (new ++ [.ret op r]) from rfl, adds_append, adds_append]
  exact Nat.zero_add _

theorem ClearsReturn.inner {op : Op V} {r : Option Exc} {new : List (Ev V)}
    (h : ClearsReturn (.begin op :: new ++ [.ret op r])) : ClearsReturn new := fun x hx => h x (by simp [hx])

theorem discs_disc (self o : Nat) (l : List Nat) :
    discs o (l.map fun p => (.disc self p : Ev V)) = l.count o := by
  induction l with
  | nil => rfl
  | cons p l ih =>
    rw [List.map_cons, discs_cons, ih, List.count_cons]
    simp only [discs, List.countP_cons, List.countP_nil]
    omega

theorem discs_enter (self o : Nat) (v : V) (l : List Nat) :
    discs o (l.map fun p => (.enter self p v : Ev V)) = 0 := by
  induction l with
  | nil => rfl
  | cons p l ih =>
    rw [List.map_cons, discs_cons, ih]
    rfl

/-- What `notify_observers` does. -/
theorem notify_ran {ex : Ex V U} (hex : Good ex) (H : Handlers V U) (s : St V U) (v : V) (Q : List (Frame V) → Prop) :
    Post (fun r => r.2 = none ∧ ∃ new, Ran Q s r.1 new ∧
      LoopRan Q (fun s o => .enter s.self o v) 0 s r.1 new none) (Dead s) (Throw.notify ex H s v) := by
  refine (loop_ran hex (Q := Q) (e := fun s o => .enter s.self o v) (f := fun o => .data o) (fun s o => rfl) (fun s t o h => by simp only [h])
    (fun _ _ _ => trivial) (fun h => by cases h) (fun o u => H.data u o v) s.gen 0 s.obs.length s (by omega)).mono
    ?_ fun _ h => h
  rintro ⟨t, r⟩ ⟨h1, new, h2, h3⟩
  cases r with
  | none => exact ⟨rfl, new, h2, h3⟩
  | some x => exact absurd (h1 (by simp)) (by simp)

/-- What the loop of `clear_observers` does. -/
theorem clearLoop_ran {ex : Ex V U} (hex : Good ex) (H : Handlers V U) (s : St V U) :
    Post (fun r => ∃ new, Ran (inside .clear) s r.1 new ∧
      LoopRan (inside .clear) (fun s o => .disc s.self o) 0 s r.1 new r.2) (Dead s)
      (loop ex false (fun s o => .disc s.self o) (fun o u => H.disconnect u o) s.gen 0 s.obs.length s) := by
  refine (loop_ran hex (Q := inside .clear) (e := fun s o => .disc s.self o) (f := fun o => .disc o) (fun s o => rfl)
    (fun s t o h => by simp only [h]) (fun h => by cases h) ?_ (fun o u => H.disconnect u o) s.gen 0 s.obs.length s
    (by omega)).mono ?_ fun _ h => h
  · rintro _ o st ⟨st', rfl⟩ h
    exact h
  · rintro ⟨t, r⟩ ⟨_, new, h2, h3⟩
    exact ⟨new, h2, h3⟩

theorem lockOn_dead {mtx : Bool} {s : St V U} {op : Op V} {l : List (Ev V)} {new : List (Ev V)}
    (h : l = (lockOn mtx s op).log ++ new) (he : ∀ st, Ends (.op op :: st) new) : Dead s l := by
  refine ⟨.begin op :: new, ?_, fun st => Ends.append (a := [.begin op]) (he st)⟩
  rw [h]
  simp [lockOn, St.emit]

/-- What the outermost call of a run did. -/
def Did (s : St V U) (op : Op V) (r : Option Exc) (new : List (Ev V)) : Prop :=
  match op, r with
  | .notify v, none => top 0 new = s.obs.map fun o => .enter s.self o v
  | .clear, none => top 0 new = s.obs.map fun o => .disc s.self o
  | .destroy, none => top 0 new = s.obs.map fun o => .disc s.self o
  | .clear, some x => ∃ told o rest a b, s.obs = told ++ o :: rest ∧
      new = a ++ .disc s.self o :: b ++ [.threw o x, .ret .clear (some x)] ∧
      top 0 a = told.map (fun p => .disc s.self p) ∧ Still s.obs a ∧
      top 0 new = (told ++ [o]).map fun p => .disc s.self p
  | .add o, r => r = if o ∈ s.obs then some .alreadyContains else none
  | .remove o, r => r = if o ∈ s.obs then none else some .notFound
  | .notify _, some _ => False
  | .destroy, some _ => False

theorem top_wrap {op : Op V} {r : Option Exc} {new l : List (Ev V)} (h : ∀ rest, top 0 (new ++ rest) = l ++ top 0 rest) :
    top 0 (.begin op :: new ++ [.ret op r]) = l := by
  simp only [List.cons_append, top]
  rw [h]
  exact List.append_nil _

/-- What a call did to the registrations, except for a `clear_observers` that was left by an exception. -/
def Eff (s : St V U) (op : Op V) (t : St V U) (r : Option Exc) : Prop :=
  (op = .clear → r = none) → t.obs = regEv s.obs (.ret op r)

theorem execStep_ran {mtx : Bool} {ex : Ex V U} (hex : Good ex) (H : Handlers V U) (s : St V U) (op : Op V) :
    Post (fun r => ∃ new, Ran anywhere s r.1 new ∧ Tally s r.1 new ∧ Did s op r.2 new ∧ Eff s op r.1 r.2) (Dead s)
      (execStep mtx ex H s op) := by
  rw [execStep]
  split
  · split
    · trivial
    · rename_i hlock
      have hlock : s.locked = false := by
        cases h : s.locked
        · rfl
        · exact absurd h hlock
      have hdead : ∀ l, (∃ new, l = (lockOn mtx s op).log ++ new ∧ ∀ st, Ends st new) → Dead s l := by
        rintro l ⟨new, h1, h2⟩
        exact lockOn_dead h1 fun st => h2 _
      -- a call that does nothing but change the members
      have plain : ∀ (t : St V U) (r : Option Exc), t.log = (lockOn mtx s op).log → t.self = s.self →
          t.obs = regEv s.obs (.ret op r) → s.gen ≤ t.gen →
          (t.gen = s.gen → regEv s.obs (.ret op r) = s.obs) →
          (∀ o, t.obs.count o ≤ adds o [.ret op r] + s.obs.count o) → top 0 [.ret op r] = [] →
          Did s op r (.begin op :: [] ++ [.ret op r]) →
          ∃ new, Ran anywhere s (after t op r) new ∧ Tally s (after t op r) new ∧ Did s op r new ∧
            Eff s op (after t op r) r := by
        intro t r h1 h2 h3 h4 h5 h6 _ h7
        refine ⟨_, wrap hlock (.refl _ (lockOn mtx s op) s.user) h1 h2 h3 h4 h5, ⟨?_, ?_⟩, h7, fun _ => h3⟩
        · intro _ _ _ o
          exact discs_wrap op r o []
        · intro _ o
          rw [discs_wrap op r o [], adds_wrap op r o []]
          show 0 + t.obs.count o ≤ 0 + _ + _
          have := h6 o
          omega
      -- the two functions that disconnect everyone
      have emptying : ∀ (t : St V U) (new : List (Ev V)), (op = .clear ∨ op = .destroy) →
          Ran anywhere (lockOn mtx s op) t new →
          LoopRan (inside .clear) (fun s o => .disc s.self o) 0 (lockOn mtx s op) t new none →
          ∀ t' : St V U, t'.log = t.log → t'.self = t.self → t'.obs = [] → t'.gen = t.gen + 1 →
          ∃ new, Ran anywhere s (after t' op none) new ∧ Tally s (after t' op none) new ∧
            Did s op none new ∧ Eff s op (after t' op none) none := by
        intro t new hop hr hl t' h1 h2 h3 h4
        obtain ⟨l1, l2, l3, _⟩ := hl
        have hreg : ∀ l, regEv l (.ret op none) = [] := by
          intro l
          rcases hop with rfl | rfl <;> rfl
        have hg : t.gen = s.gen := l1
        have ho : t.obs = s.obs := hr.obs_eq l1
        refine ⟨_, wrap (t := t') (r := none) hlock ⟨hr.log, hr.self, hr.locked, hr.obs, hr.frames, hr.mono, hr.still,
          hr.bal, fun st _ => hr.safe st trivial⟩ h1 h2 (by rw [h3, hreg]) (by omega) (fun h => by omega), ⟨?_, ?_⟩, ?_,
          fun _ => by rw [hreg]; exact h3⟩
        · intro h
          have h : t'.gen = s.gen := h
          omega
        · intro hc o
          rw [discs_wrap, l3 hc.inner]
          have : (after t' op none).obs = [] := h3
          rw [this]
          have := discs_disc (V := V) s.self o s.obs
          simp only [List.drop_zero]
          rw [show (lockOn mtx s op).obs = s.obs from rfl, show (lockOn mtx s op).self = s.self from rfl, this]
          simp
        · have htop := top_wrap (op := op) (r := none) l2
          rcases hop with rfl | rfl <;> exact htop
      cases op with
      | add o =>
        rcases add_ran (lockOn mtx s (.add o)) o with ⟨hm, h⟩ | ⟨hm, h⟩
        · have hm : o ∉ s.obs := hm
          simp only [body, h, Out.ok_bind, lockOff]
          refine plain _ none rfl rfl ?_ (Nat.le_succ _) ?_ ?_ rfl ?_
          · simp [regEv, next, hm, lockOn, St.emit]
          · intro h
            exact absurd h (Nat.succ_ne_self _)
          · intro p
            simp only [lockOn, St.emit, List.count_append, adds, List.countP_cons, List.countP_nil, List.count_cons,
              List.count_nil]
            omega
          · simp [Did, hm]
        · have hm : o ∈ s.obs := hm
          simp only [body, h, Out.ok_bind, lockOff]
          refine plain _ _ rfl rfl rfl (Nat.le_refl _) (fun _ => rfl) ?_ rfl ?_
          · intro p
            exact Nat.le_add_left _ _
          · simp [Did, hm]
      | remove o =>
        rcases remove_ran (lockOn mtx s (.remove o)) o with ⟨hm, h⟩ | ⟨hm, h⟩
        · have hm : o ∈ s.obs := hm
          simp only [body, h, Out.ok_bind, lockOff]
          refine plain _ none rfl rfl rfl (Nat.le_succ _) ?_ ?_ rfl ?_
          · intro h
            exact absurd h (Nat.succ_ne_self _)
          · intro p
            exact Nat.le_trans (List.Sublist.count_le p List.filter_sublist) (Nat.le_add_left _ _)
          · simp [Did, hm]
        · have hm : o ∉ s.obs := hm
          simp only [body, h, Out.ok_bind, lockOff]
          refine plain _ _ rfl rfl rfl (Nat.le_refl _) (fun _ => rfl) ?_ rfl ?_
          · intro p
            exact Nat.le_add_left _ _
          · simp [Did, hm]
      | notify v =>
        simp only [body]
        refine Post.bind ((notify_ran hex H (lockOn mtx s (.notify v)) v (inside (.notify v))).mono (fun _ h => h) hdead) ?_
        rintro ⟨t, r⟩ ⟨h1, new, hr, l1, l2, l3, _⟩
        simp only at h1 hr
        subst h1
        refine ⟨_, wrap (t := t) (r := none) hlock hr rfl rfl rfl (Nat.le_refl _) (fun _ => rfl), ⟨?_, ?_⟩, ?_,
          fun _ => hr.obs_eq l1⟩
        · intro _ _ hc o
          rw [discs_wrap, l3 hc.inner, discs_enter]
        · intro hc o
          rw [discs_wrap, l3 hc.inner, discs_enter]
          show 0 + t.obs.count o ≤ _
          rw [hr.obs_eq l1]
          show 0 + s.obs.count o ≤ _
          omega
        · exact top_wrap l2
      | clear =>
        simp only [body, Throw.clear]
        refine Post.bind (P := fun r => ∃ t new, Ran (inside .clear) (lockOn mtx s .clear) t new ∧
          LoopRan (inside .clear) (fun s o => .disc s.self o) 0 (lockOn mtx s .clear) t new r.2 ∧
          r.1 = match r.2 with
            | none => { t with obs := [], gen := t.gen + 1 }
            | some _ => t)
          (Post.bind ((clearLoop_ran hex H (lockOn mtx s .clear)).mono (fun _ h => h) hdead) ?_) ?_
        · rintro ⟨t, r⟩ ⟨new, hr, hl⟩
          cases r with
          | none => exact ⟨t, new, hr, hl, rfl⟩
          | some x => exact ⟨t, new, hr, hl, rfl⟩
        · rintro ⟨t', r⟩ ⟨t, new, hr, hl, h1⟩
          simp only at h1 hl
          cases r with
          | none =>
            simp only at h1
            subst h1
            exact emptying t new (.inl rfl) hl.2.2.2 hl _ rfl rfl rfl rfl
          | some x =>
            simp only at h1
            subst h1
            refine ⟨_, wrap (r := some x) hlock hr rfl rfl rfl (Nat.le_refl _) (fun _ => rfl), ⟨?_, ?_⟩, ?_,
              fun h => by cases h rfl⟩
            · intro _ _ hc
              exact absurd (by simp) (hc x)
            · intro hc
              exact absurd (by simp) (hc x)
            · obtain ⟨told, o, rest, a, b, u, c1, c2, c3, c4, _, c5, c6⟩ := hl
              refine ⟨told, o, rest, .begin .clear :: a, b, c1, ?_, ?_, ?_, top_wrap c6⟩
              · rw [c2]
                simp [lockOn, St.emit]
              · have := c5 []
                simp only [List.append_nil] at this
                simp only [top]
                rw [this]
                exact List.append_nil _
              · have := c3.still c4
                intro op' hm
                simp only [List.mem_cons] at hm
                rcases hm with hm | hm
                · cases hm
                · exact this op' hm
      | destroy =>
        simp only [body, Throw.clear]
        refine Post.bind (P := fun r => ∃ t new, Ran anywhere (lockOn mtx s .destroy) t new ∧
          LoopRan (inside .clear) (fun s o => .disc s.self o) 0 (lockOn mtx s .destroy) t new none ∧
          r = ({ t with obs := [], gen := t.gen + 1, alive := false }, none))
          (Post.bind (P := fun r => ∃ t new, Ran (inside .clear) (lockOn mtx s .destroy) t new ∧
          LoopRan (inside .clear) (fun s o => .disc s.self o) 0 (lockOn mtx s .destroy) t new r.2 ∧
          r.1 = match r.2 with
            | none => { t with obs := [], gen := t.gen + 1 }
            | some _ => t)
          (Post.bind ((clearLoop_ran hex H (lockOn mtx s .destroy)).mono (fun _ h => h) hdead) ?_) ?_) ?_
        · rintro ⟨t, r⟩ ⟨new, hr, hl⟩
          cases r with
          | none => exact ⟨t, new, hr, hl, rfl⟩
          | some x => exact ⟨t, new, hr, hl, rfl⟩
        · rintro ⟨t', r⟩ ⟨t, new, hr, hl, h1⟩
          simp only at h1 hl
          cases r with
          | none =>
            simp only at h1
            subst h1
            exact ⟨t, new, hl.2.2.2, hl, rfl⟩
          | some x =>
            simp only at h1
            subst h1
            obtain ⟨told, o, rest, a, b, u, c1, c2, c3, c4, c7, c5, c6⟩ := hl
            refine lockOn_dead (mtx := mtx) (op := .destroy) hr.log fun st => ⟨a ++ .disc s.self o :: b, o, x, ?_, ?_⟩
            · rw [c2]
              simp [lockOn, St.emit]
            · rw [running_append, c3.frames, show ∀ (e : Ev V) l, e :: l = [e] ++ l from fun _ _ => rfl,
                running_append, c7]
              trivial
        · rintro r ⟨t, new, hr, hl, rfl⟩
          exact emptying t new (.inr rfl) hr hl _ rfl rfl rfl rfl
  · trivial

theorem exec_good (mtx : Bool) (H : Handlers V U) (n : Nat) : Good (exec mtx H n) := by
  induction n with
  | zero => exact fun _ _ => trivial
  | succ n ih =>
    intro s op
    refine (execStep_ran ih H s op).mono ?_ fun _ h => h
    rintro r ⟨new, h1, h2, _⟩
    exact ⟨new, h1, h2⟩

/-- Everything about a call that returns or throws. -/
theorem exec_ran {mtx : Bool} {H : Handlers V U} {n : Nat} {s s' : St V U} {op : Op V} {r : Option Exc}
    (h : exec mtx H n s op = .ok (s', r)) : ∃ new, Ran anywhere s s' new ∧ Tally s s' new ∧ Did s op r new ∧
      Eff s op s' r := by
  cases n with
  | zero => cases h
  | succ n =>
    have := execStep_ran (mtx := mtx) (exec_good mtx H n) H s op
    rw [exec] at h
    rw [h] at this
    exact this

theorem Reach.inv {mtx : Bool} {H : Handlers V U} {s : St V U} (h : Reach mtx H s) :
    s.obs = regs s.log ∧ s.locked = false ∧ running [] s.log = [] ∧ Safe [] s.log ∧
      (ClearsReturn s.log → ∀ o, discs o s.log + s.obs.count o ≤ adds o s.log) := by
  induction h with
  | new self u => exact ⟨rfl, rfl, rfl, trivial, fun _ _ => Nat.le_refl _⟩
  | call s s' n op r _ hx ih =>
    obtain ⟨new, hr, ht, _⟩ := exec_ran hx
    obtain ⟨i1, i2, i3, i4, i5⟩ := ih
    refine ⟨?_, ?_, ?_, ?_, ?_⟩
    · rw [hr.obs, i1, hr.log, regs_append]
    · rw [hr.locked, i2]
    · rw [hr.log, running_append, i3, hr.frames]
    · rw [hr.log]
      exact i4.append (hr.safe _ trivial)
    · intro hc o
      rw [hr.log] at hc
      have a1 := i5 hc.left o
      have a2 := ht.le hc.right o
      rw [hr.log, discs_append, adds_append]
      omega
  | user s u _ ih => exact ih

/-! ### Runs that are defined -/

/-- Every call that the program can make satisfies `P`. -/
def Prog.Only (P : Op V → Prop) : Prog V U → Prop
  | .ret _ => True
  | .set _ k => k.Only P
  | .throw _ _ => True
  | .call op k => P op ∧ ∀ r u, (k r u).Only P

/-- Every call that callbacks of `H` can make satisfies `P`. -/
def Only (P : Op V → Prop) (H : Handlers V U) : Prop :=
  (∀ u o v, (H.data u o v).Only P) ∧ ∀ u o, (H.disconnect u o).Only P

/-- A call that cannot change which observers are registered if `l` are. -/
def Mild (l : List Nat) : Op V → Prop
  | .add o => o ∈ l
  | .remove o => o ∉ l
  | .notify _ => True
  | .clear => False
  | .destroy => False

/-- Observers `l` are registered, the object is alive, the mutex is as `lk` says. -/
def Fit (lk : Bool) (l : List Nat) (s : St V U) : Prop := s.obs = l ∧ s.alive = true ∧ s.locked = lk

/-- The outcome is defined and does not block; the program ends only if `tm`; what is registered stays so. -/
def Fine (tm dp : Prop) (lk : Bool) (l : List Nat) (g : Nat) : End V U → Prop
  | .ok r => Fit lk l r.1 ∧ r.1.gen = g
  | .term _ => tm
  | .deep => dp
  | _ => False

theorem Fine.bind {tm dp : Prop} {lk : Bool} {l : List Nat} {g : Nat} {m : End V U} {f : St V U × Option Exc → End V U}
    (h : Fine tm dp lk l g m) (hf : ∀ r, Fit lk l r.1 → r.1.gen = g → Fine tm dp lk l g (f r)) : Fine tm dp lk l g (m.bind f) := by
  cases m with
  | ok r => exact hf r h.1 h.2
  | term l => exact h
  | deep => exact h
  | ub => exact h.elim
  | stuck => exact h.elim

theorem runProg_fine {tm dp : Prop} {lk : Bool} {l : List Nat} {ex : Ex V U} {P : Op V → Prop}
    (hex : ∀ s op, P op → Fit lk l s → Fine tm dp lk l s.gen (ex s op)) (p : Prog V U) (hp : p.Only P) (s : St V U)
    (hs : Fit lk l s) : Fine tm dp lk l s.gen (runProg ex p s) := by
  induction p generalizing s with
  | ret u => exact ⟨hs, rfl⟩
  | set u k ih => exact ih hp { s with user := u } hs
  | throw x u => exact ⟨hs, rfl⟩
  | call op k ih =>
    refine Fine.bind (hex s op hp.1 hs) ?_
    rintro ⟨t, r⟩ h1 h2
    have := ih r t.user (hp.2 r t.user) t h1
    rw [h2] at this
    exact this

theorem loop_fine {tm dp : Prop} {lk : Bool} {l : List Nat} {ex : Ex V U} {P : Op V → Prop} {noex : Bool}
    (hex : ∀ s op, P op → Fit lk l s → Fine tm dp lk l s.gen (ex s op)) (e : St V U → Nat → Ev V) (p : Nat → U → Prog V U)
    (hp : ∀ o u, (p o u).Only P) (ht : tm ∨ noex = false ∨ ∀ o u, ∃ u', p o u = .ret u') (i left : Nat) (s : St V U)
    (hs : Fit lk l s) (hl : i + left = l.length) : Fine tm dp lk l s.gen (loop ex noex e p s.gen i left s) := by
  have main : ∀ g, s.gen = g → Fine tm dp lk l g (loop ex noex e p g i left s) := by
    induction left generalizing i s with
    | zero =>
      intro g hg
      simp only [loop, if_pos hg]
      exact ⟨hs, hg⟩
    | succ left ih =>
      intro g hg
      have hi : i < s.obs.length := by rw [hs.1]; omega
      simp only [loop, if_pos hg, deref, List.getElem?_eq_getElem hi, Out.ok_bind]
      have hr := runProg_fine hex (p s.obs[i] s.user) (hp _ _) (s.emit (e s s.obs[i])) hs
      have hg' : (s.emit (e s s.obs[i])).gen = g := hg
      rw [hg'] at hr
      rw [callback]
      cases hm : runProg ex (p s.obs[i] s.user) (s.emit (e s s.obs[i])) with
      | ub => rw [hm] at hr; exact hr.elim
      | stuck => rw [hm] at hr; exact hr.elim
      | deep => rw [hm] at hr; exact hr
      | term l' => rw [hm] at hr; exact hr
      | ok r =>
        obtain ⟨t, r⟩ := r
        rw [hm] at hr
        obtain ⟨h1, h2⟩ := hr
        rw [Out.ok_bind]
        cases r with
        | none => exact ih (i + 1) (t.emit (.leave s.obs[i])) h1 (by omega) g h2
        | some x =>
          cases noex with
          | false => exact ⟨h1, h2⟩
          | true =>
            rcases ht with ht | ht | ht
            · exact ht
            · cases ht
            · obtain ⟨u', hu⟩ := ht s.obs[i] s.user
              rw [hu] at hm
              cases hm
  exact main _ rfl

theorem notify_fine {tm dp : Prop} {lk : Bool} {l : List Nat} {ex : Ex V U} {P : Op V → Prop}
    (hex : ∀ s op, P op → Fit lk l s → Fine tm dp lk l s.gen (ex s op)) {H : Handlers V U} (hH : Only P H)
    (ht : tm ∨ ∀ u o v, ∃ u', H.data u o v = .ret u') (s : St V U) (hs : Fit lk l s) (v : V) :
    Fine tm dp lk l s.gen (Throw.notify ex H s v) := by
  refine loop_fine hex _ _ (fun o u => hH.1 u o v) ?_ 0 s.obs.length s hs (by rw [hs.1]; omega)
  rcases ht with ht | ht
  · exact .inl ht
  · exact .inr (.inr fun o u => ht u o v)

/-- The outcome is defined and does not block; the program ends only if `tm`, the fuel only if `dp`. -/
def Defined (tm dp : Prop) : End V U → Prop
  | .ok _ => True
  | .term _ => tm
  | .deep => dp
  | _ => False

theorem execStep_defined {tm dp : Prop} {mtx : Bool} {l : List Nat} {ex : Ex V U} {P : Op V → Prop}
    (hex : ∀ s op, P op → Fit mtx l s → Fine tm dp mtx l s.gen (ex s op)) {H : Handlers V U} (hH : Only P H)
    (ht : tm ∨ ∀ u o v, ∃ u', H.data u o v = .ret u') (s : St V U) (hs : Fit false l s) (op : Op V)
    (hd : tm ∨ op ≠ .destroy) : Defined tm dp (execStep mtx ex H s op) := by
  have hfit : Fit mtx l (lockOn mtx s op) := ⟨hs.1, hs.2.1, rfl⟩
  have hclear := loop_fine (tm := tm) (dp := dp) hex (noex := false) (fun s o => .disc s.self o) (fun o u => H.disconnect u o)
    (fun o u => hH.2 u o) (.inr (.inl rfl)) 0 (lockOn mtx s op).obs.length _ hfit (by rw [hfit.1]; omega)
  simp only [execStep, hs.2.1, hs.2.2, if_true]
  rw [if_neg (by simp)]
  cases op with
  | add o => trivial
  | remove o => trivial
  | notify v =>
    have := notify_fine hex hH ht _ hfit v
    simp only [body]
    generalize Throw.notify ex H (lockOn mtx s (.notify v)) v = m at this
    cases m with
    | ub => exact this.elim
    | stuck => exact this.elim
    | deep => exact this
    | term l' => exact this
    | ok r => trivial
  | clear =>
    simp only [body, Throw.clear]
    generalize loop ex false (fun s o => .disc s.self o) (fun o u => H.disconnect u o) (lockOn mtx s .clear).gen 0
      (lockOn mtx s .clear).obs.length (lockOn mtx s .clear) = m at hclear
    cases m with
    | ub => exact hclear.elim
    | stuck => exact hclear.elim
    | deep => exact hclear
    | term l' => exact hclear
    | ok r =>
      obtain ⟨t, r⟩ := r
      cases r <;> trivial
  | destroy =>
    simp only [body, Throw.clear]
    generalize loop ex false (fun s o => .disc s.self o) (fun o u => H.disconnect u o) (lockOn mtx s .destroy).gen 0
      (lockOn mtx s .destroy).obs.length (lockOn mtx s .destroy) = m at hclear
    cases m with
    | ub => exact hclear.elim
    | stuck => exact hclear.elim
    | deep => exact hclear
    | term l' => exact hclear
    | ok r =>
      obtain ⟨t, r⟩ := r
      cases r with
      | none => trivial
      | some x =>
        rcases hd with hd | hd
        · exact hd
        · exact absurd rfl hd

theorem exec_fine {l : List Nat} {H : Handlers V U} (hH : Only (Mild l) H) (n : Nat) (s : St V U) (op : Op V)
    (hop : Mild l op) (hs : Fit false l s) : Fine True True false l s.gen (exec false H n s op) := by
  induction n generalizing s op with
  | zero => trivial
  | succ n ih =>
    have hfit : Fit false l (lockOn false s op) := ⟨hs.1, hs.2.1, rfl⟩
    simp only [exec, execStep, hs.2.1, hs.2.2, if_true]
    rw [if_neg (by simp)]
    cases op with
    | add o =>
      rcases add_ran (lockOn false s (.add o)) o with ⟨hm, h⟩ | ⟨_, h⟩
      · exact absurd (by rw [hfit.1]; exact hop) hm
      · simp only [body, h, Out.ok_bind, lockOff]
        exact ⟨⟨hs.1, hs.2.1, rfl⟩, rfl⟩
    | remove o =>
      rcases remove_ran (lockOn false s (.remove o)) o with ⟨hm, h⟩ | ⟨_, h⟩
      · rw [hfit.1] at hm
        exact absurd hm hop
      · simp only [body, h, Out.ok_bind, lockOff]
        exact ⟨⟨hs.1, hs.2.1, rfl⟩, rfl⟩
    | notify v =>
      refine Fine.bind (notify_fine (P := Mild l) (fun s op hp hf => ih s op hp hf) hH (.inl trivial) _ hfit v) ?_
      rintro ⟨t, r⟩ h1 h2
      exact ⟨⟨h1.1, h1.2.1, rfl⟩, h2⟩
    | clear => exact hop.elim
    | destroy => exact hop.elim

/-! ### C105 -/

/-- **C105 as far as it holds**: when `clear_observers` is left by an exception, it has called `disconnect` of the
observers up to the one that threw, in the order of subscription and once each, and of no one else; those before it left
everything as it was; what leaves is what the last one threw; and unless the last one itself changed the
registrations before it threw, exactly the same observers are registered as before, told or not.

Missing: exceptions that `data` throws, and those that `disconnect` throws while the object is destroyed.  They end the
program (`C105_terminates`, `C105_data_refuted`, `C105_destructor_refuted`). -/
theorem C105_clear_partial {mtx : Bool} {H : Handlers V U} {s s' : St V U} (h : Reach mtx H s) {n : Nat} {x : Exc}
    (hx : exec mtx H n s .clear = .ok (s', some x)) :
    ∃ told o rest a b, regs s.log = told ++ o :: rest ∧
      s'.log = s.log ++ (a ++ .disc s.self o :: b ++ [.threw o x, .ret .clear (some x)]) ∧
      top 0 a = told.map (fun p => .disc s.self p) ∧
      top 0 (a ++ .disc s.self o :: b ++ [.threw o x, .ret .clear (some x)]) =
        (told ++ [o]).map (fun p => .disc s.self p) ∧
      regs (s.log ++ a) = regs s.log ∧ ((∀ op, .ret op none ∉ b) → regs s'.log = regs s.log) := by
  obtain ⟨new, hr, _, ⟨told, o, rest, a, b, d1, d2, d3, d4, d5⟩, _⟩ := exec_ran hx
  have hi := h.inv.1
  rw [hi] at d1 d4
  have ha : regs (s.log ++ a) = regs s.log := by rw [regs_append, d4.regs]
  refine ⟨told, o, rest, a, b, d1, by rw [hr.log, d2], d3, by rw [← d2]; exact d5, ha, fun hb => ?_⟩
  rw [hr.log, d2, regs_append, List.foldl_append, List.foldl_append, d4.regs]
  have : Still (regs s.log) b := fun op hm => absurd hm (hb op)
  exact this.regs

/-- A call that returns has done all of its work, whatever was thrown and caught on the way: a notification has called
everyone registered once, `clear_observers` and the destructor have disconnected everyone once and left no one
registered, and the two other functions throw exactly when they are documented to.  A notification and the destructor
never throw. -/
theorem C105_completes {mtx : Bool} {H : Handlers V U} {s s' : St V U} (h : Reach mtx H s) {n : Nat} {r : Option Exc} :
    (∀ v, exec mtx H n s (.notify v) = .ok (s', r) → r = none ∧ regs s'.log = regs s.log ∧
      ∃ new, s'.log = s.log ++ new ∧ top 0 new = (regs s.log).map fun o => .enter s.self o v) ∧
    (exec mtx H n s .clear = .ok (s', none) → regs s'.log = [] ∧
      ∃ new, s'.log = s.log ++ new ∧ top 0 new = (regs s.log).map fun o => .disc s.self o) ∧
    (exec mtx H n s .destroy = .ok (s', r) → r = none ∧ regs s'.log = [] ∧
      ∃ new, s'.log = s.log ++ new ∧ top 0 new = (regs s.log).map fun o => .disc s.self o) ∧
    (∀ o, exec mtx H n s (.add o) = .ok (s', r) →
      (o ∈ regs s.log ∧ r = some .alreadyContains ∧ regs s'.log = regs s.log) ∨
      (o ∉ regs s.log ∧ r = none ∧ regs s'.log = regs s.log ++ [o])) ∧
    (∀ o, exec mtx H n s (.remove o) = .ok (s', r) →
      (o ∈ regs s.log ∧ r = none ∧ regs s'.log = (regs s.log).filter (· != o)) ∨
      (o ∉ regs s.log ∧ r = some .notFound ∧ regs s'.log = regs s.log)) := by
  have hi := h.inv.1
  refine ⟨fun v hx => ?_, fun hx => ?_, fun hx => ?_, fun o hx => ?_, fun o hx => ?_⟩ <;>
    have hi' := (Reach.call _ _ _ _ _ h hx).inv.1 <;>
    obtain ⟨new, hr, _, hd, he⟩ := exec_ran hx <;>
    rw [← hi, ← hi']
  · have he := he fun h => by cases h
    cases r with
    | none => exact ⟨rfl, he, new, hr.log, hd⟩
    | some x => exact hd.elim
  · exact ⟨he fun _ => rfl, new, hr.log, hd⟩
  · have he := he fun h => by cases h
    cases r with
    | none => exact ⟨rfl, he, new, hr.log, hd⟩
    | some x => exact hd.elim
  · have he := he fun h => by cases h
    have hd : r = if o ∈ s.obs then some .alreadyContains else none := by
      cases r <;> exact hd
    by_cases hm : o ∈ s.obs
    · rw [if_pos hm] at hd
      subst hd
      exact .inl ⟨hm, rfl, he⟩
    · rw [if_neg hm] at hd
      subst hd
      refine .inr ⟨hm, rfl, ?_⟩
      rw [he]
      exact if_neg hm
  · have he := he fun h => by cases h
    have hd : r = if o ∈ s.obs then none else some .notFound := by
      cases r <;> exact hd
    by_cases hm : o ∈ s.obs
    · rw [if_pos hm] at hd
      subst hd
      exact .inl ⟨hm, rfl, he⟩
    · rw [if_neg hm] at hd
      subst hd
      exact .inr ⟨hm, rfl, he⟩

/-- An exception that ends the program was thrown by a `data` function or by a `disconnect` function that the destructor
had called. -/
theorem C105_terminates {mtx : Bool} {H : Handlers V U} {s : St V U} (h : Reach mtx H s) {n : Nat} {op : Op V}
    {l : List (Ev V)} (hx : exec mtx H n s op = .term l) :
    ∃ new o x, l = s.log ++ new ++ [.threw o x] ∧ Fatal (running [] (s.log ++ new)) := by
  have hg := exec_good mtx H n s op
  rw [hx] at hg
  obtain ⟨new, h1, h2⟩ := hg
  obtain ⟨pre, o, x, h3, h4⟩ := h2 []
  refine ⟨pre, o, x, by rw [h1, h3, List.append_assoc], ?_⟩
  rw [running_append, h.inv.2.2.1]
  exact h4

/-- Such an exception always ends the program: there is none in a history after which the program goes on. -/
theorem C105_survives {mtx : Bool} {H : Handlers V U} {s : St V U} (h : Reach mtx H s) {pre post : List (Ev V)}
    {o : Nat} {x : Exc} (hl : s.log = pre ++ .threw o x :: post) : ¬ Fatal (running [] pre) := by
  have := h.inv.2.2.2.1
  rw [hl] at this
  exact this.at

/-- An object that has lived through any number of exceptions stays usable, with or without the mutex: as long as
callbacks do nothing but return or throw, every call is defined and neither blocks nor recurses; unless `data` throws
or the object is destroyed, every call comes back. -/
theorem C105_usable {mtx : Bool} {H : Handlers V U} {s : St V U} (h : Reach mtx H s) (ha : s.alive = true)
    (hH : Only (fun _ => False) H) (n : Nat) (op : Op V) :
    ((∃ s' r, exec mtx H (n + 1) s op = .ok (s', r)) ∨ ∃ l, exec mtx H (n + 1) s op = .term l) ∧
    ((∀ u o v, ∃ u', H.data u o v = .ret u') → op ≠ .destroy →
      ∃ s' r, exec mtx H (n + 1) s op = .ok (s', r)) := by
  have hi := h.inv
  have hs : Fit false (regs s.log) s := ⟨hi.1, ha, hi.2.1⟩
  constructor
  · have := execStep_defined (tm := True) (dp := False) (mtx := mtx) (ex := exec mtx H n)
      (fun _ _ h => h.elim) hH (.inl trivial) s hs op (.inl trivial)
    rw [exec]
    cases hx : execStep mtx (exec mtx H n) H s op with
    | ok r => exact .inl ⟨r.1, r.2, rfl⟩
    | term l => exact .inr ⟨l, rfl⟩
    | ub => rw [hx] at this; exact this.elim
    | stuck => rw [hx] at this; exact this.elim
    | deep => rw [hx] at this; exact this.elim
  · intro hd hop
    have := execStep_defined (tm := False) (dp := False) (mtx := mtx) (ex := exec mtx H n)
      (fun _ _ h => h.elim) hH (.inr hd) s hs op (.inr hop)
    rw [exec]
    cases hx : execStep mtx (exec mtx H n) H s op with
    | ok r => exact ⟨r.1, r.2, rfl⟩
    | term l => rw [hx] at this; exact this.elim
    | ub => rw [hx] at this; exact this.elim
    | stuck => rw [hx] at this; exact this.elim
    | deep => rw [hx] at this; exact this.elim

/-- Without the mutex, callbacks may also notify, subscribe who is registered and unsubscribe who is not, and throw or
let pass whatever they like: no call is undefined or blocks. -/
theorem C105_defined {H : Handlers V U} {s : St V U} (h : Reach false H s) (ha : s.alive = true)
    (hH : Only (Mild (regs s.log)) H) (n : Nat) (op : Op V) :
    exec false H n s op ≠ .ub ∧ exec false H n s op ≠ .stuck := by
  have hi := h.inv
  have hs : Fit false (regs s.log) s := ⟨hi.1, ha, hi.2.1⟩
  have : Defined True True (exec false H n s op) := by
    cases n with
    | zero => trivial
    | succ n => exact execStep_defined (fun s op hp hf => exec_fine hH n s op hp hf) hH (.inl trivial) s hs op (.inl trivial)
  constructor
  · intro hx
    rw [hx] at this
    exact this
  · intro hx
    rw [hx] at this
    exact this

/-! ### What cannot happen inside callbacks and after destruction -/

/-- No call begins. -/
def NoBegin (new : List (Ev V)) : Prop := ∀ op, .begin op ∉ new

/-- How the life of the object goes on while `new` happens. -/
structure Life (s s' : St V U) (new : List (Ev V)) : Prop where
  log : s'.log = s.log ++ new
  locked : s'.locked = s.locked
  dead : s.alive = false → s'.alive = false ∧ NoBegin new
  gone : .ret .destroy none ∈ new → s'.alive = false
  last : ∀ pre post, new = pre ++ .ret .destroy none :: post → NoBegin post
  busy : s.locked = true → NoBegin new

theorem Life.trans {s t u : St V U} {a b : List (Ev V)} (h1 : Life s t a) (h2 : Life t u b) : Life s u (a ++ b) where
  log := by rw [h2.log, h1.log, List.append_assoc]
  locked := by rw [h2.locked, h1.locked]
  dead := by
    intro h
    obtain ⟨d1, n1⟩ := h1.dead h
    obtain ⟨d2, n2⟩ := h2.dead d1
    refine ⟨d2, fun op hm => ?_⟩
    rcases List.mem_append.1 hm with hm | hm
    · exact n1 op hm
    · exact n2 op hm
  gone := by
    intro hm
    rcases List.mem_append.1 hm with hm | hm
    · exact (h2.dead (h1.gone hm)).1
    · exact h2.gone hm
  last := by
    intro pre post h
    rcases List.append_eq_append_iff.1 h with ⟨c, e1, e2⟩ | ⟨c, e1, e2⟩
    · exact h2.last c post e2
    · cases c with
      | nil =>
        rw [List.nil_append] at e2
        exact h2.last [] post e2.symm
      | cons x c =>
        simp only [List.cons_append, List.cons.injEq] at e2
        obtain ⟨rfl, rfl⟩ := e2
        intro op hm
        rcases List.mem_append.1 hm with hm | hm
        · exact h1.last pre c e1 op hm
        · exact (h2.dead (h1.gone (by rw [e1]; simp))).2 op hm
  busy := by
    intro h op hm
    rcases List.mem_append.1 hm with hm | hm
    · exact h1.busy h op hm
    · exact h2.busy (by rw [h1.locked]; exact h) op hm

theorem Life.refl (s : St V U) (u : U) : Life s { s with user := u } [] where
  log := by simp
  locked := rfl
  dead := fun h => ⟨h, fun op hm => by simp at hm⟩
  gone := fun h => by simp at h
  last := fun pre post h => by simp at h
  busy := fun _ op hm => by simp at hm

/-- An event that neither begins a call nor destroys. -/
theorem Life.event (s : St V U) {e : Ev V} (h1 : ∀ op, e ≠ .begin op) (h2 : e ≠ .ret .destroy none) :
    Life s (s.emit e) [e] where
  log := rfl
  locked := rfl
  dead := fun h => ⟨h, fun op hm => h1 op (List.mem_singleton.1 hm).symm⟩
  gone := fun hm => absurd (List.mem_singleton.1 hm).symm h2
  last := by
    intro pre post h
    cases pre with
    | nil =>
      simp only [List.nil_append, List.cons.injEq] at h
      exact absurd h.1 h2
    | cons x pre => simp at h
  busy := fun _ op hm => h1 op (List.mem_singleton.1 hm).symm

/-- A way of running calls that respects life and lock. -/
def Decent (ex : Ex V U) : Prop := ∀ s op s' r, ex s op = .ok (s', r) → ∃ new, Life s s' new

theorem Out.bind_ok {m : Out V α} {f : α → Out V β} {b : β} (h : m.bind f = .ok b) : ∃ a, m = .ok a ∧ f a = .ok b := by
  cases m with
  | ok a => exact ⟨a, rfl, h⟩
  | _ => cases h

theorem runProg_life {ex : Ex V U} (hex : Decent ex) (p : Prog V U) (s : St V U) (r : St V U × Option Exc)
    (h : runProg ex p s = .ok r) : ∃ new, Life s r.1 new := by
  induction p generalizing s with
  | ret u =>
    cases h
    exact ⟨[], .refl s u⟩
  | set u k ih =>
    obtain ⟨b, hb⟩ := ih { s with user := u } h
    exact ⟨[] ++ b, (Life.refl s u).trans hb⟩
  | throw x u =>
    cases h
    exact ⟨[], .refl s u⟩
  | call op k ih =>
    obtain ⟨⟨t, e⟩, h1, h2⟩ := Out.bind_ok h
    obtain ⟨a, ha⟩ := hex s op t e h1
    obtain ⟨b, hb⟩ := ih e t.user t h2
    exact ⟨a ++ b, ha.trans hb⟩

theorem callback_life {ex : Ex V U} (hex : Decent ex) {noex : Bool} {e : Ev V} {f : Frame V} (he : e.starts f)
    (p : U → Prog V U) (o : Nat) (s : St V U) (r : St V U × Option Exc) (h : callback ex noex e p o s = .ok r) :
    ∃ new, Life s r.1 new := by
  obtain ⟨⟨t, x⟩, h1, h2⟩ := Out.bind_ok h
  obtain ⟨a, ha⟩ := runProg_life hex _ _ _ h1
  have hs : Life s (s.emit e) [e] := by
    refine .event s (fun op h => ?_) (he.not_ret _ _)
    subst h
    cases he
  have ht : ∀ z : Ev V, (z = .leave o ∨ ∃ x, z = .threw o x) → ∃ new, Life s (t.emit z) new := by
    intro z hz
    refine ⟨_, (hs.trans ha).trans (.event t (fun op h => ?_) (fun h => ?_))⟩
    · rcases hz with rfl | ⟨x, rfl⟩ <;> cases h
    · rcases hz with rfl | ⟨x, rfl⟩ <;> cases h
  cases x with
  | none =>
    cases h2
    exact ht _ (.inl rfl)
  | some x =>
    simp only [finish] at h2
    split at h2
    · cases h2
    · cases h2
      exact ht _ (.inr ⟨x, rfl⟩)

theorem loop_life {ex : Ex V U} (hex : Decent ex) {noex : Bool} {e : St V U → Nat → Ev V} {f : Nat → Frame V}
    (he : ∀ s o, (e s o).starts (f o)) (p : Nat → U → Prog V U) (g i left : Nat) (s : St V U)
    (r : St V U × Option Exc) (h : loop ex noex e p g i left s = .ok r) : ∃ new, Life s r.1 new := by
  induction left generalizing i s with
  | zero =>
    simp only [loop] at h
    split at h
    · cases h
      exact ⟨[], .refl s s.user⟩
    · cases h
  | succ left ih =>
    simp only [loop] at h
    split at h
    · obtain ⟨o, _, h⟩ := Out.bind_ok h
      obtain ⟨⟨t, x⟩, h1, h2⟩ := Out.bind_ok h
      obtain ⟨a, ha⟩ := callback_life hex (he s o) _ _ _ _ h1
      cases x with
      | none =>
        obtain ⟨b, hb⟩ := ih (i + 1) t h2
        exact ⟨a ++ b, ha.trans hb⟩
      | some x =>
        cases h2
        exact ⟨a, ha⟩
    · cases h

/-- What `clear_observers` leaves behind. -/
theorem clear_life {ex : Ex V U} (hex : Decent ex) {H : Handlers V U} {s : St V U} {r : St V U × Option Exc}
    (h : Throw.clear ex H s = .ok r) : ∃ new t, Life s t new ∧ r.1.log = t.log ∧ r.1.alive = t.alive := by
  obtain ⟨⟨t, x⟩, h1, h2⟩ := Out.bind_ok h
  obtain ⟨new, hn⟩ := loop_life hex (e := fun s o => .disc s.self o) (f := fun o => .disc o)
    (fun s o => rfl) _ _ _ _ _ _ h1
  cases x with
  | none =>
    cases h2
    exact ⟨new, t, hn, rfl, rfl⟩
  | some x =>
    cases h2
    exact ⟨new, t, hn, rfl, rfl⟩

/-- A call: nothing begins while the mutex is held, and nothing after the destruction. -/
theorem execStep_life {mtx : Bool} {ex : Ex V U} (hex : Decent ex) {H : Handlers V U} {s s' : St V U} {op : Op V}
    {r : Option Exc} (h : execStep mtx ex H s op = .ok (s', r)) : ∃ new, Life s s' (.begin op :: new ++ [.ret op r]) ∧
      s.alive = true ∧ s.locked = false ∧ (mtx = true → NoBegin new) := by
  rw [execStep] at h
  split at h
  · rename_i halive
    split at h
    · cases h
    · rename_i hlock
      have hlock : s.locked = false := by
        cases hl : s.locked
        · rfl
        · exact absurd hl hlock
      obtain ⟨⟨t', r'⟩, h1, h2⟩ := Out.bind_ok h
      have hb : ∃ new t, Life (lockOn mtx s op) t new ∧ t'.log = t.log ∧
          (t.alive = false → t'.alive = false) ∧ (op = .destroy → r' = none → t'.alive = false) := by
        cases op with
        | add o =>
          refine ⟨[], _, .refl (lockOn mtx s (.add o)) s.user, ?_⟩
          rcases add_ran (lockOn mtx s (.add o)) o with ⟨_, h⟩ | ⟨_, h⟩ <;>
            · simp only [body, h, Out.ok.injEq, Prod.mk.injEq] at h1
              obtain ⟨rfl, _⟩ := h1
              exact ⟨rfl, fun h => h, fun h => by cases h⟩
        | remove o =>
          refine ⟨[], _, .refl (lockOn mtx s (.remove o)) s.user, ?_⟩
          rcases remove_ran (lockOn mtx s (.remove o)) o with ⟨_, h⟩ | ⟨_, h⟩ <;>
            · simp only [body, h, Out.ok.injEq, Prod.mk.injEq] at h1
              obtain ⟨rfl, _⟩ := h1
              exact ⟨rfl, fun h => h, fun h => by cases h⟩
        | notify v =>
          obtain ⟨new, hn⟩ := loop_life hex (e := fun s o => .enter s.self o v) (f := fun o => .data o)
            (fun s o => rfl) _ _ _ _ _ _ h1
          exact ⟨new, t', hn, rfl, fun h => h, fun h => by cases h⟩
        | clear =>
          obtain ⟨new, t, hn, c1, c2⟩ := clear_life hex h1
          exact ⟨new, t, hn, c1, fun h => by rw [c2]; exact h, fun h => by cases h⟩
        | destroy =>
          obtain ⟨⟨u, x⟩, h3, h4⟩ := Out.bind_ok h1
          obtain ⟨new, t, hn, c1, c2⟩ := clear_life hex h3
          cases x with
          | none =>
            cases h4
            exact ⟨new, t, hn, c1, fun _ => rfl, fun _ _ => rfl⟩
          | some x => cases h4
      simp only [lockOff, Out.ok.injEq, Prod.mk.injEq] at h2
      obtain ⟨rfl, rfl⟩ := h2
      obtain ⟨new, t, hn, e1, e2, e3⟩ := hb
      refine ⟨new, ⟨?_, hlock.symm, ?_, ?_, ?_, ?_⟩, halive, hlock, fun hm => hn.busy hm⟩
      · show t'.log ++ _ = _
        rw [e1, hn.log]
        simp [lockOn, St.emit]
      · intro h
        rw [halive] at h
        cases h
      · intro hm
        show t'.alive = false
        simp only [List.cons_append, List.mem_cons, List.mem_append, List.not_mem_nil, or_false] at hm
        rcases hm with hm | hm | hm
        · cases hm
        · exact e2 (hn.gone hm)
        · obtain ⟨h1, h2⟩ := Ev.ret.inj hm
          exact e3 h1.symm h2.symm
      · intro pre post h
        cases pre with
        | nil => simp at h
        | cons x pre =>
          simp only [List.cons_append, List.cons.injEq] at h
          obtain ⟨_, h⟩ := h
          rcases List.append_eq_append_iff.1 h with ⟨c, c1, c2⟩ | ⟨c, c1, c2⟩
          · cases c with
            | nil =>
              simp only [List.nil_append, List.cons.injEq] at c2
              obtain ⟨_, rfl⟩ := c2
              intro op hm
              simp at hm
            | cons y c => simp at c2
          · cases c with
            | nil =>
              simp only [List.nil_append, List.cons.injEq] at c2
              obtain ⟨_, rfl⟩ := c2
              intro op hm
              simp at hm
            | cons y c =>
              simp only [List.cons_append, List.cons.injEq] at c2
              obtain ⟨rfl, rfl⟩ := c2
              intro op' hm
              rcases List.mem_append.1 hm with hm | hm
              · exact hn.last pre c c1 op' hm
              · simp at hm
      · intro h
        rw [hlock] at h
        cases h
  · cases h

theorem exec_decent (mtx : Bool) (H : Handlers V U) (n : Nat) : Decent (exec mtx H n) := by
  induction n with
  | zero => intro s op s' r h; cases h
  | succ n ih =>
    intro s op s' r h
    obtain ⟨new, hn, _⟩ := execStep_life ih h
    exact ⟨_, hn⟩

/-- After the destruction no call begins that is defined. -/
theorem C105_destroyed {mtx : Bool} {H : Handlers V U} {s : St V U} (h : Reach mtx H s) {pre post : List (Ev V)}
    (hl : s.log = pre ++ .ret .destroy none :: post) (op : Op V) : .begin op ∉ post := by
  have inv : (.ret .destroy none ∈ s.log → s.alive = false) ∧
      ∀ pre post, s.log = pre ++ .ret .destroy none :: post → NoBegin post := by
    clear hl
    induction h with
    | new self u => exact ⟨fun h => by simp [St.new] at h, fun pre post h => by simp [St.new] at h⟩
    | call s s' n op r _ hx ih =>
      obtain ⟨new, hn⟩ := exec_decent mtx H n s op s' r hx
      constructor
      · intro hm
        rw [hn.log] at hm
        rcases List.mem_append.1 hm with hm | hm
        · exact (hn.dead (ih.1 hm)).1
        · exact hn.gone hm
      · intro pre post h
        rw [hn.log] at h
        rcases List.append_eq_append_iff.1 h with ⟨c, e1, e2⟩ | ⟨c, e1, e2⟩
        · exact hn.last c post e2
        · cases c with
          | nil =>
            rw [List.nil_append] at e2
            exact hn.last [] post e2.symm
          | cons x c =>
            simp only [List.cons_append, List.cons.injEq] at e2
            obtain ⟨rfl, rfl⟩ := e2
            intro op' hm
            rcases List.mem_append.1 hm with hm | hm
            · exact ih.2 pre c e1 op' hm
            · exact (hn.dead (ih.1 (by rw [e1]; simp))).2 op' hm
    | user s u _ ih => exact ih
  exact inv.2 pre post hl op

/-- With the mutex, no call that a callback makes ever begins: it blocks. -/
theorem C105_inside {H : Handlers V U} {s : St V U} (h : Reach true H s) {pre post : List (Ev V)} {op : Op V}
    (hl : s.log = pre ++ .begin op :: post) : running [] pre = [] := by
  induction h generalizing pre post op with
  | new self u => simp [St.new] at hl
  | call s s' n op' r hr hx ih =>
    cases n with
    | zero => cases hx
    | succ n =>
      obtain ⟨new, hn, _, _, hb⟩ := execStep_life (exec_decent true H n) hx
      rw [hn.log] at hl
      rcases List.append_eq_append_iff.1 hl with ⟨c, e1, e2⟩ | ⟨c, e1, e2⟩
      · cases c with
        | nil =>
          rw [e1, List.append_nil]
          exact hr.inv.2.2.1
        | cons x c =>
          simp only [List.cons_append, List.cons.injEq] at e2
          have hm : .begin op ∈ new ++ [.ret op' r] := by rw [e2.2]; simp
          rcases List.mem_append.1 hm with hm | hm
          · exact absurd hm (hb rfl op)
          · simp at hm
      · cases c with
        | nil =>
          rw [List.append_nil] at e1
          rw [← e1]
          exact hr.inv.2.2.1
        | cons x c =>
          simp only [List.cons_append, List.cons.injEq] at e2
          obtain ⟨rfl, _⟩ := e2
          exact ih e1
  | user s u _ ih => exact ih hl

/-! ### Concrete objects -/

/-- Observer 2 throws when it is disconnected as often as the user state says; observer 9 throws when it is notified. -/
def moody : Handlers Nat Nat :=
  ⟨fun u o _ => if o = 9 then .throw .user u else .ret u,
    fun u o => if o = 2 ∧ 0 < u then .throw .user (u - 1) else .ret u⟩

theorem moody_silent : Only (fun _ => False) moody := by
  constructor
  · intro u o v
    simp only [moody]
    split <;> trivial
  · intro u o
    simp only [moody]
    split <;> trivial

/-- What the calls do one after the other; exceptions are caught. -/
def script (mtx : Bool) (H : Handlers V U) (n : Nat) : List (Op V) → St V U → Option (St V U)
  | [], s => some s
  | op :: ops, s =>
    match exec mtx H n s op with
    | .ok r => script mtx H n ops r.1
    | _ => none

theorem script_reach {mtx : Bool} {H : Handlers V U} {n : Nat} {ops : List (Op V)} {s s' : St V U}
    (h : Reach mtx H s) (hs : script mtx H n ops s = some s') : Reach mtx H s' := by
  induction ops generalizing s with
  | nil =>
    simp only [script, Option.some.injEq] at hs
    exact hs ▸ h
  | cons op ops ih =>
    simp only [script] at hs
    split at hs
    · rename_i r hr
      exact ih (.call s r.1 n op r.2 h hr) hs
    · cases hs

/-- An object with observers 1, 2, 3. -/
def three (mtx : Bool) : St Nat Nat :=
  ⟨100, [1, 2, 3], 3, false, true, 1, [.begin (.add 1), .ret (.add 1) none, .begin (.add 2), .ret (.add 2) none,
    .begin (.add 3), .ret (.add 3) none]⟩

theorem three_reach (mtx : Bool) : Reach mtx moody (three mtx) :=
  script_reach (n := 1) (ops := [.add 1, .add 2, .add 3]) (.new 100 1) (by cases mtx <;> rfl)

/-- `clear_observers` is left by the exception of observer 2: 1 was told, 3 was not, all are registered. -/
example : ∃ s', exec true moody 1 (three true) .clear = .ok (s', some .user) ∧ regs s'.log = [1, 2, 3] ∧
    s'.log = (three true).log ++ [.begin .clear, .disc 100 1, .leave 1, .disc 100 2, .threw 2 .user,
      .ret .clear (some .user)] := ⟨_, rfl, by decide, rfl⟩

example : ∃ (s' : St Nat Nat) (told : List Nat) (o : Nat) (rest : List Nat) (a b : List (Ev Nat)), exec true moody 1 (three true) .clear = .ok (s', some .user) ∧
    regs (three true).log = told ++ o :: rest ∧ top 0 a = told.map (fun p => .disc 100 p) ∧
    ((∀ op, .ret op none ∉ b) → regs s'.log = regs (three true).log) := by
  have h : ∃ s', exec true moody 1 (three true) .clear = .ok (s', some .user) := ⟨_, rfl⟩
  obtain ⟨s', hs⟩ := h
  obtain ⟨told, o, rest, a, b, h1, _, h3, _, _, h6⟩ := C105_clear_partial (three_reach true) hs
  exact ⟨s', told, o, rest, a, b, hs, h1, h3, h6⟩

/-- After that exception, a notification reaches everyone, and a second `clear_observers` succeeds. -/
example : ∃ s1 s2 s3, exec true moody 1 (three true) .clear = .ok (s1, some .user) ∧
    exec true moody 1 s1 (.notify 7) = .ok (s2, none) ∧ exec true moody 1 s2 .clear = .ok (s3, none) ∧
    (∃ new, s2.log = s1.log ++ new ∧ top 0 new = [.enter 100 1 7, .enter 100 2 7, .enter 100 3 7]) ∧ regs s3.log = [] := by
  have h : ∃ s1 s2 s3, exec true moody 1 (three true) .clear = .ok (s1, some .user) ∧
    exec true moody 1 s1 (.notify 7) = .ok (s2, none) ∧ exec true moody 1 s2 .clear = .ok (s3, none) :=
    ⟨_, _, _, rfl, rfl, rfl⟩
  obtain ⟨s1, s2, s3, h1, h2, h3⟩ := h
  have r1 := Reach.call _ _ _ _ _ (three_reach true) h1
  have r2 := Reach.call _ _ _ _ _ r1 h2
  obtain ⟨_, _, new, c1, c2⟩ := (C105_completes r1).1 7 h2
  refine ⟨s1, s2, s3, h1, h2, h3, ⟨new, c1, ?_⟩, ((C105_completes (r := none) r2).2.1 h3).1⟩
  rw [c2]
  cases h1
  rfl

example (n : Nat) (op : Op Nat) :
    (∃ s' r, exec true moody (n + 1) (three true) op = .ok (s', r)) ∨ ∃ l, exec true moody (n + 1) (three true) op = .term l :=
  (C105_usable (three_reach true) rfl moody_silent n op).1

/-- Observer 1 lets pass what its attempt to subscribe 2 again throws; observer 3 catches what it unsubscribes in vain. -/
def careless : Handlers Nat Nat :=
  ⟨fun u o _ => if o = 1 then .call (.add 2) (fun r u => match r with
      | none => .ret u
      | some x => .throw x u) else if o = 3 then .call (.remove 8) (fun _ u => .ret u) else .ret u,
    fun u _ => .ret u⟩

example (n : Nat) (op : Op Nat) : exec false careless n (three false) op ≠ .ub ∧ exec false careless n (three false) op ≠ .stuck := by
  refine C105_defined (H := careless) (script_reach (n := 1) (ops := [.add 1, .add 2, .add 3]) (.new 100 1) rfl) rfl ?_ n op
  constructor
  · intro u o v
    simp only [careless]
    split
    · refine ⟨by show 2 ∈ _; decide, fun r u => ?_⟩
      cases r <;> trivial
    · split
      · exact ⟨by show 8 ∉ _; decide, fun _ _ => trivial⟩
      · trivial
  · intro _ _
    trivial

/-- **C105 is false for `data`**: an observer that throws when it is notified ends the program; so does one that does not
catch what `add_observer` throws. -/
theorem C105_data_refuted :
    (∃ s l, Reach true moody s ∧ exec true moody 1 s (.notify 7) = .term l ∧ regs s.log = [9, 1] ∧
      l = s.log ++ [.begin (.notify 7), .enter 100 9 7, .threw 9 .user]) ∧
    ∃ l, exec false careless 2 (three false) (.notify 7) = .term l ∧ l = (three false).log ++
      [.begin (.notify 7), .enter 100 1 7, .begin (.add 2), .ret (.add 2) (some .alreadyContains),
        .threw 1 .alreadyContains] :=
  ⟨⟨⟨100, [9, 1], 2, false, true, 1, [.begin (.add 9), .ret (.add 9) none, .begin (.add 1), .ret (.add 1) none]⟩, _,
    script_reach (n := 1) (ops := [.add 9, .add 1]) (.new 100 1) rfl, rfl, rfl, rfl⟩, _, rfl, rfl⟩

/-- **C105 is false for the destructor**: an observer that throws when it is disconnected ends the program if the object is
being destroyed. -/
theorem C105_destructor_refuted : ∃ l, exec true moody 1 (three true) .destroy = .term l ∧
    l = (three true).log ++ [.begin .destroy, .disc 100 1, .leave 1, .disc 100 2, .threw 2 .user] := ⟨_, rfl, rfl⟩

example : ∃ l new o x, exec true moody 1 (three true) .destroy = .term l ∧ l = (three true).log ++ new ++ [.threw o x] ∧
    Fatal (running [] ((three true).log ++ new)) := by
  obtain ⟨l, h, _⟩ := C105_destructor_refuted
  obtain ⟨new, o, x, h1, h2⟩ := C105_terminates (three_reach true) h
  exact ⟨l, new, o, x, h, h1, h2⟩

/-- A history with an exception that did not end the program. -/
example : ∃ s pre post, Reach true moody s ∧ s.log = pre ++ .threw 2 .user :: post ∧ ¬ Fatal (running [] pre) := by
  have h : ∃ s, exec true moody 1 (three true) .clear = .ok (s, some .user) ∧ s.log = ((three true).log ++ [.begin .clear, .disc 100 1, .leave 1, .disc 100 2]) ++ .threw 2 .user :: [.ret .clear (some .user)] := ⟨_, rfl, rfl⟩
  obtain ⟨s, h1, h2⟩ := h
  have hr := Reach.call _ _ _ _ _ (three_reach true) h1
  exact ⟨s, _, _, hr, h2, C105_survives hr h2⟩

/-- An object used after an exception and then destroyed. -/
example : ∃ s pre post, Reach true moody s ∧ s.log = pre ++ .ret .destroy none :: post ∧ post = [] ∧
    s.log.length = 28 := by
  have h : ∃ s, script true moody 1 [.clear, .notify 7, .destroy] (three true) = some s ∧ s.log = s.log.dropLast ++ [.ret .destroy none] ∧
      s.log.length = 28 := ⟨_, rfl, rfl, rfl⟩
  obtain ⟨s, h1, h2, h3⟩ := h
  exact ⟨s, _, _, script_reach (three_reach true) h1, h2, rfl, h3⟩

example : running [] [.begin (.add 1), .ret (.add 1) none, .begin (.add 2), .ret (.add 2) none] = ([] : List (Frame Nat)) :=
  C105_inside (H := moody) (three_reach true) (op := .add 3) (post := [.ret (.add 3) none]) rfl

/-- With the mutex the careless observer 1 blocks the notification. -/
example : exec true careless 2 (three true) (.notify 7) = .stuck := rfl

/-! ### C106 -/

/-- **C106 as far as it holds**: if no `clear_observers` was left by an exception, no observer is told more often that it
is disconnected than it was subscribed, and less often if it is still registered.

Missing: after a `clear_observers` that was left by an exception the observers told before are told again
(`C106_again_refuted`). -/
theorem C106_once_partial {mtx : Bool} {H : Handlers V U} {s : St V U} (h : Reach mtx H s) (hc : ClearsReturn s.log)
    (o : Nat) : discs o s.log ≤ adds o s.log ∧ (o ∈ regs s.log → discs o s.log < adds o s.log) := by
  have hi := h.inv
  have := hi.2.2.2.2 hc o
  refine ⟨by omega, fun hm => ?_⟩
  rw [← hi.1] at hm
  have := List.count_pos_iff.2 hm
  omega

example : ∃ s, Reach true moody s ∧ ClearsReturn s.log ∧ regs s.log = [3] ∧ discs 3 s.log = 1 ∧ adds 3 s.log = 2 := by
  refine ⟨_, script_reach (mtx := true) (H := moody) (n := 1) (ops := [.add 1, .add 3, .clear, .add 3]) (.new 100 1) rfl, ?_, by decide, by decide, by decide⟩
  intro x
  cases x <;> decide

/-- **C106 is false**: observer 1 is subscribed once and told twice that it is disconnected. -/
theorem C106_again_refuted : ∃ s, Reach true moody s ∧ adds 1 s.log = 1 ∧ discs 1 s.log = 2 :=
  ⟨_, script_reach (n := 1) (ops := [.clear, .clear]) (three_reach true) rfl, by decide, by decide⟩

end Verif.Observer.Throw
