import Verif.Values.Replace
/-!
Properties C162 and C163: functions of `values::observed` that are replaced while functions run.
-/
namespace Verif.Values.Replace

variable {fns : Nat → Int → List Ev → Prog} {regs : Nat → List Nat}

/-! ### What can be told from the log -/

/-- The functions that run, the one called last first: whose function it is, and whether that observed has been given another function
since the call. -/
def running (log : List Ev) : List (Nat × Bool) :=
  log.foldl (fun l e => match e with
    | .enter o _ _ => (o, false) :: l
    | .leave => l.tail
    | .set o _ => l.map fun x => (x.1, x.2 || x.1 == o)
    | _ => l) []

/-- The function that was given last to `o`. -/
def given (log : List Ev) (o : Nat) : Option Nat :=
  log.foldl (fun g e => match e with
    | .set o' f => if o' = o then f else g
    | _ => g) none

/-- The value that `o` was told last. -/
def lastTold (log : List Ev) (o : Nat) : Int :=
  log.foldl (fun g e => match e with
    | .told o' v => if o' = o then v else g
    | _ => g) 0

/-- No function has used something it captured after its observed had been given another one. -/
def Fine (log : List Ev) : Prop :=
  ∀ p q, log = p ++ .look :: q → ∀ o, (running p).head? ≠ some (o, true)

/-- What happens after `pre`: with `none`, what code does; with `some (v, os)`, what happens while `os` are told `v`. -/
inductive Tree (regs : Nat → List Nat) : List Ev → Option (Int × List Nat) → List Ev → Prop where
  | nil (pre : List Ev) : Tree regs pre none []
  | look {pre new : List Ev} : Tree regs (pre ++ [.look]) none new → Tree regs pre none (.look :: new)
  | set {pre new : List Ev} (o : Nat) (f : Option Nat) : Tree regs (pre ++ [.set o f]) none new →
      Tree regs pre none (.set o f :: new)
  | read {pre new : List Ev} (o : Nat) : Tree regs (pre ++ [.read o (lastTold pre o)]) none new →
      Tree regs pre none (.read o (lastTold pre o) :: new)
  | upd {pre inner new : List Ev} (a : Nat) (v : Int) : Tree regs (pre ++ [.upd a v]) (some (v, regs a)) inner →
      Tree regs (pre ++ .upd a v :: inner ++ [.ret a]) none new → Tree regs pre none (.upd a v :: inner ++ .ret a :: new)
  | told0 (pre : List Ev) (v : Int) : Tree regs pre (some (v, [])) []
  | silent {pre new : List Ev} {v : Int} {o : Nat} {os : List Nat} : given pre o = none →
      Tree regs (pre ++ [.told o v]) (some (v, os)) new → Tree regs pre (some (v, o :: os)) (.told o v :: new)
  | call {pre inner new : List Ev} {v : Int} {o f : Nat} {os : List Nat} : given pre o = some f →
      Tree regs (pre ++ [.told o v, .enter o f v]) none inner →
      Tree regs (pre ++ .told o v :: .enter o f v :: inner ++ [.leave]) (some (v, os)) new →
      Tree regs pre (some (v, o :: os)) (.told o v :: .enter o f v :: inner ++ .leave :: new)

/-! ### Machinery -/

theorem running_snoc (l : List Ev) (e : Ev) : running (l ++ [e]) = (match e with
    | .enter o _ _ => (o, false) :: running l
    | .leave => (running l).tail
    | .set o _ => (running l).map fun x => (x.1, x.2 || x.1 == o)
    | _ => running l) := by
  unfold running; rw [List.foldl_append]; rfl

theorem given_snoc (l : List Ev) (e : Ev) (o : Nat) : given (l ++ [e]) o = (match e with
    | .set o' f => if o' = o then f else given l o
    | _ => given l o) := by
  unfold given; rw [List.foldl_append]; rfl

theorem lastTold_snoc (l : List Ev) (e : Ev) (o : Nat) : lastTold (l ++ [e]) o = (match e with
    | .told o' v => if o' = o then v else lastTold l o
    | _ => lastTold l o) := by
  unfold lastTold; rw [List.foldl_append]; rfl

theorem Fine.snoc {l : List Ev} (h : Fine l) (e : Ev) (he : e = .look → ∀ o, (running l).head? ≠ some (o, true)) :
    Fine (l ++ [e]) := by
  intro p q hpq o
  rcases List.eq_nil_or_concat q with rfl | ⟨q', x, rfl⟩
  · have := List.append_inj' hpq rfl
    simp only [List.cons.injEq, and_true] at this
    rw [← this.1]
    exact he this.2 o
  · have h1 : l ++ [e] = (p ++ .look :: q') ++ [x] := by simpa using hpq
    have := List.append_inj' h1 rfl
    exact h p q' this.1 o

/-- The state agrees with the log; `fr` are the function objects that run. -/
structure Inv (fr : List (Nat × Nat)) (s : St) : Prop where
  held : ∀ o, s.held o = lastTold s.log o
  stored : ∀ o, s.stored o = given s.log o
  run : running s.log = fr.map fun x => (x.1, s.inst x.1 != x.2)
  old : ∀ x ∈ fr, x.2 ≤ s.inst x.1
  fine : Fine s.log

theorem Inv.there {fr : List (Nat × Nat)} {s : St} (h : Inv fr s) :
    s.there fr.head? = true ↔ ∀ o, (running s.log).head? ≠ some (o, true) := by
  rw [h.run]
  cases fr with
  | nil => simp [St.there]
  | cons x fr => obtain ⟨o, i⟩ := x; simp [St.there]

theorem Inv.note {fr : List (Nat × Nat)} {s : St} (h : Inv fr s) {e : Ev}
    (h1 : running (s.log ++ [e]) = running s.log) (h2 : ∀ o, given (s.log ++ [e]) o = given s.log o)
    (h3 : ∀ o, lastTold (s.log ++ [e]) o = lastTold s.log o)
    (h4 : e = .look → ∀ o, (running s.log).head? ≠ some (o, true)) : Inv fr (s.note e) where
  held o := (h.held o).trans (h3 o).symm
  stored o := (h.stored o).trans (h2 o).symm
  run := h1.trans h.run
  old := h.old
  fine := h.fine.snoc e h4

theorem Inv.onUpdate {fr : List (Nat × Nat)} {s : St} (h : Inv fr s) (o : Nat) (f : Option Nat) : Inv fr (s.onUpdate o f) where
  held o' := by
    show s.held o' = lastTold (s.log ++ [.set o f]) o'
    rw [lastTold_snoc]; exact h.held o'
  stored o' := by
    show put s.stored o f o' = given (s.log ++ [.set o f]) o'
    rw [given_snoc]; simp only [put, h.stored o', eq_comm]
  run := by
    show running (s.log ++ [.set o f]) = fr.map fun x => (x.1, put s.inst o (s.inst o + 1) x.1 != x.2)
    rw [running_snoc, h.run]
    simp only [List.map_map]
    apply List.map_congr_left
    intro x hx
    have := h.old x hx
    simp only [Function.comp, put, Prod.mk.injEq, true_and]
    by_cases hxo : x.1 = o
    · subst hxo
      have hne : s.inst x.1 + 1 ≠ x.2 := by omega
      simp [hne]
    · simp [hxo]
  old := by
    intro x hx
    have := h.old x hx
    show x.2 ≤ put s.inst o (s.inst o + 1) x.1
    unfold put
    split
    · rename_i he; rw [he] at this; omega
    · exact this
  fine := h.fine.snoc _ (by simp)

theorem Inv.store {fr : List (Nat × Nat)} {s : St} (h : Inv fr s) (o : Nat) (v : Int) : Inv fr (s.store o v) where
  held o' := by
    show put s.held o v o' = lastTold (s.log ++ [.told o v]) o'
    rw [lastTold_snoc]; simp only [put, h.held o', eq_comm]
  stored o' := by
    show s.stored o' = given (s.log ++ [.told o v]) o'
    rw [given_snoc]; exact h.stored o'
  run := by
    show running (s.log ++ [.told o v]) = _
    rw [running_snoc]; exact h.run
  old := h.old
  fine := h.fine.snoc _ (by simp)

theorem Inv.enter {fr : List (Nat × Nat)} {s : St} (h : Inv fr s) (o f : Nat) (v : Int) :
    Inv ((o, s.inst o) :: fr) (s.note (.enter o f v)) where
  held o' := by
    show s.held o' = lastTold (s.log ++ [.enter o f v]) o'
    rw [lastTold_snoc]; exact h.held o'
  stored o' := by
    show s.stored o' = given (s.log ++ [.enter o f v]) o'
    rw [given_snoc]; exact h.stored o'
  run := by
    show running (s.log ++ [.enter o f v]) = _
    rw [running_snoc, h.run]
    simp [St.note]
  old := by
    intro x hx
    rcases List.mem_cons.mp hx with rfl | hx
    · exact Nat.le_refl _
    · exact h.old x hx
  fine := h.fine.snoc _ (by simp)

theorem Inv.leave {fr : List (Nat × Nat)} {s : St} {x : Nat × Nat} (h : Inv (x :: fr) s) : Inv fr (s.note .leave) where
  held o' := by
    show s.held o' = lastTold (s.log ++ [.leave]) o'
    rw [lastTold_snoc]; exact h.held o'
  stored o' := by
    show s.stored o' = given (s.log ++ [.leave]) o'
    rw [given_snoc]; exact h.stored o'
  run := by
    show running (s.log ++ [.leave]) = _
    rw [running_snoc, h.run]
    simp [St.note]
  old y hy := h.old y (List.mem_cons_of_mem _ hy)
  fine := h.fine.snoc _ (by simp)

/-- What a run leads to. -/
def Spec (regs : Nat → List Nat) (fr : List (Nat × Nat)) (w : Option (Int × List Nat)) (s : St) : Out → Prop
  | .ok t => Inv fr t ∧ ∃ new, t.log = s.log ++ new ∧ Tree regs s.log w new
  | .bad t => ∃ l o, t.log = l ++ [.look] ∧ Fine l ∧ (running l).head? = some (o, true)
  | .deep => True

theorem spec (n : Nat) :
    (∀ fr p s, Inv fr s → Spec regs fr none s (exec fns regs n fr.head? p s)) ∧
    (∀ fr v os s, Inv fr s → Spec regs fr (some (v, os)) s (round fns regs n v os s)) := by
  induction n with
  | zero => exact ⟨fun _ _ _ _ => by simp [exec, Spec], fun _ _ _ _ _ => by simp [round, Spec]⟩
  | succ n ih =>
    obtain ⟨ihe, ihr⟩ := ih
    constructor
    · intro fr p s h
      cases p with
      | done =>
        simp only [exec]
        exact ⟨h, [], by simp, .nil _⟩
      | look k =>
        simp only [exec]
        by_cases ht : s.there fr.head? = true
        · rw [if_pos ht]
          have h1 : Inv fr (s.note .look) := h.note (running_snoc _ _) (fun o => given_snoc _ _ o)
            (fun o => lastTold_snoc _ _ o) (fun _ => h.there.mp ht)
          have := ihe fr k _ h1
          revert this
          cases exec fns regs n fr.head? k (s.note .look) with
          | ok t =>
            rintro ⟨ht, new, e1, e2⟩
            exact ⟨ht, .look :: new, by rw [e1]; simp [St.note], .look e2⟩
          | bad t => exact id
          | deep => exact id
        · rw [if_neg ht]
          rw [h.there] at ht
          obtain ⟨o, ho⟩ := Classical.not_forall.mp ht
          exact ⟨s.log, o, rfl, h.fine, Classical.not_not.mp ho⟩
      | set o f k =>
        simp only [exec]
        have := ihe fr k _ (h.onUpdate o f)
        revert this
        cases exec fns regs n fr.head? k (s.onUpdate o f) with
        | ok t =>
          rintro ⟨ht, new, e1, e2⟩
          exact ⟨ht, .set o f :: new, by rw [e1]; simp [St.onUpdate], .set o f e2⟩
        | bad t => exact id
        | deep => exact id
      | read o k =>
        simp only [exec]
        have h1 : Inv fr (s.note (.read o (s.held o))) := h.note (running_snoc _ _) (fun o => given_snoc _ _ o)
          (fun o => lastTold_snoc _ _ o) (fun he => by cases he)
        have := ihe fr (k (s.held o)) _ h1
        revert this
        cases exec fns regs n fr.head? (k (s.held o)) (s.note (.read o (s.held o))) with
        | ok t =>
          rintro ⟨ht, new, e1, e2⟩
          refine ⟨ht, .read o (s.held o) :: new, by rw [e1]; simp [St.note], ?_⟩
          have e2 : Tree regs (s.log ++ [.read o (s.held o)]) none new := e2
          rw [h.held o] at e2 ⊢
          exact .read o e2
        | bad t => exact id
        | deep => exact id
      | upd a v k =>
        simp only [exec]
        have h1 : Inv fr (s.note (.upd a v)) := h.note (running_snoc _ _) (fun o => given_snoc _ _ o)
          (fun o => lastTold_snoc _ _ o) (fun he => by cases he)
        have := ihr fr v (regs a) _ h1
        revert this
        cases round fns regs n v (regs a) (s.note (.upd a v)) with
        | bad t => exact id
        | deep => exact id
        | ok t =>
          rintro ⟨ht, inner, e1, e2⟩
          have e1 : t.log = s.log ++ .upd a v :: inner := by rw [e1]; simp [St.note]
          have h2 : Inv fr (t.note (.ret a)) := ht.note (running_snoc _ _) (fun o => given_snoc _ _ o)
            (fun o => lastTold_snoc _ _ o) (fun he => by cases he)
          simp only [Out.andThen]
          have := ihe fr k _ h2
          revert this
          cases exec fns regs n fr.head? k (t.note (.ret a)) with
          | bad t => exact id
          | deep => exact id
          | ok t' =>
            rintro ⟨ht', new, f1, f2⟩
            refine ⟨ht', .upd a v :: inner ++ .ret a :: new, by rw [f1]; simp [St.note, e1], .upd a v e2 ?_⟩
            have f2 : Tree regs (t.log ++ [.ret a]) none new := f2
            rw [e1] at f2
            exact f2
    · intro fr v os s h
      cases os with
      | nil =>
        simp only [round]
        exact ⟨h, [], by simp, .told0 _ _⟩
      | cons o os =>
        simp only [round]
        have h1 := h.store o v
        have hst : (s.store o v).stored o = given s.log o := h.stored o
        cases hf : (s.store o v).stored o with
        | none =>
          rw [hf] at hst
          simp only []
          have := ihr fr v os _ h1
          revert this
          cases round fns regs n v os (s.store o v) with
          | bad t => exact id
          | deep => exact id
          | ok t =>
            rintro ⟨ht, new, e1, e2⟩
            exact ⟨ht, .told o v :: new, by rw [e1]; simp [St.store], .silent hst.symm e2⟩
        | some f =>
          rw [hf] at hst
          simp only []
          have h2 := h1.enter o f v
          have := ihe _ (fns f v ((s.store o v).note (.enter o f v)).log) _ h2
          revert this
          show Spec regs _ none _ (exec fns regs n (some (o, ((s.store o v).note (.enter o f v)).inst o)) _ _) → _
          cases exec fns regs n (some (o, ((s.store o v).note (.enter o f v)).inst o))
              (fns f v ((s.store o v).note (.enter o f v)).log) ((s.store o v).note (.enter o f v)) with
          | bad t => exact id
          | deep => exact id
          | ok t =>
            rintro ⟨ht, inner, e1, e2⟩
            have e1 : t.log = s.log ++ .told o v :: .enter o f v :: inner := by rw [e1]; simp [St.note, St.store]
            simp only [Out.andThen]
            have := ihr fr v os _ ht.leave
            revert this
            cases round fns regs n v os (t.note .leave) with
            | bad t => exact id
            | deep => exact id
            | ok t' =>
              rintro ⟨ht', new, f1, f2⟩
              refine ⟨ht', .told o v :: .enter o f v :: inner ++ .leave :: new, by rw [f1]; simp [St.note, e1],
                .call hst.symm ?_ ?_⟩
              · have e2 : Tree regs ((s.log ++ [.told o v]) ++ [.enter o f v]) none inner := e2
                simpa using e2
              · have f2 : Tree regs (t.log ++ [.leave]) (some (v, os)) new := f2
                rw [e1] at f2
                exact f2

theorem inv_start : Inv [] St.start where
  held _ := rfl
  stored _ := rfl
  run := rfl
  old := by simp
  fine := by intro p q h; simp [St.start] at h

/-! ### C162: functions that are replaced while they run -/

/-- A function that runs was called once and has not returned since; it is marked if its observed has been given another function
after the call. -/
theorem running_at (l : List Ev) : ∀ (d o : Nat) (b : Bool), (running l).reverse[d]? = some (o, b) →
    ∃ p f v q, l = p ++ .enter o f v :: q ∧ (running p).length = d ∧ (b = true ↔ ∃ g, .set o g ∈ q) ∧
      ∀ q1 q2, q = q1 ++ q2 → ∃ b', (running (p ++ .enter o f v :: q1)).reverse[d]? = some (o, b') := by
  suffices H : ∀ (k : Nat) (l : List Ev), l.length = k → ∀ (d o : Nat) (b : Bool), (running l).reverse[d]? = some (o, b) →
      ∃ p f v q, l = p ++ .enter o f v :: q ∧ (running p).length = d ∧ (b = true ↔ ∃ g, .set o g ∈ q) ∧
      ∀ q1 q2, q = q1 ++ q2 → ∃ b', (running (p ++ .enter o f v :: q1)).reverse[d]? = some (o, b') from H _ l rfl
  intro k
  induction k with
  | zero =>
    intro l hl d o b h
    rw [List.length_eq_zero_iff] at hl
    subst hl
    simp [running] at h
  | succ k ih =>
    intro l hl d o b h
    rcases List.eq_nil_or_concat l with rfl | ⟨l', e, rfl⟩
    · simp at hl
    rw [List.concat_eq_append] at h hl ⊢
    have hl' : l'.length = k := by simpa using hl
    -- what is known of the shorter log carries over
    have next : ∀ b0, (running l').reverse[d]? = some (o, b0) → (b = true ↔ b0 = true ∨ ∃ g, e = .set o g) →
        ∃ p f v q, l' ++ [e] = p ++ .enter o f v :: q ∧ (running p).length = d ∧ (b = true ↔ ∃ g, .set o g ∈ q) ∧
        ∀ q1 q2, q = q1 ++ q2 → ∃ b', (running (p ++ .enter o f v :: q1)).reverse[d]? = some (o, b') := by
      intro b0 h0 hb
      obtain ⟨p, f, v, q, e1, e2, e3, e4⟩ := ih l' hl' d o b0 h0
      refine ⟨p, f, v, q ++ [e], by rw [e1]; simp, e2, ?_, ?_⟩
      · rw [hb, e3]
        constructor
        · rintro (⟨g, hg⟩ | ⟨g, hg⟩)
          · exact ⟨g, by simp [hg]⟩
          · exact ⟨g, by simp [hg]⟩
        · rintro ⟨g, hg⟩
          simp only [List.mem_append, List.mem_singleton] at hg
          rcases hg with hg | hg
          · exact .inl ⟨g, hg⟩
          · exact .inr ⟨g, hg.symm⟩
      · intro q1 q2 hq
        rcases List.eq_nil_or_concat q2 with rfl | ⟨q2', x, rfl⟩
        · refine ⟨b, ?_⟩
          have hq1 : q1 = q ++ [e] := by simpa using hq.symm
          rw [hq1]
          have : p ++ Ev.enter o f v :: (q ++ [e]) = l' ++ [e] := by rw [e1]; simp
          rw [this]; exact h
        · have h1 : q ++ [e] = (q1 ++ q2') ++ [x] := by simpa using hq
          exact e4 q1 q2' (List.append_inj' h1 rfl).1
    rw [running_snoc] at h
    cases e with
    | enter o' f v =>
      simp only [List.reverse_cons] at h
      by_cases hd : d < (running l').reverse.length
      · rw [List.getElem?_append_left hd] at h
        exact next b h (by simp)
      · rw [List.getElem?_append_right (by omega)] at h
        have hd0 : d - (running l').reverse.length = 0 := by
          rcases Nat.eq_zero_or_pos (d - (running l').reverse.length) with h0 | h0
          · exact h0
          · rw [List.getElem?_eq_none (by show 1 ≤ _; omega)] at h; simp at h
        rw [hd0] at h
        simp only [List.getElem?_cons_zero, Option.some.injEq, Prod.mk.injEq] at h
        obtain ⟨rfl, rfl⟩ := h
        have hlen : (running l').length = d := by rw [List.length_reverse] at hd hd0; omega
        refine ⟨l', f, v, [], by simp, hlen, by simp, ?_⟩
        intro q1 q2 hq
        have hq1 : q1 = [] := by
          rcases q1 with _ | ⟨x, q1⟩
          · rfl
          · simp at hq
        subst hq1
        refine ⟨false, ?_⟩
        rw [running_snoc]
        simp only [List.reverse_cons]
        rw [List.getElem?_append_right (by rw [List.length_reverse]; omega), List.length_reverse, hlen]
        simp
    | leave =>
      refine next b ?_ (by simp)
      simp only [] at h
      rcases hr : running l' with _ | ⟨x, xs⟩
      · rw [hr] at h; simp at h
      · rw [hr] at h
        simp only [List.tail_cons] at h
        rw [List.reverse_cons, List.getElem?_append_left]
        · exact h
        · exact (List.getElem?_eq_some_iff.mp h).1
    | set o' g =>
      simp only [← List.map_reverse, List.getElem?_map] at h
      cases hx : (running l').reverse[d]? with
      | none => rw [hx] at h; simp at h
      | some x =>
        rw [hx] at h
        simp only [Option.map_some, Option.some.injEq, Prod.mk.injEq] at h
        obtain ⟨x1, x2⟩ := x
        obtain ⟨rfl, rfl⟩ := h
        refine next x2 hx ?_
        simp only [Bool.or_eq_true, beq_iff_eq, Ev.set.injEq]
        constructor
        · rintro (h | h)
          · exact .inl h
          · exact .inr ⟨g, h.symm, rfl⟩
        · rintro (h | ⟨g', h, _⟩)
          · exact .inl h
          · exact .inr h.symm
    | upd _ _ => exact next b h (by simp)
    | ret _ => exact next b h (by simp)
    | told _ _ => exact next b h (by simp)
    | look => exact next b h (by simp)
    | read _ _ => exact next b h (by simp)

theorem head_top {α : Type} {l : List α} {x : α} (h : l.head? = some x) : l.reverse[l.length - 1]? = some x := by
  cases l with
  | nil => simp at h
  | cons y l =>
    simp only [List.head?_cons, Option.some.injEq] at h
    subst h
    rw [List.reverse_cons, List.length_cons, List.getElem?_append_right (by simp)]
    simp

/-- **C162.** A run that comes to an end has only functions that used what they captured before their observed was given another function; a
run that is undefined is so because the function called last among those that run, stored in `o`, uses something it captured although
`on_update` of `o` was called since the function was called (and it is the first to do so). -/
theorem C162_exact (n : Nat) (main : Prog) :
    (∀ s, exec fns regs n none main .start = .ok s → ∀ l q, s.log = l ++ .look :: q →
      ∀ p o f v r g, l = p ++ .enter o f v :: r → .set o g ∈ r →
      (∀ q1 q2, r = q1 ++ q2 → (running p).length < (running (p ++ .enter o f v :: q1)).length) →
      (running l).length ≠ (running p).length + 1) ∧
    (∀ s, exec fns regs n none main .start = .bad s → ∃ p o f v r g, s.log = p ++ .enter o f v :: r ++ [.look] ∧
      .set o g ∈ r ∧ (running (p ++ .enter o f v :: r)).length = (running p).length + 1 ∧
      ∀ q1 q2, r = q1 ++ q2 → (running p).length < (running (p ++ .enter o f v :: q1)).length) := by
  have hs := (spec (fns := fns) (regs := regs) n).1 [] main _ inv_start
  rw [List.head?_nil] at hs
  constructor
  · intro s hx l q hl p o f v r g he hg hd hlen
    rw [hx] at hs
    have hf := hs.1.fine l q hl
    have : ∃ x, (running l).head? = some x := by
      cases hr : running l with
      | nil => rw [hr] at hlen; simp at hlen
      | cons x xs => exact ⟨x, rfl⟩
    obtain ⟨⟨o', b⟩, hx'⟩ := this
    have htop := head_top hx'
    obtain ⟨p', f', v', r', e1, e2, e3, e4⟩ := running_at l _ o' b htop
    have hlen' : (running p').length = (running p).length := by omega
    -- the same call
    have hpp : p.length = p'.length := by
      rcases Nat.lt_trichotomy p.length p'.length with hlt | heq | hgt
      · -- the other call is later: at its start only as many functions run as before this one
        exfalso
        have h1 : ∃ t, p' = p ++ .enter o f v :: t ∧ ∃ u, r = t ++ u := by
          rw [he] at e1
          have := List.append_eq_append_iff.mp e1
          rcases this with ⟨a, ha1, ha2⟩ | ⟨a, ha1, ha2⟩
          · rcases a with _ | ⟨x, a⟩
            · simp at ha1; rw [ha1] at hlt; omega
            · simp only [List.cons_append, List.cons.injEq] at ha2
              obtain ⟨rfl, ha2⟩ := ha2
              exact ⟨a, ha1, _, ha2⟩
          · rw [ha1] at hlt; simp at hlt; omega
        obtain ⟨t, ht, u, hu⟩ := h1
        have := hd t u hu
        rw [← ht] at this
        omega
      · exact heq
      · exfalso
        have h1 : ∃ t, p = p' ++ .enter o' f' v' :: t ∧ ∃ u, r' = t ++ u := by
          rw [he] at e1
          have := List.append_eq_append_iff.mp e1
          rcases this with ⟨a, ha1, ha2⟩ | ⟨a, ha1, ha2⟩
          · rw [ha1] at hgt; simp at hgt; omega
          · rcases a with _ | ⟨x, a⟩
            · simp at ha1; rw [ha1] at hgt; omega
            · simp only [List.cons_append, List.cons.injEq] at ha2
              obtain ⟨rfl, ha2⟩ := ha2
              exact ⟨a, ha1, _, ha2⟩
        obtain ⟨t, ht, u, hu⟩ := h1
        obtain ⟨b', hb'⟩ := e4 t u hu
        rw [← ht] at hb'
        have := (List.getElem?_eq_some_iff.mp hb').1
        rw [List.length_reverse] at this
        omega
    rw [he] at e1
    obtain ⟨k1, k2⟩ := List.append_inj e1 hpp
    injection k2 with k2 k3
    injection k2 with k4
    subst k3 k4
    have : b = true := e3.mpr ⟨g, hg⟩
    subst this
    exact hf o hx'
  · intro s hx
    rw [hx] at hs
    obtain ⟨l, o, h1, h2, h3⟩ := hs
    have htop := head_top h3
    obtain ⟨p, f, v, r, e1, e2, e3, e4⟩ := running_at l _ o true htop
    obtain ⟨g, hg⟩ := e3.mp rfl
    have hpos : 0 < (running l).length := by
      cases hr : running l with
      | nil => rw [hr] at h3; simp at h3
      | cons x xs => simp
    refine ⟨p, o, f, v, r, g, by rw [h1, e1], hg, by rw [← e1]; omega, ?_⟩
    intro q1 q2 hq
    obtain ⟨b', hb'⟩ := e4 q1 q2 hq
    have := (List.getElem?_eq_some_iff.mp hb').1
    rw [List.length_reverse] at this
    omega

/-- The code never uses what it captured. -/
def noLook : Prog → Prop
  | .done => True
  | .look _ => False
  | .set _ _ k => noLook k
  | .upd _ _ k => noLook k
  | .read _ k => ∀ v, noLook (k v)

/-- The code uses what it captured only before it calls `on_update` or updates an observable. -/
def careful : Prog → Prop
  | .done => True
  | .look k => careful k
  | .set _ _ k => noLook k
  | .upd _ _ k => noLook k
  | .read _ k => ∀ v, careful (k v)

/-- The code does not call `on_update`. -/
def noSet : Prog → Prop
  | .done => True
  | .look k => noSet k
  | .set _ _ _ => False
  | .upd _ _ k => noSet k
  | .read _ k => ∀ v, noSet (k v)

theorem andThen_bad {x : Out} {k : St → Out} (hx : ∀ t, x ≠ .bad t) (hk : ∀ s, x = .ok s → ∀ t, k s ≠ .bad t) (t : St) :
    x.andThen k ≠ .bad t := by
  cases x with
  | ok s => exact hk s rfl t
  | bad s => exact absurd rfl (hx s)
  | deep => simp [Out.andThen]

theorem careful_safe (hfns : ∀ f v l, careful (fns f v l)) (n : Nat) :
    (∀ me p s, me = none ∨ noLook p ∨ (s.there me = true ∧ careful p) → ∀ t, exec fns regs n me p s ≠ .bad t) ∧
    (∀ v os s t, round fns regs n v os s ≠ .bad t) := by
  induction n with
  | zero => exact ⟨fun _ _ _ _ _ => by simp [exec], fun _ _ _ _ => by simp [round]⟩
  | succ n ih =>
    obtain ⟨ihe, ihr⟩ := ih
    constructor
    · intro me p s hp t
      cases p with
      | done => simp [exec]
      | look k =>
        have ht : s.there me = true := by
          rcases hp with rfl | hp | hp
          · rfl
          · exact hp.elim
          · exact hp.1
        simp only [exec, ht, if_true]
        refine ihe me k _ ?_ t
        rcases hp with hp | hp | hp
        · exact .inl hp
        · exact hp.elim
        · exact .inr (.inr ⟨by cases me <;> exact ht, hp.2⟩)
      | set o f k =>
        simp only [exec]
        refine ihe me k _ ?_ t
        rcases hp with hp | hp | hp
        · exact .inl hp
        · exact .inr (.inl hp)
        · exact .inr (.inl hp.2)
      | upd a v k =>
        simp only [exec]
        refine andThen_bad (ihr _ _ _) (fun s1 _ => ihe me k _ ?_) t
        rcases hp with hp | hp | hp
        · exact .inl hp
        · exact .inr (.inl hp)
        · exact .inr (.inl hp.2)
      | read o k =>
        simp only [exec]
        refine ihe me _ _ ?_ t
        rcases hp with hp | hp | hp
        · exact .inl hp
        · exact .inr (.inl (hp _))
        · exact .inr (.inr ⟨by have := hp.1; cases me <;> exact this, hp.2 _⟩)
    · intro v os s t
      cases os with
      | nil => simp [round]
      | cons o os =>
        simp only [round]
        split
        · exact ihr _ _ _ t
        · refine andThen_bad (ihe _ _ _ (.inr (.inr ⟨by simp [St.there], hfns _ _ _⟩))) (fun s1 _ => ihr _ _ _) t

/-- **C162.** Nothing is undefined if every function uses what it captured only before it calls `on_update` or updates an
observable: such a function may give its own observed another function, or none. -/
theorem C162_careful (hfns : ∀ f v l, careful (fns f v l)) (n : Nat) (main : Prog) (s : St) :
    exec fns regs n none main .start ≠ .bad s :=
  (careful_safe hfns n).1 none main _ (.inl rfl) s

theorem noSet_safe (hfns : ∀ f v l, noSet (fns f v l)) (n : Nat) :
    (∀ me p s, me = none ∨ (s.there me = true ∧ noSet p) → (∀ t, exec fns regs n me p s ≠ .bad t) ∧
      (noSet p → ∀ t, exec fns regs n me p s = .ok t → t.inst = s.inst)) ∧
    (∀ v os s, (∀ t, round fns regs n v os s ≠ .bad t) ∧ ∀ t, round fns regs n v os s = .ok t → t.inst = s.inst) := by
  induction n with
  | zero => exact ⟨fun _ _ _ _ => by simp [exec], fun _ _ _ => by simp [round]⟩
  | succ n ih =>
    obtain ⟨ihe, ihr⟩ := ih
    have keep : ∀ {me : Option (Nat × Nat)} {s t : St}, t.inst = s.inst → s.there me = true → t.there me = true := by
      intro me s t h1 h2
      cases me with
      | none => rfl
      | some x => obtain ⟨o, i⟩ := x; simp only [St.there] at h2 ⊢; rw [h1]; exact h2
    constructor
    · intro me p s hp
      cases p with
      | done => simp only [exec]; exact ⟨by simp, fun _ t h => by injection h with h; rw [h]⟩
      | look k =>
        have ht : s.there me = true := by
          rcases hp with rfl | hp
          · rfl
          · exact hp.1
        simp only [exec, ht, if_true]
        exact ihe me k _ (hp.imp id fun h => ⟨keep rfl ht, h.2⟩)
      | set o f k =>
        simp only [exec]
        rcases hp with rfl | hp
        · exact ⟨(ihe none k _ (.inl rfl)).1, fun h => h.elim⟩
        · exact hp.2.elim
      | upd a v k =>
        simp only [exec]
        have h1 := ihr v (regs a) (s.note (.upd a v))
        cases hx : round fns regs n v (regs a) (s.note (.upd a v)) with
        | bad t => exact absurd hx (h1.1 t)
        | deep => simp [Out.andThen]
        | ok t =>
          have hi : t.inst = s.inst := h1.2 t hx
          simp only [Out.andThen]
          obtain ⟨g1, g2⟩ := ihe me k (t.note (.ret a)) (hp.imp id fun h => ⟨keep (s := s) hi h.1, h.2⟩)
          exact ⟨g1, fun hn u hu => (g2 hn u hu).trans hi⟩
      | read o k =>
        simp only [exec]
        obtain ⟨g1, g2⟩ := ihe me (k (s.held o)) (s.note (.read o (s.held o)))
          (hp.imp id fun h => ⟨keep (s := s) rfl h.1, h.2 _⟩)
        exact ⟨g1, fun hn u hu => g2 (hn _) u hu⟩
    · intro v os s
      cases os with
      | nil => simp only [round]; exact ⟨by simp, fun t h => by injection h with h; rw [h]⟩
      | cons o os =>
        simp only [round]
        split
        · exact ihr v os (s.store o v)
        · rename_i f _
          have h1 := ihe (some (o, ((s.store o v).note (.enter o f v)).inst o))
            (fns f v ((s.store o v).note (.enter o f v)).log) ((s.store o v).note (.enter o f v))
            (.inr ⟨by simp [St.there], hfns _ _ _⟩)
          cases hx : exec fns regs n (some (o, ((s.store o v).note (.enter o f v)).inst o))
              (fns f v ((s.store o v).note (.enter o f v)).log) ((s.store o v).note (.enter o f v)) with
          | bad t => exact absurd hx (h1.1 t)
          | deep => simp [Out.andThen]
          | ok t =>
            have hi : t.inst = s.inst := h1.2 (hfns _ _ _) t hx
            simp only [Out.andThen]
            obtain ⟨g1, g2⟩ := ihr v os (t.note .leave)
            exact ⟨g1, fun u hu => (g2 u hu).trans hi⟩

/-- **C162.** Nothing is undefined if no function calls `on_update`, whatever the program does with `on_update`. -/
theorem C162_outside (hfns : ∀ f v l, noSet (fns f v l)) (n : Nat) (main : Prog) (s : St) :
    exec fns regs n none main .start ≠ .bad s :=
  ((noSet_safe hfns n).1 none main _ (.inl rfl)).1 s

/-! ### C163: which function is called -/

/-- What is said about an event, with what was before and what comes after. -/
def About (regs : Nat → List Nat) (pre : List Ev) (e : Ev) (post : List Ev) : Prop :=
  match e with
  | .told o v => ∀ f, given pre o = some f → ∃ rest, post = .enter o f v :: rest
  | .enter o f v => ∃ pre', pre = pre' ++ [.told o v] ∧ given pre' o = some f
  | .read o v => v = lastTold pre o
  | .upd a v => ∃ inner rest, post = inner ++ .ret a :: rest ∧ Tree regs (pre ++ [.upd a v]) (some (v, regs a)) inner
  | _ => True

theorem About.more {pre post : List Ev} {e : Ev} (h : About regs pre e post) (x : List Ev) : About regs pre e (post ++ x) := by
  cases e with
  | told o v => intro f hf; obtain ⟨rest, hr⟩ := h f hf; exact ⟨rest ++ x, by rw [hr]; simp⟩
  | upd a v => obtain ⟨i, rest, hr, ht⟩ := h; exact ⟨i, rest ++ x, by rw [hr]; simp, ht⟩
  | enter o f v => exact h
  | read o v => exact h
  | ret _ => trivial
  | leave => trivial
  | set _ _ => trivial
  | look => trivial

/-- The same for all events of a piece of the log. -/
def All (regs : Nat → List Nat) (pre new : List Ev) : Prop := ∀ p e q, new = p ++ e :: q → About regs (pre ++ p) e q

theorem All.nil (pre : List Ev) : All regs pre [] := by intro p e q h; simp at h

theorem All.cons {pre new : List Ev} {e : Ev} (h : About regs pre e new) (k : All regs (pre ++ [e]) new) :
    All regs pre (e :: new) := by
  intro p e' q hq
  cases p with
  | nil =>
    simp only [List.nil_append, List.cons.injEq] at hq
    obtain ⟨rfl, rfl⟩ := hq
    simpa using h
  | cons x p =>
    simp only [List.cons_append, List.cons.injEq] at hq
    obtain ⟨rfl, hq⟩ := hq
    simpa using k p e' q hq

theorem All.append {pre l k : List Ev} (h1 : All regs pre l) (h2 : All regs (pre ++ l) k) : All regs pre (l ++ k) := by
  intro p e q hq
  rcases List.append_eq_append_iff.mp hq with ⟨a, ha1, ha2⟩ | ⟨a, ha1, ha2⟩
  · have := h2 a e q ha2
    rw [ha1]; simpa using this
  · rcases a with _ | ⟨x, a⟩
    · simp only [List.nil_append] at ha2
      have := h2 [] e q ha2.symm
      simp only [List.append_nil] at ha1 this
      rw [ha1] at this; exact this
    · simp only [List.cons_append, List.cons.injEq] at ha2
      obtain ⟨rfl, rfl⟩ := ha2
      exact (h1 p e a ha1).more k

theorem Tree.all {pre new : List Ev} {w : Option (Int × List Nat)} (h : Tree regs pre w new) : All regs pre new := by
  induction h with
  | nil => exact .nil _
  | look _ ih => exact .cons trivial ih
  | set _ _ _ ih => exact .cons trivial ih
  | read _ _ ih => exact .cons rfl ih
  | @upd pre inner new a v h1 h2 ih1 ih2 =>
    refine .cons ⟨inner, new, rfl, h1⟩ (ih1.append (.cons trivial ?_))
    simpa using ih2
  | told0 => exact .nil _
  | silent hg _ ih => exact .cons (fun f hf => by rw [hg] at hf; cases hf) ih
  | @call pre inner new v o f os hg h1 h2 ih1 ih2 =>
    refine .cons ?_ (.cons ⟨pre, rfl, hg⟩ ?_)
    · intro f' hf'
      rw [hg] at hf'
      injection hf' with hf'
      subst hf'
      exact ⟨_, rfl⟩
    · refine All.append (by simpa using ih1) (.cons trivial ?_)
      simpa using ih2

theorem tree_of {n : Nat} {main : Prog} {s : St} (h : exec fns regs n none main .start = .ok s) : Tree regs [] none s.log := by
  have hs := (spec (fns := fns) (regs := regs) n).1 [] main _ inv_start
  rw [List.head?_nil, h] at hs
  obtain ⟨_, new, e1, e2⟩ := hs
  rw [e1]; exact e2

/-- **C163.** An observed that is notified calls the function it was given last, at once and with the value it is told - also if it was
given that function by another function during the same update - and calls none if it has none. -/
theorem C163_called {n : Nat} {main : Prog} {s : St} (h : exec fns regs n none main .start = .ok s) (pre post : List Ev)
    (o : Nat) (v : Int) (hl : s.log = pre ++ .told o v :: post) :
    (∀ f, given pre o = some f → ∃ rest, post = .enter o f v :: rest) ∧
    (given pre o = none → ∀ o' f v' rest, post ≠ .enter o' f v' :: rest) := by
  have ha := (tree_of h).all
  refine ⟨by have := ha pre _ post hl; simpa [About] using this, ?_⟩
  intro hg o' f v' rest hp
  have h1 : s.log = (pre ++ [.told o v]) ++ .enter o' f v' :: rest := by rw [hl, hp]; simp
  obtain ⟨pre', e1, e2⟩ := ha _ _ _ h1
  have e3 : pre ++ [.told o v] = pre' ++ [.told o' v'] := by rw [← e1]; rfl
  obtain ⟨k1, k2⟩ := List.append_inj' e3 rfl
  injection k2 with k2
  injection k2 with k2
  subst k1 k2
  rw [hg] at e2
  cases e2

/-- **C163.** A function is called only by an observed that is being notified, with the value it is told, and only if it is the one that was
given last to that observed. -/
theorem C163_only {n : Nat} {main : Prog} {s : St} (h : exec fns regs n none main .start = .ok s) (pre post : List Ev)
    (o f : Nat) (v : Int) (hl : s.log = pre ++ .enter o f v :: post) :
    ∃ pre', pre = pre' ++ [.told o v] ∧ given pre' o = some f := by
  have := (tree_of h).all pre _ post hl
  simpa [About] using this

/-- **C163.** `value()` of an observed returns what it was told last, also inside functions. -/
theorem C163_read {n : Nat} {main : Prog} {s : St} (h : exec fns regs n none main .start = .ok s) (pre post : List Ev)
    (o : Nat) (v : Int) (hl : s.log = pre ++ .read o v :: post) : v = lastTold pre o := by
  have := (tree_of h).all pre _ post hl
  simpa [About] using this

/-- **C163.** Every update that begins returns, and in between those registered are told the value, each once and in order, whatever
functions are replaced meanwhile. -/
theorem C163_round {n : Nat} {main : Prog} {s : St} (h : exec fns regs n none main .start = .ok s) (pre post : List Ev)
    (a : Nat) (v : Int) (hl : s.log = pre ++ .upd a v :: post) :
    ∃ inner rest, post = inner ++ .ret a :: rest ∧ Tree regs (pre ++ [.upd a v]) (some (v, regs a)) inner := by
  have := (tree_of h).all pre _ post hl
  simpa [About] using this

/-! ### Examples -/

/-- The log of a run that came to an end. -/
def okLog : Out → Option (List Ev)
  | .ok s => some s.log
  | _ => none

/-- The log of a run that is undefined. -/
def badLog : Out → Option (List Ev)
  | .bad s => some s.log
  | _ => none

/-- Function 0 removes itself and then uses what it captured, function 1 uses what it captured and then replaces itself by function 2,
function 2 gives function 3 to the observed 11, the others use what they captured. -/
def demo : Nat → Int → List Ev → Prog
  | 0, _, _ => .set 10 none (.look .done)
  | 1, _, _ => .look (.set 10 (some 2) .done)
  | 2, _, _ => .set 11 (some 3) .done
  | _, _, _ => .look .done

/-- Two observed objects are registered with each observable. -/
def two : Nat → List Nat := fun _ => [10, 11]

/-- A function that is to be called once only, and removes itself before its work, uses destroyed captures. -/
theorem C162_once_refuted : badLog (exec demo two 20 none (.set 10 (some 0) (.upd 1 5 .done)) .start) =
    some [.set 10 (some 0), .upd 1 5, .told 10 5, .enter 10 0 5, .set 10 none, .look] := by
  simp [exec, round, demo, two, badLog, St.start, St.onUpdate, St.note, St.store, St.there, Out.andThen, put]

/-- A function that replaces itself as the last thing it does is fine, and its successor is called next; a function given to an observed
that is still to be told is called in the same round. -/
example : okLog (exec demo two 20 none (.set 10 (some 1) (.upd 1 5 (.upd 1 6 .done))) .start) =
    some [.set 10 (some 1), .upd 1 5, .told 10 5, .enter 10 1 5, .look, .set 10 (some 2), .leave, .told 11 5, .ret 1,
      .upd 1 6, .told 10 6, .enter 10 2 6, .set 11 (some 3), .leave, .told 11 6, .enter 11 3 6, .look, .leave, .ret 1] := by
  simp [exec, round, demo, two, okLog, St.start, St.onUpdate, St.note, St.store, St.there, Out.andThen, put]

/-- Functions as in `C162_careful`. -/
example : ∀ f v l, careful ((fun f v _ => if f = 0 then .look (.set 10 none .done) else .look (.upd 2 v .done) :
    Nat → Int → List Ev → Prog) f v l) := by
  intro f v l
  simp only []
  split <;> simp [careful, noLook]

/-- Functions as in `C162_outside`. -/
example : ∀ f v l, noSet ((fun _ v _ => .look (.upd 2 v (.look .done)) : Nat → Int → List Ev → Prog) f v l) := by
  intro f v l
  simp [noSet]

end Verif.Values.Replace
