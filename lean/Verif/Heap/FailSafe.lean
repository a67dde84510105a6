import Verif.Heap.FailProps

/-!
Properties C157 and C158: what a request that failed says about the heap, and failure callbacks
that come to an end and do not use what they have destroyed.
-/
namespace Verif.Heap.Fail

variable {size base st : Nat} {fns : Nat → List Ev → Prog}

/-! ### C157: a request that fails and the room there is -/

theorem least_start (live : List Live) {c hi : Nat} (h : c ≤ hi) :
    ∃ x, (x = hi ∨ ∃ l ∈ live, x = l.start) ∧ c ≤ x ∧ ∀ l ∈ live, c ≤ l.start → x ≤ l.start := by
  induction live with
  | nil => exact ⟨hi, .inl rfl, h, by simp⟩
  | cons k ks ih =>
    obtain ⟨x, h1, h2, h3⟩ := ih
    by_cases hk : c ≤ k.start ∧ k.start ≤ x
    · refine ⟨k.start, .inr ⟨k, by simp, rfl⟩, hk.1, ?_⟩
      intro l hl hcl
      rcases List.mem_cons.mp hl with rfl | hl
      · omega
      · have := h3 l hl hcl; omega
    · refine ⟨x, ?_, h2, ?_⟩
      · rcases h1 with h1 | ⟨l, hl, h1⟩
        · exact .inl h1
        · exact .inr ⟨l, by simp [hl], h1⟩
      · intro l hl hcl
        rcases List.mem_cons.mp hl with rfl | hl
        · omega
        · exact h3 l hl hcl

theorem greatest_stop (live : List Live) {c lo : Nat} (h : lo ≤ c) :
    ∃ x, (x = lo ∨ ∃ l ∈ live, x = l.stop) ∧ x ≤ c ∧ ∀ l ∈ live, l.stop ≤ c → l.stop ≤ x := by
  induction live with
  | nil => exact ⟨lo, .inl rfl, h, by simp⟩
  | cons k ks ih =>
    obtain ⟨x, h1, h2, h3⟩ := ih
    by_cases hk : k.stop ≤ c ∧ x ≤ k.stop
    · refine ⟨k.stop, .inr ⟨k, by simp, rfl⟩, hk.1, ?_⟩
      intro l hl hcl
      rcases List.mem_cons.mp hl with rfl | hl
      · omega
      · have := h3 l hl hcl; omega
    · refine ⟨x, ?_, h2, ?_⟩
      · rcases h1 with h1 | ⟨l, hl, h1⟩
        · exact .inl h1
        · exact .inr ⟨l, by simp [hl], h1⟩
      · intro l hl hcl
        rcases List.mem_cons.mp hl with rfl | hl
        · omega
        · exact h3 l hl hcl

/-- With more live blocks there is less room. -/
theorem Room.mono {n : Nat} {live live' : List Live} (hsub : ∀ l ∈ live, l ∈ live')
    (hin : ∀ l ∈ live', areaLo base ≤ l.stop ∧ l.start ≤ areaHi size base)
    (h : Room size base live' n) : Room size base live n := by
  obtain ⟨hn, a, b, ⟨g1, g2, g3, g4⟩, hreq⟩ := h
  have ha : areaLo base ≤ a := by
    rcases g2 with rfl | ⟨l, hl, rfl⟩
    · exact Nat.le_refl _
    · exact (hin l hl).1
  have hb : b ≤ areaHi size base := by
    rcases g3 with rfl | ⟨l, hl, rfl⟩
    · exact Nat.le_refl _
    · exact (hin l hl).2
  obtain ⟨x, x1, x2, x3⟩ := greatest_stop live ha
  obtain ⟨y, y1, y2, y3⟩ := least_start live hb
  have hxy : x < y := by clear g2 g3 x1 y1; omega
  have hlen : required n ≤ y - x := by clear g2 g3 x1 y1; omega
  refine ⟨hn, x, y, ⟨hxy, x1, y1, ?_⟩, hlen⟩
  intro l hl
  rcases g4 l (hsub l hl) with h | h
  · exact .inl (x3 l hl h)
  · exact .inr (y3 l hl h)

theorem live_bounds (hl : Layout size base st) (hr : Roomy size base) {w : World} (hw : Reach size base st w) :
    ∀ l ∈ w.live, areaLo base ≤ l.stop ∧ l.start ≤ areaHi size base := by
  intro l hlv
  obtain ⟨bs, i⟩ := reach_inv hl hr hw
  have h3 := tiles_mem i.rep.tiles _ (i.live_blk hlv).1
  have h4 := i.end_eq
  simp only [Live.blk] at h3
  unfold Live.stop Live.start
  omega

/-- Live blocks stay live while nothing is released. -/
theorem Told.sub {g g' : Option Nat} {live live' : List Live} {l : List Ev} (h : Told size base g live l g' live')
    (hf : ∀ q lv, Ev.call (.free q) lv ∈ l → q = 0) : ∀ x ∈ live, x ∈ live' := by
  induction h with
  | nil => intro x hx; exact hx
  | set _ ih => exact ih (fun q lv hq => hf q lv (by simp [hq]))
  | @came g a live p live1 l g' live' _ _ _ haft _ ih =>
    intro x hx
    refine ih (fun q lv hq => hf q lv (by simp [hq])) x ?_
    cases a with
    | alloc n =>
      by_cases hp : p = 0
      · rw [haft.1 hp]; exact hx
      · obtain ⟨c, hc⟩ := haft.2 hp; rw [hc]; simp [hx]
    | calloc k n =>
      by_cases hp : p = 0
      · rw [haft.1 hp]; exact hx
      · obtain ⟨c, hc⟩ := haft.2 hp; rw [hc]; simp [hx]
    | free q =>
      have : q = 0 := hf q live (by simp)
      simp only [After] at haft
      rw [haft, if_pos this]; exact hx
    | write b v => simp only [After] at haft; rw [haft]; exact hx
    | resetMin => simp only [After] at haft; rw [haft]; exact hx
  | failed _ _ _ _ ih1 ih2 =>
    intro x hx
    exact ih2 (fun q lv hq => hf q lv (by simp [hq])) x (ih1 (fun q lv hq => hf q lv (by simp [hq])) x hx)

/-- Full statement of C157: a request comes back with `nullptr` only if, when it comes back, there is no gap
large enough for it. -/
def C157_Statement : Prop :=
  ∀ {size base st : Nat} {fns : Nat → List Ev → Prog} {mem : Mem} {h : Heap} {main : Prog} {fuel fuel' n : Nat}
    {s s' : St}, Layout size base st → Roomy size base → Heap.construct size base st mem = .ok h →
    exec fns fuel none main (.start h) = .ok (s, .done) → n < 2 ^ 64 →
    exec fns fuel' none (.act (.alloc n) fun _ => .done) s = .ok (s', .done) →
    s'.log.getLast? = some (.ret (.ptr 0)) → ¬ Room size base s'.w.live n

/-- **C157 (partial).** The claim holds for a request while which nothing is released.
Missing: failure callbacks that release memory, for which it is false (`C157_released_refuted`). -/
theorem C157_full_partial (hl : Layout size base st) (hr : Roomy size base) {mem : Mem} {h : Heap} {main : Prog}
    {fuel fuel' n : Nat} {s s' : St} (hc : Heap.construct size base st mem = .ok h)
    (hm : exec fns fuel none main (.start h) = .ok (s, .done)) (hn : n < 2 ^ 64)
    (hx : exec fns fuel' none (.act (.alloc n) fun _ => .done) s = .ok (s', .done))
    (hlast : s'.log.getLast? = some (.ret (.ptr 0)))
    (hfree : ∀ q lv, Ev.call (.free q) lv ∈ s'.log.drop s.log.length → q = 0) :
    ¬ Room size base s'.w.live n := by
  obtain ⟨hs, _⟩ := exec_spec hl hr fuel none main _ s .done (start_fine hl hr hc) hm
  obtain ⟨hs', l, h1, _, h2⟩ := exec_spec hl hr fuel' none _ s s' .done hs hx
  have h2 := h2 (by simp)
  rw [h1, List.drop_left] at hfree
  have hsub := h2.sub hfree
  intro hroom
  have hroom0 : Room size base s.w.live n := hroom.mono hsub (live_bounds hl hr hs'.1)
  cases fuel' with
  | zero => simp [exec] at hx
  | succ f =>
    have ha : Legal s.w (Act.alloc n).op := hn
    obtain ⟨w1, p, g1, _, _, _, g5, _, _⟩ := step_call hl hr hs ha
    have hp := (g5 n rfl).mpr hroom0
    have hf : s.failing (.alloc n) p = none := by unfold St.failing; rw [if_neg (by simp [hp])]
    rw [exec_act_none ha g1 hf] at hx
    cases f with
    | zero => simp [exec] at hx
    | succ f =>
      simp only [exec, Res.ok.injEq, Prod.mk.injEq, and_true] at hx
      rw [← hx, note_log] at hlast
      simp at hlast
      exact hp hlast

/-! ### C158: undefined behaviour -/

/-- The code never uses what it captured. -/
def noLook : Prog → Prop
  | .done => True
  | .throw => True
  | .look _ => False
  | .set _ k => noLook k
  | .act _ k => ∀ r, noLook (k r)

/-- The code does not call `on_fail`. -/
def noSet : Prog → Prop
  | .done => True
  | .throw => True
  | .look k => noSet k
  | .set _ _ => False
  | .act _ k => ∀ r, noSet (k r)

/-- The code uses what it captured only before it calls `on_fail` or asks for memory. -/
def careful : Prog → Prop
  | .done => True
  | .throw => True
  | .look k => careful k
  | .set _ k => noLook k
  | .act (.alloc _) k => ∀ r, noLook (k r)
  | .act (.calloc _ _) k => ∀ r, noLook (k r)
  | .act _ k => ∀ r, careful (k r)

/-- Full statement of C158: a program whose calls are legal meets nothing undefined, and comes to an end,
whatever the failure callbacks do. -/
def C158_Statement : Prop :=
  ∀ {size base st : Nat} {fns : Nat → List Ev → Prog} {mem : Mem} {h : Heap} {main : Prog}, Layout size base st →
    Roomy size base → Heap.construct size base st mem = .ok h →
    ∃ fuel s e, exec fns fuel none main (.start h) = .ok (s, e)

theorem careful_act {a : Act} {k : Ret → Prog} (h : careful (.act a k)) :
    (∀ r, noLook (k r)) ∨ (wants a = none ∧ ∀ r, careful (k r)) := by
  cases a with
  | alloc n => exact .inl h
  | calloc k n => exact .inl h
  | free q => exact .inr ⟨rfl, h⟩
  | write b v => exact .inr ⟨rfl, h⟩
  | resetMin => exact .inr ⟨rfl, h⟩

theorem careful_safe (hl : Layout size base st) (hr : Roomy size base) (hfns : ∀ f l, careful (fns f l)) :
    ∀ (fuel : Nat) (me : Option Nat) (p : Prog) (s : St), Fine size base st s →
      (me = none ∨ noLook p ∨ (s.holds me = true ∧ careful p)) → exec fns fuel me p s ≠ .ub := by
  intro fuel
  induction fuel with
  | zero => intro me p s _ _; simp [exec]
  | succ fuel ih =>
    intro me p s hs hp
    cases p with
    | done => simp [exec]
    | throw => simp [exec]
    | look k =>
      have hh : s.holds me = true := by
        rcases hp with rfl | hp | hp
        · rfl
        · exact absurd hp (by simp [noLook])
        · exact hp.1
      simp only [exec, hh, if_true]
      refine ih _ _ _ hs ?_
      rcases hp with hp | hp | hp
      · exact .inl hp
      · exact absurd hp (by simp [noLook])
      · exact .inr (.inr ⟨hp.1, hp.2⟩)
    | set f k =>
      simp only [exec]
      refine ih _ _ _ (setFail_fine hs f) ?_
      rcases hp with hp | hp | hp
      · exact .inl hp
      · exact .inr (.inl hp)
      · exact .inr (.inl hp.2)
    | act a k =>
      by_cases ha : Legal s.w a.op
      · obtain ⟨w1, p, g1, g2, g3, g4, g5, g6, g7⟩ := step_call hl hr hs ha
        cases hf : s.failing a p with
        | none =>
          rw [exec_act_none ha g1 hf]
          refine ih _ _ ((s.worked a w1).note (.ret (.ptr p))) ⟨g2, g3.trans hs.2⟩ ?_
          rcases hp with hp | hp | hp
          · exact .inl hp
          · exact .inr (.inl (hp _))
          · rcases careful_act hp.2 with h | h
            · exact .inr (.inl (h _))
            · refine .inr (.inr ⟨?_, h.2 _⟩)
              cases me with
              | none => rfl
              | some i => exact hp.1
        | some f =>
          rw [exec_act_some ha g1 hf]
          have hne : ∃ n, wants a = some n := by
            refine (allocates_iff a).mp ?_
            unfold St.failing at hf
            split at hf
            · rename_i h; exact h.1
            · exact absurd hf (by simp)
          have hk : ∀ r, me = none ∨ noLook (k r) := by
            intro r
            rcases hp with hp | hp | hp
            · exact .inl hp
            · exact .inr (hp _)
            · rcases careful_act hp.2 with h | h
              · exact .inr (h _)
              · rw [h.1] at hne; simp at hne
          have hs1 : Fine size base st ((s.worked a w1).note (.enter f)) := ⟨g2, g3.trans hs.2⟩
          have hb := ih (some s.inst) (fns f ((s.worked a w1).note (.enter f)).log) ((s.worked a w1).note (.enter f)) hs1
            (.inr (.inr ⟨by simp [St.holds, St.note, St.worked], hfns _ _⟩))
          cases hx : exec fns fuel (some s.inst) (fns f ((s.worked a w1).note (.enter f)).log)
              ((s.worked a w1).note (.enter f)) with
          | ub => exact absurd hx hb
          | hang => simp
          | ok r =>
            obtain ⟨s2, e2⟩ := r
            rw [Res.ok_bind]
            obtain ⟨hs2, _⟩ := exec_spec hl hr _ _ _ _ _ _ hs1 hx
            cases e2 with
            | illegal => simp
            | done => exact ih _ _ ((s2.note (.leave false)).note (.ret (.ptr p))) hs2 ((hk _).imp id .inl)
            | threw => exact ih _ _ ((s2.note (.leave true)).note (.ret .thrown)) hs2 ((hk _).imp id .inl)
      · rw [exec_act_illegal ha]; simp

theorem noSet_safe (hl : Layout size base st) (hr : Roomy size base) (hfns : ∀ f l, noSet (fns f l)) :
    ∀ (fuel : Nat) (me : Option Nat) (p : Prog) (s : St), Fine size base st s →
      (me = none ∨ (s.holds me = true ∧ noSet p)) → exec fns fuel me p s ≠ .ub ∧
        ∀ s' e, exec fns fuel me p s = .ok (s', e) → noSet p → s'.inst = s.inst := by
  intro fuel
  induction fuel with
  | zero => intro me p s _ _; simp [exec]
  | succ fuel ih =>
    intro me p s hs hp
    cases p with
    | done => simp only [exec]; refine ⟨by simp, ?_⟩; intro s' e h _; simp at h; rw [h.1]
    | throw => simp only [exec]; refine ⟨by simp, ?_⟩; intro s' e h _; simp at h; rw [h.1]
    | look k =>
      have hh : s.holds me = true := by
        rcases hp with rfl | hp
        · rfl
        · exact hp.1
      simp only [exec, hh, if_true]
      obtain ⟨h1, h2⟩ := ih me k s hs (hp.imp id (fun h => ⟨h.1, h.2⟩))
      exact ⟨h1, fun s' e h hn => h2 s' e h hn⟩
    | set f k =>
      simp only [exec]
      rcases hp with rfl | hp
      · obtain ⟨h1, _⟩ := ih none k _ (setFail_fine hs f) (.inl rfl)
        exact ⟨h1, fun s' e h hn => absurd hn (by simp [noSet])⟩
      · exact absurd hp.2 (by simp [noSet])
    | act a k =>
      by_cases ha : Legal s.w a.op
      · obtain ⟨w1, p, g1, g2, g3, g4, g5, g6, g7⟩ := step_call hl hr hs ha
        have hk : ∀ (s2 : St), s2.inst = s.inst → ∀ r, me = none ∨ (s2.holds me = true ∧ noSet (k r)) := by
          intro s2 hi r
          rcases hp with hp | hp
          · exact .inl hp
          · refine .inr ⟨?_, hp.2 r⟩
            cases me with
            | none => rfl
            | some i => have := hp.1; simp only [St.holds] at this ⊢; rw [hi]; exact this
        cases hf : s.failing a p with
        | none =>
          rw [exec_act_none ha g1 hf]
          obtain ⟨h1, h2⟩ := ih me (k (.ptr p)) ((s.worked a w1).note (.ret (.ptr p))) ⟨g2, g3.trans hs.2⟩ (hk _ rfl _)
          exact ⟨h1, fun s' e h hn => h2 s' e h (hn _)⟩
        | some f =>
          rw [exec_act_some ha g1 hf]
          have hs1 : Fine size base st ((s.worked a w1).note (.enter f)) := ⟨g2, g3.trans hs.2⟩
          have hb := ih (some s.inst) (fns f ((s.worked a w1).note (.enter f)).log) ((s.worked a w1).note (.enter f)) hs1
            (.inr ⟨by simp [St.holds, St.note, St.worked], hfns _ _⟩)
          cases hx : exec fns fuel (some s.inst) (fns f ((s.worked a w1).note (.enter f)).log)
              ((s.worked a w1).note (.enter f)) with
          | ub => exact absurd hx hb.1
          | hang => simp
          | ok r =>
            obtain ⟨s2, e2⟩ := r
            rw [Res.ok_bind]
            obtain ⟨hs2, _⟩ := exec_spec hl hr _ _ _ _ _ _ hs1 hx
            have hi : s2.inst = s.inst := hb.2 s2 e2 hx (hfns _ _)
            cases e2 with
            | illegal => refine ⟨by simp, ?_⟩; intro s' e h _; simp at h; rw [← h.1]; exact hi
            | done =>
              obtain ⟨h1, h2⟩ := ih me (k (.ptr p)) ((s2.note (.leave false)).note (.ret (.ptr p))) hs2 (hk _ hi _)
              exact ⟨h1, fun s' e h hn => (h2 s' e h (hn _)).trans hi⟩
            | threw =>
              obtain ⟨h1, h2⟩ := ih me (k .thrown) ((s2.note (.leave true)).note (.ret .thrown)) hs2 (hk _ hi _)
              exact ⟨h1, fun s' e h hn => (h2 s' e h (hn _)).trans hi⟩
      · rw [exec_act_illegal ha]; refine ⟨by simp, ?_⟩; intro s' e h _; simp at h; rw [← h.1]

/-- **C158 (partial).** Nothing undefined happens if every failure callback uses what it captured only before it
calls `on_fail` or asks for memory, or if no failure callback calls `on_fail` (the program may).
Missing: a callback that stores another function and then uses what it captured, where the behaviour is
undefined (`C158_replaced_refuted`). -/
theorem C158_safe_partial (hl : Layout size base st) (hr : Roomy size base) {mem : Mem} {h : Heap}
    (hc : Heap.construct size base st mem = .ok h)
    (hfns : (∀ f l, careful (fns f l)) ∨ (∀ f l, noSet (fns f l))) (main : Prog) (fuel : Nat) :
    exec fns fuel none main (.start h) ≠ .ub := by
  rcases hfns with hfns | hfns
  · exact careful_safe hl hr hfns fuel none main _ (start_fine hl hr hc) (.inl rfl)
  · exact (noSet_safe hl hr hfns fuel none main _ (start_fine hl hr hc) (.inl rfl)).1

/-! ### C158: termination -/

theorem exec_mono (fns : Nat → List Ev → Prog) : ∀ (fuel : Nat) (me : Option Nat) (p : Prog) (s : St),
    exec fns fuel me p s ≠ .hang → exec fns (fuel + 1) me p s = exec fns fuel me p s := by
  intro fuel
  induction fuel with
  | zero => intro me p s h; exact absurd rfl h
  | succ fuel ih =>
    intro me p s h
    cases p with
    | done => rfl
    | throw => rfl
    | look k =>
      unfold exec
      unfold exec at h
      split
      · rename_i hh; rw [if_pos hh] at h; exact ih _ _ _ h
      · rfl
    | set f k =>
      unfold exec at h
      unfold exec
      exact ih _ _ _ h
    | act a k =>
      by_cases ha : Legal s.w a.op
      · cases hs : s.w.step a.op with
        | ub => unfold exec; rw [if_pos ha, if_pos ha, hs]; rfl
        | hang => unfold exec; rw [if_pos ha, if_pos ha, hs]; rfl
        | ok r =>
          obtain ⟨w1, p⟩ := r
          cases hf : s.failing a p with
          | none =>
            rw [exec_act_none ha hs hf] at h ⊢
            rw [exec_act_none ha hs hf]
            exact ih _ _ _ h
          | some f =>
            rw [exec_act_some ha hs hf] at h ⊢
            rw [exec_act_some ha hs hf]
            cases hx : exec fns fuel (some s.inst) (fns f ((s.worked a w1).note (.enter f)).log)
                ((s.worked a w1).note (.enter f)) with
            | hang => rw [hx] at h; exact absurd rfl h
            | ub => rw [ih _ _ _ (by rw [hx]; simp), hx]; rfl
            | ok r =>
              obtain ⟨s2, e2⟩ := r
              rw [ih _ _ _ (by rw [hx]; simp), hx, Res.ok_bind, Res.ok_bind]
              rw [hx, Res.ok_bind] at h
              cases e2 with
              | illegal => rfl
              | done => exact ih _ _ _ h
              | threw => exact ih _ _ _ h
      · rw [exec_act_illegal ha, exec_act_illegal ha]

theorem exec_le {fuel fuel' : Nat} {me : Option Nat} {p : Prog} {s : St} (h : exec fns fuel me p s ≠ .hang)
    (hle : fuel ≤ fuel') : exec fns fuel' me p s = exec fns fuel me p s := by
  induction hle with
  | refl => rfl
  | step _ ih => rw [exec_mono _ _ _ _ _ (by rw [ih]; exact h), ih]

/-- The code asks for memory only after it has called `on_fail` with an empty function, and then does not
store a function again. -/
def settles : Prog → Prop
  | .done => True
  | .throw => True
  | .look k => settles k
  | .set none k => settles k ∨ noSet k
  | .set (some _) k => settles k
  | .act a k => wants a = none ∧ ∀ r, settles (k r)

theorem unarmed_ends (hl : Layout size base st) (hr : Roomy size base) : ∀ (p : Prog) (me : Option Nat) (s : St),
    Fine size base st s → s.stored = none → noSet p → ∃ fuel, exec fns fuel me p s ≠ .hang := by
  intro p
  induction p with
  | done => intro me s _ _ _; exact ⟨1, by simp [exec]⟩
  | throw => intro me s _ _ _; exact ⟨1, by simp [exec]⟩
  | look k ih =>
    intro me s hs h0 hp
    obtain ⟨f, hf⟩ := ih me s hs h0 hp
    refine ⟨f + 1, ?_⟩
    unfold exec
    split
    · exact hf
    · simp
  | set f k _ => intro me s hs h0 hp; exact absurd hp (by simp [noSet])
  | act a k ih =>
    intro me s hs h0 hp
    by_cases ha : Legal s.w a.op
    · obtain ⟨w1, p, g1, g2, g3, _⟩ := step_call hl hr hs ha
      have hf : s.failing a p = none := by unfold St.failing; rw [h0]; split <;> rfl
      obtain ⟨f, h1⟩ := ih (.ptr p) me ((s.worked a w1).note (.ret (.ptr p))) ⟨g2, g3.trans hs.2⟩ h0 (hp _)
      exact ⟨f + 1, by rw [exec_act_none ha g1 hf]; exact h1⟩
    · exact ⟨1, by rw [exec_act_illegal ha]; simp⟩

theorem settles_ends (hl : Layout size base st) (hr : Roomy size base) : ∀ (p : Prog) (me : Option Nat) (s : St),
    Fine size base st s → settles p → ∃ fuel, exec fns fuel me p s ≠ .hang := by
  intro p
  induction p with
  | done => intro me s _ _; exact ⟨1, by simp [exec]⟩
  | throw => intro me s _ _; exact ⟨1, by simp [exec]⟩
  | look k ih =>
    intro me s hs hp
    obtain ⟨f, hf⟩ := ih me s hs hp
    refine ⟨f + 1, ?_⟩
    unfold exec
    split
    · exact hf
    · simp
  | set g k ih =>
    intro me s hs hp
    have : ∃ fuel, exec fns fuel me k (s.setFail g) ≠ .hang := by
      cases g with
      | some f => exact ih _ _ (setFail_fine hs _) hp
      | none =>
        rcases hp with hp | hp
        · exact ih _ _ (setFail_fine hs _) hp
        · exact unarmed_ends hl hr k me _ (setFail_fine hs _) rfl hp
    obtain ⟨f, hf⟩ := this
    exact ⟨f + 1, by unfold exec; exact hf⟩
  | act a k ih =>
    intro me s hs hp
    by_cases ha : Legal s.w a.op
    · obtain ⟨w1, p, g1, g2, g3, _⟩ := step_call hl hr hs ha
      have hf : s.failing a p = none := by
        unfold St.failing
        rw [if_neg]
        rintro ⟨h, _⟩
        obtain ⟨n, hn⟩ := (allocates_iff a).mp h
        rw [hp.1] at hn; simp at hn
      obtain ⟨f, h1⟩ := ih (.ptr p) me ((s.worked a w1).note (.ret (.ptr p))) ⟨g2, g3.trans hs.2⟩ (hp.2 _)
      exact ⟨f + 1, by rw [exec_act_none ha g1 hf]; exact h1⟩
    · exact ⟨1, by rw [exec_act_illegal ha]; simp⟩

theorem main_ends (hl : Layout size base st) (hr : Roomy size base) (hfns : ∀ f l, settles (fns f l)) :
    ∀ (p : Prog) (me : Option Nat) (s : St), Fine size base st s → ∃ fuel, exec fns fuel me p s ≠ .hang := by
  intro p
  induction p with
  | done => intro me s _; exact ⟨1, by simp [exec]⟩
  | throw => intro me s _; exact ⟨1, by simp [exec]⟩
  | look k ih =>
    intro me s hs
    obtain ⟨f, hf⟩ := ih me s hs
    refine ⟨f + 1, ?_⟩
    unfold exec
    split
    · exact hf
    · simp
  | set g k ih =>
    intro me s hs
    obtain ⟨f, hf⟩ := ih me _ (setFail_fine hs g)
    exact ⟨f + 1, by unfold exec; exact hf⟩
  | act a k ih =>
    intro me s hs
    by_cases ha : Legal s.w a.op
    · obtain ⟨w1, p, g1, g2, g3, _⟩ := step_call hl hr hs ha
      cases hf : s.failing a p with
      | none =>
        obtain ⟨f, h1⟩ := ih (.ptr p) me ((s.worked a w1).note (.ret (.ptr p))) ⟨g2, g3.trans hs.2⟩
        exact ⟨f + 1, by rw [exec_act_none ha g1 hf]; exact h1⟩
      | some f =>
        have hs1 : Fine size base st ((s.worked a w1).note (.enter f)) := ⟨g2, g3.trans hs.2⟩
        obtain ⟨f1, h1⟩ := settles_ends (fns := fns) hl hr (fns f ((s.worked a w1).note (.enter f)).log) (some s.inst) _ hs1
          (hfns _ _)
        cases hx : exec fns f1 (some s.inst) (fns f ((s.worked a w1).note (.enter f)).log)
            ((s.worked a w1).note (.enter f)) with
        | hang => exact absurd hx h1
        | ub => exact ⟨f1 + 1, by rw [exec_act_some ha g1 hf, hx]; simp⟩
        | ok r =>
          obtain ⟨s2, e2⟩ := r
          obtain ⟨hs2, _⟩ := exec_spec hl hr _ _ _ _ _ _ hs1 hx
          cases e2 with
          | illegal => exact ⟨f1 + 1, by rw [exec_act_some ha g1 hf, hx]; simp⟩
          | done =>
            obtain ⟨f2, h2⟩ := ih (.ptr p) me ((s2.note (.leave false)).note (.ret (.ptr p))) hs2
            refine ⟨max f1 f2 + 1, ?_⟩
            rw [exec_act_some ha g1 hf, exec_le h1 (Nat.le_max_left _ _), hx, Res.ok_bind]
            dsimp only
            rw [exec_le h2 (Nat.le_max_right _ _)]; exact h2
          | threw =>
            obtain ⟨f2, h2⟩ := ih .thrown me ((s2.note (.leave true)).note (.ret .thrown)) hs2
            refine ⟨max f1 f2 + 1, ?_⟩
            rw [exec_act_some ha g1 hf, exec_le h1 (Nat.le_max_left _ _), hx, Res.ok_bind]
            dsimp only
            rw [exec_le h2 (Nat.le_max_right _ _)]; exact h2
    · exact ⟨1, by rw [exec_act_illegal ha]; simp⟩

/-- **C158 (partial).** Every program comes to an end, with nothing undefined, if each failure callback asks for
memory only after it has called `on_fail` with an empty function (and then stores none again), and uses what it
captured only before it calls `on_fail`.
Missing: a callback that asks for memory while it is stored, which may go on for ever
(`C158_again_refuted`). -/
theorem C158_ends_partial (hl : Layout size base st) (hr : Roomy size base) {mem : Mem} {h : Heap}
    (hc : Heap.construct size base st mem = .ok h)
    (hfns : ∀ f l, settles (fns f l) ∧ careful (fns f l)) (main : Prog) :
    ∃ fuel s e, exec fns fuel none main (.start h) = .ok (s, e) := by
  obtain ⟨fuel, h1⟩ := main_ends (fns := fns) hl hr (fun f l => (hfns f l).1) main none _ (start_fine hl hr hc)
  have h2 := C158_safe_partial hl hr hc (.inl fun f l => (hfns f l).2) main fuel
  cases hx : exec fns fuel none main (.start h) with
  | ub => exact absurd hx h2
  | hang => exact absurd hx h1
  | ok r => exact ⟨fuel, r.1, r.2, hx⟩

/-! ### What goes wrong -/

/-- A callback that asks again for what was refused is called again, and again: for every heap on which a
program has run, every request for which there is no room, the call never comes back. -/
theorem C158_again (hl : Layout size base st) (hr : Roomy size base) {f n : Nat} (hn : n < 2 ^ 64)
    (hfns : ∀ l, fns f l = .act (.alloc n) fun _ => .done) : ∀ (fuel : Nat) (me : Option Nat) (k : Ret → Prog) (s : St),
    Fine size base st s → s.stored = some f → ¬ Room size base s.w.live n →
    exec fns fuel me (.act (.alloc n) k) s = .hang := by
  intro fuel
  induction fuel with
  | zero => intro me k s _ _ _; rfl
  | succ fuel ih =>
    intro me k s hs hf hroom
    have ha : Legal s.w (Act.alloc n).op := hn
    obtain ⟨w1, p, g1, g2, g3, _, g5, _, g7⟩ := step_call hl hr hs ha
    have hp : p = 0 := by
      cases Nat.decEq p 0 with
      | isTrue h => exact h
      | isFalse h => exact absurd ((g5 n rfl).mp h) hroom
    have hff : s.failing (.alloc n) p = some f := by unfold St.failing; rw [if_pos ⟨rfl, hp⟩, hf]
    rw [exec_act_some ha g1 hff, hfns, ih _ _ ((s.worked (.alloc n) w1).note (.enter f)) ⟨g2, g3.trans hs.2⟩ hf]
    · rfl
    · show ¬ Room size base w1.live n
      rw [g7.1 hp]; exact hroom

/-- A callback that stores another function, or none, and then uses what it captured uses a function object that is
gone: for every heap on which a program has run and every request for which there is no room. -/
theorem C158_replaced (hl : Layout size base st) (hr : Roomy size base) {f n : Nat} (hn : n < 2 ^ 64)
    {g : Option Nat} {k' : Prog} (hfns : ∀ l, fns f l = .set g (.look k')) (fuel : Nat) (me : Option Nat) (k : Ret → Prog)
    (s : St) (hs : Fine size base st s) (hf : s.stored = some f) (hroom : ¬ Room size base s.w.live n) :
    exec fns (fuel + 3) me (.act (.alloc n) k) s = .ub := by
  have ha : Legal s.w (Act.alloc n).op := hn
  obtain ⟨w1, p, g1, g2, g3, _, g5, _, g7⟩ := step_call hl hr hs ha
  have hp : p = 0 := by
    cases Nat.decEq p 0 with
    | isTrue h => exact h
    | isFalse h => exact absurd ((g5 n rfl).mp h) hroom
  have hff : s.failing (.alloc n) p = some f := by unfold St.failing; rw [if_pos ⟨rfl, hp⟩, hf]
  rw [exec_act_some ha g1 hff, hfns]
  simp [exec, St.holds, St.setFail, St.note, St.worked]

/-- The heap of 256 bytes at the odd address 4099, `x_start_` at 8192. -/
def Ex.run (fns : Nat → List Ev → Prog) (fuel : Nat) (main : Prog) : Res (St × End) :=
  match Heap.construct 256 4099 8192 (fun _ => 0) with
  | .ok h => exec fns fuel none main (.start h)
  | .ub => .ub
  | .hang => .hang

/-- Full statement of C158 fails: a callback that asks again never comes back. -/
theorem C158_again_refuted : ¬ C158_Statement := by
  intro H
  obtain ⟨h, hc, _⟩ := construct_layout (m := fun _ => 0) demo_layout demo_roomy
  obtain ⟨fuel, s, e, hx⟩ := @H 256 4099 8192 (fun _ _ => .act (.alloc 0) fun _ => .done) _ h
    (.set (some 0) (.act (.alloc 0) fun _ => .done)) demo_layout demo_roomy hc
  cases fuel with
  | zero => simp [exec] at hx
  | succ fuel =>
    unfold exec at hx
    rw [C158_again demo_layout demo_roomy (f := 0) (n := 0) (by decide) (fun _ => rfl) fuel none _ _
      (setFail_fine (start_fine demo_layout demo_roomy hc) _) rfl (fun h => absurd h.1 (by decide))] at hx
    simp at hx

/-- Full statement of C158 fails: a callback that empties `callback_` and then uses what it captured. -/
theorem C158_replaced_refuted : ∃ (fns : Nat → List Ev → Prog) (main : Prog), ∀ (mem : Mem) (h : Heap),
    Heap.construct 256 4099 8192 mem = .ok h → ∀ fuel, exec fns (fuel + 4) none main (.start h) = .ub := by
  refine ⟨fun _ _ => .set none (.look .done), .set (some 0) (.act (.alloc 0) fun _ => .done), ?_⟩
  intro mem h hc fuel
  unfold exec
  exact C158_replaced demo_layout demo_roomy (f := 0) (n := 0) (by decide) (fun _ => rfl) fuel none _ _
    (setFail_fine (start_fine demo_layout demo_roomy hc) _) rfl (fun h => absurd h.1 (by decide))

/-- What a caller sees of a run: the log, the live blocks and how it ended. -/
def Ex.sees (r : Res (St × End)) : Option (List Ev × List Live × End) :=
  match r with
  | .ok (s, e) => some (s.log, s.w.live, e)
  | _ => none

/-- The callback gives back the block at 4120. -/
def Ex.release : Nat → List Ev → Prog := fun _ _ => .act (.free 4120) fun _ => .done

/-- Nearly all of the heap is allocated, with a callback stored that gives it back. -/
def Ex.fill : Prog := .set (some 0) (.act (.alloc 200) fun _ => .done)

theorem Ex.fill_run : Ex.sees (Ex.run Ex.release 9 Ex.fill) =
    some ([.set (some 0), .call (.alloc 200) [], .ret (.ptr 4120)], [⟨4120, 200, 232⟩], .done) := by decide +kernel

/-- Then 100 bytes are asked for: refused, though the heap is empty when the call comes back. -/
theorem Ex.refused : (match Ex.run Ex.release 9 Ex.fill with
    | .ok (s, _) => Ex.sees (exec Ex.release 9 none (.act (.alloc 100) fun _ => .done) s)
    | _ => none) =
    some ([.set (some 0), .call (.alloc 200) [], .ret (.ptr 4120), .call (.alloc 100) [⟨4120, 200, 232⟩], .enter 0,
      .call (.free 4120) [⟨4120, 200, 232⟩], .ret (.ptr 0), .leave false, .ret (.ptr 0)], [], .done) := by
  decide +kernel

theorem Ex.sees_some {r : Res (St × End)} {l : List Ev} {lv : List Live} {e : End}
    (h : Ex.sees r = some (l, lv, e)) : ∃ s, r = .ok (s, e) ∧ s.log = l ∧ s.w.live = lv := by
  unfold Ex.sees at h
  split at h
  · rename_i s e'
    simp only [Option.some.injEq, Prod.mk.injEq] at h
    exact ⟨s, by rw [h.2.2], h.1, h.2.1⟩
  · simp at h

/-- Full statement of C157 fails: the callback has released the whole heap, and the request that made it run
still comes back with `nullptr`. -/
theorem C157_released_refuted : ¬ C157_Statement := by
  intro H
  obtain ⟨h, hc, _⟩ := construct_layout (m := fun _ => 0) demo_layout demo_roomy
  obtain ⟨s, h1, _, _⟩ := Ex.sees_some Ex.fill_run
  have h3 := Ex.refused
  rw [h1] at h3
  obtain ⟨s', h4, h5, h6⟩ := Ex.sees_some h3
  unfold Ex.run at h1
  rw [hc] at h1
  refine H demo_layout demo_roomy hc h1 (by decide) h4 (by rw [h5]; rfl) ?_
  rw [h6]
  refine ⟨by decide, 4104, 4336, ⟨by decide, .inl (by decide), .inl (by decide), by simp⟩, by decide⟩

/-! ### Examples that meet the hypotheses -/

/-- A callback that asks for less, and is called once more for that; the second time it throws. -/
def Ex.retry : Nat → List Ev → Prog := fun _ l =>
  if enters l = 1 then .look (.act (.alloc 150) fun r => match r with | .thrown => .done | .ptr _ => .throw) else .throw

/-- C156 on a run with nested failures: the inner request throws, the outer one comes back with `nullptr`,
then there is room for 20 bytes. -/
example : Ex.sees (Ex.run Ex.retry 20 (.set (some 3) (.act (.calloc 10 10) fun _ => .act (.alloc 300) fun _ =>
    .act (.alloc 20) fun _ => .done))) =
    some ([.set (some 3), .call (.calloc 10 10) [], .ret (.ptr 4120),
      .call (.alloc 300) [⟨4120, 100, 120⟩], .enter 3, .call (.alloc 150) [⟨4120, 100, 120⟩], .enter 3, .leave true,
      .ret .thrown, .leave false, .ret (.ptr 0), .call (.alloc 20) [⟨4120, 100, 120⟩], .ret (.ptr 4240)],
      [⟨4240, 20, 40⟩, ⟨4120, 100, 120⟩], .done) := by decide +kernel

/-- Hypotheses of `C156_heap` and `C156_calls`. -/
example : ∃ h s, Layout 256 4099 8192 ∧ Roomy 256 4099 ∧ Heap.construct 256 4099 8192 (fun _ => 0) = .ok h ∧
    exec Ex.release 9 none Ex.fill (.start h) = .ok (s, .done) ∧ s.w.live ≠ [] := by
  obtain ⟨h, hc, _⟩ := construct_layout (m := fun _ => 0) demo_layout demo_roomy
  obtain ⟨s, h1, _, h2⟩ := Ex.sees_some Ex.fill_run
  unfold Ex.run at h1
  rw [hc] at h1
  exact ⟨h, s, demo_layout, demo_roomy, hc, h1, by rw [h2]; simp⟩

/-- Hypotheses of `C157_full_partial`: 1000 bytes are refused, and the callback only allocates. -/
example : (match Ex.run (fun _ _ => .set none (.act (.alloc 8) fun _ => .done)) 9 (.set (some 0) .done) with
    | .ok (s, _) => Ex.sees (exec (fun _ _ => .set none (.act (.alloc 8) fun _ => .done)) 9 none (.act (.alloc 1000) fun _ => .done) s)
    | _ => none) =
    some ([.set (some 0), .call (.alloc 1000) [], .enter 0, .set none, .call (.alloc 8) [], .ret (.ptr 4120),
      .leave false, .ret (.ptr 0)], [⟨4120, 8, 24⟩], .done) := by decide +kernel

/-- Hypotheses of `C158_safe_partial` and `C158_ends_partial`: a callback that uses what it captured, gives memory
back, empties `callback_` and asks for memory. -/
example : ∀ (f : Nat) (l : List Ev),
    settles ((fun _ _ => Prog.look (.act (.free 0) fun _ => .set none (.act (.alloc 8) fun _ => .done))) f l) ∧
    careful ((fun _ _ => Prog.look (.act (.free 0) fun _ => .set none (.act (.alloc 8) fun _ => .done))) f l) := by
  intro f l
  simp [settles, careful, noSet, noLook, wants]

/-- The callback `Ex.retry` never calls `on_fail` (the other hypothesis of `C158_safe_partial`). -/
example : ∀ f l, noSet (Ex.retry f l) := by
  intro f l
  unfold Ex.retry
  split
  · simp only [noSet]
    intro r
    cases r <;> simp [noSet]
  · simp [noSet]

/-- Hypotheses of `C158_again` and `C158_replaced`: a function stored in a heap without room for 1000 bytes. -/
example : ∃ s, Fine 256 4099 8192 s ∧ s.stored = some 0 ∧ ¬ Room 256 4099 s.w.live 1000 := by
  obtain ⟨h, hc, _⟩ := construct_layout (m := fun _ => 0) demo_layout demo_roomy
  refine ⟨_, setFail_fine (start_fine demo_layout demo_roomy hc) (some 0), rfl, ?_⟩
  rintro ⟨_, a, b, ⟨h1, h2, h3, _⟩, h4⟩
  have ha : a = areaLo 4099 := by rcases h2 with h | ⟨l, h, _⟩; exact h; simp [St.setFail, St.start, World.start] at h
  have hb : b = areaHi 256 4099 := by rcases h3 with h | ⟨l, h, _⟩; exact h; simp [St.setFail, St.start, World.start] at h
  subst ha hb
  exact absurd h4 (by decide)

end Verif.Heap.Fail
