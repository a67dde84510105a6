import Verif.Heap.Fail

/-!
Properties C156–C158: the failure callback of the heap, with a body that may use the heap.
-/
namespace Verif.Heap.Fail

variable {size base st : Nat} {fns : Nat → List Ev → Prog}

/-! ### Machinery: one call -/

theorem exec_act_none {fuel : Nat} {me : Option Nat} {a : Act} {k : Ret → Prog} {s : St} {w1 : World} {p : Nat}
    (hl : Legal s.w a.op) (hs : s.w.step a.op = .ok (w1, p)) (hf : s.failing a p = none) :
    exec fns (fuel + 1) me (.act a k) s =
      exec fns fuel me (k (.ptr p)) ((s.worked a w1).note (.ret (.ptr p))) := by
  conv => lhs; unfold exec
  rw [if_pos hl, hs, Res.ok_bind]
  show (match s.failing a p with | none => _ | some f => _) = _
  rw [hf]

theorem exec_act_some {fuel : Nat} {me : Option Nat} {a : Act} {k : Ret → Prog} {s : St} {w1 : World} {p f : Nat}
    (hl : Legal s.w a.op) (hs : s.w.step a.op = .ok (w1, p)) (hf : s.failing a p = some f) :
    exec fns (fuel + 1) me (.act a k) s =
      (exec fns fuel (some s.inst) (fns f ((s.worked a w1).note (.enter f)).log) ((s.worked a w1).note (.enter f)) >>=
        fun r => match r.2 with
          | .done => exec fns fuel me (k (.ptr p)) ((r.1.note (.leave false)).note (.ret (.ptr p)))
          | .threw => exec fns fuel me (k .thrown) ((r.1.note (.leave true)).note (.ret .thrown))
          | .illegal => .ok (r.1, .illegal)) := by
  conv => lhs; unfold exec
  rw [if_pos hl, hs, Res.ok_bind]
  show (match s.failing a p with | none => _ | some f => _) = _
  rw [hf]
  rfl

theorem exec_act_illegal {fuel : Nat} {me : Option Nat} {a : Act} {k : Ret → Prog} {s : St}
    (hl : ¬ Legal s.w a.op) : exec fns (fuel + 1) me (.act a k) s = .ok (s, .illegal) := by
  conv => lhs; unfold exec
  rw [if_neg hl]

/-- The bytes a call asks the heap for, if it gets that far. -/
def wants : Act → Option Nat
  | .alloc n => some n
  | .calloc k n => if k * n < 2 ^ 64 then some (k * n) else none
  | _ => none

/-- There is a gap between the live blocks that is large enough for `n` bytes. -/
def Room (size base : Nat) (live : List Live) (n : Nat) : Prop :=
  0 < n ∧ ∃ a b, Gap live (areaLo base) (areaHi size base) a b ∧ required n ≤ b - a

/-- Reachable, and the flag of `Verif.Heap.Model` says whether a function is stored. -/
def Fine (size base st : Nat) (s : St) : Prop :=
  Reach size base st s.w ∧ s.w.heap.callback = s.stored.isSome

/-- How often the failure callback was entered. -/
def enters (l : List Ev) : Nat := (l.filter (fun e => match e with | .enter _ => true | _ => false)).length

theorem allocates_iff (a : Act) : a.allocates = true ↔ ∃ n, wants a = some n := by
  cases a with
  | alloc n => simp [Act.allocates, wants]
  | calloc k n =>
    simp only [Act.allocates, wants, mulWillOverflow_eq]
    by_cases h : k * n < 2 ^ 64
    · rw [if_pos h, decide_eq_false (by rw [W_eq]; omega)]; simp
    · rw [if_neg h, decide_eq_true (by rw [W_eq]; omega)]; simp
  | free p => simp [Act.allocates, wants]
  | write a v => simp [Act.allocates, wants]
  | resetMin => simp [Act.allocates, wants]

theorem afterAlloc_heap (w : World) (h' : Heap) (p n : Nat) (z : Option Byte) :
    (w.afterAlloc h' p n z).heap = h' := by
  unfold World.afterAlloc; split <;> rfl

/-- The live blocks after a call that came to `p`: the block allocated is added, the one released is
taken out. -/
def After (p : Nat) (live live' : List Live) : Act → Prop
  | .alloc n => (p = 0 → live' = live) ∧ (p ≠ 0 → ∃ cost, live' = ⟨p, n, cost⟩ :: live)
  | .calloc k n => (p = 0 → live' = live) ∧ (p ≠ 0 → ∃ cost, live' = ⟨p, k * n, cost⟩ :: live)
  | .free q => live' = if q = 0 then live else live.filter (fun l => l.ptr ≠ q)
  | .write _ _ => live' = live
  | .resetMin => live' = live

theorem afterAlloc_live' (w : World) (h' : Heap) (p n : Nat) (z : Option Byte) :
    (p = 0 → (w.afterAlloc h' p n z).live = w.live) ∧
    (p ≠ 0 → ∃ cost, (w.afterAlloc h' p n z).live = ⟨p, n, cost⟩ :: w.live) := by
  unfold World.afterAlloc
  split
  · rename_i h; exact ⟨fun _ => rfl, fun h' => absurd h h'⟩
  · rename_i h; exact ⟨fun h' => absurd h' h, fun _ => ⟨_, rfl⟩⟩

/-- One legal call: it comes back, the heap is again reachable, a request succeeds exactly when there is room,
the callback is called exactly when a request fails and a function is stored. -/
theorem step_call (hl : Layout size base st) (hr : Roomy size base) {s : St} (hs : Fine size base st s)
    {a : Act} (ha : Legal s.w a.op) :
    ∃ w1 p, s.w.step a.op = .ok (w1, p) ∧ Reach size base st w1 ∧ w1.heap.callback = s.w.heap.callback ∧
      w1.heap.callbackCalls = s.w.heap.callbackCalls + (if (s.failing a p).isSome then 1 else 0) ∧
      (∀ n, wants a = some n → (p ≠ 0 ↔ Room size base s.w.live n)) ∧ (wants a = none → p = 0) ∧
      After p s.w.live w1.live a := by
  obtain ⟨hw, hc⟩ := hs
  obtain ⟨w1, p, h1, h2⟩ := reach_step hl hr hw ha
  obtain ⟨bs, i⟩ := reach_inv hl hr hw
  refine ⟨w1, p, h1, h2, ?_⟩
  have room : ∀ {n h' q}, n < 2 ^ 64 → s.w.heap.allocate n = .ok (h', q) →
      (q ≠ 0 ↔ Room size base s.w.live n) := fun hn h => (C10_first_fit hl hr hw hn h).1
  cases a with
  | alloc n =>
    rcases inv_alloc i (n := n) ha with ⟨pre, b, post, h', _, g1, g2, g3, g4, g5, g6, g7, _⟩ | ⟨g1, g2, _⟩
    · simp only [Act.op] at h1
      rw [step_alloc g5] at h1
      obtain ⟨rfl, rfl⟩ := Prod.mk.inj (Res.ok.inj h1)
      rw [afterAlloc_heap]
      refine ⟨g7.callback, ?_, ?_, by simp [wants], afterAlloc_live' _ _ _ _ _⟩
      · rw [g7.callbackCalls]; simp [St.failing]
      · intro m hm; obtain rfl : n = m := by simpa [wants] using hm
        exact room ha g5
    · simp only [Act.op] at h1
      rw [step_alloc g2] at h1
      obtain ⟨rfl, rfl⟩ := Prod.mk.inj (Res.ok.inj h1)
      rw [afterAlloc_heap]
      refine ⟨(fire_same _ _).2.2.2.2.2.2.2.2.2, ?_, ?_, by simp [wants], afterAlloc_live' _ _ _ _ _⟩
      · unfold Heap.fireCallback St.failing
        rw [hc]
        cases s.stored <;> simp [Act.allocates]
      · intro m hm; obtain rfl : n = m := by simpa [wants] using hm
        exact room ha g2
  | calloc k n =>
    rcases inv_calloc i (k := k) (n := n) with
      ⟨pre, b, post, h', _, g1, g1', g2, g3, g4, g5, g5', g6, g7, _⟩ | ⟨g0, g1, g2, _⟩ | ⟨g0, g1, _⟩
    · simp only [Act.op] at h1
      rw [step_calloc g5] at h1
      obtain ⟨rfl, rfl⟩ := Prod.mk.inj (Res.ok.inj h1)
      rw [afterAlloc_heap]
      refine ⟨g7.callback, ?_, ?_, ?_, afterAlloc_live' _ _ _ _ _⟩
      · show h'.callbackCalls = _
        rw [g7.callbackCalls]; simp [St.failing]
      · intro m hm
        rw [W_eq] at g1'
        obtain rfl : k * n = m := by simpa [wants, g1'] using hm
        exact room g1' g5'
      · rw [W_eq] at g1'; simp [wants, g1']
    · simp only [Act.op] at h1
      rw [step_calloc g2] at h1
      obtain ⟨rfl, rfl⟩ := Prod.mk.inj (Res.ok.inj h1)
      rw [afterAlloc_heap]
      have g0' := g0
      rw [W_eq] at g0'
      refine ⟨(fire_same _ _).2.2.2.2.2.2.2.2.2, ?_, ?_, by simp [wants, g0'], afterAlloc_live' _ _ _ _ _⟩
      · have : Act.allocates (.calloc k n) = true := (allocates_iff _).mpr ⟨k * n, by simp [wants, g0']⟩
        unfold Heap.fireCallback St.failing
        rw [hc, this]
        cases s.stored <;> simp
      · intro m hm
        obtain rfl : k * n = m := by simpa [wants, g0'] using hm
        obtain ⟨h'', q, c1, _, _, c4⟩ := C11_callocate hl hr hw ha.1 ha.2
        obtain ⟨h3, c5⟩ := c4 g0'
        rw [g2] at c1
        obtain ⟨_, rfl⟩ := Prod.mk.inj (Res.ok.inj c1)
        exact room g0' c5
    · simp only [Act.op] at h1
      rw [step_calloc g1] at h1
      obtain ⟨rfl, rfl⟩ := Prod.mk.inj (Res.ok.inj h1)
      rw [afterAlloc_heap]
      have hn : ¬ k * n < 2 ^ 64 := by rw [W_eq] at g0; omega
      have : Act.allocates (.calloc k n) = false := by
        cases hh : Act.allocates (.calloc k n) with
        | false => rfl
        | true => obtain ⟨m, hm⟩ := (allocates_iff _).mp hh; simp [wants, hn] at hm
      refine ⟨rfl, by simp [St.failing, this], by simp [wants, hn], fun _ => rfl, afterAlloc_live' _ _ _ _ _⟩
  | free q =>
    simp only [Act.op] at h1
    by_cases h0 : q = 0
    · subst h0
      rw [step_free (dealloc_null _)] at h1
      obtain ⟨rfl, rfl⟩ := Prod.mk.inj (Res.ok.inj h1)
      refine ⟨rfl, by simp [St.failing, Act.allocates], by simp [wants], fun _ => rfl, ?_⟩
      show List.filter _ _ = if 0 = 0 then _ else _
      rw [if_pos rfl]
      refine List.filter_eq_self.mpr ?_
      intro k hk
      have := i.lives k hk
      simp; omega
    · rcases ha with ha | ⟨l, hlv, rfl⟩
      · exact absurd ha h0
      · obtain ⟨pre, post, h', _, g2, _, g4, _, _⟩ := inv_free i hlv
        rw [step_free g2] at h1
        obtain ⟨rfl, rfl⟩ := Prod.mk.inj (Res.ok.inj h1)
        refine ⟨g4.callback, ?_, by simp [wants], fun _ => rfl, (if_neg h0).symm⟩
        show h'.callbackCalls = _
        rw [g4.callbackCalls]; simp [St.failing, Act.allocates]
  | write b v =>
    simp only [Act.op, World.step] at h1
    obtain ⟨rfl, rfl⟩ := Prod.mk.inj (Res.ok.inj h1)
    exact ⟨rfl, by simp [St.failing, Act.allocates], by simp [wants], fun _ => rfl, rfl⟩
  | resetMin =>
    simp only [Act.op, World.step] at h1
    obtain ⟨rfl, rfl⟩ := Prod.mk.inj (Res.ok.inj h1)
    exact ⟨rfl, by simp [St.failing, Act.allocates, Heap.resetMinimumEver], by simp [wants], fun _ => rfl, rfl⟩

/-- What may happen, from a stored function and live blocks to a stored function and live blocks.
`on_fail` replaces the function.  A call that is not a request, a request that succeeds, and a request while
no function is stored come back at once.  A request for which there is no room, while `f` is stored, enters `f`
once; whatever `f` does happens before the call comes back; then it comes back with `nullptr`, or with the
exception if `f` has thrown. -/
inductive Told (size base : Nat) : Option Nat → List Live → List Ev → Option Nat → List Live → Prop where
  | nil {g live} : Told size base g live [] g live
  | set {g f live l g' live'} : Told size base f live l g' live' → Told size base g live (.set f :: l) g' live'
  | came {g a live p live1 l g' live'} : (∀ n, wants a = some n → (p ≠ 0 ↔ Room size base live n)) →
      (wants a = none → p = 0) → (p = 0 → (∃ n, wants a = some n) → g = none) → After p live live1 a →
      Told size base g live1 l g' live' →
      Told size base g live (.call a live :: .ret (.ptr p) :: l) g' live'
  | failed {f a n live body g live1 threw l g' live'} : wants a = some n → ¬ Room size base live n →
      Told size base (some f) live body g live1 → Told size base g live1 l g' live' →
      Told size base (some f) live
        (.call a live :: .enter f :: (body ++ .leave threw :: .ret (if threw then .thrown else .ptr 0) :: l)) g' live'

theorem note_log (s : St) (e : Ev) : (s.note e).log = s.log ++ [e] := rfl
theorem worked_log (s : St) (a : Act) (w : World) : (s.worked a w).log = s.log ++ [.call a s.w.live] := rfl

theorem enters_append (l l' : List Ev) : enters (l ++ l') = enters l + enters l' := by
  unfold enters; rw [List.filter_append, List.length_append]

theorem setFail_fine {s : St} (hs : Fine size base st s) (f : Option Nat) : Fine size base st (s.setFail f) :=
  ⟨hs.1.step (op := .onFail f.isSome) trivial rfl, rfl⟩

/-- Everything about a piece of code that ran to its end. -/
theorem exec_spec (hl : Layout size base st) (hr : Roomy size base) : ∀ (fuel : Nat) (me : Option Nat) (p : Prog)
    (s s' : St) (e : End), Fine size base st s → exec fns fuel me p s = .ok (s', e) →
    Fine size base st s' ∧ ∃ l, s'.log = s.log ++ l ∧
      s'.w.heap.callbackCalls = s.w.heap.callbackCalls + enters l ∧
      (e ≠ .illegal → Told size base s.stored s.w.live l s'.stored s'.w.live) := by
  intro fuel
  induction fuel with
  | zero => intro me p s s' e _ h; simp [exec] at h
  | succ fuel ih =>
    intro me p s s' e hs h
    cases p with
    | done =>
      simp only [exec, Res.ok.injEq, Prod.mk.injEq] at h
      obtain ⟨rfl, rfl⟩ := h
      exact ⟨hs, [], by simp, by simp [enters], fun _ => .nil⟩
    | throw =>
      simp only [exec, Res.ok.injEq, Prod.mk.injEq] at h
      obtain ⟨rfl, rfl⟩ := h
      exact ⟨hs, [], by simp, by simp [enters], fun _ => .nil⟩
    | look k =>
      simp only [exec] at h
      split at h
      · exact ih _ _ _ _ _ hs h
      · exact absurd h (by simp)
    | set f k =>
      simp only [exec] at h
      obtain ⟨h1, l, h2, h3, h4⟩ := ih _ _ _ _ _ (setFail_fine hs f) h
      refine ⟨h1, .set f :: l, by rw [h2]; simp [St.setFail], ?_, fun he => .set (h4 he)⟩
      rw [h3]; simp [St.setFail, Heap.onFail, enters]
    | act a k =>
      by_cases ha : Legal s.w a.op
      · obtain ⟨w1, p, g1, g2, g3, g4, g5, g6, g7⟩ := step_call hl hr hs ha
        cases hf : s.failing a p with
        | none =>
          rw [exec_act_none ha g1 hf] at h
          obtain ⟨h1, l, h2, h3, h4⟩ := ih _ _ _ _ _ ⟨g2, g3.trans hs.2⟩ h
          refine ⟨h1, .call a s.w.live :: .ret (.ptr p) :: l, ?_, ?_, fun he => ?_⟩
          · rw [h2, note_log, worked_log]; simp
          · rw [h3]
            show w1.heap.callbackCalls + _ = _
            rw [g4, hf]; simp [enters]
          · refine .came g5 g6 ?_ g7 (h4 he)
            intro hp hn
            unfold St.failing at hf
            rwa [if_pos ⟨(allocates_iff a).mpr hn, hp⟩] at hf
        | some f =>
          rw [exec_act_some ha g1 hf] at h
          have hfa : a.allocates = true ∧ p = 0 := by
            unfold St.failing at hf
            split at hf
            · assumption
            · exact absurd hf (by simp)
          have hst : s.stored = some f := by
            unfold St.failing at hf
            rwa [if_pos hfa] at hf
          obtain ⟨n, hn⟩ := (allocates_iff a).mp hfa.1
          have hroom : ¬ Room size base s.w.live n := fun hR => (g5 n hn).mpr hR hfa.2
          have hlive : w1.live = s.w.live := by
            cases a <;> simp only [wants] at hn
            case alloc m => exact g7.1 hfa.2
            case calloc m m' => exact g7.1 hfa.2
            all_goals exact absurd hn (by simp)
          have hcalls : w1.heap.callbackCalls = s.w.heap.callbackCalls + 1 := by rw [g4, hf]; simp
          cases hx : exec fns fuel (some s.inst) (fns f ((s.worked a w1).note (.enter f)).log)
              ((s.worked a w1).note (.enter f)) with
          | ub => rw [hx] at h; simp at h
          | hang => rw [hx] at h; simp at h
          | ok r =>
            obtain ⟨s2, e2⟩ := r
            rw [hx, Res.ok_bind] at h
            obtain ⟨b1, body, b2, b3, b4⟩ := ih _ _ ((s.worked a w1).note (.enter f)) _ _ ⟨g2, g3.trans hs.2⟩ hx
            have b3' : s2.w.heap.callbackCalls = s.w.heap.callbackCalls + 1 + enters body := by
              rw [b3]
              show w1.heap.callbackCalls + _ = _
              rw [hcalls]
            have b4' : e2 ≠ .illegal → Told size base (some f) s.w.live body s2.stored s2.w.live := by
              intro he
              have := b4 he
              change Told size base s.stored w1.live body _ _ at this
              rwa [hst, hlive] at this
            have b2' : s2.log = s.log ++ [.call a s.w.live, .enter f] ++ body := by
              rw [b2, note_log, worked_log]; simp
            cases e2 with
            | illegal =>
              simp only [Res.ok.injEq, Prod.mk.injEq] at h
              obtain ⟨rfl, rfl⟩ := h
              refine ⟨b1, [.call a s.w.live, .enter f] ++ body, by rw [b2']; simp, ?_, fun he => absurd rfl he⟩
              rw [b3', enters_append]; simp [enters]; omega
            | done =>
              dsimp only at h
              obtain ⟨h1, l, h2, h3, h4⟩ := ih _ _ ((s2.note (.leave false)).note (.ret (.ptr p))) _ _ b1 h
              refine ⟨h1, .call a s.w.live :: .enter f :: (body ++ .leave false :: .ret (if false then .thrown else .ptr 0) :: l), ?_, ?_, fun he => ?_⟩
              · rw [h2, note_log, note_log, b2', hfa.2]; simp
              · rw [h3]
                show s2.w.heap.callbackCalls + _ = _
                rw [b3', show Ev.call a s.w.live :: .enter f :: (body ++ .leave false :: .ret (if false then .thrown else .ptr 0) :: l) =
                  [.call a s.w.live, .enter f] ++ body ++ [.leave false, .ret (.ptr 0)] ++ l by simp]
                simp only [enters_append]
                rw [show enters [Ev.call a s.w.live, .enter f] = 1 from rfl, show enters [Ev.leave false, .ret (.ptr 0)] = 0 from rfl]
                omega
              · rw [hst]
                exact .failed hn hroom (b4' (by simp)) (h4 he)
            | threw =>
              dsimp only at h
              obtain ⟨h1, l, h2, h3, h4⟩ := ih _ _ ((s2.note (.leave true)).note (.ret .thrown)) _ _ b1 h
              refine ⟨h1, .call a s.w.live :: .enter f :: (body ++ .leave true :: .ret (if true then .thrown else .ptr 0) :: l), ?_, ?_, fun he => ?_⟩
              · rw [h2, note_log, note_log, b2']; simp
              · rw [h3]
                show s2.w.heap.callbackCalls + _ = _
                rw [b3', show Ev.call a s.w.live :: .enter f :: (body ++ .leave true :: .ret (if true then .thrown else .ptr 0) :: l) =
                  [.call a s.w.live, .enter f] ++ body ++ [.leave true, .ret .thrown] ++ l by simp]
                simp only [enters_append]
                rw [show enters [Ev.call a s.w.live, .enter f] = 1 from rfl, show enters [Ev.leave true, .ret .thrown] = 0 from rfl]
                omega
              · rw [hst]
                exact .failed hn hroom (b4' (by simp)) (h4 he)
      · rw [exec_act_illegal ha] at h
        simp only [Res.ok.injEq, Prod.mk.injEq] at h
        obtain ⟨rfl, rfl⟩ := h
        exact ⟨hs, [], by simp, by simp [enters], fun he => absurd rfl he⟩

/-! ### C156 -/

theorem start_fine (hl : Layout size base st) (hr : Roomy size base) {mem : Mem} {h : Heap}
    (hc : Heap.construct size base st mem = .ok h) : Fine size base st (.start h) := by
  refine ⟨.init hc, ?_⟩
  obtain ⟨h', h1, _, _, _, _, _, _, _, _, _, h2, _⟩ := construct_layout (m := mem) hl hr
  rw [hc] at h1
  obtain rfl := Res.ok.inj h1
  exact h2

/-- **C156.** A heap is constructed and a program runs on it, with failure callbacks that do with the heap
whatever they like (release, allocate, fail and be called again, store other functions, throw).  However far
the program gets, the live blocks are aligned, inside the buffer, and do not overlap; the bytes written
last are still there; free size and low-water mark are exact. -/
theorem C156_heap (hl : Layout size base st) (hr : Roomy size base) {mem : Mem} {h : Heap}
    (hc : Heap.construct size base st mem = .ok h) {main : Prog} {fuel : Nat} {s : St} {e : End}
    (hx : exec fns fuel none main (.start h) = .ok (s, e)) :
    (∀ l ∈ s.w.live, l.ptr % 8 = 0 ∧ base ≤ l.ptr - 16 ∧ l.ptr + l.len ≤ base + size) ∧
    s.w.live.Pairwise (fun l k => l.ptr + l.len ≤ k.ptr - 16 ∨ k.ptr + k.len ≤ l.ptr - 16) ∧
    (∀ l ∈ s.w.live, ∀ a, l.ptr ≤ a → a < l.ptr + l.len → ∀ v, s.w.wrote a = some v → s.w.heap.mem a = v) ∧
    s.w.heap.freeHeapSize + (s.w.live.map Live.cost).sum = h.freeHeapSize ∧
    s.w.heap.minimumEverFreeHeapSize ∈ s.w.frees ∧
    (∀ f ∈ s.w.frees, s.w.heap.minimumEverFreeHeapSize ≤ f) ∧
    (s.w.live = [] → s.w.heap.freeHeapSize = h.freeHeapSize) := by
  obtain ⟨⟨hw, _⟩, _⟩ := exec_spec hl hr fuel none main _ s e (start_fine hl hr hc) hx
  obtain ⟨c1, c2, c3⟩ := C03_disjoint hl hr hw
  obtain ⟨c7, c8, _⟩ := C07_low_water_mark hl hr hw
  refine ⟨?_, ?_, (C04_contents_preserved hl hr hw).2, (C05_free_size_exact hl hr hw hc).1, c7, c8, ?_⟩
  · intro l hlv
    obtain ⟨bs, i⟩ := reach_inv hl hr hw
    have h1 := i.lives l hlv
    have h2 := c3 l hlv
    have h3 := tiles_mem i.rep.tiles _ (i.live_blk hlv).1
    have h4 := i.rep.geo.s8
    simp only [Live.blk] at h3
    unfold Live.start Live.stop at h2
    omega
  · refine c2.imp_of_mem ?_
    intro l k h1 h2 h3
    have := c3 l h1
    have := c3 k h2
    unfold Live.start at *
    omega
  · intro hn; exact (C06_all_freed_restores hl hr hw hc hn).1

/-- **C156.** What happens: every request for which there is no room while a function is stored calls that
function, once, before it comes back; nothing else calls it; whatever the function does, also requests that
succeed because it has made room, the request that failed comes back with `nullptr`, or with the exception
that the function has thrown.  The model's count of the calls agrees. -/
theorem C156_calls (hl : Layout size base st) (hr : Roomy size base) {mem : Mem} {h : Heap}
    (hc : Heap.construct size base st mem = .ok h) {main : Prog} {fuel : Nat} {s : St} {e : End}
    (hx : exec fns fuel none main (.start h) = .ok (s, e)) :
    s.w.heap.callbackCalls = enters s.log ∧
    (e ≠ .illegal → Told size base none [] s.log s.stored s.w.live) := by
  obtain ⟨_, l, h1, h2, h3⟩ := exec_spec hl hr fuel none main _ s e (start_fine hl hr hc) hx
  have hl0 : s.log = l := by rw [h1]; simp [St.start]
  obtain ⟨h', g1, _, _, _, _, _, _, _, _, _, _, g2⟩ := construct_layout (m := mem) hl hr
  rw [hc] at g1
  obtain rfl := Res.ok.inj g1
  have h2' : s.w.heap.callbackCalls = h.callbackCalls + enters l := h2
  refine ⟨by rw [h2', g2, hl0]; omega, fun he => ?_⟩
  rw [hl0]; exact h3 he

end Verif.Heap.Fail
