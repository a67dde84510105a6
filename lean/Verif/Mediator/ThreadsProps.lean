import Verif.Mediator.Threads
/-! Threads that send at the same time (C132). -/
namespace Verif.Mediator.Conc
open Verif Verif.HB Verif.Data

variable {W : World} {m m' : State W} {s s' : Sh} {l : Lbl W} {sources : Nat}

/-! ### Calls made alone -/

/-- The events of a call that changes nothing, while nobody else changes anything; `none` if it changes something or is undefined. -/
def Prog.trace (s : Sh) : Prog W → Option (List (Ev W))
  | .ret => some []
  | .cnt k => (k s.cnt).trace s
  | .at i k => match s.arr[i]? with
    | some p => (k p).trace s
    | none => none
  | .obj p k => if s.live p then k.trace s else none
  | .call e k => (k.trace s).map (e :: ·)
  | .setCnt _ _ | .setAt _ _ _ | .setObj _ _ _ | .undef => none

/-- The effect of a call without callbacks that is not interrupted. -/
def Prog.alone : Prog W → Sh → Option Sh
  | .ret, s => some s
  | .cnt k, s => (k s.cnt).alone s
  | .setCnt n k, s => k.alone { s with cnt := n }
  | .at i k, s => match s.arr[i]? with
    | some p => (k p).alone s
    | none => none
  | .setAt i p k, s => if i < s.arr.length then k.alone { s with arr := s.arr.set i p } else none
  | .obj p k, s => if s.live p then k.alone s else none
  | .setObj p b k, s => k.alone { s with live := HB.put s.live p b }
  | .call _ _, _ | .undef, _ => none

/-- The manager knows exactly the modules `l`, and they are those that exist. -/
structure Fits (s : Sh) (l : List Nat) : Prop where
  cnt : s.cnt = l.length
  at_ : ∀ i, i < l.length → s.arr[i]? = some (l[i]?)
  live : ∀ p, s.live p = true ↔ p ∈ l
  nodup : l.Nodup

theorem trace_module {l : List Nat} (h : Fits s l) {i : Nat} (hi : i < l.length) (k : Nat → Prog W) :
    (module i k).trace s = (k l[i]).trace s := by
  simp only [module, Prog.trace, h.at_ i hi, List.getElem?_eq_getElem hi]

theorem trace_obj {l : List Nat} (h : Fits s l) {p : Nat} (hp : p ∈ l) (k : Prog W) : (Prog.obj p k).trace s = k.trace s := by
  simp only [Prog.trace, (h.live p).2 hp, if_true]

theorem trace_ownId {l : List Nat} (h : Fits s l) {src : Option Nat} (hp : ∀ p, src = some p → p ∈ l) (k : Prog W) :
    (ownId src k).trace s = k.trace s := by
  cases src with
  | none => rfl
  | some p => exact trace_obj h (hp p rfl) k

theorem trace_receive (hinj : ∀ a b, W.hash a = W.hash b → a = b) (n p t : Nat) (bytes : List Byte) (k : Prog W) :
    (receive n p (W.hash t) bytes k).trace s =
      (k.trace s).map ((if t ∈ W.recvs p ∧ bytes.length = (W.pod t).size then [Ev.recv n p t ((W.pod t).dec bytes)] else []) ++ ·) := by
  unfold receive
  rw [matchType_eq hinj]
  by_cases h1 : t ∈ W.recvs p
  · rw [if_pos h1]
    simp only [convertField]
    by_cases h2 : bytes.length = (W.pod t).size
    · rw [if_neg (by omega), if_pos ⟨h1, h2⟩]
      rfl
    · rw [if_pos (by omega), if_neg (fun h => h2 h.2)]
      simp
  · rw [if_neg h1, if_neg (fun h => h1 h.1)]
    simp

/-- A loop over the modules delivers as it should. -/
theorem trace_deliver (hinj : ∀ a b, W.hash a = W.hash b → a = b) {l : List Nat} (h : Fits s l) {src : Option Nat}
    (hp : ∀ p, src = some p → p ∈ l) (n t : Nat) (bytes : List Byte) : ∀ (fuel i : Nat), i ≤ l.length → l.length < fuel + i →
      (deliver n src (W.hash t) bytes fuel i).trace s = some (deliveries W (l.drop i) n t bytes)
  | 0, i, h1, h2 => by omega
  | fuel + 1, i, h1, h2 => by
    rw [deliver]
    simp only [Prog.trace, h.cnt]
    by_cases hi : i < l.length
    · rw [if_pos hi, trace_module h hi, trace_obj h (List.getElem_mem hi), trace_ownId h hp, List.drop_eq_getElem_cons hi,
        deliveries_cons]
      have ih := trace_deliver hinj h hp n t bytes fuel (i + 1) (by omega) (by omega)
      by_cases he : W.sends l[i] = t
      · rw [if_neg (by simp [he]), ih, if_neg (by simp [he]), List.nil_append]
      · rw [if_pos (fun h' => he (hinj _ _ h')), trace_module h hi, trace_ownId h hp, trace_obj h (List.getElem_mem hi),
          trace_receive hinj, ih]
        simp [he]
    · rw [if_neg hi]
      have : l.drop i = [] := by simp; omega
      simp [this, Prog.trace, deliveries, interested]

/-- What happens under the number of a call that sends, if the modules `l` are registered. -/
def Call.expect (l : List Nat) (n : Nat) : Call W → List (Ev W)
  | .make _ | .drop _ => []
  | .send m bytes => .start n (some m) (W.sends m) bytes :: .hook n (W.hash (W.sends m)) bytes :: deliveries W l n (W.sends m) bytes
  | .cast t v => .start n none t ((W.pod t).enc v) :: deliveries W l n t ((W.pod t).enc v)

theorem deliveries_num {l : List Nat} {n t : Nat} {bytes : List Byte} {e : Ev W} (h : e ∈ deliveries W l n t bytes) :
    e.num = n := by
  unfold deliveries at h
  split at h
  · obtain ⟨_, _, rfl⟩ := List.mem_map.1 h
    rfl
  · cases h

theorem expect_num {l : List Nat} {n : Nat} {c : Call W} {e : Ev W} (h : e ∈ c.expect l n) : e.num = n := by
  cases c with
  | make | drop => cases h
  | send p bytes =>
    rcases List.mem_cons.1 h with rfl | h
    · rfl
    rcases List.mem_cons.1 h with rfl | h
    · rfl
    exact deliveries_num h
  | cast t v =>
    rcases List.mem_cons.1 h with rfl | h
    · rfl
    exact deliveries_num h

theorem trace_prog (hinj : ∀ a b, W.hash a = W.hash b → a = b) {l : List Nat} (h : Fits s l) (hl : l.length ≤ s.arr.length)
    (n : Nat) {c : Call W} (hc : c.changes = false) (hp : c.possible s = true) :
    ∃ rest, (c.prog s.arr.length n).trace s = some rest ∧ c.starts n ++ rest = c.expect l n := by
  cases c with
  | make | drop => cases hc
  | send p bytes =>
    have hp : p ∈ l := (h.live p).1 hp
    refine ⟨_, ?_, rfl⟩
    simp only [Call.prog]
    rw [trace_obj h hp]
    simp only [Prog.trace]
    rw [trace_deliver hinj h (by simpa using hp) _ _ _ _ 0 (by omega) (by omega)]
    rfl
  | cast t v =>
    refine ⟨_, ?_, rfl⟩
    simp only [Call.prog]
    rw [trace_deliver hinj h (by simp) _ _ _ _ 0 (by omega) (by omega)]
    rfl

/-! ### Construction and destruction alone -/

theorem alone_make {l : List Nat} (h : Fits s l) (hl : l.length < s.arr.length) {p : Nat} (hp : p ∉ l) :
    ∃ s', (make p : Prog W).alone s = some s' ∧ Fits s' (l ++ [p]) ∧ s'.arr.length = s.arr.length := by
  refine ⟨⟨s.arr.set s.cnt (some p), s.cnt + 1, HB.put s.live p true⟩, ?_, ⟨?_, fun i hi => ?_, fun q => ?_, ?_⟩, by simp⟩
  · simp only [make, Prog.alone, h.cnt, if_pos hl]
  · simp [h.cnt]
  · simp only [List.length_append, List.length_cons, List.length_nil] at hi
    rw [h.cnt]
    by_cases e : i = l.length
    · subst e
      simp [hl]
    · rw [List.getElem?_set_ne (by omega), h.at_ i (by omega), List.getElem?_append_left (by omega)]
  · by_cases e : q = p
    · subst e; simp
    · simp [put_ne _ _ e, h.live, e]
  · rw [List.nodup_append]
    exact ⟨h.nodup, by simp, fun a ha b hb e => hp (by simp at hb; rw [← hb, ← e]; exact ha)⟩

theorem alone_shift (k : Prog W) : ∀ (n fuel i : Nat) (s : Sh) (arr : List (Option Nat)), n < fuel → s.cnt = i + n + 1 →
    Mediator.shift n i s.arr = .ok arr → s.cnt < arr.length →
    (shift k fuel i).alone s = k.alone { s with arr := arr.set s.cnt none, cnt := s.cnt - 1 }
  | n, 0, i, s, arr, h1, _, _, _ => by omega
  | 0, fuel + 1, i, s, arr, h1, h2, h3, h4 => by
    rw [Mediator.shift] at h3
    cases h3
    have hle : less s.cnt = s.cnt - 1 := by rw [less, if_neg (by omega)]
    simp only [shift, Prog.alone]
    rw [hle, if_neg (by omega)]
    simp only [Prog.alone]
    rw [if_pos h4, hle]
  | n + 1, fuel + 1, i, s, arr, h1, h2, h3, h4 => by
    rw [Mediator.shift] at h3
    cases hg : s.arr[i + 1]? with
    | none => rw [hg] at h3; cases h3
    | some p =>
      rw [hg] at h3
      simp only at h3
      by_cases hi : i < s.arr.length
      · rw [if_pos hi] at h3
        have hle : less s.cnt = s.cnt - 1 := by rw [less, if_neg (by omega)]
        simp only [shift, Prog.alone]
        rw [hle, if_pos (by omega)]
        simp only [Prog.alone, hg, if_pos hi]
        exact alone_shift k n fuel (i + 1) { s with arr := s.arr.set i p } arr (by omega) (by simp only; omega) h3 h4
      · rw [if_neg hi] at h3; cases h3

theorem alone_remove (p : Nat) (k : Prog W) : ∀ (n fuel i : Nat) (s : Sh) (st st' : St W Unit), n < fuel → s.cnt = i + n →
    st.arr = s.arr → st.cnt = s.cnt → findRemove p n i st = .ok st' →
    (remove p k fuel i).alone s = k.alone { s with arr := st'.arr, cnt := st'.cnt }
  | n, 0, i, s, st, st', h1, _, _, _, _ => by omega
  | 0, fuel + 1, i, s, st, st', h1, h2, h3, h4, h5 => by
    rw [findRemove] at h5
    cases h5
    simp only [remove, Prog.alone]
    rw [if_neg (by omega), h3, h4]
  | n + 1, fuel + 1, i, s, st, st', h1, h2, h3, h4, h5 => by
    rw [findRemove, h3] at h5
    simp only [remove, Prog.alone]
    rw [if_pos (by omega)]
    simp only [Prog.alone]
    cases hg : s.arr[i]? with
    | none => rw [hg] at h5; cases h5
    | some q =>
      rw [hg] at h5
      simp only at h5 ⊢
      by_cases hq : q = some p
      · rw [if_pos hq] at h5 ⊢
        rw [h4] at h5
        cases hs : Mediator.shift (s.cnt - 1 - i) i s.arr with
        | ub => rw [hs] at h5; cases h5
        | hang => rw [hs] at h5; cases h5
        | ok arr =>
          rw [hs, Res.ok_bind] at h5
          by_cases hl : s.cnt < arr.length
          · rw [if_pos hl] at h5
            cases h5
            exact alone_shift k (s.cnt - 1 - i) (fuel + 1) i s arr (by omega) (by omega) hs hl
          · rw [if_neg hl] at h5; cases h5
      · rw [if_neg hq] at h5 ⊢
        exact alone_remove p k n fuel (i + 1) s st st' (by omega) (by omega) h3 h4 h5

theorem alone_drop {l : List Nat} (h : Fits s l) (hl : l.length < s.arr.length) {p : Nat} (hp : p ∈ l) (n : Nat) :
    ∃ s', ((Call.drop p : Call W).prog s.arr.length n).alone s = some s' ∧ Fits s' (l.filter (· != p)) ∧
      s'.arr.length = s.arr.length := by
  obtain ⟨st', h1, h2, h3, _⟩ := remove_ok (W := W) (U := Unit) l h.nodup ⟨s.arr, s.cnt, (), [], 0⟩ ⟨h.cnt, h.at_⟩ hl p hp
  refine ⟨⟨st'.arr, st'.cnt, HB.put s.live p false⟩, ?_, ⟨h2.cnt, h2.at_, fun q => ?_, h.nodup.filter _⟩, h3⟩
  · simp only [Call.prog]
    rw [alone_remove p _ s.cnt _ 0 s ⟨s.arr, s.cnt, (), [], 0⟩ st' (by rw [h.cnt]; omega) (by omega) rfl rfl h1]
    rfl
  · by_cases e : q = p
    · subst e; simp
    · simp [put_ne _ _ e, h.live, e]

/-! ### One step -/

/-- The step only reads. -/
def Reads (os : List (HB.Op Loc Nat)) : Prop := ∀ loc wr tag, HB.Op.acc loc wr tag ∈ os → wr = false

theorem trace_next {p : Prog W} {rest : List (Ev W)} (h : p.trace s = some rest) (h1 : p ≠ .ret) (h2 : ∀ e k, p ≠ .call e k) :
    ∃ q, p.next s = some (s, q) ∧ q.trace s = some rest := by
  cases p with
  | ret => exact absurd rfl h1
  | call e k => exact absurd rfl (h2 e k)
  | cnt k => exact ⟨_, rfl, h⟩
  | «at» i k =>
    simp only [Prog.trace] at h
    cases hg : s.arr[i]? with
    | none => rw [hg] at h; cases h
    | some p => rw [hg] at h; exact ⟨k p, by simp only [Prog.next, hg], h⟩
  | obj p k =>
    simp only [Prog.trace] at h
    split at h
    · rename_i hl
      exact ⟨k, by simp only [Prog.next, hl, if_true], h⟩
    · cases h
  | _ => cases h

theorem trace_reads {p : Prog W} {rest : List (Ev W)} (h : p.trace s = some rest) : Reads p.ops := by
  intro loc wr tag ho
  cases p <;> simp [Prog.ops, Prog.trace] at ho h <;> simp [ho]

theorem alone_next {p : Prog W} (h : p.alone s = some s') (h1 : p ≠ .ret) :
    (∀ e k, p ≠ .call e k) ∧ ∃ s1 q, p.next s = some (s1, q) ∧ q.alone s1 = some s' ∧ s1.arr.length = s.arr.length := by
  cases p with
  | ret => exact absurd rfl h1
  | call e k => cases h
  | cnt k => exact ⟨by simp, _, _, rfl, h, rfl⟩
  | setCnt n k => exact ⟨by simp, _, _, rfl, h, rfl⟩
  | setObj n b k => exact ⟨by simp, _, _, rfl, h, rfl⟩
  | «at» i k =>
    simp only [Prog.alone] at h
    cases hg : s.arr[i]? with
    | none => rw [hg] at h; cases h
    | some p => rw [hg] at h; exact ⟨by simp, s, k p, by simp only [Prog.next, hg], h, rfl⟩
  | setAt i p k =>
    simp only [Prog.alone] at h
    split at h
    · rename_i hl
      exact ⟨by simp, _, k, by simp only [Prog.next, hl, if_true], h, by simp⟩
    · cases h
  | obj p k =>
    simp only [Prog.alone] at h
    split at h
    · rename_i hl
      exact ⟨by simp, s, k, by simp only [Prog.next, hl, if_true], h, rfl⟩
    · cases h
  | undef => cases h

theorem act_next {t : Nat} {f : Frame W} {fs : List (Frame W)} (h1 : f.prog ≠ .ret) (h2 : ∀ e k, f.prog ≠ .call e k) :
    act m t f fs = (f.prog.next m.sh).map fun r =>
      { m with mem := m.mem.run t f.prog.ops, sh := r.1, stack := HB.put m.stack t ({ f with prog := r.2 } :: fs) } := by
  obtain ⟨n, c, p, b⟩ := f
  cases p with
  | ret => exact absurd rfl h1
  | call e k => exact absurd rfl (h2 e k)
  | _ => rfl

/-! ### Knowledge -/

theorem ops_cases (p : Prog W) : p.ops = [] ∨ ∃ loc wr, p.ops = [.acc loc wr 0] := by
  cases p <;> simp [Prog.ops]

/-- A thread that only reads does not keep others from knowing all changes. -/
theorem changes_run {M : HB.Mem Nat Loc Nat} {t u : Nat} {os : List (HB.Op Loc Nat)} (hr : Reads os)
    (h : ∀ a ∈ M.log, a.wr = true → a.time ≤ M.clk u a.who) :
    ∀ a ∈ (M.run t os).log, a.wr = true → a.time ≤ (M.run t os).clk u a.who := by
  induction os generalizing M with
  | nil => exact h
  | cons o os ih =>
    refine ih (fun loc wr tag ho => hr loc wr tag (List.mem_cons_of_mem _ ho)) fun a ha hw => ?_
    cases o with
    | acc loc wr tag =>
      have hwr := hr loc wr tag List.mem_cons_self
      simp only [Mem.op, List.mem_cons] at ha
      rcases ha with rfl | ha
      · simp [hwr] at hw
      · exact Nat.le_trans (h a ha hw) (M.op_clk_le t _ u a.who)
    | _ => exact Nat.le_trans (h a ha hw) (M.op_clk_le t _ u a.who)

/-- A thread that knows all still does after its own accesses. -/
theorem all_run {M : HB.Mem Nat Loc Nat} {t : Nat} {os : List (HB.Op Loc Nat)} (h : ∀ a ∈ M.log, a.time ≤ M.clk t a.who) :
    ∀ a ∈ (M.run t os).log, a.time ≤ (M.run t os).clk t a.who := by
  induction os generalizing M with
  | nil => exact h
  | cons o os ih =>
    refine ih fun a ha => ?_
    cases o with
    | acc loc wr tag =>
      simp only [Mem.op, List.mem_cons] at ha
      rcases ha with rfl | ha
      · simp [Mem.op]
      · exact Nat.le_trans (h a ha) (M.op_clk_le t _ t a.who)
    | _ => exact Nat.le_trans (h a ha) (M.op_clk_le t _ t a.who)

/-- Synchronisation only adds to what threads know. -/
theorem sync_log {M : HB.Mem Nat Loc Nat} {t : Nat} {o : HB.Op Loc Nat} (ho : ∀ loc wr tag, o ≠ .acc loc wr tag) :
    (M.run t [o]).log = M.log := by
  cases o with
  | acc loc wr tag => exact absurd rfl (ho loc wr tag)
  | _ => rfl

/-! ### The invariant -/

/-- What happened under number `n` in a log. -/
def aboutLog (n : Nat) (log : List (Nat × Ev W)) : List (Nat × Ev W) := (log.filter fun e => e.2.num == n).reverse

theorem aboutLog_cons (n : Nat) (x : Nat × Ev W) (log : List (Nat × Ev W)) :
    aboutLog n (x :: log) = if x.2.num = n then aboutLog n log ++ [x] else aboutLog n log := by
  unfold aboutLog
  by_cases h : x.2.num = n <;> simp [h]

theorem aboutLog_nil {n : Nat} {log : List (Nat × Ev W)} (h : ∀ e ∈ log, e.2.num ≠ n) : aboutLog n log = [] := by
  simpa [aboutLog] using h

/-- The numbers of calls. -/
structure Nums (m : State W) : Prop where
  log : ∀ e ∈ m.log, e.2.num < m.count
  frame : ∀ t, ∀ f ∈ m.stack t, f.num < m.count
  hist : ∀ d ∈ m.hist, d.num < m.count
  inner : ∀ t, (m.stack t).Pairwise fun f g => f.num ≠ g.num
  outer : ∀ t u, t ≠ u → ∀ f ∈ m.stack t, ∀ g ∈ m.stack u, f.num ≠ g.num
  past : ∀ t, ∀ f ∈ m.stack t, ∀ d ∈ m.hist, f.num ≠ d.num

/-- While calls send, nothing changes, and each call that is going on will have done what it should. -/
structure Calm (m : State W) : Prop where
  calls : ∀ t, ∀ f ∈ m.stack t, f.call.changes = false
  fits : Fits m.sh (registered m.hist)
  knows : ∀ t, m.stack t ≠ [] → m.KnowsChanges t
  frame : ∀ t, ∀ f ∈ m.stack t, ∃ rest, f.prog.trace m.sh = some rest ∧
    aboutLog f.num m.log ++ rest.map (fun e => (t, e)) = (f.call.expect (registered m.hist) f.num).map fun e => (t, e)

/-- A call that constructs or destroys a module is alone, and will do what it should. -/
structure Lone (m : State W) (t : Nat) (f : Frame W) : Prop where
  stack : m.stack t = [f]
  others : ∀ u, u ≠ t → m.stack u = []
  call : f.call.changes = true
  busy : f.busy = false
  knows : m.KnowsAll t
  will : ∃ s', f.prog.alone m.sh = some s' ∧ Fits s' (registered (⟨t, f.num, f.call, m.count⟩ :: m.hist))

/-- The invariant. -/
structure Inv (sources : Nat) (m : State W) : Prop where
  len : m.sh.arr.length = sources
  room : (registered m.hist).length ≤ sources
  nums : Nums m
  mode : Calm m ∨ ∃ t f, Lone m t f ∧ (registered (⟨t, f.num, f.call, m.count⟩ :: m.hist)).length ≤ sources
  past : ∀ a d b, m.hist = a ++ d :: b → d.call.changes = false →
    aboutLog d.num m.log = (d.call.expect (registered b) d.num).map fun e => (d.who, e)

theorem inv_new (sources : Nat) : Inv sources (State.new sources : State W) := by
  refine ⟨by simp [State.new], by simp [State.new, registered], ⟨?_, ?_, ?_, ?_, ?_, ?_⟩, .inl ⟨?_, ⟨rfl, ?_, ?_, ?_⟩, ?_, ?_⟩, ?_⟩
  all_goals simp [State.new, registered]

theorem registered_same {d : Done W} (h : d.call.changes = false) (ds : List (Done W)) : registered (d :: ds) = registered ds := by
  obtain ⟨w, n, c, b⟩ := d
  cases c <;> first | rfl | cases h

/-- The top of a stack is replaced by a frame with the same number. -/
theorem Nums.top (h : Nums m) {t : Nat} {f g : Frame W} {fs : List (Frame W)} (hf : m.stack t = f :: fs)
    (h1 : m'.stack = HB.put m.stack t (g :: fs)) (hn : g.num = f.num) (h2 : m'.count = m.count) (h3 : m'.hist = m.hist)
    (h4 : ∀ e ∈ m'.log, e.2.num < m.count) : Nums m' := by
  have key : ∀ u, ∀ x ∈ m'.stack u, ∃ y ∈ m.stack u, x.num = y.num := by
    intro u x hx
    rw [h1] at hx
    by_cases e : u = t
    · subst e
      rw [put_same] at hx
      rw [hf]
      rcases List.mem_cons.1 hx with rfl | hx
      · exact ⟨f, List.mem_cons_self, hn⟩
      · exact ⟨x, List.mem_cons_of_mem _ hx, rfl⟩
    · rw [put_ne _ _ e] at hx
      exact ⟨x, hx, rfl⟩
  refine ⟨fun e he => h2 ▸ h4 e he, fun u x hx => ?_, fun d hd => h2 ▸ h.hist d (h3 ▸ hd), fun u => ?_, fun u v e x hx y hy => ?_,
    fun u x hx d hd => ?_⟩
  · obtain ⟨y, hy, e⟩ := key u x hx
    rw [h2, e]
    exact h.frame u y hy
  · rw [h1]
    by_cases e : u = t
    · subst e
      have := h.inner u
      rw [hf] at this
      rw [put_same, List.pairwise_cons]
      rw [List.pairwise_cons] at this
      exact ⟨fun x hx => hn ▸ this.1 x hx, this.2⟩
    · rw [put_ne _ _ e]
      exact h.inner u
  · obtain ⟨x', hx', e1⟩ := key u x hx
    obtain ⟨y', hy', e2⟩ := key v y hy
    rw [e1, e2]
    exact h.outer u v e x' hx' y' hy'
  · obtain ⟨x', hx', e1⟩ := key u x hx
    rw [e1]
    exact h.past u x' hx' d (h3 ▸ hd)

/-- A call returns. -/
theorem Nums.pop (h : Nums m) {t : Nat} {f : Frame W} {fs : List (Frame W)} (hf : m.stack t = f :: fs) {d : Done W}
    (hd : d.num = f.num) (h1 : m'.stack = HB.put m.stack t fs) (h2 : m'.count = m.count) (h3 : m'.hist = d :: m.hist)
    (h4 : m'.log = m.log) : Nums m' := by
  have hft : f ∈ m.stack t := by rw [hf]; exact List.mem_cons_self
  have key : ∀ u, ∀ x ∈ m'.stack u, x ∈ m.stack u ∧ x.num ≠ f.num := by
    intro u x hx
    rw [h1] at hx
    by_cases e : u = t
    · subst e
      rw [put_same] at hx
      have := h.inner u
      rw [hf, List.pairwise_cons] at this
      exact ⟨by rw [hf]; exact List.mem_cons_of_mem _ hx, (this.1 x hx).symm⟩
    · rw [put_ne _ _ e] at hx
      exact ⟨hx, h.outer u t e x hx f hft⟩
  refine ⟨fun e he => h2 ▸ h.log e (h4 ▸ he), fun u x hx => h2 ▸ h.frame u x (key u x hx).1, fun d' hd' => ?_, fun u => ?_,
    fun u v e x hx y hy => h.outer u v e x (key u x hx).1 y (key v y hy).1, fun u x hx d' hd' => ?_⟩
  · rw [h3] at hd'
    rw [h2]
    rcases List.mem_cons.1 hd' with rfl | hd'
    · rw [hd]
      exact h.frame t f hft
    · exact h.hist d' hd'
  · rw [h1]
    by_cases e : u = t
    · subst e
      have := h.inner u
      rw [hf, List.pairwise_cons] at this
      rw [put_same]
      exact this.2
    · rw [put_ne _ _ e]
      exact h.inner u
  · rw [h3] at hd'
    rcases List.mem_cons.1 hd' with rfl | hd'
    · rw [hd]
      exact (key u x hx).2
    · exact h.past u x (key u x hx).1 d' hd'

theorem starts_num {n : Nat} {c : Call W} {e : Ev W} (h : e ∈ c.starts n) : e.num = n := by
  cases c <;> simp [Call.starts] at h <;> subst h <;> rfl

/-- A call begins. -/
theorem Nums.push (h : Nums m) {t : Nat} {f : Frame W} (hn : f.num = m.count)
    (h1 : m'.stack = HB.put m.stack t (f :: m.stack t)) (h2 : m'.count = m.count + 1) (h3 : m'.hist = m.hist)
    (h4 : ∀ e ∈ m'.log, e.2.num < m.count + 1) : Nums m' := by
  have key : ∀ u, ∀ x ∈ m'.stack u, (u = t ∧ x = f) ∨ x ∈ m.stack u := by
    intro u x hx
    rw [h1] at hx
    by_cases e : u = t
    · subst e
      rw [put_same] at hx
      rcases List.mem_cons.1 hx with rfl | hx
      · exact .inl ⟨rfl, rfl⟩
      · exact .inr hx
    · rw [put_ne _ _ e] at hx
      exact .inr hx
  refine ⟨fun e he => h2 ▸ h4 e he, fun u x hx => ?_, fun d hd => ?_, fun u => ?_, fun u v e x hx y hy => ?_,
    fun u x hx d hd => ?_⟩
  · rcases key u x hx with ⟨_, rfl⟩ | hx
    · omega
    · have := h.frame u x hx
      omega
  · have := h.hist d (h3 ▸ hd)
    omega
  · rw [h1]
    by_cases e : u = t
    · subst e
      rw [put_same, List.pairwise_cons]
      exact ⟨fun x hx => by have := h.frame u x hx; omega, h.inner u⟩
    · rw [put_ne _ _ e]
      exact h.inner u
  · rcases key u x hx with ⟨e1, rfl⟩ | hx
    · rcases key v y hy with ⟨e2, rfl⟩ | hy
      · exact absurd (e1.trans e2.symm) e
      · have := h.frame v y hy
        omega
    · rcases key v y hy with ⟨e2, rfl⟩ | hy
      · have := h.frame u x hx
        omega
      · exact h.outer u v e x hx y hy
  · rcases key u x hx with ⟨_, rfl⟩ | hx
    · have := h.hist d (h3 ▸ hd)
      omega
    · exact h.past u x hx d (h3 ▸ hd)

/-- The new frame replaces the old one on top of a stack. -/
theorem mem_top {t u : Nat} {f g x : Frame W} {fs : List (Frame W)} (hf : m.stack t = f :: fs)
    (hx : x ∈ HB.put m.stack t (g :: fs) u) : (u = t ∧ x = g) ∨ x ∈ m.stack u ∧ (u = t → x ∈ fs) := by
  by_cases e : u = t
  · subst e
    rw [put_same] at hx
    rcases List.mem_cons.1 hx with rfl | hx
    · exact .inl ⟨rfl, rfl⟩
    · exact .inr ⟨by rw [hf]; exact List.mem_cons_of_mem _ hx, fun _ => hx⟩
  · rw [put_ne _ _ e] at hx
    exact .inr ⟨hx, fun h => absurd h e⟩

/-- A step within a call that sends keeps things as they are. -/
theorem calm_act (i : Inv sources m) (c : Calm m) {t : Nat} {f : Frame W} {fs : List (Frame W)} (hf : m.stack t = f :: fs) :
    ∃ m1, act m t f fs = some m1 ∧ Inv sources m1 ∧ Reads f.prog.ops := by
  have hft : f ∈ m.stack t := by rw [hf]; exact List.mem_cons_self
  obtain ⟨rest, h1, h2⟩ := c.frame t f hft
  have hr := trace_reads h1
  have hcf := c.calls t f hft
  have hk : ∀ u, m.stack u ≠ [] → ∀ a ∈ (m.mem.run t f.prog.ops).log, a.wr = true →
      a.time ≤ (m.mem.run t f.prog.ops).clk u a.who := fun u hu => changes_run hr (c.knows u hu)
  have hne : ∀ u, u ≠ t ∨ m.stack u ≠ [] := fun u => by
    by_cases e : u = t
    · subst e; right; rw [hf]; simp
    · exact .inl e
  by_cases hret : f.prog = .ret
  · rw [hret] at h1
    simp only [Prog.trace, Option.some.injEq] at h1
    subst h1
    have hreg := registered_same (d := ⟨t, f.num, f.call, m.count⟩) hcf m.hist
    refine ⟨{ m with mem := m.mem.run t f.prog.ops, stack := HB.put m.stack t fs, hist := ⟨t, f.num, f.call, m.count⟩ :: m.hist },
      by simp only [act, hret], ⟨i.len, by rw [hreg]; exact i.room, i.nums.pop hf rfl rfl rfl rfl rfl, .inl ?_, ?_⟩, hr⟩
    · have hin : ∀ u, ∀ x ∈ HB.put m.stack t fs u, x ∈ m.stack u := by
        intro u x hx
        by_cases e : u = t
        · subst e
          rw [put_same] at hx
          rw [hf]
          exact List.mem_cons_of_mem _ hx
        · rwa [put_ne _ _ e] at hx
      refine ⟨fun u x hx => c.calls u x (hin u x hx), by rw [hreg]; exact c.fits, fun u hu => hk u fun e => hu ?_, fun u x hx => ?_⟩
      · have : u ≠ t := fun e' => by rw [e', hf] at e; cases e
        simp only [put_ne _ _ this, e]
      · rw [hreg]
        exact c.frame u x (hin u x hx)
    · intro a d b he hd
      cases a with
      | nil =>
        simp only [List.nil_append, List.cons.injEq] at he
        obtain ⟨rfl, rfl⟩ := he
        simpa using h2
      | cons x a =>
        simp only [List.cons_append, List.cons.injEq] at he
        exact i.past a d b he.2 hd
  · by_cases hcall : ∃ e k, f.prog = .call e k
    · obtain ⟨e, k, hcall⟩ := hcall
      rw [hcall] at h1
      simp only [Prog.trace, Option.map_eq_some_iff] at h1
      obtain ⟨rest', h1, rfl⟩ := h1
      have hen : e.num = f.num := by
        have : (t, e) ∈ (f.call.expect (registered m.hist) f.num).map fun e => (t, e) := by
          rw [← h2]; simp
        obtain ⟨e', he', h3⟩ := List.mem_map.1 this
        cases h3
        exact expect_num he'
      have hlog : ∀ x ∈ (t, e) :: m.log, x.2.num < m.count := by
        intro x hx
        rcases List.mem_cons.1 hx with rfl | hx
        · exact hen ▸ i.nums.frame t f hft
        · exact i.nums.log x hx
      have hab : ∀ n, n ≠ f.num → aboutLog n ((t, e) :: m.log) = aboutLog n m.log := by
        intro n hn
        rw [aboutLog_cons, if_neg (by simp only [hen]; exact fun h => hn h.symm)]
      refine ⟨{ m with mem := m.mem.run t f.prog.ops, stack := HB.put m.stack t ({ f with prog := k, busy := true } :: fs),
                       log := (t, e) :: m.log }, by simp only [act, hcall],
        ⟨i.len, i.room, i.nums.top hf rfl rfl rfl rfl hlog, .inl ⟨?_, c.fits, ?_, ?_⟩, ?_⟩, hr⟩
      · intro u x hx
        rcases mem_top hf hx with ⟨rfl, rfl⟩ | ⟨hx, _⟩
        · exact hcf
        · exact c.calls u x hx
      · intro u hu
        refine hk u fun e' => hu ?_
        have : u ≠ t := fun e'' => by rw [e'', hf] at e'; cases e'
        simp only [put_ne _ _ this, e']
      · intro u x hx
        rcases mem_top hf hx with ⟨rfl, rfl⟩ | ⟨hx, hx'⟩
        · refine ⟨rest', h1, ?_⟩
          simp only [aboutLog_cons, hen, if_true, List.append_assoc]
          simpa using h2
        · rw [hab x.num ?_]
          · exact c.frame u x hx
          · by_cases e' : u = t
            · have := i.nums.inner t
              rw [hf, List.pairwise_cons] at this
              exact (this.1 x (hx' e')).symm
            · exact i.nums.outer u t e' x hx f hft
      · intro a d b he hd
        simp only at he
        rw [hab d.num (i.nums.past t f hft d (by rw [he]; simp)).symm]
        exact i.past a d b he hd
    · have hcall' : ∀ e k, f.prog ≠ .call e k := fun e k h => hcall ⟨e, k, h⟩
      obtain ⟨q, h3, h4⟩ := trace_next h1 hret hcall'
      refine ⟨{ m with mem := m.mem.run t f.prog.ops, stack := HB.put m.stack t ({ f with prog := q } :: fs) },
        by rw [act_next hret hcall', h3]; rfl,
        ⟨i.len, i.room, i.nums.top hf rfl rfl rfl rfl i.nums.log, .inl ⟨?_, c.fits, ?_, ?_⟩, i.past⟩, hr⟩
      · intro u x hx
        rcases mem_top hf hx with ⟨rfl, rfl⟩ | ⟨hx, _⟩
        · exact hcf
        · exact c.calls u x hx
      · intro u hu
        refine hk u fun e' => hu ?_
        have : u ≠ t := fun e'' => by rw [e'', hf] at e'; cases e'
        simp only [put_ne _ _ this, e']
      · intro u x hx
        rcases mem_top hf hx with ⟨rfl, rfl⟩ | ⟨hx, _⟩
        · exact ⟨rest, h4, h2⟩
        · exact c.frame u x hx

/-- A step of a call that constructs or destroys. -/
theorem lone_act (i : Inv sources m) {t : Nat} {f : Frame W} (c : Lone m t f)
    (hroom : (registered (⟨t, f.num, f.call, m.count⟩ :: m.hist)).length ≤ sources) :
    ∃ m1, act m t f [] = some m1 ∧ Inv sources m1 := by
  obtain ⟨s', h1, h2⟩ := c.will
  by_cases hret : f.prog = .ret
  · rw [hret] at h1
    simp only [Prog.alone, Option.some.injEq] at h1
    subst h1
    have hstack : ∀ u, HB.put m.stack t [] u = [] := by
      intro u
      by_cases e : u = t
      · subst e; rw [put_same]
      · rw [put_ne _ _ e]; exact c.others u e
    refine ⟨{ m with mem := m.mem.run t f.prog.ops, stack := HB.put m.stack t [], hist := ⟨t, f.num, f.call, m.count⟩ :: m.hist },
      by simp only [act, hret], ⟨i.len, hroom, i.nums.pop c.stack rfl rfl rfl rfl rfl, .inl ⟨?_, h2, ?_, ?_⟩, ?_⟩⟩
    · intro u x hx
      simp only [hstack] at hx
      cases hx
    · intro u hu
      exact absurd (hstack u) hu
    · intro u x hx
      simp only [hstack] at hx
      cases hx
    · intro a d b he hd
      cases a with
      | nil =>
        simp only [List.nil_append, List.cons.injEq] at he
        obtain ⟨rfl, rfl⟩ := he
        have := c.call
        simp only at hd
        rw [hd] at this
        cases this
      | cons x a =>
        simp only [List.cons_append, List.cons.injEq] at he
        exact i.past a d b he.2 hd
  · obtain ⟨hcall, s1, q, h3, h4, h5⟩ := alone_next h1 hret
    refine ⟨{ m with mem := m.mem.run t f.prog.ops, sh := s1, stack := HB.put m.stack t [{ f with prog := q }] },
      by rw [act_next hret hcall, h3]; rfl,
      ⟨h5.trans i.len, i.room, i.nums.top c.stack rfl rfl rfl rfl i.nums.log,
        .inr ⟨t, { f with prog := q }, ⟨?_, ?_, c.call, c.busy, all_run c.knows, s', h4, h2⟩, hroom⟩, i.past⟩⟩
    · simp
    · intro u hu
      simp only [put_ne _ _ hu]
      exact c.others u hu

theorem inv_step (hinj : ∀ a b, W.hash a = W.hash b → a = b) (i : Inv sources m) (hg : Careful sources m l)
    (hs : step m l = some m') : Inv sources m' := by
  cases l with
  | call t c =>
    simp only [step] at hs
    split at hs
    · rename_i hp
      cases hs
      have hlog : ∀ e ∈ (c.starts m.count).map (fun e => (t, e)) ++ m.log, e.2.num < m.count + 1 := by
        intro e he
        rcases List.mem_append.1 he with he | he
        · obtain ⟨e', he', rfl⟩ := List.mem_map.1 he
          have := starts_num he'
          simp only
          omega
        · have := i.nums.log e he
          omega
      have hab : ∀ n, n ≠ m.count → aboutLog n ((c.starts m.count).map (fun e => (t, e)) ++ m.log) = aboutLog n m.log := by
        intro n hn
        unfold aboutLog
        rw [List.filter_append]
        have : (List.filter (fun e : Nat × Ev W => e.2.num == n) ((c.starts m.count).map fun e => (t, e))) = [] := by
          rw [List.filter_eq_nil_iff]
          intro e he
          obtain ⟨e', he', rfl⟩ := List.mem_map.1 he
          simp only [starts_num he', beq_iff_eq]
          omega
        rw [this, List.nil_append]
      have hpast : ∀ a d b, m.hist = a ++ d :: b → d.call.changes = false →
          aboutLog d.num ((c.starts m.count).map (fun e => (t, e)) ++ m.log) =
            (d.call.expect (registered b) d.num).map fun e => (d.who, e) := by
        intro a d b he hd
        have := i.nums.hist d (by rw [he]; simp)
        rw [hab d.num (by omega)]
        exact i.past a d b he hd
      simp only [Careful] at hg
      cases hc : c.changes with
      | true =>
        rw [hc, if_pos rfl] at hg
        obtain ⟨h1, h2, h3⟩ := hg
        have hfit : Fits m.sh (registered m.hist) := by
          rcases i.mode with c | ⟨u, f, c, _⟩
          · exact c.fits
          · have := c.stack
            rw [h1 u] at this
            cases this
        have hwill : (∃ s', (c.prog m.sh.arr.length m.count).alone m.sh = some s' ∧
            Fits s' (registered (⟨t, m.count, c, m.count + 1⟩ :: m.hist))) ∧
            (registered (⟨t, m.count, c, m.count + 1⟩ :: m.hist)).length ≤ sources := by
          cases c with
          | make p =>
            have hp' : p ∉ registered m.hist := fun h => by
              have := hp.2
              simp [Call.possible, (hfit.live p).2 h] at this
            obtain ⟨s', e1, e2, _⟩ := alone_make (W := W) hfit (by rw [i.len]; exact h3) hp'
            exact ⟨⟨s', e1, e2⟩, by simp [registered]; omega⟩
          | drop p =>
            obtain ⟨s', e1, e2, _⟩ := alone_drop (W := W) hfit (by rw [i.len]; exact h3) ((hfit.live p).1 hp.2) m.count
            exact ⟨⟨s', e1, e2⟩, Nat.le_trans (List.length_filter_le _ _) i.room⟩
          | send | cast => cases hc
        refine ⟨i.len, i.room, i.nums.push rfl rfl rfl rfl hlog, .inr ⟨t, ⟨m.count, c, c.prog m.sh.arr.length m.count, false⟩,
          ⟨?_, ?_, hc, rfl, h2, hwill.1⟩, hwill.2⟩, hpast⟩
        · simp [h1 t]
        · intro u hu
          simp only [put_ne _ _ hu, h1 u]
      | false =>
        rw [hc, if_neg (by simp)] at hg
        have hcalm : Calm m := by
          rcases i.mode with c | ⟨u, f, c, _⟩
          · exact c
          · have := hg.1 u f (by rw [c.stack]; simp)
            rw [c.call] at this
            cases this
        have hin : ∀ u, ∀ x ∈ HB.put m.stack t (⟨m.count, c, c.prog m.sh.arr.length m.count, false⟩ :: m.stack t) u,
            (u = t ∧ x = ⟨m.count, c, c.prog m.sh.arr.length m.count, false⟩) ∨ x ∈ m.stack u := by
          intro u x hx
          by_cases e : u = t
          · subst e
            rw [put_same] at hx
            rcases List.mem_cons.1 hx with rfl | hx
            · exact .inl ⟨rfl, rfl⟩
            · exact .inr hx
          · rw [put_ne _ _ e] at hx
            exact .inr hx
        refine ⟨i.len, i.room, i.nums.push rfl rfl rfl rfl hlog, .inl ⟨?_, hcalm.fits, ?_, ?_⟩, hpast⟩
        · intro u x hx
          rcases hin u x hx with ⟨_, rfl⟩ | hx
          · exact hc
          · exact hcalm.calls u x hx
        · intro u hu
          by_cases e : u = t
          · subst e; exact hg.2
          · simp only [put_ne _ _ e] at hu
            exact hcalm.knows u hu
        · intro u x hx
          rcases hin u x hx with ⟨rfl, rfl⟩ | hx
          · obtain ⟨rest, e1, e2⟩ := trace_prog hinj hcalm.fits (by rw [i.len]; exact i.room) m.count hc hp.2
            refine ⟨rest, e1, ?_⟩
            simp only
            rw [← e2]
            have h1 : aboutLog m.count m.log = [] := aboutLog_nil fun e he => by have := i.nums.log e he; omega
            have h2 : aboutLog m.count ((c.starts m.count).map (fun e => (u, e)) ++ m.log) =
                (c.starts m.count).map fun e => (u, e) := by
              unfold aboutLog at h1 ⊢
              rw [List.reverse_eq_nil_iff] at h1
              rw [List.filter_append, h1, List.append_nil]
              cases c with
              | make | drop => cases hc
              | send | cast => simp [Call.starts, Ev.num]
            rw [h2, List.map_append]
          · simp only
            rw [hab x.num (by have := i.nums.frame u x hx; omega)]
            exact hcalm.frame u x hx
    · cases hs
  | act t =>
    simp only [step] at hs
    cases hf : m.stack t with
    | nil => rw [hf] at hs; cases hs
    | cons f fs =>
      rw [hf] at hs
      simp only at hs
      cases hb : f.busy with
      | true => rw [hb] at hs; cases hs
      | false =>
        rw [hb] at hs
        simp only [Bool.false_eq_true, if_false] at hs
        rcases i.mode with c | ⟨u, g, c, hr⟩
        · obtain ⟨m1, h1, h2, _⟩ := calm_act i c hf
          rw [h1] at hs
          cases hs
          exact h2
        · have hu : u = t := Classical.byContradiction fun e => by
            have := c.others t fun h => e h.symm
            rw [hf] at this
            cases this
          subst hu
          have := c.stack
          rw [hf] at this
          cases this
          obtain ⟨m1, h1, h2⟩ := lone_act i c hr
          rw [h1] at hs
          cases hs
          exact h2
  | back t =>
    simp only [step] at hs
    cases hf : m.stack t with
    | nil => rw [hf] at hs; cases hs
    | cons f fs =>
      rw [hf] at hs
      simp only at hs
      cases hb : f.busy with
      | false => rw [hb] at hs; cases hs
      | true =>
        rw [hb] at hs
        simp only [if_true, Option.some.injEq] at hs
        subst hs
        have hft : f ∈ m.stack t := by rw [hf]; exact List.mem_cons_self
        rcases i.mode with c | ⟨u, g, c, hr⟩
        · refine ⟨i.len, i.room, i.nums.top hf rfl rfl rfl rfl i.nums.log, .inl ⟨?_, c.fits, ?_, ?_⟩, i.past⟩
          · intro u x hx
            rcases mem_top hf hx with ⟨rfl, rfl⟩ | ⟨hx, _⟩
            · exact c.calls u f hft
            · exact c.calls u x hx
          · intro u hu
            refine c.knows u fun e' => hu ?_
            have : u ≠ t := fun e'' => by rw [e'', hf] at e'; cases e'
            simp only [put_ne _ _ this, e']
          · intro u x hx
            rcases mem_top hf hx with ⟨rfl, rfl⟩ | ⟨hx, _⟩
            · exact c.frame u f hft
            · exact c.frame u x hx
        · have hu : u = t := Classical.byContradiction fun e => by
            have := c.others t fun h => e h.symm
            rw [hf] at this
            cases this
          subst hu
          have := c.stack
          rw [hf] at this
          cases this
          rw [c.busy] at hb
          cases hb
  | rel t n =>
    simp only [step] at hs
    split at hs
    · cases hs
      rcases i.mode with c | ⟨u, g, c, hr⟩
      · exact ⟨i.len, i.room, ⟨i.nums.log, i.nums.frame, i.nums.hist, i.nums.inner, i.nums.outer, i.nums.past⟩,
          .inl ⟨c.calls, c.fits, fun u hu => changes_run (os := [.rel n]) (by simp [Reads]) (c.knows u hu), c.frame⟩, i.past⟩
      · refine ⟨i.len, i.room, ⟨i.nums.log, i.nums.frame, i.nums.hist, i.nums.inner, i.nums.outer, i.nums.past⟩,
          .inr ⟨u, g, ⟨c.stack, c.others, c.call, c.busy, fun a ha => ?_, c.will⟩, hr⟩, i.past⟩
        exact Nat.le_trans (c.knows a ha) (Mem.clk_run _ _ _ _ _)
    · cases hs
  | acq t n =>
    simp only [step] at hs
    split at hs
    · cases hs
      rcases i.mode with c | ⟨u, g, c, hr⟩
      · exact ⟨i.len, i.room, ⟨i.nums.log, i.nums.frame, i.nums.hist, i.nums.inner, i.nums.outer, i.nums.past⟩,
          .inl ⟨c.calls, c.fits, fun u hu => changes_run (os := [.acq n]) (by simp [Reads]) (c.knows u hu), c.frame⟩, i.past⟩
      · refine ⟨i.len, i.room, ⟨i.nums.log, i.nums.frame, i.nums.hist, i.nums.inner, i.nums.outer, i.nums.past⟩,
          .inr ⟨u, g, ⟨c.stack, c.others, c.call, c.busy, fun a ha => ?_, c.will⟩, hr⟩, i.past⟩
        exact Nat.le_trans (c.knows a ha) (Mem.clk_run _ _ _ _ _)
    · cases hs

theorem run_inv (hinj : ∀ a b, W.hash a = W.hash b → a = b) {sources : Nat} (r : Run sources (Careful sources) m) :
    Inv sources m := by
  induction r with
  | start => exact inv_new sources
  | step m m' l _ hg hs ih => exact inv_step hinj ih hg hs

/-! ### C132: calls that send may overlap -/

theorem no_race_of {t : Nat} {p : Prog W} (h : (∀ a ∈ m.mem.log, a.time ≤ m.mem.clk t a.who) ∨
    Reads p.ops ∧ ∀ a ∈ m.mem.log, a.wr = true → a.time ≤ m.mem.clk t a.who) : ¬ m.mem.Races (fun _ => True) t p.ops := by
  intro hr
  rcases ops_cases p with ho | ⟨loc, wr, ho⟩
  · rw [ho] at hr
    exact hr
  · rw [ho] at hr
    rcases hr with ⟨_, a, ha, _, hw, hlt⟩ | hr
    · rcases h with h | ⟨h1, h2⟩
      · have := h a ha
        omega
      · have := h1 loc wr 0 (by rw [ho]; simp)
        subst this
        have := h2 a ha (by simpa using hw)
        omega
    · exact hr

/-- **C132.** If users take care, no access of the mediator is a data race. -/
theorem C132_no_race (hinj : ∀ a b, W.hash a = W.hash b → a = b) (r : Run sources (Careful sources) m) (l : Lbl W) :
    ¬ Race m l := by
  have i := run_inv hinj r
  cases l with
  | call | back | rel | acq => simp [Race, ops, Mem.Races]
  | act t =>
    unfold Race ops
    simp only [Lbl.who]
    cases hf : m.stack t with
    | nil => simp [Mem.Races]
    | cons f fs =>
      refine no_race_of ?_
      rcases i.mode with c | ⟨u, g, c, _⟩
      · obtain ⟨rest, h1, _⟩ := c.frame t f (by rw [hf]; simp)
        exact .inr ⟨trace_reads h1, c.knows t (by rw [hf]; simp)⟩
      · have hu : u = t := Classical.byContradiction fun e => by
          have := c.others t fun h => e h.symm
          rw [hf] at this
          cases this
        subst hu
        exact .inl c.knows

/-- **C132.** If users take care, nothing is undefined: every call that is going on can make its next step, or its callback can
return. -/
theorem C132_goes_on (hinj : ∀ a b, W.hash a = W.hash b → a = b) (r : Run sources (Careful sources) m) {t : Nat}
    (ht : m.stack t ≠ []) : (∃ m', step m (.act t) = some m') ∨ ∃ m', step m (.back t) = some m' := by
  have i := run_inv hinj r
  cases hf : m.stack t with
  | nil => exact absurd hf ht
  | cons f fs =>
    cases hb : f.busy with
    | true => exact .inr ⟨_, by simp only [step, hf, hb, if_true]; rfl⟩
    | false =>
      left
      simp only [step, hf, hb, Bool.false_eq_true, if_false]
      rcases i.mode with c | ⟨u, g, c, hr⟩
      · obtain ⟨m1, h1, _⟩ := calm_act i c hf
        exact ⟨m1, h1⟩
      · have hu : u = t := Classical.byContradiction fun e => by
          have := c.others t fun h => e h.symm
          rw [hf] at this
          cases this
        subst hu
        have := c.stack
        rw [hf] at this
        cases this
        obtain ⟨m1, h1, _⟩ := lone_act i c hr
        exact ⟨m1, h1⟩

/-- **C132.** The calls that `hist` has are those that have returned: a call is added when it returns, as its thread made it and with
the number it got when it began, and only then. -/
theorem C132_recorded {l : Lbl W} (hs : step m l = some m') :
    (∀ t f fs, m.stack t = f :: fs → m'.stack t = fs → m'.hist = ⟨t, f.num, f.call, m.count⟩ :: m.hist) ∧
    ((∀ t, (m.stack t).length ≤ (m'.stack t).length) → m'.hist = m.hist) ∧
    (∀ t c, l = .call t c → m'.count = m.count + 1 ∧
      ∃ f, m'.stack t = f :: m.stack t ∧ f.num = m.count ∧ f.call = c) ∧
    (∀ t, (m'.stack t).length = (m.stack t).length →
      (m'.stack t).map (fun f => (f.num, f.call)) = (m.stack t).map fun f => (f.num, f.call)) := by
  have put_at : ∀ {t u : Nat} {x : List (Frame W)}, HB.put m.stack t x u = if u = t then x else m.stack u := fun {t u x} => rfl
  have same : m'.stack = m.stack → m'.hist = m.hist → (∀ t c, l ≠ .call t c) →
      (∀ t f fs, m.stack t = f :: fs → m'.stack t = fs → m'.hist = ⟨t, f.num, f.call, m.count⟩ :: m.hist) ∧
      ((∀ t, (m.stack t).length ≤ (m'.stack t).length) → m'.hist = m.hist) ∧
      (∀ t c, l = .call t c → m'.count = m.count + 1 ∧
        ∃ f, m'.stack t = f :: m.stack t ∧ f.num = m.count ∧ f.call = c) ∧
      (∀ t, (m'.stack t).length = (m.stack t).length →
        (m'.stack t).map (fun f => (f.num, f.call)) = (m.stack t).map fun f => (f.num, f.call)) := by
    intro h1 h2 h3
    rw [h1]
    refine ⟨fun t f fs e1 e2 => ?_, fun _ => h2, fun t c e => absurd e (h3 t c), fun t _ => rfl⟩
    rw [e2] at e1
    exact absurd (congrArg List.length e1) (by simp)
  have top : ∀ (t : Nat) (f g : Frame W) (fs : List (Frame W)), m.stack t = f :: fs → g.num = f.num → g.call = f.call →
      m'.stack = HB.put m.stack t (g :: fs) → m'.hist = m.hist → (∀ t c, l ≠ .call t c) →
      (∀ t f fs, m.stack t = f :: fs → m'.stack t = fs → m'.hist = ⟨t, f.num, f.call, m.count⟩ :: m.hist) ∧
      ((∀ t, (m.stack t).length ≤ (m'.stack t).length) → m'.hist = m.hist) ∧
      (∀ t c, l = .call t c → m'.count = m.count + 1 ∧
        ∃ f, m'.stack t = f :: m.stack t ∧ f.num = m.count ∧ f.call = c) ∧
      (∀ t, (m'.stack t).length = (m.stack t).length →
        (m'.stack t).map (fun f => (f.num, f.call)) = (m.stack t).map fun f => (f.num, f.call)) := by
    intro t f g fs h1 hn hc h2 h3 h4
    rw [h2]
    refine ⟨fun u f' fs' e1 e2 => ?_, fun _ => h3, fun t c e => absurd e (h4 t c), fun u _ => ?_⟩
    · rw [put_at] at e2
      split at e2
      · rename_i e
        rw [e, h1] at e1
        cases e1
        exact absurd (congrArg List.length e2) (by simp)
      · rw [e2] at e1
        exact absurd (congrArg List.length e1) (by simp)
    · rw [put_at]
      split
      · rename_i e
        rw [e, h1, List.map_cons, List.map_cons, hn, hc]
      · rfl
  cases l with
  | call t c =>
    simp only [step] at hs
    split at hs
    · cases hs
      refine ⟨fun u f fs e1 e2 => ?_, fun _ => rfl, fun u d e => ?_, fun u e => ?_⟩
      · simp only [put_at] at e2
        split at e2
        · rename_i e
          rw [e] at e1
          rw [e1] at e2
          exact absurd (congrArg List.length e2) (by simp; omega)
        · rw [e2] at e1
          exact absurd (congrArg List.length e1) (by simp)
      · cases e
        exact ⟨rfl, ⟨m.count, c, c.prog m.sh.arr.length m.count, false⟩, (by simp only [put_at, if_true]), rfl, rfl⟩
      · simp only [put_at] at e ⊢
        split at e
        · rename_i eq
          rw [eq] at e
          simp at e
        · rename_i ne
          rw [if_neg ne]
    · cases hs
  | rel t n =>
    simp only [step] at hs
    split at hs
    · cases hs
      exact same rfl rfl (by simp)
    · cases hs
  | acq t n =>
    simp only [step] at hs
    split at hs
    · cases hs
      exact same rfl rfl (by simp)
    · cases hs
  | back t =>
    simp only [step] at hs
    split at hs
    · rename_i f fs hf
      split at hs
      · cases hs
        exact top t f { f with busy := false } fs hf rfl rfl rfl rfl (by simp)
      · cases hs
    · cases hs
  | act t =>
    simp only [step] at hs
    split at hs
    · rename_i f fs hf
      split at hs
      · cases hs
      · unfold act at hs
        dsimp only at hs
        split at hs
        · cases hs
          refine ⟨fun u f' fs' e1 e2 => ?_, fun h => ?_, by simp, fun u e => ?_⟩
          · simp only [put_at] at e2
            split at e2
            · rename_i e
              rw [e, hf] at e1
              cases e1
              rw [e]
            · rw [e2] at e1
              exact absurd (congrArg List.length e1) (by simp)
          · have := h t
            simp only [put_at, if_true, hf, List.length_cons] at this
            omega
          · simp only [put_at] at e ⊢
            split at e
            · rename_i eq
              rw [eq, hf] at e
              simp at e
            · rename_i ne
              rw [if_neg ne]
        · cases hs
          exact top t f { f with prog := _, busy := true } fs hf rfl rfl rfl rfl (by simp)
        · rw [Option.map_eq_some_iff] at hs
          obtain ⟨r, _, rfl⟩ := hs
          exact top t f { f with prog := r.2 } fs hf rfl rfl rfl rfl (by simp)
    · cases hs

/-- **C132.** If users take care, all that happens under the number of a message sent by a module is its sending, the manager's hook
and its deliveries, exactly once to each module that is registered, receives the type and does not send it, in the order of
registration, and in the thread that sends. -/
theorem C132_sent (hinj : ∀ a b, W.hash a = W.hash b → a = b) (r : Run sources (Careful sources) m) {a b : List (Done W)}
    {d : Done W} (hd : m.hist = a ++ d :: b) {p : Nat} {bytes : List Byte} (hc : d.call = .send p bytes) :
    m.about d.num = (Ev.start d.num (some p) (W.sends p) bytes :: .hook d.num (W.hash (W.sends p)) bytes ::
      (if bytes.length = (W.pod (W.sends p)).size then
        ((registered b).filter fun q => decide (W.sends p ∈ W.recvs q ∧ W.sends q ≠ W.sends p)).map fun q =>
          .recv d.num q (W.sends p) ((W.pod (W.sends p)).dec bytes)
      else [])).map fun e => (d.who, e) := by
  have := (run_inv hinj r).past a d b hd (by rw [hc]; rfl)
  rw [hc] at this
  exact this

/-- **C132** for what the manager sends. -/
theorem C132_cast (hinj : ∀ a b, W.hash a = W.hash b → a = b) (r : Run sources (Careful sources) m) {a b : List (Done W)}
    {d : Done W} (hd : m.hist = a ++ d :: b) {t : Nat} {v : W.Val t} (hc : d.call = .cast t v) :
    m.about d.num = (Ev.start d.num none t ((W.pod t).enc v) ::
      ((registered b).filter fun q => decide (t ∈ W.recvs q ∧ W.sends q ≠ t)).map fun q => .recv d.num q t v).map
        fun e => (d.who, e) := by
  have := (run_inv hinj r).past a d b hd (by rw [hc]; rfl)
  rw [hc] at this
  simp only [Call.expect, deliveries, (W.pod t).enc_length, if_true, (W.pod t).dec_enc] at this
  exact this

/-- **C132.** If users take care, then whenever no module is being constructed or destroyed exactly the modules that have been
constructed and not destroyed are registered, in the order of construction, and they are those that exist. -/
theorem C132_registered (hinj : ∀ a b, W.hash a = W.hash b → a = b) (r : Run sources (Careful sources) m)
    (h : ∀ t, ∀ f ∈ m.stack t, f.call.changes = false) :
    m.sh.arr.take m.sh.cnt = (registered m.hist).map some ∧ (∀ p, m.sh.live p = true ↔ p ∈ registered m.hist) ∧
      (registered m.hist).Nodup ∧ (registered m.hist).length ≤ sources := by
  have i := run_inv hinj r
  rcases i.mode with c | ⟨u, g, c, _⟩
  · refine ⟨?_, c.fits.live, c.fits.nodup, i.room⟩
    have hlen := i.len
    have hroom := i.room
    apply List.ext_getElem?
    intro j
    rw [List.getElem?_take, c.fits.cnt, List.getElem?_map]
    by_cases hj : j < (registered m.hist).length
    · rw [if_pos hj, c.fits.at_ j hj, List.getElem?_eq_getElem hj]
      rfl
    · rw [if_neg hj, List.getElem?_eq_none (by omega)]
      rfl
  · have := h u g (by rw [c.stack]; simp)
    rw [c.call] at this
    cases this

/-! ### C133: the order of messages -/

theorem step_log (i : Inv sources m) (hs : step m l = some m') :
    ∃ new, m'.log = new ++ m.log ∧ (∀ x ∈ new, ∀ d ∈ m.hist, x.2.num ≠ d.num) ∧
      (m'.hist = m.hist ∨ new = [] ∧ ∃ d, m'.hist = d :: m.hist ∧ d.upto = m.count) := by
  cases l with
  | call t c =>
    simp only [step] at hs
    split at hs
    · cases hs
      refine ⟨_, rfl, fun x hx d hd => ?_, .inl rfl⟩
      obtain ⟨e, he, rfl⟩ := List.mem_map.1 hx
      have h1 := starts_num he
      have h2 := i.nums.hist d hd
      simp only
      omega
    · cases hs
  | back t =>
    simp only [step] at hs
    split at hs
    · split at hs
      · cases hs; exact ⟨[], rfl, by simp, .inl rfl⟩
      · cases hs
    · cases hs
  | rel t n | acq t n =>
    simp only [step] at hs
    split at hs
    · cases hs; exact ⟨[], rfl, by simp, .inl rfl⟩
    · cases hs
  | act t =>
    simp only [step] at hs
    cases hf : m.stack t with
    | nil => rw [hf] at hs; cases hs
    | cons f fs =>
      rw [hf] at hs
      simp only at hs
      split at hs
      · cases hs
      have hft : f ∈ m.stack t := by rw [hf]; exact List.mem_cons_self
      by_cases hret : f.prog = .ret
      · simp only [act, hret, Option.some.injEq] at hs
        subst hs
        exact ⟨[], rfl, by simp, .inr ⟨rfl, _, rfl, rfl⟩⟩
      · by_cases hcall : ∃ e k, f.prog = .call e k
        · obtain ⟨e, k, hcall⟩ := hcall
          simp only [act, hcall, Option.some.injEq] at hs
          subst hs
          refine ⟨[(t, e)], rfl, fun x hx d hd => ?_, .inl rfl⟩
          obtain rfl := List.mem_singleton.1 hx
          have hen : e.num = f.num := by
            rcases i.mode with c | ⟨u, g, c, _⟩
            · obtain ⟨rest, h1, h2⟩ := c.frame t f hft
              rw [hcall] at h1
              simp only [Prog.trace, Option.map_eq_some_iff] at h1
              obtain ⟨rest', h1, rfl⟩ := h1
              have : (t, e) ∈ (f.call.expect (registered m.hist) f.num).map fun e => (t, e) := by
                rw [← h2]; simp
              obtain ⟨e', he', h3⟩ := List.mem_map.1 this
              cases h3
              exact expect_num he'
            · have hu : u = t := Classical.byContradiction fun e => by
                have := c.others t fun h => e h.symm
                rw [hf] at this
                cases this
              subst hu
              have := c.stack
              rw [hf] at this
              cases this
              obtain ⟨s', h1, _⟩ := c.will
              exact absurd hcall ((alone_next h1 hret).1 e k)
          simp only [hen]
          exact i.nums.past t f hft d hd
        · have hcall' : ∀ e k, f.prog ≠ .call e k := fun e k h => hcall ⟨e, k, h⟩
          rw [act_next hret hcall', Option.map_eq_some_iff] at hs
          obtain ⟨r, _, rfl⟩ := hs
          exact ⟨[], rfl, by simp, .inl rfl⟩

/-- **C133, as far as it holds.** If users take care and one call returns before another one begins, then all that happens under the
number of the first comes before all that happens under the number of the second, in particular at every module that gets both
messages.  (`log` has the newest event first; `upto` is how many calls had begun when the call returned.)  What is missing is
calls that overlap: see `C133_overlap_refuted` and `C133_nested_refuted`. -/
theorem C133_order_partial (hinj : ∀ a b, W.hash a = W.hash b → a = b) (r : Run sources (Careful sources) m) {d : Done W}
    (hd : d ∈ m.hist) {A B : List (Nat × Ev W)} {e : Nat × Ev W} (hl : m.log = A ++ e :: B) (he : e.2.num = d.num)
    {x : Nat × Ev W} (hx : x ∈ B) : x.2.num < d.upto := by
  induction r generalizing d A e with
  | start => cases hd
  | step m m' l r hg hs ih =>
    have i := run_inv hinj r
    obtain ⟨new, h1, h2, h3⟩ := step_log i hs
    rcases h3 with h3 | ⟨rfl, d', h3, h4⟩
    · rw [h3] at hd
      rw [h1] at hl
      rcases List.append_eq_append_iff.1 hl with ⟨a', e1, e2⟩ | ⟨c', e1, e2⟩
      · exact ih hd e2 he
      · cases c' with
        | nil =>
          simp only [List.nil_append] at e2
          exact ih hd (A := []) e2.symm he
        | cons y c' =>
          simp only [List.cons_append, List.cons.injEq] at e2
          obtain ⟨rfl, e2⟩ := e2
          exact absurd he (h2 e (by rw [e1]; simp) d hd)
    · rw [h3] at hd
      rw [h1, List.nil_append] at hl
      rcases List.mem_cons.1 hd with rfl | hd
      · rw [h4]
        exact i.nums.log x (by rw [hl]; simp [hx])
      · exact ih hd hl he

end Verif.Mediator.Conc
