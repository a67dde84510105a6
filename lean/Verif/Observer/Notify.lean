import Verif.Observer.Inv
/-! Notification and clearing with callbacks that do not remove observers. -/
namespace Verif.Observer
open Verif

variable {V U : Type}

theorem exec_add {H : Handlers V U} {max : Nat} (n : Nat) {s : St V U} (h : Inv max s) (o : Nat) :
    ∃ s' e, exec H (n + 1) s (.add o) = .ok (s', e) ∧ s'.log = s.log ++ [.ret (.add o) e] := by
  simp only [exec, execStep, add_spec h.base o, Res.ok_bind, Res.pure_eq]
  by_cases hc : s.count < max ∧ o ∉ regs max s.log
  · rw [if_pos hc]
    exact ⟨_, _, rfl, rfl⟩
  · rw [if_neg hc]
    exact ⟨_, _, rfl, rfl⟩

theorem exec_notify_inside {H : Handlers V U} {max : Nat} (n : Nat) {s : St V U} (h : Inv max s)
    (hi : s.inside = true) (v : V) : exec H (n + 1) s (.notify v)
      = .ok (s.emit (.ret (.notify v) .notifyRecursionDetected), .notifyRecursionDetected) := by
  have h1 := h.base.len
  have h2 := h.base.count_le
  simp only [exec, execStep, notifyObservers]
  rw [if_neg (by omega), if_pos hi]
  rfl

theorem exec_notify_outside {H : Handlers V U} {max : Nat} (n : Nat) {s : St V U} (h : Inv max s)
    (hi : s.inside = false) (v : V) : exec H (n + 1) s (.notify v) =
      (notifyLoop (exec H n) H v 0 (regs max s.log).length { s with inside := true } >>= fun t =>
        .ok (({ t with inside := false } : St V U).emit (.ret (.notify v) .ok), .ok)) := by
  have h1 := h.base.len
  have h2 := h.base.count_le
  rw [← h.base.cnt]
  rw [exec.eq_2]
  simp only [execStep, notifyObservers]
  rw [if_neg (by omega), if_neg (by simp [hi])]
  cases notifyLoop (exec H n) H v 0 s.count { s with inside := true } <;> rfl

theorem exec_clear {H : Handlers V U} {max : Nat} (n : Nat) {s : St V U} (h : Inv max s) :
    exec H (n + 1) s .clear =
      (clearLoop (exec H n) H 0 (regs max s.log).length s >>= fun t =>
        .ok (({ t with count := 0 } : St V U).emit (.ret .clear .ok), .ok)) := by
  rw [← h.base.cnt]
  rw [exec.eq_2]
  simp only [execStep, clearObservers]
  cases clearLoop (exec H n) H 0 s.count s <;> rfl

theorem regs_append_add (max : Nat) (log : List (Ev V)) (o : Nat) (e : Err) :
    ∃ added, regs max (log ++ [.ret (.add o) e]) = regs max log ++ added := by
  rw [regs_snoc]
  simp only [specEv, specNext]
  split
  · exact ⟨[o], rfl⟩
  · exact ⟨[], by simp⟩

/-- A callback program that makes no calls only leaves a user state. -/
theorem Prog.Only.silent {p : Prog V U} (h : p.Only fun _ => False) :
    ∃ u, ∀ (ex : St V U → Op V → Res (St V U × Err)) (s : St V U), runProg ex p s = .ok { s with user := u } := by
  induction p with
  | ret u => exact ⟨u, fun _ _ => rfl⟩
  | set u k ih =>
    obtain ⟨w, hw⟩ := ih h
    exact ⟨w, fun ex s => hw ex { s with user := u }⟩
  | call op k => exact h.1.elim

/-- A callback program that only adds and notifies, run during a notification: it terminates,
delivers nothing and at most appends subscriptions. -/
theorem runProg_adds {H : Handlers V U} {max : Nat} (n : Nat) (p : Prog V U) (s : St V U)
    (h : Inv max s) (hi : s.inside = true) (hp : p.Only Op.AddOrNotify) :
    ∃ s' new added, runProg (exec H (n + 1)) p s = .ok s' ∧ s'.log = s.log ++ new ∧
      entered new = [] ∧ disconnected new = [] ∧ regs max s'.log = regs max s.log ++ added ∧
      (p.Only Op.IsNotify → added = []) := by
  induction p generalizing s with
  | ret u => exact ⟨_, [], [], rfl, by simp, rfl, rfl, by simp, fun _ => rfl⟩
  | set u k ih =>
    exact ih { s with user := u } ⟨⟨h.base.len, h.base.lst, h.base.cnt, h.base.nodup, h.base.logok⟩, h.dep⟩ hi hp
  | call op k ih =>
    obtain ⟨hop, hk⟩ := hp
    have hgood := exec_good H max (n + 1) s op h
    cases op with
    | remove o => exact hop.elim
    | clear => exact hop.elim
    | add o =>
      obtain ⟨t, e, ht, hlog⟩ := exec_add (H := H) n h o
      obtain ⟨i1, k1, _⟩ := hgood.2 t e ht
      obtain ⟨s', new, added, hr, hl, he, hd, hg, _⟩ :=
        ih e t.user t i1 (by rw [k1.inside]; exact hi) (hk e t.user)
      obtain ⟨ad, had⟩ := regs_append_add max s.log o e
      refine ⟨s', .ret (.add o) e :: new, ad ++ added, ?_, ?_, ?_, ?_, ?_, ?_⟩
      · simp only [runProg, ht, Res.ok_bind, hr]
      · rw [hl, hlog]; simp
      · simp [entered, he]
      · simp [disconnected, hd]
      · rw [hg, hlog, had, List.append_assoc]
      · intro h; exact h.1.elim
    | notify v =>
      have ht := exec_notify_inside (H := H) n h hi v
      obtain ⟨i1, k1, _⟩ := hgood.2 _ _ ht
      obtain ⟨s', new, added, hr, hl, he, hd, hg, ha⟩ :=
        ih .notifyRecursionDetected _ _ i1 (by rw [k1.inside]; exact hi) (hk _ _)
      refine ⟨s', .ret (.notify v) .notifyRecursionDetected :: new, added, ?_, ?_, ?_, ?_, ?_, ?_⟩
      · simp only [runProg, ht, Res.ok_bind]
        exact hr
      · rw [hl]; simp [St.emit]
      · simp [entered, he]
      · simp [disconnected, hd]
      · rw [hg]
        simp only [St.emit, regs_snoc, specEv, specNext]
      · intro h
        exact ha (h.2 _ _)

/-- One delivery whose callback only adds and notifies. -/
theorem callData_adds {H : Handlers V U} {max : Nat} (n : Nat) (v : V) (o : Nat) (s : St V U)
    (hb : Base max s) (hi : s.inside = true) (hd : depth s.log = 0)
    (hp : ∀ u, (H.data u o v).Only Op.AddOrNotify) :
    ∃ s' new added, callData (exec H (n + 1)) H v o s = .ok s' ∧ s'.log = s.log ++ new ∧
      entered new = [(s.self, o, v)] ∧ disconnected new = [] ∧
      regs max s'.log = regs max s.log ++ added ∧
      ((∀ u, (H.data u o v).Only Op.IsNotify) → added = []) := by
  have hI : Inv max (s.emit (.enter s.self o v)) := by
    refine ⟨hb.emit_enter hd _ _ _, ?_⟩
    simp [St.emit, depth_snoc, depthEv, hd, hi]
  obtain ⟨t, new, added, hr, hl, he, hdi, hg, ha⟩ := runProg_adds (H := H) n
    (H.data (s.emit (.enter s.self o v)).user o v) _ hI hi (hp _)
  refine ⟨t.emit (.leave o), .enter s.self o v :: new ++ [.leave o], added, ?_, ?_, ?_, ?_, ?_, ?_⟩
  · simp only [callData, hr, Res.ok_bind, Res.pure_eq]
  · simp only [St.emit] at hl ⊢
    rw [hl]; simp
  · rw [entered_append]; simp [entered, he]
  · rw [disconnected_append]; simp [disconnected, hdi]
  · simp only [St.emit, regs_snoc, specEv] at hg ⊢
    exact hg
  · intro h; exact ha (h _)

theorem notifyLoop_split (ex : St V U → Op V → Res (St V U × Err)) (H : Handlers V U) (v : V)
    (a b i : Nat) (s : St V U) :
    notifyLoop ex H v i (a + b) s = (notifyLoop ex H v i a s >>= notifyLoop ex H v (i + a) b) := by
  induction a generalizing i s with
  | zero => simp [notifyLoop]
  | succ a ih =>
    rw [Nat.succ_add]
    simp only [notifyLoop]
    cases deref s i with
    | ub => simp
    | hang => simp
    | ok o =>
      simp only [Res.ok_bind]
      cases callData ex H v o s with
      | ub => simp
      | hang => simp
      | ok t =>
        simp only [Res.ok_bind]
        rw [ih (i + 1) t, Nat.add_right_comm, Nat.add_assoc]

/-- The loop over observers whose callbacks only add and notify: each of them is called exactly once,
in order. -/
theorem notifyLoop_adds {H : Handlers V U} {max : Nat} (n : Nat) (v : V) (todo : List Nat)
    (pre extra : List Nat) (s : St V U) (hb : Base max s) (hi : s.inside = true)
    (hd : depth s.log = 0) (hl : regs max s.log = pre ++ (todo ++ extra))
    (hp : ∀ o ∈ todo, ∀ u, (H.data u o v).Only Op.AddOrNotify) :
    ∃ s' new added, notifyLoop (exec H (n + 1)) H v pre.length todo.length s = .ok s' ∧
      s'.log = s.log ++ new ∧ entered new = todo.map (fun o => (s.self, o, v)) ∧
      disconnected new = [] ∧ regs max s'.log = regs max s.log ++ added ∧
      ((∀ o ∈ todo, ∀ u, (H.data u o v).Only Op.IsNotify) → added = []) := by
  induction todo generalizing pre extra s with
  | nil => exact ⟨s, [], [], rfl, by simp, rfl, rfl, by simp, fun _ => rfl⟩
  | cons o todo ih =>
    have hslot : s.arr[pre.length]? = some (some o) := by
      rw [hb.slots pre.length (by rw [hb.cnt, hl]; simp), hl]
      simp
    obtain ⟨t, new, added, hr, hlog, he, hdi, hg, ha⟩ :=
      callData_adds (H := H) n v o s hb hi hd (hp o (by simp))
    obtain ⟨b1, d1, k1⟩ := (callData_good (exec_good H max (n + 1)) H v o s hb hi hd).2 t hr
    obtain ⟨s', new', added', hr', hlog', he', hdi', hg', ha'⟩ :=
      ih (pre ++ [o]) (extra ++ added) t b1 (by rw [k1.inside]; exact hi) d1 (by
        rw [hg, hl]; simp) (fun q hq => hp q (by simp [hq]))
    refine ⟨s', new ++ new', added ++ added', ?_, ?_, ?_, ?_, ?_, ?_⟩
    · simp only [List.length_cons, notifyLoop, deref_some hslot, Res.ok_bind, hr]
      rw [List.length_append] at hr'
      exact hr'
    · rw [hlog', hlog, List.append_assoc]
    · rw [entered_append, he, he', k1.self]; simp
    · rw [disconnected_append, hdi, hdi']; rfl
    · rw [hg', hg, List.append_assoc]
    · intro h
      rw [ha (h o (by simp)), ha' (fun q hq => h q (by simp [hq]))]
      rfl

/-- `disconnect` callbacks that call nothing. -/
theorem clearLoop_quiet {H : Handlers V U} {max : Nat}
    (ex : St V U → Op V → Res (St V U × Err)) (todo : List Nat)
    (pre : List Nat) (s : St V U) (hb : Base max s)
    (hl : regs max s.log = pre ++ todo)
    (hp : ∀ o ∈ todo, ∀ u, (H.disconnect u o).Only (fun _ => False)) :
    ∃ s' new, clearLoop ex H pre.length todo.length s = .ok s' ∧
      s'.log = s.log ++ new ∧ entered new = [] ∧
      disconnected new = todo.map (fun o => (s.self, o)) ∧ regs max s'.log = regs max s.log := by
  induction todo generalizing pre s with
  | nil => exact ⟨s, [], rfl, by simp, rfl, rfl, rfl⟩
  | cons o todo ih =>
    have hslot : s.arr[pre.length]? = some (some o) := by
      rw [hb.slots pre.length (by rw [hb.cnt, hl]; simp), hl]
      simp
    obtain ⟨u, hu⟩ := (hp o (by simp) (s.emit (.disc s.self o)).user).silent
    have hb' := hb.emit_disc s.self o
    obtain ⟨s', new, hr, hlog, he, hdi, hg⟩ := ih (pre ++ [o])
      { (s.emit (.disc s.self o)) with user := u }
      ⟨hb'.len, hb'.lst, hb'.cnt, hb'.nodup, hb'.logok⟩ (by
        simp only [St.emit, regs_snoc, specEv]
        rw [hl]; simp) (fun q hq => hp q (by simp [hq]))
    refine ⟨s', .disc s.self o :: new, ?_, ?_, ?_, ?_, ?_⟩
    · simp only [List.length_cons, clearLoop, deref_some hslot, Res.ok_bind, hu]
      rw [List.length_append] at hr
      exact hr
    · rw [hlog]; simp [St.emit]
    · simp [entered, he]
    · simp [disconnected, hdi, St.emit]
    · rw [hg]
      simp only [St.emit, regs_snoc, specEv]

end Verif.Observer
