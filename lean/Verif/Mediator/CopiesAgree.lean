import Verif.Mediator.Copies
import Verif.Mediator.Props
/-!
The model of mediators that are copied (`Copies.lean`) and that of one mediator and its messages (`Model.lean`) agree where both apply: one
manager, modules that are constructed and destroyed but not copied, and callbacks that send nothing.  Either both meet something undefined
at the same operation, or both end, with the same hooks and callbacks called in the same order: `receive` of a module, which `Copies.lean`
records, calls `data` if the module has a version for the type and the length is right (mediator.hpp:162-168, 191-201, 214-250).
-/
namespace Verif.Mediator
open Verif Verif.Data

variable {W : World} {U : Type}

/-- What is called in the user's code (mediator.hpp:201, 342). -/
inductive Call (W : World) where
  | hook (id : Nat) (bytes : List Byte)
  | data (m t : Nat) (v : W.Val t)

/-- The calls in the log of `Model.lean` (no code). -/
def calls (log : List (Ev W)) : List (Call W) :=
  log.filterMap fun
    | .start _ _ _ _ => none
    | .hook _ id b => some (.hook id b)
    | .recv _ m t v => some (.data m t v)

/-- The call of `data` that `receive` of module `m` makes, if any (mediator.hpp:162-168, 191-201). -/
def understood (W : World) (m id : Nat) (bytes : List Byte) : Option (Call W) :=
  match matchType W id (W.recvs m) with
  | none => none
  | some t => (convertField W t bytes).map (.data m t)

/-- The calls in the log of `Copies.lean` (no code). -/
def callsC (W : World) (log : List Copies.Ev) : List (Call W) :=
  log.filterMap fun
    | .hook _ id b => some (.hook id b)
    | .got m id b => understood W m id b

/-- What the program does (mediator.hpp:135, 140, 177-181, 308-319). -/
inductive Act (W : World) where
  | make (m : Nat)
  | drop (m : Nat)
  | send (m : Nat) (bytes : List Byte)
  | cast (t : Nat) (v : W.Val t)

/-- In `Copies.lean`, with the manager at `A` (no code). -/
def Act.toC (A : Nat) : Act W → Copies.Op
  | .make m => .make m (W.hash (W.sends m)) A
  | .drop m => .drop m
  | .send m bytes => .send m bytes
  | .cast t v => .cast A (W.hash t) ((W.pod t).enc v)

/-- In `Model.lean` (no code). -/
def Act.toM : Act W → Op W U
  | .make m => .construct m
  | .drop m => .destroy m
  | .send m bytes => .run (.raw m bytes .ret)
  | .cast t v => .run (.cast t v .ret)

/-- Modules are constructed where there is none, and only existing ones are destroyed or send (no code). -/
def Act.Allowed (l : List Nat) : Act W → Prop
  | .make m => m ∉ l
  | .drop m => m ∈ l
  | .send m _ => m ∈ l
  | .cast _ _ => True

/-- The modules that exist afterwards (no code). -/
def Act.live (l : List Nat) : Act W → List Nat
  | .make m => l ++ [m]
  | .drop m => l.filter (· != m)
  | _ => l

/-- The two states say the same (no code). -/
structure Rel (A : Nat) (l : List Nat) (s : Copies.St) (t : St W U) : Prop where
  nodup : l.Nodup
  knows : Knows t l
  mgr : s.mgrs A = some ⟨t.arr, t.cnt⟩
  mods : ∀ m ∈ l, s.mods m = some ⟨W.hash (W.sends m), A⟩
  none : ∀ m, m ∉ l → s.mods m = none
  log : callsC W s.log = calls t.log

theorem Knows.le {s : St W U} {l : List Nat} (h : Knows s l) : l.length ≤ s.arr.length := by
  cases hl : l.length with
  | zero => omega
  | succ n =>
    have := (List.getElem?_eq_some_iff.mp (h.at_ n (by omega))).1
    omega

/-- Callbacks that change the user's state only. -/
def Handlers.Quiet (H : Handlers W U) : Prop := ∀ u m t v, ∃ u', H u m t v = .ret u'

theorem receive_agree {H : Handlers W U} (hq : H.Quiet) (f k m id : Nat) (bytes : List Byte) (t : St W U) :
    ∃ t', receive (fun u m t v => exec H (f + 1) (H u m t v)) k m id bytes t = .ok t' ∧ t'.arr = t.arr ∧ t'.cnt = t.cnt ∧
      calls t'.log = calls t.log ++ (understood W m id bytes).toList := by
  unfold receive understood
  cases matchType W id (W.recvs m) with
  | none => exact ⟨t, rfl, rfl, rfl, by simp⟩
  | some ty =>
    dsimp only
    cases convertField W ty bytes with
    | none => exact ⟨t, rfl, rfl, rfl, by simp⟩
    | some v =>
      obtain ⟨u', hu⟩ := hq t.user m ty v
      refine ⟨{ t.emit (.recv k m ty v) with user := u' }, ?_, rfl, rfl, ?_⟩
      · dsimp only
        rw [hu]
        rfl
      · simp [calls, St.emit, List.filterMap_append]

theorem deliver_agree {H : Handlers W U} (hq : H.Quiet) (f k A id : Nat) (bytes : List Byte) (s : Copies.St) (g : Copies.Mgr) :
    ∀ (n i : Nat) (t : St W U) (log : List Copies.Ev), g.arr = t.arr →
      (∀ j, i ≤ j → j < i + n → ∃ m, t.arr[j]? = some (some m) ∧ s.mods m = some ⟨W.hash (W.sends m), A⟩) →
      callsC W log = calls t.log →
      ∃ log' t', Copies.deliver s g id bytes n i log = .ok log' ∧
        deliver (fun u m t v => exec H (f + 1) (H u m t v)) k id bytes n i t = .ok t' ∧
        t'.arr = t.arr ∧ t'.cnt = t.cnt ∧ callsC W log' = calls t'.log
  | 0, _, t, log, _, _, h => ⟨log, t, rfl, rfl, rfl, rfl, h⟩
  | n + 1, i, t, log, hg, hm, h => by
    obtain ⟨m, h1, h2⟩ := hm i (Nat.le_refl i) (by omega)
    unfold Copies.deliver deliver
    rw [hg, h1]
    dsimp only
    rw [h2]
    dsimp only
    by_cases hid : W.hash (W.sends m) ≠ id
    · rw [if_pos hid, if_pos hid]
      obtain ⟨t1, e1, e2, e3, e4⟩ := receive_agree hq f k m id bytes t
      rw [e1, Res.ok_bind]
      obtain ⟨log', t', f1, f2, f3, f4, f5⟩ := deliver_agree hq f k A id bytes s g n (i + 1) t1 (log ++ [.got m id bytes])
        (hg.trans e2.symm) (fun j hj hj' => by rw [e2]; exact hm j (by omega) (by omega)) (by
          rw [e4, ← h]
          simp only [callsC, List.filterMap_append, List.filterMap_cons, List.filterMap_nil]
          cases understood W m id bytes <;> rfl)
      exact ⟨log', t', f1, f2, f3.trans e2, f4.trans e3, f5⟩
    · rw [if_neg hid, if_neg hid]
      exact deliver_agree hq f k A id bytes s g n (i + 1) t log hg (fun j hj hj' => hm j (by omega) (by omega)) h

theorem Rel.at_ {A : Nat} {l : List Nat} {s : Copies.St} {t : St W U} (h : Rel A l s t) (j : Nat) (hj : j < t.cnt) :
    ∃ m, t.arr[j]? = some (some m) ∧ s.mods m = some ⟨W.hash (W.sends m), A⟩ := by
  have hl : j < l.length := by rw [← h.knows.cnt]; exact hj
  refine ⟨l[j], ?_, h.mods _ (List.getElem_mem hl)⟩
  rw [h.knows.at_ j hl, List.getElem?_eq_getElem hl]

/-- `remove_module` is the same in both models. -/
theorem search_eq (m : Nat) (t : St W U) : ∀ n i,
    Copies.Mgr.search ⟨t.arr, t.cnt⟩ m n i = (do let t ← findRemove m n i t; .ok ⟨t.arr, t.cnt⟩)
  | 0, i => rfl
  | n + 1, i => by
    unfold Copies.Mgr.search findRemove
    dsimp only
    cases t.arr[i]? with
    | none => rfl
    | some p =>
      dsimp only
      by_cases hp : p = some m
      · rw [if_pos hp, if_pos hp]
        cases shift (t.cnt - 1 - i) i t.arr with
        | ok arr =>
          simp only [Res.ok_bind]
          by_cases hc : t.cnt < arr.length
          · rw [if_pos hc, if_pos hc]
            rfl
          · rw [if_neg hc, if_neg hc]
            rfl
        | ub => rfl
        | hang => rfl
      · rw [if_neg hp, if_neg hp]
        exact search_eq m t n (i + 1)

/-- One operation: both meet something undefined or both go on alike. -/
theorem step_agree {H : Handlers W U} (hq : H.Quiet) (f : Nat) {A : Nat} {l : List Nat} {s : Copies.St} {t : St W U}
    (h : Rel A l s t) (a : Act W) (ha : a.Allowed l) :
    (∃ s' t', Copies.exec s (a.toC A) = .ok s' ∧ step H (f + 2) t a.toM = .ok t' ∧ Rel A (a.live l) s' t') ∨
      (Copies.exec s (a.toC A) = .ub ∧ step H (f + 2) t a.toM = .ub) := by
  cases a with
  | make m =>
    have hn := h.none m ha
    simp only [Act.toC, Act.toM, Copies.exec, step, hn, h.mgr, Copies.Mgr.add]
    by_cases hc : t.cnt < t.arr.length
    · left
      obtain ⟨t', e1, e2, _, e3, _⟩ := add_ok l t h.knows (by rw [← h.knows.cnt]; exact hc) m
      rw [if_pos hc, Res.ok_bind, e1]
      refine ⟨_, t', rfl, rfl, ?_⟩
      rw [addModule, if_pos hc] at e1
      cases e1
      refine ⟨?_, e2, by simp [Copies.set], ?_, ?_, h.log⟩
      · exact List.nodup_append.mpr ⟨h.nodup, by simp, by
          intro x hx y hy
          rcases List.mem_singleton.mp hy with rfl
          intro e
          exact ha (e ▸ hx)⟩
      · intro x hx
        dsimp only [Copies.set]
        split
        · rename_i e; rw [e]
        · rename_i e
          exact h.mods x ((List.mem_append.mp hx).resolve_right (by simpa using e))
      · intro x hx
        dsimp only [Copies.set, Act.live] at hx ⊢
        have : x ∉ l ∧ x ≠ m := by simpa using hx
        rw [if_neg this.2]
        exact h.none x this.1
    · right
      rw [if_neg hc, addModule, if_neg hc]
      exact ⟨rfl, rfl⟩
  | drop m =>
    have hn := h.mods m ha
    simp only [Act.toC, Act.toM, Copies.exec, step, hn, h.mgr, Copies.Mgr.remove]
    rw [search_eq]
    have hle := h.knows.le
    rcases Nat.lt_or_eq_of_le hle with hc | hc
    · left
      obtain ⟨t', e1, e2, _, e3, _⟩ := remove_ok l h.nodup t h.knows hc m ha
      have e1' : findRemove m t.cnt 0 t = .ok t' := e1
      rw [e1', e1, Res.ok_bind, Res.ok_bind]
      refine ⟨_, t', rfl, rfl, ⟨h.nodup.filter _, e2, by simp [Copies.set], ?_, ?_, h.log.trans (by rw [e3])⟩⟩
      · intro x hx
        dsimp only [Copies.set, Act.live] at hx ⊢
        have : x ∈ l ∧ x ≠ m := by simpa using hx
        rw [if_neg this.2]
        exact h.mods x this.1
      · intro x hx
        dsimp only [Copies.set, Act.live] at hx ⊢
        split
        · rfl
        · rename_i e
          refine h.none x fun hl => hx ?_
          simp [hl, e]
    · right
      have e1 := remove_full l h.nodup t h.knows hc m ha
      have e1' : findRemove m t.cnt 0 t = .ub := e1
      rw [e1', e1]
      exact ⟨rfl, rfl⟩
  | send m bytes =>
    left
    have hn := h.mods m ha
    simp only [Act.toC, Act.toM, Copies.exec, step, hn, h.mgr, exec, distribute]
    obtain ⟨log', t', e1, e2, e3, e4, e5⟩ := deliver_agree hq f t.count A (W.hash (W.sends m)) bytes s ⟨t.arr, t.cnt⟩ t.cnt 0
      ((({ t with count := t.count + 1 } : St W U).emit (.start t.count (some m) (W.sends m) bytes)).emit
        (.hook t.count (W.hash (W.sends m)) bytes)) (s.log ++ [.hook A (W.hash (W.sends m)) bytes]) rfl
      (fun j _ hj => h.at_ j (by omega)) (by
        have := h.log
        simp only [callsC, calls] at this
        simp [callsC, calls, St.emit, List.filterMap_append, this])
    rw [e1, Res.ok_bind]
    refine ⟨_, { t' with user := t'.user }, rfl, ?_, ?_⟩
    · simp only [St.emit] at e2 ⊢
      rw [e2, Res.ok_bind]
    · exact ⟨h.nodup, ⟨e4.trans h.knows.cnt, fun i hi => by rw [show t'.arr = t.arr from e3]; exact h.knows.at_ i hi⟩,
        by dsimp only; rw [h.mgr, show t'.arr = t.arr from e3, show t'.cnt = t.cnt from e4], h.mods, h.none, e5⟩
  | cast ty v =>
    left
    simp only [Act.toC, Act.toM, Copies.exec, step, h.mgr, exec, castAll]
    obtain ⟨log', t', e1, e2, e3, e4, e5⟩ := deliver_agree hq f t.count A (W.hash ty) ((W.pod ty).enc v) s ⟨t.arr, t.cnt⟩ t.cnt 0
      (({ t with count := t.count + 1 } : St W U).emit (.start t.count none ty ((W.pod ty).enc v))) s.log rfl
      (fun j _ hj => h.at_ j (by omega)) (by
        have := h.log
        simp only [callsC, calls] at this
        simp [callsC, calls, St.emit, List.filterMap_append, this])
    rw [e1, Res.ok_bind]
    refine ⟨_, { t' with user := t'.user }, rfl, ?_, ?_⟩
    · simp only [St.emit] at e2 ⊢
      rw [e2, Res.ok_bind]
    · exact ⟨h.nodup, ⟨e4.trans h.knows.cnt, fun i hi => by rw [show t'.arr = t.arr from e3]; exact h.knows.at_ i hi⟩,
        by dsimp only; rw [h.mgr, show t'.arr = t.arr from e3, show t'.cnt = t.cnt from e4], h.mods, h.none, e5⟩

/-- All of them are allowed when they are done (no code). -/
def AllAllowed : List Nat → List (Act W) → Prop
  | _, [] => True
  | l, a :: as => a.Allowed l ∧ AllAllowed (a.live l) as

/-- A history in `Model.lean` (no code). -/
def runM (H : Handlers W U) (f : Nat) : List (Op W U) → St W U → Res (St W U)
  | [], t => .ok t
  | op :: ops, t => do
    let t ← step H f t op
    runM H f ops t

/-- **Agreement.** For one manager, from its construction on. -/
theorem copies_agree {H : Handlers W U} (hq : H.Quiet) (f A n : Nat) (u : U) (as : List (Act W)) (ha : AllAllowed [] as) :
    (∃ s t, Copies.run (.makeMgr A n :: as.map (·.toC A)) .start = .ok s ∧ runM H (f + 2) (as.map (·.toM)) (St.new n u) = .ok t ∧
      s.mgrs A = some ⟨t.arr, t.cnt⟩ ∧ callsC W s.log = calls t.log) ∨
    (Copies.run (.makeMgr A n :: as.map (·.toC A)) .start = .ub ∧ runM H (f + 2) (as.map (·.toM)) (St.new n u) = .ub) := by
  have key : ∀ (as : List (Act W)) (l : List Nat) (s : Copies.St) (t : St W U), Rel A l s t → AllAllowed l as →
      (∃ s' t', Copies.run (as.map (·.toC A)) s = .ok s' ∧ runM H (f + 2) (as.map (·.toM)) t = .ok t' ∧
        s'.mgrs A = some ⟨t'.arr, t'.cnt⟩ ∧ callsC W s'.log = calls t'.log) ∨
      (Copies.run (as.map (·.toC A)) s = .ub ∧ runM H (f + 2) (as.map (·.toM)) t = .ub) := by
    intro as
    induction as with
    | nil => exact fun l s t h _ => .inl ⟨s, t, rfl, rfl, h.mgr, h.log⟩
    | cons a as ih =>
      intro l s t h ha
      simp only [List.map_cons, Copies.run, runM]
      rcases step_agree hq f h a ha.1 with ⟨s', t', e1, e2, h'⟩ | ⟨e1, e2⟩
      · rw [e1, e2, Res.ok_bind, Res.ok_bind]
        exact ih _ s' t' h' ha.2
      · rw [e1, e2]
        exact .inr ⟨rfl, rfl⟩
  rw [Copies.run]
  refine key as [] _ _ ⟨List.nodup_nil, ⟨rfl, fun i hi => absurd hi (by simp)⟩, ?_, fun m hm => absurd hm (by simp), fun _ _ => rfl, rfl⟩ ha
  simp [Copies.set, St.new]

/-- Two modules of a manager with room for three; the first sends (the second is told), is destroyed, and the second sends (nobody is told). -/
example : AllAllowed (W := Ex.W) [] [.make 1, .make 2, .send 1 [7], .drop 1, .send 2 [1, 2]] := by
  simp [AllAllowed, Act.Allowed, Act.live]

example : ∃ s, Copies.run (.makeMgr 9 3 :: [Act.make 1, .make 2, .send 1 [7, 8], .drop 1, .send 2 [1, 2]].map (Act.toC (W := Ex.W) 9)) .start
    = .ok s ∧ (callsC Ex.W s.log).length = 3 := ⟨_, rfl, by decide +kernel⟩

end Verif.Mediator
