import Verif.Values.Life
/-!
Lifetimes of value observables and of the objects that observe them (C114).
-/
namespace Verif.Values.Life
open Verif Verif.Values

/-- What a client knows without looking into the objects: which observed objects exist, which observables exist and of
which kind they are (a capacity, or dynamic), and which observed objects were added to each and not since removed. -/
structure Client where
  exist : Nat → Bool
  kind : Nat → Option (Option Nat)
  regs : Nat → List Nat

/-- In the beginning. -/
def Client.new : Client := ⟨fun _ => false, fun _ => none, fun _ => []⟩

/-- What the client knows after a command. -/
def Client.next (k : Client) : Cmd → Client
  | .make o _ => { k with exist := set k.exist o true }
  | .destroy o => { k with exist := set k.exist o false }
  | .makeObs a cap => if k.kind a = none then { k with kind := set k.kind a (some cap) } else k
  | .destroyObs a => { k with kind := set k.kind a none, regs := set k.regs a [] }
  | .use a op =>
    match k.kind a with
    | some cap => { k with regs := set k.regs a (Values.next cap (k.regs a) op) }
    | none => k

/-- The client uses only objects that exist, with operands of the right types. -/
def Sensible (T : IntTy) (k : Client) : Cmd → Prop
  | .destroy o => k.exist o = true
  | .destroyObs a => k.kind a ≠ none
  | .use a op => k.kind a ≠ none ∧ op.Typed T ∧ ∀ o b, op = .add o ∨ op = .remove o ∨ op = .onUpdate o b → k.exist o = true
  | _ => True

/-- In addition the client removes each observed object from all observables before it destroys it, and does not remove
observers of a dynamic observable (which does not work, C47). -/
def Careful (T : IntTy) (k : Client) (c : Cmd) : Prop :=
  Sensible T k c ∧ match c with
  | .destroy o => ∀ a, o ∉ k.regs a
  | .use a (.remove o) => k.kind a = some none → o ∉ k.regs a
  | _ => True

/-- Each command of the history satisfies `G`. -/
def All (G : Client → Cmd → Prop) : Client → List Cmd → Prop
  | _, [] => True
  | k, c :: cs => G k c ∧ All G (k.next c) cs

/-- What the client knows after a history. -/
def Client.after (k : Client) (cs : List Cmd) : Client := cs.foldl Client.next k

theorem set_same {β : Type} (f : Nat → β) (i : Nat) (v : β) : set f i v i = v := if_pos rfl
theorem set_ne {β : Type} (f : Nat → β) {i j : Nat} (v : β) (h : j ≠ i) : set f i v j = f j := if_neg h

theorem targets_holds {cap : Option Nat} {r : Reg} {l : List Nat} (h : Holds cap r l) : targets r = l := by
  obtain ⟨-, h⟩ := h
  cases cap with
  | some n =>
    cases r with
    | fixed arr c =>
      obtain ⟨-, -, -, h⟩ := h
      simp [targets, h, List.filterMap_map]
    | dyn vec => exact h.elim
  | none =>
    cases r with
    | fixed arr c => exact h.elim
    | dyn vec => exact h

/-- The objects are as the client thinks. -/
structure Inv (T : IntTy) (k : Client) (w : World) : Prop where
  held : ∀ o, (w.held o).isSome = k.exist o
  gone : ∀ a, w.obj a = none → k.kind a = none ∧ k.regs a = []
  obj : ∀ a x, w.obj a = some x → ∃ cap, k.kind a = some cap ∧ Holds cap x.2 (k.regs a) ∧ T.In x.1 ∧
    ∀ o ∈ k.regs a, k.exist o = true

theorem Inv.new (T : IntTy) : Inv T Client.new World.new := by
  constructor <;> simp [Client.new, World.new]

theorem next_mem {cap : Option Nat} {l : List Nat} {op : Op} {o : Nat} (h : o ∈ Values.next cap l op) :
    o ∈ l ∨ op = .add o := by
  cases op with
  | add p =>
    simp only [Values.next] at h
    split at h
    · exact .inl h
    · rcases List.mem_append.1 h with h | h
      · exact .inl h
      · rw [List.mem_singleton.1 h]; exact .inr rfl
  | remove p =>
    simp only [Values.next, List.mem_filter] at h
    exact .inl h.1
  | clear => cases h
  | _ => exact .inl h

theorem Inv.alive {T : IntTy} {k : Client} {w : World} (h : Inv T k w) {a : Nat} {x : Int × Reg} (hx : w.obj a = some x) :
    ((targets x.2).all fun o => (w.held o).isSome) = true := by
  obtain ⟨cap, -, h2, -, h4⟩ := h.obj a x hx
  rw [targets_holds h2, List.all_eq_true]
  intro o ho
  rw [h.held, h4 o ho]

/-- The operation computes a value that is out of range of a signed type (C45). -/
def Overflows (T : IntTy) (w : World) : Cmd → Prop
  | .use a op => op.IsUpdate ∧ ∃ x, w.obj a = some x ∧ sent T x.1 op = .ub
  | _ => False

theorem exec_defined {T : IntTy} (hT : T.Valid) {cap : Option Nat} {s : St} {l : List Nat} {op : Op}
    (h : Holds cap s.reg l) (ht : op.Typed T) (hd : cap = none → ∀ o, op = .remove o → o ∉ l)
    (hs : ¬ (op.IsUpdate ∧ sent T s.value op = .ub)) : ∃ r, Values.exec T s op = .ok r := by
  by_cases hu : op.IsUpdate
  · rw [update_eq hT h hu ht]
    cases hc : sent T s.value op with
    | ok v => exact ⟨_, rfl⟩
    | ub => exact absurd ⟨hu, hc⟩ hs
    | hang =>
      exfalso
      have hang : ∀ (e : IntTy) (x : Int) (f : Int → Int), (do let r ← e.arith x; Res.ok (f r)) ≠ (Res.hang : Res Int) := by
        intro e x f
        unfold IntTy.arith
        split
        · split <;> simp [Res.ok_bind, Res.ub_bind]
        · simp [Res.ok_bind]
      cases op <;> simp only [sent] at hc
      all_goals first | cases hc | exact hang _ _ _ hc
  · cases op with
    | add o =>
      obtain ⟨reg', h1, -⟩ := add_spec h o
      exact ⟨_, by simp only [Values.exec, errOf, h1, Res.ok_bind]; rfl⟩
    | remove o =>
      cases cap with
      | some m =>
        obtain ⟨reg', h1, -⟩ := remove_spec_fixed h o
        exact ⟨_, by simp only [Values.exec, errOf, h1, Res.ok_bind]; rfl⟩
      | none => exact ⟨_, by simp only [Values.exec, errOf, remove_absent_dyn h (hd rfl o rfl), Res.ok_bind]; rfl⟩
    | clear =>
      obtain ⟨reg', h1, -⟩ := clear_spec h
      exact ⟨_, by simp only [Values.exec, h1, Res.ok_bind]; rfl⟩
    | onUpdate o b => exact ⟨_, rfl⟩
    | _ => exact absurd trivial hu

/-- A careful command is defined unless it overflows, and the objects remain as the client thinks. -/
theorem Inv.exec {T : IntTy} (hT : T.Valid) {k : Client} {w : World} (h : Inv T k w) {c : Cmd} (hc : Careful T k c) :
    (¬ Overflows T w c → ∃ r, exec T w c = .ok r) ∧ ∀ r, exec T w c = .ok r → Inv T (k.next c) r.1 := by
  obtain ⟨hs, hc⟩ := hc
  cases c with
  | make o f =>
    simp only [Life.exec]
    cases ho : w.held o with
    | some v =>
      refine ⟨fun _ => ⟨_, rfl⟩, fun r hr => ?_⟩
      cases hr
      have he := h.held o
      rw [ho] at he
      have hk : set k.exist o true = k.exist := by
        funext p
        by_cases e : p = o
        · rw [e, set_same]; exact he
        · rw [set_ne _ _ e]
      simp only [Client.next, hk]
      exact h
    | none =>
      refine ⟨fun _ => ⟨_, rfl⟩, fun r hr => ?_⟩
      cases hr
      refine ⟨fun p => ?_, h.gone, fun a x hx => ?_⟩
      · simp only [Client.next]
        by_cases e : p = o
        · rw [e, set_same, set_same]; rfl
        · rw [set_ne _ _ e, set_ne _ _ e]; exact h.held p
      · obtain ⟨cap, h1, h2, h3, h4⟩ := h.obj a x hx
        refine ⟨cap, h1, h2, h3, fun p hp => ?_⟩
        simp only [Client.next]
        by_cases e : p = o
        · rw [e, set_same]
        · rw [set_ne _ _ e]; exact h4 p hp
  | destroy o =>
    simp only [Life.exec]
    have he := h.held o
    rw [show k.exist o = true from hs] at he
    cases ho : w.held o with
    | none => rw [ho] at he; cases he
    | some v =>
      refine ⟨fun _ => ⟨_, rfl⟩, fun r hr => ?_⟩
      cases hr
      refine ⟨fun p => ?_, h.gone, fun a x hx => ?_⟩
      · simp only [Client.next]
        by_cases e : p = o
        · rw [e, set_same, set_same]; rfl
        · rw [set_ne _ _ e, set_ne _ _ e]; exact h.held p
      · obtain ⟨cap, h1, h2, h3, h4⟩ := h.obj a x hx
        refine ⟨cap, h1, h2, h3, fun p hp => ?_⟩
        simp only [Client.next]
        rw [set_ne _ _ fun e => hc a (by rw [← e]; exact hp)]
        exact h4 p hp
  | makeObs a cap =>
    simp only [Life.exec]
    cases ha : w.obj a with
    | some x =>
      refine ⟨fun _ => ⟨_, rfl⟩, fun r hr => ?_⟩
      cases hr
      obtain ⟨cap', h1, -⟩ := h.obj a x ha
      simp only [Client.next, h1]
      exact h
    | none =>
      refine ⟨fun _ => ⟨_, rfl⟩, fun r hr => ?_⟩
      cases hr
      obtain ⟨h1, h2⟩ := h.gone a ha
      simp only [Client.next, h1, if_true]
      refine ⟨h.held, fun b hb => ?_, fun b x hb => ?_⟩
      · by_cases e : b = a
        · subst e; simp only [set_same] at hb; cases hb
        · simp only [set_ne _ _ e] at hb ⊢; exact h.gone b hb
      · by_cases e : b = a
        · subst e
          simp only [set_same] at hb
          cases hb
          exact ⟨cap, set_same _ _ _, by rw [h2]; exact holds_new cap, zero_in hT, by rw [h2]; simp⟩
        · simp only [set_ne _ _ e] at hb ⊢; exact h.obj b x hb
  | destroyObs a =>
    simp only [Life.exec]
    cases ha : w.obj a with
    | none => exact absurd (h.gone a ha).1 hs
    | some x =>
      obtain ⟨cap, h1, h2, h3, h4⟩ := h.obj a x ha
      obtain ⟨reg', hcl, -⟩ := clear_spec (s := w.view x) h2
      simp only [h.alive ha, if_true, hcl]
      refine ⟨fun _ => ⟨_, rfl⟩, fun r hr => ?_⟩
      cases hr
      simp only [Client.next]
      refine ⟨h.held, fun b hb => ?_, fun b y hb => ?_⟩
      · by_cases e : b = a
        · subst e; exact ⟨set_same _ _ _, set_same _ _ _⟩
        · simp only [set_ne _ _ e] at hb ⊢; exact h.gone b hb
      · by_cases e : b = a
        · subst e; simp only [set_same] at hb; cases hb
        · simp only [set_ne _ _ e] at hb ⊢; exact h.obj b y hb
  | use a op =>
    obtain ⟨hk, ht, hop⟩ := hs
    simp only [Life.exec]
    cases ha : w.obj a with
    | none => exact absurd (h.gone a ha).1 hk
    | some x =>
      obtain ⟨cap, h1, h2, h3, h4⟩ := h.obj a x ha
      have hcond : (((Op.operand op).all fun o => (w.held o).isSome) &&
          (!visits op || (targets x.2).all fun o => (w.held o).isSome)) = true := by
        rw [h.alive ha]
        simp only [Bool.or_true, Bool.and_true]
        cases hq : Op.operand op with
        | none => rfl
        | some o =>
          simp only [Option.all_some]
          rw [h.held]
          cases op <;> cases hq
          · exact hop o true (.inl rfl)
          · exact hop o true (.inr (.inl rfl))
          · exact hop o _ (.inr (.inr rfl))
      have hd : cap = none → ∀ o, op = .remove o → o ∉ k.regs a := by
        rintro rfl o rfl
        exact hc h1
      simp only [hcond, if_true]
      constructor
      · intro hov
        obtain ⟨r, hr⟩ := exec_defined hT (s := w.view x) h2 ht hd fun hh => hov ⟨hh.1, x, ha, hh.2⟩
        exact ⟨_, by rw [hr]⟩
      · intro r hr
        cases he : Values.exec T (w.view x) op with
        | ok q =>
          rw [he] at hr
          cases hr
          obtain ⟨j1, j2, -⟩ := exec_inv hT (s := w.view x) h2 h3 ht hd he
          simp only [Client.next, h1]
          refine ⟨fun o => ?_, fun b hb => ?_, fun b y hb => ?_⟩
          · simp only [World.back, Option.isSome_map]; exact h.held o
          · by_cases e : b = a
            · subst e; simp only [World.back, set_same] at hb; cases hb
            · simp only [World.back, set_ne _ _ e] at hb ⊢; exact h.gone b hb
          · by_cases e : b = a
            · subst e
              simp only [World.back, set_same] at hb
              cases hb
              refine ⟨cap, h1, by simp only [set_same]; exact j1, j2, fun o ho => ?_⟩
              simp only [set_same] at ho
              rcases next_mem ho with ho | rfl
              · exact h4 o ho
              · exact hop o true (.inl rfl)
            · simp only [World.back, set_ne _ _ e] at hb ⊢; exact h.obj b y hb
        | ub => rw [he] at hr; cases hr
        | hang => rw [he] at hr; cases hr

theorem Inv.run {T : IntTy} (hT : T.Valid) : ∀ {cs : List Cmd} {k : Client} {w w' : World}, Inv T k w →
    All (Careful T) k cs → run T cs w = .ok w' → Inv T (k.after cs) w'
  | [], _, _, _, h, _, hr => by cases hr; exact h
  | c :: cs, k, w, w', h, hc, hr => by
    simp only [Life.run] at hr
    cases he : Life.exec T w c with
    | ok r =>
      rw [he, Res.ok_bind] at hr
      exact Inv.run hT (k := k.next c) ((h.exec hT hc.1).2 r he) hc.2 hr
    | ub => rw [he, Res.ub_bind] at hr; cases hr
    | hang => rw [he, Res.hang_bind] at hr; cases hr

/-- **C114 as far as it holds**: a client that removes observed objects from all observables before it destroys them (and does
not remove observers of dynamic observables) never has undefined behaviour other than the overflow of C45; observables may
be destroyed at any time. -/
theorem C114_safe_partial {T : IntTy} (hT : T.Valid) {cs : List Cmd} {w : World} (hcs : All (Careful T) Client.new cs)
    (hr : run T cs World.new = .ok w) {c : Cmd} (hc : Careful T (Client.new.after cs) c) (hov : ¬ Overflows T w c) :
    ∃ r, exec T w c = .ok r :=
  (((Inv.new T).run hT hcs hr).exec hT hc).1 hov

/-- **C114 as far as it holds, values**: an assignment by such a client tells exactly the objects that are registered, each once,
and all of them exist; other objects and other observables stay as they are. -/
theorem C114_told_partial {T : IntTy} (hT : T.Valid) {cs : List Cmd} {w : World} (hcs : All (Careful T) Client.new cs)
    (hr : run T cs World.new = .ok w) {a : Nat} (ha : (Client.new.after cs).kind a ≠ none) {v : Int} (hv : T.In v) :
    ∃ w', exec T w (.use a (.assign v)) = .ok (w', .val v) ∧
      (∀ o ∈ (Client.new.after cs).regs a, w'.held o = some v) ∧
      (∀ o, o ∉ (Client.new.after cs).regs a → w'.held o = w.held o) ∧
      ((Client.new.after cs).regs a).Nodup ∧
      w'.log = w.log ++ (((Client.new.after cs).regs a).filter w.fn).map (fun o => (o, v)) ∧
      (∀ b, b ≠ a → w'.obj b = w.obj b) := by
  have hi := (Inv.new T).run hT hcs hr
  cases hx : w.obj a with
  | none => exact absurd (hi.gone a hx).1 ha
  | some x =>
    obtain ⟨cap, -, h2, -, h4⟩ := hi.obj a x hx
    have he := update_eq hT (s := w.view x) h2 (op := .assign v) trivial hv
    simp only [sent, Res.ok_bind] at he
    obtain ⟨-, -, -, k4, k5⟩ := deliver_all v ((Client.new.after cs).regs a)
      { w.view x with value := T.wrap (exact (w.view x).value (.assign v)) }
    refine ⟨w.back a (((Client.new.after cs).regs a).foldl (deliver v)
      { w.view x with value := T.wrap (exact (w.view x).value (.assign v)) }), ?_, ?_, ?_, h2.1, ?_, ?_⟩
    · simp only [Life.exec, hx, hi.alive hx, Op.operand, Option.all_none, Bool.or_true, Bool.and_true, if_true, he]
    · intro o ho
      obtain ⟨y, hy⟩ := Option.isSome_iff_exists.1 ((hi.held o).trans (h4 o ho))
      simp only [World.back, hy, Option.map_some]
      rw [k4, if_pos ho]
    · intro o ho
      simp only [World.back]
      rw [k4, if_neg ho]
      cases hy : w.held o with
      | none => rfl
      | some y => simp [World.view, hy]
    · exact k5
    · intro b hb
      exact set_ne _ _ hb

/-! ### Objects destroyed while registered -/

/-- Observable `a` keeps the address of `o`, which does not exist. -/
def Dangles (a o : Nat) (w : World) : Prop := w.held o = none ∧ ∃ x, w.obj a = some x ∧ o ∈ targets x.2

theorem Dangles.ub {T : IntTy} {a o : Nat} {w : World} (h : Dangles a o w) :
    (∀ op : Op, op.IsUpdate ∨ op = .clear → exec T w (.use a op) = .ub) ∧ exec T w (.destroyObs a) = .ub := by
  obtain ⟨h1, x, h2, h3⟩ := h
  have hx : ((targets x.2).all fun o => (w.held o).isSome) = false := by
    rw [List.all_eq_false]
    exact ⟨o, h3, by simp [h1]⟩
  refine ⟨fun op hv => ?_, ?_⟩
  · have hv : visits op = true := by
      rcases hv with hv | rfl
      · cases op <;> first | rfl | exact hv.elim
      · rfl
    simp [Life.exec, h2, hx, hv]
  · simp [Life.exec, h2, hx]

theorem add_targets {s : St} {p o : Nat} (h : o ∈ targets s.reg) {r : St × Err} (he : add s p = .ok r) :
    o ∈ targets r.1.reg := by
  simp only [add] at he
  cases hr : s.reg with
  | fixed arr c =>
    simp only [hr] at he h
    split at he
    · cases he; rw [hr]; exact h
    · next hn =>
      cases hc : containsArr p arr c 0 with
      | ok b =>
        rw [hc, Res.ok_bind] at he
        cases b with
        | true => simp at he; rw [← he, hr]; exact h
        | false =>
          simp at he
          rw [← he]
          simp only [targets, List.mem_filterMap, id] at h ⊢
          obtain ⟨y, hy, rfl⟩ := h
          refine ⟨_, ?_, rfl⟩
          obtain ⟨i, hi, hy⟩ := List.mem_iff_getElem.1 hy
          rw [List.length_take] at hi
          rw [List.mem_iff_getElem]
          refine ⟨i, by rw [List.length_take, List.length_set]; omega, ?_⟩
          rw [List.getElem_take] at hy ⊢
          rw [List.getElem_set, if_neg (by omega)]
          exact hy
      | ub => rw [hc] at he; cases he
      | hang => rw [hc] at he; cases he
  | dyn vec =>
    simp only [hr] at he h
    split at he
    · cases he; simp only [targets] at h ⊢; exact List.mem_append.2 (.inl h)
    · cases he; rw [hr]; exact h

theorem stdRemove_mem {α : Type} [DecidableEq α] {x y : α} {l : List α} (hne : y ≠ x) (h : y ∈ l) :
    y ∈ (stdRemove x l).1.take (stdRemove x l).2 := by
  simp only [stdRemove, List.take_left', List.mem_filter]
  exact ⟨h, by simpa using hne⟩

theorem remove_targets {s : St} {p o : Nat} (hne : o ≠ p) (h : o ∈ targets s.reg) {r : St × Err}
    (he : remove s p = .ok r) : o ∈ targets r.1.reg := by
  simp only [remove] at he
  cases hr : s.reg with
  | fixed arr c =>
    simp only [hr] at he h
    split at he
    · cases he; rw [hr]; exact h
    · next hc =>
      split at he
      · cases he; rw [hr]; exact h
      · simp only [targets, List.mem_filterMap, id] at h
        obtain ⟨y, hy, rfl⟩ := h
        have hm := stdRemove_mem (x := some p) (y := some o) (by simpa using hne) hy
        have hle : (stdRemove (some p) (arr.take c)).2 ≤ c := by
          simp only [stdRemove]
          refine Nat.le_trans (List.length_filter_le _ _) ?_
          rw [List.length_take]
          omega
        have hlen : (stdRemove (some p) (arr.take c)).2 ≤ (stdRemove (some p) (arr.take c)).1.length := by
          simp [stdRemove]
        have key : ∀ n, (stdRemove (some p) (arr.take c)).2 ≤ n →
            some o ∈ ((stdRemove (some p) (arr.take c)).1 ++ arr.drop c).take n := by
          intro n hn
          have h1 : some o ∈ ((stdRemove (some p) (arr.take c)).1 ++ arr.drop c).take
              (stdRemove (some p) (arr.take c)).2 := by
            rw [List.take_append_of_le_length hlen]; exact hm
          exact (List.take_subset_take_left _ hn) h1
        split at he
        · cases he
          simp only [targets, List.mem_filterMap, id]
          exact ⟨some o, key _ (Nat.le_refl _), rfl⟩
        · cases he
          simp only [targets, List.mem_filterMap, id]
          exact ⟨some o, key _ hle, rfl⟩
  | dyn vec =>
    simp only [hr] at he h
    split at he
    · cases he; rw [hr]; exact h
    · have hm := stdRemove_mem (x := p) hne h
      split at he <;> cases he <;> exact List.mem_of_mem_take hm

/-- The command does not undo it: it does not construct an object at the address of `o`, nor remove `o` from `a`. -/
def Leaves (a o : Nat) : Cmd → Prop
  | .make p _ => p ≠ o
  | .use b (.remove p) => ¬ (b = a ∧ p = o)
  | _ => True

theorem Dangles.exec {T : IntTy} {a o : Nat} {w : World} (h : Dangles a o w) {c : Cmd} (hc : Leaves a o c)
    {r : World × Ret} (he : exec T w c = .ok r) : Dangles a o r.1 := by
  have hub := h.ub (T := T)
  obtain ⟨h1, x, h2, h3⟩ := h
  cases c with
  | make p f =>
    simp only [Life.exec] at he
    split at he
    · cases he; exact ⟨h1, x, h2, h3⟩
    · cases he; exact ⟨by simp only [set_ne _ _ (Ne.symm hc)]; exact h1, x, h2, h3⟩
  | destroy p =>
    simp only [Life.exec] at he
    split at he
    · cases he
      refine ⟨?_, x, h2, h3⟩
      by_cases e : o = p
      · rw [e]; exact set_same _ _ _
      · simp only [set_ne _ _ e]; exact h1
    · cases he
  | makeObs b cap =>
    simp only [Life.exec] at he
    split at he
    · cases he; exact ⟨h1, x, h2, h3⟩
    · next hb =>
      cases he
      have hab : a ≠ b := by rintro rfl; rw [h2] at hb; cases hb
      exact ⟨h1, x, by simp only [set_ne _ _ hab]; exact h2, h3⟩
  | destroyObs b =>
    by_cases hab : a = b
    · subst hab; rw [hub.2] at he; cases he
    · simp only [Life.exec] at he
      split at he
      · split at he
        · split at he
          · cases he
            exact ⟨h1, x, by simp only [set_ne _ _ hab]; exact h2, h3⟩
          · cases he
          · cases he
        · cases he
      · cases he
  | use b op =>
    by_cases hab : a = b
    · subst hab
      cases hv : visits op with
      | true =>
        rw [hub.1 op (by cases op <;> first | exact .inl trivial | exact .inr rfl | cases hv)] at he
        cases he
      | false =>
        simp only [Life.exec, h2] at he
        split at he
        · cases hx : Values.exec T (w.view x) op with
          | ok q =>
            rw [hx] at he
            cases he
            refine ⟨by simp [World.back, h1], _, set_same _ _ _, ?_⟩
            simp only
            cases op with
            | add p =>
              simp only [Values.exec, errOf] at hx
              cases ha : add (w.view x) p with
              | ok y =>
                rw [ha, Res.ok_bind] at hx
                cases hx
                exact add_targets (s := w.view x) h3 ha
              | ub => rw [ha] at hx; cases hx
              | hang => rw [ha] at hx; cases hx
            | remove p =>
              simp only [Values.exec, errOf] at hx
              cases ha : remove (w.view x) p with
              | ok y =>
                rw [ha, Res.ok_bind] at hx
                cases hx
                exact remove_targets (s := w.view x) (fun e => hc ⟨rfl, e.symm⟩) h3 ha
              | ub => rw [ha] at hx; cases hx
              | hang => rw [ha] at hx; cases hx
            | onUpdate p b => cases hx; exact h3
            | _ => cases hv
          | ub => rw [hx] at he; cases he
          | hang => rw [hx] at he; cases he
        · cases he
    · simp only [Life.exec] at he
      split at he
      · split at he
        · split at he
          · cases he
            exact ⟨by simp [World.back, h1], x, by simp only [World.back, set_ne _ _ hab]; exact h2, h3⟩
          · cases he
          · cases he
        · cases he
      · cases he

theorem Dangles.run {T : IntTy} {a o : Nat} : ∀ {cs : List Cmd} {w w' : World}, Dangles a o w →
    (∀ c ∈ cs, Leaves a o c) → run T cs w = .ok w' → Dangles a o w'
  | [], _, _, h, _, hr => by cases hr; exact h
  | c :: cs, w, w', h, hc, hr => by
    simp only [Life.run] at hr
    cases he : Life.exec T w c with
    | ok r =>
      rw [he, Res.ok_bind] at hr
      exact Dangles.run (h.exec (hc c List.mem_cons_self) he) (fun d hd => hc d (List.mem_cons_of_mem _ hd)) hr
    | ub => rw [he, Res.ub_bind] at hr; cases hr
    | hang => rw [he, Res.hang_bind] at hr; cases hr

/-- **C114 is false, always**: if an observed object is destroyed while it is registered, then, whatever the client does
(except to construct another one in its place, or to remove it), every update of the observable, `clear_observers` and the
destruction of the observable are undefined. -/
theorem C114_registered_ub {T : IntTy} (hT : T.Valid) {cs : List Cmd} {w : World} (hcs : All (Careful T) Client.new cs)
    (hr : run T cs World.new = .ok w) {a o : Nat} (ho : o ∈ (Client.new.after cs).regs a) {r : World × Ret}
    (hd : exec T w (.destroy o) = .ok r) {cs' : List Cmd} (hl : ∀ c ∈ cs', Leaves a o c) {w' : World}
    (hr' : run T cs' r.1 = .ok w') :
    (∀ op : Op, op.IsUpdate ∨ op = .clear → exec T w' (.use a op) = .ub) ∧ exec T w' (.destroyObs a) = .ub := by
  have hi := (Inv.new T).run hT hcs hr
  refine Dangles.ub (Dangles.run ?_ hl hr')
  simp only [Life.exec] at hd
  split at hd
  · cases hd
    refine ⟨set_same _ _ _, ?_⟩
    cases hx : w.obj a with
    | none => rw [(hi.gone a hx).2] at ho; cases ho
    | some x =>
      obtain ⟨cap, -, h2, -⟩ := hi.obj a x hx
      exact ⟨x, rfl, by rw [targets_holds h2]; exact ho⟩
  · cases hd

/-- **C114 is false for the dynamic variant even if the client removes the object first**: let `o` be the object that was
added last; `remove_observer` returns `ok`, the client destroys `o`, and from then on updates, `clear_observers` and the
destruction of the observable are undefined. -/
theorem C114_dynamic_ub {T : IntTy} (hT : T.Valid) {cs : List Cmd} {w : World} (hcs : All (Careful T) Client.new cs)
    (hr : run T cs World.new = .ok w) {a o : Nat} (hk : (Client.new.after cs).kind a = some none) {l : List Nat}
    (ho : (Client.new.after cs).regs a = l ++ [o]) :
    ∃ w1 w2, exec T w (.use a (.remove o)) = .ok (w1, .err .ok) ∧ exec T w1 (.destroy o) = .ok (w2, .unit) ∧
      ∀ (cs' : List Cmd) (w' : World), (∀ c ∈ cs', Leaves a o c) → run T cs' w2 = .ok w' →
        (∀ op : Op, op.IsUpdate ∨ op = .clear → exec T w' (.use a op) = .ub) ∧ exec T w' (.destroyObs a) = .ub := by
  have hi := (Inv.new T).run hT hcs hr
  have hex : (w.held o).isSome = true := by
    rw [hi.held]
    cases hx : w.obj a with
    | none => rw [(hi.gone a hx).2] at ho; simp at ho
    | some x =>
      obtain ⟨cap, -, -, -, h4⟩ := hi.obj a x hx
      exact h4 o (by rw [ho]; simp)
  cases hx : w.obj a with
  | none => rw [(hi.gone a hx).2] at ho; simp at ho
  | some x =>
    obtain ⟨cap, h1, h2, -⟩ := hi.obj a x hx
    rw [hk] at h1
    cases h1
    have hreg : x.2 = .dyn (l ++ [o]) := by
      have := h2.2
      cases hxr : x.2 with
      | fixed arr c => rw [hxr] at this; exact this.elim
      | dyn vec => rw [hxr] at this; simp only at this; rw [this, ho]
    obtain ⟨r1, -⟩ := remove_dyn (w.view x) l o o (by rw [← ho]; exact h2.1) hreg (by simp)
    have he : exec T w (.use a (.remove o)) = .ok (w.back a (w.view x), .err .ok) := by
      simp [Life.exec, hx, Op.operand, visits, hex, Values.exec, errOf, r1 rfl, Res.ok_bind]
    have hh : ((w.back a (w.view x)).held o).isSome = true := by
      simp only [World.back, Option.isSome_map]; exact hex
    obtain ⟨v, hv⟩ := Option.isSome_iff_exists.1 hh
    refine ⟨_, { w.back a (w.view x) with held := set (w.back a (w.view x)).held o none }, he, ?_, ?_⟩
    · simp [Life.exec, hv]
    · intro cs' w' hl hr'
      refine Dangles.ub (Dangles.run ⟨set_same _ _ _, (x.1, x.2), ?_, ?_⟩ hl hr')
      · simp [World.back, set_same, World.view]
      · rw [hreg]; simp [targets]

/-- Not careful: observed 1 is destroyed while it is registered; another object that is constructed in its place was never
added, yet gets the next value, and cannot be added. -/
theorem C114_reuse_refuted : ∃ w w' w'', run .int [.makeObs 0 (some 2), .make 1 false, .use 0 (.add 1), .destroy 1, .make 1 true]
      World.new = .ok w ∧ w.held 1 = some 0 ∧ exec .int w (.use 0 (.add 1)) = .ok (w', .err .alreadyContains) ∧
    exec .int w (.use 0 (.assign 5)) = .ok (w'', .val 5) ∧ w''.held 1 = some 5 ∧ w''.log = [(1, 5)] :=
  ⟨_, _, _, rfl, rfl, rfl, rfl, rfl, rfl⟩

/-- A history for the theorems: two observables, an object registered with both, removed from one of them. -/
def demo : List Cmd := [.makeObs 0 (some 2), .makeObs 3 none, .make 1 true, .make 2 false, .use 0 (.add 1), .use 3 (.add 2),
  .use 3 (.add 1), .use 0 (.assign 4), .use 0 (.remove 1), .use 3 (.addEq 2)]

example : ∃ w, run .int demo World.new = .ok w ∧ All (Careful .int) Client.new demo ∧
    (Client.new.after demo).kind 3 = some none ∧ (Client.new.after demo).regs 3 = [2] ++ [1] ∧
    (Client.new.after demo).regs 0 = [] ∧ w.held 1 = some 2 ∧ w.held 2 = some 2 ∧
    Careful .int (Client.new.after demo) (.destroyObs 3) ∧ ¬ Overflows .int w (.destroyObs 3) ∧
    (∃ r, exec .int w (.destroy 1) = .ok r) ∧ Leaves 3 1 (.use 0 (.assign 1)) := by
  refine ⟨_, rfl, ?_, rfl, rfl, rfl, rfl, rfl, ⟨by simp [Sensible]; decide, trivial⟩, id, ⟨_, rfl⟩, trivial⟩
  simp [All, demo, Careful, Sensible, Client.next, Client.new, set, Values.next, Op.Typed, Op.operand, IntTy.In, IntTy.int]
  decide

end Verif.Values.Life
