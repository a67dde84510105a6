import Verif.Mediator.Copies
import Verif.Mediator.Lemmas
/-!
Properties C164–C166: lifetimes and copies of mediators and their modules.
-/
namespace Verif.Mediator.Copies
open Verif Verif.Mediator

/-! ### What a client knows -/

/-- The managers that exist, with their number of places and the modules they list; the modules that exist, with their type and
manager. -/
structure View where
  mgrs : Nat → Option (Nat × List Nat)
  mods : Nat → Option Mod

namespace View
/-- Nothing exists. -/
def new : View := ⟨fun _ => none, fun _ => none⟩

/-- What an operation changes: constructing a module enters it at the end of the list of its manager, destroying it takes it out of that
list (once), a copy of a manager has the same list, a copy of a module is in no list. -/
def step (v : View) : Op → View
  | .makeMgr a n => { v with mgrs := set v.mgrs a (some (n, [])) }
  | .copyMgr a b => { v with mgrs := set v.mgrs b (v.mgrs a) }
  | .assignMgr a b => { v with mgrs := set v.mgrs b (v.mgrs a) }
  | .dropMgr a => { v with mgrs := set v.mgrs a none }
  | .make m id a =>
    ⟨set v.mgrs a ((v.mgrs a).map fun g => (g.1, g.2 ++ [m])), set v.mods m (some ⟨id, a⟩)⟩
  | .copy m k => { v with mods := set v.mods k (v.mods m) }
  | .drop m =>
    match v.mods m with
    | some x => ⟨set v.mgrs x.mgr ((v.mgrs x.mgr).map fun g => (g.1, g.2.erase m)), set v.mods m none⟩
    | none => v
  | .send _ _ => v
  | .cast _ _ _ => v

/-- What is defined: the objects exist (or the place is free), there is room for a new module, a module that is listed is not destroyed
while its manager is full, and all modules listed by a manager that sends exist. -/
def Allows (v : View) : Op → Prop
  | .makeMgr a _ => v.mgrs a = none
  | .copyMgr a b => v.mgrs a ≠ none ∧ v.mgrs b = none
  | .assignMgr a b => ∃ n l l', v.mgrs a = some (n, l) ∧ v.mgrs b = some (n, l')
  | .dropMgr a => v.mgrs a ≠ none
  | .make m _ a => v.mods m = none ∧ ∃ n l, v.mgrs a = some (n, l) ∧ l.length < n
  | .copy m k => v.mods m ≠ none ∧ v.mods k = none
  | .drop m => ∃ x n l, v.mods m = some x ∧ v.mgrs x.mgr = some (n, l) ∧ (m ∈ l → l.length < n)
  | .send m _ => ∃ x n l, v.mods m = some x ∧ v.mgrs x.mgr = some (n, l) ∧ ∀ k ∈ l, v.mods k ≠ none
  | .cast a _ _ => ∃ n l, v.mgrs a = some (n, l) ∧ ∀ k ∈ l, v.mods k ≠ none

/-- Those listed by `a` that send another type. -/
def others (v : View) (a id : Nat) : List Nat :=
  match v.mgrs a with
  | some (_, l) => l.filter fun k => match v.mods k with
    | some x => x.id != id
    | none => false
  | none => []

/-- What is called during an operation. -/
def heard (v : View) : Op → List Ev
  | .send m bytes =>
    match v.mods m with
    | some x => .hook x.mgr x.id bytes :: (v.others x.mgr x.id).map fun k => .got k x.id bytes
    | none => []
  | .cast a id bytes => (v.others a id).map fun k => .got k id bytes
  | _ => []
end View

/-- After a history. -/
def after (ops : List Op) (v : View) : View := ops.foldl View.step v

/-- All operations of the history are allowed when their turn comes. -/
def Proper (v : View) : List Op → Prop
  | [] => True
  | op :: ops => v.Allows op ∧ Proper (v.step op) ops

/-- What is called during a history. -/
def hears (v : View) : List Op → List Ev
  | [] => []
  | op :: ops => v.heard op ++ hears (v.step op) ops

/-! ### Machinery -/

/-- The members of a manager with `n` places that lists `l`. -/
structure Lists (g : Mgr) (n : Nat) (l : List Nat) : Prop where
  len : g.arr.length = n
  cnt : g.cnt = l.length
  le : l.length ≤ n
  at_ : ∀ i, i < l.length → g.arr[i]? = some l[i]?

theorem Lists.add {g : Mgr} {n : Nat} {l : List Nat} (h : Lists g n l) (m : Nat) :
    (l.length < n → ∃ g', g.add m = .ok g' ∧ Lists g' n (l ++ [m])) ∧ (¬ l.length < n → g.add m = .ub) := by
  have h1 := h.len
  have h2 := h.cnt
  constructor
  · intro hl
    refine ⟨⟨g.arr.set g.cnt (some m), g.cnt + 1⟩, by rw [Mgr.add, if_pos (by omega)], by simpa using h1, by simp [h2], by simp; omega, ?_⟩
    intro i hi
    simp only [List.length_append, List.length_cons, List.length_nil] at hi
    simp only [List.getElem?_set, h2]
    by_cases hil : l.length = i
    · subst hil
      rw [if_pos rfl, if_pos (by omega)]
      simp
    · rw [if_neg hil, h.at_ i (by omega), List.getElem?_append_left (by omega)]
  · intro hl
    rw [Mgr.add, if_neg (by omega)]

theorem search_at {g : Mgr} {n : Nat} {l : List Nat} (h : Lists g n l) (m i : Nat) (hi : l[i]? = some m)
    (hfst : ∀ j, j < i → l[j]? ≠ some m) : ∀ (k j : Nat), j + k = l.length → j ≤ i →
    g.search m k j = (do
      let arr ← shift (g.cnt - 1 - i) i g.arr
      if g.cnt < arr.length then .ok ⟨arr.set g.cnt none, g.cnt - 1⟩ else .ub)
  | 0, j, hj, hji => by
    have := (List.getElem?_eq_some_iff.mp hi).1
    omega
  | k + 1, j, hj, hji => by
    unfold Mgr.search
    rw [h.at_ j (by omega)]
    simp only []
    by_cases hji' : j = i
    · subst hji'
      rw [if_pos hi]
    · rw [if_neg (hfst j (by omega))]
      exact search_at h m i hi hfst k (j + 1) (by omega) (by omega)

theorem search_absent {g : Mgr} {n : Nat} {l : List Nat} (h : Lists g n l) (m : Nat) (hm : m ∉ l) :
    ∀ (k j : Nat), j + k = l.length → g.search m k j = .ok g
  | 0, _, _ => rfl
  | k + 1, j, hj => by
    unfold Mgr.search
    rw [h.at_ j (by omega)]
    simp only []
    rw [if_neg, search_absent h m hm k (j + 1) (by omega)]
    intro he
    exact hm (List.mem_of_getElem? he)

theorem erase_at (l : List Nat) (m : Nat) (hm : m ∈ l) :
    ∃ i, l[i]? = some m ∧ (∀ j, j < i → l[j]? ≠ some m) ∧ l.erase m = l.eraseIdx i := by
  induction l with
  | nil => simp at hm
  | cons x l ih =>
    by_cases hx : x = m
    · subst hx
      exact ⟨0, by simp, by intro j hj; omega, by simp⟩
    · have hm' : m ∈ l := by
        rcases List.mem_cons.mp hm with h | h
        · exact absurd h.symm hx
        · exact h
      obtain ⟨i, h1, h2, h3⟩ := ih hm'
      refine ⟨i + 1, by simpa using h1, ?_, ?_⟩
      · intro j hj
        cases j with
        | zero => simpa using hx
        | succ j => simpa using h2 j (by omega)
      · rw [List.erase_cons_tail (by simpa using hx), List.eraseIdx_cons_succ, h3]

theorem Lists.remove {g : Mgr} {n : Nat} {l : List Nat} (h : Lists g n l) (m : Nat) :
    ((m ∈ l → l.length < n) → ∃ g', g.remove m = .ok g' ∧ Lists g' n (l.erase m)) ∧
    (¬ (m ∈ l → l.length < n) → g.remove m = .ub) := by
  have h1 := h.len
  have h2 := h.cnt
  have h3 := h.le
  by_cases hm : m ∈ l
  · obtain ⟨i, e1, e2, e3⟩ := erase_at l m hm
    have hi := (List.getElem?_eq_some_iff.mp e1).1
    have hs := search_at h m i e1 e2 g.cnt 0 (by omega) (by omega)
    constructor
    · intro hl
      have hl := hl hm
      obtain ⟨arr', k1, k2, k3⟩ := shift_ok (g.cnt - 1 - i) i g.arr (by omega)
      rw [k1, Res.ok_bind, if_pos (by omega)] at hs
      have hlen := List.length_eraseIdx_of_lt hi
      refine ⟨_, hs, by simpa using k2.trans h1, by simp only [e3, hlen]; omega, by rw [e3, hlen]; omega, ?_⟩
      intro j hj
      rw [e3, hlen] at hj
      simp only [List.getElem?_set]
      rw [if_neg (by omega), k3, e3, List.getElem?_eraseIdx]
      by_cases hij : j < i
      · rw [if_neg (by omega), if_pos hij]; exact h.at_ j (by omega)
      · rw [if_pos (by omega), if_neg hij]; exact h.at_ (j + 1) (by omega)
    · intro hl
      have hl : ¬ l.length < n := fun hn => hl fun _ => hn
      obtain ⟨arr', k1, k2, k3⟩ := shift_ok (g.cnt - 1 - i) i g.arr (by omega)
      rw [k1, Res.ok_bind, if_neg (by omega)] at hs
      exact hs
  · constructor
    · intro _
      refine ⟨g, search_absent h m hm g.cnt 0 (by omega), ?_⟩
      rw [List.erase_of_not_mem hm]; exact h
    · intro hl
      exact absurd (fun hc => absurd hc hm) hl

theorem deliver_at {g : Mgr} {n : Nat} {l : List Nat} (h : Lists g n l) (s : St) (id : Nat) (bytes : List Byte) :
    ∀ (k i : Nat) (log : List Ev), i + k = l.length →
      ((∀ m ∈ l.drop i, s.mods m ≠ none) → deliver s g id bytes k i log =
        .ok (log ++ ((l.drop i).filter fun k => match s.mods k with
          | some x => x.id != id
          | none => false).map fun k => .got k id bytes)) ∧
      (¬ (∀ m ∈ l.drop i, s.mods m ≠ none) → deliver s g id bytes k i log = .ub)
  | 0, i, log, hi => by
    rw [List.drop_of_length_le (by omega)]
    exact ⟨fun _ => by simp [deliver], fun h => absurd (by simp) h⟩
  | k + 1, i, log, hi => by
    have hil : i < l.length := by omega
    have hdrop := List.drop_eq_getElem_cons hil
    unfold deliver
    rw [h.at_ i hil, List.getElem?_eq_getElem hil]
    cases hx : s.mods l[i] with
    | none =>
      simp only [hx]
      exact ⟨fun hh => absurd hx (hh _ (by rw [hdrop]; exact List.mem_cons_self)), fun _ => trivial⟩
    | some x =>
      simp only [hx]
      obtain ⟨d1, d2⟩ := deliver_at h s id bytes k (i + 1) (if x.id ≠ id then log ++ [.got l[i] id bytes] else log) (by omega)
      rw [hdrop]
      constructor
      · intro hh
        rw [d1 fun m hm => hh m (List.mem_cons_of_mem _ hm), List.filter_cons]
        simp only [hx]
        by_cases hid : x.id = id
        · simp [hid]
        · simp [hid]
      · intro hh
        apply d2
        intro hd
        apply hh
        intro m hm
        rcases List.mem_cons.mp hm with rfl | hm
        · rw [hx]; simp
        · exact hd m hm

/-- The state is as the client knows. -/
structure Rel (s : St) (v : View) : Prop where
  mods : s.mods = v.mods
  none_ : ∀ a, s.mgrs a = none ↔ v.mgrs a = none
  some_ : ∀ a g n l, s.mgrs a = some g → v.mgrs a = some (n, l) → Lists g n l

theorem Rel.mgr {s : St} {v : View} (h : Rel s v) (a : Nat) :
    (s.mgrs a = none ∧ v.mgrs a = none) ∨ ∃ g n l, s.mgrs a = some g ∧ v.mgrs a = some (n, l) ∧ Lists g n l := by
  cases hs : s.mgrs a with
  | none => exact .inl ⟨rfl, (h.none_ a).mp hs⟩
  | some g =>
    cases hv : v.mgrs a with
    | none => rw [(h.none_ a).mpr hv] at hs; cases hs
    | some x => exact .inr ⟨g, x.1, x.2, rfl, rfl, h.some_ a g x.1 x.2 hs hv⟩

theorem Rel.put {s : St} {v : View} (h : Rel s v) (a : Nat) (x : Option Mgr) (y : Option (Nat × List Nat))
    (hn : x = none ↔ y = none) (hl : ∀ g n l, x = some g → y = some (n, l) → Lists g n l) (md : Nat → Option Mod) (lg : List Ev) :
    Rel ⟨set s.mgrs a x, md, lg⟩ ⟨set v.mgrs a y, md⟩ where
  mods := rfl
  none_ b := by
    simp only [set]
    by_cases hb : b = a
    · rw [if_pos hb, if_pos hb]; exact hn
    · rw [if_neg hb, if_neg hb]; exact h.none_ b
  some_ b g n l := by
    simp only [set]
    by_cases hb : b = a
    · rw [if_pos hb, if_pos hb]; exact hl g n l
    · rw [if_neg hb, if_neg hb]; exact h.some_ b g n l

theorem exec_spec {s : St} {v : View} (h : Rel s v) (op : Op) :
    (v.Allows op → ∃ s', exec s op = .ok s' ∧ Rel s' (v.step op) ∧ s'.log = s.log ++ v.heard op) ∧
    (¬ v.Allows op → exec s op = .ub) := by
  have hm := h.mods
  cases op with
  | makeMgr a n =>
    simp only [View.Allows, exec]
    rcases h.mgr a with ⟨h1, h2⟩ | ⟨g, n', l, h1, h2, h3⟩
    · rw [h1]
      refine ⟨fun _ => ⟨_, rfl, ?_, by simp [View.heard]⟩, fun hn => absurd h2 hn⟩
      have := h.put a (some ⟨List.replicate n none, 0⟩) (some (n, [])) (by simp) (by
        intro g n' l e1 e2
        injection e1 with e1
        injection e2 with e2
        injection e2 with e2 e3
        subst e1 e2 e3
        exact ⟨by simp, rfl, by simp, by intro i hi; simp at hi⟩) s.mods s.log
      simpa [View.step, ← hm] using this
    · rw [h1, h2]
      exact ⟨fun hc => by simp at hc, fun _ => rfl⟩
  | copyMgr a b =>
    simp only [View.Allows, exec]
    rcases h.mgr a with ⟨h1, h2⟩ | ⟨g, n, l, h1, h2, h3⟩
    · rw [h1, h2]
      exact ⟨fun hc => absurd rfl hc.1, fun _ => rfl⟩
    · rcases h.mgr b with ⟨k1, k2⟩ | ⟨g', n', l', k1, k2, k3⟩
      · rw [h1, k1]
        refine ⟨fun _ => ⟨_, rfl, ?_, by simp [View.heard]⟩, fun hn => absurd ⟨by rw [h2]; simp, k2⟩ hn⟩
        have := h.put b (some g) (v.mgrs a) (by rw [h2]; simp) (by
          intro g' n' l' e1 e2
          injection e1 with e1
          subst e1
          exact h.some_ a g n' l' h1 e2) s.mods s.log
        simpa [View.step, ← hm] using this
      · rw [h1, k1]
        exact ⟨fun hc => by rw [k2] at hc; simp at hc, fun _ => rfl⟩
  | assignMgr a b =>
    simp only [View.Allows, exec]
    rcases h.mgr a with ⟨h1, h2⟩ | ⟨g, n, l, h1, h2, h3⟩
    · rw [h1]
      exact ⟨fun ⟨n, l, l', hc, _⟩ => (by rw [h2] at hc; cases hc), fun _ => rfl⟩
    · rcases h.mgr b with ⟨k1, k2⟩ | ⟨g', n', l', k1, k2, k3⟩
      · rw [h1, k1]
        exact ⟨fun ⟨n, l, l', _, hc⟩ => (by rw [k2] at hc; cases hc), fun _ => rfl⟩
      · rw [h1, k1]
        simp only [h3.len, k3.len]
        constructor
        · rintro ⟨n1, l1, l1', e1, e2⟩
          have e1' := h2.symm.trans e1
          have e2' := k2.symm.trans e2
          injection e1' with e1'
          injection e2' with e2'
          injection e1' with e1' _
          injection e2' with e2' _
          rw [if_pos (e1'.trans e2'.symm)]
          refine ⟨_, rfl, ?_, by simp [View.heard]⟩
          have := h.put b (some g) (v.mgrs a) (by rw [h2]; simp) (by
            intro g' n' l' e1 e2
            injection e1 with e1
            subst e1
            exact h.some_ a g n' l' h1 e2) s.mods s.log
          simpa [View.step, ← hm] using this
        · intro hn
          rw [if_neg]
          intro he
          subst he
          exact hn ⟨_, _, _, h2, k2⟩
  | dropMgr a =>
    simp only [View.Allows, exec]
    rcases h.mgr a with ⟨h1, h2⟩ | ⟨g, n, l, h1, h2, h3⟩
    · rw [h1, h2]
      exact ⟨fun hc => absurd rfl hc, fun _ => rfl⟩
    · rw [h1]
      refine ⟨fun _ => ⟨_, rfl, ?_, by simp [View.heard]⟩, fun hn => absurd (by rw [h2]; simp) hn⟩
      have := h.put a none none (by simp) (by intro g n l e; cases e) s.mods s.log
      simpa [View.step, ← hm] using this
  | make m id a =>
    simp only [View.Allows, exec, ← hm]
    cases hx : s.mods m with
    | some x => exact ⟨fun hc => by simp at hc, fun _ => rfl⟩
    | none =>
      rcases h.mgr a with ⟨h1, h2⟩ | ⟨g, n, l, h1, h2, h3⟩
      · rw [h1]
        exact ⟨fun ⟨_, n, l, hc, _⟩ => (by rw [h2] at hc; cases hc), fun _ => rfl⟩
      · rw [h1]
        simp only []
        obtain ⟨a1, a2⟩ := h3.add m
        constructor
        · rintro ⟨_, n1, l1, e1, e2⟩
          have e1' := h2.symm.trans e1
          injection e1' with e1'
          injection e1' with e1' e3
          subst e1' e3
          obtain ⟨g', k1, k2⟩ := a1 e2
          rw [k1, Res.ok_bind]
          refine ⟨_, rfl, ?_, by simp [View.heard]⟩
          have := h.put a (some g') (some (n, l ++ [m])) (by simp) (by
            intro g1 n1 l1 e1 e2
            injection e1 with e1
            injection e2 with e2
            injection e2 with e2 e3
            subst e1 e2 e3
            exact k2) (set s.mods m (some ⟨id, a⟩)) s.log
          simpa [View.step, ← hm, h2] using this
        · intro hn
          rw [a2 fun hl => hn ⟨trivial, n, l, h2, hl⟩]
          rfl
  | copy m k =>
    simp only [View.Allows, exec, ← hm]
    cases hx : s.mods m with
    | none => exact ⟨fun hc => by simp at hc, fun _ => rfl⟩
    | some x =>
      cases hy : s.mods k with
      | some y => exact ⟨fun hc => by simp at hc, fun _ => rfl⟩
      | none =>
        refine ⟨fun _ => ⟨_, rfl, ?_, by simp [View.heard]⟩, fun hn => absurd (by simp) hn⟩
        exact ⟨by simp [View.step, ← hm, hx], h.none_, h.some_⟩
  | drop m =>
    simp only [View.Allows, exec, ← hm]
    cases hx : s.mods m with
    | none => exact ⟨fun ⟨x, _, _, hc, _⟩ => by simp at hc, fun _ => rfl⟩
    | some x =>
      simp only []
      rcases h.mgr x.mgr with ⟨h1, h2⟩ | ⟨g, n, l, h1, h2, h3⟩
      · rw [h1]
        refine ⟨fun ⟨y, n, l, hc, hd, _⟩ => ?_, fun _ => rfl⟩
        injection hc with hc
        subst hc
        rw [h2] at hd; cases hd
      · rw [h1]
        simp only []
        obtain ⟨a1, a2⟩ := h3.remove m
        constructor
        · rintro ⟨y, n1, l1, e0, e1, e2⟩
          injection e0 with e0
          subst e0
          have e1' := h2.symm.trans e1
          injection e1' with e1'
          injection e1' with e1' e3
          subst e1' e3
          obtain ⟨g', k1, k2⟩ := a1 e2
          rw [k1, Res.ok_bind]
          refine ⟨_, rfl, ?_, by simp [View.heard]⟩
          have := h.put x.mgr (some g') (some (n, l.erase m)) (by simp) (by
            intro g1 n1 l1 e1 e2
            injection e1 with e1
            injection e2 with e2
            injection e2 with e2 e3
            subst e1 e2 e3
            exact k2) (set s.mods m none) s.log
          simpa [View.step, ← hm, hx, h2] using this
        · intro hn
          rw [a2 fun hl => hn ⟨x, n, l, rfl, h2, hl⟩]
          rfl
  | send m bytes =>
    simp only [View.Allows, exec, ← hm]
    cases hx : s.mods m with
    | none => exact ⟨fun ⟨x, _, _, hc, _⟩ => by simp at hc, fun _ => rfl⟩
    | some x =>
      simp only []
      rcases h.mgr x.mgr with ⟨h1, h2⟩ | ⟨g, n, l, h1, h2, h3⟩
      · rw [h1]
        refine ⟨fun ⟨y, n, l, hc, hd, _⟩ => ?_, fun _ => rfl⟩
        injection hc with hc
        subst hc
        rw [h2] at hd; cases hd
      · rw [h1]
        simp only []
        obtain ⟨d1, d2⟩ := deliver_at h3 s x.id bytes g.cnt 0 (s.log ++ [.hook x.mgr x.id bytes]) (by rw [h3.cnt]; omega)
        rw [List.drop_zero] at d1 d2
        constructor
        · rintro ⟨y, n1, l1, e0, e1, e2⟩
          injection e0 with e0
          subst e0
          have e1' := h2.symm.trans e1
          injection e1' with e1'
          injection e1' with e1' e3
          subst e1' e3
          rw [d1 e2, Res.ok_bind]
          refine ⟨_, rfl, ⟨by simp [View.step, hm], h.none_, h.some_⟩, ?_⟩
          simp [View.heard, ← hm, hx, View.others, h2]
        · intro hn
          rw [d2 fun hl => hn ⟨x, n, l, rfl, h2, hl⟩]
          rfl
  | cast a id bytes =>
    simp only [View.Allows, exec, ← hm]
    rcases h.mgr a with ⟨h1, h2⟩ | ⟨g, n, l, h1, h2, h3⟩
    · rw [h1]
      exact ⟨fun ⟨n, l, hd, _⟩ => (by rw [h2] at hd; cases hd), fun _ => rfl⟩
    · rw [h1]
      simp only []
      obtain ⟨d1, d2⟩ := deliver_at h3 s id bytes g.cnt 0 s.log (by rw [h3.cnt]; omega)
      rw [List.drop_zero] at d1 d2
      constructor
      · rintro ⟨n1, l1, e1, e2⟩
        have e1' := h2.symm.trans e1
        injection e1' with e1'
        injection e1' with e1' e3
        subst e1' e3
        rw [d1 e2, Res.ok_bind]
        refine ⟨_, rfl, ⟨by simp [View.step, hm], h.none_, h.some_⟩, ?_⟩
        simp [View.heard, ← hm, View.others, h2]
      · intro hn
        rw [d2 fun hl => hn ⟨n, l, h2, hl⟩]
        rfl

theorem run_spec (ops : List Op) : ∀ {s : St} {v : View}, Rel s v →
    (Proper v ops → ∃ s', run ops s = .ok s' ∧ Rel s' (after ops v) ∧ s'.log = s.log ++ hears v ops) ∧
    (¬ Proper v ops → run ops s = .ub) := by
  induction ops with
  | nil => intro s v h; exact ⟨fun _ => ⟨s, rfl, h, by simp [hears]⟩, fun hn => absurd trivial hn⟩
  | cons op ops ih =>
    intro s v h
    obtain ⟨e1, e2⟩ := exec_spec h op
    constructor
    · rintro ⟨h1, h2⟩
      obtain ⟨s1, k1, k2, k3⟩ := e1 h1
      obtain ⟨s2, l1, l2, l3⟩ := (ih k2).1 h2
      refine ⟨s2, by rw [run, k1, Res.ok_bind]; exact l1, l2, ?_⟩
      rw [l3, k3, hears, List.append_assoc]
    · intro hn
      by_cases h1 : v.Allows op
      · obtain ⟨s1, k1, k2, k3⟩ := e1 h1
        rw [run, k1, Res.ok_bind]
        exact (ih k2).2 fun h2 => hn ⟨h1, h2⟩
      · rw [run, e2 h1]; rfl

theorem rel_start : Rel .start .new := ⟨rfl, fun _ => ⟨fun _ => rfl, fun _ => rfl⟩, by intro a g n l h; cases h⟩

/-! ### C164: what is defined, and who is told -/

/-- **C164.** A history is defined exactly if every operation is allowed when its turn comes, and then the hooks and modules called are those
that the lists tell: a module that sends makes its manager call the hook and then `receive` of all modules it lists that send another type,
in the order of the list; a manager that sends does the same without the hook. -/
theorem C164_exact (ops : List Op) :
    (Proper .new ops → ∃ s, run ops .start = .ok s ∧ s.log = hears .new ops) ∧ (¬ Proper .new ops → run ops .start = .ub) := by
  obtain ⟨h1, h2⟩ := run_spec ops rel_start
  refine ⟨fun hp => ?_, h2⟩
  obtain ⟨s, e1, _, e2⟩ := h1 hp
  exact ⟨s, e1, by simpa [St.start] using e2⟩

theorem run_append (ops ops' : List Op) : ∀ (s : St), run (ops ++ ops') s = run ops s >>= run ops' := by
  induction ops with
  | nil => intro s; rfl
  | cons op ops ih =>
    intro s
    rw [List.cons_append, run, run]
    cases exec s op with
    | ok t => simp only [Res.ok_bind]; exact ih t
    | ub => rfl
    | hang => rfl

theorem proper_append (ops ops' : List Op) : ∀ (v : View), Proper v (ops ++ ops') ↔ Proper v ops ∧ Proper (after ops v) ops' := by
  induction ops with
  | nil => intro v; simp [Proper, after]
  | cons op ops ih =>
    intro v
    simp only [List.cons_append, Proper, ih, after, List.foldl_cons, and_assoc]

/-- The states a program comes to. -/
def Came (ops : List Op) (s : St) : Prop := run ops .start = .ok s

theorem Came.rel {ops : List Op} {s : St} (h : Came ops s) : Rel s (after ops .new) := by
  obtain ⟨h1, h2⟩ := run_spec ops rel_start
  by_cases hp : Proper .new ops
  · obtain ⟨s', e1, e2, _⟩ := h1 hp
    rw [Came, e1] at h
    injection h with h
    rw [← h]; exact e2
  · rw [Came, h2 hp] at h; cases h

theorem rel_run {s : St} {v : View} (h : Rel s v) (ops : List Op) :
    (Proper v ops ↔ ∃ s', run ops s = .ok s') ∧ (∀ s', run ops s = .ok s' → s'.log = s.log ++ hears v ops) := by
  obtain ⟨h1, h2⟩ := run_spec ops h
  by_cases hp : Proper v ops
  · obtain ⟨s', e1, _, e2⟩ := h1 hp
    refine ⟨⟨fun _ => ⟨s', e1⟩, fun _ => hp⟩, ?_⟩
    intro t ht
    rw [e1] at ht
    injection ht with ht
    rw [← ht]; exact e2
  · have := h2 hp
    refine ⟨⟨fun h => absurd h hp, ?_⟩, ?_⟩
    · rintro ⟨t, ht⟩; rw [this] at ht; cases ht
    · intro t ht; rw [this] at ht; cases ht

/-- **C164.** Once a manager is destroyed, a module that was constructed with it can neither be destroyed nor send; unless there is another
manager at the address. -/
theorem C164_outlived {ops : List Op} {s : St} (h : Came ops s) (m : Nat) (x : Mod) (hm : s.mods m = some x)
    (hg : s.mgrs x.mgr = none) : exec s (.drop m) = .ub ∧ ∀ bytes, exec s (.send m bytes) = .ub := by
  have hr := h.rel
  have hm' : (after ops .new).mods m = some x := by rw [← hr.mods]; exact hm
  have hg' : (after ops .new).mgrs x.mgr = none := (hr.none_ _).mp hg
  constructor
  · refine (exec_spec hr _).2 ?_
    rintro ⟨y, n, l, e1, e2, _⟩
    rw [hm'] at e1
    injection e1 with e1
    subst e1
    rw [hg'] at e2; cases e2
  · intro bytes
    refine (exec_spec hr _).2 ?_
    rintro ⟨y, n, l, e1, e2, _⟩
    rw [hm'] at e1
    injection e1 with e1
    subst e1
    rw [hg'] at e2; cases e2

/-! Programs without copies -/

/-- Managers are neither copied nor assigned to, and modules are not copied. -/
def Plain : Op → Prop
  | .copyMgr _ _ | .assignMgr _ _ | .copy _ _ => False
  | _ => True

/-- A manager is destroyed only when no module refers to it, so that it outlives its modules. -/
def Outlives (v : View) : List Op → Prop
  | [] => True
  | op :: ops => (∀ a, op = .dropMgr a → ∀ m x, v.mods m = some x → x.mgr ≠ a) ∧ Outlives (v.step op) ops

/-- The lists are those of the modules that exist. -/
structure Tidy (v : View) : Prop where
  mgr : ∀ m x, v.mods m = some x → v.mgrs x.mgr ≠ none
  listed : ∀ a n l, v.mgrs a = some (n, l) → ∀ m, m ∈ l → ∃ x, v.mods m = some x ∧ x.mgr = a
  once : ∀ a n l, v.mgrs a = some (n, l) → l.Nodup

theorem Tidy.step {v : View} (h : Tidy v) {op : Op} (hp : Plain op ∨ ∃ m k, op = .copy m k) (ha : v.Allows op)
    (ho : ∀ a, op = .dropMgr a → ∀ m x, v.mods m = some x → x.mgr ≠ a) : Tidy (v.step op) := by
  cases op with
  | makeMgr a n =>
    have ha : v.mgrs a = none := ha
    refine ⟨?_, ?_, ?_⟩
    · intro m x hm
      simp only [View.step, set]
      split
      · simp
      · exact h.mgr m x hm
    · intro b n' l hb m hml
      simp only [View.step, set] at hb ⊢
      split at hb
      · injection hb with hb; injection hb with hb hb2; subst hb2; cases hml
      · exact h.listed b n' l hb m hml
    · intro b n' l hb
      simp only [View.step, set] at hb
      split at hb
      · injection hb with hb; injection hb with hb hb2; subst hb2; exact List.nodup_nil
      · exact h.once b n' l hb
  | copyMgr a b => rcases hp with hp | ⟨_, _, hp⟩ <;> cases hp
  | assignMgr a b => rcases hp with hp | ⟨_, _, hp⟩ <;> cases hp
  | dropMgr a =>
    refine ⟨?_, ?_, ?_⟩
    · intro m x hm
      simp only [View.step, set]
      rw [if_neg (ho a rfl m x hm)]
      exact h.mgr m x hm
    · intro b n' l hb m hml
      simp only [View.step, set] at hb ⊢
      split at hb
      · cases hb
      · exact h.listed b n' l hb m hml
    · intro b n' l hb
      simp only [View.step, set] at hb
      split at hb
      · cases hb
      · exact h.once b n' l hb
  | make m id a =>
    obtain ⟨hfree, n, l, hg, hl⟩ := ha
    have hnot : ∀ b n' l', v.mgrs b = some (n', l') → m ∉ l' := by
      intro b n' l' hb hm
      obtain ⟨x, hx, _⟩ := h.listed b n' l' hb m hm
      rw [hfree] at hx; cases hx
    refine ⟨?_, ?_, ?_⟩
    · intro m' x hm'
      simp only [View.step, set, hg, Option.map_some] at hm' ⊢
      split at hm'
      · injection hm' with hm'; subst hm'; rw [if_pos rfl]; simp
      · split
        · simp
        · exact h.mgr m' x hm'
    · intro b n' l' hb m' hml
      simp only [View.step, set, hg, Option.map_some] at hb ⊢
      split at hb
      · rename_i hba
        injection hb with hb; injection hb with hb hb2; subst hb2
        rcases List.mem_append.mp hml with hml | hml
        · obtain ⟨x, hx, hxa⟩ := h.listed a n l hg m' hml
          have : m' ≠ m := fun he => hnot a n l hg (he ▸ hml)
          rw [if_neg this]
          exact ⟨x, hx, hxa.trans hba.symm⟩
        · have : m' = m := by simpa using hml
          rw [if_pos this]
          exact ⟨_, rfl, hba.symm⟩
      · obtain ⟨x, hx, hxa⟩ := h.listed b n' l' hb m' hml
        have : m' ≠ m := fun he => hnot b n' l' hb (he ▸ hml)
        rw [if_neg this]
        exact ⟨x, hx, hxa⟩
    · intro b n' l' hb
      simp only [View.step, set, hg, Option.map_some] at hb
      split at hb
      · injection hb with hb; injection hb with hb hb2; subst hb2
        rw [List.nodup_append]
        refine ⟨h.once a n l hg, by simp, ?_⟩
        intro x hx y hy
        have : y = m := by simpa using hy
        subst this
        rintro rfl
        exact hnot a n l hg hx
      · exact h.once b n' l' hb
  | copy m k =>
    obtain ⟨hm, hk⟩ := ha
    refine ⟨?_, ?_, ?_⟩
    · intro m' x hm'
      simp only [View.step, set] at hm' ⊢
      split at hm'
      · exact h.mgr m x hm'
      · exact h.mgr m' x hm'
    · intro b n' l' hb m' hml
      obtain ⟨x, hx, hxa⟩ := h.listed b n' l' hb m' hml
      refine ⟨x, ?_, hxa⟩
      simp only [View.step, set]
      have : m' ≠ k := by rintro rfl; rw [hk] at hx; cases hx
      rw [if_neg this]; exact hx
    · exact h.once
  | drop m =>
    obtain ⟨x, n, l, hx, hg, hl⟩ := ha
    refine ⟨?_, ?_, ?_⟩
    · intro m' y hm'
      simp only [View.step, hx, set, hg, Option.map_some] at hm' ⊢
      split at hm'
      · cases hm'
      · split
        · simp
        · exact h.mgr m' y hm'
    · intro b n' l' hb m' hml
      simp only [View.step, hx, set, hg, Option.map_some] at hb ⊢
      split at hb
      · rename_i hba
        injection hb with hb; injection hb with hb hb2; subst hb2
        have hmem := List.mem_of_mem_erase hml
        obtain ⟨y, hy, hya⟩ := h.listed _ n l hg m' hmem
        have : m' ≠ m := by
          rintro rfl
          exact (h.once _ n l hg).not_mem_erase hml
        rw [if_neg this]
        exact ⟨y, hy, hya.trans hba.symm⟩
      · rename_i hba
        obtain ⟨y, hy, hya⟩ := h.listed b n' l' hb m' hml
        have : m' ≠ m := by
          rintro rfl
          rw [hx] at hy
          injection hy with hy
          subst hy
          exact hba hya.symm
        rw [if_neg this]
        exact ⟨y, hy, hya⟩
    · intro b n' l' hb
      simp only [View.step, hx, set, hg, Option.map_some] at hb
      split at hb
      · injection hb with hb; injection hb with hb hb2; subst hb2
        exact (h.once _ n l hg).erase m
      · exact h.once b n' l' hb
  | send m bytes => exact h
  | cast a id bytes => exact h

theorem tidy_new : Tidy .new where
  mgr m x h := by cases h
  listed a n l h := by cases h
  once a n l h := by cases h

theorem tidy_after (ops : List Op) : ∀ {v : View}, Tidy v → (∀ op ∈ ops, Plain op ∨ ∃ m k, op = .copy m k) → Proper v ops →
    Outlives v ops → Tidy (after ops v) := by
  induction ops with
  | nil => intro v h _ _ _; exact h
  | cons op ops ih =>
    intro v h hp h1 h2
    exact ih (h.step (hp op (by simp)) h1.1 h2.1) (fun o ho => hp o (by simp [ho])) h1.2 h2.2

/-- What the program has to see to by itself: objects that are used exist, objects are constructed where there is none, there is room for a
new module, and no module is destroyed while its manager is full. -/
def Rules (v : View) : List Op → Prop
  | [] => True
  | op :: ops =>
    (match op with
      | .makeMgr a _ => v.mgrs a = none
      | .copyMgr a b => v.mgrs a ≠ none ∧ v.mgrs b = none
      | .assignMgr a b => ∃ n l l', v.mgrs a = some (n, l) ∧ v.mgrs b = some (n, l')
      | .dropMgr a => v.mgrs a ≠ none
      | .make m _ a => v.mods m = none ∧ ∃ n l, v.mgrs a = some (n, l) ∧ l.length < n
      | .copy m k => v.mods m ≠ none ∧ v.mods k = none
      | .drop m => ∃ x, v.mods m = some x ∧ ∀ n l, v.mgrs x.mgr = some (n, l) → l.length < n
      | .send m _ => v.mods m ≠ none
      | .cast a _ _ => v.mgrs a ≠ none) ∧ Rules (v.step op) ops

theorem rules_proper (ops : List Op) : ∀ {v : View}, Tidy v → (∀ op ∈ ops, Plain op ∨ ∃ m k, op = .copy m k) → Outlives v ops →
    Rules v ops → Proper v ops := by
  induction ops with
  | nil => intro v _ _ _ _; trivial
  | cons op ops ih =>
    intro v h hp ho hr
    have ha : v.Allows op := by
      have hr := hr.1
      cases op with
      | makeMgr a n => exact hr
      | copyMgr a b => exact hr
      | assignMgr a b => exact hr
      | dropMgr a => exact hr
      | make m id a => exact hr
      | copy m k => exact hr
      | drop m =>
        obtain ⟨x, hx, hl⟩ := hr
        cases hg : v.mgrs x.mgr with
        | none => exact absurd hg (h.mgr m x hx)
        | some g => exact ⟨x, g.1, g.2, hx, hg, fun _ => hl g.1 g.2 hg⟩
      | send m bytes =>
        cases hx : v.mods m with
        | none => exact absurd hx hr
        | some x =>
          cases hg : v.mgrs x.mgr with
          | none => exact absurd hg (h.mgr m x hx)
          | some g =>
            refine ⟨x, g.1, g.2, hx, hg, ?_⟩
            intro k hk
            obtain ⟨y, hy, _⟩ := h.listed _ _ _ hg k hk
            rw [hy]; simp
      | cast a id bytes =>
        cases hg : v.mgrs a with
        | none => exact absurd hg hr
        | some g =>
          refine ⟨g.1, g.2, hg, ?_⟩
          intro k hk
          obtain ⟨y, hy, _⟩ := h.listed _ _ _ hg k hk
          rw [hy]; simp
    exact ⟨ha, ih (h.step (hp op (by simp)) ha ho.1) (fun o ho => hp o (by simp [ho])) ho.2 hr.2⟩

/-- **C164.** Nothing is undefined in a program that keeps to the rules, never copies or assigns a manager, and destroys a manager only when no
module refers to it; modules may be copied. -/
theorem C164_safe (ops : List Op) (hp : ∀ op ∈ ops, Plain op ∨ ∃ m k, op = .copy m k) (ho : Outlives .new ops) (hr : Rules .new ops) :
    ∃ s, run ops .start = .ok s :=
  (rel_run rel_start ops).1.mp (rules_proper ops tidy_new hp ho hr)

/-- With which manager the module at the address was constructed; none if there is no module there, or one made by copying. -/
def constructed (ops : List Op) (m : Nat) : Option Nat :=
  ops.foldl (fun c op => match op with
    | .make m' _ a => if m' = m then some a else c
    | .copy _ m' => if m' = m then none else c
    | .drop m' => if m' = m then none else c
    | _ => c) none

theorem constructed_snoc (ops : List Op) (op : Op) (m : Nat) : constructed (ops ++ [op]) m = (match op with
    | .make m' _ a => if m' = m then some a else constructed ops m
    | .copy _ m' => if m' = m then none else constructed ops m
    | .drop m' => if m' = m then none else constructed ops m
    | _ => constructed ops m) := by
  unfold constructed
  rw [List.foldl_append]
  rfl

theorem after_snoc (ops : List Op) (op : Op) (v : View) : after (ops ++ [op]) v = (after ops v).step op := by
  unfold after
  rw [List.foldl_append]
  rfl

theorem outlives_append (ops ops' : List Op) : ∀ (v : View), Outlives v (ops ++ ops') ↔ Outlives v ops ∧ Outlives (after ops v) ops' := by
  induction ops with
  | nil => intro v; simp [Outlives, after]
  | cons op ops ih =>
    intro v
    simp only [List.cons_append, Outlives, ih, after, List.foldl_cons, and_assoc]

theorem who (k : Nat) : ∀ (ops : List Op), ops.length = k → (∀ op ∈ ops, Plain op ∨ ∃ m k, op = .copy m k) → Outlives .new ops →
    Proper .new ops → ∀ m a, (constructed ops m = some a ↔ ∃ n l, (after ops .new).mgrs a = some (n, l) ∧ m ∈ l) := by
  induction k with
  | zero =>
    intro ops hl _ _ _ m a
    rw [List.length_eq_zero_iff] at hl
    subst hl
    simp [constructed, after, View.new]
  | succ k ih =>
    intro ops hl hp ho hr m a
    rcases List.eq_nil_or_concat ops with rfl | ⟨ops', op, rfl⟩
    · simp at hl
    rw [List.concat_eq_append] at hl hp ho hr ⊢
    have hp' : ∀ op ∈ ops', Plain op ∨ ∃ m k, op = .copy m k := fun o h => hp o (by simp [h])
    obtain ⟨ho1, ho2⟩ := (outlives_append _ _ _).mp ho
    obtain ⟨hr1, hr2⟩ := (proper_append _ _ _).mp hr
    have ih := fun m a => ih ops' (by simpa using hl) hp' ho1 hr1 m a
    have ht := tidy_after ops' tidy_new hp' hr1 ho1
    have hpo := hp op (by simp)
    have hoo := ho2.1
    have hro := hr2.1
    rw [after_snoc, constructed_snoc]
    clear hp ho hr ho2 hr2
    generalize after ops' .new = v at *
    cases op with
    | makeMgr b n =>
      have hro : v.mgrs b = none := hro
      simp only [View.step, set]
      rw [ih]
      by_cases hab : a = b
      · subst hab
        rw [if_pos rfl, hro]
        constructor
        · rintro ⟨n', l, h, _⟩; cases h
        · rintro ⟨n', l, h, hm⟩; injection h with h; injection h with _ h; subst h; cases hm
      · rw [if_neg hab]
    | copyMgr _ _ => rcases hpo with hp | ⟨_, _, hp⟩ <;> cases hp
    | assignMgr _ _ => rcases hpo with hp | ⟨_, _, hp⟩ <;> cases hp
    | dropMgr b =>
      simp only [View.step, set]
      rw [ih]
      by_cases hab : a = b
      · subst hab
        rw [if_pos rfl]
        constructor
        · rintro ⟨n', l, h, hm⟩
          obtain ⟨x, hx, hxa⟩ := ht.listed a n' l h m hm
          exact absurd hxa (hoo a rfl m x hx)
        · rintro ⟨n', l, h, _⟩; cases h
      · rw [if_neg hab]
    | make m' id b =>
      obtain ⟨hfree, n, l, hg, hl⟩ := hro
      simp only [View.step, set, hg, Option.map_some]
      by_cases hmm : m' = m
      · subst hmm
        rw [if_pos rfl]
        by_cases hab : a = b
        · subst hab
          rw [if_pos rfl]
          exact ⟨fun _ => ⟨n, l ++ [m'], rfl, by simp⟩, fun _ => rfl⟩
        · rw [if_neg hab]
          constructor
          · intro h; injection h with h; exact absurd h.symm hab
          · rintro ⟨n', l', h, hm⟩
            obtain ⟨x, hx, _⟩ := ht.listed a n' l' h m' hm
            rw [hfree] at hx; cases hx
      · rw [if_neg hmm, ih]
        by_cases hab : a = b
        · subst hab
          rw [if_pos rfl, hg]
          constructor
          · rintro ⟨n', l', h, hm⟩
            injection h with h; injection h with h1 h2; subst h1 h2
            exact ⟨_, _, rfl, by simp [hm]⟩
          · rintro ⟨n', l', h, hm⟩
            injection h with h; injection h with h1 h2; subst h1 h2
            refine ⟨_, _, rfl, ?_⟩
            rcases List.mem_append.mp hm with hm | hm
            · exact hm
            · exact absurd (by simpa using hm) (Ne.symm hmm)
        · rw [if_neg hab]
    | copy m' k' =>
      simp only [View.step]
      by_cases hmm : k' = m
      · subst hmm
        rw [if_pos rfl]
        constructor
        · intro h; cases h
        · rintro ⟨n', l', h, hm⟩
          obtain ⟨x, hx, _⟩ := ht.listed a n' l' h k' hm
          rw [hro.2] at hx; cases hx
      · rw [if_neg hmm, ih]
    | drop m' =>
      obtain ⟨x, n, l, hx, hg, hl⟩ := hro
      simp only [View.step, hx, set, hg, Option.map_some]
      by_cases hmm : m' = m
      · subst hmm
        rw [if_pos rfl]
        constructor
        · intro h; cases h
        · rintro ⟨n', l', h, hm⟩
          by_cases hab : a = x.mgr
          · rw [if_pos hab] at h
            injection h with h; injection h with h1 h2; subst h1 h2
            exact absurd hm (ht.once _ _ _ hg).not_mem_erase
          · rw [if_neg hab] at h
            obtain ⟨y, hy, hya⟩ := ht.listed a n' l' h m' hm
            rw [hx] at hy
            injection hy with hy
            subst hy
            exact absurd hya.symm hab
      · rw [if_neg hmm, ih]
        by_cases hab : a = x.mgr
        · subst hab
          rw [if_pos rfl, hg]
          constructor
          · rintro ⟨n', l', h, hm⟩
            injection h with h; injection h with h1 h2; subst h1 h2
            exact ⟨_, _, rfl, (List.mem_erase_of_ne (Ne.symm hmm)).mpr hm⟩
          · rintro ⟨n', l', h, hm⟩
            injection h with h; injection h with h1 h2; subst h1 h2
            exact ⟨_, _, rfl, List.mem_of_mem_erase hm⟩
        · rw [if_neg hab]
    | send _ _ => exact ih m a
    | cast _ _ _ => exact ih m a

theorem mem_others {v : View} {a id k : Nat} (h : k ∈ v.others a id) : ∃ n l, v.mgrs a = some (n, l) ∧ k ∈ l := by
  unfold View.others at h
  split at h
  · rename_i n l hg
    exact ⟨n, l, hg, (List.mem_filter.mp h).1⟩
  · cases h

/-- **C164.** In such a program a manager calls exactly those modules that were constructed with it, exist and send another type, each
once. -/
theorem C164_who (ops : List Op) (s s' : St) (hp : ∀ op ∈ ops, Plain op ∨ ∃ m k, op = .copy m k) (ho : Outlives .new ops)
    (hc : Came ops s) (a id : Nat) (bytes : List Byte) (hx : exec s (.cast a id bytes) = .ok s') :
    ∃ l : List Nat, s'.log = s.log ++ l.map (fun k => .got k id bytes) ∧ l.Nodup ∧
      ∀ m, m ∈ l ↔ constructed ops m = some a ∧ ∃ x, s.mods m = some x ∧ x.id ≠ id := by
  have hr := hc.rel
  have hpr : Proper .new ops := (rel_run rel_start ops).1.mpr ⟨s, hc⟩
  have ht := tidy_after ops tidy_new hp hpr ho
  have hw := who _ ops rfl hp ho hpr
  obtain ⟨e1, e2⟩ := exec_spec hr (.cast a id bytes)
  by_cases ha : (after ops .new).Allows (.cast a id bytes)
  · obtain ⟨t, k1, _, k3⟩ := e1 ha
    rw [hx] at k1
    injection k1 with k1
    subst k1
    obtain ⟨n, l, hg, hall⟩ := ha
    refine ⟨(after ops .new).others a id, k3, ?_, ?_⟩
    · simp only [View.others, hg]
      exact (ht.once a n l hg).filter _
    · intro m
      rw [hw, hr.mods]
      simp only [View.others, hg, List.mem_filter]
      constructor
      · rintro ⟨h1, h2⟩
        refine ⟨⟨n, l, rfl, h1⟩, ?_⟩
        cases hm : (after ops .new).mods m with
        | none => rw [hm] at h2; cases h2
        | some x => rw [hm] at h2; exact ⟨x, rfl, by simpa using h2⟩
      · rintro ⟨⟨n', l', h1, h2⟩, x, h3, h4⟩
        injection h1 with h1; injection h1 with h5 h6; subst h5 h6
        refine ⟨h2, ?_⟩
        rw [h3]; simpa using h4
  · rw [e2 ha] at hx; cases hx

/-! ### C165: copies of modules -/

/-- Full statement of C165: a module made by copying gets the messages of its type like one that was constructed. -/
def C165_Statement : Prop :=
  ∀ (ops : List Op) (s s' : St) (m k : Nat) (x : Mod) (id : Nat) (bytes : List Byte), Came ops s →
    run [.copy m k, .cast x.mgr id bytes] s = .ok s' → s.mods m = some x → x.id ≠ id → .got k id bytes ∈ s'.log.drop s.log.length

/-- **C165.** A module made by copying is told nothing, by no manager and whatever is sent, as long as managers are not copied and outlive
their modules. -/
theorem C165_silent (ops : List Op) (s s' : St) (op : Op) (hp : ∀ o ∈ ops, Plain o ∨ ∃ m k, o = .copy m k) (ho : Outlives .new ops)
    (hc : Came ops s) (k : Nat) (hk : constructed ops k = none) (hx : exec s op = .ok s') :
    ∀ id bytes, .got k id bytes ∉ s'.log.drop s.log.length := by
  intro id bytes hmem
  have hr := hc.rel
  have hpr : Proper .new ops := (rel_run rel_start ops).1.mpr ⟨s, hc⟩
  have hw := who _ ops rfl hp ho hpr
  have hno : ∀ a n l, (after ops .new).mgrs a = some (n, l) → k ∉ l := by
    intro a n l h1 h2
    have := (hw k a).mpr ⟨n, l, h1, h2⟩
    rw [hk] at this; cases this
  obtain ⟨e1, e2⟩ := exec_spec hr op
  by_cases ha : (after ops .new).Allows op
  · obtain ⟨t, k1, _, k3⟩ := e1 ha
    rw [hx] at k1
    injection k1 with k1
    subst k1
    rw [k3, List.drop_left] at hmem
    cases op with
    | send m bytes' =>
      simp only [View.heard] at hmem
      split at hmem
      · simp only [List.mem_cons, List.mem_map, reduceCtorEq, false_or] at hmem
        obtain ⟨k', h1, h2⟩ := hmem
        injection h2 with h2
        subst h2
        obtain ⟨n, l, h3, h4⟩ := mem_others h1
        exact hno _ n l h3 h4
      · cases hmem
    | cast a id' bytes' =>
      simp only [View.heard, List.mem_map] at hmem
      obtain ⟨k', h1, h2⟩ := hmem
      injection h2 with h2
      subst h2
      obtain ⟨n, l, h3, h4⟩ := mem_others h1
      exact hno _ n l h3 h4
    | makeMgr _ _ => cases hmem
    | copyMgr _ _ => cases hmem
    | assignMgr _ _ => cases hmem
    | dropMgr _ => cases hmem
    | make _ _ _ => cases hmem
    | copy _ _ => cases hmem
    | drop _ => cases hmem
  · rw [e2 ha] at hx; cases hx

/-- **C165.** A copy can be destroyed at any time and nobody notices: afterwards every manager calls whom it would have called. -/
theorem C165_dies (ops : List Op) (s : St) (hp : ∀ o ∈ ops, Plain o ∨ ∃ m k, o = .copy m k) (ho : Outlives .new ops)
    (hc : Came ops s) (k : Nat) (x : Mod) (hk : s.mods k = some x) (hn : constructed ops k = none) :
    ∃ s', exec s (.drop k) = .ok s' ∧ s'.log = s.log ∧ ∀ a id bytes t, exec s (.cast a id bytes) = .ok t →
      ∃ t', exec s' (.cast a id bytes) = .ok t' ∧ t'.log = t.log := by
  have hr := hc.rel
  have hpr : Proper .new ops := (rel_run rel_start ops).1.mpr ⟨s, hc⟩
  have hw := who _ ops rfl hp ho hpr
  have ht := tidy_after ops tidy_new hp hpr ho
  have hno : ∀ a n l, (after ops .new).mgrs a = some (n, l) → k ∉ l := by
    intro a n l h1 h2
    have := (hw k a).mpr ⟨n, l, h1, h2⟩
    rw [hn] at this; cases this
  rw [hr.mods] at hk
  generalize hv : after ops .new = v at *
  cases hg : v.mgrs x.mgr with
  | none => exact absurd hg (ht.mgr k x hk)
  | some g =>
    obtain ⟨n, l⟩ := g
    obtain ⟨s', e1, e2, e3⟩ := (exec_spec hr (.drop k)).1 ⟨x, n, l, hk, hg, fun h => absurd h (hno _ _ _ hg)⟩
    have hmg : (v.step (.drop k)).mgrs = v.mgrs := by
      funext a
      simp only [View.step, hk, set, hg, Option.map_some, List.erase_of_not_mem (hno _ _ _ hg)]
      split
      · rename_i h; rw [h, hg]
      · rfl
    have hmd : ∀ m, m ≠ k → (v.step (.drop k)).mods m = v.mods m := by
      intro m hm
      simp only [View.step, hk, set, if_neg hm]
    refine ⟨s', e1, by simpa [View.heard] using e3, ?_⟩
    intro a id bytes t htt
    obtain ⟨c1, c2⟩ := exec_spec hr (.cast a id bytes)
    by_cases ha : v.Allows (.cast a id bytes)
    · obtain ⟨t0, d1, _, d3⟩ := c1 ha
      rw [htt] at d1
      injection d1 with d1
      subst d1
      obtain ⟨n1, l1, f1, f2⟩ := ha
      have hne : ∀ m ∈ l1, m ≠ k := by rintro m hm rfl; exact hno _ _ _ f1 hm
      obtain ⟨t', g1, _, g3⟩ := (exec_spec e2 (.cast a id bytes)).1 ⟨n1, l1, by rw [hmg]; exact f1, fun m hm => by
        rw [hmd m (hne m hm)]; exact f2 m hm⟩
      refine ⟨t', g1, ?_⟩
      rw [g3, d3, e3]
      simp only [View.heard, List.append_nil]
      congr 1
      congr 1
      simp only [View.others, hmg, f1]
      apply List.filter_congr
      intro m hm
      rw [hmd m (hne m hm)]
    · rw [c2 ha] at htt; cases htt

/-- **C165.** What a copy sends is sent as by the original: to the same manager, under the same id. -/
theorem C165_sends (ops : List Op) (s : St) (hc : Came ops s) (m k : Nat) (bytes : List Byte) (t : St)
    (hx : run [.copy m k, .send m bytes] s = .ok t) (hk : ∀ a n l, (after ops .new).mgrs a = some (n, l) → k ∉ l) :
    ∃ t', run [.copy m k, .send k bytes] s = .ok t' ∧ t'.log = t.log ∧ ∃ (x : Mod) (l : List Nat), s.mods m = some x ∧
      t.log = s.log ++ .hook x.mgr x.id bytes :: l.map (fun j => .got j x.id bytes) ∧ m ∉ l ∧ k ∉ l := by
  have hr := hc.rel
  generalize hv : after ops .new = v at *
  have hpr := (rel_run hr _).1.mpr ⟨t, hx⟩
  have hlog := (rel_run hr _).2 t hx
  obtain ⟨h1, h2, _⟩ := hpr
  obtain ⟨x, n, l, e1, e2, e3⟩ := h2
  have hmk : m ≠ k := by rintro rfl; exact h1.1 h1.2
  have hxm : v.mods m = some x := by simpa [View.step, set, hmk] using e1
  have hxk : (v.step (.copy m k)).mods k = some x := by simp [View.step, set, hxm]
  have hpr' : Proper v [.copy m k, .send k bytes] := ⟨h1, ⟨x, n, l, hxk, e2, e3⟩, trivial⟩
  obtain ⟨t', k1⟩ := (rel_run hr _).1.mp hpr'
  have hlog' := (rel_run hr _).2 t' k1
  have hh : hears v [.copy m k, .send m bytes] =
      .hook x.mgr x.id bytes :: ((v.step (.copy m k)).others x.mgr x.id).map (fun j => .got j x.id bytes) := by
    simp only [hears, View.heard, e1, List.nil_append, List.append_nil]
  have hh' : hears v [.copy m k, .send k bytes] =
      .hook x.mgr x.id bytes :: ((v.step (.copy m k)).others x.mgr x.id).map (fun j => .got j x.id bytes) := by
    simp only [hears, View.heard, hxk, List.nil_append, List.append_nil]
  refine ⟨t', k1, by rw [hlog', hlog, hh, hh'], x, (v.step (.copy m k)).others x.mgr x.id, by rw [hr.mods]; exact hxm,
    by rw [hlog, hh], ?_, ?_⟩
  · intro hm
    unfold View.others at hm
    rw [e2] at hm
    have := (List.mem_filter.mp hm).2
    rw [e1] at this
    simp at this
  · intro hm
    obtain ⟨n', l', f1, f2⟩ := mem_others hm
    exact hk _ n' l' f1 f2

/-- **C165.** Moving a module to another place (a vector that grows, a function that returns a module) takes it off the list: the new object is
told nothing any more. -/
theorem C165_moved (ops : List Op) (s s' t : St) (m k : Nat) (hp : ∀ o ∈ ops, Plain o ∨ ∃ m k, o = .copy m k) (ho : Outlives .new ops)
    (hc : Came ops s) (hx : run [.copy m k, .drop m] s = .ok s') (op : Op) (ht : exec s' op = .ok t) :
    ∀ id bytes, .got k id bytes ∉ t.log.drop s'.log.length := by
  have hc' : Came (ops ++ [.copy m k, .drop m]) s' := by
    rw [Came, run_append, hc, Res.ok_bind]; exact hx
  refine C165_silent (ops ++ [.copy m k, .drop m]) s' t op ?_ ?_ hc' k ?_ ht
  · intro o hmem
    simp only [List.mem_append, List.mem_cons, List.not_mem_nil, or_false] at hmem
    rcases hmem with h | rfl | rfl
    · exact hp o h
    · exact .inr ⟨m, k, rfl⟩
    · exact .inl trivial
  · rw [outlives_append]
    exact ⟨ho, (by intro a h; cases h), (by intro a h; cases h), trivial⟩
  · have : ops ++ [.copy m k, .drop m] = (ops ++ [.copy m k]) ++ [.drop m] := by simp
    rw [this, constructed_snoc, constructed_snoc]
    simp only []
    split <;> simp

/-! ### C166: copies of managers -/

/-- Full statement of C166: a copy of a manager may be used like the original, whatever becomes of the original's modules afterwards. -/
def C166_Statement : Prop :=
  ∀ (ops ops' : List Op) (s s' : St) (a b id : Nat) (bytes : List Byte), Came ops s → run (.copyMgr a b :: ops') s = .ok s' →
    (∀ o ∈ ops', o ≠ .dropMgr b) → exec s' (.cast b id bytes) ≠ .ub

/-- **C166 (partial).** Right after it was made, a copy of a manager calls whom the original calls, and is undefined if that is.
Missing: what follows when modules come or go, for which it is false (`C166_dangling`, `C166_later`). -/
theorem C166_same_partial (ops : List Op) (s s' : St) (hc : Came ops s) (a b id : Nat) (bytes : List Byte)
    (hx : exec s (.copyMgr a b) = .ok s') : (exec s' (.cast b id bytes) = .ub ↔ exec s' (.cast a id bytes) = .ub) ∧
      ∀ t t', exec s' (.cast a id bytes) = .ok t → exec s' (.cast b id bytes) = .ok t' → t.log = t'.log := by
  have hr := hc.rel
  obtain ⟨e1, e2⟩ := exec_spec hr (.copyMgr a b)
  by_cases ha : (after ops .new).Allows (.copyMgr a b)
  · obtain ⟨s1, k1, k2, _⟩ := e1 ha
    rw [hx] at k1
    injection k1 with k1
    subst k1
    generalize hv : after ops .new = v at *
    have hab : a ≠ b := by rintro rfl; exact ha.1 ha.2
    have hba : (v.step (.copyMgr a b)).mgrs b = (v.step (.copyMgr a b)).mgrs a := by simp [View.step, set, hab]
    generalize v.step (.copyMgr a b) = w at *
    have hal : w.Allows (.cast b id bytes) ↔ w.Allows (.cast a id bytes) := by simp only [View.Allows, hba]
    have hhe : w.heard (.cast b id bytes) = w.heard (.cast a id bytes) := by simp only [View.heard, View.others, hba]
    obtain ⟨a1, a2⟩ := exec_spec k2 (.cast a id bytes)
    obtain ⟨b1, b2⟩ := exec_spec k2 (.cast b id bytes)
    by_cases hw : w.Allows (.cast a id bytes)
    · obtain ⟨t, c1, _, c3⟩ := a1 hw
      obtain ⟨t', d1, _, d3⟩ := b1 (hal.mpr hw)
      refine ⟨by rw [c1, d1]; simp, ?_⟩
      intro u u' hu hu'
      rw [c1] at hu
      rw [d1] at hu'
      injection hu with hu
      injection hu' with hu'
      rw [← hu, ← hu', c3, d3, hhe]
    · have h1 := a2 hw
      have h2 := b2 fun h => hw (hal.mp h)
      refine ⟨by rw [h1, h2], ?_⟩
      intro u u' hu
      rw [h1] at hu; cases hu
  · rw [e2 ha] at hx; cases hx

/-- **C166.** The copy is not told when modules of the original are destroyed: after that everything it sends is undefined, until there is
another module at the address. -/
theorem C166_dangling (ops : List Op) (s s' : St) (hc : Came ops s) (a b m n : Nat) (l : List Nat) (x : Mod)
    (hg : (after ops .new).mgrs a = some (n, l)) (hl : m ∈ l) (hm : s.mods m = some x) (hxa : x.mgr = a)
    (hx : run [.copyMgr a b, .drop m] s = .ok s') (id : Nat) (bytes : List Byte) : exec s' (.cast b id bytes) = .ub := by
  have hr := hc.rel
  have hc' : Came (ops ++ [.copyMgr a b, .drop m]) s' := by
    rw [Came, run_append, hc, Res.ok_bind]; exact hx
  have hr' := hc'.rel
  have hpr := (rel_run hr _).1.mpr ⟨s', hx⟩
  refine (exec_spec hr' _).2 ?_
  rw [hr.mods] at hm
  have : after (ops ++ [.copyMgr a b, .drop m]) .new = ((after ops .new).step (.copyMgr a b)).step (.drop m) := by
    unfold after; rw [List.foldl_append]; rfl
  rw [this]
  generalize after ops .new = v at *
  have hab : a ≠ b := by rintro rfl; exact hpr.1.1 hpr.1.2
  rintro ⟨n', l', e1, e2⟩
  have hb : ((v.step (.copyMgr a b)).step (.drop m)).mgrs b = some (n, l) := by
    simp only [View.step, hm, set]
    rw [if_neg (by rw [hxa]; exact Ne.symm hab)]
    simp [hg]
  rw [hb] at e1
  injection e1 with e1
  injection e1 with e1 e3
  subst e3
  apply e2 m hl
  simp [View.step, hm, set]

/-- **C166.** Nor is it told of modules constructed later: they get nothing that the copy sends. -/
theorem C166_later (ops : List Op) (s s' t : St) (hc : Came ops s) (a b m id' : Nat)
    (hm : ∀ n l, (after ops .new).mgrs a = some (n, l) → m ∉ l) (hx : run [.copyMgr a b, .make m id' a] s = .ok s')
    (id : Nat) (bytes : List Byte) (ht : exec s' (.cast b id bytes) = .ok t) : .got m id bytes ∉ t.log.drop s'.log.length := by
  have hr := hc.rel
  have hc' : Came (ops ++ [.copyMgr a b, .make m id' a]) s' := by
    rw [Came, run_append, hc, Res.ok_bind]; exact hx
  have hr' := hc'.rel
  have hpr := (rel_run hr _).1.mpr ⟨s', hx⟩
  have hw : after (ops ++ [.copyMgr a b, .make m id' a]) .new = ((after ops .new).step (.copyMgr a b)).step (.make m id' a) := by
    unfold after; rw [List.foldl_append]; rfl
  obtain ⟨e1, e2⟩ := exec_spec hr' (.cast b id bytes)
  by_cases ha : (after (ops ++ [.copyMgr a b, .make m id' a]) .new).Allows (.cast b id bytes)
  · obtain ⟨t', k1, _, k3⟩ := e1 ha
    rw [ht] at k1
    injection k1 with k1
    subst k1
    rw [k3, List.drop_left]
    intro hmem
    simp only [View.heard, List.mem_map] at hmem
    obtain ⟨k', h1, h2⟩ := hmem
    injection h2 with h2
    subst h2
    obtain ⟨n, l, h3, h4⟩ := mem_others h1
    rw [hw] at h3
    have hab : a ≠ b := by rintro rfl; exact hpr.1.1 hpr.1.2
    refine hm n l ?_ h4
    simpa [View.step, set, hab, Ne.symm hab] using h3
  · rw [e2 ha] at ht; cases ht

/-- **C166.** Assigning to a manager makes it forget its modules: those that the other one does not list get nothing any more. -/
theorem C166_assigned (ops : List Op) (s s' t : St) (hc : Came ops s) (a b m : Nat)
    (hm : ∀ n l, (after ops .new).mgrs a = some (n, l) → m ∉ l) (hx : exec s (.assignMgr a b) = .ok s')
    (id : Nat) (bytes : List Byte) (ht : exec s' (.cast b id bytes) = .ok t) : .got m id bytes ∉ t.log.drop s'.log.length := by
  have hr := hc.rel
  have hc' : Came (ops ++ [.assignMgr a b]) s' := by
    rw [Came, run_append, hc, Res.ok_bind, run, hx]; rfl
  have hr' := hc'.rel
  obtain ⟨e1, e2⟩ := exec_spec hr' (.cast b id bytes)
  by_cases ha : (after (ops ++ [.assignMgr a b]) .new).Allows (.cast b id bytes)
  · obtain ⟨t', k1, _, k3⟩ := e1 ha
    rw [ht] at k1
    injection k1 with k1
    subst k1
    rw [k3, List.drop_left]
    intro hmem
    simp only [View.heard, List.mem_map] at hmem
    obtain ⟨k', h1, h2⟩ := hmem
    injection h2 with h2
    subst h2
    obtain ⟨n, l, h3, h4⟩ := mem_others h1
    rw [after_snoc] at h3
    refine hm n l ?_ h4
    simpa [View.step, set] using h3
  · rw [e2 ha] at ht; cases ht

/-! ### Examples -/

/-- The log of a history that is defined. -/
def logOf (r : Res St) : Option (List Ev) :=
  match r with
  | .ok s => some s.log
  | _ => none

/-- A manager with four places at 1 and two modules of the types 7 and 8. -/
def base : List Op := [.makeMgr 1 4, .make 10 7 1, .make 11 8 1]

example : logOf (run (base ++ [.send 10 [1], .cast 1 9 [2], .drop 10, .cast 1 9 [3], .drop 11, .dropMgr 1]) .start) =
    some [.hook 1 7 [1], .got 11 7 [1], .got 10 9 [2], .got 11 9 [2], .got 11 9 [3]] := by
  decide +kernel

/-- The hypotheses of `C164_safe` hold for a program that constructs, copies, sends and destroys. -/
example : (∀ op ∈ base ++ [.copy 10 12, .send 12 [1], .drop 10, .drop 12, .drop 11, .dropMgr 1], Plain op ∨ ∃ m k, op = Op.copy m k) ∧
    logOf (run (base ++ [.copy 10 12, .send 12 [1], .drop 10, .drop 12, .drop 11, .dropMgr 1]) .start) = some [.hook 1 7 [1], .got 11 7 [1]] := by
  constructor
  · intro op h
    simp only [base, List.cons_append, List.nil_append, List.mem_cons, List.not_mem_nil, or_false] at h
    rcases h with h | h | h | h | h | h | h | h | h <;> subst h <;> simp [Plain]
  · decide +kernel

/-- And the manager outlives the modules there. -/
example : Outlives .new (base ++ [.copy 10 12, .send 12 [1], .drop 10, .drop 12, .drop 11, .dropMgr 1]) := by
  simp only [base, List.cons_append, List.nil_append, Outlives]
  refine ⟨(by intro a h; cases h), (by intro a h; cases h), (by intro a h; cases h), (by intro a h; cases h), (by intro a h; cases h),
    (by intro a h; cases h), (by intro a h; cases h), (by intro a h; cases h), ?_, trivial⟩
  intro a _ m x hx
  by_cases h1 : m = 10 <;> by_cases h2 : m = 11 <;> by_cases h3 : m = 12 <;> simp [View.step, View.new, set, h1, h2, h3] at hx

/-- Who was constructed with the manager there: the copy was not. -/
example : constructed (base ++ [.copy 10 12]) 10 = some 1 ∧ constructed (base ++ [.copy 10 12]) 12 = none := by
  decide

/-- A manager that is destroyed before its modules: `C164_outlived`. -/
example : run (base ++ [.dropMgr 1, .drop 10]) .start = .ub := by
  rfl

theorem C165_refuted : ¬ C165_Statement := by
  intro h
  have hc : Came base (match run base .start with | .ok s => s | _ => .start) := rfl
  have := h base _ (match run (base ++ [.copy 10 12, .cast 1 9 [5]]) .start with | .ok s => s | _ => .start) 10 12 ⟨7, 1⟩ 9 [5] hc rfl rfl
    (by decide)
  revert this
  decide +kernel

/-- The module is moved from 10 to 12 and is told nothing any more. -/
example : logOf (run (base ++ [.copy 10 12, .drop 10, .cast 1 9 [5]]) .start) = some [.got 11 9 [5]] := by
  decide +kernel

theorem C166_refuted : ¬ C166_Statement := by
  intro h
  have hc : Came base (match run base .start with | .ok s => s | _ => .start) := rfl
  refine h base [.drop 10] _ (match run (base ++ [.copyMgr 1 2, .drop 10]) .start with | .ok s => s | _ => .start) 1 2 9 [5] hc rfl
    (by simp) rfl

end Verif.Mediator.Copies
