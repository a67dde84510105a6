import Verif.Values.RacesProps
/-!
The accesses that are recorded for `values::observable` and `values::observed` are those that the steps make: what changes in a step
is among what it writes, and what a call does depends only on what it has read (C110, C111).
-/
namespace Verif.Values.HB
open Verif Verif.HB Verif.Values

/-- What is in place `i` of the list, if there is such a place (values/observable.hpp:245, 485). -/
def place : Reg → Nat → Option (Option Nat)
  | .fixed arr _, i => arr[i]?
  | .dyn vec, i => vec[i]?.map some

/-- `count_`, or the size of the vector (values/observable.hpp:249, 485). -/
def len : Reg → Nat
  | .fixed _ count => count
  | .dyn vec => vec.length

/-- `std::remove` writes each place whose content it changes. -/
theorem removeOps_writes (o : Nat) : ∀ (l : List (Option Nat)) (i w j : Nat), w ≤ i →
    j < (l.filter (fun y => decide (y ≠ some o))).length →
    .acc (.slot (w + j)) true 1 ∈ removeOps o l i w ∨ (w = i ∧ (l.filter (fun y => decide (y ≠ some o)))[j]? = l[j]?)
  | [], i, w, j, _, hj => by simp at hj
  | p :: l, i, w, j, hwi, hj => by
    unfold removeOps
    by_cases hp : p = some o
    · rw [if_pos hp]
      rw [List.filter_cons_of_neg (by simpa using hp)] at hj
      rcases removeOps_writes o l (i + 1) w j (by omega) hj with h | ⟨h, _⟩
      · exact .inl (List.mem_cons_of_mem _ h)
      · omega
    · rw [if_neg hp]
      rw [List.filter_cons_of_pos (by simpa using hp)] at hj ⊢
      cases j with
      | zero =>
        by_cases hw : w < i
        · exact .inl (by simp [hw])
        · exact .inr ⟨by omega, rfl⟩
      | succ j =>
        simp only [List.length_cons, Nat.add_lt_add_iff_right] at hj
        rcases removeOps_writes o l (i + 1) (w + 1) j (by omega) hj with h | ⟨h, h2⟩
        · rw [show w + 1 + j = w + (j + 1) by omega] at h
          exact .inl (List.mem_cons_of_mem _ (List.mem_append_right _ h))
        · exact .inr ⟨by omega, by simpa using h2⟩

theorem removeOps_changes {o : Nat} {l : List (Option Nat)} {k : Nat}
    (h : (stdRemove (some o) l).1[k]? ≠ l[k]?) : .acc (.slot k) true 1 ∈ removeOps o l 0 0 := by
  simp only [stdRemove] at h
  by_cases hk : k < (l.filter (fun y => decide (y ≠ some o))).length
  · rcases removeOps_writes o l 0 0 k (Nat.le_refl 0) hk with h1 | ⟨_, h1⟩
    · simpa using h1
    · rw [List.getElem?_append_left hk] at h
      exact absurd h1 h
  · rw [List.getElem?_append_right (by omega), List.getElem?_drop] at h
    exact absurd (congrArg (l[·]?) (by omega)) h

/-- `std::remove` reads all places. -/
theorem removeOps_readsAll (o : Nat) : ∀ (l : List (Option Nat)) (i w j : Nat), j < l.length →
    .acc (.slot (i + j)) false 0 ∈ removeOps o l i w
  | [], i, w, j, h => by simp at h
  | p :: l, i, w, 0, _ => by simp [removeOps]
  | p :: l, i, w, j + 1, h => by
    unfold removeOps
    refine List.mem_cons_of_mem _ ?_
    have ih := fun w => removeOps_readsAll o l (i + 1) w j (by simpa using h)
    rw [show i + (j + 1) = i + 1 + j by omega]
    split
    · exact ih _
    · exact List.mem_append_right _ (ih _)

theorem readOps_readsAll : ∀ (n i j : Nat), j < n → .acc (.slot (i + j)) false 0 ∈ readOps i n
  | 0, i, j, h => by omega
  | n + 1, i, 0, _ => by simp [readOps]
  | n + 1, i, j + 1, h => by
    unfold readOps
    rw [show i + (j + 1) = i + 1 + j by omega]
    exact List.mem_cons_of_mem _ (readOps_readsAll n (i + 1) j (by omega))

/-- What `contains` finds depends only on the places it has read. -/
theorem findOps_depends (o : Nat) : ∀ (l l1 : List (Option Nat)) (i : Nat), l1.length = l.length →
    (∀ j, j < l.length → .acc (.slot (i + j)) false 0 ∈ findOps o l i → l1[j]? = l[j]?) → (some o ∈ l1 ↔ some o ∈ l)
  | [], l1, i, hl, _ => by
    have : l1 = [] := List.length_eq_zero_iff.1 (by simpa using hl)
    rw [this]
  | p :: l, [], i, hl, _ => by simp at hl
  | p :: l, p1 :: l1, i, hl, h => by
    have h0 := h 0 (by simp) (by simp [findOps])
    simp only [List.getElem?_cons_zero, Option.some.injEq] at h0
    subst h0
    by_cases hp : p1 = some o
    · simp [hp]
    · have ih := findOps_depends o l l1 (i + 1) (by simpa using hl) (fun j hj hm => by
        have := h (j + 1) (by simpa using hj) (by
          unfold findOps
          rw [if_neg hp, show i + (j + 1) = i + 1 + j by omega]
          exact List.mem_cons_of_mem _ hm)
        simpa using this)
      simp only [List.mem_cons]
      rw [ih]

theorem containsArr_mem {o : Nat} {arr : List (Option Nat)} : ∀ (n i : Nat), i + n ≤ arr.length →
    containsArr o arr n i = .ok (decide (some o ∈ (arr.drop i).take n))
  | 0, i, _ => by simp [containsArr]
  | n + 1, i, h => by
    have hi : i < arr.length := by omega
    rw [containsArr, List.getElem?_eq_getElem hi, List.drop_eq_getElem_cons hi, List.take_succ_cons]
    dsimp only
    by_cases hp : arr[i] = some o
    · simp [hp]
    · rw [if_neg hp, containsArr_mem n (i + 1) (by omega)]
      simp [Ne.symm hp]

/-- The changes that a call of `add_observer`, `remove_observer`, `clear_observers` or `on_update` makes. -/
theorem config_changes {T : IntTy} {s : St} {op : Values.Op} {r : St × Ret} (hop : isUpdate op = false) (h : exec T s op = .ok r) :
    r.1.value = s.value ∧ r.1.held = s.held ∧
    (len r.1.reg ≠ len s.reg → .acc .count true 1 ∈ configOps s.reg op) ∧
    (∀ i p, place r.1.reg i = some p → place s.reg i ≠ some p → .acc (.slot i) true 1 ∈ configOps s.reg op) ∧
    (∀ o, r.1.fn o ≠ s.fn o → .acc (.fn o) true 1 ∈ configOps s.reg op) := by
  have none' : ∀ {os : List MOp}, s.value = s.value ∧ s.held = s.held ∧ (len s.reg ≠ len s.reg → .acc .count true 1 ∈ os) ∧
      (∀ i p, place s.reg i = some p → place s.reg i ≠ some p → .acc (.slot i) true 1 ∈ os) ∧
      (∀ o, s.fn o ≠ s.fn o → .acc (.fn o) true 1 ∈ os) :=
    ⟨rfl, rfl, fun h => absurd rfl h, fun _ _ h1 h2 => absurd h1 h2, fun _ h => absurd rfl h⟩
  cases op with
  | add o =>
    simp only [exec, errOf, add] at h
    cases hr : s.reg with
    | fixed arr count =>
      rw [hr] at h
      dsimp only at h
      split at h
      · simp only [Res.ok_bind, Res.ok.injEq] at h
        rw [← h, ← hr]
        exact none'
      · rename_i hc
        rw [containsArr_mem count 0 (by omega)] at h
        simp only [List.drop_zero, Res.ok_bind] at h
        by_cases hm : some o ∈ arr.take count
        · rw [decide_eq_true hm] at h
          simp only [Bool.not_true, Bool.false_eq_true, if_false, Res.ok_bind, Res.ok.injEq] at h
          rw [← h, ← hr]
          exact none'
        · rw [decide_eq_false hm] at h
          simp only [Bool.not_false, if_true, Res.ok_bind, Res.ok.injEq] at h
          rw [← h]
          refine ⟨rfl, rfl, fun _ => by simp [configOps, addOps, hc, hm], fun i p h1 h2 => ?_, fun _ h => absurd rfl h⟩
          by_cases hi : count = i
          · subst hi
            simp [configOps, addOps, hc, hm]
          · simp only [place, List.getElem?_set_ne hi] at h1 h2
            exact absurd h1 h2
    | dyn vec =>
      rw [hr] at h
      dsimp only at h
      rw [containsVec_eq] at h
      by_cases hm : o ∈ vec
      · rw [decide_eq_true hm] at h
        simp only [Bool.not_true, Bool.false_eq_true, if_false, Res.ok_bind, Res.ok.injEq] at h
        rw [← h, ← hr]
        exact none'
      · rw [decide_eq_false hm] at h
        simp only [Bool.not_false, if_true, Res.ok_bind, Res.ok.injEq] at h
        rw [← h]
        refine ⟨rfl, rfl, fun _ => by simp [configOps, addOps, hm], fun i p h1 h2 => ?_, fun _ h => absurd rfl h⟩
        simp only [place] at h1 h2
        by_cases hi : i < vec.length
        · rw [List.getElem?_append_left hi] at h1
          exact absurd h1 h2
        · have : i = vec.length := by
            have := List.getElem?_eq_some_iff.1 (Option.map_eq_some_iff.1 h1).choose_spec.1
            simp only [List.length_append, List.length_cons, List.length_nil] at this
            have := this.1
            omega
          subst this
          simp [configOps, addOps, hm]
  | remove o =>
    simp only [exec, errOf, remove] at h
    cases hr : s.reg with
    | fixed arr count =>
      rw [hr] at h
      dsimp only at h
      split at h
      · simp only [Res.ok_bind, Res.ok.injEq] at h
        rw [← h, ← hr]
        exact none'
      · rename_i hc
        split at h
        · simp only [Res.ok_bind, Res.ok.injEq] at h
          rw [← h, ← hr]
          exact none'
        · rename_i hz
          have hlen : ((stdRemove (some o) (arr.take count)).1).length = (arr.take count).length := by
            have := List.length_filter_le (fun y => decide (y ≠ some o)) (arr.take count)
            simp only [stdRemove, List.length_append, List.length_drop]
            omega
          have slots : ∀ i p, place (.fixed ((stdRemove (some o) (arr.take count)).1 ++ arr.drop count) count) i = some p →
              place (.fixed arr count) i ≠ some p → .acc (.slot i) true 1 ∈ configOps (.fixed arr count) (.remove o) := by
            intro i p h1 h2
            simp only [place] at h1 h2
            have hx : .acc (.slot i) true 1 ∈ removeOps o (arr.take count) 0 0 := by
              apply removeOps_changes
              by_cases hi : i < (arr.take count).length
              · rw [List.getElem?_append_left (by omega)] at h1
                rw [h1]
                intro hh
                rw [List.getElem?_take_of_lt (by simp at hi; omega)] at hh
                exact h2 hh.symm
              · rw [List.getElem?_append_right (by omega), List.getElem?_drop, hlen] at h1
                rw [List.length_take, Nat.min_eq_left (by omega)] at h1 hi
                rw [show count + (i - count) = i by omega] at h1
                exact absurd h1 h2
            simp only [configOps, rmOps, if_neg hc, if_neg hz]
            exact List.mem_cons_of_mem _ (List.mem_cons_of_mem _ (List.mem_append_left _ (List.mem_cons_of_mem _ hx)))
          split at h
          · rename_i hne
            simp only [Res.ok_bind, Res.ok.injEq] at h
            rw [← h]
            refine ⟨rfl, rfl, fun _ => ?_, slots, fun _ h => absurd rfl h⟩
            have hm : some o ∈ arr.take count := by
              refine Classical.byContradiction fun hm => ?_
              simp only [stdRemove] at hne
              rw [List.filter_eq_self.2 (fun a ha => by
                simp only [ne_eq, decide_not, Bool.not_eq_true', decide_eq_false_iff_not]
                intro e
                exact hm (e ▸ ha)), List.length_take,
                Nat.min_eq_left (by omega)] at hne
              omega
            simp [configOps, rmOps, hc, hz, hm]
          · simp only [Res.ok_bind, Res.ok.injEq] at h
            rw [← h]
            exact ⟨rfl, rfl, fun h => absurd rfl h, slots, fun _ h => absurd rfl h⟩
    | dyn vec =>
      rw [hr] at h
      dsimp only at h
      split at h
      · simp only [Res.ok_bind, Res.ok.injEq] at h
        rw [← h, ← hr]
        exact none'
      · rename_i hz
        have hmap : (stdRemove o vec).1.map some = (stdRemove (some o) (vec.map some)).1 := by
          simp only [stdRemove]
          rw [filter_map_some]
          rw [show (fun y => decide (y ≠ o)) = (· != o) from funext fun y => by simp [bne, Bool.beq_eq_decide_eq]]
          simp [List.map_drop]
        have hlen : (stdRemove o vec).1.length = vec.length := by
          have := List.length_filter_le (fun y => decide (y ≠ o)) vec
          simp only [stdRemove, List.length_append, List.length_drop]
          omega
        have key : r.1 = { s with reg := .dyn (stdRemove o vec).1 } := by
          split at h <;> (simp only [Res.ok_bind, Res.ok.injEq] at h; rw [← h])
        rw [key]
        refine ⟨rfl, rfl, fun h => absurd hlen h, fun i p h1 h2 => ?_, fun _ h => absurd rfl h⟩
        simp only [place] at h1 h2
        rw [← List.getElem?_map] at h1 h2
        rw [hmap] at h1
        have := removeOps_changes (o := o) (l := vec.map some) (k := i) (by rw [h1]; exact fun e => h2 e.symm)
        simp only [configOps, rmOps, if_neg hz]
        exact List.mem_cons_of_mem _ this
  | clear =>
    simp only [exec, clear] at h
    cases hr : s.reg with
    | fixed arr count =>
      rw [hr] at h
      dsimp only at h
      cases hc : clearArr arr count 0 with
      | ok u =>
        rw [hc] at h
        simp only [Res.ok_bind, Res.ok.injEq] at h
        rw [← h]
        exact ⟨rfl, rfl, fun _ => by simp [configOps, clearOps], fun _ _ h1 h2 => absurd h1 h2, fun _ h => absurd rfl h⟩
      | ub => rw [hc] at h; cases h
      | hang => rw [hc] at h; cases h
    | dyn vec =>
      rw [hr] at h
      simp only [Res.ok_bind, Res.ok.injEq] at h
      rw [← h]
      exact ⟨rfl, rfl, fun _ => by simp [configOps, clearOps], fun i p h1 => by simp [place] at h1, fun _ h => absurd rfl h⟩
  | onUpdate o b =>
    simp only [exec, onUpdate, Res.ok.injEq] at h
    rw [← h]
    refine ⟨rfl, rfl, fun h => absurd rfl h, fun _ _ h1 h2 => absurd h1 h2, fun p hp => ?_⟩
    by_cases hpo : p = o
    · subst hpo
      simp [configOps]
    · simp [hpo] at hp
  | _ => cases hop

/-- **C110, C111.** A step records the accesses that it makes; what changes in a step is among what it writes: the number of observers,
the places of the list (for the vector: those that it has afterwards), the functions, the values of the observable and of the observed. -/
theorem C110_accesses {T : IntTy} {m m' : State} {l : Lbl} (h : step T m l = some m') :
    m'.mem = m.mem.run l.who (ops m l) ∧
    (len m'.st.reg ≠ len m.st.reg → ∃ tag, .acc .count true tag ∈ ops m l) ∧
    (∀ i p, place m'.st.reg i = some p → place m.st.reg i ≠ some p → ∃ tag, .acc (.slot i) true tag ∈ ops m l) ∧
    (∀ o, m'.st.fn o ≠ m.st.fn o → ∃ tag, .acc (.fn o) true tag ∈ ops m l) ∧
    (m'.st.value ≠ m.st.value → .sto .value ∈ ops m l ∨ .acq .value ∈ ops m l ∧ .rel .value ∈ ops m l) ∧
    (∀ o, m'.st.held o ≠ m.st.held o → .sto (.held o) ∈ ops m l) := by
  unfold step at h
  cases he : effect T m l with
  | none => rw [he] at h; cases h
  | some r =>
    rw [he] at h
    simp only [Option.some.injEq] at h
    rw [← h]
    refine ⟨rfl, ?_⟩
    dsimp only
    have same : r.1 = m.st → (len r.1.reg ≠ len m.st.reg → ∃ tag, .acc .count true tag ∈ ops m l) ∧
        (∀ i p, place r.1.reg i = some p → place m.st.reg i ≠ some p → ∃ tag, .acc (.slot i) true tag ∈ ops m l) ∧
        (∀ o, r.1.fn o ≠ m.st.fn o → ∃ tag, .acc (.fn o) true tag ∈ ops m l) ∧
        (r.1.value ≠ m.st.value → .sto .value ∈ ops m l ∨ .acq .value ∈ ops m l ∧ .rel .value ∈ ops m l) ∧
        (∀ o, r.1.held o ≠ m.st.held o → .sto (.held o) ∈ ops m l) := by
      intro e
      rw [e]
      exact ⟨fun h => absurd rfl h, fun _ _ h1 h2 => absurd h1 h2, fun _ h => absurd rfl h, fun h => absurd rfl h,
        fun _ h => absurd rfl h⟩
    cases l with
    | begin t op =>
      simp only [effect] at he
      split at he
      · split at he
        · simp only [Option.some.injEq] at he
          rw [← he]
          refine ⟨fun h => absurd rfl h, fun _ _ h1 h2 => absurd h1 h2, fun _ h => absurd rfl h, fun _ => ?_,
            fun _ h => absurd rfl h⟩
          cases op <;> simp [ops, updateOps]
        · cases he
      · cases he
    | config t op =>
      simp only [effect] at he
      split at he
      · rename_i hf
        split at he
        · rename_i r' hr'
          simp only [Option.some.injEq] at he
          rw [← he]
          simp only [Bool.and_eq_true, Bool.not_eq_true'] at hf
          obtain ⟨h1, h2, h3, h4, h5⟩ := config_changes hf.2 hr'
          exact ⟨fun hx => ⟨1, h3 hx⟩, fun i p hx hy => ⟨1, h4 i p hx hy⟩, fun o hx => ⟨1, h5 o hx⟩,
            fun hx => absurd h1 hx, fun o hx => absurd (congrFun h2 o) hx⟩
        · cases he
      · cases he
    | deliver t o =>
      simp only [effect] at he
      split at he
      · rename_i v i n fs hpc
        split at he
        · simp only [Option.some.injEq] at he
          rw [← he]
          refine ⟨fun h => absurd rfl h, fun _ _ h1 h2 => absurd h1 h2, fun _ h => absurd rfl h, fun h => absurd rfl h,
            fun p hp => ?_⟩
          by_cases hpo : p = o
          · subst hpo
            simp [ops, hpc, deliverOps]
          · simp [Values.deliver, hpo] at hp
        · cases he
      · cases he
    | enter t =>
      simp only [effect] at he
      split at he
      · cases he; exact same rfl
      · cases he
    | back t =>
      simp only [effect] at he
      split at he
      · cases he; exact same rfl
      · cases he
    | leave t =>
      simp only [effect] at he
      split at he
      · split at he
        · cases he
        · cases he; exact same rfl
      · cases he
    | _ =>
      simp only [effect] at he
      split at he
      · cases he; exact same rfl
      · cases he

/-- Two lists of the same kind, arrays of the same size or vectors (no code). -/
def SameKind : Reg → Reg → Prop
  | .fixed a _, .fixed b _ => a.length = b.length
  | .dyn _, .dyn _ => True
  | _, _ => False

theorem clearArr_depends {a b : List (Option Nat)} : ∀ (n i : Nat), (∀ j, j < n → b[i + j]? = a[i + j]?) →
    clearArr b n i = clearArr a n i
  | 0, _, _ => rfl
  | n + 1, i, h => by
    unfold clearArr
    have h0 := h 0 (by omega)
    simp only [Nat.add_zero] at h0
    have ih := clearArr_depends (a := a) (b := b) n (i + 1) (fun j hj => by
      have := h (j + 1) (by omega)
      rw [show i + 1 + j = i + (j + 1) by omega]
      exact this)
    rw [h0]
    simp only [ih]

theorem take_eq {a b : List (Option Nat)} {n : Nat} (h : ∀ j, j < n → b[j]? = a[j]?) : b.take n = a.take n := by
  apply List.ext_getElem?
  intro j
  by_cases hj : j < n
  · rw [List.getElem?_take_of_lt hj, List.getElem?_take_of_lt hj, h j hj]
  · rw [List.getElem?_take_eq_none (by omega), List.getElem?_take_eq_none (by omega)]

/-- **C110, C111.** What a call of `add_observer`, `remove_observer`, `clear_observers` or `on_update` returns and writes depends only
on what it has read: if the number of observers and the places that it reads are the same, so is what it returns and what is in the
places that it writes. -/
theorem C110_depends {T : IntTy} {s s1 : St} {op : Values.Op} {r : St × Ret} (hop : isUpdate op = false) (h : exec T s op = .ok r)
    (hk : SameKind s.reg s1.reg) (hc : .acc .count false 0 ∈ configOps s.reg op → len s1.reg = len s.reg)
    (hs : ∀ i, .acc (.slot i) false 0 ∈ configOps s.reg op → place s1.reg i = place s.reg i) :
    ∃ r1, exec T s1 op = .ok r1 ∧ r1.2 = r.2 ∧
      (.acc .count true 1 ∈ configOps s.reg op → len r1.1.reg = len r.1.reg) ∧
      (∀ i, .acc (.slot i) true 1 ∈ configOps s.reg op → place r1.1.reg i = place r.1.reg i) ∧
      (∀ o, .acc (.fn o) true 1 ∈ configOps s.reg op → r1.1.fn o = r.1.fn o) := by
  cases hr : s.reg with
  | fixed a n =>
    cases hr1 : s1.reg with
    | dyn v => rw [hr, hr1] at hk; exact hk.elim
    | fixed b n1 =>
      rw [hr, hr1] at hk
      rw [hr] at hc hs
      rw [hr1] at hc hs
      dsimp only [SameKind, len, place] at hk hc hs
      cases op with
      | add o =>
        have hn := hc (by simp [configOps, addOps])
        subst hn
        simp only [exec, errOf, add] at h ⊢
        rw [hr] at h
        rw [hr1]
        dsimp only at h ⊢
        by_cases hf : n1 ≥ a.length
        · rw [if_pos hf] at h
          rw [if_pos (by omega)]
          simp only [Res.ok_bind, Res.ok.injEq] at h ⊢
          rw [← h]
          exact ⟨_, rfl, rfl, by simp [configOps, addOps, hf], by simp [configOps, addOps, hf], by simp [configOps, addOps, hf]⟩
        · rw [if_neg hf, containsArr_mem n1 0 (by omega)] at h
          rw [if_neg (by omega), containsArr_mem n1 0 (by omega)]
          have hm : some o ∈ b.take n1 ↔ some o ∈ a.take n1 := by
            refine findOps_depends o _ _ 0 (by simp [hk]) (fun j hj hx => ?_)
            rw [Nat.zero_add] at hx
            rw [List.length_take] at hj
            rw [List.getElem?_take_of_lt (by omega), List.getElem?_take_of_lt (by omega)]
            apply hs
            simp [configOps, addOps, hf, hx]
          simp only [List.drop_zero, Res.ok_bind] at h ⊢
          by_cases ha : some o ∈ a.take n1
          · rw [decide_eq_true ha] at h
            rw [decide_eq_true (hm.2 ha)]
            simp only [Bool.not_true, Bool.false_eq_true, if_false, Res.ok_bind, Res.ok.injEq] at h ⊢
            rw [← h]
            have hno : ∀ l (i : Nat) tag, (.acc l true tag : MOp) ∉ findOps o (a.take n1) i := fun l i tag => by
              generalize a.take n1 = x
              induction x generalizing i with
              | nil => simp [findOps]
              | cons p x ih => unfold findOps; split <;> simp [ih]
            refine ⟨_, rfl, rfl, ?_, fun i => ?_, fun i => ?_⟩ <;> simp [configOps, addOps, hf, ha, hno]
          · rw [decide_eq_false ha] at h
            rw [decide_eq_false (fun hx => ha (hm.1 hx))]
            simp only [Bool.not_false, if_true, Res.ok_bind, Res.ok.injEq] at h ⊢
            rw [← h]
            have hno : ∀ l (i : Nat) tag, (.acc l true tag : MOp) ∉ findOps o (a.take n1) i := fun l i tag => by
              generalize a.take n1 = x
              induction x generalizing i with
              | nil => simp [findOps]
              | cons p x ih => unfold findOps; split <;> simp [ih]
            refine ⟨_, rfl, rfl, fun _ => rfl, fun i => ?_, fun i => ?_⟩
            · simp only [configOps, addOps, if_neg hf, if_neg ha]
              intro hx
              simp only [List.cons_append, List.mem_cons, List.mem_append, hno, reduceCtorEq, Op.acc.injEq, false_or,
                Loc.slot.injEq, and_true, List.not_mem_nil, or_false, and_false] at hx
              rw [hx]
              simp only [place]
              rw [List.getElem?_set_self (by omega), List.getElem?_set_self (by omega)]
            · simp [configOps, addOps, hf, ha, hno]
      | remove o =>
        have hn := hc (by simp [configOps, rmOps])
        subst hn
        simp only [exec, errOf, remove] at h ⊢
        rw [hr] at h
        rw [hr1]
        dsimp only at h ⊢
        by_cases hf : n1 > a.length
        · rw [if_pos hf] at h
          rw [if_pos (by omega)]
          simp only [Res.ok_bind, Res.ok.injEq] at h ⊢
          rw [← h]
          exact ⟨_, rfl, rfl, by simp [configOps, rmOps, hf], by simp [configOps, rmOps, hf], by simp [configOps, rmOps, hf]⟩
        · rw [if_neg hf] at h
          rw [if_neg (by omega)]
          by_cases hz : n1 = 0
          · rw [if_pos hz] at h
            rw [if_pos hz]
            simp only [Res.ok_bind, Res.ok.injEq] at h ⊢
            rw [← h]
            subst hz
            exact ⟨_, rfl, rfl, by simp [configOps, rmOps], by simp [configOps, rmOps], by simp [configOps, rmOps]⟩
          · rw [if_neg hz] at h
            rw [if_neg hz]
            have ht : b.take n1 = a.take n1 := take_eq (fun j hj => by
              apply hs
              have := removeOps_readsAll o (a.take n1) 0 0 j (by rw [List.length_take]; omega)
              rw [Nat.zero_add] at this
              simp only [configOps, rmOps, if_neg hf, if_neg hz]
              exact List.mem_cons_of_mem _ (List.mem_cons_of_mem _ (List.mem_append_left _ (List.mem_cons_of_mem _ this))))
            rw [ht]
            have hlen : ((stdRemove (some o) (a.take n1)).1).length = n1 := by
              have h1 := List.length_filter_le (fun y => decide (y ≠ some o)) (a.take n1)
              have h2 : (a.take n1).length = n1 := by rw [List.length_take]; omega
              simp only [stdRemove, List.length_append, List.length_drop]
              omega
            have hw : ∀ (l : List (Option Nat)) (i w k : Nat), w ≤ i → .acc (.slot k) true 1 ∈ removeOps o l i w → k < i + l.length := by
              intro l
              induction l with
              | nil => simp [removeOps]
              | cons p l ih =>
                intro i w k hwi hm
                unfold removeOps at hm
                simp only [List.mem_cons, Op.acc.injEq, Bool.true_eq_false, false_and, and_false, false_or] at hm
                split at hm
                · have := ih (i + 1) w k (by omega) hm
                  simp only [List.length_cons]
                  omega
                · rw [List.mem_append] at hm
                  rcases hm with hm | hm
                  · split at hm
                    · simp at hm
                      simp only [List.length_cons]
                      omega
                    · simp at hm
                  · have := ih (i + 1) (w + 1) k (by omega) hm
                    simp only [List.length_cons]
                    omega
            have slots : ∀ i, .acc (.slot i) true 1 ∈ configOps (.fixed a n1) (.remove o) →
                ((stdRemove (some o) (a.take n1)).1 ++ b.drop n1)[i]? = ((stdRemove (some o) (a.take n1)).1 ++ a.drop n1)[i]? := by
              intro i hi
              have hi : .acc (.slot i) true 1 ∈ removeOps o (a.take n1) 0 0 := by
                simp only [configOps, rmOps, if_neg hf, if_neg hz] at hi
                split at hi <;> simpa using hi
              have := hw _ 0 0 i (Nat.le_refl 0) hi
              have h2 : (a.take n1).length = n1 := by rw [List.length_take]; omega
              rw [List.getElem?_append_left (by omega), List.getElem?_append_left (by omega)]
            have nofn : ∀ p, .acc (.fn p) true 1 ∉ configOps (.fixed a n1) (.remove o) := by
              intro p hp
              have : ∀ (l : List (Option Nat)) (i w : Nat), .acc (.fn p) true 1 ∉ removeOps o l i w := by
                intro l
                induction l with
                | nil => simp [removeOps]
                | cons q l ih =>
                  intro i w
                  unfold removeOps
                  split
                  · simp [ih]
                  · split <;> simp [ih]
              simp only [configOps, rmOps, if_neg hf, if_neg hz] at hp
              split at hp <;> simp [this] at hp
            split at h
            · rename_i hne
              simp only [Res.ok_bind, Res.ok.injEq] at h
              rw [← h, if_pos hne]
              exact ⟨_, rfl, rfl, fun _ => rfl, slots, fun p hp => absurd hp (nofn p)⟩
            · rename_i hne
              simp only [Res.ok_bind, Res.ok.injEq] at h
              rw [← h, if_neg hne]
              exact ⟨_, rfl, rfl, fun _ => rfl, slots, fun p hp => absurd hp (nofn p)⟩
      | clear =>
        have hn := hc (by simp [configOps, clearOps])
        subst hn
        simp only [exec, clear] at h ⊢
        rw [hr] at h
        rw [hr1]
        dsimp only at h ⊢
        rw [clearArr_depends (a := a) (b := b) n1 0 (fun j hj => by
          apply hs
          have := readOps_readsAll n1 0 j hj
          simp only [configOps, clearOps]
          exact List.mem_append_left _ (List.mem_cons_of_mem _ this))]
        cases hca : clearArr a n1 0 with
        | ok u =>
          rw [hca] at h
          simp only [Res.ok_bind, Res.ok.injEq] at h ⊢
          rw [← h]
          have hno : ∀ l (i n : Nat) tag, (.acc l true tag : MOp) ∉ readOps i n := fun l i n tag => by
            induction n generalizing i with
            | zero => simp [readOps]
            | succ n ih => unfold readOps; simp [ih]
          exact ⟨_, rfl, rfl, fun _ => rfl, fun i => by simp [configOps, clearOps, hno], fun i => by simp [configOps, clearOps, hno]⟩
        | ub => rw [hca] at h; cases h
        | hang => rw [hca] at h; cases h
      | onUpdate o b' =>
        simp only [exec, onUpdate, Res.ok.injEq] at h ⊢
        rw [← h]
        refine ⟨_, rfl, rfl, by simp [configOps], by simp [configOps], fun p hp => ?_⟩
        simp only [configOps, List.mem_singleton, Op.acc.injEq, Loc.fn.injEq, and_true] at hp
        simp [hp]
      | _ => cases hop
  | dyn v =>
    cases hr1 : s1.reg with
    | fixed b n1 => rw [hr, hr1] at hk; exact hk.elim
    | dyn v1 =>
      rw [hr] at hc hs
      rw [hr1] at hc hs
      dsimp only [len, place] at hc hs
      cases op with
      | add o =>
        have hn := hc (by simp [configOps, addOps])
        have hm : o ∈ v1 ↔ o ∈ v := by
          have := findOps_depends o (v.map some) (v1.map some) 0 (by simp [hn]) (fun j hj hx => by
            rw [List.getElem?_map, List.getElem?_map]
            apply hs
            rw [Nat.zero_add] at hx
            simp [configOps, addOps, hx])
          simpa using this
        have hno : ∀ l (i : Nat) tag, (.acc l true tag : MOp) ∉ findOps o (v.map some) i := fun l i tag => by
          generalize v.map some = x
          induction x generalizing i with
          | nil => simp [findOps]
          | cons p x ih => unfold findOps; split <;> simp [ih]
        simp only [exec, errOf, add] at h ⊢
        rw [hr] at h
        rw [hr1]
        dsimp only at h ⊢
        rw [containsVec_eq] at h ⊢
        by_cases ha : o ∈ v
        · rw [decide_eq_true ha] at h
          rw [decide_eq_true (hm.2 ha)]
          simp only [Bool.not_true, Bool.false_eq_true, if_false, Res.ok_bind, Res.ok.injEq] at h ⊢
          rw [← h]
          refine ⟨_, rfl, rfl, ?_, fun i => ?_, fun i => ?_⟩ <;> simp [configOps, addOps, ha, hno]
        · rw [decide_eq_false ha] at h
          rw [decide_eq_false (fun hx => ha (hm.1 hx))]
          simp only [Bool.not_false, if_true, Res.ok_bind, Res.ok.injEq] at h ⊢
          rw [← h]
          refine ⟨_, rfl, rfl, fun _ => by simp [len, hn], fun i => ?_, fun i => ?_⟩
          · simp only [configOps, addOps, if_neg ha]
            intro hx
            simp only [List.cons_append, List.mem_cons, List.mem_append, hno, reduceCtorEq, Op.acc.injEq, false_or,
              Loc.slot.injEq, and_true, List.not_mem_nil, or_false, and_false] at hx
            rw [hx]
            simp only [place]
            rw [List.getElem?_append_right (by omega), List.getElem?_append_right (by omega), hn]
          · simp [configOps, addOps, ha, hno]
      | remove o =>
        have hn := hc (by simp [configOps, rmOps])
        have heq : v1 = v := by
          by_cases hz : v.isEmpty
          · have : v = [] := by simpa using hz
            subst this
            exact List.length_eq_zero_iff.1 (by simpa using hn)
          · apply List.ext_getElem?
            intro j
            by_cases hj : j < v.length
            · have := hs j (by
                have := removeOps_readsAll o (v.map some) 0 0 j (by simpa using hj)
                rw [Nat.zero_add] at this
                simp only [configOps, rmOps, if_neg hz]
                exact List.mem_cons_of_mem _ this)
              rw [List.getElem?_eq_getElem hj, List.getElem?_eq_getElem (by omega)] at this ⊢
              simpa using this
            · rw [List.getElem?_eq_none (by omega), List.getElem?_eq_none (by omega)]
        subst heq
        simp only [exec, errOf, remove] at h ⊢
        rw [hr] at h
        rw [hr1]
        dsimp only at h ⊢
        have nofn : ∀ p, .acc (.fn p) true 1 ∉ configOps (.dyn v1) (.remove o) := by
          intro p hp
          have : ∀ (l : List (Option Nat)) (i w : Nat), .acc (.fn p) true 1 ∉ removeOps o l i w := by
            intro l
            induction l with
            | nil => simp [removeOps]
            | cons q l ih =>
              intro i w
              unfold removeOps
              split
              · simp [ih]
              · split <;> simp [ih]
          simp only [configOps, rmOps] at hp
          split at hp <;> simp [this] at hp
        split at h
        · rename_i hz
          simp only [Res.ok_bind, Res.ok.injEq] at h ⊢
          rw [← h, if_pos hz]
          exact ⟨_, rfl, rfl, fun _ => by rw [hr, hr1], fun _ _ => by rw [hr, hr1], fun p hp => absurd hp (nofn p)⟩
        · rename_i hz
          split at h
          · rename_i hne
            simp only [Res.ok_bind, Res.ok.injEq] at h ⊢
            rw [← h, if_neg hz, if_pos hne]
            exact ⟨_, rfl, rfl, fun _ => rfl, fun _ _ => rfl, fun p hp => absurd hp (nofn p)⟩
          · rename_i hne
            simp only [Res.ok_bind, Res.ok.injEq] at h ⊢
            rw [← h, if_neg hz, if_neg hne]
            exact ⟨_, rfl, rfl, fun _ => rfl, fun _ _ => rfl, fun p hp => absurd hp (nofn p)⟩
      | clear =>
        simp only [exec, clear] at h ⊢
        rw [hr] at h
        rw [hr1]
        simp only [Res.ok_bind, Res.ok.injEq] at h ⊢
        rw [← h]
        have hno : ∀ l (i n : Nat) tag, (.acc l true tag : MOp) ∉ readOps i n := fun l i n tag => by
          induction n generalizing i with
          | zero => simp [readOps]
          | succ n ih => unfold readOps; simp [ih]
        exact ⟨_, rfl, rfl, fun _ => rfl, fun i => by simp [configOps, clearOps, hno], fun i => by simp [configOps, clearOps, hno]⟩
      | onUpdate o b' =>
        simp only [exec, onUpdate, Res.ok.injEq] at h ⊢
        rw [← h]
        refine ⟨_, rfl, rfl, by simp [configOps], by simp [configOps], fun p hp => ?_⟩
        simp only [configOps, List.mem_singleton, Op.acc.injEq, Loc.fn.injEq, and_true] at hp
        simp [hp]
      | _ => cases hop

/-- **C110, C111.** To whom an update delivers next, and whether a function is called, depend only on what the step has read: the
number of observers when it enters the loop, the place of the list, and `function_` of the observer. -/
theorem C111_depends {T : IntTy} {m m1 m' : State} {t : Nat} {l : Lbl} (hl : l = .enter t ∨ ∃ o, l = .deliver t o)
    (h : step T m l = some m') (hpc : m1.pc t = m.pc t) (hk : SameKind m.st.reg m1.st.reg)
    (hc : .acc .count false 0 ∈ ops m l → len m1.st.reg = len m.st.reg)
    (hs : ∀ i, .acc (.slot i) false 0 ∈ ops m l → place m1.st.reg i = place m.st.reg i)
    (hf : ∀ o, .acc (.fn o) false 0 ∈ ops m l → m1.st.fn o = m.st.fn o) :
    ∃ m1', step T m1 l = some m1' ∧ m1'.pc t = m'.pc t ∧ ∀ o, .sto (.held o) ∈ ops m l → m1'.st.held o = m'.st.held o := by
  rcases hl with rfl | ⟨o, rfl⟩
  · simp only [step, effect] at h ⊢
    rw [hpc]
    have hlen := hc (by cases hr : m.st.reg <;> simp [ops, hr])
    have hsz : size m1.st.reg = size m.st.reg := by
      cases hr : m.st.reg <;> cases hr1 : m1.st.reg <;> rw [hr, hr1] at hk hlen <;> simp only [SameKind, len, size] at hk hlen ⊢
      · rw [hlen, hk]
      · exact hlen
    split at h
    · rename_i r he
      split at he
      · rename_i v fs hp
        cases he
        simp only [Option.some.injEq] at h
        rw [← h, hsz]
        refine ⟨_, rfl, by simp [Lbl.who, put], fun o ho => ?_⟩
        cases hr : m.st.reg <;> simp [ops, hr] at ho
      · cases he
    · cases h
  · simp only [step, effect] at h ⊢
    rw [hpc]
    split at h
    · rename_i r he
      split at he
      · rename_i v i n fs hp
        split at he
        · rename_i hi
          cases he
          simp only [Option.some.injEq] at h
          have h1 := hs i (by simp [ops, hp, deliverOps])
          have h2 := hf o (by simp [ops, hp, deliverOps])
          have h3 : slotAt m1.st.reg i = some o := by
            rw [← hi.2]
            cases hr : m.st.reg <;> cases hr1 : m1.st.reg <;> rw [hr, hr1] at hk h1 <;>
              simp only [SameKind, place, slotAt] at hk h1 ⊢
            · rw [h1]
            · exact Option.map_injective (fun _ _ h => Option.some.inj h) h1
          rw [← h]
          dsimp only
          rw [if_pos ⟨hi.1, h3⟩, h2]
          refine ⟨_, rfl, by simp [Lbl.who, put], fun p hp' => ?_⟩
          have : p = o := by
            simp only [ops, hp, deliverOps] at hp'
            split at hp' <;> simpa using hp'
          simp [Values.deliver, this]
        · cases he
      · cases he
    · cases h

/-- A removal from the middle: places 0 and 1 are written, and their contents change. -/
example : ∃ r, exec .int ⟨0, .fixed [some 5, some 6, some 7] 3, fun _ => 0, fun _ => false, []⟩ (.remove 5) = .ok r ∧
    place r.1.reg 0 = some (some 6) ∧ place r.1.reg 1 = some (some 7) ∧ len r.1.reg = 2 :=
  ⟨_, rfl, rfl, rfl, rfl⟩

end Verif.Values.HB
