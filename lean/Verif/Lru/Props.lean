import Verif.Lru.Model
/-! The properties of `cache::lru`. -/
namespace Verif.Lru
open Verif

variable {K V : Type} [DecidableEq K]

/-- The keys of the list. -/
def Cache.keys (c : Cache K V) : List K := c.list.map (·.key)

theorem contains_iff (c : Cache K V) (k : K) : c.contains k = true ↔ k ∈ c.map.map (·.1) := by
  simp [Cache.contains]

theorem setMap_keys (m : List (K × Item K V)) (k : K) (o : Item K V) :
    (setMap m k o).map (·.1) = if k ∈ m.map (·.1) then m.map (·.1) else m.map (·.1) ++ [k] := by
  induction m with
  | nil => simp [setMap]
  | cons p m ih =>
    rw [setMap]
    by_cases hp : p.1 = k
    · simp [hp]
    · rw [if_neg hp]
      simp only [List.map_cons, ih, List.mem_cons]
      by_cases hk : k ∈ m.map (·.1)
      · simp [hk]
      · rw [if_neg hk, if_neg (by
          rintro (h | h)
          · exact hp h.symm
          · exact hk h)]
        simp

theorem find_setMap (m : List (K × Item K V)) (k : K) (o : Item K V) : findMap (setMap m k o) k = some o := by
  induction m with
  | nil => simp [setMap, findMap]
  | cons p m ih =>
    rw [setMap]
    by_cases hp : p.1 = k
    · simp [hp, findMap]
    · rw [if_neg hp]
      simp only [findMap, List.find?_cons, hp, decide_false] at ih ⊢
      exact ih

theorem find_setMap_other (m : List (K × Item K V)) (k j : K) (o : Item K V) (h : j ≠ k) :
    findMap (setMap m k o) j = findMap m j := by
  induction m with
  | nil => simp [setMap, findMap, h.symm]
  | cons p m ih =>
    rw [setMap]
    by_cases hp : p.1 = k
    · rw [if_pos hp]
      simp [findMap, hp, h.symm]
    · rw [if_neg hp]
      simp only [findMap, List.find?_cons] at ih ⊢
      split
      · rfl
      · exact ih

theorem find_none {c : Cache K V} {k : K} : (c.list.find? fun i => i.key = k) = none ↔ k ∉ c.keys := by
  simp only [List.find?_eq_none, decide_eq_true_eq, Cache.keys, List.mem_map, not_exists, not_and]

theorem find_some {c : Cache K V} {k : K} {o : Item K V}
    (h : (c.list.find? fun i => i.key = k) = some o) : o.key = k ∧ o ∈ c.list := by
  have h1 := List.find?_some h
  exact ⟨by simpa using h1, List.mem_of_find?_eq_some h⟩

theorem eraseP_keys (l : List (Item K V)) (k : K) :
    (l.eraseP fun i => i.key = k).map (·.key) = (l.map (·.key)).erase k := by
  induction l with
  | nil => rfl
  | cons i l ih =>
    by_cases h : i.key = k
    · simp [h]
    · rw [List.eraseP_cons_of_neg (by simpa using h), List.map_cons, List.map_cons, ih,
        List.erase_cons_tail (by simpa using h)]

/-- The cases of `put`. -/
theorem put_cases {size : Nat} {exc : Bool} {c c' : Cache K V} {k : K} {v : V} {now : Int} {o : Out Unit}
    (h : put size exc c k v now = .ok (c', o)) :
    (∃ obj, c.contains k = true ∧ obj.key = k ∧ obj ∈ c.list ∧ o = .value () ∧
      (c.list.find? fun i => i.key = k) = some obj ∧
      c' = ⟨obj :: c.list.eraseP fun i => i.key = k, setMap c.map k obj⟩) ∨
    (c.contains k = true ∧ k ∉ c.keys ∧ c' = c ∧ o = if exc then .missed else .value ()) ∨
    (c.contains k = false ∧ size ≤ c.list.length ∧ c.list ≠ [] ∧ o = .value () ∧
      c' = ⟨⟨k, v, now⟩ :: c.list.dropLast, setMap c.map k ⟨k, v, now⟩⟩) ∨
    (c.contains k = false ∧ c.list.length < size ∧ o = .value () ∧
      c' = ⟨⟨k, v, now⟩ :: c.list, setMap c.map k ⟨k, v, now⟩⟩) := by
  unfold put at h
  split at h
  · rename_i hc
    split at h
    · rename_i obj hf
      have := find_some hf
      cases h
      exact .inl ⟨obj, hc, this.1, this.2, rfl, hf, rfl⟩
    · rename_i hf
      cases h
      exact .inr (.inl ⟨hc, find_none.1 hf, rfl, rfl⟩)
  · rename_i hc
    split at h
    · split at h
      · cases h
      · rename_i hn
        cases h
        exact .inr (.inr (.inl ⟨by simpa using hc, ‹_›, hn, rfl, rfl⟩))
    · cases h
      exact .inr (.inr (.inr ⟨by simpa using hc, by omega, rfl, rfl⟩))

/-- What holds of every cache; `h` are the keys of all puts, the last first. -/
structure Inv (size : Nat) (h : List K) (c : Cache K V) : Prop where
  len : c.list.length ≤ size
  sorted : c.keys.Pairwise fun a b => h.idxOf a < h.idxOf b
  seen : ∀ k, k ∈ c.map.map (·.1) ↔ k ∈ h
  nodup : (c.map.map (·.1)).Nodup
  sub : ∀ k ∈ c.keys, k ∈ h
  agree : ∀ i ∈ c.list, findMap c.map i.key = some i

theorem Inv.keysNodup {size : Nat} {h : List K} {c : Cache K V} (hi : Inv size h c) : c.keys.Nodup :=
  hi.sorted.imp fun hlt e => by
    subst e
    omega

theorem idx_cons_ne {h : List K} {k a : K} (hne : a ≠ k) : (k :: h).idxOf a = h.idxOf a + 1 := by
  have : (k == a) = false := by simpa using fun e : k = a => hne e.symm
  simp [List.idxOf_cons, this]

theorem sorted_cons {h : List K} {l : List K} {k : K} (hk : k ∉ l)
    (hs : l.Pairwise fun a b => h.idxOf a < h.idxOf b) :
    (k :: l).Pairwise fun a b => (k :: h).idxOf a < (k :: h).idxOf b := by
  rw [List.pairwise_cons]
  refine ⟨fun a ha => ?_, ?_⟩
  · have : a ≠ k := fun e => hk (e ▸ ha)
    rw [idx_cons_ne this, List.idxOf_cons_self]
    omega
  · refine List.Pairwise.imp_of_mem (fun {a b} ha hb hlt => ?_) hs
    rw [idx_cons_ne (fun e : a = k => hk (e ▸ ha)), idx_cons_ne (fun e : b = k => hk (e ▸ hb))]
    omega

theorem sorted_skip {h : List K} {l : List K} {k : K} (hk : k ∉ l)
    (hs : l.Pairwise fun a b => h.idxOf a < h.idxOf b) :
    l.Pairwise fun a b => (k :: h).idxOf a < (k :: h).idxOf b :=
  (List.pairwise_cons.1 (sorted_cons hk hs)).2

theorem Inv.put {size : Nat} {exc : Bool} {h : List K} {c c' : Cache K V} (hi : Inv size h c)
    {k : K} {v : V} {now : Int} {o : Out Unit} (hp : put size exc c k v now = .ok (c', o)) (hs : 0 < size) :
    Inv size (k :: h) c' := by
  have hmap : ∀ j : K, c.contains j = true ↔ j ∈ h := fun j => by rw [contains_iff, hi.seen]
  have new_map : ∀ o : Item K V, c.contains k = false →
      (∀ j, j ∈ (setMap c.map k o).map (·.1) ↔ j ∈ k :: h) ∧ ((setMap c.map k o).map (·.1)).Nodup := by
    intro o hc
    have hk : k ∉ c.map.map (·.1) := by
      rw [← contains_iff, hc]
      simp
    rw [setMap_keys, if_neg hk]
    refine ⟨fun j => ?_, ?_⟩
    · rw [List.mem_append, List.mem_singleton, List.mem_cons, hi.seen]
      exact or_comm
    · rw [List.nodup_append]
      exact ⟨hi.nodup, by simp, fun a ha b hb => by
        simp only [List.mem_singleton] at hb
        subst hb
        intro e
        subst e
        exact hk ha⟩
  have newKey : c.contains k = false → k ∉ c.keys := by
    intro hc hk
    have := (hmap k).2 (hi.sub k hk)
    rw [hc] at this
    cases this
  have newAgree : ∀ o : Item K V, o.key = k → k ∉ c.keys → ∀ l : List (Item K V), (∀ i ∈ l, i ∈ c.list) →
      ∀ i ∈ o :: l, findMap (setMap c.map k o) i.key = some i := by
    intro o ho hk l hl i hii
    rcases List.mem_cons.1 hii with e | hm
    · subst e
      rw [ho, find_setMap]
    · have hne : i.key ≠ k := fun e => hk (e ▸ List.mem_map.2 ⟨i, hl i hm, rfl⟩)
      rw [find_setMap_other _ _ _ _ hne]
      exact hi.agree i (hl i hm)
  rcases put_cases hp with ⟨obj, hc, hk, hm, _, hfi, rfl⟩ | ⟨hc, hk, rfl, _⟩ | ⟨hc, hlen, hne, _, rfl⟩ |
    ⟨hc, hlen, _, rfl⟩
  · have hkeys : k ∈ c.keys := List.mem_map.2 ⟨obj, hm, hk⟩
    have hnd := hi.keysNodup
    have hek : Cache.keys (⟨obj :: c.list.eraseP fun i => i.key = k, setMap c.map k obj⟩ : Cache K V) =
        k :: c.keys.erase k := by
      simp only [Cache.keys, List.map_cons, hk, eraseP_keys]
    have hnot : k ∉ c.keys.erase k := fun hx => (List.Nodup.mem_erase_iff hnd |>.1 hx).1 rfl
    have hmk : (setMap c.map k obj).map (·.1) = c.map.map (·.1) := by
      rw [setMap_keys, if_pos ((contains_iff c k).1 hc)]
    refine ⟨?_, ?_, fun j => ?_, ?_, fun j hj => ?_, ?_⟩
    · have := List.length_eraseP_of_mem (p := fun i => decide (i.key = k)) hm (by simpa using hk)
      have h1 := hi.len
      have h2 : 0 < c.list.length := List.length_pos_of_mem hm
      simp only [List.length_cons]
      omega
    · rw [hek]
      exact sorted_cons hnot (hi.sorted.sublist List.erase_sublist)
    · rw [hmk, hi.seen]
      constructor
      · exact fun hj => by simp [hj]
      · intro hj
        rcases List.mem_cons.1 hj with e | hj
        · subst e
          exact (hmap j).1 hc
        · exact hj
    · rw [hmk]
      exact hi.nodup
    · rw [hek] at hj
      rcases List.mem_cons.1 hj with e | hj
      · simp [e]
      · simp [hi.sub j (List.mem_of_mem_erase hj)]
    · intro i hii
      by_cases hik : i.key = k
      · rw [hik, find_setMap]
        rcases List.mem_cons.1 hii with e | hm'
        · rw [e]
        · exfalso
          refine hnot ?_
          rw [Cache.keys, ← eraseP_keys]
          exact List.mem_map.2 ⟨i, hm', hik⟩
      · rw [find_setMap_other _ _ _ _ hik]
        rcases List.mem_cons.1 hii with e | hm'
        · subst e
          exact absurd hk hik
        · exact hi.agree i (List.mem_of_mem_eraseP hm')
  · have hkh : k ∈ h := (hmap k).1 hc
    refine ⟨hi.len, sorted_skip hk hi.sorted, fun j => ?_, hi.nodup, fun j hj => by simp [hi.sub j hj], hi.agree⟩
    rw [hi.seen]
    constructor
    · exact fun hj => by simp [hj]
    · intro hj
      rcases List.mem_cons.1 hj with e | hj
      · exact e ▸ hkh
      · exact hj
  · have hkn := newKey hc
    have hek : Cache.keys (⟨⟨k, v, now⟩ :: c.list.dropLast, setMap c.map k ⟨k, v, now⟩⟩ : Cache K V) =
        k :: c.keys.dropLast := by
      simp only [Cache.keys, List.map_cons, List.map_dropLast]
    have hsub : ∀ j ∈ c.keys.dropLast, j ∈ c.keys := fun j hj => List.dropLast_subset _ hj
    refine ⟨?_, ?_, (new_map _ hc).1, (new_map _ hc).2, fun j hj => ?_,
      newAgree _ rfl hkn _ fun i hii => List.dropLast_subset _ hii⟩
    · have := hi.len
      simp only [List.length_cons, List.length_dropLast]
      have : 0 < c.list.length := List.length_pos_iff.2 hne
      omega
    · rw [hek]
      exact sorted_cons (fun hx => hkn (hsub k hx)) (hi.sorted.sublist (List.dropLast_sublist _))
    · rw [hek] at hj
      rcases List.mem_cons.1 hj with e | hj
      · simp [e]
      · simp [hi.sub j (hsub j hj)]
  · have hkn := newKey hc
    refine ⟨?_, ?_, (new_map _ hc).1, (new_map _ hc).2, fun j hj => ?_, newAgree _ rfl hkn _ fun i hii => hii⟩
    · simp only [List.length_cons]
      omega
    · exact sorted_cons hkn hi.sorted
    · rcases List.mem_cons.1 hj with e | hj
      · simp [e]
      · have := hi.sub j hj
        simp [this]

theorem Reach.inv {size : Nat} (hs : 0 < size) {exc : Bool} {h : List K} {c : Cache K V}
    (hr : Reach size exc h c) : Inv size h c := by
  induction hr with
  | new => constructor <;> simp [Cache.new, Cache.keys]
  | put h c c' k v now o _ hp ih => exact ih.put hp hs

/-! ### Examples -/

namespace Ex

/-- A sequence of puts, each one millisecond after the other. -/
def puts (size : Nat) (exc : Bool) : Nat → List (Nat × Nat) → Cache Nat Nat → Res (Cache Nat Nat)
  | _, [], c => .ok c
  | t, (k, v) :: l, c => do
    let r ← put size exc c k v t
    puts size exc (t + 1) l r.1

theorem puts_reach {size : Nat} {exc : Bool} (l : List (Nat × Nat)) : ∀ (t : Nat) {h : List Nat}
    {c c' : Cache Nat Nat}, Reach size exc h c → puts size exc t l c = .ok c' →
    Reach size exc ((l.map (·.1)).reverse ++ h) c' := by
  induction l with
  | nil => intro t h c c' hr hp; cases hp; exact hr
  | cons p l ih =>
    intro t h c c' hr hp
    obtain ⟨k, v⟩ := p
    rw [puts] at hp
    cases hq : put size exc c k v t with
    | ub => rw [hq] at hp; cases hp
    | hang => rw [hq] at hp; cases hp
    | ok r =>
      rw [hq] at hp
      simp only [Res.ok_bind] at hp
      have := ih (t + 1) (.put h c r.1 k v t r.2 hr hq) hp
      simpa using this

/-- As a witness. -/
theorem puts_ex {size : Nat} {exc : Bool} {P : Cache Nat Nat → Prop} [DecidablePred P]
    (l : List (Nat × Nat))
    (h : (match puts size exc 0 l Cache.new with
      | .ok c => decide (P c)
      | _ => false) = true) :
    ∃ c, Reach size exc (l.map (·.1)).reverse c ∧ P c := by
  split at h
  · rename_i c hc
    refine ⟨c, ?_, by simpa using h⟩
    have := puts_reach l 0 .new hc
    simpa using this
  · cases h

end Ex

/-! ### C66 -/

/-- C66, as far as it holds, for every history of puts: the list never holds more than `Size` entries nor
two for one key, and the map never two entries for one key.  What is missing is a bound on the map, see
`C66_map_refuted`. -/
theorem C66_bounded_partial {size : Nat} (hs : 0 < size) {exc : Bool} {h : List K} {c : Cache K V}
    (hr : Reach size exc h c) :
    c.list.length ≤ size ∧ (c.list.map (·.key)).Nodup ∧ (c.map.map (·.1)).Nodup :=
  have hi := hr.inv hs
  ⟨hi.len, hi.keysNodup, hi.nodup⟩

example : ∃ c : Cache Nat Nat, Reach 2 true [3, 1, 2, 1] c ∧ (c.list.map (·.key) = [3, 1] ∧ c.map.map (·.1) = [1, 2, 3]) :=
  Ex.puts_ex [(1, 10), (2, 20), (1, 11), (3, 30)] (by decide +kernel)

theorem fresh_puts (size : Nat) (hs : 0 < size) (exc : Bool) (v : V) (n : Nat) :
    ∃ c : Cache Nat V, Reach size exc (List.range n).reverse c ∧ c.map.map (·.1) = List.range n ∧
      c.list.map (·.key) = (List.range n).reverse.take size := by
  induction n with
  | zero => exact ⟨Cache.new, .new, rfl, by simp [Cache.new]⟩
  | succ n ih =>
    obtain ⟨c, h1, h2, h3⟩ := ih
    have hn : n ∉ c.map.map (·.1) := by
      rw [h2]
      simp
    have hc : c.contains n = false := by
      cases hc : c.contains n with
      | false => rfl
      | true => exact absurd ((contains_iff c n).1 hc) hn
    have hrev : (List.range (n + 1)).reverse = n :: (List.range n).reverse := by
      rw [List.range_succ, List.reverse_append]
      rfl
    have hlen : c.list.length = min size n := by
      have := congrArg List.length h3
      simpa using this
    rw [hrev]
    by_cases hfull : c.list.length ≥ size
    · have hne : c.list ≠ [] := by
        intro e
        rw [e] at hfull
        simp only [List.length_nil] at hfull
        omega
      refine ⟨⟨⟨n, v, 0⟩ :: c.list.dropLast, setMap c.map n ⟨n, v, 0⟩⟩, .put _ c _ n v 0 (.value ()) h1 ?_, ?_, ?_⟩
      · rw [put, if_neg (by simp [hc]), if_pos hfull, if_neg hne]
      · rw [setMap_keys, if_neg hn, h2, List.range_succ]
      · simp only [List.map_cons, List.map_dropLast, h3]
        obtain ⟨m, rfl⟩ : ∃ m, size = m + 1 := ⟨size - 1, by omega⟩
        rw [List.take_succ_cons, List.dropLast_eq_take, List.take_take]
        congr 2
        simp only [List.length_take, List.length_reverse, List.length_range]
        omega
    · refine ⟨⟨⟨n, v, 0⟩ :: c.list, setMap c.map n ⟨n, v, 0⟩⟩, .put _ c _ n v 0 (.value ()) h1 ?_, ?_, ?_⟩
      · rw [put, if_neg (by simp [hc]), if_neg hfull]
      · rw [setMap_keys, if_neg hn, h2, List.range_succ]
      · simp only [List.map_cons, h3]
        obtain ⟨m, rfl⟩ : ∃ m, size = m + 1 := ⟨size - 1, by omega⟩
        rw [List.take_succ_cons, List.take_of_length_le (by simp; omega),
          List.take_of_length_le (by simp; omega)]

/-- C66 refuted: the map grows with every new key, without bound. -/
theorem C66_map_refuted (size : Nat) (hs : 0 < size) (exc : Bool) (v : V) (n : Nat) :
    ∃ (h : List Nat) (c : Cache Nat V), Reach size exc h c ∧ c.map.length = n := by
  obtain ⟨c, h1, h2, _⟩ := fresh_puts size hs exc v n
  refine ⟨_, c, h1, ?_⟩
  have := congrArg List.length h2
  simpa using this

/-! ### C67 -/

/-- C67: in every cache the entries are ordered by the last put of their key, the most recent first; and
when a key that was never put is put into a full cache, exactly the last of them is dropped, whose key was
put less recently than every other, and the new entry comes first. -/
theorem C67_evicts_oldest {size : Nat} (hs : 0 < size) {exc : Bool} {h : List K} {c c' : Cache K V}
    (hr : Reach size exc h c) {k : K} {v : V} {now : Int} {o : Out Unit} (hk : k ∉ h)
    (hfull : c.list.length = size) (hp : put size exc c k v now = .ok (c', o)) :
    (c.list.map (·.key)).Pairwise (fun a b => h.idxOf a < h.idxOf b) ∧
    ∃ old, c.list = c'.list.tail ++ [old] ∧ c'.list.head? = some ⟨k, v, now⟩ ∧
      ∀ i ∈ c'.list.tail, h.idxOf i.key < h.idxOf old.key := by
  have hi := hr.inv hs
  refine ⟨hi.sorted, ?_⟩
  have hc : c.contains k = false := by
    cases hc : c.contains k with
    | false => rfl
    | true => exact absurd ((hi.seen k).1 ((contains_iff c k).1 hc)) hk
  have hne : c.list ≠ [] := by
    intro e
    rw [e] at hfull
    simp only [List.length_nil] at hfull
    omega
  rw [put, if_neg (by simp [hc]), if_pos (by omega), if_neg hne] at hp
  cases hp
  refine ⟨c.list.getLast hne, ?_, rfl, ?_⟩
  · simp only [List.tail_cons]
    exact (List.dropLast_concat_getLast hne).symm
  · simp only [List.tail_cons]
    have hs' := hi.sorted
    simp only [Cache.keys] at hs'
    rw [← List.dropLast_concat_getLast hne, List.map_append, List.pairwise_append] at hs'
    intro i hm
    exact hs'.2.2 i.key (List.mem_map.2 ⟨i, hm, rfl⟩) _ (by simp)

example : ∃ c : Cache Nat Nat, Reach 2 true [1, 2, 1] c ∧ (3 ∉ [1, 2, 1] ∧ c.list.length = 2 ∧
    put 2 true c 3 30 9 = .ok (⟨[⟨3, 30, 9⟩, ⟨1, 10, 0⟩], [(1, ⟨1, 10, 0⟩), (2, ⟨2, 20, 1⟩), (3, ⟨3, 30, 9⟩)]⟩,
      .value ())) := by
  obtain ⟨c, h1, h2⟩ : ∃ c : Cache Nat Nat, Reach 2 true [1, 2, 1] c ∧
      c = ⟨[⟨1, 10, 0⟩, ⟨2, 20, 1⟩], [(1, ⟨1, 10, 0⟩), (2, ⟨2, 20, 1⟩)]⟩ :=
    Ex.puts_ex [(1, 10), (2, 20), (1, 11)] (by decide +kernel)
  subst h2
  exact ⟨_, h1, by decide, rfl, rfl⟩

/-! ### C68 -/

/-- C68, as far as it holds: the first put of a key stores its value, in the map and in front of the list,
and leaves the other entries of the map alone; a later put of a key that is still in the list moves its entry
to the front *with the old value*.  See `C68_value_refuted` and, for `get`, `C68_get_refuted`. -/
theorem C68_stores_partial {size : Nat} (hs : 0 < size) {exc : Bool} {h : List K} {c c' : Cache K V}
    (hr : Reach size exc h c) {k : K} {v : V} {now : Int} {o : Out Unit}
    (hp : put size exc c k v now = .ok (c', o)) :
    (k ∉ h → findMap c'.map k = some ⟨k, v, now⟩ ∧ c'.list.head? = some ⟨k, v, now⟩) ∧
    (k ∈ c.list.map (·.key) → ∃ old, findMap c.map k = some old ∧ findMap c'.map k = some old ∧
      c'.list.head? = some old) ∧
    ∀ j, j ≠ k → findMap c'.map j = findMap c.map j := by
  have hi := hr.inv hs
  refine ⟨fun hk => ?_, fun hk => ?_, fun j hj => ?_⟩
  · have hc : c.contains k = false := by
      cases hc : c.contains k with
      | false => rfl
      | true => exact absurd ((hi.seen k).1 ((contains_iff c k).1 hc)) hk
    rcases put_cases hp with ⟨_, h', _⟩ | ⟨h', _⟩ | ⟨_, _, _, _, rfl⟩ | ⟨_, _, _, rfl⟩
    · rw [hc] at h'
      cases h'
    · rw [hc] at h'
      cases h'
    · exact ⟨find_setMap _ _ _, rfl⟩
    · exact ⟨find_setMap _ _ _, rfl⟩
  · have hc : c.contains k = true := (contains_iff c k).2 ((hi.seen k).2 (hi.sub k hk))
    rcases put_cases hp with ⟨obj, _, hok, hm, _, _, rfl⟩ | ⟨_, hn, _⟩ | ⟨h', _⟩ | ⟨h', _⟩
    · refine ⟨obj, ?_, find_setMap _ _ _, rfl⟩
      rw [← hok]
      exact hi.agree obj hm
    · exact absurd hk hn
    · rw [hc] at h'
      cases h'
    · rw [hc] at h'
      cases h'
  · rcases put_cases hp with ⟨obj, _, hok, hm, _, _, rfl⟩ | ⟨_, _, rfl, _⟩ | ⟨_, _, _, _, rfl⟩ | ⟨_, _, _, rfl⟩
    · exact find_setMap_other _ _ _ _ hj
    · rfl
    · exact find_setMap_other _ _ _ _ hj
    · exact find_setMap_other _ _ _ _ hj

example : ∃ c : Cache Nat Nat, Reach 2 true [2, 1] c ∧ (3 ∉ [2, 1] ∧ 2 ∈ c.list.map (·.key)) :=
  Ex.puts_ex [(1, 10), (2, 20)] (by decide +kernel)

/-- C68 refuted: a second put of a key does not change its value. -/
theorem C68_value_refuted (size : Nat) (hs : 0 < size) (exc : Bool) (k : K) (v w : V) (t u : Int) :
    ∃ c c' : Cache K V, Reach size exc [k] c ∧ put size exc c k w u = .ok (c', .value ()) ∧
      findMap c'.map k = some ⟨k, v, t⟩ ∧ c'.list = [⟨k, v, t⟩] := by
  refine ⟨⟨[⟨k, v, t⟩], [(k, ⟨k, v, t⟩)]⟩, ⟨[⟨k, v, t⟩], [(k, ⟨k, v, t⟩)]⟩,
    .put [] Cache.new _ k v t (.value ()) .new ?_, ?_, ?_, rfl⟩
  · have : ¬ (0 ≥ size) := by omega
    simp [put, Cache.new, Cache.contains, this, setMap]
  · simp [put, Cache.contains, setMap]
  · simp [findMap]

/-- C68 refuted, `get`: every hit that has not expired is undefined behaviour. -/
theorem C68_get_refuted (exc : Bool) (expiry : Int) (c : Cache K V) (k : K) (i : Item K V) (now : Int)
    (hf : findMap c.map k = some i) (ht : now - i.time < expiry) : get exc expiry c k now = .ub := by
  rw [get, hf]
  simp only
  rw [if_neg (by omega)]

/-! ### C69 -/

/-- C69, as far as it holds: `put` is always defined, and it changes nothing and fails (or does nothing,
without exceptions) only for a key that was put before and is no longer in the list.  Otherwise it succeeds
and its key comes first.  See `C69_evicted_refuted`. -/
theorem C69_put_partial {size : Nat} (hs : 0 < size) {exc : Bool} {h : List K} {c : Cache K V}
    (hr : Reach size exc h c) (k : K) (v : V) (now : Int) :
    (k ∈ h ∧ k ∉ c.list.map (·.key) →
      put size exc c k v now = .ok (c, if exc then .missed else .value ())) ∧
    (¬ (k ∈ h ∧ k ∉ c.list.map (·.key)) → ∃ c', put size exc c k v now = .ok (c', .value ()) ∧
      (c'.list.map (·.key)).head? = some k) := by
  have hi := hr.inv hs
  have hcon : c.contains k = true ↔ k ∈ h := by rw [contains_iff, hi.seen]
  refine ⟨fun hk => ?_, fun hk => ?_⟩
  · rw [put, if_pos (hcon.2 hk.1), find_none.2 hk.2]
  · by_cases hh : k ∈ h
    · have hkk : k ∈ c.keys := Classical.byContradiction fun hn => hk ⟨hh, hn⟩
      cases hf : c.list.find? fun i => i.key = k with
      | none => exact absurd hkk (find_none.1 hf)
      | some obj =>
        refine ⟨_, by rw [put, if_pos (hcon.2 hh), hf], ?_⟩
        simp [(find_some hf).1]
    · have hc : ¬ c.contains k = true := fun h' => hh (hcon.1 h')
      by_cases hl : c.list.length ≥ size
      · have hne : c.list ≠ [] := by
          intro e
          rw [e] at hl
          simp only [List.length_nil] at hl
          omega
        exact ⟨_, by rw [put, if_neg hc, if_pos hl, if_neg hne], rfl⟩
      · exact ⟨_, by rw [put, if_neg hc, if_neg hl], rfl⟩

example : ∃ c : Cache Nat Nat, Reach 2 true [3, 2, 1] c ∧ (1 ∈ [3, 2, 1] ∧ 1 ∉ c.list.map (·.key)) :=
  Ex.puts_ex [(1, 10), (2, 20), (3, 30)] (by decide +kernel)

/-- C69 refuted, for every `Size`: after `Size + 1` different keys the first one cannot be put again. -/
theorem C69_evicted_refuted (size : Nat) (hs : 0 < size) (v : V) (now : Int) :
    ∃ (h : List Nat) (c : Cache Nat V), Reach size true h c ∧ 0 ∈ h ∧
      put size true c 0 v now = .ok (c, .missed) := by
  obtain ⟨c, h1, h2, h3⟩ := fresh_puts size hs true v (size + 1)
  have h0 : 0 ∈ (List.range (size + 1)).reverse := by simp
  refine ⟨_, c, h1, h0, (C69_put_partial hs h1 0 v now).1 ⟨h0, ?_⟩⟩
  rw [h3]
  intro hm
  obtain ⟨i, hi⟩ := List.mem_iff_getElem?.1 hm
  rw [List.getElem?_take] at hi
  split at hi
  · rename_i hlt
    rw [List.getElem?_reverse (by simp; omega)] at hi
    simp only [List.length_range] at hi
    rw [List.getElem?_range (by omega)] at hi
    simp only [Option.some.injEq] at hi
    omega
  · cases hi

end Verif.Lru
