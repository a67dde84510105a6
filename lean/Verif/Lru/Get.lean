import Verif.Lru.Props
/-! Property C88: what `get` of `cache::lru` finds. -/
namespace Verif.Lru
open Verif

variable {K V : Type} [DecidableEq K]

/-- Calls of `put`, each with the reading of the clock, in order. -/
def putAll (size : Nat) (exc : Bool) : List (K × V × Int) → Cache K V → Res (Cache K V)
  | [], c => .ok c
  | p :: ps, c => do
    let r ← put size exc c p.1 p.2.1 p.2.2
    putAll size exc ps r.1

theorem putAll_reach {size : Nat} {exc : Bool} (ps : List (K × V × Int)) {h : List K} {c c' : Cache K V}
    (hr : Reach size exc h c) (hp : putAll size exc ps c = .ok c') : ∃ h', Reach size exc h' c' := by
  induction ps generalizing h c with
  | nil =>
    simp only [putAll, Res.ok.injEq] at hp
    exact ⟨h, hp ▸ hr⟩
  | cons p ps ih =>
    simp only [putAll] at hp
    cases hq : put size exc c p.1 p.2.1 p.2.2 with
    | ub => rw [hq] at hp; cases hp
    | hang => rw [hq] at hp; cases hp
    | ok r =>
      rw [hq, Res.ok_bind] at hp
      exact ih (.put _ _ _ _ _ _ _ hr hq) hp

theorem find_none_iff (m : List (K × Item K V)) (k : K) : findMap m k = none ↔ k ∉ m.map (·.1) := by
  simp only [findMap, Option.map_eq_none_iff, List.find?_eq_none, List.mem_map, not_exists, not_and]
  constructor
  · intro h p hp e
    have := h p hp
    simp [e] at this
  · intro h p hp e
    exact h p hp (by simpa using e)

/-- The map keeps the first item that was put under a key. -/
theorem put_find {size : Nat} (hs : 0 < size) {exc : Bool} {h : List K} {c c' : Cache K V} (hr : Reach size exc h c)
    {k : K} {v : V} {now : Int} {o : Out Unit} (hp : put size exc c k v now = .ok (c', o)) (j : K) :
    findMap c'.map j = (findMap c.map j).or (if k = j then some ⟨k, v, now⟩ else none) := by
  have hi := hr.inv hs
  have hnew : c.contains k = false → ∀ it : Item K V, findMap (setMap c.map k it) j =
      (findMap c.map j).or (if k = j then some it else none) := by
    intro hc it
    by_cases hj : k = j
    · subst hj
      have : findMap c.map k = none := (find_none_iff _ _).2 (by rw [← contains_iff, hc]; simp)
      rw [find_setMap, this]
      simp
    · rw [find_setMap_other _ _ _ _ (fun e => hj e.symm), if_neg hj, Option.or_none]
  rcases put_cases hp with ⟨obj, hc, hk, hm, _, _, rfl⟩ | ⟨hc, _, rfl, _⟩ | ⟨hc, _, _, _, rfl⟩ | ⟨hc, _, _, rfl⟩
  · have ha := hi.agree obj hm
    rw [hk] at ha
    show findMap (setMap c.map k obj) j = _
    by_cases hj : k = j
    · subst hj
      rw [find_setMap, ha]
      rfl
    · rw [find_setMap_other _ _ _ _ (fun e => hj e.symm), if_neg hj, Option.or_none]
  · by_cases hj : k = j
    · subst hj
      cases hf : findMap c'.map k with
      | none => exact absurd ((contains_iff c' k).1 hc) ((find_none_iff _ _).1 hf)
      | some i => rfl
    · rw [if_neg hj, Option.or_none]
  · exact hnew hc _
  · exact hnew hc _

theorem putAll_find {size : Nat} (hs : 0 < size) {exc : Bool} (ps : List (K × V × Int)) {h : List K} {c c' : Cache K V}
    (hr : Reach size exc h c) (hp : putAll size exc ps c = .ok c') (j : K) :
    findMap c'.map j = (findMap c.map j).or ((ps.find? fun p => p.1 = j).map fun p => ⟨j, p.2.1, p.2.2⟩) := by
  induction ps generalizing h c with
  | nil =>
    simp only [putAll, Res.ok.injEq] at hp
    subst hp
    simp
  | cons p ps ih =>
    simp only [putAll] at hp
    cases hq : put size exc c p.1 p.2.1 p.2.2 with
    | ub => rw [hq] at hp; cases hp
    | hang => rw [hq] at hp; cases hp
    | ok r =>
      rw [hq, Res.ok_bind] at hp
      rw [ih (.put _ _ _ _ _ _ r.2 hr hq) hp, put_find hs hr hq j]
      by_cases hj : p.1 = j
      · rw [if_pos hj, List.find?_cons_of_pos (by simpa using hj)]
        cases findMap c.map j with
        | some i => rfl
        | none => subst hj; rfl
      · rw [if_neg hj, List.find?_cons_of_neg (by simpa using hj), Option.or_none]

/-- What `get` does after any history of puts, exactly.  The time that counts is that of the first put of the key:
later puts do not renew it, nor does an eviction remove the key from the map. -/
theorem C88_get_exact {size : Nat} (hs : 0 < size) {exc : Bool} {ps : List (K × V × Int)} {c : Cache K V}
    (hp : putAll size exc ps Cache.new = .ok c) (expiry : Int) (k : K) (now : Int) :
    get exc expiry c k now =
      match ps.find? fun p => p.1 = k with
      | none => .ok (.value none)
      | some p => if now - p.2.2 < expiry then .ub else .ok (if exc = true then .timeout else .value none) := by
  have h := putAll_find hs ps (.new) hp k
  have h0 : findMap (Cache.new : Cache K V).map k = none := rfl
  rw [h0, Option.none_or] at h
  rw [get, h]
  cases hf : ps.find? fun p => p.1 = k with
  | none => rfl
  | some p =>
    simp only [Option.map_some]
    by_cases ht : now - p.2.2 < expiry
    · rw [if_neg (by omega), if_pos ht]
    · rw [if_pos (by omega), if_neg ht]

/-- **C88 for unknown and expired keys**: after any history of puts, `get` of a key that was never put finds
nothing, and if all puts of a key are at least `expired_after` ago, `get` throws `cache_timeout`, or returns nothing if
`Exception` is false.

Missing: the other direction.  A key that was put again is reported as expired too early (`C88_renewed_refuted`),
and on a key that has not expired `get` is undefined (`C68_get_refuted`). -/
theorem C88_expired_partial {size : Nat} (hs : 0 < size) {exc : Bool} {ps : List (K × V × Int)} {c : Cache K V}
    (hp : putAll size exc ps Cache.new = .ok c) (expiry : Int) (k : K) (now : Int) :
    ((∀ p ∈ ps, p.1 ≠ k) → get exc expiry c k now = .ok (.value none)) ∧
    ((∃ p ∈ ps, p.1 = k) → (∀ p ∈ ps, p.1 = k → expiry ≤ now - p.2.2) →
      get exc expiry c k now = .ok (if exc = true then .timeout else .value none)) := by
  rw [C88_get_exact hs hp]
  constructor
  · intro h
    rw [List.find?_eq_none.2 (fun p hm => by simpa using h p hm)]
  · rintro ⟨p, hm, hk⟩ h
    cases hf : ps.find? fun p => p.1 = k with
    | none => exact absurd (by simpa using hk) (List.find?_eq_none.1 hf p hm)
    | some q =>
      have h1 := h q (List.mem_of_find?_eq_some hf) (by simpa using List.find?_some hf)
      simp only
      rw [if_neg (by omega)]

example : ∃ c : Cache Nat Nat, putAll 2 true [(1, 10, 0), (2, 20, 5), (3, 30, 7), (2, 21, 8)] Cache.new = .ok c ∧
    get true 50 c 2 58 = .ok .timeout ∧ get true 50 c 4 58 = .ok (.value none) := by
  have h : ∃ c : Cache Nat Nat, putAll 2 true [(1, 10, 0), (2, 20, 5), (3, 30, 7), (2, 21, 8)] Cache.new = .ok c :=
    ⟨_, rfl⟩
  obtain ⟨c, hc⟩ := h
  refine ⟨c, hc, (C88_expired_partial (by decide) hc 50 2 58).2 ⟨(2, 20, 5), by simp⟩ (by simp),
    (C88_expired_partial (by decide) hc 50 4 58).1 (by simp)⟩

/-- **C88 is false for a key that was put again**: put at 0 and again at 90, it is reported as expired at 100 although
`expired_after` is 50. -/
theorem C88_renewed_refuted (size : Nat) (hs : 0 < size) (k : K) (v w : V) : ∃ c,
    putAll size true [(k, v, 0), (k, w, 90)] Cache.new = .ok c ∧ get true 50 c k 100 = .ok .timeout := by
  have h : ∃ c, putAll size true [(k, v, 0), (k, w, 90)] Cache.new = .ok c := by
    have h1 : put size true (Cache.new : Cache K V) k v 0 = .ok (⟨[⟨k, v, 0⟩], [(k, ⟨k, v, 0⟩)]⟩, .value ()) := by
      simp [put, Cache.new, Cache.contains, setMap]
      omega
    have h2 : put size true (⟨[⟨k, v, 0⟩], [(k, ⟨k, v, 0⟩)]⟩ : Cache K V) k w 90 =
        .ok (⟨[⟨k, v, 0⟩], [(k, ⟨k, v, 0⟩)]⟩, .value ()) := by
      simp [put, Cache.contains, setMap]
    exact ⟨⟨[⟨k, v, 0⟩], [(k, ⟨k, v, 0⟩)]⟩, by simp only [putAll, h1, h2, Res.ok_bind]⟩
  obtain ⟨c, hc⟩ := h
  exact ⟨c, hc, by rw [C88_get_exact hs hc]; simp⟩

end Verif.Lru
