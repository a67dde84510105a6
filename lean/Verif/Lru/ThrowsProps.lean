import Verif.Lru.Throws
import Verif.Lru.Props
/-! Properties C160 and C161: a cache whose calls may end with an exception. -/
namespace Verif.Lru.Throws
open Verif

variable {K V : Type} [DecidableEq K]

theorem mem_setMap {m : List (K × Item K V)} {k : K} {o : Item K V} {p : K × Item K V} (h : p ∈ setMap m k o) : p = (k, o) ∨ p ∈ m := by
  induction m with
  | nil => left; simpa [setMap] using h
  | cons q m ih =>
    rw [setMap] at h
    split at h
    · rcases List.mem_cons.1 h with h | h
      · exact .inl h
      · exact .inr (List.mem_cons_of_mem _ h)
    · rcases List.mem_cons.1 h with h | h
      · exact .inr (by rw [h]; exact List.mem_cons_self)
      · rcases ih h with h | h
        · exact .inl h
        · exact .inr (List.mem_cons_of_mem _ h)

theorem find_mem {m : List (K × Item K V)} {k : K} {i : Item K V} (h : findMap m k = some i) : (k, i) ∈ m := by
  unfold findMap at h
  cases hf : m.find? fun p => p.1 = k with
  | none => rw [hf] at h; cases h
  | some q =>
    rw [hf] at h
    have h1 := List.find?_some hf
    have h2 := List.mem_of_find?_eq_some hf
    have h3 : q.1 = k := by simpa using h1
    simp only [Option.map_some, Option.some.injEq] at h
    rw [← h3, ← h]
    exact h2

theorem setMap_nodup {m : List (K × Item K V)} {k : K} {o : Item K V} (h : (m.map (·.1)).Nodup) : ((setMap m k o).map (·.1)).Nodup := by
  rw [setMap_keys]
  split
  · exact h
  · rename_i hk
    rw [List.nodup_append]
    refine ⟨h, by simp, ?_⟩
    intro a ha b hb e
    simp only [List.mem_singleton] at hb
    subst hb
    subst e
    exact hk ha

theorem setMap_has (m : List (K × Item K V)) (k : K) (o : Item K V) : k ∈ (setMap m k o).map (·.1) := by
  rw [setMap_keys]
  split
  · assumption
  · simp

theorem setMap_sub (m : List (K × Item K V)) (k j : K) (o : Item K V) (h : j ∈ m.map (·.1)) : j ∈ (setMap m k o).map (·.1) := by
  rw [setMap_keys]
  split
  · assumption
  · exact List.mem_append_left _ h

variable [Inhabited K] [Inhabited V]

theorem cut_nodup {m : List (K × Item K V)} {k : K} {p : Point} (h : (m.map (·.1)).Nodup) : ((cutMap m k p).map (·.1)).Nodup := by
  cases p <;> first | exact h | exact setMap_nodup h

theorem cut_sub {m : List (K × Item K V)} {k j : K} {p : Point} (h : j ∈ m.map (·.1)) : j ∈ (cutMap m k p).map (·.1) := by
  cases p <;> first | exact h | exact setMap_sub _ _ _ _ h

/-- The cases of a call that ends with an exception. -/
theorem thrown_cases {size : Nat} {exc : Bool} {c c' : Cache K V} {k : K} {v : V} {now : Int} {p : Option Point}
    (h : put size exc c k v now p = .ok (c', .thrown)) : ∃ q, p = some q ∧
    (c' = c ∧ (q = .contains ∨ q = .find) ∨
    (q ≠ .contains ∧ q ≠ .find ∧ ∃ o, c.contains k = true ∧ o.key = k ∧ o ∈ c.list ∧ (c.list.find? fun i => i.key = k) = some o ∧ c' = renew c k o q) ∨
    (q ≠ .contains ∧ q ≠ .find ∧ c.contains k = false ∧ size ≤ c.list.length ∧ c.list ≠ [] ∧ c' = insert c c.list.dropLast k v now q) ∨
    (q ≠ .contains ∧ q ≠ .find ∧ c.contains k = false ∧ c.list.length < size ∧ c' = insert c c.list k v now q)) := by
  cases p with
  | none =>
    simp only [put] at h
    cases hp : Lru.put size exc c k v now with
    | ok r => rw [hp] at h; simp only [Res.ok_bind, Res.ok.injEq, Prod.mk.injEq] at h; exact absurd h.2 (by simp)
    | ub => rw [hp] at h; exact absurd h (by intro h; cases h)
    | hang => rw [hp] at h; exact absurd h (by intro h; cases h)
  | some q =>
    refine ⟨q, rfl, ?_⟩
    unfold put at h
    dsimp only at h
    split at h
    · cases h; exact .inl ⟨rfl, .inl ‹_›⟩
    · rename_i h1
      split at h
      · rename_i h2
        split at h
        · cases h; exact .inl ⟨rfl, .inr ‹_›⟩
        · rename_i h3
          split at h
          · rename_i o hf
            have := find_some hf
            cases h
            exact .inr (.inl ⟨h1, h3, o, h2, this.1, this.2, hf, rfl⟩)
          · cases h
      · rename_i h2
        have h2 : c.contains k = false := by simpa using h2
        split at h
        · cases hp : Lru.put size exc c k v now with
          | ok r => rw [hp] at h; simp only [Res.ok_bind, Res.ok.injEq, Prod.mk.injEq] at h; exact absurd h.2 (by simp)
          | ub => rw [hp] at h; exact absurd h (by intro h; cases h)
          | hang => rw [hp] at h; exact absurd h (by intro h; cases h)
        · rename_i h3
          split at h
          · split at h
            · cases h
            · cases h
              exact .inr (.inr (.inl ⟨h1, h3, h2, ‹_›, ‹_›, rfl⟩))
          · cases h
            exact .inr (.inr (.inr ⟨h1, h3, h2, by omega, rfl⟩))

/-- A call that does not end with an exception is one of `Model`. -/
theorem out_eq {size : Nat} {exc : Bool} {c c' : Cache K V} {k : K} {v : V} {now : Int} {p : Option Point} {o : Out Unit}
    (h : put size exc c k v now p = .ok (c', .out o)) : Lru.put size exc c k v now = .ok (c', o) := by
  have key : ∀ {r : Res (Cache K V × Out Unit)}, (do let (c', o) ← r; Res.ok (c', End.out o)) = .ok (c', .out o) → r = .ok (c', o) := by
    intro r h
    cases r with
    | ok r => simp only [Res.ok_bind, Res.ok.injEq, Prod.mk.injEq, End.out.injEq] at h; rw [← h.1, ← h.2]
    | ub => exact absurd h (by intro h; cases h)
    | hang => exact absurd h (by intro h; cases h)
  cases p with
  | none => exact key h
  | some q =>
    unfold put at h
    dsimp only at h
    split at h
    · cases h
    · split at h
      · rename_i h2
        split at h
        · cases h
        · split at h
          · cases h
          · rename_i hf
            cases h
            unfold Lru.put
            rw [if_pos h2, hf]
      · split at h
        · exact key h
        · split at h
          · split at h <;> cases h
          · cases h

/-- What holds of every cache, whatever has been thrown. -/
structure Inv (size : Nat) (h : List (Call K V × End)) (c : Cache K V) : Prop where
  len : c.list.length ≤ size
  nodup : (c.map.map (·.1)).Nodup
  made : ∀ i ∈ c.list, ∃ x ∈ h, i = ⟨x.1.key, x.1.value, x.1.now⟩
  map : ∀ p ∈ c.map, (∃ x ∈ h, x.1.key = p.1 ∧ p.2 = ⟨x.1.key, x.1.value, x.1.now⟩) ∨
    (p.2.value = default ∧ p.2.time = 0 ∧ ∃ x ∈ h, x.1.key = p.1 ∧ x.2 = .thrown)
  sub : ∀ i ∈ c.list, i.key ∈ c.map.map (·.1) ∨ ∃ x ∈ h, x.1.key = i.key ∧ x.1.at? = some .index ∧ x.2 = .thrown
  known : ∀ p ∈ c.map, ∃ x ∈ h, x.1.key = p.1

theorem Inv.cut {size : Nat} {h : List (Call K V × End)} {c : Cache K V} (i : Inv size h c) {a : Call K V} {q : Point} {p : K × Item K V}
    (hp : p ∈ cutMap c.map a.key q) : (∃ x ∈ (a, End.thrown) :: h, x.1.key = p.1 ∧ p.2 = ⟨x.1.key, x.1.value, x.1.now⟩) ∨
    (p.2.value = default ∧ p.2.time = 0 ∧ ∃ x ∈ (a, End.thrown) :: h, x.1.key = p.1 ∧ x.2 = .thrown) := by
  have old : ∀ p ∈ c.map, (∃ x ∈ (a, End.thrown) :: h, x.1.key = p.1 ∧ p.2 = ⟨x.1.key, x.1.value, x.1.now⟩) ∨
      (p.2.value = default ∧ p.2.time = 0 ∧ ∃ x ∈ (a, End.thrown) :: h, x.1.key = p.1 ∧ x.2 = .thrown) := by
    intro p hp
    rcases i.map p hp with ⟨x, hx, h1⟩ | ⟨h1, h2, x, hx, h3⟩
    · exact .inl ⟨x, List.mem_cons_of_mem _ hx, h1⟩
    · exact .inr ⟨h1, h2, x, List.mem_cons_of_mem _ hx, h3⟩
  cases q with
  | assignKey =>
    rcases mem_setMap hp with rfl | hp
    · cases hf : findMap c.map a.key with
      | none => exact .inr ⟨rfl, rfl, _, List.mem_cons_self, rfl, rfl⟩
      | some i => exact old _ (find_mem hf)
    · exact old _ hp
  | assignValue =>
    rcases mem_setMap hp with rfl | hp
    · cases hf : findMap c.map a.key with
      | none => exact .inr ⟨rfl, rfl, _, List.mem_cons_self, rfl, rfl⟩
      | some i =>
        rcases old _ (find_mem hf) with ⟨x, hx, h1, h2⟩ | ⟨h1, h2, h3⟩
        · refine .inl ⟨x, hx, h1, ?_⟩
          dsimp only [Option.getD_some] at h1 h2 ⊢
          rw [h2, h1]
        · exact .inr ⟨h1, h2, h3⟩
    · exact old _ hp
  | contains => exact old _ hp
  | find => exact old _ hp
  | obj => exact old _ hp
  | push => exact old _ hp
  | index => exact old _ hp

theorem cut_known {m : List (K × Item K V)} {k : K} {q : Point} {p : K × Item K V} (hp : p ∈ cutMap m k q) : p.1 = k ∨ p ∈ m := by
  cases q <;> first | exact .inr hp | exact (mem_setMap hp).imp (fun h => by rw [h]) id

theorem cut_key {m : List (K × Item K V)} {k : K} {q : Point} (h1 : q ≠ .contains) (h2 : q ≠ .find) (h3 : q ≠ .obj) (h4 : q ≠ .push) :
    q = .index ∨ k ∈ (cutMap m k q).map (·.1) := by
  cases q <;> first | exact absurd rfl h1 | exact absurd rfl h2 | exact absurd rfl h3 | exact absurd rfl h4 | exact .inl rfl | exact .inr (setMap_has _ _ _)

theorem inv_new {size : Nat} : Inv size [] (Cache.new : Cache K V) := by
  refine ⟨Nat.zero_le _, List.nodup_nil, ?_, ?_, ?_, ?_⟩ <;> intro _ h <;> cases h

theorem Inv.grow {size : Nat} {h : List (Call K V × End)} {c : Cache K V} (i : Inv size h c) (x : Call K V × End) : Inv size (x :: h) c := by
  refine ⟨i.len, i.nodup, ?_, ?_, ?_, ?_⟩
  · intro j hj
    obtain ⟨y, hy, e⟩ := i.made j hj
    exact ⟨y, List.mem_cons_of_mem _ hy, e⟩
  · intro p hp
    rcases i.map p hp with ⟨y, hy, h1⟩ | ⟨h1, h2, y, hy, h3⟩
    · exact .inl ⟨y, List.mem_cons_of_mem _ hy, h1⟩
    · exact .inr ⟨h1, h2, y, List.mem_cons_of_mem _ hy, h3⟩
  · intro j hj
    rcases i.sub j hj with h1 | ⟨y, hy, h1⟩
    · exact .inl h1
    · exact .inr ⟨y, List.mem_cons_of_mem _ hy, h1⟩
  · intro p hp
    obtain ⟨y, hy, e⟩ := i.known p hp
    exact ⟨y, List.mem_cons_of_mem _ hy, e⟩

/-- The list gets a new first element and keeps some of the others; the map is `m`. -/
theorem Inv.front {size : Nat} {h : List (Call K V × End)} {c : Cache K V} (i : Inv size h c) {o : Item K V} {l : List (Item K V)}
    {m : List (K × Item K V)} (hl : ∀ j ∈ l, j ∈ c.list) (hlen : l.length < size) (hm : (m.map (·.1)).Nodup)
    (ho : ∃ x ∈ h, o = ⟨x.1.key, x.1.value, x.1.now⟩)
    (hmap : ∀ p ∈ m, (∃ x ∈ h, x.1.key = p.1 ∧ p.2 = ⟨x.1.key, x.1.value, x.1.now⟩) ∨
      (p.2.value = default ∧ p.2.time = 0 ∧ ∃ x ∈ h, x.1.key = p.1 ∧ x.2 = .thrown))
    (hsub : ∀ k ∈ c.map.map (·.1), k ∈ m.map (·.1))
    (hok : o.key ∈ m.map (·.1) ∨ ∃ x ∈ h, x.1.key = o.key ∧ x.1.at? = some .index ∧ x.2 = .thrown) : Inv size h ⟨o :: l, m⟩ := by
  refine ⟨hlen, hm, ?_, hmap, ?_, ?_⟩
  · intro j hj
    rcases List.mem_cons.1 hj with rfl | hj
    · exact ho
    · exact i.made j (hl j hj)
  · intro j hj
    rcases List.mem_cons.1 hj with rfl | hj
    · exact hok
    · exact (i.sub j (hl j hj)).imp (hsub _) id
  · intro p hp
    rcases hmap p hp with ⟨x, hx, h1, _⟩ | ⟨_, _, x, hx, h1, _⟩
    · exact ⟨x, hx, h1⟩
    · exact ⟨x, hx, h1⟩

theorem Inv.less {size : Nat} {h : List (Call K V × End)} {c : Cache K V} (i : Inv size h c) {l : List (Item K V)}
    (hl : ∀ j ∈ l, j ∈ c.list) (hlen : l.length ≤ size) : Inv size h { c with list := l } :=
  ⟨hlen, i.nodup, fun j hj => i.made j (hl j hj), i.map, fun j hj => i.sub j (hl j hj), i.known⟩

theorem inv_put {size : Nat} (hs : 0 < size) {exc : Bool} {h : List (Call K V × End)} {c c' : Cache K V} {a : Call K V} {e : End}
    (i : Inv size h c) (hp : put size exc c a.key a.value a.now a.at? = .ok (c', e)) : Inv size ((a, e) :: h) c' := by
  have g := i.grow (a, e)
  have hdrop : ∀ j ∈ c.list.dropLast, j ∈ c.list := fun j hj => List.dropLast_subset _ hj
  have hdlen : c.list ≠ [] → c.list.dropLast.length < size := by
    intro hn
    rw [List.length_dropLast]
    have := List.length_pos_iff.2 hn
    have := i.len
    omega
  have hset : ∀ o : Item K V, o.key = a.key → (∃ x ∈ (a, e) :: h, o = ⟨x.1.key, x.1.value, x.1.now⟩) → ∀ p ∈ setMap c.map a.key o,
      (∃ x ∈ (a, e) :: h, x.1.key = p.1 ∧ p.2 = ⟨x.1.key, x.1.value, x.1.now⟩) ∨
      (p.2.value = default ∧ p.2.time = 0 ∧ ∃ x ∈ (a, e) :: h, x.1.key = p.1 ∧ x.2 = .thrown) := by
    intro o ho ⟨x, hx, e1⟩ p hp
    rcases mem_setMap hp with rfl | hp
    · refine .inl ⟨x, hx, ?_, e1⟩
      rw [e1] at ho
      exact ho
    · exact g.map p hp
  cases e with
  | out o =>
    rcases put_cases (out_eq hp) with ⟨obj, h1, h2, h3, h4, h5, rfl⟩ | ⟨h1, h2, rfl, h4⟩ | ⟨h1, h2, h3, h4, rfl⟩ | ⟨h1, h2, h3, rfl⟩
    · refine g.front (fun j hj => List.mem_of_mem_eraseP hj) ?_ (setMap_nodup i.nodup) (g.made obj h3) (hset obj h2 (g.made obj h3))
        (fun k hk => setMap_sub _ _ _ _ hk) (.inl (by rw [h2]; exact setMap_has _ _ _))
      rw [List.length_eraseP_of_mem h3 (by simpa using h2)]
      have := List.length_pos_of_mem h3
      have := i.len
      omega
    · exact g
    · exact g.front hdrop (hdlen h3) (setMap_nodup i.nodup) ⟨_, List.mem_cons_self, rfl⟩ (hset _ rfl ⟨_, List.mem_cons_self, rfl⟩)
        (fun k hk => setMap_sub _ _ _ _ hk) (.inl (setMap_has _ _ _))
    · exact g.front (fun j hj => hj) h2 (setMap_nodup i.nodup) ⟨_, List.mem_cons_self, rfl⟩ (hset _ rfl ⟨_, List.mem_cons_self, rfl⟩)
        (fun k hk => setMap_sub _ _ _ _ hk) (.inl (setMap_has _ _ _))
  | thrown =>
    obtain ⟨q, hq, h0⟩ := thrown_cases hp
    have hins : ∀ l, (∀ j ∈ l, j ∈ c.list) → l.length < size → q ≠ .contains → q ≠ .find →
        Inv size ((a, End.thrown) :: h) (insert c l a.key a.value a.now q) := by
      intro l hl hlen h1 h2
      by_cases h3 : q = .obj
      · subst h3; exact g.less hl (Nat.le_of_lt hlen)
      · by_cases h4 : q = .push
        · subst h4; exact g.less hl (Nat.le_of_lt hlen)
        · have : insert c l a.key a.value a.now q = ⟨⟨a.key, a.value, a.now⟩ :: l, cutMap c.map a.key q⟩ := by
            cases q <;> first | rfl | exact absurd rfl h1 | exact absurd rfl h2 | exact absurd rfl h3 | exact absurd rfl h4
          rw [this]
          refine g.front hl hlen (cut_nodup i.nodup) ⟨_, List.mem_cons_self, rfl⟩ (fun p hp => i.cut hp) (fun k hk => cut_sub hk) ?_
          rcases cut_key (m := c.map) (k := a.key) h1 h2 h3 h4 with h5 | h5
          · exact .inr ⟨_, List.mem_cons_self, rfl, by rw [hq, h5], rfl⟩
          · exact .inl h5
    rcases h0 with ⟨rfl, _⟩ | ⟨h1, h2, o, h3, h4, h5, h6, rfl⟩ | ⟨h1, h2, h3, h4, h5, rfl⟩ | ⟨h1, h2, h3, h4, rfl⟩
    · exact g
    · have hl : ∀ j ∈ c.list.eraseP fun i => i.key = a.key, j ∈ c.list := fun j hj => List.mem_of_mem_eraseP hj
      have hlen : (c.list.eraseP fun i => i.key = a.key).length < size := by
        rw [List.length_eraseP_of_mem h5 (by simpa using h4)]
        have := List.length_pos_of_mem h5
        have := i.len
        omega
      by_cases h7 : q = .obj
      · subst h7; exact g
      · by_cases h8 : q = .push
        · subst h8; exact g.less hl (Nat.le_of_lt hlen)
        · have : renew c a.key o q = ⟨o :: c.list.eraseP fun i => i.key = a.key, cutMap c.map a.key q⟩ := by
            cases q <;> first | rfl | exact absurd rfl h1 | exact absurd rfl h2 | exact absurd rfl h7 | exact absurd rfl h8
          rw [this]
          refine g.front hl hlen (cut_nodup i.nodup) (g.made o h5) (fun p hp => i.cut hp) (fun k hk => cut_sub hk) (.inl ?_)
          rw [h4]
          exact cut_sub ((contains_iff _ _).1 h3)
    · exact hins _ hdrop (hdlen h5) h1 h2
    · exact hins _ (fun j hj => hj) h4 h1 h2

theorem reach_inv {size : Nat} (hs : 0 < size) {exc : Bool} {h : List (Call K V × End)} {c : Cache K V} (hr : Reach size exc h c) :
    Inv size h c := by
  induction hr with
  | new => exact inv_new
  | put h c c' a e _ hp ih => exact inv_put hs ih hp

/-- **C160.** Whatever calls throw, the list never holds more than `size` entries, all its entries were given to some call of
`put` as they are, the map has one entry for a key, and this is what was given to some call or, if a call with that key has ended
with an exception, an entry with the default value and time 0; and the next call is defined. -/
theorem C160_kept {size : Nat} (hs : 0 < size) {exc : Bool} {h : List (Call K V × End)} {c : Cache K V} (hr : Reach size exc h c) :
    c.list.length ≤ size ∧ (∀ i ∈ c.list, ∃ x ∈ h, i = ⟨x.1.key, x.1.value, x.1.now⟩) ∧ (c.map.map (·.1)).Nodup ∧
    (∀ p ∈ c.map, (∃ x ∈ h, x.1.key = p.1 ∧ p.2 = ⟨p.1, x.1.value, x.1.now⟩) ∨
      (p.2.value = default ∧ p.2.time = 0 ∧ ∃ x ∈ h, x.1.key = p.1 ∧ x.2 = .thrown)) ∧
    ∀ a : Call K V, ∃ c' e, put size exc c a.key a.value a.now a.at? = .ok (c', e) := by
  have i := reach_inv hs hr
  refine ⟨i.len, i.made, i.nodup, ?_, ?_⟩
  · intro p hp
    rcases i.map p hp with ⟨x, hx, h1, h2⟩ | h1
    · exact .inl ⟨x, hx, h1, by rw [h2, h1]⟩
    · exact .inr h1
  · intro a
    have hn : Lru.put size exc c a.key a.value a.now ≠ .ub ∧ Lru.put size exc c a.key a.value a.now ≠ .hang := by
      unfold Lru.put
      constructor <;>
      · split
        · split <;> simp
        · split
          · rw [if_neg (by intro h; simp [h] at *; omega)]; simp
          · simp
    have key : ∃ c' e, (do let (c', o) ← Lru.put size exc c a.key a.value a.now; Res.ok (c', End.out o)) = .ok (c', e) := by
      cases hq : Lru.put size exc c a.key a.value a.now with
      | ok r => exact ⟨_, _, rfl⟩
      | ub => exact absurd hq hn.1
      | hang => exact absurd hq hn.2
    cases hat : a.at? with
    | none => exact key
    | some q =>
      unfold put
      dsimp only
      split
      · exact ⟨_, _, rfl⟩
      · split
        · split
          · exact ⟨_, _, rfl⟩
          · split <;> exact ⟨_, _, rfl⟩
        · split
          · exact key
          · split
            · rw [if_neg (by intro h; simp [h] at *; omega)]; exact ⟨_, _, rfl⟩
            · exact ⟨_, _, rfl⟩

/-- Without exceptions these are the calls of `Model`. -/
theorem C160_agrees {size : Nat} {exc : Bool} {h : List (Call K V × End)} {c : Cache K V} (hr : Reach size exc h c)
    (hq : ∀ x ∈ h, x.1.at? = none) : Lru.Reach size exc (h.map (·.1.key)) c := by
  induction hr with
  | new => exact .new
  | put h c c' a e _ hp ih =>
    have h1 := hq (a, e) List.mem_cons_self
    cases e with
    | out o => exact .put _ _ _ _ _ _ _ (ih fun x hx => hq x (List.mem_cons_of_mem _ hx)) (out_eq hp)
    | thrown =>
      obtain ⟨q, h2, _⟩ := thrown_cases hp
      dsimp only at h1
      rw [h1] at h2
      cases h2

/-! ### C161: a call that throws and what the cache was before -/

/-- **C161**, as one would want it: a call that ends with an exception leaves the cache as it was. -/
def C161_Statement (K V : Type) [DecidableEq K] [Inhabited K] [Inhabited V] : Prop :=
  ∀ {size : Nat} {exc : Bool} {h : List (Call K V × End)} {c c' : Cache K V} {a : Call K V}, 0 < size → Reach size exc h c →
    put size exc c a.key a.value a.now a.at? = .ok (c', .thrown) → c' = c

/-- **C161** (part that holds).  An exception while the key is looked up, while an entry that is there is
copied, or, if there is room and no entry, at any time before the entry is in the list, leaves the cache as it was. -/
theorem C161_unchanged_partial {size : Nat} {exc : Bool} {c c' : Cache K V} {a : Call K V}
    (hp : put size exc c a.key a.value a.now a.at? = .ok (c', .thrown))
    (hq : a.at? = some .contains ∨ a.at? = some .find ∨ (a.at? = some .obj ∧ (a.key ∈ c.map.map (·.1) ∨ c.list.length < size)) ∨
      (a.at? = some .push ∧ a.key ∉ c.map.map (·.1) ∧ c.list.length < size)) : c' = c := by
  obtain ⟨q, h1, h2⟩ := thrown_cases hp
  rw [h1] at hq
  simp only [Option.some.injEq] at hq
  rcases h2 with ⟨rfl, _⟩ | ⟨h3, h4, o, h5, h6, h7, h8, rfl⟩ | ⟨h3, h4, h5, h6, h7, rfl⟩ | ⟨h3, h4, h5, h6, rfl⟩
  · rfl
  · have hk := (contains_iff _ _).1 h5
    rcases hq with h | h | ⟨rfl, _⟩ | ⟨rfl, h, _⟩
    · exact absurd h h3
    · exact absurd h h4
    · rfl
    · exact absurd hk h
  · have hk : a.key ∉ c.map.map (·.1) := by rw [← contains_iff, h5]; simp
    rcases hq with h | h | ⟨rfl, h | h⟩ | ⟨rfl, _, h⟩
    · exact absurd h h3
    · exact absurd h h4
    · exact absurd h hk
    · omega
    · omega
  · rcases hq with h | h | ⟨rfl, _⟩ | ⟨rfl, _⟩
    · exact absurd h h3
    · exact absurd h h4
    · rfl
    · rfl

/-- An entry that is in the map and not in the list stays so, whatever is put and thrown. -/
theorem lost_stays {size : Nat} {exc : Bool} {c c' : Cache K V} {a : Call K V} {e : End} {k : K}
    (hk : k ∈ c.map.map (·.1)) (hl : k ∉ c.list.map (·.key)) (hp : put size exc c a.key a.value a.now a.at? = .ok (c', e)) :
    k ∈ c'.map.map (·.1) ∧ k ∉ c'.list.map (·.key) := by
  have hsub : ∀ l : List (Item K V), (∀ j ∈ l, j ∈ c.list) → k ∉ l.map (·.key) := by
    intro l h1 h2
    obtain ⟨j, hj, e⟩ := List.mem_map.1 h2
    exact hl (List.mem_map.2 ⟨j, h1 j hj, e⟩)
  have hdrop : ∀ j ∈ c.list.dropLast, j ∈ c.list := fun j hj => List.dropLast_subset _ hj
  have herase : ∀ j ∈ c.list.eraseP fun i => i.key = a.key, j ∈ c.list := fun j hj => List.mem_of_mem_eraseP hj
  have hne : c.contains a.key = false → k ≠ a.key := by
    intro h e
    rw [e, ← contains_iff, h] at hk
    cases hk
  have hcons : ∀ (o : Item K V) (l : List (Item K V)), k ≠ o.key → (∀ j ∈ l, j ∈ c.list) → k ∉ (o :: l).map (·.key) := by
    intro o l h1 h2 h3
    rcases List.mem_cons.1 h3 with h3 | h3
    · exact h1 h3
    · exact hsub l h2 h3
  have hobj : ∀ o : Item K V, o ∈ c.list → k ≠ o.key := fun o ho e => hl (List.mem_map.2 ⟨o, ho, e.symm⟩)
  cases e with
  | out o =>
    rcases put_cases (out_eq hp) with ⟨obj, h1, h2, h3, h4, h5, rfl⟩ | ⟨h1, h2, rfl, h4⟩ | ⟨h1, h2, h3, h4, rfl⟩ | ⟨h1, h2, h3, rfl⟩
    · exact ⟨setMap_sub _ _ _ _ hk, hcons _ _ (hobj obj h3) herase⟩
    · exact ⟨hk, hl⟩
    · exact ⟨setMap_sub _ _ _ _ hk, hcons _ _ (hne h1) hdrop⟩
    · exact ⟨setMap_sub _ _ _ _ hk, hcons _ _ (hne h1) fun j hj => hj⟩
  | thrown =>
    obtain ⟨q, hq, h0⟩ := thrown_cases hp
    rcases h0 with ⟨rfl, _⟩ | ⟨h1, h2, o, h3, h4, h5, h6, rfl⟩ | ⟨h1, h2, h3, h4, h5, rfl⟩ | ⟨h1, h2, h3, h4, rfl⟩
    · exact ⟨hk, hl⟩
    · have := hobj o h5
      cases q <;> first | exact ⟨hk, hl⟩ | exact ⟨hk, hsub _ herase⟩ | exact ⟨hk, hcons _ _ this herase⟩ | exact ⟨setMap_sub _ _ _ _ hk, hcons _ _ this herase⟩
    · cases q <;> first | exact ⟨hk, hl⟩ | exact ⟨hk, hsub _ hdrop⟩ | exact ⟨hk, hcons _ _ (hne h3) hdrop⟩ | exact ⟨setMap_sub _ _ _ _ hk, hcons _ _ (hne h3) hdrop⟩
    · cases q <;> first | exact ⟨hk, hl⟩ | exact ⟨hk, hsub _ fun j hj => hj⟩ | exact ⟨hk, hcons _ _ (hne h3) fun j hj => hj⟩ | exact ⟨setMap_sub _ _ _ _ hk, hcons _ _ (hne h3) fun j hj => hj⟩

/-- Calls one after the other, with how they end. -/
inductive Runs (size : Nat) (exc : Bool) : Cache K V → List (Call K V × End) → Cache K V → Prop
  | nil (c : Cache K V) : Runs size exc c [] c
  | cons (c c' c'' : Cache K V) (a : Call K V) (e : End) (xs : List (Call K V × End)) :
      put size exc c a.key a.value a.now a.at? = .ok (c', e) → Runs size exc c' xs c'' → Runs size exc c ((a, e) :: xs) c''

/-- **C161** (what is wrong, 1).  If copying an entry that is to be renewed throws in `push_front`, the entry is gone and the key
is not: no later call of `put` with this key succeeds (it throws `cache_missed`, or does nothing if `Exception` is off). -/
theorem C161_lost {size : Nat} {exc : Bool} {c c1 c2 : Cache K V} {a : Call K V} {e : End}
    (hd : (c.list.map (·.key)).Nodup) (hk : a.key ∈ c.map.map (·.1)) (hl : a.key ∈ c.list.map (·.key))
    (hq : a.at? = some .push)
    (hp : put size exc c a.key a.value a.now a.at? = .ok (c1, e)) {xs : List (Call K V × End)} (hr : Runs size exc c1 xs c2) :
    e = .thrown ∧ a.key ∉ c2.list.map (·.key) ∧
    ∀ x ∈ xs, x.1.key = a.key → x.2 = .thrown ∨ x.2 = .out (if exc then .missed else .value ()) := by
  have h1 : e = .thrown ∧ a.key ∈ c1.map.map (·.1) ∧ a.key ∉ c1.list.map (·.key) := by
    rw [hq] at hp
    unfold put at hp
    dsimp only at hp
    rw [if_neg (by simp), if_pos ((contains_iff _ _).2 hk), if_neg (by simp)] at hp
    split at hp
    · cases hp
      refine ⟨rfl, hk, ?_⟩
      show a.key ∉ (c.list.eraseP fun i => i.key = a.key).map (·.key)
      rw [eraseP_keys]
      exact fun h => (List.Nodup.mem_erase_iff hd).1 h |>.1 rfl
    · rename_i hf
      exact absurd hl (find_none.1 hf)
  obtain ⟨he, hk1, hl1⟩ := h1
  refine ⟨he, ?_⟩
  clear hp hk hl hd
  induction hr with
  | nil => exact ⟨hl1, fun x hx => by cases hx⟩
  | cons c c' c'' b f xs hb _ ih =>
    obtain ⟨h2, h3⟩ := lost_stays hk1 hl1 hb
    obtain ⟨h4, h5⟩ := ih h2 h3
    refine ⟨h4, ?_⟩
    intro x hx hxk
    rcases List.mem_cons.1 hx with rfl | hx
    · dsimp only at hxk
      cases f with
      | thrown => exact .inl rfl
      | out o =>
        right
        rcases put_cases (out_eq hb) with ⟨obj, g1, g2, g3, g4, g5, rfl⟩ | ⟨g1, g2, rfl, g4⟩ | ⟨g1, _⟩ | ⟨g1, _⟩
        · rw [hxk] at g2
          exact absurd (List.mem_map.2 ⟨obj, g3, g2⟩) hl1
        · rw [g4]
        · rw [hxk, (contains_iff _ _).2 hk1] at g1; cases g1
        · rw [hxk, (contains_iff _ _).2 hk1] at g1; cases g1
    · exact h5 x hx hxk

/-- **C161** (what is wrong, 2).  If the cache is full and copying the new key or value throws, the oldest entry is gone though nothing
was put. -/
theorem C161_evicts {size : Nat} (hs : 0 < size) {exc : Bool} {c c' : Cache K V} {a : Call K V} {e : End}
    (hk : a.key ∉ c.map.map (·.1)) (hl : size ≤ c.list.length) (hq : a.at? = some .obj ∨ a.at? = some .push)
    (hp : put size exc c a.key a.value a.now a.at? = .ok (c', e)) :
    e = .thrown ∧ c'.map = c.map ∧ c'.list = c.list.dropLast ∧ c'.list.length + 1 = c.list.length := by
  have hc : c.contains a.key = false := by
    cases hc : c.contains a.key with
    | false => rfl
    | true => exact absurd ((contains_iff _ _).1 hc) hk
  have hn : c.list ≠ [] := by
    intro h
    rw [h] at hl
    simp at hl
    omega
  have hlen : c.list.dropLast.length + 1 = c.list.length := by
    rw [List.length_dropLast]
    have := List.length_pos_iff.2 hn
    omega
  rcases hq with hq | hq <;>
  · rw [hq] at hp
    unfold put at hp
    dsimp only at hp
    rw [if_neg (by simp), hc, if_neg (by simp), if_neg (by simp), if_pos hl, if_neg hn] at hp
    cases hp
    exact ⟨rfl, rfl, rfl, hlen⟩

/-- **C161** (what is wrong, 3).  If adding the new key to the map throws, the entry is in the list only; the next call with this key
adds a second one, and the list has two entries of one key. -/
theorem C161_twice {size : Nat} (hs : 1 < size) {exc : Bool} {c c1 c2 : Cache K V} {a b : Call K V} {e f : End}
    (hk : a.key ∉ c.map.map (·.1)) (hc : c.list.length ≤ size) (hq : a.at? = some .index)
    (hp : put size exc c a.key a.value a.now a.at? = .ok (c1, e)) (hb : b.key = a.key) (hbq : b.at? = none)
    (hp2 : put size exc c1 b.key b.value b.now b.at? = .ok (c2, f)) :
    e = .thrown ∧ f = .out (.value ()) ∧ ∃ l, c2.list = ⟨a.key, b.value, b.now⟩ :: ⟨a.key, a.value, a.now⟩ :: l := by
  have hcon : c.contains a.key = false := by
    cases hc : c.contains a.key with
    | false => rfl
    | true => exact absurd ((contains_iff _ _).1 hc) hk
  have h1 : e = .thrown ∧ c1.map = c.map ∧ ∃ l, c1.list = ⟨a.key, a.value, a.now⟩ :: l ∧ (l = c.list.dropLast ∨ (l = c.list ∧ l.length < size)) := by
    rw [hq] at hp
    unfold put at hp
    dsimp only at hp
    rw [if_neg (by simp), hcon, if_neg (by simp), if_neg (by simp)] at hp
    split at hp
    · split at hp
      · cases hp
      · cases hp; exact ⟨rfl, rfl, _, rfl, .inl rfl⟩
    · cases hp; exact ⟨rfl, rfl, _, rfl, .inr ⟨rfl, by omega⟩⟩
  obtain ⟨h2, h3, l, h4, h5⟩ := h1
  refine ⟨h2, ?_⟩
  rw [hbq, hb] at hp2
  have hcon1 : c1.contains a.key = false := by unfold Cache.contains at hcon ⊢; rw [h3]; exact hcon
  cases f with
  | thrown => obtain ⟨q, hq', _⟩ := thrown_cases hp2; cases hq'
  | out o =>
    rcases put_cases (out_eq hp2) with ⟨obj, g1, _⟩ | ⟨g1, _⟩ | ⟨g1, g2, g3, g4, rfl⟩ | ⟨g1, g2, g3, rfl⟩
    · rw [hcon1] at g1; cases g1
    · rw [hcon1] at g1; cases g1
    · refine ⟨by rw [g4], l.dropLast, ?_⟩
      show _ :: c1.list.dropLast = _
      rw [h4] at g2 ⊢
      cases l with
      | nil => simp at g2; omega
      | cons x l => rfl
    · refine ⟨by rw [g3], l, ?_⟩
      show _ :: c1.list = _
      rw [h4]

/-- **C161** (what is wrong, 4).  If assigning the new entry in the map throws, `get` finds an entry of the time 0 there: it reports the
key as expired from the time `expiry` on, no matter when it was put. -/
theorem C161_default {size : Nat} {exc : Bool} {c c' : Cache K V} {a : Call K V} {e : End} (hs : 0 < size)
    (hk : a.key ∉ c.map.map (·.1)) (hq : a.at? = some .assignKey ∨ a.at? = some .assignValue)
    (hp : put size exc c a.key a.value a.now a.at? = .ok (c', e)) (expiry now : Int) (he : expiry ≤ now) :
    e = .thrown ∧ (∃ l, c'.list = ⟨a.key, a.value, a.now⟩ :: l) ∧
    Lru.get exc expiry c' a.key now = .ok (if exc then .timeout else .value none) := by
  have hcon : c.contains a.key = false := by
    cases hc : c.contains a.key with
    | false => rfl
    | true => exact absurd ((contains_iff _ _).1 hc) hk
  have hfind : findMap c.map a.key = none := by
    cases hf : findMap c.map a.key with
    | none => rfl
    | some i => exact absurd (List.mem_map.2 ⟨_, find_mem hf, rfl⟩) hk
  have hget : ∀ (l : List (Item K V)) (i : Item K V), i.time = 0 →
      Lru.get exc expiry ⟨l, setMap c.map a.key i⟩ a.key now = .ok (if exc then .timeout else .value none) := by
    intro l i hi
    unfold Lru.get
    rw [find_setMap]
    dsimp only
    rw [hi, if_pos (by omega)]
  have key : ∀ q, (q = Point.assignKey ∨ q = .assignValue) → put size exc c a.key a.value a.now (some q) = .ok (c', e) →
      e = .thrown ∧ ∃ l, c' = ⟨⟨a.key, a.value, a.now⟩ :: l, cutMap c.map a.key q⟩ := by
    intro q hq hp
    unfold put at hp
    dsimp only at hp
    rw [if_neg (by rcases hq with rfl | rfl <;> simp), hcon, if_neg (by simp), if_neg (by rcases hq with rfl | rfl <;> simp)] at hp
    split at hp
    · split at hp
      · cases hp
      · cases hp
        rcases hq with rfl | rfl <;> exact ⟨rfl, _, rfl⟩
    · cases hp
      rcases hq with rfl | rfl <;> exact ⟨rfl, _, rfl⟩
  rcases hq with hq | hq
  · rw [hq] at hp
    obtain ⟨h1, l, rfl⟩ := key _ (.inl rfl) hp
    refine ⟨h1, ⟨l, rfl⟩, ?_⟩
    exact hget _ _ (by rw [hfind]; rfl)
  · rw [hq] at hp
    obtain ⟨h1, l, rfl⟩ := key _ (.inr rfl) hp
    refine ⟨h1, ⟨l, rfl⟩, ?_⟩
    exact hget _ _ (by rw [hfind]; rfl)

/-! ### Witnesses -/

/-- Calls one after the other, computed. -/
def play (size : Nat) (exc : Bool) : List (Call Nat Nat) → List (Call Nat Nat × End) → Cache Nat Nat →
    Option (List (Call Nat Nat × End) × Cache Nat Nat)
  | [], h, c => some (h, c)
  | a :: as, h, c => match put size exc c a.key a.value a.now a.at? with
    | .ok (c', e) => play size exc as ((a, e) :: h) c'
    | _ => none

theorem play_reach {size : Nat} {exc : Bool} (as : List (Call Nat Nat)) : ∀ {h : List (Call Nat Nat × End)} {c : Cache Nat Nat},
    Reach size exc h c → ∀ {h' c'}, play size exc as h c = some (h', c') → Reach size exc h' c' := by
  induction as with
  | nil => intro h c hr h' c' hp; cases hp; exact hr
  | cons a as ih =>
    intro h c hr h' c' hp
    rw [play] at hp
    split at hp
    · rename_i c1 e h1
      exact ih (.put _ _ _ _ _ hr h1) hp
    · cases hp

/-- The property does not hold. -/
theorem C161_refuted : ¬ C161_Statement Nat Nat := by
  intro h
  have hr : Reach 2 true _ _ := play_reach (size := 2) (exc := true) [⟨1, 10, 5, none⟩] .new rfl
  have h1 := @h 2 true _ _ _ ⟨1, 11, 6, some .push⟩ (by decide) hr rfl
  exact absurd (congrArg (fun c => c.list.length) h1) (by decide)

/-- The cases of C161: two entries; renewing 1 throws while it is pushed (it is gone), another put of 3 that throws at the map, then 3 twice. -/
example : (play 2 true [⟨1, 10, 5, none⟩, ⟨2, 20, 6, none⟩, ⟨1, 11, 7, some .push⟩, ⟨1, 12, 8, none⟩, ⟨3, 30, 9, some .index⟩, ⟨3, 31, 10, none⟩,
    ⟨4, 40, 11, some .obj⟩, ⟨5, 50, 12, some .assignValue⟩] [] Cache.new).map (fun r => (r.1.map (·.2), r.2.list.map (·.key), r.2.map)) =
    some ([.thrown, .thrown, .out (.value ()), .thrown, .out .missed, .thrown, .out (.value ()), .out (.value ())], [5, 3],
      [(1, ⟨1, 10, 5⟩), (2, ⟨2, 20, 6⟩), (3, ⟨3, 31, 10⟩), (5, ⟨5, 0, 0⟩)]) := by decide

/-- The hypotheses of `C160_kept` and of the four cases are met by caches with entries. -/
example : ∃ h c, Reach (K := Nat) (V := Nat) 2 true h c ∧ c.list.map (·.key) = [2, 1] ∧ c.map.map (·.1) = [1, 2] ∧
    3 ∉ c.map.map (·.1) ∧ 2 ≤ c.list.length ∧ (c.list.map (·.key)).Nodup :=
  ⟨_, _, play_reach (size := 2) (exc := true) [⟨1, 10, 5, none⟩, ⟨2, 20, 6, none⟩] .new rfl, by decide, by decide, by decide, by decide, by decide⟩

end Verif.Lru.Throws
