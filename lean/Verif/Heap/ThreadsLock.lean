import Verif.Heap.ThreadsFoot
import Verif.Heap.Frame
/-!
`static_heap` behind a lock (proof machinery): what holds at every moment when the users take care.
-/
namespace Verif.Heap.Conc
open Verif Verif.HB

attribute [local irreducible] wsub wadd wmul

/-! ### Memory -/

section
variable {τ ℓ σ : Type} [DecidableEq τ] [DecidableEq σ]

theorem run_log (t : τ) : ∀ (os : List (HB.Op ℓ σ)) (m : HB.Mem τ ℓ σ), ∀ a ∈ (m.run t os).log,
    a ∈ m.log ∨ (a.who = t ∧ a.time ≤ (m.run t os).clk t t ∧ HB.Op.acc a.loc a.wr a.tag ∈ os)
  | [], _, a, h => .inl h
  | o :: os, m, a, h => by
    rw [Mem.run] at h ⊢
    rcases run_log t os (m.op t o) a h with h | ⟨h1, h2, h3⟩
    · cases o with
      | acc l w i =>
        simp only [Mem.op, List.mem_cons] at h
        rcases h with rfl | h
        · refine .inr ⟨rfl, ?_, List.mem_cons_self⟩
          refine Nat.le_trans ?_ (Mem.clk_run _ _ _ _ _)
          simp [Mem.op]
        · exact .inl h
      | _ => exact .inl h
    · exact .inr ⟨h1, h2, List.mem_cons_of_mem _ h3⟩

theorem races_old {R : ℓ → Prop} (t : τ) (L : List (Access τ ℓ)) (c : τ → Nat) : ∀ (os : List (HB.Op ℓ σ)) (m : HB.Mem τ ℓ σ),
    (∀ a ∈ m.log, a ∈ L ∨ (a.who = t ∧ a.time ≤ m.clk t t)) → (∀ u, c u ≤ m.clk t u) → m.Races R t os →
    ∃ a ∈ L, ∃ w i, HB.Op.acc a.loc w i ∈ os ∧ (a.wr = true ∨ w = true) ∧ c a.who < a.time
  | [], _, _, _, h => h.elim
  | .acc l w i :: os, m, hL, hc, h => by
    rcases h with ⟨_, a, ha, rfl, hw, ht⟩ | h
    · rcases hL a ha with h | ⟨h1, h2⟩
      · exact ⟨a, h, w, i, List.mem_cons_self, hw, Nat.lt_of_le_of_lt (hc _) ht⟩
      · rw [h1] at ht; omega
    · obtain ⟨a, ha, w', i', h1, h2⟩ := races_old t L c os _ (fun a ha => by
        simp only [Mem.op, List.mem_cons] at ha
        rcases ha with rfl | ha
        · right; simp [Mem.op]
        · exact (hL a ha).imp id fun h => ⟨h.1, Nat.le_trans h.2 (m.op_clk_le t _ t t)⟩)
        (fun u => Nat.le_trans (hc u) (m.op_clk_le t _ t u)) h
      exact ⟨a, ha, w', i', List.mem_cons_of_mem _ h1, h2⟩
  | .acq o :: os, m, hL, hc, h => by
    obtain ⟨a, ha, w', i', h1, h2⟩ := races_old t L c os (m.op t (.acq o)) (fun a ha => (hL a ha).imp id fun h =>
        ⟨h.1, Nat.le_trans h.2 (m.op_clk_le t _ t t)⟩)
      (fun u => Nat.le_trans (hc u) (m.op_clk_le t _ t u)) h
    exact ⟨a, ha, w', i', List.mem_cons_of_mem _ h1, h2⟩
  | .rel o :: os, m, hL, hc, h => by
    obtain ⟨a, ha, w', i', h1, h2⟩ := races_old t L c os (m.op t (.rel o)) hL hc h
    exact ⟨a, ha, w', i', List.mem_cons_of_mem _ h1, h2⟩
  | .sto o :: os, m, hL, hc, h => by
    obtain ⟨a, ha, w', i', h1, h2⟩ := races_old t L c os (m.op t (.sto o)) hL hc h
    exact ⟨a, ha, w', i', List.mem_cons_of_mem _ h1, h2⟩

/-- A race is with an access made before. -/
theorem races_before {R : ℓ → Prop} {t : τ} {os : List (HB.Op ℓ σ)} {m : HB.Mem τ ℓ σ} (h : m.Races R t os) :
    ∃ a ∈ m.log, ∃ w i, HB.Op.acc a.loc w i ∈ os ∧ (a.wr = true ∨ w = true) ∧ m.clk t a.who < a.time :=
  races_old t m.log (m.clk t) os m (fun _ ha => .inl ha) (fun _ => Nat.le_refl _) h

end

/-! ### The invariant -/

/-- Whoever has the lock, or gets it next, comes after the access. -/
def State.Known (m : State) (a : Access Nat Loc) : Prop :=
  match m.holder with
  | some t => a.time ≤ m.mem.clk t a.who
  | none => a.time ≤ m.mem.sync .lock a.who

structure Inv (h0 : Heap) (m : State) (w : World) : Prop where
  ex : Explains h0 m.hist w
  solo : ∀ t, m.pc t ≠ none → m.holder = some t
  idle : (∀ t, m.pc t = none) → m.heap = w.heap
  busy : ∀ t c p, m.pc t = some (c, p) → c.Legal w ∧ p.Foot (Unused w) m.heap ∧ p.run m.heap = c.does w.heap ∧
    ∀ x, ¬ Unused w x → m.heap.mem x = w.heap.mem x
  leaving : ∀ t p q, m.pc t = some (.free p, q) → ∀ b ∈ m.blocks, b.ptr ≠ p
  blocks : ∀ b ∈ m.blocks, ∃ l ∈ w.live, l.ptr = b.ptr ∧ l.len = b.len
  pair : m.blocks.Pairwise fun a b => a.ptr ≠ b.ptr ∧ a.id ≠ b.id
  ids : ∀ b ∈ m.blocks, 0 < b.id ∧ b.id ≤ m.ids
  tags : ∀ a ∈ m.mem.log, a.tag ≤ m.ids
  stale : ∀ a ∈ m.mem.log, (∀ b ∈ m.blocks, b.id ≠ a.tag) → m.Known a
  own : ∀ a ∈ m.mem.log, ∀ b ∈ m.blocks, a.tag = b.id → ∃ x, a.loc = .byte x ∧ b.has x = true
  fresh : ∀ b ∈ m.blocks, ∀ a ∈ m.mem.log, ∀ x, a.loc = .byte x → b.has x = true → a.tag ≠ b.id →
    a.time ≤ b.birth a.who

theorem Explains.reach {size base st : Nat} {mem : Verif.Heap.Mem} {h0 : Heap}
    (hc : Heap.construct size base st mem = .ok h0) {es : List Event} {w : World} (x : Explains h0 es w) :
    Reach size base st w := by
  induction x with
  | start => exact .init hc
  | done t c _ _ hl hs ih => exact .step ih hl hs
  | free t _ ih => exact ih
  | least t _ ih => exact ih
  | wrote t x v _ hl hs ih => exact .step ih hl hs

theorem has_iff {b : Block} {x : Nat} : b.has x = true ↔ b.ptr ≤ x ∧ x < b.ptr + b.len := by
  simp [Block.has]

theorem live_overlap {size base st : Nat} {w : World} {bs : List Blk} (i : WInv size base st w bs) {l k : Live}
    (hl : l ∈ w.live) (hk : k ∈ w.live) {x : Nat} (h1 : l.ptr ≤ x ∧ x < l.ptr + l.len)
    (h2 : k.ptr ≤ x ∧ x < k.ptr + k.len) : l.ptr = k.ptr := by
  have l1 := i.lives l hl
  have k1 := i.lives k hk
  rcases tiles_disj i.rep.tiles _ (i.live_blk hl).1 _ (i.live_blk hk).1 with e | e | e
  · have := congrArg Blk.addr e
    simp only [Live.blk] at this
    omega
  · simp only [Live.blk] at e; omega
  · simp only [Live.blk] at e; omega

section
variable {size base st : Nat} {h0 : Heap} {m m' : State} {w : World} {bs : List Blk}

theorem pair_eq {l : List Block} (h : l.Pairwise fun a b => a.ptr ≠ b.ptr ∧ a.id ≠ b.id) {a b : Block} (ha : a ∈ l)
    (hb : b ∈ l) (e : a.ptr = b.ptr ∨ a.id = b.id) : a = b := by
  induction l with
  | nil => cases ha
  | cons c l ih =>
    obtain ⟨h1, h2⟩ := List.pairwise_cons.mp h
    rcases List.mem_cons.mp ha with ha' | ha'
    · rcases List.mem_cons.mp hb with hb' | hb'
      · rw [ha', hb']
      · have := h1 b hb'
        rw [← ha'] at this
        rcases e with e | e
        · exact absurd e this.1
        · exact absurd e this.2
    · rcases List.mem_cons.mp hb with hb' | hb'
      · have := h1 a ha'
        rw [← hb'] at this
        rcases e with e | e
        · exact absurd e.symm this.1
        · exact absurd e.symm this.2
      · exact ih h2 ha' hb'

/-- Blocks in use do not overlap. -/
theorem Inv.one (i : Inv h0 m w) (wi : WInv size base st w bs) {a b : Block} (ha : a ∈ m.blocks) (hb : b ∈ m.blocks)
    {x : Nat} (xa : a.has x = true) (xb : b.has x = true) : a = b := by
  obtain ⟨l, hl, l1, l2⟩ := i.blocks a ha
  obtain ⟨k, hk, k1, k2⟩ := i.blocks b hb
  rw [has_iff] at xa xb
  have := live_overlap wi hl hk (x := x) (by rw [l1, l2]; exact xa) (by rw [k1, k2]; exact xb)
  exact pair_eq i.pair ha hb (.inl (by omega))

theorem Inv.inUse (i : Inv h0 m w) {b : Block} (hb : b ∈ m.blocks) {x : Nat} (xb : b.has x = true) : ¬ Unused w x := by
  obtain ⟨l, hl, l1, l2⟩ := i.blocks b hb
  intro h
  rw [has_iff] at xb
  exact h l hl (by rw [l1, l2]; exact xb)

theorem Inv.idAt (i : Inv h0 m w) (wi : WInv size base st w bs) {b : Block} (hb : b ∈ m.blocks) {x : Nat}
    (xb : b.has x = true) : m.idAt x = b.id := by
  unfold State.idAt
  cases e : m.blocks.find? (fun b => b.has x) with
  | none =>
    have := List.find?_eq_none.mp e b hb
    exact absurd xb this
  | some c =>
    have h1 := List.mem_of_find?_eq_some e
    have h2 := List.find?_some e
    rw [i.one wi h1 hb h2 xb]

/-- While somebody has the lock, nobody else is inside. -/
theorem Inv.alone (i : Inv h0 m w) {t : Nat} (ht : m.holder = some t) (hp : m.pc t = none) : ∀ u, m.pc u = none := by
  intro u
  cases e : m.pc u with
  | none => rfl
  | some c =>
    have := i.solo u (by rw [e]; simp)
    rw [ht] at this
    cases this
    rw [hp] at e
    cases e

/-- Accesses of a call do not race. -/
theorem Inv.calm (i : Inv h0 m w) {t : Nat} {c : Call} {p : Prog} (e : m.pc t = some (c, p)) {R : Loc → Prop} :
    ¬ m.mem.Races R t p.ops := by
  intro h
  obtain ⟨a, ha, wr, tag, h1, _, h3⟩ := races_before h
  obtain ⟨_, f, _, _⟩ := i.busy t c p e
  obtain ⟨l, wr', h4, h5⟩ := f.ops _ h1
  have hk : m.Known a := by
    refine i.stale a ha fun b hb ht => ?_
    obtain ⟨x, h6, h7⟩ := i.own a ha b hb ht.symm
    rw [h6] at h4
    cases h4
    exact i.inUse hb h7 (h5 x rfl)
  unfold State.Known at hk
  rw [i.solo t (by rw [e]; simp)] at hk
  simp only [] at hk
  omega

/-- Accesses of users who take care do not race. -/
theorem Inv.calm_user (i : Inv h0 m w) {t x : Nat} {wr : Bool} (h : m.May t x wr) {R : Loc → Prop} {i' : Nat} :
    ¬ m.mem.Races R t [.acc (.byte x) wr i'] := by
  intro hr
  obtain ⟨a, ha, wr', tag, h1, h2, h3⟩ := races_before hr
  obtain ⟨b, hb, hx, hbirth, hno⟩ := h
  have h1 := List.mem_singleton.mp h1
  injection h1 with e1 e2 e3
  subst e2
  by_cases ht : a.tag = b.id
  · exact hno ⟨a, ha, e1, ht, h2, h3⟩
  · have := i.fresh b hb a ha x e1 hx ht
    have := hbirth a.who
    omega

/-- No step of users who take care is a data race. -/
theorem Inv.no_race (i : Inv h0 m w) {l : Lbl} (hc : Careful m l) : ¬ Race m l := by
  unfold Race
  cases l with
  | act t =>
    simp only [ops, Lbl.who]
    cases e : m.pc t with
    | none => exact id
    | some cp =>
      obtain ⟨c, p⟩ := cp
      exact i.calm e
  | read t x => exact i.calm_user hc
  | write t x v => exact i.calm_user hc
  | call t c => exact id
  | ret t => exact id
  | lock t => exact id
  | unlock t => exact id
  | rel t n => exact id
  | acq t n => exact id

theorem put_pc {f : Nat → Option (Call × Prog)} {t u : Nat} {v : Option (Call × Prog)} {x : Call × Prog}
    (e : put f t v u = some x) : (u = t ∧ v = some x) ∨ (u ≠ t ∧ f u = some x) := by
  by_cases h : u = t
  · subst h; rw [put_same] at e; exact .inl ⟨rfl, e⟩
  · rw [put_ne _ _ h] at e; exact .inr ⟨h, e⟩

theorem known_mono (hh : m'.holder = m.holder) (hc : ∀ t u, m.mem.clk t u ≤ m'.mem.clk t u)
    (hs : ∀ u, m.mem.sync .lock u ≤ m'.mem.sync .lock u) {a : Access Nat Loc} (h : m.Known a) : m'.Known a := by
  unfold State.Known at h ⊢
  rw [hh]
  cases e : m.holder with
  | none => rw [e] at h; exact Nat.le_trans h (hs _)
  | some t => rw [e] at h; exact Nat.le_trans h (hc _ _)

theorem sync_le {τ ℓ σ : Type} [DecidableEq τ] [DecidableEq σ] (t : τ) (o : σ) (u : τ) : ∀ (os : List (HB.Op ℓ σ))
    (m : HB.Mem τ ℓ σ), (∀ x ∈ os, x ≠ .sto o) → m.sync o u ≤ (m.run t os).sync o u
  | [], _, _ => Nat.le_refl _
  | x :: os, m, h => Nat.le_trans (m.op_sync_le t x o u (h x List.mem_cons_self))
      (sync_le t o u os (m.op t x) fun y hy => h y (List.mem_cons_of_mem _ hy))

/-- A call makes an access. -/
theorem Inv.act (i : Inv h0 m w) {t : Nat} (e : step m (.act t) = some m') : Inv h0 m' w := by
  simp only [step] at e
  split at e
  · rename_i c p hp
    obtain ⟨⟨h', p'⟩, hn, e⟩ := Option.map_eq_some_iff.mp e
    simp only [blocksAfter, ops, hp, Lbl.who] at e
    obtain ⟨hl, hf, hr, hx⟩ := i.busy t c p hp
    obtain ⟨f1, f2⟩ := hf.next hn
    obtain ⟨s1, s2, s3⟩ := hf.frame hn
    have hold := i.solo t (by rw [hp]; simp)
    have hlog := run_log t p.ops m.mem
    have hclk := fun v u => m.mem.clk_run t v u p.ops
    have hacc := hf.ops
    have hsync := fun u => sync_le t Obj.lock u p.ops m.mem (fun x hx hh => by
      obtain ⟨l, wr, h1, _⟩ := hacc x hx
      rw [h1] at hh; cases hh)
    have hnew : ∀ a ∈ (m.mem.run t p.ops).log, a ∈ m.mem.log ∨
        (a.who = t ∧ a.time ≤ (m.mem.run t p.ops).clk t t ∧ a.tag = 0 ∧ ∀ x, a.loc = .byte x → Unused w x) := by
      intro a ha
      refine (hlog a ha).imp id fun ⟨h1, h2, h3⟩ => ?_
      obtain ⟨l, wr, h4, h5⟩ := hacc _ h3
      injection h4 with e1 e2 e3
      exact ⟨h1, h2, e3, fun x hx => h5 x (e1 ▸ hx)⟩
    subst e
    constructor
    · exact i.ex
    · intro u hu
      cases e : put m.pc t (some (c, p')) u with
      | none => exact absurd e hu
      | some v =>
        rcases put_pc e with ⟨rfl, _⟩ | ⟨_, h⟩
        · exact hold
        · exact i.solo u (by rw [h]; simp)
    · intro h
      have := h t
      simp only [put_same] at this
      cases this
    · intro u c' q hq
      rcases put_pc hq with ⟨rfl, h⟩ | ⟨h, h'⟩
      · injection h with h
        injection h with h1 h2
        subst h1 h2
        exact ⟨hl, f1, f2.trans hr, fun x hxu => (s3 x hxu).trans (hx x hxu)⟩
      · have := i.solo u (by rw [h']; simp)
        rw [hold] at this
        cases this
        exact absurd rfl h
    · intro u p1 q hq
      rcases put_pc hq with ⟨rfl, h⟩ | ⟨h, h'⟩
      · injection h with h
        injection h with h1 h2
        subst h1
        exact i.leaving u p1 p hp
      · exact i.leaving u p1 q h'
    · exact i.blocks
    · exact i.pair
    · exact i.ids
    · intro a ha
      rcases hnew a ha with h | ⟨_, _, h, _⟩
      · exact i.tags a h
      · rw [h]; exact Nat.zero_le _
    · intro a ha hb
      rcases hnew a ha with h | ⟨h1, h2, _, _⟩
      · exact known_mono (m := m) (by rfl) hclk hsync (i.stale a h hb)
      · simp only [State.Known, hold]
        rw [h1]; exact h2
    · intro a ha b hb ht
      rcases hnew a ha with h | ⟨_, _, h, _⟩
      · exact i.own a h b hb ht
      · have := (i.ids b hb).1
        rw [h] at ht
        omega
    · intro b hb a ha x hxa hxb ht
      rcases hnew a ha with h | ⟨_, _, h, h'⟩
      · exact i.fresh b hb a h x hxa hxb ht
      · exact absurd (h' x hxa) (i.inUse hb hxb)
  · cases e

/-- Synchronisation, and accesses that are not the heap's: what does not concern memory. -/
theorem Inv.quiet (i : Inv h0 m w) (e1 : m'.heap = m.heap) (e2 : m'.pc = m.pc) (e3 : m'.blocks = m.blocks)
    (e4 : m'.ids = m.ids) (e5 : m'.hist = m.hist) (e6 : m'.mem.log = m.mem.log)
    (hs : ∀ t, m.pc t ≠ none → m'.holder = some t) (hk : ∀ a ∈ m.mem.log, m.Known a → m'.Known a) : Inv h0 m' w := by
  obtain ⟨heap', pc', mem', holder', blocks', ids', hist'⟩ := m'
  simp only at e1 e2 e3 e4 e5 e6 hs
  subst e1 e2 e3 e4 e5
  constructor
  · exact i.ex
  · exact hs
  · exact i.idle
  · exact i.busy
  · exact i.leaving
  · exact i.blocks
  · exact i.pair
  · exact i.ids
  · intro a ha
    have ha : a ∈ m.mem.log := e6 ▸ ha
    exact i.tags a ha
  · intro a ha hb
    have ha : a ∈ m.mem.log := e6 ▸ ha
    exact hk a ha (i.stale a ha hb)
  · intro a ha
    have ha : a ∈ m.mem.log := e6 ▸ ha
    exact i.own a ha
  · intro b hb a ha
    have ha : a ∈ m.mem.log := e6 ▸ ha
    exact i.fresh b hb a ha

theorem Inv.lock (i : Inv h0 m w) {t : Nat} (e : step m (.lock t) = some m') : Inv h0 m' w := by
  simp only [step] at e
  split at e
  · cases e
  · rename_i hn
    injection e with e
    subst e
    have hh : m.holder = none := by
      cases h : m.holder with
      | none => rfl
      | some u => exact absurd (.inr (by rw [h]; simp)) hn
    refine i.quiet rfl rfl rfl rfl rfl rfl (fun u hu => ?_) fun a _ hk => ?_
    · have := i.solo u hu
      rw [hh] at this; cases this
    · simp only [State.Known, hh] at hk
      simp only [State.Known, ops, Lbl.who, Mem.run, Mem.op, put_same]
      omega

theorem Inv.unlock (i : Inv h0 m w) {t : Nat} (e : step m (.unlock t) = some m') : Inv h0 m' w := by
  simp only [step] at e
  split at e
  · cases e
  · rename_i hn
    injection e with e
    subst e
    have hh : m.holder = some t := by
      by_cases h : m.holder = some t
      · exact h
      · exact absurd (.inr h) hn
    have hp : m.pc t = none := by
      cases h : m.pc t with
      | none => rfl
      | some u => exact absurd (.inl (by rw [h]; rfl)) hn
    refine i.quiet rfl rfl rfl rfl rfl rfl (fun u hu => ?_) fun a _ hk => ?_
    · exact absurd (i.alone hh hp u) hu
    · simp only [State.Known, hh] at hk
      simp only [State.Known, ops, Lbl.who, Mem.run, Mem.op, put_same]
      omega

theorem Inv.rel (i : Inv h0 m w) {t n : Nat} (e : step m (.rel t n) = some m') : Inv h0 m' w := by
  simp only [step] at e
  split at e
  · cases e
  · injection e with e
    subst e
    refine i.quiet rfl rfl rfl rfl rfl rfl i.solo fun a _ hk => ?_
    refine known_mono (m := m) (by rfl) (fun _ _ => Mem.clk_run _ _ _ _ _) (fun u => sync_le _ _ _ _ _ ?_) hk
    intro x hx
    rw [List.mem_singleton.mp hx]
    intro h; cases h

theorem Inv.acq (i : Inv h0 m w) {t n : Nat} (e : step m (.acq t n) = some m') : Inv h0 m' w := by
  simp only [step] at e
  split at e
  · cases e
  · injection e with e
    subst e
    refine i.quiet rfl rfl rfl rfl rfl rfl i.solo fun a _ hk => ?_
    refine known_mono (m := m) (by rfl) (fun _ _ => Mem.clk_run _ _ _ _ _) (fun u => sync_le _ _ _ _ _ ?_) hk
    intro x hx
    rw [List.mem_singleton.mp hx]
    intro h; cases h

/-- An access by a user who takes care. -/
theorem Inv.touch (i : Inv h0 m w) (wi : WInv size base st w bs) {b : Block} (hb : b ∈ m.blocks) {t x : Nat} {wr : Bool}
    (hx : b.has x = true) {m'' : State} (e1 : m''.blocks = m.blocks) (e2 : m''.ids = m.ids) (e3 : m''.holder = m.holder)
    (e4 : m''.mem = m.mem.run t [.acc (.byte x) wr (m.idAt x)]) :
    (∀ a ∈ m''.mem.log, a.tag ≤ m''.ids) ∧
    (∀ a ∈ m''.mem.log, (∀ b ∈ m''.blocks, b.id ≠ a.tag) → m''.Known a) ∧
    (∀ a ∈ m''.mem.log, ∀ b ∈ m''.blocks, a.tag = b.id → ∃ x, a.loc = .byte x ∧ b.has x = true) ∧
    (∀ b ∈ m''.blocks, ∀ a ∈ m''.mem.log, ∀ x, a.loc = .byte x → b.has x = true → a.tag ≠ b.id →
      a.time ≤ b.birth a.who) := by
  have hnew : ∀ a ∈ m''.mem.log, a ∈ m.mem.log ∨ (a.loc = .byte x ∧ a.tag = b.id) := by
    intro a ha
    rw [e4] at ha
    simp only [Mem.run, Mem.op, List.mem_cons] at ha
    rcases ha with rfl | ha
    · exact .inr ⟨rfl, i.idAt wi hb hx⟩
    · exact .inl ha
  rw [e1, e2]
  refine ⟨fun a ha => ?_, fun a ha h => ?_, fun a ha b' hb' h => ?_, fun b' hb' a ha y hy hby h => ?_⟩
  · rcases hnew a ha with h | ⟨_, h⟩
    · exact i.tags a h
    · rw [h]; exact (i.ids b hb).2
  · rcases hnew a ha with h' | ⟨_, h'⟩
    · refine known_mono (m := m) e3 ?_ ?_ (i.stale a h' h)
      · intro v u; rw [e4]; exact Mem.clk_run _ _ _ _ _
      · intro u; rw [e4]
        refine sync_le _ _ _ _ _ fun o ho h => ?_
        rw [List.mem_singleton.mp ho] at h
        cases h
    · exact absurd h'.symm (h b hb)
  · rcases hnew a ha with h' | ⟨h1, h2⟩
    · exact i.own a h' b' hb' h
    · have := pair_eq i.pair hb hb' (.inr (h2.symm.trans h))
      subst this
      exact ⟨x, h1, hx⟩
  · rcases hnew a ha with h' | ⟨h1, h2⟩
    · exact i.fresh b' hb' a h' y hy hby h
    · rw [h1] at hy
      cases hy
      have := i.one wi hb hb' hx hby
      subst this
      exact absurd h2 h

theorem Inv.read (i : Inv h0 m w) (wi : WInv size base st w bs) {t x : Nat} (hc : Careful m (.read t x))
    (e : step m (.read t x) = some m') : Inv h0 m' w := by
  obtain ⟨b, hb, hx, _⟩ := hc
  simp only [step] at e
  split at e
  · cases e
  · injection e with e
    subst e
    obtain ⟨t1, t2, t3, t4⟩ := i.touch wi hb (t := t) (wr := false) hx (m'' := { m with
      mem := m.mem.run (Lbl.read t x).who (ops m (.read t x)), blocks := blocksAfter m (.read t x) }) rfl rfl rfl rfl
    exact ⟨i.ex, i.solo, i.idle, i.busy, i.leaving, i.blocks, i.pair, i.ids, t1, t2, t3, t4⟩

theorem Inv.write (i : Inv h0 m w) (wi : WInv size base st w bs) {t x : Nat} {v : Byte}
    (hc : Careful m (.write t x v)) (e : step m (.write t x v) = some m') : ∃ w', Inv h0 m' w' := by
  obtain ⟨b, hb, hx, _⟩ := hc
  simp only [step] at e
  split at e
  · cases e
  · injection e with e
    subst e
    obtain ⟨t1, t2, t3, t4⟩ := i.touch wi hb (t := t) (wr := true) hx (m'' := { m with
      mem := m.mem.run (Lbl.write t x v).who (ops m (.write t x v)), blocks := blocksAfter m (.write t x v),
      heap := { m.heap with mem := fun y => if y = x then v else m.heap.mem y },
      hist := .wrote t x v :: m.hist }) rfl rfl rfl rfl
    obtain ⟨l, hl, l1, l2⟩ := i.blocks b hb
    have hxb := has_iff.mp hx
    have hu := i.inUse hb hx
    refine ⟨{ w with heap := poke w.heap x v, wrote := fun y => if y = x then some v else w.wrote y },
      ?_, i.solo, ?_, ?_, i.leaving, i.blocks, i.pair, i.ids, t1, t2, t3, t4⟩
    · exact .wrote t x v i.ex ⟨l, hl, by rw [l1, l2]; exact hxb⟩ rfl
    · intro h
      show poke m.heap x v = poke w.heap x v
      rw [i.idle h]
    · intro u c p hp
      obtain ⟨b1, b2, b3, b4⟩ := i.busy u c p hp
      obtain ⟨f1, f2⟩ := b2.poke (v := v) hu
      obtain ⟨g1, g2⟩ := (call_foot wi b1).poke (v := v) hu
      obtain ⟨⟨h', r⟩, he⟩ := b2.ends
      have hd : c.does (poke w.heap x v) = .ok (poke h' x v, r) := by
        rw [← prog_run]
        exact g2 h' r ((prog_run _ _).trans (b3.symm.trans he))
      refine ⟨?_, f1, (f2 h' r he).trans hd.symm, ?_⟩
      · intro op ho
        have := b1 op ho
        cases op <;> exact this
      · intro y hy
        show (if y = x then v else m.heap.mem y) = if y = x then v else w.heap.mem y
        rw [b4 y hy]

theorem Inv.call (i : Inv h0 m w) (wi : WInv size base st w bs) {t : Nat} {c : Call} (hc : Careful m (.call t c))
    (e : step m (.call t c) = some m') : Inv h0 m' w := by
  obtain ⟨hh, hf⟩ := hc
  simp only [step] at e
  split at e
  · cases e
  · rename_i hn
    have hp : m.pc t = none := by
      cases h : m.pc t with
      | none => rfl
      | some u => exact absurd (by rw [h]; rfl) hn
    have hall := i.alone hh hp
    have hheap := i.idle hall
    injection e with e
    have hsub : ∀ b ∈ blocksAfter m (.call t c), b ∈ m.blocks := by
      intro b hb
      cases c <;> try exact hb
      exact (List.mem_filter.mp hb).1
    subst e
    constructor
    · exact i.ex
    · intro u hu
      cases e : put m.pc t (some (c, c.prog m.fixed)) u with
      | none => exact absurd e hu
      | some x =>
        rcases put_pc e with ⟨rfl, _⟩ | ⟨_, h⟩
        · exact hh
        · rw [hall u] at h; cases h
    · intro h
      have := h t
      simp only [put_same] at this
      cases this
    · intro u c' p hq
      rcases put_pc hq with ⟨rfl, h⟩ | ⟨_, h⟩
      · injection h with h
        injection h with h1 h2
        subst h1 h2
        have hl : c.Legal w := by
          intro op ho
          cases c <;> cases ho
          · exact hf
          · exact hf
          · rcases hf with hf | ⟨b, hb, hbp, _⟩
            · exact .inl hf
            · obtain ⟨l, hl, h1, _⟩ := i.blocks b hb
              exact .inr ⟨l, hl, h1.trans hbp⟩
          · trivial
          · trivial
        show c.Legal w ∧ (c.prog (fixedOf m.heap)).Foot (Unused w) m.heap ∧ (c.prog (fixedOf m.heap)).run m.heap = _ ∧
          ∀ x, ¬ Unused w x → m.heap.mem x = w.heap.mem x
        rw [hheap]
        exact ⟨hl, call_foot wi hl, prog_run _ _, fun _ _ => rfl⟩
      · rw [hall u] at h; cases h
    · intro u p q hq
      rcases put_pc hq with ⟨rfl, h⟩ | ⟨_, h⟩
      · injection h with h
        injection h with h1 h2
        subst h1
        intro b hb
        exact of_decide_eq_true (List.mem_filter.mp hb).2
      · rw [hall u] at h; cases h
    · exact fun b hb => i.blocks b (hsub b hb)
    · cases c <;> try exact i.pair
      exact i.pair.filter _
    · exact fun b hb => i.ids b (hsub b hb)
    · exact i.tags
    · intro a ha hb
      by_cases h : ∀ b ∈ m.blocks, b.id ≠ a.tag
      · exact i.stale a ha h
      · obtain ⟨b, hb1, hb2⟩ : ∃ b ∈ m.blocks, b.id = a.tag := by
          apply Classical.byContradiction
          intro hx
          exact h fun b h1 h2 => hx ⟨b, h1, h2⟩
        cases c <;> try exact absurd hb2 (hb b hb1)
        rename_i p
        have hbp : b.ptr = p := by
          apply Classical.byContradiction
          intro hx
          exact hb b (List.mem_filter.mpr ⟨hb1, decide_eq_true hx⟩) hb2
        have hd : m.Done t b := by
          rcases hf with hf | ⟨b', hb', h1, h2⟩
          · obtain ⟨l, hl, h1, _⟩ := i.blocks b hb1
            have := wi.lives l hl
            omega
          · have := pair_eq i.pair hb1 hb' (.inl (hbp.trans h1.symm))
            subst this
            exact h2
        have := hd a ha hb2.symm
        simp only [State.Known, hh]
        exact this
    · exact fun a ha b hb => i.own a ha b (hsub b hb)
    · exact fun b hb => i.fresh b (hsub b hb)

/-- What a call that is over has done is an operation of the sequential client. -/
theorem does_step {es : List Event} {c : Call} (ex : Explains h0 es w) (hl : c.Legal w) {h' : Heap} {r : Nat}
    (hd : c.does w.heap = .ok (h', r)) (t : Nat) :
    ∃ w', Explains h0 (.done t c r :: es) w' ∧ w'.heap = h' ∧
      (∀ l ∈ w.live, (∀ p, c = .free p → l.ptr ≠ p) → l ∈ w'.live) ∧
      ∀ n, c.wants = some n → r ≠ 0 → ∃ k, w'.live = ⟨r, n, k⟩ :: w.live := by
  cases c with
  | alloc n =>
    refine ⟨w.afterAlloc h' r n none, .done t _ ex rfl (hl _ rfl) (step_alloc hd), afterAlloc_heap, ?_, ?_⟩
    · intro l hl _
      unfold World.afterAlloc
      split
      · exact hl
      · exact List.mem_cons_of_mem _ hl
    · intro k hk hr
      injection hk with hk
      subst hk
      unfold World.afterAlloc
      rw [if_neg hr]
      exact ⟨_, rfl⟩
  | calloc k n =>
    refine ⟨w.afterAlloc h' r (k * n) (some 0), .done t _ ex rfl (hl _ rfl) (step_calloc hd), afterAlloc_heap, ?_, ?_⟩
    · intro l hl _
      unfold World.afterAlloc
      split
      · exact hl
      · exact List.mem_cons_of_mem _ hl
    · intro k' hk hr
      injection hk with hk
      subst hk
      unfold World.afterAlloc
      rw [if_neg hr]
      exact ⟨_, rfl⟩
  | free p =>
    simp only [Call.does] at hd
    cases hf : w.heap.deallocate p with
    | ok h1 =>
      rw [hf] at hd
      cases hd
      refine ⟨_, .done t _ ex rfl (hl _ rfl) (step_free hf), rfl, ?_, fun n h => by cases h⟩
      intro l hl h
      exact List.mem_filter.mpr ⟨hl, decide_eq_true (h p rfl)⟩
    | ub => rw [hf] at hd; cases hd
    | hang => rw [hf] at hd; cases hd
  | resetMin =>
    cases hd
    exact ⟨_, .done t _ ex rfl (hl _ rfl) rfl, rfl, fun l hl _ => hl, fun n h => by cases h⟩
  | onFail s =>
    cases hd
    exact ⟨_, .done t _ ex rfl (hl _ rfl) rfl, rfl, fun l hl _ => hl, fun n h => by cases h⟩
  | freeSize =>
    cases hd
    exact ⟨_, .free t ex, rfl, fun l hl _ => hl, fun n h => by cases h⟩
  | minEver =>
    cases hd
    exact ⟨_, .least t ex, rfl, fun l hl _ => hl, fun n h => by cases h⟩

theorem Inv.ret (i : Inv h0 m w) (hl : Layout size base st) (hr : Roomy size base) {mem : Verif.Heap.Mem}
    (hc : Heap.construct size base st mem = .ok h0) {t : Nat} (e : step m (.ret t) = some m') :
    ∃ w', Inv h0 m' w' := by
  simp only [step] at e
  split at e
  · rename_i c r hp
    injection e with e
    obtain ⟨b1, b2, b3, b4⟩ := i.busy t c _ hp
    have hold := i.solo t (by rw [hp]; simp)
    obtain ⟨w', x1, x2, x3, x4⟩ := does_step i.ex b1 (b3.symm.trans rfl) t
    obtain ⟨bs', wi⟩ := reach_inv hl hr (x1.reach hc)
    have hidle : ∀ u, put m.pc t none u = none := by
      intro u
      cases e : put m.pc t none u with
      | none => rfl
      | some x =>
        rcases put_pc e with ⟨_, h⟩ | ⟨h, h'⟩
        · cases h
        · have := i.solo u (by rw [h']; simp)
          rw [hold] at this
          cases this
          exact absurd rfl h
    have hkeep : ∀ b ∈ m.blocks, ∃ l ∈ w'.live, l.ptr = b.ptr ∧ l.len = b.len := by
      intro b hb
      obtain ⟨l, h1, h2, h3⟩ := i.blocks b hb
      refine ⟨l, x3 l h1 ?_, h2, h3⟩
      intro p hcp
      subst hcp
      rw [h2]
      exact i.leaving t p _ hp b hb
    have hba : blocksAfter m (.ret t) = m.blocks ∨ ∃ n, c.wants = some n ∧ r ≠ 0 ∧
        blocksAfter m (.ret t) = ⟨r, n, m.ids + 1, m.mem.clk t⟩ :: m.blocks := by
      simp only [blocksAfter, hp]
      cases hw : c.wants with
      | none => exact .inl rfl
      | some n =>
        by_cases h : r = 0
        · left; simp only [if_pos h]
        · right; exact ⟨n, rfl, h, by simp only [if_neg h]⟩
    subst e
    refine ⟨w', ?_⟩
    rcases hba with hba | ⟨n, hn, hr0, hba⟩
    · constructor
      · exact x1
      · intro u hu; exact absurd (hidle u) hu
      · intro _; exact x2.symm
      · intro u c' p h
        have h : put m.pc t none u = some _ := h
        rw [hidle u] at h
        cases h
      · intro u p q h
        have h : put m.pc t none u = some _ := h
        rw [hidle u] at h
        cases h
      · simp only [hba]; exact hkeep
      · simp only [hba]; exact i.pair
      · simp only [hba]; exact fun b hb => ⟨(i.ids b hb).1, Nat.le_succ_of_le (i.ids b hb).2⟩
      · exact fun a ha => Nat.le_succ_of_le (i.tags a ha)
      · simp only [hba]; exact i.stale
      · simp only [hba]; exact i.own
      · simp only [hba]; exact i.fresh
    · obtain ⟨k, hlive⟩ := x4 n hn hr0
      have hmem : (⟨r, n, k⟩ : Live) ∈ w'.live := by rw [hlive]; exact List.mem_cons_self
      have hpw := live_pairwise wi
      rw [hlive] at hpw
      have hne : ∀ l ∈ w.live, l.ptr ≠ r := by
        intro l hl' hlr
        have h1 := (List.pairwise_cons.mp hpw).1 l hl'
        have h2 := wi.lives _ hmem
        have h3 := wi.lives l (by rw [hlive]; exact List.mem_cons_of_mem _ hl')
        simp only [Live.start, Live.stop] at h1 h2 h3
        omega
      have hnf : ∀ p, c ≠ .free p := by
        intro p h; rw [h] at hn; cases hn
      have hneb : ∀ b ∈ m.blocks, b.ptr ≠ r := by
        intro b hb
        obtain ⟨l, h1, h2, _⟩ := i.blocks b hb
        rw [← h2]; exact hne l h1
      constructor
      · exact x1
      · intro u hu; exact absurd (hidle u) hu
      · intro _; exact x2.symm
      · intro u c' p h
        have h : put m.pc t none u = some _ := h
        rw [hidle u] at h
        cases h
      · intro u p q h
        have h : put m.pc t none u = some _ := h
        rw [hidle u] at h
        cases h
      · simp only [hba]
        intro b hb
        rcases List.mem_cons.mp hb with rfl | hb
        · exact ⟨_, hmem, rfl, rfl⟩
        · exact hkeep b hb
      · simp only [hba]
        refine List.pairwise_cons.mpr ⟨fun b hb => ⟨fun h => hneb b hb h.symm, fun h => ?_⟩, i.pair⟩
        have h : m.ids + 1 = b.id := h
        have := (i.ids b hb).2
        omega
      · simp only [hba]
        intro b hb
        rcases List.mem_cons.mp hb with rfl | hb
        · exact ⟨Nat.succ_pos _, Nat.le_refl _⟩
        · exact ⟨(i.ids b hb).1, Nat.le_succ_of_le (i.ids b hb).2⟩
      · exact fun a ha => Nat.le_succ_of_le (i.tags a ha)
      · simp only [hba]
        exact fun a ha h => i.stale a ha fun b hb => h b (List.mem_cons_of_mem _ hb)
      · simp only [hba]
        intro a ha b hb h
        rcases List.mem_cons.mp hb with rfl | hb
        · have := i.tags a ha
          have h : a.tag = m.ids + 1 := h
          omega
        · exact i.own a ha b hb h
      · simp only [hba]
        intro b hb a ha x hx hbx hab
        rcases List.mem_cons.mp hb with rfl | hb
        · have hk : m.Known a := by
            refine i.stale a ha fun b2 hb2 h2 => ?_
            obtain ⟨y, hy1, hy2⟩ := i.own a ha b2 hb2 h2.symm
            rw [hx] at hy1
            cases hy1
            obtain ⟨l, l1, l2, l3⟩ := hkeep b2 hb2
            have h1 := has_iff.mp hy2
            have h3 := has_iff.mp hbx
            have := live_overlap wi l1 hmem (x := x) (by rw [l2, l3]; exact h1) h3
            exact hneb b2 hb2 (l2.symm.trans this)
          simp only [State.Known, hold] at hk
          exact hk
        · exact i.fresh b hb a ha x hx hbx hab
  · cases e

/-- Nothing has happened. -/
theorem Inv.start (h0 : Heap) : Inv h0 (State.start h0) (World.start h0) := by
  constructor
  · exact .start
  · intro t h; exact absurd rfl h
  · intro _; rfl
  · intro t c p h; cases h
  · intro t p q h; cases h
  · intro b hb; cases hb
  · exact List.Pairwise.nil
  · intro b hb; cases hb
  · intro a ha; cases ha
  · intro a ha; cases ha
  · intro a ha; cases ha
  · intro b hb; cases hb

theorem Inv.step (i : Inv h0 m w) (hl : Layout size base st) (hr : Roomy size base) {mem : Verif.Heap.Mem}
    (hc : Heap.construct size base st mem = .ok h0) {l : Lbl} (hg : Careful m l) (e : step m l = some m') :
    ∃ w', Inv h0 m' w' := by
  obtain ⟨bs, wi⟩ := reach_inv hl hr (i.ex.reach hc)
  cases l with
  | call t c => exact ⟨w, i.call wi hg e⟩
  | act t => exact ⟨w, i.act e⟩
  | ret t => exact i.ret hl hr hc e
  | read t x => exact ⟨w, i.read wi hg e⟩
  | write t x v => exact i.write wi hg e
  | lock t => exact ⟨w, i.lock e⟩
  | unlock t => exact ⟨w, i.unlock e⟩
  | rel t n => exact ⟨w, i.rel e⟩
  | acq t n => exact ⟨w, i.acq e⟩

theorem run_inv (hl : Layout size base st) (hr : Roomy size base) {mem : Verif.Heap.Mem}
    (hc : Heap.construct size base st mem = .ok h0) {ls : List Lbl} (r : Run (.start h0) Careful ls m) :
    ∃ w, Inv h0 m w := by
  induction r with
  | start => exact ⟨_, Inv.start h0⟩
  | step ls m m' l _ hg hs ih =>
    obtain ⟨w, i⟩ := ih
    exact i.step hl hr hc hg hs

end

end Verif.Heap.Conc
