import Verif.Observer.StaticThreads
/-! Properties C151 and C152 of the compile-time observable used by several threads. -/
namespace Verif.Observer.Static
open Verif Verif.HB

variable {V : Type} {self n : Nat}

/-! ### Memory -/

theorem knows_run {m : HB.Mem Nat Loc Nat} (ok : m.Ok) {P : Loc → Bool → Prop} {t : Nat}
    (hk : ∀ a ∈ m.log, P a.loc a.wr → a.time ≤ m.clk t a.who) (u : Nat) (os : List (HB.Op Loc Nat))
    (h : ∀ loc wr tag, .acc loc wr tag ∈ os → t = u ∨ ¬ P loc wr) :
    ∀ a ∈ (m.run u os).log, P a.loc a.wr → a.time ≤ (m.run u os).clk t a.who := by
  induction os generalizing m with
  | nil => exact hk
  | cons o os ih =>
    refine ih (ok.op u o) ?_ fun loc wr tag hm => h loc wr tag (List.mem_cons_of_mem _ hm)
    intro a ha hP
    cases o with
    | acq s => exact Nat.le_trans (hk a ha hP) (m.op_clk_le u _ t _)
    | rel s => exact Nat.le_trans (hk a ha hP) (m.op_clk_le u _ t _)
    | sto s => exact Nat.le_trans (hk a ha hP) (m.op_clk_le u _ t _)
    | acc loc wr tag =>
      simp only [Mem.op, List.mem_cons] at ha
      rcases ha with rfl | ha
      · rcases h loc wr tag List.mem_cons_self with rfl | hn
        · simp [Mem.op]
        · exact absurd hP hn
      · exact Nat.le_trans (hk a ha hP) (m.op_clk_le u _ t _)

theorem no_races {m : HB.Mem Nat Loc Nat} (ok : m.Ok) {P : Loc → Bool → Prop} {t : Nat}
    (hk : ∀ a ∈ m.log, P a.loc a.wr → a.time ≤ m.clk t a.who) (os : List (HB.Op Loc Nat))
    (h : ∀ loc wr tag, .acc loc wr tag ∈ os → ∀ w, w = true ∨ wr = true → P loc w) : ¬ m.Races (fun _ => True) t os := by
  induction os generalizing m with
  | nil => exact id
  | cons o os ih =>
    have h' := ih (ok.op t o) (fun a ha hP => by
      have := knows_run ok hk t [o] (fun _ _ _ _ => .inl rfl) a ha hP
      exact this) fun loc wr tag hm => h loc wr tag (List.mem_cons_of_mem _ hm)
    cases o with
    | acq s => exact h'
    | rel s => exact h'
    | sto s => exact h'
    | acc loc wr tag =>
      rintro (⟨-, a, ha, hl, hw, hlt⟩ | hr)
      · have := hk a ha (hl ▸ h loc wr tag List.mem_cons_self a.wr hw)
        omega
      · exact h' hr

/-! ### Construction -/

/-- The references are as they should be. -/
def Complete (self n : Nat) (os : List Nat) (s : Sh) : Prop :=
  (∀ (i o : Nat), os[i]? = some o → s.obs i = some o) ∧ ∀ i, i < n → s.root i = some self

/-- What is left of the constructor is defined and completes the object. -/
def Builds (self n : Nat) (os : List Nat) : Prog V → Sh → Prop
  | .ret, s => Complete self n os s
  | .setObs i o k, s => Builds self n os k { s with obs := HB.put s.obs i (some o) }
  | .setRoot i r k, s => Builds self n os k { s with root := HB.put s.root i (some r) }
  | .root i k, s => ∃ r, s.root i = some r ∧ Builds self n os (k r) s
  | _, _ => False

/-- The layers from `i` on are complete. -/
def Part (self : Nat) (os : List Nat) (i : Nat) (s : Sh) : Prop :=
  ∀ (j o : Nat), os[j]? = some o → s.obs (i + j) = some o ∧ (j + 1 < os.length → s.root (i + j) = some self)

theorem make_builds {all : List Nat} (os : List Nat) : ∀ (i : Nat) (k : Prog V) (s : Sh), os ≠ [] →
    (∀ s', Part self os i s' → Builds self n all k s') → Builds self n all (make self os i k) s := by
  induction os with
  | nil => intro i k s h; exact absurd rfl h
  | cons o os ih =>
    intro i k s _ hk
    have grow : ∀ (os : List Nat) (s' : Sh), Part self os (i + 1) s' →
        Part self (o :: os) i { s' with obs := HB.put s'.obs i (some o), root := HB.put s'.root i (some self) } := by
      intro os s' hp j q hj
      cases j with
      | zero =>
        simp only [List.getElem?_cons_zero, Option.some.injEq] at hj
        subst hj
        simp
      | succ j =>
        obtain ⟨h1, h2⟩ := hp j q (by simpa using hj)
        have hne : i + (j + 1) ≠ i := by omega
        dsimp only
        rw [put_ne _ _ hne, put_ne _ _ hne, show i + (j + 1) = i + 1 + j by omega]
        exact ⟨h1, fun h => h2 (by simpa using h)⟩
    match os with
    | [] =>
      refine hk _ ?_
      intro j q hj
      cases j with
      | zero =>
        simp only [List.getElem?_cons_zero, Option.some.injEq] at hj
        subst hj
        simp
      | succ j => simp at hj
    | [o'] =>
      refine ih (i + 1) _ s (by simp) fun s' hp => ?_
      exact hk _ (grow [o'] s' hp)
    | o' :: o'' :: os =>
      refine ih (i + 1) _ s (by simp) fun s' hp => ?_
      refine ⟨self, ?_, hk _ (grow _ s' hp)⟩
      have := (hp 0 o' rfl).2 (by simp)
      show s'.root (i + 1) = some self
      simpa using this

theorem make_complete (s : Sh) (os : List Nat) (h : os.length = n + 1) : Builds self n os (make (V := V) self os 0 .ret) s := by
  refine make_builds os 0 .ret s (by intro he; rw [he] at h; simp at h) fun s' hp => ⟨fun i o hi => ?_, fun i hi => ?_⟩
  · simpa using (hp i o hi).1
  · have := (hp i (os[i]'(by omega)) (by simp)).2 (by omega)
    simpa using this

/-! ### Notification -/

/-- What follows the call of observer `i`. -/
def after (self n : Nat) (v : V) (i : Nat) : Prog V := if i = n then .ret else notifyFrom self v (n - 1 - i) (i + 1)

/-- How far a notification of `os` is: what is left, whether a function is running, and what it has done. -/
inductive Shape (self n id : Nat) (v : V) (os : List Nat) : Prog V → Bool → List (Ev V) → Prop
  | layer (i left : Nat) (h : i + left = n) : Shape self n id v os (notifyFrom self v left i) false (visits id self v (os.take i))
  | root (i left o : Nat) (h : i + (left + 1) = n) (ho : os[i]? = some o) :
      Shape self n id v os (.root i fun r => .tell o r v (.left o (notifyFrom self v left (i + 1)))) false
        (visits id self v (os.take i))
  | tell (i o : Nat) (h : i ≤ n) (ho : os[i]? = some o) :
      Shape self n id v os (.tell o self v (.left o (after self n v i))) false (visits id self v (os.take i))
  | left (i o : Nat) (b : Bool) (h : i ≤ n) (ho : os[i]? = some o) :
      Shape self n id v os (.left o (after self n v i)) b (visits id self v (os.take i) ++ [.told id self o v])
  | ret : Shape self n id v os .ret false (visits id self v os)

section
variable {id : Nat} {v : V} {os : List Nat} {b : Bool} {evs : List (Ev V)}

theorem Shape.obs {i : Nat} {k : Nat → Prog V} (hn : os.length = n + 1) (h : Shape self n id v os (.obs i k) b evs) :
    b = false ∧ ∃ o, os[i]? = some o ∧ Shape self n id v os (k o) false evs := by
  generalize hp : Prog.obs i k = p at h
  cases h with
  | layer j left h =>
    have hj : j < os.length := by omega
    cases left with
    | zero =>
      simp only [notifyFrom, Prog.obs.injEq] at hp
      obtain ⟨rfl, rfl⟩ := hp
      have ht := Shape.tell (self := self) (n := n) (id := id) (v := v) (os := os) i os[i] (by omega) (by simp)
      rw [after, if_pos (by omega)] at ht
      exact ⟨rfl, os[i], by simp, ht⟩
    | succ left =>
      simp only [notifyFrom, Prog.obs.injEq] at hp
      obtain ⟨rfl, rfl⟩ := hp
      exact ⟨rfl, os[i], by simp, .root i left os[i] h (by simp)⟩
  | root => cases hp
  | tell => cases hp
  | left => cases hp
  | ret => cases hp

theorem Shape.root' {i : Nat} {k : Nat → Prog V} (h : Shape self n id v os (.root i k) b evs) :
    b = false ∧ i < n ∧ Shape self n id v os (k self) false evs := by
  generalize hp : Prog.root i k = p at h
  cases h with
  | layer j left h => cases left <;> cases hp
  | root j left o h ho =>
    simp only [Prog.root.injEq] at hp
    obtain ⟨rfl, rfl⟩ := hp
    have ht := Shape.tell (self := self) (n := n) (id := id) (v := v) (os := os) i o (by omega) ho
    rw [after, if_neg (by omega), show n - 1 - i = left by omega] at ht
    exact ⟨rfl, by omega, ht⟩
  | tell => cases hp
  | left => cases hp
  | ret => cases hp

theorem Shape.tell' {o src : Nat} {w : V} {k : Prog V} (h : Shape self n id v os (.tell o src w k) b evs) :
    b = false ∧ o ∈ os ∧ Shape self n id v os k true (evs ++ [.told id src o w]) := by
  generalize hp : Prog.tell o src w k = p at h
  cases h with
  | layer j left h => cases left <;> cases hp
  | root => cases hp
  | tell i q h ho =>
    simp only [Prog.tell.injEq] at hp
    obtain ⟨rfl, rfl, rfl, rfl⟩ := hp
    exact ⟨rfl, List.mem_of_getElem? ho, .left i o true h ho⟩
  | left => cases hp
  | ret => cases hp

theorem Shape.left' {o : Nat} {k : Prog V} (hn : os.length = n + 1) (h : Shape self n id v os (.left o k) b evs) :
    Shape self n id v os k false (evs ++ [.left id o]) := by
  generalize hp : Prog.left o k = p at h
  cases h with
  | layer j left h => cases left <;> cases hp
  | root => cases hp
  | tell => cases hp
  | left i q b h ho =>
    simp only [Prog.left.injEq] at hp
    obtain ⟨rfl, rfl⟩ := hp
    have hi : i < os.length := by omega
    have hv : visits id self v (os.take i) ++ [.told id self o v] ++ [.left id o] = visits id self v (os.take (i + 1)) := by
      rw [List.take_add_one, ho]
      simp [visits, List.flatMap_append]
    rw [hv]
    unfold after
    split
    · rw [List.take_of_length_le (by omega)]
      exact .ret
    · exact .layer (i + 1) _ (by omega)
  | ret => cases hp

theorem Shape.ret' (h : Shape self n id v os .ret b evs) : evs = visits id self v os := by
  generalize hp : Prog.ret = p at h
  cases h with
  | layer j left h => cases left <;> cases hp
  | root => cases hp
  | tell => cases hp
  | left => cases hp
  | ret => rfl

theorem Shape.back {p : Prog V} (h : Shape self n id v os p true evs) : Shape self n id v os p false evs := by
  generalize hb : true = b at h
  cases h with
  | layer => cases hb
  | root => cases hb
  | tell => cases hb
  | left i o b h ho => exact .left i o false h ho
  | ret => cases hb

theorem Shape.sets {i o : Nat} {k : Prog V} : ¬ Shape self n id v os (.setObs i o k) b evs ∧ ¬ Shape self n id v os (.setRoot i o k) b evs := by
  constructor
  · intro h
    generalize hp : Prog.setObs i o k = p at h
    cases h with
    | layer j left h => cases left <;> cases hp
    | _ => cases hp
  · intro h
    generalize hp : Prog.setRoot i o k = p at h
    cases h with
    | layer j left h => cases left <;> cases hp
    | _ => cases hp
end

/-! ### What holds at any time -/

/-- What notification `id` of thread `t` has done. -/
def doings (t id : Nat) (l : List (Nat × Ev V)) : List (Ev V) := (l.filter fun e => e.1 == t && e.2.Of id).map (·.2)

theorem doings_append (t id : Nat) (l k : List (Nat × Ev V)) : doings t id (l ++ k) = doings t id l ++ doings t id k := by
  simp [doings]

/-- A notification in progress. -/
def Busy (m : State V) (f : Frame V) (v : V) (os : List Nat) (evs : List (Ev V)) : Prop :=
  f.op = .notify v ∧ Shape m.self m.n f.id v os f.prog f.busy evs

structure Inv (m : State V) : Prop where
  mem : m.mem.Ok
  empty : m.list = none → m.ready = false ∧ ∀ u, m.stack u = []
  len : ∀ os, m.list = some os → os.length = m.n + 1 ∧ ∀ o ∈ os, m.sh.alive o = true
  build : ∀ os, m.list = some os → m.ready = false → ∃ t id p, m.stack t = [⟨id, .make os, p, false⟩] ∧ (∀ u, u ≠ t → m.stack u = []) ∧
    Builds m.self m.n os p m.sh ∧ m.Knows t fun loc _ => loc.Member
  whole : ∀ os, m.list = some os → m.ready = true → Complete m.self m.n os m.sh
  frames : ∀ os, m.list = some os → m.ready = true → ∀ t f, f ∈ m.stack t → ∃ v evs, Busy m f v os evs
  knows : m.ready = true → ∀ t, m.stack t ≠ [] → m.Knows t m.Writes
  log : listed m.log = if m.ready then m.list else none
  ids : ∀ t, (∀ f ∈ m.stack t, f.id < m.fresh) ∧ (m.stack t).Pairwise fun f g => g.id < f.id
  hist : ∀ pre post t id v, m.log = pre ++ (t, .began id v) :: post → ∃ os, listed pre = some os ∧
    ((m.ready = true ∧ m.list = some os ∧ ∃ f ∈ m.stack t, f.id = id ∧ Busy m f v os (doings t id post)) ∨
      (id < m.fresh ∧ (∀ f ∈ m.stack t, f.id ≠ id) ∧ doings t id post = visits id m.self v os ++ [.ret id]))

theorem Inv.start : Inv (State.new self n : State V) where
  mem := .new
  empty _ := ⟨rfl, fun _ => rfl⟩
  len _ h := by cases h
  build _ h := by cases h
  whole _ h := by cases h
  frames _ h := by cases h
  knows h := by cases h
  log := rfl
  ids _ := ⟨by simp [State.new], by simp [State.new]⟩
  hist pre post t id v h := by simp [State.new] at h

theorem split_snoc {l k pre post : List (Nat × Ev V)} {x : Nat × Ev V} (h : l ++ k = pre ++ x :: post) (hk : k.length ≤ 1) :
    (∃ post', post = post' ++ k ∧ l = pre ++ x :: post') ∨ (k = [x] ∧ l = pre ∧ post = []) := by
  match k, hk with
  | [], _ => exact .inl ⟨post, by simp, by simpa using h⟩
  | [y], _ =>
    rcases List.eq_nil_or_concat post with hp | ⟨post', z, hp⟩
    · subst hp
      obtain ⟨h1, h2⟩ := List.append_inj' h rfl
      exact .inr ⟨h2, h1, rfl⟩
    · rw [List.concat_eq_append] at hp
      subst hp
      have : l ++ [y] = (pre ++ x :: post') ++ [z] := by rw [h]; simp
      obtain ⟨h1, h2⟩ := List.append_inj' this rfl
      exact .inl ⟨post', by rw [h2], h1⟩
  | _ :: _ :: _, hk => simp at hk

/-- In the same list a number occurs once. -/
theorem same_frame {fs : List (Frame V)} (h : fs.Pairwise fun f g => g.id < f.id) {f g : Frame V} (hf : f ∈ fs) (hg : g ∈ fs)
    (he : f.id = g.id) : f = g := by
  induction h with
  | nil => cases hf
  | cons hx _ ih =>
    rcases List.mem_cons.1 hf with hf | hf <;> rcases List.mem_cons.1 hg with hg | hg
    · rw [hf, hg]
    · have := hx g hg; rw [← hf] at this; omega
    · have := hx f hf; rw [← hg] at this; omega
    · exact ih hf hg

/-- The notification on top of the stack of `t` makes a step. -/
theorem Inv.move {m m' : State V} (h : Inv m) {t : Nat} {f g : Frame V} {fs : List (Frame V)} {new : List (Nat × Ev V)} {os : List Nat}
    (hst : m.stack t = f :: fs) (hl : m.list = some os) (hr : m.ready = true)
    (hs : m'.stack = HB.put m.stack t (g :: fs)) (hlog : m'.log = m.log ++ new) (hlen : new.length ≤ 1)
    (hself : m'.self = m.self) (hn : m'.n = m.n) (hsh : m'.sh = m.sh) (hfr : m'.fresh = m.fresh) (hli : m'.list = m.list)
    (hre : m'.ready = m.ready)
    (hmem : m'.mem.Ok) (hkn : ∀ u, m.stack u ≠ [] → m'.Knows u m'.Writes)
    (hid : g.id = f.id) (hop : g.op = f.op) (hnew : ∀ e ∈ new, e.1 = t ∧ e.2.Of f.id = true)
    (hshape : ∀ v evs, Shape m.self m.n f.id v os f.prog f.busy evs → Shape m.self m.n f.id v os g.prog g.busy (evs ++ new.map (·.2))) :
    Inv m' := by
  have hself' : ∀ u, m'.stack u ≠ [] → m.stack u ≠ [] := by
    intro u hu
    by_cases hut : u = t
    · subst hut; rw [hst]; simp
    · rw [hs, put_ne _ _ hut] at hu; exact hu
  have hbusy : ∀ v evs, Busy m f v os evs → Busy m' g v os (evs ++ new.map (·.2)) := by
    rintro v evs ⟨h1, h2⟩
    refine ⟨by rw [hop, h1], ?_⟩
    rw [hself, hn, hid]
    exact hshape v evs h2
  have hsame : ∀ (x : Frame V) v evs, Busy m x v os evs → Busy m' x v os evs := by
    rintro x v evs ⟨h1, h2⟩
    exact ⟨h1, by rw [hself, hn]; exact h2⟩
  have hbegan : ∀ id v, (t, Ev.began id v) ∉ new := fun id v hm => by
    have := (hnew _ hm).2
    simp [Ev.Of] at this
  have hbegan' : ∀ u id (v : V), new ≠ [(u, Ev.began id v)] := by
    intro u id v hm
    have := (hnew (u, .began id v) (by rw [hm]; simp)).2
    simp [Ev.Of] at this
  have hdo : ∀ u id, (u = t ∧ id = f.id → doings u id new = new.map (·.2)) ∧ (¬ (u = t ∧ id = f.id) → doings u id new = []) := by
    intro u id
    constructor
    · rintro ⟨rfl, rfl⟩
      unfold doings
      rw [List.filter_eq_self.2]
      intro e he
      obtain ⟨h1, h2⟩ := hnew e he
      simp [h1, h2]
    · intro hne
      unfold doings
      rw [List.filter_eq_nil_iff.2, List.map_nil]
      intro e he
      obtain ⟨h1, h2⟩ := hnew e he
      intro hb
      simp only [Bool.and_eq_true, beq_iff_eq] at hb
      refine hne ⟨by rw [← hb.1, h1], ?_⟩
      have hb := hb.2
      generalize e.2 = ev at h2 hb
      cases ev <;> simp_all [Ev.Of]
  have hlisted : listed (m.log ++ new) = listed m.log := by
    match new, hlen, hnew with
    | [], _, _ => simp
    | [e], _, hnew =>
      have h2 := (hnew e (by simp)).2
      obtain ⟨e1, ev⟩ := e
      cases ev <;> simp_all [Ev.Of, listed, List.foldl_append]
    | _ :: _ :: _, hlen, _ => simp at hlen
  refine ⟨hmem, ?_, ?_, ?_, ?_, ?_, ?_, ?_, ?_, ?_⟩
  · intro hn'; rw [hli, hl] at hn'; cases hn'
  · intro os' hos; rw [hli] at hos; rw [hn, hsh]; exact h.len os' hos
  · intro os' _ hr'; rw [hre, hr] at hr'; cases hr'
  · intro os' hos hr'; rw [hself, hn, hsh]; exact h.whole os' (hli ▸ hos) hr
  · intro os' hos _ u x hx
    have hos' : os' = os := by rw [hli, hl] at hos; injection hos with hos; exact hos.symm
    subst hos'
    by_cases hut : u = t
    · subst hut
      rw [hs, put_same] at hx
      rcases List.mem_cons.1 hx with rfl | hx
      · obtain ⟨v, evs, hb⟩ := h.frames os' hl hr u f (by rw [hst]; simp)
        exact ⟨v, _, hbusy v evs hb⟩
      · obtain ⟨v, evs, hb⟩ := h.frames os' hl hr u x (by rw [hst]; exact List.mem_cons_of_mem _ hx)
        exact ⟨v, evs, hsame x v evs hb⟩
    · rw [hs, put_ne _ _ hut] at hx
      obtain ⟨v, evs, hb⟩ := h.frames os' hl hr u x hx
      exact ⟨v, evs, hsame x v evs hb⟩
  · intro _ u hu; exact hkn u (hself' u hu)
  · rw [hlog, hlisted, hre, hli]; exact h.log
  · intro u
    rw [hfr, hs]
    by_cases hut : u = t
    · subst hut
      have := h.ids u
      rw [hst] at this
      rw [put_same]
      obtain ⟨h1, h2⟩ := this
      rw [List.pairwise_cons] at h2
      refine ⟨fun x hx => ?_, List.pairwise_cons.2 ⟨fun x hx => ?_, h2.2⟩⟩
      · rcases List.mem_cons.1 hx with rfl | hx
        · rw [hid]; exact h1 f (by simp)
        · exact h1 x (List.mem_cons_of_mem _ hx)
      · rw [hid]; exact h2.1 x hx
    · rw [put_ne _ _ hut]; exact h.ids u
  · intro pre post u id v hsplit
    rw [hlog] at hsplit
    obtain ⟨post', rfl, hold⟩ := (split_snoc hsplit hlen).resolve_right fun hk => hbegan' u id v hk.1
    obtain ⟨os', ho, hc⟩ := h.hist pre post' u id v hold
    refine ⟨os', ho, ?_⟩
    rw [doings_append]
    rcases hc with ⟨-, hl', x, hx, hxid, hb⟩ | ⟨hidf, hno, hd⟩
    · left
      have hos' : os' = os := by rw [hl] at hl'; injection hl' with hl'; exact hl'.symm
      subst hos'
      refine ⟨by rw [hre, hr], by rw [hli, hl], ?_⟩
      by_cases hut : u = t
      · subst hut
        by_cases hxf : x = f
        · subst hxf
          refine ⟨g, by rw [hs, put_same]; simp, by rw [hid, hxid], ?_⟩
          rw [(hdo u id).1 ⟨rfl, hxid.symm⟩]
          exact hbusy v _ hb
        · rw [hst] at hx
          rcases List.mem_cons.1 hx with rfl | hx
          · exact absurd rfl hxf
          · refine ⟨x, by rw [hs, put_same]; exact List.mem_cons_of_mem _ hx, hxid, ?_⟩
            have hne : ¬ (u = u ∧ id = f.id) := by
              rintro ⟨-, h2⟩
              exact hxf (same_frame (h.ids u).2 (by rw [hst]; exact List.mem_cons_of_mem _ hx) (by rw [hst]; simp) (by rw [hxid, h2]))
            rw [(hdo u id).2 hne, List.append_nil]
            exact hsame x v _ hb
      · refine ⟨x, by rw [hs, put_ne _ _ hut]; exact hx, hxid, ?_⟩
        rw [(hdo u id).2 (fun h2 => hut h2.1), List.append_nil]
        exact hsame x v _ hb
    · right
      have hne : ¬ (u = t ∧ id = f.id) := by
        rintro ⟨rfl, rfl⟩
        exact hno f (by rw [hst]; simp) rfl
      rw [(hdo u id).2 hne, List.append_nil]
      refine ⟨by rw [hfr]; exact hidf, fun x hx => ?_, by rw [hself]; exact hd⟩
      by_cases hut : u = t
      · subst hut
        rw [hs, put_same] at hx
        rcases List.mem_cons.1 hx with rfl | hx
        · rw [hid]; exact hno f (by rw [hst]; simp)
        · exact hno x (by rw [hst]; exact List.mem_cons_of_mem _ hx)
      · rw [hs, put_ne _ _ hut] at hx; exact hno x hx

theorem builds_alive {os : List Nat} {al : Nat → Bool} (p : Prog V) : ∀ s, Builds self n os p s → Builds self n os p { s with alive := al } := by
  induction p with
  | ret => exact fun _ h => h
  | obs => exact fun _ h => h
  | root i k ih => rintro s ⟨r, h1, h2⟩; exact ⟨r, h1, ih r s h2⟩
  | setObs i o k ih => exact fun s h => ih _ h
  | setRoot i o k ih => exact fun s h => ih _ h
  | tell => exact fun _ h => h
  | left => exact fun _ h => h

/-- A step of a user that touches neither the observable nor an observer of its list. -/
theorem Inv.quiet {m : State V} (h : Inv m) (u : Nat) (os : List (HB.Op Loc Nat)) (al : Nat → Bool)
    (hal : ∀ l, m.list = some l → ∀ o ∈ l, al o = true)
    (hos : ∀ loc wr tag, .acc loc wr tag ∈ os → ¬ loc.Member ∧ ¬ m.Writes loc wr) :
    Inv { m with mem := m.mem.run u os, sh := { m.sh with alive := al } } where
  mem := h.mem.run u os
  empty := h.empty
  len l hl := ⟨(h.len l hl).1, hal l hl⟩
  build l hl hr := by
    obtain ⟨t, id, p, h1, h2, h3, h4⟩ := h.build l hl hr
    exact ⟨t, id, p, h1, h2, builds_alive p _ h3,
      knows_run h.mem (P := fun loc _ => loc.Member) h4 u os fun loc wr tag hm => .inr (hos loc wr tag hm).1⟩
  whole := h.whole
  frames := h.frames
  knows hr t ht := knows_run h.mem (h.knows hr t ht) u os fun loc wr tag hm => .inr (hos loc wr tag hm).2
  log := h.log
  ids := h.ids
  hist := h.hist

/-- A step of the constructor. -/
theorem Inv.built {m : State V} (h : Inv m) {t id : Nat} {os : List Nat} {p q : Prog V} {b : Bool} {fs : List (Frame V)} {op : Op V}
    (hst : m.stack t = ⟨id, op, p, b⟩ :: fs) (hl : m.list = some os) (hr : m.ready = false) (sh : Sh) (hsh : sh.alive = m.sh.alive)
    (acc : List (HB.Op Loc Nat)) (hb : Builds m.self m.n os q sh) :
    Inv { m with mem := m.mem.run t acc, sh, stack := HB.put m.stack t (⟨id, op, q, b⟩ :: fs) } := by
  obtain ⟨u, id', p', h1, h2, h3, h4⟩ := h.build os hl hr
  have hut : t = u := Classical.byContradiction fun hne => by rw [h2 t hne] at hst; cases hst
  subst hut
  rw [h1] at hst
  cases hst
  have hin : ∀ v f, f ∈ HB.put m.stack t [⟨id, .make os, q, false⟩] v → v = t ∧ f = ⟨id, .make os, q, false⟩ := by
    intro v f hf
    by_cases hv : v = t
    · subst hv; rw [put_same] at hf; exact ⟨rfl, by simpa using hf⟩
    · rw [put_ne _ _ hv, h2 v hv] at hf; cases hf
  exact {
    mem := h.mem.run t acc
    empty := fun hn => by rw [show m.list = none from hn] at hl; cases hl
    len := fun l hl => by rw [hsh]; exact h.len l hl
    build := fun l hl' _ => by
      have : l = os := by rw [show m.list = some l from hl'] at hl; injection hl
      subst this
      refine ⟨t, id, q, put_same _ _ _, fun v hv => by dsimp only; rw [put_ne _ _ hv]; exact h2 v hv, hb, ?_⟩
      exact knows_run h.mem (P := fun loc _ => loc.Member) h4 t acc fun _ _ _ _ => .inl rfl
    whole := fun _ _ hr' => by rw [show m.ready = true from hr'] at hr; cases hr
    frames := fun _ _ hr' => by rw [show m.ready = true from hr'] at hr; cases hr
    knows := fun hr' => by rw [show m.ready = true from hr'] at hr; cases hr
    log := h.log
    ids := fun v => by
      constructor
      · intro f hf
        obtain ⟨rfl, rfl⟩ := hin v f hf
        exact (h.ids v).1 ⟨id, .make os, p, false⟩ (by rw [h1]; simp)
      · by_cases hv : v = t
        · subst hv; dsimp only; rw [put_same]; simp
        · dsimp only; rw [put_ne _ _ hv]; exact (h.ids v).2
    hist := fun pre post v k v' hlog => by
      obtain ⟨l, ho, hc⟩ := h.hist pre post v k v' hlog
      refine ⟨l, ho, .inr ?_⟩
      rcases hc with ⟨hr', -⟩ | ⟨hlt, hno, hd⟩
      · rw [hr] at hr'; cases hr'
      · refine ⟨hlt, fun f hf => ?_, hd⟩
        obtain ⟨rfl, rfl⟩ := hin v f hf
        exact hno ⟨id, .make os, p, false⟩ (by rw [h1]; simp) }

/-- The constructor returns. -/
theorem Inv.made {m : State V} (h : Inv m) {t id : Nat} {os : List Nat} {b : Bool} {fs : List (Frame V)} {op : Op V}
    (hst : m.stack t = ⟨id, op, .ret, b⟩ :: fs) (hl : m.list = some os) (hr : m.ready = false) :
    op = .make os ∧ Inv { m with stack := HB.put m.stack t fs, ready := true, log := m.log ++ [(t, .made os)] } := by
  obtain ⟨u, id', p', h1, h2, h3, h4⟩ := h.build os hl hr
  have hut : t = u := Classical.byContradiction fun hne => by rw [h2 t hne] at hst; cases hst
  subst hut
  rw [h1] at hst
  cases hst
  have hnil : ∀ v, HB.put m.stack t [] v = [] := by
    intro v
    by_cases hv : v = t
    · subst hv; rw [put_same]
    · rw [put_ne _ _ hv, h2 v hv]
  refine ⟨rfl, ⟨h.mem, ?_, h.len, ?_, ?_, ?_, ?_, ?_, ?_, ?_⟩⟩
  · intro hn; rw [show m.list = none from hn] at hl; cases hl
  · intro _ _ hr'; cases hr'
  · intro l hl' _
    have : l = os := by rw [show m.list = some l from hl'] at hl; injection hl
    subst this
    exact h3
  · intro l _ _ v f hf; dsimp only at hf; rw [hnil v] at hf; cases hf
  · intro _ v hv; exact absurd (hnil v) hv
  · simp [listed, List.foldl_append, hl]
  · intro v; dsimp only; rw [hnil v]; simp
  · intro pre post v id v' hlog
    obtain ⟨post', rfl, hold⟩ := (split_snoc hlog (by simp)).resolve_right fun hk => by simp at hk
    obtain ⟨l, ho, hc⟩ := h.hist pre post' v id v' hold
    refine ⟨l, ho, .inr ?_⟩
    rcases hc with ⟨hr', -⟩ | ⟨hlt, hno, hd⟩
    · rw [hr] at hr'; cases hr'
    · refine ⟨hlt, fun f hf => ?_, ?_⟩
      · dsimp only at hf; rw [hnil v] at hf; cases hf
      · rw [doings_append, hd]; simp [doings, Ev.Of]

/-- A notification returns. -/
theorem Inv.done {m : State V} (h : Inv m) {t : Nat} {f : Frame V} {fs : List (Frame V)} {os : List Nat} (hst : m.stack t = f :: fs)
    (hl : m.list = some os) (hr : m.ready = true) (hp : f.prog = .ret) :
    Inv { m with stack := HB.put m.stack t fs, log := m.log ++ [(t, .ret f.id)] } := by
  have hin : ∀ u x, x ∈ HB.put m.stack t fs u → x ∈ m.stack u := by
    intro u x hx
    by_cases hu : u = t
    · subst hu; rw [put_same] at hx; rw [hst]; exact List.mem_cons_of_mem _ hx
    · rw [put_ne _ _ hu] at hx; exact hx
  refine ⟨h.mem, ?_, h.len, ?_, h.whole, ?_, ?_, ?_, ?_, ?_⟩
  · intro hn; rw [show m.list = none from hn] at hl; cases hl
  · intro _ _ hr'; rw [show m.ready = false from hr'] at hr; cases hr
  · intro l hl' hr' u x hx; exact h.frames l hl' hr' u x (hin u x hx)
  · intro _ u hu
    refine h.knows hr u ?_
    by_cases hut : u = t
    · subst hut; rw [hst]; simp
    · dsimp only at hu; rw [put_ne _ _ hut] at hu; exact hu
  · have := h.log; simp only [listed, List.foldl_append] at *; simpa using this
  · intro u
    refine ⟨fun x hx => (h.ids u).1 x (hin u x hx), ?_⟩
    by_cases hut : u = t
    · subst hut; have := (h.ids u).2; rw [hst, List.pairwise_cons] at this; dsimp only; rw [put_same]; exact this.2
    · dsimp only; rw [put_ne _ _ hut]; exact (h.ids u).2
  · intro pre post u id v hlog
    obtain ⟨post', rfl, hold⟩ := (split_snoc hlog (by simp)).resolve_right fun hk => by simp at hk
    obtain ⟨l, ho, hc⟩ := h.hist pre post' u id v hold
    refine ⟨l, ho, ?_⟩
    rw [doings_append]
    by_cases hue : u = t ∧ id = f.id
    · obtain ⟨rfl, rfl⟩ := hue
      right
      have hd : doings u f.id [(u, Ev.ret f.id)] = [.ret (V := V) f.id] := by simp [doings, Ev.Of]
      rcases hc with ⟨_, _, x, hx, hxid, _, hshape⟩ | ⟨_, hno, _⟩
      · have : x = f := same_frame (h.ids u).2 hx (by rw [hst]; simp) hxid
        subst this
        refine ⟨(h.ids u).1 x hx, fun y hy => ?_, ?_⟩
        · have hpw := (h.ids u).2
          dsimp only at hy
          rw [put_same] at hy
          rw [hst, List.pairwise_cons] at hpw
          exact Nat.ne_of_lt (hpw.1 y hy)
        · rw [hp] at hshape
          rw [hd, Shape.ret' hshape]
      · exact absurd rfl (hno f (by rw [hst]; simp))
    · have hd : doings u id [(t, Ev.ret (V := V) f.id)] = [] := by
        simp only [doings, List.map_eq_nil_iff, List.filter_eq_nil_iff, List.mem_singleton]
        rintro _ rfl hb
        simp only [Ev.Of, Bool.and_eq_true, beq_iff_eq] at hb
        exact hue ⟨hb.1.symm, hb.2.symm⟩
      rw [hd, List.append_nil]
      rcases hc with ⟨hr', hl', x, hx, hxid, hb⟩ | ⟨hlt, hno, hdo⟩
      · refine .inl ⟨hr', hl', x, ?_, hxid, hb⟩
        dsimp only
        by_cases hut : u = t
        · subst hut
          rw [put_same]
          rw [hst] at hx
          rcases List.mem_cons.1 hx with rfl | hx
          · exact absurd ⟨rfl, hxid.symm⟩ hue
          · exact hx
        · rw [put_ne _ _ hut]; exact hx
      · exact .inr ⟨hlt, fun x hx => hno x (hin u x hx), hdo⟩

/-- A step of a call. -/
theorem Inv.act {m m' : State V} (h : Inv m) {t : Nat} {f : Frame V} {fs : List (Frame V)} (hst : m.stack t = f :: fs)
    (hb : f.busy = false) (hs : act m t f fs = some m') : Inv m' := by
  cases hl : m.list with
  | none => have := (h.empty hl).2 t; rw [hst] at this; cases this
  | some os =>
    have hlen := (h.len os hl).1
    obtain ⟨id, op, p, b⟩ := f
    dsimp only at hb
    subst hb
    cases hr : m.ready with
    | false =>
      have hbu : Builds m.self m.n os p m.sh := by
        obtain ⟨u, id', p', h1, h2, h3, h4⟩ := h.build os hl hr
        have hut : t = u := Classical.byContradiction fun hne => by rw [h2 t hne] at hst; cases hst
        subst hut
        rw [h1] at hst
        cases hst
        exact h3
      cases p with
      | ret =>
        obtain ⟨rfl, hi⟩ := h.made hst hl hr
        simp only [Static.act, Option.some.injEq] at hs
        rw [← hs]; exact hi
      | root i k =>
        obtain ⟨r, h1, h2⟩ := hbu
        simp only [Static.act, h1, Option.map_some, Option.some.injEq] at hs
        rw [← hs]
        exact h.built hst hl hr m.sh rfl _ h2
      | setObs i o k =>
        simp only [Static.act, Option.some.injEq] at hs
        rw [← hs]
        exact h.built (q := k) hst hl hr { m.sh with obs := HB.put m.sh.obs i (some o) } rfl _ hbu
      | setRoot i o k =>
        simp only [Static.act, Option.some.injEq] at hs
        rw [← hs]
        exact h.built (q := k) hst hl hr { m.sh with root := HB.put m.sh.root i (some o) } rfl _ hbu
      | obs => cases hbu
      | tell => cases hbu
      | left => cases hbu
    | true =>
      obtain ⟨v, evs, hop, hsh⟩ := h.frames os hl hr t _ (by rw [hst]; exact List.mem_cons_self)
      dsimp only at hop hsh
      subst hop
      obtain ⟨hobs, hroot⟩ := h.whole os hl hr
      have hkn : ∀ acc : List (HB.Op Loc Nat), (∀ loc wr tag, .acc loc wr tag ∈ acc → wr = false) →
          ∀ u, m.stack u ≠ [] → ∀ a ∈ (m.mem.run t acc).log, m.Writes a.loc a.wr → a.time ≤ (m.mem.run t acc).clk u a.who := by
        intro acc hacc u hu
        refine knows_run h.mem (h.knows hr u hu) t acc fun loc wr tag hm => .inr ?_
        rintro ⟨hw, -⟩
        rw [hacc loc wr tag hm] at hw
        cases hw
      have hrd : ∀ (loc : Loc) (l : Loc) (wr : Bool) (tag : Nat), (HB.Op.acc l wr tag : HB.Op Loc Nat) ∈ [HB.Op.acc loc false 0] → wr = false := by
        intro loc l wr tag hm; simp at hm; exact hm.2.1
      cases p with
      | ret =>
        simp only [Static.act, Option.some.injEq] at hs
        rw [← hs]
        exact h.done hst hl hr rfl
      | obs i k =>
        obtain ⟨-, o, ho, h2⟩ := hsh.obs hlen
        simp only [Static.act, hobs i o ho, Option.map_some, Option.some.injEq] at hs
        subst hs
        refine h.move (new := []) hst hl hr rfl (by simp) (by simp) rfl rfl rfl rfl rfl rfl (h.mem.run _ _) (hkn _ (hrd _)) rfl rfl
          (by simp) fun v evs hx => ?_
        obtain ⟨-, o', ho', hx⟩ := hx.obs hlen
        rw [ho] at ho'
        cases ho'
        simpa using hx
      | root i k =>
        obtain ⟨-, hi, h2⟩ := hsh.root'
        simp only [Static.act, hroot i hi, Option.map_some, Option.some.injEq] at hs
        subst hs
        refine h.move (new := []) hst hl hr rfl (by simp) (by simp) rfl rfl rfl rfl rfl rfl (h.mem.run _ _) (hkn _ (hrd _)) rfl rfl
          (by simp) fun v evs hx => ?_
        simpa using hx.root'.2.2
      | tell o src w k =>
        obtain ⟨-, ho, h2⟩ := hsh.tell'
        simp only [Static.act, (h.len os hl).2 o ho, if_true, Option.some.injEq] at hs
        subst hs
        refine h.move (new := [(t, .told id src o w)]) hst hl hr rfl rfl (by simp) rfl rfl rfl rfl rfl rfl (h.mem.run _ _)
          (hkn _ (hrd _)) rfl rfl (by simp [Ev.Of]) fun v evs hx => ?_
        simpa using hx.tell'.2.2
      | left o k =>
        simp only [Static.act, Option.some.injEq] at hs
        subst hs
        refine h.move (new := [(t, .left id o)]) hst hl hr rfl rfl (by simp) rfl rfl rfl rfl rfl rfl h.mem
          (fun u hu => h.knows hr u hu) rfl rfl (by simp [Ev.Of]) fun v evs hx => ?_
        simpa using hx.left' hlen
      | setObs i o k => exact absurd hsh Shape.sets.1
      | setRoot i o k => exact absurd hsh Shape.sets.2

theorem Inv.step {m m' : State V} {l : Lbl V} (h : Inv m) (hc : Careful m l) (hs : step m l = some m') : Inv m' := by
  have quiet0 : ∀ (u : Nat) (os : List (HB.Op Loc Nat)), (∀ loc wr tag, .acc loc wr tag ∉ os) → Inv { m with mem := m.mem.run u os } := by
    intro u os ho
    exact h.quiet u os m.sh.alive (fun l hl => (h.len l hl).2) fun loc wr tag hm => absurd hm (ho loc wr tag)
  have quiet1 : ∀ (u o : Nat) (b : Bool), (∀ os, m.list = some os → o ∉ os) →
      Inv { m with mem := m.mem.run u [.acc (.observer o) true 0], sh := { m.sh with alive := HB.put m.sh.alive o b } } := by
    intro u o b ho
    refine h.quiet u _ _ (fun l hl q hq => ?_) fun loc wr tag hm => ?_
    · have : q ≠ o := fun he => ho l hl (he ▸ hq)
      rw [put_ne _ _ this]
      exact (h.len l hl).2 q hq
    · simp only [List.mem_singleton, HB.Op.acc.injEq] at hm
      obtain ⟨rfl, rfl, rfl⟩ := hm
      refine ⟨id, ?_⟩
      rintro ⟨-, hm | ⟨o', os, he, hl, hm⟩⟩
      · exact hm
      · cases he; exact ho os hl hm
  cases l with
  | make t os =>
    obtain ⟨hn, hal, hk⟩ := hc
    obtain ⟨hr, hst⟩ := h.empty hn
    simp only [Static.step] at hs
    split at hs
    case isFalse => cases hs
    rename_i hu
    simp only [Option.some.injEq] at hs
    subst hs
    rw [hst t]
    have hin : ∀ v f, f ∈ HB.put m.stack t [⟨m.fresh, .make os, make m.self os 0 .ret, false⟩] v → f.id = m.fresh := by
      intro v f hf
      by_cases hv : v = t
      · subst hv; rw [put_same] at hf; simp at hf; rw [hf]
      · rw [put_ne _ _ hv, hst v] at hf; cases hf
    exact {
      mem := h.mem
      empty := fun hn => by cases hn
      len := fun l hl => by cases hl; exact ⟨hu.2, hal⟩
      build := fun l hl _ => by
        cases hl
        exact ⟨t, m.fresh, _, put_same _ _ _, fun v hv => by dsimp only; rw [put_ne _ _ hv]; exact hst v, make_complete m.sh os hu.2, hk⟩
      whole := fun _ _ hr => by cases hr
      frames := fun _ _ hr => by cases hr
      knows := fun hr => by cases hr
      log := by have := h.log; rw [hr] at this; exact this
      ids := fun v => by
        refine ⟨fun f hf => by rw [hin v f hf]; exact Nat.lt_succ_self _, ?_⟩
        by_cases hv : v = t
        · subst hv; dsimp only; rw [put_same]; simp
        · dsimp only; rw [put_ne _ _ hv]; exact (h.ids v).2
      hist := fun pre post v id w hlog => by
        obtain ⟨l, ho, hc⟩ := h.hist pre post v id w hlog
        refine ⟨l, ho, .inr ?_⟩
        rcases hc with ⟨hr', -⟩ | ⟨hlt, hno, hd⟩
        · rw [hr] at hr'; cases hr'
        · exact ⟨Nat.lt_succ_of_lt hlt, fun f hf => by rw [hin v f hf]; omega, hd⟩ }
  | notify t v =>
    obtain ⟨hr, hk⟩ := hc
    simp only [Static.step] at hs
    split at hs
    case isFalse => cases hs
    simp only [Option.some.injEq] at hs
    subst hs
    obtain ⟨os, hl⟩ : ∃ os, m.list = some os := by
      cases hl : m.list with
      | none => have := (h.empty hl).1; rw [hr] at this; cases this
      | some os => exact ⟨os, rfl⟩
    have hnew : Busy m ⟨m.fresh, .notify v, notifyFrom m.self v m.n 0, false⟩ v os [] := ⟨rfl, .layer 0 m.n (by omega)⟩
    have hin : ∀ u f, f ∈ HB.put m.stack t (⟨m.fresh, .notify v, notifyFrom m.self v m.n 0, false⟩ :: m.stack t) u →
        (u = t ∧ f = ⟨m.fresh, .notify v, notifyFrom m.self v m.n 0, false⟩) ∨ f ∈ m.stack u := by
      intro u f hf
      by_cases hu : u = t
      · subst hu; rw [put_same] at hf
        rcases List.mem_cons.1 hf with rfl | hf
        · exact .inl ⟨rfl, rfl⟩
        · exact .inr hf
      · rw [put_ne _ _ hu] at hf; exact .inr hf
    have hold : ∀ u f, f ∈ m.stack u → f ∈ HB.put m.stack t (⟨m.fresh, .notify v, notifyFrom m.self v m.n 0, false⟩ :: m.stack t) u := by
      intro u f hf
      by_cases hu : u = t
      · subst hu; rw [put_same]; exact List.mem_cons_of_mem _ hf
      · rw [put_ne _ _ hu]; exact hf
    refine ⟨h.mem, ?_, h.len, ?_, h.whole, ?_, ?_, ?_, ?_, ?_⟩
    · intro hn; rw [show m.list = none from hn] at hl; cases hl
    · intro _ _ hr'; rw [show m.ready = false from hr'] at hr; cases hr
    · intro l hl' hr' u f hf
      have : l = os := by rw [show m.list = some l from hl'] at hl; injection hl
      subst this
      rcases hin u f hf with ⟨rfl, rfl⟩ | hf
      · exact ⟨v, [], hnew⟩
      · exact h.frames l hl hr u f hf
    · intro _ u hu
      by_cases hut : u = t
      · subst hut; exact hk
      · dsimp only at hu; rw [put_ne _ _ hut] at hu; exact h.knows hr u hu
    · have := h.log; simp only [listed, List.foldl_append] at *; simpa using this
    · intro u
      constructor
      · intro f hf
        rcases hin u f hf with ⟨rfl, rfl⟩ | hf
        · exact Nat.lt_succ_self _
        · exact Nat.lt_succ_of_lt ((h.ids u).1 f hf)
      · by_cases hut : u = t
        · subst hut; dsimp only; rw [put_same]
          exact List.pairwise_cons.2 ⟨fun x hx => (h.ids u).1 x hx, (h.ids u).2⟩
        · dsimp only; rw [put_ne _ _ hut]; exact (h.ids u).2
    · intro pre post u id w hlog
      rcases split_snoc hlog (by simp) with ⟨post', rfl, hsp⟩ | ⟨hk', rfl, rfl⟩
      · obtain ⟨l, ho, hc⟩ := h.hist pre post' u id w hsp
        refine ⟨l, ho, ?_⟩
        have hd : doings u id [(t, Ev.began m.fresh v)] = [] := by simp [doings, Ev.Of]
        rw [doings_append, hd, List.append_nil]
        rcases hc with ⟨hr', hl', x, hx, hxid, hb⟩ | ⟨hlt, hno, hdo⟩
        · exact .inl ⟨hr', hl', x, hold u x hx, hxid, hb⟩
        · refine .inr ⟨Nat.lt_succ_of_lt hlt, fun f hf => ?_, hdo⟩
          rcases hin u f hf with ⟨rfl, rfl⟩ | hf
          · exact Nat.ne_of_gt hlt
          · exact hno f hf
      · simp only [List.cons.injEq, Prod.mk.injEq, Ev.began.injEq, and_true] at hk'
        obtain ⟨rfl, rfl, rfl⟩ := hk'
        refine ⟨os, by rw [h.log, hr, hl]; rfl, .inl ⟨hr, hl, _, ?_, rfl, hnew⟩⟩
        dsimp only; rw [put_same]; exact List.mem_cons_self
  | act t =>
    simp only [Static.step] at hs
    split at hs
    case h_2 => cases hs
    rename_i f fs hst
    split at hs
    case isTrue => cases hs
    rename_i hb
    exact h.act hst (by simpa using hb) hs
  | back t =>
    simp only [Static.step] at hs
    split at hs
    case h_2 => cases hs
    rename_i f fs hst
    split at hs
    case isFalse => cases hs
    rename_i hb
    simp only [Option.some.injEq] at hs
    subst hs
    obtain ⟨os, hl⟩ : ∃ os, m.list = some os := by
      cases hl : m.list with
      | none => have := (h.empty hl).2 t; rw [hst] at this; cases this
      | some os => exact ⟨os, rfl⟩
    rcases Bool.eq_false_or_eq_true m.ready with hr | hr
    case inr =>
      obtain ⟨u, id', p', h1, h2, -⟩ := h.build os hl hr
      have hut : t = u := Classical.byContradiction fun hne => by rw [h2 t hne] at hst; cases hst
      subst hut
      rw [h1] at hst
      cases hst
      cases hb
    case inl =>
      refine h.move (new := []) hst hl hr rfl (by simp) (by simp) rfl rfl rfl rfl rfl rfl h.mem
        (fun u hu => h.knows hr u hu) rfl rfl (by simp) fun v evs hx => ?_
      rw [hb] at hx
      simpa using hx.back
  | destroy t =>
    obtain ⟨hr, hst, hk⟩ := hc
    simp only [Static.step] at hs
    split at hs
    case isFalse => cases hs
    simp only [Option.some.injEq] at hs
    subst hs
    refine ⟨h.mem.run _ _, fun _ => ⟨rfl, hst⟩, ?_, ?_, ?_, ?_, ?_, ?_, h.ids, ?_⟩
    · intro l hl; cases hl
    · intro l hl; cases hl
    · intro l hl; cases hl
    · intro l hl; cases hl
    · intro hr; cases hr
    · simp [listed, List.foldl_append]
    · intro pre post v id w hlog
      obtain ⟨post', rfl, hold⟩ := (split_snoc hlog (by simp)).resolve_right fun hk => by simp at hk
      obtain ⟨l, ho, hc⟩ := h.hist pre post' v id w hold
      refine ⟨l, ho, .inr ?_⟩
      rcases hc with ⟨-, -, x, hx, -⟩ | ⟨hlt, hno, hd⟩
      · rw [hst v] at hx; cases hx
      · exact ⟨hlt, hno, by rw [doings_append, hd]; simp [doings, Ev.Of]⟩
  | born t o =>
    simp only [Static.step] at hs
    split at hs
    case isFalse => cases hs
    simp only [Option.some.injEq] at hs
    subst hs
    refine quiet1 t o true fun os hl hm => ?_
    have := (h.len os hl).2 o hm
    rw [hc.1] at this
    cases this
  | die t o =>
    simp only [Static.step] at hs
    split at hs
    case isFalse => cases hs
    simp only [Option.some.injEq] at hs
    subst hs
    exact quiet1 t o false hc.2.1
  | rel t s =>
    simp only [Static.step] at hs
    split at hs
    case isFalse => cases hs
    simp only [Option.some.injEq] at hs
    subst hs
    exact quiet0 t _ (by simp)
  | acq t s =>
    simp only [Static.step] at hs
    split at hs
    case isFalse => cases hs
    simp only [Option.some.injEq] at hs
    subst hs
    exact quiet0 t _ (by simp)

theorem Run.inv {m : State V} (r : Run self n Careful m) : Inv m := by
  induction r with
  | start => exact .start
  | step m m' l _ hc hs ih => exact ih.step hc hs

theorem step_fixed {m m' : State V} {l : Lbl V} (hs : step m l = some m') : m'.self = m.self ∧ m'.n = m.n := by
  cases l <;> simp only [step] at hs
  case act t =>
    split at hs
    · split at hs
      · cases hs
      · unfold act at hs
        dsimp only at hs
        split at hs
        · split at hs <;> (cases hs; exact ⟨rfl, rfl⟩)
        · simp only [Option.map_eq_some_iff] at hs; obtain ⟨_, -, rfl⟩ := hs; exact ⟨rfl, rfl⟩
        · simp only [Option.map_eq_some_iff] at hs; obtain ⟨_, -, rfl⟩ := hs; exact ⟨rfl, rfl⟩
        · cases hs; exact ⟨rfl, rfl⟩
        · cases hs; exact ⟨rfl, rfl⟩
        · split at hs
          · cases hs; exact ⟨rfl, rfl⟩
          · cases hs
        · cases hs; exact ⟨rfl, rfl⟩
    · cases hs
  case back t =>
    split at hs
    · split at hs
      · cases hs; exact ⟨rfl, rfl⟩
      · cases hs
    · cases hs
  all_goals
    split at hs
    · cases hs; exact ⟨rfl, rfl⟩
    · cases hs

theorem Run.fixed {G : State V → Lbl V → Prop} {m : State V} (r : Run self n G m) : m.self = self ∧ m.n = n := by
  induction r with
  | start => exact ⟨rfl, rfl⟩
  | step m m' l _ _ hs ih => rw [(step_fixed hs).1, (step_fixed hs).2]; exact ih

theorem wipe_members : ∀ n loc wr tag, .acc loc wr tag ∈ wipe n → loc.Member
  | 0, loc, wr, tag, h => by simp [wipe] at h; rw [h.1]; trivial
  | n + 1, loc, wr, tag, h => by
    simp only [wipe, List.mem_cons, HB.Op.acc.injEq] at h
    rcases h with ⟨rfl, -⟩ | ⟨rfl, -⟩ | h
    · trivial
    · trivial
    · exact wipe_members n loc wr tag h

/-- Threads that come after the construction may notify at the same time, also from inside functions: no access to the observable or to one of
its observers is a data race. -/
theorem C151_no_race {m : State V} (r : Run self n Careful m) {l : Lbl V} (hc : Careful m l) : ¬ Race m l := by
  have h := r.inv
  cases l with
  | make t os => exact id
  | notify t v => exact id
  | back t => exact id
  | rel t s => exact id
  | acq t s => exact id
  | born t o =>
    refine no_races h.mem (P := fun loc _ => loc = .observer o) hc.2 _ fun loc wr tag hm w _ => ?_
    simp only [ops, List.mem_singleton, HB.Op.acc.injEq] at hm
    exact hm.1
  | die t o =>
    refine no_races h.mem (P := fun loc _ => loc = .observer o) hc.2.2 _ fun loc wr tag hm w _ => ?_
    simp only [ops, List.mem_singleton, HB.Op.acc.injEq] at hm
    exact hm.1
  | destroy t => exact no_races h.mem (P := fun loc _ => loc.Member) hc.2.2 _ fun loc wr tag hm w _ => wipe_members m.n loc wr tag hm
  | act t =>
    unfold Race
    simp only [ops, Lbl.who]
    cases hst : m.stack t with
    | nil => exact id
    | cons f fs =>
    cases hl : m.list with
    | none => have := (h.empty hl).2 t; rw [hst] at this; cases this
    | some os =>
    cases hr : m.ready with
    | false =>
      obtain ⟨u, id', p, h1, h2, h3, h4⟩ := h.build os hl hr
      have hut : t = u := Classical.byContradiction fun hne => by rw [h2 t hne] at hst; cases hst
      subst hut
      rw [h1] at hst
      cases hst
      refine no_races h.mem (P := fun loc _ => loc.Member) h4 _ fun loc wr tag hm w _ => ?_
      cases p <;> simp only [Prog.ops, List.mem_singleton, HB.Op.acc.injEq, List.not_mem_nil] at hm
      case tell => cases h3
      all_goals rw [hm.1]; trivial
    | true =>
      obtain ⟨v, evs, -, hsh⟩ := h.frames os hl hr t f (by rw [hst]; simp)
      obtain ⟨id', op, p, b⟩ := f
      refine no_races h.mem (h.knows hr t (by rw [hst]; simp)) _ fun loc wr tag hm w hw => ?_
      cases p <;> simp only [Prog.ops, List.mem_singleton, HB.Op.acc.injEq, List.not_mem_nil] at hm
      case setObs => exact absurd hsh Shape.sets.1
      case setRoot => exact absurd hsh Shape.sets.2
      all_goals
        obtain ⟨rfl, rfl, -⟩ := hm
        refine ⟨by simpa using hw, ?_⟩
      case obs => exact .inl trivial
      case root => exact .inl trivial
      case tell => exact .inr ⟨_, os, rfl, hl, hsh.tell'.2.1⟩

/-- A call in progress can go on, except while a function of an observer runs, which may return. -/
theorem C151_goes_on {m : State V} (r : Run self n Careful m) {t : Nat} {f : Frame V} {fs : List (Frame V)} (hst : m.stack t = f :: fs) :
    (f.busy = true ∧ (∃ m', step m (.back t) = some m') ∨ f.busy = false ∧ ∃ m', step m (.act t) = some m') := by
  have h := r.inv
  obtain ⟨id', op, p, b⟩ := f
  cases b with
  | true => exact .inl ⟨rfl, by simp [step, hst]⟩
  | false =>
    refine .inr ⟨rfl, ?_⟩
    simp only [step, hst, Bool.false_eq_true, if_false]
    cases hl : m.list with
    | none => have := (h.empty hl).2 t; rw [hst] at this; cases this
    | some os =>
    cases hr : m.ready with
    | false =>
      obtain ⟨u, id', q, h1, h2, h3, h4⟩ := h.build os hl hr
      have hut : t = u := Classical.byContradiction fun hne => by rw [h2 t hne] at hst; cases hst
      subst hut
      rw [h1] at hst
      cases hst
      cases p with
      | ret => exact ⟨_, rfl⟩
      | root i k => obtain ⟨x, hx, -⟩ := h3; exact ⟨_, by simp only [act, hx, Option.map_some]; rfl⟩
      | setObs => exact ⟨_, rfl⟩
      | setRoot => exact ⟨_, rfl⟩
      | obs => cases h3
      | tell => cases h3
      | left => cases h3
    | true =>
      obtain ⟨v, evs, hop, hsh⟩ := h.frames os hl hr t _ (by rw [hst]; exact List.mem_cons_self)
      dsimp only at hop hsh
      subst hop
      obtain ⟨hobs, hroot⟩ := h.whole os hl hr
      cases p with
      | ret => exact ⟨_, rfl⟩
      | obs i k => obtain ⟨-, o, ho, -⟩ := hsh.obs (h.len os hl).1; exact ⟨_, by simp only [act, hobs i o ho, Option.map_some]; rfl⟩
      | root i k => exact ⟨_, by simp only [act, hroot i hsh.root'.2.1, Option.map_some]; rfl⟩
      | tell o src w k => exact ⟨_, by simp only [act, (h.len os hl).2 o hsh.tell'.2.1, if_true]; rfl⟩
      | left o k => exact ⟨_, rfl⟩
      | setObs i o k => exact absurd hsh Shape.sets.1
      | setRoot i o k => exact absurd hsh Shape.sets.2

/-- Steps of the calls of one thread, nothing else. -/
inductive Goes (t : Nat) : State V → State V → Prop
  | done (m : State V) : Goes t m m
  | act (m m' m'' : State V) : step m (.act t) = some m' → Goes t m' m'' → Goes t m m''
  | back (m m' m'' : State V) : step m (.back t) = some m' → Goes t m' m'' → Goes t m m''

/-- A call comes to its end if the functions that it calls return. -/
theorem C151_ends {m : State V} (r : Run self n Careful m) {t : Nat} {f : Frame V} {fs : List (Frame V)} (hst : m.stack t = f :: fs) :
    ∃ m', Goes t m m' ∧ m'.stack t = fs := by
  obtain ⟨id', op, p, b⟩ := f
  have main : ∀ (p : Prog V) (m : State V), Run self n Careful m → m.stack t = ⟨id', op, p, false⟩ :: fs → ∃ m', Goes t m m' ∧ m'.stack t = fs := by
    intro p
    induction p with
    | ret =>
      intro m r hst
      cases op with
      | make os =>
        refine ⟨_, .act m _ _ (by simp only [step, hst, act, Bool.false_eq_true, if_false]; rfl) (.done _), ?_⟩
        simp
      | notify v =>
        refine ⟨_, .act m _ _ (by simp only [step, hst, act, Bool.false_eq_true, if_false]; rfl) (.done _), ?_⟩
        simp
    | obs i k ih =>
      intro m r hst
      rcases C151_goes_on r hst with ⟨hb, -⟩ | ⟨-, m', hs⟩
      · cases hb
      · have hs' := hs
        simp only [step, hst, act, Bool.false_eq_true, if_false, Option.map_eq_some_iff] at hs'
        obtain ⟨o, -, rfl⟩ := hs'
        obtain ⟨m'', h1, h2⟩ := ih o _ (.step _ _ (.act t) r trivial hs) (put_same _ _ _)
        exact ⟨m'', .act _ _ _ hs h1, h2⟩
    | root i k ih =>
      intro m r hst
      rcases C151_goes_on r hst with ⟨hb, -⟩ | ⟨-, m', hs⟩
      · cases hb
      · have hs' := hs
        simp only [step, hst, act, Bool.false_eq_true, if_false, Option.map_eq_some_iff] at hs'
        obtain ⟨o, -, rfl⟩ := hs'
        obtain ⟨m'', h1, h2⟩ := ih o _ (.step _ _ (.act t) r trivial hs) (put_same _ _ _)
        exact ⟨m'', .act _ _ _ hs h1, h2⟩
    | setObs i o k ih =>
      intro m r hst
      rcases C151_goes_on r hst with ⟨hb, -⟩ | ⟨-, m', hs⟩
      · cases hb
      · have hs' := hs
        simp only [step, hst, act, Bool.false_eq_true, if_false, Option.some.injEq] at hs'
        subst hs'
        obtain ⟨m'', h1, h2⟩ := ih _ (.step _ _ (.act t) r trivial hs) (put_same _ _ _)
        exact ⟨m'', .act _ _ _ hs h1, h2⟩
    | setRoot i o k ih =>
      intro m r hst
      rcases C151_goes_on r hst with ⟨hb, -⟩ | ⟨-, m', hs⟩
      · cases hb
      · have hs' := hs
        simp only [step, hst, act, Bool.false_eq_true, if_false, Option.some.injEq] at hs'
        subst hs'
        obtain ⟨m'', h1, h2⟩ := ih _ (.step _ _ (.act t) r trivial hs) (put_same _ _ _)
        exact ⟨m'', .act _ _ _ hs h1, h2⟩
    | left o k ih =>
      intro m r hst
      rcases C151_goes_on r hst with ⟨hb, -⟩ | ⟨-, m', hs⟩
      · cases hb
      · have hs' := hs
        simp only [step, hst, act, Bool.false_eq_true, if_false, Option.some.injEq] at hs'
        subst hs'
        obtain ⟨m'', h1, h2⟩ := ih _ (.step _ _ (.act t) r trivial hs) (put_same _ _ _)
        exact ⟨m'', .act _ _ _ hs h1, h2⟩
    | tell o src v k ih =>
      intro m r hst
      rcases C151_goes_on r hst with ⟨hb, -⟩ | ⟨-, m', hs⟩
      · cases hb
      · have hs' := hs
        simp only [step, hst, act, Bool.false_eq_true, if_false] at hs'
        split at hs'
        case isFalse => cases hs'
        simp only [Option.some.injEq] at hs'
        have r1 : Run self n Careful m' := .step _ _ (.act t) r trivial hs
        have hst1 : m'.stack t = ⟨id', op, k, true⟩ :: fs := by rw [← hs']; exact put_same _ _ _
        have hb1 : step m' (.back t) = some { m' with stack := HB.put m'.stack t (⟨id', op, k, false⟩ :: fs) } := by
          simp [step, hst1]
        obtain ⟨m'', h1, h2⟩ := ih _ (.step _ _ (.back t) r1 trivial hb1) (put_same _ _ _)
        exact ⟨m'', .act _ _ _ hs (.back _ _ _ hb1 h1), h2⟩
  cases b with
  | false => exact main p m r hst
  | true =>
    have hb1 : step m (.back t) = some { m with stack := HB.put m.stack t (⟨id', op, p, false⟩ :: fs) } := by
      simp [step, hst]
    obtain ⟨m'', h1, h2⟩ := main p _ (.step _ _ (.back t) r trivial hb1) (put_same _ _ _)
    exact ⟨m'', .back _ _ _ hb1 h1, h2⟩

theorem visits_append (id src : Nat) (v : V) (a b : List Nat) : visits id src v (a ++ b) = visits id src v a ++ visits id src v b := by
  simp [visits]

theorem visits_take (id src : Nat) (v : V) (os : List Nat) (i : Nat) : visits id src v (os.take i) <+: visits id src v os := by
  refine ⟨visits id src v (os.drop i), ?_⟩
  rw [← visits_append, List.take_append_drop]

theorem Shape.sofar {id : Nat} {v : V} {os : List Nat} {p : Prog V} {b : Bool} {evs : List (Ev V)} (h : Shape self n id v os p b evs) :
    evs <+: visits id self v os := by
  cases h with
  | layer => exact visits_take ..
  | root => exact visits_take ..
  | tell => exact visits_take ..
  | ret => exact List.prefix_rfl
  | left i o b h ho =>
    obtain ⟨hi, rfl⟩ := List.getElem?_eq_some_iff.1 ho
    refine ⟨.left id os[i] :: visits id self v (os.drop (i + 1)), ?_⟩
    have : visits id self v os = visits id self v (os.take i) ++ visits id self v (os[i] :: os.drop (i + 1)) := by
      rw [← List.drop_eq_getElem_cons hi, ← visits_append, List.take_append_drop]
    rw [this, List.append_assoc]
    rfl

theorem ret_not_visits (id src : Nat) (v : V) (os : List Nat) : Ev.ret id ∉ visits id src v os := by simp [visits]

/-- Each notification calls the observers with which the observable that existed when it began was constructed, each once, in that order,
with its value and the one source; nothing else; and when it returns it has called them all. -/
theorem C151_tells {m : State V} (r : Run self n Careful m) {pre post : List (Nat × Ev V)} {t id : Nat} {v : V}
    (hl : m.log = pre ++ (t, .began id v) :: post) : ∃ os, listed pre = some os ∧ os.length = n + 1 ∧
      (doings t id post <+: visits id self v os ++ [.ret id]) ∧
      (Ev.ret id ∈ doings t id post → doings t id post = visits id self v os ++ [.ret id]) ∧
      ((∀ f ∈ m.stack t, f.id ≠ id) → Ev.ret id ∈ doings t id post) := by
  have len : ∀ (m : State V), Run self n Careful m → ∀ pre post os, m.log = pre ++ post → listed pre = some os → os.length = n + 1 := by
    intro m r
    induction r with
    | start =>
      intro pre post os h1 h2
      simp [State.new] at h1
      rw [h1.1] at h2
      cases h2
    | step m m' l r hc hs ih =>
      intro pre post os h1 h2
      have hi := r.inv.step hc hs
      by_cases hp : post = []
      · subst hp
        rw [List.append_nil] at h1
        rw [← h1, hi.log] at h2
        split at h2
        · rw [(hi.len os h2).1, (step_fixed hs).2, r.fixed.2]
        · cases h2
      · have hx : m'.log = m.log ∨ ∃ e, m'.log = m.log ++ [e] := by
          cases l <;> simp only [step] at hs
          case act t =>
            split at hs
            · split at hs
              · cases hs
              · unfold act at hs
                dsimp only at hs
                split at hs
                · split at hs <;> (cases hs; exact .inr ⟨_, rfl⟩)
                · simp only [Option.map_eq_some_iff] at hs; obtain ⟨_, -, rfl⟩ := hs; exact .inl rfl
                · simp only [Option.map_eq_some_iff] at hs; obtain ⟨_, -, rfl⟩ := hs; exact .inl rfl
                · cases hs; exact .inl rfl
                · cases hs; exact .inl rfl
                · split at hs
                  · cases hs; exact .inr ⟨_, rfl⟩
                  · cases hs
                · cases hs; exact .inr ⟨_, rfl⟩
            · cases hs
          case back t =>
            split at hs
            · split at hs
              · cases hs; exact .inl rfl
              · cases hs
            · cases hs
          all_goals
            split at hs
            · cases hs; first | exact .inl rfl | exact .inr ⟨_, rfl⟩
            · cases hs
        rcases hx with hx | ⟨e, hx⟩
        · exact ih pre post os (by rw [← hx, h1]) h2
        · rcases List.eq_nil_or_concat post with h3 | ⟨post', z, h3⟩
          · exact absurd h3 hp
          · rw [List.concat_eq_append] at h3
            subst h3
            rw [hx, ← List.append_assoc] at h1
            exact ih pre post' os (List.append_inj' h1 rfl).1 h2
  obtain ⟨os, ho, hc⟩ := r.inv.hist pre post t id v hl
  rw [r.fixed.1] at hc
  refine ⟨os, ho, len m r pre _ os hl ho, ?_⟩
  rcases hc with ⟨-, -, f, hf, hid, -, hsh⟩ | ⟨-, -, hd⟩
  · rw [r.fixed.1, hid] at hsh
    have hp := hsh.sofar
    exact ⟨hp.trans (List.prefix_append _ _), fun h => absurd (hp.subset h) (ret_not_visits id self v os), fun h => absurd hid (h f hf)⟩
  · rw [hd]
    exact ⟨List.prefix_rfl, fun _ => rfl, fun _ => by simp⟩

end Verif.Observer.Static
