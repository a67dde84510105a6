import Verif.Mediator.Model
/-! What a message does, and the proof that running code does exactly that for every message. -/
namespace Verif.Mediator
open Verif Verif.Data
variable {W : World} {U : Type}

/-! ### Specification -/

/-- The modules of `l` that are to get messages of type `t`: those that receive `t` and do not send
`t` themselves. -/
def interested (W : World) (l : List Nat) (t : Nat) : List Nat :=
  l.filter fun m => decide (t ∈ W.recvs m ∧ W.sends m ≠ t)

/-- The deliveries of message `k`: to the interested modules, in order, if the size is right. -/
def deliveries (W : World) (l : List Nat) (k t : Nat) (bytes : List Byte) : List (Ev W) :=
  if bytes.length = (W.pod t).size then
    (interested W l t).map fun m => Ev.recv k m t ((W.pod t).dec bytes)
  else []

/-- All that may be logged under one message number. -/
def IsMessage (W : World) (l : List Nat) (k : Nat) (evs : List (Ev W)) : Prop :=
  (∃ m bytes, evs = Ev.start k (some m) (W.sends m) bytes :: Ev.hook k (W.hash (W.sends m)) bytes ::
      deliveries W l k (W.sends m) bytes) ∨
  (∃ t v, evs = Ev.start k none t ((W.pod t).enc v) :: deliveries W l k t ((W.pod t).enc v))

/-- The events logged under number `k`. -/
def about (k : Nat) (log : List (Ev W)) : List (Ev W) := log.filter fun e => e.num == k

/-- The modules registered, in the order of the array. -/
def St.registered (s : St W U) : List (Option Nat) := s.arr.take s.cnt

/-- The result is no undefined behaviour, and if there is a state it satisfies `P`. -/
def Holds (r : Res (St W U)) (P : St W U → Prop) : Prop :=
  match r with
  | .ok s => P s
  | .ub => False
  | .hang => True

theorem Holds.bind {r : Res (St W U)} {P Q : St W U → Prop} {f : St W U → Res (St W U)}
    (h : Holds r P) (hf : ∀ s, P s → Holds (f s) Q) : Holds (r >>= f) Q := by
  cases r with
  | ok s => simpa using hf s h
  | ub => exact h.elim
  | hang => simp [Holds]

theorem Holds.mono {r : Res (St W U)} {P Q : St W U → Prop} (h : Holds r P) (hPQ : ∀ s, P s → Q s) :
    Holds r Q := by
  cases r with
  | ok s => exact hPQ s h
  | ub => exact h
  | hang => trivial

/-- Code that ran from `s` to `s'` left the registration alone, and logged messages as they should
be, all with new numbers; `pend k = evs` are events of a message `k` that was already under way. -/
structure Ext (l : List Nat) (pend : List (Ev W)) (k : Nat) (s s' : St W U) : Prop where
  arr : s'.arr = s.arr
  cnt : s'.cnt = s.cnt
  count : s.count ≤ s'.count
  log : ∃ new, s'.log = s.log ++ new ∧
    (∀ e ∈ new, e.num = k ∨ (s.count ≤ e.num ∧ e.num < s'.count)) ∧
    about k new = pend ∧
    ∀ j, s.count ≤ j → j < s'.count → IsMessage W l j (about j new)

theorem about_append (k : Nat) (a b : List (Ev W)) : about k (a ++ b) = about k a ++ about k b := by
  simp [about]

theorem about_nil_of {k : Nat} {a : List (Ev W)} (h : ∀ e ∈ a, e.num ≠ k) : about k a = [] := by
  simpa [about] using h

theorem Ext.refl (l : List Nat) (k : Nat) (s : St W U) : Ext l [] k s s :=
  ⟨rfl, rfl, Nat.le_refl _, [], by simp, by simp, rfl, fun j h1 h2 => by omega⟩

theorem Ext.trans {l : List Nat} {p q : List (Ev W)} {k : Nat} {s t u : St W U}
    (hk : k < s.count) (h1 : Ext l p k s t) (h2 : Ext l q k t u) : Ext l (p ++ q) k s u := by
  obtain ⟨n1, e1, b1, p1, m1⟩ := h1.log
  obtain ⟨n2, e2, b2, p2, m2⟩ := h2.log
  have hc1 := h1.count
  have hc2 := h2.count
  refine ⟨h2.arr.trans h1.arr, h2.cnt.trans h1.cnt, by omega, n1 ++ n2, by simp [e2, e1], ?_, ?_, ?_⟩
  · intro e he
    rcases List.mem_append.1 he with he | he
    · rcases b1 e he with h | h
      · exact .inl h
      · exact .inr (by omega)
    · rcases b2 e he with h | h
      · exact .inl h
      · exact .inr (by omega)
  · rw [about_append, p1, p2]
  · intro j hj1 hj2
    rw [about_append]
    by_cases hj : j < t.count
    · rw [about_nil_of (a := n2), List.append_nil]
      · exact m1 j hj1 hj
      · intro e he h
        rcases b2 e he with h' | h' <;> omega
    · rw [about_nil_of (a := n1), List.nil_append]
      · exact m2 j (by omega) hj2
      · intro e he h
        rcases b1 e he with h' | h' <;> omega

/-- The same for code that logs no events of messages already under way. -/
structure Runs (l : List Nat) (s s' : St W U) : Prop where
  arr : s'.arr = s.arr
  cnt : s'.cnt = s.cnt
  count : s.count ≤ s'.count
  log : ∃ new, s'.log = s.log ++ new ∧
    (∀ e ∈ new, s.count ≤ e.num ∧ e.num < s'.count) ∧
    ∀ j, s.count ≤ j → j < s'.count → IsMessage W l j (about j new)

theorem Runs.ext {l : List Nat} {s s' : St W U} (h : Runs l s s') (k : Nat) (hk : k < s.count) :
    Ext l [] k s s' := by
  obtain ⟨n, e, b, m⟩ := h.log
  refine ⟨h.arr, h.cnt, h.count, n, e, fun e he => .inr (b e he), about_nil_of fun e he h' => ?_, m⟩
  have := b e he
  omega

theorem Runs.trans {l : List Nat} {s t u : St W U} (h1 : Runs l s t) (h2 : Runs l t u) :
    Runs l s u := by
  obtain ⟨n1, e1, b1, m1⟩ := h1.log
  obtain ⟨n2, e2, b2, m2⟩ := h2.log
  have hc1 := h1.count
  have hc2 := h2.count
  refine ⟨h2.arr.trans h1.arr, h2.cnt.trans h1.cnt, by omega, n1 ++ n2, by simp [e2, e1], ?_, ?_⟩
  · intro e he
    rcases List.mem_append.1 he with he | he
    · have := b1 e he
      omega
    · have := b2 e he
      omega
  · intro j hj1 hj2
    rw [about_append]
    by_cases hj : j < t.count
    · rw [about_nil_of (a := n2), List.append_nil]
      · exact m1 j hj1 hj
      · intro e he h
        have := b2 e he
        omega
    · rw [about_nil_of (a := n1), List.nil_append]
      · exact m2 j (by omega) hj2
      · intro e he h
        have := b1 e he
        omega

/-! ### Delivery -/

/-- The manager knows exactly the modules `l`. -/
structure Knows (s : St W U) (l : List Nat) : Prop where
  cnt : s.cnt = l.length
  at_ : ∀ i, i < l.length → s.arr[i]? = some (l[i]?)

theorem matchType_eq (hinj : ∀ a b, W.hash a = W.hash b → a = b) (t : Nat) :
    ∀ ts, matchType W (W.hash t) ts = if t ∈ ts then some t else none
  | [] => by simp [matchType]
  | u :: ts => by
    rw [matchType]
    by_cases h : t = u
    · simp [h]
    · rw [if_neg (fun h' => h (hinj _ _ h')), matchType_eq hinj t ts]
      simp [h]

/-- What is required of the code that runs callbacks. -/
def CallOk (l : List Nat) (call : U → (m t : Nat) → W.Val t → St W U → Res (St W U)) : Prop :=
  ∀ u m t v s, Knows s l → Holds (call u m t v s) (Runs l s)

/-- Logging one event of the message under way. -/
theorem Ext.emit (l : List Nat) (s : St W U) (e : Ev W) : Ext l [e] e.num s (s.emit e) :=
  ⟨rfl, rfl, Nat.le_refl _, [e], rfl, by simp, by simp [about], fun j h1 h2 => by
    simp only [St.emit] at h2
    omega⟩

theorem Knows.ext {l : List Nat} {p : List (Ev W)} {k : Nat} {s s' : St W U} (h : Knows s l)
    (he : Ext l p k s s') : Knows s' l :=
  ⟨by rw [he.cnt]; exact h.cnt, fun i hi => by rw [he.arr]; exact h.at_ i hi⟩

theorem receive_holds (hinj : ∀ a b, W.hash a = W.hash b → a = b) {l : List Nat}
    {call : U → (m t : Nat) → W.Val t → St W U → Res (St W U)} (hcall : CallOk l call)
    (k m t : Nat) (bytes : List Byte) (s : St W U) (hs : Knows s l) (hk : k < s.count) :
    Holds (receive call k m (W.hash t) bytes s)
      (Ext l (if t ∈ W.recvs m ∧ bytes.length = (W.pod t).size then
        [Ev.recv k m t ((W.pod t).dec bytes)] else []) k s) := by
  rw [receive, matchType_eq hinj]
  by_cases h1 : t ∈ W.recvs m
  · rw [if_pos h1]
    simp only [convertField]
    by_cases h2 : bytes.length = (W.pod t).size
    · rw [if_neg (by omega), if_pos ⟨h1, h2⟩]
      have he := Ext.emit l s (.recv k m t ((W.pod t).dec bytes))
      refine (hcall _ _ _ _ _ (hs.ext he)).mono fun s' hs' => ?_
      exact Ext.trans hk he (hs'.ext k hk)
    · rw [if_pos (by omega), if_neg (fun h => h2 h.2)]
      exact Ext.refl l k s
  · rw [if_neg h1, if_neg (fun h => h1 h.1)]
    exact Ext.refl l k s

theorem deliveries_cons (l : List Nat) (m k t : Nat) (bytes : List Byte) :
    deliveries W (m :: l) k t bytes =
      (if W.sends m ≠ t ∧ t ∈ W.recvs m ∧ bytes.length = (W.pod t).size then
        [Ev.recv k m t ((W.pod t).dec bytes)] else []) ++ deliveries W l k t bytes := by
  unfold deliveries interested
  by_cases h1 : bytes.length = (W.pod t).size <;> by_cases h2 : t ∈ W.recvs m <;>
    by_cases h3 : W.sends m = t <;> simp [h1, h2, h3]

theorem deliver_holds (hinj : ∀ a b, W.hash a = W.hash b → a = b) {l : List Nat}
    {call : U → (m t : Nat) → W.Val t → St W U → Res (St W U)} (hcall : CallOk l call)
    (k t : Nat) (bytes : List Byte) :
    ∀ (n i : Nat) (s : St W U), Knows s l → k < s.count → i + n = l.length →
      Holds (deliver call k (W.hash t) bytes n i s)
        (Ext l (deliveries W (l.drop i) k t bytes) k s)
  | 0, i, s, hs, hk, hi => by
    have : l.drop i = [] := by simp; omega
    rw [this, deliver]
    have hn : deliveries W [] k t bytes = [] := by simp [deliveries, interested]
    rw [hn]
    exact Ext.refl l k s
  | n + 1, i, s, hs, hk, hi => by
    have hil : i < l.length := by omega
    rw [deliver, hs.at_ i hil]
    have hd : l.drop i = l[i] :: l.drop (i + 1) := List.drop_eq_getElem_cons hil
    have hg : l[i]? = some l[i] := List.getElem?_eq_getElem hil
    rw [hd, deliveries_cons, hg]
    simp only
    by_cases h : W.sends l[i] = t
    · rw [if_neg (by simp [h]), if_neg (by simp [h])]
      exact deliver_holds hinj hcall k t bytes n (i + 1) s hs hk (by omega)
    · rw [if_pos (fun h' => h (hinj _ _ h'))]
      have heq : (if W.sends l[i] ≠ t ∧ t ∈ W.recvs l[i] ∧ bytes.length = (W.pod t).size then
          [Ev.recv k l[i] t ((W.pod t).dec bytes)] else []) =
          (if t ∈ W.recvs l[i] ∧ bytes.length = (W.pod t).size then
          [Ev.recv k l[i] t ((W.pod t).dec bytes)] else []) := by simp [h]
      rw [heq]
      refine (receive_holds hinj hcall k l[i] t bytes s hs hk).bind fun s1 hs1 => ?_
      have hc := hs1.count
      refine (deliver_holds hinj hcall k t bytes n (i + 1) s1 (hs.ext hs1) (by omega)
        (by omega)).mono fun s2 hs2 => ?_
      exact Ext.trans hk hs1 hs2

/-- The start of a message: a number is taken and events are logged under it. -/
theorem runs_of_message {l : List Nat} {s s1 s' : St W U} {p q : List (Ev W)}
    (h1 : s1 = { s with count := s.count + 1, log := s.log ++ p })
    (hp : ∀ e ∈ p, e.num = s.count) (h2 : Ext l q s.count s1 s')
    (hm : IsMessage W l s.count (p ++ q)) :
    Runs l s s' ∧ s.count < s'.count ∧ ∃ new, s'.log = s.log ++ new ∧ about s.count new = p ++ q := by
  subst h1
  obtain ⟨n, e, b, pe, m⟩ := h2.log
  have hc := h2.count
  simp only at hc b m e
  have hap : about s.count p = p := by
    simpa [about] using hp
  have hab : about s.count (p ++ n) = p ++ q := by rw [about_append, hap, pe]
  refine ⟨⟨h2.arr, h2.cnt, by omega, p ++ n, by simp [e], ?_, ?_⟩, by omega,
    p ++ n, by simp [e], hab⟩
  · intro e he
    rcases List.mem_append.1 he with he | he
    · have := hp e he
      omega
    · rcases b e he with h | h
      · omega
      · omega
  · intro j hj1 hj2
    by_cases hj : j = s.count
    · rw [hj, hab]
      exact hm
    · have : about j p = [] := about_nil_of fun e he h => by
        have := hp e he
        omega
      rw [about_append, this, List.nil_append]
      exact m j (by omega) hj2

theorem Runs.user (l : List Nat) (s : St W U) (u : U) : Runs l s { s with user := u } :=
  ⟨rfl, rfl, Nat.le_refl _, [], by simp, by simp, fun j h1 h2 => by
    simp only at h2
    omega⟩

theorem Knows.runs {l : List Nat} {s s' : St W U} (h : Knows s l) (he : Runs l s s') : Knows s' l :=
  ⟨by rw [he.cnt]; exact h.cnt, fun i hi => by rw [he.arr]; exact h.at_ i hi⟩

/-- The first message of a run is this one. -/
def Begins (l : List Nat) (s : St W U) (evs : List (Ev W)) (s' : St W U) : Prop :=
  Runs l s s' ∧ s.count < s'.count ∧ ∃ new, s'.log = s.log ++ new ∧ about s.count new = evs

theorem Begins.runs {l : List Nat} {s t u : St W U} {evs : List (Ev W)} (h : Begins l s evs t)
    (h' : Runs l t u) : Begins l s evs u := by
  obtain ⟨h1, h2, n, h3, h4⟩ := h
  obtain ⟨n2, e2, b2, m2⟩ := h'.log
  have hc := h'.count
  refine ⟨h1.trans h', by omega, n ++ n2, by simp [e2, h3], ?_⟩
  rw [about_append, h4, about_nil_of (a := n2), List.append_nil]
  intro e he h
  have := b2 e he
  omega

theorem distribute_holds (hinj : ∀ a b, W.hash a = W.hash b → a = b) {l : List Nat}
    {call : U → (m t : Nat) → W.Val t → St W U → Res (St W U)} (hcall : CallOk l call)
    (m : Nat) (bytes : List Byte) (s : St W U) (hs : Knows s l) :
    Holds (distribute call m bytes s)
      (Begins l s (Ev.start s.count (some m) (W.sends m) bytes ::
        Ev.hook s.count (W.hash (W.sends m)) bytes ::
        deliveries W l s.count (W.sends m) bytes)) := by
  have hd := deliver_holds hinj hcall s.count (W.sends m) bytes l.length 0
    { s with
      count := s.count + 1
      log := s.log ++ [.start s.count (some m) (W.sends m) bytes,
        .hook s.count (W.hash (W.sends m)) bytes] }
    ⟨hs.cnt, hs.at_⟩ (by simp) (by omega)
  rw [← hs.cnt] at hd
  rw [distribute]
  simp only [St.emit, List.append_assoc, List.cons_append, List.nil_append] at hd ⊢
  refine hd.mono fun s' hs' => ?_
  rw [List.drop_zero] at hs'
  exact runs_of_message (p := [.start s.count (some m) (W.sends m) bytes,
        .hook s.count (W.hash (W.sends m)) bytes])
    (q := deliveries W l s.count (W.sends m) bytes) rfl (by simp [Ev.num]) hs' (.inl ⟨m, bytes, rfl⟩)

theorem castAll_holds (hinj : ∀ a b, W.hash a = W.hash b → a = b) {l : List Nat}
    {call : U → (m t : Nat) → W.Val t → St W U → Res (St W U)} (hcall : CallOk l call)
    (t : Nat) (v : W.Val t) (s : St W U) (hs : Knows s l) :
    Holds (castAll call t v s)
      (Begins l s (Ev.start s.count none t ((W.pod t).enc v) ::
        deliveries W l s.count t ((W.pod t).enc v))) := by
  have hd := deliver_holds hinj hcall s.count t ((W.pod t).enc v) l.length 0
    { s with
      count := s.count + 1
      log := s.log ++ [.start s.count none t ((W.pod t).enc v)] }
    ⟨hs.cnt, hs.at_⟩ (by simp) (by omega)
  rw [← hs.cnt] at hd
  rw [castAll]
  simp only [St.emit, List.append_assoc, List.cons_append, List.nil_append] at hd ⊢
  refine hd.mono fun s' hs' => ?_
  rw [List.drop_zero] at hs'
  exact runs_of_message (p := [.start s.count none t ((W.pod t).enc v)])
    (q := deliveries W l s.count t ((W.pod t).enc v)) rfl (by simp [Ev.num]) hs' (.inr ⟨t, v, rfl⟩)

/-- What the first operation of a program logs under its number. -/
def firstMessage (l : List Nat) (k : Nat) : Prog W U → List (Ev W)
  | .ret _ => []
  | .set _ p => firstMessage l k p
  | .send m v _ => Ev.start k (some m) (W.sends m) ((W.pod (W.sends m)).enc v) ::
      Ev.hook k (W.hash (W.sends m)) ((W.pod (W.sends m)).enc v) ::
      deliveries W l k (W.sends m) ((W.pod (W.sends m)).enc v)
  | .raw m bytes _ => Ev.start k (some m) (W.sends m) bytes ::
      Ev.hook k (W.hash (W.sends m)) bytes :: deliveries W l k (W.sends m) bytes
  | .cast t v _ => Ev.start k none t ((W.pod t).enc v) :: deliveries W l k t ((W.pod t).enc v)

/-- The program sends nothing. -/
def Prog.Mute : Prog W U → Prop
  | .ret _ => True
  | .set _ p => p.Mute
  | _ => False

theorem exec_holds (hinj : ∀ a b, W.hash a = W.hash b → a = b) (H : Handlers W U) (l : List Nat) :
    ∀ (f : Nat) (p : Prog W U) (s : St W U), Knows s l →
      Holds (exec H f p s) fun s' => Runs l s s' ∧
        (p.Mute ∨ Begins l s (firstMessage l s.count p) s')
  | 0, _, _, _ => by simp [exec, Holds]
  | f + 1, .ret u, s, hs => by
    rw [exec]
    exact ⟨Runs.user l s u, .inl trivial⟩
  | f + 1, .set u p, s, hs => by
    rw [exec]
    refine (exec_holds hinj H l f p { s with user := u } ⟨hs.cnt, hs.at_⟩).mono fun s' hs' => ?_
    have hr := (Runs.user l s u).trans hs'.1
    rcases hs'.2 with h | ⟨-, h1, h2⟩
    · exact ⟨hr, .inl h⟩
    · exact ⟨hr, .inr ⟨hr, h1, h2⟩⟩
  | f + 1, .send m v k, s, hs => by
    rw [exec]
    have hcall : CallOk l (fun u m t v => exec H f (H u m t v)) := fun u m t v s hs =>
      (exec_holds hinj H l f _ s hs).mono fun _ h => h.1
    refine (distribute_holds hinj hcall m _ s hs).bind fun s1 hs1 => ?_
    refine (exec_holds hinj H l f _ s1 (hs.runs hs1.1)).mono fun s2 hs2 => ?_
    exact ⟨hs1.1.trans hs2.1, .inr (hs1.runs hs2.1)⟩
  | f + 1, .raw m bytes k, s, hs => by
    rw [exec]
    have hcall : CallOk l (fun u m t v => exec H f (H u m t v)) := fun u m t v s hs =>
      (exec_holds hinj H l f _ s hs).mono fun _ h => h.1
    refine (distribute_holds hinj hcall m _ s hs).bind fun s1 hs1 => ?_
    refine (exec_holds hinj H l f _ s1 (hs.runs hs1.1)).mono fun s2 hs2 => ?_
    exact ⟨hs1.1.trans hs2.1, .inr (hs1.runs hs2.1)⟩
  | f + 1, .cast t v k, s, hs => by
    rw [exec]
    have hcall : CallOk l (fun u m t v => exec H f (H u m t v)) := fun u m t v s hs =>
      (exec_holds hinj H l f _ s hs).mono fun _ h => h.1
    refine (castAll_holds hinj hcall t v s hs).bind fun s1 hs1 => ?_
    refine (exec_holds hinj H l f _ s1 (hs.runs hs1.1)).mono fun s2 hs2 => ?_
    exact ⟨hs1.1.trans hs2.1, .inr (hs1.runs hs2.1)⟩

/-! ### Registration -/

/-- Moving `n` elements down by one from place `i`. -/
theorem shift_ok : ∀ (n i : Nat) (arr : List (Option Nat)), i + n < arr.length →
    ∃ arr', shift n i arr = .ok arr' ∧ arr'.length = arr.length ∧
      ∀ j, arr'[j]? = if i ≤ j ∧ j < i + n then arr[j + 1]? else arr[j]?
  | 0, i, arr, _ => ⟨arr, rfl, rfl, fun j => by rw [if_neg (by omega)]⟩
  | n + 1, i, arr, h => by
    have hi : i + 1 < arr.length := by omega
    obtain ⟨arr', e, hl, hg⟩ := shift_ok n (i + 1) (arr.set i arr[i + 1]) (by simp; omega)
    refine ⟨arr', ?_, by simpa using hl, fun j => ?_⟩
    · rw [shift, List.getElem?_eq_getElem hi]
      simp only
      rw [if_pos (by omega)]
      exact e
    · rw [hg]
      by_cases h1 : i = j
      · subst h1
        rw [if_neg (by omega), if_pos (by omega), List.getElem?_set]
        simp [List.getElem?_eq_getElem hi]
        omega
      · by_cases h2 : i + 1 ≤ j ∧ j < i + 1 + n
        · rw [if_pos h2, if_pos (by omega), List.getElem?_set, if_neg (by omega)]
        · rw [if_neg h2, if_neg (by omega), List.getElem?_set, if_neg h1]

/-- The removed list, position by position. -/
theorem filter_ne_eq (l : List Nat) (h : l.Nodup) (i : Nat) (hi : i < l.length) :
    l.filter (· != l[i]) = l.eraseIdx i := by
  induction l generalizing i with
  | nil => simp at hi
  | cons a l ih =>
    rw [List.nodup_cons] at h
    cases i with
    | zero =>
      simp only [List.getElem_cons_zero, List.eraseIdx_cons_zero]
      rw [List.filter_cons_of_neg (by simp)]
      refine List.filter_eq_self.2 fun b hb => ?_
      have : b ≠ a := fun h' => h.1 (h' ▸ hb)
      simpa using this
    | succ i =>
      simp only [List.getElem_cons_succ, List.eraseIdx_cons_succ]
      have hi' : i < l.length := by simpa using hi
      have hm : l[i] ∈ l := List.getElem_mem hi'
      have hne : a ≠ l[i] := fun h' => h.1 (by rw [h']; exact hm)
      rw [List.filter_cons_of_pos (by simpa using hne), ih h.2 i hi']

theorem findRemove_at (l : List Nat) (h : l.Nodup) (s : St W U) (hs : Knows s l) (i : Nat)
    (hi : i < l.length) : ∀ (n j : Nat), j + n = l.length → j ≤ i →
    findRemove l[i] n j s = (do
      let arr ← shift (s.cnt - 1 - i) i s.arr
      if s.cnt < arr.length then
        .ok { s with arr := arr.set s.cnt none, cnt := s.cnt - 1 }
      else .ub)
  | 0, j, hj, hji => by omega
  | n + 1, j, hj, hji => by
    have hjl : j < l.length := by omega
    rw [findRemove, hs.at_ j hjl, List.getElem?_eq_getElem hjl]
    simp only [Option.some.injEq]
    by_cases hji' : j = i
    · subst hji'
      rw [if_pos rfl]
    · rw [if_neg]
      · exact findRemove_at l h s hs i hi n (j + 1) (by omega) (by omega)
      · intro he
        exact List.pairwise_iff_getElem.1 h j i hjl hi (by omega) he

theorem findRemove_absent (l : List Nat) (s : St W U) (hs : Knows s l) (m : Nat) (hm : m ∉ l) :
    ∀ (n j : Nat), j + n = l.length → findRemove m n j s = .ok s
  | 0, _, _ => rfl
  | n + 1, j, hj => by
    have hjl : j < l.length := by omega
    rw [findRemove, hs.at_ j hjl, List.getElem?_eq_getElem hjl]
    simp only [Option.some.injEq]
    have hne : l[j] ≠ m := fun he => hm (he ▸ List.getElem_mem hjl)
    rw [if_neg hne]
    exact findRemove_absent l s hs m hm n (j + 1) (by omega)

theorem remove_ok (l : List Nat) (h : l.Nodup) (s : St W U) (hs : Knows s l)
    (hfull : l.length < s.arr.length) (m : Nat) (hm : m ∈ l) :
    ∃ s', removeModule s m = .ok s' ∧ Knows s' (l.filter (· != m)) ∧
      s'.arr.length = s.arr.length ∧ s'.log = s.log ∧ s'.user = s.user ∧ s'.count = s.count := by
  obtain ⟨i, hi, rfl⟩ := List.mem_iff_getElem.1 hm
  have hc := hs.cnt
  obtain ⟨arr', e, hl, hg⟩ := shift_ok (s.cnt - 1 - i) i s.arr (by omega)
  refine ⟨{ s with arr := arr'.set s.cnt none, cnt := s.cnt - 1 }, ?_, ?_, ?_, rfl, rfl, rfl⟩
  · rw [removeModule, findRemove_at l h s hs i hi s.cnt 0 (by omega) (by omega), e]
    simp only [Res.ok_bind]
    rw [if_pos (by omega)]
  · rw [filter_ne_eq l h i hi]
    have hlen := List.length_eraseIdx_of_lt hi
    refine ⟨by simp only [hlen]; omega, fun j hj => ?_⟩
    rw [hlen] at hj
    rw [List.getElem?_set, if_neg (by omega), hg, List.getElem?_eraseIdx]
    by_cases hij : j < i
    · rw [if_neg (by omega), if_pos hij]
      exact hs.at_ j (by omega)
    · rw [if_pos (by omega), if_neg hij]
      exact hs.at_ (j + 1) (by omega)
  · simpa using hl

theorem remove_full (l : List Nat) (h : l.Nodup) (s : St W U) (hs : Knows s l)
    (hfull : l.length = s.arr.length) (m : Nat) (hm : m ∈ l) : removeModule s m = .ub := by
  obtain ⟨i, hi, rfl⟩ := List.mem_iff_getElem.1 hm
  have hc := hs.cnt
  obtain ⟨arr', e, hl, hg⟩ := shift_ok (s.cnt - 1 - i) i s.arr (by omega)
  rw [removeModule, findRemove_at l h s hs i hi s.cnt 0 (by omega) (by omega), e]
  simp only [Res.ok_bind]
  rw [if_neg (by omega)]

theorem add_ok (l : List Nat) (s : St W U) (hs : Knows s l) (hfull : l.length < s.arr.length)
    (m : Nat) : ∃ s', addModule s m = .ok s' ∧ Knows s' (l ++ [m]) ∧
      s'.arr.length = s.arr.length ∧ s'.log = s.log ∧ s'.user = s.user ∧ s'.count = s.count := by
  have hc := hs.cnt
  refine ⟨{ s with arr := s.arr.set s.cnt (some m), cnt := s.cnt + 1 }, ?_, ⟨?_, fun i hi => ?_⟩,
    by simp, rfl, rfl, rfl⟩
  · rw [addModule, if_pos (by omega)]
  · simp [hc]
  · simp only [List.length_append, List.length_cons, List.length_nil] at hi
    rw [List.getElem?_set, hc]
    by_cases h : l.length = i
    · subst h
      simp [hfull]
    · rw [if_neg h, hs.at_ i (by omega), List.getElem?_append_left (by omega)]

/-! ### Histories -/

theorem Reach.inv {H : Handlers W U} {sources : Nat} (hinj : ∀ a b, W.hash a = W.hash b → a = b)
    {l : List Nat} {s : St W U} (h : Reach H sources l s) :
    l.Nodup ∧ l.length ≤ sources ∧ s.arr.length = sources ∧ Knows s l ∧
      ∀ e ∈ s.log, e.num < s.count := by
  induction h with
  | new u =>
    exact ⟨by simp, by simp, by simp [St.new], ⟨rfl, fun i hi => by simp at hi⟩, by simp [St.new]⟩
  | construct l s s' m _ hm hl he ih =>
    obtain ⟨i1, i2, i3, i4, i5⟩ := ih
    obtain ⟨s'', e, k, a, e1, _, e2⟩ := add_ok l s i4 (by omega) m
    obtain rfl : s'' = s' := by simpa using e.symm.trans he
    refine ⟨?_, by simp; omega, by omega, k, by rw [e1, e2]; exact i5⟩
    rw [List.nodup_append]
    exact ⟨i1, by simp, fun a ha b hb => by
      simp only [List.mem_singleton] at hb
      exact fun h => hm (hb ▸ h ▸ ha)⟩
  | destroy l s s' m _ hm he ih =>
    obtain ⟨i1, i2, i3, i4, i5⟩ := ih
    have hlt : l.length < s.arr.length := by
      refine Nat.lt_of_le_of_ne (by omega) fun hf => ?_
      rw [remove_full l i1 s i4 hf m hm] at he
      cases he
    obtain ⟨s'', e, k, a, e1, _, e2⟩ := remove_ok l i1 s i4 hlt m hm
    obtain rfl : s'' = s' := by simpa using e.symm.trans he
    exact ⟨i1.filter _, Nat.le_trans (List.length_filter_le _ _) i2, by omega, k,
      by rw [e1, e2]; exact i5⟩
  | run l s s' f p _ he ih =>
    obtain ⟨i1, i2, i3, i4, i5⟩ := ih
    have := exec_holds hinj H l f p s i4
    rw [he] at this
    refine ⟨i1, i2, by rw [this.1.arr]; exact i3, i4.runs this.1, ?_⟩
    obtain ⟨n, e, b, _⟩ := this.1.log
    have hc := this.1.count
    intro x hx
    rw [e] at hx
    rcases List.mem_append.1 hx with hx | hx
    · have := i5 x hx
      omega
    · exact (b x hx).2

/-- Running code never leaves the array and leaves it as it was, whatever the hashes. -/
theorem deliver_safe {l : List Nat} {call : U → (m t : Nat) → W.Val t → St W U → Res (St W U)}
    (hcall : ∀ u m t v s, Knows s l → Holds (call u m t v s) fun s' => s'.arr = s.arr ∧ s'.cnt = s.cnt)
    (k id : Nat) (bytes : List Byte) :
    ∀ (n i : Nat) (s : St W U), Knows s l → i + n = l.length →
      Holds (deliver call k id bytes n i s) fun s' => s'.arr = s.arr ∧ s'.cnt = s.cnt
  | 0, _, _, _, _ => ⟨rfl, rfl⟩
  | n + 1, i, s, hs, hi => by
    have hil : i < l.length := by omega
    rw [deliver, hs.at_ i hil, List.getElem?_eq_getElem hil]
    simp only
    by_cases h : W.hash (W.sends l[i]) ≠ id
    · rw [if_pos h]
      have hr : Holds (receive call k l[i] id bytes s) fun s' => s'.arr = s.arr ∧ s'.cnt = s.cnt := by
        rw [receive]
        cases matchType W id (W.recvs l[i]) with
        | none => exact ⟨rfl, rfl⟩
        | some t =>
          simp only
          cases convertField W t bytes with
          | none => exact ⟨rfl, rfl⟩
          | some v => exact hcall _ _ _ _ (s.emit _) ⟨hs.cnt, hs.at_⟩
      refine hr.bind fun s1 hs1 => ?_
      have hk : Knows s1 l := ⟨by rw [hs1.2]; exact hs.cnt, by rw [hs1.1]; exact hs.at_⟩
      refine (deliver_safe hcall k id bytes n (i + 1) s1 hk (by omega)).mono fun s2 hs2 => ?_
      exact ⟨hs2.1.trans hs1.1, hs2.2.trans hs1.2⟩
    · rw [if_neg h]
      exact deliver_safe hcall k id bytes n (i + 1) s hs (by omega)

theorem exec_safe (H : Handlers W U) (l : List Nat) :
    ∀ (f : Nat) (p : Prog W U) (s : St W U), Knows s l →
      Holds (exec H f p s) fun s' => s'.arr = s.arr ∧ s'.cnt = s.cnt
  | 0, _, _, _ => trivial
  | f + 1, p, s, hs => by
    have hcall : ∀ u m t v (s : St W U), Knows s l → Holds (exec H f (H u m t v) s)
        fun s' => s'.arr = s.arr ∧ s'.cnt = s.cnt := fun u m t v s h => exec_safe H l f _ s h
    have hrest : ∀ (r : Res (St W U)) (k : U → Prog W U),
        Holds r (fun s' => s'.arr = s.arr ∧ s'.cnt = s.cnt) →
        Holds (r >>= fun s => exec H f (k s.user) s) fun s' => s'.arr = s.arr ∧ s'.cnt = s.cnt := by
      intro r k hr
      refine hr.bind fun s1 hs1 => ?_
      have hk : Knows s1 l := ⟨by rw [hs1.2]; exact hs.cnt, by rw [hs1.1]; exact hs.at_⟩
      exact (exec_safe H l f _ s1 hk).mono fun s2 hs2 => ⟨hs2.1.trans hs1.1, hs2.2.trans hs1.2⟩
    have hd : ∀ (k id : Nat) (bytes : List Byte) (s1 : St W U), s1.arr = s.arr → s1.cnt = s.cnt →
        Holds (deliver (fun u m t v => exec H f (H u m t v)) k id bytes s1.cnt 0 s1)
          fun s' => s'.arr = s.arr ∧ s'.cnt = s.cnt := by
      intro k id bytes s1 h1 h2
      have hk : Knows s1 l := ⟨by rw [h2]; exact hs.cnt, by rw [h1]; exact hs.at_⟩
      refine (deliver_safe hcall k id bytes s1.cnt 0 s1 hk (by rw [hk.cnt]; omega)).mono
        fun s2 hs2 => ⟨hs2.1.trans h1, hs2.2.trans h2⟩
    cases p with
    | ret u => exact ⟨rfl, rfl⟩
    | set u p =>
      rw [exec]
      exact exec_safe H l f p { s with user := u } ⟨hs.cnt, hs.at_⟩
    | send m v k =>
      rw [exec]
      exact hrest _ _ (hd _ _ _ _ rfl rfl)
    | raw m b k =>
      rw [exec]
      exact hrest _ _ (hd _ _ _ _ rfl rfl)
    | cast t v k =>
      rw [exec]
      exact hrest _ _ (hd _ _ _ _ rfl rfl)

theorem add_full (l : List Nat) (s : St W U) (hs : Knows s l) (hfull : l.length = s.arr.length)
    (m : Nat) : addModule s m = .ub := by
  have hc := hs.cnt
  rw [addModule, if_neg (by omega)]

/-- The registration after every history, whatever the hashes. -/
theorem Reach.knows {H : Handlers W U} {sources : Nat} {l : List Nat} {s : St W U}
    (h : Reach H sources l s) :
    l.Nodup ∧ l.length ≤ sources ∧ s.arr.length = sources ∧ Knows s l := by
  induction h with
  | new u => exact ⟨by simp, by simp, by simp [St.new], ⟨rfl, fun i hi => by simp at hi⟩⟩
  | construct l s s' m _ hm hl he ih =>
    obtain ⟨i1, i2, i3, i4⟩ := ih
    obtain ⟨s'', e, k, a, _, _, _⟩ := add_ok l s i4 (by omega) m
    obtain rfl : s'' = s' := by simpa using e.symm.trans he
    refine ⟨?_, by simp; omega, by omega, k⟩
    rw [List.nodup_append]
    exact ⟨i1, by simp, fun a ha b hb => by
      simp only [List.mem_singleton] at hb
      exact fun h => hm (hb ▸ h ▸ ha)⟩
  | destroy l s s' m _ hm he ih =>
    obtain ⟨i1, i2, i3, i4⟩ := ih
    have hlt : l.length < s.arr.length := by
      refine Nat.lt_of_le_of_ne (by omega) fun hf => ?_
      rw [remove_full l i1 s i4 hf m hm] at he
      cases he
    obtain ⟨s'', e, k, a, _, _, _⟩ := remove_ok l i1 s i4 hlt m hm
    obtain rfl : s'' = s' := by simpa using e.symm.trans he
    exact ⟨i1.filter _, Nat.le_trans (List.length_filter_le _ _) i2, by omega, k⟩
  | run l s s' f p _ he ih =>
    obtain ⟨i1, i2, i3, i4⟩ := ih
    have := exec_safe H l f p s i4
    rw [he] at this
    exact ⟨i1, i2, by rw [this.1]; exact i3, ⟨by rw [this.2]; exact i4.cnt, by rw [this.1]; exact i4.at_⟩⟩

theorem Knows.registered {s : St W U} {l : List Nat} (h : Knows s l) :
    s.registered = l.map some := by
  apply List.ext_getElem?
  intro i
  rw [St.registered, List.getElem?_take, h.cnt, List.getElem?_map]
  by_cases hi : i < l.length
  · rw [if_pos hi, h.at_ i hi, List.getElem?_eq_getElem hi]
    rfl
  · rw [if_neg hi, List.getElem?_eq_none (by omega)]
    rfl

/-- What a run from a reachable state logs. -/
theorem Reach.run_log {H : Handlers W U} {sources : Nat}
    (hinj : ∀ a b, W.hash a = W.hash b → a = b) {l : List Nat} {s s' : St W U}
    (h : Reach H sources l s) {f : Nat} {p : Prog W U} (he : exec H f p s = .ok s') :
    s.count ≤ s'.count ∧ (∃ new, s'.log = s.log ++ new ∧
      ∀ e ∈ new, s.count ≤ e.num ∧ e.num < s'.count) ∧
    (∀ k, s.count ≤ k → k < s'.count → IsMessage W l k (about k s'.log)) ∧
    (p.Mute ∨ about s.count s'.log = firstMessage l s.count p) := by
  obtain ⟨i1, i2, i3, i4, i5⟩ := h.inv hinj
  have hx := exec_holds hinj H l f p s i4
  rw [he] at hx
  obtain ⟨n, e, b, m⟩ := hx.1.log
  have hold : ∀ k, s.count ≤ k → about k s.log = [] := fun k hk => about_nil_of fun e he h => by
    have := i5 e he
    omega
  refine ⟨hx.1.count, ⟨n, e, b⟩, fun k hk1 hk2 => ?_, ?_⟩
  · rw [e, about_append, hold k hk1, List.nil_append]
    exact m k hk1 hk2
  · rcases hx.2 with h | ⟨_, _, n', e', h⟩
    · exact .inl h
    · right
      rw [e', about_append, hold _ (Nat.le_refl _), List.nil_append]
      exact h

end Verif.Mediator
