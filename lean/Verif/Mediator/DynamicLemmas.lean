import Verif.Mediator.Dynamic
import Verif.Mediator.Lemmas
/-! Invariants of the mediator with callbacks that construct and destroy modules. -/
namespace Verif.Mediator.Dyn
open Verif Verif.Data
variable {W : World} {U : Type}

instance (t : Nat) (bytes : List Byte) (p : Nat) : Decidable (Wants W t bytes p) :=
  inferInstanceAs (Decidable (_ ∧ _))

/-! ### Living modules -/

theorem filter_drop_mem (f : Nat → Bool) (p : Nat) : ∀ (l : List Nat) (i : Nat),
    p ∈ (l.filter f).drop i → p ∈ l.drop i
  | [], i, h => by simp at h
  | a :: l, 0, h => by
    rw [List.drop_zero] at h ⊢
    exact (List.mem_filter.1 h).1
  | a :: l, i + 1, h => by
    rw [List.drop_succ_cons]
    by_cases ha : f a = true
    · rw [List.filter_cons_of_pos ha, List.drop_succ_cons] at h
      exact filter_drop_mem f p l i h
    · rw [List.filter_cons_of_neg ha] at h
      refine filter_drop_mem f p l i ?_
      rw [← List.drop_drop] at h
      exact List.mem_of_mem_drop h

theorem liveEv_drop (p i : Nat) (l : List Nat) (e : Ev W) (he : e ≠ Ev.made p)
    (h : p ∈ (liveEv l e).drop i) : p ∈ l.drop i := by
  cases e with
  | made q =>
    simp only [liveEv, List.drop_append, List.mem_append] at h
    rcases h with h | h
    · exact h
    · have := List.mem_of_mem_drop h
      simp only [List.mem_singleton] at this
      exact absurd (by rw [this]) he
  | gone q => exact filter_drop_mem _ p l i h
  | start n src t b => exact h
  | hook n id b => exact h
  | left n b => exact h
  | recv n m t v => exact h
  | threw n m => exact h

/-- 1 if `p` is in the list, else 0. -/
def ind (p : Nat) (l : List Nat) : Nat := if p ∈ l then 1 else 0

theorem ind_mono {p : Nat} {l l' : List Nat} (h : p ∈ l → p ∈ l') : ind p l ≤ ind p l' := by
  unfold ind
  by_cases h1 : p ∈ l
  · rw [if_pos h1, if_pos (h h1)]
    exact Nat.le_refl 1
  · rw [if_neg h1]
    exact Nat.zero_le _

theorem ind_le (p : Nat) (l : List Nat) : ind p l ≤ 1 := by
  unfold ind
  split <;> omega

theorem built_append (p : Nat) : ∀ a b : List (Ev W), built p (a ++ b) = built p a + built p b
  | [], b => by simp [built]
  | e :: a, b => by
    have ih := built_append p a b
    cases e with
    | made q =>
      simp only [List.cons_append, built]
      omega
    | _ => simpa [built] using ih

theorem fold_ind (p i : Nat) : ∀ (new : List (Ev W)) (l : List Nat),
    ind p ((new.foldl liveEv l).drop i) ≤ ind p (l.drop i) + built p new
  | [], _ => Nat.le_add_right _ _
  | e :: new, l => by
    have ih := fold_ind p i new (liveEv l e)
    rw [List.foldl_cons]
    by_cases he : e = Ev.made p
    · subst he
      have h1 : built p (Ev.made p :: new) = built p new + 1 := by simp [built, Nat.add_comm]
      have h2 := ind_le p ((liveEv l (Ev.made p : Ev W)).drop i)
      omega
    · have h1 : built p (e :: new) = built p new := by
        cases e with
        | made q =>
          have : q ≠ p := fun h' => he (by rw [h'])
          simp [built, this]
        | _ => rfl
      have h2 := ind_mono (liveEv_drop p i l e he)
      omega

theorem liveEv_take (j : Nat) (l : List Nat) (hj : j < l.length) (e : Ev W)
    (he : ∀ q ∈ l.take (j + 1), e ≠ Ev.gone q) :
    (liveEv l e).take (j + 1) = l.take (j + 1) ∧ j < (liveEv l e).length := by
  have key : ∀ l' : List Nat, l'.take (j + 1) = l.take (j + 1) → j < l'.length := fun l' h => by
    have := congrArg List.length h
    simp only [List.length_take] at this
    omega
  suffices (liveEv l e).take (j + 1) = l.take (j + 1) from ⟨this, key _ this⟩
  cases e with
  | made q => exact List.take_append_of_le_length (by omega)
  | gone q =>
    have hq : q ∉ l.take (j + 1) := fun h => he q h rfl
    simp only [liveEv]
    have h1 : (l.take (j + 1)).filter (· != q) = l.take (j + 1) :=
      List.filter_eq_self.2 fun b hb => by
        have : b ≠ q := fun h' => hq (h' ▸ hb)
        simpa using this
    have h2 : (l.take (j + 1)).length = j + 1 := by simp only [List.length_take]; omega
    conv => lhs; rw [← List.take_append_drop (j + 1) l, List.filter_append, h1]
    rw [List.take_append_of_le_length (by omega), List.take_of_length_le (by omega)]
  | start n src t b => rfl
  | hook n id b => rfl
  | left n b => rfl
  | recv n m t v => rfl
  | threw n m => rfl

theorem fold_take (j : Nat) : ∀ (new : List (Ev W)) (l : List Nat), j < l.length →
    (∀ q ∈ l.take (j + 1), Ev.gone q ∉ new) →
    (new.foldl liveEv l).take (j + 1) = l.take (j + 1) ∧ j < (new.foldl liveEv l).length
  | [], _, hj, _ => ⟨rfl, hj⟩
  | e :: new, l, hj, h => by
    obtain ⟨h1, h2⟩ := liveEv_take j l hj e fun q hq h' => h q hq (h' ▸ List.mem_cons_self)
    have := fold_take j new (liveEv l e) h2 fun q hq hn => by
      rw [h1] at hq
      exact h q hq (List.mem_cons_of_mem _ hn)
    exact ⟨this.1.trans h1, this.2⟩

theorem fold_grow : ∀ (new : List (Ev W)) (l : List Nat), (∀ q, Ev.gone q ∉ new) →
    ∃ x, new.foldl liveEv l = l ++ x
  | [], l, _ => ⟨[], by simp⟩
  | e :: new, l, h => by
    obtain ⟨x, hx⟩ := fold_grow new (liveEv l e) fun q hq => h q (List.mem_cons_of_mem _ hq)
    cases e with
    | made q => exact ⟨q :: x, by rw [List.foldl_cons, hx]; simp [liveEv]⟩
    | gone q => exact absurd List.mem_cons_self (h q)
    | start n src t b => exact ⟨x, hx⟩
    | hook n id b => exact ⟨x, hx⟩
    | left n b => exact ⟨x, hx⟩
    | recv n m t v => exact ⟨x, hx⟩
    | threw n m => exact ⟨x, hx⟩

/-! ### Deliveries -/

theorem deliveries_append (k : Nat) : ∀ a b : List (Ev W),
    deliveries k (a ++ b) = deliveries k a ++ deliveries k b
  | [], b => rfl
  | e :: a, b => by
    have ih := deliveries_append k a b
    cases e with
    | recv n m t v =>
      simp only [List.cons_append, deliveries]
      by_cases h : n = k
      · rw [if_pos h, if_pos h, ih, List.cons_append]
      · rw [if_neg h, if_neg h, ih]
    | _ => simpa [deliveries] using ih

/-- How often message `k` was delivered to `p`. -/
def times (k p : Nat) (log : List (Ev W)) : Nat := ((deliveries k log).filter (·.1 == p)).length

/-- The message as it should be delivered to `p`. -/
def Parcel (W : World) (t : Nat) (bytes : List Byte) (p : Nat) : Nat × (t : Nat) × W.Val t :=
  (p, ⟨t, (W.pod t).dec bytes⟩)

/-- The callback of module `m` ended message `k`: `m` is the last one to get it, and of the modules that lived from the
start, with no earlier one destroyed, those up to `m` got it. -/
structure CutAt (k t : Nat) (bytes : List Byte) (l0 : List Nat) (acc : List (Ev W)) (m : Nat) : Prop where
  last : ∃ pre, acc = pre ++ [Ev.threw k (some m)]
  final : ∃ ds, deliveries k acc = ds ++ [Parcel W t bytes m]
  upto : ∀ jm, l0[jm]? = some m → (∀ q ∈ l0.take (jm + 1), Ev.gone q ∉ acc) →
    ∀ j p, l0[j]? = some p → (∀ q ∈ l0.take (j + 1), Ev.gone q ∉ acc) →
      (deliveries k acc).filter (·.1 == p) = if j ≤ jm ∧ Wants W t bytes p then [Parcel W t bytes p] else []

/-- What is right about a message that has ended. -/
structure Right (r : Msg W) : Prop where
  size : r.told.length = r.bytes.length
  once : ∀ p, times r.num p r.during ≤ ind p (living r.before) + built p r.during
  value : ∀ d ∈ deliveries r.num r.during, Wants W r.t r.told d.1 ∧ d = Parcel W r.t r.told d.1
  exact_ : r.cut = false → ∀ j p, (living r.before)[j]? = some p →
    (∀ q ∈ (living r.before).take (j + 1), Ev.gone q ∉ r.during) →
    (deliveries r.num r.during).filter (·.1 == p) =
      if Wants W r.t r.told p then [Parcel W r.t r.told p] else []
  all : r.cut = false → (∀ q, Ev.gone q ∉ r.during) → deliveries r.num r.during =
    ((living (r.before ++ r.during)).filter fun p => decide (Wants W r.t r.told p)).map (Parcel W r.t r.told)
  part : (∀ q, Ev.gone q ∉ r.during) → deliveries r.num r.during <+:
    ((living (r.before ++ r.during)).filter fun p => decide (Wants W r.t r.told p)).map (Parcel W r.t r.told)
  cutAt : r.cut = true → ((∃ pre, r.during = pre ++ [Ev.threw r.num none]) ∧ deliveries r.num r.during = []) ∨
    ∃ m, CutAt r.num r.t r.told (living r.before) r.during m

/-- What is logged for a message after its start and the call of the hook: for messages of modules that the hook has
thrown, or left the message as told. -/
def Middle (r : Msg W) (rest : List (Ev W)) : Prop :=
  if r.src = none then r.told = r.bytes
  else ∃ mid tail, rest = mid ++ tail ∧ deliveries r.num mid = [] ∧
    ((r.cut = true ∧ tail = [Ev.threw r.num none]) ∨ ∃ tail', tail = Ev.left r.num r.told :: tail')

/-- A message that has ended is in the log, where it was recorded. -/
def Logged (log : List (Ev W)) (r : Msg W) : Prop :=
  r.before ++ r.during <+: log ∧ ∃ rest, r.during = Ev.start r.num r.src r.t r.bytes ::
    ((if r.src = none then [] else [Ev.hook r.num (W.hash r.t) r.bytes]) ++ rest) ∧ Middle r rest

theorem Logged.mono {log : List (Ev W)} {r : Msg W} (h : Logged log r) (new : List (Ev W)) : Logged (log ++ new) r :=
  ⟨h.1.trans (List.prefix_append _ _), h.2⟩

/-- Invariant: the array holds the living modules. -/
structure Inv (s : St W U) : Prop where
  knows : Knows s.reg s.live
  nodup : s.live.Nodup
  room : s.live.length ≤ s.arr.length
  live : s.live = living s.log
  sent : ∀ r ∈ s.sent, Right r ∧ Logged s.log r

/-- Code that ran from `s` to `s'`. -/
structure Ran (s s' : St W U) : Prop where
  inv : Inv s'
  size : s'.arr.length = s.arr.length
  count : s.count ≤ s'.count
  sent : ∃ x, s'.sent = s.sent ++ x
  log : ∃ new, s'.log = s.log ++ new ∧ s'.live = new.foldl liveEv s.live ∧
    ∀ k, k < s.count → deliveries k new = []

theorem Ran.refl {s : St W U} (h : Inv s) : Ran s s :=
  ⟨h, rfl, Nat.le_refl _, ⟨[], by simp⟩, [], by simp, rfl, fun _ _ => rfl⟩

theorem Ran.trans {s t u : St W U} (h1 : Ran s t) (h2 : Ran t u) : Ran s u := by
  obtain ⟨n1, e1, l1, d1⟩ := h1.log
  obtain ⟨n2, e2, l2, d2⟩ := h2.log
  obtain ⟨x1, hx1⟩ := h1.sent
  obtain ⟨x2, hx2⟩ := h2.sent
  have c1 := h1.count
  refine ⟨h2.inv, h2.size.trans h1.size, Nat.le_trans c1 h2.count, ⟨x1 ++ x2, by rw [hx2, hx1, List.append_assoc]⟩,
    n1 ++ n2, by rw [e2, e1, List.append_assoc], by rw [l2, l1, List.foldl_append], fun k hk => ?_⟩
  rw [deliveries_append, d1 k hk, d2 k (by omega), List.append_nil]

theorem Inv.emit {s : St W U} (h : Inv s) (e : Ev W) (he : ∀ l, liveEv l e = l) : Inv (s.emit e) :=
  ⟨h.knows, h.nodup, h.room, by
    show s.live = living (s.log ++ [e])
    rw [living, List.foldl_append, List.foldl_cons, List.foldl_nil, he]
    exact h.live, fun r hr => ⟨(h.sent r hr).1, (h.sent r hr).2.mono _⟩⟩

theorem make_ran {s s' : St W U} (hs : Inv s) {c : Nat} (h : make s c = .ok s') : Ran s s' := by
  unfold make at h
  by_cases hc : c ∈ s.live
  · rw [if_pos hc] at h
    cases h
    exact Ran.refl hs
  · rw [if_neg hc] at h
    have hcnt : s.cnt = s.live.length := hs.knows.cnt
    by_cases hfull : s.live.length < s.arr.length
    · obtain ⟨r, e, hk, hl, -⟩ := add_ok s.live s.reg hs.knows hfull c
      rw [e] at h
      simp only [Res.ok_bind, Res.ok.injEq] at h
      subst h
      refine ⟨⟨⟨hk.cnt, hk.at_⟩, ?_, ?_, ?_, fun r hr => ⟨(hs.sent r hr).1, (hs.sent r hr).2.mono _⟩⟩, hl, Nat.le_refl _, ⟨[], by simp⟩,
        [Ev.made c], rfl, rfl, fun _ _ => rfl⟩
      · refine List.nodup_append.2 ⟨hs.nodup, by simp, fun a ha b hb h' => ?_⟩
        simp only [List.mem_singleton] at hb
        exact hc (hb ▸ h' ▸ ha)
      · have : r.arr.length = s.arr.length := hl
        simp only [List.length_append, List.length_cons, List.length_nil]
        omega
      · simp only [living, List.foldl_append, List.foldl_cons, List.foldl_nil]
        rw [hs.live]
        rfl
    · have : addModule s.reg c = .ub := by
        rw [addModule, if_neg]
        show ¬ s.cnt < s.arr.length
        omega
      rw [this] at h
      simp at h

theorem drop_ran {s s' : St W U} (hs : Inv s) {c : Nat} (h : drop s c = .ok s') : Ran s s' := by
  unfold drop at h
  by_cases hc : c ∈ s.live
  · rw [if_pos hc] at h
    have hroom := hs.room
    by_cases hfull : s.live.length < s.arr.length
    · obtain ⟨r, e, hk, hl, -⟩ := remove_ok s.live hs.nodup s.reg hs.knows hfull c hc
      rw [e] at h
      simp only [Res.ok_bind, Res.ok.injEq] at h
      subst h
      refine ⟨⟨⟨hk.cnt, hk.at_⟩, hs.nodup.filter _, ?_, ?_, fun r hr => ⟨(hs.sent r hr).1, (hs.sent r hr).2.mono _⟩⟩, hl, Nat.le_refl _, ⟨[], by simp⟩,
        [Ev.gone c], rfl, rfl, fun _ _ => rfl⟩
      · have h1 : r.arr.length = s.arr.length := hl
        have h2 := List.length_filter_le (· != c) s.live
        simp only
        omega
      · simp only [living, List.foldl_append, List.foldl_cons, List.foldl_nil]
        rw [hs.live]
        rfl
    · rw [remove_full s.live hs.nodup s.reg hs.knows (by show s.live.length = s.arr.length; omega) c hc] at h
      simp at h
  · rw [if_neg hc] at h
    cases h
    exact Ran.refl hs

/-! ### The loop -/

/-- Invariant of the loop of message `k` at index `i`: `l0` lived when it started, `acc` was logged since. -/
structure Loop (k t : Nat) (bytes : List Byte) (l0 : List Nat) (i : Nat) (s : St W U) (acc : List (Ev W)) : Prop where
  inv : Inv s
  num : k < s.count
  live : s.live = acc.foldl liveEv l0
  once : ∀ p, times k p acc + ind p (s.live.drop i) ≤ ind p l0 + built p acc
  value : ∀ d ∈ deliveries k acc, Wants W t bytes d.1 ∧ d = Parcel W t bytes d.1
  exact_ : ∀ j p, l0[j]? = some p → (∀ q ∈ l0.take (j + 1), Ev.gone q ∉ acc) →
    (deliveries k acc).filter (·.1 == p) =
      if j < i ∧ Wants W t bytes p then [Parcel W t bytes p] else []
  all : (∀ q, Ev.gone q ∉ acc) → deliveries k acc =
    ((s.live.take i).filter fun p => decide (Wants W t bytes p)).map (Parcel W t bytes)

/-- What the loop logs on a visit of `m`. -/
def visit (W : World) (k t : Nat) (bytes : List Byte) (m : Nat) : List (Ev W) :=
  if Wants W t bytes m then [Ev.recv k m t ((W.pod t).dec bytes)] else []

theorem deliveries_visit (k t : Nat) (bytes : List Byte) (m : Nat) : deliveries k (visit W k t bytes m) =
    if Wants W t bytes m then [Parcel W t bytes m] else [] := by
  unfold visit
  by_cases h : Wants W t bytes m
  · rw [if_pos h, if_pos h]
    simp [deliveries, Parcel]
  · rw [if_neg h, if_neg h]
    rfl

theorem visit_live (k t : Nat) (bytes : List Byte) (m : Nat) (l : List Nat) :
    (visit W k t bytes m).foldl liveEv l = l := by
  unfold visit
  split <;> rfl

theorem Loop.step {k t : Nat} {bytes : List Byte} {l0 : List Nat} {i : Nat} {s s1 s2 : St W U} {acc : List (Ev W)}
    (h : Loop k t bytes l0 i s acc) {m : Nat} (hm : s.live[i]? = some m) (h1l : s1.live = s.live)
    (h1c : s1.count = s.count) {new : List (Ev W)} (hinv : Inv s2) (hc : s1.count ≤ s2.count)
    (hlive : s2.live = new.foldl liveEv s1.live) (hold : ∀ k, k < s1.count → deliveries k new = []) :
    Loop k t bytes l0 (i + 1) s2 (acc ++ (visit W k t bytes m ++ new)) := by
  have hnum := h.num
  have hlt : i < s.live.length := (List.getElem?_eq_some_iff.1 hm).1
  have hnd := h.inv.nodup
  have hdrop : s.live.drop i = m :: s.live.drop (i + 1) := by
    rw [List.drop_eq_getElem_cons hlt, (List.getElem?_eq_some_iff.1 hm).2]
  have hmnot : m ∉ s.live.drop (i + 1) := by
    have := hnd.sublist (List.drop_sublist i s.live)
    rw [hdrop, List.nodup_cons] at this
    exact this.1
  have hdel : deliveries k (acc ++ (visit W k t bytes m ++ new)) =
      deliveries k acc ++ if Wants W t bytes m then [Parcel W t bytes m] else [] := by
    rw [deliveries_append, deliveries_append, deliveries_visit, hold k (by omega), List.append_nil]
  have htimes : ∀ p, times k p (acc ++ (visit W k t bytes m ++ new)) ≤ times k p acc + (if p = m then 1 else 0) := by
    intro p
    unfold times
    rw [hdel, List.filter_append, List.length_append]
    by_cases hw : Wants W t bytes m
    · rw [if_pos hw]
      by_cases hp : p = m
      · rw [if_pos hp]
        have := List.length_filter_le (fun d => d.1 == p) [Parcel W t bytes m]
        simp only [List.length_cons, List.length_nil] at this
        omega
      · rw [if_neg hp, List.filter_cons_of_neg]
        · simp
        · simpa [Parcel] using fun h' : m = p => hp h'.symm
    · rw [if_neg hw]
      simp
  refine ⟨hinv, by omega, ?_, fun p => ?_, fun d hd => ?_, fun j p hj hg => ?_, fun hg => ?_⟩
  · rw [List.foldl_append, List.foldl_append, visit_live, ← h.live, hlive, h1l]
  · have h0 := h.once p
    have ht := htimes p
    have hv : built p (visit W k t bytes m) = 0 := by
      unfold visit
      split <;> rfl
    have hf := fold_ind p (i + 1) new s.live
    rw [built_append, built_append, hv, hlive, h1l]
    by_cases hpm : p = m
    · have h1 : ind p (s.live.drop i) = 1 := by rw [ind, if_pos (by rw [hdrop, hpm]; exact List.mem_cons_self)]
      have h2 : ind p (s.live.drop (i + 1)) = 0 := by rw [ind, if_neg (by rw [hpm]; exact hmnot)]
      rw [if_pos hpm] at ht
      omega
    · have h1 : ind p (s.live.drop (i + 1)) ≤ ind p (s.live.drop i) :=
        ind_mono fun h' => by rw [hdrop]; exact List.mem_cons_of_mem _ h'
      rw [if_neg hpm] at ht
      omega
  · rw [hdel, List.mem_append] at hd
    rcases hd with hd | hd
    · exact h.value d hd
    · by_cases hw : Wants W t bytes m
      · rw [if_pos hw, List.mem_singleton] at hd
        subst hd
        exact ⟨hw, rfl⟩
      · rw [if_neg hw] at hd
        simp at hd
  · have hg1 : ∀ q ∈ l0.take (j + 1), Ev.gone q ∉ acc := fun q hq hn => hg q hq (List.mem_append_left _ hn)
    have hjl : j < l0.length := (List.getElem?_eq_some_iff.1 hj).1
    obtain ⟨ht, hl⟩ := fold_take j acc l0 hjl hg1
    rw [← h.live] at ht hl
    have hpj : s.live[j]? = some p := by
      have := congrArg (·[j]?) ht
      simp only [List.getElem?_take, if_pos (Nat.lt_succ_self j)] at this
      rw [this, hj]
    rw [hdel, List.filter_append, h.exact_ j p hj hg1]
    by_cases hji : j = i
    · subst hji
      have hpm : m = p := by rw [hm] at hpj; exact Option.some.inj hpj
      subst hpm
      rw [if_neg (fun h' => Nat.lt_irrefl _ h'.1), List.nil_append]
      by_cases hw : Wants W t bytes m
      · rw [if_pos hw, if_pos ⟨Nat.lt_succ_self _, hw⟩, List.filter_cons_of_pos (by simp [Parcel])]
        rfl
      · rw [if_neg hw, if_neg (fun h' => hw h'.2)]
        rfl
    · have hpm : m ≠ p := by
        intro h'
        rw [List.getElem?_eq_some_iff] at hm hpj
        obtain ⟨a1, a2⟩ := hm
        obtain ⟨b1, b2⟩ := hpj
        rcases Nat.lt_or_gt_of_ne hji with hlt' | hlt'
        · exact List.pairwise_iff_getElem.1 hnd j i b1 a1 hlt' (by rw [a2, b2, h'])
        · exact List.pairwise_iff_getElem.1 hnd i j a1 b1 hlt' (by rw [a2, b2, h'])
      have hnone : (if Wants W t bytes m then [Parcel W t bytes m] else []).filter (·.1 == p) = [] := by
        by_cases hw : Wants W t bytes m
        · rw [if_pos hw, List.filter_cons_of_neg (by simpa [Parcel] using hpm)]
          rfl
        · rw [if_neg hw]
          rfl
      rw [hnone, List.append_nil]
      have hiff : (j < i ∧ Wants W t bytes p) ↔ (j < i + 1 ∧ Wants W t bytes p) :=
        ⟨fun h' => ⟨by omega, h'.2⟩, fun h' => ⟨by omega, h'.2⟩⟩
      by_cases hw : j < i ∧ Wants W t bytes p
      · rw [if_pos hw, if_pos (hiff.1 hw)]
      · rw [if_neg hw, if_neg (fun h' => hw (hiff.2 h'))]
  · have hg1 : ∀ q, Ev.gone q ∉ acc := fun q hn => hg q (List.mem_append_left _ hn)
    obtain ⟨x, hx⟩ := fold_grow new s.live fun q hn =>
      hg q (List.mem_append_right _ (List.mem_append_right _ hn))
    rw [hdel, h.all hg1, hlive, h1l, hx, List.take_append_of_le_length (by omega)]
    rw [List.take_add_one, hm, Option.toList_some, List.filter_append, List.map_append]
    congr 1
    by_cases hw : Wants W t bytes m
    · rw [if_pos hw, List.filter_cons_of_pos (by simpa using hw)]
      rfl
    · rw [if_neg hw, List.filter_cons_of_neg (by simpa using hw)]
      rfl

/-- What is required of the code that runs callbacks. -/
def CallOk (call : Call W U) : Prop :=
  ∀ u m t v s s', Inv s → s.thrown = false → call u m t v s = .ok s' → Ran s s'

/-- A visit of one module. -/
theorem receive_ran (hinj : ∀ a b, W.hash a = W.hash b → a = b) {call : Call W U} (hcall : CallOk call)
    {k m t : Nat} {bytes : List Byte} {s s' : St W U} (hs : Inv s) (hth : s.thrown = false)
    (hst : W.sends m ≠ t) (h : receive call k m (W.hash t) bytes s = .ok s') :
    Ran { s with log := s.log ++ visit W k t bytes m } s' ∧ (s'.thrown = true → Wants W t bytes m) := by
  have hnot : ¬ Wants W t bytes m → s = s' →
      Ran { s with log := s.log ++ visit W k t bytes m } s' ∧ (s'.thrown = true → Wants W t bytes m) := by
    rintro hw rfl
    refine ⟨?_, fun h' => absurd (hth.symm.trans h') Bool.false_ne_true⟩
    rw [visit, if_neg hw, List.append_nil]
    exact Ran.refl hs
  unfold receive at h
  rw [matchType_eq hinj] at h
  by_cases ht : t ∈ W.recvs m
  · rw [if_pos ht] at h
    simp only [convertField] at h
    by_cases hb : (W.pod t).size ≠ bytes.length
    · rw [if_pos hb] at h
      exact hnot (fun hw => hb hw.2.2.symm) (Res.ok.inj h)
    · rw [if_neg hb] at h
      have hw : Wants W t bytes m := ⟨ht, hst, (Decidable.not_not.1 hb).symm⟩
      rw [visit, if_pos hw]
      exact ⟨hcall _ _ _ _ _ _ (hs.emit _ fun _ => rfl) hth h, fun _ => hw⟩
  · rw [if_neg ht] at h
    exact hnot (fun hw => ht hw.1) (Res.ok.inj h)

theorem threw_drop (k j : Nat) (m : Option Nat) : deliveries j [(Ev.threw k m : Ev W)] = [] := rfl

/-- How the loop ends: at the end of the modules, or by an exception. -/
def Ends (k t : Nat) (bytes : List Byte) (l0 : List Nat) (i : Nat) (s : St W U) (acc : List (Ev W)) : Prop :=
  (s.thrown = false ∧ s.live.length ≤ i) ∨ (s.thrown = true ∧ ∃ m, CutAt k t bytes l0 acc m)

/-- A callback that throws ends the loop. -/
theorem Loop.cutAt {k t : Nat} {bytes : List Byte} {l0 : List Nat} {i : Nat} {s s2 : St W U} {acc new : List (Ev W)}
    (h : Loop k t bytes l0 i s acc) {m : Nat} (hm : s.live[i]? = some m) (hw : Wants W t bytes m)
    (hnew : deliveries k new = [])
    (h2 : Loop k t bytes l0 (i + 1) s2 (acc ++ (visit W k t bytes m ++ (new ++ [Ev.threw k (some m)])))) :
    CutAt k t bytes l0 (acc ++ (visit W k t bytes m ++ (new ++ [Ev.threw k (some m)]))) m := by
  refine ⟨⟨acc ++ (visit W k t bytes m ++ new), by simp only [List.append_assoc]⟩, ⟨deliveries k acc, ?_⟩,
    fun jm hjm hg j p hj hgj => ?_⟩
  · rw [deliveries_append, deliveries_append, deliveries_append, hnew, threw_drop, deliveries_visit, if_pos hw]
    rfl
  · have hjl : jm < l0.length := (List.getElem?_eq_some_iff.1 hjm).1
    obtain ⟨ht, hl⟩ := fold_take jm acc l0 hjl fun q hq hn => hg q hq (List.mem_append_left _ hn)
    rw [← h.live] at ht hl
    have hpj : s.live[jm]? = some m := by
      have := congrArg (·[jm]?) ht
      simp only [List.getElem?_take, if_pos (Nat.lt_succ_self jm)] at this
      rw [this, hjm]
    have hji : jm = i := by
      rw [List.getElem?_eq_some_iff] at hm hpj
      obtain ⟨a1, a2⟩ := hm
      obtain ⟨b1, b2⟩ := hpj
      rcases Nat.lt_trichotomy jm i with hlt' | hlt' | hlt'
      · exact absurd (by rw [a2, b2]) (List.pairwise_iff_getElem.1 h.inv.nodup jm i b1 a1 hlt')
      · exact hlt'
      · exact absurd (by rw [a2, b2]) (List.pairwise_iff_getElem.1 h.inv.nodup i jm a1 b1 hlt')
    rw [h2.exact_ j p hj hgj]
    have hiff : (j < i + 1 ∧ Wants W t bytes p) ↔ (j ≤ jm ∧ Wants W t bytes p) :=
      ⟨fun h' => ⟨by omega, h'.2⟩, fun h' => ⟨by omega, h'.2⟩⟩
    by_cases hw : j ≤ jm ∧ Wants W t bytes p
    · rw [if_pos hw, if_pos (hiff.2 hw)]
    · rw [if_neg hw, if_neg (fun h' => hw (hiff.1 h'))]

theorem deliver_loop (hinj : ∀ a b, W.hash a = W.hash b → a = b) {call : Call W U} (hcall : CallOk call)
    {k t : Nat} {src : Option Nat} {bytes : List Byte} {l0 : List Nat} :
    ∀ (n i : Nat) (s s' : St W U) (acc : List (Ev W)), Loop k t bytes l0 i s acc → s.thrown = false →
      deliver call k (W.hash t) src bytes n i s = .ok s' →
      ∃ i' new, Loop k t bytes l0 i' s' (acc ++ new) ∧ Ends k t bytes l0 i' s' (acc ++ new) ∧ s'.log = s.log ++ new ∧
        s'.arr.length = s.arr.length ∧ s.count ≤ s'.count ∧ (∃ x, s'.sent = s.sent ++ x) ∧
        ∀ j, j < k → deliveries j new = []
  | 0, i, s, s', acc, hl, hth, h => by
    rw [deliver] at h
    have hc : s.cnt = s.live.length := hl.inv.knows.cnt
    by_cases hi : i < s.cnt
    · rw [if_pos hi] at h
      exact nomatch h
    · rw [if_neg hi] at h
      cases h
      exact ⟨i, [], by simpa using hl, .inl ⟨hth, by omega⟩, by simp, rfl, Nat.le_refl _, ⟨[], by simp⟩, fun _ _ => rfl⟩
  | n + 1, i, s, s', acc, hl, hth, h => by
    rw [deliver] at h
    have hc : s.cnt = s.live.length := hl.inv.knows.cnt
    by_cases hi : i < s.cnt
    · rw [if_pos hi] at h
      have hil : i < s.live.length := by omega
      have hat : s.arr[i]? = some (s.live[i]?) := hl.inv.knows.at_ i hil
      have hm : s.live[i]? = some s.live[i] := List.getElem?_eq_getElem hil
      rw [hat, hm] at h
      simp only at h
      generalize s.live[i] = m at hm h
      have hnum := hl.num
      have hvis : ∀ j, j < k → deliveries j (visit W k t bytes m) = [] := fun j hj => by
        unfold visit
        split
        · simp only [deliveries]
          rw [if_neg (by omega)]
        · rfl
      by_cases ha : m ∈ s.live ∧ senderLives src s = true
      · rw [if_pos ha] at h
        -- one round, then the rest
        have rest : ∀ s2, Ran { s with log := s.log ++ visit W k t bytes m } s2 → s2.thrown = false →
            deliver call k (W.hash t) src bytes n (i + 1) s2 = .ok s' →
            ∃ i' new, Loop k t bytes l0 i' s' (acc ++ new) ∧ Ends k t bytes l0 i' s' (acc ++ new) ∧
              s'.log = s.log ++ new ∧ s'.arr.length = s.arr.length ∧ s.count ≤ s'.count ∧
              (∃ x, s'.sent = s.sent ++ x) ∧ ∀ j, j < k → deliveries j new = [] := by
          intro s2 hr hth2 h2
          obtain ⟨new, e, el, ed⟩ := hr.log
          obtain ⟨x, hx⟩ := hr.sent
          have hcount : s.count ≤ s2.count := hr.count
          have hsize : s2.arr.length = s.arr.length := hr.size
          have hstep := hl.step (s1 := { s with log := s.log ++ visit W k t bytes m }) hm rfl rfl hr.inv hr.count el ed
          obtain ⟨i', new', a1, a2, a3, a4, a5, ⟨y, hy⟩, a7⟩ := deliver_loop hinj hcall n (i + 1) s2 s' _ hstep hth2 h2
          refine ⟨i', visit W k t bytes m ++ new ++ new', ?_, ?_, ?_, a4.trans hsize, Nat.le_trans hcount a5,
            ⟨x ++ y, ?_⟩, fun j hj => ?_⟩
          · rw [← List.append_assoc]
            exact a1
          · rw [← List.append_assoc]
            exact a2
          · rw [a3, e]
            simp only [List.append_assoc]
          · rw [hy, hx]
            simp only [List.append_assoc]
          · rw [deliveries_append, deliveries_append, a7 j hj, ed j (by show j < s.count; omega), hvis j hj]
            rfl
        by_cases hid : W.hash (W.sends m) ≠ W.hash t
        · rw [if_pos hid] at h
          cases hr : receive call k m (W.hash t) bytes s with
          | ok s2 =>
            rw [hr] at h
            simp only [Res.ok_bind] at h
            obtain ⟨hran, hwant⟩ := receive_ran hinj hcall hl.inv hth (fun h' => hid (by rw [h'])) hr
            cases hth2 : s2.thrown with
            | false =>
              rw [if_neg (by rw [hth2]; exact Bool.false_ne_true)] at h
              exact rest s2 hran hth2 h
            | true =>
              rw [if_pos hth2] at h
              simp only [Res.ok.injEq] at h
              subst h
              obtain ⟨new, e, el, ed⟩ := hran.log
              have hold : ∀ j, j < s.count → deliveries j (new ++ [Ev.threw k (some m)]) = [] := fun j hj => by
                rw [deliveries_append, ed j hj, threw_drop]
                rfl
              have hstep : Loop k t bytes l0 (i + 1) (s2.emit (.threw k (some m)))
                  (acc ++ (visit W k t bytes m ++ (new ++ [Ev.threw k (some m)]))) :=
                hl.step (s1 := { s with log := s.log ++ visit W k t bytes m }) hm rfl rfl
                  (hran.inv.emit _ fun _ => rfl) hran.count
                  (by show s2.live = _; rw [el, List.foldl_append]; rfl) hold
              refine ⟨i + 1, _, hstep, .inr ⟨hth2, m, hl.cutAt hm (hwant hth2) (ed k hnum) hstep⟩, ?_, hran.size,
                hran.count, hran.sent, fun j hj => ?_⟩
              · show s2.log ++ _ = _
                rw [e]
                simp only [List.append_assoc]
              · rw [deliveries_append, hold j (by omega), hvis j hj]
                rfl
          | ub => rw [hr] at h; simp at h
          | hang => rw [hr] at h; simp at h
        · rw [if_neg hid] at h
          have hst : W.sends m = t := hinj _ _ (Decidable.not_not.1 hid)
          refine rest s ?_ hth h
          rw [visit, if_neg (fun hw => hw.2.1 hst), List.append_nil]
          exact Ran.refl hl.inv
      · rw [if_neg ha] at h
        exact nomatch h
    · rw [if_neg hi] at h
      cases h
      exact ⟨i, [], by simpa using hl, .inl ⟨hth, by omega⟩, by simp, rfl, Nat.le_refl _, ⟨[], by simp⟩, fun _ _ => rfl⟩

/-- The end of the loop. -/
theorem Loop.right {k t : Nat} {src : Option Nat} {bytes told : List Byte} {before acc : List (Ev W)} {i : Nat}
    {s : St W U} (h : Loop k t told (living before) i s acc) (hi : Ends k t told (living before) i s acc)
    (hsz : told.length = bytes.length) : Right ⟨k, src, t, bytes, told, s.thrown, before, acc⟩ := by
  refine ⟨hsz, fun p => Nat.le_trans (Nat.le_add_right _ _) (h.once p), h.value, fun hc j p hj hg => ?_,
    fun hc hg => ?_, fun hg => ?_, fun hc => ?_⟩
  · have hi : s.live.length ≤ i := by
      rcases hi with hi | hi
      · exact hi.2
      · exact absurd (hc.symm.trans hi.1) Bool.false_ne_true
    have hjl : j < (living before).length := (List.getElem?_eq_some_iff.1 hj).1
    have hl := (fold_take j acc _ hjl hg).2
    rw [← h.live] at hl
    have := h.exact_ j p hj hg
    have hji : j < i := by omega
    simp only [hji, true_and] at this
    exact this
  · have hi : s.live.length ≤ i := by
      rcases hi with hi | hi
      · exact hi.2
      · exact absurd (hc.symm.trans hi.1) Bool.false_ne_true
    have := h.all hg
    rw [List.take_of_length_le hi, h.live] at this
    simp only [living, List.foldl_append]
    exact this
  · show deliveries k acc <+: _
    rw [h.all hg]
    have hl : living (before ++ acc) = s.live := by
      rw [h.live]
      simp only [living, List.foldl_append]
    show _ <+: ((living (before ++ acc)).filter _).map _
    rw [hl]
    exact ((List.take_prefix i s.live).filter _).map _
  · rcases hi with hi | hi
    · exact absurd (hi.1.symm.trans hc) Bool.false_ne_true
    · exact .inr hi.2

/-- A whole message: `pre` is logged first, under its number, then `q` runs (the hook), and `post` is logged. -/
theorem message_ran (hinj : ∀ a b, W.hash a = W.hash b → a = b) {call : Call W U} (hcall : CallOk call)
    {t : Nat} {src : Option Nat} {bytes told : List Byte} {s s1 s2 s3 : St W U} {pre post : List (Ev W)} (hs : Inv s)
    (h1 : s1 = { s with count := s.count + 1, log := s.log ++ pre }) (hpl : ∀ l, pre.foldl liveEv l = l)
    (hpd : ∀ j, deliveries j pre = []) (hps : pre = Ev.start s.count src t bytes ::
      if src = none then [] else [Ev.hook s.count (W.hash t) bytes]) (h2 : Inv s1 → Ran s1 s2)
    (hth : s2.thrown = false) (hpost : post = if src = none then [] else [Ev.left s.count told])
    (hsz : told.length = bytes.length) (hsrc : src = none → told = bytes)
    (h3 : deliver call s.count (W.hash t) src told s2.arr.length 0 { s2 with log := s2.log ++ post } = .ok s3) :
    Ran s (s3.finish s.count src t bytes told s) := by
  have hql : ∀ l, post.foldl liveEv l = l := fun l => by rw [hpost]; split <;> rfl
  have hqd : ∀ j, deliveries j post = [] := fun j => by rw [hpost]; split <;> rfl
  have i1 : Inv s1 := by
    subst h1
    refine ⟨hs.knows, hs.nodup, hs.room, ?_, fun r hr => ⟨(hs.sent r hr).1, (hs.sent r hr).2.mono _⟩⟩
    simp only [living, List.foldl_append, hpl]
    exact hs.live
  have r := h2 i1
  obtain ⟨n1, e1, l1, d1⟩ := r.log
  obtain ⟨x, hx⟩ := r.sent
  have hc1 : s.count + 1 ≤ s2.count := by have := r.count; rw [h1] at this; exact this
  have hs1c : s1.count = s.count + 1 := by rw [h1]
  have hlog2 : s2.log = s.log ++ (pre ++ n1) := by rw [e1, h1]; simp only [List.append_assoc]
  have hlive2 : s2.live = (pre ++ n1 ++ post).foldl liveEv (living s.log) := by
    rw [List.foldl_append, List.foldl_append, hpl, hql, l1, h1, ← hs.live]
  have hd0 : deliveries s.count (pre ++ n1 ++ post) = [] := by
    rw [deliveries_append, deliveries_append, hpd, hqd, d1 s.count (by omega), List.append_nil, List.append_nil]
  have ht0 : ∀ p, times s.count p (pre ++ n1 ++ post) = 0 := fun p => by unfold times; rw [hd0]; rfl
  have i2 : Inv { s2 with log := s2.log ++ post } := by
    refine ⟨r.inv.knows, r.inv.nodup, r.inv.room, ?_, fun r' hr' => ⟨(r.inv.sent r' hr').1, (r.inv.sent r' hr').2.mono _⟩⟩
    simp only [living, List.foldl_append, hql]
    exact r.inv.live
  have hl : Loop s.count t told (living s.log) 0 { s2 with log := s2.log ++ post } (pre ++ n1 ++ post) := by
    refine ⟨i2, by show s.count < s2.count; omega, hlive2, fun p => ?_, fun d hd => ?_,
      fun j p _ _ => ?_, fun _ => ?_⟩
    · have hf := fold_ind p 0 (pre ++ n1 ++ post) (living s.log)
      rw [← hlive2, List.drop_zero, List.drop_zero] at hf
      rw [ht0, List.drop_zero]
      simp only
      omega
    · rw [hd0] at hd
      simp at hd
    · rw [hd0, if_neg (fun h' => Nat.not_lt_zero _ h'.1)]
      rfl
    · rw [hd0]
      simp
  obtain ⟨i', n2, a1, a2, a3, a4, a5, ⟨y, hy⟩, a7⟩ := deliver_loop hinj hcall _ 0 _ s3 _ hl hth h3
  simp only at a3 a4 a5 hy
  have hlog3 : s3.log = s.log ++ (pre ++ n1 ++ post ++ n2) := by
    rw [a3, hlog2]
    simp only [List.append_assoc]
  have hsent : s2.sent = s.sent ++ x := by rw [hx, h1]
  refine ⟨⟨a1.inv.knows, a1.inv.nodup, a1.inv.room, a1.inv.live, fun rec hrec => ?_⟩, ?_, ?_, ?_, ?_⟩
  · simp only [St.finish, List.mem_append, List.mem_singleton] at hrec
    rcases hrec with hrec | hrec
    · exact a1.inv.sent rec hrec
    · subst hrec
      refine ⟨?_, ?_, ?_⟩
      · rw [hlog3, List.drop_left]
        exact a1.right a2 hsz
      · rw [hlog3, List.drop_left]
        exact ⟨[], by simp only [St.finish, hlog3, List.append_nil]⟩
      · refine ⟨n1 ++ post ++ n2, by rw [hlog3, List.drop_left, hps]; simp only [List.cons_append, List.append_assoc], ?_⟩
        unfold Middle
        simp only
        split
        · exact hsrc ‹_›
        · refine ⟨n1, post ++ n2, by simp only [List.append_assoc], d1 s.count (by omega), .inr ⟨n2, ?_⟩⟩
          rw [hpost, if_neg ‹_›]
          rfl
  · show s3.arr.length = s.arr.length
    rw [a4, r.size, h1]
  · show s.count ≤ s3.count
    omega
  · exact ⟨x ++ y ++ [⟨s.count, src, t, bytes, told, s3.thrown, s.log, s3.log.drop s.log.length⟩], by
      simp only [St.finish, hy, hsent, List.append_assoc]⟩
  · refine ⟨pre ++ n1 ++ post ++ n2, hlog3, ?_, fun j hj => ?_⟩
    · show s3.live = _
      rw [a1.live, ← hs.live]
    · rw [deliveries_append, deliveries_append, deliveries_append, hpd, hqd, d1 j (by omega), a7 j hj]
      rfl

/-- A message whose hook throws. -/
theorem hook_cut {t m : Nat} {bytes : List Byte} {s s1 s2 : St W U} {pre : List (Ev W)} (hs : Inv s)
    (h1 : s1 = { s with count := s.count + 1, log := s.log ++ pre }) (hps : pre = [Ev.start s.count (some m) t bytes,
      Ev.hook s.count (W.hash t) bytes]) (h2 : Inv s1 → Ran s1 s2) (hth : s2.thrown = true) :
    Ran s ((s2.emit (.threw s.count none)).finish s.count (some m) t bytes bytes s) := by
  have hpl : ∀ l, pre.foldl liveEv l = l := fun l => by rw [hps]; rfl
  have hpd : ∀ j, deliveries j pre = [] := fun j => by rw [hps]; rfl
  have i1 : Inv s1 := by
    subst h1
    refine ⟨hs.knows, hs.nodup, hs.room, ?_, fun r hr => ⟨(hs.sent r hr).1, (hs.sent r hr).2.mono _⟩⟩
    simp only [living, List.foldl_append, hpl]
    exact hs.live
  have r := h2 i1
  obtain ⟨n1, e1, l1, d1⟩ := r.log
  obtain ⟨x, hx⟩ := r.sent
  have hc1 : s.count + 1 ≤ s2.count := by have := r.count; rw [h1] at this; exact this
  have hs1c : s1.count = s.count + 1 := by rw [h1]
  have hsent : s2.sent = s.sent ++ x := by rw [hx, h1]
  have i3 := r.inv.emit (.threw s.count none) fun _ => rfl
  have hlog3 : (s2.emit (.threw s.count none)).log = s.log ++ (pre ++ n1 ++ [Ev.threw s.count none]) := by
    show s2.log ++ _ = _
    rw [e1, h1]
    simp only [List.append_assoc]
  have hnone : ∀ j, j < s.count + 1 → deliveries j (pre ++ n1 ++ [Ev.threw s.count none]) = [] := fun j hj => by
    rw [deliveries_append, deliveries_append, hpd, d1 j (by omega), threw_drop]
    rfl
  have hd := hnone s.count (by omega)
  refine ⟨⟨i3.knows, i3.nodup, i3.room, i3.live, fun rec hrec => ?_⟩, ?_, ?_, ?_, ?_⟩
  · simp only [St.finish, List.mem_append, List.mem_singleton] at hrec
    rcases hrec with hrec | hrec
    · exact i3.sent rec hrec
    · subst hrec
      rw [hlog3, List.drop_left]
      refine ⟨⟨rfl, fun p => ?_, fun d hd' => ?_, fun hc => ?_, fun hc => ?_, fun _ => ?_, fun _ => .inl ⟨⟨_, rfl⟩, hd⟩⟩, ?_, ?_⟩
      · simp only [times, hd]
        exact Nat.zero_le _
      · simp only [hd] at hd'
        simp at hd'
      · exact absurd (hth.symm.trans hc) (by simp)
      · exact absurd (hth.symm.trans hc) (by simp)
      · simp only [hd]
        exact List.nil_prefix
      · exact ⟨[], by simp only [St.finish, hlog3, List.append_nil]⟩
      · refine ⟨n1 ++ [Ev.threw s.count none], by rw [hps]; simp, ?_⟩
        unfold Middle
        rw [if_neg (by simp)]
        exact ⟨n1, _, rfl, d1 s.count (by omega), .inl ⟨hth, rfl⟩⟩
  · show s2.arr.length = s.arr.length
    rw [r.size, h1]
  · show s.count ≤ s2.count
    omega
  · exact ⟨x ++ [⟨s.count, some m, t, bytes, bytes, s2.thrown, s.log,
      (s2.emit (.threw s.count none)).log.drop s.log.length⟩], by
      simp only [St.finish, St.emit, hsent, List.append_assoc]⟩
  · refine ⟨_, hlog3, ?_, fun j hj => hnone j (by omega)⟩
    show s2.live = _
    rw [List.foldl_append, List.foldl_append, hpl, l1, h1]
    rfl

theorem overwrite_length (g : Nat → Byte) (bytes : List Byte) : (overwrite g bytes).length = bytes.length := by
  simp [overwrite]

theorem distribute_ran (hinj : ∀ a b, W.hash a = W.hash b → a = b) {call : Call W U} (hcall : CallOk call)
    {hook : U → Nat → List Byte → St W U → Res (St W U)} {edit : Edit U}
    (hhook : ∀ u id b s s', Inv s → s.thrown = false → hook u id b s = .ok s' → Ran s s') {m : Nat} {bytes : List Byte}
    {s : St W U} {s' : St W U × List Byte} (hs : Inv s) (hth : s.thrown = false)
    (h : distribute call hook edit m bytes s = .ok s') : Ran s s'.1 := by
  unfold distribute at h
  simp only at h
  generalize hs1 : ((({ s with count := s.count + 1 } : St W U).emit
    (.start s.count (some m) (W.sends m) bytes)).emit (.hook s.count (W.hash (W.sends m)) bytes)) = s1
  have hck : callHook hook s.count (W.hash (W.sends m)) bytes (({ s with count := s.count + 1 } : St W U).emit
      (.start s.count (some m) (W.sends m) bytes)) = hook s1.user (W.hash (W.sends m)) bytes s1 := by
    rw [← hs1]
    rfl
  have hth1 : s1.thrown = false := by rw [← hs1]; exact hth
  have hs1' : s1 = { s with count := s.count + 1, log := s.log ++ [Ev.start s.count (some m) (W.sends m) bytes,
      Ev.hook s.count (W.hash (W.sends m)) bytes] } := by
    rw [← hs1]
    simp [St.emit]
  rw [hck] at h
  cases h2 : hook s1.user (W.hash (W.sends m)) bytes s1 with
  | ok s2 =>
    rw [h2] at h
    simp only [Res.ok_bind, afterHook] at h
    cases hth2 : s2.thrown with
    | true =>
      rw [if_pos hth2] at h
      cases h
      exact hook_cut hs hs1' rfl (fun hi => hhook _ _ _ _ _ hi hth1 h2) hth2
    | false =>
      rw [if_neg (by rw [hth2]; exact Bool.false_ne_true)] at h
      cases h3 : deliver call s.count (W.hash (W.sends m)) (some m)
          (overwrite (edit s2.user (W.hash (W.sends m)) bytes) bytes) s2.arr.length 0
          (s2.emit (.left s.count (overwrite (edit s2.user (W.hash (W.sends m)) bytes) bytes))) with
      | ok s3 =>
        have h3' := h3
        change deliver call s.count (W.hash (W.sends m)) (some m)
          (overwrite (edit s2.user (W.hash (W.sends m)) bytes) bytes) (s2.emit (.left s.count
            (overwrite (edit s2.user (W.hash (W.sends m)) bytes) bytes))).arr.length 0
          (s2.emit (.left s.count (overwrite (edit s2.user (W.hash (W.sends m)) bytes) bytes))) = _ at h3'
        rw [h3'] at h
        simp only [Res.ok_bind, Res.ok.injEq] at h
        subst h
        exact message_ran hinj hcall (pre := [Ev.start s.count (some m) (W.sends m) bytes,
          Ev.hook s.count (W.hash (W.sends m)) bytes]) hs hs1' (fun _ => rfl) (fun _ => rfl) rfl
          (fun hi => hhook _ _ _ _ _ hi hth1 h2) hth2 rfl (overwrite_length _ _) (fun h' => nomatch h') h3
      | ub =>
        change deliver call s.count (W.hash (W.sends m)) (some m)
          (overwrite (edit s2.user (W.hash (W.sends m)) bytes) bytes) (s2.emit (.left s.count
            (overwrite (edit s2.user (W.hash (W.sends m)) bytes) bytes))).arr.length 0
          (s2.emit (.left s.count (overwrite (edit s2.user (W.hash (W.sends m)) bytes) bytes))) = _ at h3
        rw [h3] at h; simp at h
      | hang =>
        change deliver call s.count (W.hash (W.sends m)) (some m)
          (overwrite (edit s2.user (W.hash (W.sends m)) bytes) bytes) (s2.emit (.left s.count
            (overwrite (edit s2.user (W.hash (W.sends m)) bytes) bytes))).arr.length 0
          (s2.emit (.left s.count (overwrite (edit s2.user (W.hash (W.sends m)) bytes) bytes))) = _ at h3
        rw [h3] at h; simp at h
  | ub => rw [h2] at h; simp at h
  | hang => rw [h2] at h; simp at h

theorem castAll_ran (hinj : ∀ a b, W.hash a = W.hash b → a = b) {call : Call W U} (hcall : CallOk call)
    {t : Nat} {v : W.Val t} {s s' : St W U} (hs : Inv s) (hth : s.thrown = false)
    (h : castAll call t v s = .ok s') : Ran s s' := by
  unfold castAll at h
  simp only at h
  generalize hs1 : (({ s with count := s.count + 1 } : St W U).emit
    (.start s.count none t ((W.pod t).enc v))) = s1 at h
  have hth1 : s1.thrown = false := by rw [← hs1]; exact hth
  cases h3 : deliver call s.count (W.hash t) none ((W.pod t).enc v) s1.arr.length 0 s1 with
  | ok s3 =>
    rw [h3] at h
    simp only [Res.ok_bind, Res.ok.injEq] at h
    subst h
    refine message_ran hinj hcall (pre := [Ev.start s.count none t ((W.pod t).enc v)]) (post := []) (s2 := s1) hs
      (by rw [← hs1]; simp [St.emit]) (fun _ => rfl) (fun _ => rfl) rfl (fun hi => Ran.refl hi) hth1 rfl rfl
      (fun _ => rfl) ?_
    rw [List.append_nil]
    exact h3
  | ub => rw [h3] at h; simp at h
  | hang => rw [h3] at h; simp at h

/-- A message that ends is recorded. -/
theorem distribute_sent {call : Call W U} {hook : U → Nat → List Byte → St W U → Res (St W U)} {edit : Edit U} {m : Nat}
    {bytes : List Byte} {s : St W U} {s' : St W U × List Byte} (h : distribute call hook edit m bytes s = .ok s') :
    ∃ r ∈ s'.1.sent, r.num = s.count ∧ r.src = some m ∧ r.t = W.sends m ∧ r.bytes = bytes ∧ r.before = s.log ∧
      r.cut = s'.1.thrown ∧ r.told = s'.2 ∧ r.during = s'.1.log.drop s.log.length := by
  unfold distribute at h
  simp only at h
  generalize callHook hook _ _ _ _ = q at h
  cases q with
  | ub => simp at h
  | hang => simp at h
  | ok s2 =>
    simp only [Res.ok_bind, afterHook] at h
    by_cases hth : s2.thrown = true
    · rw [if_pos hth] at h
      cases h
      exact ⟨⟨s.count, some m, W.sends m, bytes, bytes, s2.thrown, s.log, _⟩, List.mem_append_right _
        (List.mem_singleton.2 rfl), rfl, rfl, rfl, rfl, rfl, rfl, rfl, rfl⟩
    · rw [if_neg hth] at h
      generalize deliver _ _ _ _ _ _ _ _ = q at h
      cases q with
      | ub => simp at h
      | hang => simp at h
      | ok s3 =>
        simp only [Res.ok_bind, Res.ok.injEq] at h
        subst h
        exact ⟨⟨s.count, some m, W.sends m, bytes, _, s3.thrown, s.log, _⟩, List.mem_append_right _
          (List.mem_singleton.2 rfl), rfl, rfl, rfl, rfl, rfl, rfl, rfl, rfl⟩

/-- A message of the manager that ends is recorded. -/
theorem castAll_sent {call : Call W U} {t : Nat} {v : W.Val t} {s s' : St W U} (h : castAll call t v s = .ok s') :
    ∃ r ∈ s'.sent, r.num = s.count ∧ r.src = none ∧ r.t = t ∧ r.bytes = (W.pod t).enc v ∧ r.before = s.log ∧
      r.cut = s'.thrown ∧ r.told = (W.pod t).enc v ∧ r.during = s'.log.drop s.log.length := by
  unfold castAll at h
  simp only at h
  generalize deliver _ _ _ _ _ _ _ _ = q at h
  cases q with
  | ub => simp at h
  | hang => simp at h
  | ok s3 =>
    simp only [Res.ok_bind, Res.ok.injEq] at h
    subst h
    exact ⟨⟨s.count, none, t, (W.pod t).enc v, (W.pod t).enc v, s3.thrown, s.log, _⟩, List.mem_append_right _
      (List.mem_singleton.2 rfl), rfl, rfl, rfl, rfl, rfl, rfl, rfl, rfl⟩

theorem Inv.thrown {s : St W U} (h : Inv s) (b : Bool) : Inv { s with thrown := b } :=
  ⟨⟨h.knows.cnt, h.knows.at_⟩, h.nodup, h.room, h.live, h.sent⟩

theorem Ran.thrown {s s' : St W U} (h : Ran s s') (b : Bool) : Ran s { s' with thrown := b } :=
  ⟨h.inv.thrown b, h.size, h.count, h.sent, h.log⟩

theorem Inv.user {s : St W U} (h : Inv s) (u : U) : Inv { s with user := u } :=
  ⟨⟨h.knows.cnt, h.knows.at_⟩, h.nodup, h.room, h.live, h.sent⟩

theorem Ran.user {s : St W U} (h : Inv s) (u : U) : Ran s { s with user := u } :=
  ⟨h.user u, rfl, Nat.le_refl _, ⟨[], by simp⟩, [], by simp, rfl, fun _ _ => rfl⟩

/-- Sequencing. -/
theorem bind_ran {r : Res (St W U)} {g : St W U → Res (St W U)} {s s' : St W U}
    (h1 : ∀ s1, r = .ok s1 → Ran s s1) (h2 : ∀ s1, Inv s1 → g s1 = .ok s' → Ran s1 s')
    (h : (r >>= g) = .ok s') : Ran s s' := by
  cases r with
  | ok s1 => exact (h1 s1 rfl).trans (h2 s1 (h1 s1 rfl).inv (by simpa using h))
  | ub => simp at h
  | hang => simp at h

theorem onward_ran {g : St W U → Res (St W U)} {s s' : St W U} (hs : Inv s)
    (hg : s.thrown = false → g s = .ok s' → Ran s s') (h : onward g s = .ok s') : Ran s s' := by
  unfold onward at h
  by_cases hth : s.thrown = true
  · rw [if_pos hth] at h
    cases h
    exact Ran.refl hs
  · rw [if_neg hth] at h
    exact hg (by simpa using hth) h

theorem make_thrown {s s' : St W U} {c : Nat} (h : make s c = .ok s') : s'.thrown = s.thrown := by
  unfold make at h
  by_cases hc : c ∈ s.live
  · rw [if_pos hc] at h
    cases h
    rfl
  · rw [if_neg hc] at h
    generalize addModule s.reg c = q at h
    cases q with
    | ok r =>
      simp only [Res.ok_bind, Res.ok.injEq] at h
      rw [← h]
    | ub => simp at h
    | hang => simp at h

theorem drop_thrown {s s' : St W U} {c : Nat} (h : drop s c = .ok s') : s'.thrown = s.thrown := by
  unfold drop at h
  by_cases hc : c ∈ s.live
  · rw [if_pos hc] at h
    generalize removeModule s.reg c = q at h
    cases q with
    | ok r =>
      simp only [Res.ok_bind, Res.ok.injEq] at h
      rw [← h]
    | ub => simp at h
    | hang => simp at h
  · rw [if_neg hc] at h
    cases h
    rfl

theorem exec_ran (hinj : ∀ a b, W.hash a = W.hash b → a = b) (H : Handlers W U) :
    ∀ (f : Nat) (p : Prog W U) (s s' : St W U), Inv s → s.thrown = false → exec H f p s = .ok s' → Ran s s'
  | 0, _, _, _, _, _, h => by simp [exec] at h
  | f + 1, p, s, s', hs, hth, h => by
    have ih := exec_ran hinj H f
    have hcall : CallOk (fun u m t v => exec H f (H.data u m t v)) := fun u m t v s s' hs ht h => ih _ s s' hs ht h
    have hdist : ∀ (m : Nat) (bytes : List Byte) (g : List Byte → St W U → Res (St W U)),
        (∀ b s1, Inv s1 → s1.thrown = false → g b s1 = .ok s' → Ran s1 s') →
        (distribute (fun u m t v => exec H f (H.data u m t v)) (fun u id b => exec H f (H.hook u id b)) H.edit m bytes s >>=
          fun r => onward (g r.2) r.1) = .ok s' → Ran s s' := by
      intro m bytes g hg h
      cases hd : distribute (fun u m t v => exec H f (H.data u m t v)) (fun u id b => exec H f (H.hook u id b)) H.edit m
          bytes s with
      | ok r =>
        rw [hd] at h
        simp only [Res.ok_bind] at h
        have h1 := distribute_ran hinj hcall (fun _ _ _ _ _ hs ht h => ih _ _ _ hs ht h) hs hth hd
        exact h1.trans (onward_ran h1.inv (fun ht h2 => hg _ _ h1.inv ht h2) h)
      | ub => rw [hd] at h; simp at h
      | hang => rw [hd] at h; simp at h
    cases p with
    | ret u =>
      rw [exec] at h
      cases h
      exact Ran.user hs u
    | send m v k =>
      rw [exec] at h
      by_cases hm : m ∈ s.live
      · rw [if_pos hm] at h
        exact hdist m _ (fun _ s => exec H f (k s.user) s) (fun _ s1 i1 t1 h1 => ih _ _ _ i1 t1 h1) h
      · rw [if_neg hm] at h
        exact ih _ _ _ hs hth h
    | raw m bytes k =>
      rw [exec] at h
      by_cases hm : m ∈ s.live
      · rw [if_pos hm] at h
        exact hdist m _ (fun b s => exec H f (k s.user b) s) (fun _ s1 i1 t1 h1 => ih _ _ _ i1 t1 h1) h
      · rw [if_neg hm] at h
        exact ih _ _ _ hs hth h
    | cast t v k =>
      rw [exec] at h
      exact bind_ran (fun s1 h1 => castAll_ran hinj hcall hs hth h1)
        (fun s1 i1 h1 => onward_ran i1 (fun ht h2 => ih _ _ _ i1 ht h2) h1) h
    | make m k =>
      rw [exec] at h
      cases he : make s m with
      | ok s1 =>
        rw [he] at h
        simp only [Res.ok_bind] at h
        have h1 := make_ran hs he
        exact h1.trans (ih _ _ _ h1.inv ((make_thrown he).trans hth) h)
      | ub => rw [he] at h; simp at h
      | hang => rw [he] at h; simp at h
    | drop m k =>
      rw [exec] at h
      cases he : drop s m with
      | ok s1 =>
        rw [he] at h
        simp only [Res.ok_bind] at h
        have h1 := drop_ran hs he
        exact h1.trans (ih _ _ _ h1.inv ((drop_thrown he).trans hth) h)
      | ub => rw [he] at h; simp at h
      | hang => rw [he] at h; simp at h
    | throw u =>
      rw [exec] at h
      cases h
      exact (Ran.user hs u).thrown true
    | attempt p k =>
      rw [exec] at h
      cases he : exec H f p s with
      | ok s1 =>
        rw [he] at h
        simp only [Res.ok_bind] at h
        have h1 := (ih _ _ _ hs hth he).thrown false
        exact h1.trans (ih _ _ _ h1.inv rfl h)
      | ub => rw [he] at h; simp at h
      | hang => rw [he] at h; simp at h

theorem Inv.new (sources : Nat) (u : U) : Inv (St.new sources u : St W U) :=
  ⟨⟨rfl, fun i hi => absurd hi (Nat.not_lt_zero i)⟩, List.nodup_nil, Nat.zero_le _, rfl,
    fun r hr => absurd hr (by simp [St.new])⟩

theorem Reach.inv (hinj : ∀ a b, W.hash a = W.hash b → a = b) {H : Handlers W U} {sources : Nat} {s : St W U}
    (h : Reach H sources s) : Inv s ∧ s.arr.length = sources ∧ s.thrown = false := by
  induction h with
  | new u => exact ⟨Inv.new sources u, by simp [St.new], rfl⟩
  | run s s' f p _ he ht ih =>
    have := exec_ran hinj H f p s s' ih.1 ih.2.2 he
    exact ⟨this.inv, this.size.trans ih.2.1, ht⟩

end Verif.Mediator.Dyn
