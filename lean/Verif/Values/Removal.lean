import Verif.Values.ReentrantProps
/-! C87 for functions that also remove objects: what holds of the objects registered first. -/
namespace Verif.Values.Re
open Verif

variable {U : Type}

/-- The slots behind the registered objects do not change. -/
theorem add_behind {max : Nat} {s s' : St U} {r : Ret} (h : Inv max s) {o : Nat}
    (hr : add s o = .ok (s', r)) : s'.log = s.log ∧ ∀ j, s'.count ≤ j → s'.arr[j]? = s.arr[j]? := by
  unfold add at hr
  split at hr
  · cases hr; exact ⟨rfl, fun _ _ => rfl⟩
  · split at hr
    · cases hr
      refine ⟨rfl, fun j hj => ?_⟩
      simp only at hj ⊢
      rw [List.getElem?_set_ne (by omega)]
    · cases hr; exact ⟨rfl, fun _ _ => rfl⟩

theorem remove_behind {max : Nat} {s s' : St U} {r : Ret} (h : Inv max s) {o : Nat}
    (hr : remove s o = .ok (s', r)) : s'.log = s.log ∧ ∀ j, s'.count ≤ j → s'.arr[j]? = s.arr[j]? := by
  have hl := h.len
  have hle := h.le
  unfold remove at hr
  rw [if_neg (by omega)] at hr
  split at hr
  · cases hr; exact ⟨rfl, fun _ _ => rfl⟩
  · have key : ∀ j, (stdRemove (some o) (s.arr.take s.count)).2 ≤ j →
        ((stdRemove (some o) (s.arr.take s.count)).1 ++ s.arr.drop s.count)[j]? = s.arr[j]? := by
      intro j hj
      simp only [stdRemove] at hj ⊢
      have hk : (List.filter (fun y => decide (y ≠ some o)) (s.arr.take s.count)).length
          ≤ (s.arr.take s.count).length := List.length_filter_le _ _
      rw [List.append_assoc, List.getElem?_append_right hj]
      rw [← List.drop_append_of_le_length hk, List.take_append_drop, List.getElem?_drop]
      congr 1
      omega
    have hle2 : (stdRemove (some o) (s.arr.take s.count)).2 ≤ s.count := by
      simp only [stdRemove]
      refine Nat.le_trans (List.length_filter_le _ _) ?_
      rw [List.length_take]
      omega
    generalize stdRemove (some o) (s.arr.take s.count) = p at hr key hle2
    simp only at hr
    split at hr
    · cases hr
      exact ⟨rfl, key⟩
    · rename_i hc
      cases hr
      refine ⟨rfl, fun j hj => key j ?_⟩
      simp only at hj
      omega

/-- The objects in `pre` are the first registered ones, and no slot behind them that a loop over `N` slots
can reach holds one of them. -/
structure Front (max : Nat) (pre : List Nat) (N : Nat) (s : St U) : Prop where
  inv : Inv max s
  fst : pre <+: regs s
  clean : ∀ j x, pre.length ≤ j → j < N → x ∈ pre → s.arr[j]? ≠ some (some x)

theorem nth_not_front {pre l : List Nat} (hn : l.Nodup) (hp : pre <+: l) {j x : Nat}
    (hj : pre.length ≤ j) (hx : x ∈ pre) : l[j]? ≠ some x := by
  obtain ⟨rest, rfl⟩ := hp
  intro h
  rw [List.getElem?_append_right hj] at h
  exact (List.nodup_append.1 hn).2.2 x hx x (List.mem_of_getElem? h) rfl

theorem Front.next {max : Nat} {pre : List Nat} {N : Nat} {s s' : St U} (h : Front max pre N s)
    (hi : Inv max s') (hp : pre <+: regs s') (hb : ∀ j, s'.count ≤ j → s'.arr[j]? = s.arr[j]?) :
    Front max pre N s' := by
  refine ⟨hi, hp, fun j x hj hN hx he => ?_⟩
  by_cases hc : j < s'.count
  · rw [hi.slots j hc] at he
    exact nth_not_front hi.nodup hp hj hx (Option.some.inj he)
  · rw [hb j (by omega)] at he
    exact h.clean j x hj hN hx he

/-- Calls that cannot remove an object of `pre`: registrations, and removals of others. -/
def Spares (pre : List Nat) (op : Op) : Prop := (∃ o, op = .add o) ∨ ∃ o, o ∉ pre ∧ op = .remove o

theorem exec_front {T : IntTy} {H : Handlers U} {max : Nat} {pre : List Nat} {N n : Nat} {s s' : St U}
    {op : Op} {r : Ret} (hop : Spares pre op) (h : Front max pre N s)
    (hr : exec H T n s op = .ok (s', r)) :
    Front max pre N s' ∧ s'.log = s.log ∧ s'.held = s.held := by
  cases n with
  | zero => cases hr
  | succ n =>
    rcases hop with ⟨o, rfl⟩ | ⟨o, ho, rfl⟩
    · have hr : add s o = .ok (s', r) := hr
      obtain ⟨a, -, b, c, -, -⟩ := add_spec h.inv hr
      obtain ⟨l, k⟩ := add_behind h.inv hr
      refine ⟨h.next a ?_ k, l, c⟩
      rw [b]
      split
      · exact h.fst.trans (List.prefix_append _ _)
      · exact h.fst
    · have hr : remove s o = .ok (s', r) := hr
      obtain ⟨a, -, b, c, -, -⟩ := remove_spec h.inv hr
      obtain ⟨l, k⟩ := remove_behind h.inv hr
      refine ⟨h.next a ?_ k, l, c⟩
      rw [b]
      obtain ⟨rest, hrest⟩ := h.fst
      rw [← hrest, List.filter_append]
      have : pre.filter (· != o) = pre := by
        rw [List.filter_eq_self]
        intro x hx
        simp only [bne_iff_ne, ne_eq]
        intro he
        exact ho (he ▸ hx)
      rw [this]
      exact List.prefix_append _ _

theorem runProg_front {T : IntTy} {H : Handlers U} {max : Nat} {pre : List Nat} {N n : Nat}
    (p : Prog U) (hp : p.Only (Spares pre)) {s s' : St U} (h : Front max pre N s)
    (hr : runProg (exec H T n) p s = .ok s') :
    Front max pre N s' ∧ s'.log = s.log ∧ s'.held = s.held := by
  induction p generalizing s with
  | ret u =>
    simp only [runProg, Res.ok.injEq] at hr
    subst hr
    exact ⟨⟨h.inv.congr rfl rfl, h.fst, h.clean⟩, rfl, rfl⟩
  | set u k ih => exact ih hp (s := { s with user := u }) ⟨h.inv.congr rfl rfl, h.fst, h.clean⟩ hr
  | call op k ih =>
    simp only [runProg] at hr
    cases he : exec H T n s op with
    | ub => rw [he] at hr; cases hr
    | hang => rw [he] at hr; cases hr
    | ok r =>
      rw [he, Res.ok_bind] at hr
      obtain ⟨a, b, c⟩ := exec_front hp.1 h he
      obtain ⟨a', b', c'⟩ := ih r.2 r.1.user (hp.2 _ _) a hr
      exact ⟨a', b'.trans b, c'.trans c⟩

theorem notifyLoop_front {T : IntTy} {H : Handlers U} {max : Nat} {pre : List Nat} {n : Nat} {v : Int}
    (hH : ∀ u o w, (H.update u o w).Only (Spares pre)) (left i : Nat) (s s' : St U)
    (h : Front max pre (i + left) s) (hr : notifyLoop (exec H T n) H v i left s = .ok s') :
    Front max pre (i + left) s' ∧ ∃ calls : List Nat, calls.length = left ∧
      s'.log = s.log ++ calls.map (fun o => (o, v)) ∧
      (∀ o, s'.held o = if o ∈ calls then v else s.held o) ∧
      ∀ k x, calls[k]? = some x →
        (i + k < pre.length → pre[i + k]? = some x) ∧ (pre.length ≤ i + k → x ∉ pre) := by
  induction left generalizing i s with
  | zero =>
    simp only [notifyLoop, Res.ok.injEq] at hr
    subst hr
    exact ⟨h, [], rfl, by simp, by simp, by intro k x h; simp at h⟩
  | succ left ih =>
    simp only [notifyLoop] at hr
    cases hd : deref s i with
    | ub => rw [hd] at hr; cases hr
    | hang => rw [hd] at hr; cases hr
    | ok o =>
      have hsl : s.arr[i]? = some (some o) := by
        unfold deref at hd
        cases hq : s.arr[i]? with
        | none => rw [hq] at hd; cases hd
        | some x =>
          cases x with
          | none => rw [hq] at hd; cases hd
          | some y => rw [hq] at hd; cases hd; rfl
      rw [hd] at hr
      simp only [Res.ok_bind, deliver] at hr
      cases ht : runProg (exec H T n) (H.update s.user o v)
          { s with held := fun p => if p = o then v else s.held p, log := s.log ++ [(o, v)] } with
      | ub => rw [ht] at hr; cases hr
      | hang => rw [ht] at hr; cases hr
      | ok t =>
        rw [ht] at hr
        simp only [Res.ok_bind] at hr
        obtain ⟨ft, lt, ht'⟩ := runProg_front (pre := pre) (N := i + (left + 1)) (max := max) _ (hH _ _ _)
          (s := { s with held := fun p => if p = o then v else s.held p, log := s.log ++ [(o, v)] })
          ⟨h.inv.congr rfl rfl, h.fst, h.clean⟩ ht
        have e1 : i + (left + 1) = i + 1 + left := by omega
        obtain ⟨fs, calls, hlen, hlog, hheld, hfr⟩ := ih (i + 1) t (by rw [← e1]; exact ft) hr
        refine ⟨by rw [e1]; exact fs, o :: calls, by simp [hlen], ?_, ?_, ?_⟩
        · rw [hlog, lt]; simp
        · intro p
          rw [hheld p, ht']
          by_cases h1 : p ∈ calls
          · simp [h1]
          · by_cases h2 : p = o <;> simp [h1, h2]
        · intro k x hx
          cases k with
          | succ k =>
            rw [show i + (k + 1) = i + 1 + k by omega]
            exact hfr k x (by simpa using hx)
          | zero =>
            simp only [List.getElem?_cons_zero, Option.some.injEq] at hx
            subst hx
            simp only [Nat.add_zero]
            refine ⟨fun hlt => ?_, fun hle hx => h.clean i o hle (by omega) hx hsl⟩
            have hcnt : i < s.count := by
              rw [← h.inv.cnt]
              exact Nat.lt_of_lt_of_le hlt h.fst.length_le
            have h1 := h.inv.slots i hcnt
            rw [hsl] at h1
            have h2 : (regs s)[i]? = some o := (Option.some.inj h1).symm
            obtain ⟨rest, hrest⟩ := h.fst
            rw [← hrest, List.getElem?_append_left hlt] at h2
            exact h2

/-- **C87 for the objects registered first (partial).**  The functions may register and remove objects, but they
remove none of the first registered objects `pre`: then an update tells the value first to the objects in
`pre`, in order, and to nobody of them again; they stay registered and hold the value; the number of objects told
is the number of objects registered when the update starts; objects not told keep their values.  So an object
is told exactly once unless it or an object registered before it is removed.

Missing: the objects behind a removed one (`C87_skip_refuted`, `C87_removed_refuted`). -/
theorem C87_front_partial {T : IntTy} {H : Handlers U} {max : Nat} {s : St U} (h : Reach H T max s)
    (pre : List Nat) (hpre : pre <+: regs s)
    (hH : ∀ u o w, (H.update u o w).Only fun op => (∃ o, op = .add o) ∨ ∃ o, o ∉ pre ∧ op = .remove o)
    {u : Upd} {n : Nat} {s' : St U} {v : Int} (hr : exec H T n s (.upd u) = .ok (s', .val v)) :
    pre <+: regs s' ∧ (∀ o ∈ pre, s'.held o = v) ∧
    ∃ rest : List Nat, s'.log = s.log ++ (pre ++ rest).map (fun o => (o, v)) ∧ (∀ x ∈ pre, x ∉ rest) ∧
      pre.length + rest.length = (regs s).length ∧
      ∀ o, o ∉ pre ++ rest → s'.held o = s.held o := by
  have hi := h.inv
  cases n with
  | zero => cases hr
  | succ n =>
    simp only [exec, execStep, update] at hr
    cases hv : result T s.value u with
    | ub => rw [hv] at hr; cases hr
    | hang => rw [hv] at hr; cases hr
    | ok w =>
      rw [hv, Res.ok_bind, notify] at hr
      have hle := hi.le
      have hlen := hi.len
      rw [if_neg (by simp only; omega)] at hr
      simp only at hr
      cases hl : notifyLoop (exec H T n) H w 0 s.count { s with value := stored T s.value u } with
      | ub => rw [hl] at hr; cases hr
      | hang => rw [hl] at hr; cases hr
      | ok t =>
        rw [hl] at hr
        simp only [Res.ok_bind, Res.ok.injEq, Prod.mk.injEq, Ret.val.injEq] at hr
        obtain ⟨rfl, rfl⟩ := hr
        have hi' : Inv max { s with value := stored T s.value u } := hi.congr rfl rfl
        obtain ⟨ft, calls, hcl, hlog, hheld, hfr⟩ := notifyLoop_front (max := max) hH s.count 0
          { s with value := stored T s.value u } t
          ⟨hi', hpre, fun j x hj hN hx he => by
            rw [Nat.zero_add] at hN
            rw [hi'.slots j hN] at he
            exact nth_not_front hi'.nodup hpre hj hx (Option.some.inj he)⟩ hl
        simp only [Nat.zero_add] at hfr
        have hpl : pre.length ≤ calls.length := by rw [hcl, ← hi.cnt]; exact hpre.length_le
        have htake : calls.take pre.length = pre := by
          apply List.ext_getElem?
          intro k
          by_cases hk : k < pre.length
          · rw [List.getElem?_take_of_lt hk]
            have hk' : k < calls.length := by omega
            rw [(hfr k _ (List.getElem?_eq_getElem hk')).1 hk, List.getElem?_eq_getElem hk']
          · rw [List.getElem?_eq_none (by simp only [List.length_take]; omega),
              List.getElem?_eq_none (by omega)]
        have hsplit : calls = pre ++ calls.drop pre.length := by
          conv => lhs; rw [← List.take_append_drop pre.length calls, htake]
        refine ⟨ft.fst, ?_, calls.drop pre.length, by rw [← hsplit]; exact hlog, ?_, ?_, ?_⟩
        · intro o ho
          rw [hheld o, if_pos (by rw [hsplit]; exact List.mem_append_left _ ho)]
        · intro x hx hm
          obtain ⟨k, hk⟩ := List.getElem?_of_mem hm
          rw [List.getElem?_drop] at hk
          exact (hfr (pre.length + k) x hk).2 (by omega) hx
        · rw [List.length_drop, hi.cnt, ← hcl]
          omega
        · intro o ho
          rw [← hsplit] at ho
          rw [hheld o, if_neg ho]

/-- Objects 2, 1, 3 are registered; the function of object 1 removes object 3: objects 2 and 1 are told once
each. -/
example : ∃ s, Reach (remover 3) .int 4 s ∧ regs s = [2, 1, 3] ∧
    (∀ u o w, ((remover 3).update u o w).Only fun op => (∃ o, op = .add o) ∨ ∃ o, o ∉ [2, 1] ∧ op = .remove o) ∧
    ∃ s', exec (remover 3) .int 2 s (.upd (.assign 5)) = .ok (s', .val 5) ∧ regs s' = [2, 1] ∧
      s'.log = [(2, 5), (1, 5), (3, 5)] :=
  have h : ∃ s, runAll (remover 3) .int 2 [.add 2, .add 1, .add 3] (St.new 4 ()) = .ok s ∧ regs s = [2, 1, 3] ∧
      ∃ s', exec (remover 3) .int 2 s (.upd (.assign 5)) = .ok (s', .val 5) ∧ regs s' = [2, 1] ∧
        s'.log = [(2, 5), (1, 5), (3, 5)] := ⟨_, rfl, rfl, _, rfl, rfl, rfl⟩
  let ⟨s, h1, h2, h3⟩ := h
  ⟨s, runAll_reach _ (Reach.new (max := 4) ()) h1, h2, by
    intro u o w
    simp only [remover]
    split <;> simp [Prog.Only], h3⟩

end Verif.Values.Re
