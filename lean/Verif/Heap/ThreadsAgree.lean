import Verif.Heap.Threads
import Verif.Heap.AllocSpec
/-!
A call of `Threads` that is made without interruption does what the function of `Model` does.
-/
namespace Verif.Heap.Conc
open Verif Verif.HB

attribute [local irreducible] wsub wadd wmul Prog.run

/-- The members that do not change. -/
def fixedOf (h : Heap) : Fixed := ⟨h.size, h.startAddr, h.pxEnd⟩

theorem run_ld (h : Heap) (a : Nat) (k : Nat → Prog) : (Prog.ld a k).run h = (h.ld a >>= fun v => (k v).run h) := by
  simp only [Prog.run, ok, Heap.ld]
  split <;> simp [*]

theorem run_st (h : Heap) (a v : Nat) (k : Prog) : (Prog.st a v k).run h = (h.st a v >>= fun h' => k.run h') := by
  simp only [Prog.run, ok, Heap.st]
  split <;> simp [*]

theorem bind_twice {α β : Type} (x : Res α) (f : α → α → Res β) :
    (x >>= fun v => (x >>= fun v' => f v v')) = (x >>= fun v => f v v) := by
  cases x <;> simp

theorem bind_assoc {α β γ : Type} (x : Res α) (f : α → Res β) (g : β → Res γ) :
    ((x >>= f) >>= g) = (x >>= fun a => f a >>= g) := by
  cases x <;> simp

theorem findFit_run (h : Heap) (w : Nat) (k : Nat → Nat → Prog) : ∀ (fuel prev blk : Nat),
    (findFit w k fuel prev blk).run h = (h.findFit w fuel prev blk >>= fun r => (k r.1 r.2).run h)
  | 0, _, _ => by simp only [findFit, Heap.findFit, Prog.run, Res.hang_bind]
  | fuel + 1, prev, blk => by
    simp only [findFit, run_ld, Heap.findFit, bind_assoc]
    congr 1; funext sz
    split
    · rw [run_ld, bind_assoc]
      have : ∀ nx, ((if nx ≠ protect 0 then Prog.ld (blk + offNext) fun nx => findFit w k fuel blk (protect nx)
          else k prev blk).run h) = if nx ≠ protect 0 then (h.ld (blk + offNext) >>= fun nx => (h.findFit w fuel blk (protect nx) >>= fun r => (k r.1 r.2).run h)) else (k prev blk).run h := by
        intro nx
        split
        · rw [run_ld]
          congr 1; funext nx
          exact findFit_run h w k fuel blk (protect nx)
        · rfl
      simp only [this]
      cases h.ld (blk + offNext) with
      | ok nx => simp only [Res.ok_bind]; split <;> simp
      | ub => simp only [Res.ub_bind]
      | hang => simp only [Res.hang_bind]
    · simp

theorem split_run (h : Heap) (prev blk w : Nat) (k : Prog) :
    (split prev blk w k).run h = (h.split prev blk w >>= fun h' => k.run h') := by
  simp only [split, Heap.split, run_ld, bind_assoc]
  cases hb : h.ld (blk + offSize) with
  | ok bs =>
    simp only [Res.ok_bind]
    by_cases hc : wsub bs w > minBlock
    · rw [if_pos hc, if_pos hc]
      simp only [run_ld, run_st, hb, Res.ok_bind, bind_assoc]
    · rw [if_neg hc, if_neg hc, Res.ok_bind]
  | ub => simp only [Res.ub_bind]
  | hang => simp only [Res.hang_bind]

theorem bind_congr {α β : Type} (x : Res α) {f g : α → Res β} (h : ∀ a, f a = g a) : (x >>= f) = (x >>= g) := by
  rw [show f = g from funext h]

theorem mark_run (h : Heap) (blk bs : Nat) (hb : h.ld (blk + offSize) = .ok bs) (k : Prog) :
    (mark blk k).run h = (h.st (blk + offSize) (bs ||| allocBit) >>= fun h => h.st (blk + offNext) (protect 0) >>= fun h =>
      k.run { h with nAlloc := wadd h.nAlloc 1 }) := by
  unfold mark
  rw [run_ld, hb, Res.ok_bind, run_ld, hb, Res.ok_bind, run_st]
  refine bind_congr _ fun h1 => ?_
  rw [run_st]
  refine bind_congr _ fun h2 => ?_
  rw [Prog.run, Prog.run]
  rfl

/-- The heap after `account`. -/
def accounted (h : Heap) (bs : Nat) : Heap :=
  if wsub h.freeBytes bs < h.minEver then { h with freeBytes := wsub h.freeBytes bs, minEver := wsub h.freeBytes bs }
  else { h with freeBytes := wsub h.freeBytes bs }

theorem accounted_ld (h : Heap) (bs a : Nat) : (accounted h bs).ld a = h.ld a := by
  unfold accounted
  by_cases hc : wsub h.freeBytes bs < h.minEver
  · rw [if_pos hc]; simp only [Heap.ld]
  · rw [if_neg hc]; simp only [Heap.ld]

theorem var_free (h : Heap) : var h .free = h.freeBytes := rfl
theorem set_free (h : Heap) (v : Nat) : setVar h .free v = { h with freeBytes := v } := rfl
theorem set_min (h : Heap) (v : Nat) : setVar h .minEver v = { h with minEver := v } := rfl
theorem var_set_free (h : Heap) (v : Nat) : var (setVar h .free v) .free = v := rfl
theorem var_set_min (h : Heap) (v : Nat) : var (setVar h .free v) .minEver = h.minEver := rfl

theorem account_run (h : Heap) (blk bs : Nat) (hb : h.ld (blk + offSize) = .ok bs) (k : Prog) :
    (account blk k).run h = k.run (accounted h bs) := by
  unfold account accounted
  rw [run_ld, hb, Res.ok_bind, Prog.run, Prog.run, Prog.run, Prog.run, var_free, var_set_free, var_set_min]
  generalize wsub h.freeBytes bs = f
  by_cases hc : f < h.minEver
  · rw [if_pos hc, if_pos hc, Prog.run, Prog.run, var_set_free, set_min, set_free]
  · rw [if_neg hc, if_neg hc, set_free]

theorem take_run (h : Heap) (prev blk w : Nat) (k : Nat → Prog) :
    (take prev blk w k).run h = (h.take prev blk w >>= fun r => (k r.2).run r.1) := by
  unfold take Heap.take
  rw [run_ld, bind_assoc]
  refine bind_congr _ fun pn => ?_
  rw [run_ld, bind_assoc]
  refine bind_congr _ fun bn => ?_
  rw [run_st, bind_assoc]
  refine bind_congr _ fun h1 => ?_
  rw [split_run, bind_assoc]
  refine bind_congr _ fun h2 => ?_
  cases hb : h2.ld (blk + offSize) with
  | ok bs =>
    rw [Res.ok_bind, account_run h2 blk bs hb, mark_run _ blk bs ((accounted_ld h2 bs _).trans hb), bind_assoc]
    have e : (if ({ h2 with freeBytes := wsub h2.freeBytes bs } : Heap).freeBytes < ({ h2 with freeBytes := wsub h2.freeBytes bs } : Heap).minEver
        then ({ h2 with freeBytes := wsub h2.freeBytes bs, minEver := wsub h2.freeBytes bs } : Heap) else { h2 with freeBytes := wsub h2.freeBytes bs }) = accounted h2 bs := by
      rfl
    simp only [] at e ⊢
    rw [e]
    refine bind_congr _ fun h3 => ?_
    rw [bind_assoc]
    refine bind_congr _ fun h4 => ?_
    rw [Res.ok_bind]
  | ub => unfold account; rw [run_ld, hb]; simp only [Res.ub_bind]
  | hang => unfold account; rw [run_ld, hb]; simp only [Res.hang_bind]

theorem run_get (h : Heap) (x : Var) (k : Nat → Prog) : (Prog.get x k).run h = (k (var h x)).run h := by rw [Prog.run]
theorem run_set (h : Heap) (x : Var) (v : Nat) (k : Prog) : (Prog.set x v k).run h = k.run (setVar h x v) := by
  rw [Prog.run]
theorem run_call (h : Heap) (k : Prog) : (Prog.call k).run h = k.run { h with callbackCalls := h.callbackCalls + 1 } := by
  rw [Prog.run]

theorem allocCore_run (h : Heap) (w : Nat) (k : Nat → Prog) :
    (allocCore (fixedOf h) w k).run h = (h.allocCore w >>= fun r => (k r.2).run r.1) := by
  unfold allocCore Heap.allocCore
  by_cases h1 : sizeIsValid w = true
  · rw [if_pos h1, if_pos h1]
    by_cases h2 : w > 0
    · rw [if_pos h2, run_get, var_free]
      by_cases h3 : w ≤ h.freeBytes
      · rw [if_pos h3, if_pos ⟨h2, h3⟩, run_ld, bind_assoc]
        refine bind_congr _ fun first => ?_
        rw [findFit_run, bind_assoc]
        refine bind_congr _ fun ⟨prev, blk⟩ => ?_
        simp only [show (fixedOf h).pxEnd = h.pxEnd from rfl]
        by_cases h4 : blk ≠ h.pxEnd
        · rw [if_pos h4, if_pos h4, take_run]
        · rw [if_neg h4, if_neg h4, Res.ok_bind]
      · rw [if_neg h3, if_neg fun h => h3 h.2, Res.ok_bind]
    · rw [if_neg h2, if_neg fun h => h2 h.1, Res.ok_bind]
  · rw [if_neg h1, if_neg h1, Res.ok_bind]

theorem allocate_run (h : Heap) (n : Nat) (k : Nat → Prog) :
    (allocate (fixedOf h) n k).run h = (h.allocate n >>= fun r => (k r.2).run r.1) := by
  unfold allocate Heap.allocate
  rw [allocCore_run, bind_assoc]
  refine bind_congr _ fun r => ?_
  rw [Res.ok_bind]
  unfold Heap.fireCallback
  by_cases h0 : r.2 = 0
  · rw [if_pos h0, run_get]
    cases hc : r.1.callback with
    | true =>
      rw [show var r.1 .callback = 1 by simp [var, hc], if_pos (by decide), run_call, if_pos ⟨h0, rfl⟩]
      simp only [hc]
    | false =>
      rw [show var r.1 .callback = 0 by simp [var, hc], if_neg (by decide), if_neg (fun h => by cases h.2)]
  · rw [if_neg h0, if_neg fun h => h0 h.1]

theorem findPos_run (h : Heap) (blk : Nat) (k : Nat → Prog) : ∀ (fuel it : Nat),
    (findPos blk k fuel it).run h = (h.findPos blk fuel it >>= fun r => (k r).run h)
  | 0, _ => by simp only [findPos, Heap.findPos, Prog.run, Res.hang_bind]
  | fuel + 1, it => by
    simp only [findPos, run_ld, Heap.findPos, bind_assoc]
    cases hn : h.ld (it + offNext) with
    | ok nx =>
      simp only [Res.ok_bind]
      split
      · rw [run_ld, hn, Res.ok_bind]
        exact findPos_run h blk k fuel (protect nx)
      · simp
    | ub => simp only [Res.ub_bind]
    | hang => simp only [Res.hang_bind]

theorem mergeBefore_run (h : Heap) (it blk : Nat) (k : Nat → Prog) :
    (mergeBefore it blk k).run h = (h.mergeBefore it blk >>= fun r => (k r.2).run r.1) := by
  simp only [mergeBefore, Heap.mergeBefore, run_ld, bind_assoc]
  cases hi : h.ld (it + offSize) with
  | ok isz =>
    simp only [Res.ok_bind]
    split
    · simp only [run_ld, run_st, hi, Res.ok_bind, bind_assoc]
    · simp
  | ub => simp only [Res.ub_bind]
  | hang => simp only [Res.hang_bind]

theorem mergeAfter_run (h : Heap) (it ins : Nat) (k : Prog) :
    (mergeAfter (fixedOf h) it ins k).run h = (h.mergeAfter it ins >>= fun h' => k.run h') := by
  simp only [mergeAfter, Heap.mergeAfter, run_ld, bind_assoc]
  cases hs : h.ld (ins + offSize) with
  | ok sz =>
    simp only [Res.ok_bind]
    cases hn : h.ld (it + offNext) with
    | ok nx =>
      simp only [Res.ok_bind]
      split
      · rw [run_ld, hn, Res.ok_bind]
        by_cases h4 : protect nx ≠ h.pxEnd
        · rw [if_pos h4, show (fixedOf h).pxEnd = h.pxEnd from rfl, if_pos h4]
          simp only [run_ld, run_st, hn, hs, Res.ok_bind, bind_assoc]
        · rw [if_neg h4, show (fixedOf h).pxEnd = h.pxEnd from rfl, if_neg h4, run_st]
      · simp only [run_ld, hn, run_st, Res.ok_bind]
    | ub => simp only [Res.ub_bind]
    | hang => simp only [Res.hang_bind]
  | ub => simp only [Res.ub_bind]
  | hang => simp only [Res.hang_bind]

theorem st_fixed {h h' : Heap} {a v : Nat} (e : h.st a v = .ok h') : fixedOf h' = fixedOf h := by
  unfold Heap.st at e
  split at e
  · cases e; rfl
  · cases e

theorem mergeBefore_fixed {h : Heap} {it blk : Nat} {r : Heap × Nat} (e : h.mergeBefore it blk = .ok r) :
    fixedOf r.1 = fixedOf h := by
  simp only [Heap.mergeBefore] at e
  cases h1 : h.ld (it + offSize) with
  | ok isz =>
    rw [h1, Res.ok_bind] at e
    split at e
    · cases h2 : h.ld (blk + offSize) with
      | ok bsz =>
        rw [h2, Res.ok_bind] at e
        cases h3 : h.st (it + offSize) (wadd isz bsz) with
        | ok h' =>
          rw [h3] at e
          cases e
          exact st_fixed h3
        | ub => rw [h3] at e; cases e
        | hang => rw [h3] at e; cases e
      | ub => rw [h2] at e; cases e
      | hang => rw [h2] at e; cases e
    · cases e; rfl
  | ub => rw [h1] at e; cases e
  | hang => rw [h1] at e; cases e

theorem insertFree_run (h : Heap) (blk : Nat) (k : Prog) :
    (insertFree (fixedOf h) blk k).run h = (h.insertFree blk >>= fun h' => k.run h') := by
  simp only [insertFree, Heap.insertFree, findPos_run, mergeBefore_run, bind_assoc]
  simp only [show (fixedOf h).size = h.size from rfl, show (fixedOf h).startAddr = h.startAddr from rfl]
  congr 1; funext it
  cases hm : h.mergeBefore it blk with
  | ok r =>
    simp only [Res.ok_bind]
    rw [← mergeBefore_fixed hm, mergeAfter_run]
    congr 1; funext h'
    split
    · rw [run_st]
    · simp
  | ub => simp only [Res.ub_bind]
  | hang => simp only [Res.hang_bind]

theorem deallocate_run (h : Heap) (p : Nat) (k : Prog) :
    (deallocate (fixedOf h) p k).run h = (h.deallocate p >>= fun h' => k.run h') := by
  simp only [deallocate, Heap.deallocate]
  split
  · simp only [run_ld, bind_assoc]
    cases h1 : h.ld (wsub p structSize + offSize) with
    | ok sz =>
      simp only [Res.ok_bind]
      split
      · simp only [run_ld, bind_assoc]
        congr 1; funext nx
        split
        · simp only [run_ld, run_st, h1, Res.ok_bind, bind_assoc]
          cases h2 : h.st (wsub p structSize + offSize) (sz &&& not64 allocBit) with
          | ok h' =>
            simp only [Res.ok_bind]
            congr 1; funext sz'
            simp only [Prog.run, var, setVar]
            rw [show fixedOf h = fixedOf { h' with freeBytes := wadd h'.freeBytes sz' } from (st_fixed h2).symm,
              insertFree_run]
            refine bind_congr _ fun h3 => ?_
            rw [run_get, run_set]
            rfl
          | ub => simp only [Res.ub_bind]
          | hang => simp only [Res.hang_bind]
        · simp
      · simp
    | ub => simp only [Res.ub_bind]
    | hang => simp only [Res.hang_bind]
  · simp

theorem callocate_run (h : Heap) (num sz : Nat) (k : Nat → Prog) :
    (callocate (fixedOf h) num sz k).run h = (h.callocate num sz >>= fun r => (k r.2).run r.1) := by
  simp only [callocate, Heap.callocate]
  split
  · simp only [allocate_run, bind_assoc]
    congr 1; funext r
    split
    · simp only [Prog.run, inBuf, clear, Heap.memset0, bind_assoc, decide_eq_true_eq]
      split <;> simp [*]
    · simp
  · simp

/-- What a call does, as the functions of `Model` say. -/
def Call.does (h : Heap) : Call → Res (Heap × Nat)
  | .alloc n => h.allocate n
  | .calloc k n => h.callocate k n
  | .free p => do
    let h' ← h.deallocate p
    .ok (h', 0)
  | .resetMin => .ok (h.resetMinimumEver, 0)
  | .onFail set => .ok (h.onFail set, 0)
  | .freeSize => .ok (h, h.freeHeapSize)
  | .minEver => .ok (h, h.minimumEverFreeHeapSize)

/-- A call that is not interrupted does what the function of the sequential model does. -/
theorem prog_run (h : Heap) (c : Call) : (c.prog (fixedOf h)).run h = c.does h := by
  cases c with
  | alloc n =>
    simp only [Call.prog, Call.does, allocate_run, Prog.run]
    cases h.allocate n <;> rfl
  | calloc k n =>
    simp only [Call.prog, Call.does, callocate_run, Prog.run]
    cases h.callocate k n <;> rfl
  | free p => simp only [Call.prog, Call.does, deallocate_run, Prog.run]
  | resetMin => simp only [Call.prog, Call.does, Prog.run, Heap.resetMinimumEver, var, setVar]
  | onFail set => cases set <;> simp [Call.prog, Call.does, Prog.run, Heap.onFail, setVar]
  | freeSize => simp only [Call.prog, Call.does, Prog.run, Heap.freeHeapSize, var]
  | minEver => simp only [Call.prog, Call.does, Prog.run, Heap.minimumEverFreeHeapSize, var]

end Verif.Heap.Conc
