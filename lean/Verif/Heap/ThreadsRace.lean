import Verif.Heap.ThreadsLock
/-!
`static_heap` without a lock (proof machinery): executions that show what happens, and what every execution without
synchronisation has in common.
-/
namespace Verif.Heap.Conc
open Verif Verif.HB

attribute [local irreducible] wsub wadd wmul

/-! ### Making executions -/

/-- The states differ at most in the heap, in the accesses recorded and in what `t` is doing. -/
structure Goes (t : Nat) (m m' : State) (h : Heap) (pc : Option (Call × Prog)) : Prop where
  heap : m'.heap = h
  pc : m'.pc = put m.pc t pc
  holder : m'.holder = m.holder
  blocks : m'.blocks = m.blocks
  ids : m'.ids = m.ids
  hist : m'.hist = m.hist
  log : ∀ a ∈ m'.mem.log, a ∈ m.mem.log ∨ a.tag = 0
  clk : ∀ v u, m.mem.clk v u ≤ m'.mem.clk v u
  sync : m'.mem.sync = m.mem.sync

theorem prog_ops (p : Prog) : ∀ o ∈ p.ops, ∃ l w, o = .acc l w 0 := by
  intro o ho
  cases p with
  | ld a k =>
    obtain ⟨i, _, rfl⟩ := List.mem_map.mp ho
    exact ⟨_, _, rfl⟩
  | st a v k =>
    obtain ⟨i, _, rfl⟩ := List.mem_map.mp ho
    exact ⟨_, _, rfl⟩
  | get x k => rw [List.mem_singleton.mp ho]; exact ⟨_, _, rfl⟩
  | set x v k => rw [List.mem_singleton.mp ho]; exact ⟨_, _, rfl⟩
  | zero q n k =>
    obtain ⟨i, _, rfl⟩ := List.mem_map.mp ho
    exact ⟨_, _, rfl⟩
  | call k => cases ho
  | ret r => cases ho
  | hang => cases ho

theorem acc_sync {t : Nat} : ∀ (os : List (HB.Op Loc Obj)) (m : HB.Mem Nat Loc Obj),
    (∀ o ∈ os, ∃ l w, o = .acc l w 0) → (m.run t os).sync = m.sync
  | [], _, _ => rfl
  | o :: os, m, h => by
    obtain ⟨l, w, rfl⟩ := h o List.mem_cons_self
    exact acc_sync os (m.op t (.acc l w 0)) fun o ho => h o (List.mem_cons_of_mem _ ho)

section
variable {i : State} {G : State → Lbl → Prop} {ls : List Lbl} {m : State} {t : Nat} {c : Call}

theorem act_goes (r : Run i G ls m) (hg : G m (.act t)) {p p' : Prog} {h' : Heap} (hp : m.pc t = some (c, p))
    (e : p.next m.heap = some (h', p')) : ∃ m', Run i G (.act t :: ls) m' ∧ Goes t m m' h' (some (c, p')) := by
  refine ⟨_, .step ls m _ (.act t) r hg (by simp only [Conc.step, hp, e, Option.map_some]; rfl), ?_⟩
  have ho : ops m (.act t) = p.ops := by simp only [ops, hp]
  refine ⟨rfl, rfl, rfl, rfl, rfl, rfl, fun a ha => ?_, fun v u => Mem.clk_run _ _ _ _ _, ?_⟩
  · refine (run_log _ _ _ a ha).imp id fun h => ?_
    rw [ho] at h
    obtain ⟨l, w, e⟩ := prog_ops p _ h.2.2
    injection e
  · show (m.mem.run t (ops m (.act t))).sync = _
    rw [ho]
    exact acc_sync _ _ (prog_ops p)

theorem call_goes (r : Run i G ls m) (hg : G m (.call t c)) (hp : m.pc t = none) :
    ∃ m', Run i G (.call t c :: ls) m' ∧ m'.heap = m.heap ∧ m'.pc = put m.pc t (some (c, c.prog (fixedOf m.heap))) ∧
      m'.holder = m.holder ∧ m'.hist = m.hist ∧ m'.ids = m.ids ∧ m'.mem = m.mem ∧ m'.blocks = blocksAfter m (.call t c) := by
  refine ⟨_, .step ls m _ (.call t c) r hg (by simp only [Conc.step, hp]; rfl), ?_⟩
  exact ⟨rfl, rfl, rfl, rfl, rfl, rfl, rfl⟩

theorem ret_goes (r : Run i G ls m) (hg : G m (.ret t)) {p : Nat} (hp : m.pc t = some (c, .ret p)) :
    ∃ m', Run i G (.ret t :: ls) m' ∧ m'.heap = m.heap ∧ m'.pc = put m.pc t none ∧ m'.holder = m.holder ∧
      m'.hist = .done t c p :: m.hist ∧ m'.ids = m.ids + 1 ∧ m'.mem = m.mem ∧ m'.blocks = blocksAfter m (.ret t) := by
  refine ⟨_, .step ls m _ (.ret t) r hg (by simp only [Conc.step, hp]; rfl), ?_⟩
  exact ⟨rfl, rfl, rfl, rfl, rfl, rfl, rfl⟩

theorem put_put {ι β : Type} [DecidableEq ι] (f : ι → β) (j : ι) (v v' : β) : put (put f j v) j v' = put f j v' := by
  funext k
  unfold put
  by_cases h : k = j
  · rw [if_pos h, if_pos h]
  · rw [if_neg h, if_neg h, if_neg h]

theorem Goes.trans {m1 m2 : State} {h1 h2 : Heap} {p1 p2 : Option (Call × Prog)} (a : Goes t m m1 h1 p1)
    (b : Goes t m1 m2 h2 p2) : Goes t m m2 h2 p2 :=
  ⟨b.heap, by rw [b.pc, a.pc, put_put], b.holder.trans a.holder, b.blocks.trans a.blocks, b.ids.trans a.ids,
    b.hist.trans a.hist, fun x hx => (b.log x hx).elim (a.log x) .inr, fun v u => Nat.le_trans (a.clk v u) (b.clk v u),
    b.sync.trans a.sync⟩

/-- A call can be made without interruption. -/
theorem acts (hg : ∀ m, G m (.act t)) : ∀ (p : Prog) {ls : List Lbl} {m : State} {h' : Heap} {r : Nat}, Run i G ls m →
    m.pc t = some (c, p) → p.run m.heap = .ok (h', r) →
    ∃ ls' m', Run i G ls' m' ∧ Goes t m m' h' (some (c, .ret r)) := by
  intro p
  induction p with
  | ret q =>
    intro ls m h' r hr hp e
    rw [Prog.run] at e
    cases e
    refine ⟨ls, m, hr, rfl, ?_, rfl, rfl, rfl, rfl, fun _ h => .inl h, fun _ _ => Nat.le_refl _, rfl⟩
    funext u
    by_cases h : u = t
    · subst h; rw [put_same, hp]
    · rw [put_ne _ _ h]
  | ld a k ih =>
    intro ls m h' r hr hp e
    rw [Prog.run] at e
    by_cases hk : ok m.heap a = true
    · rw [if_pos hk] at e
      obtain ⟨m1, r1, g1⟩ := act_goes hr (hg m) hp (by rw [Prog.next, if_pos hk])
      obtain ⟨ls2, m2, r2, g2⟩ := ih _ r1 (by rw [g1.pc, put_same]) (by rw [g1.heap]; exact e)
      exact ⟨ls2, m2, r2, g1.trans g2⟩
    · rw [if_neg hk] at e; cases e
  | st a v k ih =>
    intro ls m h' r hr hp e
    rw [Prog.run] at e
    by_cases hk : ok m.heap a = true
    · rw [if_pos hk] at e
      obtain ⟨m1, r1, g1⟩ := act_goes hr (hg m) hp (by rw [Prog.next, if_pos hk])
      obtain ⟨ls2, m2, r2, g2⟩ := ih r1 (by rw [g1.pc, put_same]) (by rw [g1.heap]; exact e)
      exact ⟨ls2, m2, r2, g1.trans g2⟩
    · rw [if_neg hk] at e; cases e
  | get x k ih =>
    intro ls m h' r hr hp e
    rw [Prog.run] at e
    obtain ⟨m1, r1, g1⟩ := act_goes hr (hg m) hp (by rw [Prog.next])
    obtain ⟨ls2, m2, r2, g2⟩ := ih _ r1 (by rw [g1.pc, put_same]) (by rw [g1.heap]; exact e)
    exact ⟨ls2, m2, r2, g1.trans g2⟩
  | set x v k ih =>
    intro ls m h' r hr hp e
    rw [Prog.run] at e
    obtain ⟨m1, r1, g1⟩ := act_goes hr (hg m) hp (by rw [Prog.next])
    obtain ⟨ls2, m2, r2, g2⟩ := ih r1 (by rw [g1.pc, put_same]) (by rw [g1.heap]; exact e)
    exact ⟨ls2, m2, r2, g1.trans g2⟩
  | zero q n k ih =>
    intro ls m h' r hr hp e
    rw [Prog.run] at e
    by_cases hk : inBuf m.heap q n = true
    · rw [if_pos hk] at e
      obtain ⟨m1, r1, g1⟩ := act_goes hr (hg m) hp (by rw [Prog.next, if_pos hk])
      obtain ⟨ls2, m2, r2, g2⟩ := ih r1 (by rw [g1.pc, put_same]) (by rw [g1.heap]; exact e)
      exact ⟨ls2, m2, r2, g1.trans g2⟩
    · rw [if_neg hk] at e; cases e
  | call k ih =>
    intro ls m h' r hr hp e
    rw [Prog.run] at e
    obtain ⟨m1, r1, g1⟩ := act_goes hr (hg m) hp (by rw [Prog.next])
    obtain ⟨ls2, m2, r2, g2⟩ := ih r1 (by rw [g1.pc, put_same]) (by rw [g1.heap]; exact e)
    exact ⟨ls2, m2, r2, g1.trans g2⟩
  | hang => intro ls m h' r hr hp e; cases e

/-! ### Stopping before the first write -/

/-- All the program can return is `r`. -/
def Prog.Only (r : Nat) : Prog → Prop
  | .ret p => p = r
  | .ld _ k => ∀ v, (k v).Only r
  | .st _ _ k => k.Only r
  | .get _ k => ∀ v, (k v).Only r
  | .set _ _ k => k.Only r
  | .zero _ _ k => k.Only r
  | .call k => k.Only r
  | .hang => True

theorem Prog.Only.run {r : Nat} : ∀ {p : Prog} {h h' : Heap} {q : Nat}, p.Only r → p.run h = .ok (h', q) → q = r
  | .ret _, h, h', q, o, e => by rw [Prog.run] at e; cases e; exact o
  | .ld a k, h, h', q, o, e => by
    rw [Prog.run] at e
    by_cases hk : ok h a = true
    · rw [if_pos hk] at e; exact (o _).run e
    · rw [if_neg hk] at e; cases e
  | .st a v k, h, h', q, o, e => by
    rw [Prog.run] at e
    by_cases hk : ok h a = true
    · rw [if_pos hk] at e; exact Prog.Only.run (p := k) o e
    · rw [if_neg hk] at e; cases e
  | .get x k, h, h', q, o, e => by rw [Prog.run] at e; exact (o _).run e
  | .set x v k, h, h', q, o, e => by rw [Prog.run] at e; exact Prog.Only.run (p := k) o e
  | .zero a n k, h, h', q, o, e => by
    rw [Prog.run] at e
    by_cases hk : inBuf h a n = true
    · rw [if_pos hk] at e; exact Prog.Only.run (p := k) o e
    · rw [if_neg hk] at e; cases e
  | .call k, h, h', q, o, e => by rw [Prog.run] at e; exact Prog.Only.run (p := k) o e
  | .hang, h, h', q, o, e => by cases e

/-- After some reads in `h`, the rest of the program comes to an end in every heap with the same outline, and returns
`r`. -/
def Prog.Stall (h : Heap) (r : Nat) : Prog → Prop
  | .ld a k => ok h a = true ∧ (k (load64 h.mem a)).Stall h r
  | .get x k => (k (var h x)).Stall h r
  | .st a v k => (∀ h', Same h h' → (Prog.st a v k).Foot (fun _ => True) h') ∧ (Prog.st a v k).Only r
  | _ => False

/-- A thread can stop there. -/
theorem stalls (hg : ∀ m, G m (.act t)) : ∀ (p : Prog) {ls : List Lbl} {m : State} {r : Nat}, Run i G ls m →
    m.pc t = some (c, p) → p.Stall m.heap r →
    ∃ ls' m' q, Run i G ls' m' ∧ Goes t m m' m.heap (some (c, q)) ∧ q.Only r ∧
      ∀ h', Same m.heap h' → q.Foot (fun _ => True) h' := by
  intro p
  induction p with
  | ld a k ih =>
    intro ls m r hr hp e
    obtain ⟨m1, r1, g1⟩ := act_goes hr (hg m) hp (by rw [Prog.next, if_pos e.1])
    obtain ⟨ls2, m2, q, r2, g2, o, f⟩ := ih _ (r := r) r1 (by rw [g1.pc, put_same]) (by rw [g1.heap]; exact e.2)
    rw [g1.heap] at g2 f
    exact ⟨ls2, m2, q, r2, g1.trans g2, o, f⟩
  | get x k ih =>
    intro ls m r hr hp e
    obtain ⟨m1, r1, g1⟩ := act_goes hr (hg m) hp (by rw [Prog.next])
    obtain ⟨ls2, m2, q, r2, g2, o, f⟩ := ih _ (r := r) r1 (by rw [g1.pc, put_same]) (by rw [g1.heap]; exact e)
    rw [g1.heap] at g2 f
    exact ⟨ls2, m2, q, r2, g1.trans g2, o, f⟩
  | st a v k ih =>
    intro ls m r hr hp e
    refine ⟨ls, m, _, hr, ⟨rfl, ?_, rfl, rfl, rfl, rfl, fun _ h => .inl h, fun _ _ => Nat.le_refl _, rfl⟩,
      e.2, e.1⟩
    funext u
    by_cases h : u = t
    · subst h; rw [put_same, hp]
    · rw [put_ne _ _ h]
  | ret q => intro ls m r hr hp e; exact e.elim
  | set x v k ih => intro ls m r hr hp e; exact e.elim
  | zero q n k ih => intro ls m r hr hp e; exact e.elim
  | call k ih => intro ls m r hr hp e; exact e.elim
  | hang => intro ls m r hr hp e; exact e.elim

end

theorem ld_of {h : Heap} {a v : Nat} (e : h.ld a = .ok v) : ok h a = true ∧ v = load64 h.mem a := by
  unfold Heap.ld at e
  by_cases hk : accessible h.size h.base h.startAddr a = true
  · rw [if_pos hk] at e
    cases e
    exact ⟨hk, rfl⟩
  · rw [if_neg hk] at e; cases e

theorem stall_ld {h : Heap} {a v r : Nat} {k : Nat → Prog} (e : h.ld a = .ok v) (s : (k (load64 h.mem a)).Stall h r) :
    (Prog.ld a k).Stall h r := ⟨(ld_of e).1, s⟩
theorem stall_get {h : Heap} {x : Var} {r : Nat} {k : Nat → Prog} (s : (k (var h x)).Stall h r) :
    (Prog.get x k).Stall h r := s
theorem stall_st {h : Heap} {a v r : Nat} {k : Prog}
    (f : ∀ h', Same h h' → (Prog.st a v k).Foot (fun _ => True) h') (o : k.Only r) : (Prog.st a v k).Stall h r := ⟨f, o⟩

theorem Hdr.mono {P Q : Nat → Prop} {h : Heap} {a : Nat} (hPQ : ∀ x, P x → Q x) (x : Hdr P h a) : Hdr Q h a :=
  ⟨x.next, x.size, fun i hi => hPQ _ (x.foot i hi)⟩

theorem findFit_stall {h : Heap} {w r : Nat} {k : Nat → Nat → Prog} : ∀ {fuel prev blk p b : Nat},
    h.findFit w fuel prev blk = .ok (p, b) → (k p b).Stall h r → (findFit w k fuel prev blk).Stall h r
  | 0, prev, blk, p, b, e, s => by cases e
  | fuel + 1, prev, blk, p, b, e, s => by
    rw [Heap.findFit] at e
    cases e1 : h.ld (blk + offSize) with
    | ub => rw [e1, Res.ub_bind] at e; cases e
    | hang => rw [e1, Res.hang_bind] at e; cases e
    | ok sz =>
      rw [e1, Res.ok_bind] at e
      rw [findFit]
      refine stall_ld e1 ?_
      rw [← (ld_of e1).2]
      by_cases hc : sz < w
      · rw [if_pos hc] at e
        rw [if_pos hc]
        cases e2 : h.ld (blk + offNext) with
        | ub => rw [e2, Res.ub_bind] at e; cases e
        | hang => rw [e2, Res.hang_bind] at e; cases e
        | ok nx =>
          rw [e2, Res.ok_bind] at e
          refine stall_ld e2 ?_
          rw [← (ld_of e2).2]
          by_cases hn : nx ≠ protect 0
          · rw [if_pos hn] at e
            rw [if_pos hn]
            refine stall_ld e2 ?_
            rw [← (ld_of e2).2]
            exact findFit_stall e s
          · rw [if_neg hn] at e
            rw [if_neg hn]
            cases e
            exact s
      · rw [if_neg hc] at e
        rw [if_neg hc]
        cases e
        exact s

theorem only_ld {a r : Nat} {k : Nat → Prog} (f : ∀ v, (k v).Only r) : (Prog.ld a k).Only r := f
theorem only_get {x : Var} {r : Nat} {k : Nat → Prog} (f : ∀ v, (k v).Only r) : (Prog.get x k).Only r := f
theorem only_st {a v r : Nat} {k : Prog} (f : k.Only r) : (Prog.st a v k).Only r := f
theorem only_set {x : Var} {v r : Nat} {k : Prog} (f : k.Only r) : (Prog.set x v k).Only r := f

theorem split_only {prev blk w r : Nat} {k : Prog} (f : k.Only r) : (split prev blk w k).Only r := by
  unfold split
  refine only_ld fun bs => ?_
  by_cases hc : wsub bs w > minBlock
  · rw [if_pos hc]
    refine only_ld fun bs => only_st (only_st (only_ld fun pn => only_st (only_st f)))
  · rw [if_neg hc]
    exact f

theorem account_only {blk r : Nat} {k : Prog} (f : k.Only r) : (account blk k).Only r := by
  unfold account
  refine only_ld fun bs => only_get fun f1 => only_set (only_get fun f2 => only_get fun mn => ?_)
  by_cases hc : f2 < mn
  · rw [if_pos hc]
    exact only_get fun f3 => only_set f
  · rw [if_neg hc]
    exact f

theorem mark_only {blk r : Nat} {k : Prog} (f : k.Only r) : (mark blk k).Only r := by
  unfold mark
  exact only_ld fun a => only_ld fun b => only_st (only_st (only_get fun n => only_set f))

theorem Prog.Stall.run {h h' : Heap} {r q : Nat} : ∀ {p : Prog}, p.Stall h r → p.run h = .ok (h', q) → q = r
  | .ret _, s, _ => s.elim
  | .ld a k, s, e => by
    rw [Prog.run, if_pos s.1] at e
    exact Prog.Stall.run s.2 e
  | .st a v k, s, e => s.2.run e
  | .get x k, s, e => by
    rw [Prog.run] at e
    exact Prog.Stall.run (p := k (var h x)) s e
  | .set _ _ _, s, _ => s.elim
  | .zero _ _ _, s, _ => s.elim
  | .call _, s, _ => s.elim
  | .hang, s, _ => s.elim

/-- The first write of an allocation comes after it has chosen the block. -/
theorem allocate_stall {h h' : Heap} {s n p : Nat} {bs : List Blk} (r : Rep h s bs) (hn : n < W)
    (e : h.allocate n = .ok (h', p)) (hp : p ≠ 0) : ((Call.alloc n).prog (fixedOf h)).Stall h p := by
  obtain ⟨g, t, l, ss, en, es, na, fe⟩ := id r
  obtain ⟨g1, g2, g3, g4, g5, g6, g7, g8, g9, g10, g11, g12⟩ := id g
  have hnf := need_facts n
  have hrun : ((Call.alloc n).prog (fixedOf h)).run h = .ok (h', p) := (prog_run h _).trans e
  suffices hex : ∃ q, ((Call.alloc n).prog (fixedOf h)).Stall h q by
    obtain ⟨q, hq⟩ := hex
    rw [hq.run hrun]
    exact hq
  have hfin : ∀ {x : Nat}, h.allocCore (Heap.roundWanted n) = .ok (h, x) → x = p := by
    intro x hx
    unfold Heap.allocate at e
    rw [hx] at e
    simp only [Res.ok_bind] at e
    have := Res.ok.inj e
    exact congrArg Prod.snd this
  clear hrun e
  rw [Call.prog]
  unfold allocate
  have hr := roundWanted_eq hn
  generalize Heap.roundWanted n = w at *
  unfold Heap.allocCore at hfin
  unfold allocCore
  by_cases h1 : sizeIsValid w = true
  · rw [if_pos h1] at hfin ⊢
    by_cases h2 : w > 0
    · rw [if_pos h2]
      by_cases h3 : w ≤ h.freeBytes
      · rw [if_pos ⟨h2, h3⟩] at hfin
        have hwn : w = need n := by
          rw [hr]; split
          · rename_i hc; rw [if_pos hc] at hr; omega
          · rfl
        have hlen := tiles_length t
        have xs := hdr_start g t
        have hld : h.ld (h.startAddr + offNext) = .ok (load64 h.mem h.startAddr) := by
          rw [offNext_add]
          exact ld_ok xs.next
        rw [hld] at hfin
        simp only [Res.ok_bind] at hfin
        rcases findFit_spec g h2 en es bs h.startAddr s (h.size + 2) l t (Nat.le_refl _) (by omega) with
          ⟨pre, b, post, eb, hbf, hbs, _, ef⟩ | ⟨_, q, ef⟩
        · subst eb
          have hb : b ∈ pre ++ b :: post := by simp
          have hbm := tiles_mem t b hb
          have xp := last_hdr (pre := pre) g t (fun c hc => by simp [hc])
          have xb := hdr_mem g t hb
          have xn := hdr_rest g t hb hbf hbs (by rw [hwn]; exact hnf.2.2)
          have xp := Hdr.mono (Q := fun _ => True) (fun _ _ => trivial) xp
          have xb := Hdr.mono (Q := fun _ => True) (fun _ _ => trivial) xb
          have xn := Hdr.mono (Q := fun _ => True) (fun _ _ => trivial) xn
          have hl := (linked_append.mp l).2
          simp only [Linked, hbf, if_true] at hl
          have hval : wadd (protect (load64 h.mem (last h.startAddr pre))) structSize = b.addr + 16 := by
            rw [hl.1, protect_protect, structSize_eq, wadd_eq (by omega)]
          refine ⟨b.addr + 16, stall_get ?_⟩
          rw [var_free, if_pos h3]
          refine stall_ld hld ?_
          refine findFit_stall ef ?_
          rw [if_pos (show b.addr ≠ (fixedOf h).pxEnd by show b.addr ≠ h.pxEnd; omega)]
          unfold take
          refine stall_ld (ld_ok (by rw [offNext_add]; exact xp.next)) ?_
          refine stall_ld (ld_ok (by rw [offNext_add]; exact xb.next)) ?_
          rw [offNext_add (last h.startAddr pre), hval]
          simp only [if_neg (show ¬ b.addr + 16 = 0 by omega)]
          refine stall_st (fun h1 s1 => ?_) (split_only (account_only (mark_only rfl)))
          rw [← offNext_add (last h.startAddr pre)]
          refine foot_stN (xp.same s1) ?_
          have s1 := s1.trans (Same.mem h1 (store64 h1.mem (last h.startAddr pre) (load64 h.mem (b.addr + offNext))))
          refine split_foot (xp.same s1) (xb.same s1) (xn.same s1) fun h2 s2 => ?_
          have s2 := s1.trans s2
          refine account_foot (xb.same s2) fun h3 s3 => ?_
          have s3 := s2.trans s3
          exact mark_foot (xb.same s3) fun h4 s4 => trivial
        · rw [ef] at hfin
          simp only [Res.ok_bind, ne_eq, not_true_eq_false, if_false] at hfin
          exact absurd (hfin rfl).symm hp
      · rw [if_neg fun h => h3 h.2] at hfin
        exact absurd (hfin rfl).symm hp
    · rw [if_neg fun h => h2 h.1] at hfin
      exact absurd (hfin rfl).symm hp
  · rw [if_neg h1] at hfin
    exact absurd (hfin rfl).symm hp

/-- Two threads get the same block. -/
theorem twice {size base st : Nat} {w : World} {bs : List Blk} (wi : WInv size base st w bs) {n p : Nat} {h' : Heap}
    (hn : n < W) (ha : w.heap.allocate n = .ok (h', p)) (hp : p ≠ 0) {t u : Nat} (htu : t ≠ u)
    {G : State → Lbl → Prop} (hg : ∀ m v, v = t ∨ v = u → G m (.call v (.alloc n)) ∧ G m (.act v) ∧ G m (.ret v)) :
    ∃ ls m, Run (.start w.heap) G ls m ∧ m.hist = [.done t (.alloc n) p, .done u (.alloc n) p] := by
  obtain ⟨gt1, gt2, gt3⟩ : (∀ m, G m (.call t (.alloc n))) ∧ (∀ m, G m (.act t)) ∧ ∀ m, G m (.ret t) :=
    ⟨fun m => (hg m t (.inl rfl)).1, fun m => (hg m t (.inl rfl)).2.1, fun m => (hg m t (.inl rfl)).2.2⟩
  obtain ⟨gu1, gu2, gu3⟩ : (∀ m, G m (.call u (.alloc n))) ∧ (∀ m, G m (.act u)) ∧ ∀ m, G m (.ret u) :=
    ⟨fun m => (hg m u (.inr rfl)).1, fun m => (hg m u (.inr rfl)).2.1, fun m => (hg m u (.inr rfl)).2.2⟩
  have hsame : Same w.heap h' := by
    rcases allocate_spec wi.rep hn with ⟨pre, b, post, _, _, _, _, _, h'', hx, _, he, _⟩ | ⟨_, hx⟩
    · rw [hx] at ha
      cases ha
      exact ⟨he.size, he.base, he.startAddr⟩
    · rw [hx] at ha
      cases ha
      exact absurd rfl hp
  obtain ⟨m1, r1, a1, b1, _, c1, _⟩ := call_goes (c := .alloc n) .start (gt1 _) (t := t) (show (State.start w.heap).pc t = none from rfl)
  have a1 : m1.heap = w.heap := a1
  obtain ⟨ls2, m2, q, r2, g2, o2, f2⟩ := stalls gt2 _ (r := p) r1 (by rw [b1, put_same])
    (by rw [a1]; exact allocate_stall wi.rep hn ha hp)
  rw [a1] at g2 f2
  have hu2 : m2.pc u = none := by rw [g2.pc, put_ne _ _ htu.symm, b1, put_ne _ _ htu.symm]; rfl
  obtain ⟨m3, r3, a3, b3, _, c3, _⟩ := call_goes (c := .alloc n) r2 (gu1 _) hu2
  rw [g2.heap] at a3 b3
  obtain ⟨ls4, m4, r4, g4⟩ := acts gu2 _ (h' := h') (r := p) r3 (by rw [b3, put_same])
    (by rw [a3, prog_run]; exact ha)
  obtain ⟨m5, r5, a5, b5, _, c5, _⟩ := ret_goes r4 (gu3 _) (by rw [g4.pc, put_same])
  have ht5 : m5.pc t = some (.alloc n, q) := by
    rw [b5, put_ne _ _ htu, g4.pc, put_ne _ _ htu, b3, put_ne _ _ htu, g2.pc, put_same]
  have h5 : m5.heap = h' := by rw [a5, g4.heap]
  obtain ⟨⟨h6, r6⟩, hq⟩ := (f2 h' hsame).ends
  have := o2.run hq
  subst this
  obtain ⟨ls6, m6, r6', g6⟩ := acts gt2 q (h' := h6) r5 ht5 (by rw [h5]; exact hq)
  obtain ⟨m7, r7, _, _, _, c7, _⟩ := ret_goes r6' (gt3 _) (by rw [g6.pc, put_same])
  refine ⟨_, m7, r7, ?_⟩
  rw [c7, g6.hist, c5, g4.hist, c3, g2.hist, c1]
  rfl

/-! ### Without synchronisation -/

/-- Every path that returns something in `R` accesses `x_free_bytes_remaining_`, for writing if `wr`. -/
def Prog.Uses (wr : Bool) (R : Nat → Prop) : Prog → Prop
  | .ret r => ¬ R r
  | .ld _ k => ∀ v, (k v).Uses wr R
  | .st _ _ k => k.Uses wr R
  | .get x k => (x = .free ∧ wr = false) ∨ ∀ v, (k v).Uses wr R
  | .set x _ k => x = .free ∨ k.Uses wr R
  | .zero _ _ k => k.Uses wr R
  | .call k => k.Uses wr R
  | .hang => True

section
variable {wr : Bool} {R : Nat → Prop}

theorem uses_ld {a : Nat} {k : Nat → Prog} (f : ∀ v, (k v).Uses wr R) : (Prog.ld a k).Uses wr R := f
theorem uses_get {x : Var} {k : Nat → Prog} (f : ∀ v, (k v).Uses wr R) : (Prog.get x k).Uses wr R := .inr f
theorem uses_st {a v : Nat} {k : Prog} (f : k.Uses wr R) : (Prog.st a v k).Uses wr R := f
theorem uses_set {x : Var} {v : Nat} {k : Prog} (f : x = .free ∨ k.Uses wr R) : (Prog.set x v k).Uses wr R := f

theorem split_uses {prev blk w : Nat} {k : Prog} (f : k.Uses wr R) : (split prev blk w k).Uses wr R := by
  unfold split
  refine uses_ld fun bs => ?_
  by_cases hc : wsub bs w > minBlock
  · rw [if_pos hc]
    exact uses_ld fun bs => uses_st (uses_st (uses_ld fun pn => uses_st (uses_st f)))
  · rw [if_neg hc]
    exact f

theorem take_uses {prev blk w : Nat} {k : Nat → Prog} : (take prev blk w k).Uses wr R := by
  unfold take
  refine uses_ld fun pn => uses_ld fun bn => uses_st (split_uses ?_)
  unfold account
  exact uses_ld fun bs => uses_get fun f1 => uses_set (.inl rfl)

theorem findFit_uses {w : Nat} {k : Nat → Nat → Prog} (f : ∀ p b, (k p b).Uses wr R) : ∀ fuel prev blk,
    (findFit w k fuel prev blk).Uses wr R
  | 0, _, _ => trivial
  | fuel + 1, prev, blk => by
    rw [findFit]
    refine uses_ld fun sz => ?_
    by_cases hc : sz < w
    · rw [if_pos hc]
      refine uses_ld fun nx => ?_
      by_cases hn : nx ≠ protect 0
      · rw [if_pos hn]
        exact uses_ld fun nx => findFit_uses f fuel blk (protect nx)
      · rw [if_neg hn]; exact f _ _
    · rw [if_neg hc]; exact f _ _

theorem allocate_uses {c : Fixed} {n : Nat} {k : Nat → Prog} (k0 : (k 0).Uses wr R) : (allocate c n k).Uses wr R := by
  have hk : (Prog.get .callback fun cb => if cb ≠ 0 then .call (k 0) else k 0).Uses wr R := by
    refine uses_get fun cb => ?_
    by_cases hc : cb ≠ 0
    · rw [if_pos hc]; exact k0
    · rw [if_neg hc]; exact k0
  unfold allocate allocCore
  generalize Heap.roundWanted n = w
  by_cases h1 : sizeIsValid w = true
  · rw [if_pos h1]
    by_cases h2 : w > 0
    · rw [if_pos h2]
      refine uses_get fun f => ?_
      by_cases h3 : w ≤ f
      · rw [if_pos h3]
        refine uses_ld fun first => findFit_uses (fun p b => ?_) _ _ _
        by_cases h4 : b ≠ c.pxEnd
        · rw [if_pos h4]; exact take_uses
        · rw [if_neg h4]
          simp only [if_true]
          exact hk
      · rw [if_neg h3]
        simp only [if_true]
        exact hk
    · rw [if_neg h2]
      simp only [if_true]
      exact hk
  · rw [if_neg h1]
    simp only [if_true]
    exact hk

end

/-- The call is an allocation that succeeds. -/
def Got (c : Call) (r : Nat) : Prop := c.wants ≠ none ∧ r ≠ 0

theorem got_uses {c : Call} {f : Fixed} : (c.prog f).Uses true (Got c) := by
  cases c with
  | alloc n => exact allocate_uses fun h => h.2 rfl
  | calloc k n =>
    rw [Call.prog]
    unfold callocate
    by_cases h : mulWillOverflow k n = false
    · rw [if_pos h]
      refine allocate_uses ?_
      rw [if_neg (by decide)]
      exact fun h => h.2 rfl
    · rw [if_neg h]
      exact fun h => h.2 rfl
  | free p =>
    have : ∀ q : Prog, q.Uses true (fun _ => False) := by
      intro q
      induction q with
      | ret r => exact id
      | ld a k ih => exact ih
      | st a v k ih => exact ih
      | get x k ih => exact .inr ih
      | set x v k ih => exact .inr ih
      | zero q n k ih => exact ih
      | call k ih => exact ih
      | hang => trivial
    have e : Got (.free p) = fun _ => False := by
      funext r
      exact propext ⟨fun h => h.1 rfl, False.elim⟩
    rw [e]
    exact this _
  | resetMin => exact .inr fun v => .inr fun h => h.1 rfl
  | onFail s => exact .inr fun h => h.1 rfl
  | freeSize => exact .inr fun v h => h.1 rfl
  | minEver => exact .inr fun v h => h.1 rfl

/-- The call is an allocation that succeeds, or one that always reads how much is free. -/
def Looks (c : Call) (r : Nat) : Prop := Got c r ∨ c = .freeSize ∨ c = .resetMin

theorem looks_uses {c : Call} {f : Fixed} (h : c = .freeSize ∨ c = .resetMin) : (c.prog f).Uses false (fun _ => True) := by
  rcases h with rfl | rfl
  · exact .inl ⟨rfl, rfl⟩
  · exact .inl ⟨rfl, rfl⟩

/-- The thread has accessed `x_free_bytes_remaining_`, for writing if `wr`. -/
def State.Touched (m : State) (t : Nat) (wr : Bool) : Prop :=
  ∃ a ∈ m.mem.log, a.who = t ∧ a.loc = .var .free ∧ (wr = true → a.wr = true)

/-- No synchronisation. -/
def Lbl.Plain : Lbl → Prop
  | .lock _ | .unlock _ | .rel _ _ | .acq _ _ => False
  | _ => True

/-- What holds at every moment of an execution without synchronisation and without data races. -/
structure Apart (m : State) : Prop where
  clk : ∀ t u, u ≠ t → m.mem.clk t u = 0
  time : ∀ a ∈ m.mem.log, 0 < a.time
  pair : ∀ a ∈ m.mem.log, ∀ b ∈ m.mem.log, a.loc = b.loc → (a.wr = true ∨ b.wr = true) → a.who = b.who
  now : ∀ t c p, m.pc t = some (c, p) → (p.Uses true (Got c) ∨ m.Touched t true) ∧
    (c = .freeSize ∨ c = .resetMin → p.Uses false (fun _ => True) ∨ m.Touched t false)
  got : ∀ t c r, .done t c r ∈ m.hist → (Got c r → m.Touched t true) ∧
    (c = .freeSize ∨ c = .resetMin → m.Touched t false)

theorem plain_clk {t : Nat} : ∀ (os : List (HB.Op Loc Obj)) (m : HB.Mem Nat Loc Obj),
    (∀ o ∈ os, ∃ l w i, o = .acc l w i) → (∀ v u, u ≠ v → m.clk v u = 0) →
    (∀ v u, u ≠ v → (m.run t os).clk v u = 0)
  | [], m, _, h => h
  | o :: os, m, ho, h => by
    obtain ⟨l, w, i, rfl⟩ := ho o List.mem_cons_self
    refine plain_clk os _ (fun o h => ho o (List.mem_cons_of_mem _ h)) fun v u hvu => ?_
    simp only [Mem.op]
    by_cases e : v = t
    · subst e
      rw [put_same, put_ne _ _ hvu]
      exact h v u hvu
    · rw [put_ne _ _ e]
      exact h v u hvu

theorem plain_time {t : Nat} : ∀ (os : List (HB.Op Loc Obj)) (m : HB.Mem Nat Loc Obj),
    (∀ a ∈ m.log, 0 < a.time) → ∀ a ∈ (m.run t os).log, 0 < a.time
  | [], m, h => h
  | o :: os, m, h => by
    refine plain_time os _ ?_
    cases o with
    | acc l w i =>
      intro a ha
      simp only [Mem.op, List.mem_cons] at ha
      rcases ha with rfl | ha
      · exact Nat.succ_pos _
      · exact h a ha
    | _ => exact h

/-- An access to what another thread has accessed is a race. -/
theorem plain_race {t : Nat} {a : Access Nat Loc} (ht : a.who ≠ t) (h0 : 0 < a.time) {w : Bool} {i : Nat}
    (hw : a.wr = true ∨ w = true) : ∀ (os : List (HB.Op Loc Obj)) (m : HB.Mem Nat Loc Obj),
    (∀ o ∈ os, ∃ l w i, o = .acc l w i) → (∀ v u, u ≠ v → m.clk v u = 0) → a ∈ m.log →
    HB.Op.acc a.loc w i ∈ os → m.Races (fun _ => True) t os
  | [], m, _, _, _, h => by cases h
  | o :: os, m, ho, hc, ha, h => by
    have ho' := ho
    obtain ⟨l, w', i', rfl⟩ := ho o List.mem_cons_self
    rcases List.mem_cons.mp h with e | h
    · injection e with e1 e2 e3
      subst e1 e2
      exact .inl ⟨trivial, a, ha, rfl, hw, by rw [hc t a.who ht]; exact h0⟩
    · refine .inr (plain_race ht h0 hw os _ (fun o h => ho o (List.mem_cons_of_mem _ h)) ?_ (m.log_mono t [.acc l w' i'] a ha) h)
      have := plain_clk (t := t) [.acc l w' i'] m (fun o h => ho' o (by
        rw [List.mem_singleton.mp h]; exact List.mem_cons_self)) hc
      exact this

theorem plain_ops {m : State} {l : Lbl} (hl : l.Plain) : ∀ o ∈ ops m l, ∃ x w i, o = .acc x w i := by
  intro o ho
  cases l with
  | act t =>
    simp only [ops] at ho
    split at ho
    · obtain ⟨l, w, e⟩ := prog_ops _ o ho
      exact ⟨l, w, 0, e⟩
    · cases ho
  | read t x => rw [List.mem_singleton.mp ho]; exact ⟨_, _, _, rfl⟩
  | write t x v => rw [List.mem_singleton.mp ho]; exact ⟨_, _, _, rfl⟩
  | call t c => cases ho
  | ret t => cases ho
  | lock t => exact hl.elim
  | unlock t => exact hl.elim
  | rel t n => exact hl.elim
  | acq t n => exact hl.elim

theorem step_mem {m m' : State} {l : Lbl} (e : step m l = some m') : m'.mem = m.mem.run l.who (ops m l) := by
  cases l <;> simp only [step] at e <;> (repeat' split at e) <;> (try cases e) <;> try rfl
  obtain ⟨r, _, rfl⟩ := Option.map_eq_some_iff.mp e
  rfl

/-- One access of a program: the rest still has to make its accesses, or it has just made one. -/
theorem uses_next {wr : Bool} {R : Nat → Prop} {p p' : Prog} {h h' : Heap} (u : p.Uses wr R)
    (e : p.next h = some (h', p')) : p'.Uses wr R ∨ ∃ w, HB.Op.acc (.var .free) w 0 ∈ p.ops ∧ (wr = true → w = true) := by
  cases p with
  | ret r => cases e
  | hang => cases e
  | ld a k =>
    rw [Prog.next] at e
    by_cases hk : ok h a = true
    · rw [if_pos hk] at e; cases e; exact .inl (u _)
    · rw [if_neg hk] at e; cases e
  | st a v k =>
    rw [Prog.next] at e
    by_cases hk : ok h a = true
    · rw [if_pos hk] at e; cases e; exact .inl u
    · rw [if_neg hk] at e; cases e
  | get x k =>
    rw [Prog.next] at e
    cases e
    rcases u with ⟨rfl, rfl⟩ | u
    · exact .inr ⟨false, List.mem_singleton.mpr rfl, fun h => h⟩
    · exact .inl (u _)
  | set x v k =>
    rw [Prog.next] at e
    cases e
    rcases u with rfl | u
    · exact .inr ⟨true, List.mem_singleton.mpr rfl, fun _ => rfl⟩
    · exact .inl u
  | zero q n k =>
    rw [Prog.next] at e
    by_cases hk : inBuf h q n = true
    · rw [if_pos hk] at e; cases e; exact .inl u
    · rw [if_neg hk] at e; cases e
  | call k => rw [Prog.next] at e; cases e; exact .inl u

theorem run_has {t : Nat} {l : Loc} {w : Bool} {i : Nat} : ∀ (os : List (HB.Op Loc Obj)) (m : HB.Mem Nat Loc Obj),
    HB.Op.acc l w i ∈ os → ∃ a ∈ (m.run t os).log, a.who = t ∧ a.loc = l ∧ a.wr = w
  | [], _, h => by cases h
  | o :: os, m, h => by
    rcases List.mem_cons.mp h with rfl | h
    · exact ⟨_, Mem.log_mono (m.op t (.acc l w i)) t os _ (by simp only [Mem.op]; exact List.mem_cons_self), rfl, rfl, rfl⟩
    · exact run_has os _ h

theorem Apart.step {m m' : State} {l : Lbl} (x : Apart m) (hl : l.Plain) (hr : ¬ Race m l) (e : step m l = some m') :
    Apart m' := by
  have hmem := step_mem e
  have hops := plain_ops (m := m) hl
  have hmono : ∀ t wr, m.Touched t wr → m'.Touched t wr := by
    rintro t wr ⟨a, ha, h⟩
    exact ⟨a, by rw [hmem]; exact Mem.log_mono _ _ _ a ha, h⟩
  have hnew : ∀ w, HB.Op.acc (.var .free) w 0 ∈ ops m l → ∀ wr, (wr = true → w = true) → m'.Touched l.who wr := by
    intro w hw wr h
    obtain ⟨a, ha, h1, h2, h3⟩ := run_has (t := l.who) (ops m l) m.mem hw
    exact ⟨a, by rw [hmem]; exact ha, h1, h2, fun h' => h3.trans (h h')⟩
  constructor
  · rw [hmem]; exact plain_clk _ _ hops x.clk
  · rw [hmem]; exact plain_time _ _ x.time
  · rw [hmem]
    have hlog := run_log l.who (ops m l) m.mem
    intro a ha b hb hab hw
    rcases hlog a ha with h1 | ⟨h1, _, h1'⟩
    · rcases hlog b hb with h2 | ⟨h2, _, h2'⟩
      · exact x.pair a h1 b h2 hab hw
      · rw [h2]
        apply Classical.byContradiction
        intro hne
        rw [← hab] at h2'
        exact hr (plain_race hne (x.time a h1) hw _ _ hops x.clk h1 h2')
    · rcases hlog b hb with h2 | ⟨h2, _, h2'⟩
      · rw [h1]
        apply Classical.byContradiction
        intro hne
        rw [hab] at h1'
        exact hr (plain_race (fun h => hne h.symm) (x.time b h2) hw.symm _ _ hops x.clk h2 h1')
      · rw [h1, h2]
  · intro t c p hp
    cases l with
    | lock => exact hl.elim
    | unlock => exact hl.elim
    | rel => exact hl.elim
    | acq => exact hl.elim
    | read v y =>
      simp only [Conc.step] at e
      split at e
      · cases e
      · injection e with e
        rw [← e] at hp
        have := x.now t c p hp
        exact ⟨this.1.imp id (hmono _ _), fun h => (this.2 h).imp id (hmono _ _)⟩
    | write v y z =>
      simp only [Conc.step] at e
      split at e
      · cases e
      · injection e with e
        rw [← e] at hp
        have := x.now t c p hp
        exact ⟨this.1.imp id (hmono _ _), fun h => (this.2 h).imp id (hmono _ _)⟩
    | call v d =>
      simp only [Conc.step] at e
      split at e
      · cases e
      · injection e with e
        rw [← e] at hp
        rcases put_pc hp with ⟨rfl, h⟩ | ⟨_, h⟩
        · injection h with h
          injection h with h1 h2
          subst h1 h2
          exact ⟨.inl got_uses, fun h => .inl (looks_uses h)⟩
        · have := x.now t c p h
          exact ⟨this.1.imp id (hmono _ _), fun h => (this.2 h).imp id (hmono _ _)⟩
    | ret v =>
      simp only [Conc.step] at e
      split at e
      · injection e with e
        rw [← e] at hp
        rcases put_pc hp with ⟨_, h⟩ | ⟨_, h⟩
        · cases h
        · have := x.now t c p h
          exact ⟨this.1.imp id (hmono _ _), fun h => (this.2 h).imp id (hmono _ _)⟩
      · cases e
    | act v =>
      simp only [Conc.step] at e
      split at e
      · rename_i d q hq
        obtain ⟨⟨h', q'⟩, hn, e⟩ := Option.map_eq_some_iff.mp e
        have hqo : ops m (.act v) = q.ops := by simp only [ops, hq]
        rw [← e] at hp
        rcases put_pc hp with ⟨rfl, h⟩ | ⟨_, h⟩
        · injection h with h
          injection h with h1 h2
          subst h1 h2
          have := x.now t d q hq
          refine ⟨?_, fun h => ?_⟩
          · rcases this.1 with h | h
            · rcases uses_next h hn with h | ⟨w, hw, hw'⟩
              · exact .inl h
              · exact .inr (hnew w (by rw [hqo]; exact hw) true hw')
            · exact .inr (hmono _ _ h)
          · rcases this.2 h with h | h
            · rcases uses_next h hn with h | ⟨w, hw, hw'⟩
              · exact .inl h
              · exact .inr (hnew w (by rw [hqo]; exact hw) false hw')
            · exact .inr (hmono _ _ h)
        · have := x.now t c p h
          exact ⟨this.1.imp id (hmono _ _), fun h => (this.2 h).imp id (hmono _ _)⟩
      · cases e
  · intro t c r ht
    have hold : .done t c r ∈ m.hist → (Got c r → m'.Touched t true) ∧
        (c = .freeSize ∨ c = .resetMin → m'.Touched t false) := by
      intro h
      have := x.got t c r h
      exact ⟨fun h => hmono _ _ (this.1 h), fun h => hmono _ _ (this.2 h)⟩
    cases l with
    | lock => exact hl.elim
    | unlock => exact hl.elim
    | rel => exact hl.elim
    | acq => exact hl.elim
    | read v y =>
      simp only [Conc.step] at e
      split at e
      · cases e
      · injection e with e
        rw [← e] at ht
        exact hold ht
    | write v y z =>
      simp only [Conc.step] at e
      split at e
      · cases e
      · injection e with e
        rw [← e] at ht
        rcases List.mem_cons.mp ht with h | h
        · cases h
        · exact hold h
    | call v d =>
      simp only [Conc.step] at e
      split at e
      · cases e
      · injection e with e
        rw [← e] at ht
        exact hold ht
    | act v =>
      simp only [Conc.step] at e
      split at e
      · obtain ⟨⟨h', q'⟩, hn, e⟩ := Option.map_eq_some_iff.mp e
        rw [← e] at ht
        exact hold ht
      · cases e
    | ret v =>
      simp only [Conc.step] at e
      split at e
      · rename_i d q hq
        injection e with e
        rw [← e] at ht
        rcases List.mem_cons.mp ht with h | h
        · injection h with h1 h2 h3
          subst h1 h2 h3
          have := x.now t c _ hq
          refine ⟨fun h => ?_, fun h => ?_⟩
          · rcases this.1 with h' | h'
            · exact absurd h h'
            · exact hmono _ _ h'
          · rcases this.2 h with h' | h'
            · exact absurd trivial h'
            · exact hmono _ _ h'
        · exact hold h
      · cases e

theorem Apart.start (h : Heap) : Apart (State.start h) := by
  constructor
  · intro _ _ _; rfl
  · intro a ha; cases ha
  · intro a ha; cases ha
  · intro t c p h; cases h
  · intro t c r h; cases h

theorem run_apart {h : Heap} {ls : List Lbl} {m : State}
    (r : Run (.start h) (fun m l => l.Plain ∧ ¬ Race m l) ls m) : Apart m := by
  induction r with
  | start => exact Apart.start h
  | step ls m m' l _ hg hs ih => exact ih.step hg.1 hg.2 hs

end Verif.Heap.Conc
