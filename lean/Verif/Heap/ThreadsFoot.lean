import Verif.Heap.ThreadsAgree
import Verif.Heap.FreeSpec
import Verif.Heap.Step
/-!
Which bytes a call of `static_heap` touches (proof machinery): only headers, memory that is free, and `x_start_`; never the
payload of a block in use.  Writing to other bytes meanwhile makes no difference to it.
-/
namespace Verif.Heap.Conc
open Verif Verif.HB

attribute [local irreducible] wsub wadd wmul

/-- Run alone, the program makes only accesses that are allowed, only to bytes in `P`, and comes to an end. -/
def Prog.Foot (P : Nat → Prop) (h : Heap) : Prog → Prop
  | .ret _ => True
  | .ld a k => ok h a = true ∧ (∀ i, i < 8 → P (a + i)) ∧ (k (load64 h.mem a)).Foot P h
  | .st a v k => ok h a = true ∧ (∀ i, i < 8 → P (a + i)) ∧ k.Foot P { h with mem := store64 h.mem a v }
  | .get x k => (k (var h x)).Foot P h
  | .set x v k => k.Foot P (setVar h x v)
  | .zero p n k => inBuf h p n = true ∧ (∀ x, p ≤ x → x < p + n → P x) ∧ k.Foot P (clear h p n)
  | .call k => k.Foot P { h with callbackCalls := h.callbackCalls + 1 }
  | .hang => False

/-- A byte is written. -/
def poke (h : Heap) (x : Nat) (v : Byte) : Heap := { h with mem := fun y => if y = x then v else h.mem y }

/-- A program with a footprint comes to an end. -/
theorem Prog.Foot.ends {P : Nat → Prop} : ∀ {p : Prog} {h : Heap}, p.Foot P h → ∃ r, p.run h = .ok r
  | .ret _, h, _ => ⟨_, rfl⟩
  | .ld a k, h, f => by
    obtain ⟨r, e⟩ := f.2.2.ends
    exact ⟨r, by rw [Prog.run, if_pos f.1]; exact e⟩
  | .st a v k, h, f => by
    obtain ⟨r, e⟩ := f.2.2.ends
    exact ⟨r, by rw [Prog.run, if_pos f.1]; exact e⟩
  | .get x k, h, f => by
    obtain ⟨r, e⟩ := Prog.Foot.ends (p := k (var h x)) f
    exact ⟨r, by rw [Prog.run]; exact e⟩
  | .set x v k, h, f => by
    obtain ⟨r, e⟩ := Prog.Foot.ends (p := k) (h := setVar h x v) f
    exact ⟨r, by rw [Prog.run]; exact e⟩
  | .zero p n k, h, f => by
    obtain ⟨r, e⟩ := f.2.2.ends
    exact ⟨r, by rw [Prog.run, if_pos f.1]; exact e⟩
  | .call k, h, f => by
    obtain ⟨r, e⟩ := Prog.Foot.ends (p := k) (h := { h with callbackCalls := h.callbackCalls + 1 }) f
    exact ⟨r, by rw [Prog.run]; exact e⟩
  | .hang, _, f => f.elim

/-- A step of a program with a footprint leaves the rest with one, and with the same outcome. -/
theorem Prog.Foot.next {P : Nat → Prop} {p p' : Prog} {h h' : Heap} (f : p.Foot P h) (e : p.next h = some (h', p')) :
    p'.Foot P h' ∧ p'.run h' = p.run h := by
  cases p with
  | ret _ => cases e
  | hang => exact f.elim
  | ld a k =>
    simp only [Prog.next, if_pos f.1, Option.some.injEq, Prod.mk.injEq] at e
    obtain ⟨rfl, rfl⟩ := e
    exact ⟨f.2.2, by rw [Prog.run, if_pos f.1]⟩
  | st a v k =>
    simp only [Prog.next, if_pos f.1, Option.some.injEq, Prod.mk.injEq] at e
    obtain ⟨rfl, rfl⟩ := e
    exact ⟨f.2.2, by rw [Prog.run, if_pos f.1]⟩
  | get x k =>
    simp only [Prog.next, Option.some.injEq, Prod.mk.injEq] at e
    obtain ⟨rfl, rfl⟩ := e
    exact ⟨f, by rw [Prog.run]⟩
  | set x v k =>
    simp only [Prog.next, Option.some.injEq, Prod.mk.injEq] at e
    obtain ⟨rfl, rfl⟩ := e
    exact ⟨f, by rw [Prog.run]⟩
  | zero q n k =>
    simp only [Prog.next, if_pos f.1, Option.some.injEq, Prod.mk.injEq] at e
    obtain ⟨rfl, rfl⟩ := e
    exact ⟨f.2.2, by rw [Prog.run, if_pos f.1]⟩
  | call k =>
    simp only [Prog.next, Option.some.injEq, Prod.mk.injEq] at e
    obtain ⟨rfl, rfl⟩ := e
    exact ⟨f, by rw [Prog.run]⟩

/-- A program with a footprint that is not over can take a step. -/
theorem Prog.Foot.go {P : Nat → Prop} {p : Prog} {h : Heap} (f : p.Foot P h) :
    (∃ r, p = .ret r) ∨ ∃ r, p.next h = some r := by
  cases p with
  | ret r => exact .inl ⟨r, rfl⟩
  | hang => exact f.elim
  | ld a k => exact .inr ⟨_, by rw [Prog.next, if_pos f.1]⟩
  | st a v k => exact .inr ⟨_, by rw [Prog.next, if_pos f.1]⟩
  | get x k => exact .inr ⟨_, by rw [Prog.next]⟩
  | set x v k => exact .inr ⟨_, by rw [Prog.next]⟩
  | zero q n k => exact .inr ⟨_, by rw [Prog.next, if_pos f.1]⟩
  | call k => exact .inr ⟨_, by rw [Prog.next]⟩

/-- Its accesses are to bytes in `P` and to data members, and all are of the class. -/
theorem Prog.Foot.ops {P : Nat → Prop} {p : Prog} {h : Heap} (f : p.Foot P h) :
    ∀ o ∈ p.ops, ∃ l w, o = .acc l w 0 ∧ ∀ x, l = .byte x → P x := by
  intro o ho
  cases p with
  | ret _ | call _ => cases ho
  | hang => exact f.elim
  | ld a k =>
    obtain ⟨i, hi, rfl⟩ := List.mem_map.mp ho
    exact ⟨_, _, rfl, fun x hx => by cases hx; exact f.2.1 i (List.mem_range.mp hi)⟩
  | st a v k =>
    obtain ⟨i, hi, rfl⟩ := List.mem_map.mp ho
    exact ⟨_, _, rfl, fun x hx => by cases hx; exact f.2.1 i (List.mem_range.mp hi)⟩
  | get x k =>
    rw [List.mem_singleton.mp ho]
    exact ⟨_, _, rfl, fun x hx => by cases hx⟩
  | set x v k =>
    rw [List.mem_singleton.mp ho]
    exact ⟨_, _, rfl, fun x hx => by cases hx⟩
  | zero q n k =>
    obtain ⟨i, hi, rfl⟩ := List.mem_map.mp ho
    have := List.mem_range.mp hi
    exact ⟨_, _, rfl, fun x hx => by cases hx; exact f.2.1 _ (by omega) (by omega)⟩

theorem load64_poke {h : Heap} {x a : Nat} {v : Byte} (hx : ∀ i, i < 8 → a + i ≠ x) :
    load64 (poke h x v).mem a = load64 h.mem a := by
  refine load64_congr fun i h1 h2 => if_neg fun e => ?_
  exact hx (i - a) (by omega) (by omega)

theorem store64_poke {h : Heap} {x a w : Nat} {v : Byte} (hx : ∀ i, i < 8 → a + i ≠ x) :
    ({ poke h x v with mem := store64 (poke h x v).mem a w } : Heap) = poke { h with mem := store64 h.mem a w } x v := by
  refine congrArg (fun m => ({ h with mem := m } : Heap)) (funext fun y => ?_)
  show (if a ≤ y ∧ y < a + 8 then BitVec.ofNat 8 (w / 2 ^ (8 * (y - a))) else if y = x then v else h.mem y) =
    (if y = x then v else if a ≤ y ∧ y < a + 8 then BitVec.ofNat 8 (w / 2 ^ (8 * (y - a))) else h.mem y)
  by_cases h1 : a ≤ y ∧ y < a + 8
  · have : y ≠ x := fun e => hx (y - a) (by omega) (by omega)
    rw [if_pos h1, if_neg this, if_pos h1]
  · rw [if_neg h1, if_neg h1]

theorem clear_poke {h : Heap} {x p n : Nat} {v : Byte} (hx : ¬ (p ≤ x ∧ x < p + n)) :
    clear (poke h x v) p n = poke (clear h p n) x v := by
  refine congrArg (fun m => ({ h with mem := m } : Heap)) (funext fun y => ?_)
  show (if p ≤ y ∧ y < p + n then 0 else if y = x then v else h.mem y) =
    (if y = x then v else if p ≤ y ∧ y < p + n then 0 else h.mem y)
  by_cases h1 : p ≤ y ∧ y < p + n
  · have : y ≠ x := by rintro rfl; exact hx h1
    rw [if_pos h1, if_neg this, if_pos h1]
  · rw [if_neg h1, if_neg h1]

theorem var_poke (h : Heap) (x : Nat) (v : Byte) (y : Var) : var (poke h x v) y = var h y := by
  cases y <;> rfl

theorem setVar_poke (h : Heap) (x : Nat) (v : Byte) (y : Var) (n : Nat) :
    setVar (poke h x v) y n = poke (setVar h y n) x v := by
  cases y <;> rfl

/-- Writing to a byte that the program does not touch changes neither the program nor what it does. -/
theorem Prog.Foot.poke {P : Nat → Prop} {x : Nat} {v : Byte} (hx : ¬ P x) : ∀ {p : Prog} {h : Heap}, p.Foot P h →
    p.Foot P (poke h x v) ∧ ∀ h' r, p.run h = .ok (h', r) → p.run (Conc.poke h x v) = .ok (Conc.poke h' x v, r)
  | .ret _, h, _ => ⟨trivial, fun h' r e => by
      rw [Prog.run] at e ⊢
      cases e
      rfl⟩
  | .ld a k, h, f => by
    have hne : ∀ i, i < 8 → a + i ≠ x := fun i hi e => hx (e ▸ f.2.1 i hi)
    obtain ⟨f', e'⟩ := f.2.2.poke (v := v) hx
    refine ⟨⟨f.1, f.2.1, ?_⟩, fun h' r e => ?_⟩
    · rw [load64_poke hne]; exact f'
    · rw [Prog.run, if_pos f.1] at e
      rw [Prog.run, if_pos (show ok (Conc.poke h x v) a = true from f.1), load64_poke hne]
      exact e' h' r e
  | .st a w k, h, f => by
    have hne : ∀ i, i < 8 → a + i ≠ x := fun i hi e => hx (e ▸ f.2.1 i hi)
    obtain ⟨f', e'⟩ := f.2.2.poke (v := v) hx
    refine ⟨⟨f.1, f.2.1, ?_⟩, fun h' r e => ?_⟩
    · rw [store64_poke hne]; exact f'
    · rw [Prog.run, if_pos f.1] at e
      rw [Prog.run, if_pos (show ok (Conc.poke h x v) a = true from f.1), store64_poke hne]
      exact e' h' r e
  | .get y k, h, f => by
    obtain ⟨f', e'⟩ := Prog.Foot.poke (v := v) hx (p := k (var h y)) f
    refine ⟨?_, fun h' r e => ?_⟩
    · show (k (var (Conc.poke h x v) y)).Foot P _
      rw [var_poke]; exact f'
    · rw [Prog.run] at e ⊢
      rw [var_poke]
      exact e' h' r e
  | .set y w k, h, f => by
    obtain ⟨f', e'⟩ := Prog.Foot.poke (v := v) hx (p := k) (h := setVar h y w) f
    refine ⟨?_, fun h' r e => ?_⟩
    · show k.Foot P (setVar (Conc.poke h x v) y w)
      rw [setVar_poke]; exact f'
    · rw [Prog.run] at e ⊢
      rw [setVar_poke]
      exact e' h' r e
  | .zero q n k, h, f => by
    have hne : ¬ (q ≤ x ∧ x < q + n) := fun e => hx (f.2.1 x e.1 e.2)
    obtain ⟨f', e'⟩ := f.2.2.poke (v := v) hx
    refine ⟨⟨f.1, f.2.1, ?_⟩, fun h' r e => ?_⟩
    · rw [clear_poke hne]; exact f'
    · rw [Prog.run, if_pos f.1] at e
      rw [Prog.run, if_pos (show inBuf (Conc.poke h x v) q n = true from f.1), clear_poke hne]
      exact e' h' r e
  | .call k, h, f => by
    obtain ⟨f', e'⟩ := Prog.Foot.poke (v := v) hx (p := k) (h := { h with callbackCalls := h.callbackCalls + 1 }) f
    exact ⟨f', fun h' r e => by rw [Prog.run] at e ⊢; exact e' h' r e⟩
  | .hang, _, f => f.elim

/-! ### The calls -/

/-- The same object. -/
structure Same (h h' : Heap) : Prop where
  size : h'.size = h.size
  base : h'.base = h.base
  start : h'.startAddr = h.startAddr

theorem Same.refl (h : Heap) : Same h h := ⟨rfl, rfl, rfl⟩
theorem Same.trans {a b c : Heap} (x : Same a b) (y : Same b c) : Same a c :=
  ⟨y.1.trans x.1, y.2.trans x.2, y.3.trans x.3⟩
theorem Same.mem (h : Heap) (m : Verif.Heap.Mem) : Same h { h with mem := m } := ⟨rfl, rfl, rfl⟩
theorem Same.set (h : Heap) (x : Var) (v : Nat) : Same h (setVar h x v) := by cases x <;> exact ⟨rfl, rfl, rfl⟩
theorem Same.ok {h h' : Heap} (s : Same h h') (a : Nat) : Conc.ok h' a = Conc.ok h a := by
  simp only [Conc.ok, s.size, s.base, s.start]

/-- A header that may be accessed, made of bytes in `P`. -/
structure Hdr (P : Nat → Prop) (h : Heap) (a : Nat) : Prop where
  next : ok h a = true
  size : ok h (a + 8) = true
  foot : ∀ i, i < 16 → P (a + i)

theorem Hdr.same {P : Nat → Prop} {h h' : Heap} {a : Nat} (x : Hdr P h a) (s : Same h h') : Hdr P h' a :=
  ⟨(s.ok a).trans x.next, (s.ok _).trans x.size, x.foot⟩

section
variable {P : Nat → Prop} {h : Heap}

theorem foot_ldN {a : Nat} {k : Nat → Prog} (x : Hdr P h a) (f : (k (load64 h.mem a)).Foot P h) :
    (Prog.ld (a + offNext) k).Foot P h := by
  rw [offNext_add]
  exact ⟨x.next, fun i hi => x.foot i (by omega), f⟩

theorem foot_ldS {a : Nat} {k : Nat → Prog} (x : Hdr P h a) (f : (k (load64 h.mem (a + 8))).Foot P h) :
    (Prog.ld (a + offSize) k).Foot P h := by
  rw [offSize_add]
  exact ⟨x.size, fun i hi => by rw [Nat.add_assoc]; exact x.foot _ (by omega), f⟩

theorem foot_stN {a v : Nat} {k : Prog} (x : Hdr P h a) (f : k.Foot P { h with mem := store64 h.mem a v }) :
    (Prog.st (a + offNext) v k).Foot P h := by
  rw [offNext_add]
  exact ⟨x.next, fun i hi => x.foot i (by omega), f⟩

theorem foot_stS {a v : Nat} {k : Prog} (x : Hdr P h a) (f : k.Foot P { h with mem := store64 h.mem (a + 8) v }) :
    (Prog.st (a + offSize) v k).Foot P h := by
  rw [offSize_add]
  exact ⟨x.size, fun i hi => by rw [Nat.add_assoc]; exact x.foot _ (by omega), f⟩

theorem foot_get {x : Var} {k : Nat → Prog} (f : (k (var h x)).Foot P h) : (Prog.get x k).Foot P h := f
theorem foot_set {x : Var} {v : Nat} {k : Prog} (f : k.Foot P (setVar h x v)) : (Prog.set x v k).Foot P h := f

theorem split_foot {prev blk w : Nat} {k : Prog} (xp : Hdr P h prev) (xb : Hdr P h blk) (xn : Hdr P h (wadd blk w))
    (f : ∀ h', Same h h' → k.Foot P h') : (split prev blk w k).Foot P h := by
  unfold split
  refine foot_ldS xb ?_
  generalize load64 h.mem (blk + 8) = bs
  by_cases hc : wsub bs w > minBlock
  · rw [if_pos hc]
    refine foot_ldS xb ?_
    refine foot_stS xn ?_
    refine foot_stS (xb.same (Same.mem _ _)) ?_
    refine foot_ldN (xp.same ((Same.mem _ _).trans (Same.mem _ _))) ?_
    refine foot_stN (xn.same ((Same.mem _ _).trans (Same.mem _ _))) ?_
    refine foot_stN (xp.same (((Same.mem _ _).trans (Same.mem _ _)).trans (Same.mem _ _))) ?_
    exact f _ ⟨rfl, rfl, rfl⟩
  · rw [if_neg hc]
    exact f _ (Same.refl _)

theorem account_foot {blk : Nat} {k : Prog} (xb : Hdr P h blk) (f : ∀ h', Same h h' → k.Foot P h') :
    (account blk k).Foot P h := by
  unfold account
  refine foot_ldS xb ?_
  generalize load64 h.mem (blk + 8) = bs
  refine foot_get ?_
  generalize wsub (var h .free) bs = v
  refine foot_set (foot_get (foot_get ?_))
  generalize var (setVar h .free v) .free = f1
  generalize var (setVar h .free v) .minEver = m1
  by_cases hc : f1 < m1
  · rw [if_pos hc]
    exact foot_get (foot_set (f _ ((Same.set _ _ _).trans (Same.set _ _ _))))
  · rw [if_neg hc]
    exact f _ (Same.set _ _ _)

theorem mark_foot {blk : Nat} {k : Prog} (xb : Hdr P h blk) (f : ∀ h', Same h h' → k.Foot P h') :
    (mark blk k).Foot P h := by
  unfold mark
  refine foot_ldS xb (foot_ldS xb (foot_stS xb (foot_stN (xb.same (Same.mem _ _)) ?_)))
  exact foot_get (foot_set (f _ (((Same.mem _ _).trans (Same.mem _ _)).trans (Same.set _ _ _))))

theorem take_foot {prev blk w : Nat} {k : Nat → Prog} (xp : Hdr P h prev) (xb : Hdr P h blk) (xn : Hdr P h (wadd blk w))
    (f : ∀ h', Same h h' → (k (wadd (protect (load64 h.mem prev)) structSize)).Foot P h') :
    (take prev blk w k).Foot P h := by
  unfold take
  refine foot_ldN xp (foot_ldN xb (foot_stN xp ?_))
  have s1 : Same h { h with mem := store64 h.mem prev (load64 h.mem blk) } := Same.mem _ _
  refine split_foot (xp.same s1) (xb.same s1) (xn.same s1) fun h2 s2 => ?_
  have s2 := s1.trans s2
  refine account_foot (xb.same s2) fun h3 s3 => ?_
  have s3 := s2.trans s3
  exact mark_foot (xb.same s3) fun h4 s4 => f h4 (s3.trans s4)

theorem findFit_foot {s w : Nat} {k : Nat → Nat → Prog} (g : Geo h s) (hw : 0 < w)
    (en : load64 h.mem h.pxEnd = protect 0) (es : load64 h.mem (h.pxEnd + 8) = 0) (xe : Hdr P h h.pxEnd)
    (ke : ∀ q, (k q h.pxEnd).Foot P h) :
    ∀ (bs : List Blk) (p lo fuel : Nat), Linked h.mem p bs h.pxEnd → Tiles lo bs h.pxEnd → s ≤ lo → bs.length < fuel →
      (∀ c ∈ bs, c.free = true → Hdr P h c.addr) →
      (∀ pre b post, bs = pre ++ b :: post → b.free = true → w ≤ b.size → (k (last p pre) b.addr).Foot P h) →
      (findFit w k fuel p (protect (load64 h.mem p))).Foot P h := by
  intro bs
  induction bs with
  | nil =>
    intro p lo fuel hl ht hlo hf hx hk
    obtain ⟨fuel, rfl⟩ : ∃ k, fuel = k + 1 := ⟨fuel - 1, by simp at hf; omega⟩
    simp only [Linked] at hl
    rw [hl, protect_protect, findFit]
    refine foot_ldS xe ?_
    rw [es, if_pos hw]
    refine foot_ldN xe ?_
    rw [en, if_neg (fun h => h rfl)]
    exact ke _
  | cons b bs ih =>
    intro p lo fuel hl ht hlo hf hx hk
    obtain ⟨t1, t2, t3, t4⟩ := ht
    simp only [List.length_cons] at hf
    have g1 := g.base_pos
    have g2 := g.base_s
    simp only [Linked] at hl
    by_cases hfree : b.free = true
    · simp only [hfree, if_true] at hl
      obtain ⟨l1, l2, l3⟩ := hl
      obtain ⟨fuel, rfl⟩ : ∃ k, fuel = k + 1 := ⟨fuel - 1, by omega⟩
      have xb := hx b List.mem_cons_self hfree
      rw [l1, protect_protect, findFit]
      refine foot_ldS xb ?_
      rw [l2]
      by_cases hfit : b.size < w
      · obtain ⟨nxa, n1, n2, n3, n4⟩ := linked_head l3 t4 (by omega)
        have hne : load64 h.mem b.addr ≠ protect 0 := by
          rw [n4]; intro hc; have := protect_inj.mp hc; omega
        rw [if_pos hfit]
        refine foot_ldN xb ?_
        rw [if_pos hne]
        refine foot_ldN xb ?_
        refine ih b.addr (lo + b.size) fuel l3 t4 (by omega) (by omega)
          (fun c hc => hx c (List.mem_cons_of_mem _ hc)) fun pre c post e => ?_
        have := hk (b :: pre) c post (by rw [e]; rfl)
        simpa only [last, hfree, if_true] using this
      · rw [if_neg hfit]
        exact hk [] b bs rfl hfree (by omega)
    · simp only [hfree, Bool.false_eq_true, if_false] at hl
      refine ih p (lo + b.size) fuel hl.2.2 t4 (by omega) (by omega)
        (fun c hc => hx c (List.mem_cons_of_mem _ hc)) fun pre c post e => ?_
      have := hk (b :: pre) c post (by rw [e]; rfl)
      simpa only [last, hfree, Bool.false_eq_true, if_false] using this

end

/-- The byte is not in the payload of a block in use. -/
def Outside (bs : List Blk) (x : Nat) : Prop := ∀ c ∈ bs, c.free = false → x < c.addr + 16 ∨ c.addr + c.size ≤ x

section
variable {h : Heap} {s : Nat} {bs : List Blk}

theorem outside_free (t : Tiles s bs h.pxEnd) {c : Blk} (hc : c ∈ bs) (hf : c.free = true) {x : Nat} (h1 : c.addr ≤ x)
    (h2 : x < c.addr + c.size) : Outside bs x := by
  intro d hd hdf
  rcases tiles_disj t c hc d hd with e | e | e
  · subst e; rw [hf] at hdf; cases hdf
  · omega
  · omega

theorem outside_header (t : Tiles s bs h.pxEnd) {c : Blk} (hc : c ∈ bs) {x : Nat} (h1 : c.addr ≤ x)
    (h2 : x < c.addr + 16) : Outside bs x := by
  intro d hd hdf
  have h16 := (tiles_mem t c hc).2.2.1
  rcases tiles_disj t c hc d hd with e | e | e
  · subst e; exact .inl h2
  · omega
  · omega

theorem hdr_mem (g : Geo h s) (t : Tiles s bs h.pxEnd) {c : Blk} (hc : c ∈ bs) : Hdr (Outside bs) h c.addr := by
  have := tiles_mem t c hc
  obtain ⟨g1, g2, g3, g4, g5, g6, g7, g8, g9, g10, g11, g12⟩ := id g
  exact ⟨g.acc_buf (by omega) (by omega) (by omega), g.acc_buf (by omega) (by omega) (by omega),
    fun i hi => outside_header t hc (by omega) (by omega)⟩

theorem hdr_end (g : Geo h s) (t : Tiles s bs h.pxEnd) : Hdr (Outside bs) h h.pxEnd := by
  obtain ⟨g1, g2, g3, g4, g5, g6, g7, g8, g9, g10, g11, g12⟩ := id g
  exact ⟨g.acc_buf (by omega) (by omega) (by omega), g.acc_buf (by omega) (by omega) (by omega),
    fun i hi c hc _ => by have := tiles_mem t c hc; omega⟩

theorem hdr_start (g : Geo h s) (t : Tiles s bs h.pxEnd) : Hdr (Outside bs) h h.startAddr := by
  obtain ⟨g1, g2, g3, g4, g5, g6, g7, g8, g9, g10, g11, g12⟩ := id g
  exact ⟨g.acc_start, g.acc_start8, fun i hi c hc _ => by have := tiles_mem t c hc; omega⟩

/-- The header of what is left of a block. -/
theorem hdr_rest (g : Geo h s) (t : Tiles s bs h.pxEnd) {b : Blk} (hb : b ∈ bs) (hf : b.free = true) {w : Nat}
    (hw : w ≤ b.size) (h8 : w % 8 = 0) : Hdr (Outside bs) h (wadd b.addr w) := by
  have hm := tiles_mem t b hb
  obtain ⟨g1, g2, g3, g4, g5, g6, g7, g8, g9, g10, g11, g12⟩ := id g
  rw [wadd_eq (by omega)]
  refine ⟨g.acc_buf (by omega) (by omega) (by omega), g.acc_buf (by omega) (by omega) (by omega), fun i hi => ?_⟩
  intro c hc hcf
  rcases tiles_disj t b hb c hc with e | e | e
  · subst e; rw [hf] at hcf; cases hcf
  · have := tiles_mem t c hc
    omega
  · omega

theorem last_hdr (g : Geo h s) (t : Tiles s bs h.pxEnd) {pre : List Blk} (hp : ∀ c ∈ pre, c ∈ bs) :
    Hdr (Outside bs) h (last h.startAddr pre) := by
  rcases last_eq_or h.startAddr pre with e | ⟨c, hc, _, e⟩
  · rw [e]; exact hdr_start g t
  · rw [e]; exact hdr_mem g t (hp c hc)

theorem allocate_foot {n : Nat} {k : Nat → Prog} (r : Rep h s bs) (hn : n < W)
    (k0 : ∀ h', Same h h' → (k 0).Foot (Outside bs) h')
    (k1 : ∀ b ∈ bs, b.free = true → need n ≤ b.size → ∀ h', Same h h' → (k (b.addr + 16)).Foot (Outside bs) h') :
    (allocate (fixedOf h) n k).Foot (Outside bs) h := by
  obtain ⟨g, t, l, ss, en, es, na, fe⟩ := id r
  obtain ⟨g1, g2, g3, g4, g5, g6, g7, g8, g9, g10, g11, g12⟩ := id g
  have hnf := need_facts n
  unfold allocate
  have kf : ∀ h', Same h h' → (Prog.get .callback fun cb => if cb ≠ 0 then .call (k 0) else k 0).Foot (Outside bs) h' := by
    intro h' s'
    refine foot_get ?_
    generalize var h' .callback = cb
    by_cases hc : cb ≠ 0
    · rw [if_pos hc]
      exact k0 _ ⟨s'.1, s'.2, s'.3⟩
    · rw [if_neg hc]
      exact k0 _ s'
  unfold allocCore
  have hr := roundWanted_eq hn
  generalize Heap.roundWanted n = w at hr ⊢
  by_cases h1 : sizeIsValid w = true
  · rw [if_pos h1]
    by_cases h2 : w > 0
    · rw [if_pos h2]
      refine foot_get ?_
      by_cases h3 : w ≤ var h .free
      · rw [if_pos h3]
        have hwn : w = need n := by
          rw [hr]; split
          · rename_i hc; rw [if_pos hc] at hr; omega
          · rfl
        subst hwn
        have hlen := tiles_length t
        refine foot_ldN (hdr_start g t) ?_
        refine findFit_foot g h2 en es (hdr_end g t) (fun q => ?_) bs h.startAddr s (h.size + 2) l t (Nat.le_refl _)
          (by omega) (fun c hc _ => hdr_mem g t hc) fun pre b post e hbf hbs => ?_
        · rw [if_neg (by simp [fixedOf])]
          simp only [if_true]
          exact kf _ (Same.refl _)
        · subst e
          have hb : b ∈ pre ++ b :: post := by simp
          have hbm := tiles_mem t b hb
          rw [if_pos (show b.addr ≠ (fixedOf h).pxEnd by show b.addr ≠ h.pxEnd; omega)]
          refine take_foot (last_hdr g t (fun c hc => by simp [hc])) (hdr_mem g t hb)
            (hdr_rest g t hb hbf hbs hnf.2.2) fun h' s' => ?_
          have hl := (linked_append.mp l).2
          simp only [Linked, hbf, if_true] at hl
          rw [hl.1, protect_protect, structSize_eq, wadd_eq (by omega)]
          rw [if_neg (show ¬ b.addr + 16 = 0 by omega)]
          exact k1 b hb hbf hbs h' s'
      · rw [if_neg h3]
        simp only [if_true]
        exact kf _ (Same.refl _)
    · rw [if_neg h2]
      simp only [if_true]
      exact kf _ (Same.refl _)
  · rw [if_neg h1]
    simp only [if_true]
    exact kf _ (Same.refl _)

theorem linked_next {m : Verif.Heap.Mem} {t : Nat} : ∀ {bs : List Blk} {p : Nat}, Linked m p bs t →
    ∃ a, load64 m p = protect a ∧ (a = t ∨ ∃ c ∈ bs, c.addr = a)
  | [], p, l => ⟨t, l, .inl rfl⟩
  | b :: bs, p, l => by
    simp only [Linked] at l
    split at l
    · exact ⟨_, l.1, .inr ⟨b, List.mem_cons_self, rfl⟩⟩
    · obtain ⟨a, e, ha⟩ := linked_next l.2.2
      exact ⟨a, e, ha.imp id fun ⟨c, hc, e⟩ => ⟨c, List.mem_cons_of_mem _ hc, e⟩⟩

theorem findPos_foot {P : Nat → Prop} {blk nx : Nat} {k : Nat → Prog} (hnx : blk ≤ nx) :
    ∀ (pre : List Blk) (p lo fuel : Nat), Seg h.mem p pre → Tiles lo pre blk → Hdr P h p →
      load64 h.mem (last p pre) = protect nx → pre.length < fuel → (∀ c ∈ pre, Hdr P h c.addr) →
      (k (last p pre)).Foot P h → (findPos blk k fuel p).Foot P h := by
  intro pre
  induction pre with
  | nil =>
    intro p lo fuel hs ht xp hl hf hx hk
    obtain ⟨fuel, rfl⟩ : ∃ k, fuel = k + 1 := ⟨fuel - 1, by simp at hf; omega⟩
    simp only [last] at hl hk
    rw [findPos]
    refine foot_ldN xp ?_
    rw [hl, protect_protect, if_neg (by omega)]
    exact hk
  | cons b bs ih =>
    intro p lo fuel hs ht xp hl hf hx hk
    simp only [List.length_cons] at hf
    obtain ⟨t1, t2, t3, t4⟩ := id ht
    have hle := tiles_le t4
    simp only [Seg] at hs
    by_cases hfree : b.free = true
    · simp only [hfree, if_true] at hs
      simp only [last, hfree, if_true] at hl hk
      obtain ⟨fuel, rfl⟩ : ∃ k, fuel = k + 1 := ⟨fuel - 1, by omega⟩
      rw [findPos]
      refine foot_ldN xp ?_
      rw [hs.1, protect_protect, if_pos (by omega)]
      refine foot_ldN xp ?_
      rw [hs.1, protect_protect]
      exact ih b.addr _ fuel hs.2.2 t4 (hx b List.mem_cons_self) hl (by omega)
        (fun c hc => hx c (List.mem_cons_of_mem _ hc)) hk
    · simp only [hfree, Bool.false_eq_true, if_false] at hs
      simp only [last, hfree, Bool.false_eq_true, if_false] at hl hk
      exact ih p _ fuel hs.2.2 t4 xp hl (by omega) (fun c hc => hx c (List.mem_cons_of_mem _ hc)) hk

theorem mergeBefore_foot {P : Nat → Prop} {it blk : Nat} {k : Nat → Prog} (xi : Hdr P h it) (xb : Hdr P h blk)
    (f : ∀ h' ins, Same h h' → load64 h'.mem it = load64 h.mem it → (ins = it ∨ ins = blk) → (k ins).Foot P h') :
    (mergeBefore it blk k).Foot P h := by
  unfold mergeBefore
  refine foot_ldS xi ?_
  by_cases hc : wadd it (load64 h.mem (it + 8)) = blk
  · rw [if_pos hc]
    refine foot_ldS xb (foot_ldS xi (foot_stS xi ?_))
    exact f _ it (Same.mem _ _) (load64_store64_ne (by omega)) (.inl rfl)
  · rw [if_neg hc]
    exact f h blk (Same.refl h) rfl (.inr rfl)

theorem mergeAfter_foot {P : Nat → Prop} {c : Fixed} {it ins : Nat} {k : Prog} (xi : Hdr P h it) (xn : Hdr P h ins)
    (hd : it = ins ∨ it + 16 ≤ ins ∨ ins + 16 ≤ it) (xx : Hdr P h (protect (load64 h.mem it)))
    (f : ∀ h', Same h h' → k.Foot P h') : (mergeAfter c it ins k).Foot P h := by
  unfold mergeAfter
  refine foot_ldS xn (foot_ldN xi ?_)
  by_cases h1 : wadd ins (load64 h.mem (ins + 8)) = protect (load64 h.mem it)
  · rw [if_pos h1]
    refine foot_ldN xi ?_
    by_cases h2 : protect (load64 h.mem it) ≠ c.pxEnd
    · rw [if_pos h2]
      refine foot_ldN xi (foot_ldS xx (foot_ldS xn (foot_stS xn (foot_ldN (xi.same (Same.mem _ _)) ?_))))
      have e : ∀ v, load64 (store64 h.mem (ins + 8) v) it = load64 h.mem it := fun v => load64_store64_ne (by omega)
      simp only [e]
      refine foot_ldN (xx.same (Same.mem _ _)) (foot_stN (xn.same (Same.mem _ _)) ?_)
      exact f _ ((Same.mem _ _).trans (Same.mem _ _))
    · rw [if_neg h2]
      exact foot_stN xn (f _ (Same.mem _ _))
  · rw [if_neg h1]
    exact foot_ldN xi (foot_stN xn (f _ (Same.mem _ _)))

theorem deallocate_foot {b : Blk} {k : Prog} (r : Rep h s bs) (hb : b ∈ bs) (hf : b.free = false)
    (f : ∀ h', Same h h' → k.Foot (Outside bs) h') : (deallocate (fixedOf h) (b.addr + 16) k).Foot (Outside bs) h := by
  obtain ⟨pre, post, rfl⟩ := List.append_of_mem hb
  obtain ⟨g, t, l, ss, en, es, na, fe⟩ := id r
  obtain ⟨p1, p2, p3, p4, p5, p6⟩ := prev_facts g t
  obtain ⟨g1, g2, g3, g4, g5, g6, g7, g8, g9, g10, g11, g12⟩ := id g
  obtain ⟨mid, t1, t2⟩ := tiles_append.mp t
  obtain ⟨e1, e2, e3, e4⟩ := t2
  have hmid := tiles_le t1
  have hhi := tiles_le e4
  obtain ⟨l1, l2⟩ := linked_append.mp l
  simp only [Linked, hf, Bool.false_eq_true, if_false] at l2
  obtain ⟨l3, l4, l5⟩ := l2
  have hpre := tiles_mem t1
  have hlen := tiles_length t1
  obtain ⟨nx, n1, n2⟩ := linked_next l5
  have xb := hdr_mem g t hb
  have xi : Hdr (Outside (pre ++ b :: post)) h (last h.startAddr pre) := last_hdr g t (fun c hc => by simp [hc])
  have xx : Hdr (Outside (pre ++ b :: post)) h nx := by
    rcases n2 with e | ⟨c, hc, e⟩
    · rw [e]; exact hdr_end g t
    · rw [← e]; exact hdr_mem g t (by simp [hc])
  have hnx : b.addr ≤ nx := by
    rcases n2 with e | ⟨c, hc, e⟩
    · omega
    · have := tiles_mem e4 c hc; omega
  clear n2
  unfold deallocate
  rw [if_pos (by omega), show wsub (b.addr + 16) structSize = b.addr by rw [structSize_eq, wsub_eq (by omega) (by omega)]; omega]
  refine foot_ldS xb ?_
  by_cases hc : load64 h.mem (b.addr + 8) &&& allocBit ≠ 0
  · rw [if_pos hc]
    refine foot_ldN xb ?_
    rw [l3, if_pos rfl]
    refine foot_ldS xb (foot_stS xb ?_)
    generalize load64 h.mem (b.addr + 8) &&& not64 allocBit = v
    have s0 : Same h { h with mem := store64 h.mem (b.addr + 8) v } := Same.mem _ _
    refine foot_ldS (xb.same s0) (foot_get (foot_set ?_))
    generalize hh : setVar { h with mem := store64 h.mem (b.addr + 8) v } .free _ = h1
    have s1 : Same h h1 := by rw [← hh]; exact s0.trans (Same.set _ _ _)
    have hm : h1.mem = store64 h.mem (b.addr + 8) v := by rw [← hh]; rfl
    have hm0 : ∀ q, q + 8 ≤ b.addr + 8 ∨ b.addr + 16 ≤ q → load64 h1.mem q = load64 h.mem q := by
      intro q hq; rw [hm]; exact load64_store64_ne (by omega)
    clear hh
    unfold insertFree
    have sg : Seg h1.mem h.startAddr pre := by
      refine seg_frame l1 t1 (by omega) (fun _ => hm0 _ (by omega)) ?_
      intro c hc
      have := hpre c hc
      exact ⟨fun _ => hm0 _ (by omega), hm0 _ (by omega)⟩
    refine findPos_foot (nx := nx) hnx pre h.startAddr s (h.size + 2) sg (e1 ▸ t1) ((hdr_start g t).same s1)
      (by rw [hm0 _ (by omega), n1]) (by omega) (fun c hc => (hdr_mem g t (by simp [hc])).same s1) ?_
    refine mergeBefore_foot (xi.same s1) (xb.same s1) fun h2 ins s2 e2' hins => ?_
    have s12 := s1.trans s2
    have xn : Hdr (Outside (pre ++ b :: post)) h ins := by
      rcases hins with e | e
      · rw [e]; exact xi
      · rw [e]; exact xb
    refine mergeAfter_foot (xi.same s12) (xn.same s12) (by omega) ?_ fun h3 s3 => ?_
    · rw [e2', hm0 _ (by omega), n1, protect_protect]; exact xx.same s12
    · have s13 := s12.trans s3
      have key : ∀ h', Same h h' → (Prog.get .nFree fun n => Prog.set .nFree (wadd n 1) k).Foot (Outside (pre ++ b :: post)) h' :=
        fun h' s' => foot_get (foot_set (f _ (s'.trans (Same.set _ _ _))))
      by_cases hne : last h.startAddr pre ≠ ins
      · rw [if_pos hne]
        exact foot_stN (xi.same s13) (key _ (s13.trans (Same.mem _ _)))
      · rw [if_neg hne]
        exact key _ s13
  · rw [if_neg hc]
    exact f _ (Same.refl _)

end

theorem callocate_foot {h : Heap} {s : Nat} {bs : List Blk} {num sz : Nat} (r : Rep h s bs) :
    (callocate (fixedOf h) num sz .ret).Foot (Outside bs) h := by
  unfold callocate
  by_cases hc : mulWillOverflow num sz = false
  · rw [if_pos hc]
    rw [mulWillOverflow_eq] at hc
    have hlt : num * sz < W := by simpa using hc
    rw [show wmul num sz = num * sz by unfold wmul; exact Nat.mod_eq_of_lt hlt]
    refine allocate_foot r hlt (fun h' _ => ?_) fun b hb hbf hbs h' s' => ?_
    · rw [if_neg (by omega)]
      trivial
    · rw [if_pos (by omega)]
      have hm := tiles_mem r.tiles b hb
      have hnf := need_facts (num * sz)
      obtain ⟨g1, g2, g3, g4, g5, g6, g7, g8, g9, g10, g11, g12⟩ := id r.geo
      refine ⟨?_, fun x h1 h2 => outside_free r.tiles hb hbf (by omega) (by omega), trivial⟩
      unfold inBuf
      rw [s'.size, s'.base, decide_eq_true_iff]
      omega
  · rw [if_neg hc]
    trivial

theorem Prog.Foot.mono {P Q : Nat → Prop} (hPQ : ∀ x, P x → Q x) : ∀ {p : Prog} {h : Heap}, p.Foot P h → p.Foot Q h
  | .ret _, _, _ => trivial
  | .ld _ _, _, f => ⟨f.1, fun i hi => hPQ _ (f.2.1 i hi), f.2.2.mono hPQ⟩
  | .st _ _ _, _, f => ⟨f.1, fun i hi => hPQ _ (f.2.1 i hi), f.2.2.mono hPQ⟩
  | .get x k, h, f => Prog.Foot.mono hPQ (p := k (var h x)) f
  | .set x v k, h, f => Prog.Foot.mono hPQ (p := k) (h := setVar h x v) f
  | .zero _ _ _, _, f => ⟨f.1, fun x h1 h2 => hPQ _ (f.2.1 x h1 h2), f.2.2.mono hPQ⟩
  | .call k, h, f => Prog.Foot.mono hPQ (p := k) (h := { h with callbackCalls := h.callbackCalls + 1 }) f
  | .hang, _, f => f

/-- The byte is in no block in use. -/
def Unused (w : World) (x : Nat) : Prop := ∀ l ∈ w.live, ¬ (l.ptr ≤ x ∧ x < l.ptr + l.len)

/-- The call is legal. -/
def Call.Legal (w : World) (c : Call) : Prop := ∀ op, c.op = some op → Heap.Legal w op

/-- A legal call touches no block in use. -/
theorem call_foot {size base st : Nat} {w : World} {bs : List Blk} (i : WInv size base st w bs) {c : Call}
    (hc : c.Legal w) : (c.prog (fixedOf w.heap)).Foot (Unused w) w.heap := by
  have hm : ∀ x, Outside bs x → Unused w x := by
    intro x hx l hl h
    have h1 := i.live_blk hl
    have h2 := i.lives l hl
    have := hx _ h1.1 h1.2
    simp only [Live.blk] at this
    omega
  refine Prog.Foot.mono hm ?_
  cases c with
  | alloc n => exact allocate_foot i.rep (hc _ rfl) (fun _ _ => trivial) fun _ _ _ _ _ _ => trivial
  | calloc k n => exact callocate_foot i.rep
  | free p =>
    by_cases h0 : p = 0
    · subst h0
      simp only [Call.prog, deallocate]
      rw [if_neg (by omega)]
      trivial
    · rcases hc _ rfl with h | ⟨l, hl, rfl⟩
      · exact absurd h h0
      · obtain ⟨h1, h2⟩ := i.live_blk hl
        have h3 := i.lives l hl
        have := deallocate_foot (k := .ret 0) i.rep h1 h2 fun _ _ => trivial
        simp only [Live.blk] at this
        rwa [show l.ptr - 16 + 16 = l.ptr by omega] at this
  | resetMin => trivial
  | onFail set => trivial
  | freeSize => trivial
  | minEver => trivial

/-- A step of a program with a footprint changes only bytes in it. -/
theorem Prog.Foot.frame {P : Nat → Prop} {p p' : Prog} {h h' : Heap} (f : p.Foot P h) (e : p.next h = some (h', p')) :
    Same h h' ∧ h'.pxEnd = h.pxEnd ∧ ∀ x, ¬ P x → h'.mem x = h.mem x := by
  cases p with
  | ret _ => cases e
  | hang => exact f.elim
  | ld a k =>
    simp only [Prog.next, if_pos f.1, Option.some.injEq, Prod.mk.injEq] at e
    obtain ⟨rfl, rfl⟩ := e
    exact ⟨Same.refl _, rfl, fun _ _ => rfl⟩
  | st a v k =>
    simp only [Prog.next, if_pos f.1, Option.some.injEq, Prod.mk.injEq] at e
    obtain ⟨rfl, rfl⟩ := e
    refine ⟨Same.mem _ _, rfl, fun x hx => store64_other ?_⟩
    by_cases h1 : a ≤ x ∧ x < a + 8
    · refine absurd (f.2.1 (x - a) (by omega)) ?_
      rwa [show a + (x - a) = x by omega]
    · omega
  | get x k =>
    simp only [Prog.next, Option.some.injEq, Prod.mk.injEq] at e
    obtain ⟨rfl, rfl⟩ := e
    exact ⟨Same.refl _, rfl, fun _ _ => rfl⟩
  | set x v k =>
    simp only [Prog.next, Option.some.injEq, Prod.mk.injEq] at e
    obtain ⟨rfl, rfl⟩ := e
    exact ⟨Same.set _ _ _, by cases x <;> rfl, fun _ _ => by cases x <;> rfl⟩
  | zero q n k =>
    simp only [Prog.next, if_pos f.1, Option.some.injEq, Prod.mk.injEq] at e
    obtain ⟨rfl, rfl⟩ := e
    refine ⟨⟨rfl, rfl, rfl⟩, rfl, fun x hx => if_neg fun h1 => hx (f.2.1 x h1.1 h1.2)⟩
  | call k =>
    simp only [Prog.next, Option.some.injEq, Prod.mk.injEq] at e
    obtain ⟨rfl, rfl⟩ := e
    exact ⟨⟨rfl, rfl, rfl⟩, rfl, fun _ _ => rfl⟩

end Verif.Heap.Conc
