import Verif.Mediator.MemoryInv
import Verif.Mediator.Props
/-!
Properties C153, C154 and the first part of C155: who gets which bytes, and how long.
-/
namespace Verif.Mediator.Memory
open Verif Verif.Data

variable {W : World} {U : Type} {H : Handlers W U} {mods : List Nat}

/-! ### C153: messages are passed on by pointer -/

/-- A message of a module calls the hook of the manager and then `receive` of exactly the modules that send another type, in
the order of registration, each once, and all with the same pointer and size. -/
theorem C153_calls {s : St W U} (h : Reach H mods s) (n m : Nat) (p : Ptr) (sz : Nat) (hs : Ev.start n m p sz ∈ s.log) :
    calls n s.log = (none, W.hash (W.sends m), p, sz) ::
      (mods.filter fun q => W.hash (W.sends q) ≠ W.hash (W.sends m)).map fun q => (some q, W.hash (W.sends m), p, sz) := by
  obtain ⟨u, g⟩ := h.goes
  exact g.good.starts n m p sz hs

/-- A message of the manager calls `receive` of exactly the modules that do not send its type, in the order of
registration, each once; the hook is not called. -/
theorem C153_casts {s : St W U} (h : Reach H mods s) (n t : Nat) (v : W.Val t) (hs : Ev.cast n t v ∈ s.log) :
    (calls n s.log).map (fun c => (c.1, c.2.1, c.2.2.2)) =
      (mods.filter fun q => W.hash (W.sends q) ≠ W.hash t).map fun q => (some q, W.hash t, (W.pod t).size) := by
  obtain ⟨u, g⟩ := h.goes
  exact g.good.casts n t v hs

theorem replay_log {s : St W U} (h : Reach H mods s) : s.mem = replay [] s.log := by
  obtain ⟨u, g⟩ := h.goes
  exact g.mem

/-- Each call of `data` gets the value of the bytes that are at the pointer at that time, and only for types that the module
lists. -/
theorem C153_data {s : St W U} (h : Reach H mods s) (pre post : List (Ev W)) (m t : Nat) (v : W.Val t) (p : Ptr)
    (hl : s.log = pre ++ Ev.data m t v p :: post) :
    t ∈ W.recvs m ∧ ∃ bytes, region (replay [] pre) p (W.pod t).size = some bytes ∧ v = (W.pod t).dec bytes := by
  obtain ⟨u, g⟩ := h.goes
  have hf := g.good.fine
  rw [hl] at hf
  exact hf.split

theorem accepts_sent (hinj : ∀ a b, W.hash a = W.hash b → a = b) {m t : Nat} (ht : t ∈ W.recvs m) :
    accepts W m (W.hash t) (W.pod t).size = some t := by
  have : ∀ l : List Nat, t ∈ l → matchType W (W.hash t) l = some t := by
    intro l
    induction l with
    | nil => intro h; cases h
    | cons a l ih =>
      intro h
      unfold matchType
      split
      · rename_i heq
        rw [hinj _ _ heq]
      · rename_i hne
        rcases List.mem_cons.mp h with h | h
        · exact absurd (by rw [h]) hne
        · exact ih h
  unfold accepts
  rw [this _ ht]
  simp

/-- `receive` of a module that does not override it calls `data` before anything else happens, if the module lists the
type and the size is right. -/
theorem C153_next {s : St W U} (hinj : ∀ a b, W.hash a = W.hash b → a = b) (h : Reach H mods s) (pre post : List (Ev W))
    (n m t : Nat) (p : Ptr) (hl : s.log = pre ++ Ev.told n m (W.hash t) p (W.pod t).size :: post) (hp : H.Plain m)
    (ht : t ∈ W.recvs m) : ∃ v post', post = Ev.data m t v p :: post' := by
  obtain ⟨u, g⟩ := h.goes
  exact g.good.next pre n m _ p _ post t hl hp (accepts_sent hinj ht)

/-- What the inherited `receive` does for a type that the module lists, called by the manager or by an override: `data` gets
the value, once, and nothing else happens before what follows the call. -/
theorem C153_inherited {s : St W U} (hinj : ∀ a b, W.hash a = W.hash b → a = b) {f m t : Nat} {p : Ptr} {k : U → Prog W U}
    {v : W.Val t} (ht : t ∈ W.recvs m) (hv : region s.mem p (W.pod t).size = some ((W.pod t).enc v)) :
    exec H mods (f + 1) (.inherited m (W.hash t) p (W.pod t).size k) s =
      (exec H mods f (H.data s.user m t v) (s.emit (.data m t v p)) >>= fun s' => exec H mods f (k s'.user) s') := by
  rw [exec]
  unfold receive
  rw [accepts_sent hinj ht]
  unfold St.load
  dsimp only
  rw [hv]
  dsimp only [Res.ok_bind]
  rw [Res.ok_bind, (W.pod t).dec_enc]

/-- If the module lists no type with that id and size, `receive` does nothing. -/
theorem C153_refuses {s : St W U} {f m id : Nat} {p : Ptr} {sz : Nat} {k : U → Prog W U}
    (ht : ∀ t ∈ W.recvs m, W.hash t = id → (W.pod t).size ≠ sz) :
    exec H mods (f + 1) (.inherited m id p sz k) s = exec H mods f (k s.user) s := by
  have : ∀ l : List Nat, (∀ t ∈ l, W.hash t = id → (W.pod t).size ≠ sz) → ∀ t, matchType W id l = some t →
      (W.pod t).size ≠ sz := by
    intro l
    induction l with
    | nil => intro _ t h; cases h
    | cons a l ih =>
      intro hl t h
      unfold matchType at h
      split at h
      · rename_i heq
        injection h with h
        subst h
        exact hl _ (List.mem_cons_self ..) heq.symm
      · exact ih (fun t ht => hl t (List.mem_cons_of_mem _ ht)) t h
  have ha : accepts W m id sz = none := by
    unfold accepts
    split
    · rfl
    · rename_i t h
      rw [if_pos (this _ ht t h)]
  rw [exec]
  unfold receive
  rw [ha]
  rfl

theorem region_after {M : Mem} {p : Ptr} {sz : Nat} {bytes : List Byte} (h : region M p sz = some bytes) {e : Ev W}
    (h1 : e ≠ .freed p.buf) (h2 : e ≠ .leave p.buf) : region (after M e) p sz = some (patched p [e] bytes) := by
  have hb : p.buf < M.length := by
    apply Nat.lt_of_not_le
    intro hge
    unfold region object at h
    rw [List.getElem?_eq_none hge] at h
    cases h
  have keep : ∀ M' : Mem, object M' p.buf = object M p.buf → region M' p sz = some bytes := by
    intro M' hM
    unfold region at h ⊢
    rw [hM]
    exact h
  cases e with
  | made b x => exact keep _ (object_append M x hb)
  | enter b x => exact keep _ (object_append M x hb)
  | freed b => exact keep _ (by rw [after, object_set, if_neg fun hh => h1 (by rw [hh])])
  | leave b => exact keep _ (by rw [after, object_set, if_neg fun hh => h2 (by rw [hh])])
  | wrote q x =>
    by_cases hq : q.buf = p.buf
    · unfold region at h ⊢
      rw [after, object_modify, if_pos hq]
      cases ho : object M p.buf with
      | none => rw [ho] at h; cases h
      | some l =>
        rw [ho] at h
        dsimp only [Option.map] at h ⊢
        rw [List.length_set]
        split at h
        · rename_i hle
          injection h with h
          rw [if_pos hle]
          congr 1
          show _ = if q.buf = p.buf ∧ p.off ≤ q.off then bytes.set (q.off - p.off) x else bytes
          rw [List.drop_set]
          by_cases ho : p.off ≤ q.off
          · rw [if_neg (by omega), if_pos ⟨hq, ho⟩, List.take_set, h]
          · rw [if_pos (by omega), if_neg fun hh => ho hh.2, h]
        · cases h
    · rw [keep _ (by rw [after, object_modify, if_neg hq])]
      show _ = some (if q.buf = p.buf ∧ p.off ≤ q.off then bytes.set (q.off - p.off) x else bytes)
      rw [if_neg fun hh => hq hh.1]
  | start => exact keep _ rfl
  | cast => exact keep _ rfl
  | hook => exact keep _ rfl
  | told => exact keep _ rfl
  | data => exact keep _ rfl

theorem patched_cons (p : Ptr) (e : Ev W) (l : List (Ev W)) (bytes : List Byte) :
    patched p (e :: l) bytes = patched p l (patched p [e] bytes) := by
  cases e <;> rfl

theorem region_replay {p : Ptr} {sz : Nat} : ∀ (l : List (Ev W)) {M : Mem} {bytes : List Byte}, region M p sz = some bytes →
    Ev.freed p.buf ∉ l → Ev.leave p.buf ∉ l → region (replay M l) p sz = some (patched p l bytes) := by
  intro l
  induction l with
  | nil => intro M bytes h _ _; exact h
  | cons e l ih =>
    intro M bytes h h1 h2
    rw [patched_cons]
    refine ih (region_after h ?_ ?_) (fun hh => h1 (List.mem_cons_of_mem _ hh)) fun hh => h2 (List.mem_cons_of_mem _ hh)
    · intro hh
      exact h1 (by rw [hh]; exact List.mem_cons_self ..)
    · intro hh
      exact h2 (by rw [hh]; exact List.mem_cons_self ..)

/-- What a module finds when its `receive` is called: the bytes that were there when the sending began, with all that was
written since, unless the user has released the memory meanwhile. -/
theorem C153_left {s : St W U} (h : Reach H mods s) (pre mid post : List (Ev W)) (n m m' id : Nat) (p : Ptr) (sz : Nat)
    (bytes : List Byte) (hl : s.log = pre ++ Ev.start n m p sz :: (mid ++ Ev.told n m' id p sz :: post))
    (hb : region (replay [] pre) p sz = some bytes) (hf : Ev.freed p.buf ∉ mid) :
    region (replay [] (pre ++ Ev.start n m p sz :: mid)) p sz = some (patched p mid bytes) := by
  obtain ⟨u, g⟩ := h.goes
  have hlt : p.buf < (replay [] pre).length := by
    apply Nat.lt_of_not_le
    intro hge
    unfold region object at hb
    rw [List.getElem?_eq_none hge] at hb
    cases hb
  have hk := g.good.kept n m p sz pre mid m' id p sz post hl hlt
  rw [replay_append]
  exact region_replay mid hb hf hk

/-- What `send(field)` does: its union comes into being with the bytes of the value, and `distribute` is called with a
pointer to them (mediator.hpp:147-153). -/
theorem C153_send {s s' : St W U} {f m : Nat} {v : W.Val (W.sends m)} {k : U → Prog W U}
    (hx : exec H mods f (.send m v k) s = .ok s') : ∃ rest, s'.log = s.log ++
      Ev.enter s.mem.length ((W.pod (W.sends m)).enc v) ::
        Ev.start s.count m ⟨s.mem.length, 0⟩ (W.pod (W.sends m)).size :: rest := by
  obtain ⟨l, g⟩ := send_goes hx
  exact ⟨l, g.log⟩

/-- `send(ptr, sz)` passes on the pointer it gets (mediator.hpp:177-181). -/
theorem C153_raw {s s' : St W U} {f m : Nat} {p : Ptr} {sz : Nat} {k : U → Prog W U}
    (hx : exec H mods f (.raw m p sz k) s = .ok s') : ∃ rest, s'.log = s.log ++ Ev.start s.count m p sz :: rest := by
  obtain ⟨l, g⟩ := raw_goes hx
  exact ⟨l, g.log⟩

/-- `send` of the manager (mediator.hpp:308-319). -/
theorem C153_cast {s s' : St W U} {f t : Nat} {v : W.Val t} {k : U → Prog W U}
    (hx : exec H mods f (.cast t v k) s = .ok s') : ∃ rest, s'.log = s.log ++ Ev.cast s.count t v :: rest := by
  obtain ⟨l, g⟩ := cast_goes hx
  exact ⟨l, g.log⟩

/-! ### C154: whether modules can change what others get -/

/-- A message of the manager finds each module with the value sent, whatever other modules write: each gets a union of its
own. -/
theorem C154_manager {s : St W U} (h : Reach H mods s) (n t : Nat) (v : W.Val t) (hs : Ev.cast n t v ∈ s.log)
    (pre post : List (Ev W)) (m id : Nat) (p : Ptr) (sz : Nat) (hl : s.log = pre ++ Ev.told n m id p sz :: post) :
    region (replay [] pre) p sz = some ((W.pod t).enc v) := by
  obtain ⟨u, g⟩ := h.goes
  have hf := g.good.fresh n t v hs
  rw [hl] at hf
  exact hf.split m id p sz rfl

theorem patched_same {p : Ptr} : ∀ {l : List (Ev W)} {bytes : List Byte}, (∀ q x, Ev.wrote q x ∈ l → q.buf ≠ p.buf) →
    patched p l bytes = bytes := by
  intro l
  induction l with
  | nil => intro bytes _; rfl
  | cons e l ih =>
    intro bytes h
    rw [patched_cons, ih fun q x hh => h q x (List.mem_cons_of_mem _ hh)]
    cases e with
    | wrote q x =>
      show (if q.buf = p.buf ∧ p.off ≤ q.off then bytes.set (q.off - p.off) x else bytes) = bytes
      rw [if_neg fun hh => h q x (List.mem_cons_self ..) hh.1]
    | made => rfl
    | enter => rfl
    | freed => rfl
    | leave => rfl
    | start => rfl
    | cast => rfl
    | hook => rfl
    | told => rfl
    | data => rfl

/-- A module that does not override `receive` and lists the type gets the value that was sent with `send(field)`, if nobody
has written to the message (or released its memory, which belongs to the library) before. -/
theorem C154_intact_partial {s : St W U} (hinj : ∀ a b, W.hash a = W.hash b → a = b) (h : Reach H mods s)
    (pre mid post : List (Ev W)) (n m m' id b : Nat) (v : W.Val (W.sends m))
    (hl : s.log = pre ++ Ev.enter b ((W.pod (W.sends m)).enc v) :: Ev.start n m ⟨b, 0⟩ (W.pod (W.sends m)).size ::
      (mid ++ Ev.told n m' id ⟨b, 0⟩ (W.pod (W.sends m)).size :: post))
    (hw : ∀ q x, Ev.wrote q x ∈ mid → q.buf ≠ b) (hf : Ev.freed b ∉ mid) (hp : H.Plain m') (ht : W.sends m ∈ W.recvs m') :
    ∃ post', post = Ev.data m' (W.sends m) v ⟨b, 0⟩ :: post' := by
  have hl' : s.log = (pre ++ [Ev.enter b ((W.pod (W.sends m)).enc v)]) ++ Ev.start n m ⟨b, 0⟩ (W.pod (W.sends m)).size ::
      (mid ++ Ev.told n m' id ⟨b, 0⟩ (W.pod (W.sends m)).size :: post) := by
    rw [hl]
    simp
  have hlen : b = (replay [] pre).length := by
    obtain ⟨u, g⟩ := h.goes
    have hfine := g.good.fine
    rw [hl] at hfine
    exact hfine.split
  have hreg : region (replay [] (pre ++ [Ev.enter b ((W.pod (W.sends m)).enc v)])) ⟨b, 0⟩ (W.pod (W.sends m)).size =
      some ((W.pod (W.sends m)).enc v) := by
    rw [replay_append, hlen]
    exact region_new _ _ ((W.pod (W.sends m)).enc_length v)
  have hkeep := C153_left h _ mid post n m m' id ⟨b, 0⟩ _ _ hl' hreg hf
  rw [patched_same hw] at hkeep
  have hid : id = W.hash (W.sends m) := by
    have hc := C153_calls h n m ⟨b, 0⟩ (W.pod (W.sends m)).size (by rw [hl']; simp)
    have : (some m', id, (⟨b, 0⟩ : Ptr), (W.pod (W.sends m)).size) ∈ calls n s.log := by
      rw [hl', calls_append]
      refine List.mem_append_right _ ?_
      unfold calls
      rw [calls_append]
      refine List.mem_append_right _ ?_
      unfold calls
      rw [if_pos rfl]
      exact List.mem_cons_self ..
    rw [hc] at this
    rcases List.mem_cons.mp this with h1 | h1
    · cases h1
    · obtain ⟨q, _, h2⟩ := List.mem_map.mp h1
      injection h2 with _ h2
      injection h2 with h2 _
      exact h2.symm
  subst hid
  have hl2 : s.log = (pre ++ [Ev.enter b ((W.pod (W.sends m)).enc v)] ++ Ev.start n m ⟨b, 0⟩ (W.pod (W.sends m)).size :: mid) ++
      Ev.told n m' (W.hash (W.sends m)) ⟨b, 0⟩ (W.pod (W.sends m)).size :: post := by
    rw [hl]
    simp
  obtain ⟨v', post', hpost⟩ := C153_next hinj h _ post n m' _ _ hl2 hp ht
  refine ⟨post', ?_⟩
  have hl3 : s.log = (pre ++ [Ev.enter b ((W.pod (W.sends m)).enc v)] ++ Ev.start n m ⟨b, 0⟩ (W.pod (W.sends m)).size :: mid ++
      [Ev.told n m' (W.hash (W.sends m)) ⟨b, 0⟩ (W.pod (W.sends m)).size]) ++ Ev.data m' (W.sends m) v' ⟨b, 0⟩ :: post' := by
    rw [hl2, hpost]
    simp
  obtain ⟨_, bytes, hb, hv⟩ := C153_data h _ _ _ _ _ _ hl3
  have hb' : region (replay [] (pre ++ [Ev.enter b ((W.pod (W.sends m)).enc v)] ++
      Ev.start n m ⟨b, 0⟩ (W.pod (W.sends m)).size :: mid)) ⟨b, 0⟩ (W.pod (W.sends m)).size = some bytes := by
    rw [replay_append] at hb
    exact hb
  rw [hkeep] at hb'
  injection hb' with hb'
  rw [← hb', (W.pod (W.sends m)).dec_enc] at hv
  rw [hpost, hv]

/-! ### C155: how long the memory lasts -/

/-- Once a message has been sent, nobody can use the pointer to it any more: reading or writing is undefined. -/
theorem C155_dangling {s : St W U} (h : Reach H mods s) (b : Nat) (bytes : List Byte) (hb : Ev.enter b bytes ∈ s.log)
    (f off : Nat) (k : U → Byte → Prog W U) (x : Byte) (k' : U → Prog W U) :
    exec H mods (f + 1) (.read ⟨b, off⟩ k) s = .ub ∧ exec H mods (f + 1) (.write ⟨b, off⟩ x k') s = .ub := by
  obtain ⟨u, g⟩ := h.goes
  have hd := (g.good.dead b bytes hb).2
  have hm : object s.mem b = none := by rw [g.mem]; exact hd
  have hr : s.load ⟨b, off⟩ 1 = .ub := by
    unfold St.load region
    dsimp only
    rw [hm]
  constructor <;> unfold exec <;> rw [hr] <;> rfl

/-! ### Executions -/

namespace Ex

/-- The classes of the examples of `Mediator/Props.lean`: module 1 sends the 16-bit type 0, modules 2 and 3 receive it. -/
abbrev V : World := Mediator.Ex.W

/-- Module 2 overrides `receive`: it writes to the message, unless that is empty, and then calls the inherited function.  The others do not.  The
callbacks `data` count. -/
def scribble : Handlers V Nat where
  data u _ _ _ := .ret (u + 1)
  receive _ m id p sz := if m = 2 ∧ 0 < sz then .write p 0xff fun _ => plain m id p sz else plain m id p sz
  hook u _ _ _ := .ret u

/-- Module 2 overrides `receive` and keeps the pointer. -/
def keeper : Handlers V Ptr where
  data u _ _ _ := .ret u
  receive _ m id p sz := if m = 2 then .ret p else plain m id p sz
  hook u _ _ _ := .ret u

/-- The callback `data` of module 2 releases the memory that module 1 sends from. -/
def releaser : Handlers V Nat where
  data u m _ _ := if m = 2 then .free 0 fun u => .ret u else .ret u
  receive _ m id p sz := plain m id p sz
  hook u _ _ _ := .ret u

/-- Module 1 sends a field, then the manager sends. -/
def both : Prog V Nat := .send 1 (0x1234#16) fun _ => .cast 0 (0x5678#16) fun u => .ret u

/-- Module 1 sends from memory of its own. -/
def fromMemory : Prog V Nat := .alloc [1#8, 2#8, 3#8] fun _ b => .raw 1 ⟨b, 1⟩ 2 fun u => .ret u

/-- The state after a run. -/
def get {U : Type} (d : St V U) : Res (St V U) → St V U
  | .ok s => s
  | _ => d

/-- A form of an event that can be compared. -/
def key : Ev V → List Nat
  | .made b l => 0 :: b :: l.map BitVec.toNat
  | .freed b => [1, b]
  | .enter b l => 2 :: b :: l.map BitVec.toNat
  | .leave b => [3, b]
  | .wrote p x => [4, p.buf, p.off, x.toNat]
  | .start n m p sz => [5, n, m, p.buf, p.off, sz]
  | .cast n t v => [6, n, t] ++ ((V.pod t).enc v).map BitVec.toNat
  | .hook n id p sz => [7, n, id, p.buf, p.off, sz]
  | .told n m id p sz => [8, n, m, id, p.buf, p.off, sz]
  | .data m t v p => [9, m, t, p.buf, p.off] ++ ((V.pod t).enc v).map BitVec.toNat

def done : St V Nat := get (St.new 0) (exec scribble [1, 2, 3] 9 both (St.new 0))

theorem done_ok : exec scribble [1, 2, 3] 9 both (St.new 0) = .ok done := rfl

theorem done_reach : Reach scribble [1, 2, 3] done := .run _ _ 9 both (.new 0) done_ok

theorem done_log : done.log = [.enter 0 [0x34#8, 0x12#8], .start 0 1 ⟨0, 0⟩ 2, .hook 0 7 ⟨0, 0⟩ 2, .told 0 2 7 ⟨0, 0⟩ 2,
    .wrote ⟨0, 0⟩ 0xff, .data 2 0 (0x12ff#16) ⟨0, 0⟩, .told 0 3 7 ⟨0, 0⟩ 2, .data 3 0 (0x12ff#16) ⟨0, 0⟩, .leave 0,
    .cast 1 0 (0x5678#16), .enter 1 [0x78#8, 0x56#8], .leave 1, .enter 2 [0x78#8, 0x56#8], .told 1 2 7 ⟨2, 0⟩ 2,
    .wrote ⟨2, 0⟩ 0xff, .data 2 0 (0x56ff#16) ⟨2, 0⟩, .leave 2, .enter 3 [0x78#8, 0x56#8], .told 1 3 7 ⟨3, 0⟩ 2,
    .data 3 0 (0x5678#16) ⟨3, 0⟩, .leave 3] := rfl

theorem plain3 : scribble.Plain 3 := fun _ _ _ _ => rfl

end Ex

/-- A module that overrides `receive` changes what the modules after it get: 0x1234 is sent, and module 3, which is as the
library has it, gets 0x12ff. -/
theorem C154_refuted : ∃ (H : Handlers Ex.V Nat) (s : St Ex.V Nat), Reach H [1, 2, 3] s ∧ H.Plain 3 ∧
    (∃ f k, exec H [1, 2, 3] f (.send 1 (0x1234#16) k) (St.new 0) = .ok s) ∧
    Ev.data 3 0 (0x12ff#16) ⟨0, 0⟩ ∈ s.log ∧ Ev.data 3 0 (0x1234#16) ⟨0, 0⟩ ∉ s.log := by
  refine ⟨Ex.scribble, Ex.done, Ex.done_reach, Ex.plain3, ⟨9, _, Ex.done_ok⟩, ?_, ?_⟩
  · rw [Ex.done_log]
    simp
  · rw [Ex.done_log]
    intro h
    have h' := List.mem_map_of_mem (f := Ex.key) h
    revert h'
    decide

/-- Module 3 gets 0x5678 from the manager although module 2 writes to its copy of the same message (a case of
`C154_manager` and `C153_casts`). -/
example : region (replay [] (Ex.done.log.take 18)) ⟨3, 0⟩ 2 = some [0x78#8, 0x56#8] ∧
    Ex.done.log.drop 18 = [.told 1 3 7 ⟨3, 0⟩ 2, .data 3 0 (0x5678#16) ⟨3, 0⟩, .leave 3] :=
  ⟨C154_manager Ex.done_reach 1 0 (0x5678#16) (by rw [Ex.done_log]; simp) (Ex.done.log.take 18) (Ex.done.log.drop 19) 3
    7 ⟨3, 0⟩ 2 (by rw [Ex.done_log]; rfl), by rw [Ex.done_log]; rfl⟩

/-- As `Ex.scribble`, but it is module 3 that overrides `receive`: module 2 finds the message as sent (a case of
`C154_intact_partial`). -/
def Ex.late : Handlers Ex.V Nat where
  data u _ _ _ := .ret (u + 1)
  receive _ m id p sz := if m = 3 ∧ 0 < sz then .write p 0xff fun _ => plain m id p sz else plain m id p sz
  hook u _ _ _ := .ret u

def Ex.lateDone : St Ex.V Nat := Ex.get (St.new 0) (exec Ex.late [1, 2, 3] 9 Ex.both (St.new 0))

theorem Ex.late_log : Ex.lateDone.log.take 7 = [.enter 0 [0x34#8, 0x12#8], .start 0 1 ⟨0, 0⟩ 2, .hook 0 7 ⟨0, 0⟩ 2,
    .told 0 2 7 ⟨0, 0⟩ 2, .data 2 0 (0x1234#16) ⟨0, 0⟩, .told 0 3 7 ⟨0, 0⟩ 2, .wrote ⟨0, 0⟩ 0xff] := rfl

example : ∃ post', Ex.lateDone.log.drop 4 = Ev.data 2 0 (0x1234#16) ⟨0, 0⟩ :: post' :=
  C154_intact_partial Mediator.Ex.hash_inj (.run _ _ 9 Ex.both (.new 0) rfl : Reach Ex.late [1, 2, 3] Ex.lateDone) []
    [.hook 0 7 ⟨0, 0⟩ 2] (Ex.lateDone.log.drop 4) 0 1 2 7 0 (0x1234#16) rfl (by simp) (by simp) (fun _ _ _ _ => rfl) (by decide)

/-- A message with a write in between (a case of `C153_calls` and `C153_left`). -/
example : calls 0 Ex.done.log = [(none, 7, ⟨0, 0⟩, 2), (some 2, 7, ⟨0, 0⟩, 2), (some 3, 7, ⟨0, 0⟩, 2)] ∧
    region (replay [] (Ex.done.log.take 6)) ⟨0, 0⟩ 2 = some [0xff#8, 0x12#8] :=
  ⟨C153_calls Ex.done_reach 0 1 ⟨0, 0⟩ 2 (by rw [Ex.done_log]; simp),
    C153_left Ex.done_reach (Ex.done.log.take 1) ((Ex.done.log.take 6).drop 2) (Ex.done.log.drop 7) 0 1 3 7 ⟨0, 0⟩ 2
      [0x34#8, 0x12#8] (by rw [Ex.done_log]; rfl) (by rw [Ex.done_log]; rfl) (by rw [Ex.done_log]; simp)⟩

/-- A case of `C153_inherited`. -/
example : exec Ex.scribble [1, 2, 3] 2 (plain 3 7 ⟨0, 0⟩ 2) ((St.new 0).emit (.made 0 [0x34#8, 0x12#8])) =
    (exec Ex.scribble [1, 2, 3] 1 (.ret 1) (((St.new 0).emit (.made 0 [0x34#8, 0x12#8])).emit (.data 3 0 (0x1234#16) ⟨0, 0⟩))
      >>= fun s' => exec Ex.scribble [1, 2, 3] 1 (.ret s'.user) s') :=
  C153_inherited (t := 0) (v := (0x1234#16)) Mediator.Ex.hash_inj (by decide) rfl

/-- A case of `C153_refuses`: a message of type 0 with a wrong size. -/
example : exec Ex.scribble [1, 2, 3] 2 (plain 3 7 ⟨0, 0⟩ 1) (St.new 0) = .ok (St.new 0) :=
  C153_refuses (f := 1) (by decide)

/-- Module 2 keeps the pointer; reading through it after the message is undefined (a case of `C155_dangling`). -/
theorem C155_kept_refuted : ∃ (H : Handlers Ex.V Ptr) (k : Ptr → Byte → Prog Ex.V Ptr),
    exec H [1, 2, 3] 9 (.send 1 (0x1234#16) fun p => .read p k) (St.new ⟨0, 0⟩) = .ub :=
  ⟨Ex.keeper, fun p _ => .ret p, rfl⟩

/-- A callback releases the memory that a module sends from: the next module reads it, which is undefined. -/
theorem C155_released_refuted : ∃ (H : Handlers Ex.V Nat), (∀ m, H.Plain m) ∧
    exec H [1, 2, 3] 9 Ex.fromMemory (St.new 0) = .ub :=
  ⟨Ex.releaser, fun _ _ _ _ _ => rfl, rfl⟩

end Verif.Mediator.Memory
