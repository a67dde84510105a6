import Verif.Values.ReentrantProps
import Verif.Values.DynReentrantProps
/-! The calls of functions in the logs of `Reentrant.lean` and `DynReentrant.lean` are the calls that the functions of the
user get, with these arguments. -/
namespace Verif.Values.Re
open Verif

namespace Seen

variable {U : Type}

/-- A call of a function of an observed object: the `on_update` function with a value, or `disconnect` (observed.hpp:69-71, 79). -/
inductive Call where
  | update (o : Nat) (v : Int)
  | disc (o : Nat)
  deriving DecidableEq, Repr

/-- The same function, in a state with a list beside it that it does not touch (functions of observed.hpp:35-39, 69-71). -/
def keeping (l : List Call) : Prog U → Prog (U × List Call)
  | .ret u => .ret (u, l)
  | .set u k => .set (u, l) (keeping l k)
  | .call op k => .call op fun r w => keeping w.2 (k r w.1)

/-- The same function, which first notes that it has been called (functions of observed.hpp:35-39, 69-71). -/
def noted (c : Call) (w : U × List Call) (p : Prog U) : Prog (U × List Call) :=
  .set (w.1, w.2 ++ [c]) (keeping (w.2 ++ [c]) p)

/-- The same functions, which first note in the list that they have been called, and with which arguments (functions of
observed.hpp:35-39, 69-71). -/
def noting (H : Handlers U) : Handlers (U × List Call) where
  update w o v := noted (.update o v) w (H.update w.1 o v)
  disconnect w o := noted (.disc o) w (H.disconnect w.1 o)

theorem bind_eq_ok {α β : Type} {x : Res α} {f : α → Res β} {b : β} (h : (x >>= f) = .ok b) : ∃ a, x = .ok a ∧ f a = .ok b := by
  cases x with
  | ok a => exact ⟨a, rfl, h⟩
  | ub => cases h
  | hang => cases h

/-! ### With a capacity -/

/-- The update that a call tells. -/
def told : Call → Option (Nat × Int)
  | .update o v => some (o, v)
  | .disc _ => none

/-- The notes on updates are the log. -/
def Noted (s : St (U × List Call)) : Prop := s.user.2.filterMap told = s.log

/-- Operations keep the notes complete. -/
def ExNoted (ex : Ex (U × List Call)) : Prop := ∀ s op r, Noted s → ex s op = .ok r → Noted r.1

theorem Noted.of {s t : St (U × List Call)} (h : Noted s) (hu : t.user = s.user) (hl : t.log = s.log) : Noted t := by
  rw [Noted, hu, hl]; exact h

theorem keeping_noted {ex : Ex (U × List Call)} (hex : ExNoted ex) (p : Prog U) : ∀ (l : List Call) (s t : St (U × List Call)),
    l.filterMap told = s.log → Noted s → runProg ex (keeping l p) s = .ok t → Noted t := by
  induction p with
  | ret u =>
    intro l s t hl _ ht
    simp only [keeping, runProg, Res.ok.injEq] at ht
    subst ht; exact hl
  | set u k ih => exact fun l s t hl _ ht => ih l { s with user := (u, l) } t hl hl ht
  | call op k ih =>
    intro l s t _ h ht
    obtain ⟨r, hr, ht⟩ := bind_eq_ok ht
    have h1 := hex s op r h hr
    exact ih r.2 r.1.user.1 r.1.user.2 r.1 t h1 h1 ht

theorem execStep_noted {ex : Ex (U × List Call)} (hex : ExNoted ex) (H : Handlers U) (T : IntTy) :
    ExNoted (execStep ex (noting H) T) := by
  intro s op r h hr
  cases op with
  | add o =>
    simp only [execStep, Re.add] at hr
    split at hr
    · cases hr; exact h
    · split at hr <;> (cases hr; exact h.of rfl rfl)
  | remove o =>
    simp only [execStep, Re.remove] at hr
    split at hr
    · cases hr; exact h
    · split at hr
      · cases hr; exact h
      · split at hr <;> (cases hr; exact h.of rfl rfl)
  | clear =>
    have hloop : ∀ (left i : Nat) (s t : St (U × List Call)), Noted s → clearLoop ex (noting H) i left s = .ok t → Noted t := by
      intro left
      induction left with
      | zero => intro i s t h ht; cases ht; exact h
      | succ left ih =>
        intro i s t h ht
        obtain ⟨o, -, ht⟩ := bind_eq_ok ht
        obtain ⟨s2, h2, ht⟩ := bind_eq_ok ht
        have hl : (s.user.2 ++ [Call.disc o]).filterMap told = s.log := by
          rw [List.filterMap_append, show s.user.2.filterMap told = _ from h]
          exact List.append_nil _
        exact ih (i + 1) s2 t (keeping_noted hex (H.disconnect s.user.1 o) _
          { s with user := (s.user.1, s.user.2 ++ [Call.disc o]) } s2 hl hl h2) ht
    obtain ⟨t, ht, hr⟩ := bind_eq_ok hr
    cases hr
    exact (hloop _ _ s t h ht).of rfl rfl
  | upd u =>
    obtain ⟨v, -, hr⟩ := bind_eq_ok hr
    obtain ⟨t, ht, hr⟩ := bind_eq_ok hr
    cases hr
    have hloop : ∀ (left i : Nat) (s t : St (U × List Call)), Noted s → notifyLoop ex (noting H) v i left s = .ok t → Noted t := by
      intro left
      induction left with
      | zero => intro i s t h ht; cases ht; exact h
      | succ left ih =>
        intro i s t h ht
        obtain ⟨o, -, ht⟩ := bind_eq_ok ht
        obtain ⟨s2, h2, ht⟩ := bind_eq_ok ht
        have hl : (s.user.2 ++ [Call.update o v]).filterMap told = s.log ++ [(o, v)] := by
          rw [List.filterMap_append, show s.user.2.filterMap told = _ from h]
          rfl
        exact ih (i + 1) s2 t (keeping_noted hex (H.update s.user.1 o v) _
          { s with held := fun p => if p = o then v else s.held p, log := s.log ++ [(o, v)],
                   user := (s.user.1, s.user.2 ++ [Call.update o v]) } s2 hl hl h2) ht
    simp only [notify] at ht
    split at ht
    · cases ht; exact h.of rfl rfl
    · exact hloop _ _ { s with value := stored T s.value u } t (h.of rfl rfl) ht

theorem exec_noted (H : Handlers U) (T : IntTy) (n : Nat) : ExNoted (exec (noting H) T n) := by
  induction n with
  | zero => intro s op r _ hr; cases hr
  | succ n ih => exact execStep_noted ih H T

/-- Calls from outside, one after another (no code). -/
def script (H : Handlers U) (T : IntTy) (n : Nat) : List Op → St U → Res (St U)
  | [], s => .ok s
  | op :: ops, s => do
    let r ← exec H T n s op
    script H T n ops r.1

/-- The log is what the `on_update` functions see: if the functions note their calls and arguments in the user's state, and do
whatever else they do, the updates in the notes are the log, in the same order. -/
theorem C87_seen (H : Handlers U) (T : IntTy) (n max : Nat) (ops : List Op) (u : U) (s : St (U × List Call))
    (hs : script (noting H) T n ops (St.new max (u, [])) = .ok s) : s.user.2.filterMap told = s.log := by
  have : ∀ (ops : List Op) (s t : St (U × List Call)), Noted s → script (noting H) T n ops s = .ok t → Noted t := by
    intro ops
    induction ops with
    | nil => intro s t h ht; cases ht; exact h
    | cons op ops ih =>
      intro s t h ht
      obtain ⟨r, hx, ht⟩ := bind_eq_ok ht
      exact ih r.1 t (exec_noted H T n s op r h hx) ht
  exact this ops (St.new max (u, [])) s (show ([] : List Call).filterMap told = [] from rfl) hs

theorem clearLoop_tells {ex : Ex (U × List Call)} (H : Handlers U) (hq : ∀ u o, H.disconnect u o = .ret u)
    (l : List Nat) : ∀ (i : Nat) (s : St (U × List Call)), s.arr.drop i = l.map some ++ s.arr.drop (i + l.length) →
    clearLoop ex (noting H) i l.length s = .ok { s with user := (s.user.1, s.user.2 ++ l.map Call.disc) } := by
  induction l with
  | nil => intro i s _; simp [clearLoop]
  | cons o l ih =>
    intro i s h
    have hd : deref s i = .ok o := by
      have : s.arr[i]? = some (some o) := by
        rw [← Nat.add_zero i, ← List.getElem?_drop, h]; rfl
      simp [deref, this]
    have hn : s.arr.drop (i + 1) = l.map some ++ s.arr.drop (i + 1 + l.length) := by
      have h2 := congrArg (List.drop 1) h
      rw [List.drop_drop] at h2
      rw [h2, List.length_cons, show i + (l.length + 1) = i + 1 + l.length by omega]
      rfl
    show (do
      let o ← deref s i
      let s ← runProg ex ((noting H).disconnect s.user o) s
      clearLoop ex (noting H) (i + 1) l.length s) = _
    rw [hd]
    show (do
      let s ← runProg ex (noted (.disc o) s.user (H.disconnect s.user.1 o)) s
      clearLoop ex (noting H) (i + 1) l.length s) = _
    rw [hq]
    show clearLoop ex (noting H) (i + 1) l.length { s with user := (s.user.1, s.user.2 ++ [Call.disc o]) } = _
    rw [ih (i + 1) { s with user := (s.user.1, s.user.2 ++ [Call.disc o]) } hn]
    simp

/-- `clear_observers` calls `disconnect` once for each registered object, in the order of registration, and nothing else. -/
theorem C85_disconnects {H : Handlers U} (hq : ∀ u o, H.disconnect u o = .ret u) {T : IntTy} {max : Nat}
    {s : St (U × List Call)} (h : Reach (noting H) T max s) (n : Nat) :
    exec (noting H) T (n + 1) s .clear =
      .ok ({ s with count := 0, user := (s.user.1, s.user.2 ++ (regs s).map Call.disc) }, .unit) := by
  have hi := h.inv
  have hc := hi.cnt
  show (do
    let s ← clearLoop (exec (noting H) T n) (noting H) 0 s.count s
    .ok ({ s with count := 0 }, Ret.unit)) = _
  rw [← hc, clearLoop_tells H hq (regs s) 0 s (by
    rw [← hi.lst, Nat.zero_add, hc, List.take_append_drop, List.drop_zero])]
  rfl

/-- When told less than 3, 10 increments the value. -/
def busy : Handlers Unit :=
  ⟨fun _ o v => if o = 10 ∧ v < 3 then .call (.upd .preInc) fun _ _ => .ret () else .ret (), fun u _ => .ret u⟩

/-- A run with calls in functions. -/
example : (match script (noting busy) .int 5 [.add 10, .add 11, .upd (.assign 1), .clear] (St.new 4 ((), [])) with
    | .ok s => (s.user.2, s.log)
    | _ => ([], [])) =
    ([.update 10 1, .update 10 2, .update 10 3, .update 11 3, .update 11 2, .update 11 1, .disc 10, .disc 11],
      [(10, 1), (10, 2), (10, 3), (11, 3), (11, 2), (11, 1)]) := by
  decide +kernel

/-! ### Without a capacity -/
namespace Unb
open Vec

/-- The call that an event is. -/
def called : Ev → Option Call
  | .told o v => some (.update o v)
  | .disc o => some (.disc o)
  | _ => none

/-- The notes are the calls in the log. -/
def Noted (s : Vec.St (U × List Call)) : Prop := s.user.2 = s.log.filterMap called

/-- Operations keep the notes complete. -/
def ExNoted (ex : Vec.Ex (U × List Call)) : Prop := ∀ s op r, Noted s → ex s op = .ok r → Noted r.1

theorem Noted.emit {s : Vec.St (U × List Call)} (h : Noted s) {e : Ev} (he : called e = none) : Noted (s.emit e) := by
  simp [Noted, Vec.St.emit, List.filterMap_append, he, ← show s.user.2 = _ from h]

theorem Noted.of {s t : Vec.St (U × List Call)} (h : Noted s) (hu : t.user = s.user) (hl : t.log = s.log) : Noted t := by
  rw [Noted, hu, hl]; exact h

theorem keeping_noted {ex : Vec.Ex (U × List Call)} (hex : ExNoted ex) (p : Prog U) : ∀ (l : List Call)
    (s t : Vec.St (U × List Call)), l = s.log.filterMap called → Noted s → Vec.runProg ex (keeping l p) s = .ok t → Noted t := by
  induction p with
  | ret u =>
    intro l s t hl _ ht
    simp only [keeping, Vec.runProg, Res.ok.injEq] at ht
    subst ht; exact hl
  | set u k ih => exact fun l s t hl _ ht => ih l { s with user := (u, l) } t hl hl ht
  | call op k ih =>
    intro l s t _ h ht
    obtain ⟨r, hr, ht⟩ := bind_eq_ok ht
    have h1 := hex s op r h hr
    exact ih r.2 r.1.user.1 r.1.user.2 r.1 t h1 h1 ht

/-- A function, from the event on. -/
theorem noted_noted {ex : Vec.Ex (U × List Call)} (hex : ExNoted ex) {p : Prog U} {c : Call} {e : Ev}
    {s t : Vec.St (U × List Call)} (h : Noted s) (he : called e = some c)
    (ht : Vec.runProg ex (noted c s.user p) (s.emit e) = .ok t) : Noted t := by
  have hl : s.user.2 ++ [c] = (s.emit e).log.filterMap called := by
    rw [show s.user.2 = _ from h]
    simp [Vec.St.emit, List.filterMap_append, he]
  exact keeping_noted hex p _ { s.emit e with user := (s.user.1, s.user.2 ++ [c]) } t hl hl ht

theorem loop_noted {f : Nat → Vec.St (U × List Call) → Res (Vec.St (U × List Call))}
    (hf : ∀ o s t, Noted s → f o s = .ok t → Noted t) {g : Nat} : ∀ (left i : Nat) (s t : Vec.St (U × List Call)), Noted s →
    Vec.loop f g i left s = .ok t → Noted t := by
  intro left
  induction left with
  | zero =>
    intro i s t h ht
    simp only [Vec.loop] at ht
    split at ht <;> cases ht
    exact h
  | succ left ih =>
    intro i s t h ht
    simp only [Vec.loop] at ht
    split at ht
    · obtain ⟨o, -, ht⟩ := bind_eq_ok ht
      obtain ⟨s1, h1, ht⟩ := bind_eq_ok ht
      exact ih (i + 1) s1 t (hf o s s1 h h1) ht
    · cases ht

theorem body_noted {ex : Vec.Ex (U × List Call)} (hex : ExNoted ex) (H : Handlers U) (T : IntTy) (op : Op)
    (s : Vec.St (U × List Call)) (r : Vec.St (U × List Call) × Ret) (h : Noted s)
    (hr : Vec.body ex (noting H) T s op = .ok r) : Noted r.1 := by
  cases op with
  | add o =>
    simp only [Vec.body, Vec.add] at hr
    split at hr <;> (cases hr; exact h.of rfl rfl)
  | remove o =>
    simp only [Vec.body, Vec.remove] at hr
    split at hr
    · cases hr; exact h
    · split at hr <;> (cases hr; exact h.of rfl rfl)
  | clear =>
    obtain ⟨t, ht, hr⟩ := bind_eq_ok hr
    cases hr
    refine (loop_noted (fun o s t h ht => ?_) _ _ s t h ht).of rfl rfl
    obtain ⟨s2, h2, ht⟩ := bind_eq_ok ht
    cases ht
    exact (noted_noted hex h rfl h2).emit rfl
  | upd u =>
    obtain ⟨v, -, hr⟩ := bind_eq_ok hr
    obtain ⟨t, ht, hr⟩ := bind_eq_ok hr
    cases hr
    refine loop_noted (fun o s t h ht => ?_) _ _ { s with value := stored T s.value u } t (h.of rfl rfl) ht
    obtain ⟨s2, h2, ht⟩ := bind_eq_ok ht
    cases ht
    exact (noted_noted (s := { s with held := fun p => if p = o then v else s.held p }) hex (h.of rfl rfl) rfl h2).emit rfl

theorem exec_noted (H : Handlers U) (T : IntTy) (n : Nat) : ExNoted (Vec.exec (noting H) T n) := by
  induction n with
  | zero => intro s op r _ hr; cases hr
  | succ n ih =>
    intro s op r h hr
    obtain ⟨q, hq, hr⟩ := bind_eq_ok hr
    cases hr
    exact (body_noted ih H T op s q h hq).emit rfl

/-- Calls from outside, one after another (no code). -/
def script (H : Handlers U) (T : IntTy) (n : Nat) : List Op → Vec.St U → Res (Vec.St U)
  | [], s => .ok s
  | op :: ops, s => do
    let r ← Vec.exec H T n s op
    script H T n ops r.1

/-- The functions called in the log are what the user's functions see: if they note their calls and arguments in the user's
state, and do whatever else they do, the notes are the calls in the log, in the same order. -/
theorem C93_seen (H : Handlers U) (T : IntTy) (n : Nat) (ops : List Op) (u : U) (s : Vec.St (U × List Call))
    (hs : script (noting H) T n ops (Vec.St.new (u, [])) = .ok s) : s.user.2 = s.log.filterMap called := by
  have : ∀ (ops : List Op) (s t : Vec.St (U × List Call)), Noted s → script (noting H) T n ops s = .ok t → Noted t := by
    intro ops
    induction ops with
    | nil => intro s t h ht; cases ht; exact h
    | cons op ops ih =>
      intro s t h ht
      obtain ⟨r, hx, ht⟩ := bind_eq_ok ht
      exact ih r.1 t (exec_noted H T n s op r h hx) ht
  exact this ops (Vec.St.new (u, [])) s (show ([] : List Call) = [].filterMap called from rfl) hs

/-- A run with calls in functions. -/
example : (match script (noting busy) .int 5 [.add 10, .add 11, .upd (.assign 1), .clear] (Vec.St.new ((), [])) with
    | .ok s => s.user.2
    | _ => []) =
    [.update 10 1, .update 10 2, .update 10 3, .update 11 3, .update 11 2, .update 11 1, .disc 10, .disc 11] := by
  decide +kernel

end Unb

end Seen
end Verif.Values.Re
