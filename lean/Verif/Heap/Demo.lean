import Verif.Heap.Client

/-! A concrete history, used in the `example`s that show the hypotheses of the heap theorems can
be met. -/
namespace Verif.Heap

instance (w : World) (op : Op) : Decidable (Legal w op) := by
  cases op <;> unfold Legal <;> infer_instance

/-- Run a list of operations as long as they are legal. -/
def play : World → List Op → Option World
  | w, [] => some w
  | w, op :: ops =>
    if Legal w op then
      match w.step op with
      | .ok (w', _) => play w' ops
      | _ => none
    else none

theorem play_reach {size base st : Nat} (ops : List Op) : ∀ {w w' : World}, Reach size base st w →
    play w ops = some w' → Reach size base st w' := by
  induction ops with
  | nil => intro w w' h e; simp only [play, Option.some.injEq] at e; exact e ▸ h
  | cons op ops ih =>
    intro w w' h e
    simp only [play] at e
    split at e
    · rename_i hl
      split at e
      · rename_i w1 p hs
        exact ih (h.step hl hs) e
      · exact absurd e (by simp)
    · exact absurd e (by simp)

theorem legalRun_of_play (ops : List Op) : ∀ {w w' : World}, play w ops = some w' → LegalRun w ops := by
  induction ops with
  | nil => intro w w' _; trivial
  | cons op ops ih =>
    intro w w' e
    simp only [play] at e
    split at e
    · rename_i hl
      refine ⟨hl, ?_⟩
      intro w1 p hs
      rw [hs] at e
      exact ih e
    · exact absurd e (by simp)

/-- Play a history on a fresh 256-byte heap at the odd address 4099, `x_start_` at 8192. -/
def demo (ops : List Op) : Option World :=
  match Heap.construct 256 4099 8192 (fun _ => 0) with
  | .ok h => play (.start h) ops
  | _ => none

theorem demo_reach {ops : List Op} {w : World} (h : demo ops = some w) : Reach 256 4099 8192 w := by
  unfold demo at h
  split at h
  · rename_i hp hc
    exact play_reach ops (.init hc) h
  · exact absurd h (by simp)

theorem demo_layout : Layout 256 4099 8192 := by constructor <;> decide
theorem demo_roomy : Roomy 256 4099 := by unfold Roomy areaLo; decide

/-- Three allocations, a write, a free and a failing request. -/
def demoOps : List Op :=
  [.onFail true, .alloc 10, .calloc 4 5, .alloc 17, .write 4125 7, .free 4152, .alloc 1000, .alloc 0]

/-- What the world looks like afterwards. -/
theorem demo_facts : (demo demoOps).map (fun w => (w.live, w.freed, w.frees, w.heap.callbackCalls)) =
    some ([⟨4192, 17, 40⟩, ⟨4120, 10, 32⟩], [4152], [160, 160, 160, 120, 160, 200, 232], 2) := by
  decide +kernel

theorem demo_world : ∃ w, Reach 256 4099 8192 w ∧ demo demoOps = some w ∧
    w.live = [⟨4192, 17, 40⟩, ⟨4120, 10, 32⟩] ∧ w.freed = [4152] ∧ w.heap.callbackCalls = 2 := by
  have h := demo_facts
  cases hd : demo demoOps with
  | none => rw [hd] at h; simp at h
  | some w =>
    rw [hd] at h
    simp only [Option.map_some, Option.some.injEq, Prod.mk.injEq] at h
    exact ⟨w, demo_reach hd, rfl, h.1, h.2.1, h.2.2.2⟩

end Verif.Heap
