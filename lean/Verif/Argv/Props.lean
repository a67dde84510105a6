import Verif.Argv.Model
/-! `argv_parser`: properties C70-C74 and C81-C82. -/
namespace Verif.Argv
open Verif

/-! ### The order of the names -/

theorem lt_irrefl (s : Str) : lt s s = false := by
  induction s with
  | nil => rfl
  | cons a s ih => simp [lt, ih]

theorem lt_ne {s t : Str} (h : lt s t = true) : s ≠ t := by
  rintro rfl
  rw [lt_irrefl] at h
  cases h

theorem lt_trans : ∀ {s t u : Str}, lt s t = true → lt t u = true → lt s u = true
  | [], [], _, h, _ => by simp [lt] at h
  | [], _ :: _, [], _, h => by simp [lt] at h
  | [], _ :: _, _ :: _, _, _ => rfl
  | _ :: _, [], _, h, _ => by simp [lt] at h
  | _ :: _, _ :: _, [], _, h => by simp [lt] at h
  | a :: s, b :: t, c :: u, h, h' => by
    simp only [lt] at h h' ⊢
    by_cases hab : a.toNat < b.toNat
    · by_cases hbc : b.toNat < c.toNat
      · rw [if_pos (by omega)]
      · rw [if_neg hbc] at h'
        by_cases hcb : c.toNat < b.toNat
        · rw [if_pos hcb] at h'; cases h'
        · rw [if_pos (by omega)]
    · rw [if_neg hab] at h
      by_cases hba : b.toNat < a.toNat
      · rw [if_pos hba] at h; cases h
      · rw [if_neg hba] at h
        by_cases hbc : b.toNat < c.toNat
        · rw [if_pos (by omega)]
        · rw [if_neg hbc] at h'
          by_cases hcb : c.toNat < b.toNat
          · rw [if_pos hcb] at h'; cases h'
          · rw [if_neg hcb] at h'
            rw [if_neg (by omega), if_neg (by omega)]
            exact lt_trans h h'

theorem lt_total : ∀ {s t : Str}, s ≠ t → lt s t = false → lt t s = true
  | [], [], h, _ => absurd rfl h
  | [], _ :: _, _, h => by simp [lt] at h
  | _ :: _, [], _, _ => rfl
  | a :: s, b :: t, hn, h => by
    simp only [lt] at h ⊢
    by_cases hab : a.toNat < b.toNat
    · rw [if_pos hab] at h; cases h
    · rw [if_neg hab] at h
      by_cases hba : b.toNat < a.toNat
      · rw [if_pos hba]
      · rw [if_neg hba] at h
        rw [if_neg hba, if_neg hab]
        have hc : a = b := Char.ext (UInt32.toNat_inj.mp (by show a.toNat = b.toNat; omega))
        exact lt_total (fun e => hn (by rw [hc, e])) h

/-! ### The map -/

/-- The names are in order. -/
def Sorted (m : Callbacks) : Prop := m.Pairwise fun a b => lt a.1 b.1 = true

theorem mem_insert {m : Callbacks} {k : Str} {p : Param} {r : Str × Param} (h : r ∈ insert m k p) :
    r = (k, p) ∨ r ∈ m := by
  induction m with
  | nil => exact .inl (by simpa [insert] using h)
  | cons q m ih =>
    simp only [insert] at h
    split at h
    · rcases List.mem_cons.mp h with h | h
      · exact .inl h
      · exact .inr (.tail _ h)
    · split at h
      · rcases List.mem_cons.mp h with h | h
        · exact .inl h
        · exact .inr h
      · rcases List.mem_cons.mp h with h | h
        · exact .inr (h ▸ .head _)
        · rcases ih h with h | h
          · exact .inl h
          · exact .inr (.tail _ h)

theorem sorted_insert {m : Callbacks} (k : Str) (p : Param) (h : Sorted m) : Sorted (insert m k p) := by
  unfold Sorted at h ⊢
  induction m with
  | nil => simp [insert]
  | cons q m ih =>
    rw [List.pairwise_cons] at h
    simp only [insert]
    split
    · rename_i he
      rw [List.pairwise_cons]
      exact ⟨fun r hr => by have := h.1 r hr; rwa [he] at this, h.2⟩
    · rename_i hne
      split
      · rename_i hlt
        rw [List.pairwise_cons, List.pairwise_cons]
        refine ⟨fun r hr => ?_, h⟩
        rcases List.mem_cons.mp hr with rfl | hr
        · exact hlt
        · exact lt_trans hlt (h.1 r hr)
      · rename_i hlt
        rw [List.pairwise_cons]
        refine ⟨fun r hr => ?_, ih h.2⟩
        rcases mem_insert hr with rfl | hr
        · exact lt_total (fun e => hne e.symm) (by simpa using hlt)
        · exact h.1 r hr

/-- The parameter under a name. -/
def look (m : Callbacks) (a : Str) : Option Param := (m.find? fun r => decide (r.1 = a)).map (·.2)

theorem look_cons (q : Str × Param) (m : Callbacks) (a : Str) :
    look (q :: m) a = if q.1 = a then some q.2 else look m a := by
  by_cases h : q.1 = a <;> simp [look, List.find?, h]

theorem look_insert (m : Callbacks) (k : Str) (p : Param) (a : Str) :
    look (insert m k p) a = if k = a then some p else look m a := by
  induction m with
  | nil => simp [insert, look_cons]
  | cons q m ih =>
    simp only [insert]
    by_cases hk : q.1 = k
    · rw [if_pos hk, look_cons, look_cons]
      by_cases ha : k = a
      · simp [ha]
      · simp [ha, hk]
    · rw [if_neg hk]
      by_cases hl : lt k q.1 = true
      · rw [if_pos hl, look_cons]
      · rw [if_neg hl, look_cons, look_cons, ih]
        by_cases ha : k = a
        · subst ha
          simp [hk]
        · simp [ha]

/-- The last registration of a name. -/
def lastReg (regs : List (Str × Param)) (a : Str) : Option Param :=
  (regs.reverse.find? fun r => decide (r.1 = a)).map (·.2)

theorem lastReg_snoc (regs : List (Str × Param)) (r : Str × Param) (a : Str) :
    lastReg (regs ++ [r]) a = if r.1 = a then some r.2 else lastReg regs a := by
  by_cases h : r.1 = a <;> simp [lastReg, List.find?, h]

theorem register_snoc (regs : List (Str × Param)) (r : Str × Param) :
    register (regs ++ [r]) = insert (register regs) r.1 r.2 := by
  simp [register, List.foldl_append]

theorem reverse_ind {α : Type} {P : List α → Prop} (h0 : P []) (h1 : ∀ l a, P l → P (l ++ [a])) (l : List α) : P l := by
  have : ∀ l : List α, P l.reverse := by
    intro l
    induction l with
    | nil => exact h0
    | cons a l ih => rw [List.reverse_cons]; exact h1 _ _ ih
  have h := this l.reverse
  rwa [List.reverse_reverse] at h

theorem register_spec (regs : List (Str × Param)) :
    Sorted (register regs) ∧ ∀ a, look (register regs) a = lastReg regs a := by
  refine reverse_ind (P := fun regs => Sorted (register regs) ∧ ∀ a, look (register regs) a = lastReg regs a)
    ⟨.nil, fun _ => rfl⟩ (fun l r ih => ?_) regs
  rw [register_snoc]
  exact ⟨sorted_insert _ _ ih.1, fun a => by rw [look_insert, lastReg_snoc, ih.2]⟩

/-! ### What an argument does -/

variable {D : Type} (rd : Str → Option D)

/-- The effect of an argument and the one behind it. -/
def effect (p : Option Param) (next : Option Str) (o : Opts D) : Opts D :=
  match p with
  | none => o
  | some (.flag i) => { o with flag := upd o.flag i true }
  | some p =>
    match next with
    | none => o
    | some t => store rd o p t

theorem callback_other {r : Str × Param} {argv : List Str} {idx : Nat} {a : Str} (o : Opts D)
    (ha : argv[idx]? = some a) (h : r.1 ≠ a) : callback rd r argv idx o = .ok o := by
  unfold callback
  rw [ha]
  exact if_neg (fun e => h e.symm)

theorem callback_hit {r : Str × Param} {argv : List Str} {idx : Nat} (o : Opts D)
    (ha : argv[idx]? = some r.1) : callback rd r argv idx o = .ok (effect rd (some r.2) argv[idx + 1]? o) := by
  have hv : ∀ p, (if (idx : Int) < (argv.length : Int) - 1 then
        match argv[idx + 1]? with
        | none => Res.ub
        | some t => .ok (store rd o p t)
      else .ok o) = .ok (match argv[idx + 1]? with
        | none => o
        | some t => store rd o p t) := by
    intro p
    by_cases h : (idx : Int) < (argv.length : Int) - 1
    · rw [if_pos h, List.getElem?_eq_getElem (by omega)]
    · rw [if_neg h, List.getElem?_eq_none (by omega)]
  unfold callback
  rw [ha]
  simp only [if_true]
  rcases r with ⟨k, p⟩
  cases p with
  | str i => exact hv (.str i)
  | int i => exact hv (.int i)
  | dbl i => exact hv (.dbl i)
  | flag i => rfl

theorem runAll_other {argv : List Str} {idx : Nat} {a : Str} (ha : argv[idx]? = some a) :
    ∀ (m : Callbacks) (o : Opts D), (∀ r ∈ m, r.1 ≠ a) → runAll rd argv idx m o = .ok o
  | [], _, _ => rfl
  | r :: m, o, h => by
    rw [runAll, callback_other rd o ha (h r (.head _)), Res.ok_bind]
    exact runAll_other ha m o fun r hr => h r (.tail _ hr)

theorem runAll_spec {argv : List Str} {idx : Nat} {a : Str} (ha : argv[idx]? = some a) :
    ∀ (m : Callbacks) (o : Opts D), Sorted m →
      runAll rd argv idx m o = .ok (effect rd (look m a) argv[idx + 1]? o)
  | [], _, _ => rfl
  | r :: m, o, hs => by
    have hs := List.pairwise_cons.mp hs
    rw [runAll, look_cons]
    by_cases h : r.1 = a
    · subst h
      rw [callback_hit rd o ha, Res.ok_bind, if_pos rfl]
      exact runAll_other rd ha m _ fun q hq => (lt_ne (hs.1 q hq)).symm
    · rw [callback_other rd o ha h, Res.ok_bind, if_neg h]
      exact runAll_spec ha m o hs.2

/-- The arguments one after the other, with the meaning of a name as a parameter. -/
def walk (f : Str → Option Param) : List Str → Opts D → Opts D
  | [], o => o
  | a :: rest, o => walk f rest (effect rd (f a) rest.head? o)

theorem loop_spec {m : Callbacks} (hs : Sorted m) (argv : List Str) :
    ∀ (l : List Str) (idx : Nat) (o : Opts D), argv.drop idx = l →
      loop rd m argv idx l.length o = .ok (walk rd (look m) l o)
  | [], _, _, _ => rfl
  | a :: l, idx, o, h => by
    have hi : idx < argv.length := by
      apply Decidable.byContradiction
      intro hn
      rw [List.drop_eq_nil_of_le (by omega)] at h
      cases h
    rw [List.drop_eq_getElem_cons hi] at h
    injection h with h1 h2
    have ha : argv[idx]? = some a := by rw [List.getElem?_eq_getElem hi, h1]
    have hn : argv[idx + 1]? = l.head? := by rw [← h2, List.head?_drop]
    rw [List.length_cons, loop, runAll_spec rd ha m o hs, Res.ok_bind, hn]
    exact loop_spec hs argv l (idx + 1) _ h2

theorem parse_spec (regs : List (Str × Param)) (argv : List Str) (o : Opts D) :
    parse rd (register regs) argv o = .ok (walk rd (lastReg regs) argv o) := by
  have h := register_spec regs
  have e : look (register regs) = lastReg regs := funext h.2
  rw [← e]
  exact loop_spec rd h.1 argv argv 0 o rfl

/-! ### The fields -/

/-- A field of `Opts` that takes a value, with the way its value is read. -/
structure Field (D : Type) (rd : Str → Option D) where
  β : Type
  get : Opts D → β
  read : Str → Option β
  param : Param
  effect_get : ∀ (p : Option Param) (next : Option Str) (o : Opts D),
    get (effect rd p next o) = if p = some param then ((next.bind read).getD (get o)) else get o

def strField (i : Nat) : Field D rd where
  β := Str
  get o := o.str i
  read := readWord
  param := .str i
  effect_get p next o := by
    rcases p with _ | p
    · simp [effect]
    · cases p with
      | str j =>
        cases next with
        | none => simp [effect]
        | some t =>
          simp only [effect, store, Option.bind_some]
          cases hw : readWord t with
          | none => simp
          | some w => by_cases hj : i = j <;> simp [upd, hj, eq_comm]
      | int j => cases next <;> simp [effect, store]; split <;> rfl
      | dbl j => cases next <;> simp [effect, store]; split <;> rfl
      | flag j => simp [effect]

def intField (i : Nat) : Field D rd where
  β := Int
  get o := o.int i
  read := readInt
  param := .int i
  effect_get p next o := by
    rcases p with _ | p
    · simp [effect]
    · cases p with
      | int j =>
        cases next with
        | none => simp [effect]
        | some t =>
          simp only [effect, store, Option.bind_some]
          cases hw : readInt t with
          | none => simp
          | some w => by_cases hj : i = j <;> simp [upd, hj, eq_comm]
      | str j => cases next <;> simp [effect, store]; split <;> rfl
      | dbl j => cases next <;> simp [effect, store]; split <;> rfl
      | flag j => simp [effect]

def dblField (i : Nat) : Field D rd where
  β := D
  get o := o.dbl i
  read := rd
  param := .dbl i
  effect_get p next o := by
    rcases p with _ | p
    · simp [effect]
    · cases p with
      | dbl j =>
        cases next with
        | none => simp [effect]
        | some t =>
          simp only [effect, store, Option.bind_some]
          cases hw : rd t with
          | none => simp
          | some w => by_cases hj : i = j <;> simp [upd, hj, eq_comm]
      | str j => cases next <;> simp [effect, store]; split <;> rfl
      | int j => cases next <;> simp [effect, store]; split <;> rfl
      | flag j => simp [effect]

/-- Argument `idx` is a name of the parameter `p`, and a token follows that `read` turns into `w`. -/
def Takes {β : Type} (regs : List (Str × Param)) (argv : List Str) (p : Param) (read : Str → Option β)
    (idx : Nat) (w : β) : Prop :=
  ∃ name t, argv[idx]? = some name ∧ lastReg regs name = some p ∧ argv[idx + 1]? = some t ∧ read t = some w

theorem takes_succ {β : Type} {regs : List (Str × Param)} {a : Str} {l : List Str} {p : Param}
    {read : Str → Option β} {idx : Nat} {w : β} :
    Takes regs (a :: l) p read (idx + 1) w ↔ Takes regs l p read idx w := by
  simp [Takes]

theorem walk_none (F : Field D rd) (regs : List (Str × Param)) : ∀ (l : List Str) (o : Opts D),
    (∀ idx w, ¬ Takes regs l F.param F.read idx w) → F.get (walk rd (lastReg regs) l o) = F.get o
  | [], _, _ => rfl
  | a :: l, o, h => by
    rw [walk, walk_none F regs l _ fun idx w ht => h (idx + 1) w (takes_succ.mpr ht), F.effect_get]
    by_cases hp : lastReg regs a = some F.param
    · rw [if_pos hp]
      cases hl : l.head? with
      | none => rfl
      | some t =>
        cases hr : F.read t with
        | none => simp [hr]
        | some w =>
          refine absurd ⟨a, t, rfl, hp, ?_, hr⟩ (h 0 w)
          rw [List.getElem?_cons_succ, ← List.head?_eq_getElem?]
          exact hl
    · rw [if_neg hp]

theorem walk_last (F : Field D rd) (regs : List (Str × Param)) : ∀ (l : List Str) (o : Opts D) (idx : Nat) (w : F.β),
    Takes regs l F.param F.read idx w → (∀ j, idx < j → ∀ v, ¬ Takes regs l F.param F.read j v) →
      F.get (walk rd (lastReg regs) l o) = w
  | [], _, _, _, ⟨_, _, h, _⟩, _ => by simp at h
  | a :: l, o, idx + 1, w, ht, hlast => by
    rw [walk]
    exact walk_last F regs l _ idx w (takes_succ.mp ht)
      fun j hj v hv => hlast (j + 1) (by omega) v (takes_succ.mpr hv)
  | a :: l, o, 0, w, ⟨name, t, h1, h2, h3, h4⟩, hlast => by
    rw [walk, walk_none rd F regs l _ fun idx v hv => hlast (idx + 1) (by omega) v (takes_succ.mpr hv), F.effect_get]
    injection h1 with h1
    rw [h1, if_pos h2, List.head?_eq_getElem?]
    rw [List.getElem?_cons_succ] at h3
    rw [h3]
    simp [h4]

/-! ### C70: options take their value from the following token -/

/-- A string field holds the first word of the token behind the last of its names (any alias) that a token with
a word follows; it is unchanged if there is none. -/
theorem C70_string {D : Type} (rd : Str → Option D) (regs : List (Str × Param)) (argv : List Str) (o : Opts D) (i : Nat) :
    ∃ r, parse rd (register regs) argv o = .ok r ∧
      (∀ idx w, Takes regs argv (.str i) readWord idx w →
        (∀ j, idx < j → ∀ v, ¬ Takes regs argv (.str i) readWord j v) → r.str i = w) ∧
      ((∀ idx w, ¬ Takes regs argv (.str i) readWord idx w) → r.str i = o.str i) :=
  ⟨_, parse_spec rd regs argv o, walk_last rd (strField rd i) regs argv o, walk_none rd (strField rd i) regs argv o⟩

/-- The same for an `int` field. -/
theorem C70_int {D : Type} (rd : Str → Option D) (regs : List (Str × Param)) (argv : List Str) (o : Opts D) (i : Nat) :
    ∃ r, parse rd (register regs) argv o = .ok r ∧
      (∀ idx w, Takes regs argv (.int i) readInt idx w →
        (∀ j, idx < j → ∀ v, ¬ Takes regs argv (.int i) readInt j v) → r.int i = w) ∧
      ((∀ idx w, ¬ Takes regs argv (.int i) readInt idx w) → r.int i = o.int i) :=
  ⟨_, parse_spec rd regs argv o, walk_last rd (intField rd i) regs argv o, walk_none rd (intField rd i) regs argv o⟩

/-- The same for a `double` field, whatever way a `double` is read. -/
theorem C70_double {D : Type} (rd : Str → Option D) (regs : List (Str × Param)) (argv : List Str) (o : Opts D) (i : Nat) :
    ∃ r, parse rd (register regs) argv o = .ok r ∧
      (∀ idx w, Takes regs argv (.dbl i) rd idx w →
        (∀ j, idx < j → ∀ v, ¬ Takes regs argv (.dbl i) rd j v) → r.dbl i = w) ∧
      ((∀ idx w, ¬ Takes regs argv (.dbl i) rd idx w) → r.dbl i = o.dbl i) :=
  ⟨_, parse_spec rd regs argv o, walk_last rd (dblField rd i) regs argv o, walk_none rd (dblField rd i) regs argv o⟩

theorem readWord_iff (s w : Str) : readWord s = some w ↔
    w ≠ [] ∧ (∀ c ∈ w, isSpace c = false) ∧ ∃ pre post, s = pre ++ w ++ post ∧ (∀ c ∈ pre, isSpace c = true) ∧
      (∀ c ∈ post.head?, isSpace c = true) := by
  unfold readWord
  constructor
  · intro h
    simp only at h
    split at h
    · cases h
    · rename_i hne
      injection h with h
      have h0 := List.takeWhile_append_dropWhile (p := isSpace) (l := s)
      have h1 := List.takeWhile_append_dropWhile (p := fun c => !isSpace c) (l := s.dropWhile isSpace)
      refine ⟨?_, ?_, s.takeWhile isSpace, (s.dropWhile isSpace).dropWhile fun c => !isSpace c, ?_, ?_, ?_⟩
      · rw [← h]
        cases hd : s.dropWhile isSpace with
        | nil => exact absurd hd hne
        | cons a t =>
          have ha : isSpace a = false := by
            have := List.head?_dropWhile_not isSpace s
            rw [hd] at this
            simpa using this
          simp [ha]
      · intro c hc
        rw [← h] at hc
        have := List.all_eq_true.mp List.all_takeWhile c hc
        simpa using this
      · rw [← h, List.append_assoc, h1, h0]
      · intro c hc
        exact List.all_eq_true.mp List.all_takeWhile c hc
      · intro c hc
        have := List.head?_dropWhile_not (fun c => !isSpace c) (s.dropWhile isSpace)
        rw [hc] at this
        simpa using this
  · rintro ⟨hne, hw, pre, post, rfl, hpre, hpost⟩
    have hd : (pre ++ w ++ post).dropWhile isSpace = w ++ post := by
      rw [List.append_assoc, List.dropWhile_append_of_pos hpre]
      cases w with
      | nil => exact absurd rfl hne
      | cons a w => rw [List.cons_append, List.dropWhile_cons_of_neg (by simp [hw a (.head _)])]
    simp only [hd]
    rw [if_neg (by simp [hne]), List.takeWhile_append_of_pos (fun c hc => by simp [hw c hc])]
    cases post with
    | nil => simp
    | cons b post => rw [List.takeWhile_cons_of_neg (by simp [hpost b rfl])]; simp

/-- White space by its code: the blank (32) and the codes 9 to 13 (tab, line feed, vertical tab, form feed, return). -/
def Blank (c : Char) : Prop := c.toNat = 32 ∨ (9 ≤ c.toNat ∧ c.toNat ≤ 13)

instance : DecidablePred Blank := fun c => inferInstanceAs (Decidable (c.toNat = 32 ∨ (9 ≤ c.toNat ∧ c.toNat ≤ 13)))

theorem char_eq_iff (a b : Char) : a = b ↔ a.toNat = b.toNat :=
  ⟨fun h => h ▸ rfl, fun h => Char.ext (UInt32.toNat_inj.mp h)⟩

theorem isSpace_iff (c : Char) : isSpace c = true ↔ Blank c := by
  simp only [isSpace, Bool.or_eq_true, decide_eq_true_eq, char_eq_iff]
  rw [show ' '.toNat = 32 from rfl, show '\t'.toNat = 9 from rfl, show '\n'.toNat = 10 from rfl,
    show '\x0b'.toNat = 11 from rfl, show '\x0c'.toNat = 12 from rfl, show '\r'.toNat = 13 from rfl]
  unfold Blank
  omega

theorem isSpace_false (c : Char) : isSpace c = false ↔ ¬ Blank c := by
  rw [← isSpace_iff, Bool.not_eq_true]

/-- A word is what stands between white space: no space in it, only spaces before it, a space or nothing behind. -/
theorem C70_word (s w : Str) : readWord s = some w ↔
    w ≠ [] ∧ (∀ c ∈ w, ¬ Blank c) ∧ ∃ pre post, s = pre ++ w ++ post ∧ (∀ c ∈ pre, Blank c) ∧
      (∀ c ∈ post.head?, Blank c) := by
  rw [readWord_iff]
  simp only [isSpace_iff, isSpace_false]

example : readWord "\t one two".toList = some "one".toList :=
  (C70_word _ _).mpr ⟨by decide, by decide, ['\t', ' '], " two".toList, by decide, by decide, by decide⟩

/-- Options for the examples: names of a program, two aliases of the name, a port, a flag. -/
def exRegs : List (Str × Param) :=
  [("--name".toList, .str 0), ("-n".toList, .str 0), ("-p".toList, .int 0), ("-v".toList, .flag 0)]

def exOpts : Opts Nat := { str := fun _ => "x".toList, int := fun _ => 7, dbl := fun _ => 0, flag := fun _ => false }

def exArgv : List Str := ["prog".toList, "-n".toList, "a".toList, "--name".toList, " b c".toList, "-v".toList, "-p".toList]

example : ∃ r, parse (fun _ => none) (register exRegs) exArgv exOpts = .ok r ∧ r.str 0 = "b".toList ∧ r.int 0 = 7 := by
  obtain ⟨r, hr, h1, _⟩ := C70_string (fun _ => none) exRegs exArgv exOpts 0
  obtain ⟨r', hr', _, h2⟩ := C70_int (fun _ => none) exRegs exArgv exOpts 0
  rw [hr] at hr'
  cases hr'
  refine ⟨r, hr, h1 3 _ ⟨"--name".toList, " b c".toList, by decide, by decide, by decide, by decide⟩ ?_, h2 ?_⟩
  · rintro j hj v ⟨name, t, e1, e2, e3, _⟩
    match j with
    | 0 | 1 | 2 | 3 => omega
    | 4 => cases e1; exact absurd e2 (by decide)
    | 5 => cases e1; exact absurd e2 (by decide)
    | 6 => cases e1; exact absurd e2 (by decide)
    | j + 7 => simp [exArgv] at e1
  · rintro j v ⟨name, t, e1, e2, e3, _⟩
    match j with
    | 0 => cases e1; exact absurd e2 (by decide)
    | 1 => cases e1; exact absurd e2 (by decide)
    | 2 => cases e1; exact absurd e2 (by decide)
    | 3 => cases e1; exact absurd e2 (by decide)
    | 4 => cases e1; exact absurd e2 (by decide)
    | 5 => cases e1; exact absurd e2 (by decide)
    | 6 => cases e3
    | j + 7 => simp [exArgv] at e1

/-! ### C71: flags are set iff present -/

theorem C71_flag_iff {D : Type} (rd : Str → Option D) (regs : List (Str × Param)) (argv : List Str) (o : Opts D) (i : Nat) :
    ∃ r, parse rd (register regs) argv o = .ok r ∧
      (r.flag i = true ↔ o.flag i = true ∨ ∃ name ∈ argv, lastReg regs name = some (.flag i)) := by
  refine ⟨_, parse_spec rd regs argv o, ?_⟩
  have he : ∀ (p : Option Param) (next : Option Str) (o : Opts D),
      (effect rd p next o).flag i = true ↔ o.flag i = true ∨ p = some (.flag i) := by
    intro p next o
    rcases p with _ | p
    · simp [effect]
    · cases p with
      | flag j =>
        by_cases hj : i = j
        · simp [effect, upd, hj]
        · simp [effect, upd, hj, Ne.symm hj]
      | str j => cases next <;> simp [effect, store]; split <;> rfl
      | int j => cases next <;> simp [effect, store]; split <;> rfl
      | dbl j => cases next <;> simp [effect, store]; split <;> rfl
  induction argv generalizing o with
  | nil => simp [walk]
  | cons a l ih =>
    refine (ih _).trans ?_
    rw [he]
    simp only [List.mem_cons, exists_eq_or_imp, or_assoc]

example : ∃ r, parse (fun _ => none) (register exRegs) exArgv exOpts = .ok r ∧ r.flag 0 = true := by
  obtain ⟨r, hr, h⟩ := C71_flag_iff (fun _ => none) exRegs exArgv exOpts 0
  exact ⟨r, hr, h.mpr (.inr ⟨"-v".toList, by decide, by decide⟩)⟩

/-! ### C72: parsing is memory-safe -/

/-- No argument vector, the empty one included, makes `parse` read outside it; the model of `argv[…]` is
undefined behaviour outside the vector. -/
theorem C72_safe {D : Type} (rd : Str → Option D) (regs : List (Str × Param)) (argv : List Str) (o : Opts D) :
    ∃ r, parse rd (register regs) argv o = .ok r :=
  ⟨_, parse_spec rd regs argv o⟩

theorem effect_none_value {p : Param} (hf : ∀ i, p ≠ .flag i) (o : Opts D) : effect rd (some p) none o = o := by
  cases p with
  | flag i => exact absurd rfl (hf i)
  | str i => rfl
  | int i => rfl
  | dbl i => rfl

theorem walk_last_ignored {f : Str → Option Param} {a : Str} {p : Param} (hp : f a = some p) (hf : ∀ i, p ≠ .flag i) :
    ∀ (l : List Str) (o : Opts D), (∀ z q, l.getLast? = some z → f z = some q → ∃ i, q = .flag i) →
      walk rd f (l ++ [a]) o = walk rd f l o
  | [], o, _ => by simp only [List.nil_append, walk, hp, List.head?_nil, effect_none_value rd hf]
  | [z], o, h => by
    have hz : ∀ next next', effect rd (f z) next o = effect rd (f z) next' o := by
      intro next next'
      cases hq : f z with
      | none => rfl
      | some q =>
        obtain ⟨i, rfl⟩ := h z q rfl hq
        rfl
    simp only [List.cons_append, List.nil_append, walk, hp, List.head?_nil, effect_none_value rd hf]
    exact hz _ _
  | z :: y :: l, o, h => by
    rw [List.cons_append, walk, walk, walk_last_ignored hp hf (y :: l) _ fun z' q h1 => h z' q (by simpa using h1)]
    rfl

/-- An option that takes a value and is the last token is ignored (unless the token before it takes it for its
value): the result is the one without it. -/
theorem C72_last_ignored {D : Type} (rd : Str → Option D) (regs : List (Str × Param)) (pre : List Str) (a : Str)
    (p : Param) (o : Opts D) (hp : lastReg regs a = some p) (hf : ∀ i, p ≠ .flag i)
    (hpre : ∀ z q, pre.getLast? = some z → lastReg regs z = some q → ∃ i, q = .flag i) :
    parse rd (register regs) (pre ++ [a]) o = parse rd (register regs) pre o := by
  rw [parse_spec, parse_spec, walk_last_ignored rd hp hf pre o hpre]

example : parse (fun _ => none) (register exRegs) (["-n".toList, "a".toList, "-v".toList] ++ ["-p".toList]) exOpts =
    parse (fun _ => none) (register exRegs) ["-n".toList, "a".toList, "-v".toList] exOpts := by
  refine C72_last_ignored _ exRegs _ "-p".toList (.int 0) exOpts (by decide) (by simp) fun z q h1 h2 => ⟨0, ?_⟩
  cases h1
  have h2' : lastReg exRegs "-v".toList = some q := h2
  rw [show lastReg exRegs "-v".toList = some (.flag 0) by decide] at h2'
  exact (Option.some.inj h2').symm

example : ∃ r, parse (fun _ => none) (register exRegs) [] exOpts = .ok r := C72_safe _ _ _ _

/-! ### C73: registration order is irrelevant -/

/-- Two sequences of registrations in which the last registration of every name is the same give the same result. -/
theorem C73_order {D : Type} (rd : Str → Option D) (regs regs' : List (Str × Param))
    (h : ∀ name, lastReg regs name = lastReg regs' name) (argv : List Str) (o : Opts D) :
    parse rd (register regs) argv o = parse rd (register regs') argv o := by
  rw [parse_spec, parse_spec, show lastReg regs = lastReg regs' from funext h]

/-- In particular, any order of registrations with different names. -/
theorem C73_permutation {D : Type} (rd : Str → Option D) {regs regs' : List (Str × Param)} (h : regs.Perm regs')
    (hn : (regs.map (·.1)).Nodup) (argv : List Str) (o : Opts D) :
    parse rd (register regs) argv o = parse rd (register regs') argv o := by
  refine C73_order rd regs regs' (fun name => ?_) argv o
  have key : ∀ (l : List (Str × Param)), (l.map (·.1)).Nodup → ∀ p, lastReg l name = some p ↔ (name, p) ∈ l := by
    intro l hl p
    unfold lastReg
    constructor
    · intro hp
      obtain ⟨r, hr, rfl⟩ := Option.map_eq_some_iff.mp hp
      have h1 := List.mem_of_find?_eq_some hr
      have h2 := List.find?_some hr
      simp only [decide_eq_true_eq] at h2
      rw [← h2]
      exact List.mem_reverse.mp h1
    · intro hm
      cases hf : l.reverse.find? fun r => decide (r.1 = name) with
      | none =>
        have := List.find?_eq_none.mp hf (name, p) (List.mem_reverse.mpr hm)
        simp at this
      | some r =>
        have h1 := List.mem_reverse.mp (List.mem_of_find?_eq_some hf)
        have h2 := List.find?_some hf
        simp only [decide_eq_true_eq] at h2
        have : r = (name, p) := by
          clear hf
          induction l with
          | nil => cases h1
          | cons q l ih =>
            rw [List.map_cons, List.nodup_cons] at hl
            rcases List.mem_cons.mp h1 with e1 | e1
            · rcases List.mem_cons.mp hm with e2 | e2
              · rw [e1, e2]
              · exact absurd (List.mem_map.mpr ⟨_, e2, by rw [← h2, e1]⟩) hl.1
            · rcases List.mem_cons.mp hm with e2 | e2
              · exact absurd (List.mem_map.mpr ⟨_, e1, by rw [h2, ← e2]⟩) hl.1
              · exact ih hl.2 e2 e1
        rw [this]
        rfl
  have hn' : (regs'.map (·.1)).Nodup := (h.map _).nodup_iff.mp hn
  apply Option.ext
  intro p
  rw [key regs hn p, key regs' hn' p]
  exact h.mem_iff

example : parse (fun _ => none) (register exRegs) exArgv exOpts =
    parse (fun _ => none) (register exRegs.reverse) exArgv exOpts :=
  C73_permutation _ (List.reverse_perm _).symm (by decide) _ _

example : parse (fun _ => none) (register (("-n".toList, .int 3) :: exRegs)) exArgv exOpts =
    parse (fun _ => none) (register exRegs) exArgv exOpts := by
  refine C73_order _ _ _ (fun name => ?_) _ _
  by_cases h : name = "-n".toList
  · subst h; decide
  · have h' : ("-n".toList = name) = False := by simp only [eq_iff_iff, iff_false]; exact fun e => h e.symm
    simp only [lastReg, List.reverse_cons, List.find?_append]
    simp only [List.find?, h', decide_false]
    simp

/-! ### C74: integers round-trip through the command line -/

/-- The decimal representation of a number. -/
def dec (n : Int) : Str := if n < 0 then '-' :: Nat.toDigits 10 n.natAbs else Nat.toDigits 10 n.natAbs

theorem takeWhile_digits (n : Nat) (post : Str) (hp : ∀ c ∈ post.head?, c.isDigit = false) :
    (Nat.toDigits 10 n ++ post).takeWhile Char.isDigit = Nat.toDigits 10 n := by
  rw [List.takeWhile_append_of_pos fun c hc => Nat.isDigit_of_mem_toDigits (by omega) (by omega) hc]
  cases post with
  | nil => simp
  | cons c post => rw [List.takeWhile_cons_of_neg (by simp [hp c rfl]), List.append_nil]

theorem digits_toDigits (n : Nat) (post : Str) (hp : ∀ c ∈ post.head?, c.isDigit = false) :
    digits (Nat.toDigits 10 n ++ post) = n := by
  rw [digits, takeWhile_digits n post hp, Nat.ofDigitChars_ten_toDigits]

theorem clamp_id {n : Int} (h1 : -2147483648 ≤ n) (h2 : n ≤ 2147483647) : clamp n = n := by
  unfold clamp
  rw [if_neg (by omega), if_neg (by omega)]

theorem isSpace_digit {c : Char} (h : c.isDigit = true) : isSpace c = false := by
  cases hs : isSpace c with
  | false => rfl
  | true =>
    simp only [isSpace, Bool.or_eq_true, decide_eq_true_eq] at hs
    rcases hs with ((((rfl | rfl) | rfl) | rfl) | rfl) | rfl <;> exact absurd h (by decide)

/-- What is read from text: spaces, a decimal number and anything that is no digit give the number, limited to the
range of `int`; so a number out of range becomes the nearest one in range. -/
theorem C74_reads (n : Int) (pre post : Str) (hpre : ∀ c ∈ pre, Blank c)
    (hpost : ∀ c ∈ post.head?, c.isDigit = false) :
    readInt (pre ++ dec n ++ post) =
      some (if n < -2 ^ 31 then -2 ^ 31 else if 2 ^ 31 - 1 < n then 2 ^ 31 - 1 else n) := by
  have hclamp : clamp n = if n < -2 ^ 31 then -2 ^ 31 else if 2 ^ 31 - 1 < n then 2 ^ 31 - 1 else n := rfl
  rw [← hclamp]
  unfold dec readInt
  rw [List.append_assoc, List.dropWhile_append_of_pos fun c hc => (isSpace_iff c).mpr (hpre c hc)]
  by_cases hn : n < 0
  · rw [if_pos hn, List.cons_append]
    have hd : ('-' :: (Nat.toDigits 10 n.natAbs ++ post)).dropWhile isSpace = '-' :: (Nat.toDigits 10 n.natAbs ++ post) :=
      List.dropWhile_cons_of_neg (by decide)
    rw [hd]
    simp only
    rw [digits_toDigits _ _ hpost, show -(n.natAbs : Int) = n by omega]
  · rw [if_neg hn]
    have hdig : ∀ c ∈ Nat.toDigits 10 n.natAbs, c.isDigit = true :=
      fun c hc => Nat.isDigit_of_mem_toDigits (by omega) (by omega) hc
    have hv := digits_toDigits n.natAbs post hpost
    have hne : Nat.toDigits 10 n.natAbs ≠ [] := Nat.toDigits_ne_nil
    revert hdig hv hne
    generalize Nat.toDigits 10 n.natAbs = l
    intro hdig hv hne
    cases l with
    | nil => exact absurd rfl hne
    | cons a l =>
      rw [List.cons_append] at hv ⊢
      have ha := hdig a (.head _)
      have hd : (a :: (l ++ post)).dropWhile isSpace = a :: (l ++ post) :=
        List.dropWhile_cons_of_neg (by simp [isSpace_digit ha])
      rw [hd]
      split
      · rename_i e; cases e
      · rename_i e; injection e with e1 _; subst e1; exact absurd ha (by decide)
      · rename_i e; injection e with e1 _; subst e1; exact absurd ha (by decide)
      · rw [hv, show (n.natAbs : Int) = n by omega]

example : readInt " 99999999999x".toList = some 2147483647 :=
  C74_reads 99999999999 [' '] ['x'] (by decide) (by decide)

/-- A leading plus sign is accepted. -/
theorem C74_plus (n : Nat) (pre post : Str) (hpre : ∀ c ∈ pre, Blank c)
    (hpost : ∀ c ∈ post.head?, c.isDigit = false) :
    readInt (pre ++ '+' :: (Nat.toDigits 10 n ++ post)) = some (if 2 ^ 31 - 1 < (n : Int) then 2 ^ 31 - 1 else (n : Int)) := by
  unfold readInt
  rw [List.dropWhile_append_of_pos fun c hc => (isSpace_iff c).mpr (hpre c hc)]
  have hd : ('+' :: (Nat.toDigits 10 n ++ post)).dropWhile isSpace = '+' :: (Nat.toDigits 10 n ++ post) :=
    List.dropWhile_cons_of_neg (by decide)
  rw [hd]
  simp only
  rw [digits_toDigits _ _ hpost]
  unfold clamp
  rw [if_neg (by omega)]
  by_cases h : 2 ^ 31 - 1 < (n : Int)
  · rw [if_pos (by omega), if_pos h]; rfl
  · rw [if_neg (by omega), if_neg h]

example : readInt "+12 ".toList = some 12 := C74_plus 12 [] [' '] (by decide) (by decide)

/-- Text that is no number is not rejected: it is read as zero. -/
theorem C74_not_a_number (c : Char) (pre post : Str) (hpre : ∀ c ∈ pre, Blank c) (hb : ¬ Blank c)
    (hd : c.isDigit = false) (hp : c ≠ '+') (hm : c ≠ '-') : readInt (pre ++ c :: post) = some 0 := by
  unfold readInt
  rw [List.dropWhile_append_of_pos fun c hc => (isSpace_iff c).mpr (hpre c hc),
    List.dropWhile_cons_of_neg (by simp [(isSpace_false c).mpr hb])]
  split
  · rename_i e; cases e
  · rename_i e; injection e with e1 _; exact absurd e1 hm
  · rename_i e; injection e with e1 _; exact absurd e1 hp
  · rw [digits, List.takeWhile_cons_of_neg (by simp [hd])]; rfl

example : readInt "http".toList = some 0 :=
  C74_not_a_number 'h' [] "ttp".toList (by decide) (by decide) (by decide) (by decide) (by decide)

/-- Only a blank text leaves the number alone. -/
theorem C74_blank (s : Str) : readInt s = none ↔ ∀ c ∈ s, Blank c := by
  have h : readInt s = none ↔ s.dropWhile isSpace = [] := by
    unfold readInt
    split <;> simp_all
  rw [h]
  clear h
  induction s with
  | nil => simp
  | cons a s ih =>
    cases ha : isSpace a with
    | true => simp [List.dropWhile_cons_of_pos ha, ih, (isSpace_iff a).mp ha]
    | false =>
      rw [List.dropWhile_cons_of_neg (by simp [ha])]
      simp [(isSpace_false a).mp ha]

theorem readInt_dec {n : Int} (h1 : -2147483648 ≤ n) (h2 : n ≤ 2147483647) : readInt (dec n) = some n := by
  have h := C74_reads n [] [] (by simp) (by simp)
  rw [List.nil_append, List.append_nil] at h
  rw [h]
  congr 1
  exact clamp_id h1 h2

/-- For every 32-bit number: an `int` option that is followed by the decimal representation of the number, and is
not given again, ends up with the number, whatever the other arguments and options are. -/
theorem C74_round_trip {D : Type} (rd : Str → Option D) (regs : List (Str × Param)) (name : Str) (i : Nat)
    (hreg : lastReg regs name = some (.int i)) (n : Int) (h1 : -2 ^ 31 ≤ n) (h2 : n < 2 ^ 31)
    (pre post : List Str) (hd : lastReg regs (dec n) ≠ some (.int i))
    (hpost : ∀ a ∈ post, lastReg regs a ≠ some (.int i)) (o : Opts D) :
    ∃ r, parse rd (register regs) (pre ++ name :: dec n :: post) o = .ok r ∧ r.int i = n := by
  obtain ⟨r, hr, h, _⟩ := C70_int rd regs (pre ++ name :: dec n :: post) o i
  refine ⟨r, hr, h pre.length n ⟨name, dec n, by simp, hreg, by simp, readInt_dec (by omega) (by omega)⟩ ?_⟩
  rintro j hj v ⟨a, t, e1, e2, _⟩
  obtain ⟨k, rfl⟩ : ∃ k, j = pre.length + (k + 1) := ⟨j - pre.length - 1, by omega⟩
  rw [List.getElem?_append_right (by omega), show pre.length + (k + 1) - pre.length = k + 1 by omega,
    List.getElem?_cons_succ] at e1
  cases k with
  | zero => injection e1 with e1; exact hd (e1 ▸ e2)
  | succ k =>
    rw [List.getElem?_cons_succ] at e1
    exact hpost a (List.mem_of_getElem? e1) e2

example : ∃ r, parse (fun _ => none) (register exRegs) ["prog".toList, "-p".toList, "-2147483648".toList, "-v".toList] exOpts
    = .ok r ∧ r.int 0 = -2147483648 :=
  C74_round_trip _ exRegs "-p".toList 0 (by decide) (-2147483648) (by decide) (by decide) ["prog".toList] ["-v".toList]
    (by decide) (by decide) exOpts

/-! ### C81: a token that is consumed as a value is not an option -/

/-- The parser that skips a token once it is the value of an option. -/
def strict (f : Str → Option Param) : List Str → Opts D → Opts D
  | [], o => o
  | [a], o => effect rd (f a) none o
  | a :: t :: rest, o =>
    match f a with
    | some (.flag i) => strict f (t :: rest) { o with flag := upd o.flag i true }
    | some p => strict f rest (store rd o p t)
    | none => strict f (t :: rest) o

/-- The value of every option with a value is not a name itself. -/
def Plain (regs : List (Str × Param)) (argv : List Str) : Prop :=
  ∀ idx name p t, argv[idx]? = some name → lastReg regs name = some p → (∀ i, p ≠ .flag i) → argv[idx + 1]? = some t →
    lastReg regs t = none

theorem Plain.tail {regs : List (Str × Param)} {a : Str} {l : List Str} (h : Plain regs (a :: l)) : Plain regs l :=
  fun idx name p t h1 h2 h3 h4 => h (idx + 1) name p t (by simpa using h1) h2 h3 (by simpa using h4)

/-- If no value is the name of an option, every token has one role: the result is that of the parser which reads
from left to right and skips the values.  Missing: values that are names, see `C81_refuted`. -/
theorem C81_single_role_partial {D : Type} (rd : Str → Option D) (regs : List (Str × Param)) :
    ∀ (argv : List Str) (o : Opts D), Plain regs argv →
      parse rd (register regs) argv o = .ok (strict rd (lastReg regs) argv o) := by
  have key : ∀ (n : Nat) (l : List Str) (o : Opts D), l.length ≤ n → Plain regs l →
      walk rd (lastReg regs) l o = strict rd (lastReg regs) l o := by
    intro n
    induction n with
    | zero =>
      intro l o hl _
      cases l with
      | nil => rfl
      | cons a l => simp at hl
    | succ n ih =>
      intro l o hl hp
      match l, hl, hp with
      | [], _, _ => rfl
      | [a], _, _ => rfl
      | a :: t :: rest, hl, hp =>
        simp only [List.length_cons] at hl
        have hval : ∀ p, lastReg regs a = some p → (∀ i, p ≠ .flag i) →
            walk rd (lastReg regs) (a :: t :: rest) o = strict rd (lastReg regs) rest (store rd o p t) := by
          intro p hpa hf
          have ht := hp 0 a p t rfl hpa hf rfl
          rw [walk, walk, ht, hpa]
          rw [show effect rd none rest.head? (effect rd (some p) (t :: rest).head? o) = store rd o p t by
            cases p with
            | flag i => exact absurd rfl (hf i)
            | str i => rfl
            | int i => rfl
            | dbl i => rfl]
          exact ih rest _ (by omega) hp.tail.tail
        cases hpa : lastReg regs a with
        | none =>
          rw [walk, hpa]
          simp only [strict, hpa]
          exact ih _ _ (by simp only [List.length_cons]; omega) hp.tail
        | some p =>
          cases p with
          | flag i =>
            rw [walk, hpa]
            simp only [strict, hpa]
            exact ih _ _ (by simp only [List.length_cons]; omega) hp.tail
          | str i => rw [hval _ hpa (by simp)]; simp only [strict, hpa]
          | int i => rw [hval _ hpa (by simp)]; simp only [strict, hpa]
          | dbl i => rw [hval _ hpa (by simp)]; simp only [strict, hpa]
  intro argv o hp
  rw [parse_spec, key argv.length argv o (Nat.le_refl _) hp]

/-- A value that is the name of a flag sets the flag: `-n -v` names the thing `-v` and makes it verbose. -/
theorem C81_refuted : ∃ (regs : List (Str × Param)) (argv : List Str) (o r : Opts Nat),
    parse (fun _ => none) (register regs) argv o = .ok r ∧ r.str 0 = "-v".toList ∧ r.flag 0 = true ∧ o.flag 0 = false ∧
      (strict (fun _ => none) (lastReg regs) argv o).flag 0 = false := by
  obtain ⟨r, hr, h1⟩ := C71_flag_iff (fun _ => none) exRegs ["-n".toList, "-v".toList] exOpts 0
  obtain ⟨r', hr', h2, _⟩ := C70_string (fun _ => none) exRegs ["-n".toList, "-v".toList] exOpts 0
  rw [hr] at hr'
  cases hr'
  refine ⟨exRegs, ["-n".toList, "-v".toList], exOpts, r, hr,
    h2 0 _ ⟨"-n".toList, "-v".toList, rfl, by decide, rfl, by decide⟩ ?_,
    h1.mpr (.inr ⟨"-v".toList, by decide, by decide⟩), rfl, by decide⟩
  rintro j hj v ⟨a, t, e1, e2, e3, _⟩
  match j with
  | 0 => omega
  | j + 1 => simp at e3

example : Plain exRegs ["prog".toList, "-n".toList, "a".toList, "-v".toList] := by
  intro idx name p t h1 h2 h3 h4
  match idx with
  | 0 => cases h1; exact absurd h2 (by rw [show lastReg exRegs "prog".toList = none by decide]; simp)
  | 1 => cases h4; decide
  | 2 => cases h1; exact absurd h2 (by rw [show lastReg exRegs "a".toList = none by decide]; simp)
  | 3 => simp at h4
  | n + 4 => simp at h1

/-! ### C82: a parse does not depend on the ones before it -/

/-- An option that is given with a value has the same result whatever the parser held before.  Missing: options
that are not given keep the values of earlier calls, and flags stay set, see `C82_refuted`. -/
theorem C82_given_partial {D : Type} (rd : Str → Option D) (regs : List (Str × Param)) (argv : List Str) (o o' : Opts D) :
    ∃ r r', parse rd (register regs) argv o = .ok r ∧ parse rd (register regs) argv o' = .ok r' ∧
      (∀ i idx w, Takes regs argv (.str i) readWord idx w → r.str i = r'.str i) ∧
      (∀ i idx w, Takes regs argv (.int i) readInt idx w → r.int i = r'.int i) ∧
      (∀ i idx w, Takes regs argv (.dbl i) rd idx w → r.dbl i = r'.dbl i) ∧
      (∀ i, ∀ name ∈ argv, lastReg regs name = some (.flag i) → r.flag i = r'.flag i) := by
  have key : ∀ (F : Field D rd) (l : List Str) (o o' : Opts D),
      F.get (walk rd (lastReg regs) l o) = F.get (walk rd (lastReg regs) l o') ∨
        ∀ idx w, ¬ Takes regs l F.param F.read idx w := by
    intro F l
    induction l with
    | nil => exact fun o o' => .inr fun idx w ⟨_, _, h, _⟩ => by simp at h
    | cons a l ih =>
      intro o o'
      rcases ih (effect rd (lastReg regs a) l.head? o) (effect rd (lastReg regs a) l.head? o') with h | h
      · exact .inl h
      · by_cases h0 : ∃ w, Takes regs (a :: l) F.param F.read 0 w
        · obtain ⟨w, h0⟩ := h0
          have hlast : ∀ j, 0 < j → ∀ v, ¬ Takes regs (a :: l) F.param F.read j v := by
            intro j hj v hv
            obtain ⟨k, rfl⟩ : ∃ k, j = k + 1 := ⟨j - 1, by omega⟩
            exact h k v (takes_succ.mp hv)
          exact .inl ((walk_last rd F regs _ o 0 w h0 hlast).trans (walk_last rd F regs _ o' 0 w h0 hlast).symm)
        · refine .inr fun idx w hw => ?_
          cases idx with
          | zero => exact h0 ⟨w, hw⟩
          | succ k => exact h k w (takes_succ.mp hw)
  refine ⟨_, _, parse_spec rd regs argv o, parse_spec rd regs argv o', ?_, ?_, ?_, ?_⟩
  · exact fun i idx w h => (key (strField rd i) argv o o').resolve_right fun hn => hn idx w h
  · exact fun i idx w h => (key (intField rd i) argv o o').resolve_right fun hn => hn idx w h
  · exact fun i idx w h => (key (dblField rd i) argv o o').resolve_right fun hn => hn idx w h
  · intro i name hm hl
    obtain ⟨r, hr, h⟩ := C71_flag_iff rd regs argv o i
    obtain ⟨r', hr', h'⟩ := C71_flag_iff rd regs argv o' i
    rw [parse_spec] at hr hr'
    cases hr
    cases hr'
    rw [h.mpr (.inr ⟨name, hm, hl⟩), h'.mpr (.inr ⟨name, hm, hl⟩)]

/-- `parse` is a member that changes the parser: what one call sets is still set in the result of the next. -/
theorem C82_refuted : ∃ (regs : List (Str × Param)) (argv : List Str) (o r r' r0 : Opts Nat),
    parse (fun _ => none) (register regs) argv o = .ok r ∧ parse (fun _ => none) (register regs) [] r = .ok r' ∧
      parse (fun _ => none) (register regs) [] o = .ok r0 ∧ r'.flag 0 = true ∧ r0.flag 0 = false := by
  obtain ⟨r, hr, h⟩ := C71_flag_iff (fun _ => none) exRegs ["-v".toList] exOpts 0
  exact ⟨exRegs, ["-v".toList], exOpts, r, r, exOpts, hr, rfl, rfl, h.mpr (.inr ⟨"-v".toList, by decide, by decide⟩), rfl⟩

example : ∃ r r', parse (fun _ => none) (register exRegs) exArgv exOpts = .ok r ∧
    parse (fun _ => none) (register exRegs) exArgv { exOpts with str := fun _ => [] } = .ok r' ∧ r.str 0 = r'.str 0 := by
  obtain ⟨r, r', h1, h2, h3, _⟩ := C82_given_partial (fun _ => none) exRegs exArgv exOpts { exOpts with str := fun _ => [] }
  exact ⟨r, r', h1, h2, h3 0 1 "a".toList ⟨"-n".toList, "a".toList, by decide, by decide, by decide, by decide⟩⟩

end Verif.Argv
