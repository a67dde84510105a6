import Verif.Argv.Props
/-! `argv_parser`: properties C167-C169, about texts as values, several parses and the order of the arguments. -/
namespace Verif.Argv
open Verif

/-! ### C167: texts pass through the command line -/

/-- A string option that is followed by a text without white space, and is not given again, ends up with the text.  Missing: texts
with white space and the empty one, see `C167_only`. -/
theorem C167_round_trip_partial {D : Type} (rd : Str → Option D) (regs : List (Str × Param)) (name : Str) (i : Nat)
    (hreg : lastReg regs name = some (.str i)) (t : Str) (h0 : t ≠ []) (hb : ∀ c ∈ t, ¬ Blank c)
    (pre post : List Str) (hd : lastReg regs t ≠ some (.str i))
    (hpost : ∀ a ∈ post, lastReg regs a ≠ some (.str i)) (o : Opts D) :
    ∃ r, parse rd (register regs) (pre ++ name :: t :: post) o = .ok r ∧ r.str i = t := by
  obtain ⟨r, hr, h, _⟩ := C70_string rd regs (pre ++ name :: t :: post) o i
  refine ⟨r, hr, h pre.length t ⟨name, t, by simp, hreg, by simp,
    (C70_word t t).mpr ⟨h0, hb, [], [], by simp, by simp, by simp⟩⟩ ?_⟩
  rintro j hj v ⟨a, t', e1, e2, _⟩
  obtain ⟨k, rfl⟩ : ∃ k, j = pre.length + (k + 1) := ⟨j - pre.length - 1, by omega⟩
  rw [List.getElem?_append_right (by omega)] at e1
  cases k with
  | zero => simp at e1; subst e1; exact hd e2
  | succ k =>
    have : pre.length + (k + 1 + 1) - pre.length = k + 2 := by omega
    rw [this] at e1
    simp only [List.getElem?_cons_succ] at e1
    exact hpost a (List.mem_of_getElem? e1) e2

/-- Whatever is given, a string field that has changed holds a text that is not empty and has no white space: no other text can be set. -/
theorem C167_only {D : Type} (rd : Str → Option D) (regs : List (Str × Param)) (argv : List Str) (o r : Opts D) (i : Nat)
    (h : parse rd (register regs) argv o = .ok r) (hc : r.str i ≠ o.str i) : r.str i ≠ [] ∧ ∀ c ∈ r.str i, ¬ Blank c := by
  rw [parse_spec] at h
  injection h with h
  subst h
  have key : ∀ (l : List Str) (o : Opts D), (walk rd (lastReg regs) l o).str i = o.str i ∨
      (walk rd (lastReg regs) l o).str i ≠ [] ∧ ∀ c ∈ (walk rd (lastReg regs) l o).str i, ¬ Blank c := by
    intro l
    induction l with
    | nil => intro o; exact .inl rfl
    | cons a l ih =>
      intro o
      rw [walk]
      rcases ih (effect rd (lastReg regs a) l.head? o) with h | h
      · rw [h]
        cases lastReg regs a with
        | none => exact .inl rfl
        | some p =>
          cases p with
          | flag j => exact .inl rfl
          | str j =>
            cases l.head? with
            | none => exact .inl rfl
            | some t =>
              simp only [effect, store]
              cases hw : readWord t with
              | none => exact .inl rfl
              | some w =>
                simp only [upd]
                split
                · obtain ⟨h1, h2, _⟩ := (C70_word t w).mp hw
                  exact .inr ⟨h1, h2⟩
                · exact .inl rfl
          | int j =>
            refine .inl ?_
            cases l.head? with
            | none => rfl
            | some t => simp only [effect, store]; cases readInt t <;> rfl
          | dbl j =>
            refine .inl ?_
            cases l.head? with
            | none => rfl
            | some t => simp only [effect, store]; cases rd t <;> rfl
      · exact .inr h
  exact (key argv o).resolve_left hc

/-- Of a text with white space in the middle only the first word arrives. -/
theorem C167_refuted : ∃ r, parse (fun _ => none) (register exRegs) ["-n".toList, "New York".toList] exOpts = .ok r ∧
    r.str 0 = "New".toList := by
  obtain ⟨r, hr, h, _⟩ := C70_string (fun _ => none) exRegs ["-n".toList, "New York".toList] exOpts 0
  refine ⟨r, hr, h 0 _ ⟨"-n".toList, "New York".toList, rfl, by decide, rfl, by decide⟩ ?_⟩
  rintro j hj v ⟨a, t, _, _, e3, _⟩
  match j with
  | j + 1 => simp at e3

example : ∃ r, parse (fun _ => none) (register exRegs) ["prog".toList, "-n".toList, "Bonn".toList, "-v".toList] exOpts = .ok r ∧
    r.str 0 = "Bonn".toList :=
  C167_round_trip_partial _ exRegs "-n".toList 0 (by decide) "Bonn".toList (by decide) (by decide) ["prog".toList] ["-v".toList]
    (by decide) (by decide) exOpts

/-! ### C168: two parses are one -/

theorem effect_free (rd : Str → Option D) {p : Option Param} (h : ∀ q, p = some q → ∃ i, q = .flag i) (a b : Option Str) (o : Opts D) :
    effect rd p a o = effect rd p b o := by
  cases p with
  | none => rfl
  | some q => obtain ⟨i, rfl⟩ := h q rfl; rfl

theorem walk_append (rd : Str → Option D) (f : Str → Option Param) : ∀ (a b : List Str) (o : Opts D),
    (∀ z q, a.getLast? = some z → f z = some q → ∃ i, q = .flag i) → walk rd f (a ++ b) o = walk rd f b (walk rd f a o)
  | [], b, o, _ => rfl
  | [z], b, o, h => by
    simp only [List.cons_append, List.nil_append, walk]
    rw [effect_free rd (fun q hq => h z q rfl hq) b.head? [].head?]
  | z :: y :: l, b, o, h => by
    rw [List.cons_append, walk, walk, walk_append rd f (y :: l) b _ fun z' q h1 => h z' q (by simpa using h1)]
    rfl

/-- No option that takes a value is the last token. -/
def Ended (regs : List (Str × Param)) (argv : List Str) : Prop :=
  ∀ z q, argv.getLast? = some z → lastReg regs z = some q → ∃ i, q = .flag i

/-- Parsing two lists one after the other is parsing them as one, if the first does not end with an option that takes a value.
Missing: first lists that do, see `C168_refuted`. -/
theorem C168_join_partial {D : Type} (rd : Str → Option D) (regs : List (Str × Param)) (a b : List Str) (o : Opts D)
    (h : Ended regs a) : parse rd (register regs) (a ++ b) o =
      (parse rd (register regs) a o).bind fun r => parse rd (register regs) b r := by
  rw [parse_spec, parse_spec, walk_append rd _ a b o h]
  exact (parse_spec rd regs b _).symm

/-- Parsing the same arguments again changes nothing. -/
theorem C168_again {D : Type} (rd : Str → Option D) (regs : List (Str × Param)) (argv : List Str) (o r : Opts D)
    (h : parse rd (register regs) argv o = .ok r) : parse rd (register regs) argv r = .ok r := by
  obtain ⟨r1, r2, h1, h2, hs, hi, hd, hf⟩ := C82_given_partial rd regs argv o r
  rw [h] at h1
  cases h1
  rw [h2]
  congr 1
  have es : ∀ i, r2.str i = r.str i := by
    intro i
    obtain ⟨q, k, _, n⟩ := C70_string rd regs argv r i
    rw [h2] at k; cases k
    by_cases ht : ∃ idx w, Takes regs argv (.str i) readWord idx w
    · obtain ⟨idx, w, ht⟩ := ht; exact (hs i idx w ht).symm
    · exact n fun idx w hw => ht ⟨idx, w, hw⟩
  have ei : ∀ i, r2.int i = r.int i := by
    intro i
    obtain ⟨q, k, _, n⟩ := C70_int rd regs argv r i
    rw [h2] at k; cases k
    by_cases ht : ∃ idx w, Takes regs argv (.int i) readInt idx w
    · obtain ⟨idx, w, ht⟩ := ht; exact (hi i idx w ht).symm
    · exact n fun idx w hw => ht ⟨idx, w, hw⟩
  have ed : ∀ i, r2.dbl i = r.dbl i := by
    intro i
    obtain ⟨q, k, _, n⟩ := C70_double rd regs argv r i
    rw [h2] at k; cases k
    by_cases ht : ∃ idx w, Takes regs argv (.dbl i) rd idx w
    · obtain ⟨idx, w, ht⟩ := ht; exact (hd i idx w ht).symm
    · exact n fun idx w hw => ht ⟨idx, w, hw⟩
  have ef : ∀ i, r2.flag i = r.flag i := by
    intro i
    obtain ⟨q, k, n⟩ := C71_flag_iff rd regs argv r i
    rw [h2] at k; cases k
    by_cases ht : ∃ name ∈ argv, lastReg regs name = some (.flag i)
    · obtain ⟨name, hm, hl⟩ := ht; exact (hf i name hm hl).symm
    · rw [Bool.eq_iff_iff, n]
      exact ⟨fun h => h.resolve_right ht, .inl⟩
  have hext : ∀ (a b : Opts D), (∀ i, a.str i = b.str i) → (∀ i, a.int i = b.int i) → (∀ i, a.dbl i = b.dbl i) →
      (∀ i, a.flag i = b.flag i) → a = b := by
    rintro ⟨a1, a2, a3, a4⟩ ⟨b1, b2, b3, b4⟩ e1 e2 e3 e4
    rw [Opts.mk.injEq]
    exact ⟨funext e1, funext e2, funext e3, funext e4⟩
  exact hext _ _ es ei ed ef

/-- If the first list ends with an option that takes a value, the two lists as one give it the first token of the second. -/
theorem C168_refuted : ∃ r r1 r2, parse (fun _ => none) (register exRegs) (["-p".toList] ++ ["80".toList]) exOpts = .ok r ∧
    parse (fun _ => none) (register exRegs) ["-p".toList] exOpts = .ok r1 ∧
    parse (fun _ => none) (register exRegs) ["80".toList] r1 = .ok r2 ∧ r.int 0 = 80 ∧ r2.int 0 = 7 :=
  ⟨_, _, _, parse_spec _ _ _ _, parse_spec _ _ _ _, parse_spec _ _ _ _, by decide +kernel, by decide +kernel⟩

/-- A flag may end the first list. -/
example : Ended exRegs ["-p".toList, "80".toList, "-v".toList] := by
  intro z q h1 h2
  change some "-v".toList = some z at h1
  injection h1 with h1
  subst h1
  exact ⟨0, by
    rw [show lastReg exRegs "-v".toList = some (.flag 0) from by decide] at h2
    injection h2 with h2
    exact h2.symm⟩

/-! ### C169: the order of the options does not matter -/

/-- Options that are registered but not among the arguments have no influence. -/
theorem C169_unused {D : Type} (rd : Str → Option D) (regs regs' : List (Str × Param)) (argv : List Str)
    (h : ∀ a ∈ argv, lastReg regs a = lastReg regs' a) (o : Opts D) :
    parse rd (register regs) argv o = parse rd (register regs') argv o := by
  rw [parse_spec, parse_spec]
  congr 1
  induction argv generalizing o with
  | nil => rfl
  | cons a l ih =>
    rw [walk, walk, h a (by simp)]
    exact ih (fun b hb => h b (by simp [hb])) _

/-- A token that is neither the name of an option nor its value may be left out. -/
theorem C169_ignored {D : Type} (rd : Str → Option D) (regs : List (Str × Param)) (pre post : List Str) (a : Str) (o : Opts D)
    (h : Ended regs pre) (ha : lastReg regs a = none) :
    parse rd (register regs) (pre ++ a :: post) o = parse rd (register regs) (pre ++ post) o := by
  rw [parse_spec, parse_spec, walk_append rd _ pre _ o h, walk_append rd _ pre _ o h, walk, ha]
  rfl

theorem upd_swap {β : Type} (f : Nat → β) {i j : Nat} (h : i ≠ j) (x y : β) : upd (upd f i x) j y = upd (upd f j y) i x := by
  funext k
  simp only [upd]
  by_cases h1 : k = j
  · subst h1; rw [if_pos rfl, if_neg (Ne.symm h), if_pos rfl]
  · rw [if_neg h1, if_neg h1]

theorem store_swap (rd : Str → Option D) {p q : Param} (h : p ≠ q) (s t : Str) (o : Opts D) :
    store rd (store rd o p s) q t = store rd (store rd o q t) p s := by
  cases p <;> cases q <;> simp only [store]
  case str.str i j =>
    cases readWord s <;> cases readWord t <;> simp only []
    rw [upd_swap _ (fun e => h (by rw [e]))]
  case int.int i j =>
    cases readInt s <;> cases readInt t <;> simp only []
    rw [upd_swap _ (fun e => h (by rw [e]))]
  case dbl.dbl i j =>
    cases rd s <;> cases rd t <;> simp only []
    rw [upd_swap _ (fun e => h (by rw [e]))]
  all_goals (try cases readWord s) <;> (try cases readWord t) <;> (try cases readInt s) <;> (try cases readInt t) <;>
    (try cases rd s) <;> (try cases rd t) <;> rfl

/-- An option with a value that is no name, or a flag: the tokens and the field. -/
inductive Group (regs : List (Str × Param)) : List Str × Param → Prop
  | value (a t : Str) (p : Param) : lastReg regs a = some p → (∀ i, p ≠ .flag i) → lastReg regs t = none → Group regs ([a, t], p)
  | flag (a : Str) (i : Nat) : lastReg regs a = some (.flag i) → Group regs ([a], .flag i)

theorem Group.ended {regs : List (Str × Param)} {g : List Str × Param} (h : Group regs g) : Ended regs g.1 := by
  intro z q hz hq
  cases h with
  | value a t p h1 h2 h3 => injection hz with hz; change t = z at hz; subst hz; rw [h3] at hq; cases hq
  | flag a i h1 => injection hz with hz; change a = z at hz; subst hz; rw [h1] at hq; injection hq with hq; exact ⟨i, hq.symm⟩

theorem walk_value (rd : Str → Option D) {regs : List (Str × Param)} {a t : Str} {p : Param} (h1 : lastReg regs a = some p)
    (h2 : ∀ i, p ≠ .flag i) (h3 : lastReg regs t = none) (o : Opts D) : walk rd (lastReg regs) [a, t] o = store rd o p t := by
  simp only [walk, h1, h3, List.head?_cons]
  cases p with
  | flag i => exact absurd rfl (h2 i)
  | str i => rfl
  | int i => rfl
  | dbl i => rfl

theorem walk_flag (rd : Str → Option D) {regs : List (Str × Param)} {a : Str} {i : Nat} (h1 : lastReg regs a = some (.flag i))
    (o : Opts D) : walk rd (lastReg regs) [a] o = { o with flag := upd o.flag i true } := by
  simp only [walk, h1]
  rfl

theorem store_flag (rd : Str → Option D) (p : Param) (t : Str) (i : Nat) (o : Opts D) :
    store rd { o with flag := upd o.flag i true } p t = { store rd o p t with flag := upd (store rd o p t).flag i true } := by
  cases p with
  | str j => simp only [store]; cases readWord t <;> rfl
  | int j => simp only [store]; cases readInt t <;> rfl
  | dbl j => simp only [store]; cases rd t <;> rfl
  | flag j => rfl

theorem Group.swap (rd : Str → Option D) {regs : List (Str × Param)} {g g' : List Str × Param} (h : Group regs g) (h' : Group regs g')
    (hd : g.2 = g'.2 → ∃ i, g.2 = .flag i) (o : Opts D) :
    walk rd (lastReg regs) g'.1 (walk rd (lastReg regs) g.1 o) = walk rd (lastReg regs) g.1 (walk rd (lastReg regs) g'.1 o) := by
  cases h with
  | value a t p h1 h2 h3 =>
    cases h' with
    | value a' t' p' h1' h2' h3' =>
      simp only [walk_value rd h1 h2 h3, walk_value rd h1' h2' h3']
      refine store_swap rd (fun e => ?_) t t' o
      obtain ⟨i, e⟩ := hd e
      exact h2 i e
    | flag a' i h1' =>
      simp only [walk_value rd h1 h2 h3, walk_flag rd h1']
      exact (store_flag rd p t i o).symm
  | flag a i h1 =>
    cases h' with
    | value a' t' p' h1' h2' h3' =>
      simp only [walk_value rd h1' h2' h3', walk_flag rd h1]
      exact store_flag rd p' t' i o
    | flag a' i' h1' =>
      simp only [walk_flag rd h1', walk_flag rd h1]
      by_cases e : i = i'
      · rw [e]
      · rw [upd_swap _ e]

theorem walk_groups (rd : Str → Option D) {regs : List (Str × Param)} (post : List Str) : ∀ (gs : List (List Str × Param)) (o : Opts D),
    (∀ g ∈ gs, Group regs g) → walk rd (lastReg regs) ((gs.map (·.1)).flatten ++ post) o =
      walk rd (lastReg regs) post (gs.foldl (fun o g => walk rd (lastReg regs) g.1 o) o)
  | [], _, _ => rfl
  | g :: gs, o, h => by
    rw [List.map_cons, List.flatten_cons, List.append_assoc, walk_append rd _ g.1 _ o (h g (by simp)).ended, List.foldl_cons]
    exact walk_groups rd post gs _ fun g hg => h g (by simp [hg])

/-- Options with values that are no names, and flags, may be given in any order, wherever they stand, if no field but flags is given
twice. -/
theorem C169_order {D : Type} (rd : Str → Option D) (regs : List (Str × Param)) (pre post : List Str) (gs gs' : List (List Str × Param))
    (hp : gs.Perm gs') (hg : ∀ g ∈ gs, Group regs g) (hd : gs.Pairwise fun g g' => g.2 = g'.2 → ∃ i, g.2 = .flag i)
    (hpre : Ended regs pre) (o : Opts D) :
    parse rd (register regs) (pre ++ ((gs.map (·.1)).flatten ++ post)) o =
      parse rd (register regs) (pre ++ ((gs'.map (·.1)).flatten ++ post)) o := by
  rw [parse_spec, parse_spec, walk_append rd _ pre _ o hpre, walk_append rd _ pre _ o hpre,
    walk_groups rd post gs _ hg, walk_groups rd post gs' _ fun g h => hg g (hp.mem_iff.mpr h)]
  congr 2
  generalize walk rd (lastReg regs) pre o = o
  have sym : ∀ {x y : List Str × Param}, (x.2 = y.2 → ∃ i, x.2 = Param.flag i) → (y.2 = x.2 → ∃ i, y.2 = Param.flag i) :=
    fun h e => by rw [e]; exact h e.symm
  induction hp generalizing o with
  | nil => rfl
  | cons g _ ih =>
    rw [List.foldl_cons, List.foldl_cons]
    exact ih (fun g h => hg g (by simp [h])) (List.pairwise_cons.mp hd).2 _
  | swap a b l =>
    simp only [List.foldl_cons]
    rw [(hg a (by simp)).swap rd (hg b (by simp)) (sym ((List.pairwise_cons.mp hd).1 a (by simp)))]
  | trans h1 h2 ih1 ih2 =>
    rw [ih1 hg hd, ih2 (fun g h => hg g (h1.mem_iff.mpr h)) (h1.pairwise hd sym)]

/-- Two options with values and a flag, in two orders. -/
example : parse (fun _ => none) (register exRegs) (["prog".toList] ++ ((([(["-n".toList, "a".toList], Param.str 0),
      (["-p".toList, "80".toList], Param.int 0), (["-v".toList], Param.flag 0)] : List (List Str × Param)).map (·.1)).flatten ++ [])) exOpts =
    parse (fun _ => none) (register exRegs) (["prog".toList] ++ ((([(["-v".toList], Param.flag 0), (["-n".toList, "a".toList], Param.str 0),
      (["-p".toList, "80".toList], Param.int 0)] : List (List Str × Param)).map (·.1)).flatten ++ [])) exOpts := by
  refine C169_order _ exRegs _ [] _ _ (by decide) ?_ ?_ ?_ exOpts
  · intro g h
    simp only [List.mem_cons, List.not_mem_nil, or_false] at h
    rcases h with rfl | rfl | rfl
    · exact .value _ _ _ (by decide) (by simp) (by decide)
    · exact .value _ _ _ (by decide) (by simp) (by decide)
    · exact .flag _ _ (by decide)
  · simp
  · intro z q h1 h2
    change some "prog".toList = some z at h1
    injection h1 with h1
    subst h1
    exact absurd h2 (by rw [show lastReg exRegs "prog".toList = none from by decide]; simp)

end Verif.Argv
