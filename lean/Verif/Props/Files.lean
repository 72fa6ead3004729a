import Verif.Model.Files
import Verif.Spec.Files
import Verif.Props.PAutText
import Verif.Props.InstanceJson

/-! # C81: the program on separate files -/

namespace Verif.Props

open Verif RegexText

/-! ## Names of states -/

theorem digitsValue_eq (ds : List Char) : digitsValue ds = Nat.ofDigitChars 10 ds 0 := by
  unfold digitsValue
  rw [Nat.ofDigitChars_eq_foldl]

theorem numeral_value {s : String} {n : Nat} (h : Numeral s n) : digitsValue s.toList = n := by
  obtain ⟨z, h⟩ := h
  rw [h, digitsValue_eq, Nat.ofDigitChars_append, Nat.ofDigitChars_replicate_zero, Nat.mul_zero, Nat.toList_repr, Nat.ofDigitChars_ten_toDigits]

theorem numeral_digits {s : String} {n : Nat} (h : Numeral s n) : s.toList ≠ [] ∧ ∀ c ∈ s.toList, c.isDigit = true := by
  obtain ⟨z, h⟩ := h
  rw [h, Nat.toList_repr]
  refine ⟨by simp [Nat.toDigits_ne_nil], ?_⟩
  intro c hc
  rcases List.mem_append.1 hc with hc | hc
  · rw [List.eq_of_mem_replicate hc]; decide
  · exact Nat.isDigit_of_mem_toDigits (by omega) (by omega) hc

theorem isDigit_range {c : Char} (h : c.isDigit = true) : 48 ≤ c.toNat ∧ c.toNat ≤ 57 := by
  simp only [Char.isDigit, Bool.and_eq_true, decide_eq_true_eq] at h
  exact h

theorem digit_char {c : Char} (h : c.isDigit = true) : ∃ d, d < 10 ∧ c = d.digitChar ∧ c.toNat - '0'.toNat = d := by
  obtain ⟨h1, h2⟩ := isDigit_range h
  refine ⟨c.toNat - 48, by omega, ?_, rfl⟩
  have hc : c = Char.ofNat c.toNat := (Char.ofNat_toNat c).symm
  have : ∀ n, n < 58 → 48 ≤ n → Char.ofNat n = (n - 48).digitChar := by decide
  exact hc.trans (this _ (by omega) h1)

theorem digits_numeral (ds : List Char) (hne : ds ≠ []) (h : ∀ c ∈ ds, c.isDigit = true) :
    ∃ z, ds = List.replicate z '0' ++ (digitsValue ds).repr.toList := by
  induction ds using List.reverseRecOn with
  | nil => exact absurd rfl hne
  | append_singleton ds c ih =>
    obtain ⟨d, h1, h2, h3⟩ := digit_char (h c (by simp))
    have hv : digitsValue (ds ++ [c]) = 10 * digitsValue ds + d := by
      unfold digitsValue
      rw [List.foldl_append]
      simp only [List.foldl_cons, List.foldl_nil, h3]
    rw [hv]
    by_cases hd : ds = []
    · subst hd
      refine ⟨0, ?_⟩
      have : digitsValue [] = 0 := rfl
      rw [this, Nat.toList_repr, Nat.mul_zero, Nat.zero_add, Nat.toDigits_of_lt_base h1, h2]
      rfl
    · obtain ⟨z, hz⟩ := ih hd (fun c hc => h c (by simp [hc]))
      by_cases h0 : digitsValue ds = 0
      · rw [h0, Nat.toList_repr, Nat.toDigits_zero] at hz
        refine ⟨z + 1, ?_⟩
        rw [h0, Nat.toList_repr, Nat.mul_zero, Nat.zero_add, Nat.toDigits_of_lt_base h1, ← h2]
        conv => lhs; rw [hz]
        rw [List.replicate_succ']
      · refine ⟨z, ?_⟩
        rw [Nat.toList_repr] at hz ⊢
        rw [← Nat.toDigits_append_toDigits (by omega) (Nat.pos_of_ne_zero h0) h1, Nat.toDigits_of_lt_base h1, ← List.append_assoc, ← hz, h2]

theorem stoul_digits {s : List Char} {r : List Char} (hne : s ≠ []) (h : ∀ c ∈ s, c.isDigit = true) (hr : ∀ c t, r = c :: t → c.isDigit = false) :
    stoul (s ++ r) = if sizeMax < digitsValue s then none else some (digitsValue s) := by
  obtain ⟨c, t, rfl⟩ := List.exists_cons_of_ne_nil hne
  obtain ⟨h1, h2⟩ := isDigit_range (h c (by simp))
  have hsp : cSpace c = false := by
    unfold cSpace
    have : c ≠ ' ' := by rintro rfl; revert h1; decide
    simp [this]; omega
  have hm : c ≠ '-' := by rintro rfl; revert h1; decide
  have hp : c ≠ '+' := by rintro rfl; revert h1; decide
  have htw : ((c :: t) ++ r).takeWhile Char.isDigit = c :: t := by
    rw [List.takeWhile_append_of_pos h]
    cases r with
    | nil => simp
    | cons d r => rw [List.takeWhile_cons_of_neg (by rw [hr d r rfl]; simp)]; simp
  unfold stoul
  rw [List.cons_append, List.dropWhile_cons_of_neg (by rw [hsp]; simp)]
  simp only [List.head?_cons]
  have e1 : ((some c == some '-') : Bool) = false := by simp [hm]
  have e2 : ((some c == some '+') : Bool) = false := by simp [hp]
  simp only [e1, e2, Bool.or_false, Bool.false_eq_true, if_false]
  rw [← List.cons_append, htw]
  rfl

section Find
variable {W : Type} {p : NPda String String W}

/-- C81, names of states: with `--state-names` a name stands for the state with this name; otherwise a text of digits stands for the state with
this number. -/
theorem c81_state {names : Bool} (hn : NamesOK names p) (hs : p.states.length ≤ sizeMax) {s : String}
    (hd : names = false → s.toList ≠ [] ∧ ∀ c ∈ s.toList, c.isDigit = true) (c : Nat) :
    findState names p s = some (some c) ↔ NamesState names p s c := by
  cases names with
  | true =>
    obtain ⟨h1, h2⟩ := hn rfl
    simp only [findState, NamesState, if_true, Option.some.injEq]
    rw [List.idxOf?_eq_some_iff]
    constructor
    · rintro ⟨h, h3, -⟩
      rw [List.getElem?_eq_getElem h, ← h3]
    · intro h
      obtain ⟨h3, h4⟩ := List.getElem?_eq_some_iff.1 h
      refine ⟨h3, h4, ?_⟩
      intro j hj he
      rw [← h4] at he
      have := (List.Nodup.getElem_inj_iff h1).1 he
      omega
  | false =>
    obtain ⟨h1, h2⟩ := hd rfl
    simp only [findState, NamesState, Bool.false_eq_true, if_false]
    have h3 := stoul_digits (r := []) h1 h2 (by simp)
    rw [List.append_nil] at h3
    rw [h3]
    obtain ⟨z, hz⟩ := digits_numeral _ h1 h2
    constructor
    · intro h
      by_cases hm : sizeMax < digitsValue s.toList
      · rw [if_pos hm] at h; cases h
      · rw [if_neg hm] at h
        simp only [Option.map_some, Option.some.injEq] at h
        split at h
        · cases h
          exact ⟨⟨z, hz⟩, by assumption⟩
        · cases h
    · rintro ⟨h4, h5⟩
      rw [numeral_value h4, if_neg (by omega), Option.map_some, if_pos h5]

/-- C81, names of states: with numbered states an identifier is an error. -/
theorem c81_identifier {s : String} {c : Char} {t : List Char} (h : s.toList = c :: t) (hc : c.isAlpha = true ∨ c = '_') :
    findState false p s = none := by
  have h1 : cSpace c = false ∧ c ≠ '-' ∧ c ≠ '+' ∧ c.isDigit = false := by
    rcases hc with hc | rfl
    · simp only [Char.isAlpha, Char.isUpper, Char.isLower, Bool.or_eq_true, Bool.and_eq_true, decide_eq_true_eq] at hc
      have hr : 65 ≤ c.toNat := by
        rcases hc with hc | hc
        · exact hc.1
        · have : 97 ≤ c.toNat := hc.1
          omega
      refine ⟨?_, ?_, ?_, ?_⟩
      · unfold cSpace
        have : c ≠ ' ' := by rintro rfl; revert hr; decide
        simp [this]; omega
      · rintro rfl; revert hr; decide
      · rintro rfl; revert hr; decide
      · cases hd : c.isDigit with
        | false => rfl
        | true => have := isDigit_range hd; omega
    · exact ⟨by decide, by decide, by decide, by decide⟩
  obtain ⟨h1, h2, h3, h4⟩ := h1
  have e1 : ((some c == some '-') : Bool) = false := by simp [h2]
  have e2 : ((some c == some '+') : Bool) = false := by simp [h3]
  simp only [findState, Bool.false_eq_true, if_false, stoul, h, List.dropWhile_cons_of_neg (show ¬ cSpace c = true by rw [h1]; simp), List.head?_cons, e1, e2,
    Bool.or_false, List.takeWhile_cons_of_neg (show ¬ c.isDigit = true by rw [h4]; simp), List.isEmpty_nil, if_true, Option.map_none]

/-- With numbered states, what follows the digits of a name in quotes is ignored. -/
theorem c81_quoted {s s' : String} {r : List Char} (hd : s.toList ≠ [] ∧ ∀ c ∈ s.toList, c.isDigit = true) (h : s'.toList = s.toList ++ r)
    (hr : ∀ c t, r = c :: t → c.isDigit = false) : findState false p s' = findState false p s := by
  have h3 := stoul_digits (r := []) hd.1 hd.2 (by simp)
  rw [List.append_nil] at h3
  simp only [findState, Bool.false_eq_true, if_false, h, stoul_digits hd.1 hd.2 hr, h3]

/-- With numbered states, white space before the number in quotes is ignored. -/
theorem c81_blank {s s' : String} {b : List Char} (hb : ∀ c ∈ b, c ∈ [' ', '\t', '\n', Char.ofNat 11, Char.ofNat 12, '\r']) (h : s'.toList = b ++ s.toList) :
    findState false p s' = findState false p s := by
  have hd : (b ++ s.toList).dropWhile cSpace = s.toList.dropWhile cSpace := by
    clear h
    induction b with
    | nil => rfl
    | cons c b ih =>
      have hc : ∀ c ∈ [' ', '\t', '\n', Char.ofNat 11, Char.ofNat 12, '\r'], cSpace c = true := by decide
      rw [List.cons_append, List.dropWhile_cons_of_pos (hc c (hb c (by simp)))]
      exact ih fun c h => hb c (by simp [h])
  simp only [findState, Bool.false_eq_true, if_false, stoul, h, hd]

/-- With numbered states, a sign may stand before the number in quotes; a minus sign counts down from 2^64. -/
theorem c81_sign {s s' : String} (hd : s.toList ≠ [] ∧ ∀ c ∈ s.toList, c.isDigit = true) :
    (s'.toList = '+' :: s.toList → findState false p s' = findState false p s) ∧
    (s'.toList = '-' :: s.toList → ∀ n, Numeral s n → n ≤ sizeMax → ∀ c,
      (findState false p s' = some (some c) ↔ c = (if n = 0 then 0 else 2 ^ 64 - n) ∧ c < p.states.length)) := by
  have h3 := stoul_digits (r := []) hd.1 hd.2 (by simp)
  rw [List.append_nil] at h3
  have htw : s.toList.takeWhile Char.isDigit = s.toList := List.takeWhile_eq_self_iff.2 hd.2
  have he : s.toList.isEmpty = false := by simpa using hd.1
  constructor
  · intro h
    simp only [findState, Bool.false_eq_true, if_false, h, h3]
    congr 1
    unfold stoul
    rw [List.dropWhile_cons_of_neg (by decide)]
    simp [htw, hd.1]
  · intro h n hn hm c
    have hs : stoul ('-' :: s.toList) = some ((sizeMax + 1 - n) % (sizeMax + 1)) := by
      unfold stoul
      rw [List.dropWhile_cons_of_neg (by decide)]
      simp [htw, hd.1, numeral_value hn, hm]
    simp only [findState, Bool.false_eq_true, if_false, h, hs, Option.map_some, Option.some.injEq]
    have hv : (sizeMax + 1 - n) % (sizeMax + 1) = if n = 0 then 0 else 2 ^ 64 - n := by
      unfold sizeMax at hm ⊢
      split <;> omega
    rw [hv]
    generalize (if n = 0 then 0 else 2 ^ 64 - n) = v
    by_cases hlt : v < p.states.length
    · rw [if_pos hlt]
      exact ⟨fun h => ⟨(Option.some.inj h).symm, by rw [← Option.some.inj h]; exact hlt⟩, fun h => by rw [h.1]⟩
    · rw [if_neg hlt]
      exact ⟨(fun h => by cases h), fun h => absurd (h.1 ▸ h.2) hlt⟩

theorem findState_lt {names : Bool} (hn : NamesOK names p) (s : String) (c : Nat) (h : findState names p s = some (some c)) : c < p.states.length := by
  cases names with
  | true =>
    obtain ⟨h1, h2⟩ := hn rfl
    simp only [findState, if_true, Option.some.injEq] at h
    rw [List.idxOf?_eq_some_iff] at h
    rw [← h2]
    exact h.1
  | false =>
    simp only [findState, Bool.false_eq_true, if_false] at h
    obtain ⟨n, -, h2⟩ := Option.map_eq_some_iff.1 h
    split at h2
    · cases h2; assumption
    · cases h2

end Find

/-! ## Options -/

theorem equalsNoCase_iff : ∀ (s l : List Char), (∀ c ∈ l, c.toLower = c) → (equalsNoCase s l = true ↔ s.map Char.toLower = l)
  | [], [], _ => by simp [equalsNoCase]
  | [], c :: l, _ => by simp [equalsNoCase]
  | c :: s, [], _ => by simp [equalsNoCase]
  | c :: s, d :: l, h => by
    have ih := equalsNoCase_iff s l (fun c hc => h c (by simp [hc]))
    have hd := h d (by simp)
    simp only [equalsNoCase, List.length_cons, List.zip_cons_cons, List.all_cons, Bool.and_eq_true, beq_iff_eq, Nat.add_right_cancel_iff,
      Bool.or_eq_true, List.map_cons, List.cons.injEq] at ih ⊢
    rw [← ih]
    constructor
    · rintro ⟨h1, h2, h3⟩
      refine ⟨?_, h1, h3⟩
      rcases h2 with rfl | h2
      · exact hd
      · exact h2
    · rintro ⟨h1, h2, h3⟩
      exact ⟨h2, .inr h1, h3⟩

theorem sameWord {s : List Char} {l : String} (h : ∀ c ∈ l.toList, c.toLower = c) : equalsNoCase s l.toList = true ↔ SameWord s l :=
  equalsNoCase_iff s l.toList h

theorem sameWord_eq {s : List Char} {l l' : String} (h : SameWord s l) (h' : SameWord s l') : l = l' := by
  have : l.toList = l'.toList := by rw [← h, ← h']
  exact String.toList_inj.1 this

/-- C81, options: the format and the type of weights, in upper or lower case. -/
theorem c81_options (s : List Char) :
    (getFormat s = some .pdaaal ↔ SameWord s "pdaaal") ∧ (getFormat s = some .moped ↔ SameWord s "moped") ∧
    (getWeightType s = some .none ↔ SameWord s "none") ∧ (getWeightType s = some .uint ↔ SameWord s "uint") ∧
    (getWeightType s = some .int ↔ SameWord s "int") ∧ ∀ k, getWeightType s = some k → k = .none ∨ k = .uint ∨ k = .int := by
  classical
  have low : ∀ l ∈ ["pdaaal", "moped", "none", "uint", "int"], ∀ c ∈ l.toList, c.toLower = c := by decide
  have e1 := sameWord (s := s) (low "pdaaal" (by simp))
  have e2 := sameWord (s := s) (low "moped" (by simp))
  have e3 := sameWord (s := s) (low "none" (by simp))
  have e4 := sameWord (s := s) (low "uint" (by simp))
  have e5 := sameWord (s := s) (low "int" (by simp))
  have n12 : SameWord s "moped" → ¬ SameWord s "pdaaal" := fun h h' => absurd (sameWord_eq h h') (by decide)
  have n34 : SameWord s "uint" → ¬ SameWord s "none" := fun h h' => absurd (sameWord_eq h h') (by decide)
  have n35 : SameWord s "int" → ¬ SameWord s "none" := fun h h' => absurd (sameWord_eq h h') (by decide)
  have n45 : SameWord s "int" → ¬ SameWord s "uint" := fun h h' => absurd (sameWord_eq h h') (by decide)
  rw [show getFormat s = if SameWord s "pdaaal" then some .pdaaal else if SameWord s "moped" then some .moped else none by
      unfold getFormat; rw [if_congr e1 rfl (if_congr e2 rfl rfl)],
    show getWeightType s = if SameWord s "none" then some .none else if SameWord s "uint" then some .uint else if SameWord s "int" then some .int else none by
      unfold getWeightType; rw [if_congr e3 rfl (if_congr e4 rfl (if_congr e5 rfl rfl))]]
  clear e1 e2 e3 e4 e5 low
  generalize SameWord s "pdaaal" = A at *
  generalize SameWord s "moped" = B at *
  generalize SameWord s "none" = C at *
  generalize SameWord s "uint" = D at *
  generalize SameWord s "int" = E at *
  have h1 : ((if A then some InputFormat.pdaaal else if B then some .moped else none) = some .pdaaal ↔ A) ∧
      ((if A then some InputFormat.pdaaal else if B then some .moped else none) = some .moped ↔ B) := by
    by_cases h1 : A <;> by_cases h2 : B <;> simp_all
  refine ⟨h1.1, h1.2, ?_⟩
  clear h1 n12
  by_cases h1 : C <;> by_cases h2 : D <;> by_cases h3 : E <;> simp_all

/-! ## The program -/

section Run
variable {addr : Nat → Nat → Nat}

/-- C81, errors: unknown formats and types of weights, the format `moped`, and PDAs that cannot be read are errors. -/
theorem c81_refused (h h' : HashOrder) (format weight : List Char) (names : Bool) (pda : List JEv) (si sf : List Char) (engine : Nat) (any : Bool)
    (hr : ¬ SameWord format "pdaaal" ∨ (¬ SameWord weight "none" ∧ ¬ SameWord weight "uint" ∧ ¬ SameWord weight "int") ∨
      ∀ k, getWeightType weight = some k → parsePda k.io names pda = none) :
    runFiles h h' addr format weight names pda si sf engine any = .error := by
  obtain ⟨o1, o2, -⟩ := c81_options format
  obtain ⟨-, -, o3, o4, o5, o6⟩ := c81_options weight
  unfold runFiles
  cases hf : getFormat format with
  | none => rfl
  | some f =>
    cases hw : getWeightType weight with
    | none => rfl
    | some k =>
      cases f with
      | moped => rfl
      | pdaaal =>
        rcases hr with hr | ⟨h1, h2, h3⟩ | hr
        · exact absurd (o1.1 hf) hr
        · rcases o6 k hw with rfl | rfl | rfl
          · exact absurd (o3.1 hw) h1
          · exact absurd (o4.1 hw) h2
          · exact absurd (o5.1 hw) h3
        · simp only [hr k hw]

/-- C81: with the options for the type of weights, the program reads the PDA and then does what it does on the texts. -/
theorem c81_run (h h' : HashOrder) {format weight : List Char} (hf : SameWord format "pdaaal") {k : WKind} (hw : getWeightType weight = some k)
    {names : Bool} {pda : List JEv} {p : NPda String String k.Carrier} (hp : parsePda k.io names pda = some p) (si sf : List Char) (engine : Nat) (any : Bool) :
    runFiles h h' addr format weight names pda si sf engine any = runText h h' addr (findState names p) p.toTPda si sf engine any := by
  unfold runFiles
  rw [(c81_options format).1.2 hf, hw]
  simp only [hp]

/-- C81, errors: texts that are not P-automata, unless a `|` dangles in one of them (C79). -/
theorem c81_syntax_partial (h h' : HashOrder) (ha : ∀ k, Function.Injective (addr k)) (format weight : List Char) (names : Bool) (pda : List JEv)
    {si sf : List Char} (hb : (∀ as, ¬ AtomsText as si) ∨ ∀ as, ¬ AtomsText as sf) (hi : ¬ DanglingBar si) (hf : ¬ DanglingBar sf)
    (engine : Nat) (any : Bool) : runFiles h h' addr format weight names pda si sf engine any = .error := by
  unfold runFiles
  cases getFormat format with
  | none => rfl
  | some f =>
    cases getWeightType weight with
    | none => rfl
    | some k =>
      cases f with
      | moped => rfl
      | pdaaal =>
        simp only []
        cases parsePda k.io names pda with
        | none => rfl
        | some p => exact c80_run_error_partial h h' ha _ hb hi hf engine any

/-- A state that the PDA does not have: an error without quotes. With numbered states also what is not a number is an error. -/
def BadState (names : Bool) {W : Type} (p : NPda String String W) (as : List (PAtom String String)) : Prop :=
  ∃ a ∈ as, ∃ s ∈ a.states, findState names p s.name = none ∨ (findState names p s.name = some none ∧ s.quoted = false)

theorem atoms_ne {as : List (PAtom String String)} {s : List Char} (h : AtomsText as s) : as ≠ [] := by
  obtain ⟨s1, s2, -, h, -⟩ := h
  cases h <;> simp

/-- C81, errors: states that do not exist, and engines that do not exist. -/
theorem c81_errors (h h' : HashOrder) (ha : ∀ k, Function.Injective (addr k)) {format weight : List Char} (hf : SameWord format "pdaaal") {k : WKind}
    (hw : getWeightType weight = some k) {names : Bool} {pda : List JEv} (ho : IsObject pda) {p : NPda String String k.Carrier}
    (hp : parsePda k.io names pda = some p) {ini fin : List (PAtom String String)} {si sf : List Char} (hsi : AtomsText ini si) (hsf : AtomsText fin sf)
    (engine : Nat) (any : Bool) :
    (runFiles h h' addr format weight names pda si sf engine any = .error ↔ BadState names p ini ∨ BadState names p fin ∨ 3 < engine) ∧
    (runFiles h h' addr format weight names pda si sf engine any = .nothing ↔ ¬ BadState names p ini ∧ ¬ BadState names p fin ∧ engine = 0) := by
  obtain ⟨h1, h2, h3⟩ := c77_wellformed k.io ho hp
  rw [c81_run h h' hf hw hp, c80_run h h' ha _ hsi hsf]
  exact c73_errors h h' ha p.toTPda (findState_lt h3) h1 ini fin (atoms_ne hsi) (atoms_ne hsf) engine any

/-- C81, the report: whether a configuration that the first text describes reaches one that the second describes, with a run as trace. -/
theorem c81_report_partial (h h' : HashOrder) (ha : ∀ k, Function.Injective (addr k)) {format weight : List Char} (hf : SameWord format "pdaaal") {k : WKind}
    (hw : getWeightType weight = some k) {names : Bool} {pda : List JEv} (ho : IsObject pda) {p : NPda String String k.Carrier}
    (hp : parsePda k.io names pda = some p) {ini fin : List (PAtom String String)} {si sf : List Char} (hsi : AtomsText ini si) (hsf : AtomsText fin sf)
    (hok : ∀ x ∈ ini ++ fin, x.ok = true) {t' : TPda String k.Carrier} {a b : Aut k.Carrier}
    (hi : parseInstance h addr (findState names p) p.toTPda ini fin = some (t', a, b)) (hl : t'.labels.length < epsilon)
    (engine : Nat) (he : 1 ≤ engine ∧ engine ≤ 3) (hk : engine = 1 ∨ k ≠ .int ∨ p.core.LookupOK) (any : Bool)
    (hm : any = true → StatesFit (searched h t'.core a b engine)) :
    ∃ r, runFiles h h' addr format weight names pda si sf engine any = .report r ∧
      Right (findState names p) (· ∈ t'.allRules) p.labels ini fin (["post*", "pre*", "dual*"].getD (engine - 1) "") any r := by
  obtain ⟨h1, h2, h3⟩ := c77_wellformed k.io ho hp
  rw [c81_run h h' hf hw hp]
  refine c80_report_partial h h' ha p.toTPda (findState_lt h3) h1 h2 hsi hsf hok hi hl engine he ?_ any hm
  rcases hk with hk | hk | hk
  · exact .inl hk
  · exact .inr (lookup_read hp hk)
  · exact .inr hk

end Run

/-! ## Cases -/

/-- Numerals, with zeros before them or not. -/
example : NamesState false (instPda ["b"]) "001" 1 := ⟨⟨2, by decide⟩, by decide⟩
example : findState false (instPda ["b"]) "001" = some (some 1) :=
  (c81_state (names := false) (fun h => by cases h) (by decide) (fun _ => by decide) 1).2 ⟨⟨2, by decide⟩, by decide⟩

/-- In quotes, `"1 or 2"` is state 1, and `"-1"` and `"7"` are no state, without an error. -/
theorem c81_quoted_wrong : findState false (instPda ["b"]) "1 or 2" = some (some 1) ∧ findState false (instPda ["b"]) "-1" = some none ∧
    findState false (instPda ["b"]) "7" = some none ∧ findState false (instPda ["b"]) "18446744073709551616" = none := by
  refine ⟨by decide +kernel, by decide +kernel, by decide +kernel, by decide +kernel⟩

/-- In quotes, a tab, a blank and a number are the number, and `"-18446744073709551615"` is state 1. -/
example : findState false (instPda ["b"]) "\t 1" = some (some 1) :=
  (c81_blank (s := "1") (b := ['\t', ' ']) (by decide) (by decide)).trans
    ((c81_state (names := false) (fun h => by cases h) (by decide) (fun _ => by decide) 1).2 ⟨⟨0, by decide⟩, by decide⟩)
theorem c81_minus_wrong : findState false (instPda ["b"]) "-18446744073709551615" = some (some 1) :=
  ((c81_sign (s := "18446744073709551615") (by decide)).2 (by decide) 18446744073709551615 ⟨0, by decide⟩ (by decide) 1).2 ⟨by decide, by decide⟩

/-- `<0,[a]>` and `<1,[a]>`. -/
def fileIni : List (PAtom String String) := [⟨[⟨false, "0"⟩], some (.one (.one (.mk (.set false "a" []) none)))⟩]
def fileFin : List (PAtom String String) := [⟨[⟨false, "1"⟩], some (.one (.one (.mk (.set false "a" []) none)))⟩]

theorem fileIni_text : AtomsText fileIni "<0,[a]>".toList :=
  ⟨_, _, .nil _, .one ⟨"0,[a]>".toList, "0,[a]>".toList, ",[a]>".toList, "[a]>".toList, rfl, .nil _, .inl ⟨_, rfl, by rfl, .inl ⟨by decide, by decide⟩⟩, .nil _,
    "[a]>".toList, ">".toList, .nil _, ⟨"a]>".toList, rfl, .one ⟨by decide, by unfold NameChar; decide, by rfl⟩⟩, .nil _⟩, .nil _⟩

theorem fileFin_text : AtomsText fileFin "<1,[a]>".toList :=
  ⟨_, _, .nil _, .one ⟨"1,[a]>".toList, "1,[a]>".toList, ",[a]>".toList, "[a]>".toList, rfl, .nil _, .inl ⟨_, rfl, by rfl, .inl ⟨by decide, by decide⟩⟩, .nil _,
    "[a]>".toList, ">".toList, .nil _, ⟨"a]>".toList, rfl, .one ⟨by decide, by unfold NameChar; decide, by rfl⟩⟩, .nil _⟩, .nil _⟩

theorem file_find : findState false (instPda ["b"]) "0" = some (some 0) ∧ findState false (instPda ["b"]) "1" = some (some 1) :=
  ⟨by decide +kernel, by decide +kernel⟩

theorem file_good : ¬ BadState false (instPda ["b"]) fileIni ∧ ¬ BadState false (instPda ["b"]) fileFin := by
  obtain ⟨h0, h1⟩ := file_find
  constructor
  · rintro ⟨a, ha, s, hs, h⟩
    rw [List.mem_singleton.1 ha] at hs
    rw [List.mem_singleton.1 hs] at h
    rw [h0] at h
    rcases h with h | ⟨h, -⟩ <;> cases h
  · rintro ⟨a, ha, s, hs, h⟩
    rw [List.mem_singleton.1 ha] at hs
    rw [List.mem_singleton.1 hs] at h
    rw [h1] at h
    rcases h with h | ⟨h, -⟩ <;> cases h

/-- All engines find the run from `(0, a)` to `(1, a)`. -/
example (engine : Nat) (he : 1 ≤ engine ∧ engine ≤ 3) : ∃ r,
    runFiles HashOrder.id HashOrder.id exprAddr "PDAAAL".toList "None".toList false (pdaDoc instText) "<0,[a]>".toList "<1,[a]>".toList engine false = .report r ∧
      r.result = true := by
  have hn : (instPda ["b"]).labels.Nodup := by decide
  have hlt := findState_lt (names := false) (p := instPda ["b"]) (fun h => by cases h)
  have hne := (parseInstance_none HashOrder.id exprAddr_inj (instPda ["b"]).toTPda hlt hn fileIni fileFin (by simp [fileIni]) (by simp [fileFin])).not.2
    (fun h => h.elim file_good.1 file_good.2)
  obtain ⟨⟨t', a, b⟩, hi⟩ := Option.ne_none_iff_exists'.1 hne
  obtain ⟨h1, h2, h3, h4⟩ := c73_labels HashOrder.id exprAddr_inj (instPda ["b"]).toTPda hlt hn fileIni fileFin hi
  have hsub : ∀ l ∈ t'.labels, l ∈ ["b", "a"] := by
    intro l hl
    rcases (h4 l).1 hl with h | ⟨x, hx, h⟩
    · exact List.mem_cons.2 (.inl (List.mem_singleton.1 h))
    · have : x.labels = ["a"] := by
        rcases List.mem_append.1 hx with hx | hx <;> rw [List.mem_singleton.1 hx] <;> rfl
      rw [this] at h
      exact List.mem_cons.2 (.inr h)
  have hlen : t'.labels.length ≤ 2 := (List.subperm_of_subset h3 hsub).length_le
  obtain ⟨r, g1, g2⟩ := c81_report_partial (k := .none) HashOrder.id HashOrder.id exprAddr_inj (format := "PDAAAL".toList) (weight := "None".toList) (by unfold SameWord; decide) (by rfl)
    (object_in instText_object "pda") inst_pdaRead fileIni_text fileFin_text (by decide) hi (by unfold epsilon; omega) engine he (.inr (.inl (by decide))) false (fun h => by cases h)
  have ht : t' = (instPda ["b", "a"]).toTPda := by
    have hl : t'.labels = ["b", "a"] := by
      obtain ⟨l, hl⟩ := h2
      have ha : "a" ∈ t'.labels := (h4 "a").2 (.inr ⟨_, List.mem_append.2 (.inl (List.mem_singleton.2 rfl)), by decide⟩)
      rw [← hl] at ha hlen h3 ⊢
      match l, ha, hlen with
      | [], ha, _ => exact absurd ha (by decide)
      | [x], ha, _ =>
        have : x = "a" := by
          rcases List.mem_cons.1 ha with h | h
          · exact absurd h (by decide)
          · exact (List.mem_singleton.1 h).symm
        rw [this]; rfl
      | x :: y :: l, _, hlen => exact absurd hlen (by simp [instPda])
    cases t' with
    | mk labels states =>
      cases hl
      cases h1
      rfl
  subst ht
  refine ⟨r, g1, g2.result.2 ⟨0, ["a"], 1, ["a"], ?_, ?_, ?_⟩⟩
  · exact .inl ⟨⟨⟨⟨false, "0"⟩, List.mem_singleton.2 rfl, file_find.1⟩, ⟨"a", rfl, by simp⟩⟩, by decide⟩
  · exact .tail (.tail .refl (NStep.mk (R := (· ∈ (instPda ["b", "a"]).allRules)) ⟨0, "a", 0, .push, "b", ()⟩ [] (by decide +kernel)))
      (NStep.mk (R := (· ∈ (instPda ["b", "a"]).allRules)) ⟨0, "b", 1, .pop, default, ()⟩ ["a"] (by decide +kernel))
  · exact .inl ⟨⟨⟨⟨false, "1"⟩, List.mem_singleton.2 rfl, file_find.2⟩, ⟨"a", rfl, by simp⟩⟩, by decide⟩

end Verif.Props
