import Verif.Model.RegexText
import Verif.Spec.RegexText
import Verif.Proofs.Peg

/-!
# The grammar of regular expressions against its specification
-/

namespace Verif.RegexText

open Peg

/-- The text does not begin with white space or a comment. -/
def Solid (s : List Char) : Prop := ∀ c r, s = c :: r → ¬ Blank1 c ∧ c ≠ '#'

/-- The text begins with one of the characters. -/
def Starts (cs s : List Char) : Prop := ∃ c r, s = c :: r ∧ c ∈ cs

theorem solid_nil : Solid [] := by intro c r h; cases h

theorem solid_cons {c : Char} {s : List Char} (h : ¬ Blank1 c) (h' : c ≠ '#') : Solid (c :: s) := by
  intro d r hd; cases hd; exact ⟨h, h'⟩

theorem isSpace_iff (c : Char) : isSpace c = true ↔ Blank1 c := by
  simp [isSpace, Blank1, or_assoc]

theorem isName_iff (c : Char) : isName c = true ↔ NameChar c := by
  simp [isName, NameChar]

section Skip
variable {A : Type}

theorem sub_ignored : Sub (ignored (A := A)) := (sub_sat _).sor ((sub_one _).seq sub_untilEolf)

theorem shrinks_ignored : Shrinks (ignored (A := A)) := (shrinks_sat _).sor (Shrinks.seq_left (shrinks_one _) sub_untilEolf)

theorem hash_not_space : isSpace '#' = false := by decide

theorem ignored_blank {c : Char} (s : List Char) (h : Blank1 c) : ignored (A := A) (c :: s) = .ok s [] :=
  sor_ok (sat_ok s ((isSpace_iff c).2 h))

theorem ignored_hash (s : List Char) : ignored (A := A) ('#' :: s) = untilEolf s := by
  unfold ignored
  rw [sor_fail (sat_fail (by intro c r h; cases h; exact hash_not_space)), after_nil, comment, seq_ok (one_ok '#' s), after_nil]

theorem ignored_solid {s : List Char} (h : Solid s) : ignored (A := A) s = .fail [] := by
  unfold ignored
  rw [sor_fail (sat_fail fun c r hs => by
    have := (h c r hs).1
    rw [← isSpace_iff] at this
    simpa using this), after_nil, comment]
  refine seq_fail (one_fail fun r hr => ?_)
  exact (h '#' r hr).2 rfl

/-- White space is skipped. -/
theorem skip_gap {s r : List Char} (h : Gap s r) : star (ignored (A := A)) s = star ignored r := by
  induction h with
  | nil s => rfl
  | blank hc _ ih => rw [star_ok shrinks_ignored (ignored_blank _ hc), after_nil, ih]
  | comment hb _ ih => rw [star_ok shrinks_ignored ((ignored_hash _).trans (untilEolf_line hb)), after_nil, ih]
  | last hb => rw [star_ok shrinks_ignored ((ignored_hash _).trans (untilEolf_end hb)), after_nil]

theorem skip_solid {s : List Char} (h : Solid s) : star (ignored (A := A)) s = .ok s [] := star_fail (ignored_solid h)

theorem skip_eq {s r : List Char} (h : Gap s r) (hr : Solid r) : star (ignored (A := A)) s = .ok r [] := by
  rw [skip_gap h, skip_solid hr]

theorem _root_.Verif.Gap.trans {s r t : List Char} (h : Gap s r) (h' : Gap r t) : Gap s t := by
  induction h with
  | nil s => exact h'
  | blank hc _ ih => exact .blank hc (ih h')
  | comment hb _ ih => exact .comment hb (ih h')
  | last hb =>
    generalize he : ([] : List Char) = e at h'
    cases h' with
    | nil => subst he; exact .last hb
    | blank _ _ => cases he
    | comment _ _ => cases he
    | last _ => cases he

theorem hash_gap (s : List Char) : ∃ r, untilEolf (A := A) s = .ok r [] ∧ Gap ('#' :: s) r := by
  by_cases h : '\n' ∈ s
  · obtain ⟨b, t, rfl, hb⟩ := List.eq_append_cons_of_mem h
    exact ⟨t, untilEolf_line hb, .comment hb (.nil t)⟩
  · exact ⟨[], untilEolf_end h, .last h⟩

theorem ignored_cases (s : List Char) :
    (Solid s ∧ ignored (A := A) s = .fail []) ∨ ∃ r, ignored (A := A) s = .ok r [] ∧ Gap s r := by
  cases s with
  | nil => exact .inl ⟨solid_nil, ignored_solid solid_nil⟩
  | cons c t =>
    by_cases hc : Blank1 c
    · exact .inr ⟨t, ignored_blank t hc, .blank hc (.nil t)⟩
    · by_cases hh : c = '#'
      · subst hh
        obtain ⟨r, h1, h2⟩ := hash_gap (A := A) t
        exact .inr ⟨r, (ignored_hash t).trans h1, h2⟩
      · exact .inl ⟨solid_cons hc hh, ignored_solid (solid_cons hc hh)⟩

/-- There is always an end of the white space. -/
theorem skip_ok (s : List Char) : ∃ r, star (ignored (A := A)) s = .ok r [] ∧ Gap s r ∧ Solid r := by
  induction hn : s.length using Nat.strongRecOn generalizing s with
  | ind n ih =>
    rcases ignored_cases (A := A) s with ⟨h, -⟩ | ⟨r, h, hg⟩
    · exact ⟨s, skip_solid h, .nil s, h⟩
    · have := shrinks_ignored _ _ _ h
      obtain ⟨t, h1, h2, h3⟩ := ih r.length (by omega) r rfl
      exact ⟨t, by rw [star_ok shrinks_ignored h, after_nil, h1], hg.trans h2, h3⟩

theorem skip_inv {s r : List Char} {l : List A} (h : star (ignored (A := A)) s = .ok r l) : l = [] ∧ Gap s r ∧ Solid r := by
  obtain ⟨t, h1, h2, h3⟩ := skip_ok (A := A) s
  rw [h1] at h; cases h; exact ⟨rfl, h2, h3⟩

theorem sub_skip : Sub (star (ignored (A := A))) := Sub.star shrinks_ignored sub_ignored

theorem skip_not_throw {s : List Char} {l : List A} : star (ignored (A := A)) s ≠ .throw l := by
  obtain ⟨t, h1, -, -⟩ := skip_ok (A := A) s
  rw [h1]; intro h; cases h

theorem skip_not_fail {s : List Char} {l : List A} : star (ignored (A := A)) s ≠ .fail l := by
  obtain ⟨t, h1, -, -⟩ := skip_ok (A := A) s
  rw [h1]; intro h; cases h

end Skip

/-! ## Labels -/

theorem names_ok {u r : List Char} (hu : ∀ c ∈ u, NameChar c) (hr : ∀ c t, r = c :: t → ¬ NameChar c) :
    star (sat (A := NAct) isName) (u ++ r) = .ok r [] := by
  induction u with
  | nil =>
    refine star_fail (sat_fail fun c t h => ?_)
    have := hr c t h
    rw [← isName_iff] at this
    simpa using this
  | cons c u ih =>
    rw [List.cons_append, star_ok (shrinks_sat _) (sat_ok _ ((isName_iff c).2 (hu c (by simp)))), after_nil,
      ih fun d hd => hu d (by simp [hd])]

theorem label_ok {l : String} {s r : List Char} (h : NameText l s r) (hr : ∀ c t, r = c :: t → ¬ NameChar c) :
    label s = .ok r [.label l] := by
  obtain ⟨hne, hc, rfl⟩ := h
  have h1 : plus (sat (A := NAct) isName) (l.toList ++ r) = .ok r [] := by
    cases hl : l.toList with
    | nil => exact absurd hl hne
    | cons c u =>
      rw [hl] at hc
      unfold plus
      rw [List.cons_append, seq_ok (sat_ok _ ((isName_iff c).2 (hc c (by simp)))), after_nil,
        names_ok (fun d hd => hc d (by simp [hd])) hr]
  unfold label actOn
  rw [h1]
  have h2 : (l.toList ++ r).take ((l.toList ++ r).length - r.length) = l.toList := by
    rw [List.length_append, Nat.add_sub_cancel, List.take_left]
  simp only [h2, List.nil_append, String.ofList_toList]

theorem names_inv {s r : List Char} {l : List NAct} (h : star (sat (A := NAct) isName) s = .ok r l) :
    l = [] ∧ ∃ u, (∀ c ∈ u, NameChar c) ∧ s = u ++ r := by
  refine star_ind (shrinks_sat isName) (Q := fun s r l => l = [] ∧ ∃ u, (∀ c ∈ u, NameChar c) ∧ s = u ++ r) ?_ ?_ s r l h
  · intro s l h
    exact ⟨(sat_fail_inv h).1, [], by simp, rfl⟩
  · rintro s m r l l' h - ⟨rfl, u, hu, rfl⟩
    obtain ⟨c, hc, rfl, rfl⟩ := sat_inv h
    exact ⟨rfl, c :: u, by simpa using ⟨(isName_iff c).1 hc, hu⟩, rfl⟩

theorem label_inv {s r : List Char} {l : List NAct} (h : label s = .ok r l) : ∃ x, NameText x s r ∧ l = [.label x] := by
  obtain ⟨k, hk, rfl⟩ := actOn_inv h
  obtain ⟨m, l1, l2, h1, h2, rfl⟩ := seq_inv hk
  obtain ⟨c, hc, rfl, rfl⟩ := sat_inv h1
  obtain ⟨rfl, u, hu, rfl⟩ := names_inv h2
  have h3 : (c :: (u ++ r)).take ((c :: (u ++ r)).length - r.length) = c :: u := by
    rw [show (c :: (u ++ r)).length - r.length = (c :: u).length by simp; omega]
    rw [← List.cons_append, List.take_left]
  rw [h3]
  refine ⟨String.ofList (c :: u), ⟨by simp, ?_, by simp⟩, rfl⟩
  simpa using ⟨(isName_iff c).1 hc, hu⟩

theorem sub_label : Sub label := ((sub_sat _).seq (Sub.star (shrinks_sat _) (sub_sat _))).actOn

theorem shrinks_label : Shrinks label := (Shrinks.seq_left (shrinks_sat _) (Sub.star (shrinks_sat _) (sub_sat _))).actOn

theorem names_not_throw {s : List Char} {l : List NAct} : star (sat (A := NAct) isName) s ≠ .throw l := fun h =>
  star_throw_ind (shrinks_sat isName) (Q := fun _ _ => False) (fun _ _ h => sat_not_throw h) (fun _ _ _ _ _ _ h => h) s l h

theorem label_fail_inv {s : List Char} {l : List NAct} (h : label s = .fail l) : l = [] := by
  rcases seq_fail_inv (actOn_fail_inv h) with h | ⟨m, l1, l2, -, h, -⟩
  · exact (sat_fail_inv h).1
  · exact absurd h (star_not_fail (shrinks_sat _))

theorem label_not_throw {s : List Char} {l : List NAct} : label s ≠ .throw l := by
  intro h
  rcases seq_throw_inv (actOn_throw_inv h) with h | ⟨m, l1, l2, -, h, -⟩
  · exact sat_not_throw h
  · exact names_not_throw h

/-- The rounds after the first label. -/
abbrev moreLabels : PRule NAct := Peg.seq (pad (one ',') ignored) (must label)

theorem shrinks_moreLabels : Shrinks moreLabels :=
  Shrinks.seq_left (Shrinks.pad (shrinks_one _) shrinks_ignored sub_ignored) sub_label.must

theorem sub_moreLabels : Sub moreLabels := (Sub.pad (sub_one _) shrinks_ignored sub_ignored).seq sub_label.must

theorem comma_solid (s : List Char) : Solid (',' :: s) := solid_cons (by unfold Blank1; decide) (by decide)

theorem NameChar.not_blank {c : Char} (h : NameChar c) : ¬ Blank1 c ∧ c ≠ '#' := by
  refine ⟨?_, ?_⟩
  · intro hb
    simp only [Blank1, List.mem_cons, List.not_mem_nil, or_false] at hb
    rcases hb with rfl | rfl | rfl | rfl | rfl | rfl <;> exact absurd h (by unfold NameChar; decide)
  · rintro rfl; exact absurd h (by unfold NameChar; decide)

theorem NameText.solid {x : String} {s r : List Char} (h : NameText x s r) : Solid s := by
  obtain ⟨h1, h2, rfl⟩ := h
  cases hx : x.toList with
  | nil => exact absurd hx h1
  | cons c u =>
    intro d t hd
    rw [List.cons_append] at hd
    cases hd
    exact NameChar.not_blank (h2 c (by simp [hx]))

theorem pad_one_ok {A : Type} {c : Char} {s t u : List Char} (hc : Solid (c :: t)) (h : Gap s (c :: t)) (h' : Gap t u) (hu : Solid u)
    (p : PRule A) {l : List A} (hp : p (c :: t) = .ok t l) : pad p ignored s = .ok u l := by
  unfold pad
  rw [seq_ok (skip_eq h hc), after_nil, seq_ok hp, skip_eq h' hu]
  simp [after]

theorem gap_no_name {s t : List Char} {c : Char} (h : Gap s (c :: t)) (hc : ¬ NameChar c) : ∀ d r, s = d :: r → ¬ NameChar d := by
  intro d r hs
  subst hs
  generalize ht : c :: t = u at h
  generalize hv : d :: r = v at h
  cases h with
  | nil => rw [← ht] at hv; cases hv; exact hc
  | blank hb _ => cases hv; exact fun hn => (NameChar.not_blank hn).1 hb
  | comment _ _ => cases hv; exact fun hn => (NameChar.not_blank hn).2 rfl
  | last _ => cases ht

theorem NamesText.solid {ls : List String} {s r : List Char} (h : SepText ',' NameText ls s r) : Solid s := by
  cases h with
  | one h => exact NameText.solid h
  | more h => exact NameText.solid h

theorem namesText_ok {ls : List String} {s r : List Char} (h : SepText ',' NameText ls s (']' :: r)) :
    listMust label (one ',') ignored s = .ok (']' :: r) (ls.map .label) := by
  generalize he : ']' :: r = e at h
  have hn : ∀ c t, e = c :: t → ¬ NameChar c := by
    intro c t h; rw [← he] at h; cases h; unfold NameChar; decide
  have hstop : star moreLabels e = .ok e [] := by
    refine star_fail (seq_fail ?_)
    unfold pad
    rw [seq_ok (skip_solid (by rw [← he]; exact solid_cons (by unfold Blank1; decide) (by decide))), after_nil]
    exact seq_fail (one_fail (by intro t; rw [← he]; simp))
  induction h with
  | one h =>
    unfold listMust
    rw [seq_ok (label_ok h hn), hstop]
    rfl
  | @more l ls s s1 s2 s3 r h hg hg' hls ih =>
    have ih := ih he hn hstop
    unfold listMust at ih ⊢
    rw [seq_ok (label_ok h (gap_no_name hg (by unfold NameChar; decide)))]
    have hp : pad (A := NAct) (one ',') ignored s1 = .ok s3 [] :=
      pad_one_ok (comma_solid _) hg hg' (NamesText.solid hls) _ (one_ok _ _)
    obtain ⟨m, l1, l2, h1, h2, h3⟩ := seq_inv ih
    have hr : moreLabels s1 = .ok m l1 := by
      unfold moreLabels
      rw [seq_ok hp, after_nil, must_ok h1]
    rw [star_ok shrinks_moreLabels hr, h2]
    simp only [after, List.map_cons, h3]
    rfl

theorem pad_one_inv {A : Type} {p : PRule A} {s r : List Char} {l : List A} (h : pad p ignored s = .ok r l) :
    ∃ t u, Gap s t ∧ Solid t ∧ p t = .ok u l ∧ Gap u r ∧ Solid r := by
  obtain ⟨m, l1, l2, h1, h2, rfl⟩ := seq_inv h
  obtain ⟨rfl, hg, hs⟩ := skip_inv h1
  obtain ⟨m', l1, l3, h3, h4, rfl⟩ := seq_inv h2
  obtain ⟨rfl, hg', hs'⟩ := skip_inv h4
  exact ⟨m, m', hg, hs, by simpa using h3, hg', hs'⟩

theorem pad_fail_inv {A : Type} {p : PRule A} {s : List Char} {l : List A} (h : pad p ignored s = .fail l) :
    ∃ t, Gap s t ∧ Solid t ∧ p t = .fail l := by
  rcases seq_fail_inv h with h | ⟨m, l1, l2, h1, h2, rfl⟩
  · exact absurd h skip_not_fail
  · obtain ⟨rfl, hg, hs⟩ := skip_inv h1
    rcases seq_fail_inv h2 with h | ⟨m', l1, l3, -, h4, -⟩
    · exact ⟨m, hg, hs, h⟩
    · exact absurd h4 skip_not_fail

theorem pad_throw_inv {A : Type} {p : PRule A} {s : List Char} {l : List A} (h : pad p ignored s = .throw l) :
    ∃ t, Gap s t ∧ Solid t ∧ p t = .throw l := by
  rcases seq_throw_inv h with h | ⟨m, l1, l2, h1, h2, rfl⟩
  · exact absurd h skip_not_throw
  · obtain ⟨rfl, hg, hs⟩ := skip_inv h1
    rcases seq_throw_inv h2 with h | ⟨m', l1, l3, -, h4, -⟩
    · exact ⟨m, hg, hs, h⟩
    · exact absurd h4 skip_not_throw

theorem labels_inv {s r : List Char} {l : List NAct} (h : listMust label (one ',') ignored s = .ok r l) :
    ∃ ls, SepText ',' NameText ls s r ∧ l = ls.map .label := by
  obtain ⟨m, l1, l2, h1, h2, rfl⟩ := seq_inv h
  obtain ⟨x, hx, rfl⟩ := label_inv h1
  refine star_ind shrinks_moreLabels (Q := fun m r l2 => ∀ x s, NameText x s m →
    ∃ ls, SepText ',' NameText ls s r ∧ [NAct.label x] ++ l2 = ls.map .label) ?_ ?_ m r l2 h2 x s hx
  · intro s l h x t hx
    refine ⟨[x], .one hx, ?_⟩
    rcases seq_fail_inv h with h | ⟨m, l1, l2, -, h, -⟩
    · obtain ⟨t, -, -, h⟩ := pad_fail_inv h
      rw [(one_fail_inv h).1]; rfl
    · exact absurd h must_not_fail
  · intro s m r l l' h _ ih x t hx
    obtain ⟨m', l1, l2, h1, h2, rfl⟩ := seq_inv h
    obtain ⟨u, v, hg, -, h1, hg', -⟩ := pad_one_inv h1
    obtain ⟨rfl, rfl⟩ := one_inv h1
    obtain ⟨y, hy, rfl⟩ := label_inv (must_inv h2)
    obtain ⟨ls, h3, h4⟩ := ih y m' hy
    refine ⟨x :: ls, .more hx hg hg' h3, ?_⟩
    rw [List.map_cons, ← h4]; rfl

theorem labels_throw_inv {s : List Char} {l : List NAct} (h : listMust label (one ',') ignored s = .throw l) :
    ∃ x ls, l = (x :: ls).map .label := by
  rcases seq_throw_inv h with h | ⟨m, l1, l2, h1, h2, rfl⟩
  · exact absurd h label_not_throw
  · obtain ⟨x, hx, rfl⟩ := label_inv h1
    have : ∃ ls : List String, l2 = ls.map .label := by
      refine star_throw_ind shrinks_moreLabels (Q := fun _ l => ∃ ls : List String, l = ls.map .label) ?_ ?_ m l2 h2
      · intro s l h
        rcases seq_throw_inv h with h | ⟨m, l1, l2, h1, h2, rfl⟩
        · obtain ⟨t, -, -, h⟩ := pad_throw_inv h
          exact absurd h one_not_throw
        · obtain ⟨u, v, -, -, h1, -, -⟩ := pad_one_inv h1
          obtain ⟨-, rfl⟩ := one_inv h1
          rcases must_throw_inv h2 with h2 | h2
          · exact absurd h2 label_not_throw
          · rw [label_fail_inv h2]; exact ⟨[], rfl⟩
      · rintro s m l l' h - ⟨ls, rfl⟩
        obtain ⟨m', l1, l2, h1, h2, rfl⟩ := seq_inv h
        obtain ⟨u, v, -, -, h1, -, -⟩ := pad_one_inv h1
        obtain ⟨-, rfl⟩ := one_inv h1
        obtain ⟨y, -, rfl⟩ := label_inv (must_inv h2)
        exact ⟨y :: ls, rfl⟩
    obtain ⟨ls, rfl⟩ := this
    exact ⟨x, ls, rfl⟩

end Verif.RegexText
