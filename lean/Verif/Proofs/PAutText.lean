import Verif.Model.PAutText
import Verif.Spec.PAutText
import Verif.Proofs.RegexSound

/-!
# The grammar of P-automata against its specification
-/

namespace Verif.RegexText

open Peg

/-! ## Lists with separators -/

section Lists
variable {A B : Type} {sep : Char} {p : PRule A} {P : B → List Char → List Char → Prop} {lg : B → List A}

abbrev moreOf (sep : Char) (p : PRule A) : PRule A := Peg.seq (pad (one sep) ignored) (must p)

theorem shrinks_moreOf (hp : Sub p) : Shrinks (moreOf sep p) :=
  Shrinks.seq_left (Shrinks.pad (shrinks_one _) shrinks_ignored sub_ignored) hp.must

theorem sub_moreOf (hp : Sub p) : Sub (moreOf sep p) := (Sub.pad (sub_one _) shrinks_ignored sub_ignored).seq hp.must

theorem sub_listMust (hp : Sub p) : Sub (listMust p (one sep) ignored) := hp.seq (Sub.star (shrinks_moreOf hp) (sub_moreOf hp))

theorem sepText_solid (hsol : ∀ x s r, P x s r → Solid s) {xs : List B} {s r : List Char} (h : SepText sep P xs s r) : Solid s := by
  cases h with
  | one h => exact hsol _ _ _ h
  | more h => exact hsol _ _ _ h

theorem listMust_ok {stop : List Char} (hsub : Sub p) (hsep : ∀ t, Solid (sep :: t)) (hsol : ∀ x s r, P x s r → Solid s)
    (hp : ∀ x s r, P x s r → (r = stop ∨ ∃ t, Gap r (sep :: t)) → p s = .ok r (lg x))
    (hstop : ∃ t, Gap stop t ∧ Solid t ∧ ∀ u, t ≠ sep :: u) {xs : List B} {s : List Char} (h : SepText sep P xs s stop) :
    listMust p (one sep) ignored s = .ok stop (xs.flatMap lg) := by
  obtain ⟨t, h1, h2, h3⟩ := hstop
  have hend : star (moreOf sep p) stop = .ok stop [] := by
    refine star_fail (seq_fail ?_)
    unfold pad
    rw [seq_ok (skip_eq h1 h2), after_nil]
    exact seq_fail (one_fail h3)
  generalize he : stop = e at h
  induction h with
  | one h =>
    subst he
    unfold listMust
    rw [seq_ok (hp _ _ _ h (.inl rfl)), hend]
    simp [after]
  | @more x xs s s1 s2 s3 r h hg hg' hls ih =>
    have ih := ih he
    unfold listMust at ih ⊢
    rw [seq_ok (hp _ _ _ h (.inr ⟨_, hg⟩))]
    have hpad : pad (A := A) (one sep) ignored s1 = .ok s3 [] :=
      pad_one_ok (hsep _) hg hg' (sepText_solid hsol hls) _ (one_ok _ _)
    obtain ⟨m, l1, l2, g1, g2, g3⟩ := seq_inv ih
    have hr : moreOf sep p s1 = .ok m l1 := by
      unfold moreOf
      rw [seq_ok hpad, after_nil, must_ok g1]
    rw [star_ok (shrinks_moreOf hsub) hr, g2]
    simp [after, List.flatMap_cons, g3]

theorem listMust_inv (hsub : Sub p) (hp : ∀ s r l, p s = .ok r l → ∃ x, P x s r ∧ l = lg x) {s r : List Char} {l : List A}
    (h : listMust p (one sep) ignored s = .ok r l) : ∃ xs, SepText sep P xs s r ∧ l = xs.flatMap lg := by
  obtain ⟨m, l1, l2, h1, h2, rfl⟩ := seq_inv h
  obtain ⟨x, hx, rfl⟩ := hp _ _ _ h1
  refine star_ind (shrinks_moreOf hsub) (Q := fun m r l2 => ∀ x s, P x s m →
    ∃ xs, SepText sep P xs s r ∧ lg x ++ l2 = xs.flatMap lg) ?_ ?_ m r l2 h2 x s hx
  · intro s l h x t hx
    refine ⟨[x], .one hx, ?_⟩
    rcases seq_fail_inv h with h | ⟨m, l1, l2, -, h, -⟩
    · obtain ⟨t, -, -, h⟩ := pad_fail_inv h
      rw [(one_fail_inv h).1]; simp
    · exact absurd h must_not_fail
  · intro s m r l l' h _ ih x t hx
    obtain ⟨m', l1, l2, h1, h2, rfl⟩ := seq_inv h
    obtain ⟨u, v, hg, -, h1, hg', -⟩ := pad_one_inv h1
    obtain ⟨rfl, rfl⟩ := one_inv h1
    obtain ⟨y, hy, rfl⟩ := hp _ _ _ (must_inv h2)
    obtain ⟨ls, h3, h4⟩ := ih y m' hy
    refine ⟨x :: ls, .more hx hg hg' h3, ?_⟩
    rw [List.flatMap_cons, ← h4]; simp

end Lists

/-! ## Expressions with white space around them -/

/-- The actions of an expression or of nothing. -/
def optLog (e : Option (SAlt String)) : List NAct := (e.map SAlt.log).getD []

theorem sub_nfaPadded : Sub nfaPadded := fun s r l h =>
  Sub.pad (sub_nfaExpr _).opt shrinks_ignored sub_ignored s r l h

theorem nfaPadded_ok {e : Option (SAlt String)} {s r : List Char} (h : ExprText e s r) (hr : Solid r)
    (hr' : ¬ Starts (['|', '*', '+', '?'] ++ valueChars) r) : nfaPadded s = .ok r (optLog e) := by
  unfold nfaPadded pad
  cases e with
  | none =>
    have h0 : ¬ Starts valueChars r := by
      rintro ⟨c, u, rfl, hc⟩
      exact hr' ⟨c, u, rfl, by simp at hc ⊢; rcases hc with h | h | h <;> simp [h]⟩
    rw [seq_ok (skip_eq h hr), after_nil, seq_ok (opt_fail (nfaExpr_fail h0)), skip_solid hr]
    rfl
  | some e =>
    obtain ⟨s1, s2, hg, he, hg'⟩ := h
    have hl := gap_length hg
    rw [seq_ok (skip_eq hg (Starts.solid (text_starts_alt e he))), after_nil,
      seq_ok (opt_ok (alt_ok e _ s1 s2 he (by omega) ⟨r, hg', hr, hr'⟩)), skip_eq hg' hr]
    simp [after, optLog]

theorem nfaPadded_inv {s r : List Char} {l : List NAct} (h : nfaPadded s = .ok r l) :
    Solid r ∧ ((∃ e, ExprText e s r ∧ l = optLog e) ∨ (DanglingBar s ∧ ∃ t, r = '|' :: t)) := by
  obtain ⟨t, u, hg, hsol, h1, hg', hr⟩ := pad_one_inv h
  refine ⟨hr, ?_⟩
  rcases opt_inv h1 with h1 | ⟨rfl, h1⟩
  · rcases soundE _ _ _ _ h1 with ⟨a, ha, rfl⟩ | ⟨hb, v, hv⟩
    · exact .inl ⟨some a, ⟨t, u, hg, ha, hg'⟩, rfl⟩
    · refine .inr ⟨DanglingBar.suffix hb (gap_suffix hg), v, ?_⟩
      exact gap_unique hg' hr hv (solid_cons (by unfold Blank1; decide) (by decide))
  · exact .inl ⟨none, hg.trans hg', by rw [(nfaExpr_fail_inv h1).1]; rfl⟩

theorem nfaPadded_not_fail {s : List Char} {l : List NAct} : nfaPadded s ≠ .fail l := by
  intro h
  obtain ⟨t, -, -, h⟩ := pad_fail_inv h
  exact opt_not_fail h

theorem nfaPadded_throw_inv {s : List Char} {l : List NAct} (h : nfaPadded s = .throw l) (hd : ¬ DanglingBar s) :
    ∃ a : SAlt String, l <+: a.log := by
  obtain ⟨t, hg, -, h⟩ := pad_throw_inv h
  exact safeE _ _ _ (opt_throw_inv h) fun hb => hd (DanglingBar.suffix hb (gap_suffix hg))

end Verif.RegexText

namespace Verif.PAutText

open Peg RegexText

/-! ## States -/

theorem isFirst_name {c : Char} (h : c.isAlpha = true ∨ c = '_') : NameChar c := by
  rcases h with h | h
  · exact .inl (by simp [Char.isAlphanum, h])
  · exact .inr h

theorem digit_name {c : Char} (h : c.isDigit = true) : NameChar c := .inl (by simp [Char.isAlphanum, h])

theorem state1_ok {x : String} {s r : List Char} (h : (StateTok.mk false x).Text s r) (hr : ∀ c t, r = c :: t → ¬ NameChar c) :
    state1 s = .ok r [.state ⟨false, x⟩] := by
  simp only [StateTok.Text, Bool.false_eq_true, if_false] at h
  obtain ⟨rfl, h⟩ := h
  have h1 : sor (plus (sat Char.isDigit)) (Peg.seq (sat isFirst) (Peg.star (sat isName))) (x.toList ++ r) = (.ok r [] : Peg PAct) := by
    rcases h with ⟨hne, hd⟩ | ⟨c, u, hx, hc, hu⟩
    · refine sor_ok ?_
      cases hl : x.toList with
      | nil => exact absurd hl hne
      | cons c u =>
        rw [hl] at hd
        unfold plus
        rw [List.cons_append, seq_ok (sat_ok _ (hd c (by simp))), after_nil]
        have hu : ∀ d ∈ u, d.isDigit = true := fun d hm => hd d (by simp [hm])
        clear hd hl hne
        induction u with
        | nil =>
          refine star_fail (sat_fail fun c t h => ?_)
          have := hr c t h
          cases hc : c.isDigit with
          | false => rfl
          | true => exact absurd (digit_name hc) this
        | cons d u ih =>
          rw [List.cons_append, star_ok (shrinks_sat _) (sat_ok _ (hu d (by simp))), after_nil,
            ih fun d hm => hu d (by simp [hm])]
    · have hfirst : isFirst c = true := by simpa [isFirst] using hc
      have hnd : Char.isDigit c = false := by
        rcases hc with hc | rfl
        · cases hd : c.isDigit with
          | false => rfl
          | true =>
            exfalso
            simp only [Char.isAlpha, Char.isUpper, Char.isLower, Char.isDigit, Bool.or_eq_true, decide_eq_true_eq,
              Bool.and_eq_true, UInt32.le_iff_toNat_le] at hc hd
            simp at hc hd
            omega
        · decide
      rw [hx, List.cons_append, sor_fail (l := []) (by
        unfold plus
        exact seq_fail (sat_fail (by intro d t h; cases h; exact hnd))), after_nil,
        seq_ok (sat_ok _ hfirst), after_nil]
      clear hx hfirst hnd
      induction u with
      | nil =>
        refine star_fail (sat_fail fun c t h => ?_)
        have := hr c t h
        rw [← isName_iff] at this
        simpa using this
      | cons d u ih =>
        rw [List.cons_append, star_ok (shrinks_sat _) (sat_ok _ ((isName_iff d).2 (hu d (by simp)))), after_nil,
          ih fun d hm => hu d (by simp [hm])]
  unfold state1 actOn
  rw [h1]
  have h2 : (x.toList ++ r).take ((x.toList ++ r).length - r.length) = x.toList := by
    rw [List.length_append, Nat.add_sub_cancel, List.take_left]
  simp only [h2, List.nil_append, String.ofList_toList]

theorem sat_star_inv {A : Type} {f : Char → Bool} {s r : List Char} {l : List A} (h : Peg.star (sat f) s = .ok r l) :
    l = [] ∧ ∃ u, (∀ c ∈ u, f c = true) ∧ s = u ++ r := by
  refine star_ind (shrinks_sat f) (Q := fun s r l => l = [] ∧ ∃ u, (∀ c ∈ u, f c = true) ∧ s = u ++ r) ?_ ?_ s r l h
  · intro s l h
    exact ⟨(sat_fail_inv h).1, [], by simp, rfl⟩
  · rintro s m r l l' h - ⟨rfl, u, hu, rfl⟩
    obtain ⟨c, hc, rfl, rfl⟩ := sat_inv h
    exact ⟨rfl, c :: u, by simpa using ⟨hc, hu⟩, rfl⟩

theorem take_read (u r : List Char) : (u ++ r).take ((u ++ r).length - r.length) = u := by
  rw [List.length_append, Nat.add_sub_cancel, List.take_left]

theorem state1_inv {s r : List Char} {l : List PAct} (h : state1 s = .ok r l) :
    ∃ t : StateTok String, t.Text s r ∧ l = [.state t] := by
  obtain ⟨k, hk, rfl⟩ := actOn_inv h
  clear h
  have : k = [] ∧ ∃ u, s = u ++ r ∧ ((u ≠ [] ∧ ∀ c ∈ u, c.isDigit = true) ∨
      ∃ c v, u = c :: v ∧ (c.isAlpha = true ∨ c = '_') ∧ ∀ d ∈ v, NameChar d) := by
    replace hk := sor_inv hk
    rcases hk with h | ⟨l1, l2, h1, h, rfl⟩
    · obtain ⟨m, l1, l2, h1, h2, rfl⟩ := seq_inv h
      obtain ⟨c, hc, rfl, rfl⟩ := sat_inv h1
      obtain ⟨rfl, u, hu, rfl⟩ := sat_star_inv h2
      exact ⟨rfl, c :: u, rfl, .inl ⟨by simp, by simpa using ⟨hc, hu⟩⟩⟩
    · have : l1 = [] := by
        rcases seq_fail_inv h1 with h | ⟨m, l1, l2, -, h, -⟩
        · exact (sat_fail_inv h).1
        · exact absurd h (star_not_fail (shrinks_sat _))
      subst this
      obtain ⟨m, l1, l2, h1, h2, rfl⟩ := seq_inv h
      obtain ⟨c, hc, rfl, rfl⟩ := sat_inv h1
      obtain ⟨rfl, u, hu, rfl⟩ := sat_star_inv h2
      exact ⟨rfl, c :: u, rfl, .inr ⟨c, u, rfl, by simpa [isFirst] using hc, fun d hd => (isName_iff d).1 (hu d hd)⟩⟩
  obtain ⟨rfl, u, rfl, hu⟩ := this
  rw [take_read]
  refine ⟨⟨false, String.ofList u⟩, ?_, rfl⟩
  simp only [StateTok.Text, Bool.false_eq_true, if_false, String.toList_ofList]
  exact ⟨trivial, hu⟩

theorem quoted_iff {x s r : List Char} : quoted s = some (x, r) ↔ QuotedText x s r := by
  constructor
  · intro h
    fun_induction quoted s generalizing x r with
    | case1 r' => cases h; exact .nil
    | case2 r' ih =>
      obtain ⟨⟨y, r''⟩, h1, h2⟩ := Option.map_eq_some_iff.1 h
      cases h2
      exact .quote (ih h1)
    | case3 r' ih =>
      obtain ⟨⟨y, r''⟩, h1, h2⟩ := Option.map_eq_some_iff.1 h
      cases h2
      exact .backslash (ih h1)
    | case4 => cases h
    | case5 c r' h0 h1 h2 h3 hc ih =>
      obtain ⟨⟨y, r''⟩, g1, g2⟩ := Option.map_eq_some_iff.1 h
      cases g2
      exact .char (fun hq => h0 hq) (fun hq => h3 hq) hc (ih g1)
    | case6 => cases h
    | case7 => cases h
  · intro h
    induction h with
    | nil => simp [quoted]
    | quote _ ih => simp [quoted, ih]
    | backslash _ ih => simp [quoted, ih]
    | @char c x s r h1 h2 h3 _ ih =>
      rw [quoted.eq_5 c s (by simpa using h1) (by intro r h; exact absurd h h2) (by intro r h; exact absurd h h2) (by simpa using h2)]
      rw [if_pos h3, ih]
      rfl

theorem quoted_text_ok {x : String} {s r : List Char} (h : (StateTok.mk true x).Text s r) :
    stringLiteral s = .ok r [.state ⟨true, x⟩] := by
  simp only [StateTok.Text, if_true] at h
  obtain ⟨s1, rfl, h⟩ := h
  simp only [stringLiteral, quoted_iff.2 h, String.ofList_toList]

theorem literal_inv {s r : List Char} {l : List PAct} (h : stringLiteral s = .ok r l) :
    ∃ t : StateTok String, t.Text s r ∧ l = [.state t] := by
  unfold stringLiteral at h
  split at h
  · rename_i r'
    split at h
    · rename_i x r'' hq
      cases h
      refine ⟨⟨true, String.ofList x⟩, ?_, rfl⟩
      simp only [StateTok.Text, if_true, String.toList_ofList]
      exact ⟨r', rfl, quoted_iff.1 hq⟩
    · cases h
  · cases h

theorem literal_fail_inv {s : List Char} {l : List PAct} (h : stringLiteral s = .fail l) : l = [] := by
  unfold stringLiteral at h
  split at h
  · split at h
    · cases h
    · cases h; rfl
  · cases h; rfl

theorem literal_not_throw {s : List Char} {l : List PAct} : stringLiteral s ≠ .throw l := by
  unfold stringLiteral
  split
  · split <;> simp
  · simp

theorem quotedText_suffix {x s r : List Char} (h : QuotedText x s r) : r <:+ s := by
  induction h with
  | nil => exact List.suffix_cons _ _
  | quote _ ih => exact ih.trans ((List.suffix_cons _ _).trans (List.suffix_cons _ _))
  | backslash _ ih => exact ih.trans ((List.suffix_cons _ _).trans (List.suffix_cons _ _))
  | char _ _ _ _ ih => exact ih.trans (List.suffix_cons _ _)

theorem stateText_suffix {t : StateTok String} {s r : List Char} (h : t.Text s r) : r <:+ s := by
  obtain ⟨q, x⟩ := t
  cases q with
  | true =>
    simp only [StateTok.Text, if_true] at h
    obtain ⟨s1, rfl, h⟩ := h
    exact (quotedText_suffix h).trans (List.suffix_cons _ _)
  | false =>
    simp only [StateTok.Text, Bool.false_eq_true, if_false] at h
    rw [h.1]
    exact List.suffix_append _ _

theorem state1_fail_inv {s : List Char} {l : List PAct} (h : state1 s = .fail l) :
    l = [] ∧ ∀ c r, s = c :: r → isFirst c = false ∧ c.isDigit = false := by
  obtain ⟨l1, l2, h1, h2, rfl⟩ := sor_fail_inv (actOn_fail_inv h)
  have h1 : l1 = [] ∧ ∀ c r, s = c :: r → c.isDigit = false := by
    rcases seq_fail_inv h1 with h | ⟨m, l1, l2, -, h, -⟩
    · exact sat_fail_inv h
    · exact absurd h (star_not_fail (shrinks_sat _))
  have h2 : l2 = [] ∧ ∀ c r, s = c :: r → isFirst c = false := by
    rcases seq_fail_inv h2 with h | ⟨m, l1, l2, -, h, -⟩
    · exact sat_fail_inv h
    · exact absurd h (star_not_fail (shrinks_sat _))
  exact ⟨by simp [h1.1, h2.1], fun c r hs => ⟨h2.2 c r hs, h1.2 c r hs⟩⟩

theorem sat_star_not_throw {A : Type} {f : Char → Bool} {s : List Char} {l : List A} : Peg.star (sat f) s ≠ .throw l := fun h =>
  star_throw_ind (shrinks_sat f) (Q := fun _ _ => False) (fun _ _ h => sat_not_throw h) (fun _ _ _ _ _ _ h => h) s l h

theorem state1_not_throw {s : List Char} {l : List PAct} : state1 s ≠ .throw l := by
  intro h
  rcases sor_throw_inv (actOn_throw_inv h) with h | ⟨l1, l2, -, h, -⟩
  · rcases seq_throw_inv h with h | ⟨m, l1, l2, -, h, -⟩
    · exact sat_not_throw h
    · exact sat_star_not_throw h
  · rcases seq_throw_inv h with h | ⟨m, l1, l2, -, h, -⟩
    · exact sat_not_throw h
    · exact sat_star_not_throw h

theorem state_inv {s r : List Char} {l : List PAct} (h : state s = .ok r l) : ∃ t : StateTok String, t.Text s r ∧ l = [.state t] := by
  replace h := sor_inv h
  rcases h with h | ⟨l1, l2, h1, h, rfl⟩
  · exact state1_inv h
  · rw [(state1_fail_inv h1).1]
    exact literal_inv h

theorem state_fail_inv {s : List Char} {l : List PAct} (h : state s = .fail l) : l = [] := by
  obtain ⟨l1, l2, h1, h2, rfl⟩ := sor_fail_inv h
  rw [(state1_fail_inv h1).1, literal_fail_inv h2]; rfl

theorem state_not_throw {s : List Char} {l : List PAct} : state s ≠ .throw l := by
  intro h
  rcases sor_throw_inv h with h | ⟨l1, l2, -, h, -⟩
  · exact state1_not_throw h
  · exact literal_not_throw h

theorem sub_state : Sub state := fun s r l h => by
  obtain ⟨t, ht, -⟩ := state_inv h
  exact stateText_suffix ht

theorem state1_fail {s : List Char} (h : ∀ c r, s = c :: r → isFirst c = false ∧ c.isDigit = false) : state1 s = .fail [] := by
  unfold state1 actOn plus
  have h1 : sat (A := PAct) Char.isDigit s = .fail [] := sat_fail fun c r hs => (h c r hs).2
  have h2 : sat (A := PAct) isFirst s = .fail [] := sat_fail fun c r hs => (h c r hs).1
  simp [sor, Peg.seq, h1, h2, after]

theorem state_ok {t : StateTok String} {s r : List Char} (h : t.Text s r) (hr : ∀ c t, r = c :: t → ¬ NameChar c) :
    state s = .ok r [.state t] := by
  obtain ⟨q, x⟩ := t
  cases q with
  | false => exact sor_ok (state1_ok h hr)
  | true =>
    have h1 : state1 s = .fail [] := by
      simp only [StateTok.Text, if_true] at h
      obtain ⟨s1, rfl, -⟩ := h
      exact state1_fail (by intro c r h; cases h; exact ⟨by decide, by decide⟩)
    unfold state
    rw [sor_fail h1, after_nil, quoted_text_ok h]

/-- Where a state begins. -/
theorem stateText_start {t : StateTok String} {s r : List Char} (h : t.Text s r) : ∃ c u, s = c :: u ∧ (c = '"' ∨ NameChar c) := by
  obtain ⟨q, x⟩ := t
  cases q with
  | true =>
    simp only [StateTok.Text, if_true] at h
    obtain ⟨s1, rfl, h⟩ := h
    exact ⟨_, _, rfl, .inl rfl⟩
  | false =>
    simp only [StateTok.Text, Bool.false_eq_true, if_false] at h
    obtain ⟨rfl, ⟨hne, hd⟩ | ⟨c, u, hx, hc, -⟩⟩ := h
    · cases hx : x.toList with
      | nil => exact absurd hx hne
      | cons c u => exact ⟨c, u ++ r, rfl, .inr (digit_name (hd c (by simp [hx])))⟩
    · exact ⟨c, u ++ r, by rw [hx]; rfl, .inr (isFirst_name hc)⟩

theorem stateText_solid {t : StateTok String} {s r : List Char} (h : t.Text s r) : Solid s := by
  obtain ⟨c, u, rfl, rfl | hc⟩ := stateText_start h
  · exact solid_cons (by unfold Blank1; decide) (by decide)
  · exact solid_cons (NameChar.not_blank hc).1 (NameChar.not_blank hc).2

theorem flatMap_state (ts : List (StateTok String)) : ts.flatMap (fun t => [PAct.state t]) = ts.map .state := by
  induction ts with
  | nil => rfl
  | cons t ts ih => simp [List.flatMap_cons, ih]

theorem sub_initial : Sub initial := ((sub_one _).seq ((sub_listMust sub_state).must.seq (sub_one _).must)).sor sub_state

theorem initial_ok {ts : List (StateTok String)} {s r : List Char} (h : StatesText ts s r) (hr : ∀ c t, r = c :: t → ¬ NameChar c) :
    initial s = .ok r (ts.map .state) := by
  rcases h with ⟨t, rfl, h⟩ | ⟨s1, rfl, h⟩
  · have h1 : one (A := PAct) '[' s = .fail [] := by
      refine one_fail fun u hu => ?_
      obtain ⟨c, v, rfl, hc⟩ := stateText_start h
      cases hu
      rcases hc with hc | hc
      · cases hc
      · revert hc; unfold NameChar; decide
    unfold initial
    rw [sor_fail (seq_fail h1), after_nil, state_ok h hr]
    rfl
  · refine sor_ok ?_
    have hn : ∀ c t, (']' :: r) = c :: t → ¬ NameChar c := by
      intro c t h; cases h; unfold NameChar; decide
    have h1 := listMust_ok (p := state) (lg := fun t => [PAct.state t]) (stop := ']' :: r) sub_state comma_solid
      (fun x s r h => stateText_solid h) (fun x s r' hx hr => state_ok hx (by
        rcases hr with rfl | ⟨t, ht⟩
        · exact hn
        · exact gap_no_name ht (by unfold NameChar; decide)))
      ⟨_, .nil _, solid_cons (by unfold Blank1; decide) (by decide), by simp⟩ h
    rw [seq_ok (one_ok _ _), after_nil, seq_ok (must_ok h1), must_ok (one_ok _ _)]
    simp [after, flatMap_state]

theorem initial_inv {s r : List Char} {l : List PAct} (h : initial s = .ok r l) : ∃ ts, StatesText ts s r ∧ l = ts.map .state := by
  replace h := sor_inv h
  rcases h with h | ⟨l1, l2, h1, h, rfl⟩
  · obtain ⟨m, k1, k2, h1, h2, rfl⟩ := seq_inv h
    obtain ⟨rfl, rfl⟩ := one_inv h1
    obtain ⟨m2, k3, k4, h3, h4, rfl⟩ := seq_inv h2
    obtain ⟨rfl, rfl⟩ := one_inv (must_inv h4)
    obtain ⟨ts, hts, rfl⟩ := listMust_inv (P := StateTok.Text) (lg := fun t => [PAct.state t]) sub_state
      (fun s r l h => state_inv h) (must_inv h3)
    refine ⟨ts, .inr ⟨m, rfl, hts⟩, ?_⟩
    simp [flatMap_state]
  · have : l1 = [] := by
      rcases seq_fail_inv h1 with h | ⟨m, k1, k2, -, h, -⟩
      · exact (one_fail_inv h).1
      · rcases seq_fail_inv h with h | ⟨m, k1, k2, -, h, -⟩
        · exact absurd h must_not_fail
        · exact absurd h must_not_fail
    subst this
    obtain ⟨t, ht, rfl⟩ := state_inv h
    exact ⟨[t], .inl ⟨t, rfl, ht⟩, rfl⟩

theorem statesText_solid {ts : List (StateTok String)} {s r : List Char} (h : StatesText ts s r) : Solid s := by
  rcases h with ⟨t, rfl, h⟩ | ⟨s1, rfl, h⟩
  · exact stateText_solid h
  · exact solid_cons (by unfold Blank1; decide) (by decide)

/-! ## Atoms -/

/-- The actions of an atom. -/
def plog (a : PAtom String String) : List PAct :=
  a.states.map .state ++ .begin :: ((optLog a.expr).map .nfa ++ [.finish, .atom])

theorem sub_nfaState : Sub nfaState := fun s r l h => by
  unfold nfaState at h
  cases hs : nfaPadded s with
  | ok r' l' => rw [hs] at h; cases h; exact sub_nfaPadded _ _ _ hs
  | fail l' => rw [hs] at h; cases h
  | throw l' => rw [hs] at h; cases h

theorem sub_atom : Sub atom :=
  ((sub_one _).seq ((Sub.pad sub_initial shrinks_ignored sub_ignored).seq ((sub_one _).seq (sub_nfaState.seq (sub_one _))))).act

theorem atom_ok {a : PAtom String String} {s r : List Char} (h : a.Text s r) : atom s = .ok r (plog a) := by
  obtain ⟨s1, s2, s3, s4, rfl, hg, hst, hg', he⟩ := h
  have h1 : pad initial ignored s1 = .ok (',' :: s4) (a.states.map .state) := by
    unfold pad
    rw [seq_ok (skip_eq hg (statesText_solid hst)), after_nil,
      seq_ok (initial_ok hst (gap_no_name hg' (by unfold NameChar; decide))), skip_eq hg' (comma_solid _)]
    simp [after]
  have h2 : nfaPadded s4 = .ok ('>' :: r) (optLog a.expr) :=
    nfaPadded_ok he (solid_cons (by unfold Blank1; decide) (by decide)) (by rintro ⟨c, t, h, hc⟩; cases h; simp at hc)
  have h3 : nfaState s4 = .ok ('>' :: r) (.begin :: ((optLog a.expr).map PAct.nfa ++ [.finish])) := by
    unfold nfaState; rw [h2]
  unfold atom
  refine (act_ok (r := r) (l := a.states.map .state ++ .begin :: ((optLog a.expr).map .nfa ++ [.finish])) ?_).trans (by simp [plog])
  rw [seq_ok (one_ok _ _), after_nil, seq_ok h1, seq_ok (one_ok _ _), after_nil, seq_ok h3, one_ok]
  simp [after]

theorem atom_inv {s r : List Char} {l : List PAct} (h : atom s = .ok r l) : ∃ a : PAtom String String, a.Text s r ∧ l = plog a := by
  obtain ⟨k, hk, rfl⟩ := act_inv h
  obtain ⟨m, k1, k2, h1, h2, rfl⟩ := seq_inv hk
  obtain ⟨rfl, rfl⟩ := one_inv h1
  obtain ⟨m2, k3, k4, h3, h4, rfl⟩ := seq_inv h2
  obtain ⟨m3, k5, k6, h5, h6, rfl⟩ := seq_inv h4
  obtain ⟨rfl, rfl⟩ := one_inv h5
  obtain ⟨m4, k7, k8, h7, h8, rfl⟩ := seq_inv h6
  obtain ⟨rfl, rfl⟩ := one_inv h8
  obtain ⟨t, u, hg, hsol, h9, hg', -⟩ := pad_one_inv h3
  obtain ⟨ts, hts, rfl⟩ := initial_inv h9
  unfold nfaState at h7
  cases hp : nfaPadded m3 with
  | ok r' l' =>
    rw [hp] at h7
    cases h7
    obtain ⟨hsol', h | ⟨-, t', h⟩⟩ := nfaPadded_inv hp
    · obtain ⟨e, he, rfl⟩ := h
      refine ⟨⟨ts, e⟩, ⟨m, t, u, m3, rfl, hg, hts, hg', he⟩, ?_⟩
      simp [plog]
    · cases h
  | fail l' => rw [hp] at h7; cases h7
  | throw l' => rw [hp] at h7; cases h7

theorem atom_solid {a : PAtom String String} {s r : List Char} (h : a.Text s r) : Solid s := by
  obtain ⟨s1, s2, s3, s4, rfl, -⟩ := h
  exact solid_cons (by unfold Blank1; decide) (by decide)

theorem bar_solid (t : List Char) : Solid ('|' :: t) := solid_cons (by unfold Blank1; decide) (by decide)

theorem file_ok {as : List (PAtom String String)} {s : List Char} (h : AtomsText as s) : file s = .ok [] (as.flatMap plog) := by
  obtain ⟨s1, s2, hg, ha, hg'⟩ := h
  have h1 : listMust atom (one '|') ignored s1 = .ok s2 (as.flatMap plog) :=
    listMust_ok (lg := plog) sub_atom bar_solid (fun x s r h => atom_solid h) (fun x s r h _ => atom_ok h)
      ⟨[], hg', solid_nil, by simp⟩ ha
  have h2 : pad (listMust atom (one '|') ignored) ignored s = .ok [] (as.flatMap plog) := by
    unfold pad
    rw [seq_ok (skip_eq hg (sepText_solid (fun x s r h => atom_solid h) ha)), after_nil, seq_ok h1, skip_eq hg' solid_nil]
    simp [after]
  unfold file
  rw [seq_ok (must_ok h2), must_ok (show eof (A := PAct) [] = .ok [] [] from rfl)]
  simp [after]

theorem file_inv {s r : List Char} {l : List PAct} (h : file s = .ok r l) : ∃ as, AtomsText as s ∧ l = as.flatMap plog := by
  obtain ⟨m, k1, k2, h1, h2, rfl⟩ := seq_inv h
  obtain ⟨t, u, hg, -, h3, hg', -⟩ := pad_one_inv (must_inv h1)
  obtain ⟨as, ha, rfl⟩ := listMust_inv (P := PAtom.Text) (lg := plog) sub_atom (fun s r l h => atom_inv h) h3
  have h2 := must_inv h2
  cases m with
  | nil =>
    simp only [eof, Peg.ok.injEq] at h2
    rw [← h2.2]
    exact ⟨as, ⟨t, u, hg, ha, hg'⟩, by simp⟩
  | cons c m => simp [eof] at h2

end Verif.PAutText
