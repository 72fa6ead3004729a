import Verif.Proofs.RegexText

/-!
# Expressions, their texts and their actions
-/

namespace Verif

/-! The actions of an expression. -/

mutual
def SVal.log : SVal String → List NAct
  | .dot => [.dot]
  | .set neg l ls => (if neg then [.neg] else []) ++ (l :: ls).map .label ++ [.set]
  | .group e => .open :: (e.log0 ++ [.alt, .close])
def SUn.log : SUn String → List NAct
  | .mk v p => v.log ++ (p.map NAct.post).toList ++ [.unary]
def SSeq.log0 : SSeq String → List NAct
  | .one u => u.log
  | .more u q => u.log ++ q.log0
def SAlt.log0 : SAlt String → List NAct
  | .one q => q.log0 ++ [.seq]
  | .more q a => q.log0 ++ .seq :: .or :: a.log0
end

def SAlt.log (e : SAlt String) : List NAct := e.log0 ++ [.alt]

end Verif

namespace Verif.RegexText

open Peg

theorem gap_suffix {s r : List Char} (h : Gap s r) : r <:+ s := by
  induction h with
  | nil s => exact List.suffix_refl s
  | blank _ _ ih => exact ih.trans (List.suffix_cons _ _)
  | comment _ _ ih => exact (ih.trans (List.suffix_cons _ _)).trans ((List.suffix_append _ _).trans (List.suffix_cons _ _))
  | last _ => exact List.nil_suffix

theorem gap_length {s r : List Char} (h : Gap s r) : r.length ≤ s.length := (gap_suffix h).length_le

abbrev valueChars : List Char := ['.', '(', '[']
abbrev postChars : List Char := ['*', '+', '?']

theorem Starts.solid {s : List Char} (h : Starts valueChars s) : Solid s := by
  obtain ⟨c, r, rfl, hc⟩ := h
  simp only [List.mem_cons, List.not_mem_nil, or_false] at hc
  rcases hc with rfl | rfl | rfl <;> exact solid_cons (by unfold Blank1; decide) (by decide)

theorem gap_follow {r t : List Char} (h : Gap r t) (ht : ¬ Starts postChars t) : ¬ Starts postChars r := by
  rintro ⟨c, u, rfl, hc⟩
  generalize hs : c :: u = s at h
  cases h with
  | nil => exact ht ⟨c, u, hs.symm, hc⟩
  | blank hb _ =>
    cases hs
    simp only [List.mem_cons, List.not_mem_nil, or_false] at hc
    rcases hc with rfl | rfl | rfl <;> exact absurd hb (by unfold Blank1; decide)
  | comment _ _ => cases hs; simp at hc
  | last _ => cases hs; simp at hc

/-! ## What the rules read -/

section Sizes
variable {e : PRule NAct}

theorem sub_names : Sub (listMust label (one ',') ignored) := sub_label.seq (Sub.star shrinks_moreLabels sub_moreLabels)

theorem sub_labelSet : Sub labelSet :=
  ((sub_one _).seq (((sub_one _).act.opt.must).seq (sub_names.must.seq (sub_one _).must))).act

theorem shrinks_labelSet : Shrinks labelSet :=
  (Shrinks.seq_left (shrinks_one _) (((sub_one _).act.opt.must).seq (sub_names.must.seq (sub_one _).must))).act

theorem sub_bracket (he : Sub e) : Sub (bracket e) :=
  (sub_one _).act.seq ((Sub.pad he shrinks_ignored sub_ignored).must.seq (sub_one _).act.must)

theorem shrinks_bracket (he : Sub e) : Shrinks (bracket e) :=
  Shrinks.seq_left (shrinks_one _).act ((Sub.pad he shrinks_ignored sub_ignored).must.seq (sub_one _).act.must)

theorem sub_value (he : Sub e) : Sub (value e) := (sub_one _).act.sor ((sub_bracket he).sor sub_labelSet)

theorem shrinks_value (he : Sub e) : Shrinks (value e) := (shrinks_one _).act.sor ((shrinks_bracket he).sor shrinks_labelSet)

theorem sub_postfix : Sub postfix_ := (sub_one _).act.sor ((sub_one _).act.sor (sub_one _).act)

theorem sub_unary (he : Sub e) : Sub (unary e) := ((sub_value he).seq sub_postfix.opt).act

theorem shrinks_unary (he : Sub e) : Shrinks (unary e) := (Shrinks.seq_left (shrinks_value he) sub_postfix.opt).act

abbrev moreUnary (e : PRule NAct) : PRule NAct := Peg.seq (Peg.star ignored) (unary e)

theorem sub_moreUnary (he : Sub e) : Sub (moreUnary e) := sub_skip.seq (sub_unary he)

theorem shrinks_moreUnary (he : Sub e) : Shrinks (moreUnary e) := Shrinks.seq_right sub_skip (shrinks_unary he)

theorem sub_seqExpr (he : Sub e) : Sub (seqExpr e) := ((sub_unary he).seq (Sub.star (shrinks_moreUnary he) (sub_moreUnary he))).act

theorem shrinks_seqExpr (he : Sub e) : Shrinks (seqExpr e) :=
  (Shrinks.seq_left (shrinks_unary he) (Sub.star (shrinks_moreUnary he) (sub_moreUnary he))).act

abbrev barRule : PRule NAct := pad (act .or (one '|')) ignored

abbrev moreSeq (e : PRule NAct) : PRule NAct := Peg.seq barRule (seqExpr e)

theorem sub_bar : Sub barRule := Sub.pad (sub_one _).act shrinks_ignored sub_ignored

theorem sub_moreSeq (he : Sub e) : Sub (moreSeq e) := sub_bar.seq (sub_seqExpr he)

theorem shrinks_moreSeq (he : Sub e) : Shrinks (moreSeq e) :=
  Shrinks.seq_left (Shrinks.pad (shrinks_one _).act shrinks_ignored sub_ignored) (sub_seqExpr he)

theorem sub_nfaExpr (n : Nat) : Sub (nfaExpr n) := by
  induction n with
  | zero => intro s r l h; simp [nfaExpr] at h
  | succ n ih => exact ((sub_seqExpr ih).seq (Sub.star (shrinks_moreSeq ih) (sub_moreSeq ih))).act

theorem shrinks_nfaExpr (n : Nat) : Shrinks (nfaExpr n) := by
  cases n with
  | zero => intro s r l h; simp [nfaExpr] at h
  | succ n =>
    have ih := sub_nfaExpr n
    exact (Shrinks.seq_left (shrinks_seqExpr ih) (Sub.star (shrinks_moreSeq ih) (sub_moreSeq ih))).act

end Sizes

/-! ## Where a value begins -/

theorem value_fail {e : PRule NAct} {s : List Char} (h : ¬ Starts valueChars s) : value e s = .fail [] := by
  have h1 : one (A := NAct) '.' s = .fail [] := one_fail fun r hr => h ⟨_, r, hr, by simp⟩
  have h2 : one (A := NAct) '(' s = .fail [] := one_fail fun r hr => h ⟨_, r, hr, by simp⟩
  have h3 : one (A := NAct) '[' s = .fail [] := one_fail fun r hr => h ⟨_, r, hr, by simp⟩
  unfold value bracket labelSet
  simp [sor, Peg.seq, act, h1, h2, h3, after]

theorem value_fail_inv {e : PRule NAct} {s : List Char} {l : List NAct} (h : value e s = .fail l) :
    l = [] ∧ ¬ Starts valueChars s := by
  obtain ⟨l1, l2, h1, h2, rfl⟩ := sor_fail_inv h
  obtain ⟨rfl, h0⟩ := one_fail_inv (act_fail_inv h1)
  obtain ⟨l3, l4, h3, h4, rfl⟩ := sor_fail_inv h2
  have h3 : l3 = [] ∧ ∀ r, s ≠ '(' :: r := by
    rcases seq_fail_inv h3 with h | ⟨m, k1, k2, -, h, -⟩
    · exact one_fail_inv (act_fail_inv h)
    · rcases seq_fail_inv h with h | ⟨m, k1, k2, -, h, -⟩
      · exact absurd h must_not_fail
      · exact absurd h must_not_fail
  have h4 : l4 = [] ∧ ∀ r, s ≠ '[' :: r := by
    rcases seq_fail_inv (act_fail_inv h4) with h | ⟨m, k1, k2, -, h, -⟩
    · exact one_fail_inv h
    · rcases seq_fail_inv h with h | ⟨m, k1, k2, -, h, -⟩
      · exact absurd h must_not_fail
      · rcases seq_fail_inv h with h | ⟨m, k1, k2, -, h, -⟩
        · exact absurd h must_not_fail
        · exact absurd h must_not_fail
  refine ⟨by simp [h3.1, h4.1], ?_⟩
  rintro ⟨c, r, rfl, hc⟩
  simp only [List.mem_cons, List.not_mem_nil, or_false] at hc
  rcases hc with rfl | rfl | rfl
  · exact h0 r rfl
  · exact h3.2 r rfl
  · exact h4.2 r rfl

theorem unary_fail {e : PRule NAct} {s : List Char} (h : ¬ Starts valueChars s) : unary e s = .fail [] := by
  unfold unary; simp [act, Peg.seq, value_fail h]

theorem unary_fail_inv {e : PRule NAct} {s : List Char} {l : List NAct} (h : unary e s = .fail l) :
    l = [] ∧ ¬ Starts valueChars s := by
  rcases seq_fail_inv (act_fail_inv h) with h | ⟨m, k1, k2, -, h, -⟩
  · exact value_fail_inv h
  · exact absurd h opt_not_fail

theorem seqExpr_fail {e : PRule NAct} {s : List Char} (h : ¬ Starts valueChars s) : seqExpr e s = .fail [] := by
  unfold seqExpr; simp [act, Peg.seq, unary_fail h]

theorem seqExpr_fail_inv {e : PRule NAct} (he : Sub e) {s : List Char} {l : List NAct} (h : seqExpr e s = .fail l) :
    l = [] ∧ ¬ Starts valueChars s := by
  rcases seq_fail_inv (act_fail_inv h) with h | ⟨m, k1, k2, -, h, -⟩
  · exact unary_fail_inv h
  · exact absurd h (star_not_fail (shrinks_moreUnary he))

theorem nfaExpr_fail {n : Nat} {s : List Char} (h : ¬ Starts valueChars s) : nfaExpr (n + 1) s = .fail [] := by
  unfold nfaExpr list; simp [act, Peg.seq, seqExpr_fail h]

theorem nfaExpr_fail_inv {n : Nat} {s : List Char} {l : List NAct} (h : nfaExpr n s = .fail l) :
    l = [] ∧ ¬ Starts valueChars s := by
  cases n with
  | zero => simp [nfaExpr] at h
  | succ n =>
    rcases seq_fail_inv (act_fail_inv h) with h | ⟨m, k1, k2, -, h, -⟩
    · exact seqExpr_fail_inv (sub_nfaExpr n) h
    · exact absurd h (star_not_fail (shrinks_moreSeq (sub_nfaExpr n)))

theorem text_starts_val (v : SVal String) {s r : List Char} (h : v.Text s r) : Starts valueChars s := by
  cases v with
  | dot => exact ⟨_, _, h, by simp⟩
  | set neg l ls => obtain ⟨s1, rfl, -⟩ := h; exact ⟨_, _, rfl, by simp⟩
  | group e => obtain ⟨s1, s2, s3, rfl, -⟩ := h; exact ⟨_, _, rfl, by simp⟩

theorem text_starts_un (u : SUn String) {s r : List Char} (h : u.Text s r) : Starts valueChars s := by
  cases u with
  | mk v p => exact text_starts_val v h

theorem text_starts_seq (q : SSeq String) {s r : List Char} (h : q.Text s r) : Starts valueChars s := by
  cases q with
  | one u => exact text_starts_un u h
  | more u q => obtain ⟨s1, s2, h, -⟩ := h; exact text_starts_un u h

theorem text_starts_alt (a : SAlt String) {s r : List Char} (h : a.Text s r) : Starts valueChars s := by
  cases a with
  | one q => exact text_starts_seq q h
  | more q a => obtain ⟨s1, s2, s3, h, -⟩ := h; exact text_starts_seq q h

/-! ## Texts of expressions are read -/

theorem starts_value_post {s : List Char} (h : Starts valueChars s) : ¬ Starts postChars s := by
  obtain ⟨c, r, rfl, hc⟩ := h
  rintro ⟨d, t, h, hd⟩
  cases h
  simp only [List.mem_cons, List.not_mem_nil, or_false] at hc hd
  rcases hc with rfl | rfl | rfl <;> simp at hd

/-- Where a sequence ends. -/
def EndSeq (r : List Char) : Prop := ¬ Starts postChars r ∧ ∃ t, Gap r t ∧ Solid t ∧ ¬ Starts valueChars t

/-- Where an expression ends. -/
def EndAlt (r : List Char) : Prop := ∃ t, Gap r t ∧ Solid t ∧ ¬ Starts (['|', '*', '+', '?'] ++ valueChars) t

theorem EndAlt.seq {r : List Char} (h : EndAlt r) : EndSeq r := by
  obtain ⟨t, h1, h2, h3⟩ := h
  refine ⟨gap_follow h1 ?_, t, h1, h2, ?_⟩
  · rintro ⟨c, u, rfl, hc⟩
    exact h3 ⟨c, u, rfl, by simp at hc ⊢; rcases hc with h | h | h <;> simp [h]⟩
  · rintro ⟨c, u, rfl, hc⟩
    exact h3 ⟨c, u, rfl, by simp at hc ⊢; rcases hc with h | h | h <;> simp [h]⟩

theorem set_ok {neg : Bool} {l : String} {ls : List String} {s r : List Char} (h : (SVal.set neg l ls).Text s r) :
    labelSet s = .ok r (SVal.set neg l ls).log := by
  obtain ⟨s1, rfl, hn⟩ := h
  have hneg : must (opt (act NAct.neg (one '^'))) ((if neg then ['^'] else []) ++ s1) = .ok s1 (if neg then [.neg] else []) := by
    cases neg with
    | true => exact must_ok (opt_ok (act_ok (one_ok _ _)))
    | false =>
      refine must_ok (opt_fail ?_)
      have : one (A := NAct) '^' s1 = .fail [] := by
        refine one_fail fun r hr => ?_
        have hx : ∃ x m, NameText x s1 m := by
          cases hn with
          | one h => exact ⟨_, _, h⟩
          | more h => exact ⟨_, _, h⟩
        obtain ⟨x, m, h1, h2, h3⟩ := hx
        cases hx : x.toList with
        | nil => exact h1 hx
        | cons c u =>
          have hc := h2 c (by simp [hx])
          rw [hx, hr] at h3
          cases h3
          revert hc
          unfold NameChar
          decide
      show act NAct.neg (one '^') s1 = .fail []
      simp [act, this]
  unfold labelSet
  refine (act_ok (r := r) (l := (if neg then [.neg] else []) ++ (l :: ls).map .label) ?_).trans (by simp [SVal.log])
  rw [seq_ok (one_ok _ _), after_nil, seq_ok hneg, seq_ok (must_ok (namesText_ok hn)), must_ok (one_ok _ _)]
  simp [after]

mutual
theorem val_ok (v : SVal String) (n : Nat) (s r : List Char) (h : v.Text s r) (hn : s.length ≤ n) :
    value (nfaExpr n) s = .ok r v.log := by
  match v with
  | .dot =>
    cases (show s = '.' :: r from h)
    exact sor_ok (act_ok (one_ok _ _))
  | .set neg l ls =>
    have hs := set_ok h
    obtain ⟨s1, rfl, hn⟩ := h
    unfold value
    have h1 : act NAct.dot (one '.') ('[' :: ((if neg then ['^'] else []) ++ s1)) = .fail [] := by
      simp [act, one, sat]
    have h2 : bracket (nfaExpr n) ('[' :: ((if neg then ['^'] else []) ++ s1)) = .fail [] := by
      unfold bracket; exact seq_fail (by simp [act, one, sat])
    rw [sor_fail h1, after_nil, sor_fail h2, after_nil, hs]
  | .group e =>
    obtain ⟨s1, s2, s3, rfl, hg, he, hg'⟩ := h
    unfold value
    have h1 : act NAct.dot (one '.') ('(' :: s1) = .fail [] := by simp [act, one, sat]
    rw [sor_fail h1, after_nil]
    refine (sor_ok ?_).trans rfl
    have hs2 := gap_length hg
    rw [List.length_cons] at hn
    have hsol : Solid (')' :: r) := solid_cons (by unfold Blank1; decide) (by decide)
    have hend : EndAlt s3 := ⟨_, hg', hsol, by rintro ⟨c, t, h, hc⟩; cases h; simp at hc⟩
    have ih := alt_ok e n s2 s3 he (by omega) hend
    unfold bracket
    rw [seq_ok (act_ok (one_ok _ _))]
    have hp : pad (nfaExpr n) ignored s1 = .ok (')' :: r) e.log := by
      unfold pad
      rw [seq_ok (skip_eq hg (Starts.solid (text_starts_alt e he))), after_nil, seq_ok ih, skip_eq hg' hsol]
      simp [after]
    rw [seq_ok (must_ok hp), must_ok (act_ok (one_ok _ _))]
    simp [after, SVal.log, SAlt.log]
theorem un_ok (u : SUn String) (n : Nat) (s r : List Char) (h : u.Text s r) (hn : s.length ≤ n) (hr : ¬ Starts postChars r) :
    unary (nfaExpr n) s = .ok r u.log := by
  match u with
  | .mk v p =>
    have ih := val_ok v n s _ h hn
    unfold unary
    have hp : opt postfix_ (Post.text p ++ r) = .ok r (p.map NAct.post).toList := by
      cases p with
      | none =>
        refine opt_fail ?_
        have h1 : one (A := NAct) '*' r = .fail [] := one_fail fun t ht => hr ⟨_, t, ht, by simp⟩
        have h2 : one (A := NAct) '+' r = .fail [] := one_fail fun t ht => hr ⟨_, t, ht, by simp⟩
        have h3 : one (A := NAct) '?' r = .fail [] := one_fail fun t ht => hr ⟨_, t, ht, by simp⟩
        simp [postfix_, sor, act, Post.text, h1, h2, h3, after]
      | some p =>
        cases p <;> simp [opt, postfix_, sor, act, Post.text, one, sat, after]
    rw [act_ok (r := r) (l := v.log ++ (p.map NAct.post).toList) (by rw [seq_ok ih, hp]; simp [after])]
    rfl
theorem seq_ok0 (q : SSeq String) (n : Nat) (s r : List Char) (h : q.Text s r) (hn : s.length ≤ n) (hr : EndSeq r) :
    Peg.seq (unary (nfaExpr n)) (Peg.star (moreUnary (nfaExpr n))) s = .ok r q.log0 := by
  match q with
  | .one u =>
    rw [seq_ok (un_ok u n s r h hn hr.1)]
    obtain ⟨-, t, h1, h2, h3⟩ := hr
    have : Peg.star (moreUnary (nfaExpr n)) r = .ok r [] := by
      refine star_fail ?_
      rw [moreUnary, seq_ok (skip_eq h1 h2), after_nil, unary_fail h3]
    rw [this]
    simp [after, SSeq.log0]
  | .more u q =>
    obtain ⟨s1, s2, hu, hg, hq⟩ := h
    have hst := text_starts_seq q hq
    have h1 := un_ok u n s s1 hu hn (gap_follow hg (starts_value_post hst))
    have hl1 := (sub_unary (sub_nfaExpr n)).length h1
    have hl2 := gap_length hg
    have ih := seq_ok0 q n s2 r hq (by omega) hr
    obtain ⟨m, l1, l2, h2, h3, h4⟩ := seq_inv ih
    have h5 : moreUnary (nfaExpr n) s1 = .ok m l1 := by
      rw [moreUnary, seq_ok (skip_eq hg hst.solid), after_nil, h2]
    rw [seq_ok h1, star_ok (shrinks_moreUnary (sub_nfaExpr n)) h5, h3]
    simp [after, SSeq.log0, h4]
theorem alt_ok0 (a : SAlt String) (n : Nat) (s r : List Char) (h : a.Text s r) (hn : s.length ≤ n) (hr : EndAlt r) :
    Peg.seq (seqExpr (nfaExpr n)) (Peg.star (moreSeq (nfaExpr n))) s = .ok r a.log0 := by
  match a with
  | .one q =>
    have h1 : seqExpr (nfaExpr n) s = .ok r (q.log0 ++ [.seq]) := act_ok (seq_ok0 q n s r h hn hr.seq)
    rw [seq_ok h1]
    obtain ⟨t, h1, h2, h3⟩ := hr
    have : Peg.star (moreSeq (nfaExpr n)) r = .ok r [] := by
      refine star_fail ?_
      rw [moreSeq]
      refine seq_fail ?_
      unfold barRule pad
      rw [seq_ok (skip_eq h1 h2), after_nil]
      refine seq_fail ?_
      have : one (A := NAct) '|' t = .fail [] := one_fail fun u hu => h3 ⟨_, u, hu, by simp⟩
      simp [act, this]
    rw [this]
    simp [after, SAlt.log0]
  | .more q a =>
    obtain ⟨s1, s2, s3, hq, hg, hg', ha⟩ := h
    have hst := text_starts_alt a ha
    have hbar : Solid ('|' :: s2) := solid_cons (by unfold Blank1; decide) (by decide)
    have hend : EndSeq s1 := by
      refine ⟨gap_follow hg ?_, _, hg, hbar, ?_⟩
      · rintro ⟨c, t, h, hc⟩; cases h; simp at hc
      · rintro ⟨c, t, h, hc⟩; cases h; simp at hc
    have h1 : seqExpr (nfaExpr n) s = .ok s1 (q.log0 ++ [.seq]) := act_ok (seq_ok0 q n s s1 hq hn hend)
    have hl1 := (sub_seqExpr (sub_nfaExpr n)).length h1
    have hl2 := gap_length hg
    have hl3 := gap_length hg'
    rw [List.length_cons] at hl2
    have ih := alt_ok0 a n s3 r ha (by omega) hr
    obtain ⟨m, l1, l2, h2, h3, h4⟩ := seq_inv ih
    have h5 : moreSeq (nfaExpr n) s1 = .ok m (.or :: l1) := by
      have : barRule s1 = .ok s3 [.or] := pad_one_ok hbar hg hg' hst.solid _ (act_ok (one_ok _ _))
      rw [moreSeq, seq_ok this, h2]
      rfl
    rw [seq_ok h1, star_ok (shrinks_moreSeq (sub_nfaExpr n)) h5, h3]
    simp [after, SAlt.log0, h4]
theorem alt_ok (a : SAlt String) (n : Nat) (s r : List Char) (h : a.Text s r) (hn : s.length < n) (hr : EndAlt r) :
    nfaExpr n s = .ok r a.log := by
  match n, hn with
  | n + 1, hn => exact act_ok (alt_ok0 a n s r h (by omega) hr)
end

end Verif.RegexText
