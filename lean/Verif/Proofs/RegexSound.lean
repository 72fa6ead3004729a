import Verif.Proofs.RegexTree

/-!
# What the grammar reads is the text of an expression
-/

namespace Verif.RegexText

open Peg

theorem DanglingBar.suffix {s t : List Char} (h : DanglingBar t) (hs : t <:+ s) : DanglingBar s := by
  obtain ⟨pre, c, w, u, v, rfl, h1, h2⟩ := h
  obtain ⟨p, rfl⟩ := hs
  exact ⟨p ++ pre, c, w, u, v, by simp, h1, h2⟩

/-- Behind the end of an expression. -/
def Behind (s r : List Char) : Prop := ∃ pre c, s = pre ++ c :: r ∧ c ∈ exprEnds

theorem behind_val {v : SVal String} {s r : List Char} (h : v.Text s r) : Behind s r := by
  cases v with
  | dot => exact ⟨[], '.', h, by simp⟩
  | set neg l ls =>
    obtain ⟨s1, rfl, h⟩ := h
    have h1 : (']' :: r) <:+ s1 := (sub_names _ _ _ (namesText_ok h))
    obtain ⟨p, rfl⟩ := h1
    exact ⟨'[' :: ((if neg then ['^'] else []) ++ p), ']', by simp, by simp⟩
  | group e =>
    obtain ⟨s1, s2, s3, rfl, hg, he, hg'⟩ := h
    have h2 : s3 <:+ s2 := by
      have hsol : Solid (')' :: r) := solid_cons (by unfold Blank1; decide) (by decide)
      exact sub_nfaExpr _ _ _ _ (alt_ok e _ s2 s3 he (Nat.lt_succ_self _)
        ⟨_, hg', hsol, by rintro ⟨c, t, h, hc⟩; cases h; simp at hc⟩)
    obtain ⟨p, hp⟩ := (gap_suffix hg').trans (h2.trans (gap_suffix hg))
    exact ⟨'(' :: p, ')', by simp [← hp], by simp⟩

theorem behind_un {u : SUn String} {s r : List Char} (h : u.Text s r) : Behind s r := by
  cases u with
  | mk v p =>
    obtain ⟨pre, c, h1, h2⟩ := behind_val (show v.Text s (Post.text p ++ r) from h)
    cases p with
    | none => exact ⟨pre, c, h1, h2⟩
    | some p =>
      cases p
      · exact ⟨pre ++ [c], '*', by simp [h1, Post.text], by simp⟩
      · exact ⟨pre ++ [c], '+', by simp [h1, Post.text], by simp⟩
      · exact ⟨pre ++ [c], '?', by simp [h1, Post.text], by simp⟩

theorem Behind.suffix {s t r : List Char} (h : Behind t r) (hs : t <:+ s) : Behind s r := by
  obtain ⟨pre, c, rfl, hc⟩ := h
  obtain ⟨p, rfl⟩ := hs
  exact ⟨p ++ pre, c, by simp, hc⟩

theorem behind_seq (q : SSeq String) : ∀ {s r : List Char}, q.Text s r → Behind s r := by
  match q with
  | .one u => intro s r h; exact behind_un h
  | .more u q =>
    rintro s r ⟨s1, s2, hu, hg, hq⟩
    have h1 := behind_un hu
    have h2 : s1 <:+ s := by
      obtain ⟨pre, c, rfl, -⟩ := h1
      exact ⟨pre ++ [c], by simp⟩
    exact (behind_seq q hq).suffix ((gap_suffix hg).trans h2)

/-- An expression that is read is there, unless it stops before a `|` that nothing follows. -/
def SoundE (e : PRule NAct) : Prop := ∀ s r l, e s = .ok r l →
  (∃ a : SAlt String, a.Text s r ∧ l = a.log) ∨ (DanglingBar s ∧ ∃ t, Gap r ('|' :: t))

/-- If there is no such `|`, what happens before an exception is the beginning of what happens for an expression. -/
def SafeE (e : PRule NAct) : Prop := ∀ s l, e s = .throw l → ¬ DanglingBar s → ∃ a : SAlt String, l <+: a.log

theorem gap_solid_eq {s r : List Char} (h : Gap s r) (hs : Solid s) : s = r := by
  cases h with
  | nil => rfl
  | blank hb _ => exact absurd hb (hs _ _ rfl).1
  | comment _ _ => exact absurd rfl (hs _ _ rfl).2
  | last _ => exact absurd rfl (hs _ _ rfl).2

theorem gap_unique {s r t : List Char} (h : Gap s r) (hr : Solid r) (h' : Gap s t) (ht : Solid t) : r = t := by
  have h1 := skip_eq (A := NAct) h hr
  rw [skip_eq h' ht] at h1
  cases h1; rfl

theorem set_inv {s r : List Char} {l : List NAct} (h : labelSet s = .ok r l) :
    ∃ neg x ls, (SVal.set neg x ls).Text s r ∧ l = (SVal.set neg x ls).log := by
  replace h := act_inv h
  obtain ⟨k, h, rfl⟩ := h
  obtain ⟨m, l1, l2, h1, h2, rfl⟩ := seq_inv h
  clear h
  obtain ⟨rfl, rfl⟩ := one_inv h1
  obtain ⟨m2, l3, l4, h3, h4, rfl⟩ := seq_inv h2
  obtain ⟨m3, l5, l6, h5, h6, rfl⟩ := seq_inv h4
  obtain ⟨rfl, rfl⟩ := one_inv (must_inv h6)
  obtain ⟨ls, hls, rfl⟩ := labels_inv (must_inv h5)
  obtain ⟨neg, hm, hl⟩ : ∃ neg : Bool, m = (if neg then ['^'] else []) ++ m2 ∧ l3 = if neg then [.neg] else [] := by
    rcases opt_inv (must_inv h3) with h | ⟨rfl, h⟩
    · replace h := act_inv h
      obtain ⟨k, h, rfl⟩ := h
      obtain ⟨rfl, rfl⟩ := one_inv h
      exact ⟨true, rfl, rfl⟩
    · exact ⟨false, rfl, (one_fail_inv (act_fail_inv h)).1⟩
  cases ls with
  | nil => cases hls
  | cons x ls =>
    refine ⟨neg, x, ls, ⟨m2, by rw [hm], hls⟩, ?_⟩
    rw [hl]
    simp [SVal.log]

theorem set_throw_inv {s : List Char} {l : List NAct} (h : labelSet s = .throw l) :
    ∃ neg x ls, l <+: (SVal.set neg x ls).log := by
  replace h := seq_throw_inv (act_throw_inv h)
  rcases h with h | ⟨m, l1, l2, h1, h2, rfl⟩
  · exact absurd h one_not_throw
  obtain ⟨-, rfl⟩ := one_inv h1
  rcases seq_throw_inv h2 with h | ⟨m2, l3, l4, h3, h4, rfl⟩
  · rcases must_throw_inv h with h | h
    · exact absurd (act_throw_inv (opt_throw_inv h)) one_not_throw
    · exact absurd h opt_not_fail
  obtain ⟨neg, hl⟩ : ∃ neg : Bool, l3 = if neg then [.neg] else [] := by
    rcases opt_inv (must_inv h3) with h | ⟨rfl, h⟩
    · replace h := act_inv h
      obtain ⟨k, h, rfl⟩ := h
      obtain ⟨rfl, rfl⟩ := one_inv h
      exact ⟨true, rfl⟩
    · exact ⟨false, (one_fail_inv (act_fail_inv h)).1⟩
  rcases seq_throw_inv h4 with h | ⟨m3, l5, l6, h5, h6, rfl⟩
  · rcases must_throw_inv h with h | h
    · obtain ⟨x, ls, rfl⟩ := labels_throw_inv h
      refine ⟨neg, x, ls, ?_⟩
      rw [hl]
      exact ⟨[.set], by simp [SVal.log]⟩
    · have : l4 = [] := by
        replace h := seq_fail_inv h
        rcases h with h | ⟨m3, l5, l6, h5, h6, rfl⟩
        · exact label_fail_inv h
        · exact absurd h6 (star_not_fail shrinks_moreLabels)
      subst this
      refine ⟨neg, "", [], ?_⟩
      rw [hl]
      exact ⟨[.label "", .set], by simp [SVal.log]⟩
  · obtain ⟨ls, hls, rfl⟩ := labels_inv (must_inv h5)
    have : l6 = [] := by
      rcases must_throw_inv h6 with h | h
      · exact absurd h one_not_throw
      · exact (one_fail_inv h).1
    subst this
    cases ls with
    | nil => cases hls
    | cons x ls =>
      refine ⟨neg, x, ls, ?_⟩
      rw [hl]
      exact ⟨[.set], by simp [SVal.log]⟩

variable {e : PRule NAct}

theorem value_inv (hs : SoundE e) {s r : List Char} {l : List NAct} (h : value e s = .ok r l) :
    ∃ v : SVal String, v.Text s r ∧ l = v.log := by
  replace h := sor_inv h
  rcases h with h | ⟨l1, l2, h1, h, rfl⟩
  · replace h := act_inv h
    obtain ⟨k, h, rfl⟩ := h
    obtain ⟨rfl, rfl⟩ := one_inv h
    exact ⟨.dot, rfl, rfl⟩
  · rw [(one_fail_inv (act_fail_inv h1)).1, List.nil_append]
    replace h := sor_inv h
    rcases h with h | ⟨l3, l4, h3, h, rfl⟩
    · obtain ⟨m, k1, k2, h1, h2, rfl⟩ := seq_inv h
      replace h1 := act_inv h1
      obtain ⟨k, h1, rfl⟩ := h1
      obtain ⟨rfl, rfl⟩ := one_inv h1
      obtain ⟨m2, k3, k4, h3, h4, rfl⟩ := seq_inv h2
      replace h4 := act_inv (must_inv h4)
      obtain ⟨k, h4, rfl⟩ := h4
      obtain ⟨rfl, rfl⟩ := one_inv h4
      obtain ⟨t, u, hg, hsol, h5, hg', -⟩ := pad_one_inv (must_inv h3)
      rcases hs _ _ _ h5 with ⟨a, ha, rfl⟩ | ⟨-, t', hb⟩
      · exact ⟨.group a, ⟨m, t, u, rfl, hg, ha, hg'⟩, by simp [SVal.log, SAlt.log]⟩
      · have := gap_unique hg' (solid_cons (by unfold Blank1; decide) (by decide)) hb
          (solid_cons (by unfold Blank1; decide) (by decide))
        cases this
    · have : l3 = [] := by
        rcases seq_fail_inv h3 with h | ⟨m, k1, k2, -, h, -⟩
        · exact (one_fail_inv (act_fail_inv h)).1
        · rcases seq_fail_inv h with h | ⟨m, k1, k2, -, h, -⟩
          · exact absurd h must_not_fail
          · exact absurd h must_not_fail
      subst this
      obtain ⟨neg, x, ls, h1, h2⟩ := set_inv h
      exact ⟨_, h1, by simpa using h2⟩

theorem value_throw_inv (hs : SoundE e) (ht : SafeE e) {s : List Char} {l : List NAct} (hd : ¬ DanglingBar s)
    (hf : ∀ s l, e s = .fail l → l = []) (h : value e s = .throw l) : ∃ v : SVal String, l <+: v.log := by
  replace h := sor_throw_inv h
  rcases h with h | ⟨l1, l2, h1, h, rfl⟩
  · exact absurd (act_throw_inv h) one_not_throw
  · rw [(one_fail_inv (act_fail_inv h1)).1, List.nil_append]
    replace h := sor_throw_inv h
    rcases h with h | ⟨l3, l4, h3, h, rfl⟩
    · replace h := seq_throw_inv h
      rcases h with h | ⟨m, k1, k2, h1, h2, rfl⟩
      · exact absurd (act_throw_inv h) one_not_throw
      replace h1 := act_inv h1
      obtain ⟨k, h1, rfl⟩ := h1
      obtain ⟨rfl, rfl⟩ := one_inv h1
      have hsuf : ∀ t, Gap m t → ¬ DanglingBar t := fun t hg hb =>
        hd (DanglingBar.suffix hb ((gap_suffix hg).trans (List.suffix_cons _ _)))
      rcases seq_throw_inv h2 with h | ⟨m2, k3, k4, h3, h4, rfl⟩
      · rcases must_throw_inv h with h | h
        · obtain ⟨t, hg, -, h⟩ := pad_throw_inv h
          obtain ⟨a, x, ha⟩ := ht _ _ h (hsuf t hg)
          refine ⟨.group a, x ++ [.close], ?_⟩
          simp only [SVal.log, SAlt.log] at ha ⊢
          have : a.log0 ++ [NAct.alt, .close] = (a.log0 ++ [.alt]) ++ [.close] := by simp
          rw [this, ← ha]
          simp
        · obtain ⟨t, hg, -, h⟩ := pad_fail_inv h
          rw [hf _ _ h]
          exact ⟨.group (.one (.one (.mk .dot none))), _, rfl⟩
      · obtain ⟨t, u, hg, hsol, h5, hg', -⟩ := pad_one_inv (must_inv h3)
        rcases hs _ _ _ h5 with ⟨a, ha, rfl⟩ | ⟨hb, -⟩
        · have : k4 = [] := by
            rcases must_throw_inv h4 with h | h
            · exact absurd (act_throw_inv h) one_not_throw
            · exact (one_fail_inv (act_fail_inv h)).1
          subst this
          exact ⟨.group a, [.close], by simp [SVal.log, SAlt.log]⟩
        · exact absurd hb (hsuf t hg)
    · have : l3 = [] := by
        rcases seq_fail_inv h3 with h | ⟨m, k1, k2, -, h, -⟩
        · exact (one_fail_inv (act_fail_inv h)).1
        · rcases seq_fail_inv h with h | ⟨m, k1, k2, -, h, -⟩
          · exact absurd h must_not_fail
          · exact absurd h must_not_fail
      subst this
      obtain ⟨neg, x, ls, h2⟩ := set_throw_inv h
      exact ⟨_, by simpa using h2⟩

theorem postfix_fail_inv {s : List Char} {l : List NAct} (h : postfix_ s = .fail l) : l = [] := by
  obtain ⟨l1, l2, h1, h2, rfl⟩ := sor_fail_inv h
  obtain ⟨l3, l4, h3, h4, rfl⟩ := sor_fail_inv h2
  rw [(one_fail_inv (act_fail_inv h1)).1, (one_fail_inv (act_fail_inv h3)).1, (one_fail_inv (act_fail_inv h4)).1]
  rfl

theorem postfix_not_throw {s : List Char} {l : List NAct} : postfix_ s ≠ .throw l := by
  intro h
  rcases sor_throw_inv h with h | ⟨l1, l2, -, h, -⟩
  · exact one_not_throw (act_throw_inv h)
  · rcases sor_throw_inv h with h | ⟨l1, l2, -, h, -⟩
    · exact one_not_throw (act_throw_inv h)
    · exact one_not_throw (act_throw_inv h)

theorem postfix_inv {s r : List Char} {l : List NAct} (h : opt postfix_ s = .ok r l) :
    ∃ p : Option Post, s = Post.text p ++ r ∧ l = (p.map NAct.post).toList := by
  replace h := opt_inv h
  rcases h with h | ⟨rfl, h⟩
  · replace h := sor_inv h
    rcases h with h | ⟨l1, l2, h1, h, rfl⟩
    · replace h := act_inv h
      obtain ⟨k, h, rfl⟩ := h
      obtain ⟨rfl, rfl⟩ := one_inv h
      exact ⟨some .star, rfl, rfl⟩
    · rw [(one_fail_inv (act_fail_inv h1)).1]
      replace h := sor_inv h
      rcases h with h | ⟨l1, l2, h1, h, rfl⟩
      · replace h := act_inv h
        obtain ⟨k, h, rfl⟩ := h
        obtain ⟨rfl, rfl⟩ := one_inv h
        exact ⟨some .plus, rfl, rfl⟩
      · rw [(one_fail_inv (act_fail_inv h1)).1]
        replace h := act_inv h
        obtain ⟨k, h, rfl⟩ := h
        obtain ⟨rfl, rfl⟩ := one_inv h
        exact ⟨some .question, rfl, rfl⟩
  · exact ⟨none, rfl, postfix_fail_inv h⟩

theorem unary_inv (hs : SoundE e) {s r : List Char} {l : List NAct} (h : unary e s = .ok r l) :
    ∃ u : SUn String, u.Text s r ∧ l = u.log := by
  replace h := act_inv h
  obtain ⟨k, h, rfl⟩ := h
  obtain ⟨m, k1, k2, h1, h2, rfl⟩ := seq_inv h
  obtain ⟨v, hv, rfl⟩ := value_inv hs h1
  obtain ⟨p, rfl, rfl⟩ := postfix_inv h2
  exact ⟨.mk v p, hv, rfl⟩

theorem unary_throw_inv (hs : SoundE e) (ht : SafeE e) {s : List Char} {l : List NAct} (hd : ¬ DanglingBar s)
    (hf : ∀ s l, e s = .fail l → l = []) (h : unary e s = .throw l) : ∃ u : SUn String, l <+: u.log := by
  rcases seq_throw_inv (act_throw_inv h) with h | ⟨m, k1, k2, -, h, -⟩
  · obtain ⟨v, x, hv⟩ := value_throw_inv hs ht hd hf h
    exact ⟨.mk v none, x ++ [.unary], by simp [SUn.log, ← hv]⟩
  · exact absurd (opt_throw_inv h) postfix_not_throw

theorem seq_inv0 (he : Sub e) (hs : SoundE e) {s r : List Char} {l : List NAct}
    (h : Peg.seq (unary e) (Peg.star (moreUnary e)) s = .ok r l) : ∃ q : SSeq String, q.Text s r ∧ l = q.log0 := by
  obtain ⟨m, k1, k2, h1, h2, rfl⟩ := seq_inv h
  obtain ⟨u, hu, rfl⟩ := unary_inv hs h1
  refine star_ind (shrinks_moreUnary he) (Q := fun m r k => ∀ (u : SUn String) s, u.Text s m →
    ∃ q : SSeq String, q.Text s r ∧ u.log ++ k = q.log0) ?_ ?_ m r k2 h2 u s hu
  · intro s l h u t hu
    refine ⟨.one u, hu, ?_⟩
    replace h := seq_fail_inv h
    rcases h with h | ⟨m, k1, k2, h1, h, rfl⟩
    · exact absurd h skip_not_fail
    · rw [(skip_inv h1).1, (unary_fail_inv h).1]
      simp [SSeq.log0]
  · intro s m r k k' h _ ih u t hu
    obtain ⟨m', k1, k2, h1, h2, rfl⟩ := seq_inv h
    obtain ⟨rfl, hg, -⟩ := skip_inv h1
    obtain ⟨u', hu', rfl⟩ := unary_inv hs h2
    obtain ⟨q, hq, hk⟩ := ih u' m' hu'
    exact ⟨.more u q, ⟨s, m', hu, hg, hq⟩, by simp [SSeq.log0, ← hk]⟩

theorem seq_throw_inv0 (he : Sub e) (hs : SoundE e) (ht : SafeE e) (hf : ∀ s l, e s = .fail l → l = []) {s : List Char}
    {l : List NAct} (hd : ¬ DanglingBar s) (h : Peg.seq (unary e) (Peg.star (moreUnary e)) s = .throw l) :
    ∃ q : SSeq String, l <+: q.log0 := by
  replace h := seq_throw_inv h
  rcases h with h | ⟨m, k1, k2, h1, h2, rfl⟩
  · obtain ⟨u, hu⟩ := unary_throw_inv hs ht hd hf h
    exact ⟨.one u, hu⟩
  · obtain ⟨u, -, rfl⟩ := unary_inv hs h1
    have hdm : ¬ DanglingBar m := fun hb => hd (DanglingBar.suffix hb (sub_unary he _ _ _ h1))
    refine star_throw_ind (shrinks_moreUnary he) (Q := fun m k => ¬ DanglingBar m → ∀ u : SUn String,
      ∃ q : SSeq String, u.log ++ k <+: q.log0) ?_ ?_ m k2 h2 hdm u
    · intro s l h hd u
      replace h := seq_throw_inv h
      rcases h with h | ⟨m, k1, k2, h1, h, rfl⟩
      · exact absurd h skip_not_throw
      · obtain ⟨rfl, hg, -⟩ := skip_inv h1
        obtain ⟨u', x, hu'⟩ := unary_throw_inv hs ht (fun hb => hd (DanglingBar.suffix hb (gap_suffix hg))) hf h
        exact ⟨.more u (.one u'), x, by simp [SSeq.log0, ← hu']⟩
    · intro s m k k' h _ ih hd u
      have hdm : ¬ DanglingBar m := fun hb => hd (DanglingBar.suffix hb (sub_moreUnary he _ _ _ h))
      obtain ⟨m', k1, k2, h1, h2, rfl⟩ := seq_inv h
      obtain ⟨rfl, hg, -⟩ := skip_inv h1
      obtain ⟨u', hu', rfl⟩ := unary_inv hs h2
      obtain ⟨q, x, hq⟩ := ih hdm u'
      exact ⟨.more u q, x, by simp [SSeq.log0, ← hq]⟩

theorem seqExpr_inv (he : Sub e) (hs : SoundE e) {s r : List Char} {l : List NAct} (h : seqExpr e s = .ok r l) :
    ∃ q : SSeq String, q.Text s r ∧ l = q.log0 ++ [.seq] := by
  replace h := act_inv h
  obtain ⟨k, h, rfl⟩ := h
  obtain ⟨q, hq, rfl⟩ := seq_inv0 he hs h
  exact ⟨q, hq, rfl⟩

/-- Behind a `|` there is nothing to read. -/
theorem dangling_of {s' s t u : List Char} (hb : Behind s' s) (hg : Gap s ('|' :: t)) (hg' : Gap t u) (hu : Solid u) (h : ¬ Starts valueChars u) :
    DanglingBar s' := by
  obtain ⟨pre, c, hs, hc⟩ := hb
  refine ⟨pre, c, s, t, u, hs, hc, hg, hg', fun c r hc => ⟨(hu c r hc).1, ?_⟩⟩
  have h1 := (hu c r hc).2
  intro hm
  simp only [List.mem_cons, List.not_mem_nil, or_false] at hm
  rcases hm with hm | hm
  · exact h1 hm
  · exact h ⟨c, r, hc, by simpa using hm⟩

theorem alt_inv0 (he : Sub e) (hs : SoundE e) {s r : List Char} {l : List NAct}
    (h : Peg.seq (seqExpr e) (Peg.star (moreSeq e)) s = .ok r l) :
    (∃ a : SAlt String, a.Text s r ∧ l = a.log0) ∨ (DanglingBar s ∧ ∃ t, Gap r ('|' :: t)) := by
  obtain ⟨m, k1, k2, h1, h2, rfl⟩ := seq_inv h
  obtain ⟨q, hq, rfl⟩ := seqExpr_inv he hs h1
  have := star_ind (shrinks_moreSeq he) (Q := fun m r k => (∀ (q : SSeq String) s, q.Text s m →
    ∃ a : SAlt String, a.Text s r ∧ q.log0 ++ .seq :: k = a.log0) ∨ ((∀ s, Behind s m → DanglingBar s) ∧ ∃ t, Gap r ('|' :: t))) ?_ ?_ m r k2 h2
  · rcases this with this | ⟨hb, hr⟩
    · obtain ⟨a, ha, hk⟩ := this q s hq
      exact .inl ⟨a, ha, by simp [← hk]⟩
    · exact .inr ⟨hb s (behind_seq q hq), hr⟩
  · intro s l h
    replace h := seq_fail_inv h
    rcases h with h | ⟨m, k1, k2, h1, h2, rfl⟩
    · obtain ⟨t, -, -, h⟩ := pad_fail_inv h
      refine .inl fun q t hq => ⟨.one q, hq, ?_⟩
      rw [(one_fail_inv (act_fail_inv h)).1]
      rfl
    · obtain ⟨t, u, hg, -, h3, hg', hsol⟩ := pad_one_inv h1
      replace h3 := act_inv h3
      obtain ⟨k, h3, rfl⟩ := h3
      obtain ⟨rfl, -⟩ := one_inv h3
      exact .inr ⟨fun s' hb => dangling_of hb hg hg' hsol (seqExpr_fail_inv he h2).2, u, hg⟩
  · intro s m r k k' h _ ih
    rcases ih with ih | ⟨hb, hr⟩
    · obtain ⟨m', k1, k2, h1, h2, rfl⟩ := seq_inv h
      obtain ⟨t, u, hg, -, h3, hg', hsol⟩ := pad_one_inv h1
      replace h3 := act_inv h3
      obtain ⟨k3, h3, rfl⟩ := h3
      obtain ⟨rfl, rfl⟩ := one_inv h3
      obtain ⟨q', hq', rfl⟩ := seqExpr_inv he hs h2
      obtain ⟨a, ha, hk⟩ := ih q' m' hq'
      exact .inl fun q t hq => ⟨.more q a, ⟨s, u, m', hq, hg, hg', ha⟩, by simp [SAlt.log0, ← hk]⟩
    · obtain ⟨m', k1, k2, h1, h2, rfl⟩ := seq_inv h
      have hsub := sub_bar _ _ _ h1
      obtain ⟨q', hq', rfl⟩ := seqExpr_inv he hs h2
      refine .inr ⟨fun s' hs' => hb s' (((behind_seq q' hq').suffix hsub).suffix ?_), hr⟩
      obtain ⟨pre, c, rfl, -⟩ := hs'
      exact ⟨pre ++ [c], by simp⟩

theorem alt_throw_inv0 (he : Sub e) (hs : SoundE e) (ht : SafeE e) (hf : ∀ s l, e s = .fail l → l = []) {s : List Char}
    {l : List NAct} (hd : ¬ DanglingBar s) (h : Peg.seq (seqExpr e) (Peg.star (moreSeq e)) s = .throw l) :
    ∃ a : SAlt String, l <+: a.log0 := by
  replace h := seq_throw_inv h
  rcases h with h | ⟨m, k1, k2, h1, h2, rfl⟩
  · obtain ⟨q, x, hq⟩ := seq_throw_inv0 he hs ht hf hd (act_throw_inv h)
    exact ⟨.one q, x ++ [.seq], by simp [SAlt.log0, ← hq]⟩
  · have hdm : ¬ DanglingBar m := fun hb => hd (DanglingBar.suffix hb (sub_seqExpr he _ _ _ h1))
    obtain ⟨q, -, rfl⟩ := seqExpr_inv he hs h1
    have := star_throw_ind (shrinks_moreSeq he) (Q := fun m k => ¬ DanglingBar m → ∀ q : SSeq String,
      ∃ a : SAlt String, q.log0 ++ .seq :: k <+: a.log0) ?_ ?_ m k2 h2 hdm q
    · simpa using this
    · intro s l h hd q
      replace h := seq_throw_inv h
      rcases h with h | ⟨m, k1, k2, h1, h2, rfl⟩
      · obtain ⟨t, -, -, h⟩ := pad_throw_inv h
        exact absurd (act_throw_inv h) one_not_throw
      · have hsub := sub_bar _ _ _ h1
        obtain ⟨t, u, hg, -, h3, hg', hsol⟩ := pad_one_inv h1
        replace h3 := act_inv h3
        obtain ⟨k, h3, rfl⟩ := h3
        obtain ⟨rfl, rfl⟩ := one_inv h3
        obtain ⟨q', x, hq'⟩ := seq_throw_inv0 he hs ht hf (fun hb => hd (DanglingBar.suffix hb hsub)) (act_throw_inv h2)
        exact ⟨.more q (.one q'), x ++ [.seq], by simp [SAlt.log0, ← hq']⟩
    · intro s m k k' h _ ih hd q
      have hdm : ¬ DanglingBar m := fun hb => hd (DanglingBar.suffix hb (sub_moreSeq he _ _ _ h))
      obtain ⟨m', k1, k2, h1, h2, rfl⟩ := seq_inv h
      obtain ⟨t, u, hg, -, h3, hg', hsol⟩ := pad_one_inv h1
      replace h3 := act_inv h3
      obtain ⟨k3, h3, rfl⟩ := h3
      obtain ⟨rfl, rfl⟩ := one_inv h3
      obtain ⟨q', hq', rfl⟩ := seqExpr_inv he hs h2
      obtain ⟨a, x, hk⟩ := ih hdm q'
      exact ⟨.more q a, x, by simp [SAlt.log0, ← hk]⟩

theorem soundE (n : Nat) : SoundE (nfaExpr n) := by
  induction n with
  | zero => intro s r l h; simp [nfaExpr] at h
  | succ n ih =>
    intro s r l h
    replace h := act_inv h
    obtain ⟨k, h, rfl⟩ := h
    replace h := alt_inv0 (sub_nfaExpr n) ih h
    rcases h with ⟨a, ha, rfl⟩ | h
    · exact .inl ⟨a, ha, rfl⟩
    · exact .inr h

theorem safeE (n : Nat) : SafeE (nfaExpr n) := by
  induction n with
  | zero =>
    intro s l h _
    simp only [nfaExpr, Peg.throw.injEq] at h
    exact ⟨.one (.one (.mk .dot none)), by rw [← h]; exact List.nil_prefix⟩
  | succ n ih =>
    intro s l h hd
    obtain ⟨a, x, ha⟩ := alt_throw_inv0 (sub_nfaExpr n) (soundE n) ih (fun s l h => (nfaExpr_fail_inv h).1) hd (act_throw_inv h)
    exact ⟨a, x ++ [.alt], by simp [SAlt.log, ← ha]⟩

end Verif.RegexText
