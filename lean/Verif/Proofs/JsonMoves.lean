import Verif.Proofs.JsonDoc

/-! # Lemmas for reading a printed PDA: its moves -/

namespace Verif.Json

variable {L W : Type} [LinearOrder W] [Inhabited L]

/-- The label occurs in a stored rule that is printed: it is listed, or it is the operand of a PUSH or SWAP. -/
def Used (t : TPda L W) (l : L) : Prop :=
  ∃ i, ∃ e ∈ (t.core.st i).rules,
    (e.2.wildcard = false ∧ ∃ g ∈ e.2.labels, t.symbol g = l) ∨
    ((e.2.wildcard = true ∨ e.2.labels ≠ []) ∧ (e.1.op = .push ∨ e.1.op = .swap) ∧ t.symbol e.1.opLabel = l)

variable {str : L → String} {t : TPda L W}

omit [LinearOrder W] in
theorem symbol_mem {i : Nat} (h : i < t.labels.length) : t.symbol i ∈ t.labels ∧ t.labels[i]? = some (t.symbol i) := by
  unfold TPda.symbol
  rw [List.getElem?_eq_getElem h]
  simp

omit [LinearOrder W] in
theorem symbol_of {p : TPda L W} {i : Nat} {l : L} (h : p.labels[i]? = some l) : p.symbol i = l := by
  unfold TPda.symbol; rw [h]; rfl

theorem mem_pairs (s : PState W) (q : Rule W × String) : q ∈ pairs str t s ↔ ∃ e ∈ s.rules, e.1 = q.1 ∧
    ((e.2.wildcard = true ∧ q.2 = "*") ∨ (e.2.wildcard = false ∧ ∃ g ∈ e.2.labels, q.2 = str (t.symbol g))) := by
  unfold pairs jlabels
  simp only [List.mem_flatMap, List.mem_map]
  constructor
  · rintro ⟨e, he, k, hk, rfl⟩
    refine ⟨e, he, rfl, ?_⟩
    cases hw : e.2.wildcard with
    | true => rw [hw] at hk; simp only [if_true, List.mem_singleton] at hk; exact .inl ⟨rfl, hk⟩
    | false =>
      rw [hw] at hk
      simp only [Bool.false_eq_true, if_false, List.mem_map] at hk
      obtain ⟨g, hg, rfl⟩ := hk
      exact .inr ⟨rfl, g, hg, rfl⟩
  · rintro ⟨e, he, h1, h2⟩
    refine ⟨e, he, q.2, ?_, by rw [h1]⟩
    rcases h2 with ⟨hw, hk⟩ | ⟨hw, g, hg, hk⟩
    · rw [hw]; simp [hk]
    · rw [hw]; simp only [Bool.false_eq_true, if_false, List.mem_map]; exact ⟨g, hg, hk.symm⟩

theorem lFin_iff (hwf : t.core.WF) (hstar : ∀ a ∈ t.labels, str a ≠ "*") (l : String) : LFin str t l ↔ ∃ a, Used t a ∧ l = str a := by
  constructor
  · rintro ⟨i, q, hq, hl⟩
    obtain ⟨e, he, h1, h2⟩ := (mem_pairs _ q).1 hq
    have hprinted : e.2.wildcard = true ∨ e.2.labels ≠ [] := by
      rcases h2 with ⟨hw, _⟩ | ⟨_, g, hg, _⟩
      · exact .inl hw
      · exact .inr (List.ne_nil_of_mem hg)
    have hkey : q.2 ≠ "*" → ∃ a, Used t a ∧ q.2 = str a := by
      intro hk
      rcases h2 with ⟨_, h⟩ | ⟨hw, g, hg, h⟩
      · exact absurd h hk
      · exact ⟨_, ⟨i, e, he, .inl ⟨hw, g, hg, rfl⟩⟩, h⟩
    rcases hl with ⟨hk, rfl⟩ | ⟨ho, rfl⟩
    · exact hkey hk
    · unfold labOf normOp at *
      rw [← h1] at ho ⊢
      cases hop : e.1.op with
      | pop => rw [hop] at ho; simp at ho
      | push => exact ⟨_, ⟨i, e, he, .inr ⟨hprinted, .inl hop, rfl⟩⟩, rfl⟩
      | swap => exact ⟨_, ⟨i, e, he, .inr ⟨hprinted, .inr hop, rfl⟩⟩, rfl⟩
      | noop =>
        rw [hop] at ho
        simp only at ho ⊢
        exact hkey fun hk => by simp [hk] at ho
  · rintro ⟨a, ⟨i, e, he, h⟩, rfl⟩
    rcases h with ⟨hw, g, hg, rfl⟩ | ⟨hp, ho, rfl⟩
    · have hm := (symbol_mem (t := t) (hwf.labLt i e he g hg)).1
      exact ⟨i, (e.1, str (t.symbol g)), (mem_pairs _ _).2 ⟨e, he, rfl, .inr ⟨hw, g, hg, rfl⟩⟩, .inl ⟨hstar _ hm, rfl⟩⟩
    · have hm := (symbol_mem (t := t) (hwf.opLt i e he ho)).1
      have hk : ∃ k, (e.1, k) ∈ pairs str t (t.core.st i) := by
        cases hw : e.2.wildcard with
        | true => exact ⟨"*", (mem_pairs _ _).2 ⟨e, he, rfl, .inl ⟨hw, rfl⟩⟩⟩
        | false =>
          rw [hw] at hp
          obtain ⟨g, hg⟩ := List.exists_mem_of_ne_nil _ (hp.resolve_left (by simp))
          exact ⟨_, (mem_pairs _ _).2 ⟨e, he, rfl, .inr ⟨hw, g, hg, rfl⟩⟩⟩
      obtain ⟨k, hk⟩ := hk
      refine ⟨i, (e.1, k), hk, .inr ?_⟩
      unfold labOf normOp
      rcases ho with ho | ho
      · simp [ho]
      · simp [ho, hstar _ hm]

omit [Inhabited L] in
theorem covers_has {p : TPda L W} (hwf : p.core.WF) (u : URule W) :
    p.core.Has u ↔ Covers p.core u.src u.pre (Pda.toImpl u) ∧ u.pre < p.labels.length := by
  rw [Pda.Has_iff]
  unfold Covers
  constructor
  · rintro ⟨l, h1, h2⟩
    obtain ⟨h3, h4⟩ := (hwf.mem_expand h1 u.pre).1 h2
    exact ⟨⟨l, h1, (Labels.contains_iff (hwf.labWF _ _ h1) _).1 h3⟩, h4⟩
  · rintro ⟨⟨l, h1, h2⟩, h3⟩
    exact ⟨l, h1, (hwf.mem_expand h1 u.pre).2 ⟨(Labels.contains_iff (hwf.labWF _ _ h1) _).2 h2, h3⟩⟩

theorem lFin_known (hwf : t.core.WF) (hstar : ∀ a ∈ t.labels, str a ≠ "*") (l : String) (h : LFin str t l) :
    ∃ g < t.labels.length, l = str (t.symbol g) := by
  obtain ⟨a, ⟨j, e', he', h⟩, hl⟩ := (lFin_iff hwf hstar _).1 h
  rcases h with ⟨_, g, hg, rfl⟩ | ⟨_, ho, rfl⟩
  · exact ⟨g, hwf.labLt j e' he' g hg, hl⟩
  · exact ⟨e'.1.opLabel, hwf.opLt j e' he' ho, hl⟩

theorem moves_read_more (hwf : t.core.WF) (hstar : ∀ a ∈ t.labels, str a ≠ "*") {ref : Nat → JVal} {p : NPda String String W}
    {N Lb : String → Prop} (hLb : ∀ l, Lb l → ∃ g < t.labels.length, l = str (t.symbol g)) (hp : JInv N p (DFin str ref t) Lb) (a : Nat) (l : String) (w : W) (b : Nat) (repl : List String) :
    (∃ r' ∈ p.toTPda.allRules, r'.src = a ∧ r'.pre = l ∧ r'.weight = w ∧ r'.dst = b ∧ replacement r'.op r'.opLabel r'.pre = repl) ↔
    l ∈ p.labels ∧ ∃ r ∈ t.allRules, Ref p.names (ref r.src) a ∧ Ref p.names (ref r.dst) b ∧ l = str r.pre ∧ w = r.weight ∧
      repl = (replacement r.op r.opLabel r.pre).map str := by
  constructor
  · rintro ⟨r', hr', rfl, rfl, rfl, rfl, rfl⟩
    obtain ⟨u, hu, rfl⟩ := (TPda.mem_allRules p.toTPda r').1 hr'
    obtain ⟨hc, hlt⟩ := (covers_has hp.wf u).1 hu
    obtain ⟨d, ⟨i, q, hq, rfl⟩, s1, s2, s3, s4, s5, s6⟩ := (hp.cov _ _ _).1 hc
    obtain ⟨e, he, e1, e2⟩ := (mem_pairs _ q).1 hq
    obtain ⟨hm1, hm2⟩ := symbol_mem (t := p.toTPda) hlt
    refine ⟨hm1, ?_⟩
    -- the label in `t`
    have hg : ∃ g < t.labels.length, (e.2.wildcard = true ∨ g ∈ e.2.labels) ∧ p.toTPda.symbol u.pre = str (t.symbol g) ∧
        (e.2.wildcard = false → q.2 = str (t.symbol g)) := by
      rcases e2 with ⟨hw, hk⟩ | ⟨hw, g, hg, hk⟩
      · obtain ⟨g, hg, hl⟩ := hLb _ ((hp.lbl _).1 hm1)
        exact ⟨g, hg, .inl hw, hl, fun h' => by rw [hw] at h'; cases h'⟩
      · have hgl := hwf.labLt i e he g hg
        refine ⟨g, hgl, .inr hg, ?_, fun _ => hk⟩
        rcases s6 with h6 | h6
        · exact absurd (hk.symm.trans h6) (hstar _ (symbol_mem (t := t) hgl).1)
        · rw [symbol_of h6]; exact hk
    obtain ⟨g, hgl, hgc, hgs, hgk⟩ := hg
    have hhas : t.core.Has ⟨i, g, e.1.to, e.1.op, e.1.opLabel, e.1.weight⟩ := by
      rw [covers_has hwf]
      exact ⟨⟨e.2, he, hgc⟩, hgl⟩
    refine ⟨_, (TPda.mem_allRules t _).2 ⟨_, hhas, rfl⟩, s1, ?_, hgs, ?_, ?_⟩
    · have : (dOf str ref t (ref i) q.2 q.1).dst = ref e.1.to := by rw [← e1.symm]; rfl
      rw [this] at s2; exact s2
    · show u.weight = e.1.weight
      have h4 : u.weight = q.1.weight := s4
      rw [h4, e1]
    · show replacement u.op (if u.op = .pop ∨ u.op = .noop then default else p.toTPda.symbol u.opLabel) (p.toTPda.symbol u.pre) =
        (replacement e.1.op (if e.1.op = .pop ∨ e.1.op = .noop then default else t.symbol e.1.opLabel) (t.symbol g)).map str
      have h3 : u.op = normOp q.2 e.1.op (labOf str t q.2 e.1) := by
        have : u.op = normOp q.2 q.1.op (labOf str t q.2 q.1) := s3
        rw [this, e1]
      have h5 : Operand p.labels (normOp q.2 e.1.op (labOf str t q.2 e.1)) (labOf str t q.2 e.1) u.opLabel := by
        have : Operand p.labels (normOp q.2 q.1.op (labOf str t q.2 q.1)) (labOf str t q.2 q.1) u.opLabel := s5
        rw [← e1] at this; exact this
      rw [hgs, h3]
      have hos : e.1.op = .swap → str (t.symbol e.1.opLabel) ≠ "*" := fun ho =>
        hstar _ (symbol_mem (t := t) (hwf.opLt i e he (.inr ho))).1
      clear s1 s2 s3 s4 s5 s6 h3
      cases hop : e.1.op with
      | pop => simp [normOp, replacement]
      | push =>
        simp only [hop, labOf, normOp, Operand, true_or, if_true] at h5
        simp [normOp, replacement, labOf, hop, symbol_of h5]
      | swap =>
        have hn : normOp q.2 .swap (labOf str t q.2 e.1) = .swap := by simp [normOp, labOf, hop, hos hop]
        rw [hop, hn] at h5
        simp only [hop, labOf, Operand, or_true, if_true] at h5
        rw [hn]
        simp [replacement, symbol_of h5]
      | noop =>
        by_cases hk : q.2 = "*"
        · have hn : normOp q.2 .noop (labOf str t q.2 e.1) = .noop := by simp [normOp, labOf, hop, hk]
          rw [hn]; simp [replacement]
        · have hw : e.2.wildcard = false := by
            rcases e2 with ⟨_, h⟩ | ⟨h, _⟩
            · exact absurd h hk
            · exact h
          have hn : normOp q.2 .noop (labOf str t q.2 e.1) = .swap := by simp [normOp, hk]
          rw [hop, hn] at h5
          simp only [hop, labOf, Operand, or_true, if_true] at h5
          rw [hn]
          simp [replacement, symbol_of h5, hgk hw]
  · rintro ⟨hl, r, hr, ha, hb, rfl, rfl, rfl⟩
    obtain ⟨u, hu, rfl⟩ := (TPda.mem_allRules t r).1 hr
    obtain ⟨⟨ls, hls, hcov⟩, hlt⟩ := (covers_has hwf u).1 hu
    have hl' : str (t.symbol u.pre) ∈ p.labels := hl
    obtain ⟨g, hg⟩ := List.getElem?_of_mem hl'
    have hglt := (List.getElem?_eq_some_iff.1 hg).1
    -- the key under which the rule is printed
    have hk : ∃ k, (Pda.toImpl u, k) ∈ pairs str t (t.core.st u.src) ∧ (k = "*" ∨ k = str (t.symbol u.pre)) := by
      cases hw : ls.wildcard with
      | true => exact ⟨"*", (mem_pairs _ _).2 ⟨_, hls, rfl, .inl ⟨hw, rfl⟩⟩, .inl rfl⟩
      | false =>
        rw [hw] at hcov
        have hm := hcov.resolve_left (by simp)
        exact ⟨_, (mem_pairs _ _).2 ⟨_, hls, rfl, .inr ⟨hw, u.pre, hm, rfl⟩⟩, .inr rfl⟩
    obtain ⟨k, hkp, hkk⟩ := hk
    have hD : DFin str ref t (dOf str ref t (ref u.src) k (Pda.toImpl u)) := ⟨u.src, _, hkp, rfl⟩
    have hop : ∃ x, Operand p.labels (normOp k u.op (labOf str t k (Pda.toImpl u))) (labOf str t k (Pda.toImpl u)) x := by
      unfold Operand
      split
      · rename_i ho
        obtain ⟨x, hx⟩ := List.getElem?_of_mem (hp.labK _ hD ho)
        exact ⟨x, hx⟩
      · exact ⟨_, rfl⟩
    obtain ⟨x, hx⟩ := hop
    have hhas : p.toTPda.core.Has ⟨a, g, b, normOp k u.op (labOf str t k (Pda.toImpl u)), x, u.weight⟩ := by
      rw [covers_has hp.wf]
      refine ⟨(hp.cov _ _ _).2 ⟨_, hD, ha, hb, rfl, rfl, hx, ?_⟩, hglt⟩
      rcases hkk with h | h
      · exact .inl h
      · right; show p.labels[g]? = some k; rw [h]; exact hg
    refine ⟨_, (TPda.mem_allRules _ _).2 ⟨_, hhas, rfl⟩, rfl, symbol_of hg, rfl, rfl, ?_⟩
    show replacement (normOp k u.op (labOf str t k (Pda.toImpl u)))
        (if normOp k u.op (labOf str t k (Pda.toImpl u)) = .pop ∨ normOp k u.op (labOf str t k (Pda.toImpl u)) = .noop then default else p.toTPda.symbol x)
        (p.toTPda.symbol g) =
      (replacement u.op (if u.op = .pop ∨ u.op = .noop then default else t.symbol u.opLabel) (t.symbol u.pre)).map str
    rw [symbol_of hg]
    have hos : u.op = .swap → str (t.symbol u.opLabel) ≠ "*" := fun ho =>
      hstar _ (symbol_mem (t := t) (hwf.opLt u.src _ hls (.inr ho))).1
    have hio : (Pda.toImpl u).op = u.op := rfl
    have hil : (Pda.toImpl u).opLabel = u.opLabel := rfl
    cases hop : u.op with
    | pop => simp [normOp, replacement]
    | push =>
      rw [hop] at hx
      simp only [hio, hil, hop, labOf, normOp, Operand, true_or, if_true] at hx
      simp [normOp, replacement, symbol_of hx]
    | swap =>
      have hn : normOp k .swap (labOf str t k (Pda.toImpl u)) = .swap := by simp [normOp, labOf, hio, hil, hop, hos hop]
      rw [hop, hn] at hx
      simp only [hio, hil, hop, labOf, Operand, or_true, if_true] at hx
      rw [hn]
      simp [replacement, symbol_of hx]
    | noop =>
      by_cases hks : k = "*"
      · have hn : normOp k .noop (labOf str t k (Pda.toImpl u)) = .noop := by simp [normOp, labOf, hio, hop, hks]
        rw [hn]; simp [replacement]
      · have hn : normOp k .noop (labOf str t k (Pda.toImpl u)) = .swap := by simp [normOp, hks]
        rw [hop, hn] at hx
        simp only [hio, hop, labOf, Operand, or_true, if_true] at hx
        rw [hn]
        simp [replacement, symbol_of hx, hkk.resolve_left hks]

theorem moves_read (hwf : t.core.WF) (hstar : ∀ a ∈ t.labels, str a ≠ "*") {ref : Nat → JVal} {p : NPda String String W}
    {N : String → Prop} (hp : JInv N p (DFin str ref t) (LFin str t)) (a : Nat) (l : String) (w : W) (b : Nat) (repl : List String) :
    (∃ r' ∈ p.toTPda.allRules, r'.src = a ∧ r'.pre = l ∧ r'.weight = w ∧ r'.dst = b ∧ replacement r'.op r'.opLabel r'.pre = repl) ↔
    l ∈ p.labels ∧ ∃ r ∈ t.allRules, Ref p.names (ref r.src) a ∧ Ref p.names (ref r.dst) b ∧ l = str r.pre ∧ w = r.weight ∧
      repl = (replacement r.op r.opLabel r.pre).map str :=
  moves_read_more hwf hstar (lFin_known hwf hstar) hp a l w b repl

/-- More labels. -/
theorem JInv.more {p p' : NPda String String W} {D : DRule W → Prop} {N Lb : String → Prop} (h : JInv N p D Lb) (hs : p'.states = p.states)
    (hm : p'.names = p.names) (hl : p.labels <+: p'.labels) (hn : p'.labels.Nodup) : JInv N p' D (· ∈ p'.labels) := by
  obtain ⟨more, hl⟩ := hl
  have hcov : ∀ s g x, Covers p'.core s g x ↔ Covers p.core s g x := by
    intro s g x
    unfold Covers
    have : p'.core.st s = p.core.st s := by unfold Pda.st TPda.core; rw [hs]
    rw [this]
  have hn' : (p.labels ++ more).Nodup := by rw [hl]; exact hn
  refine ⟨hn, ?_, by rw [hm]; exact h.names, fun _ => Iff.rfl, fun d hd => ?_, fun d hd ho => ?_, by rw [hm]; exact h.srcK, by rw [hm]; exact h.dstK, ?_,
    by rw [hm]; exact h.only, ?_⟩
  · have := wf_more h.wf (n := p'.labels.length) (by rw [← hl]; simp [TPda.core])
    unfold TPda.core at *
    rw [hs]
    exact this
  · rw [← hl]
    exact (h.keyK d hd).imp id (List.mem_append_left _)
  · rw [← hl]
    exact List.mem_append_left _ (h.labK d hd ho)
  · intro s g x
    rw [hcov, h.cov]
    refine exists_congr fun d => and_congr_right fun hd => ?_
    unfold Stored
    rw [hm, ← hl, Operand.append hn' (h.labK d hd)]
    refine and_congr_right fun _ => and_congr_right fun _ => and_congr_right fun _ => and_congr_right fun _ => and_congr_right fun _ => ?_
    rcases h.keyK d hd with h7 | h7
    · simp [h7]
    · rw [getElem?_append_mem _ hn' h7]
  · rw [hm, hs]
    simp only [hcov]
    exact h.size

end Verif.Json
