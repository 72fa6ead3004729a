import Verif.Proofs.ReducerSat

/-! # The Reducer: pruning by the approximation, and `reduce` as a whole -/

namespace Verif

variable {W : Type}

namespace Reducer

/-! ## `labels_t::intersect` -/

theorem intersect_spec {n : Nat} {l : Labels} {tos : List Nat} (hl : LabOK n l) (ht : SSorted tos)
    (htn : ∀ x ∈ tos, x < n) :
    LabOK n (l.intersect tos n).1 ∧
    (∀ g ∈ expandN n (l.intersect tos n).1, g ∈ expandN n l) ∧
    (∀ g ∈ expandN n l, g ∈ tos → g ∈ expandN n (l.intersect tos n).1 ∧ (l.intersect tos n).2 = true) := by
  have hne : ∀ (l : Labels) (g : Nat), g ∈ expandN n l → (!l.isEmpty) = true := by
    rintro ⟨wc, ls⟩ g hg
    cases wc
    · cases ls with
      | nil => simp [expandN] at hg
      | cons a as => rfl
    · rfl
  unfold Labels.intersect
  by_cases h : tos.length = n
  · simp only [if_pos h]
    exact ⟨hl, fun _ h => h, fun g hg _ => ⟨hg, hne l g hg⟩⟩
  · simp only [if_neg h]
    rcases l with ⟨wc, ls⟩
    cases wc
    · have hm := fun x => intersectLoop_mem ls tos hl.strict.wsorted ht.wsorted x
      simp only [Bool.false_eq_true, if_false]
      refine ⟨⟨hl.strict.sublist (intersectLoop_sublist _ _),
        fun g hg => hl.lt g ((intersectLoop_sublist _ _).subset hg), by simp⟩, fun g hg => ?_, fun g hg hgt => ?_⟩
      · simp only [expandN, Bool.false_eq_true, if_false] at hg ⊢
        exact ((hm g).1 hg).1
      · have : g ∈ expandN n ⟨false, Labels.intersectLoop ls tos⟩ := by
          simp only [expandN, Bool.false_eq_true, if_false] at hg ⊢
          exact (hm g).2 ⟨hg, hgt⟩
        exact ⟨this, hne _ g this⟩
    · simp only [if_true]
      refine ⟨⟨ht, htn, by simp⟩, fun g hg => ?_, fun g hg hgt => ?_⟩
      · simp only [expandN, Bool.false_eq_true, if_false, if_true] at hg ⊢
        exact List.mem_range.2 (htn g hg)
      · have : g ∈ expandN n ⟨false, tos⟩ := by
          simp only [expandN, Bool.false_eq_true, if_false]; exact hgt
        exact ⟨this, hne _ g this⟩

theorem intersect_nil {n : Nat} (hn : 0 < n) (l : Labels) : (l.intersect [] n).2 = false := by
  unfold Labels.intersect
  rw [if_neg (by simp; omega)]
  rcases l with ⟨wc, ls⟩
  cases wc
  · have : Labels.intersectLoop ls [] = [] := by
      cases ls with
      | nil => rfl
      | cons a as => simp [Labels.intersectLoop]
    simp [this, Labels.isEmpty]
  · simp [Labels.isEmpty]

theorem keepRules_narrow {n term : Nat} {tos : List Nat} (ht : SSorted tos) (htn : ∀ x ∈ tos, x < n)
    (rules : VMap (Rule W) Labels) (hl : ∀ e ∈ rules, LabOK n e.2) :
    List.SublistForall₂ (Narrower n) (keepRules term tos n rules) rules ∧
    ∀ x ∈ keepRules term tos n rules, LabOK n x.2 := by
  induction rules with
  | nil => exact ⟨List.SublistForall₂.nil, by simp [keepRules]⟩
  | cons e es ih =>
    obtain ⟨h1, h2⟩ := ih fun x hx => hl x (by simp [hx])
    obtain ⟨h3, h4, _⟩ := intersect_spec (hl e (by simp)) ht htn
    unfold keepRules at *
    rw [List.filterMap_cons]
    by_cases ht : e.1.to = term
    · simp only [if_pos ht]
      refine ⟨List.SublistForall₂.cons ⟨rfl, fun _ h => h⟩ h1, fun x hx => ?_⟩
      rcases List.mem_cons.1 hx with rfl | hx
      · exact hl _ (by simp)
      · exact h2 x hx
    · simp only [if_neg ht]
      by_cases hk : (e.2.intersect tos n).2 = true
      · simp only [if_pos hk]
        refine ⟨List.SublistForall₂.cons ⟨rfl, h4⟩ h1, fun x hx => ?_⟩
        rcases List.mem_cons.1 hx with rfl | hx
        · exact h3
        · exact h2 x hx
      · simp only [if_neg hk]
        exact ⟨List.SublistForall₂.cons_right h1, h2⟩

section
variable [LinearOrder W]

/-- The rules of the run are not removed by the approximation. -/
def Good (a : Sat) (init term : Nat) (rs : List (URule W)) : Prop :=
  ∀ r ∈ rs, r.dst = term ∨ r.src = init ∨ r.pre ∈ (a.at r.src).tos

/-- The terminal state survives the pruning loop. -/
def Safe (p : Pda W) (init term : Nat) : Prop :=
  term = 0 ∨ term = init ∨ ∃ x ∈ (p.st term).rules, x.1.to = term

theorem clear_runs {p : Pda W} (hp : OK p) {i term : Nat} (hi : i ≠ term) (he : (p.st i).rules = [])
    {c : Config} {rs : List (URule W)} {w' : List Nat} (hr : Run c rs (term, w')) (hu : Uses p term rs) :
    Uses (p.clearState i) term rs := by
  have hsrc : ∀ r, p.Has r → r.src ≠ i := by
    intro r hr h
    obtain ⟨l, h1, _⟩ := (Pda.Has_iff _ r).1 hr
    rw [h, he] at h1; cases h1
  generalize hd : (term, w') = d at hr
  induction hr with
  | nil c => intro r hr; cases hr
  | cons r w rs c h ih =>
    subst hd
    have hu' : Uses p term rs := fun r hr => hu r (by simp [hr])
    have h1 := hu r (by simp)
    intro r' hr'
    rcases List.mem_cons.1 hr' with rfl | hr'
    · refine ⟨?_, h1.2⟩
      have hdst : r'.dst ≠ i := by
        intro hdst
        rw [hdst] at h
        generalize hc : (i, effect r'.op r'.pre r'.opLabel w) = c at h
        generalize hd : (term, w') = d at h
        cases h with
        | nil => rw [← hd] at hc; exact hi (congrArg Prod.fst hc)
        | cons r2 w2 rs2 _ h2 =>
          have : i = r2.src := congrArg Prod.fst hc
          exact hsrc r2 (hu' r2 (by simp)).1 this.symm
      obtain ⟨l, h3, h4⟩ := (Pda.Has_iff _ r').1 h1.1
      refine (Pda.Has_iff _ r').2 ⟨l, (clear_rules hp.wf i _ _).2 ⟨hsrc r' h1.1, hdst, h3⟩, h4⟩
    · exact ih hu' rfl r' hr'

theorem prune_state {p : Pda W} (hp : OK p) {a : Sat} (ha : ∀ i, TosOK p.nLabels (a.at i))
    {init term i : Nat} (hi : i < p.size) (h1 : 1 ≤ i) :
    OK (pruneState a init term p i) ∧ Narrow p (pruneState a init term p i) ∧
    (Safe p init term → Safe (pruneState a init term p i) init term ∧
      ∀ c rs w', Run c rs (term, w') → Uses p term rs → Good a init term rs →
        Uses (pruneState a init term p i) term rs) := by
  unfold pruneState
  by_cases hii : i = init
  · rw [if_pos hii]; exact ⟨hp, Narrow.refl p, fun h => ⟨h, fun _ _ _ _ h _ => h⟩⟩
  rw [if_neg hii]
  simp only
  obtain ⟨hk1, hk2⟩ := keepRules_narrow (term := term) (ha i).tos (ha i).tosLt (p.st i).rules
    (fun e he => hp.lab he)
  generalize hkr : keepRules term (a.at i).tos p.nLabels (p.st i).rules = kr at hk1 hk2
  obtain ⟨h2, h3⟩ := modRules_ok hp (f := fun _ => kr) hi hk1 hk2
  have hst := fun j => modRules_st p (f := fun _ => kr) hi j
  have huse : ∀ rs, Uses p term rs → Good a init term rs → Uses (modRules p i fun _ => kr) term rs := by
    intro rs hu hg r hr
    obtain ⟨h4, h5⟩ := hu r hr
    refine ⟨?_, h5⟩
    obtain ⟨l, h6, h7⟩ := (Pda.Has_iff _ r).1 h4
    rw [Pda.Has_iff]
    by_cases hsrc : r.src = i
    · rw [hst, if_pos hsrc]
      simp only
      rw [← hkr]
      unfold keepRules
      simp only [List.mem_filterMap]
      rw [hsrc] at h6
      by_cases hd : r.dst = term
      · refine ⟨l, ⟨(Pda.toImpl r, l), h6, ?_⟩, h7⟩
        rw [if_pos (by exact hd)]
      · have hpre : r.pre ∈ (a.at i).tos := by
          rcases hg r hr with h | h | h
          · exact absurd h hd
          · rw [hsrc] at h; exact absurd h hii
          · rw [hsrc] at h; exact h
        obtain ⟨_, _, h8⟩ := intersect_spec (hp.lab h6) (ha i).tos (ha i).tosLt
        obtain ⟨h9, h10⟩ := h8 r.pre h7 hpre
        refine ⟨_, ⟨(Pda.toImpl r, l), h6, ?_⟩, h9⟩
        rw [if_neg (by exact hd), if_pos h10]
    · rw [hst, if_neg hsrc]
      exact ⟨l, h6, h7⟩
  have hloop : (∃ x ∈ (p.st term).rules, x.1.to = term) →
      ∃ x ∈ ((modRules p i fun _ => kr).st term).rules, x.1.to = term := by
    rintro ⟨x, hx, he⟩
    refine ⟨x, ?_, he⟩
    rw [hst]
    by_cases h : term = i
    · rw [if_pos h]
      simp only
      rw [← hkr]
      refine List.mem_filterMap.2 ⟨x, by rw [← h]; exact hx, ?_⟩
      rw [if_pos he]
    · rw [if_neg h]; exact hx
  have hmod : (({ p with states := p.states.modify i fun x => { x with rules := kr } } : Pda W)) =
      modRules p i fun _ => kr := rfl
  rw [hmod]
  by_cases he : kr.isEmpty = true
  · rw [if_pos he]
    have hke : kr = [] := List.isEmpty_iff.1 he
    have hempty : ((modRules p i fun _ => kr).st i).rules = [] := by rw [hst, if_pos rfl]; exact hke
    refine ⟨clear_ok h2 i, h3.trans (clear_narrow h2.wf i), fun hs => ?_⟩
    have hne : i ≠ term := by
      rintro rfl
      rcases hs with h | h | h
      · omega
      · exact hii h
      · obtain ⟨x, hx, _⟩ := hloop h
        rw [hempty] at hx; cases hx
    refine ⟨?_, fun c rs w' hr hu hg => clear_runs h2 hne hempty hr (huse rs hu hg)⟩
    rcases hs with h | h | h
    · exact .inl h
    · exact .inr (.inl h)
    · right; right
      obtain ⟨x, hx, hxt⟩ := hloop h
      refine ⟨x, (clear_rules h2.wf i _ _).2 ⟨fun h => hne h.symm, ?_, hx⟩, hxt⟩
      rw [hxt]; exact fun h => hne h.symm
  · rw [if_neg he]
    refine ⟨h2, h3, fun hs => ⟨?_, fun c rs w' hr hu hg => huse rs hu hg⟩⟩
    rcases hs with h | h | h
    · exact .inl h
    · exact .inr (.inl h)
    · exact .inr (.inr (hloop h))

theorem prune_fold {a : Sat} {init term : Nat} (is : List Nat) {p : Pda W} (hp : OK p)
    (ha : ∀ i, TosOK p.nLabels (a.at i)) (hi : ∀ i ∈ is, i < p.size ∧ 1 ≤ i) :
    OK (is.foldl (pruneState a init term) p) ∧ Narrow p (is.foldl (pruneState a init term) p) ∧
    (Safe p init term → ∀ c rs w', Run c rs (term, w') → Uses p term rs → Good a init term rs →
        Uses (is.foldl (pruneState a init term) p) term rs) := by
  induction is generalizing p with
  | nil => exact ⟨hp, Narrow.refl p, fun _ _ _ _ _ h _ => h⟩
  | cons i is ih =>
    rw [List.foldl_cons]
    obtain ⟨h1, h2, h3⟩ := prune_state (term := term) (init := init) hp ha (hi i (by simp)).1
      (hi i (by simp)).2
    obtain ⟨h4, h5, h6⟩ := ih h1 (by rw [h2.labels]; exact ha)
      (fun j hj => by rw [h2.size]; exact hi j (by simp [hj]))
    refine ⟨h4, h2.trans h5, fun hs c rs w' hr hu hg => ?_⟩
    obtain ⟨h7, h8⟩ := h3 hs
    exact h6 h7 c rs w' hr (h8 c rs w' hr hu hg) hg

theorem range'_mem {n i : Nat} (h : i ∈ List.range' 1 (n - 1)) : i < n ∧ 1 ≤ i := by
  rw [List.mem_range'] at h
  obtain ⟨j, hj, rfl⟩ := h
  omega

theorem prune_all {a : Sat} {init term : Nat} {p : Pda W} (hp : OK p)
    (ha : ∀ i, TosOK p.nLabels (a.at i)) :
    OK (pruneAll a init term p) ∧ Narrow p (pruneAll a init term p) ∧
    (Safe p init term → ∀ c rs w', Run c rs (term, w') → Uses p term rs → Good a init term rs →
        Uses (pruneAll a init term p) term rs) :=
  prune_fold _ hp ha fun _ hi => range'_mem hi

/-! ## The approximation covers the runs -/

theorem active_mem {n : Nat} {t : Tos} {l : Labels} {g : Nat} (h1 : g ∈ t.tos) (h2 : g ∈ expandN n l) :
    Active n t l := ⟨g, h1, h2⟩

theorem cover_single {p : Pda W} (hp : OK p) {term init : Nat} {B : Nat → Nat → Prop} {a : Sat}
    (ha : SatDone p term false B a) {c : Config} {rs : List (URule W)} {d : Config}
    (hr : Run c rs d) (hu : Uses p term rs)
    (hc : c.1 ≠ term → ∀ x v, c.2 = x :: v → x < p.nLabels → x ∈ (a.at c.1).tos) :
    Good a init term rs := by
  induction hr with
  | nil c => intro r hr; cases hr
  | cons r w rs c h ih =>
    obtain ⟨h1, h2⟩ := hu r (by simp)
    obtain ⟨l, h3, h4, h5⟩ := has_nonempty h1
    have hlt := (hp.lab h3).lt' h5
    have hmem := hc h2 r.pre w rfl hlt
    intro r' hr'
    rcases List.mem_cons.1 hr' with rfl | hr'
    · exact .inr (.inr hmem)
    · refine ih (fun r hr => hu r (by simp [hr])) (fun hd x v hxv hx => ?_) r' hr'
      have hcov := ha.closed r.src (List.ne_nil_of_mem hmem) _ h3 hd h4
      have hact := active_mem hmem h5
      unfold Covered at hcov
      have hop' : (Pda.toImpl r).op = r.op := rfl
      have htoeq : (Pda.toImpl r).to = r.dst := rfl
      simp only [hop', htoeq] at hcov
      rcases hop : r.op with _ | _ | _ | _ <;> rw [hop] at hcov hxv <;> simp only [effect] at hxv hcov
      · cases hxv; exact (hcov hact).1
      · exact hcov hact x hx
      · cases hxv; exact (hcov hact).1
      · cases hxv; exact hcov.1 _ hmem h5

/-- Every configuration on the way, apart from the ends, and possibly the last one before the end, has
a stack higher than `h`. -/
def Above (h : Nat) (c : Config) (rs : List (URule W)) : Prop :=
  ∀ rs1 r rs2 d, rs = rs1 ++ r :: rs2 → rs2 ≠ [] → Run c rs1 d → h < d.2.length

theorem cover_dual {p : Pda W} {term init : Nat} {B : Nat → Nat → Prop} {a : Sat}
    (ha : SatDone p term true B a) {c : Config} {rs : List (URule W)} {w' : List Nat}
    (hr : Run c rs (term, w')) (hu : Uses p term rs) (base : List Nat) (hab : Above base.length c rs)
    (hc : c.1 ≠ term → ∃ u, c.2 = u ++ base ∧ ∀ x v, u = x :: v → x ∈ (a.at c.1).tos ∧
      ∀ y ∈ v, y ∈ (a.at c.1).stack) :
    Good a init term rs := by
  generalize hd : (term, w') = d at hr
  induction hr with
  | nil c => intro r hr; cases hr
  | cons r w rs c h ih =>
    subst hd
    obtain ⟨h1, h2⟩ := hu r (by simp)
    obtain ⟨l, h3, h4, h5⟩ := has_nonempty h1
    obtain ⟨u, hu1, hu2⟩ := hc h2
    by_cases hrs : rs = []
    · subst hrs
      generalize he : (r.dst, effect r.op r.pre r.opLabel w) = e at h
      generalize hd : (term, w') = d at h
      cases h
      rw [← hd] at he
      intro r' hr'
      rw [List.mem_singleton] at hr'
      subst hr'
      exact .inl (congrArg Prod.fst he)
    · have hlen : base.length < (r.pre :: w).length := hab [] r rs _ rfl hrs (Run.nil _)
      cases u with
      | nil => simp only [List.nil_append] at hu1; rw [hu1] at hlen; omega
      | cons x v =>
        simp only [List.cons_append, List.cons.injEq] at hu1
        obtain ⟨hx, hw⟩ := hu1
        obtain ⟨hm1, hm2⟩ := hu2 x v rfl
        rw [← hx] at hm1
        intro r' hr'
        rcases List.mem_cons.1 hr' with rfl | hr'
        · exact .inr (.inr hm1)
        · refine ih (fun r hr => hu r (by simp [hr])) (fun rs1 r1 rs2 d hrs' hne hrun => ?_)
            (fun hd => ?_) rfl r' hr'
          · exact hab (r :: rs1) r1 rs2 d (by rw [hrs']; rfl) hne (Run.cons _ _ _ _ hrun)
          · have hcov := ha.closed r.src (List.ne_nil_of_mem hm1) _ h3 hd h4
            have hact := active_mem hm1 h5
            unfold Covered at hcov
            have hop' : (Pda.toImpl r).op = r.op := rfl
            have htoeq : (Pda.toImpl r).to = r.dst := rfl
            have hgeq : (Pda.toImpl r).opLabel = r.opLabel := rfl
            simp only [hop', htoeq, hgeq] at hcov
            rcases hop : r.op with _ | _ | _ | _ <;> rw [hop] at hcov <;>
              simp only [effect, forall_const, if_true] at hcov ⊢
            · obtain ⟨hc1, hc2⟩ := hcov hact
              refine ⟨r.opLabel :: r.pre :: v, by rw [hw]; rfl, fun x' v' he => ?_⟩
              cases he
              refine ⟨hc1, fun y hy => hc2 y ?_⟩
              rcases List.mem_cons.1 hy with rfl | hy
              · exact .inr hm1
              · exact .inl (hm2 y hy)
            · have hc1 := hcov hact
              refine ⟨v, hw, fun x' v' he => ?_⟩
              subst he
              exact ⟨(hc1 _ (hm2 _ (by simp))).1, fun y hy => (hc1 _ (hm2 _ (by simp [hy]))).2⟩
            · obtain ⟨hc1, hc2⟩ := hcov hact
              refine ⟨r.opLabel :: v, by rw [hw]; rfl, fun x' v' he => ?_⟩
              cases he
              exact ⟨hc1, fun y hy => hc2 y (hm2 y hy)⟩
            · refine ⟨r.pre :: v, by rw [hw]; rfl, fun x' v' he => ?_⟩
              cases he
              exact ⟨hcov.1 _ hm1 h5, fun y hy => hcov.2 y (hm2 y hy)⟩

/-! ## `reduce` -/

theorem forwards_mem {p p' : Pda W} (hp : OK p) {fuel init : Nat} (h : forwardsPrune fuel p init = some p')
    {i : Nat} {x : Rule W × Labels} (hx : x ∈ (p'.st i).rules) : x ∈ (p.st i).rules := by
  unfold forwardsPrune at h
  obtain ⟨b, hb, rfl⟩ := Option.map_eq_some_iff.1 h
  exact (((clearUnseen_spec b hp).2.2 i x).1 hx).1

theorem backwards_mem {p p' : Pda W} (hp : OK p) {fuel term : Nat} (h : backwardsPrune fuel p term = some p')
    {i : Nat} {x : Rule W × Labels} (hx : x ∈ (p'.st i).rules) : x ∈ (p.st i).rules := by
  unfold backwardsPrune at h
  obtain ⟨b, hb, rfl⟩ := Option.map_eq_some_iff.1 h
  exact (((clearUnseen_spec b hp).2.2 i x).1 hx).1

/-- Precondition of `reduce`: the ids are states of the PDA, and the rules that leave the initial
state push (asserted at internal/Reducer.h:86). -/
structure Pre (p : Pda W) (init term : Nat) : Prop where
  ok : OK p
  initLt : init < p.size
  termLt : term < p.size
  push : ∀ e ∈ (p.st init).rules, e.1.to ≠ term → e.2.isEmpty = false → e.1.op = .push

/-- The stages of `reduce`. -/
structure Stages (fuel : Nat) (p : Pda W) (aggr : Int) (init term : Nat) (p2 p3 p4 p' : Pda W) (a : Sat) :
    Prop where
  push : ∀ e ∈ (p2.st init).rules, e.1.to ≠ term → e.2.isEmpty = false → e.1.op = .push
  first : Phase p p2 init term
  target : Phase p2 p3 init term
  done : SatDone p3 term (dual aggr) (InitTop p2 init term) a
  prune : p4 = pruneAll a init term p3
  last : Phase p4 p' init term

theorem reduce_stages {p : Pda W} {init term : Nat} (hp : Pre p init term) {fuel : Nat} {aggr : Int}
    (hz : aggr ≠ 0) {p' : Pda W} {c1 c2 : Nat} (h : reduce fuel p aggr init term = some (p', c1, c2)) :
    c1 = count p init term ∧ c2 = count p' init term ∧
    ∃ p2 p3 p4 a, Stages fuel p aggr init term p2 p3 p4 p' a := by
  unfold reduce at h
  rw [if_neg hz] at h
  simp only [Option.bind_eq_some_iff, Option.map_eq_some_iff, Prod.mk.injEq] at h
  obtain ⟨p1, h1, p2, h2, p3, h3, a, h4, p5, h5, p6, h6, rfl, rfl, rfl⟩ := h
  have f1 := forwards_phase (term := term) hp.ok hp.initLt h1
  have f2 := backwards_phase (init := init) f1.ok (by rw [f1.narrow.size]; exact hp.termLt) h2
  have f3 := targetIf_phase (init := init) f2.ok h3
  have hpush : ∀ e ∈ (p2.st init).rules, e.1.to ≠ term → e.2.isEmpty = false → e.1.op = .push :=
    fun e he => hp.push e (forwards_mem hp.ok h1 (backwards_mem f1.ok h2 he))
  have hdone := sat_done f3.ok (sat_init f2.ok f3.narrow (dual aggr) hpush) h4
  have f4 := prune_all (init := init) (term := term) f3.ok hdone.ok
  have hsz : (pruneAll a init term p3).size = p.size := by
    rw [f4.2.1.size, f3.narrow.size, f2.narrow.size, f1.narrow.size]
  have f5 := backwards_phase (init := init) f4.1 (by rw [hsz]; exact hp.termLt) h5
  have f6 := targetIf_phase (init := init) f5.ok h6
  exact ⟨rfl, rfl, p2, p3, _, a, hpush, f1.trans f2, f3, hdone, rfl, f5.trans f6⟩

theorem stages_narrow {p : Pda W} {init term : Nat} {fuel : Nat} {aggr : Int} {p2 p3 p4 p' : Pda W} {a : Sat}
    (h : Stages fuel p aggr init term p2 p3 p4 p' a) : OK p' ∧ Narrow p p' := by
  have f4 := prune_all (init := init) (term := term) h.target.ok h.done.ok
  refine ⟨h.last.ok, ((h.first.narrow.trans h.target.narrow).trans ?_).trans h.last.narrow⟩
  rw [h.prune]; exact f4.2.1

/-- After the first step of a run the approximation holds. -/
theorem stages_runs {p : Pda W} {init term : Nat} {fuel : Nat} {aggr : Int} {p2 p3 p4 p' : Pda W} {a : Sat}
    (h : Stages fuel p aggr init term p2 p3 p4 p' a) (hs : Safe p init term)
    {w : List Nat} {rs : List (URule W)} {w' : List Nat} (hr : Run (init, w) rs (term, w'))
    (hu : Uses p term rs)
    (hd : dual aggr = true → ∀ r rs' d, rs = r :: rs' → Run (init, w) [r] d → Above w.length d rs') :
    Uses p' term rs := by
  have f12 := h.first.trans h.target
  have hu3 := f12.runs w rs w' hr hu
  have f4 := prune_all (init := init) (term := term) h.target.ok h.done.ok
  refine h.last.runs w rs w' hr ?_
  rw [h.prune]
  have hsafe : Safe p3 init term := by
    rcases hs with h1 | h1 | h1
    · exact .inl h1
    · exact .inr (.inl h1)
    · exact .inr (.inr (f12.loop ⟨w, rs, w', hr, hu⟩ h1))
  refine f4.2.2 hsafe _ rs w' hr hu3 ?_
  generalize hc : (init, w) = c at hr
  generalize hd' : (term, w') = d at hr
  cases hr with
  | nil => intro r hr; cases hr
  | cons r v rs _ hrun =>
    have hsrc : init = r.src := congrArg Prod.fst hc
    have hwv : w = r.pre :: v := congrArg Prod.snd hc
    have hr1 := hu3 r (by simp)
    have hurs : Uses p3 term rs := fun r hr => hu3 r (by simp [hr])
    have hr2 : p2.Has r := h.target.narrow.has hr1.1
    subst hd'
    have htop : r.dst ≠ term → r.op = .push ∧ r.opLabel ∈ (a.at r.dst).tos := by
      intro hdst
      obtain ⟨l, h3, h4, _⟩ := has_nonempty hr2
      rw [← hsrc] at h3
      exact ⟨h.push _ h3 hdst h4, h.done.base _ _ ⟨hdst, r, hr2, hsrc.symm, rfl, rfl⟩⟩
    intro r' hr'
    rcases List.mem_cons.1 hr' with rfl | hr'
    · exact .inr (.inl hsrc.symm)
    · cases hds : dual aggr
      · have hdone := h.done
        rw [hds] at hdone
        refine cover_single h.target.ok hdone hrun hurs (fun hdst x v' hx _ => ?_) r' hr'
        obtain ⟨h5, h6⟩ := htop hdst
        simp only at hx hdst ⊢
        rw [h5] at hx
        simp only [effect] at hx
        cases hx; exact h6
      · have hdone := h.done
        rw [hds] at hdone
        refine cover_dual hdone hrun hurs w (hd hds r rs _ rfl ?_) (fun hdst => ?_) r' hr'
        · rw [hsrc, hwv]; exact Run.cons _ _ _ _ (Run.nil _)
        · obtain ⟨h5, h6⟩ := htop hdst
          refine ⟨[r.opLabel], ?_, fun x v' he => ?_⟩
          · rw [h5, hwv]; rfl
          · cases he; exact ⟨h6, by simp⟩

/-! ## Termination -/

theorem whileSome_mono {σ : Type} {step : σ → Option σ} {fuel fuel' : Nat} (hf : fuel ≤ fuel') {s r : σ}
    (h : whileSome step fuel s = some r) : whileSome step fuel' s = some r := by
  induction fuel generalizing s fuel' with
  | zero =>
    rw [whileSome] at h
    split at h
    · rename_i hs
      cases fuel' <;> rw [whileSome, hs] <;> exact h
    · cases h
  | succ n ih =>
    cases fuel' with
    | zero => omega
    | succ m =>
      rw [whileSome] at h ⊢
      split at h
      · exact h
      · exact ih (by omega) h

theorem forwards_mono {p r : Pda W} {fuel fuel' init : Nat} (hf : fuel ≤ fuel')
    (h : forwardsPrune fuel p init = some r) : forwardsPrune fuel' p init = some r := by
  unfold forwardsPrune at *
  obtain ⟨b, hb, rfl⟩ := Option.map_eq_some_iff.1 h
  rw [whileSome_mono hf hb]; rfl

theorem backwards_mono {p r : Pda W} {fuel fuel' term : Nat} (hf : fuel ≤ fuel')
    (h : backwardsPrune fuel p term = some r) : backwardsPrune fuel' p term = some r := by
  unfold backwardsPrune at *
  obtain ⟨b, hb, rfl⟩ := Option.map_eq_some_iff.1 h
  rw [whileSome_mono hf hb]; rfl

theorem targetIf_mono {p r : Pda W} {fuel fuel' term : Nat} {aggr : Int} (hf : fuel ≤ fuel')
    (h : targetIf fuel p aggr term = some r) : targetIf fuel' p aggr term = some r := by
  unfold targetIf targetPrune at *
  split at h
  · rename_i ha
    rw [if_pos ha]
    obtain ⟨b, hb, rfl⟩ := Option.map_eq_some_iff.1 h
    rw [whileSome_mono hf hb]; rfl
  · rename_i ha
    rw [if_neg ha]; exact h

theorem targetIf_terminates {p : Pda W} (hp : OK p) (aggr : Int) (term : Nat) :
    ∃ N p', ∀ fuel, N ≤ fuel → targetIf fuel p aggr term = some p' := by
  have : ∃ N p', targetIf N p aggr term = some p' := by
    unfold targetIf
    split
    · exact ⟨_, target_terminates hp term (Nat.le_refl _)⟩
    · exact ⟨0, p, rfl⟩
  obtain ⟨N, p', h⟩ := this
  exact ⟨N, p', fun fuel hf => targetIf_mono hf h⟩

theorem reduce_terminates {p : Pda W} {init term : Nat} (hp : Pre p init term) (aggr : Int) :
    ∃ N r, ∀ fuel, N ≤ fuel → reduce fuel p aggr init term = some r := by
  by_cases hz : aggr = 0
  · exact ⟨0, _, fun fuel _ => by unfold reduce; rw [if_pos hz]⟩
  obtain ⟨p1, h1⟩ := forwards_terminates hp.ok.wf hp.initLt (Nat.le_refl _)
  have f1 := forwards_phase (term := term) hp.ok hp.initLt h1
  have ht1 : term < p1.size := by rw [f1.narrow.size]; exact hp.termLt
  obtain ⟨p2, h2⟩ := backwards_terminates f1.ok.wf ht1 (Nat.le_refl _)
  have f2 := backwards_phase (init := init) f1.ok ht1 h2
  obtain ⟨N3, p3, h3⟩ := targetIf_terminates f2.ok aggr term
  have f3 := targetIf_phase (init := init) f2.ok (h3 _ (Nat.le_refl _))
  have hpush : ∀ e ∈ (p2.st init).rules, e.1.to ≠ term → e.2.isEmpty = false → e.1.op = .push :=
    fun e he => hp.push e (forwards_mem hp.ok h1 (backwards_mem f1.ok h2 he))
  have hinit := sat_init f2.ok f3.narrow (dual aggr) hpush
  obtain ⟨a, h4⟩ := sat_terminates f3.ok hinit (Nat.le_refl _)
  have hdone := sat_done f3.ok hinit h4
  have f4 := prune_all (init := init) (term := term) f3.ok hdone.ok
  have ht4 : term < (pruneAll a init term p3).size := by
    rw [f4.2.1.size, f3.narrow.size, f2.narrow.size]; exact ht1
  obtain ⟨p5, h5⟩ := backwards_terminates f4.1.wf ht4 (Nat.le_refl _)
  have f5 := backwards_phase (init := init) f4.1 ht4 h5
  obtain ⟨N6, p6, h6⟩ := targetIf_terminates f5.ok aggr term
  refine ⟨p.size + p1.size + N3 +
    ((initSat p2 init term).waiting.length + 2 * p3.nLabels * p3.size) +
    (pruneAll a init term p3).size + N6, (p6, count p init term, count p6 init term), fun fuel hf => ?_⟩
  unfold reduce
  rw [if_neg hz]
  rw [forwards_mono (by omega) h1]
  simp only [Option.bind_some]
  rw [backwards_mono (by omega) h2]
  simp only [Option.bind_some]
  rw [h3 fuel (by omega)]
  simp only [Option.bind_some]
  rw [whileSome_mono (by omega) h4]
  simp only [Option.bind_some]
  rw [backwards_mono (by omega) h5]
  simp only [Option.bind_some]
  rw [h6 fuel (by omega)]
  rfl

/-! ## The counts -/

omit [LinearOrder W] in
theorem ruleCount_le {n term : Nat} {e' e : Rule W × Labels} (h : Narrower n e' e) (hl : LabOK n e'.2)
    (hl2 : LabOK n e.2) : ruleCount term n e' ≤ ruleCount term n e := by
  have hrc : ∀ x : Rule W × Labels, ruleCount term n x =
      if x.1.to = term then 1 else (expandN n x.2).length := by
    rintro ⟨r, ⟨wc, ls⟩⟩
    unfold ruleCount expandN Labels.isEmpty
    cases wc <;> cases ls <;> simp
  rw [hrc, hrc, h.1]
  split
  · exact Nat.le_refl _
  · refine (List.Nodup.subperm ?_ h.2).length_le
    unfold expandN
    split
    · exact List.nodup_range
    · exact ssorted_nodup hl.strict

omit [LinearOrder W] in
theorem ruleCount_sum {n term : Nat} {l' l : VMap (Rule W) Labels}
    (h : List.SublistForall₂ (Narrower n) l' l) (hl' : ∀ e ∈ l', LabOK n e.2)
    (hl : ∀ e ∈ l, LabOK n e.2) :
    (l'.map (ruleCount term n)).sum ≤ (l.map (ruleCount term n)).sum ∧ l'.length ≤ l.length := by
  induction h with
  | nil => simp
  | cons hr _ ih =>
    have := ih (fun e he => hl' e (by simp [he])) (fun e he => hl e (by simp [he]))
    have h1 := ruleCount_le (term := term) hr (hl' _ (by simp)) (hl _ (by simp))
    simp only [List.map_cons, List.sum_cons, List.length_cons]; omega
  | cons_right _ ih =>
    have := ih hl' (fun e he => hl e (by simp [he]))
    simp only [List.map_cons, List.sum_cons, List.length_cons]; omega

theorem count_le {p p' : Pda W} (hp : OK p) (hp' : OK p') (h : Narrow p p') (init term : Nat) :
    count p' init term ≤ count p init term := by
  have hst : ∀ i, ((p'.st i).rules.map (ruleCount term p'.nLabels)).sum ≤
      ((p.st i).rules.map (ruleCount term p.nLabels)).sum ∧
      (p'.st i).rules.length ≤ (p.st i).rules.length := by
    intro i
    rw [h.labels]
    exact ruleCount_sum (h.rules i) (fun e he => by rw [← h.labels]; exact hp'.lab he)
      (fun e he => hp.lab he)
  unfold count
  rw [h.size]
  have hsum : ∀ is : List Nat, (is.map fun i => ((p'.st i).rules.map (ruleCount term p'.nLabels)).sum).sum ≤
      (is.map fun i => ((p.st i).rules.map (ruleCount term p.nLabels)).sum).sum := by
    intro is
    induction is with
    | nil => simp
    | cons i is ih => have := (hst i).1; simp only [List.map_cons, List.sum_cons]; omega
  have := hsum (List.range' 1 (p.size - 1))
  have := (hst init).2
  omega

/-! ## The terminal state is cleared -/

theorem prune_clears {p : Pda W} (hp : OK p) {a : Sat} {init term : Nat} (hn : 0 < p.nLabels)
    (ht : term < p.size) (hti : term ≠ init) (hempty : (a.at term).tos = [])
    (hloop : ∀ x ∈ (p.st term).rules, x.1.to ≠ term) (i : Nat) :
    ∀ x ∈ ((pruneState a init term p term).st i).rules, x.1.to ≠ term := by
  unfold pruneState
  rw [if_neg hti]
  have hk : keepRules term (a.at term).tos p.nLabels (p.st term).rules = [] := by
    unfold keepRules
    rw [List.filterMap_eq_nil_iff]
    intro e he
    rw [if_neg (hloop e he), hempty]
    simp [intersect_nil hn]
  have hk1 : List.SublistForall₂ (Narrower p.nLabels) ([] : VMap (Rule W) Labels) (p.st term).rules :=
    List.SublistForall₂.nil
  obtain ⟨h2, h3⟩ := modRules_ok hp (f := fun _ => []) ht hk1 (by simp)
  simp only
  rw [hk]
  simp only [List.isEmpty_nil, if_true]
  intro x hx
  exact ((clear_rules h2.wf term i x).1 hx).2.1

theorem prune_all_clears {a : Sat} {init term : Nat} {p : Pda W} (hp : OK p)
    (ha : ∀ i, TosOK p.nLabels (a.at i)) (hn : 0 < p.nLabels) (ht : term < p.size) (h0 : term ≠ 0)
    (hti : term ≠ init) (hempty : (a.at term).tos = [])
    (hloop : ∀ x ∈ (p.st term).rules, x.1.to ≠ term) (i : Nat) :
    ∀ x ∈ ((pruneAll a init term p).st i).rules, x.1.to ≠ term := by
  have hmem : term ∈ List.range' 1 (p.size - 1) := by
    rw [List.mem_range']; exact ⟨term - 1, by omega, by omega⟩
  obtain ⟨xs, ys, hxy⟩ := List.append_of_mem hmem
  have hall : ∀ i ∈ List.range' 1 (p.size - 1), i < p.size ∧ 1 ≤ i := fun _ hi => range'_mem hi
  rw [hxy] at hall
  unfold pruneAll
  rw [hxy, List.foldl_append, List.foldl_cons]
  obtain ⟨h1, h2, _⟩ := prune_fold (a := a) (init := init) (term := term) xs hp ha
    (fun i hi => hall i (List.mem_append_left _ hi))
  have ha' : ∀ i, TosOK (xs.foldl (pruneState a init term) p).nLabels (a.at i) := by
    rw [h2.labels]; exact ha
  have hsz : term < (xs.foldl (pruneState a init term) p).size := by rw [h2.size]; exact ht
  have hc := prune_clears h1 (a := a) (init := init) (by rw [h2.labels]; exact hn) hsz hti hempty
    (fun x hx => by
      obtain ⟨l, hl, _⟩ := h2.mem hx
      exact hloop (x.1, l) hl)
  obtain ⟨h3, h4, _⟩ := prune_state (a := a) (init := init) (term := term) h1 ha' hsz (by omega)
  obtain ⟨_, h6, _⟩ := prune_fold (a := a) (init := init) (term := term) ys h3
    (by rw [h4.labels]; exact ha')
    (fun i hi => by
      rw [h4.size, h2.size]
      exact hall i (List.mem_append_right _ (by simp [hi])))
  intro x hx
  obtain ⟨l, hl, _⟩ := h6.mem hx
  exact hc i (x.1, l) hl

theorem stages_clear {p : Pda W} {init term : Nat} {fuel : Nat} {aggr : Int} {p2 p3 p4 p' : Pda W} {a : Sat}
    (h : Stages fuel p aggr init term p2 p3 p4 p' a) (ht : term < p.size) (h0 : term ≠ 0)
    (hti : term ≠ init) (hloop : ∀ x ∈ (p.st term).rules, x.1.to ≠ term) (r : URule W)
    (hr : p'.Has r) : r.dst ≠ term := by
  have f12 := (h.first.trans h.target).narrow
  by_cases hn : 0 < p3.nLabels
  · have hr4 := h.last.narrow.has hr
    obtain ⟨l, h1, _⟩ := (Pda.Has_iff _ r).1 hr4
    rw [h.prune] at h1
    exact prune_all_clears h.target.ok h.done.ok hn (by rw [f12.size]; exact ht) h0 hti h.done.termEmpty
      (fun x hx => by
        obtain ⟨l, hl, _⟩ := f12.mem hx
        exact hloop (x.1, l) hl) _ _ h1
  · exfalso
    have hp' := (stages_narrow h)
    have hr0 := hp'.2.has hr
    obtain ⟨l, h1, _, h3⟩ := has_nonempty hr
    have := (hp'.1.lab h1).lt' h3
    rw [hp'.2.labels, ← f12.labels] at this
    omega

end

end Reducer

end Verif
