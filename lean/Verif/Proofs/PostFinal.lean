import Verif.Proofs.PostInv
import Verif.Proofs.Stable

/-! # post*: initialisation, termination, soundness and completeness -/

namespace Verif

variable {W σ : Type}

/-! ## Initialisation -/

theorem postInitEdge_frame [Zero W] (p : Pda W) (s : PostSt W σ) (t : Tr) :
    (postInitEdge p s t).aut = s.aut ∧ (postInitEdge p s t).nQ = s.nQ ∧
      (postInitEdge p s t).qPrime = s.qPrime ∧ (postInitEdge p s t).found = s.found ∧
      (postInitEdge p s t).ext = s.ext := by
  unfold postInitEdge
  split
  · simp
  · simp [insertRel_frame]

theorem postInitFold [Zero W] (p : Pda W) (l : List Tr) (hl : ∀ t ∈ l, t.label ≠ epsilon) (s : PostSt W σ) :
    (l.foldl (postInitEdge p) s).aut = s.aut ∧ (l.foldl (postInitEdge p) s).nQ = s.nQ ∧
      (l.foldl (postInitEdge p) s).qPrime = s.qPrime ∧ (l.foldl (postInitEdge p) s).found = s.found ∧
      (l.foldl (postInitEdge p) s).ext = s.ext ∧
      (l.foldl (postInitEdge p) s).ws = s.ws ++ l.filter (fun t => t.src < p.size) ∧
      (l.foldl (postInitEdge p) s).rel1 = s.rel1 ++ l.filter (fun t => p.size ≤ t.src) ∧
      (l.foldl (postInitEdge p) s).rel2 = s.rel2 := by
  induction l generalizing s with
  | nil => simp
  | cons t l ih =>
    obtain ⟨h1, h2, h3, h4, h5, h6, h7, h8⟩ := ih (fun u hu => hl u (by simp [hu])) (postInitEdge p s t)
    have hf := postInitEdge_frame p s t
    have ht := hl t (by simp)
    rw [List.foldl_cons]
    refine ⟨h1.trans hf.1, h2.trans hf.2.1, h3.trans hf.2.2.1, h4.trans hf.2.2.2.1,
      h5.trans hf.2.2.2.2, ?_, ?_, ?_⟩
    · rw [h6]
      by_cases hc : t.src < p.size
      · simp [postInitEdge, hc]
      · simp [postInitEdge, hc, insertRel_frame]
    · rw [h7]
      by_cases hc : t.src < p.size
      · have : ¬ p.size ≤ t.src := by omega
        simp [postInitEdge, hc, this]
      · have : p.size ≤ t.src := by omega
        simp [postInitEdge, hc, insertRel_frame, this]
    · rw [h8]
      by_cases hc : t.src < p.size
      · simp [postInitEdge, hc]
      · simp [postInitEdge, hc, insertRel_frame, ht]

theorem outAll_length (h : HashOrder) (a : Aut W) (k : Nat) :
    ((List.range k).flatMap fun i => a.out h i).length = (keys a.edges).countP fun t => t.src < k := by
  induction k with
  | zero => simp
  | succ k ih =>
    rw [List.range_succ, List.flatMap_append, List.length_append, ih]
    simp only [List.flatMap_cons, List.flatMap_nil, List.append_nil]
    rw [(a.out_perm h k).length_eq]
    exact countP_src_succ (keys a.edges) k

section
variable [LinearOrder W] [Zero W]

theorem postInit_inv (h : HashOrder) {p : Pda W} {a : Aut W} (ha : PostOK p a) (e : σ) :
    PostInv p a (postInit h p a e) ∧ (postInit h p a e).found = false ∧
      (postInit h p a e).ext = e ∧ (postInit h p a e).aut.edges = a.edges ∧
      (postInit h p a e).ws.length ≤ a.edges.length := by
  obtain ⟨hq, _⟩ := qInit_inv p a
  have hqok := qInit_ok p a
  have hn : (qInit p a).1.n = a.n + (qInit p a).2.length := by simp [Aut.n, hq.acc]
  have hmem : ∀ t, t ∈ ((List.range (qInit p a).1.n).flatMap fun i => (qInit p a).1.out h i) ↔
      t ∈ keys a.edges := by
    intro t
    simp only [List.mem_flatMap, List.mem_range, Aut.mem_out, hq.edges]
    constructor
    · rintro ⟨i, _, h1, _⟩; exact h1
    · intro h1
      exact ⟨t.src, by have := (ha.valid t h1).1; omega, h1, rfl⟩
  have hlab : ∀ t ∈ keys a.edges, t.label ≠ epsilon := by
    intro t ht
    have := (ha.valid t ht).2.1
    have := ha.labels
    omega
  unfold postInit
  simp only
  obtain ⟨h1, h2, h3, h4, h5, h6, h7, h8⟩ := postInitFold p
    ((List.range (qInit p a).1.n).flatMap fun i => (qInit p a).1.out h i)
    (fun t ht => hlab t ((hmem t).1 ht))
    ({ aut := (qInit p a).1, nQ := a.n, qPrime := (qInit p a).2, ext := e } : PostSt W σ)
  have hlen := outAll_length h (qInit p a).1 (qInit p a).1.n
  generalize ((List.range (qInit p a).1.n).flatMap fun i => (qInit p a).1.out h i) = l at *
  generalize hs : l.foldl (postInitEdge p)
    ({ aut := (qInit p a).1, nQ := a.n, qPrime := (qInit p a).2, ext := e } : PostSt W σ) = s at *
  dsimp only at h1 h2 h3 h4 h5 h6 h7 h8
  have hE : s.aut.edges = a.edges := by rw [h1]; exact hq.edges
  have hws : ∀ t, t ∈ s.ws ↔ t ∈ keys a.edges ∧ t.src < p.size := by
    intro t; rw [h6]; simp [hmem]
  refine ⟨⟨h2, by rw [h1, hn]; omega, by rw [h1, h3]; exact hqok, ⟨_, by rw [h1]; exact hq.acc⟩,
    by rw [hE]; exact .base, ?_, ?_, ?_, ?_, ?_, ?_⟩, h4, h5, hE, ?_⟩
  · intro t ht; rw [hE]; exact (hws t).1 ht
  · intro t; rw [h7, hE]; simp [hmem]
  · intro m f hmf; rw [h8] at hmf; simp at hmf
  · intro m f hE' _ _
    rw [hE] at hE'
    exact absurd rfl (hlab _ hE')
  · intro t ht hs' _ hnot
    rw [hE] at ht
    exact absurd ((hws t).2 ⟨ht, hs'⟩) hnot
  · intro f m g q hfm
    rw [hE] at hfm
    exact absurd rfl (hlab _ hfm)
  · rw [h6]
    have e1 : (l.filter fun t => t.src < p.size).length ≤ l.length := List.length_filter_le _ _
    have e2 := List.countP_le_length (p := fun t : Tr => decide (t.src < (qInit p a).1.n))
      (l := keys (qInit p a).1.edges)
    rw [hq.edges] at e2 hlen
    simp only [keys, List.length_map] at e2 hlen
    simp only [List.nil_append]
    omega

/-! ## The run -/

theorem postRun_inv {p : Pda W} (hp : p.WF) {a0 : Aut W} (ha : PostOK p a0) (cb : Callback W σ) (k : Nat)
    {s : PostSt W σ} (h : PostInv p a0 s) : PostInv p a0 (postRun p cb k s) := by
  induction k generalizing s with
  | zero => exact h
  | succ k ih =>
    unfold postRun
    split
    · exact h
    · exact ih (h.step hp ha cb)

theorem postStar_inv (h : HashOrder) {p : Pda W} (hp : p.WF) {a : Aut W} (ha : PostOK p a)
    (cb : Callback W σ) (e : σ) : PostInv p a (postStar h p cb a e) :=
  postRun_inv hp ha cb _ (postInit_inv h ha e).1

theorem postStep_n (p : Pda W) (cb : Callback W σ) (s : PostSt W σ) :
    (postStep p cb s).aut.acc = s.aut.acc := by
  rcases hws : s.ws with _ | ⟨t, ws⟩
  · unfold postStep; rw [hws]
  · rw [postStep_eq p cb s t ws hws, (postReqAll_frame p cb _ _).2.2, (insertRel_frame p _ t).1]

/-! ## The early-termination flag -/

theorem postStep_found {p : Pda W} (hp : p.WF) {a0 : Aut W} (ha : PostOK p a0) {N : Nat}
    {cb : Callback W σ} {Good : Aut W → σ → Prop} {Hit : Aut W → σ → Prop}
    (hcb : CbSpec cb (PValid p N) Good Hit) {s : PostSt W σ} (h : PostInv p a0 s)
    (hN : s.aut.n = N) (hf : FoundOK Good Hit s.aut s.ext s.found) :
    FoundOK Good Hit (postStep p cb s).aut (postStep p cb s).ext (postStep p cb s).found := by
  have hinv' := h.step hp ha cb
  have hv' := hinv'.valid hp ha
  have hn' : (postStep p cb s).aut.n = N := by unfold Aut.n; rw [postStep_n]; exact hN
  rcases hws : s.ws with _ | ⟨t, ws⟩
  · unfold postStep; rw [hws]; exact hf
  rw [hn'] at hv'
  rw [postStep_eq p cb s t ws hws] at hv' ⊢
  obtain ⟨e1, _, _, _, _, e2, e3, _⟩ := h.popped hws
  refine postReqAll_found hcb p _ _ (fun r hr => hv' _ ?_) (by rw [e1, e2, e3]; exact hf)
  exact ((postReqAll_keys p cb _ _ (h.reqs_flag hp ha hws)) _).1.2
    (.inr (List.mem_map.2 ⟨r, hr, rfl⟩))

theorem postRun_found {p : Pda W} (hp : p.WF) {a0 : Aut W} (ha : PostOK p a0) {N : Nat}
    {cb : Callback W σ} {Good : Aut W → σ → Prop} {Hit : Aut W → σ → Prop}
    (hcb : CbSpec cb (PValid p N) Good Hit) (k : Nat) {s : PostSt W σ} (h : PostInv p a0 s)
    (hN : s.aut.n = N) (hf : FoundOK Good Hit s.aut s.ext s.found) :
    FoundOK Good Hit (postRun p cb k s).aut (postRun p cb k s).ext (postRun p cb k s).found := by
  induction k generalizing s with
  | zero => exact hf
  | succ k ih =>
    unfold postRun
    split
    · exact hf
    · exact ih (h.step hp ha cb) (by unfold Aut.n; rw [postStep_n]; exact hN)
        (postStep_found hp ha hcb h hN hf)

theorem postStar_found (h : HashOrder) {p : Pda W} (hp : p.WF) {a : Aut W} (ha : PostOK p a)
    {cb : Callback W σ} {e : σ} {Good : Aut W → σ → Prop} {Hit : Aut W → σ → Prop}
    (hcb : CbSpec cb (PValid p (qInit p a).1.n) Good Hit) (hg : Good (qInit p a).1 e) :
    FoundOK Good Hit (postStar h p cb a e).aut (postStar h p cb a e).ext (postStar h p cb a e).found := by
  obtain ⟨h1, h2, h3, _⟩ := postInit_inv h ha e
  have hauto : (postInit h p a e).aut = (qInit p a).1 := by
    unfold postInit
    simp only
    have key : ∀ (l : List Tr) (s : PostSt W σ), (l.foldl (postInitEdge p) s).aut = s.aut := by
      intro l
      induction l with
      | nil => intro s; rfl
      | cons t l ih => intro s; rw [List.foldl_cons, ih, (postInitEdge_frame p s t).1]
    rw [key]
  refine postRun_found hp ha hcb _ h1 (by rw [hauto]) ⟨fun _ => ?_, fun hc => ?_⟩
  · rw [hauto, h3]; exact hg
  · rw [h2] at hc; cases hc

/-! ## Termination -/

omit [LinearOrder W] [Zero W] in
theorem length_le_of_pvalid {p : Pda W} {N : Nat} {l : List Tr} (hn : l.Nodup)
    (hv : ∀ t ∈ l, PValid p N t) : l.length ≤ N * (p.nLabels + 1) * N := by
  have hinj : Function.Injective (fun t : Tr => ((t.src, t.label), t.dst)) := by
    rintro ⟨a, b, c⟩ ⟨a', b', c'⟩ h
    simp only [Prod.mk.injEq] at h
    obtain ⟨⟨rfl, rfl⟩, rfl⟩ := h
    rfl
  have h1 : (l.map fun t : Tr => ((t.src, t.label), t.dst)).Nodup := List.Nodup.map hinj hn
  have h2 : (l.map fun t : Tr => ((t.src, t.label), t.dst)) ⊆
      ((List.range N).product (epsilon :: List.range p.nLabels)).product (List.range N) := by
    intro x hx
    obtain ⟨t, ht, rfl⟩ := List.mem_map.1 hx
    obtain ⟨a, _, c, b⟩ := hv t ht
    rcases b with b | ⟨b, _⟩ <;> simp [List.mem_product, a, b, c]
  have h3 := (h1.subperm h2).length_le
  rw [List.length_map] at h3
  have h4 : (((List.range N).product (epsilon :: List.range p.nLabels)).product (List.range N)).length =
      N * (p.nLabels + 1) * N := by
    rw [show ((List.range N).product (epsilon :: List.range p.nLabels)).product (List.range N) =
      ((List.range N) ×ˢ (epsilon :: List.range p.nLabels)) ×ˢ (List.range N) from rfl]
    rw [List.length_product, List.length_product]
    simp only [List.length_range, List.length_cons]
  omega

theorem PostInv.edges_le {p : Pda W} (hp : p.WF) {a0 : Aut W} (ha : PostOK p a0) {s : PostSt W σ}
    (h : PostInv p a0 s) : s.aut.edges.length ≤ postFuel p s := by
  have := length_le_of_pvalid (h.built.nodup ha.nodup) (h.valid hp ha)
  simpa [keys, postFuel] using this

theorem postStep_measure {p : Pda W} (hp : p.WF) {a0 : Aut W} (ha : PostOK p a0) (cb : Callback W σ)
    {s : PostSt W σ} (h : PostInv p a0 s) (hne : s.ws ≠ []) :
    (postStep p cb s).ws.length + (postFuel p s - (postStep p cb s).aut.edges.length) <
      s.ws.length + (postFuel p s - s.aut.edges.length) := by
  have hle := (h.step hp ha cb).edges_le hp ha
  have hfu : postFuel p (postStep p cb s) = postFuel p s := by
    unfold postFuel Aut.n; rw [postStep_n]
  rw [hfu] at hle
  obtain ⟨t, ws, hws⟩ := List.exists_cons_of_ne_nil hne
  have hlen : s.ws.length = ws.length + 1 := by rw [hws]; rfl
  obtain ⟨e1, _, _, e2, _, _⟩ := h.popped hws
  revert hle
  rw [postStep_eq p cb s t ws hws]
  have h1 := postReqAll_len p cb (insertRel p { s with ws := ws } t)
    (postReqs p t (insertRel p { s with ws := ws } t))
  rw [e1, e2] at h1
  intro hle
  omega

theorem postRun_done {p : Pda W} (hp : p.WF) {a0 : Aut W} (ha : PostOK p a0) (cb : Callback W σ) (k : Nat)
    {s : PostSt W σ} (h : PostInv p a0 s)
    (hm : s.ws.length + (postFuel p s - s.aut.edges.length) ≤ k) :
    (postRun p cb k s).ws = [] ∨ (postRun p cb k s).found = true := by
  induction k generalizing s with
  | zero =>
    left
    exact List.length_eq_zero_iff.1 (by simp only [postRun]; omega)
  | succ k ih =>
    unfold postRun
    split
    · rename_i hc
      simpa using hc
    · rename_i hc
      have hne : s.ws ≠ [] := by
        intro h0; simp [h0] at hc
      have := postStep_measure hp ha cb h hne
      have hfu : postFuel p (postStep p cb s) = postFuel p s := by
        unfold postFuel Aut.n; rw [postStep_n]
      exact ih (h.step hp ha cb) (by rw [hfu]; omega)

theorem postStar_done (h : HashOrder) {p : Pda W} (hp : p.WF) {a : Aut W} (ha : PostOK p a)
    (cb : Callback W σ) (e : σ) :
    (postStar h p cb a e).ws = [] ∨ (postStar h p cb a e).found = true := by
  obtain ⟨h1, _, _, h2, h3⟩ := postInit_inv h ha e
  have h4 := h1.edges_le hp ha
  refine postRun_done hp ha cb _ h1 ?_
  rw [h2] at *
  omega

theorem postRun_stop (p : Pda W) (cb : Callback W σ) (k : Nat) (s : PostSt W σ)
    (h : s.ws = [] ∨ s.found = true) : postRun p cb k s = s := by
  cases k with
  | zero => rfl
  | succ k =>
    unfold postRun
    rw [if_pos (by simpa using h)]

theorem postRun_add (p : Pda W) (cb : Callback W σ) (j k : Nat) (s : PostSt W σ) :
    postRun p cb (j + k) s = postRun p cb k (postRun p cb j s) := by
  induction j generalizing s with
  | zero => simp [postRun]
  | succ j ih =>
    rw [show j + 1 + k = (j + k) + 1 by omega]
    conv => lhs; unfold postRun
    conv => rhs; arg 4; unfold postRun
    split
    · rename_i h
      cases k with
      | zero => rfl
      | succ k => unfold postRun; rw [if_pos h]
    · exact ih _

theorem postReqAll_suffix (p : Pda W) (cb : Callback W σ) (rs : List PReq) (s : PostSt W σ) :
    s.aut.edges <:+ (postReqAll p cb s rs).aut.edges := by
  induction rs generalizing s with
  | nil => exact List.suffix_refl _
  | cons r rs ih =>
    refine List.IsSuffix.trans ?_ (ih _)
    rw [postReq_edges]
    split
    · exact List.suffix_refl _
    · exact List.suffix_cons _ _

theorem postRun_suffix (p : Pda W) (cb : Callback W σ) (k : Nat) (s : PostSt W σ) :
    s.aut.edges <:+ (postRun p cb k s).aut.edges := by
  induction k generalizing s with
  | zero => exact List.suffix_refl _
  | succ k ih =>
    unfold postRun
    split
    · exact List.suffix_refl _
    · refine List.IsSuffix.trans ?_ (ih _)
      rcases hws : s.ws with _ | ⟨t, ws⟩
      · unfold postStep; rw [hws]; exact List.suffix_refl _
      · rw [postStep_eq p cb s t ws hws]
        have := postReqAll_suffix p cb (postReqs p t (insertRel p { s with ws := ws } t))
          (insertRel p { s with ws := ws } t)
        rwa [(insertRel_frame p _ t).1] at this

end

/-! ## Soundness -/

/-- What a state of the saturated automaton stands for: control states for the configurations
reachable from the input language, states of the input for their own language, and the state added
for `(r.to, r.opLabel)` for the stacks that can lie below `r.opLabel`. -/
def PostSem (p : Pda W) (n nQ : Nat) (qp : List ((Nat × Nat) × Nat)) (E0 : Tr → Prop) (F : Nat → Prop)
    (x : Nat) (v : List Nat) : Prop :=
  if x < n then ∃ c, c.1 < n ∧ Accepted E0 F c ∧ Reach p.Has c (x, v)
  else if x < nQ then ∃ f, Path E0 x v f ∧ F f
  else ∀ (i : Nat) (r : Rule W) (l : Labels), (r, l) ∈ (p.st i).rules → r.op = .push →
    qFind qp (r.to, r.opLabel) = x →
    ∃ c, c.1 < n ∧ Accepted E0 F c ∧ Reach p.Has c (r.to, r.opLabel :: v)

/-- Reading `g` in front of `v`. -/
def read (g : Nat) (v : List Nat) : List Nat := if g = epsilon then v else g :: v

section
variable [LinearOrder W]

theorem postJ_sem {p : Pda W} (hp : p.WF) (hlab : p.nLabels ≤ epsilon) {nQ N : Nat}
    (hnQ : p.size ≤ nQ) {qp : List ((Nat × Nat) × Nat)} (hq : QOK p nQ N qp)
    {E0 : Tr → Prop} {F : Nat → Prop} {P : Tr → Prop}
    (hP : ∀ t, P t → ∀ v, PostSem p p.size nQ qp E0 F t.dst v →
      PostSem p p.size nQ qp E0 F t.src (read t.label v))
    {t : Tr} {tr : Trace} (h : PostJ p qp P t tr) (v : List Nat)
    (hv : PostSem p p.size nQ qp E0 F t.dst v) :
    PostSem p p.size nQ qp E0 F t.src (read t.label v) := by
  have hread : ∀ g v, g < p.nLabels → read g v = g :: v := by
    intro g v hg; unfold read; rw [if_neg (by omega)]
  -- one application of a rule
  have app : ∀ {a g q id : Nat} {r : Rule W} {l : Labels}, (p.st a).rules[id]? = some (r, l) →
      g ∈ p.expand l → P ⟨a, g, q⟩ → ∀ v, PostSem p p.size nQ qp E0 F q v →
      ∃ c, c.1 < p.size ∧ Accepted E0 F c ∧ Reach p.Has c (r.to, effect r.op g r.opLabel v) := by
    intro a g q id r l h1 h2 h3 v hv
    have hg := ((hp.mem_expand (List.mem_of_getElem? h1) g).1 h2).2
    have := hP _ h3 v hv
    dsimp only at this
    rw [hread g v hg] at this
    unfold PostSem at this
    rw [if_pos (Pda.lt_size_of_rule h1)] at this
    obtain ⟨c, hc1, hc2, hc3⟩ := this
    exact ⟨c, hc1, hc2, hc3.tail (Step.mk _ v (has_of_rule h1 h2))⟩
  cases h with
  | @pop a g q id r l h1 h2 h3 h4 =>
    have := app h1 h2 h4 v hv
    have hto := hp.toLt _ _ (List.mem_of_getElem? h1)
    dsimp only at hto ⊢
    unfold PostSem read
    rw [if_pos hto]
    simpa [h3, effect] using this
  | @swap a g q id r l h1 h2 h3 h4 =>
    have := app h1 h2 h4 v hv
    have hto := hp.toLt _ _ (List.mem_of_getElem? h1)
    dsimp only at hto ⊢
    rw [hread _ _ (hp.opLt _ _ (List.mem_of_getElem? h1) (.inr h3))]
    unfold PostSem
    rw [if_pos hto]
    simpa [h3, effect] using this
  | @noop a g q id r l h1 h2 h3 h4 =>
    have := app h1 h2 h4 v hv
    have hto := hp.toLt _ _ (List.mem_of_getElem? h1)
    dsimp only at hto ⊢
    rw [hread _ _ ((hp.mem_expand (List.mem_of_getElem? h1) g).1 h2).2]
    unfold PostSem
    rw [if_pos hto]
    simpa [h3, effect] using this
  | @push1 a g q id r l h1 h2 h3 h4 =>
    have hm := List.mem_of_getElem? h1
    have hto := hp.toLt _ _ hm
    have hr := (hq.range _ _ _ hm h3).1
    dsimp only at hto hv ⊢
    rw [hread _ _ (hp.opLt _ _ hm (.inl h3))]
    unfold PostSem at hv ⊢
    rw [if_neg (by omega), if_neg (by omega)] at hv
    rw [if_pos hto]
    exact hv a r l hm h3 rfl
  | @push2 a g q id r l h1 h2 h3 h4 h5 =>
    have hm := List.mem_of_getElem? h1
    have hr := (hq.range _ _ _ hm h3).1
    have := app h1 h2 h4 v hv
    dsimp only
    rw [hread _ _ ((hp.mem_expand hm g).1 h2).2]
    unfold PostSem
    rw [if_neg (by omega), if_neg (by omega)]
    intro i' r' l' hm' hop' heq
    obtain ⟨h6, h7⟩ := hq.inj _ _ _ _ _ _ hm' hop' hm h3 heq
    rw [h6, h7]
    simpa [h3, effect] using this
  | @eps f m g q h1 h2 =>
    have h3 := hP _ h1 _ (hP _ h2 v hv)
    simpa [read] using h3

theorem built_postSem [Zero W] {p : Pda W} (hp : p.WF) (hlab : p.nLabels ≤ epsilon) {nQ N : Nat}
    (hnQ : p.size ≤ nQ) {qp : List ((Nat × Nat) × Nat)} (hq : QOK p nQ N qp)
    {E0 E : List (AEdge W)} {F : Nat → Prop}
    (h0 : ∀ t ∈ keys E0, t.src < nQ ∧ t.dst < nQ ∧ p.size ≤ t.dst ∧ t.label ≠ epsilon)
    (h : Built (PostJ p qp) E0 E) :
    ∀ t ∈ keys E, ∀ v, PostSem p p.size nQ qp (· ∈ keys E0) F t.dst v →
      PostSem p p.size nQ qp (· ∈ keys E0) F t.src (read t.label v) := by
  induction h with
  | base =>
    intro t ht v hv
    obtain ⟨h1, h2, h3, h4⟩ := h0 t ht
    unfold PostSem read at *
    rw [if_neg (by omega), if_pos h2] at hv
    rw [if_neg h4]
    obtain ⟨f, hf, hF⟩ := hv
    have hpath : Path (· ∈ keys E0) t.src (t.label :: v) f := Path.cons ht hf
    split
    · rename_i hs
      exact ⟨(t.src, t.label :: v), hs, ⟨f, hpath, hF⟩, Relation.ReflTransGen.refl⟩
    · exact ⟨f, hpath, hF⟩
  | cons _ _ hj ih =>
    intro t ht v hv
    rcases List.mem_cons.1 ht with h1 | h1
    · have h1 : t = _ := h1
      subst h1; exact postJ_sem hp hlab hnQ hq ih hj v hv
    · exact ih t h1 v hv

/-- Soundness: what the saturated automaton accepts is reachable from the input language. -/
theorem post_sound [Zero W] {p : Pda W} (hp : p.WF) {a0 : Aut W} (ha : PostOK p a0) {s : PostSt W σ}
    (h : PostInv p a0 s) (q : Nat) (w : List Nat) (hq : q < p.size)
    (hacc : EAccepted (· ∈ keys s.aut.edges) (fun f => s.aut.isAcc f = true) (q, w)) :
    ∃ c, c.1 < p.size ∧ Accepted (· ∈ keys a0.edges) (fun f => a0.isAcc f = true) c ∧
      Reach p.Has c (q, w) := by
  obtain ⟨f, hpath, hF⟩ := hacc
  rw [h.isAcc] at hF
  have hfn : f < a0.n := by
    by_contra hn
    unfold Aut.isAcc at hF
    rw [List.getElem?_eq_none (by unfold Aut.n at hn; omega)] at hF
    simp at hF
  have hE := built_postSem (F := fun f => a0.isAcc f = true) hp ha.labels ha.size_le h.qok
    (fun t ht => ⟨(ha.valid t ht).1, (ha.valid t ht).2.2, ha.noInto t ht, by
      have := (ha.valid t ht).2.1
      have := ha.labels
      omega⟩) h.built
  have key : PostSem p p.size a0.n s.qPrime (· ∈ keys a0.edges) (fun f => a0.isAcc f = true) q w := by
    dsimp only at hpath
    clear hq
    induction hpath with
    | nil q =>
      unfold PostSem
      split
      · rename_i hq; exact ⟨(q, []), hq, ⟨q, .nil q, hF⟩, Relation.ReflTransGen.refl⟩
      · exact ⟨q, .nil q, hF⟩
    | cons hne he _ ih =>
      have := hE _ he _ (ih hF hfn)
      simpa [read, hne] using this
    | eps he _ ih =>
      have := hE _ he _ (ih hF hfn)
      simpa [read] using this
  unfold PostSem at key
  rwa [if_pos hq] at key

/-! ## Completeness -/

/-- The transition relation is closed under the post* saturation rules. -/
structure PostClosed (R : URule W → Prop) (n : Nat) (E : Tr → Prop) : Prop where
  into : ∀ t, E t → n ≤ t.dst
  eps : ∀ t, E t → t.label = epsilon → t.src < n
  pre : ∀ r, R r → r.pre ≠ epsilon ∧ r.src < n ∧ r.dst < n ∧
    (r.op = .push ∨ r.op = .swap → r.opLabel ≠ epsilon)
  rule : ∀ r, R r → ∀ q, E ⟨r.src, r.pre, q⟩ → match r.op with
    | .pop => E ⟨r.dst, epsilon, q⟩
    | .swap => E ⟨r.dst, r.opLabel, q⟩
    | .noop => E ⟨r.dst, r.pre, q⟩
    | .push => ∃ m, E ⟨r.dst, r.opLabel, m⟩ ∧ E ⟨m, r.pre, q⟩
  trans : ∀ f m g q, E ⟨f, epsilon, m⟩ → E ⟨m, g, q⟩ → E ⟨f, g, q⟩

omit [LinearOrder W] in
/-- From a state that is not a control state a path reads no epsilon. -/
theorem PostClosed.path {R : URule W → Prop} {n : Nat} {E : Tr → Prop} (hE : PostClosed R n E)
    {q f : Nat} {w : List Nat} (h : EPath E q w f) (hq : n ≤ q) :
    Path E q w f ∧ ∀ g ∈ w, g ≠ epsilon := by
  induction h with
  | nil q => exact ⟨.nil q, by simp⟩
  | cons hne he _ ih =>
    obtain ⟨h1, h2⟩ := ih (hE.into _ he)
    refine ⟨.cons he h1, ?_⟩
    intro g hg
    rcases List.mem_cons.1 hg with rfl | hg
    · exact hne
    · exact h2 g hg
  | eps he _ _ =>
    have := hE.eps _ he rfl
    dsimp only at this
    omega

omit [LinearOrder W] in
/-- The first symbol can be read by a single transition. -/
theorem PostClosed.first {R : URule W → Prop} {n : Nat} {E : Tr → Prop} (hE : PostClosed R n E)
    {x f g : Nat} {w : List Nat} (h : EPath E x (g :: w) f) :
    ∃ q, g ≠ epsilon ∧ E ⟨x, g, q⟩ ∧ EPath E q w f := by
  generalize hv : g :: w = v at h
  cases h with
  | nil => simp at hv
  | cons hne he hp =>
    simp only [List.cons.injEq] at hv
    obtain ⟨rfl, rfl⟩ := hv
    exact ⟨_, hne, he, hp⟩
  | @eps _ m _ _ he hp =>
    subst hv
    cases hp with
    | cons hne he2 hp2 => exact ⟨_, hne, hE.trans _ _ _ _ he he2, hp2⟩
    | eps he2 _ =>
      have := hE.eps _ he2 rfl
      have := hE.into _ he
      dsimp only at *
      omega

omit [LinearOrder W] in
theorem PostClosed.step {R : URule W → Prop} {n : Nat} {E : Tr → Prop} {F : Nat → Prop}
    (hE : PostClosed R n E) {c c' : Config} (hs : Step R c c') (ha : EAccepted E F c) :
    EAccepted E F c' := by
  obtain ⟨r, w, hr⟩ := hs
  obtain ⟨f, hp, hF⟩ := ha
  dsimp only at hp
  obtain ⟨q, hne, he, hp'⟩ := hE.first hp
  have h := hE.rule r hr q he
  have hpre := (hE.pre r hr).2.2.2
  refine ⟨f, ?_, hF⟩
  dsimp only
  cases hop : r.op <;> simp only [hop, effect] at h ⊢
  · obtain ⟨m, h1, h2⟩ := h
    exact .cons (hpre (.inl hop)) h1 (.cons hne h2 hp')
  · exact .eps h hp'
  · exact .cons (hpre (.inr hop)) h hp'
  · exact .cons hne h hp'

omit [LinearOrder W] in
theorem PostClosed.reach {R : URule W → Prop} {n : Nat} {E : Tr → Prop} {F : Nat → Prop}
    (hE : PostClosed R n E) {c c' : Config} (hs : Reach R c c') (ha : EAccepted E F c) :
    EAccepted E F c' := by
  induction hs with
  | refl => exact ha
  | tail _ h ih => exact hE.step h ih

/-- At an empty workset the automaton is closed. -/
theorem PostInv.closed [Zero W] {p : Pda W} (hp : p.WF) {a0 : Aut W} (ha : PostOK p a0)
    {s : PostSt W σ} (h : PostInv p a0 s) (hws : s.ws = []) :
    PostClosed p.Has p.size (· ∈ keys s.aut.edges) := by
  have hv := h.valid hp ha
  have hlab := ha.labels
  constructor
  · intro t ht; exact (hv t ht).2.1
  · intro t ht he
    rcases (hv t ht).2.2.2 with h1 | h1
    · omega
    · exact h1.2
  · intro r hr
    rw [Pda.Has_iff] at hr
    obtain ⟨l, hm, hg⟩ := hr
    obtain ⟨id, hid⟩ := List.mem_iff_getElem?.1 hm
    have h1 := ((hp.mem_expand hm _).1 hg).2
    refine ⟨by omega, Pda.lt_size_of_rule hid, hp.toLt _ _ hm, fun hop => ?_⟩
    have h2 : r.opLabel < p.nLabels := hp.opLt _ _ hm hop
    omega
  · intro r hr q he
    rw [Pda.Has_iff] at hr
    obtain ⟨l, hm, hg⟩ := hr
    obtain ⟨id, hid⟩ := List.mem_iff_getElem?.1 hm
    have h1 := (hp.mem_expand hm _).1 hg
    have h2 := h.ruleC _ he (Pda.lt_size_of_rule hid) (by dsimp only; omega) (by simp [hws]) id _ l hid h1.1
    unfold PostConseq at h2
    dsimp only at h2
    cases hop : r.op <;> simp only [Pda.toImpl, hop] at h2 ⊢
    · exact ⟨_, h2⟩
    · exact h2
    · exact h2
    · exact h2
  · intro f m g q h1 h2
    exact h.epsC f m g q h1 (by simp [hws]) h2

end

/-- A literal path without epsilon symbols is a path that skips epsilon. -/
theorem Path.toEPath {E : Tr → Prop} {q f : Nat} {w : List Nat} (h : Path E q w f)
    (hw : ∀ g ∈ w, g ≠ epsilon) : EPath E q w f := by
  induction h with
  | nil q => exact .nil q
  | cons he _ ih => exact .cons (hw _ (by simp)) he (ih fun g hg => hw g (by simp [hg]))

theorem Path.mono {E E' : Tr → Prop} (hE : ∀ t, E t → E' t) {q f : Nat} {w : List Nat}
    (h : Path E q w f) : Path E' q w f := by
  induction h with
  | nil q => exact .nil q
  | cons he _ ih => exact .cons (hE _ he) ih

theorem Path.labels {E : Tr → Prop} {P : Nat → Prop} (hE : ∀ t, E t → P t.label) {q f : Nat} {w : List Nat}
    (h : Path E q w f) : ∀ g ∈ w, P g := by
  induction h with
  | nil q => simp
  | cons he _ ih =>
    intro g hg
    rcases List.mem_cons.1 hg with rfl | hg
    · exact hE _ he
    · exact ih g hg

end Verif
