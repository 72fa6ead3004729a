import Verif.Proofs.PreInv
import Mathlib.Data.List.ProdSigma
import Mathlib.Data.List.Nodup
import Mathlib.Data.List.Perm.Subperm

/-! # pre*: termination, soundness and completeness -/

namespace Verif

variable {W σ : Type}

/-! ## Counting transitions -/

/-- There are at most `N * L * N` transitions over `N` states and `L` labels. -/
theorem length_le_of_valid {p : Pda W} {N : Nat} {l : List Tr} (hn : l.Nodup)
    (hv : ∀ t ∈ l, Valid p N t) : l.length ≤ N * p.nLabels * N := by
  have hinj : Function.Injective (fun t : Tr => ((t.src, t.label), t.dst)) := by
    rintro ⟨a, b, c⟩ ⟨a', b', c'⟩ h
    simp only [Prod.mk.injEq] at h
    obtain ⟨⟨rfl, rfl⟩, rfl⟩ := h
    rfl
  have h1 : (l.map fun t : Tr => ((t.src, t.label), t.dst)).Nodup := List.Nodup.map hinj hn
  have h2 : (l.map fun t : Tr => ((t.src, t.label), t.dst)) ⊆
      ((List.range N).product (List.range p.nLabels)).product (List.range N) := by
    intro x hx
    obtain ⟨t, ht, rfl⟩ := List.mem_map.1 hx
    obtain ⟨a, b, c⟩ := hv t ht
    simp [List.mem_product, a, b, c]
  have h3 := (h1.subperm h2).length_le
  rw [List.length_map] at h3
  have h4 : (((List.range N).product (List.range p.nLabels)).product (List.range N)).length =
      N * p.nLabels * N := by
    rw [show ((List.range N).product (List.range p.nLabels)).product (List.range N) =
      ((List.range N) ×ˢ (List.range p.nLabels)) ×ˢ (List.range N) from rfl]
    rw [List.length_product, List.length_product]
    simp only [List.length_range]
  omega

section
variable [LinearOrder W] [Zero W]

/-! ## Invariants of the run -/

/-- What holds at every point of the main loop. -/
structure PreLoop (p : Pda W) (a0 : Aut W) (s : PreSt W σ) : Prop where
  inv : PreInv p a0 s
  cover : Cover a0.n s
  accDone : AccDone p a0.n s

theorem PreLoop.step {p : Pda W} (hp : p.WF) {a0 : Aut W} (ha : AutOK p a0)
    {s : PreSt W σ} (h : PreLoop p a0 s) (cb : Callback W σ) : PreLoop p a0 (preStep p cb s) := by
  obtain ⟨h1, h2, h3⟩ := h.inv.step hp ha h.cover h.accDone cb
  exact ⟨h1, h2, h3⟩

theorem preInit_loop (h : HashOrder) {p : Pda W} (hp : p.WF) (cb : Callback W σ)
    (a : Aut W) (e : σ) : PreLoop p a (preInit h p cb a e) := by
  obtain ⟨h1, h2, h3⟩ := preInit_inv h hp cb a e
  exact ⟨h1, h2, h3⟩

theorem preRun_loop {p : Pda W} (hp : p.WF) {a0 : Aut W} (ha : AutOK p a0)
    (cb : Callback W σ) (k : Nat) {s : PreSt W σ} (h : PreLoop p a0 s) :
    PreLoop p a0 (preRun p cb k s) := by
  induction k generalizing s with
  | zero => exact h
  | succ k ih =>
    unfold preRun
    split
    · exact h
    · exact ih (h.step hp ha cb)

theorem preStar_loop (h : HashOrder) {p : Pda W} (hp : p.WF) {a : Aut W}
    (ha : AutOK p a) (cb : Callback W σ) (e : σ) : PreLoop p a (preStar h p cb a e) :=
  preRun_loop hp ha cb _ (preInit_loop h hp cb a e)

/-! ## The early-termination flag -/

theorem addPop_found {p : Pda W} (hp : p.WF) {N : Nat} (hN : p.size ≤ N)
    {cb : Callback W σ} {Good : Aut W → σ → Prop} {Hit : Aut W → σ → Prop}
    (hcb : CbSpec cb (Valid p N) Good Hit) {s : PreSt W σ} (q : Nat)
    (hf : FoundOK Good Hit s.aut s.ext s.found) :
    FoundOK Good Hit (addPop p cb s q).aut (addPop p cb s q).ext (addPop p cb s q).found := by
  rw [addPop_eq]
  split
  · exact hf
  split
  · exact hf
  · refine preInsertAll_found hcb (popReqs p q) s (fun r hr => ?_) hf
    exact (popReqs_just hp q (fun _ => False) r hr).valid hp hN (fun t ht => ht.elim)

theorem preInit_found (h : HashOrder) {p : Pda W} (hp : p.WF)
    {cb : Callback W σ} {a : Aut W} (ha : AutOK p a) {e : σ}
    {Good : Aut W → σ → Prop} {Hit : Aut W → σ → Prop}
    (hcb : CbSpec cb (Valid p a.n) Good Hit) (hg : Good a e) :
    FoundOK Good Hit (preInit h p cb a e).aut (preInit h p cb a e).ext (preInit h p cb a e).found := by
  rw [preInit_eq]
  generalize hl : List.range a.n = l
  clear hl
  have h0 : FoundOK Good Hit ({ aut := a, ext := e } : PreSt W σ).aut
      ({ aut := a, ext := e } : PreSt W σ).ext ({ aut := a, ext := e } : PreSt W σ).found :=
    ⟨fun _ => hg, fun h => by cases h⟩
  revert h0
  generalize ({ aut := a, ext := e } : PreSt W σ) = s
  intro h0
  induction l generalizing s with
  | nil => exact h0
  | cons i l ih =>
    refine ih _ ?_
    unfold initRound
    simp only
    split
    · exact addPop_found hp ha.size_le hcb i h0
    · exact h0

theorem preStep_found {p : Pda W} (hp : p.WF) {a0 : Aut W} (ha : AutOK p a0)
    {cb : Callback W σ} {Good : Aut W → σ → Prop} {Hit : Aut W → σ → Prop}
    (hcb : CbSpec cb (Valid p a0.n) Good Hit) {s : PreSt W σ} (h : PreInv p a0 s)
    (hf : FoundOK Good Hit s.aut s.ext s.found) :
    FoundOK Good Hit (preStep p cb s).aut (preStep p cb s).ext (preStep p cb s).found := by
  rcases hws : s.ws with _ | ⟨t, ws⟩
  · unfold preStep; rw [hws]; exact hf
  have hj := h.reqs_just hp ha t ws hws
  have hv : ∀ y ∈ dpReqs p t s.dp ++ intoReqs p t s.popped (s.rel ++ [t]), Valid p a0.n y.1 :=
    fun y hy => (hj y hy).valid hp ha.size_le (h.valid hp ha)
  rw [preStep_eq p cb s t ws hws]
  split
  · exact preInsertAll_found hcb _ { s with ws := ws, rel := s.rel ++ [t] }
      (fun r hr => hv r (List.mem_append.2 (.inl hr))) hf
  · exact preInsertAll_found hcb _ { s with ws := ws, rel := s.rel ++ [t] } hv hf

theorem preRun_found {p : Pda W} (hp : p.WF) {a0 : Aut W} (ha : AutOK p a0)
    {cb : Callback W σ} {Good : Aut W → σ → Prop} {Hit : Aut W → σ → Prop}
    (hcb : CbSpec cb (Valid p a0.n) Good Hit) (k : Nat) {s : PreSt W σ} (h : PreLoop p a0 s)
    (hf : FoundOK Good Hit s.aut s.ext s.found) :
    FoundOK Good Hit (preRun p cb k s).aut (preRun p cb k s).ext (preRun p cb k s).found := by
  induction k generalizing s with
  | zero => exact hf
  | succ k ih =>
    unfold preRun
    split
    · exact hf
    · exact ih (h.step hp ha cb) (preStep_found hp ha hcb h.inv hf)

theorem preStar_found (h : HashOrder) {p : Pda W} (hp : p.WF)
    {cb : Callback W σ} {a : Aut W} (ha : AutOK p a) {e : σ}
    {Good : Aut W → σ → Prop} {Hit : Aut W → σ → Prop}
    (hcb : CbSpec cb (Valid p a.n) Good Hit) (hg : Good a e) :
    FoundOK Good Hit (preStar h p cb a e).aut (preStar h p cb a e).ext (preStar h p cb a e).found :=
  preRun_found hp ha hcb _ (preInit_loop h hp cb a e) (preInit_found h hp ha hcb hg)

/-! ## Termination -/

/-- The measure that every step decreases. -/
def preMeasure (U : Nat) (s : PreSt W σ) : Nat := 2 * (U - s.aut.edges.length) + s.ws.length

theorem PreInv.edges_le {p : Pda W} (hp : p.WF) {a0 : Aut W} (ha : AutOK p a0) {s : PreSt W σ}
    (h : PreInv p a0 s) : s.aut.edges.length ≤ a0.n * p.nLabels * a0.n := by
  have := length_le_of_valid (h.built.nodup ha.nodup) (h.valid hp ha)
  simpa [keys] using this

theorem preStep_measure {p : Pda W} (hp : p.WF) {a0 : Aut W} (ha : AutOK p a0)
    (cb : Callback W σ) {s : PreSt W σ} (h : PreLoop p a0 s) (hne : s.ws ≠ []) :
    preMeasure (a0.n * p.nLabels * a0.n) (preStep p cb s) <
      preMeasure (a0.n * p.nLabels * a0.n) s := by
  have hle := (h.step hp ha cb).inv.edges_le hp ha
  obtain ⟨t, ws, hws⟩ := List.exists_cons_of_ne_nil hne
  have hlen : s.ws.length = ws.length + 1 := by rw [hws]; rfl
  unfold preMeasure
  revert hle
  rw [preStep_eq p cb s t ws hws]
  split
  · have h1 := preInsertAll_len cb (dpReqs p t s.dp) { s with ws := ws, rel := s.rel ++ [t] }
    dsimp only at h1
    intro hle
    omega
  · have h1 := preInsertAll_len cb (dpReqs p t s.dp ++ intoReqs p t s.popped (s.rel ++ [t]))
      { s with ws := ws, rel := s.rel ++ [t] }
    dsimp only at h1 ⊢
    intro hle
    omega

theorem preRun_done {p : Pda W} (hp : p.WF) {a0 : Aut W} (ha : AutOK p a0)
    (cb : Callback W σ) (k : Nat) {s : PreSt W σ} (h : PreLoop p a0 s)
    (hm : preMeasure (a0.n * p.nLabels * a0.n) s ≤ k) :
    (preRun p cb k s).ws = [] ∨ (preRun p cb k s).found = true := by
  induction k generalizing s with
  | zero =>
    left
    unfold preMeasure at hm
    exact List.length_eq_zero_iff.1 (by simp only [preRun]; omega)
  | succ k ih =>
    unfold preRun
    split
    · rename_i hc
      simpa using hc
    · rename_i hc
      have hne : s.ws ≠ [] := by
        intro h0; simp [h0] at hc
      have := preStep_measure hp ha cb h hne
      exact ih (h.step hp ha cb) (by omega)

/-- The number of transitions from states below `k`. -/
def srcBelow (k : Nat) (s : PreSt W σ) : Nat := (keys s.aut.edges).countP fun t => t.src < k

theorem preInsert_srcBelow (cb : Callback W σ) (k : Nat) (s : PreSt W σ) (r : Tr × Trace) :
    srcBelow k s ≤ srcBelow k (preInsert cb s r) := by
  unfold preInsert
  split
  · exact Nat.le_refl _
  · rename_i h
    have : srcBelow k s ≤ (keys (s.aut.emplaceEdge r.1 (r.2, 0)).edges).countP fun t => t.src < k := by
      simp only [Aut.emplaceEdge, h, Bool.false_eq_true, if_false, srcBelow, keys, List.map_cons]
      exact (List.sublist_cons_self _ _).countP_le
    simp only
    split <;> exact this

theorem preInsertAll_srcBelow (cb : Callback W σ) (k : Nat) (rs : List (Tr × Trace)) (s : PreSt W σ) :
    srcBelow k s ≤ srcBelow k (preInsertAll cb s rs) := by
  induction rs generalizing s with
  | nil => exact Nat.le_refl _
  | cons r rs ih => exact Nat.le_trans (preInsert_srcBelow cb k s r) (ih _)

theorem countP_src_succ (l : List Tr) (k : Nat) :
    (l.countP fun t => t.src < k) + (l.filter fun t => t.src == k).length =
      l.countP fun t => t.src < k + 1 := by
  induction l with
  | nil => rfl
  | cons t l ih =>
    simp only [List.countP_cons, List.filter_cons, beq_iff_eq, decide_eq_true_eq]
    split <;> split <;> split <;> (try simp only [List.length_cons]) <;> omega

theorem initRound_len (h : HashOrder) (p : Pda W) (cb : Callback W σ) (s : PreSt W σ) (i : Nat)
    (hs : s.ws.length ≤ s.aut.edges.length + srcBelow i s) :
    (initRound h p cb s i).ws.length ≤
      (initRound h p cb s i).aut.edges.length + srcBelow (i + 1) (initRound h p cb s i) := by
  have h1 : ((s.aut.out h i).reverse ++ s.ws).length ≤ s.aut.edges.length + srcBelow (i + 1) s := by
    have := (s.aut.out_perm h i).length_eq
    have h2 := countP_src_succ (keys s.aut.edges) i
    simp only [List.length_append, List.length_reverse, srcBelow] at *
    omega
  unfold initRound
  simp only
  split
  · rw [addPop_eq]
    split
    · exact h1
    split
    · exact h1
    · have h2 := preInsertAll_len cb (popReqs p i) { s with ws := (s.aut.out h i).reverse ++ s.ws }
      have h3 := preInsertAll_srcBelow cb (i + 1) (popReqs p i)
        { s with ws := (s.aut.out h i).reverse ++ s.ws }
      simp only [srcBelow] at *
      omega
  · exact h1

theorem preInit_len (h : HashOrder) (p : Pda W) (cb : Callback W σ) (a : Aut W) (e : σ) :
    (preInit h p cb a e).ws.length ≤ 2 * (preInit h p cb a e).aut.edges.length := by
  rw [preInit_eq]
  suffices hs : ∀ k,
      ((List.range k).foldl (initRound h p cb) { aut := a, ext := e }).ws.length ≤
      ((List.range k).foldl (initRound h p cb) { aut := a, ext := e }).aut.edges.length +
      srcBelow k ((List.range k).foldl (initRound h p cb) { aut := a, ext := e }) by
    have h1 := hs a.n
    have h2 : srcBelow a.n ((List.range a.n).foldl (initRound h p cb) { aut := a, ext := e }) ≤
        ((List.range a.n).foldl (initRound h p cb) { aut := a, ext := e }).aut.edges.length := by
      have := List.countP_le_length (p := fun t : Tr => decide (t.src < a.n))
        (l := keys ((List.range a.n).foldl (initRound h p cb) { aut := a, ext := e }).aut.edges)
      simpa [srcBelow, keys] using this
    omega
  intro k
  induction k with
  | zero => simp
  | succ k ih =>
    rw [List.range_succ, List.foldl_append]
    exact initRound_len h p cb _ k ih

theorem preStar_done (h : HashOrder) {p : Pda W} (hp : p.WF) {a : Aut W}
    (ha : AutOK p a) (cb : Callback W σ) (e : σ) :
    (preStar h p cb a e).ws = [] ∨ (preStar h p cb a e).found = true := by
  have hl := preInit_loop h hp cb a e
  refine preRun_done hp ha cb _ hl ?_
  have h1 := preInit_len h p cb a e
  have h2 := hl.inv.edges_le hp ha
  unfold preMeasure preFuel
  omega

end

/-! ## Soundness -/

/-- What a state of the saturated automaton stands for. -/
def PreSem (R : URule W → Prop) (n : Nat) (E0 : Tr → Prop) (F : Nat → Prop) (q : Nat) (v : List Nat) :
    Prop :=
  if q < n then ∃ c, Reach R (q, v) c ∧ Accepted E0 F c else ∃ f, Path E0 q v f ∧ F f

theorem preSem_step {R : URule W → Prop} {n : Nat} {E0 : Tr → Prop} {F : Nat → Prop} (r : URule W)
    (hr : R r) (h1 : r.src < n) (h2 : r.dst < n) (v : List Nat)
    (h : PreSem R n E0 F r.dst (effect r.op r.pre r.opLabel v)) :
    PreSem R n E0 F r.src (r.pre :: v) := by
  unfold PreSem at *
  rw [if_pos h2] at h
  rw [if_pos h1]
  obtain ⟨c, hc, ha⟩ := h
  exact ⟨c, Relation.ReflTransGen.head (Step.mk r v hr) hc, ha⟩

section
variable [LinearOrder W]

theorem has_of_rule {p : Pda W} {a id g : Nat} {r : Rule W} {l : Labels}
    (h1 : (p.st a).rules[id]? = some (r, l)) (h2 : g ∈ p.expand l) :
    p.Has { src := a, pre := g, dst := r.to, op := r.op, opLabel := r.opLabel, weight := r.weight } := by
  rw [Pda.Has_iff]
  exact ⟨l, List.mem_of_getElem? h1, h2⟩

theorem preJ_sem {p : Pda W} (hp : p.WF) {E0 : Tr → Prop} {F : Nat → Prop} {P : Tr → Prop}
    (hP : ∀ t, P t → ∀ v, PreSem p.Has p.size E0 F t.dst v →
      PreSem p.Has p.size E0 F t.src (t.label :: v))
    {t : Tr} {tr : Trace} (h : PreJ p P t tr) (v : List Nat)
    (hv : PreSem p.Has p.size E0 F t.dst v) : PreSem p.Has p.size E0 F t.src (t.label :: v) := by
  cases h with
  | @pop a g id r l h1 h2 h3 =>
    refine preSem_step _ (has_of_rule h1 h2) (Pda.lt_size_of_rule h1)
      (hp.toLt _ _ (List.mem_of_getElem? h1)) v ?_
    simpa [h3, effect] using hv
  | @swap a g q id r l h1 h2 h3 h4 =>
    refine preSem_step _ (has_of_rule h1 h2) (Pda.lt_size_of_rule h1)
      (hp.toLt _ _ (List.mem_of_getElem? h1)) v ?_
    simpa [h3, effect] using hP _ h4 v hv
  | @noop a g q id r l h1 h2 h3 h4 =>
    refine preSem_step _ (has_of_rule h1 h2) (Pda.lt_size_of_rule h1)
      (hp.toLt _ _ (List.mem_of_getElem? h1)) v ?_
    simpa [h3, effect] using hP _ h4 v hv
  | @push a g q m id r l h1 h2 h3 h4 h5 =>
    refine preSem_step _ (has_of_rule h1 h2) (Pda.lt_size_of_rule h1)
      (hp.toLt _ _ (List.mem_of_getElem? h1)) v ?_
    simpa [h3, effect] using hP _ h4 _ (hP _ h5 v hv)

theorem built_preSem [Zero W] {p : Pda W} (hp : p.WF) {E0 E : List (AEdge W)} {F : Nat → Prop}
    (h0 : ∀ t ∈ keys E0, p.size ≤ t.dst) (h : Built (PreJ p) E0 E) :
    ∀ t ∈ keys E, ∀ v, PreSem p.Has p.size (· ∈ keys E0) F t.dst v →
      PreSem p.Has p.size (· ∈ keys E0) F t.src (t.label :: v) := by
  induction h with
  | base =>
    intro t ht v hv
    unfold PreSem at *
    rw [if_neg (by have := h0 t ht; omega)] at hv
    obtain ⟨f, hf, hF⟩ := hv
    have hpath : Path (· ∈ keys E0) t.src (t.label :: v) f := Path.cons ht hf
    split
    · exact ⟨_, Relation.ReflTransGen.refl, f, hpath, hF⟩
    · exact ⟨f, hpath, hF⟩
  | cons _ _ hj ih =>
    intro t ht v hv
    rcases List.mem_cons.1 ht with h1 | h1
    · have h1 : t = _ := h1
      subst h1; exact preJ_sem hp ih hj v hv
    · exact ih t h1 v hv

/-- Soundness: what the saturated automaton accepts can reach the input language. -/
theorem pre_sound [Zero W] {p : Pda W} (hp : p.WF) {E0 E : List (AEdge W)} {F : Nat → Prop}
    (h0 : ∀ t ∈ keys E0, p.size ≤ t.dst) (h : Built (PreJ p) E0 E) (q : Nat) (w : List Nat)
    (hq : q < p.size) (hacc : Accepted (· ∈ keys E) F (q, w)) :
    ∃ c, Reach p.Has (q, w) c ∧ Accepted (· ∈ keys E0) F c := by
  obtain ⟨f, hpath, hF⟩ := hacc
  have key : PreSem p.Has p.size (· ∈ keys E0) F q w := by
    dsimp only at hpath
    clear hq
    induction hpath with
    | nil q =>
      unfold PreSem
      split
      · exact ⟨_, Relation.ReflTransGen.refl, q, .nil q, hF⟩
      · exact ⟨q, .nil q, hF⟩
    | cons he _ ih => exact built_preSem hp h0 h _ he _ (ih hF)
  unfold PreSem at key
  rwa [if_pos hq] at key

/-! ## Completeness -/

/-- The transition relation is closed under the saturation rules. -/
def PreClosed (R : URule W → Prop) (F : Nat → Prop) (E : Tr → Prop) : Prop :=
  ∀ r, R r → match r.op with
    | .pop => (F r.dst ∨ ∃ g q, E ⟨r.dst, g, q⟩) → E ⟨r.src, r.pre, r.dst⟩
    | .swap => ∀ q, E ⟨r.dst, r.opLabel, q⟩ → E ⟨r.src, r.pre, q⟩
    | .noop => ∀ q, E ⟨r.dst, r.pre, q⟩ → E ⟨r.src, r.pre, q⟩
    | .push => ∀ m q, E ⟨r.dst, r.opLabel, m⟩ → E ⟨m, r.pre, q⟩ → E ⟨r.src, r.pre, q⟩

theorem PreClosed.step {R : URule W → Prop} {F : Nat → Prop} {E : Tr → Prop}
    (hE : PreClosed R F E) {c c' : Config} (hs : Step R c c') (ha : Accepted E F c') :
    Accepted E F c := by
  obtain ⟨r, w, hr⟩ := hs
  have h := hE r hr
  obtain ⟨f, hp, hF⟩ := ha
  dsimp only at hp
  cases hop : r.op <;> simp only [hop, effect] at h hp
  · cases hp with
    | cons he1 hp' =>
      cases hp' with
      | cons he2 hp'' => exact ⟨f, .cons (h _ _ he1 he2) hp'', hF⟩
  · refine ⟨f, .cons (h ?_) hp, hF⟩
    cases hp with
    | nil => exact .inl hF
    | cons he _ => exact .inr ⟨_, _, he⟩
  · cases hp with
    | cons he1 hp' => exact ⟨f, .cons (h _ he1) hp', hF⟩
  · cases hp with
    | cons he1 hp' => exact ⟨f, .cons (h _ he1) hp', hF⟩

theorem PreClosed.reach {R : URule W → Prop} {F : Nat → Prop} {E : Tr → Prop}
    (hE : PreClosed R F E) {c c' : Config} (hs : Reach R c c') (ha : Accepted E F c') :
    Accepted E F c := by
  induction hs using Relation.ReflTransGen.head_induction_on with
  | refl => exact ha
  | head h _ ih => exact hE.step h ih

/-- At an empty workset the automaton is closed. -/
theorem PreLoop.closed [Zero W] {p : Pda W} (hp : p.WF) (hk : p.LookupOK) {a0 : Aut W} (ha : AutOK p a0)
    {s : PreSt W σ} (h : PreLoop p a0 s) (hws : s.ws = []) :
    PreClosed p.Has (fun q => s.aut.isAcc q = true) (· ∈ keys s.aut.edges) := by
  have hrel : ∀ t ∈ keys s.aut.edges, t ∈ s.rel := by
    intro t ht
    rcases h.cover t ht (h.inv.valid hp ha t ht).1 with h1 | h1
    · rw [hws] at h1; simp at h1
    · exact h1
  intro r hr
  rw [Pda.Has_iff] at hr
  obtain ⟨l, hm, hg⟩ := hr
  obtain ⟨id, hid⟩ := List.mem_iff_getElem?.1 hm
  have hto : r.dst < p.size := hp.toLt _ _ hm
  have hc := (hp.mem_expand hm r.pre).1 hg
  cases hop : r.op <;> simp only
  · intro m q h1 h2
    have h3 := h.inv.pushC _ (hrel _ h1) r.src id _ l hid rfl hop rfl (hk.missed hm)
    exact h.inv.dpC _ _ _ h3 _ (hrel _ h2) rfl _ _ hid hc.1
  · intro h1
    refine h.inv.popC r.dst ?_ r.src id _ l hid rfl hop _ hg
    rcases h1 with h1 | ⟨g, q, h1⟩
    · refine h.accDone r.dst ?_ hto h1
      have := ha.size_le
      omega
    · exact h.inv.popR _ (hrel _ h1) hto
  · intro q h1
    exact h.inv.swapC _ (hrel _ h1) r.src id _ l hid rfl hop rfl _ hg
  · intro q h1
    exact h.inv.noopC _ (hrel _ h1) r.src id _ l hid rfl hop hc.1

end

end Verif
