import Verif.Proofs.PostFinal
import Verif.Props.PreStar

/-!
# C03, C04, C06, C51: post* saturation

`postInit` is the constructor of the saturation started by `Solver::post_star`, `postRun p cb k`
performs `k` rounds of its loop (fewer if it stops), and `postStar` runs it to the end. `cb` is an
arbitrary early-termination callback; `noCb` is the version without one.

`PAut` is the precondition on the input automaton of C01/C02. In addition the label ids are smaller
than the epsilon label, as they are in the code, where both are `uint32_t`.
-/

namespace Verif.Props

variable {W σ : Type}

variable [LinearOrder W] [Zero W]

theorem PAut.post {p : Pda W} {a : Aut W} (ha : PAut p a) (hl : p.nLabels ≤ epsilon) : PostOK p a :=
  { ha.toAutOK with noInto := ha.noInto, labels := hl }

/-- C03: at every point of the saturation, every configuration accepted by the automaton is reachable
from a configuration accepted by the input automaton. Here transitions on epsilon read nothing. -/
theorem c03_post_sound_eps (h : HashOrder) {p : Pda W} (hp : p.WF) (hl : p.nLabels ≤ epsilon)
    {a : Aut W} (ha : PAut p a) (cb : Callback W σ) (e : σ) (k q : Nat) (w : List Nat) (hq : q < p.size)
    (hacc : EAccepted (· ∈ keys (postRun p cb k (postInit h p a e)).aut.edges)
      (fun f => (postRun p cb k (postInit h p a e)).aut.isAcc f = true) (q, w)) :
    ∃ c, c.1 < p.size ∧ Lang a c ∧ Reach p.Has c (q, w) :=
  post_sound hp (ha.post hl) (postRun_inv hp (ha.post hl) cb k (postInit_inv h (ha.post hl) e).1) q w hq hacc

/-- C03 for the membership test: what `accepts` reports at any point of the saturation is reachable
from the input language. -/
theorem c03_post_sound (h h' : HashOrder) {p : Pda W} (hp : p.WF) (hl : p.nLabels ≤ epsilon)
    {a : Aut W} (ha : PAut p a) (cb : Callback W σ) (e : σ) (k q : Nat) (w : List Nat) (hq : q < p.size)
    (hw : ∀ g ∈ w, g ≠ epsilon)
    (hacc : (postRun p cb k (postInit h p a e)).aut.accepts h' q w = true) :
    ∃ c, c.1 < p.size ∧ Lang a c ∧ Reach p.Has c (q, w) := by
  rw [accepts_iff] at hacc
  obtain ⟨f, hpath, hf⟩ := hacc
  exact c03_post_sound_eps h hp hl ha cb e k q w hq ⟨f, hpath.toEPath hw, hf⟩

theorem post_noCb_ws (h : HashOrder) {p : Pda W} (hp : p.WF) (hl : p.nLabels ≤ epsilon) {a : Aut W}
    (ha : PAut p a) : (postStar h p noCb a ()).ws = [] := by
  have hf : (postStar h p noCb a ()).found = false := by
    have := (postStar_found h hp (ha.post hl) (noCb_spec _) (e := ()) trivial).2
    simpa using this
  exact (postStar_done h hp (ha.post hl) noCb ()).resolve_right (by simp [hf])

/-- C04: after the saturation, every configuration reachable from the input language is accepted,
reading epsilon transitions as nothing. -/
theorem c04_post_complete_eps (h : HashOrder) {p : Pda W} (hp : p.WF) (hl : p.nLabels ≤ epsilon)
    {a : Aut W} (ha : PAut p a) (c c' : Config) (hc : Lang a c) (hr : Reach p.Has c c') :
    EAccepted (· ∈ keys (postStar h p noCb a ()).aut.edges)
      (fun f => (postStar h p noCb a ()).aut.isAcc f = true) c' := by
  have hinv := postStar_inv h hp (ha.post hl) noCb ()
  refine (hinv.closed hp (ha.post hl) (post_noCb_ws h hp hl ha)).reach hr ?_
  obtain ⟨f, hpath, hF⟩ := hc
  refine ⟨f, ?_, (hinv.isAcc f).trans hF⟩
  refine (hpath.mono fun t ht => hinv.built.mem_keys ht).toEPath ?_
  refine hpath.labels (P := fun g => g ≠ epsilon) fun t ht => ?_
  have := (ha.valid t ht).2.1
  omega

/-- C04 for the membership test: after the saturation `accepts` reports every reachable configuration
with a nonempty stack. -/
theorem c04_post_complete (h h' : HashOrder) {p : Pda W} (hp : p.WF) (hl : p.nLabels ≤ epsilon)
    {a : Aut W} (ha : PAut p a) (q : Nat) (w : List Nat) (hw : w ≠ []) (c : Config) (hc : Lang a c)
    (hr : Reach p.Has c (q, w)) : (postStar h p noCb a ()).aut.accepts h' q w = true := by
  have hcl := (postStar_inv h hp (ha.post hl) noCb ()).closed hp (ha.post hl) (post_noCb_ws h hp hl ha)
  obtain ⟨f, hpath, hF⟩ := c04_post_complete_eps h hp hl ha c (q, w) hc hr
  rw [accepts_iff]
  obtain ⟨g, v, rfl⟩ := List.exists_cons_of_ne_nil hw
  obtain ⟨q', _, he, hp'⟩ := hcl.first hpath
  exact ⟨f, .cons he (hcl.path hp' (hcl.into _ he)).1, hF⟩

/-- C03 and C04 together: after post*, `accepts` decides reachability from the input language for every
nonempty stack over the alphabet. -/
theorem c04_post_exact (h h' : HashOrder) {p : Pda W} (hp : p.WF) (hl : p.nLabels ≤ epsilon)
    {a : Aut W} (ha : PAut p a) (q : Nat) (w : List Nat) (hq : q < p.size) (hw : w ≠ [])
    (hwl : ∀ g ∈ w, g ≠ epsilon) :
    (postStar h p noCb a ()).aut.accepts h' q w = true ↔
      ∃ c, c.1 < p.size ∧ Lang a c ∧ Reach p.Has c (q, w) :=
  ⟨c03_post_sound h h' hp hl ha noCb () _ q w hq hwl,
    fun ⟨c, _, hc, hr⟩ => c04_post_complete h h' hp hl ha q w hw c hc hr⟩

/-- C03 and C04 with epsilon transitions reading nothing: the language is exactly the reachable set,
for all stacks. -/
theorem c04_post_exact_eps (h : HashOrder) {p : Pda W} (hp : p.WF) (hl : p.nLabels ≤ epsilon)
    {a : Aut W} (ha : PAut p a) (q : Nat) (w : List Nat) (hq : q < p.size) :
    EAccepted (· ∈ keys (postStar h p noCb a ()).aut.edges)
      (fun f => (postStar h p noCb a ()).aut.isAcc f = true) (q, w) ↔
      ∃ c, c.1 < p.size ∧ Lang a c ∧ Reach p.Has c (q, w) :=
  ⟨c03_post_sound_eps h hp hl ha noCb () _ q w hq,
    fun ⟨c, _, hc, hr⟩ => c04_post_complete_eps h hp hl ha c _ hc hr⟩

/-- C04, the disagreement found: `accepts` does not see a reachable configuration with an empty stack,
because it needs an epsilon transition. -/
theorem c04_post_misses_empty :
    let p : Pda Unit := Pda.build 1 [.rule 0 ⟨1, .pop, (), 0⟩ false [0]]
    let a : Aut Unit := Aut.single p.size 0 [0]
    a.accepts HashOrder.id 0 [0] = true ∧ Step p.Has (0, [0]) (1, []) ∧
      (postStar HashOrder.id p noCb a ()).aut.accepts HashOrder.id 1 [] = false := by
  refine ⟨by decide, ?_, by decide +kernel⟩
  exact Step.mk ⟨0, 0, 1, .pop, 0, ()⟩ []
    ((c23_rules 1 _ (by simp [PdaCall.OK, WSorted]) _).2 ⟨_, .head _, by simp [Adds]⟩)

/-- C06: the post* loop stops after at most `N * (L + 1) * N` steps, where `N` counts the states of the
automaton together with the added ones, with its workset empty unless the callback stopped it. -/
theorem c06_post_terminates (h : HashOrder) {p : Pda W} (hp : p.WF) (hl : p.nLabels ≤ epsilon)
    {a : Aut W} (ha : PAut p a) (cb : Callback W σ) (e : σ) (k : Nat)
    (hk : (postInit h p a e).aut.n * (p.nLabels + 1) * (postInit h p a e).aut.n ≤ k) :
    ((postRun p cb k (postInit h p a e)).ws = [] ∨ (postRun p cb k (postInit h p a e)).found = true) ∧
      postRun p cb k (postInit h p a e) = postStar h p cb a e := by
  have hd := postStar_done h hp (ha.post hl) cb e
  obtain ⟨j, rfl⟩ : ∃ j, k = postFuel p (postInit h p a e) + j :=
    ⟨k - postFuel p (postInit h p a e), by unfold postFuel; omega⟩
  have : postRun p cb (postFuel p (postInit h p a e) + j) (postInit h p a e) = postStar h p cb a e := by
    rw [postRun_add]
    exact postRun_stop p cb j _ hd
  rw [this]
  exact ⟨hd, rfl⟩

/-- The number of states added by post*: one for each target state and pushed label of a PUSH rule. -/
theorem c06_post_states (h : HashOrder) {p : Pda W} (hl : p.nLabels ≤ epsilon) {a : Aut W}
    (ha : PAut p a) (e : σ) (K : List (Nat × Nat))
    (hK : ∀ (i : Nat) (r : Rule W) (l : Labels), (r, l) ∈ (p.st i).rules → r.op = .push →
      (r.to, r.opLabel) ∈ K) :
    (postInit h p a e).aut.n ≤ a.n + K.length := by
  obtain ⟨hinv, _⟩ := postInit_inv h (ha.post hl) e
  obtain ⟨hq, _⟩ := qInit_inv p a
  have hauto : (postInit h p a e).aut = (qInit p a).1 := by
    unfold postInit
    simp only
    have key : ∀ (l : List Tr) (s : PostSt W σ), (l.foldl (postInitEdge p) s).aut = s.aut := by
      intro l
      induction l with
      | nil => intro s; rfl
      | cons t l ih => intro s; rw [List.foldl_cons, ih, (postInitEdge_frame p s t).1]
    rw [key]
  have hn : (qInit p a).1.n = a.n + (qInit p a).2.length := by simp [Aut.n, hq.acc]
  have hsub : (qInit p a).2.map Prod.fst ⊆ K := by
    intro k hk
    have key := qInit_keys p a k hk
    obtain ⟨st, hst, x, hx, hop, rfl⟩ := key
    obtain ⟨i, hi⟩ := List.mem_iff_getElem?.1 hst
    refine hK i x.1 x.2 ?_ hop
    unfold Pda.st
    rw [hi]
    exact hx
  have := (hq.nodup.subperm hsub).length_le
  rw [List.length_map] at this
  rw [hauto, hn]
  omega

/-- C51 for post*: at every point every transition is in range, its label is in the alphabet or it is an
epsilon transition from a control state; the states of the input keep their ids and accepting flags, and
added states are not accepting. -/
theorem c51_post_range (h : HashOrder) {p : Pda W} (hp : p.WF) (hl : p.nLabels ≤ epsilon) {a : Aut W}
    (ha : PAut p a) (cb : Callback W σ) (e : σ) (k : Nat) :
    (∀ t ∈ keys (postRun p cb k (postInit h p a e)).aut.edges,
      t.src < (postRun p cb k (postInit h p a e)).aut.n ∧
      t.dst < (postRun p cb k (postInit h p a e)).aut.n ∧ p.size ≤ t.dst ∧
      (t.label < p.nLabels ∨ (t.label = epsilon ∧ t.src < p.size))) ∧
    a.n ≤ (postRun p cb k (postInit h p a e)).aut.n ∧
    (∀ q, (postRun p cb k (postInit h p a e)).aut.isAcc q = a.isAcc q) := by
  have hi := postRun_inv hp (ha.post hl) cb k (postInit_inv h (ha.post hl) e).1
  refine ⟨fun t ht => ?_, hi.le, hi.isAcc⟩
  obtain ⟨h1, h2, h3, h4⟩ := hi.valid hp (ha.post hl) t ht
  exact ⟨h1, h3, h2, h4⟩

/-- C51 for post*: a transition of the input or inserted after `j` steps keeps its first annotation. -/
theorem c51_post_stable (h : HashOrder) {p : Pda W} (hp : p.WF) (hl : p.nLabels ≤ epsilon) {a : Aut W}
    (ha : PAut p a) (cb : Callback W σ) (e : σ) (j k : Nat) (t : Tr) (x : Ann W) :
    (a.getEdge t = some x → (postRun p cb j (postInit h p a e)).aut.getEdge t = some x) ∧
    ((postRun p cb j (postInit h p a e)).aut.getEdge t = some x →
      (postRun p cb (j + k) (postInit h p a e)).aut.getEdge t = some x) := by
  have hi := postRun_inv hp (ha.post hl) cb j (postInit_inv h (ha.post hl) e).1
  have hi2 := postRun_inv hp (ha.post hl) cb (j + k) (postInit_inv h (ha.post hl) e).1
  refine ⟨fun hx => getEdge_suffix hi.built.suffix (hi.built.nodup ha.nodup) hx, fun hx => ?_⟩
  refine getEdge_suffix ?_ (hi2.built.nodup ha.nodup) hx
  rw [postRun_add]
  exact postRun_suffix p cb k _

/-! ## A concrete case -/

example : (postStar HashOrder.id exPda noCb exAut ()).aut.accepts HashOrder.id 0 [2, 0] = true :=
  (c04_post_exact _ _ exPda_wf (by decide) exAut_ok 0 [2, 0] (by decide) (by simp) (by decide)).2 (by
    refine ⟨(0, [2, 0]), by decide, ?_, ?_⟩
    · exact ⟨2, .cons (q := 2) (by decide) (.cons (q := 2) (by decide) (.nil _)), by decide⟩
    · refine Relation.ReflTransGen.head (b := (1, [1, 2, 0])) ?_ (Relation.ReflTransGen.single ?_)
      · exact Step.mk ⟨0, 2, 1, .push, 1, ()⟩ [0]
          ((c23_rules 3 _ exCalls_ok _).2 ⟨_, .head _, by simp [Adds]⟩)
      · exact Step.mk ⟨1, 1, 0, .pop, 0, ()⟩ [2, 0]
          ((c23_rules 3 _ exCalls_ok _).2 ⟨_, .tail _ (.head _), by simp [Adds]⟩))

end Verif.Props
