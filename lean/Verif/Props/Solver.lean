import Verif.Props.Product

/-!
# C08-C11: the engines on a solver instance

`CanReach p a b` is the specification: some configuration accepted by the initial automaton can reach one accepted by
the final automaton. The theorems hold for every order of iteration over hash maps. They are about the versions that
are not `Shortest`.
-/

namespace Verif.Props

open Verif.Instance

variable {W : Type} [LinearOrder W] [Zero W]

omit [LinearOrder W] [Zero W] in
/-- Some configuration of `a` with a control state of the PDA reaches a configuration of `b`. -/
def CanReach (p : Pda W) (a b : Aut W) : Prop :=
  ∃ c c', c.1 < p.size ∧ Lang a c ∧ Reach p.Has c c' ∧ Lang b c'

/-- C08: `post_star_accepts(instance)`. -/
theorem c08_post_star_accepts (h : HashOrder) {p : Pda W} (hp : p.WF) (hl : p.nLabels ≤ epsilon) {a b : Aut W}
    (ha : PAut p a) (hb : AutOK p b) :
    (postStarAccepts h p (ofAutomata p.size a b)).2 = true ↔ CanReach p a b :=
  (postStarAccepts_spec h hp (ha.post hl) hb).1

/-- C08: `post_star_accepts_no_ET(instance)`. -/
theorem c08_post_star_accepts_no_et (h : HashOrder) {p : Pda W} (hp : p.WF) (hl : p.nLabels ≤ epsilon) {a b : Aut W}
    (ha : PAut p a) (hb : AutOK p b) :
    (postStarAcceptsNoET h p (ofAutomata p.size a b)).2 = true ↔ CanReach p a b :=
  (postStarAcceptsNoET_spec h hp (ha.post hl) hb).1

/-- C09: `pre_star_accepts(instance)`, when the rule lookup misses nothing; see `c11_engines_differ` for the rest. -/
theorem c09_pre_star_accepts_partial (h : HashOrder) {p : Pda W} (hp : p.WF) (hk : p.LookupOK) (hl : p.nLabels ≤ epsilon)
    {a b : Aut W} (ha : AutOK p a) (hb : PAut p b) :
    (Instance.preStarAccepts h p (ofAutomata p.size a b)).2 = true ↔ CanReach p a b :=
  have h1 := (Instance.preStarAccepts_spec h hp hl ha hb.toAutOK hb.noInto).1
  ⟨h1.1, h1.2 hk⟩

/-- C09, the half that holds for all weights: a positive answer of `pre_star_accepts(instance)` is right. -/
theorem c09_pre_star_sound (h : HashOrder) {p : Pda W} (hp : p.WF) (hl : p.nLabels ≤ epsilon)
    {a b : Aut W} (ha : AutOK p a) (hb : PAut p b)
    (hr : (Instance.preStarAccepts h p (ofAutomata p.size a b)).2 = true) : CanReach p a b :=
  (Instance.preStarAccepts_spec h hp hl ha hb.toAutOK hb.noInto).1.1 hr

/-- C10, the half that holds for all weights: a positive answer of `dual_search_accepts(instance)` is right. -/
theorem c10_dual_search_sound (h : HashOrder) {p : Pda W} (hp : p.WF) (hl : p.nLabels ≤ epsilon)
    {a b : Aut W} (ha : PAut p a) (hb : PAut p b)
    (hr : (dualSearchAccepts h p (ofAutomata p.size a b)).2 = true) : CanReach p a b :=
  (dualSearchAccepts_spec h hp (ha.post hl) hb.toAutOK hb.noInto).1.1 hr

/-- C10: `dual_search_accepts(instance)`, when the rule lookup misses nothing. -/
theorem c10_dual_search_accepts_partial (h : HashOrder) {p : Pda W} (hp : p.WF) (hk : p.LookupOK) (hl : p.nLabels ≤ epsilon)
    {a b : Aut W} (ha : PAut p a) (hb : PAut p b) :
    (dualSearchAccepts h p (ofAutomata p.size a b)).2 = true ↔ CanReach p a b :=
  have h1 := (dualSearchAccepts_spec h hp (ha.post hl) hb.toAutOK hb.noInto).1
  ⟨h1.1, h1.2 hk⟩

/-- C11: all engines give the same answer, whatever the iteration orders. -/
theorem c11_engines_agree_partial (h1 h2 h3 h4 : HashOrder) {p : Pda W} (hp : p.WF) (hk : p.LookupOK)
    (hl : p.nLabels ≤ epsilon) {a b : Aut W} (ha : PAut p a) (hb : PAut p b) :
    (Instance.preStarAccepts h1 p (ofAutomata p.size a b)).2 = (postStarAccepts h2 p (ofAutomata p.size a b)).2 ∧
    (dualSearchAccepts h3 p (ofAutomata p.size a b)).2 = (postStarAccepts h2 p (ofAutomata p.size a b)).2 ∧
    (postStarAcceptsNoET h4 p (ofAutomata p.size a b)).2 = (postStarAccepts h2 p (ofAutomata p.size a b)).2 := by
  refine ⟨?_, ?_, ?_⟩ <;> rw [Bool.eq_iff_iff, c08_post_star_accepts h2 hp hl ha hb.toAutOK]
  · exact c09_pre_star_accepts_partial h1 hp hk hl ha.toAutOK hb
  · exact c10_dual_search_accepts_partial h3 hp hk hl ha hb
  · exact c08_post_star_accepts_no_et h4 hp hl ha hb.toAutOK

omit [LinearOrder W] [Zero W] in
/-- C09, C10 and C11 without weights: all engines decide reachability, with no condition on the rules. -/
theorem c11_engines_unweighted (h1 h2 h3 h4 : HashOrder) {p : Pda Unit} (hp : p.WF) (hl : p.nLabels ≤ epsilon)
    {a b : Aut Unit} (ha : PAut p a) (hb : PAut p b) :
    ((Instance.preStarAccepts h1 p (ofAutomata p.size a b)).2 = true ↔ CanReach p a b) ∧
    ((postStarAccepts h2 p (ofAutomata p.size a b)).2 = true ↔ CanReach p a b) ∧
    ((dualSearchAccepts h3 p (ofAutomata p.size a b)).2 = true ↔ CanReach p a b) ∧
    ((postStarAcceptsNoET h4 p (ofAutomata p.size a b)).2 = true ↔ CanReach p a b) :=
  ⟨c09_pre_star_accepts_partial h1 hp (lookupOK_unit p) hl ha.toAutOK hb, c08_post_star_accepts h2 hp hl ha hb.toAutOK,
    c10_dual_search_accepts_partial h3 hp (lookupOK_unit p) hl ha hb, c08_post_star_accepts_no_et h4 hp hl ha hb.toAutOK⟩

/-- C09 and C10 need the lookup condition of C24: with a negative weight on a PUSH rule with operand label 0, pre*
misses the step, so the engines differ. -/
theorem c11_engines_differ :
    let p : Pda Int := Pda.build 1 [.rule 0 ⟨1, .push, -1, 0⟩ false [0]]
    let a : Aut Int := Aut.single p.size 0 [0]
    let b : Aut Int := Aut.single p.size 1 [0, 0]
    (Instance.preStarAccepts HashOrder.id p (ofAutomata p.size a b)).2 = false ∧
      (postStarAccepts HashOrder.id p (ofAutomata p.size a b)).2 = true := by
  decide +kernel

/-! ## Instances built from NFAs -/

/-- C08-C10 for the instance that the constructor from two NFAs builds: the answer is whether a configuration with a
control state in `ms` and a stack in the language of `m` reaches one with a control state in `ks` and a stack in the
language of `k`. -/
theorem c11_nfa_instance_partial (h : HashOrder) {p : Pda W} (hp : p.WF) (hk : p.LookupOK) (hl : p.nLabels ≤ epsilon)
    {m k : Nfa} (hm : m.WF) (hkk : k.WF)
    (lm : ∀ q s, (q, s) ∈ m.states → ∀ e ∈ s.edges, ∀ g ∈ e.syms, g < p.nLabels)
    (lk : ∀ q s, (q, s) ∈ k.states → ∀ e ∈ s.edges, ∀ g ∈ e.syms, g < p.nLabels)
    {ms ks : List Nat} (sm : SSorted ms) (sk : SSorted ks) (hms : ∀ q ∈ ms, q < p.size) (hks : ∀ q ∈ ks, q < p.size) :
    let i := Instance.ofNfas (W := W) p.size p.nLabels m.compile ms k.compile ks
    let reachable := ∃ q v q' v', q ∈ ms ∧ m.Lang v ∧ (∀ g ∈ v, g < p.nLabels) ∧ Reach p.Has (q, v) (q', v') ∧
      q' ∈ ks ∧ k.Lang v' ∧ ∀ g ∈ v', g < p.nLabels
    ((postStarAccepts h p i).2 = true ↔ reachable) ∧ ((Instance.preStarAccepts h p i).2 = true ↔ reachable) ∧
      ((dualSearchAccepts h p i).2 = true ↔ reachable) := by
  intro i reachable
  have ha := c16_from_nfa_ok (W := W) hm p lm sm hms
  have hb := c16_from_nfa_ok (W := W) hkk p lk sk hks
  have la := fun c hc w => c16_from_nfa (W := W) HashOrder.id hm lm sm hms c hc w
  have lb := fun c hc w => c16_from_nfa (W := W) HashOrder.id hkk lk sk hks c hc w
  have hi : i = ofAutomata p.size _ _ := c21_of_nfas (W := W) hm hkk lm lk sm sk hms hks
  rw [hi]
  have hc : CanReach p (Aut.ofNfa (W := W) p.size p.nLabels m.compile ms) (Aut.ofNfa p.size p.nLabels k.compile ks) ↔
      reachable := by
    constructor
    · rintro ⟨⟨q, v⟩, ⟨q', v'⟩, h1, h2, h3, h4⟩
      obtain ⟨a1, a2, a3⟩ := (la q h1 v).1 ((accepts_iff _ _ _ _).2 h2)
      obtain ⟨b1, b2, b3⟩ := (lb q' (reach_lt hp h3 h1) v').1 ((accepts_iff _ _ _ _).2 h4)
      exact ⟨q, v, q', v', a1, a2, a3, h3, b1, b2, b3⟩
    · rintro ⟨q, v, q', v', a1, a2, a3, h3, b1, b2, b3⟩
      exact ⟨(q, v), (q', v'), hms q a1, (accepts_iff _ _ _ _).1 ((la q (hms q a1) v).2 ⟨a1, a2, a3⟩), h3,
        (accepts_iff _ _ _ _).1 ((lb q' (hks q' b1) v').2 ⟨b1, b2, b3⟩)⟩
  rw [← hc]
  exact ⟨c08_post_star_accepts h hp hl ha hb.toAutOK, c09_pre_star_accepts_partial h hp hk hl ha.toAutOK hb,
    c10_dual_search_accepts_partial h hp hk hl ha hb⟩

/-! ## Concrete cases -/

/-- With a negative weight pre* may still find a path, and then it is right. -/
example : CanReach (Pda.build 1 [.rule 0 ⟨1, .swap, (-1 : Int), 0⟩ false [0]]) (Aut.single 2 0 [0]) (Aut.single 2 1 [0]) :=
  c09_pre_star_sound HashOrder.id (Pda.WF_build 1 _ (by simp [PdaCall.OK, WSorted])) (by decide)
    ⟨by decide +kernel, by unfold Valid; decide +kernel, by decide +kernel⟩
    { size_le := by decide +kernel, valid := by unfold Valid; decide +kernel, nodup := by decide +kernel, noInto := by decide +kernel }
    (by decide +kernel)

/-- Accepts `⟨1, 1 1 0⟩`. -/
def exFrom : Aut Unit := Aut.single 2 1 [1, 1, 0]

theorem exFrom_ok : PAut exPda exFrom where
  size_le := by decide
  valid := by unfold Valid; decide
  nodup := by decide
  noInto := by decide

/-- `⟨1, 1 1 0⟩` reaches `⟨0, 2 0⟩`, so all engines say yes. -/
theorem ex_canReach : CanReach exPda exFrom exAut :=
  ⟨(1, [1, 1, 0]), (0, [2, 0]), by decide,
    ⟨4, .cons (q := 2) (by decide) (.cons (q := 3) (by decide) (.cons (q := 4) (by decide) (.nil _))), by decide⟩, by
      refine Relation.ReflTransGen.head (b := (0, [1, 0])) ?_ (Relation.ReflTransGen.single ?_)
      · exact Step.mk ⟨1, 1, 0, .pop, 0, ()⟩ [1, 0]
          ((c23_rules 3 _ exCalls_ok _).2 ⟨_, .tail _ (.head _), by simp [Adds]⟩)
      · exact Step.mk ⟨0, 1, 0, .swap, 2, ()⟩ [0]
          ((c23_rules 3 _ exCalls_ok _).2 ⟨_, .tail _ (.tail _ (.head _)), by simp [Adds]⟩),
    ⟨2, .cons (q := 2) (by decide) (.cons (q := 2) (by decide) (.nil _)), by decide⟩⟩

example : (postStarAccepts HashOrder.id exPda (ofAutomata exPda.size exFrom exAut)).2 = true :=
  (c08_post_star_accepts _ exPda_wf (by decide) exFrom_ok exAut_ok.toAutOK).2 ex_canReach

example : (Instance.preStarAccepts HashOrder.id exPda (ofAutomata exPda.size exFrom exAut)).2 = true :=
  (c09_pre_star_accepts_partial _ exPda_wf (lookupOK_unit _) (by decide) exFrom_ok.toAutOK exAut_ok).2 ex_canReach

example : (dualSearchAccepts HashOrder.id exPda (ofAutomata exPda.size exFrom exAut)).2 = true :=
  (c10_dual_search_accepts_partial _ exPda_wf (lookupOK_unit _) (by decide) exFrom_ok exAut_ok).2 ex_canReach

/-- A negative answer: the label 2 at the bottom of the stack never becomes 0. -/
example :
    (postStarAccepts HashOrder.id exPda (ofAutomata exPda.size (Aut.single 2 1 [1, 1, 2]) exAut)).2 = false ∧
    (Instance.preStarAccepts HashOrder.id exPda (ofAutomata exPda.size (Aut.single 2 1 [1, 1, 2]) exAut)).2 = false ∧
    (dualSearchAccepts HashOrder.id exPda (ofAutomata exPda.size (Aut.single 2 1 [1, 1, 2]) exAut)).2 = false := by
  decide +kernel

end Verif.Props
