import Verif.Proofs.Stable
import Verif.Model.Solver
import Verif.Props.PdaBuild

/-!
# C01, C02, C05, C07, C51: pre* saturation

The statements speak about the saturation started by `Solver::pre_star`: `preInit` is its constructor,
`preRun p cb k` performs `k` rounds of its loop (fewer if it stops), and `preStar` runs it to the end.
`cb` is an arbitrary early-termination callback; `noCb` is the version without one.
-/

namespace Verif.Props

variable {W σ : Type}

/-- Preconditions on the input automaton: its states include the control states, its transitions are
in range without epsilon labels and each is stored once, and none leads into a control state. -/
structure PAut (p : Pda W) (a : Aut W) : Prop extends AutOK p a where
  noInto : ∀ t ∈ keys a.edges, p.size ≤ t.dst

/-- The language of an automaton (without epsilon moves). -/
def Lang (a : Aut W) (c : Config) : Prop :=
  Accepted (· ∈ keys a.edges) (fun q => a.isAcc q = true) c

variable [LinearOrder W] [Zero W]

/-- C01: at every point of the saturation, every configuration accepted by the automaton can reach a
configuration accepted by the input automaton. -/
theorem c01_pre_sound (h h' : HashOrder) {p : Pda W} (hp : p.WF) {a : Aut W}
    (ha : PAut p a) (cb : Callback W σ) (e : σ) (k q : Nat) (w : List Nat) (hq : q < p.size)
    (hacc : (preRun p cb k (preInit h p cb a e)).aut.accepts h' q w = true) :
    ∃ c, Reach p.Has (q, w) c ∧ Lang a c := by
  have hl := preRun_loop hp ha.toAutOK cb k (preInit_loop h hp cb a e)
  rw [accepts_iff] at hacc
  have hF : ∀ f, (preRun p cb k (preInit h p cb a e)).aut.isAcc f = a.isAcc f := by
    intro f; simp [Aut.isAcc, hl.inv.acc]
  simp only [hF] at hacc
  exact pre_sound hp ha.noInto hl.inv.built q w hq hacc

/-- C02: after the saturation, every configuration that can reach a configuration accepted by the
input automaton is accepted, when the rule lookup misses nothing (`c24_lookup_exact`). In full, without that
condition, it fails: `c02_pre_misses`. -/
theorem c02_pre_complete_partial (h h' : HashOrder) {p : Pda W} (hp : p.WF) (hk : p.LookupOK) {a : Aut W}
    (ha : AutOK p a) (q : Nat) (w : List Nat) (c : Config) (hr : Reach p.Has (q, w) c)
    (hc : Lang a c) : (preStar h p noCb a ()).aut.accepts h' q w = true := by
  have hl := preStar_loop h hp ha noCb ()
  have hf : (preStar h p noCb a ()).found = false := by
    have := (preStar_found h hp ha (noCb_spec _) (e := ()) trivial).2
    simpa using this
  have hws := (preStar_done h hp ha noCb ()).resolve_right (by simp [hf])
  rw [accepts_iff]
  refine (hl.closed hp hk ha hws).reach hr ?_
  obtain ⟨f, hpath, hF⟩ := hc
  refine ⟨f, ?_, by simpa [Aut.isAcc, hl.inv.acc] using hF⟩
  clear hr hF
  generalize c.1 = x at hpath
  generalize c.2 = y at hpath
  induction hpath with
  | nil q => exact .nil q
  | cons he _ ih => exact .cons (hl.inv.built.mem_keys he) ih

/-- C01 and C02 together: after pre* the automaton accepts exactly the configurations that can reach
the input language. -/
theorem c02_pre_exact_partial (h h' : HashOrder) {p : Pda W} (hp : p.WF) (hk : p.LookupOK) {a : Aut W}
    (ha : PAut p a) (q : Nat) (w : List Nat) (hq : q < p.size) :
    (preStar h p noCb a ()).aut.accepts h' q w = true ↔ ∃ c, Reach p.Has (q, w) c ∧ Lang a c :=
  ⟨c01_pre_sound h h' hp ha noCb () _ q w hq,
    fun ⟨c, hr, hc⟩ => c02_pre_complete_partial h h' hp hk ha.toAutOK q w c hr hc⟩

omit [LinearOrder W] [Zero W] in
theorem lookupOK_unit (p : Pda Unit) : p.LookupOK := fun _ _ _ _ _ h => absurd h (lt_irrefl _)

omit [LinearOrder W] [Zero W] in
/-- C02 without weights: no proviso. -/
theorem c02_pre_exact_unweighted (h h' : HashOrder) {p : Pda Unit} (hp : p.WF) {a : Aut Unit}
    (ha : PAut p a) (q : Nat) (w : List Nat) (hq : q < p.size) :
    (preStar h p noCb a ()).aut.accepts h' q w = true ↔ ∃ c, Reach p.Has (q, w) c ∧ Lang a c :=
  c02_pre_exact_partial h h' hp (lookupOK_unit p) ha q w hq

/-- C02, the disagreement found: with a negative weight on a PUSH rule with operand label 0, pre*
misses a configuration that reaches the input language in one step. -/
theorem c02_pre_misses :
    let p : Pda Int := Pda.build 1 [.rule 0 ⟨1, .push, -1, 0⟩ false [0]]
    let a : Aut Int := Aut.single p.size 1 [0, 0]
    Step p.Has (0, [0]) (1, [0, 0]) ∧ a.accepts HashOrder.id 1 [0, 0] = true ∧
      (preStar HashOrder.id p noCb a ()).aut.accepts HashOrder.id 0 [0] = false := by
  refine ⟨?_, by decide, by decide⟩
  exact Step.mk ⟨0, 0, 1, .push, 0, -1⟩ []
    ((c23_rules 1 _ (by simp [PdaCall.OK, WSorted]) _).2 ⟨_, .head _, by simp [Adds]⟩)

/-- C05: the pre* loop stops after at most `2 * N * L * N` steps (`N` states, `L` labels), with its
workset empty unless the callback stopped it. -/
theorem c05_pre_terminates (h : HashOrder) {p : Pda W} (hp : p.WF) {a : Aut W}
    (ha : AutOK p a) (cb : Callback W σ) (e : σ) (k : Nat) (hk2 : 2 * (a.n * p.nLabels * a.n) ≤ k) :
    ((preRun p cb k (preInit h p cb a e)).ws = [] ∨ (preRun p cb k (preInit h p cb a e)).found = true) ∧
      preRun p cb k (preInit h p cb a e) = preStar h p cb a e := by
  have hd := preStar_done h hp ha cb e
  obtain ⟨j, rfl⟩ : ∃ j, k = 2 * (a.n * p.nLabels * a.n) + j := ⟨k - 2 * (a.n * p.nLabels * a.n), by omega⟩
  have : preRun p cb (2 * (a.n * p.nLabels * a.n) + j) (preInit h p cb a e) = preStar h p cb a e := by
    rw [preRun_add]
    exact preRun_stop p cb j _ hd
  rw [this]
  exact ⟨hd, rfl⟩

/-- C05 without a callback: the workset is empty at the end. -/
theorem c05_pre_workset_empty (h : HashOrder) {p : Pda W} (hp : p.WF) {a : Aut W}
    (ha : AutOK p a) : (preStar h p noCb a ()).ws = [] := by
  have hf : (preStar h p noCb a ()).found = false := by
    have := (preStar_found h hp ha (noCb_spec _) (e := ()) trivial).2
    simpa using this
  exact (preStar_done h hp ha noCb ()).resolve_right (by simp [hf])

/-- The callback for one symbol answers whether the configuration has just become accepted. -/
theorem oneSymbolCb_spec (q g : Nat) (V : Tr → Prop) :
    CbSpec (W := W) (oneSymbolCb q g) V (fun a _ => ¬ Lang a (q, [g])) (fun a _ => Lang a (q, [g])) where
  step := by
    intro a e t ann hgood hn hv
    unfold Lang at *
    rw [accepted_one] at *
    have hacc : ∀ f, Aut.isAcc { a with edges := (t, ann) :: a.edges } f = a.isAcc f := fun _ => rfl
    simp only [hacc, oneSymbolCb, keys, List.map_cons, List.mem_cons] at *
    constructor
    · intro h1
      simp only [Bool.and_eq_true, beq_iff_eq] at h1
      obtain ⟨⟨h1, h2⟩, h3⟩ := h1
      exact ⟨t.dst, .inl (by rw [← h1, ← h2]), h3⟩
    · rintro h1 ⟨f, h2 | h2, h3⟩
      · subst h2
        simp [h3] at h1
      · exact hgood ⟨f, h2, h3⟩
  mono := by
    intro a e x hx
    unfold Lang at *
    rw [accepted_one] at *
    obtain ⟨f, h1, h2⟩ := hx
    exact ⟨f, List.mem_cons_of_mem _ h1, h2⟩

/-- C07: `pre_star_accepts(automaton, state, stack)` returns true iff the configuration can reach a
configuration accepted by the input automaton, when the rule lookup misses nothing (`c24_lookup_exact`). -/
theorem c07_pre_star_accepts_partial (h : HashOrder) {p : Pda W} (hp : p.WF) (hk : p.LookupOK) {a : Aut W}
    (ha : PAut p a) (q : Nat) (w : List Nat) (hq : q < p.size) :
    preStarAccepts h p a q w = true ↔ ∃ c, Reach p.Has (q, w) c ∧ Lang a c := by
  by_cases hw : ∃ g, w = [g]
  · obtain ⟨g, rfl⟩ := hw
    unfold preStarAccepts
    simp only [Bool.or_eq_true]
    have hl := preStar_loop h hp ha.toAutOK (oneSymbolCb q g) ()
    by_cases h0 : a.accepts h q [g] = true
    · simp only [h0, true_or, true_iff]
      exact ⟨_, Relation.ReflTransGen.refl, (accepts_iff h a q [g]).1 h0⟩
    · have hgood : ¬ Lang a (q, [g]) := fun hc => h0 ((accepts_iff h a q [g]).2 hc)
      have hf := preStar_found h hp ha.toAutOK (oneSymbolCb_spec q g _) (e := ()) hgood
      simp only [h0, Bool.false_eq_true, false_or]
      constructor
      · intro hfound
        exact c01_pre_sound h h hp ha (oneSymbolCb q g) () _ q [g] hq
          ((accepts_iff h _ q [g]).2 (hf.2 hfound))
      · rintro ⟨c, hr, hc⟩
        by_contra hnf
        have hnf : (preStar h p (oneSymbolCb q g) a ()).found = false := by simpa using hnf
        have hws := (preStar_done h hp ha.toAutOK (oneSymbolCb q g) ()).resolve_right (by simp [hnf])
        refine hf.1 hnf ((hl.closed hp hk ha.toAutOK hws).reach hr ?_)
        obtain ⟨f, hpath, hF⟩ := hc
        refine ⟨f, ?_, by simpa [Aut.isAcc, hl.inv.acc] using hF⟩
        clear hr hF
        generalize c.1 = x at hpath
        generalize c.2 = y at hpath
        induction hpath with
        | nil q => exact .nil q
        | cons he _ ih => exact .cons (hl.inv.built.mem_keys he) ih
  · have heq : preStarAccepts h p a q w =
        ((preStar h p noCb a ()).found || (preStar h p noCb a ()).aut.accepts h q w) := by
      unfold preStarAccepts
      split
      · rename_i g; exact absurd ⟨g, rfl⟩ hw
      · rfl
    have hf : (preStar h p noCb a ()).found = false := by
      have := (preStar_found h hp ha.toAutOK (noCb_spec _) (e := ()) trivial).2
      simpa using this
    rw [heq, hf, Bool.false_or]
    exact c02_pre_exact_partial h h hp hk ha q w hq

omit [LinearOrder W] [Zero W] in
/-- C07 without weights: no proviso. -/
theorem c07_pre_star_accepts_unweighted (h : HashOrder) {p : Pda Unit} (hp : p.WF) {a : Aut Unit}
    (ha : PAut p a) (q : Nat) (w : List Nat) (hq : q < p.size) :
    preStarAccepts h p a q w = true ↔ ∃ c, Reach p.Has (q, w) c ∧ Lang a c :=
  c07_pre_star_accepts_partial h hp (lookupOK_unit p) ha q w hq

/-- C51 for pre*: at every point every transition is in range and its label is in the alphabet, and
the states and accepting flags are those of the input. -/
theorem c51_pre_range (h : HashOrder) {p : Pda W} (hp : p.WF) {a : Aut W}
    (ha : AutOK p a) (cb : Callback W σ) (e : σ) (k : Nat) :
    (∀ t ∈ keys (preRun p cb k (preInit h p cb a e)).aut.edges,
      t.src < a.n ∧ t.label < p.nLabels ∧ t.dst < a.n) ∧
    (preRun p cb k (preInit h p cb a e)).aut.acc = a.acc := by
  have hl := preRun_loop hp ha cb k (preInit_loop h hp cb a e)
  exact ⟨hl.inv.valid hp ha, hl.inv.acc⟩

/-- C51 for pre*: a transition of the input or inserted after `j` steps keeps its first annotation. -/
theorem c51_pre_stable (h : HashOrder) {p : Pda W} (hp : p.WF) {a : Aut W}
    (ha : AutOK p a) (cb : Callback W σ) (e : σ) (j k : Nat) (t : Tr) (x : Ann W) :
    (a.getEdge t = some x → (preRun p cb j (preInit h p cb a e)).aut.getEdge t = some x) ∧
    ((preRun p cb j (preInit h p cb a e)).aut.getEdge t = some x →
      (preRun p cb (j + k) (preInit h p cb a e)).aut.getEdge t = some x) := by
  have hl := preRun_loop hp ha cb j (preInit_loop h hp cb a e)
  have hl2 := preRun_loop hp ha cb (j + k) (preInit_loop h hp cb a e)
  refine ⟨fun hx => getEdge_suffix hl.inv.built.suffix (hl.inv.built.nodup ha.nodup) hx, fun hx => ?_⟩
  refine getEdge_suffix ?_ (hl2.inv.built.nodup ha.nodup) hx
  rw [preRun_add]
  exact preRun_suffix p cb k _

/-! ## A concrete case -/

/-- Rules of all four kinds, with a cycle. -/
def exCalls : List (PdaCall Unit) :=
  [.rule 0 ⟨1, .push, (), 1⟩ false [0, 2], .rule 1 ⟨0, .pop, (), 0⟩ true [],
   .rule 0 ⟨0, .swap, (), 2⟩ false [1], .rule 1 ⟨1, .noop, (), 0⟩ false [2]]

def exPda : Pda Unit := Pda.build 3 exCalls

theorem exCalls_ok : ∀ c ∈ exCalls, c.OK 3 := by simp [exCalls, PdaCall.OK, WSorted]

theorem exPda_wf : exPda.WF := Pda.WF_build 3 _ exCalls_ok

/-- Accepts the configurations `⟨0, 2 0*⟩`. -/
def exAut : Aut Unit :=
  { acc := [false, false, true], edges := [(⟨0, 2, 2⟩, (Trace.null, ())), (⟨2, 0, 2⟩, (Trace.null, ()))] }

theorem exAut_ok : PAut exPda exAut where
  size_le := by decide
  valid := by unfold Valid; decide
  nodup := by decide
  noInto := by decide

example : preStarAccepts HashOrder.id exPda exAut 1 [1, 1, 0] = true :=
  (c07_pre_star_accepts_partial _ exPda_wf (lookupOK_unit _) exAut_ok 1 [1, 1, 0] (by decide)).2 (by
    refine ⟨(0, [2, 0]), ?_, 2, .cons (q := 2) (by decide) (.cons (q := 2) (by decide) (.nil _)), by decide⟩
    refine Relation.ReflTransGen.head (b := (0, [1, 0])) ?_ (Relation.ReflTransGen.single ?_)
    · exact Step.mk ⟨1, 1, 0, .pop, 0, ()⟩ [1, 0]
        ((c23_rules 3 _ exCalls_ok _).2 ⟨_, .tail _ (.head _), by simp [Adds]⟩)
    · exact Step.mk ⟨0, 1, 0, .swap, 2, ()⟩ [0]
        ((c23_rules 3 _ exCalls_ok _).2 ⟨_, .tail _ (.tail _ (.head _)), by simp [Adds]⟩))

end Verif.Props
