import Verif.Proofs.TraceBack
import Verif.Props.PostStar

/-!
# C12, C13, C14: traces

`traceStackPath` is `_get_trace_stack_path`: the rules of the trace in the order in which they are
applied, with the stack and the states of the path that is left. `getTrace` is `_get_trace`: the
configurations of the trace. Both unwind an accepting path with `TraceBack` and return `none` on
undefined behaviour or if the model's fuel does not suffice, so that `= some _` includes C14.

The input automaton carries no traces (`Untraced`), as every constructor leaves it.
-/

namespace Verif.Props

variable {W σ : Type}

/-- No transition of the automaton carries a trace. -/
def Untraced (a : Aut W) : Prop := ∀ e ∈ a.edges, e.2.1 = Trace.null

/-- Every transition of the automaton is as it is made by a constructor: without a trace and with the weight zero. -/
def Blank [Zero W] (a : Aut W) : Prop := ∀ e ∈ a.edges, e.2 = (Trace.null, 0)

theorem Blank.untraced [Zero W] {a : Aut W} (h : Blank a) : Untraced a := fun e he => by rw [h e he]

/-- The states and the labels form an accepting path of the automaton from a control state. -/
structure RestPath (p : Pda W) (a : Aut W) (qs w : List Nat) (c : Config) : Prop where
  spells : Spells (· ∈ keys a.edges) qs w
  head : qs.head? = some c.1
  stack : w = c.2
  last : ∃ f, qs.getLast? = some f ∧ a.isAcc f = true

theorem RestPath.lang {p : Pda W} {a : Aut W} {qs w : List Nat} {c : Config} (h : RestPath p a qs w c) :
    Lang a c := by
  obtain ⟨f, h1, h2⟩ := h.last
  exact ⟨f, h.stack ▸ h.spells.path h.head h1, h2⟩

section
variable [LinearOrder W] [Zero W]

theorem pathMeasure_fuel {a : Aut W} {path : APath Nat} (h : ∀ t ∈ path.trs, t ∈ keys a.edges) :
    pathMeasure a.edges path.trs < tbFuel a path := by
  have := pathMeasure_le a.edges path.trs h
  unfold tbFuel
  rw [APath.trs, trs_length] at this
  rw [APath.trs]
  omega

theorem pathAndStack_plain {path : APath Nat} (h : ∀ g ∈ path.stack, g ≠ epsilon) :
    path.pathAndStack = (path.states, path.stack) := by
  rw [APath.stack_eq] at *
  have : (path.edges.filter fun x => decide (x.1 ≠ epsilon)) = path.edges := by
    rw [List.filter_eq_self]
    intro x hx
    simpa using h x.1 (List.mem_map_of_mem hx)
  rw [APath.pathAndStack_eq, this]
  rfl

theorem restPath_of {p : Pda W} {a : Aut W} {path : APath Nat} (h : ∀ t ∈ path.trs, t ∈ keys a.edges)
    (hf : a.isAcc path.fin = true) :
    RestPath p a path.states path.stack (path.frontState, path.stack) :=
  ⟨(trs_spells _ path.fin path.edges).2 h, path.head_states, rfl, _, path.last_states, hf⟩

theorem trs_labels {P : Nat → Prop} {path : APath Nat} (h : ∀ t ∈ path.trs, P t.label) :
    ∀ g ∈ path.stack, P g := by
  rcases path with ⟨f, es⟩
  rw [APath.stack_eq]
  unfold APath.trs at h
  dsimp only at *
  induction es with
  | nil => simp
  | cons x es ih =>
    simp only [trs, List.forall_mem_cons] at h
    simp only [List.map_cons, List.forall_mem_cons]
    exact ⟨h.1, ih h.2⟩

/-! ## pre* -/

/-- C12 and C14 for both functions, on an accepting path of an automaton built by the rules of pre*. -/
theorem pre_traces_built {p : Pda W} (hp : p.WF) (hl : p.nLabels ≤ epsilon)
    {a : Aut W} (ha : PAut p a) (h0 : Untraced a) {A : Aut W}
    (hbt : Built (PreJ p) a.edges A.edges) (hAacc : A.acc = a.acc) (path : APath Nat)
    (hacc : AcceptingPath A p.size path) :
    ∃ rs cs qs w c', (∃ tb, tbAll p A (tbFuel A path) (tbFuel A path) { path := path } = some (rs, tb) ∧
        tb.post = false ∧ tb.path.pathAndStack = (qs, w)) ∧
      (path.isNull = false → getTrace p A path = some ((path.frontState, path.stack) :: cs)) ∧
      Trail (Move p.Has) (path.frontState, path.stack) rs cs c' ∧ RestPath p a qs w c' := by
  obtain ⟨hsp, hfr, hfin⟩ := hacc
  have hE : ∀ t ∈ path.trs, t ∈ keys A.edges := (trs_spells _ path.fin path.edges).1 hsp
  have hv := hbt.valid_pre hp ha.size_le ha.valid
  have hround := preTB_round hp hbt h0 ha.noInto path.fin
  have hdec : ∀ tb, PreTB p A path.fin tb → decodeEdges p tb.path = (tb.path.frontState, tb.path.stack) := by
    intro tb htb
    unfold decodeEdges
    congr 1
    rw [List.filter_eq_self]
    intro g hg
    simpa using trs_labels (P := (· < p.nLabels)) (fun t ht => (hv t (htb.edges t ht)).2.1) g hg
  have hm := pathMeasure_fuel hE
  have hi : PreTB p A path.fin ⟨path, false⟩ := ⟨hE, hfr, rfl, rfl⟩
  obtain ⟨rs, cs, tb', h1, h2, h3, h4, h5, h6⟩ := tbAll_spec hround hdec _ _ ⟨path, false⟩ hi hm hm
  have hfin' : a.isAcc tb'.path.fin = true := by
    rw [h3.fin]
    simpa [Aut.isAcc, hAacc] using hfin
  have heps : ∀ g ∈ tb'.path.stack, g ≠ epsilon := by
    refine trs_labels (P := fun g => g ≠ epsilon) fun t ht => ?_
    have := (ha.valid t (h4 t ht)).2.1
    omega
  refine ⟨rs, cs, tb'.path.states, tb'.path.stack, _, ?_, ?_, h5, restPath_of h4 hfin'⟩
  · exact ⟨tb', h1, h3.post, pathAndStack_plain heps⟩
  · intro hn
    unfold getTrace
    rw [h2, hn]
    simp only [Bool.false_eq_true, if_false, Option.map_some, h3.post]
    rw [hdec ⟨path, false⟩ hi]

/-- C12 and C14 for both functions, on an accepting path of the automaton of a state of pre*. -/
theorem pre_traces_of {p : Pda W} (hp : p.WF) (hl : p.nLabels ≤ epsilon)
    {a : Aut W} (ha : PAut p a) (h0 : Untraced a) {s : PreSt W σ} (hloop : PreLoop p a s) (path : APath Nat)
    (hacc : AcceptingPath s.aut p.size path) :
    ∃ rs cs qs w c', (∃ tb, tbAll p s.aut (tbFuel s.aut path) (tbFuel s.aut path) { path := path } = some (rs, tb) ∧
        tb.post = false ∧ tb.path.pathAndStack = (qs, w)) ∧
      (path.isNull = false → getTrace p s.aut path = some ((path.frontState, path.stack) :: cs)) ∧
      Trail (Move p.Has) (path.frontState, path.stack) rs cs c' ∧ RestPath p a qs w c' :=
  pre_traces_built hp hl ha h0 hloop.inv.built hloop.inv.acc path hacc

/-- C12 and C14 for both functions, on an accepting path of the automaton during pre*. -/
theorem pre_traces (h : HashOrder) {p : Pda W} (hp : p.WF) (hl : p.nLabels ≤ epsilon)
    {a : Aut W} (ha : PAut p a) (h0 : Untraced a) (cb : Callback W σ) (e : σ) (k : Nat) (path : APath Nat)
    (hacc : AcceptingPath (preRun p cb k (preInit h p cb a e)).aut p.size path) :
    ∃ rs cs qs w c', traceStackPath p (preRun p cb k (preInit h p cb a e)).aut path = some (rs, w, qs) ∧
      (path.isNull = false → getTrace p (preRun p cb k (preInit h p cb a e)).aut path =
        some ((path.frontState, path.stack) :: cs)) ∧
      Trail (Move p.Has) (path.frontState, path.stack) rs cs c' ∧ RestPath p a qs w c' := by
  obtain ⟨rs, cs, qs, w, c', ⟨tb, h1, h2, h3⟩, h4⟩ :=
    pre_traces_of hp hl ha h0 (preRun_loop hp ha.toAutOK cb k (preInit_loop h hp cb a e)) path hacc
  refine ⟨rs, cs, qs, w, c', ?_, h4⟩
  unfold traceStackPath
  rw [h1]
  simp [h2, h3]

/-- C12: unwinding an accepting path of the automaton at any point of pre* gives rules of the PDA that
lead, in order, from the configuration of the path to a configuration accepted by the input automaton,
together with an accepting path for the latter. -/
theorem c12_pre_trace_rules (h : HashOrder) {p : Pda W} (hp : p.WF)
    (hl : p.nLabels ≤ epsilon) {a : Aut W} (ha : PAut p a) (h0 : Untraced a) (cb : Callback W σ) (e : σ)
    (k : Nat) (path : APath Nat)
    (hacc : AcceptingPath (preRun p cb k (preInit h p cb a e)).aut p.size path) :
    ∃ rs w qs c', traceStackPath p (preRun p cb k (preInit h p cb a e)).aut path = some (rs, w, qs) ∧
      (∀ r ∈ rs, p.Has r) ∧ Run (path.frontState, path.stack) rs c' ∧ RestPath p a qs w c' := by
  obtain ⟨rs, cs, qs, w, c', h1, _, h3, h4⟩ := pre_traces h hp hl ha h0 cb e k path hacc
  exact ⟨rs, w, qs, c', h1, h3.run.2.1, h3.run.1, h4⟩

/-- C12: the configurations of the trace are a chain of steps from the configuration of the path to one
accepted by the input automaton. -/
theorem c12_pre_trace_configs (h : HashOrder) {p : Pda W} (hp : p.WF)
    (hl : p.nLabels ≤ epsilon) {a : Aut W} (ha : PAut p a) (h0 : Untraced a) (hn : a.n ≤ sizeMax)
    (cb : Callback W σ) (e : σ) (k : Nat) (path : APath Nat)
    (hacc : AcceptingPath (preRun p cb k (preInit h p cb a e)).aut p.size path) :
    ∃ cs c', getTrace p (preRun p cb k (preInit h p cb a e)).aut path = some cs ∧
      cs.head? = some (path.frontState, path.stack) ∧ cs.IsChain (Step p.Has) ∧ cs.getLast? = some c' ∧
      Lang a c' := by
  obtain ⟨rs, cs, qs, w, c', _, h2, h3, h4⟩ := pre_traces h hp hl ha h0 cb e k path hacc
  have hnn : path.isNull = false := by
    have hloop := preRun_loop hp ha.toAutOK cb k (preInit_loop h hp cb a e)
    have := Aut.isAcc_lt hacc.2.2
    have hn2 : (preRun p cb k (preInit h p cb a e)).aut.n = a.n := by simp [Aut.n, hloop.inv.acc]
    unfold APath.isNull
    rw [beq_eq_false_iff_ne]
    omega
  exact ⟨_, c', h2 hnn, rfl, h3.run.2.2.1, h3.run.2.2.2, h4.lang⟩

/-- The path that `accept_path` finds, as an `AutomatonPath`. -/
theorem acceptPath_accepting (h : HashOrder) {a : Aut W} {size q : Nat} {w : List Nat} (hq : q < size)
    (hacc : a.accepts h q w = true) :
    ∃ path, APath.mk? (a.acceptPath h q w) w = some path ∧ AcceptingPath a size path ∧
      path.frontState = q ∧ path.stack = w := by
  obtain ⟨h1, h2, f, h3, h4⟩ := (acceptPath_spec h a q w).2 hacc
  obtain ⟨path, h5, h6, h7⟩ := APath.mk?_spec (a.acceptPath h q w) w h1.length
  have hst : path.stack = w := by rw [APath.stack_eq, h7]
  have hs : path.states = a.acceptPath h q w := h6
  have hfr : path.frontState = q := by
    have := path.head_states
    rw [hs, h2] at this
    exact (Option.some.inj this).symm
  have hfi : path.fin = f := by
    have := path.last_states
    rw [hs, h3] at this
    exact (Option.some.inj this).symm
  exact ⟨path, h5, ⟨by rw [hs, hst]; exact h1, hfr ▸ hq, hfi ▸ h4⟩, hfr, hst⟩

/-- C12 for `get_trace(pda, automaton, state, stack)`: after pre* a configuration that can reach the input
language gets a chain of steps that starts in it and ends in the language. -/
theorem c12_pre_get_trace (h h' : HashOrder) {p : Pda W} (hp : p.WF) (hk : p.LookupOK)
    (hl : p.nLabels ≤ epsilon) {a : Aut W} (ha : PAut p a) (h0 : Untraced a) (hn : a.n ≤ sizeMax)
    (q : Nat) (w : List Nat) (hq : q < p.size) (c : Config) (hr : Reach p.Has (q, w) c) (hc : Lang a c) :
    ∃ cs c', getTraceFor h' p (preStar h p noCb a ()).aut q w = some cs ∧ cs.head? = some (q, w) ∧
      cs.IsChain (Step p.Has) ∧ cs.getLast? = some c' ∧ Lang a c' := by
  have hacc := c02_pre_complete_partial h h' hp hk ha.toAutOK q w c hr hc
  obtain ⟨path, h1, h2, h3, h4⟩ := acceptPath_accepting h' hq hacc
  obtain ⟨cs, c', h5, h6⟩ := c12_pre_trace_configs h hp hl ha h0 hn noCb () _ path h2
  rw [h3, h4] at h6
  refine ⟨cs, c', ?_, h6⟩
  unfold getTraceFor
  rw [h1]
  exact h5

/-- Without an accepting path `get_trace(pda, automaton, state, stack)` reads the last element of an empty
vector: the caller must have checked that the configuration is accepted. -/
theorem c12_get_trace_undefined (h : HashOrder) (p : Pda W) (a : Aut W) (q : Nat) (w : List Nat)
    (hacc : a.accepts h q w = false) : getTraceFor h p a q w = none := by
  unfold getTraceFor
  rw [(acceptPath_spec h a q w).1 hacc]
  rfl

/-! ## post* -/

theorem postRun_n (p : Pda W) (cb : Callback W σ) (k : Nat) (s : PostSt W σ) :
    (postRun p cb k s).aut.n = s.aut.n := by
  induction k generalizing s with
  | zero => rfl
  | succ k ih =>
    unfold postRun
    split
    · rfl
    · rw [ih]
      simp [Aut.n, postStep_n]

/-- C13 and C14 for both functions, on an accepting path of the automaton of a state of post*. -/
theorem post_traces_of {p : Pda W} (hp : p.WF) (hl : p.nLabels < epsilon)
    {a : Aut W} (ha : PAut p a) (h0 : Untraced a) {s : PostSt W σ} (hinv : PostInv p a s)
    (hn2 : s.aut.n ≤ sizeMax) (path : APath Nat) (hacc : AcceptingPath s.aut p.size path) :
    ∃ rs cs qs w c', (∃ tb, tbAll p s.aut (tbFuel s.aut path) (tbFuel s.aut path) { path := path } = some (rs, tb) ∧
        (rs = [] ∧ tb.post = false ∨ rs ≠ [] ∧ tb.post = true) ∧ tb.path.pathAndStack = (qs, w)) ∧
      getTrace p s.aut path = some ((confE path :: cs).reverse) ∧
      Trail (fun c r c' => Move (HasMove p) c' r c) (confE path) rs cs c' ∧ RestPath p a qs w c' := by
  have hle : p.nLabels ≤ epsilon := by omega
  obtain ⟨hsp, hfr, hfin⟩ := hacc
  have hE : ∀ t ∈ path.trs, t ∈ keys s.aut.edges := (trs_spells _ path.fin path.edges).1 hsp
  have hv := hinv.valid hp (ha.post hle)
  have hfin' : a.isAcc path.fin = true := (hinv.isAcc _).symm.trans hfin
  have hround := postTB_round hp (ha.post hle) hinv hl (by omega) h0 path.fin (Aut.isAcc_lt hfin')
  have hdec : ∀ tb, PostTB p s.aut path.fin tb → decodeEdges p tb.path = confE tb.path := by
    intro tb htb
    unfold decodeEdges confE
    congr 1
    apply List.filter_congr
    intro g hg
    have := trs_labels (P := fun g => g < p.nLabels ∨ g = epsilon)
      (fun t ht => by
        rcases (hv t (htb.edges t ht)).2.2.2 with h1 | h1
        · exact .inl h1
        · exact .inr h1.1) g hg
    rw [decide_eq_decide]
    omega
  have hm := pathMeasure_fuel hE
  have hi : PostTB p s.aut path.fin ⟨path, false⟩ := ⟨hE, hfr, rfl⟩
  obtain ⟨rs, cs, tb', h1, h2, h3, h4, h5, h6⟩ := tbAll_spec hround hdec _ _ ⟨path, false⟩ hi hm hm
  have hfin2 : a.isAcc tb'.path.fin = true := by rw [h3.fin]; exact hfin'
  have heps : ∀ g ∈ tb'.path.stack, g ≠ epsilon := by
    refine trs_labels (P := fun g => g ≠ epsilon) fun t ht => ?_
    have := (ha.valid t (h4 t ht)).2.1
    omega
  have hce : confE tb'.path = (tb'.path.frontState, tb'.path.stack) := by
    unfold confE
    congr 1
    rw [List.filter_eq_self]
    intro g hg
    simpa using heps g hg
  have hnn : path.isNull = false := by
    have := Aut.isAcc_lt hfin
    unfold APath.isNull
    rw [beq_eq_false_iff_ne]
    omega
  refine ⟨rs, cs, tb'.path.states, tb'.path.stack, _, ?_, ?_, h5, hce ▸ restPath_of h4 hfin2⟩
  · exact ⟨tb', h1, h6, pathAndStack_plain heps⟩
  · unfold getTrace
    rw [h2, hnn]
    simp only [Bool.false_eq_true, if_false, Option.map_some]
    rw [hdec ⟨path, false⟩ hi]
    rcases h6 with ⟨rfl, h6⟩ | h6
    · have hcs : cs = [] := by
        generalize confE path = c at h5
        generalize hc' : confE tb'.path = c' at h5
        cases h5
        rfl
      simp [hcs]
    · simp [h6]

/-- C13 and C14 for both functions, on an accepting path of the automaton during post*. -/
theorem post_traces (h : HashOrder) {p : Pda W} (hp : p.WF) (hl : p.nLabels < epsilon)
    {a : Aut W} (ha : PAut p a) (h0 : Untraced a) (cb : Callback W σ) (e : σ)
    (hn : (postInit h p a e).aut.n ≤ sizeMax) (k : Nat) (path : APath Nat)
    (hacc : AcceptingPath (postRun p cb k (postInit h p a e)).aut p.size path) :
    ∃ rs cs qs w c', traceStackPath p (postRun p cb k (postInit h p a e)).aut path = some (rs.reverse, w, qs) ∧
      getTrace p (postRun p cb k (postInit h p a e)).aut path = some ((confE path :: cs).reverse) ∧
      Trail (fun c r c' => Move (HasMove p) c' r c) (confE path) rs cs c' ∧ RestPath p a qs w c' := by
  have hle : p.nLabels ≤ epsilon := by omega
  obtain ⟨rs, cs, qs, w, c', ⟨tb, h1, h2, h3⟩, h4⟩ :=
    post_traces_of hp hl ha h0 (postRun_inv hp (ha.post hle) cb k (postInit_inv h (ha.post hle) e).1)
      (by rw [postRun_n]; exact hn) path hacc
  refine ⟨rs, cs, qs, w, c', ?_, h4⟩
  unfold traceStackPath
  rw [h1]
  rcases h2 with ⟨rfl, h2⟩ | ⟨_, h2⟩
  · simp [h2, h3]
  · simp [h2, h3]

/-- C13: unwinding an accepting path of the automaton at any point of post* gives rules that lead, in the
returned order, from a configuration accepted by the input automaton to the configuration of the path
(without its epsilon edges). Every rule is one of the PDA except possibly for its weight, see
`c13_weight_of_other_rule`. -/
theorem c13_post_trace_rules (h : HashOrder) {p : Pda W} (hp : p.WF) (hl : p.nLabels < epsilon)
    {a : Aut W} (ha : PAut p a) (h0 : Untraced a) (cb : Callback W σ) (e : σ)
    (hn : (postInit h p a e).aut.n ≤ sizeMax) (k : Nat) (path : APath Nat)
    (hacc : AcceptingPath (postRun p cb k (postInit h p a e)).aut p.size path) :
    ∃ rs w qs c', traceStackPath p (postRun p cb k (postInit h p a e)).aut path = some (rs, w, qs) ∧
      (∀ r ∈ rs, ∃ w, p.Has { r with weight := w }) ∧
      Run c' rs (path.frontState, path.stack.filter fun g => decide (g ≠ epsilon)) ∧
      RestPath p a qs w c' := by
  obtain ⟨rs, cs, qs, w, c', h1, _, h3, h4⟩ := post_traces h hp hl ha h0 cb e hn k path hacc
  refine ⟨rs.reverse, w, qs, c', h1, ?_, (Trail.run_rev h3).1, h4⟩
  intro r hr
  exact (Trail.run_rev h3).2.1 r (by simpa using hr)

/-- C13 for PDAs without weights: every rule is one of the PDA. -/
theorem c13_post_trace_rules_unweighted (h : HashOrder) {p : Pda Unit} (hp : p.WF)
    (hl : p.nLabels < epsilon) {a : Aut Unit} (ha : PAut p a) (h0 : Untraced a) (cb : Callback Unit σ) (e : σ)
    (hn : (postInit h p a e).aut.n ≤ sizeMax) (k : Nat) (path : APath Nat)
    (hacc : AcceptingPath (postRun p cb k (postInit h p a e)).aut p.size path) :
    ∃ rs w qs c', traceStackPath p (postRun p cb k (postInit h p a e)).aut path = some (rs, w, qs) ∧
      (∀ r ∈ rs, p.Has r) ∧
      Run c' rs (path.frontState, path.stack.filter fun g => decide (g ≠ epsilon)) ∧
      RestPath p a qs w c' := by
  obtain ⟨rs, w, qs, c', h1, h2, h3⟩ := c13_post_trace_rules h hp hl ha h0 cb e hn k path hacc
  exact ⟨rs, w, qs, c', h1, fun r hr => (h2 r hr).elim fun _ h => h, h3⟩

theorem step_hasMove {p : Pda W} {c c' : Config} (h : Step (HasMove p) c c') : Step p.Has c c' := by
  cases h with
  | mk r w hr =>
    obtain ⟨x, hx⟩ := hr
    exact Step.mk { r with weight := x } w hx

/-- C13: the configurations of the trace are a chain of steps from a configuration accepted by the input
automaton to the configuration of the path. -/
theorem c13_post_trace_configs (h : HashOrder) {p : Pda W} (hp : p.WF) (hl : p.nLabels < epsilon)
    {a : Aut W} (ha : PAut p a) (h0 : Untraced a) (cb : Callback W σ) (e : σ)
    (hn : (postInit h p a e).aut.n ≤ sizeMax) (k : Nat) (path : APath Nat)
    (hacc : AcceptingPath (postRun p cb k (postInit h p a e)).aut p.size path) :
    ∃ cs c', getTrace p (postRun p cb k (postInit h p a e)).aut path = some cs ∧
      cs.head? = some c' ∧ Lang a c' ∧ cs.IsChain (Step p.Has) ∧
      cs.getLast? = some (path.frontState, path.stack.filter fun g => decide (g ≠ epsilon)) := by
  obtain ⟨rs, cs, qs, w, c', _, h2, h3, h4⟩ := post_traces h hp hl ha h0 cb e hn k path hacc
  obtain ⟨_, _, h5, h6⟩ := Trail.run_rev h3
  refine ⟨_, c', h2, h6, h4.lang, h5.imp fun _ _ => step_hasMove, ?_⟩
  simp [confE]

/-- C13 for `get_trace(pda, automaton, state, stack)`: after post* a configuration with a nonempty stack
that is reachable from the input language gets a chain of steps that starts in the language and ends
in it. -/
theorem c13_post_get_trace (h h' : HashOrder) {p : Pda W} (hp : p.WF) (hl : p.nLabels < epsilon)
    {a : Aut W} (ha : PAut p a) (h0 : Untraced a) (hn : (postInit h p a ()).aut.n ≤ sizeMax)
    (q : Nat) (w : List Nat) (hq : q < p.size) (hw : w ≠ []) (hwl : ∀ g ∈ w, g ≠ epsilon) (c : Config)
    (hr : Reach p.Has c (q, w)) (hc : Lang a c) :
    ∃ cs c', getTraceFor h' p (postStar h p noCb a ()).aut q w = some cs ∧ cs.head? = some c' ∧
      Lang a c' ∧ cs.IsChain (Step p.Has) ∧ cs.getLast? = some (q, w) := by
  have hacc := c04_post_complete h h' hp (by omega) ha q w hw c hc hr
  obtain ⟨path, h1, h2, h3, h4⟩ := acceptPath_accepting h' hq hacc
  obtain ⟨cs, c', h5, h6⟩ := c13_post_trace_configs h hp hl ha h0 noCb () hn _ path h2
  have hf : (w.filter fun g => decide (g ≠ epsilon)) = w := by
    rw [List.filter_eq_self]
    intro g hg
    simpa using hwl g hg
  rw [h3, h4, hf] at h6
  refine ⟨cs, c', ?_, h6⟩
  unfold getTraceFor
  rw [h1]
  exact h5

end

/-! ## C14 -/

section
variable [LinearOrder W] [Zero W]

/-- C14 for pre*: the loop over `next` ends after at most `length * 3 ^ transitions` rounds. -/
theorem c14_pre_terminates (h : HashOrder) {p : Pda W} (hp : p.WF)
    (hl : p.nLabels ≤ epsilon) {a : Aut W} (ha : PAut p a) (h0 : Untraced a) (cb : Callback W σ) (e : σ)
    (k : Nat) (path : APath Nat)
    (hacc : AcceptingPath (preRun p cb k (preInit h p cb a e)).aut p.size path) :
    ∃ r, tbAll p (preRun p cb k (preInit h p cb a e)).aut
      (path.edges.length * 3 ^ (preRun p cb k (preInit h p cb a e)).aut.edges.length + 1)
      (path.edges.length * 3 ^ (preRun p cb k (preInit h p cb a e)).aut.edges.length + 1)
      { path := path } = some r := by
  obtain ⟨rs, cs, qs, w, c', h1, _⟩ := pre_traces h hp hl ha h0 cb e k path hacc
  unfold traceStackPath at h1
  rw [Option.map_eq_some_iff] at h1
  obtain ⟨x, hx, _⟩ := h1
  exact ⟨x, hx⟩

/-- C14 for post*. -/
theorem c14_post_terminates (h : HashOrder) {p : Pda W} (hp : p.WF) (hl : p.nLabels < epsilon)
    {a : Aut W} (ha : PAut p a) (h0 : Untraced a) (cb : Callback W σ) (e : σ)
    (hn : (postInit h p a e).aut.n ≤ sizeMax) (k : Nat) (path : APath Nat)
    (hacc : AcceptingPath (postRun p cb k (postInit h p a e)).aut p.size path) :
    ∃ r, tbAll p (postRun p cb k (postInit h p a e)).aut
      (path.edges.length * 3 ^ (postRun p cb k (postInit h p a e)).aut.edges.length + 1)
      (path.edges.length * 3 ^ (postRun p cb k (postInit h p a e)).aut.edges.length + 1)
      { path := path } = some r := by
  obtain ⟨rs, cs, qs, w, c', h1, _⟩ := post_traces h hp hl ha h0 cb e hn k path hacc
  unfold traceStackPath at h1
  rw [Option.map_eq_some_iff] at h1
  obtain ⟨x, hx, _⟩ := h1
  exact ⟨x, hx⟩

end

/-! ## Concrete cases -/

/-- C13, the disagreement found: with weights, a PUSH rule in a post* trace may carry the weight of
another rule with the same target state and pushed label. Here the rules push 1 with weight 5 from
⟨0, 0⟩ and with weight 7 from ⟨0, 1⟩, and the trace to ⟨1, 1 1⟩ has the second rule with weight 5. -/
theorem c13_weight_of_other_rule :
    let p : Pda Nat := Pda.build 2 [.rule 0 ⟨1, .push, 5, 1⟩ false [0], .rule 0 ⟨1, .push, 7, 1⟩ false [1]]
    let a : Aut Nat := ⟨[false, false, true],
      [(⟨0, 0, 2⟩, (Trace.null, 0)), (⟨0, 1, 2⟩, (Trace.null, 0))]⟩
    let s := postStar HashOrder.id p noCb a ()
    ∃ path rs w qs, APath.mk? (s.aut.acceptPath HashOrder.id 1 [1, 1]) [1, 1] = some path ∧
      traceStackPath p s.aut path = some (rs, w, qs) ∧ ∃ r ∈ rs, r.weight = 5 ∧
        r.pre = 1 ∧ ¬ p.Has r := by
  refine ⟨⟨2, [(1, 1), (1, 3)]⟩, [⟨0, 1, 1, .push, 1, 5⟩], [1], [0, 2], by decide +kernel, by decide +kernel,
    _, .head _, rfl, rfl, ?_⟩
  unfold Pda.Has
  decide +kernel

example : Untraced exAut := by simp [Untraced, exAut]

/-- A trace of two steps in the cyclic system of the C07 example. -/
example : getTraceFor HashOrder.id exPda (preStar HashOrder.id exPda noCb exAut ()).aut 1 [1, 1, 0] =
    some [(1, [1, 1, 0]), (0, [1, 0]), (0, [2, 0])] := by decide +kernel

example : getTraceFor HashOrder.id exPda (postStar HashOrder.id exPda noCb exAut ()).aut 0 [2, 0] =
    some [(0, [2, 0])] := by decide +kernel

/-- A push and a pop, forwards. -/
example : getTraceFor HashOrder.id exPda (postStar HashOrder.id exPda noCb exAut ()).aut 1 [1, 2, 0] =
    some [(0, [2, 0]), (1, [1, 2, 0])] := by decide +kernel

example : (postInit HashOrder.id exPda exAut ()).aut.n ≤ sizeMax := by decide +kernel

end Verif.Props
