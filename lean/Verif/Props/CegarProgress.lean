import Verif.Proofs.CegarProgress
import Mathlib.Data.List.Dedup

/-!
# C69: `cegar_solve` makes progress

An iteration that neither answers nor asks the user for a refinement makes the label abstraction strictly finer
(`StrictlyFiner`, Spec/Abstraction). So the loop ends if the user's own refinements make progress.
-/

namespace Verif.Props

open Cegar Instance

variable {S X C R : Type}

/-- Different edges to the same state read different labels. -/
def Distinct (n : Nfa) : Prop := ∀ path, EdgesClear n path

/-- Conditions on the automata of headers. -/
structure HeadersOK (ini fin : Nfa) : Prop where
  initWF : ini.WF
  finWF : fin.WF
  initClosed : ini.Closed
  finClosed : fin.Closed
  initPlain : Plain ini
  finPlain : Plain fin
  finDistinct : Distinct fin

/-- Some abstract configuration is both initial and final. -/
def CommonAbs (cl : Client S X C R) (ini fin : Nfa) (s : S) (m : RMap Nat) : Prop :=
  ∃ q v, q ∈ cl.initial s m ∧ q ∈ cl.accepting s m ∧ (absNfa m ini).Lang v ∧ (absNfa m fin).Lang v ∧ ∀ g ∈ v, g < m.size

/-- What holds at the start of an iteration: the label map has all labels of the automata and no empty class, the user's
classes build an abstract PDA and follow concrete rules of the right classes. -/
structure Ready (cl : Client S X C R) (P : Problem) (β : Nat → Nat) (rule : C → URule Unit) (h : HashOrder) (mode : Mode)
    (ini fin : Nfa) (s : S) (m : RMap Nat) : Prop extends MapKnows m ini fin where
  full : Full m
  small : m.size < epsilon
  builds : Builds cl s m
  follows : Follows cl P β rule s
  tracks : Tracks cl rule s
  states : StatesFit (mode.accepts h (cl.pda s m) (cl.instance_ ini fin s m)).1
  common : mode ≠ .pre → ¬ CommonAbs cl ini fin s m

/-- A positive answer comes with an abstract trace. -/
theorem yes_trace {cl : Client S X C R} {P : Problem} {β : Nat → Nat} {rule : C → URule Unit} {h : HashOrder} {mode : Mode}
    {ini fin : Nfa} {s : S} {m : RMap Nat} (hN : HeadersOK ini fin) (hR : Ready cl P β rule h mode ini fin s m)
    (h' : HashOrder) (hyes : (mode.accepts h (cl.pda s m) (cl.instance_ ini fin s m)).2 = true) :
    ∃ t, mode.ruleTrace h' (cl.pda s m) (mode.accepts h (cl.pda s m) (cl.instance_ ini fin s m)).1 = some t ∧
      IsRuleTrace (cl.pda s m) (Aut.ofNfa (cl.pda s m).size m.size (absNfa m ini) (cl.initial s m))
        (Aut.ofNfa (cl.pda s m).size m.size (absNfa m fin) (cl.accepting s m)) (HasMove (cl.pda s m)) t := by
  obtain ⟨hi, hf, ci, cf, -, -, -⟩ := hN
  have hk := hR.toMapKnows
  have hb := hR.builds
  have hfit := hR.states
  have hcom := hR.common
  have hp : (cl.pda s m).WF := Pda.WF_build _ _ hb.calls
  have hnl := pda_nLabels cl s m
  have wi := absNfa_wf hk.inv hi hk.initKnown
  have wf := absNfa_wf hk.inv hf hk.finKnown
  have cli := absNfa_closed hk.inv hi hk.initKnown ci
  have clf := absNfa_closed hk.inv hf hk.finKnown cf
  have bi : (absNfa m ini).Below (cl.pda s m).nLabels := by rw [hnl]; exact absNfa_labels hk.inv hi hk.initKnown
  have bf : (absNfa m fin).Below (cl.pda s m).nLabels := by rw [hnl]; exact absNfa_labels hk.inv hf hk.finKnown
  have ha := closed_ok wi cli (cl.pda s m) bi hb.initSorted hb.initLt
  have hb' := closed_ok wf clf (cl.pda s m) bf hb.finSorted hb.finLt
  have ua := untraced_ofNfa (W := Unit) (cl.pda s m).size (cl.pda s m).nLabels (absNfa m ini) hb.initSorted
  have ub := untraced_ofNfa (W := Unit) (cl.pda s m).size (cl.pda s m).nLabels (absNfa m fin) hb.finSorted
  have hinst : cl.instance_ ini fin s m = ofAutomata (cl.pda s m).size
      (Aut.ofNfa (cl.pda s m).size (cl.pda s m).nLabels (absNfa m ini) (cl.initial s m))
      (Aut.ofNfa (cl.pda s m).size (cl.pda s m).nLabels (absNfa m fin) (cl.accepting s m)) := by
    unfold Client.instance_
    rw [hnl]
    exact absInstance_auto hk.inv hi hk.initKnown ci hf hk.finKnown cf hb.initSorted hb.finSorted hb.initLt hb.finLt
  have hll : (cl.pda s m).nLabels < epsilon := by rw [hnl]; exact hR.small
  have hle : (cl.pda s m).nLabels ≤ epsilon := Nat.le_of_lt hll
  have hnc : (∃ c : Config, c.1 < (cl.pda s m).size ∧
      Lang (Aut.ofNfa (W := Unit) (cl.pda s m).size (cl.pda s m).nLabels (absNfa m ini) (cl.initial s m)) c ∧
      Lang (Aut.ofNfa (W := Unit) (cl.pda s m).size (cl.pda s m).nLabels (absNfa m fin) (cl.accepting s m)) c) →
      CommonAbs cl ini fin s m := by
    rintro ⟨c, h1, h2, h3⟩
    have e1 := ((Aut.ofNfa_spec (W := Unit) wi cli bi hb.initSorted hb.initLt).1 c.1 c.2 h1).1 h2
    have e2 := ((Aut.ofNfa_spec (W := Unit) wf clf bf hb.finSorted hb.finLt).1 c.1 c.2 h1).1 h3
    exact ⟨c.1, c.2, e1.1, e2.1, e1.2.1, e2.2.1, by rw [← hnl]; exact e1.2.2⟩
  rw [hinst] at hfit hyes ⊢
  rw [← hnl]
  cases mode with
  | post =>
    obtain ⟨h1, _, h3, h4, _⟩ := postStarAccepts_spec h hp (ha.post hle) hb'.toAutOK
    have hA := post_of h hp hle ha hb'.toAutOK
    obtain ⟨_, t, h5, h6, h7⟩ := trace_post h' hp hll ha hb'.toAutOK ua hA (h3 hyes).inv (h3 hyes).size hfit (h3 hyes).acc
    refine ⟨t, h5, h6 fun hz => hcom (by simp) (hnc ?_)⟩
    obtain ⟨e1, e2, e3, e4⟩ := h7 hz
    exact ⟨(t.state, t.initialStack), e4, e1 ▸ e3.lang, e2.lang⟩
  | pre =>
    obtain ⟨t, h5, h6⟩ := (c56_pre_rule_trace h h' hp hle ha.toAutOK hb' ub hfit).1 hyes
    exact ⟨t, h5, h6.run, fun r hr => ⟨r.weight, h6.rules r hr⟩, h6.initial, h6.state⟩
  | dual =>
    obtain ⟨_, h3, h4, _⟩ := dualSearchAccepts_spec h hp (ha.post hle) hb'.toAutOK hb'.noInto
    obtain ⟨hA, hB⟩ := dual_of h hp hle ha hb'
    rcases (trace_dual h' hp hll ha hb' ua ub hA hB (h3 hyes).inv (h3 hyes).size hfit (h3 hyes).acc).2 with
      ⟨t, h5, _, h6⟩ | ⟨h5, h6⟩
    · exact ⟨t, h5, h6⟩
    · exact absurd (hnc h6) (hcom (by simp))

/-- The reconstruction of an iteration. -/
structure ReconOK (k : Recon) : Prop where
  wf : k.WF
  initLen : k.initStack.length = k.initPath.length
  finLen : k.finStack.length = k.finPath.length
  covered : k.Covered
  finCovered : FinCovered k

theorem recon_ok {cl : Client S X C R} {P : Problem} {β : Nat → Nat} {rule : C → URule Unit} {h : HashOrder} {mode : Mode}
    {ini fin : Nfa} {s : S} {m : RMap Nat} (hN : HeadersOK ini fin) (hR : Ready cl P β rule h mode ini fin s m)
    {t : RuleTrace Unit}
    (ht : IsRuleTrace (cl.pda s m) (Aut.ofNfa (cl.pda s m).size m.size (absNfa m ini) (cl.initial s m))
        (Aut.ofNfa (cl.pda s m).size m.size (absNfa m fin) (cl.accepting s m)) (HasMove (cl.pda s m)) t) :
    ReconOK (cl.recon ini fin s m t) ∧ ∃ q', Run (t.state, t.initialStack) t.rules (q', t.finalStack) := by
  obtain ⟨bi, q', hrun, bf⟩ := recon_paths hN.initWF hN.finWF hN.initClosed hN.finClosed hR.toMapKnows hR.builds ht
  refine ⟨⟨⟨hR.inv, hN.initWF, hN.finWF, bi.ok, bf.ok⟩, bi.length.symm, bf.length.symm, fun i hi => ?_, fun i hi => ?_⟩, q', hrun⟩
  · exact bi.covered hR.inv hN.initWF hR.initKnown hN.initPlain hR.full hi
  · exact bf.covered hR.inv hN.finWF hR.finKnown hN.finPlain hR.full hi

/-- A failure to make a header final gives a split of a class. -/
theorem final_split {k : Recon} (hk : ReconOK k) (he : Distinct k.finNfa) {h : Header} (ho : OnStack k h k.finStack)
    {r : Refinement Nat} (hf : k.finalizeHeader h = .error r) :
    ∃ o0 o1, r.parts = [o0, o1] ∧ IsSplit o0 o1 ∧ ∀ x, x ∈ o0 ∨ x ∈ o1 → k.map.find x = some r.id := by
  have hsz := ho.size
  obtain ⟨hw, t, h1, h2⟩ := ho
  have hlen : t.length = h.conc.length := by simpa using h2.length_eq.symm
  refine c64_final_split_partial hk.wf hk.covered hk.finCovered (he _) (by rw [← hk.initLen]; exact hw) hk.initLen
    (by rw [← hk.finLen, hsz]) ?_ ?_ hf
  · intro j l hj hl
    rw [h1, List.getElem?_append_left (by omega)]
    obtain ⟨hj1, hj2⟩ := List.getElem?_eq_some_iff.1 hl
    have := h2.get (i := j) hj1 (by omega)
    rw [List.getElem?_eq_getElem (by omega)]
    simpa [← hj2] using this
  · intro j hj
    rw [h1, List.getElem?_append_right (by omega), List.getElem?_drop, hlen]
    congr 1
    omega

/-- A refinement of headers makes the map finer. -/
theorem header_finer {cl : Client S X C R} {P : Problem} {β : Nat → Nat} {rule : C → URule Unit} {h : HashOrder} {mode : Mode}
    {ini fin : Nfa} {s : S} {m : RMap Nat} (hN : HeadersOK ini fin) (hR : Ready cl P β rule h mode ini fin s m)
    {t : RuleTrace Unit}
    (ht : IsRuleTrace (cl.pda s m) (Aut.ofNfa (cl.pda s m).size m.size (absNfa m ini) (cl.initial s m))
        (Aut.ofNfa (cl.pda s m).size m.size (absNfa m fin) (cl.accepting s m)) (HasMove (cl.pda s m)) t) {fuel : Nat}
    {info : HeaderRefinement Nat} (hr : Cegar.search (cl.search s (cl.recon ini fin s m t) t)
      ((cl.recon ini fin s m t).finalizeHeader (cl.recon ini fin s m t).initialHeader) fuel = some (.header info)) :
    ∃ m', m.refineHeader info = some m' ∧ m'.Inv ∧ RMap.Splits m m' ∧ StrictlyFiner m.find m'.find := by
  obtain ⟨hk, q', hrun⟩ := recon_ok hN hR ht
  have hlen : (cl.search s (cl.recon ini fin s m t) t).len = t.rules.length := rfl
  have hd : Distinct (cl.recon ini fin s m t).finNfa := hN.finDistinct
  by_cases h0 : t.rules.length = 0
  · have hz : t.rules = [] := List.length_eq_zero_iff.1 h0
    rw [hz] at hrun
    have hst : t.initialStack = t.finalStack := (Prod.mk.injEq _ _ _ _ ▸ run_nil hrun rfl).2
    have he := search_empty (hlen.trans h0) hr
    cases hE : (cl.recon ini fin s m t).finalizeHeader (cl.recon ini fin s m t).initialHeader with
    | ok hd => rw [hE] at he; cases he
    | error r =>
      rw [hE] at he
      simp only [emptyFound, Found.header.injEq] at he
      have hi := OnStack.initial hk.initLen
      rw [show (cl.recon ini fin s m t).initStack = (cl.recon ini fin s m t).finStack from hst] at hi
      have hs := final_split hk hd hi hE
      have hc := addInfo_collect [r]
      simp only [List.foldl_cons, List.foldl_nil] at hc
      rw [he, hc]
      refine refineHeader_strict hR.inv (by simp) ?_
      intro r' hr'
      rw [List.mem_singleton.1 hr']
      exact hs
  · obtain ⟨⟨c0, hc0⟩, h2, rs, rfl, h4⟩ := c65_labels (by omega) hr
    refine refineHeader_strict hR.inv ?_ ?_
    · obtain ⟨r, hr⟩ := h2 c0 hc0
      exact List.ne_nil_of_mem ((h4 r).2 ⟨c0, hc0, hr⟩)
    · intro r hr
      obtain ⟨c, hc, hf⟩ := (h4 r).1 hr
      obtain ⟨-, -, ho⟩ := conf_onStack hR.follows hR.tracks hrun hk.initLen hc
      have := (ho (q', t.finalStack) (by rw [hlen, List.take_length]; exact hrun)).1
      exact final_split hk hd this hf

/-- In an iteration the user's class is asked for a refinement and returns `sp`. -/
def Asked (cl : Client S X C R) (h h' : HashOrder) (mode : Mode) (ini fin : Nfa) (s : S) (m : RMap Nat) (sp : Split X) : Prop :=
  ∃ t fuel depth cs, (mode.accepts h (cl.pda s m) (cl.instance_ ini fin s m)).2 = true ∧
    mode.ruleTrace h' (cl.pda s m) (mode.accepts h (cl.pda s m) (cl.instance_ ini fin s m)).1 = some t ∧
    Cegar.search (cl.search s (cl.recon ini fin s m t) t)
      ((cl.recon ini fin s m t).finalizeHeader (cl.recon ini fin s m t).initialHeader) fuel = some (.stuck depth cs) ∧
    sp = if depth = 0 then cl.refineFirst s (cl.recon ini fin s m t) (Client.ruleAt t 0)
      else cl.refineNext s (cl.recon ini fin s m t) (Client.ruleAt t depth) cs

/-- What an iteration leaves that applies the refinement `sp`: the user's class has been told about it, and a refinement of
labels has also been applied to the label abstraction. -/
def Applied (cl : Client S X C R) (s : S) (m : RMap Nat) (res : Round S R) : Split X → Prop
  | .labels x r => (∃ m', m.refine r = some m' ∧ res = .again (cl.refine s (.labels x r)) m') ∨ (m.refine r = none ∧ res = .undef)
  | .rule r => res = .again (cl.refine s (.rule r)) m

theorem applied_iff {cl : Client S X C R} {s : S} {m : RMap Nat} {res : Round S R} {sp : Split X} :
    Applied cl s m res sp ↔ res = cl.applySplit s m sp := by
  cases sp with
  | labels x r =>
    simp only [Applied, Client.applySplit]
    cases m.refine r <;> simp
  | rule r => rfl

/-- C69 for one iteration: it ends, and it answers, or it makes the label abstraction strictly finer, or it applies a
refinement that the user's class has returned. -/
theorem c69_round_partial {cl : Client S X C R} {P : Problem} {β : Nat → Nat} {rule : C → URule Unit} {h : HashOrder}
    {mode : Mode} {ini fin : Nfa} {s : S} {m : RMap Nat} (hN : HeadersOK ini fin)
    (hR : Ready cl P β rule h mode ini fin s m) (h' : HashOrder) :
    ∃ fuel0 res, (∀ fuel ≥ fuel0, cl.round h h' mode ini fin fuel s m = res) ∧
      (res = .no ∨ (∃ r, res = .trace r) ∨
        (∃ info m', res = .again (cl.refineHeader s info) m' ∧ StrictlyFiner m.find m'.find ∧ m'.Inv ∧ RMap.Splits m m') ∨
        ∃ sp, Asked cl h h' mode ini fin s m sp ∧ Applied cl s m res sp) := by
  by_cases hyes : (mode.accepts h (cl.pda s m) (cl.instance_ ini fin s m)).2 = true
  · obtain ⟨t, h1, ht⟩ := yes_trace hN hR h' hyes
    obtain ⟨fuel0, f, hf⟩ := c65_terminates (cl.search s (cl.recon ini fin s m t) t)
      ((cl.recon ini fin s m t).finalizeHeader (cl.recon ini fin s m t).initialHeader)
    refine ⟨fuel0, cl.finish s m (cl.recon ini fin s m t) t f, fun fuel hfu => ?_, ?_⟩
    · unfold Client.round
      simp only [hyes, Bool.not_true, Bool.false_eq_true, if_false, h1, hf fuel hfu]
    · have hf0 := hf fuel0 (Nat.le_refl _)
      cases f with
      | trace cs hd => exact .inr (.inl ⟨_, rfl⟩)
      | stuck depth cs => exact .inr (.inr (.inr ⟨_, ⟨t, fuel0, depth, cs, hyes, h1, hf0, rfl⟩, applied_iff.2 rfl⟩))
      | header info =>
        obtain ⟨m', a1, a2, a3, a4⟩ := header_finer hN hR ht hf0
        refine .inr (.inr (.inl ⟨info, m', ?_, a4, a2, a3⟩))
        simp only [Client.finish, a1]
  · refine ⟨0, .no, fun fuel _ => ?_, .inl rfl⟩
    unfold Client.round
    simp [hyes]

/-! ## Termination -/

/-- The pairs of labels of a list that are in one class. -/
def samePairs (L : List Nat) (m : RMap Nat) : Nat :=
  (L.flatMap fun x => L.map fun y => (x, y)).countP fun x => m.find x.1 == m.find x.2

theorem countP_lt {α : Type} {p p' : α → Bool} : ∀ {l : List α}, (∀ x ∈ l, p' x = true → p x = true) → 
    (∃ x ∈ l, p x = true ∧ p' x = false) → l.countP p' < l.countP p
  | [], _, ⟨x, hx, _⟩ => by cases hx
  | a :: l, h, ⟨x, hx, h1, h2⟩ => by
    have hle : l.countP p' ≤ l.countP p := List.countP_mono_left fun x hx => h x (List.mem_cons_of_mem _ hx)
    rw [List.countP_cons, List.countP_cons]
    rcases List.mem_cons.1 hx with rfl | hx
    · simp only [h1, h2, if_true, Bool.false_eq_true, if_false]; omega
    · have := countP_lt (fun x hx => h x (List.mem_cons_of_mem _ hx)) ⟨x, hx, h1, h2⟩
      have ha := h a List.mem_cons_self
      cases hp' : p' a
      · simp only [Bool.false_eq_true, if_false]; omega
      · simp only [ha hp', if_true]; omega

theorem samePairs_lt {L : List Nat} {m m' : RMap Nat} (hL : ∀ x, (m.find x).isSome = true → x ∈ L)
    (h : StrictlyFiner m.find m'.find) : samePairs L m' < samePairs L m := by
  unfold samePairs
  refine countP_lt (fun x _ hx => ?_) ?_
  · simp only [beq_iff_eq] at hx ⊢
    exact h.finer _ _ hx
  · obtain ⟨x, y, h1, h2, h3⟩ := h.split
    refine ⟨(x, y), ?_, by simpa using h2, by simpa using h3⟩
    rw [List.mem_flatMap]
    exact ⟨x, hL x h1, List.mem_map_of_mem (hL y (by rw [← h2]; exact h1))⟩

/-- The user's refinement makes progress: the label abstraction becomes strictly finer, or stays as it is while the number
`μ` of the user's state decreases. -/
def SplitOK (cl : Client S X C R) (μ : S → Nat) (s : S) (m : RMap Nat) : Split X → Prop
  | .labels x r => ∃ m', m.refine r = some m' ∧
      (StrictlyFiner m.find m'.find ∨ m'.find = m.find ∧ μ (cl.refine s (.labels x r)) < μ s)
  | .rule r => μ (cl.refine s (.rule r)) < μ s

theorem SplitOK.again {cl : Client S X C R} {μ : S → Nat} {s : S} {m : RMap Nat} {sp : Split X} (h : SplitOK cl μ s m sp) :
    ∃ s' m', cl.applySplit s m sp = .again s' m' ∧ (StrictlyFiner m.find m'.find ∨ m'.find = m.find ∧ μ s' < μ s) := by
  cases sp with
  | labels x r =>
    obtain ⟨m', h1, h2⟩ := h
    exact ⟨_, m', by simp only [Client.applySplit, h1], h2⟩
  | rule r => exact ⟨_, m, rfl, .inr ⟨rfl, h⟩⟩

theorem splitOK_of_finer {cl : Client S X C R} {μ : S → Nat} {s s' : S} {m m' : RMap Nat} {sp : Split X}
    (h : cl.applySplit s m sp = .again s' m') (hm : StrictlyFiner m.find m'.find) : SplitOK cl μ s m sp := by
  cases sp with
  | labels x r =>
    simp only [Client.applySplit] at h
    split at h
    · rename_i m1 h1
      cases h
      exact ⟨m', h1, .inl hm⟩
    · cases h
  | rule r =>
    cases h
    obtain ⟨x, y, _, h2, h3⟩ := hm.split
    exact absurd h2 h3

/-- C69: `cegar_solve` returns if the user's own refinements make progress. `J` is what the user's classes maintain. The
hypotheses on negated edges, on edges that read the same label, and, for post* and dual search, on common configurations
are needed, see `c69_negated_no_progress`. -/
theorem c69_terminates_partial {cl : Client S X C R} {P : Problem} {rule : C → URule Unit} {ini fin : Nfa}
    (hN : HeadersOK ini fin) {h h' : HashOrder} {mode : Mode} {J : S → RMap Nat → Prop} {β : S → Nat → Nat}
    (hJ : ∀ s m, J s m → Ready cl P (β s) rule h mode ini fin s m)
    (hstep : ∀ fuel s m s' m', J s m → cl.round h h' mode ini fin fuel s m = .again s' m' → J s' m')
    (μ : S → Nat) (hsp : ∀ s m sp, J s m → Asked cl h h' mode ini fin s m sp → SplitOK cl μ s m sp)
    {s : S} {m : RMap Nat} (h0 : J s m) :
    ∃ fuel0 r, ∀ fuel ≥ fuel0, cl.solve h h' mode ini fin fuel s m = some r := by
  have hall : ∀ (L : List Nat) n1 n2 s m, J s m → (∀ x, (m.find x).isSome = true → x ∈ L) → samePairs L m = n1 → μ s = n2 →
      ∃ fuel0 r, ∀ fuel ≥ fuel0, cl.solve h h' mode ini fin fuel s m = some r := by
    intro L n1
    induction n1 using Nat.strongRecOn with
    | ind n1 ih1 =>
    intro n2
    induction n2 using Nat.strongRecOn with
    | ind n2 ih2 =>
    intro s m hs hL h1 h2
    obtain ⟨f0, res, hf, hres⟩ := c69_round_partial hN (hJ s m hs) h'
    have done : ∀ r, (∀ fuel ≥ f0, cl.solve h h' mode ini fin (fuel + 1) s m = some r) →
        ∃ fuel0 r, ∀ fuel ≥ fuel0, cl.solve h h' mode ini fin fuel s m = some r := by
      intro r hr
      refine ⟨f0 + 1, r, fun fuel hfu => ?_⟩
      obtain ⟨fuel, rfl⟩ : ∃ n, fuel = n + 1 := ⟨fuel - 1, by omega⟩
      exact hr fuel (by omega)
    have again : ∀ s' m', res = .again s' m' →
        (∃ fuel0 r, ∀ fuel ≥ fuel0, cl.solve h h' mode ini fin fuel s' m' = some r) →
        ∃ fuel0 r, ∀ fuel ≥ fuel0, cl.solve h h' mode ini fin fuel s m = some r := by
      rintro s' m' rfl ⟨f1, r, h3⟩
      refine ⟨max f0 f1 + 1, r, fun fuel hfu => ?_⟩
      obtain ⟨fuel, rfl⟩ : ∃ n, fuel = n + 1 := ⟨fuel - 1, by omega⟩
      rw [Client.solve, hf fuel (by omega)]
      exact h3 fuel (by omega)
    have finer : ∀ s' m', res = .again s' m' → StrictlyFiner m.find m'.find →
        ∃ fuel0 r, ∀ fuel ≥ fuel0, cl.solve h h' mode ini fin fuel s m = some r := by
      intro s' m' hr hm
      refine again s' m' hr (ih1 _ ?_ _ s' m' (hstep f0 s m s' m' hs (by rw [hf f0 (Nat.le_refl _), hr])) ?_ rfl rfl)
      · rw [← h1]; exact samePairs_lt hL hm
      · intro x hx
        rw [hm.known] at hx
        exact hL x hx
    rcases hres with rfl | ⟨r, rfl⟩ | ⟨info, m', hr, hm, -⟩ | ⟨sp, ha, hap⟩
    · exact done none fun fuel hfu => by rw [Client.solve, hf fuel hfu]
    · exact done (some r) fun fuel hfu => by rw [Client.solve, hf fuel hfu]
    · exact finer _ _ hr hm
    · have hr := applied_iff.1 hap
      obtain ⟨s', m', h3, h4 | ⟨h4, h5⟩⟩ := (hsp s m sp hs ha).again
      · exact finer _ _ (hr.trans h3) h4
      · have hr' := hr.trans h3
        refine again s' m' hr' (ih2 _ (by rw [← h2]; exact h5) s' m'
          (hstep f0 s m s' m' hs (by rw [hf f0 (Nat.le_refl _), hr'])) ?_ ?_ rfl)
        · rw [h4]; exact hL
        · rw [← h1]; unfold samePairs; rw [h4]
  refine hall m.keys _ _ s m h0 (fun x hx => ?_) rfl rfl
  obtain ⟨c, hc⟩ := Option.isSome_iff_exists.1 hx
  by_cases hk : x ∈ m.keys
  · exact hk
  · rw [(RMap.find_none x).2 hk] at hc; cases hc

/-! ## A client whose refinements make progress -/

theorem preLabels_class {k : Recon} (hk : ReconOK k) {h : Header} {g : Nat} {w : List Nat} (ho : OnStack k h (g :: w))
    {l : Nat} (hl : l ∈ k.preLabels h) : k.map.find l = some g ∧ k.preMatches h l = true := by
  obtain ⟨hw, t, h1, h2⟩ := ho
  unfold Recon.preLabels at hl
  unfold Recon.preMatches
  rcases List.eq_nil_or_concat h.conc with h0 | ⟨c, x, h0⟩
  · simp only [h0, List.getLast?_nil] at hl ⊢
    rw [h0] at h2
    cases h2
    split at hl
    · simp at hl
    · rename_i hne
      obtain ⟨a1, a2⟩ := edgeLabels_sound hk.wf.init hk.wf.initPath (concrete_sorted hk.wf.map _) hl
      refine ⟨?_, (checkPath_iff hk.wf.init hk.wf.initPath _ _).2 a2⟩
      rw [(RMap.mem_concrete hk.wf.map _ _).1 ((mem_sortBy _ _ _).1 a1)]
      have := congrArg (·[0]?) h1
      simp only [List.getElem?_cons_zero, List.nil_append, List.getElem?_drop, Nat.add_zero] at this
      rw [← hk.initLen, ← this]; rfl
  · rw [h0] at h2 hl ⊢
    simp only [List.concat_eq_append, List.getLast?_append, List.getLast?_singleton, Option.some_or, List.mem_singleton] at hl
    simp only [List.concat_eq_append, List.reverse_append, List.reverse_cons, List.reverse_nil, List.nil_append,
      List.singleton_append] at h2
    subst hl
    cases h2 with
    | cons h3 h4 =>
      simp only [List.cons_append, List.cons.injEq] at h1
      exact ⟨by rw [h3, h1.1], by simp⟩

theorem preLabels_ok {k : Recon} (hk : ReconOK k) (he : Distinct k.initNfa) {h : Header} {g : Nat} {w : List Nat}
    (ho : OnStack k h (g :: w)) : (k.preLabels h).Nodup ∧ k.preLabels h ≠ [] := by
  have hsz := ho.size
  have hw := ho.wild
  unfold Recon.preLabels
  cases hc : h.conc.getLast? with
  | some l => simp
  | none =>
    rw [List.getLast?_eq_none_iff] at hc
    simp only [hc, List.length_cons, List.length_nil] at hsz
    dsimp only
    rw [if_neg (by omega)]
    obtain ⟨h1, h2⟩ := edgeLabels_clear hk.wf.init hk.wf.initPath (he _) (concrete_sorted hk.wf.map
      ((k.initStack[k.initPath.length - h.wild]?).getD 0)) (k.initPath.length - h.wild)
    refine ⟨h1, ?_⟩
    obtain ⟨l, h3, h4⟩ := hk.covered (k.initPath.length - h.wild) (by rw [← hk.initLen]; omega)
    exact List.ne_nil_of_mem ((h2 l).2 ⟨(mem_sortBy _ _ _).2 ((RMap.mem_concrete hk.wf.map _ _).2 h3), h4⟩)

/-- A split of one class is possible and makes the map finer. -/
theorem refine_strict {m : RMap Nat} (hm : m.Inv) {xs ys : List Nat} {c : Nat} (hx : xs ≠ []) (hy : ys ≠ []) (nx : xs.Nodup)
    (ny : ys.Nodup) (hd : ∀ x ∈ xs, x ∉ ys) (hc : ∀ x, x ∈ xs ∨ x ∈ ys → m.find x = some c) :
    ∃ m', m.refine (.ofPair xs ys c) = some m' ∧ m'.Inv ∧ RMap.Splits m m' ∧ StrictlyFiner m.find m'.find := by
  have px : (sortBy ltB xs).Perm xs := sortBy_perm _ _
  have py : (sortBy ltB ys).Perm ys := sortBy_perm _ _
  obtain ⟨x, hx'⟩ := List.exists_mem_of_ne_nil _ hx
  obtain ⟨y, hy'⟩ := List.exists_mem_of_ne_nil _ hy
  have hfit : RMap.Fits m (.ofPair xs ys c) := by
    refine ⟨?_, ?_, ?_⟩
    · intro p hp x hxp
      simp only [Refinement.ofPair, List.mem_cons, List.not_mem_nil, or_false] at hp
      rcases hp with rfl | rfl
      · exact hc x (.inl (px.mem_iff.1 hxp))
      · exact hc x (.inr (py.mem_iff.1 hxp))
    · intro p hp
      simp only [Refinement.ofPair, List.mem_cons, List.not_mem_nil, or_false] at hp
      rcases hp with rfl | rfl
      · exact List.ne_nil_of_mem (px.mem_iff.2 hx')
      · exact List.ne_nil_of_mem (py.mem_iff.2 hy')
    · simp only [Refinement.ofPair, List.flatten_cons, List.flatten_nil, List.append_nil]
      rw [List.nodup_append]
      refine ⟨px.nodup_iff.2 nx, py.nodup_iff.2 ny, ?_⟩
      rintro a ha b hb rfl
      exact hd a (px.mem_iff.1 ha) (py.mem_iff.1 hb)
  obtain ⟨m', a1, a2, a3, -, a5⟩ := RMap.refine_splits hm hfit
  refine ⟨m', a1, a2, a3, splits_known a3, splits_finer a3, x, y, ?_, ?_, ?_⟩
  · rw [hc x (.inl hx')]; rfl
  · rw [hc x (.inl hx'), hc y (.inr hy')]
  · exact a5 0 1 _ _ x y rfl rfl (by decide) (px.mem_iff.2 hx') (py.mem_iff.2 hy')

theorem listClient_tracks (rules : List (URule Unit)) (ini fin : List Nat) :
    Tracks (listClient rules ini fin) Prod.fst () := by
  have key : ∀ {k : Recon} {a : URule Unit} {src : Nat} {h : Header} {c}, c ∈ confsOf rules k a src h → Classes k.map c.1 a := by
    intro k a src h c hc
    unfold confsOf at hc
    obtain ⟨r, h1, h2⟩ := List.mem_filterMap.1 hc
    split at h2
    · rename_i hb
      split at h2
      · simp only [Option.some.injEq] at h2
        subst h2
        simp only [Bool.and_eq_true, beq_iff_eq, behind, Bool.or_eq_true] at hb
        refine ⟨hb.2.1.2, fun ho => ?_⟩
        have ho' := hb.2.1.1.2
        dsimp only at ho
        rcases hb.2.2 with (h3 | h3) | h3
        · rw [ho', h3] at ho; simp at ho
        · rw [ho', h3] at ho; simp at ho
        · exact h3
      · cases h2
    · cases h2
  exact ⟨fun k a c hc => key hc, fun k a c c' hc => key hc⟩

/-- Nothing is behind the labels that a header can have. -/
theorem confsOf_nil {rules : List (URule Unit)} {k : Recon} {a : URule Unit} {src : Nat} {h : Header}
    (hn : ∀ c, c ∉ confsOf rules k a src h) {r : URule Unit} (hr : r ∈ rules) (hs : r.src = src)
    (hb : behind k.map a r = true) : k.preMatches h r.pre ≠ true := by
  intro hp
  refine hn (r, h.pop.append (postOf r)) (List.mem_filterMap.2 ⟨r, hr, ?_⟩)
  rw [if_pos (by simp [hs, hb])]
  simp [Recon.updateHeader, hp, Recon.updateWildcardPre, Recon.popMany]

theorem behind_exists {rules : List (URule Unit)} {ini fin : List Nat} {m : RMap Nat}
    (hk : ∀ r ∈ rules, r.pre ∈ m.keys ∧ r.opLabel ∈ m.keys)
    (hok : ∀ c ∈ (listClient rules ini fin).calls () m, c.OK m.size) {a : URule Unit}
    (ha : HasMove ((listClient rules ini fin).pda () m) a) : ∃ r ∈ rules, behind m a r = true := by
  have hcls : ∀ {x}, x ∈ m.keys → m.find x = some (classOf m x) := by
    intro x hx
    obtain ⟨c, hc⟩ := RMap.find_isSome hx
    simp [classOf, hc]
  obtain ⟨w, ha⟩ := ha
  unfold Client.pda at ha
  rw [c23_rules _ _ hok] at ha
  obtain ⟨c, hc, h1⟩ := ha
  obtain ⟨r, hr, rfl⟩ := List.mem_map.1 hc
  obtain ⟨a1, a2, a3, a4, a5, a6⟩ := h1
  refine ⟨r, hr, ?_⟩
  dsimp only at a1 a2 a3 a4 a5 a6
  simp only [Bool.false_eq_true, if_false, List.mem_singleton] at a6
  simp only [behind, Bool.and_eq_true, beq_iff_eq, Bool.or_eq_true]
  refine ⟨⟨⟨⟨?_, ?_⟩, ?_⟩, ?_⟩, .inr ?_⟩
  all_goals first | exact a1.symm | exact a2.symm | exact a3.symm | skip
  · rw [hcls (hk r hr).1, a6]
  · rw [hcls (hk r hr).2]; simp_all

/-- The refinements of the client make progress. -/
theorem list_split {rules : List (URule Unit)} {I F : List Nat} {ini fin : Nfa} {h h' : HashOrder} {mode : Mode} {m : RMap Nat}
    (hN : HeadersOK ini fin) (hd : Distinct ini) (hk : ∀ r ∈ rules, r.pre ∈ m.keys ∧ r.opLabel ∈ m.keys)
    (hR : Ready (listClient rules I F) (listProblem rules I F) id Prod.fst h mode ini fin () m) {sp : Split Unit}
    (ha : Asked (listClient rules I F) h h' mode ini fin () m sp) :
    ∃ m', (listClient rules I F).applySplit () m sp = .again () m' ∧ m'.Inv ∧ RMap.Splits m m' ∧
      StrictlyFiner m.find m'.find := by
  obtain ⟨t, fuel, depth, cs, hyes, htr, hst, rfl⟩ := ha
  obtain ⟨t', ht1, ht⟩ := yes_trace hN hR h' hyes
  rw [htr, Option.some.injEq] at ht1
  subst ht1
  obtain ⟨hok, q', hrun⟩ := recon_ok hN hR ht
  obtain ⟨s1, s2, s3, s5, s4⟩ := c65_stuck hst
  change depth < t.rules.length at s1
  have hmove : HasMove ((listClient rules I F).pda () m) (Client.ruleAt t depth) :=
    ht.rules _ (List.mem_of_getElem? (ruleAt_eq s1))
  obtain ⟨r0, hr0, hb0⟩ := behind_exists hk hR.builds.calls hmove
  obtain ⟨w, hw⟩ := run_before hrun s1
  have hY : ∀ y, y ∈ ((rules.filter (behind m (Client.ruleAt t depth))).map URule.pre).dedup ↔
      ∃ r ∈ rules, behind m (Client.ruleAt t depth) r = true ∧ r.pre = y := by
    intro y
    simp [List.mem_dedup, List.mem_map, List.mem_filter, and_assoc]
  have main : ∀ xs : List Nat, xs ≠ [] → xs.Nodup →
      (∀ x ∈ xs, ∃ hd src, (∀ c, c ∉ confsOf rules ((listClient rules I F).recon ini fin () m t) (Client.ruleAt t depth) src hd) ∧
        (Client.ruleAt t depth).src = src ∧
        OnStack ((listClient rules I F).recon ini fin () m t) hd ((Client.ruleAt t depth).pre :: w) ∧
        x ∈ ((listClient rules I F).recon ini fin () m t).preLabels hd) →
      ∃ m', (listClient rules I F).applySplit () m (.labels () (.ofPair xs
        ((rules.filter (behind m (Client.ruleAt t depth))).map URule.pre).dedup (Client.ruleAt t depth).pre)) = .again () m' ∧
        m'.Inv ∧ RMap.Splits m m' ∧ StrictlyFiner m.find m'.find := by
    intro xs hx nx hall
    have := refine_strict hR.inv hx (List.ne_nil_of_mem ((hY r0.pre).2 ⟨r0, hr0, hb0, rfl⟩)) nx
      (List.nodup_dedup _) ?_ ?_ (c := (Client.ruleAt t depth).pre)
    · obtain ⟨m', b1, b2, b3, b4⟩ := this
      exact ⟨m', by simp only [Client.applySplit, b1], b2, b3, b4⟩
    · intro x hx' hy
      obtain ⟨hd', src, c1, c2, c3, c4⟩ := hall x hx'
      obtain ⟨r, e1, e2, rfl⟩ := (hY x).1 hy
      have e3 : r.src = (Client.ruleAt t depth).src := by
        simp only [behind, Bool.and_eq_true, beq_iff_eq] at e2
        exact e2.1.1.1.1
      exact confsOf_nil c1 e1 (e3.trans c2) e2 (preLabels_class hok c3 c4).2
    · rintro x (hx' | hy)
      · obtain ⟨hd', src, c1, c2, c3, c4⟩ := hall x hx'
        exact (preLabels_class hok c3 c4).1
      · obtain ⟨r, e1, e2, rfl⟩ := (hY x).1 hy
        simp only [behind, Bool.and_eq_true, beq_iff_eq] at e2
        exact e2.1.2
  by_cases h0 : depth = 0
  · subst h0
    rw [if_pos rfl]
    have ho : OnStack ((listClient rules I F).recon ini fin () m t) ((listClient rules I F).recon ini fin () m t).initialHeader
        ((Client.ruleAt t 0).pre :: w) := by
      have := OnStack.initial hok.initLen
      have he := congrArg Prod.snd (run_nil hw (by simp))
      dsimp only at he
      rw [← he]; exact this
    obtain ⟨p1, p2⟩ := preLabels_ok hok hd ho
    refine main _ p2 p1 fun x hx => ⟨_, _, fun c hc => ?_, rfl, ho, hx⟩
    have := s3.1 rfl
    change confsOf rules _ _ _ _ = [] at this
    rw [this] at hc
    cases hc
  · rw [if_neg h0]
    have hcs : ∀ c ∈ cs, c.1.dst = (Client.ruleAt t depth).src ∧
        OnStack ((listClient rules I F).recon ini fin () m t) c.2 ((Client.ruleAt t depth).pre :: w) := by
      intro c hc
      obtain ⟨-, c2, c3⟩ := conf_onStack hR.follows hR.tracks hrun hok.initLen ((s2 c).1 hc)
      obtain ⟨c4, c5⟩ := c3 _ hw
      exact ⟨c2.trans c5.symm, c4⟩
    obtain ⟨c0, hc0⟩ := List.exists_mem_of_ne_nil _ (s5 h0)
    refine main _ ?_ (List.nodup_dedup _) fun x hx => ?_
    · obtain ⟨x, hx⟩ := List.exists_mem_of_ne_nil _ (preLabels_ok hok hd (hcs c0 hc0).2).2
      exact List.ne_nil_of_mem (List.mem_dedup.2 (List.mem_flatMap.2 ⟨c0, hc0, hx⟩))
    · obtain ⟨c, hc, hx⟩ := List.mem_flatMap.1 (List.mem_dedup.1 hx)
      refine ⟨c.2, c.1.dst, fun c' hc' => ?_, (hcs c hc).1.symm, (hcs c hc).2, hx⟩
      exact s4 c' (.next ((s2 c).1 hc) s1 hc')

/-- What the client and the automata must satisfy with the labels `K`. -/
structure ListOK (rules : List (URule Unit)) (I F : List Nat) (ini fin : Nfa) (h : HashOrder) (mode : Mode) (K : List Nat) :
    Prop where
  headers : HeadersOK ini fin
  initDistinct : Distinct ini
  initSorted : SSorted I
  finSorted : SSorted F
  states : ∀ q, q ∈ I ∨ q ∈ F → ∃ r ∈ rules, q = r.src ∨ q = r.dst
  labels : ∀ r ∈ rules, r.pre ∈ K ∧ r.opLabel ∈ K
  initLabels : ∀ q s, (q, s) ∈ ini.states → ∀ e ∈ s.edges, ∀ g ∈ e.syms, g ∈ K
  finLabels : ∀ q s, (q, s) ∈ fin.states → ∀ e ∈ s.edges, ∀ g ∈ e.syms, g ∈ K
  few : K.length < epsilon
  common : mode = .pre ∨ ∀ q ∈ I, q ∉ F
  fit : ∀ m : RMap Nat, m.Inv → m.keys = K → Full m →
    StatesFit (mode.accepts h ((listClient rules I F).pda () m) ((listClient rules I F).instance_ ini fin () m)).1

theorem size_le_keys {m : RMap Nat} (hf : Full m) : m.size ≤ m.keys.length := by
  have h1 : ∀ c ∈ List.range m.size, c ∈ m.keys.map fun x => (m.find x).getD 0 := by
    intro c hc
    obtain ⟨x, hx⟩ := hf c (List.mem_range.1 hc)
    refine List.mem_map.2 ⟨x, ?_, by rw [hx]; rfl⟩
    by_cases hk : x ∈ m.keys
    · exact hk
    · rw [(RMap.find_none x).2 hk] at hx; cases hx
  have := (List.subperm_of_subset List.nodup_range h1).length_le
  simpa using this

theorem list_ready {rules : List (URule Unit)} {I F : List Nat} {ini fin : Nfa} {h : HashOrder} {mode : Mode} {K : List Nat}
    (hL : ListOK rules I F ini fin h mode K) {m : RMap Nat} (hm : m.Inv) (hk : m.keys = K) (hf : Full m) :
    Ready (listClient rules I F) (listProblem rules I F) id Prod.fst h mode ini fin () m := by
  have hsz : m.size < epsilon := by
    have := size_le_keys hf
    have := hL.few
    rw [hk] at *
    omega
  refine { inv := hm, fits := Nat.le_of_lt hsz, initKnown := ?_, finKnown := ?_, full := hf, small := hsz, builds := ?_,
           follows := listClient_follows _ _ _, tracks := listClient_tracks _ _ _, states := hL.fit m hm hk hf, common := ?_ }
  · intro q s hs e he g hg
    rw [hk]; exact hL.initLabels q s hs e he g hg
  · intro q s hs e he g hg
    rw [hk]; exact hL.finLabels q s hs e he g hg
  · exact (listClient_covers hm hL.initSorted hL.finSorted (by rw [hk]; exact hL.labels) hL.states).toBuilds
  · rintro hmode ⟨q, v, h1, h2, -⟩
    rcases hL.common with h3 | h3
    · exact hmode h3
    · exact h3 q h1 h2

/-- C69 for a whole application of `cegar_solve`, with a client in the style of test/ParsingPDAFactory.h: with every
initial abstraction it terminates; after `std::nullopt` the problem has no solution, and after a trace it has one. -/
theorem c69_list_decides {rules : List (URule Unit)} {I F : List Nat} {ini fin : Nfa} {h h' : HashOrder} {mode : Mode}
    {m : RMap Nat} (hL : ListOK rules I F ini fin h mode m.keys) (hm : m.Inv) (hf : Full m) :
    ∃ fuel0 r, (∀ fuel ≥ fuel0, (listClient rules I F).solve h h' mode ini fin fuel () m = some r) ∧
      (r = none → ¬ (listProblem rules I F).Solvable (· ∈ m.keys) ini fin) ∧
      (r ≠ none → mode ≠ .post → (listProblem rules I F).Solvable (fun _ => True) ini fin) := by
  have hready : ∀ s m', m'.Inv ∧ m'.keys = m.keys ∧ Full m' →
      Ready (listClient rules I F) (listProblem rules I F) id Prod.fst h mode ini fin s m' :=
    fun _ _ hj => list_ready hL hj.1 hj.2.1 hj.2.2
  have hsplit : ∀ s m' sp, (m'.Inv ∧ m'.keys = m.keys ∧ Full m') → Asked (listClient rules I F) h h' mode ini fin s m' sp →
      ∃ m'', (listClient rules I F).applySplit () m' sp = .again () m'' ∧ m''.Inv ∧ RMap.Splits m' m'' ∧
        StrictlyFiner m'.find m''.find :=
    fun s m' sp hj ha => list_split hL.headers hL.initDistinct (by rw [hj.2.1]; exact hL.labels) (hready s m' hj) ha
  have hstep : ∀ fuel s m1 s' m2, (m1.Inv ∧ m1.keys = m.keys ∧ Full m1) →
      (listClient rules I F).round h h' mode ini fin fuel s m1 = .again s' m2 → m2.Inv ∧ m2.keys = m.keys ∧ Full m2 := by
    intro fuel s m1 s' m2 hj hr
    have key : m2.Inv ∧ RMap.Splits m1 m2 := by
      obtain ⟨f0, res, r1, r2⟩ := c69_round_partial hL.headers (hready s m1 hj) h'
      have r1 := r1 f0 (Nat.le_refl _)
      have same : res ≠ .undef → res = .again s' m2 := fun hn => round_fuel _ r1 hr hn (by simp)
      rcases r2 with rfl | ⟨r, rfl⟩ | ⟨info, m', rfl, -, r3, r4⟩ | ⟨sp, ha, hap⟩
      · cases same (by simp)
      · cases same (by simp)
      · have := same (by simp)
        simp only [Round.again.injEq] at this
        rw [← this.2]; exact ⟨r3, r4⟩
      · cases applied_iff.1 hap
        obtain ⟨m'', a1, a2, a3, -⟩ := hsplit s m1 sp hj ha
        have a1' : (listClient rules I F).applySplit s m1 sp = .again () m'' := a1
        rw [a1'] at same
        have := same (by simp)
        simp only [Round.again.injEq] at this
        rw [← this.2]; exact ⟨a2, a3⟩
    exact ⟨key.1, key.2.keys.trans hj.2.1, key.2.full hj.2.2⟩
  have h0 : m.Inv ∧ m.keys = m.keys ∧ Full m := ⟨hm, rfl, hf⟩
  obtain ⟨fuel0, r, hr⟩ := c69_terminates_partial hL.headers (β := fun _ => id) (J := fun _ m' => m'.Inv ∧ m'.keys = m.keys ∧ Full m')
    hready hstep (fun _ => 0) (fun s m' sp hj ha => by
      obtain ⟨m'', a1, -, -, a2⟩ := hsplit s m' sp hj ha
      exact splitOK_of_finer (s := s) (s' := ()) a1 a2) (s := ()) h0
  refine ⟨fuel0, r, hr, ?_, ?_⟩
  · rintro rfl
    refine c66_no_partial hL.headers.initWF hL.headers.finWF hL.headers.initClosed hL.headers.finClosed
      (J := fun _ m' => m'.Inv ∧ m'.keys = m.keys ∧ Full m') ?_ hstep h0 (hr fuel0 (Nat.le_refl _))
    intro s m' hj
    have := hready s m' hj
    exact ⟨⟨this.toMapKnows, hL.headers.initPlain.negClear _, hL.headers.finPlain.negClear _⟩,
      listClient_covers hj.1 hL.initSorted hL.finSorted (by rw [hj.2.1]; exact hL.labels) hL.states,
      fun x hx => by rw [hj.2.1]; exact hx⟩
  · intro hne hmode
    obtain ⟨r, rfl⟩ := Option.ne_none_iff_exists'.1 hne
    refine c67_solvable hL.headers.initWF hL.headers.finWF hL.headers.initClosed hL.headers.finClosed hmode
      (cl := listClient rules I F) (rule := Prod.fst)
      (J := fun _ m' => m'.Inv ∧ m'.keys = m.keys ∧ Full m') (β := fun _ => id) ?_ (fun _ _ _ _ h => h) (fun _ _ _ _ h => h)
      hstep h0 (hr fuel0 (Nat.le_refl _))
    intro s m' hj
    have := hready s m' hj
    exact ⟨this.toMapKnows, this.small, this.builds, this.follows, fun q _ => ⟨q, rfl⟩, this.states⟩

/-- With pre* the numbers of states are small enough if those of the arguments are. -/
theorem list_fit_pre {rules : List (URule Unit)} {I F : List Nat} {ini fin : Nfa} (h : HashOrder) {N : Nat} {m : RMap Nat}
    (hN : HeadersOK ini fin) (hI : SSorted I) (hF : SSorted F)
    (hst : ∀ q, q ∈ I ∨ q ∈ F → ∃ r ∈ rules, q = r.src ∨ q = r.dst) (hr : ∀ r ∈ rules, r.src < N ∧ r.dst < N)
    (hb : (N + ini.states.length + 1) * (N + fin.states.length + 1) ≤ sizeMax)
    (hl : ∀ r ∈ rules, r.pre ∈ m.keys ∧ r.opLabel ∈ m.keys) (hk : MapKnows m ini fin) :
    StatesFit (Mode.pre.accepts h ((listClient rules I F).pda () m) ((listClient rules I F).instance_ ini fin () m)).1 := by
  have hB := (listClient_covers hk.inv hI hF hl hst).toBuilds
  have hp : ((listClient rules I F).pda () m).WF := Pda.WF_build _ _ hB.calls
  have hnl := pda_nLabels (listClient rules I F) () m
  have wi := absNfa_wf hk.inv hN.initWF hk.initKnown
  have wf := absNfa_wf hk.inv hN.finWF hk.finKnown
  have bi : (absNfa m ini).Below ((listClient rules I F).pda () m).nLabels := by
    rw [hnl]; exact absNfa_labels hk.inv hN.initWF hk.initKnown
  have bf : (absNfa m fin).Below ((listClient rules I F).pda () m).nLabels := by
    rw [hnl]; exact absNfa_labels hk.inv hN.finWF hk.finKnown
  have ha := closed_ok wi (absNfa_closed hk.inv hN.initWF hk.initKnown hN.initClosed) ((listClient rules I F).pda () m) bi
    hB.initSorted hB.initLt
  have hb' := closed_ok wf (absNfa_closed hk.inv hN.finWF hk.finKnown hN.finClosed) ((listClient rules I F).pda () m) bf
    hB.finSorted hB.finLt
  have hsz : ((listClient rules I F).pda () m).size ≤ N := by
    refine Pda.size_build_le ?_ ?_
    · rintro c hc src r wc pre rfl
      obtain ⟨r', hr', he⟩ := List.mem_map.1 hc
      simp only [PdaCall.rule.injEq] at he
      obtain ⟨rfl, rfl, -⟩ := he
      exact hr r' hr'
    · rintro c hc s rfl
      obtain ⟨r', hr', he⟩ := List.mem_map.1 hc
      cases he
  have hinst : (listClient rules I F).instance_ ini fin () m = ofAutomata ((listClient rules I F).pda () m).size
      (Aut.ofNfa ((listClient rules I F).pda () m).size ((listClient rules I F).pda () m).nLabels (absNfa m ini) I)
      (Aut.ofNfa ((listClient rules I F).pda () m).size ((listClient rules I F).pda () m).nLabels (absNfa m fin) F) := by
    unfold Client.instance_
    rw [hnl]
    exact absInstance_auto hk.inv hN.initWF hk.initKnown hN.initClosed hN.finWF hk.finKnown hN.finClosed hB.initSorted
      hB.finSorted hB.initLt hB.finLt
  rw [hinst]
  obtain ⟨n1, n2, n3⟩ := preStates h hp (by rw [hnl]; exact hk.fits) ha.toAutOK hb'.toAutOK hb'.noInto
  have l1 := Aut.ofNfa_n_le (W := Unit) (size := ((listClient rules I F).pda () m).size) wi bi hI
  have l2 := Aut.ofNfa_n_le (W := Unit) (size := ((listClient rules I F).pda () m).size) wf bf hF
  have e1 : (absNfa m ini).states.length = ini.states.length := by simp [absNfa]
  have e2 : (absNfa m fin).states.length = fin.states.length := by simp [absNfa]
  rw [e1] at l1
  rw [e2] at l2
  have m1 := Nat.mul_le_mul (Nat.le_trans l2 (Nat.add_le_add_right hsz _)) (Nat.le_trans l1 (Nat.add_le_add_right hsz _))
  have g1 : N + ini.states.length ≤ (N + ini.states.length + 1) * (N + fin.states.length + 1) :=
    Nat.le_trans (Nat.le_succ _) (Nat.le_mul_of_pos_right _ (Nat.succ_pos _))
  have g2 : N + fin.states.length ≤ (N + ini.states.length + 1) * (N + fin.states.length + 1) :=
    Nat.le_trans (Nat.le_succ _) (Nat.le_mul_of_pos_left _ (Nat.succ_pos _))
  have g3 : (N + fin.states.length) * (N + ini.states.length) ≤ (N + ini.states.length + 1) * (N + fin.states.length + 1) := by
    rw [Nat.mul_comm]
    exact Nat.mul_le_mul (Nat.le_succ _) (Nat.le_succ _)
  exact ⟨n1.trans_le (Nat.le_trans (Nat.le_trans l1 (Nat.add_le_add_right hsz _)) (Nat.le_trans g1 hb)),
    n2.trans_le (Nat.le_trans (Nat.le_trans l2 (Nat.add_le_add_right hsz _)) (Nat.le_trans g2 hb)),
    Nat.le_trans n3 (Nat.le_trans m1 (Nat.le_trans g3 hb))⟩

/-- C69 with pre*, where all conditions are on the arguments: `cegar_solve` decides the problem, with every initial
abstraction `m`. -/
theorem c69_list_decides_pre {rules : List (URule Unit)} {I F : List Nat} {ini fin : Nfa} {h h' : HashOrder} {m : RMap Nat}
    {N : Nat} (hN : HeadersOK ini fin) (hd : Distinct ini) (hI : SSorted I) (hF : SSorted F)
    (hst : ∀ q, q ∈ I ∨ q ∈ F → ∃ r ∈ rules, q = r.src ∨ q = r.dst) (hr : ∀ r ∈ rules, r.src < N ∧ r.dst < N)
    (hb : (N + ini.states.length + 1) * (N + fin.states.length + 1) ≤ sizeMax)
    (hl : ∀ r ∈ rules, r.pre ∈ m.keys ∧ r.opLabel ∈ m.keys) (hki : Known m ini) (hkf : Known m fin)
    (hfew : m.keys.length < epsilon) (hm : m.Inv) (hf : Full m) :
    ∃ fuel0 r, (∀ fuel ≥ fuel0, (listClient rules I F).solve h h' .pre ini fin fuel () m = some r) ∧
      (r = none → ¬ (listProblem rules I F).Solvable (· ∈ m.keys) ini fin) ∧
      (r ≠ none → (listProblem rules I F).Solvable (fun _ => True) ini fin) := by
  obtain ⟨fuel0, r, h1, h2, h3⟩ := c69_list_decides (h := h) (h' := h') (mode := .pre) (m := m)
    { headers := hN, initDistinct := hd, initSorted := hI, finSorted := hF, states := hst, labels := hl, initLabels := hki,
      finLabels := hkf, few := hfew, common := .inl rfl,
      fit := fun m' a1 a2 a3 => list_fit_pre h hN hI hF hst hr hb (by rw [a2]; exact hl)
        ⟨a1, by have := size_le_keys a3; rw [a2] at this; omega, fun q s hs e he g hg => by rw [a2]; exact hki q s hs e he g hg,
          fun q s hs e he g hg => by rw [a2]; exact hkf q s hs e he g hg⟩ } hm hf
  exact ⟨fuel0, r, h1, h2, fun hne => h3 hne (by simp)⟩

/-! ## Cases -/

theorem distinct_of {n : Nfa} (h0 : (n.initial.flatMap fun s => (n.get s).edges).length ≤ 1)
    (h : ∀ x ∈ n.states, x.2.edges.length ≤ 1) : Distinct n := by
  have one : ∀ {R : NEdge → NEdge → Prop} {l : List NEdge}, l.length ≤ 1 → l.Pairwise R := by
    intro R l hl
    match l, hl with
    | [], _ => exact .nil
    | [_], _ => simp
  intro path i q hq
  by_cases hi : i = 0
  · rw [if_pos hi]; exact one h0
  · rw [if_neg hi]
    refine one ?_
    simp only [List.flatMap_cons, List.flatMap_nil, List.append_nil]
    unfold Nfa.get
    cases hf : n.states.find? fun x => x.1 == (path[i - 1]?).getD 0 with
    | none => simp
    | some x => exact h x (List.mem_of_find?_eq_some hf)

theorem loop_headers : HeadersOK loopFirst loopLast :=
  ⟨loopFirst_wf, loopLast_wf, loopFirst_closed, loopLast_closed, plain_of (by decide), plain_of (by decide),
    distinct_of (by decide) (by decide)⟩

/-- With all labels in one class at first the answer is no after two iterations (`loop_no`). -/
example : ∃ fuel0 r, (∀ fuel ≥ fuel0, (listClient loopRules [0] [1]).solve HashOrder.id HashOrder.id .pre loopFirst loopLast fuel
      () (loopMap fun _ => 0) = some r) ∧
      (r = none → ¬ (listProblem loopRules [0] [1]).Solvable (· ∈ (loopMap fun _ => 0).keys) loopFirst loopLast) ∧
      (r ≠ none → (listProblem loopRules [0] [1]).Solvable (fun _ => True) loopFirst loopLast) := by
  refine c69_list_decides_pre (N := 2) loop_headers (distinct_of (by decide) (by decide)) (by decide) (by decide) ?_ (by decide)
    (by decide) (by decide) (known_of (by decide)) (known_of (by decide)) (by decide) (loopMap_inv _) ?_
  · intro q hq
    refine ⟨_, List.mem_singleton.2 rfl, ?_⟩
    simpa using hq
  · intro c hc
    have : c = 0 := by
      have : (loopMap fun _ => 0).size = 1 := by decide
      omega
    exact ⟨1, by rw [this]; decide⟩

/-- The classes {1} and {2, 3}. -/
def alone : RMap Nat := loopMap fun x => if x = 1 then 0 else 1

/-- The map after the refinement with an empty part: there is an empty class more. -/
def aloneNext : RMap Nat := { alone with classes := alone.classes ++ [[]] }

/-- C69, the disagreement: the initial stack must be 1, the final one must not be 1, which is a negated edge. The class
{1} is wholly outside of what the edge reads, but the abstract automaton reads it. The refinement has an empty part, and the
iteration ends with the same abstraction and an empty class more, so that it can be repeated for ever. -/
theorem c69_negated_no_progress (mode : Mode) (hm : mode ≠ .dual) :
    (listClient loopRules [0] [0]).round HashOrder.id HashOrder.id mode loopFirst loopNot 20 () alone = .again () aloneNext ∧
    aloneNext.find = alone.find ∧ ¬ StrictlyFiner alone.find aloneNext.find ∧
    (listClient loopRules [0] [0]).solve HashOrder.id HashOrder.id mode loopFirst loopNot 10 () alone = none := by
  have hfind : aloneNext.find = alone.find := rfl
  refine ⟨?_, hfind, ?_, ?_⟩
  · cases mode <;> first | exact absurd rfl hm | decide +kernel
  · rw [hfind]
    intro h
    obtain ⟨x, y, -, h1, h2⟩ := h.split
    exact h2 h1
  · cases mode <;> first | exact absurd rfl hm | decide +kernel

end Verif.Props
