import Verif.Proofs.ProductTrace
import Verif.Props.TraceBack
import Verif.Props.Solver

/-!
# C55, C56: traces of a solver instance

C55: `get_trace(instance)` and `get_trace_dual_search(instance)` after an engine has run.
C56: `get_rule_trace_and_paths(instance)`.

The model returns `none` on undefined behaviour and if its fuel does not suffice, so `= some _` excludes both.
-/

namespace Verif.Props

open Verif.Instance Verif.Product

variable {W : Type}

/-- The configurations are a run of the PDA from one accepted by `a` to one accepted by `b`. The first state is a control
state. -/
def IsTrace (p : Pda W) (a b : Aut W) (cs : List Config) : Prop :=
  cs.IsChain (Step p.Has) ∧ (∃ c, cs.head? = some c ∧ c.1 < p.size ∧ Lang a c) ∧ ∃ c', cs.getLast? = some c' ∧ Lang b c'

/-- The rules lead from a configuration that `a` accepts along the first path to one that `b` accepts along the
second path, and every rule satisfies `Ok`. The first state is a control state. -/
structure IsRuleTrace (p : Pda W) (a b : Aut W) (Ok : URule W → Prop) (t : RuleTrace W) : Prop where
  run : ∃ q', Run (t.state, t.initialStack) t.rules (q', t.finalStack) ∧
    RestPath p b t.finalPath t.finalStack (q', t.finalStack)
  rules : ∀ r ∈ t.rules, Ok r
  initial : RestPath p a t.initialPath t.initialStack (t.state, t.initialStack)
  state : t.state < p.size

theorem hasMove_lt [LinearOrder W] {p : Pda W} {r : URule W} (h : HasMove p r) : r.src < p.size := by
  obtain ⟨w, h⟩ := h
  obtain ⟨l, h1, -⟩ := (Pda.Has_iff _ _).1 h
  obtain ⟨i, hi⟩ := List.mem_iff_getElem?.1 h1
  exact Pda.lt_size_of_rule hi

theorem run_lt [LinearOrder W] {p : Pda W} {c c' : Config} {rs : List (URule W)} (h : Run c rs c') (hr : ∀ r ∈ rs, HasMove p r)
    (hc : c'.1 < p.size) : c.1 < p.size := by
  cases h with
  | nil => exact hc
  | cons => exact hasMove_lt (hr _ List.mem_cons_self)

/-- Numbers of states fit into 64 bits. -/
structure StatesFit (i : Instance W) : Prop where
  initial : i.initial.n ≤ sizeMax
  final : i.final.n ≤ sizeMax
  prod : i.prod.aut.n ≤ sizeMax

variable [LinearOrder W] [Zero W]

/-! ## Unwinding, whether or not the saturation was needed -/

omit [LinearOrder W] [Zero W] in
theorem unwind_untraced {p : Pda W} {a : Aut W} (h0 : Untraced a) {path : APath Nat}
    (hE : ∀ t ∈ path.trs, t ∈ keys a.edges) :
    tbAll p a (tbFuel a path) (tbFuel a path) { path := path } = some ([], { path := path }) ∧
    traceLoop p a (tbFuel a path) (tbFuel a path) { path := path } = some ([], { path := path }) := by
  have h1 := tbNext_untraced (p := p) h0 hE (path.edges.length * 3 ^ a.edges.length)
  unfold tbFuel tbAll traceLoop
  rw [h1]
  exact ⟨rfl, rfl⟩

omit [LinearOrder W] [Zero W] in
theorem confE_plain {p : Pda W} (hl : p.nLabels ≤ epsilon) {a : Aut W} (ha : AutOK p a) {path : APath Nat}
    (hE : ∀ t ∈ path.trs, t ∈ keys a.edges) :
    (∀ g ∈ path.stack, g ≠ epsilon) ∧ decodeEdges p path = (path.frontState, path.stack) ∧
      confE path = (path.frontState, path.stack) := by
  have h1 : ∀ g ∈ path.stack, g < p.nLabels := trs_labels (P := (· < p.nLabels)) fun t ht => (ha.valid t (hE t ht)).2.1
  have h2 : ∀ g ∈ path.stack, g ≠ epsilon := fun g hg => by have := h1 g hg; omega
  refine ⟨h2, ?_, ?_⟩
  · unfold decodeEdges
    rw [List.filter_eq_self.2]
    intro g hg
    simpa using h1 g hg
  · unfold confE
    rw [List.filter_eq_self.2]
    intro g hg
    simpa using h2 g hg

/-- The automaton is `a`, or `a` in the course of pre*. -/
def PreOf (p : Pda W) (a A : Aut W) : Prop := A = a ∨ ∃ s : PreSt W (Product W), PreLoop p a s ∧ A = s.aut

/-- The automaton is `a`, or `a` in the course of post*. -/
def PostOf (p : Pda W) (a A : Aut W) : Prop :=
  A = a ∨ (∃ s : PostSt W (Product W), PostInv p a s ∧ A = s.aut) ∨ ∃ s : PostSt W Unit, PostInv p a s ∧ A = s.aut

theorem PreOf.noEps {p : Pda W} (hp : p.WF) (hl : p.nLabels ≤ epsilon) {a A : Aut W} (ha : AutOK p a) (h : PreOf p a A) :
    ∀ t ∈ keys A.edges, t.label ≠ epsilon := by
  rcases h with rfl | ⟨s, hs, rfl⟩
  · exact ha.noEps hl
  · intro t ht
    have := (hs.inv.valid hp ha t ht).2.1
    omega

theorem PostOf.edges {p : Pda W} (hp : p.WF) (hl : p.nLabels ≤ epsilon) {a A : Aut W} (ha : PAut p a) (h : PostOf p a A) :
    ∀ t ∈ keys A.edges, p.size ≤ t.dst ∧ (t.label = epsilon → t.src < p.size) := by
  have key : ∀ N t, PValid p N t → p.size ≤ t.dst ∧ (t.label = epsilon → t.src < p.size) := by
    rintro N t ⟨_, h1, _, h2 | h2⟩
    · exact ⟨h1, fun h3 => by omega⟩
    · exact ⟨h1, fun _ => h2.2⟩
  rcases h with rfl | ⟨s, hs, rfl⟩ | ⟨s, hs, rfl⟩
  · exact fun t ht => key _ t ((ha.post hl).pvalid (N := A.n) le_rfl t ht)
  · exact fun t ht => key _ t (hs.valid hp (ha.post hl) t ht)
  · exact fun t ht => key _ t (hs.valid hp (ha.post hl) t ht)

theorem pre_unwind {p : Pda W} (hp : p.WF) (hl : p.nLabels ≤ epsilon) {a A : Aut W} (ha : PAut p a) (h0 : Untraced a)
    (hA : PreOf p a A) (hn : A.n ≤ sizeMax) (path : APath Nat) (hacc : AcceptingPath A p.size path) :
    ∃ rs cs qs w c', (∃ tb, tbAll p A (tbFuel A path) (tbFuel A path) { path := path } = some (rs, tb) ∧
        tb.post = false ∧ tb.path.pathAndStack = (qs, w)) ∧
      getTrace p A path = some ((path.frontState, path.stack) :: cs) ∧
      Trail (Move p.Has) (path.frontState, path.stack) rs cs c' ∧ RestPath p a qs w c' := by
  have hnn := AcceptingPath.notNull hacc hn
  rcases hA with rfl | ⟨s, hs, rfl⟩
  · have hE := AcceptingPath.trs_mem hacc
    obtain ⟨h1, h2⟩ := unwind_untraced (p := p) h0 hE
    obtain ⟨h3, h4, _⟩ := confE_plain hl ha.toAutOK hE
    refine ⟨[], [], _, _, _, ⟨_, h1, rfl, pathAndStack_plain h3⟩, ?_, .nil _, restPath_of hE hacc.2.2⟩
    unfold getTrace
    rw [h2, hnn]
    simp [h4]
  · obtain ⟨rs, cs, qs, w, c', h1, h2, h3⟩ := pre_traces_of hp hl ha h0 hs path hacc
    exact ⟨rs, cs, qs, w, c', h1, h2 hnn, h3⟩

theorem post_unwind {p : Pda W} (hp : p.WF) (hl : p.nLabels < epsilon) {a A : Aut W} (ha : PAut p a) (h0 : Untraced a)
    (hA : PostOf p a A) (hn : A.n ≤ sizeMax) (path : APath Nat) (hacc : AcceptingPath A p.size path) :
    ∃ rs cs qs w c', (∃ tb, tbAll p A (tbFuel A path) (tbFuel A path) { path := path } = some (rs, tb) ∧
        (rs = [] ∧ tb.post = false ∨ rs ≠ [] ∧ tb.post = true) ∧ tb.path.pathAndStack = (qs, w)) ∧
      getTrace p A path = some ((confE path :: cs).reverse) ∧
      Trail (fun c r c' => Move (HasMove p) c' r c) (confE path) rs cs c' ∧ RestPath p a qs w c' := by
  rcases hA with rfl | ⟨s, hs, rfl⟩ | ⟨s, hs, rfl⟩
  · have hE := AcceptingPath.trs_mem hacc
    obtain ⟨h1, h2⟩ := unwind_untraced (p := p) h0 hE
    obtain ⟨h3, h4, h5⟩ := confE_plain (by omega) ha.toAutOK hE
    refine ⟨[], [], _, _, _, ⟨_, h1, .inl ⟨rfl, rfl⟩, pathAndStack_plain h3⟩, ?_, .nil _,
      h5 ▸ restPath_of hE hacc.2.2⟩
    unfold getTrace
    rw [h2, AcceptingPath.notNull hacc hn]
    simp [h4, h5]
  · exact post_traces_of hp hl ha h0 hs hn path hacc
  · exact post_traces_of hp hl ha h0 hs hn path hacc

/-! ## From a product with an accepting state -/

section
variable {p : Pda W} {a b : Aut W} {i : Instance W} {dual : Bool}

omit [LinearOrder W] [Zero W] in
theorem findFirst_hit (h : HashOrder) {s : Product W} {A B : Aut W} (hi : PInv dual A B s) (hacc : s.hasAcc = true)
    (hn : s.aut.n ≤ sizeMax) : s.findFirst h = (s.aut.findPath h s.size).map (fun q => (s.orig q).1) ∧
      s.findPairs h = some ((s.aut.findPath h s.size).map s.orig) := by
  have := AcceptingPath.notNull (hi.find h hacc) hn
  simp [findFirst, findPairs, this]

omit [LinearOrder W] [Zero W] in
theorem findFirst_miss (h : HashOrder) {s : Product W} {A B : Aut W} (hi : PInv dual A B s) (hacc : s.hasAcc = false) :
    s.findFirst h = APath.null ∧ s.findPairs h = none := by
  simp [findFirst, findPairs, hi.find_null h hacc, APath.isNull, APath.null]

omit [LinearOrder W] [Zero W] in
theorem second_rest {A B : Aut W} {s : Product W} (hi : PInv dual A B s) (hB : ∀ t ∈ keys B.edges, t.label ≠ epsilon)
    {P : APath Nat} (hP : AcceptingPath s.aut s.size P) :
    RestPath p B (P.map fun q => (s.orig q).2).pathAndStack.1 (P.map fun q => (s.orig q).2).pathAndStack.2
      (confE (P.map fun q => (s.orig q).1)) := by
  obtain ⟨h1, h2, h3, h4, h5⟩ := hi.second hB hP
  refine ⟨h1, ?_, ?_, _, h4, h5⟩
  · rw [h2, confE, APath.frontState_map, orig_lt hP.2.1]
  · rw [h3, confE, APath.stack_map]

/-- After post*. -/
theorem trace_post (h : HashOrder) (hp : p.WF) (hl : p.nLabels < epsilon) (ha : PAut p a) (hb : AutOK p b)
    (h0 : Untraced a) (hA : PostOf p a i.initial) (hi : PInv dual i.initial b i.prod) (hs : i.prod.size = p.size)
    (hm : StatesFit i) (hacc : i.prod.hasAcc = true) :
    (∃ cs, Instance.getTrace h p false i = some cs ∧ IsTrace p a b cs) ∧
    ∃ t, getRuleTrace h p false i = some t ∧
      (t.rules ≠ [] → IsRuleTrace p a b (HasMove p) t) ∧
      (t.rules = [] → t.initialStack = t.finalStack ∧
        RestPath p b t.initialPath t.initialStack (t.state, t.initialStack) ∧
        RestPath p a t.finalPath t.finalStack (t.state, t.finalStack) ∧ t.state < p.size) := by
  have hle : p.nLabels ≤ epsilon := by omega
  have hB := hb.noEps hle
  have hP := hi.find h hacc
  obtain ⟨f1, f2⟩ := findFirst_hit h hi hacc hm.prod
  have hfirst := hi.first hB hP
  have hrest := second_rest (p := p) hi hB hP
  generalize i.prod.aut.findPath h i.prod.size = P at *
  rw [hs] at hfirst
  obtain ⟨rs, cs, qs, w, c', ⟨tb, u1, u2, u3⟩, h2, h3, h4⟩ := post_unwind hp hl ha h0 hA hm.initial _ hfirst
  obtain ⟨r1, r2, r3, r4⟩ := Trail.run_rev h3
  constructor
  · refine ⟨_, ?_, r3.imp fun _ _ => step_hasMove,
      ⟨c', r4, run_lt r1 (fun r hr => r2 r (List.mem_reverse.1 hr)) hfirst.2.1, h4.lang⟩, confE (P.map fun q => (i.prod.orig q).1), ?_, hrest.lang⟩
    · rw [Instance.getTrace, automaton, f1]
      exact h2
    · simp
  · rw [getRuleTrace, f2]
    unfold ruleTrace automaton
    simp only [Bool.false_eq_true, if_false, APath.split_map, u1, u3]
    have hw : w = c'.2 := h4.stack
    rcases u2 with ⟨rfl, u2⟩ | ⟨hne, u2⟩
    · simp only [u2, Bool.false_eq_true, if_false]
      generalize hC : confE (P.map fun q => (i.prod.orig q).1) = C at *
      obtain rfl : c' = C := by cases h3; rfl
      have hfs : (P.map i.prod.orig).frontState.1 = c'.1 := by
        rw [← hC, confE, APath.frontState_map, APath.frontState_map]
      refine ⟨_, rfl, fun hx => absurd rfl hx, fun _ => ⟨?_, ?_, ?_, ?_⟩⟩
      · rw [hrest.stack, h4.stack]
      · dsimp only
        rw [hfs]
        refine ⟨hrest.spells, hrest.head, rfl, hrest.last⟩
      · dsimp only
        rw [hfs]
        exact ⟨h4.spells, h4.head, rfl, h4.last⟩
      · dsimp only
        rw [hfs, ← hC]
        exact hfirst.2.1
    · simp only [u2, if_true]
      cases hr : rs.reverse with
      | nil => exact absurd (List.reverse_eq_nil_iff.1 hr) hne
      | cons r rs' =>
        refine ⟨_, rfl, fun _ => ?_, fun hx => by simp at hx⟩
        rw [hr] at r1
        have hsrc : r.src = c'.1 := by
          cases r1
          rfl
        constructor
        · refine ⟨(confE (P.map fun q => (i.prod.orig q).1)).1, ?_, ?_⟩
          · dsimp only
            rw [hsrc, hw, hrest.stack]
            exact r1
          · exact ⟨hrest.spells, hrest.head, rfl, hrest.last⟩
        · intro x hx
          exact r2 x (by
            rw [← List.mem_reverse, hr]
            exact hx)
        · dsimp only
          rw [hsrc]
          exact ⟨h4.spells, h4.head, rfl, h4.last⟩
        · exact hasMove_lt (r2 r (by rw [← List.mem_reverse, hr]; exact List.mem_cons_self))

/-- After pre*. -/
theorem trace_pre (h : HashOrder) (hp : p.WF) (hl : p.nLabels ≤ epsilon) (ha : AutOK p a) (hb : PAut p b)
    (h0 : Untraced b) (hA : PreOf p b i.final) (hi : PInv dual i.final a i.prod) (hs : i.prod.size = p.size)
    (hm : StatesFit i) (hacc : i.prod.hasAcc = true) :
    (∃ cs, Instance.getTrace h p true i = some cs ∧ IsTrace p a b cs) ∧
    ∃ t, getRuleTrace h p true i = some t ∧ IsRuleTrace p a b p.Has t := by
  have hB := ha.noEps hl
  have hA' := hA.noEps hp hl hb.toAutOK
  have hP := hi.find h hacc
  obtain ⟨f1, f2⟩ := findFirst_hit h hi hacc hm.prod
  have hfirst := hi.first hB hP
  have hrest := second_rest (p := p) hi hB hP
  generalize i.prod.aut.findPath h i.prod.size = P at *
  rw [hs] at hfirst
  have hce : confE (P.map fun q => (i.prod.orig q).1) = ((P.map fun q => (i.prod.orig q).1).frontState,
      (P.map fun q => (i.prod.orig q).1).stack) := by
    unfold confE
    rw [List.filter_eq_self.2]
    intro g hg
    have := trs_labels (P := fun g => g ≠ epsilon) (fun t ht => hA' t (AcceptingPath.trs_mem hfirst t ht)) g hg
    simpa using this
  rw [hce] at hrest
  obtain ⟨rs, cs, qs, w, c', ⟨tb, u1, u2, u3⟩, h2, h3, h4⟩ := pre_unwind hp hl hb h0 hA hm.final _ hfirst
  obtain ⟨r1, r2, r3, r4⟩ := Trail.run h3
  constructor
  · refine ⟨_, ?_, r3, ⟨_, rfl, hfirst.2.1, hrest.lang⟩, c', r4, h4.lang⟩
    rw [Instance.getTrace, automaton, f1]
    exact h2
  · rw [getRuleTrace, f2]
    unfold ruleTrace automaton
    simp only [if_true, APath.split_map, u1, u3, u2, Bool.false_eq_true, if_false]
    have hfs : (P.map i.prod.orig).frontState.1 = (P.map fun q => (i.prod.orig q).1).frontState := by
      rw [APath.frontState_map, APath.frontState_map]
    have hw : w = c'.2 := h4.stack
    refine ⟨_, rfl, ⟨⟨c'.1, ?_, ?_⟩, ?_, ?_, ?_⟩⟩
    · dsimp only
      rw [hfs, hrest.stack, hw]
      exact r1
    · exact ⟨h4.spells, h4.head, rfl, h4.last⟩
    · exact r2
    · dsimp only
      rw [hfs]
      exact ⟨hrest.spells, hrest.head, rfl, hrest.last⟩
    · dsimp only
      rw [hfs]
      exact hfirst.2.1

/-- After dual search. -/
theorem trace_dual (h : HashOrder) (hp : p.WF) (hl : p.nLabels < epsilon) (ha : PAut p a) (hb : PAut p b)
    (h0 : Untraced a) (h0' : Untraced b) (hA : PostOf p a i.initial) (hB : PreOf p b i.final)
    (hi : PInv dual i.initial i.final i.prod) (hs : i.prod.size = p.size) (hm : StatesFit i) (hacc : i.prod.hasAcc = true) :
    (∃ cs, getTraceDual h p i = some cs ∧ IsTrace p a b cs) ∧
    ((∃ t, getRuleTraceDual h p i = some t ∧ t.rules ≠ [] ∧ IsRuleTrace p a b (HasMove p) t) ∨
      getRuleTraceDual h p i = none ∧ ∃ c, c.1 < p.size ∧ Lang a c ∧ Lang b c) := by
  have hle : p.nLabels ≤ epsilon := by omega
  have hBn := hB.noEps hp hle hb.toAutOK
  have hAe := hA.edges hp hle ha
  have hP := hi.find h hacc
  obtain ⟨_, f2⟩ := findFirst_hit h hi hacc hm.prod
  have hfirst := hi.first hBn hP
  obtain ⟨hsec, s1, s2⟩ := hi.second_path hBn hAe hP
  have hlt := hP.2.1
  generalize i.prod.aut.findPath h i.prod.size = P at *
  rw [hs] at hfirst hsec hlt
  have hce : ((P.map fun q => (i.prod.orig q).2).removeEpsilon.frontState,
      (P.map fun q => (i.prod.orig q).2).removeEpsilon.stack) = confE (P.map fun q => (i.prod.orig q).1) := by
    rw [s1, s2, confE, APath.frontState_map, APath.stack_map, orig_lt (by rw [hs]; exact hlt)]
  obtain ⟨rs, cs, qs, w, c, ⟨tb, u1, u2, u3⟩, h2, h3, h4⟩ := post_unwind hp hl ha h0 hA hm.initial _ hfirst
  obtain ⟨rs', cs', qs', w', c', ⟨tb', v1, v2, v3⟩, h2', h3', h4'⟩ := pre_unwind hp hle hb h0' hB hm.final _ hsec
  rw [hce] at h2' h3'
  obtain ⟨r1, r2, r3, r4⟩ := Trail.run_rev h3
  obtain ⟨r1', r2', r3', r4'⟩ := Trail.run h3'
  have hC1 : (confE (P.map fun q => (i.prod.orig q).1)).1 < p.size := by rw [← hce, s2]; exact hlt
  generalize confE (P.map fun q => (i.prod.orig q).1) = C at *
  constructor
  · refine ⟨(C :: cs).reverse ++ cs', ?_, ?_, ⟨c, ?_, run_lt r1 (fun r hr => r2 r (List.mem_reverse.1 hr)) hC1, h4.lang⟩, c', ?_,
      h4'.lang⟩
    · unfold getTraceDual
      rw [f2]
      simp only [APath.split_map, h2, h2']
    · rw [List.reverse_cons, List.append_assoc]
      rw [List.reverse_cons] at r3
      refine List.isChain_append.2 ⟨?_, ?_, ?_⟩
      · exact (List.isChain_append.1 (r3.imp fun _ _ => step_hasMove)).1
      · exact r3'
      · intro x hx y hy
        have := (List.isChain_append.1 (r3.imp fun _ _ => step_hasMove)).2.2 x hx
        exact this y (by simpa using hy)
    · rw [List.head?_append, r4]
      rfl
    · rw [List.reverse_cons, List.append_assoc, List.getLast?_append]
      have : [C] ++ cs' = C :: cs' := rfl
      rw [this, r4']
      rfl
  · have t1 : traceStackPath p i.initial (P.map fun q => (i.prod.orig q).1) = some (rs.reverse, w, qs) := by
      unfold traceStackPath
      rw [u1]
      rcases u2 with ⟨rfl, u2⟩ | ⟨_, u2⟩ <;> simp [u2, u3]
    have t2 : traceStackPath p i.final (P.map fun q => (i.prod.orig q).2).removeEpsilon = some (rs', w', qs') := by
      unfold traceStackPath
      rw [v1]
      simp [v2, v3]
    have hx : getRuleTraceDual h p i = match rs.reverse ++ rs' with
        | [] => none
        | r :: rs => some ⟨r.src, r :: rs, w, w', qs, qs'⟩ := by
      unfold getRuleTraceDual
      rw [f2]
      unfold ruleTraceDual
      simp only [APath.split_map, t1, t2]
      rfl
    rw [hx]
    have hrun : Run c (rs.reverse ++ rs') c' := r1.append r1'
    have hok : ∀ r ∈ rs.reverse ++ rs', HasMove p r := by
      intro r hr
      rw [List.mem_append, List.mem_reverse] at hr
      rcases hr with hr | hr
      · exact r2 r hr
      · exact ⟨r.weight, r2' r hr⟩
    cases hr : rs.reverse ++ rs' with
    | nil =>
      rw [List.append_eq_nil_iff, List.reverse_eq_nil_iff] at hr
      obtain ⟨rfl, rfl⟩ := hr
      obtain rfl : c = C := by cases h3; rfl
      obtain rfl : c' = c := by cases h3'; rfl
      exact .inr ⟨rfl, c', hC1, h4.lang, h4'.lang⟩
    | cons r rs'' =>
      rw [hr] at hrun hok
      have hsrc : r.src = c.1 := by
        cases hrun
        rfl
      refine .inl ⟨_, rfl, by simp, ⟨⟨c'.1, ?_, ?_⟩, hok, ?_, hasMove_lt (hok r List.mem_cons_self)⟩⟩
      · dsimp only
        rw [hsrc, h4.stack, h4'.stack]
        exact hrun
      · exact ⟨h4'.spells, h4'.head, rfl, h4'.last⟩
      · dsimp only
        rw [hsrc]
        exact ⟨h4.spells, h4.head, rfl, h4.last⟩

end

/-! ## C55: traces of configurations -/

section
variable {p : Pda W} {a b : Aut W}

theorem post_of (h : HashOrder) (hp : p.WF) (hl : p.nLabels ≤ epsilon) (ha : PAut p a) (hb : AutOK p b) :
    PostOf p a (postStarAccepts h p (ofAutomata p.size a b)).1.initial := by
  rcases (postStarAccepts_spec h hp (ha.post hl) hb).2.2.2.2 with h1 | ⟨e, h1, h2⟩
  · exact .inl h1
  · exact .inr (.inl ⟨_, h1, h2⟩)

/-- C55 after `post_star_accepts(instance)`: if an initial configuration reaches a final one, `get_trace` returns a
run from an initial to a final configuration, and otherwise it returns the empty trace. -/
theorem c55_post_trace (h h' : HashOrder) (hp : p.WF) (hl : p.nLabels < epsilon) (ha : PAut p a) (hb : AutOK p b)
    (h0 : Untraced a) (hm : StatesFit (postStarAccepts h p (ofAutomata p.size a b)).1) :
    ∃ cs, Instance.getTrace h' p false (postStarAccepts h p (ofAutomata p.size a b)).1 = some cs ∧
      (CanReach p a b → IsTrace p a b cs) ∧ (¬ CanReach p a b → cs = []) := by
  have hle : p.nLabels ≤ epsilon := by omega
  obtain ⟨h1, _, h3, h4, _⟩ := postStarAccepts_spec h hp (ha.post hle) hb
  have hA := post_of h hp hle ha hb
  cases hr : (postStarAccepts h p (ofAutomata p.size a b)).2 with
  | true =>
    obtain ⟨⟨cs, h5, h6⟩, _⟩ := trace_post h' hp hl ha hb h0 hA (h3 hr).inv (h3 hr).size hm (h3 hr).acc
    exact ⟨cs, h5, fun _ => h6, fun hc => absurd (h1.1 hr) hc⟩
  | false =>
    refine ⟨[], ?_, fun hc => ?_, fun _ => rfl⟩
    · rw [Instance.getTrace, (findFirst_miss h' (h4 hr).inv (h4 hr).acc).1]
      simp [Verif.getTrace, APath.isNull, APath.null]
    · rw [h1.2 hc] at hr
      simp at hr

/-- C55 after `post_star_accepts_no_ET(instance)`. -/
theorem c55_post_trace_no_et (h h' : HashOrder) (hp : p.WF) (hl : p.nLabels < epsilon) (ha : PAut p a) (hb : AutOK p b)
    (h0 : Untraced a) (hm : StatesFit (postStarAcceptsNoET h p (ofAutomata p.size a b)).1) :
    ∃ cs, Instance.getTrace h' p false (postStarAcceptsNoET h p (ofAutomata p.size a b)).1 = some cs ∧
      (CanReach p a b → IsTrace p a b cs) ∧ (¬ CanReach p a b → cs = []) := by
  have hle : p.nLabels ≤ epsilon := by omega
  obtain ⟨h1, h2, h3, _, h4, h5⟩ := postStarAcceptsNoET_spec h hp (ha.post hle) hb
  have hA : PostOf p a (postStarAcceptsNoET h p (ofAutomata p.size a b)).1.initial :=
    .inr (.inr ⟨_, postStar_inv h hp (ha.post hle) noCb (), h5⟩)
  cases hr : (postStarAcceptsNoET h p (ofAutomata p.size a b)).2 with
  | true =>
    obtain ⟨⟨cs, h6, h7⟩, _⟩ := trace_post h' hp hl ha hb h0 hA h3 h2 hm (h4.symm.trans hr)
    exact ⟨cs, h6, fun _ => h7, fun hc => absurd (h1.1 hr) hc⟩
  | false =>
    refine ⟨[], ?_, fun hc => ?_, fun _ => rfl⟩
    · rw [Instance.getTrace, (findFirst_miss h' h3 (h4.symm.trans hr)).1]
      simp [Verif.getTrace, APath.isNull, APath.null]
    · rw [h1.2 hc] at hr
      simp at hr

/-- C55 after `pre_star_accepts(instance)`: the trace is a run from an initial to a final configuration if the
answer was yes, and empty if it was no. -/
theorem c55_pre_trace (h h' : HashOrder) (hp : p.WF) (hl : p.nLabels ≤ epsilon) (ha : AutOK p a) (hb : PAut p b)
    (h0 : Untraced b) (hm : StatesFit (Instance.preStarAccepts h p (ofAutomata p.size a b)).1) :
    ((Instance.preStarAccepts h p (ofAutomata p.size a b)).2 = true →
      ∃ cs, Instance.getTrace h' p true (Instance.preStarAccepts h p (ofAutomata p.size a b)).1 = some cs ∧
        IsTrace p a b cs) ∧
    ((Instance.preStarAccepts h p (ofAutomata p.size a b)).2 = false →
      Instance.getTrace h' p true (Instance.preStarAccepts h p (ofAutomata p.size a b)).1 = some []) := by
  obtain ⟨_, _, h3, h4, h5⟩ := Instance.preStarAccepts_spec h hp hl ha hb.toAutOK hb.noInto
  have hA : PreOf p b (Instance.preStarAccepts h p (ofAutomata p.size a b)).1.final := by
    rcases h5 with h5 | ⟨e, h5, h6⟩
    · exact .inl h5
    · exact .inr ⟨_, h5, h6⟩
  constructor
  · intro hr
    exact (trace_pre h' hp hl ha hb h0 hA (h3 hr).inv (h3 hr).size hm (h3 hr).acc).1
  · intro hr
    rw [Instance.getTrace, (findFirst_miss h' (h4 hr).inv (h4 hr).acc).1]
    simp [Verif.getTrace, APath.isNull, APath.null]

theorem dual_of (h : HashOrder) (hp : p.WF) (hl : p.nLabels ≤ epsilon) (ha : PAut p a) (hb : PAut p b) :
    PostOf p a (dualSearchAccepts h p (ofAutomata p.size a b)).1.initial ∧
    PreOf p b (dualSearchAccepts h p (ofAutomata p.size a b)).1.final := by
  rcases (dualSearchAccepts_spec h hp (ha.post hl) hb.toAutOK hb.noInto).2.2.2 with ⟨h1, h2⟩ | ⟨d, h1, h2, h3⟩
  · exact ⟨.inl h1, .inl h2⟩
  · exact ⟨.inr (.inl ⟨_, h1.post, h2⟩), .inr ⟨_, h1.pre, h3⟩⟩

/-- C55 after `dual_search_accepts(instance)`: `get_trace_dual_search` joins the two halves of the trace. -/
theorem c55_dual_trace (h h' : HashOrder) (hp : p.WF) (hl : p.nLabels < epsilon) (ha : PAut p a) (hb : PAut p b)
    (h0 : Untraced a) (h0' : Untraced b) (hm : StatesFit (dualSearchAccepts h p (ofAutomata p.size a b)).1) :
    ((dualSearchAccepts h p (ofAutomata p.size a b)).2 = true →
      ∃ cs, getTraceDual h' p (dualSearchAccepts h p (ofAutomata p.size a b)).1 = some cs ∧ IsTrace p a b cs) ∧
    ((dualSearchAccepts h p (ofAutomata p.size a b)).2 = false →
      getTraceDual h' p (dualSearchAccepts h p (ofAutomata p.size a b)).1 = some []) := by
  have hle : p.nLabels ≤ epsilon := by omega
  obtain ⟨_, h3, h4, _⟩ := dualSearchAccepts_spec h hp (ha.post hle) hb.toAutOK hb.noInto
  obtain ⟨hA, hB⟩ := dual_of h hp hle ha hb
  constructor
  · intro hr
    exact (trace_dual h' hp hl ha hb h0 h0' hA hB (h3 hr).inv (h3 hr).size hm (h3 hr).acc).1
  · intro hr
    unfold getTraceDual
    rw [(findFirst_miss h' (h4 hr).inv (h4 hr).acc).2]

/-! ## C56: traces of rules with the accepting paths -/

/-- C56 after `pre_star_accepts(instance)`. -/
theorem c56_pre_rule_trace (h h' : HashOrder) (hp : p.WF) (hl : p.nLabels ≤ epsilon) (ha : AutOK p a) (hb : PAut p b)
    (h0 : Untraced b) (hm : StatesFit (Instance.preStarAccepts h p (ofAutomata p.size a b)).1) :
    ((Instance.preStarAccepts h p (ofAutomata p.size a b)).2 = true →
      ∃ t, getRuleTrace h' p true (Instance.preStarAccepts h p (ofAutomata p.size a b)).1 = some t ∧
        IsRuleTrace p a b p.Has t) ∧
    ((Instance.preStarAccepts h p (ofAutomata p.size a b)).2 = false →
      getRuleTrace h' p true (Instance.preStarAccepts h p (ofAutomata p.size a b)).1 =
        some ⟨sizeMax, [], [], [], [], []⟩) := by
  obtain ⟨_, _, h3, h4, h5⟩ := Instance.preStarAccepts_spec h hp hl ha hb.toAutOK hb.noInto
  have hA : PreOf p b (Instance.preStarAccepts h p (ofAutomata p.size a b)).1.final := by
    rcases h5 with h5 | ⟨e, h5, h6⟩
    · exact .inl h5
    · exact .inr ⟨_, h5, h6⟩
  constructor
  · intro hr
    exact (trace_pre h' hp hl ha hb h0 hA (h3 hr).inv (h3 hr).size hm (h3 hr).acc).2
  · intro hr
    rw [getRuleTrace, (findFirst_miss h' (h4 hr).inv (h4 hr).acc).2]
    rfl

/-- C56 after `post_star_accepts(instance)`, when no initial configuration is final; see `c56_post_paths_swapped` for
the rest. The rules are rules of the PDA except possibly for their weights, see `c13_weight_of_other_rule`. -/
theorem c56_post_rule_trace_partial (h h' : HashOrder) (hp : p.WF) (hl : p.nLabels < epsilon) (ha : PAut p a)
    (hb : AutOK p b) (h0 : Untraced a) (hm : StatesFit (postStarAccepts h p (ofAutomata p.size a b)).1) :
    (CanReach p a b → (¬ ∃ c, c.1 < p.size ∧ Lang a c ∧ Lang b c) →
      ∃ t, getRuleTrace h' p false (postStarAccepts h p (ofAutomata p.size a b)).1 = some t ∧
        IsRuleTrace p a b (fun r => ∃ w, p.Has { r with weight := w }) t) ∧
    (¬ CanReach p a b → getRuleTrace h' p false (postStarAccepts h p (ofAutomata p.size a b)).1 =
        some ⟨sizeMax, [], [], [], [], []⟩) := by
  have hle : p.nLabels ≤ epsilon := by omega
  obtain ⟨h1, _, h3, h4, _⟩ := postStarAccepts_spec h hp (ha.post hle) hb
  have hA := post_of h hp hle ha hb
  constructor
  · intro hr hn
    have hr := h1.2 hr
    obtain ⟨_, t, h5, h6, h7⟩ := trace_post h' hp hl ha hb h0 hA (h3 hr).inv (h3 hr).size hm (h3 hr).acc
    refine ⟨t, h5, h6 fun hx => hn ?_⟩
    obtain ⟨h8, h9, h10, hlt⟩ := h7 hx
    exact ⟨_, hlt, h10.lang, h8 ▸ h9.lang⟩
  · intro hr
    have hr : (postStarAccepts h p (ofAutomata p.size a b)).2 = false := by
      by_contra hc
      exact hr (h1.1 (by simpa using hc))
    rw [getRuleTrace, (findFirst_miss h' (h4 hr).inv (h4 hr).acc).2]
    rfl

/-- C56, what happens otherwise: whenever the trace after post* is empty, the path returned as the one in the initial
automaton is a path of the final automaton and the other way round. -/
theorem c56_post_empty_trace (h h' : HashOrder) (hp : p.WF) (hl : p.nLabels < epsilon) (ha : PAut p a)
    (hb : AutOK p b) (h0 : Untraced a) (hm : StatesFit (postStarAccepts h p (ofAutomata p.size a b)).1)
    (hr : CanReach p a b) :
    ∃ t, getRuleTrace h' p false (postStarAccepts h p (ofAutomata p.size a b)).1 = some t ∧
      (t.rules = [] → t.initialStack = t.finalStack ∧
        RestPath p b t.initialPath t.initialStack (t.state, t.initialStack) ∧
        RestPath p a t.finalPath t.finalStack (t.state, t.finalStack)) := by
  have hle : p.nLabels ≤ epsilon := by omega
  obtain ⟨h1, _, h3, h4, _⟩ := postStarAccepts_spec h hp (ha.post hle) hb
  have hA := post_of h hp hle ha hb
  have hr := h1.2 hr
  obtain ⟨_, t, h5, _, h7⟩ := trace_post h' hp hl ha hb h0 hA (h3 hr).inv (h3 hr).size hm (h3 hr).acc
  exact ⟨t, h5, fun hx => ⟨(h7 hx).1, (h7 hx).2.1, (h7 hx).2.2.1⟩⟩

/-- C56 after `dual_search_accepts(instance)`, when the answer is yes and no initial configuration is final; see
`c56_dual_no_answer` and `c56_dual_empty_trace` for the rest. -/
theorem c56_dual_rule_trace_partial (h h' : HashOrder) (hp : p.WF) (hl : p.nLabels < epsilon) (ha : PAut p a)
    (hb : PAut p b) (h0 : Untraced a) (h0' : Untraced b) (hm : StatesFit (dualSearchAccepts h p (ofAutomata p.size a b)).1)
    (hr : (dualSearchAccepts h p (ofAutomata p.size a b)).2 = true) 
    (hn : ¬ ∃ c, c.1 < p.size ∧ Lang a c ∧ Lang b c) :
    ∃ t, getRuleTraceDual h' p (dualSearchAccepts h p (ofAutomata p.size a b)).1 = some t ∧
      IsRuleTrace p a b (fun r => ∃ w, p.Has { r with weight := w }) t := by
  have hle : p.nLabels ≤ epsilon := by omega
  obtain ⟨_, h3, h4, _⟩ := dualSearchAccepts_spec h hp (ha.post hle) hb.toAutOK hb.noInto
  obtain ⟨hA, hB⟩ := dual_of h hp hle ha hb
  rcases (trace_dual h' hp hl ha hb h0 h0' hA hB (h3 hr).inv (h3 hr).size hm (h3 hr).acc).2 with ⟨t, h5, _, h6⟩ | ⟨_, h5⟩
  · exact ⟨t, h5, h6⟩
  · exact absurd h5 hn

/-- C56, the disagreement for dual search: when the answer is no, the tuple for "no trace" is never returned, the
first element of an empty vector is read instead. -/
theorem c56_dual_no_answer (h h' : HashOrder) (hp : p.WF) (hl : p.nLabels < epsilon) (ha : PAut p a)
    (hb : PAut p b) (hr : (dualSearchAccepts h p (ofAutomata p.size a b)).2 = false) :
    getRuleTraceDual h' p (dualSearchAccepts h p (ofAutomata p.size a b)).1 = none := by
  have hle : p.nLabels ≤ epsilon := by omega
  obtain ⟨_, _, h4, _⟩ := dualSearchAccepts_spec h hp (ha.post hle) hb.toAutOK hb.noInto
  unfold getRuleTraceDual
  rw [(findFirst_miss h' (h4 hr).inv (h4 hr).acc).2]
  rfl

end

/-! ## Disagreements -/

/-- Accepts `⟨0, 0⟩`, by way of state 2. -/
def exLeft : Aut Unit := ⟨[false, false, true, false], [(⟨0, 0, 2⟩, (Trace.null, ()))]⟩

/-- Accepts `⟨0, 0⟩`, by way of state 3. -/
def exRight : Aut Unit := ⟨[false, false, false, true], [(⟨0, 0, 3⟩, (Trace.null, ()))]⟩

/-- C56, the disagreement after post*: the initial configuration `⟨0, 0⟩` is final, so the trace is empty, and the
path 0, 3 returned for the initial automaton is one of the final automaton. -/
theorem c56_post_paths_swapped :
    ∃ t, getRuleTrace HashOrder.id exPda false
        (postStarAccepts HashOrder.id exPda (ofAutomata exPda.size exLeft exRight)).1 = some t ∧
      t.initialPath = [0, 3] ∧ t.finalPath = [0, 2] ∧
      ¬ IsRuleTrace exPda exLeft exRight (fun r => ∃ w, exPda.Has { r with weight := w }) t := by
  refine ⟨⟨0, [], [0], [0], [0, 3], [0, 2]⟩, by decide +kernel, rfl, rfl, fun ht => ?_⟩
  have := ht.initial.spells
  revert this
  unfold Spells Spells
  decide

/-- C56, the disagreement for dual search: with the same automata the first element of an empty trace is read. -/
theorem c56_dual_empty_trace :
    (dualSearchAccepts HashOrder.id exPda (ofAutomata exPda.size exLeft exRight)).2 = true ∧
    getRuleTraceDual HashOrder.id exPda
      (dualSearchAccepts HashOrder.id exPda (ofAutomata exPda.size exLeft exRight)).1 = none := by
  decide +kernel

/-! ## Concrete cases -/

theorem exFrom_untraced : Untraced exFrom := by unfold Untraced; decide
theorem exAut_untraced : Untraced exAut := by unfold Untraced; decide

/-- The run `⟨1, 1 1 0⟩`, `⟨0, 1 0⟩`, `⟨0, 2 0⟩`, found by post*, pre* and dual search. -/
example :
    Instance.getTrace HashOrder.id exPda false
      (postStarAccepts HashOrder.id exPda (ofAutomata exPda.size exFrom exAut)).1 =
        some [(1, [1, 1, 0]), (0, [1, 0]), (0, [2, 0])] ∧
    Instance.getTrace HashOrder.id exPda true
      (Instance.preStarAccepts HashOrder.id exPda (ofAutomata exPda.size exFrom exAut)).1 =
        some [(1, [1, 1, 0]), (0, [1, 0]), (0, [2, 0])] ∧
    getTraceDual HashOrder.id exPda (dualSearchAccepts HashOrder.id exPda (ofAutomata exPda.size exFrom exAut)).1 =
        some [(1, [1, 1, 0]), (0, [1, 0]), (0, [2, 0])] := by
  decide +kernel

theorem ex_small_post : StatesFit (postStarAccepts HashOrder.id exPda (ofAutomata exPda.size exFrom exAut)).1 :=
  ⟨by decide +kernel, by decide +kernel, by decide +kernel⟩

theorem ex_small_pre : StatesFit (Instance.preStarAccepts HashOrder.id exPda (ofAutomata exPda.size exFrom exAut)).1 :=
  ⟨by decide +kernel, by decide +kernel, by decide +kernel⟩

theorem ex_small_dual : StatesFit (dualSearchAccepts HashOrder.id exPda (ofAutomata exPda.size exFrom exAut)).1 :=
  ⟨by decide +kernel, by decide +kernel, by decide +kernel⟩

example : ∃ cs, Instance.getTrace HashOrder.id exPda false
    (postStarAccepts HashOrder.id exPda (ofAutomata exPda.size exFrom exAut)).1 = some cs ∧ IsTrace exPda exFrom exAut cs := by
  obtain ⟨cs, h1, h2, _⟩ := c55_post_trace HashOrder.id HashOrder.id exPda_wf (by decide) exFrom_ok exAut_ok.toAutOK
    exFrom_untraced ex_small_post
  exact ⟨cs, h1, h2 ex_canReach⟩

example : ∃ cs, Instance.getTrace HashOrder.id exPda true
    (Instance.preStarAccepts HashOrder.id exPda (ofAutomata exPda.size exFrom exAut)).1 = some cs ∧
      IsTrace exPda exFrom exAut cs :=
  (c55_pre_trace HashOrder.id HashOrder.id exPda_wf (by decide) exFrom_ok.toAutOK exAut_ok exAut_untraced ex_small_pre).1
    (by decide +kernel)

example : ∃ cs, getTraceDual HashOrder.id exPda
    (dualSearchAccepts HashOrder.id exPda (ofAutomata exPda.size exFrom exAut)).1 = some cs ∧
      IsTrace exPda exFrom exAut cs :=
  (c55_dual_trace HashOrder.id HashOrder.id exPda_wf (by decide) exFrom_ok exAut_ok exFrom_untraced exAut_untraced
    ex_small_dual).1 (by decide +kernel)

/-- No configuration is accepted by both automata. -/
theorem ex_no_common : ¬ ∃ c, c.1 < exPda.size ∧ Lang exFrom c ∧ Lang exAut c := by
  rintro ⟨⟨q, w⟩, h0, ⟨f, h1, h2⟩, g, h3, h4⟩
  have e1 : ∀ t ∈ keys exFrom.edges, t.src < exPda.size → t.label = 1 := by decide
  have e2 : ∀ t ∈ keys exAut.edges, t.label ≠ 1 := by decide
  have e3 : ∀ q < exPda.size, exFrom.isAcc q = false := by decide
  dsimp only at h0 h1 h3
  cases h1 with
  | nil => rw [e3 q h0] at h2; simp at h2
  | cons k1 _ =>
    have k3 := e1 _ k1 h0
    cases h3 with
    | cons k2 _ => exact e2 _ k2 k3

example : ∃ t, getRuleTrace HashOrder.id exPda false
    (postStarAccepts HashOrder.id exPda (ofAutomata exPda.size exFrom exAut)).1 = some t ∧
      IsRuleTrace exPda exFrom exAut (fun r => ∃ w, exPda.Has { r with weight := w }) t :=
  (c56_post_rule_trace_partial HashOrder.id HashOrder.id exPda_wf (by decide) exFrom_ok exAut_ok.toAutOK
    exFrom_untraced ex_small_post).1 ex_canReach ex_no_common

example : ∃ t, getRuleTraceDual HashOrder.id exPda
    (dualSearchAccepts HashOrder.id exPda (ofAutomata exPda.size exFrom exAut)).1 = some t ∧
      IsRuleTrace exPda exFrom exAut (fun r => ∃ w, exPda.Has { r with weight := w }) t :=
  c56_dual_rule_trace_partial HashOrder.id HashOrder.id exPda_wf (by decide) exFrom_ok exAut_ok
    exFrom_untraced exAut_untraced ex_small_dual (by decide +kernel) ex_no_common

/-- The rules of the run, with the two accepting paths. -/
example : getRuleTrace HashOrder.id exPda true
    (Instance.preStarAccepts HashOrder.id exPda (ofAutomata exPda.size exFrom exAut)).1 =
      some ⟨1, [⟨1, 1, 0, .pop, 0, ()⟩, ⟨0, 1, 0, .swap, 2, ()⟩], [1, 1, 0], [2, 0], [1, 2, 3, 4], [0, 2, 2]⟩ := by
  decide +kernel

end Verif.Props
