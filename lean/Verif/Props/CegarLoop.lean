import Verif.Proofs.CegarInst
import Verif.Props.Cegar
import Verif.Props.CegarHeader
import Verif.Props.CegarSearch

/-!
# C66: a negative answer of `cegar_solve` is right

The user's classes describe an abstraction of a concrete problem (`Client.Covers`). If `cegar_solve` returns
`std::nullopt`, the concrete problem has no solution.
-/

namespace Verif.Props

open Cegar Instance

variable {S X C R : Type}

/-- The factory makes legal calls, and its state lists are sorted and have only states of the PDA. -/
structure Builds (cl : Client S X C R) (s : S) (m : RMap Nat) : Prop where
  calls : ∀ c ∈ cl.calls s m, c.OK m.size
  initSorted : SSorted (cl.initial s m)
  finSorted : SSorted (cl.accepting s m)
  initLt : ∀ q ∈ cl.initial s m, q < (cl.pda s m).size
  finLt : ∀ q ∈ cl.accepting s m, q < (cl.pda s m).size

/-- What the factory must guarantee in a state: it builds an instance, and every rule, initial state and final state of
the concrete problem has its image. -/
structure Covers (cl : Client S X C R) (P : Problem) (s : S) (m : RMap Nat) : Prop extends Builds cl s m where
  rules : ∃ β, Abstracts m.find β P.rules (cl.pda s m).Has ∧ (∀ q, P.initial q → β q ∈ cl.initial s m) ∧
    ∀ q, P.final q → β q ∈ cl.accepting s m

/-- The label map is consistent and has all labels of the two automata. -/
structure MapKnows (m : RMap Nat) (ini fin : Nfa) : Prop where
  inv : m.Inv
  fits : m.size ≤ epsilon
  initKnown : Known m ini
  finKnown : Known m fin

/-- What the label map must satisfy: moreover, no class has both labels of a negated edge and others. -/
structure MapFits (m : RMap Nat) (ini fin : Nfa) : Prop extends MapKnows m ini fin where
  initNeg : NegClear m ini
  finNeg : NegClear m fin

theorem pda_nLabels (cl : Client S X C R) (s : S) (m : RMap Nat) : (cl.pda s m).nLabels = m.size := by
  exact Pda.nLabels_build _ _

/-- What the engines answer in an iteration. -/
theorem accepts_abs {m : RMap Nat} {ini fin : Nfa} (hi : ini.WF) (hf : fin.WF) (ci : ini.Closed) (cf : fin.Closed)
    (hk : MapKnows m ini fin) {cl : Client S X C R} {s : S} (hb : Builds cl s m) (h : HashOrder) (mode : Mode) :
    (mode.accepts h (cl.pda s m) (cl.instance_ ini fin s m)).2 = true ↔
      ∃ q v q' v', q ∈ cl.initial s m ∧ (absNfa m ini).Lang v ∧ (∀ g ∈ v, g < m.size) ∧
        Reach (cl.pda s m).Has (q, v) (q', v') ∧ q' ∈ cl.accepting s m ∧ (absNfa m fin).Lang v' ∧
        ∀ g ∈ v', g < m.size := by
  obtain ⟨calls, sI, sF, lI, lF⟩ := hb
  obtain ⟨hm, hl, ki, kf⟩ := hk
  have hp : (cl.pda s m).WF := Pda.WF_build _ _ calls
  have hnl := pda_nLabels cl s m
  unfold Client.instance_
  rw [absInstance_auto hm hi ki ci hf kf cf sI sF lI lF]
  have bi : (absNfa m ini).Below (cl.pda s m).nLabels := by rw [hnl]; exact absNfa_labels hm hi ki
  have bf : (absNfa m fin).Below (cl.pda s m).nLabels := by rw [hnl]; exact absNfa_labels hm hf kf
  have ha := closed_ok (absNfa_wf hm hi ki) (absNfa_closed hm hi ki ci) (cl.pda s m) bi sI lI
  have hb := closed_ok (absNfa_wf hm hf kf) (absNfa_closed hm hf kf cf) (cl.pda s m) bf sF lF
  have hc := closed_canReach hp (absNfa_wf hm hi ki) (absNfa_wf hm hf kf) (absNfa_closed hm hi ki ci)
    (absNfa_closed hm hf kf cf) bi bf sI sF lI lF
  obtain ⟨e1, e2, e3, -⟩ := c11_engines_unweighted h h h h hp (by rw [hnl]; exact hl) ha hb
  rw [hnl] at hc e1 e2 e3
  rw [← hc]
  cases mode with
  | post => exact e2
  | pre => exact e1
  | dual => exact e3

/-- C66 for one iteration: if it ends with `std::nullopt`, no run of the concrete system leads from an initial state with
a stack of `initial_headers` to a final state with a stack of `final_headers`. Negated edges must not divide a class,
see `c66_negated_wrong` for the rest. -/
theorem c66_round_no_partial {cl : Client S X C R} {P : Problem} {s : S} {m : RMap Nat} {ini fin : Nfa} (hi : ini.WF)
    (hf : fin.WF) (ci : ini.Closed) (cf : fin.Closed) (hm : MapFits m ini fin) (hc : Covers cl P s m) {h h' : HashOrder} {mode : Mode} {fuel : Nat}
    (hr : cl.round h h' mode ini fin fuel s m = .no) : ¬ P.Solvable (· ∈ m.keys) ini fin := by
  have hno : ¬ (mode.accepts h (cl.pda s m) (cl.instance_ ini fin s m)).2 = true := by
    intro hy
    unfold Client.round at hr
    simp only [hy, Bool.not_true, Bool.false_eq_true, if_false] at hr
    split at hr
    · cases hr
    · split at hr
      · cases hr
      · rename_i f _
        cases f with
        | trace cs hd => simp [Client.finish] at hr
        | stuck depth cs =>
          simp only [Client.finish] at hr
          generalize (if depth = 0 then _ else _ : Split X) = sp at hr
          cases sp with
          | labels x r => simp only [Client.applySplit] at hr; split at hr <;> cases hr
          | rule r => simp [Client.applySplit] at hr
        | header info => simp only [Client.finish] at hr; split at hr <;> cases hr
  rw [accepts_abs hi hf ci cf hm.toMapKnows hc.toBuilds] at hno
  rintro ⟨q, v, q', v', h1, h2, h3, h4, h5, h6⟩
  obtain ⟨β, b1, b2, b3⟩ := hc.rules
  obtain ⟨u, hu⟩ := maps_exists (m := m) v h3
  obtain ⟨u', r1, r2⟩ := reach_abs b1 h4 (v := u) hu
  refine hno ⟨β q, u, β q', u', b2 q h1, ?_, maps_lt hm.inv hu, r1, b3 q' h5, ?_, maps_lt hm.inv r2⟩
  · exact lang_abs hm.inv hi hm.initKnown hm.initNeg h2 hu
  · exact lang_abs hm.inv hf hm.finKnown hm.finNeg h6 r2

/-- C66: if `cegar_solve` returns `std::nullopt`, the concrete problem has no solution over the labels `L`. `J` is what
the user's classes maintain; negated edges as above. -/
theorem c66_no_partial {cl : Client S X C R} {P : Problem} {ini fin : Nfa} (hi : ini.WF) (hf : fin.WF)
    (ci : ini.Closed) (cf : fin.Closed) {J : S → RMap Nat → Prop} {L : Nat → Prop} (hJ : ∀ s m, J s m → MapFits m ini fin ∧ Covers cl P s m ∧ ∀ x, L x → x ∈ m.keys)
    {h h' : HashOrder} {mode : Mode}
    (hstep : ∀ fuel s m s' m', J s m → cl.round h h' mode ini fin fuel s m = .again s' m' → J s' m')
    {s : S} {m : RMap Nat} (h0 : J s m) {fuel : Nat}
    (hr : cl.solve h h' mode ini fin fuel s m = some none) : ¬ P.Solvable L ini fin := by
  induction fuel generalizing s m with
  | zero => simp [Client.solve] at hr
  | succ fuel ih =>
    unfold Client.solve at hr
    split at hr
    · simp at hr
    · rename_i hno
      obtain ⟨j1, j2, j3⟩ := hJ s m h0
      have := c66_round_no_partial hi hf ci cf j1 j2 hno
      rintro ⟨q, v, q', v', h1, h2, h3, h4⟩
      exact this ⟨q, v, q', v', h1, h2, fun x hx => j3 x (h3 x hx), h4⟩
    · rename_i s' m' hag
      exact ih (hstep _ _ _ _ _ h0 hag) hr
    · simp at hr

/-! ## A client, and cases -/

/-- What a rule puts in place of its first label, bottom to top. -/
def postOf (r : URule Unit) : List Nat :=
  match r.op with
  | .pop => []
  | .noop => [r.pre]
  | .swap => [r.opLabel]
  | .push => [r.pre, r.opLabel]

/-- The class of a label, 0 for unknown labels. -/
def classOf (m : RMap Nat) (x : Nat) : Nat := (m.find x).getD 0

/-- The concrete rule is one of those behind the abstract rule. -/
def behind (m : RMap Nat) (a r : URule Unit) : Bool :=
  r.src == a.src && r.dst == a.dst && r.op == a.op && m.find r.pre == some a.pre &&
    (a.op == .pop || a.op == .noop || m.find r.opLabel == some a.opLabel)

/-- The configurations after the rules behind an abstract rule that leave one of the states, as in `make_configurations`
of test/ParsingPDAFactory.h:447-471. -/
def confsOf (rules : List (URule Unit)) (k : Recon) (a : URule Unit) (src : Nat) (h : Header) :
    List (URule Unit × Header) :=
  rules.filterMap fun r =>
    if r.src == src && behind k.map a r then
      match k.updateHeader h r.pre (postOf r) 0 with
      | some (some (h', _)) => some (r, h')
      | _ => none
    else none

/-- A client in the style of test/ParsingPDAFactory.h: the concrete PDA is a list of rules, its states are not
abstracted, and a trace is the list of rules with the final stack, bottom to top. -/
def listClient (rules : List (URule Unit)) (ini fin : List Nat) :
    Client Unit Unit (URule Unit × Header) (List (URule Unit) × List Nat) where
  calls _ m := rules.map fun r => .rule r.src ⟨r.dst, r.op, (), classOf m r.opLabel⟩ false [classOf m r.pre]
  initial _ _ := ini
  accepting _ _ := fin
  first _ k a := confsOf rules k a a.src k.initialHeader
  next _ k a c := confsOf rules k a c.1.dst c.2
  header c := c.2
  trace _ _ cs h _ := (cs.map Prod.fst, h)
  refineFirst _ k a := .labels () (.ofPair (k.preLabels k.initialHeader)
    ((rules.filter (behind k.map a)).map URule.pre).dedup a.pre)
  refineNext _ k a cs := .labels () (.ofPair ((cs.flatMap fun c => k.preLabels c.2).dedup)
    ((rules.filter (behind k.map a)).map URule.pre).dedup a.pre)
  refine s _ := s
  refineHeader s _ := s

/-- The concrete problem behind it. -/
def listProblem (rules : List (URule Unit)) (ini fin : List Nat) : Problem := ⟨(· ∈ rules), (· ∈ ini), (· ∈ fin)⟩

/-- The client covers its problem with every consistent map that has the labels of the rules. -/
theorem listClient_covers {rules : List (URule Unit)} {ini fin : List Nat} {m : RMap Nat} (hm : m.Inv) (hi : SSorted ini)
    (hf : SSorted fin) (hk : ∀ r ∈ rules, r.pre ∈ m.keys ∧ r.opLabel ∈ m.keys)
    (hs : ∀ q, q ∈ ini ∨ q ∈ fin → ∃ r ∈ rules, q = r.src ∨ q = r.dst) :
    Covers (listClient rules ini fin) (listProblem rules ini fin) () m := by
  have hcls : ∀ {x}, x ∈ m.keys → m.find x = some (classOf m x) := by
    intro x hx
    obtain ⟨c, hc⟩ := RMap.find_isSome hx
    simp [classOf, hc]
  have hok : ∀ c ∈ (listClient rules ini fin).calls () m, c.OK m.size := by
    intro c hc
    obtain ⟨r, hr, rfl⟩ := List.mem_map.1 hc
    refine ⟨fun _ => ⟨by simp [SSorted], ?_⟩, fun _ => RMap.find_lt hm (hcls (hk r hr).2)⟩
    intro g hg
    rw [List.mem_singleton] at hg
    rw [hg]
    exact RMap.find_lt hm (hcls (hk r hr).1)
  have hrule : ∀ r ∈ rules, ((listClient rules ini fin).pda () m).Has
      ⟨r.src, classOf m r.pre, r.dst, r.op, classOf m r.opLabel, ()⟩ := by
    intro r hr
    unfold Client.pda
    rw [c23_rules _ _ hok]
    exact ⟨_, List.mem_map_of_mem hr, rfl, rfl, rfl, rfl, rfl, by simp⟩
  have hp : ((listClient rules ini fin).pda () m).WF := Pda.WF_build _ _ hok
  have hlt : ∀ q, q ∈ ini ∨ q ∈ fin → q < ((listClient rules ini fin).pda () m).size := by
    intro q hq
    obtain ⟨r, hr, h | h⟩ := hs q hq
    · rw [h]
      obtain ⟨l, h1, -⟩ := (Pda.Has_iff _ _).1 (hrule r hr)
      obtain ⟨i, hi⟩ := List.mem_iff_getElem?.1 h1
      exact Pda.lt_size_of_rule hi
    · rw [h]
      obtain ⟨l, h1, -⟩ := (Pda.Has_iff _ _).1 (hrule r hr)
      exact hp.toLt _ _ h1
  refine ⟨⟨hok, hi, hf, fun q hq => hlt q (.inl hq), fun q hq => hlt q (.inr hq)⟩, id, ?_, fun _ h => h, fun _ h => h⟩
  intro r hr
  exact ⟨_, _, hcls (hk r hr).1, fun _ => hcls (hk r hr).2, hrule r hr⟩

/-- The outcome of an iteration does not depend on the fuel. -/
theorem round_fuel (cl : Client S X C R) {h h' : HashOrder} {mode : Mode} {ini fin : Nfa} {s : S} {m : RMap Nat}
    {f f' : Nat} {r r' : Round S R} (h1 : cl.round h h' mode ini fin f s m = r) (h2 : cl.round h h' mode ini fin f' s m = r')
    (n1 : r ≠ .undef) (n2 : r' ≠ .undef) : r = r' := by
  have key : ∀ {C : Type} (e : Search C) x {f f' : Nat}, f ≤ f' → ∀ {a}, search e x f = some a → search e x f' = some a := by
    intro C e x f f' hf a ha
    unfold search at ha ⊢
    cases hw : whileSome (searchStep e) f (searchInit e x) with
    | none => rw [hw] at ha; simp at ha
    | some y => rw [hw] at ha; rw [Reducer.whileSome_mono hf hw]; exact ha
  have mono : ∀ {f f' : Nat} {r : Round S R}, f ≤ f' → cl.round h h' mode ini fin f s m = r → r ≠ .undef →
      cl.round h h' mode ini fin f' s m = r := by
    intro f f' r hf hr hn
    unfold Client.round at hr ⊢
    dsimp only at hr ⊢
    split at hr
    · rename_i hc; rw [if_pos hc]; exact hr
    · rename_i hc
      rw [if_neg hc]
      split at hr
      · exact absurd hr.symm hn
      · split at hr
        · exact absurd hr.symm hn
        · rename_i a ha
          rw [key _ _ hf ha]
          exact hr
  rcases Nat.le_total f f' with hf | hf
  · exact (mono hf h1 n1).symm.trans h2
  · exact h1.symm.trans (mono hf h2 n2)

/-- One rule that swaps 1 for 2. -/
def loopRules : List (URule Unit) := [⟨0, 1, 1, .swap, 2, ()⟩]

/-- Reads 1. -/
def loopFirst : Nfa :=
  { states := [(1, { edges := [{ syms := [1], dst := 2 }] }), (2, { acc := true })], initial := [1], accepting := [2] }

/-- Reads 3. -/
def loopLast : Nfa :=
  { states := [(1, { edges := [{ syms := [3], dst := 2 }] }), (2, { acc := true })], initial := [1], accepting := [2] }

/-- The labels 1, 2 and 3 in one class, and in the two classes after the first iteration. -/
def loopMap (fn : Nat → Nat) : RMap Nat := (mapAfter fn ([1, 2, 3].map fun x => MapCall.insert x false)).map

theorem known_of {m : RMap Nat} {n : Nfa} (h : ∀ x ∈ n.states, ∀ e ∈ x.2.edges, ∀ g ∈ e.syms, g ∈ m.keys) : Known m n :=
  fun q s hs => h (q, s) hs

theorem plain_of {n : Nfa} (h : ∀ x ∈ n.states, ∀ e ∈ x.2.edges, e.neg = true → e.syms = []) : Plain n :=
  fun q s hs => h (q, s) hs

/-- An automaton without ε edges is closed. -/
theorem closed_of {n : Nfa} (h : ∀ x ∈ n.states, ∀ e ∈ x.2.edges, e.eps = false) : n.Closed := by
  have key : ∀ {p w q}, WPath n.Eps n.Sym p w q → w = [] → p = q := by
    intro p w q hw
    induction hw with
    | nil => exact fun _ => rfl
    | eps h1 => 
      obtain ⟨s, e, h2, h3, h4, -⟩ := h1
      rw [h _ h2 e h3] at h4
      cases h4
    | sym => intro h; cases h
  intro i hi q hq _
  rw [← key hq rfl]; exact hi

theorem loopMap_inv (fn : Nat → Nat) : (loopMap fn).Inv := (mapAfter_spec fn _).1.map

theorem loopFirst_wf : loopFirst.WF := nfa_wf (by decide) (by decide) (by decide) (by decide) rfl
theorem loopLast_wf : loopLast.WF := nfa_wf (by decide) (by decide) (by decide) (by decide) rfl
theorem loopFirst_closed : loopFirst.Closed := closed_of (by decide)
theorem loopLast_closed : loopLast.Closed := closed_of (by decide)

theorem loop_fits {fn : Nat → Nat} (h : (loopMap fn).size ≤ epsilon) (hk : (loopMap fn).keys = [1, 2, 3]) :
    MapFits (loopMap fn) loopFirst loopLast :=
  ⟨⟨loopMap_inv fn, h, known_of (by rw [hk]; decide), known_of (by rw [hk]; decide)⟩,
    Plain.negClear (plain_of (by decide)) _, Plain.negClear (plain_of (by decide)) _⟩

theorem loop_covers {fn : Nat → Nat} (hk : (loopMap fn).keys = [1, 2, 3]) :
    Covers (listClient loopRules [0] [1]) (listProblem loopRules [0] [1]) () (loopMap fn) :=
  listClient_covers (loopMap_inv fn) (by decide) (by decide) (by rw [hk]; decide) (by
    intro q hq
    refine ⟨_, List.mem_singleton.2 rfl, ?_⟩
    simpa using hq)

/-- Two iterations: in the first the abstract rule leads to a stack that might be 3; then 3 gets a class of its own and
the answer is no. -/
theorem loop_no (mode : Mode) :
    (listClient loopRules [0] [1]).round HashOrder.id HashOrder.id mode loopFirst loopLast 20 () (loopMap fun _ => 0) =
      .again () (loopMap (· / 3)) ∧
    (listClient loopRules [0] [1]).round HashOrder.id HashOrder.id mode loopFirst loopLast 20 () (loopMap (· / 3)) = .no ∧
    (listClient loopRules [0] [1]).solve HashOrder.id HashOrder.id mode loopFirst loopLast 20 () (loopMap fun _ => 0) =
      some none := by
  cases mode <;> decide +kernel

example (mode : Mode) : ¬ (listProblem loopRules [0] [1]).Solvable (· ∈ [1, 2, 3]) loopFirst loopLast := by
  refine c66_no_partial loopFirst_wf loopLast_wf loopFirst_closed loopLast_closed
    (J := fun _ m => m = loopMap (fun _ => 0) ∨ m = loopMap (· / 3)) ?_ (mode := mode) ?_ (.inl rfl) (loop_no mode).2.2
  · rintro s m (rfl | rfl)
    · exact ⟨loop_fits (by decide) (by decide), loop_covers (by decide), by
        intro x hx; rw [show (loopMap fun _ => 0).keys = [1, 2, 3] by decide]; exact hx⟩
    · exact ⟨loop_fits (by decide) (by decide), loop_covers (by decide), by
        intro x hx; rw [show (loopMap (· / 3)).keys = [1, 2, 3] by decide]; exact hx⟩
  · rintro fuel s m s' m' (rfl | rfl) hr
    · have := round_fuel _ hr (loop_no mode).1 (by simp) (by simp)
      simp only [Round.again.injEq] at this
      exact .inr this.2
    · have := round_fuel _ hr (loop_no mode).2.1 (by simp) (by simp)
      cases this

/-- Reads everything but 1. -/
def loopNot : Nfa :=
  { states := [(1, { edges := [{ neg := true, syms := [1], dst := 2 }] }), (2, { acc := true })], initial := [1],
    accepting := [2] }

/-- C66, the disagreement: with a negated edge the answer may be wrong. The configuration `⟨0, 3⟩` is both initial and
final, but the labels 1 and 3 have the same class, and `cegar_solve` returns `std::nullopt`. -/
theorem c66_negated_wrong (mode : Mode) :
    (listClient loopRules [0] [0]).solve HashOrder.id HashOrder.id mode loopNot loopLast 20 () (loopMap fun _ => 0) =
      some none ∧
    Covers (listClient loopRules [0] [0]) (listProblem loopRules [0] [0]) () (loopMap fun _ => 0) ∧
    (listProblem loopRules [0] [0]).Solvable (· ∈ (loopMap fun _ => 0).keys) loopNot loopLast := by
  refine ⟨by cases mode <;> decide +kernel, ?_, 0, [3], 0, [3], by simp [listProblem], ?_, by decide, .refl,
    by simp [listProblem], ?_⟩
  · refine listClient_covers (loopMap_inv _) (by decide) (by decide) (by decide) ?_
    intro q hq
    refine ⟨_, List.mem_singleton.2 rfl, .inl ?_⟩
    simpa using hq
  · exact ⟨1, by decide, 2, ⟨_, List.mem_cons_of_mem _ List.mem_cons_self, rfl⟩, .sym (q := 2) ⟨_, _, List.mem_cons_self, List.mem_cons_self,
      by simp [NEdge.Reads], rfl⟩ (.nil 2)⟩
  · exact ⟨1, by decide, 2, ⟨_, List.mem_cons_of_mem _ List.mem_cons_self, rfl⟩, .sym (q := 2) ⟨_, _, List.mem_cons_self, List.mem_cons_self,
      by simp [NEdge.Reads], rfl⟩ (.nil 2)⟩

end Verif.Props
