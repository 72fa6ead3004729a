import Verif.Model.VerifierWeighted
import Verif.Props.JsonReport
import Verif.Props.ShortestSearchTrace
import Verif.Props.ShortestProductTrace
import Verif.Props.FixedTrace
import Verif.Props.FixedAny

/-! # C76: the reports of the command-line tool with weights -/

namespace Verif.Props

open Verif

variable {L S W T : Type}

/-! ## Runs with numbers and runs with names -/

section
variable [Inhabited L] [LinearOrder W] [AddCommMonoid T] {val : W → T} {t : TPda L W}

theorem typed_weight (t : TPda L W) (u : URule W) : (t.typed u).weight = u.weight := rfl

theorem costTrace_named (hp : t.core.WF) {cs : List Config} {x : T} (h : CostTrace t.core.Has val cs x)
    (hc : ∀ c, cs.head? = some c → InRange t c.2) : NCostTrace (· ∈ t.allRules) val (namedTrace t cs) x := by
  induction h with
  | one c => exact .one _
  | cons u w cs x hu _ ih =>
    have hs := step_named hp (Step.mk (R := t.core.Has) u w hu) (hc _ rfl)
    have h1 := ih fun c hc => by cases hc; exact hs.2
    unfold namedTrace at h1 ⊢
    rw [List.map_cons] at h1
    simp only [List.map_cons]
    have := NCostTrace.cons (R := (· ∈ t.allRules)) (val := val) (t.typed u) (w.map t.symbol)
      (cs.map fun c => (c.1, c.2.map t.symbol)) x ((t.mem_allRules _).2 ⟨u, hu, rfl⟩)
    rw [typed_repl] at this
    exact this h1

theorem named_costRun (hp : t.core.WF) (hn : t.labels.Nodup) {ds : List (Nat × List L)} {x : T}
    (h : NCostTrace (· ∈ t.allRules) val ds x) {c : Config} (hc : InRange t c.2) (hd : ds.head? = some (c.1, c.2.map t.symbol)) :
    ∃ c', CostRun t.core.Has val c x c' ∧ InRange t c'.2 ∧ ds.getLast? = some (c'.1, c'.2.map t.symbol) := by
  induction h generalizing c with
  | one d =>
    cases hd
    exact ⟨c, .nil _, hc, rfl⟩
  | cons r ls cs x hr _ ih =>
    obtain ⟨q, w0⟩ := c
    dsimp only at hd hc
    rw [List.head?_cons, Option.some.injEq, Prod.mk.injEq] at hd
    obtain ⟨u, hu, rfl⟩ := (t.mem_allRules r).1 hr
    obtain ⟨h1, h2, h3⟩ := has_spec hp hu
    obtain ⟨hq, hw⟩ := hd
    obtain ⟨g, w, rfl, hg, rfl⟩ := List.map_eq_cons_iff.1 hw.symm
    have : g = u.pre := symbol_inj hn (hc g (by simp)) h2 hg
    subst this
    have : q = u.src := hq.symm
    subst this
    have hst := Step.mk (R := t.core.Has) u w hu
    obtain ⟨c', k1, k2, k3⟩ := ih (c := (u.dst, effect u.op u.pre u.opLabel w)) (step_named hp hst hc).2 (by
      rw [List.head?_cons, typed_repl]; rfl)
    refine ⟨c', .cons u w _ _ hu k1, k2, ?_⟩
    rw [List.getLast?_cons_cons]
    exact k3

omit [Inhabited L] [LinearOrder W] in
theorem CostRun.trace {R : URule W → Prop} {c c' : Config} {x : T} (h : CostRun R val c x c') :
    ∃ cs, CostTrace R val cs x ∧ cs.head? = some c ∧ cs.getLast? = some c' := by
  induction h with
  | nil c => exact ⟨[c], .one c, rfl, rfl⟩
  | cons r w x c hr _ ih =>
    obtain ⟨cs, h1, h2, h3⟩ := ih
    cases cs with
    | nil => cases h2
    | cons d cs =>
      cases h2
      exact ⟨_, .cons r w cs x hr h1, rfl, by rw [List.getLast?_cons_cons]; exact h3⟩

variable [DecidableEq L] {a b : Aut W} {I F : Nat → List L → Prop}

/-- A run with numbers is a run with names. -/
theorem runOf_named (hp : t.core.WF) (hn : t.labels.Nodup) (ha : Meets t a I) (hb : Meets t b F) {cs : List Config} {x : T}
    (h : CostTrace t.core.Has val cs x) {c c' : Config} (h1 : cs.head? = some c) (h2 : cs.getLast? = some c')
    (h3 : c.1 < t.core.size) (h4 : Lang a c) (h5 : Lang b c') : NRunOf (· ∈ t.allRules) val I F (namedTrace t cs) x := by
  obtain ⟨k1, k2⟩ := (ha.named hn h3).1 h4
  obtain ⟨k3, k4⟩ := (hb.named hn (chain_lt hp (costTrace_chain h) h1 h2 h3)).1 h5
  refine ⟨costTrace_named hp h fun d hd => ?_, ⟨(c.1, c.2.map t.symbol), ?_, k2⟩, ⟨(c'.1, c'.2.map t.symbol), ?_, k4⟩⟩
  · rw [h1] at hd; cases hd; exact k1
  · simp [namedTrace, h1]
  · simp [namedTrace, h2]

/-- The weights of the runs with numbers are those of the runs with names. -/
theorem connect_named (hp : t.core.WF) (hn : t.labels.Nodup) (ha : Meets t a I) (hb : Meets t b F) (val : W → T) :
    ConnectWeights t.core.Has val t.core.size (· ∈ keys a.edges) (fun q => a.isAcc q = true) (· ∈ keys b.edges)
      (fun q => b.isAcc q = true) = NRuns (· ∈ t.allRules) val I F := by
  ext x
  constructor
  · rintro ⟨c, c', h1, h2, h3, h4⟩
    obtain ⟨cs, k1, k2, k3⟩ := CostRun.trace h3
    exact ⟨_, runOf_named hp hn ha hb k1 k2 k3 h1 h2 h4⟩
  · rintro ⟨ds, h1, ⟨d, h2, h3⟩, ⟨d', h4, h5⟩⟩
    obtain ⟨q, ls⟩ := d
    obtain ⟨k1, k2⟩ := ha.labels q ls h3
    have hw : Numbers t (ls.map fun l => t.labels.idxOf l) ls := (numbers_iff hn _ _).2 ⟨k2, rfl⟩
    obtain ⟨k3, k4⟩ := numbers_names hw
    obtain ⟨c', g1, g2, g3⟩ := named_costRun hp hn h1 (c := (q, ls.map fun l => t.labels.idxOf l)) k3 (by rw [k4]; exact h2)
    rw [h4] at g3
    cases g3
    have hlt : c'.1 < t.core.size := by
      obtain ⟨cs, m1, m2, m3⟩ := CostRun.trace g1
      exact chain_lt hp (costTrace_chain m1) m2 m3 k1
    exact ⟨(q, _), c', k1, (ha.named hn k1).2 ⟨k3, by rw [k4]; exact h3⟩, g1, (hb.named hn hlt).2 ⟨g2, h5⟩⟩

end

/-! ## The automata of the searches -/

section
variable (val : W → T)

theorem keys_reweigh (a : Aut W) : keys (a.reweigh val).edges = keys a.edges := by
  unfold keys Aut.reweigh
  rw [List.map_map]
  rfl

theorem keys_paired (a : Aut W) : keys (a.paired val).edges = keys a.edges := by
  unfold keys Aut.paired
  rw [List.map_map]
  rfl

theorem isAcc_reweigh (a : Aut W) (q : Nat) : (a.reweigh val).isAcc q = a.isAcc q := rfl
theorem isAcc_paired (a : Aut W) (q : Nat) : (a.paired val).isAcc q = a.isAcc q := rfl

variable [AddCommMonoid T] [Zero W] {a b : Aut W} {p : Pda W}

omit [Zero W] in
theorem runsBetween_reweigh : RunsBetween p val (a.reweigh val) (b.reweigh val) =
    ConnectWeights p.Has val p.size (· ∈ keys a.edges) (fun q => a.isAcc q = true) (· ∈ keys b.edges) (fun q => b.isAcc q = true) := by
  unfold RunsBetween
  rw [keys_reweigh, keys_reweigh]
  rfl

omit [Zero W] in
theorem fixRuns_paired : FixRuns p val (a.paired val) (b.paired val) =
    ConnectWeights p.Has val p.size (· ∈ keys a.edges) (fun q => a.isAcc q = true) (· ∈ keys b.edges) (fun q => b.isAcc q = true) := by
  unfold FixRuns
  rw [keys_paired, keys_paired]
  rfl

variable (h0 : val 0 = 0)
include h0

theorem Blank.shAut (hb : Blank a) (ha : PAut p a) : ShAut p (a.reweigh val) := by
  refine ⟨ha.size_le, ?_, ?_, ?_, ?_⟩
  · rw [keys_reweigh]; exact ha.valid
  · rw [keys_reweigh]; exact ha.nodup
  · intro e he
    obtain ⟨e', h1, rfl⟩ := List.mem_map.1 he
    show val e'.2.2 = 0
    rw [hb e' h1]
    exact h0
  · rw [keys_reweigh]; exact ha.noInto

theorem Blank.shFinal (hb : Blank a) (ha : PAut p a) : ShFinal p (a.reweigh val) :=
  let h := hb.shAut val h0 ha
  ⟨h.size_le, h.valid, h.zero⟩

theorem Blank.fixAut (hb : Blank a) (ha : PAut p a) : FixAut p (a.paired val) := by
  refine ⟨⟨ha.size_le, ?_, ?_, ?_⟩, ?_⟩
  · rw [keys_paired]; exact ha.valid
  · rw [keys_paired]; exact ha.nodup
  · intro e he
    obtain ⟨e', h1, rfl⟩ := List.mem_map.1 he
    show val e'.2.2 = 0
    rw [hb e' h1]
    exact h0
  · rw [keys_paired]; exact ha.noInto

omit h0 in
theorem Blank.untraced_reweigh (hb : Blank a) : Untraced (a.reweigh val) := by
  intro e he
  obtain ⟨e', h1, rfl⟩ := List.mem_map.1 he
  show e'.2.1 = _
  rw [hb e' h1]

omit h0 in
theorem Blank.untraced_paired (hb : Blank a) : Untraced (a.paired val).lastTraces := by
  intro e he
  obtain ⟨e1, h1, rfl⟩ := List.mem_map.1 he
  obtain ⟨e', h2, rfl⟩ := List.mem_map.1 h1
  show e'.2.1 = _
  rw [hb e' h2]

end

/-! ## Trace type shortest -/

/-- What a report with the trace type shortest says. `exact`: the trace has the weight that is reported. -/
structure TellsLeast [AddCommMonoid T] [LinearOrder T] (R : TRule L W → Prop) (val : W → T) (I F : Nat → List L → Prop)
    (engine : String) (exact : Prop) (r : WReport L (WithTop T)) : Prop where
  engine : r.engine = engine
  yes : r.result = true → ∃ x : T, IsLeast (NRuns R val I F) x ∧ r.weight = some (.value (x : WithTop T)) ∧ NTrace R I F r.trace ∧
    (exact → NRunOf R val I F r.trace x)
  no : r.result = false → r.weight = none ∧ r.trace = [] ∧ ∀ x ∈ NRuns R val I F, 0 < x

section
variable [DecidableEq L] [Inhabited L] [LinearOrder W] [Zero W] [LinearOrder T] [AddCommMonoid T] [IsOrderedCancelAddMonoid T]
variable {t : TPda L W} {a b : Aut W} {I F : Nat → List L → Prop}

/-- The search that an engine makes. -/
def shortSearch (val : W → T) (hp : Heap (ShElem T) (WithTop T) ShElem.key) (hq : Heap (T × Nat) T Prod.fst) (h : HashOrder)
    (junk : Nat → Bool) (best : Nat → T) (engine : Nat) (fuel : Nat) (p : Pda W) (a b : Aut W) :
    Except String (Option (SInstance T × Bool)) :=
  let i := SInstance.ofAutomata p.size (a.reweigh val) (b.reweigh val) best
  match engine with
  | 1 => SInstance.postStarAccepts val hp hq h p i fuel
  | 2 => .ok (SInstance.preStarAccepts val hp hq h junk p i fuel)
  | _ => SInstance.dualSearchAccepts val hp hq h junk p i fuel

/-- The states can be numbered by `size_t`. -/
structure ShortFits (val : W → T) (hp : Heap (ShElem T) (WithTop T) ShElem.key) (hq : Heap (T × Nat) T Prod.fst) (h : HashOrder)
    (junk : Nat → Bool) (best : Nat → T) (engine : Nat) (p : Pda W) (a b : Aut W) : Prop where
  initial : shN p (a.reweigh val) ≤ sizeMax
  final : b.n ≤ sizeMax
  product : ∀ fuel i ans, shortSearch val hp hq h junk best engine fuel p a b = .ok (some (i, ans)) → i.prod.base.aut.n ≤ sizeMax

/-- What the engines need: post* that no configuration with the empty stack is both initial and final; the others that no final
configuration has the empty stack, that no configuration is both initial and final, that uninitialized memory is not negative, and that
pre* meets every rule. -/
def ShortOK (p : Pda W) (best : Nat → T) (engine : Nat) (I F : Nat → List L → Prop) : Prop :=
  if engine = 1 then ∀ q, ¬ (I q [] ∧ F q [])
  else p.LookupOK ∧ (∀ q, ¬ F q []) ∧ (∀ q ls, ¬ (I q ls ∧ F q ls)) ∧ ∀ u, 0 ≤ best u

omit [LinearOrder W] [Zero W] [Inhabited L] in
theorem Meets.empty (hm : Meets t a I) {q : Nat} (hq : q < t.core.size) : a.isAcc q = true ↔ I q [] := by
  have h := hm.lang q hq []
  constructor
  · intro ha
    obtain ⟨ls, h1, h2⟩ := h.1 ⟨q, .nil _, ha⟩
    unfold Numbers at h1
    rw [List.map_nil] at h1
    rw [List.map_eq_nil_iff.1 h1.symm] at h2
    exact h2
  · intro hI
    obtain ⟨f, h1, h2⟩ := h.2 ⟨[], rfl, hI⟩
    cases h1
    exact h2

omit [IsOrderedCancelAddMonoid T] in
theorem haveCommon_named {val : W → T} (hn : t.labels.Nodup) (ha : Meets t a I) (hb : Meets t b F)
    (h : HaveCommon t.core (a.reweigh val) (b.reweigh val)) : ∃ q ls, I q ls ∧ F q ls := by
  obtain ⟨c, h1, h2, h3⟩ := h
  rw [keys_reweigh] at h2 h3
  exact ⟨c.1, _, ((ha.named hn h1).1 h2).2, ((hb.named hn h1).1 h3).2⟩

omit [DecidableEq L] [LinearOrder W] [Zero W] [IsOrderedCancelAddMonoid T] in
/-- The report after a search. -/
theorem shortReport_tells {val : W → T} {R : TRule L W → Prop} {e : Nat} {exact : Prop} {r : Except String (Option (SInstance T × Bool))}
    {tr : SInstance T → Option (List Config) × WithTop T} (hr : ∀ s, r ≠ .error s)
    (hyes : ∀ i, r = .ok (some (i, true)) → ∃ (x : T) (cs : List Config), tr i = (some cs, (x : WithTop T)) ∧
      IsLeast (NRuns R val I F) x ∧ NTrace R I F (namedTrace t cs) ∧ (exact → NRunOf R val I F (namedTrace t cs) x))
    (hno : ∀ i, r = .ok (some (i, false)) → ∀ x ∈ NRuns R val I F, 0 < x) :
    (r = .ok none ∧ shortReport t e r tr = .running) ∨
      ∃ o, shortReport t e r tr = .report o ∧ TellsLeast R val I F (engineName e) exact o := by
  cases r with
  | error s => exact absurd rfl (hr s)
  | ok r =>
    cases r with
    | none => exact .inl ⟨rfl, rfl⟩
    | some x =>
      obtain ⟨i, ans⟩ := x
      refine .inr ?_
      cases ans with
      | true =>
        obtain ⟨x, cs, h1, h2, h3, h4⟩ := hyes i rfl
        unfold shortReport
        simp only [h1]
        exact ⟨_, rfl, rfl, (fun _ => ⟨x, h2, rfl, h3, h4⟩), (fun h => by cases h)⟩
      | false => exact ⟨_, rfl, rfl, (fun h => by cases h), fun _ => ⟨rfl, rfl, hno i rfl⟩⟩

omit [DecidableEq L] [Inhabited L] [LinearOrder W] [Zero W] [LinearOrder T] [AddCommMonoid T] [IsOrderedCancelAddMonoid T] in
theorem isTrace_reweigh {val : W → T} {p : Pda W} {cs : List Config} (h : IsRunFromTo p (a.reweigh val) (b.reweigh val) cs) :
    IsTrace p a b cs := by
  obtain ⟨h1, ⟨c, h2, h3, h4⟩, c', h5, h6⟩ := h
  rw [keys_reweigh] at h4 h6
  exact ⟨h1, ⟨c, h2, h3, h4⟩, c', h5, h6⟩

omit [Inhabited L] [LinearOrder W] [Zero W] [LinearOrder T] [AddCommMonoid T] [IsOrderedCancelAddMonoid T] in
theorem stacks_named {val : W → T} (hb : Meets t b F) (hF : ∀ q, ¬ F q []) : StacksNonempty t.core (b.reweigh val) := by
  intro q hq
  have := (not_congr (hb.empty hq)).2 (hF q)
  simpa [isAcc_reweigh] using this

/-- The report on two legal automata with the trace type shortest: there is one, and it is right. -/
theorem verifyShortest_tells (val : W → T) (h0 : val 0 = 0) (hp : Heap (ShElem T) (WithTop T) ShElem.key)
    (hq : Heap (T × Nat) T Prod.fst) (h : HashOrder) (junk : Nat → Bool) (best : Nat → T) (hw : t.core.WF) (hn : t.labels.Nodup)
    (hl : t.labels.length < epsilon) (ha : PAut t.core a) (hb : PAut t.core b) (ua : Blank a) (ub : Blank b) (hI : Meets t a I)
    (hF : Meets t b F) (hnn : ∀ st ∈ t.states, ∀ y ∈ st.rules, 0 ≤ val y.1.weight) (engine : Nat) (he : 1 ≤ engine ∧ engine ≤ 3)
    (hok : ShortOK t.core best engine I F) (hfit : ShortFits val hp hq h junk best engine t.core a b) :
    (∃ fuel, verifyShortest val hp hq h junk best engine fuel t a b ≠ .running) ∧
    ∀ fuel, verifyShortest val hp hq h junk best engine fuel t a b = .running ∨
      ∃ r, verifyShortest val hp hq h junk best engine fuel t a b = .report r ∧
        TellsLeast (· ∈ t.allRules) val I F (["post*", "pre*", "dual*"].getD (engine - 1) "") (engine = 1) r := by
  have hle : t.core.nLabels ≤ epsilon := Nat.le_of_lt hl
  have hR : RunsBetween t.core val (a.reweigh val) (b.reweigh val) = NRuns (· ∈ t.allRules) val I F :=
    (runsBetween_reweigh val).trans (connect_named hw hn hI hF val)
  have sa := ua.shAut val h0 ha
  have sb := ub.shAut val h0 hb
  obtain rfl | rfl | rfl : engine = 1 ∨ engine = 2 ∨ engine = 3 := by omega
  · have hab : NoEmptyStack t.core (a.reweigh val) (b.reweigh val) := fun q hq k =>
      (show ∀ q, ¬ (I q [] ∧ F q []) from hok) q ⟨(hI.empty hq).1 k.1, (hF.empty hq).1 k.2⟩
    have fb := ub.shFinal val h0 hb
    have key : ∀ fuel, (SInstance.postStarAccepts val hp hq h t.core (SInstance.ofAutomata t.core.size (a.reweigh val) (b.reweigh val) best) fuel = .ok none ∧
        verifyShortest val hp hq h junk best 1 fuel t a b = .running) ∨
        ∃ r, verifyShortest val hp hq h junk best 1 fuel t a b = .report r ∧ TellsLeast (· ∈ t.allRules) val I F "post*" (1 = 1) r := by
      intro fuel
      refine shortReport_tells (fun s hs => ?_) (fun i hi => ?_) (fun i hi => ?_)
      · unfold SInstance.postStarAccepts at hs
        simp only at hs
        split at hs
        · cases hs
        · rw [show shNegative val t.core (SInstance.ofAutomata t.core.size (a.reweigh val) (b.reweigh val) best).initial = false from
            not_negative sa hnn] at hs
          cases hs
      · obtain ⟨m1, m2, m3, m4⟩ := c58_minimum_partial val hp hq h hw hle sa fb hnn hab best fuel i true hi
        rcases c62_get_trace_partial val hp hq h hw hl sa (ua.untraced_reweigh val) fb hnn hab hfit.initial best fuel i true hi
          (hfit.product fuel i true hi) with ⟨k1, _⟩ | ⟨x, cs, c, k1, k2, ⟨k3, k4, c0, k5, k6, k7⟩, k8⟩
        · obtain ⟨x, hx⟩ := m3 rfl
          rw [k1] at hx
          exact hx.elim
        · rw [keys_reweigh] at k7 k8
          rw [hR] at k2
          have := runOf_named hw hn hI hF k3 k5 k4 k6 k7 k8
          exact ⟨x, cs, k1, k2, isTrace_named hw hn hI hF ⟨costTrace_chain k3, ⟨c0, k5, k6, k7⟩, c, k4, k8⟩, fun _ => this⟩
      · obtain ⟨m1, m2, m3, m4⟩ := c58_minimum_partial val hp hq h hw hle sa fb hnn hab best fuel i false hi
        rw [hR] at m4
        exact m4 rfl
    refine ⟨?_, fun fuel => (key fuel).imp (·.2) id⟩
    obtain ⟨fuel, r, hr⟩ := c58_terminates val hp hq h hw hle sa fb hnn hab best
    refine ⟨fuel, fun hc => ?_⟩
    rcases key fuel with ⟨k, _⟩ | ⟨r', k, _⟩
    · rw [hr] at k; cases k
    · rw [hc] at k; cases k
  · obtain ⟨hk, hF0, hIF, hj⟩ := (show t.core.LookupOK ∧ (∀ q, ¬ F q []) ∧ (∀ q ls, ¬ (I q ls ∧ F q ls)) ∧ ∀ u, 0 ≤ best u from hok)
    have hne := stacks_named (val := val) hF hF0
    have hcc : ¬ HaveCommon t.core (a.reweigh val) (b.reweigh val) := fun hc => by
      obtain ⟨q, ls, k⟩ := haveCommon_named hn hI hF hc
      exact hIF q ls k
    have fa := ua.shFinal val h0 ha
    have key : ∀ fuel, ((.ok (SInstance.preStarAccepts val hp hq h junk t.core (SInstance.ofAutomata t.core.size (a.reweigh val) (b.reweigh val) best) fuel) :
          Except String _) = .ok none ∧ verifyShortest val hp hq h junk best 2 fuel t a b = .running) ∨
        ∃ r, verifyShortest val hp hq h junk best 2 fuel t a b = .report r ∧ TellsLeast (· ∈ t.allRules) val I F "pre*" (2 = 1) r := by
      intro fuel
      refine shortReport_tells (fun s hs => by cases hs) (fun i hi => ?_) (fun i hi => ?_)
      · have hi' := Except.ok.inj hi
        obtain ⟨m1, m2, m3, m4⟩ := c59_minimum_partial val hp hq h junk hw hle hk fa sb hnn hne best hj (fun h => (hcc h).elim) fuel i true hi'
        rcases c68_pre_trace_partial val hp hq h junk hw hle hk fa sb (ub.untraced_reweigh val) hfit.final hnn hne best hj hcc fuel i true hi'
          (hfit.product fuel i true hi) with ⟨k1, _⟩ | ⟨x, cs, k1, k2, k3⟩
        · obtain ⟨x, hx⟩ := m3 rfl
          rw [k1] at hx
          exact hx.elim
        · rw [hR] at k2
          exact ⟨x, cs, k1, k2, isTrace_named hw hn hI hF (isTrace_reweigh k3), fun h => absurd h (by decide)⟩
      · obtain ⟨m1, m2, m3, m4⟩ := c59_minimum_partial val hp hq h junk hw hle hk fa sb hnn hne best hj (fun h => (hcc h).elim) fuel i false
          (Except.ok.inj hi)
        rw [hR] at m4
        exact m4 rfl
    refine ⟨?_, fun fuel => (key fuel).imp (·.2) id⟩
    obtain ⟨fuel, r, hr⟩ := c59_terminates val hp hq h junk hw hle hk fa sb hnn hne best
    refine ⟨fuel, fun hc => ?_⟩
    rcases key fuel with ⟨k, _⟩ | ⟨r', k, _⟩
    · rw [hr] at k; cases k
    · rw [hc] at k; cases k
  · obtain ⟨hk, hF0, hIF, hj⟩ := (show t.core.LookupOK ∧ (∀ q, ¬ F q []) ∧ (∀ q ls, ¬ (I q ls ∧ F q ls)) ∧ ∀ u, 0 ≤ best u from hok)
    have hne := stacks_named (val := val) hF hF0
    have hcc : ¬ HaveCommon t.core (a.reweigh val) (b.reweigh val) := fun hc => by
      obtain ⟨q, ls, k⟩ := haveCommon_named hn hI hF hc
      exact hIF q ls k
    have key : ∀ fuel, (SInstance.dualSearchAccepts val hp hq h junk t.core (SInstance.ofAutomata t.core.size (a.reweigh val) (b.reweigh val) best) fuel = .ok none ∧
        verifyShortest val hp hq h junk best 3 fuel t a b = .running) ∨
        ∃ r, verifyShortest val hp hq h junk best 3 fuel t a b = .report r ∧ TellsLeast (· ∈ t.allRules) val I F "dual*" (3 = 1) r := by
      intro fuel
      refine shortReport_tells (fun s hs => ?_) (fun i hi => ?_) (fun i hi => ?_)
      · unfold SInstance.dualSearchAccepts at hs
        simp only at hs
        split at hs
        · cases hs
        · rw [show shNegative val t.core (SInstance.ofAutomata t.core.size (a.reweigh val) (b.reweigh val) best).initial = false from
            not_negative sa hnn] at hs
          cases hs
      · obtain ⟨m1, m2, m3, m4⟩ := c60_minimum_partial val hp hq h junk hw hle hk sa sb hnn hne best hj (fun h => (hcc h).elim) fuel i true hi
        rcases c68_dual_trace_partial val hp hq h junk hw hl hk sa sb (ua.untraced_reweigh val) (ub.untraced_reweigh val) hfit.initial hfit.final
          hnn hne best hj hcc fuel i true hi (hfit.product fuel i true hi) with ⟨k1, _⟩ | ⟨x, cs, k1, k2, k3⟩
        · obtain ⟨x, hx⟩ := m3 rfl
          rw [k1] at hx
          exact hx.elim
        · rw [hR] at k2
          exact ⟨x, cs, k1, k2, isTrace_named hw hn hI hF (isTrace_reweigh k3), fun h => absurd h (by decide)⟩
      · obtain ⟨m1, m2, m3, m4⟩ := c60_minimum_partial val hp hq h junk hw hle hk sa sb hnn hne best hj (fun h => (hcc h).elim) fuel i false hi
        rw [hR] at m4
        exact m4 rfl
    refine ⟨?_, fun fuel => (key fuel).imp (·.2) id⟩
    obtain ⟨fuel, r, hr⟩ := c60_terminates val hp hq h junk hw hle hk sa sb hnn hne best
    refine ⟨fuel, fun hc => ?_⟩
    rcases key fuel with ⟨k, _⟩ | ⟨r', k, _⟩
    · rw [hr] at k; cases k
    · rw [hc] at k; cases k

end

/-! ## The fixed-point trace types -/

/-- What a report with a fixed-point trace type says, for runs whose weights are bounded. For `bottom()` the text is given, without a
trace, unless the weights are unsigned. -/
structure TellsBest [AddCommMonoid T] [LinearOrder T] [OrderBot T] (R : TRule L W → Prop) (val : W → T) (I F : Nat → List L → Prop)
    (engine : String) (unsig : Bool) (word : String) (r : WReport L T) : Prop where
  engine : r.engine = engine
  result : r.result = true ↔ (NRuns R val I F).Nonempty
  yes : r.result = true → ∃ x, IsLeast (NRuns R val I F) x ∧ r.weight = some (if unsig = false ∧ x = ⊥ then .text word else .value x) ∧
    ((unsig = false ∧ x = ⊥ ∧ r.trace = []) ∨ NRunOf R val I F r.trace x)
  no : r.result = false → r.weight = none ∧ r.trace = []

section
variable [DecidableEq L] [Inhabited L] [LinearOrder W] [Zero W] [LinearOrder T] [AddCommMonoid T] [IsOrderedAddMonoid T] [OrderBot T] [OrderTop T]
variable {t : TPda L W} {a b : Aut W} {I F : Nat → List L → Prop}

/-- The search that an engine makes; whether the result is an automaton for the predecessors comes with it. -/
def fixSearch (val : W → T) (h : HashOrder) (engine : Nat) (fuel : Nat) (p : Pda W) (a b : Aut W) :
    Option ((Instance (Trace × T) × Bool) × Bool) :=
  let i := Instance.ofAutomata p.size (a.paired val) (b.paired val)
  match engine with
  | 1 => (i.postStarFixedPointAccepts val h p fuel).map fun r => (r, false)
  | 2 => (i.preStarFixedPointAccepts val h p fuel).map fun r => (r, true)
  | _ => Instance.interleavingFixedPointAccepts val h p i i fuel

/-- What is needed for the fixed-point engines to end with the best weight: no weight can be improved again and again while the engine
saturates, the weights of the runs are bounded, and pre* meets every rule. -/
structure FixOK (p : Pda W) (val : W → T) (engine : Nat) (a b : Aut W) (R : Set T) : Prop where
  top : BelowTop p val
  bounded : BoundedBelow R
  initial : engine = 2 ∨ UnpumpedFrom p.Has val p.size (· ∈ keys a.edges)
  final : engine = 1 ∨ (UnpumpedTo p.Has val p.size (· ∈ keys b.edges) ∧ p.LookupOK)

/-- The states can be numbered by `size_t`. -/
structure FixFits (val : W → T) (h : HashOrder) (engine : Nat) (p : Pda W) (a b : Aut W) : Prop where
  final : b.n ≤ sizeMax
  initial : ∀ fuel i ans byPre, fixSearch val h engine fuel p a b = some ((i, ans), byPre) → i.initial.n ≤ sizeMax

omit [IsOrderedAddMonoid T] [Zero W] in
theorem fixReport_tells {val : W → T} (hw : t.core.WF) (hn : t.labels.Nodup) (hI : Meets t a I) (hF : Meets t b F) (e : Nat)
    (unsig : Bool) (word : String) {h : HashOrder} {swap : Bool} {i : Instance (Trace × T)} {ans : Bool}
    (hans : ans = true ↔ (FixRuns t.core val (a.paired val) (b.paired val)).Nonempty)
    (htr : TracesBest h t.core val (a.paired val) (b.paired val) unsig swap i) :
    ∃ fuel1 o, (∀ fuel, fuel1 ≤ fuel →
        fixReport t e unsig word (some (i, ans)) (fun i => i.getTraceFixedPoint h t.core unsig swap fuel) = .report o) ∧
      TellsBest (· ∈ t.allRules) val I F (engineName e) unsig word o := by
  have hR : FixRuns t.core val (a.paired val) (b.paired val) = NRuns (· ∈ t.allRules) val I F :=
    (fixRuns_paired val).trans (connect_named hw hn hI hF val)
  obtain ⟨fuel1, cs, x, h1, h2⟩ := htr
  rw [hR] at hans h2
  cases ans with
  | false =>
    refine ⟨0, _, fun _ _ => rfl, rfl, ?_, (fun h => by cases h), fun _ => ⟨rfl, rfl⟩⟩
    exact hans
  | true =>
    rcases h2 with ⟨h2, _⟩ | ⟨h2, h3⟩
    · rw [h2] at hans
      exact absurd (hans.1 rfl) Set.not_nonempty_empty
    · refine ⟨fuel1, { engine := engineName e, result := true, weight := some (if unsig = false ∧ x = ⊥ then .text word else .value x), trace := namedTrace t cs }, fun fuel hf => ?_, rfl, hans, fun _ => ⟨x, h2, rfl, ?_⟩, (fun h => by cases h)⟩
      · unfold fixReport
        simp only [h1 fuel hf]
      · rcases h3 with ⟨h3, h4, rfl⟩ | ⟨h3, c, c', h4, h5, h6, h7, h8⟩
        · exact .inl ⟨h3, h4, rfl⟩
        · rw [keys_paired] at h7 h8
          exact .inr (runOf_named hw hn hI hF h3 h4 h5 h6 h7 h8)

/-- The report on two legal automata with a fixed-point trace type. -/
theorem verifyFixed_tells (val : W → T) (h0 : val 0 = 0) (h : HashOrder) (hw : t.core.WF) (hn : t.labels.Nodup)
    (hl : t.labels.length < epsilon) (ha : PAut t.core a) (hb : PAut t.core b) (ua : Blank a) (ub : Blank b) (hI : Meets t a I)
    (hF : Meets t b F) (engine : Nat) (he : 1 ≤ engine ∧ engine ≤ 3) (hok : FixOK t.core val engine a b (NRuns (· ∈ t.allRules) val I F))
    (hfit : FixFits val h engine t.core a b) (unsig : Bool) (word : String) :
    ∃ fuel0 r, (∀ fuel, fuel0 ≤ fuel → verifyFixed val h unsig word engine fuel t a b = .report r) ∧
      TellsBest (· ∈ t.allRules) val I F (["post*", "pre*", "dual*"].getD (engine - 1) "") unsig word r := by
  have hle : t.core.nLabels ≤ epsilon := Nat.le_of_lt hl
  have hR : FixRuns t.core val (a.paired val) (b.paired val) = NRuns (· ∈ t.allRules) val I F :=
    (fixRuns_paired val).trans (connect_named hw hn hI hF val)
  have fa := ua.fixAut val h0 ha
  have fb := ub.fixAut val h0 hb
  have hB : BoundedBelow (FixRuns t.core val (a.paired val) (b.paired val)) := hR ▸ hok.bounded
  obtain rfl | rfl | rfl : engine = 1 ∨ engine = 2 ∨ engine = 3 := by omega
  · have hU := hok.initial.resolve_left (by decide)
    rw [← keys_paired val a] at hU
    obtain ⟨f1, i, ans, k1, k2⟩ := c71_post val h hw hl fa fb (ua.untraced_paired val) hU hok.top hB
    obtain ⟨f2, i', ans', k3, k4, _⟩ := c63_post_bounded val h hw hle fa fb hU
    have := k1 _ (Nat.le_max_left f1 f2)
    rw [k3 _ (Nat.le_max_right f1 f2), Option.some.injEq, Prod.mk.injEq] at this
    obtain ⟨rfl, rfl⟩ := this
    have hs : i'.initial.n ≤ sizeMax := hfit.initial f1 i' ans' false (by unfold fixSearch; simp only [k1 f1 (Nat.le_refl _)]; rfl)
    obtain ⟨f3, o, k5, k6⟩ := fixReport_tells hw hn hI hF 1 unsig word k4 (k2 hs unsig)
    refine ⟨max f1 f3, o, fun fuel hf => ?_, k6⟩
    unfold verifyFixed
    simp only [k1 fuel (by omega), k5 fuel (by omega)]
  · obtain ⟨hU, hk⟩ := hok.final.resolve_left (by decide)
    rw [← keys_paired val b] at hU
    obtain ⟨f1, i, ans, k1, k2⟩ := c71_pre_partial val h hw hk hle fa fb (ub.untraced_paired val) hfit.final hU hok.top hB
    obtain ⟨f2, i', ans', k3, k4, _⟩ := c63_pre_bounded_partial val h hw hk hle fa fb hU
    have := k1 _ (Nat.le_max_left f1 f2)
    rw [k3 _ (Nat.le_max_right f1 f2), Option.some.injEq, Prod.mk.injEq] at this
    obtain ⟨rfl, rfl⟩ := this
    obtain ⟨f3, o, k5, k6⟩ := fixReport_tells hw hn hI hF 2 unsig word k4 (k2 unsig)
    refine ⟨max f1 f3, o, fun fuel hf => ?_, k6⟩
    unfold verifyFixed
    simp only [k1 fuel (by omega), k5 fuel (by omega)]
  · have hUa := hok.initial.resolve_left (by decide)
    obtain ⟨hUb, hk⟩ := hok.final.resolve_left (by decide)
    rw [← keys_paired val a] at hUa
    rw [← keys_paired val b] at hUb
    obtain ⟨f1, i, ans, byPre, k1, k2⟩ := c71_interleaving_partial val h hw hk hl fa fb (ua.untraced_paired val) (ub.untraced_paired val)
      hfit.final hUa hUb hok.top hB
    obtain ⟨f2, i', ans', byPre', k3, k4, _⟩ := c63_interleaving_bounded_partial val h hw hk hle fa fb hUa hUb
    have := k1 _ (Nat.le_max_left f1 f2)
    rw [k3 _ (Nat.le_max_right f1 f2), Option.some.injEq, Prod.mk.injEq, Prod.mk.injEq] at this
    obtain ⟨⟨rfl, rfl⟩, rfl⟩ := this
    have hs : i'.initial.n ≤ sizeMax := hfit.initial f1 i' ans' byPre' (k1 f1 (Nat.le_refl _))
    obtain ⟨f3, o, k5, k6⟩ := fixReport_tells hw hn hI hF 3 unsig word k4 (k2 hs unsig)
    refine ⟨max f1 f3, o, fun fuel hf => ?_, k6⟩
    unfold verifyFixed
    simp only [k1 fuel (by omega), k5 fuel (by omega)]

omit [IsOrderedAddMonoid T] in
theorem fixSearch_more {val : W → T} {h : HashOrder} {engine fuel fuel' : Nat} (hf : fuel ≤ fuel') {p : Pda W}
    {r : (Instance (Trace × T) × Bool) × Bool} (hr : fixSearch val h engine fuel p a b = some r) :
    fixSearch val h engine fuel' p a b = some r := by
  unfold fixSearch at hr ⊢
  split at hr
  · obtain ⟨x, h1, h2⟩ := Option.map_eq_some_iff.1 hr
    refine Option.map_eq_some_iff.2 ⟨x, ?_, h2⟩
    unfold Instance.postStarFixedPointAccepts at h1 ⊢
    obtain ⟨y, h3, h4⟩ := Option.bind_eq_some_iff.1 h1
    exact Option.bind_eq_some_iff.2 ⟨y, fixRun_more hf h3, h4⟩
  · obtain ⟨x, h1, h2⟩ := Option.map_eq_some_iff.1 hr
    refine Option.map_eq_some_iff.2 ⟨x, ?_, h2⟩
    unfold Instance.preStarFixedPointAccepts at h1 ⊢
    obtain ⟨y, h3, h4⟩ := Option.bind_eq_some_iff.1 h1
    exact Option.bind_eq_some_iff.2 ⟨y, fixRun_more hf h3, h4⟩
  · unfold Instance.interleavingFixedPointAccepts at hr ⊢
    obtain ⟨y, h3, h4⟩ := Option.bind_eq_some_iff.1 hr
    refine Option.bind_eq_some_iff.2 ⟨y, Reducer.whileSome_mono hf h3, ?_⟩
    split at h4
    · rename_i hd
      rw [if_pos hd]
      obtain ⟨x, h1, h2⟩ := Option.map_eq_some_iff.1 h4
      refine Option.map_eq_some_iff.2 ⟨x, ?_, h2⟩
      obtain ⟨z, h5, h6⟩ := Option.bind_eq_some_iff.1 h1
      exact Option.bind_eq_some_iff.2 ⟨z, Reducer.whileSome_mono hf h5, h6⟩
    · rename_i hd
      rw [if_neg hd]
      obtain ⟨x, h1, h2⟩ := Option.map_eq_some_iff.1 h4
      refine Option.map_eq_some_iff.2 ⟨x, ?_, h2⟩
      obtain ⟨z, h5, h6⟩ := Option.bind_eq_some_iff.1 h1
      exact Option.bind_eq_some_iff.2 ⟨z, Reducer.whileSome_mono hf h5, h6⟩

/-- If the runs have no best weight, the text is reported, without a trace. This is for searches whose saturated automaton has no
transition of weight `bottom()`. -/
theorem verifyFixed_unbounded (val : W → T) (h0 : val 0 = 0) (hT : Bottomed T) (h : HashOrder) (hw : t.core.WF) (hn : t.labels.Nodup)
    (hl : t.labels.length ≤ epsilon) (ha : PAut t.core a) (hb : PAut t.core b) (ua : Blank a) (ub : Blank b) (hI : Meets t a I)
    (hF : Meets t b F) (engine : Nat) (he : 1 ≤ engine ∧ engine ≤ 3) (hk : engine = 1 ∨ t.core.LookupOK) (hv : BelowTop t.core val)
    {fuel : Nat} {i : Instance (Trace × T)} {ans byPre : Bool} (hs : fixSearch val h engine fuel t.core a b = some ((i, ans), byPre))
    (hnb : AutNoBottom (if byPre then i.final else i.initial)) (word : String)
    (hne : (NRuns (· ∈ t.allRules) val I F).Nonempty) (hun : ∀ x, ¬ IsLeast (NRuns (· ∈ t.allRules) val I F) x) :
    ∃ fuel0, ∀ fuel, fuel0 ≤ fuel → verifyFixed val h false word engine fuel t a b = .report
      { engine := ["post*", "pre*", "dual*"].getD (engine - 1) "", result := true, weight := some (.text word), trace := [] } := by
  have hR : FixRuns t.core val (a.paired val) (b.paired val) = NRuns (· ∈ t.allRules) val I F :=
    (fixRuns_paired val).trans (connect_named hw hn hI hF val)
  have fa := ua.fixAut val h0 ha
  have fb := ub.fixAut val h0 hb
  have fin : ∀ {A B : Aut (Trace × T)}, FindsAny h t.core (FixRuns t.core val (a.paired val) (b.paired val)) A B i.prod →
      ∃ fuel0, ∀ fuel, fuel0 ≤ fuel → ∀ e swap, fixReport t e false word (some (i, true))
        (fun i => i.getTraceFixedPoint h t.core false swap fuel) =
        .report { engine := engineName e, result := true, weight := some (.text word), trace := [] } := by
    rintro A B ⟨f1, P, w, k1, k2⟩
    rw [hR] at k2
    rcases k2 with ⟨k2, _⟩ | ⟨k2, _⟩ | ⟨rfl, _⟩
    · rw [k2] at hne
      exact absurd hne Set.not_nonempty_empty
    · exact absurd k2 (hun w)
    · refine ⟨f1, fun fuel hf e swap => ?_⟩
      have : i.getTraceFixedPoint h t.core false swap fuel = some ([], ⊥) := by
        unfold Instance.getTraceFixedPoint
        rw [k1 fuel hf, Option.bind_some, if_neg (by simp)]
      unfold fixReport
      simp only [this, and_self, if_true]
      rfl
  have fuels := fun {fuel'} hf => fixSearch_more (fuel' := fuel') hf hs
  obtain rfl | rfl | rfl : engine = 1 ∨ engine = 2 ∨ engine = 3 := by omega
  · obtain ⟨x, h1, h2⟩ := Option.map_eq_some_iff.1 hs
    cases h2
    have key := post_observed_end val h hw hl fa fb fuel i ans h1 hnb
    obtain rfl : ans = true := key.1.2 (hR ▸ hne)
    obtain ⟨f1, k1⟩ := fin (key.2.1 hv hT)
    refine ⟨max fuel f1, fun fuel' hf => ?_⟩
    obtain ⟨x, h3, h4⟩ := Option.map_eq_some_iff.1 (fuels (fuel' := fuel') (by omega))
    cases h4
    unfold verifyFixed
    simp only [h3]
    exact k1 fuel' (by omega) 1 false
  · obtain ⟨x, h1, h2⟩ := Option.map_eq_some_iff.1 hs
    cases h2
    have key := pre_observed_end val h hw (hk.resolve_left (by decide)) hl fa fb fuel i ans h1 hnb
    obtain rfl : ans = true := key.1.2 (hR ▸ hne)
    obtain ⟨f1, k1⟩ := fin (key.2.1 hv hT)
    refine ⟨max fuel f1, fun fuel' hf => ?_⟩
    obtain ⟨x, h3, h4⟩ := Option.map_eq_some_iff.1 (fuels (fuel' := fuel') (by omega))
    cases h4
    unfold verifyFixed
    simp only [h3]
    exact k1 fuel' (by omega) 2 true
  · have key := interleaving_observed_end val h hw (hk.resolve_left (by decide)) hl fa fb fuel i ans byPre hs hnb
    obtain rfl : ans = true := key.1.2 (hR ▸ hne)
    have k0 : ∃ A B, FindsAny h t.core (FixRuns t.core val (a.paired val) (b.paired val)) A B i.prod := by
      have := key.2.1 hv hT
      split at this
      · exact ⟨_, _, this.2⟩
      · exact ⟨_, _, this.2⟩
    obtain ⟨A, B, k0⟩ := k0
    obtain ⟨f1, k1⟩ := fin k0
    refine ⟨max fuel f1, fun fuel' hf => ?_⟩
    have h3 := fuels (fuel' := fuel') (by omega)
    unfold fixSearch at h3
    unfold verifyFixed
    simp only at h3 ⊢
    rw [h3]
    exact k1 fuel' (by omega) 3 byPre

end

end Verif.Props
