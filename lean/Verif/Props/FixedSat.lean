import Verif.Proofs.FixedPostFinal
import Verif.Proofs.FixedLeast
import Verif.Props.PdaBuild
import Mathlib.Algebra.Order.Monoid.OrderDual
import Mathlib.Algebra.Order.Monoid.WithTop
import Mathlib.Algebra.Order.Monoid.Unbundled.WithTop
import Mathlib.Algebra.Order.Ring.Int

/-!
# C47: fixed-point saturation computes the best weights

The weights are a linearly ordered commutative monoid with a least element (`bottom()`); `val` reads a rule weight in
it. With the usual order "best" is smallest (`Trace_Type::Shortest`), with the reversed order it is greatest
(`Trace_Type::Longest`).
-/

namespace Verif.Props

variable {W T : Type} [LinearOrder W] [Zero W] [LinearOrder T] [AddCommMonoid T] [IsOrderedAddMonoid T] [OrderBot T]

/-- The transitions of the automaton in a saturation, with their weights. -/
def fixWeights {X : Type} (s : FixSt T X) : Tr → T → Prop := fun t x => ∃ tr1 tr2, s.aut.getEdge t = some (tr1, tr2, x)

omit [LinearOrder T] [AddCommMonoid T] [IsOrderedAddMonoid T] [OrderBot T] in
theorem fixWeights_iff {X : Type} (s : FixSt T X) : fixWeights s = fun t x => s.wt t = some x := by
  funext t x
  unfold fixWeights FixSt.wt
  apply propext
  constructor
  · rintro ⟨tr1, tr2, h⟩; rw [h]; rfl
  · intro h
    rw [Option.map_eq_some_iff] at h
    obtain ⟨⟨tr1, tr2, y⟩, h1, rfl⟩ := h
    exact ⟨tr1, tr2, h1⟩

omit [LinearOrder T] [AddCommMonoid T] [IsOrderedAddMonoid T] [OrderBot T] in
theorem fixWeights_list {X : Type} (s : FixSt T X) : ∀ t x, fixWeights s t x → (t, x) ∈ s.aut.edges.map fun e => (e.1, e.2.2.2) := by
  rintro t x ⟨tr1, tr2, h⟩
  unfold Aut.getEdge at h
  rw [Option.map_eq_some_iff] at h
  obtain ⟨e, h1, h2⟩ := h
  have h3 := List.find?_some h1
  simp only [beq_iff_eq] at h3
  exact List.mem_map.2 ⟨e, List.mem_of_find?_eq_some h1, by rw [h3, h2]⟩

/-- The input of a fixed-point saturation: in range, no transition twice, no transition into a control state, and
every weight zero. -/
structure FixAut (p : Pda W) (a : Aut (Trace × T)) : Prop extends FAutOK p a where
  noInto : ∀ t ∈ keys a.edges, p.size ≤ t.dst

omit [LinearOrder W] [Zero W] [LinearOrder T] [IsOrderedAddMonoid T] [OrderBot T] in
/-- Non-vacuity: the automaton for one configuration is such an input. -/
theorem fixAut_example (p : Pda W) (hp : p.nLabels = 2) (hq : p.size = 2) :
    FixAut p ({ acc := [false, false, false, true], edges := [(⟨0, 0, 2⟩, {}, {}, 0), (⟨2, 1, 3⟩, {}, {}, 0)] } : Aut (Trace × T)) := by
  refine ⟨⟨by rw [hq]; simp [Aut.n], ?_, by simp [keys], by simp⟩, ?_⟩
  · intro t ht
    simp only [keys, List.map_cons, List.map_nil, List.mem_cons, List.not_mem_nil, or_false] at ht
    rcases ht with rfl | rfl <;> simp [Valid, Aut.n, hp]
  · intro t ht
    simp only [keys, List.map_cons, List.map_nil, List.mem_cons, List.not_mem_nil, or_false] at ht
    rcases ht with rfl | rfl <;> simp [hq]

/-! ## pre* -/

omit [IsOrderedAddMonoid T] in
/-- C47: the fixed-point pre* always ends. -/
theorem c47_pre_terminates (val : W → T) (h : HashOrder) {p : Pda W} (hp : p.WF) {a : Aut (Trace × T)} (ha : FixAut p a) :
    ∃ fuel r, preStarFixedPoint val h p a fuel = some r := fpre_terminates val hp ha.toFAutOK h

omit [IsOrderedAddMonoid T] in
theorem fpre_phase (val : W → T) (h : HashOrder) {p : Pda W} (hp : p.WF) {a : Aut (Trace × T)} (ha : FAutOK p a)
    {fuel : Nat} {s : FPre T} (hs : fixLoop (fpreStepWith val p) false fuel (fpreInit val h p a) = some s) :
    FPreL p val a s := by
  refine (whileSome_inv (I := FPreL p val a) ?_ (fpreInit_inv h hp ha).1 hs).1
  intro s s' hs hst
  split at hst
  · cases hst
  · rename_i hd
    cases hst
    exact hs.step hp ha (by simpa using hd)

omit [LinearOrder W] in
theorem Has_lt [LinearOrder W] {p : Pda W} (hp : p.WF) (r : URule W) (hr : p.Has r) : r.src < p.size ∧ r.dst < p.size := by
  rw [Pda.Has_iff] at hr
  obtain ⟨l, hm, _⟩ := hr
  obtain ⟨id, hid⟩ := List.mem_iff_getElem?.1 hm
  exact ⟨Pda.lt_size_of_rule hid, hp.toLt _ _ hm⟩

omit [IsOrderedAddMonoid T] [OrderBot T] in
theorem fpreL_sound {val : W → T} {p : Pda W} (hp : p.WF) {a : Aut (Trace × T)} (ha : FixAut p a) {s : FPre T}
    (hi : FPreL p val a s) (q : Nat) (w : List Nat) (hq : q < p.size) :
    ∀ x ∈ PathWeights (fixWeights s) (fun q => s.aut.isAcc q = true) (q, w),
      x ∈ RunWeightsTo p.Has val (· ∈ keys a.edges) (fun q => a.isAcc q = true) (q, w) := by
  rintro x ⟨f, hpath, hF⟩
  rw [fixWeights_iff] at hpath
  have hF' : a.isAcc f = true := by unfold Aut.isAcc at hF ⊢; rwa [hi.acc] at hF
  have := fpre_sound (F := fun q => a.isAcc q = true) (fun r hr => Has_lt hp r hr) ha.noInto hi.sound hpath hF'
  unfold FPreSem at this
  rwa [if_pos hq] at this

omit [OrderBot T] in
theorem fpreL_complete {val : W → T} {p : Pda W} (hp : p.WF) (hk : p.LookupOK) {a : Aut (Trace × T)} {s : FPre T}
    (hi : FPreL p val a s) (h1 : s.workset = []) (h2 : s.next = []) (c : Config) :
    ∀ x ∈ RunWeightsTo p.Has val (· ∈ keys a.edges) (fun q => a.isAcc q = true) c,
      ∃ y ∈ PathWeights (fixWeights s) (fun q => s.aut.isAcc q = true) c, y ≤ x := by
  rintro x ⟨c', hrun, f, hpath, hF⟩
  have hcl := hi.closed hp hk h1 h2
  rw [fixWeights_iff]
  have hF' : s.aut.isAcc f = true := by unfold Aut.isAcc at hF ⊢; rwa [hi.acc]
  have key : ∀ {q w f}, Path (· ∈ keys a.edges) q w f → ∃ y, CostPath (fun t x => s.wt t = some x) q w y f ∧ y ≤ 0 := by
    intro q w f hp
    induction hp with
    | nil q => exact ⟨0, .nil q, le_refl 0⟩
    | cons he _ ih =>
      obtain ⟨y, hy, hle⟩ := ih
      obtain ⟨z, hz, hle'⟩ := hi.init _ he
      exact ⟨z + y, .cons hz hy, add_nonpos hle' hle⟩
  obtain ⟨y, hy, hle⟩ := key hpath
  obtain ⟨z, hz, hzle⟩ := hcl.run hrun (b := 0) ⟨y, ⟨f, hy, hF'⟩, hle⟩
  exact ⟨z, hz, by rwa [add_zero] at hzle⟩

omit [IsOrderedAddMonoid T] in
/-- C47, one half: however the first phase stopped, the weight of every accepting path is the weight of a run to the
input language, and nothing undefined has happened. -/
theorem c47_pre_sound (val : W → T) (h : HashOrder) {p : Pda W} (hp : p.WF) {a : Aut (Trace × T)} (ha : FixAut p a)
    (fuel : Nat) (s : FPre T) (hs : fixLoop (fpreStepWith val p) false fuel (fpreInit val h p a) = some s)
    (q : Nat) (w : List Nat) (hq : q < p.size) :
    s.undef = false ∧ ∀ x ∈ PathWeights (fixWeights s) (fun q => s.aut.isAcc q = true) (q, w),
      x ∈ RunWeightsTo p.Has val (· ∈ keys a.edges) (fun q => a.isAcc q = true) (q, w) := by
  have hi := fpre_phase val h hp ha.toFAutOK hs
  exact ⟨hi.undef, fpreL_sound hp ha hi q w hq⟩

/-- C47, the other half: if the first phase stopped because nothing changed, then every run to the input language
has an accepting path that is at least as good. -/
theorem c47_pre_complete (val : W → T) (h : HashOrder) {p : Pda W} (hp : p.WF) (hk : p.LookupOK) {a : Aut (Trace × T)}
    (ha : FixAut p a) (fuel : Nat) (s : FPre T)
    (hs : fixLoop (fpreStepWith val p) false fuel (fpreInit val h p a) = some s) (hd : s.done = true) (c : Config) :
    ∀ x ∈ RunWeightsTo p.Has val (· ∈ keys a.edges) (fun q => a.isAcc q = true) c,
      ∃ y ∈ PathWeights (fixWeights s) (fun q => s.aut.isAcc q = true) c, y ≤ x := by
  have hi := fpre_phase val h hp ha.toFAutOK hs
  obtain ⟨h1, h2⟩ := hi.fin hd
  exact fpreL_complete hp hk hi h1 h2 c

omit [AddCommMonoid T] [IsOrderedAddMonoid T] [OrderBot T] in
/-- Two sets have the same least element if one is contained in the other and has something below every element. -/
theorem isLeast_iff_of_below {S R : Set T} (h1 : ∀ x ∈ S, x ∈ R) (h2 : ∀ x ∈ R, ∃ y ∈ S, y ≤ x) (m : T) :
    IsLeast S m ↔ IsLeast R m := by
  constructor
  · rintro ⟨hm, hl⟩
    refine ⟨h1 m hm, fun x hx => ?_⟩
    obtain ⟨y, hy, hle⟩ := h2 x hx
    exact le_trans (hl hy) hle
  · rintro ⟨hm, hl⟩
    obtain ⟨y, hy, hle⟩ := h2 m hm
    have : y = m := le_antisymm hle (hl (h1 y hy))
    exact ⟨this ▸ hy, fun x hx => hl (h1 x hx)⟩

/-- C47 for pre*, with the proviso that the pre* rule lookup meets every rule (see C24): if the first phase stopped
because nothing changed, then `run()` returns with the same automaton, and for every configuration the best weight of
an accepting path is the best weight over all runs to the input language; there is one whenever there is a run. -/
theorem c47_pre_minimum_partial (val : W → T) (h : HashOrder) {p : Pda W} (hp : p.WF) (hk : p.LookupOK)
    {a : Aut (Trace × T)} (ha : FixAut p a) (fuel : Nat) (s : FPre T)
    (hs : fixLoop (fpreStepWith val p) false fuel (fpreInit val h p a) = some s) (hd : s.done = true) :
    ∃ r, preStarFixedPoint val h p a fuel = some r ∧ r.undef = false ∧
      ∀ (q : Nat) (w : List Nat), q < p.size →
        (∀ m, IsLeast (PathWeights (fixWeights r) (fun q => r.aut.isAcc q = true) (q, w)) m ↔
          IsLeast (RunWeightsTo p.Has val (· ∈ keys a.edges) (fun q => a.isAcc q = true) (q, w)) m) ∧
        ((∃ x, x ∈ RunWeightsTo p.Has val (· ∈ keys a.edges) (fun q => a.isAcc q = true) (q, w)) →
          ∃ m, IsLeast (PathWeights (fixWeights r) (fun q => r.aut.isAcc q = true) (q, w)) m) := by
  refine ⟨_, fixRun_of_done _ hs hd, (fpre_phase val h hp ha.toFAutOK hs).undef, fun q w hq => ⟨?_, ?_⟩⟩
  · exact isLeast_iff_of_below (c47_pre_sound val h hp ha fuel s hs q w hq).2
      (c47_pre_complete val h hp hk ha fuel s hs hd (q, w))
  · rintro ⟨x, hx⟩
    obtain ⟨y, hy, _⟩ := c47_pre_complete val h hp hk ha fuel s hs hd (q, w) x hx
    obtain ⟨l, hl⟩ := costPath_list _ (fixWeights_list s) w q
    exact exists_isLeast_of_list _ l (fun x ⟨f, hf, _⟩ => hl x f hf) ⟨y, hy⟩

/-- C47 for pre* with `Trace_Type::Longest`: the same with the greatest weight. The saturation runs with the reversed
order, so its `bottom()` is the greatest element. -/
theorem c47_pre_maximum_partial [OrderTop T] (val : W → T) (h : HashOrder) {p : Pda W} (hp : p.WF) (hk : p.LookupOK)
    {a : Aut (Trace × Tᵒᵈ)} (ha : FixAut p a) (fuel : Nat) (s : FPre Tᵒᵈ)
    (hs : fixLoop (fpreStepWith (T := Tᵒᵈ) val p) false fuel (fpreInit (T := Tᵒᵈ) val h p a) = some s) (hd : s.done = true) :
    ∃ r, preStarFixedPoint (T := Tᵒᵈ) val h p a fuel = some r ∧ r.undef = false ∧
      ∀ (q : Nat) (w : List Nat), q < p.size →
        (∀ m, IsGreatest (PathWeights (T := T) (fixWeights r) (fun q => r.aut.isAcc q = true) (q, w)) m ↔
          IsGreatest (RunWeightsTo (T := T) p.Has val (· ∈ keys a.edges) (fun q => a.isAcc q = true) (q, w)) m) ∧
        ((∃ x, x ∈ RunWeightsTo (T := T) p.Has val (· ∈ keys a.edges) (fun q => a.isAcc q = true) (q, w)) →
          ∃ m, IsGreatest (PathWeights (T := T) (fixWeights r) (fun q => r.aut.isAcc q = true) (q, w)) m) :=
  c47_pre_minimum_partial (T := Tᵒᵈ) val h hp hk ha fuel s hs hd

/-- Integers with a greatest and a least element. -/
abbrev ExWeight := WithTop (WithBot ℤ)

def exVal : ℤ → ExWeight := fun x => ((x : WithBot ℤ) : ExWeight)

def fixCalls : List (PdaCall ℤ) :=
  [.rule 0 ⟨1, .push, 3, 1⟩ false [0], .rule 1 ⟨0, .swap, -1, 0⟩ false [1], .rule 0 ⟨1, .pop, 2, 0⟩ false [0],
    .rule 1 ⟨0, .noop, 0, 0⟩ true []]

def fixInput : Aut (Trace × ExWeight) :=
  { acc := [false, false, false, true], edges := [(⟨0, 0, 2⟩, {}, {}, 0), (⟨2, 1, 3⟩, {}, {}, 0)] }

/-- Non-vacuity of C47 for pre*: a PDA with all four operations and a rule of negative weight, on which the first
phase stops because nothing changes. -/
example : (Pda.build 2 fixCalls).WF ∧ (Pda.build 2 fixCalls).LookupOK ∧ FixAut (Pda.build 2 fixCalls) fixInput ∧
    (fixLoop (fpreStepWith exVal (Pda.build 2 fixCalls)) false 100
      (fpreInit exVal HashOrder.id (Pda.build 2 fixCalls) fixInput)).map (·.done) = some true := by
  have hOK : ∀ c ∈ fixCalls, c.OK 2 := by simp [fixCalls, PdaCall.OK, WSorted]
  refine ⟨Pda.WF_build 2 _ hOK, lookupOK_build 2 _ hOK ?_, fixAut_example _ (by decide +kernel) (by decide +kernel),
    by decide +kernel⟩
  intro src r wc pre hm h1 h2
  simp only [fixCalls, List.mem_cons, List.not_mem_nil, or_false, PdaCall.rule.injEq] at hm
  rcases hm with ⟨_, rfl, _⟩ | ⟨_, rfl, _⟩ | ⟨_, rfl, _⟩ | ⟨_, rfl, _⟩ <;> simp_all

/-! ## post* -/

omit [Zero W] [IsOrderedAddMonoid T] in
/-- C47: the fixed-point post* always ends. -/
theorem c47_post_terminates (val : W → T) (h : HashOrder) {p : Pda W} (hp : p.WF) (hl : p.nLabels ≤ epsilon)
    {a : Aut (Trace × T)} (ha : FixAut p a) : ∃ fuel r, postStarFixedPoint val h p a fuel = some r :=
  fpost_terminates h val (postCtx hp hl ha.toFAutOK ha.noInto)

omit [Zero W] [IsOrderedAddMonoid T] in
theorem fpost_phase (val : W → T) (h : HashOrder) {p : Pda W} {a : Aut (Trace × T)}
    (hc : PostCtx p a (fpostQ p a) (fpostN p a))
    {fuel : Nat} {s : FPost T} (hs : fixLoop (fpostStepWith val p) false fuel (fpostInit h p a) = some s) :
    FPostL p val a (fpostQ p a) (fpostN p a) s := by
  refine (whileSome_inv (I := FPostL p val a (fpostQ p a) (fpostN p a)) ?_ (fpostInit_inv h hc).1 hs).1
  intro s s' hs hst
  split at hst
  · cases hst
  · rename_i hd
    cases hst
    exact hs.step hc (by simpa using hd)

omit [Zero W] [IsOrderedAddMonoid T] [OrderBot T] in
theorem fpostL_sound {val : W → T} {p : Pda W} {a : Aut (Trace × T)} (ha : FixAut p a)
    (hc : PostCtx p a (fpostQ p a) (fpostN p a)) {s : FPost T} (hi : FPostL p val a (fpostQ p a) (fpostN p a) s)
    (q : Nat) (w : List Nat) (hq : q < p.size) :
    ∀ x ∈ EPathWeights (fixWeights s) (fun q => s.aut.isAcc q = true) (q, w),
      x ∈ RunWeightsFrom p.Has val p.size (· ∈ keys a.edges) (fun q => a.isAcc q = true) (q, w) := by
  rintro x ⟨f, hpath, hF⟩
  rw [fixWeights_iff] at hpath
  rw [hi.acc] at hF
  have := fpost_sound (F := fun q => a.isAcc q = true) ha.size_le hc.pushOK (fun t ht => by
      have hv := ha.valid t ht
      exact ⟨hv.1, hv.2.2, ha.noInto t ht, by have := hv.2.1; have := hc.lab; omega⟩)
    (fun f hf => by
      show f < a.acc.length
      by_contra hn
      unfold Aut.isAcc at hf
      rw [List.getElem?_eq_none (by omega)] at hf
      cases hf) hi.sound hpath hF
  unfold FPostSem at this
  rwa [if_pos hq] at this

omit [Zero W] [OrderBot T] in
theorem fpostL_complete {val : W → T} {p : Pda W} {a : Aut (Trace × T)} (ha : FixAut p a)
    (hc : PostCtx p a (fpostQ p a) (fpostN p a)) {s : FPost T} (hi : FPostL p val a (fpostQ p a) (fpostN p a) s)
    (h1 : s.workset = []) (h2 : s.next = []) (c : Config) :
    ∀ x ∈ RunWeightsFrom p.Has val p.size (· ∈ keys a.edges) (fun q => a.isAcc q = true) c,
      ∃ y ∈ EPathWeights (fixWeights s) (fun q => s.aut.isAcc q = true) c, y ≤ x := by
  rintro x ⟨c', _, ⟨f, hpath, hF⟩, hrun⟩
  have hcl := hi.closed hc h1 h2
  rw [fixWeights_iff]
  rw [← hi.acc] at hF
  have key : ∀ {q w f}, Path (· ∈ keys a.edges) q w f → ∃ y, CostEPath (fun t x => s.wt t = some x) q w y f ∧ y ≤ 0 := by
    intro q w f hp
    induction hp with
    | nil q => exact ⟨0, .nil q, le_refl 0⟩
    | cons he _ ih =>
      obtain ⟨y, hy, hle⟩ := ih
      obtain ⟨z, hz, hle'⟩ := hi.init _ he
      have := (ha.valid _ he).2.1
      have hl := hc.lab
      dsimp only at this
      exact ⟨z + y, .cons (by omega) hz hy, add_nonpos hle' hle⟩
  obtain ⟨y, hy, hle⟩ := key hpath
  obtain ⟨z, hz, hzle⟩ := hcl.run (F := fun q => s.aut.isAcc q = true) hrun (b := 0) ⟨y, ⟨f, hy, hF⟩, hle⟩
  exact ⟨z, hz, by rwa [zero_add] at hzle⟩

omit [Zero W] [IsOrderedAddMonoid T] in
/-- C47 for post*, one half: however the first phase stopped, the weight of every accepting path is the weight of a
run from the input language, and nothing undefined has happened. -/
theorem c47_post_sound (val : W → T) (h : HashOrder) {p : Pda W} (hp : p.WF) (hl : p.nLabels ≤ epsilon)
    {a : Aut (Trace × T)} (ha : FixAut p a) (fuel : Nat) (s : FPost T)
    (hs : fixLoop (fpostStepWith val p) false fuel (fpostInit h p a) = some s)
    (q : Nat) (w : List Nat) (hq : q < p.size) :
    s.undef = false ∧ ∀ x ∈ EPathWeights (fixWeights s) (fun q => s.aut.isAcc q = true) (q, w),
      x ∈ RunWeightsFrom p.Has val p.size (· ∈ keys a.edges) (fun q => a.isAcc q = true) (q, w) := by
  have hc := postCtx hp hl ha.toFAutOK ha.noInto
  have hi := fpost_phase val h hc hs
  exact ⟨hi.undef, fpostL_sound ha hc hi q w hq⟩

omit [Zero W] in
/-- C47 for post*, the other half: if the first phase stopped because nothing changed, then every run from the input
language has an accepting path that is at least as good. -/
theorem c47_post_complete (val : W → T) (h : HashOrder) {p : Pda W} (hp : p.WF) (hl : p.nLabels ≤ epsilon)
    {a : Aut (Trace × T)} (ha : FixAut p a) (fuel : Nat) (s : FPost T)
    (hs : fixLoop (fpostStepWith val p) false fuel (fpostInit h p a) = some s) (hd : s.done = true) (c : Config) :
    ∀ x ∈ RunWeightsFrom p.Has val p.size (· ∈ keys a.edges) (fun q => a.isAcc q = true) c,
      ∃ y ∈ EPathWeights (fixWeights s) (fun q => s.aut.isAcc q = true) c, y ≤ x := by
  have hc := postCtx hp hl ha.toFAutOK ha.noInto
  have hi := fpost_phase val h hc hs
  obtain ⟨h1, h2⟩ := hi.fin hd
  exact fpostL_complete ha hc hi h1 h2 c

omit [Zero W] in
/-- C47 for post*: if the first phase stopped because nothing changed, then `run()` returns with the same automaton,
and for every configuration the best weight of an accepting path, in which epsilon transitions read nothing, is the
best weight over all runs from the input language; there is one whenever there is a run. -/
theorem c47_post_minimum (val : W → T) (h : HashOrder) {p : Pda W} (hp : p.WF) (hl : p.nLabels ≤ epsilon)
    {a : Aut (Trace × T)} (ha : FixAut p a) (fuel : Nat) (s : FPost T)
    (hs : fixLoop (fpostStepWith val p) false fuel (fpostInit h p a) = some s) (hd : s.done = true) :
    ∃ r, postStarFixedPoint val h p a fuel = some r ∧ r.undef = false ∧
      ∀ (q : Nat) (w : List Nat), q < p.size →
        (∀ m, IsLeast (EPathWeights (fixWeights r) (fun q => r.aut.isAcc q = true) (q, w)) m ↔
          IsLeast (RunWeightsFrom p.Has val p.size (· ∈ keys a.edges) (fun q => a.isAcc q = true) (q, w)) m) ∧
        ((∃ x, x ∈ RunWeightsFrom p.Has val p.size (· ∈ keys a.edges) (fun q => a.isAcc q = true) (q, w)) →
          ∃ m, IsLeast (EPathWeights (fixWeights r) (fun q => r.aut.isAcc q = true) (q, w)) m) := by
  have hc := postCtx hp hl ha.toFAutOK ha.noInto
  have hi := fpost_phase val h hc hs
  obtain ⟨h1, h2⟩ := hi.fin hd
  have hcl := hi.closed hc h1 h2
  refine ⟨_, fixRun_of_done _ hs hd, hi.undef, fun q w hq => ⟨?_, ?_⟩⟩
  · exact isLeast_iff_of_below (c47_post_sound val h hp hl ha fuel s hs q w hq).2
      (c47_post_complete val h hp hl ha fuel s hs hd (q, w))
  · rintro ⟨x, hx⟩
    obtain ⟨y, hy, _⟩ := c47_post_complete val h hp hl ha fuel s hs hd (q, w) x hx
    obtain ⟨l, hl⟩ := costEPath_list _ (fixWeights_list s) (fun f m q x y hx hy => by
      rw [fixWeights_iff] at hx hy
      have h3 := hcl.into _ _ hx
      have h4 := hcl.eps _ _ hy rfl
      dsimp only at h3 h4
      omega) w q
    exact exists_isLeast_of_list _ l (fun x ⟨f, hf, _⟩ => hl x f hf) ⟨y, hy⟩

omit [Zero W] in
/-- C47 for post* and a nonempty stack, with paths that spell the stack label by label, as `accept_path` reads them. -/
theorem c47_post_minimum_literal (val : W → T) (h : HashOrder) {p : Pda W} (hp : p.WF) (hl : p.nLabels ≤ epsilon)
    {a : Aut (Trace × T)} (ha : FixAut p a) (fuel : Nat) (s : FPost T)
    (hs : fixLoop (fpostStepWith val p) false fuel (fpostInit h p a) = some s) (hd : s.done = true) :
    ∃ r, postStarFixedPoint val h p a fuel = some r ∧
      ∀ (q g : Nat) (w : List Nat), q < p.size → (∀ g' ∈ g :: w, g' < p.nLabels) →
        ∀ m, IsLeast (PathWeights (fixWeights r) (fun q => r.aut.isAcc q = true) (q, g :: w)) m ↔
          IsLeast (RunWeightsFrom p.Has val p.size (· ∈ keys a.edges) (fun q => a.isAcc q = true) (q, g :: w)) m := by
  have hc := postCtx hp hl ha.toFAutOK ha.noInto
  have hi := fpost_phase val h hc hs
  obtain ⟨h1, h2⟩ := hi.fin hd
  have hcl := hi.closed hc h1 h2
  refine ⟨_, fixRun_of_done _ hs hd, fun q g w hq hg m => ?_⟩
  refine isLeast_iff_of_below ?_ ?_ m
  · rintro x ⟨f, hf, hF⟩
    refine (c47_post_sound val h hp hl ha fuel s hs q (g :: w) hq).2 x ⟨f, ?_, hF⟩
    have lift : ∀ {q w x f}, CostPath (fixWeights s) q w x f → (∀ g ∈ w, g < p.nLabels) → CostEPath (fixWeights s) q w x f := by
      intro q w x f hp
      induction hp with
      | nil q => intro _; exact .nil q
      | cons he _ ih =>
        intro hw
        have := hw _ (List.mem_cons_self ..)
        exact .cons (by omega) he (ih fun g hg => hw g (List.mem_cons_of_mem _ hg))
    exact lift hf hg
  · intro x hx
    obtain ⟨y, ⟨f, hf, hF⟩, hle⟩ := c47_post_complete val h hp hl ha fuel s hs hd (q, g :: w) x hx
    rw [fixWeights_iff] at hf
    obtain ⟨q', x1, y1, _, he, hp', hle'⟩ := hcl.first hf
    refine ⟨x1 + y1, ⟨f, ?_, hF⟩, le_trans hle' hle⟩
    show CostPath (fixWeights s) q (g :: w) (x1 + y1) f
    rw [fixWeights_iff]
    exact .cons he (hcl.path hp' (hcl.into _ _ he))

/-- C47 for post* with `Trace_Type::Longest`. -/
theorem c47_post_maximum [OrderTop T] (val : W → T) (h : HashOrder) {p : Pda W} (hp : p.WF) (hl : p.nLabels ≤ epsilon)
    {a : Aut (Trace × Tᵒᵈ)} (ha : FixAut p a) (fuel : Nat) (s : FPost Tᵒᵈ)
    (hs : fixLoop (fpostStepWith (T := Tᵒᵈ) val p) false fuel (fpostInit h p a) = some s) (hd : s.done = true) :
    ∃ r, postStarFixedPoint (T := Tᵒᵈ) val h p a fuel = some r ∧ r.undef = false ∧
      ∀ (q : Nat) (w : List Nat), q < p.size →
        (∀ m, IsGreatest (EPathWeights (T := T) (fixWeights r) (fun q => r.aut.isAcc q = true) (q, w)) m ↔
          IsGreatest (RunWeightsFrom (T := T) p.Has val p.size (· ∈ keys a.edges) (fun q => a.isAcc q = true) (q, w)) m) ∧
        ((∃ x, x ∈ RunWeightsFrom (T := T) p.Has val p.size (· ∈ keys a.edges) (fun q => a.isAcc q = true) (q, w)) →
          ∃ m, IsGreatest (EPathWeights (T := T) (fixWeights r) (fun q => r.aut.isAcc q = true) (q, w)) m) :=
  c47_post_minimum (T := Tᵒᵈ) val h hp hl ha fuel s hs hd

/-- Non-vacuity of C47 for post*: on the same PDA the first phase stops because nothing changes. -/
example : (Pda.build 2 fixCalls).WF ∧ (Pda.build 2 fixCalls).nLabels ≤ epsilon ∧
    FixAut (Pda.build 2 fixCalls) fixInput ∧
    (fixLoop (fpostStepWith exVal (Pda.build 2 fixCalls)) false 100
      (fpostInit HashOrder.id (Pda.build 2 fixCalls) fixInput)).map (·.done) = some true := by
  have hOK : ∀ c ∈ fixCalls, c.OK 2 := by simp [fixCalls, PdaCall.OK, WSorted]
  exact ⟨Pda.WF_build 2 _ hOK, by decide +kernel, fixAut_example _ (by decide +kernel) (by decide +kernel),
    by decide +kernel⟩

/-- C47, a disagreement found: when the round limit is reached while a transition is still queued, as can happen
with a cycle of negative weight, the second phase reads the weight of a transition that does not exist. Here a
rule 2,a → 2,a of weight -1 improves the only transition for ever, and the limit is reached before the transition
for the rule 0,c → 1,b has been added. -/
theorem c47_finalize_undefined :
    let p : Pda ℤ := Pda.build 3 [.rule 2 ⟨2, .noop, -1, 0⟩ false [0], .rule 1 ⟨2, .swap, 0, 0⟩ false [1],
      .rule 0 ⟨1, .swap, 0, 1⟩ false [2]]
    let a : Aut (Trace × ExWeight) := { acc := [false, false, false, true], edges := [(⟨2, 0, 3⟩, {}, {}, 0)] }
    p.LookupOK ∧ FixAut p a ∧ ∃ r, preStarFixedPoint exVal HashOrder.id p a 100 = some r ∧ r.undef = true := by
  intro p a
  have hOK : ∀ c ∈ ([.rule 2 ⟨2, .noop, -1, 0⟩ false [0], .rule 1 ⟨2, .swap, 0, 0⟩ false [1],
      .rule 0 ⟨1, .swap, 0, 1⟩ false [2]] : List (PdaCall ℤ)), c.OK 3 := by simp [PdaCall.OK, WSorted]
  have hsize : p.size = 3 := by decide +kernel
  have hl : p.nLabels = 3 := by decide +kernel
  have hlook : p.LookupOK := by
    refine lookupOK_build 3 _ hOK ?_
    intro src r wc pre hm h1 h2
    simp only [List.mem_cons, List.not_mem_nil, or_false, PdaCall.rule.injEq] at hm
    rcases hm with ⟨_, rfl, _⟩ | ⟨_, rfl, _⟩ | ⟨_, rfl, _⟩ <;> simp_all
  refine ⟨hlook, ⟨⟨by rw [hsize]; decide, ?_, by simp [keys, a], by simp [a]⟩, ?_⟩, ?_⟩
  · intro t ht
    simp only [keys, a, List.map_cons, List.map_nil, List.mem_cons, List.not_mem_nil, or_false] at ht
    subst ht
    simp [Valid, Aut.n, hl, a]
  · intro t ht
    simp only [keys, a, List.map_cons, List.map_nil, List.mem_cons, List.not_mem_nil, or_false] at ht
    subst ht
    simp [hsize]
  · have h : (preStarFixedPoint exVal HashOrder.id p a 100).map (·.undef) = some true := by decide +kernel
    rw [Option.map_eq_some_iff] at h
    exact h

end Verif.Props
