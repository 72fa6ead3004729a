import Verif.Proofs.ShortestPreOne
import Verif.Proofs.ShortestPreTrace
import Verif.Props.ShortestAnswers

/-!
# C57: what shortest pre* gets right

With early termination (`ET`), which `pre_star_accepts` and `dual_search_accepts` use, and without accepting control
states, the saturation computes the least weights; the callback is arbitrary as long as it does not stop the saturation.
`hp` is the priority queue, `h` the order in which hash maps are visited, `junk` what the code reads behind the end of
`_popped`; all are arbitrary. Where the code goes wrong is in `Props/ShortestAnswers`.
-/

namespace Verif.Props

variable {W T σ : Type} [LinearOrder W] [Zero W] [LinearOrder T] [AddCommMonoid T] [IsOrderedCancelAddMonoid T]

/-- The language contains no configuration with the empty stack. -/
def StacksNonempty (p : Pda W) (a : Aut T) : Prop := ∀ q, q < p.size → a.isAcc q = false

omit [IsOrderedCancelAddMonoid T] [Zero W] in
theorem spreCtx {val : W → T} {p : Pda W} (hw : p.WF) {a : Aut T} (ha : ShAut p a)
    (hnn : ∀ st ∈ p.states, ∀ y ∈ st.rules, 0 ≤ val y.1.weight) (hne : StacksNonempty p a) : SPreCtx p val a := by
  refine ⟨hw, ha.size_le, ha.valid, ha.nodup, ha.zero, ha.noInto, ?_, hne⟩
  intro q y hy
  obtain ⟨st, hs, hy'⟩ := (mem_rules_iff p y).1 ⟨q, hy⟩
  exact hnn st hs y hy'

/-- C57: with early termination the saturation ends, for every callback. -/
theorem c57_terminates (val : W → T) (hp : Heap (ShElem T) (WithTop T) ShElem.key) (h : HashOrder) (cb : SCallback T σ)
    (junk : Nat → Bool) {p : Pda W} (hw : p.WF) {a : Aut T} (ha : ShAut p a)
    (hnn : ∀ st ∈ p.states, ∀ y ∈ st.rules, 0 ≤ val y.1.weight) (hne : StacksNonempty p a) (e : σ) :
    ∃ fuel s, preStarShortest val hp h cb true junk p a e fuel = some s :=
  spre_terminates (spreCtx hw ha hnn hne) hp cb junk (spreInit_inv h (spreCtx hw ha hnn hne) e).1

/-- C57, one half: with early termination, wherever the callback stopped the saturation, the weight of every accepting
path is the weight of a run to the input language; no assertion failed and nothing was read through a null pointer. -/
theorem c57_sound (val : W → T) (hp : Heap (ShElem T) (WithTop T) ShElem.key) (h : HashOrder) (cb : SCallback T σ)
    (junk : Nat → Bool) {p : Pda W} (hw : p.WF) {a : Aut T} (ha : ShAut p a)
    (hnn : ∀ st ∈ p.states, ∀ y ∈ st.rules, 0 ≤ val y.1.weight) (hne : StacksNonempty p a) (e : σ) (fuel : Nat)
    (s : SPreSt T σ) (hs : preStarShortest val hp h cb true junk p a e fuel = some s) (q : Nat) (w : List Nat)
    (hq : q < p.size) :
    (s.undef = false ∧ s.failed = false) ∧ ∀ x ∈ PathWeights (autWeights s.aut) (fun q => s.aut.isAcc q = true) (q, w),
      x ∈ RunWeightsTo p.Has val (· ∈ keys a.edges) (fun q => a.isAcc q = true) (q, w) := by
  have hc := spreCtx hw ha hnn hne
  obtain ⟨⟨⟨κ, hi⟩, _⟩, _⟩ := spre_inv hc hp cb junk (spreInit_inv h hc e).1 hs
  refine ⟨⟨hi.undef, hi.failed⟩, ?_⟩
  rintro x ⟨f, hpath, hF⟩
  rw [autWeights_iff] at hpath
  have hF' : a.isAcc f = true := by unfold Aut.isAcc at hF ⊢; rwa [hi.acc] at hF
  have := fpre_sound (F := fun q => a.isAcc q = true) (fun r hr => Has_lt hw r hr) ha.noInto hi.der hpath hF'
  unfold FPreSem at this
  rwa [if_pos hq] at this

/-- C57, the other half: if the callback did not stop the saturation, every run to the input language has an accepting
path that weighs no more. -/
theorem c57_complete (val : W → T) (hp : Heap (ShElem T) (WithTop T) ShElem.key) (h : HashOrder) (cb : SCallback T σ)
    (junk : Nat → Bool) {p : Pda W} (hw : p.WF) (hk : p.LookupOK) {a : Aut T} (ha : ShAut p a)
    (hnn : ∀ st ∈ p.states, ∀ y ∈ st.rules, 0 ≤ val y.1.weight) (hne : StacksNonempty p a) (e : σ) (fuel : Nat)
    (s : SPreSt T σ) (hs : preStarShortest val hp h cb true junk p a e fuel = some s) (hf : s.found = false) (c : Config) :
    ∀ x ∈ RunWeightsTo p.Has val (· ∈ keys a.edges) (fun q => a.isAcc q = true) c,
      ∃ y ∈ PathWeights (autWeights s.aut) (fun q => s.aut.isAcc q = true) c, y ≤ x := by
  have hc := spreCtx hw ha hnn hne
  obtain ⟨hL, h2⟩ := spre_inv hc hp cb junk (spreInit_inv h hc e).1 hs
  have hws : s.ws = [] := h2.resolve_left (by rw [hf]; decide)
  have hcl := hL.closed hc hk hws
  obtain ⟨⟨κ, hi⟩, _⟩ := hL
  have hacc : ∀ q, s.aut.isAcc q = a.isAcc q := fun q => by unfold Aut.isAcc; rw [hi.acc]
  rw [autWeights_iff]
  simp only [hacc]
  rintro x ⟨c', hrun, f, hpath, hF⟩
  have key : ∀ {q w f}, Path (· ∈ keys a.edges) q w f → CostPath (fun t x => s.aut.wt t = some x) q w 0 f := by
    intro q w f hp
    induction hp with
    | nil q => exact .nil q
    | cons he _ ih =>
      have h2 := CostPath.cons (E := fun t x => s.aut.wt t = some x) (hi.input _ he) ih
      rwa [add_zero] at h2
  obtain ⟨z, hz, hzle⟩ := hcl.run (F := fun q => a.isAcc q = true) hrun (b := 0) ⟨0, ⟨f, key hpath, hF⟩, le_refl _⟩
  exact ⟨z, hz, by rwa [add_zero] at hzle⟩

/-- C57, what holds of it: with early termination and no accepting control state, if the callback does not stop the
saturation, then for every configuration the least weight of an accepting path is the least weight of a run to the input
language, and there is one whenever there is a run. The full claim would be without `ET`, where it is false
(`c57_no_early_termination`), and with accepting control states, where it is false as well
(`c57_accepting_control_state`); the lookup of rules must meet every rule (see C24). -/
theorem c57_minimum_partial (val : W → T) (hp : Heap (ShElem T) (WithTop T) ShElem.key) (h : HashOrder) (cb : SCallback T σ)
    (junk : Nat → Bool) {p : Pda W} (hw : p.WF) (hk : p.LookupOK) {a : Aut T} (ha : ShAut p a)
    (hnn : ∀ st ∈ p.states, ∀ y ∈ st.rules, 0 ≤ val y.1.weight) (hne : StacksNonempty p a) (e : σ) (fuel : Nat)
    (s : SPreSt T σ) (hs : preStarShortest val hp h cb true junk p a e fuel = some s) (hf : s.found = false)
    (q : Nat) (w : List Nat) (hq : q < p.size) :
    (∀ m, IsLeast (PathWeights (autWeights s.aut) (fun q => s.aut.isAcc q = true) (q, w)) m ↔
      IsLeast (RunWeightsTo p.Has val (· ∈ keys a.edges) (fun q => a.isAcc q = true) (q, w)) m) ∧
    ((∃ x, x ∈ RunWeightsTo p.Has val (· ∈ keys a.edges) (fun q => a.isAcc q = true) (q, w)) →
      ∃ m, IsLeast (PathWeights (autWeights s.aut) (fun q => s.aut.isAcc q = true) (q, w)) m) := by
  refine ⟨isLeast_iff_of_below (c57_sound val hp h cb junk hw ha hnn hne e fuel s hs q w hq).2
    (c57_complete val hp h cb junk hw hk ha hnn hne e fuel s hs hf (q, w)), ?_⟩
  rintro ⟨x, hx⟩
  obtain ⟨y, hy, _⟩ := c57_complete val hp h cb junk hw hk ha hnn hne e fuel s hs hf (q, w) x hx
  obtain ⟨l, hl⟩ := costPath_list _ (autWeights_list s.aut) w q
  exact exists_isLeast_of_list _ l (fun x ⟨f, hf, _⟩ => hl x f hf) ⟨y, hy⟩

/-- C57 for `pre_star_accepts<Shortest>(automaton, state, stack)` and a stack of one symbol: the answer is right. (For
other stacks it is not, see `c57_no_early_termination`.) -/
theorem c57_one_symbol (val : W → T) (hp : Heap (ShElem T) (WithTop T) ShElem.key) (h : HashOrder)
    (junk : Nat → Bool) {p : Pda W} (hw : p.WF) (hk : p.LookupOK) {a : Aut T} (ha : ShAut p a)
    (hnn : ∀ st ∈ p.states, ∀ y ∈ st.rules, 0 ≤ val y.1.weight) (hne : StacksNonempty p a) (q g fuel : Nat)
    (hq : q < p.size) (b : Aut T) (ans : Bool)
    (hr : preStarShortestAccepts val hp h junk p a q [g] fuel = some (b, ans)) :
    ans = true ↔ ∃ x, x ∈ RunWeightsTo p.Has val (· ∈ keys a.edges) (fun q => a.isAcc q = true) (q, [g]) := by
  unfold preStarShortestAccepts at hr
  dsimp only at hr
  split at hr
  · rename_i hacc
    cases hr
    simp only [true_iff]
    rw [accepts_iff] at hacc
    exact ⟨0, (q, [g]), .nil _, hacc⟩
  · rw [Option.map_eq_some_iff] at hr
    obtain ⟨s, hs, hr⟩ := hr
    cases hr
    have hc := spreCtx hw ha hnn hne
    obtain ⟨⟨⟨κ, hi⟩, _⟩, _, h3⟩ := one_end hc hp h junk hs
    have hacc : ∀ q, s.aut.isAcc q = a.isAcc q := fun q => by unfold Aut.isAcc; rw [hi.acc]
    have hone : s.found = true ↔ ∃ x, x ∈ PathWeights (autWeights s.aut) (fun q => s.aut.isAcc q = true) (q, [g]) := by
      rw [h3, autWeights_iff]
      simp only [hacc]
      constructor
      · rintro ⟨⟨q', g', f⟩, x, hx, rfl, rfl, hF⟩
        exact ⟨x + 0, f, .cons hx (.nil _), hF⟩
      · rintro ⟨x, f, hpath, hF⟩
        cases hpath with
        | cons he hp' =>
          cases hp' with
          | nil => exact ⟨_, _, he, rfl, rfl, hF⟩
    constructor
    · intro hf
      obtain ⟨x, hx⟩ := hone.1 hf
      exact ⟨x, (c57_sound val hp h _ junk hw ha hnn hne () fuel s hs q [g] hq).2 x hx⟩
    · rintro ⟨x, hx⟩
      by_contra hf
      obtain ⟨y, hy, _⟩ := c57_complete val hp h _ junk hw hk ha hnn hne () fuel s hs (by simpa using hf) (q, [g]) x hx
      exact hf (hone.2 ⟨y, hy⟩)

omit [IsOrderedCancelAddMonoid T] in
/-- C57 for stacks of any length, weights of any sign and automata with accepting control states: if
`pre_star_accepts<Shortest>(automaton, state, stack)` answers yes, the language of the automaton can be reached. -/
theorem c57_yes_right (val : W → T) (hp : Heap (ShElem T) (WithTop T) ShElem.key) (h : HashOrder) (junk : Nat → Bool)
    {p : Pda W} (hw : p.WF) {a : Aut T} (hv : ∀ t ∈ keys a.edges, t.label < p.nLabels) (hn : (keys a.edges).Nodup)
    (hin : ∀ t ∈ keys a.edges, p.size ≤ t.dst) (q : Nat) (w : List Nat) (fuel : Nat) (hq : q < p.size) (b : Aut T)
    (hr : preStarShortestAccepts val hp h junk p a q w fuel = some (b, true)) :
    ∃ c, Reach p.Has (q, w) c ∧ Accepted (· ∈ keys a.edges) (fun q => a.isAcc q = true) c := by
  have key : ∀ {σ : Type} {H : Tr → Prop} {s : SPreSt T σ}, SPreT p a H (keys a.edges) s →
      Accepted (· ∈ keys s.aut.edges) (fun q => s.aut.isAcc q = true) (q, w) →
      ∃ c, Reach p.Has (q, w) c ∧ Accepted (· ∈ keys a.edges) (fun q => a.isAcc q = true) c := by
    intro σ H s hs hacc
    have h1 := pre_sound hw (F := fun q => a.isAcc q = true) (by rw [keys_bare]; exact hin) hs.built q w hq
    rw [keys_bare, keys_bare] at h1
    refine h1 ?_
    have : ∀ f, s.aut.isAcc f = a.isAcc f := fun f => by unfold Aut.isAcc; rw [hs.acc]
    simpa only [this] using hacc
  unfold preStarShortestAccepts at hr
  split at hr
  · rename_i g
    split at hr
    · rename_i hacc
      exact ⟨_, .refl, (accepts_iff h a q [g]).1 hacc⟩
    · obtain ⟨s, hs, hr⟩ := Option.map_eq_some_iff.1 hr
      rw [Prod.mk.injEq] at hr
      have hb := spre_built (H := fun t => t.src = q ∧ t.label = g ∧ a.isAcc t.dst = true) hw hn hv hp h
        (fun a' _ t _ _ ha' ht => by
          simp only [oneSymbolSCb, Bool.and_eq_true, beq_iff_eq] at ht
          exact ⟨ht.1.1, ht.1.2, by have := ht.2; unfold Aut.isAcc at this ⊢; rwa [ha'] at this⟩) true junk hs
      obtain ⟨⟨q', g', f⟩, ht, rfl, rfl, hf⟩ := hb.hit hr.2
      refine key hb ⟨f, .cons ht (.nil _), ?_⟩
      unfold Aut.isAcc at hf ⊢
      rwa [hb.acc]
  · obtain ⟨s, hs, hr⟩ := Option.map_eq_some_iff.1 hr
    rw [Prod.mk.injEq] at hr
    have hb := spre_built (H := fun _ => False) hw hn hv hp h (fun _ _ _ _ _ _ ht => by cases ht) false junk hs
    rcases Bool.or_eq_true _ _ ▸ hr.2 with hf | hf
    · obtain ⟨_, _, h3⟩ := hb.hit hf
      exact h3.elim
    · exact key hb ((accepts_iff h _ q w).1 hf)

omit [IsOrderedCancelAddMonoid T] in
/-- C57 for stacks of any length: a configuration of the language itself is answered with yes. (For those that need steps
it is not so, see `c57_no_early_termination`.) -/
theorem c57_input_yes (val : W → T) (hp : Heap (ShElem T) (WithTop T) ShElem.key) (h : HashOrder) (junk : Nat → Bool)
    {p : Pda W} (hw : p.WF) {a : Aut T} (hv : ∀ t ∈ keys a.edges, t.label < p.nLabels) (hn : (keys a.edges).Nodup)
    (q : Nat) (w : List Nat) (fuel : Nat) (b : Aut T) (ans : Bool)
    (hr : preStarShortestAccepts val hp h junk p a q w fuel = some (b, ans))
    (hacc : Accepted (· ∈ keys a.edges) (fun q => a.isAcc q = true) (q, w)) : ans = true := by
  unfold preStarShortestAccepts at hr
  split at hr
  · rename_i g
    rw [if_pos ((accepts_iff h a q [g]).2 hacc)] at hr
    cases hr
    rfl
  · obtain ⟨s, hs, hr⟩ := Option.map_eq_some_iff.1 hr
    cases hr
    have hb := spre_built (H := fun _ => False) hw hn hv hp h (fun _ _ _ _ _ _ ht => by cases ht) false junk hs
    rw [Bool.or_eq_true]
    refine .inr ((accepts_iff h _ q w).2 ?_)
    obtain ⟨f, h1, h2⟩ := hacc
    refine ⟨f, h1.mono fun t ht => hb.sub t ht, ?_⟩
    unfold Aut.isAcc at h2 ⊢
    rwa [hb.acc]

/-- Accepts ⟨1,1 0⟩. -/
def preTo : Aut ℤ := { acc := [false, false, false, true], edges := [(⟨1, 1, 2⟩, {}, 0), (⟨2, 0, 3⟩, {}, 0)] }

/-- Non-vacuity of C57: a PDA with all four operations; ⟨1,1⟩ reaches ⟨1,1 0⟩ by a swap and a push of weight 1 and 3, and
the answer for it is yes. -/
example : (Pda.build 2 shCalls).WF ∧ (Pda.build 2 shCalls).LookupOK ∧ ShAut (Pda.build 2 shCalls) preTo ∧
    (∀ st ∈ (Pda.build 2 shCalls).states, ∀ y ∈ st.rules, 0 ≤ id y.1.weight) ∧ StacksNonempty (Pda.build 2 shCalls) preTo ∧
    (preStarShortest id (Heap.first ShElem.key) HashOrder.id noSCb true (fun _ => false) (Pda.build 2 shCalls) preTo () 100).map
      (fun s => (s.found, s.aut.wt ⟨0, 0, 3⟩, s.aut.wt ⟨1, 1, 3⟩)) = some (false, some 3, some 4) ∧
    (preStarShortestAccepts id (Heap.first ShElem.key) HashOrder.id (fun _ => false) (Pda.build 2 shCalls) preTo 1 [1] 100).map
      Prod.snd = some true ∧
    (preStarShortestAccepts id (Heap.first ShElem.key) HashOrder.id (fun _ => false) (Pda.build 2 shCalls) preTo 1 [1, 0] 100).map
      Prod.snd = some true := by
  have hOK : ∀ c ∈ shCalls, c.OK 2 := by simp [shCalls, PdaCall.OK, WSorted]
  have hq : (Pda.build 2 shCalls).size = 2 := by decide +kernel
  have hl : (Pda.build 2 shCalls).nLabels = 2 := by decide +kernel
  refine ⟨Pda.WF_build 2 _ hOK, lookupOK_build 2 _ hOK (by intro src r wc pre hm; simp only [shCalls, List.mem_cons, PdaCall.rule.injEq, List.not_mem_nil, or_false] at hm; rcases hm with ⟨_, rfl, _⟩ | ⟨_, rfl, _⟩ | ⟨_, rfl, _⟩ | ⟨_, rfl, _⟩ <;> simp), ⟨by rw [hq]; decide, by rw [hl]; decide, by decide, by decide, by rw [hq]; decide⟩,
    by decide +kernel, ?_, by decide +kernel, by decide +kernel, by decide +kernel⟩
  unfold StacksNonempty
  rw [hq]
  decide

end Verif.Props
