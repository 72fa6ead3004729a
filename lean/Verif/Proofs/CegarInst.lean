import Verif.Proofs.CegarAbs
import Verif.Spec.Abstraction
import Verif.Props.Solver

/-! # The answer of the engines on an abstract instance -/

namespace Verif

open Props

/-- The initial states are closed under ε moves to useful states, as after `compile`. -/
def Nfa.Closed (n : Nfa) : Prop := ∀ i ∈ n.initial, ∀ q, WPath n.Eps n.Sym i [] q → n.Useful q → q ∈ n.initial

/-- All labels are below `nl`. -/
def Nfa.Below (n : Nfa) (nl : Nat) : Prop := ∀ p s, (p, s) ∈ n.states → ∀ e ∈ s.edges, ∀ g ∈ e.syms, g < nl

section
variable {W : Type} [LinearOrder W] [Zero W]

theorem closed_emptyAccept {n : Nfa} (hn : n.WF) (hc : n.Closed) : n.emptyAccept = true ↔ n.Lang [] := by
  unfold Nfa.emptyAccept
  rw [List.any_eq_true]
  constructor
  · rintro ⟨i, h1, h2⟩
    exact ⟨i, h1, i, (Nfa.acc_get hn.nodup).2 ⟨hn.init i h1, h2⟩, .nil i⟩
  · rintro ⟨i, h1, f, h2, h3⟩
    exact ⟨f, hc i h1 f h3 (Nfa.useful_of_acc hn.nodup h2), ((Nfa.acc_get hn.nodup).1 h2).2⟩

theorem closed_isAcc {n : Nfa} (hn : n.WF) (hc : n.Closed) {size nl : Nat} (hb : n.Below nl) {ms : List Nat}
    (sm : SSorted ms) (hms : ∀ q ∈ ms, q < size) (q : Nat) (hq : q < size) :
    (Aut.ofNfa (W := W) size nl n ms).isAcc q = true ↔ q ∈ ms ∧ n.emptyAccept = true := by
  have h1 := (Aut.ofNfa_spec (W := W) hn hc hb sm hms).1 q [] hq
  rw [closed_emptyAccept hn hc]
  constructor
  · intro h2
    have := h1.1 ⟨q, .nil _, h2⟩
    exact ⟨this.1, this.2.1⟩
  · rintro ⟨h2, h3⟩
    obtain ⟨f, h4, h5⟩ := h1.2 ⟨h2, h3, by simp⟩
    dsimp only at h4
    cases h4
    exact h5

theorem closed_instance {m k : Nfa} (hm : m.WF) (hk : k.WF) (cm : m.Closed) (ck : k.Closed) {size nl : Nat}
    (lm : m.Below nl) (lk : k.Below nl) {ms ks : List Nat} (sm : SSorted ms) (sk : SSorted ks)
    (hms : ∀ q ∈ ms, q < size) (hks : ∀ q ∈ ks, q < size) :
    Instance.ofNfas (W := W) size nl m ms k ks =
      Instance.ofAutomata size (Aut.ofNfa size nl m ms) (Aut.ofNfa size nl k ks) := by
  unfold Instance.ofNfas Instance.ofAutomata Product.ofAutomata
  congr 2
  have hss : SSorted (setInter ms ks) := List.Pairwise.sublist (setInter_sublist ms ks) sm
  obtain ⟨a1, a2, a3⟩ := Aut.special_spec (W := W) size hss (m.emptyAccept && k.emptyAccept)
  obtain ⟨b1, b2, b3⟩ := Aut.special_spec (W := W) size
    (sp := (List.range size).filter fun i => (Aut.ofNfa (W := W) size nl m ms).isAcc i &&
      (Aut.ofNfa (W := W) size nl k ks).isAcc i)
    (by exact (List.pairwise_lt_range).filter _) true
  refine Aut.ext_of (a2.trans b2.symm) (a1.trans b1.symm) fun q hq => ?_
  rw [a1] at hq
  rw [Bool.eq_iff_iff, a3, b3, mem_setInter sm sk]
  simp only [List.mem_filter, List.mem_range, Bool.and_eq_true, closed_isAcc hm cm lm sm hms q hq,
    closed_isAcc hk ck lk sk hks q hq]
  grind

theorem closed_ok {m : Nfa} (hm : m.WF) (cm : m.Closed) (p : Pda W) (lm : m.Below p.nLabels) {ms : List Nat}
    (sm : SSorted ms) (hms : ∀ q ∈ ms, q < p.size) : PAut p (Aut.ofNfa (W := W) p.size p.nLabels m ms) := by
  obtain ⟨_, h1, h2, h3⟩ := Aut.ofNfa_spec (W := W) hm cm lm sm hms
  exact ⟨⟨h1, fun t ht => ⟨(h3 t ht).1, (h3 t ht).2.1, (h3 t ht).2.2.1⟩, h2⟩, fun t ht => (h3 t ht).2.2.2⟩

theorem closed_canReach {p : Pda W} (hp : p.WF) {m k : Nfa} (hm : m.WF) (hk : k.WF) (cm : m.Closed) (ck : k.Closed)
    (lm : m.Below p.nLabels) (lk : k.Below p.nLabels) {ms ks : List Nat} (sm : SSorted ms) (sk : SSorted ks)
    (hms : ∀ q ∈ ms, q < p.size) (hks : ∀ q ∈ ks, q < p.size) :
    CanReach p (Aut.ofNfa (W := W) p.size p.nLabels m ms) (Aut.ofNfa p.size p.nLabels k ks) ↔
      ∃ q v q' v', q ∈ ms ∧ m.Lang v ∧ (∀ g ∈ v, g < p.nLabels) ∧ Reach p.Has (q, v) (q', v') ∧
        q' ∈ ks ∧ k.Lang v' ∧ ∀ g ∈ v', g < p.nLabels := by
  have la := (Aut.ofNfa_spec (W := W) hm cm lm sm hms).1
  have lb := (Aut.ofNfa_spec (W := W) hk ck lk sk hks).1
  constructor
  · rintro ⟨⟨q, v⟩, ⟨q', v'⟩, h1, h2, h3, h4⟩
    obtain ⟨a1, a2, a3⟩ := (la q v h1).1 h2
    obtain ⟨b1, b2, b3⟩ := (lb q' v' (reach_lt hp h3 h1)).1 h4
    exact ⟨q, v, q', v', a1, a2, a3, h3, b1, b2, b3⟩
  · rintro ⟨q, v, q', v', a1, a2, a3, h3, b1, b2, b3⟩
    exact ⟨(q, v), (q', v'), hms q a1, (la q v (hms q a1)).2 ⟨a1, a2, a3⟩, h3, (lb q' v' (hks q' b1)).2 ⟨b1, b2, b3⟩⟩

end

namespace Cegar

variable {m : RMap Nat} {n : Nfa}

theorem absNfa_closed (hm : m.Inv) (hn : n.WF) (hk : Known m n) (hc : n.Closed) : (absNfa m n).Closed := by
  intro i hi q h1 h2
  exact hc i hi q (absNfa_epsPath.1 h1) ((absNfa_useful hm hn hk q).1 h2)

/-- The instance of an iteration, as one built from its two automata. -/
theorem absInstance_auto {k : Nfa} (hm : m.Inv) (hn : n.WF) (hk : Known m n) (cn : n.Closed) (hn' : k.WF) (hk' : Known m k)
    (ck : k.Closed) {size : Nat} {ms ks : List Nat} (sm : SSorted ms) (sk : SSorted ks)
    (hms : ∀ q ∈ ms, q < size) (hks : ∀ q ∈ ks, q < size) :
    absInstance size m n ms k ks = Instance.ofAutomata size (Aut.ofNfa size m.size (absNfa m n) ms)
      (Aut.ofNfa size m.size (absNfa m k) ks) := by
  rw [absInstance_eq hm hn hk hn' hk']
  exact closed_instance (absNfa_wf hm hn hk) (absNfa_wf hm hn' hk') (absNfa_closed hm hn hk cn)
    (absNfa_closed hm hn' hk' ck) (absNfa_labels hm hn hk) (absNfa_labels hm hn' hk') sm sk hms hks

/-- A step of the concrete system is one of the abstract system. -/
theorem step_abs {β : Nat → Nat} {R R' : URule Unit → Prop} (ha : Abstracts m.find β R R') {c c' : Config}
    (h : Step R c c') {v : List Nat} (hv : Maps m c.2 v) :
    ∃ v', Step R' (β c.1, v) (β c'.1, v') ∧ Maps m c'.2 v' := by
  obtain ⟨r, w, hr⟩ := h
  obtain ⟨a, b, h1, h2, h3⟩ := ha r hr
  dsimp only at hv ⊢
  cases hv with
  | cons h4 h5 =>
    rename_i a' v
    rw [h1] at h4
    cases h4
    refine ⟨effect r.op a b v, Step.mk ⟨β r.src, a, β r.dst, r.op, b, ()⟩ v h3, ?_⟩
    unfold effect
    cases hop : r.op with
    | push => exact .cons (h2 (.inl hop)) (.cons h1 h5)
    | pop => exact h5
    | swap => exact .cons (h2 (.inr hop)) h5
    | noop => exact .cons h1 h5

theorem reach_abs {β : Nat → Nat} {R R' : URule Unit → Prop} (ha : Abstracts m.find β R R') {c c' : Config}
    (h : Reach R c c') {v : List Nat} (hv : Maps m c.2 v) :
    ∃ v', Reach R' (β c.1, v) (β c'.1, v') ∧ Maps m c'.2 v' := by
  induction h with
  | refl => exact ⟨v, .refl, hv⟩
  | tail _ h2 ih =>
    obtain ⟨v1, h3, h4⟩ := ih
    obtain ⟨v2, h5, h6⟩ := step_abs ha h2 h4
    exact ⟨v2, h3.tail h5, h6⟩

theorem maps_exists : ∀ (w : List Nat), (∀ x ∈ w, x ∈ m.keys) → ∃ v, Maps m w v
  | [], _ => ⟨[], .nil⟩
  | x :: w, h => by
    obtain ⟨v, hv⟩ := maps_exists w fun y hy => h y (by simp [hy])
    have := h x (by simp)
    obtain ⟨c, hc⟩ := RMap.find_isSome this
    exact ⟨c :: v, .cons hc hv⟩

theorem maps_lt (hm : m.Inv) {w v : List Nat} (h : Maps m w v) : ∀ g ∈ v, g < m.size := by
  induction h with
  | nil => simp
  | cons h1 _ ih =>
    intro g hg
    rcases List.mem_cons.1 hg with rfl | hg
    · exact RMap.find_lt hm h1
    · exact ih g hg

theorem maps_known {w v : List Nat} (h : Maps m w v) : ∀ g ∈ w, g ∈ m.keys := by
  induction h with
  | nil => simp
  | cons h1 _ ih =>
    intro g hg
    rcases List.mem_cons.1 hg with rfl | hg
    · by_contra hc
      rw [(RMap.find_none _).2 hc] at h1
      simp at h1
    · exact ih g hg

end Cegar

end Verif
