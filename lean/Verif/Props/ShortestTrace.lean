import Verif.Proofs.ShortestTrace
import Verif.Props.ShortestPath

/-!
# C61: traces after shortest post*

`getTrace` is `_get_trace`, `getTraceShortestFor` is `get_trace<Trace_Type::Shortest>(pda, automaton, state, stack)`. The
weights are as in C32; the input automaton carries no traces.
-/

namespace Verif.Props

variable {W T : Type} [LinearOrder W] [LinearOrder T] [AddCommMonoid T]

/-- The configurations are a run of the given weight from a configuration that the automaton accepts to `c`. -/
def IsRunTo (p : Pda W) (val : W → T) (a : Aut T) (cs : List Config) (x : T) (c : Config) : Prop :=
  CostTrace p.Has val cs x ∧ cs.getLast? = some c ∧
    ∃ c0, cs.head? = some c0 ∧ c0.1 < p.size ∧ Accepted (· ∈ keys a.edges) (fun q => a.isAcc q = true) c0

omit [LinearOrder W] [LinearOrder T] in
/-- The sequence of configurations is a run in the sense of `RunWeightsFrom`. -/
theorem IsRunTo.mem {p : Pda W} {val : W → T} {a : Aut T} {cs : List Config} {x : T} {c : Config} (h : IsRunTo p val a cs x c) :
    x ∈ RunWeightsFrom p.Has val p.size (· ∈ keys a.edges) (fun q => a.isAcc q = true) c := by
  obtain ⟨h1, h2, c0, h3, h4, h5⟩ := h
  refine ⟨c0, h4, h5, ?_⟩
  clear h4 h5
  induction h1 generalizing c0 with
  | one c1 =>
    simp only [List.getLast?_singleton, Option.some.injEq, List.head?_cons] at h2 h3
    rw [← h3, ← h2]
    exact .nil _
  | cons r w cs x hr _ ih =>
    rw [List.head?_cons, Option.some.injEq] at h3
    subst h3
    rw [List.getLast?_cons_cons] at h2
    exact .cons (R := p.Has) (val := val) r w _ _ hr (ih h2 _ rfl)

omit [LinearOrder T] in
theorem costSpells_trs (a : Aut T) (f : Nat) (es : List (Nat × Nat)) (x : T)
    (h : CostSpells (autWeights a) (APath.states ⟨f, es⟩) (APath.stack ⟨f, es⟩) x) :
    (∀ t ∈ trs f es, t ∈ keys a.edges) ∧ sumW a (trs f es) = x := by
  rw [APath.stack_eq] at h
  unfold APath.states at h
  dsimp only at h
  rw [autWeights_iff] at h
  induction es generalizing x with
  | nil =>
    have : x = 0 := h
    subst this
    exact ⟨by simp [trs], by simp [trs, sumW]⟩
  | cons e es ih =>
    obtain ⟨g, s⟩ := e
    have hst : ∃ l, (es.map Prod.snd ++ [f]) = APath.frontState ⟨f, es⟩ :: l := by
      cases es with
      | nil => exact ⟨_, rfl⟩
      | cons e es => exact ⟨_, rfl⟩
    obtain ⟨l, hl⟩ := hst
    simp only [List.map_cons, List.cons_append] at h
    rw [hl] at h
    obtain ⟨y, z, h1, h2, rfl⟩ := h
    rw [← hl] at h2
    obtain ⟨h3, h4⟩ := ih z h2
    simp only [trs, List.forall_mem_cons]
    refine ⟨⟨?_, h3⟩, ?_⟩
    · by_contra hn
      rw [(Aut.wt_none_iff a _).2 hn] at h1
      cases h1
    · rw [sumW_cons, h1, h4]
      rfl

section
variable [IsOrderedCancelAddMonoid T]

/-- C61: after `post_star<Shortest>`, unwinding any accepting path of the automaton gives configurations that follow each
other by rules of the PDA whose weights add up to the weight of the path. The first configuration is accepted by the
input automaton, and the last is the one that the path spells; epsilon transitions spell nothing. -/
theorem c61_path_trace (val : W → T) (hp : Heap (ShElem T) (WithTop T) ShElem.key) (h : HashOrder) {p : Pda W} (hw : p.WF)
    (hl : p.nLabels < epsilon) {a : Aut T} (ha : ShAut p a) (h0 : Untraced a) (hN : shN p a ≤ sizeMax) (fuel : Nat) (s : ShSt T)
    (hs : postStarShortest val hp h p a fuel = .ok (some s)) (path : APath Nat) (x : T)
    (hpath : CostSpells (autWeights s.aut) path.states path.stack x) (hq : path.frontState < p.size)
    (hf : s.aut.isAcc path.fin = true) :
    ∃ cs, getTrace p s.aut path = some cs ∧
      IsRunTo p val a cs x (path.frontState, path.stack.filter fun g => decide (g ≠ epsilon)) := by
  obtain ⟨hc, ⟨⟨κ, hi⟩, _⟩, _⟩ := shResult hw (Nat.le_of_lt hl) ha hs
  obtain ⟨h1, h2⟩ := costSpells_trs s.aut path.fin path.edges x hpath
  have hacc : AcceptingPath s.aut p.size path := ⟨(trs_spells _ path.fin path.edges).2 h1, hq, hf⟩
  obtain ⟨cs, c', h3, h4, h5, h6, h7, h8⟩ := hi.trace hc hl hN h0 path hacc
  have h2 : sumW s.aut path.trs = x := h2
  rw [h2] at h4
  exact ⟨cs, h3, h4, h8, c', h5, h6, h7⟩

/-- C61, the disagreement found in `c53_path_starts_elsewhere` is the only one: if the path that `accept_path<Shortest>`
finds begins in the given state, then `get_trace<Shortest>(pda, automaton, state, stack)` after `post_star<Shortest>`
returns a run from the input language to the configuration, with its weight, which is the least of all such runs. The
full claim is without this condition, and is false (`c61_trace_elsewhere`). -/
theorem c61_get_trace_partial (val : W → T) (hp : Heap (ShElem T) (WithTop T) ShElem.key)
    (hp' : Heap (Aut.SpElem T) T DElem.weight) (h h' : HashOrder) {p : Pda W} (hw : p.WF) (hl : p.nLabels < epsilon) {a : Aut T}
    (ha : ShAut p a) (h0 : Untraced a) (hN : shN p a ≤ sizeMax) (fuel : Nat) (s : ShSt T)
    (hs : postStarShortest val hp h p a fuel = .ok (some s)) (q g : Nat) (w : List Nat) (hq : q < p.size)
    (hg : ∀ g' ∈ g :: w, g' < p.nLabels) (fuel' : Nat) (path : List Nat) (m : WithTop T)
    (hres : s.aut.acceptPathShortest hp' h' q (g :: w) fuel' = some (path, m)) :
    (m = ⊤ ∧ RunWeightsFrom p.Has val p.size (· ∈ keys a.edges) (fun q => a.isAcc q = true) (q, g :: w) = {} ∧
      getTraceShortestFor hp' h' p s.aut q (g :: w) fuel' = some (none, ⊤)) ∨
    ∃ x : T, m = x ∧
      IsLeast (RunWeightsFrom p.Has val p.size (· ∈ keys a.edges) (fun q => a.isAcc q = true) (q, g :: w)) x ∧
      (path.head? = some q → ∃ cs, getTraceShortestFor hp' h' p s.aut q (g :: w) fuel' = some (some cs, (x : WithTop T)) ∧
        IsRunTo p val a cs x (q, g :: w)) := by
  have hle : p.nLabels ≤ epsilon := Nat.le_of_lt hl
  have hn := post_nonneg hw hle ha hs
  have hfilt : ∀ l : List Nat, (∀ g' ∈ l, g' < p.nLabels) → (l.filter fun g => decide (g ≠ epsilon)) = l := by
    intro l hl'
    rw [List.filter_eq_self]
    intro g' hg'
    have := hl' g' hg'
    simp only [decide_eq_true_eq]
    omega
  have hsp := c53_shortest_partial hp' h' s.aut hn q (g :: w) fuel' path m hres
  rcases (c53_after_post_star val hp hp' h h' hw hle ha fuel s hs q g w hq hg).2 fuel' path m hres with
    ⟨rfl, h2⟩ | ⟨x, rfl, h2⟩
  · refine .inl ⟨rfl, h2, ?_⟩
    rcases hsp with ⟨_, rfl, _⟩ | ⟨y, hy, _⟩
    · unfold getTraceShortestFor
      rw [hres]
      rfl
    · cases hy
  · refine .inr ⟨x, rfl, h2, fun hhead => ?_⟩
    rcases hsp with ⟨hy, _⟩ | ⟨y, hy, h3, ⟨f, h4, h5⟩, _⟩
    · cases hy
    obtain rfl : x = y := WithTop.coe_injective hy
    -- the path reads no epsilon transition
    obtain ⟨hc, hL, hws⟩ := shResult hw hle ha hs
    have hcl := hL.closed hc hws
    have hE : ∀ q' qs' w' y', CostReads (autWeights s.aut) q' qs' w' y' → p.size ≤ q' →
        CostSpells (autWeights s.aut) qs' w' y' ∧ qs'.head? = some q' := by
      intro q' qs' w' y' hr
      induction hr with
      | nil q => intro _; exact ⟨rfl, rfl⟩
      | @cons q1 g1 q2 qs w1 x1 y1 ht hr ih =>
        intro _
        rw [autWeights_iff] at ht
        obtain ⟨h6, h7⟩ := ih (hcl.into _ _ ht)
        cases qs with
        | nil => cases h7
        | cons q' qs =>
          rw [List.head?_cons, Option.some.injEq] at h7
          subst h7
          exact ⟨⟨x1, y1, by rw [autWeights_iff]; exact ht, h6, rfl⟩, rfl⟩
      | eps ht _ _ =>
        intro hsz
        rw [autWeights_iff] at ht
        have := hcl.eps _ _ ht rfl
        dsimp only at this
        omega
    have hsp : CostSpells (autWeights s.aut) path (g :: w) x := by
      cases h3 with
      | @cons _ _ q2 qs _ x1 y1 ht hr =>
        have ht' := ht
        rw [autWeights_iff] at ht'
        obtain ⟨h6, h7⟩ := hE _ _ _ _ hr (hcl.into _ _ ht')
        cases qs with
        | nil => cases h7
        | cons q' qs =>
          rw [List.head?_cons, Option.some.injEq] at h7
          subst h7
          exact ⟨x1, y1, ht, h6, rfl⟩
      | eps ht hr =>
        exfalso
        have ht' := ht
        rw [autWeights_iff] at ht'
        have h8 := hcl.into _ _ ht'
        obtain ⟨_, h7⟩ := hE _ _ _ _ hr h8
        rw [h7, Option.some.injEq] at hhead
        dsimp only at h8
        omega
    have hlen : ∀ (qs ws : List Nat) (y : T), CostSpells (autWeights s.aut) qs ws y → qs.length = ws.length + 1 := by
      intro qs
      induction qs with
      | nil => intro ws y hh; cases ws <;> exact hh.elim
      | cons q1 qs ih =>
        intro ws y hh
        cases qs with
        | nil => cases ws with
          | nil => rfl
          | cons => exact hh.elim
        | cons q2 qs => cases ws with
          | nil => exact hh.elim
          | cons g1 ws =>
            obtain ⟨_, z, _, hh, _⟩ := hh
            rw [List.length_cons, ih ws z hh, List.length_cons]
    obtain ⟨P, h6, h7, h8⟩ := APath.mk?_spec path (g :: w) (hlen _ _ _ hsp)
    have hst : P.stack = g :: w := by rw [APath.stack_eq, h8]
    have hs' : P.states = path := h7
    have hfr : P.frontState = q := by
      have := P.head_states
      rw [hs', hhead] at this
      exact (Option.some.inj this).symm
    have hfi : P.fin = f := by
      have := P.last_states
      rw [hs', h4] at this
      exact (Option.some.inj this).symm
    obtain ⟨cs, h9, h10⟩ := c61_path_trace val hp h hw hl ha h0 hN fuel s hs P x (by rw [hs', hst]; exact hsp)
      (by rw [hfr]; exact hq) (by rw [hfi]; exact h5)
    rw [hfr, hst, hfilt _ hg] at h10
    refine ⟨cs, ?_, h10⟩
    unfold getTraceShortestFor
    rw [hres]
    simp only [Option.map_some, h6, h9]

/-- C61 for PDAs without POP rules: `get_trace<Shortest>(pda, automaton, state, stack)` after `post_star<Shortest>` ends and
returns a run from the input language to the configuration with its weight, which is the least of all such runs. If there
is no run, the weight is `max()`, and the path is taken from an empty vector (the inner `none`). -/
theorem c61_get_trace_no_pop (val : W → T) (hp : Heap (ShElem T) (WithTop T) ShElem.key)
    (hp' : Heap (Aut.SpElem T) T DElem.weight) (h h' : HashOrder) {p : Pda W} (hw : p.WF) (hl : p.nLabels < epsilon) {a : Aut T}
    (ha : ShAut p a) (h0 : Untraced a) (hN : shN p a ≤ sizeMax) (hnp : ∀ r, p.Has r → r.op ≠ .pop) (fuel : Nat) (s : ShSt T)
    (hs : postStarShortest val hp h p a fuel = .ok (some s)) (q g : Nat) (w : List Nat) (hq : q < p.size)
    (hg : ∀ g' ∈ g :: w, g' < p.nLabels) :
    ∃ fuel', (RunWeightsFrom p.Has val p.size (· ∈ keys a.edges) (fun q => a.isAcc q = true) (q, g :: w) = {} ∧
        getTraceShortestFor hp' h' p s.aut q (g :: w) fuel' = some (none, ⊤)) ∨
      ∃ (x : T) (cs : List Config), getTraceShortestFor hp' h' p s.aut q (g :: w) fuel' = some (some cs, (x : WithTop T)) ∧
        IsRunTo p val a cs x (q, g :: w) ∧
        IsLeast (RunWeightsFrom p.Has val p.size (· ∈ keys a.edges) (fun q => a.isAcc q = true) (q, g :: w)) x := by
  have hle : p.nLabels ≤ epsilon := Nat.le_of_lt hl
  have hn := post_nonneg hw hle ha hs
  have hE : ∀ t x, autWeights s.aut t x → t.label ≠ epsilon := by
    obtain ⟨_, ⟨⟨κ, hi⟩, _⟩, _⟩ := shResult hw hle ha hs
    rw [autWeights_iff]
    intro t x hx
    obtain ⟨k, hk⟩ := hi.autw t x hx
    have hd := hi.der t x k hk
    have hlab : ∀ r, p.Has r → r.pre < p.nLabels ∧ (r.op = .swap ∨ r.op = .push → r.opLabel < p.nLabels) := by
      intro r hr
      obtain ⟨l, h1, h2⟩ := (Pda.Has_iff p r).1 hr
      exact ⟨((hw.mem_expand h1 _).1 h2).2, fun ho => hw.opLt _ _ h1 ho.symm⟩
    clear hk hx
    induction hd with
    | init h1 => have := (ha.valid _ h1).2.1; omega
    | pop h1 h2 _ _ => exact absurd h2 (hnp _ h1)
    | swap h1 h2 _ _ => have := (hlab _ h1).2 (.inl h2); dsimp only; omega
    | noop h1 h2 _ _ => have := (hlab _ h1).1; dsimp only; omega
    | push1 h1 h2 _ _ => have := (hlab _ h1).2 (.inr h2); dsimp only; omega
    | push2 h1 h2 _ _ => have := (hlab _ h1).1; dsimp only; omega
    | eps _ _ _ ih => exact ih
  obtain ⟨fuel', path, m, hres⟩ := c53_terminates hp' h' s.aut hn q (g :: w)
  refine ⟨fuel', ?_⟩
  rcases c61_get_trace_partial val hp hp' h h' hw hl ha h0 hN fuel s hs q g w hq hg fuel' path m hres with
    ⟨_, h1, h2⟩ | ⟨x, rfl, h1, h2⟩
  · exact .inl ⟨h1, h2⟩
  · rcases c53_shortest_partial hp' h' s.aut hn q (g :: w) fuel' path _ hres with ⟨hy, _⟩ | ⟨y, _, h3, _⟩
    · cases hy
    · obtain ⟨cs, h4, h5⟩ := h2 (costReads_noeps hE h3).1
      exact .inr ⟨x, cs, h4, h5, h1⟩

end

/-- Non-vacuity of `c61_get_trace_no_pop`: a PDA with a PUSH and a SWAP rule. -/
example : (∀ r, (Pda.build 2 [.rule 0 ⟨1, .push, 3, 1⟩ false [0], .rule 1 ⟨0, .swap, 1, 0⟩ false [1]] : Pda ℤ).Has r → r.op ≠ .pop) ∧
    shN (Pda.build 2 [.rule 0 ⟨1, .push, 3, 1⟩ false [0], .rule 1 ⟨0, .swap, 1, 0⟩ false [1]] : Pda ℤ) shInput = 5 := by
  refine ⟨?_, by decide +kernel⟩
  have : ∀ r ∈ (Pda.build 2 [.rule 0 ⟨1, .push, 3, 1⟩ false [0], .rule 1 ⟨0, .swap, 1, 0⟩ false [1]] : Pda ℤ).allRules,
      r.op ≠ .pop := by decide +kernel
  exact this

local instance decTrace : DecidableEq (Option (List Config) × WithTop ℤ) := inferInstance

/-- Non-vacuity of C61: on the PDA of C32, which has all four operations, the trace to ⟨0, 0 0 1⟩ has the rules of weight
3 and 1. The first heap finds a path from the given state. -/
example : ∃ s, postStarShortest id (Heap.first ShElem.key) HashOrder.id (Pda.build 2 shCalls) shInput 100 = .ok (some s) ∧
    shN (Pda.build 2 shCalls) shInput ≤ sizeMax ∧ Untraced shInput ∧
    getTraceShortestFor (Heap.first _) HashOrder.id (Pda.build 2 shCalls) s.aut 0 [0, 0, 1] 100 =
      some (some [(0, [0, 1]), (1, [1, 0, 1]), (0, [0, 0, 1])], ((4 : ℤ) : WithTop ℤ)) := by
  have hn : shNegative id (Pda.build 2 shCalls) shInput = false := by decide +kernel
  have h : (shLoop id (Heap.first ShElem.key) (Pda.build 2 shCalls) 100 (shInit HashOrder.id (Pda.build 2 shCalls) shInput)).map
      (fun s => getTraceShortestFor (Heap.first _) HashOrder.id (Pda.build 2 shCalls) s.aut 0 [0, 0, 1] 100) =
      some (some (some [(0, [0, 1]), (1, [1, 0, 1]), (0, [0, 0, 1])], ((4 : ℤ) : WithTop ℤ))) := by decide +kernel
  rw [Option.map_eq_some_iff] at h
  obtain ⟨s, h1, h2⟩ := h
  refine ⟨s, ?_, by decide +kernel, by unfold Untraced; decide, h2⟩
  unfold postStarShortest
  rw [hn]
  simp [h1]

/-- C61, a disagreement found: for the configuration ⟨1, 1⟩ of the same automaton, which is reached from ⟨0, 0 1⟩ by a POP
rule of weight 2, the trace may be the single "configuration" ⟨2, 1⟩, where 2 is not a state of the PDA. It depends on the
order in which the priority queue returns elements of equal weight (see `c53_path_starts_elsewhere`). -/
theorem c61_trace_elsewhere :
    ∃ s, postStarShortest id (Heap.first ShElem.key) HashOrder.id (Pda.build 2 shCalls) shInput 100 = .ok (some s) ∧
      (Pda.build 2 shCalls).size = 2 ∧
      getTraceShortestFor (Heap.first _) HashOrder.id (Pda.build 2 shCalls) s.aut 1 [1] 100 =
        some (some [(0, [0, 1]), (1, [1])], ((2 : ℤ) : WithTop ℤ)) ∧
      getTraceShortestFor (lastHeap _) HashOrder.id (Pda.build 2 shCalls) s.aut 1 [1] 100 =
        some (some [(2, [1])], ((2 : ℤ) : WithTop ℤ)) := by
  have hn : shNegative id (Pda.build 2 shCalls) shInput = false := by decide +kernel
  have h : (shLoop id (Heap.first ShElem.key) (Pda.build 2 shCalls) 100 (shInit HashOrder.id (Pda.build 2 shCalls) shInput)).map
      (fun s => (getTraceShortestFor (Heap.first _) HashOrder.id (Pda.build 2 shCalls) s.aut 1 [1] 100,
        getTraceShortestFor (lastHeap _) HashOrder.id (Pda.build 2 shCalls) s.aut 1 [1] 100)) =
      some (some (some [(0, [0, 1]), (1, [1])], ((2 : ℤ) : WithTop ℤ)), some (some [(2, [1])], ((2 : ℤ) : WithTop ℤ))) := by
    decide +kernel
  rw [Option.map_eq_some_iff] at h
  obtain ⟨s, h1, h2⟩ := h
  simp only [Prod.mk.injEq] at h2
  refine ⟨s, ?_, by decide +kernel, h2⟩
  unfold postStarShortest
  rw [hn]
  simp [h1]

end Verif.Props
