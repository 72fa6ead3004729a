import Verif.Proofs.ShortestPostSearch
import Verif.Proofs.ShortestTrace
import Verif.Proofs.ShortestPreFinal

/-! # The path that a shortest post* search leaves in the product -/

namespace Verif

open SProd Product

variable {W T : Type} [LinearOrder W] [LinearOrder T] [AddCommMonoid T] [IsOrderedCancelAddMonoid T]
variable {p : Pda W} {val : W → T} {a b A : Aut T} {qp : List ((Nat × Nat) × Nat)} {N : Nat} {e : SProd T}

omit [LinearOrder W] [LinearOrder T] [IsOrderedCancelAddMonoid T] in
theorem CostTrace.run {R : URule W → Prop} {cs : List Config} {x : T} {c c' : Config} (h : CostTrace R val cs x)
    (h1 : cs.head? = some c) (h2 : cs.getLast? = some c') : CostRun R val c x c' := by
  induction h generalizing c with
  | one c1 =>
    simp only [List.getLast?_singleton, Option.some.injEq, List.head?_cons] at h2 h1
    rw [← h1, ← h2]
    exact .nil _
  | cons r w cs x hr _ ih =>
    rw [List.head?_cons, Option.some.injEq] at h1
    subst h1
    rw [List.getLast?_cons_cons] at h2
    exact .cons (R := R) (val := val) r w _ _ hr (ih rfl h2)

omit [LinearOrder W] [LinearOrder T] [AddCommMonoid T] [IsOrderedCancelAddMonoid T] in
theorem getTrace_untraced (h0 : ∀ x ∈ a.edges, x.2.1 = Trace.null) {path : APath Nat} (hE : ∀ t ∈ path.trs, t ∈ keys a.edges)
    (hn : path.isNull = false) : getTrace p a path = some [decodeEdges p path] := by
  have h1 := tbNext_untraced (p := p) h0 hE (path.edges.length * 3 ^ a.edges.length)
  unfold getTrace tbFuel traceLoop
  rw [hn, h1]
  rfl

/-- Unwinding an accepting path of the automaton after the search. -/
theorem PostEnd.trace (hc : SearchCtx p val a b qp N) (he : PostEnd p val a b qp N A e) (hl : p.nLabels < epsilon) (hN : N ≤ sizeMax)
    (h0 : ∀ x ∈ a.edges, x.2.1 = Trace.null) (path : APath Nat) (hacc : AcceptingPath A p.size path) :
    ∃ cs c', getTrace p A path = some cs ∧ CostTrace p.Has val cs (sumW A path.trs) ∧
      cs.head? = some c' ∧ c'.1 < p.size ∧ Accepted (· ∈ keys a.edges) (fun q => a.isAcc q = true) c' ∧
      cs.getLast? = some (confE path) := by
  rcases he.aut with rfl | ⟨κ, s, hi, rfl⟩
  · obtain ⟨hsp, hfr, hfin⟩ := hacc
    have hE : ∀ t ∈ path.trs, t ∈ keys A.edges := (trs_spells _ path.fin path.edges).1 hsp
    have hlab : ∀ g ∈ path.stack, g < p.nLabels :=
      Props.trs_labels (P := fun g => g < p.nLabels) fun t ht => (hc.ctx.valid t (hE t ht)).2.1
    have h1 : decodeEdges p path = (path.frontState, path.stack) := by
      unfold decodeEdges
      congr 1
      rw [List.filter_eq_self]
      intro g hg
      simpa using hlab g hg
    have h2 : confE path = (path.frontState, path.stack) := by
      unfold confE
      congr 1
      rw [List.filter_eq_self]
      intro g hg
      have := hlab g hg
      simp only [decide_eq_true_eq]
      omega
    have hlt := Aut.isAcc_lt hfin
    have hnn : path.isNull = false := by
      have := hc.ctx.le
      unfold APath.isNull
      rw [beq_eq_false_iff_ne]
      omega
    have hz : sumW A path.trs = 0 := sumW_zero _ _ fun t ht => (wt_of_zero hc.ctx.zero t 0).2 ⟨rfl, hE t ht⟩
    refine ⟨_, _, getTrace_untraced h0 hE hnn, ?_, rfl, ?_, ?_, ?_⟩
    · rw [hz]; exact .one _
    · rw [h1]; exact hfr
    · rw [h1]
      exact ⟨path.fin, hsp.path path.head_states path.last_states, hfin⟩
    · rw [h1, h2]; rfl
  · exact hi.trace hc.ctx hl hN h0 path hacc

/-- The path of `find_path<Shortest>`, on the states of the product. -/
theorem PostEnd.path (hc : SearchCtx p val a b qp N) {found : Bool} (hE : SearchEnd p val a b e found)
    (he : PostEnd p val a b qp N A e) {x : T} (hx : e.pathShortest.2 = (x : WithTop T)) :
    AcceptingPath e.base.aut e.base.size e.pathShortest.1 ∧
      sumW A (e.pathShortest.1.map fun q => (e.base.orig q).1).trs ≤ x := by
  obtain ⟨u, u1, u2, u3, u4⟩ := pathShortest_of hx
  obtain ⟨r, ts, c1, c2, c3⟩ := he.back.path u1 fun h => h
  have hs := he.back.sum (A := A) (fun _ _ _ _ _ h => h) (fun _ _ h => h)
    (fun t y ht => hc.other.noEps t (SProd.mem_of_wt ht)) c1 fun h => h
  rw [← u4] at c2 c3
  have hkey : e.key u = x := by
    unfold SProd.key
    rw [if_neg (Nat.not_lt.2 (hE.apart u u1 u2).1), u3]
  rw [hkey] at hs
  refine ⟨⟨(trs_spells _ _ _).2 c2.edges, c2.front, by rw [c2.fin]; exact u2⟩, ?_⟩
  have : (e.pathShortest.1.map fun q => (e.base.orig q).1).trs =
      ts.map fun t => ⟨(e.base.orig t.src).1, t.label, (e.base.orig t.dst).1⟩ := by
    rw [← c3]
    exact trs_map (fun q => (e.base.orig q).1) _ _
  rw [this]
  exact hs

/-- The path and its trace. -/
theorem PostEnd.result (hc : SearchCtx p val a b qp N) {found : Bool} (hE : SearchEnd p val a b e found)
    (he : PostEnd p val a b qp N A e) (hl : p.nLabels < epsilon) (hN : N ≤ sizeMax) (hfit : e.base.aut.n ≤ sizeMax)
    (h0 : ∀ y ∈ a.edges, y.2.1 = Trace.null) {x : T} (hx : e.pathShortest.2 = (x : WithTop T)) :
    ∃ P : APath Nat, e.findFirst = (P.map fun q => (e.base.orig q).1, (x : WithTop T)) ∧
      e.findPairs = (some (P.map e.base.orig), (x : WithTop T)) ∧
      AcceptingPath e.base.aut e.base.size P ∧
      AcceptingPath A p.size (P.map fun q => (e.base.orig q).1) ∧
      sumW A (P.map fun q => (e.base.orig q).1).trs = x ∧
      ∃ cs c c', getTrace p A (P.map fun q => (e.base.orig q).1) = some cs ∧ CostTrace p.Has val cs x ∧
      cs.head? = some c ∧ c.1 < p.size ∧ Accepted (· ∈ keys a.edges) (fun q => a.isAcc q = true) c ∧
      cs.getLast? = some c' ∧ Accepted (· ∈ keys b.edges) (fun q => b.isAcc q = true) c' := by
  obtain ⟨h1, h2⟩ := he.path hc hE hx
  have hB := hc.other.noEps
  have hfirst := he.l.base.first hB h1
  have hsec := he.l.base.second hB h1
  have hnn := AcceptingPath.notNull h1 hfit
  have hf : e.findFirst = (e.pathShortest.1.map fun q => (e.base.orig q).1, (x : WithTop T)) := by
    unfold SProd.findFirst
    rw [hnn, hx]
    rfl
  have hp : e.findPairs = (some (e.pathShortest.1.map e.base.orig), (x : WithTop T)) := by
    unfold SProd.findPairs
    rw [hnn, hx]
    rfl
  generalize e.pathShortest.1 = P at *
  dsimp only at hfirst
  rw [he.size] at hfirst
  obtain ⟨cs, c, t1, t2, t3, t4, t5, t6⟩ := he.trace hc hl hN h0 _ hfirst
  obtain ⟨s1, s2, s3, s4, s5⟩ := hsec
  have hc' : Accepted (· ∈ keys b.edges) (fun q => b.isAcc q = true) (confE (P.map fun q => (e.base.orig q).1)) := by
    refine ⟨_, ?_, s5⟩
    have hh : (confE (P.map fun q => (e.base.orig q).1)).1 = P.frontState := by
      unfold confE
      rw [APath.frontState_map, orig_lt h1.2.1]
    have hst : (confE (P.map fun q => (e.base.orig q).1)).2 =
        (P.map fun q => (e.base.orig q).2).pathAndStack.2 := by
      unfold confE
      rw [APath.stack_map, s3]
    rw [hh, hst]
    exact s1.path s2 s4
  have hmem : sumW A (P.map fun q => (e.base.orig q).1).trs ∈ Between p val a b :=
    ⟨c, _, t4, t5, t2.run t3 t6, hc'⟩
  have hge : x ≤ sumW A (P.map fun q => (e.base.orig q).1).trs := (((hE.findFirst).1 x).1 (by rw [hf])).2 hmem
  have heq := le_antisymm h2 hge
  rw [heq] at t2
  exact ⟨P, hf, hp, h1, hfirst, heq, cs, c, _, t1, t2, t3, t4, t5, t6, hc'⟩

end Verif
