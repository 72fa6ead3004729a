import Verif.Spec.PExpr
import Verif.Spec.Regex
import Verif.Proofs.Typed
import Verif.Proofs.Algorithms
import Verif.Proofs.AutOps

/-! # Lemmas about the parser for P-automaton expressions -/

namespace Verif

variable {L S W : Type}

/-! ## Numbers for names -/

mutual
/-- The expression with numbers for the labels. -/
def SVal.toR (f : L → Nat) : SVal L → RVal
  | .dot => .dot
  | .set neg l ls => .set neg (f l) (ls.map f)
  | .group e => .group (e.toR f)
def SUn.toR (f : L → Nat) : SUn L → RUn
  | .mk v p => .mk (v.toR f) p
def SSeq.toR (f : L → Nat) : SSeq L → RSeq
  | .one u => .one (u.toR f)
  | .more u s => .more (u.toR f) (s.toR f)
def SAlt.toR (f : L → Nat) : SAlt L → RAlt
  | .one s => .one (s.toR f)
  | .more s a => .more (s.toR f) (a.toR f)
end

mutual
theorem SVal.shape_toR (f : L → Nat) : ∀ v : SVal L, (v.toR f).fresh = v.fresh ∧ (v.toR f).loops = v.loops ∧ (v.toR f).ok = v.ok
  | .dot => ⟨rfl, rfl, rfl⟩
  | .set _ _ _ => ⟨rfl, rfl, rfl⟩
  | .group e => e.shape_toR f
theorem SUn.shape_toR (f : L → Nat) : ∀ v : SUn L, (v.toR f).fresh = v.fresh ∧ (v.toR f).loops = v.loops ∧ (v.toR f).ok = v.ok
  | .mk v p => by
    obtain ⟨h1, h2, h3⟩ := v.shape_toR f
    rcases p with _ | _ | _ | _ <;>
      simp [SUn.toR, SUn.fresh, SUn.loops, SUn.ok, RUn.fresh, RUn.loops, RUn.ok, h1, h2, h3]
theorem SSeq.shape_toR (f : L → Nat) : ∀ v : SSeq L, (v.toR f).fresh = v.fresh ∧ (v.toR f).loops = v.loops ∧ (v.toR f).ok = v.ok
  | .one u => u.shape_toR f
  | .more u s => by
    obtain ⟨h1, h2, h3⟩ := u.shape_toR f
    obtain ⟨k1, k2, k3⟩ := s.shape_toR f
    simp [SSeq.toR, SSeq.fresh, SSeq.loops, SSeq.ok, RSeq.fresh, RSeq.loops, RSeq.ok, h1, h3, k3]
theorem SAlt.shape_toR (f : L → Nat) : ∀ v : SAlt L, (v.toR f).fresh = v.fresh ∧ (v.toR f).loops = v.loops ∧ (v.toR f).ok = v.ok
  | .one s => s.shape_toR f
  | .more s a => by
    obtain ⟨h1, h2, h3⟩ := s.shape_toR f
    obtain ⟨k1, k2, k3⟩ := a.shape_toR f
    simp [SAlt.toR, SAlt.fresh, SAlt.loops, SAlt.ok, RAlt.fresh, RAlt.loops, RAlt.ok, h3, k3]
end

/-- Repetition commutes with an injective translation of the words over `U`. -/
theorem star_map {f : L → Nat} {U : L → Prop} {R : Words} {D : List L → Prop}
    (h : ∀ ls, (∀ l ∈ ls, U l) → (R (ls.map f) ↔ D ls)) (ls : List L) (hl : ∀ l ∈ ls, U l) :
    R.Star (ls.map f) ↔ WStar D ls := by
  constructor
  · intro hs
    generalize hw : ls.map f = w at hs
    induction hs generalizing ls with
    | nil => rw [List.map_eq_nil_iff] at hw; subst hw; exact .nil
    | app u v hu _ ih =>
      rw [List.map_eq_append_iff] at hw
      obtain ⟨l1, l2, rfl, rfl, rfl⟩ := hw
      exact .app _ _ ((h l1 fun l hm => hl l (List.mem_append_left _ hm)).1 hu)
        (ih l2 (fun l hm => hl l (List.mem_append_right _ hm)) rfl)
  · intro hs
    induction hs with
    | nil => exact .nil
    | app u v hu _ ih =>
      rw [List.map_append]
      exact .app _ _ ((h u fun l hm => hl l (List.mem_append_left _ hm)).2 hu)
        (ih fun l hm => hl l (List.mem_append_right _ hm))

theorem concat_map {f : L → Nat} {U : L → Prop} {R R' : Words} {D D' : List L → Prop}
    (h : ∀ ls, (∀ l ∈ ls, U l) → (R (ls.map f) ↔ D ls)) (h' : ∀ ls, (∀ l ∈ ls, U l) → (R' (ls.map f) ↔ D' ls))
    (ls : List L) (hl : ∀ l ∈ ls, U l) :
    Words.concat R R' (ls.map f) ↔ ∃ x y, ls = x ++ y ∧ D x ∧ D' y := by
  constructor
  · rintro ⟨u, v, hw, hu, hv⟩
    rw [List.map_eq_append_iff] at hw
    obtain ⟨l1, l2, rfl, rfl, rfl⟩ := hw
    exact ⟨l1, l2, rfl, (h l1 fun l hm => hl l (List.mem_append_left _ hm)).1 hu,
      (h' l2 fun l hm => hl l (List.mem_append_right _ hm)).1 hv⟩
  · rintro ⟨x, y, rfl, hx, hy⟩
    exact ⟨_, _, List.map_append, (h x fun l hm => hl l (List.mem_append_left _ hm)).2 hx,
      (h' y fun l hm => hl l (List.mem_append_right _ hm)).2 hy⟩

section
variable {f : L → Nat} {U : L → Prop} (hf : ∀ a b, U a → U b → f a = f b → a = b)
include hf

mutual
theorem SVal.den_toR : ∀ v : SVal L, (∀ l ∈ v.labels, U l) → ∀ ls, (∀ l ∈ ls, U l) → ((v.toR f).Den (ls.map f) ↔ v.Den ls)
  | .dot, _, ls, _ => by
    simp only [SVal.toR, RVal.Den, SVal.Den]
    constructor
    · rintro ⟨g, hg⟩
      obtain ⟨a, rfl, _⟩ := List.map_eq_singleton_iff.1 hg
      exact ⟨a, rfl⟩
    · rintro ⟨g, rfl⟩; exact ⟨f g, rfl⟩
  | .set neg l0 ls0, hv, ls, hl => by
    simp only [SVal.toR, RVal.Den, SVal.Den]
    have key : ∀ a, U a → (f a ∈ f l0 :: ls0.map f ↔ a ∈ l0 :: ls0) := by
      intro a ha
      rw [← List.map_cons, List.mem_map]
      constructor
      · rintro ⟨b, hb, he⟩; rwa [← hf b a (hv b hb) ha he]
      · intro h; exact ⟨a, h, rfl⟩
    constructor
    · rintro ⟨g, hg, h⟩
      obtain ⟨a, rfl, rfl⟩ := List.map_eq_singleton_iff.1 hg
      refine ⟨a, rfl, ?_⟩
      cases neg <;> simpa [key a (hl a (by simp))] using h
    · rintro ⟨g, rfl, h⟩
      refine ⟨f g, rfl, ?_⟩
      have := key g (hl g (by simp))
      cases neg <;> simp only [Bool.false_eq_true, if_false, if_true] at h ⊢ <;> rw [this] <;> exact h
  | .group e, hv, ls, hl => SAlt.den_toR e hv ls hl
theorem SUn.den_toR : ∀ v : SUn L, (∀ l ∈ v.labels, U l) → ∀ ls, (∀ l ∈ ls, U l) → ((v.toR f).Den (ls.map f) ↔ v.Den ls)
  | .mk v none, hv, ls, hl => SVal.den_toR v hv ls hl
  | .mk v (some .star), hv, ls, hl => star_map (SVal.den_toR v hv) ls hl
  | .mk v (some .plus), hv, ls, hl => concat_map (SVal.den_toR v hv) (star_map (SVal.den_toR v hv)) ls hl
  | .mk v (some .question), hv, ls, hl => by
    simp only [SUn.toR, RUn.Den, SUn.Den]
    rw [SVal.den_toR v hv ls hl, List.map_eq_nil_iff]
theorem SSeq.den_toR : ∀ v : SSeq L, (∀ l ∈ v.labels, U l) → ∀ ls, (∀ l ∈ ls, U l) → ((v.toR f).Den (ls.map f) ↔ v.Den ls)
  | .one u, hv, ls, hl => SUn.den_toR u hv ls hl
  | .more u s, hv, ls, hl =>
    concat_map (SUn.den_toR u fun l hm => hv l (List.mem_append_left _ hm))
      (SSeq.den_toR s fun l hm => hv l (List.mem_append_right _ hm)) ls hl
theorem SAlt.den_toR : ∀ v : SAlt L, (∀ l ∈ v.labels, U l) → ∀ ls, (∀ l ∈ ls, U l) → ((v.toR f).Den (ls.map f) ↔ v.Den ls)
  | .one s, hv, ls, hl => SSeq.den_toR s hv ls hl
  | .more s a, hv, ls, hl =>
    or_congr (SSeq.den_toR s (fun l hm => hv l (List.mem_append_left _ hm)) ls hl)
      (SAlt.den_toR a (fun l hm => hv l (List.mem_append_right _ hm)) ls hl)
end
end

/-! ## Labels enter the PDA -/

section
variable [DecidableEq L]

/-- The PDA `t'` is `t` with the labels `ls` added at the end. -/
structure LabelsGrow (t t' : TPda L W) (ls : List L) : Prop where
  states : t'.states = t.states
  prefix_ : t.labels <+: t'.labels
  nodup : t.labels.Nodup → t'.labels.Nodup
  mem : ∀ l, l ∈ t'.labels ↔ l ∈ t.labels ∨ l ∈ ls

omit [DecidableEq L] in
theorem LabelsGrow.refl (t : TPda L W) : LabelsGrow t t [] := ⟨rfl, List.prefix_rfl, id, by simp⟩

omit [DecidableEq L] in
theorem LabelsGrow.trans {t t' t2 : TPda L W} {ls ls' : List L} (h : LabelsGrow t t' ls) (h' : LabelsGrow t' t2 ls') : LabelsGrow t t2 (ls ++ ls') :=
  ⟨h'.states.trans h.states, h.prefix_.trans h'.prefix_, fun hn => h'.nodup (h.nodup hn), fun l => by
    rw [h'.mem, h.mem, List.mem_append, or_assoc]⟩

theorem idxOf_prefix {l l' : List L} (h : l <+: l') {a : L} (ha : a ∈ l) : l'.idxOf a = l.idxOf a := by
  obtain ⟨m, rfl⟩ := h
  rw [List.idxOf_append, if_pos ha]

theorem insertLabel_grows (t : TPda L W) (l : L) : LabelsGrow t (t.insertLabel l).1 [l] ∧
    (t.insertLabel l).2 = (t.insertLabel l).1.labels.idxOf l := by
  unfold TPda.insertLabel
  cases hi : t.labelId l with
  | some i =>
    have hm : l ∈ t.labels := by
      by_contra hc
      rw [TPda.labelId, List.idxOf?_eq_none_iff.2 hc] at hi
      cases hi
    refine ⟨⟨rfl, List.prefix_rfl, id, fun x => ?_⟩, ?_⟩
    · simp only [List.mem_singleton]
      exact ⟨.inl, fun h => h.elim id fun h => h ▸ hm⟩
    · rw [TPda.labelId, List.idxOf?_eq_some_iff] at hi
      obtain ⟨h1, h2, h3⟩ := hi
      dsimp only
      symm
      rw [List.idxOf, List.findIdx_eq h1]
      exact ⟨by simpa using h2, fun j hj => by simpa using h3 j hj⟩
  | none =>
    have hm := (TPda.labelId_none t l).1 hi
    refine ⟨⟨rfl, List.prefix_append _ _, fun hn => ?_, fun x => by simp⟩, ?_⟩
    · dsimp only
      rw [List.nodup_append]
      exact ⟨hn, by simp, fun a ha b hb => by rw [List.mem_singleton] at hb; subst hb; rintro rfl; exact hm ha⟩
    · dsimp only
      rw [List.idxOf_append, if_neg hm]
      simp

theorem insertLabels_grows (ls : List L) (t : TPda L W) : LabelsGrow t (insertLabels t ls).1 ls ∧
    ∀ T, (insertLabels t ls).1.labels <+: T → (insertLabels t ls).2 = ls.map fun l => T.idxOf l := by
  induction ls generalizing t with
  | nil => exact ⟨LabelsGrow.refl t, fun _ _ => rfl⟩
  | cons l ls ih =>
    obtain ⟨h1, h2⟩ := insertLabel_grows t l
    obtain ⟨h3, h4⟩ := ih (t.insertLabel l).1
    refine ⟨h1.trans h3, fun T hT => ?_⟩
    simp only [insertLabels, List.map_cons]
    rw [h4 T hT, h2, idxOf_prefix (h3.prefix_.trans hT) ((h1.mem l).2 (.inr (by simp)))]

mutual
theorem SVal.enc_spec : ∀ (v : SVal L) (t : TPda L W), LabelsGrow t (v.enc t).1 v.labels ∧
    ∀ T, (v.enc t).1.labels <+: T → (v.enc t).2 = v.toR fun l => T.idxOf l
  | .dot, t => ⟨LabelsGrow.refl t, fun _ _ => rfl⟩
  | .set neg l ls, t => by
    obtain ⟨h1, h2⟩ := insertLabel_grows t l
    obtain ⟨h3, h4⟩ := insertLabels_grows ls (t.insertLabel l).1
    refine ⟨h1.trans h3, fun T hT => ?_⟩
    simp only [SVal.enc, SVal.toR] at hT ⊢
    rw [h4 T hT, h2, idxOf_prefix (h3.prefix_.trans hT) ((h1.mem l).2 (.inr (by simp)))]
  | .group e, t => ⟨(e.enc_spec t).1, fun T hT => by simp only [SVal.enc, SVal.toR] at hT ⊢; rw [(e.enc_spec t).2 T hT]⟩
theorem SUn.enc_spec : ∀ (v : SUn L) (t : TPda L W), LabelsGrow t (v.enc t).1 v.labels ∧
    ∀ T, (v.enc t).1.labels <+: T → (v.enc t).2 = v.toR fun l => T.idxOf l
  | .mk v p, t => ⟨(v.enc_spec t).1, fun T hT => by simp only [SUn.enc, SUn.toR] at hT ⊢; rw [(v.enc_spec t).2 T hT]⟩
theorem SSeq.enc_spec : ∀ (v : SSeq L) (t : TPda L W), LabelsGrow t (v.enc t).1 v.labels ∧
    ∀ T, (v.enc t).1.labels <+: T → (v.enc t).2 = v.toR fun l => T.idxOf l
  | .one u, t => ⟨(u.enc_spec t).1, fun T hT => by simp only [SSeq.enc, SSeq.toR] at hT ⊢; rw [(u.enc_spec t).2 T hT]⟩
  | .more u s, t => by
    obtain ⟨h1, h2⟩ := u.enc_spec t
    obtain ⟨h3, h4⟩ := s.enc_spec (u.enc t).1
    refine ⟨h1.trans h3, fun T hT => ?_⟩
    simp only [SSeq.enc, SSeq.toR] at hT ⊢
    rw [h4 T hT, h2 T (h3.prefix_.trans hT)]
theorem SAlt.enc_spec : ∀ (v : SAlt L) (t : TPda L W), LabelsGrow t (v.enc t).1 v.labels ∧
    ∀ T, (v.enc t).1.labels <+: T → (v.enc t).2 = v.toR fun l => T.idxOf l
  | .one s, t => ⟨(s.enc_spec t).1, fun T hT => by simp only [SAlt.enc, SAlt.toR] at hT ⊢; rw [(s.enc_spec t).2 T hT]⟩
  | .more s a, t => by
    obtain ⟨h1, h2⟩ := s.enc_spec t
    obtain ⟨h3, h4⟩ := a.enc_spec (s.enc t).1
    refine ⟨h1.trans h3, fun T hT => ?_⟩
    simp only [SAlt.enc, SAlt.toR] at hT ⊢
    rw [h4 T hT, h2 T (h3.prefix_.trans hT)]
end
end

/-! ## The symbols of the NFA -/

/-- All symbols on the edges of the NFA satisfy `P`. -/
def Nfa.Symbols (P : Nat → Prop) (m : Nfa) : Prop := ∀ q s, (q, s) ∈ m.states → ∀ e ∈ s.edges, ∀ g ∈ e.syms, P g

namespace Nfa

variable {P : Nat → Prop}

theorem Symbols.modify {m : Nfa} (h : m.Symbols P) (q : Nat) (f : NState → NState)
    (hf : ∀ s : NState, (∀ e ∈ s.edges, ∀ g ∈ e.syms, P g) → ∀ e ∈ (f s).edges, ∀ g ∈ e.syms, P g) : (m.modify q f).Symbols P := by
  intro q' s hs
  obtain ⟨x, hx, he⟩ := List.mem_map.1 hs
  split at he
  · cases he; exact hf _ (h x.1 x.2 hx)
  · subst he; exact h _ _ hx

theorem Symbols.addEpsAll {m : Nfa} (h : m.Symbols P) (q : Nat) (qs : List Nat) : (m.addEpsAll q qs).Symbols P := by
  unfold Nfa.addEpsAll
  induction qs generalizing m with
  | nil => exact h
  | cons a qs ih =>
    refine ih (h.modify q _ fun s hs e he g hg => ?_)
    rcases List.mem_append.1 he with he | he
    · exact hs e he g hg
    · rw [List.mem_singleton] at he; subst he; simp at hg

theorem Symbols.append {m o : Nfa} (h : m.Symbols P) (ho : o.Symbols P) (i a : List Nat) :
    Symbols P { states := m.states ++ o.states, initial := i, accepting := a } := by
  intro q s hs
  rcases List.mem_append.1 hs with hs | hs
  · exact h q s hs
  · exact ho q s hs

theorem Symbols.concat {m o : Nfa} (h : m.Symbols P) (ho : o.Symbols P) : (m.concat o).Symbols P := by
  have key : ∀ (l : List Nat) (x : Nfa), x.Symbols P →
      (l.foldl (fun m sa => (m.addEpsAll sa o.initial).modify sa ({ · with acc := false })) x).Symbols P := by
    intro l
    induction l with
    | nil => exact fun x hx => hx
    | cons a l ih => exact fun x hx => ih _ ((hx.addEpsAll a _).modify a _ fun s hs => hs)
  exact key m.accepting _ (h.append ho _ _)

theorem Symbols.question {m : Nfa} (h : m.Symbols P) : m.question.Symbols P := by
  have key : ∀ (l : List Nat) (x : Nfa), x.Symbols P → (l.foldl questionStep x).Symbols P := by
    intro l
    induction l with
    | nil => exact fun x hx => hx
    | cons a l ih =>
      intro x hx
      refine ih _ ?_
      unfold questionStep
      split
      · exact hx.modify a ({ · with acc := true }) fun s hs => hs
      · exact hx
  exact key _ _ h

theorem Symbols.plus {m : Nfa} (h : m.Symbols P) : m.plus.Symbols P := by
  have key1 : ∀ (x : Nfa) (s si : Nat), x.Symbols P → (x.plusEdge s si).Symbols P := by
    intro x s si hx
    unfold plusEdge
    split
    · refine hx.modify s _ fun st hs e he g hg => ?_
      obtain ⟨e', he', rfl⟩ := List.mem_map.1 he
      split at hg <;> exact hs e' he' g hg
    · refine hx.modify s _ fun st hs e he g hg => ?_
      rcases List.mem_append.1 he with he | he
      · exact hs e he g hg
      · rw [List.mem_singleton] at he; subst he; simp at hg
  have key2 : ∀ (l : List Nat) (s : Nat) (x : Nfa), x.Symbols P → (l.foldl (fun m si => m.plusEdge s si) x).Symbols P := by
    intro l s
    induction l with
    | nil => exact fun x hx => hx
    | cons a l ih => exact fun x hx => ih _ (key1 x s a hx)
  have key3 : ∀ (l : List Nat) (x : Nfa), x.Symbols P →
      (l.foldl (fun m s => m.initial.foldl (fun m si => m.plusEdge s si) m) x).Symbols P := by
    intro l
    induction l with
    | nil => exact fun x hx => hx
    | cons a l ih => exact fun x hx => ih _ (key2 _ a x hx)
  exact key3 _ _ h

theorem Symbols.or {m o : Nfa} (h : m.Symbols P) (ho : o.Symbols P) (q : Nat) : (m.or o q).Symbols P := by
  have h1 : Symbols P { m with states := m.states ++ o.states ++ [(q, {})] } := by
    intro q' s hs
    rcases List.mem_append.1 hs with hs | hs
    · rcases List.mem_append.1 hs with hs | hs
      · exact h q' s hs
      · exact ho q' s hs
    · rw [List.mem_singleton] at hs; cases hs; simp
  exact (h1.addEpsAll q _).addEpsAll q _

theorem Symbols.ofSet (q0 q1 : Nat) {syms : List Nat} (neg : Bool) (h : ∀ g ∈ syms, P g) : (Nfa.ofSet q0 q1 syms neg).Symbols P := by
  unfold Nfa.ofSet
  split
  · intro q s hs e he g hg
    simp only [List.mem_cons, List.not_mem_nil, or_false, Prod.mk.injEq] at hs
    rcases hs with ⟨_, rfl⟩ | ⟨_, rfl⟩
    · rw [List.mem_singleton] at he; subst he; exact h g hg
    · simp at he
  · intro q s hs; simp at hs

end Nfa

/-- All automata of the builder have symbols in `P`. -/
def Builder.Symbols (P : Nat → Prop) (b : Builder) : Prop := ∀ m ∈ b.nfas, m.Symbols P

namespace Builder

variable {P : Nat → Prop} {b b' : Builder}

theorem Symbols.popOr (addr : Nat → Nat) (h : b.Symbols P) (he : b.popOr addr = some b') : b'.Symbols P := by
  unfold Builder.popOr at he
  split at he
  · rename_i o m nfas ops h1 h2
    cases he
    intro x hx
    rcases List.mem_cons.1 hx with rfl | hx
    · exact (h m (by rw [h1]; simp)).or (h o (by rw [h1]; simp)) _
    · exact h x (by rw [h1]; simp [hx])
  · cases he

theorem Symbols.popConcat (h : b.Symbols P) (he : b.popConcat = some b') : b'.Symbols P := by
  unfold Builder.popConcat at he
  split at he
  · rename_i o m nfas ops h1 h2
    cases he
    intro x hx
    rcases List.mem_cons.1 hx with rfl | hx
    · exact (h m (by rw [h1]; simp)).concat (h o (by rw [h1]; simp))
    · exact h x (by rw [h1]; simp [hx])
  · cases he

theorem Symbols.reduceOrLoop (addr : Nat → Nat) (k : Nat) (h : b.Symbols P) (he : reduceOrLoop addr k b = some b') : b'.Symbols P := by
  induction k generalizing b with
  | zero => cases he; exact h
  | succ k ih =>
    unfold Builder.reduceOrLoop at he
    split at he
    · obtain ⟨b1, h1, h2⟩ := Option.bind_eq_some_iff.1 he
      exact ih (h.popOr addr h1) h2
    · cases he; exact h

theorem Symbols.reduceConcatLoop (k : Nat) (h : b.Symbols P) (he : reduceConcatLoop k b = some b') : b'.Symbols P := by
  induction k generalizing b with
  | zero => cases he; exact h
  | succ k ih =>
    unfold Builder.reduceConcatLoop at he
    split at he
    · obtain ⟨b1, h1, h2⟩ := Option.bind_eq_some_iff.1 he
      exact ih (h.popConcat h1) h2
    · cases he; exact h

theorem Symbols.reduceConcat (h : b.Symbols P) (he : b.reduceConcat = some b') : b'.Symbols P := by
  unfold Builder.reduceConcat at he
  split at he
  · rename_i ops _
    exact Symbols.reduceConcatLoop _ (b := { b with ops := ops }) h he
  · cases he

theorem Symbols.closeLoop (addr : Nat → Nat) (k : Nat) (h : b.Symbols P) (he : closeLoop addr k b = some b') : b'.Symbols P := by
  induction k generalizing b with
  | zero => cases he
  | succ k ih =>
    unfold Builder.closeLoop at he
    split at he
    · cases he; exact h
    · obtain ⟨b1, h1, h2⟩ := Option.bind_eq_some_iff.1 he
      exact ih (h.popOr addr h1) h2
    · obtain ⟨b1, h1, h2⟩ := Option.bind_eq_some_iff.1 he
      exact ih (h.popConcat h1) h2
    · cases he

theorem Symbols.post {p : Option Post} (h : b.Symbols P) (he : b.post p = some b') : b'.Symbols P := by
  unfold Builder.post at he
  split at he
  · cases he; exact h
  · cases he
  all_goals
    rename_i m nfas h1
    cases he
    intro x hx
    rcases List.mem_cons.1 hx with rfl | hx
    · first
        | exact (h m (by rw [h1]; simp)).plus.question
        | exact (h m (by rw [h1]; simp)).plus
        | exact (h m (by rw [h1]; simp)).question
    · exact h x (by rw [h1]; simp [hx])

theorem Symbols.emplace (addr : Nat → Nat) (h : b.Symbols P) {syms : List Nat} (neg : Bool) (hs : ∀ g ∈ syms, P g) :
    (b.emplaceSet addr syms neg).Symbols P := by
  intro x hx
  rcases List.mem_cons.1 hx with rfl | hx
  · exact .ofSet _ _ neg hs
  · exact h x hx

end Builder

theorem mem_labelSet (ls : List Nat) (g : Nat) (h : g ∈ labelSet ls) : g ∈ ls := by
  have key : ∀ (ls s : List Nat), g ∈ ls.foldl (fun s l => (VSet.emplace natLt s l).1) s → g ∈ s ∨ g ∈ ls := by
    intro ls
    induction ls with
    | nil => exact fun s h => .inl h
    | cons l ls ih =>
      intro s h
      rcases ih _ h with h | h
      · rcases (VSet.mem_emplace natLt_total l g).1 h with h | rfl
        · exact .inl h
        · exact .inr (by simp)
      · exact .inr (List.mem_cons_of_mem _ h)
  rcases key ls [] h with h | h
  · cases h
  · exact h

section
variable {P : Nat → Prop} {f : L → Nat} (addr : Nat → Nat)

mutual
theorem SVal.acts_symbols : ∀ (v : SVal L), (∀ l ∈ v.labels, P (f l)) → ∀ b b' : Builder, b.Symbols P →
    (v.toR f).acts addr b = some b' → b'.Symbols P
  | .dot, _, b, b', hb, h => by
    simp only [SVal.toR, RVal.acts] at h
    cases h; exact hb.emplace addr true (by simp)
  | .set neg l ls, hv, b, b', hb, h => by
    simp only [SVal.toR, RVal.acts] at h
    cases h
    refine hb.emplace addr neg fun g hg => ?_
    have := mem_labelSet _ g hg
    rw [← List.map_cons, List.mem_map] at this
    obtain ⟨a, ha, rfl⟩ := this
    exact hv a ha
  | .group e, hv, b, b', hb, h => by
    simp only [SVal.toR, RVal.acts] at h
    obtain ⟨b2, h2, h3⟩ := Option.bind_eq_some_iff.1 h
    obtain ⟨b1, h1, h2⟩ := Option.bind_eq_some_iff.1 h2
    have k1 := SAlt.acts_symbols e hv _ _ (show (b.pushOp .bracket).Symbols P from hb) h1
    exact Builder.Symbols.closeLoop addr _ (k1.reduceOrLoop addr _ h2) h3
theorem SUn.acts_symbols : ∀ (v : SUn L), (∀ l ∈ v.labels, P (f l)) → ∀ b b' : Builder, b.Symbols P →
    (v.toR f).acts addr b = some b' → b'.Symbols P
  | .mk v p, hv, b, b', hb, h => by
    simp only [SUn.toR, RUn.acts] at h
    obtain ⟨b1, h1, h2⟩ := Option.bind_eq_some_iff.1 h
    obtain ⟨b2, h4, h3⟩ := Option.bind_eq_some_iff.1 h2
    cases h3
    exact show b2.Symbols P from (SVal.acts_symbols v hv _ _ hb h1).post h4
theorem SSeq.acts_symbols : ∀ (v : SSeq L), (∀ l ∈ v.labels, P (f l)) → ∀ b b' : Builder, b.Symbols P →
    (v.toR f).acts0 addr b = some b' → b'.Symbols P
  | .one u, hv, b, b', hb, h => SUn.acts_symbols u hv b b' hb h
  | .more u s, hv, b, b', hb, h => by
    simp only [SSeq.toR, RSeq.acts0] at h
    obtain ⟨b1, h1, h2⟩ := Option.bind_eq_some_iff.1 h
    exact SSeq.acts_symbols s (fun l hm => hv l (List.mem_append_right _ hm)) _ _
      (SUn.acts_symbols u (fun l hm => hv l (List.mem_append_left _ hm)) _ _ hb h1) h2
theorem SAlt.acts_symbols : ∀ (v : SAlt L), (∀ l ∈ v.labels, P (f l)) → ∀ b b' : Builder, b.Symbols P →
    (v.toR f).acts0 addr b = some b' → b'.Symbols P
  | .one s, hv, b, b', hb, h => by
    simp only [SAlt.toR, RAlt.acts0] at h
    obtain ⟨b1, h1, h2⟩ := Option.bind_eq_some_iff.1 h
    exact (SSeq.acts_symbols s hv _ _ hb h1).reduceConcat h2
  | .more s a, hv, b, b', hb, h => by
    simp only [SAlt.toR, RAlt.acts0] at h
    obtain ⟨b2, h2, h3⟩ := Option.bind_eq_some_iff.1 h
    obtain ⟨b1, h1, h2⟩ := Option.bind_eq_some_iff.1 h2
    have k1 := (SSeq.acts_symbols s (fun l hm => hv l (List.mem_append_left _ hm)) _ _ hb h1).reduceConcat h2
    exact SAlt.acts_symbols a (fun l hm => hv l (List.mem_append_right _ hm)) _ _ (show (b2.pushOp .or).Symbols P from k1) h3
end

/-- The symbols of the NFA come from the expression. -/
theorem parse_symbols (e : SAlt L) (he : ∀ l ∈ e.labels, P (f l)) (m : Nfa) (h : parseRegex addr (some (e.toR f)) = some m) :
    m.Symbols P := by
  unfold parseRegex RAlt.acts at h
  obtain ⟨b2, h2, h3⟩ := Option.bind_eq_some_iff.1 h
  obtain ⟨b1, h1, h2⟩ := Option.bind_eq_some_iff.1 h2
  have k := (SAlt.acts_symbols addr e he _ _ (show ({} : Builder).Symbols P from fun m hm => by cases hm) h1).reduceOrLoop addr _ h2
  unfold Builder.getNfa at h3
  split at h3
  · cases h3
    intro q s hs e he
    simp only [Nfa.ofBool, List.mem_singleton] at hs
    cases hs
    simp at he
  · rename_i h4
    cases h3
    exact k m (by rw [h4]; simp)
  · cases h3
end

end Verif
