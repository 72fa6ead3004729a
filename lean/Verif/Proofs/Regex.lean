import Verif.Spec.Regex
import Verif.Proofs.NfaRun

/-! # The regular expression builder -/

namespace Verif

open Nfa

/-- No edge leads to an initial state. -/
def NoIn (m : Nfa) : Prop :=
  (∀ p, ∀ q ∈ m.initial, ¬m.Eps p q) ∧ ∀ p g, ∀ q ∈ m.initial, ¬m.Sym p g q

theorem NoIn.empty {m : Nfa} (h : NoIn m) {i j : Nat} {w : List Nat} (hj : j ∈ m.initial)
    (hp : WPath m.Eps m.Sym i w j) : w = [] := by
  have : ∀ {p w q}, WPath m.Eps m.Sym p w q → q ∈ m.initial → w = [] ∧ p = q := by
    intro p w q hp
    induction hp with
    | nil q => exact fun _ => ⟨rfl, rfl⟩
    | eps h3 _ ih => intro hq; exact (h.1 _ _ hq ((ih hq).2 ▸ h3)).elim
    | sym h3 _ ih => intro hq; exact (h.2 _ _ _ hq ((ih hq).2 ▸ h3)).elim
  exact (this hp hj).1

theorem Star.star {L : Words} {w : List Nat} (h : (Words.Star L).Star w) : L.Star w := by
  induction h with
  | nil => exact .nil
  | app u v hu _ ih => exact Star.append hu ih

theorem Star.mono {L M : Words} (h : ∀ w, L w → M w) {w : List Nat} (hw : L.Star w) : M.Star w := by
  induction hw with
  | nil => exact .nil
  | app u v hu _ ih => exact .app u v (h u hu) ih

theorem Star.plus {L : Words} {w : List Nat} (h : L.Star w) : L.Plus w ∨ w = [] := by
  cases h with
  | nil => exact .inr rfl
  | app u v hu hv => exact .inl ⟨u, v, rfl, hu, hv⟩

/-- Paths between initial states read words of the closure of `L`. -/
def Restart (m : Nfa) (L : Words) : Prop :=
  ∀ w, ∀ i ∈ m.initial, ∀ j ∈ m.initial, WPath m.Eps m.Sym i w j → L.Star w

/-- What the builder knows about the automaton of an expression. -/
structure Good (addr : Nat → Nat) (L : Words) (ok fr lp : Bool) (m : Nfa) (k k' : Nat) : Prop where
  wf : m.WF
  le : k ≤ k'
  addr : ∀ q ∈ m.ptrs, ∃ i, k ≤ i ∧ i < k' ∧ q = addr i
  ne : m.initial ≠ []
  lang : ok = true → ∀ w, m.Lang w ↔ L w
  fresh : fr = true → NoIn m
  loop : ok = true → lp = true → Restart m L
  closed : lp = true → ∀ w, L.Star w → L w ∨ w = []

theorem Good.apart {addr : Nat → Nat} (ha : Function.Injective addr) {L L' : Words} {a b c a' b' c' : Bool} {m o : Nfa}
    {k k1 k2 : Nat} (h : Good addr L a b c m k k1) (h' : Good addr L' a' b' c' o k1 k2) : Apart m o := by
  intro q h1 h2
  obtain ⟨i, h3, h4, h5⟩ := h.addr q h1
  obtain ⟨j, h6, h7, h8⟩ := h'.addr q h2
  have := ha (h5.symm.trans h8)
  omega

theorem Good.set {addr : Nat → Nat} (ha : Function.Injective addr) (k : Nat) {syms : List Nat} (hs : SSorted syms)
    {neg : Bool} (hne : syms ≠ [] ∨ neg = true) (L : Words)
    (hL : ∀ w, L w ↔ ∃ g, w = [g] ∧ (if neg then g ∉ syms else g ∈ syms)) :
    Good addr L true true false (ofSet (addr k) (addr (k + 1)) syms neg) k (k + 2) := by
  have hq : addr k ≠ addr (k + 1) := fun h => by have := ha h; omega
  obtain ⟨h1, h2⟩ := ofSet_spec hq hs neg
  have hc : (!syms.isEmpty || neg) = true := by
    rcases hne with h | h
    · cases syms with
      | nil => exact absurd rfl h
      | cons a b => rfl
    · simp [h]
  have hm : ofSet (addr k) (addr (k + 1)) syms neg =
    { states := [(addr k, { edges := [{ neg := neg, syms := syms, dst := addr (k + 1) }] }), (addr (k + 1), { acc := true })],
      initial := [addr k], accepting := [addr (k + 1)] } := by
    unfold ofSet; rw [if_pos hc]
  have hd : ∀ p s e, (p, s) ∈ (ofSet (addr k) (addr (k + 1)) syms neg).states → e ∈ s.edges → e.dst = addr (k + 1) := by
    rw [hm]
    intro p s e h3 h4
    simp only [List.mem_cons, Prod.mk.injEq, List.not_mem_nil, or_false] at h3
    rcases h3 with ⟨_, rfl⟩ | ⟨_, rfl⟩
    · simp only [List.mem_singleton] at h4
      rw [h4]
    · simp at h4
  have hI : (ofSet (addr k) (addr (k + 1)) syms neg).initial = [addr k] := by rw [hm]
  refine ⟨h1, by omega, ?_, by rw [hI]; simp, fun _ w => (h2 w).trans (hL w).symm, fun _ => ⟨?_, ?_⟩, fun _ h => by simp at h,
    fun h => by simp at h⟩
  · have : (ofSet (addr k) (addr (k + 1)) syms neg).ptrs = [addr k, addr (k + 1)] := by rw [hm]; rfl
    rw [this]
    intro q hq
    simp only [List.mem_cons, List.not_mem_nil, or_false] at hq
    rcases hq with rfl | rfl
    · exact ⟨k, by omega, by omega, rfl⟩
    · exact ⟨k + 1, by omega, by omega, rfl⟩
  · rintro p q h3 ⟨s, e, h4, h5, _, rfl⟩
    rw [hI, List.mem_singleton, hd p s e h4 h5] at h3
    exact hq h3.symm
  · rintro p g q h3 ⟨s, e, h4, h5, _, rfl⟩
    rw [hI, List.mem_singleton, hd p s e h4 h5] at h3
    exact hq h3.symm

theorem Good.concat {addr : Nat → Nat} (ha : Function.Injective addr) {L L' : Words} {a b c a' b' c' : Bool} {m o : Nfa}
    {k k1 k2 : Nat} (h : Good addr L a b c m k k1) (h' : Good addr L' a' b' c' o k1 k2) :
    Good addr (L.concat L') (a && a') b false (m.concat o) k k2 := by
  have hd := h.apart ha h'
  obtain ⟨s1, s2, s3, s4, s5, s6⟩ := concat_spec h.wf h'.wf hd
  refine ⟨s1, Nat.le_trans h.le h'.le, ?_, by rw [s3]; exact h.ne, ?_, ?_, fun _ h => by simp at h, fun h => by simp at h⟩
  · intro q hq
    rw [s2, List.mem_append] at hq
    have := h.le
    have := h'.le
    rcases hq with hq | hq
    · obtain ⟨i, h1, h2, h3⟩ := h.addr q hq
      exact ⟨i, h1, by omega, h3⟩
    · obtain ⟨i, h1, h2, h3⟩ := h'.addr q hq
      exact ⟨i, by omega, h2, h3⟩
  · intro hok w
    rw [Bool.and_eq_true] at hok
    rw [concat_lang h.wf h'.wf hd]
    unfold Words.concat
    simp only [h.lang hok.1, h'.lang hok.2]
  · intro hb
    have hf := h.fresh hb
    constructor
    · intro p q hq hpq
      rw [s3] at hq
      rcases (s4 p q).1 hpq with h1 | h1 | h1
      · exact hf.1 p q hq h1
      · exact hd q (h.wf.init q hq) (h1.dst_mem h'.wf)
      · exact hd q (h.wf.init q hq) (h'.wf.init q h1.2)
    · intro p g q hq hpq
      rw [s3] at hq
      rcases (s5 p g q).1 hpq with h1 | h1
      · exact hf.2 p g q hq h1
      · exact hd q (h.wf.init q hq) (h1.dst_mem h'.wf)

theorem Good.or {addr : Nat → Nat} (ha : Function.Injective addr) {L L' : Words} {a b c a' b' c' : Bool} {m o : Nfa}
    {k k1 k2 : Nat} (h : Good addr L a b c m k k1) (h' : Good addr L' a' b' c' o k1 k2) :
    Good addr (fun w => L w ∨ L' w) (a && a') true false (m.or o (addr k2)) k (k2 + 1) := by
  have hd := h.apart ha h'
  have := h.le
  have := h'.le
  have hx : addr k2 ∉ m.ptrs := by
    intro hc
    obtain ⟨i, h1, h2, h3⟩ := h.addr _ hc
    have := ha h3; omega
  have hx' : addr k2 ∉ o.ptrs := by
    intro hc
    obtain ⟨i, h1, h2, h3⟩ := h'.addr _ hc
    have := ha h3; omega
  obtain ⟨s1, s2, s3, s4, s5, s6⟩ := or_spec h.wf h'.wf hd hx hx'
  refine ⟨s1, by omega, ?_, by rw [s3]; simp, ?_, fun _ => ⟨?_, ?_⟩, fun _ h => by simp at h, fun h => by simp at h⟩
  · intro q hq
    rw [s2, List.mem_append, List.mem_append, List.mem_singleton] at hq
    rcases hq with (hq | hq) | hq
    · obtain ⟨i, h1, h2, h3⟩ := h.addr q hq
      exact ⟨i, h1, by omega, h3⟩
    · obtain ⟨i, h1, h2, h3⟩ := h'.addr q hq
      exact ⟨i, by omega, by omega, h3⟩
    · exact ⟨k2, by omega, by omega, hq⟩
  · intro hok w
    rw [Bool.and_eq_true] at hok
    rw [or_lang h.wf h'.wf hd hx hx', h.lang hok.1, h'.lang hok.2]
  · intro p q hq hpq
    rw [s3, List.mem_singleton] at hq
    subst hq
    rcases (s4 p _).1 hpq with h1 | h1 | ⟨_, h1 | h1⟩
    · exact hx (h1.dst_mem h.wf)
    · exact hx' (h1.dst_mem h'.wf)
    · exact hx (h.wf.init _ h1)
    · exact hx' (h'.wf.init _ h1)
  · intro p g q hq hpq
    rw [s3, List.mem_singleton] at hq
    subst hq
    rcases (s5 p g _).1 hpq with h1 | h1
    · exact hx (h1.dst_mem h.wf)
    · exact hx' (h1.dst_mem h'.wf)

theorem Good.restart {addr : Nat → Nat} {L : Words} {b c : Bool} {m : Nfa} {k k' : Nat} (h : Good addr L true b c m k k')
    (hbc : (b || c) = true) : Restart m L := by
  rw [Bool.or_eq_true] at hbc
  rcases hbc with hb | hc
  · intro w i _ j hj hp
    rw [(h.fresh hb).empty hj hp]
    exact .nil
  · exact h.loop rfl hc

theorem Good.question {addr : Nat → Nat} {L : Words} {a b c : Bool} {m : Nfa} {k k' : Nat} (h : Good addr L a b c m k k') :
    Good addr (fun w => L w ∨ w = []) (a && (b || c)) b c m.question k k' := by
  obtain ⟨s1, s2, s3, s4, s5, s6⟩ := question_spec h.wf
  have he : m.question.Eps = m.Eps := by funext p q; exact propext (s4 p q)
  have hs : m.question.Sym = m.Sym := by funext p g q; exact propext (s5 p g q)
  refine ⟨s1, h.le, by rw [s2]; exact h.addr, by rw [s3]; exact h.ne, ?_, ?_, ?_, ?_⟩
  · intro hok w
    rw [Bool.and_eq_true] at hok
    obtain ⟨rfl, hbc⟩ := hok
    rw [question_lang h.wf, h.lang rfl]
    constructor
    · rintro (h1 | ⟨i, h1, j, h2, h3⟩)
      · exact .inl h1
      · rw [Bool.or_eq_true] at hbc
        rcases hbc with hb | hc
        · exact .inr ((h.fresh hb).empty h2 h3)
        · exact h.closed hc w (h.loop rfl hc w i h1 j h2 h3)
    · rintro (h1 | rfl)
      · exact .inl h1
      · obtain ⟨i, hi⟩ := List.exists_mem_of_ne_nil _ h.ne
        exact .inr ⟨i, hi, i, hi, .nil i⟩
  · intro hb
    unfold NoIn
    rw [he, hs, s3]
    exact h.fresh hb
  · intro hok hc
    rw [Bool.and_eq_true] at hok
    intro w i hi j hj hp
    rw [he, hs] at hp
    rw [s3] at hi hj
    exact Star.mono (fun w hw => .inl hw) (h.loop hok.1 hc w i hi j hj hp)
  · intro hc w hw
    have : L.Star w := by
      induction hw with
      | nil => exact .nil
      | app u v hu _ ih =>
        rcases hu with hu | rfl
        · exact .app u v hu ih
        · exact ih
    rcases h.closed hc w this with h1 | h1
    · exact .inl (.inl h1)
    · exact .inr h1

/-- Paths between initial states after `plus_extend`. -/
theorem plus_restart {addr : Nat → Nat} {L : Words} {b c : Bool} {m : Nfa} {k k' : Nat} (h : Good addr L true b c m k k')
    (hbc : (b || c) = true) : Restart m.plus L := by
  have hr := h.restart hbc
  have hp := plus_spec h.wf.nodup
  have hL : ∀ w, Words.Star m.Lang w → L.Star w := fun w hw => Star.mono (fun w hw => (h.lang rfl w).1 hw) hw
  intro w i hi j hj hpath
  rw [hp.initial] at hi hj
  rcases plus_path h.wf hpath with h1 | ⟨u, v, x, u', rfl, ⟨f, h1, h2⟩, h3, h4, h5⟩
  · exact hr w i hi j hj h1
  · exact Star.append (Star.of ((h.lang rfl u).1 ⟨i, hi, f, h1, h2⟩)) (Star.append (hL v h3) (hr u' x h4 j hj h5))

theorem Good.plus {addr : Nat → Nat} {L : Words} {a b c : Bool} {m : Nfa} {k k' : Nat} (h : Good addr L a b c m k k') :
    Good addr L.Plus a false (b || c) m.plus k k' := by
  have hp := plus_spec h.wf.nodup
  refine ⟨plus_wf h.wf, h.le, by rw [hp.ptrs]; exact h.addr, by rw [hp.initial]; exact h.ne, ?_, fun h => by simp at h, ?_, ?_⟩
  · intro hok w
    rw [plus_lang h.wf]
    unfold Words.Plus Words.concat
    have hL : m.Lang = L := by funext w; exact propext (h.lang hok w)
    rw [hL]
  · intro hok hbc w i hi j hj hpath
    subst hok
    rcases Star.plus (plus_restart h hbc w i hi j hj hpath) with h1 | rfl
    · exact Star.of h1
    · exact .nil
  · intro _ w hw
    exact Star.plus (Star.star (Star.mono (fun w hw => Plus.star hw) hw))

theorem Good.star {addr : Nat → Nat} {L : Words} {a b c : Bool} {m : Nfa} {k k' : Nat} (h : Good addr L a b c m k k') :
    Good addr L.Star (a && (b || c)) false (b || c) m.star k k' := by
  have hp := plus_spec h.wf.nodup
  obtain ⟨s1, s2, s3, s4, s5, s6⟩ := question_spec (plus_wf h.wf)
  have he : m.star.Eps = m.plus.Eps := by funext p q; exact propext (s4 p q)
  have hs : m.star.Sym = m.plus.Sym := by funext p g q; exact propext (s5 p g q)
  have hI : m.star.initial = m.initial := s3.trans hp.initial
  refine ⟨s1, h.le, ?_, by rw [hI]; exact h.ne, ?_, fun h => by simp at h, ?_, ?_⟩
  · have : m.star.ptrs = m.ptrs := s2.trans hp.ptrs
    rw [this]; exact h.addr
  · intro hok w
    rw [Bool.and_eq_true] at hok
    obtain ⟨rfl, hbc⟩ := hok
    rw [star_lang h.wf]
    have hL : m.Lang = L := by funext w; exact propext (h.lang rfl w)
    rw [hL]
    constructor
    · rintro (h1 | ⟨v, u, i, rfl, h1, h2, j, h3, h4⟩)
      · exact Plus.star h1
      · exact Star.append h1 (h.restart hbc u i h2 j h3 h4)
    · intro h1
      obtain ⟨i, hi⟩ := List.exists_mem_of_ne_nil _ h.ne
      rcases Star.plus h1 with h1 | rfl
      · exact .inl h1
      · exact .inr ⟨[], [], i, rfl, .nil, hi, i, hi, .nil i⟩
  · intro hok hbc w i hi j hj hpath
    rw [Bool.and_eq_true] at hok
    obtain ⟨rfl, _⟩ := hok
    have := plus_restart h hbc w i (by rw [hp.initial, ← hI]; exact hi) j (by rw [hp.initial, ← hI]; exact hj)
      (by rw [← he, ← hs]; exact hpath)
    exact Star.of this
  · intro _ w hw
    exact .inl (Star.star hw)

/-! ## The stacks -/

namespace Builder

/-- `n` times `pop_op<CONCAT>`. -/
def popConcatN : Nat → Builder → Option Builder
  | 0, b => some b
  | n + 1, b => (popConcatN n b).bind popConcat

/-- `n` times `pop_op<OR>`. -/
def popOrN (addr : Nat → Nat) : Nat → Builder → Option Builder
  | 0, b => some b
  | n + 1, b => (popOrN addr n b).bind (popOr addr)

theorem popConcatN_succ (n : Nat) (b : Builder) : popConcatN (n + 1) b = b.popConcat.bind (popConcatN n) := by
  induction n generalizing b with
  | zero => simp [popConcatN]
  | succ n ih =>
    rw [popConcatN, ih, Option.bind_assoc]
    rfl

theorem popOrN_succ (addr : Nat → Nat) (n : Nat) (b : Builder) :
    popOrN addr (n + 1) b = (b.popOr addr).bind (popOrN addr n) := by
  induction n generalizing b with
  | zero => simp [popOrN]
  | succ n ih =>
    rw [popOrN, ih, Option.bind_assoc]
    rfl

theorem popConcat_ops {b b' : Builder} (h : b.popConcat = some b') : b.ops = .concat :: b'.ops := by
  unfold popConcat at h
  split at h
  · rename_i h1 h2
    simp only [Option.some.injEq] at h
    rw [h2, ← h]
  · simp at h

theorem popOr_ops {addr : Nat → Nat} {b b' : Builder} (h : b.popOr addr = some b') : b.ops = .or :: b'.ops := by
  unfold popOr at h
  split at h
  · rename_i h1 h2
    simp only [Option.some.injEq] at h
    rw [h2, ← h]
  · simp at h

theorem reduceConcatLoop_eq (n k : Nat) (b b' : Builder) (ops : List OpTag)
    (h : b.ops = List.replicate n .concat ++ ops) (hops : ops.head? ≠ some .concat) (hk : n ≤ k)
    (hb : popConcatN n b = some b') : reduceConcatLoop k b = some b' := by
  induction n generalizing k b with
  | zero =>
    simp only [popConcatN, Option.some.injEq] at hb
    subst hb
    cases k with
    | zero => rfl
    | succ k =>
      unfold reduceConcatLoop
      rw [if_neg]
      rw [h]; simpa using hops
  | succ n ih =>
    obtain ⟨k, rfl⟩ : ∃ k', k = k' + 1 := ⟨k - 1, by omega⟩
    rw [popConcatN_succ] at hb
    unfold reduceConcatLoop
    rw [if_pos (by rw [h, List.replicate_succ]; rfl)]
    cases hc : b.popConcat with
    | none => rw [hc] at hb; simp at hb
    | some b1 =>
      rw [hc, Option.bind_some] at hb
      rw [Option.bind_some]
      refine ih k b1 ?_ (by omega) hb
      have := popConcat_ops hc
      rw [h, List.replicate_succ, List.cons_append, List.cons.injEq] at this
      exact this.2.symm

theorem reduceOrLoop_eq (addr : Nat → Nat) (n k : Nat) (b b' : Builder) (ops : List OpTag)
    (h : b.ops = List.replicate n .or ++ ops) (hops : ops.head? ≠ some .or) (hk : n ≤ k)
    (hb : popOrN addr n b = some b') : reduceOrLoop addr k b = some b' := by
  induction n generalizing k b with
  | zero =>
    simp only [popOrN, Option.some.injEq] at hb
    subst hb
    cases k with
    | zero => rfl
    | succ k =>
      unfold reduceOrLoop
      rw [if_neg]
      rw [h]; simpa using hops
  | succ n ih =>
    obtain ⟨k, rfl⟩ : ∃ k', k = k' + 1 := ⟨k - 1, by omega⟩
    rw [popOrN_succ] at hb
    unfold reduceOrLoop
    rw [if_pos (by rw [h, List.replicate_succ]; rfl)]
    cases hc : b.popOr addr with
    | none => rw [hc] at hb; simp at hb
    | some b1 =>
      rw [hc, Option.bind_some] at hb
      rw [Option.bind_some]
      refine ih k b1 ?_ (by omega) hb
      have := popOr_ops hc
      rw [h, List.replicate_succ, List.cons_append, List.cons.injEq] at this
      exact this.2.symm

end Builder

theorem labelSet_spec (ls : List Nat) : SSorted (labelSet ls) ∧ ∀ x, x ∈ labelSet ls ↔ x ∈ ls := by
  suffices h : ∀ (ls s : List Nat), VSet.Sorted natLt s →
      VSet.Sorted natLt (ls.foldl (fun s l => (VSet.emplace natLt s l).1) s) ∧
      ∀ x, x ∈ ls.foldl (fun s l => (VSet.emplace natLt s l).1) s ↔ x ∈ s ∨ x ∈ ls by
    obtain ⟨h1, h2⟩ := h ls [] List.Pairwise.nil
    exact ⟨sorted_ssorted h1, fun x => by rw [labelSet, h2]; simp⟩
  intro ls
  induction ls with
  | nil => intro s hs; simp [hs]
  | cons l ls ih =>
    intro s hs
    obtain ⟨h1, h2⟩ := ih _ (VSet.emplace_sorted natLt_total hs l)
    refine ⟨h1, fun x => ?_⟩
    rw [List.foldl_cons, h2, VSet.mem_emplace natLt_total]
    simp only [List.mem_cons]
    grind

open Builder

mutual
theorem RVal.acts_spec {addr : Nat → Nat} (ha : Function.Injective addr) (v : RVal) (b : Builder) :
    ∃ m k', v.acts addr b = some ⟨m :: b.nfas, b.ops, k'⟩ ∧ Good addr v.Den v.ok v.fresh v.loops m b.next k' := by
  match v with
  | .dot =>
    refine ⟨_, _, rfl, ?_⟩
    have := Good.set ha b.next (syms := []) (by decide) (neg := true) (.inr rfl) (RVal.Den .dot) (by
      intro w; simp [RVal.Den])
    simpa [RVal.ok, RVal.fresh, RVal.loops] using this
  | .set neg l ls =>
    refine ⟨_, _, rfl, ?_⟩
    obtain ⟨h1, h2⟩ := labelSet_spec (l :: ls)
    have hne : labelSet (l :: ls) ≠ [] := by
      intro h
      have := (h2 l).2 (by simp)
      rw [h] at this
      simp at this
    have := Good.set ha b.next h1 (neg := neg) (.inl hne) (RVal.Den (.set neg l ls)) (by
      intro w; simp only [RVal.Den, h2])
    simpa [RVal.ok, RVal.fresh, RVal.loops] using this
  | .group e =>
    obtain ⟨n, b1, m, k', h1, h2, h3, h4⟩ := RAlt.acts_spec ha e (b.pushOp .bracket) (by simp [pushOp])
    refine ⟨m, k', ?_, ?_⟩
    · unfold RVal.acts
      rw [h1, Option.bind_some]
      have h5 : reduceOr addr b1 = some ⟨m :: b.nfas, .bracket :: b.ops, k'⟩ :=
        reduceOrLoop_eq addr n _ b1 _ (.bracket :: b.ops) h2 (by simp) (by rw [h2]; simp) h3
      rw [h5, Option.bind_some]
      rfl
    · simpa [RVal.Den, RVal.ok, RVal.fresh, RVal.loops, pushOp] using h4
  termination_by structural v

theorem RUn.acts_spec {addr : Nat → Nat} (ha : Function.Injective addr) (u : RUn) (b : Builder) :
    ∃ m k', u.acts addr b = some ⟨m :: b.nfas, .concat :: b.ops, k'⟩ ∧
      Good addr u.Den u.ok u.fresh u.loops m b.next k' := by
  match u with
  | .mk v p =>
    obtain ⟨m, k', h1, h2⟩ := RVal.acts_spec ha v b
    unfold RUn.acts
    rw [h1, Option.bind_some]
    match p with
    | none => exact ⟨m, k', rfl, by simpa [RUn.Den, RUn.ok, RUn.fresh, RUn.loops] using h2⟩
    | some .star => exact ⟨m.star, k', rfl, by simpa [RUn.Den, RUn.ok, RUn.fresh, RUn.loops] using h2.star⟩
    | some .plus => exact ⟨m.plus, k', rfl, by simpa [RUn.Den, RUn.ok, RUn.fresh, RUn.loops] using h2.plus⟩
    | some .question => exact ⟨m.question, k', rfl, by simpa [RUn.Den, RUn.ok, RUn.fresh, RUn.loops] using h2.question⟩
  termination_by structural u

theorem RSeq.acts_spec {addr : Nat → Nat} (ha : Function.Injective addr) (s : RSeq) (b : Builder) :
    ∃ n nfas m k', s.acts0 addr b = some ⟨nfas, .concat :: (List.replicate n .concat ++ b.ops), k'⟩ ∧
      popConcatN n ⟨nfas, List.replicate n .concat ++ b.ops, k'⟩ = some ⟨m :: b.nfas, b.ops, k'⟩ ∧
      Good addr s.Den s.ok s.fresh s.loops m b.next k' := by
  match s with
  | .one u =>
    obtain ⟨m, k', h1, h2⟩ := RUn.acts_spec ha u b
    refine ⟨0, m :: b.nfas, m, k', ?_, rfl, by simpa [RSeq.Den, RSeq.ok, RSeq.fresh, RSeq.loops] using h2⟩
    unfold RSeq.acts0
    rw [h1]; rfl
  | .more u s =>
    obtain ⟨m, k1, h1, h2⟩ := RUn.acts_spec ha u b
    obtain ⟨n, nfas, o, k2, h3, h4, h5⟩ := RSeq.acts_spec ha s ⟨m :: b.nfas, .concat :: b.ops, k1⟩
    refine ⟨n + 1, nfas, m.concat o, k2, ?_, ?_, ?_⟩
    · unfold RSeq.acts0
      rw [h1, Option.bind_some, h3]
      simp only [Option.some.injEq, Builder.mk.injEq, true_and, and_true]
      rw [List.replicate_succ']
      simp
    · have : List.replicate (n + 1) OpTag.concat ++ b.ops = List.replicate n .concat ++ (.concat :: b.ops) := by
        rw [List.replicate_succ']; simp
      rw [popConcatN, this, h4]
      rfl
    · simpa [RSeq.Den, RSeq.ok, RSeq.fresh, RSeq.loops] using h2.concat ha h5
  termination_by structural s

theorem RAlt.acts_spec {addr : Nat → Nat} (ha : Function.Injective addr) (e : RAlt) (b : Builder)
    (hb : b.ops.head? ≠ some .concat) :
    ∃ n b1 m k', e.acts0 addr b = some b1 ∧ b1.ops = List.replicate n .or ++ b.ops ∧
      popOrN addr n b1 = some ⟨m :: b.nfas, b.ops, k'⟩ ∧
      Good addr e.Den e.ok e.fresh e.loops m b.next k' := by
  match e with
  | .one s =>
    obtain ⟨n, nfas, m, k', h1, h2, h3⟩ := RSeq.acts_spec ha s b
    refine ⟨0, ⟨m :: b.nfas, b.ops, k'⟩, m, k', ?_, by simp, rfl,
      by simpa [RAlt.Den, RAlt.ok, RAlt.fresh, RAlt.loops] using h3⟩
    unfold RAlt.acts0
    rw [h1, Option.bind_some]
    exact reduceConcatLoop_eq n _ _ _ b.ops rfl hb (by simp) h2
  | .more s a =>
    obtain ⟨n, nfas, m, k1, h1, h2, h3⟩ := RSeq.acts_spec ha s b
    obtain ⟨n', b1, o, k2, h4, h5, h6, h7⟩ := RAlt.acts_spec ha a ⟨m :: b.nfas, .or :: b.ops, k1⟩ (by simp)
    refine ⟨n' + 1, b1, m.or o (addr k2), k2 + 1, ?_, ?_, ?_, ?_⟩
    · unfold RAlt.acts0
      rw [h1, Option.bind_some]
      have : reduceConcat ⟨nfas, .concat :: (List.replicate n .concat ++ b.ops), k1⟩ = some ⟨m :: b.nfas, b.ops, k1⟩ :=
        reduceConcatLoop_eq n _ _ _ b.ops rfl hb (by simp) h2
      rw [this, Option.bind_some]
      exact h4
    · rw [h5, List.replicate_succ']; simp
    · rw [popOrN, h6]; rfl
    · simpa [RAlt.Den, RAlt.ok, RAlt.fresh, RAlt.loops] using h3.or ha h7
  termination_by structural e
end

end Verif
