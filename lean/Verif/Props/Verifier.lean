import Verif.Model.Verifier
import Verif.Spec.Named
import Verif.Props.PAutParser
import Verif.Props.ProductTrace
import Verif.Props.Solver
import Verif.Proofs.CegarYes
import Verif.Proofs.FixedTrace

/-! # C73: the report of the command-line tool

The tool reads a PDA and two expressions for sets of configurations, and reports whether one reaches the other. -/

namespace Verif.Props

open Verif Verif.Instance

variable {L S W : Type}

/-! ## The PDA with more labels -/

theorem wf_labels [LinearOrder W] {t t' : TPda L W} (hs : t'.states = t.states) (hl : t.labels <+: t'.labels) (h : t.core.WF) :
    t'.core.WF := by
  have hst : ∀ i, t'.core.st i = t.core.st i := fun i => by simp [Pda.st, TPda.core, hs]
  have hsz : t'.core.size = t.core.size := by simp [Pda.size, TPda.core, hs]
  have hle : t.core.nLabels ≤ t'.core.nLabels := hl.length_le
  refine ⟨fun i => ?_, fun i => ?_, fun i => ?_, fun i => ?_, fun i => ?_, fun i => ?_, fun i => ?_, fun i => ?_⟩
  · rw [hst]; exact h.sorted i
  · rw [hst, hsz]; exact h.toLt i
  · intro x hx; rw [hst] at hx ⊢; exact h.preMem i x hx
  · rw [hst, hsz]; exact h.preLt i
  · rw [hst]; exact h.preSorted i
  · rw [hst]; exact h.labWF i
  · rw [hst]; exact fun x hx g hg => Nat.lt_of_lt_of_le (h.labLt i x hx g hg) hle
  · rw [hst]; exact fun x hx ho => Nat.lt_of_lt_of_le (h.opLt i x hx ho) hle

theorem lookup_labels [LinearOrder W] [Zero W] {t t' : TPda L W} (hs : t'.states = t.states) (h : t.core.LookupOK) : t'.core.LookupOK := by
  intro i
  have : t'.core.st i = t.core.st i := by simp [Pda.st, TPda.core, hs]
  rw [this]
  exact h i

theorem has_spec [LinearOrder W] {p : Pda W} (hp : p.WF) {u : URule W} (h : p.Has u) :
    u.src < p.size ∧ u.pre < p.nLabels ∧ (u.op = .push ∨ u.op = .swap → u.opLabel < p.nLabels) := by
  unfold Pda.Has Pda.allRules at h
  simp only [List.mem_flatMap, List.mem_map, List.mem_range] at h
  obtain ⟨i, hi, e, he, g, hg, rfl⟩ := h
  refine ⟨hi, ?_, hp.opLt i e he⟩
  unfold Pda.expand at hg
  split at hg
  · exact List.mem_range.1 hg
  · exact hp.labLt i e he g hg

/-! ## Numbers and names -/

section
variable [Inhabited L]

/-- All labels of the stack are labels of the PDA. -/
def InRange (t : TPda L W) (w : List Nat) : Prop := ∀ g ∈ w, g < t.labels.length

theorem symbol_some (t : TPda L W) {g : Nat} (h : g < t.labels.length) : t.labels[g]? = some (t.symbol g) := by
  unfold TPda.symbol
  rw [List.getElem?_eq_getElem h]
  rfl

theorem numbers_symbol {t : TPda L W} {w : List Nat} (h : InRange t w) : Numbers t w (w.map t.symbol) := by
  unfold Numbers
  rw [List.map_map]
  exact List.map_congr_left fun g hg => symbol_some t (h g hg)

theorem numbers_names {t : TPda L W} {w : List Nat} {ls : List L} (h : Numbers t w ls) : InRange t w ∧ w.map t.symbol = ls := by
  unfold Numbers at h
  induction ls generalizing w with
  | nil =>
    rw [List.map_nil, List.map_eq_nil_iff] at h
    subst h
    exact ⟨by simp [InRange], rfl⟩
  | cons l ls ih =>
    cases w with
    | nil => simp at h
    | cons g w =>
      simp only [List.map_cons, List.cons.injEq] at h
      obtain ⟨h1, h2⟩ := ih h.2
      have h3 := (List.getElem?_eq_some_iff.1 h.1).1
      refine ⟨fun x hx => ?_, ?_⟩
      · rcases List.mem_cons.1 hx with rfl | hx
        · exact h3
        · exact h1 x hx
      · rw [List.map_cons, h2]
        have := (symbol_some t h3).symm.trans h.1
        rw [Option.some.inj this]

theorem symbol_inj {t : TPda L W} (hn : t.labels.Nodup) {i j : Nat} (hi : i < t.labels.length) (hj : j < t.labels.length)
    (h : t.symbol i = t.symbol j) : i = j := by
  have h1 := symbol_some t hi
  rw [h, ← symbol_some t hj] at h1
  rw [List.getElem?_eq_getElem hi, List.getElem?_eq_getElem hj, Option.some.injEq] at h1
  exact (List.Nodup.getElem_inj_iff hn).1 h1

theorem typed_repl {t : TPda L W} (u : URule W) (w : List Nat) :
    replacement (t.typed u).op (t.typed u).opLabel (t.typed u).pre ++ w.map t.symbol = (effect u.op u.pre u.opLabel w).map t.symbol := by
  unfold TPda.typed TPda.typedRule Pda.toImpl
  cases h : u.op <;> simp [replacement, effect]

/-- A move with numbers is a move with names. -/
theorem step_named [LinearOrder W] {t : TPda L W} (hp : t.core.WF) {c c' : Config} (h : Step t.core.Has c c') (hc : InRange t c.2) :
    NStep (· ∈ t.allRules) (c.1, c.2.map t.symbol) (c'.1, c'.2.map t.symbol) ∧ InRange t c'.2 := by
  cases h with
  | mk u w hu =>
    obtain ⟨h1, h2, h3⟩ := has_spec hp hu
    constructor
    · have := NStep.mk (R := (· ∈ t.allRules)) (t.typed u) (w.map t.symbol) ((t.mem_allRules _).2 ⟨u, hu, rfl⟩)
      rw [typed_repl] at this
      exact this
    · have hw : InRange t w := fun g hg => hc g (List.mem_cons_of_mem _ hg)
      intro g hg
      have hl : t.core.nLabels = t.labels.length := rfl
      cases ho : u.op <;> simp only [effect, ho, List.mem_cons] at hg
      · rcases hg with rfl | rfl | hg
        · exact h3 (.inl ho)
        · exact h2
        · exact hw g hg
      · exact hw g hg
      · rcases hg with rfl | hg
        · exact h3 (.inr ho)
        · exact hw g hg
      · rcases hg with rfl | hg
        · exact h2
        · exact hw g hg

/-- A move with names is a move with numbers. -/
theorem named_step [LinearOrder W] {t : TPda L W} (hp : t.core.WF) (hn : t.labels.Nodup) {c : Config} (hc : InRange t c.2)
    {d : Nat × List L} (h : NStep (· ∈ t.allRules) (c.1, c.2.map t.symbol) d) :
    ∃ c', Step t.core.Has c c' ∧ InRange t c'.2 ∧ d = (c'.1, c'.2.map t.symbol) := by
  obtain ⟨q, w0⟩ := c
  dsimp only at h hc
  generalize hx : w0.map t.symbol = x at h
  cases h with
  | mk r ls hr =>
    obtain ⟨u, hu, rfl⟩ := (t.mem_allRules r).1 hr
    obtain ⟨h1, h2, h3⟩ := has_spec hp hu
    obtain ⟨g, w, rfl, hg, rfl⟩ := List.map_eq_cons_iff.1 hx
    have : g = u.pre := symbol_inj hn (hc g (by simp)) h2 hg
    subst this
    have hst := Step.mk u w hu
    refine ⟨_, hst, (step_named hp hst hc).2, ?_⟩
    rw [typed_repl]
    rfl

theorem reach_named [LinearOrder W] {t : TPda L W} (hp : t.core.WF) {c c' : Config} (h : Reach t.core.Has c c') (hc : InRange t c.2) :
    NReach (· ∈ t.allRules) (c.1, c.2.map t.symbol) (c'.1, c'.2.map t.symbol) ∧ InRange t c'.2 := by
  induction h with
  | refl => exact ⟨.refl, hc⟩
  | tail _ h ih =>
    obtain ⟨h1, h2⟩ := step_named hp h ih.2
    exact ⟨.tail ih.1 h1, h2⟩

theorem named_reach [LinearOrder W] {t : TPda L W} (hp : t.core.WF) (hn : t.labels.Nodup) {c : Config} (hc : InRange t c.2)
    {d : Nat × List L} (h : NReach (· ∈ t.allRules) (c.1, c.2.map t.symbol) d) :
    ∃ c', Reach t.core.Has c c' ∧ InRange t c'.2 ∧ d = (c'.1, c'.2.map t.symbol) := by
  induction h with
  | refl => exact ⟨c, .refl, hc, rfl⟩
  | tail _ h ih =>
    obtain ⟨c1, h1, h2, rfl⟩ := ih
    obtain ⟨c2, h3, h4, rfl⟩ := named_step hp hn h2 h
    exact ⟨c2, .tail h1 h3, h4, rfl⟩

theorem chain_named [LinearOrder W] {t : TPda L W} (hp : t.core.WF) (cs : List Config) (h : cs.IsChain (Step t.core.Has))
    (hc : ∀ c, cs.head? = some c → InRange t c.2) : (namedTrace t cs).IsChain (NStep (· ∈ t.allRules)) := by
  unfold namedTrace
  induction cs with
  | nil => exact .nil
  | cons c cs ih =>
    cases cs with
    | nil => exact .singleton _
    | cons d cs =>
      rw [List.isChain_cons_cons] at h
      obtain ⟨h1, h2⟩ := step_named hp h.1 (hc c rfl)
      rw [List.map_cons, List.map_cons, List.isChain_cons_cons]
      exact ⟨h1, ih h.2 fun c hc => by cases hc; exact h2⟩
end

/-! ## The instance -/

/-- What the two automata accept, by names. -/
structure Meets [DecidableEq L] (t : TPda L W) (a : Aut W) (D : Nat → List L → Prop) : Prop where
  lang : ∀ c, c < t.states.length → ∀ w, (Lang a (c, w) ↔ ∃ ls, Numbers t w ls ∧ D c ls)
  labels : ∀ c ls, D c ls → c < t.states.length ∧ ∀ l ∈ ls, l ∈ t.labels

section
variable [DecidableEq L] [Inhabited L] [LinearOrder W] [Zero W]

omit [LinearOrder W] [Zero W] in
theorem Meets.named {t : TPda L W} (hn : t.labels.Nodup) {a : Aut W} {D : Nat → List L → Prop} (h : Meets t a D) {c : Nat} {w : List Nat}
    (hc : c < t.states.length) : Lang a (c, w) ↔ InRange t w ∧ D c (w.map t.symbol) := by
  rw [h.lang c hc w]
  constructor
  · rintro ⟨ls, h1, h2⟩
    obtain ⟨h3, rfl⟩ := numbers_names h1
    exact ⟨h3, h2⟩
  · rintro ⟨h1, h2⟩
    exact ⟨_, numbers_symbol h1, h2⟩

omit [Zero W] in
theorem step_lt {p : Pda W} (hp : p.WF) {c c' : Config} (h : Step p.Has c c') : c'.1 < p.size := by
  cases h with
  | mk u w hu =>
    have h := hu
    unfold Pda.Has Pda.allRules at h
    simp only [List.mem_flatMap, List.mem_map, List.mem_range] at h
    obtain ⟨i, hi, e, he, g, hg, rfl⟩ := h
    exact hp.toLt i e he

omit [Zero W] in
theorem reach_lt {p : Pda W} (hp : p.WF) {c c' : Config} (h : Reach p.Has c c') (hc : c.1 < p.size) : c'.1 < p.size := by
  cases h with
  | refl => exact hc
  | tail _ h => exact step_lt hp h

omit [Zero W] in
/-- Reachability with numbers is reachability with names. -/
theorem canReach_named {t : TPda L W} (hp : t.core.WF) (hn : t.labels.Nodup) {a b : Aut W} {I F : Nat → List L → Prop}
    (ha : Meets t a I) (hb : Meets t b F) :
    CanReach t.core a b ↔ ∃ c ls c' ls', I c ls ∧ NReach (· ∈ t.allRules) (c, ls) (c', ls') ∧ F c' ls' := by
  constructor
  · rintro ⟨⟨c, w⟩, ⟨c', w'⟩, h1, h2, h3, h4⟩
    have hlt := reach_lt hp h3 h1
    obtain ⟨k1, k2⟩ := (ha.named hn h1).1 h2
    obtain ⟨k3, k4⟩ := (hb.named hn hlt).1 h4
    exact ⟨c, _, c', _, k2, (reach_named hp h3 k1).1, k4⟩
  · rintro ⟨c, ls, c', ls', h1, h2, h3⟩
    obtain ⟨k1, k2⟩ := ha.labels c ls h1
    have hw : Numbers t (ls.map fun l => t.labels.idxOf l) ls := (numbers_iff hn _ _).2 ⟨k2, rfl⟩
    obtain ⟨k3, k4⟩ := numbers_names hw
    rw [← k4] at h2
    obtain ⟨⟨d, w'⟩, k5, k6, k7⟩ := named_reach hp hn (c := (c, ls.map fun l => t.labels.idxOf l)) k3 h2
    rw [Prod.mk.injEq] at k7
    obtain ⟨rfl, rfl⟩ := k7
    exact ⟨(c, _), (_, w'), k1, (ha.named hn k1).2 ⟨k3, by rw [k4]; exact h1⟩, k5, (hb.named hn (reach_lt hp k5 k1)).2 ⟨k6, h3⟩⟩

omit [Zero W] in
theorem chain_lt {p : Pda W} (hp : p.WF) {cs : List Config} (h : cs.IsChain (Step p.Has)) {c c' : Config}
    (hc : cs.head? = some c) (hc' : cs.getLast? = some c') (hlt : c.1 < p.size) : c'.1 < p.size := by
  induction cs generalizing c with
  | nil => cases hc
  | cons x cs ih =>
    cases hc
    cases cs with
    | nil => cases hc'; exact hlt
    | cons y cs =>
      rw [List.isChain_cons_cons] at h
      rw [List.getLast?_cons_cons] at hc'
      exact ih h.2 rfl hc' (step_lt hp h.1)

omit [Zero W] in
/-- A trace with numbers is a trace with names. -/
theorem isTrace_named {t : TPda L W} (hp : t.core.WF) (hn : t.labels.Nodup) {a b : Aut W} {I F : Nat → List L → Prop}
    (ha : Meets t a I) (hb : Meets t b F) {cs : List Config} (h : IsTrace t.core a b cs) :
    NTrace (· ∈ t.allRules) I F (namedTrace t cs) := by
  obtain ⟨h1, ⟨c, h2, hlt, h3⟩, c', h4, h5⟩ := h
  obtain ⟨k1, k2⟩ := (ha.named hn hlt).1 h3
  obtain ⟨k3, k4⟩ := (hb.named hn (chain_lt hp h1 h2 h4 hlt)).1 h5
  refine ⟨chain_named hp cs h1 fun d hd => ?_, ⟨(c.1, c.2.map t.symbol), ?_, k2⟩, ⟨(c'.1, c'.2.map t.symbol), ?_, k4⟩⟩
  · rw [h2] at hd; cases hd; exact k1
  · simp [namedTrace, h2]
  · simp [namedTrace, h4]

end

/-! ## Parsed automata have no traces and no weights -/

section
variable [DecidableEq L] [Zero W]

omit [DecidableEq L] in
theorem blank_orEdge (size offset src : Nat) {a b : Aut W} (ha : Blank a) (hb : Blank b) (t : Tr) :
    Blank (Aut.orEdge size offset src b a t) := by
  unfold Aut.orEdge
  cases hann : b.getEdge t with
  | none => exact ha
  | some ann =>
    have hann' : ann = (Trace.null, 0) := hb _ (mem_of_getEdge hann)
    unfold Aut.emplaceEdge
    by_cases hc : a.hasEdge ⟨src, t.label, if t.dst < size then t.dst else t.dst + offset⟩ = true
    · simp only [hc, if_true]
      exact ha
    · simp only [if_neg hc]
      intro e he
      rcases List.mem_cons.1 he with rfl | he
      · exact hann'
      · exact ha e he

omit [DecidableEq L] in
theorem blank_orExtend (h : HashOrder) (size : Nat) {a b : Aut W} (ha : Blank a) (hb : Blank b) :
    Blank (a.orExtend h size b) := by
  unfold Aut.orExtend
  refine foldl_keeps (Q := Blank) _ (fun a i _ ha => ?_) a ha
  unfold Aut.orRound
  refine foldl_keeps (Q := Blank) _ (fun a t _ ha => blank_orEdge _ _ _ ha hb t) _ ?_
  by_cases h1 : i ≥ size
  · simp only [if_pos h1]
    exact ha
  · simp only [if_neg h1]
    split <;> exact ha

theorem blank_atoms (h : HashOrder) (addr : Nat → Nat → Nat) (find : S → Option (Option Nat)) (as : List (PAtom L S)) (k : Nat)
    (b b' : PBuild L W) (hb : ∀ a, b.cur = some a → Blank a) (hp : b.atoms h addr find k as = some b') :
    ∀ a, b'.cur = some a → Blank a := by
  induction as generalizing k b with
  | nil => cases hp; exact hb
  | cons x as ih =>
    obtain ⟨b1, h1, h2⟩ := Option.bind_eq_some_iff.1 hp
    refine ih (k + 1) b1 ?_ h2
    obtain ⟨b2, h3, h4⟩ := Option.bind_eq_some_iff.1 h1
    obtain ⟨m, _, rfl⟩ := Option.map_eq_some_iff.1 h4
    have h5 : b2.cur = b.cur := ((addStates_spec find x.states b).2 b2 h3).2.1
    have h6 := blank_ofNfa (W := W) (encOpt b2.pda x.expr).1.states.length (encOpt b2.pda x.expr).1.labels.length m.compile
      (sortUnique_spec b2.states).1
    intro a ha
    unfold PBuild.finish at ha
    dsimp only at ha
    cases hc : b2.cur with
    | none => rw [hc] at ha; cases ha; exact h6
    | some c =>
      rw [hc] at ha
      cases ha
      exact blank_orExtend h _ (hb c (h5 ▸ hc)) h6

theorem blank_parse (h : HashOrder) (addr : Nat → Nat → Nat) (find : S → Option (Option Nat)) (t : TPda L W)
    (as : List (PAtom L S)) {t' : TPda L W} {a : Aut W} (hp : parsePAut h addr find t as = some (t', a)) : Blank a := by
  obtain ⟨b, hb, h3⟩ := Option.bind_eq_some_iff.1 hp
  obtain ⟨x, hx, h5⟩ := Option.map_eq_some_iff.1 h3
  cases h5
  exact blank_atoms h addr find as 0 { pda := t } b (by simp) hb _ hx

omit [DecidableEq L] in
theorem describedBy_labels {find : S → Option (Option Nat)} (as : List (PAtom L S)) {known : List L} {c : Nat} {ls : List L}
    (h : DescribedBy find known as c ls) :
    (∃ s, find s = some (some c)) ∧ ∀ l ∈ ls, l ∈ known ∨ ∃ x ∈ as, l ∈ x.labels := by
  induction as generalizing known with
  | nil => exact h.elim
  | cons a as ih =>
    rcases h with ⟨⟨⟨s, _, hs⟩, _⟩, h2⟩ | h
    · refine ⟨⟨_, hs⟩, fun l hl => ?_⟩
      rcases List.mem_append.1 (h2 l hl) with h3 | h3
      · exact .inl h3
      · exact .inr ⟨a, List.mem_cons_self, h3⟩
    · obtain ⟨h1, h2⟩ := ih h
      refine ⟨h1, fun l hl => ?_⟩
      rcases h2 l hl with h3 | ⟨x, hx, h3⟩
      · rcases List.mem_append.1 h3 with h3 | h3
        · exact .inl h3
        · exact .inr ⟨a, List.mem_cons_self, h3⟩
      · exact .inr ⟨x, List.mem_cons_of_mem _ hx, h3⟩

end

/-! ## C73 -/

section
variable [DecidableEq L] [LinearOrder W] [Zero W] {find : S → Option (Option Nat)} {addr : Nat → Nat → Nat}

/-- An expression names a state that does not exist and is not in quotes, or that is not a number. -/
def Bad (find : S → Option (Option Nat)) (as : List (PAtom L S)) : Prop :=
  ∃ a ∈ as, ∃ s ∈ a.states, find s.name = none ∨ (find s.name = some none ∧ s.quoted = false)

omit [LinearOrder W] in
theorem parseInstance_none (h : HashOrder) (ha : ∀ k, Function.Injective (addr k)) (t : TPda L W)
    (hfind : ∀ s c, find s = some (some c) → c < t.states.length) (hn : t.labels.Nodup) (ini fin : List (PAtom L S))
    (hi : ini ≠ []) (hf : fin ≠ []) :
    parseInstance h addr find t ini fin = none ↔ Bad find ini ∨ Bad find fin := by
  unfold parseInstance
  have h1 := c72_errors h ha t hfind ini hi
  cases hp : parsePAut h addr find t ini with
  | none => simpa using .inl (h1.1 hp)
  | some x =>
    have hg := c72_labels h ha t hfind hn ini (t' := x.1) (a := x.2) hp
    have h2 := c72_errors h ha x.1 (by rw [hg.1]; exact hfind) fin hf
    have h3 : ¬Bad find ini := fun hb => by have := h1.2 hb; rw [hp] at this; cases this
    simp only [Option.bind_some, Option.map_eq_none_iff]
    rw [h2]
    exact ⟨.inr, fun h => h.resolve_left h3⟩

omit [LinearOrder W] in
/-- C73, the PDA that is analysed: the rules are those of the given PDA, and the labels of the expressions are added. -/
theorem c73_labels (h : HashOrder) (ha : ∀ k, Function.Injective (addr k)) (t : TPda L W)
    (hfind : ∀ s c, find s = some (some c) → c < t.states.length) (hn : t.labels.Nodup) (ini fin : List (PAtom L S))
    {t' : TPda L W} {a b : Aut W} (hp : parseInstance h addr find t ini fin = some (t', a, b)) :
    t'.states = t.states ∧ t.labels <+: t'.labels ∧ t'.labels.Nodup ∧
      ∀ l, l ∈ t'.labels ↔ l ∈ t.labels ∨ ∃ x ∈ ini ++ fin, l ∈ x.labels := by
  obtain ⟨x, hx, h2⟩ := Option.bind_eq_some_iff.1 hp
  obtain ⟨y, hy, h3⟩ := Option.map_eq_some_iff.1 h2
  cases h3
  obtain ⟨h1, h2, h3, h4⟩ := c72_labels h ha t hfind hn ini hx
  obtain ⟨k1, k2, k3, k4⟩ := c72_labels h ha x.1 (by rw [h1]; exact hfind) h3 fin hy
  refine ⟨k1.trans h1, h2.trans k2, k3, fun l => ?_⟩
  rw [k4, h4, or_assoc]
  refine or_congr Iff.rfl ?_
  simp only [List.mem_append, or_and_right, exists_or]

omit [LinearOrder W] in
/-- The automata of the instance. -/
theorem parseInstance_spec (h : HashOrder) (ha : ∀ k, Function.Injective (addr k)) (t : TPda L W)
    (hfind : ∀ s c, find s = some (some c) → c < t.states.length) (hn : t.labels.Nodup) (ini fin : List (PAtom L S))
    (hok : ∀ x ∈ ini ++ fin, x.ok = true)
    {t' : TPda L W} {a b : Aut W} (hp : parseInstance h addr find t ini fin = some (t', a, b)) :
    PAut t'.core a ∧ PAut t'.core b ∧ Blank a ∧ Blank b ∧
    Meets t' a (DescribedBy find t.labels ini) ∧ Meets t' b (DescribedBy find (t.labels ++ ini.flatMap PAtom.labels) fin) := by
  obtain ⟨hs, _, _, hall⟩ := c73_labels h ha t hfind hn ini fin hp
  obtain ⟨x, hx, h2⟩ := Option.bind_eq_some_iff.1 hp
  obtain ⟨y, hy, h3⟩ := Option.map_eq_some_iff.1 h2
  cases h3
  obtain ⟨h1, h2, h3, h4⟩ := c72_labels h ha t hfind hn ini hx
  have hfind1 : ∀ s c, find s = some (some c) → c < x.1.states.length := by rw [h1]; exact hfind
  obtain ⟨k1, k2, k3, k4⟩ := c72_labels h ha x.1 hfind1 h3 fin hy
  refine ⟨core_mono k1 k2 (c72_legal h ha t hfind ini hx), c72_legal h ha x.1 hfind1 fin hy, blank_parse h addr find t ini hx,
    blank_parse h addr find x.1 fin hy, ⟨fun c hc w => ?_, fun c ls hd => ?_⟩, ⟨fun c hc w => ?_, fun c ls hd => ?_⟩⟩
  · have := c72_language_partial h h ha t hfind hn ini (fun x hx => hok x (List.mem_append_left _ hx)) hx c (by rw [← k1]; exact hc) w
    refine (accepts_iff h x.2 c w).symm.trans (this.trans ?_)
    constructor
    · rintro ⟨ls, g1, g2⟩
      refine ⟨ls, ?_, g2⟩
      rw [numbers_iff h3] at g1
      rw [numbers_iff k3]
      refine ⟨fun l hl => k2.subset (g1.1 l hl), g1.2.trans (List.map_congr_left fun l hl => ?_)⟩
      exact (idxOf_prefix k2 (g1.1 l hl)).symm
    · rintro ⟨ls, g1, g2⟩
      refine ⟨ls, ?_, g2⟩
      rw [numbers_iff k3] at g1
      have hin : ∀ l ∈ ls, l ∈ x.1.labels := fun l hl => (h4 l).2 ((describedBy_labels ini g2).2 l hl)
      rw [numbers_iff h3]
      exact ⟨hin, g1.2.trans (List.map_congr_left fun l hl => idxOf_prefix k2 (hin l hl))⟩
  · obtain ⟨⟨s, g1⟩, g2⟩ := describedBy_labels ini hd
    refine ⟨by rw [hs]; exact hfind s c g1, fun l hl => (hall l).2 ?_⟩
    rcases g2 l hl with g | ⟨x, hx, g⟩
    · exact .inl g
    · exact .inr ⟨x, List.mem_append_left _ hx, g⟩
  · have := c72_language_partial h h ha x.1 hfind1 h3 fin (fun x hx => hok x (List.mem_append_right _ hx)) hy c hc w
    refine (accepts_iff h y.2 c w).symm.trans (this.trans ?_)
    refine exists_congr fun ls => and_congr_right fun _ => describedBy_congr find (fun l => ?_) fin c ls
    rw [h4, List.mem_append, List.mem_flatMap]
  · obtain ⟨⟨s, g1⟩, g2⟩ := describedBy_labels fin hd
    refine ⟨by rw [hs]; exact hfind s c g1, fun l hl => (hall l).2 ?_⟩
    rcases g2 l hl with g | ⟨x, hx, g⟩
    · rcases List.mem_append.1 g with g | g
      · exact .inl g
      · obtain ⟨x, hx, g⟩ := List.mem_flatMap.1 g
        exact .inr ⟨x, List.mem_append_left _ hx, g⟩
    · exact .inr ⟨x, List.mem_append_right _ hx, g⟩

variable [Inhabited L]

/-- C73, errors: the tool fails exactly if an expression names a state it must not name, or the engine does not exist. -/
theorem c73_errors (h h' : HashOrder) (ha : ∀ k, Function.Injective (addr k)) (t : TPda L W)
    (hfind : ∀ s c, find s = some (some c) → c < t.states.length) (hn : t.labels.Nodup) (ini fin : List (PAtom L S))
    (hi : ini ≠ []) (hf : fin ≠ []) (engine : Nat) (any : Bool) :
    (runPlain h h' addr find t ini fin engine any = .error ↔ Bad find ini ∨ Bad find fin ∨ 3 < engine) ∧
    (runPlain h h' addr find t ini fin engine any = .nothing ↔ ¬Bad find ini ∧ ¬Bad find fin ∧ engine = 0) := by
  have h1 := parseInstance_none h ha t hfind hn ini fin hi hf
  have hpl : ∀ (t : TPda L W) (e : Nat) (any ans : Bool) (tr : Option (List Config)),
      plainReport t e any ans tr ≠ .error ∧ plainReport t e any ans tr ≠ .nothing := by
    intro t e any ans tr
    unfold plainReport
    split
    · split <;> exact ⟨by simp, by simp⟩
    · exact ⟨by simp, by simp⟩
  unfold runPlain
  rw [← or_assoc, ← and_assoc, ← not_or, ← h1]
  cases hp : parseInstance h addr find t ini fin with
  | none => simp
  | some x =>
    simp only [reduceCtorEq, false_or, not_false_eq_true, true_and]
    unfold verifyPlain
    dsimp only
    split
    · simp
    · simp [hpl]
    · simp [hpl]
    · simp [hpl]
    · rename_i g0 g1 g2 g3
      have g : 3 < engine ∧ engine ≠ 0 := by
        have k0 : engine ≠ 0 := g0
        have k1 : engine ≠ 1 := g1
        have k2 : engine ≠ 2 := g2
        have k3 : engine ≠ 3 := g3
        omega
      simp [g]

/-- The instance after the search. -/
def searched (h : HashOrder) (p : Pda W) (a b : Aut W) (engine : Nat) : Instance W :=
  match engine with
  | 1 => (postStarAccepts h p (ofAutomata p.size a b)).1
  | 2 => (Instance.preStarAccepts h p (ofAutomata p.size a b)).1
  | _ => (dualSearchAccepts h p (ofAutomata p.size a b)).1

/-- Some configuration described by `ini` reaches one described by `fin`. -/
def SomeRun (find : S → Option (Option Nat)) (R : TRule L W → Prop) (known : List L) (ini fin : List (PAtom L S)) : Prop :=
  ∃ c ls c' ls', DescribedBy find known ini c ls ∧ NReach R (c, ls) (c', ls') ∧
    DescribedBy find (known ++ ini.flatMap PAtom.labels) fin c' ls'

/-- What a report must say if `I` describes the initial and `F` the final configurations. -/
structure Tells (R : TRule L W → Prop) (I F : Nat → List L → Prop) (engine : String) (any : Bool) (r : Report L) : Prop where
  engine : r.engine = engine
  result : r.result = true ↔ ∃ c ls c' ls', I c ls ∧ NReach R (c, ls) (c', ls') ∧ F c' ls'
  run : any = true → r.result = true → NTrace R I F r.trace
  empty : any = false ∨ r.result = false → r.trace = []

/-- What a report on two expressions must say. -/
def Right (find : S → Option (Option Nat)) (R : TRule L W → Prop) (known : List L) (ini fin : List (PAtom L S)) (engine : String)
    (any : Bool) (r : Report L) : Prop :=
  Tells R (DescribedBy find known ini) (DescribedBy find (known ++ ini.flatMap PAtom.labels) fin) engine any r

omit [DecidableEq L] [LinearOrder W] [Zero W] in
theorem plainReport_tells {t : TPda L W} {R : TRule L W → Prop} {I F : Nat → List L → Prop} {e : Nat} {any ans : Bool}
    {tr : Option (List Config)} (h1 : ans = true ↔ ∃ c ls c' ls', I c ls ∧ NReach R (c, ls) (c', ls') ∧ F c' ls')
    (h2 : any = true → ans = true → ∃ cs, tr = some cs ∧ NTrace R I F (namedTrace t cs)) :
    ∃ r, plainReport t e any ans tr = .report r ∧ Tells R I F (engineName e) any r := by
  unfold plainReport
  by_cases hc : any = true ∧ ans = true
  · obtain ⟨cs, rfl, h3⟩ := h2 hc.1 hc.2
    obtain ⟨rfl, rfl⟩ := hc
    exact ⟨_, rfl, rfl, h1, fun _ _ => h3, by simp⟩
  · have : (any && ans) = false := by cases any <;> cases ans <;> simp_all
    rw [this]
    exact ⟨_, rfl, rfl, h1, fun h h' => absurd ⟨h, h'⟩ hc, fun _ => rfl⟩

/-- The report on two legal automata. -/
theorem verify_tells (h h' : HashOrder) {t : TPda L W} (hp : t.core.WF) (hn : t.labels.Nodup) (hl : t.labels.length < epsilon)
    {a b : Aut W} (ha : PAut t.core a) (hb : PAut t.core b) (ua : Untraced a) (ub : Untraced b) {I F : Nat → List L → Prop}
    (hI : Meets t a I) (hF : Meets t b F) (engine : Nat) (he : 1 ≤ engine ∧ engine ≤ 3) (hk : engine = 1 ∨ t.core.LookupOK) (any : Bool)
    (hm : any = true → StatesFit (searched h t.core a b engine)) :
    ∃ r, verifyPlain h h' t a b engine any = .report r ∧
      Tells (· ∈ t.allRules) I F (["post*", "pre*", "dual*"].getD (engine - 1) "") any r := by
  have hle : t.core.nLabels ≤ epsilon := Nat.le_of_lt hl
  have hr := canReach_named hp hn hI hF
  obtain rfl | rfl | rfl : engine = 1 ∨ engine = 2 ∨ engine = 3 := by omega
  · refine plainReport_tells ((c08_post_star_accepts h hp hle ha hb.toAutOK).trans hr) fun hany hans => ?_
    obtain ⟨cs, k1, k2, _⟩ := c55_post_trace h h' hp hl ha hb.toAutOK ua (hm hany)
    exact ⟨cs, k1, isTrace_named hp hn hI hF (k2 ((c08_post_star_accepts h hp hle ha hb.toAutOK).1 hans))⟩
  · have hk' := hk.resolve_left (by decide)
    refine plainReport_tells ((c09_pre_star_accepts_partial h hp hk' hle ha.toAutOK hb).trans hr) fun hany hans => ?_
    obtain ⟨cs, k1, k2⟩ := (c55_pre_trace h h' hp hle ha.toAutOK hb ub (hm hany)).1 hans
    exact ⟨cs, k1, isTrace_named hp hn hI hF k2⟩
  · have hk' := hk.resolve_left (by decide)
    refine plainReport_tells ((c10_dual_search_accepts_partial h hp hk' hle ha hb).trans hr) fun hany hans => ?_
    obtain ⟨cs, k1, k2⟩ := (c55_dual_trace h h' hp hl ha hb ua ub (hm hany)).1 hans
    exact ⟨cs, k1, isTrace_named hp hn hI hF k2⟩

/-- C73: the report names the engine, its result says whether some configuration described by the first expression reaches one
described by the second, and its trace is a run that shows it. -/
theorem c73_report_partial (h h' : HashOrder) (ha : ∀ k, Function.Injective (addr k)) (t : TPda L W)
    (hfind : ∀ s c, find s = some (some c) → c < t.states.length) (hn : t.labels.Nodup) (hp : t.core.WF) (ini fin : List (PAtom L S))
    (hok : ∀ x ∈ ini ++ fin, x.ok = true) {t' : TPda L W} {a b : Aut W}
    (hi : parseInstance h addr find t ini fin = some (t', a, b)) (hl : t'.labels.length < epsilon)
    (engine : Nat) (he : 1 ≤ engine ∧ engine ≤ 3) (hk : engine = 1 ∨ t.core.LookupOK) (any : Bool)
    (hm : any = true → StatesFit (searched h t'.core a b engine)) :
    ∃ r, runPlain h h' addr find t ini fin engine any = .report r ∧
      Right find (· ∈ t'.allRules) t.labels ini fin (["post*", "pre*", "dual*"].getD (engine - 1) "") any r := by
  obtain ⟨h1, h2, h3, h4, h5, h6⟩ := parseInstance_spec h ha t hfind hn ini fin hok hi
  obtain ⟨g1, g2, g3, _⟩ := c73_labels h ha t hfind hn ini fin hi
  unfold runPlain
  rw [hi]
  exact verify_tells h h' (wf_labels g1 g2 hp) g3 hl h1 h2 h3.untraced h4.untraced h5 h6 engine he
    (hk.elim .inl fun hk => .inr (lookup_labels g1 hk)) any hm

end

/-- C73 for PDAs without weights, where all three engines are right. -/
theorem c73_report_unweighted_partial [DecidableEq L] [Inhabited L] {find : S → Option (Option Nat)} {addr : Nat → Nat → Nat}
    (h h' : HashOrder) (ha : ∀ k, Function.Injective (addr k)) (t : TPda L Unit)
    (hfind : ∀ s c, find s = some (some c) → c < t.states.length) (hn : t.labels.Nodup) (hp : t.core.WF) (ini fin : List (PAtom L S))
    (hok : ∀ x ∈ ini ++ fin, x.ok = true) {t' : TPda L Unit} {a b : Aut Unit}
    (hi : parseInstance h addr find t ini fin = some (t', a, b)) (hl : t'.labels.length < epsilon)
    (engine : Nat) (he : 1 ≤ engine ∧ engine ≤ 3) (any : Bool) (hm : any = true → StatesFit (searched h t'.core a b engine)) :
    ∃ r, runPlain h h' addr find t ini fin engine any = .report r ∧
      Right find (· ∈ t'.allRules) t.labels ini fin (["post*", "pre*", "dual*"].getD (engine - 1) "") any r :=
  c73_report_partial h h' ha t hfind hn hp ini fin hok hi hl engine he (.inr (lookupOK_unit _)) any hm

/-! ## A case -/

/-- State 0 may push `b` on any label, and may pop `b`, going to state 1. -/
def reportCalls : List (PdaCall Unit) :=
  [.rule 0 { «to» := 0, op := .push, opLabel := 1, weight := () } true [],
    .rule 0 { «to» := 1, op := .pop, opLabel := 0, weight := () } false [1]]

def reportPda : TPda String Unit := { labels := ["a", "b"], states := (Pda.build 2 reportCalls).states }

theorem reportPda_wf : reportPda.core.WF := by
  have : reportPda.core = Pda.build 2 reportCalls := rfl
  rw [this]
  exact Pda.WF_build 2 reportCalls (by simp [reportCalls, PdaCall.OK, WSorted])

/-- `<0, [a]>` -/
def reportIni : PAtom String String := ⟨[⟨false, "0"⟩], some (.one (.one (.mk (.set false "a" []) none)))⟩
/-- `<1, [^c]>` with a new label. -/
def reportFin : PAtom String String := ⟨[⟨false, "1"⟩], some (.one (.one (.mk (.set true "c" []) none)))⟩

/-- The PDA with the label `c`. -/
def reportPda' : TPda String Unit := { labels := ["a", "b", "c"], states := (Pda.build 2 reportCalls).states }

/-- The NFAs of the expressions. -/
def reportNfa (neg : Bool) (l : Nat) : Nfa :=
  { states := [(1, { edges := [{ neg := neg, syms := [l], dst := 2 }] }), (2, { acc := true })], initial := [1], accepting := [2] }

theorem reportNfa_compile (neg : Bool) (l : Nat) : (reportNfa neg l).compile = reportNfa neg l := by
  unfold Nfa.compile
  rw [List.mergeSort_of_pairwise (by simp [reportNfa]), List.mergeSort_of_pairwise (by simp [reportNfa]),
    List.mergeSort_of_pairwise (by simp [reportNfa])]
  cases neg <;> rfl

theorem parse_one {W : Type} [Zero W] {t t' : TPda String W} {x : PAtom String String} {q : Nat} {m : Nfa}
    (h1 : ({ pda := t } : PBuild String W).addStates exprFind x.states = some { pda := t, states := [q] })
    (h2 : (encOpt t x.expr).1 = t') (h3 : parseRegex (exprAddr 0) (encOpt t x.expr).2 = some m) (h4 : m.compile = m) :
    parsePAut HashOrder.id exprAddr exprFind t [x] = some (t', Aut.ofNfa t'.states.length t'.labels.length m [q]) := by
  have h5 : sortUnique [q] = [q] := by simp [sortUnique, sortBy, insertBy, uniqueBy]
  simp [parsePAut, PBuild.atoms, PBuild.atom, PBuild.finish, h1, h2, h3, h4, h5]

theorem report_parse : parseInstance HashOrder.id exprAddr exprFind reportPda [reportIni] [reportFin] =
    some (reportPda', Aut.ofNfa 2 2 (reportNfa false 0) [0], Aut.ofNfa 2 3 (reportNfa true 2) [1]) := by
  unfold parseInstance
  rw [parse_one (t := reportPda) (t' := reportPda) (q := 0) (m := reportNfa false 0) rfl rfl rfl (reportNfa_compile _ _),
    Option.bind_some, parse_one (t := reportPda) (t' := reportPda') (q := 1) (m := reportNfa true 2) rfl rfl rfl (reportNfa_compile _ _)]
  rfl

theorem report_fit (engine : Nat) (he : 1 ≤ engine ∧ engine ≤ 3) :
    StatesFit (searched HashOrder.id reportPda'.core (Aut.ofNfa 2 2 (reportNfa false 0) [0]) (Aut.ofNfa 2 3 (reportNfa true 2) [1]) engine) := by
  obtain rfl | rfl | rfl : engine = 1 ∨ engine = 2 ∨ engine = 3 := by omega
  · exact ⟨by decide +kernel, by decide +kernel, by decide +kernel⟩
  · exact ⟨by decide +kernel, by decide +kernel, by decide +kernel⟩
  · exact ⟨by decide +kernel, by decide +kernel, by decide +kernel⟩

/-- The hypotheses are met by all engines, with a trace. -/
theorem report_right (engine : Nat) (he : 1 ≤ engine ∧ engine ≤ 3) :
    ∃ r, runPlain HashOrder.id HashOrder.id exprAddr exprFind reportPda [reportIni] [reportFin] engine true = .report r ∧
      Right exprFind (· ∈ reportPda'.allRules) ["a", "b"] [reportIni] [reportFin] (["post*", "pre*", "dual*"].getD (engine - 1) "") true r :=
  c73_report_unweighted_partial HashOrder.id HashOrder.id exprAddr_inj reportPda exprFind_lt (by decide) reportPda_wf
    [reportIni] [reportFin] (by decide) report_parse (by decide) engine he true fun _ => report_fit engine he

/-- Push `b`, then pop it. -/
theorem report_reaches : SomeRun exprFind (· ∈ reportPda'.allRules) ["a", "b"] [reportIni] [reportFin] := by
  refine ⟨0, ["a"], 1, ["a"], .inl ⟨⟨⟨_, List.mem_singleton.2 rfl, rfl⟩, ⟨_, rfl, by decide⟩⟩, by decide⟩, ?_,
    .inl ⟨⟨⟨_, List.mem_singleton.2 rfl, rfl⟩, ⟨_, rfl, by decide⟩⟩, by decide⟩⟩
  refine .tail (.tail .refl (NStep.mk (R := (· ∈ reportPda'.allRules)) ⟨0, "a", 0, .push, "b", ()⟩ [] (by decide +kernel)))
    (NStep.mk (R := (· ∈ reportPda'.allRules)) ⟨0, "b", 1, .pop, default, ()⟩ ["a"] (by decide +kernel))

/-- All engines find it, and show a run. -/
example (engine : Nat) (he : 1 ≤ engine ∧ engine ≤ 3) :
    ∃ r, runPlain HashOrder.id HashOrder.id exprAddr exprFind reportPda [reportIni] [reportFin] engine true = .report r ∧
      r.result = true ∧ NTrace (· ∈ reportPda'.allRules) (DescribedBy exprFind ["a", "b"] [reportIni])
        (DescribedBy exprFind ["a", "b", "a"] [reportFin]) r.trace := by
  obtain ⟨r, h1, h2⟩ := report_right engine he
  have h3 := h2.result.2 report_reaches
  exact ⟨r, h1, h3, h2.run rfl h3⟩

/-- A state that does not exist is an error. -/
example (engine : Nat) (any : Bool) : runPlain HashOrder.id HashOrder.id exprAddr exprFind reportPda [reportIni]
    [⟨[⟨false, "2"⟩], none⟩] engine any = .error :=
  (c73_errors HashOrder.id HashOrder.id exprAddr_inj reportPda exprFind_lt (by decide) [reportIni] [⟨[⟨false, "2"⟩], none⟩] (by simp)
    (by simp) engine any).1.2 (.inr (.inl ⟨_, List.mem_singleton.2 rfl, _, List.mem_singleton.2 rfl, .inr ⟨rfl, rfl⟩⟩))

end Verif.Props
