import Mathlib.Data.List.Nodup
import Verif.Spec.Regular
import Verif.Proofs.VectorSet

/-! # Construction of NFAs -/

namespace Verif

/-! ## Paths -/

section
variable {eps eps' : Nat → Nat → Prop} {sym sym' : Nat → Nat → Nat → Prop}

theorem WPath.mono (he : ∀ p q, eps p q → eps' p q) (hs : ∀ p g q, sym p g q → sym' p g q) {p q : Nat}
    {w : List Nat} (h : WPath eps sym p w q) : WPath eps' sym' p w q := by
  induction h with
  | nil q => exact .nil q
  | eps h1 _ ih => exact .eps (he _ _ h1) ih
  | sym h1 _ ih => exact .sym (hs _ _ _ h1) ih

theorem WPath.append {p q r : Nat} {u v : List Nat} (h : WPath eps sym p u q) (h' : WPath eps sym q v r) :
    WPath eps sym p (u ++ v) r := by
  induction h with
  | nil q => exact h'
  | eps h1 _ ih => exact .eps h1 (ih h')
  | sym h1 _ ih => exact .sym h1 (ih h')

/-- A path inside a closed set of states uses only the moves from these states. -/
theorem WPath.restrict {P : Nat → Prop} (he : ∀ p q, P p → eps' p q → eps p q ∧ P q)
    (hs : ∀ p g q, P p → sym' p g q → sym p g q ∧ P q) {p q : Nat} {w : List Nat}
    (h : WPath eps' sym' p w q) (hp : P p) : WPath eps sym p w q ∧ P q := by
  induction h with
  | nil q => exact ⟨.nil q, hp⟩
  | eps h1 _ ih =>
    obtain ⟨h2, h3⟩ := he _ _ hp h1
    obtain ⟨h4, h5⟩ := ih h3
    exact ⟨.eps h2 h4, h5⟩
  | sym h1 _ ih =>
    obtain ⟨h2, h3⟩ := hs _ _ _ hp h1
    obtain ⟨h4, h5⟩ := ih h3
    exact ⟨.sym h2 h4, h5⟩

end

namespace Nfa

/-- Well-formed automata: addresses are distinct, no pointer dangles, `_accepting` lists the accepting
states, symbols are sorted and distinct. -/
structure WF (m : Nfa) : Prop where
  nodup : m.ptrs.Nodup
  dst : ∀ q s, (q, s) ∈ m.states → ∀ e ∈ s.edges, e.dst ∈ m.ptrs
  syms : ∀ q s, (q, s) ∈ m.states → ∀ e ∈ s.edges, SSorted e.syms
  init : ∀ q ∈ m.initial, q ∈ m.ptrs
  initNodup : m.initial.Nodup
  acc : ∀ q, q ∈ m.accepting ↔ m.Acc q

theorem mem_ptrs {m : Nfa} {q : Nat} : q ∈ m.ptrs ↔ ∃ s, (q, s) ∈ m.states := by
  simp [ptrs]

theorem get_eq {m : Nfa} (hn : m.ptrs.Nodup) {q : Nat} {s : NState} (h : (q, s) ∈ m.states) :
    m.get q = s := by
  unfold get
  unfold ptrs at hn
  induction hm : m.states with
  | nil => rw [hm] at h; simp at h
  | cons x l ih =>
    clear ih
    rw [hm] at h hn
    clear hm
    induction l generalizing x with
    | nil =>
      simp only [List.mem_singleton] at h
      subst h
      simp
    | cons y l ih =>
      rw [List.map_cons, List.nodup_cons] at hn
      by_cases hx : x.1 = q
      · have : (q, s) = x := by
          rcases List.mem_cons.1 h with h1 | h1
          · exact h1
          · exact absurd (List.mem_map_of_mem (f := Prod.fst) h1) (hx ▸ hn.1)
        subst this
        simp
      · rw [List.find?_cons_of_neg (by simpa using hx)]
        refine ih y hn.2 ?_
        rcases List.mem_cons.1 h with h1 | h1
        · subst h1; exact absurd rfl hx
        · exact h1

theorem mem_get {m : Nfa} (hn : m.ptrs.Nodup) {q : Nat} (h : q ∈ m.ptrs) : (q, m.get q) ∈ m.states := by
  obtain ⟨s, hs⟩ := mem_ptrs.1 h
  rw [get_eq hn hs]
  exact hs

/-! ## Writing through a pointer -/

theorem mem_modify {m : Nfa} {q : Nat} {f : NState → NState} {p : Nat} {s : NState} :
    (p, s) ∈ (m.modify q f).states ↔
      (p ≠ q ∧ (p, s) ∈ m.states) ∨ (p = q ∧ ∃ s0, (p, s0) ∈ m.states ∧ s = f s0) := by
  unfold modify
  simp only [List.mem_map, Prod.exists]
  constructor
  · rintro ⟨p', s', h1, h2⟩
    split at h2
    · rename_i h3
      simp only [Prod.mk.injEq] at h2
      obtain ⟨rfl, rfl⟩ := h2
      exact .inr ⟨h3, s', h1, rfl⟩
    · rename_i h3
      simp only [Prod.mk.injEq] at h2
      obtain ⟨rfl, rfl⟩ := h2
      exact .inl ⟨h3, h1⟩
  · rintro (⟨h1, h2⟩ | ⟨rfl, s0, h1, rfl⟩)
    · exact ⟨p, s, h2, by simp [h1]⟩
    · exact ⟨p, s0, h1, by simp⟩

@[simp] theorem modify_ptrs (m : Nfa) (q : Nat) (f : NState → NState) : (m.modify q f).ptrs = m.ptrs := by
  unfold modify ptrs
  rw [List.map_map]
  apply List.map_congr_left
  intro x _
  simp only [Function.comp_apply]
  split <;> rfl

@[simp] theorem modify_initial (m : Nfa) (q : Nat) (f : NState → NState) : (m.modify q f).initial = m.initial := rfl

@[simp] theorem modify_accepting (m : Nfa) (q : Nat) (f : NState → NState) :
    (m.modify q f).accepting = m.accepting := rfl

/-- What an operation that only adds epsilon moves does. -/
structure AddsEps (m m' : Nfa) (A : Nat → Nat → Prop) : Prop where
  ptrs : m'.ptrs = m.ptrs
  initial : m'.initial = m.initial
  accepting : m'.accepting = m.accepting
  eps : ∀ p q, m'.Eps p q ↔ m.Eps p q ∨ (p ∈ m.ptrs ∧ A p q)
  sym : ∀ p g q, m'.Sym p g q ↔ m.Sym p g q
  acc : ∀ p, m'.Acc p ↔ m.Acc p
  syms : (∀ q s, (q, s) ∈ m.states → ∀ e ∈ s.edges, SSorted e.syms) →
    ∀ q s, (q, s) ∈ m'.states → ∀ e ∈ s.edges, SSorted e.syms
  dst : ∀ q s, (q, s) ∈ m'.states → ∀ e ∈ s.edges,
    (∃ s0 e0, (q, s0) ∈ m.states ∧ e0 ∈ s0.edges ∧ e0.dst = e.dst) ∨ A q e.dst

theorem AddsEps.refl (m : Nfa) : AddsEps m m fun _ _ => False where
  ptrs := rfl
  initial := rfl
  accepting := rfl
  eps p q := by simp
  sym p g q := Iff.rfl
  acc p := Iff.rfl
  syms h := h
  dst q s h e he := .inl ⟨s, e, h, he, rfl⟩

theorem AddsEps.trans {m m1 m2 : Nfa} {A B : Nat → Nat → Prop} (h : AddsEps m m1 A) (h' : AddsEps m1 m2 B) :
    AddsEps m m2 fun p q => A p q ∨ B p q where
  ptrs := h'.ptrs.trans h.ptrs
  initial := h'.initial.trans h.initial
  accepting := h'.accepting.trans h.accepting
  eps p q := by
    rw [h'.eps, h.eps, h.ptrs]
    constructor
    · rintro ((h1 | h1) | h1)
      · exact .inl h1
      · exact .inr ⟨h1.1, .inl h1.2⟩
      · exact .inr ⟨h1.1, .inr h1.2⟩
    · rintro (h1 | ⟨h1, h2 | h2⟩)
      · exact .inl (.inl h1)
      · exact .inl (.inr ⟨h1, h2⟩)
      · exact .inr ⟨h1, h2⟩
  sym p g q := (h'.sym p g q).trans (h.sym p g q)
  acc p := (h'.acc p).trans (h.acc p)
  syms hs := h'.syms (h.syms hs)
  dst q s hq e he := by
    rcases h'.dst q s hq e he with ⟨s0, e0, h1, h2, h3⟩ | h1
    · rcases h.dst q s0 h1 e0 h2 with ⟨s1, e1, h4, h5, h6⟩ | h4
      · exact .inl ⟨s1, e1, h4, h5, h6.trans h3⟩
      · exact .inr (.inl (h3 ▸ h4))
    · exact .inr (.inr h1)

theorem AddsEps.congr {m m' : Nfa} {A B : Nat → Nat → Prop} (h : AddsEps m m' A) (hAB : ∀ p q, A p q ↔ B p q) :
    AddsEps m m' B := by
  have : A = B := by funext p q; exact propext (hAB p q)
  exact this ▸ h

theorem Reads_eps (q g : Nat) : ¬ NEdge.Reads { eps := true, dst := q } g := by simp [NEdge.Reads]

theorem addEps_spec (m : Nfa) (q x : Nat) : AddsEps m (m.modify q (·.addEps x)) fun p y => p = q ∧ y = x where
  ptrs := modify_ptrs _ _ _
  initial := rfl
  accepting := rfl
  eps p y := by
    unfold Eps
    constructor
    · rintro ⟨s, e, h1, h2, h3, h4⟩
      replace h1 := mem_modify.1 h1
      rcases h1 with ⟨_, h1⟩ | ⟨rfl, s0, h1, rfl⟩
      · exact .inl ⟨s, e, h1, h2, h3, h4⟩
      · simp only [NState.addEps, List.mem_append, List.mem_singleton] at h2
        rcases h2 with h2 | rfl
        · exact .inl ⟨s0, e, h1, h2, h3, h4⟩
        · exact .inr ⟨mem_ptrs.2 ⟨_, h1⟩, rfl, h4.symm⟩
    · rintro (⟨s, e, h1, h2, h3, h4⟩ | ⟨h0, rfl, rfl⟩)
      · by_cases hp : p = q
        · exact ⟨s.addEps x, e, mem_modify.2 (.inr ⟨hp, s, h1, rfl⟩), by simp [NState.addEps, h2], h3, h4⟩
        · exact ⟨s, e, mem_modify.2 (.inl ⟨hp, h1⟩), h2, h3, h4⟩
      · obtain ⟨s, hs⟩ := mem_ptrs.1 h0
        exact ⟨s.addEps y, _, mem_modify.2 (.inr ⟨rfl, s, hs, rfl⟩),
          by simp only [NState.addEps, List.mem_append, List.mem_singleton]; exact .inr rfl, rfl, rfl⟩
  sym p g y := by
    unfold Sym
    constructor
    · rintro ⟨s, e, h1, h2, h3, h4⟩
      replace h1 := mem_modify.1 h1
      rcases h1 with ⟨_, h1⟩ | ⟨rfl, s0, h1, rfl⟩
      · exact ⟨s, e, h1, h2, h3, h4⟩
      · simp only [NState.addEps, List.mem_append, List.mem_singleton] at h2
        rcases h2 with h2 | rfl
        · exact ⟨s0, e, h1, h2, h3, h4⟩
        · exact absurd h3 (Reads_eps _ _)
    · rintro ⟨s, e, h1, h2, h3, h4⟩
      by_cases hp : p = q
      · exact ⟨s.addEps x, e, mem_modify.2 (.inr ⟨hp, s, h1, rfl⟩), by simp [NState.addEps, h2], h3, h4⟩
      · exact ⟨s, e, mem_modify.2 (.inl ⟨hp, h1⟩), h2, h3, h4⟩
  acc p := by
    unfold Acc
    constructor
    · rintro ⟨s, h1, h2⟩
      replace h1 := mem_modify.1 h1
      rcases h1 with ⟨_, h1⟩ | ⟨rfl, s0, h1, rfl⟩
      · exact ⟨s, h1, h2⟩
      · exact ⟨s0, h1, h2⟩
    · rintro ⟨s, h1, h2⟩
      by_cases hp : p = q
      · exact ⟨s.addEps x, mem_modify.2 (.inr ⟨hp, s, h1, rfl⟩), h2⟩
      · exact ⟨s, mem_modify.2 (.inl ⟨hp, h1⟩), h2⟩
  syms hs p s h1 e h2 := by
    replace h1 := mem_modify.1 h1
    rcases h1 with ⟨_, h1⟩ | ⟨rfl, s0, h1, rfl⟩
    · exact hs _ _ h1 _ h2
    · simp only [NState.addEps, List.mem_append, List.mem_singleton] at h2
      rcases h2 with h2 | rfl
      · exact hs _ _ h1 _ h2
      · simp [SSorted]
  dst p s h1 e h2 := by
    replace h1 := mem_modify.1 h1
    rcases h1 with ⟨_, h1⟩ | ⟨rfl, s0, h1, rfl⟩
    · exact .inl ⟨s, e, h1, h2, rfl⟩
    · simp only [NState.addEps, List.mem_append, List.mem_singleton] at h2
      rcases h2 with h2 | rfl
      · exact .inl ⟨s0, e, h1, h2, rfl⟩
      · exact .inr ⟨rfl, rfl⟩

theorem addEpsAll_spec (m : Nfa) (q : Nat) (qs : List Nat) :
    AddsEps m (m.addEpsAll q qs) fun p y => p = q ∧ y ∈ qs := by
  induction qs generalizing m with
  | nil => exact (AddsEps.refl m).congr (by simp)
  | cons x qs ih =>
    unfold addEpsAll
    rw [List.foldl_cons]
    refine ((addEps_spec m q x).trans (ih _)).congr ?_
    intro p y
    simp only [List.mem_cons]
    grind

theorem plusEdge_spec {m : Nfa} (hn : m.ptrs.Nodup) (q x : Nat) :
    AddsEps m (m.plusEdge q x) fun p y => p = q ∧ y = x := by
  unfold plusEdge
  split
  · rename_i hany
    rw [List.any_eq_true] at hany
    obtain ⟨e0, he0, hd0⟩ := hany
    simp only [beq_iff_eq] at hd0
    have hedge : ∀ {s : NState} {e : NEdge},
        e ∈ (s.edges.map fun e => if e.dst = x then { e with eps := true } else e) ↔
        ∃ e1 ∈ s.edges, e = if e1.dst = x then { e1 with eps := true } else e1 := by
      intro s e
      simp only [List.mem_map]
      constructor
      · rintro ⟨a, h1, h2⟩; exact ⟨a, h1, h2.symm⟩
      · rintro ⟨a, h1, h2⟩; exact ⟨a, h1, h2.symm⟩
    constructor
    · exact modify_ptrs _ _ _
    · rfl
    · rfl
    · intro p y
      unfold Eps
      constructor
      · rintro ⟨s, e, h1, h2, h3, h4⟩
        replace h1 := mem_modify.1 h1
        rcases h1 with ⟨_, h1⟩ | ⟨rfl, s0, h1, rfl⟩
        · exact .inl ⟨s, e, h1, h2, h3, h4⟩
        · obtain ⟨e1, h5, rfl⟩ := hedge.1 h2
          by_cases hd : e1.dst = x
          · simp only [hd, if_true] at h4
            exact .inr ⟨mem_ptrs.2 ⟨_, h1⟩, rfl, h4.symm⟩
          · simp only [hd, if_false] at h3 h4
            exact .inl ⟨s0, e1, h1, h5, h3, h4⟩
      · rintro (⟨s, e, h1, h2, h3, h4⟩ | ⟨h0, rfl, rfl⟩)
        · by_cases hp : p = q
          · refine ⟨_, _, mem_modify.2 (.inr ⟨hp, s, h1, rfl⟩), hedge.2 ⟨e, h2, rfl⟩, ?_, ?_⟩
            · split <;> simp [h3]
            · split <;> simp [h4]
          · exact ⟨s, e, mem_modify.2 (.inl ⟨hp, h1⟩), h2, h3, h4⟩
        · have hs := mem_get hn h0
          refine ⟨_, _, mem_modify.2 (.inr ⟨rfl, _, hs, rfl⟩), hedge.2 ⟨e0, he0, rfl⟩, ?_, ?_⟩
          · simp [hd0]
          · simp [hd0]
    · intro p g y
      unfold Sym
      constructor
      · rintro ⟨s, e, h1, h2, h3, h4⟩
        replace h1 := mem_modify.1 h1
        rcases h1 with ⟨_, h1⟩ | ⟨rfl, s0, h1, rfl⟩
        · exact ⟨s, e, h1, h2, h3, h4⟩
        · obtain ⟨e1, h5, rfl⟩ := hedge.1 h2
          refine ⟨s0, e1, h1, h5, ?_, ?_⟩
          · split at h3 <;> exact h3
          · split at h4 <;> exact h4
      · rintro ⟨s, e, h1, h2, h3, h4⟩
        by_cases hp : p = q
        · refine ⟨_, _, mem_modify.2 (.inr ⟨hp, s, h1, rfl⟩), hedge.2 ⟨e, h2, rfl⟩, ?_, ?_⟩
          · split <;> exact h3
          · split <;> exact h4
        · exact ⟨s, e, mem_modify.2 (.inl ⟨hp, h1⟩), h2, h3, h4⟩
    · intro p
      unfold Acc
      constructor
      · rintro ⟨s, h1, h2⟩
        replace h1 := mem_modify.1 h1
        rcases h1 with ⟨_, h1⟩ | ⟨rfl, s0, h1, rfl⟩
        · exact ⟨s, h1, h2⟩
        · exact ⟨s0, h1, h2⟩
      · rintro ⟨s, h1, h2⟩
        by_cases hp : p = q
        · exact ⟨_, mem_modify.2 (.inr ⟨hp, s, h1, rfl⟩), h2⟩
        · exact ⟨s, mem_modify.2 (.inl ⟨hp, h1⟩), h2⟩
    · intro hs p s h1 e h2
      replace h1 := mem_modify.1 h1
      rcases h1 with ⟨_, h1⟩ | ⟨rfl, s0, h1, rfl⟩
      · exact hs _ _ h1 _ h2
      · obtain ⟨e1, h5, rfl⟩ := hedge.1 h2
        have := hs _ _ h1 _ h5
        split <;> exact this
    · intro p s h1 e h2
      replace h1 := mem_modify.1 h1
      rcases h1 with ⟨_, h1⟩ | ⟨rfl, s0, h1, rfl⟩
      · exact .inl ⟨s, e, h1, h2, rfl⟩
      · obtain ⟨e1, h5, rfl⟩ := hedge.1 h2
        refine .inl ⟨s0, e1, h1, h5, ?_⟩
        split <;> rfl
  · exact addEps_spec m q x

theorem plusInner_spec {m : Nfa} (hn : m.ptrs.Nodup) (q : Nat) (xs : List Nat) :
    AddsEps m (xs.foldl (fun m si => m.plusEdge q si) m) fun p y => p = q ∧ y ∈ xs := by
  induction xs generalizing m with
  | nil => exact (AddsEps.refl m).congr (by simp)
  | cons x xs ih =>
    rw [List.foldl_cons]
    have h1 := plusEdge_spec hn q x
    refine (h1.trans (ih (by rw [h1.ptrs]; exact hn))).congr ?_
    intro p y
    simp only [List.mem_cons]
    grind

theorem plus_spec {m : Nfa} (hn : m.ptrs.Nodup) :
    AddsEps m m.plus fun p y => p ∈ m.accepting ∧ y ∈ m.initial := by
  unfold plus
  suffices h : ∀ (l : List Nat) (m1 : Nfa), m1.ptrs.Nodup →
      AddsEps m1 (l.foldl (fun m s => m.initial.foldl (fun m si => m.plusEdge s si) m) m1)
        fun p y => p ∈ l ∧ y ∈ m1.initial by
    exact h _ _ hn
  intro l
  induction l with
  | nil => intro m1 _; exact (AddsEps.refl m1).congr (by simp)
  | cons x l ih =>
    intro m1 h1
    rw [List.foldl_cons]
    have h2 := plusInner_spec h1 x m1.initial
    refine (h2.trans (ih _ (by rw [h2.ptrs]; exact h1))).congr ?_
    intro p y
    rw [h2.initial]
    simp only [List.mem_cons]
    grind

theorem AddsEps.wf {m m' : Nfa} {A : Nat → Nat → Prop} (hm : m.WF) (h : AddsEps m m' A)
    (hA : ∀ p q, A p q → q ∈ m.ptrs) : m'.WF where
  nodup := by rw [h.ptrs]; exact hm.nodup
  dst q s hq e he := by
    rw [h.ptrs]
    rcases h.dst q s hq e he with ⟨s0, e0, h1, h2, h3⟩ | h1
    · rw [← h3]; exact hm.dst _ _ h1 _ h2
    · exact hA _ _ h1
  syms := h.syms hm.syms
  init q hq := by rw [h.ptrs]; exact hm.init q (h.initial ▸ hq)
  initNodup := by rw [h.initial]; exact hm.initNodup
  acc q := by rw [h.accepting, h.acc]; exact hm.acc q

theorem Eps.mem {m : Nfa} {p q : Nat} (h : m.Eps p q) : p ∈ m.ptrs := by
  obtain ⟨s, e, h1, _⟩ := h
  exact mem_ptrs.2 ⟨s, h1⟩

theorem Sym.mem {m : Nfa} {p g q : Nat} (h : m.Sym p g q) : p ∈ m.ptrs := by
  obtain ⟨s, e, h1, _⟩ := h
  exact mem_ptrs.2 ⟨s, h1⟩

theorem Acc.mem {m : Nfa} {p : Nat} (h : m.Acc p) : p ∈ m.ptrs := by
  obtain ⟨s, h1, _⟩ := h
  exact mem_ptrs.2 ⟨s, h1⟩

theorem Eps.dst_mem {m : Nfa} (hm : m.WF) {p q : Nat} (h : m.Eps p q) : q ∈ m.ptrs := by
  obtain ⟨s, e, h1, h2, _, rfl⟩ := h
  exact hm.dst _ _ h1 _ h2

theorem Sym.dst_mem {m : Nfa} (hm : m.WF) {p g q : Nat} (h : m.Sym p g q) : q ∈ m.ptrs := by
  obtain ⟨s, e, h1, h2, _, rfl⟩ := h
  exact hm.dst _ _ h1 _ h2

/-! ## plus -/

theorem plus_wf {m : Nfa} (hm : m.WF) : m.plus.WF :=
  (plus_spec hm.nodup).wf hm fun _ q h => hm.init q h.2

/-- A path after `plus_extend` splits at the added moves. -/
theorem plus_path {m : Nfa} (hm : m.WF) {p r : Nat} {w : List Nat} (h : WPath m.plus.Eps m.plus.Sym p w r) :
    WPath m.Eps m.Sym p w r ∨
    ∃ u v i u', w = u ++ (v ++ u') ∧ (∃ f, m.Acc f ∧ WPath m.Eps m.Sym p u f) ∧ Words.Star m.Lang v ∧
      i ∈ m.initial ∧ WPath m.Eps m.Sym i u' r := by
  have hs := plus_spec hm.nodup
  induction h with
  | nil q => exact .inl (.nil q)
  | @eps p q r w h1 _ ih =>
    rcases (hs.eps _ _).1 h1 with h1 | ⟨_, h1, h2⟩
    · rcases ih with h3 | ⟨u, v, i, u', rfl, ⟨f, h3, h4⟩, h5⟩
      · exact .inl (.eps h1 h3)
      · exact .inr ⟨u, v, i, u', rfl, ⟨f, h3, .eps h1 h4⟩, h5⟩
    · right
      have hp := (hm.acc p).1 h1
      rcases ih with h3 | ⟨u, v, i, u', rfl, ⟨f, h3, h4⟩, h5, h6, h7⟩
      · exact ⟨[], [], q, w, rfl, ⟨p, hp, .nil p⟩, .nil, h2, h3⟩
      · exact ⟨[], u ++ v, i, u', by simp, ⟨p, hp, .nil p⟩, .app u v ⟨q, h2, f, h3, h4⟩ h5, h6, h7⟩
  | @sym p g q r w h1 _ ih =>
    have h1 := (hs.sym _ _ _).1 h1
    rcases ih with h3 | ⟨u, v, i, u', rfl, ⟨f, h3, h4⟩, h5⟩
    · exact .inl (.sym h1 h3)
    · exact .inr ⟨g :: u, v, i, u', rfl, ⟨f, h3, .sym h1 h4⟩, h5⟩

theorem plus_lang {m : Nfa} (hm : m.WF) (w : List Nat) : m.plus.Lang w ↔ Words.Plus m.Lang w := by
  have hs := plus_spec hm.nodup
  have hmono : ∀ {p w q}, WPath m.Eps m.Sym p w q → WPath m.plus.Eps m.plus.Sym p w q := fun h =>
    h.mono (fun p q h => (hs.eps p q).2 (.inl h)) (fun p g q h => (hs.sym p g q).2 h)
  constructor
  · rintro ⟨i, hi, f, hf, hp⟩
    rw [hs.initial] at hi
    rw [hs.acc] at hf
    rcases plus_path hm hp with h1 | ⟨u, v, i', u', rfl, ⟨f', h1, h2⟩, h3, h4, h5⟩
    · exact ⟨w, [], by simp, ⟨i, hi, f, hf, h1⟩, .nil⟩
    · refine ⟨u, v ++ u', rfl, ⟨i, hi, f', h1, h2⟩, ?_⟩
      have hu' : m.Lang u' := ⟨i', h4, f, hf, h5⟩
      clear h1 h2 hp
      induction h3 with
      | nil => simpa using Words.Star.app (L := m.Lang) u' [] hu' .nil
      | app a b ha _ ih => rw [List.append_assoc]; exact .app a _ ha ih
  · rintro ⟨u, v, rfl, ⟨i, hi, f, hf, hp⟩, hv⟩
    suffices h : ∃ f', m.Acc f' ∧ WPath m.plus.Eps m.plus.Sym i (u ++ v) f' by
      obtain ⟨f', h1, h2⟩ := h
      exact ⟨i, hs.initial ▸ hi, f', (hs.acc f').2 h1, h2⟩
    clear hi
    induction hv generalizing u i f with
    | nil => exact ⟨f, hf, by simpa using hmono hp⟩
    | app a b ha _ ih =>
      obtain ⟨i', hi', f', hf', hp'⟩ := ha
      obtain ⟨f2, hf2, hp2⟩ := ih a i' f' hf' hp'
      exact ⟨f2, hf2, (hmono hp).append (.eps ((hs.eps f i').2 (.inr ⟨hf.mem, (hm.acc f).2 hf, hi'⟩)) hp2)⟩

/-! ## question, star -/

theorem questionStep_spec {m : Nfa} (hm : m.WF) {s : Nat} (hs : s ∈ m.ptrs) :
    (m.questionStep s).WF ∧ (m.questionStep s).ptrs = m.ptrs ∧ (m.questionStep s).initial = m.initial ∧
    (∀ p q, (m.questionStep s).Eps p q ↔ m.Eps p q) ∧ (∀ p g q, (m.questionStep s).Sym p g q ↔ m.Sym p g q) ∧
    ∀ q, (m.questionStep s).Acc q ↔ m.Acc q ∨ q = s := by
  unfold questionStep
  have hg := mem_get hm.nodup hs
  split
  · have hptrs : Nfa.ptrs { m.modify s ({ · with acc := true }) with accepting := m.accepting ++ [s] } = m.ptrs :=
      modify_ptrs m s fun x => { x with acc := true }
    have hedges : ∀ (q : Nat) (e : NEdge), (∃ st, (q, st) ∈ (m.modify s ({ · with acc := true })).states ∧ e ∈ st.edges) ↔
        ∃ st, (q, st) ∈ m.states ∧ e ∈ st.edges := by
      intro q e
      constructor
      · rintro ⟨st, h1, h2⟩
        rcases mem_modify.1 h1 with ⟨_, h3⟩ | ⟨rfl, s0, h3, rfl⟩
        · exact ⟨st, h3, h2⟩
        · exact ⟨s0, h3, h2⟩
      · rintro ⟨st, h1, h2⟩
        by_cases hq : q = s
        · exact ⟨_, mem_modify.2 (.inr ⟨hq, st, h1, rfl⟩), h2⟩
        · exact ⟨st, mem_modify.2 (.inl ⟨hq, h1⟩), h2⟩
    have heps : ∀ p q, Nfa.Eps { m.modify s ({ · with acc := true }) with accepting := m.accepting ++ [s] } p q ↔
        m.Eps p q := by
      intro p q
      unfold Eps
      constructor
      · rintro ⟨st, e, h1, h2, h3⟩
        obtain ⟨st', h4, h5⟩ := (hedges p e).1 ⟨st, h1, h2⟩
        exact ⟨st', e, h4, h5, h3⟩
      · rintro ⟨st, e, h1, h2, h3⟩
        obtain ⟨st', h4, h5⟩ := (hedges p e).2 ⟨st, h1, h2⟩
        exact ⟨st', e, h4, h5, h3⟩
    have hsym : ∀ p g q, Nfa.Sym { m.modify s ({ · with acc := true }) with accepting := m.accepting ++ [s] } p g q ↔
        m.Sym p g q := by
      intro p g q
      unfold Sym
      constructor
      · rintro ⟨st, e, h1, h2, h3⟩
        obtain ⟨st', h4, h5⟩ := (hedges p e).1 ⟨st, h1, h2⟩
        exact ⟨st', e, h4, h5, h3⟩
      · rintro ⟨st, e, h1, h2, h3⟩
        obtain ⟨st', h4, h5⟩ := (hedges p e).2 ⟨st, h1, h2⟩
        exact ⟨st', e, h4, h5, h3⟩
    have hacc' : ∀ q, (m.modify s ({ · with acc := true })).Acc q ↔ m.Acc q ∨ q = s := by
      intro q
      unfold Acc
      constructor
      · rintro ⟨st, h1, h2⟩
        rcases mem_modify.1 h1 with ⟨_, h3⟩ | ⟨rfl, s0, h3, rfl⟩
        · exact .inl ⟨st, h3, h2⟩
        · exact .inr rfl
      · rintro (⟨st, h1, h2⟩ | rfl)
        · by_cases hq : q = s
          · exact ⟨{ st with acc := true }, mem_modify.2 (.inr ⟨hq, st, h1, rfl⟩), rfl⟩
          · exact ⟨st, mem_modify.2 (.inl ⟨hq, h1⟩), h2⟩
        · exact ⟨{ m.get q with acc := true }, mem_modify.2 (.inr ⟨rfl, _, hg, rfl⟩), rfl⟩
    have hacc : ∀ q, Nfa.Acc { m.modify s ({ · with acc := true }) with accepting := m.accepting ++ [s] } q ↔
        m.Acc q ∨ q = s := hacc'
    refine ⟨⟨?_, ?_, ?_, ?_, hm.initNodup, ?_⟩, hptrs, rfl, heps, hsym, hacc⟩
    · rw [hptrs]; exact hm.nodup
    · intro q st h1 e h2
      rw [hptrs]
      obtain ⟨st', h4, h5⟩ := (hedges q e).1 ⟨st, h1, h2⟩
      exact hm.dst _ _ h4 _ h5
    · intro q st h1 e h2
      obtain ⟨st', h4, h5⟩ := (hedges q e).1 ⟨st, h1, h2⟩
      exact hm.syms _ _ h4 _ h5
    · rw [hptrs]; exact hm.init
    · intro q
      rw [hacc, ← hm.acc]
      simp
  · rename_i h
    simp only [Bool.not_eq_true', Bool.not_eq_false] at h
    refine ⟨hm, rfl, rfl, fun _ _ => Iff.rfl, fun _ _ _ => Iff.rfl, fun q => ?_⟩
    constructor
    · exact .inl
    · rintro (h1 | rfl)
      · exact h1
      · exact ⟨_, hg, h⟩

theorem question_spec {m : Nfa} (hm : m.WF) :
    m.question.WF ∧ m.question.ptrs = m.ptrs ∧ m.question.initial = m.initial ∧
    (∀ p q, m.question.Eps p q ↔ m.Eps p q) ∧ (∀ p g q, m.question.Sym p g q ↔ m.Sym p g q) ∧
    ∀ q, m.question.Acc q ↔ m.Acc q ∨ q ∈ m.initial := by
  unfold question
  suffices h : ∀ (l : List Nat) (m1 : Nfa), m1.WF → (∀ s ∈ l, s ∈ m1.ptrs) →
      (l.foldl questionStep m1).WF ∧ (l.foldl questionStep m1).ptrs = m1.ptrs ∧
      (l.foldl questionStep m1).initial = m1.initial ∧
      (∀ p q, (l.foldl questionStep m1).Eps p q ↔ m1.Eps p q) ∧
      (∀ p g q, (l.foldl questionStep m1).Sym p g q ↔ m1.Sym p g q) ∧
      ∀ q, (l.foldl questionStep m1).Acc q ↔ m1.Acc q ∨ q ∈ l by
    exact h _ _ hm hm.init
  intro l
  induction l with
  | nil => intro m1 h1 _; exact ⟨h1, rfl, rfl, fun _ _ => Iff.rfl, fun _ _ _ => Iff.rfl, by simp⟩
  | cons x l ih =>
    intro m1 h1 h2
    rw [List.foldl_cons]
    obtain ⟨a1, a2, a3, a4, a5, a6⟩ := questionStep_spec h1 (h2 x (by simp))
    obtain ⟨b1, b2, b3, b4, b5, b6⟩ := ih _ a1 (fun s hs => by rw [a2]; exact h2 s (by simp [hs]))
    refine ⟨b1, b2.trans a2, b3.trans a3, fun p q => (b4 p q).trans (a4 p q),
      fun p g q => (b5 p g q).trans (a5 p g q), fun q => ?_⟩
    rw [b6, a6]
    simp only [List.mem_cons]
    grind

theorem question_lang {m : Nfa} (hm : m.WF) (w : List Nat) :
    m.question.Lang w ↔ m.Lang w ∨ ∃ i ∈ m.initial, ∃ i' ∈ m.initial, WPath m.Eps m.Sym i w i' := by
  obtain ⟨_, _, h3, h4, h5, h6⟩ := question_spec hm
  have he : m.question.Eps = m.Eps := by funext p q; exact propext (h4 p q)
  have hs : m.question.Sym = m.Sym := by funext p g q; exact propext (h5 p g q)
  unfold Lang
  rw [he, hs, h3]
  simp only [h6]
  constructor
  · rintro ⟨i, hi, f, hf | hf, hp⟩
    · exact .inl ⟨i, hi, f, hf, hp⟩
    · exact .inr ⟨i, hi, f, hf, hp⟩
  · rintro (⟨i, hi, f, hf, hp⟩ | ⟨i, hi, f, hf, hp⟩)
    · exact ⟨i, hi, f, .inl hf, hp⟩
    · exact ⟨i, hi, f, .inr hf, hp⟩

theorem Star.append {L : Words} {u v : List Nat} (hu : L.Star u) (hv : L.Star v) : L.Star (u ++ v) := by
  induction hu with
  | nil => exact hv
  | app a b ha _ ih => rw [List.append_assoc]; exact .app a _ ha ih

theorem Star.of {L : Words} {u : List Nat} (hu : L u) : L.Star u := by
  simpa using Words.Star.app (L := L) u [] hu .nil

theorem Plus.star {L : Words} {u : List Nat} (hu : L.Plus u) : L.Star u := by
  obtain ⟨a, b, rfl, h1, h2⟩ := hu
  exact .app a b h1 h2

theorem star_lang {m : Nfa} (hm : m.WF) (w : List Nat) :
    m.star.Lang w ↔ Words.Plus m.Lang w ∨
      ∃ v u i, w = v ++ u ∧ Words.Star m.Lang v ∧ i ∈ m.initial ∧ ∃ i' ∈ m.initial, WPath m.Eps m.Sym i u i' := by
  unfold star
  have hs := plus_spec hm.nodup
  rw [question_lang (plus_wf hm), plus_lang hm, hs.initial]
  constructor
  · rintro (h1 | ⟨i, hi, i', hi', hp⟩)
    · exact .inl h1
    · right
      rcases plus_path hm hp with h1 | ⟨u, v, i2, u', rfl, ⟨f, h1, h2⟩, h3, h4, h5⟩
      · exact ⟨[], w, i, rfl, .nil, hi, i', hi', h1⟩
      · exact ⟨u ++ v, u', i2, by simp, .app u v ⟨i, hi, f, h1, h2⟩ h3, h4, i', hi', h5⟩
  · rintro (h1 | ⟨v, u, i, rfl, hv, hi, i', hi', hp⟩)
    · exact .inl h1
    · right
      have hmono : ∀ {p w q}, WPath m.Eps m.Sym p w q → WPath m.plus.Eps m.plus.Sym p w q := fun h =>
        h.mono (fun p q h => (hs.eps p q).2 (.inl h)) (fun p g q h => (hs.sym p g q).2 h)
      cases hv with
      | nil => exact ⟨i, hi, i', hi', hmono hp⟩
      | app a b ha hb =>
        have hpl : m.plus.Lang (a ++ b) := (plus_lang hm _).2 ⟨a, b, rfl, ha, hb⟩
        obtain ⟨i2, hi2, f, hf, h1⟩ := hpl
        rw [hs.acc] at hf
        refine ⟨i2, hs.initial ▸ hi2, i', hi', ?_⟩
        exact h1.append (.eps ((hs.eps f i).2 (.inr ⟨hf.mem, (hm.acc f).2 hf, hi⟩)) (hmono hp))

/-! ## Two automata side by side -/

theorem Acc_dec {m : Nfa} (hn : m.ptrs.Nodup) {q : Nat} {s : NState} (h : (q, s) ∈ m.states) :
    m.Acc q ↔ s.acc = true := by
  constructor
  · rintro ⟨s', h1, h2⟩
    rw [← get_eq hn h, get_eq hn h1]
    exact h2
  · intro h1; exact ⟨s, h, h1⟩

/-- Clearing the accepting flag. -/
theorem clearAcc_spec (m : Nfa) (x : Nat) :
    (m.modify x ({ · with acc := false })).ptrs = m.ptrs ∧
    (∀ p q, (m.modify x ({ · with acc := false })).Eps p q ↔ m.Eps p q) ∧
    (∀ p g q, (m.modify x ({ · with acc := false })).Sym p g q ↔ m.Sym p g q) ∧
    (∀ p, (m.modify x ({ · with acc := false })).Acc p ↔ m.Acc p ∧ p ≠ x) ∧
    ∀ p s, (p, s) ∈ (m.modify x ({ · with acc := false })).states → ∃ s0, (p, s0) ∈ m.states ∧ s0.edges = s.edges := by
  have hedges : ∀ (q : Nat) (e : NEdge),
      (∃ st, (q, st) ∈ (m.modify x ({ · with acc := false })).states ∧ e ∈ st.edges) ↔
      ∃ st, (q, st) ∈ m.states ∧ e ∈ st.edges := by
    intro q e
    constructor
    · rintro ⟨st, h1, h2⟩
      rcases mem_modify.1 h1 with ⟨_, h3⟩ | ⟨rfl, s0, h3, rfl⟩
      · exact ⟨st, h3, h2⟩
      · exact ⟨s0, h3, h2⟩
    · rintro ⟨st, h1, h2⟩
      by_cases hq : q = x
      · exact ⟨_, mem_modify.2 (.inr ⟨hq, st, h1, rfl⟩), h2⟩
      · exact ⟨st, mem_modify.2 (.inl ⟨hq, h1⟩), h2⟩
  refine ⟨modify_ptrs _ _ _, ?_, ?_, ?_, ?_⟩
  · intro p q
    unfold Eps
    constructor
    · rintro ⟨st, e, h1, h2, h3⟩
      obtain ⟨st', h4, h5⟩ := (hedges p e).1 ⟨st, h1, h2⟩
      exact ⟨st', e, h4, h5, h3⟩
    · rintro ⟨st, e, h1, h2, h3⟩
      obtain ⟨st', h4, h5⟩ := (hedges p e).2 ⟨st, h1, h2⟩
      exact ⟨st', e, h4, h5, h3⟩
  · intro p g q
    unfold Sym
    constructor
    · rintro ⟨st, e, h1, h2, h3⟩
      obtain ⟨st', h4, h5⟩ := (hedges p e).1 ⟨st, h1, h2⟩
      exact ⟨st', e, h4, h5, h3⟩
    · rintro ⟨st, e, h1, h2, h3⟩
      obtain ⟨st', h4, h5⟩ := (hedges p e).2 ⟨st, h1, h2⟩
      exact ⟨st', e, h4, h5, h3⟩
  · intro p
    unfold Acc
    constructor
    · rintro ⟨st, h1, h2⟩
      rcases mem_modify.1 h1 with ⟨h4, h3⟩ | ⟨rfl, s0, h3, rfl⟩
      · exact ⟨⟨st, h3, h2⟩, h4⟩
      · simp at h2
    · rintro ⟨⟨st, h1, h2⟩, h3⟩
      exact ⟨st, mem_modify.2 (.inl ⟨h3, h1⟩), h2⟩
  · intro p s h1
    rcases mem_modify.1 h1 with ⟨_, h3⟩ | ⟨rfl, s0, h3, rfl⟩
    · exact ⟨s, h3, rfl⟩
    · exact ⟨s0, h3, rfl⟩

/-- One round of the loop in `concat`. -/
abbrev concatStep (o : Nfa) (m : Nfa) (sa : Nat) : Nfa :=
  (m.addEpsAll sa o.initial).modify sa ({ · with acc := false })

theorem concatFold_spec (o : Nfa) (l : List Nat) (m : Nfa) :
    (l.foldl (concatStep o) m).ptrs = m.ptrs ∧ (l.foldl (concatStep o) m).initial = m.initial ∧
    (∀ p q, (l.foldl (concatStep o) m).Eps p q ↔ m.Eps p q ∨ (p ∈ m.ptrs ∧ p ∈ l ∧ q ∈ o.initial)) ∧
    (∀ p g q, (l.foldl (concatStep o) m).Sym p g q ↔ m.Sym p g q) ∧
    (∀ p, (l.foldl (concatStep o) m).Acc p ↔ m.Acc p ∧ p ∉ l) ∧
    ((∀ q s, (q, s) ∈ m.states → ∀ e ∈ s.edges, SSorted e.syms) →
      ∀ q s, (q, s) ∈ (l.foldl (concatStep o) m).states → ∀ e ∈ s.edges, SSorted e.syms) ∧
    (∀ q s, (q, s) ∈ (l.foldl (concatStep o) m).states → ∀ e ∈ s.edges,
      (∃ s0 e0, (q, s0) ∈ m.states ∧ e0 ∈ s0.edges ∧ e0.dst = e.dst) ∨ e.dst ∈ o.initial) := by
  induction l generalizing m with
  | nil =>
    exact ⟨rfl, rfl, by simp, by simp, by simp, fun h => h, fun q s h e he => .inl ⟨s, e, h, he, rfl⟩⟩
  | cons x l ih =>
    rw [List.foldl_cons]
    have a := addEpsAll_spec m x o.initial
    obtain ⟨b1, b2, b3, b4, b5⟩ := clearAcc_spec (m.addEpsAll x o.initial) x
    obtain ⟨c1, c2, c3, c4, c5, c6, c7⟩ := ih (concatStep o m x)
    refine ⟨c1.trans (b1.trans a.ptrs), c2.trans a.initial, ?_, ?_, ?_, ?_, ?_⟩
    · intro p q
      rw [c3, b2, b1, a.eps, a.ptrs]
      simp only [List.mem_cons]
      grind
    · intro p g q
      rw [c4, b3, a.sym]
    · intro p
      rw [c5, b4, a.acc]
      simp only [List.mem_cons]
      grind
    · intro h
      apply c6
      intro q s h1 e h2
      obtain ⟨s0, h3, h4⟩ := b5 q s h1
      exact a.syms h q s0 h3 e (h4 ▸ h2)
    · intro q s h1 e h2
      rcases c7 q s h1 e h2 with ⟨s0, e0, h3, h4, h5⟩ | h3
      · obtain ⟨s1, h6, h7⟩ := b5 q s0 h3
        rcases a.dst q s1 h6 e0 (h7 ▸ h4) with ⟨s2, e2, h8, h9, h10⟩ | ⟨_, h8⟩
        · exact .inl ⟨s2, e2, h8, h9, h10.trans h5⟩
        · exact .inr (h5 ▸ h8)
      · exact .inr h3

theorem beside_eps (m o : Nfa) (I A : List Nat) (p q : Nat) :
    Nfa.Eps ⟨m.states ++ o.states, I, A⟩ p q ↔ m.Eps p q ∨ o.Eps p q := by
  unfold Eps
  simp only [List.mem_append]
  constructor
  · rintro ⟨s, e, h1 | h1, h2⟩
    · exact .inl ⟨s, e, h1, h2⟩
    · exact .inr ⟨s, e, h1, h2⟩
  · rintro (⟨s, e, h1, h2⟩ | ⟨s, e, h1, h2⟩)
    · exact ⟨s, e, .inl h1, h2⟩
    · exact ⟨s, e, .inr h1, h2⟩

theorem beside_sym (m o : Nfa) (I A : List Nat) (p g q : Nat) :
    Nfa.Sym ⟨m.states ++ o.states, I, A⟩ p g q ↔ m.Sym p g q ∨ o.Sym p g q := by
  unfold Sym
  simp only [List.mem_append]
  constructor
  · rintro ⟨s, e, h1 | h1, h2⟩
    · exact .inl ⟨s, e, h1, h2⟩
    · exact .inr ⟨s, e, h1, h2⟩
  · rintro (⟨s, e, h1, h2⟩ | ⟨s, e, h1, h2⟩)
    · exact ⟨s, e, .inl h1, h2⟩
    · exact ⟨s, e, .inr h1, h2⟩

theorem beside_acc (m o : Nfa) (I A : List Nat) (q : Nat) :
    Nfa.Acc ⟨m.states ++ o.states, I, A⟩ q ↔ m.Acc q ∨ o.Acc q := by
  unfold Acc
  simp only [List.mem_append]
  constructor
  · rintro ⟨s, h1 | h1, h2⟩
    · exact .inl ⟨s, h1, h2⟩
    · exact .inr ⟨s, h1, h2⟩
  · rintro (⟨s, h1, h2⟩ | ⟨s, h1, h2⟩)
    · exact ⟨s, .inl h1, h2⟩
    · exact ⟨s, .inr h1, h2⟩

/-- The states of two automata are disjoint. -/
def Apart (m o : Nfa) : Prop := ∀ q, q ∈ m.ptrs → q ∈ o.ptrs → False

theorem concat_spec {m o : Nfa} (hm : m.WF) (ho : o.WF) (hd : Apart m o) :
    (m.concat o).WF ∧ (m.concat o).ptrs = m.ptrs ++ o.ptrs ∧ (m.concat o).initial = m.initial ∧
    (∀ p q, (m.concat o).Eps p q ↔ m.Eps p q ∨ o.Eps p q ∨ (m.Acc p ∧ q ∈ o.initial)) ∧
    (∀ p g q, (m.concat o).Sym p g q ↔ m.Sym p g q ∨ o.Sym p g q) ∧
    ∀ q, (m.concat o).Acc q ↔ o.Acc q := by
  obtain ⟨c1, c2, c3, c4, c5, c6, c7⟩ :=
    concatFold_spec o m.accepting ⟨m.states ++ o.states, m.initial, m.accepting⟩
  have hptr : (m.concat o).ptrs = m.ptrs ++ o.ptrs := by
    refine Eq.trans c1 ?_
    simp [ptrs]
  have heps : ∀ p q, (m.concat o).Eps p q ↔ m.Eps p q ∨ o.Eps p q ∨ (m.Acc p ∧ q ∈ o.initial) := by
    intro p q
    refine (c3 p q).trans ?_
    rw [beside_eps, hm.acc]
    constructor
    · rintro ((h | h) | ⟨_, h⟩)
      · exact .inl h
      · exact .inr (.inl h)
      · exact .inr (.inr h)
    · rintro (h | h | h)
      · exact .inl (.inl h)
      · exact .inl (.inr h)
      · refine .inr ⟨?_, h⟩
        have := h.1.mem
        simp only [ptrs, List.map_append, List.mem_append]
        exact .inl this
  have hsym : ∀ p g q, (m.concat o).Sym p g q ↔ m.Sym p g q ∨ o.Sym p g q := by
    intro p g q
    refine (c4 p g q).trans (beside_sym m o _ _ p g q)
  have hacc : ∀ q, (m.concat o).Acc q ↔ o.Acc q := by
    intro q
    refine (c5 q).trans ?_
    rw [beside_acc, hm.acc]
    constructor
    · rintro ⟨h1 | h1, h2⟩
      · exact absurd h1 h2
      · exact h1
    · intro h1
      exact ⟨.inr h1, fun h2 => hd q h2.mem h1.mem⟩
  refine ⟨⟨?_, ?_, ?_, ?_, ?_, ?_⟩, hptr, c2, heps, hsym, hacc⟩
  · rw [hptr, List.nodup_append]
    refine ⟨hm.nodup, ho.nodup, ?_⟩
    rintro a h1 b h2 rfl
    exact hd a h1 h2
  · intro q s h1 e h2
    rw [hptr, List.mem_append]
    rcases c7 q s h1 e h2 with ⟨s0, e0, h3, h4, h5⟩ | h3
    · rcases List.mem_append.1 h3 with h3 | h3
      · exact .inl (h5 ▸ hm.dst _ _ h3 _ h4)
      · exact .inr (h5 ▸ ho.dst _ _ h3 _ h4)
    · exact .inr (ho.init _ h3)
  · refine c6 ?_
    intro q s h1
    rcases List.mem_append.1 h1 with h1 | h1
    · exact hm.syms q s h1
    · exact ho.syms q s h1
  · intro q hq
    rw [hptr, List.mem_append]
    exact .inl (hm.init q (by rw [← c2]; exact hq))
  · have : (m.concat o).initial = m.initial := c2
    rw [this]; exact hm.initNodup
  · intro q
    rw [hacc]
    exact ho.acc q

theorem concat_lang {m o : Nfa} (hm : m.WF) (ho : o.WF) (hd : Apart m o) (w : List Nat) :
    (m.concat o).Lang w ↔ Words.concat m.Lang o.Lang w := by
  obtain ⟨_, _, h3, h4, h5, h6⟩ := concat_spec hm ho hd
  have hright : ∀ {p w q}, WPath (m.concat o).Eps (m.concat o).Sym p w q → p ∈ o.ptrs → WPath o.Eps o.Sym p w q := by
    intro p w q h hp
    refine (h.restrict (P := (· ∈ o.ptrs)) ?_ ?_ hp).1
    · intro p q hp h1
      rcases (h4 p q).1 h1 with h2 | h2 | h2
      · exact (hd p h2.mem hp).elim
      · exact ⟨h2, h2.dst_mem ho⟩
      · exact (hd p h2.1.mem hp).elim
    · intro p g q hp h1
      rcases (h5 p g q).1 h1 with h2 | h2
      · exact (hd p h2.mem hp).elim
      · exact ⟨h2, h2.dst_mem ho⟩
  have hsplit : ∀ {p w q}, WPath (m.concat o).Eps (m.concat o).Sym p w q → p ∈ m.ptrs → o.Acc q →
      ∃ u v, w = u ++ v ∧ (∃ f, m.Acc f ∧ WPath m.Eps m.Sym p u f) ∧
        ∃ i ∈ o.initial, WPath o.Eps o.Sym i v q := by
    intro p w q h
    induction h with
    | nil q => intro hp hq; exact (hd q hp hq.mem).elim
    | @eps p q r w h1 hpath ih =>
      intro hp hq
      rcases (h4 p q).1 h1 with h2 | h2 | h2
      · obtain ⟨u, v, rfl, ⟨f, h7, h8⟩, h9⟩ := ih (h2.dst_mem hm) hq
        exact ⟨u, v, rfl, ⟨f, h7, .eps h2 h8⟩, h9⟩
      · exact (hd p hp h2.mem).elim
      · exact ⟨[], w, rfl, ⟨p, h2.1, .nil p⟩, q, h2.2, hright hpath (ho.init q h2.2)⟩
    | @sym p g q r w h1 hpath ih =>
      intro hp hq
      rcases (h5 p g q).1 h1 with h2 | h2
      · obtain ⟨u, v, rfl, ⟨f, h7, h8⟩, h9⟩ := ih (h2.dst_mem hm) hq
        exact ⟨g :: u, v, rfl, ⟨f, h7, .sym h2 h8⟩, h9⟩
      · exact (hd p hp h2.mem).elim
  constructor
  · rintro ⟨i, hi, f, hf, hp⟩
    rw [h3] at hi
    rw [h6] at hf
    obtain ⟨u, v, rfl, ⟨f1, h7, h8⟩, i2, h9, h10⟩ := hsplit hp (hm.init i hi) hf
    exact ⟨u, v, rfl, ⟨i, hi, f1, h7, h8⟩, i2, h9, f, hf, h10⟩
  · rintro ⟨u, v, rfl, ⟨i, hi, f1, h7, h8⟩, i2, h9, f, hf, h10⟩
    refine ⟨i, by rw [h3]; exact hi, f, (h6 f).2 hf, ?_⟩
    refine (h8.mono (fun p q h => (h4 p q).2 (.inl h)) fun p g q h => (h5 p g q).2 (.inl h)).append ?_
    exact .eps ((h4 _ _).2 (.inr (.inr ⟨h7, h9⟩)))
      (h10.mono (fun p q h => (h4 p q).2 (.inr (.inl h))) fun p g q h => (h5 p g q).2 (.inr h))

/-! ## or -/

theorem or_spec {m o : Nfa} (hm : m.WF) (ho : o.WF) (hd : Apart m o) {x : Nat} (hx : x ∉ m.ptrs)
    (hx' : x ∉ o.ptrs) :
    (m.or o x).WF ∧ (m.or o x).ptrs = m.ptrs ++ o.ptrs ++ [x] ∧ (m.or o x).initial = [x] ∧
    (∀ p q, (m.or o x).Eps p q ↔ m.Eps p q ∨ o.Eps p q ∨ (p = x ∧ (q ∈ m.initial ∨ q ∈ o.initial))) ∧
    (∀ p g q, (m.or o x).Sym p g q ↔ m.Sym p g q ∨ o.Sym p g q) ∧
    ∀ q, (m.or o x).Acc q ↔ m.Acc q ∨ o.Acc q := by
  let m1 : Nfa := { m with states := m.states ++ o.states ++ [(x, {})] }
  have h := (addEpsAll_spec m1 x m.initial).trans (addEpsAll_spec _ x o.initial)
  have he1 : ∀ p q, m1.Eps p q ↔ m.Eps p q ∨ o.Eps p q := by
    intro p q
    rw [← beside_eps m o [] []]
    unfold Eps
    constructor
    · rintro ⟨s, e, h1, h2⟩
      rcases List.mem_append.1 h1 with h1 | h1
      · exact ⟨s, e, h1, h2⟩
      · simp only [List.mem_singleton, Prod.mk.injEq] at h1
        rw [h1.2] at h2
        simp at h2
    · rintro ⟨s, e, h1, h2⟩
      exact ⟨s, e, List.mem_append.2 (.inl h1), h2⟩
  have hs1 : ∀ p g q, m1.Sym p g q ↔ m.Sym p g q ∨ o.Sym p g q := by
    intro p g q
    rw [← beside_sym m o [] []]
    unfold Sym
    constructor
    · rintro ⟨s, e, h1, h2⟩
      rcases List.mem_append.1 h1 with h1 | h1
      · exact ⟨s, e, h1, h2⟩
      · simp only [List.mem_singleton, Prod.mk.injEq] at h1
        rw [h1.2] at h2
        simp at h2
    · rintro ⟨s, e, h1, h2⟩
      exact ⟨s, e, List.mem_append.2 (.inl h1), h2⟩
  have ha1 : ∀ q, m1.Acc q ↔ m.Acc q ∨ o.Acc q := by
    intro q
    rw [← beside_acc m o [] []]
    unfold Acc
    constructor
    · rintro ⟨s, h1, h2⟩
      rcases List.mem_append.1 h1 with h1 | h1
      · exact ⟨s, h1, h2⟩
      · simp only [List.mem_singleton, Prod.mk.injEq] at h1
        rw [h1.2] at h2
        simp at h2
    · rintro ⟨s, h1, h2⟩
      exact ⟨s, List.mem_append.2 (.inl h1), h2⟩
  have hp1 : m1.ptrs = m.ptrs ++ o.ptrs ++ [x] := by simp [m1, ptrs]
  have hptr : (m.or o x).ptrs = m.ptrs ++ o.ptrs ++ [x] := h.ptrs.trans hp1
  have hacc : ∀ q, (m.or o x).Acc q ↔ m.Acc q ∨ o.Acc q := fun q => (h.acc q).trans (ha1 q)
  refine ⟨⟨?_, ?_, ?_, ?_, ?_, ?_⟩, hptr, rfl, ?_, fun p g q => (h.sym p g q).trans (hs1 p g q), hacc⟩
  · rw [hptr, List.nodup_append, List.nodup_append]
    refine ⟨⟨hm.nodup, ho.nodup, ?_⟩, by simp, ?_⟩
    · rintro a h1 b h2 rfl
      exact hd a h1 h2
    · rintro a h1 b h2 rfl
      simp only [List.mem_singleton] at h2
      subst h2
      rcases List.mem_append.1 h1 with h1 | h1
      · exact hx h1
      · exact hx' h1
  · intro q s h1 e h2
    rw [hptr, List.mem_append, List.mem_append]
    rcases h.dst q s h1 e h2 with ⟨s0, e0, h3, h4, h5⟩ | ⟨_, h3⟩ | ⟨_, h3⟩
    · rcases List.mem_append.1 h3 with h3 | h3
      · rcases List.mem_append.1 h3 with h3 | h3
        · exact .inl (.inl (h5 ▸ hm.dst _ _ h3 _ h4))
        · exact .inl (.inr (h5 ▸ ho.dst _ _ h3 _ h4))
      · simp only [List.mem_singleton, Prod.mk.injEq] at h3
        rw [h3.2] at h4
        simp at h4
    · exact .inl (.inl (hm.init _ h3))
    · exact .inl (.inr (ho.init _ h3))
  · refine h.syms ?_
    intro q s h1 e h2
    rcases List.mem_append.1 h1 with h3 | h3
    · rcases List.mem_append.1 h3 with h3 | h3
      · exact hm.syms _ _ h3 _ h2
      · exact ho.syms _ _ h3 _ h2
    · simp only [List.mem_singleton, Prod.mk.injEq] at h3
      rw [h3.2] at h2
      simp at h2
  · intro q hq
    have : q = x := by simpa [Nfa.or] using hq
    subst this
    rw [hptr]
    simp
  · show [x].Nodup
    simp
  · intro q
    rw [hacc, ← hm.acc, ← ho.acc]
    show q ∈ m.accepting ++ o.accepting ↔ _
    rw [List.mem_append]
  · intro p q
    refine (h.eps p q).trans ?_
    rw [he1, hp1]
    constructor
    · rintro ((h1 | h1) | ⟨_, ⟨rfl, h1⟩ | ⟨rfl, h1⟩⟩)
      · exact .inl h1
      · exact .inr (.inl h1)
      · exact .inr (.inr ⟨rfl, .inl h1⟩)
      · exact .inr (.inr ⟨rfl, .inr h1⟩)
    · rintro (h1 | h1 | ⟨rfl, h1 | h1⟩)
      · exact .inl (.inl h1)
      · exact .inl (.inr h1)
      · exact .inr ⟨by simp, .inl ⟨rfl, h1⟩⟩
      · exact .inr ⟨by simp, .inr ⟨rfl, h1⟩⟩

theorem or_lang {m o : Nfa} (hm : m.WF) (ho : o.WF) (hd : Apart m o) {x : Nat} (hx : x ∉ m.ptrs)
    (hx' : x ∉ o.ptrs) (w : List Nat) : (m.or o x).Lang w ↔ m.Lang w ∨ o.Lang w := by
  obtain ⟨_, _, h3, h4, h5, h6⟩ := or_spec hm ho hd hx hx'
  have hleft : ∀ {p w q}, WPath (m.or o x).Eps (m.or o x).Sym p w q → p ∈ m.ptrs →
      WPath m.Eps m.Sym p w q ∧ q ∈ m.ptrs := by
    intro p w q h hp
    refine h.restrict (P := (· ∈ m.ptrs)) ?_ ?_ hp
    · intro p q hp h1
      rcases (h4 p q).1 h1 with h2 | h2 | h2
      · exact ⟨h2, h2.dst_mem hm⟩
      · exact (hd p hp h2.mem).elim
      · exact absurd (h2.1 ▸ hp) hx
    · intro p g q hp h1
      rcases (h5 p g q).1 h1 with h2 | h2
      · exact ⟨h2, h2.dst_mem hm⟩
      · exact (hd p hp h2.mem).elim
  have hright : ∀ {p w q}, WPath (m.or o x).Eps (m.or o x).Sym p w q → p ∈ o.ptrs →
      WPath o.Eps o.Sym p w q ∧ q ∈ o.ptrs := by
    intro p w q h hp
    refine h.restrict (P := (· ∈ o.ptrs)) ?_ ?_ hp
    · intro p q hp h1
      rcases (h4 p q).1 h1 with h2 | h2 | h2
      · exact (hd p h2.mem hp).elim
      · exact ⟨h2, h2.dst_mem ho⟩
      · exact absurd (h2.1 ▸ hp) hx'
    · intro p g q hp h1
      rcases (h5 p g q).1 h1 with h2 | h2
      · exact (hd p h2.mem hp).elim
      · exact ⟨h2, h2.dst_mem ho⟩
  constructor
  · rintro ⟨i, hi, f, hf, hp⟩
    rw [h3, List.mem_singleton] at hi
    subst hi
    rw [h6] at hf
    cases hp with
    | nil =>
      rcases hf with hf | hf
      · exact absurd hf.mem hx
      · exact absurd hf.mem hx'
    | eps h1 h2 =>
      rcases (h4 _ _).1 h1 with h7 | h7 | ⟨_, h7 | h7⟩
      · exact absurd h7.mem hx
      · exact absurd h7.mem hx'
      · obtain ⟨h8, h9⟩ := hleft h2 (hm.init _ h7)
        rcases hf with hf | hf
        · exact .inl ⟨_, h7, f, hf, h8⟩
        · exact (hd f h9 hf.mem).elim
      · obtain ⟨h8, h9⟩ := hright h2 (ho.init _ h7)
        rcases hf with hf | hf
        · exact (hd f hf.mem h9).elim
        · exact .inr ⟨_, h7, f, hf, h8⟩
    | sym h1 h2 =>
      rcases (h5 _ _ _).1 h1 with h7 | h7
      · exact absurd h7.mem hx
      · exact absurd h7.mem hx'
  · rintro (⟨i, hi, f, hf, hp⟩ | ⟨i, hi, f, hf, hp⟩)
    · refine ⟨x, by simp [h3], f, (h6 f).2 (.inl hf), .eps ((h4 _ _).2 (.inr (.inr ⟨rfl, .inl hi⟩))) ?_⟩
      exact hp.mono (fun p q h => (h4 p q).2 (.inl h)) fun p g q h => (h5 p g q).2 (.inl h)
    · refine ⟨x, by simp [h3], f, (h6 f).2 (.inr hf), .eps ((h4 _ _).2 (.inr (.inr ⟨rfl, .inr hi⟩))) ?_⟩
      exact hp.mono (fun p q h => (h4 p q).2 (.inr (.inl h))) fun p g q h => (h5 p g q).2 (.inr h)

/-! ## Constructors and copies -/

theorem ofBool_spec (q : Nat) (b : Bool) : (ofBool q b).WF ∧ ∀ w, (ofBool q b).Lang w ↔ b = true ∧ w = [] := by
  have hacc : ∀ x, (ofBool q b).Acc x ↔ x = q ∧ b = true := by
    intro x
    simp [Acc, ofBool]
  refine ⟨⟨by simp [ptrs, ofBool], ?_, ?_, by simp [ptrs, ofBool], by simp [ofBool], ?_⟩, ?_⟩
  · intro x s h e he
    simp [ofBool] at h
    simp [h.2] at he
  · intro x s h e he
    simp [ofBool] at h
    simp [h.2] at he
  · intro x
    rw [hacc]
    cases b <;> simp [ofBool]
  · intro w
    constructor
    · rintro ⟨i, hi, f, hf, hp⟩
      obtain ⟨_, hb⟩ := (hacc f).1 hf
      refine ⟨hb, ?_⟩
      cases hp with
      | nil => rfl
      | eps h1 _ =>
        obtain ⟨s, e, h2, h3, _⟩ := h1
        simp [ofBool] at h2
        simp [h2.2] at h3
      | sym h1 _ =>
        obtain ⟨s, e, h2, h3, _⟩ := h1
        simp [ofBool] at h2
        simp [h2.2] at h3
    · rintro ⟨rfl, rfl⟩
      exact ⟨q, by simp [ofBool], q, (hacc q).2 ⟨rfl, rfl⟩, .nil q⟩

theorem ofSet_spec {q0 q1 : Nat} (hq : q0 ≠ q1) {syms : List Nat} (hs : SSorted syms) (neg : Bool) :
    (ofSet q0 q1 syms neg).WF ∧
    ∀ w, (ofSet q0 q1 syms neg).Lang w ↔ ∃ g, w = [g] ∧ if neg then g ∉ syms else g ∈ syms := by
  unfold ofSet
  split
  · rename_i hne
    generalize hm : (⟨[(q0, { edges := [{ neg := neg, syms := syms, dst := q1 }] }), (q1, { acc := true })],
      [q0], [q1]⟩ : Nfa) = m
    have hst : ∀ x s, (x, s) ∈ m.states ↔ (x = q0 ∧ s = { edges := [{ neg := neg, syms := syms, dst := q1 }] }) ∨
        (x = q1 ∧ s = { acc := true }) := by
      intro x s; rw [← hm]; simp
    have hacc : ∀ x, m.Acc x ↔ x = q1 := by
      intro x
      unfold Acc
      constructor
      · rintro ⟨s, h1, h2⟩
        rcases (hst x s).1 h1 with ⟨_, rfl⟩ | ⟨h3, _⟩
        · simp at h2
        · exact h3
      · intro h1; exact ⟨_, (hst x _).2 (.inr ⟨h1, rfl⟩), rfl⟩
    have hptr : m.ptrs = [q0, q1] := by rw [← hm]; rfl
    refine ⟨⟨by simp [hptr, hq], ?_, ?_, by rw [hptr, ← hm]; simp, by rw [← hm]; simp, ?_⟩, ?_⟩
    · intro x s h e he
      rcases (hst x s).1 h with ⟨_, rfl⟩ | ⟨_, rfl⟩
      · simp only [List.mem_singleton] at he
        subst he
        simp [hptr]
      · simp at he
    · intro x s h e he
      rcases (hst x s).1 h with ⟨_, rfl⟩ | ⟨_, rfl⟩
      · simp only [List.mem_singleton] at he
        subst he
        exact hs
      · simp at he
    · intro x
      rw [hacc, ← hm]
      simp
    · intro w
      have hI : m.initial = [q0] := by rw [← hm]
      have hend : ∀ {v r}, WPath m.Eps m.Sym q1 v r → v = [] := by
        intro v r h
        cases h with
        | nil => rfl
        | eps h1 _ =>
          obtain ⟨s, e, h2, h3, _⟩ := h1
          rcases (hst _ s).1 h2 with ⟨h4, _⟩ | ⟨_, rfl⟩
          · exact absurd h4.symm hq
          · simp at h3
        | sym h1 _ =>
          obtain ⟨s, e, h2, h3, _⟩ := h1
          rcases (hst _ s).1 h2 with ⟨h4, _⟩ | ⟨_, rfl⟩
          · exact absurd h4.symm hq
          · simp at h3
      constructor
      · rintro ⟨i, hi, f, hf, hp⟩
        rw [hI, List.mem_singleton] at hi
        subst hi
        rw [hacc] at hf
        subst hf
        cases hp with
        | nil => exact absurd rfl hq
        | eps h1 _ =>
          obtain ⟨s, e, h2, h3, h4, _⟩ := h1
          rcases (hst _ s).1 h2 with ⟨_, rfl⟩ | ⟨h5, _⟩
          · simp only [List.mem_singleton] at h3
            subst h3
            simp at h4
          · exact absurd h5 hq
        | @sym _ g _ _ v h1 h6 =>
          obtain ⟨s, e, h2, h3, h4, rfl⟩ := h1
          rcases (hst _ s).1 h2 with ⟨_, rfl⟩ | ⟨h5, _⟩
          · simp only [List.mem_singleton] at h3
            subst h3
            exact ⟨g, by rw [hend h6], h4⟩
          · exact absurd h5 hq
      · rintro ⟨g, rfl, hg⟩
        refine ⟨q0, by simp [hI], q1, (hacc q1).2 rfl, .sym (q := q1) ?_ (.nil q1)⟩
        exact ⟨_, _, (hst q0 _).2 (.inl ⟨rfl, rfl⟩), List.mem_singleton.2 rfl, hg, rfl⟩
  · rename_i hne
    simp only [Bool.or_eq_true, Bool.not_eq_true', not_or, Bool.not_eq_false, Bool.not_eq_true,
      List.isEmpty_iff] at hne
    obtain ⟨rfl, rfl⟩ := hne
    refine ⟨⟨by simp [ptrs], by simp, by simp, by simp, by simp, by simp [Acc]⟩, ?_⟩
    intro w
    simp [Lang]

/-- Copying into an empty automaton renames the states. -/
theorem copy_spec {o : Nfa} (ho : o.WF) {f : Nat → Nat} (hf : ∀ p ∈ o.ptrs, ∀ q ∈ o.ptrs, f p = f q → p = q) :
    (assign {} o f).WF ∧ ∀ w, (assign {} o f).Lang w ↔ o.Lang w := by
  have hst : ∀ q s, (q, s) ∈ (assign {} o f).states ↔ ∃ p s0, (p, s0) ∈ o.states ∧ q = f p ∧
      s = { s0 with edges := s0.edges.map fun e => { e with dst := if e.dst ∈ o.ptrs then f e.dst else 0 } } := by
    intro q s
    simp only [assign, List.nil_append, List.map_map, List.mem_map, Function.comp_apply, Prod.exists,
      Prod.mk.injEq]
    constructor
    · rintro ⟨p, s0, h1, h2, h3⟩; exact ⟨p, s0, h1, h2.symm, h3.symm⟩
    · rintro ⟨p, s0, h1, h2, h3⟩; exact ⟨p, s0, h1, h2.symm, h3.symm⟩
  have hptr : (assign {} o f).ptrs = o.ptrs.map f := by
    simp [assign, ptrs, Function.comp_def]
  have hinit : (assign {} o f).initial = o.initial.map f := rfl
  have hacc : ∀ q, (assign {} o f).Acc q ↔ ∃ p, o.Acc p ∧ q = f p := by
    intro q
    unfold Acc
    constructor
    · rintro ⟨s, h1, h2⟩
      obtain ⟨p, s0, h3, h4, rfl⟩ := (hst q s).1 h1
      exact ⟨p, ⟨s0, h3, h2⟩, h4⟩
    · rintro ⟨p, ⟨s0, h1, h2⟩, h3⟩
      exact ⟨_, (hst q _).2 ⟨p, s0, h1, h3, rfl⟩, h2⟩
  have heps : ∀ q r, (assign {} o f).Eps q r ↔ ∃ p p', o.Eps p p' ∧ q = f p ∧ r = f p' := by
    intro q r
    unfold Eps
    constructor
    · rintro ⟨s, e, h1, h2, h3, h4⟩
      obtain ⟨p, s0, h5, h6, rfl⟩ := (hst q s).1 h1
      obtain ⟨e0, h7, rfl⟩ := List.mem_map.1 h2
      refine ⟨p, e0.dst, ⟨s0, e0, h5, h7, h3, rfl⟩, h6, ?_⟩
      rw [← h4, if_pos (ho.dst _ _ h5 _ h7)]
    · rintro ⟨p, p', ⟨s0, e0, h1, h2, h3, rfl⟩, rfl, rfl⟩
      exact ⟨_, _, (hst _ _).2 ⟨p, s0, h1, rfl, rfl⟩, List.mem_map.2 ⟨e0, h2, rfl⟩, h3,
        by rw [if_pos (ho.dst _ _ h1 _ h2)]⟩
  have hsym : ∀ q g r, (assign {} o f).Sym q g r ↔ ∃ p p', o.Sym p g p' ∧ q = f p ∧ r = f p' := by
    intro q g r
    unfold Sym
    constructor
    · rintro ⟨s, e, h1, h2, h3, h4⟩
      obtain ⟨p, s0, h5, h6, rfl⟩ := (hst q s).1 h1
      obtain ⟨e0, h7, rfl⟩ := List.mem_map.1 h2
      refine ⟨p, e0.dst, ⟨s0, e0, h5, h7, h3, rfl⟩, h6, ?_⟩
      rw [← h4, if_pos (ho.dst _ _ h5 _ h7)]
    · rintro ⟨p, p', ⟨s0, e0, h1, h2, h3, rfl⟩, rfl, rfl⟩
      exact ⟨_, _, (hst _ _).2 ⟨p, s0, h1, rfl, rfl⟩, List.mem_map.2 ⟨e0, h2, rfl⟩, h3,
        by rw [if_pos (ho.dst _ _ h1 _ h2)]⟩
  refine ⟨⟨?_, ?_, ?_, ?_, ?_, ?_⟩, ?_⟩
  · rw [hptr, List.nodup_map_iff_inj_on ho.nodup]
    exact fun p hp q hq h => hf p hp q hq h
  · intro q s h1 e h2
    obtain ⟨p, s0, h5, h6, rfl⟩ := (hst q s).1 h1
    obtain ⟨e0, h7, rfl⟩ := List.mem_map.1 h2
    have := ho.dst _ _ h5 _ h7
    rw [hptr]
    dsimp only
    rw [if_pos this]
    exact List.mem_map_of_mem this
  · intro q s h1 e h2
    obtain ⟨p, s0, h5, h6, rfl⟩ := (hst q s).1 h1
    obtain ⟨e0, h7, rfl⟩ := List.mem_map.1 h2
    exact ho.syms _ _ h5 e0 h7
  · intro q hq
    rw [hinit] at hq
    obtain ⟨p, h1, rfl⟩ := List.mem_map.1 hq
    rw [hptr]
    exact List.mem_map_of_mem (ho.init p h1)
  · rw [hinit, List.nodup_map_iff_inj_on ho.initNodup]
    exact fun p hp q hq h => hf p (ho.init p hp) q (ho.init q hq) h
  · intro q
    rw [hacc]
    show q ∈ o.accepting.map f ↔ _
    simp only [List.mem_map, ho.acc]
    constructor
    · rintro ⟨p, h1, h2⟩; exact ⟨p, h1, h2.symm⟩
    · rintro ⟨p, h1, h2⟩; exact ⟨p, h1, h2.symm⟩
  · intro w
    have hfwd : ∀ {p w q}, WPath o.Eps o.Sym p w q → WPath (assign {} o f).Eps (assign {} o f).Sym (f p) w (f q) := by
      intro p w q h
      induction h with
      | nil q => exact .nil _
      | eps h1 _ ih => exact .eps ((heps _ _).2 ⟨_, _, h1, rfl, rfl⟩) ih
      | sym h1 _ ih => exact .sym ((hsym _ _ _).2 ⟨_, _, h1, rfl, rfl⟩) ih
    have hbwd : ∀ {x w y}, WPath (assign {} o f).Eps (assign {} o f).Sym x w y → ∀ p ∈ o.ptrs, x = f p →
        ∃ q ∈ o.ptrs, y = f q ∧ WPath o.Eps o.Sym p w q := by
      intro x w y h
      induction h with
      | nil q => intro p hp hx; exact ⟨p, hp, hx, .nil p⟩
      | eps h1 _ ih =>
        intro p hp hx
        obtain ⟨a, b, h2, h3, h4⟩ := (heps _ _).1 h1
        have : p = a := hf p hp a h2.mem (hx.symm.trans h3)
        subst this
        obtain ⟨q, h5, h6, h7⟩ := ih b (h2.dst_mem ho) h4
        exact ⟨q, h5, h6, .eps h2 h7⟩
      | sym h1 _ ih =>
        intro p hp hx
        obtain ⟨a, b, h2, h3, h4⟩ := (hsym _ _ _).1 h1
        have : p = a := hf p hp a h2.mem (hx.symm.trans h3)
        subst this
        obtain ⟨q, h5, h6, h7⟩ := ih b (h2.dst_mem ho) h4
        exact ⟨q, h5, h6, .sym h2 h7⟩
    constructor
    · rintro ⟨i, hi, x, hx, hp⟩
      rw [hinit] at hi
      obtain ⟨p, h1, rfl⟩ := List.mem_map.1 hi
      obtain ⟨q, h2, rfl, h3⟩ := hbwd hp p (ho.init p h1) rfl
      obtain ⟨q', h4, h5⟩ := (hacc _).1 hx
      have : q = q' := hf q h2 q' h4.mem h5
      subst this
      exact ⟨p, h1, q, h4, h3⟩
    · rintro ⟨i, hi, x, hx, hp⟩
      exact ⟨f i, by rw [hinit]; exact List.mem_map_of_mem hi, f x, (hacc _).2 ⟨x, hx, rfl⟩, hfwd hp⟩

end Nfa

end Verif
