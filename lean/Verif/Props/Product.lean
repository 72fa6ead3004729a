import Verif.Proofs.SolverProduct
import Verif.Props.FromNfa
import Verif.Props.PostStar

/-!
# C21: the product automaton

`A` and `B` are any two automata whose states include the control states `0, ..., size - 1` and whose
transitions stay within their states; either may have epsilon transitions, which read nothing. `et` is early
termination, `dual` is the mode used by the dual search.
-/

namespace Verif.Props

open Verif.Product

variable {W : Type}

/-- Acceptance where epsilon transitions read nothing. -/
def ELang (a : Aut W) (c : Config) : Prop :=
  EAccepted (· ∈ keys a.edges) (fun q => a.isAcc q = true) c

/-- Some configuration with a control state below `size` is accepted by both automata. -/
def Common (size : Nat) (A B : Aut W) : Prop := ∃ c : Config, c.1 < size ∧ ELang A c ∧ ELang B c

/-- The transitions stay within the states, which include the control states. -/
def Fits (size : Nat) (A : Aut W) : Prop :=
  size ≤ A.n ∧ ∀ t ∈ keys A.edges, t.src < A.n ∧ t.dst < A.n

theorem meets_iff (size : Nat) (A B : Aut W) : Meets size A B ↔ Common size A B :=
  ⟨fun ⟨p, w, h⟩ => ⟨(p, w), h⟩, fun ⟨c, h⟩ => ⟨c.1, c.2, h⟩⟩

variable [Zero W]

/-- C21: `initialize_product` returns true iff some configuration is accepted by both automata. -/
theorem c21_init (h : HashOrder) (dual et : Bool) {size : Nat} {A B : Aut W} (hA : Fits size A) (hB : Fits size B) :
    ((ofAutomata size A B).initProduct h dual et A B).2 = true ↔ Common size A B := by
  obtain ⟨h1, h2⟩ := init_good h (dual := dual) (et := et) hA.2 hB.2 hA.1 hB.1
  rw [h1.iff, h2, meets_iff]

/-- C21: without early termination the product accepts exactly the common configurations. -/
theorem c21_language (h : HashOrder) (dual : Bool) {size : Nat} {A B : Aut W} (hA : Fits size A) (hB : Fits size B)
    (c : Config) (hc : c.1 < size) :
    ELang ((ofAutomata size A B).initProduct h dual false A B).1.aut c ↔ ELang A c ∧ ELang B c := by
  obtain ⟨h1, h2⟩ := init_good h (dual := dual) (et := false) hA.2 hB.2 hA.1 hB.1
  exact h1.inv.lang (h1.complete (.inl rfl)) (by rw [h2]; exact hc) c.2

/-! ## Adding transitions one by one -/

/-- An insertion: whether it is into the first automaton, the transition and its annotation. -/
abbrev Ins (W : Type) := Bool × Tr × Ann W

/-- The two automata, the product and the last answer. -/
structure Feed (W : Type) where
  first : Aut W
  second : Aut W
  prod : Product W
  flag : Bool

/-- The transition is inserted into its automaton and then given to the product (`add_edge_product`,
`add_initial_edge`, `add_final_edge`). With early termination nothing is given to a product that has answered true,
as no caller does. -/
def Feed.add (h : HashOrder) (dual et : Bool) (f : Feed W) (x : Ins W) : Feed W :=
  let first := if x.1 then { f.first with edges := (x.2.1, x.2.2) :: f.first.edges } else f.first
  let second := if x.1 then f.second else { f.second with edges := (x.2.1, x.2.2) :: f.second.edges }
  if et && f.flag then ⟨first, second, f.prod, true⟩
  else
    let r := f.prod.addEdge h x.1 dual et first second x.2.1 x.2.2
    ⟨first, second, r.1, r.2⟩

/-- `initialize_product` and then the insertions in order. -/
def Feed.run (h : HashOrder) (dual et : Bool) (size : Nat) (A B : Aut W) (xs : List (Ins W)) : Feed W :=
  let r := (ofAutomata size A B).initProduct h dual et A B
  xs.foldl (Feed.add h dual et) ⟨A, B, r.1, r.2⟩

structure FeedInv (dual et : Bool) (size : Nat) (A B : Aut W) (f : Feed W) : Prop where
  rok : f.flag = false ∨ et = false → ROK dual et f.first f.second (f.prod, f.flag)
  sz : f.prod.size = size
  nA : f.first.n = A.n
  nB : f.second.n = B.n
  fA : Fits size f.first
  fB : Fits size f.second
  meets : f.flag = true → Meets size f.first f.second

theorem feed_inv (h : HashOrder) {dual et : Bool} {size : Nat} {A B : Aut W} (hA : Fits size A) (hB : Fits size B)
    (xs : List (Ins W)) (hx : ∀ x ∈ xs, (x.1 = false → dual = true) ∧
      x.2.1.src < (if x.1 then A.n else B.n) ∧ x.2.1.dst < (if x.1 then A.n else B.n)) :
    FeedInv dual et size A B (Feed.run h dual et size A B xs) := by
  unfold Feed.run
  dsimp only
  obtain ⟨h1, h2⟩ := init_good h (dual := dual) (et := et) hA.2 hB.2 hA.1 hB.1
  have h0 : FeedInv dual et size A B ⟨A, B, ((ofAutomata size A B).initProduct h dual et A B).1,
      ((ofAutomata size A B).initProduct h dual et A B).2⟩ :=
    ⟨fun _ => h1, h2, rfl, rfl, hA, hB, fun hf => by have := h1.iff.1 hf; rw [h2] at this; exact this⟩
  generalize (⟨A, B, ((ofAutomata size A B).initProduct h dual et A B).1,
      ((ofAutomata size A B).initProduct h dual et A B).2⟩ : Feed W) = f at h0
  induction xs generalizing f with
  | nil => exact h0
  | cons x xs ih =>
    rw [List.foldl_cons]
    refine ih (fun y hy => hx y (.tail _ hy)) _ ?_
    obtain ⟨hd, hs, ht⟩ := hx x (.head _)
    obtain ⟨b, t, an⟩ := x
    dsimp only at hd hs ht
    have e1 : (if b = true then ({ f.first with edges := (t, an) :: f.first.edges } : Aut W) else f.first) =
        pushF b f.first t an := rfl
    have e2 : (if b = true then f.second else ({ f.second with edges := (t, an) :: f.second.edges } : Aut W)) =
        pushS b f.second t an := rfl
    have n1 : (pushF b f.first t an).n = A.n := (pushF_n _ _ _ _).trans h0.nA
    have n2 : (pushS b f.second t an).n = B.n := (pushS_n _ _ _ _).trans h0.nB
    have r1 : InRange (pushF b f.first t an) := by
      cases b with
      | true => exact push_range h0.fA.2 (by simpa [h0.nA] using hs) (by simpa [h0.nA] using ht)
      | false => exact h0.fA.2
    have r2 : InRange (pushS b f.second t an) := by
      cases b with
      | true => exact h0.fB.2
      | false => exact push_range h0.fB.2 (by simpa [h0.nB] using hs) (by simpa [h0.nB] using ht)
    have f1 : Fits size (pushF b f.first t an) := ⟨by rw [n1]; exact hA.1, r1⟩
    have f2 : Fits size (pushS b f.second t an) := ⟨by rw [n2]; exact hB.1, r2⟩
    unfold Feed.add
    dsimp only
    rw [e1, e2]
    by_cases hc : (et && f.flag) = true
    · rw [if_pos hc]
      rw [Bool.and_eq_true] at hc
      refine ⟨fun hf => ?_, h0.sz, n1, n2, f1, f2, fun _ => ?_⟩
      · rcases hf with hf | hf
        · simp at hf
        · rw [hc.1] at hf; simp at hf
      · exact (h0.meets hc.2).mono (fun u hu => pushF_keys _ _ _ _ hu) (fun u hu => pushS_keys _ _ _ _ hu)
          (pushF_isAcc _ _ _ _) (pushS_isAcc _ _ _ _)
    · rw [if_neg hc]
      have hc' : f.flag = false ∨ et = false := by
        cases et <;> cases hff : f.flag <;> simp_all
      have hr := h0.rok hc'
      obtain ⟨g1, g2⟩ := addEdge_spec h (et := et) hr.inv (hr.complete hc'.symm) hd t an r1 r2
      have hsz := g2.size.trans h0.sz
      exact ⟨fun _ => g1, hsz, n1, n2, f1, f2, fun hf => by have := g1.iff.1 hf; rw [hsz] at this; exact this⟩

/-- C21: after any sequence of insertions into the first automaton (in dual mode into either) the answer is whether
the automata, as they are now, accept a common configuration; hence it is the answer of a product built from scratch. -/
theorem c21_incremental (h : HashOrder) (dual et : Bool) {size : Nat} {A B : Aut W} (hA : Fits size A)
    (hB : Fits size B) (xs : List (Ins W)) (hx : ∀ x ∈ xs, (x.1 = false → dual = true) ∧
      x.2.1.src < (if x.1 then A.n else B.n) ∧ x.2.1.dst < (if x.1 then A.n else B.n)) :
    ((Feed.run h dual et size A B xs).flag = true ↔
      Common size (Feed.run h dual et size A B xs).first (Feed.run h dual et size A B xs).second) ∧
    (Feed.run h dual et size A B xs).flag =
      ((ofAutomata size (Feed.run h dual et size A B xs).first (Feed.run h dual et size A B xs).second).initProduct h
        dual et (Feed.run h dual et size A B xs).first (Feed.run h dual et size A B xs).second).2 := by
  have hi := feed_inv h (et := et) hA hB xs hx
  generalize Feed.run h dual et size A B xs = f at hi
  have h1 : f.flag = true ↔ Common size f.first f.second := by
    rw [← meets_iff]
    refine ⟨hi.meets, fun hm => ?_⟩
    by_contra hf
    have hf : f.flag = false := by simpa using hf
    have := (hi.rok (.inl hf)).iff
    dsimp only at this
    rw [hi.sz, hf] at this
    exact absurd (this.2 hm) (by simp)
  refine ⟨h1, ?_⟩
  rw [Bool.eq_iff_iff, h1]
  exact (c21_init h dual et hi.fA hi.fB).symm

/-- C21: without early termination the language after the insertions is the intersection of the languages of the
automata as they are now. -/
theorem c21_incremental_language (h : HashOrder) (dual : Bool) {size : Nat} {A B : Aut W} (hA : Fits size A)
    (hB : Fits size B) (xs : List (Ins W)) (hx : ∀ x ∈ xs, (x.1 = false → dual = true) ∧
      x.2.1.src < (if x.1 then A.n else B.n) ∧ x.2.1.dst < (if x.1 then A.n else B.n)) (c : Config) (hc : c.1 < size) :
    ELang (Feed.run h dual false size A B xs).prod.aut c ↔
      ELang (Feed.run h dual false size A B xs).first c ∧ ELang (Feed.run h dual false size A B xs).second c := by
  have hi := feed_inv h (et := false) hA hB xs hx
  have hr := hi.rok (.inr rfl)
  exact hr.inv.lang (hr.complete (.inl rfl)) (by rw [hi.sz]; exact hc) c.2

/-- The automata hold the insertions: `A` with those into the first automaton, `B` with the others. -/
theorem c21_automata (h : HashOrder) (dual et : Bool) (size : Nat) (A B : Aut W) (xs : List (Ins W)) (t : Tr) :
    (t ∈ keys (Feed.run h dual et size A B xs).first.edges ↔ t ∈ keys A.edges ∨ ∃ an, (true, t, an) ∈ xs) ∧
    (t ∈ keys (Feed.run h dual et size A B xs).second.edges ↔ t ∈ keys B.edges ∨ ∃ an, (false, t, an) ∈ xs) := by
  unfold Feed.run
  dsimp only
  suffices hs : ∀ f : Feed W, (t ∈ keys (xs.foldl (Feed.add h dual et) f).first.edges ↔
        t ∈ keys f.first.edges ∨ ∃ an, (true, t, an) ∈ xs) ∧
      (t ∈ keys (xs.foldl (Feed.add h dual et) f).second.edges ↔ t ∈ keys f.second.edges ∨ ∃ an, (false, t, an) ∈ xs) from
    hs ⟨A, B, _, _⟩
  intro f
  induction xs generalizing f with
  | nil => simp
  | cons x xs ih =>
    rw [List.foldl_cons]
    obtain ⟨i1, i2⟩ := ih (f.add h dual et x)
    rw [i1, i2]
    obtain ⟨b, u, an⟩ := x
    have hf : (f.add h dual et (b, u, an)).first = pushF b f.first u an := by
      unfold Feed.add
      dsimp only
      split <;> rfl
    have hs : (f.add h dual et (b, u, an)).second = pushS b f.second u an := by
      unfold Feed.add
      dsimp only
      split <;> rfl
    rw [hf, hs]
    cases b with
    | true =>
      rw [show pushF true f.first u an = push f.first u an from rfl, show pushS true f.second u an = f.second from rfl,
        mem_push]
      simp only [List.mem_cons, Prod.mk.injEq]
      constructor
      · constructor
        · rintro ((rfl | h1) | ⟨a, h1⟩)
          · exact .inr ⟨an, .inl ⟨trivial, rfl, rfl⟩⟩
          · exact .inl h1
          · exact .inr ⟨a, .inr h1⟩
        · rintro (h1 | ⟨a, ⟨_, rfl, _⟩ | h1⟩)
          · exact .inl (.inr h1)
          · exact .inl (.inl rfl)
          · exact .inr ⟨a, h1⟩
      · simp
    | false =>
      rw [show pushS false f.second u an = push f.second u an from rfl, show pushF false f.first u an = f.first from rfl,
        mem_push]
      simp only [List.mem_cons, Prod.mk.injEq]
      constructor
      · simp
      · constructor
        · rintro ((rfl | h1) | ⟨a, h1⟩)
          · exact .inr ⟨an, .inl ⟨trivial, rfl, rfl⟩⟩
          · exact .inl h1
          · exact .inr ⟨a, .inr h1⟩
        · rintro (h1 | ⟨a, ⟨_, rfl, _⟩ | h1⟩)
          · exact .inl (.inr h1)
          · exact .inl (.inl rfl)
          · exact .inr ⟨a, h1⟩

/-! ## The constructor from NFAs -/

/-- C21: the constructor from two compiled NFAs gives the same instance as building the two automata first. -/
theorem c21_of_nfas {m k : Nfa} (hm : m.WF) (hk : k.WF) {size nl : Nat}
    (lm : ∀ p s, (p, s) ∈ m.states → ∀ e ∈ s.edges, ∀ g ∈ e.syms, g < nl)
    (lk : ∀ p s, (p, s) ∈ k.states → ∀ e ∈ s.edges, ∀ g ∈ e.syms, g < nl)
    {ms ks : List Nat} (sm : SSorted ms) (sk : SSorted ks) (hms : ∀ q ∈ ms, q < size) (hks : ∀ q ∈ ks, q < size) :
    Instance.ofNfas (W := W) size nl m.compile ms k.compile ks =
      Instance.ofAutomata size (Aut.ofNfa size nl m.compile ms) (Aut.ofNfa size nl k.compile ks) := by
  have key : ∀ {m : Nfa}, m.WF → (∀ p s, (p, s) ∈ m.states → ∀ e ∈ s.edges, ∀ g ∈ e.syms, g < nl) →
      ∀ {ms : List Nat}, SSorted ms → (∀ q ∈ ms, q < size) → ∀ q, q < size →
      ((Aut.ofNfa (W := W) size nl m.compile ms).isAcc q = true ↔ q ∈ ms ∧ m.compile.emptyAccept = true) := by
    intro m hm lm ms sm hms q hq
    have h1 := c16_from_nfa (W := W) HashOrder.id hm lm sm hms q hq []
    rw [accepts_iff] at h1
    rw [c28_empty_accept hm]
    constructor
    · intro h2
      have := h1.1 ⟨q, .nil _, h2⟩
      exact ⟨this.1, this.2.1⟩
    · rintro ⟨h2, h3⟩
      obtain ⟨f, h4, h5⟩ := h1.2 ⟨h2, h3, by simp⟩
      dsimp only at h4
      cases h4
      exact h5
  unfold Instance.ofNfas Instance.ofAutomata Product.ofAutomata
  congr 2
  have hss : SSorted (setInter ms ks) := List.Pairwise.sublist (setInter_sublist ms ks) sm
  obtain ⟨a1, a2, a3⟩ := Aut.special_spec (W := W) size hss (m.compile.emptyAccept && k.compile.emptyAccept)
  obtain ⟨b1, b2, b3⟩ := Aut.special_spec (W := W) size
    (sp := (List.range size).filter fun i => (Aut.ofNfa (W := W) size nl m.compile ms).isAcc i &&
      (Aut.ofNfa (W := W) size nl k.compile ks).isAcc i)
    (by exact (List.pairwise_lt_range).filter _) true
  refine Aut.ext_of (a2.trans b2.symm) (a1.trans b1.symm) fun q hq => ?_
  rw [a1] at hq
  rw [Bool.eq_iff_iff, a3, b3, mem_setInter sm sk, List.mem_filter, List.mem_range, Bool.and_eq_true, Bool.and_eq_true,
    key hm lm sm hms q hq, key hk lk sk hks q hq]
  constructor
  · rintro ⟨h1, ⟨h2, h3⟩, h4, h5⟩
    exact ⟨h1, ⟨h1, ⟨h2, h4⟩, h3, h5⟩, rfl⟩
  · rintro ⟨h1, ⟨_, ⟨h2, h4⟩, h3, h5⟩, _⟩
    exact ⟨h1, ⟨h2, h3⟩, h4, h5⟩

/-! ## Concrete cases -/

/-- Accepts `⟨0, 2 0*⟩`, reading nothing on the way from 3 to 2. -/
def exP : Aut Unit :=
  ⟨[false, false, true, false], [(⟨0, 2, 3⟩, (Trace.null, ())), (⟨3, epsilon, 2⟩, (Trace.null, ())), (⟨2, 0, 2⟩, (Trace.null, ()))]⟩

/-- Accepts `⟨0, 2 0⟩` and `⟨1, 1⟩`. -/
def exQ : Aut Unit :=
  ⟨[false, false, false, true], [(⟨0, 2, 2⟩, (Trace.null, ())), (⟨2, 0, 3⟩, (Trace.null, ())), (⟨1, 1, 3⟩, (Trace.null, ()))]⟩

theorem exP_fits : Fits 2 exP := ⟨by decide, by decide⟩
theorem exQ_fits : Fits 2 exQ := ⟨by decide, by decide⟩

example : ((ofAutomata 2 exP exQ).initProduct HashOrder.id false true exP exQ).2 = true :=
  (c21_init HashOrder.id false true exP_fits exQ_fits).2
    ⟨(0, [2, 0]), by decide,
      ⟨2, .cons (q := 3) (by decide) (by decide) (.eps (q := 2) (by decide) (.cons (q := 2) (by decide) (by decide) (.nil _))),
        by decide⟩,
      ⟨3, .cons (q := 2) (by decide) (by decide) (.cons (q := 3) (by decide) (by decide) (.nil _)), by decide⟩⟩

/-- The common configuration appears with the last of three insertions. -/
example :
    let f := fun k => (Feed.run HashOrder.id true true 2 ⟨exP.acc, []⟩ ⟨exQ.acc, [(⟨2, 0, 3⟩, (Trace.null, ()))]⟩
      (([(true, ⟨0, 2, 3⟩, (Trace.null, ())), (false, ⟨0, 2, 2⟩, (Trace.null, ())), (true, ⟨2, 0, 2⟩, (Trace.null, ())),
        (true, ⟨3, epsilon, 2⟩, (Trace.null, ()))] : List (Ins Unit)).take k)).flag
    (f 2, f 3, f 4) = (false, false, true) := by decide +kernel

end Verif.Props
