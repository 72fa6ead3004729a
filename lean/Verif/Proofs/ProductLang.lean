import Verif.Proofs.Product
import Verif.Proofs.PostFinal
import Verif.Proofs.Stable
import Verif.Model.SolverProduct

/-! # The language of the product, and the callbacks that extend it -/

namespace Verif

variable {W : Type}

theorem EPath.trans' {E : Tr → Prop} {p q r : Nat} {v w : List Nat} (h : EPath E p v q) (h' : EPath E q w r) :
    EPath E p (v ++ w) r := by
  induction h with
  | nil q => exact h'
  | cons h1 h2 _ ih => exact .cons h1 h2 (ih h')
  | eps h1 _ ih => exact .eps h1 (ih h')

theorem EPath.mono' {E E' : Tr → Prop} (hE : ∀ t, E t → E' t) {q f : Nat} {w : List Nat}
    (h : EPath E q w f) : EPath E' q w f := by
  induction h with
  | nil q => exact .nil q
  | cons h0 h1 _ ih => exact .cons h0 (hE _ h1) ih
  | eps h1 _ ih => exact .eps (hE _ h1) ih

/-- Without epsilon transitions the two notions of path agree. -/
theorem EPath.toPath {E : Tr → Prop} (hE : ∀ t, E t → t.label ≠ epsilon) {q f : Nat} {w : List Nat}
    (h : EPath E q w f) : Path E q w f := by
  induction h with
  | nil q => exact .nil q
  | cons h0 h1 _ ih => exact .cons h1 ih
  | eps h1 _ ih => exact absurd rfl (hE _ h1)

/-- A literal path is a path that reads the word without its epsilons. -/
theorem Path.strip {E : Tr → Prop} {q f : Nat} {w : List Nat} (h : Path E q w f) :
    EPath E q (w.filter fun g => g != epsilon) f := by
  induction h with
  | nil q => exact .nil q
  | @cons p g q w r h1 _ ih =>
    by_cases hg : g = epsilon
    · subst hg
      simpa using EPath.eps h1 ih
    · have : (g != epsilon) = true := by simpa using hg
      rw [List.filter_cons, if_pos this]
      exact .cons hg h1 ih

namespace Product

/-- Some configuration is accepted by both automata. -/
def Meets (size : Nat) (A B : Aut W) : Prop :=
  ∃ p w, p < size ∧ EAccepted (· ∈ keys A.edges) (fun q => A.isAcc q = true) (p, w) ∧
    EAccepted (· ∈ keys B.edges) (fun q => B.isAcc q = true) (p, w)

theorem Meets.mono {size : Nat} {A B A' B' : Aut W} (hA : ∀ t ∈ keys A.edges, t ∈ keys A'.edges)
    (hB : ∀ t ∈ keys B.edges, t ∈ keys B'.edges)
    (aA : ∀ q, A'.isAcc q = A.isAcc q) (aB : ∀ q, B'.isAcc q = B.isAcc q) (h : Meets size A B) : Meets size A' B' := by
  obtain ⟨p, w, h1, ⟨q, h2, h3⟩, ⟨r, h4, h5⟩⟩ := h
  exact ⟨p, w, h1, ⟨q, h2.mono' hA, (aA q).trans h3⟩, ⟨r, h4.mono' hB, (aB r).trans h5⟩⟩

/-- Paths of the product are paths of both automata. -/
theorem PInv.path {dual : Bool} {A B : Aut W} {s : Product W} (h : PInv dual A B s) {u v : Nat} {w : List Nat}
    (hp : Path (· ∈ keys s.aut.edges) u w v) :
    EPath (· ∈ keys A.edges) (s.orig u).1 (w.filter fun g => g != epsilon) (s.orig v).1 ∧
    EPath (· ∈ keys B.edges) (s.orig u).2 (w.filter fun g => g != epsilon) (s.orig v).2 := by
  induction hp with
  | nil q => exact ⟨.nil _, .nil _⟩
  | @cons p g q w r h1 _ ih =>
    obtain ⟨i1, i2⟩ := ih
    rcases (h.edges _ h1).2.2 with ⟨h2, h3⟩ | ⟨h2, h3, h4⟩
    · dsimp only at h2 h3
      subst h2
      rw [List.filter_cons, if_neg (by simp)]
      rcases h3 with ⟨h3, h4⟩ | ⟨h3, h4⟩
      · exact ⟨.eps h3 i1, h4 ▸ i2⟩
      · exact ⟨h4 ▸ i1, .eps h3 i2⟩
    · dsimp only at h2 h3 h4
      rw [List.filter_cons, if_pos (by simpa using h2)]
      exact ⟨.cons h2 h3 i1, .cons h2 h4 i2⟩

/-- The same with epsilon transitions reading nothing. -/
theorem PInv.epath {dual : Bool} {A B : Aut W} {s : Product W} (h : PInv dual A B s) {u v : Nat} {w : List Nat}
    (hp : EPath (· ∈ keys s.aut.edges) u w v) :
    EPath (· ∈ keys A.edges) (s.orig u).1 w (s.orig v).1 ∧ EPath (· ∈ keys B.edges) (s.orig u).2 w (s.orig v).2 := by
  induction hp with
  | nil q => exact ⟨.nil _, .nil _⟩
  | cons h0 h1 _ ih =>
    obtain ⟨i1, i2⟩ := ih
    rcases (h.edges _ h1).2.2 with ⟨h2, h3⟩ | ⟨h2, h3, h4⟩
    · exact absurd h2 h0
    · exact ⟨.cons h2 h3 i1, .cons h2 h4 i2⟩
  | eps h1 _ ih =>
    obtain ⟨i1, i2⟩ := ih
    rcases (h.edges _ h1).2.2 with ⟨h2, h3⟩ | ⟨h2, h3, h4⟩
    · dsimp only at h3
      rcases h3 with ⟨h3, h4⟩ | ⟨h3, h4⟩
      · exact ⟨.eps h3 i1, h4 ▸ i2⟩
      · exact ⟨h4 ▸ i1, .eps h3 i2⟩
    · exact absurd rfl h2

theorem Complete.path {A B : Aut W} {s : Product W} (hc : Complete A B s (fun _ => True)) {p1 p2 f1 f2 : Nat} {w : List Nat}
    (hA : EPath (· ∈ keys A.edges) p1 w f1) (hB : EPath (· ∈ keys B.edges) p2 w f2) {u : Nat} (hu : u < s.aut.n)
    (ho : s.orig u = (p1, p2)) :
    ∃ v, v < s.aut.n ∧ s.orig v = (f1, f2) ∧ EPath (· ∈ keys s.aut.edges) u w v := by
  have hnil : ∀ (q p2 f2 : Nat) (w : List Nat), EPath (· ∈ keys B.edges) p2 w f2 → w = [] →
      ∀ u, u < s.aut.n → s.orig u = (q, p2) →
      ∃ v, v < s.aut.n ∧ s.orig v = (q, f2) ∧ EPath (· ∈ keys s.aut.edges) u [] v := by
    intro q p2 f2 w hB
    induction hB with
    | nil p2 => exact fun _ u hu ho => ⟨u, hu, ho, .nil u⟩
    | cons h0 h1 _ ih => intro h; simp at h
    | @eps p r w f h1 _ ih =>
      intro hw u hu ho
      obtain ⟨v, h2, h3, h4⟩ := hc u hu trivial epsilon (q, r) (.inl ⟨rfl, .inr ⟨by rw [ho]; exact h1, by rw [ho]⟩⟩)
      obtain ⟨v', h5, h6, h7⟩ := ih hw v h2 h3
      exact ⟨v', h5, h6, .eps h4 h7⟩
  induction hA generalizing p2 f2 u with
  | nil q => exact hnil q p2 f2 [] hB rfl u hu ho
  | @eps p q w r h1 _ ih =>
    obtain ⟨v, h2, h3, h4⟩ := hc u hu trivial epsilon (q, p2) (.inl ⟨rfl, .inl ⟨by rw [ho]; exact h1, by rw [ho]⟩⟩)
    obtain ⟨v', h5, h6, h7⟩ := ih hB h2 h3
    exact ⟨v', h5, h6, .eps h4 h7⟩
  | @cons p g q w r h0 h1 hrest ih =>
    have key : ∀ (p2 f2 : Nat) (w' : List Nat), EPath (· ∈ keys B.edges) p2 w' f2 → w' = g :: w → ∀ u, u < s.aut.n →
        s.orig u = (p, p2) → ∃ v, v < s.aut.n ∧ s.orig v = (r, f2) ∧ EPath (· ∈ keys s.aut.edges) u w' v := by
      intro p2 f2 w' hB
      induction hB with
      | nil p2 => intro h; simp at h
      | @eps p2 q2 w' f2 h2 _ ihB =>
        intro hw u hu ho
        obtain ⟨v, h3, h4, h5⟩ := hc u hu trivial epsilon (p, q2) (.inl ⟨rfl, .inr ⟨by rw [ho]; exact h2, by rw [ho]⟩⟩)
        obtain ⟨v', h6, h7, h8⟩ := ihB hw v h3 h4
        exact ⟨v', h6, h7, .eps h5 h8⟩
      | @cons p2 g' q2 w' f2 h2 h3 hB' _ =>
        intro hw u hu ho
        obtain ⟨rfl, rfl⟩ := List.cons.inj hw
        obtain ⟨v, h4, h5, h6⟩ := hc u hu trivial g' (q, q2) (.inr ⟨h0, by rw [ho]; exact h1, by rw [ho]; exact h3⟩)
        obtain ⟨v', h7, h8, h9⟩ := ih hB' h4 h5
        exact ⟨v', h7, h8, .cons h0 h6 h9⟩
    exact key p2 f2 _ hB rfl u hu ho

/-- An accepting state of the product is a witness. -/
theorem PInv.meets {dual : Bool} {A B : Aut W} {s : Product W} (h : PInv dual A B s) (ha : s.hasAcc = true) :
    Meets s.size A B := by
  obtain ⟨u, h1, h2, h3⟩ := h.hasAcc.1 ha
  obtain ⟨p, h4, w, h5⟩ := h.reach u h1
  obtain ⟨h6, h7⟩ := h.path h5
  rw [orig_lt h4] at h6 h7
  exact ⟨p, _, h4, ⟨_, h6, h2⟩, ⟨_, h7, h3⟩⟩

theorem PInv.not_meets {dual : Bool} {A B : Aut W} {s : Product W} (h : PInv dual A B s)
    (hc : Complete A B s (fun _ => True)) (ha : s.hasAcc = false) : ¬ Meets s.size A B := by
  rintro ⟨p, w, h1, ⟨q, h2, h3⟩, ⟨r, h4, h5⟩⟩
  obtain ⟨v, h6, h7, _⟩ := hc.path h2 h4 (u := p) (by rw [h.n]; omega) (orig_lt h1)
  have := h.hasAcc.2 ⟨v, h6, by rw [h7]; exact h3, by rw [h7]; exact h5⟩
  rw [ha] at this
  simp at this

/-- The language of a complete product is the intersection. -/
theorem PInv.lang {dual : Bool} {A B : Aut W} {s : Product W} (h : PInv dual A B s)
    (hc : Complete A B s (fun _ => True)) {p : Nat} (hp : p < s.size) (w : List Nat) :
    EAccepted (· ∈ keys s.aut.edges) (fun q => s.aut.isAcc q = true) (p, w) ↔
      EAccepted (· ∈ keys A.edges) (fun q => A.isAcc q = true) (p, w) ∧
      EAccepted (· ∈ keys B.edges) (fun q => B.isAcc q = true) (p, w) := by
  constructor
  · rintro ⟨u, h1, h2⟩
    obtain ⟨h3, h4⟩ := h.epath h1
    rw [orig_lt hp] at h3 h4
    obtain ⟨h5, h6⟩ := (h.acc u (Aut.isAcc_lt h2)).1 h2
    exact ⟨⟨_, h3, h5⟩, ⟨_, h4, h6⟩⟩
  · rintro ⟨⟨q, h2, h3⟩, ⟨r, h4, h5⟩⟩
    obtain ⟨v, h6, h7, h8⟩ := hc.path h2 h4 (u := p) (by rw [h.n]; omega) (orig_lt hp)
    exact ⟨v, h8, (h.acc v h6).2 (by rw [h7]; exact ⟨h3, h5⟩)⟩

variable [Zero W]

theorem ROK.iff {dual et : Bool} {A B : Aut W} {r : Product W × Bool} (h : ROK dual et A B r) :
    r.2 = true ↔ Meets r.1.size A B := by
  constructor
  · intro h1
    exact h.inv.meets (by rw [← h.flag]; exact h1)
  · intro h1
    by_contra h2
    have h2 : r.2 = false := by simpa using h2
    exact h.inv.not_meets (h.complete (.inr h2)) (by rw [← h.flag]; exact h2) h1

/-- What holds of the product while the search goes on, after a set-up with `size` control states. -/
structure Good (dual : Bool) (size : Nat) (A B : Aut W) (s : Product W) : Prop where
  inv : PInv dual A B s
  complete : Complete A B s (fun _ => True)
  acc : s.hasAcc = false
  size : s.size = size
  rA : InRange A
  rB : InRange B

/-- What holds once an accepting state has been found. -/
structure Hit (dual : Bool) (size : Nat) (A B : Aut W) (s : Product W) : Prop where
  inv : PInv dual A B s
  acc : s.hasAcc = true
  size : s.size = size

theorem Good.not_meets {dual : Bool} {size : Nat} {A B : Aut W} {s : Product W} (h : Good dual size A B s) :
    ¬ Meets size A B := h.size ▸ h.inv.not_meets h.complete h.acc

theorem Hit.meets {dual : Bool} {size : Nat} {A B : Aut W} {s : Product W} (h : Hit dual size A B s) :
    Meets size A B := h.size ▸ h.inv.meets h.acc

theorem Hit.mono {dual : Bool} {size : Nat} {A B A' B' : Aut W} {s : Product W} (h : Hit dual size A B s)
    (hA : ∀ t ∈ keys A.edges, t ∈ keys A'.edges) (hB : ∀ t ∈ keys B.edges, t ∈ keys B'.edges)
    (aA : ∀ q, A'.isAcc q = A.isAcc q) (aB : ∀ q, B'.isAcc q = B.isAcc q) (nA : A.n ≤ A'.n) (nB : B.n ≤ B'.n) :
    Hit dual size A' B' s := ⟨h.inv.mono hA hB aA aB nA nB, h.acc, h.size⟩

/-- A callback extends the product correctly. -/
theorem addEdge_step (h : HashOrder) {inFirst dual : Bool} {size : Nat} {A B : Aut W} {s : Product W}
    (hd : inFirst = false → dual = true) (hg : Good dual size A B s) (t : Tr) (an : Ann W)
    (hA : InRange (pushF inFirst A t an)) (hB : InRange (pushS inFirst B t an)) :
    ((addEdge h inFirst dual true (pushF inFirst A t an) (pushS inFirst B t an) s t an).2 = true →
      Hit dual size (pushF inFirst A t an) (pushS inFirst B t an)
        (addEdge h inFirst dual true (pushF inFirst A t an) (pushS inFirst B t an) s t an).1) ∧
    ((addEdge h inFirst dual true (pushF inFirst A t an) (pushS inFirst B t an) s t an).2 = false →
      Good dual size (pushF inFirst A t an) (pushS inFirst B t an)
        (addEdge h inFirst dual true (pushF inFirst A t an) (pushS inFirst B t an) s t an).1) := by
  obtain ⟨h1, h2⟩ := addEdge_spec h (et := true) hg.inv hg.complete hd t an hA hB
  constructor
  · intro h3
    exact ⟨h1.inv, by rw [← h1.flag]; exact h3, by rw [h2.size]; exact hg.size⟩
  · intro h3
    exact ⟨h1.inv, h1.complete (.inr h3), by rw [← h1.flag]; exact h3, by rw [h2.size]; exact hg.size, hA, hB⟩

theorem push_range {A : Aut W} (hA : InRange A) {t : Tr} {an : Ann W} (h1 : t.src < A.n) (h2 : t.dst < A.n) :
    InRange (push A t an) := by
  intro u hu
  rcases (mem_push _ _ _ _).1 hu with rfl | hu
  · exact ⟨h1, h2⟩
  · exact hA u hu

theorem cbFirst_spec (h : HashOrder) (dual : Bool) (size N : Nat) (B : Aut W) {V : Tr → Prop}
    (hV : ∀ t, V t → t.src < N ∧ t.dst < N) :
    CbSpec (Instance.cbFirst h dual B) V (fun a e => a.n = N ∧ Good dual size a B e) (fun a e => Hit dual size a B e) where
  step := by
    intro a e t an ⟨hN, hg⟩ _ hv
    obtain ⟨v1, v2⟩ := hV t hv
    obtain ⟨h1, h2⟩ := addEdge_step h (inFirst := true) (by simp) hg t an
      (push_range hg.rA (by omega) (by omega)) hg.rB
    exact ⟨h1, fun h3 => ⟨hN, h2 h3⟩⟩
  mono := by
    intro a e x hx
    exact hx.mono (fun t ht => List.mem_cons_of_mem _ ht) (fun _ h => h) (fun _ => rfl) (fun _ => rfl)
      (Nat.le_refl _) (Nat.le_refl _)

theorem cbSecond_spec (h : HashOrder) (size N : Nat) (A : Aut W) {V : Tr → Prop}
    (hV : ∀ t, V t → t.src < N ∧ t.dst < N) :
    CbSpec (Instance.cbSecond h A) V (fun b e => b.n = N ∧ Good true size A b e) (fun b e => Hit true size A b e) where
  step := by
    intro a e t an ⟨hN, hg⟩ _ hv
    obtain ⟨v1, v2⟩ := hV t hv
    obtain ⟨h1, h2⟩ := addEdge_step h (inFirst := false) (dual := true) (by simp) hg t an hg.rA
      (push_range hg.rB (by omega) (by omega))
    exact ⟨h1, fun h3 => ⟨hN, h2 h3⟩⟩
  mono := by
    intro a e x hx
    exact hx.mono (fun _ h => h) (fun t ht => List.mem_cons_of_mem _ ht) (fun _ => rfl) (fun _ => rfl)
      (Nat.le_refl _) (Nat.le_refl _)

theorem Good.mono {dual : Bool} {size : Nat} {A B A' B' : Aut W} {s : Product W} (h : Good dual size A B s)
    (eA : A'.edges = A.edges) (eB : B'.edges = B.edges)
    (aA : ∀ q, A'.isAcc q = A.isAcc q) (aB : ∀ q, B'.isAcc q = B.isAcc q) (nA : A.n ≤ A'.n) (nB : B.n ≤ B'.n) :
    Good dual size A' B' s where
  inv := h.inv.mono (by rw [eA]; exact fun _ h => h) (by rw [eB]; exact fun _ h => h) aA aB nA nB
  complete := by
    intro u hu ht g y hm
    exact h.complete u hu ht g y (hm.mono (by rw [eA]; exact fun _ h => h) (by rw [eB]; exact fun _ h => h))
  acc := h.acc
  size := h.size
  rA t ht := by
    rw [eA] at ht
    obtain ⟨h1, h2⟩ := h.rA t ht
    exact ⟨by omega, by omega⟩
  rB t ht := by
    rw [eB] at ht
    obtain ⟨h1, h2⟩ := h.rB t ht
    exact ⟨by omega, by omega⟩

end Product

end Verif
