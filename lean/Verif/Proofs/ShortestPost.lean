import Verif.Model.ShortestPost
import Verif.Proofs.FixedPostFinal
import Verif.Proofs.BuiltW
import Mathlib.Algebra.Order.Monoid.WithTop

/-! # Shortest post*: the invariant and the updates -/

namespace Verif

variable {W T : Type}

/-! ## The queue -/

theorem popMin_none {A K : Type} [LE K] [DecidableLE K] (key : A → K) (l : List A) : popMin key l = none ↔ l = [] := by
  cases l with
  | nil => simp [popMin]
  | cons a l =>
    simp only [popMin, reduceCtorEq, iff_false]
    split
    · simp
    · split <;> simp

theorem popMin_spec {A K : Type} [LinearOrder K] (key : A → K) (l : List A) :
    ∀ e r, popMin key l = some (e, r) → (e :: r).Perm l ∧ ∀ u ∈ r, key e ≤ key u := by
  induction l with
  | nil => intro e r h; simp [popMin] at h
  | cons a l ih =>
    intro e r h
    rw [popMin] at h
    rcases hp : popMin key l with _ | ⟨b, r'⟩
    · rw [hp] at h
      simp only [Option.some.injEq, Prod.mk.injEq] at h
      obtain ⟨rfl, rfl⟩ := h
      rw [(popMin_none key l).1 hp]
      exact ⟨List.Perm.refl _, by simp⟩
    · rw [hp] at h
      obtain ⟨h1, h2⟩ := ih b r' hp
      dsimp only at h
      split at h
      · rename_i hle
        simp only [Option.some.injEq, Prod.mk.injEq] at h
        obtain ⟨rfl, rfl⟩ := h
        refine ⟨List.Perm.refl _, fun u hu => ?_⟩
        rcases List.mem_cons.1 (h1.mem_iff.2 hu) with rfl | hu
        · exact hle
        · exact le_trans hle (h2 u hu)
      · rename_i hle
        simp only [Option.some.injEq, Prod.mk.injEq] at h
        obtain ⟨rfl, rfl⟩ := h
        refine ⟨(List.Perm.swap a b r').trans (h1.cons a), fun u hu => ?_⟩
        rcases List.mem_cons.1 hu with rfl | hu
        · exact le_of_lt (not_le.1 hle)
        · exact h2 u hu

/-- There is a priority queue. -/
def Heap.first {A K : Type} [LinearOrder K] (key : A → K) : Heap A K key :=
  ⟨popMin key, popMin_none key, popMin_spec key⟩

/-! ## Setting and invariant -/

section
variable [LinearOrder T] [AddCommMonoid T] [LinearOrder W]

/-- The setting of the saturation: the added states are `qp`, there are `N` states in all, and no weight is negative. -/
structure ShCtx (p : Pda W) (val : W → T) (a0 : Aut T) (qp : List ((Nat × Nat) × Nat)) (N : Nat) : Prop where
  wf : p.WF
  lab : p.nLabels ≤ epsilon
  size_le : p.size ≤ a0.n
  valid : ∀ t ∈ keys a0.edges, Valid p a0.n t
  nodup : (keys a0.edges).Nodup
  zero : ∀ e ∈ a0.edges, e.2.2 = 0
  noInto : ∀ t ∈ keys a0.edges, p.size ≤ t.dst
  le : a0.n ≤ N
  qok : QOK p a0.n N qp
  nonneg : ∀ q y, y ∈ (p.st q).rules → 0 ≤ val y.1.weight

/-- The transition is waiting in the queue with its current key. -/
def ShSt.Pend (s : ShSt T) (t : Tr) : Prop := ∃ x k e, s.weights t = some (x, k) ∧ e ∈ s.ws ∧ e.edge = t ∧ e.key = k

/-- The transition has a weight, of at most `y`. -/
def ShSt.Bound (s : ShSt T) (t : Tr) (y : T) : Prop := ∃ x k, s.weights t = some (x, k) ∧ x ≤ y

/-- The invariant; `κ` is the key of the element taken last. -/
structure ShI (p : Pda W) (val : W → T) (a0 : Aut T) (qp : List ((Nat × Nat) × Nat)) (N : Nat) (κ : WithTop T) (s : ShSt T) :
    Prop where
  nodup : (keys s.aut.edges).Nodup
  undef : s.undef = false
  nQ : s.x.nQ = a0.n
  qpEq : s.x.qPrime = qp
  kpos : 0 ≤ κ
  mpos : ∀ q, 0 ≤ s.minpath q
  der : ∀ t x k, s.weights t = some (x, k) → FPostDer p.Has val (qFind qp) (· ∈ keys a0.edges) t x
  valid : ∀ t x k, s.weights t = some (x, k) → PValid p N t
  pos : ∀ t x k, s.weights t = some (x, k) → 0 ≤ x
  key : ∀ t x k, s.weights t = some (x, k) → k = s.base t.dst + (x : WithTop T) ∧ k ≠ ⊤
  entry : ∀ e ∈ s.ws, κ ≤ e.key ∧ ∃ x k, s.weights e.edge = some (x, k) ∧ k ≤ e.key
  entSrc : ∀ e ∈ s.ws, e.edge.src < p.size ∨ a0.n ≤ e.edge.src
  entNodup : (s.ws.map fun e => (e.edge, e.key)).Nodup
  settled : ∀ t x k, s.weights t = some (x, k) → s.Pend t ∨ k ≤ κ ∧ s.aut.wt t = some x ∧ (p.size ≤ t.src → t ∈ s.x.rel1) ∧
    (t.label = epsilon → a0.n ≤ t.dst → (t.dst, t.src) ∈ s.x.rel2)
  autw : ∀ t x, s.aut.wt t = some x → ∃ k, s.weights t = some (x, k)
  autp : ∀ t x, s.aut.wt t = some x → s.Pend t → t ∈ keys a0.edges
  rel1 : ∀ t ∈ s.x.rel1, ∃ x, s.aut.wt t = some x
  rel2 : ∀ m f, (m, f) ∈ s.x.rel2 → ∃ x, s.aut.wt ⟨f, epsilon, m⟩ = some x
  push : ∀ q r l, (r, l) ∈ (p.st q).rules → r.op = .push → s.minpath (qFind qp (r.to, r.opLabel)) ≠ ⊤ →
    s.weights ⟨r.to, r.opLabel, qFind qp (r.to, r.opLabel)⟩ = some (0, s.minpath (qFind qp (r.to, r.opLabel))) ∧
    ∀ t, s.weights t ≠ none → t.dst = qFind qp (r.to, r.opLabel) →
      t = ⟨r.to, r.opLabel, qFind qp (r.to, r.opLabel)⟩ ∨ s.minpath (qFind qp (r.to, r.opLabel)) ≤ κ
  tri : ∀ t x k, s.weights t = some (x, k) → a0.n ≤ t.src → s.minpath t.src ≤ k
  input : ∀ t ∈ keys a0.edges, s.aut.wt t = some 0
  acc : ∀ q, s.aut.isAcc q = a0.isAcc q
  built : BuiltW (PostJW p val qp) a0.edges s.aut.edges
  just : ∀ e ∈ s.ws, ∀ x, s.weights e.edge = some (x, e.key) →
    e.edge ∈ keys a0.edges ∨ PostJW p val qp (fun u y => s.aut.wt u = some y) e.edge e.trace x

/-- What an update does. -/
structure ShAdv (κ : WithTop T) (s s' : ShSt T) : Prop where
  aut : s'.aut = s.aut
  x : s'.x = s.x
  less : ∀ t y, s.Bound t y → s'.Bound t y
  back : ∀ t x k, s'.weights t = some (x, k) → ¬ s'.Pend t → s.weights t = some (x, k) ∧ ¬ s.Pend t
  keep : ∀ t x k, s.weights t = some (x, k) → ¬ s.Pend t → s'.weights t = some (x, k) ∧ ¬ s'.Pend t
  mp : ∀ q, s.minpath q ≤ κ → s'.minpath q = s.minpath q

omit [AddCommMonoid T] in
theorem ShAdv.refl (κ : WithTop T) (s : ShSt T) : ShAdv κ s s :=
  ⟨rfl, rfl, fun _ _ h => h, fun _ _ _ h1 h2 => ⟨h1, h2⟩, fun _ _ _ h1 h2 => ⟨h1, h2⟩, fun _ _ => rfl⟩

omit [AddCommMonoid T] in
theorem ShAdv.trans {κ : WithTop T} {s s1 s2 : ShSt T} (h1 : ShAdv κ s s1) (h2 : ShAdv κ s1 s2) : ShAdv κ s s2 := by
  refine ⟨h2.aut.trans h1.aut, h2.x.trans h1.x, fun t y h => h2.less t y (h1.less t y h), ?_, ?_, ?_⟩
  · intro t x k e hn
    obtain ⟨e', hn'⟩ := h2.back t x k e hn
    exact h1.back t x k e' hn'
  · intro t x k e hn
    obtain ⟨e', hn'⟩ := h1.keep t x k e hn
    exact h2.keep t x k e' hn'
  · intro q hq
    have e := h1.mp q hq
    rw [h2.mp q (by rw [e]; exact hq), e]

omit [AddCommMonoid T] [LinearOrder W] [LinearOrder T] in
/-- A loop of updates. -/
theorem foldl_track {α β : Type} (R : β → β → Prop) (hrefl : ∀ s, R s s) (htrans : ∀ s1 s2 s3, R s1 s2 → R s2 s3 → R s1 s3)
    (I : β → Prop) (D : β → α → Prop) (hmono : ∀ s s' a, R s s' → D s a → D s' a) (f : β → α → β) (l : List α) (s0 : β)
    (h0 : I s0) (hf : ∀ s, R s0 s → I s → ∀ a ∈ l, I (f s a) ∧ R s (f s a) ∧ D (f s a) a) :
    I (l.foldl f s0) ∧ R s0 (l.foldl f s0) ∧ ∀ a ∈ l, D (l.foldl f s0) a := by
  induction l generalizing s0 with
  | nil => exact ⟨h0, hrefl _, fun _ h => (by cases h)⟩
  | cons a l ih =>
    obtain ⟨h1, h2, h3⟩ := hf s0 (hrefl _) h0 a (List.mem_cons_self ..)
    obtain ⟨h4, h5, h6⟩ := ih (f s0 a) h1 fun s hr hi b hb => hf s (htrans _ _ _ h2 hr) hi b (List.mem_cons_of_mem _ hb)
    refine ⟨h4, htrans _ _ _ h2 h5, fun b hb => ?_⟩
    rcases List.mem_cons.1 hb with rfl | hb
    · exact hmono _ _ _ h5 h3
    · exact h6 b hb

end

/-! ## `WithTop` -/

section
variable [LinearOrder T] [AddCommMonoid T] [IsOrderedCancelAddMonoid T]

theorem add_coe_lt {c : WithTop T} (hc : c ≠ ⊤) (x y : T) : c + (x : WithTop T) < c + (y : WithTop T) ↔ x < y := by
  obtain ⟨c, rfl⟩ := WithTop.ne_top_iff_exists.1 hc
  rw [← WithTop.coe_add, ← WithTop.coe_add, WithTop.coe_lt_coe]
  exact add_lt_add_iff_left c

omit [LinearOrder T] [IsOrderedCancelAddMonoid T] in
theorem add_coe_ne {c : WithTop T} (hc : c ≠ ⊤) (x : T) : c + (x : WithTop T) ≠ ⊤ := by
  obtain ⟨c, rfl⟩ := WithTop.ne_top_iff_exists.1 hc
  rw [← WithTop.coe_add]
  exact WithTop.coe_ne_top

theorem le_add_coe (c : WithTop T) {x : T} (hx : 0 ≤ x) : c ≤ c + (x : WithTop T) := by
  have h : (0 : WithTop T) ≤ (x : WithTop T) := by
    rw [← WithTop.coe_zero]
    exact WithTop.coe_le_coe.2 hx
  have := add_le_add (le_refl c) h
  rwa [add_zero] at this

end

/-! ## Updates -/

section
variable [LinearOrder T] [AddCommMonoid T] [IsOrderedCancelAddMonoid T] [LinearOrder W]
  {p : Pda W} {val : W → T} {a0 : Aut T} {qp : List ((Nat × Nat) × Nat)} {N : Nat} {κ : WithTop T}

/-- A transition gets a new weight and key, and enters the queue with it. -/
theorem shSet_spec (hc : ShCtx p val a0 qp N) {s : ShSt T} (h : ShI p val a0 qp N κ s) {t : Tr} {w : T} {k : WithTop T} (tr : Trace)
    (mp : Nat → WithTop T) (s' : ShSt T) (e1 : s'.aut = s.aut) (e2 : s'.x = s.x) (e3 : s'.undef = s.undef)
    (e4 : s'.minpath = mp) (e5 : s'.weights = setW s.weights t (w, k)) (e6 : s'.ws = s.ws ++ [⟨k, t, tr⟩])
    (hder : FPostDer p.Has val (qFind qp) (· ∈ keys a0.edges) t w) (hv : PValid p N t) (hsrc : t.src < p.size ∨ a0.n ≤ t.src) (hw : 0 ≤ w)
    (hk : k = (if t.dst < a0.n then 0 else mp t.dst) + (w : WithTop T)) (hkt : k ≠ ⊤) (hκ : κ ≤ k)
    (hless : ∀ x k0, s.weights t = some (x, k0) → w ≤ x ∧ k < k0)
    (hmp0 : ∀ q, 0 ≤ mp q) (hmple : ∀ q, mp q ≤ s.minpath q)
    (hmpκ : ∀ q, s.minpath q ≤ κ → mp q = s.minpath q)
    (hmpw : ∀ u x k0, s.weights u = some (x, k0) → u ≠ t → a0.n ≤ u.dst → mp u.dst = s.minpath u.dst)
    (htri : a0.n ≤ t.src → mp t.src ≤ k)
    (hpush : ∀ q r l, (r, l) ∈ (p.st q).rules → r.op = .push → mp (qFind qp (r.to, r.opLabel)) ≠ ⊤ →
      (t = ⟨r.to, r.opLabel, qFind qp (r.to, r.opLabel)⟩ → w = 0 ∧ k = mp (qFind qp (r.to, r.opLabel))) ∧
      (t ≠ ⟨r.to, r.opLabel, qFind qp (r.to, r.opLabel)⟩ → mp (qFind qp (r.to, r.opLabel)) = s.minpath (qFind qp (r.to, r.opLabel)) ∧
        (t.dst = qFind qp (r.to, r.opLabel) → s.minpath (qFind qp (r.to, r.opLabel)) ≤ κ)))
    (hj : PostJW p val qp (fun u y => s.aut.wt u = some y) t tr w) :
    ShI p val a0 qp N κ s' ∧ ShAdv κ s s' ∧ s'.Bound t w := by
  have hwt : s'.weights t = some (w, k) := by rw [e5]; simp [setW]
  have hwu : ∀ u, u ≠ t → s'.weights u = s.weights u := by intro u hu; rw [e5]; simp [setW, hu]
  have hpt : s'.Pend t := ⟨w, k, ⟨k, t, tr⟩, hwt, by rw [e6]; simp, rfl, rfl⟩
  have hpu : ∀ u, u ≠ t → (s'.Pend u ↔ s.Pend u) := by
    intro u hu
    unfold ShSt.Pend
    rw [hwu u hu, e6]
    constructor
    · rintro ⟨x, k', e, h1, h2, h3, h4⟩
      rcases List.mem_append.1 h2 with h2 | h2
      · exact ⟨x, k', e, h1, h2, h3, h4⟩
      · rw [List.mem_singleton.1 h2] at h3
        exact absurd h3.symm hu
    · rintro ⟨x, k', e, h1, h2, h3, h4⟩
      exact ⟨x, k', e, h1, List.mem_append_left _ h2, h3, h4⟩
  have hnp : ∀ x k0, s.weights t = some (x, k0) → s.Pend t := by
    intro x k0 hx
    rcases h.settled t x k0 hx with hp | ⟨hp, _⟩
    · exact hp
    · exact absurd (lt_of_le_of_lt hκ (hless x k0 hx).2) (not_lt.2 hp)
  have htot : ∀ u x k0, s'.weights u = some (x, k0) → (u = t ∧ x = w ∧ k0 = k) ∨ u ≠ t ∧ s.weights u = some (x, k0) := by
    intro u x k0 hu
    by_cases hut : u = t
    · subst hut
      rw [hwt] at hu
      cases hu
      exact .inl ⟨rfl, rfl, rfl⟩
    · exact .inr ⟨hut, hwu u hut ▸ hu⟩
  have hnQ : s'.x.nQ = a0.n := by rw [e2]; exact h.nQ
  refine ⟨?_, ?_, ⟨w, k, hwt, le_refl w⟩⟩
  · refine ⟨e1 ▸ h.nodup, e3.trans h.undef, hnQ, e2 ▸ h.qpEq, h.kpos, by rw [e4]; exact hmp0, ?_, ?_, ?_, ?_, ?_, ?_, ?_, ?_, ?_, ?_, ?_, ?_, ?_, ?_, ?_, ?_, by rw [e1]; exact h.built, ?_⟩
    · intro u x k0 hu
      rcases htot u x k0 hu with ⟨rfl, rfl, rfl⟩ | ⟨_, hu⟩
      · exact hder
      · exact h.der u x k0 hu
    · intro u x k0 hu
      rcases htot u x k0 hu with ⟨rfl, rfl, rfl⟩ | ⟨_, hu⟩
      · exact hv
      · exact h.valid u x k0 hu
    · intro u x k0 hu
      rcases htot u x k0 hu with ⟨rfl, rfl, rfl⟩ | ⟨_, hu⟩
      · exact hw
      · exact h.pos u x k0 hu
    · intro u x k0 hu
      unfold ShSt.base
      rw [hnQ, e4]
      rcases htot u x k0 hu with ⟨rfl, rfl, rfl⟩ | ⟨hne, hu⟩
      · exact ⟨hk, hkt⟩
      · have h2 := h.key u x k0 hu
        unfold ShSt.base at h2
        rw [h.nQ] at h2
        refine ⟨?_, h2.2⟩
        rw [h2.1]
        split
        · rfl
        · rw [hmpw u x k0 hu hne (by omega)]
    · intro e he
      rw [e6] at he
      rcases List.mem_append.1 he with he | he
      · obtain ⟨h1, x, k0, h2, h3⟩ := h.entry e he
        refine ⟨h1, ?_⟩
        by_cases hut : e.edge = t
        · rw [hut, hwt]
          exact ⟨w, k, rfl, le_trans (le_of_lt (hless x k0 (hut ▸ h2)).2) h3⟩
        · exact ⟨x, k0, by rw [hwu _ hut]; exact h2, h3⟩
      · rw [List.mem_singleton.1 he]
        exact ⟨hκ, w, k, hwt, le_refl k⟩
    · intro e he
      rw [e6] at he
      rcases List.mem_append.1 he with he | he
      · exact h.entSrc e he
      · rw [List.mem_singleton.1 he]; exact hsrc
    · rw [e6, List.map_append, List.nodup_append]
      refine ⟨h.entNodup, by simp, ?_⟩
      intro y hy z hz
      simp only [List.map_cons, List.map_nil, List.mem_singleton] at hz
      subst hz
      rintro rfl
      obtain ⟨e, he, hee⟩ := List.mem_map.1 hy
      rw [Prod.mk.injEq] at hee
      obtain ⟨_, x, k0, h2, h3⟩ := h.entry e he
      rw [hee.1] at h2
      rw [hee.2] at h3
      exact absurd (hless x k0 h2).2 (not_lt.2 h3)
    · intro u x k0 hu
      rcases htot u x k0 hu with ⟨rfl, rfl, rfl⟩ | ⟨hne, hu⟩
      · exact .inl hpt
      · rcases h.settled u x k0 hu with hp | hp
        · exact .inl ((hpu u hne).2 hp)
        · exact .inr (by rw [e1, e2]; exact hp)
    · intro u x hu
      rw [e1] at hu
      obtain ⟨k0, hk0⟩ := h.autw u x hu
      by_cases hut : u = t
      · subst hut
        rcases lt_or_eq_of_le (hless x k0 hk0).1 with hlt | heq
        · have := h.input u (h.autp u x hu (hnp x k0 hk0))
          rw [hu] at this
          cases this
          exact absurd hlt (not_lt.2 hw)
        · exact ⟨k, by rw [hwt, heq]⟩
      · exact ⟨k0, by rw [hwu u hut]; exact hk0⟩
    · intro u x hu hp
      rw [e1] at hu
      by_cases hut : u = t
      · subst hut
        obtain ⟨k0, hk0⟩ := h.autw u x hu
        exact h.autp u x hu (hnp x k0 hk0)
      · exact h.autp u x hu ((hpu u hut).1 hp)
    · rw [e1, e2]; exact h.rel1
    · rw [e1, e2]; exact h.rel2
    · intro q r l hr hop hne
      rw [e4] at hne ⊢
      obtain ⟨h1, h2⟩ := hpush q r l hr hop hne
      by_cases hut : t = ⟨r.to, r.opLabel, qFind qp (r.to, r.opLabel)⟩
      · obtain ⟨rfl, h3⟩ := h1 hut
        rw [← hut, hwt, h3]
        refine ⟨rfl, fun u hu hd => ?_⟩
        by_cases huu : u = t
        · exact .inl huu
        · rw [hwu u huu] at hu
          rcases hsu : s.weights u with _ | ⟨x, k0⟩
          · exact absurd hsu hu
          · have hdst : a0.n ≤ u.dst := by
              have := (hc.qok.range q r l hr hop).1
              omega
            have heq := hmpw u x k0 hsu huu hdst
            rw [hd] at heq
            have hs := (h.push q r l hr hop (by rw [← heq]; exact hne)).2 u hu hd
            rw [← hut, ← heq] at hs
            exact hs
      · obtain ⟨h3, h4⟩ := h2 hut
        rw [h3] at hne ⊢
        obtain ⟨h5, h6⟩ := h.push q r l hr hop hne
        refine ⟨by rw [hwu _ (Ne.symm hut)]; exact h5, fun u hu hd => ?_⟩
        by_cases huu : u = t
        · exact .inr (h4 (huu ▸ hd))
        · exact h6 u (by rw [← hwu u huu]; exact hu) hd
    · intro u x k0 hu hs
      rw [e4]
      rcases htot u x k0 hu with ⟨rfl, rfl, rfl⟩ | ⟨hne, hu⟩
      · exact htri hs
      · exact le_trans (hmple _) (h.tri u x k0 hu hs)
    · rw [e1]; exact h.input
    · rw [e1]; exact h.acc
    · intro e he x hx
      rw [e1]
      rw [e6] at he
      rcases List.mem_append.1 he with he | he
      · by_cases hut : e.edge = t
        · exfalso
          obtain ⟨_, x', k0, h2, h3⟩ := h.entry e he
          rw [hut] at hx h2
          rw [hwt] at hx
          simp only [Option.some.injEq, Prod.mk.injEq] at hx
          rw [← hx.2] at h3
          exact absurd (hless x' k0 h2).2 (not_lt.2 h3)
        · rw [hwu _ hut] at hx
          exact h.just e he x hx
      · rw [List.mem_singleton.1 he] at hx ⊢
        dsimp only at hx ⊢
        rw [hwt] at hx
        simp only [Option.some.injEq, Prod.mk.injEq, and_true] at hx
        rw [← hx]
        exact .inr hj
  · refine ⟨e1, e2, ?_, ?_, ?_, by rw [e4]; exact hmpκ⟩
    · rintro u y ⟨x, k0, hu, hle⟩
      by_cases hut : u = t
      · subst hut
        exact ⟨w, k, hwt, le_trans (hless x k0 hu).1 hle⟩
      · exact ⟨x, k0, by rw [hwu u hut]; exact hu, hle⟩
    · intro u x k0 hu hn
      rcases htot u x k0 hu with ⟨rfl, rfl, rfl⟩ | ⟨hne, hu⟩
      · exact absurd hpt hn
      · exact ⟨hu, fun hp => hn ((hpu u hne).2 hp)⟩
    · intro u x k0 hu hn
      have hne : u ≠ t := by
        rintro rfl
        exact hn (hnp x k0 hu)
      exact ⟨by rw [hwu u hne]; exact hu, fun hp => hn ((hpu u hne).1 hp)⟩

theorem setW_same {s : ShSt T} {t : Tr} {v : T × WithTop T} (h : s.weights t = some v) : setW s.weights t v = s.weights := by
  funext u
  unfold setW
  split
  · rename_i e; rw [e, h]
  · rfl

/-- `update_edge`. -/
theorem shUpdate_spec (hc : ShCtx p val a0 qp N) {s : ShSt T} (h : ShI p val a0 qp N κ s) {t : Tr} {w : T} (tr : Trace)
    (hder : FPostDer p.Has val (qFind qp) (· ∈ keys a0.edges) t w) (hv : PValid p N t) (hsrc : t.src < p.size ∨ a0.n ≤ t.src) (hw : 0 ≤ w)
    (hb : s.base t.dst ≠ ⊤) (hκ : κ ≤ s.base t.dst + (w : WithTop T))
    (hdst : a0.n ≤ t.dst → s.minpath t.dst ≤ κ)
    (htri : a0.n ≤ t.src → s.minpath t.src ≤ s.base t.dst + (w : WithTop T))
    (hj : PostJW p val qp (fun u y => s.aut.wt u = some y) t tr w) :
    ShI p val a0 qp N κ (shUpdate s t w tr) ∧ ShAdv κ s (shUpdate s t w tr) ∧ (shUpdate s t w tr).Bound t w := by
  have go : (∀ x k0, s.weights t = some (x, k0) → w ≤ x ∧ s.base t.dst + (w : WithTop T) < k0) →
      ∀ s' : ShSt T, s'.aut = s.aut → s'.x = s.x → s'.undef = s.undef → s'.minpath = s.minpath →
      s'.weights = setW s.weights t (w, s.base t.dst + (w : WithTop T)) → s'.ws = s.ws ++ [⟨s.base t.dst + (w : WithTop T), t, tr⟩] →
      ShI p val a0 qp N κ s' ∧ ShAdv κ s s' ∧ s'.Bound t w := by
    intro hless s' e1 e2 e3 e4 e5 e6
    refine shSet_spec hc h tr s.minpath s' e1 e2 e3 e4 e5 e6 hder hv hsrc hw ?_ (add_coe_ne hb w) hκ hless h.mpos
      (fun _ => le_refl _) (fun _ _ => rfl) (fun _ _ _ _ _ _ => rfl) htri ?_ hj
    · unfold ShSt.base; rw [h.nQ]
    · intro q r l hr hop hne
      refine ⟨?_, fun _ => ⟨rfl, fun hd => hd ▸ hdst ?_⟩⟩
      · rintro rfl
        obtain ⟨h1, _⟩ := h.push q r l hr hop hne
        obtain ⟨h2, h3⟩ := hless _ _ h1
        have h4 := (h.key _ _ _ h1).1
        dsimp only at h3 h4 hb
        exfalso
        rw [h4] at h3
        exact absurd ((add_coe_lt hb _ _).1 h3) (not_lt.2 hw)
      · rw [hd]; exact (hc.qok.range q r l hr hop).1
  rcases hx : s.weights t with _ | ⟨x, k0⟩
  · have e : shUpdate s t w tr = { s with weights := setW s.weights t (w, s.base t.dst + (w : WithTop T)), ws := s.ws ++ [⟨s.base t.dst + (w : WithTop T), t, tr⟩] } := by
      unfold shUpdate shEdge
      simp only [hx, if_true]
    rw [e]
    exact go (fun x k0 h0 => by rw [hx] at h0; cases h0) _ rfl rfl rfl rfl rfl rfl
  · have hk0 := (h.key t x k0 hx).1
    have hiff : s.base t.dst + (w : WithTop T) < k0 ↔ w < x := by rw [hk0]; exact add_coe_lt hb w x
    by_cases hlt : w < x
    · have e : shUpdate s t w tr = { s with weights := setW s.weights t (w, s.base t.dst + (w : WithTop T)), ws := s.ws ++ [⟨s.base t.dst + (w : WithTop T), t, tr⟩] } := by
        unfold shUpdate shEdge
        simp only [hx, hiff, hlt, if_true, decide_true]
      rw [e]
      refine go (fun x' k' h0 => ?_) _ rfl rfl rfl rfl rfl rfl
      rw [hx] at h0
      cases h0
      exact ⟨le_of_lt hlt, hiff.2 hlt⟩
    · have e : shUpdate s t w tr = s := by
        unfold shUpdate shEdge
        simp only [hx, hiff, hlt, if_false, decide_false, Bool.false_eq_true]
        rw [setW_same hx]
      rw [e]
      exact ⟨h, ShAdv.refl κ s, ⟨x, k0, hx, not_lt.1 hlt⟩⟩

/-- The first part of the case PUSH. -/
theorem shPush_spec (hc : ShCtx p val a0 qp N) {s : ShSt T} (h : ShI p val a0 qp N κ s) {q : Nat} {r : Rule W} {l : Labels}
    (hr : (r, l) ∈ (p.st q).rules) (hop : r.op = .push) {wd : WithTop T} (tr : Trace) (hκ : κ ≤ wd) (hwd : wd ≠ ⊤)
    (hder : FPostDer p.Has val (qFind qp) (· ∈ keys a0.edges) ⟨r.to, r.opLabel, qFind qp (r.to, r.opLabel)⟩ 0)
    (hj : PostJW p val qp (fun u y => s.aut.wt u = some y) ⟨r.to, r.opLabel, qFind qp (r.to, r.opLabel)⟩ tr 0) :
    let t : Tr := ⟨r.to, r.opLabel, qFind qp (r.to, r.opLabel)⟩
    ShI p val a0 qp N κ (shPush s t wd tr) ∧ ShAdv κ s (shPush s t wd tr) ∧ (shPush s t wd tr).Bound t 0 ∧
      (shPush s t wd tr).minpath t.dst ≤ wd := by
  intro t
  have hq := hc.qok.range q r l hr hop
  have hto := hc.wf.toLt _ _ hr
  have hol := hc.wf.opLt _ _ hr (.inl hop)
  have hsl := hc.size_le
  have hle := hc.le
  dsimp only at hto hol
  have hv : PValid p N t := ⟨by show r.to < N; omega, by show p.size ≤ qFind qp (r.to, r.opLabel); omega, hq.2, .inl hol⟩
  have hnlt : ¬ t.dst < a0.n := by show ¬ qFind qp (r.to, r.opLabel) < a0.n; omega
  by_cases hlt : wd < s.minpath t.dst
  · have hnew : ∀ x k0, s.weights t = some (x, k0) → x = 0 ∧ k0 = s.minpath t.dst := by
      intro x k0 hx
      have h1 := h.key t x k0 hx
      unfold ShSt.base at h1
      rw [h.nQ, if_neg hnlt] at h1
      have hne : s.minpath t.dst ≠ ⊤ := by
        intro e
        rw [e, WithTop.top_add] at h1
        exact h1.2 h1.1
      have h2 := (h.push q r l hr hop hne).1
      rw [show s.weights ⟨r.to, r.opLabel, qFind qp (r.to, r.opLabel)⟩ = some (x, k0) from hx] at h2
      cases h2
      exact ⟨rfl, rfl⟩
    have honly : ∀ u x k0, s.weights u = some (x, k0) → u.dst = t.dst → u = t := by
      intro u x k0 hu hd
      have h1 := h.key u x k0 hu
      unfold ShSt.base at h1
      rw [h.nQ, hd, if_neg hnlt] at h1
      have hne : s.minpath t.dst ≠ ⊤ := by
        intro e
        rw [e, WithTop.top_add] at h1
        exact h1.2 h1.1
      rcases (h.push q r l hr hop hne).2 u (by rw [hu]; simp) hd with h3 | h3
      · exact h3
      · exact absurd (lt_of_le_of_lt hκ hlt) (not_lt.2 h3)
    have e : shPush s t wd tr = { s with weights := setW s.weights t (0, wd), minpath := fun q => if q = t.dst then wd else s.minpath q, ws := s.ws ++ [⟨wd, t, tr⟩] } := by
      unfold shPush shEdge
      rcases hx : s.weights t with _ | ⟨x, k0⟩
      · simp only [hlt, if_true]
      · obtain ⟨rfl, rfl⟩ := hnew x k0 hx
        simp only [hlt, if_true, lt_irrefl, if_false, decide_true]
    rw [e]
    have fin : ∀ {A B C D : Prop}, D → A ∧ B ∧ C → A ∧ B ∧ C ∧ D := fun d h => ⟨h.1, h.2.1, h.2.2, d⟩
    refine fin ?_ (shSet_spec hc h tr (fun q => if q = t.dst then wd else s.minpath q) _ rfl rfl rfl rfl rfl rfl hder hv (.inl hto) (le_refl 0) ?_ hwd hκ ?_ ?_ ?_ ?_ ?_ ?_ ?_ hj)
    · show (if t.dst = t.dst then wd else s.minpath t.dst) ≤ wd
      rw [if_pos rfl]
    · rw [if_neg hnlt, if_pos rfl, WithTop.coe_zero, add_zero]
    · intro x k0 hx
      obtain ⟨rfl, rfl⟩ := hnew x k0 hx
      exact ⟨le_refl _, hlt⟩
    · intro q
      split
      · exact le_trans h.kpos hκ
      · exact h.mpos q
    · intro q
      split
      · rename_i e; rw [e]; exact le_of_lt hlt
      · exact le_refl _
    · intro q hq
      split
      · rename_i e
        rw [e] at hq
        exact absurd (lt_of_le_of_lt hκ hlt) (not_lt.2 hq)
      · rfl
    · intro u x k0 hu hne _
      rw [if_neg]
      intro hd
      exact hne (honly u x k0 hu hd)
    · intro hs
      have : r.to < a0.n := by omega
      have hs : a0.n ≤ r.to := hs
      omega
    · intro q' r' l' hr' hop' hne
      constructor
      · intro ht
        refine ⟨rfl, ?_⟩
        rw [if_pos]
        rw [ht]
      · intro ht
        have hne2 : qFind qp (r'.to, r'.opLabel) ≠ t.dst := by
          intro hd
          obtain ⟨h1, h2⟩ := hc.qok.inj _ _ _ _ _ _ hr' hop' hr hop hd
          apply ht
          show (⟨r.to, r.opLabel, qFind qp (r.to, r.opLabel)⟩ : Tr) = _
          rw [h1, h2]
        rw [if_neg hne2]
        exact ⟨rfl, fun hd => absurd hd.symm hne2⟩
  · have hne : s.minpath t.dst ≠ ⊤ := by
      intro e
      rw [e] at hlt
      exact hlt (lt_top_iff_ne_top.2 hwd)
    have h2 := (h.push q r l hr hop hne).1
    have e : shPush s t wd tr = s := by
      have h2 : s.weights t = some (0, s.minpath t.dst) := h2
      unfold shPush shEdge
      simp only [h2, hlt, if_false, lt_irrefl]
      rw [setW_same h2]
    rw [e]
    exact ⟨h, ShAdv.refl κ s, ⟨0, _, h2, le_refl 0⟩, not_lt.1 hlt⟩

end

end Verif
