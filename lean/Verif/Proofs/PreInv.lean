import Verif.Proofs.PreStar

/-! # pre*: the loop invariant and its preservation -/

namespace Verif

variable {W σ : Type}

/-- A transition of an automaton with `N` states over the alphabet of `p`. -/
def Valid (p : Pda W) (N : Nat) (t : Tr) : Prop := t.src < N ∧ t.label < p.nLabels ∧ t.dst < N

/-- The automaton is a P-automaton of `p` in range, without epsilon transitions. -/
structure AutOK (p : Pda W) (a : Aut W) : Prop where
  size_le : p.size ≤ a.n
  valid : ∀ t ∈ keys a.edges, Valid p a.n t
  nodup : (keys a.edges).Nodup

/-- The reasons for which pre* inserts a transition. `P` holds of the transitions already there. -/
inductive PreJ (p : Pda W) (P : Tr → Prop) : Tr → Trace → Prop where
  | pop {a g id : Nat} {r : Rule W} {l : Labels} : (p.st a).rules[id]? = some (r, l) →
      g ∈ p.expand l → r.op = .pop → PreJ p P ⟨a, g, r.to⟩ (Trace.pre id)
  | swap {a g q id : Nat} {r : Rule W} {l : Labels} : (p.st a).rules[id]? = some (r, l) →
      g ∈ p.expand l → r.op = .swap → P ⟨r.to, r.opLabel, q⟩ → PreJ p P ⟨a, g, q⟩ (Trace.pre id)
  | noop {a g q id : Nat} {r : Rule W} {l : Labels} : (p.st a).rules[id]? = some (r, l) →
      g ∈ p.expand l → r.op = .noop → P ⟨r.to, g, q⟩ → PreJ p P ⟨a, g, q⟩ (Trace.pre id)
  | push {a g q m id : Nat} {r : Rule W} {l : Labels} : (p.st a).rules[id]? = some (r, l) →
      g ∈ p.expand l → r.op = .push → P ⟨r.to, r.opLabel, m⟩ → P ⟨m, g, q⟩ →
      PreJ p P ⟨a, g, q⟩ (Trace.preTemp id m)

theorem PreJ.mono (p : Pda W) (P Q : Tr → Prop) (h : ∀ t, P t → Q t) (t : Tr) (tr : Trace)
    (hj : PreJ p P t tr) : PreJ p Q t tr := by
  cases hj with
  | pop h1 h2 h3 => exact .pop h1 h2 h3
  | swap h1 h2 h3 h4 => exact .swap h1 h2 h3 (h _ h4)
  | noop h1 h2 h3 h4 => exact .noop h1 h2 h3 (h _ h4)
  | push h1 h2 h3 h4 h5 => exact .push h1 h2 h3 (h _ h4) (h _ h5)

theorem Pda.lt_size_of_rule {p : Pda W} {a id : Nat} {x : Rule W × Labels}
    (h : (p.st a).rules[id]? = some x) : a < p.size := by
  by_contra hn
  rw [Pda.st_default (by omega)] at h
  simp [default] at h

section
variable [LinearOrder W]

theorem PreJ.valid {p : Pda W} (hp : p.WF) {N : Nat} (hN : p.size ≤ N) {P : Tr → Prop}
    (hP : ∀ t, P t → Valid p N t) {t : Tr} {tr : Trace} (h : PreJ p P t tr) : Valid p N t := by
  cases h with
  | @pop a g id r l h1 h2 h3 =>
    have hm := List.mem_of_getElem? h1
    have := Pda.lt_size_of_rule h1
    have := hp.toLt _ _ hm
    refine ⟨?_, ((hp.mem_expand hm g).1 h2).2, ?_⟩ <;> dsimp only at * <;> omega
  | @swap a g q id r l h1 h2 h3 h4 =>
    have hm := List.mem_of_getElem? h1
    have := Pda.lt_size_of_rule h1
    exact ⟨by show a < N; omega, ((hp.mem_expand hm g).1 h2).2, (hP _ h4).2.2⟩
  | @noop a g q id r l h1 h2 h3 h4 =>
    have hm := List.mem_of_getElem? h1
    have := Pda.lt_size_of_rule h1
    exact ⟨by show a < N; omega, ((hp.mem_expand hm g).1 h2).2, (hP _ h4).2.2⟩
  | @push a g q m id r l h1 h2 h3 h4 h5 =>
    have hm := List.mem_of_getElem? h1
    have := Pda.lt_size_of_rule h1
    exact ⟨by show a < N; omega, ((hp.mem_expand hm g).1 h2).2, (hP _ h5).2.2⟩

theorem Built.valid_pre [Zero W] {p : Pda W} (hp : p.WF) {N : Nat} (hN : p.size ≤ N)
    {E0 E : List (AEdge W)} (h : Built (PreJ p) E0 E) (h0 : ∀ t ∈ keys E0, Valid p N t) :
    ∀ t ∈ keys E, Valid p N t := by
  induction h with
  | base => exact h0
  | cons _ _ hj ih =>
    intro t ht
    rcases List.mem_cons.1 ht with h1 | h1
    · have h1 : t = _ := h1
      subst h1; exact hj.valid hp hN ih
    · exact ih t h1

section
variable [Zero W]

/-! ## Membership in the request lists -/

theorem mem_bulk (p : Pda W) (src : Nat) (l : Labels) (dst : Nat) (tr : Trace) (r : Tr × Trace) :
    r ∈ bulk p src l dst tr ↔ ∃ g ∈ p.expand l, r = (⟨src, g, dst⟩, tr) := by
  unfold bulk
  rw [List.mem_map]
  constructor
  · rintro ⟨g, h1, h2⟩; exact ⟨g, h1, h2.symm⟩
  · rintro ⟨g, h1, h2⟩; exact ⟨g, h1, h2.symm⟩

theorem mem_into {β : Type} {p : Pda W} (hp : p.WF) (q : Nat)
    (f : Nat → Nat × Rule W × Labels → List β) (y : β) :
    (y ∈ (p.st q).preStates.flatMap fun pre => (p.rulesInto pre q).flatMap fun x => f pre x) ↔
      ∃ pre id r l, (p.st pre).rules[id]? = some (r, l) ∧ r.to = q ∧ ¬ r.Missed ∧ y ∈ f pre (id, r, l) := by
  simp only [List.mem_flatMap]
  constructor
  · rintro ⟨pre, _, ⟨id, r, l⟩, h2, h3⟩
    rw [Pda.mem_rulesInto hp] at h2
    exact ⟨pre, id, r, l, h2.1, h2.2.1, h2.2.2, h3⟩
  · rintro ⟨pre, id, r, l, h1, h2, h0, h3⟩
    refine ⟨pre, ?_, (id, r, l), (Pda.mem_rulesInto hp _ _ _ _ _).2 ⟨h1, h2, h0⟩, h3⟩
    have := hp.preMem pre _ (List.mem_of_getElem? h1)
    rwa [← h2]

theorem mem_popReqs {p : Pda W} (hp : p.WF) (q : Nat) (y : Tr × Trace) :
    y ∈ popReqs p q ↔ ∃ pre id r l, (p.st pre).rules[id]? = some (r, l) ∧ r.to = q ∧ r.op = .pop ∧
      ∃ g ∈ p.expand l, y = (⟨pre, g, q⟩, Trace.pre id) := by
  unfold popReqs
  rw [mem_into hp q (fun pre x => if x.2.1.op = .pop then bulk p pre x.2.2 q (Trace.pre x.1) else [])]
  constructor
  · rintro ⟨pre, id, r, l, h1, h2, _, h3⟩
    dsimp only at h3
    split at h3
    · rename_i hop
      exact ⟨pre, id, r, l, h1, h2, hop, (mem_bulk _ _ _ _ _ _).1 h3⟩
    · simp at h3
  · rintro ⟨pre, id, r, l, h1, h2, hop, h3⟩
    refine ⟨pre, id, r, l, h1, h2, (fun h => by have := h.1.symm.trans hop; cases this), ?_⟩
    simp only [hop, if_true]
    exact (mem_bulk _ _ _ _ _ _).2 h3

theorem mem_dpReqs {p : Pda W} (t : Tr) (dp : List (Nat × Nat × Nat)) (y : Tr × Trace) :
    y ∈ dpReqs p t dp ↔ ∃ st id r l, (t.src, st, id) ∈ dp ∧ (p.st st).rules[id]? = some (r, l) ∧
      l.contains t.label = true ∧ y = (⟨st, t.label, t.dst⟩, Trace.preTemp id t.src) := by
  unfold dpReqs
  simp only [List.mem_flatMap, List.mem_map, List.mem_filter, Prod.exists]
  constructor
  · rintro ⟨st, id, ⟨q, st', id', ⟨h1, h2⟩, h3⟩, h4⟩
    simp only [Prod.mk.injEq] at h3
    obtain ⟨rfl, rfl⟩ := h3
    have h2' : q = t.src := by simpa using h2
    subst h2'
    unfold dpReq at h4
    split at h4
    · rename_i r l hr
      split at h4
      · rename_i hc
        exact ⟨st', id', r, l, h1, hr, hc, by simpa using h4⟩
      · simp at h4
    · simp at h4
  · rintro ⟨st, id, r, l, h1, h2, h3, h4⟩
    refine ⟨st, id, ⟨t.src, st, id, ⟨h1, by simp⟩, rfl⟩, ?_⟩
    simp [dpReq, h2, h3, h4]

/-! ## The invariant -/

/-- The core invariant of the pre* loop. -/
structure PreInv (p : Pda W) (a0 : Aut W) (s : PreSt W σ) : Prop where
  acc : s.aut.acc = a0.acc
  built : Built (PreJ p) a0.edges s.aut.edges
  wsE : ∀ t ∈ s.ws, t ∈ keys s.aut.edges
  relE : ∀ t ∈ s.rel, t ∈ keys s.aut.edges
  dpOK : ∀ q st id, (q, st, id) ∈ s.dp → ∃ r l, (p.st st).rules[id]? = some (r, l) ∧
    r.op = .push ∧ (⟨r.to, r.opLabel, q⟩ : Tr) ∈ keys s.aut.edges
  swapC : ∀ t ∈ s.rel, ∀ (pre id : Nat) (r : Rule W) (l : Labels), (p.st pre).rules[id]? = some (r, l) → r.to = t.src →
    r.op = .swap → r.opLabel = t.label → ∀ g ∈ p.expand l, (⟨pre, g, t.dst⟩ : Tr) ∈ keys s.aut.edges
  noopC : ∀ t ∈ s.rel, ∀ (pre id : Nat) (r : Rule W) (l : Labels), (p.st pre).rules[id]? = some (r, l) → r.to = t.src →
    r.op = .noop → l.contains t.label = true → (⟨pre, t.label, t.dst⟩ : Tr) ∈ keys s.aut.edges
  pushC : ∀ t ∈ s.rel, ∀ (pre id : Nat) (r : Rule W) (l : Labels), (p.st pre).rules[id]? = some (r, l) → r.to = t.src →
    r.op = .push → r.opLabel = t.label → ¬ r.Missed → (t.dst, pre, id) ∈ s.dp
  dpC : ∀ q st id, (q, st, id) ∈ s.dp → ∀ u ∈ s.rel, u.src = q → ∀ (r : Rule W) (l : Labels),
    (p.st st).rules[id]? = some (r, l) → l.contains u.label = true →
    (⟨st, u.label, u.dst⟩ : Tr) ∈ keys s.aut.edges
  popR : ∀ t ∈ s.rel, t.src < p.size → t.src ∈ s.popped
  popC : ∀ q ∈ s.popped, ∀ (pre id : Nat) (r : Rule W) (l : Labels), (p.st pre).rules[id]? = some (r, l) → r.to = q →
    r.op = .pop → ∀ g ∈ p.expand l, (⟨pre, g, q⟩ : Tr) ∈ keys s.aut.edges

/-- Every transition from a state below `i` is still to be processed or has been processed. -/
def Cover (i : Nat) (s : PreSt W σ) : Prop :=
  ∀ t ∈ keys s.aut.edges, t.src < i → t ∈ s.ws ∨ t ∈ s.rel

/-- Accepting control states below `i` have had their pop rules applied. -/
def AccDone (p : Pda W) (i : Nat) (s : PreSt W σ) : Prop :=
  ∀ q, q < i → q < p.size → s.aut.isAcc q = true → q ∈ s.popped

/-- Insertions preserve the core invariant if each of them is justified. -/
theorem PreInv.insertAll {p : Pda W} {a0 : Aut W} {s : PreSt W σ} (h : PreInv p a0 s)
    (cb : Callback W σ) (rs : List (Tr × Trace))
    (hj : ∀ r ∈ rs, PreJ p (· ∈ keys s.aut.edges) r.1 r.2) : PreInv p a0 (preInsertAll cb s rs) := by
  have hk := preInsertAll_keys cb rs s
  obtain ⟨f1, f2, f3, f4⟩ := preInsertAll_frame cb rs s
  have up : ∀ {t}, t ∈ keys s.aut.edges → t ∈ keys (preInsertAll cb s rs).aut.edges :=
    fun {t} ht => (hk t).1.2 (.inl ht)
  constructor
  · rw [f4, h.acc]
  · exact preInsertAll_built (PreJ.mono p) cb rs s h.built hj
  · intro t ht
    rcases (hk t).2.1 ht with h1 | ⟨h1, _⟩
    · exact up (h.wsE t h1)
    · exact (hk t).1.2 (.inr h1)
  · rw [f1]; exact fun t ht => up (h.relE t ht)
  · rw [f2]; intro q st id hm
    obtain ⟨r, l, h1, h2, h3⟩ := h.dpOK q st id hm
    exact ⟨r, l, h1, h2, up h3⟩
  · rw [f1]; exact fun t ht pre id r l h1 h2 h3 h4 g hg => up (h.swapC t ht pre id r l h1 h2 h3 h4 g hg)
  · rw [f1]; exact fun t ht pre id r l h1 h2 h3 h4 => up (h.noopC t ht pre id r l h1 h2 h3 h4)
  · rw [f1, f2]; exact h.pushC
  · rw [f1, f2]; exact fun q st id hm u hu h1 r l h2 h3 => up (h.dpC q st id hm u hu h1 r l h2 h3)
  · rw [f1, f3]; exact h.popR
  · rw [f3]; exact fun q hq pre id r l h1 h2 h3 g hg => up (h.popC q hq pre id r l h1 h2 h3 g hg)

theorem Cover.insertAll {s : PreSt W σ} {i : Nat} (h : Cover i s)
    (cb : Callback W σ) (rs : List (Tr × Trace)) : Cover i (preInsertAll cb s rs) := by
  intro t ht hi
  have hk := preInsertAll_keys cb rs s t
  rw [(preInsertAll_frame cb rs s).1, hk.2]
  rcases hk.1.1 ht with h1 | h1
  · rcases h t h1 hi with h2 | h2
    · exact .inl (.inl h2)
    · exact .inr h2
  · by_cases h2 : t ∈ keys s.aut.edges
    · rcases h t h2 hi with h2 | h2
      · exact .inl (.inl h2)
      · exact .inr h2
    · exact .inl (.inr ⟨h1, h2⟩)

theorem AccDone.insertAll {p : Pda W} {s : PreSt W σ} {i : Nat} (h : AccDone p i s)
    (cb : Callback W σ) (rs : List (Tr × Trace)) : AccDone p i (preInsertAll cb s rs) := by
  intro q hq hs ha
  obtain ⟨_, _, f3, f4⟩ := preInsertAll_frame cb rs s
  rw [f3]
  exact h q hq hs (by simpa [Aut.isAcc, f4] using ha)

theorem popReqs_just {p : Pda W} (hp : p.WF) (q : Nat) (P : Tr → Prop) :
    ∀ r ∈ popReqs p q, PreJ p P r.1 r.2 := by
  intro y hy
  obtain ⟨pre, id, r, l, h1, h2, h3, g, hg, rfl⟩ := (mem_popReqs hp q y).1 hy
  subst h2
  exact .pop h1 hg h3

theorem PreInv.addPop {p : Pda W} (hp : p.WF) {a0 : Aut W} {s : PreSt W σ}
    (h : PreInv p a0 s) (cb : Callback W σ) (q : Nat) : PreInv p a0 (addPop p cb s q) := by
  rw [addPop_eq]
  split
  · exact h
  split
  · exact h
  · have h' := h.insertAll cb _ (popReqs_just hp q _)
    obtain ⟨f1, f2, f3, f4⟩ := preInsertAll_frame cb (popReqs p q) s
    refine { h' with popR := ?_, popC := ?_ }
    · intro t ht hs
      have := h'.popR t ht hs
      rw [f3] at this
      exact List.mem_cons_of_mem _ this
    · intro q' hq' pre id r l h1 h2 h3 g hg
      rcases List.mem_cons.1 hq' with rfl | hq''
      · refine (preInsertAll_keys cb _ s _).1.2 (.inr ?_)
        exact List.mem_map.2 ⟨_, (mem_popReqs hp q' _).2 ⟨pre, id, r, l, h1, h2, h3, g, hg, rfl⟩, rfl⟩
      · exact h'.popC q' (by rw [f3]; exact hq'') pre id r l h1 h2 h3 g hg

/-! ## Initialisation -/

/-- One round of the loop of `initialize`. -/
def initRound (h : HashOrder) (p : Pda W) (cb : Callback W σ) (s : PreSt W σ) (i : Nat) : PreSt W σ :=
  let s := { s with ws := (s.aut.out h i).reverse ++ s.ws }
  if s.aut.isAcc i then Verif.addPop p cb s i else s

theorem preInit_eq (h : HashOrder) (p : Pda W) (cb : Callback W σ) (a : Aut W) (e : σ) :
    preInit h p cb a e = (List.range a.n).foldl (initRound h p cb) { aut := a, ext := e } := rfl

theorem addPop_cover {s : PreSt W σ} {i : Nat} (h : Cover i s) (p : Pda W) (cb : Callback W σ)
    (q : Nat) : Cover i (addPop p cb s q) := by
  rw [addPop_eq]
  split
  · exact h
  split
  · exact h
  · exact h.insertAll cb _

theorem addPop_acc (p : Pda W) (cb : Callback W σ) (s : PreSt W σ) (q : Nat) :
    (addPop p cb s q).aut.acc = s.aut.acc ∧ (addPop p cb s q).rel = s.rel ∧
      (∀ x ∈ s.popped, x ∈ (addPop p cb s q).popped) ∧
      (q < p.size → q ∈ (addPop p cb s q).popped) := by
  rw [addPop_eq]
  split
  · refine ⟨rfl, rfl, fun x hx => hx, fun h => by omega⟩
  split
  · rename_i h
    refine ⟨rfl, rfl, fun x hx => hx, fun _ => by simpa using h⟩
  · obtain ⟨f1, f2, f3, f4⟩ := preInsertAll_frame cb (popReqs p q) s
    exact ⟨f4, f1, fun x hx => List.mem_cons_of_mem _ hx, fun _ => List.mem_cons_self⟩

theorem initRound_inv (h : HashOrder) {p : Pda W} (hp : p.WF) (cb : Callback W σ)
    {a0 : Aut W} {s : PreSt W σ} {i : Nat} (hi : PreInv p a0 s) (hc : Cover i s)
    (ha : AccDone p i s) :
    PreInv p a0 (initRound h p cb s i) ∧ Cover (i + 1) (initRound h p cb s i) ∧
      AccDone p (i + 1) (initRound h p cb s i) := by
  have h1 : PreInv p a0 { s with ws := (s.aut.out h i).reverse ++ s.ws } := by
    refine { hi with wsE := ?_ }
    intro t ht
    rcases List.mem_append.1 ht with h2 | h2
    · exact ((s.aut.mem_out h i t).1 (List.mem_reverse.1 h2)).1
    · exact hi.wsE t h2
  have h2 : Cover (i + 1) { s with ws := (s.aut.out h i).reverse ++ s.ws } := by
    intro t ht hlt
    by_cases hti : t.src = i
    · exact .inl (List.mem_append.2 (.inl (List.mem_reverse.2 ((s.aut.mem_out h i t).2 ⟨ht, hti⟩))))
    · rcases hc t ht (by omega) with h3 | h3
      · exact .inl (List.mem_append.2 (.inr h3))
      · exact .inr h3
  unfold initRound
  simp only
  split
  · rename_i hacc
    refine ⟨h1.addPop hp cb i, addPop_cover h2 p cb i, ?_⟩
    intro q hq hs hqa
    obtain ⟨g1, g2, g3, g4⟩ := addPop_acc p cb { s with ws := (s.aut.out h i).reverse ++ s.ws } i
    by_cases hqi : q = i
    · subst hqi; exact g4 hs
    · refine g3 _ (ha q (by omega) hs ?_)
      simpa [Aut.isAcc, g1] using hqa
  · rename_i hacc
    refine ⟨h1, h2, ?_⟩
    intro q hq hs hqa
    by_cases hqi : q = i
    · subst hqi; exact absurd hqa hacc
    · exact ha q (by omega) hs hqa

theorem preInit_inv (h : HashOrder) {p : Pda W} (hp : p.WF) (cb : Callback W σ)
    (a : Aut W) (e : σ) :
    PreInv p a (preInit h p cb a e) ∧ Cover a.n (preInit h p cb a e) ∧
      AccDone p a.n (preInit h p cb a e) := by
  rw [preInit_eq]
  suffices hs : ∀ k, PreInv p a ((List.range k).foldl (initRound h p cb) { aut := a, ext := e }) ∧
      Cover k ((List.range k).foldl (initRound h p cb) { aut := a, ext := e }) ∧
      AccDone p k ((List.range k).foldl (initRound h p cb) { aut := a, ext := e }) from hs a.n
  intro k
  induction k with
  | zero =>
    refine ⟨⟨rfl, .base, ?_, ?_, ?_, ?_, ?_, ?_, ?_, ?_, ?_⟩, ?_, ?_⟩ <;>
      simp [Cover, AccDone]
  | succ k ih =>
    rw [List.range_succ, List.foldl_append]
    exact initRound_inv h hp cb ih.1 ih.2.1 ih.2.2

/-! ## One step -/

theorem PreInv.valid {p : Pda W} (hp : p.WF) {a0 : Aut W} (ha : AutOK p a0) {s : PreSt W σ}
    (h : PreInv p a0 s) : ∀ t ∈ keys s.aut.edges, Valid p a0.n t :=
  h.built.valid_pre hp ha.size_le ha.valid

/-- Every insertion made by one step is justified. -/
theorem PreInv.reqs_just {p : Pda W} (hp : p.WF) {a0 : Aut W} (ha : AutOK p a0)
    {s : PreSt W σ} (h : PreInv p a0 s) (t : Tr) (ws : List Tr) (hws : s.ws = t :: ws) :
    ∀ y ∈ dpReqs p t s.dp ++ intoReqs p t s.popped (s.rel ++ [t]),
      PreJ p (· ∈ keys s.aut.edges) y.1 y.2 := by
  have htE : t ∈ keys s.aut.edges := h.wsE t (by rw [hws]; simp)
  have hval := h.valid hp ha
  have hjd : ∀ y ∈ dpReqs p t s.dp, PreJ p (· ∈ keys s.aut.edges) y.1 y.2 := by
    intro y hy
    obtain ⟨st, id, r, l, h1, h2, h3, rfl⟩ := (mem_dpReqs t s.dp y).1 hy
    obtain ⟨r', l', h4, h5, h6⟩ := h.dpOK _ _ _ h1
    rw [h2] at h4; cases h4
    exact .push h2 ((hp.mem_expand (List.mem_of_getElem? h2) _).2 ⟨h3, (hval t htE).2.1⟩) h5 h6 htE
  have hji : ∀ y ∈ intoReqs p t s.popped (s.rel ++ [t]), PreJ p (· ∈ keys s.aut.edges) y.1 y.2 := by
    intro y hy
    obtain ⟨pre, id, r, l, h1, h2, _, h3⟩ := (mem_into hp t.src _ y).1 hy
    have hm := List.mem_of_getElem? h1
    have htE' : (⟨r.to, t.label, t.dst⟩ : Tr) ∈ keys s.aut.edges := by rw [h2]; exact htE
    unfold ruleReqs at h3
    cases hop : r.op <;> simp only [hop] at h3
    · -- push
      split at h3
      · rename_i hl
        obtain ⟨u, hu, h4⟩ := List.mem_flatMap.1 h3
        split at h4
        · rename_i hcl
          have h4 : y = (⟨pre, u.label, u.dst⟩, Trace.preTemp id t.dst) := by simpa using h4
          obtain ⟨hu1, hu2⟩ := List.mem_filter.1 hu
          have hu2 : u.src = t.dst := by simpa using hu2
          have huE : u ∈ keys s.aut.edges := by
            rcases List.mem_append.1 hu1 with h5 | h5
            · exact h.relE u h5
            · have : u = t := by simpa using h5
              rw [this]; exact htE
          subst h4
          refine .push h1 ((hp.mem_expand hm _).2 ⟨hcl, (hval u huE).2.1⟩) hop ?_ ?_
          · rw [hl]; exact htE'
          · rw [← hu2]; exact huE
        · simp at h4
      · simp at h3
    · -- pop
      split at h3
      · simp at h3
      · obtain ⟨g, hg, rfl⟩ := (mem_bulk _ _ _ _ _ _).1 h3
        rw [← h2]
        exact .pop h1 hg hop
    · split at h3
      · rename_i hl
        obtain ⟨g, hg, rfl⟩ := (mem_bulk _ _ _ _ _ _).1 h3
        refine .swap h1 hg hop ?_
        rw [hl]; exact htE'
      · simp at h3
    · split at h3
      · rename_i hcl
        have h4 : y = (⟨pre, t.label, t.dst⟩, Trace.pre id) := by simpa using h3
        subst h4
        exact .noop h1 ((hp.mem_expand hm _).2 ⟨hcl, (hval t htE).2.1⟩) hop htE'
      · simp at h3
  intro y hy
  exact (List.mem_append.1 hy).elim (hjd y) (hji y)

theorem PreInv.step {p : Pda W} (hp : p.WF) {a0 : Aut W} (ha : AutOK p a0)
    {s : PreSt W σ} (h : PreInv p a0 s) (hc : Cover a0.n s) (hd : AccDone p a0.n s)
    (cb : Callback W σ) :
    PreInv p a0 (preStep p cb s) ∧ Cover a0.n (preStep p cb s) ∧ AccDone p a0.n (preStep p cb s) := by
  rcases hws : s.ws with _ | ⟨t, ws⟩
  · unfold preStep; rw [hws]; exact ⟨h, hc, hd⟩
  have htE : t ∈ keys s.aut.edges := h.wsE t (by rw [hws]; simp)
  have hval := h.valid hp ha
  have hc' : Cover a0.n { s with ws := ws, rel := s.rel ++ [t] } := by
    intro u hu hlt
    rcases hc u hu hlt with h1 | h1
    · rw [hws] at h1
      rcases List.mem_cons.1 h1 with rfl | h2
      · exact .inr (by simp)
      · exact .inl h2
    · exact .inr (List.mem_append.2 (.inl h1))
  have hd' : AccDone p a0.n { s with ws := ws, rel := s.rel ++ [t] } := hd
  have hj := h.reqs_just hp ha t ws hws
  have hjd : ∀ y ∈ dpReqs p t s.dp, PreJ p (· ∈ keys s.aut.edges) y.1 y.2 :=
    fun y hy => hj y (List.mem_append.2 (.inl hy))
  have hji : ∀ y ∈ intoReqs p t s.popped (s.rel ++ [t]), PreJ p (· ∈ keys s.aut.edges) y.1 y.2 :=
    fun y hy => hj y (List.mem_append.2 (.inr hy))
  rw [preStep_eq p cb s t ws hws]
  split
  · -- `t.src` is not a control state
    rename_i hge
    have hk' := preInsertAll_keys cb (dpReqs p t s.dp) { s with ws := ws, rel := s.rel ++ [t] }
    obtain ⟨f1, f2, f3, f4⟩ := preInsertAll_frame cb (dpReqs p t s.dp)
      { s with ws := ws, rel := s.rel ++ [t] }
    have up : ∀ {u}, u ∈ keys s.aut.edges →
        u ∈ keys (preInsertAll cb { s with ws := ws, rel := s.rel ++ [t] } (dpReqs p t s.dp)).aut.edges :=
      fun {u} hu => (hk' u).1.2 (.inl hu)
    have hns : ∀ (pre id : Nat) (r : Rule W) (l : Labels), (p.st pre).rules[id]? = some (r, l) → r.to ≠ t.src := by
      intro pre id r l h1 h2
      have := hp.toLt _ _ (List.mem_of_getElem? h1)
      dsimp only at this; omega
    have hrel : ∀ {u}, u ∈ s.rel ++ [t] → u ∈ s.rel ∨ u = t := by
      intro u hu; simpa using hu
    refine ⟨?_, hc'.insertAll cb _, hd'.insertAll cb _⟩
    constructor
    · rw [f4]; exact h.acc
    · exact preInsertAll_built (PreJ.mono p) cb _ _ h.built hjd
    · intro u hu
      rcases (hk' u).2.1 hu with h1 | ⟨h1, _⟩
      · exact up (h.wsE u (by rw [hws]; exact List.mem_cons_of_mem _ h1))
      · exact (hk' u).1.2 (.inr h1)
    · rw [f1]; intro u hu
      rcases hrel hu with h1 | rfl
      · exact up (h.relE u h1)
      · exact up htE
    · rw [f2]; intro q st id hm
      obtain ⟨r, l, h1, h2, h3⟩ := h.dpOK q st id hm
      exact ⟨r, l, h1, h2, up h3⟩
    · rw [f1]; intro u hu pre id r l h1 h2 h3 h4 g hg
      rcases hrel hu with h5 | rfl
      · exact up (h.swapC u h5 pre id r l h1 h2 h3 h4 g hg)
      · exact absurd h2 (hns _ _ _ _ h1)
    · rw [f1]; intro u hu pre id r l h1 h2 h3 h4
      rcases hrel hu with h5 | rfl
      · exact up (h.noopC u h5 pre id r l h1 h2 h3 h4)
      · exact absurd h2 (hns _ _ _ _ h1)
    · rw [f1, f2]; intro u hu pre id r l h1 h2 h3 h4 h0
      rcases hrel hu with h5 | rfl
      · exact h.pushC u h5 pre id r l h1 h2 h3 h4 h0
      · exact absurd h2 (hns _ _ _ _ h1)
    · rw [f1, f2]; intro q st id hm u hu h1 r l h2 h3
      rcases hrel hu with h5 | rfl
      · exact up (h.dpC q st id hm u h5 h1 r l h2 h3)
      · refine (hk' _).1.2 (.inr ?_)
        subst h1
        exact List.mem_map.2 ⟨_, (mem_dpReqs u s.dp _).2 ⟨st, id, r, l, hm, h2, h3, rfl⟩, rfl⟩
    · rw [f1, f3]; intro u hu hlt
      rcases hrel hu with h5 | rfl
      · exact h.popR u h5 hlt
      · omega
    · rw [f3]; intro q hq pre id r l h1 h2 h3 g hg
      exact up (h.popC q hq pre id r l h1 h2 h3 g hg)
  · rename_i hlt
    have hlt : t.src < p.size := by omega
    have hk' := preInsertAll_keys cb (dpReqs p t s.dp ++ intoReqs p t s.popped (s.rel ++ [t]))
      { s with ws := ws, rel := s.rel ++ [t] }
    obtain ⟨f1, f2, f3, f4⟩ := preInsertAll_frame cb
      (dpReqs p t s.dp ++ intoReqs p t s.popped (s.rel ++ [t]))
      { s with ws := ws, rel := s.rel ++ [t] }
    have hcov := hc'.insertAll cb (dpReqs p t s.dp ++ intoReqs p t s.popped (s.rel ++ [t]))
    have hacc := hd'.insertAll cb (dpReqs p t s.dp ++ intoReqs p t s.popped (s.rel ++ [t]))
    have hbuilt := preInsertAll_built (PreJ.mono p) cb
      (dpReqs p t s.dp ++ intoReqs p t s.popped (s.rel ++ [t]))
      { s with ws := ws, rel := s.rel ++ [t] } h.built
      (fun y hy => (List.mem_append.1 hy).elim (hjd y) (hji y))
    generalize preInsertAll cb { s with ws := ws, rel := s.rel ++ [t] }
      (dpReqs p t s.dp ++ intoReqs p t s.popped (s.rel ++ [t])) = s' at *
    have up : ∀ {u}, u ∈ keys s.aut.edges → u ∈ keys s'.aut.edges :=
      fun {u} hu => (hk' u).1.2 (.inl hu)
    have reqd : ∀ {y}, y ∈ dpReqs p t s.dp → y.1 ∈ keys s'.aut.edges := fun {y} hy =>
      (hk' _).1.2 (.inr (List.mem_map.2 ⟨y, List.mem_append.2 (.inl hy), rfl⟩))
    have reqi : ∀ {y}, y ∈ intoReqs p t s.popped (s.rel ++ [t]) → y.1 ∈ keys s'.aut.edges :=
      fun {y} hy => (hk' _).1.2 (.inr (List.mem_map.2 ⟨y, List.mem_append.2 (.inr hy), rfl⟩))
    have into : ∀ {pre id r l y}, (p.st pre).rules[id]? = some (r, l) → r.to = t.src → ¬ r.Missed →
        y ∈ ruleReqs p t s.popped (s.rel ++ [t]) pre (id, r, l) → y.1 ∈ keys s'.aut.edges :=
      fun {pre id r l y} h1 h2 h0 h3 =>
        reqi ((mem_into hp t.src _ y).2 ⟨pre, id, r, l, h1, h2, h0, h3⟩)
    have hrel : ∀ {u}, u ∈ s.rel ++ [t] → u ∈ s.rel ∨ u = t := by
      intro u hu; simpa using hu
    have hdps : ∀ {q st id}, (q, st, id) ∈ intoDps p t → q = t.dst ∧
        ∃ r l, (p.st st).rules[id]? = some (r, l) ∧ r.to = t.src ∧ r.op = .push ∧ r.opLabel = t.label ∧
          ¬ r.Missed := by
      intro q st id hm
      obtain ⟨pre, id', r, l, h1, h2, h0, h3⟩ := (mem_into hp t.src _ _).1 hm
      unfold ruleDps at h3
      cases hop : r.op <;> simp only [hop] at h3
      · split at h3
        · rename_i hl
          simp only [List.mem_singleton, Prod.mk.injEq] at h3
          obtain ⟨rfl, rfl, rfl⟩ := h3
          exact ⟨rfl, r, l, h1, h2, hop, hl, h0⟩
        · simp at h3
      all_goals simp at h3
    refine ⟨?_, hcov, ?_⟩
    · constructor
      · exact f4.trans h.acc
      · exact hbuilt
      · intro u hu
        rcases (hk' u).2.1 hu with h1 | ⟨h1, _⟩
        · exact up (h.wsE u (by rw [hws]; exact List.mem_cons_of_mem _ h1))
        · exact (hk' u).1.2 (.inr h1)
      · intro u hu
        rw [f1] at hu
        rcases hrel hu with h1 | rfl
        · exact up (h.relE u h1)
        · exact up htE
      · intro q st id hm
        rcases List.mem_append.1 hm with hm | hm
        · obtain ⟨r, l, h1, h2, h3⟩ := h.dpOK q st id hm
          exact ⟨r, l, h1, h2, up h3⟩
        · obtain ⟨rfl, r, l, h1, h2, h3, h4, _⟩ := hdps hm
          refine ⟨r, l, h1, h3, up ?_⟩
          rw [h2, h4]; exact htE
      · intro u hu pre id r l h1 h2 h3 h4 g hg
        rw [f1] at hu
        rcases hrel hu with h5 | rfl
        · exact up (h.swapC u h5 pre id r l h1 h2 h3 h4 g hg)
        · refine into h1 h2 (fun h => by have := h.1.symm.trans h3; cases this) (y := (⟨pre, g, u.dst⟩, Trace.pre id)) ?_
          simp only [ruleReqs, h3, h4, if_true]
          exact (mem_bulk _ _ _ _ _ _).2 ⟨g, hg, rfl⟩
      · intro u hu pre id r l h1 h2 h3 h4
        rw [f1] at hu
        rcases hrel hu with h5 | rfl
        · exact up (h.noopC u h5 pre id r l h1 h2 h3 h4)
        · refine into h1 h2 (fun h => by have := h.1.symm.trans h3; cases this) (y := (⟨pre, u.label, u.dst⟩, Trace.pre id)) ?_
          simp [ruleReqs, h3, h4]
      · intro u hu pre id r l h1 h2 h3 h4 h0
        rw [f1] at hu
        rcases hrel hu with h5 | rfl
        · exact List.mem_append.2 (.inl (h.pushC u h5 pre id r l h1 h2 h3 h4 h0))
        · refine List.mem_append.2 (.inr ((mem_into hp u.src _ _).2 ⟨pre, id, r, l, h1, h2, h0, ?_⟩))
          simp [ruleDps, h3, h4]
      · intro q st id hm u hu h1 r l h2 h3
        rw [f1] at hu
        rcases List.mem_append.1 hm with hm' | hm
        · rcases hrel hu with h5 | rfl
          · exact up (h.dpC q st id hm' u h5 h1 r l h2 h3)
          · subst h1
            exact reqd (y := (⟨st, u.label, u.dst⟩, Trace.preTemp id u.src))
              ((mem_dpReqs u s.dp _).2 ⟨st, id, r, l, hm', h2, h3, rfl⟩)
        · obtain ⟨rfl, r', l', h5, h6, h7, h8, h9⟩ := hdps hm
          rw [h2] at h5; cases h5
          refine into h2 h6 h9 (y := (⟨st, u.label, u.dst⟩, Trace.preTemp id t.dst)) ?_
          simp only [ruleReqs, h7, h8, if_true]
          refine List.mem_flatMap.2 ⟨u, List.mem_filter.2 ⟨hu, by simpa using h1⟩, ?_⟩
          simp [h3]
      · intro u hu hlt'
        rw [f1] at hu
        rcases hrel hu with h5 | rfl
        · exact List.mem_cons_of_mem _ (h.popR u h5 hlt')
        · exact List.mem_cons_self
      · intro q hq pre id r l h1 h2 h3 g hg
        rcases List.mem_cons.1 hq with rfl | hq
        · by_cases hpop : t.src ∈ s.popped
          · exact up (h.popC _ hpop pre id r l h1 h2 h3 g hg)
          · refine into h1 h2 (fun h => by have := h.1.symm.trans h3; cases this) (y := (⟨pre, g, t.src⟩, Trace.pre id)) ?_
            have : s.popped.contains t.src = false := by simpa using hpop
            simp only [ruleReqs, h3, this, Bool.false_eq_true, if_false]
            exact (mem_bulk _ _ _ _ _ _).2 ⟨g, hg, rfl⟩
        · exact up (h.popC q hq pre id r l h1 h2 h3 g hg)
    · intro q h1 h2 h3
      have := hacc q h1 h2 h3
      rw [f3] at this
      exact List.mem_cons_of_mem _ this

end
end

end Verif
