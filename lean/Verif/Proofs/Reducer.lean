import Verif.Proofs.ReducerSets
import Mathlib.Data.List.Forall2

/-! # The Reducer: graph searches and `target_tos_prune` keep the runs to the terminal state -/

namespace Verif

variable {W : Type}

namespace Reducer

/-- What the Reducer relies on besides well-formedness: label lists without repetitions, and no labels
listed next to a wildcard. -/
structure OK [LinearOrder W] (p : Pda W) : Prop where
  wf : p.WF
  strict : ∀ i, ∀ x ∈ (p.st i).rules, SSorted x.2.labels
  wild : ∀ i, ∀ x ∈ (p.st i).rules, x.2.wildcard = true → x.2.labels = []

/-- The rules of the list belong to `p` and do not leave the terminal state. -/
def Uses (p : Pda W) (t : Nat) (rs : List (URule W)) : Prop := ∀ r ∈ rs, p.Has r ∧ r.src ≠ t

theorem keep {p p' : Pda W} {t : Nat} (I : Config → Prop)
    (hI : ∀ r w, p.Has r → r.src ≠ t → r.dst ≠ t → I (r.src, r.pre :: w) →
      I (r.dst, effect r.op r.pre r.opLabel w))
    (hk : ∀ r w rs w', p.Has r → r.src ≠ t → I (r.src, r.pre :: w) →
      Run (r.dst, effect r.op r.pre r.opLabel w) rs (t, w') → Uses p t rs → p'.Has r)
    {c : Config} {rs : List (URule W)} {w' : List Nat} (hr : Run c rs (t, w')) (hu : Uses p t rs)
    (hc : c.1 ≠ t → I c) : Uses p' t rs := by
  generalize he : (t, w') = e at hr
  induction hr with
  | nil c => intro r hr; cases hr
  | cons r w rs c h ih =>
    subst he
    have h1 := hu r (by simp)
    have hu' : Uses p t rs := fun r hr => hu r (by simp [hr])
    have hc' := hc h1.2
    intro r' hr'
    rcases List.mem_cons.1 hr' with rfl | hr'
    · exact ⟨hk _ w rs w' h1.1 h1.2 hc' h hu', h1.2⟩
    · exact ih hu' (fun hd => hI r w h1.1 h1.2 hd hc') rfl r' hr'

/-! ## Narrowing: rules removed, labels removed -/

/-- The labels meant by a label set over `n` labels. -/
def expandN (n : Nat) (l : Labels) : List Nat := if l.wildcard then List.range n else l.labels

/-- `e'` is `e` with fewer labels. -/
def Narrower (n : Nat) (e' e : Rule W × Labels) : Prop :=
  e'.1 = e.1 ∧ ∀ g ∈ expandN n e'.2, g ∈ expandN n e.2

theorem sublistForall_mem {α : Type} {R : α → α → Prop} {l' l : List α}
    (h : List.SublistForall₂ R l' l) {x : α} (hx : x ∈ l') : ∃ y ∈ l, R x y := by
  induction h with
  | nil => cases hx
  | cons hr _ ih =>
    rcases List.mem_cons.1 hx with rfl | hx
    · exact ⟨_, by simp, hr⟩
    · obtain ⟨y, hy, h⟩ := ih hx; exact ⟨y, by simp [hy], h⟩
  | cons_right _ ih => obtain ⟨y, hy, h⟩ := ih hx; exact ⟨y, by simp [hy], h⟩

instance (n : Nat) : Std.Refl (Narrower (W := W) n) := ⟨fun _ => ⟨rfl, fun _ h => h⟩⟩
instance (n : Nat) : IsTrans _ (Narrower (W := W) n) :=
  ⟨fun _ _ _ h1 h2 => ⟨h1.1.trans h2.1, fun g h => h2.2 g (h1.2 g h)⟩⟩

/-- `p'` is `p` with rules and labels removed. -/
structure Narrow (p p' : Pda W) : Prop where
  size : p'.size = p.size
  labels : p'.nLabels = p.nLabels
  rules : ∀ i, List.SublistForall₂ (Narrower p.nLabels) (p'.st i).rules (p.st i).rules

namespace Narrow

theorem refl (p : Pda W) : Narrow p p := ⟨rfl, rfl, fun _ => Std.Refl.refl _⟩

theorem trans {p q r : Pda W} (h1 : Narrow p q) (h2 : Narrow q r) : Narrow p r :=
  ⟨h2.size.trans h1.size, h2.labels.trans h1.labels, fun i => by
    have := h2.rules i
    rw [h1.labels] at this
    exact IsTrans.trans _ _ _ this (h1.rules i)⟩

theorem mem {p q : Pda W} (h : Narrow p q) {i : Nat} {x : Rule W × Labels}
    (hx : x ∈ (q.st i).rules) :
    ∃ l, (x.1, l) ∈ (p.st i).rules ∧ ∀ g ∈ expandN p.nLabels x.2, g ∈ expandN p.nLabels l := by
  obtain ⟨y, hy, h1, h2⟩ := sublistForall_mem (h.rules i) hx
  exact ⟨y.2, by rw [h1]; exact hy, h2⟩

theorem has [LinearOrder W] {p q : Pda W} (h : Narrow p q) {r : URule W} (hr : q.Has r) : p.Has r := by
  rw [Pda.Has_iff] at hr ⊢
  obtain ⟨l, h1, h2⟩ := hr
  obtain ⟨l', h3, h4⟩ := h.mem h1
  refine ⟨l', h3, h4 _ ?_⟩
  unfold Pda.expand at h2
  rw [h.labels] at h2
  exact h2

theorem uses [LinearOrder W] {p q : Pda W} (h : Narrow p q) {t : Nat} {rs : List (URule W)} (hr : Uses q t rs) :
    Uses p t rs := fun r hm => ⟨h.has (hr r hm).1, (hr r hm).2⟩

end Narrow

theorem has_of_mem [LinearOrder W] {p : Pda W} {i g : Nat} {x : Rule W × Labels} (hx : x ∈ (p.st i).rules)
    (hg : g ∈ p.expand x.2) :
    p.Has ⟨i, g, x.1.to, x.1.op, x.1.opLabel, x.1.weight⟩ := by
  rw [Pda.Has_iff]
  exact ⟨x.2, hx, hg⟩

theorem sublist_narrow {n : Nat} {l' l : VMap (Rule W) Labels} (h : l'.Sublist l) :
    List.SublistForall₂ (Narrower n) l' l := h.sublistForall₂

section
variable [LinearOrder W]

theorem clear_nLabels (p : Pda W) (s : Nat) : (p.clearState s).nLabels = p.nLabels := rfl

theorem clear_narrow {p : Pda W} (hp : p.WF) (s : Nat) : Narrow p (p.clearState s) :=
  ⟨(clear_wf hp s).2, rfl, fun i => sublist_narrow (clear_sublist s i)⟩

theorem clear_ok {p : Pda W} (hp : OK p) (s : Nat) : OK (p.clearState s) :=
  ⟨(clear_wf hp.wf s).1, fun i x hx => hp.strict i x ((clear_rules hp.wf s i x).1 hx).2.2,
    fun i x hx => hp.wild i x ((clear_rules hp.wf s i x).1 hx).2.2⟩

/-! ## The searches -/

/-- The result of a search: a set of states closed under `succ`. -/
structure Found (succ : Nat → List Nat) (size start : Nat) (b : Search) : Prop where
  start : b.has start = true
  closed : ∀ s, b.has s = true → ∀ x ∈ succ s, b.has x = true

omit [LinearOrder W] in
theorem Search.has_set (b : Search) (ws : List Nat) {s : Nat} (h : s < b.seen.length) (x : Nat) :
    Search.has { seen := b.seen.set s true, waiting := ws } x = true ↔ x = s ∨ b.has x = true := by
  unfold Search.has
  rw [List.getElem?_set]
  by_cases hx : s = x
  · subst hx; simp [h]
  · have : ¬ x = s := fun h => hx h.symm
    simp [hx, this]

/-- Loop invariant of the search, with the states that remain to be tried. -/
structure Search.Inv (succ : Nat → List Nat) (size start : Nat) (b : Search) : Prop where
  len : b.seen.length = size
  start : b.has start = true
  closed : ∀ s, b.has s = true → s ∈ b.waiting ∨ ∀ x ∈ succ s, b.has x = true

omit [LinearOrder W] in
theorem visit_fold {size : Nat} (xs : List Nat) (hx : ∀ x ∈ xs, x < size) (b : Search)
    (hb : b.seen.length = size) :
    (xs.foldl Search.visit b).seen.length = size ∧
    (∀ s, b.has s = true → (xs.foldl Search.visit b).has s = true) ∧
    (∀ x ∈ xs, (xs.foldl Search.visit b).has x = true) ∧
    (∀ s, (xs.foldl Search.visit b).has s = true → b.has s = true ∨
      s ∈ (xs.foldl Search.visit b).waiting) ∧
    (∀ s ∈ b.waiting, s ∈ (xs.foldl Search.visit b).waiting) ∧
    (xs.foldl Search.visit b).waiting.length + (xs.foldl Search.visit b).seen.count false =
      b.waiting.length + b.seen.count false := by
  induction xs generalizing b with
  | nil => exact ⟨hb, fun _ h => h, by simp, fun _ h => .inl h, fun _ h => h, rfl⟩
  | cons x xs ih =>
    rw [List.foldl_cons]
    have hxs : x < b.seen.length := by rw [hb]; exact hx x (by simp)
    have hxs' : ∀ y ∈ xs, y < size := fun y hy => hx y (by simp [hy])
    by_cases h : b.has x = true
    · have hv : b.visit x = b := by unfold Search.visit; rw [if_pos h]
      rw [hv]
      obtain ⟨h1, h2, h3, h4, h5, h6⟩ := ih hxs' b hb
      refine ⟨h1, h2, fun y hy => ?_, h4, h5, h6⟩
      rcases List.mem_cons.1 hy with rfl | hy
      · exact h2 _ h
      · exact h3 y hy
    · have hv : b.visit x = { seen := b.seen.set x true, waiting := b.waiting ++ [x] } := by
        unfold Search.visit; rw [if_neg h]
      rw [hv]
      have hset := Search.has_set b (b.waiting ++ [x]) hxs
      obtain ⟨h1, h2, h3, h4, h5, h6⟩ := ih hxs' { seen := b.seen.set x true, waiting := b.waiting ++ [x] }
        (by simpa using hb)
      refine ⟨h1, fun s hs => h2 s ((hset s).2 (.inr hs)), fun y hy => ?_, fun s hs => ?_,
        fun s hs => h5 s (by simp [hs]), ?_⟩
      · rcases List.mem_cons.1 hy with rfl | hy
        · exact h2 _ ((hset _).2 (.inl rfl))
        · exact h3 y hy
      · rcases h4 s hs with h' | h'
        · rcases (hset s).1 h' with rfl | h'
          · exact .inr (h5 _ (by simp))
          · exact .inl h'
        · exact .inr h'
      · rw [h6]
        have hf : b.seen[x] = false := by
          unfold Search.has at h
          rw [List.getElem?_eq_getElem hxs] at h
          simpa using h
        have hc := List.count_set (l := b.seen) (a := true) (b := false) hxs
        have hpos : 0 < b.seen.count false := List.count_pos_iff.2 (by rw [← hf]; exact List.getElem_mem hxs)
        simp only [hf] at hc
        simp at hc
        simp only [List.length_append, List.length_cons, List.length_nil]
        omega

omit [LinearOrder W] in
theorem search_step {succ : Nat → List Nat} {size start : Nat}
    (hsucc : ∀ s, ∀ x ∈ succ s, x < size) {b b' : Search} (hb : b.Inv succ size start)
    (h : b.step succ = some b') : b'.Inv succ size start ∧
      b'.waiting.length + b'.seen.count false < b.waiting.length + b.seen.count false := by
  unfold Search.step at h
  rcases hw : b.waiting with _ | ⟨el, ws⟩
  · rw [hw] at h; cases h
  · rw [hw] at h
    simp only [Option.some.injEq] at h
    obtain ⟨h1, h2, h3, h4, h5, h6⟩ := visit_fold (succ el) (hsucc el) { b with waiting := ws } hb.len
    rw [h] at h1 h2 h3 h4 h5 h6
    refine ⟨⟨h1, h2 _ hb.start, fun s hs => ?_⟩, ?_⟩
    · rcases h4 s hs with h' | h'
      · rcases hb.closed s h' with h'' | h''
        · rw [hw] at h''
          rcases List.mem_cons.1 h'' with rfl | h''
          · exact .inr h3
          · exact .inl (h5 _ h'')
        · exact .inr fun x hx => h2 _ (h'' x hx)
      · exact .inl h'
    · rw [h6]; simp only [List.length_cons]; omega

omit [LinearOrder W] in
theorem search_init (succ : Nat → List Nat) {size start : Nat} (hs : start < size) :
    (Search.start size start).Inv succ size start := by
  have hset := Search.has_set { seen := List.replicate size false, waiting := [] } [start]
    (s := start) (by simpa using hs)
  refine ⟨by simp [Search.start], (hset _).2 (.inl rfl), fun s h => ?_⟩
  rcases (hset s).1 h with rfl | h
  · exact .inl (by simp [Search.start])
  · exfalso
    unfold Search.has at h
    by_cases h' : s < size
    · rw [List.getElem?_replicate_of_lt h'] at h; cases h
    · rw [List.getElem?_eq_none (by simp; omega)] at h; cases h

omit [LinearOrder W] in
theorem search_found {succ : Nat → List Nat} {size start : Nat}
    (hsucc : ∀ s, ∀ x ∈ succ s, x < size) (hs : start < size) {fuel : Nat} {b : Search}
    (h : whileSome (Search.step succ) fuel (Search.start size start) = some b) :
    Found succ size start b := by
  obtain ⟨h1, h2⟩ := whileSome_inv (I := fun b => b.Inv succ size start)
    (fun s s' hs h => (search_step hsucc hs h).1) (search_init succ hs) h
  refine ⟨h1.start, fun s hs x hx => ?_⟩
  rcases h1.closed s hs with h' | h'
  · unfold Search.step at h2
    rcases hw : b.waiting with _ | ⟨el, ws⟩
    · rw [hw] at h'; cases h'
    · rw [hw] at h2; cases h2
  · exact h' x hx

omit [LinearOrder W] in
theorem search_terminates {succ : Nat → List Nat} {size start : Nat}
    (hsucc : ∀ s, ∀ x ∈ succ s, x < size) (hs : start < size) {fuel : Nat} (hf : size ≤ fuel) :
    ∃ b, whileSome (Search.step succ) fuel (Search.start size start) = some b := by
  refine whileSome_terminates (I := fun b => b.Inv succ size start)
    (fun b => b.waiting.length + b.seen.count false)
    (fun s s' hs h => search_step hsucc hs h) (search_init succ hs) ?_
  refine Nat.le_trans ?_ hf
  have hlen : ((List.replicate size false).set start true).count false + 1 ≤ size := by
    have hc := List.count_set (l := List.replicate size false) (a := true) (b := false)
      (i := start) (by simpa using hs)
    simp at hc
    omega
  simpa [Search.start, Nat.add_comm] using hlen

/-! ## `clearUnseen` -/

theorem clearUnseen_fold (b : Search) (xs : List Nat) {p : Pda W} (hp : OK p) :
    OK (xs.foldl (fun p s => if b.has s then p else p.clearState s) p) ∧
    Narrow p (xs.foldl (fun p s => if b.has s then p else p.clearState s) p) ∧
    ∀ i x, x ∈ ((xs.foldl (fun p s => if b.has s then p else p.clearState s) p).st i).rules ↔
      x ∈ (p.st i).rules ∧ ∀ s ∈ xs, b.has s = false → i ≠ s ∧ x.1.to ≠ s := by
  induction xs generalizing p with
  | nil => exact ⟨hp, Narrow.refl p, by simp⟩
  | cons s xs ih =>
    rw [List.foldl_cons]
    by_cases h : b.has s = true
    · rw [if_pos h]
      obtain ⟨h1, h2, h3⟩ := ih hp
      refine ⟨h1, h2, fun i x => ?_⟩
      rw [h3]
      simp [h]
    · rw [if_neg h]
      obtain ⟨h1, h2, h3⟩ := ih (clear_ok hp s)
      refine ⟨h1, (clear_narrow hp.wf s).trans h2, fun i x => ?_⟩
      rw [h3, clear_rules hp.wf]
      simp only [Bool.not_eq_true] at h
      simp only [List.mem_cons, forall_eq_or_imp, h, forall_const]
      grind

theorem clearUnseen_spec (b : Search) {p : Pda W} (hp : OK p) :
    OK (clearUnseen p b) ∧ Narrow p (clearUnseen p b) ∧
    ∀ i x, x ∈ ((clearUnseen p b).st i).rules ↔
      x ∈ (p.st i).rules ∧ b.has i = true ∧ b.has x.1.to = true := by
  obtain ⟨h1, h2, h3⟩ := clearUnseen_fold b (List.range p.size) hp
  refine ⟨h1, h2, fun i x => ?_⟩
  refine (h3 i x).trans ?_
  constructor
  · rintro ⟨h, h'⟩
    have hi : i < p.size := by
      by_contra hi
      rw [Pda.st_default (by omega)] at h; simp [default] at h
    have ht := hp.wf.toLt i x h
    refine ⟨h, ?_, ?_⟩
    · by_contra hb
      exact (h' i (List.mem_range.2 hi) (by simpa using hb)).1 rfl
    · by_contra hb
      exact (h' _ (List.mem_range.2 ht) (by simpa using hb)).2 rfl
  · rintro ⟨h, h1, h2⟩
    refine ⟨h, fun s _ hs => ⟨?_, ?_⟩⟩
    · rintro rfl; rw [h1] at hs; cases hs
    · rintro rfl; rw [h2] at hs; cases hs

theorem clearUnseen_has (b : Search) {p : Pda W} (hp : OK p) (r : URule W) :
    (clearUnseen p b).Has r ↔ p.Has r ∧ b.has r.src = true ∧ b.has r.dst = true := by
  obtain ⟨h1, h2, h3⟩ := clearUnseen_spec b hp
  rw [Pda.Has_iff, Pda.Has_iff]
  have he : ∀ l, (clearUnseen p b).expand l = p.expand l := fun l => by
    unfold Pda.expand; rw [h2.labels]
  simp only [h3, he]
  constructor
  · rintro ⟨l, ⟨h4, h5⟩, h6⟩; exact ⟨⟨l, h4, h6⟩, h5⟩
  · rintro ⟨⟨l, h4, h6⟩, h5⟩; exact ⟨l, ⟨h4, h5⟩, h6⟩

/-- A state reached by rules: `succ` covers every rule that can fire. -/
theorem forward_mem {p : Pda W} {r : URule W} (h : p.Has r) : r.dst ∈ forwardSucc p r.src := by
  obtain ⟨l, h1, h2⟩ := (Pda.Has_iff p r).1 h
  unfold forwardSucc
  refine List.mem_map.2 ⟨_, List.mem_filter.2 ⟨h1, ?_⟩, rfl⟩
  rcases l with ⟨wc, ls⟩
  unfold Pda.expand at h2
  cases wc
  · cases ls with
    | nil => simp at h2
    | cons a as => rfl
  · rfl

/-- What a pruning phase guarantees for the runs from the initial to the terminal state. -/
structure Phase (p p' : Pda W) (init term : Nat) : Prop where
  ok : OK p'
  narrow : Narrow p p'
  runs : ∀ w rs w', Run (init, w) rs (term, w') → Uses p term rs → Uses p' term rs
  loop : (∃ w rs w', Run (init, w) rs (term, w') ∧ Uses p term rs) →
    (∃ x ∈ (p.st term).rules, x.1.to = term) → ∃ x ∈ (p'.st term).rules, x.1.to = term

theorem Phase.refl {p : Pda W} (hp : OK p) (init term : Nat) : Phase p p init term :=
  ⟨hp, Narrow.refl p, fun _ _ _ _ h => h, fun _ h => h⟩

theorem Phase.trans {p q r : Pda W} {init term : Nat} (h1 : Phase p q init term)
    (h2 : Phase q r init term) : Phase p r init term :=
  ⟨h2.ok, h1.narrow.trans h2.narrow, fun w rs w' hr hu => h2.runs w rs w' hr (h1.runs w rs w' hr hu),
    fun ⟨w, rs, w', hr, hu⟩ hx => h2.loop ⟨w, rs, w', hr, h1.runs w rs w' hr hu⟩
      (h1.loop ⟨w, rs, w', hr, hu⟩ hx)⟩

theorem forwardSucc_lt {p : Pda W} (hp : p.WF) (s x : Nat) (h : x ∈ forwardSucc p s) : x < p.size := by
  unfold forwardSucc at h
  obtain ⟨e, he, rfl⟩ := List.mem_map.1 h
  exact hp.toLt s e (List.mem_filter.1 he).1

theorem forwards_phase {p : Pda W} (hp : OK p) {init term : Nat} (hi : init < p.size)
    {fuel : Nat} {p' : Pda W} (h : forwardsPrune fuel p init = some p') : Phase p p' init term := by
  unfold forwardsPrune at h
  obtain ⟨b, hb, rfl⟩ := Option.map_eq_some_iff.1 h
  have hf := search_found (forwardSucc_lt hp.wf) hi hb
  obtain ⟨h1, h2, h3⟩ := clearUnseen_spec b hp
  have hrun : ∀ {c : Config} {rs : List (URule W)} {d : Config}, Run c rs d → Uses p term rs →
      b.has c.1 = true → Uses (clearUnseen p b) term rs ∧ b.has d.1 = true := by
    intro c rs d hr
    induction hr with
    | nil c => exact fun _ h => ⟨fun r hr => (by cases hr), h⟩
    | cons r w rs c h ih =>
      intro hu hc
      have hr := hu r (by simp)
      have hd := hf.closed _ hc _ (forward_mem hr.1)
      obtain ⟨h4, h5⟩ := ih (fun r hr => hu r (by simp [hr])) hd
      refine ⟨fun r' hr' => ?_, h5⟩
      rcases List.mem_cons.1 hr' with rfl | hr'
      · exact ⟨(clearUnseen_has b hp _).2 ⟨hr.1, hc, hd⟩, hr.2⟩
      · exact h4 _ hr'
  refine ⟨h1, h2, fun w rs w' hr hu => (hrun hr hu hf.start).1, ?_⟩
  rintro ⟨w, rs, w', hr, hu⟩ ⟨x, hx, he⟩
  have ht := (hrun hr hu hf.start).2
  exact ⟨x, (h3 _ _).2 ⟨hx, ht, by rw [he]; exact ht⟩, he⟩

theorem backwards_phase {p : Pda W} (hp : OK p) {init term : Nat} (ht : term < p.size)
    {fuel : Nat} {p' : Pda W} (h : backwardsPrune fuel p term = some p') : Phase p p' init term := by
  unfold backwardsPrune at h
  obtain ⟨b, hb, rfl⟩ := Option.map_eq_some_iff.1 h
  have hf := search_found (fun s x hx => hp.wf.preLt s x hx) ht hb
  obtain ⟨h1, h2, h3⟩ := clearUnseen_spec b hp
  have hpre : ∀ r, p.Has r → b.has r.dst = true → b.has r.src = true := by
    intro r hr hd
    obtain ⟨l, h4, h5⟩ := (Pda.Has_iff p r).1 hr
    exact hf.closed _ hd _ (hp.wf.preMem _ _ h4)
  have hrun : ∀ {c : Config} {rs : List (URule W)} {d : Config}, Run c rs d → Uses p term rs →
      b.has d.1 = true → Uses (clearUnseen p b) term rs ∧ b.has c.1 = true := by
    intro c rs d hr
    induction hr with
    | nil c => exact fun _ h => ⟨fun r hr => (by cases hr), h⟩
    | cons r w rs c h ih =>
      intro hu hc
      have hr := hu r (by simp)
      obtain ⟨h4, h5⟩ := ih (fun r hr => hu r (by simp [hr])) hc
      have hs := hpre r hr.1 h5
      refine ⟨fun r' hr' => ?_, hs⟩
      rcases List.mem_cons.1 hr' with rfl | hr'
      · exact ⟨(clearUnseen_has b hp _).2 ⟨hr.1, hs, h5⟩, hr.2⟩
      · exact h4 _ hr'
  refine ⟨h1, h2, fun w rs w' hr hu => (hrun hr hu hf.start).1, ?_⟩
  rintro - ⟨x, hx, he⟩
  exact ⟨x, (h3 _ _).2 ⟨hx, hf.start, by rw [he]; exact hf.start⟩, he⟩

theorem forwards_terminates {p : Pda W} (hp : p.WF) {init : Nat} (hi : init < p.size) {fuel : Nat}
    (hf : p.size ≤ fuel) : ∃ p', forwardsPrune fuel p init = some p' := by
  obtain ⟨b, hb⟩ := search_terminates (forwardSucc_lt hp) hi hf
  exact ⟨_, by rw [forwardsPrune, hb]; rfl⟩

theorem backwards_terminates {p : Pda W} (hp : p.WF) {term : Nat} (ht : term < p.size) {fuel : Nat}
    (hf : p.size ≤ fuel) : ∃ p', backwardsPrune fuel p term = some p' := by
  obtain ⟨b, hb⟩ := search_terminates (fun s x hx => hp.preLt s x hx) ht hf
  exact ⟨_, by rw [backwardsPrune, hb]; rfl⟩

end

end Reducer

end Verif
