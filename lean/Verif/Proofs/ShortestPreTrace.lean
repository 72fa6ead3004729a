import Verif.Proofs.ShortestPre
import Verif.Proofs.FixedSat
import Verif.Proofs.ReducerSets

/-! # Shortest pre*: the traces

The traces of transitions are those of the first insertion, so they are built as in pre* without weights. Nothing is
assumed about the weights, the queue or the callback here. -/

namespace Verif

variable {W T σ : Type}

/-- The automaton with its traces, without its weights. -/
def Aut.bare [Zero W] (a : Aut T) : Aut W := { acc := a.acc, edges := a.edges.map fun e => (e.1, (e.2.1, 0)) }

section
variable [Zero W]

theorem keys_bare (a : Aut T) : keys (a.bare : Aut W).edges = keys a.edges := by
  simp [keys, Aut.bare, List.map_map, Function.comp_def]

theorem getEdge_bare (a : Aut T) (t : Tr) : (a.bare : Aut W).getEdge t = (a.getEdge t).map fun x => (x.1, 0) := by
  unfold Aut.getEdge Aut.bare
  dsimp only
  induction a.edges with
  | nil => rfl
  | cons e E ih =>
    rw [List.map_cons, List.find?_cons, List.find?_cons]
    dsimp only
    by_cases h : e.1 == t
    · simp [h]
    · simp only [h]
      exact ih

theorem traceLabel_bare (a : Aut T) (t : Tr) : (a.bare : Aut W).traceLabel t = a.traceLabel t := by
  unfold Aut.traceLabel
  rw [getEdge_bare]
  cases a.getEdge t <;> rfl

theorem tbRound_bare (p : Pda W) (a : Aut T) (tb : TB) : tbRound p (a.bare : Aut W) tb = tbRound p a tb := by
  unfold tbRound tbPost
  simp only [traceLabel_bare]

theorem tbNext_bare (p : Pda W) (a : Aut T) (k : Nat) (tb : TB) : tbNext p (a.bare : Aut W) k tb = tbNext p a k tb := by
  induction k generalizing tb with
  | zero => rfl
  | succ k ih => simp only [tbNext, tbRound_bare, ih]

theorem traceLoop_bare (p : Pda W) (a : Aut T) (f k : Nat) (tb : TB) :
    traceLoop p (a.bare : Aut W) f k tb = traceLoop p a f k tb := by
  induction k generalizing tb with
  | zero => rfl
  | succ k ih => simp only [traceLoop, tbNext_bare, ih]

theorem getTrace_bare (p : Pda W) (a : Aut T) (path : APath Nat) : getTrace p (a.bare : Aut W) path = getTrace p a path := by
  unfold getTrace tbFuel
  simp only [traceLoop_bare]
  simp [Aut.bare]

end

theorem foldl_stays {α β : Type} {f : α → β → α} (Q : α → Prop) (l : List β) (hf : ∀ a, ∀ b ∈ l, Q a → Q (f a b)) (a : α)
    (h : Q a) : Q (l.foldl f a) := by
  induction l generalizing a with
  | nil => exact h
  | cons x l ih =>
    exact ih (fun a b hb => hf a b (List.mem_cons_of_mem _ hb)) _ (hf a x List.mem_cons_self h)

/-- The transitions `K` are there, all transitions are justified, and `found` means that one of them satisfies `H`. -/
structure SPreT [Zero W] (p : Pda W) (a0 : Aut T) (H : Tr → Prop) (K : List Tr) (s : SPreSt T σ) : Prop where
  built : Built (PreJ p) (a0.bare : Aut W).edges s.aut.bare.edges
  acc : s.aut.acc = a0.acc
  ws : ∀ e ∈ s.ws, e.edge ∈ keys s.aut.edges
  rel : ∀ t ∈ s.rel, t ∈ keys s.aut.edges
  dp : ∀ q st id, (q, st, id) ∈ s.dp → ∃ r l, (p.st st).rules[id]? = some (r, l) ∧ r.op = .push ∧
    ⟨r.to, r.opLabel, q⟩ ∈ keys s.aut.edges
  sub : ∀ t ∈ K, t ∈ keys s.aut.edges
  hit : s.found = true → ∃ t ∈ keys s.aut.edges, H t

section
variable [LinearOrder T] [AddCommMonoid T] [LinearOrder W] [Zero W] {p : Pda W} {a0 : Aut T} {H : Tr → Prop} {K : List Tr}

omit [LinearOrder T] [AddCommMonoid T] [LinearOrder W] in
theorem SPreT.self {s : SPreSt T σ} (h : SPreT p a0 H K s) : SPreT p a0 H (keys s.aut.edges) s :=
  { h with sub := fun _ h => h }

omit [LinearOrder T] [AddCommMonoid T] [LinearOrder W] in
theorem SPreT.back {s s' : SPreSt T σ} (h : SPreT p a0 H K s) (h' : SPreT p a0 H (keys s.aut.edges) s') : SPreT p a0 H K s' :=
  { h' with sub := fun t ht => h'.sub t (h.sub t ht) }

theorem bare_emplace (a : Aut T) (t : Tr) (tr : Trace) (w : T) :
    ((a.emplaceEdge t (tr, w)).bare : Aut W) = (a.bare : Aut W).emplaceEdge t (tr, 0) := by
  have h : (a.bare : Aut W).hasEdge t = a.hasEdge t := by
    rw [Bool.eq_iff_iff, Aut.hasEdge_iff, Aut.hasEdge_iff, keys_bare]
  unfold Aut.emplaceEdge
  rw [h]
  split <;> rfl

theorem getEdge_of_mem {a : Aut T} (hn : (keys a.edges).Nodup) {t : Tr} {x : Ann T} (h : (t, x) ∈ a.edges) :
    a.getEdge t = some x := by
  rcases hf : a.getEdge t with _ | y
  · exact absurd (List.mem_map.2 ⟨_, h, rfl⟩) ((getEdge_none_iff a t).1 hf)
  · unfold Aut.getEdge at hf
    obtain ⟨⟨u, z⟩, hz, rfl⟩ := Option.map_eq_some_iff.1 hf
    have h1 := List.mem_of_find?_eq_some hz
    have h2 : u = t := by simpa using List.find?_some hz
    subst h2
    have := List.inj_on_of_nodup_map hn h h1 rfl
    rw [Prod.mk.injEq] at this
    rw [this.2]

theorem bare_set {a : Aut T} (hn : (keys a.edges).Nodup) {t : Tr} {tr : Trace} {w y : T} (h : a.getEdge t = some (tr, y)) :
    ((a.setEdge t (tr, w)).bare : Aut W) = a.bare := by
  unfold Aut.setEdge Aut.bare
  simp only [List.map_map]
  congr 1
  refine List.map_congr_left ?_
  rintro ⟨u, tr', x⟩ he
  simp only [Function.comp_apply]
  split
  · rename_i hu
    subst hu
    have := getEdge_of_mem hn he
    rw [h] at this
    cases this
    rfl
  · rfl

theorem spreInsert_keeps (hn : (keys a0.edges).Nodup) {s : SPreSt T σ} (h : SPreT p a0 H K s) {t : Tr} {tr : Trace} (w : T)
    (hj : PreJ p (· ∈ K) t tr) : SPreT p a0 H K (spreInsert s t tr w) := by
  have hN : (keys s.aut.edges).Nodup := by
    have := h.built.nodup (by rw [keys_bare]; exact hn)
    rwa [keys_bare] at this
  unfold spreInsert spreInsertWith
  dsimp only
  split
  · rename_i hg
    have hnot : t ∉ keys s.aut.edges := (getEdge_none_iff _ _).1 hg
    have hk : ∀ u, u ∈ keys (s.aut.emplaceEdge t (tr, w)).edges ↔ u ∈ keys s.aut.edges ∨ u = t := by
      intro u
      have hh : s.aut.hasEdge t = false := by rw [Bool.eq_false_iff]; intro hh; exact hnot ((Aut.hasEdge_iff _ _).1 hh)
      simp [Aut.emplaceEdge, hh, keys, or_comm]
    refine ⟨?_, ?_, ?_, ?_, ?_, ?_, fun hf => (h.hit hf).imp fun u hu => ⟨(hk u).2 (.inl hu.1), hu.2⟩⟩
    · dsimp only
      rw [bare_emplace]
      unfold Aut.emplaceEdge
      rw [if_neg (by rw [Aut.hasEdge_iff, keys_bare]; exact hnot)]
      refine .cons h.built (by rw [keys_bare]; exact hnot) ?_
      exact PreJ.mono p _ _ (fun u hu => by rw [keys_bare]; exact h.sub u hu) t tr hj
    · rw [← h.acc]; exact emplace_acc _ _ _
    · intro e he
      dsimp only at he ⊢
      rw [hk]
      rcases List.mem_append.1 he with he | he
      · exact .inl (h.ws e he)
      · rw [List.mem_singleton.1 he]; exact .inr rfl
    · intro u hu
      exact (hk u).2 (.inl (h.rel u hu))
    · intro q st id hd
      obtain ⟨r, l, h1, h2, h3⟩ := h.dp q st id hd
      exact ⟨r, l, h1, h2, (hk _).2 (.inl h3)⟩
    · intro u hu
      exact (hk u).2 (.inl (h.sub u hu))
  · rename_i tr0 y hg
    split
    · have hk : keys (s.aut.setEdge t (tr0, w)).edges = keys s.aut.edges := by
        rw [← keys_bare (W := W), bare_set hN hg, keys_bare]
      refine ⟨?_, h.acc, ?_, ?_, ?_, ?_, fun hf => (h.hit hf).imp fun u hu => ⟨by dsimp only; rw [hk]; exact hu.1, hu.2⟩⟩
      · dsimp only
        rw [bare_set hN hg]
        exact h.built
      · intro e he
        dsimp only at he ⊢
        rw [hk]
        rcases List.mem_append.1 he with he | he
        · exact h.ws e he
        · rw [List.mem_singleton.1 he]
          by_contra hm
          rw [(getEdge_none_iff _ _).2 hm] at hg; cases hg
      · intro u hu
        dsimp only
        rw [hk]; exact h.rel u hu
      · intro q st id hd
        dsimp only
        rw [hk]; exact h.dp q st id hd
      · intro u hu
        dsimp only
        rw [hk]; exact h.sub u hu
    · exact ⟨h.built, h.acc, h.ws, h.rel, h.dp, h.sub, h.hit⟩

theorem spreBulk_keeps (hn : (keys a0.edges).Nodup) {s : SPreSt T σ} (h : SPreT p a0 H K s) {src dst : Nat} {l : Labels}
    {tr : Trace} (w : T) (hj : ∀ g ∈ p.expand l, PreJ p (· ∈ K) ⟨src, g, dst⟩ tr) :
    SPreT p a0 H K (spreBulk p s src l dst tr w) := by
  unfold spreBulk
  exact foldl_stays (SPreT p a0 H K) _ (fun s g hg h => spreInsert_keeps hn h w (hj g hg)) s h

variable {val : W → T}

theorem spreAddPop_keeps (hw : p.WF) (hn : (keys a0.edges).Nodup) {s : SPreSt T σ} (h : SPreT p a0 H K s) (q : Nat) :
    SPreT p a0 H K (spreAddPop val p s q) := by
  unfold spreAddPop
  split
  · exact h
  · split
    · exact h
    · have h1 : SPreT p a0 H K ((p.st q).preStates.foldl
          (fun s pre => (p.rulesInto pre q).foldl (spreAddPopRule val p q pre) s) s) := by
        refine foldl_stays (SPreT p a0 H K) _ (fun s pre _ h => ?_) s h
        refine foldl_stays (SPreT p a0 H K) _ ?_ s h
        rintro s ⟨id, r, l⟩ hy h
        obtain ⟨h1, h2, _⟩ := (Pda.mem_rulesInto hw _ _ _ _ _).1 hy
        unfold spreAddPopRule
        split
        · rename_i hop
          refine spreBulk_keeps hn h _ fun g hg => ?_
          rw [← h2]
          exact .pop h1 hg hop
        · exact h
      exact { h1 with }

theorem spreInitEdge_keeps {s : SPreSt T σ} (h : SPreT p a0 H K s) {t : Tr} (ht : t ∈ K) : SPreT p a0 H K (spreInitEdge s t) := by
  refine { h with ws := ?_ }
  intro e he
  rcases List.mem_append.1 he with he | he
  · exact h.ws e he
  · rw [List.mem_singleton.1 he]; exact h.sub t ht

theorem spreInit_keeps (hw : p.WF) (hn : (keys a0.edges).Nodup) (h : HashOrder) (e : σ) :
    SPreT p a0 H (keys a0.edges) (spreInit val h p a0 e) := by
  unfold spreInit
  refine foldl_stays (SPreT p a0 H (keys a0.edges)) _ (fun s i _ hs => ?_) _
    ⟨.base, rfl, (by simp), (by simp), (by simp), fun _ h => h, by simp⟩
  have h1 : SPreT p a0 H (keys a0.edges) ((s.aut.out h i).foldl spreInitEdge s) := by
    refine hs.back ?_
    refine foldl_stays (SPreT p a0 H (keys s.aut.edges)) _ (fun s' t ht h' => ?_) s hs.self
    exact spreInitEdge_keeps h' ((Aut.mem_out h s.aut i t).1 ht).1
  dsimp only
  split
  · exact spreAddPop_keeps hw hn h1 i
  · exact h1

theorem built_labels {E0 E : List (AEdge W)} (hw : p.WF) (h : Built (PreJ p) E0 E) (h0 : ∀ t ∈ keys E0, t.label < p.nLabels) :
    ∀ t ∈ keys E, t.label < p.nLabels := by
  induction h with
  | base => exact h0
  | cons _ _ hj ih =>
    intro t ht
    rcases List.mem_cons.1 ht with h0 | h0
    · have h0 : t = _ := h0
      subst h0
      cases hj with
      | pop h1 h2 _ => have hm := List.mem_of_getElem? h1; exact ((hw.mem_expand hm _).1 h2).2
      | swap h1 h2 _ _ => have hm := List.mem_of_getElem? h1; exact ((hw.mem_expand hm _).1 h2).2
      | noop h1 h2 _ _ => have hm := List.mem_of_getElem? h1; exact ((hw.mem_expand hm _).1 h2).2
      | push h1 h2 _ _ _ => have hm := List.mem_of_getElem? h1; exact ((hw.mem_expand hm _).1 h2).2
    · exact ih t h0

theorem SPreT.labels (hw : p.WF) (hl : ∀ t ∈ keys a0.edges, t.label < p.nLabels) {s : SPreSt T σ} (h : SPreT p a0 H K s) :
    ∀ t ∈ keys s.aut.edges, t.label < p.nLabels := by
  have := built_labels hw h.built (by rw [keys_bare]; exact hl)
  rwa [keys_bare] at this

theorem spreDelta_keeps (hw : p.WF) (hn : (keys a0.edges).Nodup) (hl : ∀ t ∈ keys a0.edges, t.label < p.nLabels) {t : Tr}
    (ht : t ∈ K) (w : T) {s : SPreSt T σ} (h : SPreT p a0 H K s) {d : Nat × Nat}
    (hd : ∃ r l, (p.st d.1).rules[d.2]? = some (r, l) ∧ r.op = .push ∧ ⟨r.to, r.opLabel, t.src⟩ ∈ K) :
    SPreT p a0 H K (spreDelta val p t w s d) := by
  obtain ⟨r, l, h1, h2, h3⟩ := hd
  unfold spreDelta
  rw [h1]
  dsimp only
  split
  · rename_i hc
    split
    · exact { h with }
    · exact spreInsert_keeps hn h _
        (.push h1 ((hw.mem_expand (List.mem_of_getElem? h1) _).2 ⟨hc, h.labels hw hl t (h.sub t ht)⟩) h2 h3 ht)
  · exact h

theorem spreRule_keeps (hw : p.WF) (hn : (keys a0.edges).Nodup) (hl : ∀ t ∈ keys a0.edges, t.label < p.nLabels) {t : Tr}
    (ht : t ∈ K) (w : T) {s : SPreSt T σ} (h : SPreT p a0 H K s) {pre : Nat} {y : Nat × Rule W × Labels}
    (hy : y ∈ p.rulesInto pre t.src) : SPreT p a0 H K (spreRule val p t w pre s y) := by
  obtain ⟨id, r, l⟩ := y
  obtain ⟨h1, h2, _⟩ := (Pda.mem_rulesInto hw _ _ _ _ _).1 hy
  unfold spreRule
  dsimp only
  split
  · rename_i hop
    split
    · exact h
    · refine spreBulk_keeps hn h _ fun g hg => ?_
      rw [← h2]
      exact .pop h1 hg hop
  · rename_i hop
    split
    · rename_i ho
      refine spreBulk_keeps hn h _ fun g hg => .swap h1 hg hop ?_
      rw [h2, ho]; exact ht
    · exact h
  · rename_i hop
    split
    · rename_i hc
      refine spreInsert_keeps hn h _ (.noop h1 ?_ hop (by rw [h2]; exact ht))
      exact (hw.mem_expand (List.mem_of_getElem? h1) _).2 ⟨hc, h.labels hw hl t (h.sub t ht)⟩
    · exact h
  · rename_i hop
    split
    · rename_i ho
      have hin : ⟨r.to, r.opLabel, t.dst⟩ ∈ K := by rw [h2, ho]; exact ht
      have h0 : SPreT p a0 H K { s with dp := s.dp ++ [(t.dst, pre, id)] } := by
        refine { h with dp := ?_ }
        intro q st i hm
        rcases List.mem_append.1 hm with hm | hm
        · exact h.dp q st i hm
        · cases List.mem_singleton.1 hm
          exact ⟨r, l, h1, hop, h.sub _ hin⟩
      refine h0.back ?_
      refine foldl_stays (SPreT p a0 H (keys s.aut.edges)) _ (fun s' u hu h' => ?_) _ h0.self
      have hu' : u ∈ keys s.aut.edges ∧ u.src = t.dst := by
        simp only [SPreSt.relAt, List.mem_filter, beq_iff_eq] at hu
        exact ⟨h.rel u hu.1, hu.2⟩
      unfold spreRel
      split
      · rename_i hc
        split
        · exact { h' with }
        · refine spreInsert_keeps hn h' _ (.push h1 ?_ hop (h.sub _ hin) ?_)
          · exact (hw.mem_expand (List.mem_of_getElem? h1) _).2 ⟨hc, h.labels hw hl u hu'.1⟩
          · rw [← hu'.2]; exact hu'.1
      · exact h'
    · exact h

theorem spreBody_keeps (hw : p.WF) (hn : (keys a0.edges).Nodup) (hl : ∀ t ∈ keys a0.edges, t.label < p.nLabels) {t : Tr}
    (w : T) {s : SPreSt T σ} (h : SPreT p a0 H K s) (ht : t ∈ keys s.aut.edges) : SPreT p a0 H K (spreBody val p t w s) := by
  unfold spreBody
  refine h.back ?_
  have h0 : SPreT p a0 H (keys s.aut.edges) { s with rel := s.rel ++ [t] } := by
    refine { h.self with rel := ?_ }
    intro u hu
    rcases List.mem_append.1 hu with hu | hu
    · exact h.rel u hu
    · rw [List.mem_singleton.1 hu]; exact ht
  have h1 : SPreT p a0 H (keys s.aut.edges) (({ s with rel := s.rel ++ [t] } : SPreSt T σ).dpAt t.src |>.foldl (spreDelta val p t w)
      { s with rel := s.rel ++ [t] }) := by
    refine foldl_stays (SPreT p a0 H (keys s.aut.edges)) _ (fun s' d hd h' => ?_) _ h0
    refine spreDelta_keeps hw hn hl ht w h' ?_
    simp only [SPreSt.dpAt, List.mem_map, List.mem_filter, beq_iff_eq] at hd
    obtain ⟨⟨q, st, id⟩, ⟨h2, h3⟩, rfl⟩ := hd
    dsimp only at h3
    subst h3
    exact h.dp _ _ _ h2
  dsimp only
  split
  · exact h1
  · have h2 := foldl_stays (f := fun s pre => (p.rulesInto pre t.src).foldl (spreRule val p t w pre) s)
      (SPreT p a0 H (keys s.aut.edges)) (p.st t.src).preStates
      (fun s' pre _ h' => foldl_stays (SPreT p a0 H (keys s.aut.edges)) _
        (fun s'' y hy h'' => spreRule_keeps hw hn hl ht w h'' hy) s' h') _ h1
    exact { h2 with }

theorem spreStepWith_keeps (hw : p.WF) (hn : (keys a0.edges).Nodup) (hl : ∀ t ∈ keys a0.edges, t.label < p.nLabels)
    {cb : SCallback T σ} (hcb : ∀ a s t an k, a.acc = a0.acc → (cb a s t an k).2 = true → H t) (et : Bool)
    (junk : Nat → Bool) {s : SPreSt T σ} (h : SPreT p a0 H K s) {e : ShElem T} (he : e.edge ∈ keys s.aut.edges) : SPreT p a0 H K (spreStepWith val cb et junk p s e) := by
  unfold spreStepWith
  split
  · exact { h with }
  · rename_i w _
    have h1 : SPreT p a0 H K (spreSeen junk p s e) := { h with }
    dsimp only
    split
    · exact h1
    · have h2 : SPreT p a0 H K (spreCall cb et (spreSeen junk p s e) e w) := by
        unfold spreCall
        split
        · refine { h1 with hit := fun hf => ?_ }
          dsimp only at hf
          rw [Bool.or_eq_true] at hf
          rcases hf with hf | hf
          · exact ⟨_, he, hcb _ _ _ _ _ h1.acc hf⟩
          · exact h1.hit hf
        · exact h1
      have hee : e.edge ∈ keys (spreCall cb et (spreSeen junk p s e) e w).aut.edges := by
        unfold spreCall
        split <;> exact he
      have h3 : SPreT p a0 H K (spreBody val p e.edge w (spreCall cb et (spreSeen junk p s e) e w)) := by
        refine spreBody_keeps hw hn hl w h2 ?_
        exact hee
      have hin : e.edge ∈ keys (spreBody val p e.edge w (spreCall cb et (spreSeen junk p s e) e w)).aut.edges :=
        (spreBody_keeps hw hn hl w h2.self hee).sub _ hee
      split
      · exact h3
      · unfold spreFlush
        split
        · exact { h3 with hit := fun hf => ⟨_, hin, hcb _ _ _ _ _ h3.acc hf⟩ }
        · exact h3

/-- Whatever the weights and the callback are, at every time the automaton consists of the input and justified
transitions. -/
theorem spre_built (hw : p.WF) (hn : (keys a0.edges).Nodup) (hl : ∀ t ∈ keys a0.edges, t.label < p.nLabels)
    (hp : Heap (ShElem T) (WithTop T) ShElem.key) (h : HashOrder) {cb : SCallback T σ}
    (hcb : ∀ a s t an k, a.acc = a0.acc → (cb a s t an k).2 = true → H t) (et : Bool) (junk : Nat → Bool)
    {e : σ} {fuel : Nat} {s : SPreSt T σ} (hs : preStarShortest val hp h cb et junk p a0 e fuel = some s) :
    SPreT p a0 H (keys a0.edges) s := by
  refine (whileSome_inv (I := SPreT p a0 H (keys a0.edges)) ?_ (spreInit_keeps hw hn h e) hs).1
  intro s s' h1 h2
  unfold spreStep at h2
  split at h2
  · cases h2
  · obtain ⟨⟨x, r⟩, hx, rfl⟩ := Option.map_eq_some_iff.1 h2
    have hperm := (hp.spec _ _ _ hx).1
    have h1' : SPreT p a0 H (keys a0.edges) { s with ws := r } :=
      { h1 with ws := fun e he => h1.ws e (hperm.mem_iff.1 (List.mem_cons_of_mem _ he)) }
    exact spreStepWith_keeps hw hn hl hcb et junk h1' (h1.ws x (hperm.mem_iff.1 List.mem_cons_self))

end

end Verif
