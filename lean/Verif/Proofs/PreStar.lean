import Verif.Model.PreStar
import Verif.Proofs.Pda
import Verif.Proofs.Built

/-! # pre*: invariants of the saturation loop -/

namespace Verif

variable {W σ : Type}

section
variable [Zero W]

/-! ## Insertions -/

theorem preInsert_frame (cb : Callback W σ) (s : PreSt W σ) (r : Tr × Trace) :
    (preInsert cb s r).rel = s.rel ∧ (preInsert cb s r).dp = s.dp ∧
      (preInsert cb s r).popped = s.popped ∧ (preInsert cb s r).aut.acc = s.aut.acc := by
  unfold preInsert
  split
  · simp
  · rename_i h
    simp only
    split <;> simp [Aut.emplaceEdge, h]

theorem preInsertAll_frame (cb : Callback W σ) (rs : List (Tr × Trace)) (s : PreSt W σ) :
    (preInsertAll cb s rs).rel = s.rel ∧ (preInsertAll cb s rs).dp = s.dp ∧
      (preInsertAll cb s rs).popped = s.popped ∧ (preInsertAll cb s rs).aut.acc = s.aut.acc := by
  induction rs generalizing s with
  | nil => simp [preInsertAll]
  | cons r rs ih =>
    have h1 := ih (preInsert cb s r)
    have h2 := preInsert_frame cb s r
    simp only [preInsertAll, List.foldl_cons] at h1 ⊢
    simp [h1, h2]

theorem preInsertAll_append (cb : Callback W σ) (s : PreSt W σ) (r1 r2 : List (Tr × Trace)) :
    preInsertAll cb s (r1 ++ r2) = preInsertAll cb (preInsertAll cb s r1) r2 := by
  simp [preInsertAll, List.foldl_append]

theorem preInsert_dp (cb : Callback W σ) (s : PreSt W σ) (r : Tr × Trace)
    (d : List (Nat × Nat × Nat)) :
    preInsert cb { s with dp := d } r = { preInsert cb s r with dp := d } := by
  unfold preInsert
  split
  · rfl
  · simp only
    split <;> rfl

theorem preInsertAll_dp (cb : Callback W σ) (rs : List (Tr × Trace)) (s : PreSt W σ)
    (d : List (Nat × Nat × Nat)) :
    preInsertAll cb { s with dp := d } rs = { preInsertAll cb s rs with dp := d } := by
  induction rs generalizing s with
  | nil => rfl
  | cons r rs ih =>
    simp only [preInsertAll, List.foldl_cons] at ih ⊢
    rw [preInsert_dp, ih]

/-- A loop whose body performs the insertions `g x` and appends `d x` to `dp` performs all of them in
order. -/
theorem preFold_eq {α : Type} (cb : Callback W σ) (f : PreSt W σ → α → PreSt W σ)
    (g : α → List (Tr × Trace)) (d : α → List (Nat × Nat × Nat)) (rel : List Tr) (pop : List Nat)
    (hf : ∀ s x, s.rel = rel → s.popped = pop →
      f s x = { preInsertAll cb s (g x) with dp := s.dp ++ d x })
    (l : List α) (s : PreSt W σ) (hrel : s.rel = rel) (hpop : s.popped = pop) :
    l.foldl f s = { preInsertAll cb s (l.flatMap g) with dp := s.dp ++ l.flatMap d } := by
  induction l generalizing s with
  | nil => simp [preInsertAll]
  | cons x l ih =>
    rw [List.foldl_cons, hf s x hrel hpop, ih]
    · simp only [List.flatMap_cons]
      rw [preInsertAll_append, preInsertAll_dp]
      simp [List.append_assoc]
    · rw [← hrel]; exact (preInsertAll_frame cb _ s).1
    · rw [← hpop]; exact (preInsertAll_frame cb _ s).2.2.1

theorem preFold_eq' {α : Type} (cb : Callback W σ) (f : PreSt W σ → α → PreSt W σ)
    (g : α → List (Tr × Trace)) (hf : ∀ s x, f s x = preInsertAll cb s (g x))
    (l : List α) (s : PreSt W σ) : l.foldl f s = preInsertAll cb s (l.flatMap g) := by
  induction l generalizing s with
  | nil => simp [preInsertAll]
  | cons x l ih =>
    rw [List.foldl_cons, hf, ih, List.flatMap_cons, preInsertAll_append]

/-- What one insertion does to the set of transitions and the workset. -/
theorem preInsert_keys (cb : Callback W σ) (s : PreSt W σ) (r : Tr × Trace) (t : Tr) :
    (t ∈ keys (preInsert cb s r).aut.edges ↔ t ∈ keys s.aut.edges ∨ t = r.1) ∧
    (t ∈ (preInsert cb s r).ws ↔ t ∈ s.ws ∨ (t = r.1 ∧ t ∉ keys s.aut.edges)) := by
  unfold preInsert
  by_cases h : s.aut.hasEdge r.1 = true
  · rw [if_pos h]
    rw [Aut.hasEdge_iff] at h
    refine ⟨⟨.inl, ?_⟩, ⟨.inl, ?_⟩⟩
    · rintro (h1 | rfl)
      · exact h1
      · exact h
    · rintro (h1 | ⟨rfl, h1⟩)
      · exact h1
      · exact absurd h h1
  · rw [if_neg h]
    have h' := h
    rw [Aut.hasEdge_iff] at h'
    simp only
    have hk : ∀ t, t ∈ keys ((r.1, ((r.2, 0) : Ann W)) :: s.aut.edges) ↔ t ∈ keys s.aut.edges ∨ t = r.1 := by
      intro t; simp [keys, or_comm]
    split <;> simp only [Aut.emplaceEdge, h, Bool.false_eq_true, if_false, hk, List.mem_cons, true_and] <;>
      grind

theorem preInsertAll_keys (cb : Callback W σ) (rs : List (Tr × Trace)) (s : PreSt W σ) (t : Tr) :
    (t ∈ keys (preInsertAll cb s rs).aut.edges ↔ t ∈ keys s.aut.edges ∨ t ∈ rs.map Prod.fst) ∧
    (t ∈ (preInsertAll cb s rs).ws ↔
      t ∈ s.ws ∨ (t ∈ rs.map Prod.fst ∧ t ∉ keys s.aut.edges)) := by
  induction rs generalizing s with
  | nil => simp [preInsertAll]
  | cons r rs ih =>
    have h1 := ih (preInsert cb s r)
    have h2 := preInsert_keys cb s r t
    simp only [preInsertAll, List.foldl_cons] at h1 ⊢
    rw [h1.1, h1.2, h2.1, h2.2]
    simp only [List.map_cons, List.mem_cons]
    grind

/-- Every insertion that lengthens the workset also lengthens the transition list. -/
theorem preInsert_len (cb : Callback W σ) (s : PreSt W σ) (r : Tr × Trace) :
    (preInsert cb s r).aut.edges.length + s.ws.length =
      s.aut.edges.length + (preInsert cb s r).ws.length ∧
    s.aut.edges.length ≤ (preInsert cb s r).aut.edges.length := by
  unfold preInsert
  split
  · simp
  · rename_i h
    simp only
    split <;> simp [Aut.emplaceEdge, h] <;> omega

theorem preInsertAll_len (cb : Callback W σ) (rs : List (Tr × Trace)) (s : PreSt W σ) :
    (preInsertAll cb s rs).aut.edges.length + s.ws.length =
      s.aut.edges.length + (preInsertAll cb s rs).ws.length ∧
    s.aut.edges.length ≤ (preInsertAll cb s rs).aut.edges.length := by
  induction rs generalizing s with
  | nil => simp [preInsertAll]
  | cons r rs ih =>
    have h1 := ih (preInsert cb s r)
    have h2 := preInsert_len cb s r
    simp only [preInsertAll, List.foldl_cons] at h1 ⊢
    omega

theorem preInsert_built {J : (Tr → Prop) → Tr → Trace → Prop}
    {E0 : List (AEdge W)} (cb : Callback W σ) (s : PreSt W σ) (r : Tr × Trace)
    (hb : Built J E0 s.aut.edges) (hj : J (· ∈ keys s.aut.edges) r.1 r.2) :
    Built J E0 (preInsert cb s r).aut.edges := by
  unfold preInsert
  split
  · exact hb
  · rename_i h
    have h' := h
    rw [Aut.hasEdge_iff] at h'
    have hc : Built J E0 ((r.1, ((r.2, 0) : Ann W)) :: s.aut.edges) := .cons hb h' hj
    simp only
    split <;> simpa [Aut.emplaceEdge, h] using hc

theorem preInsertAll_built {J : (Tr → Prop) → Tr → Trace → Prop}
    (hmono : ∀ P Q : Tr → Prop, (∀ t, P t → Q t) → ∀ t tr, J P t tr → J Q t tr)
    {E0 : List (AEdge W)} (cb : Callback W σ) (rs : List (Tr × Trace)) (s : PreSt W σ)
    (hb : Built J E0 s.aut.edges) (hj : ∀ r ∈ rs, J (· ∈ keys s.aut.edges) r.1 r.2) :
    Built J E0 (preInsertAll cb s rs).aut.edges := by
  induction rs generalizing s with
  | nil => exact hb
  | cons r rs ih =>
    refine ih (preInsert cb s r) (preInsert_built cb s r hb (hj r (by simp))) fun r' hr' => ?_
    exact hmono _ _ (fun t ht => ((preInsert_keys cb s r t).1).2 (.inl ht)) _ _ (hj r' (by simp [hr']))

/-- The early-termination flag agrees with the callback's specification. -/
def FoundOK (Good : Aut W → σ → Prop) (Hit : Aut W → σ → Prop) (a : Aut W) (e : σ) (found : Bool) : Prop :=
  (found = false → Good a e) ∧ (found = true → Hit a e)

theorem preInsert_found {cb : Callback W σ} {V : Tr → Prop} {Good : Aut W → σ → Prop}
    {Hit : Aut W → σ → Prop} (hcb : CbSpec cb V Good Hit) (s : PreSt W σ) (r : Tr × Trace) (hv : V r.1)
    (h : FoundOK Good Hit s.aut s.ext s.found) :
    FoundOK Good Hit (preInsert cb s r).aut (preInsert cb s r).ext (preInsert cb s r).found := by
  unfold preInsert
  split
  · exact h
  · rename_i hn
    have hn' := hn
    rw [Aut.hasEdge_iff] at hn'
    simp only [Aut.emplaceEdge, hn, Bool.false_eq_true, if_false]
    by_cases hf : s.found = true
    · simp only [hf, if_true]
      exact ⟨fun h1 => by simp at h1, fun _ => hcb.mono _ _ _ (h.2 hf)⟩
    · have hf' : s.found = false := by simpa using hf
      simp only [hf', Bool.false_eq_true, if_false]
      have := hcb.step s.aut s.ext r.1 (r.2, 0) (h.1 hf') hn' hv
      exact ⟨this.2, this.1⟩

theorem preInsertAll_found {cb : Callback W σ} {V : Tr → Prop} {Good : Aut W → σ → Prop}
    {Hit : Aut W → σ → Prop} (hcb : CbSpec cb V Good Hit) (rs : List (Tr × Trace)) (s : PreSt W σ)
    (hv : ∀ r ∈ rs, V r.1) (h : FoundOK Good Hit s.aut s.ext s.found) :
    FoundOK Good Hit (preInsertAll cb s rs).aut (preInsertAll cb s rs).ext
      (preInsertAll cb s rs).found := by
  induction rs generalizing s with
  | nil => exact h
  | cons r rs ih =>
    exact ih _ (fun r' hr' => hv r' (by simp [hr'])) (preInsert_found hcb s r (hv r (by simp)) h)

end

/-! ## The loops as request lists -/

section
variable [Zero W] [LinearOrder W]

/-- The insertions made by `add_pop`. -/
def popReqs (p : Pda W) (q : Nat) : List (Tr × Trace) :=
  (p.st q).preStates.flatMap fun pre => (p.rulesInto pre q).flatMap fun x =>
    if x.2.1.op = .pop then bulk p pre x.2.2 q (Trace.pre x.1) else []

theorem addPop_eq (p : Pda W) (cb : Callback W σ) (s : PreSt W σ) (q : Nat) :
    addPop p cb s q = if q ≥ p.size then s else if s.popped.contains q then s else
      { preInsertAll cb s (popReqs p q) with popped := q :: s.popped } := by
  unfold addPop
  split
  · rfl
  split
  · rfl
  simp only
  have h : (p.st q).preStates.foldl (fun s pre => (p.rulesInto pre q).foldl (fun s x =>
      if x.2.1.op = .pop then preInsertAll cb s (bulk p pre x.2.2 q (Trace.pre x.1)) else s) s) s
      = preInsertAll cb s (popReqs p q) := by
    unfold popReqs
    apply preFold_eq'
    intro s pre
    apply preFold_eq'
    intro s x
    split
    · rfl
    · simp [preInsertAll]
  rw [h, (preInsertAll_frame cb _ s).2.2.1]

/-- The insertions made for one rule into `t.src`. -/
def ruleReqs (p : Pda W) (t : Tr) (popped : List Nat) (rel : List Tr) (pre : Nat)
    (x : Nat × Rule W × Labels) : List (Tr × Trace) :=
  match x.2.1.op with
  | .pop => if popped.contains t.src then [] else bulk p pre x.2.2 t.src (Trace.pre x.1)
  | .swap => if x.2.1.opLabel = t.label then bulk p pre x.2.2 t.dst (Trace.pre x.1) else []
  | .noop => if x.2.2.contains t.label then [(⟨pre, t.label, t.dst⟩, Trace.pre x.1)] else []
  | .push =>
    if x.2.1.opLabel = t.label then
      (rel.filter fun u => u.src == t.dst).flatMap fun u =>
        if x.2.2.contains u.label then [(⟨pre, u.label, u.dst⟩, Trace.preTemp x.1 t.dst)] else []
    else []

/-- The entries added to `_delta_prime` for one rule into `t.src`. -/
def ruleDps (t : Tr) (pre : Nat) (x : Nat × Rule W × Labels) : List (Nat × Nat × Nat) :=
  match x.2.1.op with
  | .push => if x.2.1.opLabel = t.label then [(t.dst, pre, x.1)] else []
  | _ => []

theorem preRule_eq (p : Pda W) (cb : Callback W σ) (t : Tr) (pre : Nat) (s : PreSt W σ)
    (x : Nat × Rule W × Labels) :
    preRule p cb t pre s x =
      { preInsertAll cb s (ruleReqs p t s.popped s.rel pre x) with dp := s.dp ++ ruleDps t pre x } := by
  have hself : ∀ rs, ({ preInsertAll cb s rs with dp := s.dp } : PreSt W σ) = preInsertAll cb s rs := by
    intro rs
    have h := (preInsertAll_frame cb rs s).2.1
    generalize preInsertAll cb s rs = s' at h ⊢
    cases s'; simp_all
  unfold preRule ruleReqs ruleDps
  cases x.2.1.op
  · -- push
    simp only
    split
    · simp only [PreSt.relAt]
      rw [preFold_eq' cb _ (fun u => if x.2.2.contains u.label = true then
        [(⟨pre, u.label, u.dst⟩, Trace.preTemp x.1 t.dst)] else [])]
      · rw [preInsertAll_dp]
      · intro s u
        split <;> simp [preInsertAll]
    · simp [preInsertAll]
  · -- pop
    simp only [List.append_nil, hself]
    split <;> simp [preInsertAll]
  · simp only [List.append_nil, hself]
    split <;> simp [preInsertAll]
  · simp only [List.append_nil, hself]
    split <;> simp [preInsertAll]

/-- The insertion made for one element of `_delta_prime[t._from]`. -/
def dpReq (p : Pda W) (t : Tr) (x : Nat × Nat) : List (Tr × Trace) :=
  match (p.st x.1).rules[x.2]? with
  | some (_, l) =>
    if l.contains t.label then [(⟨x.1, t.label, t.dst⟩, Trace.preTemp x.2 t.src)] else []
  | none => []

/-- The insertions made by the loop over `_delta_prime[t._from]`. -/
def dpReqs (p : Pda W) (t : Tr) (dp : List (Nat × Nat × Nat)) : List (Tr × Trace) :=
  ((dp.filter fun x => x.1 == t.src).map Prod.snd).flatMap (dpReq p t)

/-- All insertions made by the loops over the rules into `t._from`. -/
def intoReqs (p : Pda W) (t : Tr) (popped : List Nat) (rel : List Tr) : List (Tr × Trace) :=
  (p.st t.src).preStates.flatMap fun pre => (p.rulesInto pre t.src).flatMap fun x =>
    ruleReqs p t popped rel pre x

/-- All entries added to `_delta_prime` by the loops over the rules into `t._from`. -/
def intoDps (p : Pda W) (t : Tr) : List (Nat × Nat × Nat) :=
  (p.st t.src).preStates.flatMap fun pre => (p.rulesInto pre t.src).flatMap fun x => ruleDps t pre x

theorem preStep_eq (p : Pda W) (cb : Callback W σ) (s : PreSt W σ) (t : Tr) (ws : List Tr)
    (hws : s.ws = t :: ws) :
    preStep p cb s =
      if t.src ≥ p.size then
        preInsertAll cb { s with ws := ws, rel := s.rel ++ [t] } (dpReqs p t s.dp)
      else
        { preInsertAll cb { s with ws := ws, rel := s.rel ++ [t] }
            (dpReqs p t s.dp ++ intoReqs p t s.popped (s.rel ++ [t])) with
          dp := s.dp ++ intoDps p t, popped := t.src :: s.popped } := by
  unfold preStep
  rw [hws]
  simp only
  have h1 : (PreSt.dpAt { s with ws := ws, rel := s.rel ++ [t] } t.src).foldl (preDelta p cb t)
      { s with ws := ws, rel := s.rel ++ [t] } =
      preInsertAll cb { s with ws := ws, rel := s.rel ++ [t] } (dpReqs p t s.dp) := by
    unfold dpReqs
    apply preFold_eq' cb
    intro s x
    unfold preDelta dpReq
    split
    · rename_i h
      simp only [h]
      split <;> simp [preInsertAll]
    · rename_i h
      simp [h, preInsertAll]
  rw [h1]
  split
  · rfl
  · have hfr := preInsertAll_frame cb (dpReqs p t s.dp) { s with ws := ws, rel := s.rel ++ [t] }
    rw [preFold_eq cb _ (fun pre => (p.rulesInto pre t.src).flatMap fun x =>
        ruleReqs p t s.popped (s.rel ++ [t]) pre x)
        (fun pre => (p.rulesInto pre t.src).flatMap fun x => ruleDps t pre x)
        (s.rel ++ [t]) s.popped _ _ _ hfr.1 hfr.2.2.1]
    · rw [preInsertAll_append]
      have h2 := preInsertAll_frame cb (intoReqs p t s.popped (s.rel ++ [t]))
        (preInsertAll cb { s with ws := ws, rel := s.rel ++ [t] } (dpReqs p t s.dp))
      simp only [intoReqs] at h2 ⊢
      simp only [h2.2.2.1, hfr.2.2.1, hfr.2.1, intoDps]
    · intro s' pre hr hp
      rw [preFold_eq cb _ (fun x => ruleReqs p t s.popped (s.rel ++ [t]) pre x)
        (fun x => ruleDps t pre x) (s.rel ++ [t]) s.popped _ _ _ hr hp]
      intro s'' x hr' hp'
      rw [preRule_eq, hr', hp']

end

end Verif
