import Verif.Model.PostStar
import Verif.Proofs.PreInv
import Verif.Proofs.AutOps

/-! # post*: the loops as request lists, and the loop invariant -/

namespace Verif

variable {W σ : Type}

/-! ## The added states -/

/-- What `initialize` guarantees about `_q_prime`. -/
structure QOK (p : Pda W) (nQ N : Nat) (qp : List ((Nat × Nat) × Nat)) : Prop where
  range : ∀ (i : Nat) (r : Rule W) (l : Labels), (r, l) ∈ (p.st i).rules → r.op = .push →
    nQ ≤ qFind qp (r.to, r.opLabel) ∧ qFind qp (r.to, r.opLabel) < N
  inj : ∀ (i i' : Nat) (r r' : Rule W) (l l' : Labels), (r, l) ∈ (p.st i).rules → r.op = .push →
    (r', l') ∈ (p.st i').rules → r'.op = .push →
    qFind qp (r.to, r.opLabel) = qFind qp (r'.to, r'.opLabel) → r.to = r'.to ∧ r.opLabel = r'.opLabel

/-- The state of the loop that fills `_q_prime`. -/
structure QInv (a : Aut W) (s : Aut W × List ((Nat × Nat) × Nat)) : Prop where
  acc : s.1.acc = a.acc ++ List.replicate s.2.length false
  edges : s.1.edges = a.edges
  ids : ∀ i x, s.2[i]? = some x → x.2 = a.n + i
  nodup : (s.2.map Prod.fst).Nodup

theorem qAdd_inv {a : Aut W} {s : Aut W × List ((Nat × Nat) × Nat)} (h : QInv a s) (r : Rule W) :
    QInv a (qAdd s r) ∧ (∀ k ∈ s.2.map Prod.fst, k ∈ (qAdd s r).2.map Prod.fst) ∧
      (r.op = .push → (r.to, r.opLabel) ∈ (qAdd s r).2.map Prod.fst) := by
  unfold qAdd
  split
  · rename_i hop
    split
    · rename_i hs
      refine ⟨h, fun _ hk => hk, fun _ => ?_⟩
      rw [List.find?_isSome] at hs
      obtain ⟨x, h1, h2⟩ := hs
      exact List.mem_map.2 ⟨x, h1, by simpa using h2⟩
    · rename_i hs
      have hn : (r.to, r.opLabel) ∉ s.2.map Prod.fst := by
        intro hm
        obtain ⟨x, h1, h2⟩ := List.mem_map.1 hm
        exact hs (List.find?_isSome.2 ⟨x, h1, by simp [h2]⟩)
      refine ⟨⟨?_, h.edges, ?_, ?_⟩, ?_, ?_⟩
      · simp [Aut.addState, h.acc, List.replicate_succ']
      · intro i x hx
        simp only [List.getElem?_append] at hx
        split at hx
        · exact h.ids i x hx
        · rename_i hi
          have hi0 : i - s.2.length = 0 := by
            by_contra h0
            rw [List.getElem?_eq_none (by simp; omega)] at hx
            simp at hx
          rw [hi0] at hx
          simp only [List.getElem?_cons_zero, Option.some.injEq] at hx
          subst hx
          show s.1.n = a.n + i
          have : s.1.n = a.n + s.2.length := by simp [Aut.n, h.acc]
          omega
      · rw [List.map_append, List.nodup_append]
        refine ⟨h.nodup, by simp, ?_⟩
        intro k hk k' hk' heq
        simp only [List.map_cons, List.map_nil, List.mem_singleton] at hk'
        subst hk' heq
        exact hn hk
      · intro k hk; rw [List.map_append]; exact List.mem_append_left _ hk
      · intro _; simp
  · rename_i hop
    exact ⟨h, fun _ hk => hk, fun h1 => absurd h1 hop⟩

theorem qRules_inv {a : Aut W} (rs : List (Rule W × Labels)) {s : Aut W × List ((Nat × Nat) × Nat)}
    (h : QInv a s) :
    QInv a (rs.foldl (fun s x => qAdd s x.1) s) ∧
      (∀ k ∈ s.2.map Prod.fst, k ∈ (rs.foldl (fun s x => qAdd s x.1) s).2.map Prod.fst) ∧
      ∀ x ∈ rs, x.1.op = .push →
        (x.1.to, x.1.opLabel) ∈ (rs.foldl (fun s x => qAdd s x.1) s).2.map Prod.fst := by
  induction rs generalizing s with
  | nil => exact ⟨h, fun _ hk => hk, by simp⟩
  | cons x rs ih =>
    obtain ⟨h1, h2, h3⟩ := qAdd_inv h x.1
    obtain ⟨g1, g2, g3⟩ := ih h1
    rw [List.foldl_cons]
    refine ⟨g1, fun k hk => g2 k (h2 k hk), fun y hy hop => ?_⟩
    rcases List.mem_cons.1 hy with rfl | hy
    · exact g2 _ (h3 hop)
    · exact g3 y hy hop

theorem qInit_inv (p : Pda W) (a : Aut W) :
    QInv a (qInit p a) ∧ ∀ st ∈ p.states, ∀ x ∈ st.rules, x.1.op = .push →
      (x.1.to, x.1.opLabel) ∈ (qInit p a).2.map Prod.fst := by
  unfold qInit
  have key : ∀ (sts : List (PState W)) (s : Aut W × List ((Nat × Nat) × Nat)), QInv a s →
      QInv a (sts.foldl (fun s st => st.rules.foldl (fun s x => qAdd s x.1) s) s) ∧
      (∀ k ∈ s.2.map Prod.fst,
        k ∈ (sts.foldl (fun s st => st.rules.foldl (fun s x => qAdd s x.1) s) s).2.map Prod.fst) ∧
      ∀ st ∈ sts, ∀ x ∈ st.rules, x.1.op = .push → (x.1.to, x.1.opLabel) ∈
        (sts.foldl (fun s st => st.rules.foldl (fun s x => qAdd s x.1) s) s).2.map Prod.fst := by
    intro sts
    induction sts with
    | nil => intro s h; exact ⟨h, fun _ hk => hk, by simp⟩
    | cons st sts ih =>
      intro s h
      obtain ⟨h1, h2, h3⟩ := qRules_inv st.rules h
      obtain ⟨g1, g2, g3⟩ := ih _ h1
      rw [List.foldl_cons]
      refine ⟨g1, fun k hk => g2 k (h2 k hk), fun y hy x hx hop => ?_⟩
      rcases List.mem_cons.1 hy with rfl | hy
      · exact g2 _ (h3 x hx hop)
      · exact g3 y hy x hx hop
  obtain ⟨h1, _, h3⟩ := key p.states (a, []) ⟨by simp, rfl, by simp, by simp⟩
  exact ⟨h1, h3⟩

theorem qInit_keys (p : Pda W) (a : Aut W) : ∀ k ∈ (qInit p a).2.map Prod.fst,
    ∃ st ∈ p.states, ∃ x ∈ st.rules, x.1.op = .push ∧ (x.1.to, x.1.opLabel) = k := by
  unfold qInit
  have hadd : ∀ (s : Aut W × List ((Nat × Nat) × Nat)) (r : Rule W), ∀ k ∈ (qAdd s r).2.map Prod.fst,
      k ∈ s.2.map Prod.fst ∨ (r.op = .push ∧ (r.to, r.opLabel) = k) := by
    intro s r k hk
    unfold qAdd at hk
    split at hk
    · rename_i hop
      split at hk
      · exact .inl hk
      · rw [List.map_append, List.mem_append] at hk
        rcases hk with hk | hk
        · exact .inl hk
        · exact .inr ⟨hop, by simp at hk; exact hk.symm⟩
    · exact .inl hk
  have hrules : ∀ (rs : List (Rule W × Labels)) (s : Aut W × List ((Nat × Nat) × Nat)),
      ∀ k ∈ (rs.foldl (fun s x => qAdd s x.1) s).2.map Prod.fst,
      k ∈ s.2.map Prod.fst ∨ ∃ x ∈ rs, x.1.op = .push ∧ (x.1.to, x.1.opLabel) = k := by
    intro rs
    induction rs with
    | nil => intro s k hk; exact .inl hk
    | cons x rs ih =>
      intro s k hk
      rw [List.foldl_cons] at hk
      rcases ih _ k hk with h1 | ⟨y, h1, h2⟩
      · rcases hadd s x.1 k h1 with h2 | h2
        · exact .inl h2
        · exact .inr ⟨x, by simp, h2⟩
      · exact .inr ⟨y, by simp [h1], h2⟩
  have hall : ∀ (sts : List (PState W)) (s : Aut W × List ((Nat × Nat) × Nat)),
      ∀ k ∈ (sts.foldl (fun s st => st.rules.foldl (fun s x => qAdd s x.1) s) s).2.map Prod.fst,
      k ∈ s.2.map Prod.fst ∨
        ∃ st ∈ sts, ∃ x ∈ st.rules, x.1.op = .push ∧ (x.1.to, x.1.opLabel) = k := by
    intro sts
    induction sts with
    | nil => intro s k hk; exact .inl hk
    | cons st sts ih =>
      intro s k hk
      rw [List.foldl_cons] at hk
      rcases ih _ k hk with h1 | ⟨y, h1, h2⟩
      · rcases hrules st.rules s k h1 with h2 | h2
        · exact .inl h2
        · exact .inr ⟨st, by simp, h2⟩
      · exact .inr ⟨y, by simp [h1], h2⟩
  intro k hk
  rcases hall p.states (a, []) k hk with h1 | h1
  · simp at h1
  · exact h1

theorem qFind_spec {a : Aut W} {s : Aut W × List ((Nat × Nat) × Nat)} (h : QInv a s) {k : Nat × Nat}
    (hk : k ∈ s.2.map Prod.fst) : ∃ i, s.2[i]? = some (k, qFind s.2 k) ∧ qFind s.2 k = a.n + i := by
  unfold qFind
  cases hf : s.2.find? fun x => x.1 == k with
  | none =>
    rw [List.find?_eq_none] at hf
    obtain ⟨x, h1, h2⟩ := List.mem_map.1 hk
    exact absurd (by simp [h2]) (hf x h1)
  | some x =>
    have h1 := List.mem_of_find?_eq_some hf
    have h2 := List.find?_some hf
    have h2 : x.1 = k := by simpa using h2
    obtain ⟨i, hi⟩ := List.mem_iff_getElem?.1 h1
    refine ⟨i, ?_, ?_⟩
    · rw [hi, ← h2]; rfl
    · exact h.ids i x hi

theorem qInit_ok (p : Pda W) (a : Aut W) : QOK p a.n (qInit p a).1.n (qInit p a).2 := by
  obtain ⟨h1, h2⟩ := qInit_inv p a
  have hn : (qInit p a).1.n = a.n + (qInit p a).2.length := by simp [Aut.n, h1.acc]
  have hmem : ∀ (i : Nat) (r : Rule W) (l : Labels), (r, l) ∈ (p.st i).rules → r.op = .push →
      (r.to, r.opLabel) ∈ (qInit p a).2.map Prod.fst := by
    intro i r l hr hop
    unfold Pda.st at hr
    cases hs : p.states[i]? with
    | none => rw [hs] at hr; simp [default] at hr
    | some st =>
      rw [hs] at hr
      exact h2 st (List.mem_of_getElem? hs) _ hr hop
  constructor
  · intro i r l hr hop
    obtain ⟨j, h3, h4⟩ := qFind_spec h1 (hmem i r l hr hop)
    have : j < (qInit p a).2.length := by
      by_contra hj
      rw [List.getElem?_eq_none (by omega)] at h3
      simp at h3
    omega
  · intro i i' r r' l l' hr hop hr' hop' heq
    obtain ⟨j, h3, h4⟩ := qFind_spec h1 (hmem i r l hr hop)
    obtain ⟨j', h3', h4'⟩ := qFind_spec h1 (hmem i' r' l' hr' hop')
    have : j = j' := by omega
    subst this
    rw [h3] at h3'
    simp only [Option.some.injEq, Prod.mk.injEq] at h3'
    exact h3'.1

/-! ## Requests -/

section
variable [Zero W]

/-- An insertion: transition, trace, and whether it goes to the workset. -/
abbrev PReq := Tr × Trace × Bool

/-- Perform one insertion. -/
def postReq (p : Pda W) (cb : Callback W σ) (s : PostSt W σ) (r : PReq) : PostSt W σ :=
  if r.2.2 then postInsert cb s r.1 r.2.1 else postInsertRel p cb s r.1 r.2.1

/-- Perform several insertions in order. -/
def postReqAll (p : Pda W) (cb : Callback W σ) (s : PostSt W σ) (rs : List PReq) : PostSt W σ :=
  rs.foldl (postReq p cb) s

theorem postReqAll_append (p : Pda W) (cb : Callback W σ) (s : PostSt W σ) (r1 r2 : List PReq) :
    postReqAll p cb s (r1 ++ r2) = postReqAll p cb (postReqAll p cb s r1) r2 := by
  simp [postReqAll, List.foldl_append]

theorem postFold_eq {α : Type} (p : Pda W) (cb : Callback W σ) (f : PostSt W σ → α → PostSt W σ)
    (g : α → List PReq) (I : PostSt W σ → Prop) (hI : ∀ s x, I s → I (postReqAll p cb s (g x)))
    (hf : ∀ s x, I s → f s x = postReqAll p cb s (g x)) (l : List α) (s : PostSt W σ) (hs : I s) :
    l.foldl f s = postReqAll p cb s (l.flatMap g) := by
  induction l generalizing s with
  | nil => simp [postReqAll]
  | cons x l ih => rw [List.foldl_cons, hf s x hs, ih _ (hI s x hs), List.flatMap_cons, postReqAll_append]

@[simp] theorem postNotify_frame (cb : Callback W σ) (s : PostSt W σ) (t : Tr) (tr : Trace) :
    (postNotify cb s t tr).aut = s.aut ∧ (postNotify cb s t tr).nQ = s.nQ ∧
      (postNotify cb s t tr).qPrime = s.qPrime ∧ (postNotify cb s t tr).ws = s.ws ∧
      (postNotify cb s t tr).rel1 = s.rel1 ∧ (postNotify cb s t tr).rel2 = s.rel2 := by
  unfold postNotify; split <;> simp

theorem insertRel_frame (p : Pda W) (s : PostSt W σ) (t : Tr) :
    (insertRel p s t).aut = s.aut ∧ (insertRel p s t).nQ = s.nQ ∧
      (insertRel p s t).qPrime = s.qPrime ∧ (insertRel p s t).ws = s.ws ∧
      (insertRel p s t).rel1 = (if t.src ≥ p.size then s.rel1 ++ [t] else s.rel1) ∧
      (insertRel p s t).rel2 =
        (if t.label = epsilon ∧ t.dst ≥ s.nQ then s.rel2 ++ [(t.dst, t.src)] else s.rel2) ∧
      (insertRel p s t).found = s.found ∧ (insertRel p s t).ext = s.ext := by
  unfold insertRel; simp only; split <;> split <;> simp_all

theorem postReq_frame (p : Pda W) (cb : Callback W σ) (s : PostSt W σ) (r : PReq) :
    (postReq p cb s r).nQ = s.nQ ∧ (postReq p cb s r).qPrime = s.qPrime ∧
      (postReq p cb s r).aut.acc = s.aut.acc := by
  unfold postReq postInsert postInsertRel
  split <;> split <;>
    simp [postNotify_frame, insertRel_frame]

theorem postReqAll_frame (p : Pda W) (cb : Callback W σ) (s : PostSt W σ) (rs : List PReq) :
    (postReqAll p cb s rs).nQ = s.nQ ∧ (postReqAll p cb s rs).qPrime = s.qPrime ∧
      (postReqAll p cb s rs).aut.acc = s.aut.acc := by
  induction rs generalizing s with
  | nil => simp [postReqAll]
  | cons r rs ih =>
    have h1 := ih (postReq p cb s r)
    have h2 := postReq_frame p cb s r
    simp only [postReqAll, List.foldl_cons] at h1 ⊢
    simp [h1, h2]

theorem postReq_rel2 (p : Pda W) (cb : Callback W σ) (s : PostSt W σ) (r : PReq)
    (hr : r.2.2 = false → r.1.label ≠ epsilon) : (postReq p cb s r).rel2 = s.rel2 := by
  unfold postReq postInsert postInsertRel
  split
  · split <;> simp [postNotify_frame]
  · rename_i h
    have := hr (by simpa using h)
    split <;> simp [postNotify_frame, insertRel_frame, this]

theorem postReqAll_rel2 (p : Pda W) (cb : Callback W σ) (s : PostSt W σ) (rs : List PReq)
    (hr : ∀ r ∈ rs, r.2.2 = false → r.1.label ≠ epsilon) : (postReqAll p cb s rs).rel2 = s.rel2 := by
  induction rs generalizing s with
  | nil => rfl
  | cons r rs ih =>
    have h1 := ih (postReq p cb s r) (fun r' hr' => hr r' (by simp [hr']))
    simp only [postReqAll, List.foldl_cons] at h1 ⊢
    rw [h1, postReq_rel2 p cb s r (hr r (by simp))]

/-- What one insertion does. -/
theorem postReq_keys (p : Pda W) (cb : Callback W σ) (s : PostSt W σ) (r : PReq)
    (hr : r.2.2 = decide (r.1.src < p.size)) (t : Tr) :
    (t ∈ keys (postReq p cb s r).aut.edges ↔ t ∈ keys s.aut.edges ∨ t = r.1) ∧
    (t ∈ (postReq p cb s r).ws ↔ t ∈ s.ws ∨ (t = r.1 ∧ t ∉ keys s.aut.edges ∧ t.src < p.size)) ∧
    (t ∈ (postReq p cb s r).rel1 ↔ t ∈ s.rel1 ∨ (t = r.1 ∧ t ∉ keys s.aut.edges ∧ p.size ≤ t.src)) := by
  unfold postReq postInsert postInsertRel
  by_cases h : s.aut.hasEdge r.1 = true
  · simp only [h, if_true, ite_self]
    rw [Aut.hasEdge_iff] at h
    refine ⟨⟨.inl, ?_⟩, ⟨.inl, ?_⟩, ⟨.inl, ?_⟩⟩
    · rintro (h1 | rfl)
      · exact h1
      · exact h
    · rintro (h1 | ⟨rfl, h1, _⟩)
      · exact h1
      · exact absurd h h1
    · rintro (h1 | ⟨rfl, h1, _⟩)
      · exact h1
      · exact absurd h h1
  · have h' := h
    rw [Aut.hasEdge_iff] at h'
    simp only [h, Bool.false_eq_true, if_false]
    by_cases hs : r.1.src < p.size
    · simp only [hr, hs, decide_true, if_true, postNotify_frame, Aut.keys_emplaceEdge]
      simp only [List.mem_append, List.mem_singleton]
      refine ⟨trivial, ⟨?_, ?_⟩, ⟨.inl, ?_⟩⟩
      · rintro (h1 | rfl)
        · exact .inl h1
        · exact .inr ⟨rfl, h', hs⟩
      · rintro (h1 | ⟨h1, _⟩)
        · exact .inl h1
        · exact .inr h1
      · rintro (h1 | ⟨rfl, _, h1⟩)
        · exact h1
        · omega
    · simp only [hr, hs, decide_false, Bool.false_eq_true, if_false, postNotify_frame, insertRel_frame,
        Aut.keys_emplaceEdge]
      rw [if_pos (by omega)]
      simp only [List.mem_append, List.mem_singleton]
      refine ⟨trivial, ⟨.inl, ?_⟩, ⟨?_, ?_⟩⟩
      · rintro (h1 | ⟨rfl, _, h1⟩)
        · exact h1
        · exact absurd h1 hs
      · rintro (h1 | rfl)
        · exact .inl h1
        · exact .inr ⟨rfl, h', by omega⟩
      · rintro (h1 | ⟨h1, _⟩)
        · exact .inl h1
        · exact .inr h1

theorem postReqAll_keys (p : Pda W) (cb : Callback W σ) (s : PostSt W σ) (rs : List PReq)
    (hr : ∀ r ∈ rs, r.2.2 = decide (r.1.src < p.size)) (t : Tr) :
    (t ∈ keys (postReqAll p cb s rs).aut.edges ↔ t ∈ keys s.aut.edges ∨ t ∈ rs.map Prod.fst) ∧
    (t ∈ (postReqAll p cb s rs).ws ↔
      t ∈ s.ws ∨ (t ∈ rs.map Prod.fst ∧ t ∉ keys s.aut.edges ∧ t.src < p.size)) ∧
    (t ∈ (postReqAll p cb s rs).rel1 ↔
      t ∈ s.rel1 ∨ (t ∈ rs.map Prod.fst ∧ t ∉ keys s.aut.edges ∧ p.size ≤ t.src)) := by
  induction rs generalizing s with
  | nil => simp [postReqAll]
  | cons r rs ih =>
    have h1 := ih (postReq p cb s r) (fun r' hr' => hr r' (by simp [hr']))
    have h2 := postReq_keys p cb s r (hr r (by simp)) t
    simp only [postReqAll, List.foldl_cons] at h1 ⊢
    rw [h1.1, h1.2.1, h1.2.2, h2.1, h2.2.1, h2.2.2]
    simp only [List.map_cons, List.mem_cons]
    grind

theorem postReq_len (p : Pda W) (cb : Callback W σ) (s : PostSt W σ) (r : PReq) :
    s.aut.edges.length + (postReq p cb s r).ws.length ≤ (postReq p cb s r).aut.edges.length + s.ws.length ∧
    s.aut.edges.length ≤ (postReq p cb s r).aut.edges.length := by
  unfold postReq postInsert postInsertRel
  by_cases h : s.aut.hasEdge r.1 = true
  · simp [h]
  · simp only [h, Bool.false_eq_true, if_false]
    split <;> simp [postNotify_frame, insertRel_frame, Aut.emplaceEdge, h] <;> omega

theorem postReqAll_len (p : Pda W) (cb : Callback W σ) (s : PostSt W σ) (rs : List PReq) :
    s.aut.edges.length + (postReqAll p cb s rs).ws.length ≤
      (postReqAll p cb s rs).aut.edges.length + s.ws.length ∧
    s.aut.edges.length ≤ (postReqAll p cb s rs).aut.edges.length := by
  induction rs generalizing s with
  | nil => simp [postReqAll]
  | cons r rs ih =>
    have h1 := ih (postReq p cb s r)
    have h2 := postReq_len p cb s r
    simp only [postReqAll, List.foldl_cons] at h1 ⊢
    omega

theorem postReq_edges (p : Pda W) (cb : Callback W σ) (s : PostSt W σ) (r : PReq) :
    (postReq p cb s r).aut.edges =
      if s.aut.hasEdge r.1 then s.aut.edges else (r.1, (r.2.1, 0)) :: s.aut.edges := by
  unfold postReq postInsert postInsertRel
  by_cases h : s.aut.hasEdge r.1 = true
  · simp [h]
  · simp only [h, Bool.false_eq_true, if_false]
    split <;> simp [postNotify_frame, insertRel_frame, Aut.emplaceEdge, h]

theorem postReqAll_built {J : (Tr → Prop) → Tr → Trace → Prop}
    (hmono : ∀ P Q : Tr → Prop, (∀ t, P t → Q t) → ∀ t tr, J P t tr → J Q t tr)
    {E0 : List (AEdge W)} (p : Pda W) (cb : Callback W σ) (rs : List PReq) (s : PostSt W σ)
    (hb : Built J E0 s.aut.edges)
    (hj : ∀ r1 r r2, rs = r1 ++ r :: r2 →
      J (fun t => t ∈ keys s.aut.edges ∨ t ∈ r1.map Prod.fst) r.1 r.2.1) :
    Built J E0 (postReqAll p cb s rs).aut.edges := by
  induction rs generalizing s with
  | nil => exact hb
  | cons r rs ih =>
    have hk : ∀ t, t ∈ keys (postReq p cb s r).aut.edges ↔ t ∈ keys s.aut.edges ∨ t = r.1 := by
      intro t
      rw [postReq_edges]
      by_cases h : s.aut.hasEdge r.1 = true
      · rw [if_pos h]
        rw [Aut.hasEdge_iff] at h
        constructor
        · exact .inl
        · rintro (h1 | rfl)
          · exact h1
          · exact h
      · rw [if_neg h]
        simp only [keys, List.map_cons, List.mem_cons]
        exact or_comm
    refine ih (postReq p cb s r) ?_ ?_
    · rw [postReq_edges]
      by_cases h : s.aut.hasEdge r.1 = true
      · rw [if_pos h]; exact hb
      · rw [if_neg h]
        rw [Aut.hasEdge_iff] at h
        refine .cons hb h (hmono _ _ ?_ _ _ (hj [] r rs rfl))
        intro t ht; simpa using ht
    · intro r1 r' r2 heq
      refine hmono _ _ ?_ _ _ (hj (r :: r1) r' r2 (by rw [heq]; rfl))
      intro t ht
      rw [hk]
      simp only [List.map_cons, List.mem_cons] at ht
      grind

theorem postReq_found {cb : Callback W σ} {V : Tr → Prop} {Good : Aut W → σ → Prop}
    {Hit : Aut W → σ → Prop} (hcb : CbSpec cb V Good Hit) (p : Pda W) (s : PostSt W σ) (r : PReq) (hv : V r.1)
    (h : FoundOK Good Hit s.aut s.ext s.found) :
    FoundOK Good Hit (postReq p cb s r).aut (postReq p cb s r).ext (postReq p cb s r).found := by
  have key : ∀ s' : PostSt W σ, s'.aut = { s.aut with edges := (r.1, (r.2.1, 0)) :: s.aut.edges } →
      s'.ext = s.ext → s'.found = s.found → r.1 ∉ keys s.aut.edges →
      FoundOK Good Hit (postNotify cb s' r.1 r.2.1).aut (postNotify cb s' r.1 r.2.1).ext
        (postNotify cb s' r.1 r.2.1).found := by
    intro s' h1 h2 h3 hn
    unfold postNotify
    by_cases hf : s.found = true
    · rw [if_pos (by rw [h3]; exact hf), h1, h2, h3]
      exact ⟨fun h4 => by simp [hf] at h4, fun _ => hcb.mono _ _ _ (h.2 hf)⟩
    · have hf' : s.found = false := by simpa using hf
      rw [if_neg (by rw [h3]; exact hf)]
      simp only [h1, h2]
      have := hcb.step s.aut s.ext r.1 (r.2.1, 0) (h.1 hf') hn hv
      exact ⟨this.2, this.1⟩
  unfold postReq postInsert postInsertRel
  by_cases he : s.aut.hasEdge r.1 = true
  · simp only [he, if_true, ite_self]; exact h
  · simp only [he, Bool.false_eq_true, if_false]
    have hn := he
    rw [Aut.hasEdge_iff] at hn
    split
    · exact key _ (by simp [Aut.emplaceEdge, he]) rfl rfl hn
    · exact key _ (by simp [Aut.emplaceEdge, he, insertRel_frame]) (by simp [insertRel_frame])
        (by simp [insertRel_frame]) hn

theorem postReqAll_found {cb : Callback W σ} {V : Tr → Prop} {Good : Aut W → σ → Prop}
    {Hit : Aut W → σ → Prop} (hcb : CbSpec cb V Good Hit) (p : Pda W) (rs : List PReq) (s : PostSt W σ)
    (hv : ∀ r ∈ rs, V r.1) (h : FoundOK Good Hit s.aut s.ext s.found) :
    FoundOK Good Hit (postReqAll p cb s rs).aut (postReqAll p cb s rs).ext
      (postReqAll p cb s rs).found := by
  induction rs generalizing s with
  | nil => exact h
  | cons r rs ih =>
    exact ih _ (fun r' hr' => hv r' (by simp [hr'])) (postReq_found hcb p s r (hv r (by simp)) h)

/-! ## The step as a request list -/

/-- The insertions made for one rule of `t.src`. -/
def postRuleReqs (t : Tr) (qp : List ((Nat × Nat) × Nat)) (rel2 : List (Nat × Nat))
    (x : (Rule W × Labels) × Nat) : List PReq :=
  if !x.1.2.contains t.label then []
  else
    let r := x.1.1
    let tr := Trace.post t.src x.2 t.label
    match r.op with
    | .pop => [(⟨r.to, epsilon, t.dst⟩, tr, true)]
    | .swap => [(⟨r.to, r.opLabel, t.dst⟩, tr, true)]
    | .noop => [(⟨r.to, t.label, t.dst⟩, tr, true)]
    | .push =>
      let m := qFind qp (r.to, r.opLabel)
      [(⟨r.to, r.opLabel, m⟩, tr, true), (⟨m, t.label, t.dst⟩, tr, false)] ++
        ((rel2.filter fun x => x.1 == m).map Prod.snd).map fun f =>
          (⟨f, t.label, t.dst⟩, Trace.postEps m, true)

/-- The insertions made by one step. -/
def postReqs (p : Pda W) (t : Tr) (s : PostSt W σ) : List PReq :=
  if t.label ≠ epsilon then (p.st t.src).rules.zipIdx.flatMap (postRuleReqs t s.qPrime s.rel2)
  else (s.rel1At t.dst).map fun u => (⟨t.src, u.label, u.dst⟩, Trace.postEps t.dst, true)

theorem postRuleReqs_rel2 (t : Tr) (ht : t.label ≠ epsilon) (qp : List ((Nat × Nat) × Nat))
    (rel2 : List (Nat × Nat)) (x : (Rule W × Labels) × Nat) :
    ∀ r ∈ postRuleReqs t qp rel2 x, r.2.2 = false → r.1.label ≠ epsilon := by
  intro r hr h0
  unfold postRuleReqs at hr
  split at hr
  · simp at hr
  · simp only at hr
    split at hr
    · simp at hr; subst hr; simp at h0
    · simp at hr; subst hr; simp at h0
    · simp at hr; subst hr; simp at h0
    · simp only [List.mem_append, List.mem_cons, List.not_mem_nil, or_false, List.mem_map] at hr
      rcases hr with (rfl | rfl) | ⟨f, _, rfl⟩
      · simp at h0
      · exact ht
      · simp at h0

theorem postFoldMap_eq {α : Type} (p : Pda W) (cb : Callback W σ) (g : α → Tr) (tr : Trace) (l : List α)
    (s : PostSt W σ) : l.foldl (fun s u => postInsert cb s (g u) tr) s =
      postReqAll p cb s (l.map fun u => (g u, tr, true)) := by
  induction l generalizing s with
  | nil => rfl
  | cons x l ih => rw [List.foldl_cons, ih]; simp [postReqAll, postReq]

theorem postRule_eq (p : Pda W) (cb : Callback W σ) (t : Tr) (ht : t.label ≠ epsilon) (s : PostSt W σ)
    (x : (Rule W × Labels) × Nat) :
    postRule p cb t s x = postReqAll p cb s (postRuleReqs t s.qPrime s.rel2 x) := by
  unfold postRule postRuleReqs
  split
  · simp [postReqAll]
  · simp only
    cases x.1.1.op with
    | pop => simp [postReqAll, postReq]
    | swap => simp [postReqAll, postReq]
    | noop => simp [postReqAll, postReq]
    | push =>
      simp only
      rw [postReqAll_append]
      rw [postFoldMap_eq p cb (fun f => (⟨f, t.label, t.dst⟩ : Tr))]
      have e1 : postInsertRel p cb (postInsert cb s
            ⟨x.1.1.to, x.1.1.opLabel, qFind s.qPrime (x.1.1.to, x.1.1.opLabel)⟩
            (Trace.post t.src x.2 t.label))
            ⟨qFind s.qPrime (x.1.1.to, x.1.1.opLabel), t.label, t.dst⟩ (Trace.post t.src x.2 t.label) =
          postReqAll p cb s [(⟨x.1.1.to, x.1.1.opLabel, qFind s.qPrime (x.1.1.to, x.1.1.opLabel)⟩,
            Trace.post t.src x.2 t.label, true),
            (⟨qFind s.qPrime (x.1.1.to, x.1.1.opLabel), t.label, t.dst⟩,
              Trace.post t.src x.2 t.label, false)] := by
        simp [postReqAll, postReq]
      rw [e1]
      unfold PostSt.rel2At
      rw [postReqAll_rel2]
      intro r hr h0
      simp only [List.mem_cons, List.not_mem_nil, or_false] at hr
      rcases hr with rfl | rfl
      · simp at h0
      · exact ht

theorem postStep_eq (p : Pda W) (cb : Callback W σ) (s : PostSt W σ) (t : Tr) (ws : List Tr)
    (hws : s.ws = t :: ws) :
    postStep p cb s = postReqAll p cb (insertRel p { s with ws := ws } t)
      (postReqs p t (insertRel p { s with ws := ws } t)) := by
  unfold postStep
  rw [hws]
  simp only
  generalize insertRel p { s with ws := ws } t = s1
  unfold postReqs
  split
  · rename_i ht
    refine postFold_eq p cb _ _ (fun s => s.qPrime = s1.qPrime ∧ s.rel2 = s1.rel2) ?_ ?_ _ _ ⟨rfl, rfl⟩
    · intro s' x ⟨h1, h2⟩
      refine ⟨by rw [(postReqAll_frame p cb s' _).2.1, h1], ?_⟩
      rw [postReqAll_rel2, h2]
      exact postRuleReqs_rel2 t ht _ _ x
    · intro s' x ⟨h1, h2⟩
      rw [postRule_eq p cb t ht, h1, h2]
  · exact postFoldMap_eq p cb (fun u : Tr => (⟨t.src, u.label, u.dst⟩ : Tr)) _ _ _

end

end Verif
