import Verif.Proofs.CegarInst
import Verif.Props.CegarHeader
import Verif.Props.ProductTrace

/-! # From a path of the abstract automaton to a path of the NFA -/

namespace Verif

open Props

theorem foldl_keeps {α β : Type} {f : α → β → α} {Q : α → Prop} (l : List β) (hf : ∀ a, ∀ b ∈ l, Q a → Q (f a b)) (a : α)
    (h : Q a) : Q (l.foldl f a) := by
  induction l generalizing a with
  | nil => exact h
  | cons x l ih =>
    exact ih (fun a b hb => hf a b (List.mem_cons_of_mem _ hb)) _ (hf a x List.mem_cons_self h)

section
variable {W : Type} [Zero W]

theorem blank_addEdge {a : Aut W} (h : Blank a) (src dst l : Nat) : Blank (a.addEdge src dst l) := by
  unfold Aut.addEdge Aut.emplaceEdge
  split
  · exact h
  · intro e he
    rcases List.mem_cons.1 he with rfl | he
    · rfl
    · exact h e he

theorem blank_addEdges {a : Aut W} (h : Blank a) (nl src dst : Nat) (neg : Bool) (ls : List Nat) :
    Blank (a.addEdges nl src dst neg ls) := by
  have hr : ∀ {a : Aut W} (l : List Nat), Blank a → Blank (l.foldl (fun a i => a.addEdge src dst i) a) :=
    fun l h => foldl_keeps (Q := Blank) l (fun a i _ h => blank_addEdge h _ _ _) _ h
  unfold Aut.addEdges Aut.addRange
  split
  · refine hr _ ?_
    exact foldl_keeps (Q := fun s : Aut W × Nat => Blank s.1) ls (fun s l _ h => hr _ h) (a, 0) h
  · exact hr _ h

theorem blank_addEdgesFrom {a : Aut W} (h : Blank a) (nl : Nat) (srcs : List Nat) (dst : Nat) (neg : Bool)
    (ls : List Nat) : Blank (a.addEdgesFrom nl srcs dst neg ls) := by
  have hr : ∀ {a : Aut W} (l : List Nat), Blank a → Blank (l.foldl (fun a i => a.addFrom srcs dst i) a) :=
    fun l h => foldl_keeps (Q := Blank) l (fun a i _ h => foldl_keeps (Q := Blank) srcs (fun a i _ h => blank_addEdge h _ _ _) _ h) _ h
  unfold Aut.addEdgesFrom Aut.addRangeFrom
  split
  · refine hr _ ?_
    exact foldl_keeps (Q := fun s : Aut W × Nat => Blank s.1) ls (fun s l _ h => hr _ h) (a, 0) h
  · exact foldl_keeps (Q := Blank) srcs (fun a f _ h => foldl_keeps (Q := Blank) ls (fun a l _ h => blank_addEdge h _ _ _) _ h) _ h

theorem blank_edges {m : Nfa} {add : NEdge → Aut W → Nat → Aut W} (hadd : ∀ e a id, Blank a → Blank (add e a id))
    (es : List NEdge) {s : ConSt W} (h : Blank s.a) : Blank (ConSt.edges m add es s).a := by
  unfold ConSt.edges
  refine foldl_keeps (Q := fun s : ConSt W => Blank s.a) es (fun s e _ h => ?_) s h
  refine foldl_keeps (Q := fun s : ConSt W => Blank s.a) _ (fun s q _ h => ?_) s h
  unfold ConSt.target
  refine hadd _ _ _ ?_
  unfold ConSt.getId
  split <;> exact h

/-- The transitions made by `construct` have no traces and the weight zero. -/
theorem blank_ofNfa (size nl : Nat) (m : Nfa) {states : List Nat} (hs : SSorted states) :
    Blank (Aut.ofNfa (W := W) size nl m states) := by
  have hloop : ∀ k (s : ConSt W), Blank s.a → Blank (ConSt.loop m nl k s).a := by
    intro k
    induction k with
    | zero => exact fun s h => h
    | succ k ih =>
      intro s h
      unfold ConSt.loop
      split
      · exact h
      · exact ih _ (blank_edges (fun e a id h => blank_addEdges h _ _ _ _ _) _ h)
  unfold Aut.ofNfa
  refine hloop _ _ ?_
  unfold ConSt.initial
  refine foldl_keeps (Q := fun s : ConSt W => Blank s.a) _ (fun s i _ h => ?_) _ ?_
  · exact blank_edges (fun e a id h => blank_addEdgesFrom h _ _ _ _ _) _ h
  · intro e he
    dsimp only at he
    rw [(Aut.special_spec (W := W) size hs m.emptyAccept).2.1] at he
    cases he

theorem untraced_ofNfa (size nl : Nat) (m : Nfa) {states : List Nat} (hs : SSorted states) :
    Untraced (Aut.ofNfa (W := W) size nl m states) := (blank_ofNfa size nl m hs).untraced

end

open ConSt Nfa in
/-- The state of `construct` at the end. -/
theorem construct_spec {W : Type} [Zero W] {m : Nfa} (hm : m.WF) {size nl : Nat} (hlab : m.Below nl)
    {states : List Nat} (hs : SSorted states) {s : ConSt W}
    (he : s = loop m nl (m.states.length + 1) (initial m nl states { a := Aut.special size states m.emptyAccept })) :
    Inv m size (fun q => q ∈ states ∧ m.emptyAccept = true) s ∧ ∀ t, t ∈ keys s.a.edges ↔
      (t.src ∈ states ∧ ∃ i ∈ m.initial, ∃ q, Mv m nl (m.get i).edges t.label q ∧ (q, t.dst) ∈ s.ids) ∨
      ∃ p, (p, t.src) ∈ s.ids ∧ ∃ q, Mv m nl (m.get p).edges t.label q ∧ (q, t.dst) ∈ s.ids := by
  obtain ⟨a1, a2, a3⟩ := Aut.special_spec (W := W) size hs m.emptyAccept
  let F : Nat → Prop := fun q => q ∈ states ∧ m.emptyAccept = true
  have i0 : Inv m size F ({ a := Aut.special (W := W) size states m.emptyAccept } : ConSt W) :=
    ⟨by simp [a1], by simp, by simp, by simp, by simp, by simp, fun q hq => by simp [a3, F, hq], by simp,
      by simp [a2, keys], by simp⟩
  obtain ⟨j1, j2, j3, j4⟩ := initial_spec hm (states := states) hlab _ i0
  generalize initial m nl states ({ a := Aut.special (W := W) size states m.emptyAccept } : ConSt W) = s1 at j1 j2 j3 j4 he
  have hww : ∀ x ∈ s1.ids, x ∈ s1.waiting := fun x hx => (j2.wait x).2 (.inr ⟨hx, by simp⟩)
  obtain ⟨k1, k2, k3, k4⟩ := loop_spec hm (states := states) hlab (m.states.length + 1) s1 j1
    (by have := j2.meas; simp at this; omega) j3 (fun x hx hw => absurd (hww x hx) hw) (by
      intro t
      rw [j4]
      have : t ∉ keys (Aut.special (W := W) size states m.emptyAccept).edges := by simp [a2, keys]
      simp only [this, false_or]
      constructor
      · intro h; exact .inl h
      · rintro (h | ⟨p, h1, h2, _⟩)
        · exact h
        · exact absurd (hww _ h1) h2)
  rw [he]
  exact ⟨k1, k4⟩

theorem Spells.at {E : Tr → Prop} : ∀ {qs w : List Nat}, Spells E qs w → ∀ i < w.length,
    ∃ q g q', qs[i]? = some q ∧ w[i]? = some g ∧ qs[i + 1]? = some q' ∧ E ⟨q, g, q'⟩
  | [_], [], _, i, hi => by simp at hi
  | q :: q' :: qs, g :: w, h, i, hi => by
    cases i with
    | zero => exact ⟨q, g, q', rfl, rfl, rfl, h.1⟩
    | succ i =>
      obtain ⟨a, b, c, h1, h2, h3, h4⟩ := Spells.at (qs := q' :: qs) (w := w) h.2 i (by simpa using hi)
      exact ⟨a, b, c, by simpa using h1, by simpa using h2, by simpa using h3, h4⟩
  | [], _, h, _, _ => by simp [Spells] at h
  | [_], _ :: _, h, _, _ => by simp [Spells] at h

namespace Cegar

theorem nfaState_mem {ids : List (Nat × Nat)} (hn : (ids.map Prod.snd).Nodup) {q id : Nat} (h : (q, id) ∈ ids) :
    nfaState ids id = q := by
  unfold nfaState
  cases hf : ids.find? fun x => x.2 == id with
  | none =>
    have := List.find?_eq_none.1 hf _ h
    simp at this
  | some x =>
    have h1 := List.find?_some hf
    have h2 := List.mem_of_find?_eq_some hf
    obtain ⟨a, b⟩ := x
    have : b = id := by simpa using h1
    subst this
    exact ConSt.snd_unique hn h2 h

/-- The path of the NFA behind an accepting path of the P-automaton of an iteration. -/
structure BackPath (m : RMap Nat) (n : Nfa) (states path w : List Nat) (q : Nat) : Prop where
  state : q ∈ states
  length : path.length = w.length
  ok : PathOK n path
  reads : ∀ i g, w[i]? = some g → g < m.size ∧ ReadsAt (absNfa m n) path i g
  acc : match path.getLast? with | some q => n.Acc q | none => n.Lang []

theorem backPath {m : RMap Nat} {n : Nfa} (hm : m.Inv) (hn : n.WF) (hk : Known m n) (hc : n.Closed) {p : Pda Unit}
    {states : List Nat} (hs : SSorted states) (hlt : ∀ q ∈ states, q < p.size) {qs w : List Nat} {c : Config}
    (hc1 : c.1 < p.size) (h : RestPath p (Aut.ofNfa p.size m.size (absNfa m n) states) qs w c) :
    BackPath m n states (buildNfaPath (absConstruct p.size m n states).ids qs) w c.1 := by
  have hwf := absNfa_wf hm hn hk
  have hcl := absNfa_closed hm hn hk hc
  have hbel : (absNfa m n).Below m.size := absNfa_labels hm hn hk
  have hlang := ((Aut.ofNfa_spec (W := Unit) hwf hcl hbel hs hlt).1 c.1 c.2 hc1).1 h.lang
  obtain ⟨hI, hE⟩ := construct_spec hwf hbel hs (absConstruct_eq hm hn hk p.size states)
  rw [← absConstruct_a hm hn hk] at h
  generalize absConstruct p.size m n states = st at h hI hE
  have hlen := h.spells.length
  have hat := h.spells.at
  have hid : ∀ {q id}, (q, id) ∈ st.ids → nfaState st.ids id = q := fun h => nfaState_mem hI.snd h
  have h0 : qs[0]? = some c.1 := by rw [← List.head?_eq_getElem?]; exact h.head
  -- the targets of transitions are states of the NFA
  have hdst : ∀ {t}, t ∈ keys st.a.edges → ∃ q, (q, t.dst) ∈ st.ids ∧ (absNfa m n).Useful q := by
    intro t ht
    rcases (hE t).1 ht with ⟨-, i, hi, q, hmv, hq⟩ | ⟨r, hr, q, hmv, hq⟩
    · exact ⟨q, hq, ((ConSt.mv_iff hwf hbel (hwf.init i hi) _ _).1 hmv).2.1⟩
    · exact ⟨q, hq, ((ConSt.mv_iff hwf hbel (hI.ptr _ hr) _ _).1 hmv).2.1⟩
  have hpath : ∀ i : Nat, (buildNfaPath st.ids qs)[i]? = (qs[i + 1]?).map (nfaState st.ids) := by
    intro i; unfold buildNfaPath; rw [List.getElem?_map, List.getElem?_tail]
  have hl : (buildNfaPath st.ids qs).length = w.length := by
    unfold buildNfaPath; simp; omega
  refine ⟨hlang.1, hl, ?_, ?_, ?_⟩
  · intro q hq
    obtain ⟨i, hi⟩ := List.mem_iff_getElem?.1 hq
    have hi' := (List.getElem?_eq_some_iff.1 hi).1
    obtain ⟨a, g, b, -, -, h3, h4⟩ := hat i (by omega)
    rw [hpath, h3] at hi
    obtain ⟨q', hq', hu⟩ := hdst h4
    simp only [Option.map_some, Option.some.injEq] at hi
    rw [hid hq'] at hi
    rw [← hi]
    have := hI.ptr _ hq'
    rw [absNfa_ptrs] at this
    exact ⟨this, (absNfa_useful hm hn hk _).1 hu⟩
  · intro i g hg
    have hi := (List.getElem?_eq_some_iff.1 hg).1
    obtain ⟨a, g', b, h1, h2, h3, h4⟩ := hat i hi
    rw [hg] at h2
    cases h2
    rcases (hE _).1 h4 with ⟨hsrc, i', hi', q, hmv, hq⟩ | ⟨r, hr, q, hmv, hq⟩
    · dsimp only at hsrc hmv hq
      obtain ⟨b1, -, b3⟩ := (ConSt.mv_iff hwf hbel (hwf.init i' hi') _ _).1 hmv
      have hiz : i = 0 := by
        by_contra hne
        obtain ⟨_, _, b', -, -, h6, h7⟩ := hat (i - 1) (by omega)
        rw [show i - 1 + 1 = i by omega, h1] at h6
        cases h6
        obtain ⟨q', hq', -⟩ := hdst h7
        have := (hI.range _ hq').1
        have := hlt _ hsrc
        dsimp only at *
        omega
      refine ⟨b1, q, by rw [hpath, h3]; simp [hid hq], i', ?_, b3⟩
      rw [if_pos hiz]
      exact hi'
    · dsimp only at hr hmv hq
      obtain ⟨b1, -, b3⟩ := (ConSt.mv_iff hwf hbel (hI.ptr _ hr) _ _).1 hmv
      have hiz : i ≠ 0 := by
        intro hz
        subst hz
        rw [h0] at h1
        cases h1
        have := (hI.range _ hr).1
        dsimp only at *
        omega
      refine ⟨b1, q, by rw [hpath, h3]; simp [hid hq], r, ?_, b3⟩
      rw [if_neg hiz, hpath, show i - 1 + 1 = i by omega, h1]
      simp [hid hr]
  · obtain ⟨f, h1, h2⟩ := h.last
    rw [List.getLast?_eq_getElem?] at h1
    rw [List.getLast?_eq_getElem?, hl]
    by_cases hw : w.length = 0
    · have : (buildNfaPath st.ids qs)[w.length - 1]? = none := by
        rw [List.getElem?_eq_none_iff]; omega
      rw [this]
      have hwn : w = [] := List.length_eq_zero_iff.1 hw
      have h3 := hlang.2.1
      rw [← h.stack, hwn] at h3
      obtain ⟨i, a1, f, a2, a3⟩ := h3
      exact ⟨i, a1, f, (absNfa_acc f).1 a2, absNfa_epsPath.1 a3⟩
    · obtain ⟨a, g, b, -, -, h3, h4⟩ := hat (w.length - 1) (by omega)
      rw [hpath, h3]
      rw [hlen, show w.length + 1 - 1 = w.length - 1 + 1 by omega, h3] at h1
      cases h1
      obtain ⟨q', hq', -⟩ := hdst h4
      simp only [Option.map_some]
      rw [hid hq', ← absNfa_acc (m := m)]
      exact (hI.acc _ hq').1 h2

end Cegar

end Verif
