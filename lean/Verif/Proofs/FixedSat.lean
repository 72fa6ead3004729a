import Verif.Model.FixedSat
import Verif.Spec.Weighted
import Verif.Proofs.Built
import Verif.Proofs.Algorithms
import Verif.Proofs.FixedPointFinal

/-! # Fixed-point saturation: the part common to pre* and post* -/

namespace Verif

variable {W T X : Type}

/-- The transition is waiting to be processed. -/
def FixSt.Queued (s : FixSt T X) (t : Tr) : Prop := t ∈ s.workset ∨ t ∈ s.next

/-- The transition exists with a weight of at most `w`. -/
def FixSt.Bound [LE T] (s : FixSt T X) (t : Tr) (w : T) : Prop := ∃ x, s.wt t = some x ∧ x ≤ w

theorem FixSt.wt_isSome (s : FixSt T X) (t : Tr) : (s.wt t).isSome = true ↔ t ∈ keys s.aut.edges := by
  unfold FixSt.wt Aut.getEdge keys
  simp only [Option.isSome_map, List.find?_isSome, List.mem_map]
  constructor
  · rintro ⟨e, h1, h2⟩; exact ⟨e, h1, by simpa using h2⟩
  · rintro ⟨e, h1, h2⟩; exact ⟨e, h1, by simpa using h2⟩

theorem FixSt.wt_some (s : FixSt T X) {t : Tr} {x : T} (h : s.wt t = some x) : t ∈ keys s.aut.edges := by
  rw [← s.wt_isSome, h]; rfl

theorem FixSt.exists_wt (s : FixSt T X) {t : Tr} (h : t ∈ keys s.aut.edges) : ∃ x, s.wt t = some x :=
  Option.isSome_iff_exists.1 ((s.wt_isSome t).2 h)

theorem getEdge_none_iff (a : Aut W) (t : Tr) : a.getEdge t = none ↔ t ∉ keys a.edges := by
  unfold Aut.getEdge keys
  simp only [Option.map_eq_none_iff, List.find?_eq_none, List.mem_map, not_exists, not_and]
  constructor
  · intro h e he heq; exact h e he (by simpa using heq)
  · intro h e he heq; exact h e he (by simpa using heq)

theorem getEdge_emplace (a : Aut W) (t u : Tr) (ann : Ann W) (h : a.getEdge t = none) :
    (a.emplaceEdge t ann).getEdge u = if u = t then some ann else a.getEdge u := by
  have hn : a.hasEdge t = false := by
    rw [Bool.eq_false_iff]
    intro hc
    exact (getEdge_none_iff a t).1 h ((Aut.hasEdge_iff a t).1 hc)
  unfold Aut.emplaceEdge
  rw [hn]
  simp only [Bool.false_eq_true, if_false]
  unfold Aut.getEdge
  rw [List.find?_cons]
  by_cases hu : u = t
  · subst hu; simp
  · rw [if_neg hu]
    have : ((t == u) : Bool) = false := by simpa using fun h => hu h.symm
    simp only [this]

theorem keys_emplace (a : Aut W) (t : Tr) (ann : Ann W) (h : a.getEdge t = none) :
    (a.emplaceEdge t ann).edges = (t, ann) :: a.edges := by
  have hn : a.hasEdge t = false := by
    rw [Bool.eq_false_iff]
    intro hc
    exact (getEdge_none_iff a t).1 h ((Aut.hasEdge_iff a t).1 hc)
  unfold Aut.emplaceEdge
  rw [hn]
  rfl

theorem emplace_acc (a : Aut W) (t : Tr) (ann : Ann W) : (a.emplaceEdge t ann).acc = a.acc := by
  unfold Aut.emplaceEdge
  split <;> rfl

theorem keys_set (a : Aut W) (t : Tr) (ann : Ann W) : keys (a.setEdge t ann).edges = keys a.edges := by
  unfold keys Aut.setEdge
  simp only [List.map_map]
  apply List.map_congr_left
  intro e _
  simp only [Function.comp_apply]
  split
  · rename_i h; exact h.symm
  · rfl

theorem getEdge_set (a : Aut W) (t u : Tr) (ann : Ann W) (h : t ∈ keys a.edges) :
    (a.setEdge t ann).getEdge u = if u = t then some ann else a.getEdge u := by
  unfold Aut.getEdge Aut.setEdge
  unfold keys at h
  simp only
  generalize a.edges = E at h
  induction E with
  | nil => simp at h
  | cons e E ih =>
    rw [List.map_cons, List.find?_cons, List.find?_cons]
    by_cases he : e.1 = t
    · rw [if_pos he]
      by_cases hu : u = t
      · subst hu; simp
      · have h1 : ((t == u) : Bool) = false := by simpa using fun h => hu h.symm
        have h2 : ((e.1 == u) : Bool) = false := by rw [he]; exact h1
        simp only [h1, h2, if_neg hu]
        by_cases hm : t ∈ E.map Prod.fst
        · rw [ih hm, if_neg hu]
        · congr 2
          conv => rhs; rw [← List.map_id E]
          apply List.map_congr_left
          intro e' he'
          rw [if_neg (fun hc => hm (List.mem_map.2 ⟨e', he', hc⟩))]; rfl
    · rw [if_neg he]
      have hm : t ∈ E.map Prod.fst := by
        rcases List.mem_cons.1 h with h | h
        · exact absurd h.symm he
        · exact h
      by_cases hu : e.1 = u
      · have h1 : ((e.1 == u) : Bool) = true := by simpa using hu
        simp only [h1, if_neg (hu ▸ he)]
      · have h1 : ((e.1 == u) : Bool) = false := by simpa using hu
        simp only [h1]
        exact ih hm

theorem wt_emplace {s s' : FixSt T X} {t : Tr} {tr1 tr2 : Trace} {w : T} (h0 : s.aut.getEdge t = none)
    (h : s'.aut = s.aut.emplaceEdge t (tr1, tr2, w)) (u : Tr) : s'.wt u = if u = t then some w else s.wt u := by
  unfold FixSt.wt
  rw [h, getEdge_emplace _ _ _ _ h0]
  split <;> rfl

theorem wt_set {s s' : FixSt T X} {t : Tr} {tr1 tr2 : Trace} {w : T} (h0 : t ∈ keys s.aut.edges)
    (h : s'.aut = s.aut.setEdge t (tr1, tr2, w)) (u : Tr) : s'.wt u = if u = t then some w else s.wt u := by
  unfold FixSt.wt
  rw [h, getEdge_set _ _ _ _ h0]
  split <;> rfl

/-- Weights only improve, and what changes is queued if `q` says so. -/
structure Adv [LE T] (q : Tr → Bool) (s s' : FixSt T X) : Prop where
  less : ∀ t w, s.Bound t w → s'.Bound t w
  change : ∀ t, q t = true → s'.Queued t ∨ s'.wt t = s.wt t
  queued : ∀ t, s.Queued t → s'.Queued t
  acc : s'.aut.acc = s.aut.acc
  limit : s.limit = s.count → s'.limit = s'.count
  count : s.count ≤ s'.count
  rounds : s'.rounds = s.rounds
  work : s'.workset = s.workset
  done : s'.done = s.done

theorem Adv.refl [LE T] (q : Tr → Bool) (s : FixSt T X) : Adv q s s :=
  ⟨fun _ _ h => h, fun _ _ => .inr rfl, fun _ h => h, rfl, fun h => h, Nat.le_refl _, rfl, rfl, rfl⟩

theorem Adv.trans [LE T] {q : Tr → Bool} {s s' s'' : FixSt T X} (h : Adv q s s') (h' : Adv q s' s'') :
    Adv q s s'' :=
  ⟨fun t w hb => h'.less t w (h.less t w hb), fun t hq => by
    rcases h'.change t hq with h1 | h1
    · exact .inl h1
    · rcases h.change t hq with h2 | h2
      · exact .inl (h'.queued t h2)
      · exact .inr (h1.trans h2),
   fun t ht => h'.queued t (h.queued t ht), h'.acc.trans h.acc, fun h0 => h'.limit (h.limit h0),
   Nat.le_trans h.count h'.count, h'.rounds.trans h.rounds, h'.work.trans h.work, h'.done.trans h.done⟩

/-- If a transition is not queued afterwards, nothing has happened to it. -/
theorem Adv.back [LE T] {q : Tr → Bool} {s s' : FixSt T X} (h : Adv q s s') {t : Tr} (hq : q t = true)
    (hn : ¬ s'.Queued t) : s.wt t = s'.wt t ∧ ¬ s.Queued t :=
  ⟨by rcases h.change t hq with h1 | h1
      · exact absurd h1 hn
      · exact h1.symm, fun hc => hn (h.queued t hc)⟩

theorem FixSt.wt_bound [Preorder T] {s : FixSt T X} {t : Tr} {x : T} (h : s.wt t = some x) : s.Bound t x :=
  ⟨x, h, le_refl x⟩

theorem FixSt.Bound.mono [Preorder T] {s : FixSt T X} {t : Tr} {x y : T} (h : s.Bound t x) (hle : x ≤ y) :
    s.Bound t y := by
  obtain ⟨z, h1, h2⟩ := h; exact ⟨z, h1, le_trans h2 hle⟩

theorem FixSt.Bound.mem [LE T] {s : FixSt T X} {t : Tr} {x : T} (h : s.Bound t x) : t ∈ keys s.aut.edges := by
  obtain ⟨z, h1, _⟩ := h; exact s.wt_some h1

/-- Iterating a body that keeps an invariant, advances, and establishes something that advancing preserves. -/
theorem foldl_adv {S β : Type} {R : S → S → Prop} (hrefl : ∀ s, R s s) (htrans : ∀ a b c, R a b → R b c → R a c)
    (I : S → Prop) (f : S → β → S) (P : β → S → Prop) (hP : ∀ b s s', R s s' → P b s → P b s') (l : List β)
    (hf : ∀ s, ∀ b ∈ l, I s → I (f s b) ∧ R s (f s b) ∧ P b (f s b)) (s : S) (hs : I s) :
    I (l.foldl f s) ∧ R s (l.foldl f s) ∧ ∀ b ∈ l, P b (l.foldl f s) := by
  induction l generalizing s with
  | nil => exact ⟨hs, hrefl s, fun b hb => by cases hb⟩
  | cons a l ih =>
    obtain ⟨h1, h2, h3⟩ := hf s a (List.mem_cons_self ..) hs
    obtain ⟨h4, h5, h6⟩ := ih (fun s b hb hs => hf s b (List.mem_cons_of_mem _ hb) hs) (f s a) h1
    refine ⟨h4, htrans _ _ _ h2 h5, fun b hb => ?_⟩
    rcases List.mem_cons.1 hb with rfl | hb
    · exact hP _ _ _ h5 h3
    · exact h6 b hb

section
variable [LinearOrder T] [OrderBot T]

/-- What `update_edge` does in the first phase. -/
theorem fixUpdate_spec (ins : X → Tr → X) (q : Tr → Bool) (s : FixSt T X) (t : Tr) (w : T) (tr : Trace) :
    Adv q s (fixUpdate ins q false s t w tr).1 ∧
    (fixUpdate ins q false s t w tr).1.Bound t w ∧
    (fixUpdate ins q false s t w tr).1.undef = s.undef ∧
    (∀ u x, (fixUpdate ins q false s t w tr).1.wt u = some x → s.wt u = some x ∨ u = t ∧ x = w) ∧
    (∀ u, u ≠ t → (fixUpdate ins q false s t w tr).1.wt u = s.wt u) ∧
    ((fixUpdate ins q false s t w tr).2 = false → (fixUpdate ins q false s t w tr).1 = s) ∧
    ((fixUpdate ins q false s t w tr).2 = true → (fixUpdate ins q false s t w tr).1.wt t = some w) ∧
    ((t ∉ keys s.aut.edges ∧ keys (fixUpdate ins q false s t w tr).1.aut.edges = t :: keys s.aut.edges ∧
        (fixUpdate ins q false s t w tr).1.x = ins s.x t ∧
        (fixUpdate ins q false s t w tr).1.count = s.count + 1) ∨
      (t ∈ keys s.aut.edges ∧ keys (fixUpdate ins q false s t w tr).1.aut.edges = keys s.aut.edges ∧
        (fixUpdate ins q false s t w tr).1.x = s.x ∧ (fixUpdate ins q false s t w tr).1.count = s.count)) := by
  have hqueue : ∀ u, u ∈ s.next → u ∈ (if q t = true then s.next ++ [t] else s.next) := by
    intro u hu
    split
    · exact List.mem_append_left _ hu
    · exact hu
  have hself : q t = true → t ∈ (if q t = true then s.next ++ [t] else s.next) := by
    intro h; rw [if_pos h]; exact List.mem_append_right _ (List.mem_singleton.2 rfl)
  unfold fixUpdate
  split
  · rename_i h0
    simp only [Bool.false_eq_true, if_false]
    have hnone : s.wt t = none := by show Option.map _ _ = none; rw [h0]; rfl
    refine ⟨⟨?_, ?_, ?_, emplace_acc _ _ _, fun _ => rfl, Nat.le_succ _, rfl, rfl, rfl⟩, ?_, by trivial, ?_, ?_, ?_, ?_, ?_⟩
    · rintro u x ⟨y, hy, hle⟩
      refine ⟨y, ?_, hle⟩
      rw [wt_emplace h0 rfl, if_neg ?_]
      · exact hy
      · rintro rfl; rw [hnone] at hy; cases hy
    · intro u hu
      by_cases h : u = t
      · subst h; exact .inl (.inr (hself hu))
      · right; rw [wt_emplace h0 rfl, if_neg h]
    · rintro u (h | h)
      · exact .inl h
      · exact .inr (hqueue u h)
    · exact ⟨w, by rw [wt_emplace h0 rfl, if_pos rfl], le_refl w⟩
    · intro u x hx
      rw [wt_emplace h0 rfl] at hx
      split at hx
      · rename_i h; cases hx; exact .inr ⟨h, rfl⟩
      · exact .inl hx
    · intro u hu; rw [wt_emplace h0 rfl, if_neg hu]
    · intro h; cases h
    · intro _; rw [wt_emplace h0 rfl, if_pos rfl]
    · left
      refine ⟨(getEdge_none_iff _ _).1 h0, ?_, by trivial, by trivial⟩
      unfold keys
      rw [keys_emplace _ _ _ h0]; rfl
  · rename_i tr1 tr2 y h0
    have hy : s.wt t = some y := by show Option.map _ _ = _; rw [h0]; rfl
    have hk : t ∈ keys s.aut.edges := s.wt_some hy
    split
    · rename_i hlt
      simp only [Bool.false_eq_true, if_false]
      refine ⟨⟨?_, ?_, ?_, rfl, fun h => h, Nat.le_refl _, rfl, rfl, rfl⟩, ?_, by trivial, ?_, ?_, ?_, ?_, ?_⟩
      · rintro u x ⟨z, hz, hle⟩
        by_cases h : u = t
        · subst h
          rw [hy] at hz; cases hz
          exact ⟨w, by rw [wt_set hk rfl, if_pos rfl], le_trans (le_of_lt hlt) hle⟩
        · exact ⟨z, by rw [wt_set hk rfl, if_neg h]; exact hz, hle⟩
      · intro u hu
        by_cases h : u = t
        · subst h; exact .inl (.inr (hself hu))
        · right; rw [wt_set hk rfl, if_neg h]
      · rintro u (h | h)
        · exact .inl h
        · exact .inr (hqueue u h)
      · exact ⟨w, by rw [wt_set hk rfl, if_pos rfl], le_refl w⟩
      · intro u x hx
        rw [wt_set hk rfl] at hx
        split at hx
        · rename_i h; cases hx; exact .inr ⟨h, rfl⟩
        · exact .inl hx
      · intro u hu; rw [wt_set hk rfl, if_neg hu]
      · intro h; cases h
      · intro _; rw [wt_set hk rfl, if_pos rfl]
      · right
        exact ⟨hk, keys_set _ _ _, by trivial, by trivial⟩
    · rename_i hlt
      refine ⟨Adv.refl _ _, ⟨y, hy, not_lt.1 hlt⟩, rfl, fun u x hx => .inl hx, fun u _ => rfl, fun _ => rfl, ?_, ?_⟩
      · intro h; cases h
      · right; exact ⟨hk, rfl, rfl, rfl⟩

theorem mem_uniqTr (l : List Tr) (t : Tr) : t ∈ uniqTr l ↔ t ∈ l := by
  induction l with
  | nil => simp [uniqTr]
  | cons a l ih =>
    rw [uniqTr]
    split
    · rename_i h
      rw [h] at ih
      have : t ∉ l := by rw [← ih]; simp
      simp [this]
    · rename_i b l' h
      rw [h] at ih
      split
      · rename_i hab
        subst hab
        rw [ih, List.mem_cons]
        constructor
        · exact .inr
        · rintro (rfl | h1)
          · exact ih.1 (List.mem_cons_self ..)
          · exact h1
      · rw [List.mem_cons, ih, List.mem_cons]

/-- The states in which `step_with` is called, seen from `step`: one transition is removed from the workset. -/
theorem fixStep_cases (stepWith : Bool → FixSt T X → Tr → FixSt T X) (bot : Bool) (s : FixSt T X) :
    (s.workset = [] ∧ s.next = [] ∧ fixStep stepWith bot s = { s with rounds := s.rounds + 1, done := true }) ∨
    ∃ t ws, (∀ u, s.Queued u ↔ u = t ∨ u ∈ ws ∨ u ∈ s.next ∧ s.workset ≠ []) ∧
      ((s.workset = [] ∧ fixStep stepWith bot s =
          stepWith bot { s with rounds := s.rounds + 1, workset := ws, next := [] } t) ∨
        (s.workset ≠ [] ∧ ws.length < s.workset.length ∧
          fixStep stepWith bot s = stepWith bot { s with workset := ws } t)) := by
  have pop : ∀ (r : FixSt T X), r.workset ≠ [] → ∃ t ws, (∀ u, u ∈ r.workset ↔ u = t ∨ u ∈ ws) ∧
      ws.length < r.workset.length ∧ fixPop stepWith bot r = stepWith bot { r with workset := ws } t := by
    intro r hr
    refine ⟨r.workset.getLast hr, r.workset.dropLast, ?_, ?_, ?_⟩
    · intro u
      conv => lhs; rw [← List.dropLast_append_getLast hr]
      rw [List.mem_append, List.mem_singleton, or_comm]
    · rw [List.length_dropLast]
      have := List.length_pos_iff.2 hr
      omega
    · unfold fixPop
      rw [List.getLast?_eq_some_getLast hr]
  by_cases h1 : s.workset = []
  · by_cases h2 : s.next = []
    · left; refine ⟨h1, h2, ?_⟩
      unfold fixStep; rw [if_pos h1, if_pos h2]
    · right
      have hne : uniqTr (sortBy trLt s.next) ≠ [] := by
        obtain ⟨a, ha⟩ := List.exists_mem_of_ne_nil _ h2
        exact List.ne_nil_of_mem ((mem_uniqTr _ _).2 ((mem_sortBy trLt _ _).2 ha))
      obtain ⟨t, ws, h3, _, h5⟩ := pop { s with rounds := s.rounds + 1, workset := uniqTr (sortBy trLt s.next), next := [] } hne
      refine ⟨t, ws, ?_, .inl ⟨h1, ?_⟩⟩
      · intro u
        unfold FixSt.Queued
        rw [h1]
        have := h3 u
        rw [mem_uniqTr, mem_sortBy] at this
        rw [this]
        simp
      · unfold fixStep; rw [if_pos h1, if_neg h2]; exact h5
  · right
    obtain ⟨t, ws, h3, h4, h5⟩ := pop s h1
    refine ⟨t, ws, ?_, .inr ⟨h1, h4, ?_⟩⟩
    · intro u
      unfold FixSt.Queued
      rw [h3 u]
      simp [h1, or_assoc]
    · unfold fixStep; rw [if_neg h1]; exact h5

/-- A loop with round limit ends if processing a transition neither touches the rounds and the workset nor lowers
the limit, which stays bounded. -/
theorem fixLoop_terminates (stepWith : Bool → FixSt T X → Tr → FixSt T X) (bot : Bool) (B : Nat)
    (I : FixSt T X → Prop) (hI : ∀ s, I s → s.isDone = false → I (fixStep stepWith bot s))
    (hB : ∀ s, I s → s.limit ≤ B)
    (hw : ∀ s t, (stepWith bot s t).workset = s.workset ∧ (stepWith bot s t).rounds = s.rounds)
    (hl : ∀ s, I s → s.limit ≤ (fixStep stepWith bot s).limit) (s : FixSt T X) (hs : I s) (hr : s.rounds ≤ s.limit) :
    ∃ fuel r, fixLoop stepWith bot fuel s = some r := by
  refine FP.whileSome_wf (fun s : FixSt T X => if s.done then 0 else B + 1 - s.rounds) (fun s => s.workset.length)
    (fun s => I s ∧ s.rounds ≤ s.limit) ?_ s ⟨hs, hr⟩
  rintro s s' ⟨hs, hr⟩ hstep
  split at hstep
  · cases hstep
  · rename_i hd
    have hd : s.isDone = false := by simpa using hd
    cases hstep
    have hi := hI s hs hd
    have hb := hB s hs
    have hl := hl s hs
    unfold FixSt.isDone at hd
    rw [Bool.or_eq_false_iff] at hd
    obtain ⟨hd1, hd2⟩ := hd
    have hlt : s.rounds < s.limit := by
      have : s.rounds ≠ s.limit := by simpa using hd2
      omega
    rcases fixStep_cases stepWith bot s with ⟨h1, h2, h3⟩ | ⟨t, ws, _, ⟨h1, h3⟩ | ⟨h1, h2, h3⟩⟩
    · rw [h3]
      refine ⟨⟨h3 ▸ hi, by dsimp only; omega⟩, .inl ?_⟩
      simp only [if_true, hd1, Bool.false_eq_true, if_false]
      omega
    · have hrr := (hw { s with rounds := s.rounds + 1, workset := ws, next := [] } t).2
      rw [← h3] at hrr
      dsimp only at hrr
      refine ⟨⟨hi, by rw [hrr]; omega⟩, .inl ?_⟩
      simp only [hd1, Bool.false_eq_true, if_false, hrr]
      split <;> omega
    · have hrr := hw { s with workset := ws } t
      rw [← h3] at hrr
      dsimp only at hrr
      refine ⟨⟨hi, by rw [hrr.2]; omega⟩, ?_⟩
      simp only [hd1, Bool.false_eq_true, if_false, hrr.1, hrr.2]
      by_cases hd' : (fixStep stepWith bot s).done = true
      · left; rw [if_pos hd']; omega
      · right; rw [if_neg hd']; exact ⟨rfl, h2⟩

end

end Verif
