import Verif.Proofs.ShortestPath
import Verif.Proofs.Built
import Verif.Spec.ShortestPath
import Mathlib.Algebra.Order.Monoid.Defs

/-! # `accept_path<Trace_Type::Shortest>` -/

namespace Verif.Aut

variable {T : Type} [LinearOrder T] [AddCommMonoid T]

omit [LinearOrder T] [AddCommMonoid T] in
theorem wt_mem_outTos (h : HashOrder) {a : Aut T} {t : Tr} {x : T} (ht : a.wt t = some x) : t.dst ∈ a.outTos h t.src := by
  unfold Aut.wt Aut.getEdge at ht
  rw [Option.map_eq_some_iff] at ht
  obtain ⟨_, h1, _⟩ := ht
  rw [Option.map_eq_some_iff] at h1
  obtain ⟨e, h1, _⟩ := h1
  have h2 := List.find?_some h1
  simp only [beq_iff_eq] at h2
  rw [Aut.mem_outTos]
  refine ⟨t.label, ?_⟩
  exact List.mem_map.2 ⟨e, List.mem_of_find?_eq_some h1, h2⟩

/-- Nodes that are reached: the index is in the stack, and an element at the end is at an accepting state. -/
theorem mem_spSucc (h : HashOrder) (a : Aut T) (w : List Nat) (e e' : SpElem T) :
    e' ∈ a.spSucc h w e ↔
      (∃ dst x, a.wt ⟨e.node.1, w.getD e.node.2 0, dst⟩ = some x ∧ (e.node.2 + 1 < w.length ∨ a.isAcc dst = true) ∧
        e' = ⟨e.weight + x, (dst, e.node.2 + 1), e.node :: e.back⟩) ∨
      ∃ dst x, a.wt ⟨e.node.1, epsilon, dst⟩ = some x ∧ e' = ⟨e.weight + x, (dst, e.node.2), e.back⟩ := by
  unfold spSucc spRead spEps
  simp only [List.mem_flatMap, List.mem_append]
  constructor
  · rintro ⟨dst, _, he | he⟩
    · split at he
      · rename_i x hx
        split at he
        · rename_i hb
          rw [List.mem_singleton] at he
          exact .inl ⟨dst, x, hx, by simpa using hb, he⟩
        · cases he
      · cases he
    · split at he
      · rename_i x hx
        rw [List.mem_singleton] at he
        exact .inr ⟨dst, x, hx, he⟩
      · cases he
  · rintro (⟨dst, x, hx, hb, he⟩ | ⟨dst, x, hx, he⟩)
    · refine ⟨dst, wt_mem_outTos h hx, .inl ?_⟩
      rw [hx]
      have : (decide (e.node.2 + 1 < w.length) || a.isAcc dst) = true := by simpa using hb
      simp only [this, if_true]
      exact List.mem_singleton.2 he
    · refine ⟨dst, wt_mem_outTos h hx, .inr ?_⟩
      rw [hx]
      exact List.mem_singleton.2 he

theorem sp_ok [IsOrderedAddMonoid T] (h : HashOrder) (a : Aut T) (w : List Nat) (hn : ∀ t x, a.wt t = some x → 0 ≤ x) :
    DOK (a.spSucc h w) := by
  constructor
  · intro e e' he
    rw [mem_spSucc] at he
    rcases he with ⟨dst, x, hx, _, rfl⟩ | ⟨dst, x, hx, rfl⟩
    · exact le_add_of_nonneg_right (hn _ _ hx)
    · exact le_add_of_nonneg_right (hn _ _ hx)
  · intro e f hnode hle f' hf'
    rw [mem_spSucc] at hf'
    rcases hf' with ⟨dst, x, hx, hb, rfl⟩ | ⟨dst, x, hx, rfl⟩
    · exact ⟨_, (mem_spSucc ..).2 (.inl ⟨dst, x, by rw [hnode]; exact hx, by rw [hnode]; exact hb, rfl⟩), by rw [hnode],
        add_le_add hle le_rfl⟩
    · exact ⟨_, (mem_spSucc ..).2 (.inr ⟨dst, x, by rw [hnode]; exact hx, rfl⟩), by rw [hnode], add_le_add hle le_rfl⟩

/-- The search of `accept_path`. -/
abbrev SpReach (h : HashOrder) (a : Aut T) (q : Nat) (w : List Nat) : SpElem T → Prop :=
  DReach (fun n => n.2 == w.length) [⟨0, (q, 0), []⟩] (a.spSucc h w)

/-- What is known of the elements of the queue. -/
structure SpInv (a : Aut T) (q : Nat) (w : List Nat) (e : SpElem T) : Prop where
  le : e.node.2 ≤ w.length
  acc : e.node.2 = w.length → a.isAcc e.node.1 = true
  idx : e.back.map Prod.snd = (List.range e.node.2).reverse
  run : ∀ qs y, CostReads (fun t x => a.wt t = some x) e.node.1 qs (w.drop e.node.2) y →
    CostReads (fun t x => a.wt t = some x) q ((e.back.map Prod.fst).reverse ++ qs) w (e.weight + y)

theorem sp_sound (h : HashOrder) (a : Aut T) (q : Nat) {w : List Nat} (hw : w ≠ []) {e : SpElem T}
    (he : SpReach h a q w e) : SpInv a q w e := by
  induction he with
  | @start e he =>
    rw [List.mem_singleton] at he
    subst he
    refine ⟨Nat.zero_le _, fun h => ?_, rfl, fun qs y hy => by simpa using hy⟩
    exact absurd (List.length_eq_zero_iff.1 h.symm) hw
  | @step e e' _ hg he' ih =>
    rw [beq_eq_false_iff_ne] at hg
    have hlt : e.node.2 < w.length := Nat.lt_of_le_of_ne ih.le hg
    have hdrop : w.drop e.node.2 = w.getD e.node.2 0 :: w.drop (e.node.2 + 1) := by
      rw [List.drop_eq_getElem_cons hlt]
      simp [List.getD_eq_getElem?_getD, List.getElem?_eq_getElem hlt]
    rw [mem_spSucc] at he'
    rcases he' with ⟨dst, x, hx, hb, rfl⟩ | ⟨dst, x, hx, rfl⟩
    · refine ⟨hlt, ?_, ?_, ?_⟩
      · intro heq
        dsimp only at heq
        rcases hb with hb | hb
        · omega
        · exact hb
      · dsimp only
        rw [List.map_cons, ih.idx, List.range_succ]
        simp
      · intro qs y hy
        dsimp only at hy ⊢
        have := ih.run (e.node.1 :: qs) (x + y) (by rw [hdrop]; exact .cons hx hy)
        rw [add_assoc]
        simpa using this
    · refine ⟨ih.le, fun heq => absurd heq hg, ih.idx, ?_⟩
      intro qs y hy
      dsimp only at hy ⊢
      have := ih.run qs (x + y) (by rw [hdrop] at hy ⊢; exact .eps hx hy)
      rw [add_assoc]
      exact this

omit [LinearOrder T] in
theorem _root_.Verif.CostReads.ne_nil {E : Tr → T → Prop} {q : Nat} {qs w : List Nat} {x : T} (hr : CostReads E q qs w x) :
    qs ≠ [] := by
  induction hr with
  | nil => simp
  | cons => simp
  | eps _ _ ih => exact ih

theorem sp_complete (h : HashOrder) (a : Aut T) (q : Nat) {w : List Nat} {s i : Nat} {qs v : List Nat} {y : T}
    (hr : CostReads (fun t x => a.wt t = some x) s qs v y) {f : Nat} (hl : qs.getLast? = some f) (hf : a.isAcc f = true)
    (hv : v = w.drop i) (e : SpElem T) (he : SpReach h a q w e) (hn : e.node = (s, i)) (hi : i ≤ w.length) :
    ∃ e', SpReach h a q w e' ∧ e'.node.2 = w.length ∧ e'.weight = e.weight + y := by
  induction hr generalizing i e with
  | nil s =>
    refine ⟨e, he, ?_, (add_zero _).symm⟩
    rw [hn]
    have := congrArg List.length hv
    simp only [List.length_nil, List.length_drop] at this
    show i = w.length
    omega
  | @cons s g r qs v x y ht hr ih =>
    have hlt : i < w.length := by
      have := congrArg List.length hv
      simp only [List.length_cons, List.length_drop] at this
      omega
    rw [List.drop_eq_getElem_cons hlt, List.cons.injEq] at hv
    have hg : w.getD i 0 = g := by
      rw [hv.1]
      simp [List.getD_eq_getElem?_getD, List.getElem?_eq_getElem hlt]
    have hne : qs ≠ [] := hr.ne_nil
    have hl' : qs.getLast? = some f := by
      cases qs with
      | nil => exact absurd rfl hne
      | cons a l => simpa [List.getLast?_cons_cons] using hl
    have hacc : i + 1 < w.length ∨ a.isAcc r = true := by
      by_cases hlast : i + 1 < w.length
      · exact .inl hlast
      · right
        have hv2 : v = [] := by rw [hv.2]; exact List.drop_eq_nil_of_le (by omega)
        subst hv2
        cases hr with
        | nil => simp only [List.getLast?_singleton, Option.some.injEq] at hl'; rw [hl']; exact hf
    obtain ⟨e', h1, h2, h3⟩ := ih (i := i + 1) hl' hv.2 ⟨e.weight + x, (r, i + 1), e.node :: e.back⟩
      (.step he (by rw [beq_eq_false_iff_ne, hn]; show i ≠ w.length; omega) ((mem_spSucc ..).2 (.inl ⟨r, x, by rw [hn]; dsimp only; rw [hg]; exact ht,
        by rw [hn]; exact hacc, by rw [hn]⟩))) rfl (by omega)
    exact ⟨e', h1, h2, by rw [h3, add_assoc]⟩
  | @eps s g r qs v x y ht hr ih =>
    have hlt : i < w.length := by
      have := congrArg List.length hv
      simp only [List.length_cons, List.length_drop] at this
      omega
    obtain ⟨e', h1, h2, h3⟩ := ih (i := i) hl hv ⟨e.weight + x, (r, i), e.back⟩
      (.step he (by rw [beq_eq_false_iff_ne, hn]; show i ≠ w.length; omega) ((mem_spSucc ..).2 (.inr ⟨r, x, by rw [hn]; exact ht,
        by rw [hn]⟩))) rfl hi
    exact ⟨e', h1, h2, by rw [h3, add_assoc]⟩

theorem set_chain (back : List (Nat × Nat)) (i : Nat) (pre suf : List Nat) (hp : pre.length = i)
    (hb : back.map Prod.snd = (List.range i).reverse) :
    back.foldl (fun path x => path.set x.2 x.1) (pre ++ suf) = (back.map Prod.fst).reverse ++ suf := by
  induction i generalizing back pre suf with
  | zero =>
    cases back with
    | nil => simp [List.length_eq_zero_iff.1 hp]
    | cons => simp at hb
  | succ i ih =>
    cases back with
    | nil => simp [List.range_succ] at hb
    | cons x back =>
      rw [List.range_succ, List.reverse_append, List.map_cons, List.reverse_singleton, List.singleton_append, List.cons.injEq] at hb
      have hpre : pre = pre.take i ++ [pre.getD i 0] := by
        conv => lhs; rw [← List.take_append_drop i pre]
        congr 1
        rw [List.drop_eq_getElem_cons (by omega), List.drop_eq_nil_of_le (by omega)]
        simp [List.getD_eq_getElem?_getD, List.getElem?_eq_getElem (show i < pre.length by omega)]
      have hlen : (pre.take i).length = i := by simp; omega
      rw [List.foldl_cons, hb.1, hpre, List.append_assoc, List.set_append, if_neg (by omega), hlen, Nat.sub_self,
        List.singleton_append, List.set_cons_zero, ih back (pre.take i) (x.1 :: suf) (by simp; omega) hb.2]
      simp

theorem spPath_eq {a : Aut T} {q : Nat} {w : List Nat} {e : SpElem T} (hi : SpInv a q w e) (hg : e.node.2 = w.length) :
    spPath w e = (e.back.map Prod.fst).reverse ++ [e.node.1] := by
  unfold spPath
  rw [List.replicate_succ', List.set_append, if_neg (by rw [List.length_replicate]; omega), List.length_replicate, hg,
    Nat.sub_self, List.set_cons_zero]
  exact set_chain _ w.length _ _ (by simp) (by rw [← hg]; exact hi.idx)

/-- `accept_path` returns the states and the weight of a lightest path, or nothing and `max()` if there is none. -/
theorem acceptPathShortest_spec [IsOrderedAddMonoid T] (hp : Heap (SpElem T) T DElem.weight) (h : HashOrder) (a : Aut T)
    (hn : ∀ t x, a.wt t = some x → 0 ≤ x) (q : Nat) (w : List Nat) (fuel : Nat) (path : List Nat) (m : WithTop T)
    (hres : a.acceptPathShortest hp h q w fuel = some (path, m)) :
    (m = ⊤ ∧ path = [] ∧ ReadWeights (fun t x => a.wt t = some x) (fun f => a.isAcc f = true) (q, w) = {}) ∨
    ∃ x : T, m = x ∧ CostReads (fun t x => a.wt t = some x) q path w x ∧ (∃ f, path.getLast? = some f ∧ a.isAcc f = true) ∧
      IsLeast (ReadWeights (fun t x => a.wt t = some x) (fun f => a.isAcc f = true) (q, w)) x := by
  unfold acceptPathShortest at hres
  by_cases hw : w = []
  · subst hw
    simp only [List.isEmpty_nil, if_true, Option.some.injEq] at hres
    split at hres
    · rename_i hacc
      rw [Prod.mk.injEq] at hres
      refine .inr ⟨0, hres.2.symm, by rw [← hres.1]; exact .nil q, ⟨q, by rw [← hres.1]; rfl, hacc⟩, ⟨[q], q, .nil q, rfl, hacc⟩, ?_⟩
      rintro x ⟨qs, f, hr, _⟩
      cases hr
      exact le_refl _
    · rename_i hacc
      rw [Prod.mk.injEq] at hres
      refine .inl ⟨hres.2.symm, hres.1.symm, ?_⟩
      refine Set.ext fun x => ⟨?_, fun hx => hx.elim⟩
      rintro ⟨qs, f, hr, hl, hf⟩
      cases hr
      simp only [List.getLast?_singleton, Option.some.injEq] at hl
      exact hacc (by rw [hl]; exact hf)
  · rw [if_neg (by simpa using hw), Option.map_eq_some_iff] at hres
    obtain ⟨res, h1, h2⟩ := hres
    have hspec := dLoop_inv hp (sp_ok h a w hn) fuel _ _ (DInv.init ..) res h1
    have comp : ∀ x, x ∈ ReadWeights (fun t x => a.wt t = some x) (fun f => a.isAcc f = true) (q, w) →
        ∃ e', SpReach h a q w e' ∧ e'.node.2 = w.length ∧ e'.weight = x := by
      rintro x ⟨qs, f, hr, hl, hf⟩
      obtain ⟨e', h3, h4, h5⟩ := sp_complete h a q (i := 0) hr hl hf rfl ⟨0, (q, 0), []⟩ (.start (List.mem_singleton.2 rfl)) rfl (Nat.zero_le _)
      exact ⟨e', h3, h4, by rw [h5]; exact zero_add x⟩
    cases res with
    | none =>
      rw [Prod.mk.injEq] at h2
      refine .inl ⟨h2.2.symm, h2.1.symm, ?_⟩
      refine Set.ext fun x => ⟨fun hx => ?_, fun hx => hx.elim⟩
      obtain ⟨e', h3, h4, _⟩ := comp x hx
      have := hspec e' h3
      rw [beq_eq_false_iff_ne] at this
      exact this h4
    | some e =>
      rw [Prod.mk.injEq] at h2
      obtain ⟨hr, hg, hmin⟩ := hspec
      rw [beq_iff_eq] at hg
      have hi := sp_sound h a q hw hr
      have hpath := hi.run [e.node.1] 0 (by rw [hg, List.drop_eq_nil_of_le (Nat.le_refl _)]; exact .nil _)
      rw [add_zero, ← spPath_eq hi hg, h2.1] at hpath
      have hlast : path.getLast? = some e.node.1 := by rw [← h2.1, spPath_eq hi hg]; simp
      refine .inr ⟨e.weight, h2.2.symm, hpath, ⟨_, hlast, hi.acc hg⟩, ⟨_, _, hpath, hlast, hi.acc hg⟩, ?_⟩
      intro x hx
      obtain ⟨e', h3, h4, h5⟩ := comp x hx
      rw [← h5]
      exact hmin e' h3 (by rw [beq_iff_eq]; exact h4)

/-- `accept_path` ends. -/
theorem acceptPathShortest_terminates [IsOrderedAddMonoid T] (hp : Heap (SpElem T) T DElem.weight) (h : HashOrder) (a : Aut T)
    (hn : ∀ t x, a.wt t = some x → 0 ≤ x) (q : Nat) (w : List Nat) :
    ∃ fuel res, a.acceptPathShortest hp h q w fuel = some res := by
  by_cases hw : w = []
  · exact ⟨0, _, by unfold acceptPathShortest; rw [if_pos (by simpa using hw)]⟩
  · have hU : ∀ e, SpReach h a q w e → e.node ∈ (q :: (keys a.edges).map Tr.dst).flatMap fun s => (List.range (w.length + 1)).map fun i => (s, i) := by
      intro e he
      have hi := sp_sound h a q hw he
      rw [List.mem_flatMap]
      refine ⟨e.node.1, ?_, List.mem_map.2 ⟨e.node.2, List.mem_range.2 (by have := hi.le; omega), rfl⟩⟩
      have key : ∀ t x, a.wt t = some x → t.dst ∈ q :: (keys a.edges).map Tr.dst := by
        intro t x ht
        have := wt_mem_outTos HashOrder.id ht
        rw [Aut.mem_outTos] at this
        obtain ⟨l, hl⟩ := this
        exact List.mem_cons_of_mem _ (List.mem_map.2 ⟨_, hl, rfl⟩)
      cases he with
      | start he => rw [List.mem_singleton] at he; subst he; exact List.mem_cons_self ..
      | step _ _ he =>
        rw [mem_spSucc] at he
        rcases he with ⟨dst, x, hx, _, rfl⟩ | ⟨dst, x, hx, rfl⟩
        · exact key _ _ hx
        · exact key _ _ hx
    obtain ⟨fuel, res, hres⟩ := dLoop_terminates hp (sp_ok h a w hn) _ hU _ _ _ (fun _ => none) rfl rfl
      (fun e he => .start he) (fun _ _ h => by cases h)
    exact ⟨fuel, _, by unfold acceptPathShortest; rw [if_neg (by simpa using hw), hres]; rfl⟩

end Verif.Aut
