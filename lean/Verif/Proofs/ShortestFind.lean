import Verif.Proofs.ShortestAccept
import Verif.Proofs.ShortestPostFinal
import Verif.Proofs.FixedPoint
import Verif.Proofs.FindPath

/-! # `find_path_shortest` -/

namespace Verif.Aut

variable {T : Type} [LinearOrder T] [AddCommMonoid T]

omit [LinearOrder T] [AddCommMonoid T] in
theorem wt_iff_mem {a : Aut T} (hn : (keys a.edges).Nodup) (t : Tr) (x : T) :
    a.wt t = some x ↔ ∃ tr, (t, tr, x) ∈ a.edges := by
  unfold Aut.wt Aut.getEdge
  constructor
  · intro h
    rw [Option.map_eq_some_iff] at h
    obtain ⟨⟨tr, _⟩, h1, rfl⟩ := h
    rw [Option.map_eq_some_iff] at h1
    obtain ⟨e, h1, h2⟩ := h1
    have h3 := List.find?_some h1
    simp only [beq_iff_eq] at h3
    refine ⟨tr, ?_⟩
    rw [← h3, ← h2]
    exact List.mem_of_find?_eq_some h1
  · rintro ⟨tr, h⟩
    cases hf : a.edges.find? (fun e => e.1 == t) with
    | none =>
      rw [List.find?_eq_none] at hf
      exact absurd (hf _ h) (by simp)
    | some e =>
      have h3 := List.find?_some hf
      simp only [beq_iff_eq] at h3
      have h4 := List.mem_of_find?_eq_some hf
      have : e = (t, tr, x) := by
        by_contra hne
        exact List.inj_on_of_nodup_map hn h4 h h3 |> hne
      rw [this]
      rfl

omit [AddCommMonoid T] in
theorem mem_labelsTo {a : Aut T} (hn : (keys a.edges).Nodup) (q dst g : Nat) (x : T) :
    (g, x) ∈ a.labelsTo q dst ↔ a.wt ⟨q, g, dst⟩ = some x := by
  rw [wt_iff_mem hn]
  unfold labelsTo
  simp only [mem_sortBy, List.mem_map, List.mem_filter, Bool.and_eq_true, beq_iff_eq]
  constructor
  · rintro ⟨⟨⟨s, g', d⟩, tr, y⟩, ⟨h1, rfl, rfl⟩, h2⟩
    rw [Prod.mk.injEq] at h2
    obtain ⟨rfl, rfl⟩ := h2
    exact ⟨tr, h1⟩
  · rintro ⟨tr, h⟩
    exact ⟨_, ⟨h, rfl, rfl⟩, rfl⟩

/-- One lightest transition to each successor. -/
theorem mem_fpSucc (h : HashOrder) {a : Aut T} (hn : (keys a.edges).Nodup) (e e' : FpElem T) :
    e' ∈ a.fpSucc h e ↔ ∃ dst g x, minElement (a.labelsTo e.node dst) = some (g, x) ∧
      e' = ⟨e.weight + x, dst, (g, (e.node, e.back.1) :: e.back.2)⟩ := by
  unfold fpSucc
  simp only [List.mem_flatMap]
  constructor
  · rintro ⟨dst, _, he⟩
    split at he
    · rename_i g x hx
      rw [List.mem_singleton] at he
      exact ⟨dst, g, x, hx, he⟩
    · cases he
  · rintro ⟨dst, g, x, hx, he⟩
    refine ⟨dst, wt_mem_outTos h ((mem_labelsTo hn _ _ _ _).1 (FP.minElement_spec.2 _ hx).1), ?_⟩
    rw [hx]
    exact List.mem_singleton.2 he

theorem fp_ok [IsOrderedAddMonoid T] (h : HashOrder) {a : Aut T} (hd : (keys a.edges).Nodup)
    (hn : ∀ t x, a.wt t = some x → 0 ≤ x) : DOK (a.fpSucc h) := by
  constructor
  · intro e e' he
    rw [mem_fpSucc h hd] at he
    obtain ⟨dst, g, x, hx, rfl⟩ := he
    exact le_add_of_nonneg_right (hn _ _ ((mem_labelsTo hd _ _ _ _).1 (FP.minElement_spec.2 _ hx).1))
  · intro e f hnode hle f' hf'
    rw [mem_fpSucc h hd] at hf'
    obtain ⟨dst, g, x, hx, rfl⟩ := hf'
    exact ⟨_, (mem_fpSucc h hd ..).2 ⟨dst, g, x, by rw [hnode]; exact hx, rfl⟩, rfl, add_le_add hle le_rfl⟩

/-- The search of `find_path_shortest`. -/
abbrev FpReach (h : HashOrder) (size : Nat) (a : Aut T) : FpElem T → Prop :=
  DReach (fun q => a.isAcc q) ((List.range size).map fun i => ⟨0, i, (epsilon, [])⟩) (a.fpSucc h)

/-- What is known of the elements of the queue. -/
def FpInv (size : Nat) (a : Aut T) (e : FpElem T) : Prop :=
  ∀ (p : APath Nat) (y : T), p.frontState = e.node → CostSpells (fun t x => a.wt t = some x) p.states p.stack y →
    CostSpells (fun t x => a.wt t = some x) (fpBack p e.back.1 e.back.2).states (fpBack p e.back.1 e.back.2).stack (e.weight + y) ∧
    (fpBack p e.back.1 e.back.2).frontState < size ∧ (fpBack p e.back.1 e.back.2).fin = p.fin

theorem fp_sound (h : HashOrder) (size : Nat) {a : Aut T} (hd : (keys a.edges).Nodup) {e : FpElem T}
    (he : FpReach h size a e) : FpInv size a e := by
  induction he with
  | @start e he =>
    obtain ⟨i, hi, rfl⟩ := List.mem_map.1 he
    intro p y hp hy
    refine ⟨by rw [zero_add]; exact hy, ?_, rfl⟩
    show p.frontState < size
    rw [hp]
    exact List.mem_range.1 hi
  | @step e e' _ hg he' ih =>
    rw [mem_fpSucc h hd] at he'
    obtain ⟨dst, g, x, hx, rfl⟩ := he'
    have hx := (mem_labelsTo hd _ _ _ _).1 (FP.minElement_spec.2 _ hx).1
    intro p y hp hy
    have := ih (p.emplace e.node g) (x + y) rfl (by
      have hs : (p.emplace e.node g).stack = g :: p.stack := by rw [APath.stack_eq, APath.stack_eq]; rfl
      have hst : (p.emplace e.node g).states = e.node :: p.states := rfl
      obtain ⟨qs, hqs⟩ : ∃ qs, p.states = dst :: qs := by
        have h1 := p.head_states
        rw [hp] at h1
        cases hp2 : p.states with
        | nil => rw [hp2] at h1; cases h1
        | cons b qs =>
          rw [hp2, List.head?_cons, Option.some.injEq] at h1
          exact ⟨qs, by rw [h1]⟩
      rw [hs, hst, hqs]
      exact ⟨x, y, hx, by rw [← hqs]; exact hy, rfl⟩)
    rw [← add_assoc] at this
    exact this

theorem fp_complete [IsOrderedAddMonoid T] (h : HashOrder) (size : Nat) {a : Aut T} (hd : (keys a.edges).Nodup)
    (hn : ∀ t x, a.wt t = some x → 0 ≤ x) {q f : Nat} {w : List Nat} {y : T}
    (hr : CostPath (fun t x => a.wt t = some x) q w y f) (hf : a.isAcc f = true) (e : FpElem T) (he : FpReach h size a e)
    (hq : e.node = q) : 0 ≤ y ∧ ∃ e', FpReach h size a e' ∧ a.isAcc e'.node = true ∧ e'.weight ≤ e.weight + y := by
  have hpos : ∀ {q f : Nat} {w : List Nat} {y : T}, CostPath (fun t x => a.wt t = some x) q w y f → 0 ≤ y := by
    intro q f w y hr
    induction hr with
    | nil => exact le_rfl
    | cons ht _ ih => exact add_nonneg (hn _ _ ht) ih
  refine ⟨hpos hr, ?_⟩
  induction hr generalizing e with
  | nil q => exact ⟨e, he, by rw [hq]; exact hf, by rw [add_zero]⟩
  | @cons q g r f w x y ht hr ih =>
    cases hacc : a.isAcc e.node with
    | true => exact ⟨e, he, hacc, le_add_of_nonneg_right (add_nonneg (hn _ _ ht) (hpos hr))⟩
    | false =>
      have hl := (mem_labelsTo hd _ _ _ _).2 ht
      rw [← hq] at hl
      rcases hm : minElement (a.labelsTo e.node r) with _ | ⟨g', x'⟩
      · rw [FP.minElement_spec.1 hm] at hl
        cases hl
      · obtain ⟨e', h1, h2, h3⟩ := ih hf ⟨e.weight + x', r, (g', (e.node, e.back.1) :: e.back.2)⟩
          (.step he hacc ((mem_fpSucc h hd ..).2 ⟨r, g', x', hm, rfl⟩)) rfl
        refine ⟨e', h1, h2, le_trans h3 ?_⟩
        dsimp only
        rw [← add_assoc]
        exact add_le_add (add_le_add le_rfl ((FP.minElement_spec.2 _ hm).2 _ hl)) le_rfl

/-- `find_path_shortest` returns a lightest accepting path, or the null path and `max()` if there is none. -/
theorem findPathShortest_spec [IsOrderedAddMonoid T] (hp : Heap (FpElem T) T DElem.weight) (h : HashOrder) (size : Nat)
    {a : Aut T} (hd : (keys a.edges).Nodup) (hn : ∀ t x, a.wt t = some x → 0 ≤ x) (fuel : Nat) (p : APath Nat) (m : WithTop T)
    (hres : a.findPathShortest hp h size fuel = some (p, m)) :
    (m = ⊤ ∧ p = APath.null ∧ ∀ q w, q < size → PathWeights (fun t x => a.wt t = some x) (fun f => a.isAcc f = true) (q, w) = {}) ∨
    ∃ x : T, m = x ∧ p.frontState < size ∧ a.isAcc p.fin = true ∧
      CostSpells (fun t x => a.wt t = some x) p.states p.stack x ∧
      ∀ q w, q < size → ∀ y ∈ PathWeights (fun t x => a.wt t = some x) (fun f => a.isAcc f = true) (q, w), x ≤ y := by
  unfold findPathShortest at hres
  rw [Option.map_eq_some_iff] at hres
  obtain ⟨res, h1, h2⟩ := hres
  have hspec := dLoop_inv hp (fp_ok h hd hn) fuel _ _ (DInv.init ..) res h1
  have comp : ∀ q w, q < size → ∀ y ∈ PathWeights (fun t x => a.wt t = some x) (fun f => a.isAcc f = true) (q, w),
      ∃ e', FpReach h size a e' ∧ a.isAcc e'.node = true ∧ e'.weight ≤ y := by
    rintro q w hq y ⟨f, hr, hf⟩
    obtain ⟨_, e', h3, h4, h5⟩ := fp_complete h size hd hn hr hf ⟨0, q, (epsilon, [])⟩
      (.start (List.mem_map.2 ⟨q, List.mem_range.2 hq, rfl⟩)) rfl
    exact ⟨e', h3, h4, by rw [zero_add] at h5; exact h5⟩
  cases res with
  | none =>
    rw [Prod.mk.injEq] at h2
    refine .inl ⟨h2.2.symm, h2.1.symm, fun q w hq => Set.ext fun x => ⟨fun hx => ?_, fun hx => hx.elim⟩⟩
    obtain ⟨e', h3, h4, _⟩ := comp q w hq x hx
    have : a.isAcc e'.node = false := hspec e' h3
    rw [h4] at this
    cases this
  | some e =>
    rw [Prod.mk.injEq] at h2
    obtain ⟨hr, hg, hmin⟩ := hspec
    have hi := fp_sound h size hd hr ⟨e.node, []⟩ 0 rfl rfl
    rw [h2.1, add_zero] at hi
    refine .inr ⟨e.weight, h2.2.symm, hi.2.1, by rw [hi.2.2]; exact hg, hi.1, ?_⟩
    intro q w hq y hy
    obtain ⟨e', h3, h4, h5⟩ := comp q w hq y hy
    exact le_trans (hmin e' h3 h4) h5

/-- `find_path_shortest` ends. -/
theorem findPathShortest_terminates [IsOrderedAddMonoid T] (hp : Heap (FpElem T) T DElem.weight) (h : HashOrder) (size : Nat)
    {a : Aut T} (hd : (keys a.edges).Nodup) (hn : ∀ t x, a.wt t = some x → 0 ≤ x) : ∃ fuel res, a.findPathShortest hp h size fuel = some res := by
  have hU : ∀ e, FpReach h size a e → e.node ∈ List.range size ++ (keys a.edges).map Tr.dst := by
    intro e he
    rw [List.mem_append]
    cases he with
    | start he =>
      obtain ⟨i, hi, rfl⟩ := List.mem_map.1 he
      exact .inl hi
    | step _ _ he =>
      rw [mem_fpSucc h hd] at he
      obtain ⟨dst, g, x, hx, rfl⟩ := he
      have := wt_mem_outTos HashOrder.id ((mem_labelsTo hd _ _ _ _).1 (FP.minElement_spec.2 _ hx).1)
      rw [Aut.mem_outTos] at this
      obtain ⟨l, hl⟩ := this
      exact .inr (List.mem_map.2 ⟨_, hl, rfl⟩)
  obtain ⟨fuel, res, hres⟩ := dLoop_terminates hp (fp_ok h hd hn) _ hU _ _ _ (fun _ => none) rfl rfl
    (fun e he => .start he) (fun _ _ h => by cases h)
  exact ⟨fuel, _, by unfold findPathShortest; rw [hres]; rfl⟩

end Verif.Aut
