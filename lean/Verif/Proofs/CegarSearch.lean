import Verif.Model.Cegar
import Verif.Spec.Search
import Verif.Proofs.ReducerSets
import Verif.Proofs.FixedPointFinal

/-! # The depth-first search of `reconstruct_trace` -/

namespace Verif.Cegar

variable {C : Type} (e : Search C)

/-- The nodes of the search below the configurations `cs` at level `i`, in the order of the search, with their depths; `n`
is the number of levels that follow. -/
def visits : Nat → Nat → List C → List (Nat × C)
  | 0, i, cs => cs.map fun c => (i + 1, c)
  | n + 1, i, cs => cs.flatMap fun c => (i + 1, c) :: visits n (i + 1) (e.next (i + 1) c)

/-- What is still to be visited. -/
def frame (i : Nat) (cs : List C) : List (Nat × C) := visits e (e.len - 1 - i) i cs

theorem frame_nil (i : Nat) : frame e i [] = [] := by
  unfold frame; cases e.len - 1 - i <;> rfl

theorem frame_leaf {i : Nat} (h : ¬ i + 1 < e.len) (c : C) (cs : List C) :
    frame e i (c :: cs) = (i + 1, c) :: frame e i cs := by
  unfold frame
  rw [show e.len - 1 - i = 0 by omega]
  rfl

theorem frame_inner {i : Nat} (h : i + 1 < e.len) (c : C) (cs : List C) :
    frame e i (c :: cs) = (i + 1, c) :: frame e (i + 1) (e.next (i + 1) c) ++ frame e i cs := by
  unfold frame
  rw [show e.len - 1 - i = (e.len - 1 - (i + 1)) + 1 by omega]
  simp [visits]

/-- The frames below the top one are still at the configuration that the frame above came from. -/
def below : List (List C × Nat) → List (Nat × C)
  | [] => []
  | (cs, i) :: rest => frame e i cs.tail ++ below rest

/-- What is still to be visited. -/
def pending : List (List C × Nat) → List (Nat × C)
  | [] => []
  | (cs, i) :: rest => frame e i cs ++ below e rest

theorem pending_backtrack (rest : List (List C × Nat)) : pending e (backtrack rest) = below e rest := by
  cases rest with
  | nil => rfl
  | cons f rest => rfl

/-- The frames belong to the levels, and each holds the rest of the configurations that follow the one below. -/
inductive Frames : List (List C × Nat) → Prop where
  | nil : Frames []
  | base {cs : List C} : 0 < e.len → cs <:+ e.first → Frames [(cs, 0)]
  | push {ds cs : List C} {c : C} {i : Nat} {rest : List (List C × Nat)} : Frames ((c :: cs, i) :: rest) → i + 1 < e.len →
      ds <:+ e.next (i + 1) c → Frames ((ds, i + 1) :: (c :: cs, i) :: rest)

variable {e}

theorem Frames.lt {cs : List C} {i : Nat} {rest : List (List C × Nat)} (h : Frames e ((cs, i) :: rest)) : i < e.len := by
  cases h with
  | base h => exact h
  | push _ h => exact h

theorem Frames.tail {c : C} {cs : List C} {i : Nat} {rest : List (List C × Nat)} (h : Frames e ((c :: cs, i) :: rest)) :
    Frames e ((cs, i) :: rest) := by
  cases h with
  | base h0 h1 => exact .base h0 ((List.suffix_cons c cs).trans h1)
  | push h1 h2 h3 => exact .push h1 h2 ((List.suffix_cons c cs).trans h3)

theorem Frames.backtrack {cs : List C} {i : Nat} {rest : List (List C × Nat)} (h : Frames e ((cs, i) :: rest)) :
    Frames e (backtrack rest) := by
  cases h with
  | base => exact .nil
  | push h1 => exact h1.tail

theorem Frames.level {cs : List C} {i : Nat} {rest : List (List C × Nat)} (h : Frames e ((cs, i) :: rest)) :
    rest.length = i := by
  generalize hs : (cs, i) :: rest = st at h
  induction h generalizing cs i rest with
  | nil => cases hs
  | base => cases hs; rfl
  | push _ _ _ ih => cases hs; simp [ih rfl]

/-- The configurations the frames are at. -/
def current (st : List (List C × Nat)) : List C := st.reverse.filterMap fun x => x.1.head?

theorem Frames.chain {c : C} {cs : List C} {i : Nat} {rest : List (List C × Nat)} (h : Frames e ((c :: cs, i) :: rest)) :
    ConfChain e.first e.next (current ((c :: cs, i) :: rest)) ∧ (current ((c :: cs, i) :: rest)).length = i + 1 ∧
      (current ((c :: cs, i) :: rest)).getLast? = some c := by
  generalize hs : (c :: cs, i) :: rest = st at h
  induction h generalizing c cs i rest with
  | nil => cases hs
  | base h0 h1 =>
    cases hs
    refine ⟨?_, rfl, rfl⟩
    exact .one (h1.subset (by simp))
  | @push ds cs' c' i' rest' h1 h2 h3 ih =>
    cases hs
    obtain ⟨a1, a2, a3⟩ := ih rfl
    have hcur : current ((c :: cs, i' + 1) :: (c' :: cs', i') :: rest') = current ((c' :: cs', i') :: rest') ++ [c] := by
      simp [current]
    obtain ⟨ys, hys⟩ := List.getLast?_eq_some_iff.1 a3
    rw [hcur, hys]
    rw [hys] at a1 a2
    simp only [List.length_append, List.length_cons, List.length_nil] at a2
    refine ⟨.snoc a1 ?_, by simp; omega, by simp⟩
    rw [show ys.length + 1 = i' + 1 by omega]
    exact h3.subset (by simp)

/-! ## What has been recorded -/

/-- The refinements of the complete sequences among the visited nodes. -/
def failures (e : Search C) (D : List (Nat × C)) : List (Refinement Nat) :=
  D.filterMap fun x => if x.1 < e.len then none else match e.fin x.2 with | .ok _ => none | .error r => some r

/-- The variables after visiting the nodes `D`. -/
structure Recorded (e : Search C) (D : List (Nat × C)) (s : SearchSt C) : Prop where
  le : ∀ x ∈ D, x.1 ≤ s.maxDepth
  none : D = [] → s.maxDepth = 0
  some : D ≠ [] → ∃ x ∈ D, x.1 = s.maxDepth
  deepest : s.deepest = (D.filter fun x => x.1 = s.maxDepth).map Prod.snd
  info : s.info = (failures e D).foldl addInfo []
  fails : ∀ x ∈ D, ¬ x.1 < e.len → ∃ r, e.fin x.2 = .error r

theorem seen_info (s : SearchSt C) (d : Nat) (c : C) : (seen s d c).info = s.info ∧ (seen s d c).final = s.final ∧
    (seen s d c).stack = s.stack := by
  unfold seen; dsimp only; split <;> split <;> simp

theorem seen_depth (s : SearchSt C) (D : List (Nat × C)) (d : Nat) (c : C) (hd : 0 < d)
    (h1 : ∀ x ∈ D, x.1 ≤ s.maxDepth) (h2 : D = [] → s.maxDepth = 0) (h3 : D ≠ [] → ∃ x ∈ D, x.1 = s.maxDepth)
    (h4 : s.deepest = (D.filter fun x => x.1 = s.maxDepth).map Prod.snd) :
    (∀ x ∈ D ++ [(d, c)], x.1 ≤ (seen s d c).maxDepth) ∧ (∃ x ∈ D ++ [(d, c)], x.1 = (seen s d c).maxDepth) ∧
    (seen s d c).deepest = ((D ++ [(d, c)]).filter fun x => x.1 = (seen s d c).maxDepth).map Prod.snd ∧
    d ≤ (seen s d c).maxDepth := by
  unfold seen
  by_cases hgt : d > s.maxDepth
  · simp only [if_pos hgt, if_true]
    refine ⟨?_, ⟨(d, c), by simp, rfl⟩, ?_, le_rfl⟩
    · intro x hx
      rcases List.mem_append.1 hx with hx | hx
      · have := h1 x hx; omega
      · simp at hx; simp [hx]
    · have : D.filter (fun x => x.1 = d) = [] := by
        rw [List.filter_eq_nil_iff]
        intro x hx
        have := h1 x hx
        simp; omega
      simp [List.filter_append, this]
  · simp only [if_neg hgt]
    have hne : D ≠ [] := by rintro rfl; have := h2 rfl; omega
    obtain ⟨y, hy, hy'⟩ := h3 hne
    by_cases heq : d = s.maxDepth
    · simp only [if_pos heq]
      refine ⟨?_, ⟨y, by simp [hy], hy'⟩, ?_, by omega⟩
      · intro x hx
        rcases List.mem_append.1 hx with hx | hx
        · exact h1 x hx
        · simp at hx; simp [hx]; omega
      · simp [List.filter_append, h4, heq]
    · simp only [if_neg heq]
      refine ⟨?_, ⟨y, by simp [hy], hy'⟩, ?_, by omega⟩
      · intro x hx
        rcases List.mem_append.1 hx with hx | hx
        · exact h1 x hx
        · simp at hx; simp [hx]; omega
      · simp [List.filter_append, h4, heq]

/-- What holds at the top of the loop, for a trace that is not empty. -/
structure SInv (e : Search C) (s : SearchSt C) : Prop where
  frames : Frames e s.stack
  running : s.final = none → ∃ D, frame e 0 e.first = D ++ pending e s.stack ∧ Recorded e D s
  found : ∀ h, s.final = some h → ∃ c cs i rest, s.stack = (c :: cs, i) :: rest ∧ i + 1 = e.len ∧ e.fin c = .ok h ∧
    e.len ≤ s.maxDepth

/-- The measure of the loop. -/
def measure (e : Search C) (s : SearchSt C) : Nat :=
  if s.final.isSome then 0 else 2 * (pending e s.stack).length + s.stack.length + 1

theorem searchStep_inv {s s' : SearchSt C} (h : SInv e s) (hs : searchStep e s = some s') :
    SInv e s' ∧ measure e s' < measure e s := by
  unfold searchStep at hs
  split at hs
  · cases hs
  rename_i hfin
  have hfin' : s.final = none := by simpa using hfin
  obtain ⟨D, hD, hR⟩ := h.running hfin'
  have hframes := h.frames
  split at hs
  · cases hs
  · rename_i i rest hst
    cases hs
    rw [hst] at hframes hD
    simp only [pending, frame_nil, List.nil_append] at hD
    refine ⟨⟨hframes.backtrack, fun _ => ⟨D, ?_, ⟨hR.le, hR.none, hR.some, hR.deepest, hR.info, hR.fails⟩⟩, ?_⟩, ?_⟩
    · rw [pending_backtrack]; exact hD
    · intro hh he; simp only [hfin'] at he; cases he
    · unfold measure
      simp only [hfin', Option.isSome_none, Bool.false_eq_true, if_false, pending_backtrack]
      rw [hst]
      simp only [pending, frame_nil, List.nil_append, List.length_cons]
      have : (backtrack rest).length = rest.length := by cases rest <;> simp [backtrack]
      omega
  · rename_i c cs i rest hst
    rw [hst] at hframes hD
    obtain ⟨e1, e2, e3⟩ := seen_info s (i + 1) c
    obtain ⟨r1, r2, r3, r4⟩ := seen_depth s D (i + 1) c (by omega) hR.le hR.none hR.some hR.deepest
    have hle := hframes.lt
    have hnil : D ++ [(i + 1, c)] ≠ [] := by simp
    dsimp only at hs
    split at hs
    · rename_i hlt
      cases hs
      simp only [pending, frame_inner e hlt] at hD
      refine ⟨⟨.push hframes hlt (List.suffix_refl _), fun _ => ⟨D ++ [(i + 1, c)], ?_, ?_⟩, ?_⟩, ?_⟩
      · simp only [pending, below, List.tail_cons]
        rw [hD]; simp
      · refine ⟨r1, fun hh => absurd hh hnil, fun _ => r2, r3, ?_, ?_⟩
        · simp only [e1, hR.info, failures, List.filterMap_append]
          simp [hlt]
        · intro x hx hx'
          rcases List.mem_append.1 hx with hx | hx
          · exact hR.fails x hx hx'
          · simp at hx; rw [hx] at hx'; exact absurd hlt hx'
      · intro hh he; simp only [e2, hfin'] at he; cases he
      · unfold measure
        simp only [e2, hfin', Option.isSome_none, Bool.false_eq_true, if_false]
        rw [hst]
        simp only [pending, below, List.tail_cons, frame_inner e hlt, List.length_append, List.length_cons]
        omega
    · rename_i hlt
      split at hs
      · rename_i hdr hok
        cases hs
        refine ⟨⟨?_, ?_, ?_⟩, ?_⟩
        · simp only [e3]; rw [hst]; exact hframes
        · intro he; cases he
        · intro hh he
          cases he
          refine ⟨c, cs, i, rest, ?_, by omega, hok, ?_⟩
          · simp only [e3]; exact hst
          · simp only; omega
        · unfold measure
          simp only [Option.isSome_some, if_true, hfin', Option.isSome_none, Bool.false_eq_true, if_false]
          omega
      · rename_i r herr
        cases hs
        simp only [pending, frame_leaf e hlt] at hD
        refine ⟨⟨hframes.tail, fun _ => ⟨D ++ [(i + 1, c)], ?_, ?_⟩, ?_⟩, ?_⟩
        · simp only [pending]
          rw [hD]; simp
        · refine ⟨r1, fun hh => absurd hh hnil, fun _ => r2, r3, ?_, ?_⟩
          · simp only [e1, hR.info, failures, List.filterMap_append, List.foldl_append]
            simp [hlt, herr]
          · intro x hx hx'
            rcases List.mem_append.1 hx with hx | hx
            · exact hR.fails x hx hx'
            · simp at hx; rw [hx]; exact ⟨r, herr⟩
        · intro hh he; simp only [e2, hfin'] at he; cases he
        · unfold measure
          simp only [e2, hfin', Option.isSome_none, Bool.false_eq_true, if_false]
          rw [hst]
          simp only [pending, frame_leaf e hlt, List.length_append, List.length_cons, List.cons_append]
          omega

theorem search_inv (hlen : 0 < e.len) (empty : Except (Refinement Nat) Header) : SInv e (searchInit e empty) := by
  unfold searchInit
  rw [if_neg (by omega)]
  refine ⟨.base hlen (List.suffix_refl _), fun _ => ⟨[], by simp [pending, below], ?_⟩, fun h he => by cases he⟩
  exact ⟨by simp, by simp, by simp, by simp, rfl, by simp⟩

/-! ## The nodes -/

theorem visits_mem (hlen : 0 < e.len) : ∀ (n i : Nat), i + n + 1 = e.len → ∀ (cs : List C) (d : Nat) (c : C),
    (d, c) ∈ visits e n i cs → (∀ c' ∈ cs, ReachConf e.len e.first e.next (i + 1) c') →
    ReachConf e.len e.first e.next d c := by
  intro n
  induction n with
  | zero =>
    intro i hi cs d c h hcs
    simp only [visits, List.mem_map, Prod.mk.injEq] at h
    obtain ⟨c', h1, rfl, rfl⟩ := h
    exact hcs _ h1
  | succ n ih =>
    intro i hi cs d c h hcs
    simp only [visits, List.mem_flatMap, List.mem_cons, Prod.mk.injEq] at h
    obtain ⟨c', h1, ⟨rfl, rfl⟩ | h2⟩ := h
    · exact hcs _ h1
    · exact ih (i + 1) (by omega) _ d c h2 fun c'' hc'' => .next (hcs c' h1) (by omega) hc''

theorem visits_top (n i : Nat) (cs : List C) {c : C} (h : c ∈ cs) : (i + 1, c) ∈ visits e n i cs := by
  cases n with
  | zero => simp [visits, h]
  | succ n => simp only [visits, List.mem_flatMap]; exact ⟨c, h, by simp⟩

theorem visits_next : ∀ (n i : Nat), i + n + 1 = e.len → ∀ (cs : List C) (d : Nat) (c c' : C),
    (d, c) ∈ visits e n i cs → d < e.len → c' ∈ e.next d c → (d + 1, c') ∈ visits e n i cs := by
  intro n
  induction n with
  | zero =>
    intro i hi cs d c c' h hd hc
    simp only [visits, List.mem_map, Prod.mk.injEq] at h
    obtain ⟨c', h1, rfl, rfl⟩ := h
    omega
  | succ n ih =>
    intro i hi cs d c c' h hd hc
    simp only [visits, List.mem_flatMap, List.mem_cons, Prod.mk.injEq] at h ⊢
    obtain ⟨x, h1, ⟨rfl, rfl⟩ | h2⟩ := h
    · exact ⟨c, h1, .inr (visits_top n _ _ hc)⟩
    · exact ⟨x, h1, .inr (ih (i + 1) (by omega) _ d c c' h2 hd hc)⟩

/-- The nodes of the search are the configurations that can be reached. -/
theorem frame_first (hlen : 0 < e.len) (d : Nat) (c : C) :
    (d, c) ∈ frame e 0 e.first ↔ ReachConf e.len e.first e.next d c := by
  unfold frame
  constructor
  · intro h
    exact visits_mem hlen _ 0 (by omega) _ d c h fun c' hc' => .first hlen hc'
  · intro h
    induction h with
    | first h0 h => exact visits_top _ 0 _ h
    | next _ hd hc ih => exact visits_next _ 0 (by omega) _ _ _ _ ih hd hc

end Verif.Cegar
