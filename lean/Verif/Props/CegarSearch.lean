import Verif.Proofs.CegarSearch
import Verif.Proofs.ReducerFinal
import Verif.Props.Cegar

/-!
# C65: the search for a concrete trace

The functions of the user (`initial_concrete_rules`, `search_concrete_rules`, `get_header`) are arbitrary. `ReachConf` and
`ConfChain` (`Spec/Search.lean`) say which configurations follow each other along the abstract trace.
-/

namespace Verif.Props

open Verif.Cegar

variable {C : Type} {e : Search C} {empty : Except (Refinement Nat) Header}

/-- C65: the search terminates, whatever the functions of the user. -/
theorem c65_terminates (e : Search C) (empty : Except (Refinement Nat) Header) :
    ∃ fuel0 res, ∀ fuel ≥ fuel0, search e empty fuel = some res := by
  suffices h : ∃ fuel r, whileSome (searchStep e) fuel (searchInit e empty) = some r by
    obtain ⟨fuel, r, hr⟩ := h
    refine ⟨fuel, r.result e, fun fuel' hf => ?_⟩
    unfold search
    rw [Reducer.whileSome_mono hf hr]; rfl
  by_cases hlen : e.len = 0
  · refine ⟨0, searchInit e empty, ?_⟩
    have : searchStep e (searchInit e empty) = none := by
      unfold searchInit searchStep
      rw [if_pos hlen]
      cases empty <;> simp
    unfold whileSome; rw [this]
  · exact FP.whileSome_wf (measure e) (fun _ => 0) (SInv e)
      (fun s s' hi hs => ⟨(searchStep_inv hi hs).1, .inl (searchStep_inv hi hs).2⟩) _ (search_inv (by omega) empty)

/-- At the end of the loop. -/
theorem search_end (hlen : 0 < e.len) {fuel : Nat} {res : Found C} (h : search e empty fuel = some res) :
    ∃ s, s.result e = res ∧ SInv e s ∧ (s.final = none → s.stack = []) := by
  unfold search at h
  obtain ⟨s, hs, hr⟩ := Option.map_eq_some_iff.1 h
  obtain ⟨h1, h2⟩ := whileSome_inv (I := SInv e) (fun s s' hi hs => (searchStep_inv hi hs).1)
    (search_inv hlen empty) hs
  refine ⟨s, hr, h1, fun hf => ?_⟩
  unfold searchStep at h2
  simp only [hf, Option.isSome_none, Bool.false_eq_true, if_false] at h2
  split at h2
  · assumption
  · cases h2
  · split at h2
    · cases h2
    · split at h2 <;> cases h2

/-- The result for the empty trace. -/
def emptyFound : Except (Refinement Nat) Header → Found C
  | .ok hd => .trace [] hd
  | .error r => .header (addInfo [] r)

theorem search_empty (hlen : e.len = 0) {fuel : Nat} {res : Found C} (h : search e empty fuel = some res) :
    res = emptyFound empty := by
  unfold search at h
  obtain ⟨s, hs, hr⟩ := Option.map_eq_some_iff.1 h
  have h0 : searchStep e (searchInit e empty) = none := by
    unfold searchInit searchStep
    rw [if_pos hlen]
    cases empty <;> simp
  have : s = searchInit e empty := by
    cases fuel <;> rw [whileSome, h0] at hs <;> cases hs <;> rfl
  subst this
  rw [← hr]
  unfold SearchSt.result searchInit
  rw [if_pos hlen]
  cases empty <;> simp [hlen, emptyFound]

/-- C65: a trace that is returned has one configuration for each rule of the abstract trace, each following the one before,
and the header of the last one (for the empty trace: the initial header) has been made final. -/
theorem c65_trace {fuel : Nat} {cs : List C} {h : Header} (hr : search e empty fuel = some (.trace cs h)) :
    cs.length = e.len ∧ (e.len = 0 → empty = .ok h) ∧
      (0 < e.len → ConfChain e.first e.next cs ∧ ∃ c, cs.getLast? = some c ∧ e.fin c = .ok h) := by
  by_cases hlen : e.len = 0
  · have := search_empty hlen hr
    cases hE : empty with
    | ok hd => rw [hE] at this; simp only [emptyFound, Found.trace.injEq] at this; simp [this, hlen]
    | error r => rw [hE] at this; simp [emptyFound] at this
  · obtain ⟨s, h1, h2, h3⟩ := search_end (by omega) hr
    unfold SearchSt.result at h1
    split at h1
    · cases h1
    split at h1
    · rename_i h' hf
      simp only [Found.trace.injEq] at h1
      obtain ⟨h1, rfl⟩ := h1
      obtain ⟨c, ds, i, rest, a1, a2, a3, a4⟩ := h2.found h' hf
      have hch := Frames.chain (a1 ▸ h2.frames)
      have hcs : cs = current ((c :: ds, i) :: rest) := by rw [← h1, a1]; rfl
      rw [hcs]
      exact ⟨by omega, fun h => absurd h hlen, fun _ => ⟨hch.1, c, hch.2.2, a3⟩⟩
    · cases h1

/-- C65: if the search gets stuck, the user is asked for a refinement with exactly the configurations that can be reached at
the greatest depth that can be reached, which is less than the length of the trace. -/
theorem c65_stuck {fuel depth : Nat} {cs : List C} (hr : search e empty fuel = some (.stuck depth cs)) :
    depth < e.len ∧ (∀ c, c ∈ cs ↔ ReachConf e.len e.first e.next depth c) ∧ (depth = 0 ↔ e.first = []) ∧
      (depth ≠ 0 → cs ≠ []) ∧ ∀ c, ¬ ReachConf e.len e.first e.next (depth + 1) c := by
  by_cases hlen : e.len = 0
  · have := search_empty hlen hr
    cases hE : empty <;> rw [hE] at this <;> simp [emptyFound] at this
  · have hpos : 0 < e.len := by omega
    obtain ⟨s, h1, h2, h3⟩ := search_end hpos hr
    unfold SearchSt.result at h1
    split at h1
    · rename_i hlt
      simp only [Found.stuck.injEq] at h1
      obtain ⟨rfl, rfl⟩ := h1
      have hfin : s.final = none := by
        cases hf : s.final with
        | none => rfl
        | some h =>
          obtain ⟨_, _, _, _, _, _, _, a4⟩ := h2.found h hf
          omega
      obtain ⟨D, hD, hR⟩ := h2.running hfin
      rw [h3 hfin] at hD
      simp only [pending, List.append_nil] at hD
      have hmem : ∀ d c, (d, c) ∈ D ↔ ReachConf e.len e.first e.next d c := fun d c => by rw [← hD]; exact frame_first hpos d c
      have hcs : ∀ c, c ∈ s.deepest ↔ (s.maxDepth, c) ∈ D := fun c => by
        rw [hR.deepest]
        simp only [List.mem_map, List.mem_filter, decide_eq_true_eq]
        constructor
        · rintro ⟨⟨d, c'⟩, ⟨h1, h2⟩, rfl⟩
          simp only at h2
          rw [← h2]; exact h1
        · intro h; exact ⟨(s.maxDepth, c), ⟨h, rfl⟩, rfl⟩
      refine ⟨hlt, fun c => ?_, ?_, fun h0 => ?_, fun c hc => ?_⟩
      · rw [hcs, hmem]
      · constructor
        · intro h0
          cases hf : e.first with
          | nil => rfl
          | cons c _ =>
            have := hR.le _ ((hmem 1 c).2 (.first hpos (by simp [hf])))
            simp only at this
            omega
        · intro h0
          refine hR.none ?_
          rw [← hD, h0, frame_nil]
      · obtain ⟨⟨d, c⟩, h4, h5⟩ := hR.some fun hn => h0 (hR.none hn)
        simp only at h5
        exact List.ne_nil_of_mem ((hcs c).2 (h5 ▸ h4))
      · have := hR.le _ ((hmem _ c).2 hc)
        simp only at this
        omega
    · split at h1 <;> cases h1

/-- The refinements that come from complete sequences, as pieces. -/
def piecesOf (rs : List (Refinement Nat)) : List (Piece Nat) :=
  rs.filterMap fun r => match r.parts with
    | [a, b] => some (r.id, a, b)
    | _ => none

theorem addInfo_collect (rs : List (Refinement Nat)) : rs.foldl addInfo [] = collect (piecesOf rs) := by
  unfold collect
  generalize ([] : HeaderRefinement Nat) = i0
  induction rs generalizing i0 with
  | nil => rfl
  | cons r rs ih =>
    rw [List.foldl_cons, ih]
    unfold piecesOf
    rw [List.filterMap_cons]
    unfold addInfo
    split
    · rename_i a b h; simp [h]
    · rename_i h
      split
      · rfl
      · rename_i x hx
        split at hx
        · rename_i a b h'; exact absurd h' (h a b)
        · cases hx

/-- C65: if all complete sequences of configurations fail to give a final header, a refinement of the labels is returned,
that combines the refinements of exactly these sequences. -/
theorem c65_labels {fuel : Nat} {info : HeaderRefinement Nat} (hlen : 0 < e.len)
    (hr : search e empty fuel = some (.header info)) :
    (∃ c, ReachConf e.len e.first e.next e.len c) ∧
    (∀ c, ReachConf e.len e.first e.next e.len c → ∃ r, e.fin c = .error r) ∧
    ∃ rs, info = collect (piecesOf rs) ∧
      ∀ r, r ∈ rs ↔ ∃ c, ReachConf e.len e.first e.next e.len c ∧ e.fin c = .error r := by
  obtain ⟨s, h1, h2, h3⟩ := search_end hlen hr
  unfold SearchSt.result at h1
  split at h1
  · cases h1
  rename_i hge
  split at h1
  · cases h1
  rename_i hfin
  simp only [Found.header.injEq] at h1
  obtain ⟨D, hD, hR⟩ := h2.running hfin
  rw [h3 hfin] at hD
  simp only [pending, List.append_nil] at hD
  have hmem : ∀ d c, (d, c) ∈ D ↔ ReachConf e.len e.first e.next d c := fun d c => by rw [← hD]; exact frame_first hlen d c
  have hdle : ∀ d c, ReachConf e.len e.first e.next d c → d ≤ e.len := by
    intro d c h
    cases h with
    | first h => omega
    | next _ h => omega
  refine ⟨?_, ?_, failures e D, ?_, ?_⟩
  · have hne : D ≠ [] := by
      intro h0; have := hR.none h0; omega
    obtain ⟨⟨d, c⟩, hx, hx'⟩ := hR.some hne
    simp only at hx'
    have hd := hdle _ _ ((hmem d c).1 hx)
    have hde : d = e.len := by omega
    subst hde
    exact ⟨c, (hmem _ c).1 hx⟩
  · intro c hc
    exact hR.fails (e.len, c) ((hmem _ c).2 hc) (by simp)
  · rw [← h1, hR.info, addInfo_collect]
  · intro r
    unfold failures
    simp only [List.mem_filterMap]
    constructor
    · rintro ⟨⟨d, c⟩, hx, hx'⟩
      have hc := (hmem d c).1 hx
      split at hx'
      · cases hx'
      rename_i hnlt
      simp only at hnlt
      have hd : d = e.len := by have := hdle _ _ hc; omega
      subst hd
      refine ⟨c, hc, ?_⟩
      cases hf : e.fin c with
      | ok _ => simp only [hf] at hx'; cases hx'
      | error r' => simp only [hf, Option.some.injEq] at hx'; rw [hx']
    · rintro ⟨c, hc, hf⟩
      exact ⟨(e.len, c), (hmem _ c).2 hc, by simp [hf]⟩

/-- C65: if the refinements are splits, the combined refinement of the labels is proper and separates whatever one of them
separates. -/
theorem c65_labels_separate {fuel : Nat} {info : HeaderRefinement Nat} (hlen : 0 < e.len)
    (hr : search e empty fuel = some (.header info))
    (hsplit : ∀ c r, e.fin c = .error r → ∃ o0 o1, r.parts = [o0, o1] ∧ IsSplit o0 o1) :
    (∀ r ∈ info, Proper r) ∧ (info.map Refinement.id).Nodup ∧
    ∀ c r o0 o1, ReachConf e.len e.first e.next e.len c → e.fin c = .error r → r.parts = [o0, o1] →
      ∃ R ∈ info, R.id = r.id ∧ ∀ x y, x ∈ o0 → y ∈ o1 → Apart R.parts x y := by
  obtain ⟨-, -, rs, rfl, hrs⟩ := c65_labels hlen hr
  have hps : ∀ p ∈ piecesOf rs, IsSplit p.2.1 p.2.2 := by
    intro p hp
    obtain ⟨r, hr', hp'⟩ := List.mem_filterMap.1 hp
    obtain ⟨c, hc, hf⟩ := (hrs r).1 hr'
    obtain ⟨o0, o1, h1, h2⟩ := hsplit c r hf
    simp only [h1, Option.some.injEq] at hp'
    rw [← hp']; exact h2
  obtain ⟨a1, a2, -, -, a5⟩ := c42_header _ hps
  refine ⟨a1, a2, fun c r o0 o1 hc hf hp => ?_⟩
  exact a5 r.id o0 o1 (List.mem_filterMap.2 ⟨r, (hrs r).2 ⟨c, hc, hf⟩, by simp [hp]⟩)

/-- A trace of three rules over the numbers: first 1 or 2, then `c + 10` after 1 and `c + 10`, `c + 20` after 2, then nothing
after 11. Only 32 fails at the end. -/
def countSearch : Search Nat :=
  { len := 3, first := [1, 2],
    next := fun d c => if d = 1 then if c = 1 then [11] else [12, 22] else if c = 11 then [] else [c + 10, c + 20]
    fin := fun c => if c = 22 ∨ c = 32 then .error ⟨0, [[1], [2]]⟩ else .ok ⟨0, [c]⟩ }

example : search countSearch (.ok {}) 20 = some (.trace [2, 22, 42] ⟨0, [42]⟩) ∧
    ConfChain countSearch.first countSearch.next [2, 22, 42] := by
  have h : search countSearch (.ok {}) 20 = some (.trace [2, 22, 42] ⟨0, [42]⟩) := by rfl
  exact ⟨h, ((c65_trace h).2.2 (by decide)).1⟩

/-- The same with an end that always fails, and with no third rule. -/
example : search { countSearch with fin := fun _ => .error ⟨0, [[1], [2]]⟩ } (.ok {}) 20 =
      some (.header [⟨0, [[1], [2]]⟩]) ∧
    search { countSearch with next := fun d c => if d = 1 then countSearch.next d c else [] } (.ok {}) 20 =
      some (.stuck 2 [11, 12, 22]) := by decide +kernel

end Verif.Props
