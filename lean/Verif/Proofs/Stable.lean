import Verif.Proofs.PreFinal
import Verif.Proofs.Accepts

/-! # Transitions are never removed or changed -/

namespace Verif

variable {W σ : Type}

theorem find?_suffix {E E' : List (AEdge W)} (h : E <:+ E') (hn : (keys E').Nodup) {t : Tr} {x : AEdge W}
    (hf : E.find? (fun e => e.1 == t) = some x) : E'.find? (fun e => e.1 == t) = some x := by
  obtain ⟨pre, rfl⟩ := h
  rw [List.find?_append]
  have : pre.find? (fun e => e.1 == t) = none := by
    rw [List.find?_eq_none]
    intro e he heq
    have h1 : e.1 = t := by simpa using heq
    have h2 : t ∈ keys E := by
      have := List.mem_of_find?_eq_some hf
      have h3 := List.find?_some hf
      have h3 : x.1 = t := by simpa using h3
      rw [← h3]; exact List.mem_map.2 ⟨x, this, rfl⟩
    unfold keys at hn h2
    rw [List.map_append] at hn
    exact (List.disjoint_of_nodup_append hn) (List.mem_map.2 ⟨e, he, h1⟩) h2
  rw [this]; simpa using hf

/-- An annotation once stored stays. -/
theorem getEdge_suffix {a b : Aut W} (h : a.edges <:+ b.edges) (hn : (keys b.edges).Nodup) {t : Tr}
    {x : Ann W} (hf : a.getEdge t = some x) : b.getEdge t = some x := by
  unfold Aut.getEdge at *
  rw [Option.map_eq_some_iff] at *
  obtain ⟨e, h1, h2⟩ := hf
  exact ⟨e, find?_suffix h hn h1, h2⟩

theorem keys_suffix {E E' : List (AEdge W)} (h : E <:+ E') {t : Tr} (ht : t ∈ keys E) : t ∈ keys E' :=
  (h.sublist.map Prod.fst).subset ht

section
variable [Zero W]

theorem preInsert_suffix (cb : Callback W σ) (s : PreSt W σ) (r : Tr × Trace) :
    s.aut.edges <:+ (preInsert cb s r).aut.edges := by
  unfold preInsert
  split
  · exact List.suffix_refl _
  · rename_i h
    have : s.aut.edges <:+ (s.aut.emplaceEdge r.1 (r.2, 0)).edges := by
      unfold Aut.emplaceEdge
      rw [if_neg h]
      exact List.suffix_cons _ _
    simp only
    split <;> exact this

theorem preInsertAll_suffix (cb : Callback W σ) (rs : List (Tr × Trace)) (s : PreSt W σ) :
    s.aut.edges <:+ (preInsertAll cb s rs).aut.edges := by
  induction rs generalizing s with
  | nil => exact List.suffix_refl _
  | cons r rs ih => exact (preInsert_suffix cb s r).trans (ih _)

variable [LinearOrder W]

theorem preStep_suffix (p : Pda W) (cb : Callback W σ) (s : PreSt W σ) :
    s.aut.edges <:+ (preStep p cb s).aut.edges := by
  rcases hws : s.ws with _ | ⟨t, ws⟩
  · unfold preStep; rw [hws]; exact List.suffix_refl _
  · rw [preStep_eq p cb s t ws hws]
    split
    · exact preInsertAll_suffix cb _ { s with ws := ws, rel := s.rel ++ [t] }
    · exact preInsertAll_suffix cb _ { s with ws := ws, rel := s.rel ++ [t] }

theorem preRun_suffix (p : Pda W) (cb : Callback W σ) (k : Nat) (s : PreSt W σ) :
    s.aut.edges <:+ (preRun p cb k s).aut.edges := by
  induction k generalizing s with
  | zero => exact List.suffix_refl _
  | succ k ih =>
    unfold preRun
    split
    · exact List.suffix_refl _
    · exact (preStep_suffix p cb s).trans (ih _)

theorem preRun_add (p : Pda W) (cb : Callback W σ) (j k : Nat) (s : PreSt W σ) :
    preRun p cb (j + k) s = preRun p cb k (preRun p cb j s) := by
  induction j generalizing s with
  | zero => simp [preRun]
  | succ j ih =>
    rw [show j + 1 + k = (j + k) + 1 by omega]
    conv => lhs; unfold preRun
    conv => rhs; arg 4; unfold preRun
    split
    · rename_i h
      cases k with
      | zero => rfl
      | succ k => unfold preRun; rw [if_pos h]
    · exact ih _

theorem preRun_stop (p : Pda W) (cb : Callback W σ) (k : Nat) (s : PreSt W σ)
    (h : s.ws = [] ∨ s.found = true) : preRun p cb k s = s := by
  cases k with
  | zero => rfl
  | succ k =>
    unfold preRun
    rw [if_pos (by simpa using h)]

end

/-- Without a callback the flag stays unset. -/
theorem noCb_spec (V : Tr → Prop) : CbSpec (W := W) noCb V (fun _ _ => True) (fun _ _ => False) where
  step := by intro a e t ann _ _ _; simp [noCb]
  mono := by simp

theorem accepted_one (a : Aut W) (q g : Nat) :
    Accepted (· ∈ keys a.edges) (fun f => a.isAcc f = true) (q, [g]) ↔
      ∃ f, (⟨q, g, f⟩ : Tr) ∈ keys a.edges ∧ a.isAcc f = true := by
  constructor
  · rintro ⟨f, hp, hf⟩
    cases hp with
    | cons he hp => cases hp; exact ⟨_, he, hf⟩
  · rintro ⟨f, he, hf⟩
    exact ⟨f, .cons he (.nil f), hf⟩

end Verif
