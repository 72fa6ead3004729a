import Verif.Model.Typed
import Verif.Props.PdaBuild
import Mathlib.Data.List.Nodup

/-! # Lemmas about the typed PDA -/

namespace Verif.TPda

variable {L W : Type}

theorem labelId_iff [DecidableEq L] {t : TPda L W} (h : t.labels.Nodup) (l : L) (i : Nat) :
    t.labelId l = some i ↔ t.labels[i]? = some l := by
  unfold labelId
  rw [List.idxOf?_eq_some_iff]
  constructor
  · rintro ⟨hi, h1, _⟩
    rw [List.getElem?_eq_getElem hi, h1]
  · intro h1
    obtain ⟨hi, h2⟩ := List.getElem?_eq_some_iff.1 h1
    refine ⟨hi, h2, fun j hj h3 => ?_⟩
    have := (List.Nodup.getElem_inj_iff h).1 (h3.trans h2.symm)
    omega

theorem labelId_none [DecidableEq L] (t : TPda L W) (l : L) : t.labelId l = none ↔ l ∉ t.labels := by
  unfold labelId
  exact List.idxOf?_eq_none_iff

theorem labelId_of_mem [DecidableEq L] {t : TPda L W} {l : L} (h : l ∈ t.labels) :
    ∃ i, t.labelId l = some i := by
  cases hi : t.labelId l with
  | none => exact absurd h ((labelId_none t l).1 hi)
  | some i => exact ⟨i, rfl⟩

/-- A rule with label ids as a rule with labels. -/
def typed [Inhabited L] (t : TPda L W) (u : URule W) : TRule L W := t.typedRule u.src u.pre (Pda.toImpl u)

theorem mem_allRules [Inhabited L] (t : TPda L W) (r : TRule L W) :
    r ∈ t.allRules ↔ ∃ u, t.core.Has u ∧ r = t.typed u := by
  unfold allRules Pda.Has Pda.allRules
  simp only [List.mem_flatMap, List.mem_map, List.mem_range]
  constructor
  · rintro ⟨⟨s, i⟩, hs, e, he, g, hg, rfl⟩
    have hi := List.mem_zipIdx_iff_getElem?.1 hs
    simp only at hi
    have hst : t.core.st i = s := by
      unfold Pda.st core; simp only [hi, Option.getD_some]
    obtain ⟨hi', _⟩ := List.getElem?_eq_some_iff.1 hi
    exact ⟨_, ⟨i, hi', e, by rw [hst]; exact he, g, hg, rfl⟩, rfl⟩
  · rintro ⟨u, ⟨i, hi, e, he, g, hg, rfl⟩, rfl⟩
    have hi' : i < t.states.length := hi
    refine ⟨(t.states[i], i), List.mem_zipIdx_iff_getElem?.2 (List.getElem?_eq_getElem hi'), e, ?_, g, hg, rfl⟩
    have hst : t.core.st i = t.states[i] := by
      unfold Pda.st core; simp only [List.getElem?_eq_getElem hi', Option.getD_some]
    rw [← hst]; exact he

/-- `t` with the states of `t.core.call c`. -/
def after [LinearOrder W] (t : TPda L W) (c : PdaCall W) : TPda L W := { t with states := (t.core.call c).states }

theorem core_after [LinearOrder W] (t : TPda L W) (c : PdaCall W) : (t.after c).core = t.core.call c := by
  have := Pda.nLabels_call t.core c
  unfold core after
  simp only
  unfold core at this ⊢
  generalize hx : (Pda.call ⟨t.labels.length, t.states⟩ c) = x at *
  cases x
  simp_all

theorem mem_allRules_after [LinearOrder W] [Inhabited L] {t : TPda L W} (hwf : t.core.WF) {c : PdaCall W}
    (hc : c.OK t.labels.length) (r : TRule L W) :
    r ∈ (t.after c).allRules ↔ r ∈ t.allRules ∨ ∃ u, Props.Adds t.labels.length c u ∧ r = t.typed u := by
  rw [mem_allRules, mem_allRules, core_after]
  have hty : ∀ u, (t.after c).typed u = t.typed u := fun _ => rfl
  simp only [hty, Props.Has_call hwf hc, or_and_right, exists_or]
  rfl

end Verif.TPda
