import Verif.Proofs.Json

/-! # The weights in a PDA that was read from JSON -/

namespace Verif.JsonWeights

open Verif.Json

variable {W : Type} [LinearOrder W] {P : W → Prop} {io : WeightIO W} {names : Bool}

/-- The rules after `add_rule`: the new one, and the old ones with other labels. -/
theorem mem_addRuleImpl (p : Pda W) (src : Nat) (r : Rule W) (wc : Bool) (pre : List Nat) (i : Nat) :
    ∀ x ∈ ((p.addRuleImpl src r wc pre).st i).rules, x.1 = r ∨ ∃ y ∈ (p.st i).rules, y.1 = x.1 := by
  intro x hx
  rw [Pda.rules_addRuleImpl] at hx
  split at hx
  · simp only at hx
    have h1 : ∀ x ∈ ((p.st i).rules.emplace Rule.lt r {}).1, x.1 = r ∨ ∃ y ∈ (p.st i).rules, y.1 = x.1 := by
      intro x hx
      have hins : x ∈ (p.st i).rules.insertIdx ((p.st i).rules.lb Rule.lt r) (r, {}) ∨ x ∈ (p.st i).rules := by
        unfold VMap.emplace at hx
        dsimp only at hx
        split at hx
        · exact .inl hx
        · split at hx
          · exact .inl hx
          · exact .inr hx
      rcases hins with h | h
      · rcases List.eq_or_mem_of_mem_insertIdx h with h | h
        · exact .inl (by rw [h])
        · exact .inr ⟨x, h, rfl⟩
      · exact .inr ⟨x, h, rfl⟩
    obtain ⟨j, hj, rfl⟩ := List.getElem_of_mem hx
    rw [List.getElem_modify]
    rw [List.length_modify] at hj
    split
    · have := h1 _ (List.getElem_mem hj)
      exact this
    · exact h1 _ (List.getElem_mem hj)
  · exact .inr ⟨x, hx, rfl⟩

/-- The weight of the current rule and those of the rules that are there. -/
structure WInv (P : W → Prop) (s : Sax W) : Prop where
  cur : P s.rule.weight
  all : ∀ i, ∀ e ∈ (s.pda.core.st i).rules, P e.1.weight

theorem WInv.done {s : Sax W} (h : WInv P s) : WInv P s.elementDone := by
  unfold Sax.elementDone
  split <;> exact ⟨h.cur, h.all⟩

theorem rules_insertLabel (p : NPda String String W) (l : String) (i : Nat) : ((p.insertLabel l).1.core.st i).rules = (p.core.st i).rules := by
  unfold NPda.insertLabel TPda.insertLabel
  split <;> rfl

theorem rules_insertState (p : NPda String String W) (n : String) (i : Nat) : ((p.insertState n).1.core.st i).rules = (p.core.st i).rules := by
  unfold NPda.insertState
  split
  · exact congrArg PState.rules (Pda.st_addState p.core _ i)
  · exact congrArg PState.rules (Pda.st_addState p.core _ i)

/-- The weights that can be read: unsigned numbers always, negative ones if the type is signed. -/
structure Puts (P : W → Prop) (io : WeightIO W) : Prop where
  zero : P io.zero
  put : ∀ w z w', 0 ≤ z ∨ io.isSigned = true → P w → io.put w z = some w' → P w'

theorem WInv.putWeight {s s' : Sax W} (hio : Puts P io) (h : WInv P s) {z : Int} (hz : 0 ≤ z ∨ io.isSigned = true) (he : s.putWeight io z = some s') :
    WInv P s' := by
  unfold Sax.putWeight at he
  obtain ⟨w, hw, rfl⟩ := Option.map_eq_some_iff.1 he
  exact WInv.done ⟨hio.put _ _ _ hz h.cur hw, h.all⟩

theorem WInv.label {s : Sax W} (h : WInv P s) (l : String) {s' : Sax W} (hp : s'.pda = (s.pda.insertLabel l).1)
    (hr : s'.rule.weight = s.rule.weight) : WInv P s' :=
  ⟨by rw [hr]; exact h.cur, fun i => by rw [hp, rules_insertLabel]; exact h.all i⟩

theorem WInv.state {s : Sax W} (h : WInv P s) (l : String) {s' : Sax W} (hp : s'.pda = (s.pda.insertState l).1)
    (hr : s'.rule.weight = s.rule.weight) : WInv P s' :=
  ⟨by rw [hr]; exact h.cur, fun i => by rw [hp, rules_insertState]; exact h.all i⟩

theorem WInv.event {s s' : Sax W} (hio : Puts P io) (h : WInv P s) {e : JEv} (he : s.event io names e = some s') : WInv P s' := by
  have skip : ∀ {s'}, s.skip = some s' → WInv P s' := by
    intro s' he
    unfold Sax.skip at he
    split at he
    · cases he; exact h.done
    · cases he
  have hk : ∀ {s' : Sax W} {fl : Nat} {k : JKey}, s.handleKey fl k = some s' → WInv P s' := by
    intro s' fl k he
    unfold Sax.handleKey at he
    split at he
    · split at he
      · cases he; exact ⟨h.cur, h.all⟩
      · cases he
    · cases he
  cases e with
  | null => exact skip he
  | bool b => exact skip he
  | float => exact skip he
  | int z =>
    have he : s.int io z = some s' := he
    unfold Sax.int at he
    split at he
    · rename_i hc
      simp only [Bool.and_eq_true] at hc
      exact h.putWeight hio (.inr hc.1.2) he
    · split at he
      · cases he; exact h.done
      · split at he
        · rename_i hc
          simp only [Bool.and_eq_true] at hc
          exact h.putWeight hio (.inr hc.2) he
        · cases he
      · cases he
  | uns n =>
    have he : s.uns io names n = some s' := he
    have hn : (0 : Int) ≤ (n : Int) ∨ io.isSigned = true := .inl (Int.natCast_nonneg n)
    unfold Sax.uns at he
    split at he
    · exact h.putWeight hio hn he
    · split at he
      · split at he
        · cases he
        · cases he; exact WInv.done ⟨h.cur, h.all⟩
      · split at he
        · exact h.putWeight hio hn he
        · cases he; exact h.done
      · cases he; exact h.done
      · cases he
  | str v =>
    have he : s.str names v = some s' := he
    unfold Sax.str at he
    split at he
    · cases he
    · split at he
      · split at he
        · cases he
          exact WInv.done (h.state v rfl rfl)
        · cases he
      · cases he; exact WInv.done ⟨h.cur, h.all⟩
      · split at he
        · cases he; exact WInv.done ⟨h.cur, h.all⟩
        · cases he; exact WInv.done (h.label v rfl rfl)
      · cases he; exact WInv.done (h.label v rfl rfl)
      · cases he; exact h.done
      · cases he
  | startObj =>
    have he : s.startObj io names = some s' := he
    unfold Sax.startObj Sax.push at he
    repeat' split at he
    all_goals first
      | (cases he; done)
      | (cases he; exact ⟨h.cur, h.all⟩)
  | key k =>
    have he : s.key io names k = some s' := he
    unfold Sax.key at he
    split at he
    · cases he
    · split at he
      · exact hk he
      · cases he; exact ⟨h.cur, h.all⟩
    · split at he
      · exact hk he
      · cases he; exact ⟨h.cur, h.all⟩
    · split at he
      · cases he; exact h.state k rfl rfl
      · cases he
    · split at he
      · cases he; exact ⟨h.cur, h.all⟩
      · cases he; exact h.label k rfl rfl
    · repeat' split at he
      all_goals first
        | exact hk he
        | cases he
    · cases he; exact h
    · cases he
  | endObj =>
    have he : s.endObj io names = some s' := he
    unfold Sax.endObj at he
    split at he
    · dsimp only at he
      injection he with he
      rw [← he]
      refine WInv.done ?_
      split
      · split
        · exact ⟨h.cur, h.all⟩
        · exact ⟨h.cur, h.all⟩
      · refine ⟨hio.zero, fun i e hm => ?_⟩
        have hm : e ∈ ((s.pda.core.addRuleImpl s.src s.rule s.wc s.pre).st i).rules := hm
        rcases mem_addRuleImpl _ _ _ _ _ _ e hm with h1 | ⟨y, h1, h2⟩
        · rw [h1]; exact h.cur
        · rw [← h2]; exact h.all i y h1
      · exact ⟨h.cur, h.all⟩
    · cases he
  | startArr =>
    have he : s.startArr io names = some s' := he
    unfold Sax.startArr Sax.push at he
    repeat' split at he
    all_goals first
      | (cases he; done)
      | (cases he; exact ⟨h.cur, h.all⟩)
  | endArr =>
    have he : s.endArr = some s' := he
    unfold Sax.endArr at he
    split at he
    · cases he
    · cases he; exact WInv.done ⟨h.cur, h.all⟩

theorem WInv.run (hio : Puts P io) : ∀ (es : List JEv) {s s' : Sax W}, WInv P s → Sax.run io names es s = some s' → WInv P s'
  | [], _, _, h, he => by cases he; exact h
  | e :: es, s, s', h, he => by
    obtain ⟨s1, h1, h2⟩ := Option.bind_eq_some_iff.1 he
    exact WInv.run hio es (h.event hio h1) h2

/-- The weights of all rules of a PDA that was read. -/
theorem parsePda_weights (hio : Puts P io) {es : List JEv} {p : NPda String String W} (h : parsePda io names es = some p) :
    ∀ i, ∀ e ∈ (p.core.st i).rules, P e.1.weight := by
  unfold parsePda at h
  obtain ⟨s, hs, rfl⟩ := Option.map_eq_some_iff.1 h
  refine (WInv.run hio es (P := P) ⟨hio.zero, fun i e he => ?_⟩ hs).all
  have : ((default : PState W)).rules = [] := rfl
  simp [TPda.core, Pda.st] at he
  rw [this] at he
  cases he

end Verif.JsonWeights
