import Verif.Model.PAutJson
import Verif.Proofs.PAutParser
import Verif.Proofs.FromNfa
import Verif.Proofs.CegarYes

/-! # Lemmas for P-automata in JSON -/

namespace Verif

open Verif.Props (Blank)

variable {W : Type}

/-! ## States of the document and of the automaton -/

/-- The state for a reference, if there is one. -/
def PMake.find (names : Bool) (b : PMake W) : JRef → Option Nat
  | .num n => if !names && decide (n < b.pda.states.length) then some n else b.extra.lookup n
  | .name s => if names then
      match b.pda.names.idxOf? s with
      | some i => some i
      | none => (b.stateNames.idxOf? s).map (· + b.pda.states.length)
    else none

/-- References that may be used together: numbers for numbered states; for named states either only names, or numbers and the
names of the PDA. `k` tells whether numbers are used. -/
def JRef.Fit (names k : Bool) (ns : List String) : JRef → Prop
  | .num _ => names = true → k = true
  | .name s => names = true ∧ (k = true → s ∈ ns)

/-- The state maps are right. -/
structure PMake.Inv (names k : Bool) (b : PMake W) : Prop where
  namesLen : names = true → b.pda.names.length = b.pda.states.length
  sizeLe : b.pda.states.length ≤ b.aut.n
  numbers : names = true → k = true → b.stateNames = []
  nonumbers : names = true → k = false → b.extra = [] ∧ b.stateNames.length + b.pda.states.length = b.aut.n
  extraLt : ∀ x ∈ b.extra, b.pda.states.length ≤ x.2 ∧ x.2 < b.aut.n
  extraInj : ∀ x ∈ b.extra, ∀ y ∈ b.extra, x.2 = y.2 → x = y

theorem lookup_mem {l : List (Nat × Nat)} {n i : Nat} (h : l.lookup n = some i) : (n, i) ∈ l := by
  induction l with
  | nil => cases h
  | cons x l ih =>
    obtain ⟨m, j⟩ := x
    rw [List.lookup_cons] at h
    cases hc : n == m with
    | true =>
      rw [hc] at h
      cases h
      rw [beq_iff_eq] at hc
      subst hc
      exact List.mem_cons_self
    | false =>
      rw [hc] at h
      exact List.mem_cons_of_mem _ (ih h)

theorem idxOf?_some {l : List String} {s : String} {i : Nat} (h : l.idxOf? s = some i) : l[i]? = some s := by
  rw [List.idxOf?_eq_some_iff] at h
  obtain ⟨h1, h2, _⟩ := h
  rw [List.getElem?_eq_getElem h1]
  simpa using h2

theorem idxOf?_append_some {l : List String} {s x : String} {i : Nat} (h : l.idxOf? s = some i) : (l ++ [x]).idxOf? s = some i := by
  rw [List.idxOf?_eq_some_iff] at h ⊢
  obtain ⟨h1, h2, h3⟩ := h
  refine ⟨by rw [List.length_append]; omega, ?_, fun j hj => ?_⟩
  · rw [List.getElem_append_left h1]; exact h2
  · rw [List.getElem_append_left (by omega)]; exact h3 j hj

theorem idxOf?_append_self {l : List String} {s : String} (h : l.idxOf? s = none) : (l ++ [s]).idxOf? s = some l.length := by
  rw [List.idxOf?_eq_none_iff] at h
  rw [List.idxOf?_eq_some_iff]
  refine ⟨by simp, by simp, fun j hj => ?_⟩
  rw [List.getElem_append_left hj]
  intro hc
  exact h (hc ▸ List.getElem_mem hj)

theorem idxOf?_append_ne {l : List String} {s x : String} (h : l.idxOf? s = none) (hx : s ≠ x) : (l ++ [x]).idxOf? s = none := by
  rw [List.idxOf?_eq_none_iff] at h ⊢
  simp [h, hx]

variable {names k : Bool} {b : PMake W}

theorem PMake.Inv.find_lt (hb : b.Inv names k) {r : JRef} {i : Nat} (h : b.find names r = some i) : i < b.aut.n := by
  have h0 := hb.sizeLe
  cases r with
  | num n =>
    simp only [PMake.find] at h
    split at h
    · rename_i hc
      cases h
      simp only [Bool.and_eq_true, decide_eq_true_eq] at hc
      omega
    · exact (hb.extraLt _ (lookup_mem h)).2
  | name s =>
    simp only [PMake.find] at h
    cases hn : names with
    | false => simp [hn] at h
    | true =>
      simp only [hn, if_true] at h
      cases h1 : b.pda.names.idxOf? s with
      | some j =>
        rw [h1] at h
        cases h
        have := (List.idxOf?_eq_some_iff.1 h1).1
        have := hb.namesLen hn
        omega
      | none =>
        rw [h1] at h
        obtain ⟨j, h2, rfl⟩ := Option.map_eq_some_iff.1 h
        have h3 := (List.idxOf?_eq_some_iff.1 h2).1
        cases hk : k with
        | true => rw [hb.numbers hn hk] at h3; simp at h3
        | false => have := (hb.nonumbers hn hk).2; omega

theorem PMake.Inv.find_inj (hb : b.Inv names k) {r r' : JRef} {i : Nat} (h : b.find names r = some i) (h' : b.find names r' = some i) :
    r = r' := by
  have hlt : ∀ {s j}, b.pda.names.idxOf? s = some j → names = true → j < b.pda.states.length := by
    intro s j h1 hn
    have := (List.idxOf?_eq_some_iff.1 h1).1
    have := hb.namesLen hn
    omega
  have key : ∀ {n s}, b.find names (.num n) = some i → b.find names (.name s) = some i → False := by
    intro n s h h'
    simp only [PMake.find] at h h'
    cases hn : names with
    | false => simp [hn] at h'
    | true =>
      simp only [hn, Bool.not_true, Bool.false_and, Bool.false_eq_true, if_false, if_true] at h h'
      have h1 := hb.extraLt _ (lookup_mem h)
      cases h2 : b.pda.names.idxOf? s with
      | some j =>
        rw [h2] at h'
        cases h'
        have := hlt h2 hn
        dsimp only at h1
        omega
      | none =>
        rw [h2] at h'
        obtain ⟨j, h3, rfl⟩ := Option.map_eq_some_iff.1 h'
        cases hk : k with
        | true => rw [hb.numbers hn hk] at h3; simp at h3
        | false => rw [(hb.nonumbers hn hk).1] at h; cases h
  cases r with
  | num n =>
    cases r' with
    | name s => exact (key h h').elim
    | num m =>
      simp only [PMake.find] at h h'
      split at h
      · rename_i hc
        cases h
        simp only [Bool.and_eq_true, decide_eq_true_eq] at hc
        split at h'
        · cases h'; rfl
        · have := (hb.extraLt _ (lookup_mem h')).1
          dsimp only at this
          omega
      · split at h'
        · rename_i hc
          cases h'
          simp only [Bool.and_eq_true, decide_eq_true_eq] at hc
          have := (hb.extraLt _ (lookup_mem h)).1
          dsimp only at this
          omega
        · have := hb.extraInj _ (lookup_mem h) _ (lookup_mem h') rfl
          cases this
          rfl
  | name s =>
    cases r' with
    | num n => exact (key h' h).elim
    | name s' =>
      simp only [PMake.find] at h h'
      cases hn : names with
      | false => simp [hn] at h'
      | true =>
        simp only [hn, if_true] at h h'
        cases h2 : b.pda.names.idxOf? s with
        | some j =>
          rw [h2] at h
          cases h
          cases h3 : b.pda.names.idxOf? s' with
          | some j' =>
            rw [h3] at h'
            cases h'
            have := (idxOf?_some h2).symm.trans (idxOf?_some h3)
            cases this
            rfl
          | none =>
            rw [h3] at h'
            obtain ⟨j', h4, h5⟩ := Option.map_eq_some_iff.1 h'
            have := hlt h2 hn
            omega
        | none =>
          rw [h2] at h
          obtain ⟨j, h4, rfl⟩ := Option.map_eq_some_iff.1 h
          cases h3 : b.pda.names.idxOf? s' with
          | some j' =>
            rw [h3] at h'
            cases h'
            have := hlt h3 hn
            omega
          | none =>
            rw [h3] at h'
            obtain ⟨j', h5, h6⟩ := Option.map_eq_some_iff.1 h'
            obtain rfl : j' = j := by omega
            have := (idxOf?_some h4).symm.trans (idxOf?_some h5)
            cases this
            rfl

/-- What looking up a state of the document does. -/
structure PMake.Got (names k : Bool) (b : PMake W) (r : JRef) (b' : PMake W) (i : Nat) : Prop where
  inv : b'.Inv names k
  pda : b'.pda = b.pda
  found : b'.find names r = some i
  other : ∀ r', r' ≠ r → b'.find names r' = b.find names r'
  how : b' = b ∨ (b'.aut = b.aut.addState false ∧ i = b.aut.n ∧ b.find names r = none)

theorem n_addState (a : Aut W) (x : Bool) : (a.addState x).n = a.n + 1 := by simp [Aut.n, Aut.addState]

theorem PMake.state_got (hb : b.Inv names k) {r : JRef} (hr : r.Fit names k b.pda.names) :
    ∃ b' i, b.state names r = some (b', i) ∧ b.Got names k r b' i := by
  cases r with
  | num n =>
    refine ⟨(b.numberState names n).1, (b.numberState names n).2, rfl, ?_⟩
    unfold PMake.numberState
    by_cases hc : (!names && decide (n < b.pda.states.length)) = true
    · simp only [hc, if_true]
      exact ⟨hb, rfl, by simp only [PMake.find, hc, if_true], fun _ _ => rfl, .inl rfl⟩
    · simp only [if_neg hc]
      cases hl : b.extra.lookup n with
      | some id =>
        exact ⟨hb, rfl, by simp only [PMake.find, if_neg hc, hl], fun _ _ => rfl, .inl rfl⟩
      | none =>
        refine ⟨⟨hb.namesLen, ?_, hb.numbers, fun h1 h2 => ?_, ?_, ?_⟩, rfl, ?_, fun r' hr' => ?_, .inr ⟨rfl, rfl, ?_⟩⟩
        · have := hb.sizeLe
          rw [n_addState]
          exact Nat.le_succ_of_le this
        · have := hr h1
          rw [h2] at this
          cases this
        · intro x hx
          rw [n_addState]
          rcases List.mem_cons.1 hx with rfl | hx
          · exact ⟨hb.sizeLe, Nat.lt_succ_self _⟩
          · have := hb.extraLt x hx
            exact ⟨this.1, Nat.lt_succ_of_lt this.2⟩
        · intro x hx y hy hxy
          rcases List.mem_cons.1 hx with rfl | hx
          · rcases List.mem_cons.1 hy with rfl | hy
            · rfl
            · have := (hb.extraLt y hy).2
              dsimp only at hxy
              omega
          · rcases List.mem_cons.1 hy with rfl | hy
            · have := (hb.extraLt x hx).2
              dsimp only at hxy
              omega
            · exact hb.extraInj x hx y hy hxy
        · simp only [PMake.find, if_neg hc, List.lookup_cons, beq_self_eq_true]
        · cases r' with
          | name s => rfl
          | num m =>
            have hm : (m == n) = false := by
              rw [beq_eq_false_iff_ne]
              rintro rfl
              exact hr' rfl
            simp only [PMake.find, List.lookup_cons, hm]
        · simp only [PMake.find, if_neg hc, hl]
  | name s =>
    obtain ⟨hn, hk⟩ := hr
    subst hn
    refine ⟨(b.stringState s).1, (b.stringState s).2, rfl, ?_⟩
    unfold PMake.stringState
    cases h1 : b.pda.names.idxOf? s with
    | some id => exact ⟨hb, rfl, by simp only [PMake.find, h1, if_true], fun _ _ => rfl, .inl rfl⟩
    | none =>
      dsimp only
      cases h2 : b.stateNames.idxOf? s with
      | some id => exact ⟨hb, rfl, by simp only [PMake.find, h1, h2, if_true, Option.map_some], fun _ _ => rfl, .inl rfl⟩
      | none =>
        have hkf : k = false := by
          cases k with
          | false => rfl
          | true => exact absurd (hk rfl) (List.idxOf?_eq_none_iff.1 h1)
        obtain ⟨h3, h4⟩ := hb.nonumbers rfl hkf
        refine ⟨⟨hb.namesLen, ?_, fun _ h => ?_, fun _ _ => ⟨h3, ?_⟩, ?_, hb.extraInj⟩, rfl, ?_, fun r' hr' => ?_, .inr ⟨rfl, rfl, ?_⟩⟩
        · have := hb.sizeLe
          rw [n_addState]
          exact Nat.le_succ_of_le this
        · rw [hkf] at h
          cases h
        · rw [n_addState, List.length_append, List.length_singleton, ← h4]
          show b.stateNames.length + 1 + b.pda.states.length = _
          omega
        · intro x hx
          rw [n_addState]
          have := hb.extraLt x hx
          exact ⟨this.1, Nat.lt_succ_of_lt this.2⟩
        · simp only [PMake.find, h1, if_true, idxOf?_append_self h2, Option.map_some, ← h4]
        · cases r' with
          | num m => rfl
          | name s' =>
            have hs : s' ≠ s := fun h => hr' (h ▸ rfl)
            simp only [PMake.find, if_true]
            cases h5 : b.pda.names.idxOf? s' with
            | some j => rfl
            | none =>
              dsimp only
              cases h6 : b.stateNames.idxOf? s' with
              | some j => rw [idxOf?_append_some h6]
              | none => rw [idxOf?_append_ne h6 hs]
        · simp only [PMake.find, h1, h2, if_true, Option.map_none]

theorem PMake.Got.n_le {r : JRef} {b' : PMake W} {i : Nat} (h : b.Got names k r b' i) : b.aut.n ≤ b'.aut.n ∧ b'.aut.n ≤ b.aut.n + 1 := by
  rcases h.how with rfl | ⟨h1, _⟩
  · exact ⟨Nat.le_refl _, Nat.le_succ _⟩
  · rw [h1, n_addState]
    exact ⟨Nat.le_succ _, Nat.le_refl _⟩

theorem PMake.Got.stays {r r' : JRef} {b' : PMake W} {i j : Nat} (h : b.Got names k r b' i) (hf : b.find names r' = some j) :
    b'.find names r' = some j := by
  by_cases hc : r' = r
  · subst hc
    rcases h.how with rfl | ⟨_, _, h1⟩
    · exact hf
    · rw [h1] at hf
      cases hf
  · rw [h.other r' hc]
    exact hf

theorem PMake.Got.back (hb : b.Inv names k) {r r' : JRef} {b' : PMake W} {i j : Nat} (h : b.Got names k r b' i)
    (hf : b'.find names r' = some j) (hj : j < b.aut.n) : b.find names r' = some j := by
  by_cases hc : r' = r
  · subst hc
    rcases h.how with rfl | ⟨_, h2, _⟩
    · exact hf
    · have := h.found
      rw [hf] at this
      cases this
      omega
  · rw [← h.other r' hc]
    exact hf

/-! ## The contents of the automaton under construction -/

/-- The number of a label; the empty label is epsilon. -/
def labelNum (p : NPda String String W) (l : String) : Nat := if l = "" then epsilon else p.labels.idxOf l

/-- The labels of the edges, without the empty one. -/
def edgeLabels (E : List (JRef × String × JRef)) : List String := (E.map fun e => e.2.1).filter (· ≠ "")

/-- The automaton has the accepting states `A` and the edges `E` of the document. -/
structure PMake.Has [Zero W] (names k : Bool) (p : NPda String String W) (b : PMake W) (A : List JRef) (E : List (JRef × String × JRef)) : Prop where
  inv : b.Inv names k
  grows : LabelsGrow p.toTPda b.pda.toTPda (edgeLabels E)
  sameNames : b.pda.names = p.names
  acc : ∀ i, b.aut.isAcc i = true ↔ ∃ r ∈ A, b.find names r = some i
  accFound : ∀ r ∈ A, ∃ i, b.find names r = some i
  edges : ∀ t, t ∈ keys b.aut.edges ↔ ∃ e ∈ E, b.find names e.1 = some t.src ∧ b.find names e.2.2 = some t.dst ∧
    t.label = labelNum b.pda e.2.1
  edgeFound : ∀ e ∈ E, (∃ i, b.find names e.1 = some i) ∧ ∃ i, b.find names e.2.2 = some i
  nodup : (keys b.aut.edges).Nodup
  blank : Blank b.aut
  small : b.aut.n ≤ p.states.length + A.length + 2 * E.length

theorem PMake.Got.isAcc {r : JRef} {b' : PMake W} {i : Nat} (h : b.Got names k r b' i) (q : Nat) :
    b'.aut.isAcc q = b.aut.isAcc q := by
  rcases h.how with rfl | ⟨h1, _⟩
  · rfl
  · rw [h1, Aut.isAcc_addState]
    split
    · rename_i hq
      subst hq
      cases h2 : b.aut.isAcc b.aut.n with
      | false => rfl
      | true => exact absurd (Aut.isAcc_lt h2) (Nat.lt_irrefl _)
    · rfl

theorem PMake.Got.edges_eq {r : JRef} {b' : PMake W} {i : Nat} (h : b.Got names k r b' i) : b'.aut.edges = b.aut.edges := by
  rcases h.how with rfl | ⟨h1, _⟩
  · rfl
  · rw [h1]; rfl

/-- The facts that survive when a state is looked up. -/
theorem PMake.Got.content [Zero W] {p : NPda String String W} {A : List JRef} {E : List (JRef × String × JRef)} (hb : b.Has names k p A E)
    {r : JRef} {b' : PMake W} {i : Nat} (h : b.Got names k r b' i) :
    (∀ i, b'.aut.isAcc i = true ↔ ∃ r ∈ A, b'.find names r = some i) ∧
    (∀ t, t ∈ keys b'.aut.edges ↔ ∃ e ∈ E, b'.find names e.1 = some t.src ∧ b'.find names e.2.2 = some t.dst ∧
      t.label = labelNum b'.pda e.2.1) ∧
    (∀ r ∈ A, ∃ i, b'.find names r = some i) ∧
    (∀ e ∈ E, (∃ i, b'.find names e.1 = some i) ∧ ∃ i, b'.find names e.2.2 = some i) := by
  have key : ∀ r' i', (∃ j, b.find names r' = some j) → (b'.find names r' = some i' ↔ b.find names r' = some i') := by
    rintro r' i' ⟨j, hj⟩
    rw [h.stays hj, hj]
  refine ⟨fun i => ?_, fun t => ?_, fun r' hr' => ?_, fun e he => ?_⟩
  · rw [h.isAcc, hb.acc]
    refine exists_congr fun r' => and_congr_right fun hr' => (key r' i (hb.accFound r' hr')).symm
  · rw [h.edges_eq, hb.edges, h.pda]
    refine exists_congr fun e => and_congr_right fun he => ?_
    rw [key e.1 _ (hb.edgeFound e he).1, key e.2.2 _ (hb.edgeFound e he).2]
  · obtain ⟨j, hj⟩ := hb.accFound r' hr'
    exact ⟨j, h.stays hj⟩
  · obtain ⟨⟨j, hj⟩, ⟨j', hj'⟩⟩ := hb.edgeFound e he
    exact ⟨⟨j, h.stays hj⟩, ⟨j', h.stays hj'⟩⟩

theorem find_congr {b b' : PMake W} (h1 : b'.pda.states = b.pda.states) (h2 : b'.pda.names = b.pda.names) (h3 : b'.extra = b.extra)
    (h4 : b'.stateNames = b.stateNames) (r : JRef) : b'.find names r = b.find names r := by
  cases r <;> simp only [PMake.find, h1, h2, h3, h4]

theorem inv_congr {b b' : PMake W} (h1 : b'.pda.states = b.pda.states) (h2 : b'.pda.names = b.pda.names) (h3 : b'.extra = b.extra)
    (h4 : b'.stateNames = b.stateNames) (h5 : b'.aut.n = b.aut.n) (hb : b.Inv names k) : b'.Inv names k :=
  ⟨by rw [h1, h2]; exact hb.namesLen, by rw [h1, h5]; exact hb.sizeLe, by rw [h4]; exact hb.numbers,
    by rw [h1, h3, h4, h5]; exact hb.nonumbers, by rw [h1, h3, h5]; exact hb.extraLt, by rw [h3]; exact hb.extraInj⟩

theorem n_setAccepting (a : Aut W) (q : Nat) : (a.setAccepting q).n = a.n := by simp [Aut.n, Aut.setAccepting]

/-- An accepting state. -/
theorem PMake.Has.accept [Zero W] {p : NPda String String W} {A : List JRef} {E : List (JRef × String × JRef)} (hb : b.Has names k p A E)
    {r : JRef} {b' : PMake W} {i : Nat} (h : b.Got names k r b' i) :
    ({ b' with aut := b'.aut.setAccepting i } : PMake W).Has names k p (A ++ [r]) E := by
  obtain ⟨h1, h2, h3, h4⟩ := h.content hb
  have hi := h.inv.find_lt h.found
  have hf : ∀ r', ({ b' with aut := b'.aut.setAccepting i } : PMake W).find names r' = b'.find names r' := find_congr rfl rfl rfl rfl
  refine ⟨inv_congr (b := b') rfl rfl rfl rfl (n_setAccepting _ _) h.inv, ?_, ?_, fun q => ?_, fun r' hr' => ?_, fun t => ?_, fun e he => ?_, ?_, ?_, ?_⟩
  · show LabelsGrow p.toTPda b'.pda.toTPda _
    rw [h.pda]
    exact hb.grows
  · show b'.pda.names = _
    rw [h.pda]
    exact hb.sameNames
  · rw [Aut.isAcc_setAccepting _ _ _ hi, Bool.or_eq_true, beq_iff_eq, or_comm]
    constructor
    · intro hq
      rcases hq with rfl | hq
      · exact ⟨r, by simp, (hf r).trans h.found⟩
      · obtain ⟨r', hr', hfr⟩ := (h1 q).1 hq
        exact ⟨r', List.mem_append_left _ hr', (hf r').trans hfr⟩
    · rintro ⟨r', hr', hfr⟩
      rw [hf] at hfr
      rcases List.mem_append.1 hr' with hr' | hr'
      · exact .inr ((h1 q).2 ⟨r', hr', hfr⟩)
      · rw [List.mem_singleton] at hr'
        subst hr'
        rw [h.found] at hfr
        cases hfr
        exact .inl rfl
  · rcases List.mem_append.1 hr' with hr' | hr'
    · obtain ⟨j, hj⟩ := h3 r' hr'
      exact ⟨j, (hf r').trans hj⟩
    · rw [List.mem_singleton] at hr'
      subst hr'
      exact ⟨i, (hf r').trans h.found⟩
  · simp only [hf]
    exact h2 t
  · simp only [hf]
    exact h4 e he
  · show (keys b'.aut.edges).Nodup
    rw [h.edges_eq]
    exact hb.nodup
  · show ∀ e ∈ b'.aut.edges, _
    rw [h.edges_eq]
    exact hb.blank
  · show (b'.aut.setAccepting i).n ≤ _
    rw [n_setAccepting]
    have := hb.small
    have := h.n_le.2
    simp only [List.length_append, List.length_singleton]
    omega

theorem labelNum_grows {t t' : NPda String String W} {ls : List String} (h : LabelsGrow t.toTPda t'.toTPda ls) {l : String}
    (hl : l = "" ∨ l ∈ t.labels) : labelNum t' l = labelNum t l := by
  unfold labelNum
  by_cases hc : l = ""
  · rw [if_pos hc, if_pos hc]
  · rw [if_neg hc, if_neg hc]
    exact idxOf_prefix h.prefix_ (hl.resolve_left hc)

theorem edgeLabels_append (E : List (JRef × String × JRef)) (e : JRef × String × JRef) :
    edgeLabels (E ++ [e]) = edgeLabels E ++ if e.2.1 = "" then [] else [e.2.1] := by
  unfold edgeLabels
  rw [List.map_append, List.filter_append]
  by_cases hc : e.2.1 = "" <;> simp [hc]

/-- An edge. -/
theorem PMake.Has.putEdge [Zero W] {p : NPda String String W} {A : List JRef} {E : List (JRef × String × JRef)} (hb : b.Has names k p A E)
    {r r' : JRef} {l : String} {b1 b2 : PMake W} {i j : Nat} (h : b.Got names k r b1 i) (h' : b1.Got names k r' b2 j) :
    (b2.edge i j l).Has names k p A (E ++ [(r, l, r')]) := by
  have hz : b2.pda = b.pda := h'.pda.trans h.pda
  obtain ⟨g1, g2, g3, g4⟩ := h.content hb
  -- the facts after both lookups
  have key : ∀ r' i', (∃ j, b1.find names r' = some j) → (b2.find names r' = some i' ↔ b1.find names r' = some i') := by
    rintro r' i' ⟨j, hj⟩
    rw [h'.stays hj, hj]
  have a1 : ∀ i, b2.aut.isAcc i = true ↔ ∃ r ∈ A, b2.find names r = some i := fun i => by
    rw [h'.isAcc, g1]
    exact exists_congr fun r' => and_congr_right fun hr' => (key r' i (g3 r' hr')).symm
  have a2 : ∀ t, t ∈ keys b2.aut.edges ↔ ∃ e ∈ E, b2.find names e.1 = some t.src ∧ b2.find names e.2.2 = some t.dst ∧
      t.label = labelNum b2.pda e.2.1 := fun t => by
    rw [h'.edges_eq, g2, h'.pda]
    refine exists_congr fun e => and_congr_right fun he => ?_
    rw [key e.1 _ (g4 e he).1, key e.2.2 _ (g4 e he).2]
  have a3 : ∀ r ∈ A, ∃ i, b2.find names r = some i := fun r hr => by
    obtain ⟨j, hj⟩ := g3 r hr
    exact ⟨j, h'.stays hj⟩
  have a4 : ∀ e ∈ E, (∃ i, b2.find names e.1 = some i) ∧ ∃ i, b2.find names e.2.2 = some i := fun e he => by
    obtain ⟨⟨j, hj⟩, ⟨j', hj'⟩⟩ := g4 e he
    exact ⟨⟨j, h'.stays hj⟩, ⟨j', h'.stays hj'⟩⟩
  have f1 : b2.find names r = some i := h'.stays h.found
  have f2 : b2.find names r' = some j := h'.found
  -- the label
  have hl : ∃ b3, b2.edge i j l = b3 ∧ b3.aut = b2.aut.addEdge i j (labelNum b3.pda l) ∧ b3.extra = b2.extra ∧ b3.stateNames = b2.stateNames ∧
      b3.pda.names = b2.pda.names ∧ LabelsGrow b2.pda.toTPda b3.pda.toTPda (if l = "" then [] else [l]) := by
    unfold PMake.edge labelNum
    by_cases hc : l = ""
    · rw [if_pos hc, if_pos hc]
      refine ⟨_, rfl, ?_, rfl, rfl, rfl, LabelsGrow.refl _⟩
      rw [if_pos hc]
    · rw [if_neg hc, if_neg hc]
      have := insertLabel_grows b2.pda.toTPda l
      refine ⟨_, rfl, ?_, rfl, rfl, rfl, this.1⟩
      rw [if_neg hc]
      show b2.aut.addEdge i j (b2.pda.toTPda.insertLabel l).2 = b2.aut.addEdge i j ((b2.pda.toTPda.insertLabel l).1.labels.idxOf l)
      rw [this.2]
  obtain ⟨b3, hb3, e1, e2, e3, e4, e5⟩ := hl
  rw [hb3]
  have hf : ∀ r, b3.find names r = b2.find names r := find_congr e5.states e4 e2 e3
  have hn : b3.aut.n = b2.aut.n := by rw [e1]; simp only [Aut.n, Aut.acc_addEdge]
  have hlab : ∀ e ∈ E, labelNum b3.pda e.2.1 = labelNum b2.pda e.2.1 := by
    intro e he
    refine labelNum_grows e5 ?_
    by_cases hc : e.2.1 = ""
    · exact .inl hc
    · right
      rw [hz]
      refine (hb.grows.mem _).2 (.inr ?_)
      unfold edgeLabels
      rw [List.mem_filter]
      exact ⟨List.mem_map.2 ⟨e, he, rfl⟩, by simpa using hc⟩
  refine ⟨inv_congr e5.states e4 e2 e3 hn h'.inv, ?_, ?_, fun q => ?_, fun r hr => ?_, fun t => ?_, fun e he => ?_, ?_, ?_, ?_⟩
  · rw [edgeLabels_append]
    exact LabelsGrow.trans (hz ▸ hb.grows) e5
  · rw [e4, hz]
    exact hb.sameNames
  · simp only [hf]
    rw [← a1, e1]
    unfold Aut.isAcc
    rw [Aut.acc_addEdge]
  · simp only [hf]
    exact a3 r hr
  · rw [e1, Aut.keys_addEdge, a2]
    simp only [hf]
    constructor
    · rintro (⟨e, he, q1, q2, q3⟩ | rfl)
      · exact ⟨e, List.mem_append_left _ he, q1, q2, by rw [hlab e he]; exact q3⟩
      · exact ⟨_, List.mem_append_right _ (List.mem_singleton.2 rfl), f1, f2, rfl⟩
    · rintro ⟨e, he, q1, q2, q3⟩
      rcases List.mem_append.1 he with he | he
      · exact .inl ⟨e, he, q1, q2, by rw [← hlab e he]; exact q3⟩
      · rw [List.mem_singleton] at he
        subst he
        right
        rw [f1] at q1
        rw [f2] at q2
        cases t
        simp_all
  · simp only [hf]
    rcases List.mem_append.1 he with he | he
    · exact a4 e he
    · rw [List.mem_singleton] at he
      subst he
      exact ⟨⟨i, f1⟩, ⟨j, f2⟩⟩
  · rw [e1]
    refine Aut.nodup_emplaceEdge ?_ _ _
    rw [h'.edges_eq, h.edges_eq]
    exact hb.nodup
  · rw [e1]
    refine blank_addEdge ?_ _ _ _
    show ∀ e ∈ b2.aut.edges, _
    rw [h'.edges_eq, h.edges_eq]
    exact hb.blank
  · rw [hn]
    have := hb.small
    have := h.n_le.2
    have := h'.n_le.2
    simp only [List.length_append, List.length_singleton]
    omega

/-! ## Reading the events -/

/-- Reading succeeds with a state as described if `g` holds, and reports an error otherwise. -/
def Res (g : Prop) (Q : PSax W → Prop) (x : SaxRes (PSax W)) : Prop := (g ∧ ∃ s, x = .ok s ∧ Q s) ∨ (¬ g ∧ x = .error)

theorem Res.bind {g g' : Prop} {Q Q' : PSax W → Prop} {x : SaxRes (PSax W)} {f : PSax W → SaxRes (PSax W)} (h : Res g Q x)
    (h' : ∀ s, Q s → Res g' Q' (f s)) : Res (g ∧ g') Q' (x.bind f) := by
  rcases h with ⟨h1, s, rfl, hs⟩ | ⟨h1, rfl⟩
  · rcases h' s hs with ⟨h2, h3⟩ | ⟨h2, h3⟩
    · exact .inl ⟨⟨h1, h2⟩, h3⟩
    · exact .inr ⟨fun h => h2 h.2, h3⟩
  · exact .inr ⟨fun h => h1 h.1, rfl⟩

theorem Res.congr {g g' : Prop} {Q Q' : PSax W → Prop} {x : SaxRes (PSax W)} (h : Res g Q x) (hg : g ↔ g') (hQ : ∀ s, Q s → Q' s) :
    Res g' Q' x := by
  rcases h with ⟨h1, s, h2, hs⟩ | ⟨h1, h2⟩
  · exact .inl ⟨hg.1 h1, s, h2, hQ s hs⟩
  · exact .inr ⟨fun h => h1 (hg.2 h), h2⟩

theorem Res.ok {Q : PSax W → Prop} {s : PSax W} (h : Q s) : Res True Q (.ok s) := .inl ⟨trivial, s, rfl, h⟩

theorem run_append [Zero W] (es fs : List JEv) (s : PSax W) :
    PSax.run names (es ++ fs) s = (PSax.run names es s).bind (PSax.run names fs) := by
  induction es generalizing s with
  | nil => rfl
  | cons e es ih =>
    simp only [List.cons_append, PSax.run]
    cases h : s.event names e with
    | ok s' => simp only [SaxRes.bind]; exact ih s'
    | error => rfl
    | undefined => rfl

/-- Strings are only states of PDAs with named states. -/
def JRef.Usable (names : Bool) : JRef → Prop
  | .num _ => True
  | .name _ => names = true

theorem state_none {r : JRef} (h : ¬ r.Usable names) : b.state names r = none := by
  cases r with
  | num n => exact absurd trivial h
  | name s => exact if_neg h

theorem event_ref [Zero W] (s : PSax W) (r : JRef) : s.event names r.event = s.value names r := by
  cases r <;> rfl

variable [Zero W] {p : NPda String String W} {A : List JRef} {E : List (JRef × String × JRef)}

theorem value_accepting {s : PSax W} {j : Nat} {rest : List (PCtx × JBody)} (hs : s.stack = (.acceptingArray, .array j) :: rest)
    (hb : s.make.Has names k p A E) (r : JRef) (hr : r.Usable names → r.Fit names k p.names) :
    Res (r.Usable names) (fun s' => s'.stack = (.acceptingArray, .array (j + 1)) :: rest ∧ s'.make.Has names k p (A ++ [r]) E)
      (s.value names r) := by
  by_cases hu : r.Usable names
  · obtain ⟨b', i, h1, h2⟩ := PMake.state_got hb.inv (hb.sameNames ▸ hr hu)
    refine .inl ⟨hu, ?_⟩
    simp only [PSax.value, hs, h1, PSax.elementDone]
    exact ⟨_, rfl, rfl, hb.accept h2⟩
  · refine .inr ⟨hu, ?_⟩
    simp only [PSax.value, hs, state_none hu]

theorem run_accepting (l : List JRef) {s : PSax W} {A : List JRef} {j : Nat} {rest : List (PCtx × JBody)}
    (hs : s.stack = (.acceptingArray, .array j) :: rest) (hb : s.make.Has names k p A E)
    (hr : ∀ r ∈ l, r.Usable names → r.Fit names k p.names) :
    Res (∀ r ∈ l, r.Usable names)
      (fun s' => (∃ j', s'.stack = (.acceptingArray, .array j') :: rest) ∧ s'.make.Has names k p (A ++ l) E)
      (PSax.run names (l.map JRef.event) s) := by
  induction l generalizing s A j with
  | nil => exact .inl ⟨by simp, s, rfl, ⟨j, hs⟩, by simpa using hb⟩
  | cons r l ih =>
    simp only [List.map_cons, PSax.run, event_ref]
    have h := (value_accepting hs hb r (hr r List.mem_cons_self)).bind (f := PSax.run names (l.map JRef.event))
      fun s' hs' => ih hs'.1 hs'.2 fun r' hr' => hr r' (List.mem_cons_of_mem _ hr')
    refine h.congr ?_ fun s' hs' => ⟨hs'.1, ?_⟩
    · simp
    · simpa using hs'.2

theorem run_initial (l : List JRef) {s : PSax W} {j : Nat} {rest : List (PCtx × JBody)}
    (hs : s.stack = (.initialArray, .array j) :: rest) (hb : s.make.Has names k p A E) :
    Res (∀ r ∈ l, s.make.isInitial names r = true)
      (fun s' => (∃ j', s'.stack = (.initialArray, .array j') :: rest) ∧ s'.make = s.make)
      (PSax.run names (l.map JRef.event) s) := by
  induction l generalizing s j with
  | nil => exact .inl ⟨by simp, s, rfl, ⟨j, hs⟩, rfl⟩
  | cons r l ih =>
    simp only [List.map_cons, PSax.run, event_ref]
    have h1 : Res (s.make.isInitial names r = true)
        (fun s' => s'.stack = (.initialArray, .array (j + 1)) :: rest ∧ s'.make = s.make) (s.value names r) := by
      by_cases hi : s.make.isInitial names r = true
      · refine .inl ⟨hi, s.elementDone, ?_, ?_⟩
        · simp only [PSax.value, hs, if_pos hi]
        · simp only [PSax.elementDone, hs]
          exact ⟨trivial, trivial⟩
      · refine .inr ⟨hi, ?_⟩
        simp only [PSax.value, hs, if_neg hi]
    refine (h1.bind (f := PSax.run names (l.map JRef.event)) (g' := ∀ r ∈ l, s.make.isInitial names r = true)
      (Q' := fun s' => (∃ j', s'.stack = (.initialArray, .array j') :: rest) ∧ s'.make = s.make)
      fun s' hs' => ?_).congr ?_ fun s' hs' => hs'
    · have := ih hs'.1 (hs'.2 ▸ hb)
      rw [hs'.2] at this
      exact this
    · simp

theorem run_edge (e : JRef × String × JRef) {s : PSax W} {j : Nat} {rest : List (PCtx × JBody)}
    (hs : s.stack = (.edgesArray, .array j) :: rest) (hb : s.make.Has names k p A E)
    (hr : e.1.Usable names → e.1.Fit names k p.names) (hr' : e.2.2.Usable names → e.2.2.Fit names k p.names)
    (hsm : p.states.length + A.length + 2 * (E.length + 1) ≤ sizeMax) :
    Res (e.1.Usable names ∧ e.2.2.Usable names)
      (fun s' => s'.stack = (.edgesArray, .array (j + 1)) :: rest ∧ s'.make.Has names k p A (E ++ [e]))
      (PSax.run names (edgeEvents e) s) := by
  obtain ⟨r, l, r'⟩ := e
  have h0 : s.event names .startArr = .ok { s.push .edge (.array 0) with src := sizeMax, dst := sizeMax, label := "" } := by
    show s.startArr = _
    unfold PSax.startArr
    rw [hs]
  simp only [edgeEvents, PSax.run, h0, SaxRes.bind, event_ref]
  dsimp only at hr hr' ⊢
  by_cases hu : r.Usable names
  · obtain ⟨b1, i, g1, g2⟩ := PMake.state_got hb.inv (hb.sameNames ▸ hr hu)
    simp only [PSax.value, PSax.push, g1, PSax.elementDone, PSax.event]
    by_cases hu' : r'.Usable names
    · have hn : b1.pda.names = p.names := by rw [g2.pda]; exact hb.sameNames
      obtain ⟨b2, i', g3, g4⟩ := PMake.state_got g2.inv (r := r') (by rw [hn]; exact hr' hu')
      have hi : i < sizeMax ∧ i' < sizeMax := by
        have q1 := g2.inv.find_lt g2.found
        have q2 := g4.inv.find_lt g4.found
        have q3 := g2.n_le.2
        have q4 := g4.n_le.2
        have q5 := hb.small
        omega
      refine .inl ⟨⟨hu, hu'⟩, ?_⟩
      simp only [g3, PSax.endArr, if_neg (show ¬ (i = sizeMax ∨ i' = sizeMax) by omega), PSax.elementDone, hs]
      exact ⟨_, rfl, rfl, hb.putEdge g2 g4⟩
    · refine .inr ⟨fun h => hu' h.2, ?_⟩
      simp only [state_none hu']
  · refine .inr ⟨fun h => hu h.1, ?_⟩
    simp only [PSax.value, PSax.push, state_none hu]

theorem run_edges (l : List (JRef × String × JRef)) {s : PSax W} {E : List (JRef × String × JRef)} {j : Nat}
    {rest : List (PCtx × JBody)} (hs : s.stack = (.edgesArray, .array j) :: rest) (hb : s.make.Has names k p A E)
    (hr : ∀ e ∈ l, (e.1.Usable names → e.1.Fit names k p.names) ∧ (e.2.2.Usable names → e.2.2.Fit names k p.names))
    (hsm : p.states.length + A.length + 2 * (E.length + l.length) ≤ sizeMax) :
    Res (∀ e ∈ l, e.1.Usable names ∧ e.2.2.Usable names)
      (fun s' => (∃ j', s'.stack = (.edgesArray, .array j') :: rest) ∧ s'.make.Has names k p A (E ++ l))
      (PSax.run names (l.flatMap edgeEvents) s) := by
  induction l generalizing s E j with
  | nil => exact .inl ⟨by simp, s, rfl, ⟨j, hs⟩, by simpa using hb⟩
  | cons e l ih =>
    rw [List.flatMap_cons, run_append]
    simp only [List.length_cons] at hsm
    have h := (run_edge e hs hb (hr e List.mem_cons_self).1 (hr e List.mem_cons_self).2 (by omega)).bind
      (f := PSax.run names (l.flatMap edgeEvents))
      fun s' hs' => ih hs'.1 hs'.2 (fun r' hr' => hr r' (List.mem_cons_of_mem _ hr'))
        (by simp only [List.length_append, List.length_singleton]; omega)
    refine h.congr ?_ fun s' hs' => ⟨hs'.1, ?_⟩
    · simp
    · simpa using hs'.2

/-! ## The entries of the document -/

def JField.flag : JField → Nat
  | .accepting _ => 1
  | .edges _ => 2
  | .initial _ => 3

def JField.accs : JField → List JRef
  | .accepting l => l
  | _ => []

def JField.edgs : JField → List (JRef × String × JRef)
  | .edges l => l
  | _ => []

def JField.inis : JField → List JRef
  | .initial l => l
  | _ => []

/-- `pda.exists_state` for the states of the document. -/
def JRef.IsState (names : Bool) (p : NPda String String W) : JRef → Prop
  | .num n => names = false ∧ n < p.states.length
  | .name s => names = true ∧ s ∈ p.names

/-- What an entry needs. -/
def JField.Good (names : Bool) (p : NPda String String W) (f : JField) : Prop :=
  (∀ r ∈ f.inis, r.IsState names p) ∧ (∀ r ∈ f.accs, r.Usable names) ∧ ∀ e ∈ f.edgs, e.1.Usable names ∧ e.2.2.Usable names

/-- The states in the entry that can be used are used in one way. -/
def JField.Fits (names k : Bool) (p : NPda String String W) (f : JField) : Prop :=
  (∀ r ∈ f.accs, r.Usable names → r.Fit names k p.names) ∧
    ∀ e ∈ f.edgs, (e.1.Usable names → e.1.Fit names k p.names) ∧ (e.2.2.Usable names → e.2.2.Fit names k p.names)

theorem isInitial_iff (hb : b.Has names k p A E) (r : JRef) : b.isInitial names r = true ↔ r.IsState names p := by
  have h1 : b.pda.states = p.states := hb.grows.states
  cases r <;> simp [PMake.isInitial, JRef.IsState, h1, hb.sameNames]

def baseStack (m : List Nat) : List (PCtx × JBody) := [(.pAutomaton, .object m), (.initial, .object [])]

/-- The parameter of the handler does not change. -/
theorem elementDone_req (s : PSax W) : s.elementDone.req = s.req := by
  unfold PSax.elementDone
  split <;> rfl

theorem event_req (e : JEv) (s s' : PSax W) (h : s.event names e = .ok s') : s'.req = s.req := by
  cases e <;>
    simp only [PSax.event, PSax.value, PSax.startObj, PSax.key, PSax.handleKey, PSax.endObj, PSax.startArr, PSax.endArr, PSax.push] at h <;>
    grind [elementDone_req]

theorem run_req (es : List JEv) {s s' : PSax W} (h : PSax.run names es s = .ok s') : s'.req = s.req := by
  induction es generalizing s with
  | nil => cases h; rfl
  | cons e es ih =>
    rw [PSax.run] at h
    cases he : s.event names e with
    | ok s1 =>
      rw [he] at h
      exact (ih h).trans (event_req e s s1 he)
    | error => rw [he] at h; cases h
    | undefined => rw [he] at h; cases h

theorem Res.withReq {g : Prop} {Q : PSax W → Prop} {es : List JEv} {s : PSax W} (h : Res g Q (PSax.run names es s)) :
    Res g (fun s' => Q s' ∧ s'.req = s.req) (PSax.run names es s) := by
  rcases h with ⟨h1, s', h2, hs⟩ | h
  · exact .inl ⟨h1, s', h2, hs, run_req es h2⟩
  · exact .inr h

theorem run_field (f : JField) {s : PSax W} {m : List Nat} (hs : s.stack = baseStack m) (hm : s.req = false → 3 ∉ m)
    (hb : s.make.Has names k p A E)
    (hr : f.Fits names k p) (hsm : p.states.length + A.length + 2 * (E.length + f.edgs.length) ≤ sizeMax) :
    Res ((f.flag ∈ m ∨ (s.req = false ∧ f.flag = 3)) ∧ f.Good names p)
      (fun s' => s'.stack = baseStack (m.filter (· ≠ f.flag)) ∧ s'.make.Has names k p (A ++ f.accs) (E ++ f.edgs))
      (PSax.run names f.events s) := by
  have hkey : ∀ (k : PKey) (n : Nat), Res (n ∈ m)
      (fun s' => s'.stack = baseStack (m.filter (· ≠ n)) ∧ s'.make = s.make ∧ s'.lastKey = k) (s.handleKey n k) := by
    intro k n
    unfold PSax.handleKey
    simp only [hs, baseStack]
    by_cases hc : n ∈ m
    · rw [if_pos (by simpa using hc)]
      exact .inl ⟨hc, _, rfl, rfl, rfl, rfl⟩
    · rw [if_neg (by simpa using hc)]
      exact .inr ⟨hc, rfl⟩
  have hend : ∀ (ty : PCtx) (m' : List Nat) (s' : PSax W), ty ≠ .edge → (∃ j, s'.stack = (ty, .array j) :: baseStack m') →
      ∃ s2, PSax.run names [.endArr] s' = .ok s2 ∧ s2.stack = baseStack m' ∧ s2.make = s'.make := by
    rintro ty m' s' hty ⟨j, hj⟩
    refine ⟨({ s' with stack := baseStack m' } : PSax W).elementDone, ?_, rfl, rfl⟩
    simp only [PSax.run, PSax.event, PSax.endArr, hj]
    cases ty <;> simp_all [SaxRes.bind]
  cases f with
  | accepting l =>
    have h : Res (1 ∈ m ∧ ∀ r ∈ l, r.Usable names)
        (fun s' => s'.stack = baseStack (m.filter (· ≠ 1)) ∧ s'.make.Has names k p (A ++ l) E)
        (PSax.run names (JField.accepting l).events s) := by
      have hk : s.event names (.key "accepting") = s.handleKey 1 .accepting := by
        show s.key "accepting" = _
        unfold PSax.key
        rw [hs, baseStack]
        rfl
      show Res _ _ (PSax.run names (.key "accepting" :: .startArr :: (l.map JRef.event ++ [.endArr])) s)
      simp only [PSax.run, hk]
      refine (hkey .accepting 1).bind fun s' hs' => ?_
      obtain ⟨e1, e2, e3⟩ := hs'
      have hsa : s'.event names .startArr = .ok (s'.push .acceptingArray (.array 0)) := by
        show s'.startArr = _
        unfold PSax.startArr
        rw [e1, baseStack, e3]
      rw [hsa]
      simp only [SaxRes.bind]
      rw [run_append]
      have h := run_accepting (names := names) (k := k) (p := p) (A := A) (E := E) l (s := s'.push .acceptingArray (.array 0)) (j := 0)
        (rest := baseStack (m.filter (· ≠ 1))) (by simp only [PSax.push, e1]) (show s'.make.Has names k p A E from e2 ▸ hb) hr.1
      refine (h.bind (g' := True) (Q' := fun s' => s'.stack = baseStack (m.filter (· ≠ 1)) ∧ s'.make.Has names k p (A ++ l) E)
        fun s2 hs2 => ?_).congr (by simp) fun _ h => h
      obtain ⟨s3, q1, q2, q3⟩ := hend _ _ s2 (by decide) hs2.1
      exact .inl ⟨trivial, s3, q1, q2, q3 ▸ hs2.2⟩
    refine h.congr ?_ fun s' hs' => ?_
    · simp [JField.flag, JField.Good, JField.inis, JField.accs, JField.edgs]
    · simp only [JField.accs, JField.edgs, List.append_nil]
      exact hs'
  | initial l =>
    have h : Res ((3 ∈ m ∨ s.req = false) ∧ ∀ r ∈ l, r.IsState names p)
        (fun s' => s'.stack = baseStack (m.filter (· ≠ 3)) ∧ s'.make.Has names k p A E)
        (PSax.run names (JField.initial l).events s) := by
      have hk : s.event names (.key "initial") = if s.req then s.handleKey 3 .initial else .ok { s with lastKey := .initial } := by
        show s.key "initial" = _
        unfold PSax.key
        rw [hs, baseStack]
        rfl
      have hkey' : Res (3 ∈ m ∨ s.req = false)
          (fun s' => s'.stack = baseStack (m.filter (· ≠ 3)) ∧ s'.make = s.make ∧ s'.lastKey = .initial)
          (if s.req then s.handleKey 3 .initial else .ok { s with lastKey := .initial }) := by
        cases hq : s.req with
        | true => exact (hkey .initial 3).congr (by simp) fun _ h => h
        | false =>
          refine .inl ⟨.inr rfl, _, rfl, ?_, rfl, rfl⟩
          have hf : m.filter (· ≠ 3) = m := List.filter_eq_self.2 fun x hx => by
            have := hm hq
            simp only [ne_eq, decide_not, Bool.not_eq_eq_eq_not, Bool.not_true, decide_eq_false_iff_not]
            rintro rfl
            exact this hx
          rw [hf]
          exact hs
      show Res _ _ (PSax.run names (.key "initial" :: .startArr :: (l.map JRef.event ++ [.endArr])) s)
      simp only [PSax.run, hk]
      refine hkey'.bind fun s' hs' => ?_
      obtain ⟨e1, e2, e3⟩ := hs'
      have hsa : s'.event names .startArr = .ok (s'.push .initialArray (.array 0)) := by
        show s'.startArr = _
        unfold PSax.startArr
        rw [e1, baseStack, e3]
      rw [hsa]
      simp only [SaxRes.bind]
      rw [run_append]
      have hb' : s'.make.Has names k p A E := e2 ▸ hb
      have h := run_initial (names := names) (k := k) (p := p) (A := A) (E := E) l (s := s'.push .initialArray (.array 0)) (j := 0)
        (rest := baseStack (m.filter (· ≠ 3))) (by simp only [PSax.push, e1]) hb'
      refine (h.bind (g' := True) (Q' := fun s' => s'.stack = baseStack (m.filter (· ≠ 3)) ∧ s'.make.Has names k p A E)
        fun s2 hs2 => ?_).congr ?_ fun _ h => h
      · obtain ⟨s3, q1, q2, q3⟩ := hend _ _ s2 (by decide) hs2.1
        refine .inl ⟨trivial, s3, q1, q2, ?_⟩
        rw [q3, hs2.2]
        exact hb'
      · rw [and_true]
        exact forall_congr' fun r => imp_congr_right fun _ => isInitial_iff hb' r
    refine h.congr ?_ fun s' hs' => ?_
    · simp [JField.flag, JField.Good, JField.inis, JField.accs, JField.edgs]
    · simp only [JField.accs, JField.edgs, List.append_nil]
      exact hs'
  | edges l =>
    have h : Res (2 ∈ m ∧ ∀ e ∈ l, e.1.Usable names ∧ e.2.2.Usable names)
        (fun s' => s'.stack = baseStack (m.filter (· ≠ 2)) ∧ s'.make.Has names k p A (E ++ l))
        (PSax.run names (JField.edges l).events s) := by
      have hk : s.event names (.key "edges") = s.handleKey 2 .edges := by
        show s.key "edges" = _
        unfold PSax.key
        rw [hs, baseStack]
        rfl
      show Res _ _ (PSax.run names (.key "edges" :: .startArr :: (l.flatMap edgeEvents ++ [.endArr])) s)
      simp only [PSax.run, hk]
      refine (hkey .edges 2).bind fun s' hs' => ?_
      obtain ⟨e1, e2, e3⟩ := hs'
      have hsa : s'.event names .startArr = .ok (s'.push .edgesArray (.array 0)) := by
        show s'.startArr = _
        unfold PSax.startArr
        rw [e1, baseStack, e3]
      rw [hsa]
      simp only [SaxRes.bind]
      rw [run_append]
      have h := run_edges (names := names) (k := k) (p := p) (A := A) (E := E) l (s := s'.push .edgesArray (.array 0)) (j := 0)
        (rest := baseStack (m.filter (· ≠ 2))) (by simp only [PSax.push, e1]) (show s'.make.Has names k p A E from e2 ▸ hb) hr.2 hsm
      refine (h.bind (g' := True) (Q' := fun s' => s'.stack = baseStack (m.filter (· ≠ 2)) ∧ s'.make.Has names k p A (E ++ l))
        fun s2 hs2 => ?_).congr (by simp) fun _ h => h
      obtain ⟨s3, q1, q2, q3⟩ := hend _ _ s2 (by decide) hs2.1
      exact .inl ⟨trivial, s3, q1, q2, q3 ▸ hs2.2⟩
    refine h.congr ?_ fun s' hs' => ?_
    · simp [JField.flag, JField.Good, JField.inis, JField.accs, JField.edgs]
    · simp only [JField.accs, JField.edgs, List.append_nil]
      exact hs'

/-- The keys `m` are used once each; key 3 may come as often as it likes if it is not required. -/
def Keys (req : Bool) : List Nat → List JField → Prop
  | m, [] => m = []
  | m, f :: fs => (f.flag ∈ m ∨ (req = false ∧ f.flag = 3)) ∧ Keys req (m.filter (· ≠ f.flag)) fs

theorem keys_perm (fs : List JField) {m : List Nat} (hm : m.Nodup) : Keys true m fs ↔ (fs.map JField.flag).Perm m := by
  induction fs generalizing m with
  | nil => simp [Keys]
  | cons f fs ih =>
    have h1 : m.filter (· ≠ f.flag) = m.erase f.flag := by
      rw [hm.erase_eq_filter]
      congr 1
      funext x
      by_cases h : x = f.flag <;> simp [h]
    rw [Keys, List.map_cons, List.cons_perm_iff_perm_erase, h1, ih (hm.erase _)]
    simp

theorem keys_free (fs : List JField) {m : List Nat} (hm : m.Nodup) (h3 : 3 ∉ m) :
    Keys false m fs ↔ ((fs.map JField.flag).filter (· ≠ 3)).Perm m := by
  induction fs generalizing m with
  | nil => simp [Keys]
  | cons f fs ih =>
    have h1 : m.filter (· ≠ f.flag) = m.erase f.flag := by
      rw [hm.erase_eq_filter]
      congr 1
      funext x
      by_cases h : x = f.flag <;> simp [h]
    rw [Keys, List.map_cons, h1, ih (hm.erase _) fun h => h3 (List.mem_of_mem_erase h)]
    by_cases hf : f.flag = 3
    · rw [List.filter_cons_of_neg (by simp [hf]), hf, List.erase_of_not_mem h3]
      simp
    · rw [List.filter_cons_of_pos (by simp [hf]), List.cons_perm_iff_perm_erase]
      simp [hf]

theorem run_fields (fs : List JField) {s : PSax W} {A : List JRef} {E : List (JRef × String × JRef)} {m : List Nat}
    (hs : s.stack = baseStack m) (hm : s.req = false → 3 ∉ m) (hb : s.make.Has names k p A E) (hr : ∀ f ∈ fs, f.Fits names k p)
    (hsm : p.states.length + (A.length + (fs.flatMap JField.accs).length) + 2 * (E.length + (fs.flatMap JField.edgs).length) ≤ sizeMax) :
    Res (Keys s.req m fs ∧ ∀ f ∈ fs, f.Good names p)
      (fun s' => s'.make.Has names k p (A ++ fs.flatMap JField.accs) (E ++ fs.flatMap JField.edgs))
      (PSax.run names (fs.flatMap JField.events ++ [.endObj, .endObj]) s) := by
  induction fs generalizing s A E m with
  | nil =>
    simp only [List.flatMap_nil, List.append_nil, List.nil_append, PSax.run, PSax.event, PSax.endObj, hs, baseStack]
    cases m with
    | nil =>
      exact .inl ⟨⟨rfl, fun _ h => by cases h⟩, _, rfl, hb⟩
    | cons x m => exact .inr ⟨fun h => (by have := h.1; cases this), rfl⟩
  | cons f fs ih =>
    rw [show (f :: fs).flatMap JField.events = f.events ++ fs.flatMap JField.events from rfl, List.append_assoc, run_append]
    simp only [List.flatMap_cons, List.length_append] at hsm
    have h := (run_field f hs hm hb (hr f List.mem_cons_self) (by omega)).withReq.bind
      (f := PSax.run names (fs.flatMap JField.events ++ [.endObj, .endObj]))
      (g' := Keys s.req (m.filter (· ≠ f.flag)) fs ∧ ∀ f ∈ fs, f.Good names p)
      (Q' := fun s' => s'.make.Has names k p (A ++ f.accs ++ fs.flatMap JField.accs) (E ++ f.edgs ++ fs.flatMap JField.edgs))
      fun s' hs' => by
        have := ih hs'.1.1 (fun h => fun h' => hm (hs'.2 ▸ h) (List.mem_of_mem_filter h')) hs'.1.2 (fun f' hf' => hr f' (List.mem_cons_of_mem _ hf'))
          (by simp only [List.length_append]; omega)
        rw [hs'.2] at this
        exact this
    refine h.congr ?_ fun s' hs' => ?_
    · simp only [Keys, List.mem_cons, forall_eq_or_imp]
      constructor
      · rintro ⟨⟨h1, h2⟩, h3, h4⟩
        exact ⟨⟨h1, h3⟩, h2, h4⟩
      · rintro ⟨⟨h1, h2⟩, h3, h4⟩
        exact ⟨⟨h1, h3⟩, h2, h4⟩
    · simpa [List.append_assoc] using hs'

/-- The automaton before reading. -/
theorem has_start (hn : names = true → p.names.length = p.states.length) :
    ({ pda := p, aut := Aut.special p.states.length [] true } : PMake W).Has names k p [] [] := by
  obtain ⟨h1, h2, h3⟩ := Aut.special_spec (W := W) p.states.length (sp := []) (by simp [SSorted]) true
  refine ⟨⟨hn, Nat.le_of_eq h1.symm, fun _ _ => rfl, fun _ _ => ⟨rfl, ?_⟩, ?_, ?_⟩, LabelsGrow.refl _, rfl, fun i => ?_, ?_, fun t => ?_, ?_, ?_, ?_, ?_⟩
  · simp [h1]
  · simp
  · simp
  · rw [h3 i]
    simp
  · simp
  · rw [h2]
    simp [Verif.keys]
  · simp
  · rw [h2]
    simp [Verif.keys]
  · unfold Verif.Props.Blank
    rw [h2]
    simp
  · simp [h1]

/-- Reading a document. -/
theorem parse_fields (req : Bool) (fs : List JField) (hn : names = true → p.names.length = p.states.length) (hr : ∀ f ∈ fs, f.Fits names k p)
    (hsm : p.states.length + (fs.flatMap JField.accs).length + 2 * (fs.flatMap JField.edgs).length ≤ sizeMax) :
    ((Keys req (if req then [1, 2, 3] else [1, 2]) fs ∧ ∀ f ∈ fs, f.Good names p) ∧ ∃ b : PMake W,
        b.Has names k p (fs.flatMap JField.accs) (fs.flatMap JField.edgs) ∧
        parseJAutR req names p (autEvents fs) = .ok (b.pda, { toAut := b.aut, stateNames := b.stateNames })) ∨
      (¬ (Keys req (if req then [1, 2, 3] else [1, 2]) fs ∧ ∀ f ∈ fs, f.Good names p) ∧ parseJAutR req names p (autEvents fs) = .error) := by
  have h := run_fields (names := names) (k := k) (p := p) fs
    (s := { make := { pda := p, aut := Aut.special p.states.length [] true }, req := req,
            stack := baseStack (if req then [1, 2, 3] else [1, 2]), lastKey := .pAutomaton })
    (A := []) (E := []) (m := if req then [1, 2, 3] else [1, 2]) rfl (fun h => by rw [show req = false from h]; decide) (has_start hn) hr (by simpa using hsm)
  have he : parseJAutR req names p (autEvents fs) = (PSax.run names (fs.flatMap JField.events ++ [.endObj, .endObj])
      { make := { pda := p, aut := Aut.special p.states.length [] true }, req := req,
        stack := baseStack (if req then [1, 2, 3] else [1, 2]), lastKey := .pAutomaton }).bind
        fun s => .ok (s.make.pda, { toAut := s.make.aut, stateNames := s.make.stateNames }) := by
    unfold parseJAutR autEvents
    rw [List.append_assoc]
    rfl
  rcases h with ⟨h1, s, h2, h3⟩ | ⟨h1, h2⟩
  · left
    refine ⟨h1, s.make, by simpa using h3, ?_⟩
    rw [he, h2]
    rfl
  · right
    refine ⟨h1, ?_⟩
    rw [he, h2]
    rfl

end Verif
