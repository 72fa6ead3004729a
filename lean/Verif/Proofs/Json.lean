import Verif.Model.Json
import Verif.Proofs.Typed

/-! # Lemmas for reading a printed PDA: the automaton under construction -/

namespace Verif.Json

variable {W : Type}

/-- A rule in the printed document. -/
structure DRule (W : Type) where
  src : JVal
  key : String
  op : Op
  lab : String
  dst : JVal
  weight : W

/-- A state in the document and its id in the automaton under construction. -/
def Ref (names : List String) (v : JVal) (n : Nat) : Prop :=
  match v with
  | .num z => z = n
  | .str s => names[n]? = some s
  | .nums _ => False

/-- An operand label in the document and its id. -/
def Operand (labels : List String) (op : Op) (lab : String) (x : Nat) : Prop :=
  if op = .push ∨ op = .swap then labels[x]? = some lab else x = epsilon

/-- The rule `d` of the document read as the rule `x` of state `s` for label `g`. -/
def Stored (p : NPda String String W) (d : DRule W) (s g : Nat) (x : Rule W) : Prop :=
  Ref p.names d.src s ∧ Ref p.names d.dst x.to ∧ x.op = d.op ∧ x.weight = d.weight ∧
    Operand p.labels d.op d.lab x.opLabel ∧ (d.key = "*" ∨ p.labels[g]? = some d.key)

/-- The rule `x` of state `s` is stored for label `g`. -/
def Covers (p : Pda W) (s g : Nat) (x : Rule W) : Prop := ∃ l, (x, l) ∈ (p.st s).rules ∧ (l.wildcard = true ∨ g ∈ l.labels)

variable [LinearOrder W]

/-- The automaton under construction after reading the rules `D` and the labels `Lb`; the names satisfy `N`. -/
structure JInv (N : String → Prop) (p : NPda String String W) (D : DRule W → Prop) (Lb : String → Prop) : Prop where
  nodup : p.labels.Nodup
  wf : p.core.WF
  names : p.names.Nodup
  lbl : ∀ l, l ∈ p.labels ↔ Lb l
  keyK : ∀ d, D d → d.key = "*" ∨ d.key ∈ p.labels
  labK : ∀ d, D d → (d.op = .push ∨ d.op = .swap) → d.lab ∈ p.labels
  srcK : ∀ d, D d → ∀ s, d.src = .str s → s ∈ p.names
  dstK : ∀ d, D d → ∀ s, d.dst = .str s → s ∈ p.names
  cov : ∀ s g x, Covers p.core s g x ↔ ∃ d, D d ∧ Stored p d s g x
  only : ∀ s ∈ p.names, N s
  size : p.names = [] → p.states.length = 0 ∨ ∃ s g x, Covers p.core s g x ∧ (s + 1 = p.states.length ∨ x.to + 1 = p.states.length)

variable {N : String → Prop}

theorem getElem?_append_mem {α : Type} {l : List α} (l' : List α) (hn : (l ++ l').Nodup) {a : α} (ha : a ∈ l) (i : Nat) :
    (l ++ l')[i]? = some a ↔ l[i]? = some a := by
  constructor
  · intro h
    obtain ⟨j, hj, hja⟩ := List.getElem_of_mem ha
    obtain ⟨hi, hia⟩ := List.getElem?_eq_some_iff.1 h
    have hj' : j < (l ++ l').length := by rw [List.length_append]; omega
    have : (l ++ l')[j] = a := by rw [List.getElem_append_left hj]; exact hja
    have hij := (List.Nodup.getElem_inj_iff hn).1 (hia.trans this.symm)
    subst hij
    rw [List.getElem?_eq_getElem hj, hja]
  · intro h
    obtain ⟨hi, hia⟩ := List.getElem?_eq_some_iff.1 h
    rw [List.getElem?_append_left hi]; exact h

theorem wf_more {p : Pda W} (h : p.WF) {n : Nat} (hn : p.nLabels ≤ n) : Pda.WF { p with nLabels := n } := by
  have hst : ∀ i, Pda.st { p with nLabels := n } i = p.st i := fun _ => rfl
  exact ⟨h.sorted, h.toLt, h.preMem, h.preLt, h.preSorted, h.labWF,
    fun i x hx g hg => Nat.lt_of_lt_of_le (h.labLt i x hx g hg) hn, fun i x hx ho => Nat.lt_of_lt_of_le (h.opLt i x hx ho) hn⟩

theorem covers_addRuleImpl {p : Pda W} (hp : p.WF) (src : Nat) (r : Rule W) (wc : Bool) (pre : List Nat) (s g : Nat) (x : Rule W) :
    Covers (p.addRuleImpl src r wc pre) s g x ↔ Covers p s g x ∨ (s = src ∧ x = r ∧ (wc = true ∨ g ∈ pre) ) := by
  unfold Covers
  simp only [Pda.mem_rules_addRuleImpl hp]
  constructor
  · rintro ⟨l, ⟨⟨_, h⟩⟩ | ⟨rfl, rfl, l0, h, rfl⟩, hg⟩
    · exact .inl ⟨l, h, hg⟩
    · unfold Labels.merge at hg
      rcases h with h | ⟨rfl, _⟩
      · split at hg
        · exact .inl ⟨l0, h, .inl (by assumption)⟩
        split at hg
        · rename_i hw; exact .inr ⟨rfl, rfl, .inl hw⟩
        · simp only [mem_setUnion] at hg
          rcases hg with hg | hg | hg
          · exact .inl ⟨l0, h, .inl hg⟩
          · exact .inl ⟨l0, h, .inr hg⟩
          · exact .inr ⟨rfl, rfl, .inr hg⟩
      · refine .inr ⟨rfl, rfl, ?_⟩
        split at hg
        · simp at *
        split at hg
        · rename_i hw; exact .inl hw
        · simp only [mem_setUnion] at hg
          rcases hg with hg | hg | hg
          · simp at hg
          · simp at hg
          · exact .inr hg
  · have key : ∀ l0 : Labels, ((l0.wildcard = true ∨ g ∈ l0.labels) ∨ (wc = true ∨ g ∈ pre)) →
        ((l0.merge wc pre).wildcard = true ∨ g ∈ (l0.merge wc pre).labels) := by
      intro l0 h
      unfold Labels.merge
      split
      · exact .inl (by assumption)
      split
      · exact .inl rfl
      · rename_i h1 h2
        right
        simp only [mem_setUnion]
        rcases h with (h | h) | (h | h)
        · exact absurd h h1
        · exact .inl h
        · exact absurd h h2
        · exact .inr h
    rintro (⟨l, h, hg⟩ | ⟨rfl, rfl, hg⟩)
    · by_cases hx : s ≠ src ∨ x ≠ r
      · exact ⟨l, .inl ⟨hx, h⟩, hg⟩
      · simp only [ne_eq, not_or, not_not] at hx
        obtain ⟨rfl, rfl⟩ := hx
        exact ⟨l.merge wc pre, .inr ⟨rfl, rfl, l, .inl h, rfl⟩, key l (.inl hg)⟩
    · by_cases hx : ∃ l, (x, l) ∈ (p.st s).rules
      · obtain ⟨l, h⟩ := hx
        exact ⟨l.merge wc pre, .inr ⟨rfl, rfl, l, .inl h, rfl⟩, key l (.inr hg)⟩
      · exact ⟨Labels.merge {} wc pre, .inr ⟨rfl, rfl, {}, .inr ⟨rfl, fun l' h => hx ⟨l', h⟩⟩, rfl⟩, key {} (.inr hg)⟩

theorem Operand.append {labels l' : List String} (hn : (labels ++ l').Nodup) {op : Op} {lab : String}
    (h : (op = .push ∨ op = .swap) → lab ∈ labels) (x : Nat) : Operand (labels ++ l') op lab x ↔ Operand labels op lab x := by
  unfold Operand
  split
  · rename_i ho; exact getElem?_append_mem _ hn (h ho) x
  · rfl

theorem Ref.append {names l' : List String} (hn : (names ++ l').Nodup) {v : JVal}
    (h : ∀ s, v = .str s → s ∈ names) (n : Nat) : Ref (names ++ l') v n ↔ Ref names v n := by
  cases v with
  | num z => rfl
  | str s => exact getElem?_append_mem _ hn (h s rfl) n
  | nums l => rfl

theorem Ref.unique {names : List String} (hn : names.Nodup) {v : JVal} {m n : Nat} (h : Ref names v m) (h' : Ref names v n) : m = n := by
  cases v with
  | num z => unfold Ref at h h'; simp only at h h'; omega
  | str s =>
    obtain ⟨h1, h2⟩ := List.getElem?_eq_some_iff.1 h
    obtain ⟨h3, h4⟩ := List.getElem?_eq_some_iff.1 h'
    exact (List.Nodup.getElem_inj_iff hn).1 (h2.trans h4.symm)
  | nums l => exact h.elim

theorem getElem?_unique {α : Type} {l : List α} (hn : l.Nodup) {a : α} {m n : Nat} (h : l[m]? = some a) (h' : l[n]? = some a) : m = n := by
  obtain ⟨h1, h2⟩ := List.getElem?_eq_some_iff.1 h
  obtain ⟨h3, h4⟩ := List.getElem?_eq_some_iff.1 h'
  exact (List.Nodup.getElem_inj_iff hn).1 (h2.trans h4.symm)

theorem idxOf?_iff {l : List String} (h : l.Nodup) (a : String) (i : Nat) : l.idxOf? a = some i ↔ l[i]? = some a := by
  rw [List.idxOf?_eq_some_iff]
  constructor
  · rintro ⟨hi, h1, _⟩
    rw [List.getElem?_eq_getElem hi, h1]
  · intro h1
    obtain ⟨hi, h2⟩ := List.getElem?_eq_some_iff.1 h1
    refine ⟨hi, h2, fun j hj h3 => ?_⟩
    have := (List.Nodup.getElem_inj_iff h).1 (h3.trans h2.symm)
    omega

theorem nodup_snoc {l : List String} (h : l.Nodup) {a : String} (ha : a ∉ l) : (l ++ [a]).Nodup := by
  rw [List.nodup_append]
  refine ⟨h, by simp, ?_⟩
  intro x hx y hy hxy
  simp only [List.mem_singleton] at hy
  subst hxy; subst hy; exact ha hx

/-- Reading a label. -/
theorem JInv.insertLabel {p : NPda String String W} {D : DRule W → Prop} {Lb : String → Prop} (h : JInv N p D Lb) (l : String) :
    JInv N (p.insertLabel l).1 D (fun x => Lb x ∨ x = l) ∧ (p.insertLabel l).1.labels[(p.insertLabel l).2]? = some l ∧
      (p.insertLabel l).1.names = p.names ∧ (p.insertLabel l).1.states = p.states ∧
      ∃ more, (p.insertLabel l).1.labels = p.labels ++ more := by
  unfold NPda.insertLabel TPda.insertLabel
  cases hi : p.toTPda.labelId l with
  | some i =>
    have hl := (TPda.labelId_iff h.nodup l i).1 hi
    refine ⟨?_, hl, rfl, rfl, [], by simp⟩
    dsimp only
    have hLb : ∀ x, x ∈ p.labels ↔ (Lb x ∨ x = l) := fun x => by
      rw [h.lbl]
      constructor
      · exact .inl
      · rintro (h1 | rfl)
        · exact h1
        · exact (h.lbl x).1 (List.mem_of_getElem? hl)
    exact ⟨h.nodup, h.wf, h.names, hLb, h.keyK, h.labK, h.srcK, h.dstK, h.cov, h.only, h.size⟩
  | none =>
    have hl := (TPda.labelId_none p.toTPda l).1 hi
    have hn := nodup_snoc h.nodup hl
    refine ⟨?_, by simp, rfl, rfl, [l], rfl⟩
    dsimp only
    refine ⟨hn, ?_, h.names, ?_, ?_, ?_, h.srcK, h.dstK, ?_, h.only, h.size⟩
    · exact wf_more h.wf (by simp [TPda.core])
    · intro x; dsimp only; rw [List.mem_append, h.lbl]; simp
    · intro d hd; rcases h.keyK d hd with h1 | h1
      · exact .inl h1
      · exact .inr (List.mem_append_left _ h1)
    · intro d hd ho; exact List.mem_append_left _ (h.labK d hd ho)
    · intro s g x
      refine (h.cov s g x).trans ?_
      constructor
      · rintro ⟨d, hd, h1, h2, h3, h4, h5, h6⟩
        refine ⟨d, hd, h1, h2, h3, h4, (Operand.append hn (h.labK d hd) _).2 h5, ?_⟩
        rcases h6 with h6 | h6
        · exact .inl h6
        · exact .inr ((getElem?_append_mem _ hn (List.mem_of_getElem? h6) g).2 h6)
      · rintro ⟨d, hd, h1, h2, h3, h4, h5, h6⟩
        refine ⟨d, hd, h1, h2, h3, h4, (Operand.append hn (h.labK d hd) _).1 h5, ?_⟩
        rcases h6 with h6 | h6
        · exact .inl h6
        · rcases h.keyK d hd with h7 | h7
          · exact .inl h7
          · exact .inr ((getElem?_append_mem _ hn h7 g).1 h6)

theorem covers_addState (p : Pda W) (i s g : Nat) (x : Rule W) : Covers (p.addState i) s g x ↔ Covers p s g x := by
  unfold Covers; rw [Pda.st_addState]

theorem core_states_addState (p : NPda String String W) (names : List String) (i : Nat) :
    TPda.core (NPda.toTPda { p with names := names, states := (p.core.addState i).states }) = p.core.addState i := by
  have := Pda.nLabels_addState p.core i
  unfold TPda.core at *
  dsimp only at *
  generalize hx : (Pda.addState ⟨p.labels.length, p.states⟩ i) = x at *
  cases x
  simp_all

theorem core_addRuleDetail (p : NPda String String W) (src : Nat) (r : Rule W) (wc : Bool) (pre : List Nat) :
    TPda.core (NPda.toTPda (p.addRuleDetail src r wc pre)) = p.core.addRuleImpl src r wc pre := by
  have := Pda.nLabels_addRuleImpl p.core src r wc pre
  unfold NPda.addRuleDetail TPda.core at *
  dsimp only at *
  generalize hx : (Pda.addRuleImpl ⟨p.labels.length, p.states⟩ src r wc pre) = x at *
  cases x
  simp_all

/-- Reading the name of a state. -/
theorem JInv.insertState {p : NPda String String W} {D : DRule W → Prop} {Lb : String → Prop} (h : JInv N p D Lb) (n : String) (hN : N n) :
    JInv N (p.insertState n).1 D Lb ∧ (p.insertState n).1.names[(p.insertState n).2]? = some n ∧
      (p.insertState n).1.labels = p.labels ∧ (p.insertState n).1.states = (p.core.addState (p.insertState n).2).states ∧
      ∃ more, (p.insertState n).1.names = p.names ++ more := by
  unfold NPda.insertState
  cases hi : p.names.idxOf? n with
  | some i =>
    have hl := (idxOf?_iff h.names n i).1 hi
    refine ⟨?_, hl, rfl, rfl, [], by simp⟩
    dsimp only
    have hc := core_states_addState p p.names i
    exact ⟨h.nodup, by rw [hc]; exact Pda.WF_addState h.wf i, h.names, h.lbl, h.keyK, h.labK, h.srcK, h.dstK,
      fun s g x => by rw [hc, covers_addState]; exact h.cov s g x, h.only,
      fun h0 => by rw [show p.names = [] from h0] at hl; cases hl⟩
  | none =>
    have hl : n ∉ p.names := List.idxOf?_eq_none_iff.1 hi
    have hn := nodup_snoc h.names hl
    refine ⟨?_, by simp, rfl, rfl, [n], rfl⟩
    dsimp only
    have hc := core_states_addState p (p.names ++ [n]) p.names.length
    refine ⟨h.nodup, by rw [hc]; exact Pda.WF_addState h.wf _, hn, h.lbl, h.keyK, h.labK, ?_, ?_, ?_, ?_, fun h0 => by simp at h0⟩
    · intro d hd s hs; exact List.mem_append_left _ (h.srcK d hd s hs)
    · intro d hd s hs; exact List.mem_append_left _ (h.dstK d hd s hs)
    · intro s g x
      rw [hc, covers_addState]
      refine (h.cov s g x).trans (exists_congr fun d => and_congr_right fun hd => ?_)
      unfold Stored
      dsimp only
      rw [Ref.append hn (h.srcK d hd), Ref.append hn (h.dstK d hd)]
    · intro s hs
      rcases List.mem_append.1 hs with hs | hs
      · exact h.only s hs
      · rw [List.mem_singleton.1 hs]; exact hN

omit [LinearOrder W] in
theorem length_addState (p : Pda W) (i : Nat) : (p.addState i).states.length = max p.states.length (i + 1) := by
  unfold Pda.addState
  split
  · simp only [List.length_append, List.length_replicate]; omega
  · omega

theorem length_addRuleImpl (p : Pda W) (src : Nat) (r : Rule W) (wc : Bool) (pre : List Nat) :
    (p.addRuleImpl src r wc pre).states.length = max p.states.length (max src r.to + 1) := by
  unfold Pda.addRuleImpl
  simp only [List.length_modify, length_addState]

/-- Adding the rule that was read. -/
theorem JInv.addRule {p : NPda String String W} {D : DRule W → Prop} {Lb : String → Prop} (h : JInv N p D Lb) (d : DRule W)
    {src : Nat} {r : Rule W} {wc : Bool} {pre : List Nat} (hsrc : Ref p.names d.src src) (hdst : Ref p.names d.dst r.to)
    (hop : r.op = d.op) (hw : r.weight = d.weight) (hlab : Operand p.labels d.op d.lab r.opLabel)
    (hkey : (d.key = "*" ∧ wc = true ∧ pre = []) ∨ (d.key ≠ "*" ∧ wc = false ∧ ∃ g, pre = [g] ∧ p.labels[g]? = some d.key)) :
    JInv N (p.addRuleDetail src r wc pre) (fun x => D x ∨ x = d) Lb := by
  have hc := core_addRuleDetail p src r wc pre
  have hlen : ∀ {i : Nat} {a : String}, p.labels[i]? = some a → i < p.core.nLabels := fun hi => (List.getElem?_eq_some_iff.1 hi).1
  have hok : (PdaCall.rule src r wc pre).OK p.core.nLabels := by
    refine ⟨fun hwc => ?_, fun ho => ?_⟩
    · rcases hkey with ⟨_, h1, _⟩ | ⟨_, _, g, rfl, hg⟩
      · rw [h1] at hwc; cases hwc
      · exact ⟨by simp [WSorted], fun x hx => by rw [List.mem_singleton.1 hx]; exact hlen hg⟩
    · rw [hop] at ho
      unfold Operand at hlab
      rw [if_pos ho] at hlab
      exact hlen hlab
  refine ⟨h.nodup, by rw [hc]; exact Pda.WF_addRuleImpl h.wf _ _ _ _ hok, h.names, h.lbl, ?_, ?_, ?_, ?_, ?_, h.only, ?_⟩
  · rintro x (hx | rfl)
    · exact h.keyK x hx
    · rcases hkey with ⟨h1, _⟩ | ⟨_, _, g, _, hg⟩
      · exact .inl h1
      · exact .inr (List.mem_of_getElem? hg)
  · rintro x (hx | rfl)
    · exact h.labK x hx
    · intro ho
      unfold Operand at hlab
      rw [if_pos ho] at hlab
      exact List.mem_of_getElem? hlab
  · rintro x (hx | rfl)
    · exact h.srcK x hx
    · intro s hs; rw [hs] at hsrc; exact List.mem_of_getElem? hsrc
  · rintro x (hx | rfl)
    · exact h.dstK x hx
    · intro s hs; rw [hs] at hdst; exact List.mem_of_getElem? hdst
  · intro s g x
    rw [hc, covers_addRuleImpl h.wf, h.cov]
    have hstored : Stored p d s g x ↔ s = src ∧ x = r ∧ (wc = true ∨ g ∈ pre) := by
      constructor
      · rintro ⟨h1, h2, h3, h4, h5, h6⟩
        have hto := Ref.unique h.names h2 hdst
        have hx : x.opLabel = r.opLabel := by
          unfold Operand at h5 hlab
          split at h5
          · rename_i ho
            rw [if_pos ho] at hlab
            exact getElem?_unique h.nodup h5 hlab
          · rename_i ho
            rw [if_neg ho] at hlab
            omega
        refine ⟨Ref.unique h.names h1 hsrc, ?_, ?_⟩
        · cases x; cases r; simp_all
        · rcases hkey with ⟨_, h7, _⟩ | ⟨h7, _, g', rfl, hg⟩
          · exact .inl h7
          · rcases h6 with h6 | h6
            · exact absurd h6 h7
            · exact .inr (List.mem_singleton.2 (getElem?_unique h.nodup h6 hg))
      · rintro ⟨rfl, rfl, h3⟩
        refine ⟨hsrc, hdst, hop, hw, hlab, ?_⟩
        rcases hkey with ⟨h7, _⟩ | ⟨_, h8, g', rfl, hg⟩
        · exact .inl h7
        · rcases h3 with h3 | h3
          · rw [h3] at h8; cases h8
          · rw [List.mem_singleton.1 h3]; exact .inr hg
    rw [← hstored]
    constructor
    · rintro (⟨d', hd, hs⟩ | hs)
      · exact ⟨d', .inl hd, hs⟩
      · exact ⟨d, .inr rfl, hs⟩
    · rintro ⟨d', hd | rfl, hs⟩
      · exact .inl ⟨d', hd, hs⟩
      · exact .inr hs
  · intro h0
    have hl : (p.addRuleDetail src r wc pre).states.length = max p.states.length (max src r.to + 1) := length_addRuleImpl p.core src r wc pre
    rw [hl, hc]
    simp only [covers_addRuleImpl h.wf]
    by_cases hm : p.states.length ≤ max src r.to
    · obtain ⟨g, hg⟩ : ∃ g, wc = true ∨ g ∈ pre := by
        rcases hkey with ⟨_, h7, _⟩ | ⟨_, _, g', rfl, _⟩
        · exact ⟨0, .inl h7⟩
        · exact ⟨g', .inr (by simp)⟩
      exact .inr ⟨src, g, r, .inr ⟨rfl, rfl, hg⟩, by omega⟩
    · rcases h.size h0 with h1 | ⟨s, g, x, h1, h2⟩
      · omega
      · exact .inr ⟨s, g, x, .inl h1, by omega⟩

theorem JInv.empty : JInv N ({} : NPda String String W) (fun _ => False) (fun _ => False) := by
  refine ⟨by simp, Pda.WF_empty 0, by simp, by simp, by simp, by simp, by simp, by simp, ?_, by simp, fun _ => .inl rfl⟩
  intro s g x
  have : Pda.st (TPda.core (NPda.toTPda ({} : NPda String String W))) s = default := Pda.st_default (Nat.zero_le _)
  unfold Covers
  rw [this]
  simp [default]

end Verif.Json
