import Verif.Proofs.JsonState
import Verif.Spec.Moves

/-! # Lemmas for reading a printed PDA: the whole document -/

namespace Verif.Json

open Rd

variable {L W : Type} [LinearOrder W] [Inhabited L]

section
variable (str : L → String) (ref : Nat → JVal) (t : TPda L W)

/-- The rules in the document. -/
def DFin (d : DRule W) : Prop := ∃ i, ∃ q ∈ pairs str t (t.core.st i), d = dOf str ref t (ref i) q.2 q.1

/-- The labels in the document. -/
def LFin (l : String) : Prop := ∃ i, ∃ q ∈ pairs str t (t.core.st i), lOf str t q.2 q.1 l

end

variable {io : WeightIO W} {str : L → String} {t : TPda L W} {N : String → Prop}

/-! ## Numbered states -/

theorem run_states {ref : Nat → JVal} (ss : List (PState W)) (i : Nat) (href : ∀ n, ref n = .num n)
    (hok : ∀ ps ∈ ss, ∀ e ∈ ps.rules, RuleOK io false ref N e.1) {s : Sax W}
    {j : Nat} {st : List JContext} (hst : s.stack = ⟨.stateArray, .array j⟩ :: st) (hr : s.rule = Sax.rule0 io) (hsrc : s.src = i)
    {D : DRule W → Prop} {Lb : String → Prop} (hi : JInv N s.pda D Lb) :
    ∃ s' j', Sax.run io false ((ss.map (jstate io str ref t)).flatMap JState.events) s = some s' ∧
      s'.stack = ⟨.stateArray, .array j'⟩ :: st ∧
      JInv N s'.pda (fun d => D d ∨ ∃ n : Nat, ∃ ps, ss[n]? = some ps ∧ ∃ q ∈ pairs str t ps, d = dOf str ref t (ref (i + n)) q.2 q.1)
        (fun l => Lb l ∨ ∃ n : Nat, ∃ ps, ss[n]? = some ps ∧ ∃ q ∈ pairs str t ps, lOf str t q.2 q.1 l) := by
  induction ss generalizing s i j D Lb with
  | nil => exact ⟨s, j, rfl, hst, hi.congr (by simp) (by simp)⟩
  | cons ps ss ih =>
    have htop : s.event io false .startObj = some { s with stack := ⟨.state, .object []⟩ :: s.stack } := by
      simp only [Sax.event, Sax.startObj, Sax.top, hst, List.head?_cons, Option.map_some, Sax.push]
    obtain ⟨p1, pre, wc, lk, h1, h2, h3⟩ := run_state (str := str) (t := t) ps (hok ps (by simp)) (v := ref i) htop hr hi
      (by rw [href, hsrc]; rfl)
    obtain ⟨s', j', h4, h5, h6⟩ := ih (i + 1) (fun ps' hps' => hok ps' (by simp [hps']))
      (s := { s with pda := p1, lastKey := lk, pre := pre, wc := wc, stack := bump s.stack, src := if false = true then s.src else s.src + 1 })
      (j := j + 1) (by simp only [hst, bump]) hr (by simp [hsrc]) h3
    refine ⟨s', j', ?_, h5, h6.congr ?_ ?_⟩
    · rw [List.map_cons, List.flatMap_cons, run_seq _ h1, h4]
    · intro d
      rw [or_assoc]
      refine or_congr_right ?_
      constructor
      · rintro (⟨q, hq, hd⟩ | ⟨n, ps', hn, q, hq, hd⟩)
        · exact ⟨0, ps, rfl, q, hq, hd⟩
        · exact ⟨n + 1, ps', hn, q, hq, by rw [hd]; congr 2; omega⟩
      · rintro ⟨n, ps', hn, q, hq, hd⟩
        cases n with
        | zero =>
          simp only [List.getElem?_cons_zero, Option.some.injEq] at hn
          subst hn
          exact .inl ⟨q, hq, hd⟩
        | succ n => exact .inr ⟨n, ps', hn, q, hq, by rw [hd]; congr 2; omega⟩
    · intro l
      rw [or_assoc]
      refine or_congr_right ?_
      constructor
      · rintro (⟨q, hq, hd⟩ | ⟨n, ps', hn, q, hq, hd⟩)
        · exact ⟨0, ps, rfl, q, hq, hd⟩
        · exact ⟨n + 1, ps', hn, q, hq, hd⟩
      · rintro ⟨n, ps', hn, q, hq, hd⟩
        cases n with
        | zero =>
          simp only [List.getElem?_cons_zero, Option.some.injEq] at hn
          subst hn
          exact .inl ⟨q, hq, hd⟩
        | succ n => exact .inr ⟨n, ps', hn, q, hq, hd⟩

theorem exists_st (t : TPda L W) (P : Nat → PState W → Prop) (hP : ∀ i, ¬ P i default) :
    (∃ n, ∃ ps, t.states[n]? = some ps ∧ P n ps) ↔ ∃ i, P i (t.core.st i) := by
  constructor
  · rintro ⟨n, ps, hn, h⟩
    refine ⟨n, ?_⟩
    have : t.core.st n = ps := by unfold Pda.st TPda.core; simp only [hn, Option.getD_some]
    rw [this]; exact h
  · rintro ⟨i, h⟩
    cases hn : t.states[i]? with
    | none =>
      have : t.core.st i = default := by unfold Pda.st TPda.core; simp only [hn, Option.getD_none]
      rw [this] at h
      exact absurd h (hP i)
    | some ps =>
      have : t.core.st i = ps := by unfold Pda.st TPda.core; simp only [hn, Option.getD_some]
      rw [this] at h
      exact ⟨i, ps, hn, h⟩

theorem pairs_default : pairs str t default = [] := rfl

/-- Reading the printed PDA with numbered states. -/
theorem parse_numbered (hrt : ∀ i, ∀ e ∈ (t.core.st i).rules, RoundTrips io e.1.weight) :
    ∃ p, parsePda io false (t.toJson io str).events = some p ∧
      JInv (fun _ => False) p (DFin str (fun i => .num i) t) (LFin str t) := by
  have hok : ∀ ps ∈ t.states, ∀ e ∈ ps.rules, RuleOK io false (fun i => .num i) (fun _ => False) e.1 := by
    intro ps hps e he
    obtain ⟨i, hi, rfl⟩ := List.getElem_of_mem hps
    refine ⟨⟨rfl, by omega⟩, hrt i e ?_, fun s hs => by cases hs⟩
    have : t.core.st i = t.states[i] := by unfold Pda.st TPda.core; simp only [List.getElem?_eq_getElem hi, Option.getD_some]
    rw [this]; exact he
  obtain ⟨s', j', h1, h2, h3⟩ := run_states (io := io) (str := str) (t := t) (ref := fun i => .num i) t.states 0 (fun _ => rfl) hok
    (s := { rule := Sax.rule0 io, lastKey := .states, stack := [⟨.stateArray, .array 0⟩, ⟨.pda, .object []⟩, ⟨.initial, .object []⟩] })
    rfl rfl rfl JInv.empty
  refine ⟨s'.pda, ?_, h3.congr ?_ ?_⟩
  · unfold parsePda TPda.toJson JDoc.events
    simp only [List.cons_append, List.nil_append]
    have e1 : ∀ es, Sax.run io false (.startObj :: .key "pda" :: .startObj :: .key "states" :: .startArr :: es) { rule := Sax.rule0 io } =
        Sax.run io false es { rule := Sax.rule0 io, lastKey := .states, stack := [⟨.stateArray, .array 0⟩, ⟨.pda, .object []⟩, ⟨.initial, .object []⟩] } := by
      intro es; rfl
    rw [e1, run_seq _ h1]
    simp only [Sax.run, Sax.event, Sax.endArr, h2, Sax.elementDone, Sax.endObj, Option.bind_some, Option.map_some]
  · intro d
    simp only [false_or, Nat.zero_add]
    exact exists_st t (fun n ps => ∃ q ∈ pairs str t ps, d = dOf str (fun i => .num i) t (.num n) q.2 q.1) (by simp [pairs_default])
  · intro l
    simp only [false_or]
    exact exists_st t (fun n ps => ∃ q ∈ pairs str t ps, lOf str t q.2 q.1 l) (by simp [pairs_default])

/-! ## Named states -/

theorem run_named {ref : Nat → JVal} (m : VMap String JState) (st : String → PState W)
    (hm : ∀ e ∈ m, e.2 = jstate io str ref t (st e.1)) (hN : ∀ e ∈ m, N e.1) (hok : ∀ e ∈ m, ∀ x ∈ (st e.1).rules, RuleOK io true ref N x.1) {s : Sax W}
    {mm : List Nat} {sta : List JContext} (hst : s.stack = ⟨.statesObject, .object mm⟩ :: sta) (hr : s.rule = Sax.rule0 io)
    {D : DRule W → Prop} {Lb : String → Prop} (hi : JInv N s.pda D Lb) :
    ∃ s', Sax.run io true (m.flatMap (fun e => .key e.1 :: JState.events e.2)) s = some s' ∧
      s'.stack = ⟨.statesObject, .object mm⟩ :: sta ∧ Ext s.pda s'.pda ∧ (∀ e ∈ m, e.1 ∈ s'.pda.names) ∧
      JInv N s'.pda (fun d => D d ∨ ∃ e ∈ m, ∃ q ∈ pairs str t (st e.1), d = dOf str ref t (.str e.1) q.2 q.1)
        (fun l => Lb l ∨ ∃ e ∈ m, ∃ q ∈ pairs str t (st e.1), lOf str t q.2 q.1 l) := by
  induction m generalizing s D Lb with
  | nil => exact ⟨s, rfl, hst, Ext.refl _, by simp, hi.congr (by simp) (by simp)⟩
  | cons e m ih =>
    obtain ⟨i1, i2, i3, _, i5⟩ := hi.insertState e.1 (hN e (by simp))
    have hkey : s.event io true (.key e.1) = some { s with pda := (s.pda.insertState e.1).1, lastKey := .stateName, src := (s.pda.insertState e.1).2 } := by
      simp only [Sax.event, Sax.key, Sax.top, hst, List.head?_cons, Option.map_some, if_true, Sax.insertState]
    have htop : Sax.event io true { s with pda := (s.pda.insertState e.1).1, lastKey := .stateName, src := (s.pda.insertState e.1).2 } .startObj =
        some { s with pda := (s.pda.insertState e.1).1, lastKey := .stateName, src := (s.pda.insertState e.1).2, stack := ⟨.state, .object []⟩ :: s.stack } := by
      simp only [Sax.event, Sax.startObj, Sax.top, hst, List.head?_cons, Option.map_some, Sax.push]
    obtain ⟨p1, pre, wc, lk, h1, h2, h3⟩ := run_state (str := str) (t := t) (st e.1) (hok e (by simp)) (v := .str e.1) htop hr i1 i2
    obtain ⟨s', h4, h5, h6, h7, h8⟩ := ih (fun e' he' => hm e' (by simp [he'])) (fun e' he' => hN e' (by simp [he'])) (fun e' he' => hok e' (by simp [he']))
      (s := { s with pda := p1, lastKey := lk, pre := pre, wc := wc, stack := bump s.stack, src := if true = true then (s.pda.insertState e.1).2 else (s.pda.insertState e.1).2 + 1 })
      (by simp only [hst, bump]) hr h3
    have hx : Ext s.pda (s.pda.insertState e.1).1 := ⟨i5, ⟨[], by rw [i3]; simp⟩⟩
    refine ⟨s', ?_, h5, (hx.trans h2).trans h6, ?_, h8.congr ?_ ?_⟩
    · rw [List.flatMap_cons, List.cons_append, run_cons _ _ _ _ hkey, hm e (by simp), run_seq _ h1, h4]
    · intro e' he'
      rcases List.mem_cons.1 he' with rfl | he'
      · exact List.mem_of_getElem? (getElem?_mono h6.1 (getElem?_mono h2.1 i2))
      · exact h7 e' he'
    · intro d; simp only [List.mem_cons, exists_eq_or_imp, or_assoc]
    · intro l; simp only [List.mem_cons, exists_eq_or_imp, or_assoc]

theorem mem_fold_jset {V A : Type} (f : A → String) (g : A → V) (l : List A) (hinj : ∀ a ∈ l, ∀ b ∈ l, f a = f b → a = b)
    (m : VMap String V) (hs : m.Sorted ltB) (hnew : ∀ a ∈ l, ∀ e ∈ m, e.1 ≠ f a) :
    (l.foldl (fun m a => jset m (f a) (g a)) m).Sorted ltB ∧
      ∀ e, e ∈ l.foldl (fun m a => jset m (f a) (g a)) m ↔ e ∈ m ∨ ∃ a ∈ l, e = (f a, g a) := by
  induction l using List.reverseRecOn with
  | nil => exact ⟨hs, by simp⟩
  | append_singleton l a ih =>
    obtain ⟨h1, h2⟩ := ih (fun a ha b hb => hinj a (by simp [ha]) b (by simp [hb])) (fun a ha => hnew a (by simp [ha]))
    rw [List.foldl_append]
    refine ⟨jset_sorted h1 _ _, fun e => ?_⟩
    rw [List.foldl_cons, List.foldl_nil, mem_jset h1, h2]
    simp only [List.mem_append, List.mem_singleton]
    constructor
    · rintro (⟨_, h | ⟨b, hb, rfl⟩⟩ | rfl)
      · exact .inl h
      · exact .inr ⟨b, .inl hb, rfl⟩
      · exact .inr ⟨a, .inr rfl, rfl⟩
    · rintro (h | ⟨b, hb | rfl, rfl⟩)
      · exact .inl ⟨hnew a (by simp) e h, .inl h⟩
      · by_cases hab : f b = f a
        · have := hinj b (by simp [hb]) a (by simp) hab
          subst this; exact .inr rfl
        · exact .inl ⟨hab, .inr ⟨b, hb, rfl⟩⟩
      · exact .inr rfl

theorem jstate_default {ref : Nat → JVal} : jstate io str ref t default = [] := rfl

/-- The printed object of states. -/
theorem mem_named {S : Type} [Inhabited S] (strS : S → String) (t : NPda L S W) (hlen : t.states.length ≤ t.names.length)
    (hinj : ∀ i < t.names.length, ∀ j < t.names.length, strS (t.stateName i) = strS (t.stateName j) → i = j) :
    ∃ m, t.toJson io str strS = .named m ∧ ∀ e, e ∈ m ↔ ∃ i < t.names.length,
      e = (strS (t.stateName i), jstate io str (fun i => .str (strS (t.stateName i))) t.toTPda (t.core.st i)) := by
  refine ⟨_, rfl, ?_⟩
  obtain ⟨h1, h2⟩ := mem_fold_jset (fun x : PState W × Nat => strS (t.stateName x.2))
    (fun x => jstate io str (fun i => .str (strS (t.stateName i))) t.toTPda x.1) t.states.zipIdx (by
      intro a ha b hb hab
      have ha' := List.mem_zipIdx_iff_getElem?.1 ha
      have hb' := List.mem_zipIdx_iff_getElem?.1 hb
      have la := (List.getElem?_eq_some_iff.1 ha').1
      have lb := (List.getElem?_eq_some_iff.1 hb').1
      have := hinj _ (by omega) _ (by omega) hab
      rw [this, hb'] at ha'
      cases a; cases b; simp_all) [] List.Pairwise.nil (by simp)
  have h2' : ∀ e, e ∈ t.states.zipIdx.foldl (fun m x => jset m (strS (t.stateName x.2)) (jstate io str (fun i => .str (strS (t.stateName i))) t.toTPda x.1)) [] ↔
      ∃ i < t.states.length, e = (strS (t.stateName i), jstate io str (fun i => .str (strS (t.stateName i))) t.toTPda (t.core.st i)) := by
    intro e
    rw [h2]
    simp only [List.not_mem_nil, false_or]
    constructor
    · rintro ⟨⟨ps, i⟩, ha, rfl⟩
      have ha' := List.mem_zipIdx_iff_getElem?.1 ha
      simp only at ha'
      refine ⟨i, (List.getElem?_eq_some_iff.1 ha').1, ?_⟩
      have : t.core.st i = ps := by unfold Pda.st TPda.core; simp only [ha', Option.getD_some]
      rw [this]
    · rintro ⟨i, hi, rfl⟩
      refine ⟨(t.states[i], i), List.mem_zipIdx_iff_getElem?.2 (List.getElem?_eq_getElem hi), ?_⟩
      have : t.core.st i = t.states[i] := by unfold Pda.st TPda.core; simp only [List.getElem?_eq_getElem hi, Option.getD_some]
      rw [this]
  have hdrop : ∀ i, i ∈ (List.range t.names.length).drop t.states.length ↔ t.states.length ≤ i ∧ i < t.names.length := by
    intro i
    rw [List.mem_drop_iff_getElem]
    simp only [List.length_range, List.getElem_range]
    constructor
    · rintro ⟨j, hj, rfl⟩; omega
    · rintro ⟨h3, h4⟩; exact ⟨i - t.states.length, by omega, by omega⟩
  obtain ⟨_, h4⟩ := mem_fold_jset (fun i : Nat => strS (t.stateName i)) (fun _ => ([] : JState))
    ((List.range t.names.length).drop t.states.length) (by
      intro a ha b hb hab
      exact hinj a ((hdrop a).1 ha).2 b ((hdrop b).1 hb).2 hab) _ h1 (by
      intro a ha e he hea
      obtain ⟨i, hi, rfl⟩ := (h2' e).1 he
      have h5 := (hdrop a).1 ha
      have := hinj i (by omega) a h5.2 hea
      omega)
  intro e
  rw [h4, h2']
  have hbeyond : ∀ i, t.states.length ≤ i → t.core.st i = default := fun i hi => Pda.st_default hi
  constructor
  · rintro (⟨i, hi, rfl⟩ | ⟨i, hi, rfl⟩)
    · exact ⟨i, by omega, rfl⟩
    · refine ⟨i, ((hdrop i).1 hi).2, ?_⟩
      rw [hbeyond i ((hdrop i).1 hi).1, jstate_default]
  · rintro ⟨i, hi, rfl⟩
    by_cases h : i < t.states.length
    · exact .inl ⟨i, h, rfl⟩
    · refine .inr ⟨i, (hdrop i).2 ⟨by omega, hi⟩, ?_⟩
      rw [hbeyond i (by omega), jstate_default]

/-- Reading the printed PDA with named states. -/
theorem parse_named {S : Type} [Inhabited S] {strS : S → String} {t : NPda L S W} (hlen : t.states.length ≤ t.names.length)
    (hinj : ∀ i < t.names.length, ∀ j < t.names.length, strS (t.stateName i) = strS (t.stateName j) → i = j)
    (hto : ∀ i, ∀ e ∈ (t.core.st i).rules, e.1.to < t.names.length)
    (hrt : ∀ i, ∀ e ∈ (t.core.st i).rules, RoundTrips io e.1.weight) :
    ∃ p, parsePda io true (t.toJson io str strS).events = some p ∧
      JInv (fun s => ∃ i < t.names.length, s = strS (t.stateName i)) p (DFin str (fun i => .str (strS (t.stateName i))) t.toTPda) (LFin str t.toTPda) ∧
      ∀ i < t.names.length, strS (t.stateName i) ∈ p.names := by
  obtain ⟨m, hm1, hm2⟩ := mem_named (io := io) (str := str) strS t hlen hinj
  classical
  let st : String → PState W := fun n => if h : ∃ i < t.names.length, strS (t.stateName i) = n then t.core.st h.choose else default
  have hst : ∀ i < t.names.length, st (strS (t.stateName i)) = t.core.st i := by
    intro i hi
    have h : ∃ j < t.names.length, strS (t.stateName j) = strS (t.stateName i) := ⟨i, hi, rfl⟩
    show (if h : ∃ j < t.names.length, strS (t.stateName j) = strS (t.stateName i) then t.core.st h.choose else default) = _
    rw [dif_pos h]
    rw [hinj _ h.choose_spec.1 i hi h.choose_spec.2]
  have hst2 : ∀ i, t.names.length ≤ i → t.core.st i = default := fun i hi => Pda.st_default (Nat.le_trans hlen hi)
  obtain ⟨s', h1, h2, h3, h4, h5⟩ := run_named (io := io) (str := str) (t := t.toTPda) (ref := fun i => .str (strS (t.stateName i))) m st
    (by
      intro e he
      obtain ⟨i, hi, rfl⟩ := (hm2 e).1 he
      simp only [hst i hi])
    (N := fun s => ∃ i < t.names.length, s = strS (t.stateName i))
    (by
      intro e he
      obtain ⟨i, hi, rfl⟩ := (hm2 e).1 he
      exact ⟨i, hi, rfl⟩)
    (by
      intro e he x hx
      obtain ⟨i, hi, rfl⟩ := (hm2 e).1 he
      simp only [hst i hi] at hx
      exact ⟨rfl, hrt i x hx, fun s hs => ⟨x.1.to, hto i x hx, by cases hs; rfl⟩⟩)
    (s := { rule := Sax.rule0 io, lastKey := .states, stack := [⟨.statesObject, .object []⟩, ⟨.pda, .object []⟩, ⟨.initial, .object []⟩] })
    rfl rfl JInv.empty
  have hex : ∀ P : String → PState W → Prop, (∀ n, ¬ P n default) → ((∃ e ∈ m, P e.1 (st e.1)) ↔ ∃ i, P (strS (t.stateName i)) (t.core.st i)) := by
    intro P hP
    constructor
    · rintro ⟨e, he, h⟩
      obtain ⟨i, hi, rfl⟩ := (hm2 e).1 he
      simp only [hst i hi] at h
      exact ⟨i, h⟩
    · rintro ⟨i, h⟩
      by_cases hi : i < t.names.length
      · exact ⟨_, (hm2 _).2 ⟨i, hi, rfl⟩, by simp only [hst i hi]; exact h⟩
      · rw [hst2 i (by omega)] at h
        exact absurd h (hP _)
  refine ⟨s'.pda, ?_, h5.congr ?_ ?_, fun i hi => h4 _ ((hm2 _).2 ⟨i, hi, rfl⟩)⟩
  · rw [hm1]
    unfold parsePda JDoc.events objEvents
    simp only [List.cons_append, List.nil_append, List.append_assoc]
    have e1 : ∀ es, Sax.run io true (.startObj :: .key "pda" :: .startObj :: .key "states" :: .startObj :: es) { rule := Sax.rule0 io } =
        Sax.run io true es { rule := Sax.rule0 io, lastKey := .states, stack := [⟨.statesObject, .object []⟩, ⟨.pda, .object []⟩, ⟨.initial, .object []⟩] } := by
      intro es; rfl
    rw [e1, run_seq _ h1]
    simp only [Sax.run, Sax.event, h2, Sax.elementDone, Sax.endObj, Option.bind_some, Option.map_some]
  · intro d
    simp only [false_or]
    exact hex (fun n ps => ∃ q ∈ pairs str t.toTPda ps, d = dOf str _ t.toTPda (.str n) q.2 q.1) (by simp [pairs_default])
  · intro l
    simp only [false_or]
    exact hex (fun n ps => ∃ q ∈ pairs str t.toTPda ps, lOf str t.toTPda q.2 q.1 l) (by simp [pairs_default])

end Verif.Json
