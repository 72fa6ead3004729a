import Verif.Proofs.BuiltW

/-! # Trace reconstruction with weights -/

namespace Verif

variable {W T : Type}

section
variable [LinearOrder W] [AddCommMonoid T]

/-- What holds during the reconstruction of a pre* trace. -/
structure PreTBW (p : Pda W) (L : List (AEdge T)) (fin : Nat) (tb : TB) : Prop where
  edges : ∀ t ∈ tb.path.trs, t ∈ keys L
  front : tb.path.frontState < p.size
  fin : tb.path.fin = fin
  post : tb.post = false

theorem preTBW_round {p : Pda W} (hp : p.WF) {val : W → T} {E0 L : List (AEdge T)} (hb : BuiltW (PreJW p val) E0 L) {a : Aut T}
    (hh : HoldsIn L a) (hnull : ∀ e ∈ E0, e.2.1 = Trace.null) (hinto : ∀ t ∈ keys E0, p.size ≤ t.dst) (fin : Nat) :
    RoundSpec p a (PreTBW p L fin) (fun tb => ∀ t ∈ tb.path.trs, t ∈ keys E0)
      (fun tb => ((tb.path.frontState, tb.path.stack), sumW a tb.path.trs)) (fun tb => pathMeasure L tb.path.trs)
      (fun c r c' => Move p.Has c.1 r c'.1 ∧ c.2 = val r.weight + c'.2) false := by
  have hget : ∀ {t : Tr}, t ∈ keys L → ∃ tr x, (t, (tr, x)) ∈ L ∧ a.getEdge t = some (tr, x) ∧ a.wt t = some x := by
    intro t ht
    obtain ⟨⟨t, tr, x⟩, he, rfl⟩ := List.mem_map.1 ht
    exact ⟨tr, x, he, hh _ he, hh.wt he⟩
  -- a transition from a state that is not a control state is original
  have horig : ∀ t ∈ keys L, p.size ≤ t.src → t ∈ keys E0 := by
    intro t ht hs
    obtain ⟨tr, x, he, _⟩ := hget ht
    rcases hb.annotation (PreJW.mono p val) he with h1 | hj
    · exact mem_keys_of h1
    · exfalso
      dsimp only at hj
      cases hj with
      | pop h1 _ _ => have := Pda.lt_size_of_rule h1; dsimp only at hs; omega
      | swap h1 _ _ _ => have := Pda.lt_size_of_rule h1; dsimp only at hs; omega
      | noop h1 _ _ _ => have := Pda.lt_size_of_rule h1; dsimp only at hs; omega
      | push h1 _ _ _ _ => have := Pda.lt_size_of_rule h1; dsimp only at hs; omega
  have htail : ∀ (f : Nat) (es : List (Nat × Nat)), (∀ t ∈ trs f es, t ∈ keys L) →
      p.size ≤ APath.frontState ⟨f, es⟩ → ∀ t ∈ trs f es, t ∈ keys E0 := by
    intro f es
    induction es with
    | nil => intro _ _ t ht; simp [trs] at ht
    | cons x es ih =>
      intro h1 h2
      simp only [trs, List.forall_mem_cons] at h1 ⊢
      have h3 := horig _ h1.1 h2
      exact ⟨h3, ih h1.2 (hinto _ h3)⟩
  -- the round, by the annotation of the front transition
  have key : ∀ tb, PreTBW p L fin tb →
      (tbRound p a tb = .done tb ∧ ∀ t ∈ tb.path.trs, t ∈ keys E0) ∨
      ∃ r tb', tbRound p a tb = .rule r tb' ∧ PreTBW p L fin tb' ∧
        pathMeasure L tb'.path.trs < pathMeasure L tb.path.trs ∧
        Move p.Has (tb.path.frontState, tb.path.stack) r (tb'.path.frontState, tb'.path.stack) ∧
        sumW a tb.path.trs = val r.weight + sumW a tb'.path.trs := by
    rintro ⟨⟨f, es⟩, post⟩ hi
    obtain ⟨hE, hfr, hfin, hpost⟩ := hi
    dsimp only at hE hfr hfin hpost
    cases es with
    | nil => exact .inl ⟨rfl, by simp [APath.trs, trs]⟩
    | cons x es =>
      obtain ⟨g, s⟩ := x
      simp only [APath.trs, trs, List.forall_mem_cons] at hE
      have hsz : s < p.size := hfr
      have hround : tbRound p a ⟨⟨f, (g, s) :: es⟩, post⟩ =
          match a.traceLabel ⟨s, g, APath.frontState ⟨f, es⟩⟩ with
          | none => .stuck
          | some tr =>
            if tr.isNull then .done ⟨⟨f, (g, s) :: es⟩, post⟩
            else if tr.isPre then tbPre p ⟨⟨f, (g, s) :: es⟩, post⟩ ⟨f, es⟩ s g tr
            else if tr.isPostEps then
              .again ⟨((⟨f, es⟩ : APath Nat).emplace tr.state g).emplace s epsilon, post⟩
            else tbPost p a ⟨f, es⟩ tr := by
        unfold tbRound
        rw [APath.frontEdge_cons]
        rfl
      obtain ⟨tr, z, he, hg, hwt⟩ := hget hE.1
      have hl : a.traceLabel ⟨s, g, APath.frontState ⟨f, es⟩⟩ = some tr := by simp [Aut.traceLabel, hg]
      rcases hb.annotation (PreJW.mono p val) he with h0 | hj
      · left
        have hn := hnull _ h0
        dsimp only at hn
        have h0 := mem_keys_of h0
        dsimp only at h0
        rw [hround, hl, hn]
        refine ⟨by simp [Trace.null, Trace.isNull], ?_⟩
        simp only [APath.trs, trs, List.forall_mem_cons]
        exact ⟨h0, htail f es hE.2 (hinto _ h0)⟩
      · right
        rw [hround, hl]
        dsimp only at hj ⊢
        have hr := hE.2
        simp only [APath.trs, trs, sumW_cons, hwt, Option.getD_some]
        generalize htr : (⟨s, g, APath.frontState ⟨f, es⟩⟩ : Tr) = t at hj
        cases hj with
        | @pop i g' id r l h1 h2 h3 =>
          simp only [Tr.mk.injEq] at htr
          obtain ⟨rfl, rfl, hd⟩ := htr
          simp only [(Trace.pre_isPre id).1, (Trace.pre_isPre id).2, Bool.false_eq_true, if_false, if_true]
          simp only [tbPre, Trace.pre, h1, h3]
          refine ⟨_, _, rfl, ⟨hr, ?_, hfin, hpost⟩, ?_, ⟨es.map Prod.fst, has_of_rule h1 h2, ?_, ?_⟩, rfl⟩
          · rw [hd]; exact hp.toLt _ _ (List.mem_of_getElem? h1)
          · simp only [pathMeasure, List.map_cons, List.sum_cons]
            have : 0 < 3 ^ rank L ⟨s, g, r.to⟩ := Nat.pow_pos (by omega)
            omega
          · simp [APath.stack_eq, APath.frontState, mkURule]
          · simp [APath.stack_eq, mkURule, effect, h3, hd]
        | @swap i g' q id r l y h1 h2 h3 h4 =>
          simp only [Tr.mk.injEq] at htr
          obtain ⟨rfl, rfl, hd⟩ := htr
          subst hd
          obtain ⟨⟨tr4, h4⟩, h4'⟩ := h4
          simp only [(Trace.pre_isPre id).1, (Trace.pre_isPre id).2, Bool.false_eq_true, if_false, if_true]
          simp only [tbPre, Trace.pre, h1, h3]
          refine ⟨_, _, rfl, ⟨?_, hp.toLt _ _ (List.mem_of_getElem? h1), hfin, hpost⟩, ?_,
            ⟨es.map Prod.fst, has_of_rule h1 h2, ?_, ?_⟩, ?_⟩
          · simp only [APath.trs, APath.emplace, trs, List.forall_mem_cons]
            exact ⟨mem_keys_of h4, hr⟩
          · simp only [APath.emplace, trs, pathMeasure, List.map_cons, List.sum_cons]
            have := pow_one_lt h4'
            omega
          · simp [APath.stack_eq, APath.frontState, mkURule]
          · simp [APath.stack_eq, APath.frontState, APath.emplace, mkURule, effect, h3]
          · simp only [APath.emplace, trs, sumW_cons, hh.wt h4, Option.getD_some, mkURule]
            rw [add_assoc]
        | @noop i g' q id r l y h1 h2 h3 h4 =>
          simp only [Tr.mk.injEq] at htr
          obtain ⟨rfl, rfl, hd⟩ := htr
          subst hd
          obtain ⟨⟨tr4, h4⟩, h4'⟩ := h4
          simp only [(Trace.pre_isPre id).1, (Trace.pre_isPre id).2, Bool.false_eq_true, if_false, if_true]
          simp only [tbPre, Trace.pre, h1, h3]
          refine ⟨_, _, rfl, ⟨?_, hp.toLt _ _ (List.mem_of_getElem? h1), hfin, hpost⟩, ?_,
            ⟨es.map Prod.fst, has_of_rule h1 h2, ?_, ?_⟩, ?_⟩
          · simp only [APath.trs, APath.emplace, trs, List.forall_mem_cons]
            exact ⟨mem_keys_of h4, hr⟩
          · simp only [APath.emplace, trs, pathMeasure, List.map_cons, List.sum_cons]
            have := pow_one_lt h4'
            omega
          · simp [APath.stack_eq, APath.frontState, mkURule]
          · simp [APath.stack_eq, APath.frontState, APath.emplace, mkURule, effect, h3]
          · simp only [APath.emplace, trs, sumW_cons, hh.wt h4, Option.getD_some, mkURule]
            rw [add_assoc]
        | @push i g' q m id r l y1 y2 h1 h2 h3 h4 h5 =>
          simp only [Tr.mk.injEq] at htr
          obtain ⟨rfl, rfl, hd⟩ := htr
          subst hd
          obtain ⟨⟨tr4, h4⟩, h4'⟩ := h4
          obtain ⟨⟨tr5, h5⟩, h5'⟩ := h5
          simp only [(Trace.preTemp_isPre id m).1, (Trace.preTemp_isPre id m).2, Bool.false_eq_true,
            if_false, if_true]
          simp only [tbPre, Trace.preTemp, h1, h3]
          refine ⟨_, _, rfl, ⟨?_, hp.toLt _ _ (List.mem_of_getElem? h1), hfin, hpost⟩, ?_,
            ⟨es.map Prod.fst, has_of_rule h1 h2, ?_, ?_⟩, ?_⟩
          · simp only [APath.trs, APath.emplace, trs, List.forall_mem_cons]
            exact ⟨mem_keys_of h4, mem_keys_of h5, hr⟩
          · simp only [APath.emplace, trs, pathMeasure, List.map_cons, List.sum_cons,
              APath.frontState] at *
            have := pow_two_lt h4' h5'
            omega
          · simp [APath.stack_eq, APath.frontState, mkURule]
          · simp [APath.stack_eq, APath.frontState, APath.emplace, mkURule, effect, h3]
          · have e4 := hh.wt h4
            have e5 := hh.wt h5
            simp only [APath.emplace, trs, sumW_cons, mkURule, APath.frontState] at *
            rw [e4, e5]
            simp only [Option.getD_some, add_assoc]
  constructor
  · intro tb tb' hi hd
    rcases key tb hi with ⟨h1, h2⟩ | ⟨r, tb2, h1, _⟩
    · rw [h1] at hd
      simp only [TBRes.done.injEq] at hd
      exact ⟨hd.symm, h2⟩
    · rw [h1] at hd; simp at hd
  · intro tb r tb' hi hd
    rcases key tb hi with ⟨h1, h2⟩ | ⟨r2, tb2, h1, h2, h3, h4⟩
    · rw [h1] at hd; simp at hd
    · rw [h1] at hd
      simp only [TBRes.rule.injEq] at hd
      obtain ⟨rfl, rfl⟩ := hd
      exact ⟨h2, h3, h4, h2.post⟩
  · intro tb tb' hi hd
    rcases key tb hi with ⟨h1, h2⟩ | ⟨r, tb2, h1, _⟩
    · rw [h1] at hd; simp at hd
    · rw [h1] at hd; simp at hd
  · intro tb hi hd
    rcases key tb hi with ⟨h1, h2⟩ | ⟨r, tb2, h1, _⟩
    · rw [h1] at hd; simp at hd
    · rw [h1] at hd; simp at hd

/-! ## post* -/

/-- What holds during the reconstruction of a post* trace. -/
structure PostTBW (p : Pda W) (L : List (AEdge T)) (fin : Nat) (tb : TB) : Prop where
  edges : ∀ t ∈ tb.path.trs, t ∈ keys L
  front : tb.path.frontState < p.size
  fin : tb.path.fin = fin

theorem postTBW_round {p : Pda W} (hp : p.WF) {val : W → T} {qp : List ((Nat × Nat) × Nat)} {E0 L : List (AEdge T)} {nQ N : Nat}
    (hb : BuiltW (PostJW p val qp) E0 L) {a : Aut T} (hh : HoldsIn L a)
    (hsz : p.size ≤ nQ) (hv0 : ∀ t ∈ keys E0, Valid p nQ t) (hinto : ∀ t ∈ keys E0, p.size ≤ t.dst)
    (hvalid : ∀ t ∈ keys L, PValid p N t) (hqok : QOK p nQ N qp) (hlab : p.nLabels < epsilon) (hN : N ≤ sizeMax)
    (hnull : ∀ e ∈ E0, e.2.1 = Trace.null) (fin : Nat) (hfin : fin < nQ) :
    RoundSpec p a (PostTBW p L fin) (fun tb => ∀ t ∈ tb.path.trs, t ∈ keys E0)
      (fun tb => (confE tb.path, sumW a tb.path.trs)) (fun tb => pathMeasure L tb.path.trs)
      (fun c r c' => ∃ w, Move (fun r => p.Has { r with weight := w }) c'.1 r c.1 ∧ c.2 = c'.2 + val w) true := by
  have hget : ∀ {t : Tr}, t ∈ keys L → ∃ tr x, (t, (tr, x)) ∈ L ∧ a.getEdge t = some (tr, x) ∧ a.wt t = some x := by
    intro t ht
    obtain ⟨⟨t, tr, x⟩, he, rfl⟩ := List.mem_map.1 ht
    exact ⟨tr, x, he, hh _ he, hh.wt he⟩
  have hesrc : ∀ f m, (⟨f, epsilon, m⟩ : Tr) ∈ keys L → f < p.size := by
    intro f m hfm
    rcases (hvalid _ hfm).2.2.2 with h1 | h1
    · dsimp only at h1; omega
    · exact h1.2
  -- transitions from states of the input that are not control states are original
  have horig : ∀ t ∈ keys L, p.size ≤ t.src → t.src < nQ → t ∈ keys E0 := by
    intro t ht hs hn
    obtain ⟨tr, x, he, _⟩ := hget ht
    rcases hb.annotation (PostJW.mono p val qp) he with h1 | hj
    · exact mem_keys_of h1
    · exfalso
      dsimp only at hj
      cases hj with
      | pop h1 _ _ _ => have := hp.toLt _ _ (List.mem_of_getElem? h1); dsimp only at *; omega
      | swap h1 _ _ _ => have := hp.toLt _ _ (List.mem_of_getElem? h1); dsimp only at *; omega
      | noop h1 _ _ _ => have := hp.toLt _ _ (List.mem_of_getElem? h1); dsimp only at *; omega
      | push1 h1 _ _ => have := hp.toLt _ _ (List.mem_of_getElem? h1); dsimp only at *; omega
      | push2 h1 _ h3 _ =>
        have := (hqok.range _ _ _ (List.mem_of_getElem? h1) h3).1; dsimp only at *; omega
      | eps h1 _ => obtain ⟨⟨_, h1⟩, _⟩ := h1; have := hesrc _ _ (mem_keys_of h1); dsimp only at *; omega
  have htail : ∀ (f : Nat) (es : List (Nat × Nat)), (∀ t ∈ trs f es, t ∈ keys L) →
      p.size ≤ APath.frontState ⟨f, es⟩ → APath.frontState ⟨f, es⟩ < nQ →
      ∀ t ∈ trs f es, t ∈ keys E0 := by
    intro f es
    induction es with
    | nil => intro _ _ _ t ht; simp [trs] at ht
    | cons x es ih =>
      intro h1 h2 h2'
      simp only [trs, List.forall_mem_cons] at h1 ⊢
      have h3 := horig _ h1.1 h2 h2'
      exact ⟨h3, ih h1.2 (hinto _ h3) (hv0 _ h3).2.2⟩
  have key : ∀ tb, PostTBW p L fin tb →
      (tbRound p a tb = .done tb ∧ ∀ t ∈ tb.path.trs, t ∈ keys E0) ∨
      (∃ r tb', tbRound p a tb = .rule r tb' ∧ PostTBW p L fin tb' ∧
        pathMeasure L tb'.path.trs < pathMeasure L tb.path.trs ∧
        (∃ w, Move (fun r => p.Has { r with weight := w }) (confE tb'.path) r (confE tb.path) ∧
          sumW a tb.path.trs = sumW a tb'.path.trs + val w) ∧ tb'.post = true) ∨
      (∃ tb', tbRound p a tb = .again tb' ∧ PostTBW p L fin tb' ∧
        pathMeasure L tb'.path.trs < pathMeasure L tb.path.trs ∧
        (confE tb'.path = confE tb.path ∧ sumW a tb'.path.trs = sumW a tb.path.trs) ∧ tb'.post = tb.post) := by
    rintro ⟨⟨f, es⟩, post⟩ htb
    obtain ⟨hE, hfr, hfi⟩ := htb
    dsimp only at hE hfr hfi
    cases es with
    | nil => exact .inl ⟨rfl, by simp [APath.trs, trs]⟩
    | cons x es =>
      obtain ⟨g, q0⟩ := x
      simp only [APath.trs, trs, List.forall_mem_cons] at hE
      have hqsz : q0 < p.size := hfr
      have hround : tbRound p a ⟨⟨f, (g, q0) :: es⟩, post⟩ =
          match a.traceLabel ⟨q0, g, APath.frontState ⟨f, es⟩⟩ with
          | none => .stuck
          | some tr =>
            if tr.isNull then .done ⟨⟨f, (g, q0) :: es⟩, post⟩
            else if tr.isPre then tbPre p ⟨⟨f, (g, q0) :: es⟩, post⟩ ⟨f, es⟩ q0 g tr
            else if tr.isPostEps then
              .again ⟨((⟨f, es⟩ : APath Nat).emplace tr.state g).emplace q0 epsilon, post⟩
            else tbPost p a ⟨f, es⟩ tr := by
        unfold tbRound
        rw [APath.frontEdge_cons]
        rfl
      obtain ⟨tr, z, he, hg, hwt⟩ := hget hE.1
      have hl : a.traceLabel ⟨q0, g, APath.frontState ⟨f, es⟩⟩ = some tr := by simp [Aut.traceLabel, hg]
      rcases hb.annotation (PostJW.mono p val qp) he with h0 | hj
      · left
        have hn := hnull _ h0
        dsimp only at hn
        have h0 := mem_keys_of h0
        dsimp only at h0
        rw [hround, hl, hn]
        refine ⟨by simp [Trace.null, Trace.isNull], ?_⟩
        simp only [APath.trs, trs, List.forall_mem_cons]
        exact ⟨h0, htail f es hE.2 (hinto _ h0) (hv0 _ h0).2.2⟩
      · right
        rw [hround, hl]
        dsimp only at hj ⊢
        have hr := hE.2
        have hlt : ∀ {i id g' : Nat} {r : Rule W} {l : Labels}, (p.st i).rules[id]? = some (r, l) →
            g' ∈ p.expand l → g' < epsilon - 1 := by
          intro i id g' r l h1 h2
          have := ((hp.mem_expand (List.mem_of_getElem? h1) g').1 h2).2
          omega
        simp only [APath.trs, trs, sumW_cons, hwt, Option.getD_some]
        generalize htr : (⟨q0, g, APath.frontState ⟨f, es⟩⟩ : Tr) = t at hj
        cases hj with
        | @pop i g' q id r l y h1 h2 h3 h4 =>
          left
          simp only [Tr.mk.injEq] at htr
          obtain ⟨rfl, rfl, hd⟩ := htr
          subst hd
          obtain ⟨⟨tr4, h4⟩, h4'⟩ := h4
          have hg' := hlt h1 h2
          have hne : g' ≠ epsilon := by omega
          obtain ⟨f1, f2, f3⟩ := Trace.post_flags (a := i) (id := id) hg'
          simp only [f1, f2, f3, Bool.false_eq_true, if_false]
          simp only [tbPost, Trace.post, h1, h3]
          refine ⟨_, _, rfl, ⟨?_, Pda.lt_size_of_rule h1, hfi⟩, ?_,
            ⟨r.weight, ⟨(es.map Prod.fst).filter fun l => decide (l ≠ epsilon), has_of_rule h1 h2, ?_, ?_⟩, ?_⟩, rfl⟩
          · simp only [APath.trs, APath.emplace, trs, List.forall_mem_cons]
            exact ⟨mem_keys_of h4, hr⟩
          · simp only [APath.emplace, trs, pathMeasure, List.map_cons, List.sum_cons]
            have := pow_one_lt h4'
            omega
          · simp [confE, APath.stack_eq, APath.frontState, APath.emplace, mkURule, hne]
          · simp [confE, APath.stack_eq, APath.frontState, mkURule, effect, h3]
          · simp only [APath.emplace, trs, sumW_cons, hh.wt h4, Option.getD_some]
            rw [add_right_comm]
        | @swap i g' q id r l y h1 h2 h3 h4 =>
          left
          simp only [Tr.mk.injEq] at htr
          obtain ⟨rfl, rfl, hd⟩ := htr
          subst hd
          obtain ⟨⟨tr4, h4⟩, h4'⟩ := h4
          have hg' := hlt h1 h2
          have hne : g' ≠ epsilon := by omega
          have hop : r.opLabel < p.nLabels := hp.opLt _ _ (List.mem_of_getElem? h1) (.inr h3)
          have hne2 : r.opLabel ≠ epsilon := by omega
          obtain ⟨f1, f2, f3⟩ := Trace.post_flags (a := i) (id := id) hg'
          simp only [f1, f2, f3, Bool.false_eq_true, if_false]
          simp only [tbPost, Trace.post, h1, h3]
          refine ⟨_, _, rfl, ⟨?_, Pda.lt_size_of_rule h1, hfi⟩, ?_,
            ⟨r.weight, ⟨(es.map Prod.fst).filter fun l => decide (l ≠ epsilon), has_of_rule h1 h2, ?_, ?_⟩, ?_⟩, rfl⟩
          · simp only [APath.trs, APath.emplace, trs, List.forall_mem_cons]
            exact ⟨mem_keys_of h4, hr⟩
          · simp only [APath.emplace, trs, pathMeasure, List.map_cons, List.sum_cons]
            have := pow_one_lt h4'
            omega
          · simp [confE, APath.stack_eq, APath.frontState, APath.emplace, mkURule, hne]
          · simp [confE, APath.stack_eq, APath.frontState, mkURule, effect, h3, hne2]
          · simp only [APath.emplace, trs, sumW_cons, hh.wt h4, Option.getD_some]
            rw [add_right_comm]
        | @noop i g' q id r l y h1 h2 h3 h4 =>
          left
          simp only [Tr.mk.injEq] at htr
          obtain ⟨rfl, rfl, hd⟩ := htr
          subst hd
          obtain ⟨⟨tr4, h4⟩, h4'⟩ := h4
          have hg' := hlt h1 h2
          have hne : g ≠ epsilon := by omega
          obtain ⟨f1, f2, f3⟩ := Trace.post_flags (a := i) (id := id) hg'
          simp only [f1, f2, f3, Bool.false_eq_true, if_false]
          simp only [tbPost, Trace.post, h1, h3]
          refine ⟨_, _, rfl, ⟨?_, Pda.lt_size_of_rule h1, hfi⟩, ?_,
            ⟨r.weight, ⟨(es.map Prod.fst).filter fun l => decide (l ≠ epsilon), has_of_rule h1 h2, ?_, ?_⟩, ?_⟩, rfl⟩
          · simp only [APath.trs, APath.emplace, trs, List.forall_mem_cons]
            exact ⟨mem_keys_of h4, hr⟩
          · simp only [APath.emplace, trs, pathMeasure, List.map_cons, List.sum_cons]
            have := pow_one_lt h4'
            omega
          · simp [confE, APath.stack_eq, APath.frontState, APath.emplace, mkURule, hne]
          · simp [confE, APath.stack_eq, APath.frontState, mkURule, effect, h3, hne]
          · simp only [APath.emplace, trs, sumW_cons, hh.wt h4, Option.getD_some]
            rw [add_right_comm]
        | @push1 i g' id r l h1 h2 h3 =>
          left
          simp only [Tr.mk.injEq] at htr
          obtain ⟨rfl, rfl, hd⟩ := htr
          have hm1 := List.mem_of_getElem? h1
          have hrange := hqok.range _ _ _ hm1 h3
          have hop : r.opLabel < p.nLabels := hp.opLt _ _ hm1 (.inl h3)
          have hne2 : r.opLabel ≠ epsilon := by omega
          obtain ⟨f1, f2, f3⟩ := Trace.post_flags (a := i) (id := id) (hlt h1 h2)
          simp only [f1, f2, f3, Bool.false_eq_true, if_false]
          -- the path goes on, since the added state is not accepting
          cases es with
          | nil =>
            have : f = qFind qp (r.to, r.opLabel) := hd
            omega
          | cons y es =>
            obtain ⟨g2, m⟩ := y
            have hd' : m = qFind qp (r.to, r.opLabel) := hd
            subst hd'
            simp only [trs, List.forall_mem_cons] at hr
            obtain ⟨tr2, z2, he2, hg2, hwt2⟩ := hget hr.1
            have hl2 : a.traceLabel ⟨qFind qp (r.to, r.opLabel), g2, APath.frontState ⟨f, es⟩⟩ = some tr2 := by
              simp [Aut.traceLabel, hg2]
            rcases hb.annotation (PostJW.mono p val qp) he2 with h0 | hj2
            · have := (hv0 _ (mem_keys_of h0)).1
              dsimp only at this
              omega
            · have hthis : ∃ i2 id2 r2 l2 y2, (p.st i2).rules[id2]? = some (r2, l2) ∧ g2 ∈ p.expand l2 ∧
                  r2.op = .push ∧ r2.to = r.to ∧ r2.opLabel = r.opLabel ∧ tr2 = Trace.post i2 id2 g2 ∧
                  (∃ tr3, ((⟨i2, g2, APath.frontState ⟨f, es⟩⟩ : Tr), (tr3, y2)) ∈ L) ∧ z2 = y2 + val r2.weight ∧
                  rank L ⟨i2, g2, APath.frontState ⟨f, es⟩⟩ <
                    rank L ⟨qFind qp (r.to, r.opLabel), g2, APath.frontState ⟨f, es⟩⟩ := by
                dsimp only at hj2
                generalize htr2 : (⟨qFind qp (r.to, r.opLabel), g2, APath.frontState ⟨f, es⟩⟩ : Tr)
                  = t2 at hj2
                cases hj2 with
                | pop e1 _ _ _ =>
                  have := hp.toLt _ _ (List.mem_of_getElem? e1)
                  simp only [Tr.mk.injEq] at htr2; dsimp only at this; omega
                | swap e1 _ _ _ =>
                  have := hp.toLt _ _ (List.mem_of_getElem? e1)
                  simp only [Tr.mk.injEq] at htr2; dsimp only at this; omega
                | noop e1 _ _ _ =>
                  have := hp.toLt _ _ (List.mem_of_getElem? e1)
                  simp only [Tr.mk.injEq] at htr2; dsimp only at this; omega
                | push1 e1 _ _ =>
                  have := hp.toLt _ _ (List.mem_of_getElem? e1)
                  simp only [Tr.mk.injEq] at htr2; dsimp only at this; omega
                | @push2 i2 g2' q2 id2 r2 l2 y2 e1 e2 e3 e4 =>
                  simp only [Tr.mk.injEq] at htr2
                  obtain ⟨k1, rfl, rfl⟩ := htr2
                  obtain ⟨k2, k3⟩ := hqok.inj _ _ _ _ _ _ (List.mem_of_getElem? e1) e3 hm1 h3 k1.symm
                  exact ⟨i2, id2, r2, l2, y2, e1, e2, e3, k2, k3, rfl, e4.1, rfl, e4.2⟩
                | eps e1 _ =>
                  obtain ⟨⟨_, e1⟩, _⟩ := e1
                  have := hesrc _ _ (mem_keys_of e1)
                  simp only [Tr.mk.injEq] at htr2; omega
              obtain ⟨i2, id2, r2, l2, y2, e1, e2, e3, e4, e5, rfl, ⟨tr3, e6⟩, rfl, e7⟩ := hthis
              have hne : g2 ≠ epsilon := by have := hlt e1 e2; omega
              simp only [tbPost, Trace.post, h1, h3]
              rw [APath.frontEdge_cons]
              simp only [hl2, Trace.post, APath.pop, List.tail_cons]
              refine ⟨_, _, rfl, ⟨?_, Pda.lt_size_of_rule e1, hfi⟩, ?_,
                ⟨r2.weight, ⟨(es.map Prod.fst).filter fun l => decide (l ≠ epsilon), ?_, ?_, ?_⟩, ?_⟩, rfl⟩
              · simp only [APath.trs, APath.emplace, trs, List.forall_mem_cons]
                exact ⟨mem_keys_of e6, hr.2⟩
              · simp only [APath.emplace, trs, pathMeasure, List.map_cons, List.sum_cons]
                have := pow_one_lt e7
                have : 0 < 3 ^ rank L ⟨r.to, r.opLabel, qFind qp (r.to, r.opLabel)⟩ := Nat.pow_pos (by omega)
                omega
              · have := has_of_rule e1 e2
                rw [e3, e4, e5] at this
                simpa [mkURule, h3] using this
              · simp [confE, APath.stack_eq, APath.frontState, APath.emplace, mkURule, hne]
              · simp [confE, APath.stack_eq, APath.frontState, mkURule, effect, h3, hne, hne2]
              · simp only [APath.emplace, trs, sumW_cons, hh.wt e6, hwt2, Option.getD_some]
                rw [zero_add, add_right_comm]
        | @push2 i g' q id r l y h1 h2 h3 h4 =>
          have := (hqok.range _ _ _ (List.mem_of_getElem? h1) h3).1
          simp only [Tr.mk.injEq] at htr
          omega
        | @eps f' m g' q y1 y2 h1 h2 =>
          right
          simp only [Tr.mk.injEq] at htr
          obtain ⟨rfl, rfl, hd⟩ := htr
          subst hd
          obtain ⟨⟨tr1, h1⟩, h1'⟩ := h1
          obtain ⟨⟨tr2, h2⟩, h2'⟩ := h2
          have hm := (hvalid _ (mem_keys_of h1)).2.2.1
          obtain ⟨f1, f2, f3⟩ := Trace.postEps_flags (m := m) (by dsimp only at hm; omega)
          simp only [f1, f2, f3, Bool.false_eq_true, if_false, if_true]
          simp only [Trace.postEps]
          refine ⟨_, rfl, ⟨?_, hqsz, hfi⟩, ?_, ⟨?_, ?_⟩, rfl⟩
          · simp only [APath.trs, APath.emplace, trs, List.forall_mem_cons]
            exact ⟨mem_keys_of h1, mem_keys_of h2, hr⟩
          · simp only [APath.emplace, trs, pathMeasure, List.map_cons, List.sum_cons,
              APath.frontState] at *
            have := pow_two_lt h1' h2'
            omega
          · simp [confE, APath.stack_eq, APath.frontState, APath.emplace]
          · have e4 := hh.wt h1
            have e5 := hh.wt h2
            simp only [APath.emplace, trs, sumW_cons, APath.frontState] at *
            rw [e4, e5]
            simp only [Option.getD_some, add_assoc]
  constructor
  · intro tb tb' htb hd
    rcases key tb htb with ⟨h1, h2⟩ | ⟨r, tb2, h1, _⟩ | ⟨tb2, h1, _⟩
    · rw [h1] at hd
      simp only [TBRes.done.injEq] at hd
      exact ⟨hd.symm, h2⟩
    · rw [h1] at hd; simp at hd
    · rw [h1] at hd; simp at hd
  · intro tb r tb' htb hd
    rcases key tb htb with ⟨h1, h2⟩ | ⟨r2, tb2, h1, h2, h3, h4⟩ | ⟨tb2, h1, _⟩
    · rw [h1] at hd; simp at hd
    · rw [h1] at hd
      simp only [TBRes.rule.injEq] at hd
      obtain ⟨rfl, rfl⟩ := hd
      exact ⟨h2, h3, h4⟩
    · rw [h1] at hd; simp at hd
  · intro tb tb' htb hd
    rcases key tb htb with ⟨h1, h2⟩ | ⟨r, tb2, h1, _⟩ | ⟨tb2, h1, h2, h3, h4, h5⟩
    · rw [h1] at hd; simp at hd
    · rw [h1] at hd; simp at hd
    · rw [h1] at hd
      simp only [TBRes.again.injEq] at hd
      subst hd
      exact ⟨h2, h3, by rw [h4.1, h4.2], h5⟩
  · intro tb htb hd
    rcases key tb htb with ⟨h1, h2⟩ | ⟨r, tb2, h1, _⟩ | ⟨tb2, h1, _⟩ <;> rw [h1] at hd <;> simp at hd

end

end Verif
