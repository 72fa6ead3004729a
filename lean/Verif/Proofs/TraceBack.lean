import Mathlib.Data.List.Chain
import Verif.Model.TraceBack
import Verif.Proofs.FindPath
import Verif.Proofs.PostFinal

/-! # Trace reconstruction -/

namespace Verif

variable {W T σ : Type}

/-! ## Paths as lists of transitions -/

/-- The transitions of a path, from the front. -/
def trs (fin : Nat) : List (Nat × Nat) → List Tr
  | [] => []
  | x :: es => ⟨x.2, x.1, APath.frontState ⟨fin, es⟩⟩ :: trs fin es

/-- The transitions of a path, from the front. -/
def APath.trs (p : APath Nat) : List Tr := Verif.trs p.fin p.edges

theorem APath.frontEdge_cons (fin : Nat) (x : Nat × Nat) (es : List (Nat × Nat)) :
    APath.frontEdge (⟨fin, x :: es⟩ : APath Nat) = some (x.2, x.1, APath.frontState ⟨fin, es⟩) := by
  cases es <;> rfl

theorem trs_spells (E : Tr → Prop) (fin : Nat) (es : List (Nat × Nat)) :
    Spells E (APath.states ⟨fin, es⟩) (APath.stack (⟨fin, es⟩ : APath Nat)) ↔ ∀ t ∈ trs fin es, E t := by
  rw [APath.stack_eq]
  unfold APath.states
  induction es with
  | nil => simp [Spells, trs]
  | cons x es ih =>
    simp only [trs, List.forall_mem_cons]
    rw [← ih]
    cases es with
    | nil => simp [Spells, APath.frontState]
    | cons y es => simp [Spells, APath.frontState]

/-- A path of transitions in `E` gives a path in the sense of the specification. -/
theorem trs_path {E : Tr → Prop} (fin : Nat) (es : List (Nat × Nat)) (h : ∀ t ∈ trs fin es, E t) :
    Path E (APath.frontState ⟨fin, es⟩) (es.map Prod.fst) fin := by
  induction es with
  | nil => exact .nil _
  | cons x es ih =>
    simp only [trs, List.forall_mem_cons] at h
    exact .cons h.1 (ih h.2)

/-! ## The order of insertion -/

/-- The position of a transition, counted from the oldest. -/
def rank : List (AEdge W) → Tr → Nat
  | [], _ => 0
  | e :: E, t => if e.1 = t then E.length else rank E t

theorem rank_lt {E : List (AEdge W)} {t : Tr} (h : t ∈ keys E) : rank E t < E.length := by
  induction E with
  | nil => simp [keys] at h
  | cons e E ih =>
    unfold rank
    split
    · simp
    · rename_i hne
      rcases List.mem_cons.1 h with h1 | h1
      · exact absurd h1.symm hne
      · have := ih h1
        simp only [List.length_cons]
        omega

theorem getEdge_cons (acc : List Bool) (e : AEdge W) (E : List (AEdge W)) (t : Tr) :
    Aut.getEdge (⟨acc, e :: E⟩ : Aut W) t = if e.1 = t then some e.2 else Aut.getEdge ⟨acc, E⟩ t := by
  unfold Aut.getEdge
  by_cases h : e.1 = t
  · simp [h]
  · simp [h]

/-- The annotation of a transition: that of the input, or a reason in terms of older transitions. -/
theorem Built.annotation [Zero W] {J : (Tr → Prop) → Tr → Trace → Prop} {E0 E : List (AEdge W)}
    (acc : List Bool)
    (hmono : ∀ P Q : Tr → Prop, (∀ t, P t → Q t) → ∀ t tr, J P t tr → J Q t tr)
    (h : Built J E0 E) {t : Tr} (ht : t ∈ keys E) :
    (t ∈ keys E0 ∧ ∃ x ∈ E0, Aut.getEdge (⟨acc, E⟩ : Aut W) t = some x.2) ∨
      ∃ tr, Aut.getEdge (⟨acc, E⟩ : Aut W) t = some (tr, 0) ∧
        J (fun u => u ∈ keys E ∧ rank E u < rank E t) t tr := by
  induction h with
  | base =>
    left
    refine ⟨ht, ?_⟩
    unfold Aut.getEdge
    have : (E0.find? fun e => e.1 == t).isSome := by
      rw [List.find?_isSome]
      obtain ⟨x, h1, h2⟩ := List.mem_map.1 ht
      exact ⟨x, h1, by simp [h2]⟩
    obtain ⟨x, hx⟩ := Option.isSome_iff_exists.1 this
    exact ⟨x, List.mem_of_find?_eq_some hx, by simp [hx]⟩
  | @cons E t' tr' hb hn hj ih =>
    rw [getEdge_cons]
    by_cases heq : t' = t
    · subst heq
      right
      refine ⟨tr', by simp, hmono _ _ ?_ _ _ hj⟩
      intro u hu
      refine ⟨List.mem_cons_of_mem _ hu, ?_⟩
      have hne : t' ≠ u := by rintro rfl; exact hn hu
      simp only [rank, hne, if_false, if_true]
      exact rank_lt hu
    · have ht' : t ∈ keys E := by
        rcases List.mem_cons.1 ht with h1 | h1
        · exact absurd h1.symm heq
        · exact h1
      have hrank : ∀ u ∈ keys E, rank ((t', ((tr', 0) : Ann W)) :: E) u = rank E u := by
        intro u hu
        have hne : t' ≠ u := by rintro rfl; exact hn hu
        simp [rank, hne]
      simp only [heq, if_false]
      rcases ih ht' with h1 | ⟨tr, h1, h2⟩
      · exact .inl h1
      · right
        refine ⟨tr, h1, hmono _ _ ?_ _ _ h2⟩
        rintro u ⟨hu, hr⟩
        refine ⟨List.mem_cons_of_mem _ hu, ?_⟩
        rw [hrank u hu, hrank t ht']
        exact hr

/-- The weight of a path for the termination measure. -/
def pathMeasure (E : List (AEdge W)) (l : List Tr) : Nat := (l.map fun t => 3 ^ rank E t).sum

theorem pathMeasure_le (E : List (AEdge W)) (l : List Tr) (h : ∀ t ∈ l, t ∈ keys E) :
    pathMeasure E l ≤ l.length * 3 ^ E.length := by
  induction l with
  | nil => simp [pathMeasure]
  | cons t l ih =>
    have h1 := ih fun u hu => h u (by simp [hu])
    have h2 : 3 ^ rank E t ≤ 3 ^ E.length :=
      Nat.pow_le_pow_right (by omega) (Nat.le_of_lt (rank_lt (h t (by simp))))
    simp only [pathMeasure, List.map_cons, List.sum_cons, List.length_cons, Nat.add_mul, Nat.one_mul] at *
    omega

theorem trs_length (fin : Nat) (es : List (Nat × Nat)) : (trs fin es).length = es.length := by
  induction es with
  | nil => rfl
  | cons x es ih => simp [trs, ih]

theorem pow_two_lt {a b r : Nat} (ha : a < r) (hb : b < r) : 3 ^ a + 3 ^ b < 3 ^ r := by
  obtain ⟨r, rfl⟩ : ∃ s, r = s + 1 := ⟨r - 1, by omega⟩
  have h1 : 3 ^ a ≤ 3 ^ r := Nat.pow_le_pow_right (by omega) (by omega)
  have h2 : 3 ^ b ≤ 3 ^ r := Nat.pow_le_pow_right (by omega) (by omega)
  have h3 : 0 < 3 ^ r := Nat.pow_pos (by omega)
  rw [Nat.pow_succ]
  omega

theorem pow_one_lt {a r : Nat} (ha : a < r) : 3 ^ a < 3 ^ r := Nat.pow_lt_pow_right (by omega) ha

/-! ## The loops, from a specification of one round -/

/-- A sequence of moves with the configurations in between. -/
inductive Trail {C : Type} (S : C → URule W → C → Prop) : C → List (URule W) → List C → C → Prop
  where
  | nil (c : C) : Trail S c [] [] c
  | cons {c c1 c2 : C} {r : URule W} {rs : List (URule W)} {cs : List C} :
      S c r c1 → Trail S c1 rs cs c2 → Trail S c (r :: rs) (c1 :: cs) c2

/-- What one round must satisfy. -/
structure RoundSpec {C : Type} (p : Pda W) (a : Aut T) (Inv Fin : TB → Prop) (conf : TB → C) (μ : TB → Nat)
    (S : C → URule W → C → Prop) (flag : Bool) : Prop where
  done : ∀ tb tb', Inv tb → tbRound p a tb = .done tb' → tb' = tb ∧ Fin tb
  rule : ∀ tb r tb', Inv tb → tbRound p a tb = .rule r tb' →
    Inv tb' ∧ μ tb' < μ tb ∧ S (conf tb) r (conf tb') ∧ tb'.post = flag
  again : ∀ tb tb', Inv tb → tbRound p a tb = .again tb' →
    Inv tb' ∧ μ tb' < μ tb ∧ conf tb' = conf tb ∧ tb'.post = tb.post
  stuck : ∀ tb, Inv tb → tbRound p a tb ≠ .stuck

theorem tbNext_spec {C : Type} {p : Pda W} {a : Aut T} {Inv Fin : TB → Prop} {conf : TB → C} {μ : TB → Nat}
    {S : C → URule W → C → Prop} {flag : Bool} (h : RoundSpec p a Inv Fin conf μ S flag)
    (k : Nat) (tb : TB) (hi : Inv tb) (hk : μ tb < k) :
    (∃ tb', tbNext p a k tb = some (none, tb') ∧ Inv tb' ∧ Fin tb' ∧ conf tb' = conf tb ∧
      tb'.post = tb.post) ∨
    (∃ r tb', tbNext p a k tb = some (some r, tb') ∧ Inv tb' ∧ μ tb' < μ tb ∧ S (conf tb) r (conf tb') ∧
      tb'.post = flag) := by
  induction k generalizing tb with
  | zero => omega
  | succ k ih =>
    unfold tbNext
    cases hr : tbRound p a tb with
    | done tb' =>
      obtain ⟨rfl, h1⟩ := h.done tb tb' hi hr
      exact .inl ⟨tb', rfl, hi, h1, rfl, rfl⟩
    | rule r tb' =>
      obtain ⟨h1, h2, h3, h4⟩ := h.rule tb r tb' hi hr
      exact .inr ⟨r, tb', rfl, h1, h2, h3, h4⟩
    | again tb' =>
      obtain ⟨h1, h2, h3, h3'⟩ := h.again tb tb' hi hr
      rcases ih tb' h1 (by omega) with ⟨tb2, h4, h5, h6, h7, h8⟩ | ⟨r, tb2, h4, h5, h6, h7, h8⟩
      · exact .inl ⟨tb2, h4, h5, h6, h7.trans h3, h8.trans h3'⟩
      · exact .inr ⟨r, tb2, h4, h5, by omega, h3 ▸ h7, h8⟩
    | stuck => exact absurd hr (h.stuck tb hi)

theorem tbAll_specC {C : Type} (dec : C → Config) {p : Pda W} {a : Aut T} {Inv Fin : TB → Prop} {conf : TB → C} {μ : TB → Nat}
    {S : C → URule W → C → Prop} {flag : Bool} (h : RoundSpec p a Inv Fin conf μ S flag)
    (hdec : ∀ tb, Inv tb → decodeEdges p tb.path = dec (conf tb)) (f k : Nat) (tb : TB)
    (hi : Inv tb) (hf : μ tb < f) (hk : μ tb < k) :
    ∃ rs cs tb', tbAll p a f k tb = some (rs, tb') ∧ traceLoop p a f k tb = some (cs.map dec, tb') ∧ Inv tb' ∧
      Fin tb' ∧ Trail S (conf tb) rs cs (conf tb') ∧
      ((rs = [] ∧ tb'.post = tb.post) ∨ (rs ≠ [] ∧ tb'.post = flag)) := by
  induction k generalizing tb with
  | zero => omega
  | succ k ih =>
    unfold tbAll traceLoop
    rcases tbNext_spec h f tb hi hf with ⟨tb', h1, h2, h3, h4, hx⟩ | ⟨r, tb', h1, h2, h3, h4, hx⟩
    · simp only [h1]
      exact ⟨[], [], tb', rfl, rfl, h2, h3, h4 ▸ .nil _, .inl ⟨rfl, hx⟩⟩
    · simp only [h1]
      obtain ⟨rs, cs, tb2, h5, h6, h7, h8, h9, h10⟩ := ih tb' h2 (by omega) (by omega)
      refine ⟨r :: rs, conf tb' :: cs, tb2, by simp [h5], ?_, h7, h8, .cons h4 h9, .inr ⟨by simp, ?_⟩⟩
      · simp [h6, hdec tb' h2]
      · rcases h10 with ⟨_, h10⟩ | ⟨_, h10⟩
        · exact h10.trans hx
        · exact h10

theorem tbAll_spec {p : Pda W} {a : Aut T} {Inv Fin : TB → Prop} {conf : TB → Config} {μ : TB → Nat}
    {S : Config → URule W → Config → Prop} {flag : Bool} (h : RoundSpec p a Inv Fin conf μ S flag)
    (hdec : ∀ tb, Inv tb → decodeEdges p tb.path = conf tb) (f k : Nat) (tb : TB)
    (hi : Inv tb) (hf : μ tb < f) (hk : μ tb < k) :
    ∃ rs cs tb', tbAll p a f k tb = some (rs, tb') ∧ traceLoop p a f k tb = some (cs, tb') ∧ Inv tb' ∧
      Fin tb' ∧ Trail S (conf tb) rs cs (conf tb') ∧
      ((rs = [] ∧ tb'.post = tb.post) ∨ (rs ≠ [] ∧ tb'.post = flag)) := by
  obtain ⟨rs, cs, tb', h1, h2, h3⟩ := tbAll_specC (fun c : Config => c) h hdec f k tb hi hf hk
  rw [List.map_id'] at h2
  exact ⟨rs, cs, tb', h1, h2, h3⟩

/-- A move along the rule `r`. -/
def Move (Ok : URule W → Prop) (c : Config) (r : URule W) (c' : Config) : Prop :=
  ∃ w, Ok r ∧ c = (r.src, r.pre :: w) ∧ c' = (r.dst, effect r.op r.pre r.opLabel w)

/-! ## Trails as runs -/

theorem Trail.run {Ok : URule W → Prop} {c c' : Config} {rs : List (URule W)} {cs : List Config}
    (h : Trail (Move Ok) c rs cs c') :
    Run c rs c' ∧ (∀ r ∈ rs, Ok r) ∧ (c :: cs).IsChain (Step Ok) ∧ (c :: cs).getLast? = some c' := by
  induction h with
  | nil c => exact ⟨.nil c, by simp, by simp, by simp⟩
  | @cons c c1 c2 r rs cs hm _ ih =>
    obtain ⟨w, hok, rfl, rfl⟩ := hm
    obtain ⟨h1, h2, h3, h4⟩ := ih
    refine ⟨.cons r w rs c2 h1, by simpa using ⟨hok, h2⟩, ?_, ?_⟩
    · rw [List.isChain_cons_cons]
      exact ⟨Step.mk r w hok, h3⟩
    · simpa using h4

theorem Run.append {c c1 c2 : Config} {rs rs' : List (URule W)} (h : Run c rs c1) (h' : Run c1 rs' c2) :
    Run c (rs ++ rs') c2 := by
  induction h with
  | nil c => exact h'
  | cons r w rs c _ ih => exact .cons r w _ _ (ih h')

theorem Trail.run_rev {Ok : URule W → Prop} {c c' : Config} {rs : List (URule W)} {cs : List Config}
    (h : Trail (fun c r c' => Move Ok c' r c) c rs cs c') :
    Run c' rs.reverse c ∧ (∀ r ∈ rs, Ok r) ∧ (c :: cs).reverse.IsChain (Step Ok) ∧
      (c :: cs).reverse.head? = some c' := by
  induction h with
  | nil c => exact ⟨.nil c, by simp, by simp, by simp⟩
  | @cons c c1 c2 r rs cs hm _ ih =>
    obtain ⟨w, hok, rfl, rfl⟩ := hm
    obtain ⟨h1, h2, h3, h4⟩ := ih
    refine ⟨?_, by simpa using ⟨hok, h2⟩, ?_, ?_⟩
    · rw [List.reverse_cons]
      exact h1.append (.cons r w [] _ (.nil _))
    · rw [List.reverse_cons, List.isChain_append]
      refine ⟨h3, by simp, ?_⟩
      intro x hx y hy
      simp only [List.reverse_cons, List.getLast?_append, List.getLast?_singleton, Option.some_or,
        Option.mem_def, Option.some.injEq, List.head?_cons] at hx hy
      subst hx hy
      exact Step.mk r w hok
    · rw [List.reverse_cons, List.head?_append, h4]
      rfl

/-! ## pre* -/

/-- What holds during the reconstruction of a pre* trace. -/
structure PreTB (p : Pda W) (a : Aut W) (fin : Nat) (tb : TB) : Prop where
  edges : ∀ t ∈ tb.path.trs, t ∈ keys a.edges
  front : tb.path.frontState < p.size
  fin : tb.path.fin = fin
  post : tb.post = false

theorem Trace.pre_isPre (id : Nat) : (Trace.pre id).isPre = true ∧ (Trace.pre id).isNull = false := by
  constructor
  · simp [Trace.pre, Trace.isPre]
  · simp [Trace.pre, Trace.isNull, epsilon]

theorem Trace.preTemp_isPre (id m : Nat) :
    (Trace.preTemp id m).isPre = true ∧ (Trace.preTemp id m).isNull = false := by
  constructor
  · simp [Trace.preTemp, Trace.isPre]
  · simp [Trace.preTemp, Trace.isNull, epsilon]

section
variable [LinearOrder W] [Zero W]

theorem traceLabel_of {a : Aut W} {t : Tr} {x : Ann W} (h : a.getEdge t = some x) :
    a.traceLabel t = some x.1 := by simp [Aut.traceLabel, h]

theorem preTB_round {p : Pda W} (hp : p.WF) {a0 a : Aut W} (hb : Built (PreJ p) a0.edges a.edges)
    (hnull : ∀ e ∈ a0.edges, e.2.1 = Trace.null) (hinto : ∀ t ∈ keys a0.edges, p.size ≤ t.dst) (fin : Nat) :
    RoundSpec p a (PreTB p a fin) (fun tb => ∀ t ∈ tb.path.trs, t ∈ keys a0.edges)
      (fun tb => (tb.path.frontState, tb.path.stack)) (fun tb => pathMeasure a.edges tb.path.trs)
      (Move p.Has) false := by
  -- a transition from a state that is not a control state is original
  have horig : ∀ t ∈ keys a.edges, p.size ≤ t.src → t ∈ keys a0.edges := by
    intro t ht hs
    rcases hb.just (PreJ.mono p) ht with h1 | ⟨tr, hj⟩
    · exact h1
    · exfalso
      cases hj with
      | pop h1 _ _ => have := Pda.lt_size_of_rule h1; dsimp only at hs; omega
      | swap h1 _ _ _ => have := Pda.lt_size_of_rule h1; dsimp only at hs; omega
      | noop h1 _ _ _ => have := Pda.lt_size_of_rule h1; dsimp only at hs; omega
      | push h1 _ _ _ _ => have := Pda.lt_size_of_rule h1; dsimp only at hs; omega
  have htail : ∀ (f : Nat) (es : List (Nat × Nat)), (∀ t ∈ trs f es, t ∈ keys a.edges) →
      p.size ≤ APath.frontState ⟨f, es⟩ → ∀ t ∈ trs f es, t ∈ keys a0.edges := by
    intro f es
    induction es with
    | nil => intro _ _ t ht; simp [trs] at ht
    | cons x es ih =>
      intro h1 h2
      simp only [trs, List.forall_mem_cons] at h1 ⊢
      have h3 := horig _ h1.1 h2
      exact ⟨h3, ih h1.2 (hinto _ h3)⟩
  -- the round, by the annotation of the front transition
  have key : ∀ tb, PreTB p a fin tb →
      (tbRound p a tb = .done tb ∧ ∀ t ∈ tb.path.trs, t ∈ keys a0.edges) ∨
      ∃ r tb', tbRound p a tb = .rule r tb' ∧ PreTB p a fin tb' ∧
        pathMeasure a.edges tb'.path.trs < pathMeasure a.edges tb.path.trs ∧
        Move p.Has (tb.path.frontState, tb.path.stack) r (tb'.path.frontState, tb'.path.stack) := by
    rintro ⟨⟨f, es⟩, post⟩ hi
    obtain ⟨hE, hfr, hfin, hpost⟩ := hi
    dsimp only at hE hfr hfin hpost
    cases es with
    | nil => exact .inl ⟨rfl, by simp [APath.trs, trs]⟩
    | cons x es =>
      obtain ⟨g, s⟩ := x
      simp only [APath.trs, trs, List.forall_mem_cons] at hE
      have hsz : s < p.size := hfr
      have hround : tbRound p a ⟨⟨f, (g, s) :: es⟩, post⟩ =
          match a.traceLabel ⟨s, g, APath.frontState ⟨f, es⟩⟩ with
          | none => .stuck
          | some tr =>
            if tr.isNull then .done ⟨⟨f, (g, s) :: es⟩, post⟩
            else if tr.isPre then tbPre p ⟨⟨f, (g, s) :: es⟩, post⟩ ⟨f, es⟩ s g tr
            else if tr.isPostEps then
              .again ⟨((⟨f, es⟩ : APath Nat).emplace tr.state g).emplace s epsilon, post⟩
            else tbPost p a ⟨f, es⟩ tr := by
        unfold tbRound
        rw [APath.frontEdge_cons]
        rfl
      rcases hb.annotation a.acc (PreJ.mono p) hE.1 with ⟨h0, x, hx, hg⟩ | ⟨tr, hg, hj⟩
      · left
        have hl := traceLabel_of (a := a) hg
        rw [hnull x hx] at hl
        rw [hround, hl]
        refine ⟨by simp [Trace.null, Trace.isNull], ?_⟩
        simp only [APath.trs, trs, List.forall_mem_cons]
        exact ⟨h0, htail f es hE.2 (hinto _ h0)⟩
      · right
        have hl := traceLabel_of (a := a) hg
        rw [hround, hl]
        dsimp only
        have hr := hE.2
        generalize htr : (⟨s, g, APath.frontState ⟨f, es⟩⟩ : Tr) = t at hj
        cases hj with
        | @pop i g' id r l h1 h2 h3 =>
          simp only [Tr.mk.injEq] at htr
          obtain ⟨rfl, rfl, hd⟩ := htr
          simp only [(Trace.pre_isPre id).1, (Trace.pre_isPre id).2, Bool.false_eq_true, if_false, if_true]
          simp only [tbPre, Trace.pre, h1, h3]
          refine ⟨_, _, rfl, ⟨hr, ?_, hfin, hpost⟩, ?_, es.map Prod.fst, has_of_rule h1 h2, ?_, ?_⟩
          · rw [hd]; exact hp.toLt _ _ (List.mem_of_getElem? h1)
          · simp only [APath.trs, trs, pathMeasure, List.map_cons, List.sum_cons]
            have : 0 < 3 ^ rank a.edges ⟨s, g, APath.frontState ⟨f, es⟩⟩ := Nat.pow_pos (by omega)
            omega
          · simp [APath.stack_eq, APath.frontState, mkURule]
          · simp [APath.stack_eq, mkURule, effect, h3, hd]
        | @swap i g' q id r l h1 h2 h3 h4 =>
          simp only [Tr.mk.injEq] at htr
          obtain ⟨rfl, rfl, hd⟩ := htr
          subst hd
          simp only [(Trace.pre_isPre id).1, (Trace.pre_isPre id).2, Bool.false_eq_true, if_false, if_true]
          simp only [tbPre, Trace.pre, h1, h3]
          refine ⟨_, _, rfl, ⟨?_, hp.toLt _ _ (List.mem_of_getElem? h1), hfin, hpost⟩, ?_,
            es.map Prod.fst, has_of_rule h1 h2, ?_, ?_⟩
          · simp only [APath.trs, APath.emplace, trs, List.forall_mem_cons]
            exact ⟨h4.1, hr⟩
          · simp only [APath.trs, APath.emplace, trs, pathMeasure, List.map_cons, List.sum_cons]
            have := pow_one_lt h4.2
            omega
          · simp [APath.stack_eq, APath.frontState, mkURule]
          · simp [APath.stack_eq, APath.frontState, APath.emplace, mkURule, effect, h3]
        | @noop i g' q id r l h1 h2 h3 h4 =>
          simp only [Tr.mk.injEq] at htr
          obtain ⟨rfl, rfl, hd⟩ := htr
          subst hd
          simp only [(Trace.pre_isPre id).1, (Trace.pre_isPre id).2, Bool.false_eq_true, if_false, if_true]
          simp only [tbPre, Trace.pre, h1, h3]
          refine ⟨_, _, rfl, ⟨?_, hp.toLt _ _ (List.mem_of_getElem? h1), hfin, hpost⟩, ?_,
            es.map Prod.fst, has_of_rule h1 h2, ?_, ?_⟩
          · simp only [APath.trs, APath.emplace, trs, List.forall_mem_cons]
            exact ⟨h4.1, hr⟩
          · simp only [APath.trs, APath.emplace, trs, pathMeasure, List.map_cons, List.sum_cons]
            have := pow_one_lt h4.2
            omega
          · simp [APath.stack_eq, APath.frontState, mkURule]
          · simp [APath.stack_eq, APath.frontState, APath.emplace, mkURule, effect, h3]
        | @push i g' q m id r l h1 h2 h3 h4 h5 =>
          simp only [Tr.mk.injEq] at htr
          obtain ⟨rfl, rfl, hd⟩ := htr
          subst hd
          simp only [(Trace.preTemp_isPre id m).1, (Trace.preTemp_isPre id m).2, Bool.false_eq_true,
            if_false, if_true]
          simp only [tbPre, Trace.preTemp, h1, h3]
          refine ⟨_, _, rfl, ⟨?_, hp.toLt _ _ (List.mem_of_getElem? h1), hfin, hpost⟩, ?_,
            es.map Prod.fst, has_of_rule h1 h2, ?_, ?_⟩
          · simp only [APath.trs, APath.emplace, trs, List.forall_mem_cons]
            exact ⟨h4.1, h5.1, hr⟩
          · simp only [APath.trs, APath.emplace, trs, pathMeasure, List.map_cons, List.sum_cons,
              APath.frontState] at *
            have := pow_two_lt h4.2 h5.2
            omega
          · simp [APath.stack_eq, APath.frontState, mkURule]
          · simp [APath.stack_eq, APath.frontState, APath.emplace, mkURule, effect, h3]
  constructor
  · intro tb tb' hi hd
    rcases key tb hi with ⟨h1, h2⟩ | ⟨r, tb2, h1, _⟩
    · rw [h1] at hd
      simp only [TBRes.done.injEq] at hd
      exact ⟨hd.symm, h2⟩
    · rw [h1] at hd; simp at hd
  · intro tb r tb' hi hd
    rcases key tb hi with ⟨h1, h2⟩ | ⟨r2, tb2, h1, h2, h3, h4⟩
    · rw [h1] at hd; simp at hd
    · rw [h1] at hd
      simp only [TBRes.rule.injEq] at hd
      obtain ⟨rfl, rfl⟩ := hd
      exact ⟨h2, h3, h4, h2.post⟩
  · intro tb tb' hi hd
    rcases key tb hi with ⟨h1, h2⟩ | ⟨r, tb2, h1, _⟩
    · rw [h1] at hd; simp at hd
    · rw [h1] at hd; simp at hd
  · intro tb hi hd
    rcases key tb hi with ⟨h1, h2⟩ | ⟨r, tb2, h1, _⟩
    · rw [h1] at hd; simp at hd
    · rw [h1] at hd; simp at hd

/-! ## post* -/

/-- The configuration of a path with epsilon edges skipped. -/
def confE (path : APath Nat) : Config := (path.frontState, path.stack.filter fun l => decide (l ≠ epsilon))

/-- What holds during the reconstruction of a post* trace. -/
structure PostTB (p : Pda W) (a : Aut W) (fin : Nat) (tb : TB) : Prop where
  edges : ∀ t ∈ tb.path.trs, t ∈ keys a.edges
  front : tb.path.frontState < p.size
  fin : tb.path.fin = fin

theorem Trace.post_flags {a id g : Nat} (hg : g < epsilon - 1) :
    (Trace.post a id g).isNull = false ∧ (Trace.post a id g).isPre = false ∧
      (Trace.post a id g).isPostEps = false := by
  have h1 : g ≠ epsilon := by omega
  have h2 : g ≠ epsilon - 1 := by omega
  simp [Trace.post, Trace.isNull, Trace.isPre, Trace.isPostEps, h1, h2]

theorem Trace.postEps_flags {m : Nat} (hm : m < sizeMax) :
    (Trace.postEps m).isNull = false ∧ (Trace.postEps m).isPre = false ∧
      (Trace.postEps m).isPostEps = true := by
  have h1 : m ≠ sizeMax := by omega
  simp [Trace.postEps, Trace.isNull, Trace.isPre, Trace.isPostEps, h1, epsilon]

/-- The rule up to its weight. -/
def HasMove (p : Pda W) (r : URule W) : Prop := ∃ w, p.Has { r with weight := w }

theorem postTB_round {p : Pda W} (hp : p.WF) {a0 : Aut W} (ha : PostOK p a0) {s : PostSt W σ}
    (hi : PostInv p a0 s) (hlab : p.nLabels < epsilon) (hN : s.aut.n ≤ sizeMax)
    (hnull : ∀ e ∈ a0.edges, e.2.1 = Trace.null) (fin : Nat) (hfin : fin < a0.n) :
    RoundSpec p s.aut (PostTB p s.aut fin) (fun tb => ∀ t ∈ tb.path.trs, t ∈ keys a0.edges)
      (fun tb => confE tb.path) (fun tb => pathMeasure s.aut.edges tb.path.trs)
      (fun c r c' => Move (HasMove p) c' r c) true := by
  have hvalid := hi.valid hp ha
  have hsz := ha.size_le
  have hb := hi.built
  have hesrc : ∀ f m, (⟨f, epsilon, m⟩ : Tr) ∈ keys s.aut.edges → f < p.size := by
    intro f m hfm
    rcases (hvalid _ hfm).2.2.2 with h1 | h1
    · dsimp only at h1; omega
    · exact h1.2
  -- transitions from states of the input that are not control states are original
  have horig : ∀ t ∈ keys s.aut.edges, p.size ≤ t.src → t.src < a0.n → t ∈ keys a0.edges := by
    intro t ht hs hn
    rcases hb.just (PostJ.mono p s.qPrime) ht with h1 | ⟨tr, hj⟩
    · exact h1
    · exfalso
      cases hj with
      | pop h1 _ _ _ => have := hp.toLt _ _ (List.mem_of_getElem? h1); dsimp only at *; omega
      | swap h1 _ _ _ => have := hp.toLt _ _ (List.mem_of_getElem? h1); dsimp only at *; omega
      | noop h1 _ _ _ => have := hp.toLt _ _ (List.mem_of_getElem? h1); dsimp only at *; omega
      | push1 h1 _ _ _ => have := hp.toLt _ _ (List.mem_of_getElem? h1); dsimp only at *; omega
      | push2 h1 _ h3 _ _ =>
        have := (hi.qok.range _ _ _ (List.mem_of_getElem? h1) h3).1; dsimp only at *; omega
      | eps h1 _ => have := hesrc _ _ h1; dsimp only at *; omega
  have htail : ∀ (f : Nat) (es : List (Nat × Nat)), (∀ t ∈ trs f es, t ∈ keys s.aut.edges) →
      p.size ≤ APath.frontState ⟨f, es⟩ → APath.frontState ⟨f, es⟩ < a0.n →
      ∀ t ∈ trs f es, t ∈ keys a0.edges := by
    intro f es
    induction es with
    | nil => intro _ _ _ t ht; simp [trs] at ht
    | cons x es ih =>
      intro h1 h2 h2'
      simp only [trs, List.forall_mem_cons] at h1 ⊢
      have h3 := horig _ h1.1 h2 h2'
      exact ⟨h3, ih h1.2 (ha.noInto _ h3) (ha.valid _ h3).2.2⟩
  have key : ∀ tb, PostTB p s.aut fin tb →
      (tbRound p s.aut tb = .done tb ∧ ∀ t ∈ tb.path.trs, t ∈ keys a0.edges) ∨
      (∃ r tb', tbRound p s.aut tb = .rule r tb' ∧ PostTB p s.aut fin tb' ∧
        pathMeasure s.aut.edges tb'.path.trs < pathMeasure s.aut.edges tb.path.trs ∧
        Move (HasMove p) (confE tb'.path) r (confE tb.path) ∧ tb'.post = true) ∨
      (∃ tb', tbRound p s.aut tb = .again tb' ∧ PostTB p s.aut fin tb' ∧
        pathMeasure s.aut.edges tb'.path.trs < pathMeasure s.aut.edges tb.path.trs ∧
        confE tb'.path = confE tb.path ∧ tb'.post = tb.post) := by
    rintro ⟨⟨f, es⟩, post⟩ htb
    obtain ⟨hE, hfr, hfi⟩ := htb
    dsimp only at hE hfr hfi
    cases es with
    | nil => exact .inl ⟨rfl, by simp [APath.trs, trs]⟩
    | cons x es =>
      obtain ⟨g, q0⟩ := x
      simp only [APath.trs, trs, List.forall_mem_cons] at hE
      have hqsz : q0 < p.size := hfr
      have hround : tbRound p s.aut ⟨⟨f, (g, q0) :: es⟩, post⟩ =
          match s.aut.traceLabel ⟨q0, g, APath.frontState ⟨f, es⟩⟩ with
          | none => .stuck
          | some tr =>
            if tr.isNull then .done ⟨⟨f, (g, q0) :: es⟩, post⟩
            else if tr.isPre then tbPre p ⟨⟨f, (g, q0) :: es⟩, post⟩ ⟨f, es⟩ q0 g tr
            else if tr.isPostEps then
              .again ⟨((⟨f, es⟩ : APath Nat).emplace tr.state g).emplace q0 epsilon, post⟩
            else tbPost p s.aut ⟨f, es⟩ tr := by
        unfold tbRound
        rw [APath.frontEdge_cons]
        rfl
      rcases hb.annotation s.aut.acc (PostJ.mono p s.qPrime) hE.1 with ⟨h0, x, hx, hg⟩ | ⟨tr, hg, hj⟩
      · left
        have hl := traceLabel_of (a := s.aut) hg
        rw [hnull x hx] at hl
        rw [hround, hl]
        refine ⟨by simp [Trace.null, Trace.isNull], ?_⟩
        simp only [APath.trs, trs, List.forall_mem_cons]
        exact ⟨h0, htail f es hE.2 (ha.noInto _ h0) (ha.valid _ h0).2.2⟩
      · right
        have hl := traceLabel_of (a := s.aut) hg
        rw [hround, hl]
        dsimp only
        have hr := hE.2
        have hlt : ∀ {i id g' : Nat} {r : Rule W} {l : Labels}, (p.st i).rules[id]? = some (r, l) →
            g' ∈ p.expand l → g' < epsilon - 1 := by
          intro i id g' r l h1 h2
          have := ((hp.mem_expand (List.mem_of_getElem? h1) g').1 h2).2
          omega
        generalize htr : (⟨q0, g, APath.frontState ⟨f, es⟩⟩ : Tr) = t at hj
        cases hj with
        | @pop i g' q id r l h1 h2 h3 h4 =>
          left
          simp only [Tr.mk.injEq] at htr
          obtain ⟨rfl, rfl, hd⟩ := htr
          subst hd
          have hg' := hlt h1 h2
          have hne : g' ≠ epsilon := by omega
          obtain ⟨f1, f2, f3⟩ := Trace.post_flags (a := i) (id := id) hg'
          simp only [f1, f2, f3, Bool.false_eq_true, if_false]
          simp only [tbPost, Trace.post, h1, h3]
          refine ⟨_, _, rfl, ⟨?_, Pda.lt_size_of_rule h1, hfi⟩, ?_,
            ⟨(es.map Prod.fst).filter fun l => decide (l ≠ epsilon), ⟨r.weight, has_of_rule h1 h2⟩, ?_, ?_⟩, rfl⟩
          · simp only [APath.trs, APath.emplace, trs, List.forall_mem_cons]
            exact ⟨h4.1, hr⟩
          · simp only [APath.trs, APath.emplace, trs, pathMeasure, List.map_cons, List.sum_cons]
            have := pow_one_lt h4.2
            omega
          · simp [confE, APath.stack_eq, APath.frontState, APath.emplace, mkURule, hne]
          · simp [confE, APath.stack_eq, APath.frontState, mkURule, effect, h3]
        | @swap i g' q id r l h1 h2 h3 h4 =>
          left
          simp only [Tr.mk.injEq] at htr
          obtain ⟨rfl, rfl, hd⟩ := htr
          subst hd
          have hg' := hlt h1 h2
          have hne : g' ≠ epsilon := by omega
          have hop : r.opLabel < p.nLabels := hp.opLt _ _ (List.mem_of_getElem? h1) (.inr h3)
          have hne2 : r.opLabel ≠ epsilon := by omega
          obtain ⟨f1, f2, f3⟩ := Trace.post_flags (a := i) (id := id) hg'
          simp only [f1, f2, f3, Bool.false_eq_true, if_false]
          simp only [tbPost, Trace.post, h1, h3]
          refine ⟨_, _, rfl, ⟨?_, Pda.lt_size_of_rule h1, hfi⟩, ?_,
            ⟨(es.map Prod.fst).filter fun l => decide (l ≠ epsilon), ⟨r.weight, has_of_rule h1 h2⟩, ?_, ?_⟩, rfl⟩
          · simp only [APath.trs, APath.emplace, trs, List.forall_mem_cons]
            exact ⟨h4.1, hr⟩
          · simp only [APath.trs, APath.emplace, trs, pathMeasure, List.map_cons, List.sum_cons]
            have := pow_one_lt h4.2
            omega
          · simp [confE, APath.stack_eq, APath.frontState, APath.emplace, mkURule, hne]
          · simp [confE, APath.stack_eq, APath.frontState, mkURule, effect, h3, hne2]
        | @noop i g' q id r l h1 h2 h3 h4 =>
          left
          simp only [Tr.mk.injEq] at htr
          obtain ⟨rfl, rfl, hd⟩ := htr
          subst hd
          have hg' := hlt h1 h2
          have hne : g ≠ epsilon := by omega
          obtain ⟨f1, f2, f3⟩ := Trace.post_flags (a := i) (id := id) hg'
          simp only [f1, f2, f3, Bool.false_eq_true, if_false]
          simp only [tbPost, Trace.post, h1, h3]
          refine ⟨_, _, rfl, ⟨?_, Pda.lt_size_of_rule h1, hfi⟩, ?_,
            ⟨(es.map Prod.fst).filter fun l => decide (l ≠ epsilon), ⟨r.weight, has_of_rule h1 h2⟩, ?_, ?_⟩, rfl⟩
          · simp only [APath.trs, APath.emplace, trs, List.forall_mem_cons]
            exact ⟨h4.1, hr⟩
          · simp only [APath.trs, APath.emplace, trs, pathMeasure, List.map_cons, List.sum_cons]
            have := pow_one_lt h4.2
            omega
          · simp [confE, APath.stack_eq, APath.frontState, APath.emplace, mkURule, hne]
          · simp [confE, APath.stack_eq, APath.frontState, mkURule, effect, h3, hne]
        | @push1 i g' q id r l h1 h2 h3 h4 =>
          left
          simp only [Tr.mk.injEq] at htr
          obtain ⟨rfl, rfl, hd⟩ := htr
          have hm1 := List.mem_of_getElem? h1
          have hrange := hi.qok.range _ _ _ hm1 h3
          have hop : r.opLabel < p.nLabels := hp.opLt _ _ hm1 (.inl h3)
          have hne2 : r.opLabel ≠ epsilon := by omega
          obtain ⟨f1, f2, f3⟩ := Trace.post_flags (a := i) (id := id) (hlt h1 h2)
          simp only [f1, f2, f3, Bool.false_eq_true, if_false]
          -- the path goes on, since the added state is not accepting
          cases es with
          | nil =>
            have : f = qFind s.qPrime (r.to, r.opLabel) := hd
            omega
          | cons y es =>
            obtain ⟨g2, m⟩ := y
            have hd' : m = qFind s.qPrime (r.to, r.opLabel) := hd
            subst hd'
            simp only [trs, List.forall_mem_cons] at hr
            rcases hb.annotation s.aut.acc (PostJ.mono p s.qPrime) hr.1 with ⟨h0, _⟩ | ⟨tr2, hg2, hj2⟩
            · have := (ha.valid _ h0).1
              dsimp only at this
              omega
            · have hl2 := traceLabel_of (a := s.aut) hg2
              have hthis : ∃ i2 id2 r2 l2, (p.st i2).rules[id2]? = some (r2, l2) ∧ g2 ∈ p.expand l2 ∧
                  r2.op = .push ∧ r2.to = r.to ∧ r2.opLabel = r.opLabel ∧ tr2 = Trace.post i2 id2 g2 ∧
                  (⟨i2, g2, APath.frontState ⟨f, es⟩⟩ : Tr) ∈ keys s.aut.edges ∧
                  rank s.aut.edges ⟨i2, g2, APath.frontState ⟨f, es⟩⟩ <
                    rank s.aut.edges ⟨qFind s.qPrime (r.to, r.opLabel), g2, APath.frontState ⟨f, es⟩⟩ := by
                generalize htr2 : (⟨qFind s.qPrime (r.to, r.opLabel), g2, APath.frontState ⟨f, es⟩⟩ : Tr)
                  = t2 at hj2
                cases hj2 with
                | pop e1 _ _ _ =>
                  have := hp.toLt _ _ (List.mem_of_getElem? e1)
                  simp only [Tr.mk.injEq] at htr2; dsimp only at this; omega
                | swap e1 _ _ _ =>
                  have := hp.toLt _ _ (List.mem_of_getElem? e1)
                  simp only [Tr.mk.injEq] at htr2; dsimp only at this; omega
                | noop e1 _ _ _ =>
                  have := hp.toLt _ _ (List.mem_of_getElem? e1)
                  simp only [Tr.mk.injEq] at htr2; dsimp only at this; omega
                | push1 e1 _ _ _ =>
                  have := hp.toLt _ _ (List.mem_of_getElem? e1)
                  simp only [Tr.mk.injEq] at htr2; dsimp only at this; omega
                | @push2 i2 g2' q2 id2 r2 l2 e1 e2 e3 e4 e5 =>
                  simp only [Tr.mk.injEq] at htr2
                  obtain ⟨k1, rfl, rfl⟩ := htr2
                  obtain ⟨k2, k3⟩ := hi.qok.inj _ _ _ _ _ _ (List.mem_of_getElem? e1) e3 hm1 h3 k1.symm
                  refine ⟨i2, id2, r2, l2, e1, e2, e3, k2, k3, rfl, e4.1, ?_⟩
                  exact e4.2
                | eps e1 _ =>
                  have := hesrc _ _ e1.1
                  simp only [Tr.mk.injEq] at htr2; omega
              obtain ⟨i2, id2, r2, l2, e1, e2, e3, e4, e5, rfl, e6, e7⟩ := hthis
              have hne : g2 ≠ epsilon := by have := hlt e1 e2; omega
              simp only [tbPost, Trace.post, h1, h3]
              rw [APath.frontEdge_cons]
              simp only [hl2, Trace.post, APath.pop, List.tail_cons]
              refine ⟨_, _, rfl, ⟨?_, Pda.lt_size_of_rule e1, hfi⟩, ?_,
                ⟨(es.map Prod.fst).filter fun l => decide (l ≠ epsilon), ⟨r2.weight, ?_⟩, ?_, ?_⟩, rfl⟩
              · simp only [APath.trs, APath.emplace, trs, List.forall_mem_cons]
                exact ⟨e6, hr.2⟩
              · simp only [APath.trs, APath.emplace, trs, pathMeasure, List.map_cons, List.sum_cons]
                have := pow_one_lt e7
                have : 0 < 3 ^ rank s.aut.edges ⟨r.to, r.opLabel,
                  APath.frontState ⟨f, (g2, qFind s.qPrime (r.to, r.opLabel)) :: es⟩⟩ := Nat.pow_pos (by omega)
                omega
              · have := has_of_rule e1 e2
                rw [e3, e4, e5] at this
                simpa [mkURule, h3] using this
              · simp [confE, APath.stack_eq, APath.frontState, APath.emplace, mkURule, hne]
              · simp [confE, APath.stack_eq, APath.frontState, mkURule, effect, h3, hne, hne2]
        | @push2 i g' q id r l h1 h2 h3 h4 h5 =>
          have := (hi.qok.range _ _ _ (List.mem_of_getElem? h1) h3).1
          simp only [Tr.mk.injEq] at htr
          omega
        | @eps f' m g' q h1 h2 =>
          right
          simp only [Tr.mk.injEq] at htr
          obtain ⟨rfl, rfl, hd⟩ := htr
          subst hd
          have hm := (hvalid _ h1.1).2.2.1
          obtain ⟨f1, f2, f3⟩ := Trace.postEps_flags (m := m) (by dsimp only at hm; omega)
          simp only [f1, f2, f3, Bool.false_eq_true, if_false, if_true]
          simp only [Trace.postEps]
          refine ⟨_, rfl, ⟨?_, hqsz, hfi⟩, ?_, ?_, rfl⟩
          · simp only [APath.trs, APath.emplace, trs, List.forall_mem_cons]
            exact ⟨h1.1, h2.1, hr⟩
          · simp only [APath.trs, APath.emplace, trs, pathMeasure, List.map_cons, List.sum_cons,
              APath.frontState] at *
            have := pow_two_lt h1.2 h2.2
            omega
          · simp [confE, APath.stack_eq, APath.frontState, APath.emplace]
  constructor
  · intro tb tb' htb hd
    rcases key tb htb with ⟨h1, h2⟩ | ⟨r, tb2, h1, _⟩ | ⟨tb2, h1, _⟩
    · rw [h1] at hd
      simp only [TBRes.done.injEq] at hd
      exact ⟨hd.symm, h2⟩
    · rw [h1] at hd; simp at hd
    · rw [h1] at hd; simp at hd
  · intro tb r tb' htb hd
    rcases key tb htb with ⟨h1, h2⟩ | ⟨r2, tb2, h1, h2, h3, h4⟩ | ⟨tb2, h1, _⟩
    · rw [h1] at hd; simp at hd
    · rw [h1] at hd
      simp only [TBRes.rule.injEq] at hd
      obtain ⟨rfl, rfl⟩ := hd
      exact ⟨h2, h3, h4⟩
    · rw [h1] at hd; simp at hd
  · intro tb tb' htb hd
    rcases key tb htb with ⟨h1, h2⟩ | ⟨r, tb2, h1, _⟩ | ⟨tb2, h1, h2⟩
    · rw [h1] at hd; simp at hd
    · rw [h1] at hd; simp at hd
    · rw [h1] at hd
      simp only [TBRes.again.injEq] at hd
      subst hd
      exact h2
  · intro tb htb hd
    rcases key tb htb with ⟨h1, h2⟩ | ⟨r, tb2, h1, _⟩ | ⟨tb2, h1, _⟩ <;> rw [h1] at hd <;> simp at hd

end

end Verif
