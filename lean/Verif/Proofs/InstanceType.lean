import Verif.Proofs.InstanceJson

/-!
# The first element of an instance, whatever its text
-/

namespace Verif

theorem SaxRes.bind_ok {α β : Type} {x : SaxRes α} {f : α → SaxRes β} {y : β} (h : x.bind f = .ok y) : ∃ z, x = .ok z ∧ f z = .ok y := by
  cases x <;> simp_all [SaxRes.bind]

/-- One event of the type that does not end it. -/
theorem run_type_step {s : ISax} {t : TSax} {e : JEv} {es : List JEv} {x : ISax}
    (h : ISax.run (e :: es) { s with phase := .type, type := t } = .ok x) : ∃ t' stop, t.event e = .ok (t', stop) ∧
      (stop = false → ISax.run es { s with phase := .type, type := t' } = .ok x) := by
  obtain ⟨y, h1, h2⟩ := SaxRes.bind_ok h
  obtain ⟨⟨t', stop⟩, h3, h4⟩ := SaxRes.bind_ok (show (t.event e).bind _ = _ from h1)
  refine ⟨t', stop, h3, ?_⟩
  rintro rfl
  cases h4
  exact h2

/-- The items of arrays. -/
def ArrItem (e : JEv) : Prop := e = .startArr ∨ e = .endArr ∨ (∃ s, e = .str s) ∨ ∃ n, e = .uns n

theorem type_array {s : ISax} {rest : List JEv} {x : ISax} {m : List Nat} (es : List JEv) :
    ∀ (t : TSax) (st : List Nat), st ≠ [] → t.lastKey = .weightType →
    t.stack = st.map (fun i => (TCtx.weightArray, JBody.array i)) ++ [(.initial, .object m)] → t.array = true →
    Completes (List.replicate st.length JFrame.arr ++ [.key]) es →
    ISax.run (es ++ rest) { s with phase := .type, type := t } = .ok x →
    ∃ u es' t', es = u ++ es' ∧ Completes (List.replicate st.length JFrame.arr) u ∧ Completes [.key] es' ∧ (∀ e ∈ u, ArrItem e) ∧
      t'.stack = [(.initial, .object m)] ∧ t'.weight = lastString t.weight u ∧ t'.names = t.names ∧ t'.array = true ∧
      ISax.run (es' ++ rest) { s with phase := .type, type := t' } = .ok x := by
  induction es with
  | nil =>
    intro t st hst _ _ _ hc _
    cases st with
    | nil => exact absurd rfl hst
    | cons i st => cases hc
  | cons e es ih =>
    intro t st hst hk hs ha hc hr
    cases st with
    | nil => exact absurd rfl hst
    | cons i st =>
      simp only [List.map_cons, List.cons_append] at hs
      obtain ⟨t', stop, h1, h2⟩ := run_type_step (show ISax.run (e :: (es ++ rest)) _ = _ from hr)
      simp only [List.length_cons, List.replicate_succ, List.cons_append] at hc
      cases hc with
      | step hf hc =>
      -- the item and then the rest
      have go : ∀ j, JFrame.after (.arr :: (List.replicate st.length .arr ++ [.key])) e = some (.arr :: (List.replicate st.length .arr ++ [.key])) →
          JFrame.after (.arr :: List.replicate st.length .arr) e = some (.arr :: List.replicate st.length .arr) →
          stop = false → t'.lastKey = .weightType →
          t'.stack = (j :: st).map (fun i => (TCtx.weightArray, JBody.array i)) ++ [(.initial, .object m)] → t'.array = true → t'.names = t.names →
          ArrItem e → (∀ u, lastString t'.weight u = lastString t.weight (e :: u)) → ∃ u es' t', e :: es = u ++ es' ∧
          Completes (List.replicate (i :: st).length JFrame.arr) u ∧ Completes [.key] es' ∧ (∀ e ∈ u, ArrItem e) ∧
          t'.stack = [(.initial, .object m)] ∧ t'.weight = lastString t.weight u ∧ t'.names = t.names ∧ t'.array = true ∧
          ISax.run (es' ++ rest) { s with phase := .type, type := t' } = .ok x := by
        intro j g1 g1' g2 g3 g4 g5 g6 g7 g8
        rw [g1] at hf
        cases hf
        obtain ⟨u, es', t'', k1, k2, k3, k4, k5, k6, k7, k8, k9⟩ := ih t' (j :: st) (by simp) g3 g4 g5 hc (h2 g2)
        refine ⟨e :: u, es', t'', by rw [k1]; rfl, .step g1' k2, k3, ?_, k5, by rw [k6, g8], by rw [k7, g6], k8, k9⟩
        intro e' he'
        rcases List.mem_cons.1 he' with rfl | he'
        · exact g7
        · exact k4 e' he'
      cases e with
      | null => cases h1
      | float => cases h1
      | int z => cases h1
      | bool b => simp [TSax.event, hk] at h1
      | startObj => simp [TSax.event, hs] at h1
      | key k => simp [TSax.event, TSax.key, hs, SaxRes.bind] at h1
      | endObj =>
        cases hf
      | uns n =>
        obtain ⟨t1, g1, g2⟩ := SaxRes.bind_ok (show (t.uns n).bind _ = _ from h1)
        cases g2
        simp only [TSax.uns, hs, TSax.handleIndex] at g1
        split at g1
        · simp only [SaxRes.bind, TSax.elementDone, SaxRes.ok.injEq] at g1
          subst g1
          exact go (i + 1 + 1) rfl rfl rfl hk rfl ha rfl (.inr (.inr (.inr ⟨n, rfl⟩))) (fun u => rfl)
        · cases g1
      | str v =>
        obtain ⟨t1, g1, g2⟩ := SaxRes.bind_ok (show (t.str v).bind _ = _ from h1)
        cases g2
        simp only [TSax.str, hs, TSax.handleIndex] at g1
        split at g1
        · simp only [SaxRes.bind, TSax.elementDone, SaxRes.ok.injEq] at g1
          subst g1
          exact go (i + 1 + 1) rfl rfl rfl hk rfl ha rfl (.inr (.inr (.inl ⟨v, rfl⟩))) (fun u => rfl)
        · cases g1
      | startArr =>
        obtain ⟨t1, g1, g2⟩ := SaxRes.bind_ok (show t.startArr.bind _ = _ from h1)
        cases g2
        simp only [TSax.startArr, hs, List.isEmpty_cons, hk, if_true, Bool.false_eq_true, if_false, SaxRes.ok.injEq] at g1
        cases hf
        obtain ⟨u, es', t'', k1, k2, k3, k4, k5, k6, k7, k8, k9⟩ := ih t' (0 :: i :: st) (by simp) (by rw [← g1]) (by rw [← g1]; rfl) (by rw [← g1]) hc (h2 rfl)
        refine ⟨.startArr :: u, es', t'', by rw [k1]; rfl, .step rfl k2, k3, ?_, k5, by rw [k6, ← g1]; rfl, by rw [k7, ← g1], k8, k9⟩
        intro e' he'
        rcases List.mem_cons.1 he' with rfl | he'
        · exact .inl rfl
        · exact k4 e' he'
      | endArr =>
        obtain ⟨t1, g1, g2⟩ := SaxRes.bind_ok (show t.endArr.bind _ = _ from h1)
        cases g2
        simp only [TSax.endArr, hs, SaxRes.ok.injEq] at g1
        cases hf
        cases st with
        | nil =>
          simp only [List.map_nil, List.nil_append, TSax.elementDone] at g1
          refine ⟨[.endArr], es, t', rfl, .step rfl .done, hc, ?_, by rw [← g1], by rw [← g1]; rfl, by rw [← g1], by rw [← g1]; exact ha, h2 rfl⟩
          intro e he
          rw [List.mem_singleton.1 he]
          exact .inr (.inl rfl)
        | cons j st =>
          simp only [List.map_cons, List.cons_append, TSax.elementDone] at g1
          obtain ⟨u, es', t'', k1, k2, k3, k4, k5, k6, k7, k8, k9⟩ := ih t' ((j + 1) :: st) (by simp) (by rw [← g1]; exact hk) (by rw [← g1]; rfl) (by rw [← g1]; exact ha) hc (h2 rfl)
          refine ⟨.endArr :: u, es', t'', by rw [k1]; rfl, .step rfl k2, k3, ?_, k5, by rw [k6, ← g1]; rfl, by rw [k7, ← g1], k8, k9⟩
          intro e' he'
          rcases List.mem_cons.1 he' with rfl | he'
          · exact .inr (.inl rfl)
          · exact k4 e' he'

/-- A value of `weight-type`, with what it does. -/
def WeightValue (t t' : TSax) (v : List JEv) : Prop :=
  (∃ w, v = [.str w] ∧ t'.weight = w ∧ t'.array = t.array) ∨
  ∃ u, v = .startArr :: u ∧ Completes [.arr] u ∧ (∀ e ∈ u, ArrItem e) ∧ t'.weight = lastString t.weight u ∧ t'.array = true

/-- One entry of the type. -/
theorem type_entry {s : ISax} {rest : List JEv} {x : ISax} {m : List Nat} {t : TSax} {es : List JEv}
    (ht : t.stack = [(.initial, .object m)]) (hc : Completes [.key] es) (hr : ISax.run (es ++ rest) { s with phase := .type, type := t } = .ok x) :
    (m = [] ∧ es = [.endObj]) ∨
    (m.contains 1 = true ∧ ∃ b es' t', es = [.key "state-names", .bool b] ++ es' ∧ Completes [.key] es' ∧ t'.stack = [(.initial, .object (m.filter (· ≠ 1)))] ∧
      t'.names = b ∧ t'.weight = t.weight ∧ t'.array = t.array ∧ ISax.run (es' ++ rest) { s with phase := .type, type := t' } = .ok x) ∨
    (m.contains 2 = true ∧ ∃ v es' t', es = .key "weight-type" :: v ++ es' ∧ Completes [.key] es' ∧ t'.stack = [(.initial, .object (m.filter (· ≠ 2)))] ∧
      t'.names = t.names ∧ WeightValue t t' v ∧ ISax.run (es' ++ rest) { s with phase := .type, type := t' } = .ok x) := by
  cases hc with
  | @step _ f e es hf hc =>
  obtain ⟨t1, stop, h1, h2⟩ := run_type_step (show ISax.run (e :: (es ++ rest)) _ = _ from hr)
  cases e with
  | endObj =>
    left
    cases hf
    have he : es = [] := by
      cases hc with
      | done => rfl
      | @step _ _ e _ hf _ => cases e <;> cases hf
    subst he
    refine ⟨?_, rfl⟩
    cases m with
    | nil => rfl
    | cons a m => simp [TSax.event, TSax.endObj, ht] at h1
  | key k =>
    right
    cases hf
    obtain ⟨t2, g1, g2⟩ := SaxRes.bind_ok (show (t.key k).bind _ = _ from h1)
    cases g2
    have h2 := h2 rfl
    simp only [TSax.key, ht] at g1
    -- the value
    cases hc with
    | @step _ f e es hf hc =>
    obtain ⟨t3, stop, h3, h4⟩ := run_type_step (show ISax.run (e :: (es ++ rest)) _ = _ from h2)
    split at g1
    · next hk =>
      left
      subst hk
      simp only [TSax.handleKey, ht] at g1
      split at g1
      · next hm =>
        refine ⟨hm, ?_⟩
        simp only [SaxRes.ok.injEq] at g1
        subst g1
        cases e with
        | bool b =>
          cases hf
          simp only [TSax.event, if_true, SaxRes.ok.injEq, Prod.mk.injEq] at h3
          obtain ⟨h3, rfl⟩ := h3
          exact ⟨b, es, t3, rfl, hc, by rw [← h3]; rfl, by rw [← h3]; rfl, by rw [← h3]; rfl, by rw [← h3]; rfl, h4 rfl⟩
        | endObj => cases hf
        | endArr => cases hf
        | key k => cases hf
        | null => cases h3
        | float => cases h3
        | int z => cases h3
        | uns n => simp [TSax.event, TSax.uns, SaxRes.bind] at h3
        | str v => simp [TSax.event, TSax.str, SaxRes.bind] at h3
        | startObj => simp [TSax.event] at h3
        | startArr => simp [TSax.event, TSax.startArr, SaxRes.bind] at h3
      · cases g1
    · split at g1
      · next hk =>
        right
        subst hk
        simp only [TSax.handleKey, ht] at g1
        split at g1
        · next hm =>
          refine ⟨hm, ?_⟩
          simp only [SaxRes.ok.injEq] at g1
          subst g1
          cases e with
          | bool b => simp [TSax.event] at h3
          | endObj => cases hf
          | endArr => cases hf
          | key k => cases hf
          | null => cases h3
          | float => cases h3
          | int z => cases h3
          | uns n => simp [TSax.event, TSax.uns, SaxRes.bind] at h3
          | str v =>
            cases hf
            simp only [TSax.event, TSax.str, if_true, SaxRes.bind, SaxRes.ok.injEq, Prod.mk.injEq] at h3
            obtain ⟨h3, rfl⟩ := h3
            exact ⟨[.str v], es, t3, rfl, hc, by rw [← h3]; rfl, by rw [← h3]; rfl, .inl ⟨v, rfl, by rw [← h3]; rfl, by rw [← h3]; rfl⟩, h4 rfl⟩
          | startObj => simp [TSax.event] at h3
          | startArr =>
            cases hf
            simp only [TSax.event, TSax.startArr, List.isEmpty_cons, Bool.false_eq_true, if_false, if_true, SaxRes.bind, SaxRes.ok.injEq, Prod.mk.injEq] at h3
            obtain ⟨h3, rfl⟩ := h3
            obtain ⟨u, es', t', k1, k2, k3, k4, k5, k6, k7, k8, k9⟩ := type_array es t3 [0] (by simp) (by rw [← h3]) (by rw [← h3]; rfl) (by rw [← h3]) hc (h4 rfl)
            exact ⟨.startArr :: u, es', t', by rw [k1]; rfl, k3, k5, by rw [k7, ← h3], .inr ⟨u, rfl, k2, k4, by rw [k6, ← h3], k8⟩, k9⟩
        · cases g1
      · cases g1
  | _ => cases hf

/-- The whole element. -/
theorem type_object {s : ISax} {ty : ICtx} {r : List (ICtx × JBody)} (hs : s.stack = (ty, .array 1) :: r) {rest : List JEv} {x : ISax} {es : List JEv}
    (hc : Completes [.key] es) (hr : ISax.run (es ++ rest) { s with phase := .type, type := { stack := [(.initial, .object [1, 2])] } } = .ok x) :
    ∃ names k t, TypeObject (.startObj :: es) names k ∧
      ISax.run rest { s with phase := .pda k names (Sax.inside k.io), type := t, stack := (ty, .array 2) :: r } = .ok x := by
  have e1 : (List.filter (fun x => decide (x ≠ 1)) [1, 2] : List Nat) = [2] := by decide
  have e2 : (List.filter (fun x => decide (x ≠ 2)) [1, 2] : List Nat) = [1] := by decide
  have e3 : (List.filter (fun x => decide (x ≠ 1)) [1] : List Nat) = [] := by decide
  have e4 : (List.filter (fun x => decide (x ≠ 2)) [2] : List Nat) = [] := by decide
  have value : ∀ (t t' : TSax) (v : List JEv), t.weight = "" → t.array = false → WeightValue t t' v → TypeValue v t'.kind := by
    intro t t' v hw ha h
    rcases h with ⟨w, rfl, h1, h2⟩ | ⟨u, rfl, h1, h2, h3, h4⟩
    · left
      refine ⟨w, rfl, ?_⟩
      unfold TSax.kind scalarKind
      rw [h1, h2, ha]; rfl
    · right
      refine ⟨u, rfl, h1, ?_, h2⟩
      unfold TSax.kind vectorKind
      rw [h3, h4, hw]; rfl
  rcases type_entry (t := { stack := [(.initial, .object [1, 2])] }) rfl hc hr with ⟨hm, -⟩ | ⟨-, b, es', t1, rfl, hc1, hs1, hn1, hw1, ha1, hr1⟩ | ⟨-, v, es', t1, rfl, hc1, hs1, hn1, hv1, hr1⟩
  · cases hm
  · rw [e1] at hs1
    rcases type_entry hs1 hc1 hr1 with ⟨hm, -⟩ | ⟨hm, -⟩ | ⟨-, v, es2, t2, rfl, hc2, hs2, hn2, hv2, hr2⟩
    · cases hm
    · cases hm
    · rw [e4] at hs2
      rcases type_entry hs2 hc2 hr2 with ⟨-, rfl⟩ | ⟨hm, -⟩ | ⟨hm, -⟩
      · rw [List.singleton_append, run_tend s hs t2 [] hs2, if_pos rfl] at hr2
        refine ⟨t2.names, t2.kind, _, ⟨v, value t1 t2 v hw1 ha1 hv2, .inl ?_⟩, hr2⟩
        rw [hn2, hn1]; simp
      · cases hm
      · cases hm
  · rw [e2] at hs1
    rcases type_entry hs1 hc1 hr1 with ⟨hm, -⟩ | ⟨-, b, es2, t2, rfl, hc2, hs2, hn2, hw2, ha2, hr2⟩ | ⟨hm, -⟩
    · cases hm
    · rw [e3] at hs2
      rcases type_entry hs2 hc2 hr2 with ⟨-, rfl⟩ | ⟨hm, -⟩ | ⟨hm, -⟩
      · rw [List.singleton_append, run_tend s hs t2 [] hs2, if_pos rfl] at hr2
        have hk : t2.kind = t1.kind := by unfold TSax.kind; rw [hw2, ha2]
        refine ⟨t2.names, t2.kind, _, ⟨v, ?_, .inr ?_⟩, hr2⟩
        · rw [hk]
          exact value _ t1 v rfl rfl hv1
        · rw [hn2]; simp
      · cases hm
      · cases hm
    · cases hm

/-- An instance whose four elements are objects, whatever their texts. -/
theorem parse_inst_any {ty p a b : List JEv} (ht : IsObject ty) (hp : IsObject p) (ha : IsObject a) (hb : IsObject b) {i : Inst}
    (h : parseInstDoc (instEvents ty p a b) = .ok i) : TypeObject ty i.names i.kind ∧
      (SaxRes.of (parsePda i.kind.io i.names ([.startObj, .key "pda"] ++ p ++ [.endObj]))).bind (fun q =>
        (parseJAutR false i.names q ([.startObj, .key "P-automaton"] ++ a ++ [.endObj])).bind fun y =>
        (parseJAutR false i.names y.1 ([.startObj, .key "P-automaton"] ++ b ++ [.endObj])).bind fun z =>
        .ok (⟨i.kind, i.names, z.1, y.2, z.2⟩ : Inst)) = .ok i := by
  obtain ⟨es, rfl, hc⟩ := ht
  let s1 : ISax := { stack := [(.instance, .array 1), (.initial, .object [])], lastKey := true }
  obtain ⟨x, h1, h2⟩ := SaxRes.bind_ok h
  have h0 : ISax.run (instEvents (.startObj :: es) p a b) {} = ISax.run (es ++ (p ++ (a ++ (b ++ [.endArr, .endObj]))))
      { s1 with phase := .type, type := { stack := [(.initial, .object [1, 2])] } } := by
    have : instEvents (.startObj :: es) p a b = [.startObj, .key "instance", .startArr, .startObj] ++ (es ++ (p ++ (a ++ (b ++ [.endArr, .endObj])))) := by
      simp [instEvents]
    rw [this]
    rfl
  rw [h0] at h1
  obtain ⟨names, k, t, h3, h4⟩ := type_object rfl hc h1
  have h5 := inst_tail k names t hp ha hb
  rw [show ISax.run (p ++ (a ++ (b ++ [.endArr, .endObj]))) { phase := .pda k names (Sax.inside k.io), type := t, stack := [(.instance, .array 2), (.initial, .object [])], lastKey := true } = .ok x from h4] at h5
  rw [show SaxRes.bind (.ok x) ISax.result = .ok i from h2] at h5
  have h5 := h5.symm
  have hki : k = i.kind ∧ names = i.names := by
    obtain ⟨q, -, g⟩ := SaxRes.bind_ok h5
    obtain ⟨y, -, g⟩ := SaxRes.bind_ok g
    obtain ⟨z, -, g⟩ := SaxRes.bind_ok g
    cases g
    exact ⟨rfl, rfl⟩
  obtain ⟨rfl, rfl⟩ := hki
  exact ⟨h3, h5⟩

end Verif
