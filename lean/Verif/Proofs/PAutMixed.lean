import Verif.Proofs.PAutJson

/-! # Lemmas for JSON documents that use both names and numbers for new states

Only what is needed to see that no state is out of range, and which labels are added. -/

namespace Verif

variable {W : Type} {names : Bool}

/-- Every state in the maps is in range, there are at most `N` states, and the labels of the edges `E` have been added. -/
structure PMake.Safe (names : Bool) (p : NPda String String W) (N : Nat) (E : List (JRef × String × JRef)) (b : PMake W) : Prop where
  grows : LabelsGrow p.toTPda b.pda.toTPda (edgeLabels E)
  sameNames : b.pda.names = p.names
  namesLen : names = true → p.names.length = p.states.length
  named : b.stateNames.length + p.states.length ≤ b.aut.n
  extra : ∀ x ∈ b.extra, x.2 < b.aut.n
  le : b.aut.n ≤ N

variable {p : NPda String String W} {N : Nat} {E : List (JRef × String × JRef)} {b : PMake W}

theorem idxOf?_lt {l : List String} {s : String} {i : Nat} (h : l.idxOf? s = some i) : i < l.length :=
  (List.getElem?_eq_some_iff.1 (idxOf?_some h)).1

theorem PMake.Safe.state (hb : b.Safe names p N E) {r : JRef} (hu : r.Usable names) :
    ∃ b' i, b.state names r = some (b', i) ∧ b'.Safe names p (N + 1) E ∧ i < b'.aut.n := by
  obtain ⟨h0, h2, h3, h4, h5, h6⟩ := hb
  have h1 : b.pda.states = p.states := h0.states
  have hw : b.Safe names p (N + 1) E := ⟨h0, h2, h3, h4, h5, by omega⟩
  cases r with
  | num n =>
    simp only [PMake.state, PMake.numberState]
    by_cases hc : (!names && decide (n < b.pda.states.length)) = true
    · rw [if_pos hc]
      refine ⟨_, _, rfl, hw, ?_⟩
      simp only [Bool.and_eq_true, decide_eq_true_eq, h1] at hc
      omega
    · rw [if_neg hc]
      cases hl : b.extra.lookup n with
      | some i => exact ⟨_, _, rfl, hw, h5 _ (lookup_mem hl)⟩
      | none =>
        refine ⟨_, _, rfl, ⟨h0, h2, h3, ?_, ?_, ?_⟩, ?_⟩
        · show _ ≤ (b.aut.addState false).n
          rw [n_addState]
          exact Nat.le_succ_of_le h4
        · intro x hx
          show _ < (b.aut.addState false).n
          rw [n_addState]
          rcases List.mem_cons.1 hx with rfl | hx
          · exact Nat.lt_succ_self _
          · exact Nat.lt_succ_of_lt (h5 x hx)
        · show (b.aut.addState false).n ≤ _
          rw [n_addState]
          omega
        · show _ < (b.aut.addState false).n
          rw [n_addState]
          exact Nat.lt_succ_self _
  | name s =>
    have hn : names = true := hu
    simp only [PMake.state, PMake.stringState, if_pos hn]
    cases hi : b.pda.names.idxOf? s with
    | some i =>
      refine ⟨_, _, rfl, hw, ?_⟩
      have := idxOf?_lt hi
      rw [h2, h3 hn] at this
      show i < b.aut.n
      omega
    | none =>
      cases hj : b.stateNames.idxOf? s with
      | some j =>
        refine ⟨_, _, rfl, hw, ?_⟩
        have := idxOf?_lt hj
        show j + b.pda.states.length < b.aut.n
        rw [h1]
        omega
      | none =>
        refine ⟨_, _, rfl, ⟨h0, h2, h3, ?_, ?_, ?_⟩, ?_⟩
        · show (b.stateNames ++ [s]).length + _ ≤ (b.aut.addState false).n
          rw [n_addState, List.length_append, List.length_singleton]
          omega
        · intro x hx
          show _ < (b.aut.addState false).n
          rw [n_addState]
          exact Nat.lt_succ_of_lt (h5 x hx)
        · show (b.aut.addState false).n ≤ _
          rw [n_addState]
          omega
        · show _ < (b.aut.addState false).n
          rw [n_addState]
          exact Nat.lt_succ_self _

theorem isInitial_safe (hb : b.Safe names p N E) (r : JRef) : b.isInitial names r = true ↔ r.IsState names p := by
  have hs : b.pda.states = p.states := hb.grows.states
  cases r <;> simp [PMake.isInitial, JRef.IsState, hs, hb.sameNames]

theorem PMake.Safe.mono (hb : b.Safe names p N E) {M : Nat} (h : N ≤ M) : b.Safe names p M E :=
  ⟨hb.grows, hb.sameNames, hb.namesLen, hb.named, hb.extra, Nat.le_trans hb.le h⟩

theorem PMake.Safe.congr {b' : PMake W} (hb : b.Safe names p N E) (h1 : b'.pda = b.pda)
    (h3 : b'.extra = b.extra) (h4 : b'.stateNames = b.stateNames) (h5 : b'.aut.n = b.aut.n) : b'.Safe names p N E :=
  ⟨by rw [h1]; exact hb.grows, by rw [h1]; exact hb.sameNames, hb.namesLen, by rw [h4, h5]; exact hb.named, by rw [h3, h5]; exact hb.extra,
    by rw [h5]; exact hb.le⟩

variable [Zero W]

theorem n_addEdge (a : Aut W) (i j l : Nat) : (a.addEdge i j l).n = a.n := by
  unfold Aut.addEdge Aut.emplaceEdge
  split <;> rfl

theorem PMake.Safe.edge (hb : b.Safe names p N E) (r r' : JRef) (i j : Nat) (l : String) :
    (b.edge i j l).Safe names p N (E ++ [(r, l, r')]) := by
  have hE := edgeLabels_append E (r, l, r')
  unfold PMake.edge
  by_cases hc : l = ""
  · rw [if_pos hc]
    rw [if_pos (show (r, l, r').2.1 = "" from hc), List.append_nil] at hE
    exact ⟨hE ▸ hb.grows, hb.sameNames, hb.namesLen, by rw [n_addEdge]; exact hb.named, by rw [n_addEdge]; exact hb.extra,
      by rw [n_addEdge]; exact hb.le⟩
  · rw [if_neg hc]
    rw [if_neg (show ¬ (r, l, r').2.1 = "" from hc)] at hE
    exact ⟨hE ▸ hb.grows.trans (insertLabel_grows b.pda.toTPda l).1, hb.sameNames, hb.namesLen, by rw [n_addEdge]; exact hb.named,
      by rw [n_addEdge]; exact hb.extra, by rw [n_addEdge]; exact hb.le⟩

theorem safe_accepting (l : List JRef) {s : PSax W} {N : Nat} {E : List (JRef × String × JRef)} {j : Nat} {rest : List (PCtx × JBody)}
    (hs : s.stack = (.acceptingArray, .array j) :: rest) (hb : s.make.Safe names p N E) :
    Res (∀ r ∈ l, r.Usable names)
      (fun s' => (∃ j', s'.stack = (.acceptingArray, .array j') :: rest) ∧ s'.make.Safe names p (N + l.length) E)
      (PSax.run names (l.map JRef.event) s) := by
  induction l generalizing s N j with
  | nil => exact .inl ⟨by simp, s, rfl, ⟨j, hs⟩, hb⟩
  | cons r l ih =>
    simp only [List.map_cons, PSax.run, event_ref]
    have h1 : Res (r.Usable names) (fun s' => s'.stack = (.acceptingArray, .array (j + 1)) :: rest ∧ s'.make.Safe names p (N + 1) E)
        (s.value names r) := by
      by_cases hu : r.Usable names
      · obtain ⟨b', i, h1, h2, _⟩ := hb.state hu
        refine .inl ⟨hu, ?_⟩
        simp only [PSax.value, hs, h1, PSax.elementDone]
        exact ⟨_, rfl, rfl, h2.congr rfl rfl rfl (n_setAccepting _ _)⟩
      · refine .inr ⟨hu, ?_⟩
        simp only [PSax.value, hs, state_none hu]
    refine (h1.bind (f := PSax.run names (l.map JRef.event)) fun s' hs' => ih hs'.1 hs'.2).congr (by simp) fun s' hs' => ⟨hs'.1, ?_⟩
    exact hs'.2.mono (by simp only [List.length_cons]; omega)

theorem safe_edge (e : JRef × String × JRef) {s : PSax W} {N : Nat} {E : List (JRef × String × JRef)} {j : Nat} {rest : List (PCtx × JBody)}
    (hs : s.stack = (.edgesArray, .array j) :: rest) (hb : s.make.Safe names p N E) (hsm : N + 2 ≤ sizeMax) :
    Res (e.1.Usable names ∧ e.2.2.Usable names)
      (fun s' => s'.stack = (.edgesArray, .array (j + 1)) :: rest ∧ s'.make.Safe names p (N + 2) (E ++ [e]))
      (PSax.run names (edgeEvents e) s) := by
  obtain ⟨r, l, r'⟩ := e
  have h0 : s.event names .startArr = .ok { s.push .edge (.array 0) with src := sizeMax, dst := sizeMax, label := "" } := by
    show s.startArr = _
    unfold PSax.startArr
    rw [hs]
  simp only [edgeEvents, PSax.run, h0, SaxRes.bind, event_ref]
  by_cases hu : r.Usable names
  · obtain ⟨b1, i, g1, g2, g5⟩ := hb.state hu
    simp only [PSax.value, PSax.push, g1, PSax.elementDone, PSax.event]
    by_cases hu' : r'.Usable names
    · obtain ⟨b2, i', g3, g4, g6⟩ := g2.state hu'
      have hi : i < sizeMax ∧ i' < sizeMax := by
        have q1 := g2.le
        have q2 := g4.le
        omega
      refine .inl ⟨⟨hu, hu'⟩, ?_⟩
      simp only [g3, PSax.endArr, if_neg (show ¬ (i = sizeMax ∨ i' = sizeMax) by omega), PSax.elementDone, hs]
      exact ⟨_, rfl, rfl, g4.edge r r' _ _ _⟩
    · refine .inr ⟨fun h => hu' h.2, ?_⟩
      simp only [state_none hu']
  · refine .inr ⟨fun h => hu h.1, ?_⟩
    simp only [PSax.value, PSax.push, state_none hu]

theorem safe_edges (l : List (JRef × String × JRef)) {s : PSax W} {N : Nat} {E : List (JRef × String × JRef)} {j : Nat}
    {rest : List (PCtx × JBody)} (hs : s.stack = (.edgesArray, .array j) :: rest) (hb : s.make.Safe names p N E)
    (hsm : N + 2 * l.length ≤ sizeMax) :
    Res (∀ e ∈ l, e.1.Usable names ∧ e.2.2.Usable names)
      (fun s' => (∃ j', s'.stack = (.edgesArray, .array j') :: rest) ∧ s'.make.Safe names p (N + 2 * l.length) (E ++ l))
      (PSax.run names (l.flatMap edgeEvents) s) := by
  induction l generalizing s N E j with
  | nil => exact .inl ⟨by simp, s, rfl, ⟨j, hs⟩, by simpa using hb⟩
  | cons e l ih =>
    rw [List.flatMap_cons, run_append]
    simp only [List.length_cons] at hsm
    refine ((safe_edge e hs hb (by omega)).bind (f := PSax.run names (l.flatMap edgeEvents))
      fun s' hs' => ih hs'.1 hs'.2 (by omega)).congr (by simp) fun s' hs' => ⟨hs'.1, ?_⟩
    have := hs'.2.mono (M := N + 2 * (e :: l).length) (by simp only [List.length_cons]; omega)
    simpa using this

theorem safe_initial (l : List JRef) {s : PSax W} {j : Nat} {rest : List (PCtx × JBody)}
    (hs : s.stack = (.initialArray, .array j) :: rest) (hb : s.make.Safe names p N E) :
    Res (∀ r ∈ l, s.make.isInitial names r = true)
      (fun s' => (∃ j', s'.stack = (.initialArray, .array j') :: rest) ∧ s'.make = s.make)
      (PSax.run names (l.map JRef.event) s) := by
  induction l generalizing s j with
  | nil => exact .inl ⟨by simp, s, rfl, ⟨j, hs⟩, rfl⟩
  | cons r l ih =>
    simp only [List.map_cons, PSax.run, event_ref]
    have h1 : Res (s.make.isInitial names r = true)
        (fun s' => s'.stack = (.initialArray, .array (j + 1)) :: rest ∧ s'.make = s.make) (s.value names r) := by
      by_cases hi : s.make.isInitial names r = true
      · refine .inl ⟨hi, s.elementDone, ?_, ?_⟩
        · simp only [PSax.value, hs, if_pos hi]
        · simp only [PSax.elementDone, hs]
          exact ⟨trivial, trivial⟩
      · refine .inr ⟨hi, ?_⟩
        simp only [PSax.value, hs, if_neg hi]
    refine (h1.bind (f := PSax.run names (l.map JRef.event)) (g' := ∀ r ∈ l, s.make.isInitial names r = true)
      (Q' := fun s' => (∃ j', s'.stack = (.initialArray, .array j') :: rest) ∧ s'.make = s.make)
      fun s' hs' => ?_).congr ?_ fun s' hs' => hs'
    · have := ih hs'.1 (hs'.2 ▸ hb)
      rw [hs'.2] at this
      exact this
    · simp

theorem safe_field (f : JField) {s : PSax W} {m : List Nat} (hs : s.stack = baseStack m) (hm : s.req = false → 3 ∉ m)
    (hb : s.make.Safe names p N E)
    (hsm : N + 2 * f.edgs.length ≤ sizeMax) :
    Res ((f.flag ∈ m ∨ (s.req = false ∧ f.flag = 3)) ∧ f.Good names p)
      (fun s' => s'.stack = baseStack (m.filter (· ≠ f.flag)) ∧ s'.make.Safe names p (N + f.accs.length + 2 * f.edgs.length) (E ++ f.edgs))
      (PSax.run names f.events s) := by
  have hkey : ∀ (k : PKey) (n : Nat), Res (n ∈ m)
      (fun s' => s'.stack = baseStack (m.filter (· ≠ n)) ∧ s'.make = s.make ∧ s'.lastKey = k) (s.handleKey n k) := by
    intro k n
    unfold PSax.handleKey
    simp only [hs, baseStack]
    by_cases hc : n ∈ m
    · rw [if_pos (by simpa using hc)]
      exact .inl ⟨hc, _, rfl, rfl, rfl, rfl⟩
    · rw [if_neg (by simpa using hc)]
      exact .inr ⟨hc, rfl⟩
  have hend : ∀ (ty : PCtx) (m' : List Nat) (s' : PSax W), ty ≠ .edge → (∃ j, s'.stack = (ty, .array j) :: baseStack m') →
      ∃ s2, PSax.run names [.endArr] s' = .ok s2 ∧ s2.stack = baseStack m' ∧ s2.make = s'.make := by
    rintro ty m' s' hty ⟨j, hj⟩
    refine ⟨({ s' with stack := baseStack m' } : PSax W).elementDone, ?_, rfl, rfl⟩
    simp only [PSax.run, PSax.event, PSax.endArr, hj]
    cases ty <;> simp_all [SaxRes.bind]
  cases f with
  | accepting l =>
    have h : Res (1 ∈ m ∧ ∀ r ∈ l, r.Usable names)
        (fun s' => s'.stack = baseStack (m.filter (· ≠ 1)) ∧ s'.make.Safe names p (N + l.length) E)
        (PSax.run names (JField.accepting l).events s) := by
      have hk : s.event names (.key "accepting") = s.handleKey 1 .accepting := by
        show s.key "accepting" = _
        unfold PSax.key
        rw [hs, baseStack]
        rfl
      show Res _ _ (PSax.run names (.key "accepting" :: .startArr :: (l.map JRef.event ++ [.endArr])) s)
      simp only [PSax.run, hk]
      refine (hkey .accepting 1).bind fun s' hs' => ?_
      obtain ⟨e1, e2, e3⟩ := hs'
      have hsa : s'.event names .startArr = .ok (s'.push .acceptingArray (.array 0)) := by
        show s'.startArr = _
        unfold PSax.startArr
        rw [e1, baseStack, e3]
      rw [hsa]
      simp only [SaxRes.bind]
      rw [run_append]
      have h := safe_accepting (names := names) (p := p) (N := N) (E := E) l (s := s'.push .acceptingArray (.array 0)) (j := 0)
        (rest := baseStack (m.filter (· ≠ 1))) (by simp only [PSax.push, e1]) (show s'.make.Safe names p N E from e2 ▸ hb)
      refine (h.bind (g' := True) (Q' := fun s' => s'.stack = baseStack (m.filter (· ≠ 1)) ∧ s'.make.Safe names p (N + l.length) E)
        fun s2 hs2 => ?_).congr (by simp) fun _ h => h
      obtain ⟨s3, q1, q2, q3⟩ := hend _ _ s2 (by decide) hs2.1
      exact .inl ⟨trivial, s3, q1, q2, q3 ▸ hs2.2⟩
    refine h.congr ?_ fun s' hs' => ?_
    · simp [JField.flag, JField.Good, JField.inis, JField.accs, JField.edgs]
    · simp only [JField.accs, JField.edgs, List.append_nil, List.length_nil, Nat.mul_zero, Nat.add_zero]
      exact hs'
  | initial l =>
    have h : Res ((3 ∈ m ∨ s.req = false) ∧ ∀ r ∈ l, r.IsState names p)
        (fun s' => s'.stack = baseStack (m.filter (· ≠ 3)) ∧ s'.make.Safe names p N E)
        (PSax.run names (JField.initial l).events s) := by
      have hk : s.event names (.key "initial") = if s.req then s.handleKey 3 .initial else .ok { s with lastKey := .initial } := by
        show s.key "initial" = _
        unfold PSax.key
        rw [hs, baseStack]
        rfl
      have hkey' : Res (3 ∈ m ∨ s.req = false)
          (fun s' => s'.stack = baseStack (m.filter (· ≠ 3)) ∧ s'.make = s.make ∧ s'.lastKey = .initial)
          (if s.req then s.handleKey 3 .initial else .ok { s with lastKey := .initial }) := by
        cases hq : s.req with
        | true => exact (hkey .initial 3).congr (by simp) fun _ h => h
        | false =>
          refine .inl ⟨.inr rfl, _, rfl, ?_, rfl, rfl⟩
          have hf : m.filter (· ≠ 3) = m := List.filter_eq_self.2 fun x hx => by
            have := hm hq
            simp only [ne_eq, decide_not, Bool.not_eq_eq_eq_not, Bool.not_true, decide_eq_false_iff_not]
            rintro rfl
            exact this hx
          rw [hf]
          exact hs
      show Res _ _ (PSax.run names (.key "initial" :: .startArr :: (l.map JRef.event ++ [.endArr])) s)
      simp only [PSax.run, hk]
      refine hkey'.bind fun s' hs' => ?_
      obtain ⟨e1, e2, e3⟩ := hs'
      have hsa : s'.event names .startArr = .ok (s'.push .initialArray (.array 0)) := by
        show s'.startArr = _
        unfold PSax.startArr
        rw [e1, baseStack, e3]
      rw [hsa]
      simp only [SaxRes.bind]
      rw [run_append]
      have hb' : s'.make.Safe names p N E := e2 ▸ hb
      have h := safe_initial (names := names) (p := p) (N := N) (E := E) l (s := s'.push .initialArray (.array 0)) (j := 0)
        (rest := baseStack (m.filter (· ≠ 3))) (by simp only [PSax.push, e1]) hb'
      refine (h.bind (g' := True) (Q' := fun s' => s'.stack = baseStack (m.filter (· ≠ 3)) ∧ s'.make.Safe names p N E)
        fun s2 hs2 => ?_).congr ?_ fun _ h => h
      · obtain ⟨s3, q1, q2, q3⟩ := hend _ _ s2 (by decide) hs2.1
        refine .inl ⟨trivial, s3, q1, q2, ?_⟩
        rw [q3, hs2.2]
        exact hb'
      · rw [and_true]
        exact forall_congr' fun r => imp_congr_right fun _ => isInitial_safe hb' r
    refine h.congr ?_ fun s' hs' => ?_
    · simp [JField.flag, JField.Good, JField.inis, JField.accs, JField.edgs]
    · simp only [JField.accs, JField.edgs, List.append_nil, List.length_nil, Nat.mul_zero, Nat.add_zero]
      exact hs'
  | edges l =>
    have h : Res (2 ∈ m ∧ ∀ e ∈ l, e.1.Usable names ∧ e.2.2.Usable names)
        (fun s' => s'.stack = baseStack (m.filter (· ≠ 2)) ∧ s'.make.Safe names p (N + 2 * l.length) (E ++ l))
        (PSax.run names (JField.edges l).events s) := by
      have hk : s.event names (.key "edges") = s.handleKey 2 .edges := by
        show s.key "edges" = _
        unfold PSax.key
        rw [hs, baseStack]
        rfl
      show Res _ _ (PSax.run names (.key "edges" :: .startArr :: (l.flatMap edgeEvents ++ [.endArr])) s)
      simp only [PSax.run, hk]
      refine (hkey .edges 2).bind fun s' hs' => ?_
      obtain ⟨e1, e2, e3⟩ := hs'
      have hsa : s'.event names .startArr = .ok (s'.push .edgesArray (.array 0)) := by
        show s'.startArr = _
        unfold PSax.startArr
        rw [e1, baseStack, e3]
      rw [hsa]
      simp only [SaxRes.bind]
      rw [run_append]
      have h := safe_edges (names := names) (p := p) (N := N) (E := E) l (s := s'.push .edgesArray (.array 0)) (j := 0)
        (rest := baseStack (m.filter (· ≠ 2))) (by simp only [PSax.push, e1]) (show s'.make.Safe names p N E from e2 ▸ hb) hsm
      refine (h.bind (g' := True) (Q' := fun s' => s'.stack = baseStack (m.filter (· ≠ 2)) ∧ s'.make.Safe names p (N + 2 * l.length) (E ++ l))
        fun s2 hs2 => ?_).congr (by simp) fun _ h => h
      obtain ⟨s3, q1, q2, q3⟩ := hend _ _ s2 (by decide) hs2.1
      exact .inl ⟨trivial, s3, q1, q2, q3 ▸ hs2.2⟩
    refine h.congr ?_ fun s' hs' => ?_
    · simp [JField.flag, JField.Good, JField.inis, JField.accs, JField.edgs]
    · simp only [JField.accs, JField.edgs, List.append_nil, List.length_nil, Nat.mul_zero, Nat.add_zero]
      exact hs'

theorem safe_fields (fs : List JField) {s : PSax W} {N : Nat} {E : List (JRef × String × JRef)} {m : List Nat}
    (hs : s.stack = baseStack m) (hm : s.req = false → 3 ∉ m) (hb : s.make.Safe names p N E)
    (hsm : N + (fs.flatMap JField.accs).length + 2 * (fs.flatMap JField.edgs).length ≤ sizeMax) :
    Res (Keys s.req m fs ∧ ∀ f ∈ fs, f.Good names p)
      (fun s' => s'.make.pda.names = p.names ∧ LabelsGrow p.toTPda s'.make.pda.toTPda (edgeLabels (E ++ fs.flatMap JField.edgs)))
      (PSax.run names (fs.flatMap JField.events ++ [.endObj, .endObj]) s) := by
  induction fs generalizing s N E m with
  | nil =>
    simp only [List.flatMap_nil, List.append_nil, List.nil_append, PSax.run, PSax.event, PSax.endObj, hs, baseStack]
    cases m with
    | nil =>
      exact .inl ⟨⟨rfl, fun _ h => by cases h⟩, _, rfl, hb.sameNames, hb.grows⟩
    | cons x m => exact .inr ⟨fun h => (by have := h.1; cases this), rfl⟩
  | cons f fs ih =>
    rw [show (f :: fs).flatMap JField.events = f.events ++ fs.flatMap JField.events from rfl, List.append_assoc, run_append]
    simp only [List.flatMap_cons, List.length_append] at hsm
    have h := (safe_field f hs hm hb (by omega)).withReq.bind
      (f := PSax.run names (fs.flatMap JField.events ++ [.endObj, .endObj]))
      (g' := Keys s.req (m.filter (· ≠ f.flag)) fs ∧ ∀ f ∈ fs, f.Good names p)
      (Q' := fun s' => s'.make.pda.names = p.names ∧ LabelsGrow p.toTPda s'.make.pda.toTPda (edgeLabels (E ++ f.edgs ++ fs.flatMap JField.edgs)))
      fun s' hs' => by
        have := ih hs'.1.1 (fun h => fun h' => hm (hs'.2 ▸ h) (List.mem_of_mem_filter h')) hs'.1.2 (by omega)
        rw [hs'.2] at this
        exact this
    refine h.congr ?_ fun s' hs' => ?_
    · simp only [Keys, List.mem_cons, forall_eq_or_imp]
      constructor
      · rintro ⟨⟨h1, h2⟩, h3, h4⟩
        exact ⟨⟨h1, h3⟩, h2, h4⟩
      · rintro ⟨⟨h1, h2⟩, h3, h4⟩
        exact ⟨⟨h1, h3⟩, h2, h4⟩
    · simpa [List.append_assoc] using hs'

/-- The automaton before reading. -/
theorem safe_start (hn : names = true → p.names.length = p.states.length) :
    ({ pda := p, aut := Aut.special p.states.length [] true } : PMake W).Safe names p p.states.length [] := by
  obtain ⟨h1, _, _⟩ := Aut.special_spec (W := W) p.states.length (sp := []) (by simp [SSorted]) true
  exact ⟨LabelsGrow.refl _, rfl, hn, by simp [h1], fun x hx => (by cases hx), Nat.le_of_eq h1⟩

/-- Reading a document, whatever states it uses. -/
theorem parse_any (req : Bool) (fs : List JField) (hn : names = true → p.names.length = p.states.length)
    (hsm : p.states.length + (fs.flatMap JField.accs).length + 2 * (fs.flatMap JField.edgs).length ≤ sizeMax) :
    ((Keys req (if req then [1, 2, 3] else [1, 2]) fs ∧ ∀ f ∈ fs, f.Good names p) ∧ ∃ x,
        parseJAutR req names p (autEvents fs) = .ok x ∧ x.1.names = p.names ∧ LabelsGrow p.toTPda x.1.toTPda (edgeLabels (fs.flatMap JField.edgs))) ∨
      (¬ (Keys req (if req then [1, 2, 3] else [1, 2]) fs ∧ ∀ f ∈ fs, f.Good names p) ∧ parseJAutR req names p (autEvents fs) = .error) := by
  have h := safe_fields (names := names) (p := p) fs
    (s := { make := { pda := p, aut := Aut.special p.states.length [] true }, req := req,
            stack := baseStack (if req then [1, 2, 3] else [1, 2]), lastKey := .pAutomaton })
    (N := p.states.length) (E := []) (m := if req then [1, 2, 3] else [1, 2]) rfl (fun h => by rw [show req = false from h]; decide) (safe_start hn) hsm
  have he : parseJAutR req names p (autEvents fs) = (PSax.run names (fs.flatMap JField.events ++ [.endObj, .endObj])
      { make := { pda := p, aut := Aut.special p.states.length [] true }, req := req,
        stack := baseStack (if req then [1, 2, 3] else [1, 2]), lastKey := .pAutomaton }).bind
        fun s => .ok (s.make.pda, { toAut := s.make.aut, stateNames := s.make.stateNames }) := by
    unfold parseJAutR autEvents
    rw [List.append_assoc]
    rfl
  rcases h with ⟨h1, s, h2, h3⟩ | ⟨h1, h2⟩
  · left
    refine ⟨h1, (s.make.pda, { toAut := s.make.aut, stateNames := s.make.stateNames }), ?_, by simpa using h3⟩
    rw [he, h2]
    rfl
  · right
    refine ⟨h1, ?_⟩
    rw [he, h2]
    rfl

end Verif
