import Verif.Props.CegarYes

/-! # Headers and abstract stacks along a trace, and header refinements -/

namespace Verif

open Props Cegar Instance

/-- The labels of the concrete rule belong to the classes of the abstract rule. -/
structure Classes (m : RMap Nat) (r a : URule Unit) : Prop where
  pre : m.find r.pre = some a.pre
  label : r.op = .push ∨ r.op = .swap → m.find r.opLabel = some a.opLabel

namespace Cegar

/-- The header fits the abstract stack: the concrete part has its classes, the wildcards are the rest of the initial
abstract stack. -/
structure OnStack (k : Recon) (h : Header) (v : List Nat) : Prop where
  wild : h.wild ≤ k.initStack.length
  stack : ∃ t, v = t ++ k.initStack.drop (k.initStack.length - h.wild) ∧ Maps k.map h.conc.reverse t

variable {k : Recon}

theorem OnStack.size {h : Header} {v : List Nat} (ho : OnStack k h v) : v.length = h.wild + h.conc.length := by
  obtain ⟨t, rfl, h2⟩ := ho.stack
  have := h2.length_eq
  have := ho.wild
  simp only [List.length_append, List.length_drop, List.length_reverse] at *
  omega

theorem OnStack.initial (hp : k.initStack.length = k.initPath.length) : OnStack k k.initialHeader k.initStack :=
  ⟨by simp [Recon.initialHeader, hp], [], by simp [Recon.initialHeader, hp], .nil⟩

theorem maps_append {m : RMap Nat} {w w' v v' : List Nat} (h : Maps m w v) (h' : Maps m w' v') : Maps m (w ++ w') (v ++ v') :=
  List.rel_append h h'

theorem updateHeader_eq {h h' : Header} {pre : Nat} {post ls : List Nat}
    (hu : k.updateHeader h pre post 0 = some (some (h', ls))) : h' = h.pop.append post := by
  unfold Recon.updateHeader Recon.updateWildcardPre Recon.popMany at hu
  split at hu
  · simp only [Option.map_some, Option.some.injEq, Prod.mk.injEq] at hu
    exact hu.1.symm
  · simp at hu

theorem OnStack.update {h h' : Header} {pre g : Nat} {post ls u w : List Nat} (ho : OnStack k h (g :: w))
    (hu : k.updateHeader h pre post 0 = some (some (h', ls))) (hm : Maps k.map post.reverse u) : OnStack k h' (u ++ w) := by
  rw [updateHeader_eq hu]
  obtain ⟨hw, t, h1, h2⟩ := ho
  rcases h with ⟨n, c⟩
  rcases List.eq_nil_or_concat c with rfl | ⟨c, l, rfl⟩
  · simp only [List.reverse_nil] at h2
    cases h2
    simp only [List.nil_append] at h1
    have hpos : n ≠ 0 := by
      rintro rfl
      simp at h1
    dsimp only at hw
    refine ⟨by simp only [Header.append, Header.pop, List.isEmpty_nil, if_true]; omega, u, ?_, ?_⟩
    · simp only [Header.append, Header.pop, List.isEmpty_nil, if_true]
      congr 1
      have := congrArg List.tail h1
      rw [List.tail_cons, List.tail_drop] at this
      rw [this]
      congr 1
      omega
    · simpa [Header.append, Header.pop] using hm
  · simp only [List.concat_eq_append, List.reverse_append, List.reverse_cons, List.reverse_nil, List.nil_append,
      List.singleton_append] at h2
    cases h2 with
    | @cons _ g' _ t' h3 h4 =>
      simp only [List.cons_append, List.cons.injEq] at h1
      obtain ⟨-, rfl⟩ := h1
      have hpop : (Header.pop ⟨n, c.concat l⟩) = ⟨n, c⟩ := by simp [Header.pop]
      rw [hpop]
      refine ⟨hw, u ++ t', ?_, ?_⟩
      · simp [Header.append, List.append_assoc]
      · simp only [Header.append, List.reverse_append]
        exact maps_append hm h4

theorem postOf_maps {m : RMap Nat} {r a : URule Unit} (h : r.op = a.op) (hc : Classes m r a) :
    Maps m (postOf r).reverse (postOf a).reverse := by
  have hp := hc.pre
  have hl := hc.label
  unfold postOf
  rw [h] at hl ⊢
  cases ho : a.op <;> rw [ho] at hl
  · exact .cons (hl (.inl rfl)) (.cons hp .nil)
  · exact .nil
  · exact .cons (hl (.inr rfl)) .nil
  · exact .cons hp .nil

variable {S X C R : Type}

/-- The labels of the rules of the configurations belong to the classes of the abstract rules. -/
structure Tracks (cl : Client S X C R) (rule : C → URule Unit) (s : S) : Prop where
  first : ∀ k a c, c ∈ cl.first s k a → Classes k.map (rule c) a
  next : ∀ k a c c', c' ∈ cl.next s k a c → Classes k.map (rule c') a

theorem ruleAt_eq {t : RuleTrace Unit} {i : Nat} (hi : i < t.rules.length) : t.rules[i]? = some (Client.ruleAt t i) := by
  unfold Client.ruleAt
  rw [List.getElem?_eq_getElem hi]; rfl

theorem take_ruleAt {t : RuleTrace Unit} {i : Nat} (hi : i < t.rules.length) :
    t.rules.take (i + 1) = t.rules.take i ++ [Client.ruleAt t i] := by
  rw [List.take_succ, ruleAt_eq hi]; rfl

theorem run_take {t : RuleTrace Unit} {c0 c1 : Config} (hrun : Run c0 t.rules c1) (i : Nat) :
    ∃ e, Run c0 (t.rules.take i) e := by
  rw [← List.take_append_drop i t.rules] at hrun
  obtain ⟨e, h1, -⟩ := run_split hrun
  exact ⟨e, h1⟩

/-- The abstract configuration before a rule of the trace. -/
theorem run_before {t : RuleTrace Unit} {c0 c1 : Config} (hrun : Run c0 t.rules c1) {i : Nat} (hi : i < t.rules.length) :
    ∃ w, Run c0 (t.rules.take i) ((Client.ruleAt t i).src, (Client.ruleAt t i).pre :: w) := by
  obtain ⟨e, he⟩ := run_take hrun (i + 1)
  rw [take_ruleAt hi] at he
  obtain ⟨e', h1, h2⟩ := run_split he
  obtain ⟨w, h3, -⟩ := run_one h2
  exact ⟨w, h3 ▸ h1⟩

/-- The header of a configuration of the search fits the abstract stack. -/
theorem conf_onStack {cl : Client S X C R} {P : Problem} {β : Nat → Nat} {rule : C → URule Unit} {s : S}
    (hF : Follows cl P β rule s) (hT : Tracks cl rule s) {k : Recon} {t : RuleTrace Unit} {q0 : Nat} {c1 : Config}
    (hrun : Run (q0, k.initStack) t.rules c1) (h0 : k.initStack.length = k.initPath.length) {d : Nat} {c : C}
    (hc : ReachConf t.rules.length (cl.search s k t).first (cl.search s k t).next d c) :
    d ≤ t.rules.length ∧ β (rule c).dst = (Client.ruleAt t (d - 1)).dst ∧
      ∀ e, Run (q0, k.initStack) (t.rules.take d) e → OnStack k (cl.header c) e.2 ∧ e.1 = (Client.ruleAt t (d - 1)).dst := by
  induction hc with
  | @first c hl hc =>
    obtain ⟨-, f2, ls, f3⟩ := hF.first _ _ _ hc
    refine ⟨hl, f2.dst, fun e he => ?_⟩
    rw [take_ruleAt hl] at he
    obtain ⟨w, h1, h2⟩ := run_one (by simpa using he)
    simp only [Prod.mk.injEq] at h1
    rw [h2]
    refine ⟨?_, rfl⟩
    dsimp only
    rw [effect_postOf]
    have := OnStack.initial h0
    rw [h1.2] at this
    exact this.update f3 (postOf_maps f2.op (hT.first _ _ _ hc))
  | @next d c c' _ hl hc ih =>
    obtain ⟨-, -, i1⟩ := ih
    obtain ⟨-, f2, -, ls, f3⟩ := hF.next _ _ _ _ hc
    refine ⟨hl, f2.dst, fun e he => ?_⟩
    rw [take_ruleAt hl] at he
    obtain ⟨e', h1, h2⟩ := run_split he
    obtain ⟨w, h3, h4⟩ := run_one h2
    rw [h4]
    refine ⟨?_, rfl⟩
    dsimp only
    rw [effect_postOf]
    have := (i1 e' h1).1
    rw [h3] at this
    exact this.update f3 (postOf_maps f2.op (hT.next _ _ _ _ hc))

/-- The labels that the path of the abstract automaton stands for. -/
theorem BackPath.covered {m : RMap Nat} {n : Nfa} {states path w : List Nat} {q : Nat} (h : BackPath m n states path w q)
    (hm : m.Inv) (hn : n.WF) (hk : Known m n) (hp : Plain n) (hf : Full m) {i : Nat} (hi : i < path.length) :
    ∃ l, m.find l = some ((w[i]?).getD 0) ∧ ReadsAt n path i l := by
  have hi' : i < w.length := by rw [← h.length]; exact hi
  obtain ⟨h1, q', h2, p, h3, r, h4, h5⟩ := h.reads i _ (List.getElem?_eq_getElem hi')
  obtain ⟨s, e, a1, a2, a3, a4⟩ := (absNfa_sym _ _ _).1 h4
  obtain ⟨x, b1, b2⟩ := reads_conc hm hn hk hp hf a1 a2 h1 a3
  refine ⟨x, by rw [List.getElem?_eq_getElem hi']; exact b1, q', h2, p, h3, r, ⟨s, e, a1, a2, b2, a4⟩, absNfa_epsPath.1 h5⟩

theorem splits_known {m m' : RMap Nat} (h : RMap.Splits m m') (x : Nat) : (m'.find x).isSome = (m.find x).isSome := by
  by_cases hx : x ∈ m.keys
  · obtain ⟨c, hc⟩ := RMap.find_isSome hx
    obtain ⟨c', hc'⟩ := RMap.find_isSome (m := m') (x := x) (by rw [h.keys]; exact hx)
    rw [hc, hc']; rfl
  · rw [(RMap.find_none x).2 hx, (RMap.find_none x).2 (by rw [h.keys]; exact hx)]

theorem splits_finer {m m' : RMap Nat} (h : RMap.Splits m m') (x y : Nat) (he : m'.find x = m'.find y) : m.find x = m.find y := by
  by_cases hx : x ∈ m.keys <;> by_cases hy : y ∈ m.keys
  · exact h.same x y hx hy he
  · have h1 := splits_known h x
    have h2 := splits_known h y
    rw [he, h2, (RMap.find_none y).2 hy] at h1
    obtain ⟨c, hc⟩ := RMap.find_isSome hx
    rw [hc] at h1; cases h1
  · have h1 := splits_known h x
    have h2 := splits_known h y
    rw [← he, h1, (RMap.find_none x).2 hx] at h2
    obtain ⟨c, hc⟩ := RMap.find_isSome hy
    rw [hc] at h2; cases h2
  · rw [(RMap.find_none x).2 hx, (RMap.find_none y).2 hy]

/-- A header refinement made of splits of classes makes the map strictly finer. -/
theorem refineHeader_strict {m : RMap Nat} (hm : m.Inv) {rs : List (Refinement Nat)} (hne : rs ≠ [])
    (hr : ∀ r ∈ rs, ∃ o0 o1, r.parts = [o0, o1] ∧ IsSplit o0 o1 ∧ ∀ x, x ∈ o0 ∨ x ∈ o1 → m.find x = some r.id) :
    ∃ m', m.refineHeader (collect (piecesOf rs)) = some m' ∧ m'.Inv ∧ RMap.Splits m m' ∧ StrictlyFiner m.find m'.find := by
  have hps : ∀ p ∈ piecesOf rs, IsSplit p.2.1 p.2.2 ∧ ∀ x, x ∈ p.2.1 ∨ x ∈ p.2.2 → m.find x = some p.1 := by
    intro p hp
    obtain ⟨r, hr', hp'⟩ := List.mem_filterMap.1 hp
    obtain ⟨o0, o1, h1, h2, h3⟩ := hr r hr'
    simp only [h1, Option.some.injEq] at hp'
    rw [← hp']; exact ⟨h2, h3⟩
  obtain ⟨h1, h2, h0, h3, h4⟩ := c42_header _ fun p hp => (hps p hp).1
  obtain ⟨m', a1, a2, a3, -, a5⟩ := RMap.refineHeader_splits hm (hd := collect (piecesOf rs))
    (fun r hr => ⟨fun p hp x hx => by
      obtain ⟨o0, o1, hm, hx'⟩ := (h3 r.id x).1 ⟨r, hr, rfl, p, hp, hx⟩
      exact (hps _ hm).2 x hx', (h1 r hr).ne, (h1 r hr).once⟩) h2
  refine ⟨m', a1, a2, a3, ?_, ?_, ?_⟩
  · exact splits_known a3
  · exact splits_finer a3
  · obtain ⟨r, hr'⟩ := List.exists_mem_of_ne_nil _ hne
    obtain ⟨o0, o1, b1, b2, b3⟩ := hr r hr'
    obtain ⟨x, hx⟩ := List.exists_mem_of_ne_nil _ b2.ne0
    obtain ⟨y, hy⟩ := List.exists_mem_of_ne_nil _ b2.ne1
    obtain ⟨R, hR, -, hsep⟩ := h4 r.id o0 o1 (List.mem_filterMap.2 ⟨r, hr', by simp [b1]⟩)
    obtain ⟨j, k, p, q, hp, hq, hjk, hxp, hyq⟩ := hsep x y hx hy
    exact ⟨x, y, by rw [b3 x (.inl hx)]; rfl, by rw [b3 x (.inl hx), b3 y (.inr hy)], a5 R hR j k p q x y hp hq hjk hxp hyq⟩

end Cegar

/-! ## Numbers of states -/

open ConSt Nfa in
theorem Aut.ofNfa_n_le {W : Type} [Zero W] {m : Nfa} (hm : m.WF) {size nl : Nat}
    (hlab : ∀ p s, (p, s) ∈ m.states → ∀ e ∈ s.edges, ∀ g ∈ e.syms, g < nl)
    {states : List Nat} (hs : SSorted states) : (Aut.ofNfa (W := W) size nl m states).n ≤ size + m.states.length := by
  obtain ⟨a1, a2, a3⟩ := Aut.special_spec (W := W) size hs m.emptyAccept
  let F : Nat → Prop := fun q => q ∈ states ∧ m.emptyAccept = true
  have i0 : ConSt.Inv m size F ({ a := Aut.special (W := W) size states m.emptyAccept } : ConSt W) :=
    ⟨by simp [a1], by simp, by simp, by simp, by simp, by simp, fun q hq => by simp [a3, F, hq], by simp,
      by simp [a2, keys], by simp⟩
  obtain ⟨j1, j2, j3, j4⟩ := initial_spec hm (states := states) hlab _ i0
  unfold Aut.ofNfa
  generalize initial m nl states ({ a := Aut.special (W := W) size states m.emptyAccept } : ConSt W) = s1 at j1 j2 j3 j4
  have hww : ∀ x ∈ s1.ids, x ∈ s1.waiting := fun x hx => (j2.wait x).2 (.inr ⟨hx, by simp⟩)
  obtain ⟨k1, -⟩ := loop_spec hm (states := states) hlab (m.states.length + 1) s1 j1
    (by have := j2.meas; simp at this; omega) j3 (fun x hx hw => absurd (hww x hx) hw) (by
      intro t
      rw [j4]
      have : t ∉ keys (Aut.special (W := W) size states m.emptyAccept).edges := by simp [a2, keys]
      simp only [this, false_or]
      constructor
      · intro h; exact .inl h
      · rintro (h | ⟨p, h1, h2, _⟩)
        · exact h
        · exact absurd (hww _ h1) h2)
  rw [k1.n]
  have : ∀ q ∈ (loop m nl (m.states.length + 1) s1).ids.map Prod.fst, q ∈ m.ptrs := by
    intro q hq
    obtain ⟨x, hx, rfl⟩ := List.mem_map.1 hq
    exact k1.ptr x hx
  have := (List.subperm_of_subset k1.fst this).length_le
  simp only [List.length_map, Nfa.ptrs] at this
  omega

/-- The product has at most one state for every pair of states. -/
theorem Product.PInv.bound {W : Type} {dual : Bool} {A B : Aut W} {s : Product W} (h : Product.PInv dual A B s) :
    s.aut.n ≤ A.n * B.n := by
  have hnd : ((List.range s.aut.n).map s.orig).Nodup := by
    rw [List.nodup_map_iff_inj_on List.nodup_range]
    intro u hu v hv he
    exact h.inj (List.mem_range.1 hu) (List.mem_range.1 hv) he
  have := (List.subperm_of_subset (l₂ := (List.range A.n).flatMap fun x => (List.range B.n).map fun y => (x, y)) hnd
    (by
      intro x hx
      obtain ⟨u, hu, rfl⟩ := List.mem_map.1 hx
      obtain ⟨h1, h2⟩ := h.range u (List.mem_range.1 hu)
      exact List.mem_flatMap.2 ⟨_, List.mem_range.2 h1, List.mem_map.2 ⟨_, List.mem_range.2 h2, rfl⟩⟩)).length_le
  simpa [List.length_flatMap] using this

theorem preStates {W : Type} [LinearOrder W] [Zero W] (h : HashOrder) {p : Pda W} (hp : p.WF) (hl : p.nLabels ≤ epsilon)
    {a b : Aut W} (ha : AutOK p a) (hb : AutOK p b) (hn : ∀ t ∈ keys b.edges, p.size ≤ t.dst) :
    (Instance.preStarAccepts h p (ofAutomata p.size a b)).1.initial.n = a.n ∧
    (Instance.preStarAccepts h p (ofAutomata p.size a b)).1.final.n = b.n ∧
    (Instance.preStarAccepts h p (ofAutomata p.size a b)).1.prod.aut.n ≤ b.n * a.n := by
  obtain ⟨-, h1, h2, h3, h4⟩ := preStarAccepts_spec h hp hl ha hb hn
  have hf : (Instance.preStarAccepts h p (ofAutomata p.size a b)).1.final.n = b.n := by
    rcases h4 with h4 | ⟨e, h5, h6⟩
    · rw [h4]
    · rw [h6]; unfold Aut.n; rw [h5.inv.acc]
  refine ⟨by rw [h1], hf, ?_⟩
  cases hr : (Instance.preStarAccepts h p (ofAutomata p.size a b)).2 with
  | true => have := (h2 hr).inv.bound; rw [hf] at this; exact this
  | false => have := (h3 hr).inv.bound; rw [hf] at this; exact this

theorem Pda.size_build_le {W : Type} [LinearOrder W] {n N : Nat} {cs : List (PdaCall W)}
    (h : ∀ c ∈ cs, ∀ src r wc pre, c = .rule src r wc pre → src < N ∧ r.to < N)
    (h' : ∀ c ∈ cs, ∀ s, c = .state s → s < N) : (Pda.build n cs).size ≤ N := by
  unfold Pda.build
  have : ∀ (p : Pda W), p.size ≤ N → (cs.foldl Pda.call p).size ≤ N := by
    induction cs with
    | nil => intro p hp; exact hp
    | cons c cs ih =>
      intro p hp
      rw [List.foldl_cons]
      refine ih (fun c hc => h c (List.mem_cons_of_mem _ hc)) (fun c hc => h' c (List.mem_cons_of_mem _ hc)) _ ?_
      cases c with
      | rule src r wc pre =>
        obtain ⟨h1, h2⟩ := h _ List.mem_cons_self src r wc pre rfl
        rw [Pda.call, Pda.size_addRuleImpl]; omega
      | state s =>
        have := h' _ List.mem_cons_self s rfl
        rw [Pda.call, Pda.size_addState]; omega
  exact this _ (by simp [Pda.size])
end Verif
