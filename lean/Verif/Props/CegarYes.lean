import Verif.Props.CegarLoop
import Verif.Proofs.CegarYes
import Verif.Props.Reducer

/-!
# C67: a trace returned by `cegar_solve` is real

The user's functions that find configurations must use rules of the concrete system and `update_header` (`Follows`).
Then the rules of the configurations lead from a stack of `initial_headers` to the final header, which is a stack of
`final_headers`.
-/

namespace Verif.Props

open Cegar Instance

variable {S X C R : Type}

/-- The concrete rule has the states and the operation of the abstract rule. -/
structure Matches (β : Nat → Nat) (r a : URule Unit) : Prop where
  src : β r.src = a.src
  dst : β r.dst = a.dst
  op : r.op = a.op

/-- What the functions of the reconstruction must guarantee: configurations come from rules of the concrete system that
match the abstract rule, the first with `initial_header()`, the others with the state and the header of the one before. -/
structure Follows (cl : Client S X C R) (P : Problem) (β : Nat → Nat) (rule : C → URule Unit) (s : S) : Prop where
  first : ∀ k a c, c ∈ cl.first s k a → P.rules (rule c) ∧ Matches β (rule c) a ∧
    ∃ ls, k.updateHeader k.initialHeader (rule c).pre (postOf (rule c)) 0 = some (some (cl.header c, ls))
  next : ∀ k a c c', c' ∈ cl.next s k a c → P.rules (rule c') ∧ Matches β (rule c') a ∧ (rule c').src = (rule c).dst ∧
    ∃ ls, k.updateHeader (cl.header c) (rule c').pre (postOf (rule c')) 0 = some (some (cl.header c', ls))

/-- The rules of the configurations lead from an initial stack to the given stack, which is a final one; the first and
the last state belong to an initial and an accepting abstract state. -/
def Genuine (cl : Client S X C R) (P : Problem) (ini fin : Nfa) (β : Nat → Nat) (rule : C → URule Unit) (s : S)
    (m : RMap Nat) (cs : List C) (stack : List Nat) (q0 : Nat) : Prop :=
  ∃ src v dst, β src = q0 ∧ q0 ∈ cl.initial s m ∧ ini.Lang v ∧ Run (src, v) (cs.map rule) (dst, stack) ∧
    (∀ c ∈ cs, P.rules (rule c)) ∧ β dst ∈ cl.accepting s m ∧ fin.Lang stack

/-! ## Runs -/

theorem run_split {rs rs' : List (URule Unit)} {c d : Config} (h : Run c (rs ++ rs') d) : ∃ e, Run c rs e ∧ Run e rs' d := by
  induction rs generalizing c with
  | nil => exact ⟨c, .nil c, h⟩
  | cons r rs ih =>
    rw [List.cons_append] at h
    cases h with
    | cons _ w _ _ h =>
      obtain ⟨e, h1, h2⟩ := ih h
      exact ⟨e, .cons r w rs e h1, h2⟩

theorem run_nil {c d : Config} {rs : List (URule Unit)} (h : Run c rs d) (hr : rs = []) : c = d := by
  cases h with
  | nil => rfl
  | cons => cases hr

theorem run_src {c d : Config} {r : URule Unit} {rs : List (URule Unit)} (h : Run c (r :: rs) d) : c.1 = r.src := by
  cases h; rfl

theorem run_one {r : URule Unit} {c d : Config} (h : Run c [r] d) :
    ∃ w, c = (r.src, r.pre :: w) ∧ d = (r.dst, effect r.op r.pre r.opLabel w) := by
  cases h with
  | cons _ w _ _ h => exact ⟨w, rfl, (run_nil h rfl).symm⟩

theorem effect_postOf (r : URule Unit) (w : List Nat) : effect r.op r.pre r.opLabel w = (postOf r).reverse ++ w := by
  unfold effect postOf
  cases r.op <;> rfl

theorem postOf_length {r a : URule Unit} (h : r.op = a.op) : (postOf r).length = (postOf a).length := by
  unfold postOf
  rw [h]
  cases a.op <;> rfl

/-- `update_header` undoes one rule. -/
theorem update_sound {k : Recon} (hk : k.WF) {h h' : Header} {pre : Nat} {post ls : List Nat}
    (hw : h.wild ≤ k.initPath.length) (h0 : 0 < h.size)
    (hu : k.updateHeader h pre post 0 = some (some (h', ls))) :
    h'.wild ≤ h.wild ∧ h'.size + 1 = h.size + post.length ∧
      ∀ s', k.Fits h' s' → ∃ rest, s' = post.reverse ++ rest ∧ k.Fits h (pre :: rest) := by
  unfold Recon.updateHeader Recon.updateWildcardPre Recon.popMany at hu
  split at hu
  · rename_i hm
    simp only [Option.map_some, Option.some.injEq, Prod.mk.injEq] at hu
    obtain ⟨rfl, -⟩ := hu
    refine ⟨pop_wild_le h, ?_, ?_⟩
    · have := pop_size h
      unfold Header.size Header.append at *
      simp only [List.length_append] at *
      omega
    · intro s' hs'
      obtain ⟨rest, h1, h2⟩ := (stands_append _ _ _ _).1 hs'
      exact ⟨rest, h1, (preMatches_iff hk hw h0 pre rest).2 ⟨hm, h2⟩⟩
  · simp at hu

/-- Along the configurations of the search. -/
theorem chain_run {cl : Client S X C R} {P : Problem} {β : Nat → Nat} {rule : C → URule Unit} {s : S}
    (hF : Follows cl P β rule s) {k : Recon} (hk : k.WF) {t : RuleTrace Unit} {c0 c1 : Config}
    (hrun : Run c0 t.rules c1) (h0 : c0.2.length = k.initPath.length) {cs : List C}
    (hc : ConfChain (cl.search s k t).first (cl.search s k t).next cs) (hlen : cs.length ≤ t.rules.length) :
    ∃ c q, cs.getLast? = some c ∧ (∀ x ∈ cs, P.rules (rule x)) ∧ β q = (Client.ruleAt t 0).src ∧
      β (rule c).dst = (Client.ruleAt t (cs.length - 1)).dst ∧ (cl.header c).wild ≤ k.initPath.length ∧
      (∀ e, Run c0 (t.rules.take cs.length) e → (cl.header c).size = e.2.length) ∧
      ∀ s', k.Fits (cl.header c) s' → ∃ v, k.Fits k.initialHeader v ∧ Run (q, v) (cs.map rule) ((rule c).dst, s') := by
  have hat : ∀ i < t.rules.length, t.rules[i]? = some (Client.ruleAt t i) := by
    intro i hi
    unfold Client.ruleAt
    rw [List.getElem?_eq_getElem hi]; rfl
  have htake : ∀ i < t.rules.length, t.rules.take (i + 1) = t.rules.take i ++ [Client.ruleAt t i] := by
    intro i hi
    rw [List.take_succ, hat i hi]; rfl
  have hpre : ∀ i, ∃ e, Run c0 (t.rules.take i) e := by
    intro i
    rw [← List.take_append_drop i t.rules] at hrun
    obtain ⟨e, h1, -⟩ := run_split hrun
    exact ⟨e, h1⟩
  induction hc with
  | @one c hc =>
    obtain ⟨f1, f2, ls, f3⟩ := hF.first _ _ _ hc
    have hlen0 : 0 < t.rules.length := by simp at hlen; omega
    have hlast : ∀ e, Run c0 (t.rules.take 1) e → ∃ w, c0 = ((Client.ruleAt t 0).src, (Client.ruleAt t 0).pre :: w) ∧
        e.2 = effect (Client.ruleAt t 0).op (Client.ruleAt t 0).pre (Client.ruleAt t 0).opLabel w := by
      intro e he
      rw [htake 0 hlen0] at he
      obtain ⟨w, h1, h2⟩ := run_one (by simpa using he)
      exact ⟨w, h1, by rw [h2]⟩
    obtain ⟨e0, he0⟩ := hpre 1
    obtain ⟨w0, hw0, -⟩ := hlast e0 he0
    have hsz : k.initialHeader.size = c0.2.length := by simp [Recon.initialHeader, Header.size, h0]
    obtain ⟨u1, u2, u3⟩ := update_sound hk (h := k.initialHeader) (by simp [Recon.initialHeader])
      (by rw [hsz, hw0]; simp) f3
    refine ⟨c, (rule c).src, by simp, by simpa using f1, f2.src, f2.dst, Nat.le_trans u1 (by simp [Recon.initialHeader]),
      ?_, ?_⟩
    · intro e he
      obtain ⟨w, h1, h2⟩ := hlast e (by simpa using he)
      rw [hsz, h1, postOf_length f2.op] at u2
      rw [h2, effect_postOf]
      simp only [List.length_append, List.length_reverse, List.length_cons] at *
      omega
    · intro s' hs'
      obtain ⟨rest, rfl, hr⟩ := u3 s' hs'
      refine ⟨_, hr, ?_⟩
      rw [← effect_postOf]
      exact .cons _ _ _ _ (.nil _)
  | @snoc cs c c' _ hc ih =>
    simp only [List.length_append, List.length_singleton] at hlen ih ⊢
    obtain ⟨c2, q, i1, i2, i3, i4, i5, i6, i7⟩ := ih (by omega)
    rw [List.getLast?_append_of_ne_nil _ (by simp)] at i1
    simp only [List.getLast?_singleton, Option.some.injEq] at i1
    subst i1
    obtain ⟨f1, f2, f3, ls, f4⟩ := hF.next _ _ _ _ hc
    have hi : cs.length + 1 < t.rules.length := by omega
    obtain ⟨e0, he0⟩ := hpre (cs.length + 1 + 1)
    rw [htake _ hi] at he0
    obtain ⟨e1, he1, he2⟩ := run_split he0
    obtain ⟨w1, hw1, -⟩ := run_one he2
    have hsz := i6 e1 he1
    obtain ⟨u1, u2, u3⟩ := update_sound hk i5 (by rw [hsz, hw1]; simp) f4
    refine ⟨c', q, by simp, ?_, i3, f2.dst, Nat.le_trans u1 i5, ?_, ?_⟩
    · intro x hx
      rcases List.mem_append.1 hx with hx | hx
      · exact i2 x hx
      · rw [List.mem_singleton.1 hx]; exact f1
    · intro e he
      rw [htake _ hi] at he
      obtain ⟨e2, he3, he4⟩ := run_split he
      obtain ⟨w, h1, h2⟩ := run_one he4
      have := i6 e2 he3
      rw [this, h1, postOf_length f2.op] at u2
      rw [h2]
      dsimp only
      rw [effect_postOf]
      simp only [List.length_append, List.length_reverse, List.length_cons] at *
      omega
    · intro s' hs'
      obtain ⟨rest, rfl, hr⟩ := u3 s' hs'
      obtain ⟨v, hv, hrv⟩ := i7 _ hr
      refine ⟨v, hv, ?_⟩
      rw [List.map_append]
      refine hrv.append ?_
      rw [← effect_postOf, ← f3]
      exact .cons _ _ _ _ (.nil _)

/-! ## The theorem -/

/-- The reconstruction is built from the paths of the abstract automata. -/
theorem recon_paths {cl : Client S X C R} {s : S} {m : RMap Nat} {ini fin : Nfa} (hi : ini.WF) (hf : fin.WF)
    (ci : ini.Closed) (cf : fin.Closed) (hk : MapKnows m ini fin) (hb : Builds cl s m) {t : RuleTrace Unit}
    (ht : IsRuleTrace (cl.pda s m) (Aut.ofNfa (cl.pda s m).size m.size (absNfa m ini) (cl.initial s m))
      (Aut.ofNfa (cl.pda s m).size m.size (absNfa m fin) (cl.accepting s m)) (HasMove (cl.pda s m)) t) :
    BackPath m ini (cl.initial s m) (cl.recon ini fin s m t).initPath t.initialStack t.state ∧
    ∃ q', Run (t.state, t.initialStack) t.rules (q', t.finalStack) ∧
      BackPath m fin (cl.accepting s m) (cl.recon ini fin s m t).finPath t.finalStack q' := by
  obtain ⟨⟨q', h1, h2⟩, h3, h4, h5⟩ := ht
  have hp : (cl.pda s m).WF := Pda.WF_build _ _ hb.calls
  have hq' : q' < (cl.pda s m).size := by
    rcases List.eq_nil_or_concat t.rules with h0 | ⟨rs, r, h0⟩
    · have := run_nil h1 h0
      rw [show q' = t.state from (congrArg Prod.fst this).symm]
      exact h5
    · rw [List.concat_eq_append] at h0
      rw [h0] at h1
      obtain ⟨e, -, h6⟩ := run_split h1
      obtain ⟨w, -, h7⟩ := run_one h6
      obtain ⟨x, hx⟩ := h3 r (by rw [h0]; simp)
      obtain ⟨l, h8, -⟩ := (Pda.Has_iff _ _).1 hx
      have := hp.toLt _ _ h8
      rw [show q' = r.dst from congrArg Prod.fst h7]
      exact this
  exact ⟨backPath hk.inv hi hk.initKnown ci hb.initSorted hb.initLt (c := (t.state, t.initialStack)) h5 h4, q', h1,
    backPath hk.inv hf hk.finKnown cf hb.finSorted hb.finLt (c := (q', t.finalStack)) hq' h2⟩

/-- A trace of the search is genuine. -/
theorem search_genuine {cl : Client S X C R} {P : Problem} {β : Nat → Nat} {rule : C → URule Unit} {s : S} {m : RMap Nat}
    {ini fin : Nfa} (hi : ini.WF) (hf : fin.WF) (ci : ini.Closed) (cf : fin.Closed) (hk : MapKnows m ini fin)
    (hb : Builds cl s m) (hF : Follows cl P β rule s) (honto : ∀ q ∈ cl.initial s m, ∃ x, β x = q) {t : RuleTrace Unit}
    (ht : IsRuleTrace (cl.pda s m) (Aut.ofNfa (cl.pda s m).size m.size (absNfa m ini) (cl.initial s m))
      (Aut.ofNfa (cl.pda s m).size m.size (absNfa m fin) (cl.accepting s m)) (HasMove (cl.pda s m)) t) {fuel : Nat}
    {cs : List C} {h : Header}
    (hr : Cegar.search (cl.search s (cl.recon ini fin s m t) t)
      ((cl.recon ini fin s m t).finalizeHeader (cl.recon ini fin s m t).initialHeader) fuel = some (.trace cs h)) :
    Genuine cl P ini fin β rule s m cs h.conc.reverse (t.initialPath.headD 0) := by
  obtain ⟨bi, q', hrun, bf⟩ := recon_paths hi hf ci cf hk hb ht
  have hhead : t.initialPath.headD 0 = t.state := by
    rw [List.headD_eq_head?_getD, ht.initial.head]; rfl
  rw [hhead]
  have hkw : (cl.recon ini fin s m t).WF := ⟨hk.inv, hi, hf, bi.ok, bf.ok⟩
  obtain ⟨d1, d2, d3⟩ := c65_trace hr
  generalize hK : cl.recon ini fin s m t = k at *
  have hini : k.initNfa = ini := by rw [← hK]; rfl
  have hfin : k.finNfa = fin := by rw [← hK]; rfl
  have hword : ∀ v, k.Fits k.initialHeader v → ini.Lang v := by
    intro v hv
    have := (c64_initial k v).1 hv
    rw [← hini]
    refine c64_initial_word this ?_
    rw [hini]; exact bi.acc
  have hfinal : ∀ x, Along k.finNfa k.finPath x → fin.Lang x := by
    intro x hx
    rw [hfin] at hx
    exact along_lang hx bf.acc
  by_cases h0 : t.rules.length = 0
  · have hz : t.rules = [] := List.length_eq_zero_iff.1 h0
    rw [hz] at hrun
    have hst : t.state = q' ∧ t.initialStack = t.finalStack := by
      simpa using run_nil hrun rfl
    have hcs : cs = [] := List.length_eq_zero_iff.1 (d1.trans h0)
    obtain ⟨-, e2, e3⟩ := c64_final_found hkw (h := k.initialHeader) (by simp [Recon.initialHeader])
      (by simp only [Recon.initialHeader, List.length_nil, Nat.add_zero]; rw [bi.length, bf.length, hst.2]) (d2 h0)
    obtain ⟨x, hx⟩ := honto _ bi.state
    refine ⟨x, _, x, hx, bi.state, hword _ e2, by rw [hcs]; exact .nil _, by simp [hcs], ?_, hfinal _ e3⟩
    rw [hx, hst.1]
    exact bf.state
  · obtain ⟨hch, c, hc, hfn⟩ := d3 (by have : (cl.search s k t).len = t.rules.length := rfl; omega)
    have hlen : cs.length = t.rules.length := d1
    obtain ⟨c', q, a1, a2, a3, a4, a5, a6, a7⟩ := chain_run hF hkw hrun (by rw [bi.length]) hch (by omega)
    rw [hc] at a1
    cases a1
    have hsz := a6 (q', t.finalStack) (by rw [hlen, List.take_length]; exact hrun)
    obtain ⟨-, e2, e3⟩ := c64_final_found hkw (h := cl.header c) a5 (by rw [bf.length]; exact hsz) hfn
    obtain ⟨v, hv, hrv⟩ := a7 _ e2
    have hstate : (Client.ruleAt t 0).src = t.state := by
      cases hrs : t.rules with
      | nil => rw [hrs] at h0; simp at h0
      | cons r rs =>
        rw [hrs] at hrun
        unfold Client.ruleAt
        rw [hrs]
        exact (run_src hrun).symm
    have hend : (Client.ruleAt t (cs.length - 1)).dst = q' := by
      rcases List.eq_nil_or_concat t.rules with h1 | ⟨rs, r, h1⟩
      · rw [h1] at h0; simp at h0
      · rw [List.concat_eq_append] at h1
        unfold Client.ruleAt
        rw [hlen]
        rw [h1] at hrun ⊢
        obtain ⟨e, -, h6⟩ := run_split hrun
        obtain ⟨w, -, h7⟩ := run_one h6
        rw [show q' = r.dst from congrArg Prod.fst h7]
        simp
    refine ⟨q, v, (rule c).dst, by rw [a3, hstate], bi.state, hword _ hv, hrv, a2, ?_, hfinal _ e3⟩
    rw [a4, hend]
    exact bf.state

/-- C67 for one iteration: if it returns a trace, it is the one that `get_concrete_trace` makes of configurations whose rules
lead from an initial stack to the final header, which is a final stack. After post* the trace must not be empty, see
`c67_post_swapped_wrong`. -/
theorem c67_round_yes_partial {cl : Client S X C R} {P : Problem} {β : Nat → Nat} {rule : C → URule Unit} {s : S}
    {m : RMap Nat} {ini fin : Nfa} (hi : ini.WF) (hf : fin.WF) (ci : ini.Closed) (cf : fin.Closed)
    (hk : MapKnows m ini fin) (hl : m.size < epsilon) (hb : Builds cl s m) (hF : Follows cl P β rule s)
    (honto : ∀ q ∈ cl.initial s m, ∃ x, β x = q) {h h' : HashOrder} {mode : Mode}
    (hfit : StatesFit (mode.accepts h (cl.pda s m) (cl.instance_ ini fin s m)).1) {fuel : Nat} {r : R}
    (hr : cl.round h h' mode ini fin fuel s m = .trace r) :
    ∃ k cs stack q0, r = cl.trace s k cs stack.reverse q0 ∧
      ((mode = .post → cs ≠ []) → Genuine cl P ini fin β rule s m cs stack q0) := by
  have hp : (cl.pda s m).WF := Pda.WF_build _ _ hb.calls
  have hnl := pda_nLabels cl s m
  have bi : (absNfa m ini).Below (cl.pda s m).nLabels := by rw [hnl]; exact absNfa_labels hk.inv hi hk.initKnown
  have bf : (absNfa m fin).Below (cl.pda s m).nLabels := by rw [hnl]; exact absNfa_labels hk.inv hf hk.finKnown
  have ha := closed_ok (absNfa_wf hk.inv hi hk.initKnown) (absNfa_closed hk.inv hi hk.initKnown ci) (cl.pda s m) bi
    hb.initSorted hb.initLt
  have hb' := closed_ok (absNfa_wf hk.inv hf hk.finKnown) (absNfa_closed hk.inv hf hk.finKnown cf) (cl.pda s m) bf
    hb.finSorted hb.finLt
  have ua := untraced_ofNfa (W := Unit) (cl.pda s m).size (cl.pda s m).nLabels (absNfa m ini) hb.initSorted
  have ub := untraced_ofNfa (W := Unit) (cl.pda s m).size (cl.pda s m).nLabels (absNfa m fin) hb.finSorted
  have hinst : cl.instance_ ini fin s m = ofAutomata (cl.pda s m).size
      (Aut.ofNfa (cl.pda s m).size (cl.pda s m).nLabels (absNfa m ini) (cl.initial s m))
      (Aut.ofNfa (cl.pda s m).size (cl.pda s m).nLabels (absNfa m fin) (cl.accepting s m)) := by
    unfold Client.instance_
    rw [hnl]
    exact absInstance_auto hk.inv hi hk.initKnown ci hf hk.finKnown cf hb.initSorted hb.finSorted hb.initLt hb.finLt
  have hll : (cl.pda s m).nLabels < epsilon := by rw [hnl]; exact hl
  have hle : (cl.pda s m).nLabels ≤ epsilon := Nat.le_of_lt hll
  rw [hinst] at hfit
  unfold Client.round at hr
  rw [hinst] at hr
  dsimp only at hr
  split at hr
  · cases hr
  rename_i hyes
  have hyes : (mode.accepts h (cl.pda s m) (ofAutomata (cl.pda s m).size
      (Aut.ofNfa (cl.pda s m).size (cl.pda s m).nLabels (absNfa m ini) (cl.initial s m))
      (Aut.ofNfa (cl.pda s m).size (cl.pda s m).nLabels (absNfa m fin) (cl.accepting s m)))).2 = true := by
    simpa using hyes
  have htrace : ∀ t, mode.ruleTrace h' (cl.pda s m) (mode.accepts h (cl.pda s m) (ofAutomata (cl.pda s m).size
      (Aut.ofNfa (cl.pda s m).size (cl.pda s m).nLabels (absNfa m ini) (cl.initial s m))
      (Aut.ofNfa (cl.pda s m).size (cl.pda s m).nLabels (absNfa m fin) (cl.accepting s m)))).1 = some t →
      (mode = .post → t.rules ≠ []) → IsRuleTrace (cl.pda s m)
        (Aut.ofNfa (cl.pda s m).size (cl.pda s m).nLabels (absNfa m ini) (cl.initial s m))
        (Aut.ofNfa (cl.pda s m).size (cl.pda s m).nLabels (absNfa m fin) (cl.accepting s m)) (HasMove (cl.pda s m)) t := by
    intro t ht hne
    cases mode with
    | post =>
      obtain ⟨h1, _, h3, h4, _⟩ := postStarAccepts_spec h hp (ha.post hle) hb'.toAutOK
      have hA := post_of h hp hle ha hb'.toAutOK
      obtain ⟨_, t', h5, h6, -⟩ := trace_post h' hp hll ha hb'.toAutOK ua hA (h3 hyes).inv (h3 hyes).size hfit (h3 hyes).acc
      have : t' = t := Option.some.inj (h5.symm.trans ht)
      subst this
      exact h6 (hne rfl)
    | pre =>
      obtain ⟨t', h5, h6⟩ := (c56_pre_rule_trace h h' hp hle ha.toAutOK hb' ub hfit).1 hyes
      have : t' = t := Option.some.inj (h5.symm.trans ht)
      subst this
      exact ⟨h6.run, fun r hr => ⟨r.weight, h6.rules r hr⟩, h6.initial, h6.state⟩
    | dual =>
      obtain ⟨_, h3, h4, _⟩ := dualSearchAccepts_spec h hp (ha.post hle) hb'.toAutOK hb'.noInto
      obtain ⟨hA, hB⟩ := dual_of h hp hle ha hb'
      rcases (trace_dual h' hp hll ha hb' ua ub hA hB (h3 hyes).inv (h3 hyes).size hfit (h3 hyes).acc).2 with
        ⟨t', h5, _, h6⟩ | ⟨h5, -⟩
      · have : t' = t := Option.some.inj (h5.symm.trans ht)
        subst this
        exact h6
      · have := h5.symm.trans ht
        cases this
  split at hr
  · cases hr
  · rename_i t ht
    split at hr
    · cases hr
    · rename_i f hs
      cases f with
      | trace cs hd =>
        simp only [Client.finish, Round.trace.injEq] at hr
        refine ⟨_, cs, hd.conc.reverse, _, by rw [List.reverse_reverse]; exact hr.symm, fun hne => ?_⟩
        refine search_genuine hi hf ci cf hk hb hF honto ?_ hs
        rw [← hnl]
        refine htrace t ht fun hm hz => hne hm ?_
        have := (c65_trace hs).1
        exact List.length_eq_zero_iff.1 (this.trans (by show t.rules.length = 0; rw [hz]; rfl))
      | stuck depth cs =>
        simp only [Client.finish] at hr
        generalize (if depth = 0 then _ else _ : Split X) = sp at hr
        cases sp with
        | labels x r => simp only [Client.applySplit] at hr; split at hr <;> cases hr
        | rule r => simp [Client.applySplit] at hr
      | header info => simp only [Client.finish] at hr; split at hr <;> cases hr

/-- C67: a trace that `cegar_solve` returns comes from a run of the concrete system from a stack of `initial_headers` to
a stack of `final_headers`. `J` is what the user's classes maintain. After post* the trace must not be empty. -/
theorem c67_yes_partial {cl : Client S X C R} {P : Problem} {rule : C → URule Unit} {ini fin : Nfa} (hi : ini.WF)
    (hf : fin.WF) (ci : ini.Closed) (cf : fin.Closed) {h h' : HashOrder} {mode : Mode} {J : S → RMap Nat → Prop}
    {β : S → Nat → Nat}
    (hJ : ∀ s m, J s m → MapKnows m ini fin ∧ m.size < epsilon ∧ Builds cl s m ∧ Follows cl P (β s) rule s ∧
      (∀ q ∈ cl.initial s m, ∃ x, β s x = q) ∧ StatesFit (mode.accepts h (cl.pda s m) (cl.instance_ ini fin s m)).1)
    (hstep : ∀ fuel s m s' m', J s m → cl.round h h' mode ini fin fuel s m = .again s' m' → J s' m')
    {s : S} {m : RMap Nat} (h0 : J s m) {fuel : Nat} {r : R}
    (hr : cl.solve h h' mode ini fin fuel s m = some (some r)) :
    ∃ s m k cs stack q0, J s m ∧ r = cl.trace s k cs stack.reverse q0 ∧
      ((mode = .post → cs ≠ []) → Genuine cl P ini fin (β s) rule s m cs stack q0) := by
  induction fuel generalizing s m with
  | zero => simp [Client.solve] at hr
  | succ fuel ih =>
    unfold Client.solve at hr
    split at hr
    · rename_i r' hno
      simp only [Option.some.injEq] at hr
      subst hr
      obtain ⟨j1, j2, j3, j4, j5, j6⟩ := hJ s m h0
      obtain ⟨k, cs, stack, q0, h1, h2⟩ := c67_round_yes_partial hi hf ci cf j1 j2 j3 j4 j5 j6 hno
      exact ⟨s, m, k, cs, stack, q0, h0, h1, h2⟩
    · simp at hr
    · rename_i s' m' hag
      exact ih (hstep _ _ _ _ _ h0 hag) hr
    · simp at hr

theorem genuine_solvable {cl : Client S X C R} {P : Problem} {ini fin : Nfa} {β : Nat → Nat} {rule : C → URule Unit} {s : S}
    {m : RMap Nat} {cs : List C} {stack : List Nat} {q0 : Nat} (h : Genuine cl P ini fin β rule s m cs stack q0)
    (hI : ∀ q, β q ∈ cl.initial s m → P.initial q) (hA : ∀ q, β q ∈ cl.accepting s m → P.final q) :
    P.Solvable (fun _ => True) ini fin := by
  obtain ⟨src, v, dst, h1, h2, h3, h4, h5, h6, h7⟩ := h
  refine ⟨src, v, dst, stack, hI _ (by rw [h1]; exact h2), h3, fun _ _ => trivial, ?_, hA _ h6, h7⟩
  exact run_reach h4 fun r hr => by
    obtain ⟨c, hc, rfl⟩ := List.mem_map.1 hr
    exact h5 c hc

/-- C67 with pre* or dual search: if `cegar_solve` returns a trace, the concrete problem has a solution. The abstract
initial and accepting states stand only for initial and final states; nothing in the library checks this. -/
theorem c67_solvable {cl : Client S X C R} {P : Problem} {rule : C → URule Unit} {ini fin : Nfa} (hi : ini.WF)
    (hf : fin.WF) (ci : ini.Closed) (cf : fin.Closed) {h h' : HashOrder} {mode : Mode} (hmode : mode ≠ .post)
    {J : S → RMap Nat → Prop} {β : S → Nat → Nat}
    (hJ : ∀ s m, J s m → MapKnows m ini fin ∧ m.size < epsilon ∧ Builds cl s m ∧ Follows cl P (β s) rule s ∧
      (∀ q ∈ cl.initial s m, ∃ x, β s x = q) ∧ StatesFit (mode.accepts h (cl.pda s m) (cl.instance_ ini fin s m)).1)
    (hI : ∀ s m q, J s m → β s q ∈ cl.initial s m → P.initial q)
    (hA : ∀ s m q, J s m → β s q ∈ cl.accepting s m → P.final q)
    (hstep : ∀ fuel s m s' m', J s m → cl.round h h' mode ini fin fuel s m = .again s' m' → J s' m')
    {s : S} {m : RMap Nat} (h0 : J s m) {fuel : Nat} {r : R}
    (hr : cl.solve h h' mode ini fin fuel s m = some (some r)) : P.Solvable (fun _ => True) ini fin := by
  obtain ⟨s, m, k, cs, stack, q0, h1, h2, h3⟩ := c67_yes_partial hi hf ci cf hJ hstep h0 hr
  exact genuine_solvable (h3 fun h => absurd h hmode) (fun q => hI s m q h1) fun q => hA s m q h1

/-! ## Cases -/

theorem confsOf_spec {rules : List (URule Unit)} {k : Recon} {a : URule Unit} {src : Nat} {h : Header}
    {c : URule Unit × Header} (hc : c ∈ confsOf rules k a src h) :
    c.1 ∈ rules ∧ c.1.src = src ∧ Matches id c.1 a ∧
      ∃ ls, k.updateHeader h c.1.pre (postOf c.1) 0 = some (some (c.2, ls)) := by
  unfold confsOf at hc
  obtain ⟨r, h1, h2⟩ := List.mem_filterMap.1 hc
  split at h2
  · rename_i hb
    split at h2
    · rename_i h' ls hu
      simp only [Option.some.injEq] at h2
      subst h2
      simp only [Bool.and_eq_true, beq_iff_eq, behind] at hb
      exact ⟨h1, hb.1, ⟨hb.2.1.1.1.1, hb.2.1.1.1.2, hb.2.1.1.2⟩, ls, hu⟩
    · cases h2
  · cases h2

theorem listClient_follows (rules : List (URule Unit)) (ini fin : List Nat) :
    Follows (listClient rules ini fin) (listProblem rules ini fin) id Prod.fst () := by
  constructor
  · intro k a c hc
    obtain ⟨h1, -, h3, h4⟩ := confsOf_spec hc
    exact ⟨h1, h3, h4⟩
  · intro k a c c' hc
    obtain ⟨h1, h2, h3, h4⟩ := confsOf_spec hc
    exact ⟨h1, h3, h2, h4⟩

/-- Reads 2. -/
def loopTwo : Nfa :=
  { states := [(1, { edges := [{ syms := [2], dst := 2 }] }), (2, { acc := true })], initial := [1], accepting := [2] }

/-- The rule that swaps 1 for 2 is found. -/
theorem loop_yes (mode : Mode) :
    (listClient loopRules [0] [1]).solve HashOrder.id HashOrder.id mode loopFirst loopTwo 20 () (loopMap fun _ => 0) =
      some (some (loopRules, [2])) := by
  cases mode <;> decide +kernel

example (mode : Mode) (hmode : mode ≠ .post) :
    (listProblem loopRules [0] [1]).Solvable (fun _ => True) loopFirst loopTwo := by
  have hfirst : (listClient loopRules [0] [1]).round HashOrder.id HashOrder.id mode loopFirst loopTwo 20 ()
      (loopMap fun _ => 0) = .trace (loopRules, [2]) := by cases mode <;> decide +kernel
  refine c67_solvable loopFirst_wf (nfa_wf (by decide) (by decide) (by decide) (by decide) rfl) loopFirst_closed
    (closed_of (by decide)) hmode (cl := listClient loopRules [0] [1]) (rule := Prod.fst) (J := fun _ m => m = loopMap fun _ => 0)
    (β := fun _ => id) ?_ (fun _ _ _ _ h => h) (fun _ _ _ _ h => h) ?_ rfl (loop_yes mode)
  · rintro ⟨⟩ m rfl
    refine ⟨⟨loopMap_inv _, by decide, known_of (by decide), known_of (by decide)⟩, by decide,
      (loop_covers (by decide)).toBuilds, listClient_follows _ _ _, fun q _ => ⟨q, rfl⟩, ?_⟩
    cases mode <;> exact ⟨by decide +kernel, by decide +kernel, by decide +kernel⟩
  · rintro fuel s m s' m' rfl hr
    have := round_fuel _ hr hfirst (by simp) (by simp)
    cases this

/-- Reads 1, and 3 4. -/
def swapIni : Nfa :=
  { states := [(1, { edges := [{ syms := [1], dst := 2 }, { syms := [3], dst := 3 }] }), (2, { acc := true }),
      (3, { edges := [{ syms := [4], dst := 4 }] }), (4, { acc := true })], initial := [1], accepting := [2, 4] }

/-- Reads 2, and 3 5. -/
def swapFin : Nfa :=
  { states := [(1, { edges := [{ syms := [3], dst := 2 }, { syms := [2], dst := 3 }] }),
      (2, { edges := [{ syms := [5], dst := 4 }] }), (3, { acc := true }), (4, { acc := true })], initial := [1],
    accepting := [3, 4] }

/-- The rule pops 6. -/
def swapRules : List (URule Unit) := [⟨0, 6, 0, .pop, 6, ()⟩]

/-- All labels in one class. -/
def swapMap : RMap Nat := (mapAfter (fun _ => 0) ([1, 2, 3, 4, 5, 6].map fun x => .insert x false)).map

/-- Without ε edges a word begins with an edge of an initial state. -/
theorem lang_inv {n : Nfa} (h : ∀ x ∈ n.states, ∀ e ∈ x.2.edges, e.eps = false) {p f : Nat} {w : List Nat}
    (hw : WPath n.Eps n.Sym p w f) : (w = [] ∧ p = f) ∨ ∃ l q w', w = l :: w' ∧ n.Sym p l q ∧ WPath n.Eps n.Sym q w' f := by
  cases hw with
  | nil => exact .inl ⟨rfl, rfl⟩
  | eps h1 =>
    obtain ⟨s, e, h2, h3, h4, -⟩ := h1
    rw [h _ h2 e h3] at h4
    cases h4
  | sym h1 h2 => exact .inr ⟨_, _, _, rfl, h1, h2⟩

theorem swapIni_sym {p l q : Nat} (h : swapIni.Sym p l q) : (p, l, q) ∈ [(1, 1, 2), (1, 3, 3), (3, 4, 4)] := by
  obtain ⟨s, e, h1, h2, h3, rfl⟩ := h
  simp only [swapIni, List.mem_cons, List.not_mem_nil, or_false, Prod.mk.injEq] at h1
  rcases h1 with ⟨rfl, rfl⟩ | ⟨rfl, rfl⟩ | ⟨rfl, rfl⟩ | ⟨rfl, rfl⟩ <;> simp at h2
  · rcases h2 with rfl | rfl <;> simp_all [NEdge.Reads]
  · subst h2; simp_all [NEdge.Reads]

theorem swapFin_sym {p l q : Nat} (h : swapFin.Sym p l q) : (p, l, q) ∈ [(1, 3, 2), (1, 2, 3), (2, 5, 4)] := by
  obtain ⟨s, e, h1, h2, h3, rfl⟩ := h
  simp only [swapFin, List.mem_cons, List.not_mem_nil, or_false, Prod.mk.injEq] at h1
  rcases h1 with ⟨rfl, rfl⟩ | ⟨rfl, rfl⟩ | ⟨rfl, rfl⟩ | ⟨rfl, rfl⟩ <;> simp at h2
  · rcases h2 with rfl | rfl <;> simp_all [NEdge.Reads]
  · subst h2; simp_all [NEdge.Reads]

theorem swapIni_lang {w : List Nat} (h : swapIni.Lang w) : w = [1] ∨ w = [3, 4] := by
  obtain ⟨i, h1, f, ⟨s, h2, h3⟩, h4⟩ := h
  have hf : f = 2 ∨ f = 4 := by
    simp only [swapIni, List.mem_cons, List.not_mem_nil, or_false, Prod.mk.injEq] at h2
    rcases h2 with ⟨rfl, rfl⟩ | ⟨rfl, rfl⟩ | ⟨rfl, rfl⟩ | ⟨rfl, rfl⟩ <;> simp_all
  have hi : i = 1 := by simpa [swapIni] using h1
  have he : ∀ x ∈ swapIni.states, ∀ e ∈ x.2.edges, e.eps = false := by decide
  rcases lang_inv he h4 with ⟨rfl, rfl⟩ | ⟨l, q, w', rfl, h5, h6⟩
  · omega
  · have := swapIni_sym h5
    subst hi
    simp at this
    rcases lang_inv he h6 with ⟨rfl, rfl⟩ | ⟨l', q', w'', rfl, h7, h8⟩
    · grind
    · have h9 := swapIni_sym h7
      simp at h9
      rcases lang_inv he h8 with ⟨rfl, rfl⟩ | ⟨l'', q'', w3, rfl, h10, -⟩
      · grind
      · have := swapIni_sym h10
        simp at this
        grind

theorem swapFin_not {w : List Nat} (h : swapFin.Lang w) : w ≠ [1] ∧ w ≠ [3, 4] := by
  obtain ⟨i, h1, f, ⟨s, h2, h3⟩, h4⟩ := h
  have hi : i = 1 := by simpa [swapFin] using h1
  have he : ∀ x ∈ swapFin.states, ∀ e ∈ x.2.edges, e.eps = false := by decide
  subst hi
  constructor
  · rintro rfl
    rcases lang_inv he h4 with ⟨h, -⟩ | ⟨l, q, w', h5, h6, -⟩
    · simp at h
    · have := swapFin_sym h6
      simp at h5 this
      omega
  · rintro rfl
    rcases lang_inv he h4 with ⟨h, -⟩ | ⟨l, q, w', h5, h6, h7⟩
    · simp at h
    · have := swapFin_sym h6
      simp only [List.cons.injEq] at h5
      rcases lang_inv he h7 with ⟨h, -⟩ | ⟨l', q', w'', h8, h9, -⟩
      · rw [h] at h5; simp at h5
      · have := swapFin_sym h9
        rw [h8] at h5
        simp at h5 this
        omega

/-- C67, the disagreement: after post*, when an abstract initial configuration is already final, the two paths are swapped
(`c56_post_paths_swapped`). Then `cegar_solve` can return a trace although the problem has no solution; here the
final stack 3 is neither an initial nor a final stack. -/
theorem c67_post_swapped_wrong :
    (listClient swapRules [0] [0]).solve HashOrder.id HashOrder.id .post swapIni swapFin 20 () swapMap = some (some ([], [3])) ∧
    ¬ (listProblem swapRules [0] [0]).Solvable (fun _ => True) swapIni swapFin ∧ ¬ swapIni.Lang [3] := by
  refine ⟨by decide +kernel, ?_, fun h => by simpa using swapIni_lang h⟩
  rintro ⟨q, v, q', v', h1, h2, -, h4, h5, h6⟩
  have hv := swapIni_lang h2
  have : (q', v') = (q, v) := by
    rcases Relation.ReflTransGen.cases_head h4 with h | ⟨c, h, -⟩
    · exact h.symm
    · generalize hx : (q, v) = x at h
      cases h with
      | mk r w hr =>
        have hr : r = ⟨0, 6, 0, .pop, 6, ()⟩ := List.mem_singleton.1 hr
        subst hr
        simp only [Prod.mk.injEq] at hx
        rw [hx.2] at hv
        simp at hv
  have hv' : v' = v := congrArg Prod.snd this
  have := swapFin_not h6
  rw [hv'] at this
  rcases hv with h | h
  · exact this.1 h
  · exact this.2 h

end Verif.Props
