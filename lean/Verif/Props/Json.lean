import Verif.Proofs.JsonMoves
import Verif.Props.Factory

/-!
# C48: printing a PDA as JSON and reading it back
-/

namespace Verif.Props

open Verif.Json

variable {L S W : Type}

/-- Specification: the move that a rule makes. -/
def moveOf (r : TRule L W) : StackMove Nat L W :=
  { src := r.src, pre := r.pre, weight := r.weight, dst := r.dst, repl := replacement r.op r.opLabel r.pre }

/-- Specification: the moves of a PDA with numbered states are the moves of `all_rules()`. -/
def IsMove [Inhabited L] (t : TPda L W) (m : StackMove Nat L W) : Prop := ∃ r ∈ t.allRules, m = moveOf r

/-- Specification: the moves of a PDA with named states. -/
def IsNMove [Inhabited L] [Inhabited S] (t : NPda L S W) (m : StackMove S L W) : Prop :=
  ∃ m0, IsMove t.toTPda m0 ∧ m = m0.map t.stateName id

/-- A PDA with named states: a name for every state, no name twice, different names printed differently. -/
structure NamedOK (strS : S → String) (t : NPda L S W) : Prop where
  len : t.states.length ≤ t.names.length
  inj : (t.names.map strS).Nodup

/-- The weights of the rules can be read back. -/
def WeightsReadable (io : WeightIO W) (t : TPda L W) : Prop := ∀ i, ∀ e ∈ (t.core.st i).rules, RoundTrips io e.1.weight

/-- No label is printed as `*`, which the parser takes for the wildcard. -/
def NoStar (str : L → String) (t : TPda L W) : Prop := ∀ a ∈ t.labels, str a ≠ "*"

/-! ## Weights -/

/-- C48 (weights): unweighted rules can always be read back. -/
theorem c48_weights_void (w : Unit) : RoundTrips WeightIO.void w := rfl

/-- C48 (weights): an integer weight can be read back exactly when it is neither the maximum of its type nor, for a signed
type, the minimum. -/
theorem c48_weights_int (nt : NumT) (hs : nt.signed = false → nt.nmin = 0) (w : Int) (hw : nt.nmin ≤ w ∧ w ≤ nt.nmax) :
    RoundTrips (WeightIO.scalar nt) w ↔ w ≠ nt.nmax ∧ (nt.signed = true → w ≠ nt.nmin) := by
  have hput : (WeightIO.scalar nt).put (WeightIO.scalar nt).zero w = some w ↔ WeightIO.inRange nt w = true := by
    show (if WeightIO.inRange nt w then some w else none) = some w ↔ _
    split <;> simp [*]
  have : RoundTrips (WeightIO.scalar nt) w ↔ (∀ z ∈ [w], z < 0 → nt.signed = true) ∧ WeightIO.inRange nt w = true := by
    rw [← hput]
    show (_ ∧ ∃ z, [w] = [z] ∧ _) ↔ _
    refine and_congr_right fun _ => ?_
    constructor
    · rintro ⟨z, hz, h⟩
      simp only [List.cons.injEq, and_true] at hz
      rw [hz] at h ⊢; exact h
    · exact fun h => ⟨w, rfl, h⟩
  rw [this]
  unfold WeightIO.inRange
  cases hsg : nt.signed with
  | true => simp only [List.mem_singleton, forall_eq, implies_true, Bool.not_true, Bool.false_or, Bool.and_eq_true, decide_eq_true_eq, true_and, forall_const]; omega
  | false =>
    have := hs hsg
    simp only [List.mem_singleton, forall_eq, Bool.false_eq_true, imp_false, Bool.not_false, Bool.true_or, Bool.and_true, decide_eq_true_eq, false_implies, and_true]
    omega

example : RoundTrips (WeightIO.scalar (.sint 8)) (-127) := by
  rw [c48_weights_int _ (by simp [NumT.sint]) _ (by simp [NumT.sint])]; simp [NumT.sint]

/-- C48 (weights): a vector weight can be read back exactly when each of its components can. -/
theorem c48_weights_vector (nt : NumT) (w : List Int) :
    RoundTrips (WeightIO.vector nt) w ↔ ∀ z ∈ w, RoundTrips (WeightIO.scalar nt) z := by
  have hone : ∀ z, RoundTrips (WeightIO.scalar nt) z ↔ (z < 0 → nt.signed = true) ∧ WeightIO.inRange nt z = true := by
    intro z
    show ((∀ y ∈ [z], y < 0 → nt.signed = true) ∧ ∃ y, [z] = [y] ∧ (if WeightIO.inRange nt y then some y else none) = some z) ↔ _
    simp only [List.mem_singleton, forall_eq]
    refine and_congr_right fun _ => ?_
    constructor
    · rintro ⟨y, hy, h⟩
      simp only [List.cons.injEq, and_true] at hy
      subst hy
      split at h
      · assumption
      · cases h
    · exact fun h => ⟨z, rfl, by rw [h]; rfl⟩
  have hfold : ∀ (l acc : List Int), l.foldlM (WeightIO.vector nt).put acc = some (acc ++ l) ↔ ∀ z ∈ l, WeightIO.inRange nt z = true := by
    intro l
    induction l with
    | nil => intro acc; simp
    | cons z l ih =>
      intro acc
      rw [List.foldlM_cons]
      show (Option.bind (if WeightIO.inRange nt z then some (acc ++ [z]) else none) fun a => l.foldlM (WeightIO.vector nt).put a) = _ ↔ _
      cases hz : WeightIO.inRange nt z with
      | false => simp [hz]
      | true =>
        have := ih (acc ++ [z])
        rw [List.append_assoc] at this
        simp only [if_true, Option.bind_some, List.mem_cons, forall_eq_or_imp, hz, true_and]
        exact this
  have h0 := hfold w []
  rw [List.nil_append] at h0
  show ((∀ z ∈ w, z < 0 → nt.signed = true) ∧ w.foldlM (WeightIO.vector nt).put [] = some w) ↔ _
  rw [h0]
  simp only [hone]
  exact ⟨fun h z hz => ⟨h.1 z hz, h.2 z hz⟩, fun h => ⟨fun z hz => (h z hz).1, fun z hz => (h z hz).2⟩⟩

/-! ## Numbered states -/

variable [LinearOrder W]

/-- C48 with numbered states. What is missing from the full statement: the labels of the PDA that was read are those that
occur in a printed rule, and a wildcard rule is a move for these labels only. For these labels the moves are the same. -/
theorem c48_numbered_partial [Inhabited L] (io : WeightIO W) (str : L → String) {t : TPda L W} (ht : TypedOK t)
    (hstar : NoStar str t) (hw : WeightsReadable io t) :
    ∃ t', parsePda io false (t.toJson io str).events = some t' ∧ TypedOK t'.toTPda ∧
      (∀ l, l ∈ t'.labels ↔ ∃ a, Used t a ∧ l = str a) ∧
      ∀ m, IsMove t'.toTPda m ↔ m.pre ∈ t'.labels ∧ ∃ m0, IsMove t m0 ∧ m = m0.map id str := by
  obtain ⟨p, h1, h2⟩ := parse_numbered (io := io) (str := str) hw
  refine ⟨p, h1, ⟨h2.nodup, h2.wf⟩, fun l => (h2.lbl l).trans (lFin_iff ht.wf hstar l), fun m => ?_⟩
  have hm := moves_read ht.wf hstar h2 m.src m.pre m.weight m.dst m.repl
  unfold IsMove
  constructor
  · rintro ⟨r', hr', rfl⟩
    obtain ⟨h3, r, hr, ha, hb, hl, hwt, hrep⟩ := hm.1 ⟨r', hr', rfl, rfl, rfl, rfl, rfl⟩
    refine ⟨h3, _, ⟨r, hr, rfl⟩, ?_⟩
    have ha' : (r.src : Int) = r'.src := ha
    have hb' : (r.dst : Int) = r'.dst := hb
    have ha2 : r.src = r'.src := by omega
    have hb2 : r.dst = r'.dst := by omega
    unfold moveOf StackMove.map at *
    simp only at *
    rw [ha2, hb2, ← hl, ← hwt, ← hrep]; rfl
  · rintro ⟨h3, _, ⟨r, hr, rfl⟩, rfl⟩
    obtain ⟨r', hr', e1, e2, e3, e4, e5⟩ := hm.2 ⟨h3, r, hr, rfl, rfl, rfl, rfl, rfl⟩
    refine ⟨r', hr', ?_⟩
    unfold moveOf
    rw [e5, e1, e2, e3, e4]
    rfl

/-- C48 with numbered states, when every label occurs in a printed rule: reading what was printed gives the same moves. -/
theorem c48_numbered_all_labels [Inhabited L] (io : WeightIO W) (str : L → String) {t : TPda L W} (ht : TypedOK t)
    (hstar : NoStar str t) (hw : WeightsReadable io t) (hused : ∀ a ∈ t.labels, Used t a) :
    ∃ t', parsePda io false (t.toJson io str).events = some t' ∧ TypedOK t'.toTPda ∧
      ∀ m, IsMove t'.toTPda m ↔ ∃ m0, IsMove t m0 ∧ m = m0.map id str := by
  obtain ⟨t', h1, h2, h3, h4⟩ := c48_numbered_partial io str ht hstar hw
  refine ⟨t', h1, h2, fun m => (h4 m).trans ⟨fun h => h.2, fun h => ⟨?_, h⟩⟩⟩
  obtain ⟨_, ⟨r, hr, rfl⟩, rfl⟩ := h
  obtain ⟨u, hu, rfl⟩ := (TPda.mem_allRules t r).1 hr
  have hlt := ((covers_has ht.wf u).1 hu).2
  exact (h3 _).2 ⟨_, hused _ (symbol_mem (t := t) hlt).1, rfl⟩

/-- C48 with numbered states, when no rule is a wildcard rule: reading what was printed gives the same moves. -/
theorem c48_numbered_no_wildcard [Inhabited L] (io : WeightIO W) (str : L → String) {t : TPda L W} (ht : TypedOK t)
    (hstar : NoStar str t) (hw : WeightsReadable io t) (hwild : ∀ i, ∀ e ∈ (t.core.st i).rules, e.2.wildcard = false) :
    ∃ t', parsePda io false (t.toJson io str).events = some t' ∧ TypedOK t'.toTPda ∧
      ∀ m, IsMove t'.toTPda m ↔ ∃ m0, IsMove t m0 ∧ m = m0.map id str := by
  obtain ⟨t', h1, h2, h3, h4⟩ := c48_numbered_partial io str ht hstar hw
  refine ⟨t', h1, h2, fun m => (h4 m).trans ⟨fun h => h.2, fun h => ⟨?_, h⟩⟩⟩
  obtain ⟨_, ⟨r, hr, rfl⟩, rfl⟩ := h
  obtain ⟨u, hu, rfl⟩ := (TPda.mem_allRules t r).1 hr
  obtain ⟨⟨ls, hls, hc⟩, _⟩ := (covers_has ht.wf u).1 hu
  have hwl := hwild _ _ hls
  refine (h3 _).2 ⟨_, ⟨u.src, _, hls, .inl ⟨hwl, u.pre, hc.resolve_left (by rw [hwl]; simp), rfl⟩⟩, rfl⟩

/-! ## Named states -/

/-- C48 with named states, with the same restriction on wildcard rules as `c48_numbered_partial`. The names of the states are
the same, and the moves between the named states are the same for the labels that were read. -/
theorem c48_named_partial [Inhabited L] [Inhabited S] (io : WeightIO W) (str : L → String) (strS : S → String) {t : NPda L S W}
    (ht : TypedOK t.toTPda) (hn : NamedOK strS t) (hstar : NoStar str t.toTPda) (hw : WeightsReadable io t.toTPda) :
    ∃ t', parsePda io true (t.toJson io str strS).events = some t' ∧ TypedOK t'.toTPda ∧ t'.names.Nodup ∧
      (∀ s, s ∈ t'.names ↔ ∃ n ∈ t.names, s = strS n) ∧
      (∀ l, l ∈ t'.labels ↔ ∃ a, Used t.toTPda a ∧ l = str a) ∧
      ∀ m, IsNMove t' m ↔ m.pre ∈ t'.labels ∧ ∃ m0, IsNMove t m0 ∧ m = m0.map strS str := by
  have hname : ∀ i (h : i < t.names.length), t.stateName i = t.names[i] := by
    intro i h; unfold NPda.stateName; rw [List.getElem?_eq_getElem h]; rfl
  have hinj : ∀ i < t.names.length, ∀ j < t.names.length, strS (t.stateName i) = strS (t.stateName j) → i = j := by
    intro i hi j hj h
    rw [hname i hi, hname j hj] at h
    exact (List.Nodup.getElem_inj_iff hn.inj (hi := by simpa using hi) (hj := by simpa using hj)).1 (by simpa using h)
  obtain ⟨p, h1, h2, h3⟩ := parse_named (io := io) (str := str) hn.len hinj (fun i e he => Nat.lt_of_lt_of_le (ht.wf.toLt i e he) hn.len) hw
  have hbound : ∀ r ∈ t.toTPda.allRules, r.src < t.names.length ∧ r.dst < t.names.length := by
    intro r hr
    obtain ⟨u, hu, rfl⟩ := (TPda.mem_allRules t.toTPda r).1 hr
    obtain ⟨⟨ls, hls, _⟩, _⟩ := (covers_has ht.wf u).1 hu
    have hd := ht.wf.toLt _ _ hls
    have hs : u.src < t.states.length := by
      by_contra h
      rw [Pda.st_default (p := t.core) (by show t.states.length ≤ _; omega)] at hls
      cases hls
    exact ⟨Nat.lt_of_lt_of_le hs hn.len, Nat.lt_of_lt_of_le hd hn.len⟩
  have hstate : ∀ {a : Nat} {n : String}, p.names[a]? = some n → p.stateName a = n := by
    intro a n h; unfold NPda.stateName; rw [h]; rfl
  refine ⟨p, h1, ⟨h2.nodup, h2.wf⟩, h2.names, ?_, fun l => (h2.lbl l).trans (lFin_iff ht.wf hstar l), fun m => ?_⟩
  · intro s
    constructor
    · intro hs
      obtain ⟨i, hi, rfl⟩ := h2.only s hs
      exact ⟨_, List.getElem_mem hi, by rw [hname i hi]⟩
    · rintro ⟨n, hnm, rfl⟩
      obtain ⟨i, hi, rfl⟩ := List.getElem_of_mem hnm
      rw [← hname i hi]; exact h3 i hi
  · unfold IsNMove IsMove
    constructor
    · rintro ⟨_, ⟨r', hr', rfl⟩, rfl⟩
      obtain ⟨h4, r, hr, ha, hb, hl, hwt, hrep⟩ := (moves_read ht.wf hstar h2 r'.src r'.pre r'.weight r'.dst
        (replacement r'.op r'.opLabel r'.pre)).1 ⟨r', hr', rfl, rfl, rfl, rfl, rfl⟩
      refine ⟨h4, _, ⟨_, ⟨r, hr, rfl⟩, rfl⟩, ?_⟩
      unfold moveOf StackMove.map
      simp only [id]
      rw [List.map_id, List.map_id, hrep, hstate ha, hstate hb, hl, hwt]
    · rintro ⟨h4, _, ⟨_, ⟨r, hr, rfl⟩, rfl⟩, rfl⟩
      obtain ⟨hb1, hb2⟩ := hbound r hr
      obtain ⟨a, ha⟩ := List.getElem?_of_mem (h3 _ hb1)
      obtain ⟨b, hb⟩ := List.getElem?_of_mem (h3 _ hb2)
      obtain ⟨r', hr', e1, e2, e3, e4, e5⟩ := (moves_read ht.wf hstar h2 a (str r.pre) r.weight b
        ((replacement r.op r.opLabel r.pre).map str)).2 ⟨h4, r, hr, ha, hb, rfl, rfl, rfl⟩
      refine ⟨_, ⟨r', hr', rfl⟩, ?_⟩
      unfold moveOf StackMove.map
      simp only [id]
      rw [e5, e1, e2, e3, e4, hstate ha, hstate hb]
      simp

/-- C48 with named states, when every label occurs in a printed rule: reading what was printed gives the same moves. -/
theorem c48_named_all_labels [Inhabited L] [Inhabited S] (io : WeightIO W) (str : L → String) (strS : S → String) {t : NPda L S W}
    (ht : TypedOK t.toTPda) (hn : NamedOK strS t) (hstar : NoStar str t.toTPda) (hw : WeightsReadable io t.toTPda)
    (hused : ∀ a ∈ t.labels, Used t.toTPda a) :
    ∃ t', parsePda io true (t.toJson io str strS).events = some t' ∧ TypedOK t'.toTPda ∧
      ∀ m, IsNMove t' m ↔ ∃ m0, IsNMove t m0 ∧ m = m0.map strS str := by
  obtain ⟨t', h1, h2, _, _, h3, h4⟩ := c48_named_partial io str strS ht hn hstar hw
  refine ⟨t', h1, h2, fun m => (h4 m).trans ⟨fun h => h.2, fun h => ⟨?_, h⟩⟩⟩
  obtain ⟨_, ⟨_, ⟨r, hr, rfl⟩, rfl⟩, rfl⟩ := h
  obtain ⟨u, hu, rfl⟩ := (TPda.mem_allRules t.toTPda r).1 hr
  have hlt := ((covers_has ht.wf u).1 hu).2
  exact (h3 _).2 ⟨_, hused _ (symbol_mem (t := t.toTPda) hlt).1, rfl⟩

/-! ## A case that meets the hypotheses -/

/-- A PDA with labels `a` and `b`, a wildcard rule, a NOOP rule and weights. -/
def jsonCalls : List (PdaCall Int) :=
  [.rule 0 { «to» := 1, op := .push, weight := 3, opLabel := 1 } false [0],
   .rule 0 { «to» := 1, op := .noop, weight := -2, opLabel := epsilon } false [0, 1],
   .rule 1 { «to» := 0, op := .pop, weight := 0, opLabel := epsilon } true []]

def jsonPda : NPda String String Int :=
  { labels := ["a", "b"], states := (Pda.build 2 jsonCalls).states, names := ["p", "q", "r"] }

def int32 : NumT := NumT.sint 32

theorem int32_bounds : int32.signed = true ∧ int32.nmin = -2147483648 ∧ int32.nmax = 2147483647 := ⟨rfl, rfl, rfl⟩

theorem jsonPda_core : jsonPda.core = Pda.build 2 jsonCalls := rfl

theorem jsonPda_ok : TypedOK jsonPda.toTPda ∧ NamedOK id jsonPda ∧ NoStar id jsonPda.toTPda ∧
    WeightsReadable (WeightIO.scalar int32) jsonPda.toTPda ∧ ∀ a ∈ jsonPda.labels, Used jsonPda.toTPda a := by
  refine ⟨⟨by simp [jsonPda], ?_⟩, ⟨by decide +kernel, by decide⟩, ?_, ?_, ?_⟩
  · rw [jsonPda_core]
    exact Pda.WF_build 2 jsonCalls (by simp [jsonCalls, PdaCall.OK, WSorted])
  · intro a ha
    simp only [jsonPda, List.mem_cons, List.not_mem_nil, or_false] at ha
    rcases ha with rfl | rfl <;> decide
  · have hall : ∀ ps ∈ jsonPda.states, ∀ e ∈ ps.rules, -2147483648 < e.1.weight ∧ e.1.weight < 2147483647 := by decide +kernel
    intro i e he
    unfold Pda.st at he
    cases hs : jsonPda.core.states[i]? with
    | none => rw [hs] at he; cases he
    | some ps =>
      rw [hs] at he
      have := hall ps (List.mem_of_getElem? hs) e he
      obtain ⟨b1, b2, b3⟩ := int32_bounds
      rw [c48_weights_int _ (by rw [b1]; simp) _ (by rw [b2, b3]; omega), b2, b3]
      omega
  · intro a ha
    refine ⟨0, ({ «to» := 1, op := .noop, weight := -2, opLabel := epsilon }, { wildcard := false, labels := [0, 1] }), by decide +kernel, .inl ⟨rfl, ?_⟩⟩
    simp only [jsonPda, List.mem_cons, List.not_mem_nil, or_false] at ha
    rcases ha with rfl | rfl
    · exact ⟨0, by simp, rfl⟩
    · exact ⟨1, by simp, rfl⟩

example : ∃ t', parsePda (WeightIO.scalar int32) true (jsonPda.toJson (WeightIO.scalar int32) id id).events = some t' ∧
    ∀ m, IsNMove t' m ↔ ∃ m0, IsNMove jsonPda m0 ∧ m = m0.map id id := by
  obtain ⟨h1, h2, h3, h4, h5⟩ := jsonPda_ok
  obtain ⟨t', a, _, b⟩ := c48_named_all_labels _ id id h1 h2 h3 h4 h5
  exact ⟨t', a, b⟩

example : ∃ t', parsePda (WeightIO.scalar int32) false (jsonPda.toTPda.toJson (WeightIO.scalar int32) id).events = some t' ∧
    ∀ m, IsMove t'.toTPda m ↔ ∃ m0, IsMove jsonPda.toTPda m0 ∧ m = m0.map id id := by
  obtain ⟨h1, _, h3, h4, h5⟩ := jsonPda_ok
  obtain ⟨t', a, _, b⟩ := c48_numbered_all_labels _ id h1 h3 h4 h5
  exact ⟨t', a, b⟩

/-! ## Where the full statement fails -/

/-- One wildcard POP rule over the alphabet `a`: in the printed document the label `a` does not occur. -/
def wildPda : TPda String Unit :=
  { labels := ["a"], states := (Pda.build 1 [.rule 0 { «to» := 1, op := .pop, weight := (), opLabel := epsilon } true []]).states }

/-- C48 fails: this PDA has a move, and the PDA read from what it prints has none. -/
theorem c48_false_unused_label : IsMove wildPda ⟨0, "a", (), 1, []⟩ ∧
    ∃ t', parsePda WeightIO.void false (wildPda.toJson WeightIO.void id).events = some t' ∧ ∀ m, ¬ IsMove t'.toTPda m := by
  refine ⟨⟨⟨0, "a", 1, .pop, default, ()⟩, by decide +kernel, rfl⟩, ?_⟩
  have h : ∃ t', parsePda WeightIO.void false (wildPda.toJson WeightIO.void id).events = some t' ∧ t'.toTPda.allRules = [] := by
    have : (parsePda WeightIO.void false (wildPda.toJson WeightIO.void id).events).map (fun t' => t'.toTPda.allRules) = some [] := by decide +kernel
    cases hp : parsePda WeightIO.void false (wildPda.toJson WeightIO.void id).events with
    | none => rw [hp] at this; cases this
    | some t' => rw [hp] at this; exact ⟨t', rfl, by simpa using this⟩
  obtain ⟨t', h1, h2⟩ := h
  refine ⟨t', h1, ?_⟩
  rintro m ⟨r, hr, _⟩
  rw [h2] at hr; cases hr

/-- Labels `*` and `a`; a POP rule for `*` and a SWAP rule for `a`. -/
def starPda : TPda String Unit :=
  { labels := ["*", "a"], states := (Pda.build 2 [.rule 0 { «to» := 1, op := .pop, weight := (), opLabel := epsilon } false [0],
      .rule 1 { «to» := 0, op := .swap, weight := (), opLabel := 1 } false [1]]).states }

/-- C48 fails for a label named `*`: its rule is read as a rule for every label. -/
theorem c48_false_star : ¬ IsMove starPda ⟨0, "a", (), 1, []⟩ ∧
    ∃ t', parsePda WeightIO.void false (starPda.toJson WeightIO.void id).events = some t' ∧ IsMove t'.toTPda ⟨0, "a", (), 1, []⟩ := by
  constructor
  · rintro ⟨r, hr, hm⟩
    have : ∀ r ∈ starPda.allRules, r.src = 0 → r.pre ≠ "a" := by decide +kernel
    exact this r hr (congrArg StackMove.src hm).symm (congrArg StackMove.pre hm).symm
  · have : (parsePda WeightIO.void false (starPda.toJson WeightIO.void id).events).any
        (fun t' => t'.toTPda.allRules.contains ⟨0, "a", 1, .pop, default, ()⟩) = true := by decide +kernel
    cases hp : parsePda WeightIO.void false (starPda.toJson WeightIO.void id).events with
    | none => rw [hp] at this; cases this
    | some t' =>
      rw [hp] at this
      exact ⟨t', rfl, _, by simpa using this, rfl⟩

/-- A rule whose weight is the maximum of its type. -/
def maxPda : TPda String Int :=
  { labels := ["a"], states := (Pda.build 1 [.rule 0 { «to» := 0, op := .pop, weight := (2147483647 : Int), opLabel := epsilon } false [0]]).states }

/-- C48 fails: a weight that is the maximum of its type is printed, but not accepted. -/
theorem c48_false_max_weight : parsePda (WeightIO.scalar int32) false (maxPda.toJson (WeightIO.scalar int32) id).events = none := by
  have : (parsePda (WeightIO.scalar int32) false (maxPda.toJson (WeightIO.scalar int32) id).events).isNone = true := by decide +kernel
  simpa using this

/-- The parser means to skip unknown properties of the top-level object. It does so for `{"info": {"a": 1}, ..}`, but
fails for `{"info": {"a": 1, "b": 2}, ..}`. -/
theorem c48_false_unknown_property :
    (parsePda WeightIO.void false ([.startObj, .key "info", .startObj, .key "a", .uns 1, .endObj] ++
      [.key "pda", .startObj, .key "states", .startArr, .endArr, .endObj, .endObj])).isSome = true ∧
    (parsePda WeightIO.void false ([.startObj, .key "info", .startObj, .key "a", .uns 1, .key "b", .uns 2, .endObj] ++
      [.key "pda", .startObj, .key "states", .startArr, .endArr, .endObj, .endObj])).isNone = true := by
  constructor <;> decide +kernel

end Verif.Props
