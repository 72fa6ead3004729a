import Verif.Proofs.PAutParser
import Verif.Props.FromNfa
import Verif.Props.Automata
import Verif.Props.Regex

/-! # C72: P-automaton expressions

What `PAutomatonParser::parse_string` makes of `<S1, R1> | ... | <Sn, Rn>`. -/

namespace Verif.Props

open Verif

variable {L S W : Type}

/-! ## `or_extend` keeps the precondition of the saturations -/

theorem orExtend_n (h : HashOrder) (size : Nat) (a b : Aut W) (hsb : size ≤ b.n) :
    (a.orExtend h size b).n = a.n + (b.n - size) := by
  have hE : ∀ (off src : Nat) (ts : List Tr) (x : Aut W), (ts.foldl (Aut.orEdge size off src b) x).acc = x.acc := by
    intro off src ts
    induction ts with
    | nil => exact fun _ => rfl
    | cons t ts ih =>
      intro x
      rw [List.foldl_cons, ih]
      unfold Aut.orEdge
      split
      · exact Aut.acc_emplaceEdge _ _ _
      · rfl
  have key : ∀ m, ((List.range m).foldl (Aut.orRound h size (a.n - size) b) a).n = a.n + (m - size) := by
    intro m
    induction m with
    | zero => simp
    | succ m ih =>
      rw [List.range_succ, List.foldl_append, List.foldl_cons, List.foldl_nil]
      generalize (List.range m).foldl (Aut.orRound h size (a.n - size) b) a = x at ih
      unfold Aut.orRound
      simp only
      unfold Aut.n at *
      rw [hE]
      by_cases h1 : m ≥ size
      · rw [if_pos h1]
        simp only [Aut.addState, List.length_append, List.length_singleton]
        omega
      · rw [if_neg h1]
        split
        · simp only [Aut.setAccepting, List.length_modify]; omega
        · omega
  exact key b.n

theorem orExtend_nodup (h : HashOrder) (size : Nat) (a b : Aut W) (ha : (keys a.edges).Nodup) :
    (keys (a.orExtend h size b).edges).Nodup := by
  have hE : ∀ (off src : Nat) (ts : List Tr) (x : Aut W), (keys x.edges).Nodup →
      (keys (ts.foldl (Aut.orEdge size off src b) x).edges).Nodup := by
    intro off src ts
    induction ts with
    | nil => exact fun _ hx => hx
    | cons t ts ih =>
      intro x hx
      refine ih _ ?_
      unfold Aut.orEdge
      split
      · exact Aut.nodup_emplaceEdge hx _ _
      · exact hx
  have key : ∀ (l : List Nat) (x : Aut W), (keys x.edges).Nodup →
      (keys (l.foldl (Aut.orRound h size (a.n - size) b) x).edges).Nodup := by
    intro l
    induction l with
    | nil => exact fun _ hx => hx
    | cons t ts ih =>
      intro x hx
      refine ih _ (hE _ _ _ _ ?_)
      split
      · exact hx
      · split <;> exact hx
  exact key _ a ha

/-- C17: the union is a legal input for the saturations if both automata are. -/
theorem c17_or_extend_ok (h : HashOrder) {p : Pda W} {a b : Aut W} (ha : PAut p a) (hb : PAut p b) :
    PAut p (a.orExtend h p.size b) := by
  have hn := orExtend_n h p.size a b hb.size_le
  have hsa := ha.size_le
  have hsb := hb.size_le
  obtain ⟨h1, _⟩ := Aut.orExtend_spec h p.size a b ha.size_le hb.size_le fun t ht => (hb.valid t ht).1
  have hsh : ∀ q, q < b.n → Aut.shift p.size (a.n - p.size) q < a.n + (b.n - p.size) := by
    intro q hq
    unfold Aut.shift
    split <;> omega
  refine ⟨⟨by omega, fun t ht => ?_, orExtend_nodup h _ a b ha.nodup⟩, fun t ht => ?_⟩
  · rw [hn]
    rcases (h1 t).1 ht with h2 | ⟨u, h2, rfl⟩
    · have := ha.valid t h2
      exact ⟨Nat.lt_of_lt_of_le this.1 (by omega), this.2.1, Nat.lt_of_lt_of_le this.2.2 (by omega)⟩
    · have := hb.valid u h2
      exact ⟨hsh _ this.1, this.2.1, hsh _ this.2.2⟩
  · rcases (h1 t).1 ht with h2 | ⟨u, h2, rfl⟩
    · exact ha.noInto t h2
    · have := hb.noInto u h2
      show p.size ≤ Aut.shift p.size (a.n - p.size) u.dst
      unfold Aut.shift
      split <;> omega

/-! ## One atom -/

theorem sortUnique_spec (l : List Nat) : SSorted (sortUnique l) ∧ ∀ x, x ∈ sortUnique l ↔ x ∈ l := by
  have h := uniqueBy_spec (sortBy_incr l)
  refine ⟨h.1, fun x => ?_⟩
  rw [← mem_sortBy natLt l x]
  exact h.2 x

/-- A state that stops the parser. -/
def Stops (find : S → Option (Option Nat)) (s : StateTok S) : Prop :=
  find s.name = none ∨ (find s.name = some none ∧ s.quoted = false)

theorem addStates_spec (find : S → Option (Option Nat)) (ss : List (StateTok S)) (b : PBuild L W) :
    (b.addStates find ss = none ↔ ∃ s ∈ ss, Stops find s) ∧
    ∀ b', b.addStates find ss = some b' → b'.pda = b.pda ∧ b'.cur = b.cur ∧
      ∀ c, c ∈ b'.states ↔ c ∈ b.states ∨ ∃ s ∈ ss, find s.name = some (some c) := by
  induction ss generalizing b with
  | nil =>
    refine ⟨by simp [PBuild.addStates], fun b' h => ?_⟩
    cases h
    simp
  | cons s ss ih =>
    simp only [PBuild.addStates, PBuild.addState]
    cases hf : find s.name with
    | none => simp [Stops, hf]
    | some o =>
      cases o with
      | some id =>
        obtain ⟨h1, h2⟩ := ih { b with states := b.states ++ [id] }
        refine ⟨?_, fun b' h => ?_⟩
        · simp only [Option.bind_some]
          rw [h1]
          simp [Stops, hf]
        · obtain ⟨k1, k2, k3⟩ := h2 b' h
          refine ⟨k1, k2, fun c => ?_⟩
          rw [k3]
          simp only [List.mem_append, List.mem_cons, List.not_mem_nil, or_false, exists_eq_or_imp, hf, Option.some.injEq,
            or_assoc]
          rw [eq_comm (a := c)]
      | none =>
        simp only
        cases hq : s.quoted with
        | true =>
          obtain ⟨h1, h2⟩ := ih b
          refine ⟨?_, fun b' h => ?_⟩
          · simp only [if_true, Option.bind_some]
            rw [h1]
            simp [Stops, hf, hq]
          · obtain ⟨k1, k2, k3⟩ := h2 b' h
            refine ⟨k1, k2, fun c => ?_⟩
            rw [k3]
            simp [hf]
        | false => simp [Stops, hf, hq]

section
variable [DecidableEq L]

/-- `w` is the list of numbers of the labels `ls`. -/
def Numbers (t : TPda L W) (w : List Nat) (ls : List L) : Prop := w.map (fun i => t.labels[i]?) = ls.map some

theorem numbers_iff {t : TPda L W} (hn : t.labels.Nodup) (w : List Nat) (ls : List L) :
    Numbers t w ls ↔ (∀ l ∈ ls, l ∈ t.labels) ∧ w = ls.map fun l => t.labels.idxOf l := by
  unfold Numbers
  induction ls generalizing w with
  | nil => simp
  | cons l ls ih =>
    cases w with
    | nil => simp
    | cons i w =>
      simp only [List.map_cons, List.cons.injEq, ih, List.mem_cons, forall_eq_or_imp]
      have : t.labels[i]? = some l ↔ l ∈ t.labels ∧ i = t.labels.idxOf l := by
        constructor
        · intro h
          obtain ⟨hi, he⟩ := List.getElem?_eq_some_iff.1 h
          subst he
          exact ⟨List.getElem_mem hi, (hn.idxOf_getElem i hi).symm⟩
        · rintro ⟨h, rfl⟩
          rw [List.getElem?_eq_getElem (List.idxOf_lt_length_of_mem h), List.getElem_idxOf]
      rw [this]
      constructor
      · rintro ⟨⟨h1, h2⟩, h3, h4⟩; exact ⟨⟨h1, h3⟩, h2, h4⟩
      · rintro ⟨⟨h1, h3⟩, h2, h4⟩; exact ⟨⟨h1, h2⟩, h3, h4⟩

/-- What the builder has after some atoms. -/
structure BuildLegal (b : PBuild L W) : Prop where
  states : b.states = []
  paut : ∀ a, b.cur = some a → PAut b.pda.core a

/-- What the builder has after some atoms: `D` is what they describe. -/
structure BuildOK (T : List L) (D : Nat → List L → Prop) (b : PBuild L W) : Prop where
  labels : b.pda.labels <+: T
  lang : ∀ a, b.cur = some a → ∀ (h : HashOrder) (c : Nat), c < b.pda.states.length → ∀ ls, (∀ l ∈ ls, l ∈ T) →
    (a.accepts h c (ls.map fun l => T.idxOf l) = true ↔ D c ls)
  none : b.cur = none → ∀ c ls, ¬D c ls

theorem idxOf_inj (T : List L) (a b : L) (ha : a ∈ T) (hb : b ∈ T) (h : T.idxOf a = T.idxOf b) : a = b :=
  (List.idxOf_inj ha).1 h

theorem idxOf_lt_prefix {l T : List L} (hp : l <+: T) (hn : T.Nodup) {a : L} (ha : a ∈ T) : T.idxOf a < l.length ↔ a ∈ l := by
  constructor
  · intro h
    obtain ⟨m, rfl⟩ := hp
    by_contra hc
    rw [List.idxOf_append, if_neg hc] at h
    omega
  · intro h
    rw [idxOf_prefix hp h]
    exact List.idxOf_lt_length_of_mem h

omit [DecidableEq L] in
theorem core_mono {p : TPda L W} {p' : TPda L W} {a : Aut W} (hs : p'.states = p.states) (hl : p.labels <+: p'.labels)
    (h : PAut p.core a) : PAut p'.core a := by
  have h1 : p'.core.size = p.core.size := by simp [Pda.size, TPda.core, hs]
  refine ⟨⟨by rw [h1]; exact h.size_le, fun t ht => ?_, h.nodup⟩, fun t ht => by rw [h1]; exact h.noInto t ht⟩
  have := h.valid t ht
  exact ⟨this.1, Nat.lt_of_lt_of_le this.2.1 hl.length_le, this.2.2⟩

/-- The NFA of an atom. -/
theorem atom_nfa {addr : Nat → Nat} (ha : Function.Injective addr) (t : TPda L W) (e : Option (SAlt L)) :
    ∃ m, parseRegex addr (encOpt t e).2 = some m ∧ m.WF ∧
      LabelsGrow t (encOpt t e).1 (PAtom.labels (S := S) ⟨[], e⟩) ∧
      m.Symbols (· < (encOpt t e).1.labels.length) ∧
      ∀ T, (encOpt t e).1.labels <+: T → PAtom.ok (S := S) ⟨[], e⟩ = true → ∀ ls, (∀ l ∈ ls, l ∈ T) →
        (m.Lang (ls.map fun l => T.idxOf l) ↔ PAtom.Stack (S := S) ⟨[], e⟩ ls) := by
  cases e with
  | none =>
    refine ⟨_, rfl, (Nfa.ofBool_spec (addr 0) true).1, LabelsGrow.refl t, ?_, fun T _ _ ls _ => ?_⟩
    · intro q s hs e he
      simp only [Nfa.ofBool, List.mem_singleton] at hs
      cases hs
      simp at he
    · rw [(Nfa.ofBool_spec (addr 0) true).2]
      simp [PAtom.Stack]
  | some e =>
    obtain ⟨h1, h2⟩ := e.enc_spec t
    obtain ⟨m, h3, h4, h5⟩ := c49_regex_partial ha (e.enc t).2
    refine ⟨m, h3, h4, h1, ?_, fun T hT hok ls hls => ?_⟩
    · refine parse_symbols addr e (f := fun l => (e.enc t).1.labels.idxOf l) (fun l hl => ?_) m ?_
      · exact List.idxOf_lt_length_of_mem ((h1.mem l).2 (.inr hl))
      · rw [← h2 _ List.prefix_rfl]; exact h3
    · have he := h2 T hT
      rw [h5 (by rw [he, (e.shape_toR _).2.2]; exact hok), he]
      exact SAlt.den_toR (U := (· ∈ T)) (idxOf_inj T) e
        (fun l hl => hT.subset ((h1.mem l).2 (.inr hl))) ls hls

variable [Zero W]

/-- One atom. -/
theorem atom_spec (h : HashOrder) {addr : Nat → Nat} (ha : Function.Injective addr) {find : S → Option (Option Nat)}
    (b : PBuild L W) (hfind : ∀ s c, find s = some (some c) → c < b.pda.states.length) (a : PAtom L S) :
    (b.atom h addr find a = none ↔ ∃ s ∈ a.states, Stops find s) ∧
    ∀ b', b.atom h addr find a = some b' → b'.cur.isSome = true ∧ LabelsGrow b.pda b'.pda a.labels ∧
      (BuildLegal b → BuildLegal b') ∧
      ∀ (T : List L) (D : Nat → List L → Prop), T.Nodup → b'.pda.labels <+: T → a.ok = true → BuildLegal b → BuildOK T D b →
        BuildOK T (fun c ls => D c ls ∨ (a.Describes find c ls ∧ ∀ l ∈ ls, l ∈ b.pda.labels ++ a.labels)) b' := by
  obtain ⟨h1, h2⟩ := addStates_spec find a.states b
  unfold PBuild.atom
  constructor
  · rw [← h1, Option.bind_eq_none_iff]
    constructor
    · intro h3
      cases hs : b.addStates find a.states with
      | none => rfl
      | some b1 =>
        have := h3 b1 hs
        obtain ⟨m, hm, _⟩ := atom_nfa (S := S) ha b1.pda a.expr
        rw [hm] at this
        cases this
    · intro h3 b1 hb1
      rw [h3] at hb1
      cases hb1
  · intro b' hb'
    obtain ⟨b1, hb1, h3⟩ := Option.bind_eq_some_iff.1 hb'
    obtain ⟨k1, k2, k3⟩ := h2 b1 hb1
    obtain ⟨m, hm, hwf, hg, hsym, hlang⟩ := atom_nfa (S := S) ha b1.pda a.expr
    rw [hm] at h3
    cases h3
    have hab : PAtom.labels (S := S) ⟨[], a.expr⟩ = a.labels := rfl
    have hst : ∀ w, PAtom.Stack (S := S) ⟨[], a.expr⟩ w ↔ a.Stack w := fun w => Iff.rfl
    rw [hab, k1] at hg
    rw [k1] at hm hsym hlang
    obtain ⟨s1, s2⟩ := sortUnique_spec b1.states
    have hsz : (encOpt b.pda a.expr).1.core.size = (encOpt b.pda a.expr).1.states.length := rfl
    have hmem : b.states = [] → ∀ c, c ∈ sortUnique b1.states ↔ a.Lists find c := by
      intro hs c
      rw [s2, k3, hs]
      simp [PAtom.Lists]
    have hlt : b.states = [] → ∀ c ∈ sortUnique b1.states, c < (encOpt b.pda a.expr).1.states.length := by
      intro hs c hc
      obtain ⟨s, _, hs⟩ := (hmem hs c).1 hc
      rw [hg.states]
      exact hfind _ _ hs
    have hnew := fun hs => c16_from_nfa_ok (W := W) hwf (encOpt b.pda a.expr).1.core hsym s1 (hlt hs)
    refine ⟨?_, ?_, ?_, ?_⟩
    · simp only [PBuild.finish]; split <;> rfl
    · simp only [PBuild.finish, k1]; exact hg
    · intro hb
      simp only [PBuild.finish, k1, k2]
      refine ⟨rfl, fun x hx => ?_⟩
      cases hc0 : b.cur with
      | none => rw [hc0] at hx; cases hx; exact hnew hb.states
      | some a0 =>
        rw [hc0] at hx
        cases hx
        exact c17_or_extend_ok h (core_mono hg.states hg.prefix_ (hb.paut a0 hc0)) (hnew hb.states)
    intro T D hT hp hok hl hb
    simp only [PBuild.finish, k1, k2] at hp ⊢
    have hnl : ∀ (h' : HashOrder) c, c < (encOpt b.pda a.expr).1.states.length → ∀ ls, (∀ l ∈ ls, l ∈ T) →
        ((Aut.ofNfa (W := W) (encOpt b.pda a.expr).1.states.length (encOpt b.pda a.expr).1.labels.length m.compile
          (sortUnique b1.states)).accepts h' c (ls.map fun l => T.idxOf l) = true ↔
          a.Describes find c ls ∧ ∀ l ∈ ls, l ∈ b.pda.labels ++ a.labels) := by
      intro h' c hc ls hls
      rw [c16_from_nfa h' hwf hsym s1 (hlt hl.states) c hc, hmem hl.states, hlang T hp hok ls hls, hst]
      unfold PAtom.Describes
      rw [and_assoc]
      refine and_congr Iff.rfl (and_congr Iff.rfl ?_)
      simp only [List.mem_map, forall_exists_index, and_imp, forall_apply_eq_imp_iff₂]
      refine forall_congr' fun l => forall_congr' fun hl => ?_
      rw [idxOf_lt_prefix hp hT (hls l hl), hg.mem, List.mem_append]
    cases hc0 : b.cur with
    | none =>
      refine ⟨hp, ?_, fun h => by simp at h⟩
      intro x hx h' c hc ls hls
      cases hx
      have := hb.none hc0 c ls
      rw [hnl h' c hc ls hls]
      exact ⟨.inr, fun h => h.elim (fun h => absurd h this) id⟩
    | some a0 =>
      have h0 := core_mono hg.states hg.prefix_ (hl.paut a0 hc0)
      refine ⟨hp, ?_, fun h => by simp at h⟩
      intro x hx h' c hc ls hls
      cases hx
      have := c17_or_extend_paut h h' h0 (hnew hl.states) c (ls.map fun l => T.idxOf l) hc
      refine this.trans (or_congr ?_ (hnl h' c hc ls hls))
      exact hb.lang a0 hc0 h' c (by rw [← hg.states]; exact hc) ls hls

omit [DecidableEq L] [Zero W] in
theorem describedBy_congr (find : S → Option (Option Nat)) {k k' : List L} (h : ∀ l, l ∈ k ↔ l ∈ k') (as : List (PAtom L S))
    (c : Nat) (w : List L) : DescribedBy find k as c w ↔ DescribedBy find k' as c w := by
  induction as generalizing k k' with
  | nil => exact Iff.rfl
  | cons a as ih =>
    simp only [DescribedBy, List.mem_append, h]
    exact or_congr Iff.rfl (ih fun l => by simp [h])

/-- All atoms. -/
theorem atoms_spec (h : HashOrder) {addr : Nat → Nat → Nat} (ha : ∀ k, Function.Injective (addr k))
    {find : S → Option (Option Nat)} (as : List (PAtom L S)) (k : Nat) (b : PBuild L W)
    (hfind : ∀ s c, find s = some (some c) → c < b.pda.states.length) :
    (b.atoms h addr find k as = none ↔ ∃ a ∈ as, ∃ s ∈ a.states, Stops find s) ∧
    ∀ b', b.atoms h addr find k as = some b' → (b.cur.isSome = true ∨ as ≠ [] → b'.cur.isSome = true) ∧
      LabelsGrow b.pda b'.pda (as.flatMap PAtom.labels) ∧ (BuildLegal b → BuildLegal b') ∧
      ∀ (T : List L) (D : Nat → List L → Prop), T.Nodup → b'.pda.labels <+: T → (∀ a ∈ as, a.ok = true) → BuildLegal b → BuildOK T D b →
        BuildOK T (fun c ls => D c ls ∨ DescribedBy find b.pda.labels as c ls) b' := by
  induction as generalizing k b with
  | nil =>
    refine ⟨by simp [PBuild.atoms], fun b' hb' => ?_⟩
    cases hb'
    refine ⟨by simp, LabelsGrow.refl _, id, fun T D _ _ _ _ hb => ?_⟩
    simpa [DescribedBy] using hb
  | cons a as ih =>
    obtain ⟨h1, h2⟩ := atom_spec h (ha k) b hfind a
    simp only [PBuild.atoms]
    cases hs : b.atom h (addr k) find a with
    | none =>
      rw [hs] at h1
      refine ⟨?_, by simp⟩
      obtain ⟨s, hs1, hs2⟩ := h1.1 rfl
      exact ⟨fun _ => ⟨a, by simp, s, hs1, hs2⟩, fun _ => rfl⟩
    | some b1 =>
      obtain ⟨k0, k1, kl, k2⟩ := h2 b1 hs
      obtain ⟨h3, h4⟩ := ih (k + 1) b1 (by rw [k1.states]; exact hfind)
      rw [hs] at h1
      have hno : ¬∃ s ∈ a.states, Stops find s := fun hc => by have := h1.2 hc; cases this
      refine ⟨?_, fun b' hb' => ?_⟩
      · simp only [Option.bind_some]
        rw [h3]
        simp [hno]
      · obtain ⟨h5, h6, h8, h7⟩ := h4 b' hb'
        refine ⟨fun _ => h5 (.inl k0), by rw [List.flatMap_cons]; exact k1.trans h6, fun hl => h8 (kl hl),
          fun T D hT hp hok hl hb => ?_⟩
        have := h7 T _ hT hp (fun x hx => hok x (by simp [hx])) (kl hl)
          (k2 T D hT (h6.prefix_.trans hp) (hok a (by simp)) hl hb)
        have he : (fun c ls => (D c ls ∨ a.Describes find c ls ∧ ∀ l ∈ ls, l ∈ b.pda.labels ++ a.labels) ∨
            DescribedBy find b1.pda.labels as c ls) = fun c ls => D c ls ∨ DescribedBy find b.pda.labels (a :: as) c ls := by
          funext c ls
          simp only [DescribedBy, or_assoc]
          rw [describedBy_congr find (k := b1.pda.labels) (k' := b.pda.labels ++ a.labels)
            (fun l => by rw [k1.mem, List.mem_append])]
        rw [he] at this
        exact this

omit [DecidableEq L] [Zero W] in
theorem path_labels {P : Tr → Prop} {n : Nat} (hP : ∀ t, P t → t.label < n) {q f : Nat} {w : List Nat} (h : Path P q w f) :
    ∀ g ∈ w, g < n := by
  induction h with
  | nil => simp
  | cons h1 _ ih =>
    intro g hg
    rcases List.mem_cons.1 hg with rfl | hg
    · exact hP _ h1
    · exact ih g hg

/-! ## The parser -/

/-- C72: the parser stops with an error exactly if some state is not a state of the PDA and not in quotes, or cannot be read
as a state at all. -/
theorem c72_errors (h : HashOrder) {addr : Nat → Nat → Nat} (ha : ∀ k, Function.Injective (addr k))
    {find : S → Option (Option Nat)} (t : TPda L W) (hfind : ∀ s c, find s = some (some c) → c < t.states.length)
    (as : List (PAtom L S)) (hne : as ≠ []) :
    parsePAut h addr find t as = none ↔
      ∃ a ∈ as, ∃ s ∈ a.states, find s.name = none ∨ (find s.name = some none ∧ s.quoted = false) := by
  obtain ⟨h1, h2⟩ := atoms_spec h ha as 0 { pda := t } hfind
  unfold parsePAut
  refine Iff.trans ?_ h1
  cases hb : PBuild.atoms h addr find 0 { pda := t } as with
  | none => simp
  | some b =>
    have := (h2 b hb).1 (.inr hne)
    cases hc : b.cur with
    | none => rw [hc] at this; cases this
    | some x => simp [hc]

/-- C72: the labels that occur in the expression are added to the PDA behind the others, each once; the states and rules of the PDA
stay as they are. -/
theorem c72_labels (h : HashOrder) {addr : Nat → Nat → Nat} (ha : ∀ k, Function.Injective (addr k))
    {find : S → Option (Option Nat)} (t : TPda L W) (hfind : ∀ s c, find s = some (some c) → c < t.states.length)
    (hn : t.labels.Nodup) (as : List (PAtom L S)) {t' : TPda L W} {a : Aut W} (hp : parsePAut h addr find t as = some (t', a)) :
    t'.states = t.states ∧ t.labels <+: t'.labels ∧ t'.labels.Nodup ∧
      ∀ l, l ∈ t'.labels ↔ l ∈ t.labels ∨ ∃ x ∈ as, l ∈ x.labels := by
  obtain ⟨_, h2⟩ := atoms_spec h ha as 0 { pda := t } hfind
  obtain ⟨b, hb, h3⟩ := Option.bind_eq_some_iff.1 hp
  obtain ⟨x, _, h5⟩ := Option.map_eq_some_iff.1 h3
  cases h5
  have hg := (h2 b hb).2.1
  exact ⟨hg.states, hg.prefix_, hg.nodup hn, fun l => by rw [hg.mem, List.mem_flatMap]⟩

/-- C72: the automaton is a legal input for the solvers. -/
theorem c72_legal (h : HashOrder) {addr : Nat → Nat → Nat} (ha : ∀ k, Function.Injective (addr k))
    {find : S → Option (Option Nat)} (t : TPda L W) (hfind : ∀ s c, find s = some (some c) → c < t.states.length)
    (as : List (PAtom L S)) {t' : TPda L W} {a : Aut W} (hp : parsePAut h addr find t as = some (t', a)) : PAut t'.core a := by
  obtain ⟨_, h2⟩ := atoms_spec h ha as 0 { pda := t } hfind
  obtain ⟨b, hb, h3⟩ := Option.bind_eq_some_iff.1 hp
  obtain ⟨x, hx, h5⟩ := Option.map_eq_some_iff.1 h3
  cases h5
  exact ((h2 b hb).2.2.1 ⟨rfl, by simp⟩).paut _ hx

/-- C72, for expressions in which `*` and `?` are applied only as in C49: the automaton accepts exactly the configurations
described by an atom of the expression, as far as their labels are known when the atom is read. The full statement is without "as far as ...", and without the condition on `*` and `?`; both fail, see `c72_order`,
`c72_later_label` and `c49_wrong`. -/
theorem c72_language_partial (h h' : HashOrder) {addr : Nat → Nat → Nat} (ha : ∀ k, Function.Injective (addr k))
    {find : S → Option (Option Nat)} (t : TPda L W) (hfind : ∀ s c, find s = some (some c) → c < t.states.length)
    (hn : t.labels.Nodup) (as : List (PAtom L S)) (hok : ∀ a ∈ as, a.ok = true) {t' : TPda L W} {a : Aut W}
    (hp : parsePAut h addr find t as = some (t', a)) :
    ∀ c, c < t'.states.length → ∀ w,
      (a.accepts h' c w = true ↔ ∃ ls, Numbers t' w ls ∧ DescribedBy find t.labels as c ls) := by
  obtain ⟨_, h2⟩ := atoms_spec h ha as 0 { pda := t } hfind
  obtain ⟨b, hb, h3⟩ := Option.bind_eq_some_iff.1 hp
  obtain ⟨x, hx, h5⟩ := Option.map_eq_some_iff.1 h3
  cases h5
  obtain ⟨_, hg, hl, hT⟩ := h2 b hb
  have hn' := hg.nodup hn
  have h0 : BuildLegal ({ pda := t } : PBuild L W) := ⟨rfl, by simp⟩
  have := hT b.pda.labels (fun _ _ => False) hn' List.prefix_rfl hok h0 ⟨hg.prefix_, by simp, by simp⟩
  intro c hc w
  constructor
  · intro hacc
    have hlt : ∀ g ∈ w, g < b.pda.labels.length := by
      rw [accepts_iff] at hacc
      obtain ⟨f, hf, _⟩ := hacc
      exact path_labels (n := b.pda.labels.length) (fun t ht => (((hl h0).paut _ hx).valid t ht).2.1) hf
    obtain ⟨ls, h1, rfl⟩ : ∃ ls : List L, (∀ l ∈ ls, l ∈ b.pda.labels) ∧ w = ls.map fun l => b.pda.labels.idxOf l := by
      refine ⟨w.attach.map fun g => b.pda.labels[g.1]'(hlt g.1 g.2), ?_, ?_⟩
      · intro l hl
        obtain ⟨g, _, rfl⟩ := List.mem_map.1 hl
        exact List.getElem_mem _
      · rw [List.map_map]
        conv => lhs; rw [← List.attach_map_subtype_val w]
        refine List.map_congr_left fun g _ => ?_
        exact (hn'.idxOf_getElem _ _).symm
    refine ⟨ls, (numbers_iff hn' _ _).2 ⟨h1, rfl⟩, ?_⟩
    exact ((this.lang _ hx h' c hc ls h1).1 hacc).elim False.elim id
  · rintro ⟨ls, h1, h4⟩
    obtain ⟨h6, rfl⟩ := (numbers_iff hn' _ _).1 h1
    exact (this.lang _ hx h' c hc ls h6).2 (.inr h4)

/-- C72, as one would expect it: if the labels are known to the PDA already, the automaton accepts the union of what the atoms
describe. -/
theorem c72_known_partial (h h' : HashOrder) {addr : Nat → Nat → Nat} (ha : ∀ k, Function.Injective (addr k))
    {find : S → Option (Option Nat)} (t : TPda L W) (hfind : ∀ s c, find s = some (some c) → c < t.states.length)
    (hn : t.labels.Nodup) (as : List (PAtom L S)) (hok : ∀ a ∈ as, a.ok = true)
    (hkn : ∀ a ∈ as, ∀ l ∈ a.labels, l ∈ t.labels) {t' : TPda L W} {a : Aut W}
    (hp : parsePAut h addr find t as = some (t', a)) :
    t' = t ∧ ∀ c, c < t.states.length → ∀ w,
      (a.accepts h' c w = true ↔ ∃ ls, Numbers t w ls ∧ ∃ x ∈ as, x.Describes find c ls) := by
  obtain ⟨h1, h2, h3, h4⟩ := c72_labels h ha t hfind hn as hp
  have h5 : t'.labels = t.labels := by
    obtain ⟨m, hm⟩ := h2
    cases m with
    | nil => simpa using hm.symm
    | cons l m =>
      exfalso
      rw [← hm, List.nodup_append] at h3
      have hl : l ∈ t'.labels := by rw [← hm]; simp
      rcases (h4 l).1 hl with h6 | ⟨x, hx, h6⟩
      · exact h3.2.2 l h6 l (by simp) rfl
      · exact h3.2.2 l (hkn x hx l h6) l (by simp) rfl
  have h6 : t' = t := by
    cases t; cases t'; simp only at h1 h5; rw [h1, h5]
  subst h6
  refine ⟨rfl, fun c hc w => ?_⟩
  rw [c72_language_partial h h' ha t' hfind hn as hok hp c hc w]
  refine exists_congr fun ls => and_congr_right fun hls => ?_
  have hin := ((numbers_iff hn w ls).1 hls).1
  have key : ∀ (as : List (PAtom L S)) (known : List L), (∀ l ∈ t'.labels, l ∈ known) →
      (DescribedBy find known as c ls ↔ ∃ x ∈ as, x.Describes find c ls) := by
    intro as
    induction as with
    | nil => intro known _; simp [DescribedBy]
    | cons x as ih =>
      intro known hk
      simp only [DescribedBy, List.mem_cons, exists_eq_or_imp]
      rw [ih (known ++ x.labels) fun l hl => List.mem_append_left _ (hk l hl)]
      exact or_congr ⟨And.left, fun h => ⟨h, fun l hl => List.mem_append_left _ (hk l (hin l hl))⟩⟩ Iff.rfl
  exact key as t'.labels fun l hl => hl

end

/-! ## Witnesses -/

/-- A PDA with the states `0`, `1` and the label `"a"`. -/
def exprPda : TPda String Unit := { labels := ["a"], states := [default, default] }

/-- `exists_state(std::stoul(s))` for it. -/
def exprFind (s : String) : Option (Option Nat) :=
  if s = "0" then some (some 0) else if s = "1" then some (some 1) else if s = "2" then some none else none

/-- `<0, .>` -/
def exprDot : PAtom String String := ⟨[⟨false, "0"⟩], some (.one (.one (.mk .dot none)))⟩
/-- `<1, [b]>` -/
def exprB : PAtom String String := ⟨[⟨false, "1"⟩], some (.one (.one (.mk (.set false "b" []) none)))⟩
/-- `<["2", 1, 0], ([a] | [^b])* [b]?>` -/
def exprBig : PAtom String String :=
  ⟨[⟨true, "2"⟩, ⟨false, "1"⟩, ⟨false, "0"⟩], some (.one (.more (.mk (.group (.more (.one (.mk (.set false "a" []) none))
    (.one (.one (.mk (.set true "b" []) none))))) (some .star)) (.one (.mk (.set false "b" []) (some .question)))))⟩

/-- The addresses of the states of the NFAs. -/
def exprAddr : Nat → Nat → Nat := fun _ i => i + 1

theorem exprAddr_inj (k : Nat) : Function.Injective (exprAddr k) := fun a b h => by simpa [exprAddr] using h

theorem exprFind_lt (s : String) (c : Nat) (h : exprFind s = some (some c)) : c < exprPda.states.length := by
  show c < 2
  unfold exprFind at h
  split at h
  · cases h; decide
  · split at h
    · cases h; decide
    · split at h <;> cases h

/-- The hypotheses of `c72_language_partial` are met by `<["2", 1, 0], ([a] | [^b])* [b]?> | <1, [b]>`. -/
example : ∃ r, parsePAut HashOrder.id exprAddr exprFind exprPda [exprBig, exprB] = some r ∧
    (∀ a ∈ [exprBig, exprB], a.ok = true) ∧ exprPda.labels.Nodup := by
  refine ⟨_, Option.eq_some_of_isSome (o := parsePAut HashOrder.id exprAddr exprFind exprPda [exprBig, exprB]) ?_, by decide, by decide⟩
  rw [Option.isSome_iff_ne_none, ne_eq, c72_errors _ exprAddr_inj _ exprFind_lt _ (by simp)]
  decide

theorem parse_some {t : TPda String Unit} (ht : t.states.length = 2) {as : List (PAtom String String)} (hne : as ≠ [])
    (h : ¬∃ a ∈ as, ∃ s ∈ a.states, exprFind s.name = none ∨ (exprFind s.name = some none ∧ s.quoted = false)) :
    ∃ t' a, parsePAut HashOrder.id exprAddr exprFind t as = some (t', a) := by
  have := (c72_errors HashOrder.id exprAddr_inj t (fun s c hc => by rw [ht]; exact exprFind_lt s c hc) as hne).not.2 h
  obtain ⟨r, hr⟩ := Option.ne_none_iff_exists'.1 this
  exact ⟨r.1, r.2, hr⟩

theorem numbers_b {t : TPda String Unit} (hn : t.labels.Nodup) (hb : "b" ∈ t.labels) : Numbers t [t.labels.idxOf "b"] ["b"] :=
  (numbers_iff hn _ _).2 ⟨by simpa using hb, rfl⟩

theorem numbers_one {t : TPda String Unit} (hn : t.labels.Nodup) {ls : List String} (hb : "b" ∈ t.labels)
    (h : Numbers t [t.labels.idxOf "b"] ls) : ls = ["b"] := by
  obtain ⟨h1, h2⟩ := (numbers_iff hn _ _).1 h
  obtain ⟨l, rfl, h3⟩ := List.map_eq_singleton_iff.1 h2.symm
  rw [idxOf_inj t.labels "b" l hb (h1 l (by simp)) h3.symm]

theorem dot_describes : exprDot.Describes exprFind 0 ["b"] := ⟨⟨⟨false, "0"⟩, by simp [exprDot], by simp [exprFind]⟩, "b", rfl⟩

theorem b_not_lists : ¬exprB.Lists exprFind 0 := by
  rintro ⟨s, hs, h⟩
  simp only [exprB, List.mem_singleton] at hs
  subst hs
  simp [exprFind] at h

/-- C72 fails in full: the order of the atoms matters. The automaton of `<0, .> | <1, [b]>` does not accept `(0, b)`, the one of
`<1, [b]> | <0, .>` does. -/
theorem c72_order :
    (∃ t a w, parsePAut HashOrder.id exprAddr exprFind exprPda [exprDot, exprB] = some (t, a) ∧ Numbers t w ["b"] ∧
      a.accepts HashOrder.id 0 w = false) ∧
    (∃ t a w, parsePAut HashOrder.id exprAddr exprFind exprPda [exprB, exprDot] = some (t, a) ∧ Numbers t w ["b"] ∧
      a.accepts HashOrder.id 0 w = true) := by
  constructor
  · obtain ⟨t, a, hp⟩ := parse_some (t := exprPda) rfl (as := [exprDot, exprB]) (by simp) (by decide)
    obtain ⟨h1, h2, h3, h4⟩ := c72_labels _ exprAddr_inj _ exprFind_lt (by decide) _ hp
    have hb : "b" ∈ t.labels := (h4 _).2 (.inr ⟨exprB, by simp, by simp [exprB, PAtom.labels, SAlt.labels, SSeq.labels,
      SUn.labels, SVal.labels]⟩)
    refine ⟨t, a, _, hp, numbers_b h3 hb, ?_⟩
    rw [Bool.eq_false_iff, ne_eq, c72_language_partial _ _ exprAddr_inj _ exprFind_lt (by decide) _ (by decide) hp 0
      (by rw [h1]; decide)]
    rintro ⟨ls, h5, h6⟩
    rw [numbers_one h3 hb h5] at h6
    rcases h6 with ⟨_, h6⟩ | ⟨⟨h6, _⟩, _⟩ | h6
    · have := h6 "b" (by simp)
      simp [exprPda, exprDot, PAtom.labels, SAlt.labels, SSeq.labels, SUn.labels, SVal.labels] at this
    · exact b_not_lists h6
    · exact h6
  · obtain ⟨t, a, hp⟩ := parse_some (t := exprPda) rfl (as := [exprB, exprDot]) (by simp) (by decide)
    obtain ⟨h1, h2, h3, h4⟩ := c72_labels _ exprAddr_inj _ exprFind_lt (by decide) _ hp
    have hb : "b" ∈ t.labels := (h4 _).2 (.inr ⟨exprB, by simp, by simp [exprB, PAtom.labels, SAlt.labels, SSeq.labels,
      SUn.labels, SVal.labels]⟩)
    refine ⟨t, a, _, hp, numbers_b h3 hb, ?_⟩
    rw [c72_language_partial _ _ exprAddr_inj _ exprFind_lt (by decide) _ (by decide) hp 0 (by rw [h1]; decide)]
    exact ⟨_, numbers_b h3 hb, .inr (.inl ⟨dot_describes, by simp [exprB, PAtom.labels, SAlt.labels, SSeq.labels, SUn.labels,
      SVal.labels]⟩)⟩

/-- C72 fails in full: `<0, .>` as initial configurations and `<1, [b]>` as final ones, read in this order. Then `b` is a label of the
PDA, but `(0, b)` is not an initial configuration. -/
theorem c72_later_label : ∃ t a t' a' w, parsePAut HashOrder.id exprAddr exprFind exprPda [exprDot] = some (t, a) ∧
    parsePAut HashOrder.id exprAddr exprFind t [exprB] = some (t', a') ∧ Numbers t' w ["b"] ∧
    exprDot.Describes exprFind 0 ["b"] ∧ a.accepts HashOrder.id 0 w = false := by
  obtain ⟨t, a, hp⟩ := parse_some (t := exprPda) rfl (as := [exprDot]) (by simp) (by decide)
  obtain ⟨h1, h2, h3, h4⟩ := c72_labels _ exprAddr_inj _ exprFind_lt (by decide) _ hp
  have hlt : ∀ s c, exprFind s = some (some c) → c < t.states.length := by rw [h1]; exact exprFind_lt
  obtain ⟨t', a', hp'⟩ := parse_some (t := t) (by rw [h1]; rfl) (as := [exprB]) (by simp) (by decide)
  obtain ⟨g1, g2, g3, g4⟩ := c72_labels _ exprAddr_inj _ hlt h3 _ hp'
  have hb : "b" ∈ t'.labels := (g4 _).2 (.inr ⟨exprB, by simp, by simp [exprB, PAtom.labels, SAlt.labels, SSeq.labels,
    SUn.labels, SVal.labels]⟩)
  refine ⟨t, a, t', a', _, hp, hp', numbers_b g3 hb, dot_describes, ?_⟩
  rw [Bool.eq_false_iff, ne_eq, c72_language_partial _ _ exprAddr_inj _ exprFind_lt (by decide) _ (by decide) hp 0
    (by rw [h1]; decide)]
  rintro ⟨ls, h5, h6⟩
  have h7 := ((numbers_iff h3 _ _).1 h5).1
  have h8 : Numbers t' [t'.labels.idxOf "b"] ls := by
    obtain ⟨k1, k2⟩ := (numbers_iff h3 _ _).1 h5
    refine (numbers_iff g3 _ _).2 ⟨fun l hl => g2.subset (k1 l hl), k2.trans (List.map_congr_left fun l hl => ?_)⟩
    exact (idxOf_prefix g2 (k1 l hl)).symm
  rw [numbers_one g3 hb h8] at h6
  rcases h6 with ⟨_, h6⟩ | h6
  · have := h6 "b" (by simp)
    simp [exprPda, exprDot, PAtom.labels, SAlt.labels, SSeq.labels, SUn.labels, SVal.labels] at this
  · exact h6

end Verif.Props
