import Verif.Props.InstanceJson
import Verif.Props.Json

/-! # C78: solver instances that are printed and read again -/

namespace Verif.Props

open Verif Verif.Instance Verif.Json

/-! ## The text of a printed PDA -/

/-- The events of one JSON value. -/
def IsValue (es : List JEv) : Prop := ∀ f f', JFrame.valued f = some f' → es.foldlM JFrame.after f = some f'

theorem value_obj {V : Type} (g : V → List JEv) (m : VMap String V) (hg : ∀ e ∈ m, IsValue (g e.2)) : IsValue (objEvents g m) := by
  intro f f' hv
  have key : ∀ l : List (String × V), (∀ e ∈ l, IsValue (g e.2)) →
      (l.flatMap fun e => JEv.key e.1 :: g e.2).foldlM JFrame.after (.key :: f') = some (.key :: f') := by
    intro l
    induction l with
    | nil => intro _; rfl
    | cons e l ih =>
      intro hl
      rw [List.flatMap_cons, List.foldlM_append]
      have : (JEv.key e.1 :: g e.2).foldlM JFrame.after (.key :: f') = some (.key :: f') :=
        hl e List.mem_cons_self (.val :: f') (.key :: f') rfl
      rw [this]
      exact ih fun e he => hl e (List.mem_cons_of_mem _ he)
  unfold objEvents
  rw [List.foldlM_append, List.foldlM_cons]
  have h1 : JFrame.after f .startObj = some (.key :: f') := by simp only [JFrame.after, hv, Option.map_some]
  rw [h1]
  show (Option.bind (List.foldlM JFrame.after (.key :: f') (m.flatMap fun e => JEv.key e.1 :: g e.2)) fun x => _) = _
  rw [key m hg]
  rfl

theorem value_arr {A : Type} (g : A → List JEv) (l : List A) (hg : ∀ x ∈ l, IsValue (g x)) : IsValue (.startArr :: l.flatMap g ++ [.endArr]) := by
  intro f f' hv
  have key : ∀ l : List A, (∀ x ∈ l, IsValue (g x)) → (l.flatMap g).foldlM JFrame.after (.arr :: f') = some (.arr :: f') := by
    intro l
    induction l with
    | nil => intro _; rfl
    | cons x l ih =>
      intro hl
      rw [List.flatMap_cons, List.foldlM_append, hl x List.mem_cons_self (.arr :: f') (.arr :: f') rfl]
      exact ih fun e he => hl e (List.mem_cons_of_mem _ he)
  rw [List.foldlM_append, List.foldlM_cons]
  have h1 : JFrame.after f .startArr = some (.arr :: f') := by simp only [JFrame.after, hv, Option.map_some]
  rw [h1]
  show (Option.bind (List.foldlM JFrame.after (.arr :: f') (l.flatMap g)) fun x => _) = _
  rw [key l hg]
  rfl

theorem value_one {e : JEv} (h : ∀ f, JFrame.after f e = JFrame.valued f) : IsValue [e] := by
  intro f f' hv
  rw [List.foldlM_cons, h, hv]
  rfl

theorem value_num (z : Int) : IsValue [numEv z] := by
  unfold numEv
  split
  · exact value_one fun _ => rfl
  · exact value_one fun _ => rfl

theorem value_val (v : JVal) : IsValue v.events := by
  cases v with
  | str s => exact value_one fun _ => rfl
  | num z => exact value_num z
  | nums l =>
    have e : (l.flatMap fun z => [numEv z]) = l.map numEv := by
      induction l with
      | nil => rfl
      | cons z l ih => rw [List.flatMap_cons, List.map_cons, ih]; rfl
    have := value_arr (fun z => [numEv z]) l fun z _ => value_num z
    rw [e] at this
    exact this

theorem value_rule (r : JRule) : IsValue r.events := value_obj _ _ fun e _ => value_val e.2

theorem value_entry (e : JEntry) : IsValue e.events := by
  cases e with
  | one r => exact value_rule r
  | many rs => exact value_arr _ rs fun r _ => value_rule r

theorem value_state (s : JState) : IsValue s.events := value_obj _ _ fun e _ => value_entry e.2

theorem inner_object (d : JDoc) : IsObject d.inner := by
  cases d with
  | numbered ss =>
    refine (isObject_iff _).2 ?_
    show (JEv.key "states" :: ((JEv.startArr :: (ss.flatMap JState.events ++ [.endArr, .endObj])))).foldlM JFrame.after [.key] = _
    have e : JEv.startArr :: (ss.flatMap JState.events ++ [.endArr, .endObj]) = (.startArr :: ss.flatMap JState.events ++ [.endArr]) ++ [.endObj] := by simp
    rw [e, List.foldlM_cons]
    show List.foldlM JFrame.after [.val] _ = _
    rw [List.foldlM_append, value_arr JState.events ss (fun s _ => value_state s) [.val] [.key] rfl]
    rfl
  | named ss =>
    refine (isObject_iff _).2 ?_
    show (JEv.key "states" :: (objEvents JState.events ss ++ [.endObj])).foldlM JFrame.after [.key] = _
    rw [List.foldlM_cons]
    show List.foldlM JFrame.after [.val] _ = _
    rw [List.foldlM_append, value_obj JState.events ss (fun s _ => value_state s.2) [.val] [.key] rfl]
    rfl

theorem inner_events (d : JDoc) : pdaDoc d.inner = d.events := by
  cases d <;> simp [pdaDoc, JDoc.inner, JDoc.events]

/-! ## The PDA -/

variable {W : Type} {names : Bool} {t : NPda String String W}

/-- How the states are written in the document of a PDA. -/
def stateRef (names : Bool) (t : NPda String String W) (i : Nat) : JVal := if names then .str (t.stateName i) else .num i

/-- The document of a PDA. -/
def printed (io : WeightIO W) (names : Bool) (t : NPda String String W) : JDoc := if names then t.toJson io id id else t.toTPda.toJson io id

/-- The last state has a rule, or a rule leads there. -/
def LastUsed (t : TPda String W) : Prop := ∀ n, t.states.length = n + 1 → ∃ r ∈ t.allRules, r.src = n ∨ r.dst = n

section
variable [LinearOrder W] {io : WeightIO W}

/-- The PDA `p` is what was read from the document of `t`. -/
structure Again (names : Bool) (t p : NPda String String W) : Prop where
  inv : ∃ N Lb, JInv N p (DFin id (stateRef names t) t.toTPda) Lb
  size : p.states.length = t.states.length
  sameNames : names = true → ∀ s, s ∈ p.names ↔ s ∈ t.names
  namesOK : NamesOK names p
  labels : ∀ l ∈ p.labels, l ∈ t.labels

theorem rule_bound (hwf : t.core.WF) {r : TRule String W} (hr : r ∈ t.allRules) : r.src < t.states.length ∧ r.dst < t.states.length := by
  obtain ⟨u, hu, rfl⟩ := (TPda.mem_allRules t.toTPda r).1 hr
  obtain ⟨⟨ls, hls, _⟩, _⟩ := (covers_has hwf u).1 hu
  refine ⟨?_, hwf.toLt _ _ hls⟩
  show u.src < t.states.length
  by_contra h
  rw [Pda.st_default (p := t.core) (by show t.states.length ≤ _; omega)] at hls
  cases hls

theorem st_bound {s : Nat} {x : Rule W × Labels} (h : x ∈ (t.core.st s).rules) : s < t.states.length := by
  by_contra hc
  rw [Pda.st_default (p := t.core) (by show t.states.length ≤ _; omega)] at h
  cases h

/-- With numbers, the states are those up to the last one that is used. -/
theorem size_numbered (hwf : t.core.WF) (hlast : LastUsed t.toTPda) {p : NPda String String W} {Lb : String → Prop}
    (hp : JInv (fun _ => False) p (DFin id (fun i => .num i) t.toTPda) Lb) : p.states.length = t.states.length := by
  have hnil : p.names = [] := List.eq_nil_iff_forall_not_mem.2 fun s hs => hp.only s hs
  have hle : p.states.length ≤ t.states.length := by
    rcases hp.size hnil with h | ⟨s, g, x, hc, h⟩
    · omega
    · obtain ⟨d, ⟨i, q, hq, rfl⟩, s1, s2, _⟩ := (hp.cov s g x).1 hc
      obtain ⟨e, he, e1, _⟩ := (mem_pairs _ q).1 hq
      have b1 := st_bound he
      have b2 : e.1.to < t.states.length := hwf.toLt _ _ he
      have s1 : (i : Int) = s := s1
      have s2 : (q.1.to : Int) = x.to := s2
      rw [← e1] at s2
      omega
  refine Nat.le_antisymm hle ?_
  cases hn : t.states.length with
  | zero => omega
  | succ n =>
    obtain ⟨r, hr, hrn⟩ := hlast n hn
    obtain ⟨u, hu, rfl⟩ := (TPda.mem_allRules t.toTPda r).1 hr
    obtain ⟨⟨ls, hls, hcov⟩, _⟩ := (covers_has hwf u).1 hu
    have hk : ∃ k, (Pda.toImpl u, k) ∈ pairs id t.toTPda (t.core.st u.src) := by
      cases hw : ls.wildcard with
      | true => exact ⟨"*", (mem_pairs _ _).2 ⟨_, hls, rfl, .inl ⟨hw, rfl⟩⟩⟩
      | false => exact ⟨_, (mem_pairs _ _).2 ⟨_, hls, rfl, .inr ⟨hw, u.pre, hcov.resolve_left (by rw [hw]; simp), rfl⟩⟩⟩
    obtain ⟨k, hk⟩ := hk
    have hD : DFin id (fun i => .num i) t.toTPda (dOf id (fun i => .num i) t.toTPda (.num u.src) k (Pda.toImpl u)) := ⟨u.src, _, hk, rfl⟩
    have hlab : ∃ x, Operand p.labels (normOp k u.op (labOf id t.toTPda k (Pda.toImpl u))) (labOf id t.toTPda k (Pda.toImpl u)) x := by
      unfold Operand
      by_cases ho : normOp k u.op (labOf id t.toTPda k (Pda.toImpl u)) = .push ∨ normOp k u.op (labOf id t.toTPda k (Pda.toImpl u)) = .swap
      · obtain ⟨x, hx⟩ := List.getElem?_of_mem (hp.labK _ hD ho)
        exact ⟨x, by rw [if_pos ho]; exact hx⟩
      · exact ⟨epsilon, by rw [if_neg ho]⟩
    obtain ⟨x, hx⟩ := hlab
    have hg : ∃ g : Nat, k = "*" ∨ p.labels[g]? = some k := by
      rcases hp.keyK _ hD with h | h
      · exact ⟨0, .inl h⟩
      · obtain ⟨g, hg⟩ := List.getElem?_of_mem h
        exact ⟨g, .inr hg⟩
    obtain ⟨g, hg⟩ := hg
    obtain ⟨l, hl, _⟩ := (hp.cov u.src g ⟨u.dst, _, u.weight, x⟩).2 ⟨_, hD, rfl, rfl, rfl, rfl, hx, hg⟩
    have b1 := st_bound hl
    have b2 : u.dst < p.states.length := hp.wf.toLt _ _ hl
    rcases hrn with h | h
    · have h : u.src = n := h
      omega
    · have h : u.dst = n := h
      omega

/-- A PDA that is printed and read again. -/
theorem print_again (hwf : t.core.WF) (hn : NamesOK names t) (hstar : NoStar id t.toTPda) (hw : WeightsReadable io t.toTPda)
    (hlast : names = false → LastUsed t.toTPda) : ∃ p, parsePda io names (printed io names t).events = some p ∧ Again names t p := by
  have hobj : IsObject (printed io names t).events := by
    rw [← inner_events]
    exact object_in (inner_object _) "pda"
  have hlab : ∀ {N : String → Prop} {ref : Nat → JVal} {p : NPda String String W}, JInv N p (DFin id ref t.toTPda) (LFin id t.toTPda) → ∀ l ∈ p.labels, l ∈ t.labels := by
    intro N ref p hp l hl
    obtain ⟨g, hg, rfl⟩ := lFin_known hwf hstar l ((hp.lbl l).1 hl)
    exact (symbol_mem (t := t.toTPda) hg).1
  cases hnm : names with
  | false =>
    subst hnm
    obtain ⟨p, h1, h2⟩ := parse_numbered (io := io) (str := id) (t := t.toTPda) hw
    refine ⟨p, h1, ⟨⟨_, _, h2⟩, size_numbered hwf (hlast rfl) h2, fun h => (by cases h), fun h => (by cases h), hlab h2⟩⟩
  | true =>
    subst hnm
    obtain ⟨g1, g2⟩ := hn rfl
    have hname : ∀ i (h : i < t.names.length), t.stateName i = t.names[i] := by
      intro i h; unfold NPda.stateName; rw [List.getElem?_eq_getElem h]; rfl
    obtain ⟨p, h1, h2, h3⟩ := parse_named (io := io) (str := id) (strS := id) (t := t) (by omega)
      (fun i hi j hj h => by
        have h : t.stateName i = t.stateName j := h
        rw [hname i hi, hname j hj] at h
        exact (List.Nodup.getElem_inj_iff g1).1 h)
      (fun i e he => by rw [g2]; exact hwf.toLt i e he) hw
    have hok : NamesOK true p := (c77_wellformed io hobj h1).2.2
    have hmem : ∀ s, s ∈ p.names ↔ s ∈ t.names := by
      intro s
      constructor
      · intro hs
        obtain ⟨i, hi, rfl⟩ := h2.only s hs
        show t.stateName i ∈ t.names
        rw [hname i hi]
        exact List.getElem_mem hi
      · intro hs
        obtain ⟨i, hi, rfl⟩ := List.getElem_of_mem hs
        rw [← hname i hi]
        exact h3 i hi
    refine ⟨p, h1, ⟨⟨_, _, h2⟩, ?_, fun _ => hmem, hok, hlab h2⟩⟩
    rw [← (hok rfl).2, ← g2]
    exact ((List.perm_ext_iff_of_nodup (hok rfl).1 g1).2 hmem).length_eq

/-! ## States -/

/-- The state `c` of `t` is the state `a` of `p`. -/
def Same (names : Bool) (t p : NPda String String W) (c a : Nat) : Prop := c < t.states.length ∧ Ref p.names (stateRef names t c) a

omit [LinearOrder W] in
theorem stateName_some {c : Nat} (h : c < t.names.length) : t.names[c]? = some (t.stateName c) := by
  unfold NPda.stateName
  rw [List.getElem?_eq_getElem h]
  rfl

variable {p p' : NPda String String W}

theorem Again.more (h : Again names t p) (hs : p'.states = p.states) (hm : p'.names = p.names) (hl : p.labels <+: p'.labels) (hn : p'.labels.Nodup)
    (hlab : ∀ l ∈ p'.labels, l ∈ t.labels) : Again names t p' := by
  obtain ⟨N, Lb, hi⟩ := h.inv
  exact ⟨⟨N, _, hi.more hs hm hl hn⟩, by rw [hs]; exact h.size, by rw [hm]; exact h.sameNames, fun hnm => by rw [hm, hs]; exact h.namesOK hnm, hlab⟩

theorem Again.total (h : Again names t p) (hn : NamesOK names t) {c : Nat} (hc : c < t.states.length) : ∃ a, Same names t p c a := by
  cases hnm : names with
  | false => exact ⟨c, hc, rfl⟩
  | true =>
    subst hnm
    have hlt : c < t.names.length := by rw [(hn rfl).2]; exact hc
    obtain ⟨a, ha⟩ := List.getElem?_of_mem ((h.sameNames rfl _).2 (List.mem_of_getElem? (stateName_some hlt)))
    exact ⟨a, hc, ha⟩

theorem Again.inj (hn : NamesOK names t) {c c' a : Nat} (h1 : Same names t p c a) (h2 : Same names t p c' a) : c = c' := by
  cases hnm : names with
  | false =>
    subst hnm
    have e1 : (c : Int) = a := h1.2
    have e2 : (c' : Int) = a := h2.2
    omega
  | true =>
    subst hnm
    have e1 : p.names[a]? = some (t.stateName c) := h1.2
    have e2 : p.names[a]? = some (t.stateName c') := h2.2
    rw [e1] at e2
    have l1 : c < t.names.length := by rw [(hn rfl).2]; exact h1.1
    have l2 : c' < t.names.length := by rw [(hn rfl).2]; exact h2.1
    have g1 := stateName_some l1
    have g2 := stateName_some l2
    rw [← e2] at g2
    obtain ⟨k1, f1⟩ := List.getElem?_eq_some_iff.1 g1
    obtain ⟨k2, f2⟩ := List.getElem?_eq_some_iff.1 g2
    injection e2 with e2
    exact (List.Nodup.getElem_inj_iff (hn rfl).1).1 (f1.trans f2.symm)

/-- A state of the document, before and after. -/
theorem Again.denotes (h : Again names t p) (hn : NamesOK names t) (r : JRef) (a : Nat) :
    Doc.Denotes names p r a ↔ ∃ c, Same names t p c a ∧ Doc.Denotes names t r c := by
  cases r with
  | num n =>
    constructor
    · rintro ⟨h1, rfl, h2⟩
      subst h1
      rw [h.size] at h2
      exact ⟨n, ⟨h2, rfl⟩, rfl, rfl, h2⟩
    · rintro ⟨c, ⟨h1, h2⟩, h3, rfl, h4⟩
      subst h3
      have h2 : (n : Int) = a := h2
      exact ⟨rfl, by omega, by rw [h.size]; omega⟩
  | name s =>
    constructor
    · rintro ⟨h1, h2⟩
      subst h1
      obtain ⟨c, hc⟩ := List.getElem?_of_mem ((h.sameNames rfl s).1 (List.mem_of_getElem? h2))
      have hlt := (List.getElem?_eq_some_iff.1 hc).1
      have := stateName_some hlt
      rw [hc] at this
      injection this with this
      refine ⟨c, ⟨by rw [← (hn rfl).2]; exact hlt, ?_⟩, rfl, hc⟩
      show p.names[a]? = some (t.stateName c)
      rw [← this]
      exact h2
    · rintro ⟨c, ⟨h1, h2⟩, h3, h4⟩
      subst h3
      have h2 : p.names[a]? = some (t.stateName c) := h2
      have hlt := (List.getElem?_eq_some_iff.1 h4).1
      have := stateName_some hlt
      rw [h4] at this
      injection this with this
      exact ⟨rfl, by rw [this]; exact h2⟩

theorem Again.docSet (h : Again names t p) (hn : NamesOK names t) (fs : List JField) (a : Nat) (ls : List String) :
    DocSet names p fs a ls ↔ ∃ c, Same names t p c a ∧ DocSet names t fs c ls := by
  unfold DocSet
  constructor
  · rintro ⟨r, h1, h2⟩
    obtain ⟨c, h3, h4⟩ := (h.denotes hn r a).1 h1
    exact ⟨c, h3, r, h4, h2⟩
  · rintro ⟨c, h3, r, h4, h2⟩
    exact ⟨r, (h.denotes hn r a).2 ⟨c, h3, h4⟩, h2⟩

/-! ## Runs -/

theorem Again.move (h : Again names t p) (hwf : t.core.WF) (hstar : NoStar id t.toTPda) (a : Nat) (l : String) (b : Nat) (repl : List String) :
    (∃ r' ∈ p.allRules, r'.src = a ∧ r'.pre = l ∧ r'.dst = b ∧ replacement r'.op r'.opLabel r'.pre = repl) ↔
      l ∈ p.labels ∧ ∃ r ∈ t.allRules, Same names t p r.src a ∧ Same names t p r.dst b ∧ l = r.pre ∧ repl = replacement r.op r.opLabel r.pre := by
  obtain ⟨N, Lb, hi⟩ := h.inv
  have key := fun w => moves_read_more hwf hstar (fun l hl => by
    obtain ⟨g, hg⟩ := List.getElem?_of_mem (h.labels l ((hi.lbl l).2 hl))
    exact ⟨g, (List.getElem?_eq_some_iff.1 hg).1, (symbol_of hg).symm⟩) hi a l w b repl
  constructor
  · rintro ⟨r', h1, h2, h3, h4, h5⟩
    obtain ⟨k1, r, k2, k3, k4, k5, k6, k7⟩ := (key r'.weight).1 ⟨r', h1, h2, h3, rfl, h4, h5⟩
    obtain ⟨b1, b2⟩ := rule_bound hwf k2
    exact ⟨k1, r, k2, ⟨b1, k3⟩, ⟨b2, k4⟩, k5, by rw [k7, List.map_id]⟩
  · rintro ⟨k1, r, k2, k3, k4, k5, k7⟩
    obtain ⟨r', h1, h2, h3, _, h4, h5⟩ := (key r.weight).2 ⟨k1, r, k2, k3.2, k4.2, k5, rfl, by rw [k7, List.map_id]⟩
    exact ⟨r', h1, h2, h3, h4, h5⟩

/-- What a rule leaves on the stack are labels of the PDA. -/
theorem replacement_known (hwf : p.core.WF) {r : TRule String W} (hr : r ∈ p.allRules) : ∀ l ∈ replacement r.op r.opLabel r.pre, l ∈ p.labels := by
  obtain ⟨u, hu, rfl⟩ := (TPda.mem_allRules p.toTPda r).1 hr
  obtain ⟨⟨ls, hls, _⟩, hlt⟩ := (covers_has hwf u).1 hu
  have hpre : p.symbol u.pre ∈ p.labels := (symbol_mem (t := p.toTPda) hlt).1
  have hop : u.op = .push ∨ u.op = .swap → p.symbol u.opLabel ∈ p.labels := fun ho => (symbol_mem (t := p.toTPda) (hwf.opLt _ _ hls ho)).1
  intro l hl
  have hl : l ∈ replacement u.op (if u.op = .pop ∨ u.op = .noop then default else p.symbol u.opLabel) (p.symbol u.pre) := hl
  cases ho : u.op <;> rw [ho] at hl hop <;> simp [replacement] at hl hop
  · rcases hl with rfl | rfl
    · exact hop
    · exact hpre
  · rw [hl]; exact hop
  · rw [hl]; exact hpre

theorem Again.run (h : Again names t p) (hwf : t.core.WF) (hn : NamesOK names t) (hstar : NoStar id t.toTPda) {c c' a : Nat} {ls ls' : List String}
    (hc : Same names t p c a) (hls : ∀ l ∈ ls, l ∈ p.labels) (hr : NReach (· ∈ t.allRules) (c, ls) (c', ls')) :
    ∃ a', Same names t p c' a' ∧ NReach (· ∈ p.allRules) (a, ls) (a', ls') ∧ ∀ l ∈ ls', l ∈ p.labels := by
  obtain ⟨N, Lb, hi⟩ := h.inv
  have key : ∀ y, NReach (· ∈ t.allRules) (c, ls) y → ∃ a', Same names t p y.1 a' ∧ NReach (· ∈ p.allRules) (a, ls) (a', y.2) ∧ ∀ l ∈ y.2, l ∈ p.labels := by
    intro y hy
    induction hy with
    | refl => exact ⟨a, hc, .refl, hls⟩
    | tail _ hst ih =>
      obtain ⟨a1, h1, h2, h3⟩ := ih
      cases hst with
      | mk r w hrr =>
        obtain ⟨b, hb⟩ := h.total hn (rule_bound hwf hrr).2
        obtain ⟨r', k1, k2, k3, k4, k5⟩ := (h.move hwf hstar a1 r.pre b _).2 ⟨h3 _ List.mem_cons_self, r, hrr, h1, hb, rfl, rfl⟩
        have hrep := replacement_known hi.wf k1
        rw [k5] at hrep
        refine ⟨b, hb, .tail h2 ?_, fun l hl => ?_⟩
        · have := NStep.mk (R := (· ∈ p.allRules)) r' w k1
          rw [k5, k2, k3, k4] at this
          exact this
        · rcases List.mem_append.1 hl with hl | hl
          · exact hrep l hl
          · exact h3 l (List.mem_cons_of_mem _ hl)
  exact key _ hr

theorem Again.run_back (h : Again names t p) (hwf : t.core.WF) (hn : NamesOK names t) (hstar : NoStar id t.toTPda) {c a a' : Nat} {ls ls' : List String}
    (hc : Same names t p c a) (hr : NReach (· ∈ p.allRules) (a, ls) (a', ls')) :
    ∃ c', Same names t p c' a' ∧ NReach (· ∈ t.allRules) (c, ls) (c', ls') := by
  have key : ∀ y, NReach (· ∈ p.allRules) (a, ls) y → ∃ c', Same names t p c' y.1 ∧ NReach (· ∈ t.allRules) (c, ls) (c', y.2) := by
    intro y hy
    induction hy with
    | refl => exact ⟨c, hc, .refl⟩
    | tail _ hst ih =>
      obtain ⟨c1, h1, h2⟩ := ih
      cases hst with
      | mk r' w hrr =>
        obtain ⟨_, r, k1, k2, k3, k4, k5⟩ := (h.move hwf hstar _ _ _ _).1 ⟨r', hrr, rfl, rfl, rfl, rfl⟩
        obtain rfl := Again.inj hn h1 k2
        refine ⟨r.dst, k3, .tail h2 ?_⟩
        have := NStep.mk (R := (· ∈ t.allRules)) r w k1
        rw [k5, k4]
        exact this
  exact key _ hr

end

/-! ## The automata -/

section
variable {a : NAut W}

/-- The entries of an automaton inside an instance. -/
def autFields (h : HashOrder) (names : Bool) (t : NPda String String W) (a : NAut W) : List JField := { a.toJson h names t with initial := [] }.fields

theorem autFields_edge (h : HashOrder) (r r' : JRef) (l : String) :
    Doc.Edge (autFields h names t a) r l r' ↔ Doc.Edge (a.toJson h names t).fields r l r' := by
  unfold autFields
  rw [fields_edge, fields_edge]

theorem autFields_accepting (h : HashOrder) (r : JRef) :
    Doc.Accepting (autFields h names t a) r ↔ Doc.Accepting (a.toJson h names t).fields r := by
  unfold autFields
  rw [fields_accepting, fields_accepting]

theorem autFields_used (h : HashOrder) (r : JRef) : Doc.Used (autFields h names t a) r ↔ Doc.Used (a.toJson h names t).fields r := by
  unfold Doc.Used
  simp only [autFields_edge, autFields_accepting]

theorem autFields_path (h : HashOrder) (r r' : JRef) (ls : List String) :
    Doc.Path (autFields h names t a) r ls r' ↔ Doc.Path (a.toJson h names t).fields r ls r' := by
  constructor
  · intro hp
    induction hp with
    | nil r => exact .nil r
    | cons h1 h2 _ ih => exact .cons ((autFields_edge ..).1 h1) h2 ih
  · intro hp
    induction hp with
    | nil r => exact .nil r
    | cons h1 h2 _ ih => exact .cons ((autFields_edge ..).2 h1) h2 ih

theorem autFields_docSet (h : HashOrder) : DocSet names t (autFields h names t a) = DocSet names t (a.toJson h names t).fields := by
  funext c ls
  unfold DocSet Doc.Accepts
  simp only [autFields_path, autFields_accepting]

theorem denotes_ref (hn : NamesOK names t) {r : JRef} {c : Nat} (h : Doc.Denotes names t r c) : r = a.ref names t c := by
  unfold NAut.ref
  cases r with
  | num n =>
    obtain ⟨rfl, rfl, _⟩ := h
    rfl
  | name s =>
    obtain ⟨rfl, h⟩ := h
    have hlt := (List.getElem?_eq_some_iff.1 h).1
    have e := stateName_some hlt
    rw [h] at e
    injection e with e
    rw [if_neg (by simp), if_pos (by rw [← (hn rfl).2]; exact hlt), e]

theorem print_edge (h : HashOrder) (ha : Printable names t a) {r r' : JRef} {l : String} (he : Doc.Edge (autFields h names t a) r l r') :
    ∃ x ∈ keys a.edges, r = a.ref names t x.src ∧ l = printLabel t x.label ∧ r' = a.ref names t x.dst := by
  rw [autFields_edge, fields_edge, mem_toJson_edges h (fun t ht => (ha.range t ht).1)] at he
  obtain ⟨x, hx, e⟩ := he
  cases e
  exact ⟨x, hx, rfl, rfl, rfl⟩

/-- The labels of the document are labels of the PDA. -/
theorem print_label (h : HashOrder) (ha : Printable names t a) {r r' : JRef} {l : String} (he : Doc.Edge (autFields h names t a) r l r')
    (hl : l ≠ "") : l ∈ t.labels := by
  obtain ⟨x, hx, _, rfl, _⟩ := print_edge h ha he
  exact ((printLabel_num ha (ha.range x hx).2.2).2 hl).1

variable [LinearOrder W]

omit [LinearOrder W] in
theorem print_legal (h : HashOrder) (hn : NamesOK names t) (ha : Printable names t a) (hp : PAut t.core a.toAut) (hl : t.labels.length < epsilon) :
    Doc.Legal names t (autFields h names t a) := by
  intro r l r' he
  obtain ⟨x, hx, rfl, rfl, rfl⟩ := print_edge h ha he
  have hlt : x.label < t.labels.length := (hp.valid x hx).2.1
  refine ⟨fun h0 => ?_, fun c hc => ?_⟩
  · have := (printLabel_num ha (ha.range x hx).2.2).1.1 h0
    omega
  · have h1 := ref_inj hn ha (denotes_ref (a := a) hn hc)
    have h2 : t.states.length ≤ x.dst := hp.noInto x hx
    have h3 := denotes_lt hn hc
    omega

theorem Again.legal {p : NPda String String W} (h : Again names t p) (hn : NamesOK names t) {fs : List JField} (hl : Doc.Legal names t fs) :
    Doc.Legal names p fs := by
  intro r l r' he
  refine ⟨(hl r l r' he).1, fun c hc => ?_⟩
  obtain ⟨c', _, h2⟩ := (h.denotes hn r' c).1 hc
  exact (hl r l r' he).2 c' h2

theorem Again.pure {p : NPda String String W} (hA : Again names t p) (h : HashOrder) (hn : NamesOK names t) (ha : Printable names t a) :
    Doc.Pure names p (autFields h names t a) := by
  intro hnm
  simp only [autFields_used]
  exact (print_pure h hn ha hnm).imp id fun h1 s hs => (hA.sameNames hnm s).2 (h1 s hs)

theorem Again.small {p : NPda String String W} (hA : Again names t p) (h : HashOrder) (ha : Printable names t a) : Doc.Small p (autFields h names t a) := by
  have h1 := print_small h ha
  unfold Doc.Small at h1 ⊢
  rw [hA.size]
  refine Nat.le_trans (Nat.add_le_add_left ?_ _) h1
  unfold autFields JAut.fields
  cases (a.toJson h names t).accepting <;> cases (a.toJson h names t).initial <;> simp [JField.mentions]

omit [LinearOrder W] in
theorem print_inner (h : HashOrder) (ha : Printable names t a) (hacc : ∃ q, a.isAcc q = true) (p : NPda String String W) :
    Doc.Inner names p (autFields h names t a) := by
  obtain ⟨q, hq⟩ := hacc
  have hm := (mem_toJson_accepting (names := names) (p := t) h _).2 ⟨q, hq, rfl⟩
  refine ⟨?_, fun r hr => ?_, fun hf s hs => ?_⟩
  · unfold autFields JAut.fields
    cases hc : (a.toJson h names t).accepting with
    | nil => rw [hc] at hm; cases hm
    | cons x l => simp [JField.key]
  · unfold autFields at hr
    rw [fields_initial] at hr
    cases hr
  · obtain ⟨q, _, hq⟩ := used_ref h ha ((autFields_used h _).1 hs)
    subst hf
    cases hq

omit [LinearOrder W] in
/-- The document of an automaton describes what the automaton accepts. -/
theorem print_meets [Zero W] (h : HashOrder) (hn : NamesOK names t) (ha : Printable names t a) (hp : PAut t.core a.toAut) (hl : t.labels.length < epsilon)
    (hacc : ∃ q, a.isAcc q = true) : Meets t.toTPda a.toAut (DocSet names t (autFields h names t a)) := by
  rw [autFields_docSet]
  by_cases hpos : 0 < t.states.length
  · obtain ⟨p', a', ν, h1, h2⟩ := c74_document_partial hn (print_pure h hn ha) (print_small h ha) ((print_ok h hn ha).2 ⟨hacc, hpos⟩)
    obtain ⟨a2, k1, ⟨f, k2⟩, _⟩ := c74_round_trip_partial h hn ha hacc hpos
    rw [h1] at k1
    cases k1
    have hleg : Doc.Legal names t (a.toJson h names t).fields := by
      intro r l r' he
      exact print_legal h hn ha hp hl r l r' ((autFields_edge ..).2 he)
    have hm := h2.meets hn hleg ha.nodup (Nat.le_of_lt hl)
    refine ⟨fun c hc w => ?_, hm.labels⟩
    rw [← hm.lang c hc w]
    exact (k2.lang hc w).symm
  · refine ⟨fun c hc => absurd hc (by omega), fun c ls hD => ?_⟩
    obtain ⟨r, hr, _⟩ := hD
    have := denotes_lt hn hr
    omega

end

/-! ## Instances -/

/-- The instances that can be printed and read. -/
structure InstOK (i : Inst) : Prop where
  wf : i.pda.core.WF
  stateNames : NamesOK i.names i.pda
  noStar : NoStar id i.pda.toTPda
  weights : WeightsReadable i.kind.io i.pda.toTPda
  last : i.names = false → LastUsed i.pda.toTPda
  few : i.pda.labels.length < epsilon
  ini : Printable i.names i.pda i.ini
  fin : Printable i.names i.pda i.fin
  iniAut : PAut i.pda.core i.ini.toAut
  finAut : PAut i.pda.core i.fin.toAut
  iniNew : Untraced i.ini.toAut
  finNew : Untraced i.fin.toAut
  iniAcc : ∃ q, i.ini.isAcc q = true
  finAcc : ∃ q, i.fin.isAcc q = true

theorem readable_nonneg {k : NumT} (hk : k.signed = false) {w : Int} (h : RoundTrips (WeightIO.scalar k) w) : 0 ≤ w := by
  by_contra hc
  unfold RoundTrips at h
  rw [if_pos (show (WeightIO.scalar k).isWeight = true from rfl)] at h
  have := h.1 w (List.mem_singleton.2 rfl) (Int.not_le.1 hc)
  rw [show (WeightIO.scalar k).isSigned = k.signed from rfl, hk] at this
  cases this

theorem lookup_readable {k : WKind} {t : TPda String k.Carrier} (hw : WeightsReadable k.io t) (hk : k ≠ .int) : t.core.LookupOK := by
  intro i x hx _ _ hn
  have h := hw i x hx
  cases k with
  | none => cases hn
  | uint =>
    have h0 : (0 : Int) ≤ x.1.weight := readable_nonneg (k := .uint 32) rfl h
    exact absurd hn (Int.not_lt.2 h0)
  | int => exact hk rfl
  | uints => exact absurd hn (List.not_lt_nil (x.1.weight : List Int))
  | ints => exact absurd hn (List.not_lt_nil (x.1.weight : List Int))

theorem typeOf_fields (i : Inst) : typeOf i.typeFields = some (i.names, i.kind) := by
  obtain ⟨k, n, p, a, b⟩ := i
  cases k <;> rfl

/-- C78, the text: an instance that is printed is accepted, with the same type. The PDA that is read has as many states, and no labels
other than those of the PDA that was printed. -/
theorem inst_again (h : HashOrder) {i : Inst} (hi : InstOK i) :
    ∃ p0 p' a b, parsePda i.kind.io i.names (pdaDoc (printed i.kind.io i.names i.pda).inner) = some p0 ∧
      parseInstDoc (i.toJson h) = .ok ⟨i.kind, i.names, p', a, b⟩ ∧ Again i.names i.pda p0 ∧ Again i.names i.pda p' ∧
      p'.states = p0.states ∧ p'.names = p0.names ∧ p'.labels.length < epsilon ∧
      ∀ l r r', l ≠ "" → (Doc.Edge (autFields h i.names i.pda i.ini) r l r' ∨ Doc.Edge (autFields h i.names i.pda i.fin) r l r') → l ∈ p'.labels := by
  obtain ⟨p0, h1, hA⟩ := print_again hi.wf hi.stateNames hi.noStar hi.weights hi.last
  rw [← inner_events] at h1
  have hq := inner_object (printed i.kind.io i.names i.pda)
  have hpi := hA.pure h hi.stateNames hi.ini
  have hpf := hA.pure h hi.stateNames hi.fin
  have hsi := hA.small h hi.ini
  have hsf := hA.small h hi.fin
  rcases inst_spec hq (typeOf_fields i) h1 hpi hsi hpf hsf with ⟨_, p1, p2, a, b, ν, μ, k1, k2, k3⟩ | ⟨hno, _⟩
  · obtain ⟨e1, e2, e3, e4⟩ := c77_labels_partial hq (typeOf_fields i) h1 hsi hsf k1
    have hnd : p2.labels.Nodup := k3.nodup (k2.nodup (c77_wellformed _ (object_in hq "pda") h1).1)
    have hlab : ∀ l ∈ p2.labels, l ∈ i.pda.labels := by
      intro l hl
      rcases (e4 l).1 hl with hl | ⟨hne, r, r', he | he⟩
      · exact hA.labels l hl
      · exact print_label h hi.ini he hne
      · exact print_label h hi.fin he hne
    refine ⟨p0, p2, a, b, h1, k1, hA, hA.more e1 e2 e3 hnd hlab, e1, e2, ?_, fun l r r' hne he => (e4 l).2 (.inr ⟨hne, r, r', he⟩)⟩
    exact Nat.lt_of_le_of_lt (List.Subperm.length_le (List.subperm_of_subset hnd hlab)) hi.few
  · exact absurd ⟨print_inner h hi.ini hi.iniAcc _, print_inner h hi.fin hi.finAcc _⟩ hno

/-- Labels on the paths of a document. -/
theorem path_known {fs : List JField} {r r' : JRef} {ls : List String} (hp : Doc.Path fs r ls r') {L : List String}
    (hL : ∀ l r r', l ≠ "" → Doc.Edge fs r l r' → l ∈ L) : ∀ l ∈ ls, l ∈ L := by
  induction hp with
  | nil r => intro l hl; cases hl
  | cons h1 h2 _ ih =>
    intro l hl
    rcases List.mem_cons.1 hl with rfl | hl
    · exact hL _ _ _ h2 h1
    · exact ih l hl

/-- C78: the program gives the same answer for an instance and for its text, whatever the orders of hash maps are in the two runs. The full
statement is without `LastUsed` and for signed weights too; see `c78_last_state`, `c78_signed` and `c78_no_accepting`. -/
theorem c78_answer_partial (h g1 g1' g2 g2' : HashOrder) {i : Inst} (hi : InstOK i) :
    ∃ p' a b, parseInstDoc (i.toJson h) = .ok ⟨i.kind, i.names, p', a, b⟩ ∧
      ∀ (engine : Nat), 1 ≤ engine ∧ engine ≤ 3 → engine = 1 ∨ i.kind ≠ .int → ∀ any any' : Bool,
      (any = true → StatesFit (searched g1 i.pda.core i.ini.toAut i.fin.toAut engine)) →
      (any' = true → StatesFit (searched g2 p'.core a.toAut b.toAut engine)) →
      ∃ r r', verifyPlain g1 g1' i.pda.toTPda i.ini.toAut i.fin.toAut engine any = .report r ∧
        runInst g2 g2' (i.toJson h) engine any' = .report r' ∧ r'.engine = r.engine ∧ r'.result = r.result := by
  obtain ⟨p0, p', a, b, h1, h2, hA, hA', e1, e2, hlt, hlab⟩ := inst_again h hi
  refine ⟨p', a, b, h2, fun engine he hk any any' hm hm' => ?_⟩
  have hn := hi.stateNames
  obtain ⟨r, k1, k2⟩ := verify_tells g1 g1' hi.wf hi.ini.nodup hi.few hi.iniAut hi.finAut hi.iniNew hi.finNew
    (print_meets h hn hi.ini hi.iniAut hi.few hi.iniAcc) (print_meets h hn hi.fin hi.finAut hi.few hi.finAcc) engine he
    (hk.imp id (lookup_readable hi.weights)) any hm
  obtain ⟨r', k3, k4⟩ := c77_report_partial g2 g2' (inner_object (printed i.kind.io i.names i.pda)) (typeOf_fields i) h1
    (hA.pure h hn hi.ini) (hA.small h hi.ini) (hA.pure h hn hi.fin) (hA.small h hi.fin)
    (hA.legal hn (print_legal h hn hi.ini hi.iniAut hi.few)) (hA.legal hn (print_legal h hn hi.fin hi.finAut hi.few)) h2 hlt engine he
    (hk.imp id .inl) any' hm'
  refine ⟨r, r', k1, k3, k4.engine.trans k2.engine.symm, ?_⟩
  have hd : ∀ fs, DocSet i.names p0 fs = DocSet i.names p' fs := fun fs => (docSet_congr e1 e2).symm
  have key : r'.result = true ↔ r.result = true := by
    rw [k4.result, k2.result, hd, hd]
    constructor
    · rintro ⟨c, ls, c', ls', g1, g2, g3⟩
      obtain ⟨x, s1, g1⟩ := (hA'.docSet hn _ _ _).1 g1
      obtain ⟨y, s2, g3⟩ := (hA'.docSet hn _ _ _).1 g3
      obtain ⟨z, s3, g2⟩ := hA'.run_back hi.wf hn hi.noStar s1 g2
      obtain rfl := Again.inj hn s2 s3
      exact ⟨x, ls, y, ls', g1, g2, g3⟩
    · rintro ⟨c, ls, c', ls', g1, g2, g3⟩
      obtain ⟨x, s1⟩ := hA'.total hn ((print_meets h hn hi.ini hi.iniAut hi.few hi.iniAcc).labels c ls g1).1
      have hls : ∀ l ∈ ls, l ∈ p'.labels := by
        obtain ⟨_, _, _, hp, _⟩ := g1
        exact path_known hp fun l r r' hne he => hlab l r r' hne (.inl he)
      obtain ⟨y, s2, g2, _⟩ := hA'.run hi.wf hn hi.noStar s1 hls g2
      exact ⟨x, ls, y, ls', (hA'.docSet hn _ _ _).2 ⟨c, s1, g1⟩, g2, (hA'.docSet hn _ _ _).2 ⟨c', s2, g3⟩⟩
  cases hr : r.result <;> cases hr' : r'.result <;> simp_all

/-! ## A case -/

theorem readable_scalar {nt : NumT} (hs : nt.signed = false → nt.nmin = 0) {t : TPda String Int}
    (hall : ∀ ps ∈ t.states, ∀ e ∈ ps.rules, nt.nmin ≤ e.1.weight ∧ e.1.weight < nt.nmax ∧ (nt.signed = true → e.1.weight ≠ nt.nmin)) :
    WeightsReadable (WeightIO.scalar nt) t := by
  intro i e he
  unfold Pda.st at he
  cases hi : t.core.states[i]? with
  | none => rw [hi] at he; cases he
  | some ps =>
    rw [hi] at he
    obtain ⟨h1, h2, h3⟩ := hall ps (List.mem_of_getElem? hi) e he
    exact (c48_weights_int nt hs e.1.weight ⟨h1, Int.le_of_lt h2⟩).2 ⟨by omega, h3⟩

def twoCalls : List (PdaCall Int) :=
  [.rule 1 { «to» := 1, op := .push, opLabel := 0, weight := 3 } false [1], .rule 1 { «to» := 0, op := .pop, opLabel := epsilon, weight := 0 } false [0]]

/-- From `one`, the rule for `a` pushes `b` and stays there, and the rule for `b` pops it and goes to `two`. -/
def twoPda : NPda String String Int := { labels := ["b", "a"], names := ["two", "one"], states := (Pda.build 2 twoCalls).states }

theorem twoPda_core : twoPda.core = Pda.build 2 twoCalls := rfl

def twoIni : NAut Int := { acc := [false, false, true], edges := [(⟨1, 1, 2⟩, (Trace.null, 0))] }
def twoFin : NAut Int := { acc := [false, false, true], edges := [(⟨0, 1, 2⟩, (Trace.null, 0))] }

/-- Can `⟨one, a⟩` reach `⟨two, a⟩`? -/
def twoInst : Inst := ⟨.uint, true, twoPda, twoIni, twoFin⟩

theorem twoPda_states : twoPda.states.length = 2 ∧ twoPda.core.size = 2 := by decide +kernel

theorem twoInst_ok : InstOK twoInst where
  wf := by
    show twoPda.core.WF
    rw [twoPda_core]
    exact Pda.WF_build 2 twoCalls (by simp [twoCalls, PdaCall.OK, WSorted])
  stateNames := fun _ => ⟨by decide, twoPda_states.1.symm⟩
  noStar := by
    show ∀ a ∈ ["b", "a"], a ≠ "*"
    decide
  weights := readable_scalar (nt := .uint 32) (fun _ => rfl) (by
    show ∀ ps ∈ twoPda.states, _
    decide +kernel)
  last := fun h => by cases h
  few := by decide
  ini := ⟨by decide +kernel, by decide, by decide, by decide, by decide, fun _ => ⟨by decide, by decide, by decide⟩, by decide +kernel⟩
  fin := ⟨by decide +kernel, by decide, by decide, by decide, by decide, fun _ => ⟨by decide, by decide, by decide⟩, by decide +kernel⟩
  iniAut := ⟨⟨by decide +kernel, by unfold Valid; decide +kernel, by decide⟩, by decide +kernel⟩
  finAut := ⟨⟨by decide +kernel, by unfold Valid; decide +kernel, by decide⟩, by decide +kernel⟩
  iniNew := by unfold Untraced; decide
  finNew := by unfold Untraced; decide
  iniAcc := ⟨2, rfl⟩
  finAcc := ⟨2, rfl⟩

/-- What a report says. -/
def _root_.Verif.Outcome.answer {L : Type} : Outcome L → Option Bool
  | .report r => some r.result
  | _ => none

/-- Every engine answers yes for the text. -/
example (engine : Nat) (he : 1 ≤ engine ∧ engine ≤ 3) :
    ∃ r', runInst HashOrder.id HashOrder.id (twoInst.toJson HashOrder.id) engine false = .report r' ∧ r'.result = true := by
  obtain ⟨_, _, _, _, h2⟩ := c78_answer_partial HashOrder.id HashOrder.id HashOrder.id HashOrder.id HashOrder.id twoInst_ok
  obtain ⟨r, r', k1, k2, _, k3⟩ := h2 engine he (.inr (by decide)) false false (fun h => by cases h) (fun h => by cases h)
  refine ⟨r', k2, k3.trans ?_⟩
  have k : (verifyPlain HashOrder.id HashOrder.id twoInst.pda.toTPda twoInst.ini.toAut twoInst.fin.toAut engine false).answer = some true := by
    obtain rfl | rfl | rfl : engine = 1 ∨ engine = 2 ∨ engine = 3 := by omega
    all_goals decide +kernel
  rw [k1] at k
  exact Option.some.inj k

/-- The states and labels have other numbers in what is read. -/
example : (match parseInstDoc (twoInst.toJson HashOrder.id) with | .ok i => (i.pda.labels, i.pda.names) | _ => ([], [])) = (["a", "b"], ["one", "two"]) := by
  decide +kernel

/-! ## Where the answers differ -/

def lastAut : NAut Unit := { acc := [false, false, true], edges := [(⟨1, 0, 2⟩, (Trace.null, ()))] }

def lastInst : Inst := ⟨.none, false, { labels := ["a"], states := [{}, {}] }, lastAut, lastAut⟩

/-- The English claim fails in full: a last state without rules is lost, and a configuration there no longer reaches itself. -/
theorem c78_last_state :
    (verifyPlain HashOrder.id HashOrder.id lastInst.pda.toTPda lastInst.ini.toAut lastInst.fin.toAut 1 false).answer = some true ∧
    (runInst HashOrder.id HashOrder.id (lastInst.toJson HashOrder.id) 1 false).answer = some false :=
  ⟨by decide +kernel, by decide +kernel⟩

def signedCalls : List (PdaCall Int) := [.rule 0 { «to» := 1, op := .push, opLabel := 1, weight := -1 } false [1]]

def signedPda : NPda String String Int := { labels := ["b", "a"], states := (Pda.build 2 signedCalls).states }

def signedIni : NAut Int := { acc := [false, false, true], edges := [(⟨0, 1, 2⟩, (Trace.null, 0))] }
def signedFin : NAut Int := { acc := [false, false, false, true], edges := [(⟨1, 1, 2⟩, (Trace.null, 0)), (⟨2, 1, 3⟩, (Trace.null, 0))] }

def signedInst : Inst := ⟨.int, false, signedPda, signedIni, signedFin⟩

theorem signedPda_core : signedPda.core = Pda.build 2 signedCalls := rfl

theorem signedInst_ok : InstOK signedInst where
  wf := by
    show signedPda.core.WF
    rw [signedPda_core]
    exact Pda.WF_build 2 signedCalls (by simp [signedCalls, PdaCall.OK, WSorted])
  stateNames := fun h => by cases h
  noStar := by
    show ∀ a ∈ ["b", "a"], a ≠ "*"
    decide
  weights := readable_scalar (nt := .sint 32) (fun h => by cases h) (by
    show ∀ ps ∈ signedPda.states, _
    decide +kernel)
  last := fun _ n hn => by
    have : signedPda.states.length = 2 := by decide +kernel
    have hn : signedPda.states.length = n + 1 := hn
    obtain rfl : n = 1 := by omega
    have hr : (⟨0, "a", 1, .push, "a", -1⟩ : TRule String Int) ∈ signedPda.allRules := by decide +kernel
    exact ⟨_, hr, .inr rfl⟩
  few := by decide
  ini := ⟨by decide +kernel, by decide, by decide, by decide, by decide, fun h => (by cases h), by decide +kernel⟩
  fin := ⟨by decide +kernel, by decide, by decide, by decide, by decide, fun h => (by cases h), by decide +kernel⟩
  iniAut := ⟨⟨by decide +kernel, by unfold Valid; decide +kernel, by decide⟩, by decide +kernel⟩
  finAut := ⟨⟨by decide +kernel, by unfold Valid; decide +kernel, by decide⟩, by decide +kernel⟩
  iniNew := by unfold Untraced; decide
  finNew := by unfold Untraced; decide
  iniAcc := ⟨2, rfl⟩
  finAcc := ⟨3, rfl⟩

/-- With signed weights the second engine can answer differently, since the labels have other numbers in what is read. -/
theorem c78_signed : InstOK signedInst ∧
    (verifyPlain HashOrder.id HashOrder.id signedInst.pda.toTPda signedInst.ini.toAut signedInst.fin.toAut 2 false).answer = some true ∧
    (runInst HashOrder.id HashOrder.id (signedInst.toJson HashOrder.id) 2 false).answer = some false :=
  ⟨signedInst_ok, by decide +kernel, by decide +kernel⟩

/-- An automaton without accepting states is printed, but refused. -/
theorem c78_no_accepting : parseInstDoc (Inst.toJson HashOrder.id ⟨.none, false, { labels := ["a"], states := [{}, {}] }, lastAut, { acc := [false, false], edges := [] }⟩) = .error := rfl

end Verif.Props
