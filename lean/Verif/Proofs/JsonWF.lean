import Verif.Proofs.InstanceJson
import Mathlib.Data.List.Chain

/-! # Whatever JSON text is read, the PDA is well-formed -/

namespace Verif.JsonWF

open Verif.Json

variable {W : Type} {names : Bool}

/-! ## The contexts -/

/-- The contexts of arrays; unknown arrays are objects to the handler. -/
def isArr : JCtx → Bool
  | .stateArray => true
  | .ruleArray => true
  | .weightArray => true
  | _ => false

/-- Which keys can be waiting for their value in a context. -/
def fits : JKey → JCtx → Bool
  | .none, _ => true
  | .pda, .initial => true
  | .states, .pda => true
  | .states, .stateArray => true
  | .stateName, .statesObject => true
  | .fromLabel, .state => true
  | .fromLabel, .ruleArray => true
  | .dest, .rule => true
  | .pop, .rule => true
  | .swap, .rule => true
  | .push, .rule => true
  | .weight, .rule => true
  | .weight, .weightArray => true
  | .unknown, .initial => true
  | .unknown, .pda => true
  | .unknown, .unknown => true
  | _, _ => false

/-- Which contexts can be directly inside which. -/
def above : JCtx → JCtx → Bool
  | .pda, .initial => true
  | .stateArray, .pda => true
  | .stateArray, .stateArray => true
  | .statesObject, .pda => true
  | .state, .stateArray => true
  | .state, .statesObject => true
  | .ruleArray, .state => true
  | .ruleArray, .ruleArray => true
  | .rule, .state => true
  | .rule, .ruleArray => true
  | .weightArray, .rule => true
  | .weightArray, .weightArray => true
  | .unknown, .initial => true
  | .unknown, .pda => true
  | .unknown, .unknown => true
  | _, _ => false

/-- What is open in the text, and the context for it. -/
structure Fit (fr : JFrame) (x : JContext) : Prop where
  arr : isArr x.type = true → fr = .arr ∧ ∃ i, x.body = .array i
  obj : isArr x.type = false → (∃ m, x.body = .object m) ∧ (fr = .arr → x.type = .unknown)

/-- The last key and the contexts. -/
def KeyOK (k : JKey) : List JFrame → List JContext → Prop
  | .key :: _, x :: r => (x.type = .unknown → k = .none ∨ k = .unknown) ∧ (match r with
      | [] => k = .none
      | y :: _ => fits k y.type = true)
  | _ :: _, x :: _ => fits k x.type = true
  | _, _ => True

structure Shape (f : List JFrame) (st : List JContext) (k : JKey) : Prop where
  al : List.Forall₂ Fit f st
  ch : st.IsChain (fun x y => above x.type y.type = true)
  key : KeyOK k f st

theorem fits_none (x : JCtx) : fits .none x = true := by cases x <;> rfl

theorem keyOK_none (f : List JFrame) (st : List JContext) : KeyOK .none f st := by
  unfold KeyOK
  split
  · refine ⟨fun _ => .inl rfl, ?_⟩
    split
    · rfl
    · exact fits_none _
  · exact fits_none _
  · trivial

theorem Fit.valued {fr fr' : JFrame} {x : JContext} (h : Fit fr x) (hv : fr' = fr ∨ (fr = .val ∧ fr' = .key)) : Fit fr' x := by
  rcases hv with rfl | ⟨rfl, rfl⟩
  · exact h
  · refine ⟨fun ha => ?_, fun ha => ⟨(h.obj ha).1, fun h => by cases h⟩⟩
    have := (h.arr ha).1
    cases this

theorem valued_cons {f f' : List JFrame} (hv : JFrame.valued f = some f') :
    ∃ fr fr' r, f = fr :: r ∧ f' = fr' :: r ∧ (fr = .arr ∨ fr = .val) ∧ (fr' = fr ∨ (fr = .val ∧ fr' = .key)) := by
  unfold JFrame.valued at hv
  split at hv
  · cases hv; exact ⟨_, _, _, rfl, rfl, .inl rfl, .inl rfl⟩
  · cases hv; exact ⟨_, _, _, rfl, rfl, .inr rfl, .inr ⟨rfl, rfl⟩⟩
  · cases hv

/-- Where a value can come, the last key belongs to the context. -/
theorem Shape.top {f f' : List JFrame} {st : List JContext} {k : JKey} (h : Shape f st k) (hv : JFrame.valued f = some f') :
    ∃ x r, st = x :: r ∧ fits k x.type = true := by
  obtain ⟨fr, fr', rf, rfl, rfl, h1, h2⟩ := valued_cons hv
  cases st with
  | nil => cases h.al
  | cons x r =>
    refine ⟨x, r, rfl, ?_⟩
    have := h.key
    rcases h1 with rfl | rfl <;> exact this

/-- What `element_done` leaves. -/
def doneStack : List JContext → List JContext
  | ⟨ty, .array i⟩ :: r => ⟨ty, .array (i + 1)⟩ :: r
  | st => st
def doneKey (k : JKey) : List JContext → JKey
  | ⟨_, .array _⟩ :: _ => k
  | _ => .none

theorem elementDone_eq (s : Sax W) : s.elementDone = { s with stack := doneStack s.stack, lastKey := doneKey s.lastKey s.stack } := by
  unfold Sax.elementDone doneStack doneKey
  obtain ⟨pda, src, pre, wc, rule, lastKey, stack⟩ := s
  rcases stack with _ | ⟨⟨ty, m | i⟩, r⟩ <;> rfl

/-- The types in the stack are not changed by `element_done`. -/
theorem shape_done {f : List JFrame} {x : JContext} {r : List JContext} {k : JKey} (hal : List.Forall₂ Fit f (x :: r))
    (hch : (x :: r).IsChain (fun x y => above x.type y.type = true)) (hk : isArr x.type = true → fits k x.type = true) :
    Shape f (doneStack (x :: r)) (doneKey k (x :: r)) := by
  obtain ⟨ty, m | i⟩ := x
  · exact ⟨hal, hch, keyOK_none _ _⟩
  · cases hal with
    | cons hx hr =>
      rename_i fr f
      have ha : isArr ty = true := by
        cases hi : isArr ty with
        | true => rfl
        | false => obtain ⟨⟨m, hm⟩, _⟩ := hx.obj hi; cases hm
      have hfr := (hx.arr ha).1
      subst hfr
      refine ⟨.cons ⟨fun _ => ⟨rfl, _, rfl⟩, fun h => ?_⟩ hr, ?_, hk ha⟩
      · rw [ha] at h; cases h
      · cases r with
        | nil => exact .singleton _
        | cons y r =>
          rw [List.isChain_cons_cons] at hch
          exact List.isChain_cons_cons.2 hch

theorem Shape.valued {f f' : List JFrame} {st : List JContext} {k : JKey} (h : Shape f st k) (hv : JFrame.valued f = some f') :
    List.Forall₂ Fit f' st := by
  obtain ⟨fr, fr', rf, rfl, rfl, h1, h2⟩ := valued_cons hv
  have := h.al
  cases this with
  | cons hx hr => exact .cons (hx.valued h2) hr

theorem Shape.scalar {f f' : List JFrame} {st : List JContext} {k : JKey} (h : Shape f st k) (hv : JFrame.valued f = some f') :
    Shape f' (doneStack st) (doneKey k st) := by
  obtain ⟨x, r, rfl, h1⟩ := h.top hv
  exact shape_done (h.valued hv) h.ch fun _ => h1

theorem Shape.push {f f' : List JFrame} {y : JContext} {st : List JContext} {k : JKey} (h : Shape f (y :: st) k) (hv : JFrame.valued f = some f')
    (fr : JFrame) (x : JContext) (hx : Fit fr x) (hf : fr ≠ .val) (ha : above x.type y.type = true) (hk : fr = .key → x.type = .unknown → k = .none ∨ k = .unknown)
    (hk' : fr = .arr → fits k x.type = true) : Shape (fr :: f') (x :: y :: st) k := by
  obtain ⟨y', st', hst, h1⟩ := h.top hv
  cases hst
  refine ⟨.cons hx (h.valued hv), List.isChain_cons_cons.2 ⟨ha, h.ch⟩, ?_⟩
  cases fr with
  | val => exact absurd rfl hf
  | key => exact ⟨hk rfl, h1⟩
  | arr => exact hk' rfl

theorem Shape.pop {fr : JFrame} {f : List JFrame} {x y : JContext} {r : List JContext} {k : JKey} (h : Shape (fr :: f) (x :: y :: r) k)
    (hf : fr ≠ .val) : Shape f (doneStack (y :: r)) (doneKey k (y :: r)) := by
  obtain ⟨hal, hch, hk⟩ := h
  cases hal with
  | cons hx hr =>
    rw [List.isChain_cons_cons] at hch
    refine shape_done hr hch.2 fun hy => ?_
    cases fr with
    | val => exact absurd rfl hf
    | key => exact hk.2
    | arr =>
      have h1 : fits k x.type = true := hk
      have h2 := hch.1
      have h3 : isArr x.type = false → x.type = .unknown := fun h => (hx.obj h).2 rfl
      clear hk hr
      generalize x.type = a at h1 h2 h3
      generalize y.type = b at hy h2
      cases a <;> cases b <;> simp [above, isArr] at h2 hy h3 <;> exact h1

def rank : JCtx → Nat
  | .unknown => 9
  | .initial => 0
  | .pda => 1
  | .stateArray => 2
  | .statesObject => 2
  | .state => 3
  | .ruleArray => 4
  | .rule => 5
  | .weightArray => 6

theorem rank_above {a b : JCtx} (h : above a b = true) : rank b ≤ rank a ∧ (a = .rule → rank b ≤ 4) := by
  cases a <;> cases b <;> simp [above, rank] at h ⊢

/-- Inside a rule there is no other rule. -/
theorem one_rule {x : JContext} {r : List JContext} (h : (x :: r).IsChain (fun x y => above x.type y.type = true)) (hx : x.type = .rule) :
    ∀ y ∈ r, y.type ≠ .rule := by
  have key : ∀ (r : List JContext) (x : JContext), (x :: r).IsChain (fun x y => above x.type y.type = true) → ∀ y ∈ r, rank y.type ≤ rank x.type := by
    intro r
    induction r with
    | nil => intro x _ y hy; cases hy
    | cons z r ih =>
      intro x h y hy
      rw [List.isChain_cons_cons] at h
      have h1 := (rank_above h.1).1
      rcases List.mem_cons.1 hy with rfl | hy
      · exact h1
      · exact Nat.le_trans (ih z h.2 y hy) h1
  cases r with
  | nil => simp
  | cons z r =>
    rw [List.isChain_cons_cons] at h
    have h1 := (rank_above h.1).2 hx
    intro y hy hyr
    have h2 : rank y.type ≤ 4 := by
      rcases List.mem_cons.1 hy with rfl | hy
      · exact h1
      · exact Nat.le_trans (key r z h.2 y hy) h1
    rw [hyr] at h2
    simp [rank] at h2

/-! ## The contents -/

variable [LinearOrder W]

structure PGood (names : Bool) (p : NPda String String W) : Prop where
  nodup : p.labels.Nodup
  wf : p.core.WF
  nm : p.names.Nodup
  len : names = true → p.names.length = p.states.length

theorem PGood.empty : PGood names ({} : NPda String String W) := ⟨by simp, Pda.WF_empty 0, by simp, fun _ => rfl⟩

/-- More labels, or more states. -/
structure More (p p' : NPda String String W) : Prop where
  labels : p.labels.length ≤ p'.labels.length
  names : p.names.length ≤ p'.names.length

theorem PGood.insertLabel {p : NPda String String W} (h : PGood names p) (l : String) :
    PGood names (p.insertLabel l).1 ∧ More p (p.insertLabel l).1 ∧ (p.insertLabel l).2 < (p.insertLabel l).1.labels.length := by
  unfold NPda.insertLabel TPda.insertLabel
  cases hi : p.toTPda.labelId l with
  | some i =>
    have hl := (TPda.labelId_iff h.nodup l i).1 hi
    exact ⟨⟨h.nodup, h.wf, h.nm, h.len⟩, ⟨Nat.le_refl _, Nat.le_refl _⟩, (List.getElem?_eq_some_iff.1 hl).1⟩
  | none =>
    have hl := (TPda.labelId_none p.toTPda l).1 hi
    refine ⟨⟨nodup_snoc h.nodup hl, wf_more h.wf (by simp [TPda.core]), h.nm, h.len⟩, ⟨by simp, Nat.le_refl _⟩, by simp⟩

theorem PGood.insertState {p : NPda String String W} (h : PGood true p) (n : String) :
    PGood true (p.insertState n).1 ∧ More p (p.insertState n).1 ∧ (p.insertState n).2 < (p.insertState n).1.names.length := by
  unfold NPda.insertState
  have hsz : ∀ i, (p.core.addState i).states.length = max p.states.length (i + 1) := fun i => Pda.size_addState p.core i
  cases hi : p.names.idxOf? n with
  | some i =>
    have hl := (idxOf?_iff h.nm n i).1 hi
    have hlt := (List.getElem?_eq_some_iff.1 hl).1
    have hc := core_states_addState p p.names i
    refine ⟨⟨h.nodup, by rw [hc]; exact Pda.WF_addState h.wf i, h.nm, fun _ => ?_⟩, ⟨Nat.le_refl _, Nat.le_refl _⟩, hlt⟩
    have := h.len rfl
    show p.names.length = (p.core.addState i).states.length
    rw [hsz]
    omega
  | none =>
    have hl : n ∉ p.names := List.idxOf?_eq_none_iff.1 hi
    have hc := core_states_addState p (p.names ++ [n]) p.names.length
    refine ⟨⟨h.nodup, by rw [hc]; exact Pda.WF_addState h.wf _, nodup_snoc h.nm hl, fun _ => ?_⟩, ⟨Nat.le_refl _, by simp⟩, by simp⟩
    have := h.len rfl
    show (p.names ++ [n]).length = (p.core.addState p.names.length).states.length
    rw [hsz, List.length_append]
    simp
    omega

theorem PGood.addRule {p : NPda String String W} (h : PGood names p) (src : Nat) (r : Rule W) (wc : Bool) (pre : List Nat)
    (hok : (PdaCall.rule src r wc pre).OK p.labels.length) (hn : names = true → src < p.names.length ∧ r.to < p.names.length) :
    PGood names (p.addRuleDetail src r wc pre) := by
  have hc := core_addRuleDetail p src r wc pre
  refine ⟨h.nodup, by rw [hc]; exact Pda.WF_addRuleImpl h.wf _ _ _ _ hok, h.nm, fun hnm => ?_⟩
  have h1 := h.len hnm
  have h2 := hn hnm
  show p.names.length = (p.core.addRuleImpl src r wc pre).size
  rw [Pda.size_addRuleImpl]
  show p.names.length = max p.states.length (max src r.to + 1)
  omega

def opKey : JKey → Bool
  | .pop => true
  | .swap => true
  | .push => true
  | _ => false

/-- The current rule has a valid operand, and a valid state to go to. -/
def OpOK (s : Sax W) : Prop := s.rule.op = .push ∨ s.rule.op = .swap → s.rule.opLabel < s.pda.labels.length
def DstOK (names : Bool) (s : Sax W) : Prop := names = true → s.rule.to < s.pda.names.length

/-- The state of the handler, when `k` is the last key. -/
structure Cont (names : Bool) (s : Sax W) (k : JKey) : Prop where
  pda : PGood names s.pda
  pre : s.pre = [] ∨ ∃ g, s.pre = [g] ∧ g < s.pda.labels.length
  src : names = true → (k = .stateName ∨ ∃ x ∈ s.stack, x.type = .state ∨ x.type = .ruleArray ∨ x.type = .rule) → s.src < s.pda.names.length
  noArr : names = true → ∀ x ∈ s.stack, x.type ≠ .stateArray
  op : ∀ m, ⟨.rule, .object m⟩ ∈ s.stack → (2 ∉ m → opKey k = true ∨ OpOK s) ∧ (1 ∉ m → k = .dest ∨ DstOK names s)

structure SInv (names : Bool) (f : List JFrame) (s : Sax W) : Prop where
  shape : Shape f s.stack s.lastKey
  cont : Cont names s s.lastKey

/-- Once the value of a key has been read, the contents do not depend on the key. -/
theorem Cont.settle {s : Sax W} {k : JKey} (h : Cont names s k) (h1 : opKey k = false) (h2 : k ≠ .dest) : Cont names s .none :=
  ⟨h.pda, h.pre, fun hn hx => h.src hn (hx.elim (fun h => by cases h) .inr), h.noArr, fun m hm => ⟨fun hm2 => .inr (((h.op m hm).1 hm2).elim (fun h => by rw [h1] at h; cases h) id),
    fun hm1 => .inr (((h.op m hm).2 hm1).elim (fun h => absurd h h2) id)⟩⟩

theorem Cont.key {s : Sax W} (h : Cont names s .none) (k : JKey) (hk : k ≠ .stateName) : Cont names s k :=
  ⟨h.pda, h.pre, fun hn hx => h.src hn (hx.elim (fun h => absurd h hk) .inr), h.noArr, fun m hm => ⟨fun hm2 => .inr (((h.op m hm).1 hm2).elim (fun h => by cases h) id),
    fun hm1 => .inr (((h.op m hm).2 hm1).elim (fun h => by cases h) id)⟩⟩

theorem mem_doneStack {st : List JContext} {x : JContext} (h : x ∈ doneStack st) : ∃ y ∈ st, y.type = x.type := by
  unfold doneStack at h
  split at h
  · rcases List.mem_cons.1 h with rfl | h
    · exact ⟨_, List.mem_cons_self, rfl⟩
    · exact ⟨x, List.mem_cons_of_mem _ h, rfl⟩
  · exact ⟨x, h, rfl⟩

theorem rule_doneStack {st : List JContext} {m : List Nat} (h : ⟨.rule, .object m⟩ ∈ doneStack st) : ⟨.rule, .object m⟩ ∈ st := by
  unfold doneStack at h
  split at h
  · rcases List.mem_cons.1 h with h | h
    · cases h
    · exact List.mem_cons_of_mem _ h
  · exact h

/-- The contents after `element_done`. -/
theorem Cont.done {s : Sax W} (h : Cont names s .none) (hk : ∀ x r, s.stack = x :: r → isArr x.type = true → s.lastKey ≠ .stateName)
    (hb : ∀ x r i, s.stack = x :: r → x.body = .array i → isArr x.type = true) :
    Cont names s.elementDone s.elementDone.lastKey := by
  rw [elementDone_eq]
  have key : Cont names { s with stack := doneStack s.stack, lastKey := doneKey s.lastKey s.stack } .none := by
    refine ⟨h.pda, h.pre, fun hn hx => h.src hn (hx.imp id ?_), fun hn x hx => ?_, fun m hm => h.op m (rule_doneStack hm)⟩
    · rintro ⟨x, hx, ht⟩
      obtain ⟨y, hy, hyt⟩ := mem_doneStack hx
      exact ⟨y, hy, by rw [hyt]; exact ht⟩
    · obtain ⟨y, hy, hyt⟩ := mem_doneStack hx
      rw [← hyt]
      exact h.noArr hn y hy
  refine key.key _ ?_
  show doneKey s.lastKey s.stack ≠ .stateName
  unfold doneKey
  split
  · rename_i ty i r hs
    exact hk _ _ hs (hb _ _ i hs rfl)
  · simp

/-- A scalar value. -/
theorem SInv.scalar {f f' : List JFrame} {s s1 : Sax W} (h : SInv names f s) (hv : JFrame.valued f = some f') (hst : s1.stack = s.stack)
    (hk : s1.lastKey = s.lastKey) (hc : Cont names s1 .none) : SInv names f' s1.elementDone := by
  have hsh := h.shape.scalar hv
  obtain ⟨x, r, hx, h1⟩ := h.shape.top hv
  refine ⟨?_, hc.done (fun y q hy ha => ?_) (fun y q i hy hb => ?_)⟩
  · rw [elementDone_eq, hst, hk]
    exact hsh
  · rw [hst, hx] at hy
    cases hy
    rw [hk]
    intro hs
    rw [hs] at h1
    generalize x.type = a at h1 ha
    cases a <;> simp [fits, isArr] at h1 ha
  · rw [hst, hx] at hy
    cases hy
    have := h.shape.al
    rw [hx] at this
    cases this with
    | cons hf _ =>
      cases hi : isArr x.type with
      | true => rfl
      | false =>
        obtain ⟨⟨m, hm⟩, _⟩ := hf.obj hi
        rw [hm] at hb
        cases hb

/-! ## The events -/

theorem Cont.more {s : Sax W} {k : JKey} (h : Cont names s k) {p : NPda String String W} (hp : PGood names p) (hm : More s.pda p) :
    Cont names { s with pda := p } k := by
  have h1 := hm.labels
  have h2 := hm.names
  refine ⟨hp, ?_, fun hn hx => Nat.lt_of_lt_of_le (h.src hn hx) h2, h.noArr, fun m hr => ⟨fun hm2 => ?_, fun hm1 => ?_⟩⟩
  · rcases h.pre with h | ⟨g, h, hg⟩
    · exact .inl h
    · exact .inr ⟨g, h, Nat.lt_of_lt_of_le hg h1⟩
  · exact ((h.op m hr).1 hm2).imp id fun h ho => Nat.lt_of_lt_of_le (h ho) h1
  · exact ((h.op m hr).2 hm1).imp id fun h hn => Nat.lt_of_lt_of_le (h hn) h2

/-- The operand has been read. -/
theorem Cont.setOp {s : Sax W} {k : JKey} (h : Cont names s k) (hk : k ≠ .dest) {op : Op} {l : Nat} (ho : op = .push ∨ op = .swap → l < s.pda.labels.length) :
    Cont names { s with rule := { s.rule with op := op, opLabel := l } } .none :=
  ⟨h.pda, h.pre, fun hn hx => h.src hn (hx.elim (fun h => by cases h) .inr), h.noArr,
    fun m hm => ⟨fun _ => .inr ho, fun hm1 => .inr (((h.op m hm).2 hm1).elim (fun h => absurd h hk) id)⟩⟩

/-- The state to go to has been read. -/
theorem Cont.setDst {s : Sax W} {k : JKey} (h : Cont names s k) (hk : opKey k = false) {n : Nat} (ho : names = true → n < s.pda.names.length) :
    Cont names { s with rule := { s.rule with «to» := n } } .none :=
  ⟨h.pda, h.pre, fun hn hx => h.src hn (hx.elim (fun h => by cases h) .inr), h.noArr,
    fun m hm => ⟨fun hm2 => .inr (((h.op m hm).1 hm2).elim (fun h => by rw [hk] at h; cases h) id), fun _ => .inr ho⟩⟩

theorem Cont.setWeight {s : Sax W} {k : JKey} (h : Cont names s k) (w : W) : Cont names { s with rule := { s.rule with weight := w } } k :=
  ⟨h.pda, h.pre, h.src, h.noArr, h.op⟩

section
variable {f f' : List JFrame} {s s' : Sax W} {io : WeightIO W}

theorem SInv.skip (h : SInv names f s) (hv : JFrame.valued f = some f') (he : s.skip = some s') : SInv names f' s' := by
  unfold Sax.skip at he
  split at he
  · rename_i hk
    cases he
    exact h.scalar hv rfl rfl (h.cont.settle (by rw [hk]; rfl) (by rw [hk]; decide))
  · cases he

theorem SInv.putWeight (h : SInv names f s) (hv : JFrame.valued f = some f') {z : Int} (he : s.putWeight io z = some s')
    (h1 : opKey s.lastKey = false) (h2 : s.lastKey ≠ .dest) : SInv names f' s' := by
  unfold Sax.putWeight at he
  obtain ⟨w, _, rfl⟩ := Option.map_eq_some_iff.1 he
  exact h.scalar (s1 := { s with rule := { s.rule with weight := w } }) hv rfl rfl ((h.cont.settle h1 h2).setWeight w)

theorem SInv.weightTop (h : SInv names f s) (hv : JFrame.valued f = some f') (ht : s.top = some .weightArray) :
    opKey s.lastKey = false ∧ s.lastKey ≠ .dest := by
  obtain ⟨x, r, hx, h1⟩ := h.shape.top hv
  unfold Sax.top at ht
  rw [hx] at ht
  have : x.type = .weightArray := by simpa using ht
  rw [this] at h1
  generalize s.lastKey = k at h1
  cases k <;> simp [fits] at h1 <;> simp [opKey]

theorem SInv.int (h : SInv names f s) (hv : JFrame.valued f = some f') {z : Int} (he : s.int io z = some s') : SInv names f' s' := by
  unfold Sax.int at he
  split at he
  · rename_i hc
    simp only [Bool.and_eq_true, beq_iff_eq] at hc
    obtain ⟨h1, h2⟩ := h.weightTop hv hc.2
    exact h.putWeight hv he h1 h2
  · split at he
    · rename_i hk
      cases he
      exact h.scalar hv rfl rfl (h.cont.settle (by rw [hk]; rfl) (by rw [hk]; decide))
    · rename_i hk
      split at he
      · exact h.putWeight hv he (by rw [hk]; rfl) (by rw [hk]; decide)
      · cases he
    · cases he

theorem SInv.uns (h : SInv names f s) (hv : JFrame.valued f = some f') {n : Nat} (he : s.uns io names n = some s') : SInv names f' s' := by
  unfold Sax.uns at he
  split at he
  · rename_i hc
    simp only [Bool.and_eq_true, beq_iff_eq] at hc
    obtain ⟨h1, h2⟩ := h.weightTop hv hc.2
    exact h.putWeight hv he h1 h2
  · split at he
    · rename_i hk
      split at he
      · cases he
      · rename_i hn
        cases he
        exact h.scalar (s1 := { s with rule := { s.rule with «to» := n } }) hv rfl rfl (h.cont.setDst (by rw [hk]; rfl) fun h => absurd h hn)
    · rename_i hk
      split at he
      · exact h.putWeight hv he (by rw [hk]; rfl) (by rw [hk]; decide)
      · cases he
        exact h.scalar hv rfl rfl (h.cont.settle (by rw [hk]; rfl) (by rw [hk]; decide))
    · rename_i hk
      cases he
      exact h.scalar hv rfl rfl (h.cont.settle (by rw [hk]; rfl) (by rw [hk]; decide))
    · cases he

theorem SInv.str (h : SInv names f s) (hv : JFrame.valued f = some f') {v : String} (he : s.str names v = some s') : SInv names f' s' := by
  obtain ⟨p1, p2, p3⟩ := h.cont.pda.insertLabel v
  have hl := h.cont.more p1 p2
  unfold Sax.str at he
  split at he
  · cases he
  · split at he
    · rename_i hk
      split at he
      · rename_i hn
        cases he
        subst hn
        obtain ⟨q1, q2, q3⟩ := h.cont.pda.insertState v
        exact h.scalar (s1 := { s with pda := (s.pda.insertState v).1, rule := { s.rule with «to» := (s.pda.insertState v).2 } }) hv rfl rfl
          ((h.cont.more q1 q2).setDst (by rw [hk]; rfl) fun _ => q3)
      · cases he
    · rename_i hk
      cases he
      exact h.scalar (s1 := { s with rule := { s.rule with op := .pop, opLabel := epsilon } }) hv rfl rfl
        (h.cont.setOp (by rw [hk]; decide) (by simp))
    · rename_i hk
      split at he
      · cases he
        exact h.scalar (s1 := { s with rule := { s.rule with op := .noop, opLabel := epsilon } }) hv rfl rfl
          (h.cont.setOp (by rw [hk]; decide) (by simp))
      · cases he
        exact h.scalar (s1 := { s with pda := (s.pda.insertLabel v).1, rule := { s.rule with op := .swap, opLabel := (s.pda.insertLabel v).2 } }) hv rfl rfl
          (hl.setOp (by rw [hk]; decide) fun _ => p3)
    · rename_i hk
      cases he
      exact h.scalar (s1 := { s with pda := (s.pda.insertLabel v).1, rule := { s.rule with op := .push, opLabel := (s.pda.insertLabel v).2 } }) hv rfl rfl
        (hl.setOp (by rw [hk]; decide) fun _ => p3)
    · rename_i hk
      cases he
      exact h.scalar hv rfl rfl (h.cont.settle (by rw [hk]; rfl) (by rw [hk]; decide))
    · cases he

/-- A new context. -/
theorem SInv.push (h : SInv names f s) (hv : JFrame.valued f = some f') {y : JContext} {r : List JContext} (hy : s.stack = y :: r) (fr : JFrame)
    (ty : JCtx) (b : JBody) (hx : Fit fr ⟨ty, b⟩) (hf : fr ≠ .val) (ha : above ty y.type = true) (hk : ty = .unknown → s.lastKey = .unknown)
    (hk' : fr = .arr → fits s.lastKey ty = true) (hrule : ty = .rule → ∃ m, b = .object m ∧ 1 ∈ m ∧ 2 ∈ m)
    (harr : names = true → ty ≠ .stateArray) (hst : names = true → ty = .state → s.lastKey = .stateName) (src : Nat)
    (hsrc : names = true → src = s.src) : SInv names (fr :: f') { s.push ty b with src := src } := by
  have hsh := h.shape
  rw [hy] at hsh
  refine ⟨?_, h.cont.pda, h.cont.pre, fun hn hx => ?_, fun hn x hx => ?_, fun m hm => ?_⟩
  · show Shape (fr :: f') (⟨ty, b⟩ :: s.stack) s.lastKey
    rw [hy]
    exact hsh.push hv fr ⟨ty, b⟩ hx hf ha (fun _ h => .inr (hk h)) hk'
  · show src < s.pda.names.length
    rw [hsrc hn]
    rcases hx with hx | ⟨x, hx, ht⟩
    · exact h.cont.src hn (.inl hx)
    · rcases List.mem_cons.1 hx with rfl | hx
      · rcases ht with ht | ht | ht
        · exact h.cont.src hn (.inl (hst hn ht))
        · refine h.cont.src hn (.inr ⟨y, by rw [hy]; exact List.mem_cons_self, ?_⟩)
          have ht : ty = .ruleArray := ht
          subst ht
          generalize y.type = c at ha
          cases c <;> simp [above] at ha <;> simp
        · refine h.cont.src hn (.inr ⟨y, by rw [hy]; exact List.mem_cons_self, ?_⟩)
          have ht : ty = .rule := ht
          subst ht
          generalize y.type = c at ha
          cases c <;> simp [above] at ha <;> simp
      · exact h.cont.src hn (.inr ⟨x, hx, ht⟩)
  · rcases List.mem_cons.1 hx with rfl | hx
    · exact harr hn
    · exact h.cont.noArr hn x hx
  · rcases List.mem_cons.1 hm with hm | hm
    · injection hm with h1 h2
      obtain ⟨m', h3, h4, h5⟩ := hrule h1.symm
      rw [← h2] at h3
      cases h3
      exact ⟨fun h => absurd h5 h, fun h => absurd h4 h⟩
    · exact h.cont.op m hm

theorem fit_obj {ty : JCtx} {m : List Nat} (h : isArr ty = false) : Fit .key ⟨ty, .object m⟩ :=
  ⟨fun h1 => (by have h1 : isArr ty = true := h1; rw [h] at h1; cases h1), fun _ => ⟨⟨m, rfl⟩, fun h => by cases h⟩⟩

theorem fit_arr {ty : JCtx} (h : isArr ty = true) : Fit .arr ⟨ty, .array 0⟩ := by
  refine ⟨fun _ => ⟨rfl, 0, rfl⟩, fun h1 => ?_⟩
  have h1 : isArr ty = false := h1
  rw [h] at h1
  cases h1

theorem ruleKeys_mem (io : WeightIO W) : ∃ m, JBody.object (Sax.ruleKeys io) = .object m ∧ 1 ∈ m ∧ 2 ∈ m := by
  refine ⟨_, rfl, ?_⟩
  unfold Sax.ruleKeys
  split <;> simp

theorem SInv.startObj (h : SInv names f s) (hv : JFrame.valued f = some f') (he : s.startObj io names = some s') : SInv names (.key :: f') s' := by
  obtain ⟨y, r, hy, h1⟩ := h.shape.top hv
  have ht : s.top = some y.type := by simp [Sax.top, hy]
  have hno : names = true → y.type ≠ .stateArray := fun hn => h.cont.noArr hn y (by rw [hy]; exact List.mem_cons_self)
  have push : ∀ ty m, isArr ty = false → above ty y.type = true → (ty = .unknown → s.lastKey = .unknown) → (ty = .rule → ∃ m', JBody.object m = .object m' ∧ 1 ∈ m' ∧ 2 ∈ m') →
      (names = true → ty = .state → s.lastKey = .stateName) → SInv names (.key :: f') (s.push ty (.object m)) := by
    intro ty m hty ha hk hr hs
    exact h.push hv hy .key ty (.object m) (fit_obj hty) (by decide) ha hk (fun h => by cases h) hr (fun _ h => by subst h; cases hty) hs s.src fun _ => rfl
  unfold Sax.startObj at he
  rw [ht] at he
  cases hyt : y.type <;> cases hk : s.lastKey <;> rw [hyt, hk] at h1 <;> simp [fits] at h1 <;> rw [hyt, hk] at he <;> simp at he <;>
    rw [hyt, hk] at push <;> rw [hyt] at hno
  all_goals first
    | (subst he
       refine push _ _ rfl rfl (by simp) ?_ ?_
       · first
         | exact fun _ => ruleKeys_mem io
         | (intro h; cases h)
       · first
         | exact fun _ _ => rfl
         | exact fun hn _ => absurd rfl (hno hn)
         | (intro _ h; cases h))
    | (obtain ⟨hn, rfl⟩ := he
       exact push _ _ rfl rfl (by simp) (by simp) (by simp))

theorem SInv.startArr (h : SInv names f s) (hv : JFrame.valued f = some f') (he : s.startArr io names = some s') : SInv names (.arr :: f') s' := by
  obtain ⟨y, r, hy, h1⟩ := h.shape.top hv
  unfold Sax.startArr at he
  rw [if_neg (by rw [hy]; simp)] at he
  split at he
  · rename_i hk
    split at he
    · cases he
    · rename_i hn
      cases he
      have ha : above .stateArray y.type = true := by
        rw [hk] at h1
        generalize y.type = c at h1
        cases c <;> simp [fits] at h1 <;> rfl
      exact h.push hv hy .arr _ _ (fit_arr rfl) (by decide) ha (by simp) (fun _ => by rw [hk]; rfl) (by simp) (fun h => absurd h hn) (by simp) 0 fun h => absurd h hn
  · rename_i hk
    cases he
    have ha : above .ruleArray y.type = true := by
      rw [hk] at h1
      generalize y.type = c at h1
      cases c <;> simp [fits] at h1 <;> rfl
    exact h.push hv hy .arr _ _ (fit_arr rfl) (by decide) ha (by simp) (fun _ => by rw [hk]; rfl) (by simp) (by simp) (by simp) s.src fun h => rfl
  · rename_i hk
    cases he
    have ha : above .unknown y.type = true := by
      rw [hk] at h1
      generalize y.type = c at h1
      cases c <;> simp [fits] at h1 <;> rfl
    exact h.push hv hy .arr .unknown (.object []) ⟨fun h => (by cases h), fun _ => ⟨⟨_, rfl⟩, fun _ => rfl⟩⟩ (by decide) ha (fun _ => hk) (fun _ => by rw [hk]; rfl)
      (by simp) (by simp) (by simp) s.src fun h => rfl
  · rename_i hk
    split at he
    · cases he
      have ha : above .weightArray y.type = true := by
        rw [hk] at h1
        generalize y.type = c at h1
        cases c <;> simp [fits] at h1 <;> rfl
      exact h.push hv hy .arr _ _ (fit_arr rfl) (by decide) ha (by simp) (fun _ => by rw [hk]; rfl) (by simp) (by simp) (by simp) s.src fun h => rfl
    · cases he
  · cases he

/-- After a key. -/
theorem SInv.handleKey {f : List JFrame} (h : SInv names (.key :: f) s) {flag : Nat} {k : JKey} (he : s.handleKey flag k = some s')
    (hty : ∀ x r, s.stack = x :: r → fits k x.type = true) (hk : k ≠ .stateName)
    (h1 : opKey s.lastKey = false ∧ s.lastKey ≠ .dest) (h2 : flag = 2 → opKey k = true) (h3 : flag = 1 → (∃ x r, s.stack = x :: r ∧ x.type ≠ .rule) ∨ k = .dest)
    (h4 : flag = 1 ∨ flag = 2 ∨ flag = 3) : SInv names (.val :: f) s' := by
  unfold Sax.handleKey at he
  split at he
  · rename_i ty m r hs
    split at he
    · cases he
      have hsh := h.shape
      rw [hs] at hsh
      have hc := h.cont.settle h1.1 h1.2
      refine ⟨⟨?_, ?_, ?_⟩, hc.pda, hc.pre, fun hn hx => hc.src hn (.inr ?_), fun hn x hx => ?_, fun m' hm' => ?_⟩
      · cases hsh.al with
        | cons hx hr =>
          exact .cons ⟨fun ha => (by obtain ⟨_, i, hi⟩ := hx.arr ha; cases hi), fun ha => ⟨⟨_, rfl⟩, fun h => by cases h⟩⟩ hr
      · cases r with
        | nil => exact .singleton _
        | cons y r =>
          have := hsh.ch
          rw [List.isChain_cons_cons] at this
          exact List.isChain_cons_cons.2 this
      · exact hty ⟨ty, .object m⟩ _ hs
      · rcases hx with h | ⟨x, hx, ht⟩
        · exact absurd h hk
        · rcases List.mem_cons.1 hx with rfl | hx
          · exact ⟨⟨ty, .object m⟩, by rw [hs]; exact List.mem_cons_self, ht⟩
          · exact ⟨x, by rw [hs]; exact List.mem_cons_of_mem _ hx, ht⟩
      · rcases List.mem_cons.1 hx with rfl | hx
        · exact hc.noArr hn ⟨ty, .object m⟩ (by rw [hs]; exact List.mem_cons_self)
        · exact hc.noArr hn x (by rw [hs]; exact List.mem_cons_of_mem _ hx)
      · rcases List.mem_cons.1 hm' with hm' | hm'
        · injection hm' with ht hb
          injection hb with hb
          have hop := hc.op m (by rw [hs, ht]; exact List.mem_cons_self)
          subst hb
          refine ⟨fun hx => ?_, fun hx => ?_⟩
          · by_cases hf : flag = 2
            · exact .inl (h2 hf)
            · refine .inr ((hop.1 fun hm => hx (List.mem_filter.2 ⟨hm, by simpa using Ne.symm hf⟩)).elim (fun h => by cases h) id)
          · by_cases hf : flag = 1
            · rcases h3 hf with ⟨x, r', hx', ht'⟩ | h3
              · rw [hs] at hx'
                cases hx'
                exact absurd ht.symm ht'
              · exact .inl h3
            · refine .inr ((hop.2 fun hm => hx (List.mem_filter.2 ⟨hm, by simpa using Ne.symm hf⟩)).elim (fun h => by cases h) id)
        · have hop := hc.op m' (by rw [hs]; exact List.mem_cons_of_mem _ hm')
          exact ⟨fun hx => .inr ((hop.1 hx).elim (fun h => by cases h) id), fun hx => .inr ((hop.2 hx).elim (fun h => by cases h) id)⟩
    · cases he
  · cases he

/-- Where a key can come, no value is awaited by the current rule. -/
theorem SInv.settled {f : List JFrame} (h : SInv names (.key :: f) s) : opKey s.lastKey = false ∧ s.lastKey ≠ .dest := by
  obtain ⟨hal, hch, hk⟩ := h.shape
  cases hs : s.stack with
  | nil => rw [hs] at hal; cases hal
  | cons x r =>
    rw [hs] at hal hch hk
    cases r with
    | nil =>
      have hk : s.lastKey = .none := hk.2
      rw [hk]
      simp [opKey]
    | cons y r =>
      have h1 : fits s.lastKey y.type = true := hk.2
      rw [List.isChain_cons_cons] at hch
      have h2 := hch.1
      cases hal with
      | cons hx _ =>
        have h3 : isArr x.type = false := by
          cases hi : isArr x.type with
          | false => rfl
          | true => have := (hx.arr hi).1; cases this
        clear hk hch hx
        generalize s.lastKey = k at h1
        generalize x.type = a at h2 h3
        generalize y.type = b at h1 h2
        cases k <;> simp [opKey] <;> cases b <;> simp [fits] at h1 <;> cases a <;> simp [above, isArr] at h2 h3

/-- A key that changes no flags. -/
theorem SInv.plainKey {f : List JFrame} (h : SInv names (.key :: f) s) {s1 : Sax W} (hst : s1.stack = s.stack) (hty : ∀ x r, s.stack = x :: r → fits s1.lastKey x.type = true)
    (hc : Cont names s1 s1.lastKey) : SInv names (.val :: f) s1 := by
  obtain ⟨hal, hch, hk⟩ := h.shape
  refine ⟨?_, hc⟩
  rw [hst]
  cases hs : s.stack with
  | nil => rw [hs] at hal; cases hal
  | cons x r =>
    rw [hs] at hal hch
    refine ⟨?_, hch, hty x r hs⟩
    cases hal with
    | cons hx hr => exact .cons ⟨fun ha => (by obtain ⟨h, _⟩ := hx.arr ha; cases h), fun ha => ⟨(hx.obj ha).1, fun h => (by cases h)⟩⟩ hr

theorem SInv.readKey {f : List JFrame} (h : SInv names (.key :: f) s) {k : String} (he : s.key io names k = some s') : SInv names (.val :: f) s' := by
  have hset := h.settled
  have hc := h.cont.settle hset.1 hset.2
  have top : ∀ {c : JCtx}, s.top = some c → ∀ x r, s.stack = x :: r → x.type = c := by
    intro c hc x r hx
    unfold Sax.top at hc
    rw [hx] at hc
    simpa using hc
  have ne : ∀ {c : JCtx}, s.top = some c → c ≠ .rule → ∃ x r, s.stack = x :: r ∧ x.type ≠ .rule := by
    intro c hc hn
    cases hs : s.stack with
    | nil => simp [Sax.top, hs] at hc
    | cons x r => exact ⟨x, r, rfl, by rw [top hc x r hs]; exact hn⟩
  unfold Sax.key at he
  split at he
  · cases he
  · rename_i ht
    split at he
    · exact h.handleKey he (fun x r hx => by rw [top ht x r hx]; rfl) (by decide) hset (by simp) (fun _ => .inl (ne ht (by decide))) (.inl rfl)
    · cases he
      exact h.plainKey rfl (fun x r hx => by rw [top ht x r hx]; rfl) ⟨hc.pda, hc.pre, (hc.key .unknown (by simp)).src, hc.noArr, (hc.key .unknown (by simp)).op⟩
  · rename_i ht
    split at he
    · exact h.handleKey he (fun x r hx => by rw [top ht x r hx]; rfl) (by decide) hset (by simp) (fun _ => .inl (ne ht (by decide))) (.inl rfl)
    · cases he
      exact h.plainKey rfl (fun x r hx => by rw [top ht x r hx]; rfl) ⟨hc.pda, hc.pre, (hc.key .unknown (by simp)).src, hc.noArr, (hc.key .unknown (by simp)).op⟩
  · rename_i ht
    split at he
    · rename_i hn
      cases he
      subst hn
      obtain ⟨q1, q2, q3⟩ := hc.pda.insertState k
      have hm := hc.more q1 q2
      refine h.plainKey rfl (fun x r hx => by rw [top ht x r hx]; rfl) ⟨hm.pda, hm.pre, fun _ _ => q3, hm.noArr, fun m hr => ?_⟩
      exact ⟨fun h2 => .inr (((hm.op m hr).1 h2).elim (fun h => by cases h) id), fun h1 => .inr (((hm.op m hr).2 h1).elim (fun h => by cases h) id)⟩
    · cases he
  · rename_i ht
    split at he
    · cases he
      refine h.plainKey rfl (fun x r hx => by rw [top ht x r hx]; rfl) ?_
      have := hc.key .fromLabel (by simp)
      exact ⟨this.pda, .inl rfl, this.src, this.noArr, this.op⟩
    · cases he
      obtain ⟨p1, p2, p3⟩ := hc.pda.insertLabel k
      have := (hc.more p1 p2).key .fromLabel (by simp)
      refine h.plainKey rfl (fun x r hx => by rw [top ht x r hx]; rfl) ?_
      exact ⟨this.pda, .inr ⟨_, rfl, p3⟩, this.src, this.noArr, this.op⟩
  · rename_i ht
    split at he
    · exact h.handleKey he (fun x r hx => by rw [top ht x r hx]; rfl) (by decide) hset (by simp) (fun _ => .inr rfl) (.inl rfl)
    · split at he
      · exact h.handleKey he (fun x r hx => by rw [top ht x r hx]; rfl) (by decide) hset (fun _ => rfl) (by simp) (.inr (.inl rfl))
      · split at he
        · exact h.handleKey he (fun x r hx => by rw [top ht x r hx]; rfl) (by decide) hset (fun _ => rfl) (by simp) (.inr (.inl rfl))
        · split at he
          · exact h.handleKey he (fun x r hx => by rw [top ht x r hx]; rfl) (by decide) hset (fun _ => rfl) (by simp) (.inr (.inl rfl))
          · split at he
            · exact h.handleKey he (fun x r hx => by rw [top ht x r hx]; rfl) (by decide) hset (by simp) (by simp) (.inr (.inr rfl))
            · cases he
  · rename_i ht
    cases he
    refine h.plainKey rfl (fun x r hx => ?_) h.cont
    have hx' := top ht x r hx
    have hk := h.shape.key
    rw [hx] at hk
    rcases hk.1 hx' with hk | hk <;> rw [hk, hx'] <;> rfl
  · cases he

/-- One context less. -/
theorem SInv.pop {fr : JFrame} {f : List JFrame} (h : SInv names (fr :: f) s) (hf : fr ≠ .val) (hne : f ≠ []) {x : JContext} {r : List JContext} (hs : s.stack = x :: r)
    {s1 : Sax W} (hst : s1.stack = r) (hk : s1.lastKey = s.lastKey) (hc : Cont names s1 .none) : SInv names f s1.elementDone := by
  have hsh := h.shape
  rw [hs] at hsh
  cases r with
  | nil =>
    cases hsh.al with
    | cons _ hr => cases hr; exact absurd rfl hne
  | cons y r =>
    have hp := hsh.pop hf
    refine ⟨?_, hc.done (fun z q hz ha => ?_) (fun z q i hz hb => ?_)⟩
    · rw [elementDone_eq, hst, hk]
      exact hp
    · rw [hst] at hz
      cases hz
      rw [hk]
      intro hn
      have hpk := hp.key
      have hal := hp.al
      have hb : ∃ i, y.body = .array i := by
        have := hsh.al
        cases this with
        | cons _ hr => cases hr with
          | cons hy _ => exact (hy.arr ha).2
      obtain ⟨ty, b⟩ := y
      obtain ⟨i, rfl⟩ := hb
      have hfa : ∃ f1, f = .arr :: f1 := by
        cases hal with
        | cons hy _ => exact ⟨_, by rw [(hy.arr ha).1]⟩
      obtain ⟨f1, rfl⟩ := hfa
      have hpk : fits s.lastKey ty = true := hpk
      rw [hn] at hpk
      have ha : isArr ty = true := ha
      cases ty <;> simp [fits, isArr] at hpk ha
    · rw [hst] at hz
      cases hz
      have := hsh.al
      cases this with
      | cons _ hr => cases hr with
        | cons hy _ =>
          cases hi : isArr y.type with
          | true => rfl
          | false =>
            obtain ⟨⟨m, hm⟩, _⟩ := hy.obj hi
            rw [hm] at hb
            cases hb

/-- Without the innermost context. -/
theorem Cont.drop {k : JKey} (h : Cont names s k) {x : JContext} {r : List JContext} (hs : s.stack = x :: r) : Cont names { s with stack := r } k := by
  refine ⟨h.pda, h.pre, fun hn hx => h.src hn (hx.imp id ?_), fun hn y hy => h.noArr hn y (by rw [hs]; exact List.mem_cons_of_mem _ hy),
    fun m hm => h.op m (by rw [hs]; exact List.mem_cons_of_mem _ hm)⟩
  rintro ⟨y, hy, ht⟩
  exact ⟨y, by rw [hs]; exact List.mem_cons_of_mem _ hy, ht⟩

theorem SInv.endArr {f : List JFrame} (h : SInv names (.arr :: f) s) (he : s.endArr = some s') : PGood names s'.pda ∧ (f ≠ [] → SInv names f s') := by
  unfold Sax.endArr at he
  split at he
  · cases he
  · rename_i x r hs
    cases he
    refine ⟨by rw [elementDone_eq]; exact h.cont.pda, fun hne => ?_⟩
    refine h.pop (by decide) hne hs (s1 := { s with stack := r }) rfl rfl (Cont.drop ?_ hs)
    have hk : fits s.lastKey x.type = true := by
      have := h.shape.key
      rw [hs] at this
      exact this
    have ha : isArr x.type = true ∨ x.type = .unknown := by
      have := h.shape.al
      rw [hs] at this
      cases this with
      | cons hx _ =>
        cases hi : isArr x.type with
        | true => exact .inl rfl
        | false => exact .inr ((hx.obj hi).2 rfl)
    refine h.cont.settle ?_ ?_
    · generalize x.type = c at hk ha
      generalize s.lastKey = k at hk
      cases k <;> simp [opKey] <;> cases c <;> simp [fits, isArr] at hk ha
    · intro hd
      rw [hd] at hk
      generalize x.type = c at hk ha
      cases c <;> simp [fits, isArr] at hk ha

/-- What an object that ends leaves, before its context is removed. -/
theorem SInv.close {f : List JFrame} (h : SInv names (.key :: f) s) {ty : JCtx} {r : List JContext} (hs : s.stack = ⟨ty, .object []⟩ :: r) :
    Cont names { (match ty with
      | .state => if names then s else { s with src := s.src + 1 }
      | .rule => { s with pda := s.pda.addRuleDetail s.src s.rule s.wc s.pre, rule := Sax.rule0 io }
      | _ => s) with stack := r } .none := by
  have hset := h.settled
  have hc := h.cont.settle hset.1 hset.2
  have hd := hc.drop hs
  split
  · split
    · exact hd
    · rename_i hn
      exact ⟨hd.pda, hd.pre, fun h => absurd h hn, hd.noArr, hd.op⟩
  · have hop := hc.op [] (by rw [hs]; exact List.mem_cons_self)
    have h2 : OpOK s := (hop.1 (by simp)).elim (fun h => by cases h) id
    have h1 : DstOK names s := (hop.2 (by simp)).elim (fun h => by cases h) id
    have hsrc : names = true → s.src < s.pda.names.length := fun hn => hc.src hn (.inr ⟨_, by rw [hs]; exact List.mem_cons_self, .inr (.inr rfl)⟩)
    have hone := one_rule (x := ⟨.rule, .object []⟩) (r := r) (by have := h.shape.ch; rw [hs] at this; exact this) rfl
    refine ⟨?_, hd.pre, ?_, hd.noArr, fun m hm => absurd rfl (hone _ hm)⟩
    · refine hc.pda.addRule _ _ _ _ ⟨?_, ?_⟩ fun hn => ⟨hsrc hn, h1 hn⟩
      · intro _
        rcases hc.pre with h | ⟨g, h, hg⟩
        · rw [h]; simp [WSorted]
        · rw [h]; simpa [WSorted] using hg
      · exact h2
    · exact hd.src
  · exact hd

theorem SInv.endObj {f : List JFrame} (h : SInv names (.key :: f) s) (he : s.endObj io names = some s') :
    PGood names s'.pda ∧ (f ≠ [] → SInv names f s') := by
  unfold Sax.endObj at he
  split at he
  · rename_i ty r hs
    simp only [Option.some.injEq] at he
    subst he
    have hc := h.close (io := io) hs
    refine ⟨?_, fun hne => h.pop (by decide) hne hs rfl ?_ hc⟩
    · rw [elementDone_eq]
      exact hc.pda
    · show (match ty with
      | .state => if names then s else { s with src := s.src + 1 }
      | .rule => { s with pda := s.pda.addRuleDetail s.src s.rule s.wc s.pre, rule := Sax.rule0 io }
      | _ => s).lastKey = _
      split
      · split <;> rfl
      · rfl
      · rfl
  · cases he

theorem SInv.event {e : JEv} (h : SInv names f s) (hf : JFrame.after f e = some f') (he : s.event io names e = some s') :
    PGood names s'.pda ∧ (f' ≠ [] → SInv names f' s') := by
  have fin : SInv names f' s' → PGood names s'.pda ∧ (f' ≠ [] → SInv names f' s') := fun h => ⟨h.cont.pda, fun _ => h⟩
  cases e with
  | null => exact fin (h.skip hf he)
  | bool _ => exact fin (h.skip hf he)
  | float => exact fin (h.skip hf he)
  | int z => exact fin (h.int hf he)
  | uns n => exact fin (h.uns hf he)
  | str v => exact fin (h.str hf he)
  | startObj =>
    obtain ⟨f1, h1, rfl⟩ := Option.map_eq_some_iff.1 hf
    exact fin (h.startObj h1 he)
  | startArr =>
    obtain ⟨f1, h1, rfl⟩ := Option.map_eq_some_iff.1 hf
    exact fin (h.startArr h1 he)
  | key k =>
    simp only [JFrame.after] at hf
    split at hf
    · cases hf
      exact fin (h.readKey he)
    · cases hf
  | endObj =>
    simp only [JFrame.after] at hf
    split at hf
    · cases hf
      exact h.endObj he
    · cases hf
  | endArr =>
    simp only [JFrame.after] at hf
    split at hf
    · cases hf
      exact h.endArr he
    · cases hf

theorem SInv.run {es : List JEv} (hes : Completes f es) : ∀ {s : Sax W}, SInv names f s → f ≠ [] → Sax.run io names es s = some s' → PGood names s'.pda := by
  induction hes with
  | done => intro s _ h; exact absurd rfl h
  | step h1 h2 ih =>
    rename_i f f1 e es
    intro s h _ hr
    unfold Sax.run at hr
    obtain ⟨s1, he, hr⟩ := Option.bind_eq_some_iff.1 hr
    obtain ⟨hg, hi⟩ := h.event h1 he
    by_cases hne : f1 = []
    · subst hne
      have := h2.eq_nil
      subst this
      cases hr
      exact hg
    · exact ih (hi hne) hne hr

/-- Every PDA read from a JSON object is well-formed. -/
theorem parsePda_good {es : List JEv} (hes : IsObject es) {p : NPda String String W} (h : parsePda io names es = some p) : PGood names p := by
  obtain ⟨es', rfl, hc⟩ := hes
  unfold parsePda at h
  obtain ⟨s, hr, rfl⟩ := Option.map_eq_some_iff.1 h
  unfold Sax.run at hr
  obtain ⟨s1, he, hr⟩ := Option.bind_eq_some_iff.1 hr
  cases he
  refine SInv.run hc ⟨⟨.cons (fit_obj rfl) .nil, .singleton _, keyOK_none _ _⟩, .empty, .inl rfl, fun _ h => ?_, fun _ x hx => ?_, fun m hm => ?_⟩ (by simp) hr
  · rcases h with h | ⟨x, hx, ht⟩
    · cases h
    · cases hx with
      | head => simp at ht
      | tail _ h => cases h
  · cases hx with
    | head => simp
    | tail _ h => cases h
  · cases hm with
    | tail _ h => cases h

end

end Verif.JsonWF
