import Verif.Spec.AutDoc
import Verif.Proofs.PAutJson
import Verif.Proofs.PAutMixed
import Verif.Props.Verifier

/-! # C74: P-automata in JSON

What `PAutomatonJsonParser::parse` makes of a document, and what it makes of a document that `to_json` printed. -/

namespace Verif.Props

open Verif

variable {W : Type} {names : Bool} {p : NPda String String W} {fs : List JField}

/-! ## The document and the parser's view of it -/

theorem mem_accs (r : JRef) : r ∈ fs.flatMap JField.accs ↔ Doc.Accepting fs r := by
  rw [List.mem_flatMap]
  constructor
  · rintro ⟨f, hf, hr⟩
    cases f with
    | accepting l => exact ⟨l, hf, hr⟩
    | initial l => cases hr
    | edges l => cases hr
  · rintro ⟨l, hf, hr⟩
    exact ⟨_, hf, hr⟩

theorem mem_edgs (e : JRef × String × JRef) : e ∈ fs.flatMap JField.edgs ↔ Doc.Edge fs e.1 e.2.1 e.2.2 := by
  rw [List.mem_flatMap]
  constructor
  · rintro ⟨f, hf, hr⟩
    cases f with
    | accepting l => cases hr
    | initial l => cases hr
    | edges l => exact ⟨l, hf, hr⟩
  · rintro ⟨l, hf, hr⟩
    exact ⟨_, hf, hr⟩

theorem keys_iff : Keys true [1, 2, 3] fs ↔ (fs.map JField.key).Perm ["accepting", "edges", "initial"] := by
  rw [keys_perm fs (by decide)]
  have h1 : fs.map JField.key = (fs.map JField.flag).map fun n => if n = 1 then "accepting" else if n = 2 then "edges" else "initial" := by
    rw [List.map_map]
    exact List.map_congr_left fun f _ => by cases f <;> rfl
  have h2 : fs.map JField.flag = (fs.map JField.key).map fun s => if s = "accepting" then 1 else if s = "edges" then 2 else 3 := by
    rw [List.map_map]
    exact List.map_congr_left fun f _ => by cases f <;> rfl
  constructor
  · intro h
    rw [h1]
    exact h.map _
  · intro h
    rw [h2]
    exact h.map _

theorem keys_inner : Keys false [1, 2] fs ↔ ((fs.map JField.key).filter (· ≠ "initial")).Perm ["accepting", "edges"] := by
  rw [keys_free fs (by decide) (by decide)]
  have h1 : (fs.map JField.key).filter (· ≠ "initial") = ((fs.map JField.flag).filter (· ≠ 3)).map fun n => if n = 1 then "accepting" else "edges" := by
    induction fs with
    | nil => rfl
    | cons f fs ih =>
      cases f <;> simp [JField.key, JField.flag] <;> simpa using ih
  have h2 : (fs.map JField.flag).filter (· ≠ 3) = ((fs.map JField.key).filter (· ≠ "initial")).map fun s => if s = "accepting" then 1 else 2 := by
    clear h1
    induction fs with
    | nil => rfl
    | cons f fs ih =>
      cases f <;> simp [JField.key, JField.flag] <;> simpa using ih
  constructor
  · intro h
    rw [h1]
    exact h.map _
  · intro h
    rw [h2]
    exact h.map _

theorem isState_iff (hn : NamesOK names p) (r : JRef) : r.IsState names p ↔ ∃ c, Doc.Denotes names p r c := by
  cases r with
  | num n => simp [JRef.IsState, Doc.Denotes]
  | name s =>
    simp only [JRef.IsState, Doc.Denotes, exists_and_left]
    refine and_congr_right fun _ => ?_
    rw [List.mem_iff_getElem?]

theorem usable_iff (r : JRef) : r.Usable names ↔ (names = false → ∀ s, r ≠ .name s) := by
  cases r <;> cases names <;> simp [JRef.Usable]

theorem good_entries (hn : NamesOK names p) : (∀ f ∈ fs, f.Good names p) ↔
    (∀ r, Doc.Initial fs r → ∃ c, Doc.Denotes names p r c) ∧ (names = false → ∀ s, ¬ Doc.Used fs (.name s)) := by
  constructor
  · intro h2
    refine ⟨?_, ?_⟩
    · rintro r ⟨l, hl, hr⟩
      exact (isState_iff hn r).1 ((h2 _ hl).1 r hr)
    · rintro h3 s (⟨l, hl, hr⟩ | ⟨l, r', es, hl, hr⟩ | ⟨r', l, es, hl, hr⟩)
      · exact (usable_iff _).1 ((h2 _ hl).2.1 _ hr) h3 s rfl
      · exact (usable_iff _).1 ((h2 _ hl).2.2 _ hr).1 h3 s rfl
      · exact (usable_iff _).1 ((h2 _ hl).2.2 _ hr).2 h3 s rfl
  · rintro ⟨h2, h3⟩
    refine fun f hf => ⟨fun r hr => ?_, fun r hr => ?_, fun e he => ⟨?_, ?_⟩⟩
    · cases f with
      | initial l => exact (isState_iff hn r).2 (h2 r ⟨l, hf, hr⟩)
      | accepting l => cases hr
      | edges l => cases hr
    · refine (usable_iff r).2 fun h s hs => h3 h s (.inl ?_)
      subst hs
      exact (mem_accs _).1 (List.mem_flatMap.2 ⟨f, hf, hr⟩)
    · refine (usable_iff _).2 fun h s hs => h3 h s (.inr (.inl ?_))
      have := (mem_edgs e).1 (List.mem_flatMap.2 ⟨f, hf, he⟩)
      rw [hs] at this
      exact ⟨_, _, this⟩
    · refine (usable_iff _).2 fun h s hs => h3 h s (.inr (.inr ?_))
      have := (mem_edgs e).1 (List.mem_flatMap.2 ⟨f, hf, he⟩)
      rw [hs] at this
      exact ⟨_, _, this⟩

/-- The documents that are well-formed for the parser, which requires the initial states or not. -/
def Doc.Fine (req names : Bool) (p : NPda String String W) (fs : List JField) : Prop :=
  if req then Doc.OK names p fs else Doc.Inner names p fs

theorem good_iff (req : Bool) (hn : NamesOK names p) :
    (Keys req (if req then [1, 2, 3] else [1, 2]) fs ∧ ∀ f ∈ fs, f.Good names p) ↔ Doc.Fine req names p fs := by
  rw [good_entries hn]
  cases req with
  | true =>
    show (Keys true [1, 2, 3] fs ∧ _) ↔ Doc.OK names p fs
    rw [keys_iff]
    exact ⟨fun ⟨h1, h2, h3⟩ => ⟨h1, h2, h3⟩, fun ⟨h1, h2, h3⟩ => ⟨h1, h2, h3⟩⟩
  | false =>
    show (Keys false [1, 2] fs ∧ _) ↔ Doc.Inner names p fs
    rw [keys_inner]
    exact ⟨fun ⟨h1, h2, h3⟩ => ⟨h1, h2, h3⟩, fun ⟨h1, h2, h3⟩ => ⟨h1, h2, h3⟩⟩

/-- Whether numbers are used beyond the states of the PDA. -/
theorem fits_of_pure (hp : Doc.Pure names p fs) : ∃ k, ∀ f ∈ fs, f.Fits names k p := by
  have key : ∃ k, ∀ r, Doc.Used fs r → r.Usable names → r.Fit names k p.names := by
    cases hn : names with
    | false =>
      refine ⟨true, fun r _ h => ?_⟩
      cases r with
      | num n => exact fun h => by cases h
      | name s => cases h
    | true =>
      rcases hp hn with h | h
      · refine ⟨false, fun r hr _ => ?_⟩
        cases r with
        | num n => exact absurd hr (h n)
        | name s => exact ⟨rfl, fun h => by cases h⟩
      · refine ⟨true, fun r hr _ => ?_⟩
        cases r with
        | num n => exact fun _ => rfl
        | name s => exact ⟨rfl, fun _ => h s hr⟩
  obtain ⟨k, hk⟩ := key
  refine ⟨k, fun f hf => ⟨fun r hr => hk r (.inl ((mem_accs _).1 (List.mem_flatMap.2 ⟨f, hf, hr⟩))), fun e he => ?_⟩⟩
  have := (mem_edgs e).1 (List.mem_flatMap.2 ⟨f, hf, he⟩)
  exact ⟨hk _ (.inr (.inl ⟨_, _, this⟩)), hk _ (.inr (.inr ⟨_, _, this⟩))⟩

theorem small_iff : Doc.Small p fs ↔ p.states.length + (fs.flatMap JField.accs).length + 2 * (fs.flatMap JField.edgs).length ≤ sizeMax := by
  unfold Doc.Small
  have : (fs.map JField.mentions).sum = (fs.flatMap JField.accs).length + 2 * (fs.flatMap JField.edgs).length := by
    induction fs with
    | nil => rfl
    | cons f fs ih =>
      rw [List.map_cons, List.sum_cons, ih]
      simp only [List.flatMap_cons, List.length_append]
      cases f <;> simp [JField.accs, JField.edgs, JField.mentions] <;> omega
  rw [this, Nat.add_assoc]

/-! ## Reading -/

/-- The PDA `p'` and the automaton `a` are what the document says, where `ν` numbers the states of the document. -/
structure Reads [Zero W] (names : Bool) (p : NPda String String W) (fs : List JField) (p' : NPda String String W) (a : Aut W)
    (ν : JRef → Option Nat) : Prop where
  states : p'.states = p.states
  sameNames : p'.names = p.names
  known : p.labels <+: p'.labels
  labels : ∀ l, l ∈ p'.labels ↔ l ∈ p.labels ∨ (l ≠ "" ∧ ∃ r r', Doc.Edge fs r l r')
  nodup : p.labels.Nodup → p'.labels.Nodup
  pda : ∀ r c, c < p.states.length → (ν r = some c ↔ Doc.Denotes names p r c)
  inj : ∀ r r' i, ν r = some i → ν r' = some i → r = r'
  used : ∀ r, Doc.Used fs r → ∃ i, ν r = some i
  range : p.states.length ≤ a.n ∧ ∀ r i, ν r = some i → i < a.n
  acc : ∀ i, a.isAcc i = true ↔ ∃ r, Doc.Accepting fs r ∧ ν r = some i
  edges : ∀ t, t ∈ keys a.edges ↔ ∃ r l r', Doc.Edge fs r l r' ∧ ν r = some t.src ∧ ν r' = some t.dst ∧
    (if l = "" then t.label = epsilon else t.label = p'.labels.idxOf l)
  once : (keys a.edges).Nodup
  blank : Blank a

theorem find_pda {b : PMake W} {k : Bool} (hn : NamesOK names p) (hs : b.pda.states = p.states) (hm : b.pda.names = p.names)
    (hb : b.Inv names k) (r : JRef) {c : Nat} (hc : c < p.states.length) : b.find names r = some c ↔ Doc.Denotes names p r c := by
  cases r with
  | num n =>
    simp only [PMake.find, Doc.Denotes, hs]
    by_cases h : (!names && decide (n < p.states.length)) = true
    · rw [if_pos h]
      simp only [Bool.and_eq_true, Bool.not_eq_true', decide_eq_true_eq] at h
      simp [h, hc]
    · rw [if_neg h]
      simp only [Bool.and_eq_true, Bool.not_eq_true', decide_eq_true_eq, not_and] at h
      constructor
      · intro h1
        have := (hb.extraLt _ (lookup_mem h1)).1
        rw [hs] at this
        exact absurd hc (Nat.not_lt.2 this)
      · rintro ⟨h1, rfl, h2⟩
        exact absurd h2 (h h1)
  | name s =>
    cases hnm : names with
    | false => simp [PMake.find, Doc.Denotes]
    | true =>
      obtain ⟨h1, h2⟩ := hn hnm
      simp only [PMake.find, Doc.Denotes, hs, hm, if_true, true_and]
      cases hi : p.names.idxOf? s with
      | some j =>
        have hj := idxOf?_some hi
        simp only [Option.some.injEq]
        constructor
        · rintro rfl
          exact hj
        · intro h
          obtain ⟨l1, e1⟩ := List.getElem?_eq_some_iff.1 hj
          obtain ⟨l2, e2⟩ := List.getElem?_eq_some_iff.1 h
          exact (List.Nodup.getElem_inj_iff h1).1 (e1.trans e2.symm)
      | none =>
        simp only [Option.map_eq_some_iff]
        constructor
        · rintro ⟨j, _, rfl⟩
          omega
        · intro h
          exact absurd (List.mem_of_getElem? h) (List.idxOf?_eq_none_iff.1 hi)

theorem mem_edgeLabels (E : List (JRef × String × JRef)) (l : String) : l ∈ edgeLabels E ↔ l ≠ "" ∧ ∃ r r', (r, l, r') ∈ E := by
  unfold edgeLabels
  rw [List.mem_filter, List.mem_map]
  constructor
  · rintro ⟨⟨⟨r, l', r'⟩, he, rfl⟩, h2⟩
    exact ⟨by simpa using h2, r, r', he⟩
  · rintro ⟨h, r, r', he⟩
    exact ⟨⟨_, he, rfl⟩, by simpa using h⟩

section
variable [Zero W]

theorem parse_readsR (req : Bool) (hn : NamesOK names p) (hp : Doc.Pure names p fs) (hsm : Doc.Small p fs) :
    (Doc.Fine req names p fs ∧ ∃ p' a ν, parseJAutR req names p (autEvents fs) = .ok (p', a) ∧ Reads names p fs p' a.toAut ν) ∨
      (¬ Doc.Fine req names p fs ∧ parseJAutR req names p (autEvents fs) = .error) := by
  obtain ⟨k, hk⟩ := fits_of_pure hp
  rcases parse_fields req fs (fun h => (hn h).2) hk (small_iff.1 hsm) with ⟨h1, b, h2, h3⟩ | ⟨h1, h2⟩
  · refine .inl ⟨(good_iff req hn).1 h1, _, _, b.find names, h3, ?_⟩
    have hg := h2.grows
    refine ⟨hg.states, h2.sameNames, hg.prefix_, fun l => ?_, hg.nodup, fun r c hc => find_pda hn hg.states h2.sameNames h2.inv r hc,
      fun r r' i => h2.inv.find_inj, fun r hr => ?_, ⟨?_, fun r i hi => h2.inv.find_lt hi⟩, fun i => ?_, fun t => ?_, h2.nodup, h2.blank⟩
    · rw [hg.mem, mem_edgeLabels]
      simp only [mem_edgs]
    · rcases hr with hr | ⟨l, r', hr⟩ | ⟨r', l, hr⟩
      · exact h2.accFound r ((mem_accs r).2 hr)
      · exact (h2.edgeFound (r, l, r') ((mem_edgs (r, l, r')).2 hr)).1
      · exact (h2.edgeFound (r', l, r) ((mem_edgs (r', l, r)).2 hr)).2
    · have := h2.inv.sizeLe
      rw [hg.states] at this
      exact this
    · rw [h2.acc]
      simp only [mem_accs]
    · rw [h2.edges]
      constructor
      · rintro ⟨⟨r, l, r'⟩, he, e1, e2, e3⟩
        refine ⟨r, l, r', (mem_edgs _).1 he, e1, e2, ?_⟩
        rw [e3, labelNum]
        by_cases hc : l = ""
        · simp only [if_pos hc]
        · simp only [if_neg hc]
      · rintro ⟨r, l, r', he, e1, e2, e3⟩
        refine ⟨(r, l, r'), (mem_edgs _).2 he, e1, e2, ?_⟩
        rw [labelNum]
        by_cases hc : l = ""
        · simpa only [if_pos hc] using e3
        · simpa only [if_neg hc] using e3
  · exact .inr ⟨fun h => h1 ((good_iff req hn).2 h), h2⟩

theorem parse_reads (hn : NamesOK names p) (hp : Doc.Pure names p fs) (hsm : Doc.Small p fs) :
    (Doc.OK names p fs ∧ ∃ p' a ν, parseJAut names p (autEvents fs) = .ok (p', a) ∧ Reads names p fs p' a.toAut ν) ∨
      (¬ Doc.OK names p fs ∧ parseJAut names p (autEvents fs) = .error) := parse_readsR true hn hp hsm

/-- The PDA `p'` is `p` with the labels of the document added. -/
structure AddsLabels (p : NPda String String W) (fs : List JField) (p' : NPda String String W) : Prop where
  states : p'.states = p.states
  sameNames : p'.names = p.names
  known : p.labels <+: p'.labels
  labels : ∀ l, l ∈ p'.labels ↔ l ∈ p.labels ∨ (l ≠ "" ∧ ∃ r r', Doc.Edge fs r l r')
  nodup : p.labels.Nodup → p'.labels.Nodup

/-- What can be said of any document, also if new states are both named and numbered. -/
theorem parse_anyR (req : Bool) (hn : NamesOK names p) (hsm : Doc.Small p fs) :
    (Doc.Fine req names p fs ∧ ∃ p' a, parseJAutR req names p (autEvents fs) = .ok (p', a) ∧ AddsLabels p fs p') ∨
      (¬ Doc.Fine req names p fs ∧ parseJAutR req names p (autEvents fs) = .error) := by
  rcases parse_any req fs (fun h => (hn h).2) (small_iff.1 hsm) with ⟨h1, ⟨p', a⟩, h2, h3, h4⟩ | ⟨h1, h2⟩
  · refine .inl ⟨(good_iff req hn).1 h1, p', a, h2, h4.states, h3, h4.prefix_, fun l => ?_, h4.nodup⟩
    rw [h4.mem, mem_edgeLabels]
    simp only [mem_edgs]
  · exact .inr ⟨fun h => h1 ((good_iff req hn).2 h), h2⟩

/-- C74, errors: the parser refuses exactly the documents that are not well-formed, and never runs into undefined behaviour. The full statement
is for all documents, also those whose entries are no arrays of states and of edges with three elements; see `c74_undefined`. -/
theorem c74_errors_partial (hn : NamesOK names p) (hsm : Doc.Small p fs) :
    (parseJAut names p (autEvents fs) = .error ↔ ¬ Doc.OK names p fs) ∧ parseJAut names p (autEvents fs) ≠ .undefined := by
  rcases parse_anyR true hn hsm with ⟨h1, p', a, h2, _⟩ | ⟨h1, h2⟩
  · rw [parseJAut, h2]
    exact ⟨⟨fun h => (by cases h), fun h => absurd h1 h⟩, fun h => (by cases h)⟩
  · rw [parseJAut, h2]
    exact ⟨⟨fun _ => h1, fun _ => rfl⟩, fun h => by cases h⟩

/-- C74, the PDA: reading a document adds the labels of its edges, and changes nothing else. -/
theorem c74_labels_partial (hn : NamesOK names p) (hsm : Doc.Small p fs) {p' : NPda String String W} {a : NAut W}
    (h : parseJAut names p (autEvents fs) = .ok (p', a)) :
    p'.states = p.states ∧ p'.names = p.names ∧ p.labels <+: p'.labels ∧
      ∀ l, l ∈ p'.labels ↔ l ∈ p.labels ∨ (l ≠ "" ∧ ∃ r r', Doc.Edge fs r l r') := by
  rcases parse_anyR true hn hsm with ⟨_, p1, a1, h2, h3⟩ | ⟨_, h2⟩
  · rw [parseJAut, h2] at h
    cases h
    exact ⟨h3.states, h3.sameNames, h3.known, h3.labels⟩
  · rw [parseJAut, h2] at h
    cases h

/-- C74: the automaton has exactly the accepting states and the transitions of the document, under a numbering of its states that
keeps them apart and gives the states of the PDA their own numbers. The labels of the edges are added to the PDA. -/
theorem c74_document_partial (hn : NamesOK names p) (hp : Doc.Pure names p fs) (hsm : Doc.Small p fs) (hok : Doc.OK names p fs) :
    ∃ p' a ν, parseJAut names p (autEvents fs) = .ok (p', a) ∧ Reads names p fs p' a.toAut ν := by
  rcases parse_reads hn hp hsm with ⟨_, h⟩ | ⟨h1, _⟩
  · exact h
  · exact absurd hok h1

end

/-! ## The language -/

theorem idxOf_lt {l : List String} {s : String} (h : s ∈ l) : l.idxOf s < l.length := List.idxOf_lt_length_of_mem h

theorem Reads.path [Zero W] {p' : NPda String String W} {a : Aut W} {ν : JRef → Option Nat} (h : Reads names p fs p' a ν)
    (hle : p'.labels.length ≤ epsilon) {r : JRef} {i : Nat} (hr : ν r = some i) {w : List Nat} (hw : ∀ g ∈ w, g < p'.labels.length) {j : Nat}
    (hp : Verif.Path (· ∈ keys a.edges) i w j) : ∃ ls r', Numbers p'.toTPda w ls ∧ Doc.Path fs r ls r' ∧ ν r' = some j := by
  induction hp generalizing r with
  | nil q => exact ⟨[], r, rfl, .nil r, hr⟩
  | @cons i g q w j ht _ ih =>
    obtain ⟨r1, l, r2, he, e1, e2, e3⟩ := (h.edges _).1 ht
    dsimp only at e1 e2 e3
    obtain rfl := h.inj _ _ _ hr e1
    have hg := hw g List.mem_cons_self
    by_cases hl : l = ""
    · rw [if_pos hl] at e3
      omega
    · rw [if_neg hl] at e3
      obtain ⟨ls, r', k1, k2, k3⟩ := ih e2 fun g hg => hw g (List.mem_cons_of_mem _ hg)
      refine ⟨l :: ls, r', ?_, .cons he hl k2, k3⟩
      have hm : l ∈ p'.labels := (h.labels l).2 (.inr ⟨hl, _, _, he⟩)
      unfold Numbers at k1 ⊢
      rw [List.map_cons, List.map_cons, k1, e3, List.getElem?_eq_getElem (idxOf_lt hm), List.getElem_idxOf]

theorem Reads.path_back [Zero W] {p' : NPda String String W} {a : Aut W} {ν : JRef → Option Nat} (h : Reads names p fs p' a ν)
    (hd : p'.labels.Nodup) {r r' : JRef} {i : Nat} (hr : ν r = some i) {w : List Nat} {ls : List String}
    (hw : Numbers p'.toTPda w ls) (hp : Doc.Path fs r ls r') : ∃ j, ν r' = some j ∧ Verif.Path (· ∈ keys a.edges) i w j := by
  obtain ⟨hm, rfl⟩ := (numbers_iff hd _ _).1 hw
  clear hw
  induction hp generalizing i with
  | nil r => exact ⟨i, hr, .nil i⟩
  | @cons r r' r'' l ls he hl _ ih =>
    obtain ⟨j, hj⟩ := h.used r' (.inr (.inr ⟨_, _, he⟩))
    obtain ⟨j', h1, h2⟩ := ih hj fun l hl => hm l (List.mem_cons_of_mem _ hl)
    refine ⟨j', h1, .cons ((h.edges _).2 ⟨r, l, r', he, hr, hj, ?_⟩) h2⟩
    rw [if_neg hl]

/-- What the automaton accepts. -/
theorem Reads.language [Zero W] {p' : NPda String String W} {a : Aut W} {ν : JRef → Option Nat} (h : Reads names p fs p' a ν)
    (hd : p'.labels.Nodup) (hle : p'.labels.length ≤ epsilon) {r : JRef} {c : Nat} (hr : ν r = some c)
    {w : List Nat} (hw : ∀ g ∈ w, g < p'.labels.length) :
    Lang a (c, w) ↔ ∃ ls, Numbers p'.toTPda w ls ∧ Doc.Accepts fs r ls := by
  constructor
  · rintro ⟨j, h1, h2⟩
    obtain ⟨ls, r', k1, k2, k3⟩ := h.path hle hr hw h1
    obtain ⟨r'', k4, k5⟩ := (h.acc j).1 h2
    obtain rfl := h.inj _ _ _ k3 k5
    exact ⟨ls, k1, r', k2, k4⟩
  · rintro ⟨ls, k1, r', k2, k4⟩
    obtain ⟨j, h1, h2⟩ := h.path_back hd hr k1 k2
    exact ⟨j, h2, (h.acc j).2 ⟨r', k4, h1⟩⟩

section
variable [Zero W]

/-- C74, acceptance: a control state with a stack of labels is accepted exactly if the document has a path from that state along
edges with these labels to an accepting state. Edges with the empty label are never followed. -/
theorem c74_accepts_partial (h : HashOrder) (hn : NamesOK names p) (hp : Doc.Pure names p fs) (hsm : Doc.Small p fs)
    (hd : p.labels.Nodup) {p' : NPda String String W} {a : NAut W} (hr : parseJAut names p (autEvents fs) = .ok (p', a))
    (hle : p'.labels.length ≤ epsilon) {r : JRef} {c : Nat} (hc : Doc.Denotes names p r c) (w : List Nat)
    (hw : ∀ g ∈ w, g < p'.labels.length) :
    a.accepts h c w = true ↔ ∃ ls, Numbers p'.toTPda w ls ∧ Doc.Accepts fs r ls := by
  rcases parse_reads hn hp hsm with ⟨_, p1, a1, ν, h2, h3⟩ | ⟨_, h2⟩
  · rw [hr] at h2
    cases h2
    have hlt : c < p.states.length := by
      cases r with
      | num n => exact hc.2.2
      | name s =>
        rw [← (hn hc.1).2]
        exact (List.getElem?_eq_some_iff.1 hc.2).1
    rw [accepts_iff]
    exact h3.language (h3.nodup hd) hle ((h3.pda r c hlt).2 hc) hw
  · rw [hr] at h2
    cases h2

/-- The document keeps to the conditions of the solvers: no edge leads into a state of the PDA, and no label is empty. -/
def Doc.Legal (names : Bool) (p : NPda String String W) (fs : List JField) : Prop :=
  ∀ r l r', Doc.Edge fs r l r' → l ≠ "" ∧ ∀ c, ¬ Doc.Denotes names p r' c

theorem Reads.paut {p' : NPda String String W} {a : Aut W} {ν : JRef → Option Nat} (h : Reads names p fs p' a ν)
    (hl : Doc.Legal names p fs) : PAut p'.core a := by
  have hsz : p'.core.size = p.states.length := by
    show p'.states.length = _
    rw [h.states]
  refine ⟨⟨by rw [hsz]; exact h.range.1, fun t ht => ?_, h.once⟩, fun t ht => ?_⟩
  · obtain ⟨r, l, r', he, e1, e2, e3⟩ := (h.edges t).1 ht
    rw [if_neg (hl _ _ _ he).1] at e3
    refine ⟨h.range.2 _ _ e1, ?_, h.range.2 _ _ e2⟩
    rw [e3]
    exact idxOf_lt ((h.labels l).2 (.inr ⟨(hl _ _ _ he).1, _, _, he⟩))
  · obtain ⟨r, l, r', he, e1, e2, e3⟩ := (h.edges t).1 ht
    rw [hsz]
    by_contra hc
    exact (hl _ _ _ he).2 _ ((h.pda r' t.dst (by omega)).1 e2)

/-- C74: the automaton is a legal input for the solvers if no edge of the document leads into a state of the PDA and no label is
empty. The parser checks neither, see `c74_illegal`. -/
theorem c74_legal_partial (hn : NamesOK names p) (hp : Doc.Pure names p fs) (hsm : Doc.Small p fs) (hl : Doc.Legal names p fs)
    {p' : NPda String String W} {a : NAut W} (hr : parseJAut names p (autEvents fs) = .ok (p', a)) :
    PAut p'.core a.toAut ∧ Blank a.toAut := by
  rcases parse_reads hn hp hsm with ⟨_, p1, a1, ν, h2, h3⟩ | ⟨_, h2⟩
  · rw [hr] at h2
    cases h2
    exact ⟨h3.paut hl, h3.blank⟩
  · rw [hr] at h2
    cases h2

end

/-! ## Printing and reading back -/

/-- What `to_json` needs of the automaton for its output to be read back. -/
structure Printable (names : Bool) (p : NPda String String W) (a : NAut W) : Prop where
  size : p.states.length ≤ a.n
  range : ∀ t ∈ keys a.edges, t.src < a.n ∧ t.dst < a.n ∧ (t.label = epsilon ∨ t.label < p.labels.length)
  nodup : p.labels.Nodup
  full : p.labels.length ≤ epsilon
  noEmpty : "" ∉ p.labels
  stateNames : names = true → a.stateNames.Nodup ∧ (∀ s ∈ a.stateNames, s ∉ p.names) ∧
    (a.stateNames = [] ∨ a.stateNames.length + p.states.length = a.n)
  few : p.states.length + a.n + 2 * a.edges.length ≤ sizeMax

section
variable {a : NAut W}

theorem ref_denotes (hn : NamesOK names p) {q : Nat} (hq : q < p.states.length) : Doc.Denotes names p (a.ref names p q) q := by
  unfold NAut.ref
  cases hnm : names with
  | false => exact ⟨rfl, rfl, hq⟩
  | true =>
    rw [if_neg (by simp), if_pos hq]
    refine ⟨rfl, ?_⟩
    have : q < p.names.length := by rw [(hn hnm).2]; exact hq
    unfold NPda.stateName
    rw [List.getElem?_eq_getElem this]
    rfl

theorem ref_inj (hn : NamesOK names p) (ha : Printable names p a) {q q' : Nat} (h : a.ref names p q = a.ref names p q') : q = q' := by
  by_cases h1 : q < p.states.length
  · by_cases h2 : q' < p.states.length
    · have e1 := ref_denotes (a := a) hn h1
      have e2 := ref_denotes (a := a) hn h2
      rw [h] at e1
      cases hr : a.ref names p q' with
      | num n =>
        rw [hr] at e1 e2
        exact e1.2.1.symm.trans e2.2.1
      | name s =>
        rw [hr] at e1 e2
        obtain ⟨l1, g1⟩ := List.getElem?_eq_some_iff.1 e1.2
        obtain ⟨l2, g2⟩ := List.getElem?_eq_some_iff.1 e2.2
        exact (List.Nodup.getElem_inj_iff (hn e1.1).1).1 (g1.trans g2.symm)
    · unfold NAut.ref at h
      cases hnm : names with
      | false => simpa [hnm] using h
      | true =>
        simp only [hnm, Bool.not_true, Bool.false_eq_true, if_false, if_pos h1, if_neg h2] at h
        cases hg : a.stateNames[q' - p.states.length]? with
        | none => rw [hg] at h; cases h
        | some s =>
          rw [hg] at h
          cases h
          refine absurd ?_ ((ha.stateNames hnm).2.1 _ (List.mem_of_getElem? hg))
          have : q < p.names.length := by rw [(hn hnm).2]; exact h1
          unfold NPda.stateName
          rw [List.getElem?_eq_getElem this]
          exact List.getElem_mem this
  · by_cases h2 : q' < p.states.length
    · unfold NAut.ref at h
      cases hnm : names with
      | false => simpa [hnm] using h
      | true =>
        simp only [hnm, Bool.not_true, Bool.false_eq_true, if_false, if_pos h2, if_neg h1] at h
        cases hg : a.stateNames[q - p.states.length]? with
        | none => rw [hg] at h; cases h
        | some s =>
          rw [hg] at h
          cases h
          refine absurd ?_ ((ha.stateNames hnm).2.1 _ (List.mem_of_getElem? hg))
          have : q' < p.names.length := by rw [(hn hnm).2]; exact h2
          unfold NPda.stateName
          rw [List.getElem?_eq_getElem this]
          exact List.getElem_mem this
    · unfold NAut.ref at h
      cases hnm : names with
      | false => simpa [hnm] using h
      | true =>
        simp only [hnm, Bool.not_true, Bool.false_eq_true, if_false, if_neg h1, if_neg h2] at h
        cases hg : a.stateNames[q - p.states.length]? with
        | none =>
          rw [hg] at h
          cases hg' : a.stateNames[q' - p.states.length]? with
          | none => rw [hg'] at h; cases h; rfl
          | some s => rw [hg'] at h; cases h
        | some s =>
          rw [hg] at h
          cases hg' : a.stateNames[q' - p.states.length]? with
          | none => rw [hg'] at h; cases h
          | some s' =>
            rw [hg'] at h
            cases h
            obtain ⟨l1, g1⟩ := List.getElem?_eq_some_iff.1 hg
            obtain ⟨l2, g2⟩ := List.getElem?_eq_some_iff.1 hg'
            have := (List.Nodup.getElem_inj_iff (ha.stateNames hnm).1).1 (g1.trans g2.symm)
            omega

/-- The label as it is printed. -/
def printLabel (p : NPda String String W) (g : Nat) : String := if g = epsilon then "" else p.symbol g

theorem mem_toJson_edges (h : HashOrder) (hr : ∀ t ∈ keys a.edges, t.src < a.n) (e : JRef × String × JRef) :
    e ∈ (a.toJson h names p).edges ↔ ∃ t ∈ keys a.edges, e = (a.ref names p t.src, printLabel p t.label, a.ref names p t.dst) := by
  simp only [NAut.toJson, List.mem_flatMap, List.mem_map, List.mem_range, Aut.out, List.mem_filter, beq_iff_eq]
  constructor
  · rintro ⟨q, hq, t, ⟨ht, rfl⟩, rfl⟩
    exact ⟨t, (h.perm _).mem_iff.1 ht, rfl⟩
  · rintro ⟨t, ht, rfl⟩
    exact ⟨t.src, hr t ht, t, ⟨(h.perm _).mem_iff.2 ht, rfl⟩, rfl⟩

theorem mem_toJson_accepting (h : HashOrder) (r : JRef) :
    r ∈ (a.toJson h names p).accepting ↔ ∃ q, a.isAcc q = true ∧ r = a.ref names p q := by
  simp only [NAut.toJson, List.mem_map, List.mem_filter, List.mem_range]
  constructor
  · rintro ⟨q, ⟨_, hq⟩, rfl⟩
    exact ⟨q, hq, rfl⟩
  · rintro ⟨q, hq, rfl⟩
    exact ⟨q, ⟨Aut.isAcc_lt hq, hq⟩, rfl⟩

theorem mem_toJson_initial (h : HashOrder) (hs : p.states.length ≤ a.n) (r : JRef) :
    r ∈ (a.toJson h names p).initial ↔ ∃ q, q < p.states.length ∧ r = a.ref names p q := by
  simp only [NAut.toJson, List.mem_map, List.mem_filter, List.mem_range, decide_eq_true_eq]
  constructor
  · rintro ⟨q, ⟨_, hq⟩, rfl⟩
    exact ⟨q, hq, rfl⟩
  · rintro ⟨q, hq, rfl⟩
    exact ⟨q, ⟨Nat.lt_of_lt_of_le hq hs, hq⟩, rfl⟩

theorem fields_accepting (d : JAut) (r : JRef) : Doc.Accepting d.fields r ↔ r ∈ d.accepting := by
  unfold Doc.Accepting JAut.fields
  cases h1 : d.accepting <;> cases h2 : d.initial <;> simp

theorem fields_edge (d : JAut) (r r' : JRef) (l : String) : Doc.Edge d.fields r l r' ↔ (r, l, r') ∈ d.edges := by
  unfold Doc.Edge JAut.fields
  cases h1 : d.accepting <;> cases h2 : d.initial <;> simp

theorem fields_initial (d : JAut) (r : JRef) : Doc.Initial d.fields r ↔ r ∈ d.initial := by
  unfold Doc.Initial JAut.fields
  cases h1 : d.accepting <;> cases h2 : d.initial <;> simp

theorem fields_keys (d : JAut) : (d.fields.map JField.key).Perm ["accepting", "edges", "initial"] ↔ d.accepting ≠ [] ∧ d.initial ≠ [] := by
  unfold JAut.fields
  cases h1 : d.accepting <;> cases h2 : d.initial <;> simp [JField.key] <;> intro h <;> simpa using h.length_eq

theorem used_ref (h : HashOrder) (ha : Printable names p a) {r : JRef} (hr : Doc.Used (a.toJson h names p).fields r) :
    ∃ q, q < a.n ∧ r = a.ref names p q := by
  have hsrc : ∀ t ∈ keys a.edges, t.src < a.n := fun t ht => (ha.range t ht).1
  rcases hr with hr | ⟨l, r', hr⟩ | ⟨r', l, hr⟩
  · rw [fields_accepting, mem_toJson_accepting] at hr
    obtain ⟨q, hq, rfl⟩ := hr
    exact ⟨q, Aut.isAcc_lt hq, rfl⟩
  · rw [fields_edge, mem_toJson_edges h hsrc] at hr
    obtain ⟨t, ht, he⟩ := hr
    cases he
    exact ⟨_, (ha.range t ht).1, rfl⟩
  · rw [fields_edge, mem_toJson_edges h hsrc] at hr
    obtain ⟨t, ht, he⟩ := hr
    cases he
    exact ⟨_, (ha.range t ht).2.1, rfl⟩

theorem ne_nil_iff {A : Type} (l : List A) : l ≠ [] ↔ ∃ x, x ∈ l :=
  ⟨List.exists_mem_of_ne_nil l, fun ⟨_, h⟩ => List.ne_nil_of_mem h⟩

/-- Exactly the automata with an accepting state are printed as well-formed documents, if the PDA has states. -/
theorem print_ok (h : HashOrder) (hn : NamesOK names p) (ha : Printable names p a) :
    Doc.OK names p (a.toJson h names p).fields ↔ (∃ q, a.isAcc q = true) ∧ 0 < p.states.length := by
  have h1 : (a.toJson h names p).accepting ≠ [] ↔ ∃ q, a.isAcc q = true := by
    rw [ne_nil_iff]
    simp only [mem_toJson_accepting]
    exact ⟨fun ⟨_, q, hq, _⟩ => ⟨q, hq⟩, fun ⟨q, hq⟩ => ⟨_, q, hq, rfl⟩⟩
  have h2 : (a.toJson h names p).initial ≠ [] ↔ 0 < p.states.length := by
    rw [ne_nil_iff]
    simp only [mem_toJson_initial h ha.size]
    exact ⟨fun ⟨_, q, hq, _⟩ => Nat.lt_of_le_of_lt (Nat.zero_le _) hq, fun hq => ⟨_, 0, hq, rfl⟩⟩
  rw [← h1, ← h2, ← fields_keys]
  refine ⟨fun h => h.entries, fun hk => ⟨hk, fun r hr => ?_, fun hf s hs => ?_⟩⟩
  · rw [fields_initial, mem_toJson_initial h ha.size] at hr
    obtain ⟨q, hq, rfl⟩ := hr
    exact ⟨q, ref_denotes hn hq⟩
  · obtain ⟨q, _, hq⟩ := used_ref h ha hs
    subst hf
    cases hq

theorem print_pure (h : HashOrder) (hn : NamesOK names p) (ha : Printable names p a) : Doc.Pure names p (a.toJson h names p).fields := by
  intro hnm
  rcases (ha.stateNames hnm).2.2 with h1 | h1
  · right
    intro s hs
    obtain ⟨q, _, hq⟩ := used_ref h ha hs
    unfold NAut.ref at hq
    rw [hnm, if_neg (by simp)] at hq
    by_cases hc : q < p.states.length
    · rw [if_pos hc] at hq
      cases hq
      have : q < p.names.length := by rw [(hn hnm).2]; exact hc
      unfold NPda.stateName
      rw [List.getElem?_eq_getElem this]
      exact List.getElem_mem this
    · rw [if_neg hc, h1] at hq
      cases hq
  · left
    intro n hs
    obtain ⟨q, hlt, hq⟩ := used_ref h ha hs
    unfold NAut.ref at hq
    rw [hnm, if_neg (by simp)] at hq
    by_cases hc : q < p.states.length
    · rw [if_pos hc] at hq
      cases hq
    · rw [if_neg hc, List.getElem?_eq_getElem (by omega)] at hq
      cases hq

theorem length_flatMap_out (h : HashOrder) (f : Nat → Tr → JRef × String × JRef) (n : Nat) :
    ((List.range n).flatMap fun q => (a.out h q).map (f q)).length ≤ a.edges.length := by
  have key : ∀ (n : Nat) (l : List Tr), ((List.range n).flatMap fun q => (l.filter fun t => t.src == q).map (f q)).length ≤ l.length := by
    intro n
    have h2 : ∀ (l : List Tr), ((List.range n).flatMap fun q => (l.filter fun t => t.src == q).map (f q)).length =
        (l.filter fun t => decide (t.src < n)).length := by
      induction n with
      | zero => intro l; simp
      | succ n ih =>
        intro l
        rw [List.range_succ, List.flatMap_append, List.length_append, ih]
        simp only [List.flatMap_cons, List.flatMap_nil, List.append_nil, List.length_map]
        induction l with
        | nil => rfl
        | cons t l ihl =>
          simp only [List.filter_cons]
          rcases Nat.lt_trichotomy t.src n with hc | hc | hc
          · have e1 : decide (t.src < n) = true := by simpa using hc
            have e2 : (t.src == n) = false := by rw [beq_eq_false_iff_ne]; omega
            have e3 : decide (t.src < n + 1) = true := by rw [decide_eq_true_eq]; omega
            simp only [e1, e2, e3, if_true, Bool.false_eq_true, if_false, List.length_cons]
            omega
          · have e1 : decide (t.src < n) = false := by rw [decide_eq_false_iff_not]; omega
            have e2 : (t.src == n) = true := by rw [beq_iff_eq]; exact hc
            have e3 : decide (t.src < n + 1) = true := by rw [decide_eq_true_eq]; omega
            simp only [e1, e2, e3, if_true, Bool.false_eq_true, if_false, List.length_cons]
            omega
          · have e1 : decide (t.src < n) = false := by rw [decide_eq_false_iff_not]; omega
            have e2 : (t.src == n) = false := by rw [beq_eq_false_iff_ne]; omega
            have e3 : decide (t.src < n + 1) = false := by rw [decide_eq_false_iff_not]; omega
            simp only [e1, e2, e3, Bool.false_eq_true, if_false]
            omega
    intro l
    rw [h2]
    exact List.length_filter_le _ _
  have := key n (h.ord (keys a.edges))
  rw [(h.perm _).length_eq, show (keys a.edges).length = a.edges.length from List.length_map ..] at this
  exact this

theorem print_small (h : HashOrder) (ha : Printable names p a) : Doc.Small p (a.toJson h names p).fields := by
  have h0 : ((a.toJson h names p).fields.map JField.mentions).sum ≤
      (a.toJson h names p).accepting.length + 2 * (a.toJson h names p).edges.length := by
    unfold JAut.fields
    cases (a.toJson h names p).accepting <;> cases (a.toJson h names p).initial <;> simp [JField.mentions]
  unfold Doc.Small
  have h1 : (a.toJson h names p).accepting.length ≤ a.n := by
    simp only [NAut.toJson, List.length_map]
    exact Nat.le_trans (List.length_filter_le _ _) (by simp)
  have h2 : (a.toJson h names p).edges.length ≤ a.edges.length :=
    length_flatMap_out h (fun q t => (a.ref names p q, if t.label = epsilon then "" else p.symbol t.label, a.ref names p t.dst)) a.n
  have := ha.few
  omega

theorem printLabel_num (ha : Printable names p a) {g : Nat} (hg : g = epsilon ∨ g < p.labels.length) :
    (printLabel p g = "" ↔ g = epsilon) ∧ (printLabel p g ≠ "" → printLabel p g ∈ p.labels ∧ p.labels.idxOf (printLabel p g) = g) := by
  unfold printLabel
  by_cases hc : g = epsilon
  · rw [if_pos hc]
    exact ⟨⟨fun _ => hc, fun _ => rfl⟩, fun h => absurd rfl h⟩
  · rw [if_neg hc]
    have hlt := hg.resolve_left hc
    have hs := symbol_some p.toTPda hlt
    have hm : p.symbol g ∈ p.labels := List.mem_of_getElem? hs
    refine ⟨⟨fun h => absurd (h ▸ hm) ha.noEmpty, fun h => absurd h hc⟩, fun _ => ⟨hm, ?_⟩⟩
    obtain ⟨h1, h2⟩ := List.getElem?_eq_some_iff.1 hs
    rw [← h2]
    exact ha.nodup.idxOf_getElem _ _

/-- `a'` is a copy of `a`: `f` renames the states that matter, and keeps those of the PDA. -/
structure Copy (size : Nat) (a a' : Aut W) (f : Nat → Option Nat) : Prop where
  pda : ∀ c, c < size → f c = some c
  inj : ∀ q q' i, f q = some i → f q' = some i → q = q'
  acc : ∀ i, a'.isAcc i = true ↔ ∃ q, a.isAcc q = true ∧ f q = some i
  edges : ∀ t', t' ∈ keys a'.edges ↔ ∃ t ∈ keys a.edges, f t.src = some t'.src ∧ f t.dst = some t'.dst ∧ t'.label = t.label
  accTotal : ∀ q, a.isAcc q = true → ∃ i, f q = some i
  edgeTotal : ∀ t ∈ keys a.edges, (∃ i, f t.src = some i) ∧ ∃ i, f t.dst = some i

theorem Copy.path {size : Nat} {a a' : Aut W} {f : Nat → Option Nat} (h : Copy size a a' f) {q i j : Nat} {w : List Nat} (hq : f q = some i)
    (hp : Verif.Path (· ∈ keys a'.edges) i w j) : ∃ q', f q' = some j ∧ Verif.Path (· ∈ keys a.edges) q w q' := by
  induction hp generalizing q with
  | nil i => exact ⟨q, hq, .nil q⟩
  | @cons i g i1 w j ht _ ih =>
    obtain ⟨⟨s, g', d⟩, h1, h2, h3, h4⟩ := (h.edges _).1 ht
    dsimp only at h2 h3 h4
    subst h4
    obtain rfl := h.inj _ _ _ hq h2
    obtain ⟨q', h5, h6⟩ := ih h3
    exact ⟨q', h5, .cons h1 h6⟩

theorem Copy.path_back {size : Nat} {a a' : Aut W} {f : Nat → Option Nat} (h : Copy size a a' f) {q q' i : Nat} {w : List Nat} (hq : f q = some i)
    (hp : Verif.Path (· ∈ keys a.edges) q w q') : ∃ j, f q' = some j ∧ Verif.Path (· ∈ keys a'.edges) i w j := by
  induction hp generalizing i with
  | nil q => exact ⟨i, hq, .nil i⟩
  | @cons q g q1 w q' ht _ ih =>
    obtain ⟨i1, h1⟩ := (h.edgeTotal _ ht).2
    obtain ⟨j, h2, h3⟩ := ih h1
    exact ⟨j, h2, .cons ((h.edges ⟨i, g, i1⟩).2 ⟨_, ht, hq, h1, rfl⟩) h3⟩

theorem Copy.lang {size : Nat} {a a' : Aut W} {f : Nat → Option Nat} (h : Copy size a a' f) {c : Nat} (hc : c < size) (w : List Nat) :
    Lang a' (c, w) ↔ Lang a (c, w) := by
  have hf := h.pda c hc
  constructor
  · rintro ⟨j, h1, h2⟩
    obtain ⟨q', h3, h4⟩ := h.path hf h1
    obtain ⟨q, h5, h6⟩ := (h.acc j).1 h2
    obtain rfl := h.inj _ _ _ h3 h6
    exact ⟨q', h4, h5⟩
  · rintro ⟨q, h1, h2⟩
    obtain ⟨j, h3, h4⟩ := h.path_back hf h1
    exact ⟨j, h4, (h.acc j).2 ⟨q, h2, h3⟩⟩

end

section
variable [Zero W] {a : NAut W}

/-- C74, round trip: an automaton that is printed and read again for the same PDA is the same up to the numbers of its states. The
PDA is left as it is, and every configuration is accepted as before. The full statement is without the conditions of `Printable`;
see `c74_no_accepting` and the theorems after it for what goes wrong. -/
theorem c74_round_trip_partial (h : HashOrder) (hn : NamesOK names p) (ha : Printable names p a)
    (hacc : ∃ q, a.isAcc q = true) (hpos : 0 < p.states.length) :
    ∃ a' : NAut W, parseJAut names p (autEvents (a.toJson h names p).fields) = .ok (p, a') ∧
      (∃ f, Copy p.states.length a.toAut a'.toAut f) ∧
      ∀ h1 h2 c w, c < p.states.length → a'.accepts h1 c w = a.accepts h2 c w := by
  obtain ⟨p', a', ν, h1, h2⟩ := c74_document_partial hn (print_pure h hn ha) (print_small h ha) ((print_ok h hn ha).2 ⟨hacc, hpos⟩)
  have hsrc : ∀ t ∈ keys a.edges, t.src < a.n := fun t ht => (ha.range t ht).1
  have hE : ∀ r l r', Doc.Edge (a.toJson h names p).fields r l r' ↔
      ∃ t ∈ keys a.edges, (r, l, r') = (a.ref names p t.src, printLabel p t.label, a.ref names p t.dst) := by
    intro r l r'
    rw [fields_edge, mem_toJson_edges h hsrc]
  have hA : ∀ r, Doc.Accepting (a.toJson h names p).fields r ↔ ∃ q, a.isAcc q = true ∧ r = a.ref names p q := by
    intro r
    rw [fields_accepting, mem_toJson_accepting]
  -- no new labels
  have hl : p'.labels = p.labels := by
    obtain ⟨m, hm⟩ := h2.known
    cases m with
    | nil => simpa using hm.symm
    | cons l m =>
      exfalso
      have h3 := h2.nodup ha.nodup
      have hl : l ∈ p'.labels := by rw [← hm]; simp
      rw [← hm, List.nodup_append] at h3
      have hlp : l ∈ p.labels := by
        rcases (h2.labels l).1 hl with h6 | ⟨h6, r, r', h7⟩
        · exact h6
        · obtain ⟨t, ht, he⟩ := (hE _ _ _).1 h7
          cases he
          exact ((printLabel_num ha (ha.range t ht).2.2).2 h6).1
      exact h3.2.2 l hlp l (by simp) rfl
  have hpp : p' = p := by
    have e1 := h2.states
    have e2 := h2.sameNames
    cases p with
    | mk t ns =>
      cases p' with
      | mk t' ns' =>
        cases t
        cases t'
        simp only at hl e1 e2
        rw [hl, e1, e2]
  subst hpp
  have hcopy : Copy p'.states.length a.toAut a'.toAut fun q => ν (a.ref names p' q) := by
    refine ⟨fun c hc => (h2.pda _ c hc).2 (ref_denotes hn hc), fun q q' i e1 e2 => ref_inj hn ha (h2.inj _ _ _ e1 e2), fun i => ?_, fun t' => ?_,
      fun q hq => h2.used _ (.inl ((hA _).2 ⟨q, hq, rfl⟩)), fun t ht => ⟨h2.used _ (.inr (.inl ⟨_, _, (hE _ _ _).2 ⟨t, ht, rfl⟩⟩)),
        h2.used _ (.inr (.inr ⟨_, _, (hE _ _ _).2 ⟨t, ht, rfl⟩⟩))⟩⟩
    · rw [h2.acc]
      constructor
      · rintro ⟨r, hr, hi⟩
        obtain ⟨q, hq, rfl⟩ := (hA r).1 hr
        exact ⟨q, hq, hi⟩
      · rintro ⟨q, hq, hi⟩
        exact ⟨_, (hA _).2 ⟨q, hq, rfl⟩, hi⟩
    · rw [h2.edges]
      constructor
      · rintro ⟨r, l, r', he, e1, e2, e3⟩
        obtain ⟨t, ht, he⟩ := (hE _ _ _).1 he
        cases he
        refine ⟨t, ht, e1, e2, ?_⟩
        obtain ⟨g1, g2⟩ := printLabel_num ha (ha.range t ht).2.2
        by_cases hc : printLabel p' t.label = ""
        · rw [if_pos hc] at e3
          rw [e3, g1.1 hc]
        · rw [if_neg hc] at e3
          rw [e3, (g2 hc).2]
      · rintro ⟨t, ht, e1, e2, e3⟩
        refine ⟨_, _, _, (hE _ _ _).2 ⟨t, ht, rfl⟩, e1, e2, ?_⟩
        obtain ⟨g1, g2⟩ := printLabel_num ha (ha.range t ht).2.2
        by_cases hc : printLabel p' t.label = ""
        · rw [if_pos hc, e3]
          exact g1.1 hc
        · rw [if_neg hc, (g2 hc).2]
          exact e3
  refine ⟨a', h1, ⟨_, hcopy⟩, fun h1 h2 c w hc => ?_⟩
  rw [Bool.eq_iff_iff, accepts_iff, accepts_iff]
  exact hcopy.lang hc w

/-- C74 fails in full: an automaton without accepting states (such as one that accepts nothing) is printed, but what is printed is
refused. -/
theorem c74_no_accepting (h : HashOrder) (hn : NamesOK names p) (ha : Printable names p a) (hacc : ∀ q, a.isAcc q = false) :
    parseJAut names p (autEvents (a.toJson h names p).fields) = .error := by
  refine (c74_errors_partial hn (print_small h ha)).1.2 fun hok => ?_
  obtain ⟨⟨q, hq⟩, _⟩ := (print_ok h hn ha).1 hok
  rw [hacc q] at hq
  cases hq

end

/-! ## Cases -/

def docPda : NPda String String Unit := { toTPda := reportPda }

/-- `{"P-automaton": {"initial": [0, 1], "edges": [[0, "b", 7], [7, "c", 7]], "accepting": [7]}}` -/
def docFields : List JField :=
  [.initial [.num 0, .num 1], .edges [(.num 0, "b", .num 7), (.num 7, "c", .num 7)], .accepting [.num 7]]

theorem docPda_names : NamesOK false docPda := fun h => by cases h
theorem docFields_pure : Doc.Pure false docPda docFields := fun h => by cases h
theorem docFields_small : Doc.Small docPda docFields := by unfold Doc.Small; decide

theorem docPda_two : docPda.states.length = 2 := by decide

theorem docFields_ok : Doc.OK false docPda docFields := by
  refine ⟨by decide, ?_, ?_⟩
  · rintro r ⟨l, hl, hr⟩
    simp only [docFields, List.mem_cons, reduceCtorEq, JField.initial.injEq, List.not_mem_nil, or_false, or_self] at hl
    subst hl
    simp only [List.mem_cons, List.not_mem_nil, or_false] at hr
    rcases hr with rfl | rfl
    · exact ⟨0, rfl, rfl, by rw [docPda_two]; decide⟩
    · exact ⟨1, rfl, rfl, by rw [docPda_two]; decide⟩
  · rintro _ s (⟨l, hl, hr⟩ | ⟨l, r', es, hl, hr⟩ | ⟨r', l, es, hl, hr⟩) <;> simp [docFields] at hl <;> subst hl <;> simp at hr

example : ∃ p' a ν, parseJAut false docPda (autEvents docFields) = .ok (p', a) ∧ Reads false docPda docFields p' a.toAut ν :=
  c74_document_partial docPda_names docFields_pure docFields_small docFields_ok

/-- `(0, bcc)` is accepted. -/
example : ∃ p' a, parseJAut false docPda (autEvents docFields) = .ok (p', a) ∧ a.accepts HashOrder.id 0 [1, 2, 2] = true ∧
    a.accepts HashOrder.id 1 [1, 2, 2] = false ∧ p'.labels = ["a", "b", "c"] := by
  refine ⟨_, _, rfl, ?_, ?_, ?_⟩ <;> decide +kernel

/-- A missing entry. -/
example : parseJAut false docPda (autEvents [.edges [], .initial []]) = .error :=
  (c74_errors_partial docPda_names (by unfold Doc.Small; decide)).1.2 fun h => by
    have := h.entries.length_eq
    cases this

def namedPda : NPda String String Unit := { toTPda := reportPda, names := ["p", "q"] }

/-- State `x` and `7` are not states of the PDA. -/
def mixedDoc : List JField :=
  [.initial [], .accepting [.num 7], .edges [(.name "p", "a", .name "x"), (.name "p", "b", .name "x")]]

/-- C74 fails in full: if new states are both named and numbered, they get mixed up. In `mixedDoc` only `7` is accepting, and there is
no edge to it, but `(p, b)` is accepted. -/
theorem c74_mixed : ∃ p' a, parseJAut true namedPda (autEvents mixedDoc) = .ok (p', a) ∧ a.accepts HashOrder.id 0 [1] = true ∧
    p'.labels = ["a", "b"] ∧ Doc.Denotes true namedPda (.name "p") 0 ∧ ¬ Doc.Accepts mixedDoc (.name "p") ["b"] := by
  refine ⟨_, _, rfl, by decide +kernel, by decide, ⟨rfl, rfl⟩, ?_⟩
  rintro ⟨r, h1, l, h2, h3⟩
  simp only [mixedDoc, List.mem_cons, reduceCtorEq, JField.accepting.injEq, List.not_mem_nil, or_false, or_self, false_or] at h2
  subst h2
  rw [List.mem_singleton] at h3
  subst h3
  cases h1 with
  | cons he _ hp =>
    cases hp
    obtain ⟨es, h4, h5⟩ := he
    simp only [mixedDoc, List.mem_cons, reduceCtorEq, JField.edges.injEq, List.not_mem_nil, or_false, or_self, false_or] at h4
    subst h4
    simp at h5

/-- State `x` is accepting and `(p, a)` leads to it. -/
def lostDoc : List JField :=
  [.initial [], .edges [(.num 7, "b", .num 7), (.name "p", "a", .name "x")], .accepting [.name "x"]]

/-- C74 fails in full: states that get mixed up may also lose words. The document accepts `(p, a)`, the automaton does not. -/
theorem c74_mixed_loses : ∃ p' a, parseJAut true namedPda (autEvents lostDoc) = .ok (p', a) ∧ a.accepts HashOrder.id 0 [0] = false ∧
    p'.labels = ["a", "b"] ∧ Doc.Denotes true namedPda (.name "p") 0 ∧ Doc.Accepts lostDoc (.name "p") ["a"] := by
  have he : Doc.Edge lostDoc (.name "p") "a" (.name "x") :=
    ⟨[(.num 7, "b", .num 7), (.name "p", "a", .name "x")], List.mem_cons_of_mem _ List.mem_cons_self, List.mem_cons_of_mem _ List.mem_cons_self⟩
  have ha : Doc.Accepting lostDoc (.name "x") :=
    ⟨[.name "x"], List.mem_cons_of_mem _ (List.mem_cons_of_mem _ List.mem_cons_self), List.mem_cons_self⟩
  exact ⟨_, _, rfl, by decide +kernel, by decide, ⟨rfl, rfl⟩, .name "x", .cons he (by decide) (.nil _), ha⟩

theorem namedPda_names : NamesOK true namedPda := fun _ => ⟨by decide, rfl⟩

/-- Such a document is read without an error or undefined behaviour all the same, -/
example : parseJAut true namedPda (autEvents mixedDoc) ≠ .undefined :=
  (c74_errors_partial namedPda_names (by unfold Doc.Small; decide +kernel)).2

/-- and its labels are added. -/
example {p' : NPda String String Unit} {a : NAut Unit} (h : parseJAut true namedPda (autEvents mixedDoc) = .ok (p', a)) : "b" ∈ p'.labels :=
  ((c74_labels_partial namedPda_names (by unfold Doc.Small; decide +kernel) h).2.2.2 "b").2
    (.inr ⟨by decide, .name "p", .name "x", _, List.mem_cons_of_mem _ (List.mem_cons_of_mem _ List.mem_cons_self), List.mem_cons_of_mem _ List.mem_cons_self⟩)

/-- C74 fails in full: an edge with less than three elements, or a document that is a number, is not refused but leads to undefined
behaviour. -/
theorem c74_undefined :
    parseJAut false docPda [.startObj, .key "P-automaton", .startObj, .key "edges", .startArr, .startArr, .uns 0, .str "a", .endArr,
      .endArr, .key "initial", .startArr, .endArr, .key "accepting", .startArr, .endArr, .endObj, .endObj] = .undefined ∧
    parseJAut false docPda [.uns 5] = .undefined := ⟨rfl, rfl⟩

/-- The label of the PDA is the empty string. -/
def emptyPda : NPda String String Unit := { labels := [""], states := reportPda.states }

def emptyAut : NAut Unit := { acc := [false, false, true], edges := [(⟨0, 0, 2⟩, (Trace.null, ()))] }

/-- C74 fails in full: a label that is the empty string is printed, but read as epsilon. -/
theorem c74_empty_label : emptyAut.accepts HashOrder.id 0 [0] = true ∧
    ∃ p' a', parseJAut false emptyPda (autEvents (emptyAut.toJson HashOrder.id false emptyPda).fields) = .ok (p', a') ∧
      p'.labels = [""] ∧ a'.accepts HashOrder.id 0 [0] = false :=
  ⟨by decide +kernel, _, _, rfl, by decide, by decide +kernel⟩

/-- An automaton as in `docFields`, with an epsilon edge. -/
def printAut : NAut Unit :=
  { acc := [false, false, false, true],
    edges := [(⟨0, 0, 2⟩, (Trace.null, ())), (⟨2, 1, 3⟩, (Trace.null, ())), (⟨3, epsilon, 2⟩, (Trace.null, ()))] }

theorem printAut_ok : Printable false docPda printAut := by
  refine ⟨by decide, ?_, by decide, by decide, by decide, fun h => (by cases h), by decide⟩
  simp only [printAut, keys, List.map_cons, List.map_nil, List.mem_cons, List.not_mem_nil, or_false, forall_eq_or_imp, forall_eq]
  decide

example : ∃ a' : NAut Unit, parseJAut false docPda (autEvents (printAut.toJson HashOrder.id false docPda).fields) = .ok (docPda, a') ∧
    (∃ f, Copy 2 printAut.toAut a'.toAut f) ∧
    ∀ h1 h2 c w, c < 2 → a'.accepts h1 c w = printAut.accepts h2 c w :=
  c74_round_trip_partial HashOrder.id docPda_names printAut_ok ⟨3, by decide⟩ (by decide)

/-- An automaton with named states. -/
def namedAut : NAut Unit :=
  { acc := [false, true, false, true], edges := [(⟨0, 0, 2⟩, (Trace.null, ())), (⟨2, 1, 3⟩, (Trace.null, ()))], stateNames := ["x", "y"] }

theorem namedAut_ok : Printable true namedPda namedAut := by
  refine ⟨by decide, ?_, by decide, by decide, by decide, fun _ => ⟨by decide, by decide, .inr (by decide)⟩, by decide⟩
  simp only [namedAut, keys, List.map_cons, List.map_nil, List.mem_cons, List.not_mem_nil, or_false, forall_eq_or_imp, forall_eq]
  decide

example : ∃ a' : NAut Unit, parseJAut true namedPda (autEvents (namedAut.toJson HashOrder.id true namedPda).fields) = .ok (namedPda, a') ∧
    (∃ f, Copy 2 namedAut.toAut a'.toAut f) ∧
    ∀ h1 h2 c w, c < 2 → a'.accepts h1 c w = namedAut.accepts h2 c w :=
  c74_round_trip_partial HashOrder.id namedPda_names namedAut_ok ⟨3, by decide⟩ (by decide)

end Verif.Props
