import Mathlib.Data.List.Nodup
import Mathlib.Data.List.Induction
import Mathlib.Data.List.Perm.Subperm
import Verif.Proofs.Nfa

/-! # Runs of NFAs: ε-closure, successor, labels between two states -/

namespace Verif

namespace Nfa

/-- Either accepting or with an edge that is not a pure ε edge. -/
def Useful (m : Nfa) (q : Nat) : Prop := ((m.get q).acc || (m.get q).hasNonEps) = true

theorem SSorted.nodup {l : List Nat} (h : SSorted l) : l.Nodup := h.imp fun h => Nat.ne_of_lt h

theorem ssorted_sorted {l : List Nat} (h : SSorted l) : VSet.Sorted natLt l := by
  refine h.imp ?_
  intro a b hab
  simpa [natLt] using hab

theorem sorted_ssorted {l : List Nat} (h : VSet.Sorted natLt l) : SSorted l := by
  refine List.Pairwise.imp ?_ h
  intro a b hab
  simpa [natLt] using hab

theorem emplace_sub {l : List Nat} (h : VSet.Sorted natLt l) (x : Nat) {b : Bool} {l' : List Nat}
    (he : VSet.emplace natLt l x = (l', b)) :
    VSet.Sorted natLt l' ∧ (∀ y, y ∈ l' ↔ y ∈ l ∨ y = x) ∧ (b = true ↔ x ∉ l) := by
  have h1 := VSet.emplace_sorted natLt_total h x
  have h2 := fun y => VSet.mem_emplace natLt_total (m := l) x y
  have h3 := VSet.emplace_fresh natLt_total h x
  rw [he] at h1 h2 h3
  exact ⟨h1, h2, h3⟩

theorem nodup_of_vsorted {l : List Nat} (h : VSet.Sorted natLt l) : l.Nodup := SSorted.nodup (sorted_ssorted h)

theorem emplace_length {l : List Nat} (h : VSet.Sorted natLt l) {x : Nat} {l' : List Nat} (hx : x ∉ l)
    (hs : VSet.Sorted natLt l') (hm : ∀ y, y ∈ l' ↔ y ∈ l ∨ y = x) : l'.length = l.length + 1 := by
  have : l'.Perm (x :: l) := by
    rw [List.perm_ext_iff_of_nodup (nodup_of_vsorted hs) (List.nodup_cons.2 ⟨hx, nodup_of_vsorted h⟩)]
    intro y; rw [hm, List.mem_cons]; grind
  simpa using this.length_eq

theorem epsScan_spec (es : List NEdge) (S W : List Nat) (hS : VSet.Sorted natLt S) :
    VSet.Sorted natLt (epsScan es (S, W)).1 ∧
    (∀ y, y ∈ (epsScan es (S, W)).1 ↔ y ∈ S ∨ ∃ e ∈ es, e.eps = true ∧ e.dst = y) ∧
    (∀ y, y ∈ (epsScan es (S, W)).2 ↔ y ∈ W ∨ (y ∉ S ∧ y ∈ (epsScan es (S, W)).1)) ∧
    (epsScan es (S, W)).2.length + S.length = W.length + (epsScan es (S, W)).1.length := by
  induction es generalizing S W with
  | nil => simp [epsScan, hS]
  | cons e es ih =>
    have hstep : epsScan (e :: es) (S, W) = epsScan es (if e.eps then
      match VSet.emplace natLt S e.dst with
      | (s, true) => (s, e.dst :: W)
      | (_, false) => (S, W)
      else (S, W)) := rfl
    rw [hstep]
    by_cases he : e.eps = true
    · rw [if_pos he]
      generalize hv : VSet.emplace natLt S e.dst = r
      obtain ⟨l', b⟩ := r
      obtain ⟨h1, h2, h3⟩ := emplace_sub hS _ hv
      cases b with
      | true =>
        have hx := h3.1 rfl
        obtain ⟨i1, i2, i3, i4⟩ := ih l' (e.dst :: W) h1
        have hl := emplace_length hS hx h1 h2
        refine ⟨i1, ?_, ?_, ?_⟩
        · intro y; simp only [i2, h2, List.mem_cons]; grind
        · intro y
          rw [i3, List.mem_cons, h2]
          have := i2 y
          grind
        · simp only [List.length_cons] at i4 ⊢; omega
      | false =>
        have hx : e.dst ∈ S := by
          by_contra hc
          exact Bool.noConfusion (h3.2 hc)
        obtain ⟨i1, i2, i3, i4⟩ := ih S W hS
        refine ⟨i1, ?_, i3, i4⟩
        intro y; simp only [i2, List.mem_cons]; grind
    · rw [if_neg he]
      obtain ⟨i1, i2, i3, i4⟩ := ih S W hS
      refine ⟨i1, ?_, i3, i4⟩
      intro y; simp only [i2, List.mem_cons]; grind

theorem eps_get {m : Nfa} (hn : m.ptrs.Nodup) {p q : Nat} :
    m.Eps p q ↔ p ∈ m.ptrs ∧ ∃ e ∈ (m.get p).edges, e.eps = true ∧ e.dst = q := by
  constructor
  · rintro ⟨s, e, h1, h2, h3, h4⟩
    exact ⟨mem_ptrs.2 ⟨s, h1⟩, e, by rw [get_eq hn h1]; exact h2, h3, h4⟩
  · rintro ⟨h1, e, h2, h3, h4⟩
    exact ⟨_, e, mem_get hn h1, h2, h3, h4⟩

theorem sym_get {m : Nfa} (hn : m.ptrs.Nodup) {p g q : Nat} :
    m.Sym p g q ↔ p ∈ m.ptrs ∧ ∃ e ∈ (m.get p).edges, e.Reads g ∧ e.dst = q := by
  constructor
  · rintro ⟨s, e, h1, h2, h3, h4⟩
    exact ⟨mem_ptrs.2 ⟨s, h1⟩, e, by rw [get_eq hn h1]; exact h2, h3, h4⟩
  · rintro ⟨h1, e, h2, h3, h4⟩
    exact ⟨_, e, mem_get hn h1, h2, h3, h4⟩

theorem acc_get {m : Nfa} (hn : m.ptrs.Nodup) {p : Nat} : m.Acc p ↔ p ∈ m.ptrs ∧ (m.get p).acc = true := by
  constructor
  · rintro ⟨s, h1, h2⟩
    exact ⟨mem_ptrs.2 ⟨s, h1⟩, by rw [get_eq hn h1]; exact h2⟩
  · rintro ⟨h1, h2⟩
    exact ⟨_, mem_get hn h1, h2⟩

theorem WPath.mem_ptrs {m : Nfa} (hm : m.WF) {p q : Nat} {w : List Nat} (h : WPath m.Eps m.Sym p w q)
    (hp : p ∈ m.ptrs) : q ∈ m.ptrs := by
  induction h with
  | nil q => exact hp
  | eps h1 _ ih => exact ih (h1.dst_mem hm)
  | sym h1 _ ih => exact ih (h1.dst_mem hm)

theorem epsLoop_spec {m : Nfa} (hm : m.WF) (k : Nat) (S W S0 : List Nat) (hS : VSet.Sorted natLt S)
    (hp : ∀ q ∈ S, q ∈ m.ptrs) (hW : ∀ q ∈ W, q ∈ S) (h0 : ∀ q ∈ S0, q ∈ S)
    (hsound : ∀ q ∈ S, ∃ p ∈ S0, WPath m.Eps m.Sym p [] q)
    (hcl : ∀ p ∈ S, p ∉ W → ∀ q, m.Eps p q → q ∈ S)
    (hk : W.length + m.ptrs.length < k + S.length) :
    VSet.Sorted natLt (epsLoop m k (S, W)) ∧
    ∀ q, q ∈ epsLoop m k (S, W) ↔ ∃ p ∈ S0, WPath m.Eps m.Sym p [] q := by
  induction k generalizing S W with
  | zero =>
    have : S.length ≤ m.ptrs.length :=
      (List.subperm_of_subset (nodup_of_vsorted hS) (fun q hq => hp q hq)).length_le
    omega
  | succ k ih =>
    cases W with
    | nil =>
      refine ⟨hS, fun q => ⟨hsound q, ?_⟩⟩
      rintro ⟨p, h1, h2⟩
      have : ∀ {p w q}, WPath m.Eps m.Sym p w q → w = [] → p ∈ S → q ∈ S := by
        intro p w q h
        induction h with
        | nil q => exact fun _ h => h
        | eps h1 _ ih => exact fun hw hp => ih hw (hcl _ hp (by simp) _ h1)
        | sym h1 _ ih => intro hw; simp at hw
      exact this h2 rfl (h0 p h1)
    | cons s W =>
      have hstep : epsLoop m (k + 1) (S, s :: W) = epsLoop m k (epsScan (m.get s).edges (S, W)) := rfl
      rw [hstep]
      obtain ⟨i1, i2, i3, i4⟩ := epsScan_spec (m.get s).edges S W hS
      generalize epsScan (m.get s).edges (S, W) = r at i1 i2 i3 i4
      obtain ⟨S', W'⟩ := r
      dsimp only at i1 i2 i3 i4
      have hs : s ∈ S := hW s (by simp)
      have hadd : ∀ y, y ∈ S' ↔ y ∈ S ∨ m.Eps s y := by
        intro y
        rw [i2, eps_get hm.nodup]
        have := hp s hs
        grind
      apply ih S' W' i1
      · intro q hq
        rcases (hadd q).1 hq with h | h
        · exact hp q h
        · exact h.dst_mem hm
      · intro q hq
        rcases (i3 q).1 hq with h | h
        · exact (hadd q).2 (.inl (hW q (by simp [h])))
        · exact h.2
      · intro q hq; exact (hadd q).2 (.inl (h0 q hq))
      · intro q hq
        rcases (hadd q).1 hq with h | h
        · exact hsound q h
        · obtain ⟨p, h1, h2⟩ := hsound s hs
          exact ⟨p, h1, by simpa using h2.append (.eps h (.nil q))⟩
      · intro p hpS hpW q hpq
        rw [i3] at hpW
        have hpS' : p ∈ S := by
          by_contra hc
          exact hpW (.inr ⟨hc, hpS⟩)
        by_cases hps : p = s
        · subst hps; exact (hadd q).2 (.inr hpq)
        · refine (hadd q).2 (.inl (hcl p hpS' ?_ q hpq))
          simp only [List.mem_cons, not_or]
          exact ⟨hps, fun h => hpW (.inl h)⟩
      · simp only [List.length_cons] at hk; omega

theorem followEps_spec {m : Nfa} (hm : m.WF) {S : List Nat} (hS : SSorted S) (hp : ∀ q ∈ S, q ∈ m.ptrs) :
    SSorted (m.followEps S) ∧
    ∀ q, q ∈ m.followEps S ↔ (∃ p ∈ S, WPath m.Eps m.Sym p [] q) ∧ m.Useful q := by
  obtain ⟨h1, h2⟩ := epsLoop_spec hm (m.states.length + S.length + 1) S S.reverse S (ssorted_sorted hS) hp
    (by simp) (fun q h => h) (fun q h => ⟨q, h, .nil q⟩) (by simp; grind) (by simp [ptrs]; omega)
  constructor
  · exact (sorted_ssorted h1).filter _
  · intro q
    unfold followEps
    rw [List.mem_filter, h2]
    rfl

/-! ## Reading -/

theorem contains_reads {e : NEdge} (hs : SSorted e.syms) (g : Nat) : e.contains g = true ↔ e.Reads g := by
  unfold NEdge.contains NEdge.Reads
  have := VSet.contains_eq natLt_total (ssorted_sorted hs) g
  cases hn : e.neg <;> cases hc : VSet.contains natLt e.syms g <;> simp_all

theorem succInner_spec (g : Nat) (es : List NEdge) (N : List Nat) (hN : VSet.Sorted natLt N) :
    VSet.Sorted natLt (es.foldl (fun next e =>
      if e.contains g then (VSet.emplace natLt next e.dst).1 else next) N) ∧
    ∀ q, q ∈ es.foldl (fun next e =>
      if e.contains g then (VSet.emplace natLt next e.dst).1 else next) N ↔
      q ∈ N ∨ ∃ e ∈ es, e.contains g = true ∧ e.dst = q := by
  induction es generalizing N with
  | nil => simp [hN]
  | cons e es ih =>
    simp only [List.foldl_cons]
    by_cases he : e.contains g = true
    · rw [if_pos he]
      obtain ⟨h1, h2⟩ := ih _ (VSet.emplace_sorted natLt_total hN e.dst)
      refine ⟨h1, fun q => ?_⟩
      rw [h2, VSet.mem_emplace natLt_total]
      simp only [List.mem_cons]
      grind
    · rw [if_neg he]
      obtain ⟨h1, h2⟩ := ih _ hN
      refine ⟨h1, fun q => ?_⟩
      rw [h2]
      simp only [List.mem_cons]
      grind

theorem succRaw_spec {m : Nfa} (hm : m.WF) {S : List Nat} (hp : ∀ q ∈ S, q ∈ m.ptrs) (g : Nat) :
    SSorted (m.succRaw S g) ∧ ∀ q, q ∈ m.succRaw S g ↔ ∃ p ∈ S, m.Sym p g q := by
  suffices h : ∀ (S N : List Nat), VSet.Sorted natLt N → (∀ q ∈ S, q ∈ m.ptrs) →
      VSet.Sorted natLt (S.foldl (fun next s => (m.get s).edges.foldl (fun next e =>
        if e.contains g then (VSet.emplace natLt next e.dst).1 else next) next) N) ∧
      ∀ q, q ∈ S.foldl (fun next s => (m.get s).edges.foldl (fun next e =>
        if e.contains g then (VSet.emplace natLt next e.dst).1 else next) next) N ↔
        q ∈ N ∨ ∃ p ∈ S, m.Sym p g q by
    obtain ⟨h1, h2⟩ := h S [] List.Pairwise.nil hp
    exact ⟨sorted_ssorted h1, fun q => by rw [succRaw, h2]; simp⟩
  intro S
  induction S with
  | nil => intro N hN _; simp [hN]
  | cons s S ih =>
    intro N hN hp
    simp only [List.foldl_cons]
    obtain ⟨h1, h2⟩ := succInner_spec g (m.get s).edges N hN
    obtain ⟨h3, h4⟩ := ih _ h1 (fun q hq => hp q (by simp [hq]))
    refine ⟨h3, fun q => ?_⟩
    rw [h4, h2]
    have hs := hp s (by simp)
    have : (∃ e ∈ (m.get s).edges, e.contains g = true ∧ e.dst = q) ↔ m.Sym s g q := by
      rw [sym_get hm.nodup]
      have hc : ∀ e ∈ (m.get s).edges, (e.contains g = true ↔ e.Reads g) := fun e he =>
        contains_reads (hm.syms _ _ (mem_get hm.nodup hs) e he) g
      grind
    rw [this]
    simp only [List.mem_cons]
    grind

theorem successor_spec {m : Nfa} (hm : m.WF) {S : List Nat} (hp : ∀ q ∈ S, q ∈ m.ptrs) (g : Nat) :
    SSorted (m.successor S g) ∧ (∀ q ∈ m.successor S g, q ∈ m.ptrs) ∧
    ∀ q, q ∈ m.successor S g ↔ (∃ p ∈ S, ∃ r, m.Sym p g r ∧ WPath m.Eps m.Sym r [] q) ∧ m.Useful q := by
  obtain ⟨h1, h2⟩ := succRaw_spec hm hp g
  have hr : ∀ q ∈ m.succRaw S g, q ∈ m.ptrs := by
    intro q hq
    obtain ⟨p, _, h3⟩ := (h2 q).1 hq
    exact h3.dst_mem hm
  obtain ⟨h3, h4⟩ := followEps_spec hm h1 hr
  refine ⟨h3, ?_, ?_⟩
  · intro q hq
    obtain ⟨⟨p, h5, h6⟩, _⟩ := (h4 q).1 hq
    exact WPath.mem_ptrs hm h6 (hr p h5)
  · intro q
    rw [successor, h4]
    constructor
    · rintro ⟨⟨p, h5, h6⟩, h7⟩
      obtain ⟨p', h8, h9⟩ := (h2 p).1 h5
      exact ⟨⟨p', h8, p, h9, h6⟩, h7⟩
    · rintro ⟨⟨p', h8, p, h9, h6⟩, h7⟩
      exact ⟨⟨p, (h2 p).2 ⟨p', h8, h9⟩, h6⟩, h7⟩

theorem useful_of_acc {m : Nfa} (hn : m.ptrs.Nodup) {q : Nat} (h : m.Acc q) : m.Useful q := by
  simp [Useful, ((acc_get hn).1 h).2]

theorem useful_of_sym {m : Nfa} (hn : m.ptrs.Nodup) {p g q : Nat} (h : m.Sym p g q) : m.Useful p := by
  obtain ⟨h1, e, h2, h3, h4⟩ := (sym_get hn).1 h
  unfold Useful NState.hasNonEps
  rw [Bool.or_eq_true, List.any_eq_true]
  refine .inr ⟨e, h2, ?_⟩
  unfold NEdge.Reads at h3
  cases hn : e.neg with
  | true => simp
  | false =>
    rw [hn] at h3
    cases hs : e.syms with
    | nil => rw [hs] at h3; simp at h3
    | cons a b => simp

theorem WPath.snoc_sym {eps : Nat → Nat → Prop} {sym : Nat → Nat → Nat → Prop} {p r : Nat} {w : List Nat} {g : Nat}
    (h : WPath eps sym p (w ++ [g]) r) :
    ∃ q q', WPath eps sym p w q ∧ sym q g q' ∧ WPath eps sym q' [] r := by
  generalize hv : w ++ [g] = v at h
  induction h generalizing w with
  | nil q => simp at hv
  | eps h1 _ ih =>
    obtain ⟨q, q', h2, h3, h4⟩ := ih hv
    exact ⟨q, q', .eps h1 h2, h3, h4⟩
  | @sym p g' q r w' h1 h2 ih =>
    cases w with
    | nil =>
      simp only [List.nil_append, List.cons.injEq] at hv
      obtain ⟨rfl, rfl⟩ := hv
      exact ⟨p, q, .nil p, h1, h2⟩
    | cons a w =>
      simp only [List.cons_append, List.cons.injEq] at hv
      obtain ⟨rfl, hv⟩ := hv
      obtain ⟨x, x', h3, h4, h5⟩ := ih hv
      exact ⟨x, x', .sym h1 h3, h4, h5⟩

/-- Reading a word with `successor`, from states that are closed under ε up to useful states. -/
theorem run_spec {m : Nfa} (hm : m.WF) {S I : List Nat} (hp : ∀ q ∈ S, q ∈ m.ptrs)
    (hI : ∀ q, q ∈ S ↔ (∃ p ∈ I, WPath m.Eps m.Sym p [] q) ∧ m.Useful q) (hs : SSorted S) (w : List Nat) :
    SSorted (w.foldl m.successor S) ∧ (∀ q ∈ w.foldl m.successor S, q ∈ m.ptrs) ∧
    ∀ q, q ∈ w.foldl m.successor S ↔ (∃ p ∈ I, WPath m.Eps m.Sym p w q) ∧ m.Useful q := by
  induction w using List.reverseRecOn with
  | nil => exact ⟨hs, hp, hI⟩
  | append_singleton w g ih =>
    obtain ⟨i1, i2, i3⟩ := ih
    obtain ⟨h1, h2, h3⟩ := successor_spec hm i2 g
    rw [List.foldl_append, List.foldl_cons, List.foldl_nil]
    refine ⟨h1, h2, fun q => ?_⟩
    rw [h3]
    constructor
    · rintro ⟨⟨p, h4, r, h5, h6⟩, h7⟩
      obtain ⟨⟨i, h8, h9⟩, _⟩ := (i3 p).1 h4
      exact ⟨⟨i, h8, h9.append (.sym h5 h6)⟩, h7⟩
    · rintro ⟨⟨i, h4, h5⟩, h6⟩
      obtain ⟨p, r, h7, h8, h9⟩ := WPath.snoc_sym h5
      exact ⟨⟨p, (i3 p).2 ⟨⟨i, h4, h7⟩, useful_of_sym hm.nodup h8⟩, r, h8, h9⟩, h6⟩

/-! ## compile -/

theorem mergeSort_ssorted {l : List Nat} (hn : l.Nodup) : SSorted l.mergeSort := by
  have h1 : l.mergeSort.Pairwise fun a b => decide (a ≤ b) = true :=
    List.pairwise_mergeSort (fun a b c h h' => by simp at *; omega) (fun a b => by simp; omega) l
  have h2 : l.mergeSort.Nodup := (List.mergeSort_perm l _).nodup_iff.2 hn
  refine (h1.and h2).imp ?_
  rintro a b ⟨h3, h4⟩
  simp only [decide_eq_true_eq] at h3
  omega

theorem compile_mem (m : Nfa) (x : Nat × NState) : x ∈ m.compile.states ↔ x ∈ m.states :=
  (List.mergeSort_perm m.states _).mem_iff

theorem compile_ptrs (m : Nfa) : m.compile.ptrs.Perm m.ptrs := (List.mergeSort_perm m.states _).map _

theorem compile_get {m : Nfa} (hn : m.ptrs.Nodup) {q : Nat} (hq : q ∈ m.ptrs) : m.compile.get q = m.get q := by
  obtain ⟨s, h⟩ := mem_ptrs.1 hq
  rw [get_eq hn h, get_eq ((compile_ptrs m).nodup_iff.2 hn) ((compile_mem m _).2 h)]

theorem compile_moves (m : Nfa) : (∀ p q, m.compile.Eps p q ↔ m.Eps p q) ∧
    (∀ p g q, m.compile.Sym p g q ↔ m.Sym p g q) ∧ ∀ q, m.compile.Acc q ↔ m.Acc q := by
  refine ⟨?_, ?_, ?_⟩
  · intro p q; unfold Eps; simp only [compile_mem]
  · intro p g q; unfold Sym; simp only [compile_mem]
  · intro q; unfold Acc; simp only [compile_mem]

theorem compile_initial {m : Nfa} (hm : m.WF) : SSorted m.compile.initial ∧
    ∀ q, q ∈ m.compile.initial ↔ (∃ p ∈ m.initial, WPath m.Eps m.Sym p [] q) ∧ m.Useful q := by
  obtain ⟨h1, h2⟩ := followEps_spec hm (mergeSort_ssorted hm.initNodup)
    (by intro q hq; exact hm.init q (by simpa using hq))
  refine ⟨h1, fun q => ?_⟩
  show q ∈ m.followEps m.initial.mergeSort ↔ _
  rw [h2]
  simp

theorem compile_wf {m : Nfa} (hm : m.WF) : m.compile.WF := by
  obtain ⟨h1, h2⟩ := compile_initial hm
  have hp : ∀ q, q ∈ m.compile.ptrs ↔ q ∈ m.ptrs := fun q => (compile_ptrs m).mem_iff
  refine ⟨(compile_ptrs m).nodup_iff.2 hm.nodup, ?_, ?_, ?_, SSorted.nodup h1, ?_⟩
  · intro q s h e he
    exact (hp _).2 (hm.dst q s ((compile_mem m _).1 h) e he)
  · intro q s h
    exact hm.syms q s ((compile_mem m _).1 h)
  · intro q hq
    obtain ⟨⟨p, h3, h4⟩, _⟩ := (h2 q).1 hq
    exact (hp _).2 (WPath.mem_ptrs hm h4 (hm.init p h3))
  · intro q
    rw [(compile_moves m).2.2, ← hm.acc]
    show q ∈ m.accepting.mergeSort ↔ _
    simp

theorem compile_path {m : Nfa} {p q : Nat} {w : List Nat} :
    WPath m.compile.Eps m.compile.Sym p w q ↔ WPath m.Eps m.Sym p w q := by
  obtain ⟨h1, h2, _⟩ := compile_moves m
  exact ⟨fun h => h.mono (fun p q => (h1 p q).1) fun p g q => (h2 p g q).1,
    fun h => h.mono (fun p q => (h1 p q).2) fun p g q => (h2 p g q).2⟩

theorem compile_useful {m : Nfa} (hn : m.ptrs.Nodup) {q : Nat} (hq : q ∈ m.ptrs) :
    m.compile.Useful q ↔ m.Useful q := by
  unfold Useful; rw [compile_get hn hq]

/-- After `compile`, the states reached with `successor` are the useful ones that a path reaches. -/
theorem compile_run {m : Nfa} (hm : m.WF) (w : List Nat) :
    SSorted (w.foldl m.compile.successor m.compile.initial) ∧
    (∀ q ∈ w.foldl m.compile.successor m.compile.initial, q ∈ m.ptrs) ∧
    ∀ q, q ∈ w.foldl m.compile.successor m.compile.initial ↔
      (∃ p ∈ m.initial, WPath m.Eps m.Sym p w q) ∧ m.Useful q := by
  have hc := compile_wf hm
  have hptr : ∀ q, q ∈ m.compile.ptrs ↔ q ∈ m.ptrs := fun q => (compile_ptrs m).mem_iff
  obtain ⟨h1, h2⟩ := compile_initial hm
  have hreach : ∀ {i w q}, i ∈ m.initial → WPath m.Eps m.Sym i w q → q ∈ m.ptrs := fun hi h =>
    WPath.mem_ptrs hm h (hm.init _ hi)
  obtain ⟨r1, r2, r3⟩ := run_spec hc (I := m.initial) hc.init (by
    intro q
    rw [h2]
    constructor
    · rintro ⟨⟨p, h3, h4⟩, h5⟩
      exact ⟨⟨p, h3, compile_path.2 h4⟩, (compile_useful hm.nodup (hreach h3 h4)).2 h5⟩
    · rintro ⟨⟨p, h3, h4⟩, h5⟩
      have h4 := compile_path.1 h4
      exact ⟨⟨p, h3, h4⟩, (compile_useful hm.nodup (hreach h3 h4)).1 h5⟩) h1 w
  refine ⟨r1, fun q hq => (hptr q).1 (r2 q hq), fun q => ?_⟩
  rw [r3]
  constructor
  · rintro ⟨⟨p, h3, h4⟩, h5⟩
    have h4 := compile_path.1 h4
    exact ⟨⟨p, h3, h4⟩, (compile_useful hm.nodup (hreach h3 h4)).1 h5⟩
  · rintro ⟨⟨p, h3, h4⟩, h5⟩
    exact ⟨⟨p, h3, compile_path.2 h4⟩, (compile_useful hm.nodup (hreach h3 h4)).2 h5⟩

/-! ## leads_to_by_epsilon -/

theorem leadsScan_spec (goal : Nat) (es : List NEdge) (S W : List Nat) (hS : VSet.Sorted natLt S) :
    (leadsScan goal es (S, W) = none ↔ ∃ e ∈ es, e.eps = true ∧ e.dst = goal) ∧
    ∀ r, leadsScan goal es (S, W) = some r → r = epsScan es (S, W) := by
  induction es generalizing S W with
  | nil => simp [leadsScan, epsScan]
  | cons e es ih =>
    have hstep : epsScan (e :: es) (S, W) = epsScan es (if e.eps then
      match VSet.emplace natLt S e.dst with
      | (s, true) => (s, e.dst :: W)
      | (_, false) => (S, W)
      else (S, W)) := rfl
    rw [hstep]
    unfold leadsScan
    by_cases he : e.eps = true
    · simp only [he, if_true]
      by_cases hg : e.dst = goal
      · simp [hg, he]
      · simp only [hg, if_false]
        generalize hv : VSet.emplace natLt S e.dst = r
        obtain ⟨l', b⟩ := r
        obtain ⟨h1, _, _⟩ := emplace_sub hS _ hv
        cases b with
        | true =>
          obtain ⟨i1, i2⟩ := ih l' (e.dst :: W) h1
          refine ⟨?_, i2⟩
          simp only [i1, List.mem_cons]
          grind
        | false =>
          obtain ⟨i1, i2⟩ := ih S W hS
          refine ⟨?_, i2⟩
          simp only [i1, List.mem_cons]
          grind
    · simp only [he, if_false]
      obtain ⟨i1, i2⟩ := ih S W hS
      refine ⟨?_, i2⟩
      simp only [i1, List.mem_cons]
      grind

theorem leadsLoop_spec {m : Nfa} (hm : m.WF) (goal src : Nat) (k : Nat) (S W : List Nat)
    (hS : VSet.Sorted natLt S) (hp : ∀ q ∈ S, q ∈ m.ptrs) (hW : ∀ q ∈ W, q ∈ S) (h0 : src ∈ S)
    (hsound : ∀ q ∈ S, WPath m.Eps m.Sym src [] q) (hgoal : goal ∉ S)
    (hcl : ∀ p ∈ S, p ∉ W → ∀ q, m.Eps p q → q ∈ S)
    (hk : W.length + m.ptrs.length < k + S.length) :
    leadsLoop m goal k (S, W) = true ↔ WPath m.Eps m.Sym src [] goal := by
  induction k generalizing S W with
  | zero =>
    have : S.length ≤ m.ptrs.length :=
      (List.subperm_of_subset (nodup_of_vsorted hS) (fun q hq => hp q hq)).length_le
    omega
  | succ k ih =>
    cases W with
    | nil =>
      have h1 : leadsLoop m goal (k + 1) (S, []) = false := rfl
      rw [h1]
      simp only [Bool.false_eq_true, false_iff]
      intro h
      have : ∀ {p w q}, WPath m.Eps m.Sym p w q → w = [] → p ∈ S → q ∈ S := by
        intro p w q h
        induction h with
        | nil q => exact fun _ h => h
        | eps h1 _ ih => exact fun hw hp => ih hw (hcl _ hp (by simp) _ h1)
        | sym h1 _ ih => intro hw; simp at hw
      exact hgoal (this h rfl h0)
    | cons s W =>
      have hs : s ∈ S := hW s (by simp)
      obtain ⟨j1, j2⟩ := leadsScan_spec goal (m.get s).edges S W hS
      unfold leadsLoop
      dsimp only
      cases hl : leadsScan goal (m.get s).edges (S, W) with
      | none =>
        simp only [true_iff]
        have h1 : m.Eps s goal := (eps_get hm.nodup).2 ⟨hp s hs, j1.1 hl⟩
        simpa using (hsound s hs).append (.eps h1 (.nil goal))
      | some r =>
        have hr := j2 r hl
        obtain ⟨i1, i2, i3, i4⟩ := epsScan_spec (m.get s).edges S W hS
        rw [← hr] at i1 i2 i3 i4
        obtain ⟨S', W'⟩ := r
        dsimp only at i1 i2 i3 i4 ⊢
        have hadd : ∀ y, y ∈ S' ↔ y ∈ S ∨ m.Eps s y := by
          intro y
          rw [i2, eps_get hm.nodup]
          have := hp s hs
          grind
        apply ih S' W' i1
        · intro q hq
          rcases (hadd q).1 hq with h | h
          · exact hp q h
          · exact h.dst_mem hm
        · intro q hq
          rcases (i3 q).1 hq with h | h
          · exact (hadd q).2 (.inl (hW q (by simp [h])))
          · exact h.2
        · exact (hadd _).2 (.inl h0)
        · intro q hq
          rcases (hadd q).1 hq with h | h
          · exact hsound q h
          · simpa using (hsound s hs).append (.eps h (.nil q))
        · intro hg
          rcases (i2 goal).1 hg with h | h
          · exact hgoal h
          · have := j1.2 h
            rw [hl] at this
            exact absurd this (by simp)
        · intro p hpS hpW q hpq
          rw [i3] at hpW
          have hpS' : p ∈ S := by
            by_contra hc
            exact hpW (.inr ⟨hc, hpS⟩)
          by_cases hps : p = s
          · subst hps; exact (hadd q).2 (.inr hpq)
          · refine (hadd q).2 (.inl (hcl p hpS' ?_ q hpq))
            simp only [List.mem_cons, not_or]
            exact ⟨hps, fun h => hpW (.inl h)⟩
        · simp only [List.length_cons] at hk; omega

theorem leadsTo_spec {m : Nfa} (hm : m.WF) {src : Nat} (hs : src ∈ m.ptrs) (goal : Nat) :
    m.leadsTo src goal = true ↔ WPath m.Eps m.Sym src [] goal := by
  unfold leadsTo
  split
  · rename_i h
    subst h
    simp only [true_iff]
    exact .nil src
  · rename_i h
    apply leadsLoop_spec hm
    · exact List.pairwise_singleton _ _
    · simpa using hs
    · simp
    · simp
    · simp only [List.mem_singleton]
      rintro q rfl
      exact .nil q
    · simp only [List.mem_singleton]
      exact fun hc => h hc.symm
    · intro p hp hp'
      exact absurd hp hp'
    · simp [ptrs]; omega

/-! ## intersect_edge_labels -/

/-- The edge reads `l` and leads to `goal`. -/
def Leads (m : Nfa) (goal l : Nat) (e : NEdge) : Prop := e.Reads l ∧ m.leadsTo e.dst goal = true

theorem edge_part {labels : List Nat} (hl : SSorted labels) {e : NEdge} (he : SSorted e.syms) (x : Nat) :
    x ∈ (if e.neg then setDiff labels e.syms else setInter labels e.syms) ↔ x ∈ labels ∧ e.Reads x := by
  unfold NEdge.Reads
  cases e.neg
  · simp [mem_setInter hl he]
  · simp [mem_setDiff hl he]

theorem interLoop_sound (m : Nfa) (goal : Nat) {labels : List Nat} (hl : SSorted labels) (es : List NEdge)
    (hes : ∀ e ∈ es, SSorted e.syms) (R T : List Nat) (P : Nat → Prop) (hR : ∀ x ∈ R, P x) (hT : ∀ x ∈ T, P x)
    (hP : ∀ e ∈ es, ∀ x ∈ labels, m.Leads goal x e → P x) (x : Nat)
    (hx : x ∈ interLoop m goal labels es (R, T)) : P x := by
  induction es generalizing R T with
  | nil => exact hR x hx
  | cons e es ih =>
    unfold interLoop at hx
    have ihe := fun R T h1 h2 => ih (fun e he => hes e (by simp [he])) R T h1 h2
      (fun e he => hP e (by simp [he]))
    by_cases h1 : m.leadsTo e.dst goal = true
    · rw [if_neg (by simp [h1])] at hx
      by_cases h2 : (e.neg && e.syms.isEmpty) = true
      · rw [if_pos h2] at hx
        simp only [Bool.and_eq_true, List.isEmpty_iff] at h2
        exact hP e (by simp) x hx ⟨by simp [NEdge.Reads, h2.1, h2.2], h1⟩
      · rw [if_neg h2] at hx
        dsimp only at hx
        have hT' : ∀ x ∈ T ++ (if e.neg then setDiff labels e.syms else setInter labels e.syms), P x := by
          intro y hy
          rcases List.mem_append.1 hy with hy | hy
          · exact hT y hy
          · obtain ⟨h3, h4⟩ := (edge_part hl (hes e (by simp)) y).1 hy
            exact hP e (by simp) y h3 ⟨h4, h1⟩
        have hR' : ∀ x ∈ setUnion R (T ++ (if e.neg then setDiff labels e.syms else setInter labels e.syms)), P x := by
          intro y hy
          rcases (mem_setUnion _ _ _).1 hy with hy | hy
          · exact hR y hy
          · exact hT' y hy
        generalize (if e.neg then setDiff labels e.syms else setInter labels e.syms) = c at hx hT' hR'
        by_cases h3 : (setUnion R (T ++ c)).length = labels.length
        · rw [if_pos h3] at hx
          exact hR' x hx
        · rw [if_neg h3] at hx
          exact ihe _ _ hR' hT' hx
    · rw [if_pos (by simp [h1])] at hx
      exact ihe R T hR hT hx

/-- The labels that an edge contributes. -/
abbrev part (m : Nfa) (goal : Nat) (labels : List Nat) (e : NEdge) : List Nat :=
  if m.leadsTo e.dst goal = true then if e.neg then setDiff labels e.syms else setInter labels e.syms else []

theorem setUnion_prefix (a c : List Nat) : setUnion a (a ++ c) = a ++ c := by
  induction a with
  | nil => unfold setUnion; rfl
  | cons x a ih => rw [List.cons_append]; unfold setUnion; simp [ih]

theorem mem_part {m : Nfa} {goal : Nat} {labels : List Nat} (hl : SSorted labels) {e : NEdge}
    (he : SSorted e.syms) (x : Nat) : x ∈ m.part goal labels e ↔ x ∈ labels ∧ m.Leads goal x e := by
  unfold part Leads
  by_cases h : m.leadsTo e.dst goal = true
  · rw [if_pos h, edge_part hl he]; simp [h]
  · rw [if_neg h]; simp [h]

/-- `temp` collects the contributions one after the other; the loop stops once as many labels, with
repetitions, are collected as there are in `labels`. -/
theorem interLoop_complete (m : Nfa) (goal : Nat) {labels : List Nat} (hl : SSorted labels) (es : List NEdge)
    (hes : ∀ e ∈ es, SSorted e.syms) (T : List Nat)
    (hexit : ∀ es1 e es2, es = es1 ++ e :: es2 → m.leadsTo e.dst goal = true →
      (T ++ (es1 ++ [e]).flatMap (m.part goal labels)).length = labels.length →
      ∀ x ∈ labels, (∃ e ∈ es2, m.Leads goal x e) → x ∈ T ++ (es1 ++ [e]).flatMap (m.part goal labels))
    (x : Nat) (hx : x ∈ labels) (hQ : x ∈ T ∨ ∃ e ∈ es, m.Leads goal x e) :
    x ∈ interLoop m goal labels es (T, T) := by
  induction es generalizing T with
  | nil =>
    rcases hQ with h | ⟨e, h, _⟩
    · exact h
    · simp at h
  | cons e es ih =>
    unfold interLoop
    have hes' : ∀ e ∈ es, SSorted e.syms := fun e he => hes e (by simp [he])
    by_cases h1 : m.leadsTo e.dst goal = true
    · rw [if_neg (by simp [h1])]
      by_cases h2 : (e.neg && e.syms.isEmpty) = true
      · rw [if_pos h2]; exact hx
      · rw [if_neg h2]
        dsimp only
        have hpart : (if e.neg then setDiff labels e.syms else setInter labels e.syms) = m.part goal labels e := by
          simp [part, h1]
        rw [hpart, setUnion_prefix]
        have hQ' : x ∈ T ++ m.part goal labels e ∨ ∃ e ∈ es, m.Leads goal x e := by
          rcases hQ with h | ⟨e', h3, h4⟩
          · exact .inl (by simp [h])
          · rcases List.mem_cons.1 h3 with rfl | h3
            · exact .inl (List.mem_append.2 (.inr ((mem_part hl (hes _ (by simp)) x).2 ⟨hx, h4⟩)))
            · exact .inr ⟨e', h3, h4⟩
        by_cases h3 : (T ++ m.part goal labels e).length = labels.length
        · rw [if_pos h3]
          rcases hQ' with h | h
          · exact h
          · have := hexit [] e es rfl h1 (by simpa using h3) x hx h
            simpa using this
        · rw [if_neg h3]
          apply ih hes' _ _ hQ'
          intro es1 e1 es2 h4 h5 h6 y hy h7
          have := hexit (e :: es1) e1 es2 (by simp [h4]) h5 (by
            simpa [List.append_assoc] using h6) y hy h7
          simpa [List.append_assoc] using this
    · rw [if_pos (by simp [h1])]
      have hp : m.part goal labels e = [] := by simp [part, h1]
      apply ih hes'
      · intro es1 e1 es2 h4 h5 h6 y hy h7
        have := hexit (e :: es1) e1 es2 (by simp [h4]) h5 (by
          simpa [hp] using h6) y hy h7
        simpa [hp] using this
      · rcases hQ with h | ⟨e', h3, h4⟩
        · exact .inl h
        · rcases List.mem_cons.1 h3 with rfl | h3
          · exact absurd h4.2 h1
          · exact .inr ⟨e', h3, h4⟩

theorem part_sublist (m : Nfa) (goal : Nat) (labels : List Nat) (e : NEdge) :
    (m.part goal labels e).Sublist labels := by
  unfold part
  split
  · split
    · exact setDiff_sublist _ _
    · exact setInter_sublist _ _
  · exact List.nil_sublist _

/-- Nothing is missed when no label is contributed twice. -/
theorem interLoop_disjoint (m : Nfa) (goal : Nat) {labels : List Nat} (hl : SSorted labels) (es : List NEdge)
    (hes : ∀ e ∈ es, SSorted e.syms) (hd : es.Pairwise fun e e' => ∀ x ∈ labels, ¬(m.Leads goal x e ∧ m.Leads goal x e'))
    (x : Nat) (hx : x ∈ labels) (hQ : ∃ e ∈ es, m.Leads goal x e) : x ∈ interLoop m goal labels es ([], []) := by
  apply interLoop_complete m goal hl es hes [] _ x hx (.inr hQ)
  intro es1 e es2 h1 _ h3 y hy _
  rw [List.nil_append] at h3 ⊢
  have hnd : ((es1 ++ [e]).flatMap (m.part goal labels)).Nodup := by
    rw [List.nodup_flatMap]
    constructor
    · intro e' _; exact (part_sublist m goal labels e').nodup (SSorted.nodup hl)
    · have hsub : (es1 ++ [e]).Sublist es := by rw [h1]; simp
      have h4 := hd.sublist hsub
      refine (List.Pairwise.and_mem.1 h4).imp ?_
      rintro a b ⟨ha, hb, hab⟩
      have ha' := hes a (hsub.subset ha)
      have hb' := hes b (hsub.subset hb)
      intro z hz hz'
      exact hab z ((mem_part hl ha' z).1 hz).1 ⟨((mem_part hl ha' z).1 hz).2, ((mem_part hl hb' z).1 hz').2⟩
  have hss : ∀ z ∈ (es1 ++ [e]).flatMap (m.part goal labels), z ∈ labels := by
    intro z hz
    obtain ⟨e', _, h5⟩ := List.mem_flatMap.1 hz
    exact (part_sublist m goal labels e').subset h5
  exact ((List.subperm_of_subset hnd hss).perm_of_length_le (by omega)).mem_iff.2 hy

/-- Nothing is missed with at most two edges that lead to the goal. -/
theorem interLoop_two (m : Nfa) (goal : Nat) {labels : List Nat} (hl : SSorted labels) (es : List NEdge)
    (hes : ∀ e ∈ es, SSorted e.syms) (h2 : (es.filter fun e => m.leadsTo e.dst goal).length ≤ 2)
    (x : Nat) (hx : x ∈ labels) (hQ : ∃ e ∈ es, m.Leads goal x e) : x ∈ interLoop m goal labels es ([], []) := by
  apply interLoop_complete m goal hl es hes [] _ x hx (.inr hQ)
  rintro es1 e es2 h1 h4 h3 y hy ⟨e', h5, h6⟩
  rw [List.nil_append] at h3 ⊢
  have hnil : es1.filter (fun e => m.leadsTo e.dst goal) = [] := by
    rw [h1, List.filter_append, List.filter_cons, if_pos h4, List.length_append, List.length_cons] at h2
    have : 0 < (es2.filter fun e => m.leadsTo e.dst goal).length :=
      List.length_pos_of_mem (List.mem_filter.2 ⟨h5, h6.2⟩)
    exact List.length_eq_zero_iff.1 (by omega)
  have hempty : es1.flatMap (m.part goal labels) = [] := by
    rw [List.flatMap_eq_nil_iff]
    intro a ha
    have : ¬ m.leadsTo a.dst goal = true := by
      intro hc
      have : a ∈ es1.filter (fun e => m.leadsTo e.dst goal) := List.mem_filter.2 ⟨ha, hc⟩
      rw [hnil] at this
      simp at this
    simp [part, this]
  rw [List.flatMap_append, hempty, List.nil_append, List.flatMap_cons, List.flatMap_nil, List.append_nil] at h3 ⊢
  rw [(part_sublist m goal labels e).eq_of_length h3]
  exact hy

theorem hasAsSuccessor_spec {m : Nfa} (hm : m.WF) {S : List Nat} (hp : ∀ q ∈ S, q ∈ m.ptrs) (g goal : Nat) :
    m.hasAsSuccessor S g goal = true ↔
      (∃ p ∈ S, ∃ r, m.Sym p g r ∧ WPath m.Eps m.Sym r [] goal) ∧ m.Useful goal := by
  obtain ⟨h1, _, h3⟩ := successor_spec hm hp g
  unfold hasAsSuccessor
  rw [VSet.contains_eq natLt_total (ssorted_sorted h1), h3]

/-- The edges of the source states. -/
theorem edges_leads {m : Nfa} (hm : m.WF) {S : List Nat} (hp : ∀ q ∈ S, q ∈ m.ptrs) (g goal : Nat) :
    (∃ e ∈ S.flatMap fun s => (m.get s).edges, m.Leads goal g e) ↔
      ∃ p ∈ S, ∃ r, m.Sym p g r ∧ WPath m.Eps m.Sym r [] goal := by
  constructor
  · rintro ⟨e, h1, h2, h3⟩
    obtain ⟨s, h4, h5⟩ := List.mem_flatMap.1 h1
    have hd := hm.dst _ _ (mem_get hm.nodup (hp s h4)) e h5
    exact ⟨s, h4, e.dst, (sym_get hm.nodup).2 ⟨hp s h4, e, h5, h2, rfl⟩, (leadsTo_spec hm hd goal).1 h3⟩
  · rintro ⟨p, h1, r, h2, h3⟩
    obtain ⟨h4, e, h5, h6, rfl⟩ := (sym_get hm.nodup).1 h2
    exact ⟨e, List.mem_flatMap.2 ⟨p, h1, h5⟩, h6, (leadsTo_spec hm (h2.dst_mem hm) goal).2 h3⟩

end Nfa

end Verif
