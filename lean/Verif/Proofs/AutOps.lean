import Verif.Proofs.Accepts
import Verif.Proofs.Pda

/-! # Constructors and updates of P-automata -/

namespace Verif

variable {W : Type}

namespace Aut

theorem keys_emplaceEdge (a : Aut W) (u t : Tr) (x : Ann W) :
    t ∈ keys (a.emplaceEdge u x).edges ↔ t ∈ keys a.edges ∨ t = u := by
  unfold emplaceEdge
  by_cases h : a.hasEdge u = true
  · rw [if_pos h]
    rw [hasEdge_iff] at h
    constructor
    · exact .inl
    · rintro (h1 | rfl)
      · exact h1
      · exact h
  · rw [if_neg h]
    simp only [keys, List.map_cons, List.mem_cons]
    exact or_comm

@[simp] theorem acc_emplaceEdge (a : Aut W) (u : Tr) (x : Ann W) : (a.emplaceEdge u x).acc = a.acc := by
  unfold emplaceEdge; split <;> rfl

theorem nodup_emplaceEdge {a : Aut W} (h : (keys a.edges).Nodup) (u : Tr) (x : Ann W) :
    (keys (a.emplaceEdge u x).edges).Nodup := by
  unfold emplaceEdge
  by_cases h1 : a.hasEdge u = true
  · rw [if_pos h1]; exact h
  · rw [if_neg h1]
    rw [hasEdge_iff] at h1
    exact List.nodup_cons.2 ⟨h1, h⟩

theorem keys_addEdge [Zero W] (a : Aut W) (src dst g : Nat) (t : Tr) :
    t ∈ keys (a.addEdge src dst g).edges ↔ t ∈ keys a.edges ∨ t = ⟨src, g, dst⟩ :=
  keys_emplaceEdge a _ t _

@[simp] theorem acc_addEdge [Zero W] (a : Aut W) (src dst g : Nat) : (a.addEdge src dst g).acc = a.acc :=
  acc_emplaceEdge a _ _

theorem isAcc_addState (a : Aut W) (b : Bool) (q : Nat) :
    (a.addState b).isAcc q = if q = a.n then b else a.isAcc q := by
  unfold isAcc addState n
  by_cases h : q = a.acc.length
  · subst h; simp
  · rw [if_neg h]
    rcases Nat.lt_or_gt_of_ne h with h1 | h1
    · rw [List.getElem?_append_left h1]
    · rw [List.getElem?_eq_none (by simp; omega), List.getElem?_eq_none (by omega)]

theorem n_addState (a : Aut W) (b : Bool) : (a.addState b).n = a.n + 1 := by simp [n, addState]

theorem isAcc_lt {a : Aut W} {q : Nat} (h : a.isAcc q = true) : q < a.n := by
  by_contra hn
  unfold isAcc at h
  rw [List.getElem?_eq_none (by unfold n at hn; omega)] at h
  simp at h

theorem isAcc_setAccepting (a : Aut W) (i q : Nat) (hi : i < a.n) :
    (a.setAccepting i).isAcc q = (a.isAcc q || q == i) := by
  unfold isAcc setAccepting
  simp only [List.getElem?_modify]
  by_cases h : i = q
  · subst h
    have : i < a.acc.length := hi
    simp [List.getElem?_eq_getElem this]
  · simp [h, Ne.symm h]

theorem isAcc_congr {a b : Aut W} (h : a.acc = b.acc) (q : Nat) : a.isAcc q = b.isAcc q := by
  simp [isAcc, h]

/-! ## `add_edges` -/

theorem addFrom_spec [Zero W] (srcs : List Nat) (dst i : Nat) (a : Aut W) :
    (∀ t, t ∈ keys (a.addFrom srcs dst i).edges ↔
      t ∈ keys a.edges ∨ (t.src ∈ srcs ∧ t.label = i ∧ t.dst = dst)) ∧
    (a.addFrom srcs dst i).acc = a.acc := by
  unfold addFrom
  induction srcs generalizing a with
  | nil => simp
  | cons s ss ih =>
    rw [List.foldl_cons]
    obtain ⟨h1, h2⟩ := ih (a.addEdge s dst i)
    refine ⟨fun t => ?_, by rw [h2]; simp⟩
    rw [h1, keys_addEdge]
    rcases t with ⟨x, y, z⟩
    simp only [Tr.mk.injEq, List.mem_cons]
    grind

/-- A function that adds the transitions with a given label from the states in `S` to `dst`. -/
def Adds1 (f : Aut W → Nat → Aut W) (S : Nat → Prop) (dst : Nat) : Prop :=
  ∀ a i, (∀ t, t ∈ keys (f a i).edges ↔ t ∈ keys a.edges ∨ (S t.src ∧ t.label = i ∧ t.dst = dst)) ∧
    (f a i).acc = a.acc

theorem adds1_list {f : Aut W → Nat → Aut W} {S : Nat → Prop} {dst : Nat} (hf : Adds1 f S dst)
    (ls : List Nat) (a : Aut W) :
    (∀ t, t ∈ keys (ls.foldl f a).edges ↔
      t ∈ keys a.edges ∨ (S t.src ∧ t.label ∈ ls ∧ t.dst = dst)) ∧ (ls.foldl f a).acc = a.acc := by
  induction ls generalizing a with
  | nil => simp
  | cons l ls ih =>
    rw [List.foldl_cons]
    obtain ⟨h1, h2⟩ := ih (f a l)
    refine ⟨fun t => ?_, by rw [h2, (hf a l).2]⟩
    rw [h1, (hf a l).1]
    simp only [List.mem_cons]
    grind

/-- The negated loop, for any way of adding one label. -/
theorem negated_spec {f : Aut W → Nat → Aut W} {S : Nat → Prop} {dst : Nat} (hf : Adds1 f S dst)
    (nl : Nat) (labels : List Nat) (a : Aut W) (i : Nat) (hs : SSorted labels)
    (hge : ∀ l ∈ labels, i ≤ l) (hlt : ∀ l ∈ labels, l < nl) (hi : i ≤ nl) :
    let r := labels.foldl (fun (s : Aut W × Nat) label =>
      ((List.range' s.2 (label - s.2)).foldl f s.1, max s.2 label + 1)) (a, i)
    (∀ t, t ∈ keys ((List.range' r.2 (nl - r.2)).foldl f r.1).edges ↔
      t ∈ keys a.edges ∨
        (S t.src ∧ (i ≤ t.label ∧ t.label < nl ∧ t.label ∉ labels) ∧ t.dst = dst)) ∧
    ((List.range' r.2 (nl - r.2)).foldl f r.1).acc = a.acc := by
  induction labels generalizing a i with
  | nil =>
    intro r
    obtain ⟨h1, h2⟩ := adds1_list hf (List.range' r.2 (nl - r.2)) r.1
    refine ⟨fun t => ?_, h2⟩
    rw [h1]
    simp only [List.mem_range'_1, List.not_mem_nil, not_false_eq_true, and_true, r, List.foldl_nil]
    grind
  | cons l ls ih =>
    rw [SSorted, List.pairwise_cons] at hs
    have hl := hge l (by simp)
    have hl2 := hlt l (by simp)
    have h0 := adds1_list hf (List.range' i (l - i)) a
    have := ih ((List.range' i (l - i)).foldl f a) (max i l + 1) hs.2
      (fun l' hl' => by have := hs.1 l' hl'; omega) (fun l' hl' => hlt l' (by simp [hl'])) (by omega)
    rw [List.foldl_cons]
    refine ⟨fun t => ?_, by rw [this.2, h0.2]⟩
    rw [this.1, h0.1]
    simp only [List.mem_range'_1, List.mem_cons]
    have hnot : t.label ≤ l → t.label ∉ ls := fun h1 h2 => by have := hs.1 _ h2; omega
    have e : max i l = l := by omega
    rw [e]
    constructor
    · rintro ((h1 | ⟨h1, h2, h3⟩) | ⟨h1, h2, h3⟩)
      · exact .inl h1
      · refine .inr ⟨h1, ⟨by omega, by omega, ?_⟩, h3⟩
        rintro (h4 | h4)
        · omega
        · exact hnot (by omega) h4
      · refine .inr ⟨h1, ⟨by omega, by omega, ?_⟩, h3⟩
        rintro (h4 | h4)
        · omega
        · exact h2.2.2 h4
    · rintro (h1 | ⟨h1, ⟨h2, h3, h4⟩, h5⟩)
      · exact .inl (.inl h1)
      · by_cases h6 : t.label < l
        · exact .inl (.inr ⟨h1, by omega, h5⟩)
        · refine .inr ⟨h1, ⟨?_, h3, fun h7 => h4 (.inr h7)⟩, h5⟩
          have : t.label ≠ l := fun h7 => h4 (.inl h7)
          omega

theorem addEdges_spec [Zero W] (nl : Nat) (a : Aut W) (src dst : Nat) (negated : Bool)
    (labels : List Nat) (hs : negated = true → SSorted labels ∧ ∀ l ∈ labels, l < nl) :
    (∀ t, t ∈ keys (a.addEdges nl src dst negated labels).edges ↔ t ∈ keys a.edges ∨
      (t.src = src ∧ (if negated then t.label < nl ∧ t.label ∉ labels else t.label ∈ labels) ∧
        t.dst = dst)) ∧ (a.addEdges nl src dst negated labels).acc = a.acc := by
  have hf : Adds1 (W := W) (fun a i => a.addEdge src dst i) (· = src) dst := by
    intro a i
    refine ⟨fun t => ?_, by simp⟩
    rw [keys_addEdge]
    rcases t with ⟨x, y, z⟩
    simp
  unfold addEdges
  cases negated with
  | false => simpa using adds1_list hf labels a
  | true =>
    obtain ⟨h1, h2⟩ := hs rfl
    simpa [addRange] using negated_spec hf nl labels a 0 h1 (by simp) h2 (Nat.zero_le _)

theorem addEdgesFrom_spec [Zero W] (nl : Nat) (a : Aut W) (srcs : List Nat) (dst : Nat) (negated : Bool)
    (labels : List Nat) (hs : negated = true → SSorted labels ∧ ∀ l ∈ labels, l < nl) :
    (∀ t, t ∈ keys (a.addEdgesFrom nl srcs dst negated labels).edges ↔ t ∈ keys a.edges ∨
      (t.src ∈ srcs ∧ (if negated then t.label < nl ∧ t.label ∉ labels else t.label ∈ labels) ∧
        t.dst = dst)) ∧ (a.addEdgesFrom nl srcs dst negated labels).acc = a.acc := by
  unfold addEdgesFrom
  cases negated with
  | false =>
    simp only [Bool.false_eq_true, if_false]
    clear hs
    induction srcs generalizing a with
    | nil => simp
    | cons s ss ih =>
      rw [List.foldl_cons]
      have hf : Adds1 (W := W) (fun a i => a.addEdge s dst i) (· = s) dst := by
        intro a i
        refine ⟨fun t => ?_, by simp⟩
        rw [keys_addEdge]
        rcases t with ⟨x, y, z⟩
        simp
      obtain ⟨h1, h2⟩ := ih (labels.foldl (fun a l => a.addEdge s dst l) a)
      obtain ⟨h3, h4⟩ := adds1_list hf labels a
      refine ⟨fun t => ?_, by rw [h2, h4]⟩
      rw [h1, h3]
      simp only [List.mem_cons]
      grind
  | true =>
    have hf : Adds1 (W := W) (fun a i => a.addFrom srcs dst i) (· ∈ srcs) dst := by
      intro a i
      exact ⟨fun t => (addFrom_spec srcs dst i a).1 t, (addFrom_spec srcs dst i a).2⟩
    obtain ⟨h1, h2⟩ := hs rfl
    simpa [addRangeFrom] using negated_spec hf nl labels a 0 h1 (by simp) h2 (Nat.zero_le _)

/-! ## The automaton of one configuration -/

/-- The states of the chain. -/
def chain (size q0 j : Nat) : Nat := if j = 0 then q0 else size + j - 1

theorem single_init (size acc : Nat) :
    ∀ m, (((List.range m).foldl (fun (a : Aut W) i => a.addState (i == acc)) {}).acc =
      (List.range m).map (· == acc)) ∧
    ((List.range m).foldl (fun (a : Aut W) i => a.addState (i == acc)) {}).edges = [] := by
  intro m
  induction m with
  | zero => simp
  | succ m ih =>
    rw [List.range_succ, List.foldl_append, List.foldl_cons, List.foldl_nil]
    refine ⟨?_, ih.2⟩
    show _ ++ [m == acc] = _
    rw [ih.1]
    simp

theorem single_loop [Zero W] (size q0 len : Nat) (stack : List Nat) (a : Aut W) (k : Nat)
    (hn : a.n = size + k) :
    let r := (stack.zipIdx k).foldl (singleRound len) (a, chain size q0 k)
    (∀ t, t ∈ keys r.1.edges ↔ t ∈ keys a.edges ∨
      ∃ j g, stack[j]? = some g ∧ t = ⟨chain size q0 (k + j), g, chain size q0 (k + j + 1)⟩) ∧
    (∀ q, r.1.isAcc q = if q < size + k then a.isAcc q
      else decide (q < size + k + stack.length ∧ q - size = len - 1)) ∧
    r.1.n = size + k + stack.length := by
  induction stack generalizing a k with
  | nil =>
    intro r
    refine ⟨by simp [r], fun q => ?_, by simpa [r] using hn⟩
    simp only [r, List.zipIdx_nil, List.foldl_nil, List.length_nil, Nat.add_zero]
    split
    · rfl
    · rename_i h
      have : ¬ (q < size + k ∧ q - size = len - 1) := fun h1 => h h1.1
      rw [decide_eq_false this]
      rw [Bool.eq_false_iff]
      intro h1
      have := isAcc_lt h1
      omega
  | cons g gs ih =>
    intro r
    have hc : chain size q0 (k + 1) = size + k := by simp [chain]
    have hround : singleRound len (a, chain size q0 k) (g, k) =
        ((a.addState (k == len - 1)).addEdge (chain size q0 k) (size + k) g, chain size q0 (k + 1)) := by
      simp [singleRound, hn, hc]
    have hr : r = (gs.zipIdx (k + 1)).foldl (singleRound len)
        ((a.addState (k == len - 1)).addEdge (chain size q0 k) (size + k) g, chain size q0 (k + 1)) := by
      simp only [r, List.zipIdx_cons, List.foldl_cons, hround]
    have hn' : ((a.addState (k == len - 1)).addEdge (chain size q0 k) (size + k) g).n = size + (k + 1) := by
      have := n_addState a (k == len - 1)
      simp only [n, acc_addEdge] at *
      omega
    obtain ⟨h1, h2, h3⟩ := ih _ (k + 1) hn'
    rw [hr]
    refine ⟨fun t => ?_, fun q => ?_, ?_⟩
    · rw [h1, keys_addEdge]
      constructor
      · rintro ((h4 | rfl) | ⟨j, g', h4, rfl⟩)
        · exact .inl h4
        · exact .inr ⟨0, g, rfl, by simp [hc]⟩
        · refine .inr ⟨j + 1, g', by simpa using h4, ?_⟩
          simp only [Nat.add_assoc, Nat.add_comm 1 j]
      · rintro (h4 | ⟨j, g', h4, rfl⟩)
        · exact .inl (.inl h4)
        · cases j with
          | zero =>
            simp only [List.getElem?_cons_zero, Option.some.injEq] at h4
            subst h4
            exact .inl (.inr (by simp [hc]))
          | succ j =>
            refine .inr ⟨j, g', by simpa using h4, ?_⟩
            simp only [Nat.add_assoc, Nat.add_comm 1 j]
    · rw [h2]
      have e : ((a.addState (k == len - 1)).addEdge (chain size q0 k) (size + k) g).isAcc q =
          (a.addState (k == len - 1)).isAcc q := isAcc_congr (by simp) q
      rw [e, isAcc_addState, hn]
      by_cases h4 : q < size + k
      · rw [if_pos (by omega), if_neg (by omega), if_pos h4]
      · rw [if_neg h4]
        by_cases h5 : q = size + k
        · subst h5
          rw [if_pos (by omega), if_pos rfl]
          rw [Bool.eq_iff_iff]
          simp
        · rw [if_neg (by omega)]
          congr 1
          simp only [List.length_cons]
          apply propext
          constructor <;> rintro ⟨_, _⟩ <;> constructor <;> omega
    · rw [h3]; simp only [List.length_cons]; omega

theorem single_spec [Zero W] (size q0 : Nat) (stack : List Nat) :
    (∀ t, t ∈ keys (single (W := W) size q0 stack).edges ↔
      ∃ j g, stack[j]? = some g ∧ t = ⟨chain size q0 j, g, chain size q0 (j + 1)⟩) ∧
    (∀ q, q0 < size → ((single (W := W) size q0 stack).isAcc q = true ↔ q = chain size q0 stack.length)) ∧
    (single (W := W) size q0 stack).n = size + stack.length := by
  unfold single
  simp only
  obtain ⟨i1, i2⟩ := single_init (W := W) size (if stack.isEmpty then q0 else size) size
  have hn : ((List.range size).foldl
      (fun (a : Aut W) i => a.addState (i == if stack.isEmpty then q0 else size)) {}).n = size + 0 := by
    unfold n
    rw [i1]
    simp
  obtain ⟨h1, h2, h3⟩ := single_loop size q0 stack.length stack _ 0 hn
  have hc0 : chain size q0 0 = q0 := rfl
  rw [hc0] at h1 h2 h3
  refine ⟨fun t => ?_, fun q hq => ?_, by simpa using h3⟩
  · rw [h1, i2]; simp [keys]
  · rw [h2]
    by_cases hlt : q < size + 0
    · rw [if_pos hlt]
      simp only [isAcc, i1]
      rw [List.getElem?_map, List.getElem?_range (by omega)]
      simp only [Option.map_some, Option.getD_some, beq_iff_eq]
      cases stack with
      | nil => simp [chain]
      | cons g gs =>
        simp only [List.isEmpty_cons, Bool.false_eq_true, if_false, List.length_cons, chain,
          Nat.add_eq_zero_iff, Nat.succ_ne_zero, and_false]
        omega
    · rw [if_neg hlt]
      simp only [decide_eq_true_eq]
      cases stack with
      | nil => simp [chain]; omega
      | cons g gs =>
        simp only [List.length_cons, chain, Nat.add_eq_zero_iff, Nat.succ_ne_zero, and_false, if_false]
        omega

theorem chain_inj {size q0 i j : Nat} (hq : q0 < size) (h : chain size q0 i = chain size q0 j) : i = j := by
  unfold chain at h
  split at h <;> split at h <;> omega

theorem single_path [Zero W] (size q0 : Nat) (hq : q0 < size) (stack : List Nat) (j : Nat)
    (hj : j ≤ stack.length) (w : List Nat) :
    Path (· ∈ keys (single (W := W) size q0 stack).edges) (chain size q0 j) w (chain size q0 stack.length) ↔
      w = stack.drop j := by
  obtain ⟨h1, _, _⟩ := single_spec (W := W) size q0 stack
  induction w generalizing j with
  | nil =>
    constructor
    · intro h
      generalize hx : chain size q0 j = x at h
      generalize hy : chain size q0 stack.length = y at h
      cases h
      have := chain_inj hq (hx.trans hy.symm)
      rw [this, List.drop_length]
    · intro h
      have := congrArg List.length h
      simp only [List.length_nil, List.length_drop] at this
      have : j = stack.length := by omega
      rw [this]; exact .nil _
  | cons g w ih =>
    constructor
    · intro h
      cases h with
      | cons he hp =>
        obtain ⟨j', g', h2, h3⟩ := (h1 _).1 he
        simp only [Tr.mk.injEq] at h3
        obtain ⟨h4, rfl, rfl⟩ := h3
        have := chain_inj hq h4
        subst this
        have hlt : j < stack.length := by
          by_contra hn
          rw [List.getElem?_eq_none (by omega)] at h2
          simp at h2
        rw [ih (j + 1) (by omega)] at hp
        rw [hp, List.drop_eq_getElem_cons hlt]
        rw [List.getElem?_eq_getElem hlt] at h2
        simp only [Option.some.injEq] at h2
        rw [h2]
    · intro h
      have hlt : j < stack.length := by
        by_contra hn
        rw [List.drop_eq_nil_of_le (by omega)] at h
        simp at h
      rw [List.drop_eq_getElem_cons hlt] at h
      obtain ⟨rfl, h'⟩ := List.cons.inj h
      refine .cons (q := chain size q0 (j + 1)) ?_ ((ih (j + 1) (by omega)).2 h')
      exact (h1 _).2 ⟨j, _, List.getElem?_eq_getElem hlt, rfl⟩

/-- The automaton built for `⟨q0, stack⟩` accepts exactly that configuration. -/
theorem single_lang [Zero W] (size q0 : Nat) (hq : q0 < size) (stack : List Nat) (q : Nat) (w : List Nat)
    (hq' : q < size) :
    Accepted (· ∈ keys (single (W := W) size q0 stack).edges)
      (fun f => (single (W := W) size q0 stack).isAcc f = true) (q, w) ↔ q = q0 ∧ w = stack := by
  obtain ⟨h1, h2, _⟩ := single_spec (W := W) size q0 stack
  have hp := single_path (W := W) size q0 hq stack 0 (Nat.zero_le _) w
  simp only [List.drop_zero] at hp
  have hc0 : chain size q0 0 = q0 := rfl
  rw [hc0] at hp
  constructor
  · rintro ⟨f, hf, hF⟩
    rw [h2 f hq] at hF
    subst hF
    have hqq : q = q0 := by
      dsimp only at hf
      generalize hy : chain size q0 stack.length = y at hf
      cases hf with
      | nil =>
        unfold chain at hy
        split at hy <;> omega
      | cons he _ =>
        obtain ⟨j, g, _, h4⟩ := (h1 _).1 he
        simp only [Tr.mk.injEq] at h4
        have := h4.1
        unfold chain at this
        split at this <;> omega
    subst hqq
    exact ⟨rfl, hp.1 hf⟩
  · rintro ⟨rfl, rfl⟩
    exact ⟨_, hp.2 rfl, (h2 _ hq).2 rfl⟩

/-! ## Union -/

/-- The renaming of the states of the second automaton. -/
def shift (size off q : Nat) : Nat := if q < size then q else q + off

theorem orEdges_spec (b : Aut W) (src size off : Nat) (ts : List Tr) (hts : ∀ t ∈ ts, t ∈ keys b.edges)
    (a : Aut W) :
    (∀ u, u ∈ keys (ts.foldl (orEdge size off src b) a).edges ↔ u ∈ keys a.edges ∨
        ∃ t ∈ ts, u = ⟨src, t.label, shift size off t.dst⟩) ∧
    (ts.foldl (orEdge size off src b) a).acc = a.acc := by
  induction ts generalizing a with
  | nil => simp
  | cons t ts ih =>
    obtain ⟨x, hx⟩ : ∃ x, b.getEdge t = some x := by
      have := hts t (by simp)
      obtain ⟨e, he, rfl⟩ := List.mem_map.1 this
      unfold getEdge
      cases hf : b.edges.find? (fun e' => e'.1 == e.1) with
      | none =>
        rw [List.find?_eq_none] at hf
        exact absurd (by simp) (hf e he)
      | some y => exact ⟨_, rfl⟩
    rw [List.foldl_cons]
    simp only [orEdge, hx]
    obtain ⟨h1, h2⟩ := ih (fun t' ht' => hts t' (by simp [ht']))
      (a.emplaceEdge ⟨src, t.label, if t.dst < size then t.dst else t.dst + off⟩ x)
    refine ⟨fun u => ?_, by rw [h2]; simp⟩
    rw [h1, keys_emplaceEdge]
    simp only [List.mem_cons, exists_eq_or_imp, shift, or_assoc]

theorem orRound_spec (h : HashOrder) (size off : Nat) (b a : Aut W) (i : Nat) (hsize : size ≤ a.n)
    (hi : size ≤ i → a.n = i + off) :
    (∀ u, u ∈ keys (orRound h size off b a i).edges ↔ u ∈ keys a.edges ∨
        ∃ t ∈ keys b.edges, t.src = i ∧ u = ⟨shift size off i, t.label, shift size off t.dst⟩) ∧
    (∀ q, (orRound h size off b a i).isAcc q = (a.isAcc q || (b.isAcc i && q == shift size off i))) ∧
    (orRound h size off b a i).n = if i ≥ size then a.n + 1 else a.n := by
  unfold orRound
  simp only
  have hsrc : (if i ≥ size then a.n else i) = shift size off i := by
    unfold shift
    by_cases h1 : i < size
    · rw [if_neg (by omega), if_pos h1]
    · rw [if_pos (by omega), if_neg h1, hi (by omega)]
  rw [hsrc]
  obtain ⟨h1, h2⟩ := orEdges_spec b (shift size off i) size off (b.out h i)
    (fun t ht => ((b.mem_out h i t).1 ht).1)
    (if i ≥ size then a.addState (b.isAcc i)
      else if !a.isAcc i && b.isAcc i then a.setAccepting i else a)
  refine ⟨fun u => ?_, fun q => ?_, ?_⟩
  · rw [h1]
    have e : keys (if i ≥ size then a.addState (b.isAcc i)
      else if !a.isAcc i && b.isAcc i then a.setAccepting i else a).edges = keys a.edges := by
      split
      · rfl
      · split <;> rfl
    rw [e]
    refine or_congr Iff.rfl ?_
    constructor
    · rintro ⟨t, ht, rfl⟩
      obtain ⟨h3, h4⟩ := (b.mem_out h i t).1 ht
      exact ⟨t, h3, h4, rfl⟩
    · rintro ⟨t, h3, h4, rfl⟩
      exact ⟨t, (b.mem_out h i t).2 ⟨h3, h4⟩, rfl⟩
  · rw [isAcc_congr h2]
    by_cases h3 : i ≥ size
    · rw [if_pos h3, isAcc_addState]
      have e : shift size off i = a.n := by rw [← hsrc, if_pos h3]
      rw [e]
      by_cases h4 : q = a.n
      · subst h4
        have : a.isAcc a.n = false := by
          rw [Bool.eq_false_iff]; intro h5; have := isAcc_lt h5; omega
        simp [this]
      · simp [h4]
    · rw [if_neg h3]
      have e : shift size off i = i := by rw [← hsrc, if_neg h3]
      rw [e]
      split
      · rename_i h4
        simp only [Bool.and_eq_true, Bool.not_eq_true'] at h4
        rw [isAcc_setAccepting _ _ _ (by omega), h4.2]
        simp
      · rename_i h4
        by_cases h5 : q = i
        · subst h5
          cases hx : a.isAcc q <;> cases hy : b.isAcc q <;> simp_all
        · simp [h5]
  · unfold n at *
    rw [h2]
    by_cases h3 : i ≥ size
    · simp [h3, addState]
    · rw [if_neg h3, if_neg h3]
      split
      · simp [setAccepting]
      · rfl

theorem orExtend_spec (h : HashOrder) (size : Nat) (a b : Aut W) (hsa : size ≤ a.n) (hsb : size ≤ b.n)
    (hb : ∀ t ∈ keys b.edges, t.src < b.n) :
    (∀ u, u ∈ keys (orExtend h size a b).edges ↔ u ∈ keys a.edges ∨
        ∃ t ∈ keys b.edges, u = ⟨shift size (a.n - size) t.src, t.label, shift size (a.n - size) t.dst⟩) ∧
    (∀ q, (orExtend h size a b).isAcc q = true ↔
      a.isAcc q = true ∨ ∃ q', b.isAcc q' = true ∧ q = shift size (a.n - size) q') := by
  unfold orExtend
  have key : ∀ m, m ≤ b.n →
      (∀ u, u ∈ keys ((List.range m).foldl (orRound h size (a.n - size) b) a).edges ↔ u ∈ keys a.edges ∨
        ∃ t ∈ keys b.edges, t.src < m ∧
          u = ⟨shift size (a.n - size) t.src, t.label, shift size (a.n - size) t.dst⟩) ∧
      (∀ q, ((List.range m).foldl (orRound h size (a.n - size) b) a).isAcc q = true ↔
        a.isAcc q = true ∨ ∃ q', q' < m ∧ b.isAcc q' = true ∧ q = shift size (a.n - size) q') ∧
      ((List.range m).foldl (orRound h size (a.n - size) b) a).n = a.n + (m - size) := by
    intro m hm
    induction m with
    | zero => simp
    | succ m ih =>
      obtain ⟨h1, h2, h3⟩ := ih (by omega)
      rw [List.range_succ, List.foldl_append, List.foldl_cons, List.foldl_nil]
      obtain ⟨g1, g2, g3⟩ := orRound_spec h size (a.n - size) b
        ((List.range m).foldl (orRound h size (a.n - size) b) a) m (by omega) (by omega)
      refine ⟨fun u => ?_, fun q => ?_, ?_⟩
      · rw [g1, h1, or_assoc]
        refine or_congr Iff.rfl ?_
        constructor
        · rintro (⟨t, h4, h5, rfl⟩ | ⟨t, h4, rfl, rfl⟩)
          · exact ⟨t, h4, by omega, rfl⟩
          · exact ⟨t, h4, by omega, rfl⟩
        · rintro ⟨t, h4, h5, rfl⟩
          by_cases h6 : t.src = m
          · subst h6; exact .inr ⟨t, h4, rfl, rfl⟩
          · exact .inl ⟨t, h4, by omega, rfl⟩
      · rw [g2, Bool.or_eq_true, h2, or_assoc]
        refine or_congr Iff.rfl ?_
        simp only [Bool.and_eq_true, beq_iff_eq]
        constructor
        · rintro (⟨q', h4, h5, rfl⟩ | ⟨h4, rfl⟩)
          · exact ⟨q', by omega, h5, rfl⟩
          · exact ⟨m, by omega, h4, rfl⟩
        · rintro ⟨q', h4, h5, rfl⟩
          by_cases h6 : q' = m
          · subst h6; exact .inr ⟨h5, rfl⟩
          · exact .inl ⟨q', by omega, h5, rfl⟩
      · rw [g3, h3]
        split <;> omega
  obtain ⟨h1, h2, _⟩ := key b.n (Nat.le_refl _)
  refine ⟨fun u => ?_, fun q => ?_⟩
  · rw [h1]
    refine or_congr Iff.rfl ?_
    constructor
    · rintro ⟨t, h4, _, rfl⟩; exact ⟨t, h4, rfl⟩
    · rintro ⟨t, h4, rfl⟩; exact ⟨t, h4, hb t h4, rfl⟩
  · rw [h2]
    refine or_congr Iff.rfl ?_
    constructor
    · rintro ⟨q', _, h5, rfl⟩; exact ⟨q', h5, rfl⟩
    · rintro ⟨q', h5, rfl⟩; exact ⟨q', isAcc_lt h5, h5, rfl⟩

theorem orExtend_lang (h : HashOrder) (size : Nat) (a b : Aut W) (hsa : size ≤ a.n) (hsb : size ≤ b.n)
    (ha : ∀ t ∈ keys a.edges, t.src < a.n ∧ t.dst < a.n ∧ size ≤ t.dst)
    (hb : ∀ t ∈ keys b.edges, t.src < b.n ∧ t.dst < b.n ∧ size ≤ t.dst) (q : Nat) (w : List Nat)
    (hq : q < size) :
    Accepted (· ∈ keys (orExtend h size a b).edges) (fun f => (orExtend h size a b).isAcc f = true) (q, w) ↔
      Accepted (· ∈ keys a.edges) (fun f => a.isAcc f = true) (q, w) ∨
      Accepted (· ∈ keys b.edges) (fun f => b.isAcc f = true) (q, w) := by
  obtain ⟨h1, h2⟩ := orExtend_spec h size a b hsa hsb (fun t ht => (hb t ht).1)
  have hsh : ∀ x, x < size → shift size (a.n - size) x = x := fun x hx => by simp [shift, hx]
  have hsh2 : ∀ x, size ≤ x → shift size (a.n - size) x = x + (a.n - size) := fun x hx => by
    rw [shift, if_neg (by omega)]
  -- paths within the first part
  have pa : ∀ q w f, Path (· ∈ keys (orExtend h size a b).edges) q w f → size ≤ q → q < a.n →
      Path (· ∈ keys a.edges) q w f ∧ f < a.n ∧ size ≤ f := by
    intro q w f hp
    induction hp with
    | nil q => exact fun h3 h4 => ⟨.nil q, h4, h3⟩
    | cons he _ ih =>
      intro h3 h4
      rcases (h1 _).1 he with h5 | ⟨t, h5, h6⟩
      · obtain ⟨g1, g2⟩ := ih (ha _ h5).2.2 (ha _ h5).2.1
        exact ⟨.cons h5 g1, g2⟩
      · simp only [Tr.mk.injEq] at h6
        have := h6.1
        unfold shift at this
        split at this <;> omega
  have pb : ∀ q w f, Path (· ∈ keys (orExtend h size a b).edges) q w f → ∀ q', size ≤ q' →
      q = shift size (a.n - size) q' → ∃ f', f = shift size (a.n - size) f' ∧ size ≤ f' ∧
        Path (· ∈ keys b.edges) q' w f' := by
    intro q w f hp
    induction hp with
    | nil q => exact fun q' h3 h4 => ⟨q', h4, h3, .nil q'⟩
    | cons he _ ih =>
      intro q' h3 h4
      rcases (h1 _).1 he with h5 | ⟨t, h5, h6⟩
      · have := (ha _ h5).1
        rw [hsh2 q' h3] at h4
        dsimp only at this
        omega
      · simp only [Tr.mk.injEq] at h6
        obtain ⟨h7, rfl, h9⟩ := h6
        have e : t.src = q' := by
          rw [h4] at h7
          unfold shift at h7
          split at h7 <;> split at h7 <;> omega
        obtain ⟨f', g1, g2, g3⟩ := ih t.dst (hb _ h5).2.2 h9
        subst e
        exact ⟨f', g1, g2, .cons h5 g3⟩
  have ra : ∀ q w f, Path (· ∈ keys a.edges) q w f → Path (· ∈ keys (orExtend h size a b).edges) q w f := by
    intro q w f hp
    induction hp with
    | nil q => exact .nil q
    | cons he _ ih => exact .cons ((h1 _).2 (.inl he)) ih
  have rb : ∀ q w f, Path (· ∈ keys b.edges) q w f →
      Path (· ∈ keys (orExtend h size a b).edges) (shift size (a.n - size) q) w
        (shift size (a.n - size) f) := by
    intro q w f hp
    induction hp with
    | nil q => exact .nil _
    | cons he _ ih => exact .cons ((h1 _).2 (.inr ⟨_, he, rfl⟩)) ih
  constructor
  · rintro ⟨f, hp, hf⟩
    rw [h2] at hf
    dsimp only at hp
    cases hp with
    | nil =>
      rcases hf with hf | ⟨q', h3, h4⟩
      · exact .inl ⟨q, .nil q, hf⟩
      · have : q' = q := by unfold shift at h4; split at h4 <;> omega
        subst this
        exact .inr ⟨q', .nil q', h3⟩
    | cons he hp =>
      rcases (h1 _).1 he with h5 | ⟨t, h5, h6⟩
      · obtain ⟨g1, g2, g3⟩ := pa _ _ _ hp (ha _ h5).2.2 (ha _ h5).2.1
        rcases hf with hf | ⟨q', h3, h4⟩
        · exact .inl ⟨f, .cons h5 g1, hf⟩
        · exfalso
          unfold shift at h4; split at h4 <;> omega
      · simp only [Tr.mk.injEq] at h6
        obtain ⟨h7, rfl, h9⟩ := h6
        have e : t.src = q := by unfold shift at h7; split at h7 <;> omega
        obtain ⟨f', g1, g2, g3⟩ := pb _ _ _ hp t.dst (hb _ h5).2.2 h9
        rcases hf with hf | ⟨q', h3, h4⟩
        · have := isAcc_lt hf
          rw [g1, hsh2 f' g2] at this
          omega
        · have : f' = q' := by
            rw [g1] at h4
            unfold shift at h4; split at h4 <;> split at h4 <;> omega
          subst this
          subst e
          exact .inr ⟨f', .cons h5 g3, h3⟩
  · rintro (⟨f, hp, hf⟩ | ⟨f, hp, hf⟩)
    · exact ⟨f, ra _ _ _ hp, (h2 f).2 (.inl hf)⟩
    · have := rb _ _ _ hp
      dsimp only at this
      rw [hsh q hq] at this
      exact ⟨_, this, (h2 _).2 (.inr ⟨f, hf, rfl⟩)⟩

end Aut

end Verif
