import Verif.Proofs.Utils
import Mathlib.Order.Basic
import Mathlib.Data.Nat.Basic
import Mathlib.Data.List.TakeWhile

/-!
# C35-C38: `fut_set`, `priority_set`, `is_disjoint`, flags
-/

namespace Verif.Props

/-! ## C35 -/

section
variable {K V : Type} [DecidableEq K]

/-- A mutating call on a `fut_set` with `n + 1` key components. -/
structure FutOp (K V : Type) where
  /-- `insert_or_assign`, otherwise `emplace`. -/
  assign : Bool
  head : K
  tail : List K
  value : V

/-- Specification: a finite map from tuples. -/
def futSpec (f : List K → Option V) (o : FutOp K V) : List K → Option V :=
  fun x => if x = o.head :: o.tail then
    (match o.assign, f x with
      | true, _ => some o.value
      | false, some v => some v
      | false, none => some o.value)
    else f x

/-- The model of the call. -/
def futRun (lt : K → K → Bool) (c : Kind) (cs : List Kind) (m : Fut K V cs) (o : FutOp K V) :
    Fut K V cs × Bool := Fut.put lt o.assign c cs m o.head o.tail o.value

/-- C35: a `fut_set` with any nesting of containers behaves as one finite map from key tuples: after
any sequence of `emplace` and `insert_or_assign` calls, `get` returns what the map holds, `contains`
says whether it holds anything, and the next call says whether its key was new. -/
theorem c35_fut_set (lt : K → K → Bool) (hl : StrictTotal lt) (c : Kind) (cs : List Kind)
    (ops : List (FutOp K V)) (hops : ∀ o ∈ ops, o.tail.length = cs.length) :
    let m := ops.foldl (fun m o => (futRun lt c cs m o).1) (Fut.empty cs : Fut K V cs)
    let f := ops.foldl futSpec (fun _ => none)
    (∀ k ks, ks.length = cs.length → Fut.get lt c cs m k ks = f (k :: ks)) ∧
    (∀ k ks, ks.length = cs.length → Fut.contains lt c cs m k ks = (f (k :: ks)).isSome) ∧
    (∀ o : FutOp K V, o.tail.length = cs.length →
      (futRun lt c cs m o).2 = (f (o.head :: o.tail)).isNone) := by
  intro m f
  have h : Fut.OK lt c cs m ∧
      ∀ k ks, ks.length = cs.length → Fut.get lt c cs m k ks = f (k :: ks) := by
    suffices h : ∀ (ops : List (FutOp K V)) (m : Fut K V cs) (f : List K → Option V),
        (∀ o ∈ ops, o.tail.length = cs.length) → Fut.OK lt c cs m →
        (∀ k ks, ks.length = cs.length → Fut.get lt c cs m k ks = f (k :: ks)) →
        Fut.OK lt c cs (ops.foldl (fun m o => (futRun lt c cs m o).1) m) ∧
        ∀ k ks, ks.length = cs.length →
          Fut.get lt c cs (ops.foldl (fun m o => (futRun lt c cs m o).1) m) k ks =
            ops.foldl futSpec f (k :: ks) from
      h ops _ _ hops (Fut.OK.empty c cs) (fun k ks _ => Fut.get_empty c cs k ks)
    intro ops
    induction ops with
    | nil => exact fun m f _ h1 h2 => ⟨h1, h2⟩
    | cons o ops ih =>
      intro m f ho h1 h2
      have hlen := ho o (by simp)
      obtain ⟨p1, p2, p3⟩ := Fut.put_spec hl o.assign c cs m h1 o.head o.tail hlen o.value
      refine ih _ _ (fun o' ho' => ho o' (List.mem_cons_of_mem _ ho')) p1 ?_
      intro k ks hks
      show Fut.get lt c cs (Fut.put lt o.assign c cs m o.head o.tail o.value).1 k ks = _
      rw [p3 k ks hks, h2 k ks hks, h2 _ _ hlen]
      unfold futSpec
      by_cases hk : k = o.head ∧ ks = o.tail
      · obtain ⟨rfl, rfl⟩ := hk
        simp only [and_self, if_true]
        cases ha : o.assign <;> cases hf : f (o.head :: o.tail) <;> simp
      · rw [if_neg hk, if_neg (by simpa using hk)]
  obtain ⟨h1, h2⟩ := h
  refine ⟨h2, fun k ks hks => ?_, fun o ho => ?_⟩
  · rw [Fut.contains_eq hl c cs m h1, h2 k ks hks]
  · have := (Fut.put_spec hl o.assign c cs m h1 o.head o.tail ho o.value).2.1
    rw [h2 _ _ ho] at this
    exact this

/-- Two levels, hash over vector, as the transitions of an automaton state: `emplace` keeps the first
value, `insert_or_assign` replaces it. -/
example :
    let m0 : Fut Nat Nat [.vector] := Fut.empty [.vector]
    let m1 := (Fut.put natLt false .hash _ m0 3 [5] 10).1
    let m2 := (Fut.put natLt false .hash _ m1 3 [5] 20).1
    let m3 := (Fut.put natLt true .hash _ m2 3 [4] 30).1
    let m4 := (Fut.put natLt true .hash _ m3 3 [5] 40).1
    Fut.get natLt .hash _ m2 3 [5] = some 10 ∧ Fut.get natLt .hash _ m3 3 [4] = some 30 ∧
    Fut.get natLt .hash _ m4 3 [5] = some 40 ∧ Fut.contains natLt .hash _ m4 5 [3] = false := by decide

end

/-! ## C36 -/

section
variable {W E : Type}

/-- Runs of a `priority_set` from the empty one: what has been inserted and what has been popped, most
recent first. `ok` is a condition on inserting an element that was popped before. -/
inductive PRun (lt : W → W → Bool) (ok : List (W × E) → W → Prop) :
    List (W × E) → List (W × E) → PSet W E → Prop where
  | init : PRun lt ok [] [] ⟨[], []⟩
  | emplace {ins pops s s' w e} : PRun lt ok ins pops s → PSet.Emplace lt w e s s' →
      (e ∈ pops.map (·.2) → ok s.queue w) → PRun lt ok ((w, e) :: ins) pops s'
  | pop {ins pops s s' x} : PRun lt ok ins pops s → PSet.Pop lt x s s' → PRun lt ok ins (x :: pops) s'

/-- The queue is not empty. -/
def NotEmpty (q : List (W × E)) (_ : W) : Prop := q ≠ []

/-- The queue is not empty, and its top does not compare less than the new weight. -/
def NotTop (lt : W → W → Bool) (q : List (W × E)) (w : W) : Prop :=
  ∃ x r, q = x :: r ∧ lt x.1 w = false

/-- The invariant behind C36. -/
structure PInv36 (lt : W → W → Bool) (ins pops : List (W × E)) (s : PSet W E) : Prop where
  nodup : (pops.map (·.2)).Nodup
  seen : ∀ e, e ∈ s.seen ↔ e ∈ pops.map (·.2)
  sub : ∀ x ∈ s.queue, x ∈ ins
  keep : ∀ x ∈ ins, x.2 ∉ pops.map (·.2) → x ∈ s.queue
  top : ∀ x, s.queue.head? = some x → x.2 ∉ pops.map (·.2)
  best : ∀ x y, s.queue.head? = some x → y ∈ s.queue → lt x.1 y.1 = false

theorem drain_spec {lt : W → W → Bool} {seen : List E} {q r : List (W × E)}
    (h : PSet.Drain lt seen q r)
    (hq : ∀ x y, q.head? = some x → y ∈ q → lt x.1 y.1 = false) :
    (∀ x ∈ r, x ∈ q) ∧ (∀ x ∈ q, x.2 ∉ seen → x ∈ r) ∧ (∀ x, r.head? = some x → x.2 ∉ seen) ∧
      ∀ x y, r.head? = some x → y ∈ r → lt x.1 y.1 = false := by
  induction h with
  | nil => exact ⟨fun x h => h, fun x h _ => h, fun x h => (by cases h), hq⟩
  | stop hs =>
    exact ⟨fun x h => h, fun x h _ => h, fun x h => (by cases h; exact hs), hq⟩
  | next hs hp _ ih =>
    obtain ⟨h1, h2, h3, h4⟩ := ih hp.2
    refine ⟨fun x hx => List.mem_cons_of_mem _ (hp.1.mem_iff.1 (h1 x hx)), fun x hx hn => ?_, h3, h4⟩
    rcases List.mem_cons.1 hx with rfl | hx
    · exact absurd hs hn
    · exact h2 x (hp.1.mem_iff.2 hx) hn

theorem pinv36 {lt : W → W → Bool} {ins pops : List (W × E)} {s : PSet W E}
    (h : PRun lt (NotTop lt) ins pops s) : PInv36 lt ins pops s := by
  induction h with
  | init => exact ⟨List.nodup_nil, by simp, by simp, by simp, by simp, by simp⟩
  | @emplace ins pops s s' w e _ he hok ih =>
    obtain ⟨⟨hp, hb⟩, hs, hh⟩ := he
    refine ⟨ih.nodup, by rw [hs]; exact ih.seen, ?_, ?_, ?_, hb⟩
    · intro x hx
      rcases List.mem_cons.1 (hp.mem_iff.1 hx) with rfl | hx
      · exact List.mem_cons_self
      · exact List.mem_cons_of_mem _ (ih.sub x hx)
    · intro x hx hn
      refine hp.mem_iff.2 ?_
      rcases List.mem_cons.1 hx with rfl | hx
      · exact List.mem_cons_self
      · exact List.mem_cons_of_mem _ (ih.keep x hx hn)
    · intro x hx
      rw [hh] at hx
      cases hq : s.queue with
      | nil =>
        rw [hq] at hx
        cases hx
        intro hm
        obtain ⟨y, r, h1, -⟩ := hok hm
        rw [hq] at h1
        cases h1
      | cons y r =>
        rw [hq] at hx
        have hy : y.2 ∉ pops.map (·.2) := ih.top y (by rw [hq]; rfl)
        by_cases hlt : lt y.1 w = true
        · simp only [hlt, if_true, Option.some.injEq] at hx
          subst hx
          intro hm
          obtain ⟨z, r', h1, h2⟩ := hok hm
          rw [hq] at h1
          cases h1
          rw [hlt] at h2
          cases h2
        · simp only [hlt, Bool.false_eq_true, if_false, Option.some.injEq] at hx
          subst hx
          exact hy
  | @pop ins pops s s' x _ hpop ih =>
    obtain ⟨q, q', hq, hheap, hs, hd⟩ := hpop
    have hx : x.2 ∉ pops.map (·.2) := ih.top x (by rw [hq]; rfl)
    obtain ⟨h1, h2, h3, h4⟩ := drain_spec hd hheap.2
    have hseen : ∀ e, e ∈ s'.seen ↔ e ∈ (x :: pops).map (·.2) := by
      intro e
      rw [hs, List.map_cons, List.mem_cons, List.mem_cons, ih.seen]
    refine ⟨?_, hseen, ?_, ?_, ?_, h4⟩
    · rw [List.map_cons, List.nodup_cons]
      exact ⟨hx, ih.nodup⟩
    · intro y hy
      exact ih.sub y (by rw [hq]; exact List.mem_cons_of_mem _ (hheap.1.mem_iff.1 (h1 y hy)))
    · intro y hy hn
      refine h2 y (hheap.1.mem_iff.2 ?_) (fun hc => hn ((hseen _).1 hc))
      have hn' : y.2 ∉ pops.map (·.2) := fun hc => hn (by rw [List.map_cons]; exact List.mem_cons_of_mem _ hc)
      have := ih.keep y hy hn'
      rw [hq] at this
      rcases List.mem_cons.1 this with rfl | h
      · exact absurd (by simp) hn
      · exact h
    · intro y hy hc
      exact h3 y hy ((hseen _).2 hc)

/-- C36 (partial: an element popped before must not be inserted with a weight better than the top, see
`c36_pops_twice`): the popped elements are distinct, the next pop returns an inserted element that was
not popped and has best weight among all elements not yet popped, and the queue is empty only when
every inserted element was popped. -/
theorem c36_priority_set_partial (lt : W → W → Bool) (ins pops : List (W × E)) (s : PSet W E)
    (h : PRun lt (NotTop lt) ins pops s) :
    (pops.map (·.2)).Nodup ∧
    (∀ x s', PSet.Pop lt x s s' → x ∈ ins ∧ x.2 ∉ pops.map (·.2) ∧
      ∀ y ∈ ins, y.2 ∉ pops.map (·.2) → lt x.1 y.1 = false) ∧
    (s.queue = [] → ∀ y ∈ ins, y.2 ∈ pops.map (·.2)) := by
  have i := pinv36 h
  refine ⟨i.nodup, ?_, ?_⟩
  · rintro x s' ⟨q, q', hq, -⟩
    refine ⟨i.sub x (by rw [hq]; simp), i.top x (by rw [hq]; rfl), fun y hy hn => ?_⟩
    exact i.best x y (by rw [hq]; rfl) (i.keep y hy hn)
  · intro hq y hy
    by_contra hn
    have := i.keep y hy hn
    rw [hq] at this
    cases this

/-- C36 fails as stated: an element popped before that is inserted into a queue that is not empty, with
a better weight than the top, is popped again (in a build with assertions, `pop` aborts instead). -/
theorem c36_pops_twice : ∃ (ins pops : List (Nat × Nat)) (s : PSet Nat Nat),
    PRun natLt NotEmpty ins pops s ∧ ¬ (pops.map (·.2)).Nodup := by
  refine ⟨[(3, 7), (1, 8), (5, 7)], [(3, 7), (5, 7)], ⟨[(1, 8)], [7, 7]⟩, ?_, by decide⟩
  have s1 : PRun natLt NotEmpty [(5, 7)] [] ⟨[(5, 7)], []⟩ :=
    .emplace .init ⟨⟨List.Perm.refl _, by simp [natLt] <;> try omega⟩, rfl, rfl⟩ (by simp)
  have s2 : PRun natLt NotEmpty [(1, 8), (5, 7)] [] ⟨[(5, 7), (1, 8)], []⟩ :=
    .emplace s1 ⟨⟨List.Perm.swap _ _ _, by simp [natLt] <;> omega⟩, rfl, rfl⟩ (by simp)
  have s3 : PRun natLt NotEmpty [(1, 8), (5, 7)] [(5, 7)] ⟨[(1, 8)], [7]⟩ :=
    .pop s2 ⟨[(1, 8)], [(1, 8)], rfl, ⟨List.Perm.refl _, by simp [natLt] <;> try omega⟩, rfl, .stop (by decide)⟩
  have s4 : PRun natLt NotEmpty [(3, 7), (1, 8), (5, 7)] [(5, 7)] ⟨[(3, 7), (1, 8)], [7]⟩ :=
    .emplace s3 ⟨⟨List.Perm.refl _, by simp [natLt] <;> try omega⟩, rfl, rfl⟩ (by simp [NotEmpty])
  exact .pop s4 ⟨[(1, 8)], [(1, 8)], rfl, ⟨List.Perm.refl _, by simp [natLt] <;> try omega⟩, rfl, .stop (by decide)⟩

/-- The condition of `c36_priority_set_partial` is met by a run that inserts an element three times. -/
example : PRun natLt (NotTop natLt) [(2, 7), (4, 8), (3, 7), (5, 7)] [(5, 7)] ⟨[(4, 8), (2, 7)], [7]⟩ := by
  have s1 : PRun natLt (NotTop natLt) [(5, 7)] [] ⟨[(5, 7)], []⟩ :=
    .emplace .init ⟨⟨List.Perm.refl _, by simp [natLt] <;> try omega⟩, rfl, rfl⟩ (by simp)
  have s2 : PRun natLt (NotTop natLt) [(3, 7), (5, 7)] [] ⟨[(5, 7), (3, 7)], []⟩ :=
    .emplace s1 ⟨⟨List.Perm.swap _ _ _, by simp [natLt] <;> omega⟩, rfl, rfl⟩ (by simp)
  have s3 : PRun natLt (NotTop natLt) [(3, 7), (5, 7)] [(5, 7)] ⟨[], [7]⟩ :=
    .pop s2 ⟨[(3, 7)], [(3, 7)], rfl, ⟨List.Perm.refl _, by simp [natLt] <;> try omega⟩, rfl,
      .next (by decide) ⟨List.Perm.refl _, by simp⟩ .nil⟩
  have s4 : PRun natLt (NotTop natLt) [(4, 8), (3, 7), (5, 7)] [(5, 7)] ⟨[(4, 8)], [7]⟩ :=
    .emplace s3 ⟨⟨List.Perm.refl _, by simp [natLt] <;> try omega⟩, rfl, rfl⟩ (by simp)
  exact .emplace s4 ⟨⟨List.Perm.swap _ _ _, by simp [natLt] <;> omega⟩, rfl, rfl⟩
    (fun _ => ⟨_, _, rfl, by decide⟩)

end

/-! ## C37 -/

section
variable {α β K : Type} [LinearOrder K]

/-- C37: on vectors sorted by a key, `is_disjoint` holds exactly if no element of one has the key of an
element of the other. (Vectors of one type are compared by the elements themselves.) -/
theorem c37_is_disjoint (f : α → K) (g : β → K) (a : List α) (b : List β)
    (ha : a.Pairwise fun x y => f x ≤ f y) (hb : b.Pairwise fun x y => g x ≤ g y) :
    isDisjoint (fun x y => decide (f x < g y)) (fun y x => decide (g y < f x)) a b = true ↔
      ∀ x ∈ a, ∀ y ∈ b, f x ≠ g y := by
  fun_induction isDisjoint (fun x y => decide (f x < g y)) (fun y x => decide (g y < f x)) a b with
  | case1 b => simp
  | case2 x as => simp
  | case3 x as y bs h ih =>
    rw [List.pairwise_cons] at ha
    have h' : f x < g y := by simpa using h
    have hs : (as.drop (lowerBound (fun x y => decide (f x < g y)) as y)).Sublist as :=
      List.drop_sublist _ _
    rw [ih (ha.2.sublist hs) hb]
    constructor
    · intro H z hz w hw heq
      have hyw : g y ≤ g w := by
        rcases List.mem_cons.1 hw with rfl | hw
        · exact le_refl _
        · exact (List.pairwise_cons.1 hb).1 w hw
      rcases List.mem_cons.1 hz with rfl | hz
      · exact absurd (heq ▸ h') (not_lt_of_ge hyw)
      · rw [drop_lowerBound] at H
        have : z ∈ as.takeWhile (fun a => decide (f a < g y)) ∨
            z ∈ as.dropWhile (fun a => decide (f a < g y)) := by
          rw [← List.mem_append, List.takeWhile_append_dropWhile]
          exact hz
        rcases this with h1 | h1
        · have := List.mem_takeWhile_imp h1
          simp only [decide_eq_true_eq] at this
          exact absurd (heq ▸ this) (not_lt_of_ge hyw)
        · exact H z h1 w hw heq
    · intro H z hz
      exact H z (List.mem_cons_of_mem _ (hs.mem hz))
  | case4 x as y bs h1 h2 ih =>
    have hb' := List.pairwise_cons.1 hb
    have h' : g y < f x := by simpa using h2
    have hs : (bs.drop (lowerBound (fun y x => decide (g y < f x)) bs x)).Sublist bs :=
      List.drop_sublist _ _
    rw [ih ha (hb'.2.sublist hs)]
    constructor
    · intro H z hz w hw heq
      have hxz : f x ≤ f z := by
        rcases List.mem_cons.1 hz with rfl | hz
        · exact le_refl _
        · exact (List.pairwise_cons.1 ha).1 z hz
      rcases List.mem_cons.1 hw with rfl | hw
      · exact absurd (heq ▸ h') (not_lt_of_ge hxz)
      · rw [drop_lowerBound] at H
        have : w ∈ bs.takeWhile (fun a => decide (g a < f x)) ∨
            w ∈ bs.dropWhile (fun a => decide (g a < f x)) := by
          rw [← List.mem_append, List.takeWhile_append_dropWhile]
          exact hw
        rcases this with h1 | h1
        · have := List.mem_takeWhile_imp h1
          simp only [decide_eq_true_eq] at this
          exact absurd (heq ▸ this) (not_lt_of_ge hxz)
        · exact H z hz w h1 heq
    · intro H z hz w hw
      exact H z hz w (List.mem_cons_of_mem _ (hs.mem hw))
  | case5 x as y bs h1 h2 =>
    simp only [Bool.false_eq_true, false_iff]
    intro H
    refine H x (by simp) y (by simp) (le_antisymm ?_ ?_)
    · exact le_of_not_gt (by simpa using h2)
    · exact le_of_not_gt (by simpa using h1)

end

example : isDisjoint natLt natLt [1, 4, 4, 9] [2, 3, 8] = true ∧
    isDisjoint natLt natLt [1, 4, 9] [2, 4] = false ∧
    [1, 4, 4, 9].Pairwise (fun x y : Nat => id x ≤ id y) := by decide +kernel

/-! ## C38 -/

section
open Flags
variable {w : Nat}

theorem getLsbD_one_shift {i k : Nat} (hi : i < w) : (1#w <<< i).getLsbD k = decide (k = i) := by
  rw [BitVec.getLsbD_shiftLeft, BitVec.getLsbD_one]
  by_cases h : k = i
  · subst h
    simp
    omega
  · simp only [h, decide_false, Bool.and_eq_false_iff]
    by_cases h2 : k < i
    · left; right; simpa using h2
    · right; right; simp; omega

theorem getLsbD_mask {n k : Nat} (hn : n < w) : (1#w <<< n - 1#w).getLsbD k = decide (k < n) := by
  have hp : 2 ^ n < 2 ^ w := Nat.pow_lt_pow_right (by decide) hn
  have h1 : 1 ≤ 2 ^ n := Nat.one_le_two_pow
  have hw : 1 < 2 ^ w := Nat.one_lt_two_pow (by omega)
  have : (1#w <<< n - 1#w).toNat = 2 ^ n - 1 := by
    rw [BitVec.toNat_sub, BitVec.toNat_shiftLeft, BitVec.toNat_ofNat, Nat.mod_eq_of_lt hw,
      Nat.one_shiftLeft, Nat.mod_eq_of_lt hp]
    have e : 2 ^ w - 1 + 2 ^ n = 2 ^ n - 1 + 2 ^ w := by omega
    rw [e, Nat.add_mod_right, Nat.mod_eq_of_lt (by omega)]
  rw [BitVec.getLsbD, this, Nat.testBit_two_pow_sub_one]

theorem getLsbD_fill {N n k : Nat} (hN : N ≤ w) (hn : n ≤ N) :
    (fill N n : BitVec w).getLsbD k = decide (k < n) := by
  unfold fill
  by_cases h0 : n = 0
  · simp [h0]
  · rw [if_neg h0]
    by_cases hnN : n = N
    · rw [if_pos hnN, BitVec.getLsbD_or, getLsbD_one_shift (by omega), getLsbD_mask (by omega)]
      rw [← Bool.decide_or]
      congr 1
      simp only [eq_iff_iff]
      omega
    · rw [if_neg hnN, getLsbD_mask (by omega)]

theorem contains_flag {mask : BitVec w} {i : Nat} (hi : i < w) :
    contains mask (1#w <<< i) = mask.getLsbD i := by
  unfold contains
  rw [Bool.eq_iff_iff, beq_iff_eq]
  constructor
  · intro h
    have := congrArg (fun b => BitVec.getLsbD b i) h
    simp only [BitVec.getLsbD_and, getLsbD_one_shift hi, decide_true, Bool.and_true] at this
    exact this
  · intro h
    apply BitVec.eq_of_getLsbD_eq
    intro k hk
    rw [BitVec.getLsbD_and, getLsbD_one_shift hi]
    by_cases hki : k = i
    · subst hki; simp [h]
    · simp [hki]

theorem getLsbD_got (mask : BitVec w) {i k : Nat} (hi : i < w) :
    (gotFlag mask (1#w <<< i)).getLsbD k = (mask.getLsbD k && !decide (k = i)) := by
  unfold gotFlag remove
  rw [BitVec.getLsbD_and, BitVec.getLsbD_not, getLsbD_one_shift hi]
  by_cases hk : k < w
  · simp [hk]
  · rw [BitVec.getLsbD_of_ge _ _ (by omega)]
    simp

/-- C38: a mask that starts with the flags `1..n` and has received the flags `is` needs exactly the
flags among `1..n` not received; `get_missing_flags` lists exactly those, in order, and
`has_missing_flags` tells whether there are any. `N` is the number of flags of the type and `w` the
width of `flag_t`, see `c38_width`. -/
theorem c38_flag_mask (N n : Nat) (hN : N ≤ w) (hn : n ≤ N) (is : List Nat)
    (his : ∀ i ∈ is, 1 ≤ i ∧ i ≤ N) :
    let mask : BitVec w := is.foldl (fun m i => gotFlag m (flag i)) (fill N n)
    (∀ i, 1 ≤ i → i ≤ N → (needsFlag mask (flag i) = true ↔ i ≤ n ∧ i ∉ is)) ∧
    missing N mask = ((List.range n).filter fun i => i + 1 ∉ is).map (fun i => flag (i + 1)) ∧
    (hasMissing mask = true ↔ ∃ i, 1 ≤ i ∧ i ≤ n ∧ i ∉ is) := by
  intro mask
  have hm : ∀ k, k < w → (mask.getLsbD k = true ↔ k < n ∧ k + 1 ∉ is) := by
    suffices h : ∀ (is : List Nat) (m : BitVec w), (∀ i ∈ is, 1 ≤ i ∧ i ≤ N) →
        ∀ k, ((is.foldl (fun m i => gotFlag m (flag i)) m).getLsbD k = true ↔
          m.getLsbD k = true ∧ k + 1 ∉ is) by
      intro k hk
      rw [h is _ his k, getLsbD_fill hN hn, decide_eq_true_eq]
    intro is
    induction is with
    | nil => simp
    | cons i is ih =>
      intro m h k
      obtain ⟨h1, h2⟩ := h i (by simp)
      rw [List.foldl_cons, ih _ (fun j hj => h j (List.mem_cons_of_mem _ hj))]
      have e : (flag i : BitVec w) = 1#w <<< (i - 1) := by
        unfold flag
        rw [if_neg (by omega)]
      rw [e, getLsbD_got m (by omega), Bool.and_eq_true, List.mem_cons, not_or]
      simp only [Bool.not_eq_true', decide_eq_false_iff_not]
      constructor
      · rintro ⟨⟨h3, h4⟩, h5⟩
        exact ⟨h3, by omega, h5⟩
      · rintro ⟨h3, h4, h5⟩
        exact ⟨⟨h3, by omega⟩, h5⟩
  refine ⟨?_, ?_, ?_⟩
  · intro i h1 h2
    have e : (flag i : BitVec w) = 1#w <<< (i - 1) := by
      unfold flag
      rw [if_neg (by omega)]
    unfold needsFlag
    rw [e, contains_flag (by omega), hm (i - 1) (by omega)]
    have : i - 1 + 1 = i := by omega
    rw [this]
    constructor
    · rintro ⟨h3, h4⟩; exact ⟨by omega, h4⟩
    · rintro ⟨h3, h4⟩; exact ⟨by omega, h4⟩
  · unfold missing split
    have e1 : List.range N = List.range n ++ (List.range' n (N - n)) := by
      rw [List.range_eq_range', List.range_eq_range', show List.range' n (N - n) = List.range' (0 + n) (N - n) by rw [Nat.zero_add], List.range'_append_1]
      congr 1
      omega
    rw [e1, List.filterMap_append]
    have e2 : (List.range' n (N - n)).filterMap
        (fun i => if contains mask (1#w <<< i) then some (1#w <<< i) else none) = [] := by
      rw [List.filterMap_eq_nil_iff]
      intro i hi
      rw [List.mem_range'_1] at hi
      rw [contains_flag (by omega), if_neg]
      rw [hm i (by omega)]
      omega
    rw [e2, List.append_nil]
    have key : ∀ l : List Nat, (∀ i ∈ l, i < n) → l.filterMap
        (fun i => if contains mask (1#w <<< i) then some (1#w <<< i) else none) =
        (l.filter fun i => i + 1 ∉ is).map (fun i => flag (i + 1)) := by
      intro l hl
      induction l with
      | nil => rfl
      | cons i l ih =>
        have hi := hl i (by simp)
        have ih := ih (fun j hj => hl j (List.mem_cons_of_mem _ hj))
        have hc : contains mask (1#w <<< i) = true ↔ i + 1 ∉ is := by
          rw [contains_flag (by omega), hm i (by omega)]
          simp [hi]
        by_cases hmem : i + 1 ∈ is
        · have : contains mask (1#w <<< i) = false := by
            rw [Bool.eq_false_iff, Ne, hc]
            exact fun h => h hmem
          simp [this, hmem, ih]
        · have := hc.2 hmem
          simp [this, hmem, ih, flag]
    exact key _ (fun i hi => List.mem_range.1 hi)
  · unfold hasMissing
    simp only [flag, if_true, bne_iff_ne, ne_eq]
    constructor
    · intro hne
      by_contra hno
      apply hne
      apply BitVec.eq_of_getLsbD_eq
      intro k hk
      rw [BitVec.getLsbD_zero]
      rw [Bool.eq_false_iff, Ne, hm k hk]
      rintro ⟨h1, h2⟩
      exact hno ⟨k + 1, by omega, by omega, h2⟩
    · rintro ⟨i, h1, h2, h3⟩ h0
      have := (hm (i - 1) (by omega)).2 ⟨by omega, by
        have : i - 1 + 1 = i := by omega
        rw [this]; exact h3⟩
      rw [h0, BitVec.getLsbD_zero] at this
      cases this

/-- C38: `flag_t` is wide enough for the `N` flags. -/
theorem c38_width (N : Nat) (h : N ≤ 64) : N ≤ flagWidth N := by
  unfold flagWidth
  split
  · assumption
  · split
    · assumption
    · split
      · assumption
      · exact h

/-- C38: the template and the function `fill` agree. -/
theorem c38_fill_eq (N n : Nat) (hN : N ≤ w) (hn : n ≤ N) : (fillT N n : BitVec w) = fill N n := by
  unfold fillT fill flag
  by_cases h0 : n = 0
  · simp [h0]
  · simp only [h0, if_false, if_true]
    by_cases h1 : n = N
    · rw [if_pos h1, if_pos h1]
      by_cases h2 : n - 1 = 0
      · rw [if_pos h2, h2]
        have : (1#w <<< 0 - 1#w) = 0#w := by simp
        rw [this]
      · rw [if_neg h2]
    · rw [if_neg h1, if_neg h1]

/-- C38: `is_single_flag` recognises exactly the single flags. -/
theorem c38_is_single (x : BitVec w) : isSingle x = true ↔ ∃ i, 1 ≤ i ∧ i ≤ w ∧ x = flag i := by
  have hflag : ∀ i, 1 ≤ i → (flag i : BitVec w) = 1#w <<< (i - 1) := by
    intro i hi
    unfold flag
    rw [if_neg (by omega)]
  have htoNat : ∀ i, i < w → (1#w <<< i).toNat = 2 ^ i := by
    intro i hi
    have hp : 2 ^ i < 2 ^ w := Nat.pow_lt_pow_right (by decide) hi
    have hw : 1 < 2 ^ w := Nat.one_lt_two_pow (by omega)
    rw [BitVec.toNat_shiftLeft, BitVec.toNat_ofNat, Nat.mod_eq_of_lt hw, Nat.one_shiftLeft,
      Nat.mod_eq_of_lt hp]
  have key : isSingle x = true ↔ x.toNat.isPowerOfTwo := by
    rw [← Nat.ne_zero_and_sub_one_eq_zero_iff_isPowerOfTwo]
    unfold isSingle
    rw [Bool.and_eq_true, bne_iff_ne, beq_iff_eq]
    have hz : x ≠ 0#w ↔ x.toNat ≠ 0 := by
      rw [Ne, Ne, ← BitVec.toNat_inj]
      simp
    rw [hz]
    refine and_congr_right fun hx => ?_
    have hlt : x.toNat < 2 ^ w := x.isLt
    have hw : 0 < w := by
      rcases Nat.eq_zero_or_pos w with h | h
      · subst h; simp at hlt; omega
      · exact h
    have hw' : 1 < 2 ^ w := Nat.one_lt_two_pow (by omega)
    have hs : (x - 1#w).toNat = x.toNat - 1 := by
      rw [BitVec.toNat_sub, BitVec.toNat_ofNat, Nat.mod_eq_of_lt hw']
      have e : 2 ^ w - 1 + x.toNat = x.toNat - 1 + 2 ^ w := by omega
      rw [e, Nat.add_mod_right, Nat.mod_eq_of_lt (by omega)]
    rw [← BitVec.toNat_inj, BitVec.toNat_and, hs]
    simp
  rw [key]
  constructor
  · rintro ⟨k, hk⟩
    have hlt : x.toNat < 2 ^ w := x.isLt
    rw [hk] at hlt
    have hkw : k < w := (Nat.pow_lt_pow_iff_right (by decide)).1 hlt
    refine ⟨k + 1, by omega, by omega, ?_⟩
    rw [hflag _ (by omega), ← BitVec.toNat_inj, Nat.add_sub_cancel, htoNat k hkw, hk]
  · rintro ⟨i, h1, h2, rfl⟩
    rw [hflag i h1, htoNat _ (by omega)]
    exact ⟨i - 1, rfl⟩

example : missing 5 ([2, 4, 2].foldl (fun m i => gotFlag m (flag i)) (fill 5 5 : BitVec (flagWidth 5))) =
    [flag 1, flag 3, flag 5] := by decide

end

end Verif.Props
