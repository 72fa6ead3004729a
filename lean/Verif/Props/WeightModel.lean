import Verif.Props.Weight
import Mathlib.Algebra.Order.Monoid.WithTop
import Mathlib.Algebra.Order.Group.PiLex
import Mathlib.Algebra.Order.Group.Synonym
import Mathlib.Algebra.Order.Group.Int
import Mathlib.Order.Nat
import Mathlib.Algebra.Order.Group.Defs
import Mathlib.Order.PiLex
import Mathlib.Data.Fintype.Basic

/-!
# C30: the weights of the search models

The models of the searches compute with mathematical weights: `WithTop ℕ` for unsigned weights, `WithTop (WithBot ℤ)` for signed ones, and
the opposite order to maximise. Here the weights of the code are mapped to them, and `less`, `add`, `zero`, `max` and `bottom` agree as long
as no sum overflows.
-/

namespace Verif.Props
open Verif

/-- What an unsigned weight stands for if weights are minimised. -/
def unsRep (T : NumT) (x : Int) : WithTop ℕ := if x = T.nmax then ⊤ else WithTop.some x.toNat

/-- What a weight stands for, if `top` and `bot` are the marks. -/
def markRep (top bot x : Int) : WithTop (WithBot ℤ) :=
  if x = top then ⊤ else if x = bot then ((⊥ : WithBot ℤ) : WithTop (WithBot ℤ)) else ((x : WithBot ℤ) : WithTop (WithBot ℤ))

theorem markRep_lt {top bot x y : Int} (hx : bot ≤ x ∧ x ≤ top) (hy : bot ≤ y ∧ y ≤ top) :
    markRep top bot x < markRep top bot y ↔ x < y := by
  unfold markRep
  by_cases x1 : x = top
  · rw [if_pos x1]
    constructor
    · intro h; exact absurd h not_top_lt
    · intro h; omega
  by_cases y1 : y = top
  · rw [if_neg x1, if_pos y1]
    constructor
    · intro _; omega
    · intro _
      split <;> exact WithTop.coe_lt_top _
  rw [if_neg x1, if_neg y1]
  by_cases x2 : x = bot
  · by_cases y2 : y = bot
    · rw [if_pos x2, if_pos y2, x2, y2]
      simp
    · rw [if_pos x2, if_neg y2, WithTop.coe_lt_coe]
      constructor
      · intro _; omega
      · intro _; exact WithBot.bot_lt_coe _
  · rw [if_neg x2]
    by_cases y2 : y = bot
    · rw [if_pos y2, WithTop.coe_lt_coe]
      constructor
      · intro h; exact absurd h not_lt_bot
      · intro h; omega
    · rw [if_neg y2, WithTop.coe_lt_coe, WithBot.coe_lt_coe]

theorem markRep_inj {top bot x y : Int} (hx : bot ≤ x ∧ x ≤ top) (hy : bot ≤ y ∧ y ≤ top)
    (e : markRep top bot x = markRep top bot y) : x = y := by
  have h1 := (markRep_lt hx hy).not
  have h2 := (markRep_lt hy hx).not
  rw [e] at h1 h2
  have := h1.1 (lt_irrefl _)
  have := h2.1 (lt_irrefl _)
  omega

/-- Sums, where `top` wins over `bot`. -/
theorem markRep_add {top bot x y s : Int} (h : bot < top)
    (h1 : x = top ∨ y = top → s = top) (h2 : x ≠ top → y ≠ top → x = bot ∨ y = bot → s = bot)
    (h3 : x ≠ top → y ≠ top → x ≠ bot → y ≠ bot → s = x + y ∧ s ≠ top ∧ s ≠ bot) :
    markRep top bot s = markRep top bot x + markRep top bot y := by
  unfold markRep
  by_cases x1 : x = top
  · rw [if_pos x1, if_pos (h1 (.inl x1)), WithTop.top_add]
  by_cases y1 : y = top
  · rw [if_pos y1, if_pos (h1 (.inr y1)), WithTop.add_top]
  rw [if_neg x1, if_neg y1]
  by_cases x2 : x = bot
  · have := h2 x1 y1 (.inl x2)
    rw [if_pos x2, if_neg (by omega), if_pos this]
    split <;> rw [← WithTop.coe_add, WithBot.bot_add]
  by_cases y2 : y = bot
  · have := h2 x1 y1 (.inr y2)
    rw [if_pos y2, if_neg x2, if_neg (by omega), if_pos this, ← WithTop.coe_add, WithBot.add_bot]
  obtain ⟨e, k1, k2⟩ := h3 x1 y1 x2 y2
  rw [if_neg x2, if_neg y2, if_neg k1, if_neg k2, ← WithTop.coe_add, ← WithBot.coe_add, e]

section
variable {T : NumT} (hT : T.IsInt)

include hT in
/-- C30: unsigned weights that are minimised are natural numbers and infinity. -/
theorem c30_unsigned_model (hs : T.signed = false) :
    unsRep T wZero = 0 ∧ unsRep T (wMax T false) = ⊤ ∧ unsRep T (wBottom T false) = ⊥ ∧
    (∀ x y, T.Mem x → T.Mem y → (wLess T false x y = true ↔ unsRep T x < unsRep T y)) ∧
    (∀ x y, T.Mem x → T.Mem y → unsRep T x = unsRep T y → x = y) ∧
    ∀ x y, T.Mem x → T.Mem y → NoOverflow T false x y → ∃ s, wAdd T false x y = some s ∧ T.Mem s ∧ unsRep T s = unsRep T x + unsRep T y := by
  have h0 := hT.uns hs
  have ht := hT.top
  have e0 : unsRep T 0 = 0 := by
    unfold unsRep
    rw [if_neg (by omega)]
    rfl
  have hlt : ∀ x y, T.Mem x → T.Mem y → (unsRep T x < unsRep T y ↔ x < y) := by
    intro x y hx hy
    unfold unsRep
    obtain ⟨x1, x2⟩ := hx
    obtain ⟨y1, y2⟩ := hy
    by_cases hxm : x = T.nmax
    · rw [if_pos hxm]
      constructor
      · intro h; exact absurd h not_top_lt
      · intro h; omega
    by_cases hym : y = T.nmax
    · rw [if_neg hxm, if_pos hym]
      exact ⟨fun _ => by omega, fun _ => WithTop.coe_lt_top _⟩
    rw [if_neg hxm, if_neg hym, WithTop.coe_lt_coe]
    omega
  refine ⟨e0, by simp [unsRep, wMax], ?_, ?_, ?_, ?_⟩
  · simp only [wBottom, Bool.false_eq_true, if_false, h0]
    exact e0
  · intro x y hx hy
    rw [hlt x y hx hy]
    simp [wLess]
  · intro x y hx hy e
    have h1 := (hlt x y hx hy).not
    have h2 := (hlt y x hy hx).not
    rw [e] at h1 h2
    have := h1.1 (lt_irrefl _)
    have := h2.1 (lt_irrefl _)
    omega
  · intro x y hx hy ho
    obtain ⟨s, h1, h2, h3, h4, -⟩ := c30_add_value hT false x y hx hy ho
    refine ⟨s, h1, h2, ?_⟩
    have hm : wMax T false = T.nmax := by simp [wMax]
    have hb : wBottom T false = 0 := by simp [wBottom, h0]
    have hM : ∀ z, Marked T false z ↔ z = T.nmax := by
      intro z
      unfold Marked
      rw [hm, hb]
      simp [wZero]
    rw [hm] at h4
    unfold NoOverflow at ho
    rw [hM, hM] at h3
    rw [hM, hM, hM] at ho
    unfold unsRep
    by_cases hxm : x = T.nmax
    · rw [if_pos hxm, if_pos (h4 (.inl hxm)), WithTop.top_add]
    by_cases hym : y = T.nmax
    · rw [if_pos hym, if_pos (h4 (.inr hym)), WithTop.add_top]
    have e := h3 hxm hym
    have := (ho hxm hym).2
    have x1 := hx.1
    have y1 := hy.1
    rw [if_neg hxm, if_neg hym, if_neg (by omega), ← WithTop.coe_add, e, Int.toNat_add (by omega) (by omega)]

include hT in
/-- C30: signed weights that are minimised are integers and two infinities. -/
theorem c30_signed_model (hs : T.signed = true) :
    markRep T.nmax T.nmin wZero = 0 ∧ markRep T.nmax T.nmin (wMax T false) = ⊤ ∧ markRep T.nmax T.nmin (wBottom T false) = ⊥ ∧
    (∀ x y, T.Mem x → T.Mem y → (wLess T false x y = true ↔ markRep T.nmax T.nmin x < markRep T.nmax T.nmin y)) ∧
    (∀ x y, T.Mem x → T.Mem y → markRep T.nmax T.nmin x = markRep T.nmax T.nmin y → x = y) ∧
    ∀ x y, T.Mem x → T.Mem y → NoOverflow T false x y →
      ∃ s, wAdd T false x y = some s ∧ T.Mem s ∧ markRep T.nmax T.nmin s = markRep T.nmax T.nmin x + markRep T.nmax T.nmin y := by
  have h0 := hT.sgn hs
  have ht := hT.top
  have hlt : T.nmin < T.nmax := by omega
  have hm : wMax T false = T.nmax := by simp [wMax]
  have hb : wBottom T false = T.nmin := by simp [wBottom]
  refine ⟨?_, by rw [hm]; unfold markRep; rw [if_pos rfl], by rw [hb]; unfold markRep; rw [if_neg (by omega), if_pos rfl]; rfl, ?_,
    fun x y hx hy => markRep_inj hx hy, ?_⟩
  · unfold markRep wZero
    rw [if_neg (by omega), if_neg (by omega)]
    rfl
  · intro x y hx hy
    rw [markRep_lt hx hy]
    simp [wLess]
  · intro x y hx hy ho
    obtain ⟨s, h1, h2, h3, h4, h5⟩ := c30_add_value hT false x y hx hy ho
    refine ⟨s, h1, h2, ?_⟩
    have hM : ∀ z, Marked T false z ↔ z = T.nmax ∨ z = T.nmin := by
      intro z
      unfold Marked wZero
      rw [hm, hb]
      have : T.nmin ≠ 0 := by omega
      simp [this]
    rw [hm, hb] at h5
    rw [hm] at h4
    unfold NoOverflow at ho
    rw [hM, hM] at h3
    rw [hM, hM, hM] at ho
    refine markRep_add hlt h4 (fun a b c => h5 a b (show T.nmin ≠ 0 by omega) c) (fun a b c d => ?_)
    have e := h3 (fun h => h.elim a c) (fun h => h.elim b d)
    have := (ho (fun h => h.elim a c) (fun h => h.elim b d)).2
    exact ⟨e, fun k => this (.inl (e ▸ k)), fun k => this (.inr (e ▸ k))⟩

/-- The marks if weights are maximised: the worst weight `max()` and the best weight `bottom()`; an unsigned `max()` is not the least number,
so numbers are counted from -1, which stands for it. -/
def bestRep (T : NumT) (x : Int) : WithTop (WithBot ℤ) :=
  if x = wMax T true then ((⊥ : WithBot ℤ) : WithTop (WithBot ℤ)) else if x = wBottom T true then ⊤ else ((x : WithBot ℤ) : WithTop (WithBot ℤ))

include hT in
/-- C30: weights that are maximised are integers and two infinities in the opposite order. In the code `max()` wins over `bottom()` in a sum, in the
model `bottom()` over `max()`; the searches never add these two. -/
theorem c30_maximise_model (hsome : T.signed = false → 1 < T.nmax) :
    bestRep T wZero = 0 ∧ bestRep T (wMax T true) = ⊥ ∧ bestRep T (wBottom T true) = ⊤ ∧
    (∀ x y, T.Mem x → T.Mem y → (wLess T true x y = true ↔ bestRep T y < bestRep T x)) ∧
    (∀ x y, T.Mem x → T.Mem y → bestRep T x = bestRep T y → x = y) ∧
    ∀ x y, T.Mem x → T.Mem y → NoOverflow T true x y → ¬ (x = wMax T true ∧ y = wBottom T true) → ¬ (x = wBottom T true ∧ y = wMax T true) →
      ∃ s, wAdd T true x y = some s ∧ T.Mem s ∧ bestRep T s = bestRep T x + bestRep T y := by
  have ht := hT.top
  have hmb : wMax T true ≠ wBottom T true := by
    unfold wMax wBottom
    have := hT.sgn
    cases hs : T.signed <;> simp_all <;> omega
  have h0m : wMax T true ≠ 0 ∧ wBottom T true ≠ 0 := by
    unfold wMax wBottom
    have := hT.sgn
    cases hs : T.signed <;> simp_all <;> omega
  -- the same as `markRep` on other numbers
  have key : ∀ x, T.Mem x → bestRep T x = markRep (wBottom T true) (if T.signed then T.nmin else -1) (if x = wMax T true ∧ T.signed = false then -1 else x) := by
    intro x hx
    unfold bestRep markRep
    unfold wMax wBottom at *
    have := hT.sgn
    have := hT.uns
    obtain ⟨x1, x2⟩ := hx
    cases hs : T.signed
    · by_cases h1 : x = T.nmax
      · simp [h1, hs]; omega
      · simp [h1, hs]; split
        · rfl
        · rw [if_neg (by have := hT.uns hs; omega)]
    · by_cases h1 : x = T.nmin
      · simp [h1, hs]; intro h; have := hT.sgn hs; omega
      · simp [h1, hs]
  have hr : ∀ x, T.Mem x → (if T.signed then T.nmin else -1) ≤ (if x = wMax T true ∧ T.signed = false then -1 else x) ∧
      (if x = wMax T true ∧ T.signed = false then -1 else x) ≤ wBottom T true := by
    intro x hx
    have := hT.uns
    obtain ⟨x1, x2⟩ := hx
    unfold wMax wBottom
    cases hs : T.signed
    · have := this hs
      simp [hs]
      split
      · omega
      · omega
    · simp [hs]
      omega
  have hbt : (if T.signed then T.nmin else -1) < wBottom T true := by
    unfold wBottom
    have := hT.sgn
    cases hs : T.signed <;> simp_all <;> omega
  have hval : ∀ x y, T.Mem x → T.Mem y →
      (wLess T true x y = true ↔ (if y = wMax T true ∧ T.signed = false then -1 else y) < (if x = wMax T true ∧ T.signed = false then -1 else x)) := by
    intro x y hx hy
    have := hT.uns
    obtain ⟨x1, x2⟩ := hx
    obtain ⟨y1, y2⟩ := hy
    unfold wLess wMax
    cases hs : T.signed
    · have := this hs
      by_cases a : x = T.nmax <;> by_cases b : y = T.nmax <;> simp [a, b, hs] <;> omega
    · simp [hs]
  refine ⟨?_, ?_, ?_, ?_, ?_, ?_⟩
  · unfold bestRep wZero
    rw [if_neg (fun h => h0m.1 h.symm), if_neg (fun h => h0m.2 h.symm)]
    rfl
  · unfold bestRep
    rw [if_pos rfl]
    rfl
  · unfold bestRep
    rw [if_neg (fun h => hmb h.symm), if_pos rfl]
  · intro x y hx hy
    rw [key x hx, key y hy, markRep_lt (hr y hy) (hr x hx), hval x y hx hy]
  · intro x y hx hy e
    obtain ⟨-, -, t3⟩ := c30_strict_total (T := T) true
    by_contra hne
    rcases t3 x y hx hy hne with h | h
    · rw [hval x y hx hy, ← markRep_lt (hr y hy) (hr x hx), ← key x hx, ← key y hy, e] at h
      exact lt_irrefl _ h
    · rw [hval y x hy hx, ← markRep_lt (hr x hx) (hr y hy), ← key x hx, ← key y hy, e] at h
      exact lt_irrefl _ h
  · intro x y hx hy ho n1 n2
    obtain ⟨s, h1, h2, h3, h4, h5⟩ := c30_add_value hT true x y hx hy ho
    refine ⟨s, h1, h2, ?_⟩
    unfold Marked at h3
    unfold NoOverflow Marked at ho
    unfold bestRep
    by_cases x1 : x = wMax T true
    · rw [if_pos x1, if_pos (h4 (.inl x1))]
      split
      · rw [← WithTop.coe_add, WithBot.bot_add]
      · rw [if_neg (fun h => n1 ⟨x1, h⟩), ← WithTop.coe_add, WithBot.bot_add]
    by_cases y1 : y = wMax T true
    · rw [if_pos y1, if_pos (h4 (.inr y1)), if_neg x1, if_neg (fun h => n2 ⟨h, y1⟩), ← WithTop.coe_add, WithBot.add_bot]
    by_cases x2 : x = wBottom T true
    · have := h5 x1 y1 h0m.2 (.inl x2)
      rw [if_neg x1, if_pos x2, if_neg (by rw [this]; exact fun h => hmb h.symm), if_pos this, WithTop.top_add]
    by_cases y2 : y = wBottom T true
    · have := h5 x1 y1 h0m.2 (.inr y2)
      rw [if_neg y1, if_pos y2, if_neg (by rw [this]; exact fun h => hmb h.symm), if_pos this, WithTop.add_top]
    have e := h3 (by rintro (h | ⟨h, -⟩) <;> contradiction) (by rintro (h | ⟨h, -⟩) <;> contradiction)
    have := (ho (by rintro (h | ⟨h, -⟩) <;> contradiction) (by rintro (h | ⟨h, -⟩) <;> contradiction)).2
    rw [if_neg x1, if_neg x2, if_neg y1, if_neg y2, if_neg (fun h => this (.inl (e ▸ h))), if_neg (fun h => this (.inr ⟨e ▸ h, h0m.2⟩)), e,
      ← WithTop.coe_add, ← WithBot.coe_add]

end

/-! ## Arrays -/

/-- What an array of `n` numbers stands for: a vector in lexicographic order. -/
def arrRep (n : Nat) (l : List Int) : Lex (Fin n → ℤ) := toLex fun i => l.getD i 0

theorem arrRep_inj {n : Nat} {l r : List Int} (hl : l.length = n) (hr : r.length = n) (h : arrRep n l = arrRep n r) : l = r := by
  refine List.ext_getElem (hl.trans hr.symm) fun i h1 h2 => ?_
  have := congrFun (toLex.injective h) ⟨i, hl ▸ h1⟩
  simpa [h1, h2] using this

/-- C30: arrays that are minimised are vectors in lexicographic order, with sums component by component, as long as no component is a mark
and no sum overflows. -/
theorem c30_array_model {T : NumT} (hT : T.IsInt) (n : Nat) :
    arrRep n (List.replicate n wZero) = 0 ∧
    (∀ l r, l.length = n → r.length = n → AllMem T l → AllMem T r → (arrLess T false l r = true ↔ arrRep n l < arrRep n r)) ∧
    (∀ l r, l.length = n → r.length = n → arrRep n l = arrRep n r → l = r) ∧
    ∀ l r, l.length = n → r.length = n → AllMem T l → AllMem T r → (∀ i < n, NoOverflow T false (l.getD i 0) (r.getD i 0)) →
      (∀ x ∈ l ++ r, ¬ Marked T false x) → ∃ s, arrAdd T false l r = some s ∧ s.length = n ∧ AllMem T s ∧ arrRep n s = arrRep n l + arrRep n r := by
  refine ⟨?_, ?_, fun l r hl hr h => arrRep_inj hl hr h, ?_⟩
  · refine congrArg toLex (funext fun i => ?_)
    show (List.replicate n wZero).getD i 0 = 0
    rw [List.getD_eq_getElem?_getD, List.getElem?_replicate]
    split <;> rfl
  · intro l r hl hr ml mr
    rw [c30_array_less false l r (hl.trans hr.symm) ml mr]
    unfold FirstLess
    constructor
    · rintro ⟨i, h1, h2⟩
      have hi : i < n := by
        by_contra hc
        rw [List.getD_eq_getElem?_getD, List.getD_eq_getElem?_getD, List.getElem?_eq_none (by omega), List.getElem?_eq_none (by omega)] at h2
        simp [wLess] at h2
      exact ⟨⟨i, hi⟩, fun j hj => h1 j hj, by
        show l.getD i 0 < r.getD i 0
        simpa [wLess] using h2⟩
    · rintro ⟨i, h1, h2⟩
      exact ⟨i, fun j hj => h1 ⟨j, Nat.lt_trans hj i.2⟩ hj, by simpa [wLess, arrRep] using h2⟩
  · intro l r hl hr ml mr ho hm
    have key : ∀ l r : List Int, l.length = r.length → AllMem T l → AllMem T r → (∀ i < l.length, NoOverflow T false (l.getD i 0) (r.getD i 0)) →
        (∀ x ∈ l ++ r, ¬ Marked T false x) → ∃ s, arrAdd T false l r = some s ∧ s.length = l.length ∧ AllMem T s ∧
          ∀ i, s.getD i 0 = l.getD i 0 + r.getD i 0 := by
      intro l
      induction l with
      | nil =>
        intro r h _ _ _ _
        cases r with
        | nil => exact ⟨[], rfl, rfl, (fun x hx => by cases hx), fun i => by simp⟩
        | cons b r => cases h
      | cons a l ih =>
        intro r h ml mr ho hm
        cases r with
        | nil => cases h
        | cons b r =>
          obtain ⟨x, h1, h2, h3, -⟩ := c30_add_value hT false a b (ml a (by simp)) (mr b (by simp)) (ho 0 (by simp))
          have hx := h3 (hm a (by simp)) (hm b (by simp))
          obtain ⟨s, k1, k2, k3, k4⟩ := ih r (by simpa using h) (fun z hz => ml z (List.mem_cons_of_mem _ hz)) (fun z hz => mr z (List.mem_cons_of_mem _ hz))
            (fun i hi => ho (i + 1) (by simpa using hi)) (fun z hz => hm z (by
              rcases List.mem_append.1 hz with h | h
              · exact List.mem_append_left _ (List.mem_cons_of_mem _ h)
              · exact List.mem_append_right _ (List.mem_cons_of_mem _ h)))
          refine ⟨x :: s, ?_, by simp [k2], ?_, ?_⟩
          · unfold arrAdd at k1 ⊢
            simp [addOnto, h1, k1]
          · intro z hz
            rcases List.mem_cons.1 hz with rfl | hz
            · exact h2
            · exact k3 z hz
          · intro i
            cases i with
            | zero => exact hx
            | succ i => simpa using k4 i
    obtain ⟨s, h1, h2, h3, h4⟩ := key l r (hl.trans hr.symm) ml mr (hl ▸ ho) hm
    exact ⟨s, h1, h2.trans hl, h3, congrArg toLex (funext fun i => h4 i)⟩

/-- The theorems about shortest runs, which are for all weights of this kind, hold for arrays. -/
example (n : Nat) : IsOrderedCancelAddMonoid (Lex (Fin n → ℤ)) := inferInstance
noncomputable example (n : Nat) : LinearOrder (Lex (Fin n → ℤ)) := inferInstance

/-- Non-vacuity: 32 bits. -/
example : unsRep (NumT.uint 32) 7 = (7 : ℕ) ∧ markRep (NumT.sint 32).nmax (NumT.sint 32).nmin (-7) = ((-7 : ℤ) : WithBot ℤ) ∧
    bestRep (NumT.uint 32) 4294967295 = ⊥ ∧ bestRep (NumT.sint 32) (-2147483648) = ⊥ := by decide

end Verif.Props
