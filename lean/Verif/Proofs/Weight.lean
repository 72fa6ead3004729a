import Verif.Model.Weight
import Mathlib.Data.Int.Order.Basic

/-! # Facts about weights -/

namespace Verif

/-- What the integer types have in common: zero is a value, unsigned types start at zero and have at
least two values, and `+` is the mathematical sum whenever that is a value. -/
structure NumT.IsInt (T : NumT) : Prop where
  uns : T.signed = false → T.nmin = 0
  sgn : T.signed = true → T.nmin < 0
  top : 0 < T.nmax
  plus : ∀ x y, T.Mem x → T.Mem y → T.Mem (x + y) → T.plus x y = some (x + y)
  comm : ∀ x y, T.plus x y = T.plus y x

theorem two_le_pow {b : Nat} (hb : 0 < b) : (2 : Int) ≤ 2 ^ b := by
  induction b with
  | zero => cases hb
  | succ n ih =>
    rw [Int.pow_succ]
    cases n with
    | zero => decide
    | succ m => have := ih (by omega); omega

theorem NumT.isInt_uint {b : Nat} (hb : 0 < b) : (NumT.uint b).IsInt := by
  have h2 := two_le_pow hb
  refine ⟨fun _ => rfl, fun h => (by cases h), ?_, ?_, ?_⟩
  · show (0:Int) < 2 ^ b - 1
    omega
  · intro x y hx hy hs
    simp only [NumT.Mem, NumT.uint] at *
    rw [Int.emod_eq_of_lt (by omega) (by omega)]
  · intro x y
    simp only [NumT.uint]
    rw [Int.add_comm]

theorem NumT.isInt_sint {b : Nat} (hb : 2 ≤ b) : (NumT.sint b).IsInt := by
  have h2 := two_le_pow (b := b - 1) (by omega)
  refine ⟨fun h => (by cases h), fun _ => ?_, ?_, ?_, ?_⟩
  · show -(2:Int) ^ (b - 1) < 0
    omega
  · show (0:Int) < 2 ^ (b - 1) - 1
    omega
  · intro x y hx hy hs
    simp only [NumT.Mem, NumT.sint] at *
    rw [if_pos (by omega)]
  · intro x y
    simp only [NumT.sint]
    rw [Int.add_comm]

theorem NumT.IsInt.zero {T : NumT} (h : T.IsInt) : T.Mem 0 := by
  have := h.uns; have := h.sgn; have := h.top
  constructor
  · cases hs : T.signed <;> simp_all <;> omega
  · omega

end Verif
