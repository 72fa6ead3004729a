import Verif.Proofs.Regex
import Verif.Props.Nfa

/-! # Regular expressions (C49)

Full statement: for every expression the automaton built by the parser actions accepts the language of the
expression. It fails for expressions such as `([1]+[2])?`, see `c49_wrong`, because `question_extend` and
`star_extend` are wrong there (C27). -/

namespace Verif.Props

open Verif.Nfa

/-- The parser actions never hit an assertion or an empty stack, wherever the states are allocated. They leave one
automaton. It accepts the language of the expression if `*` and `?` are applied only to expressions that do not
start with a repetition or that are a repetition (`RAlt.ok`). -/
theorem c49_regex_partial {addr : Nat → Nat} (ha : Function.Injective addr) (e : RAlt) :
    ∃ m, parseRegex addr (some e) = some m ∧ m.WF ∧ (e.ok = true → ∀ w, m.Lang w ↔ e.Den w) := by
  obtain ⟨n, b1, m, k', h1, h2, h3, h4⟩ := RAlt.acts_spec ha e {} (by simp)
  have h5 : Builder.reduceOr addr b1 = some ⟨[m], [], k'⟩ :=
    Builder.reduceOrLoop_eq addr n _ b1 _ [] h2 (by simp) (by rw [h2]; simp) h3
  refine ⟨m, ?_, h4.wf, h4.lang⟩
  unfold parseRegex RAlt.acts
  simp only
  rw [h1, Option.bind_some, h5]
  rfl

/-- The empty expression gives the empty word. -/
theorem c49_empty (addr : Nat → Nat) :
    ∃ m, parseRegex addr none = some m ∧ m.WF ∧ ∀ w, m.Lang w ↔ w = [] := by
  obtain ⟨h1, h2⟩ := ofBool_spec (addr 0) true
  exact ⟨_, rfl, h1, fun w => by rw [h2]; simp⟩

/-- `([1]|[2][^1])*.+` meets the condition. -/
def exRegex : RAlt :=
  .one (.more (.mk (.group (.more (.one (.mk (.set false 1 []) none))
    (.one (.more (.mk (.set false 2 []) none) (.one (.mk (.set true 1 []) none)))))) (some .star))
    (.one (.mk .dot (some .plus))))

example : exRegex.ok = true := by decide
example : exRegex.Den [2, 3, 1, 7] :=
  ⟨[2, 3, 1], [7], rfl,
    Words.Star.app [2, 3] [1] (.inr ⟨[2], [3], rfl, ⟨2, rfl, by decide⟩, 3, rfl, by decide⟩)
      (Star.of (.inl ⟨1, rfl, by decide⟩)), [7], [], rfl, ⟨7, rfl⟩, .nil⟩

/-- `([1]+[2])?`. -/
def exRegexBad : RAlt :=
  .one (.one (.mk (.group (.one (.more (.mk (.set false 1 []) (some .plus)) (.one (.mk (.set false 2 []) none)))))
    (some .question)))

/-- The automaton for `([1]+[2])?` accepts the word `1`, which the expression does not describe. -/
theorem c49_wrong : (∃ m, parseRegex (fun k => k) (some exRegexBad) = some m ∧ m.Lang [1]) ∧ ¬exRegexBad.Den [1] := by
  constructor
  · refine ⟨_, rfl, 0, by decide, 0, ⟨{ edges := [{ syms := [1], dst := 1 }], acc := true }, by decide, rfl⟩,
      .sym (q := 1) ?_ (.eps (q := 0) ?_ (.nil 0))⟩
    · exact ⟨{ edges := [{ syms := [1], dst := 1 }], acc := true }, { syms := [1], dst := 1 }, by decide, by decide,
        by simp [NEdge.Reads], rfl⟩
    · exact ⟨{ edges := [{ eps := true, dst := 0 }, { eps := true, dst := 2 }] }, { eps := true, dst := 0 }, by decide,
        by decide, rfl, rfl⟩
  · rintro (⟨u, v, h1, _, g, rfl, h3⟩ | h)
    · simp only [Bool.false_eq_true, if_false, List.mem_singleton] at h3
      subst h3
      have := congrArg List.getLast? h1
      simp at this
    · simp at h

example : exRegexBad.ok = false := by decide

end Verif.Props
