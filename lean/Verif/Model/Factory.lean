import Verif.Model.Typed
import Verif.Model.Reducer

/-!
# PDAFactory.h: building a PDA by searching from the initial states

The virtual members `initial()`, `rules(state)` and `accepting(state)` of the user's class are arguments. The PDA
is built in a hash container and moved to a vector container by `compile` (PDAFactory.h:43-76); the model builds
in the vector container directly, see `c23_hash_container` for why that makes no difference.
-/

namespace Verif.Factory

variable {L W : Type} [DecidableEq L] [LinearOrder W]

/-- The local variables of `build_pda` and the members it writes. -/
structure State (L W : Type) where
  pda : TPda L W
  waiting : List Nat
  seen : List Nat
  accepting : List Nat := []

/-- One pass of `for (const auto& r : rules(from))` (PDAFactory.h:113-124): add the rule, and queue its target
if it has not been seen. `none`: a label of the rule is not in the alphabet. -/
def visit (wildcard : L) (s : State L W) (r : TRule L W) : Option (State L W) :=
  (if r.pre = wildcard then s.pda.addWildcardRule r else s.pda.addRule r).map fun pda =>
    if s.seen.contains r.dst then { s with pda }
    else { s with pda, seen := s.seen ++ [r.dst], waiting := s.waiting ++ [r.dst] }

/-- The loop over the rules of one state. -/
def visitAll (wildcard : L) (s : State L W) (rs : List (TRule L W)) : Option (State L W) :=
  rs.foldlM (visit wildcard) s

/-- The body of `while (!waiting.empty())` (PDAFactory.h:107-125). The outer `Option` is the loop condition, the
inner one is failure because of an unknown label. -/
def step (wildcard : L) (rules : Nat → List (TRule L W)) (acc : Nat → Bool) (s : State L W) :
    Option (Option (State L W)) :=
  match s.waiting.getLast? with
  | none => none
  | some src =>
    some (visitAll wildcard
      { s with waiting := s.waiting.dropLast
               accepting := if acc src then s.accepting ++ [src] else s.accepting } (rules src))

/-- The outcome of `build_pda`. -/
inductive Result (L W : Type) where
  /-- The loop has not finished within the given number of steps. -/
  | running
  /-- An exception or failed assertion: unknown label. -/
  | unknownLabel
  | done (pda : TPda L W) (accepting : List Nat)

/-- The loop of `build_pda` with at most `fuel` rounds. -/
def loop (wildcard : L) (rules : Nat → List (TRule L W)) (acc : Nat → Bool) : Nat → State L W → Result L W
  | fuel, s => match step wildcard rules acc s with
    | none => .done s.pda (sortBy natLt s.accepting)
    | some none => .unknownLabel
    | some (some s') => match fuel with
      | 0 => .running
      | fuel + 1 => loop wildcard rules acc fuel s'

/-- `DFS_PDAFactory(all_labels, wildcard_label)` and `build_pda()` (PDAFactory.h:97-98, 101-128). -/
def buildPda [LinearOrder L] (all : List L) (wildcard : L) (initial : List Nat) (rules : Nat → List (TRule L W))
    (acc : Nat → Bool) (fuel : Nat) : Result L W :=
  loop wildcard rules acc fuel { pda := TPda.ofLabels all, waiting := initial, seen := initial }

end Verif.Factory
