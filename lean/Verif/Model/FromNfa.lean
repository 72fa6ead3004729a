import Verif.Model.AutOps
import Verif.Model.Nfa

/-! # internal/PAutomaton.h: P-automata from NFAs -/

namespace Verif

/-- The variables of `construct` (internal/PAutomaton.h:845-846): `nfastate_to_id`, an association list, and
`waiting`, the back at the head. -/
structure ConSt (W : Type) where
  a : Aut W
  ids : List (Nat × Nat) := []
  waiting : List (Nat × Nat) := []

namespace ConSt

variable {W : Type}

/-- `get_nfastate_id(n)` (internal/PAutomaton.h:847-862). -/
def getId (m : Nfa) (s : ConSt W) (q : Nat) : ConSt W × Nat :=
  match s.ids.lookup q with
  | some id => (s, id)
  | none =>
    ({ a := s.a.addState (m.get q).acc, ids := (q, s.a.n) :: s.ids, waiting := (q, s.a.n) :: s.waiting }, s.a.n)

/-- The body of the loops over `e.follow_epsilon()` (internal/PAutomaton.h:867-872 and 881-886); `add` is the
call of `add_edges` with the target. -/
def target (m : Nfa) (add : Aut W → Nat → Aut W) (s : ConSt W) (q : Nat) : ConSt W :=
  let r := s.getId m q
  { r.1 with a := add r.1.a r.2 }

/-- The loop over the edges of a state (internal/PAutomaton.h:866-874 and 880-888), with
`edge_t::follow_epsilon` (NFA.h:76-80). -/
def edges (m : Nfa) (add : NEdge → Aut W → Nat → Aut W) (es : List NEdge) (s : ConSt W) : ConSt W :=
  es.foldl (fun s e => (m.followEps [e.dst]).foldl (target m (add e)) s) s

/-- The loop over the initial states (internal/PAutomaton.h:865-875). -/
def initial [Zero W] (m : Nfa) (nl : Nat) (states : List Nat) (s : ConSt W) : ConSt W :=
  m.initial.foldl (fun s i => edges m (fun e a id => a.addEdgesFrom nl states id e.neg e.syms) (m.get i).edges s) s

/-- The `while` loop (internal/PAutomaton.h:876-889), with fuel. -/
def loop [Zero W] (m : Nfa) (nl : Nat) : Nat → ConSt W → ConSt W
  | 0, s => s
  | k + 1, s =>
    match s.waiting with
    | [] => s
    | (top, id) :: ws =>
      loop m nl k (edges m (fun e a q => a.addEdges nl id q e.neg e.syms) (m.get top).edges { s with waiting := ws })

end ConSt

/-- `PAutomaton(pda, nfa, states)` (internal/PAutomaton.h:202-205 with 207-219 and 841-890), without a mapping of
labels; `nl` is `number_of_labels()`. Every NFA state enters `waiting` at most once. -/
def Aut.ofNfa {W : Type} [Zero W] (size nl : Nat) (m : Nfa) (states : List Nat) : Aut W :=
  (ConSt.loop m nl (m.states.length + 1)
    (ConSt.initial m nl states { a := Aut.special size states m.emptyAccept })).a

end Verif
