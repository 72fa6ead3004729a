import Verif.Model.AutomatonPath

/-!
# internal/PAutomaton.h: constructors, `or_extend`, `add_edges`, `accepts`, `accept_path`, `find_path`
-/

namespace Verif

namespace Aut

variable {W : Type}

/-! ## Constructors and updates -/

/-- One round of the loop over the stack in the constructor (internal/PAutomaton.h:194-198). -/
def singleRound [Zero W] (len : Nat) (s : Aut W × Nat) (x : Nat × Nat) : Aut W × Nat :=
  let state := s.1.n
  ((s.1.addState (x.2 == len - 1)).addEdge s.2 state x.1, state)

/-- `PAutomaton(pda, initial_state, initial_stack)` (internal/PAutomaton.h:187-199); `size` is the
number of PDA states. -/
def single [Zero W] (size q0 : Nat) (stack : List Nat) : Aut W :=
  let accepting := if stack.isEmpty then q0 else size
  let a : Aut W := (List.range size).foldl (fun a i => a.addState (i == accepting)) {}
  (stack.zipIdx.foldl (singleRound stack.length) (a, q0)).1

/-- One round of the loop of the constructor below (internal/PAutomaton.h:211-218). -/
def specialRound (special : List Nat) (acc : Bool) (s : Aut W × Nat) (i : Nat) : Aut W × Nat :=
  if s.2 < special.length ∧ special[s.2]? = some i then (s.1.addState acc, s.2 + 1)
  else (s.1.addState false, s.2)

/-- `PAutomaton(pda, special_initial_states, special_accepting)` (internal/PAutomaton.h:207-219). -/
def special (size : Nat) (special : List Nat) (acc : Bool) : Aut W :=
  ((List.range size).foldl (specialRound special acc) ({}, 0)).1

/-- The loop `for (; i < label; ++i) add_edge(from, to, i)` (internal/PAutomaton.h:785-787), and the
last loop of the function. -/
def addRange [Zero W] (a : Aut W) (src dst lo hi : Nat) : Aut W :=
  (List.range' lo (hi - lo)).foldl (fun a i => a.addEdge src dst i) a

/-- `add_edges(from, to, negated, labels)` (internal/PAutomaton.h:779-799); `nl` is
`number_of_labels()`. -/
def addEdges [Zero W] (nl : Nat) (a : Aut W) (src dst : Nat) (negated : Bool) (labels : List Nat) : Aut W :=
  if negated then
    let r := labels.foldl (fun (s : Aut W × Nat) label =>
      (s.1.addRange src dst s.2 label, max s.2 label + 1)) (a, 0)
    r.1.addRange src dst r.2 nl
  else labels.foldl (fun a l => a.addEdge src dst l) a

/-- The inner loop over `from` (internal/PAutomaton.h:807-809). -/
def addFrom [Zero W] (a : Aut W) (srcs : List Nat) (dst i : Nat) : Aut W :=
  srcs.foldl (fun a f => a.addEdge f dst i) a

/-- The loop `for (; i < label; ++i)` with the inner loop over `from` (internal/PAutomaton.h:806-810). -/
def addRangeFrom [Zero W] (a : Aut W) (srcs : List Nat) (dst lo hi : Nat) : Aut W :=
  (List.range' lo (hi - lo)).foldl (fun a i => a.addFrom srcs dst i) a

/-- `add_edges(vector from, to, negated, labels)` (internal/PAutomaton.h:800-826). -/
def addEdgesFrom [Zero W] (nl : Nat) (a : Aut W) (srcs : List Nat) (dst : Nat) (negated : Bool)
    (labels : List Nat) : Aut W :=
  if negated then
    let r := labels.foldl (fun (s : Aut W × Nat) label =>
      (s.1.addRangeFrom srcs dst s.2 label, max s.2 label + 1)) (a, 0)
    r.1.addRangeFrom srcs dst r.2 nl
  else srcs.foldl (fun a f => labels.foldl (fun a l => a.addEdge f dst l) a) a

/-- Copying one edge in `or_extend` (internal/PAutomaton.h:278-283). -/
def orEdge (size offset src : Nat) (b : Aut W) (a : Aut W) (t : Tr) : Aut W :=
  match b.getEdge t with
  | some ann => a.emplaceEdge ⟨src, t.label, if t.dst < size then t.dst else t.dst + offset⟩ ann
  | none => a

/-- One round of the loop of `or_extend` (internal/PAutomaton.h:269-285). -/
def orRound (h : HashOrder) (size offset : Nat) (b : Aut W) (a : Aut W) (i : Nat) : Aut W :=
  let src := if i ≥ size then a.n else i
  let a1 : Aut W :=
    if i ≥ size then a.addState (b.isAcc i)
    else if !a.isAcc i && b.isAcc i then a.setAccepting i else a
  (b.out h i).foldl (orEdge size offset src b) a1

/-- `or_extend(other)` (internal/PAutomaton.h:260-286). -/
def orExtend (h : HashOrder) (size : Nat) (a b : Aut W) : Aut W :=
  (List.range b.n).foldl (orRound h size (a.n - size) b) a

/-! ## `accepts` -/

/-- The loop over the edges of the current state in `accepts` (internal/PAutomaton.h:521-529):
`none` means `return true`. -/
def acceptsScan (a : Aut W) (w : List Nat) (q i : Nat) :
    List Nat → List (Nat × Nat) → Option (List (Nat × Nat))
  | [], st => some st
  | to :: tos, st =>
    if a.hasLabel q to (w.getD i 0) then
      if i + 1 < w.length then acceptsScan a w q i tos ((to, i + 1) :: st)
      else if a.isAcc to then none
      else acceptsScan a w q i tos st
    else acceptsScan a w q i tos st

/-- The search loop of `accepts` (internal/PAutomaton.h:516-531), with fuel. -/
def acceptsLoop (h : HashOrder) (a : Aut W) (w : List Nat) : Nat → List (Nat × Nat) → Bool
  | _, [] => false
  | 0, _ => false
  | k + 1, (q, i) :: st =>
    match acceptsScan a w q i (a.outTos h q) st with
    | none => true
    | some st' => acceptsLoop h a w k st'

/-- Fuel for the searches; `c19_accepts` shows that it suffices. -/
def searchFuel (a : Aut W) (w : List Nat) : Nat := (a.edges.length + 1) ^ (w.length + 1)

/-- `accepts(state, stack)` (internal/PAutomaton.h:508-533). -/
def accepts (h : HashOrder) (a : Aut W) (q : Nat) (w : List Nat) : Bool :=
  if w.isEmpty then a.isAcc q else acceptsLoop h a w (a.searchFuel w) [(q, 0)]

/-! ## `accept_path` -/

/-- The loop over the edges in `accept_path` (internal/PAutomaton.h:631-640): `inl` means `return
path`. -/
def pathScan (a : Aut W) (w : List Nat) (q i : Nat) (path : List Nat) :
    List Nat → List (Nat × Nat) → List Nat ⊕ List (Nat × Nat)
  | [], st => .inr st
  | to :: tos, st =>
    if a.hasLabel q to (w.getD i 0) then
      if i + 1 < w.length then pathScan a w q i path tos ((to, i + 1) :: st)
      else if a.isAcc to then .inl (path.set (i + 1) to)
      else pathScan a w q i path tos st
    else pathScan a w q i path tos st

/-- The search loop of `accept_path` (internal/PAutomaton.h:625-642), with fuel. -/
def pathLoop (h : HashOrder) (a : Aut W) (w : List Nat) : Nat → List Nat → List (Nat × Nat) → List Nat
  | _, _, [] => []
  | 0, _, _ => []
  | k + 1, path, (q, i) :: st =>
    let path := path.set i q
    match pathScan a w q i path (a.outTos h q) st with
    | .inl r => r
    | .inr st' => pathLoop h a w k path st'

/-- `accept_path(state, stack)`, not shortest (internal/PAutomaton.h:614-644). -/
def acceptPath (h : HashOrder) (a : Aut W) (q : Nat) (w : List Nat) : List Nat :=
  if w.isEmpty then (if a.isAcc q then [q] else [])
  else pathLoop h a w (a.searchFuel w) (List.replicate (w.length + 1) 0) [(q, 0)]

/-! ## `find_path` -/

/-- `labels[0].first`: the least label from `q` to `to`; the inner container is a sorted vector. -/
def firstLabel (a : Aut W) (q to : Nat) : Option Nat :=
  (((keys a.edges).filter fun t => t.src == q && t.dst == to).map Tr.label).min?

/-- State of the search in `find_path` (internal/PAutomaton.h:398-409). -/
structure FindSt where
  path : List Nat
  labels : List Nat
  waiting : List (Nat × Nat × Nat)
  seen : List Nat

/-- `v.resize(k)`: truncates or pads with zeros. -/
def resize (l : List Nat) (k : Nat) : List Nat := l.take k ++ List.replicate (k - l.length) 0

/-- The loop over the edges in `find_path` (internal/PAutomaton.h:419-430): `inl` means `return`. -/
def findScan (a : Aut W) (q i : Nat) : List Nat → FindSt → (List Nat × List Nat) ⊕ FindSt
  | [], s => .inr s
  | to :: tos, s =>
    match a.firstLabel q to with
    | none => findScan a q i tos s
    | some label =>
      if s.seen.contains to then findScan a q i tos s
      else
        let s := { s with seen := to :: s.seen }
        if a.isAcc to then .inl (s.path.set (i + 1) to, s.labels.set i label)
        else findScan a q i tos { s with waiting := (to, i + 1, label) :: s.waiting }

/-- The search loop of `find_path` (internal/PAutomaton.h:410-431), with fuel. -/
def findLoop (h : HashOrder) (a : Aut W) : Nat → FindSt → Option (List Nat × List Nat)
  | 0, _ => none
  | k + 1, s =>
    match s.waiting with
    | [] => none
    | (q, i, last) :: wt =>
      let path := (resize s.path (i + 2)).set i q
      let labels := resize s.labels (i + 1)
      let labels := if i > 0 then labels.set (i - 1) last else labels
      match findScan a q i (a.outTos h q) { s with path := path, labels := labels, waiting := wt } with
      | .inl r => some r
      | .inr s' => findLoop h a k s'

/-- Fuel: every state enters the waiting list at most twice. -/
def findFuel (a : Aut W) : Nat := 2 * a.n + 1

/-- `find_path()` (internal/PAutomaton.h:391-432). The initial states are entered in order, so the
last one is on top of the stack. The first accepting control state is returned at once. -/
def findPath (h : HashOrder) (size : Nat) (a : Aut W) : APath Nat :=
  match (List.range size).find? fun i => a.isAcc i with
  | some i => ⟨i, []⟩
  | none =>
    match findLoop h a a.findFuel ⟨[], [], ((List.range size).map fun i => (i, 0, epsilon)).reverse, []⟩ with
    | some r => (APath.mk? r.1 r.2).getD APath.null
    | none => APath.null

end Aut

end Verif
