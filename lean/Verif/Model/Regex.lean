import Verif.Model.Nfa

/-!
# NfaParserGrammar.h: regular expressions

The grammar (NfaParserGrammar.h:37-73) is modelled by its syntax trees, and parsing by the actions that PEGTL
runs while it matches the tree, in the order in which the rules succeed. Reading characters, white space and
comments, and input that does not match the grammar, are left out. Labels are already mapped to `Nat`s.
-/

namespace Verif

/-- `star_symbol`, `plus_symbol`, `question_symbol` (NfaParserGrammar.h:41-43). -/
inductive Post where
  | star | plus | question
  deriving DecidableEq, Repr

mutual
/-- `value_expr` (NfaParserGrammar.h:52): a wildcard, a label set (64) or a bracket (50). -/
inductive RVal where
  | dot
  | set (neg : Bool) (l : Nat) (ls : List Nat)
  | group (e : RAlt)
/-- `unary_expr` (NfaParserGrammar.h:54). -/
inductive RUn where
  | mk (v : RVal) (p : Option Post)
/-- `seq_expr` (NfaParserGrammar.h:56): one or more. -/
inductive RSeq where
  | one (u : RUn)
  | more (u : RUn) (s : RSeq)
/-- `nfa_expr` (NfaParserGrammar.h:58): one or more, separated by `|`. -/
inductive RAlt where
  | one (s : RSeq)
  | more (s : RSeq) (a : RAlt)
end

/-- `nfa_op_tag` (NfaParserGrammar.h:77). -/
inductive OpTag where
  | bracket | or | concat
  deriving DecidableEq, Repr

/-- `NfaBuilder` (NfaParserGrammar.h:80, members 163-167): the stack of automata and the stack of operators,
tops at the head. `next` counts allocations: the `k`-th `new` returns address `addr k`. The label set in
progress is part of the actions below. -/
structure Builder where
  nfas : List Nfa := []
  ops : List OpTag := []
  next : Nat := 0
  deriving Repr

namespace Builder

/-- `emplace_nfa(label_set, negated)` (NfaParserGrammar.h:113-121), which allocates two states. -/
def emplaceSet (addr : Nat → Nat) (b : Builder) (syms : List Nat) (neg : Bool) : Builder :=
  { b with nfas := Nfa.ofSet (addr b.next) (addr (b.next + 1)) syms neg :: b.nfas, next := b.next + 2 }

/-- `pop_op<OR>` (NfaParserGrammar.h:147-161); `none` is undefined behaviour (an operator of another kind, or
fewer than two automata). -/
def popOr (addr : Nat → Nat) (b : Builder) : Option Builder :=
  match b.nfas, b.ops with
  | o :: m :: nfas, .or :: ops => some { nfas := m.or o (addr b.next) :: nfas, ops := ops, next := b.next + 1 }
  | _, _ => none

/-- `pop_op<CONCAT>` (NfaParserGrammar.h:147-161). -/
def popConcat (b : Builder) : Option Builder :=
  match b.nfas, b.ops with
  | o :: m :: nfas, .concat :: ops => some { b with nfas := m.concat o :: nfas, ops := ops }
  | _, _ => none

/-- The loop of `reduce<OR>` (NfaParserGrammar.h:131-133), at most `k` rounds. -/
def reduceOrLoop (addr : Nat → Nat) : Nat → Builder → Option Builder
  | 0, b => some b
  | k + 1, b => if b.ops.head? = some .or then (b.popOr addr).bind (reduceOrLoop addr k) else some b

/-- `reduce<OR>()` (NfaParserGrammar.h:125-134). Each round shortens the stack of operators. -/
def reduceOr (addr : Nat → Nat) (b : Builder) : Option Builder := reduceOrLoop addr b.ops.length b

/-- The loop of `reduce<CONCAT>` (NfaParserGrammar.h:131-133). -/
def reduceConcatLoop : Nat → Builder → Option Builder
  | 0, b => some b
  | k + 1, b => if b.ops.head? = some .concat then b.popConcat.bind (reduceConcatLoop k) else some b

/-- `reduce<CONCAT>()` (NfaParserGrammar.h:125-134): drops one operator, then combines. -/
def reduceConcat (b : Builder) : Option Builder :=
  match b.ops with
  | .concat :: ops => reduceConcatLoop ops.length { b with ops := ops }
  | _ => none

/-- `push_op(op)` (NfaParserGrammar.h:135-137). -/
def pushOp (b : Builder) (op : OpTag) : Builder := { b with ops := op :: b.ops }

/-- `close()` (NfaParserGrammar.h:95-106), at most `k` rounds. -/
def closeLoop (addr : Nat → Nat) : Nat → Builder → Option Builder
  | 0, _ => none
  | k + 1, b =>
    match b.ops with
    | .bracket :: ops => some { b with ops := ops }
    | .or :: _ => (b.popOr addr).bind (closeLoop addr k)
    | .concat :: _ => b.popConcat.bind (closeLoop addr k)
    | [] => none

/-- `close()` (NfaParserGrammar.h:95-106). -/
def close (addr : Nat → Nat) (b : Builder) : Option Builder := closeLoop addr b.ops.length b

/-- The actions of `*`, `+` and `?` (NfaParserGrammar.h:203-217): on the top of the stack. -/
def post (b : Builder) (p : Option Post) : Option Builder :=
  match p, b.nfas with
  | none, _ => some b
  | some _, [] => none
  | some .star, m :: nfas => some { b with nfas := m.star :: nfas }
  | some .plus, m :: nfas => some { b with nfas := m.plus :: nfas }
  | some .question, m :: nfas => some { b with nfas := m.question :: nfas }

/-- `get_nfa()` (NfaParserGrammar.h:138-144), when the stack of automata has at most one element. -/
def getNfa (addr : Nat → Nat) (b : Builder) : Option Nfa :=
  match b.nfas with
  | [] => some (Nfa.ofBool (addr b.next) true)
  | [m] => some m
  | _ => none

end Builder

/-- The label set as `edge_t` stores it: without repetitions and sorted (NfaParserGrammar.h:110-112 into an
`unordered_set`, NFA.h:56). -/
def labelSet (ls : List Nat) : List Nat := ls.foldl (fun s l => (VSet.emplace natLt s l).1) []

mutual
/-- The actions of `value_expr`: `wildcard` (183-187), `label_set` (178-182), `bracket_open` and
`bracket_close` (188-197) around the actions of the expression, which end with `reduce<OR>` (233-237). -/
def RVal.acts (addr : Nat → Nat) : RVal → Builder → Option Builder
  | .dot, b => some (b.emplaceSet addr [] true)
  | .set neg l ls, b => some (b.emplaceSet addr (labelSet (l :: ls)) neg)
  | .group e, b =>
    ((e.acts0 addr (b.pushOp .bracket)).bind (Builder.reduceOr addr)).bind (Builder.close addr)
/-- The actions of `unary_expr`: the operator symbol (203-217), then `push_op(CONCAT)` (218-222). -/
def RUn.acts (addr : Nat → Nat) : RUn → Builder → Option Builder
  | .mk v p, b => (v.acts addr b).bind fun b => (b.post p).bind fun b => some (b.pushOp .concat)
/-- The `unary_expr`s of a `seq_expr`. -/
def RSeq.acts0 (addr : Nat → Nat) : RSeq → Builder → Option Builder
  | .one u, b => u.acts addr b
  | .more u s, b => (u.acts addr b).bind (s.acts0 addr)
/-- The parts of an `nfa_expr`: each `seq_expr` ends with `reduce<CONCAT>` (223-227), each `|` is
`push_op(OR)` (228-232). -/
def RAlt.acts0 (addr : Nat → Nat) : RAlt → Builder → Option Builder
  | .one s, b => (s.acts0 addr b).bind Builder.reduceConcat
  | .more s a, b => ((s.acts0 addr b).bind Builder.reduceConcat).bind fun b => a.acts0 addr (b.pushOp .or)
end

/-- The actions of `nfa_expr`, which ends with `reduce<OR>` (233-237). -/
def RAlt.acts (addr : Nat → Nat) (e : RAlt) (b : Builder) : Option Builder :=
  (e.acts0 addr b).bind (Builder.reduceOr addr)

/-- `NfaParser` on an expression or on nothing (`nfa_expr_or_empty`, NfaParserGrammar.h:60). -/
def parseRegex (addr : Nat → Nat) (e : Option RAlt) : Option Nfa :=
  match e with
  | none => ({} : Builder).getNfa addr
  | some e => (e.acts addr {}).bind (Builder.getNfa addr)

end Verif
