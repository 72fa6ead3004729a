import Verif.Model.JsonStream

/-! # JSON texts of objects

Nothing here looks at the stream; only the type of calls is used. -/

namespace Verif

/-- A JSON document, down to values that are given by their text, and the members of an object. -/
inductive JTree where
  | leaf (text : List Char)
  | empty
  | obj (key : String) (t : JTree) (rest : JTree)
  deriving Repr, DecidableEq

/-- An object: `obj` down to `empty`. -/
def JTree.IsObj : JTree → Prop
  | .leaf _ => False
  | .empty => True
  | .obj _ _ r => r.IsObj

/-- The members of objects are objects behind their first member, at all depths. -/
def JTree.Proper : JTree → Prop
  | .leaf _ => True
  | .empty => True
  | .obj _ t r => t.Proper ∧ r.IsObj ∧ r.Proper

/-- White space of JSON. -/
def JBlank (w : List Char) : Prop := ∀ c ∈ w, c = ' ' ∨ c = '\n' ∨ c = '\r' ∨ c = '\t'

/-- The text of a key that needs no escapes. -/
def KeyText (k : String) (s : List Char) : Prop :=
  s = '"' :: k.toList ++ ['"'] ∧ ∀ c ∈ k.toList, c ≠ '"' ∧ c ≠ '\\' ∧ 32 ≤ c.toNat

mutual
/-- The text of a document (RFC 8259, sections 2 and 4). -/
inductive JText : JTree → List Char → Prop where
  | leaf (v : List Char) : JText (.leaf v) v
  | empty {w : List Char} : JBlank w → JText .empty ('{' :: (w ++ ['}']))
  | obj {k : String} {t r : JTree} {s : List Char} : JMembers (.obj k t r) s → JText (.obj k t r) ('{' :: (s ++ ['}']))
/-- The text of the members of an object. -/
inductive JMembers : JTree → List Char → Prop where
  | last {k : String} {t : JTree} {w1 w2 w3 w4 s v : List Char} : JBlank w1 → KeyText k s → JBlank w2 → JBlank w3 → JText t v → JBlank w4 →
      JMembers (.obj k t .empty) (w1 ++ (s ++ (w2 ++ ':' :: (w3 ++ (v ++ w4)))))
  | more {k k' : String} {t t' r : JTree} {w1 w2 w3 w4 s v m : List Char} : JBlank w1 → KeyText k s → JBlank w2 → JBlank w3 → JText t v → JBlank w4 →
      JMembers (.obj k' t' r) m → JMembers (.obj k t (.obj k' t' r)) (w1 ++ (s ++ (w2 ++ ':' :: (w3 ++ (v ++ (w4 ++ ',' :: m))))))
end

/-- The calls that describe the members of an object. -/
def JTree.calls : JTree → List JCall
  | .leaf _ => []
  | .empty => []
  | .obj k (.leaf v) r => .entry k v :: r.calls
  | .obj k t r => .beginObject k :: (t.calls ++ .endObject :: r.calls)

/-- `entry_object` on an object stands for the calls that write its items. -/
def JCall.expand : JCall → List JCall
  | .entryObject k (.inl v) => [.entry k v]
  | .entryObject k (.inr items) => .beginObject k :: (items.map (fun x => .entry x.1 x.2) ++ [.endObject])
  | c => [c]

/-- The document with these entries. -/
def JTree.ofEntries (l : List (String × List Char)) : JTree := l.foldr (fun x r => .obj x.1 (.leaf x.2) r) .empty

/-- The keys need no escapes. -/
def JTree.PlainKeys : JTree → Prop
  | .leaf _ => True
  | .empty => True
  | .obj k t r => (∀ c ∈ k.toList, c ≠ '"' ∧ c ≠ '\\' ∧ 32 ≤ c.toNat) ∧ t.PlainKeys ∧ r.PlainKeys

end Verif
