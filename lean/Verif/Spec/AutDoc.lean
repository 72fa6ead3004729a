import Verif.Model.PAutJson

/-! # What a JSON document of a P-automaton means

A document is a list of entries. Nothing here looks at the parser. -/

namespace Verif

variable {W : Type}

/-- The key of an entry. -/
def JField.key : JField → String
  | .initial _ => "initial"
  | .accepting _ => "accepting"
  | .edges _ => "edges"

/-- How often an entry mentions a state that may be new. -/
def JField.mentions : JField → Nat
  | .initial _ => 0
  | .accepting l => l.length
  | .edges l => 2 * l.length

namespace Doc

def Initial (fs : List JField) (r : JRef) : Prop := ∃ l, JField.initial l ∈ fs ∧ r ∈ l
def Accepting (fs : List JField) (r : JRef) : Prop := ∃ l, JField.accepting l ∈ fs ∧ r ∈ l
def Edge (fs : List JField) (r : JRef) (l : String) (r' : JRef) : Prop := ∃ es, JField.edges es ∈ fs ∧ (r, l, r') ∈ es

/-- The states that are accepting or have edges. -/
def Used (fs : List JField) (r : JRef) : Prop := Accepting fs r ∨ (∃ l r', Edge fs r l r') ∨ ∃ r' l, Edge fs r' l r

/-- `r` stands for the state `c` of the PDA: by its name, or by its number if states have no names. -/
def Denotes (names : Bool) (p : NPda String String W) : JRef → Nat → Prop
  | .num n, c => names = false ∧ n = c ∧ c < p.states.length
  | .name s, c => names = true ∧ p.names[c]? = some s

/-- The word is read along edges; edges with the empty label are not followed. -/
inductive Path (fs : List JField) : JRef → List String → JRef → Prop where
  | nil (r : JRef) : Path fs r [] r
  | cons {r r' r'' : JRef} {l : String} {ls : List String} : Edge fs r l r' → l ≠ "" → Path fs r' ls r'' → Path fs r (l :: ls) r''

def Accepts (fs : List JField) (r : JRef) (ls : List String) : Prop := ∃ r', Path fs r ls r' ∧ Accepting fs r'

/-- The document is well-formed: each entry is there once, the initial states are states of the PDA, and names are used only if
states have names. -/
structure OK (names : Bool) (p : NPda String String W) (fs : List JField) : Prop where
  entries : (fs.map JField.key).Perm ["accepting", "edges", "initial"]
  initial : ∀ r, Initial fs r → ∃ c, Denotes names p r c
  states : names = false → ∀ s, ¬ Used fs (.name s)

/-- The same for a document inside a solver instance, where the initial states may be left out or given several times. -/
structure Inner (names : Bool) (p : NPda String String W) (fs : List JField) : Prop where
  entries : ((fs.map JField.key).filter (· ≠ "initial")).Perm ["accepting", "edges"]
  initials : ∀ r, Initial fs r → ∃ c, Denotes names p r c
  noNames : names = false → ∀ s, ¬ Used fs (.name s)

/-- The states beyond those of the PDA are all numbered or all named. -/
def Pure (names : Bool) (p : NPda String String W) (fs : List JField) : Prop :=
  names = true → (∀ n, ¬ Used fs (.num n)) ∨ ∀ s, Used fs (.name s) → s ∈ p.names

/-- There are not too many states to be numbered: `sizeMax` is not used as a number. -/
def Small (p : NPda String String W) (fs : List JField) : Prop := p.states.length + (fs.map JField.mentions).sum ≤ sizeMax

end Doc

/-- The PDA has one name per state, all different. -/
def NamesOK (names : Bool) (p : NPda String String W) : Prop := names = true → p.names.Nodup ∧ p.names.length = p.states.length

end Verif
