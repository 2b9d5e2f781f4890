import Verif.Model.Params

/-!
# Specification: parameter conversion
-/

set_option autoImplicit false

namespace Mfmg

/-- Characters that mean themselves inside an XML attribute value quoted by `"`. -/
def PlainChar (c : Char) : Prop :=
  c ≠ '"' ∧ c ≠ '<' ∧ c ≠ '&' ∧ c ≠ '\t' ∧ c ≠ '\n' ∧ c ≠ '\r'

def PlainText (s : List Char) : Prop := ∀ c ∈ s, PlainChar c

/-- All names in the tree, and the values of its leaves, are free of special characters. -/
def PlainForest : PForest → Prop
  | .nil => True
  | .cons key data sub rest =>
    PlainText key ∧ (sub = .nil → PlainText data) ∧ PlainForest sub ∧ PlainForest rest

/-- The type of a leaf: the first of `int`, `double` and `bool` to which its text converts, otherwise
`string`. -/
inductive LeafType (rd : Readers) (v : List Char) : List Char → Prop
  | int : rd.int v = true → LeafType rd v (chars! "int")
  | double : rd.int v = false → rd.double v = true → LeafType rd v (chars! "double")
  | bool : rd.int v = false → rd.double v = false → rd.bool v = true → LeafType rd v (chars! "bool")
  | string : rd.int v = false → rd.double v = false → rd.bool v = false →
      LeafType rd v (chars! "string")

/-- The list says the same as the tree: same names and nesting in the same order, leaves with their
type and text. -/
inductive SameTree (rd : Readers) : PForest → PList → Prop
  | nil : SameTree rd .nil .nil
  | leaf {key data type rest rest'} : LeafType rd data type → SameTree rd rest rest' →
      SameTree rd (.cons key data .nil rest) (.param key type data rest')
  | sub {key data k d s r sub' rest rest'} : SameTree rd (.cons k d s r) sub' →
      SameTree rd rest rest' →
      SameTree rd (.cons key data (.cons k d s r) rest) (.sub key sub' rest')

/-- The names at the top level of a list. -/
def PList.names : PList → List (List Char)
  | .nil => []
  | .param n _ _ rest => n :: rest.names
  | .sub n _ rest => n :: rest.names

/-- The names at the top level of a tree. -/
def PForest.names : PForest → List (List Char)
  | .nil => []
  | .cons key _ _ rest => key :: rest.names

end Mfmg
