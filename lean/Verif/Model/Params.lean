import Verif.Model.Basic
import Verif.Model.Text
import Mathlib.Data.Nat.Notation

/-!
# Model of the parameter conversion

`ptree2plist`, /repo/source/common/utils.cc:18-80, and its use for ML in
/repo/source/dealii/dealii_solver.cc:48-67.  Text is a list of characters.
-/

set_option autoImplicit false

namespace Mfmg

/-- The children of a `boost::property_tree::ptree` node, in order: each has a key, its data and its
own children. The argument of /repo/source/common/utils.cc:64-65. -/
inductive PForest where
  | nil
  | cons (key data : List Char) (sub rest : PForest)
  deriving DecidableEq, Repr

/-- `ptree::empty`: no children. Called in /repo/source/common/utils.cc:23, 28 and 67. -/
def PForest.empty : PForest → Bool
  | .nil => true
  | .cons .. => false

/-- A `Teuchos::ParameterList`: the entries in order.  Values are kept as text next to their type (a
simplification: Teuchos stores the converted value). The result of /repo/source/common/utils.cc:64-80. -/
inductive PList where
  | nil
  | param (name type value : List Char) (rest : PList)
  | sub (name : List Char) (list rest : PList)
  deriving DecidableEq, Repr

/-- `get_value_optional<T>()` for `int`, `double` and `bool`: which texts Boost converts.
Called in /repo/source/common/utils.cc:40, 44 and 48. -/
structure Readers where
  int : List Char → Bool
  double : List Char → Bool
  bool : List Char → Bool

/-- Choice of the type, /repo/source/common/utils.cc:37-55. -/
def valueType (rd : Readers) (v : List Char) : List Char :=
  if rd.int v then chars! "int"
  else if rd.double v then chars! "double"
  else if rd.bool v then chars! "bool"
  else chars! "string"

/-- `<ParameterList name="`. /repo/source/common/utils.cc:31 and 75. -/
def openList : List Char := chars! "<ParameterList name=\""
/-- `</ParameterList>`. /repo/source/common/utils.cc:33 and 77. -/
def closeList : List Char := chars! "</ParameterList>"
/-- `<Parameter name="`. /repo/source/common/utils.cc:57. -/
def openParam : List Char := chars! "<Parameter name=\""
/-- ` type="`. /repo/source/common/utils.cc:57. -/
def attrType : List Char := chars! " type=\""
/-- ` value="`. /repo/source/common/utils.cc:58. -/
def attrValue : List Char := chars! " value=\""

/-- `ptree2plist_internal`, /repo/source/common/utils.cc:20-62.  The check at line 23 holds at both
call sites and is left out. -/
def renderItems (rd : Readers) : PForest → List Char
  | .nil => []
  | .cons key data sub rest =>
    (if sub.empty then
      openParam ++ (key ++ ('"' :: (attrType ++ (valueType rd data ++ ('"' :: (attrValue ++
        (data ++ ('"' :: ((chars! "/>") ++ ['\n'])))))))))
    else
      openList ++ (key ++ ('"' :: ((chars! ">") ++ ('\n' :: (renderItems rd sub ++ (closeList ++
        ['\n']))))))) ++ renderItems rd rest

/-- The text made in `ptree2plist`, /repo/source/common/utils.cc:73-77. -/
def renderTree (rd : Readers) (t : PForest) : List Char :=
  openList ++ ((chars! "ANONYMOUS") ++ ('"' :: ((chars! ">") ++
    ('\n' :: (renderItems rd t ++ closeList)))))

/-! ### `Teuchos::getParametersFromXmlString`

A reader for the fragment of XML 1.0 the code above can produce: elements `ParameterList` and
`Parameter`, attributes in the order in which they are written, quoted by `"`.  Attribute values are
read as XML prescribes (section 3.3.3): they end at the first quote, `<` is an error, the five
predefined entities are replaced, any other reference is an error here, and white space characters
become blanks. -/

/-- `s` without the prefix `p`, if it has it.
Part of `Teuchos::getParametersFromXmlString`, called in /repo/source/common/utils.cc:79. -/
def stripPrefix (p s : List Char) : Option (List Char) :=
  if p.isPrefixOf s then some (s.drop p.length) else none

/-- XML white space.
Part of `Teuchos::getParametersFromXmlString`, called in /repo/source/common/utils.cc:79. -/
def isXmlSpace (c : Char) : Bool := c == ' ' || c == '\t' || c == '\n' || c == '\r'

/-- The value of an attribute and the text after its closing quote.
Part of `Teuchos::getParametersFromXmlString`, called in /repo/source/common/utils.cc:79. -/
def readAttr : List Char → Option (List Char × List Char)
  | [] => none
  | '&' :: 'a' :: 'm' :: 'p' :: ';' :: r => (readAttr r).map (fun p => ('&' :: p.1, p.2))
  | '&' :: 'l' :: 't' :: ';' :: r => (readAttr r).map (fun p => ('<' :: p.1, p.2))
  | '&' :: 'g' :: 't' :: ';' :: r => (readAttr r).map (fun p => ('>' :: p.1, p.2))
  | '&' :: 'q' :: 'u' :: 'o' :: 't' :: ';' :: r => (readAttr r).map (fun p => ('"' :: p.1, p.2))
  | '&' :: 'a' :: 'p' :: 'o' :: 's' :: ';' :: r => (readAttr r).map (fun p => ('\'' :: p.1, p.2))
  | c :: r =>
    if c = '"' then some ([], r)
    else if c = '<' ∨ c = '&' then none
    else (readAttr r).map (fun p => ((if isXmlSpace c then ' ' else c) :: p.1, p.2))

/-- The entries of a list up to and including its closing tag, and the text after it.
Part of `Teuchos::getParametersFromXmlString`, called in /repo/source/common/utils.cc:79. -/
def parseItems : ℕ → List Char → Option (PList × List Char)
  | 0, _ => none
  | fuel + 1, s =>
    let s := s.dropWhile isXmlSpace
    match stripPrefix closeList s with
    | some r => some (.nil, r)
    | none =>
      match stripPrefix openList s with
      | some r => do
        let (name, r) ← readAttr r
        let r ← stripPrefix (chars! ">") r
        let (list, r) ← parseItems fuel r
        let (rest, r) ← parseItems fuel r
        some (.sub name list rest, r)
      | none => do
        let r ← stripPrefix openParam s
        let (name, r) ← readAttr r
        let r ← stripPrefix attrType r
        let (type, r) ← readAttr r
        let r ← stripPrefix attrValue r
        let (value, r) ← readAttr r
        let r ← stripPrefix (chars! "/>") r
        let (rest, r) ← parseItems fuel r
        some (.param name type value rest, r)

/-- `Teuchos::getParametersFromXmlString`; `none` if it throws.
Called in /repo/source/common/utils.cc:79. -/
def parseXml (s : List Char) : Option PList := do
  let r ← stripPrefix openList s
  let (_, r) ← readAttr r
  let r ← stripPrefix (chars! ">") r
  let (list, r) ← parseItems (s.length + 1) r
  if r.all isXmlSpace then some list else none

/-- `ptree2plist`, /repo/source/common/utils.cc:64-80: the new value of `plist`; `none` if the XML
reader throws. -/
def ptree2plist (rd : Readers) (t : PForest) : Option PList :=
  if t.empty then some .nil else parseXml (renderTree rd t)

/-- The parameters ML is initialised with, /repo/source/dealii/dealii_solver.cc:50-66: `defaults` is
what `SetDefaults("SA", ·)` fills in, `tree` is `coarse.params` if present. -/
def mlParameters (rd : Readers) (defaults : PList) (tree : Option PForest) : Option PList :=
  match tree with
  | none => some defaults
  | some t => ptree2plist rd t

end Mfmg
