/-!
# Text as lists of characters
-/

namespace Mfmg

open Lean in
/-- `chars! "ab"` is the list `['a', 'b']`. -/
macro "chars!" s:str : term => do
  let cs := (s.getString.toList.map (fun c => Syntax.mkCharLit c)).toArray
  `(([$cs,*] : List Char))

end Mfmg
