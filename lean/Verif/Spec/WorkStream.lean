import Verif.Model.WorkStream

/-!
# Legal schedules of `WorkStream::run`
-/

set_option autoImplicit false

namespace Mfmg

/-- Is `es` a legal continuation for `n` items?  `next` is the number of items copied so far,
`pending c` the item whose result waits in copy object `c`, `worked i` whether item `i` has been
worked on.  Every item is worked on once, in any order, with any scratch object and with any copy
object that is not waiting; the items are copied in order; at the end all have been copied. -/
def Legal (n : ℕ) : List WSEvent → ℕ → (ℕ → Option ℕ) → (ℕ → Bool) → Prop
  | [], next, _, _ => next = n
  | .work i _ c :: es, next, pending, worked =>
    i < n ∧ worked i = false ∧ pending c = none ∧
      Legal n es next (Function.update pending c (some i)) (Function.update worked i true)
  | .copy i c :: es, next, pending, worked =>
    i = next ∧ pending c = some i ∧ Legal n es (next + 1) (Function.update pending c none) worked

/-- A complete legal schedule for `n` items. -/
def LegalSchedule (n : ℕ) (es : List WSEvent) : Prop :=
  Legal n es 0 (fun _ => none) (fun _ => false)

end Mfmg
