/-
Vocabulary for the properties of assignments and settings.
-/
import Verif.Model.Custom

namespace Verif.Spec

/-- One assignment statement of the user program. -/
inductive Assign (P I : Type) where
  | pm (v : PyObj P I)
  | init (v : PyObj P I)

/-- The user program: assignments one after the other, exceptions caught; returns the object and the
outcome of every assignment. -/
def runAssigns {P I : Type} (len : P → ℕ) (nv : I → ℕ) :
    Slots P I → List (Assign P I) → Slots P I × List (Option PyErr)
  | o, [] => (o, [])
  | o, .pm v :: rest =>
    let (o, err) := o.setPm len v
    let (o, errs) := runAssigns len nv o rest
    (o, err :: errs)
  | o, .init v :: rest =>
    let (o, err) := o.setInit nv v
    let (o, errs) := runAssigns len nv o rest
    (o, err :: errs)

/-- The last model assigned to `pm` (`none` if there is none). -/
def lastModel {P I : Type} (l : List (Assign P I)) : Option P :=
  (l.filterMap (fun | .pm (.model p) => some p | _ => none)).getLast?

/-- The last initializer assigned to `init`. -/
def lastInit {P I : Type} (l : List (Assign P I)) : Option I :=
  (l.filterMap (fun | .init (.init i) => some i | _ => none)).getLast?

/-- What an assignment should answer: nothing for an object of the right kind and size,
`ValueError` for the wrong kind, `Exception` for the wrong size. -/
def answer {P I : Type} (len : P → ℕ) (nv : I → ℕ) (n : ℕ) : Assign P I → Option PyErr
  | .pm (.model p) => if len p = n then none else some .exception
  | .init (.init i) => if nv i = n then none else some .exception
  | _ => some .valueError

/-- The key under which `read_settings` looks for a value, given the key used by `export_settings`. -/
def readKey (key : String) : String :=
  if key = "size_gen" then "size-gen" else if key = "dead_iter:" then "dead_iter" else key

end Verif.Spec
