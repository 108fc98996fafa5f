import Verif.Model.FileAdapter
import Verif.Spec.Storage

/-!
# Rules that can be stored in a file, and the rules in a file
-/

namespace Fastac

/-- A rule that the file format can hold: at least one field, not just one empty field; no comma, quote or
line break; no field starts with a blank; the first does not start with `#` and the last does not end with
a carriage return; the line is shorter than 64 KiB. -/
structure Storable (r : Rule) : Prop where
  ne : r ≠ []
  notBlank : r ≠ [[]]
  chars : ∀ f ∈ r, ∀ c ∈ f, c ≠ ',' ∧ c ≠ '"' ∧ c ≠ '\n'
  lead : ∀ f ∈ r, ∀ c, f.head? = some c → isSpace c = false
  noComment : ∀ f, r.head? = some f → f.head? ≠ some '#'
  noCR : ∀ f, r.getLast? = some f → f.getLast? ≠ some '\r'
  short : byteLen (join (s% ", ") r) < 65536

/-- A file that holds exactly the rules `rs`, in that order: loading makes one `AddRule` call for each of
them, if none fails, and then succeeds. -/
def Holds (file : Option Str) (rs : List Rule) : Prop := fileLoad file = LoadProg.ofList file (.ok ()) rs

end Fastac
