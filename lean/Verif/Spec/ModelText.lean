import Verif.Model.ModelText
import Verif.Spec.Model

/-!
# Plain configuration texts and readers of ini files
-/

namespace Fastac

/-- The characters allowed in the keys and section names of plain texts. -/
def keyChar (c : Char) : Bool := c.isAlphanum || c == '_'

/-- Printable ASCII without the characters that mean something special to go-ini within a value: the
comment signs, the continuation sign, the quotes that enclose raw values and the sign of references. -/
def valueChar (c : Char) : Bool :=
  decide (32 ≤ c.toNat) && decide (c.toNat ≤ 126) && !(s% "#;\\`\"%").contains c

def PlainKey (k : Str) : Prop := k ≠ [] ∧ ∀ c ∈ k, keyChar c = true

/-- A value that is read back as it is: it has no special characters, no blanks around it and does not
start with a quote. -/
def PlainValue (v : Str) : Prop :=
  v ≠ [] ∧ (∀ c ∈ v, valueChar c = true) ∧ v.head? ≠ some ' ' ∧ v.head? ≠ some '\'' ∧ v.getLast? ≠ some ' '

instance (k : Str) : Decidable (PlainKey k) := by unfold PlainKey; infer_instance
instance (v : Str) : Decidable (PlainValue v) := by unfold PlainValue; infer_instance

/-- Distinct sections with distinct plain keys and plain values. -/
def PlainData (secs : IniData) : Prop :=
  (secs.map Prod.fst).Nodup ∧
  ∀ s ∈ secs, PlainKey s.1 ∧ s.1 ≠ s% "DEFAULT" ∧ (s.2.map Prod.fst).Nodup ∧
    ∀ e ∈ s.2, PlainKey e.1 ∧ PlainValue e.2

/-- What is assumed of the reader: plain data printed as a text is read back, after the section that
go-ini puts in front of all others. -/
def ReadsPlain (read : Str → Res IniData) : Prop :=
  ∀ secs, PlainData secs → read (renderIni secs) = .ok ((s% "DEFAULT", []) :: secs)

/-! ## A simple reader -/

def blankC (c : Char) : Bool := c == ' ' || c == '\t' || c == '\r'

def trimL (s : Str) : Str := s.dropWhile blankC

def trim (s : Str) : Str := (trimL (trimL s).reverse).reverse

/-- `key = value` or `key : value`, with comments after the value. -/
def keyValue (line : Str) : Option (Str × Str) :=
  match line.dropWhile (fun c => !(c == '=' || c == ':')) with
  | [] => none
  | _ :: rest =>
    some (trim (line.takeWhile (fun c => !(c == '=' || c == ':'))),
      trim (rest.takeWhile (fun c => !(c == '#' || c == ';'))))

def readLines : List Str → Str × List (Str × Str) → IniData → Res IniData
  | [], cur, done => .ok (done ++ [cur])
  | l :: ls, cur, done =>
    match trim l with
    | [] => readLines ls cur done
    | c :: rest =>
      if c = '#' ∨ c = ';' then readLines ls cur done
      else if c = '[' then readLines ls (rest.takeWhile (fun c => c != ']'), []) (done ++ [cur])
      else
        match keyValue (c :: rest) with
        | none => .err
        | some e => readLines ls (cur.1, cur.2 ++ [e]) done

/-- A reader of ini files without quotes, continuation lines and references. -/
def simpleIni (text : Str) : Res IniData := readLines (splitC '\n' text) (s% "DEFAULT", []) []

namespace Model

/-- Keys and printed definitions are plain. -/
def PlainText (m : Model) : Prop := ∀ s ∈ m.sections, ∀ e ∈ s.2, PlainKey e.1 ∧ PlainValue e.2

instance (m : Model) : Decidable m.PlainText := by unfold PlainText; infer_instance

end Model

end Fastac
