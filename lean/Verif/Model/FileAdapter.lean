import Verif.Model.Storage

/-!
# The file adapter (storage/adapter/fileadapter.go)

Texts are sequences of characters (valid UTF-8); invalid UTF-8 is not modelled.  `bufio.Scanner`,
`encoding/csv` and `bufio.Writer` are library code, modelled by what they do on the inputs that occur
here: one line per scanner token, one record without line break per csv reader.
-/

namespace Fastac

/-- `unicode.IsSpace`. -/
def isSpace (c : Char) : Bool :=
  let n := c.toNat
  (9 ≤ n && n ≤ 13) || n == 32 || n == 0x85 || n == 0xA0 || n == 0x1680 || (0x2000 ≤ n && n ≤ 0x200A) ||
    n == 0x2028 || n == 0x2029 || n == 0x202F || n == 0x205F || n == 0x3000

/-- The number of bytes of a text. -/
def byteLen (s : Str) : Nat := (s.map Char.utf8Size).sum

/-- `dropCR` of bufio/scan.go, and the same in `csv.Reader.readLine`. -/
def dropCR (s : Str) : Str := if s.getLast? = some '\r' then s.dropLast else s

/-- Where the csv reader is: before a field (skipping blanks), in an unquoted field, in a quoted field,
or after a quote in a quoted field. -/
inductive CsvMode where
  | start
  | bare (field : Str)
  | quoted (field : Str)
  | quote (field : Str)

/-- `csv.Reader.readRecord` with `Comma = ','`, `TrimLeadingSpace`, no `LazyQuotes`, on the rest of a
line without line break. -/
def csvFields : CsvMode → List Str → Str → Res Rule
  | .start, fs, [] => .ok (fs ++ [[]])
  | .start, fs, c :: cs =>
    if isSpace c then csvFields .start fs cs
    else if c = '"' then csvFields (.quoted []) fs cs
    else if c = ',' then csvFields .start (fs ++ [[]]) cs
    else csvFields (.bare [c]) fs cs
  | .bare f, fs, [] => .ok (fs ++ [f])
  | .bare f, fs, c :: cs =>
    if c = ',' then csvFields .start (fs ++ [f]) cs
    else if c = '"' then .err
    else csvFields (.bare (f ++ [c])) fs cs
  | .quoted _, _, [] => .err
  | .quoted f, fs, c :: cs =>
    if c = '"' then csvFields (.quote f) fs cs else csvFields (.quoted (f ++ [c])) fs cs
  | .quote f, fs, [] => .ok (fs ++ [f])
  | .quote f, fs, c :: cs =>
    if c = '"' then csvFields (.quoted (f ++ ['"'])) fs cs
    else if c = ',' then csvFields .start (fs ++ [f]) cs
    else .err

/-- `csv.Reader.Read` on a single line: a comment or an empty line is followed by EOF, an error. -/
def csvRead (line : Str) : Res Rule :=
  let line := dropCR line
  if line.head? = some '#' then .err
  else if line = [] then .err
  else csvFields .start [] line

/-- `LoadPolicyLine` (fileadapter.go:30-47) up to the call of `AddRule`: nothing to do, or a rule. -/
def policyLine (line : Str) : Res (Option Rule) :=
  if line = [] || line.head? = some '#' then .ok none
  else (csvRead line).map some

/-- A line that does not fit into the scanner's buffer (`bufio.MaxScanTokenSize`). -/
def tooLong (line : Str) : Bool := decide (65536 ≤ byteLen line)

/-- The loop of `LoadPolicy` (fileadapter.go:88-96) over the texts between line breaks.  The scanner
gives no token for an empty text after the last line break; `LoadPolicyLine` would skip it anyway. -/
def loadLines {σ : Type} (s : σ) : List Str → LoadProg σ
  | [] => .done s (.ok ())
  | l :: ls =>
    if tooLong l then .done s .err
    else
      match policyLine (dropCR l) with
      | .ok none => loadLines s ls
      | .ok (some r) => .add r (fun b => if b.isSome then loadLines s ls else .done s .err)
      | .err => .done s .err
      | .panic => .done s .panic

/-- `FileAdapter.LoadPolicy` (fileadapter.go:81-96); `none` is a missing file. -/
def fileLoad (file : Option Str) : LoadProg (Option Str) :=
  match file with
  | none => .done none .err
  | some text => loadLines file (splitC '\n' text)

/-- What `SavePolicy` does to the file (fileadapter.go:98-132). -/
inductive FsStep where
  | remove
  | create
  | write (chunk : Str)
deriving DecidableEq, Repr

def FsStep.apply : Option Str → FsStep → Option Str
  | _, .remove => none
  | _, .create => some []
  | some t, .write c => some (t ++ c)
  | none, .write _ => none

/-- The line of a rule (fileadapter.go:122). -/
def ruleLine (r : Rule) : Str := join (s% ", ") r ++ ['\n']

/-- The text for a list of rules. -/
def fileText (rules : List Rule) : Str := rules.flatMap ruleLine

/-- The steps of `SavePolicy`, when the buffered writer passes the text on in the given chunks. -/
def saveSteps (file : Option Str) (chunks : List Str) : List FsStep :=
  (if file.isSome then [.remove] else []) ++ .create :: chunks.map .write

/-- The choices that are not the adapter's: the order in which rules are enumerated, the chunks in which
a text is written, and the step at which the operating system reports an error. -/
structure Env where
  order : List Rule → List Rule
  chunks : Str → List Str
  fail : Option Str → List FsStep → Option Nat

/-- Rules are enumerated each once, chunks make up the text. -/
structure Env.Ok (env : Env) : Prop where
  order : ∀ l, (env.order l).Perm l
  chunks : ∀ t, (env.chunks t).flatten = t

/-- `FileAdapter.SavePolicy` (fileadapter.go:116-132) with `getWriter` (98-114). -/
def fileSave (env : Env) (file : Option Str) (rules : List Rule) : Option Str × Res Unit :=
  let steps := saveSteps file (env.chunks (fileText (env.order rules)))
  match env.fail file steps with
  | none => (steps.foldl FsStep.apply file, .ok ())
  | some n => ((steps.take n).foldl FsStep.apply file, .err)

/-- Loading into a `RuleSet` (fileadapter.go:53-79), whose `AddRule` returns no error. -/
def Policy.load {σ : Type} (p : Policy) : LoadProg σ → Policy × Res Unit
  | .done _ r => (p, r)
  | .add rule next => Policy.load (p.addRule rule).1 (next (some (p.addRule rule).2.1))

/-- `AddRule`, `RemoveRule`, `AddRules`, `RemoveRules` (fileadapter.go:134-192): load, change, save. -/
def fileChange (env : Env) (change : Policy → Policy) (file : Option Str) : Option Str × Res Unit :=
  match Policy.empty.load (fileLoad file) with
  | (p, .ok ()) => fileSave env file (change p).rules
  | (_, .err) => (file, .err)
  | (_, .panic) => (file, .panic)

/-- The change asked for by a call. -/
def Call.change : Call → Policy → Policy
  | .one .add r, p => (p.addRule r).1
  | .one .remove r, p => (p.removeRule r).1
  | .batch .add rs, p => rs.foldl (fun (p : Policy) r => (p.addRule r).1) p
  | .batch .remove rs, p => rs.foldl (fun (p : Policy) r => (p.removeRule r).1) p

/-- The file adapter; it has the methods of both kinds, so `Flush` uses it as a batch adapter. -/
def fileAdapter (env : Env) : Adapter (Option Str) where
  kind := .batch
  step file c := fileChange env c.change file
  load := fileLoad
  save := fileSave env

end Fastac
