import Verif.Base

/-!
# Definitions (`model/defs/defs.go`, `model/defs/util.go`, `model/eft/eft.go`, `util/util.go`)
-/

namespace Fastac

/-- `util.Hash` (util/util.go:29-31): the fields joined by `DefaultSep = ","` (util/util.go:9). -/
def hash (rule : Rule) : Str := join [','] rule

/-- `util.Join2D` (util/util.go:11-17). -/
def join2D (elems : List Rule) (sep : Str) : List Str := elems.map (join sep)

/-- `strings.ReplaceAll(s, " ", "")`, as used in model/defs/defs.go:48,130,182. -/
def removeSpaces (s : Str) : Str := s.filter (fun c => c ≠ ' ')

/-- The loop `for i, arg := range args { argIndex[key+"_"+arg] = i }`
(model/defs/defs.go:50-52 and 132-134); `i` is the index of the first element of the list. -/
def buildArgIndex (key : Str) : List Str → Nat → GoMap Str Nat → GoMap Str Nat
  | [], _, m => m
  | a :: as, i, m => buildArgIndex key as (i + 1) (m.set (key ++ ['_'] ++ a) i)

/-- `defs.PolicyDef` (model/defs/defs.go:39-43); also used for `defs.RequestDef`
(model/defs/defs.go:117-121), which has the same fields and the same constructor. -/
structure PolicyDef where
  key : Str
  args : List Str
  argIndex : GoMap Str Nat
deriving Repr

/-- `defs.NewPolicyDef` / `defs.NewRequestDef` (model/defs/defs.go:45-54, 127-136). -/
def newPolicyDef (key arguments : Str) : PolicyDef :=
  let args := splitC ',' (removeSpaces arguments)
  { key := key, args := args, argIndex := buildArgIndex key args 0 [] }

/-- `PolicyDef.Has` (model/defs/defs.go:64-67). -/
def PolicyDef.has (d : PolicyDef) (name : Str) : Bool := d.argIndex.has name

/-- `PolicyDef.GetParameter` (model/defs/defs.go:85-99); `none` is a returned error.
The same code serves `RequestDef.GetParameter` (lines 143-156) with other element type. -/
def PolicyDef.getParameter {α : Type} (d : PolicyDef) (rule : List α) (name : Str) : Option α :=
  match d.argIndex.get name with
  | none => none
  | some index =>
    let index := if rule.length > d.args.length then index + 1 else index
    rule[index]?

/-- `PolicyDef.GetParameters` (model/defs/defs.go:101-111); `none` is a returned error
(the returned slice is then `nil`). -/
def PolicyDef.getParameters {α : Type} (d : PolicyDef) (rule : List α) : List Str → Option (List α)
  | [] => some []
  | n :: ns =>
    match d.getParameter rule n with
    | none => none
    | some v =>
      match d.getParameters rule ns with
      | none => none
      | some vs => some (v :: vs)

/-- `types.Effect` with the values of model/eft/eft.go:20-24. -/
inductive Effect where
  | allow
  | indeterminate
  | deny
deriving Repr, DecidableEq

/-- `PolicyDef.GetEft` (model/defs/defs.go:69-83).  On a `GetParameter` error the ignored value is
the empty string (defs.go:88,95), hence `getD []`. -/
def PolicyDef.getEft (d : PolicyDef) (values : Rule) : Effect :=
  let eftArg := d.key ++ s% "_eft"
  if d.has eftArg then
    let eftStr := (d.getParameter values eftArg).getD []
    if eftStr = [] ∨ eftStr = s% "allow" then .allow
    else if eftStr = s% "deny" then .deny
    else .indeterminate
  else .allow

/-- `defs.NewRoleDef(...).NArgs()` (model/defs/defs.go:203-216). -/
def roleDefNArgs (arguments : Str) : Nat := (splitC ',' arguments).length

/-- `defs.SplitKey` (model/defs/util.go:10-16). -/
def splitKey (key : Str) : Str × Str :=
  match splitC '.' key with
  | [] => ([], [])
  | [a] => (a, [])
  | a :: rest => (a, join ['.'] rest)

/-! ## Argument references in expressions (regular expressions of model/defs/defs.go:30-32)

The expressions are deterministic (digits, `_`/`.` and word characters are recognised greedily and
no backtracking can succeed where the greedy choice fails, since `[0-9]` and `_`, `.` are disjoint),
so `regexp` search is a left-to-right scan. -/

/-- `[0-9]`. -/
def isDigitC (c : Char) : Bool := decide ('0' ≤ c) && decide (c ≤ '9')

/-- `[A-Za-z0-9_]`. -/
def isWordC (c : Char) : Bool :=
  (decide ('A' ≤ c) && decide (c ≤ 'Z')) || (decide ('a' ≤ c) && decide (c ≤ 'z')) ||
  isDigitC c || c == '_'

/-- A match of `([start][0-9]*)([sep])([A-Za-z0-9_]+)` at the beginning of `s`: the three groups
and the rest of the input. -/
def matchArg (start sep : Char → Bool) (s : Str) : Option (Str × Char × Str × Str) :=
  match s with
  | [] => none
  | c :: t =>
    if start c then
      match t.dropWhile isDigitC with
      | [] => none
      | x :: t2 =>
        if sep x then
          let w := t2.takeWhile isWordC
          if w = [] then none
          else some (c :: t.takeWhile isDigitC, x, w, t2.dropWhile isWordC)
        else none
    else none

/-- `FindAllString(s, -1)` for a regexp of this shape; `fuel ≥ s.length` suffices. -/
def findArgsAux (start sep : Char → Bool) : Nat → Str → List Str
  | 0, _ => []
  | _ + 1, [] => []
  | n + 1, c :: t =>
    match matchArg start sep (c :: t) with
    | some (a, x, w, rest) => (a ++ x :: w) :: findArgsAux start sep n rest
    | none => findArgsAux start sep n t

/-- `pArgReg.FindAllString(s, -1)` (model/defs/defs.go:31, matcher_def.go:21). -/
def findPArgs (s : Str) : List Str :=
  findArgsAux (fun c => c == 'p' || c == 'g') (fun c => c == '_') s.length s

/-- `rArgReg.FindAllString(s, -1)` (model/defs/defs.go:32, matcher_def.go:22). -/
def findRArgs (s : Str) : List Str :=
  findArgsAux (fun c => c == 'r') (fun c => c == '_') s.length s

/-- `ArgReg.ReplaceAllString(s, "${1}_${3}")` (model/defs/defs.go:30, matcher_def.go:188,
matcher.go:252); `fuel ≥ s.length` suffices. -/
def replaceArgsAux : Nat → Str → Str
  | 0, s => s
  | _ + 1, [] => []
  | n + 1, c :: t =>
    match matchArg (fun c => c == 'p' || c == 'r' || c == 'g') (fun c => c == '.' || c == '_')
        (c :: t) with
    | some (a, _, w, rest) => a ++ '_' :: w ++ replaceArgsAux n rest
    | none => c :: replaceArgsAux n t

def replaceArgs (s : Str) : Str := replaceArgsAux s.length s

end Fastac
