import Verif.Base

/-!
# Path patterns (util/builtin_operators.go:151-238)

The separator is a single ASCII character and prefix and suffix are ASCII bytes, as in all uses in the
code; comparing the first or last byte is then comparing the first or last character.
-/

namespace Fastac

/-- `nextSegment` (builtin_operators.go:151-157): the first segment, what follows the separator, and
whether there is no separator. -/
def nextSegment (sep : Char) : Str → Str × Str × Bool
  | [] => ([], [], true)
  | c :: t =>
    if c = sep then ([], t, false)
    else (c :: (nextSegment sep t).1, (nextSegment sep t).2)

/-- A byte argument of the helpers; `none` is the byte 0, no condition. -/
def byteIs (b : Option Char) (c : Option Char) : Bool :=
  match b with
  | none => true
  | some b => decide (c = some b)

/-- `isDynamicSegment` (builtin_operators.go:159-166). -/
def isDynamicSegment (pre suf : Option Char) (seg : Str) : Bool :=
  if seg = [] then false
  else byteIs pre seg.head? && byteIs suf seg.getLast?

/-- `PathMatchHelper` (builtin_operators.go:168-192), stopped after `fuel` nested calls; `none` means
that it had not returned by then. -/
def pathMatchF (sep : Char) (pre suf : Option Char) : Nat → Str → Str → Option Bool
  | 0, _, _ => none
  | n + 1, path, pattern =>
    if path = pattern || pattern = ['*'] then some true
    else
      let (pathS, path', lastPath) := nextSegment sep path
      let (patternS, pattern', lastPattern) := nextSegment sep pattern
      if pathS = patternS || isDynamicSegment pre suf patternS then
        if lastPath != lastPattern then some false
        else pathMatchF sep pre suf n path' pattern'
      else if patternS = ['*'] then
        if !lastPattern && lastPath then some false
        else
          match pathMatchF sep pre suf n path' pattern' with
          | none => none
          | some true => some true
          | some false => pathMatchF sep pre suf n path' ('*' :: sep :: pattern')
      else some false

/-- The number of calls of `PathMatchHelper` that one call leads to, itself included (up to the same
nesting). -/
def pathMatchCalls (sep : Char) (pre suf : Option Char) : Nat → Str → Str → Nat
  | 0, _, _ => 0
  | n + 1, path, pattern =>
    if path = pattern || pattern = ['*'] then 1
    else
      let (pathS, path', lastPath) := nextSegment sep path
      let (patternS, pattern', lastPattern) := nextSegment sep pattern
      if pathS = patternS || isDynamicSegment pre suf patternS then
        if lastPath != lastPattern then 1
        else 1 + pathMatchCalls sep pre suf n path' pattern'
      else if patternS = ['*'] then
        if !lastPattern && lastPath then 1
        else
          match pathMatchF sep pre suf n path' pattern' with
          | none => 1 + pathMatchCalls sep pre suf n path' pattern'
          | some true => 1 + pathMatchCalls sep pre suf n path' pattern'
          | some false => 1 + pathMatchCalls sep pre suf n path' pattern' +
              pathMatchCalls sep pre suf n path' ('*' :: sep :: pattern')
      else 1

/-- `PathMatch` (builtin_operators.go:211-213): the result after `fuel` nested calls. -/
def PathMatchF (fuel : Nat) (path pattern : Str) : Option Bool := pathMatchF '/' (some ':') none fuel path pattern

/-- `PathMatch2` (builtin_operators.go:215-217). -/
def PathMatch2F (fuel : Nat) (path pattern : Str) : Option Bool :=
  pathMatchF '/' (some '{') (some '}') fuel path pattern

/-- `IsPathPatternHelper` (builtin_operators.go:194-209). -/
def isPathPatternHelper (sep : Char) (pre suf : Option Char) (pattern : Str) : Bool :=
  (splitC sep pattern).any fun seg =>
    if seg = [] then false
    else seg = ['*'] || (byteIs pre seg.head? && byteIs suf seg.getLast?)

/-- `IsPathPattern` (builtin_operators.go:219-221). -/
def IsPathPattern (s : Str) : Bool := isPathPatternHelper '/' (some ':') none s

/-- `IsPathPattern2` (builtin_operators.go:223-225). -/
def IsPathPattern2 (s : Str) : Bool := isPathPatternHelper '/' (some '{') (some '}') s

end Fastac
