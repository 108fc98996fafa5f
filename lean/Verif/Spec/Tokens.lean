import Verif.Model.MatcherDef
import Verif.Spec.Words

/-!
# Token lists as a lexer of matcher expressions makes them
-/

namespace Fastac

/-- The characters of operators. -/
def isSymC (c : Char) : Bool := "=!<>~+-*/%&|^?:".toList.contains c

/-- The characters of names, numbers and accessors. -/
def isNameC (c : Char) : Bool := isWordC c || c == '.'

/-- A name or number: word characters and dots, not starting with a dot. -/
def isName (s : Str) : Bool := (s.head?.map isWordC).getD false && s.all isNameC

/-- What a token may look like: a string without quotes, brackets, a comma, a prefix of one character, a
name (variable, number, `in`, …; with dots only if it is a number), a function name, an accessor (a name
with dots), or an operator. -/
def Tok.plain (t : Tok) : Bool :=
  match t.kind with
  | .string => !t.text.contains '\''
  | .clause => t.text == s% "("
  | .clauseClose => t.text == s% ")"
  | .separator => t.text == s% ","
  | .pre => t.text == s% "!" || t.text == s% "-" || t.text == s% "~"
  | .function => isName t.text && !t.text.contains '.'
  | .accessor => isName t.text && t.text.contains '.' && !(t.text.head?.map isDigitC).getD false
  | .logicalOp => t.text == s% "&&" || t.text == s% "||"
  | .other =>
    (isName t.text && (!t.text.contains '.' || (t.text.head?.map isDigitC).getD false)) ||
    (t.text != [] && t.text.all isSymC && t.text != s% "&&" && t.text != s% "||")

/-- An operator. -/
def Tok.isOp (t : Tok) : Bool :=
  t.kind == .logicalOp || (t.kind == .other && (t.text.head?.map isSymC).getD false)

/-- Which token may follow: an operator has a right operand, a function its arguments, a prefix is not
followed by an operator, and an accessor is not followed by a name, a string or a prefix. -/
def Tok.mayPrecede (t : Tok) (next : Option Tok) : Bool :=
  match t.kind, next with
  | .function, some u => u.kind == .clause
  | .function, none => false
  | .pre, some u => !u.isOp
  | .pre, none => true
  | .accessor, some u => u.isOp || u.kind == .clause || u.kind == .clauseClose || u.kind == .separator
  | .accessor, none => true
  | _, some u => !t.isOp || (u.kind != .clauseClose && u.kind != .separator)
  | _, none => !t.isOp

/-- Token lists in which every token is plain and is followed by a token that may follow it. -/
def PlainToks : Toks → Bool
  | [] => true
  | t :: ts => t.plain && t.mayPrecede ts.head? && PlainToks ts

end Fastac
