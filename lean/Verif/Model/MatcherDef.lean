import Verif.Model.Matcher

/-!
# Splitting a matcher expression into stages (`model/defs/matcher_def.go`)
-/

namespace Fastac

/-- Kinds of govaluate tokens that `matcher_def.go` distinguishes. -/
inductive TokKind where
  | string
  | clause
  | clauseClose
  | accessor
  | function
  | pre
  | separator
  | logicalOp
  | other
deriving Repr, DecidableEq

/-- `govaluate.ExpressionToken`: kind and printed value (`fmt.Sprintf("%v", …)` of the value; for an
accessor the parts joined with `.`, for a function its name). -/
structure Tok where
  kind : TokKind
  text : Str
deriving Repr, DecidableEq

abbrev Toks := List Tok

/-- State of the loop of `nextOperator` (matcher_def.go:72-75): bracket depth, last operator index,
whether the whole list still looks like one bracket. -/
structure NextOp where
  depth : Int
  index : Option Nat
  isBracket : Bool
deriving Repr, DecidableEq

/-- The loop of `nextOperator` (matcher_def.go:76-95) from index `i` on; `n` is `len(tokens)`.
`index = -1` is `none`. -/
def nextOpLoop (n : Nat) : Toks → Nat → NextOp → Option Nat × Bool
  | [], _, s => (s.index, s.isBracket)
  | t :: ts, i, s =>
    match t.kind with
    | .clause => nextOpLoop n ts (i + 1) { s with depth := s.depth + 1 }
    | .clauseClose =>
      let d := s.depth - 1
      let b := if s.isBracket = true ∧ d = 0 ∧ i ≠ n - 1 then false else s.isBracket
      nextOpLoop n ts (i + 1) { s with depth := d, isBracket := b }
    | .logicalOp =>
      if s.depth ≠ 0 then nextOpLoop n ts (i + 1) s
      else if t.text = s% "||" then (some i, false)
      else nextOpLoop n ts (i + 1) { s with index := some i }
    | _ => nextOpLoop n ts (i + 1) s

/-- `nextOperator` (matcher_def.go:71-96); `tokens[0]` panics on an empty list. -/
def nextOperator (tokens : Toks) : Res (Option Nat × Bool) :=
  match tokens with
  | [] => .panic
  | t :: _ => .ok (nextOpLoop tokens.length tokens 0 ⟨0, none, decide (t.kind = .clause)⟩)

/-- First switch of `tokensToExpr` (matcher_def.go:101-114). -/
def tokText (t : Tok) : Str :=
  match t.kind with
  | .string => '\'' :: t.text ++ ['\'']
  | .clause => ['(']
  | .clauseClose => [')']
  | _ => t.text

/-- Second switch of `tokensToExpr` (matcher_def.go:116-131): the space after a token.  The `break`
inside `case ACCESSOR` leaves the switch in either case, so no space is ever written after an
accessor. -/
def tokSpace (t : Tok) (next : Option Tok) : Str :=
  match t.kind with
  | .pre | .clause | .function | .accessor => []
  | _ =>
    match next with
    | none => []
    | some u => if u.kind ≠ .clauseClose ∧ u.kind ≠ .separator then [' '] else []

/-- `tokensToExpr` (matcher_def.go:98-135). -/
def tokensToExpr : Toks → Str
  | [] => []
  | t :: ts => tokText t ++ tokSpace t ts.head? ++ tokensToExpr ts

/-! ## Slices of pending operands

`buildExprTree` passes the slice `and` down by value and both extends it with `append` and shortens
it with `and[:len(and)-1]`.  Two slices may share a backing array, so the arrays are explicit. -/

/-- A slice of type `[][]ExpressionToken` starting at offset 0 of its backing array. -/
structure Slice where
  arr : Nat
  len : Nat
deriving Repr, DecidableEq

/-- The backing arrays; the length of an array is its capacity.  Array 0 has capacity 0 and backs
the nil slice. -/
abbrev Heap := List (List Toks)

def Heap.init : Heap := [[]]
def Slice.nil : Slice := ⟨0, 0⟩

/-- The elements of a slice. -/
def Slice.view (s : Slice) (h : Heap) : List Toks := (h[s.arr]?.getD []).take s.len

/-- `append(s, x)`: in place when the capacity allows, otherwise into a new array; `grow n` is the
number of spare elements Go's growth policy allocates beyond the `n` needed ones. -/
def Slice.append (grow : Nat → Nat) (h : Heap) (s : Slice) (x : Toks) : Heap × Slice :=
  let a := h[s.arr]?.getD []
  if s.len < a.length then (h.set s.arr (a.set s.len x), ⟨s.arr, s.len + 1⟩)
  else (h ++ [a.take s.len ++ x :: List.replicate (grow (s.len + 1)) []], ⟨h.length, s.len + 1⟩)

/-- `buildExprTree` (matcher_def.go:137-167).  Returns the stages appended to `node.children` and the
arrays.  Recursion is bounded by `fuel`; every call is on fewer tokens in total, so that the number of
tokens plus one suffices. -/
def buildExprTree (grow : Nat → Nat) : Nat → Heap → Toks → Slice → Res (List Stage × Heap)
  | 0, _, _, _ => .panic
  | fuel + 1, h, tokens, and =>
    (nextOperator tokens).bind fun (index, isBracket) =>
      if isBracket then
        buildExprTree grow fuel h ((tokens.drop 1).take (tokens.length - 2)) and
      else
        match index with
        | none =>
          let expr := tokensToExpr tokens
          if and.len > 0 then
            match (and.view h)[and.len - 1]? with
            | none => .panic
            | some bTokens =>
              (buildExprTree grow fuel h bTokens ⟨and.arr, and.len - 1⟩).map
                (fun (cs, h') => ([.mk expr cs], h'))
          else .ok ([.mk expr []], h)
        | some i =>
          if (tokens[i]?.map (·.text)) = some (s% "||") then
            (buildExprTree grow fuel h (tokens.take i) and).bind fun (cs, h1) =>
              (buildExprTree grow fuel h1 (tokens.drop (i + 1)) and).map
                (fun (cs', h2) => (cs ++ cs', h2))
          else
            let (h1, and') := and.append grow h (tokens.drop (i + 1))
            buildExprTree grow fuel h1 (tokens.take i) and'

/-- `MatcherDef.Build` (matcher_def.go:173-194) after govaluate has produced the tokens: the root
stage, or an error (a recovered panic). -/
def buildMatcherDef (grow : Nat → Nat) (tokens : Toks) : Res Stage :=
  match buildExprTree grow (tokens.length + 1) Heap.init tokens Slice.nil with
  | .ok (cs, _) => .ok (.mk [] cs)
  | _ => .err

/-- `MatcherDef.Build` (matcher_def.go:173-194) on the text of a matcher; `lex` is the lexer of govaluate
for the functions known at that time.  A panic is turned into an error. -/
def buildText (lex : Str → Res Toks) (grow : Nat → Nat) (text : Str) : Res Stage :=
  match lex (replaceArgs text) with
  | .ok tokens => buildMatcherDef grow tokens
  | _ => .err

end Fastac
