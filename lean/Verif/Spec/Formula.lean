import Verif.Model.MatcherDef

/-!
# Boolean formulas over atomic expressions

A formula is a disjunction of conjunctions of units; a unit is an atomic expression (a token list) or
a formula in brackets.
-/

namespace Fastac

inductive Operand where
  | atom (ts : Toks)
  | paren (f : List (List Operand))

/-- A disjunction of conjunctions. -/
abbrev Formula := List (List Operand)

def Tok.lp : Tok := ⟨.clause, s% "("⟩
def Tok.rp : Tok := ⟨.clauseClose, s% ")"⟩
def Tok.and : Tok := ⟨.logicalOp, s% "&&"⟩
def Tok.or : Tok := ⟨.logicalOp, s% "||"⟩

mutual
/-- The tokens of an operand. -/
def Operand.toks : Operand → Toks
  | .atom ts => ts
  | .paren f => Tok.lp :: (Operand.disjToks f ++ [Tok.rp])
/-- The operands separated by `&&`. -/
def Operand.conjToks : List Operand → Toks
  | [] => []
  | [u] => Operand.toks u
  | u :: v :: us => Operand.toks u ++ Tok.and :: Operand.conjToks (v :: us)
/-- The conjunctions separated by `||`. -/
def Operand.disjToks : List (List Operand) → Toks
  | [] => []
  | [c] => Operand.conjToks c
  | c :: d :: cs => Operand.conjToks c ++ Tok.or :: Operand.disjToks (d :: cs)
end

def Formula.toks (f : Formula) : Toks := Operand.disjToks f

mutual
/-- Truth of an operand under a valuation of the atoms. -/
def Operand.truth (ν : Toks → Bool) : Operand → Bool
  | .atom ts => ν ts
  | .paren f => Operand.disjTruth ν f
def Operand.conjTruth (ν : Toks → Bool) : List Operand → Bool
  | [] => true
  | u :: us => Operand.truth ν u && Operand.conjTruth ν us
def Operand.disjTruth (ν : Toks → Bool) : List (List Operand) → Bool
  | [] => false
  | c :: cs => Operand.conjTruth ν c || Operand.disjTruth ν cs
end

/-- Truth of a formula: some conjunction has all its operands true. -/
def Formula.truth (ν : Toks → Bool) (f : Formula) : Bool := Operand.disjTruth ν f

/-- Bracket depth after reading a token. -/
def tokDepth (d : Int) (t : Tok) : Int :=
  match t.kind with
  | .clause => d + 1
  | .clauseClose => d - 1
  | _ => d

/-- `ts`, read from depth `d`, is balanced: it never gets below depth 0 and ends at depth 0. -/
def balancedFrom : Int → Toks → Bool
  | d, [] => d == 0
  | d, t :: ts => decide (0 ≤ tokDepth d t) && balancedFrom (tokDepth d t) ts

/-- No logical operator outside brackets. -/
def noTopOp : Int → Toks → Bool
  | _, [] => true
  | d, t :: ts => !(t.kind == .logicalOp && d == 0) && noTopOp (tokDepth d t) ts

/-- Some proper, non-empty prefix is balanced (so that the list is not one big bracket). -/
def splitsEarly : Int → Toks → Bool
  | _, [] => false
  | d, t :: ts => (tokDepth d t == 0 && !ts.isEmpty) || splitsEarly (tokDepth d t) ts

/-- An atomic expression: non-empty, balanced, without logical operator outside brackets, and not
entirely wrapped in a pair of brackets (then it is a bracketed operand). -/
def isAtom (ts : Toks) : Bool :=
  !ts.isEmpty && balancedFrom 0 ts && noTopOp 0 ts &&
    (splitsEarly 0 ts || decide (ts.head?.map (·.kind) ≠ some .clause))

mutual
/-- All atoms are atomic expressions, no conjunction and no disjunction is empty. -/
def Operand.wf : Operand → Bool
  | .atom ts => isAtom ts
  | .paren f => !f.isEmpty && Operand.disjWf f
def Operand.conjWf : List Operand → Bool
  | [] => true
  | u :: us => Operand.wf u && Operand.conjWf us
def Operand.disjWf : List (List Operand) → Bool
  | [] => true
  | c :: cs => (!c.isEmpty && Operand.conjWf c) && Operand.disjWf cs
end

def Formula.wf (f : Formula) : Bool := !f.isEmpty && Operand.disjWf f

mutual
/-- Whether `&&` occurs as a logical operator. -/
def Operand.hasAnd : Operand → Bool
  | .atom _ => false
  | .paren f => Operand.disjHasAnd f
def Operand.conjHasAnd : List Operand → Bool
  | [] => false
  | u :: us => !us.isEmpty || Operand.hasAnd u || Operand.conjHasAnd us
def Operand.disjHasAnd : List (List Operand) → Bool
  | [] => false
  | c :: cs => Operand.conjHasAnd c || Operand.disjHasAnd cs
end

mutual
/-- Whether `||` occurs as a logical operator. -/
def Operand.hasOr : Operand → Bool
  | .atom _ => false
  | .paren f => Operand.disjHasOr f
def Operand.conjHasOr : List Operand → Bool
  | [] => false
  | u :: us => Operand.hasOr u || Operand.conjHasOr us
def Operand.disjHasOr : List (List Operand) → Bool
  | [] => false
  | c :: cs => !cs.isEmpty || Operand.conjHasOr c || Operand.disjHasOr cs
end

mutual
/-- In no conjunction does an operand containing `&&` stand to the right of one containing `||`. -/
def Operand.safe : Operand → Bool
  | .atom _ => true
  | .paren f => Operand.disjSafe f
def Operand.conjSafe : List Operand → Bool
  | [] => true
  | u :: us => Operand.safe u && (!Operand.hasOr u || us.all (fun v => !Operand.hasAnd v)) &&
      Operand.conjSafe us
def Operand.disjSafe : List (List Operand) → Bool
  | [] => true
  | c :: cs => Operand.conjSafe c && Operand.disjSafe cs
end

def Formula.safe (f : Formula) : Bool := Operand.disjSafe f

end Fastac
