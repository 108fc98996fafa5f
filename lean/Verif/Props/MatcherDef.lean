import Verif.Lemmas.Formula

/-!
# C11: the stages of a matcher have the meaning of its expression
-/

namespace Fastac

/-- C11, for expressions in which no conjunction has an operand containing `&&` to the right of an
operand containing `||` (`Formula.safe`).  The matcher definition built from the tokens of an
expression accepts exactly the rules that make the expression true, whatever the atoms are and
whatever they evaluate to.

Missing: the other expressions, for which the claim is false (`c11_fails`). -/
theorem c11_stages_partial (grow : Nat → Nat) (f : Formula) (hw : f.wf = true)
    (hs : f.safe = true) :
    ∃ root, buildMatcherDef grow f.toks = .ok root ∧
      ∀ (E : Evaluator) (r : Rule),
        Stage.satAny E r root.children =
          f.truth (fun ts => E.eval (tokensToExpr ts) r == .bool true) := by
  refine ⟨_, buildMatcherDef_formula grow f hw hs, ?_⟩
  intro E r
  have hw' : Operand.disjWf f = true := by
    simp only [Formula.wf, Bool.and_eq_true] at hw; exact hw.2
  have := (Operand.trD_sat E r (fun ts => E.eval (tokensToExpr ts) r == .bool true)
    (fun _ => rfl) f [] hw').2
  simpa [contSat, Formula.truth, Stage.children] using this

/-- **C12**, building, the part that holds: whatever the expression and the lexer do, building a matcher
definition answers with a matcher definition or an error, never with a panic. -/
theorem c12_build_partial (lex : Str → Res Toks) (grow : Nat → Nat) (text : Str) :
    (∃ root, buildText lex grow text = .ok root) ∨ buildText lex grow text = .err := by
  unfold buildText buildMatcherDef
  cases lex (replaceArgs text) with
  | err => exact Or.inr rfl
  | panic => exact Or.inr rfl
  | ok tokens =>
    simp only
    cases buildExprTree grow (tokens.length + 1) Heap.init tokens Slice.nil with
    | ok x => exact Or.inl ⟨_, rfl⟩
    | err => exact Or.inr rfl
    | panic => exact Or.inr rfl

/-- An expression that makes `nextOperator` index an empty list: `a && ()`. -/
example : nextOperator [] = .panic ∧
    buildMatcherDef (fun _ => 0) [⟨.other, s% "a"⟩, Tok.and, Tok.lp, Tok.rp] = .err := ⟨rfl, rfl⟩

namespace FormulaExample

def at' (x : Str) : Operand := .atom [⟨.other, x⟩]
def a := at' (s% "a")
def b := at' (s% "b")
def x := at' (s% "x")
def y := at' (s% "y")

/-- `(a || b) && x && y` -/
def good : Formula := [[.paren [[a], [b]], x, y]]
/-- `a && (x && y) && (b || x) || (a || b) && y` -/
def nested : Formula :=
  [[a, .paren [[x, y]], .paren [[b], [x]]], [.paren [[a], [b]], y]]
/-- an atom with brackets and operators inside: `f(a && b) == x` -/
def call : Formula :=
  [[.atom [⟨.function, s% "f"⟩, Tok.lp, ⟨.other, s% "a"⟩, Tok.and, ⟨.other, s% "b"⟩, Tok.rp,
      ⟨.other, s% "=="⟩, ⟨.other, s% "x"⟩], a], [b]]
/-- `(a || b) && (x && y)` -/
def bad : Formula := [[.paren [[a], [b]], .paren [[x, y]]]]

/-- `b` and `y` are true, `a` and `x` are not. -/
def E : Evaluator where
  compiles := fun _ => true
  eval := fun e _ => .bool (e == s% "b" || e == s% "y")

-- the hypotheses of `c11_stages_partial` hold for non-trivial expressions
example : good.wf = true ∧ good.safe = true := by decide
example : nested.wf = true ∧ nested.safe = true := by decide
example : call.wf = true ∧ call.safe = true := by decide
example : bad.wf = true ∧ bad.safe = false := by decide

end FormulaExample

open FormulaExample in
/-- C11 fails in general: for `(a || b) && (x && y)` the two alternatives share the array of pending
operands, the first one overwrites `x && y` by `y`, and a rule with `b` and `y` but not `x` is
accepted.  This happens under every growth policy of `append`. -/
theorem c11_fails : ∃ f : Formula, f.wf = true ∧ ∀ grow : Nat → Nat,
    ∃ root, buildMatcherDef grow f.toks = .ok root ∧ ∃ (E : Evaluator) (r : Rule),
      Stage.satAny E r root.children = true ∧
        f.truth (fun ts => E.eval (tokensToExpr ts) r == .bool true) = false := by
  refine ⟨bad, by decide, fun grow => ?_⟩
  refine ⟨_, rfl, E, [], ?_, ?_⟩ <;> rfl

end Fastac
