import Verif.Model.Enforce

/-!
# `Enforcer.enforce` with an effector of the caller (`enforcer.go`, `model/effector/effector.go`)
-/

namespace Fastac

/-- The arguments of a call of `MergeEffects` (effector.go:24). -/
structure MergeCall where
  effects : List Effect
  matches_ : List Rule
  complete : Bool
deriving Repr, DecidableEq

/-- What `MergeEffects` of the caller does: it returns an effect, with an error or without, or panics.  The rule it returns is
ignored by the only user (enforcer.go:325, 340).  A `types.Effect` is an integer; one that is none of the three constants is
treated like `deny` by the code (enforcer.go:327, 343), so it is not distinguished here. -/
inductive MergeAns where
  | ans (effect : Effect) (isErr : Bool)
  | panic
deriving Repr, DecidableEq

/-- An implementation of `IEffector`: it answers the last of the calls made so far, so it may have a state of its own. -/
abbrev OwnEffector := List MergeCall → MergeAns

/-- `DefaultEffector` (default_effector.go:37-82) as one of these. -/
def OwnEffector.default (expr : Str) : OwnEffector := fun calls =>
  match calls.getLast? with
  | none => .panic
  | some c => .ans (mergeEffects expr c.effects c.matches_ c.complete).effect
      (mergeEffects expr c.effects c.matches_ c.complete).isErr

/-- The variables captured by the callback of `enforce` (enforcer.go:314-318), the calls the effector has had, and whether it
has panicked. -/
structure OwnState where
  res : Effect
  effects : List Effect
  matches_ : List Rule
  eftErr : Bool
  calls : List MergeCall
  panicked : Bool
deriving Repr, DecidableEq

/-- Initial values (enforcer.go:314-318); `past` are the calls the effector has had before. -/
def OwnState.init (past : List MergeCall) : OwnState := ⟨.indeterminate, [], [], false, past, false⟩

/-- The callback of `enforce` (enforcer.go:319-331).  A panic ends the traversal. -/
def ownVisit (pDef : PolicyDef) (eff : OwnEffector) (s : OwnState) (rule : Rule) : OwnState × Bool :=
  let effects := s.effects ++ [pDef.getEft rule]
  let ms := s.matches_ ++ [rule]
  let calls := s.calls ++ [⟨effects, ms, false⟩]
  match eff calls with
  | .panic => (⟨s.res, effects, ms, s.eftErr, calls, true⟩, false)
  | .ans e isErr =>
    if isErr = true ∨ e ≠ .indeterminate then (⟨e, effects, ms, isErr, calls, false⟩, false)
    else (⟨e, effects, ms, isErr, calls, false⟩, true)

/-- The part of `enforce` after `RangeMatches` returned (enforcer.go:332-343): the calls of the effector and the result.  The
error of the effector is not returned (335-337 return the nil error of the traversal), that of the last call is ignored (340). -/
def ownFinish (eff : OwnEffector) : OwnState × Status → List MergeCall × Res Bool
  | (s, st) =>
    if s.panicked then (s.calls, .panic)
    else
      match st with
      | .panic => (s.calls, .panic)
      | .err => (s.calls, .err)
      | _ =>
        if s.eftErr then (s.calls, .ok false)
        else if s.res = .indeterminate then
          let calls := s.calls ++ [⟨s.effects, s.matches_, true⟩]
          match eff calls with
          | .panic => (calls, .panic)
          | .ans e _ => (calls, .ok (decide (e = .allow)))
        else (s.calls, .ok (decide (s.res = .allow)))

/-- `Enforcer.enforce` (enforcer.go:311-344) with an effector `eff` that has had the calls `past`: all the calls it has had
afterwards, and what `Enforce` returns. -/
def enforceOwn (m : Matcher) (pDef : PolicyDef) (E : Evaluator) (ord : Order) (eff : OwnEffector) (past : List MergeCall) :
    List MergeCall × Res Bool :=
  ownFinish eff (m.rangeMatches E ord (ownVisit pDef eff) (OwnState.init past))

end Fastac
