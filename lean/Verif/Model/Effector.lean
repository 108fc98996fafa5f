import Verif.Model.Defs

/-!
# Effects (`model/eft/eft.go`, `model/effector/default_effector.go`)
-/

namespace Fastac

/-- `eft.SOME_ALLOW` (model/eft/eft.go:27). -/
def SOME_ALLOW : Str := s% "some(where(p.eft==allow))"
/-- `eft.NO_DENY` (model/eft/eft.go:28). -/
def NO_DENY : Str := s% "!some(where(p.eft==deny))"
/-- `eft.SOME_ALLOW_NO_DENY` (model/eft/eft.go:29). -/
def SOME_ALLOW_NO_DENY : Str := s% "some(where(p.eft==allow))&&!some(where(p.eft==deny))"

/-- `defs.NewEffectDef(key, expr).Expr()` (model/defs/defs.go:179-192). -/
def effectExpr (expr : Str) : Str := removeSpaces expr

/-- Result of `MergeEffects`: effect, responsible rule, and whether an error is returned. -/
structure Merged where
  effect : Effect
  rule : Rule
  isErr : Bool
deriving Repr, DecidableEq

/-- `DefaultEffector.MergeEffects` (model/effector/default_effector.go:37-82).
In the `complete` branch for `SOME_ALLOW_NO_DENY` the Go code indexes `effects[0]` and `matches[0]`;
both slices always have the same length in the only caller (enforcer.go:319-341); `headD` gives
defaults for lengths that do not occur. -/
def mergeEffects (expr : Str) (effects : List Effect) (matches_ : List Rule) (complete : Bool) :
    Merged :=
  if complete then
    if expr = SOME_ALLOW then ⟨.deny, [], false⟩
    else if expr = NO_DENY then ⟨.allow, [], false⟩
    else if expr = SOME_ALLOW_NO_DENY then
      if matches_.length = 0 then ⟨.deny, [], false⟩
      else ⟨effects.headD .indeterminate, matches_.headD [], false⟩
    else ⟨.deny, [], true⟩
  else
    let effect := effects.getLastD .indeterminate
    let mtch := matches_.getLastD []
    if expr = SOME_ALLOW then
      if effect = .allow then ⟨effect, mtch, false⟩ else ⟨.indeterminate, mtch, false⟩
    else if expr = NO_DENY then
      if effect = .deny then ⟨effect, mtch, false⟩ else ⟨.indeterminate, mtch, false⟩
    else if expr = SOME_ALLOW_NO_DENY then
      if effect = .deny then ⟨effect, mtch, false⟩ else ⟨.indeterminate, mtch, false⟩
    else ⟨.deny, [], true⟩

end Fastac
