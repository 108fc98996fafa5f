import Verif.Model.Matcher

/-!
# Vocabulary for the statements about decisions
-/

namespace Fastac

/-- The call returned without an error (and without a panic): Go's `err == nil`. -/
def Status.noError (s : Status) : Prop := s = .cont ∨ s = .stop

/-- What a value of the `eft` column means. -/
def effectOfValue (v : Str) : Effect :=
  if v = [] ∨ v = s% "allow" then .allow
  else if v = s% "deny" then .deny
  else .indeterminate

/-- Map iteration in insertion order, and in the opposite order. -/
def Order.fwd : Order := fun _ _ m => m
def Order.rev : Order := fun _ _ m => m.reverse

theorem Order.fwd_valid : Order.fwd.Valid := fun _ _ _ => List.Perm.refl _
theorem Order.rev_valid : Order.rev.Valid := fun _ _ m => List.reverse_perm m

end Fastac
