import Verif.Spec.Saving

/-!
# Model calls that empty a policy
-/

namespace Fastac

/-- The calls of the model that empty the policy or role definition `key` (or find it empty): clearing it, defining it
(again), and removing its definition. -/
inductive Model.Drops (m : Model) (key : Str) : Model → Prop
  | clear : Drops m key (m.clearPolicy key).1
  | define (sec : Char) (value : Str) (hk : key.head? = some sec) (hs : sec = 'p' ∨ sec = 'g') :
      Drops m key (m.setDef sec key value).1
  | undefine (sec : Char) (hk : key.head? = some sec) (hs : sec = 'p' ∨ sec = 'g') : Drops m key (m.removeDef sec key).1

end Fastac
