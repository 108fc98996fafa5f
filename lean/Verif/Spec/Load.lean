import Verif.Model.ModelText

/-!
# What a configuration defines
-/

namespace Fastac

/-- The section of a configuration for the definitions that begin with a letter. -/
def secName (c : Char) : Str :=
  if c = 'r' then s% "request_definition"
  else if c = 'p' then s% "policy_definition"
  else if c = 'g' then s% "role_definition"
  else if c = 'e' then s% "policy_effect"
  else s% "matchers"

/-- The entries of the section, in the order of the file. -/
def entries (cfg : IniData) (c : Char) : List (Str × Str) :=
  cfg.flatMap (fun s => if s.1 = secName c then s.2 else [])

/-- The value of the last entry for a key. -/
def lastVal (l : List (Str × Str)) (k : Str) : Option Str :=
  (l.reverse.find? (fun e => e.1 == k)).map Prod.snd

/-- Every key begins with the letter of its section. -/
def KeysFit (cfg : IniData) : Prop :=
  ∀ c ∈ s% "rpgem", ∀ e ∈ entries cfg c, e.1.head? = some c

instance (cfg : IniData) : Decidable (KeysFit cfg) := by unfold KeysFit; infer_instance

end Fastac
