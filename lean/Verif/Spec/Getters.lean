import Verif.Model.Getters

/-!
# What the getters of a model should report

The answer of a getter is decided by the last call that says something about the key.
-/

namespace Fastac

/-- What the calls of a history say about something: `word before c` is `none` if the call `c`, made after the calls
`before`, says nothing about it, `some none` if it takes it away, and `some (some x)` if it makes it `x`.  `LastWord` holds
of the value that the last call with a word leaves: nothing if no call has one. -/
def LastWord {α : Type} (word : List ShelfCall → ShelfCall → Option (Option α)) (h : List ShelfCall) (r : Option α) : Prop :=
  (r = none ∧ ∀ before c after, h = before ++ c :: after → word before c = none) ∨
  ∃ before c after, h = before ++ c :: after ∧ word before c = some r ∧
    ∀ mid d rest, after = mid ++ d :: rest → word (before ++ c :: mid) d = none

/-- `SetDef` takes a definition: the section exists and is the first letter of the key. -/
def DefTaken (sec : Char) (key : Str) : Prop := sec ∈ ['r', 'p', 'g', 'e', 'm'] ∧ key.head? = some sec

instance (sec : Char) (key : Str) : Decidable (DefTaken sec key) := inferInstanceAs (Decidable (_ ∧ _))

/-- What the calls say about the definition under a key of a section. -/
def defWord (sec : Char) (key : Str) (before : List ShelfCall) : ShelfCall → Option (Option DefThing)
  | .setDef s k v =>
    if s = sec ∧ k = key ∧ DefTaken s k then some (some ⟨.made before.length, some (key, v)⟩) else none
  | .removeDef s k => if s = sec ∧ k = key ∧ s ∈ ['r', 'p', 'g', 'e', 'm'] then some none else none
  | .setRequestDef k x => if sec = 'r' ∧ k = key then some (some ⟨x, none⟩) else none
  | _ => none

/-- What the calls say about the policy under a key. -/
def plainWord (key : Str) (before : List ShelfCall) : ShelfCall → Option (Option Thing)
  | .setDef s k _ => if s = 'p' ∧ k = key ∧ DefTaken s k then some (some (.made before.length)) else none
  | .removeDef s k => if s = 'p' ∧ k = key then some none else none
  | .setPolicy k x => if k = key then some (some x) else none
  | _ => none

/-- What the calls say about the role policy under a key. -/
def roleWord (key : Str) (before : List ShelfCall) : ShelfCall → Option (Option RoleThing)
  | .setDef s k v =>
    if s = 'g' ∧ k = key ∧ DefTaken s k then
      some (some ⟨before.length, ⟨.made before.length, some (decide ((splitC ',' v).length ≠ 2))⟩⟩)
    else none
  | .removeDef s k => if s = 'g' ∧ k = key then some none else none
  | .setRoleManager k x => if k = key then some (some ⟨before.length, ⟨x, none⟩⟩) else none
  | _ => none

/-- What the calls say about the effector under a key. -/
def effectorWord (key : Str) (before : List ShelfCall) : ShelfCall → Option (Option Thing)
  | .setDef s k _ => if s = 'e' ∧ k = key ∧ DefTaken s k then some (some (.made before.length)) else none
  | .removeDef s k => if s = 'e' ∧ k = key then some none else none
  | .setEffector k x => if k = key then some (some x) else none
  | _ => none

/-- `BuildMatcher` succeeds: the last word about the definition of the matcher is that there is one, it compiles, and
there is the policy it is about (with its definition, for a policy that is not a role policy). -/
def BuildTaken (before : List ShelfCall) (key : Str) (pKey : Option Str) : Prop :=
  ∃ k, pKey = some k ∧ (∃ d, LastWord (defWord 'm' key) before (some d)) ∧
    ((∃ x, LastWord (plainWord k) before (some x)) ∨ ∃ x, LastWord (roleWord k) before (some x)) ∧
    ((k.head? = some 'p' ∧ ∃ d, LastWord (defWord 'p' k) before (some d)) ∨ k.head? = some 'g')

open Classical in
/-- What the calls say about the matcher under a key: a new definition says nothing. -/
noncomputable def matcherWord (key : Str) (before : List ShelfCall) : ShelfCall → Option (Option Thing)
  | .removeDef s k => if s = 'm' ∧ k = key then some none else none
  | .setMatcher k x => if k = key then some (some x) else none
  | .buildMatcher k p => if k = key ∧ BuildTaken before k p then some (some (.made before.length)) else none
  | _ => none

/-- The calls that only use definitions: nothing made by the caller is handed over. -/
def ShelfCall.ByText : ShelfCall → Prop
  | .setDef _ _ _ | .removeDef _ _ | .buildMatcher _ _ => True
  | _ => False

/-- The keys a call is about. -/
def ShelfCall.key : ShelfCall → Str
  | .setDef _ k _ | .removeDef _ k | .setPolicy k _ | .setRoleManager k _ | .setMatcher k _ | .setRequestDef k _
  | .setEffector k _ | .buildMatcher k _ => k

end Fastac
