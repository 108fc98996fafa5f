import Verif.Model.RoleObjects
import Verif.Spec.RoleOrder

/-!
# What a role manager remembers, and which answers are right
-/

namespace Fastac

/-- What a role manager remembers: the links, those of them that are marked as copies, the names in the order of first
use, and the matcher. -/
structure Memory where
  links : Str → Str → Prop
  marked : Str → Str → Prop
  used : List Str
  matcher : Option PMatcher

/-- Nothing, but the matcher. -/
def Memory.none (m : Option PMatcher) : Memory := ⟨fun _ _ => False, fun _ _ => False, [], m⟩

/-- Which memory is left by a call.  `SetMatcher` adds the links that are not marked once more, in any order. -/
def Memory.Next (s : Memory) (s' : Memory) : RoleOp → Prop
  | .add u r ds =>
    (∀ a b, s'.links a b ↔ s.links a b ∨ (a = u ∧ b = r)) ∧
    (∀ a b, s'.marked a b ↔ s.marked a b ∨ (ds.head? = some redundantRole ∧ a = u ∧ b = r)) ∧
    s'.used = useName (useName s.used u) r ∧ s'.matcher = s.matcher
  | .del u r ds =>
    (∀ a b, s'.links a b ↔ s.links a b ∧ ¬ (a = u ∧ b = r)) ∧
    (∀ a b, s'.marked a b ↔ s.marked a b ∧ ¬ (ds.head? = some redundantRole ∧ a = u ∧ b = r)) ∧
    s'.used = useName (useName s.used u) r ∧ s'.matcher = s.matcher
  | .clear => s' = .none s.matcher
  | .setMatcher m => ∃ ls : List (Str × Str), ls.Nodup ∧ (∀ a b, (a, b) ∈ ls ↔ s.links a b ∧ ¬ s.marked a b) ∧
    (∀ a b, s'.links a b ↔ s.links a b ∧ ¬ s.marked a b) ∧ (∀ a b, ¬ s'.marked a b) ∧
    s'.used = namesIn ls ∧ s'.matcher = m
  | _ => s' = s

/-- One step of role inheritance for the names `O` in the order of first use. -/
def Memory.Edge (s : Memory) (O : List Str) (x y : Str) : Prop :=
  match s.matcher with
  | Option.none => s.links x y
  | some m => m.edgeIn s.links O x y

/-- The right answers; a name that is asked about counts as used for the time of the call.  (With a matcher a list may
have a name more than once.) -/
def Memory.Right (s : Memory) (level : Nat) : RoleOp → RoleAns → Prop
  | .add u r _, .bool b => b = true ↔ ¬ s.links u r
  | .del u r _, .bool b => b = true ↔ s.links u r
  | .hasLink a c, .bool b => b = true ↔ roleAnswerIn level s.links s.used a c s.matcher
  | .getRoles n, .names ns => (∀ r, r ∈ ns ↔ s.Edge (useName s.used n) n r) ∧ (s.matcher = Option.none → ns.Nodup)
  | .getUsers n, .names ns => (∀ u, u ∈ ns ↔ s.Edge (useName s.used n) u n) ∧ (s.matcher = Option.none → ns.Nodup)
  | .range, .links ls => ls.Nodup ∧ ∀ a b, (a, b) ∈ ls ↔ s.links a b ∧ ¬ s.marked a b
  | .clear, .done => True
  | .setMatcher _, .done => True
  | _, _ => False

/-- The answers to the calls are right, the first for the memory `s`. -/
inductive Memory.Explains (level : Nat) : Memory → List RoleOp → List (Option RoleAns) → Prop
  | nil (s : Memory) : Explains level s [] []
  | cons {s s' : Memory} {x : RoleOp} {a : RoleAns} {xs : List RoleOp} {as : List (Option RoleAns)}
      (right : s.Right level x a) (next : s.Next s' x) (rest : Explains level s' xs as) :
      Explains level s (x :: xs) (some a :: as)

/-- The same answer, up to the order of a list. -/
def RoleAns.Same : RoleAns → RoleAns → Prop
  | .bool a, .bool b => a = b
  | .names a, .names b => a.Perm b
  | .links a, .links b => a.Perm b
  | .done, .done => True
  | _, _ => False

/-- The name is part of a link that the calls add. -/
def NamedIn (xs : List RoleOp) (n : Str) : Prop := ∃ u r ds, RoleOp.add u r ds ∈ xs ∧ (n = u ∨ n = r)

end Fastac
