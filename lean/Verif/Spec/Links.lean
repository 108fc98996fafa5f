import Verif.Model.RoleManager

/-!
# Links, known names and bounded reachability
-/

namespace Fastac

/-- `b` is reached from `a` over exactly `n` steps. -/
inductive Reach {α : Type} (R : α → α → Prop) : Nat → α → α → Prop
  | refl (a) : Reach R 0 a a
  | step {n a b c} : R a b → Reach R n b c → Reach R (n + 1) a c

/-- Whether the link from `u` to `r` is stored after the calls `ops`, given whether it was before. -/
def linkAfter (u r : Str) : Bool → List LinkOp → Bool
  | now, [] => now
  | now, .add a b :: ops => linkAfter u r (now || (a == u && b == r)) ops
  | now, .del a b :: ops => linkAfter u r (now && !(a == u && b == r)) ops
  | _, .clear :: ops => linkAfter u r false ops
  | now, _ :: ops => linkAfter u r now ops

/-- Whether the link is stored after the calls `ops` on a new role manager. -/
def linked (ops : List LinkOp) (u r : Str) : Bool := linkAfter u r false ops

/-- Whether a name has been used in a call of `AddLink` or `DeleteLink` since the last `Clear`. -/
def knownAfter (n : Str) : Bool → List LinkOp → Bool
  | now, [] => now
  | now, .add a b :: ops => knownAfter n (now || a == n || b == n) ops
  | now, .del a b :: ops => knownAfter n (now || a == n || b == n) ops
  | _, .clear :: ops => knownAfter n false ops
  | now, _ :: ops => knownAfter n now ops

def known (ops : List LinkOp) (n : Str) : Bool := knownAfter n false ops

/-- The name `n` matches the pattern role `p`. -/
def PMatcher.covers (m : PMatcher) (p n : Str) : Prop :=
  m.isPattern p = true ∧ n ≠ p ∧ m.match n p = true

/-- One step of role inheritance with pattern roles among the names `K`: a link; a link to a pattern
role and from there to a name matching it; or a link of a pattern role that the name matches. -/
def PMatcher.edge (m : PMatcher) (L : Str → Str → Prop) (K : Str → Prop) (x y : Str) : Prop :=
  L x y ∨ (∃ p, L x p ∧ K y ∧ m.covers p y) ∨ (∃ p, K x ∧ L p y ∧ m.covers p x)

/-- No pattern matches another pattern. -/
def PMatcher.Flat (m : PMatcher) : Prop :=
  ∀ p q, m.isPattern p = true → m.isPattern q = true → p ≠ q → m.match p q = false

/-- No pattern among the names `K` matches another one. -/
def PMatcher.FlatOn (m : PMatcher) (K : Str → Prop) : Prop :=
  ∀ p q, K p → K q → m.isPattern p = true → m.isPattern q = true → p ≠ q → m.match p q = false

/-- The names at the ends of links. -/
def endsOf (L : Str → Str → Prop) (n : Str) : Prop := ∃ x, L n x ∨ L x n

/-- What `HasLink(a, b)` is to answer for the links `L` and the level bound `level`: without a matcher,
whether `b` is `a` or is reached over fewer than `level` links; with a matcher (whose patterns do not
match each other), with steps extended by matching the names `K`, `a` and `b`. -/
def roleAnswer (level : Nat) (L : Str → Str → Prop) (K : Str → Prop) (a b : Str) : Option PMatcher → Prop
  | none => a = b ∨ ∃ k, k < level ∧ Reach L k a b
  | some m => a = b ∨ m.match a b = true ∨ ∃ k, k < level ∧ ∃ c,
      Reach (m.edge L (fun n => K n ∨ n = a ∨ n = b)) k a c ∧ (b = c ∨ m.match c b = true)

end Fastac
