import Verif.Spec.Links

/-!
# The order in which names were first used

Which names a pattern role covers depends, if it is itself a pattern, on the order in which they were first used.
-/

namespace Fastac

/-- A list of names in the order of first use, after the name `n` was used. -/
def useName (O : List Str) (n : Str) : List Str := if n ∈ O then O else O ++ [n]

/-- The names in use after a call on a role manager, in the order of first use since the last `Clear`. -/
def LinkOp.uses (O : List Str) : LinkOp → List Str
  | .add u r | .del u r => useName (useName O u) r
  | .clear => []
  | _ => O

/-- The links after a call on a role manager. -/
def LinkOp.links (L : Str → Str → Prop) : LinkOp → Str → Str → Prop
  | .add u r => fun a b => L a b ∨ (a = u ∧ b = r)
  | .del u r => fun a b => L a b ∧ ¬ (a = u ∧ b = r)
  | .clear => fun _ _ => False
  | _ => L

/-- The names in use after the links `ls` were added to an empty manager, in this order. -/
def namesIn (ls : List (Str × Str)) : List Str := ls.foldl (fun O l => useName (useName O l.1) l.2) []

/-- The names in use after the calls `ops` on a new role manager. -/
def namesUsed (ops : List LinkOp) : List Str := ops.foldl LinkOp.uses []

/-- The pattern role `p` covers the name `n`, both in use: `n` matches it, and if `n` is a pattern too, then it was
in use first. -/
def PMatcher.coversIn (m : PMatcher) (O : List Str) (p n : Str) : Prop :=
  n ∈ O ∧ p ∈ O ∧ m.covers p n ∧ (m.isPattern n = true → [n, p].Sublist O)

/-- One step of role inheritance. -/
def PMatcher.edgeIn (m : PMatcher) (L : Str → Str → Prop) (O : List Str) (x y : Str) : Prop :=
  L x y ∨ (∃ p, L x p ∧ m.coversIn O p y) ∨ (∃ p, L p y ∧ m.coversIn O p x)

/-- What `HasLink(a, b)` answers for the links `L`, the names `O` in the order of first use and the level bound
`level`; `a` and `b` count as used for the time of the call. -/
def roleAnswerIn (level : Nat) (L : Str → Str → Prop) (O : List Str) (a b : Str) : Option PMatcher → Prop
  | none => a = b ∨ ∃ k, k < level ∧ Reach L k a b
  | some m => a = b ∨ m.match a b = true ∨ ∃ k, k < level ∧ ∃ c,
      Reach (m.edgeIn L (useName (useName O a) b)) k a c ∧ (b = c ∨ m.match c b = true)

end Fastac
