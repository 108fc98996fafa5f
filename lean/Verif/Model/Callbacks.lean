import Verif.Model.Policy

/-!
# `RangeMatches` with a callback that changes the policy

In Model/Matcher the callback of `RangeMatches` only has its own variables.  Here it may add and remove rules of the policy, or
clear it, while the loops over the maps of the index are running.  Go's `range` over a map that changes: an entry that is
removed before its turn does not come, one that is added may come or not.

Simplified: an entry that is removed and put back before its turn does come.  The expressions do not depend on the policy.
-/

namespace Fastac

/-- The node to which a path of (child index, key) steps leads. -/
def Node.follow (n : Node) : List (Nat × Str) → Option Node
  | [] => some n
  | (i, k) :: p =>
    match (n.children[i]?).bind (GoMap.get · k) with
    | none => none
    | some c => c.follow p

/-- One call of the callback: the rule that it got, the rules of the policy before and after the call. -/
structure Report where
  rule : Rule
  before : List Rule
  after : List Rule
deriving DecidableEq

/-- The state while `RangeMatches` is running: the policy and the matcher; the root that the matcher had when the call
began, if another one has taken its place (matcher.go:107-109); the variables of the callback; the calls so far (for
reference only). -/
structure Visit (σ : Type) where
  pm : PolicyWithMatcher
  held : Option Node
  vars : σ
  reports : List Report

/-- A callback: from its variables and the rule (with its key), the new variables, what it does to the policy, and
whether it returns true. -/
abbrev Callback (σ : Type) := σ → Rule → σ × List PolOp × Bool

namespace Visit

variable {σ : Type}

/-- The root of the index in which the loops are. -/
def tree (v : Visit σ) : Node := v.held.getD v.pm.matcher.root

/-- A change of the policy by the callback. -/
def change (v : Visit σ) (op : PolOp) : Res (Visit σ) :=
  (v.pm.step op).map fun pm' => { v with
    pm := pm', held := if op = .clear ∧ v.held.isNone then some v.pm.matcher.root else v.held }

def changes (v : Visit σ) : List PolOp → Res (Visit σ)
  | [] => .ok v
  | op :: ops => (v.change op).bind fun v' => v'.changes ops

/-- `fn(nextNode.rule)` (matcher.go:202), with the key of the policy in front (model.go:366-371). -/
def call (cb : Callback σ) (v : Visit σ) (rule : Rule) : Visit σ × Status :=
  match cb v.vars (v.pm.matcher.pDef.key :: rule) with
  | (vars, ops, go) =>
    match v.changes ops with
    | .ok v' =>
      ({ v' with vars := vars, reports := v.reports ++ [⟨rule, v.pm.policy.rules, v'.pm.policy.rules⟩] },
        if go then .cont else .stop)
    | _ => (v, .panic)

/-- `node.children[i]` of the node at a position: a path in the index, or `none` for a node that was made for the rule with
empty fields (matcher.go:176-181). -/
def mapAt (v : Visit σ) : Option (List (Nat × Str)) → Nat → Option (GoMap Str Node)
  | none, i => if i < 2 then some [] else none
  | some p, i => (v.tree.follow p).bind fun n => n.children[i]?

end Visit

/-- The keys in the order in which a loop comes to them, given the map at the beginning of the loop. -/
abbrev Plan := List (Nat × Str) → Nat → GoMap Str Node → List Str

/-- All keys that were there at the beginning get their turn (if they are still there then). -/
def Plan.Covers (plan : Plan) : Prop := ∀ path i m k, (GoMap.get m k).isSome = true → k ∈ plan path i m

/-- The loop of `Matcher.rangeMatches` (matcher.go:183-196): `look` finds the entry of a key when it is its turn. -/
def sweepKeys {σ : Type} (E : Evaluator) (expr : Str) (look : Str → Visit σ → Option Node)
    (visit : Str → Node → Visit σ → Visit σ × Status) : List Str → Visit σ → Visit σ × Status
  | [], v => (v, .cont)
  | k :: ks, v =>
    match look k v with
    | none => sweepKeys E expr look visit ks v
    | some child =>
      match E.eval expr child.rule with
      | .err => (v, .err)
      | .panic => (v, .panic)
      | .other => sweepKeys E expr look visit ks v
      | .bool false => sweepKeys E expr look visit ks v
      | .bool true =>
        match visit k child v with
        | (v', .cont) => sweepKeys E expr look visit ks v'
        | (v', .panic) => (v', .panic)
        | (v', _) => (v', .stop)

mutual
/-- `Matcher.rangeMatchesHelper` (matcher.go:199-220). -/
def sweepStage {σ : Type} (E : Evaluator) (nargs : Nat) (plan : Plan) (cb : Callback σ) :
    Stage → Option (List (Nat × Str)) → Visit σ → Visit σ × Status
  | .mk _ cs, pos, v => sweepChildren E nargs plan cb cs 0 pos v
/-- The loop of `rangeMatchesHelper` from child index `i` on, with `Matcher.rangeMatches` (matcher.go:170-197) inlined. -/
def sweepChildren {σ : Type} (E : Evaluator) (nargs : Nat) (plan : Plan) (cb : Callback σ) :
    List Stage → Nat → Option (List (Nat × Str)) → Visit σ → Visit σ × Status
  | [], _, _, v => (v, .cont)
  | st :: rest, i, pos, v =>
    match v.mapAt pos i with
    | none => (v, .panic)
    | some m =>
      if E.compiles st.expr = false then (v, .err)
      else
        match sweepKeys E st.expr
            (fun k v => if m.isEmpty then some (newNode (List.replicate nargs [])) else (v.mapAt pos i).bind (GoMap.get · k))
            (fun k child v =>
              -- the callback of matcher.go:201-211
              match (if st.isLeaf then v.call cb child.rule else (v, .cont)) with
              | (v', .cont) =>
                match sweepStage E nargs plan cb st (if m.isEmpty then none else pos.map (· ++ [(i, k)])) v' with
                | (v'', .cont) => (v'', .cont)
                | (v'', .panic) => (v'', .panic)
                | (v'', _) => (v'', .stop)
              | r => r)
            (if m.isEmpty then [[]] else plan (pos.getD []) i m) v with
        | (v', .cont) => sweepChildren E nargs plan cb rest (i + 1) pos v'
        | r => r
end

/-- `RangeMatches` (matcher.go:222-233, model.go:366-371) with a callback that may change the policy. -/
def PolicyWithMatcher.sweep {σ : Type} (s : PolicyWithMatcher) (E : Evaluator) (plan : Plan) (cb : Callback σ) (vars : σ) :
    Visit σ × Status :=
  sweepStage E s.matcher.pDef.args.length plan cb s.matcher.exprRoot (some []) ⟨s, none, vars, []⟩

end Fastac
