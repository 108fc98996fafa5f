import Verif.Model.Defs

/-!
# The matcher index (`model/matcher/matcher.go`)
-/

namespace Fastac

/-- `defs.MatcherStage` (model/defs/matcher_def.go:11-16).  `pArgs` and `rArgs` are functions of
`expr` (lines 18-24) and therefore not stored. -/
inductive Stage where
  | mk (expr : Str) (children : List Stage)

namespace Stage
/-- the field `expr` -/
def expr : Stage → Str | mk e _ => e
/-- `MatcherStage.Children` (matcher_def.go:52-54) -/
def children : Stage → List Stage | mk _ cs => cs
/-- `MatcherStage.GetPolicyArgs` (matcher_def.go:21,26-28) -/
def pArgs (s : Stage) : List Str := findPArgs s.expr
/-- `MatcherStage.GetRequestArgs` (matcher_def.go:22,39-41) -/
def rArgs (s : Stage) : List Str := findRArgs s.expr
/-- `MatcherStage.IsLeafNode` (matcher_def.go:56-58) -/
def isLeaf (s : Stage) : Bool := s.children.isEmpty

mutual
/-- `MatcherStage.RecursivePolicyArgs` (matcher_def.go:30-37) -/
def recPArgs : Stage → List Str
  | mk e cs => findPArgs e ++ recPArgsList cs
def recPArgsList : List Stage → List Str
  | [] => []
  | c :: cs => recPArgs c ++ recPArgsList cs
end

/-- `MatcherDef.GetPolicyKey` (matcher_def.go:212-219), on the root stage. -/
def policyKey (root : Stage) : Str :=
  match root.recPArgs with
  | [] => s% "p"
  | a :: _ => (splitC '_' a).headD []
end Stage

/-- `MatcherNode` (matcher.go:28-31): a rule and the slice of child maps. -/
inductive Node where
  | mk (rule : Rule) (children : List (List (Str × Node)))

namespace Node
def rule : Node → Rule | mk r _ => r
def children : Node → List (GoMap Str Node) | mk _ cs => cs
/-- `node.children[i] = m` for an index that exists -/
def setChild (n : Node) (i : Nat) (m : GoMap Str Node) : Node := .mk n.rule (n.children.set i m)
end Node

/-- `NewMatcherNode` (matcher.go:33-40): two empty child maps. -/
def newNode (rule : Rule) : Node := .mk rule [[], []]

/-- The index key of `rule` at a stage (matcher.go:124-132, repeated at 150-158).  When
`GetParameters` fails its error is ignored and the key is `Hash(nil)`. -/
def stageKey (pDef : PolicyDef) (st : Stage) (rule : Rule) : Str :=
  if st.pArgs.length = 0 ∨ st.isLeaf = true then hash rule
  else hash ((pDef.getParameters rule st.pArgs).getD [])

mutual
/-- `Matcher.addRuleHelper` (matcher.go:122-142).  The node is mutated in Go and returned here. -/
def addStage (pDef : PolicyDef) (rule : Rule) : Stage → Node → Res Node
  | .mk _ cs, node => addChildren pDef rule cs 0 node
/-- The loop of `addRuleHelper` from child index `i` on.  An index beyond the child slice panics
(matcher.go:43, 138).  Mutations made before a panic are not modelled. -/
def addChildren (pDef : PolicyDef) (rule : Rule) : List Stage → Nat → Node → Res Node
  | [], _, node => .ok node
  | st :: rest, i, node =>
    match node.children[i]? with
    | none => .panic
    | some m =>
      let key := stageKey pDef st rule
      let r : Res (GoMap Str Node) :=
        if st.isLeaf then .ok (m.set key (newNode rule))
        else
          -- GetOrCreate (matcher.go:42-49)
          (addStage pDef rule st ((m.get key).getD (newNode rule))).map (fun n => m.set key n)
      r.bind (fun m' => addChildren pDef rule rest (i + 1) (node.setChild i m'))
end

mutual
/-- `Matcher.removeRuleHelper` (matcher.go:148-168). -/
def removeStage (pDef : PolicyDef) (rule : Rule) : Stage → Node → Res Node
  | .mk _ cs, node => removeChildren pDef rule cs 0 node
def removeChildren (pDef : PolicyDef) (rule : Rule) : List Stage → Nat → Node → Res Node
  | [], _, node => .ok node
  | st :: rest, i, node =>
    match node.children[i]? with
    | none => .panic
    | some m =>
      let key := stageKey pDef st rule
      let r : Res (GoMap Str Node) :=
        if st.isLeaf then .ok (m.del key)
        else
          match m.get key with
          | none => .ok m
          | some next => (removeStage pDef rule st next).map (fun n => m.set key n)
      r.bind (fun m' => removeChildren pDef rule rest (i + 1) (node.setChild i m'))
end

/-- Result of `expr.Eval(params)` (govaluate, external): a boolean, some other value, an error or a
panic of a user function. -/
inductive EvalRes where
  | bool (b : Bool)
  | other
  | err
  | panic
deriving Repr, DecidableEq

/-- govaluate with the request and the functions of one `RangeMatches` call fixed:
whether a stage expression compiles (matcher.go:171) and its value on given policy values
(matcher.go:184-185). -/
structure Evaluator where
  compiles : Str → Bool
  eval : Str → Rule → EvalRes

/-- Order of iteration over Go maps: for the map at child index `i` of the node reached by a path
of (child index, key) steps.  Go picks an arbitrary permutation. -/
abbrev Order := List (Nat × Str) → Nat → GoMap Str Node → GoMap Str Node

/-- The order oracle only permutes. -/
def Order.Valid (ord : Order) : Prop := ∀ path i m, (ord path i m).Perm m

/-- How a traversal ended: `cont` and `stop` are the Go results `(true, nil)` and `(false, nil)`,
`err` is `(false, err)`. -/
inductive Status where
  | cont
  | stop
  | err
  | panic
deriving Repr, DecidableEq

/-- The loop over the entries of a map in `Matcher.rangeMatches` (matcher.go:183-196); `cb` is the
callback `fn`, which may also panic. -/
def rangeEntries {σ : Type} (E : Evaluator) (expr : Str) (cb : Str → Node → σ → σ × Status) :
    GoMap Str Node → σ → σ × Status
  | [], s => (s, .cont)
  | (k, child) :: es, s =>
    match E.eval expr child.rule with
    | .err => (s, .err)
    | .panic => (s, .panic)
    | .other => rangeEntries E expr cb es s
    | .bool false => rangeEntries E expr cb es s
    | .bool true =>
      match cb k child s with
      | (s', .cont) => rangeEntries E expr cb es s'
      | (s', .panic) => (s', .panic)
      | (s', _) => (s', .stop)

mutual
/-- `Matcher.rangeMatchesHelper` (matcher.go:199-220). -/
def rangeStage {σ : Type} (E : Evaluator) (nargs : Nat) (ord : Order) (fn : σ → Rule → σ × Bool) :
    Stage → List (Nat × Str) → Node → σ → σ × Status
  | .mk _ cs, path, node, s => rangeChildren E nargs ord fn cs 0 path node s
/-- The loop of `rangeMatchesHelper` from child index `i` on, with `Matcher.rangeMatches`
(matcher.go:170-197) inlined. -/
def rangeChildren {σ : Type} (E : Evaluator) (nargs : Nat) (ord : Order)
    (fn : σ → Rule → σ × Bool) :
    List Stage → Nat → List (Nat × Str) → Node → σ → σ × Status
  | [], _, _, _, s => (s, .cont)
  | st :: rest, i, path, node, s =>
    match node.children[i]? with
    | none => (s, .panic)
    | some m =>
      if E.compiles st.expr = false then (s, .err)
      else
        -- an empty map is replaced by one holding the empty rule (matcher.go:176-181)
        let entries := if m.isEmpty then [([], newNode (List.replicate nargs []))]
          else ord path i m
        match rangeEntries E st.expr (fun k child s =>
            -- the callback of matcher.go:201-211
            match (if st.isLeaf then fn s child.rule else (s, true)) with
            | (s', false) => (s', .stop)
            | (s', true) =>
              match rangeStage E nargs ord fn st (path ++ [(i, k)]) child s' with
              | (s'', .cont) => (s'', .cont)
              | (s'', .panic) => (s'', .panic)
              | (s'', _) => (s'', .stop)) entries s with
        | (s', .cont) => rangeChildren E nargs ord fn rest (i + 1) path node s'
        | r => r
end

/-- `matcher.Matcher` (matcher.go:78-83) without the pointer to the policy. -/
structure Matcher where
  pDef : PolicyDef
  exprRoot : Stage
  root : Node

/-- `Matcher.addRule` (matcher.go:118-120). -/
def Matcher.addRule (m : Matcher) (rule : Rule) : Res Matcher :=
  (addStage m.pDef rule m.exprRoot m.root).map (fun n => { m with root := n })

/-- `Matcher.removeRule` (matcher.go:144-146). -/
def Matcher.removeRule (m : Matcher) (rule : Rule) : Res Matcher :=
  (removeStage m.pDef rule m.exprRoot m.root).map (fun n => { m with root := n })

/-- The `EVT_CLEARED` handler (matcher.go:107-109). -/
def Matcher.cleared (m : Matcher) : Matcher := { m with root := newNode [[]] }

/-- `NewMatcher` (matcher.go:85-112); `rules` are the rules in the order of `policy.Range`. -/
def newMatcher (pDef : PolicyDef) (exprRoot : Stage) (rules : List Rule) : Res Matcher :=
  rules.foldl (fun r rule => r.bind (fun m => m.addRule rule))
    (.ok { pDef := pDef, exprRoot := exprRoot, root := newNode [[]] })

/-- `Matcher.RangeMatches` (matcher.go:222-233) seen through `Model.RangeMatches`
(model/model.go:366-371), which prefixes the policy key. -/
def Matcher.rangeMatches {σ : Type} (m : Matcher) (E : Evaluator) (ord : Order)
    (fn : σ → Rule → σ × Bool) (s : σ) : σ × Status :=
  rangeStage E m.pDef.args.length ord (fun s rule => fn s (m.pDef.key :: rule))
    m.exprRoot [] m.root s

end Fastac
