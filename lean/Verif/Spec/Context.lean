import Verif.Model.Context

/-!
# Which option of a kind counts, and what it stands for
-/

namespace Fastac

/-- The last matcher option that is neither the empty string nor of an unexpected type. -/
def lastMatcher : List CtxOpt → Option MArg
  | [] => none
  | o :: os =>
    match lastMatcher os with
    | some a => some a
    | none =>
      match o with
      | .matcher (.str []) | .matcher .other => none
      | .matcher a => some a
      | _ => none

/-- The last request option that is neither the empty string nor of an unexpected type. -/
def lastRequest : List CtxOpt → Option RArg
  | [] => none
  | o :: os =>
    match lastRequest os with
    | some a => some a
    | none =>
      match o with
      | .request (.str []) | .request .other => none
      | .request a => some a
      | _ => none

/-- The last effector option that is neither the empty string nor of an unexpected type. -/
def lastEffector : List CtxOpt → Option EArg
  | [] => none
  | o :: os =>
    match lastEffector os with
    | some a => some a
    | none =>
      match o with
      | .effector (.str []) | .effector .other => none
      | .effector a => some a
      | _ => none

/-- The request definition with the key. -/
def requestNamed (m : Model) (key : Str) : Option PolicyDef :=
  (m.rDefs.get key).map (newPolicyDef key)

/-- The request definition an option stands for. -/
def RArg.stands (m : Model) : RArg → Option PolicyDef
  | .str key => requestNamed m key
  | .obj d => some d
  | .other => none

/-- The effect expression an option stands for: the named one, or the string itself as an expression. -/
def EArg.stands (m : Model) : EArg → Option Str
  | .str s => some ((m.eDefs.get s).getD (effectExpr s))
  | .obj e => some e
  | .other => none

/-- A matcher made from an expression and the rules of its policy, if possible. -/
def freshMatcher (build : Str → Res Stage) (m : Model) (expr : Str) : Option Matcher :=
  match build expr with
  | .ok root =>
    match m.matcherPolicyDef root.policyKey, m.policyRules root.policyKey with
    | .ok pDef, some rules =>
      match newMatcher pDef root rules with
      | .ok mt => some mt
      | _ => none
    | _, _ => none
  | _ => none

/-- The matcher a string stands for: the named one, or the string itself as an expression. -/
def matcherNamed (build : Str → Res Stage) (m : Model) (s : Str) : Option Matcher :=
  if m.mMap.has s then m.getMatcher s else freshMatcher build m s

/-- The matcher an option stands for. -/
def MArg.stands (build : Str → Res Stage) (m : Model) : MArg → Option Matcher
  | .str s => matcherNamed build m s
  | .ofDef expr => freshMatcher build m expr
  | .obj x => m.resolve x
  | .other => none

end Fastac
