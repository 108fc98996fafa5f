import Verif.Model.Objects
import Verif.Spec.InStep

/-!
# Programs on shared policies, and models that share nothing
-/

namespace Fastac

/-! ## Models that share nothing -/

/-- The model whose call it is. -/
def OCmd.target : OCmd → Option Nat
  | .setDef a _ _ _ | .removeDef a _ _ | .build a _ | .buildFrom a _ | .add a _ | .remove a _ | .clear a _
  | .setPolicy a _ _ | .setMatcher a _ _ | .setRoleManager a _ _ => some a
  | _ => none

/-- No objects are handed from one model to another, and none is called directly. -/
def OCmd.Own : OCmd → Prop
  | .setPolicy _ _ _ | .setMatcher _ _ _ | .setRoleManager _ _ _ | .polAdd _ _ | .polRemove _ _ | .polClear _
  | .mgr _ _ => False
  | _ => True

/-- What the call does to its model, by the functions of `Model/Model.lean`. -/
def Model.obey (build : Str → Res Stage) (m : Model) : OCmd → Model × List ModEvent
  | .setDef _ sec key value => ((m.setDef sec key value).1, [])
  | .removeDef _ sec key => ((m.removeDef sec key).1, [])
  | .build _ key => ((m.buildMatcher build key).1, [])
  | .buildFrom _ expr => ((m.buildFromExpr build expr).1, [])
  | .add _ rule => ((m.addRule rule).1, (m.addRule rule).2.2.toList)
  | .remove _ rule => ((m.removeRule rule).1, (m.removeRule rule).2.2.toList)
  | .clear _ key => ((m.clearPolicy key).1, [])
  | _ => (m, [])

/-- Calls of one model. -/
def Model.obeys (build : Str → Res Stage) (m : Model) : List OCmd → Model × List ModEvent
  | [] => (m, [])
  | c :: cs => (((m.obey build c).1.obeys build cs).1, (m.obey build c).2 ++ ((m.obey build c).1.obeys build cs).2)

namespace Realm

/-- No objects at all. -/
def empty : Realm := ⟨[], [], []⟩

/-- The models as values. -/
def values (w : Realm) : List Model := w.models.map w.value

/-- The events of one model. -/
def eventsOf (a : Nat) (es : List (Nat × ModEvent)) : List ModEvent := (es.filter (fun e => e.1 = a)).map Prod.snd

/-! ## Rules that suit all matchers -/

/-- The rule has as many fields as the definition of every matcher that listens to the policy `o`. -/
def RuleSuits (w : Realm) (o : Nat) (rule : Rule) : Prop :=
  ∀ ob, w.pols[o]? = some ob → ∀ mt ∈ ob.listeners, GoodRule mt.pDef rule

/-- The same, for the policy that the model has under the rule's key. -/
def AddSuits (w : Realm) (a : Nat) : Rule → Prop
  | [] => True
  | key :: fields => ∀ m o, w.models[a]? = some m → m.pMap.get key = some o → w.RuleSuits o fields

/-- A new matcher of the model `a` would get only rules with as many fields as its definition has. -/
def DefSuits (build : Str → Res Stage) (w : Realm) (a : Nat) (expr : Str) : Prop :=
  ∀ m root o d, w.models[a]? = some m → build expr = .ok root → m.getPolicy root.policyKey = some o →
    m.matcherPolicyDef root.policyKey = .ok d → ∀ r ∈ w.rulesOf o, GoodRule d r

/-- The call suits the matchers of the policies. -/
def Suits (build : Str → Res Stage) (w : Realm) : OCmd → Prop
  | .add a rule | .remove a rule => w.AddSuits a rule
  | .polAdd o rule | .polRemove o rule => w.RuleSuits o rule
  | .build a key => ∀ m expr, w.models[a]? = some m → m.mDefs.get key = some expr → w.DefSuits build a expr
  | .buildFrom a expr => w.DefSuits build a expr
  | _ => True

/-- Every call suits the matchers that are there when it is made. -/
def AllSuit (build : Str → Res Stage) (w : Realm) : List OCmd → Prop
  | [] => True
  | c :: cs => w.Suits build c ∧ (w.step build c).1.AllSuit build cs

/-! ## They can be computed -/

/-- A statement about the value of an option. -/
def decOption {α : Type} (x : Option α) (P : α → Prop) (h : ∀ a, Decidable (P a)) :
    Decidable (∀ a, x = some a → P a) :=
  match x with
  | none => isTrue (fun _ h => by cases h)
  | some a =>
    match h a with
    | isTrue h => isTrue (fun _ e => by cases e; exact h)
    | isFalse h => isFalse (fun g => h (g a rfl))

/-- A statement about the value of a result. -/
def decRes {α : Type} (x : Res α) (P : α → Prop) (h : ∀ a, Decidable (P a)) : Decidable (∀ a, x = .ok a → P a) :=
  match x with
  | .err => isTrue (fun _ h => by cases h)
  | .panic => isTrue (fun _ h => by cases h)
  | .ok a =>
    match h a with
    | isTrue h => isTrue (fun _ e => by cases e; exact h)
    | isFalse h => isFalse (fun g => h (g a rfl))

instance RuleSuits.dec (w : Realm) (o : Nat) (rule : Rule) : Decidable (w.RuleSuits o rule) :=
  decOption _ _ (fun _ => inferInstance)

instance AddSuits.dec (w : Realm) (a : Nat) : ∀ rule : Rule, Decidable (w.AddSuits a rule)
  | [] => isTrue trivial
  | k :: f =>
    @decidable_of_iff _ (∀ m, w.models[a]? = some m → ∀ o, m.pMap.get k = some o → w.RuleSuits o f)
      ⟨fun h m o hm ho => h m hm o ho, fun h m hm o ho => h m o hm ho⟩
      (decOption _ _ fun _ => decOption _ _ fun _ => inferInstance)

instance DefSuits.dec (build : Str → Res Stage) (w : Realm) (a : Nat) (expr : Str) :
    Decidable (w.DefSuits build a expr) :=
  @decidable_of_iff _ (∀ m, w.models[a]? = some m → ∀ root, build expr = .ok root →
      ∀ o, m.getPolicy root.policyKey = some o → ∀ d, m.matcherPolicyDef root.policyKey = .ok d →
      ∀ r ∈ w.rulesOf o, GoodRule d r)
    ⟨fun h m root o d hm hb ho hd => h m hm root hb o ho d hd, fun h m hm root hb o ho d hd => h m root o d hm hb ho hd⟩
    (decOption _ _ fun _ => decRes _ _ fun _ => decOption _ _ fun _ => decRes _ _ fun _ => inferInstance)

instance Suits.dec (build : Str → Res Stage) (w : Realm) : ∀ c : OCmd, Decidable (w.Suits build c)
  | .add a rule | .remove a rule => AddSuits.dec w a rule
  | .polAdd o rule | .polRemove o rule => RuleSuits.dec w o rule
  | .buildFrom a expr => DefSuits.dec build w a expr
  | .build a key =>
    @decidable_of_iff _ (∀ m, w.models[a]? = some m → ∀ expr, m.mDefs.get key = some expr → w.DefSuits build a expr)
      ⟨fun h m e hm he => h m hm e he, fun h m hm e he => h m e hm he⟩
      (decOption _ _ fun _ => decOption _ _ fun _ => inferInstance)
  | .newModel | .newPolicy | .setDef _ _ _ _ | .removeDef _ _ _ | .clear _ _ | .setPolicy _ _ _ | .setMatcher _ _ _
  | .setRoleManager _ _ _ | .polClear _ | .mgr _ _ => isTrue trivial

instance AllSuit.dec (build : Str → Res Stage) : ∀ (cs : List OCmd) (w : Realm), Decidable (w.AllSuit build cs)
  | [], _ => isTrue trivial
  | c :: cs, w => @instDecidableAnd _ _ (Suits.dec build w c) (AllSuit.dec build cs _)

end Realm

end Fastac
