import Verif.Props.Objects

/-!
# C100: models that share nothing
-/

namespace Fastac

namespace Realm

/-- **C100**.  Any program on any number of models that hands no policy, matcher or role manager from one to another: each
model, from the moment it was made, is what its own calls alone make of a new model in the sense of `Model/Model.lean`;
it emits the events of its own calls and answers every request as that model does.  So calls on other models, between
its own calls, do not matter; and what is proved of `Model` holds of every model of such a program. -/
theorem c100_separate (build : Str → Res Stage) (prog1 prog2 : List OCmd) (h1 : ∀ c ∈ prog1, c.Own)
    (h2 : ∀ c ∈ prog2, c.Own) (n : Nat) (hn : n = (empty.run build prog1).1.models.length) (w0 : Realm)
    (hw0 : w0 = (empty.run build (prog1 ++ [.newModel])).1) :
    ∃ m, (w0.run build prog2).1.models[n]? = some m ∧
      (w0.run build prog2).1.value m = (Model.new.obeys build (prog2.filter (fun c => c.target = some n))).1 ∧
      eventsOf n (w0.run build prog2).2 = (Model.new.obeys build (prog2.filter (fun c => c.target = some n))).2 ∧
      ∀ (base : Str → Option Fn) (gov : Gov) (ord : Order) (params : List Param),
        (w0.run build prog2).1.enforce build m base gov ord params =
          ((Model.new.obeys build (prog2.filter (fun c => c.target = some n))).1.enforceParams build base gov ord
            params).2 := by
  obtain ⟨_, _, ap⟩ := run_stays (build := build) (prog1 ++ [.newModel]) Apart.empty (by
    intro c hc
    rcases List.mem_append.1 hc with hc | hc
    · exact h1 c hc
    · rw [List.mem_singleton.1 hc]; trivial)
  rw [← hw0] at ap
  have hm : w0.models[n]? = some OModel.new := by
    rw [hw0, run_append]
    simp only [run, step]
    rw [List.getElem?_append_right (by omega), hn]
    simp
  obtain ⟨m, e1, e2, e3⟩ := run_apart (build := build) prog2 ap h2 hm
  have hv : w0.value OModel.new = Model.new := rfl
  rw [hv] at e2 e3
  refine ⟨m, e1, e2, e3, fun base gov ord params => ?_⟩
  unfold enforce
  rw [e2]

/-! ## A case that meets the hypotheses, and why sharing is excluded -/

namespace SeparateExample

open Model.InStepExample Model.DecisionExample

/-- two models with the same definitions, called in turn -/
def prog1 : List OCmd := [.newModel, .setDef 0 'p' (s% "p") (s% "sub, act")]
def prog2 : List OCmd :=
  [.setDef 1 'p' (s% "p") (s% "sub, act"), .setDef 1 'r' (s% "r2") (s% "sub, act"), .setDef 0 'm' (s% "m") (s% "a"),
    .setDef 1 'e' (s% "e") SOME_ALLOW, .setDef 1 'm' (s% "m") (s% "a"), .build 1 (s% "m"), .build 0 (s% "m"),
    .add 0 [s% "p", s% "bob", s% "read"], .add 1 [s% "p", s% "alice", s% "read"], .clear 0 (s% "p"),
    .removeDef 0 'p' (s% "p")]

def end_ : Realm := ((empty.run build (prog1 ++ [.newModel])).1.run build prog2).1

-- the hypotheses of `c100_separate`, with n = 1
example : (∀ c ∈ prog1, c.Own) ∧ (∀ c ∈ prog2, c.Own) ∧ (empty.run build prog1).1.models.length = 1 ∧
    (prog2.filter (fun c => c.target = some 1)).length = 6 := by
  refine ⟨?_, ?_, by decide, rfl⟩
  · intro c hc
    simp only [prog1, List.mem_cons, List.not_mem_nil, or_false] at hc
    rcases hc with rfl | rfl <;> trivial
  · intro c hc
    simp only [prog2, List.mem_cons, List.not_mem_nil, or_false] at hc
    rcases hc with rfl | rfl | rfl | rfl | rfl | rfl | rfl | rfl | rfl | rfl | rfl <;> trivial

-- its own rule counts, the rule of the other model does not, nor does clearing it there
example : ObjectsExample.asks end_ 1 (s% "m") (s% "alice") = some (.ok true) ∧
    ObjectsExample.asks end_ 1 (s% "m") (s% "bob") = some (.ok false) ∧
    eventsOf 1 ((empty.run build (prog1 ++ [.newModel])).1.run build prog2).2 = [.added [s% "p", s% "alice", s% "read"]] := by
  decide

/-- **C100** is about models that share nothing: when the policy of the first model is given to the second by
`SetPolicy`, a call on the second changes what the first holds and decides, and the first reports no event. -/
theorem c100_shared :
    (ObjectsExample.built.run build [.setPolicy 1 (s% "p2") 0, .add 1 [s% "p2", s% "alice", s% "read"]]).2 =
      [(1, .added [s% "p2", s% "alice", s% "read"])] ∧
    (ObjectsExample.built.values.map fun m => m.policyRules (s% "p"))[0]? = some (some [[s% "carl", s% "read"]]) ∧
    ((ObjectsExample.built.run build [.setPolicy 1 (s% "p2") 0,
        .add 1 [s% "p2", s% "alice", s% "read"]]).1.values.map fun m => m.policyRules (s% "p"))[0]? =
      some (some [[s% "carl", s% "read"], [s% "alice", s% "read"]]) ∧
    ObjectsExample.asks ObjectsExample.built 0 (s% "m") (s% "alice") = some (.ok false) ∧
    ObjectsExample.asks (ObjectsExample.built.run build [.setPolicy 1 (s% "p2") 0,
      .add 1 [s% "p2", s% "alice", s% "read"]]).1 0 (s% "m") (s% "alice") = some (.ok true) := by
  refine ⟨?_, ?_, ?_, ?_, ?_⟩ <;> decide +kernel

/-! ## More cases -/

open ObjectsExample (built asks)

def then_ (cs : List OCmd) : Realm := (built.run build cs).1

-- two matchers of one policy: both follow, and so does a third of another model
def two : Realm := then_ [.setDef 0 'm' (s% "m7") (s% "a"), .build 0 (s% "m7"), .add 0 [s% "p", s% "dora", s% "read"]]
example : asks two 0 (s% "m") (s% "dora") = some (.ok true) ∧ asks two 0 (s% "m7") (s% "dora") = some (.ok true) ∧
    asks two 0 (s% "m") (s% "carl") = some (.ok true) ∧ asks two 0 (s% "m7") (s% "carl") = some (.ok true) ∧
    two.pols.map (fun ob => ob.listeners.length) = [2, 0, 0] := by
  refine ⟨?_, ?_, ?_, ?_, ?_⟩ <;> decide +kernel

-- clearing empties one policy, and its matchers
example : (then_ [.clear 0 (s% "p")]).rulesOf 0 = [] ∧
    asks (then_ [.clear 0 (s% "p")]) 0 (s% "m") (s% "carl") = some (.ok false) ∧
    (then_ [.add 1 [s% "p2", s% "eve", s% "read"], .clear 1 (s% "p2")]).rulesOf 0 = [[s% "carl", s% "read"]] ∧
    (then_ [.add 1 [s% "p2", s% "eve", s% "read"], .clear 1 (s% "p2")]).rulesOf 1 = [] := by
  decide

-- each role definition has a role policy and a role manager of its own
def roles : Realm := then_ [.setDef 0 'g' (s% "g") (s% "_, _"), .setDef 1 'g' (s% "g") (s% "_, _"),
  .setDef 1 'g' (s% "g2") (s% "_, _"), .add 1 [s% "g", s% "eve", s% "admin"]]
example : (roles.values.map fun m => (m.policyRules (s% "g"), m.policyRules (s% "g2"))) =
      [(some [], none), (some [[s% "eve", s% "admin"]], some [])] ∧
    (roles.models.map fun m => (m.getPolicy (s% "g"), m.getPolicy (s% "g2"))) = [(some 3, none), (some 4, some 5)] := by
  decide

-- definitions are those of the model; a new model has none
example : ((then_ [.setDef 0 'r' (s% "r9") (s% "sub, act"), .newModel]).models.map fun m => m.rDefs.get (s% "r9")) =
      [some (s% "sub, act"), none, none] ∧
    ((then_ [.newModel]).models.map fun m => (m.pMap.get (s% "p"), m.pDefs.has (s% "p"))) =
      [(some 0, true), (some 2, true), (none, false)] := by
  decide

-- a rule that is there already is no event
example : (built.run build [.add 0 [s% "p", s% "carl", s% "read"], .add 0 [s% "p", s% "eve", s% "read"],
    .remove 0 [s% "p", s% "fred", s% "read"]]).2 = [(0, .added [s% "p", s% "eve", s% "read"])] := by
  decide

-- the policy outlives its definition where it is shared; a removed matcher definition takes the matcher along
example : (then_ [.setPolicy 1 (s% "p2") 0, .removeDef 0 'p' (s% "p")]).rulesOf 0 = [[s% "carl", s% "read"]] ∧
    ((then_ [.removeDef 0 'm' (s% "m")]).models.map fun m => m.mMap.get (s% "m")) = [none, none] ∧
    (built.models.map fun m => m.mMap.get (s% "m")) = [some (0, 0), none] := by
  decide

-- a policy under the key of a role policy comes first
example : ((then_ [.setDef 0 'g' (s% "g") (s% "_, _"), .setPolicy 0 (s% "g") 0]).models.map fun m =>
    m.getPolicy (s% "g")) = [some 0, none] := by
  decide

end SeparateExample

end Realm

end Fastac
