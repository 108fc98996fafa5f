import Verif.Spec.Spill

/-!
# What a program with slices means

The calls of a program with the strings that are in the slices at the time of each call, and the programs that leave
the slices alone that they have handed over.
-/

namespace Fastac

/-- A call, with rules as values. -/
inductive Deed where
  | rules (op : Model.Op)
  | build (key : Str)

/-- What the storage is to be told about an event. -/
def ModEvent.operation : ModEvent → Operation
  | .added r => ⟨.add, r⟩
  | .removed r => ⟨.remove, r⟩

/-- The model after the calls, and the operations for the storage. -/
def Model.afterDeeds (build : Str → Res Stage) : Model → List Deed → Model × List Operation
  | m, [] => (m, [])
  | m, .rules op :: ds =>
    ((Model.afterDeeds build (m.step op).1 ds).1, (m.step op).2.map ModEvent.operation ++ (Model.afterDeeds build (m.step op).1 ds).2)
  | m, .build key :: ds => Model.afterDeeds build (m.buildMatcher build key).1 ds

/-- The call that a step makes, with what is in the slice at the time of the call. -/
def Cmd.deed (mem : Mem) : Cmd → List Deed
  | .add ref => [.rules (.add (ref.read mem))]
  | .remove ref => [.rules (.remove (ref.read mem))]
  | .clear key => [.rules (.clear key)]
  | .build key => [.build key]
  | _ => []

/-- The calls that a program makes. -/
def SState.deeds (build : Str → Res Stage) : SState → List Cmd → List Deed
  | _, [] => []
  | s, c :: cs => c.deed s.mem ++ SState.deeds build (s.step build c) cs

/-- The program does not write into an array that it has handed to `AddRule` (`kept`), nor, until the next `Flush`, into
one that it has handed to `RemoveRule` while changes are queued for the storage (`queued`).  And it does not let the
library do so: a slice that it hands over has no room behind its end, or it lies in an array of which no other slice has
been handed over. -/
def Careful (storing : Bool) : (kept queued : List Nat) → List Cmd → Prop
  | _, _, [] => True
  | kept, queued, .write a _ _ :: cs => a ∉ kept ∧ a ∉ queued ∧ Careful storing kept queued cs
  | kept, queued, .add ref :: cs =>
    (ref.Full ∨ ∀ a ∈ ref.array, a ∉ kept ∧ a ∉ queued) ∧ Careful storing (ref.array ++ kept) queued cs
  | kept, queued, .remove ref :: cs =>
    (ref.Full ∨ ∀ a ∈ ref.array, a ∉ kept ∧ a ∉ queued) ∧
      Careful storing kept (if storing then ref.array ++ queued else queued) cs
  | kept, _, .flush :: cs => Careful storing kept [] cs
  | kept, queued, _ :: cs => Careful storing kept queued cs

mutual
/-- All slices in the node lie in arrays of which `P` is true. -/
def SNode.In (P : Nat → Prop) : SNode → Prop
  | .mk r cs => (∀ a ∈ r.array, P a) ∧ SNode.InMaps P cs
def SNode.InMaps (P : Nat → Prop) : List (List (Str × SNode)) → Prop
  | [] => True
  | m :: ms => SNode.InMap P m ∧ SNode.InMaps P ms
def SNode.InMap (P : Nat → Prop) : List (Str × SNode) → Prop
  | [] => True
  | (_, n) :: m => SNode.In P n ∧ SNode.InMap P m
end

/-- All slices that the model has lie in arrays of which `P` is true. -/
structure SModel.In (P : Nat → Prop) (m : SModel) : Prop where
  rules : ∀ k p, (k, p) ∈ m.pMap → ∀ h ref, (h, ref) ∈ p.ruleMap → ∀ a ∈ ref.array, P a
  matchers : ∀ k p, (k, p) ∈ m.pMap → ∀ x ∈ p.listeners, x.root.In P
  roles : ∀ k p, (k, p) ∈ m.rpMap → ∀ x ∈ p.listeners, x.root.In P

/-- All slices that the model and the queue have lie in the arrays `kept`, those of the queue in `kept` or `queued`;
and these arrays exist. -/
structure SState.Holds (kept queued : List Nat) (s : SState) : Prop where
  model : s.model.In (fun a => a ∈ kept ∧ a < s.mem.length)
  queue : ∀ o ∈ s.q, ∀ a ∈ o.2.array, (a ∈ kept ∨ a ∈ queued) ∧ a < s.mem.length
  idle : s.storing = false → s.q = []

mutual
/-- A node whose slices nobody else has. -/
def SNode.ofNode : Node → SNode
  | .mk r cs => .mk (.own r) (SNode.ofMaps cs)
def SNode.ofMaps : List (List (Str × Node)) → List (List (Str × SNode))
  | [] => []
  | m :: ms => SNode.ofMap m :: SNode.ofMaps ms
def SNode.ofMap : List (Str × Node) → List (Str × SNode)
  | [] => []
  | (k, n) :: m => (k, SNode.ofNode n) :: SNode.ofMap m
end

def SMatcher.ofMatcher (m : Matcher) : SMatcher := ⟨m.pDef, m.exprRoot, .ofNode m.root⟩

/-- A model whose slices nobody else has. -/
def SModel.ofModel (m : Model) : SModel :=
  ⟨m, m.pMap.mapV (fun p => ⟨p.policy.ruleMap.mapV .own, p.listeners.map .ofMatcher⟩),
    m.rpMap.mapV (fun p => ⟨p.mgr, p.listeners.map .ofMatcher⟩)⟩

/-- A program starts with a model and with no slices of its own. -/
def SState.start (m : Model) (storing : Bool) : SState := ⟨[], .ofModel m, storing, [], []⟩

end Fastac
