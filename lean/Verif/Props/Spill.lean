import Verif.Props.Slices

/-!
# C98: what the library writes into the memory of the caller
-/

namespace Fastac

namespace SState

/-- **C98**, what is always true: `AddRule` and `RemoveRule` leave the slice as it is, and change the memory only behind
it, between its end and its capacity, where they may write `redundant_role`.  All the other calls leave the memory as
it is. -/
theorem c98_behind_partial (build : Str → Res Stage) (s : SState) (c : Cmd) :
    match c.given with
    | some ref => ref.Spilled s.mem (s.step build c).mem ∧ ref.read (s.step build c).mem = ref.read s.mem
    | none => (s.step build c).mem = c.mine s := by
  cases c with
  | add ref =>
    obtain ⟨mem', he, hs⟩ := SModel.addRule_eq s.mem s.model ref
    simp only [Cmd.given, step, he]
    exact ⟨hs, hs.read⟩
  | remove ref =>
    obtain ⟨mem', he, hs⟩ := SModel.removeRule_eq s.mem s.model ref
    simp only [Cmd.given, step, he]
    exact ⟨hs, hs.read⟩
  | make | write | clear | build | list | flush => rfl

/-- **C98** for slices that have no room behind their end: the library never writes into the memory. -/
theorem c98_full_partial (build : Str → Res Stage) (s : SState) (cmds : List Cmd)
    (h : ∀ c ∈ cmds, ∀ ref, c.given = some ref → ref.Full) : s.Untouched build cmds := by
  rintro before c after rfl
  have hc := c98_behind_partial build (s.run build before) c
  cases hg : c.given with
  | none => rw [hg] at hc; exact hc
  | some ref =>
    rw [hg] at hc
    rw [hc.1.full (h c (by simp) ref hg)]
    cases c <;> first | rfl | cases hg

/-- **C98** for models in which no matcher for domains is set: the library never writes into the memory. -/
theorem c98_bare_partial (build : Str → Res Stage) (s : SState) (cmds : List Cmd) (h : s.model.Bare) :
    s.Untouched build cmds := by
  have key : ∀ (cmds : List Cmd) (s : SState), s.model.Bare → (s.run build cmds).model.Bare := by
    intro cmds
    induction cmds with
    | nil => exact fun s h => h
    | cons c cs ih => exact fun s h => ih _ (step_bare build s c h).2
  rintro before c after rfl
  exact (step_bare build _ c (key before s h)).1

/-- **C98** for rules without domain, and for the rules of policies: `AddRule` and `RemoveRule` leave the memory as it
is. -/
theorem c98_short_partial (build : Str → Res Stage) (s : SState) (c : Cmd) (ref : SRef) (hg : c.given = some ref)
    (h : (ref.read s.mem).length ≤ 3 ∨ (ref.read s.mem).head?.bind List.head? ≠ some 'g') :
    (s.step build c).mem = s.mem := by
  cases c with
  | add r => cases hg; exact SModel.addRule_short s.mem s.model ref h
  | remove r => cases hg; exact SModel.removeRule_short s.mem s.model ref h
  | make | write | clear | build | list | flush => cases hg

end SState

namespace SpillExample

/-- The domain `*` stands for all domains. -/
def all : PMatcher where
  isPattern s := s == s% "*"
  «match» _ p := p == s% "*"

/-- A model with the role definition `g`, after `SetDomainMatcher` on its manager. -/
def model : Model := { Model.new with rpMap := [(s% "g", ⟨.dm (DM.new 10 none (some all)), []⟩)] }

/-- The rules lie behind one another in one array; they are handed over as `flat[0:4]`, `flat[4:8]`, `flat[8:12]`. -/
def packed : List Cmd :=
  [.make [s% "g", s% "alice", s% "admin", s% "x", s% "g", s% "bob", s% "admin", s% "*", s% "g", s% "carol", s% "admin",
    s% "y"], .add (.slice 0 0 4 12), .add (.slice 0 4 4 8), .add (.slice 0 8 4 4)]

/-- The same with capacities, `flat[4:8:8]`. -/
def limited : List Cmd :=
  [.make [s% "g", s% "alice", s% "admin", s% "x", s% "g", s% "bob", s% "admin", s% "*", s% "g", s% "carol", s% "admin",
    s% "y"], .add (.slice 0 0 4 4), .add (.slice 0 4 4 4), .add (.slice 0 8 4 4)]

def build : Str → Res Stage := fun _ => .err

def start : SState := .start model false

/-- **C98 is false**: adding a rule for a domain that is a pattern writes into the array of the caller, behind the
slice.  Here it overwrites the key of the next rule, which is then rejected: carol's link is not there. -/
theorem c98_fails :
    ((start.run build (packed.take 3)).mem = [[s% "g", s% "alice", s% "admin", s% "x", s% "g", s% "bob", s% "admin",
      s% "*", redundantRole, s% "carol", s% "admin", s% "y"]]) ∧
    (start.deeds build packed).getLast? = some (.rules (.add [redundantRole, s% "carol", s% "admin", s% "y"])) ∧
    ((start.run build packed).model.read (start.run build packed).mem).rules =
      [[s% "g", s% "alice", s% "admin", s% "x"], [s% "g", s% "bob", s% "admin", s% "*"]] := by
  refine ⟨?_, rfl, ?_⟩ <;> decide +kernel

/-- With limited capacities `c98_full_partial` applies, and the three rules are there. -/
example : start.Untouched build limited ∧
    ((start.run build limited).model.read (start.run build limited).mem).rules =
      [[s% "g", s% "alice", s% "admin", s% "x"], [s% "g", s% "bob", s% "admin", s% "*"],
        [s% "g", s% "carol", s% "admin", s% "y"]] := by
  refine ⟨SState.c98_full_partial build start limited ?_, by decide +kernel⟩
  intro c hc ref hr
  simp only [limited, List.mem_cons, List.not_mem_nil, or_false] at hc
  rcases hc with rfl | rfl | rfl | rfl <;> cases hr <;> exact Nat.le_refl _

/-- Without a matcher for domains `c98_bare_partial` applies to the packed rules. -/
example : (SState.start { Model.new with rpMap := [(s% "g", ⟨.dm (DM.new 10), []⟩)] } false).Untouched build packed := by
  refine SState.c98_bare_partial build _ packed ?_
  intro k p hp
  simp only [SState.start, SModel.ofModel, GoMap.mapV, List.map_cons, List.map_nil, List.mem_singleton, Prod.mk.injEq] at hp
  obtain ⟨-, rfl⟩ := hp
  exact ⟨rfl, trivial⟩

/-- A rule without domain, with room behind it, in the model with the matcher. -/
example : (start.run build [.make [s% "g", s% "alice", s% "admin", s% "rest"], .add (.slice 0 0 3 4)]).mem =
    [[s% "g", s% "alice", s% "admin", s% "rest"]] :=
  SState.c98_short_partial build (start.run build [.make [s% "g", s% "alice", s% "admin", s% "rest"]])
    (.add (.slice 0 0 3 4)) _ rfl (by decide)

/-- Removing writes too: after `RemoveRule(flat[4:8])` the next string is overwritten, and bob's link is gone. -/
example :
    (start.run build (limited ++ [.remove (.slice 0 4 4 8)])).mem = [[s% "g", s% "alice", s% "admin", s% "x", s% "g",
      s% "bob", s% "admin", s% "*", redundantRole, s% "carol", s% "admin", s% "y"]] ∧
    ((start.run build (limited ++ [.remove (.slice 0 4 4 8)])).model.read
      (start.run build (limited ++ [.remove (.slice 0 4 4 8)])).mem).rules =
      [[s% "g", s% "alice", s% "admin", s% "x"], [s% "g", s% "carol", s% "admin", s% "y"]] := by
  refine ⟨?_, ?_⟩ <;> decide +kernel

/-- A role manager that is not for domains writes nothing, whatever the rule. -/
example : ((SState.start { Model.new with rpMap := [(s% "g", ⟨.rm (RM.new 10), []⟩)] } false).run build packed).mem =
    [[s% "g", s% "alice", s% "admin", s% "x", s% "g", s% "bob", s% "admin", s% "*", s% "g", s% "carol", s% "admin",
      s% "y"]] := by
  decide +kernel

/-- Rules of a policy behind one another in one array. -/
example : ((SlicesExample.start true).run SlicesExample.build [.make [s% "p", s% "alice", s% "data1", s% "read", s% "p",
      s% "bob", s% "data2", s% "write"], .add (.slice 0 0 4 8), .add (.slice 0 4 4 4), .remove (.slice 0 0 4 8)]).mem =
      [[s% "p", s% "alice", s% "data1", s% "read", s% "p", s% "bob", s% "data2", s% "write"]] ∧
    ((SlicesExample.start true).run SlicesExample.build [.make [s% "p", s% "alice", s% "data1", s% "read", s% "p",
      s% "bob", s% "data2", s% "write"], .add (.slice 0 0 4 8), .add (.slice 0 4 4 4), .remove (.slice 0 0 4 8),
      .flush]).sent = [⟨.add, [s% "p", s% "alice", s% "data1", s% "read"]⟩,
        ⟨.add, [s% "p", s% "bob", s% "data2", s% "write"]⟩, ⟨.remove, [s% "p", s% "alice", s% "data1", s% "read"]⟩] := by
  refine ⟨?_, ?_⟩ <;> decide +kernel

end SpillExample

end Fastac
