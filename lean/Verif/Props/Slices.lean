import Verif.Lemmas.Slices
import Verif.Props.EndToEnd

/-!
# C97: slices that are handed over
-/

namespace Fastac

namespace SState

/-- **C97**, for programs that leave the slices alone that they have handed over: after any program, the model is the
one that results from its calls with the strings that were in the slices at the time of each call; and what has been
sent to the storage or waits for it are the operations of these calls, in order.  So all the other properties hold of
it.  (Slices that `RangeRules` hands out may be written to: they are new.) -/
theorem c97_values_partial (build : Str → Res Stage) (s : SState) (kept queued : List Nat) (h : s.Holds kept queued)
    (cmds : List Cmd) (hc : Careful s.storing kept queued cmds) :
    (s.run build cmds).model.read (s.run build cmds).mem =
      (Model.afterDeeds build (s.model.read s.mem) (s.deeds build cmds)).1 ∧
    (s.run build cmds).sent ++ (s.run build cmds).pending = s.sent ++ s.pending ++
      (if s.storing then (Model.afterDeeds build (s.model.read s.mem) (s.deeds build cmds)).2 else []) := by
  induction cmds generalizing s kept queued with
  | nil => exact ⟨rfl, by simp [run, deeds, Model.afterDeeds]⟩
  | cons c cs ih =>
    obtain ⟨kept', queued', h1, h2, h3⟩ := step_careful build s kept queued h c cs hc
    obtain ⟨i1, i2⟩ := ih (s.step build c) kept' queued' h1 h2
    obtain ⟨g1, g2⟩ := h3 ((s.step build c).deeds build cs)
    have hst : (s.step build c).storing = s.storing := by cases c <;> rfl
    rw [deeds, g1]
    refine ⟨i1, ?_⟩
    rw [run, i2, g2, hst]
    cases s.storing with
    | true => simp only [if_true, List.append_assoc]
    | false => simp

/-- **C97**: the slices that `RangeRules` hands out are new: they have the rules in them, and whatever is written into
them afterwards changes neither the model nor what waits for the storage. -/
theorem c97_rows (build : Str → Res Stage) (s : SState) (kept queued : List Nat) (h : s.Holds kept queued)
    (writes : List (Nat × Nat × Str)) (hw : ∀ w ∈ writes, s.mem.length ≤ w.1) :
    (s.step build .list).mem.drop s.mem.length = (s.model.read s.mem).rules ∧
    ((s.step build .list).run build (writes.map (fun w => .write w.1 w.2.1 w.2.2))).model.read
      ((s.step build .list).run build (writes.map (fun w => .write w.1 w.2.1 w.2.2))).mem = s.model.read s.mem ∧
    ((s.step build .list).run build (writes.map (fun w => .write w.1 w.2.1 w.2.2))).pending = s.pending := by
  refine ⟨by simp [step], ?_⟩
  have key : ∀ (writes : List (Nat × Nat × Str)) (t : SState), (∀ w ∈ writes, s.mem.length ≤ w.1) → t.model = s.model →
      t.q = s.q → (∀ a, a < s.mem.length → t.mem[a]? = s.mem[a]?) →
      (t.run build (writes.map (fun w => .write w.1 w.2.1 w.2.2))).model.read
        (t.run build (writes.map (fun w => .write w.1 w.2.1 w.2.2))).mem = s.model.read s.mem ∧
      (t.run build (writes.map (fun w => .write w.1 w.2.1 w.2.2))).pending = s.pending := by
    intro writes
    induction writes with
    | nil =>
      intro t _ h1 h2 h3
      simp only [List.map_nil, run, pending, h1, h2]
      exact ⟨SModel.read_congr h.model fun a ha => h3 a ha.2, pending_congr h.queue fun a ha => h3 a ha.2⟩
    | cons w ws ih =>
      intro t hw h1 h2 h3
      simp only [List.map_cons, run]
      refine ih _ (fun x hx => hw x (List.mem_cons_of_mem _ hx)) h1 h2 fun a ha => ?_
      have := hw w List.mem_cons_self
      simp only [step]
      rw [Mem.write_get (by omega)]
      exact h3 a ha
  exact key writes _ hw rfl rfl fun a ha => List.getElem?_append_left ha

/-- The ACL example of C58 with slices: a program that leaves alone what it has handed over is decided by the rules
that it has added and not removed, as they were at the time of the calls. -/
theorem c97_acl_partial (lex : Str → Res Toks) (grow : Nat → Nat)
    (hlex : lex (s% "r_sub == p_sub && r_obj == p_obj && r_act == p_act") = .ok aclFormula.toks)
    (gov : Gov) (hgov : gov.Ok) (base : Str → Option Fn)
    (hbase : ∀ x ∈ [s% "r_sub", s% "r_obj", s% "r_act", s% "p_sub", s% "p_obj", s% "p_act"], base x = none)
    (cmds : List Cmd) (storing : Bool) (hc : Careful storing [] [] cmds) (s : SState)
    (hs : s = (SState.start (Model.configured (buildText lex grow) aclConf) storing).run (buildText lex grow) cmds)
    (ops : List Model.Op)
    (hd : (SState.start (Model.configured (buildText lex grow) aclConf) storing).deeds (buildText lex grow) cmds =
      ops.map .rules)
    (hops : ∀ op ∈ ops, op.PGood 3) (ord : Order) (hord : ord.Valid)
    (sub obj act : Str) (hact : act ≠ []) :
    ((s.model.read s.mem).enforceParams (buildText lex grow) base gov ord [.val sub, .val obj, .val act]).2 =
      .ok (isHeld ops [s% "p", sub, obj, act]) := by
  have key : ∀ (ops : List Model.Op) (m : Model),
      (Model.afterDeeds (buildText lex grow) m (ops.map .rules)).1 = (m.run ops).1 := by
    intro ops
    induction ops with
    | nil => intro m; rfl
    | cons op ops ih => intro m; rw [List.map_cons, Model.afterDeeds, ih]; rfl
  obtain ⟨h1, -⟩ := c97_values_partial (buildText lex grow) _ [] [] (SState.start_holds _ storing) cmds hc
  rw [← hs, hd, key] at h1
  have h0 : (SState.start (Model.configured (buildText lex grow) aclConf) storing).model.read
      (SState.start (Model.configured (buildText lex grow) aclConf) storing).mem =
      Model.configured (buildText lex grow) aclConf := SModel.ofModel_read _ _
  rw [h0] at h1
  rw [h1, c58_acl_partial lex grow hlex gov hgov base hbase ops hops ord hord sub obj act hact]

end SState

namespace SlicesExample

open EndToEnd (aclLex noFns miniGov miniGov_ok)

def build : Str → Res Stage := buildText aclLex (fun _ => 0)

def start (storing : Bool) : SState := .start (Model.configured build aclConf) storing

def ask (s : SState) (vals : List Str) : Res Bool :=
  ((s.model.read s.mem).enforceParams build noFns miniGov Order.fwd (vals.map .val)).2

/-- Two rules in slices of their own; the rows that `RangeRules` hands out are written over; alice's rule is removed with
another slice, which is used again after the flush. -/
def careful : List Cmd :=
  [.make [s% "p", s% "alice", s% "data1", s% "read"], .add (.slice 0 0 4 4),
    .make [s% "p", s% "bob", s% "data2", s% "write"], .add (.slice 1 0 4 4), .list, .write 2 1 (s% "mallory"),
    .write 3 1 (s% "mallory"), .make [s% "p", s% "alice", s% "data1", s% "read"], .remove (.slice 4 0 4 4), .flush,
    .write 4 1 (s% "bob")]

example : Careful true [] [] careful := by simp [careful, Careful, SRef.array, SRef.Full]

/-- `c97_acl_partial` applies to it. -/
example (vals : List Str) (sub obj act : Str) (hv : vals = [sub, obj, act]) (ha : act ≠ []) :
    ask ((start true).run build careful) vals = .ok (isHeld
      [.add [s% "p", s% "alice", s% "data1", s% "read"], .add [s% "p", s% "bob", s% "data2", s% "write"],
        .remove [s% "p", s% "alice", s% "data1", s% "read"]] [s% "p", sub, obj, act]) := by
  subst hv
  exact SState.c97_acl_partial aclLex (fun _ => 0) (by simp [aclLex, EndToEnd.lexOf]) miniGov miniGov_ok noFns
    (by simp [noFns]) careful true (by simp [careful, Careful, SRef.array, SRef.Full]) _ rfl _ (by rfl) (by decide) Order.fwd
    Order.fwd_valid sub obj act ha

example : ask ((start true).run build careful) [s% "bob", s% "data2", s% "write"] = .ok true ∧
    ask ((start true).run build careful) [s% "alice", s% "data1", s% "read"] = .ok false ∧
    ((start true).run build careful).sent = [⟨.add, [s% "p", s% "alice", s% "data1", s% "read"]⟩,
      ⟨.add, [s% "p", s% "bob", s% "data2", s% "write"]⟩, ⟨.remove, [s% "p", s% "alice", s% "data1", s% "read"]⟩] ∧
    ((start true).run build careful).mem[2]? = some [s% "p", s% "mallory", s% "data1", s% "read"] := by
  refine ⟨?_, ?_, ?_, ?_⟩ <;> decide +kernel

/-- What is listed and what waits for the storage, with and without one. -/
example : (((start true).run build (careful.take 9)).model.read ((start true).run build (careful.take 9)).mem).rules =
      [[s% "p", s% "bob", s% "data2", s% "write"]] ∧
    ((start true).run build (careful.take 9)).pending.length = 3 ∧
    ((start false).run build (careful.take 9)).pending = [] := by
  refine ⟨?_, ?_, ?_⟩ <;> decide +kernel

/-- A matcher that is built later has all the rules; a cleared policy grants nothing. -/
example : Careful true [] [] (careful.take 4 ++ [.build (s% "m"), .clear (s% "p")]) ∧
    ask ((start true).run build (careful.take 4 ++ [.build (s% "m")])) [s% "bob", s% "data2", s% "write"] = .ok true ∧
    ask ((start true).run build (careful.take 4 ++ [.build (s% "m"), .clear (s% "p")]))
      [s% "bob", s% "data2", s% "write"] = .ok false := by
  refine ⟨by simp [careful, Careful, SRef.Full], ?_, ?_⟩ <;> decide +kernel

/-- One buffer for two rules. -/
def buffer : List Cmd :=
  [.make [s% "p", s% "alice", s% "data1", s% "read"], .add (.slice 0 0 4 4), .write 0 1 (s% "bob"), .add (.slice 0 0 4 4)]

/-- A rule is removed, and its slice is used again before the change is written to the storage. -/
def reuse : List Cmd :=
  [.make [s% "p", s% "alice", s% "data1", s% "read"], .add (.slice 0 0 4 4),
    .make [s% "p", s% "bob", s% "data1", s% "read"], .add (.slice 1 0 4 4), .flush,
    .make [s% "p", s% "alice", s% "data1", s% "read"], .remove (.slice 2 0 4 4), .write 2 1 (s% "bob"), .flush]

/-- **C97 is false**: the model and the queue keep the caller's slice.  A program that uses one buffer for the rules of
alice and bob has two rules for bob: alice is refused although her rule was added and not removed, and the listing has
bob's rule twice.  And if the slice of a removed rule is used again before the next flush, the storage is told to
remove another rule. -/
theorem c97_fails :
    (start false).deeds build buffer = [.rules (.add [s% "p", s% "alice", s% "data1", s% "read"]),
      .rules (.add [s% "p", s% "bob", s% "data1", s% "read"])] ∧
    ask ((start false).run build buffer) [s% "alice", s% "data1", s% "read"] = .ok false ∧
    (((start false).run build buffer).model.read ((start false).run build buffer).mem).rules =
      [[s% "p", s% "bob", s% "data1", s% "read"], [s% "p", s% "bob", s% "data1", s% "read"]] ∧
    ((start true).run build reuse).sent = [⟨.add, [s% "p", s% "alice", s% "data1", s% "read"]⟩,
      ⟨.add, [s% "p", s% "bob", s% "data1", s% "read"]⟩, ⟨.remove, [s% "p", s% "bob", s% "data1", s% "read"]⟩] ∧
    (((start true).run build reuse).model.read ((start true).run build reuse).mem).rules =
      [[s% "p", s% "bob", s% "data1", s% "read"]] := by
  refine ⟨by rfl, ?_, ?_, ?_, ?_⟩ <;> decide +kernel

end SlicesExample

end Fastac
