import Verif.Lemmas.Nested
import Verif.Spec.Effects

/-!
# C108: callbacks of `RangeMatches` may make requests

`Client` (Model/Nested.lean) is any code that reads and writes its variables, calls `Enforce`, and calls `RangeMatches` with
callbacks that are such code again.  `Client.meaning` (Spec/Nested.lean) is what it computes if every call answers as if it
were the only one.
-/

namespace Fastac

variable {σ : Type}

/-- **C108.** Calls that are made by the callback of another call do not influence it, nor does it influence them, at any
depth: if the matcher of every call whose callback makes calls uses `eval` in its first condition only (or not at all), then
the code does what it does if every call answers as if it were the only one.  This does not depend on what happened
before (`slot`, `pvals`, `next`).  Missing: see `c108_fails`. -/
theorem c108_nested_partial (c : Client σ) (hc : c.Careful) (d : Desk σ) :
    ((c.exec d).1.vars, (c.exec d).2) = c.meaning d.vars := by
  have := c.exec_aside d hc
  exact Prod.ext this.vars this.result

/-- **C108 (one call).** A call of `Enforce` gives the answer that it gives alone, wherever it is made, with `eval` in any
place, and it leaves the parameters of the calls that are running as they are. -/
theorem c108_enforce (c : Asking) (pDef : PolicyDef) (expr : Str) (d : Desk σ) :
    (c.enforce pDef expr d).2 = enforce c.matcher pDef c.asker.alone c.ord expr ∧ (c.enforce pDef expr d).1.vars = d.vars ∧
      ∀ i < d.next, (c.enforce pDef expr d).1.pvals i = d.pvals i := by
  have := c.enforce_aside pDef expr d
  exact ⟨this.result, this.vars, this.pvals⟩

/-- What a call answers alone is what it answers in the theorems on the library (C75). -/
theorem c108_library (gov : Gov) (depth : Nat) (fns : Str → Option Fn) (par : Rule → Str → Option Str) :
    (Asker.of gov depth fns par).alone = gov.withEval depth fns par := rfl

/-! ## Examples -/

namespace NestedExample

/-- `p = cond, act`; a condition that is the text `bob` stands for `r.sub == 'bob'`. -/
def pDef : PolicyDef := newPolicyDef (s% "p") (s% "cond, act")
def anyRead : Rule := [s% "any", s% "read"]
def aliceRead : Rule := [s% "alice", s% "read"]
def bobRead : Rule := [s% "bob", s% "read"]
def bobWrite : Rule := [s% "bob", s% "write"]

/-- The request of a subject to read. -/
def asker (sub : Str) : Asker where
  compiles := fun _ => true
  own := fun _ => fun
    | [t] => .bool (t == sub)
    | _ => .err
  eval := fun e r f =>
    if e = s% "eval(p_cond)" then f [r.head?.getD []]
    else if e = s% "p_cond == 'any'" then .bool (r.head? == some (s% "any"))
    else .bool (r.getLast? == some (s% "read"))

def matcher (root : Stage) : Matcher :=
  match newMatcher pDef root [anyRead, aliceRead, bobRead, bobWrite] with
  | .ok m => m
  | _ => ⟨pDef, root, newNode [[]]⟩

/-- `eval(p.cond) && r.act == p.act` -/
def first : Stage := .mk [] [.mk (s% "eval(p_cond)") [.mk (s% "r_act == p_act") []]]

/-- `p.cond == 'any' || eval(p.cond)` -/
def last : Stage := .mk [] [.mk (s% "p_cond == 'any'") [], .mk (s% "eval(p_cond)") []]

def asking (root : Stage) (sub : Str) : Asking := ⟨matcher root, asker sub, Order.fwd⟩

/-- Lists the rules for alice; for each of them it asks whether bob may do something. -/
def client (root : Stage) : Client (List Rule × List (Res Bool)) :=
  .range (asking root (s% "alice")) (fun r => .set (fun s => (s.1 ++ [r.tail], s.2))
    (.enforce (asking root (s% "bob")) pDef SOME_ALLOW fun b => .set (fun s => (s.1, s.2 ++ [b])) (.ret true))) fun _ => .ret true

def desk : Desk (List Rule × List (Res Bool)) := ⟨(0, fun _ _ => .err), fun _ => [], 1, ([], [])⟩

theorem evalFirst (sub : Str) : (asking first sub).EvalFirst := ⟨⟨⟨fun _ _ _ => rfl, trivial⟩, trivial⟩, trivial⟩

theorem first_careful : (client first).Careful := ⟨.inl (evalFirst _), fun _ _ => trivial, fun _ => trivial⟩

/-- Lists the rules for alice; the callback makes no calls. -/
def plain : Client (List Rule × List (Res Bool)) :=
  .range (asking last (s% "alice")) (fun r => .set (fun s => (s.1 ++ [r.tail], s.2)) (.ret true)) fun
    | .cont => .look fun s => .ret (s.1.length == 2)
    | _ => .ret false

theorem plain_careful : plain.Careful :=
  ⟨.inr fun _ => trivial, fun _ => trivial, fun st => by cases st <;> first | exact fun _ => trivial | trivial⟩

/-- Lists the rules for bob, and inside it those for bob and for alice until the second one, each with a request of bob; then a
request of alice. -/
def deep : Client (List Rule × List (Res Bool)) :=
  .range (asking first (s% "bob")) (fun r => .set (fun s => (s.1 ++ [r.tail], s.2))
    (.range (asking first (s% "bob")) (fun r => .set (fun s => (s.1 ++ [r.tail], s.2)) (.ret false)) fun _ =>
    (.range (asking last (s% "alice")) (fun r => .look fun s => .set (fun s => (s.1 ++ [r.tail], s.2)) (.ret (s.1.length < 3)))
      fun st => .set (fun s => (s.1, s.2 ++ [.ok (st == .cont)])) (.ret true)))) fun _ =>
  .enforce (asking last (s% "alice")) pDef SOME_ALLOW fun b => .set (fun s => (s.1, s.2 ++ [b])) (.ret false)

theorem deep_careful : deep.Careful := by
  refine ⟨.inl (evalFirst _), fun r => ⟨.inr fun _ => trivial, fun _ => trivial, fun _ =>
    ⟨.inr fun _ _ => trivial, fun _ _ => trivial, fun _ => trivial⟩⟩, fun _ _ => trivial⟩

/-- Conditions that also look at the rule: `bob` stands for `r.sub == 'bob' && p.act == 'read'`; `bad` for one that fails. -/
def asker2 (sub : Str) : Asker where
  compiles := fun _ => true
  own := fun r => fun
    | [t] => if t = s% "bad" then .err else .bool (t == sub && r.getLast? == some (s% "read"))
    | _ => .err
  eval := fun _ r f => f [r.head?.getD []]

def asking2 (rules : List Rule) (sub : Str) : Asking :=
  ⟨match newMatcher pDef (.mk [] [.mk (s% "eval(p_cond)") []]) rules with
    | .ok m => m
    | _ => ⟨pDef, .mk [] [], newNode [[]]⟩, asker2 sub, Order.fwd⟩

def aliceWrite : Rule := [s% "alice", s% "write"]
def bad : Rule := [s% "bad", s% "read"]

/-- The same as `client` with these. -/
def client2 (rules : List Rule) : Client (List Rule × List (Res Bool)) :=
  .range (asking2 rules (s% "alice")) (fun r => .set (fun s => (s.1 ++ [r.tail], s.2))
    (.enforce (asking2 [bobRead] (s% "bob")) pDef SOME_ALLOW fun b => .set (fun s => (s.1, s.2 ++ [b])) (.ret true)))
    fun st => .ret (st == .cont)

end NestedExample

section
open NestedExample

example : (client first).Careful ∧
    (((client first).exec desk).1.vars, ((client first).exec desk).2) = (([aliceRead], [.ok true]), true) ∧
    (client first).meaning ([], []) = (([aliceRead], [.ok true]), true) :=
  ⟨first_careful, by decide +kernel, by decide +kernel⟩

example : plain.Careful ∧ (plain.exec desk).1.vars.1 = [anyRead, aliceRead] ∧ (plain.exec desk).2 = true :=
  ⟨plain_careful, by decide +kernel, by decide +kernel⟩

example : deep.Careful ∧ (deep.exec desk).1.vars =
      ([bobRead, bobRead, anyRead, aliceRead], [.ok false, .ok true]) ∧
    (deep.exec { desk with slot := (5, (asker (s% "bob")).own), pvals := fun _ => bobRead, next := 3 }).1.vars =
      (deep.exec desk).1.vars :=
  ⟨deep_careful, by decide +kernel, by decide +kernel⟩

example : ((client2 [aliceRead, bobRead, aliceWrite]).exec desk).1.vars = ([aliceRead], [.ok true]) ∧
    ((client2 [aliceRead, bobRead, aliceWrite]).exec desk).2 = true ∧
    ((client2 [aliceWrite, aliceRead, bad, aliceRead]).exec desk).1.vars = ([aliceRead], [.ok true]) ∧
    ((client2 [aliceWrite, aliceRead, bad, aliceRead]).exec desk).2 = false := by decide +kernel

/-- **C108 fails** when a condition that is not the first calls `eval`: after the callback has asked a request of bob, the
second alternative is compiled with the function `eval` of that request, and the rules for bob are listed instead of the
rule for alice. -/
theorem c108_fails :
    ((client last).meaning ([], [])).1.1 = [anyRead, aliceRead] ∧
    ((client last).exec desk).1.vars.1 = [anyRead, bobRead, bobWrite] := by
  decide +kernel
end

end Fastac
