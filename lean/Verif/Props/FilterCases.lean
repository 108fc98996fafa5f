import Verif.Props.Filter
import Verif.Props.Condition
import Verif.Props.Shipped

/-!
# C94: cases that meet the hypotheses, and what is missing
-/

namespace Fastac

namespace FilterExample

def sameSub : Cond := .atom (.eq (.req (s% "sub")) (.pol (s% "sub")))
def sameAct : Cond := .atom (.eq (.req (s% "act")) (.pol (s% "act")))
def isUser : Cond := .atom (.eq (.req (s% "sub")) (.pol (s% "user")))
def isDomain : Cond := .atom (.eq (.req (s% "sub")) (.pol (s% "domain")))
def isAlice : Cond := .atom (.eq (.pol (s% "sub")) (.lit (s% "alice")))
def inD1 : Cond := .atom (.eq (.pol (s% "domain")) (.lit (s% "d1")))
def fine : Cond := .atom (.call (s% "fine") [.pol (s% "act")])

def rootOf (pk : Str) (f : List (List Cond)) : Stage := .mk [] (Operand.trD (Cond.formula (s% "r") pk f) [])

/-- The texts of matchers and what they say. -/
def texts : List (Str × Str × List (List Cond)) :=
  [(s% "both", s% "p", [[sameSub, sameAct]]), (s% "either", s% "p", [[sameSub], [sameAct]]),
    (s% "checked", s% "p", [[sameSub, fine]]),
    (s% "user", s% "g", [[isUser]]), (s% "user2", s% "g2", [[isUser]]), (s% "user3", s% "g3", [[isUser]]),
    (s% "domain2", s% "g2", [[isDomain]]), (s% "alice", s% "p", [[isAlice]]), (s% "d1", s% "g", [[inD1]])]

def reading (e : Str) : Res Stage :=
  match texts.lookup e with
  | some (pk, f) => .ok (rootOf pk f)
  | none => .err

def fbuild : FnBuild := fun _ e => reading e

theorem coherent : fbuild.Coherent reading := fun _ _ => .inl rfl

theorem binary : ∀ e s, reading e = .ok s → s.Binary := by
  intro e s h
  unfold reading at h
  split at h
  · rename_i pk f hf
    cases h
    have hm : (pk, f) ∈ texts.map Prod.snd := by
      obtain ⟨l, l', hl, -⟩ := List.lookup_eq_some_iff.1 hf
      have : (e, pk, f) ∈ texts := by rw [hl]; simp
      exact List.mem_map_of_mem (f := Prod.snd) this
    simp only [texts, List.map_cons, List.map_nil, List.mem_cons, List.not_mem_nil, or_false, Prod.mk.injEq] at hm
    rcases hm with ⟨rfl, rfl⟩ | ⟨rfl, rfl⟩ | ⟨rfl, rfl⟩ | ⟨rfl, rfl⟩ | ⟨rfl, rfl⟩ | ⟨rfl, rfl⟩ | ⟨rfl, rfl⟩ |
      ⟨rfl, rfl⟩ | ⟨rfl, rfl⟩ <;>
    simp [rootOf, sameSub, sameAct, isUser, isDomain, isAlice, inD1, fine,
      Cond.formula, Cond.operands, Cond.operand, Atom.operand,
      Operand.trD, Operand.trC, Operand.trU, Stage.Binary, Stage.All, Stage.AllIn, Stage.children]
  · cases h

/-- A function that has no answer for one value. -/
def fineFn : List Str → EvalRes
  | [x] => if x = s% "bad" then .err else .bool true
  | _ => .err

def defs : FnModel :=
  ((((((((FnModel.new Shipped.Run.std []).setFunction (s% "fine") fineFn).setDef 'r' (s% "r") (s% "sub, act")).1.setDef
    'p' (s% "p") (s% "sub, act")).1.setDef 'g' (s% "g") (s% "_, _, _")).1.setDef 'g' (s% "g2") (s% "_, _")).1.setDef
    'g' (s% "g3") (s% "_, _, _, _")).1.setDef 'm' (s% "m") (s% "both")).1

def start : FnModel := (defs.buildMatcher fbuild (s% "m")).1

def add (s : FnModel) (rule : Rule) : FnModel := { s with model := (s.model.addRule rule).1 }
def remove (s : FnModel) (rule : Rule) : FnModel := { s with model := (s.model.removeRule rule).1 }

/-- Three rules, one of which is removed, and links with no, one and two domains. -/
def program : FnModel :=
  remove (add (add (add (add (add (add (add start [s% "p", s% "alice", s% "read"]) [s% "p", s% "alice", s% "write"])
    [s% "p", s% "bob", s% "read"]) [s% "g", s% "alice", s% "admin", s% "d1"]) [s% "g", s% "alice", s% "user", s% "d2"])
    [s% "g2", s% "alice", s% "admin"]) [s% "g3", s% "alice", s% "admin", s% "d1", s% "d2"]) [s% "p", s% "bob", s% "read"]

theorem defsFree : FnModel.FnFree fbuild defs :=
  .setDef (.setDef (.setDef (.setDef (.setDef (.setDef (.setFunction (.new _ _) _ _) _ _ _) _ _ _) _ _ _) _ _ _) _ _ _) _ _ _

theorem seen : ∃ H, FnModel.FnSeen fbuild (s% "m") (rootOf (s% "p") [[sameSub, sameAct]]) H program := by
  refine ⟨_, .remove (.add (.add (.add (.add (.add (.add (.add (.built defsFree (s% "both") (by decide +kernel) rfl
    (by decide +kernel)) _ ?_) _ ?_) _ ?_) _ ?_) _ ?_) _ ?_) _ ?_) _ ?_⟩ <;> decide +kernel

theorem free : FnModel.FnFree fbuild program := by
  obtain ⟨H, h⟩ := seen
  exact h.free

def gov : Gov := Model.EvalExample.gov

def ask (s : FnModel) (text : Str) (rvals : List Str) : List Rule × Res Unit :=
  (s.filter fbuild gov 1 Order.fwd (.opt (.matcher (.str text)) :: rvals.map .val)).2

example : (program.filter fbuild gov 1 Order.fwd ([s% "alice", s% "read"].map .val)).2 =
      ([[s% "p", s% "alice", s% "read"]], .ok ()) ∧
    ask program (s% "user") [s% "alice", []] =
      ([[s% "g", s% "alice", s% "admin", s% "d1"], [s% "g", s% "alice", s% "user", s% "d2"]], .ok ()) ∧
    ask program (s% "user2") [s% "alice", []] = ([[s% "g2", s% "alice", s% "admin"]], .ok ()) := by decide +kernel

/-- Calls of `Filter` are steps of programs. -/
example : ∃ H, FnModel.FnSeen fbuild (s% "m") (rootOf (s% "p") [[sameSub, sameAct]]) H
    (program.filter fbuild gov 1 Order.fwd [.opt (.matcher (.str (s% "alice")))]).1 := by
  obtain ⟨H, h⟩ := seen
  exact ⟨H, .filter h _ _ _ _⟩

/-- As in the comment of `Filter` (enforcer.go:278-281): the matchers `p.sub == "alice"` and `g.domain == "d1"`, and no
request. -/
example : ask program (s% "alice") [] = ([[s% "p", s% "alice", s% "read"], [s% "p", s% "alice", s% "write"]], .ok ()) ∧
    ask program (s% "d1") [] = ([[s% "g", s% "alice", s% "admin", s% "d1"]], .ok ()) := by decide +kernel

def rArgs : List Str := [s% "sub", s% "act"]

/-- The hypotheses of `c94_stored_partial` hold of this program. -/
example (sub act : Str) : ∃ H rules rows n, program.model.policyRules (s% "p") = some rules ∧
    (n ≠ 0 ↔ LeftOver rArgs (fun a r => a.holds (Ref.val rArgs rArgs [sub, act] r)
      (program.SaysNow gov (s% "r") rArgs [sub, act])) H rules [[sameSub, sameAct]]) ∧
    Lists (s% "p") (fun r => Cond.timesTrue (fun a => a.holds (Ref.val rArgs rArgs [sub, act] r)
      (program.SaysNow gov (s% "r") rArgs [sub, act])) [[sameSub, sameAct]]) rules n 2 rows ∧
    program.filter fbuild gov 1 Order.rev ([sub, act].map .val) =
      (⟨program.model, program.fns.set (s% "eval") .eval⟩, rows, .ok ()) := by
  obtain ⟨H, h⟩ := seen
  obtain ⟨rules, rows, n, h1, -, -, h2, h3, h4⟩ := FnModel.c94_stored_partial fbuild reading coherent binary (fun _ => 0)
    (s% "r") (s% "m") (s% "p") (s% "sub, act") rArgs rArgs [[sameSub, sameAct]] _ (by decide) (by decide)
    (buildMatcherDef_formula _ _ (by decide) (by decide)) (fun _ => True) H program h (by decide) (by decide +kernel)
    (by decide) (newPolicyDef (s% "p") (s% "sub, act")) (by rfl) (by decide) gov Model.EvalExample.gov_ok
    (Gov.scope_scoped _)
    ⟨Model.writable_of (by decide) (by decide +kernel) (by decide +kernel), Model.writable_of (by decide) (by decide +kernel)
      (by decide +kernel), rfl, 'p', [], rfl, .inl rfl, by decide⟩ [sub, act] (.of_len (by rfl))
    (by
      intro a ha
      simp only [Cond.anyAtoms, Cond.allAtoms, Cond.atoms, sameSub, sameAct, List.append_nil, List.cons_append,
        List.nil_append, List.mem_cons, List.not_mem_nil, or_false] at ha
      rcases ha with rfl | rfl <;>
        exact ⟨⟨by simp [Ref.Known, rArgs], by simp [Ref.Known, rArgs]⟩, fun _ _ e => by cases e⟩)
    (.inl rfl) (fun _ _ => trivial) (fun _ => trivial) Order.rev Order.rev_valid 1 (by decide) _ (fun _ => rfl) _
    (.inr (.inr ⟨rfl, rfl, rfl⟩))
  exact ⟨H, rules, rows, n, h1, h2, h3, h4⟩

/-- The hypotheses of `c94_inline_partial` hold of this program, for roles with a domain. -/
example (sub act : Str) : ∃ rows, Lists (s% "g") (fun r => Cond.timesTrue (fun a => a.holds
      (Ref.val rArgs [s% "user", s% "role", s% "domain"] [sub, act] r)
      (program.SaysNow gov (s% "r") rArgs [sub, act])) [[isUser]])
      [[s% "alice", s% "admin", s% "d1"], [s% "alice", s% "user", s% "d2"]] 0 3 rows ∧
    ask program (s% "user") [sub, act] = (rows, .ok ()) := by
  obtain ⟨rows, n, h1, h2, h3, -, -⟩ := FnModel.c94_inline_partial fbuild reading coherent binary (fun _ => 0)
    (s% "r") (s% "user") (s% "g") (s% "sub, act") rArgs _ [[isUser]] _ (by decide) (by decide)
    (buildMatcherDef_formula _ _ (by decide) (by decide)) program free rfl (by decide) (by decide +kernel)
    (by decide +kernel) (by decide) (.inr ⟨rfl, rfl⟩)
    [[s% "alice", s% "admin", s% "d1"], [s% "alice", s% "user", s% "d2"]] (by decide +kernel)
    (fun _ => by decide) gov Model.EvalExample.gov_ok (Gov.scope_scoped _)
    ⟨Model.writable_of (by decide) (by decide +kernel) (by decide +kernel), Model.writable_of (by decide) (by decide +kernel)
      (by decide +kernel), rfl, 'g', [], rfl, .inr rfl, by decide⟩ [sub, act] (.of_len (by rfl)) (fun _ => True)
    (by
      intro a ha
      simp only [Cond.anyAtoms, Cond.allAtoms, Cond.atoms, isUser, List.append_nil, List.mem_cons, List.not_mem_nil, or_false] at ha
      subst ha
      exact ⟨⟨by simp [Ref.Known, rArgs], by simp [Ref.Known]⟩, fun _ _ e => by cases e⟩)
    (.inr ⟨.eq (.req (s% "sub")) (.pol (s% "user")), by simp [Cond.anyAtoms, Cond.allAtoms, Cond.atoms, isUser],
      s% "user", by simp [Atom.refs]⟩)
    (fun _ _ => trivial) (fun _ => trivial) Order.fwd Order.fwd_valid 1 (by decide) _ (fun _ => rfl) _ (.inr ⟨rfl, rfl⟩)
  obtain rfl : n = 0 := by
    cases n with
    | zero => rfl
    | succ n => exact absurd (h1.1 (by simp)).1 (by simp)
  exact ⟨rows, h2, h3⟩

/-- The hypotheses of `c94_inline_partial` hold of this program, for the matcher `p.sub == "alice"` and without a
request. -/
example : ∃ rows, Lists (s% "p") (fun r => Cond.timesTrue (fun a => a.holds (Ref.val rArgs rArgs [] r)
      (program.SaysNow gov (s% "r") rArgs [])) [[isAlice]])
      [[s% "alice", s% "read"], [s% "alice", s% "write"]] 0 2 rows ∧ ask program (s% "alice") [] = (rows, .ok ()) := by
  obtain ⟨rows, n, h1, h2, h3, -, -⟩ := FnModel.c94_inline_partial fbuild reading coherent binary (fun _ => 0)
    (s% "r") (s% "alice") (s% "p") (s% "sub, act") rArgs rArgs [[isAlice]] _ (by decide) (by decide)
    (buildMatcherDef_formula _ _ (by decide) (by decide)) program free rfl (by decide) (by decide +kernel)
    (by decide +kernel) (by decide) (.inl ⟨newPolicyDef (s% "p") (s% "sub, act"), by rfl, by decide⟩)
    [[s% "alice", s% "read"], [s% "alice", s% "write"]] (by decide +kernel)
    (fun e => absurd e (by decide)) gov Model.EvalExample.gov_ok (Gov.scope_scoped _)
    ⟨Model.writable_of (by decide) (by decide +kernel) (by decide +kernel), Model.writable_of (by decide) (by decide +kernel)
      (by decide +kernel), rfl, 'p', [], rfl, .inl rfl, by decide⟩ []
    ⟨by decide, by simp [Atom.Given, Cond.anyAtoms, Cond.allAtoms, Cond.atoms, isAlice, Atom.refs]⟩ (fun _ => True)
    (by
      intro a ha
      simp only [Cond.anyAtoms, Cond.allAtoms, Cond.atoms, isAlice, List.append_nil, List.mem_cons, List.not_mem_nil, or_false] at ha
      subst ha
      exact ⟨⟨by simp [Ref.Known, rArgs], by simp [Ref.Known]; decide⟩, fun _ _ e => by cases e⟩)
    (.inl rfl)
    (fun _ _ => trivial) (fun _ => trivial) Order.fwd Order.fwd_valid 1 (by decide) _ (fun _ => rfl) _ (.inr ⟨rfl, rfl⟩)
  obtain rfl : n = 0 := by
    cases n with
    | zero => rfl
    | succ n => exact absurd (h1.1 (by simp)).1 (by simp)
  exact ⟨rows, h2, h3⟩

/-- The hypotheses of `c94_pairs_partial` hold of this program. -/
example (sub act : Str) : ∃ rows, Lists (s% "g2") (fun r => Cond.timesTrue (fun a => a.holds
      (Ref.val rArgs [s% "user", s% "role"] [sub, act] r)
      (program.SaysNow gov (s% "r") rArgs [sub, act])) [[isUser]]) [[s% "alice", s% "admin"]] 0 2 rows ∧
    ask program (s% "user2") [sub, act] = (rows, .ok ()) := by
  obtain ⟨rows, h2, h3, -, -⟩ := FnModel.c94_pairs_partial fbuild reading coherent binary (fun _ => 0)
    (s% "r") (s% "user2") (s% "g2") (s% "sub, act") rArgs [[isUser]] _ (by decide) (by decide)
    (buildMatcherDef_formula _ _ (by decide) (by decide)) program rfl (by decide) (by decide +kernel)
    (by decide +kernel) (by decide) rfl [[s% "alice", s% "admin"]] (by decide +kernel) (by decide) (by decide)
    (by decide) gov Model.EvalExample.gov_ok (Gov.scope_scoped _)
    ⟨Model.writable_of (by decide) (by decide +kernel) (by decide +kernel), Model.writable_of (by decide) (by decide +kernel)
      (by decide +kernel), rfl, 'g', [_], rfl, .inr rfl, by decide⟩ [sub, act] (.of_len (by rfl)) (fun _ => True)
    (by
      intro a ha
      simp only [Cond.anyAtoms, Cond.allAtoms, Cond.atoms, isUser, List.append_nil, List.mem_cons, List.not_mem_nil, or_false] at ha
      subst ha
      exact ⟨⟨by simp [Ref.Known, rArgs], by simp [Ref.Known]⟩, fun _ _ e => by cases e⟩)
    ⟨.eq (.req (s% "sub")) (.pol (s% "user")), by simp [Cond.anyAtoms, Cond.allAtoms, Cond.atoms, isUser],
      s% "user", by simp [Atom.refs]⟩
    (fun _ _ => trivial) Order.fwd Order.fwd_valid 1 (by decide) _ (fun _ => rfl) _ (.inr ⟨rfl, rfl⟩)
  exact ⟨rows, h2, h3⟩

/-- A callback that stops at the first row, and the answers of `Enforce`. -/
example : (program.rangeMatches fbuild gov 1 Order.fwd (.opt (.matcher (.str (s% "user"))) :: [s% "alice", []].map .val)
      (fun (a : List Rule) r => (a ++ [r], false)) []).2 = ([[s% "g", s% "alice", s% "admin", s% "d1"]], .ok ()) ∧
    ((program.setDef 'e' (s% "e") SOME_ALLOW).1.enforce fbuild gov 1 Order.fwd ([s% "alice", s% "read"].map .val)).2 =
      .ok true ∧
    ((program.setDef 'e' (s% "e") SOME_ALLOW).1.enforce fbuild gov 1 Order.fwd ([s% "bob", s% "read"].map .val)).2 =
      .ok false ∧
    -- there is no policy definition `g`
    ((program.setDef 'e' (s% "e") SOME_ALLOW).1.enforce fbuild gov 1 Order.fwd
      (.opt (.matcher (.str (s% "user"))) :: [s% "alice", []].map .val)).2 = .panic := by decide +kernel

/-- `Enforce` with a matcher as text leaves a listener behind, too; the functions stay. -/
example : let s := (program.setDef 'e' (s% "e") SOME_ALLOW).1
    let s' := (s.enforce fbuild gov 1 Order.fwd (.opt (.matcher (.str (s% "either"))) :: [s% "alice", []].map .val)).1
    (s.model.listening (s% "p"), s'.model.listening (s% "p")) = (1, 2) ∧ s'.knows (s% "fine") = true ∧
    s'.knows (s% "eval") = true ∧ s'.model.policyRules (s% "p") = s.model.policyRules (s% "p") := by decide +kernel

/-- So does `Filter`, which lists rules whatever their effect. -/
example : let s := add program [s% "p", s% "alice", s% "deny"]
    ask s (s% "alice") [] = ([[s% "p", s% "alice", s% "read"], [s% "p", s% "alice", s% "write"],
      [s% "p", s% "alice", s% "deny"]], .ok ()) ∧
    (s.filter fbuild gov 1 Order.fwd [.opt (.matcher (.str (s% "alice")))]).1.model.listening (s% "p") = 2 ∧
    (s.removeFunction (s% "eval")).1.knows (s% "eval") = false ∧
    ((s.removeFunction (s% "eval")).1.filter fbuild gov 1 Order.fwd [.opt (.matcher (.str (s% "alice")))]).1.knows (s% "eval") = true := by
  decide +kernel

/-- Two rules, and the function `fine` has no answer for the first. -/
def checked : FnModel := add (add start [s% "p", s% "alice", s% "bad"]) [s% "p", s% "alice", s% "read"]

/-- **C94 fails** in general, for the matchers `r.sub == p.sub && r.act == p.act` (called `m`),
`r.sub == p.sub || r.act == p.act`, `r.sub == p.sub && fine(p.act)`, `r.sub == g3.user` and `r.sub == g2.domain`:
a rule with empty fields is listed that was never given, when there are no rules, or rules have been removed; a
rule is listed twice when two alternatives are true of it; the fields of links with two domains are called `role`,
`domain` and so on instead of `user`, `role` and so on; an error in a nested stage ends the list and is not
returned; links without a domain have no field `domain`, and asking for it is an error;
and without a request definition `r` the call panics. -/
theorem c94_fails :
    ask start (s% "m") [[], []] = ([[s% "p", [], []]], .ok ()) ∧
    ask program (s% "m") [s% "bob", []] = ([[s% "p", [], []]], .ok ()) ∧
    ask program (s% "either") [s% "alice", s% "read"] =
      ([[s% "p", s% "alice", s% "read"], [s% "p", s% "alice", s% "write"], [s% "p", s% "alice", s% "read"]], .ok ()) ∧
    ask program (s% "user3") [s% "alice", []] = ([], .ok ()) ∧
    ask program (s% "user3") [s% "admin", []] = ([[s% "g3", s% "alice", s% "admin", s% "d1", s% "d2"]], .ok ()) ∧
    ask checked (s% "checked") [s% "alice", []] = ([], .ok ()) ∧
    ask program (s% "domain2") [s% "alice", []] = ([], .err) ∧
    ask (program.removeDef 'r' (s% "r")).1 (s% "user") [s% "alice", []] = ([], .panic) := by
  refine ⟨?_, ?_, ?_, ?_, ?_, ?_, ?_, ?_⟩ <;> decide +kernel

end FilterExample

end Fastac
