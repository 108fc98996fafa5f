import Verif.Lemmas.Concurrent
import Verif.Spec.Effects

/-!
# C56: Enforce calls running at the same time
-/

namespace Fastac

/-- The matchers and requests of a group of calls: the call with number `i` runs `enforceP` with the
given matcher, policy definition, map order, effect expression and evaluator. -/
structure EnfCall where
  matcher : Matcher
  pDef : PolicyDef
  E : SharedEvaluator
  ord : Order
  expr : Str

/-- What the call does to the shared state. -/
def EnfCall.prog (c : EnfCall) : Prog (Res Bool) := enforceP c.matcher c.pDef c.E c.ord c.expr

/-- The answer of the call when it is the only one, as call number `me`. -/
def EnfCall.answer (c : EnfCall) (me : Nat) : Res Bool := enforce c.matcher c.pDef (c.E.alone me) c.ord c.expr

/-- The matcher of the call does not use the function `eval`: values do not depend on the function
stored in the map. -/
def EnfCall.NoEval (c : EnfCall) : Prop := ∀ e r o r' o' r'', c.E.eval e r o r' = c.E.eval e r o' r''

/-- **C56 (partial)**: any number of calls, any interleaving.  A call whose matcher does not use `eval`
returns exactly the answer it gives alone, whatever the other calls are and do (they may use `eval`).

Missing: calls that use `eval`, see `c56_fails`.  The data race on the map itself is not modelled. -/
theorem c56_concurrent_partial (calls : Nat → EnfCall) (owner : Nat) (rules : Nat → Rule)
    (sched : List Nat) (me : Nat) (hme : (calls me).NoEval) (b : Res Bool)
    (hdone : ((World.mk owner rules (fun i => (calls i).prog)).run sched).progs me = .done b) :
    b = (calls me).answer me := by
  obtain ⟨p, hp, hr⟩ := enforceP_returns (E := (calls me).E) (me := me) (free := True)
    (fun _ e r o r' => hme e r o r' me r) (calls me).matcher (calls me).pDef (calls me).ord
    (calls me).expr (rules me)
  have h := World.run_returns (me := me) (a := (calls me).answer me) sched
    (World.mk owner rules (fun i => (calls i).prog)) (by
      show (calls me).prog.Returns me True _ (rules me)
      unfold EnfCall.prog
      rw [hp]
      exact hr)
  rw [hdone] at h
  exact h

/-- **C56 (partial)**: calls that do not overlap decide on their own requests, also with `eval`: if the
steps of a call are not interrupted by others, then it returns the answer it gives alone. -/
theorem c56_separate_partial (calls : Nat → EnfCall) (owner : Nat) (rules : Nat → Rule)
    (before : List Nat) (n : Nat) (after : List Nat) (me : Nat) (hb : me ∉ before) (b : Res Bool)
    (hdone : ((World.mk owner rules (fun i => (calls i).prog)).run
      (before ++ List.replicate n me)).progs me = .done b) :
    b = (calls me).answer me ∧
    ((World.mk owner rules (fun i => (calls i).prog)).run
      (before ++ List.replicate n me ++ after)).progs me = .done ((calls me).answer me) := by
  have hb' : b = (calls me).answer me := by
    obtain ⟨w, hw⟩ : ∃ w, (World.mk owner rules (fun i => (calls i).prog)).run before = w := ⟨_, rfl⟩
    have hother := World.run_other before (World.mk owner rules (fun i => (calls i).prog)) hb
    rw [World.run_append, hw] at hdone
    rw [hw] at hother
    obtain ⟨p, hp, hr⟩ := enforceP_returns (E := (calls me).E) (me := me) (free := False)
      False.elim (calls me).matcher (calls me).pDef (calls me).ord (calls me).expr (w.rules me)
    have hprog : w.progs me = .setEval p := by rw [hother]; exact hp
    cases n with
    | zero =>
      simp only [List.replicate_zero, World.run] at hdone
      rw [hprog] at hdone
      cases hdone
    | succ n =>
      simp only [List.replicate_succ, World.run] at hdone
      have h := World.alone_returns (me := me) (a := (calls me).answer me) n (w.step me)
        (by unfold World.step; simp only [hprog])
        (by unfold World.step; simp only [hprog, put_same]; exact hr)
      rw [hdone] at h
      exact h
  subst hb'
  exact ⟨rfl, by rw [World.run_append]; exact World.run_done _ _ hdone⟩

/-- **C56 (progress)**: no call blocks another: a call that gets its turn again and again returns after
finitely many steps, whatever the others do. -/
theorem c56_finishes (calls : Nat → EnfCall) (owner : Nat) (rules : Nat → Rule) (sched : Nat → Nat)
    (me : Nat) (hfair : ∀ n, ∃ k, n ≤ k ∧ sched k = me) :
    ∃ n b, ((World.mk owner rules (fun i => (calls i).prog)).run ((List.range n).map sched)).progs me =
      .done b := by
  obtain ⟨n, b, h⟩ := World.finishes (me := me) _ (World.mk owner rules (fun i => (calls i).prog))
    sched hfair 0 rfl
  exact ⟨n, b, by rw [List.range_eq_range']; exact h⟩

/-! ## Two requests, one of them from bob -/

namespace ConcurrentExample

/-- `p = sub_rule`. -/
def pDef : PolicyDef := newPolicyDef (s% "p") (s% "sub_rule")

/-- EnfCall 0 is a request of alice, call 1 a request of bob. -/
def subject (i : Nat) : Str := if i = 0 then s% "alice" else s% "bob"

/-- The matcher `eval(p.sub_rule)`; the stored rule `bob` stands for the expression `r.sub == "bob"`.
Evaluated with the parameters of call `o`, it compares with the subject of that call. -/
def evalE : SharedEvaluator where
  compiles := fun _ => true
  eval := fun _ r o _ => .bool (r == [subject o])

/-- The matcher `r.sub == p.sub_rule` of call `i`. -/
def plainE (i : Nat) : SharedEvaluator where
  compiles := fun _ => true
  eval := fun _ r _ _ => .bool (r == [subject i])

/-- One stage, one stored rule. -/
def matcher (expr : Str) : Matcher :=
  match newMatcher pDef (.mk [] [.mk expr []]) [[s% "bob"]] with
  | .ok m => m
  | _ => ⟨pDef, .mk [] [], newNode []⟩

def withEval (_ : Nat) : EnfCall :=
  ⟨matcher (s% "eval(p_sub_rule)"), pDef, evalE, Order.fwd, SOME_ALLOW⟩

def plain (i : Nat) : EnfCall :=
  ⟨matcher (s% "r_sub == p_sub_rule"), pDef, plainE i, Order.fwd, SOME_ALLOW⟩

/-- The hypotheses of the theorems are met, and the answers differ between the two calls. -/
example : (∀ i, (plain i).NoEval) ∧ (plain 0).answer 0 = .ok false ∧ (plain 1).answer 1 = .ok true ∧
    ((World.mk 7 (fun _ => []) (fun i => (plain i).prog)).run [0, 1, 0, 0, 1, 1, 0, 1, 1, 0]).progs 0 =
      .done (.ok false) ∧
    ((World.mk 7 (fun _ => []) (fun i => (plain i).prog)).run [0, 1, 0, 0, 1, 1, 0, 1, 1, 0]).progs 1 =
      .done (.ok true) :=
  ⟨fun _ _ _ _ _ _ _ => rfl, by decide, by decide, rfl, rfl⟩

example : (withEval 0).answer 0 = .ok false ∧ (withEval 1).answer 1 = .ok true ∧ 0 ∉ [1, 1] ∧
    ((World.mk 7 (fun _ => []) (fun i => (withEval i).prog)).run
      ([1, 1] ++ List.replicate 5 0)).progs 0 = .done (.ok false) :=
  ⟨by decide, by decide, by decide, rfl⟩

/-- **C56 fails** for a matcher that uses `eval`: alice may not, bob may.  Both calls store their
`eval`, bob last, and then alice's call is decided on bob's request: alice is let in. -/
theorem c56_fails : ∃ (calls : Nat → EnfCall) (owner : Nat) (rules : Nat → Rule) (sched : List Nat),
    (calls 0).answer 0 = .ok false ∧ (calls 1).answer 1 = .ok true ∧
    ((World.mk owner rules (fun i => (calls i).prog)).run sched).progs 0 = .done (.ok true) :=
  ⟨withEval, 7, fun _ => [], [0, 1, 0, 0, 0, 0], by decide, by decide, rfl⟩

end ConcurrentExample

end Fastac
