import Verif.Spec.Changes
import Verif.Lemmas.Functions
import Verif.Lemmas.DomainPure
import Verif.Lemmas.CondDecide

/-!
# Requests that change nothing
-/

namespace Fastac

namespace Ask

theorem run_bind (fns : Str → Option Fn) (k : EvalRes → Ask) : ∀ a : Ask, (a.bind k).run fns =
    match a.run fns with
    | .panic => .panic
    | x => (k x).run fns
  | .ret x => by cases x <;> rfl
  | .call f args next => by
    simp only [bind, run]
    generalize (fns f).elim EvalRes.err (fun fn => fn args) = y
    cases y with
    | panic => rfl
    | bool b => exact run_bind fns k _
    | other => exact run_bind fns k _
    | err => exact run_bind fns k _

theorem run_handle {fns fns' : Str → Option Fn} {ev : List Str → Ask} {g : Fn}
    (hf : ∀ f, f ≠ s% "eval" → fns' f = fns f) (hg : ∀ args, (ev args).run fns' = g args) :
    ∀ a : Ask, (a.handle ev).run fns' = a.run (withFn fns (s% "eval") g)
  | .ret x => rfl
  | .call f args k => by
    simp only [handle]
    split
    · rename_i e
      subst e
      rw [run_bind, hg]
      simp only [run, withFn, if_true, Option.elim]
      have ih := fun x => run_handle hf hg (k x)
      cases g args with
      | panic => rfl
      | bool b => exact ih _
      | other => exact ih _
      | err => exact ih _
    · rename_i e
      have ih := fun x => run_handle hf hg (k x)
      simp only [run, withFn, if_neg e, hf f e]
      generalize (fns f).elim EvalRes.err (fun fn => fn args) = y
      cases y with
      | panic => rfl
      | bool b => exact ih _
      | other => exact ih _
      | err => exact ih _

/-- Calls that leave the state as it is and answer as the functions do. -/
theorem runE_quiet {τ : Type} {call : Str → List Str → τ → τ × EvalRes} {fns : Str → Option Fn} {t : τ}
    {P : Str → List Str → Prop}
    (h : ∀ f args, P f args → call f args t = (t, (fns f).elim .err (fun fn => fn args))) :
    ∀ a : Ask, a.Only P → a.runE call t = (t, a.run fns)
  | .ret x, _ => rfl
  | .call f args k, ha => by
    simp only [runE, run, h f args ha.1]
    generalize (fns f).elim EvalRes.err (fun fn => fn args) = y
    cases y with
    | panic => rfl
    | bool b => exact runE_quiet h _ (ha.2 _)
    | other => exact runE_quiet h _ (ha.2 _)
    | err => exact runE_quiet h _ (ha.2 _)

end Ask

namespace GovI

theorem isSome_withFn (fns : Str → Option Fn) (g : Fn) :
    (fun x => (withFn fns (s% "eval") g x).isSome) = withEvalName (fun x => (fns x).isSome) := by
  funext x
  unfold withFn withEvalName
  by_cases e : x = s% "eval" <;> simp [e]

theorem evalAsk_run (gi : GovI) {fns fns' : Str → Option Fn} (hf : ∀ f, f ≠ s% "eval" → fns' f = fns f)
    (par : Rule → Str → Option Str) (r : Rule) : ∀ (n : Nat) (args : List Str),
    (gi.evalAsk (fun x => (fns x).isSome) (par r) n args).run fns' = evalFn gi.toGov fns par r n args
  | 0, _ => rfl
  | n + 1, args => by
    have ih := evalAsk_run gi hf par r n
    match args with
    | [] => rfl
    | _ :: _ :: _ => rfl
    | [text] =>
      simp only [evalAsk, evalFn, toGov, isSome_withFn]
      split
      · exact Ask.run_handle hf ih _
      · rfl

/-- With functions that change nothing, the text of a stage has the value that `Gov.withEval` gives it. -/
theorem stageAsk_run (gi : GovI) {fns fns' : Str → Option Fn} (hf : ∀ f, f ≠ s% "eval" → fns' f = fns f)
    (par : Rule → Str → Option Str) (depth : Nat) (e : Str) (r : Rule) :
    (gi.stageAsk (fun x => (fns x).isSome) depth e (par r)).run fns' = (gi.toGov.withEval depth fns par).eval e r := by
  simp only [stageAsk, Gov.withEval, toGov, isSome_withFn]
  exact Ask.run_handle hf (evalAsk_run gi hf par r depth) _

end GovI

/-! ## The traversal -/

/-- At the state `t`, the evaluator `E` behaves as `E'` on the text and leaves the state. -/
def EvaluatorE.Quiet {τ : Type} (E : EvaluatorE τ) (E' : Evaluator) (t : τ) (st : Stage) : Prop :=
  E.compiles st.expr = E'.compiles st.expr ∧ ∀ r, E.eval st.expr r t = (t, E'.eval st.expr r)

theorem rangeEntriesE_quiet {τ σ : Type} {E : EvaluatorE τ} {E' : Evaluator} {t : τ} {st : Stage}
    (h : E.Quiet E' t st) {cbE : Str → Node → τ × σ → (τ × σ) × Status} {cb : Str → Node → σ → σ × Status}
    (hcb : ∀ k child s, cbE k child (t, s) = ((t, (cb k child s).1), (cb k child s).2)) :
    ∀ (es : GoMap Str Node) (s : σ), rangeEntriesE E st.expr cbE es (t, s) =
      ((t, (rangeEntries E' st.expr cb es s).1), (rangeEntries E' st.expr cb es s).2)
  | [], s => rfl
  | (k, child) :: es, s => by
    have ih := fun s => rangeEntriesE_quiet h hcb es s
    simp only [rangeEntriesE, rangeEntries, h.2]
    cases E'.eval st.expr child.rule with
    | err => rfl
    | panic => rfl
    | other => exact ih s
    | bool b =>
      cases b with
      | false => exact ih s
      | true =>
        simp only [hcb]
        generalize cb k child s = y
        obtain ⟨s', q⟩ := y
        cases q with
        | cont => exact ih s'
        | stop => rfl
        | err => rfl
        | panic => rfl

mutual
theorem rangeStageE_quiet {τ σ : Type} {E : EvaluatorE τ} {E' : Evaluator} {t : τ} (nargs : Nat) (ord : Order)
    (fn : σ → Rule → σ × Bool) : ∀ (st : Stage) (path : List (Nat × Str)) (node : Node) (s : σ),
    st.All (E.Quiet E' t) → rangeStageE E nargs ord fn st path node (t, s) =
      ((t, (rangeStage E' nargs ord fn st path node s).1), (rangeStage E' nargs ord fn st path node s).2)
  | .mk _ cs, path, node, s, h => by
    simp only [rangeStageE, rangeStage]
    exact rangeChildrenE_quiet nargs ord fn cs 0 path node s (by simpa only [Stage.All] using h)
theorem rangeChildrenE_quiet {τ σ : Type} {E : EvaluatorE τ} {E' : Evaluator} {t : τ} (nargs : Nat) (ord : Order)
    (fn : σ → Rule → σ × Bool) : ∀ (cs : List Stage) (i : Nat) (path : List (Nat × Str)) (node : Node) (s : σ),
    Stage.AllIn (E.Quiet E' t) cs → rangeChildrenE E nargs ord fn cs i path node (t, s) =
      ((t, (rangeChildren E' nargs ord fn cs i path node s).1), (rangeChildren E' nargs ord fn cs i path node s).2)
  | [], _, _, _, _, _ => by simp only [rangeChildrenE, rangeChildren]
  | st :: rest, i, path, node, s, h => by
    simp only [Stage.AllIn] at h
    simp only [rangeChildrenE, rangeChildren]
    cases node.children[i]? with
    | none => rfl
    | some m =>
      simp only [h.1.1.1]
      by_cases hc : E'.compiles st.expr = false
      · simp only [hc, if_true]
      · rw [if_neg hc, if_neg hc]
        have ih := fun path node s => rangeStageE_quiet (E := E) (E' := E') (t := t) nargs ord fn st path node s h.1.2
        rw [rangeEntriesE_quiet h.1.1 (cb := fun k child s =>
            match (if st.isLeaf then fn s child.rule else (s, true)) with
            | (s', false) => (s', .stop)
            | (s', true) =>
              match rangeStage E' nargs ord fn st (path ++ [(i, k)]) child s' with
              | (s'', .cont) => (s'', .cont)
              | (s'', .panic) => (s'', .panic)
              | (s'', _) => (s'', .stop))]
        · generalize rangeEntries E' st.expr _ _ s = y
          obtain ⟨s', q⟩ := y
          cases q with
          | cont => exact rangeChildrenE_quiet nargs ord fn rest (i + 1) path node s' h.2
          | stop => rfl
          | err => rfl
          | panic => rfl
        · intro k child s
          simp only []
          generalize (if st.isLeaf then fn s child.rule else (s, true)) = z
          obtain ⟨s', b⟩ := z
          cases b with
          | false => rfl
          | true =>
            simp only [ih]
            generalize rangeStage E' nargs ord fn st (path ++ [(i, k)]) child s' = y
            obtain ⟨s'', q⟩ := y
            cases q <;> rfl
end

/-! ## Requests -/

namespace FnModel

open Model

theorem onManager_same {s : FnModel} {key : Str} {rp : RolePolicy} (h : s.model.rpMap.get key = some rp) :
    s.onManager key (fun _ => rp.mgr) = s := by
  unfold onManager
  rw [h]
  simp only [GoMap.set_same h]

theorem call_quiet {t : FnModel} {f : Str} {args : List Str}
    (h : t.fns.get f = some .role → ∀ rp, t.model.rpMap.get f = some rp → ∀ u r ds, args = u :: r :: ds →
      ∀ mgr b, rp.mgr.hasLink u r ds = .ok (mgr, b) → mgr = rp.mgr) :
    call f args t = (t, (t.functions f).elim .err (fun fn => fn args)) := by
  unfold call functions
  cases hq : t.fns.get f with
  | none => rfl
  | some v =>
    cases v with
    | fn g => rfl
    | eval => rfl
    | role =>
      simp only
      cases hr : t.model.rpMap.get f with
      | none => rfl
      | some rp =>
        match args, h with
        | [], _ => rfl
        | [_], _ => rfl
        | u :: r :: ds, h =>
          simp only [Option.map_some, Option.elim, gFunction]
          cases hl : rp.mgr.hasLink u r ds with
          | err => rfl
          | panic => rfl
          | ok x =>
            obtain ⟨mgr, b⟩ := x
            have := h hq rp hr u r ds rfl mgr b hl
            subst this
            simp only [onManager_same hr]

theorem enforceE_quiet (build : FnBuild) (s : FnModel) (gi : GovI) (depth : Nat) (ord : Order) (params : List Param)
    (P : Str → List Str → Prop) (hA : s.Asks build gi depth params P)
    (hQ : ∀ key rp u r ds, s.fns.get key = some .role → s.model.rpMap.get key = some rp → P key (u :: r :: ds) →
      ∀ mgr b, rp.mgr.hasLink u r ds = .ok (mgr, b) → mgr = rp.mgr) :
    s.enforceE build gi depth ord params = s.enforce build gi.toGov depth ord params := by
  unfold enforceE enforce Model.enforceParams
  unfold Asks at hA
  have hx := newContext_extends (build s.knows) s.model (splitParams params).1
  have hreach : s.reaches build params = s.reaches build params := rfl
  conv at hreach => rhs; unfold reaches
  cases hn : newContext (build s.knows) s.model (splitParams params).1 with
  | mk m' r =>
    rw [hn] at hx hreach
    simp only at hx
    cases r with
    | err => simp only at hreach; simp [hreach]
    | panic => simp only at hreach; simp [hreach]
    | ok ctx =>
      simp only [enforceCtx]
      simp only at hreach
      cases hm : ctx.matcher.bind m'.resolve with
      | none => simp only
      | some mt =>
        rw [hm] at hreach
        simp only at hreach
        cases hr : ctx.rDef with
        | none => simp only
        | some rDef =>
          cases he : ctx.effector with
          | none => simp only
          | some eff =>
            simp only
            cases hp : m'.pDefs.get mt.pDef.key with
            | none => simp [hreach, GoMap.has, hp]
            | some pDef =>
              have hhas : s.reaches build params = true := by rw [hreach]; simp [GoMap.has, hp]
              simp only [hhas, if_true, Fastac.enforce, Matcher.rangeMatches]
              have hroles : ∀ f, f ≠ s% "eval" →
                  (⟨m', s.fns.set (s% "eval") .eval⟩ : FnModel).functions f = s.functions f := by
                intro f hf
                simp only [functions]
                rw [GoMap.get_set_ne _ _ hf]
                rcases hx.role f with ⟨e1, e2⟩ | ⟨p, x, e1, e2⟩
                · rw [e1, e2]
                · rw [e1, e2]; rfl
              have hall : mt.exprRoot.All ((s.evaluatorE gi depth mt rDef (splitParams params).2).Quiet
                  (m'.evaluator (fun _ => none) (s.lib gi.toGov depth) mt rDef (splitParams params).2)
                  ⟨m', s.fns.set (s% "eval") .eval⟩) := by
                refine Stage.all_mono ?_ _ (hA m' ctx mt rDef hn hm hr)
                intro st hst
                refine ⟨?_, fun r => ?_⟩
                · simp only [evaluatorE, evaluator, lib, Gov.withEval, GovI.toGov, GovI.isSome_withFn]
                  rfl
                · simp only [evaluatorE, evaluator, lib]
                  rw [Ask.runE_quiet (P := P) (fns := (⟨m', s.fns.set (s% "eval") .eval⟩ : FnModel).functions) ?_ _ (hst r)]
                  · rw [← GovI.stageAsk_run gi hroles]; rfl
                  · intro f args hP
                    refine call_quiet ?_
                    intro hf rp hrp u r ds ha mgr b hl
                    subst ha
                    have hne : f ≠ s% "eval" := by
                      rintro rfl
                      rw [GoMap.get_set_self] at hf; cases hf
                    rw [GoMap.get_set_ne _ _ hne] at hf
                    rcases hx.role f with ⟨e1, e2⟩ | ⟨p, x, e1, e2⟩
                    · rw [e2] at hrp; cases hrp
                    · rw [e2] at hrp; cases hrp
                      exact hQ f p u r ds hf e1 hP mgr b hl
              rw [rangeStageE_quiet _ _ _ _ _ _ _ hall]

end FnModel

end Fastac
