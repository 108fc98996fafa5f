import Verif.Props.InStep
import Verif.Props.Matching
import Verif.Lemmas.EndToEnd
import Verif.Lemmas.ModelText

/-!
# C69: decisions of models with any number of definitions
-/

namespace Fastac

namespace Model

/-- The matcher of a `p` policy in a model with a history: its invariant. -/
theorem Bound.inv {build : Str → Res Stage} (hbin : ∀ e s, build e = .ok s → s.Binary) {key : Str}
    {root : Stage} {m : Model} (h : Bound build key root m) (hp : root.policyKey.head? = some 'p') :
    ∃ i mt p d, m.mMap.get key = some (.live root.policyKey i) ∧
      m.resolve (.live root.policyKey i) = some mt ∧ m.pMap.get root.policyKey = some p ∧
      m.policyRules root.policyKey = some p.policy.rules ∧
      m.pDefs.get root.policyKey = some d ∧ d.key = root.policyKey ∧
      mt.pDef = d ∧ root.Binary ∧
      PolicyWithMatcher.Inv d root ⟨Policy.ofRules p.policy.rules, mt⟩ := by
  obtain ⟨hk, i, mt, h1, h2, h3⟩ := h.tied
  obtain ⟨expr, he⟩ := h.root
  have hs := hk.step hbin
  have ht := hk.made.tidy
  have h2' := h2
  unfold resolve at h2'
  cases hq : m.pMap.get root.policyKey with
  | some p =>
    simp only [hq] at h2'
    obtain ⟨d, hd, g1, g2⟩ := hs.p _ p hq
    have hm := g2 mt (List.mem_of_getElem? h2')
    have inv := hm.inv (ht.pols _ p hq).2.1.rules_nodup g1
    rw [h3] at inv
    exact ⟨i, mt, p, d, h1, h2, rfl, by unfold policyRules; rw [hq], hd, hs.defs _ _ hd, hm.pdef,
      hbin _ _ he, inv⟩
  | none =>
    simp only [hq] at h2'
    cases hr : m.rpMap.get root.policyKey with
    | none => rw [hr] at h2'; cases h2'
    | some rp =>
      have := (ht.roles _ rp hr).1
      rw [hp] at this
      exact absurd this (by decide)

/-- The context made of three names. -/
def named (rk mk ek : Str) : List Param :=
  [.opt (.request (.str rk)), .opt (.matcher (.str mk)), .opt (.effector (.str ek))]

theorem splitParams_vals (vs : List Str) : splitParams (vs.map Param.val) = ([], vs) := by
  induction vs with
  | nil => rfl
  | cons v vs ih => simp only [List.map_cons, splitParams, ih]

theorem splitParams_named (rk mk ek : Str) (vs : List Str) : splitParams (named rk mk ek ++ vs.map Param.val) =
    ([.request (.str rk), .matcher (.str mk), .effector (.str ek)], vs) := by
  simp only [named, List.cons_append, List.nil_append, splitParams, splitParams_vals]

theorem newContext_named {build : Str → Res Stage} {m : Model} {rk mk ek rText eff : Str} {x : MEntry}
    (hr : m.rDefs.get rk = some rText) (hm : m.mMap.get mk = some x) (he : m.eDefs.get ek = some eff)
    (n1 : rk ≠ []) (n2 : mk ≠ []) (n3 : ek ≠ []) :
    newContext build m [.request (.str rk), .matcher (.str mk), .effector (.str ek)] =
      (m, .ok ⟨some (newPolicyDef rk rText), some x, some eff⟩) := by
  simp only [newContext, applyOpts, applyOpt, setRequestOpt, n1, if_false, Model.getRequestDef, hr, Res.map_ok,
    setMatcherOpt, n2, hm, setEffectorOpt, n3, he, defaultRequest, defaultMatcher, defaultEffector,
    Option.isNone_some, Bool.false_eq_true]

theorem newContext_default {build : Str → Res Stage} {m : Model} {rText eff : Str} {x : MEntry}
    (hr : m.rDefs.get (s% "r") = some rText) (hm : m.mMap.get (s% "m") = some x)
    (he : m.eDefs.get (s% "e") = some eff) :
    newContext build m [] = (m, .ok ⟨some (newPolicyDef (s% "r") rText), some x, some eff⟩) := by
  have n1 : (s% "r") ≠ ([] : Str) := by decide
  have n2 : (s% "m") ≠ ([] : Str) := by decide
  have n3 : (s% "e") ≠ ([] : Str) := by decide
  simp only [newContext, applyOpts, setRequestOpt, Model.getRequestDef, hr, Res.map_ok, n1, n2, n3, if_false,
    setMatcherOpt, hm, setEffectorOpt, he, defaultRequest, defaultMatcher, defaultEffector,
    Option.isNone_none, if_true]

/-- **C69**, the part that holds.  Take any model with any number of definitions, after any history of
changes of rules, definitions and matchers, and a matcher on a `p` policy that has been built since the
policy was defined.  `Enforce` with the options `SetRequestDef(rk)`, `SetMatcher(mk)`, `SetEffector(ek)`
returns the decision of the effect `ek` on the effects of exactly the rules that the matcher's policy
holds now and that satisfy the matcher for the request; nothing else in the model has any influence, and
the model does not change.  Without options the definitions `r`, `m`, `e` are used. -/
theorem c69_decision_partial (build : Str → Res Stage) (hbin : ∀ e s, build e = .ok s → s.Binary)
    (rk mk ek rText eff : Str) (root : Stage) (m : Model) (h : Bound build mk root m)
    (hp : root.policyKey.head? = some 'p') (n1 : rk ≠ []) (n2 : mk ≠ []) (n3 : ek ≠ [])
    (hr : m.rDefs.get rk = some rText) (he : m.eDefs.get ek = some eff) :
    ∃ d rules, m.pDefs.get root.policyKey = some d ∧ m.policyRules root.policyKey = some rules ∧
      ∀ (base : Str → Option Fn) (gov : Gov) (ord : Order), ord.Valid → ∀ (rvals : List Str) (E : Evaluator),
        E = gov (m.functions base) (MatchParams.get ⟨d, newPolicyDef rk rText, rvals⟩) →
        root.Local d E → root.BlankSafe d E → root.NeverFails d E →
        (eff = SOME_ALLOW_NO_DENY → ∀ r ∈ rules, d.getEft (d.key :: r) ≠ .indeterminate) →
        m.enforceParams build base gov ord (named rk mk ek ++ rvals.map .val) =
          (m, .ok (scan d root E eff rules)) ∧
        (rk = s% "r" → mk = s% "m" → ek = s% "e" →
          m.enforceParams build base gov ord (rvals.map .val) = (m, .ok (scan d root E eff rules))) := by
  obtain ⟨i, mt, p, d, h1, h2, h3, h4, h5, h6, h7, hb, hinv⟩ := h.inv hbin hp
  refine ⟨d, p.policy.rules, h5, h4, ?_⟩
  intro base gov ord hv rvals E hE hl hbs hn hdet
  have hctx : m.enforceCtx base gov ord ⟨some (newPolicyDef rk rText), some (.live root.policyKey i), some eff⟩
      rvals = .ok (scan d root E eff p.policy.rules) := by
    have := enforce_of_inv d root _ E ord eff hinv hb hl hbs hn hv (by
      rw [Policy.rules_ofRules]; exact hdet)
    rw [Policy.rules_ofRules] at this
    unfold Model.enforceCtx
    simp only [Option.bind_some, h2]
    rw [h7, h6, h5]
    simp only
    unfold Model.evaluator
    rw [h7, ← hE]
    exact this
  refine ⟨?_, ?_⟩
  · unfold Model.enforceParams
    rw [splitParams_named, newContext_named hr h1 he n1 n2 n3]
    simp only
    rw [hctx]
  · rintro rfl rfl rfl
    unfold Model.enforceParams
    rw [splitParams_vals, newContext_default hr h1 he]
    simp only
    rw [hctx]

/-! ## A case that meets the hypotheses, and what is missing -/

namespace DecisionExample

open InStepExample

/-- two policies, a role policy, three matchers, two request and two effect definitions, set after the rules -/
def m : Model := ((((final.setDef 'r' (s% "r") (s% "sub, act")).1.setDef 'r' (s% "r2") (s% "sub, act")).1.setDef
  'e' (s% "e") SOME_ALLOW).1.setDef 'e' (s% "e2") NO_DENY).1

theorem bound : Bound build (s% "m") root m :=
  .setDef (.setDef (.setDef (.setDef InStepExample.bound.1 _ _ _ (by decide)) _ _ _ (by decide)) _ _ _ (by decide))
    _ _ _ (by decide)

/-- the expressions compare the request with the rule -/
def gov : Gov := fun _ get =>
  ⟨fun _ => true, fun e r =>
    if e = s% "r_act == p_act" then .bool (get r (s% "r2_act") == get r (s% "p_act"))
    else .bool (get r (s% "r2_sub") == get r (s% "p_sub"))⟩

example : m.rDefs.get (s% "r2") = some (s% "sub, act") ∧ m.eDefs.get (s% "e") = some SOME_ALLOW ∧
    root.policyKey.head? = some 'p' ∧
    (m.enforceParams build (fun _ => none) gov Order.fwd
      (named (s% "r2") (s% "m") (s% "e") ++ [.val (s% "alice"), .val (s% "read")])).2 = .ok true ∧
    (m.enforceParams build (fun _ => none) gov Order.fwd
      (named (s% "r2") (s% "m") (s% "e") ++ [.val (s% "bob"), .val (s% "read")])).2 = .ok false ∧
    (m.enforceParams build (fun _ => none) gov Order.fwd
      (named (s% "r2") (s% "m2") (s% "e") ++ [.val (s% "alice"), .val (s% "read")])).2 = .ok false ∧
    (m.enforceParams build (fun _ => none) gov Order.fwd
      (named (s% "r2") (s% "m") (s% "e2") ++ [.val (s% "bob"), .val (s% "read")])).2 = .ok true := by
  decide

end DecisionExample

end Model

end Fastac
