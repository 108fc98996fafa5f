import Verif.Lemmas.Exact
import Verif.Props.AnyManager
import Verif.Props.Eval

/-!
# C83: what `Enforce` decides, whatever has been removed
-/

namespace Fastac

namespace Model

theorem seen_eval (build : Str → Res Stage) (hbin : ∀ e s, build e = .ok s → s.Binary)
    (grow : Nat → Nat) (rk mk ek pk rText eff : Str) (rArgs pArgs : List Str) (f : List (List Cond)) (root : Stage)
    (hw : (Cond.formula rk pk f).wf = true) (hs : (Cond.formula rk pk f).safe = true)
    (hroot : buildMatcherDef grow (Cond.formula rk pk f).toks = .ok root)
    (P H : Rule → Prop)
    (m : Model) (h : Seen build mk root H m) (hmk : mk ≠ []) (hek : ek ≠ [])
    (hr : m.rDefs.get rk = some rText) (hrA : splitC ',' (removeSpaces rText) = rArgs)
    (d : PolicyDef) (hp : m.pDefs.get pk = some d) (hpA : d.args = pArgs) (he : m.eDefs.get ek = some eff)
    (gov : Gov) (hgov : gov.Ok) (hsc : gov.Scoped) (base : Str → Option Fn) (N : Naming base rk pk rArgs pArgs)
    (rvals : List Str) (hrl : Cond.Given rArgs rvals f)
    (hf : ∀ a ∈ Cond.anyAtoms f, a.FitsEval m base gov rk pk rArgs pArgs rvals P)
    (huse : pk = s% "p" ∨ ∃ a ∈ Cond.anyAtoms f, ∃ y, Ref.pol y ∈ a.refs)
    (hHP : ∀ r, H r → P r)
    (hP0 : ((∀ r, ¬ H r) ∨ ∃ r, H r ∧ ∀ rules, m.policyRules pk = some rules → r ∉ rules) →
      P (List.replicate pArgs.length []))
    (hdet : eff = SOME_ALLOW_NO_DENY → ∀ rules, m.policyRules pk = some rules → ∀ r ∈ rules,
      effectOf pArgs r ≠ .indeterminate)
    (ord : Order) (hord : ord.Valid) (depth : Nat) (hdep : 0 < depth) :
    ∃ (rules : List Rule) (effects : List Effect), m.policyRules pk = some rules ∧
      (∀ r ∈ rules, H r) ∧ (∀ r, H r → r.length = pArgs.length) ∧
      (∀ e, e ∈ effects ↔ (∃ r ∈ rules, Cond.anyHolds (fun a =>
          a.holds (Ref.val rArgs pArgs rvals r) (m.SaysEval base gov rk rArgs rvals)) f ∧ effectOf pArgs r = e) ∨
        (LeftOver pArgs (fun a r => a.holds (Ref.val rArgs pArgs rvals r) (m.SaysEval base gov rk rArgs rvals))
          H rules f ∧ e = .allow)) ∧
      m.enforceParams build base (gov.withEval depth) ord (named rk mk ek ++ rvals.map .val) =
        (m, .ok (decision eff effects)) ∧
      (rk = s% "r" → mk = s% "m" → ek = s% "e" →
        m.enforceParams build base (gov.withEval depth) ord (rvals.map .val) = (m, .ok (decision eff effects))) := by
  obtain ⟨n, rfl⟩ : ∃ n, depth = n + 1 := ⟨depth - 1, by omega⟩
  exact seen_decided build hbin grow rk mk ek pk rText eff rArgs pArgs f root hw hs hroot P H m h hmk hek hr hrA d hp
    hpA he (gov.withEval (n + 1)) base N rvals (fun a ha => (hf a ha).1) huse _ rfl
    (fun a r => a.holds (Ref.val rArgs pArgs rvals r) (m.SaysEval base gov rk rArgs rvals))
    (fun a ha => Atom.eval_eval h.bound.tied.1.made hgov hsc N (.inl (h.bound.tied.1.made.wellKeyed.p pk d hp).1) hrl.1 (hrl.2 a ha) (hf a ha) n rfl)
    (fun a _ r r' _ _ _ _ hag => a.holds_own hag) hHP hP0 hdet ord hord

end Model

namespace FnModel

open Model

/-- **C83**, the part that holds.  As `c79_now_partial`, but nothing is required of the rule with empty fields:
in any program, `Enforce` decides on the effects of the stored rules of which `f` is true, and one more `allow` if
the index has something left over of rules that have been removed.  `H` are the rules that the matcher has seen,
`P` is a property that they have; the rule with empty fields has to have it if no rule has been seen, or one has
been removed. -/
theorem c83_exact_partial (build : FnBuild) (u : Str → Res Stage) (hc : build.Coherent u)
    (hbin : ∀ e s, u e = .ok s → s.Binary)
    (grow : Nat → Nat) (rk mk ek pk rText eff : Str) (rArgs pArgs : List Str) (f : List (List Cond)) (root : Stage)
    (hw : (Cond.formula rk pk f).wf = true) (hs : (Cond.formula rk pk f).safe = true)
    (hroot : buildMatcherDef grow (Cond.formula rk pk f).toks = .ok root)
    (P H : Rule → Prop)
    (s : FnModel) (h : FnSeen build mk root H s) (hmk : mk ≠ []) (hek : ek ≠ [])
    (hr : s.model.rDefs.get rk = some rText) (hrA : splitC ',' (removeSpaces rText) = rArgs)
    (d : PolicyDef) (hp : s.model.pDefs.get pk = some d) (hpA : d.args = pArgs)
    (he : s.model.eDefs.get ek = some eff)
    (gov : Gov) (hgov : gov.Ok) (hsc : gov.Scoped) (N : Naming s.functions rk pk rArgs pArgs)
    (rvals : List Str) (hrl : Cond.Given rArgs rvals f)
    (hf : ∀ a ∈ Cond.anyAtoms f, a.FitsNow s gov rk pk rArgs pArgs rvals P)
    (huse : pk = s% "p" ∨ ∃ a ∈ Cond.anyAtoms f, ∃ y, Ref.pol y ∈ a.refs)
    (hHP : ∀ r, H r → P r)
    (hP0 : ((∀ r, ¬ H r) ∨ ∃ r, H r ∧ ∀ rules, s.model.policyRules pk = some rules → r ∉ rules) →
      P (List.replicate pArgs.length []))
    (hdet : eff = SOME_ALLOW_NO_DENY → ∀ rules, s.model.policyRules pk = some rules → ∀ r ∈ rules,
      effectOf pArgs r ≠ .indeterminate)
    (ord : Order) (hord : ord.Valid) (depth : Nat) (hdep : 0 < depth) :
    ∃ (rules : List Rule) (effects : List Effect), s.model.policyRules pk = some rules ∧
      (∀ r ∈ rules, H r) ∧ (∀ r, H r → r.length = pArgs.length) ∧
      (∀ e, e ∈ effects ↔
        (∃ r ∈ rules, Cond.anyHolds (fun a =>
          a.holds (Ref.val rArgs pArgs rvals r) (s.SaysNow gov rk rArgs rvals)) f ∧ effectOf pArgs r = e) ∨
        (LeftOver pArgs (fun a r => a.holds (Ref.val rArgs pArgs rvals r) (s.SaysNow gov rk rArgs rvals))
          H rules f ∧ e = .allow)) ∧
      (s.enforce build gov depth ord (named rk mk ek ++ rvals.map .val)).2 = .ok (decision eff effects) ∧
      (rk = s% "r" → mk = s% "m" → ek = s% "e" →
        (s.enforce build gov depth ord (rvals.map .val)).2 = .ok (decision eff effects)) := by
  have hkey : root.policyKey = pk := by
    have hfull : ∀ a ∈ Cond.anyAtoms f, a.Full := by
      intro a ha
      have := (hf a ha).1
      cases a with
      | eq a b => trivial
      | call g args => exact this.1
    rw [buildMatcherDef_formula grow _ hw hs] at hroot
    cases hroot
    exact policyKey_trD hw N hfull (fun a ha => (hf a ha).1) huse
  have hph : root.policyKey.head? = some 'p' := by
    rw [hkey]
    exact h.free.pHead hc hp
  obtain ⟨m', hg, hps, i, hi, hi'⟩ := h.side hc hph
  rw [hkey] at hi hi'
  have hwk := hg.bound.tied.1.made.wellKeyed
  have hpsome : (s.model.pMap.get pk).isSome = true := by
    have := hwk.pp pk
    rw [hps.pMap, hps.pDefs, hp] at this
    exact this
  have hrules := hps.policyRules hpsome
  have hsays := saysNow (s := s) hps.rpNil hps.gNil gov rk rArgs rvals
  have hfn : m'.functions s.functions = s.functions := functions_nil hps.rpNil _
  obtain ⟨rules, effects, h1, h0, h0', h2, h3, h4⟩ := Model.seen_eval u hbin grow rk mk ek pk rText eff rArgs pArgs f root
    hw hs hroot P H m' hg hmk hek (hps.rDefs ▸ hr) hrA d (hps.pDefs ▸ hp) hpA (hps.eDefs ▸ he) gov hgov hsc
    s.functions N rvals hrl (by
      intro a ha
      refine ⟨(hf a ha).1, fun g args e => ?_⟩
      have := (hf a ha).2 g args e
      unfold Model.Callable
      rw [hfn, hps.gNil]
      exact this) huse hHP (hrules ▸ hP0) (hrules ▸ hdet) ord hord depth hdep
  rw [hsays] at h2
  rw [hrules] at h1
  obtain ⟨j, mt, hx, hres, -⟩ := hg.bound.tied.2
  rw [hkey, hi'] at hx
  cases hx
  have n1 : rk ≠ [] := by rintro rfl; exact absurd N.rHead (by simp)
  have hres' : s.model.resolve (.live pk i) = some mt := by
    rw [← hres, hkey]
    simp only [resolve, hps.pMap]
    cases hq : s.model.pMap.get pk with
    | none => rw [hq] at hpsome; cases hpsome
    | some p => rfl
  have hctx : ∀ rd eff', s.model.enforceCtx (fun _ => none) (s.lib gov depth) ord ⟨rd, some (.live pk i), eff'⟩ rvals =
      m'.enforceCtx s.functions (gov.withEval depth) ord ⟨rd, some (.live pk i), eff'⟩ rvals := by
    intro rd eff'
    have e1 : s.model.enforceCtx (fun _ => none) (s.lib gov depth) ord ⟨rd, some (.live pk i), eff'⟩ rvals =
        s.model.enforceCtx s.functions (s.lib gov depth) ord ⟨rd, some (.live pk i), eff'⟩ rvals := rfl
    rw [e1]
    exact hps.enforceCtx hres' hpsome _ _ _ (fun par => by rw [hfn]; rfl) ord rd eff' rvals
  refine ⟨rules, effects, h1, h0, h0', h2, ?_, ?_⟩
  · have e := congrArg Prod.snd h3
    simp only at e
    rw [← e]
    simp only [FnModel.enforce, Model.enforceParams]
    rw [splitParams_named, newContext_named hr hi he n1 hmk hek,
      newContext_named (hps.rDefs ▸ hr) hi' (hps.eDefs ▸ he) n1 hmk hek]
    exact hctx _ _
  · rintro rfl rfl rfl
    have e := congrArg Prod.snd (h4 rfl rfl rfl)
    simp only at e
    rw [← e]
    simp only [FnModel.enforce, Model.enforceParams]
    rw [splitParams_vals, newContext_default hr hi he, newContext_default (hps.rDefs ▸ hr) hi' (hps.eDefs ▸ he)]
    exact hctx _ _

/-- What the three effect expressions make of the effects of the matching rules and of `left`, one more `allow`. -/
theorem verdict {pArgs : List Str} {rules : List Rule} {Q : Rule → Prop} {left : Prop} {effects : List Effect}
    (h : ∀ e, e ∈ effects ↔ (∃ r ∈ rules, Q r ∧ effectOf pArgs r = e) ∨ (left ∧ e = .allow)) :
    (decision SOME_ALLOW effects = true ↔ (∃ r ∈ rules, Q r ∧ effectOf pArgs r = .allow) ∨ left) ∧
    (decision NO_DENY effects = true ↔ ¬ ∃ r ∈ rules, Q r ∧ effectOf pArgs r = .deny) ∧
    (decision SOME_ALLOW_NO_DENY effects = true ↔ ((∃ r ∈ rules, Q r ∧ effectOf pArgs r = .allow) ∨ left) ∧
      ¬ ∃ r ∈ rules, Q r ∧ effectOf pArgs r = .deny) := by
  have ha : effects.contains Effect.allow = true ↔ (∃ r ∈ rules, Q r ∧ effectOf pArgs r = .allow) ∨ left := by
    rw [List.contains_iff_mem, h]
    simp
  have hd : effects.contains Effect.deny = true ↔ ∃ r ∈ rules, Q r ∧ effectOf pArgs r = .deny := by
    rw [List.contains_iff_mem, h]
    simp
  have n1 : NO_DENY ≠ SOME_ALLOW := by decide
  have n2 : SOME_ALLOW_NO_DENY ≠ SOME_ALLOW := by decide
  have n3 : SOME_ALLOW_NO_DENY ≠ NO_DENY := by decide
  unfold decision
  refine ⟨by rw [if_pos rfl]; exact ha, ?_, ?_⟩
  · rw [if_neg n1, if_pos rfl, ← hd]
    simp
  · rw [if_neg n2, if_neg n3, if_pos rfl, ← ha, ← hd]
    simp

/-- **C83** in terms of the three effect expressions.  With `!some(where (p.eft == deny))` removed rules leave no trace;
with `some(where (p.eft == deny))` in the expression, a matching rule that denies always wins; and a request is
allowed without a matching rule only if the index has something left over. -/
theorem c83_verdict_partial (build : FnBuild) (u : Str → Res Stage) (hc : build.Coherent u)
    (hbin : ∀ e s, u e = .ok s → s.Binary)
    (grow : Nat → Nat) (rk mk ek pk rText eff : Str) (rArgs pArgs : List Str) (f : List (List Cond)) (root : Stage)
    (hw : (Cond.formula rk pk f).wf = true) (hs : (Cond.formula rk pk f).safe = true)
    (hroot : buildMatcherDef grow (Cond.formula rk pk f).toks = .ok root)
    (P H : Rule → Prop)
    (s : FnModel) (h : FnSeen build mk root H s) (hmk : mk ≠ []) (hek : ek ≠ [])
    (hr : s.model.rDefs.get rk = some rText) (hrA : splitC ',' (removeSpaces rText) = rArgs)
    (d : PolicyDef) (hp : s.model.pDefs.get pk = some d) (hpA : d.args = pArgs)
    (he : s.model.eDefs.get ek = some eff)
    (gov : Gov) (hgov : gov.Ok) (hsc : gov.Scoped) (N : Naming s.functions rk pk rArgs pArgs)
    (rvals : List Str) (hrl : Cond.Given rArgs rvals f)
    (hf : ∀ a ∈ Cond.anyAtoms f, a.FitsNow s gov rk pk rArgs pArgs rvals P)
    (huse : pk = s% "p" ∨ ∃ a ∈ Cond.anyAtoms f, ∃ y, Ref.pol y ∈ a.refs)
    (hHP : ∀ r, H r → P r)
    (hP0 : ((∀ r, ¬ H r) ∨ ∃ r, H r ∧ ∀ rules, s.model.policyRules pk = some rules → r ∉ rules) →
      P (List.replicate pArgs.length []))
    (hdet : eff = SOME_ALLOW_NO_DENY → ∀ rules, s.model.policyRules pk = some rules → ∀ r ∈ rules,
      effectOf pArgs r ≠ .indeterminate)
    (ord : Order) (hord : ord.Valid) (depth : Nat) (hdep : 0 < depth)
    (Q : Rule → Prop) (hQ : ∀ r, Q r ↔ Cond.anyHolds (fun a =>
      a.holds (Ref.val rArgs pArgs rvals r) (s.SaysNow gov rk rArgs rvals)) f) :
    ∃ rules answer, s.model.policyRules pk = some rules ∧
      (∀ r ∈ rules, H r) ∧ (∀ r, H r → r.length = pArgs.length) ∧
      (s.enforce build gov depth ord (named rk mk ek ++ rvals.map .val)).2 = .ok answer ∧
      (rk = s% "r" → mk = s% "m" → ek = s% "e" →
        (s.enforce build gov depth ord (rvals.map .val)).2 = .ok answer) ∧
      (eff = SOME_ALLOW → (answer = true ↔ (∃ r ∈ rules, Q r ∧ effectOf pArgs r = .allow) ∨
        LeftOver pArgs (fun a r => a.holds (Ref.val rArgs pArgs rvals r) (s.SaysNow gov rk rArgs rvals)) H rules f)) ∧
      (eff = NO_DENY → (answer = true ↔ ¬ ∃ r ∈ rules, Q r ∧ effectOf pArgs r = .deny)) ∧
      (eff = SOME_ALLOW_NO_DENY → (answer = true ↔ ((∃ r ∈ rules, Q r ∧ effectOf pArgs r = .allow) ∨
        LeftOver pArgs (fun a r => a.holds (Ref.val rArgs pArgs rvals r) (s.SaysNow gov rk rArgs rvals)) H rules f) ∧
        ¬ ∃ r ∈ rules, Q r ∧ effectOf pArgs r = .deny)) := by
  obtain ⟨rules, effects, h1, h0, h0', h2, h3, h4⟩ := c83_exact_partial build u hc hbin grow rk mk ek pk rText eff rArgs pArgs f
    root hw hs hroot P H s h hmk hek hr hrA d hp hpA he gov hgov hsc N rvals hrl hf huse hHP hP0 hdet ord hord depth hdep
  simp only [← hQ] at h2
  obtain ⟨v1, v2, v3⟩ := verdict h2
  exact ⟨rules, _, h1, h0, h0', h3, h4, by rintro rfl; exact v1, by rintro rfl; exact v2, by rintro rfl; exact v3⟩

end FnModel

end Fastac
