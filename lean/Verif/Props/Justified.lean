import Verif.Lemmas.Justified
import Verif.Props.Exact

/-!
# C95: nothing is granted or refused without a rule that says so, even when conditions fail
-/

namespace Fastac

namespace FnModel

open Model

/-- The matcher `mk`, what it reports and why it fails, in any program. -/
theorem seen_outcomes (build : FnBuild) (u : Str → Res Stage) (hc : build.Coherent u)
    (hbin : ∀ e s, u e = .ok s → s.Binary)
    (grow : Nat → Nat) (rk mk pk : Str) (rArgs pArgs : List Str) (f : List (List Cond)) (root : Stage)
    (hw : (Cond.formula rk pk f).wf = true) (hs : (Cond.formula rk pk f).safe = true)
    (hroot : buildMatcherDef grow (Cond.formula rk pk f).toks = .ok root)
    (P H : Rule → Prop)
    (s : FnModel) (h : FnSeen build mk root H s)
    (d : PolicyDef) (hp : s.model.pDefs.get pk = some d) (hpA : d.args = pArgs)
    (gov : Gov) (hgov : gov.Ok) (hsc : gov.Scoped) (N : Naming s.functions rk pk rArgs pArgs)
    (rvals : List Str) (hrl : rvals.length ≤ rArgs.length)
    (hf : ∀ a ∈ Cond.anyAtoms f, a.ReadsNow s pk rArgs pArgs rvals P)
    (huse : pk = s% "p" ∨ ∃ a ∈ Cond.anyAtoms f, ∃ y, Ref.pol y ∈ a.refs)
    (hHP : ∀ r, H r → P r) (hP0 : P (List.replicate pArgs.length []))
    (ord : Order) (hord : ord.Valid) (depth : Nat) (hdep : 0 < depth)
    (O : Atom → Rule → EvalRes)
    (hO : ∀ a r, O a r = a.outcome (Ref.val rArgs pArgs rvals r) (s.answers gov rk rArgs rvals))
    (E : Evaluator)
    (hE : E = gov.withEval depth s.functions (MatchParams.get ⟨declare pk pArgs, declare rk rArgs, rvals⟩)) :
    ∃ x mt rules, s.model.mMap.get mk = some x ∧ s.model.resolve x = some mt ∧
      mt.pDef = declare pk pArgs ∧ d = declare pk pArgs ∧ s.model.policyRules pk = some rules ∧
      (∀ r ∈ rules, H r) ∧ (∀ r, H r → r.length = pArgs.length) ∧
      (∀ row ∈ (Fastac.filter mt E ord).1,
        (∃ r ∈ rules, Cond.anyHolds (fun a => O a r = .bool true) f ∧ row = pk :: r) ∨
        (LeftOver pArgs (fun a r => O a r = .bool true) H rules f ∧ row = pk :: List.replicate pArgs.length [])) ∧
      (Ev.fail ∈ mt.events E ord → ∃ a rest r, a :: rest ∈ Cond.anyWays f ∧
        (H r ∨ r = List.replicate pArgs.length []) ∧ O a r = .err) ∧
      (Ev.panic ∈ mt.events E ord → ∃ a ∈ Cond.anyAtoms f, ∃ r,
        (H r ∨ r = List.replicate pArgs.length []) ∧ O a r = .panic) ∧
      ((∀ a ∈ Cond.anyAtoms f, ∀ r, (H r ∨ r = List.replicate pArgs.length []) → O a r ≠ .err ∧ O a r ≠ .panic) →
        (Fastac.filter mt E ord).2 = .cont ∧
        ∃ n, (n ≠ 0 ↔ LeftOver pArgs (fun a r => O a r = .bool true) H rules f) ∧
          (Fastac.filter mt E ord).1.Perm
            (rules.flatMap (fun r => List.replicate (Cond.timesTrue (fun a => O a r = .bool true) f) (pk :: r)) ++
              List.replicate n (pk :: List.replicate pArgs.length []))) := by
  have huses : ∀ a ∈ Cond.anyAtoms f, a.Uses rArgs pArgs := fun a ha => (hf a ha).1
  have hfull : ∀ a ∈ Cond.anyAtoms f, a.Full := by
    intro a ha
    have := huses a ha
    cases a with
    | eq a b => trivial
    | call g args => exact this.1
  have hkey : root.policyKey = pk := by
    rw [buildMatcherDef_formula grow _ hw hs] at hroot
    cases hroot
    exact policyKey_trD hw N hfull huses huse
  obtain ⟨m', hg, hps, i, hi, hi'⟩ := h.side hc (by rw [hkey]; exact h.free.pHead hc hp)
  rw [hkey] at hi hi'
  have hpsome : (s.model.pMap.get pk).isSome = true := by
    have := hg.bound.tied.1.made.wellKeyed.pp pk
    rw [hps.pMap, hps.pDefs, hp] at this
    exact this
  have hrules := hps.policyRules hpsome
  obtain ⟨j, mt, rules, h1, h2, h3, h4, h5, h6, h7, hrest⟩ := Model.seen_justified u hbin grow rk mk pk rArgs pArgs
    f root hw hs hroot P H m' hg d (hps.pDefs ▸ hp) hpA s.functions N huses huse E O
    (fun a ha => by
      have := Atom.eval_outcome hgov hsc N hrl (hf a ha) hdep hE
      exact ⟨this.1, fun r hl hP => (this.2 r hl hP).trans (hO a r).symm⟩)
    (fun a _ r r' hag => by rw [hO, hO]; exact a.outcome_own hag) hHP hP0 ord hord
  rw [hi'] at h1
  cases h1
  have hres' : s.model.resolve (.live pk i) = some mt := by
    rw [← h2]
    simp only [resolve, hps.pMap]
    cases hq : s.model.pMap.get pk with
    | none => rw [hq] at hpsome; cases hpsome
    | some p => rfl
  exact ⟨_, mt, rules, hi, hres', h3, h4, hrules ▸ h5, h6, h7, hrest⟩

/-- **C95**: in any program, whatever the functions of the matcher answer (an error, something that is not a truth
value, a panic) and however many values the request has, `Enforce` with the matcher `mk`, which says `f`, answers true
only because of a rule that allows, and of which `f` is true (`Q`), or because of what is left over of removed rules; an
effect expression that is not supported never grants.  If only rules that deny count, it answers false only because of a
stored rule that denies and of which `f` is true.  If it returns an error, an atom that comes first on
some way through `f` is an error for a rule that has been stored, or for the rule with empty fields; if it panics,
some atom panics for such a rule. -/
theorem c95_justified (build : FnBuild) (u : Str → Res Stage) (hc : build.Coherent u)
    (hbin : ∀ e s, u e = .ok s → s.Binary)
    (grow : Nat → Nat) (rk mk ek pk rText eff : Str) (rArgs pArgs : List Str) (f : List (List Cond)) (root : Stage)
    (hw : (Cond.formula rk pk f).wf = true) (hs : (Cond.formula rk pk f).safe = true)
    (hroot : buildMatcherDef grow (Cond.formula rk pk f).toks = .ok root)
    (P H : Rule → Prop)
    (s : FnModel) (h : FnSeen build mk root H s) (hmk : mk ≠ []) (hek : ek ≠ [])
    (hr : s.model.rDefs.get rk = some rText) (hrA : splitC ',' (removeSpaces rText) = rArgs)
    (d : PolicyDef) (hp : s.model.pDefs.get pk = some d) (hpA : d.args = pArgs)
    (he : s.model.eDefs.get ek = some eff)
    (gov : Gov) (hgov : gov.Ok) (hsc : gov.Scoped) (N : Naming s.functions rk pk rArgs pArgs)
    (rvals : List Str) (hrl : rvals.length ≤ rArgs.length)
    (hf : ∀ a ∈ Cond.anyAtoms f, a.ReadsNow s pk rArgs pArgs rvals P)
    (huse : pk = s% "p" ∨ ∃ a ∈ Cond.anyAtoms f, ∃ y, Ref.pol y ∈ a.refs)
    (hHP : ∀ r, H r → P r) (hP0 : P (List.replicate pArgs.length []))
    (ord : Order) (hord : ord.Valid) (depth : Nat) (hdep : 0 < depth)
    (O : Atom → Rule → EvalRes)
    (hO : ∀ a r, O a r = a.outcome (Ref.val rArgs pArgs rvals r) (s.answers gov rk rArgs rvals))
    (Q : Rule → Prop) (hQ : ∀ r, Q r ↔ Cond.anyHolds (fun a => O a r = .bool true) f) :
    ∃ rules, s.model.policyRules pk = some rules ∧ (∀ r ∈ rules, H r) ∧ (∀ r, H r → r.length = pArgs.length) ∧
      ∀ params ∈ [named rk mk ek ++ rvals.map .val] ++
          (if rk = s% "r" ∧ mk = s% "m" ∧ ek = s% "e" then [rvals.map .val] else []),
        ((s.enforce build gov depth ord params).2 = .ok true → eff ≠ NO_DENY →
          (eff = SOME_ALLOW ∨ eff = SOME_ALLOW_NO_DENY) ∧
          ((∃ r ∈ rules, Q r ∧ effectOf pArgs r = .allow) ∨
            LeftOver pArgs (fun a r => O a r = .bool true) H rules f)) ∧
        ((s.enforce build gov depth ord params).2 = .ok false → eff = NO_DENY →
          ∃ r ∈ rules, Q r ∧ effectOf pArgs r = .deny) ∧
        ((s.enforce build gov depth ord params).2 = .err →
          ∃ a rest r, a :: rest ∈ Cond.anyWays f ∧ (H r ∨ r = List.replicate pArgs.length []) ∧ O a r = .err) ∧
        ((s.enforce build gov depth ord params).2 = .panic →
          ∃ a ∈ Cond.anyAtoms f, ∃ r, (H r ∨ r = List.replicate pArgs.length []) ∧ O a r = .panic) := by
  obtain ⟨x, mt, rules, h1, h2, h3, h4, h5, h6, h7, hrow, herr, hpan, -⟩ := seen_outcomes build u hc hbin grow rk mk pk rArgs
    pArgs f root hw hs hroot P H s h d hp hpA gov hgov hsc N rvals hrl hf huse hHP hP0 ord hord depth hdep O hO _ rfl
  have n1 : rk ≠ [] := by rintro rfl; exact absurd N.rHead (by simp)
  have hrd : newPolicyDef rk rText = declare rk rArgs := newPolicyDef_names hrA N.r.good
  subst h4
  have hlb : (List.replicate pArgs.length ([] : Str)).length = pArgs.length := by simp
  have hans := enforce_stored (build := build) (pDef := declare pk pArgs) hr h1 he n1 hmk hek h2
    (by rw [h3, declare_key]; exact hp) gov depth ord rvals
    (E := gov.withEval depth s.functions (MatchParams.get ⟨declare pk pArgs, declare rk rArgs, rvals⟩))
    (by rw [h3, hrd])
  refine ⟨rules, h5, h6, h7, fun params hparams => ?_⟩
  rw [hans params hparams]
  refine ⟨fun ht hne => ⟨?_, ?_⟩, fun ht heq => ?_, fun ht => herr (enforce_err ht), fun ht => hpan (enforce_panic ht)⟩
  · apply Classical.byContradiction
    intro hno
    rw [not_or] at hno
    unfold Fastac.enforce at ht
    rw [Matcher.rangeMatches_eq, enforce_unsupported_aux _ _ _ _ hno.1 hne hno.2] at ht
    split at ht
    · cases hst : endStatus (mt.events (gov.withEval depth s.functions (MatchParams.get
        ⟨declare pk pArgs, declare rk rArgs, rvals⟩)) ord) <;> rw [hst] at ht <;> simp [finishStatus] at ht
    · cases ht
  · obtain ⟨row, hrw, hall⟩ := enforce_says.1 ht hne
    rcases hrow row hrw with ⟨r, g1, g2, rfl⟩ | ⟨g1, -⟩
    · rw [getEft_effectOf pk N.p.good r (h7 r (h6 r g1))] at hall
      exact .inl ⟨r, g1, (hQ r).2 g2, hall⟩
    · exact .inr g1
  · obtain ⟨row, hrw, hden⟩ := enforce_says.2 ht heq
    rcases hrow row hrw with ⟨r, g1, g2, rfl⟩ | ⟨-, rfl⟩
    · rw [getEft_effectOf pk N.p.good r (h7 r (h6 r g1))] at hden
      exact ⟨r, g1, (hQ r).2 g2, hden⟩
    · rw [getEft_effectOf pk N.p.good _ hlb, effectOf_blank] at hden
      cases hden

/-- **C95** for `Filter`: it lists only stored rules of which `f` is true, and the rule with empty fields only if
something is left over of removed rules. -/
theorem c95_listed (build : FnBuild) (u : Str → Res Stage) (hc : build.Coherent u)
    (hbin : ∀ e s, u e = .ok s → s.Binary)
    (grow : Nat → Nat) (rk mk pk rText : Str) (rArgs pArgs : List Str) (f : List (List Cond)) (root : Stage)
    (hw : (Cond.formula rk pk f).wf = true) (hs : (Cond.formula rk pk f).safe = true)
    (hroot : buildMatcherDef grow (Cond.formula rk pk f).toks = .ok root)
    (P H : Rule → Prop)
    (s : FnModel) (h : FnSeen build mk root H s) (hmk : mk ≠ [])
    (hr : s.model.rDefs.get rk = some rText) (hrA : splitC ',' (removeSpaces rText) = rArgs)
    (d : PolicyDef) (hp : s.model.pDefs.get pk = some d) (hpA : d.args = pArgs)
    (gov : Gov) (hgov : gov.Ok) (hsc : gov.Scoped) (N : Naming s.functions rk pk rArgs pArgs)
    (rvals : List Str) (hrl : rvals.length ≤ rArgs.length)
    (hf : ∀ a ∈ Cond.anyAtoms f, a.ReadsNow s pk rArgs pArgs rvals P)
    (huse : pk = s% "p" ∨ ∃ a ∈ Cond.anyAtoms f, ∃ y, Ref.pol y ∈ a.refs)
    (hHP : ∀ r, H r → P r) (hP0 : P (List.replicate pArgs.length []))
    (ord : Order) (hord : ord.Valid) (depth : Nat) (hdep : 0 < depth)
    (O : Atom → Rule → EvalRes)
    (hO : ∀ a r, O a r = a.outcome (Ref.val rArgs pArgs rvals r) (s.answers gov rk rArgs rvals))
    (params : List Param) (hparams : params = asking rk mk rvals ∨
      (rk = s% "r" ∧ params = .opt (.matcher (.str mk)) :: rvals.map .val) ∨
      (rk = s% "r" ∧ mk = s% "m" ∧ params = rvals.map .val)) :
    ∃ rules, s.model.policyRules pk = some rules ∧ ∀ row ∈ (s.filter build gov depth ord params).2.1,
      (∃ r ∈ rules, Cond.anyHolds (fun a => O a r = .bool true) f ∧ row = pk :: r) ∨
      (LeftOver pArgs (fun a r => O a r = .bool true) H rules f ∧ row = pk :: List.replicate pArgs.length []) := by
  obtain ⟨x, mt, rules, h1, h2, h3, h4, h5, h6, h7, hrow, -⟩ := seen_outcomes build u hc hbin grow rk mk pk rArgs
    pArgs f root hw hs hroot P H s h d hp hpA gov hgov hsc N rvals hrl hf huse hHP hP0 ord hord depth hdep O hO _ rfl
  have n1 : rk ≠ [] := by rintro rfl; exact absurd N.rHead (by simp)
  have hrd : newPolicyDef rk rText = declare rk rArgs := newPolicyDef_names hrA N.r.good
  have := filter_picks (build := build) hr rfl n1 (Model.picks_stored h1 hmk) h2 gov depth ord rvals
    (E := gov.withEval depth s.functions (MatchParams.get ⟨declare pk pArgs, declare rk rArgs, rvals⟩))
    (by rw [h3, hrd]) params hparams
  refine ⟨rules, h5, ?_⟩
  rw [this.2]
  exact hrow

/-- **C95**, when nothing fails: a condition that answers something else than a truth value counts as false, and apart
from this requests are decided as in C83. -/
theorem c95_exact (build : FnBuild) (u : Str → Res Stage) (hc : build.Coherent u)
    (hbin : ∀ e s, u e = .ok s → s.Binary)
    (grow : Nat → Nat) (rk mk ek pk rText eff : Str) (rArgs pArgs : List Str) (f : List (List Cond)) (root : Stage)
    (hw : (Cond.formula rk pk f).wf = true) (hs : (Cond.formula rk pk f).safe = true)
    (hroot : buildMatcherDef grow (Cond.formula rk pk f).toks = .ok root)
    (P H : Rule → Prop)
    (s : FnModel) (h : FnSeen build mk root H s) (hmk : mk ≠ []) (hek : ek ≠ [])
    (hr : s.model.rDefs.get rk = some rText) (hrA : splitC ',' (removeSpaces rText) = rArgs)
    (d : PolicyDef) (hp : s.model.pDefs.get pk = some d) (hpA : d.args = pArgs)
    (he : s.model.eDefs.get ek = some eff)
    (gov : Gov) (hgov : gov.Ok) (hsc : gov.Scoped) (N : Naming s.functions rk pk rArgs pArgs)
    (rvals : List Str) (hrl : rvals.length ≤ rArgs.length)
    (hf : ∀ a ∈ Cond.anyAtoms f, a.ReadsNow s pk rArgs pArgs rvals P)
    (huse : pk = s% "p" ∨ ∃ a ∈ Cond.anyAtoms f, ∃ y, Ref.pol y ∈ a.refs)
    (hHP : ∀ r, H r → P r) (hP0 : P (List.replicate pArgs.length []))
    (hdet : eff = SOME_ALLOW_NO_DENY → ∀ rules, s.model.policyRules pk = some rules → ∀ r ∈ rules,
      effectOf pArgs r ≠ .indeterminate)
    (ord : Order) (hord : ord.Valid) (depth : Nat) (hdep : 0 < depth)
    (O : Atom → Rule → EvalRes)
    (hO : ∀ a r, O a r = a.outcome (Ref.val rArgs pArgs rvals r) (s.answers gov rk rArgs rvals))
    (hno : ∀ a ∈ Cond.anyAtoms f, ∀ r, (H r ∨ r = List.replicate pArgs.length []) → O a r ≠ .err ∧ O a r ≠ .panic)
    (Q : Rule → Prop) (hQ : ∀ r, Q r ↔ Cond.anyHolds (fun a => O a r = .bool true) f) :
    ∃ rules answer, s.model.policyRules pk = some rules ∧
      (∀ r ∈ rules, H r) ∧ (∀ r, H r → r.length = pArgs.length) ∧
      (∀ params ∈ [named rk mk ek ++ rvals.map .val] ++
          (if rk = s% "r" ∧ mk = s% "m" ∧ ek = s% "e" then [rvals.map .val] else []),
        (s.enforce build gov depth ord params).2 = .ok answer) ∧
      (eff = SOME_ALLOW → (answer = true ↔ (∃ r ∈ rules, Q r ∧ effectOf pArgs r = .allow) ∨
        LeftOver pArgs (fun a r => O a r = .bool true) H rules f)) ∧
      (eff = NO_DENY → (answer = true ↔ ¬ ∃ r ∈ rules, Q r ∧ effectOf pArgs r = .deny)) ∧
      (eff = SOME_ALLOW_NO_DENY → (answer = true ↔ ((∃ r ∈ rules, Q r ∧ effectOf pArgs r = .allow) ∨
        LeftOver pArgs (fun a r => O a r = .bool true) H rules f) ∧
        ¬ ∃ r ∈ rules, Q r ∧ effectOf pArgs r = .deny)) := by
  obtain ⟨x, mt, rules, h1, h2, h3, h4, h5, h6, h7, -, -, -, hex⟩ := seen_outcomes build u hc hbin grow rk mk pk rArgs
    pArgs f root hw hs hroot P H s h d hp hpA gov hgov hsc N rvals hrl hf huse hHP hP0 ord hord depth hdep O hO _ rfl
  obtain ⟨hcont, n, hn, hperm⟩ := hex hno
  have n1 : rk ≠ [] := by rintro rfl; exact absurd N.rHead (by simp)
  have hrd : newPolicyDef rk rText = declare rk rArgs := newPolicyDef_names hrA N.r.good
  subst h4
  have hlb : (List.replicate pArgs.length ([] : Str)).length = pArgs.length := by simp
  have hans := enforce_stored (build := build) (pDef := declare pk pArgs) hr h1 he n1 hmk hek h2
    (by rw [h3, declare_key]; exact hp) gov depth ord rvals
    (E := gov.withEval depth s.functions (MatchParams.get ⟨declare pk pArgs, declare rk rArgs, rvals⟩))
    (by rw [h3, hrd])
  generalize gov.withEval depth s.functions (MatchParams.get ⟨declare pk pArgs, declare rk rArgs, rvals⟩) = E at *
  have heffs : ∀ e, e ∈ (Fastac.filter mt E ord).1.map (declare pk pArgs).getEft ↔
      (∃ r ∈ rules, Q r ∧ effectOf pArgs r = e) ∨
        (LeftOver pArgs (fun a r => O a r = .bool true) H rules f ∧ e = .allow) := by
    intro e
    simp only [List.mem_map, hperm.mem_iff, List.mem_append, List.mem_flatMap, List.mem_replicate,
      Cond.timesTrue_ne, hn, hQ]
    constructor
    · rintro ⟨x, ⟨r, g1, g2, rfl⟩ | ⟨g1, rfl⟩, rfl⟩
      · exact .inl ⟨r, g1, g2, (getEft_effectOf pk N.p.good r (h7 r (h6 r g1))).symm⟩
      · refine .inr ⟨g1, ?_⟩
        rw [getEft_effectOf pk N.p.good _ hlb, effectOf_blank]
    · rintro (⟨r, g1, g2, rfl⟩ | ⟨g1, rfl⟩)
      · exact ⟨_, .inl ⟨r, g1, g2, rfl⟩, getEft_effectOf pk N.p.good r (h7 r (h6 r g1))⟩
      · refine ⟨_, .inr ⟨g1, rfl⟩, ?_⟩
        rw [getEft_effectOf pk N.p.good _ hlb, effectOf_blank]
  have hdec := enforce_of_effects (declare pk pArgs) mt E ord eff _ hcont (fun e => by rw [List.mem_map])
    (by
      intro hh hmem
      rcases (heffs _).1 hmem with ⟨r, g1, -, g3⟩ | ⟨-, g⟩
      · exact hdet hh _ h5 r g1 g3
      · cases g)
  obtain ⟨v1, v2, v3⟩ := verdict heffs
  exact ⟨rules, _, h5, h6, h7, fun params hp => (hans params hp).trans hdec, by rintro rfl; exact v1,
    by rintro rfl; exact v2, by rintro rfl; exact v3⟩

end FnModel

end Fastac
