import Verif.Lemmas.Outcomes

/-!
# C96: matchers made of any expressions
-/

namespace Fastac

namespace FnModel

open Model

/-- The matcher `mk`, what it reports and why it fails, in any program. -/
theorem expressions_outcomes (build : FnBuild) (u : Str → Res Stage) (hc : build.Coherent u)
    (hbin : ∀ e s, u e = .ok s → s.Binary)
    (grow : Nat → Nat) (rk mk pk : Str) (rArgs pArgs : List Str) (f : Formula) (root : Stage)
    (hw : f.wf = true) (hs : f.safe = true)
    (hroot : buildMatcherDef grow f.toks = .ok root)
    (P H : Rule → Prop)
    (s : FnModel) (h : FnSeen build mk root H s)
    (d : PolicyDef) (hp : s.model.pDefs.get pk = some d) (hpA : d.args = pArgs)
    (gov : Gov) (hgov : gov.Ok) (hsc : gov.Scoped) (N : Naming s.functions rk pk rArgs pArgs)
    (rvals : List Str) (hrl : rvals.length ≤ rArgs.length)
    (O : Str → Rule → EvalRes) (hO : ∀ e ∈ f.conditions, s.Explains gov rk pk rArgs pArgs rvals P O e)
    (huse : pk = s% "p" ∨ ∃ e ∈ f.conditions, ∃ y ∈ pArgs, Mentions pk e y)
    (hHP : ∀ r, H r → P r) (hP0 : P (List.replicate pArgs.length []))
    (ord : Order) (hord : ord.Valid) (depth : Nat) (hdep : 0 < depth)
    (E : Evaluator)
    (hE : E = gov.withEval depth s.functions (MatchParams.get ⟨declare pk pArgs, declare rk rArgs, rvals⟩)) :
    ∃ x mt rules, s.model.mMap.get mk = some x ∧ s.model.resolve x = some mt ∧
      mt.pDef = declare pk pArgs ∧ d = declare pk pArgs ∧ s.model.policyRules pk = some rules ∧
      (∀ r ∈ rules, H r) ∧ (∀ r, H r → r.length = pArgs.length) ∧
      (∀ row ∈ (Fastac.filter mt E ord).1,
        (∃ r ∈ rules, f.TrueOf O r ∧ row = pk :: r) ∨
        (LeftBehind pk pArgs O H rules f.ways ∧ row = pk :: List.replicate pArgs.length [])) ∧
      (Ev.fail ∈ mt.events E ord → ∃ e rest r, e :: rest ∈ f.ways ∧
        (H r ∨ r = List.replicate pArgs.length []) ∧ O e r = .err) ∧
      (Ev.panic ∈ mt.events E ord → ∃ e ∈ f.conditions, ∃ r,
        (H r ∨ r = List.replicate pArgs.length []) ∧ O e r = .panic) ∧
      ((∀ e ∈ f.conditions, ∀ r, (H r ∨ r = List.replicate pArgs.length []) → O e r ≠ .err ∧ O e r ≠ .panic) →
        (Fastac.filter mt E ord).2 = .cont ∧
        ∃ n, (n ≠ 0 ↔ LeftBehind pk pArgs O H rules f.ways) ∧
          (Fastac.filter mt E ord).1.Perm
            (rules.flatMap (fun r => List.replicate (f.times O r) (pk :: r)) ++
              List.replicate n (pk :: List.replicate pArgs.length []))) := by
  exact any_outcomes build u hc hbin grow rk mk pk rArgs pArgs f root hw hs hroot P H s h d hp hpA s.functions N E O
    (fun e he => (hO e he).legible N) (fun e he r hl hP => (hO e he).eval hgov hsc N hrl hdep hE hl hP)
    (fun e he r r' _ _ hag => (hO e he).own hsc N hag) huse hHP hP0 ord hord

/-- **C96**: in any program, the conditions of the matcher `mk` may be any expressions.  Whatever they come to (`O`),
`Enforce` answers true only because of a rule that allows and of which the matcher is true (`Q`), or because
of what is left behind by removed rules; an effect expression that is not supported never grants.  If only rules that
deny count, it answers false only because of a stored rule that denies and of which the matcher is true.  If it returns an
error, a condition that comes first on some way through the matcher cannot be compiled, or is an error for a rule that
has been stored or for the rule with empty fields; if it panics, some condition panics for such a rule. -/
theorem c96_justified (build : FnBuild) (u : Str → Res Stage) (hc : build.Coherent u)
    (hbin : ∀ e s, u e = .ok s → s.Binary)
    (grow : Nat → Nat) (rk mk ek pk rText eff : Str) (rArgs pArgs : List Str) (f : Formula) (root : Stage)
    (hw : f.wf = true) (hs : f.safe = true)
    (hroot : buildMatcherDef grow f.toks = .ok root)
    (P H : Rule → Prop)
    (s : FnModel) (h : FnSeen build mk root H s) (hmk : mk ≠ []) (hek : ek ≠ [])
    (hr : s.model.rDefs.get rk = some rText) (hrA : splitC ',' (removeSpaces rText) = rArgs)
    (d : PolicyDef) (hp : s.model.pDefs.get pk = some d) (hpA : d.args = pArgs)
    (he : s.model.eDefs.get ek = some eff)
    (gov : Gov) (hgov : gov.Ok) (hsc : gov.Scoped) (N : Naming s.functions rk pk rArgs pArgs)
    (rvals : List Str) (hrl : rvals.length ≤ rArgs.length)
    (O : Str → Rule → EvalRes) (hO : ∀ e ∈ f.conditions, s.Explains gov rk pk rArgs pArgs rvals P O e)
    (huse : pk = s% "p" ∨ ∃ e ∈ f.conditions, ∃ y ∈ pArgs, Mentions pk e y)
    (hHP : ∀ r, H r → P r) (hP0 : P (List.replicate pArgs.length []))
    (ord : Order) (hord : ord.Valid) (depth : Nat) (hdep : 0 < depth)
    (Q : Rule → Prop) (hQ : ∀ r, Q r ↔ f.TrueOf O r) :
    ∃ rules, s.model.policyRules pk = some rules ∧ (∀ r ∈ rules, H r) ∧ (∀ r, H r → r.length = pArgs.length) ∧
      ∀ params ∈ [named rk mk ek ++ rvals.map .val] ++
          (if rk = s% "r" ∧ mk = s% "m" ∧ ek = s% "e" then [rvals.map .val] else []),
        ((s.enforce build gov depth ord params).2 = .ok true → eff ≠ NO_DENY →
          (eff = SOME_ALLOW ∨ eff = SOME_ALLOW_NO_DENY) ∧
          ((∃ r ∈ rules, Q r ∧ effectOf pArgs r = .allow) ∨
            LeftBehind pk pArgs O H rules f.ways)) ∧
        ((s.enforce build gov depth ord params).2 = .ok false → eff = NO_DENY →
          ∃ r ∈ rules, Q r ∧ effectOf pArgs r = .deny) ∧
        ((s.enforce build gov depth ord params).2 = .err →
          ∃ e rest r, e :: rest ∈ f.ways ∧ (H r ∨ r = List.replicate pArgs.length []) ∧ O e r = .err) ∧
        ((s.enforce build gov depth ord params).2 = .panic →
          ∃ e ∈ f.conditions, ∃ r, (H r ∨ r = List.replicate pArgs.length []) ∧ O e r = .panic) := by
  obtain ⟨x, mt, rules, h1, h2, h3, h4, h5, h6, h7, hrow, herr, hpan, -⟩ := expressions_outcomes build u hc hbin grow rk mk pk rArgs
    pArgs f root hw hs hroot P H s h d hp hpA gov hgov hsc N rvals hrl O hO huse hHP hP0 ord hord depth hdep _ rfl
  have n1 : rk ≠ [] := by rintro rfl; exact absurd N.rHead (by simp)
  have hrd : newPolicyDef rk rText = declare rk rArgs := newPolicyDef_names hrA N.r.good
  subst h4
  have hlb : (List.replicate pArgs.length ([] : Str)).length = pArgs.length := by simp
  have hans := enforce_stored (build := build) (pDef := declare pk pArgs) hr h1 he n1 hmk hek h2
    (by rw [h3, declare_key]; exact hp) gov depth ord rvals
    (E := gov.withEval depth s.functions (MatchParams.get ⟨declare pk pArgs, declare rk rArgs, rvals⟩))
    (by rw [h3, hrd])
  refine ⟨rules, h5, h6, h7, fun params hparams => ?_⟩
  rw [hans params hparams]
  refine ⟨fun ht hne => ⟨?_, ?_⟩, fun ht heq => ?_, fun ht => herr (enforce_err ht), fun ht => hpan (enforce_panic ht)⟩
  · apply Classical.byContradiction
    intro hno
    rw [not_or] at hno
    unfold Fastac.enforce at ht
    rw [Matcher.rangeMatches_eq, enforce_unsupported_aux _ _ _ _ hno.1 hne hno.2] at ht
    split at ht
    · cases hst : endStatus (mt.events (gov.withEval depth s.functions (MatchParams.get
        ⟨declare pk pArgs, declare rk rArgs, rvals⟩)) ord) <;> rw [hst] at ht <;> simp [finishStatus] at ht
    · cases ht
  · obtain ⟨row, hrw, hall⟩ := enforce_says.1 ht hne
    rcases hrow row hrw with ⟨r, g1, g2, rfl⟩ | ⟨g1, -⟩
    · rw [getEft_effectOf pk N.p.good r (h7 r (h6 r g1))] at hall
      exact .inl ⟨r, g1, (hQ r).2 g2, hall⟩
    · exact .inr g1
  · obtain ⟨row, hrw, hden⟩ := enforce_says.2 ht heq
    rcases hrow row hrw with ⟨r, g1, g2, rfl⟩ | ⟨-, rfl⟩
    · rw [getEft_effectOf pk N.p.good r (h7 r (h6 r g1))] at hden
      exact ⟨r, g1, (hQ r).2 g2, hden⟩
    · rw [getEft_effectOf pk N.p.good _ hlb, effectOf_blank] at hden
      cases hden

/-- **C96** for `Filter`: it lists only stored rules of which the matcher is true, and the rule with empty fields only if
something is left behind by removed rules. -/
theorem c96_listed (build : FnBuild) (u : Str → Res Stage) (hc : build.Coherent u)
    (hbin : ∀ e s, u e = .ok s → s.Binary)
    (grow : Nat → Nat) (rk mk pk rText : Str) (rArgs pArgs : List Str) (f : Formula) (root : Stage)
    (hw : f.wf = true) (hs : f.safe = true)
    (hroot : buildMatcherDef grow f.toks = .ok root)
    (P H : Rule → Prop)
    (s : FnModel) (h : FnSeen build mk root H s) (hmk : mk ≠ [])
    (hr : s.model.rDefs.get rk = some rText) (hrA : splitC ',' (removeSpaces rText) = rArgs)
    (d : PolicyDef) (hp : s.model.pDefs.get pk = some d) (hpA : d.args = pArgs)
    (gov : Gov) (hgov : gov.Ok) (hsc : gov.Scoped) (N : Naming s.functions rk pk rArgs pArgs)
    (rvals : List Str) (hrl : rvals.length ≤ rArgs.length)
    (O : Str → Rule → EvalRes) (hO : ∀ e ∈ f.conditions, s.Explains gov rk pk rArgs pArgs rvals P O e)
    (huse : pk = s% "p" ∨ ∃ e ∈ f.conditions, ∃ y ∈ pArgs, Mentions pk e y)
    (hHP : ∀ r, H r → P r) (hP0 : P (List.replicate pArgs.length []))
    (ord : Order) (hord : ord.Valid) (depth : Nat) (hdep : 0 < depth)
    (params : List Param) (hparams : params = asking rk mk rvals ∨
      (rk = s% "r" ∧ params = .opt (.matcher (.str mk)) :: rvals.map .val) ∨
      (rk = s% "r" ∧ mk = s% "m" ∧ params = rvals.map .val)) :
    ∃ rules, s.model.policyRules pk = some rules ∧ ∀ row ∈ (s.filter build gov depth ord params).2.1,
      (∃ r ∈ rules, f.TrueOf O r ∧ row = pk :: r) ∨
      (LeftBehind pk pArgs O H rules f.ways ∧ row = pk :: List.replicate pArgs.length []) := by
  obtain ⟨x, mt, rules, h1, h2, h3, h4, h5, h6, h7, hrow, -⟩ := expressions_outcomes build u hc hbin grow rk mk pk rArgs
    pArgs f root hw hs hroot P H s h d hp hpA gov hgov hsc N rvals hrl O hO huse hHP hP0 ord hord depth hdep _ rfl
  have n1 : rk ≠ [] := by rintro rfl; exact absurd N.rHead (by simp)
  have hrd : newPolicyDef rk rText = declare rk rArgs := newPolicyDef_names hrA N.r.good
  have := filter_picks (build := build) hr rfl n1 (Model.picks_stored h1 hmk) h2 gov depth ord rvals
    (E := gov.withEval depth s.functions (MatchParams.get ⟨declare pk pArgs, declare rk rArgs, rvals⟩))
    (by rw [h3, hrd]) params hparams
  refine ⟨rules, h5, ?_⟩
  rw [this.2]
  exact hrow

/-- **C96**, when no condition fails: the decision is the one that the conditions and the effect expression call for,
apart from what is left behind by removed rules; a condition that answers something else than a truth value counts as
false. -/
theorem c96_exact (build : FnBuild) (u : Str → Res Stage) (hc : build.Coherent u)
    (hbin : ∀ e s, u e = .ok s → s.Binary)
    (grow : Nat → Nat) (rk mk ek pk rText eff : Str) (rArgs pArgs : List Str) (f : Formula) (root : Stage)
    (hw : f.wf = true) (hs : f.safe = true)
    (hroot : buildMatcherDef grow f.toks = .ok root)
    (P H : Rule → Prop)
    (s : FnModel) (h : FnSeen build mk root H s) (hmk : mk ≠ []) (hek : ek ≠ [])
    (hr : s.model.rDefs.get rk = some rText) (hrA : splitC ',' (removeSpaces rText) = rArgs)
    (d : PolicyDef) (hp : s.model.pDefs.get pk = some d) (hpA : d.args = pArgs)
    (he : s.model.eDefs.get ek = some eff)
    (gov : Gov) (hgov : gov.Ok) (hsc : gov.Scoped) (N : Naming s.functions rk pk rArgs pArgs)
    (rvals : List Str) (hrl : rvals.length ≤ rArgs.length)
    (O : Str → Rule → EvalRes) (hO : ∀ e ∈ f.conditions, s.Explains gov rk pk rArgs pArgs rvals P O e)
    (huse : pk = s% "p" ∨ ∃ e ∈ f.conditions, ∃ y ∈ pArgs, Mentions pk e y)
    (hHP : ∀ r, H r → P r) (hP0 : P (List.replicate pArgs.length []))
    (hdet : eff = SOME_ALLOW_NO_DENY → ∀ rules, s.model.policyRules pk = some rules → ∀ r ∈ rules,
      effectOf pArgs r ≠ .indeterminate)
    (ord : Order) (hord : ord.Valid) (depth : Nat) (hdep : 0 < depth)
    (hno : ∀ e ∈ f.conditions, ∀ r, (H r ∨ r = List.replicate pArgs.length []) → O e r ≠ .err ∧ O e r ≠ .panic)
    (Q : Rule → Prop) (hQ : ∀ r, Q r ↔ f.TrueOf O r) :
    ∃ rules answer, s.model.policyRules pk = some rules ∧
      (∀ r ∈ rules, H r) ∧ (∀ r, H r → r.length = pArgs.length) ∧
      (∀ params ∈ [named rk mk ek ++ rvals.map .val] ++
          (if rk = s% "r" ∧ mk = s% "m" ∧ ek = s% "e" then [rvals.map .val] else []),
        (s.enforce build gov depth ord params).2 = .ok answer) ∧
      (eff = SOME_ALLOW → (answer = true ↔ (∃ r ∈ rules, Q r ∧ effectOf pArgs r = .allow) ∨
        LeftBehind pk pArgs O H rules f.ways)) ∧
      (eff = NO_DENY → (answer = true ↔ ¬ ∃ r ∈ rules, Q r ∧ effectOf pArgs r = .deny)) ∧
      (eff = SOME_ALLOW_NO_DENY → (answer = true ↔ ((∃ r ∈ rules, Q r ∧ effectOf pArgs r = .allow) ∨
        LeftBehind pk pArgs O H rules f.ways) ∧
        ¬ ∃ r ∈ rules, Q r ∧ effectOf pArgs r = .deny)) := by
  obtain ⟨x, mt, rules, h1, h2, h3, h4, h5, h6, h7, -, -, -, hex⟩ := expressions_outcomes build u hc hbin grow rk mk pk rArgs
    pArgs f root hw hs hroot P H s h d hp hpA gov hgov hsc N rvals hrl O hO huse hHP hP0 ord hord depth hdep _ rfl
  obtain ⟨hcont, n, hn, hperm⟩ := hex hno
  have n1 : rk ≠ [] := by rintro rfl; exact absurd N.rHead (by simp)
  have hrd : newPolicyDef rk rText = declare rk rArgs := newPolicyDef_names hrA N.r.good
  subst h4
  have hlb : (List.replicate pArgs.length ([] : Str)).length = pArgs.length := by simp
  have hans := enforce_stored (build := build) (pDef := declare pk pArgs) hr h1 he n1 hmk hek h2
    (by rw [h3, declare_key]; exact hp) gov depth ord rvals
    (E := gov.withEval depth s.functions (MatchParams.get ⟨declare pk pArgs, declare rk rArgs, rvals⟩))
    (by rw [h3, hrd])
  generalize gov.withEval depth s.functions (MatchParams.get ⟨declare pk pArgs, declare rk rArgs, rvals⟩) = E at *
  have heffs : ∀ e, e ∈ (Fastac.filter mt E ord).1.map (declare pk pArgs).getEft ↔
      (∃ r ∈ rules, Q r ∧ effectOf pArgs r = e) ∨
        (LeftBehind pk pArgs O H rules f.ways ∧ e = .allow) := by
    intro e
    simp only [List.mem_map, hperm.mem_iff, List.mem_append, List.mem_flatMap, List.mem_replicate,
      Formula.times_ne, hn, hQ]
    constructor
    · rintro ⟨x, ⟨r, g1, g2, rfl⟩ | ⟨g1, rfl⟩, rfl⟩
      · exact .inl ⟨r, g1, g2, (getEft_effectOf pk N.p.good r (h7 r (h6 r g1))).symm⟩
      · refine .inr ⟨g1, ?_⟩
        rw [getEft_effectOf pk N.p.good _ hlb, effectOf_blank]
    · rintro (⟨r, g1, g2, rfl⟩ | ⟨g1, rfl⟩)
      · exact ⟨_, .inl ⟨r, g1, g2, rfl⟩, getEft_effectOf pk N.p.good r (h7 r (h6 r g1))⟩
      · refine ⟨_, .inr ⟨g1, rfl⟩, ?_⟩
        rw [getEft_effectOf pk N.p.good _ hlb, effectOf_blank]
  have hdec := enforce_of_effects (declare pk pArgs) mt E ord eff _ hcont (fun e => by rw [List.mem_map])
    (by
      intro hh hmem
      rcases (heffs _).1 hmem with ⟨r, g1, -, g3⟩ | ⟨-, g⟩
      · exact hdet hh _ h5 r g1 g3
      · cases g)
  obtain ⟨v1, v2, v3⟩ := verdict heffs
  exact ⟨rules, _, h5, h6, h7, fun params hp => (hans params hp).trans hdec, by rintro rfl; exact v1,
    by rintro rfl; exact v2, by rintro rfl; exact v3⟩

end FnModel

end Fastac
