import Verif.Lemmas.Expressions
import Verif.Props.Exact

/-!
# What a matcher reports, whatever evaluates its conditions
-/

namespace Fastac

namespace FnModel

open Model

/-- The matcher `mk`, what it reports and why it fails, in any program, whatever evaluates its conditions. -/
theorem any_outcomes (build : FnBuild) (u : Str → Res Stage) (hc : build.Coherent u)
    (hbin : ∀ e s, u e = .ok s → s.Binary)
    (grow : Nat → Nat) (rk mk pk : Str) (rArgs pArgs : List Str) (f : Formula) (root : Stage)
    (hw : f.wf = true) (hs : f.safe = true)
    (hroot : buildMatcherDef grow f.toks = .ok root)
    (P H : Rule → Prop)
    (s : FnModel) (h : FnSeen build mk root H s)
    (d : PolicyDef) (hp : s.model.pDefs.get pk = some d) (hpA : d.args = pArgs)
    (base : Str → Option Fn) (N : Naming base rk pk rArgs pArgs)
    (E : Evaluator) (O : Str → Rule → EvalRes) (hleg : ∀ e ∈ f.conditions, Legible pk pArgs e)
    (hev : ∀ e ∈ f.conditions, ∀ r : Rule, r.length = pArgs.length → P r →
      (if E.compiles e then E.eval e r else .err) = O e r)
    (hown : ∀ e ∈ f.conditions, ∀ r r' : Rule, r.length = pArgs.length → r'.length = pArgs.length →
      (∀ y ∈ pArgs, Mentions pk e y → attr pArgs r y = attr pArgs r' y) → O e r = O e r')
    (huse : pk = s% "p" ∨ ∃ e ∈ f.conditions, ∃ y ∈ pArgs, Mentions pk e y)
    (hHP : ∀ r, H r → P r) (hP0 : P (List.replicate pArgs.length []))
    (ord : Order) (hord : ord.Valid) :
    ∃ x mt rules, s.model.mMap.get mk = some x ∧ s.model.resolve x = some mt ∧
      mt.pDef = declare pk pArgs ∧ d = declare pk pArgs ∧ s.model.policyRules pk = some rules ∧
      (∀ r ∈ rules, H r) ∧ (∀ r, H r → r.length = pArgs.length) ∧
      (∀ row ∈ (Fastac.filter mt E ord).1,
        (∃ r ∈ rules, f.TrueOf O r ∧ row = pk :: r) ∨
        (LeftBehind pk pArgs O H rules f.ways ∧ row = pk :: List.replicate pArgs.length [])) ∧
      (Ev.fail ∈ mt.events E ord → ∃ e rest r, e :: rest ∈ f.ways ∧
        (H r ∨ r = List.replicate pArgs.length []) ∧ O e r = .err) ∧
      (Ev.panic ∈ mt.events E ord → ∃ e ∈ f.conditions, ∃ r,
        (H r ∨ r = List.replicate pArgs.length []) ∧ O e r = .panic) ∧
      ((∀ e ∈ f.conditions, ∀ r, (H r ∨ r = List.replicate pArgs.length []) → O e r ≠ .err ∧ O e r ≠ .panic) →
        (Fastac.filter mt E ord).2 = .cont ∧
        ∃ n, (n ≠ 0 ↔ LeftBehind pk pArgs O H rules f.ways) ∧
          (Fastac.filter mt E ord).1.Perm
            (rules.flatMap (fun r => List.replicate (f.times O r) (pk :: r)) ++
              List.replicate n (pk :: List.replicate pArgs.length []))) := by
  rw [buildMatcherDef_formula grow _ hw hs] at hroot
  cases hroot
  have hws := Formula.ways_stages hw
  replace hleg : ∀ e ∈ f.ways.flatten, Legible pk pArgs e := hleg
  have hkey : (Stage.mk [] (Operand.trD f [])).policyKey = pk := by
    refine policyKey_texts N rfl (fun e he => hleg e (hws ▸ Stage.textsIn_ways he)) (huse.imp id ?_)
    rintro ⟨e, he, y, hy, hm⟩
    refine ⟨e, ?_, y, hy, hm⟩
    rw [Formula.conditions, ← hws] at he
    exact Stage.ways_textsIn he
  obtain ⟨m', hg, hps, i, hi, hi'⟩ := h.side hc (by rw [hkey]; exact h.free.pHead hc hp)
  rw [hkey] at hi hi'
  have hpsome : (s.model.pMap.get pk).isSome = true := by
    have := hg.bound.tied.1.made.wellKeyed.pp pk
    rw [hps.pMap, hps.pDefs, hp] at this
    exact this
  have hrules := hps.policyRules hpsome
  obtain ⟨j, mt, rules, h1, h2, h3, h4, h5, h6, h7, hrest⟩ := Model.seen_texts u hbin rk mk pk rArgs pArgs
    (.mk [] (Operand.trD f [])) rfl f.ways hws P H m' hg d (hps.pDefs ▸ hp) hpA base N hkey hleg E O
    hev hown hHP hP0 ord hord
  rw [hi'] at h1
  cases h1
  have hres' : s.model.resolve (.live pk i) = some mt := by
    rw [← h2]
    simp only [resolve, hps.pMap]
    cases hq : s.model.pMap.get pk with
    | none => rw [hq] at hpsome; cases hpsome
    | some p => rfl
  exact ⟨_, mt, rules, hi, hres', h3, h4, hrules ▸ h5, h6, h7, hrest⟩

/-- Why `Enforce` answers what it answers, whatever evaluates the conditions. -/
theorem any_justified (build : FnBuild) (u : Str → Res Stage) (hc : build.Coherent u)
    (hbin : ∀ e s, u e = .ok s → s.Binary)
    (grow : Nat → Nat) (rk mk pk : Str) (rArgs pArgs : List Str) (f : Formula) (root : Stage)
    (hw : f.wf = true) (hs : f.safe = true)
    (hroot : buildMatcherDef grow f.toks = .ok root)
    (P H : Rule → Prop)
    (s : FnModel) (h : FnSeen build mk root H s)
    (d : PolicyDef) (hp : s.model.pDefs.get pk = some d) (hpA : d.args = pArgs)
    (base : Str → Option Fn) (N : Naming base rk pk rArgs pArgs)
    (E : Evaluator) (O : Str → Rule → EvalRes) (hleg : ∀ e ∈ f.conditions, Legible pk pArgs e)
    (hev : ∀ e ∈ f.conditions, ∀ r : Rule, r.length = pArgs.length → P r →
      (if E.compiles e then E.eval e r else .err) = O e r)
    (hown : ∀ e ∈ f.conditions, ∀ r r' : Rule, r.length = pArgs.length → r'.length = pArgs.length →
      (∀ y ∈ pArgs, Mentions pk e y → attr pArgs r y = attr pArgs r' y) → O e r = O e r')
    (huse : pk = s% "p" ∨ ∃ e ∈ f.conditions, ∃ y ∈ pArgs, Mentions pk e y)
    (hHP : ∀ r, H r → P r) (hP0 : P (List.replicate pArgs.length []))
    (ord : Order) (hord : ord.Valid) (eff : Str) :
    ∃ x mt rules, s.model.mMap.get mk = some x ∧ s.model.resolve x = some mt ∧
      mt.pDef = declare pk pArgs ∧ d = declare pk pArgs ∧ s.model.policyRules pk = some rules ∧
      (∀ r ∈ rules, H r) ∧ (∀ r, H r → r.length = pArgs.length) ∧
      (Fastac.enforce mt d E ord eff = .ok true → eff ≠ NO_DENY →
        (eff = SOME_ALLOW ∨ eff = SOME_ALLOW_NO_DENY) ∧
        ((∃ r ∈ rules, f.TrueOf O r ∧ effectOf pArgs r = .allow) ∨ LeftBehind pk pArgs O H rules f.ways)) ∧
      (Fastac.enforce mt d E ord eff = .ok false → eff = NO_DENY →
        ∃ r ∈ rules, f.TrueOf O r ∧ effectOf pArgs r = .deny) ∧
      (Fastac.enforce mt d E ord eff = .err →
        ∃ e rest r, e :: rest ∈ f.ways ∧ (H r ∨ r = List.replicate pArgs.length []) ∧ O e r = .err) ∧
      (Fastac.enforce mt d E ord eff = .panic →
        ∃ e ∈ f.conditions, ∃ r, (H r ∨ r = List.replicate pArgs.length []) ∧ O e r = .panic) := by
  obtain ⟨x, mt, rules, h1, h2, h3, h4, h5, h6, h7, hrow, herr, hpan, -⟩ := any_outcomes build u hc hbin grow rk mk pk rArgs
    pArgs f root hw hs hroot P H s h d hp hpA base N E O hleg hev hown huse hHP hP0 ord hord
  have hlb : (List.replicate pArgs.length ([] : Str)).length = pArgs.length := by simp
  refine ⟨x, mt, rules, h1, h2, h3, h4, h5, h6, h7, ?_⟩
  subst h4
  refine ⟨fun ht hne => ⟨?_, ?_⟩, fun ht heq => ?_, fun ht => herr (enforce_err ht), fun ht => hpan (enforce_panic ht)⟩
  · apply Classical.byContradiction
    intro hno
    rw [not_or] at hno
    unfold Fastac.enforce at ht
    rw [Matcher.rangeMatches_eq, enforce_unsupported_aux _ _ _ _ hno.1 hne hno.2] at ht
    split at ht
    · cases hst : endStatus (mt.events E ord) <;> rw [hst] at ht <;> simp [finishStatus] at ht
    · cases ht
  · obtain ⟨row, hrw, hall⟩ := enforce_says.1 ht hne
    rcases hrow row hrw with ⟨r, g1, g2, rfl⟩ | ⟨g1, -⟩
    · rw [getEft_effectOf pk N.p.good r (h7 r (h6 r g1))] at hall
      exact .inl ⟨r, g1, g2, hall⟩
    · exact .inr g1
  · obtain ⟨row, hrw, hden⟩ := enforce_says.2 ht heq
    rcases hrow row hrw with ⟨r, g1, g2, rfl⟩ | ⟨-, rfl⟩
    · rw [getEft_effectOf pk N.p.good r (h7 r (h6 r g1))] at hden
      exact ⟨r, g1, g2, hden⟩
    · rw [getEft_effectOf pk N.p.good _ hlb, effectOf_blank] at hden
      cases hden

/-- The decision when no condition fails, whatever evaluates the conditions. -/
theorem any_exact (build : FnBuild) (u : Str → Res Stage) (hc : build.Coherent u)
    (hbin : ∀ e s, u e = .ok s → s.Binary)
    (grow : Nat → Nat) (rk mk pk : Str) (rArgs pArgs : List Str) (f : Formula) (root : Stage)
    (hw : f.wf = true) (hs : f.safe = true)
    (hroot : buildMatcherDef grow f.toks = .ok root)
    (P H : Rule → Prop)
    (s : FnModel) (h : FnSeen build mk root H s)
    (d : PolicyDef) (hp : s.model.pDefs.get pk = some d) (hpA : d.args = pArgs)
    (base : Str → Option Fn) (N : Naming base rk pk rArgs pArgs)
    (E : Evaluator) (O : Str → Rule → EvalRes) (hleg : ∀ e ∈ f.conditions, Legible pk pArgs e)
    (hev : ∀ e ∈ f.conditions, ∀ r : Rule, r.length = pArgs.length → P r →
      (if E.compiles e then E.eval e r else .err) = O e r)
    (hown : ∀ e ∈ f.conditions, ∀ r r' : Rule, r.length = pArgs.length → r'.length = pArgs.length →
      (∀ y ∈ pArgs, Mentions pk e y → attr pArgs r y = attr pArgs r' y) → O e r = O e r')
    (huse : pk = s% "p" ∨ ∃ e ∈ f.conditions, ∃ y ∈ pArgs, Mentions pk e y)
    (hHP : ∀ r, H r → P r) (hP0 : P (List.replicate pArgs.length []))
    (ord : Order) (hord : ord.Valid) (eff : Str)
    (hdet : eff = SOME_ALLOW_NO_DENY → ∀ rules, s.model.policyRules pk = some rules → ∀ r ∈ rules,
      effectOf pArgs r ≠ .indeterminate)
    (hno : ∀ e ∈ f.conditions, ∀ r, (H r ∨ r = List.replicate pArgs.length []) → O e r ≠ .err ∧ O e r ≠ .panic) :
    ∃ x mt rules answer, s.model.mMap.get mk = some x ∧ s.model.resolve x = some mt ∧
      mt.pDef = declare pk pArgs ∧ d = declare pk pArgs ∧ s.model.policyRules pk = some rules ∧
      (∀ r ∈ rules, H r) ∧ (∀ r, H r → r.length = pArgs.length) ∧
      Fastac.enforce mt d E ord eff = .ok answer ∧
      (eff = SOME_ALLOW → (answer = true ↔ (∃ r ∈ rules, f.TrueOf O r ∧ effectOf pArgs r = .allow) ∨
        LeftBehind pk pArgs O H rules f.ways)) ∧
      (eff = NO_DENY → (answer = true ↔ ¬ ∃ r ∈ rules, f.TrueOf O r ∧ effectOf pArgs r = .deny)) ∧
      (eff = SOME_ALLOW_NO_DENY → (answer = true ↔ ((∃ r ∈ rules, f.TrueOf O r ∧ effectOf pArgs r = .allow) ∨
        LeftBehind pk pArgs O H rules f.ways) ∧
        ¬ ∃ r ∈ rules, f.TrueOf O r ∧ effectOf pArgs r = .deny)) := by
  obtain ⟨x, mt, rules, h1, h2, h3, h4, h5, h6, h7, -, -, -, hex⟩ := any_outcomes build u hc hbin grow rk mk pk rArgs
    pArgs f root hw hs hroot P H s h d hp hpA base N E O hleg hev hown huse hHP hP0 ord hord
  obtain ⟨hcont, n, hn, hperm⟩ := hex hno
  have hlb : (List.replicate pArgs.length ([] : Str)).length = pArgs.length := by simp
  have heffs : ∀ e, e ∈ (Fastac.filter mt E ord).1.map (declare pk pArgs).getEft ↔
      (∃ r ∈ rules, f.TrueOf O r ∧ effectOf pArgs r = e) ∨
        (LeftBehind pk pArgs O H rules f.ways ∧ e = .allow) := by
    intro e
    simp only [List.mem_map, hperm.mem_iff, List.mem_append, List.mem_flatMap, List.mem_replicate,
      Formula.times_ne, hn]
    constructor
    · rintro ⟨x, ⟨r, g1, g2, rfl⟩ | ⟨g1, rfl⟩, rfl⟩
      · exact .inl ⟨r, g1, g2, (getEft_effectOf pk N.p.good r (h7 r (h6 r g1))).symm⟩
      · refine .inr ⟨g1, ?_⟩
        rw [getEft_effectOf pk N.p.good _ hlb, effectOf_blank]
    · rintro (⟨r, g1, g2, rfl⟩ | ⟨g1, rfl⟩)
      · exact ⟨_, .inl ⟨r, g1, g2, rfl⟩, getEft_effectOf pk N.p.good r (h7 r (h6 r g1))⟩
      · refine ⟨_, .inr ⟨g1, rfl⟩, ?_⟩
        rw [getEft_effectOf pk N.p.good _ hlb, effectOf_blank]
  have hdec := enforce_of_effects (declare pk pArgs) mt E ord eff _ hcont (fun e => by rw [List.mem_map])
    (by
      intro hh hmem
      rcases (heffs _).1 hmem with ⟨r, g1, -, g3⟩ | ⟨-, g⟩
      · exact hdet hh _ h5 r g1 g3
      · cases g)
  obtain ⟨v1, v2, v3⟩ := verdict heffs
  exact ⟨x, mt, rules, _, h1, h2, h3, h4, h5, h6, h7, by rw [h4]; exact hdec, by rintro rfl; exact v1,
    by rintro rfl; exact v2, by rintro rfl; exact v3⟩

end FnModel

end Fastac
