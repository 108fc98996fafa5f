import Verif.Lemmas.CondTree
import Verif.Props.Given
import Verif.Props.MatcherDef

/-!
# Decisions of a matcher in terms of what its atoms mean
-/

namespace Fastac

mutual
theorem Stage.all_mono {P Q : Stage → Prop} (h : ∀ s, P s → Q s) : ∀ s : Stage, Stage.All P s → Stage.All Q s
  | .mk _ cs, hs => by
    simp only [Stage.All] at *
    exact Stage.allIn_mono h cs hs
theorem Stage.allIn_mono {P Q : Stage → Prop} (h : ∀ s, P s → Q s) : ∀ cs : List Stage, Stage.AllIn P cs →
    Stage.AllIn Q cs
  | [], _ => trivial
  | c :: cs, hs => by
    simp only [Stage.AllIn] at *
    exact ⟨⟨h c hs.1.1, Stage.all_mono h c hs.1.2⟩, Stage.allIn_mono h cs hs.2⟩
end

mutual
/-- A rule on which all stages can be evaluated is declined if it does not satisfy the stage. -/
theorem Stage.declines_of_unsat {E : Evaluator} {r : Rule} : ∀ s : Stage,
    (E.compiles s.expr = true ∧ E.eval s.expr r ≠ .err ∧ E.eval s.expr r ≠ .panic) →
    Stage.All (fun st => E.compiles st.expr = true ∧ E.eval st.expr r ≠ .err ∧ E.eval st.expr r ≠ .panic) s →
    Stage.sat E r s = false → Stage.Declines E r s
  | .mk e cs, ⟨h1, h2, h3⟩, h4, hs => by
    simp only [Stage.All] at h4
    simp only [Stage.expr] at h1 h2 h3
    simp only [Stage.sat] at hs
    simp only [Stage.Declines]
    refine ⟨h1, h2, h3, ?_⟩
    intro he
    rw [he] at hs
    simp only [BEq.rfl, Bool.true_and, Bool.or_eq_false_iff, List.isEmpty_eq_false_iff] at hs
    exact ⟨hs.1, Stage.declinesAll_of_unsat cs h4 hs.2⟩
theorem Stage.declinesAll_of_unsat {E : Evaluator} {r : Rule} : ∀ cs : List Stage,
    Stage.AllIn (fun st => E.compiles st.expr = true ∧ E.eval st.expr r ≠ .err ∧ E.eval st.expr r ≠ .panic) cs →
    Stage.satAny E r cs = false → Stage.DeclinesAll E r cs
  | [], _, _ => trivial
  | c :: cs, h, hs => by
    simp only [Stage.AllIn] at h
    simp only [Stage.satAny, Bool.or_eq_false_iff] at hs
    exact ⟨Stage.declines_of_unsat c h.1.1 h.1.2 hs.1, Stage.declinesAll_of_unsat cs h.2 hs.2⟩
end

namespace Model

theorem sat_trD {rk pk : Str} {f : List (List Cond)} (hw : Formula.wf (Cond.formula rk pk f) = true)
    (hfull : ∀ a ∈ Cond.anyAtoms f, a.Full) {E : Evaluator} {r : Rule} {P : Atom → Prop}
    (h : ∀ a ∈ Cond.anyAtoms f, ∃ b, E.eval (a.text rk pk) r = .bool b ∧ (b = true ↔ P a)) :
    Stage.satAny E r (Operand.trD (Cond.formula rk pk f) []) = true ↔ Cond.anyHolds P f := by
  simp only [Formula.wf, Bool.and_eq_true] at hw
  rw [(Operand.trD_sat E r (fun ts => E.eval (tokensToExpr ts) r == .bool true) (fun _ => rfl)
    (Cond.formula rk pk f) [] hw.2).2]
  simp only [contSat, List.isEmpty_nil, Bool.true_or, Bool.and_true]
  apply Cond.anyTruth_iff
  intro a ha
  obtain ⟨b, e, hb⟩ := h a ha
  simp only [Atom.expr_eq rk pk (hfull a ha), e, ← hb]
  cases b <;> simp

theorem policyKey_trD {rk pk : Str} {f : List (List Cond)} (hw : Formula.wf (Cond.formula rk pk f) = true)
    {base : Str → Option Fn} {rArgs pArgs : List Str} (N : Naming base rk pk rArgs pArgs)
    (hfull : ∀ a ∈ Cond.anyAtoms f, a.Full)
    (hf : ∀ a ∈ Cond.anyAtoms f, a.Uses rArgs pArgs)
    (huse : pk = s% "p" ∨ ∃ a ∈ Cond.anyAtoms f, ∃ y, Ref.pol y ∈ a.refs) :
    (Stage.mk [] (Operand.trD (Cond.formula rk pk f) [])).policyKey = pk := by
  simp only [Formula.wf, Bool.and_eq_true, Bool.not_eq_true', List.isEmpty_eq_false_iff] at hw
  have htext : ∀ e, e ∈ (Stage.mk [] (Operand.trD (Cond.formula rk pk f) [])).texts ↔
      e = [] ∨ ∃ a ∈ Cond.anyAtoms f, e = a.text rk pk := by
    intro e
    rw [Stage.texts, List.mem_cons, Cond.texts_trD rk pk e f [] hw.1 hw.2]
    simp only [Stage.textsIn, List.not_mem_nil, or_false]
    constructor
    · rintro (h | ⟨a, ha, h⟩)
      · exact Or.inl h
      · exact Or.inr ⟨a, ha, by rw [h, Atom.expr_eq rk pk (hfull a ha)]⟩
    · rintro (h | ⟨a, ha, h⟩)
      · exact Or.inl h
      · exact Or.inr ⟨a, ha, by rw [h, Atom.expr_eq rk pk (hfull a ha)]⟩
  obtain ⟨h1, -, h3⟩ := c70_policy_partial (Stage.mk [] (Operand.trD (Cond.formula rk pk f) [])) (by
    intro e he w hwm
    rcases (htext e).1 he with rfl | ⟨a, ha, rfl⟩
    · have : words [] = [] := rfl
      rw [this] at hwm
      cases hwm
    · exact Atom.inner N (hf a ha) w hwm)
  have hrefs : ∀ w, w ∈ (Stage.mk [] (Operand.trD (Cond.formula rk pk f) [])).policyRefs ↔
      ∃ a ∈ Cond.anyAtoms f, ∃ y, w = qual pk y ∧ y ∈ pArgs ∧ Ref.pol y ∈ a.refs := by
    intro w
    unfold Stage.policyRefs
    simp only [List.mem_flatMap, List.mem_filter, decide_eq_true_eq, htext]
    constructor
    · rintro ⟨e, rfl | ⟨a, ha, rfl⟩, hh⟩
      · exact absurd hh.1 (by show w ∉ words []; simp [words, wordsFrom])
      · exact ⟨a, ha, (Atom.policyRef N (hf a ha) w).1 hh⟩
    · rintro ⟨a, ha, hh⟩
      exact ⟨_, Or.inr ⟨a, ha, rfl⟩, (Atom.policyRef N (hf a ha) w).2 hh⟩
  by_cases hne : (Stage.mk [] (Operand.trD (Cond.formula rk pk f) [])).policyRefs = []
  · rw [h1 hne]
    rcases huse with h | ⟨a, ha, y, hy⟩
    · exact h.symm
    · have := (hrefs (qual pk y)).2 ⟨a, ha, y, rfl, (Atom.words_text N (hf a ha)).1 _ hy, hy⟩
      rw [hne] at this
      cases this
  · apply h3 pk N.noUnder hne
    intro w hwm
    obtain ⟨a, -, y, rfl, -⟩ := (hrefs w).1 hwm
    exact ⟨y, by simp [qual]⟩

/-- The decision of a matcher that says `f`, for any meaning `T` of the atoms of `f` on the rules with `P`. -/
theorem decided (build : Str → Res Stage) (hbin : ∀ e s, build e = .ok s → s.Binary)
    (grow : Nat → Nat) (rk mk ek pk rText eff : Str) (rArgs pArgs : List Str) (f : List (List Cond)) (root : Stage)
    (hw : (Cond.formula rk pk f).wf = true) (hs : (Cond.formula rk pk f).safe = true)
    (hroot : buildMatcherDef grow (Cond.formula rk pk f).toks = .ok root)
    (P : Rule → Prop) (keep : Prop)
    (m : Model) (h : Given build mk root P keep m) (hmk : mk ≠ []) (hek : ek ≠ [])
    (hr : m.rDefs.get rk = some rText) (hrA : splitC ',' (removeSpaces rText) = rArgs)
    (d : PolicyDef) (hp : m.pDefs.get pk = some d) (hpA : d.args = pArgs) (he : m.eDefs.get ek = some eff)
    (gov : Gov) (base : Str → Option Fn) (N : Naming base rk pk rArgs pArgs)
    (rvals : List Str)
    (hf : ∀ a ∈ Cond.anyAtoms f, a.Uses rArgs pArgs)
    (huse : pk = s% "p" ∨ ∃ a ∈ Cond.anyAtoms f, ∃ y, Ref.pol y ∈ a.refs)
    (E : Evaluator)
    (hE : E = gov (m.functions base) (MatchParams.get ⟨declare pk pArgs, declare rk rArgs, rvals⟩))
    (T : Atom → Rule → Prop)
    (hev : ∀ a ∈ Cond.anyAtoms f, E.compiles (a.text rk pk) = true ∧
      ∀ r : Rule, r.length = pArgs.length → P r → ∃ b, E.eval (a.text rk pk) r = .bool b ∧ (b = true ↔ T a r))
    (hown : ∀ a ∈ Cond.anyAtoms f, ∀ r r' : Rule, r.length = pArgs.length → r'.length = pArgs.length → P r → P r' →
      (∀ y, Ref.pol y ∈ a.refs → attr pArgs r y = attr pArgs r' y) → (T a r ↔ T a r'))
    (hP0 : ¬ keep ∨ m.policyRules pk = some [] → P (List.replicate pArgs.length []))
    (hlast : ¬ keep → ∀ a ∈ Cond.anyLasts f, ¬ T a (List.replicate pArgs.length []))
    (hempty : m.policyRules pk = some [] → ¬ Cond.anyHolds (fun a => T a (List.replicate pArgs.length [])) f)
    (hdet : eff = SOME_ALLOW_NO_DENY → ∀ rules, m.policyRules pk = some rules → ∀ r ∈ rules,
      effectOf pArgs r ≠ .indeterminate)
    (ord : Order) (hord : ord.Valid) :
    ∃ rules L : List Rule, m.policyRules pk = some rules ∧ (∀ r ∈ rules, P r ∧ r.length = pArgs.length) ∧
      (∀ r, r ∈ L ↔ r ∈ rules ∧ Cond.anyHolds (fun a => T a r) f) ∧
      m.enforceParams build base gov ord (named rk mk ek ++ rvals.map .val) =
        (m, .ok (decision eff (L.map (effectOf pArgs)))) ∧
      (rk = s% "r" → mk = s% "m" → ek = s% "e" →
        m.enforceParams build base gov ord (rvals.map .val) = (m, .ok (decision eff (L.map (effectOf pArgs))))) := by
  have hfull : ∀ a ∈ Cond.anyAtoms f, a.Full := by
    intro a ha
    have := hf a ha
    cases a with
    | eq a b => trivial
    | call g args => exact this.1
  rw [buildMatcherDef_formula grow _ hw hs] at hroot
  cases hroot
  have hkey := policyKey_trD hw N hfull hf huse
  have hph : (Stage.mk [] (Operand.trD (Cond.formula rk pk f) [])).policyKey.head? = some 'p' := by
    rw [hkey]
    exact (h.bound.tied.1.made.wellKeyed.p pk d hp).1
  have hmade : Made build m := h.bound.tied.1.made
  obtain ⟨-, v, hv⟩ := hmade.wellKeyed.p pk d hp
  have hd : d = declare pk pArgs := by
    rw [hv]
    apply newPolicyDef_names _ N.p.good
    rw [← hpA, hv]
    rfl
  have hrd : newPolicyDef rk rText = declare rk rArgs := newPolicyDef_names hrA N.r.good
  have n1 : rk ≠ [] := by intro e; have := N.rHead; rw [e] at this; cases this
  obtain ⟨d', rules, h1, h2, hrP, h3⟩ := c74_decision_partial build hbin rk mk ek rText eff _ P keep m h hph n1 hmk
    hek hr he
  rw [hkey] at h1 h2
  obtain ⟨i, mt, p, d'', -, -, -, h4, h5, -, -, hb, hinv⟩ := h.bound.inv hbin hph
  rw [hkey] at h4 h5
  rw [hp] at h1 h5
  cases h1
  cases h5
  rw [h2] at h4
  cases h4
  subst hd
  have hargs := declare_args pk N.p.good
  have hgood : ∀ r ∈ p.policy.rules, r.length = pArgs.length := by
    intro r hrm
    have := hinv.good r (by
      show r ∈ (Policy.ofRules p.policy.rules).rules
      rw [Policy.rules_ofRules]; exact hrm)
    rw [this.len, hargs]
  have hE' : E = gov (m.functions base) (MatchParams.get ⟨declare pk pArgs, newPolicyDef rk rText, rvals⟩) := by
    rw [hE, hrd]
  have hw' := hw
  simp only [Formula.wf, Bool.and_eq_true] at hw'
  have hlb : (List.replicate pArgs.length ([] : Str)).length = pArgs.length := by simp
  have hblank : blankRule (declare pk pArgs) = List.replicate pArgs.length [] := by
    unfold blankRule; rw [hargs]
  have hfin := h3 base gov ord hord rvals E hE'
    (show Stage.AllIn _ (Operand.trD (Cond.formula rk pk f) []) from
      Cond.all_trD rk pk f [] (fun a ha ks _ => by
        rw [Atom.expr_eq rk pk (hfull a ha)]
        refine ⟨(Atom.own N (hf a ha) ks).1, ?_⟩
        intro r r' hgr hgr' hP hP' hag
        have hl : r.length = pArgs.length := by rw [hgr.len, hargs]
        have hl' : r'.length = pArgs.length := by rw [hgr'.len, hargs]
        obtain ⟨b, e, hb⟩ := (hev a ha).2 r hl hP
        obtain ⟨b', e', hb'⟩ := (hev a ha).2 r' hl' hP'
        simp only [Stage.expr, e, e']
        congr 1
        rw [Bool.eq_iff_iff, hb, hb']
        exact hown a ha r r' hl hl' hP hP' ((Atom.own N (hf a ha) ks).2 r r' hgr hgr' hag)) trivial)
    (show Stage.AllIn _ (Operand.trD (Cond.formula rk pk f) []) from
      Cond.all_trD rk pk f [] (fun a ha ks => by
        simp only [Stage.expr, Atom.expr_eq rk pk (hfull a ha)]
        refine ⟨(hev a ha).1, ?_⟩
        intro r hl hP
        obtain ⟨b, e, -⟩ := (hev a ha).2 r (by rw [hl.len, hargs]) hP
        rw [e]
        simp) trivial)
    (by
      intro hr0
      rw [hr0] at h2
      have hP := hP0 (.inr h2)
      rw [hblank]
      apply Stage.declinesAll_of_unsat
      · exact Cond.all_trD rk pk f [] (fun a ha ks => by
          simp only [Stage.expr, Atom.expr_eq rk pk (hfull a ha)]
          obtain ⟨b, e, -⟩ := (hev a ha).2 _ hlb hP
          refine ⟨(hev a ha).1, ?_⟩
          rw [e]
          simp) trivial
      · rw [Bool.eq_false_iff]
        intro hc
        exact hempty h2 ((sat_trD hw hfull (fun a ha => (hev a ha).2 _ hlb hP)).1 hc))
    (fun hk => show Stage.AllIn _ (Operand.trD (Cond.formula rk pk f) []) from by
      have hP := hP0 (.inl hk)
      have h1 := Cond.leaf_trD (Q := fun e => E.compiles e = true ∧ E.eval e (blankRule (declare pk pArgs)) ≠ .err ∧
          E.eval e (blankRule (declare pk pArgs)) ≠ .panic ∧
          E.eval e (blankRule (declare pk pArgs)) ≠ .bool true) rk pk f [] hw'.2
        (fun _ a ha => by
          have hall : a ∈ Cond.anyAtoms f := Cond.anyLasts_sub f a ha
          rw [Atom.expr_eq rk pk (hfull a hall)]
          obtain ⟨b, e, hb⟩ := (hev a hall).2 _ hlb hP
          rw [hblank, e]
          refine ⟨(hev a hall).1, by simp, by simp, ?_⟩
          intro hbt
          cases hbt
          exact hlast hk a ha (hb.1 rfl)) trivial
      refine Stage.allIn_mono ?_ _ h1
      intro st hst hleaf
      cases st with
      | mk e cs =>
        obtain ⟨q1, q2, q3, q4⟩ := hst hleaf
        exact ⟨q1, q2, q3, fun hh => absurd hh q4⟩)
    (by
      intro hh r hrm
      rw [declare_key, getEft_effectOf pk N.p.good r (hgood r hrm)]
      exact hdet hh _ h2 r hrm)
  have hscan : scan (declare pk pArgs) (.mk [] (Operand.trD (Cond.formula rk pk f) [])) E eff p.policy.rules =
      decision eff ((p.policy.rules.filter (fun r => Stage.satAny E r
        (Operand.trD (Cond.formula rk pk f) []))).map (effectOf pArgs)) := by
    unfold scan
    congr 1
    apply List.map_congr_left
    intro r hrm
    rw [declare_key, getEft_effectOf pk N.p.good r (hgood r (List.mem_filter.1 hrm).1)]
  rw [hscan] at hfin
  refine ⟨p.policy.rules, _, h2, fun r hrm => ⟨hrP r hrm, hgood r hrm⟩, ?_, hfin⟩
  intro r
  rw [List.mem_filter]
  constructor
  · rintro ⟨g1, g2⟩
    exact ⟨g1, (sat_trD hw hfull (fun a ha => (hev a ha).2 r (hgood r g1) (hrP r g1))).1 g2⟩
  · rintro ⟨g1, g2⟩
    exact ⟨g1, (sat_trD hw hfull (fun a ha => (hev a ha).2 r (hgood r g1) (hrP r g1))).2 g2⟩

end Model

end Fastac
