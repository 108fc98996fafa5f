import Verif.Lemmas.Seen
import Verif.Lemmas.CondDecide

/-!
# The decision of a matcher that remembers removed rules
-/

namespace Fastac

/-! ## Decisions in terms of the effects reported -/

/-- The decision depends only on which effects are reported. -/
theorem enforce_of_effects (pDef : PolicyDef) (mt : Matcher) (E : Evaluator) (ord : Order) (expr : Str)
    (effects : List Effect) (hF : (filter mt E ord).2 = .cont)
    (ex : ∀ e : Effect, (∃ x ∈ (filter mt E ord).1, pDef.getEft x = e) ↔ e ∈ effects)
    (hdet : expr = SOME_ALLOW_NO_DENY → Effect.indeterminate ∉ effects) :
    enforce mt pDef E ord expr = .ok (decision expr effects) := by
  have ex' : ∀ e : Effect, (∃ x ∈ (filter mt E ord).1, pDef.getEft x = e) ↔ effects.contains e = true := by
    intro e; rw [ex, List.contains_iff_mem]
  have fin : ∀ {b b' : Bool} {x : Res Bool}, x = .ok b → (b = true ↔ b' = true) → x = .ok b' := by
    intro b b' x hx h
    rw [hx]
    cases b <;> cases b' <;> simp_all
  unfold decision
  by_cases e1 : expr = SOME_ALLOW
  · subst e1
    rw [if_pos rfl]
    obtain ⟨b, hb1, hb2⟩ := c01_some_allow mt pDef E ord _ _ rfl (Or.inl hF)
    exact fin hb1 (hb2.trans (ex' _))
  · rw [if_neg e1]
    by_cases e2 : expr = NO_DENY
    · subst e2
      rw [if_pos rfl]
      obtain ⟨b, hb1, hb2⟩ := c02_no_deny mt pDef E ord _ _ rfl (Or.inl hF)
      refine fin hb1 (hb2.trans ((not_congr (ex' _)).trans ?_))
      simp
    · rw [if_neg e2]
      by_cases e3 : expr = SOME_ALLOW_NO_DENY
      · subst e3
        rw [if_pos rfl]
        have hd : ∀ x ∈ (filter mt E ord).1, pDef.getEft x ≠ .indeterminate := by
          intro x hx h
          exact hdet rfl ((ex _).1 ⟨x, hx, h⟩)
        obtain ⟨b, hb1, hb2⟩ := c03_allow_no_deny_partial mt pDef E ord _ _ rfl (Or.inl hF) hd
        refine fin hb1 (hb2.trans ((and_congr (ex' _) (not_congr (ex' _))).trans ?_))
        simp
      · rw [if_neg e3]
        exact c04_never_reported mt pDef E ord expr e1 e2 e3 (Or.inl hF)

/-! ## An index that has seen no rule -/

theorem none_hist (pDef : PolicyDef) (E : Evaluator) {H R : Rule → Prop} (hH : ∀ r, ¬ H r) (hR : ∀ r, ¬ R r) (n : Node) :
    ∀ (cs : List Stage) (i : Nat), IdxC pDef cs i n R → HistC pDef cs i n H →
      phantomsC pDef E cs i n = Stage.pathsAny E (blankRule pDef) cs ∧
      (Stage.AllIn (fun st => E.compiles st.expr = true) cs →
        Stage.RunsAtAll E (blankRule pDef) cs → TameC pDef E cs i n R)
  | [], _, _, _ => ⟨by simp [phantomsC, Stage.pathsAny], fun _ _ => by simp [TameC]⟩
  | st :: rest, i, hI, hF => by
    simp only [IdxC] at hI
    simp only [HistC] at hF
    obtain ⟨⟨m, hm, _, _, hent⟩, hrest⟩ := hI
    obtain ⟨⟨m2, hm2, hin⟩, hfrest⟩ := hF
    obtain rfl : m2 = m := Option.some.inj (hm2.symm.trans hm)
    obtain ⟨i1, i2⟩ := none_hist pDef E hH hR n rest (i + 1) hrest hfrest
    have hm0 : m2 = [] := by
      cases hm' : m2 with
      | nil => rfl
      | cons e l =>
        exfalso
        have hg : GoMap.get m2 e.1 = some e.2 := by rw [hm']; simp [GoMap.get]
        cases hlf : st.isLeaf with
        | true => exact hR _ ((hent _ _ hg).2.2.1 hlf)
        | false => exact hH _ ((hin hlf).2 _ _ hg).1
    subst hm0
    constructor
    · rw [phantomsC_cons hm, i1]
      simp [Stage.pathsAny]
    · intro hc hr
      simp only [Stage.AllIn] at hc
      simp only [Stage.RunsAtAll] at hr
      simp only [TameC]
      exact ⟨⟨hc.1.1, [], hm, fun _ => hr.1, fun k c hk => by simp at hk⟩, i2 hc.2 hr.2⟩

/-- A condition that can be evaluated on a rule. -/
def Stage.DefAt (E : Evaluator) (r : Rule) (st : Stage) : Prop :=
  E.compiles st.expr = true ∧ E.eval st.expr r ≠ .err ∧ E.eval st.expr r ≠ .panic

mutual
theorem Stage.runsAt_of {E : Evaluator} {r : Rule} : ∀ st : Stage, st.DefAt E r → st.All (Stage.DefAt E r) →
    st.RunsAt E r ∧ st.All (fun s => s.RunsAt E r)
  | .mk e cs, h, hs => by
    simp only [Stage.All] at hs
    obtain ⟨h1, h2⟩ := Stage.runsAtAll_of cs hs
    refine ⟨?_, by simpa only [Stage.All] using h2⟩
    simp only [Stage.RunsAt]
    exact ⟨h.1, h.2.1, h.2.2, fun _ => h1⟩
theorem Stage.runsAtAll_of {E : Evaluator} {r : Rule} : ∀ cs : List Stage, Stage.AllIn (Stage.DefAt E r) cs →
    Stage.RunsAtAll E r cs ∧ Stage.AllIn (fun s => s.RunsAt E r) cs
  | [], _ => ⟨trivial, trivial⟩
  | c :: cs, h => by
    simp only [Stage.AllIn] at h
    obtain ⟨h1, h2⟩ := Stage.runsAt_of c h.1.1 h.1.2
    obtain ⟨h3, h4⟩ := Stage.runsAtAll_of cs h.2
    exact ⟨⟨h1, h3⟩, ⟨h1, h2⟩, h4⟩
end

/-! ## The decision -/

/-- What is left over, in terms of the stages. -/
def StageLeft (pDef : PolicyDef) (E : Evaluator) (H R : Rule → Prop) (root : Stage) : Prop :=
  ((∀ r, ¬ H r) ∧ Stage.satAny E (blankRule pDef) root.children = true) ∨
    Ghost pDef E H R (Stage.routesC root.children)

/-- What `Filter` lists: each stored rule as often as it has satisfied paths, and the rule with empty fields if
something is left over. -/
theorem filter_of_hist (pDef : PolicyDef) (root : Stage) (s : PolicyWithMatcher) (E : Evaluator) (ord : Order)
    (P H : Rule → Prop) (hinv : s.Inv pDef root) (hb : root.Binary)
    (hs : s.matcher.Recalls H) (hH : ∀ h, H h → GoodRule pDef h ∧ P h) (hsub : ∀ r ∈ s.policy.rules, H r)
    (hbeh : root.All (Stage.Behaves pDef E P))
    (hrun : ((∀ r, ¬ H r) ∨ ∃ r, H r ∧ r ∉ s.policy.rules) → root.All (Stage.DefAt E (blankRule pDef)))
    (hv : ord.Valid) :
    (filter s.matcher E ord).2 = .cont ∧ ∃ n, (n ≠ 0 ↔ StageLeft pDef E H (· ∈ s.policy.rules) root) ∧
      (filter s.matcher E ord).1.Perm
        (s.policy.rules.flatMap (fun r => List.replicate (Stage.pathsAny E r root.children) (pDef.key :: r)) ++
          List.replicate n (pDef.key :: blankRule pDef)) := by
  have hidx := hinv.idx
  have hh : Hist pDef root s.matcher.root H := by
    have := hs
    unfold Matcher.Recalls at this
    rw [hinv.pdef, hinv.expr] at this
    exact this
  have hboth : Tame pDef E root s.matcher.root (· ∈ s.policy.rules) ∧
      (phantoms pDef E root s.matcher.root ≠ 0 ↔ StageLeft pDef E H (· ∈ s.policy.rules) root) := by
    by_cases hne : ∃ h, H h
    · refine ⟨tame_of_hist pDef E P root _ H _ hbeh hne hH hsub ?_ hidx hh, ?_⟩
      · intro hx
        have := hrun (.inr hx)
        cases root with
        | mk e cs =>
          simp only [Stage.All] at this ⊢
          exact Stage.allIn_mono (Q := fun s => s.isLeaf = true → s.RunsAt E (blankRule pDef)) (fun _ h _ => h) _
            (Stage.runsAtAll_of cs this).2
      · rw [phantoms_hist pDef E P root _ H _ hbeh hne hH hsub hidx hh]
        unfold StageLeft
        constructor
        · exact .inr
        · rintro (⟨h, -⟩ | h)
          · obtain ⟨x, hx⟩ := hne
            exact absurd hx (h x)
          · exact h
    · have hno : ∀ r, ¬ H r := fun r hr => hne ⟨r, hr⟩
      have hnr : ∀ r, ¬ r ∈ s.policy.rules := fun r hr => hno r (hsub r hr)
      have hd := hrun (.inl hno)
      cases root with
      | mk e cs =>
        simp only [Stage.All] at hd hbeh
        simp only [Idx] at hidx
        simp only [Hist] at hh
        obtain ⟨e1, e2⟩ := none_hist pDef E hno hnr _ cs 0 hidx hh
        refine ⟨?_, ?_⟩
        · simp only [Tame]
          exact e2 (Stage.allIn_mono (fun _ h => h.1) _ hd) (Stage.runsAtAll_of cs hd).1
        · simp only [phantoms, e1]
          rw [← Nat.pos_iff_ne_zero, Stage.pathsAny_pos]
          unfold StageLeft
          constructor
          · exact fun h => .inl ⟨hno, h⟩
          · rintro (⟨-, h⟩ | ⟨way, last, -, seen, h, -⟩)
            · exact h
            · exact absurd h (hno _)
  obtain ⟨hT, hph⟩ := hboth
  obtain ⟨e1, e2⟩ := evStage_tame pDef E ord hv root [] s.matcher.root _ s.policy.rules hb.2 hidx hT
    hinv.wf.rules_nodup (fun r => Iff.rfl) hinv.good
  have hev : s.matcher.events E ord = evStage E pDef.args.length ord root [] s.matcher.root := by
    unfold Matcher.events; rw [hinv.pdef, hinv.expr]
  refine ⟨?_, phantoms pDef E root s.matcher.root, hph, ?_⟩
  · rw [filter_eq]; simp only; rw [hev]; exact e1
  · rw [filter_eq]
    simp only
    rw [hev, hinv.pdef]
    refine (e2.map _).trans (List.Perm.of_eq ?_)
    simp only [List.map_append, List.map_flatMap, List.map_replicate]

/-! ## Routes and ways -/

/-- The texts along a route. -/
def exprs (q : List Stage) : List Str := q.map Stage.expr

/-- How a route goes on. -/
def Stage.tailsC (k : List Stage) : List (List Str) := if k.isEmpty then [[]] else (Stage.routesC k).map exprs

theorem Stage.routesC_append : ∀ a b : List Stage, Stage.routesC (a ++ b) = Stage.routesC a ++ Stage.routesC b
  | [], b => by simp [Stage.routesC]
  | x :: xs, b => by
    rw [List.cons_append, Stage.routesC, Stage.routesC_append xs b, Stage.routesC, List.append_assoc]

theorem Stage.tailsC_ne {k : List Stage} (h : k ≠ []) : Stage.tailsC k = (Stage.routesC k).map exprs := by
  unfold Stage.tailsC
  rw [if_neg (by simpa using h)]

mutual
theorem Cond.routes_trU (rk pk : Str) : ∀ (c : Cond) (k : List Stage), (c.operand rk pk).wf = true →
    (Stage.routesC (Operand.trU (c.operand rk pk) k)).map exprs =
      c.ways.flatMap (fun w => (Stage.tailsC k).map
        (w.map (fun a => tokensToExpr (a.toks rk pk)) ++ ·))
  | .atom a, k, _ => by
    rw [Cond.operand, Atom.operand_eq, Operand.trU]
    simp only [Cond.ways, Stage.routesC, List.append_nil, List.flatMap_cons, List.flatMap_nil]
    unfold Stage.tailsC
    simp only [Stage.routes]
    split
    · simp [exprs, Stage.expr]
    · rw [List.map_map, List.map_map]
      rfl
  | .paren f, k, hw => by
    rw [Cond.operand, Operand.wf, Bool.and_eq_true] at hw
    rw [Cond.operand, Operand.trU, Cond.ways]
    exact Cond.routes_trD rk pk f k hw.2
theorem Cond.tails_trC (rk pk : Str) : ∀ (cs : List Cond) (k : List Stage),
    Operand.conjWf (Cond.operands rk pk cs) = true →
    Stage.tailsC (Operand.trC (Cond.operands rk pk cs) k) =
      (Cond.allWays cs).flatMap (fun w => (Stage.tailsC k).map
        (w.map (fun a => tokensToExpr (a.toks rk pk)) ++ ·))
  | [], k, _ => by
    rw [Cond.operands, Operand.trC]
    simp [Cond.allWays]
  | c :: cs, k, hw => by
    rw [Cond.operands, Operand.conjWf, Bool.and_eq_true] at hw
    rw [Cond.operands, Operand.trC, Stage.tailsC_ne (Operand.trU_ne _ _ hw.1), Cond.routes_trU rk pk c _ hw.1,
      Cond.tails_trC rk pk cs k hw.2, Cond.allWays]
    simp only [List.flatMap_assoc, List.map_flatMap, List.flatMap_map, List.map_map, List.map_append]
    congr 1
    funext w
    congr 1
    funext v
    apply List.map_congr_left
    intro x _
    simp
theorem Cond.routes_trD (rk pk : Str) : ∀ (f : List (List Cond)) (k : List Stage),
    Operand.disjWf (Cond.formula rk pk f) = true →
    (Stage.routesC (Operand.trD (Cond.formula rk pk f) k)).map exprs =
      (Cond.anyWays f).flatMap (fun w => (Stage.tailsC k).map
        (w.map (fun a => tokensToExpr (a.toks rk pk)) ++ ·))
  | [], k, _ => by rw [Cond.formula, Operand.trD]; simp [Stage.routesC, Cond.anyWays]
  | c :: cs, k, hw => by
    rw [Cond.formula, Operand.disjWf, Bool.and_eq_true, Bool.and_eq_true, Bool.not_eq_true',
      List.isEmpty_eq_false_iff] at hw
    rw [Cond.formula, Operand.trD, Stage.routesC_append, List.map_append, Cond.anyWays, List.flatMap_append,
      Cond.routes_trD rk pk cs k hw.2, ← Cond.tails_trC rk pk c k hw.1.2,
      Stage.tailsC_ne (Operand.trC_ne _ k hw.1.1 hw.1.2)]
end

mutual
/-- All stages on a route but the last are inner stages. -/
theorem Stage.routes_inner_way : ∀ (st : Stage) (way : List Stage) (last : Stage), way ++ [last] ∈ st.routes →
    ∀ s ∈ way, s.isLeaf = false
  | .mk e cs, way, last, h, s, hs => by
    simp only [Stage.routes] at h
    split at h
    · have := List.mem_singleton.1 h
      cases way with
      | nil => cases hs
      | cons a l => simp at this
    · rename_i hne
      obtain ⟨q, hq, e'⟩ := List.mem_map.1 h
      cases way with
      | nil => cases hs
      | cons a l =>
        simp only [List.cons_append, List.cons.injEq] at e'
        obtain ⟨rfl, rfl⟩ := e'
        rcases List.mem_cons.1 hs with rfl | hs
        · simpa [Stage.isLeaf, Stage.children] using hne
        · exact Stage.routesC_inner_way cs l last hq s hs
theorem Stage.routesC_inner_way : ∀ (cs : List Stage) (way : List Stage) (last : Stage),
    way ++ [last] ∈ Stage.routesC cs → ∀ s ∈ way, s.isLeaf = false
  | [], way, last, h, s, hs => by simp [Stage.routesC] at h
  | c :: cs, way, last, h, s, hs => by
    rw [Stage.routesC, List.mem_append] at h
    rcases h with h | h
    · exact Stage.routes_inner_way c way last h s hs
    · exact Stage.routesC_inner_way cs way last h s hs
end

mutual
theorem Cond.ways_atoms : ∀ (c : Cond), ∀ w ∈ c.ways, ∀ a ∈ w, a ∈ c.atoms
  | .atom a, w, hw, b, hb => by
    simp only [Cond.ways, List.mem_singleton] at hw
    subst hw
    simpa [Cond.atoms] using hb
  | .paren f, w, hw, b, hb => by
    rw [Cond.ways] at hw
    rw [Cond.atoms]
    exact Cond.anyWays_atoms f w hw b hb
theorem Cond.allWays_atoms : ∀ (cs : List Cond), ∀ w ∈ Cond.allWays cs, ∀ a ∈ w, a ∈ Cond.allAtoms cs
  | [], w, hw, b, hb => by
    simp only [Cond.allWays, List.mem_singleton] at hw
    subst hw
    cases hb
  | c :: cs, w, hw, b, hb => by
    rw [Cond.allWays, List.mem_flatMap] at hw
    obtain ⟨p, hp, hpq⟩ := hw
    obtain ⟨q, hq, rfl⟩ := List.mem_map.1 hpq
    rw [Cond.allAtoms, List.mem_append]
    rcases List.mem_append.1 hb with hb | hb
    · exact .inl (Cond.ways_atoms c p hp b hb)
    · exact .inr (Cond.allWays_atoms cs q hq b hb)
theorem Cond.anyWays_atoms : ∀ (f : List (List Cond)), ∀ w ∈ Cond.anyWays f, ∀ a ∈ w, a ∈ Cond.anyAtoms f
  | [], w, hw, _, _ => by simp [Cond.anyWays] at hw
  | c :: cs, w, hw, b, hb => by
    rw [Cond.anyWays, List.mem_append] at hw
    rw [Cond.anyAtoms, List.mem_append]
    rcases hw with hw | hw
    · exact .inl (Cond.allWays_atoms c w hw b hb)
    · exact .inr (Cond.anyWays_atoms cs w hw b hb)
end

/-- Rules with the same key at an inner stage agree on the attributes mentioned in it. -/
theorem Atom.stageKey_iff {base : Str → Option Fn} {rk pk : Str} {rArgs pArgs : List Str}
    (N : Naming base rk pk rArgs pArgs) {a : Atom} (h : a.Uses rArgs pArgs) {st : Stage}
    (he : st.expr = a.text rk pk) (hl : st.isLeaf = false) {r r' : Rule}
    (g : GoodRule (declare pk pArgs) r) (g' : GoodRule (declare pk pArgs) r') :
    stageKey (declare pk pArgs) st r = stageKey (declare pk pArgs) st r' ↔ a.Together pArgs r r' := by
  have hargs := declare_args pk N.p.good
  have hlr : r.length = pArgs.length := by rw [g.len, hargs]
  have hlr' : r'.length = pArgs.length := by rw [g'.len, hargs]
  cases st with
  | mk e cs =>
    simp only [Stage.expr] at he
    subst he
    obtain ⟨o1, o2⟩ := Atom.own N h cs
    constructor
    · intro hk
      by_cases hy : ∃ y, Ref.pol y ∈ a.refs
      · refine .inl ⟨hy, ?_⟩
        -- an evaluator that looks at the attributes mentioned
        have := eval_of_stageKey_on (pDef := declare pk pArgs)
          (E := ⟨fun _ => true, fun _ x => .bool (decide (∀ w ∈ (Stage.mk (a.text rk pk) cs).pArgs,
            (declare pk pArgs).getParameter r w = (declare pk pArgs).getParameter x w))⟩)
          (st := .mk (a.text rk pk) cs) (P := fun _ => True) o1
          (fun x y _ _ _ _ hxy => by
            simp only
            congr 1
            rw [decide_eq_decide]
            constructor
            · intro hh w hw; rw [hh w hw, hxy w hw]
            · intro hh w hw; rw [hh w hw, hxy w hw]) g g' trivial trivial hk
        have h2 := (EvalRes.bool.inj this).symm.trans (decide_eq_true (fun _ _ => rfl))
        exact o2 r r' g g' (of_decide_eq_true h2)
      · right
        unfold stageKey at hk
        split at hk
        · exact g.hash_inj g' hk
        · rename_i hne
          exfalso
          apply hne
          left
          rw [List.length_eq_zero_iff, List.eq_nil_iff_forall_not_mem]
          intro w hw
          obtain ⟨y, -, -, hh⟩ := (Atom.pArgs N h cs w).1 hw
          exact hy ⟨y, hh⟩
    · rintro (⟨⟨y0, hy0⟩, hag⟩ | rfl)
      · unfold stageKey
        have hgp : ∀ w ∈ (Stage.mk (a.text rk pk) cs).pArgs,
            (declare pk pArgs).getParameter r w = (declare pk pArgs).getParameter r' w := by
          intro w hw
          obtain ⟨y, rfl, -, hh⟩ := (Atom.pArgs N h cs w).1 hw
          rw [getParameter_attr pk N.p.good r hlr, getParameter_attr pk N.p.good r' hlr']
          exact hag y hh
        have hne : (Stage.mk (a.text rk pk) cs).pArgs ≠ [] := by
          intro e0
          have := (Atom.pArgs N h cs (qual pk y0)).2 ⟨y0, rfl, (Atom.words_text N h).1 _ hy0, hy0⟩
          rw [e0] at this
          cases this
        rw [if_neg (by
          rintro (h0 | h0)
          · exact hne (List.length_eq_zero_iff.1 h0)
          · rw [hl] at h0; cases h0), if_neg (by
          rintro (h0 | h0)
          · exact hne (List.length_eq_zero_iff.1 h0)
          · rw [hl] at h0; cases h0)]
        obtain ⟨vs, q1, q2, q3⟩ := getParameters_spec _ r _ (o1 r g)
        obtain ⟨vs', q1', q2', q3'⟩ := getParameters_spec _ r' _ (o1 r' g')
        have : vs = vs' := by
          have : vs.map some = vs'.map some := by
            rw [q3, q3']
            exact List.map_congr_left hgp
          exact (List.map_inj_right (fun _ _ h => Option.some.inj h)).1 this
        rw [q1, q1', this]
      · rfl

theorem Atom.Together.refl (pArgs : List Str) (a : Atom) (r : Rule) : a.Together pArgs r r := .inr rfl

theorem effectOf_blank (pArgs : List Str) : effectOf pArgs (List.replicate pArgs.length []) = .allow := by
  unfold effectOf
  cases h : attr pArgs (List.replicate pArgs.length []) (s% "eft") with
  | none => rfl
  | some v =>
    have : v = [] := by
      unfold attr at h
      split at h
      · rw [List.getElem?_replicate] at h
        split at h
        · exact (Option.some.inj h).symm
        · cases h
      · cases h
    subst this
    rfl

/-- What is left over in the index, in terms of the condition. -/
theorem stageLeft_iff {base : Str → Option Fn} {rk pk : Str} {rArgs pArgs : List Str} {f : List (List Cond)}
    (hw : Formula.wf (Cond.formula rk pk f) = true) (N : Naming base rk pk rArgs pArgs)
    (hf : ∀ a ∈ Cond.anyAtoms f, a.Uses rArgs pArgs) (hfull : ∀ a ∈ Cond.anyAtoms f, a.Full)
    {E : Evaluator} {T : Atom → Rule → Prop} {P H : Rule → Prop} {rules : List Rule}
    (hev : ∀ a ∈ Cond.anyAtoms f, ∀ r : Rule, r.length = pArgs.length → P r →
      ∃ b, E.eval (a.text rk pk) r = .bool b ∧ (b = true ↔ T a r))
    (hH : ∀ r, H r → GoodRule (declare pk pArgs) r ∧ P r) (hsub : ∀ r ∈ rules, H r)
    (hP0 : ((∀ r, ¬ H r) ∨ ∃ r, H r ∧ r ∉ rules) → P (List.replicate pArgs.length [])) :
    StageLeft (declare pk pArgs) E H (· ∈ rules) (.mk [] (Operand.trD (Cond.formula rk pk f) [])) ↔
      LeftOver pArgs T H rules f := by
  have hargs := declare_args pk N.p.good
  have hblank : blankRule (declare pk pArgs) = List.replicate pArgs.length [] := by
    unfold blankRule; rw [hargs]
  have hlb : (List.replicate pArgs.length ([] : Str)).length = pArgs.length := by simp
  have hlen : ∀ r, H r → r.length = pArgs.length := fun r hr => by rw [(hH r hr).1.len, hargs]
  have hw' := hw
  simp only [Formula.wf, Bool.and_eq_true] at hw'
  have hroutes := Cond.routes_trD rk pk f [] hw'.2
  simp only [Stage.tailsC, List.isEmpty_nil, if_true, List.map_cons, List.map_nil, List.append_nil] at hroutes
  have hmap : ∀ w ∈ Cond.anyWays f, w.map (fun a => tokensToExpr (a.toks rk pk)) = w.map (Atom.text rk pk) := by
    intro w hw1
    apply List.map_congr_left
    intro a ha
    exact Atom.expr_eq rk pk (hfull a (Cond.anyWays_atoms f w hw1 a ha))
  have hbool : ∀ a ∈ Cond.anyAtoms f, ∀ r, r.length = pArgs.length → P r →
      (E.eval (a.text rk pk) r = .bool true ↔ T a r) := by
    intro a ha r hl hp
    obtain ⟨b, e, hb⟩ := hev a ha r hl hp
    rw [e, ← hb]
    constructor
    · exact fun h => EvalRes.bool.inj h
    · rintro rfl; rfl
  unfold StageLeft LeftOver
  rw [hblank]
  simp only [Stage.children]
  refine or_congr ?_ ?_
  · refine and_congr_right (fun hno => ?_)
    exact Model.sat_trD hw hfull (fun a ha => hev a ha _ hlb (hP0 (.inl hno)))
  · -- the ways are the routes
    have splitMap : ∀ {α : Type} (g : α → Str) (l : List α) (x : List Str) (y : Str), l.map g = x ++ [y] →
        ∃ (l' : List α) (a : α), l = l' ++ [a] ∧ l'.map g = x ∧ g a = y := by
      intro α g l x y h
      obtain ⟨l1, l2, rfl, h1, h2⟩ := List.map_eq_append_iff.1 h
      obtain ⟨a, rfl, h3⟩ := List.map_eq_singleton_iff.1 h2
      exact ⟨l1, a, rfl, h1, h3⟩
    have pos : ∀ {a : Atom} {way : List Atom} {st : Stage} {sway : List Stage},
        sway.map Stage.expr = way.map (Atom.text rk pk) →
        (∀ (Q : Stage → Atom → Prop), (∀ s b, s ∈ sway → b ∈ way → s.expr = b.text rk pk → Q s b) →
          (∀ s ∈ sway, ∃ b ∈ way, Q s b) ∧ ∀ b ∈ way, ∃ s ∈ sway, Q s b) := by
      intro a way st sway h Q hQ
      constructor
      · intro s hs
        have : s.expr ∈ way.map (Atom.text rk pk) := h ▸ List.mem_map_of_mem hs
        obtain ⟨b, hb, e⟩ := List.mem_map.1 this
        exact ⟨b, hb, hQ s b hs hb e.symm⟩
      · intro b hb
        have : b.text rk pk ∈ sway.map Stage.expr := h ▸ List.mem_map_of_mem hb
        obtain ⟨s, hs, e⟩ := List.mem_map.1 this
        exact ⟨s, hs, hQ s b hs hb e⟩
    -- one way and one route with the same texts
    have core : ∀ (way : List Atom) (last : Atom) (sway : List Stage) (slast : Stage),
        way ++ [last] ∈ Cond.anyWays f → sway ++ [slast] ∈ Stage.routesC (Operand.trD (Cond.formula rk pk f) []) →
        sway.map Stage.expr = way.map (Atom.text rk pk) → slast.expr = last.text rk pk → ∀ seen, H seen →
        (((∀ s ∈ sway, E.eval s.expr seen = .bool true) ∧ E.eval slast.expr (List.replicate pArgs.length []) = .bool true ∧
            ∀ r, r ∈ rules → ∃ s ∈ sway, stageKey (declare pk pArgs) s r ≠ stageKey (declare pk pArgs) s seen) ↔
          ((∀ a ∈ way, T a seen) ∧ T last (List.replicate pArgs.length []) ∧
            ∀ r ∈ rules, ¬ ∀ a ∈ way, a.Together pArgs seen r)) := by
      intro way last sway slast hway hroute e1 e2 seen hseen
      have hin := Stage.routesC_inner_way _ _ _ hroute
      have hat : ∀ a ∈ way, a ∈ Cond.anyAtoms f := fun a ha =>
        Cond.anyWays_atoms f _ hway a (List.mem_append_left _ ha)
      have hlat : last ∈ Cond.anyAtoms f := Cond.anyWays_atoms f _ hway last (by simp)
      have h1 : (∀ s ∈ sway, E.eval s.expr seen = .bool true) ↔ ∀ a ∈ way, T a seen := by
        have := pos (a := last) (st := slast) e1
          (fun s b => E.eval s.expr seen = .bool true ↔ T b seen) (fun s b hs hb he => by
            rw [he]
            exact hbool b (hat b hb) seen (hlen _ hseen) (hH _ hseen).2)
        constructor
        · intro hh b hb
          obtain ⟨s, hs, hq⟩ := this.2 b hb
          exact hq.1 (hh s hs)
        · intro hh s hs
          obtain ⟨b, hb, hq⟩ := this.1 s hs
          exact hq.2 (hh b hb)
      have h3 : (∀ r, r ∈ rules → ∃ s ∈ sway, stageKey (declare pk pArgs) s r ≠ stageKey (declare pk pArgs) s seen) ↔
          ∀ r ∈ rules, ¬ ∀ a ∈ way, a.Together pArgs seen r := by
        refine forall_congr' (fun r => imp_congr_right (fun hr => ?_))
        have := pos (a := last) (st := slast) e1
          (fun s b => stageKey (declare pk pArgs) s r = stageKey (declare pk pArgs) s seen ↔ b.Together pArgs seen r)
          (fun s b hs hb he => by
            rw [eq_comm]
            exact Atom.stageKey_iff N (hf b (hat b hb)) he (hin s hs) (hH _ hseen).1 (hH _ (hsub r hr)).1)
        constructor
        · rintro ⟨s, hs, hne⟩ hall
          obtain ⟨b, hb, hq⟩ := this.1 s hs
          exact hne (hq.2 (hall b hb))
        · intro hno
          apply Classical.byContradiction
          intro hcon
          apply hno
          intro b hb
          obtain ⟨s, hs, hq⟩ := this.2 b hb
          apply hq.1
          apply Classical.byContradiction
          intro hne
          exact hcon ⟨s, hs, hne⟩
      rw [h1, h3]
      refine and_congr_right (fun _ => ?_)
      refine and_congr_left (fun hno => ?_)
      have hrem : seen ∉ rules := fun hr => hno seen hr (fun a _ => Atom.Together.refl pArgs a seen)
      rw [e2]
      exact hbool last hlat _ hlb (hP0 (.inr ⟨seen, hseen, hrem⟩))
    constructor
    · rintro ⟨sway, slast, hroute, seen, hseen, h1, h2, h3⟩
      have hm : exprs (sway ++ [slast]) ∈ (Stage.routesC (Operand.trD (Cond.formula rk pk f) [])).map exprs :=
        List.mem_map_of_mem hroute
      rw [hroutes, List.mem_flatMap] at hm
      obtain ⟨w, hw1, hw2⟩ := hm
      rw [List.mem_singleton, hmap w hw1] at hw2
      simp only [exprs, List.map_append, List.map_cons, List.map_nil] at hw2
      obtain ⟨way, last, rfl, e1, e2⟩ := splitMap _ _ _ _ hw2.symm
      obtain ⟨g1, g2, g3⟩ := (core way last sway slast hw1 hroute e1.symm e2.symm seen hseen).1
        ⟨h1, by rw [← hblank]; exact hblank ▸ h2, h3⟩
      exact ⟨way, last, hw1, seen, hseen, g1, g2, g3⟩
    · rintro ⟨way, last, hw1, seen, hseen, h1, h2, h3⟩
      have hm : (way ++ [last]).map (Atom.text rk pk) ∈
          (Stage.routesC (Operand.trD (Cond.formula rk pk f) [])).map exprs := by
        rw [hroutes, List.mem_flatMap]
        exact ⟨_, hw1, by rw [hmap _ hw1]; simp⟩
      obtain ⟨q, hq, e⟩ := List.mem_map.1 hm
      simp only [exprs, List.map_append, List.map_cons, List.map_nil] at e
      obtain ⟨sway, slast, rfl, e1, e2⟩ := splitMap _ _ _ _ e
      obtain ⟨g1, g2, g3⟩ := (core way last sway slast hw1 hq e1 e2 seen hseen).2 ⟨h1, h2, h3⟩
      exact ⟨sway, slast, hq, seen, hseen, g1, hblank ▸ g2, g3⟩

mutual
theorem Stage.paths_routes (E : Evaluator) (r : Rule) : ∀ st : Stage,
    st.paths E r = st.routes.countP (fun q => decide (∀ s ∈ q, E.eval s.expr r = .bool true))
  | .mk e cs => by
    simp only [Stage.paths, Stage.routes]
    by_cases hc : cs.isEmpty = true
    · rw [if_pos hc, if_pos hc]
      by_cases he : E.eval e r = .bool true
      · simp [he, Stage.expr]
      · simp [he, Stage.expr]
    · rw [if_neg hc, if_neg hc, List.countP_map, Stage.pathsAny_routes E r cs]
      by_cases he : E.eval e r = .bool true
      · rw [if_pos he]
        apply List.countP_congr
        intro q _
        have he' : E.eval (Stage.mk e cs).expr r = .bool true := he
        simp only [Function.comp, List.mem_cons, forall_eq_or_imp, he', true_and, decide_eq_true_eq]
      · rw [if_neg he, eq_comm, List.countP_eq_zero]
        intro q _
        simp [he, Stage.expr]
theorem Stage.pathsAny_routes (E : Evaluator) (r : Rule) : ∀ cs : List Stage,
    Stage.pathsAny E r cs = (Stage.routesC cs).countP (fun q => decide (∀ s ∈ q, E.eval s.expr r = .bool true))
  | [] => by simp [Stage.pathsAny, Stage.routesC]
  | c :: cs => by
    rw [Stage.pathsAny, Stage.routesC, List.countP_append, Stage.paths_routes E r c, Stage.pathsAny_routes E r cs]
end

/-- The number of satisfied paths, in terms of the condition. -/
theorem pathsAny_trD {rk pk : Str} {f : List (List Cond)} (hw : Formula.wf (Cond.formula rk pk f) = true)
    (hfull : ∀ a ∈ Cond.anyAtoms f, a.Full) {E : Evaluator} {T : Atom → Prop} {r : Rule}
    (hev : ∀ a ∈ Cond.anyAtoms f, ∃ b, E.eval (a.text rk pk) r = .bool b ∧ (b = true ↔ T a)) :
    Stage.pathsAny E r (Operand.trD (Cond.formula rk pk f) []) = Cond.timesTrue T f := by
  classical
  simp only [Formula.wf, Bool.and_eq_true] at hw
  have hroutes := Cond.routes_trD rk pk f [] hw.2
  simp only [Stage.tailsC, List.isEmpty_nil, if_true, List.map_cons, List.map_nil, List.append_nil] at hroutes
  have hfl : ∀ l : List (List Atom), l.flatMap (fun w => [w.map (fun a => tokensToExpr (a.toks rk pk))]) =
      l.map (fun w => w.map (fun a => tokensToExpr (a.toks rk pk))) := by
    intro l; induction l <;> simp_all
  rw [hfl] at hroutes
  have e1 : Stage.pathsAny E r (Operand.trD (Cond.formula rk pk f) []) =
      ((Stage.routesC (Operand.trD (Cond.formula rk pk f) [])).map exprs).countP
        (fun q => decide (∀ s ∈ q, E.eval s r = .bool true)) := by
    rw [Stage.pathsAny_routes, List.countP_map]
    apply List.countP_congr
    intro q _
    simp [exprs]
  rw [e1, hroutes, List.countP_map, Cond.timesTrue]
  apply List.countP_congr
  intro w hw1
  simp only [Function.comp, decide_eq_true_eq, List.mem_map, forall_exists_index, and_imp, forall_apply_eq_imp_iff₂]
  refine forall_congr' (fun a => imp_congr_right (fun ha => ?_))
  have hat := Cond.anyWays_atoms f w hw1 a ha
  rw [Atom.expr_eq rk pk (hfull a hat)]
  obtain ⟨b, e, hb⟩ := hev a hat
  rw [e, ← hb]
  constructor
  · exact fun h => EvalRes.bool.inj h
  · rintro rfl; rfl

/-- What a matcher that says `f` and remembers the rules with `H` lists. -/
theorem lists_of_hist {base : Str → Option Fn} {rk pk : Str} {rArgs pArgs : List Str} {f : List (List Cond)}
    (hw : Formula.wf (Cond.formula rk pk f) = true) (N : Naming base rk pk rArgs pArgs)
    (hf : ∀ a ∈ Cond.anyAtoms f, a.Uses rArgs pArgs) (hfull : ∀ a ∈ Cond.anyAtoms f, a.Full)
    {E : Evaluator} {T : Atom → Rule → Prop} {P H : Rule → Prop} (s : PolicyWithMatcher)
    (hinv : s.Inv (declare pk pArgs) (.mk [] (Operand.trD (Cond.formula rk pk f) [])))
    (hb : (Stage.mk [] (Operand.trD (Cond.formula rk pk f) [])).Binary) (hs : s.matcher.Recalls H)
    (hev : ∀ a ∈ Cond.anyAtoms f, E.compiles (a.text rk pk) = true ∧
      ∀ r : Rule, r.length = pArgs.length → P r → ∃ b, E.eval (a.text rk pk) r = .bool b ∧ (b = true ↔ T a r))
    (hown : ∀ a ∈ Cond.anyAtoms f, ∀ r r' : Rule, r.length = pArgs.length → r'.length = pArgs.length → P r → P r' →
      (∀ y, Ref.pol y ∈ a.refs → attr pArgs r y = attr pArgs r' y) → (T a r ↔ T a r'))
    (hH : ∀ r, H r → GoodRule (declare pk pArgs) r ∧ P r) (hsub : ∀ r ∈ s.policy.rules, H r)
    (hP0 : ((∀ r, ¬ H r) ∨ ∃ r, H r ∧ r ∉ s.policy.rules) → P (List.replicate pArgs.length []))
    (ord : Order) (hord : ord.Valid) :
    (filter s.matcher E ord).2 = .cont ∧ ∃ n, (n ≠ 0 ↔ LeftOver pArgs T H s.policy.rules f) ∧
      (filter s.matcher E ord).1.Perm
        (s.policy.rules.flatMap (fun r => List.replicate (Cond.timesTrue (fun a => T a r) f) (pk :: r)) ++
          List.replicate n (pk :: List.replicate pArgs.length [])) := by
  have hargs := declare_args pk N.p.good
  have hlen : ∀ r, H r → r.length = pArgs.length := fun r hr => by rw [(hH r hr).1.len, hargs]
  have hlb : (List.replicate pArgs.length ([] : Str)).length = pArgs.length := by simp
  have hblank : blankRule (declare pk pArgs) = List.replicate pArgs.length [] := by
    unfold blankRule; rw [hargs]
  have hleft := stageLeft_iff hw N hf hfull (fun a ha => (hev a ha).2) hH hsub hP0
  obtain ⟨h1, n, h2, h3⟩ := filter_of_hist (declare pk pArgs) _ s E ord P H hinv hb hs hH hsub
    (show Stage.AllIn _ (Operand.trD (Cond.formula rk pk f) []) from
      Cond.all_trD rk pk f [] (fun a ha ks => by
        unfold Stage.Behaves
        simp only [Stage.expr]
        rw [Atom.expr_eq rk pk (hfull a ha)]
        refine ⟨fun _ => ⟨(Atom.own N (hf a ha) ks).1, ?_⟩, (hev a ha).1, ?_⟩
        · intro r r' hgr hgr' hP hP' hag
          have hl : r.length = pArgs.length := by rw [hgr.len, hargs]
          have hl' : r'.length = pArgs.length := by rw [hgr'.len, hargs]
          obtain ⟨b, e, hb⟩ := (hev a ha).2 r hl hP
          obtain ⟨b', e', hb'⟩ := (hev a ha).2 r' hl' hP'
          rw [e, e']
          congr 1
          rw [Bool.eq_iff_iff, hb, hb']
          exact hown a ha r r' hl hl' hP hP' ((Atom.own N (hf a ha) ks).2 r r' hgr hgr' hag)
        · intro r hl hP
          obtain ⟨b, e, -⟩ := (hev a ha).2 r (by rw [hl.len, hargs]) hP
          rw [e]
          simp) trivial)
    (by
      intro hh
      have hP := hP0 hh
      rw [hblank]
      show Stage.AllIn _ (Operand.trD (Cond.formula rk pk f) [])
      exact Cond.all_trD rk pk f [] (fun a ha ks => by
        unfold Stage.DefAt
        simp only [Stage.expr, Atom.expr_eq rk pk (hfull a ha)]
        obtain ⟨b, e, -⟩ := (hev a ha).2 _ hlb hP
        refine ⟨(hev a ha).1, ?_⟩
        rw [e]
        simp) trivial)
    hord
  refine ⟨h1, n, h2.trans hleft, ?_⟩
  rw [hblank, declare_key] at h3
  refine h3.trans (List.Perm.append_right _ (List.Perm.of_eq ?_))
  rw [List.flatMap_def, List.flatMap_def]
  congr 1
  apply List.map_congr_left
  intro r hr
  rw [show Stage.children (.mk [] (Operand.trD (Cond.formula rk pk f) [])) =
    Operand.trD (Cond.formula rk pk f) [] from rfl,
    pathsAny_trD hw hfull (T := fun a => T a r) (fun a ha => (hev a ha).2 r (hlen r (hsub r hr)) (hH r (hsub r hr)).2)]

namespace Cond

mutual
theorem holds_ways (T : Atom → Prop) : ∀ c : Cond, c.holds T ↔ ∃ w ∈ c.ways, ∀ a ∈ w, T a
  | .atom a => by simp [Cond.holds, Cond.ways]
  | .paren f => by
    rw [Cond.holds, Cond.ways]
    exact anyHolds_ways T f
theorem allHold_ways (T : Atom → Prop) : ∀ cs : List Cond, Cond.allHold T cs ↔ ∃ w ∈ Cond.allWays cs, ∀ a ∈ w, T a
  | [] => by simp [Cond.allHold, Cond.allWays]
  | c :: cs => by
    rw [Cond.allHold, holds_ways T c, allHold_ways T cs, Cond.allWays]
    constructor
    · rintro ⟨⟨w, h1, h2⟩, v, h3, h4⟩
      refine ⟨w ++ v, List.mem_flatMap.2 ⟨w, h1, List.mem_map.2 ⟨v, h3, rfl⟩⟩, fun a ha => ?_⟩
      exact (List.mem_append.1 ha).elim (h2 a) (h4 a)
    · rintro ⟨x, h1, h2⟩
      obtain ⟨w, h3, h4⟩ := List.mem_flatMap.1 h1
      obtain ⟨v, h5, rfl⟩ := List.mem_map.1 h4
      exact ⟨⟨w, h3, fun a ha => h2 a (by simp [ha])⟩, v, h5, fun a ha => h2 a (by simp [ha])⟩
theorem anyHolds_ways (T : Atom → Prop) : ∀ f : List (List Cond),
    Cond.anyHolds T f ↔ ∃ w ∈ Cond.anyWays f, ∀ a ∈ w, T a
  | [] => by simp [Cond.anyHolds, Cond.anyWays]
  | c :: cs => by
    rw [Cond.anyHolds, allHold_ways T c, anyHolds_ways T cs, Cond.anyWays]
    simp only [List.mem_append]
    constructor
    · rintro (⟨w, h1, h2⟩ | ⟨w, h1, h2⟩)
      · exact ⟨w, .inl h1, h2⟩
      · exact ⟨w, .inr h1, h2⟩
    · rintro ⟨w, h1 | h1, h2⟩
      · exact .inl ⟨w, h1, h2⟩
      · exact .inr ⟨w, h1, h2⟩
end

theorem timesTrue_ne {T : Atom → Prop} {f : List (List Cond)} : Cond.timesTrue T f ≠ 0 ↔ Cond.anyHolds T f := by
  classical
  rw [anyHolds_ways, Cond.timesTrue, ← Nat.pos_iff_ne_zero, List.countP_pos_iff]
  simp

end Cond

namespace Model

/-- The matcher stored under `mk` and its index. -/
theorem seen_index (build : Str → Res Stage) (hbin : ∀ e s, build e = .ok s → s.Binary)
    (grow : Nat → Nat) (rk mk pk : Str) (rArgs pArgs : List Str) (f : List (List Cond)) (root : Stage)
    (hw : (Cond.formula rk pk f).wf = true) (hs : (Cond.formula rk pk f).safe = true)
    (hroot : buildMatcherDef grow (Cond.formula rk pk f).toks = .ok root)
    (H : Rule → Prop)
    (m : Model) (h : Seen build mk root H m)
    (d : PolicyDef) (hp : m.pDefs.get pk = some d) (hpA : d.args = pArgs)
    (base : Str → Option Fn) (N : Naming base rk pk rArgs pArgs)
    (hf : ∀ a ∈ Cond.anyAtoms f, a.Uses rArgs pArgs)
    (huse : pk = s% "p" ∨ ∃ a ∈ Cond.anyAtoms f, ∃ y, Ref.pol y ∈ a.refs) :
    ∃ i mt rules, m.mMap.get mk = some (.live pk i) ∧ m.resolve (.live pk i) = some mt ∧
      mt.pDef = declare pk pArgs ∧ d = declare pk pArgs ∧ m.policyRules pk = some rules ∧
      (∀ r ∈ rules, H r) ∧ (∀ r, H r → GoodRule (declare pk pArgs) r) ∧
      (Stage.mk [] (Operand.trD (Cond.formula rk pk f) [])).Binary ∧
      PolicyWithMatcher.Inv (declare pk pArgs) (.mk [] (Operand.trD (Cond.formula rk pk f) []))
        ⟨Policy.ofRules rules, mt⟩ ∧ mt.Recalls H := by
  have hfull : ∀ a ∈ Cond.anyAtoms f, a.Full := by
    intro a ha
    have := hf a ha
    cases a with
    | eq a b => trivial
    | call g args => exact this.1
  rw [buildMatcherDef_formula grow _ hw hs] at hroot
  cases hroot
  have hkey := policyKey_trD hw N hfull hf huse
  have hph : (Stage.mk [] (Operand.trD (Cond.formula rk pk f) [])).policyKey.head? = some 'p' := by
    rw [hkey]
    exact (h.bound.tied.1.made.wellKeyed.p pk d hp).1
  have hmade : Made build m := h.bound.tied.1.made
  obtain ⟨-, v, hv⟩ := hmade.wellKeyed.p pk d hp
  have hd : d = declare pk pArgs := by
    rw [hv]
    apply newPolicyDef_names _ N.p.good
    rw [← hpA, hv]
    rfl
  obtain ⟨i, mt, p, d', h1, h2, h3, h4, h5, h6, h7, hb, hinv⟩ := h.bound.inv hbin hph
  obtain ⟨p', i', mt', s1, s2, s3, s4, s5⟩ := h.remembers hbin hph
  have hgoodH := h.good hbin hph
  have hrulesH := h.rules
  rw [hkey] at h1 h2 h3 h4 h5 h6 s1 s2 hgoodH hrulesH
  rw [hp] at h5
  cases h5
  obtain rfl : p' = p := Option.some.inj (s2.symm.trans h3)
  obtain rfl : i' = i := by
    have := Option.some.inj (s1.symm.trans h1)
    cases this; rfl
  obtain rfl : mt' = mt := by
    have h2' := h2
    unfold resolve at h2'
    simp only [h3] at h2'
    exact Option.some.inj (s3.symm.trans h2')
  subst hd
  exact ⟨i', mt', p'.policy.rules, h1, h2, h7, rfl, h4, hrulesH p' h3, fun r hr => hgoodH r hr _ hp, hb, hinv, s5⟩

/-- The matcher stored under `mk`, and what it lists, for any meaning `T` of the atoms of `f` on the rules with
`P`. -/
theorem seen_lists (build : Str → Res Stage) (hbin : ∀ e s, build e = .ok s → s.Binary)
    (grow : Nat → Nat) (rk mk pk : Str) (rArgs pArgs : List Str) (f : List (List Cond)) (root : Stage)
    (hw : (Cond.formula rk pk f).wf = true) (hs : (Cond.formula rk pk f).safe = true)
    (hroot : buildMatcherDef grow (Cond.formula rk pk f).toks = .ok root)
    (P H : Rule → Prop)
    (m : Model) (h : Seen build mk root H m)
    (d : PolicyDef) (hp : m.pDefs.get pk = some d) (hpA : d.args = pArgs)
    (base : Str → Option Fn) (N : Naming base rk pk rArgs pArgs)
    (hf : ∀ a ∈ Cond.anyAtoms f, a.Uses rArgs pArgs)
    (huse : pk = s% "p" ∨ ∃ a ∈ Cond.anyAtoms f, ∃ y, Ref.pol y ∈ a.refs)
    (E : Evaluator) (T : Atom → Rule → Prop)
    (hev : ∀ a ∈ Cond.anyAtoms f, E.compiles (a.text rk pk) = true ∧
      ∀ r : Rule, r.length = pArgs.length → P r → ∃ b, E.eval (a.text rk pk) r = .bool b ∧ (b = true ↔ T a r))
    (hown : ∀ a ∈ Cond.anyAtoms f, ∀ r r' : Rule, r.length = pArgs.length → r'.length = pArgs.length → P r → P r' →
      (∀ y, Ref.pol y ∈ a.refs → attr pArgs r y = attr pArgs r' y) → (T a r ↔ T a r'))
    (hHP : ∀ r, H r → P r)
    (hP0 : ((∀ r, ¬ H r) ∨ ∃ r, H r ∧ ∀ rules, m.policyRules pk = some rules → r ∉ rules) →
      P (List.replicate pArgs.length []))
    (ord : Order) (hord : ord.Valid) :
    ∃ i mt rules, m.mMap.get mk = some (.live pk i) ∧ m.resolve (.live pk i) = some mt ∧
      mt.pDef = declare pk pArgs ∧ d = declare pk pArgs ∧ m.policyRules pk = some rules ∧
      (∀ r ∈ rules, H r) ∧ (∀ r, H r → r.length = pArgs.length) ∧
      (filter mt E ord).2 = .cont ∧ ∃ n, (n ≠ 0 ↔ LeftOver pArgs T H rules f) ∧
      (filter mt E ord).1.Perm
        (rules.flatMap (fun r => List.replicate (Cond.timesTrue (fun a => T a r) f) (pk :: r)) ++
          List.replicate n (pk :: List.replicate pArgs.length [])) := by
  have hfull : ∀ a ∈ Cond.anyAtoms f, a.Full := by
    intro a ha
    have := hf a ha
    cases a with
    | eq a b => trivial
    | call g args => exact this.1
  obtain ⟨i, mt, rules, h1, h2, h3, h4, h5, hsub, hgood, hb, hinv, hrec⟩ := seen_index build hbin grow rk mk pk rArgs pArgs
    f root hw hs hroot H m h d hp hpA base N hf huse
  have hargs := declare_args pk N.p.good
  have hlen : ∀ r, H r → r.length = pArgs.length := fun r hr => by rw [(hgood r hr).len, hargs]
  have hP0' : ((∀ r, ¬ H r) ∨ ∃ r, H r ∧ r ∉ rules) → P (List.replicate pArgs.length []) := by
    intro hh
    apply hP0
    refine hh.imp id ?_
    rintro ⟨r, hr, hn⟩
    exact ⟨r, hr, fun rules hru => by rw [h5] at hru; cases hru; exact hn⟩
  have := lists_of_hist hw N hf hfull ⟨Policy.ofRules rules, mt⟩ hinv hb hrec hev hown
    (fun r hr => ⟨hgood r hr, hHP r hr⟩)
    (by rw [Policy.rules_ofRules]; exact hsub) (by rw [Policy.rules_ofRules]; exact hP0') ord hord
  rw [Policy.rules_ofRules] at this
  exact ⟨i, mt, rules, h1, h2, h3, h4, h5, hsub, hlen, this⟩

/-- The decision of a matcher that says `f` and has seen the rules with `H`, for any meaning `T` of the atoms of `f`
on the rules with `P`. -/
theorem seen_decided (build : Str → Res Stage) (hbin : ∀ e s, build e = .ok s → s.Binary)
    (grow : Nat → Nat) (rk mk ek pk rText eff : Str) (rArgs pArgs : List Str) (f : List (List Cond)) (root : Stage)
    (hw : (Cond.formula rk pk f).wf = true) (hs : (Cond.formula rk pk f).safe = true)
    (hroot : buildMatcherDef grow (Cond.formula rk pk f).toks = .ok root)
    (P H : Rule → Prop)
    (m : Model) (h : Seen build mk root H m) (hmk : mk ≠ []) (hek : ek ≠ [])
    (hr : m.rDefs.get rk = some rText) (hrA : splitC ',' (removeSpaces rText) = rArgs)
    (d : PolicyDef) (hp : m.pDefs.get pk = some d) (hpA : d.args = pArgs) (he : m.eDefs.get ek = some eff)
    (gov : Gov) (base : Str → Option Fn) (N : Naming base rk pk rArgs pArgs)
    (rvals : List Str)
    (hf : ∀ a ∈ Cond.anyAtoms f, a.Uses rArgs pArgs)
    (huse : pk = s% "p" ∨ ∃ a ∈ Cond.anyAtoms f, ∃ y, Ref.pol y ∈ a.refs)
    (E : Evaluator)
    (hE : E = gov (m.functions base) (MatchParams.get ⟨declare pk pArgs, declare rk rArgs, rvals⟩))
    (T : Atom → Rule → Prop)
    (hev : ∀ a ∈ Cond.anyAtoms f, E.compiles (a.text rk pk) = true ∧
      ∀ r : Rule, r.length = pArgs.length → P r → ∃ b, E.eval (a.text rk pk) r = .bool b ∧ (b = true ↔ T a r))
    (hown : ∀ a ∈ Cond.anyAtoms f, ∀ r r' : Rule, r.length = pArgs.length → r'.length = pArgs.length → P r → P r' →
      (∀ y, Ref.pol y ∈ a.refs → attr pArgs r y = attr pArgs r' y) → (T a r ↔ T a r'))
    (hHP : ∀ r, H r → P r)
    (hP0 : ((∀ r, ¬ H r) ∨ ∃ r, H r ∧ ∀ rules, m.policyRules pk = some rules → r ∉ rules) →
      P (List.replicate pArgs.length []))
    (hdet : eff = SOME_ALLOW_NO_DENY → ∀ rules, m.policyRules pk = some rules → ∀ r ∈ rules,
      effectOf pArgs r ≠ .indeterminate)
    (ord : Order) (hord : ord.Valid) :
    ∃ (rules : List Rule) (effects : List Effect), m.policyRules pk = some rules ∧
      (∀ r ∈ rules, H r) ∧ (∀ r, H r → r.length = pArgs.length) ∧
      (∀ e, e ∈ effects ↔ (∃ r ∈ rules, Cond.anyHolds (fun a => T a r) f ∧ effectOf pArgs r = e) ∨
        (LeftOver pArgs T H rules f ∧ e = .allow)) ∧
      m.enforceParams build base gov ord (named rk mk ek ++ rvals.map .val) = (m, .ok (decision eff effects)) ∧
      (rk = s% "r" → mk = s% "m" → ek = s% "e" →
        m.enforceParams build base gov ord (rvals.map .val) = (m, .ok (decision eff effects))) := by
  obtain ⟨i, mt, rules, h1, h2, h7, hd, h4, hsub, hlen, hcont, n, hn, hperm⟩ := seen_lists build hbin grow rk mk pk rArgs
    pArgs f root hw hs hroot P H m h d hp hpA base N hf huse E T hev hown hHP hP0 ord hord
  subst hd
  have hrd : newPolicyDef rk rText = declare rk rArgs := newPolicyDef_names hrA N.r.good
  have n1 : rk ≠ [] := by intro e; have := N.rHead; rw [e] at this; cases this
  have hlb : (List.replicate pArgs.length ([] : Str)).length = pArgs.length := by simp
  let effects := (filter mt E ord).1.map (declare pk pArgs).getEft
  have heffs : ∀ e, e ∈ effects ↔
      (∃ r ∈ rules, Cond.anyHolds (fun a => T a r) f ∧ effectOf pArgs r = e) ∨
        (LeftOver pArgs T H rules f ∧ e = .allow) := by
    intro e
    simp only [effects, List.mem_map, hperm.mem_iff, List.mem_append, List.mem_flatMap, List.mem_replicate,
      Cond.timesTrue_ne, hn]
    constructor
    · rintro ⟨x, ⟨r, g1, g2, rfl⟩ | ⟨g1, rfl⟩, rfl⟩
      · exact .inl ⟨r, g1, g2, (getEft_effectOf pk N.p.good r (hlen r (hsub r g1))).symm⟩
      · refine .inr ⟨g1, ?_⟩
        rw [getEft_effectOf pk N.p.good _ hlb, effectOf_blank]
    · rintro (⟨r, g1, g2, rfl⟩ | ⟨g1, rfl⟩)
      · exact ⟨_, .inl ⟨r, g1, g2, rfl⟩, getEft_effectOf pk N.p.good r (hlen r (hsub r g1))⟩
      · refine ⟨_, .inr ⟨g1, rfl⟩, ?_⟩
        rw [getEft_effectOf pk N.p.good _ hlb, effectOf_blank]
  have hE' : E = gov (m.functions base) (MatchParams.get ⟨declare pk pArgs, newPolicyDef rk rText, rvals⟩) := by
    rw [hE, hrd]
  have hctx : m.enforceCtx base gov ord ⟨some (newPolicyDef rk rText), some (.live pk i), some eff⟩
      rvals = .ok (decision eff effects) := by
    have := enforce_of_effects (declare pk pArgs) mt E ord eff effects hcont
      (fun e => by simp [effects])
      (by
        intro hh hmem
        rcases (heffs _).1 hmem with ⟨r, g1, -, g3⟩ | ⟨-, g⟩
        · exact hdet hh _ h4 r g1 g3
        · cases g)
    unfold Model.enforceCtx
    simp only [Option.bind_some, h2]
    rw [h7, declare_key, hp]
    simp only
    unfold Model.evaluator
    rw [h7, ← hE']
    exact this
  refine ⟨rules, effects, h4, hsub, hlen, heffs, ?_, ?_⟩
  · unfold Model.enforceParams
    rw [splitParams_named, newContext_named hr h1 he n1 hmk hek]
    simp only
    rw [hctx]
  · rintro rfl rfl rfl
    unfold Model.enforceParams
    rw [splitParams_vals, newContext_default hr h1 he]
    simp only
    rw [hctx]

end Model

end Fastac
