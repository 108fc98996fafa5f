import Verif.Spec.Expressions
import Verif.Lemmas.Justified

/-!
# Lemmas about matchers made of any expressions
-/

namespace Fastac

/-! ## Texts and ways -/

/-- The ways through a list of stages. -/
def Stage.wayTexts (cs : List Stage) : List (List Str) := (Stage.routesC cs).map exprs

mutual
theorem Stage.texts_routes : ∀ (st : Stage), ∀ e ∈ st.texts, ∃ q ∈ st.routes, e ∈ exprs q
  | .mk e cs, e', h => by
    rw [Stage.texts, List.mem_cons] at h
    rcases h with h | h
    · obtain ⟨q, hq⟩ := Stage.routes_start (.mk e cs)
      exact ⟨_, hq, by rw [h]; simp [exprs, Stage.expr]⟩
    · obtain ⟨q, hq, he⟩ := Stage.textsIn_routes cs e' h
      cases cs with
      | nil => simp [Stage.textsIn] at h
      | cons c cs =>
        refine ⟨.mk e (c :: cs) :: q, by simp [Stage.routes, hq], ?_⟩
        simp only [exprs, List.map_cons, List.mem_cons]
        exact .inr he
theorem Stage.textsIn_routes : ∀ (cs : List Stage), ∀ e ∈ Stage.textsIn cs, ∃ q ∈ Stage.routesC cs, e ∈ exprs q
  | [], e, h => by simp [Stage.textsIn] at h
  | c :: cs, e, h => by
    rw [Stage.textsIn, List.mem_append] at h
    rw [Stage.routesC]
    rcases h with h | h
    · obtain ⟨q, hq, he⟩ := Stage.texts_routes c e h
      exact ⟨q, List.mem_append_left _ hq, he⟩
    · obtain ⟨q, hq, he⟩ := Stage.textsIn_routes cs e h
      exact ⟨q, List.mem_append_right _ hq, he⟩
end

theorem Stage.textsIn_ways {cs : List Stage} {e : Str} (h : e ∈ Stage.textsIn cs) :
    e ∈ (Stage.wayTexts cs).flatten := by
  obtain ⟨q, hq, he⟩ := Stage.textsIn_routes cs e h
  exact List.mem_flatten.2 ⟨_, List.mem_map_of_mem hq, he⟩

mutual
theorem Stage.routes_texts : ∀ (st : Stage), ∀ q ∈ st.routes, ∀ e ∈ exprs q, e ∈ st.texts
  | .mk e cs, q, hq, e', h => by
    simp only [Stage.routes] at hq
    rw [Stage.texts, List.mem_cons]
    split at hq
    · rw [List.mem_singleton.1 hq] at h
      simp only [exprs, List.map_cons, List.map_nil, List.mem_singleton, Stage.expr] at h
      exact .inl h
    · obtain ⟨q', hq', rfl⟩ := List.mem_map.1 hq
      simp only [exprs, List.map_cons, List.mem_cons, Stage.expr] at h
      exact h.imp id (Stage.routesC_texts cs q' hq' e')
theorem Stage.routesC_texts : ∀ (cs : List Stage), ∀ q ∈ Stage.routesC cs, ∀ e ∈ exprs q, e ∈ Stage.textsIn cs
  | [], q, hq, _, _ => by simp [Stage.routesC] at hq
  | c :: cs, q, hq, e, h => by
    rw [Stage.routesC, List.mem_append] at hq
    rw [Stage.textsIn, List.mem_append]
    exact hq.imp (fun hq => Stage.routes_texts c q hq e h) (fun hq => Stage.routesC_texts cs q hq e h)
end

theorem Stage.ways_textsIn {cs : List Stage} {e : Str} (h : e ∈ (Stage.wayTexts cs).flatten) : e ∈ Stage.textsIn cs := by
  obtain ⟨w, hw, he⟩ := List.mem_flatten.1 h
  obtain ⟨q, hq, rfl⟩ := List.mem_map.1 hw
  exact Stage.routesC_texts cs q hq e he

mutual
theorem Stage.all_of_texts {P : Stage → Prop} : ∀ (st : Stage), (∀ e ∈ st.texts, ∀ ks, P (.mk e ks)) → P st ∧ st.All P
  | .mk e cs, h => by
    rw [Stage.texts] at h
    simp only [Stage.All]
    exact ⟨h e (by simp) cs, Stage.allIn_of_texts cs (fun e' he => h e' (by simp [he]))⟩
theorem Stage.allIn_of_texts {P : Stage → Prop} : ∀ (cs : List Stage), (∀ e ∈ Stage.textsIn cs, ∀ ks, P (.mk e ks)) →
    Stage.AllIn P cs
  | [], _ => trivial
  | c :: cs, h => by
    rw [Stage.textsIn] at h
    simp only [Stage.AllIn]
    exact ⟨Stage.all_of_texts c (fun e he => h e (by simp [he])), Stage.allIn_of_texts cs (fun e he => h e (by simp [he]))⟩
end

mutual
theorem Operand.routes_trU : ∀ (u : Operand) (k : List Stage), u.wf = true →
    Stage.wayTexts (Operand.trU u k) = u.ways.flatMap (fun w => (Stage.tailsC k).map (w ++ ·))
  | .atom ts, k, _ => by
    rw [Operand.trU]
    simp only [Stage.wayTexts, Operand.ways, Stage.routesC, List.append_nil, List.flatMap_cons, List.flatMap_nil]
    unfold Stage.tailsC
    simp only [Stage.routes]
    split
    · simp [exprs, Stage.expr]
    · rw [List.map_map, List.map_map]
      rfl
  | .paren f, k, hw => by
    rw [Operand.wf, Bool.and_eq_true] at hw
    rw [Operand.trU, Operand.ways]
    exact Operand.routes_trD f k hw.2
theorem Operand.tails_trC : ∀ (cs : List Operand) (k : List Stage), Operand.conjWf cs = true →
    Stage.tailsC (Operand.trC cs k) = (Operand.allWays cs).flatMap (fun w => (Stage.tailsC k).map (w ++ ·))
  | [], k, _ => by
    rw [Operand.trC]
    simp [Operand.allWays]
  | c :: cs, k, hw => by
    rw [Operand.conjWf, Bool.and_eq_true] at hw
    have := Operand.routes_trU c (Operand.trC cs k) hw.1
    unfold Stage.wayTexts at this
    rw [Operand.trC, Stage.tailsC_ne (Operand.trU_ne _ _ hw.1), this,
      Operand.tails_trC cs k hw.2, Operand.allWays]
    simp only [List.flatMap_assoc, List.map_flatMap, List.flatMap_map, List.map_map]
    congr 1
    funext w
    congr 1
    funext v
    apply List.map_congr_left
    intro x _
    simp
theorem Operand.routes_trD : ∀ (f : List (List Operand)) (k : List Stage), Operand.disjWf f = true →
    Stage.wayTexts (Operand.trD f k) = (Operand.anyWays f).flatMap (fun w => (Stage.tailsC k).map (w ++ ·))
  | [], k, _ => by rw [Operand.trD]; simp [Stage.wayTexts, Stage.routesC, Operand.anyWays]
  | c :: cs, k, hw => by
    rw [Operand.disjWf, Bool.and_eq_true, Bool.and_eq_true, Bool.not_eq_true', List.isEmpty_eq_false_iff] at hw
    have := Operand.routes_trD cs k hw.2
    unfold Stage.wayTexts at this ⊢
    rw [Operand.trD, Stage.routesC_append, List.map_append, Operand.anyWays, List.flatMap_append, this,
      ← Operand.tails_trC c k hw.1.2, Stage.tailsC_ne (Operand.trC_ne _ k hw.1.1 hw.1.2)]
end

/-- The ways through the stages of a formula are the ways in which it can be true. -/
theorem Formula.ways_stages {f : Formula} (hw : f.wf = true) : Stage.wayTexts (Operand.trD f []) = f.ways := by
  simp only [Formula.wf, Bool.and_eq_true] at hw
  rw [Operand.routes_trD f [] hw.2, Formula.ways]
  simp only [Stage.tailsC, List.isEmpty_nil, if_true, List.map_cons, List.map_nil, List.append_nil]
  generalize Operand.anyWays f = l
  induction l <;> simp_all

theorem Formula.times_ne {O : Str → Rule → EvalRes} {f : Formula} {r : Rule} : f.times O r ≠ 0 ↔ f.TrueOf O r := by
  rw [Formula.times, Formula.TrueOf, ← Nat.pos_iff_ne_zero, List.countP_pos_iff]
  simp

/-! ## What a text mentions -/

section
variable {base : Str → Option Fn} {rk pk : Str} {rArgs pArgs : List Str}

theorem Legible.refs (N : Naming base rk pk rArgs pArgs) {e : Str} (h : Legible pk pArgs e) (cs : List Stage) (w : Str) :
    w ∈ (Stage.mk e cs).pArgs ↔ ∃ y ∈ pArgs, w = qual pk y ∧ Mentions pk e y := by
  rw [c16_stage_args_partial (Stage.mk e cs) h.inner, List.mem_filter, decide_eq_true_eq]
  simp only [Stage.expr, Mentions]
  constructor
  · rintro ⟨h1, h2⟩
    obtain ⟨y, hy, rfl⟩ := h.known w h1 h2
    exact ⟨y, hy, rfl, h1⟩
  · rintro ⟨y, hy, rfl, hm⟩
    exact ⟨hm, N.isRef hy⟩

/-- The attributes by which the stage of a text is indexed. -/
theorem Legible.own (N : Naming base rk pk rArgs pArgs) {e : Str} (h : Legible pk pArgs e) (cs : List Stage) :
    (∀ r, GoodRule (declare pk pArgs) r → ∀ w ∈ (Stage.mk e cs).pArgs,
      ∃ v, (declare pk pArgs).getParameter r w = some v) ∧
    ∀ r r', GoodRule (declare pk pArgs) r → GoodRule (declare pk pArgs) r' →
      (∀ w ∈ (Stage.mk e cs).pArgs, (declare pk pArgs).getParameter r w = (declare pk pArgs).getParameter r' w) →
      ∀ y ∈ pArgs, Mentions pk e y → attr pArgs r y = attr pArgs r' y := by
  have hargs := declare_args pk N.p.good
  constructor
  · intro r hgr w hw
    obtain ⟨y, hy, rfl, -⟩ := (h.refs N cs w).1 hw
    rw [getParameter_attr pk N.p.good r (by rw [hgr.len, hargs])]
    exact attr_len (by rw [hgr.len, hargs]) hy
  · intro r r' hgr hgr' hs y hy hm
    have hl : r.length = pArgs.length := by rw [hgr.len, hargs]
    have hl' : r'.length = pArgs.length := by rw [hgr'.len, hargs]
    have := hs (qual pk y) ((h.refs N cs _).2 ⟨y, hy, rfl, hm⟩)
    rw [getParameter_attr pk N.p.good r hl, getParameter_attr pk N.p.good r' hl'] at this
    exact this

/-- Rules with the same key at an inner stage are alongside each other. -/
theorem Legible.stageKey_iff (N : Naming base rk pk rArgs pArgs) {st : Stage} (h : Legible pk pArgs st.expr)
    (hl : st.isLeaf = false) {r r' : Rule} (g : GoodRule (declare pk pArgs) r) (g' : GoodRule (declare pk pArgs) r') :
    stageKey (declare pk pArgs) st r = stageKey (declare pk pArgs) st r' ↔ Alongside pk pArgs st.expr r r' := by
  have hargs := declare_args pk N.p.good
  have hlr : r.length = pArgs.length := by rw [g.len, hargs]
  have hlr' : r'.length = pArgs.length := by rw [g'.len, hargs]
  cases st with
  | mk e cs =>
    simp only [Stage.expr] at h ⊢
    obtain ⟨o1, o2⟩ := h.own N cs
    constructor
    · intro hk
      by_cases hy : ∃ y ∈ pArgs, Mentions pk e y
      · refine .inl ⟨hy, ?_⟩
        -- an evaluator that looks at the attributes mentioned
        have := eval_of_stageKey_on (pDef := declare pk pArgs)
          (E := ⟨fun _ => true, fun _ x => .bool (decide (∀ w ∈ (Stage.mk e cs).pArgs,
            (declare pk pArgs).getParameter r w = (declare pk pArgs).getParameter x w))⟩)
          (st := .mk e cs) (P := fun _ => True) o1
          (fun x y _ _ _ _ hxy => by
            simp only
            congr 1
            rw [decide_eq_decide]
            constructor
            · intro hh w hw; rw [hh w hw, hxy w hw]
            · intro hh w hw; rw [hh w hw, hxy w hw]) g g' trivial trivial hk
        have h2 := (EvalRes.bool.inj this).symm.trans (decide_eq_true (fun _ _ => rfl))
        exact o2 r r' g g' (of_decide_eq_true h2)
      · right
        unfold stageKey at hk
        split at hk
        · exact g.hash_inj g' hk
        · rename_i hne
          exfalso
          apply hne
          left
          rw [List.length_eq_zero_iff, List.eq_nil_iff_forall_not_mem]
          intro w hw
          obtain ⟨y, h1, -, h2⟩ := (h.refs N cs w).1 hw
          exact hy ⟨y, h1, h2⟩
    · rintro (⟨⟨y0, hy0, hm0⟩, hag⟩ | rfl)
      · unfold stageKey
        have hgp : ∀ w ∈ (Stage.mk e cs).pArgs,
            (declare pk pArgs).getParameter r w = (declare pk pArgs).getParameter r' w := by
          intro w hw
          obtain ⟨y, hy, rfl, hm⟩ := (h.refs N cs w).1 hw
          rw [getParameter_attr pk N.p.good r hlr, getParameter_attr pk N.p.good r' hlr']
          exact hag y hy hm
        have hne : (Stage.mk e cs).pArgs ≠ [] := by
          intro e0
          have := (h.refs N cs (qual pk y0)).2 ⟨y0, hy0, rfl, hm0⟩
          rw [e0] at this
          cases this
        rw [if_neg (by
          rintro (h0 | h0)
          · exact hne (List.length_eq_zero_iff.1 h0)
          · rw [hl] at h0; cases h0), if_neg (by
          rintro (h0 | h0)
          · exact hne (List.length_eq_zero_iff.1 h0)
          · rw [hl] at h0; cases h0)]
        obtain ⟨vs, q1, q2, q3⟩ := getParameters_spec _ r _ (o1 r g)
        obtain ⟨vs', q1', q2', q3'⟩ := getParameters_spec _ r' _ (o1 r' g')
        have : vs = vs' := by
          have : vs.map some = vs'.map some := by
            rw [q3, q3']
            exact List.map_congr_left hgp
          exact (List.map_inj_right (fun _ _ h => Option.some.inj h)).1 this
        rw [q1, q1', this]
      · rfl

theorem Alongside.refl (pk : Str) (pArgs : List Str) (e : Str) (r : Rule) : Alongside pk pArgs e r r := .inr rfl

/-- What is left behind in the index, in terms of the texts. -/
theorem stageLeft_texts (N : Naming base rk pk rArgs pArgs) {root : Stage}
    (hleg : ∀ e ∈ (Stage.wayTexts root.children).flatten, Legible pk pArgs e)
    {E : Evaluator} {O : Str → Rule → EvalRes} {P H : Rule → Prop} {rules : List Rule}
    (hev : ∀ e ∈ (Stage.wayTexts root.children).flatten, ∀ r : Rule, r.length = pArgs.length → P r →
      (E.eval e r = .bool true ↔ O e r = .bool true))
    (hH : ∀ r, H r → GoodRule (declare pk pArgs) r ∧ P r) (hsub : ∀ r ∈ rules, H r)
    (hP0 : P (List.replicate pArgs.length [])) :
    StageLeft (declare pk pArgs) E H (· ∈ rules) root ↔
      LeftBehind pk pArgs O H rules (Stage.wayTexts root.children) := by
  have hargs := declare_args pk N.p.good
  have hblank : blankRule (declare pk pArgs) = List.replicate pArgs.length [] := by
    unfold blankRule; rw [hargs]
  have hlb : (List.replicate pArgs.length ([] : Str)).length = pArgs.length := by simp
  have hlen : ∀ r, H r → r.length = pArgs.length := fun r hr => by rw [(hH r hr).1.len, hargs]
  have hin : ∀ q ∈ Stage.routesC root.children, ∀ s ∈ q, s.expr ∈ (Stage.wayTexts root.children).flatten := by
    intro q hq s hs
    exact List.mem_flatten.2 ⟨_, List.mem_map_of_mem hq, List.mem_map_of_mem hs⟩
  unfold StageLeft LeftBehind
  rw [hblank]
  refine or_congr (and_congr_right (fun hno => ?_)) ?_
  · rw [← Stage.pathsAny_pos, Stage.pathsAny_routes, List.countP_pos_iff]
    constructor
    · rintro ⟨q, hq, h⟩
      refine ⟨exprs q, List.mem_map_of_mem hq, ?_⟩
      intro e he
      obtain ⟨s, hs, rfl⟩ := List.mem_map.1 he
      exact (hev _ (hin q hq s hs) _ hlb hP0).1 (of_decide_eq_true h s hs)
    · rintro ⟨way, hw, h⟩
      obtain ⟨q, hq, rfl⟩ := List.mem_map.1 hw
      refine ⟨q, hq, decide_eq_true ?_⟩
      intro s hs
      exact (hev _ (hin q hq s hs) _ hlb hP0).2 (h _ (List.mem_map_of_mem hs))
  · have core : ∀ (sway : List Stage) (slast : Stage), sway ++ [slast] ∈ Stage.routesC root.children → ∀ seen, H seen →
        (((∀ s ∈ sway, E.eval s.expr seen = .bool true) ∧ E.eval slast.expr (List.replicate pArgs.length []) = .bool true ∧
            ∀ r, r ∈ rules → ∃ s ∈ sway, stageKey (declare pk pArgs) s r ≠ stageKey (declare pk pArgs) s seen) ↔
          ((∀ e ∈ sway.map Stage.expr, O e seen = .bool true) ∧ O slast.expr (List.replicate pArgs.length []) = .bool true ∧
            ∀ r ∈ rules, ¬ ∀ e ∈ sway.map Stage.expr, Alongside pk pArgs e seen r)) := by
      intro sway slast hroute seen hseen
      have hinner := Stage.routesC_inner_way _ _ _ hroute
      simp only [List.mem_map, forall_exists_index, and_imp, forall_apply_eq_imp_iff₂]
      refine and_congr (forall_congr' (fun s => imp_congr_right (fun hs => ?_))) (and_congr ?_ ?_)
      · exact hev _ (hin _ hroute s (by simp [hs])) seen (hlen _ hseen) (hH _ hseen).2
      · exact hev _ (hin _ hroute slast (by simp)) _ hlb hP0
      · refine forall_congr' (fun r => imp_congr_right (fun hr => ?_))
        have : ∀ s ∈ sway, (stageKey (declare pk pArgs) s r = stageKey (declare pk pArgs) s seen ↔
            Alongside pk pArgs s.expr seen r) := by
          intro s hs
          rw [eq_comm]
          exact (hleg _ (hin _ hroute s (by simp [hs]))).stageKey_iff N (hinner s hs) (hH _ hseen).1 (hH _ (hsub r hr)).1
        constructor
        · rintro ⟨s, hs, hne⟩ hall
          exact hne ((this s hs).2 (hall s hs))
        · intro hno
          apply Classical.byContradiction
          intro hcon
          apply hno
          intro s hs
          apply (this s hs).1
          apply Classical.byContradiction
          intro hne
          exact hcon ⟨s, hs, hne⟩
    constructor
    · rintro ⟨sway, slast, hroute, seen, hseen, h⟩
      refine ⟨sway.map Stage.expr, slast.expr, ?_, seen, hseen, (core sway slast hroute seen hseen).1 (hblank ▸ h)⟩
      have : exprs (sway ++ [slast]) ∈ Stage.wayTexts root.children := List.mem_map_of_mem hroute
      simpa [exprs] using this
    · rintro ⟨way, last, hw, seen, hseen, h⟩
      obtain ⟨q, hq, e⟩ := List.mem_map.1 hw
      simp only [exprs] at e
      obtain ⟨sway, l2, rfl, rfl, h2⟩ := List.map_eq_append_iff.1 e
      obtain ⟨slast, rfl, rfl⟩ := List.map_eq_singleton_iff.1 h2
      have := (core sway slast hq seen hseen).2 h
      exact ⟨sway, slast, hq, seen, hseen, hblank ▸ this⟩

/-- The policy that a matcher made of legible texts names. -/
theorem policyKey_texts (N : Naming base rk pk rArgs pArgs) {root : Stage} (hroot : root.expr = [])
    (hleg : ∀ e ∈ Stage.textsIn root.children, Legible pk pArgs e)
    (huse : pk = s% "p" ∨ ∃ e ∈ Stage.textsIn root.children, ∃ y ∈ pArgs, Mentions pk e y) : root.policyKey = pk := by
  cases root with
  | mk e0 cs =>
    simp only [Stage.expr] at hroot
    subst hroot
    simp only [Stage.children] at hleg huse
    have hw0 : words ([] : Str) = [] := rfl
    obtain ⟨h1, -, h3⟩ := c70_policy_partial (Stage.mk [] cs) (by
      intro e he w hw
      rw [Stage.texts, List.mem_cons] at he
      rcases he with rfl | he
      · rw [hw0] at hw; cases hw
      · exact (hleg e he).inner w hw)
    have hrefs : ∀ w, w ∈ (Stage.mk [] cs).policyRefs → ∃ n, w = pk ++ '_' :: n := by
      intro w hw
      unfold Stage.policyRefs at hw
      obtain ⟨e, he, hw⟩ := List.mem_flatMap.1 hw
      obtain ⟨hw, hr⟩ := List.mem_filter.1 hw
      rw [Stage.texts, List.mem_cons] at he
      rcases he with rfl | he
      · rw [hw0] at hw; cases hw
      · obtain ⟨y, -, rfl⟩ := (hleg e he).known w hw (of_decide_eq_true hr)
        exact ⟨y, by simp [qual]⟩
    by_cases hne : (Stage.mk [] cs).policyRefs = []
    · rcases huse with rfl | ⟨e, he, y, hy, hm⟩
      · exact h1 hne
      · exfalso
        have : qual pk y ∈ (Stage.mk [] cs).policyRefs := by
          unfold Stage.policyRefs
          refine List.mem_flatMap.2 ⟨e, ?_, List.mem_filter.2 ⟨hm, decide_eq_true (N.isRef hy)⟩⟩
          rw [Stage.texts]; simp [he]
        rw [hne] at this
        cases this
    · exact h3 pk N.noUnder hne hrefs

end

namespace Model

/-- The matcher stored under `mk` and its index, whatever it says. -/
theorem seen_tree (build : Str → Res Stage) (hbin : ∀ e s, build e = .ok s → s.Binary)
    (rk mk pk : Str) (rArgs pArgs : List Str) (root : Stage) (hkey : root.policyKey = pk)
    (H : Rule → Prop) (m : Model) (h : Seen build mk root H m)
    (d : PolicyDef) (hp : m.pDefs.get pk = some d) (hpA : d.args = pArgs)
    (base : Str → Option Fn) (N : Naming base rk pk rArgs pArgs) :
    ∃ i mt rules, m.mMap.get mk = some (.live pk i) ∧ m.resolve (.live pk i) = some mt ∧
      mt.pDef = declare pk pArgs ∧ d = declare pk pArgs ∧ m.policyRules pk = some rules ∧
      (∀ r ∈ rules, H r) ∧ (∀ r, H r → GoodRule (declare pk pArgs) r) ∧ root.Binary ∧
      PolicyWithMatcher.Inv (declare pk pArgs) root ⟨Policy.ofRules rules, mt⟩ ∧ mt.Recalls H := by
  have hph : root.policyKey.head? = some 'p' := by
    rw [hkey]
    exact (h.bound.tied.1.made.wellKeyed.p pk d hp).1
  have hmade : Made build m := h.bound.tied.1.made
  obtain ⟨-, v, hv⟩ := hmade.wellKeyed.p pk d hp
  have hd : d = declare pk pArgs := by
    rw [hv]
    apply newPolicyDef_names _ N.p.good
    rw [← hpA, hv]
    rfl
  obtain ⟨i, mt, p, d', h1, h2, h3, h4, h5, h6, h7, hb, hinv⟩ := h.bound.inv hbin hph
  obtain ⟨p', i', mt', s1, s2, s3, s4, s5⟩ := h.remembers hbin hph
  have hgoodH := h.good hbin hph
  have hrulesH := h.rules
  rw [hkey] at h1 h2 h3 h4 h5 h6 s1 s2 hgoodH hrulesH
  rw [hp] at h5
  cases h5
  obtain rfl : p' = p := Option.some.inj (s2.symm.trans h3)
  obtain rfl : i' = i := by
    have := Option.some.inj (s1.symm.trans h1)
    cases this; rfl
  obtain rfl : mt' = mt := by
    have h2' := h2
    unfold resolve at h2'
    simp only [h3] at h2'
    exact Option.some.inj (s3.symm.trans h2')
  subst hd
  exact ⟨i', mt', p'.policy.rules, h1, h2, h7, rfl, h4, hrulesH p' h3, fun r hr => hgoodH r hr _ hp, hb, hinv, s5⟩

/-- What a matcher reports, whatever it says, and why it fails, for any outcome `O` of its conditions on the rules with
`P`. -/
theorem seen_texts (build : Str → Res Stage) (hbin : ∀ e s, build e = .ok s → s.Binary)
    (rk mk pk : Str) (rArgs pArgs : List Str) (root : Stage) (hroot : root.expr = [])
    (ways : List (List Str)) (hways : Stage.wayTexts root.children = ways)
    (P H : Rule → Prop) (m : Model) (h : Seen build mk root H m)
    (d : PolicyDef) (hp : m.pDefs.get pk = some d) (hpA : d.args = pArgs)
    (base : Str → Option Fn) (N : Naming base rk pk rArgs pArgs) (hkey : root.policyKey = pk)
    (hleg : ∀ e ∈ ways.flatten, Legible pk pArgs e)
    (E : Evaluator) (O : Str → Rule → EvalRes)
    (hev : ∀ e ∈ ways.flatten, ∀ r : Rule, r.length = pArgs.length → P r →
      (if E.compiles e then E.eval e r else .err) = O e r)
    (hown : ∀ e ∈ ways.flatten, ∀ r r' : Rule, r.length = pArgs.length → r'.length = pArgs.length →
      (∀ y ∈ pArgs, Mentions pk e y → attr pArgs r y = attr pArgs r' y) → O e r = O e r')
    (hHP : ∀ r, H r → P r) (hP0 : P (List.replicate pArgs.length []))
    (ord : Order) (hord : ord.Valid) :
    ∃ i mt rules, m.mMap.get mk = some (.live pk i) ∧ m.resolve (.live pk i) = some mt ∧
      mt.pDef = declare pk pArgs ∧ d = declare pk pArgs ∧ m.policyRules pk = some rules ∧
      (∀ r ∈ rules, H r) ∧ (∀ r, H r → r.length = pArgs.length) ∧
      (∀ row ∈ (filter mt E ord).1,
        (∃ r ∈ rules, (∃ way ∈ ways, ∀ e ∈ way, O e r = .bool true) ∧ row = pk :: r) ∨
        (LeftBehind pk pArgs O H rules ways ∧ row = pk :: List.replicate pArgs.length [])) ∧
      (Ev.fail ∈ mt.events E ord → ∃ e rest r, e :: rest ∈ ways ∧
        (H r ∨ r = List.replicate pArgs.length []) ∧ O e r = .err) ∧
      (Ev.panic ∈ mt.events E ord → ∃ e ∈ ways.flatten, ∃ r,
        (H r ∨ r = List.replicate pArgs.length []) ∧ O e r = .panic) ∧
      ((∀ e ∈ ways.flatten, ∀ r, (H r ∨ r = List.replicate pArgs.length []) → O e r ≠ .err ∧ O e r ≠ .panic) →
        (filter mt E ord).2 = .cont ∧
        ∃ n, (n ≠ 0 ↔ LeftBehind pk pArgs O H rules ways) ∧
          (filter mt E ord).1.Perm
            (rules.flatMap (fun r => List.replicate
                (ways.countP (fun way => decide (∀ e ∈ way, O e r = .bool true))) (pk :: r)) ++
              List.replicate n (pk :: List.replicate pArgs.length []))) := by
  subst hways
  obtain ⟨i, mt, rules, h1, h2, h3, h4, h5, hsub, hgood, hb, hinv, hrec⟩ := seen_tree build hbin rk mk pk rArgs pArgs root
    hkey H m h d hp hpA base N
  have hargs := declare_args pk N.p.good
  have hlen : ∀ r, H r → r.length = pArgs.length := fun r hr => by rw [(hgood r hr).len, hargs]
  have hblank : blankRule (declare pk pArgs) = List.replicate pArgs.length [] := by
    unfold blankRule; rw [hargs]
  have hlb : (List.replicate pArgs.length ([] : Str)).length = pArgs.length := by simp
  -- what the masked evaluator says
  have hmask : ∀ e ∈ (Stage.wayTexts root.children).flatten, ∀ r : Rule, r.length = pArgs.length → P r →
      (E.masked.eval e r = .bool true ↔ O e r = .bool true) := by
    intro e he r hl hP
    rw [← hev e he r hl hP]
    simp only [Evaluator.masked]
    cases hc : E.compiles e <;> simp
  have hmaskEq : ∀ e ∈ (Stage.wayTexts root.children).flatten, ∀ r : Rule, r.length = pArgs.length → P r →
      E.masked.eval e r = .bool (decide (O e r = .bool true)) := by
    intro e he r hl hP
    rw [← hev e he r hl hP]
    simp only [Evaluator.masked]
    cases hc : E.compiles e <;> simp
  have hsame : ∀ e ∈ (Stage.wayTexts root.children).flatten, ∀ r : Rule, (H r ∨ r = List.replicate pArgs.length []) →
      (if E.compiles e then E.eval e r else .err) = O e r := by
    intro e he r hr
    rcases hr with hr | rfl
    · exact hev e he r (hlen r hr) (hHP r hr)
    · exact hev e he _ hlb hP0
  obtain ⟨gc, n, gn, gp⟩ := filter_of_hist (declare pk pArgs) root ⟨Policy.ofRules rules, mt⟩ E.masked ord P H hinv hb hrec
    (fun r hr => ⟨hgood r hr, hHP r hr⟩) (by rw [Policy.rules_ofRules]; exact hsub)
    (by
      cases root with
      | mk e0 cs =>
        simp only [Stage.All]
        refine Stage.allIn_of_texts cs (fun e he ks => ?_)
        have he' := Stage.textsIn_ways he
        obtain ⟨o1, o2⟩ := (hleg e he').own N ks
        refine ⟨fun _ => ⟨o1, ?_⟩, rfl, fun r hg hP => ⟨by simp [Evaluator.masked], by simp [Evaluator.masked]⟩⟩
        intro r r' hg hg' hP hP' hag
        have hl : r.length = pArgs.length := by rw [hg.len, hargs]
        have hl' : r'.length = pArgs.length := by rw [hg'.len, hargs]
        show E.masked.eval e r = E.masked.eval e r'
        rw [hmaskEq e he' r hl hP, hmaskEq e he' r' hl' hP', hown e he' r r' hl hl' (o2 r r' hg hg' hag)])
    (by
      intro _
      cases root with
      | mk e0 cs =>
        simp only [Stage.All]
        refine Stage.allIn_of_texts cs (fun e he ks => ?_)
        exact ⟨rfl, by simp [Evaluator.masked], by simp [Evaluator.masked]⟩)
    hord
  rw [Policy.rules_ofRules] at gn gp
  have hleft := stageLeft_texts N hleg hmask (fun r hr => ⟨hgood r hr, hHP r hr⟩) hsub hP0
  replace gn := gn.trans hleft
  rw [hblank, declare_key] at gp
  have hcount : ∀ r ∈ rules, Stage.pathsAny E.masked r root.children =
      (Stage.wayTexts root.children).countP (fun way => decide (∀ e ∈ way, O e r = .bool true)) := by
    intro r hr
    rw [Stage.pathsAny_routes, Stage.wayTexts, List.countP_map]
    apply List.countP_congr
    intro q hq
    simp only [Function.comp, decide_eq_true_eq, exprs, List.mem_map, forall_exists_index, and_imp,
      forall_apply_eq_imp_iff₂]
    refine forall_congr' (fun s => imp_congr_right (fun hs => ?_))
    exact hmask _ (List.mem_flatten.2 ⟨exprs q, List.mem_map_of_mem hq, List.mem_map_of_mem hs⟩) r (hlen r (hsub r hr))
      (hHP r (hsub r hr))
  have hperm : (filter mt E.masked ord).1.Perm
      (rules.flatMap (fun r => List.replicate ((Stage.wayTexts root.children).countP
        (fun way => decide (∀ e ∈ way, O e r = .bool true))) (pk :: r)) ++
        List.replicate n (pk :: List.replicate pArgs.length [])) := by
    refine gp.trans (List.Perm.append_right _ (List.Perm.of_eq ?_))
    rw [List.flatMap_def, List.flatMap_def]
    congr 1
    apply List.map_congr_left
    intro r hr
    rw [hcount r hr]
  have hidx := hinv.idx
  have hexpr : mt.exprRoot = root := hinv.expr
  have hhist := hrec
  unfold Matcher.Recalls at hhist
  rw [h3, hexpr] at hhist
  have hG0 : (fun r => H r ∨ r = List.replicate pArgs.length []) (blankRule (declare pk pArgs)) := .inr hblank
  have hbin2 : Stage.All (fun st => st.children.length ≤ 2) root := hb.2
  simp only [Policy.rules_ofRules] at hidx
  obtain ⟨e0, cs⟩ := root
  simp only [Idx] at hidx
  simp only [Hist] at hhist
  simp only [Stage.All] at hbin2
  simp only [Stage.children] at *
  refine ⟨i, mt, rules, h1, h2, h3, h4, h5, hsub, hlen, ?_, ?_, ?_, ?_⟩
  · intro row hrow
    have := (filter_masked mt E ord).subset hrow
    rw [hperm.mem_iff, List.mem_append] at this
    rcases this with this | this
    · obtain ⟨r, q1, q2⟩ := List.mem_flatMap.1 this
      obtain ⟨q2, q3⟩ := List.mem_replicate.1 q2
      refine .inl ⟨r, q1, ?_, q3⟩
      rw [← Nat.pos_iff_ne_zero, List.countP_pos_iff] at q2
      simpa using q2
    · obtain ⟨q1, q2⟩ := List.mem_replicate.1 this
      exact .inr ⟨gn.1 q1, q2⟩
  · intro hfail
    apply Classical.byContradiction
    intro hno
    revert hfail
    unfold Matcher.events
    rw [h3, hexpr]
    unfold evStage
    refine evChildren_noFail (declare pk pArgs) E ord hord (fun r => H r ∨ r = List.replicate pArgs.length []) hG0 _ _ _ _
      _ _ hidx hhist (fun r hr => .inl (hsub r hr)) (fun r hr => .inl hr) (fun st hst => ?_)
    obtain ⟨q, hq⟩ := Stage.routesC_start _ st hst
    have hway : st.expr :: exprs q ∈ Stage.wayTexts cs := by
      have : exprs (st :: q) ∈ Stage.wayTexts cs := List.mem_map_of_mem hq
      simpa [exprs] using this
    have he : st.expr ∈ (Stage.wayTexts cs).flatten := List.mem_flatten.2 ⟨_, hway, by simp⟩
    have hc : E.compiles st.expr = true := by
      apply Classical.byContradiction
      intro hc
      have := hsame _ he _ (.inr rfl)
      rw [if_neg hc] at this
      exact hno ⟨_, _, _, hway, .inr rfl, this.symm⟩
    refine ⟨hc, fun r hr herr => hno ⟨_, _, r, hway, hr, ?_⟩⟩
    have := hsame _ he r hr
    rw [if_pos hc, herr] at this
    exact this.symm
  · intro hpan
    apply Classical.byContradiction
    intro hno
    revert hpan
    unfold Matcher.events
    rw [h3, hexpr]
    unfold evStage
    refine evChildren_sound (declare pk pArgs) E ord hord (fun r => H r ∨ r = List.replicate pArgs.length []) hG0 _ _ _ _
      _ _ hidx hhist (fun r hr => .inl (hsub r hr)) (fun r hr => .inl hr) (Stage.AllIn.and _ hbin2 ?_)
    refine Stage.allIn_of_texts cs (fun e he ks hc r hr herr => ?_)
    have := hsame _ (Stage.textsIn_ways he) r hr
    simp only [Stage.expr] at hc herr
    rw [if_pos hc, herr] at this
    exact hno ⟨e, Stage.textsIn_ways he, r, hr, this.symm⟩
  · intro hno
    have hevs : mt.events E ord = mt.events E.masked ord := by
      unfold Matcher.events
      rw [h3, hexpr]
      unfold evStage
      refine evChildren_mask (declare pk pArgs) E ord hord (fun r => H r ∨ r = List.replicate pArgs.length []) hG0 _ _ _ _
        _ _ hidx hhist (fun r hr => .inl (hsub r hr)) (fun r hr => .inl hr) (Stage.AllIn.and _ hbin2 ?_)
      refine Stage.allIn_of_texts cs (fun e he ks => ?_)
      have he' := Stage.textsIn_ways he
      have hc : E.compiles e = true := by
        apply Classical.byContradiction
        intro hc
        have := hsame _ he' _ (.inr rfl)
        rw [if_neg hc] at this
        exact (hno _ he' _ (.inr rfl)).1 this.symm
      refine ⟨hc, fun r hr => ?_⟩
      have := hsame _ he' r hr
      rw [if_pos hc] at this
      simp only [Stage.expr]
      rw [this]
      exact hno _ he' r hr
    have hsf : filter mt E ord = filter mt E.masked ord := by
      unfold filter
      rw [Matcher.rangeMatches_eq, Matcher.rangeMatches_eq, hevs]
    rw [hsf]
    exact ⟨gc, n, gn, hperm⟩

end Model

/-! ## What the conditions come to -/

section
variable {s : FnModel} {gov : Gov} {rk pk : Str} {rArgs pArgs rvals : List Str}

theorem attributes_get (N : Naming s.functions rk pk rArgs pArgs) (hr : rvals.length ≤ rArgs.length) {r : Rule}
    (hl : r.length = pArgs.length) (w : Str) :
    MatchParams.get ⟨declare pk pArgs, declare rk rArgs, rvals⟩ r w = attributes rk pk rArgs pArgs rvals r w := by
  unfold attributes
  cases hf : pArgs.find? (fun y => decide (qual pk y = w)) with
  | none =>
    simp only
    refine N.request hr r r (fun y hy e => ?_)
    have := List.find?_eq_none.1 hf y hy
    simp [e] at this
  | some y =>
    have he := List.find?_some hf
    simp only [decide_eq_true_eq] at he
    subst he
    simp only
    exact (get_p (ps := ⟨declare pk pArgs, declare rk rArgs, rvals⟩) (r := r) (N.pHead y)).trans
      (getParameter_attr pk N.p.good r hl y)

/-- A condition that does not call `eval`. -/
theorem FnModel.eval_comesTo (hsc : gov.Scoped) (N : Naming s.functions rk pk rArgs pArgs)
    (hr : rvals.length ≤ rArgs.length) {e : Str} (h1 : PlainText e) (h2 : s% "eval" ∉ words e) {depth : Nat}
    {r : Rule} (hl : r.length = pArgs.length) {E : Evaluator}
    (hE : E = gov.withEval depth s.functions (MatchParams.get ⟨declare pk pArgs, declare rk rArgs, rvals⟩)) :
    (if E.compiles e then E.eval e r else .err) = s.comesTo gov rk pk rArgs pArgs rvals e r := by
  have key : ∀ (fns : Str → Option Fn), (∀ w ∈ words e, fns w = s.functions w) →
      (gov fns (MatchParams.get ⟨declare pk pArgs, declare rk rArgs, rvals⟩)).compiles e =
        (gov s.functions (attributes rk pk rArgs pArgs rvals)).compiles e ∧
      (gov fns (MatchParams.get ⟨declare pk pArgs, declare rk rArgs, rvals⟩)).eval e r =
        (gov s.functions (attributes rk pk rArgs pArgs rvals)).eval e r := by
    intro fns hfns
    obtain ⟨c1, c2⟩ := hsc fns s.functions (MatchParams.get ⟨declare pk pArgs, declare rk rArgs, rvals⟩)
      (attributes rk pk rArgs pArgs rvals) e h1 hfns
    exact ⟨c1, c2 r r (fun w _ => attributes_get N hr hl w)⟩
  have hne : ∀ (fn : Fn), ∀ w ∈ words e, withFn s.functions (s% "eval") fn w = s.functions w := by
    intro fn w hw
    apply withFn_ne
    rintro rfl
    exact h2 hw
  have k1 : E.compiles e = (gov s.functions (attributes rk pk rArgs pArgs rvals)).compiles e := by subst hE; exact (key _ (hne _)).1
  have k2 : E.eval e r = (gov s.functions (attributes rk pk rArgs pArgs rvals)).eval e r := by subst hE; exact (key _ (hne _)).2
  unfold FnModel.comesTo
  rw [k1, k2]

theorem attributes_own {e : Str} {r r' : Rule}
    (h : ∀ y ∈ pArgs, Mentions pk e y → attr pArgs r y = attr pArgs r' y) : ∀ w ∈ words e,
    attributes rk pk rArgs pArgs rvals r w = attributes rk pk rArgs pArgs rvals r' w := by
  intro w hw
  unfold attributes
  cases hf : pArgs.find? (fun y => decide (qual pk y = w)) with
  | none => rfl
  | some y =>
    have he := List.find?_some hf
    simp only [decide_eq_true_eq] at he
    subst he
    exact h y (List.mem_of_find?_eq_some hf) hw

namespace FnModel

variable {P : Rule → Prop} {O : Str → Rule → EvalRes} {e : Str}

theorem Explains.legible (N : Naming s.functions rk pk rArgs pArgs)
    (h : s.Explains gov rk pk rArgs pArgs rvals P O e) : Legible pk pArgs e := by
  rcases h with ⟨-, h, -, -⟩ | ⟨a, ha, ⟨ts, h1, rfl⟩, -⟩
  · exact h
  · have hfull : a.Full := by
      have := ha.1
      cases a with
      | eq a b => trivial
      | call g args => exact this.1
    rw [Atom.operand_eq] at h1
    cases h1
    rw [Atom.expr_eq rk pk hfull]
    refine ⟨fun w hw hr => ?_, Atom.inner N ha.1⟩
    obtain ⟨y, rfl, hy, -⟩ := (Atom.policyRef N ha.1 w).1 ⟨hw, hr⟩
    exact ⟨y, hy, rfl⟩

theorem Explains.eval (hgov : gov.Ok) (hsc : gov.Scoped) (N : Naming s.functions rk pk rArgs pArgs)
    (hr : rvals.length ≤ rArgs.length) (h : s.Explains gov rk pk rArgs pArgs rvals P O e) {depth : Nat} (hd : 0 < depth)
    {E : Evaluator}
    (hE : E = gov.withEval depth s.functions (MatchParams.get ⟨declare pk pArgs, declare rk rArgs, rvals⟩))
    {r : Rule} (hl : r.length = pArgs.length) (hP : P r) :
    (if E.compiles e then E.eval e r else .err) = O e r := by
  rcases h with ⟨h1, -, h3, h4⟩ | ⟨a, ha, ⟨ts, h1, rfl⟩, h4⟩
  · rw [h4]
    exact eval_comesTo hsc N hr h1 h3 hl hE
  · have hfull : a.Full := by
      have := ha.1
      cases a with
      | eq a b => trivial
      | call g args => exact this.1
    rw [Atom.operand_eq] at h1
    cases h1
    rw [h4, Atom.expr_eq rk pk hfull]
    obtain ⟨c1, c2⟩ := Atom.eval_outcome hgov hsc N hr ha hd hE
    rw [if_pos c1]
    exact c2 r hl hP

theorem Explains.own (hsc : gov.Scoped) (N : Naming s.functions rk pk rArgs pArgs)
    (h : s.Explains gov rk pk rArgs pArgs rvals P O e) {r r' : Rule}
    (hag : ∀ y ∈ pArgs, Mentions pk e y → attr pArgs r y = attr pArgs r' y) : O e r = O e r' := by
  rcases h with ⟨h1, -, -, h4⟩ | ⟨a, ha, ⟨ts, h1, rfl⟩, h4⟩
  · rw [h4, h4]
    unfold FnModel.comesTo
    rw [(hsc s.functions s.functions (attributes rk pk rArgs pArgs rvals) (attributes rk pk rArgs pArgs rvals) e h1
      (fun _ _ => rfl)).2 r r' (attributes_own hag)]
  · have hfull : a.Full := by
      have := ha.1
      cases a with
      | eq a b => trivial
      | call g args => exact this.1
    rw [Atom.operand_eq] at h1
    cases h1
    rw [Atom.expr_eq rk pk hfull] at hag
    rw [h4, h4]
    apply Atom.outcome_own
    intro y hy
    have hyA := (Atom.words_text N ha.1).1 _ hy
    exact hag y hyA ((Atom.policyRef N ha.1 _).2 ⟨y, rfl, hyA, hy⟩).1

end FnModel

end

end Fastac
