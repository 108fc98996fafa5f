import Verif.Spec.Justified
import Verif.Lemmas.Filter

/-!
# Traversals in which conditions fail
-/

namespace Fastac

/-! ## Conditions that fail, taken as false -/

/-- The evaluator that says false instead of failing. -/
def Evaluator.masked (E : Evaluator) : Evaluator :=
  { compiles := fun _ => true
    eval := fun e r => .bool (E.compiles e && decide (E.eval e r = .bool true)) }

/-- The first traversal goes the same way as the second, as far as it gets. -/
def Cut (a b : List Ev) : Prop :=
  (endStatus a = .cont → visits a = visits b ∧ endStatus b = .cont) ∧ visits a <+: visits b

theorem Cut.nil : Cut [] [] := ⟨fun _ => ⟨rfl, rfl⟩, List.prefix_rfl⟩

theorem Cut.fail (b : List Ev) : Cut [.fail] b := ⟨fun h => by simp [endStatus] at h, by simp [visits]⟩

theorem Cut.panic (b : List Ev) : Cut [.panic] b := ⟨fun h => by simp [endStatus] at h, by simp [visits]⟩

theorem visits_prefix_append (a b : List Ev) : visits a <+: visits (a ++ b) := by
  rw [visits_append]
  split
  · exact List.prefix_append _ _
  · exact List.prefix_rfl

theorem Cut.append {a b c d : List Ev} (h : Cut a b) (h' : Cut c d) : Cut (a ++ c) (b ++ d) := by
  by_cases ha : endStatus a = .cont
  · obtain ⟨h1, h2⟩ := h.1 ha
    constructor
    · intro hc
      rw [endStatus_append, if_pos ha] at hc
      obtain ⟨h3, h4⟩ := h'.1 hc
      rw [visits_append, if_pos ha, visits_append, if_pos h2, endStatus_append, if_pos h2, h1, h3]
      exact ⟨rfl, h4⟩
    · rw [visits_append, if_pos ha, visits_append, if_pos h2, h1]
      exact List.prefix_append_right_inj _ |>.2 h'.2
  · constructor
    · intro hc
      rw [endStatus_append, if_neg ha] at hc
      exact absurd hc ha
    · rw [visits_append, if_neg ha]
      exact h.2.trans (visits_prefix_append b d)

theorem visits_demote (a : List Ev) : visits (a.map demote) = visits a := by
  induction a with
  | nil => rfl
  | cons e a ih => cases e <;> simp [visits, demote, ih]

theorem Cut.demote {a b : List Ev} (h : Cut a b) : Cut (a.map demote) (b.map demote) := by
  unfold Cut
  rw [endStatus_demote, endStatus_demote, visits_demote, visits_demote]
  exact h

theorem evEntries_cut (E : Evaluator) (e : Str) (hc : E.compiles e = true) (cb cb' : Str → Node → List Ev)
    (h : ∀ k c, Cut (cb k c) (cb' k c)) : ∀ es : GoMap Str Node,
    Cut (evEntries E e cb es) (evEntries E.masked e cb' es)
  | [] => Cut.nil
  | (k, c) :: es => by
    unfold evEntries
    have hm : E.masked.eval e c.rule = .bool (decide (E.eval e c.rule = .bool true)) := by
      simp [Evaluator.masked, hc]
    rw [hm]
    cases hE : E.eval e c.rule with
    | err => exact Cut.fail _
    | panic => exact Cut.panic _
    | other => exact evEntries_cut E e hc cb cb' h es
    | bool b =>
      cases b with
      | false => exact evEntries_cut E e hc cb cb' h es
      | true => exact (h k c).demote.append (evEntries_cut E e hc cb cb' h es)

mutual
theorem evStage_cut (E : Evaluator) (nargs : Nat) (ord : Order) : ∀ (st : Stage) (path : List (Nat × Str)) (n : Node),
    Cut (evStage E nargs ord st path n) (evStage E.masked nargs ord st path n)
  | .mk e cs, path, n => by
    unfold evStage
    exact evChildren_cut E nargs ord cs 0 path n
theorem evChildren_cut (E : Evaluator) (nargs : Nat) (ord : Order) : ∀ (cs : List Stage) (i : Nat)
    (path : List (Nat × Str)) (n : Node), Cut (evChildren E nargs ord cs i path n) (evChildren E.masked nargs ord cs i path n)
  | [], _, _, _ => by
    unfold evChildren
    exact Cut.nil
  | st :: rest, i, path, n => by
    unfold evChildren
    cases hm : n.children[i]? with
    | none => exact Cut.panic _
    | some m =>
      simp only
      by_cases hc : E.compiles st.expr = false
      · rw [if_pos hc]
        exact Cut.fail _
      · have hc' : E.compiles st.expr = true := by simpa using hc
        rw [if_neg hc, if_neg (by simp [Evaluator.masked])]
        refine Cut.append (evEntries_cut E _ hc' _ _ (fun k c => ?_) _) (evChildren_cut E nargs ord rest (i + 1) path n)
        refine Cut.append ?_ (evStage_cut E nargs ord st (path ++ [(i, k)]) c)
        split
        · exact ⟨fun _ => ⟨rfl, rfl⟩, List.prefix_rfl⟩
        · exact Cut.nil
end

/-- What is reported although conditions fail would be reported as well if they were false. -/
theorem filter_masked (mt : Matcher) (E : Evaluator) (ord : Order) :
    (filter mt E ord).1 <+: (filter mt E.masked ord).1 := by
  rw [filter_eq, filter_eq]
  obtain ⟨t, h⟩ := (evStage_cut E mt.pDef.args.length ord mt.exprRoot [] mt.root).2
  refine ⟨t.map (mt.pDef.key :: ·), ?_⟩
  rw [← List.map_append]
  exact congrArg _ h

/-! ## Which conditions are responsible -/

theorem consume_err {σ : Type} {fn : σ → Rule → σ × Bool} : ∀ {es : List Ev} {s : σ},
    (consume fn es s).2 = .err → Ev.fail ∈ es
  | [], s, h => by simp [consume] at h
  | .visit r :: es, s, h => by
    simp only [consume] at h
    split at h
    · exact List.mem_cons_of_mem _ (consume_err h)
    · cases h
  | .halt :: es, s, h => by simp [consume] at h
  | .fail :: es, s, _ => by simp
  | .panic :: es, s, h => by simp [consume] at h

theorem consume_panics {σ : Type} {fn : σ → Rule → σ × Bool} : ∀ {es : List Ev} {s : σ},
    (consume fn es s).2 = .panic → Ev.panic ∈ es
  | [], s, h => by simp [consume] at h
  | .visit r :: es, s, h => by
    simp only [consume] at h
    split at h
    · exact List.mem_cons_of_mem _ (consume_panics h)
    · cases h
  | .halt :: es, s, h => by simp [consume] at h
  | .fail :: es, s, h => by simp [consume] at h
  | .panic :: es, s, _ => by simp

theorem enforce_err {mt : Matcher} {pDef : PolicyDef} {E : Evaluator} {ord : Order} {eff : Str}
    (h : enforce mt pDef E ord eff = .err) : Ev.fail ∈ mt.events E ord := by
  unfold enforce at h
  rw [Matcher.rangeMatches_eq] at h
  rcases hc : consume (fun s rule => enforceVisit pDef eff s (mt.pDef.key :: rule)) (mt.events E ord) EnfState.init with ⟨s, x⟩
  rw [hc] at h
  have hx : x = .err := by
    cases x with
    | err => rfl
    | panic => simp [enforceFinish] at h
    | cont => simp only [enforceFinish] at h; split at h <;> cases h
    | stop => simp only [enforceFinish] at h; split at h <;> cases h
  exact consume_err (by rw [hc]; exact hx)

theorem enforce_panic {mt : Matcher} {pDef : PolicyDef} {E : Evaluator} {ord : Order} {eff : Str}
    (h : enforce mt pDef E ord eff = .panic) : Ev.panic ∈ mt.events E ord := by
  unfold enforce at h
  rw [Matcher.rangeMatches_eq] at h
  rcases hc : consume (fun s rule => enforceVisit pDef eff s (mt.pDef.key :: rule)) (mt.events E ord) EnfState.init with ⟨s, x⟩
  rw [hc] at h
  have hx : x = .panic := by
    cases x with
    | panic => rfl
    | err => simp [enforceFinish] at h
    | cont => simp only [enforceFinish] at h; split at h <;> cases h
    | stop => simp only [enforceFinish] at h; split at h <;> cases h
  exact consume_panics (by rw [hc]; exact hx)

theorem evEntries_sound {E : Evaluator} {e : Str} {cb : Str → Node → List Ev} : ∀ {es : GoMap Str Node},
    (∀ x ∈ es, E.eval e x.2.rule ≠ .panic ∧ Ev.panic ∉ cb x.1 x.2) → Ev.panic ∉ evEntries E e cb es
  | [], _ => by simp [evEntries]
  | (k, c) :: es, h => by
    obtain ⟨h1, h2⟩ := h (k, c) (by simp)
    have ih := evEntries_sound (es := es) (cb := cb) (fun x hx => h x (by simp [hx]))
    have h3 : Ev.panic ∉ (cb k c).map demote := by
      intro hm
      obtain ⟨y, hy, e⟩ := List.mem_map.1 hm
      cases y <;> simp [demote] at e
      exact h2 hy
    unfold evEntries
    split
    · simp
    · rename_i hp; exact absurd hp h1
    · exact ih
    · exact ih
    · simp only [List.mem_append, not_or]
      exact ⟨h3, ih⟩

theorem evEntries_noFail {E : Evaluator} {e : Str} {cb : Str → Node → List Ev} : ∀ {es : GoMap Str Node},
    (∀ x ∈ es, E.eval e x.2.rule ≠ .err) → Ev.fail ∉ evEntries E e cb es
  | [], _ => by simp [evEntries]
  | (k, c) :: es, h => by
    have h1 := h (k, c) (by simp)
    have ih := evEntries_noFail (es := es) (cb := cb) (fun x hx => h x (by simp [hx]))
    have h3 : Ev.fail ∉ (cb k c).map demote := by
      intro hm
      obtain ⟨y, -, e⟩ := List.mem_map.1 hm
      cases y <;> simp [demote] at e
    unfold evEntries
    split
    · rename_i hp; exact absurd hp h1
    · simp
    · exact ih
    · exact ih
    · simp only [List.mem_append, not_or]
      exact ⟨h3, ih⟩

/-- The rules on which the condition of a stage is tried. -/
theorem entries_tried {pDef : PolicyDef} {ord : Order} (hv : ord.Valid) {st : Stage} {i : Nat} {path : List (Nat × Str)}
    {R H G : Rule → Prop} (hG0 : G (blankRule pDef)) (hR : ∀ r, R r → G r) (hH : ∀ r, H r → G r) {m : GoMap Str Node}
    (hwf : GoMap.WF m)
    (hent : ∀ k c, GoMap.get m k = some c → GoodRule pDef c.rule ∧ stageKey pDef st c.rule = k ∧
      (st.isLeaf = true → R c.rule) ∧ Idx pDef st c (fun r => R r ∧ stageKey pDef st r = k))
    (hin : st.isLeaf = false → (∀ r, H r → (GoMap.get m (stageKey pDef st r)).isSome) ∧
      ∀ k c, GoMap.get m k = some c → H c.rule ∧ Hist pDef st c (fun r => H r ∧ stageKey pDef st r = k))
    {x : Str × Node} (hx : x ∈ entriesOf pDef.args.length ord path i m) :
    G x.2.rule ∧ (x.2 = newNode (blankRule pDef) ∨ GoMap.get m x.1 = some x.2) := by
  unfold entriesOf at hx
  split at hx
  · rw [List.mem_singleton] at hx
    subst hx
    exact ⟨hG0, .inl rfl⟩
  · have hg : GoMap.get m x.1 = some x.2 := by
      have := (hv path i m).mem_iff.1 hx
      exact hwf.get_of_mem this
    refine ⟨?_, .inr hg⟩
    cases hl : st.isLeaf with
    | true => exact hR _ ((hent _ _ hg).2.2.1 hl)
    | false => exact hH _ ((hin hl).2 _ _ hg).1

mutual
theorem evStage_sound (pDef : PolicyDef) (E : Evaluator) (ord : Order) (hv : ord.Valid) (G : Rule → Prop)
    (hG0 : G (blankRule pDef)) : ∀ (st : Stage) (path : List (Nat × Str)) (n : Node) (R H : Rule → Prop),
    Idx pDef st n R → Hist pDef st n H → (∀ r, R r → G r) → (∀ r, H r → G r) →
    st.All (fun s => s.children.length ≤ 2 ∧ (E.compiles s.expr = true → ∀ r, G r → E.eval s.expr r ≠ .panic)) →
    Ev.panic ∉ evStage E pDef.args.length ord st path n
  | .mk e cs, path, n, R, H, hI, hF, hR, hH, hA => by
    unfold evStage
    simp only [Idx] at hI
    simp only [Hist] at hF
    simp only [Stage.All] at hA
    exact evChildren_sound pDef E ord hv G hG0 cs 0 path n R H hI hF hR hH hA
theorem evChildren_sound (pDef : PolicyDef) (E : Evaluator) (ord : Order) (hv : ord.Valid) (G : Rule → Prop)
    (hG0 : G (blankRule pDef)) : ∀ (cs : List Stage) (i : Nat) (path : List (Nat × Str)) (n : Node) (R H : Rule → Prop),
    IdxC pDef cs i n R → HistC pDef cs i n H → (∀ r, R r → G r) → (∀ r, H r → G r) →
    Stage.AllIn (fun s => s.children.length ≤ 2 ∧ (E.compiles s.expr = true → ∀ r, G r → E.eval s.expr r ≠ .panic)) cs →
    Ev.panic ∉ evChildren E pDef.args.length ord cs i path n
  | [], _, _, _, _, _, _, _, _, _, _ => by simp [evChildren]
  | st :: rest, i, path, n, R, H, hI, hF, hR, hH, hA => by
    simp only [IdxC] at hI
    simp only [HistC] at hF
    simp only [Stage.AllIn] at hA
    obtain ⟨⟨m, hm, hwf, -, hent⟩, hrest⟩ := hI
    obtain ⟨⟨m2, hm2, hin⟩, hfrest⟩ := hF
    obtain rfl : m2 = m := Option.some.inj (hm2.symm.trans hm)
    unfold evChildren
    rw [hm]
    simp only
    split
    · simp
    · rename_i hcomp
      rw [List.mem_append, not_or]
      refine ⟨evEntries_sound (fun x hx => ?_), evChildren_sound pDef E ord hv G hG0 rest (i + 1) path n R H hrest
        hfrest hR hH hA.2⟩
      obtain ⟨g1, g2⟩ := entries_tried hv hG0 hR hH hwf hent hin hx
      refine ⟨hA.1.1.2 (by simpa using hcomp) _ g1, ?_⟩
      rw [List.mem_append, not_or]
      refine ⟨by split <;> simp, ?_⟩
      rcases g2 with g2 | g2
      · rw [g2]
        exact evStage_sound pDef E ord hv G hG0 st _ _ (fun _ => False) (fun _ => False)
          (Idx_new pDef _ st hA.1.1.1) (newNode_hist pDef _ (fun _ h => h) hA.1.1.1) (fun _ h => h.elim)
          (fun _ h => h.elim) hA.1.2
      · cases hl : st.isLeaf with
        | true =>
          cases st with
          | mk e cs =>
            have : cs = [] := by simpa [Stage.isLeaf, Stage.children] using hl
            subst this
            simp [evStage, evChildren]
        | false =>
          exact evStage_sound pDef E ord hv G hG0 st _ _ _ _ (hent _ _ g2).2.2.2 ((hin hl).2 _ _ g2).2
            (fun r h => hR r h.1) (fun r h => hH r h.1) hA.1.2
end

theorem evChildren_noFail (pDef : PolicyDef) (E : Evaluator) (ord : Order) (hv : ord.Valid) (G : Rule → Prop)
    (hG0 : G (blankRule pDef)) : ∀ (cs : List Stage) (i : Nat) (path : List (Nat × Str)) (n : Node) (R H : Rule → Prop),
    IdxC pDef cs i n R → HistC pDef cs i n H → (∀ r, R r → G r) → (∀ r, H r → G r) →
    (∀ s ∈ cs, E.compiles s.expr = true ∧ ∀ r, G r → E.eval s.expr r ≠ .err) →
    Ev.fail ∉ evChildren E pDef.args.length ord cs i path n
  | [], _, _, _, _, _, _, _, _, _, _ => by simp [evChildren]
  | st :: rest, i, path, n, R, H, hI, hF, hR, hH, hA => by
    simp only [IdxC] at hI
    simp only [HistC] at hF
    obtain ⟨⟨m, hm, hwf, -, hent⟩, hrest⟩ := hI
    obtain ⟨⟨m2, hm2, hin⟩, hfrest⟩ := hF
    obtain rfl : m2 = m := Option.some.inj (hm2.symm.trans hm)
    obtain ⟨hc, he⟩ := hA st (by simp)
    unfold evChildren
    rw [hm]
    simp only [hc, Bool.true_eq_false, if_false]
    rw [List.mem_append, not_or]
    refine ⟨evEntries_noFail (fun x hx => ?_), evChildren_noFail pDef E ord hv G hG0 rest (i + 1) path n R H hrest
      hfrest hR hH (fun s hs => hA s (by simp [hs]))⟩
    exact he _ (entries_tried hv hG0 hR hH hwf hent hin hx).1

/-! ## Atoms -/

theorem Atom.outcome_congr {val val' : Ref → Option Str} {fn : Str → List Str → EvalRes} (a : Atom)
    (h : ∀ b ∈ a.refs, val b = val' b) : a.outcome val fn = a.outcome val' fn := by
  cases a with
  | eq a b => simp only [Atom.outcome, h a (by simp [Atom.refs]), h b (by simp [Atom.refs])]
  | call f args => simp only [Atom.outcome, mapM_congr' args h]

theorem Atom.outcome_own {rArgs pArgs rvals : List Str} {fn : Str → List Str → EvalRes} (a : Atom) {r r' : Rule}
    (h : ∀ y, Ref.pol y ∈ a.refs → attr pArgs r y = attr pArgs r' y) :
    a.outcome (Ref.val rArgs pArgs rvals r) fn = a.outcome (Ref.val rArgs pArgs rvals r') fn := by
  apply Atom.outcome_congr
  intro c hc
  cases c with
  | req x => rfl
  | pol y => exact h y hc
  | lit s => rfl

/-- What govaluate makes of an atom. -/
theorem Atom.eval_outcome {s : FnModel} {gov : Gov} (hg : gov.Ok) (hsc : gov.Scoped) {rk pk : Str}
    {rArgs pArgs rvals : List Str} (N : Naming s.functions rk pk rArgs pArgs) (hr : rvals.length ≤ rArgs.length)
    {P : Rule → Prop} {a : Atom} (h : a.ReadsNow s pk rArgs pArgs rvals P) {depth : Nat} (hd : 0 < depth) {E : Evaluator}
    (hE : E = gov.withEval depth s.functions (MatchParams.get ⟨declare pk pArgs, declare rk rArgs, rvals⟩)) :
    E.compiles (a.text rk pk) = true ∧
    ∀ r : Rule, r.length = pArgs.length → P r →
      E.eval (a.text rk pk) r = a.outcome (Ref.val rArgs pArgs rvals r) (s.answers gov rk rArgs rvals) := by
  obtain ⟨n, rfl⟩ : ∃ n, depth = n + 1 := ⟨depth - 1, by omega⟩
  subst hE
  simp only [Gov.withEval]
  have hn : ∀ (r : Rule) (b : Ref), b.Known rArgs pArgs → (b.term rk pk).Ok (withFn s.functions (s% "eval") (evalFn gov
      s.functions (MatchParams.get ⟨declare pk pArgs, declare rk rArgs, rvals⟩) r (n + 1))) := by
    intro r b hb
    have hne := N.not_eval b
    cases b with
    | req x => exact ⟨N.r.ident x hb, (withFn_ne hne).trans (N.r.free x hb)⟩
    | pol y => exact ⟨N.p.ident y hb, (withFn_ne hne).trans (N.p.free y hb)⟩
    | lit t => exact hb.1
  cases a with
  | eq a b =>
    obtain ⟨⟨h1, h2⟩, -⟩ := h
    have key : ∀ r, _ := fun r => hg.eqT _ (MatchParams.get ⟨declare pk pArgs, declare rk rArgs, rvals⟩) _ _
      (hn r a h1) (hn r b h2)
    simp only [Ref.term_text] at key
    refine ⟨(key []).1, fun r hl _ => ?_⟩
    rw [Atom.text, (key r).2 r, N.get hr hl, N.get hr hl]
    rfl
  | call f args =>
    obtain ⟨⟨h1, h2, h3, -⟩, h5⟩ := h
    have h6 := h5 f args rfl
    have hfn : ∀ r, ∃ fn, withFn s.functions (s% "eval") (evalFn gov s.functions
        (MatchParams.get ⟨declare pk pArgs, declare rk rArgs, rvals⟩) r (n + 1)) f = some fn := by
      intro r
      by_cases hf : f = s% "eval"
      · subst hf; exact ⟨_, withFn_self⟩
      · rw [if_neg hf] at h6
        obtain ⟨fn, h6⟩ := h6
        exact ⟨fn, (withFn_ne hf).trans h6⟩
    have key : ∀ r fn, withFn s.functions (s% "eval") (evalFn gov s.functions
        (MatchParams.get ⟨declare pk pArgs, declare rk rArgs, rvals⟩) r (n + 1)) f = some fn → _ := fun r fn hfn =>
      hg.callT _ (MatchParams.get ⟨declare pk pArgs, declare rk rArgs, rvals⟩) f fn (args.map (Ref.term rk pk)) h3 hfn
        (by simpa using h1) (by
          intro y hy
          obtain ⟨b, hb, rfl⟩ := List.mem_map.1 hy
          exact hn r b (h2 b hb))
    simp only [Ref.names_eq] at key
    refine ⟨?_, fun r hl hP => ?_⟩
    · obtain ⟨fn, hfn⟩ := hfn []
      exact (key [] fn hfn).1
    · obtain ⟨fn, hfn⟩ := hfn r
      have hmap : (args.map (Ref.term rk pk)).mapM (fun a => a.val (MatchParams.get ⟨declare pk pArgs, declare rk rArgs,
          rvals⟩ r)) = args.mapM (Ref.val rArgs pArgs rvals r) := by
        rw [mapM_map']
        exact mapM_congr' args (fun a _ => N.get hr hl a)
      rw [Atom.text, (key r fn hfn).2 r, hmap, Atom.outcome]
      cases hv : args.mapM (Ref.val rArgs pArgs rvals r) with
      | none => rfl
      | some vs =>
        simp only
        unfold FnModel.answers
        by_cases hf : f = s% "eval"
        · subst hf
          rw [withFn_self] at hfn
          cases hfn
          rw [if_pos rfl] at h6
          obtain ⟨x, rfl, hx⟩ := h6
          rw [if_pos rfl]
          cases hxv : x.val rArgs pArgs rvals r with
          | none => simp [hxv] at hv
          | some text =>
            obtain ⟨p1, p2, p3⟩ := hx r hP hl text hxv
            have : vs = [text] := by simpa [hxv] using hv.symm
            subst this
            obtain ⟨e1, e2⟩ := hsc (withFn s.functions (s% "eval") (evalFn gov s.functions
                (MatchParams.get ⟨declare pk pArgs, declare rk rArgs, rvals⟩) r n)) s.functions
              (MatchParams.get ⟨declare pk pArgs, declare rk rArgs, rvals⟩)
              (requestPar rk rArgs rvals) (replaceArgs text) p1 (by
                intro w hw
                apply withFn_ne
                rintro rfl
                exact p2 hw)
            simp only [evalFn]
            rw [e1, e2 r [] (by
              intro w hw
              apply N.request hr r []
              intro y hy e
              rw [← e] at hw
              exact p3 y hy hw)]
        · rw [if_neg hf]
          rw [withFn_ne hf] at hfn
          rw [hfn]

/-! ## The whole matcher -/

mutual
theorem Stage.All.and {P Q : Stage → Prop} : ∀ st : Stage, st.All P → st.All Q → st.All (fun s => P s ∧ Q s)
  | .mk e cs, h, h' => by
    simp only [Stage.All] at h h' ⊢
    exact Stage.AllIn.and cs h h'
theorem Stage.AllIn.and {P Q : Stage → Prop} : ∀ cs : List Stage, Stage.AllIn P cs → Stage.AllIn Q cs →
    Stage.AllIn (fun s => P s ∧ Q s) cs
  | [], _, _ => by simp [Stage.AllIn]
  | c :: cs, h, h' => by
    simp only [Stage.AllIn] at h h' ⊢
    exact ⟨⟨⟨h.1.1, h'.1.1⟩, Stage.All.and c h.1.2 h'.1.2⟩, Stage.AllIn.and cs h.2 h'.2⟩
end

mutual
theorem Stage.routes_start : ∀ st : Stage, ∃ q, st :: q ∈ st.routes
  | .mk e [] => ⟨[], by simp [Stage.routes]⟩
  | .mk e (c :: cs) => by
    obtain ⟨q, h⟩ := Stage.routesC_start (c :: cs) c (by simp)
    exact ⟨c :: q, by simpa [Stage.routes] using h⟩
theorem Stage.routesC_start : ∀ (cs : List Stage), ∀ st ∈ cs, ∃ q, st :: q ∈ Stage.routesC cs
  | c :: cs, st, h => by
    rw [Stage.routesC]
    rcases List.mem_cons.1 h with e | h
    · obtain ⟨q, hq⟩ := Stage.routes_start c
      rw [e]
      exact ⟨q, List.mem_append_left _ hq⟩
    · obtain ⟨q, hq⟩ := Stage.routesC_start cs st h
      exact ⟨q, List.mem_append_right _ hq⟩
end

/-- The first stages are the first atoms of the ways. -/
theorem Cond.first_trD {rk pk : Str} {f : List (List Cond)} (hw : Formula.wf (Cond.formula rk pk f) = true) {st : Stage}
    (h : st ∈ Operand.trD (Cond.formula rk pk f) []) :
    ∃ a rest, a :: rest ∈ Cond.anyWays f ∧ st.expr = tokensToExpr (a.toks rk pk) := by
  have hw' := hw
  simp only [Formula.wf, Bool.and_eq_true] at hw'
  have hroutes := Cond.routes_trD rk pk f [] hw'.2
  simp only [Stage.tailsC, List.isEmpty_nil, if_true, List.map_cons, List.map_nil, List.append_nil] at hroutes
  obtain ⟨q, hq⟩ := Stage.routesC_start _ st h
  have hm : exprs (st :: q) ∈ (Stage.routesC (Operand.trD (Cond.formula rk pk f) [])).map exprs := List.mem_map_of_mem hq
  rw [hroutes, List.mem_flatMap] at hm
  obtain ⟨w, hw1, hw2⟩ := hm
  have hw2 := List.mem_singleton.1 hw2
  cases w with
  | nil => simp [exprs] at hw2
  | cons a rest =>
    refine ⟨a, rest, hw1, ?_⟩
    simp only [exprs, List.map_cons, List.cons.injEq] at hw2
    exact hw2.1

mutual
theorem evStage_mask (pDef : PolicyDef) (E : Evaluator) (ord : Order) (hv : ord.Valid) (G : Rule → Prop)
    (hG0 : G (blankRule pDef)) : ∀ (st : Stage) (path : List (Nat × Str)) (n : Node) (R H : Rule → Prop),
    Idx pDef st n R → Hist pDef st n H → (∀ r, R r → G r) → (∀ r, H r → G r) →
    st.All (fun s => s.children.length ≤ 2 ∧ E.compiles s.expr = true ∧
      ∀ r, G r → E.eval s.expr r ≠ .err ∧ E.eval s.expr r ≠ .panic) →
    evStage E pDef.args.length ord st path n = evStage E.masked pDef.args.length ord st path n
  | .mk e cs, path, n, R, H, hI, hF, hR, hH, hA => by
    unfold evStage
    simp only [Idx] at hI
    simp only [Hist] at hF
    simp only [Stage.All] at hA
    exact evChildren_mask pDef E ord hv G hG0 cs 0 path n R H hI hF hR hH hA
theorem evChildren_mask (pDef : PolicyDef) (E : Evaluator) (ord : Order) (hv : ord.Valid) (G : Rule → Prop)
    (hG0 : G (blankRule pDef)) : ∀ (cs : List Stage) (i : Nat) (path : List (Nat × Str)) (n : Node) (R H : Rule → Prop),
    IdxC pDef cs i n R → HistC pDef cs i n H → (∀ r, R r → G r) → (∀ r, H r → G r) →
    Stage.AllIn (fun s => s.children.length ≤ 2 ∧ E.compiles s.expr = true ∧
      ∀ r, G r → E.eval s.expr r ≠ .err ∧ E.eval s.expr r ≠ .panic) cs →
    evChildren E pDef.args.length ord cs i path n = evChildren E.masked pDef.args.length ord cs i path n
  | [], _, _, _, _, _, _, _, _, _, _ => by simp [evChildren]
  | st :: rest, i, path, n, R, H, hI, hF, hR, hH, hA => by
    simp only [IdxC] at hI
    simp only [HistC] at hF
    simp only [Stage.AllIn] at hA
    obtain ⟨⟨m, hm, hwf, -, hent⟩, hrest⟩ := hI
    obtain ⟨⟨m2, hm2, hin⟩, hfrest⟩ := hF
    obtain rfl : m2 = m := Option.some.inj (hm2.symm.trans hm)
    unfold evChildren
    rw [hm]
    have hc := hA.1.1.2.1
    have hc' : E.masked.compiles st.expr = true := rfl
    simp only [hc, hc', Bool.true_eq_false, if_false]
    rw [evChildren_mask pDef E ord hv G hG0 rest (i + 1) path n R H hrest hfrest hR hH hA.2]
    congr 1
    have key : ∀ es : GoMap Str Node, (∀ x ∈ es, x ∈ entriesOf pDef.args.length ord path i m2) →
        evEntries E st.expr (fun k c => (if st.isLeaf then [.visit c.rule] else []) ++
          evStage E pDef.args.length ord st (path ++ [(i, k)]) c) es =
        evEntries E.masked st.expr (fun k c => (if st.isLeaf then [.visit c.rule] else []) ++
          evStage E.masked pDef.args.length ord st (path ++ [(i, k)]) c) es := by
      intro es
      induction es with
      | nil => intro _; rfl
      | cons x es ih =>
        intro hes
        obtain ⟨g1, g2⟩ := entries_tried hv hG0 hR hH hwf hent hin (hes x (by simp))
        have ih := ih (fun y hy => hes y (by simp [hy]))
        obtain ⟨q1, q2⟩ := hA.1.1.2.2 _ g1
        have hrec : evStage E pDef.args.length ord st (path ++ [(i, x.1)]) x.2 =
            evStage E.masked pDef.args.length ord st (path ++ [(i, x.1)]) x.2 := by
          rcases g2 with g2 | g2
          · rw [g2]
            exact evStage_mask pDef E ord hv G hG0 st _ _ (fun _ => False) (fun _ => False)
              (Idx_new pDef _ st hA.1.1.1) (newNode_hist pDef _ (fun _ h => h) hA.1.1.1) (fun _ h => h.elim)
              (fun _ h => h.elim) hA.1.2
          · cases hl : st.isLeaf with
            | true =>
              cases st with
              | mk e cs =>
                have : cs = [] := by simpa [Stage.isLeaf, Stage.children] using hl
                subst this
                simp [evStage, evChildren]
            | false =>
              exact evStage_mask pDef E ord hv G hG0 st _ _ _ _ (hent _ _ g2).2.2.2 ((hin hl).2 _ _ g2).2
                (fun r h => hR r h.1) (fun r h => hH r h.1) hA.1.2
        have hm : E.masked.eval st.expr x.2.rule = .bool (decide (E.eval st.expr x.2.rule = .bool true)) := by
          simp [Evaluator.masked, hc]
        unfold evEntries
        rw [hm]
        cases hE : E.eval st.expr x.2.rule with
        | err => exact absurd hE q1
        | panic => exact absurd hE q2
        | other => exact ih
        | bool b =>
          cases b with
          | false => exact ih
          | true =>
            simp only [decide_true]
            rw [hrec, ih]
    exact key _ (fun _ h => h)
end

/-- What a matcher that says `f` and has seen the rules with `H` reports, and why it fails, for any outcome `O` of
the atoms on the rules with `P`. -/
theorem Model.seen_justified (build : Str → Res Stage) (hbin : ∀ e s, build e = .ok s → s.Binary)
    (grow : Nat → Nat) (rk mk pk : Str) (rArgs pArgs : List Str) (f : List (List Cond)) (root : Stage)
    (hw : (Cond.formula rk pk f).wf = true) (hs : (Cond.formula rk pk f).safe = true)
    (hroot : buildMatcherDef grow (Cond.formula rk pk f).toks = .ok root)
    (P H : Rule → Prop)
    (m : Model) (h : Seen build mk root H m)
    (d : PolicyDef) (hp : m.pDefs.get pk = some d) (hpA : d.args = pArgs)
    (base : Str → Option Fn) (N : Naming base rk pk rArgs pArgs)
    (hf : ∀ a ∈ Cond.anyAtoms f, a.Uses rArgs pArgs)
    (huse : pk = s% "p" ∨ ∃ a ∈ Cond.anyAtoms f, ∃ y, Ref.pol y ∈ a.refs)
    (E : Evaluator) (O : Atom → Rule → EvalRes)
    (hev : ∀ a ∈ Cond.anyAtoms f, E.compiles (a.text rk pk) = true ∧
      ∀ r : Rule, r.length = pArgs.length → P r → E.eval (a.text rk pk) r = O a r)
    (hown : ∀ a ∈ Cond.anyAtoms f, ∀ r r' : Rule,
      (∀ y, Ref.pol y ∈ a.refs → attr pArgs r y = attr pArgs r' y) → O a r = O a r')
    (hHP : ∀ r, H r → P r) (hP0 : P (List.replicate pArgs.length []))
    (ord : Order) (hord : ord.Valid) :
    ∃ i mt rules, m.mMap.get mk = some (.live pk i) ∧ m.resolve (.live pk i) = some mt ∧
      mt.pDef = declare pk pArgs ∧ d = declare pk pArgs ∧ m.policyRules pk = some rules ∧
      (∀ r ∈ rules, H r) ∧ (∀ r, H r → r.length = pArgs.length) ∧
      (∀ row ∈ (filter mt E ord).1,
        (∃ r ∈ rules, Cond.anyHolds (fun a => O a r = .bool true) f ∧ row = pk :: r) ∨
        (LeftOver pArgs (fun a r => O a r = .bool true) H rules f ∧ row = pk :: List.replicate pArgs.length [])) ∧
      (Ev.fail ∈ mt.events E ord → ∃ a rest r, a :: rest ∈ Cond.anyWays f ∧
        (H r ∨ r = List.replicate pArgs.length []) ∧ O a r = .err) ∧
      (Ev.panic ∈ mt.events E ord → ∃ a ∈ Cond.anyAtoms f, ∃ r,
        (H r ∨ r = List.replicate pArgs.length []) ∧ O a r = .panic) ∧
      ((∀ a ∈ Cond.anyAtoms f, ∀ r, (H r ∨ r = List.replicate pArgs.length []) → O a r ≠ .err ∧ O a r ≠ .panic) →
        (filter mt E ord).2 = .cont ∧
        ∃ n, (n ≠ 0 ↔ LeftOver pArgs (fun a r => O a r = .bool true) H rules f) ∧
          (filter mt E ord).1.Perm
            (rules.flatMap (fun r => List.replicate (Cond.timesTrue (fun a => O a r = .bool true) f) (pk :: r)) ++
              List.replicate n (pk :: List.replicate pArgs.length []))) := by
  have hfull : ∀ a ∈ Cond.anyAtoms f, a.Full := by
    intro a ha
    have := hf a ha
    cases a with
    | eq a b => trivial
    | call g args => exact this.1
  obtain ⟨i, mt, rules, h1, h2, h3, h4, h5, hsub, hgood, hb, hinv, hrec⟩ := seen_index build hbin grow rk mk pk rArgs pArgs
    f root hw hs hroot H m h d hp hpA base N hf huse
  obtain ⟨i', mt', rules', g1, g2, -, -, g5, -, hlen, gc, n, gn, gp⟩ := seen_lists build hbin grow rk mk pk rArgs pArgs f root
    hw hs hroot P H m h d hp hpA base N hf huse E.masked (fun a r => O a r = .bool true)
    (fun a ha => ⟨rfl, fun r hl hP => ⟨_, rfl, by
      rw [(hev a ha).1, (hev a ha).2 r hl hP]; simp⟩⟩)
    (fun a ha r r' _ _ _ _ hag => by rw [hown a ha r r' hag]) hHP (fun _ => hP0) ord hord
  rw [h1] at g1
  cases g1
  rw [h2] at g2
  cases g2
  rw [h5] at g5
  cases g5
  have hargs := declare_args pk N.p.good
  have hblank : blankRule (declare pk pArgs) = List.replicate pArgs.length [] := by
    unfold blankRule; rw [hargs]
  have hlb : (List.replicate pArgs.length ([] : Str)).length = pArgs.length := by simp
  have hidx := hinv.idx
  simp only [Idx, Policy.rules_ofRules] at hidx
  have hexpr : mt.exprRoot = .mk [] (Operand.trD (Cond.formula rk pk f) []) := hinv.expr
  have hhist := hrec
  unfold Matcher.Recalls at hhist
  rw [h3, hexpr] at hhist
  simp only [Hist] at hhist
  have hG0 : (fun r => H r ∨ r = List.replicate pArgs.length []) (blankRule (declare pk pArgs)) := .inr hblank
  have hO : ∀ a ∈ Cond.anyAtoms f, ∀ r, (H r ∨ r = List.replicate pArgs.length []) →
      E.eval (a.text rk pk) r = O a r := by
    intro a ha r hr
    rcases hr with hr | rfl
    · exact (hev a ha).2 r (hlen r hr) (hHP r hr)
    · exact (hev a ha).2 _ hlb hP0
  have hbin2 : Stage.AllIn (fun st => st.children.length ≤ 2) (Operand.trD (Cond.formula rk pk f) []) := hb.2
  refine ⟨i, mt, rules, h1, h2, h3, h4, h5, hsub, hlen, ?_, ?_, ?_, ?_⟩
  · intro row hrow
    have := (filter_masked mt E ord).subset hrow
    rw [gp.mem_iff, List.mem_append] at this
    rcases this with this | this
    · obtain ⟨r, q1, q2⟩ := List.mem_flatMap.1 this
      obtain ⟨q2, q3⟩ := List.mem_replicate.1 q2
      exact .inl ⟨r, q1, Cond.timesTrue_ne.1 q2, q3⟩
    · obtain ⟨q1, q2⟩ := List.mem_replicate.1 this
      exact .inr ⟨gn.1 q1, q2⟩
  · intro hfail
    apply Classical.byContradiction
    intro hno
    revert hfail
    unfold Matcher.events
    rw [h3, hexpr]
    unfold evStage
    refine evChildren_noFail (declare pk pArgs) E ord hord (fun r => H r ∨ r = List.replicate pArgs.length []) hG0 _ _ _ _
      _ _ hidx hhist (fun r hr => .inl (hsub r hr)) (fun r hr => .inl hr) (fun st hst => ?_)
    obtain ⟨a, rest, hway, he⟩ := Cond.first_trD hw hst
    have ha := Cond.anyWays_atoms f _ hway a (by simp)
    rw [he, Atom.expr_eq rk pk (hfull a ha)]
    refine ⟨(hev a ha).1, fun r hr herr => hno ⟨a, rest, r, hway, hr, ?_⟩⟩
    rw [← hO a ha r hr]; exact herr
  · intro hpan
    apply Classical.byContradiction
    intro hno
    revert hpan
    unfold Matcher.events
    rw [h3, hexpr]
    unfold evStage
    refine evChildren_sound (declare pk pArgs) E ord hord (fun r => H r ∨ r = List.replicate pArgs.length []) hG0 _ _ _ _
      _ _ hidx hhist (fun r hr => .inl (hsub r hr)) (fun r hr => .inl hr) (Stage.AllIn.and _ hbin2 ?_)
    refine Cond.all_trD rk pk f [] (fun a ha ks _ r hr herr => hno ⟨a, ha, r, hr, ?_⟩) trivial
    rw [← hO a ha r hr, ← herr]
    simp only [Stage.expr]
    rw [Atom.expr_eq rk pk (hfull a ha)]
  · intro hno
    have hsame : mt.events E ord = mt.events E.masked ord := by
      unfold Matcher.events
      rw [h3, hexpr]
      unfold evStage
      refine evChildren_mask (declare pk pArgs) E ord hord (fun r => H r ∨ r = List.replicate pArgs.length []) hG0 _ _ _ _
        _ _ hidx hhist (fun r hr => .inl (hsub r hr)) (fun r hr => .inl hr) (Stage.AllIn.and _ hbin2 ?_)
      refine Cond.all_trD rk pk f [] (fun a ha ks => ?_) trivial
      simp only [Stage.expr]
      rw [Atom.expr_eq rk pk (hfull a ha)]
      refine ⟨(hev a ha).1, fun r hr => ?_⟩
      rw [hO a ha r hr]
      exact hno a ha r hr
    have hsf : filter mt E ord = filter mt E.masked ord := by
      unfold filter
      rw [Matcher.rangeMatches_eq, Matcher.rangeMatches_eq, hsame]
    rw [hsf]
    exact ⟨gc, n, gn, gp⟩

/-- What a decision says about the rows, however the traversal ends. -/
theorem enforce_says {mt : Matcher} {pDef : PolicyDef} {E : Evaluator} {ord : Order} {eff : Str} :
    (enforce mt pDef E ord eff = .ok true → eff ≠ NO_DENY → ∃ row ∈ (filter mt E ord).1, pDef.getEft row = .allow) ∧
    (enforce mt pDef E ord eff = .ok false → eff = NO_DENY → ∃ row ∈ (filter mt E ord).1, pDef.getEft row = .deny) := by
  have hmem : ∀ e : Effect, (∃ r ∈ visits (mt.events E ord), pDef.getEft (mt.pDef.key :: r) = e) →
      ∃ row ∈ (filter mt E ord).1, pDef.getEft row = e := by
    rintro e ⟨r, hr, h⟩
    rw [filter_eq]
    exact ⟨_, List.mem_map_of_mem hr, h⟩
  have hfin : ∀ (x : Status) (b b' : Bool), finishStatus x b = .ok b' → b = b' := by
    intro x b b' h
    cases x <;> simp [finishStatus] at h <;> exact h
  unfold enforce
  rw [Matcher.rangeMatches_eq]
  constructor
  · intro h hne
    by_cases e1 : eff = SOME_ALLOW
    · subst e1
      rw [enforce_someAllow_aux _ _ _ _ rfl rfl] at h
      split at h
      · rename_i hx; exact hmem _ hx
      · exact absurd (hfin _ _ _ h) (by decide)
    · by_cases e3 : eff = SOME_ALLOW_NO_DENY
      · subst e3
        rw [enforce_allowNoDeny_aux _ _ _ _ rfl rfl rfl] at h
        split at h
        · cases h
        · have := hfin _ _ _ h
          simp only [EnfState.init, List.nil_append, decide_eq_true_eq] at this
          cases hv : visits (mt.events E ord) with
          | nil => rw [hv] at this; simp at this
          | cons r rs =>
            rw [hv] at this
            exact hmem _ ⟨r, by simp [hv], by simpa using this⟩
      · rw [enforce_unsupported_aux _ _ _ _ e1 hne e3] at h
        split at h
        · exact absurd (hfin _ _ _ h) (by decide)
        · cases h
  · rintro h rfl
    rw [enforce_noDeny_aux _ _ _ _ rfl rfl] at h
    split at h
    · rename_i hx; exact hmem _ hx
    · exact absurd (hfin _ _ _ h) (by decide)

namespace FnModel

open Model

/-- `Enforce` with a stored matcher. -/
theorem enforce_stored {build : FnBuild} {s : FnModel} {rk mk ek rText eff : Str} {x : MEntry} {mt : Matcher}
    {pDef : PolicyDef} (hr : s.model.rDefs.get rk = some rText) (hx : s.model.mMap.get mk = some x)
    (he : s.model.eDefs.get ek = some eff) (n1 : rk ≠ []) (hmk : mk ≠ []) (hek : ek ≠ [])
    (hmt : s.model.resolve x = some mt) (hp : s.model.pDefs.get mt.pDef.key = some pDef) (gov : Gov) (depth : Nat)
    (ord : Order) (rvals : List Str) {E : Evaluator}
    (hE : E = gov.withEval depth s.functions (MatchParams.get ⟨mt.pDef, newPolicyDef rk rText, rvals⟩)) :
    ∀ params ∈ [named rk mk ek ++ rvals.map .val] ++
        (if rk = s% "r" ∧ mk = s% "m" ∧ ek = s% "e" then [rvals.map .val] else []),
      (s.enforce build gov depth ord params).2 = Fastac.enforce mt pDef E ord eff := by
  have hctx : ∀ params, (splitParams params).2 = rvals →
      newContext (build s.knows) s.model (splitParams params).1 =
        (s.model, .ok ⟨some (newPolicyDef rk rText), some x, some eff⟩) →
      (s.enforce build gov depth ord params).2 = Fastac.enforce mt pDef E ord eff := by
    intro params hv hc
    simp only [enforce, Model.enforceParams, hc, hv]
    simp only [Model.enforceCtx, Option.bind_some, hmt, hp]
    have : s.model.evaluator (fun _ => none) (s.lib gov depth) mt (newPolicyDef rk rText) rvals = E := by
      rw [hE]; rfl
    rw [this]
  intro params hp
  rw [List.mem_append, List.mem_singleton] at hp
  rcases hp with rfl | hp
  · refine hctx _ (by rw [splitParams_named]) ?_
    rw [splitParams_named]
    exact newContext_named hr hx he n1 hmk hek
  · split at hp
    · rename_i hh
      obtain ⟨rfl, rfl, rfl⟩ := hh
      rw [List.mem_singleton] at hp
      subst hp
      refine hctx _ (by rw [splitParams_vals]) ?_
      rw [splitParams_vals]
      exact newContext_default hr hx he
    · cases hp

end FnModel

end Fastac
