import Verif.Lemmas.Exact
import Verif.Props.AnyManager
import Verif.Props.Decision
import Verif.Spec.Filter

/-!
# What `Filter` lists
-/

namespace Fastac

/-! ## The callback -/

theorem consume_rangeList {σ : Type} (key : Str) (fn : σ → Rule → σ × Bool) : ∀ (es : List Ev) (s : σ),
    (consume (fun s rule => fn s (key :: rule)) es s).1 = rangeList fn ((visits es).map (key :: ·)) s ∧
    (consume (fun s rule => fn s (key :: rule)) es s).2 =
      if stopsAt fn ((visits es).map (key :: ·)) s then .stop else endStatus es
  | [], s => ⟨rfl, rfl⟩
  | .halt :: es, s => ⟨rfl, rfl⟩
  | .fail :: es, s => ⟨rfl, rfl⟩
  | .panic :: es, s => ⟨rfl, rfl⟩
  | .visit r :: es, s => by
    simp only [consume, visits, List.map_cons, rangeList, stopsAt, endStatus]
    rcases h : fn s (key :: r) with ⟨s', b⟩
    cases b with
    | true =>
      simp only [if_true]
      exact consume_rangeList key fn es s'
    | false => exact ⟨rfl, rfl⟩

theorem Matcher.range_filter {σ : Type} (mt : Matcher) (E : Evaluator) (ord : Order) (fn : σ → Rule → σ × Bool) (s : σ) :
    (mt.rangeMatches E ord fn s).1 = rangeList fn (filter mt E ord).1 s ∧
    (mt.rangeMatches E ord fn s).2 = if stopsAt fn (filter mt E ord).1 s then .stop else (filter mt E ord).2 := by
  rw [Matcher.rangeMatches_eq, filter_eq]
  exact consume_rangeList _ _ _ _

theorem stopsAt_never {σ : Type} {fn : σ → Rule → σ × Bool} (h : ∀ s r, (fn s r).2 = true) : ∀ (rs : List Rule) (s : σ),
    stopsAt fn rs s = false
  | [], _ => rfl
  | r :: rs, s => by simp only [stopsAt, h, if_true]; exact stopsAt_never h rs _

namespace Model

theorem range_filterCtx {σ : Type} (m : Model) (base : Str → Option Fn) (gov : Gov) (ord : Order) (ctx : Ctx)
    (rvals : List Str) (fn : σ → Rule → σ × Bool) (s : σ) :
    (m.rangeCtx base gov ord ctx rvals fn s).1 =
      rangeList fn (m.rangeCtx base gov ord ctx rvals (fun rules rule => (rules ++ [rule], true)) []).1 s ∧
    (m.rangeCtx base gov ord ctx rvals fn s).2 =
      if stopsAt fn (m.rangeCtx base gov ord ctx rvals (fun rules rule => (rules ++ [rule], true)) []).1 s then .ok ()
      else (m.rangeCtx base gov ord ctx rvals (fun rules rule => (rules ++ [rule], true)) []).2 := by
  unfold rangeCtx
  cases ctx.matcher.bind m.resolve with
  | none => exact ⟨rfl, rfl⟩
  | some mt =>
    cases ctx.rDef with
    | none => exact ⟨rfl, rfl⟩
    | some rDef =>
      simp only
      obtain ⟨h1, h2⟩ := mt.range_filter (m.evaluator base gov mt rDef rvals) ord fn s
      refine ⟨h1, ?_⟩
      rw [h2]
      show _ = if stopsAt fn (filter mt (m.evaluator base gov mt rDef rvals) ord).1 s then _ else _
      split <;> rfl

theorem range_filter {σ : Type} (build : Str → Res Stage) (m : Model) (base : Str → Option Fn) (gov : Gov)
    (ord : Order) (params : List Param) (fn : σ → Rule → σ × Bool) (s : σ) :
    (m.rangeParams build base gov ord params fn s).1 = (m.rangeParams build base gov ord params (fun rules rule => (rules ++ [rule], true)) []).1 ∧
    (m.rangeParams build base gov ord params fn s).2.1 =
      rangeList fn (m.rangeParams build base gov ord params (fun rules rule => (rules ++ [rule], true)) []).2.1 s ∧
    (m.rangeParams build base gov ord params fn s).2.2 =
      if stopsAt fn (m.rangeParams build base gov ord params (fun rules rule => (rules ++ [rule], true)) []).2.1 s then .ok ()
      else (m.rangeParams build base gov ord params (fun rules rule => (rules ++ [rule], true)) []).2.2 := by
  unfold rangeParams
  rcases newContext build m (splitParams params).1 with ⟨m', _ | _ | _⟩
  · exact ⟨rfl, range_filterCtx ..⟩
  · exact ⟨rfl, rfl, rfl⟩
  · exact ⟨rfl, rfl, rfl⟩

end Model

/-! ## A matcher that has just been built -/

/-- What a matcher lists that says `f` and has just been built. -/
theorem fresh_lists {base : Str → Option Fn} {rk pk : Str} {rArgs pArgs : List Str} {f : List (List Cond)}
    (hw : Formula.wf (Cond.formula rk pk f) = true) (N : Naming base rk pk rArgs pArgs)
    (hf : ∀ a ∈ Cond.anyAtoms f, a.Uses rArgs pArgs) (hfull : ∀ a ∈ Cond.anyAtoms f, a.Full)
    {E : Evaluator} {T : Atom → Rule → Prop} {P : Rule → Prop} {rules : List Rule} {mt : Matcher}
    (hb : (Stage.mk [] (Operand.trD (Cond.formula rk pk f) [])).Binary)
    (hm : newMatcher (declare pk pArgs) (.mk [] (Operand.trD (Cond.formula rk pk f) [])) rules = .ok mt)
    (hev : ∀ a ∈ Cond.anyAtoms f, E.compiles (a.text rk pk) = true ∧
      ∀ r : Rule, r.length = pArgs.length → P r → ∃ b, E.eval (a.text rk pk) r = .bool b ∧ (b = true ↔ T a r))
    (hown : ∀ a ∈ Cond.anyAtoms f, ∀ r r' : Rule, r.length = pArgs.length → r'.length = pArgs.length → P r → P r' →
      (∀ y, Ref.pol y ∈ a.refs → attr pArgs r y = attr pArgs r' y) → (T a r ↔ T a r'))
    (hnd : rules.Nodup) (hg : ∀ r ∈ rules, GoodRule (declare pk pArgs) r ∧ P r)
    (hP0 : rules = [] → P (List.replicate pArgs.length [])) (ord : Order) (hord : ord.Valid) :
    (filter mt E ord).2 = .cont ∧ ∃ n,
      (n ≠ 0 ↔ rules = [] ∧ Cond.anyHolds (fun a => T a (List.replicate pArgs.length [])) f) ∧
      (filter mt E ord).1.Perm
        (rules.flatMap (fun r => List.replicate (Cond.timesTrue (fun a => T a r) f) (pk :: r)) ++
          List.replicate n (pk :: List.replicate pArgs.length [])) := by
  obtain ⟨mt', e1, e2, e3, e4⟩ := newMatcher_idx (declare pk pArgs) _ hb rules (fun r hr => (hg r hr).1)
  rw [hm] at e1
  cases e1
  have hempty : ((∀ r, ¬ r ∈ rules) ∨ ∃ r, r ∈ rules ∧ r ∉ rules) ↔ rules = [] := by
    constructor
    · rintro (h | ⟨r, h1, h2⟩)
      · exact List.eq_nil_iff_forall_not_mem.2 h
      · exact absurd h1 h2
    · rintro rfl
      exact .inl (by simp)
  have := lists_of_hist hw N hf hfull (H := (· ∈ rules)) ⟨Policy.ofRules rules, mt⟩
    ⟨Policy.wf_ofRules hnd (fun r hr => (hg r hr).1),
      by rw [Policy.rules_ofRules]; exact fun r hr => (hg r hr).1, e2, e3, by rw [Policy.rules_ofRules]; exact e4⟩
    hb (newMatcher_recalls hb hm) hev hown hg (by rw [Policy.rules_ofRules]; exact fun _ h => h)
    (by rw [Policy.rules_ofRules, hempty]; exact hP0) ord hord
  rw [Policy.rules_ofRules] at this
  obtain ⟨h1, n, h2, h3⟩ := this
  refine ⟨h1, n, h2.trans ?_, h3⟩
  unfold LeftOver
  constructor
  · rintro (⟨h, h'⟩ | ⟨way, last, -, seen, hs, -, -, hno⟩)
    · exact ⟨List.eq_nil_iff_forall_not_mem.2 h, h'⟩
    · exact absurd (fun a _ => Atom.Together.refl pArgs a seen) (hno seen hs)
  · rintro ⟨rfl, h⟩
    exact .inl ⟨by simp, h⟩

/-! ## Rules with fewer fields than the matcher has names for -/

mutual
theorem addStage_swap {d d' : PolicyDef} {r : Rule} : ∀ (st : Stage) (n : Node),
    st.All (fun s => stageKey d s r = stageKey d' s r) → addStage d r st n = addStage d' r st n
  | .mk _ cs, n, h => by
    simp only [Stage.All] at h
    simp only [addStage]
    exact addChildren_swap cs 0 n h
theorem addChildren_swap {d d' : PolicyDef} {r : Rule} : ∀ (cs : List Stage) (i : Nat) (n : Node),
    Stage.AllIn (fun s => stageKey d s r = stageKey d' s r) cs → addChildren d r cs i n = addChildren d' r cs i n
  | [], _, _, _ => rfl
  | st :: rest, i, n, h => by
    simp only [Stage.AllIn] at h
    simp only [addChildren, h.1.1]
    cases n.children[i]? with
    | none => rfl
    | some m =>
      simp only
      rw [addStage_swap st _ h.1.2]
      congr 1
      funext c
      exact addChildren_swap rest (i + 1) _ h.2
end

theorem newMatcher_swap {d d' : PolicyDef} {root : Stage} {rules : List Rule}
    (h : ∀ r ∈ rules, root.All (fun s => stageKey d s r = stageKey d' s r)) :
    newMatcher d root rules = (newMatcher d' root rules).map (fun mt => { mt with pDef := d }) := by
  have step : ∀ (l : List Rule) (x : Res Matcher), (∀ mt, x = .ok mt → mt.pDef = d' ∧ mt.exprRoot = root) →
      (∀ r ∈ l, root.All (fun s => stageKey d s r = stageKey d' s r)) →
      l.foldl (fun r rule => r.bind (fun m => m.addRule rule)) (x.map (fun mt => { mt with pDef := d })) =
        (l.foldl (fun r rule => r.bind (fun m => m.addRule rule)) x).map (fun mt => { mt with pDef := d }) := by
    intro l
    induction l with
    | nil => intros; rfl
    | cons r l ih =>
      intro x hx hl
      simp only [List.foldl_cons]
      have : (x.map (fun mt => ({ mt with pDef := d } : Matcher))).bind (fun m => m.addRule r) =
          (x.bind (fun m => m.addRule r)).map (fun mt => { mt with pDef := d }) := by
        cases x with
        | err => rfl
        | panic => rfl
        | ok mt =>
          obtain ⟨h1, h2⟩ := hx mt rfl
          simp only [Res.map_ok, Res.bind_ok, Matcher.addRule]
          rw [h1, h2, addStage_swap root _ (hl r (by simp))]
          cases addStage d' r root mt.root <;> rfl
      rw [this]
      refine ih _ ?_ (fun r' hr' => hl r' (by simp [hr']))
      intro mt' e
      cases x with
      | err => cases e
      | panic => cases e
      | ok mt =>
        simp only [Res.bind_ok, Matcher.addRule] at e
        obtain ⟨h1, h2⟩ := hx mt rfl
        cases ha : addStage mt.pDef r mt.exprRoot mt.root with
        | err => rw [ha] at e; cases e
        | panic => rw [ha] at e; cases e
        | ok n => rw [ha] at e; cases e; exact ⟨h1, h2⟩
  exact step rules (.ok ⟨d', root, newNode [[]]⟩) (by rintro mt e; cases e; exact ⟨rfl, rfl⟩) h

theorem evEntries_congr {E : Evaluator} {expr : Str} {cb cb' : Str → Node → List Ev} : ∀ (m : GoMap Str Node),
    (∀ k c, (k, c) ∈ m → cb k c = cb' k c) → evEntries E expr cb m = evEntries E expr cb' m
  | [], _ => rfl
  | (k, c) :: es, h => by
    simp only [evEntries]
    rw [h k c (by simp), evEntries_congr es (fun k c hm => h k c (by simp [hm]))]

mutual
/-- When no map is empty, the number of fields of the rule with empty fields does not matter. -/
theorem evStage_filled {d : PolicyDef} {E : Evaluator} {ord : Order} (hv : ord.Valid) {P : Rule → Prop} (a b : Nat) :
    ∀ (st : Stage) (path : List (Nat × Str)) (n : Node) (R : Rule → Prop), Idx d st n R → Filled P True st n →
      evStage E a ord st path n = evStage E b ord st path n
  | .mk _ cs, path, n, R, hI, hF => by
    simp only [Idx] at hI
    simp only [Filled] at hF
    simp only [evStage]
    exact evChildren_filled hv a b cs 0 path n R hI hF
theorem evChildren_filled {d : PolicyDef} {E : Evaluator} {ord : Order} (hv : ord.Valid) {P : Rule → Prop} (a b : Nat) :
    ∀ (cs : List Stage) (i : Nat) (path : List (Nat × Str)) (n : Node) (R : Rule → Prop), IdxC d cs i n R →
      FilledC P True cs i n → evChildren E a ord cs i path n = evChildren E b ord cs i path n
  | [], _, _, _, _, _, _ => by simp only [evChildren]
  | st :: rest, i, path, n, R, hI, hF => by
    simp only [IdxC] at hI
    simp only [FilledC] at hF
    obtain ⟨⟨m, hm, hwf, -, hent⟩, hrest⟩ := hI
    obtain ⟨⟨m2, hm2, hne, hin⟩, hfrest⟩ := hF
    obtain rfl : m2 = m := Option.some.inj (hm2.symm.trans hm)
    simp only [evChildren, hm]
    rw [evChildren_filled hv a b rest (i + 1) path n R hrest hfrest]
    have hne' : m2.isEmpty = false := by simpa using hne (fun _ => trivial)
    simp only [entriesOf, hne', Bool.false_eq_true, if_false]
    rw [evEntries_congr (ord path i m2) (fun k c hkc => ?_)]
    have hg : GoMap.get m2 k = some c := GoMap.WF.get_of_mem hwf ((hv path i m2).mem_iff.1 hkc)
    cases hl : st.isLeaf with
    | true =>
      have : ∀ x, evStage E x ord st (path ++ [(i, k)]) c = [] := by
        intro x
        rw [evStage_eq, isLeaf_children hl]
        simp only [evChildren]
      rw [this, this]
    | false =>
      rw [evStage_filled hv a b st _ c _ (hent k c hg).2.2.2 ((hin k c hg).2 hl)]
end

theorem newMatcher_filled {d : PolicyDef} {root : Stage} {rules : List Rule} {mt : Matcher} (hne : rules ≠ [])
    (h : newMatcher d root rules = .ok mt) : Filled (fun _ => True) True mt.exprRoot mt.root := by
  obtain ⟨l, r, rfl⟩ : ∃ l r, rules = l ++ [r] := ⟨_, _, (List.dropLast_concat_getLast hne).symm⟩
  have e : newMatcher d root (l ++ [r]) = (newMatcher d root l).bind (fun m => m.addRule r) := by
    unfold newMatcher
    rw [List.foldl_append]
    rfl
  rw [e] at h
  cases hl : newMatcher d root l with
  | err => rw [hl] at h; cases h
  | panic => rw [hl] at h; cases h
  | ok y =>
    rw [hl] at h
    simp only [Res.bind_ok, Matcher.addRule] at h
    cases ha : addStage y.pDef r y.exprRoot y.root with
    | err => rw [ha] at h; cases h
    | panic => rw [ha] at h; cases h
    | ok n =>
      rw [ha] at h
      cases h
      exact (addStage_filled _ _ True r trivial _ _ _ (newMatcher_shape (fun _ _ => trivial) hl) ha).2

theorem getParameters_swap {d d' : PolicyDef} {r : Rule} (h : ∀ x, d.getParameter r x = d'.getParameter r x) :
    ∀ xs : List Str, d.getParameters r xs = d'.getParameters r xs
  | [] => rfl
  | x :: xs => by simp only [PolicyDef.getParameters, h x, getParameters_swap h xs]

theorem stageKey_swap {d d' : PolicyDef} {r : Rule} (h : ∀ x, d.getParameter r x = d'.getParameter r x) (st : Stage) :
    stageKey d st r = stageKey d' st r := by
  unfold stageKey
  rw [getParameters_swap h]

mutual
theorem Stage.All_intro {P : Stage → Prop} (h : ∀ s, P s) : ∀ st : Stage, st.All P
  | .mk _ cs => by simp only [Stage.All]; exact Stage.AllIn_intro h cs
theorem Stage.AllIn_intro {P : Stage → Prop} (h : ∀ s, P s) : ∀ cs : List Stage, Stage.AllIn P cs
  | [] => by simp only [Stage.AllIn]
  | st :: rest => by
    simp only [Stage.AllIn]
    exact ⟨⟨h st, Stage.All_intro h st⟩, Stage.AllIn_intro h rest⟩
end

/-- The fields of a role without a domain. -/
theorem gDef_pairs (pk : Str) {r : Rule} (hl : r.length = 2) (x : Str) :
    (Model.gDef pk).getParameter r x = (declare pk [s% "user", s% "role"]).getParameter r x := by
  obtain ⟨a, b, rfl⟩ : ∃ a b, r = [a, b] := by
    match r, hl with
    | [a, b], _ => exact ⟨a, b, rfl⟩
  have e3 : (Model.gDef pk).argIndex = ((GoMap.set [] (pk ++ ['_'] ++ s% "user") 0).set (pk ++ ['_'] ++ s% "role") 1).set
      (pk ++ ['_'] ++ s% "domain") 2 := rfl
  have e2 : (declare pk [s% "user", s% "role"]).argIndex =
      (GoMap.set [] (pk ++ ['_'] ++ s% "user") 0).set (pk ++ ['_'] ++ s% "role") 1 := rfl
  have l3 : (Model.gDef pk).args.length = 3 := rfl
  have l2 : (declare pk [s% "user", s% "role"]).args.length = 2 := rfl
  unfold PolicyDef.getParameter
  rw [e3, e2, l3, l2]
  by_cases hx : pk ++ ['_'] ++ s% "domain" = x
  · subst hx
    have n1 : pk ++ ['_'] ++ s% "role" ≠ pk ++ ['_'] ++ s% "domain" := by
      intro e; exact absurd (List.append_cancel_left e) (by decide)
    have n2 : pk ++ ['_'] ++ s% "user" ≠ pk ++ ['_'] ++ s% "domain" := by
      intro e; exact absurd (List.append_cancel_left e) (by decide)
    rw [GoMap.get_set, if_pos rfl, GoMap.get_set, if_neg n1, GoMap.get_set, if_neg n2]
    rfl
  · rw [GoMap.get_set, if_neg hx]
    rfl

/-- What a matcher lists that has just been built for a policy of roles without domains. -/
theorem pairs_lists {base : Str → Option Fn} {rk pk : Str} {rArgs : List Str} {f : List (List Cond)}
    (hw : Formula.wf (Cond.formula rk pk f) = true) (N : Naming base rk pk rArgs [s% "user", s% "role"])
    (hf : ∀ a ∈ Cond.anyAtoms f, a.Uses rArgs [s% "user", s% "role"]) (hfull : ∀ a ∈ Cond.anyAtoms f, a.Full)
    {E : Evaluator} {T : Atom → Rule → Prop} {P : Rule → Prop} {rules : List Rule}
    (hb : (Stage.mk [] (Operand.trD (Cond.formula rk pk f) [])).Binary)
    (hev : ∀ a ∈ Cond.anyAtoms f, E.compiles (a.text rk pk) = true ∧
      ∀ r : Rule, r.length = 2 → P r → ∃ b, E.eval (a.text rk pk) r = .bool b ∧ (b = true ↔ T a r))
    (hown : ∀ a ∈ Cond.anyAtoms f, ∀ r r' : Rule, r.length = 2 → r'.length = 2 → P r → P r' →
      (∀ y, Ref.pol y ∈ a.refs → attr [s% "user", s% "role"] r y = attr [s% "user", s% "role"] r' y) → (T a r ↔ T a r'))
    (hne : rules ≠ []) (hnd : rules.Nodup) (hg : ∀ r ∈ rules, (r.length = 2 ∧ ∀ x ∈ r, ',' ∉ x) ∧ P r)
    (ord : Order) (hord : ord.Valid) :
    ∃ mt, newMatcher (Model.gDef pk) (.mk [] (Operand.trD (Cond.formula rk pk f) [])) rules = .ok mt ∧
      mt.pDef = Model.gDef pk ∧ (filter mt E ord).2 = .cont ∧
      (filter mt E ord).1.Perm
        (rules.flatMap (fun r => List.replicate (Cond.timesTrue (fun a => T a r) f) (pk :: r))) := by
  have hgood : ∀ r ∈ rules, GoodRule (declare pk [s% "user", s% "role"]) r := by
    intro r hr
    refine ⟨(hg r hr).1.1, ?_, (hg r hr).1.2⟩
    rintro rfl
    exact absurd (hg [] hr).1.1 (by decide)
  obtain ⟨mt, e1, e2, e3, e4⟩ := newMatcher_idx (declare pk [s% "user", s% "role"]) _ hb rules hgood
  obtain ⟨h1, n, h2, h3⟩ := fresh_lists hw N hf hfull hb e1 hev hown hnd (fun r hr => ⟨hgood r hr, (hg r hr).2⟩)
    (fun e => absurd e hne) ord hord
  have hn : n = 0 := by
    cases n with
    | zero => rfl
    | succ n => exact absurd (h2.1 (by simp)).1 hne
  have hsw := newMatcher_swap (d := Model.gDef pk) (d' := declare pk [s% "user", s% "role"]) (root := .mk [] (Operand.trD (Cond.formula rk pk f) []))
    (rules := rules) (fun r hr => Stage.All_intro (fun st => stageKey_swap (gDef_pairs pk (hg r hr).1.1) st) _)
  rw [e1] at hsw
  have hfil : filter { mt with pDef := Model.gDef pk } E ord = filter mt E ord := by
    rw [filter_eq, filter_eq]
    have : Matcher.events { mt with pDef := Model.gDef pk } E ord = mt.events E ord := by
      unfold Matcher.events
      exact evStage_filled hord _ _ _ [] _ _ (e3 ▸ e4) (newMatcher_filled (mt := mt) hne e1)
    rw [this, e2]
    rfl
  refine ⟨_, hsw, rfl, by rw [hfil]; exact h1, ?_⟩
  rw [hfil]
  subst hn
  simpa using h3

/-! ## Contexts -/

theorem splitParams_asking (rk x : Str) (vs : List Str) : splitParams (asking rk x vs) =
    ([.request (.str rk), .matcher (.str x)], vs) := by
  simp only [asking, splitParams, Model.splitParams_vals]

theorem splitParams_matcher (x : Str) (vs : List Str) : splitParams (.opt (.matcher (.str x)) :: vs.map Param.val) =
    ([.matcher (.str x)], vs) := by
  simp only [splitParams, Model.splitParams_vals]

theorem defaultEffector_eq (m : Model) (ctx : Ctx) : ∃ eff, defaultEffector m ctx = ⟨ctx.rDef, ctx.matcher, eff⟩ := by
  unfold defaultEffector
  split
  · unfold setEffectorOpt
    simp only
    split
    · exact ⟨_, rfl⟩
    · split <;> exact ⟨_, rfl⟩
  · exact ⟨_, rfl⟩

/-- The matcher that `SetMatcher(x)` stands for. -/
def Model.Picks (build : Str → Res Stage) (m : Model) (x : Str) (m' : Model) (e : MEntry) : Prop :=
  ∀ ctx : Ctx, setMatcherOpt build m ctx (.str x) = (m', .ok { ctx with matcher := some e })

theorem Model.picks_stored {build : Str → Res Stage} {m : Model} {mk : Str} {x : MEntry}
    (hm : m.mMap.get mk = some x) (n : mk ≠ []) : m.Picks build mk m x := by
  intro ctx
  simp only [setMatcherOpt, n, if_false, hm]

theorem Model.picks_fresh {build : Str → Res Stage} {m : Model} {text : Str} {mt : Matcher}
    (hm : m.mMap.get text = none) (n : text ≠ []) (hf : freshMatcher build m text = some mt) :
    ∃ e, m.Picks build text (m.buildFromExpr build text).1 e ∧ (m.buildFromExpr build text).1.resolve e = some mt ∧
      m.Extends (m.buildFromExpr build text).1 := by
  obtain ⟨h1, h2⟩ := Model.buildFromExpr_spec build m text
  cases hr : (m.buildFromExpr build text).2 with
  | err => rw [hr] at h2; simp only at h2; rw [hf] at h2; cases h2
  | panic => rw [hr] at h2; simp only at h2; rw [hf] at h2; cases h2
  | ok e =>
    rw [hr] at h2
    obtain ⟨mt', e1, e2⟩ := h2
    rw [hf] at e1
    cases e1
    refine ⟨e, fun ctx => ?_, e2, h1⟩
    simp only [setMatcherOpt, n, if_false, hm, hr, Res.map_ok]

/-- Building a matcher for one call leaves a listener behind. -/
theorem Model.listening_fresh {build : Str → Res Stage} {m : Model} {text : Str} {root : Stage} {mt : Matcher}
    (hb : build text = .ok root) (hf : freshMatcher build m text = some mt) (key : Str) :
    (m.buildFromExpr build text).1.listening key = m.listening key + if key = root.policyKey then 1 else 0 := by
  unfold freshMatcher policyRules at hf
  unfold buildFromExpr
  rw [hb] at hf ⊢
  simp only at hf ⊢
  cases hd : m.matcherPolicyDef root.policyKey with
  | err => rw [hd] at hf; cases hf
  | panic => rw [hd] at hf; cases hf
  | ok d =>
    rw [hd] at hf
    simp only at hf ⊢
    cases hp : m.pMap.get root.policyKey with
    | some p =>
      rw [hp] at hf
      simp only at hf ⊢
      cases hn : newMatcher d root p.policy.rules with
      | err => rw [hn] at hf; cases hf
      | panic => rw [hn] at hf; cases hf
      | ok mt' =>
        unfold listening
        by_cases hk : key = root.policyKey
        · subst hk
          simp [hp]
        · have hk' : root.policyKey ≠ key := fun e => hk e.symm
          simp only [GoMap.get_set, hk, hk', if_false, Nat.add_zero]
    | none =>
      rw [hp] at hf
      simp only at hf ⊢
      cases hq : m.rpMap.get root.policyKey with
      | none => rw [hq] at hf; cases hf
      | some rp =>
        rw [hq] at hf
        simp only [Option.map_some] at hf ⊢
        cases hn : newMatcher d root rp.rules with
        | err => rw [hn] at hf; cases hf
        | panic => rw [hn] at hf; cases hf
        | ok mt' =>
          unfold listening
          by_cases hk : key = root.policyKey
          · subst hk
            simp [hp, hq]
          · have hk' : root.policyKey ≠ key := fun e => hk e.symm
            simp only [GoMap.get_set, hk, hk', if_false, Nat.add_zero]

theorem newContext_asking {build : Str → Res Stage} {m m' : Model} {rk x rText : Str} {e : MEntry}
    (hr : m.rDefs.get rk = some rText) (n1 : rk ≠ []) (hx : m.Picks build x m' e) :
    ∃ eff, newContext build m [.request (.str rk), .matcher (.str x)] =
      (m', .ok ⟨some (newPolicyDef rk rText), some e, eff⟩) := by
  obtain ⟨eff, he⟩ := defaultEffector_eq m' ⟨some (newPolicyDef rk rText), some e, none⟩
  refine ⟨eff, ?_⟩
  simp only [newContext, applyOpts, applyOpt, setRequestOpt, n1, if_false, Model.getRequestDef, hr, Res.map_ok,
    hx _, defaultRequest, defaultMatcher, Option.isNone_some, Bool.false_eq_true, he]

theorem newContext_matcher {build : Str → Res Stage} {m m' : Model} {x rText : Str} {e : MEntry}
    (hr : m'.rDefs.get (s% "r") = some rText) (hx : m.Picks build x m' e) :
    ∃ eff, newContext build m [.matcher (.str x)] = (m', .ok ⟨some (newPolicyDef (s% "r") rText), some e, eff⟩) := by
  obtain ⟨eff, he⟩ := defaultEffector_eq m' ⟨some (newPolicyDef (s% "r") rText), some e, none⟩
  have n1 : (s% "r") ≠ ([] : Str) := by decide
  refine ⟨eff, ?_⟩
  simp only [newContext, applyOpts, applyOpt, setRequestOpt, n1, if_false, Model.getRequestDef, hr, Res.map_ok,
    hx _, defaultRequest, defaultMatcher, Option.isNone_some, Option.isNone_none, if_true, Bool.false_eq_true, he]

theorem newContext_plain {build : Str → Res Stage} {m m' : Model} {rText : Str} {e : MEntry}
    (hr : m.rDefs.get (s% "r") = some rText) (hx : m.Picks build (s% "m") m' e) :
    ∃ eff, newContext build m [] = (m', .ok ⟨some (newPolicyDef (s% "r") rText), some e, eff⟩) := by
  obtain ⟨eff, he⟩ := defaultEffector_eq m' ⟨some (newPolicyDef (s% "r") rText), some e, none⟩
  have n1 : (s% "r") ≠ ([] : Str) := by decide
  refine ⟨eff, ?_⟩
  simp only [newContext, applyOpts, setRequestOpt, n1, if_false, Model.getRequestDef, hr, Res.map_ok,
    hx _, defaultRequest, defaultMatcher, Option.isNone_none, if_true, he]

/-! ## With the functions of the model -/

namespace FnModel

/-- `Filter` with the matcher `x`. -/
theorem filter_picks {build : FnBuild} {s : FnModel} {m' : Model} {rk x rText : Str} {e : MEntry} {mt : Matcher}
    (hr : s.model.rDefs.get rk = some rText) (hr' : m'.rDefs = s.model.rDefs) (n1 : rk ≠ [])
    (hx : s.model.Picks (build s.knows) x m' e) (hres : m'.resolve e = some mt) (gov : Gov) (depth : Nat) (ord : Order)
    (rvals : List Str) {E : Evaluator}
    (hE : E = gov.withEval depth s.functions (MatchParams.get ⟨mt.pDef, newPolicyDef rk rText, rvals⟩)) :
    (∀ params, params = asking rk x rvals ∨ (rk = s% "r" ∧ params = .opt (.matcher (.str x)) :: rvals.map .val) ∨
        (rk = s% "r" ∧ x = s% "m" ∧ params = rvals.map .val) →
      (s.filter build gov depth ord params).1 = ⟨m', s.fns.set (s% "eval") .eval⟩ ∧
      (s.filter build gov depth ord params).2 =
        ((Fastac.filter mt E ord).1, (Fastac.filter mt E ord).2.result)) := by
  intro params hp
  have key : ∃ eff, newContext (build s.knows) s.model (splitParams params).1 =
      (m', .ok ⟨some (newPolicyDef rk rText), some e, eff⟩) ∧ (splitParams params).2 = rvals := by
    rcases hp with rfl | ⟨rfl, rfl⟩ | ⟨rfl, rfl, rfl⟩
    · rw [splitParams_asking]
      obtain ⟨eff, h⟩ := newContext_asking hr n1 hx
      exact ⟨eff, h, rfl⟩
    · rw [splitParams_matcher]
      obtain ⟨eff, h⟩ := newContext_matcher (hr' ▸ hr) hx
      exact ⟨eff, h, rfl⟩
    · rw [Model.splitParams_vals]
      obtain ⟨eff, h⟩ := newContext_plain hr hx
      exact ⟨eff, h, rfl⟩
  obtain ⟨eff, h1, h2⟩ := key
  unfold FnModel.filter FnModel.rangeMatches FnModel.ranges Model.rangeParams
  rw [h1, h2]
  simp only [Option.bind_some, hres, Option.isSome_some, Bool.and_self, if_true, Model.rangeCtx]
  refine ⟨trivial, ?_⟩
  have : m'.evaluator (fun _ => none) (s.lib gov depth) mt (newPolicyDef rk rText) rvals = E := by
    rw [hE]; rfl
  rw [this]
  rfl

/-- The evaluation of an atom with the functions that there are now. -/
theorem eval_now {s : FnModel} {gov : Gov} (hg : gov.Ok) (hsc : gov.Scoped) {rk pk : Str}
    {rArgs pArgs rvals : List Str} (N : Naming s.functions rk pk rArgs pArgs) (hr : rvals.length ≤ rArgs.length)
    {P : Rule → Prop} {a : Atom} (hv : a.Given rArgs rvals) (h : a.FitsNow s gov rk pk rArgs pArgs rvals P) {depth : Nat} (hd : 0 < depth)
    {par : Rule → Str → Option Str} (hpar : ∀ r, r.length = pArgs.length →
      par r = MatchParams.get ⟨declare pk pArgs, declare rk rArgs, rvals⟩ r) {E : Evaluator}
    (hE : E = gov.withEval depth s.functions par) :
    E.compiles (a.text rk pk) = true ∧
    (∀ r : Rule, r.length = pArgs.length → P r → ∃ b, E.eval (a.text rk pk) r = .bool b ∧
      (b = true ↔ a.holds (Ref.val rArgs pArgs rvals r) (s.SaysNow gov rk rArgs rvals))) := by
  obtain ⟨n, rfl⟩ : ∃ n, depth = n + 1 := ⟨depth - 1, by omega⟩
  have hfn : Model.new.functions s.functions = s.functions := Model.functions_nil rfl _
  have hsays := saysNow (s := s) (m' := Model.new) rfl rfl gov rk rArgs rvals
  rw [← hsays]
  refine Atom.eval_par (build := fun _ => .err) (m := Model.new) (Model.Made.new) hg hsc N (.inr rfl) hr hv ⟨h.1, ?_⟩ n hpar
    (by rw [hfn]; exact hE)
  intro g args e
  have := h.2 g args e
  unfold Model.Callable
  rw [hfn]
  exact this

/-- The rules of a policy suit its definition. -/
theorem FnFree.good {build : FnBuild} {u : Str → Res Stage} (hc : build.Coherent u)
    (hbin : ∀ e s, u e = .ok s → s.Binary) {s : FnModel} (h : FnFree build s) {pk : Str} {d : PolicyDef}
    (hp : s.model.pDefs.get pk = some d) {rules : List Rule} (hr : s.model.policyRules pk = some rules) :
    rules.Nodup ∧ (∀ r ∈ rules, GoodRule d r) ∧ ∃ v, d = newPolicyDef pk v := by
  obtain ⟨m', h1, h2⟩ := h.side hc
  have hpp := h1.made.wellKeyed.pp pk
  rw [h2.pMap, h2.pDefs, hp] at hpp
  unfold Model.policyRules at hr
  cases hq : s.model.pMap.get pk with
  | none => rw [hq] at hpp; cases hpp
  | some p =>
    rw [hq] at hr
    cases hr
    rw [← h2.pMap] at hq
    obtain ⟨d', e1, e2, -⟩ := (h1.step hbin).p pk p hq
    rw [h2.pDefs, hp] at e1
    cases e1
    exact ⟨(h1.made.tidy.pols pk p hq).2.1.rules_nodup, e2, (h1.made.wellKeyed.p pk d (by rw [h2.pDefs]; exact hp)).2⟩

end FnModel

end Fastac
