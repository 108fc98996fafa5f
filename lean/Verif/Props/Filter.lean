import Verif.Lemmas.Filter
import Verif.Props.Exact

/-!
# C94: what `Filter` and `RangeMatches` report
-/

namespace Fastac

namespace FnModel

open Model

/-- **C94**, the part that holds for matchers of the model: in any program, `Filter` with the matcher `mk`, which says
`f`, returns without an error and lists the stored rules of which `f` is true, each as often as it is true (`f`
is a choice of conjunctions, and one of these may be true in several ways), and besides only the rule with
empty fields, and this only if the index has something left over of rules that have been removed.  The model is
the same afterwards.  The names `rk` and `mk` may be left out if they are `r` and `m`. -/
theorem c94_stored_partial (build : FnBuild) (u : Str → Res Stage) (hc : build.Coherent u)
    (hbin : ∀ e s, u e = .ok s → s.Binary)
    (grow : Nat → Nat) (rk mk pk rText : Str) (rArgs pArgs : List Str) (f : List (List Cond)) (root : Stage)
    (hw : (Cond.formula rk pk f).wf = true) (hs : (Cond.formula rk pk f).safe = true)
    (hroot : buildMatcherDef grow (Cond.formula rk pk f).toks = .ok root)
    (P H : Rule → Prop)
    (s : FnModel) (h : FnSeen build mk root H s) (hmk : mk ≠ [])
    (hr : s.model.rDefs.get rk = some rText) (hrA : splitC ',' (removeSpaces rText) = rArgs)
    (d : PolicyDef) (hp : s.model.pDefs.get pk = some d) (hpA : d.args = pArgs)
    (gov : Gov) (hgov : gov.Ok) (hsc : gov.Scoped) (N : Naming s.functions rk pk rArgs pArgs)
    (rvals : List Str) (hrl : Cond.Given rArgs rvals f)
    (hf : ∀ a ∈ Cond.anyAtoms f, a.FitsNow s gov rk pk rArgs pArgs rvals P)
    (huse : pk = s% "p" ∨ ∃ a ∈ Cond.anyAtoms f, ∃ y, Ref.pol y ∈ a.refs)
    (hHP : ∀ r, H r → P r)
    (hP0 : ((∀ r, ¬ H r) ∨ ∃ r, H r ∧ ∀ rules, s.model.policyRules pk = some rules → r ∉ rules) →
      P (List.replicate pArgs.length []))
    (ord : Order) (hord : ord.Valid) (depth : Nat) (hdep : 0 < depth)
    (times : Rule → Nat) (htimes : ∀ r, times r = Cond.timesTrue (fun a =>
      a.holds (Ref.val rArgs pArgs rvals r) (s.SaysNow gov rk rArgs rvals)) f)
    (params : List Param) (hparams : params = asking rk mk rvals ∨
      (rk = s% "r" ∧ params = .opt (.matcher (.str mk)) :: rvals.map .val) ∨
      (rk = s% "r" ∧ mk = s% "m" ∧ params = rvals.map .val)) :
    ∃ (rules rows : List Rule) (n : Nat), s.model.policyRules pk = some rules ∧
      (∀ r ∈ rules, H r) ∧ (∀ r, H r → r.length = pArgs.length) ∧
      (n ≠ 0 ↔ LeftOver pArgs (fun a r =>
        a.holds (Ref.val rArgs pArgs rvals r) (s.SaysNow gov rk rArgs rvals)) H rules f) ∧
      Lists pk times rules n pArgs.length rows ∧
      s.filter build gov depth ord params = (⟨s.model, s.fns.set (s% "eval") .eval⟩, rows, .ok ()) := by
  have huses : ∀ a ∈ Cond.anyAtoms f, a.Uses rArgs pArgs := fun a ha => (hf a ha).1
  have hfull : ∀ a ∈ Cond.anyAtoms f, a.Full := by
    intro a ha
    have := huses a ha
    cases a with
    | eq a b => trivial
    | call g args => exact this.1
  have hkey : root.policyKey = pk := by
    rw [buildMatcherDef_formula grow _ hw hs] at hroot
    cases hroot
    exact policyKey_trD hw N hfull huses huse
  obtain ⟨m', hg, hps, i, hi, hi'⟩ := h.side hc (by rw [hkey]; exact h.free.pHead hc hp)
  rw [hkey] at hi hi'
  have hpsome : (s.model.pMap.get pk).isSome = true := by
    have := hg.bound.tied.1.made.wellKeyed.pp pk
    rw [hps.pMap, hps.pDefs, hp] at this
    exact this
  have hrules := hps.policyRules hpsome
  have hrd : newPolicyDef rk rText = declare rk rArgs := newPolicyDef_names hrA N.r.good
  obtain ⟨j, mt, rules, h1, h2, h3, -, h5, h6, h7, h8, n, h9, h10⟩ := Model.seen_lists u hbin grow rk mk pk rArgs pArgs
    f root hw hs hroot P H m' hg d (hps.pDefs ▸ hp) hpA s.functions N huses huse
    (gov.withEval depth s.functions (MatchParams.get ⟨declare pk pArgs, declare rk rArgs, rvals⟩))
    (fun a r => a.holds (Ref.val rArgs pArgs rvals r) (s.SaysNow gov rk rArgs rvals))
    (fun a ha => eval_now hgov hsc N hrl.1 (hrl.2 a ha) (hf a ha) hdep (fun _ _ => rfl) rfl)
    (fun a _ r r' _ _ _ _ hag => a.holds_own hag) hHP (hrules ▸ hP0) ord hord
  rw [hi'] at h1
  cases h1
  have hres' : s.model.resolve (.live pk i) = some mt := by
    rw [← h2]
    simp only [resolve, hps.pMap]
    cases hq : s.model.pMap.get pk with
    | none => rw [hq] at hpsome; cases hpsome
    | some p => rfl
  have n1 : rk ≠ [] := by rintro rfl; exact absurd N.rHead (by simp)
  have := filter_picks (build := build) hr rfl n1 (Model.picks_stored hi hmk) hres' gov depth ord rvals
    (E := gov.withEval depth s.functions (MatchParams.get ⟨declare pk pArgs, declare rk rArgs, rvals⟩))
    (by rw [h3, hrd]) params hparams
  rw [h8] at this
  refine ⟨rules, _, n, hrules ▸ h5, h6, h7, h9, ?_, Prod.ext this.1 this.2⟩
  unfold Lists
  simp only [htimes]
  exact h10

/-- **C94**, the part that holds for a matcher that is given as text: `Filter` lists the rules of the policy of which
the condition is true, whatever has been removed before, and the rule with empty fields only if there are no
rules and the condition is true of this one.  The policy may be one of rules or one of roles; the fields of roles
are called `user`, `role` and `domain`.  All policies have the same rules afterwards, but there is one matcher more that
listens to this one. -/
theorem c94_inline_partial (build : FnBuild) (u : Str → Res Stage) (hc : build.Coherent u)
    (hbin : ∀ e s, u e = .ok s → s.Binary)
    (grow : Nat → Nat) (rk text pk rText : Str) (rArgs pArgs : List Str) (f : List (List Cond)) (root : Stage)
    (hw : (Cond.formula rk pk f).wf = true) (hs : (Cond.formula rk pk f).safe = true)
    (hroot : buildMatcherDef grow (Cond.formula rk pk f).toks = .ok root)
    (s : FnModel) (h : FnFree build s)
    (hx : build s.knows text = .ok root) (ht : text ≠ []) (hmx : s.model.mMap.get text = none)
    (hr : s.model.rDefs.get rk = some rText) (hrA : splitC ',' (removeSpaces rText) = rArgs)
    (hp : s.FieldsOf pk pArgs) (rules : List Rule) (hrules : s.model.policyRules pk = some rules)
    (hroles : pk.head? = some 'g' → rules.Nodup ∧ ∀ r ∈ rules, r.length = 3 ∧ ∀ x ∈ r, ',' ∉ x)
    (gov : Gov) (hgov : gov.Ok) (hsc : gov.Scoped) (N : Naming s.functions rk pk rArgs pArgs)
    (rvals : List Str) (hrl : Cond.Given rArgs rvals f)
    (P : Rule → Prop) (hf : ∀ a ∈ Cond.anyAtoms f, a.FitsNow s gov rk pk rArgs pArgs rvals P)
    (huse : pk = s% "p" ∨ ∃ a ∈ Cond.anyAtoms f, ∃ y, Ref.pol y ∈ a.refs)
    (hP : ∀ r ∈ rules, P r) (hP0 : rules = [] → P (List.replicate pArgs.length []))
    (ord : Order) (hord : ord.Valid) (depth : Nat) (hdep : 0 < depth)
    (Q : Rule → Atom → Prop) (hQ : ∀ r, Q r = fun a =>
      a.holds (Ref.val rArgs pArgs rvals r) (s.SaysNow gov rk rArgs rvals))
    (params : List Param) (hparams : params = asking rk text rvals ∨
      (rk = s% "r" ∧ params = .opt (.matcher (.str text)) :: rvals.map .val)) :
    ∃ (rows : List Rule) (n : Nat),
      (n ≠ 0 ↔ rules = [] ∧ Cond.anyHolds (Q (List.replicate pArgs.length [])) f) ∧
      Lists pk (fun r => Cond.timesTrue (Q r) f) rules n pArgs.length rows ∧
      (s.filter build gov depth ord params).2 = (rows, .ok ()) ∧
      (∀ key, (s.filter build gov depth ord params).1.model.policyRules key = s.model.policyRules key) ∧
      (∀ key, (s.filter build gov depth ord params).1.model.listening key =
        s.model.listening key + if key = pk then 1 else 0) := by
  have huses : ∀ a ∈ Cond.anyAtoms f, a.Uses rArgs pArgs := fun a ha => (hf a ha).1
  have hfull : ∀ a ∈ Cond.anyAtoms f, a.Full := by
    intro a ha
    have := huses a ha
    cases a with
    | eq a b => trivial
    | call g args => exact this.1
  rw [buildMatcherDef_formula grow _ hw hs] at hroot
  cases hroot
  have hkey := policyKey_trD hw N hfull huses huse
  have hb : (Stage.mk [] (Operand.trD (Cond.formula rk pk f) [])).Binary := by
    rcases hc s.knows text with e | e
    · exact hbin text _ (e ▸ hx)
    · rw [hx] at e; cases e
  have hdef : s.model.matcherPolicyDef pk = .ok (declare pk pArgs) ∧ rules.Nodup ∧
      ∀ r ∈ rules, GoodRule (declare pk pArgs) r := by
    rcases hp with ⟨d, hd, hA⟩ | ⟨hg, rfl⟩
    · have hh := h.pHead hc hd
      obtain ⟨g1, g2, v, hv⟩ := h.good hc hbin hd hrules
      have hdd : d = declare pk pArgs := by
        rw [hv]
        apply newPolicyDef_names _ N.p.good
        rw [← hA, hv]
        rfl
      refine ⟨?_, g1, hdd ▸ g2⟩
      cases pk with
      | nil => cases hh
      | cons c cs =>
        obtain rfl : c = 'p' := by simpa using hh
        simp only [matcherPolicyDef, if_true, hd, hdd]
    · obtain ⟨g1, g2⟩ := hroles hg
      refine ⟨?_, g1, fun r hr' => ⟨?_, ?_, (g2 r hr').2⟩⟩
      · cases pk with
        | nil => cases hg
        | cons c cs =>
          obtain rfl : c = 'g' := by simpa using hg
          simp only [matcherPolicyDef, (by decide : ('g' : Char) ≠ 'p'), if_false, if_true]
          rfl
      · rw [(g2 r hr').1, declare_args _ N.p.good]; rfl
      · rintro rfl
        exact absurd (g2 [] hr').1 (by decide)
  obtain ⟨hd, hnd, hgood⟩ := hdef
  obtain ⟨mt, e1, e2, -, -⟩ := newMatcher_idx (declare pk pArgs) _ hb rules hgood
  have hfresh : freshMatcher (build s.knows) s.model text = some mt := by
    unfold freshMatcher
    rw [hx]
    simp only [hkey, hd, hrules, e1]
  obtain ⟨e, hpick, hres, hext⟩ := Model.picks_fresh hmx ht hfresh
  have n1 : rk ≠ [] := by rintro rfl; exact absurd N.rHead (by simp)
  have hrd : newPolicyDef rk rText = declare rk rArgs := newPolicyDef_names hrA N.r.good
  have hfil := filter_picks (build := build) hr hext.rDefs n1 hpick hres gov depth ord rvals
    (E := gov.withEval depth s.functions (MatchParams.get ⟨declare pk pArgs, declare rk rArgs, rvals⟩))
    (by rw [e2, hrd]) params (hparams.imp_right .inl)
  obtain ⟨h8, n, h9, h10⟩ := fresh_lists hw N huses hfull (P := P)
    (E := gov.withEval depth s.functions (MatchParams.get ⟨declare pk pArgs, declare rk rArgs, rvals⟩))
    (T := fun a r => a.holds (Ref.val rArgs pArgs rvals r) (s.SaysNow gov rk rArgs rvals)) hb e1
    (fun a ha => eval_now hgov hsc N hrl.1 (hrl.2 a ha) (hf a ha) hdep (fun _ _ => rfl) rfl)
    (fun a _ r r' _ _ _ _ hag => a.holds_own hag) hnd (fun r hr' => ⟨hgood r hr', hP r hr'⟩) hP0 ord hord
  rw [h8] at hfil
  refine ⟨_, n, by rw [hQ]; exact h9, ?_, hfil.2, fun key => ?_, fun key => ?_⟩
  · unfold Lists
    simp only [hQ]
    exact h10
  · rw [hfil.1]
    exact hext.policyRules key
  · rw [hfil.1, Model.listening_fresh hx hfresh, hkey]

/-- **C94** for roles without a domain.  A matcher reads these rules as having the fields `user` and `role`; if there
are any, `Filter` lists those of which the condition is true and nothing else. -/
theorem c94_pairs_partial (build : FnBuild) (u : Str → Res Stage) (hc : build.Coherent u)
    (hbin : ∀ e s, u e = .ok s → s.Binary)
    (grow : Nat → Nat) (rk text pk rText : Str) (rArgs : List Str) (f : List (List Cond)) (root : Stage)
    (hw : (Cond.formula rk pk f).wf = true) (hs : (Cond.formula rk pk f).safe = true)
    (hroot : buildMatcherDef grow (Cond.formula rk pk f).toks = .ok root)
    (s : FnModel)
    (hx : build s.knows text = .ok root) (ht : text ≠ []) (hmx : s.model.mMap.get text = none)
    (hr : s.model.rDefs.get rk = some rText) (hrA : splitC ',' (removeSpaces rText) = rArgs)
    (hp : pk.head? = some 'g') (rules : List Rule) (hrules : s.model.policyRules pk = some rules) (hne : rules ≠ [])
    (hnd : rules.Nodup) (hlen : ∀ r ∈ rules, r.length = 2 ∧ ∀ x ∈ r, ',' ∉ x)
    (gov : Gov) (hgov : gov.Ok) (hsc : gov.Scoped) (N : Naming s.functions rk pk rArgs [s% "user", s% "role"])
    (rvals : List Str) (hrl : Cond.Given rArgs rvals f)
    (P : Rule → Prop) (hf : ∀ a ∈ Cond.anyAtoms f, a.FitsNow s gov rk pk rArgs [s% "user", s% "role"] rvals P)
    (huse : ∃ a ∈ Cond.anyAtoms f, ∃ y, Ref.pol y ∈ a.refs) (hP : ∀ r ∈ rules, P r)
    (ord : Order) (hord : ord.Valid) (depth : Nat) (hdep : 0 < depth)
    (Q : Rule → Atom → Prop) (hQ : ∀ r, Q r = fun a =>
      a.holds (Ref.val rArgs [s% "user", s% "role"] rvals r) (s.SaysNow gov rk rArgs rvals))
    (params : List Param) (hparams : params = asking rk text rvals ∨
      (rk = s% "r" ∧ params = .opt (.matcher (.str text)) :: rvals.map .val)) :
    ∃ rows : List Rule, Lists pk (fun r => Cond.timesTrue (Q r) f) rules 0 2 rows ∧
      (s.filter build gov depth ord params).2 = (rows, .ok ()) ∧
      (∀ key, (s.filter build gov depth ord params).1.model.policyRules key = s.model.policyRules key) ∧
      (∀ key, (s.filter build gov depth ord params).1.model.listening key =
        s.model.listening key + if key = pk then 1 else 0) := by
  have huses : ∀ a ∈ Cond.anyAtoms f, a.Uses rArgs [s% "user", s% "role"] := fun a ha => (hf a ha).1
  have hfull : ∀ a ∈ Cond.anyAtoms f, a.Full := by
    intro a ha
    have := huses a ha
    cases a with
    | eq a b => trivial
    | call g args => exact this.1
  rw [buildMatcherDef_formula grow _ hw hs] at hroot
  cases hroot
  have hkey := policyKey_trD hw N hfull huses (.inr huse)
  have hb : (Stage.mk [] (Operand.trD (Cond.formula rk pk f) [])).Binary := by
    rcases hc s.knows text with e | e
    · exact hbin text _ (e ▸ hx)
    · rw [hx] at e; cases e
  have hd : s.model.matcherPolicyDef pk = .ok (gDef pk) := by
    cases pk with
    | nil => cases hp
    | cons c cs =>
      obtain rfl : c = 'g' := by simpa using hp
      simp only [matcherPolicyDef, (by decide : ('g' : Char) ≠ 'p'), if_false, if_true]
  have hrd : newPolicyDef rk rText = declare rk rArgs := newPolicyDef_names hrA N.r.good
  obtain ⟨mt, e1, e2, h8, h10⟩ := pairs_lists hw N huses hfull (P := P) (rules := rules)
    (E := gov.withEval depth s.functions (MatchParams.get ⟨gDef pk, declare rk rArgs, rvals⟩))
    (T := fun a r => a.holds (Ref.val rArgs [s% "user", s% "role"] rvals r) (s.SaysNow gov rk rArgs rvals)) hb
    (fun a ha => eval_now hgov hsc N hrl.1 (hrl.2 a ha) (hf a ha) hdep (fun r hr' => by
      funext x
      unfold MatchParams.get
      simp only [gDef_pairs pk hr' x]) rfl)
    (fun a _ r r' _ _ _ _ hag => a.holds_own hag) hne hnd (fun r hr' => ⟨hlen r hr', hP r hr'⟩) ord hord
  have hfresh : freshMatcher (build s.knows) s.model text = some mt := by
    unfold freshMatcher
    rw [hx]
    simp only [hkey, hd, hrules, e1]
  obtain ⟨e, hpick, hres, hext⟩ := Model.picks_fresh hmx ht hfresh
  have n1 : rk ≠ [] := by rintro rfl; exact absurd N.rHead (by simp)
  have hfil := filter_picks (build := build) hr hext.rDefs n1 hpick hres gov depth ord rvals
    (E := gov.withEval depth s.functions (MatchParams.get ⟨gDef pk, declare rk rArgs, rvals⟩))
    (by rw [e2, hrd]) params (hparams.imp_right .inl)
  rw [h8] at hfil
  refine ⟨_, ?_, hfil.2, fun key => ?_, fun key => ?_⟩
  · unfold Lists
    simp only [hQ, List.replicate_zero, List.append_nil]
    exact h10
  · rw [hfil.1]
    exact hext.policyRules key
  · rw [hfil.1, Model.listening_fresh hx hfresh, hkey]

/-- Which rows there are. -/
theorem Lists.mem {pk : Str} {times : Rule → Nat} {rules rows : List Rule} {n width : Nat}
    (h : Lists pk times rules n width rows) (row : Rule) :
    row ∈ rows ↔ (∃ r ∈ rules, times r ≠ 0 ∧ row = pk :: r) ∨ (n ≠ 0 ∧ row = pk :: List.replicate width []) := by
  rw [h.mem_iff]
  simp only [List.mem_append, List.mem_flatMap, List.mem_replicate]

/-- **C94** for `RangeMatches`, for all models and arguments: the callback gets the rows of `Filter` one after the
other until it stops, and the call returns the error of `Filter` unless the callback stopped.  The model is the same
as after `Filter`. -/
theorem c94_range {σ : Type} (build : FnBuild) (s : FnModel) (gov : Gov) (depth : Nat) (ord : Order)
    (params : List Param) (fn : σ → Rule → σ × Bool) (a : σ) :
    (s.rangeMatches build gov depth ord params fn a).1 = (s.filter build gov depth ord params).1 ∧
    (s.rangeMatches build gov depth ord params fn a).2.1 =
      rangeList fn (s.filter build gov depth ord params).2.1 a ∧
    (s.rangeMatches build gov depth ord params fn a).2.2 =
      if stopsAt fn (s.filter build gov depth ord params).2.1 a then .ok ()
      else (s.filter build gov depth ord params).2.2 := by
  obtain ⟨h1, h2, h3⟩ := Model.range_filter (build s.knows) s.model (fun _ => none) (s.lib gov depth) ord params fn a
  refine ⟨?_, h2, h3⟩
  show FnModel.mk _ _ = FnModel.mk _ _
  rw [h1]

/-- **C94**: `Filter` and `Enforce` with the same arguments.  When `Filter` returns rows without an error, `Enforce`
returns without an error (it may panic, when there is no effector, or no policy definition with the key of
the matcher), and it decides on the effects of these rows. -/
theorem c94_enforce (build : FnBuild) (s : FnModel) (gov : Gov) (depth : Nat) (ord : Order) (params : List Param)
    (rows : List Rule) (hF : (s.filter build gov depth ord params).2 = (rows, .ok ())) :
    (s.enforce build gov depth ord params).2 = .panic ∨
    ∃ m' ctx eff key d answer, newContext (build s.knows) s.model (splitParams params).1 = (m', .ok ctx) ∧
      ctx.effector = some eff ∧ m'.pDefs.get key = some d ∧ (∀ row ∈ rows, row.head? = some key) ∧
      (s.enforce build gov depth ord params).2 = .ok answer ∧
      (eff = SOME_ALLOW → (answer = true ↔ ∃ row ∈ rows, d.getEft row = .allow)) ∧
      (eff = NO_DENY → (answer = true ↔ ¬ ∃ row ∈ rows, d.getEft row = .deny)) ∧
      (eff = SOME_ALLOW_NO_DENY → (∀ row ∈ rows, d.getEft row ≠ .indeterminate) →
        (answer = true ↔ (∃ row ∈ rows, d.getEft row = .allow) ∧ ¬ ∃ row ∈ rows, d.getEft row = .deny)) ∧
      (eff ≠ SOME_ALLOW → eff ≠ NO_DENY → eff ≠ SOME_ALLOW_NO_DENY → answer = false) := by
  unfold FnModel.filter FnModel.rangeMatches Model.rangeParams at hF
  unfold FnModel.enforce Model.enforceParams
  simp only at hF ⊢
  rcases hctx : newContext (build s.knows) s.model (splitParams params).1 with ⟨m', ctx | _ | _⟩
  · rw [hctx] at hF
    simp only [Model.rangeCtx] at hF
    unfold Model.enforceCtx
    simp only
    cases hm : ctx.matcher.bind m'.resolve with
    | none => exact .inl rfl
    | some mt =>
      cases hr : ctx.rDef with
      | none => exact .inl rfl
      | some rDef =>
        rw [hm, hr] at hF
        simp only at hF
        cases he : ctx.effector with
        | none => exact .inl rfl
        | some eff =>
          simp only
          cases hd : m'.pDefs.get mt.pDef.key with
          | none => exact .inl rfl
          | some d =>
            refine .inr ?_
            simp only
            generalize hE : m'.evaluator (fun _ => none) (s.lib gov depth) mt rDef (splitParams params).2 = E at hF ⊢
            have hrows : (Fastac.filter mt E ord).1 = rows := congrArg Prod.fst hF
            have hst : (Fastac.filter mt E ord).2.noError := by
              have h2 : (Fastac.filter mt E ord).2.result = .ok () := congrArg Prod.snd hF
              cases hq : (Fastac.filter mt E ord).2 <;> rw [hq] at h2
              · exact .inl rfl
              · exact .inr rfl
              · cases h2
              · cases h2
            have hfe : Fastac.filter mt E ord = (rows, (Fastac.filter mt E ord).2) := by rw [← hrows]
            have hkey : ∀ row ∈ rows, row.head? = some mt.pDef.key := by
              intro row h
              rw [← hrows, filter_eq] at h
              obtain ⟨r, -, rfl⟩ := List.mem_map.1 h
              rfl
            by_cases h1 : eff = SOME_ALLOW
            · subst h1
              obtain ⟨b, e1, e2⟩ := c01_some_allow mt d E ord rows _ hfe hst
              refine ⟨m', ctx, _, _, d, b, rfl, he, hd, hkey, e1, fun _ => e2, fun e => absurd e (by decide),
                fun e => absurd e (by decide), fun e => absurd rfl e⟩
            by_cases h2 : eff = NO_DENY
            · subst h2
              obtain ⟨b, e1, e2⟩ := c02_no_deny mt d E ord rows _ hfe hst
              refine ⟨m', ctx, _, _, d, b, rfl, he, hd, hkey, e1, fun e => absurd e (by decide), fun _ => e2,
                fun e => absurd e (by decide), fun _ e => absurd rfl e⟩
            by_cases h3 : eff = SOME_ALLOW_NO_DENY
            · subst h3
              by_cases hdet : ∀ row ∈ rows, d.getEft row ≠ .indeterminate
              · obtain ⟨b, e1, e2⟩ := c03_allow_no_deny_partial mt d E ord rows _ hfe hst hdet
                exact ⟨m', ctx, _, _, d, b, rfl, he, hd, hkey, e1, fun e => absurd e (by decide),
                  fun e => absurd e (by decide), fun _ _ => e2, fun _ _ e => absurd rfl e⟩
              · obtain ⟨b, e1⟩ : ∃ b, Fastac.enforce mt d E ord SOME_ALLOW_NO_DENY = .ok b := by
                  unfold Fastac.enforce
                  rw [Matcher.rangeMatches_eq, enforce_allowNoDeny_aux _ _ _ _ rfl rfl rfl]
                  split
                  · exact ⟨_, rfl⟩
                  · rw [filter_eq] at hst
                    rcases hst with h | h <;> simp only at h <;> rw [h] <;> exact ⟨_, rfl⟩
                exact ⟨m', ctx, _, _, d, b, rfl, he, hd, hkey, e1, fun e => absurd e (by decide),
                  fun e => absurd e (by decide), fun _ h => absurd h hdet, fun _ _ e => absurd rfl e⟩
            · refine ⟨m', ctx, _, _, d, false, rfl, he, hd, hkey, c04_never_reported mt d E ord eff h1 h2 h3 hst,
                fun e => absurd e h1, fun e => absurd e h2, fun e => absurd e h3, fun _ _ _ => rfl⟩
  · exact absurd (congrArg Prod.snd (hctx ▸ hF)) (by simp)
  · exact .inl rfl

end FnModel

end Fastac
