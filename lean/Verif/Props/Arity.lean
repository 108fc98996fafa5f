import Verif.Lemmas.Arity
import Verif.Props.Shipped

/-!
# C93: requests and rules with the wrong number of values
-/

namespace Fastac

namespace FnModel

open Model

/-- **C93 (a)**: a request with more values than its definition has attributes is decided like the one without its
first value, cut to the number of attributes.  `opts` are the options given to `Enforce`; `rk` is the request definition
they name, or `r`. -/
theorem c93_long_request (build : FnBuild) (s : FnModel) (gov : Gov) (depth : Nat) (ord : Order) (opts : List CtxOpt)
    (rk rText : Str) (hk : rk ≠ []) (hr : s.model.rDefs.get rk = some rText)
    (ho : ∀ a, .request a ∈ opts → a = .str rk) (hd : rk = s% "r" ∨ .request (.str rk) ∈ opts)
    (vals : List Str) (h : (splitC ',' (removeSpaces rText)).length < vals.length) :
    s.enforce build gov depth ord (opts.map .opt ++ vals.map .val) =
      s.enforce build gov depth ord (opts.map .opt ++
        ((vals.drop 1).take (splitC ',' (removeSpaces rText)).length).map .val) := by
  have key : s.model.enforceParams (build s.knows) (fun _ => none) (s.lib gov depth) ord
        (opts.map .opt ++ vals.map .val) =
      s.model.enforceParams (build s.knows) (fun _ => none) (s.lib gov depth) ord (opts.map .opt ++
        ((vals.drop 1).take (splitC ',' (removeSpaces rText)).length).map .val) := by
    simp only [Model.enforceParams, splitParams_opts]
    cases hc : newContext (build s.knows) s.model opts with
    | mk m' x =>
      cases x with
      | err => rfl
      | panic => rfl
      | ok ctx =>
        simp only
        rw [enforceCtx_long m' _ _ ord ctx (newContext_rDef hk hr ho hd hc) h]
        rfl
  simp only [enforce, key, reaches, splitParams_opts]

/-- **C93 (b)**: a stored rule with more values than its definition has attributes satisfies a matcher iff the rule
without its first value, cut to the number of attributes, does; but its effect is that of the rule cut at the end.
`mt` is a matcher of the model, `k` the key of the policy. -/
theorem c93_long_rule (s : FnModel) (gov : Gov) (hg : gov.ByParams) (depth : Nat) (mt : Matcher) (pk pText k : Str)
    (hp : mt.pDef = newPolicyDef pk pText) (rDef : PolicyDef) (rvals : List Str) (r : Rule)
    (h : (splitC ',' (removeSpaces pText)).length < r.length) :
    let E := s.model.evaluator (fun _ => none) (s.lib gov depth) mt rDef rvals
    let n := (splitC ',' (removeSpaces pText)).length
    Stage.satAny E r mt.exprRoot.children = Stage.satAny E ((r.drop 1).take n) mt.exprRoot.children ∧
    mt.pDef.getEft (k :: r) = mt.pDef.getEft (k :: r.take n) := by
  intro E n
  constructor
  · apply Stage.satAny_congr
    intro e
    show (gov.withEval depth s.functions (MatchParams.get ⟨mt.pDef, rDef, rvals⟩)).eval e r = _
    have hl : mt.pDef.args.length = n := by rw [hp]; rfl
    have := withEval_congr hg depth s.functions (MatchParams.get ⟨mt.pDef, rDef, rvals⟩)
      (r := r) (r' := (r.drop 1).take n) (fun w => by
        rw [MatchParams.get_long_rule hp (by show mt.pDef.args.length < _; rw [hl]; exact h)]
        show _ = MatchParams.get _ (shifted n r) w
        rw [← hl]) e
    exact this
  · rw [hp]
    exact getEft_long pk pText h k

/-- **C93 (c)**, the part that holds: a request with too few values.  If each way in which the matcher can be true mentions an attribute for
which the request has no value, then the request is not granted under `some(where(p.eft==allow))` and
`some(where(p.eft==allow))&&!some(where(p.eft==deny))`, whatever the rules; but under `!some(where(p.eft==deny))` it is
not denied, except by an error.  `mt` is the matcher stored under `mk`.  Missing: requests with too few values whose
missing attributes are mentioned on some ways only (if they are mentioned nowhere, `c83_verdict_partial` says how the
request is decided), and `!some(where(p.eft==deny))`, where the claim is false. -/
theorem c93_short_partial (build : FnBuild) (s : FnModel) (gov : Gov) (hgov : gov.Ok) (depth : Nat) (ord : Order)
    (grow : Nat → Nat) (rk mk ek pk rText eff : Str) (rArgs pArgs : List Str) (f : List (List Cond))
    (x : MEntry) (mt : Matcher)
    (hw : (Cond.formula rk pk f).wf = true) (hs : (Cond.formula rk pk f).safe = true)
    (hx : s.model.mMap.get mk = some x) (hmt : s.model.resolve x = some mt)
    (hroot : buildMatcherDef grow (Cond.formula rk pk f).toks = .ok mt.exprRoot)
    (hmk : mk ≠ []) (hek : ek ≠ []) (hr : s.model.rDefs.get rk = some rText)
    (hrA : splitC ',' (removeSpaces rText) = rArgs) (he : s.model.eDefs.get ek = some eff)
    (N : Naming s.functions rk pk rArgs pArgs) (hf : ∀ a ∈ Cond.anyAtoms f, a.Uses rArgs pArgs)
    (hfn : ∀ g args, .call g args ∈ Cond.anyAtoms f → g = s% "eval" ∨ ∃ fn, s.functions g = some fn)
    (rvals : List Str) (hrl : rvals.length ≤ rArgs.length) (hst : Cond.Starved rArgs rvals f) :
    ∀ params ∈ [named rk mk ek ++ rvals.map .val] ++
        (if rk = s% "r" ∧ mk = s% "m" ∧ ek = s% "e" then [rvals.map .val] else []),
      (eff = SOME_ALLOW ∨ eff = SOME_ALLOW_NO_DENY → (s.enforce build gov depth ord params).2 ≠ .ok true) ∧
      (eff = NO_DENY → (s.enforce build gov depth ord params).2 ≠ .ok false) := by
  have hfull : ∀ a ∈ Cond.anyAtoms f, a.Full := by
    intro a ha
    have := hf a ha
    cases a with
    | eq a b => trivial
    | call g args => exact this.1
  have n1 : rk ≠ [] := by rintro rfl; exact absurd N.rHead (by simp)
  have hrd : newPolicyDef rk rText = declare rk rArgs := newPolicyDef_names hrA N.r.good
  rw [buildMatcherDef_formula grow _ hw hs] at hroot
  have hroot := Res.ok.inj hroot
  have hdead : ∀ e, (∃ a ∈ Cond.anyAtoms f, a.Lacks rArgs rvals ∧ e = a.text rk pk) → ∀ r,
      (s.model.evaluator (fun _ => none) (s.lib gov depth) mt (declare rk rArgs) rvals).eval e r ≠ .bool true := by
    rintro e ⟨a, ha, hl, rfl⟩ r
    have : (s.model.evaluator (fun _ => none) (s.lib gov depth) mt (declare rk rArgs) rvals).eval (a.text rk pk) r = .err := by
      refine Atom.eval_lacks hgov N hrl (hf a ha) (fns := withFn s.functions (s% "eval") _) ?_ ?_ hl mt.pDef r
      · intro b hb
        have hne := N.not_eval b
        cases b with
        | req x => exact ⟨N.r.ident x hb, (withFn_ne hne).trans (N.r.free x hb)⟩
        | pol y => exact ⟨N.p.ident y hb, (withFn_ne hne).trans (N.p.free y hb)⟩
        | lit t => exact hb.1
      · rintro g args rfl
        by_cases hg : g = s% "eval"
        · subst hg; exact ⟨_, withFn_self⟩
        · obtain h | ⟨fn, h⟩ := hfn g args ha
          · exact absurd h hg
          · exact ⟨fn, (withFn_ne hg).trans h⟩
    rw [this]; simp
  have hw' := hw
  simp only [Formula.wf, Bool.and_eq_true] at hw'
  have hroutes := Cond.routes_trD rk pk f [] hw'.2
  simp only [Stage.tailsC, List.isEmpty_nil, if_true, List.map_cons, List.map_nil, List.append_nil] at hroutes
  have hall : ∀ q ∈ Stage.routesC mt.exprRoot.children, ∃ st ∈ q,
      ∃ a ∈ Cond.anyAtoms f, a.Lacks rArgs rvals ∧ st.expr = a.text rk pk := by
    intro q hq
    rw [← hroot] at hq
    have hm : exprs q ∈ (Stage.routesC (Operand.trD (Cond.formula rk pk f) [])).map exprs := List.mem_map_of_mem hq
    rw [hroutes, List.mem_flatMap] at hm
    obtain ⟨w, hw1, hw2⟩ := hm
    obtain ⟨a, ha, hl⟩ := hst w hw1
    have haf := Cond.anyWays_atoms f w hw1 a ha
    have : a.text rk pk ∈ exprs q := by
      rw [List.mem_singleton.1 hw2, ← Atom.expr_eq rk pk (hfull a haf)]
      exact List.mem_map_of_mem (f := fun a => tokensToExpr (Atom.toks rk pk a)) ha
    obtain ⟨st, hst1, hst2⟩ := List.mem_map.1 this
    exact ⟨st, hst1, a, haf, hl, hst2⟩
  have hctx : ∀ params, (splitParams params).2 = rvals →
      newContext (build s.knows) s.model (splitParams params).1 =
        (s.model, .ok ⟨some (newPolicyDef rk rText), some x, some eff⟩) →
      (eff = SOME_ALLOW ∨ eff = SOME_ALLOW_NO_DENY → (s.enforce build gov depth ord params).2 ≠ .ok true) ∧
      (eff = NO_DENY → (s.enforce build gov depth ord params).2 ≠ .ok false) := by
    intro params hv hc
    have e1 : (s.enforce build gov depth ord params).2 =
        s.model.enforceCtx (fun _ => none) (s.lib gov depth) ord ⟨some (declare rk rArgs), some x, some eff⟩ rvals := by
      simp only [enforce, Model.enforceParams, hc, hv, hrd]
    rw [e1]
    simp only [Model.enforceCtx, Option.bind_some, hmt]
    cases hp : s.model.pDefs.get mt.pDef.key with
    | none => simp
    | some pDef =>
      obtain ⟨st, hk⟩ := enforce_keep (ord := ord) (pDef := pDef) hdead hall
      simp only [hk]
      constructor
      · intro h
        cases hst : st eff
        all_goals rcases h with rfl | rfl <;> decide
      · rintro rfl
        cases hst : st NO_DENY
        all_goals decide
  intro params hp
  rw [List.mem_append, List.mem_singleton] at hp
  rcases hp with rfl | hp
  · refine hctx _ (by rw [splitParams_named]) ?_
    rw [splitParams_named]
    exact newContext_named hr hx he n1 hmk hek
  · split at hp
    · rename_i hh
      obtain ⟨rfl, rfl, rfl⟩ := hh
      rw [List.mem_singleton] at hp
      subst hp
      refine hctx _ (by rw [splitParams_vals]) ?_
      rw [splitParams_vals]
      exact newContext_default hr hx he
    · cases hp

end FnModel

/-! ## Examples and counterexamples -/

namespace ArityExample

open Model Shipped Shipped.Run

theorem gov_byParams : Gov.ByParams EvalExample.gov := by
  intro fns par e r r' h
  have : par r = par r' := funext h
  simp only [EvalExample.gov, Gov.scope, EndToEnd.miniGov, this]

def data1 : List Str := [s% "alice", s% "data1", s% "read"]

/-- A rule of examples/rbac_model.conf with a value too many. -/
def longProgram : FnModel := add (start (s% "rbac") args3 args3 SOME_ALLOW) (s% "p" :: s% "x" :: data1)

/-- The same for examples/rbac_with_deny_model.conf: everyone may, alice may not. -/
def longDeny : FnModel := add (add (start (s% "rbac") args3 args4 SOME_ALLOW_NO_DENY)
  (s% "p" :: data1 ++ [s% "allow"])) (s% "p" :: s% "x" :: data1 ++ [s% "deny"])

/-- **C93 fails**: a request with a value in front is granted; so is a request by a rule with a value in front; a rule
that denies no longer does if there is a value in front of it; and if only `deny` counts, a request without action is
granted although every rule about it denies. -/
theorem c93_fails :
    ask rbacProgram (s% "nobody" :: data1) = .ok true ∧
    ask longProgram data1 = .ok true ∧
    ask longDeny data1 = .ok true ∧
    ask (denyProgram NO_DENY) [s% "carol", s% "data1", s% "write"] = .ok false ∧
    ask (denyProgram NO_DENY) [s% "carol", s% "data1"] = .ok true := by decide +kernel

/-- The hypotheses of `c93_long_request` hold. -/
example (v sub obj act : Str) (more : List Str) : rbacProgram.enforce fbuild EvalExample.gov 1 Order.fwd
      ((v :: sub :: obj :: act :: more).map .val) =
    rbacProgram.enforce fbuild EvalExample.gov 1 Order.fwd ([sub, obj, act].map .val) :=
  FnModel.c93_long_request fbuild rbacProgram EvalExample.gov 1 Order.fwd [] (s% "r") args3 (by decide) (by decide +kernel)
    (fun _ h => by cases h) (.inl rfl) (v :: sub :: obj :: act :: more)
    (by
      have : (splitC ',' (removeSpaces args3)).length = 3 := by decide
      rw [this]; simp only [List.length_cons]; omega)

/-- The only matcher of a program. -/
def theMatcher (s : FnModel) : Matcher :=
  ((s.model.mMap.get (s% "m")).bind s.model.resolve).getD ⟨⟨[], [], []⟩, .mk [] [], newNode []⟩

theorem resolved {s : FnModel} (h : ((s.model.mMap.get (s% "m")).bind s.model.resolve).isSome = true) :
    ∃ x, s.model.mMap.get (s% "m") = some x ∧ s.model.resolve x = some (theMatcher s) := by
  unfold theMatcher
  cases hx : s.model.mMap.get (s% "m") with
  | none => rw [hx] at h; cases h
  | some x =>
    rw [hx] at h
    simp only [Option.bind_some] at h ⊢
    cases hm : s.model.resolve x with
    | none => rw [hm] at h; cases h
    | some mt => exact ⟨x, rfl, hm⟩

/-- The hypotheses of `c93_long_rule` hold. -/
example (rDef : PolicyDef) (rvals : List Str) (r : Rule) (h : 4 < r.length) :
    (theMatcher longDeny).pDef.getEft (s% "p" :: r) = (theMatcher longDeny).pDef.getEft (s% "p" :: r.take 4) ∧
    Stage.satAny (longDeny.model.evaluator (fun _ => none) (longDeny.lib EvalExample.gov 1) (theMatcher longDeny) rDef rvals)
        r (theMatcher longDeny).exprRoot.children =
      Stage.satAny (longDeny.model.evaluator (fun _ => none) (longDeny.lib EvalExample.gov 1) (theMatcher longDeny) rDef rvals)
        ((r.drop 1).take 4) (theMatcher longDeny).exprRoot.children := by
  have e : (splitC ',' (removeSpaces args4)).length = 4 := by decide
  have := FnModel.c93_long_rule longDeny EvalExample.gov gov_byParams 1 (theMatcher longDeny) (s% "p") args4 (s% "p") (by rfl)
    rDef rvals r (by rw [e]; exact h)
  simp only [e] at this
  exact this.symm

/-- The hypotheses of `c93_short_partial` hold: no request without action is granted, whoever asks for what. -/
example (vals : List Str) (h : vals.length ≤ 2) :
    (rbacProgram.enforce fbuild EvalExample.gov 1 Order.fwd (vals.map .val)).2 ≠ .ok true := by
  obtain ⟨x, hx, hm⟩ := resolved (s := rbacProgram) (by decide +kernel)
  refine (FnModel.c93_short_partial fbuild rbacProgram EvalExample.gov EvalExample.gov_ok 1 Order.fwd (fun _ => 0) (s% "r")
    (s% "m") (s% "e") (s% "p") args3 SOME_ALLOW Shipped.args Shipped.args rbac x (theMatcher rbacProgram) (by decide) (by decide)
    hx hm ?_ (by decide) (by decide) (by decide +kernel) (by decide) (by decide +kernel)
    ⟨writable_of (by decide) (by decide +kernel) (by decide +kernel), writable_of (by decide) (by decide +kernel)
      (by decide +kernel), rfl, 'p', [], rfl, .inl rfl, by decide⟩ ?_ ?_ vals (by show vals.length ≤ 3; omega) ?_ (vals.map .val) (by simp)).1
    (.inl rfl)
  · exact buildMatcherDef_formula _ _ (by decide) (by decide)
  · intro a ha
    have ha : a ∈ [.call (s% "g") [.req (s% "sub"), .pol (s% "sub")], .eq (.req (s% "obj")) (.pol (s% "obj")),
      .eq (.req (s% "act")) (.pol (s% "act"))] := ha
    simp only [List.mem_cons, List.not_mem_nil, or_false] at ha
    rcases ha with rfl | rfl | rfl
    · exact ⟨by simp, by decide, by decide, noTailRef_iff (by decide)⟩
    · exact ⟨by decide, by decide⟩
    · exact ⟨by decide, by decide⟩
  · intro g args ha
    have ha : Atom.call g args ∈ [Atom.call (s% "g") [.req (s% "sub"), .pol (s% "sub")],
      .eq (.req (s% "obj")) (.pol (s% "obj")), .eq (.req (s% "act")) (.pol (s% "act"))] := ha
    simp only [List.mem_cons, List.not_mem_nil, or_false, reduceCtorEq, Atom.call.injEq] at ha
    rw [ha.1]
    exact .inr ⟨_, rfl⟩
  · intro w hw
    have hw : w ∈ [[Atom.call (s% "g") [.req (s% "sub"), .pol (s% "sub")],
      .eq (.req (s% "obj")) (.pol (s% "obj")), .eq (.req (s% "act")) (.pol (s% "act"))]] := hw
    rw [List.mem_singleton] at hw
    subst hw
    refine ⟨.eq (.req (s% "act")) (.pol (s% "act")), by simp, s% "act", by simp [Atom.refs], ?_⟩
    show vals[2]? = none
    rw [List.getElem?_eq_none_iff]
    exact h

end ArityExample

end Fastac
