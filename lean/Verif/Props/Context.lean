import Verif.Lemmas.Sound

/-!
# C57: what a context consists of
-/

namespace Fastac

/-- What is left after the options: the defaults. -/
theorem CtxOk.finish {build : Str → Res Stage} {m0 m1 m' : Model} (hs : m0.Sound) {opts : List CtxOpt}
    {c0 c1 ctx : Ctx} (h : CtxOk build m0 opts m1 c0) (hr : defaultRequest m1 c0 = .ok c1) {c2 : Ctx}
    (hm : defaultMatcher build m1 c1 = (m', .ok c2)) (he : ctx = defaultEffector m' c2) :
    ctx.rDef = ((lastRequest opts).getD (.str (s% "r"))).stands m0 ∧ ctx.rDef.isSome ∧
    ctx.effector = ((lastEffector opts).getD (.str (s% "e"))).stands m0 ∧
    ctx.matcher.bind m'.resolve = ((lastMatcher opts).getD (.str (s% "m"))).stands build m0 ∧
    m0.Extends m' := by
  -- the request definition
  have r1 : c1.rDef = ((lastRequest opts).getD (.str (s% "r"))).stands m0 ∧ c1.rDef.isSome ∧
      c1.matcher = c0.matcher ∧ c1.effector = c0.effector := by
    unfold defaultRequest at hr
    cases h0 : c0.rDef with
    | some d =>
      rw [h0] at hr
      simp only [Option.isNone_some, Bool.false_eq_true, if_false, Res.ok.injEq] at hr
      subst hr
      have hR := h.rDef
      have hS := h.rSome
      rw [h0] at hR hS
      cases hl : lastRequest opts with
      | none => rw [hl] at hS; cases hS
      | some a =>
        rw [hl] at hR
        exact ⟨by rw [h0, hR]; rfl, by rw [h0]; rfl, rfl, rfl⟩
    | none =>
      rw [h0] at hr
      simp only [Option.isNone_none, if_true] at hr
      have hS := h.rSome
      rw [h0] at hS
      cases hl : lastRequest opts with
      | some a => rw [hl] at hS; cases hS
      | none =>
        simp only [setRequestOpt, Model.getRequestDef, h.ext.rDefs] at hr
        simp only [Option.getD_none, RArg.stands, requestNamed]
        cases hg : m0.rDefs.get (s% "r") with
        | none => rw [hg] at hr; cases hr
        | some t =>
          rw [hg] at hr
          cases hr
          exact ⟨rfl, rfl, rfl, rfl⟩
  obtain ⟨r1, r2, r3, r4⟩ := r1
  -- the matcher
  have s1 : c2.matcher.bind m'.resolve = ((lastMatcher opts).getD (.str (s% "m"))).stands build m0 ∧
      m0.Extends m' ∧ c2.rDef = c1.rDef ∧ c2.effector = c1.effector := by
    unfold defaultMatcher at hm
    have hS := h.mSome
    cases h0 : c0.matcher with
    | some x =>
      rw [r3, h0] at hm
      simp only [Option.isNone_some, Bool.false_eq_true, if_false, Prod.mk.injEq, Res.ok.injEq] at hm
      obtain ⟨e1, e2⟩ := hm
      subst e1 e2
      rw [h0] at hS
      cases hl : lastMatcher opts with
      | none => rw [hl] at hS; cases hS
      | some a =>
        refine ⟨?_, h.ext, rfl, rfl⟩
        rw [r3, h.mt, hl]; rfl
    | none =>
      rw [r3, h0] at hm
      simp only [Option.isNone_none, if_true] at hm
      rw [h0] at hS
      cases hl : lastMatcher opts with
      | some a => rw [hl] at hS; cases hS
      | none =>
        have hc : CtxOk build m0 [] m1 ⟨none, none, none⟩ :=
          ⟨h.ext, rfl, rfl, rfl, rfl, rfl, rfl, fun _ h => by cases h⟩
        simp only [Option.getD_none, MArg.stands]
        obtain ⟨g1, -, g3⟩ := setMatcherOpt_ok hs hc (.str (s% "m")) (fun x e => by cases e)
        -- the outcome is the same for every context
        have hind : setMatcherOpt build m1 c1 (.str (s% "m")) =
            ((setMatcherOpt build m1 ⟨none, none, none⟩ (.str (s% "m"))).1,
              (setMatcherOpt build m1 ⟨none, none, none⟩ (.str (s% "m"))).2.map
                fun c => { c1 with matcher := c.matcher }) := by
          unfold setMatcherOpt
          simp only
          split
          · rename_i h; cases h
          · cases m1.mMap.get (s% "m") with
            | some x => rfl
            | none =>
              simp only
              cases (m1.buildFromExpr build (s% "m")).2 <;> rfl
        obtain ⟨⟨mm, r⟩, hq⟩ : ∃ y, setMatcherOpt build m1 ⟨none, none, none⟩ (.str (s% "m")) = y :=
          ⟨_, rfl⟩
        rw [hq] at hind g1
        rw [hind] at hm
        cases r with
        | ok cc =>
          simp only [Res.map_ok, Prod.mk.injEq, Res.ok.injEq] at hm
          obtain ⟨e1, e2⟩ := hm
          subst e1 e2
          have g2 := (setMatcherOpt_ok hs hc (.str (s% "m")) (fun x e => by cases e)).2.1 cc
            (by rw [hq])
          rw [hq] at g2
          exact ⟨g2.mt, g1, rfl, rfl⟩
        | err =>
          simp only [Res.map_err, Prod.mk.injEq, Res.ok.injEq] at hm
          obtain ⟨e1, e2⟩ := hm
          subst e1 e2
          refine ⟨?_, g1, rfl, rfl⟩
          rw [r3, h0]
          have : ¬ CtxOpt.Works build m0 (.matcher (.str (s% "m"))) := by
            rw [g3, hq]
            rintro ⟨_, e⟩
            cases e
          cases hx : matcherNamed build m0 (s% "m") with
          | none => rfl
          | some mt => exact absurd (Or.inr ⟨mt, hx⟩) this
        | panic => simp only [Res.map_panic, Prod.mk.injEq, reduceCtorEq, and_false] at hm
  obtain ⟨s1, s2, s3, s4⟩ := s1
  -- the effector
  have t1 : ctx.rDef = c2.rDef ∧ ctx.matcher = c2.matcher ∧
      ctx.effector = ((lastEffector opts).getD (.str (s% "e"))).stands m0 := by
    rw [he]
    unfold defaultEffector
    have hE := h.eff
    have hS := h.eSome
    cases h0 : c0.effector with
    | some d =>
      rw [s4, r4, h0]
      simp only [Option.isNone_some, Bool.false_eq_true, if_false]
      rw [h0] at hE hS
      cases hl : lastEffector opts with
      | none => rw [hl] at hS; cases hS
      | some a =>
        rw [hl] at hE
        refine ⟨?_, ?_, by rw [s4, r4, h0, hE]; rfl⟩ <;> trivial
    | none =>
      rw [s4, r4, h0]
      simp only [Option.isNone_none, if_true]
      rw [h0] at hS
      cases hl : lastEffector opts with
      | some a => rw [hl] at hS; cases hS
      | none =>
        simp only [Option.getD_none, EArg.stands, setEffectorOpt, s2.eDefs]
        rw [if_neg (by simp)]
        refine ⟨?_, ?_, ?_⟩ <;> cases m0.eDefs.get (s% "e") <;> rfl
  obtain ⟨t1, t2, t3⟩ := t1
  exact ⟨by rw [t1, s3, r1], by rw [t1, s3]; exact r2, t3, by rw [t2]; exact s1, s2⟩

/-- **C57**, first half.  For every model and every list of options for which `NewContext` succeeds: the
request definition, the matcher and the effector of the context are those of the last option of their
kind, whatever the other options are, and `r`, `m` and `e` if there is none.  (If the model has no `m` the
matcher may be missing.)  The model is unchanged except for additional listeners. -/
theorem c57_options_partial {build : Str → Res Stage} {m : Model} (hm : m.Made build)
    (opts : List CtxOpt) (hx : ∀ x, .matcher (.obj x) ∈ opts → ∃ mt, m.resolve x = some mt) {m' : Model}
    {ctx : Ctx} (h : newContext build m opts = (m', .ok ctx)) :
    ctx.rDef = ((lastRequest opts).getD (.str (s% "r"))).stands m ∧ ctx.rDef.isSome ∧
    ctx.effector = ((lastEffector opts).getD (.str (s% "e"))).stands m ∧
    ctx.matcher.bind m'.resolve = ((lastMatcher opts).getD (.str (s% "m"))).stands build m ∧
    m.Extends m' := by
  obtain ⟨-, h2, -⟩ := applyOpts_ok hm.sound opts [] m ⟨none, none, none⟩ (CtxOk.new build m) hx
  unfold newContext at h
  obtain ⟨⟨m1, r⟩, hr⟩ : ∃ y, applyOpts build m ⟨none, none, none⟩ opts = y := ⟨_, rfl⟩
  rw [hr] at h h2
  cases r with
  | err => cases h
  | panic => cases h
  | ok c0 =>
    simp only at h
    have hok := h2 c0 rfl
    rw [List.nil_append] at hok
    cases hd : defaultRequest m1 c0 with
    | err => rw [hd] at h; cases h
    | panic => rw [hd] at h; cases h
    | ok c1 =>
      rw [hd] at h
      simp only at h
      obtain ⟨⟨m2, r2⟩, hr2⟩ : ∃ y, defaultMatcher build m1 c1 = y := ⟨_, rfl⟩
      rw [hr2] at h
      cases r2 with
      | err => cases h
      | panic => cases h
      | ok c2 =>
        simp only [Prod.mk.injEq, Res.ok.injEq] at h
        obtain ⟨e1, e2⟩ := h
        subst e1
        exact hok.finish hm.sound hd hr2 e2.symm

/-- Two lists of options that agree on the last option of every kind give the same answer for every
request, however the evaluated expressions and the map order turn out. -/
theorem c57_same_answer {build : Str → Res Stage} {m : Model} (hm : m.Made build)
    {o1 o2 : List CtxOpt} (hx1 : ∀ x, .matcher (.obj x) ∈ o1 → ∃ mt, m.resolve x = some mt)
    (hx2 : ∀ x, .matcher (.obj x) ∈ o2 → ∃ mt, m.resolve x = some mt)
    (hr : lastRequest o1 = lastRequest o2) (hm' : lastMatcher o1 = lastMatcher o2)
    (he : lastEffector o1 = lastEffector o2) {m1 m2 : Model} {c1 c2 : Ctx}
    (h1 : newContext build m o1 = (m1, .ok c1)) (h2 : newContext build m o2 = (m2, .ok c2))
    (base : Str → Option Fn) (gov : Gov) (ord : Order) (rvals : List Str) :
    m1.enforceCtx base gov ord c1 rvals = m2.enforceCtx base gov ord c2 rvals := by
  obtain ⟨a1, -, a3, a4, a5⟩ := c57_options_partial hm o1 hx1 h1
  obtain ⟨b1, -, b3, b4, b5⟩ := c57_options_partial hm o2 hx2 h2
  have hf : m1.functions base = m2.functions base := by
    funext n
    unfold Model.functions
    rcases a5.role n with ⟨p1, p2⟩ | ⟨p, e, p1, p2⟩ <;>
      rcases b5.role n with ⟨q1, q2⟩ | ⟨q, e', q1, q2⟩
    · rw [p2, q2]
    · rw [p1] at q1; cases q1
    · rw [p1] at q1; cases q1
    · rw [p1] at q1; cases q1
      rw [p2, q2]
  unfold Model.enforceCtx Model.evaluator
  rw [a1, b1, a3, b3, a4, b4, hr, hm', he, a5.pDefs, b5.pDefs, hf]

/-- When `NewContext` succeeds, for models with a built matcher `m` (or options that set the matcher):
every option stands for something, and the request definition is given or there is one named `r`. -/
theorem c57_total {build : Str → Res Stage} {m : Model} (hm : m.Made build)
    (opts : List CtxOpt) (hx : ∀ x, .matcher (.obj x) ∈ opts → ∃ mt, m.resolve x = some mt)
    (hd : (lastMatcher opts).isSome ∨ m.mMap.has (s% "m")) :
    (∃ m' ctx, newContext build m opts = (m', .ok ctx)) ↔
      (∀ o ∈ opts, o.Works build m) ∧ ((lastRequest opts).isSome ∨ m.rDefs.has (s% "r")) := by
  obtain ⟨h1, h2, h3⟩ := applyOpts_ok hm.sound opts [] m ⟨none, none, none⟩ (CtxOk.new build m) hx
  unfold newContext
  obtain ⟨⟨m1, r⟩, hr⟩ : ∃ y, applyOpts build m ⟨none, none, none⟩ opts = y := ⟨_, rfl⟩
  rw [hr] at h1 h2 h3 ⊢
  rw [h3]
  cases r with
  | err => simp
  | panic => simp
  | ok c0 =>
    simp only
    have hok := h2 c0 rfl
    rw [List.nil_append] at hok
    -- the default matcher is there
    have dm : ∀ c1 : Ctx, c1.matcher = c0.matcher → ∃ c2, defaultMatcher build m1 c1 = (m1, .ok c2) := by
      intro c1 hc
      unfold defaultMatcher
      rw [hc]
      cases h0 : c0.matcher with
      | some x => exact ⟨c1, by simp⟩
      | none =>
        have hS := hok.mSome
        rw [h0] at hS
        rw [← hS] at hd
        simp only [Option.isSome_none, Bool.false_eq_true, false_or] at hd
        unfold GoMap.has at hd
        obtain ⟨x, hxx⟩ := Option.isSome_iff_exists.1 hd
        rw [← hok.ext.mMap] at hxx
        simp only [Option.isNone_none, if_true, setMatcherOpt]
        rw [if_neg (by simp), hxx]
        exact ⟨_, rfl⟩
    have hS := hok.rSome
    cases h0 : c0.rDef with
    | some d =>
      rw [h0] at hS
      have hdr : defaultRequest m1 c0 = .ok c0 := by unfold defaultRequest; rw [h0]; simp
      rw [hdr]
      obtain ⟨c2, hc2⟩ := dm c0 rfl
      simp only [hc2]
      exact ⟨fun _ => ⟨⟨_, rfl⟩, Or.inl hS.symm⟩, fun _ => ⟨_, _, rfl⟩⟩
    | none =>
      rw [h0] at hS
      unfold defaultRequest
      rw [h0]
      simp only [Option.isNone_none, if_true, setRequestOpt, Model.getRequestDef]
      rw [if_neg (by simp), hok.ext.rDefs]
      cases hg : m.rDefs.get (s% "r") with
      | none =>
        constructor
        · rintro ⟨_, _, e⟩; simp at e
        · rintro ⟨-, e⟩
          rcases e with e | e
          · rw [← hS] at e; cases e
          · simp [GoMap.has, hg] at e
      | some t =>
        dsimp only [Res.map]
        obtain ⟨c2, hc2⟩ := dm { c0 with rDef := some (newPolicyDef (s% "r") t) } rfl
        simp only [hc2]
        exact ⟨fun _ => ⟨⟨_, rfl⟩, Or.inr (by simp [GoMap.has, hg])⟩, fun _ => ⟨_, _, rfl⟩⟩

/-- **C57**, second half, is false: an unknown request definition is a panic, whatever else is given. -/
theorem c57_unknown_request {build : Str → Res Stage} {m : Model} (hm : m.Made build)
    (before after : List CtxOpt) (hx : ∀ x, .matcher (.obj x) ∈ before → ∃ mt, m.resolve x = some mt)
    (hw : ∀ o ∈ before, o.Works build m) {key : Str} (hk : key ≠ []) (hu : m.rDefs.has key = false) :
    (newContext build m (before ++ .request (.str key) :: after)).2 = .panic := by
  have hsplit : ∀ (os rest : List CtxOpt) (m1 : Model) (c : Ctx),
      applyOpts build m1 c (os ++ rest) = match applyOpts build m1 c os with
        | (m', .ok c') => applyOpts build m' c' rest
        | (m', .err) => (m', .err)
        | (m', .panic) => (m', .panic) := by
    intro os
    induction os with
    | nil => intro rest m1 c; rfl
    | cons o os ih =>
      intro rest m1 c
      simp only [List.cons_append, applyOpts]
      obtain ⟨⟨m', r⟩, hr⟩ : ∃ y, applyOpt build m1 c o = y := ⟨_, rfl⟩
      rw [hr]
      cases r with
      | ok c' => exact ih rest m' c'
      | err => rfl
      | panic => rfl
  obtain ⟨-, h2, h3⟩ := applyOpts_ok hm.sound before [] m ⟨none, none, none⟩ (CtxOk.new build m) hx
  obtain ⟨⟨m1, r⟩, hr⟩ : ∃ y, applyOpts build m ⟨none, none, none⟩ before = y := ⟨_, rfl⟩
  rw [hr] at h2 h3
  obtain ⟨c, rfl⟩ := h3.1 hw
  have hok := h2 c rfl
  unfold newContext
  rw [hsplit, hr]
  have : setRequestOpt m1 c (.str key) = .panic := by
    apply (setRequestOpt_ok hok (.str key)).2.2
    rintro (e | ⟨d, e⟩)
    · cases key with
      | nil => exact hk rfl
      | cons a b => cases e
    · simp only [RArg.stands, requestNamed] at e
      cases hg : m.rDefs.get key with
      | none => rw [hg] at e; cases e
      | some t => simp [GoMap.has, hg] at hu
  simp only [applyOpts, applyOpt, this]

/-- The options among the parameters of a call, in order. -/
def optionsOf (params : List Param) : List CtxOpt :=
  params.filterMap fun | .opt o => some o | .val _ => none

/-- The request values among the parameters of a call, in order. -/
def valuesOf (params : List Param) : List Str :=
  params.filterMap fun | .val v => some v | .opt _ => none

/-- **C57**, parameters: `Enforce` makes its context from all options among its parameters and decides on
all request values among them, wherever the options stand. -/
theorem c57_parameters (build : Str → Res Stage) (m : Model) (base : Str → Option Fn) (gov : Gov)
    (ord : Order) (params : List Param) :
    (∀ m' ctx, newContext build m (optionsOf params) = (m', .ok ctx) →
      m.enforceParams build base gov ord params = (m', m'.enforceCtx base gov ord ctx (valuesOf params))) ∧
    (∀ m', newContext build m (optionsOf params) = (m', .err) →
      m.enforceParams build base gov ord params = (m', .err)) ∧
    (∀ m', newContext build m (optionsOf params) = (m', .panic) →
      m.enforceParams build base gov ord params = (m', .panic)) := by
  have h : splitParams params = (optionsOf params, valuesOf params) := by
    induction params with
    | nil => rfl
    | cons p ps ih => cases p <;> simp [splitParams, ih, optionsOf, valuesOf]
  unfold Model.enforceParams
  rw [h]
  refine ⟨?_, ?_, ?_⟩
  · intro m' ctx e; simp only [e]
  · intro m' e; simp only [e]
  · intro m' e; simp only [e]

example : optionsOf [.val (s% "alice"), .opt (.effector (.str (s% "e2"))), .val (s% "read"),
      .opt (.matcher (.str (s% "m2")))] = [.effector (.str (s% "e2")), .matcher (.str (s% "m2"))] ∧
    valuesOf [.val (s% "alice"), .opt (.effector (.str (s% "e2"))), .val (s% "read"),
      .opt (.matcher (.str (s% "m2")))] = [s% "alice", s% "read"] := ⟨rfl, rfl⟩

namespace ContextExample

/-- A lexer and a compiler that know two matcher texts. -/
def build : Str → Res Stage := fun e =>
  if e = s% "r.sub == p.sub" then .ok (.mk [] [.mk (s% "r_sub == p_sub") []])
  else if e = s% "r2.name == p.sub" then .ok (.mk [] [.mk (s% "r2_name == p_sub") []])
  else .err

def defined : Model := Model.define [('r', s% "r", s% "sub"), ('r', s% "r2", s% "name"),
  ('p', s% "p", s% "sub"), ('e', s% "e", s% "some(where(p.eft==allow))"),
  ('e', s% "e2", s% "!some(where(p.eft==deny))"), ('m', s% "m", s% "r.sub == p.sub")]

/-- A model with two request definitions, two effectors, a matcher and a rule. -/
def model : Model := ((defined.buildMatcher build (s% "m")).1.addRule [s% "p", s% "alice"]).1

theorem made : model.Made build :=
  .add (.build (.setDef (.setDef (.setDef (.setDef (.setDef (.setDef .new _ _ _) _ _ _) _ _ _) _ _ _) _ _ _)
    _ _ _) _) _ ⟨fun _ => by decide, by decide, fun h => absurd h (by decide)⟩

/-- Options of every kind, some given twice. -/
def opts : List CtxOpt := [.matcher (.str (s% "m")), .request (.str (s% "r")), .effector (.str (s% "e2")),
  .matcher (.str (s% "r2.name == p.sub")), .effector (.str []), .request (.str (s% "r2"))]

theorem works : ∃ m' ctx, newContext build model opts = (m', .ok ctx) := by
  refine (c57_total made opts (fun x h => by simp [opts] at h) (Or.inl (by decide))).2 ⟨?_, by decide⟩
  have h1 : (MArg.stands build model (.str (s% "m"))).isSome := by decide
  have h2 : (MArg.stands build model (.str (s% "r2.name == p.sub"))).isSome := by decide
  have h3 : (RArg.stands model (.str (s% "r"))).isSome := by decide
  have h4 : (RArg.stands model (.str (s% "r2"))).isSome := by decide
  intro o ho
  simp only [opts, List.mem_cons, List.not_mem_nil, or_false] at ho
  rcases ho with rfl | rfl | rfl | rfl | rfl | rfl
  · exact Or.inr (Option.isSome_iff_exists.1 h1)
  · exact Or.inr (Option.isSome_iff_exists.1 h3)
  · trivial
  · exact Or.inr (Option.isSome_iff_exists.1 h2)
  · trivial
  · exact Or.inr (Option.isSome_iff_exists.1 h4)

/-- What the options come down to: the second matcher, the request definition `r2`, the effector `e2`. -/
example : lastMatcher opts = some (.str (s% "r2.name == p.sub")) ∧ lastRequest opts = some (.str (s% "r2")) ∧
    lastEffector opts = some (.str (s% "e2")) := ⟨rfl, rfl, rfl⟩

example (m' : Model) (ctx : Ctx) (h : newContext build model opts = (m', .ok ctx)) :
    ctx.rDef = some (newPolicyDef (s% "r2") (s% "name")) ∧
    ctx.effector = some (s% "!some(where(p.eft==deny))") := by
  obtain ⟨h1, -, h3, -, -⟩ := c57_options_partial made opts (fun x h => by simp [opts] at h) h
  exact ⟨h1.trans rfl, h3.trans (by decide)⟩

/-- The claim that an unknown request definition is reported as an error. -/
def Reported : Prop := ∀ (build : Str → Res Stage) (m : Model), m.Made build → ∀ key : Str, key ≠ [] →
  m.rDefs.has key = false → (newContext build m [.request (.str key)]).2 = .err

theorem c57_fails : ¬ Reported := by
  intro h
  have h1 := h build model made (s% "r3") (by decide) (by decide)
  have h2 := c57_unknown_request made [] [] (fun x h => by cases h) (fun o h => by cases h)
    (key := s% "r3") (by decide) (by decide)
  rw [List.nil_append, h1] at h2
  cases h2

end ContextExample

end Fastac
