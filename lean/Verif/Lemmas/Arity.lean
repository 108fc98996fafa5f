import Verif.Spec.Arity
import Verif.Model.Functions
import Verif.Lemmas.Exact
import Verif.Lemmas.Eval

/-!
# Lemmas about requests and rules with the wrong number of values
-/

namespace Fastac

/-! ## Too many values -/

theorem buildArgIndex_lt (key : Str) : ∀ (names : List Str) (i : Nat) (m : GoMap Str Nat) (w : Str) (j : Nat),
    (buildArgIndex key names i m).get w = some j → j < i + names.length ∨ m.get w = some j
  | [], i, m, w, j, h => .inr h
  | n :: ns, i, m, w, j, h => by
    rw [buildArgIndex] at h
    rcases buildArgIndex_lt key ns (i + 1) _ w j h with h | h
    · left; simp only [List.length_cons]; omega
    · by_cases e : w = key ++ ['_'] ++ n
      · subst e
        rw [GoMap.get_set_self] at h
        cases h
        left; simp only [List.length_cons]; omega
      · rw [GoMap.get_set_ne m _ e] at h
        exact .inr h

theorem newPolicyDef_lt {key text w : Str} {j : Nat} (h : (newPolicyDef key text).argIndex.get w = some j) :
    j < (newPolicyDef key text).args.length := by
  rcases buildArgIndex_lt key _ 0 [] w j h with h | h
  · simpa [newPolicyDef] using h
  · cases h

theorem getParameter_long {α : Type} (key text : Str) {vals : List α}
    (h : (newPolicyDef key text).args.length < vals.length) (w : Str) :
    (newPolicyDef key text).getParameter vals w =
      (newPolicyDef key text).getParameter (shifted (newPolicyDef key text).args.length vals) w := by
  unfold PolicyDef.getParameter
  cases hi : (newPolicyDef key text).argIndex.get w with
  | none => rfl
  | some i =>
    have hlt := newPolicyDef_lt hi
    have hl : (shifted (newPolicyDef key text).args.length vals).length = (newPolicyDef key text).args.length := by
      simp only [shifted, List.length_take, List.length_drop]; omega
    simp only [hl, gt_iff_lt, h, if_true, Nat.lt_irrefl, if_false]
    simp only [shifted, List.getElem?_take, hlt, if_true, List.getElem?_drop]
    rw [Nat.add_comm]

theorem getEft_long (key text : Str) {r : Rule} (h : (newPolicyDef key text).args.length < r.length) (k : Str) :
    (newPolicyDef key text).getEft (k :: r) =
      (newPolicyDef key text).getEft (k :: r.take (newPolicyDef key text).args.length) := by
  have e : ∀ w, (newPolicyDef key text).getParameter (k :: r) w =
      (newPolicyDef key text).getParameter (k :: r.take (newPolicyDef key text).args.length) w := by
    intro w
    unfold PolicyDef.getParameter
    cases hi : (newPolicyDef key text).argIndex.get w with
    | none => rfl
    | some i =>
      have hlt := newPolicyDef_lt hi
      have h1 : (k :: r).length > (newPolicyDef key text).args.length := by simp only [List.length_cons]; omega
      have h2 : (k :: r.take (newPolicyDef key text).args.length).length > (newPolicyDef key text).args.length := by
        simp only [List.length_cons, List.length_take]; omega
      simp only [h1, h2, if_true, List.getElem?_cons_succ, List.getElem?_take, hlt]
  unfold PolicyDef.getEft
  simp only [e]

theorem MatchParams.get_long_rule {key text : Str} {ps : MatchParams} (hp : ps.pDef = newPolicyDef key text) {r : Rule}
    (h : ps.pDef.args.length < r.length) (w : Str) : ps.get r w = ps.get (shifted ps.pDef.args.length r) w := by
  unfold MatchParams.get
  cases w with
  | nil => rfl
  | cons c cs =>
    simp only
    rw [hp] at h ⊢
    rw [getParameter_long key text h]

theorem evalFn_congr {gov : Gov} (hg : gov.ByParams) (fns : Str → Option Fn) (par : Rule → Str → Option Str) {r r' : Rule}
    (h : ∀ w, par r w = par r' w) : ∀ n, evalFn gov fns par r n = evalFn gov fns par r' n
  | 0 => rfl
  | n + 1 => by
    funext args
    simp only [evalFn, evalFn_congr hg fns par h n]
    split
    · split
      · exact hg _ _ _ _ _ h
      · rfl
    · rfl

theorem withEval_congr {gov : Gov} (hg : gov.ByParams) (depth : Nat) (fns : Str → Option Fn)
    (par : Rule → Str → Option Str) {r r' : Rule} (h : ∀ w, par r w = par r' w) (e : Str) :
    (gov.withEval depth fns par).eval e r = (gov.withEval depth fns par).eval e r' := by
  simp only [Gov.withEval]
  rw [evalFn_congr hg fns par h]
  exact hg _ _ _ _ _ h

mutual
theorem Stage.sat_congr {E : Evaluator} {r r' : Rule} (h : ∀ e, E.eval e r = E.eval e r') : ∀ st : Stage,
    st.sat E r = st.sat E r'
  | .mk e cs => by simp only [Stage.sat, h, Stage.satAny_congr h cs]
theorem Stage.satAny_congr {E : Evaluator} {r r' : Rule} (h : ∀ e, E.eval e r = E.eval e r') : ∀ cs : List Stage,
    Stage.satAny E r cs = Stage.satAny E r' cs
  | [] => rfl
  | c :: cs => by simp only [Stage.satAny, Stage.sat_congr h c, Stage.satAny_congr h cs]
end

/-! ## The request definition of a context -/

theorem setMatcherOpt_rDefs {build : Str → Res Stage} {m m' : Model} {ctx : Ctx} {a : MArg} {x : Res Ctx}
    (h : setMatcherOpt build m ctx a = (m', x)) : m'.rDefs = m.rDefs ∧ ∀ c, x = .ok c → c.rDef = ctx.rDef := by
  have hb : ∀ e, (m.buildFromExpr build e).1.rDefs = m.rDefs := by
    intro e
    unfold Model.buildFromExpr
    repeat' split
    all_goals rfl
  have hm : ∀ (y : Res MEntry) c, (y.map fun x => ({ ctx with matcher := some x } : Ctx)) = .ok c → c.rDef = ctx.rDef := by
    intro y c hy
    cases y with
    | ok z => cases hy; rfl
    | err => cases hy
    | panic => cases hy
  cases a with
  | str s =>
    simp only [setMatcherOpt] at h
    split at h
    · cases h; exact ⟨rfl, fun c e => by cases e; rfl⟩
    · split at h
      · cases h; exact ⟨rfl, fun c e => by cases e; rfl⟩
      · cases h; exact ⟨hb _, fun c e => hm _ c e⟩
  | ofDef e => cases h; exact ⟨hb _, fun c e => hm _ c e⟩
  | obj x => cases h; exact ⟨rfl, fun c e => by cases e; rfl⟩
  | other => cases h; exact ⟨rfl, fun c e => by cases e; rfl⟩

theorem setEffectorOpt_rDef (m : Model) (ctx : Ctx) (a : EArg) : (setEffectorOpt m ctx a).rDef = ctx.rDef := by
  cases a with
  | str s =>
    simp only [setEffectorOpt]
    repeat' split
    all_goals rfl
  | obj e => rfl
  | other => rfl

theorem applyOpts_rDef {build : Str → Res Stage} {rk rText : Str} (hk : rk ≠ []) : ∀ (opts : List CtxOpt) (m : Model)
    (ctx : Ctx) (m' : Model) (ctx' : Ctx), m.rDefs.get rk = some rText → (∀ a, .request a ∈ opts → a = .str rk) →
    applyOpts build m ctx opts = (m', .ok ctx') → m'.rDefs.get rk = some rText ∧
      ((ctx'.rDef = ctx.rDef ∧ .request (.str rk) ∉ opts) ∨ ctx'.rDef = some (newPolicyDef rk rText))
  | [], m, ctx, m', ctx', hr, _, h => by cases h; exact ⟨hr, .inl ⟨rfl, by simp⟩⟩
  | o :: os, m, ctx, m', ctx', hr, ho, h => by
    simp only [applyOpts] at h
    have ho' : ∀ a, CtxOpt.request a ∈ os → a = .str rk := fun a ha => ho a (by simp [ha])
    cases o with
    | matcher a =>
      simp only [applyOpt] at h
      cases hs : setMatcherOpt build m ctx a with
      | mk m1 x =>
        rw [hs] at h
        obtain ⟨g1, g2⟩ := setMatcherOpt_rDefs hs
        cases x with
        | ok c =>
          obtain ⟨i1, i2⟩ := applyOpts_rDef hk os m1 c m' ctx' (by rw [g1]; exact hr) ho' h
          refine ⟨i1, i2.imp (fun i => ⟨i.1.trans (g2 c rfl), by simp [i.2]⟩) id⟩
        | err => cases h
        | panic => cases h
    | request a =>
      cases ho a (by simp)
      simp only [applyOpt, setRequestOpt, if_neg hk, Model.getRequestDef, hr, Res.map_ok] at h
      obtain ⟨i1, i2⟩ := applyOpts_rDef hk os m _ m' ctx' hr ho' h
      exact ⟨i1, .inr (i2.elim (fun i => i.1) id)⟩
    | effector a =>
      simp only [applyOpt] at h
      obtain ⟨i1, i2⟩ := applyOpts_rDef hk os m _ m' ctx' hr ho' h
      exact ⟨i1, i2.imp (fun i => ⟨i.1.trans (setEffectorOpt_rDef m ctx a), by simp [i.2]⟩) id⟩

theorem newContext_rDef {build : Str → Res Stage} {rk rText : Str} (hk : rk ≠ []) {opts : List CtxOpt} {m m' : Model}
    {ctx : Ctx} (hr : m.rDefs.get rk = some rText) (ho : ∀ a, .request a ∈ opts → a = .str rk)
    (hd : rk = s% "r" ∨ .request (.str rk) ∈ opts)
    (h : newContext build m opts = (m', .ok ctx)) : ctx.rDef = some (newPolicyDef rk rText) := by
  unfold newContext at h
  cases ha : applyOpts build m ⟨none, none, none⟩ opts with
  | mk m1 x =>
    rw [ha] at h
    cases x with
    | err => cases h
    | panic => cases h
    | ok c =>
      obtain ⟨i1, i2⟩ := applyOpts_rDef hk opts m _ m1 c hr ho ha
      simp only at h
      have hc : ∀ c1, defaultRequest m1 c = .ok c1 → c1.rDef = some (newPolicyDef rk rText) := by
        intro c1 e
        unfold defaultRequest at e
        rcases i2 with ⟨i2, i3⟩ | i2
        · rcases hd with rfl | hd
          · simp only [i2, Option.isNone_none, if_true, setRequestOpt, Model.getRequestDef, i1, Res.map_ok, if_neg hk] at e
            cases e; rfl
          · exact absurd hd i3
        · simp only [i2, Option.isNone_some, Bool.false_eq_true, if_false] at e
          cases e; exact i2
      cases hq : defaultRequest m1 c with
      | err => rw [hq] at h; cases h
      | panic => rw [hq] at h; cases h
      | ok c1 =>
        rw [hq] at h
        have h1 := hc c1 hq
        simp only at h
        have hm : ∀ m2 c2, defaultMatcher build m1 c1 = (m2, .ok c2) → c2.rDef = some (newPolicyDef rk rText) := by
          intro m2 c2 e
          unfold defaultMatcher at e
          split at e
          · cases hs : setMatcherOpt build m1 c1 (.str (s% "m")) with
            | mk m3 y =>
              rw [hs] at e
              cases y with
              | ok z => cases e; rw [(setMatcherOpt_rDefs hs).2 c2 rfl]; exact h1
              | err => cases e; exact h1
              | panic => cases e
          · cases e; exact h1
        cases hs : defaultMatcher build m1 c1 with
        | mk m2 y =>
          rw [hs] at h
          cases y with
          | ok z =>
            cases h
            have := hm _ _ hs
            unfold defaultEffector
            split
            · rw [setEffectorOpt_rDef]; exact this
            · exact this
          | err => cases h
          | panic => cases h

theorem enforceCtx_long {key text : Str} (m : Model) (base : Str → Option Fn) (gov : Gov) (ord : Order) (ctx : Ctx)
    (hr : ctx.rDef = some (newPolicyDef key text)) {vals : List Str}
    (h : (newPolicyDef key text).args.length < vals.length) :
    m.enforceCtx base gov ord ctx vals =
      m.enforceCtx base gov ord ctx (shifted (newPolicyDef key text).args.length vals) := by
  have : ∀ pDef, MatchParams.get ⟨pDef, newPolicyDef key text, vals⟩ =
      MatchParams.get ⟨pDef, newPolicyDef key text, shifted (newPolicyDef key text).args.length vals⟩ := by
    intro pDef
    funext r w
    unfold MatchParams.get
    cases w with
    | nil => rfl
    | cons c cs => simp only [getParameter_long key text h]
  unfold Model.enforceCtx
  rw [hr]
  split
  · rename_i e1 e2 e3
    cases e2
    split
    · rfl
    · unfold Model.evaluator
      rw [this]
  · rfl

theorem splitParams_opts (opts : List CtxOpt) (vals : List Str) :
    splitParams (opts.map .opt ++ vals.map .val) = (opts, vals) := by
  induction opts with
  | nil =>
    induction vals with
    | nil => rfl
    | cons v vs ih =>
      simp only [List.map_nil, List.nil_append] at ih
      simp only [List.map_nil, List.nil_append, List.map_cons, splitParams, ih]
  | cons o os ih => simp only [List.map_cons, List.cons_append, splitParams, ih]

/-! ## Too few values -/

theorem rangeEntries_keep {σ : Type} {E : Evaluator} {e : Str} {cb : Str → Node → σ → σ × Status}
    (h : ∀ k child s, E.eval e child.rule = .bool true → (cb k child s).1 = s) : ∀ (es : GoMap Str Node) (s : σ),
    (rangeEntries E e cb es s).1 = s
  | [], s => rfl
  | (k, child) :: es, s => by
    unfold rangeEntries
    split
    · rfl
    · rfl
    · exact rangeEntries_keep h es s
    · exact rangeEntries_keep h es s
    · rename_i he
      have := h k child s he
      cases hc : cb k child s with
      | mk s' x =>
        rw [hc] at this
        simp only at this
        subst this
        cases x
        · exact rangeEntries_keep h es s'
        · rfl
        · rfl
        · rfl

mutual
theorem rangeStage_keep {σ : Type} {E : Evaluator} (nargs : Nat) (ord : Order) (fn : σ → Rule → σ × Bool) {D : Str → Prop}
    (hD : ∀ e, D e → ∀ r, E.eval e r ≠ .bool true) : ∀ (st : Stage) (path : List (Nat × Str)) (node : Node) (s : σ),
    (∀ q ∈ Stage.routesC st.children, ∃ x ∈ q, D x.expr) → (rangeStage E nargs ord fn st path node s).1 = s
  | .mk e cs, path, node, s, h => by
    rw [rangeStage]
    exact rangeChildren_keep nargs ord fn hD cs 0 path node s h
theorem rangeChildren_keep {σ : Type} {E : Evaluator} (nargs : Nat) (ord : Order) (fn : σ → Rule → σ × Bool)
    {D : Str → Prop} (hD : ∀ e, D e → ∀ r, E.eval e r ≠ .bool true) : ∀ (cs : List Stage) (i : Nat)
    (path : List (Nat × Str)) (node : Node) (s : σ), (∀ q ∈ Stage.routesC cs, ∃ x ∈ q, D x.expr) →
    (rangeChildren E nargs ord fn cs i path node s).1 = s
  | [], i, path, node, s, _ => by rw [rangeChildren]
  | st :: rest, i, path, node, s, h => by
    rw [rangeChildren]
    have h1 : ∀ q ∈ st.routes, ∃ x ∈ q, D x.expr := fun q hq => h q (by rw [Stage.routesC]; exact List.mem_append_left _ hq)
    have h2 : ∀ q ∈ Stage.routesC rest, ∃ x ∈ q, D x.expr := fun q hq =>
      h q (by rw [Stage.routesC]; exact List.mem_append_right _ hq)
    split
    · rfl
    · split
      · rfl
      · simp only
        have key : ∀ (es : GoMap Str Node), (rangeEntries E st.expr (fun k child s =>
            match (if st.isLeaf then fn s child.rule else (s, true)) with
            | (s', false) => (s', .stop)
            | (s', true) =>
              match rangeStage E nargs ord fn st (path ++ [(i, k)]) child s' with
              | (s'', .cont) => (s'', .cont)
              | (s'', .panic) => (s'', .panic)
              | (s'', _) => (s'', .stop)) es s).1 = s := by
          intro es
          apply rangeEntries_keep
          intro k child s0 he
          by_cases hd : D st.expr
          · exact absurd he (hD _ hd _)
          · have hl : st.isLeaf = false := by
              cases hl : st.isLeaf with
              | false => rfl
              | true =>
                obtain ⟨x, hx, hd'⟩ := h1 [st] (by rw [Stage.routes_leaf hl]; simp)
                cases List.mem_singleton.1 hx
                exact absurd hd' hd
            have h3 : ∀ q ∈ Stage.routesC st.children, ∃ x ∈ q, D x.expr := by
              intro q hq
              obtain ⟨x, hx, hd'⟩ := h1 (st :: q) (by rw [Stage.routes_inner hl]; exact List.mem_map_of_mem hq)
              rcases List.mem_cons.1 hx with rfl | hx
              · exact absurd hd' hd
              · exact ⟨x, hx, hd'⟩
            have ih := rangeStage_keep nargs ord fn hD st (path ++ [(i, k)]) child s0 h3
            simp only [hl, Bool.false_eq_true, if_false]
            cases hx : rangeStage E nargs ord fn st (path ++ [(i, k)]) child s0 with
            | mk s1 y =>
              rw [hx] at ih
              simp only at ih
              subst ih
              cases y <;> rfl
        split
        · rename_i s' hx
          have : s' = s := (congrArg Prod.fst hx).symm.trans (key _)
          subst this
          exact rangeChildren_keep nargs ord fn hD rest (i + 1) path node s' h2
        · exact key _
end

/-- A traversal that reports nothing. -/
theorem enforce_keep {m : Matcher} {E : Evaluator} {ord : Order} {pDef : PolicyDef} {D : Str → Prop}
    (hD : ∀ e, D e → ∀ r, E.eval e r ≠ .bool true)
    (h : ∀ q ∈ Stage.routesC m.exprRoot.children, ∃ x ∈ q, D x.expr) :
    ∃ st : Str → Status, ∀ eff, enforce m pDef E ord eff = enforceFinish eff (EnfState.init, st eff) := by
  refine ⟨fun eff => (m.rangeMatches E ord (enforceVisit pDef eff) EnfState.init).2, fun eff => ?_⟩
  unfold enforce
  congr 1
  refine Prod.ext ?_ rfl
  exact rangeStage_keep _ _ _ hD _ _ _ _ h

theorem mapM_none {α : Type} {f : α → Option Str} : ∀ {args : List α}, (∃ a ∈ args, f a = none) → args.mapM f = none
  | [], ⟨a, ha, _⟩ => by cases ha
  | b :: bs, ⟨a, ha, h⟩ => by
    rw [List.mapM_cons]
    rcases List.mem_cons.1 ha with rfl | ha
    · rw [h]; rfl
    · rw [mapM_none ⟨a, ha, h⟩]
      cases f b <;> rfl

/-- An atom that mentions an attribute without value is an error, whatever the rule. -/
theorem Atom.eval_lacks {gov : Gov} (hg : gov.Ok) {base fns : Str → Option Fn} {rk pk : Str} {rArgs pArgs rvals : List Str}
    (N : Naming base rk pk rArgs pArgs) (hr : rvals.length ≤ rArgs.length) {a : Atom} (hu : a.Uses rArgs pArgs)
    (hn : ∀ b : Ref, b.Known rArgs pArgs → (b.term rk pk).Ok fns)
    (hcall : ∀ f args, a = .call f args → ∃ fn, fns f = some fn) (hl : a.Lacks rArgs rvals) (pDef : PolicyDef) (r : Rule) :
    (gov fns (MatchParams.get ⟨pDef, declare rk rArgs, rvals⟩)).eval (a.text rk pk) r = .err := by
  obtain ⟨x, hx, hv⟩ := hl
  have hval : ((Ref.req x).term rk pk).val (MatchParams.get ⟨pDef, declare rk rArgs, rvals⟩ r) = none := by
    have h := get_r (ps := ⟨pDef, declare rk rArgs, rvals⟩) (r := r) (N.rHead' x)
    exact h.trans ((getParameter_short rk N.r.good rvals hr x).trans hv)
  cases a with
  | eq a b =>
    obtain ⟨-, g⟩ := hg.eqT fns (MatchParams.get ⟨pDef, declare rk rArgs, rvals⟩) _ _ (hn _ hu.1) (hn _ hu.2)
    rw [Ref.term_text, Ref.term_text] at g
    rw [Atom.text, g r]
    simp only [Atom.refs, List.mem_cons, List.not_mem_nil, or_false] at hx
    rcases hx with rfl | rfl
    · rw [hval]
    · rw [hval]
      cases (a.term rk pk).val (MatchParams.get ⟨pDef, declare rk rArgs, rvals⟩ r) <;> rfl
  | call f args =>
    obtain ⟨h1, h2, h3, -⟩ := hu
    obtain ⟨fn, hf⟩ := hcall f args rfl
    obtain ⟨-, g⟩ := hg.callT fns (MatchParams.get ⟨pDef, declare rk rArgs, rvals⟩) f fn (args.map (Ref.term rk pk)) h3 hf
      (by simpa using h1) (by
        intro y hy
        obtain ⟨b, hb, rfl⟩ := List.mem_map.1 hy
        exact hn b (h2 b hb))
    rw [Ref.names_eq] at g
    have : (args.map (Ref.term rk pk)).mapM (fun a => a.val (MatchParams.get ⟨pDef, declare rk rArgs, rvals⟩ r)) = none :=
      mapM_none ⟨_, List.mem_map_of_mem hx, hval⟩
    rw [Atom.text, g r, this]

end Fastac
