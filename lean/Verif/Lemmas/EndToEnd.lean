import Verif.Lemmas.Configured

/-!
# `Enforce` on a configured model after a history
-/

namespace Fastac

theorem Gov.Ok.eq {gov : Gov} (hg : gov.Ok) (fns : Str → Option Fn) (par : Rule → Str → Option Str) (x y : Str)
    (hx : isIdent x) (hy : isIdent y) (fx : fns x = none) (fy : fns y = none) :
    (gov fns par).compiles (x ++ s% " == " ++ y) = true ∧
    ∀ r, (gov fns par).eval (x ++ s% " == " ++ y) r =
      match par r x, par r y with
      | some a, some b => .bool (a == b)
      | _, _ => .err := hg.eqT fns par (.var x) (.var y) ⟨hx, fx⟩ ⟨hy, fy⟩

theorem GovTerm.mapM_var (g : Str → Option Str) : ∀ args : List Str,
    (args.map GovTerm.var).mapM (fun a => a.val g) = args.mapM g
  | [] => rfl
  | a :: as => by
    simp only [List.map_cons, List.mapM_cons, GovTerm.mapM_var g as]
    rfl

theorem Gov.Ok.call {gov : Gov} (hg : gov.Ok) (fns : Str → Option Fn) (par : Rule → Str → Option Str) (f : Str)
    (fn : Fn) (args : List Str) (hf : isIdent f) (ff : fns f = some fn) (hne : args ≠ [])
    (ha : ∀ a ∈ args, isIdent a ∧ fns a = none) :
    (gov fns par).compiles (f ++ s% "(" ++ join (s% ", ") args ++ s% ")") = true ∧
    ∀ r, (gov fns par).eval (f ++ s% "(" ++ join (s% ", ") args ++ s% ")") r =
      match args.mapM (par r) with
      | some vs => fn vs
      | none => .err := by
  have h := hg.callT fns par f fn (args.map .var) hf ff (by simpa using hne) (by
    intro a h
    obtain ⟨x, hx, rfl⟩ := List.mem_map.1 h
    exact ha x hx)
  have e : (args.map GovTerm.var).map GovTerm.text = args := by
    rw [List.map_map]
    exact List.map_id args
  rw [e] at h
  refine ⟨h.1, fun r => (h.2 r).trans ?_⟩
  rw [GovTerm.mapM_var]
  cases args.mapM (par r) <;> rfl

theorem decision_congr (expr : Str) {l l' : List Effect} (h : ∀ e, e ∈ l ↔ e ∈ l') :
    decision expr l = decision expr l' := by
  have hc : ∀ e, l.contains e = l'.contains e := by
    intro e
    rw [Bool.eq_iff_iff]
    simp [h]
  unfold decision
  simp only [hc]

theorem scan_congr (pDef : PolicyDef) (root : Stage) (E : Evaluator) (expr : Str) {L L' : List Rule}
    (h : ∀ r, r ∈ L ↔ r ∈ L') : scan pDef root E expr L = scan pDef root E expr L' := by
  unfold scan
  apply decision_congr
  intro e
  simp only [List.mem_map, List.mem_filter, h]

namespace Model

/-- Everything about a configured model after a history. -/
structure After (build : Str → Res Stage) (rText pText : Str) (gs : List (Str × Str)) (eText mText : Str)
    (root : Stage) (ops : List Op) (m : Model) : Prop where
  std : m.Std (newPolicyDef (s% "p") pText) root
  r : m.rDefs.get (s% "r") = some rText
  e : m.eDefs.get (s% "e") = some (effectExpr eText)
  same : Same (configured build (conf rText pText gs eText mText)) m
  roles : ∀ k, m.rpMap.has k = true ↔ k ∈ gs.map Prod.fst
  mem : ∀ k, k = s% "p" ∨ k ∈ gs.map Prod.fst → ∀ f, k :: f ∈ m.rules ↔ isHeld ops (k :: f) = true

theorem after {build : Str → Res Stage} {rText pText eText mText : Str} {gs : List (Str × Str)}
    (hg : ∀ g ∈ gs, g.1.head? = some 'g') {root : Stage} (hr : build mText = .ok root) (hb : root.Binary)
    (hk : root.policyKey = s% "p") (ops : List Op)
    (ho : ∀ op ∈ ops, op.Okay (s% "p") (newPolicyDef (s% "p") pText)
      (configured build (conf rText pText gs eText mText))) :
    After build rText pText gs eText mText root ops
      ((configured build (conf rText pText gs eText mText)).run ops).1 := by
  obtain ⟨h1, h2, h3, h4, h5, h6, -, -⟩ := configured_std hg hr hb hk
    (m := configured build (conf rText pText gs eText mText)) rfl
  obtain ⟨a, b, c⟩ := Std.run hb ops h1 ho
  refine ⟨a, by rw [b.r]; exact h2, by rw [b.e]; exact h3, b, fun k => by rw [b.has]; exact h5 k, ?_⟩
  intro k hk f
  exact (c k ((h4 k).2 hk) f false (by simp [h6])).symm

/-- The evaluator of a request. -/
def requestEval (m : Model) (base : Str → Option Fn) (gov : Gov) (rText pText : Str) (rvals : List Str) :
    Evaluator :=
  gov (m.functions base) (MatchParams.get ⟨newPolicyDef (s% "p") pText, newPolicyDef (s% "r") rText, rvals⟩)

theorem After.enforce {build : Str → Res Stage} {rText pText eText mText : Str} {gs : List (Str × Str)}
    {root : Stage} {ops : List Op} {m : Model} (h : m.After build rText pText gs eText mText root ops)
    (hb : root.Binary) (base : Str → Option Fn) (gov : Gov) (ord : Order) (hv : ord.Valid) (rvals : List Str)
    (hl : root.Local (newPolicyDef (s% "p") pText) (m.requestEval base gov rText pText rvals))
    (hbs : root.BlankSafe (newPolicyDef (s% "p") pText) (m.requestEval base gov rText pText rvals))
    (hn : root.NeverFails (newPolicyDef (s% "p") pText) (m.requestEval base gov rText pText rvals))
    (hdet : effectExpr eText = SOME_ALLOW_NO_DENY → ∀ f, isHeld ops (s% "p" :: f) = true →
      (newPolicyDef (s% "p") pText).getEft (s% "p" :: f) ≠ .indeterminate) :
    ∃ L : List Rule, (∀ f, f ∈ L ↔ isHeld ops (s% "p" :: f) = true) ∧
      (∀ f ∈ L, GoodRule (newPolicyDef (s% "p") pText) f) ∧
      m.enforceParams build base gov ord (rvals.map Param.val) =
        (m, .ok (scan (newPolicyDef (s% "p") pText) root (m.requestEval base gov rText pText rvals)
          (effectExpr eText) L)) := by
  have hmem : ∀ p, m.pMap.get (s% "p") = some p → ∀ f, f ∈ p.policy.rules ↔ isHeld ops (s% "p" :: f) = true := by
    intro p hp f
    rw [← h.mem _ (Or.inl rfl), mem_rules_p h.std.tidy hp]
  obtain ⟨p, hp, he⟩ := h.std.serves.enforce h.r h.e hb build base gov ord hv rvals rfl hl hbs hn
    (fun hh p hp f hf => hdet hh f ((hmem p hp f).1 hf))
  refine ⟨p.policy.rules, hmem p hp, ?_, he⟩
  obtain ⟨p', i, mt, hp', -, -, hinv⟩ := h.std.serves.live
  rw [hp] at hp'
  cases hp'
  exact hinv.good

end Model

/-! ## Evaluating the two forms of atoms -/

theorem evalEq {gov : Gov} (hg : gov.Ok) {fns : Str → Option Fn} (ps : MatchParams) {x y : Str}
    (hx : isIdent x) (hy : isIdent y) (fx : fns x = none) (fy : fns y = none) (r : Rule) {a b : Str}
    (ha : ps.get r x = some a) (hb : ps.get r y = some b) :
    (gov fns ps.get).eval (x ++ s% " == " ++ y) r = .bool (a == b) := by
  rw [(hg.eq fns ps.get x y hx hy fx fy).2 r, ha, hb]

theorem evalCall {gov : Gov} (hg : gov.Ok) {fns : Str → Option Fn} (ps : MatchParams) {f : Str} {fn : Fn}
    {args : List Str} (hf : isIdent f) (ff : fns f = some fn) (hne : args ≠ [])
    (ha : ∀ a ∈ args, isIdent a ∧ fns a = none) (r : Rule) {vs : List Str}
    (hv : args.mapM (ps.get r) = some vs) :
    (gov fns ps.get).eval (f ++ s% "(" ++ join (s% ", ") args ++ s% ")") r = fn vs := by
  rw [(hg.call fns ps.get f fn args hf ff hne ha).2 r, hv]

/-! ## Matchers that are conjunctions of atoms -/

/-- The stages of a conjunction. -/
def chain : List Str → List Stage
  | [] => []
  | e :: es => [.mk e (chain es)]

theorem chain_all {P : Stage → Prop} : ∀ es : List Str, (∀ e ∈ es, ∀ cs, P (.mk e cs)) →
    Stage.AllIn P (chain es)
  | [], _ => by simp [chain, Stage.AllIn]
  | e :: es, h => by
    simp only [chain, Stage.AllIn, Stage.All]
    exact ⟨⟨h e (by simp) _, chain_all es (fun e' he => h e' (by simp [he]))⟩, trivial⟩

theorem chain_length (es : List Str) : (chain es).length ≤ 1 := by cases es <;> simp [chain]

theorem chain_binary (es : List Str) : (Stage.mk [] (chain es)).Binary := by
  have h : ∀ es : List Str, Stage.AllIn (fun st => st.children.length ≤ 2) (chain es) := by
    intro es
    induction es with
    | nil => simp [chain, Stage.AllIn]
    | cons e es ih =>
      simp only [chain, Stage.AllIn, Stage.All, Stage.children]
      exact ⟨⟨by have := chain_length es; omega, ih⟩, trivial⟩
  exact ⟨by have := chain_length es; simp only [Stage.children]; omega, h es⟩

theorem chain_leaf {Q : Str → Prop} : ∀ es : List Str, (∀ e, es.getLast? = some e → Q e) →
    Stage.AllIn (fun st => st.isLeaf = true → Q st.expr) (chain es)
  | [], _ => by simp [chain, Stage.AllIn]
  | [e], h => by
    simp only [chain, Stage.AllIn, Stage.All, Stage.expr]
    exact ⟨⟨fun _ => h e (by simp), trivial⟩, trivial⟩
  | e :: e' :: es, h => by
    have ih := chain_leaf (e' :: es) (fun x hx => h x (by simpa using hx))
    rw [chain]
    simp only [Stage.AllIn, Stage.All]
    refine ⟨⟨?_, ih⟩, trivial⟩
    intro hl
    simp [Stage.isLeaf, Stage.children, chain] at hl

theorem chain_sat (E : Evaluator) (r : Rule) : ∀ es : List Str, es ≠ [] →
    Stage.satAny E r (chain es) = es.all (fun e => E.eval e r == .bool true)
  | [], h => absurd rfl h
  | [e], _ => by simp [chain, Stage.satAny, Stage.sat]
  | e :: e' :: es, _ => by
    have ih := chain_sat E r (e' :: es) (by simp)
    rw [chain, Stage.satAny, Stage.sat, ih, Stage.satAny]
    simp [chain]

theorem getParameter_index {d : PolicyDef} {r : Rule} {y : Str} {i : Nat} (hy : d.argIndex.get y = some i)
    (hl : r.length = d.args.length) (hi : i < d.args.length) : ∃ v, d.getParameter r y = some v ∧ r[i]? = some v := by
  have hr : i < r.length := by omega
  refine ⟨r[i], ?_, by simp [hr]⟩
  unfold PolicyDef.getParameter
  rw [hy]
  simp only [hl, Nat.lt_irrefl, gt_iff_lt, if_false]
  simp [hr]

theorem get_p {ps : MatchParams} {r : Rule} {y : Str} (hy : y.head? = some 'p' ∨ y.head? = some 'g') :
    ps.get r y = ps.pDef.getParameter r y := by
  cases y with
  | nil => rcases hy with hy | hy <;> cases hy
  | cons c cs =>
    simp only [List.head?_cons, Option.some.injEq] at hy
    simp [MatchParams.get, hy]

theorem get_r {ps : MatchParams} {r : Rule} {x : Str} (hx : x.head? = some 'r') :
    ps.get r x = ps.rDef.getParameter ps.rvals x := by
  cases x with
  | nil => cases hx
  | cons c cs =>
    simp only [List.head?_cons, Option.some.injEq] at hx
    subst hx
    simp [MatchParams.get]

/-- A name that a matcher may use as an attribute of the rule. -/
structure PName (ps : MatchParams) (fns : Str → Option Fn) (y : Str) : Prop where
  ident : isIdent y
  fn : fns y = none
  head : y.head? = some 'p'
  index : ∃ i, ps.pDef.argIndex.get y = some i ∧ i < ps.pDef.args.length

/-- A name that a matcher may use as an attribute of the request, and its value. -/
structure RName (ps : MatchParams) (fns : Str → Option Fn) (x a : Str) : Prop where
  ident : isIdent x
  fn : fns x = none
  head : x.head? = some 'r'
  val : ps.rDef.getParameter ps.rvals x = some a

theorem PName.get {ps : MatchParams} {fns : Str → Option Fn} {y : Str} (h : PName ps fns y) {r : Rule}
    (hl : r.length = ps.pDef.args.length) : ∃ b, ps.get r y = some b := by
  obtain ⟨i, h1, h2⟩ := h.index
  obtain ⟨v, h3, -⟩ := getParameter_index h1 hl h2
  exact ⟨v, by rw [get_p (.inl h.head), h3]⟩

/-- `x == y`: everything that is asked of a stage. -/
theorem eq_stage {gov : Gov} (hg : gov.Ok) {fns : Str → Option Fn} {ps : MatchParams} {x y a : Str}
    (hx : RName ps fns x a) (hy : PName ps fns y) (hp : findPArgs (x ++ s% " == " ++ y) = [y]) :
    (∀ cs, ReadsOwnArgs ps.pDef (gov fns ps.get) (.mk (x ++ s% " == " ++ y) cs)) ∧
    (gov fns ps.get).compiles (x ++ s% " == " ++ y) = true ∧
    (∀ r : Rule, r.length = ps.pDef.args.length → ∃ b, ps.pDef.getParameter r y = some b ∧
      (gov fns ps.get).eval (x ++ s% " == " ++ y) r = .bool (a == b)) := by
  have hev : ∀ r : Rule, r.length = ps.pDef.args.length → ∃ b, ps.pDef.getParameter r y = some b ∧
      (gov fns ps.get).eval (x ++ s% " == " ++ y) r = .bool (a == b) := by
    intro r hl
    obtain ⟨b, hb⟩ := hy.get hl
    refine ⟨b, by rw [← get_p (.inl hy.head)]; exact hb, ?_⟩
    exact evalEq hg ps hx.ident hy.ident hx.fn hy.fn r (by rw [get_r hx.head, hx.val]) hb
  refine ⟨fun cs => ⟨?_, ?_⟩, (hg.eq _ _ x y hx.ident hy.ident hx.fn hy.fn).1, hev⟩
  · intro r hr z hz
    simp only [Stage.pArgs, Stage.expr, hp, List.mem_singleton] at hz
    subst hz
    obtain ⟨b, hb, -⟩ := hev r hr.len
    exact ⟨b, hb⟩
  · intro r r' hr hr' h
    obtain ⟨b, hb, e⟩ := hev r hr.len
    obtain ⟨b', hb', e'⟩ := hev r' hr'.len
    have := h y (by simp only [Stage.pArgs, Stage.expr, hp, List.mem_singleton])
    rw [hb, hb'] at this
    cases this
    simp only [Stage.expr]
    rw [e, e']

theorem mapM_some {f : Str → Option Str} : ∀ args : List Str, (∀ a ∈ args, ∃ v, f a = some v) →
    ∃ vs, args.mapM f = some vs
  | [], _ => ⟨[], rfl⟩
  | a :: as, h => by
    obtain ⟨v, hv⟩ := h a (by simp)
    obtain ⟨vs, hvs⟩ := mapM_some as (fun b hb => h b (by simp [hb]))
    exact ⟨v :: vs, by simp [List.mapM_cons, hv, hvs]⟩

theorem mapM_congr {f g : Str → Option Str} : ∀ args : List Str, (∀ a ∈ args, f a = g a) →
    args.mapM f = args.mapM g
  | [], _ => rfl
  | a :: as, h => by
    simp only [List.mapM_cons, h a (by simp), mapM_congr as (fun b hb => h b (by simp [hb]))]

/-- `f(a, …, z)`: everything that is asked of a stage. -/
theorem call_stage {gov : Gov} (hg : gov.Ok) {fns : Str → Option Fn} {ps : MatchParams} {f : Str} {fn : Fn}
    {args : List Str} (hf : isIdent f) (ff : fns f = some fn) (hne : args ≠ [])
    (ha : ∀ a ∈ args, (∃ v, RName ps fns a v) ∨ PName ps fns a)
    (hp : ∀ a ∈ args, a.head? = some 'p' → a ∈ findPArgs (f ++ s% "(" ++ join (s% ", ") args ++ s% ")"))
    (hp' : ∀ a ∈ findPArgs (f ++ s% "(" ++ join (s% ", ") args ++ s% ")"), a ∈ args ∧ a.head? = some 'p') :
    (∀ cs, ReadsOwnArgs ps.pDef (gov fns ps.get)
      (.mk (f ++ s% "(" ++ join (s% ", ") args ++ s% ")") cs)) ∧
    (gov fns ps.get).compiles (f ++ s% "(" ++ join (s% ", ") args ++ s% ")") = true ∧
    (∀ r : Rule, r.length = ps.pDef.args.length → ∃ vs, args.mapM (ps.get r) = some vs ∧
      (gov fns ps.get).eval (f ++ s% "(" ++ join (s% ", ") args ++ s% ")") r = fn vs) := by
  have hid : ∀ a ∈ args, isIdent a ∧ fns a = none := by
    intro a h
    rcases ha a h with ⟨v, h⟩ | h
    · exact ⟨h.ident, h.fn⟩
    · exact ⟨h.ident, h.fn⟩
  have hget : ∀ r : Rule, r.length = ps.pDef.args.length → ∃ vs, args.mapM (ps.get r) = some vs := by
    intro r hl
    apply mapM_some
    intro a h
    rcases ha a h with ⟨v, h⟩ | h
    · exact ⟨v, by rw [get_r h.head, h.val]⟩
    · exact h.get hl
  have hev : ∀ r : Rule, r.length = ps.pDef.args.length → ∃ vs, args.mapM (ps.get r) = some vs ∧
      (gov fns ps.get).eval (f ++ s% "(" ++ join (s% ", ") args ++ s% ")") r = fn vs := by
    intro r hl
    obtain ⟨vs, h⟩ := hget r hl
    exact ⟨vs, h, evalCall hg ps hf ff hne hid r h⟩
  refine ⟨fun cs => ⟨?_, ?_⟩, (hg.call _ _ f fn args hf ff hne hid).1, hev⟩
  · intro r hr z hz
    obtain ⟨h1, h2⟩ := hp' z hz
    rcases ha z h1 with ⟨v, h⟩ | h
    · rw [h.head] at h2; cases h2
    · obtain ⟨b, hb⟩ := h.get hr.len
      exact ⟨b, by rw [← get_p (.inl h.head)]; exact hb⟩
  · intro r r' hr hr' h
    obtain ⟨vs, h1, e⟩ := hev r hr.len
    obtain ⟨vs', h1', e'⟩ := hev r' hr'.len
    have : args.mapM (ps.get r) = args.mapM (ps.get r') := by
      apply mapM_congr
      intro a hm
      rcases ha a hm with ⟨v, ha⟩ | ha
      · rw [get_r ha.head, get_r ha.head]
      · rw [get_p (.inl ha.head), get_p (.inl ha.head)]
        exact h a (hp a hm ha.head)
    rw [h1, h1'] at this
    cases this
    simp only [Stage.expr]
    rw [e, e']

/-! ## Allow rules and a conjunction of atoms -/

theorem scan_allow {pDef : PolicyDef} (hne : pDef.has (pDef.key ++ s% "_eft") = false) (root : Stage)
    (E : Evaluator) (L : List Rule) :
    scan pDef root E SOME_ALLOW L = true ↔ ∃ r ∈ L, Stage.satAny E r root.children = true := by
  unfold scan decision
  simp only [if_true, List.contains_eq_mem, List.mem_map, List.mem_filter, decide_eq_true_eq,
    PolicyDef.getEft, hne, Bool.false_eq_true, if_false]
  constructor
  · rintro ⟨r, ⟨h1, h2⟩, -⟩; exact ⟨r, h1, h2⟩
  · rintro ⟨r, h1, h2⟩; exact ⟨r, ⟨h1, h2⟩, trivial⟩

/-- An atom that means `sem`. -/
structure AtomMeans (pDef : PolicyDef) (E : Evaluator) (e : Str) (sem : Rule → Bool) : Prop where
  reads : ∀ cs, ReadsOwnArgs pDef E (.mk e cs)
  compiles : E.compiles e = true
  eval : ∀ r : Rule, r.length = pDef.args.length → E.eval e r = .bool (sem r)

/-- An atom and its meaning. -/
abbrev Meaning := Str × (Rule → Bool)

theorem Model.After.conj {build : Str → Res Stage} {rText pText eText mText : Str} {gs : List (Str × Str)}
    {es : List Meaning} {ops : List Op} {m : Model}
    (h : m.After build rText pText gs eText mText (.mk [] (chain (es.map Prod.fst))) ops) (hne : es ≠ [])
    (heft : (newPolicyDef (s% "p") pText).has (s% "p_eft") = false) (hallow : effectExpr eText = SOME_ALLOW)
    (base : Str → Option Fn) (gov : Gov) (ord : Order) (hv : ord.Valid) (rvals : List Str)
    (hsem : ∀ e ∈ es, AtomMeans (newPolicyDef (s% "p") pText) (m.requestEval base gov rText pText rvals) e.1 e.2)
    (hlast : ∀ e, es.getLast? = some e → e.2 (blankRule (newPolicyDef (s% "p") pText)) = false) :
    ∃ b, m.enforceParams build base gov ord (rvals.map Param.val) = (m, .ok b) ∧
      (b = true ↔ ∃ r : Rule, r.length = (newPolicyDef (s% "p") pText).args.length ∧
        isHeld ops (s% "p" :: r) = true ∧ ∀ e ∈ es, e.2 r = true) := by
  have hbl : (blankRule (newPolicyDef (s% "p") pText)).length = (newPolicyDef (s% "p") pText).args.length := by
    simp [blankRule]
  have hne' : es.map Prod.fst ≠ [] := by simpa using hne
  have hall : ∀ {P : Str → Prop}, (∀ e ∈ es, P e.1) → ∀ e ∈ es.map Prod.fst, P e := by
    intro P h e hm
    obtain ⟨a, ha, rfl⟩ := List.mem_map.1 hm
    exact h a ha
  obtain ⟨L, hL, hgood, he⟩ := h.enforce (chain_binary _) base gov ord hv rvals
    (chain_all _ (hall fun e hm cs _ => (hsem e hm).reads cs))
    (show Stage.AllIn _ (chain _) from chain_leaf
      (Q := fun e => (m.requestEval base gov rText pText rvals).eval e
        (blankRule (newPolicyDef (s% "p") pText)) ≠ .bool true) _ (by
      intro e hm
      rw [List.getLast?_map] at hm
      obtain ⟨a, ha, rfl⟩ := Option.map_eq_some_iff.1 hm
      rw [(hsem a (List.mem_of_getLast? ha)).eval _ hbl, hlast a ha]
      simp))
    (chain_all _ (hall fun e hm cs => ⟨(hsem e hm).compiles, fun r hr => by
      simp only [Stage.expr, (hsem e hm).eval r hr]; simp⟩))
    (by rw [hallow]; intro h; exact absurd h (by decide))
  refine ⟨_, he, ?_⟩
  rw [hallow, scan_allow heft]
  constructor
  · rintro ⟨r, hr, hs⟩
    refine ⟨r, (hgood r hr).len, (hL r).1 hr, ?_⟩
    rw [Stage.children, chain_sat _ _ _ hne'] at hs
    intro e hm
    have := List.all_eq_true.1 hs e.1 (List.mem_map.2 ⟨e, hm, rfl⟩)
    rw [(hsem e hm).eval r (hgood r hr).len] at this
    simpa using this
  · rintro ⟨r, hl, hh, hs⟩
    refine ⟨r, (hL r).2 hh, ?_⟩
    rw [Stage.children, chain_sat _ _ _ hne']
    apply List.all_eq_true.2
    apply hall
    intro e hm
    rw [(hsem e hm).eval r hl, hs e hm]
    rfl

/-- The meaning of `x == y`. -/
theorem eq_means {gov : Gov} (hg : gov.Ok) {fns : Str → Option Fn} {ps : MatchParams} {x y a : Str} {e : Str}
    (he : e = x ++ s% " == " ++ y) (hx : RName ps fns x a) (hy : PName ps fns y) (hp : findPArgs e = [y])
    {sem : Rule → Bool}
    (hs : ∀ r b, r.length = ps.pDef.args.length → ps.pDef.getParameter r y = some b → sem r = (a == b)) :
    AtomMeans ps.pDef (gov fns ps.get) e sem := by
  subst he
  obtain ⟨h1, h2, h3⟩ := eq_stage hg hx hy hp
  refine ⟨h1, h2, ?_⟩
  intro r hr
  obtain ⟨b, hb, e⟩ := h3 r hr
  rw [e, hs r b hr hb]

/-- The meaning of `f(a, …, z)`. -/
theorem call_means {gov : Gov} (hg : gov.Ok) {fns : Str → Option Fn} {ps : MatchParams} {f : Str} {fn : Fn}
    {args : List Str} {e : Str} (he : e = f ++ s% "(" ++ join (s% ", ") args ++ s% ")")
    (hf : isIdent f) (ff : fns f = some fn) (hne : args ≠ [])
    (ha : ∀ a ∈ args, (∃ v, RName ps fns a v) ∨ PName ps fns a)
    (hp : findPArgs e = args.filter (fun a => a.head? == some 'p')) {sem : Rule → Bool}
    (hs : ∀ r vs, r.length = ps.pDef.args.length → args.mapM (ps.get r) = some vs → fn vs = .bool (sem r)) :
    AtomMeans ps.pDef (gov fns ps.get) e sem := by
  subst he
  obtain ⟨h1, h2, h3⟩ := call_stage hg hf ff hne ha (by
    intro a h1 h2
    rw [hp]
    simp [h1, h2]) (by
    intro a h
    rw [hp] at h
    simpa using h)
  refine ⟨h1, h2, ?_⟩
  intro r hr
  obtain ⟨vs, hv, e⟩ := h3 r hr
  rw [e, hs r vs hr hv]

/-- The meaning of `x == y` by the position of `y`. -/
theorem eq_at {gov : Gov} (hg : gov.Ok) {m : Model} {base : Str → Option Fn} {rText pText : Str}
    {rvals : List Str} {x y a : Str} {e : Str} (i : Nat) (he : e = x ++ s% " == " ++ y) (hp : findPArgs e = [y])
    (ix : isIdent x) (fx : m.functions base x = none) (cx : x.head? = some 'r')
    (vx : (newPolicyDef (s% "r") rText).getParameter rvals x = some a)
    (iy : isIdent y) (fy : m.functions base y = none) (cy : y.head? = some 'p')
    (vy : (newPolicyDef (s% "p") pText).argIndex.get y = some i)
    (hi : i < (newPolicyDef (s% "p") pText).args.length) :
    AtomMeans (newPolicyDef (s% "p") pText) (m.requestEval base gov rText pText rvals) e
      (fun r => r[i]? == some a) := by
  refine eq_means (ps := ⟨newPolicyDef (s% "p") pText, newPolicyDef (s% "r") rText, rvals⟩) hg he ⟨ix, fx, cx, vx⟩ ⟨iy, fy, cy, i, vy, hi⟩ hp ?_
  intro r b hl hb
  obtain ⟨v, h1, h2⟩ := getParameter_index vy hl hi
  rw [hb] at h1
  cases h1
  simp only [h2]
  rw [Bool.eq_iff_iff]
  simp only [beq_iff_eq, Option.some.injEq]
  exact eq_comm

theorem ops_okay {pDef : PolicyDef} {m : Model} {ks : List Str} {n : Nat}
    (hkn : ∀ k, m.Knows k ↔ k = s% "p" ∨ k ∈ ks) (hn : pDef.args.length = n) (hn0 : 0 < n) {op : Model.Op}
    (hp : op.PGood n)
    (hg : ∀ k f, k ∈ ks → op = .add (k :: f) ∨ op = .remove (k :: f) → m.Fits (k :: f) ∧ k ≠ s% "p") :
    op.Okay (s% "p") pDef m := by
  have hP : ∀ f : Rule, (f.length = n ∧ ∀ x ∈ f, ',' ∉ x) → m.Fits (s% "p" :: f) ∧ GoodRule pDef f := by
    intro f h
    have hne : f ≠ [] := by rintro rfl; simp at h; omega
    exact ⟨⟨fun _ => ⟨hne, h.2⟩, fun e => (by simp at e), fun e => (by simp at e)⟩, by rw [hn]; exact h.1, hne, h.2⟩
  cases op with
  | add r => cases r with
    | nil => trivial
    | cons k f =>
      intro hk
      rcases (hkn k).1 hk with rfl | hk
      · exact ⟨(hP f (hp rfl)).1, fun _ => (hP f (hp rfl)).2⟩
      · obtain ⟨h1, h2⟩ := hg k f hk (Or.inl rfl)
        exact ⟨h1, fun e => absurd e h2⟩
  | remove r => cases r with
    | nil => trivial
    | cons k f =>
      intro hk
      rcases (hkn k).1 hk with rfl | hk
      · exact ⟨(hP f (hp rfl)).1, fun _ => (hP f (hp rfl)).2⟩
      · obtain ⟨h1, h2⟩ := hg k f hk (Or.inr rfl)
        exact ⟨h1, fun e => absurd e h2⟩
  | clear k => trivial

theorem functions_none {build : Str → Res Stage} {rText pText eText mText : Str} {gs : List (Str × Str)}
    {root : Stage} {ops : List Model.Op} {m : Model}
    (h : m.After build rText pText gs eText mText root ops) {base : Str → Option Fn} {x : Str}
    (hb : base x = none) (hx : x ∉ gs.map Prod.fst) : m.functions base x = none := by
  unfold Model.functions
  cases e : m.rpMap.get x with
  | none => exact hb
  | some rp => exact absurd ((h.roles x).1 (by unfold GoMap.has; rw [e]; rfl)) hx

/-- The manager of a role definition after a history. -/
theorem Model.After.manager {build : Str → Res Stage} {rText pText eText mText : Str} {gs : List (Str × Str)}
    {root : Stage} {ops : List Model.Op} {m : Model}
    (h : m.After build rText pText gs eText mText root ops) {k : Str} (hk : k ∈ gs.map Prod.fst) :
    ∃ rp, m.rpMap.get k = some rp ∧ rp.mgr.Base ∧ (∀ base, m.functions base k = some (gFunction rp.mgr)) ∧
      ((configured build (conf rText pText gs eText mText)).rpMap.get k).map (fun rp => rp.mgr.isRM) =
        some rp.mgr.isRM ∧
      ∀ u r ds, (u, r, ds) ∈ rp.mgr.links ↔ isHeld ops (k :: u :: r :: ds) = true := by
  have := (h.roles k).2 hk
  unfold GoMap.has at this
  obtain ⟨rp, e⟩ := Option.isSome_iff_exists.1 this
  refine ⟨rp, e, h.std.base k rp e, fun base => by unfold Model.functions; rw [e], ?_, ?_⟩
  · have := h.same.roles k
    rw [e] at this
    exact this.symm
  · intro u r ds
    rw [← h.mem k (Or.inr hk), mem_rules_g h.std.tidy e, RolePolicy.mem_rules]
    constructor
    · intro h; exact ⟨u, r, ds, rfl, h⟩
    · rintro ⟨a, b, c, e, h⟩; cases e; exact h

end Fastac
