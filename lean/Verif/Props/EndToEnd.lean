import Verif.Lemmas.EndToEnd
import Verif.Props.MatcherDef

/-!
# Whole systems: a configuration, a history of rules, a request (C58, C59, C60, C62)
-/

namespace Fastac

/-- **C58**.  The ACL example: after any history of rule changes, `Enforce(sub, obj, act)` is true exactly
for the stored rules, and the call changes nothing.  What is asked: rules of `p` have three fields without
commas, the action is not empty (see `EndToEnd.c58_fails`). -/
theorem c58_acl_partial (lex : Str → Res Toks) (grow : Nat → Nat)
    (hlex : lex (s% "r_sub == p_sub && r_obj == p_obj && r_act == p_act") = .ok aclFormula.toks)
    (gov : Gov) (hgov : gov.Ok) (base : Str → Option Fn)
    (hbase : ∀ x ∈ [s% "r_sub", s% "r_obj", s% "r_act", s% "p_sub", s% "p_obj", s% "p_act"], base x = none)
    (ops : List Model.Op) (hops : ∀ op ∈ ops, op.PGood 3) (ord : Order) (hord : ord.Valid)
    (sub obj act : Str) (hact : act ≠ []) :
    ((Model.configured (buildText lex grow) aclConf).run ops).1.enforceParams (buildText lex grow) base gov
      ord [.val sub, .val obj, .val act] =
    (((Model.configured (buildText lex grow) aclConf).run ops).1, .ok (isHeld ops [s% "p", sub, obj, act])) := by
  have hbuild : buildText lex grow aclText = .ok (.mk [] (chain [s% "r_sub == p_sub", s% "r_obj == p_obj",
      s% "r_act == p_act"])) := by
    have e : replaceArgs aclText = s% "r_sub == p_sub && r_obj == p_obj && r_act == p_act" := by decide +kernel
    unfold buildText
    rw [e, hlex]
    exact buildMatcherDef_formula grow aclFormula (by decide) (by decide)
  have hb := chain_binary [s% "r_sub == p_sub", s% "r_obj == p_obj", s% "r_act == p_act"]
  have hk : (Stage.mk [] (chain [s% "r_sub == p_sub", s% "r_obj == p_obj", s% "r_act == p_act"])).policyKey =
      s% "p" := by decide +kernel
  obtain ⟨-, -, -, hkn, -⟩ := Model.configured_std (build := buildText lex grow) (rText := s% "sub, obj, act")
    (pText := s% "sub, obj, act") (gs := []) (eText := allowText) (by simp) hbuild hb hk rfl
  have hafter := Model.after (build := buildText lex grow) (rText := s% "sub, obj, act")
    (pText := s% "sub, obj, act") (gs := []) (eText := allowText) (by simp) hbuild hb hk ops
    (fun op hm => ops_okay (n := 3) hkn rfl (by omega) (hops op hm) (by simp))
  unfold aclConf
  generalize ((Model.configured (buildText lex grow) (conf (s% "sub, obj, act") (s% "sub, obj, act") []
    allowText aclText)).run ops).1 = m at hafter
  have hfns : ∀ x ∈ [s% "r_sub", s% "r_obj", s% "r_act", s% "p_sub", s% "p_obj", s% "p_act"],
      m.functions base x = none := fun x hx => functions_none hafter (hbase x hx) (by simp)
  obtain ⟨b, he, hb⟩ := Model.After.conj (es := [(s% "r_sub == p_sub", fun r => r[0]? == some sub),
      (s% "r_obj == p_obj", fun r => r[1]? == some obj), (s% "r_act == p_act", fun r => r[2]? == some act)])
    hafter (by simp) (by decide) (by decide +kernel) base gov ord hord [sub, obj, act] (by
      intro e hm
      simp only [List.mem_cons, List.not_mem_nil, or_false] at hm
      rcases hm with rfl | rfl | rfl <;> dsimp only
      · exact eq_at hgov (x := s% "r_sub") (y := s% "p_sub") 0 rfl (by decide +kernel) (by decide)
          (hfns _ (by decide)) rfl rfl (by decide) (hfns _ (by decide)) rfl rfl (by decide)
      · exact eq_at hgov (x := s% "r_obj") (y := s% "p_obj") 1 rfl (by decide +kernel) (by decide)
          (hfns _ (by decide)) rfl rfl (by decide) (hfns _ (by decide)) rfl rfl (by decide)
      · exact eq_at hgov (x := s% "r_act") (y := s% "p_act") 2 rfl (by decide +kernel) (by decide)
          (hfns _ (by decide)) rfl rfl (by decide) (hfns _ (by decide)) rfl rfl (by decide))
    (by
      intro e hm
      cases hm
      show (some [] == some act) = false
      simpa using hact.symm)
  have he' : m.enforceParams (buildText lex grow) base gov ord [.val sub, .val obj, .val act] = (m, .ok b) := he
  rw [he']
  congr 2
  rw [Bool.eq_iff_iff, hb]
  constructor
  · rintro ⟨r, hl, hh, hs⟩
    match r, hl with
    | [x, y, z], _ =>
      simp at hs
      obtain ⟨rfl, rfl, rfl⟩ := hs
      exact hh
  · intro hh
    exact ⟨[sub, obj, act], rfl, hh, by simp⟩

/-- **C59**.  The RBAC example: after any history of changes of `p` and `g` rules, `Enforce(sub, obj, act)`
is true exactly if some stored rule `(role, obj, act)` is for `sub` or for a role reached from `sub` over at
most nine stored links; the call changes nothing. -/
theorem c59_rbac_partial (lex : Str → Res Toks) (grow : Nat → Nat)
    (hlex : lex (s% "g(r_sub, p_sub) && r_obj == p_obj && r_act == p_act") = .ok rbacFormula.toks)
    (gov : Gov) (hgov : gov.Ok) (base : Str → Option Fn)
    (hbase : ∀ x ∈ [s% "r_sub", s% "r_obj", s% "r_act", s% "p_sub", s% "p_obj", s% "p_act"], base x = none)
    (ops : List Model.Op) (hops : ∀ op ∈ ops, op.PGood 3 ∧ op.GGood) (ord : Order) (hord : ord.Valid)
    (sub obj act : Str) (hact : act ≠ []) :
    ∃ b, ((Model.configured (buildText lex grow) rbacConf).run ops).1.enforceParams (buildText lex grow) base
        gov ord [.val sub, .val obj, .val act] =
      (((Model.configured (buildText lex grow) rbacConf).run ops).1, .ok b) ∧
      (b = true ↔ ∃ role, isHeld ops [s% "p", role, obj, act] = true ∧
        (sub = role ∨ ∃ k, k ≤ 9 ∧ Reach (fun u r => isHeld ops [s% "g", u, r] = true) k sub role)) := by
  have hbuild : buildText lex grow rbacText = .ok (.mk [] (chain [s% "g(r_sub, p_sub)", s% "r_obj == p_obj",
      s% "r_act == p_act"])) := by
    have e : replaceArgs rbacText = s% "g(r_sub, p_sub) && r_obj == p_obj && r_act == p_act" := by decide +kernel
    unfold buildText
    rw [e, hlex]
    exact buildMatcherDef_formula grow rbacFormula (by decide) (by decide)
  have hb := chain_binary [s% "g(r_sub, p_sub)", s% "r_obj == p_obj", s% "r_act == p_act"]
  have hk : (Stage.mk [] (chain [s% "g(r_sub, p_sub)", s% "r_obj == p_obj", s% "r_act == p_act"])).policyKey =
      s% "p" := by decide +kernel
  obtain ⟨-, -, -, hkn, -, -, hrp, hgd⟩ := Model.configured_std (build := buildText lex grow)
    (rText := s% "sub, obj, act") (pText := s% "sub, obj, act") (gs := [(s% "g", s% "_, _")])
    (eText := allowText) (by simp) hbuild hb hk rfl
  have hafter := Model.after (build := buildText lex grow) (rText := s% "sub, obj, act")
    (pText := s% "sub, obj, act") (gs := [(s% "g", s% "_, _")]) (eText := allowText) (by simp) hbuild hb hk ops
    (fun op hm => ops_okay (n := 3) hkn rfl (by omega) (hops op hm).1 (by
      intro k f hk ho
      simp only [List.map_cons, List.map_nil, List.mem_singleton] at hk
      subst hk
      have : f.length = 2 := by
        rcases ho with rfl | rfl
        · exact (hops _ hm).2 rfl
        · exact (hops _ hm).2 rfl
      refine ⟨⟨fun e => (by simp at e), fun _ _ => this, fun _ h => ?_⟩, by simp⟩
      rw [hgd] at h
      exact absurd rfl h))
  unfold rbacConf
  obtain ⟨rp, hrp', hbase', hfn, hrm, hlinks⟩ := hafter.manager (k := s% "g") (by simp)
  rw [hrp] at hrm
  have hrm' : some true = some rp.mgr.isRM := hrm
  generalize ((Model.configured (buildText lex grow) (conf (s% "sub, obj, act") (s% "sub, obj, act")
    [(s% "g", s% "_, _")] allowText rbacText)).run ops).1 = m at hafter hrp' hfn
  have hfns : ∀ x ∈ [s% "r_sub", s% "r_obj", s% "r_act", s% "p_sub", s% "p_obj", s% "p_act"],
      m.functions base x = none := fun x hx => functions_none hafter (hbase x hx) (by
        simp only [List.map_cons, List.map_nil, List.mem_singleton]
        rintro rfl
        simp at hx)
  obtain ⟨mgr, ls⟩ := rp
  cases mgr with
  | dm d => simp [Mgr.isRM] at hrm'
  | rm rm =>
  obtain ⟨b, he, hb⟩ := Model.After.conj (es := [(s% "g(r_sub, p_sub)", fun r => (rm.hasLink sub (r[0]?.getD [])).2),
      (s% "r_obj == p_obj", fun r => r[1]? == some obj), (s% "r_act == p_act", fun r => r[2]? == some act)])
    hafter (by simp) (by decide) (by decide +kernel) base gov ord hord [sub, obj, act] (by
      intro e hm
      simp only [List.mem_cons, List.not_mem_nil, or_false] at hm
      rcases hm with rfl | rfl | rfl <;> dsimp only
      · refine call_means (ps := ⟨newPolicyDef (s% "p") (s% "sub, obj, act"),
            newPolicyDef (s% "r") (s% "sub, obj, act"), [sub, obj, act]⟩) hgov (f := s% "g")
          (args := [s% "r_sub", s% "p_sub"]) rfl (by decide) (hfn base) (by simp) ?_ (by decide +kernel) ?_
        · intro a ha
          simp only [List.mem_cons, List.not_mem_nil, or_false] at ha
          rcases ha with rfl | rfl
          · exact Or.inl ⟨sub, by decide, hfns _ (by decide), rfl, rfl⟩
          · exact Or.inr ⟨by decide, hfns _ (by decide), rfl, 0, rfl, Nat.succ_pos _⟩
        · intro r vs hl hv
          match r, hl with
          | [x, y, z], _ =>
            have : some [sub, x] = some vs := hv
            cases this
            simp [gFunction, Mgr.hasLink]
      · exact eq_at hgov (x := s% "r_obj") (y := s% "p_obj") 1 rfl (by decide +kernel) (by decide)
          (hfns _ (by decide)) rfl rfl (by decide) (hfns _ (by decide)) rfl rfl (by decide)
      · exact eq_at hgov (x := s% "r_act") (y := s% "p_act") 2 rfl (by decide +kernel) (by decide)
          (hfns _ (by decide)) rfl rfl (by decide) (hfns _ (by decide)) rfl rfl (by decide))
    (by
      intro e hm
      cases hm
      show (some [] == some act) = false
      simpa using hact.symm)
  refine ⟨b, he, ?_⟩
  rw [hb]
  have hask : ∀ role, (rm.hasLink sub role).2 = true ↔
      (sub = role ∨ ∃ k, k ≤ 9 ∧ Reach (fun u r => isHeld ops [s% "g", u, r] = true) k sub role) := by
    intro role
    obtain ⟨x, h1, h2⟩ := Mgr.Base.hasLink_rm hbase' sub role []
    have h3 : (rm.hasLink sub role).2 = x := by
      simp only [Mgr.hasLink, Res.ok.injEq, Prod.mk.injEq] at h1
      exact h1.2
    rw [h3, h2]
    have : ∀ u r, (u, r, []) ∈ (Mgr.rm rm).links ↔ isHeld ops [s% "g", u, r] = true := fun u r => hlinks u r []
    simp only [Mgr.Reach_congr this]
  constructor
  · rintro ⟨r, hl, hh, hs⟩
    match r, hl with
    | [x, y, z], _ =>
      simp at hs
      obtain ⟨h1, rfl, rfl⟩ := hs
      exact ⟨x, hh, (hask x).1 h1⟩
  · rintro ⟨role, hh, hr⟩
    exact ⟨[role, obj, act], rfl, hh, by simpa using (hask role).2 hr⟩

/-- **C60**.  The example with domains: after any history of changes of `p` and `g` rules,
`Enforce(sub, dom, obj, act)` is true exactly if some stored rule `(role, dom, obj, act)` is for `sub` or for
a role reached from `sub` over at most seven stored links of the domain `dom`; the call changes nothing. -/
theorem c60_domains_partial (lex : Str → Res Toks) (grow : Nat → Nat)
    (hlex : lex (s% "g(r_sub, p_sub, r_dom) && r_dom == p_dom && r_obj == p_obj && r_act == p_act") = .ok domFormula.toks)
    (gov : Gov) (hgov : gov.Ok) (base : Str → Option Fn)
    (hbase : ∀ x ∈ [s% "r_sub", s% "r_dom", s% "r_obj", s% "r_act", s% "p_sub", s% "p_dom", s% "p_obj", s% "p_act"], base x = none)
    (ops : List Model.Op) (hops : ∀ op ∈ ops, op.PGood 4 ∧ op.DGood) (ord : Order) (hord : ord.Valid)
    (sub dom obj act : Str) (hact : act ≠ []) (hdom : DM.Clean [dom]) :
    ∃ b, ((Model.configured (buildText lex grow) domConf).run ops).1.enforceParams (buildText lex grow) base
        gov ord [.val sub, .val dom, .val obj, .val act] =
      (((Model.configured (buildText lex grow) domConf).run ops).1, .ok b) ∧
      (b = true ↔ ∃ role, isHeld ops [s% "p", role, dom, obj, act] = true ∧
        (sub = role ∨ ∃ k, k ≤ 7 ∧ Reach (fun u r => isHeld ops [s% "g", u, r, dom] = true) k sub role)) := by
  have hbuild : buildText lex grow domText = .ok (.mk [] (chain [s% "g(r_sub, p_sub, r_dom)", s% "r_dom == p_dom", s% "r_obj == p_obj",
      s% "r_act == p_act"])) := by
    have e : replaceArgs domText = s% "g(r_sub, p_sub, r_dom) && r_dom == p_dom && r_obj == p_obj && r_act == p_act" := by decide +kernel
    unfold buildText
    rw [e, hlex]
    exact buildMatcherDef_formula grow domFormula (by decide) (by decide)
  have hb := chain_binary [s% "g(r_sub, p_sub, r_dom)", s% "r_dom == p_dom", s% "r_obj == p_obj", s% "r_act == p_act"]
  have hk : (Stage.mk [] (chain [s% "g(r_sub, p_sub, r_dom)", s% "r_dom == p_dom", s% "r_obj == p_obj", s% "r_act == p_act"])).policyKey =
      s% "p" := by decide +kernel
  obtain ⟨-, -, -, hkn, -, -, hrp, hgd⟩ := Model.configured_std (build := buildText lex grow)
    (rText := s% "sub, dom, obj, act") (pText := s% "sub, dom, obj, act") (gs := [(s% "g", s% "_, _, _")])
    (eText := allowText) (by simp) hbuild hb hk rfl
  have hafter := Model.after (build := buildText lex grow) (rText := s% "sub, dom, obj, act")
    (pText := s% "sub, dom, obj, act") (gs := [(s% "g", s% "_, _, _")]) (eText := allowText) (by simp) hbuild hb hk ops
    (fun op hm => ops_okay (n := 4) hkn rfl (by omega) (hops op hm).1 (by
      intro k f hk ho
      simp only [List.map_cons, List.map_nil, List.mem_singleton] at hk
      subst hk
      have : f.length = 3 ∧ DM.Clean (f.drop 2) := by
        rcases ho with rfl | rfl
        · exact (hops _ hm).2 rfl
        · exact (hops _ hm).2 rfl
      refine ⟨⟨fun e => (by simp at e), fun _ h => ?_, fun _ _ => ⟨by omega, this.2⟩⟩, by simp⟩
      rw [hgd] at h
      have h' : some 3 = some 2 := h
      cases h'))
  unfold domConf
  obtain ⟨rp, hrp', hbase', hfn, hrm, hlinks⟩ := hafter.manager (k := s% "g") (by simp)
  rw [hrp] at hrm
  have hrm' : some false = some rp.mgr.isRM := hrm
  generalize ((Model.configured (buildText lex grow) (conf (s% "sub, dom, obj, act") (s% "sub, dom, obj, act")
    [(s% "g", s% "_, _, _")] allowText domText)).run ops).1 = m at hafter hrp' hfn
  have hfns : ∀ x ∈ [s% "r_sub", s% "r_dom", s% "r_obj", s% "r_act", s% "p_sub", s% "p_dom", s% "p_obj", s% "p_act"],
      m.functions base x = none := fun x hx => functions_none hafter (hbase x hx) (by
        simp only [List.map_cons, List.map_nil, List.mem_singleton]
        rintro rfl
        simp at hx)
  obtain ⟨mgr, ls⟩ := rp
  cases mgr with
  | rm rm => simp [Mgr.isRM] at hrm'
  | dm d =>
  have hask : ∀ role, ∃ x, (Mgr.dm d).hasLink sub role [dom] = .ok (Mgr.dm d, x) ∧ (x = true ↔
      (sub = role ∨ ∃ k, k ≤ 7 ∧ Reach (fun u r => isHeld ops [s% "g", u, r, dom] = true) k sub role)) := by
    intro role
    obtain ⟨x, h1, h2⟩ := Mgr.Base.hasLink_dm hbase' sub role [dom] hdom
    refine ⟨x, h1, ?_⟩
    rw [h2]
    have : ∀ u r, (u, r, [dom]) ∈ (Mgr.dm d).links ↔ isHeld ops [s% "g", u, r, dom] = true :=
      fun u r => hlinks u r [dom]
    simp only [Mgr.Reach_congr this, List.length_singleton]
    have hk : ∀ k, k + 1 + 1 ≤ 9 ↔ k ≤ 7 := by omega
    simp only [hk]
  obtain ⟨ans, hans⟩ := Classical.axiomOfChoice hask
  obtain ⟨b, he, hb⟩ := Model.After.conj (es := [(s% "g(r_sub, p_sub, r_dom)", fun r => ans (r[0]?.getD [])),
      (s% "r_dom == p_dom", fun r => r[1]? == some dom),
      (s% "r_obj == p_obj", fun r => r[2]? == some obj), (s% "r_act == p_act", fun r => r[3]? == some act)])
    hafter (by simp) (by decide) (by decide +kernel) base gov ord hord [sub, dom, obj, act] (by
      intro e hm
      simp only [List.mem_cons, List.not_mem_nil, or_false] at hm
      rcases hm with rfl | rfl | rfl | rfl <;> dsimp only
      · refine call_means (ps := ⟨newPolicyDef (s% "p") (s% "sub, dom, obj, act"),
            newPolicyDef (s% "r") (s% "sub, dom, obj, act"), [sub, dom, obj, act]⟩) hgov (f := s% "g")
          (args := [s% "r_sub", s% "p_sub", s% "r_dom"]) rfl (by decide) (hfn base) (by simp) ?_ (by decide +kernel) ?_
        · intro a ha
          simp only [List.mem_cons, List.not_mem_nil, or_false] at ha
          rcases ha with rfl | rfl | rfl
          · exact Or.inl ⟨sub, by decide, hfns _ (by decide), rfl, rfl⟩
          · exact Or.inr ⟨by decide, hfns _ (by decide), rfl, 0, rfl, Nat.succ_pos _⟩
          · exact Or.inl ⟨dom, by decide, hfns _ (by decide), rfl, rfl⟩
        · intro r vs hl hv
          match r, hl with
          | [x, y, z, w], _ =>
            have : some [sub, x, dom] = some vs := hv
            cases this
            simp [gFunction, (hans x).1]
      · exact eq_at hgov (x := s% "r_dom") (y := s% "p_dom") 1 rfl (by decide +kernel) (by decide)
          (hfns _ (by decide)) rfl rfl (by decide) (hfns _ (by decide)) rfl rfl (by decide)
      · exact eq_at hgov (x := s% "r_obj") (y := s% "p_obj") 2 rfl (by decide +kernel) (by decide)
          (hfns _ (by decide)) rfl rfl (by decide) (hfns _ (by decide)) rfl rfl (by decide)
      · exact eq_at hgov (x := s% "r_act") (y := s% "p_act") 3 rfl (by decide +kernel) (by decide)
          (hfns _ (by decide)) rfl rfl (by decide) (hfns _ (by decide)) rfl rfl (by decide))
    (by
      intro e hm
      cases hm
      show (some [] == some act) = false
      simpa using hact.symm)
  refine ⟨b, he, ?_⟩
  rw [hb]
  constructor
  · rintro ⟨r, hl, hh, hs⟩
    match r, hl with
    | [x, y, z, w], _ =>
      simp at hs
      obtain ⟨h1, rfl, rfl, rfl⟩ := hs
      exact ⟨x, hh, (hans x).2.1 h1⟩
  · rintro ⟨role, hh, hr⟩
    exact ⟨[role, dom, obj, act], rfl, hh, by simpa using (hans role).2.2 hr⟩

/-- **C62**.  Any configuration whose matcher is a formula `f` (at most two alternatives at each place of its
stages): after any history of rule changes, `Enforce` decides on the effects of exactly those stored rules
that make the formula true.  `rules` is any listing of the stored rules. -/
theorem c62_decision_partial (lex : Str → Res Toks) (grow : Nat → Nat) (rText pText eText mText : Str)
    (gs : List (Str × Str)) (hg : ∀ g ∈ gs, g.1.head? = some 'g')
    (f : Formula) (hlex : lex (replaceArgs mText) = .ok f.toks) (hw : f.wf = true) (hs : f.safe = true)
    (root : Stage) (hroot : buildMatcherDef grow f.toks = .ok root) (hbin : root.Binary)
    (hkey : root.policyKey = s% "p") (ops : List Model.Op)
    (hops : ∀ op ∈ ops, op.Okay (s% "p") (newPolicyDef (s% "p") pText)
      (Model.configured (buildText lex grow) (conf rText pText gs eText mText)))
    (m : Model)
    (hm : m = ((Model.configured (buildText lex grow) (conf rText pText gs eText mText)).run ops).1)
    (base : Str → Option Fn) (gov : Gov) (ord : Order) (hord : ord.Valid) (rvals : List Str)
    (E : Evaluator)
    (hE : E = gov (m.functions base)
      (MatchParams.get ⟨newPolicyDef (s% "p") pText, newPolicyDef (s% "r") rText, rvals⟩))
    (hl : root.Local (newPolicyDef (s% "p") pText) E) (hbs : root.BlankSafe (newPolicyDef (s% "p") pText) E)
    (hn : root.NeverFails (newPolicyDef (s% "p") pText) E)
    (rules : List Rule) (hrules : ∀ r, r ∈ rules ↔ isHeld ops (s% "p" :: r) = true)
    (hdet : effectExpr eText = SOME_ALLOW_NO_DENY → ∀ r ∈ rules,
      (newPolicyDef (s% "p") pText).getEft (s% "p" :: r) ≠ .indeterminate) :
    m.enforceParams (buildText lex grow) base gov ord (rvals.map .val) =
      (m, .ok (decision (effectExpr eText)
        ((rules.filter (fun r => f.truth (fun ts => E.eval (tokensToExpr ts) r == .bool true))).map
          (fun r => (newPolicyDef (s% "p") pText).getEft (s% "p" :: r))))) := by
  have hbuild : buildText lex grow mText = .ok root := by unfold buildText; rw [hlex]; exact hroot
  have h := Model.after hg hbuild hbin hkey ops hops
  rw [← hm] at h
  subst hE
  obtain ⟨L, hL, -, he⟩ := h.enforce hbin base gov ord hord rvals hl hbs hn
    (fun e f hf => hdet e f ((hrules f).2 hf))
  rw [he, scan_congr _ _ _ _ (L' := rules) (fun r => by rw [hL, hrules])]
  obtain ⟨root', h1, h2⟩ := c11_stages_partial grow f hw hs
  rw [hroot] at h1
  cases h1
  unfold scan
  simp only [h2]
  rfl

/-- **C59, C60**: the calls of `g` made while deciding leave the model as it is. -/
theorem c59_ask (build : Str → Res Stage) (rText pText eText mText : Str) (gs : List (Str × Str))
    (hg : ∀ g ∈ gs, g.1.head? = some 'g') (root : Stage) (hr : build mText = .ok root) (hb : root.Binary)
    (hk : root.policyKey = s% "p") (ops : List Model.Op)
    (ho : ∀ op ∈ ops, op.Okay (s% "p") (newPolicyDef (s% "p") pText)
      (Model.configured build (conf rText pText gs eText mText)))
    (key u r : Str) (ds : List Str) (hd : DM.Clean ds) :
    ((Model.configured build (conf rText pText gs eText mText)).run ops).1.ask key u r ds =
      ((Model.configured build (conf rText pText gs eText mText)).run ops).1 := by
  have h := Model.after hg hr hb hk ops ho
  generalize ((Model.configured build (conf rText pText gs eText mText)).run ops).1 = m at h
  unfold Model.ask
  cases e : m.rpMap.get key with
  | none => rfl
  | some rp =>
    obtain ⟨b, hb⟩ := (h.std.base key rp e).ask u r ds (by cases rp.mgr <;> simp [Mgr.AskOk, hd])
    simp only [hb]
    have : m.rpMap.set key ⟨rp.mgr, rp.listeners⟩ = m.rpMap := GoMap.set_same e
    rw [this]

/-! ## The hypotheses can be met, and the claims fail without them -/

namespace EndToEnd

/-- The value of an operand. -/
def miniTerm (par : Str → Option Str) (x : Str) : Option Str :=
  if x.head? = some '\'' then some (x.drop 1).dropLast else par x

/-- A library that knows the two forms of expressions. -/
def miniGov : Gov := fun fns par =>
  { compiles := fun _ => true
    eval := fun e r =>
      if '(' ∈ e then
        match fns (e.takeWhile (· ≠ '(')) with
        | none => .err
        | some fn =>
          match (splitC ',' (removeSpaces ((e.dropWhile (· ≠ '(')).drop 1).dropLast)).mapM (miniTerm (par r)) with
          | some vs => fn vs
          | none => .err
      else
        match miniTerm (par r) (e.takeWhile (· ≠ ' ')), miniTerm (par r) ((e.dropWhile (· ≠ ' ')).drop 4) with
        | some a, some b => .bool (a == b)
        | _, _ => .err }

theorem ident_ne {x : Str} (h : isIdent x) {c : Char} (hc : isWordC c = false) : c ∉ x := by
  intro hm
  have := h.2.1 c hm
  rw [hc] at this
  cases this

theorem takeWhile_until {x y : Str} {c : Char} (h : c ∉ x) :
    (x ++ c :: y).takeWhile (· ≠ c) = x ∧ (x ++ c :: y).dropWhile (· ≠ c) = c :: y := by
  induction x with
  | nil => simp
  | cons a x ih =>
    simp only [List.mem_cons, not_or] at h
    obtain ⟨h1, h2⟩ := ih h.2
    have : a ≠ c := fun e => h.1 e.symm
    constructor
    · simp only [List.cons_append, List.takeWhile_cons, this, ne_eq, not_false_eq_true, decide_true, if_true, h1]
    · simp only [List.cons_append, List.dropWhile_cons, this, ne_eq, not_false_eq_true, decide_true, if_true, h2]

theorem removeSpaces_join : ∀ args : List Str, (∀ a ∈ args, ' ' ∉ a) →
    removeSpaces (join (s% ", ") args) = join (s% ",") args
  | [], _ => rfl
  | [a], h => by
    have := h a (by simp)
    simp only [join, removeSpaces]
    apply List.filter_eq_self.2
    intro c hc
    simp only [ne_eq, decide_eq_true_eq]
    rintro rfl
    exact this hc
  | a :: b :: as, h => by
    have ih := removeSpaces_join (b :: as) (fun x hx => h x (by simp [hx]))
    have e : removeSpaces a = a := by
      apply List.filter_eq_self.2
      intro c hc
      simp only [ne_eq, decide_eq_true_eq]
      rintro rfl
      exact h a (by simp) hc
    simp only [removeSpaces] at ih e ⊢
    simp only [join, List.filter_append, ih, e]
    rfl

theorem miniTerm_text {fns : Str → Option Fn} {x : GovTerm} (h : x.Ok fns) (par : Str → Option Str) :
    miniTerm par x.text = x.val par := by
  cases x with
  | var x =>
    have : x.head? ≠ some '\'' := by
      intro e
      have := h.1.2.1 '\'' (List.mem_of_mem_head? (by rw [e]; rfl))
      exact absurd this (by decide)
    exact if_neg this
  | lit s =>
    have e : (quoted s).head? = some '\'' := rfl
    refine (if_pos e).trans ?_
    simp [quoted, GovTerm.val, GovTerm.text]

theorem term_ne {fns : Str → Option Fn} {x : GovTerm} (h : x.Ok fns) {c : Char} (hc : isWordC c = false)
    (hc' : c ∉ s% "/.*@:-") (hq : c ≠ '\'') : c ∉ x.text := by
  cases x with
  | var x => exact ident_ne h.1 hc
  | lit s =>
    intro hm
    simp only [GovTerm.text, quoted, List.cons_append, List.mem_cons, List.mem_append, List.not_mem_nil,
      or_false] at hm
    rcases hm with e | hm | e
    · exact hq e
    · rcases h.1 c hm with e | e
      · rw [hc] at e; cases e
      · exact hc' e
    · exact hq e

theorem mapM_terms {fns : Str → Option Fn} (par : Str → Option Str) : ∀ args : List GovTerm, (∀ a ∈ args, a.Ok fns) →
    (args.map GovTerm.text).mapM (miniTerm par) = args.mapM (fun a => a.val par)
  | [], _ => rfl
  | a :: as, h => by
    simp only [List.map_cons, List.mapM_cons, mapM_terms par as (fun x hx => h x (by simp [hx])),
      miniTerm_text (h a (by simp))]

theorem miniGov_ok : Gov.Ok miniGov := by
  constructor
  · intro fns par x y hx hy
    refine ⟨rfl, fun r => ?_⟩
    have e : x.text ++ s% " == " ++ y.text = x.text ++ ' ' :: (s% "== " ++ y.text) := by simp
    obtain ⟨t1, t2⟩ := takeWhile_until (y := s% "== " ++ y.text)
      (term_ne hx (c := ' ') (by decide) (by decide) (by decide))
    have hp : '(' ∉ x.text ++ s% " == " ++ y.text := by
      have h1 := term_ne hx (c := '(') (by decide) (by decide) (by decide)
      have h2 := term_ne hy (c := '(') (by decide) (by decide) (by decide)
      simp [h1, h2]
    simp only [miniGov, if_neg hp]
    rw [e, t1, t2]
    simp only [List.drop_succ_cons, List.drop_zero, List.cons_append, List.nil_append]
    rw [miniTerm_text hx, miniTerm_text hy]
    cases x.val (par r) <;> cases y.val (par r) <;> rfl
  · intro fns par f fn args hf ff hne ha
    refine ⟨rfl, fun r => ?_⟩
    have e : f ++ s% "(" ++ join (s% ", ") (args.map GovTerm.text) ++ s% ")" =
        f ++ '(' :: (join (s% ", ") (args.map GovTerm.text) ++ s% ")") := by
      simp
    obtain ⟨t1, t2⟩ := takeWhile_until (y := join (s% ", ") (args.map GovTerm.text) ++ s% ")")
      (ident_ne hf (c := '(') (by decide))
    have hp : '(' ∈ f ++ s% "(" ++ join (s% ", ") (args.map GovTerm.text) ++ s% ")" := by simp
    simp only [miniGov, if_pos hp]
    rw [e, t1, t2, ff]
    simp only [List.drop_succ_cons, List.drop_zero, List.dropLast_concat]
    rw [removeSpaces_join _ (fun a h => by
        obtain ⟨x, hx, rfl⟩ := List.mem_map.1 h
        exact term_ne (ha x hx) (by decide) (by decide) (by decide)),
      splitC_join ',' _ (by simpa using hne) (fun a h => by
        obtain ⟨x, hx, rfl⟩ := List.mem_map.1 h
        exact term_ne (ha x hx) (by decide) (by decide) (by decide)),
      mapM_terms (par r) args ha]
    cases args.mapM (fun a => a.val (par r)) <;> rfl

/-- Lexers that know one matcher. -/
def lexOf (text : Str) (f : Formula) : Str → Res Toks := fun s => if s = text then .ok f.toks else .err

def aclLex := lexOf (s% "r_sub == p_sub && r_obj == p_obj && r_act == p_act") aclFormula
def rbacLex := lexOf (s% "g(r_sub, p_sub) && r_obj == p_obj && r_act == p_act") rbacFormula
def domLex := lexOf (s% "g(r_sub, p_sub, r_dom) && r_dom == p_dom && r_obj == p_obj && r_act == p_act") domFormula

def noFns : Str → Option Fn := fun _ => none

/-- Two rules are added, one is removed again. -/
def history : List Model.Op :=
  [.add [s% "p", s% "alice", s% "data1", s% "read"], .add [s% "p", s% "bob", s% "data2", s% "write"],
    .remove [s% "p", s% "alice", s% "data1", s% "read"]]

instance (n : Nat) (op : Model.Op) : Decidable (op.PGood n) := by
  unfold Model.Op.PGood; split <;> infer_instance

instance (op : Model.Op) : Decidable op.GGood := by
  unfold Model.Op.GGood; split <;> infer_instance

instance (ds : List Str) : Decidable (DM.Clean ds) := by unfold DM.Clean; infer_instance

instance (op : Model.Op) : Decidable op.DGood := by
  unfold Model.Op.DGood; split <;> infer_instance

def fwd : Order := Order.fwd

def acl (ops : List Model.Op) : Model := ((Model.configured (buildText aclLex (fun _ => 0)) aclConf).run ops).1
def ask (ops : List Model.Op) (vals : List Str) : Res Bool :=
  ((acl ops).enforceParams (buildText aclLex (fun _ => 0)) noFns miniGov fwd (vals.map .val)).2

-- the hypotheses of `c58_acl_partial` hold, and both answers occur
example : ask history [s% "bob", s% "data2", s% "write"] = .ok true := by
  unfold ask acl
  have := c58_acl_partial aclLex (fun _ => 0) (by simp [aclLex, lexOf]) miniGov miniGov_ok noFns
    (by simp [noFns]) history (by decide) fwd Order.fwd_valid (s% "bob") (s% "data2") (s% "write") (by simp)
  simp only [List.map_cons, List.map_nil, this]
  decide
example : ask history [s% "alice", s% "data1", s% "read"] = .ok false := by
  unfold ask acl
  have := c58_acl_partial aclLex (fun _ => 0) (by simp [aclLex, lexOf]) miniGov miniGov_ok noFns
    (by simp [noFns]) history (by decide) fwd Order.fwd_valid (s% "alice") (s% "data1") (s% "read") (by simp)
  simp only [List.map_cons, List.map_nil, this]
  decide

/-- **C58 is false** for requests with an empty action: nothing is stored, and the request of three empty
strings is allowed; a removed rule allows its subject the empty action. -/
theorem c58_fails :
    ask [] [[], [], []] = .ok true ∧ isHeld [] [s% "p", [], [], []] = false ∧
    ask history [s% "alice", s% "data1", []] = .ok true ∧
      isHeld history [s% "p", s% "alice", s% "data1", []] = false := by
  refine ⟨by decide +kernel, rfl, by decide +kernel, rfl⟩

/-! ### Roles -/

/-- Carol is an admin, admins are editors; the link to the role of auditors is removed again. -/
def roleHistory : List Model.Op :=
  [.add [s% "p", s% "editor", s% "data2", s% "write"], .add [s% "p", s% "auditor", s% "log", s% "read"],
    .add [s% "g", s% "carol", s% "admin"], .add [s% "g", s% "admin", s% "editor"],
    .add [s% "g", s% "carol", s% "auditor"], .remove [s% "g", s% "carol", s% "auditor"]]

def rbac (ops : List Model.Op) : Model :=
  ((Model.configured (buildText rbacLex (fun _ => 0)) rbacConf).run ops).1
def askRbac (ops : List Model.Op) (vals : List Str) : Res Bool :=
  ((rbac ops).enforceParams (buildText rbacLex (fun _ => 0)) noFns miniGov fwd (vals.map .val)).2

-- the hypotheses of `c59_rbac_partial` hold, a chain of two links is followed
example : askRbac roleHistory [s% "carol", s% "data2", s% "write"] = .ok true := by
  unfold askRbac rbac
  obtain ⟨b, e, hb⟩ := c59_rbac_partial rbacLex (fun _ => 0) (by simp [rbacLex, lexOf]) miniGov miniGov_ok noFns
    (by simp [noFns]) roleHistory (by decide) fwd Order.fwd_valid (s% "carol") (s% "data2") (s% "write") (by simp)
  simp only [List.map_cons, List.map_nil, e]
  rw [hb.2 ⟨s% "editor", by decide, Or.inr ⟨2, by omega, .step (b := s% "admin") (by decide)
    (.step (b := s% "editor") (by decide) (.refl _))⟩⟩]
example : askRbac roleHistory [s% "carol", s% "log", s% "read"] = .ok false := by decide +kernel

/-- **C59 is false** for requests with an empty action. -/
theorem c59_fails : askRbac [] [[], [], []] = .ok true ∧ ∀ role, isHeld [] [s% "p", role, [], []] = false :=
  ⟨by decide +kernel, fun _ => rfl⟩

/-! ### Domains -/

def domHistory : List Model.Op :=
  [.add [s% "p", s% "editor", s% "tenant1", s% "data2", s% "write"],
    .add [s% "p", s% "editor", s% "tenant2", s% "data2", s% "write"],
    .add [s% "g", s% "carol", s% "admin", s% "tenant1"], .add [s% "g", s% "admin", s% "editor", s% "tenant1"],
    .add [s% "g", s% "carol", s% "admin", s% "tenant2"]]

def dom (ops : List Model.Op) : Model :=
  ((Model.configured (buildText domLex (fun _ => 0)) domConf).run ops).1
def askDom (ops : List Model.Op) (vals : List Str) : Res Bool :=
  ((dom ops).enforceParams (buildText domLex (fun _ => 0)) noFns miniGov fwd (vals.map .val)).2

-- the hypotheses of `c60_domains_partial` hold, a chain of two links is followed inside a domain only
example : askDom domHistory [s% "carol", s% "tenant1", s% "data2", s% "write"] = .ok true := by
  unfold askDom dom
  obtain ⟨b, e, hb⟩ := c60_domains_partial domLex (fun _ => 0) (by simp [domLex, lexOf]) miniGov miniGov_ok noFns
    (by simp [noFns]) domHistory (by decide) fwd Order.fwd_valid (s% "carol") (s% "tenant1") (s% "data2")
    (s% "write") (by simp) (by decide)
  simp only [List.map_cons, List.map_nil, e]
  rw [hb.2 ⟨s% "editor", by decide, Or.inr ⟨2, by omega, .step (b := s% "admin") (by decide)
    (.step (b := s% "editor") (by decide) (.refl _))⟩⟩]
example : askDom domHistory [s% "carol", s% "tenant2", s% "data2", s% "write"] = .ok false := by decide +kernel

/-- **C60 is false** for requests with an empty action. -/
theorem c60_fails : askDom [] [[], [], [], []] = .ok true ∧
    ∀ role, isHeld [] [s% "p", role, [], [], []] = false :=
  ⟨by decide +kernel, fun _ => rfl⟩

end EndToEnd

end Fastac
