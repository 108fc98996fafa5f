import Verif.Lemmas.AnyManager
import Verif.Props.Program

/-!
# C79: role managers and functions that are replaced or changed at any time
-/

namespace Fastac

namespace Model

theorem functions_nil {m : Model} (h : m.rpMap = []) (base : Str → Option Fn) : m.functions base = base := by
  funext name
  unfold functions
  rw [h]
  rfl

theorem PSide.policyRules {m m' : Model} (h : PSide m m') {pk : Str} (hp : (m.pMap.get pk).isSome = true) :
    m'.policyRules pk = m.policyRules pk := by
  unfold Model.policyRules
  rw [h.pMap]
  cases hq : m.pMap.get pk with
  | none => rw [hq] at hp; cases hp
  | some p => rfl

end Model

namespace FnModel

open Model

theorem saysNow {s : FnModel} {m' : Model} (h1 : m'.rpMap = []) (h2 : m'.gDefs = []) (gov : Gov) (rk : Str)
    (rArgs rvals : List Str) :
    m'.SaysEval s.functions gov rk rArgs rvals = s.SaysNow gov rk rArgs rvals := by
  funext f vs
  unfold Model.SaysEval FnModel.SaysNow Model.Says
  rw [functions_nil h1, h2]
  rfl

/-- **C79**, the part that holds.  As `c77_program_partial`, for programs that may also replace role managers, change
them directly (name and domain matchers, links that bypass the model), give role definitions rules of any kind,
and set and remove functions of any name, also those of role definitions.  `Enforce` decides on exactly the stored
rules of which `f` is true with the functions, and so the role managers, that are in place now. -/
theorem c79_now_partial (build : FnBuild) (u : Str → Res Stage) (hc : build.Coherent u)
    (hbin : ∀ e s, u e = .ok s → s.Binary)
    (grow : Nat → Nat) (rk mk ek pk rText eff : Str) (rArgs pArgs : List Str) (f : List (List Cond)) (root : Stage)
    (hw : (Cond.formula rk pk f).wf = true) (hs : (Cond.formula rk pk f).safe = true)
    (hroot : buildMatcherDef grow (Cond.formula rk pk f).toks = .ok root)
    (P : Rule → Prop) (keep : Prop)
    (s : FnModel) (h : FnHeld build mk root P keep s) (hmk : mk ≠ []) (hek : ek ≠ [])
    (hr : s.model.rDefs.get rk = some rText) (hrA : splitC ',' (removeSpaces rText) = rArgs)
    (d : PolicyDef) (hp : s.model.pDefs.get pk = some d) (hpA : d.args = pArgs)
    (he : s.model.eDefs.get ek = some eff)
    (gov : Gov) (hgov : gov.Ok) (hsc : gov.Scoped) (N : Naming s.functions rk pk rArgs pArgs)
    (rvals : List Str) (hrl : Cond.Given rArgs rvals f)
    (hf : ∀ a ∈ Cond.anyAtoms f, a.FitsNow s gov rk pk rArgs pArgs rvals P)
    (huse : pk = s% "p" ∨ ∃ a ∈ Cond.anyAtoms f, ∃ y, Ref.pol y ∈ a.refs)
    (hP0 : ¬ keep ∨ s.model.policyRules pk = some [] → P (List.replicate pArgs.length []))
    (hlast : ¬ keep → ∀ a ∈ Cond.anyLasts f,
      ¬ a.holds (Ref.val rArgs pArgs rvals (List.replicate pArgs.length [])) (s.SaysNow gov rk rArgs rvals))
    (hempty : s.model.policyRules pk = some [] → ¬ Cond.anyHolds (fun a => a.holds
      (Ref.val rArgs pArgs rvals (List.replicate pArgs.length [])) (s.SaysNow gov rk rArgs rvals)) f)
    (hdet : eff = SOME_ALLOW_NO_DENY → ∀ rules, s.model.policyRules pk = some rules → ∀ r ∈ rules,
      effectOf pArgs r ≠ .indeterminate)
    (ord : Order) (hord : ord.Valid) (depth : Nat) (hdep : 0 < depth) :
    ∃ rules L : List Rule, s.model.policyRules pk = some rules ∧ (∀ r ∈ rules, P r ∧ r.length = pArgs.length) ∧
      (∀ r, r ∈ L ↔ r ∈ rules ∧ Cond.anyHolds
        (fun a => a.holds (Ref.val rArgs pArgs rvals r) (s.SaysNow gov rk rArgs rvals)) f) ∧
      (s.enforce build gov depth ord (named rk mk ek ++ rvals.map .val)).2 =
        .ok (decision eff (L.map (effectOf pArgs))) ∧
      (rk = s% "r" → mk = s% "m" → ek = s% "e" →
        (s.enforce build gov depth ord (rvals.map .val)).2 = .ok (decision eff (L.map (effectOf pArgs)))) := by
  have hkey : root.policyKey = pk := by
    have hfull : ∀ a ∈ Cond.anyAtoms f, a.Full := by
      intro a ha
      have := (hf a ha).1
      cases a with
      | eq a b => trivial
      | call g args => exact this.1
    rw [buildMatcherDef_formula grow _ hw hs] at hroot
    cases hroot
    exact policyKey_trD hw N hfull (fun a ha => (hf a ha).1) huse
  have hph : root.policyKey.head? = some 'p' := by
    rw [hkey]
    exact h.free.pHead hc hp
  obtain ⟨m', hg, hps, i, hi, hi'⟩ := h.side hc hph
  rw [hkey] at hi hi'
  have hwk := hg.bound.tied.1.made.wellKeyed
  have hpsome : (s.model.pMap.get pk).isSome = true := by
    have := hwk.pp pk
    rw [hps.pMap, hps.pDefs, hp] at this
    exact this
  have hrules := hps.policyRules hpsome
  have hsays := saysNow (s := s) hps.rpNil hps.gNil gov rk rArgs rvals
  have hfn : m'.functions s.functions = s.functions := functions_nil hps.rpNil _
  obtain ⟨rules, L, h1, h0, h2, h3, h4⟩ := Model.c75_eval_partial u hbin grow rk mk ek pk rText eff rArgs pArgs f root
    hw hs hroot P keep m' hg hmk hek (hps.rDefs ▸ hr) hrA d (hps.pDefs ▸ hp) hpA (hps.eDefs ▸ he) gov hgov hsc
    s.functions N rvals hrl (by
      intro a ha
      refine ⟨(hf a ha).1, fun g args e => ?_⟩
      have := (hf a ha).2 g args e
      unfold Model.Callable
      rw [hfn, hps.gNil]
      exact this) huse (hrules ▸ hP0) (hsays ▸ hlast) (hsays ▸ hrules ▸ hempty) (hrules ▸ hdet) ord hord depth hdep
  rw [hsays] at h2
  rw [hrules] at h1
  obtain ⟨j, mt, hx, hres, -⟩ := hg.bound.tied.2
  rw [hkey, hi'] at hx
  cases hx
  have n1 : rk ≠ [] := by rintro rfl; exact absurd N.rHead (by simp)
  have hres' : s.model.resolve (.live pk i) = some mt := by
    rw [← hres, hkey]
    simp only [resolve, hps.pMap]
    cases hq : s.model.pMap.get pk with
    | none => rw [hq] at hpsome; cases hpsome
    | some p => rfl
  have hctx : ∀ rd eff', s.model.enforceCtx (fun _ => none) (s.lib gov depth) ord ⟨rd, some (.live pk i), eff'⟩ rvals =
      m'.enforceCtx s.functions (gov.withEval depth) ord ⟨rd, some (.live pk i), eff'⟩ rvals := by
    intro rd eff'
    have e1 : s.model.enforceCtx (fun _ => none) (s.lib gov depth) ord ⟨rd, some (.live pk i), eff'⟩ rvals =
        s.model.enforceCtx s.functions (s.lib gov depth) ord ⟨rd, some (.live pk i), eff'⟩ rvals := rfl
    rw [e1]
    exact hps.enforceCtx hres' hpsome _ _ _ (fun par => by rw [hfn]; rfl) ord rd eff' rvals
  refine ⟨rules, L, h1, h0, h2, ?_, ?_⟩
  · have e := congrArg Prod.snd h3
    simp only at e
    rw [← e]
    simp only [FnModel.enforce, Model.enforceParams]
    rw [splitParams_named, newContext_named hr hi he n1 hmk hek,
      newContext_named (hps.rDefs ▸ hr) hi' (hps.eDefs ▸ he) n1 hmk hek]
    exact hctx _ _
  · rintro rfl rfl rfl
    have e := congrArg Prod.snd (h4 rfl rfl rfl)
    simp only at e
    rw [← e]
    simp only [FnModel.enforce, Model.enforceParams]
    rw [splitParams_vals, newContext_default hr hi he, newContext_default (hps.rDefs ▸ hr) hi' (hps.eDefs ▸ he)]
    exact hctx _ _

/-- **C79**: `SetRoleManager` puts the manager in place at once.  The function of the name asks it, the rules of the
role definition are its links, `AddRule` adds links to it with its outcome, whatever matchers were built before; and
a matcher for the rules of the replaced manager keeps what it has seen, whatever is done to rules from then on. -/
theorem c79_replaced (s : FnModel) (key : Str) (mgr : Mgr) (hg : key.head? = some 'g')
    (hp : s.model.pMap.get key = none) :
    (s.setRoleManager key mgr).functions key = some (gFunction mgr) ∧
    (∀ name, name ≠ key → (s.setRoleManager key mgr).functions name = s.functions name) ∧
    (s.setRoleManager key mgr).model.policyRules key =
      some (mgr.runs.flatten.map (fun l => l.1 :: l.2.1 :: l.2.2)) ∧
    (∀ u r ds, ((s.setRoleManager key mgr).model.addRule (key :: u :: r :: ds)).2.1 =
      (mgr.addLink u r ds).map (·.2)) ∧
    ∀ k i mt ops, s.model.mMap.get k = some (.live key i) → s.model.getMatcher k = some mt →
      ((s.setRoleManager key mgr).model.run ops).1.getMatcher k = some mt := by
  refine ⟨?_, ?_, ?_, ?_, ?_⟩
  · simp only [FnModel.functions, FnModel.setRoleManager, GoMap.get_set_self, Option.map_some]
  · intro name hn
    simp only [FnModel.functions, FnModel.setRoleManager, GoMap.get_set_ne _ _ hn]
  · simp only [Model.policyRules, FnModel.setRoleManager, GoMap.get_set_self, hp, Option.map_some,
      RolePolicy.rules, RolePolicy.runs]
    rw [List.map_flatten]
  · intro u r ds
    cases key with
    | nil => cases hg
    | cons c cs =>
      have : c = 'g' := by simpa using hg
      subst this
      simp only [Model.addRule, Model.addRoleRule, FnModel.setRoleManager, GoMap.get_set_self, RolePolicy.addRule,
        if_false, if_true, show ¬ ('g' = 'p') by decide]
      cases mgr.addLink u r ds with
      | err => rfl
      | panic => rfl
      | ok x =>
        obtain ⟨x, b⟩ := x
        cases b <;> rfl
  · intro k i mt ops hk hm
    have hres : s.model.resolve (.live key i) = some mt := by
      unfold Model.getMatcher at hm
      rw [hk] at hm
      exact hm
    have hhas : s.model.rpMap.has key = true := by
      unfold Model.resolve at hres
      simp only [hp] at hres
      unfold GoMap.has
      cases hq : s.model.rpMap.get key with
      | none => rw [hq] at hres; cases hres
      | some rp => rfl
    have h0 : (s.setRoleManager key mgr).model.mMap.get k = some (.frozen mt) := by
      simp only [FnModel.setRoleManager, hhas, if_true]
      rw [get_freeze, hk]
      simp only [Option.map_some, Model.frozen, if_true, hres]
    have hrun : ∀ (ops : List Model.Op) (m : Model), (m.run ops).1.mMap = m.mMap := by
      intro ops
      induction ops with
      | nil => intro m; rfl
      | cons o os ih =>
        intro m
        simp only [Model.run]
        rw [ih]
        cases o with
        | add r => exact (Settled.add m r).2
        | remove r => exact (Settled.remove m r).2
        | clear k => exact (Settled.clear m k).2
    unfold Model.getMatcher
    rw [hrun, h0]
    rfl

/-- **C79**: a direct change of the manager that `GetRoleManager` returns is a change of the manager in place.  The
function and the rules of the role definition are those of the changed manager, all matchers are as before and still
listen: a rule added through the model reaches them. -/
theorem c79_changed (s : FnModel) (key : Str) (change : Mgr → Mgr) (hg : key.head? = some 'g')
    (hp : s.model.pMap.get key = none) (rp : RolePolicy) (hrp : s.model.rpMap.get key = some rp)
    (hf : s.fns.get key = some .role) :
    (s.onManager key change).functions key = some (gFunction (change rp.mgr)) ∧
    (∀ name, name ≠ key → (s.onManager key change).functions name = s.functions name) ∧
    (s.onManager key change).model.policyRules key =
      some ((change rp.mgr).runs.flatten.map (fun l => l.1 :: l.2.1 :: l.2.2)) ∧
    (∀ k, (s.onManager key change).model.getMatcher k = s.model.getMatcher k) ∧
    ∀ u r ds k i mt mgr', s.model.mMap.get k = some (.live key i) → s.model.getMatcher k = some mt →
      (change rp.mgr).addLink u r ds = .ok (mgr', true) →
      ((s.onManager key change).model.addRule (key :: u :: r :: ds)).2.1 = .ok true →
      ∃ mt', mt.handle (.added (u :: r :: ds)) = .ok mt' ∧
        ((s.onManager key change).model.addRule (key :: u :: r :: ds)).1.getMatcher k = some mt' := by
  have hs : s.onManager key change =
      { s with model := { s.model with rpMap := s.model.rpMap.set key ⟨change rp.mgr, rp.listeners⟩ } } := by
    unfold onManager
    rw [hrp]
  rw [hs]
  refine ⟨?_, ?_, ?_, ?_, ?_⟩
  · simp only [FnModel.functions, hf, GoMap.get_set_self, Option.map_some]
  · intro name hn
    simp only [FnModel.functions, GoMap.get_set_ne _ _ hn]
  · simp only [Model.policyRules, GoMap.get_set_self, hp, Option.map_some, RolePolicy.rules, RolePolicy.runs]
    rw [List.map_flatten]
  · intro k
    unfold Model.getMatcher
    cases s.model.mMap.get k with
    | none => rfl
    | some e =>
      cases e with
      | frozen x => rfl
      | live k' i =>
        simp only [Option.bind_some, Model.resolve]
        cases s.model.pMap.get k' with
        | some p => rfl
        | none =>
          by_cases hk : k' = key
          · subst hk
            simp only [GoMap.get_set_self, hrp]
          · simp only [GoMap.get_set_ne _ _ hk]
  · intro u r ds k i mt mgr' hk hm hl hres
    have hi : rp.listeners[i]? = some mt := by
      simpa only [Model.getMatcher, hk, Option.bind_some, Model.resolve, hp, hrp] using hm
    cases key with
    | nil => cases hg
    | cons c cs =>
      have : c = 'g' := by simpa using hg
      subst this
      simp only [Model.addRule, Model.addRoleRule, GoMap.get_set_self, RolePolicy.addRule, hl, RolePolicy.emit,
        if_false, if_true, show ¬ ('g' = 'p') by decide] at hres ⊢
      cases hn : notify rp.listeners (.added (u :: r :: ds)) with
      | err => rw [hn] at hres; cases hres
      | panic => rw [hn] at hres; cases hres
      | ok ls =>
        obtain ⟨mt', h1, h2⟩ := notify_get _ _ _ hn i mt hi
        refine ⟨mt', h1, ?_⟩
        simp only [Model.getMatcher, hk, Option.bind_some, Model.resolve, hp, GoMap.get_set_self]
        exact h2

/-- Hypotheses met: a model with the role definition `g`, any change. -/
example (change : Mgr → Mgr) : let s := ((FnModel.new ⟨fun _ _ => none, fun _ _ => none, fun _ _ => none⟩ []).setDef
      'g' (s% "g") (s% "_, _")).1
    ∃ rp, s.model.rpMap.get (s% "g") = some rp ∧
      (s.onManager (s% "g") change).functions (s% "g") = some (gFunction (change rp.mgr)) :=
  ⟨_, rfl, (c79_changed _ (s% "g") change rfl rfl _ rfl (by rfl)).1⟩

end FnModel

end Fastac
