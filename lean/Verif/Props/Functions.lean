import Verif.Lemmas.Functions
import Verif.Props.Eval

/-!
# C76: the functions that matchers call
-/

namespace Fastac

/-- **C76**, the map.  In every program, with any number of models and any calls on them in any order: the entry for
a name in the function map of a model is what the last call about this name on this model says, and before the
first such call the function that was registered globally last before the model was created, or else the built-in
one.  Other models and later global registrations do not matter.  (`eval` is treated below.) -/
theorem c76_entry (std : StdLib) (build : FnBuild) (before after : List FnCall) (name : Str)
    (hn : name ≠ s% "eval") :
    ∃ s, (FnWorld.run std build ⟨[], []⟩ (before ++ .create :: after)).models[created before]? = some s ∧
      s.fns.get name = entryOf std name before after := by
  let w := FnWorld.run std build ⟨[], []⟩ before
  have hl : w.models.length = created before := by
    have := FnWorld.run_length std build before ⟨[], []⟩
    simpa using this
  have hg := FnWorld.run_globals std build name before ⟨[], []⟩
  have hwf := FnWorld.run_wf std build before ⟨[], []⟩ GoMap.WF.nil
  refine ⟨(FnModel.new std w.globals).runOps build (callsOn (created before) after), ?_, ?_⟩
  · have := FnWorld.run_model std build (created before) after (w.step std build .create)
      (FnModel.new std w.globals) (by
        simp only [FnWorld.step]
        rw [List.getElem?_append_right (by omega), hl]
        simp)
    rw [← this]
    unfold FnWorld.run
    rw [List.foldl_append, List.foldl_cons]
    rfl
  · rw [FnModel.runOps_get build name hn]
    unfold entryOf
    cases lastAbout name (callsOn (created before) after) with
    | some v => rfl
    | none =>
      simp only [Option.getD_none]
      unfold FnModel.new defaultFunctionMap initially
      simp only
      rw [foldl_set_get name w.globals _ hwf, foldl_set_get name _ _ (by simp [builtinFns])]
      have e : List.lookup name w.globals = lastGlobal name before := by
        have h0 : ∀ m : GoMap Str Fn, List.lookup name m = m.get name := by
          intro m
          induction m with
          | nil => rfl
          | cons x l ih =>
            rw [List.lookup_cons]
            unfold GoMap.get
            by_cases hx : x.1 = name
            · subst hx; simp
            · rw [show (name == x.1) = false by simpa using fun h => hx h.symm, ih]
              simp only [hx, if_false]
        rw [h0, hg]
        simp
      rw [e]
      cases lastGlobal name before with
      | some f => rfl
      | none => cases List.lookup name (builtinFns std) <;> rfl

/-- **C76**, the decisions.  If the user has not set or removed functions named like a role definition, `Enforce`
decides as the model does (`Model.enforceParams`, about which the other properties are) with the functions of the
role definitions, `eval`, and otherwise the functions registered as C76 says. -/
theorem c76_decision_partial (std : StdLib) (build : FnBuild) (before after : List FnCall) (s : FnModel)
    (hs : (FnWorld.run std build ⟨[], []⟩ (before ++ .create :: after)).models[created before]? = some s)
    (hset : ∀ n f, .on (created before) (.setFunction n f) ∈ after → s.model.rpMap.has n = false)
    (hrem : ∀ n, .on (created before) (.removeFunction n) ∈ after → s.model.rpMap.has n = false)
    (gov : Gov) (depth : Nat) (ord : Order) (params : List Param) :
    ((s.enforce build gov depth ord params).1.model, (s.enforce build gov depth ord params).2) =
      s.model.enforceParams (build s.knows) (registered std before after) (gov.withEval depth) ord params := by
  have hmem : ∀ op, op ∈ callsOn (created before) after → .on (created before) op ∈ after := by
    intro op h
    unfold callsOn at h
    rw [List.mem_filterMap] at h
    obtain ⟨c, hc, e⟩ := h
    cases c with
    | global n f => cases e
    | create => cases e
    | on j o =>
      simp only at e
      split at e
      · rename_i hj; subst hj; cases e; exact hc
      · cases e
  have hrun : ∃ s0 : FnModel, s0.model = Model.new ∧ s = s0.runOps build (callsOn (created before) after) := by
    let w := FnWorld.run std build ⟨[], []⟩ before
    have hl : w.models.length = created before := by
      have := FnWorld.run_length std build before ⟨[], []⟩
      simpa using this
    refine ⟨FnModel.new std w.globals, rfl, ?_⟩
    have := FnWorld.run_model std build (created before) after (w.step std build .create)
      (FnModel.new std w.globals) (by
        simp only [FnWorld.step]
        rw [List.getElem?_append_right (by omega), hl]
        simp)
    refine Option.some.inj (hs.symm.trans ?_)
    rw [← this]
    unfold FnWorld.run
    rw [List.foldl_append, List.foldl_cons]
    rfl
  obtain ⟨s0, hs0, hrun⟩ := hrun
  have hent : ∀ name, name ≠ s% "eval" → s.fns.get name = entryOf std name before after := by
    intro name hn
    obtain ⟨s', h1, h2⟩ := c76_entry std build before after name hn
    rw [← Option.some.inj (h1.symm.trans hs)]
    exact h2
  refine Model.enforceParams_congr (build s.knows) s.model (fun m' hx par => ?_) ord params
  refine gov.withEval_congr depth (fun name hn => ?_) par
  have hmgr := hx.mgr name
  unfold FnModel.functions Model.functions registered
  rw [hent name hn]
  cases hr : s.model.rpMap.get name with
  | none =>
    rw [hr] at hmgr
    have : m'.rpMap.get name = none := by
      cases h : m'.rpMap.get name with
      | none => rfl
      | some x => rw [h] at hmgr; cases hmgr
    rw [this]
    cases entryOf std name before after with
    | none => rfl
    | some v => cases v <;> rfl
  | some rp =>
    have hhas : s.model.rpMap.has name = true := by unfold GoMap.has; rw [hr]; rfl
    have n1 : ∀ f, FnOp.setFunction name f ∉ callsOn (created before) after := by
      intro f h
      rw [hset name f (hmem _ h)] at hhas
      cases hhas
    have n2 : FnOp.removeFunction name ∉ callsOn (created before) after := by
      intro h
      rw [hrem name (hmem _ h)] at hhas
      cases hhas
    have hlast := FnModel.runOps_rhas build name _ s0 n1 n2
    rw [← hrun, hhas] at hlast
    have he : entryOf std name before after = some .role := by
      unfold entryOf
      cases hl : lastAbout name (callsOn (created before) after) with
      | none => rw [hl, hs0] at hlast; cases hlast
      | some v =>
        rw [hl] at hlast
        cases v with
        | none => cases hlast
        | some v =>
          unfold lastAbout at hl
          obtain ⟨op, hop, e⟩ := List.exists_of_findSome?_eq_some hl
          rw [FnModel.about_role (fun f e' => n1 f (by rw [← e']; simpa using hop)) e]
    rw [he]
    rw [hr] at hmgr
    simp only [Option.map_some] at hmgr
    cases h : m'.rpMap.get name with
    | none => rw [h] at hmgr; cases hmgr
    | some x => rw [h] at hmgr; simpa using hmgr.symm

/-- **C76**, `eval`: whatever is registered under this name, it is not called. -/
theorem c76_eval (build : FnBuild) (s : FnModel) (f : Fn) (hk : s.knows (s% "eval") = true) (gov : Gov) (depth : Nat)
    (ord : Order) (params : List Param) :
    ((s.setFunction (s% "eval") f).enforce build gov depth ord params).2 =
      (s.enforce build gov depth ord params).2 := by
  have hkn : (s.setFunction (s% "eval") f).knows = s.knows := by
    funext n
    unfold FnModel.knows FnModel.setFunction GoMap.has
    simp only [GoMap.get_set]
    split
    · rename_i e; subst e; exact hk.symm
    · rfl
  unfold FnModel.enforce
  simp only
  rw [hkn]
  refine congrArg Prod.snd (Model.enforceParams_congr (build s.knows) s.model (fun m' hx par => ?_) ord params)
  refine gov.withEval_congr depth (fun name hn => ?_) par
  unfold FnModel.functions FnModel.setFunction
  simp only [GoMap.get_set_ne _ _ hn]

/-! ## Cases that meet the hypotheses, and what is missing -/

namespace FnExample

def std : StdLib := ⟨fun _ _ => none, fun _ _ => none, fun _ _ => none⟩

def build : FnBuild := fun _ _ => .err

def no : Fn := fun _ => .bool false
def yes : Fn := fun _ => .bool true

/-- a function for all models, and a first model -/
def before : List FnCall := [.global (s% "isRoot") no, .create]

/-- the second model gets a role definition and another `isRoot`; then the first model and all later ones do -/
def after : List FnCall :=
  [.on 1 (.setDef 'g' (s% "g") (s% "_, _")), .on 1 (.rule (.add [s% "g", s% "alice", s% "admin"])),
   .on 1 (.setFunction (s% "isRoot") yes), .on 1 (.removeFunction (s% "ipMatch")),
   .on 0 (.setFunction (s% "isRoot") no), .on 0 (.removeFunction (s% "pathMatch")), .global (s% "isRoot") no]

/-- In the second model `isRoot` is `yes`, `g` the role function, `ipMatch` gone, and `pathMatch` there. -/
example : entryOf std (s% "isRoot") before after = some (.fn yes) ∧
    entryOf std (s% "g") before after = some .role ∧ entryOf std (s% "ipMatch") before after = none ∧
    entryOf std (s% "pathMatch") before after =
      some (.fn (wrapMatching (fun a b => PathMatchF (a.length + 2) a b))) ∧
    entryOf std (s% "isRoot") before [] = some (.fn no) := ⟨rfl, rfl, rfl, rfl, rfl⟩

/-- The hypotheses hold: the functions set and removed are not named like the role definition. -/
example (s : FnModel)
    (hs : (FnWorld.run std build ⟨[], []⟩ (before ++ .create :: after)).models[created before]? = some s)
    (gov : Gov) (depth : Nat) (ord : Order) (params : List Param) :
    ((s.enforce build gov depth ord params).1.model, (s.enforce build gov depth ord params).2) =
      s.model.enforceParams (build s.knows) (registered std before after) (gov.withEval depth) ord params ∧
    s.functions (s% "g") = some (gFunction (RM.new 10 |> Mgr.rm |> fun g => ((RolePolicy.mk g []).addRule
      [s% "alice", s% "admin"]).1.mgr)) := by
  have h0 := Option.some.inj (hs.symm.trans (show _ = some _ from rfl))
  subst h0
  refine ⟨c76_decision_partial std build before after _ hs ?_ ?_ gov depth ord params, rfl⟩
  · intro n f h
    simp only [after, List.mem_cons, FnCall.on.injEq, reduceCtorEq, FnOp.setFunction.injEq, and_false,
      List.not_mem_nil, or_false, false_or] at h
    rcases h with ⟨-, rfl, -⟩ | ⟨h, -⟩
    · rfl
    · cases h
  · intro n h
    simp only [after, List.mem_cons, FnCall.on.injEq, reduceCtorEq, FnOp.removeFunction.injEq, and_false,
      List.not_mem_nil, or_false, false_or] at h
    rcases h with ⟨-, rfl⟩ | ⟨h, -⟩
    · rfl
    · cases h

/-- **C76** fails for names of role definitions: a role definition silently replaces the function of the user. -/
theorem c76_fails_role :
    let s := (((FnModel.new std []).setFunction (s% "g") yes).setDef 'g' (s% "g") (s% "_, _")).1
    (s.functions (s% "g")).map (fun f => f [s% "alice", s% "admin"]) = some (.bool false) := by
  decide +kernel

/-- **C76** fails for `RemoveDef`: `RemoveDef('g', "pathMatch")` reports success and removes the built-in function
`pathMatch`, although there is no such role definition. -/
theorem c76_fails_remove :
    let s := (FnModel.new std []).removeDef 'g' (s% "pathMatch")
    s.2 = .ok () ∧ s.1.functions (s% "pathMatch") = none ∧ s.1.model.rpMap = (FnModel.new std []).model.rpMap ∧
      ((FnModel.new std []).functions (s% "pathMatch")).isSome := by
  refine ⟨rfl, rfl, rfl, rfl⟩

end FnExample

end Fastac
