import Verif.Spec.Functions
import Verif.Lemmas.Context

/-!
# The function map
-/

namespace Fastac

/-! ## Calls do not change which role policies exist, unless they are about definitions -/

namespace Model

theorem Extends.rhas {m m' : Model} (h : m.Extends m') (k : Str) : m'.rpMap.has k = m.rpMap.has k := by
  unfold GoMap.has
  rcases h.role k with ⟨h1, h2⟩ | ⟨p, x, h1, h2⟩ <;> rw [h1, h2] <;> rfl

theorem setMatcherOpt_extends (build : Str → Res Stage) (m : Model) (ctx : Ctx) (a : MArg) :
    m.Extends (setMatcherOpt build m ctx a).1 := by
  cases a with
  | str s =>
    simp only [setMatcherOpt]
    split
    · exact Extends.refl m
    · split
      · exact Extends.refl m
      · exact (buildFromExpr_spec build m s).1
  | ofDef e => exact (buildFromExpr_spec build m e).1
  | obj x => exact Extends.refl m
  | other => exact Extends.refl m

theorem applyOpt_extends (build : Str → Res Stage) (m : Model) (ctx : Ctx) (o : CtxOpt) :
    m.Extends (applyOpt build m ctx o).1 := by
  cases o with
  | matcher a => exact setMatcherOpt_extends build m ctx a
  | request a => exact Extends.refl m
  | effector a => exact Extends.refl m

theorem applyOpts_extends (build : Str → Res Stage) : ∀ (opts : List CtxOpt) (m : Model) (ctx : Ctx),
    m.Extends (applyOpts build m ctx opts).1
  | [], m, ctx => Extends.refl m
  | o :: os, m, ctx => by
    have h := applyOpt_extends build m ctx o
    unfold applyOpts
    split
    · rename_i e; rw [e] at h; exact h.trans (applyOpts_extends build os _ _)
    · rename_i e; rw [e] at h; exact h
    · rename_i e; rw [e] at h; exact h

theorem newContext_extends (build : Str → Res Stage) (m : Model) (opts : List CtxOpt) :
    m.Extends (newContext build m opts).1 := by
  have h := applyOpts_extends build opts m ⟨none, none, none⟩
  unfold newContext
  split
  · rename_i e; rw [e] at h; exact h
  · rename_i e; rw [e] at h; exact h
  · rename_i m' ctx e
    rw [e] at h
    split
    · exact h
    · exact h
    · rename_i ctx1 _
      have h2 : m'.Extends (defaultMatcher build m' ctx1).1 := by
        have h3 := setMatcherOpt_extends build m' ctx1 (.str (s% "m"))
        unfold defaultMatcher
        split
        · split
          · rename_i e; rw [e] at h3; exact h3
          · rename_i e; rw [e] at h3; exact h3
          · rename_i e; rw [e] at h3; exact h3
        · exact Extends.refl m'
      split
      · rename_i e; rw [e] at h2; exact h.trans h2
      · rename_i e; rw [e] at h2; exact h.trans h2
      · rename_i e; rw [e] at h2; exact h.trans h2

theorem enforceParams_fst (build : Str → Res Stage) (m : Model) (base : Str → Option Fn) (gov : Gov) (ord : Order)
    (params : List Param) :
    (m.enforceParams build base gov ord params).1 = (newContext build m (splitParams params).1).1 := by
  unfold enforceParams
  split <;> rename_i e <;> rw [e]

theorem rangeParams_fst {σ : Type} (build : Str → Res Stage) (m : Model) (base : Str → Option Fn) (gov : Gov) (ord : Order)
    (params : List Param) (fn : σ → Rule → σ × Bool) (a : σ) :
    (m.rangeParams build base gov ord params fn a).1 = (newContext build m (splitParams params).1).1 := by
  unfold rangeParams
  split <;> rename_i e <;> rw [e]

theorem emitPolicy_rpMap {α : Type} (m : Model) (k : Str) (ls : List Matcher) (pol : Policy) (a : α)
    (e : Option PolEvent) : (m.emitPolicy k ls pol a e).1.rpMap = m.rpMap := by
  unfold emitPolicy
  split
  · rfl
  · split <;> rfl

theorem has_set_old {K V : Type} [DecidableEq K] {m : GoMap K V} {k : K} {v : V} (v' : V)
    (h : m.get k = some v) (k' : K) : (m.set k v').has k' = m.has k' := by
  unfold GoMap.has
  rw [GoMap.get_set]
  split
  · rename_i e; subst e; rw [h]; rfl
  · rfl

theorem step_rhas (m : Model) (op : Op) (k : Str) : (m.step op).1.rpMap.has k = m.rpMap.has k := by
  have hadd : ∀ key rule, (m.addPolicyRule key rule).1.rpMap = m.rpMap := by
    intro key rule; unfold addPolicyRule; split
    · rfl
    · exact emitPolicy_rpMap ..
  have hrem : ∀ key rule, (m.removePolicyRule key rule).1.rpMap = m.rpMap := by
    intro key rule; unfold removePolicyRule; split
    · rfl
    · exact emitPolicy_rpMap ..
  have hadd' : ∀ key rule, (m.addRoleRule key rule).1.rpMap.has k = m.rpMap.has k := by
    intro key rule; unfold addRoleRule; split
    · rfl
    · rename_i e; exact has_set_old _ e k
  have hrem' : ∀ key rule, (m.removeRoleRule key rule).1.rpMap.has k = m.rpMap.has k := by
    intro key rule; unfold removeRoleRule; split
    · rfl
    · rename_i e; exact has_set_old _ e k
  cases op with
  | add r =>
    simp only [step, addRule]
    split
    · rfl
    · rfl
    · simp only
      split
      · rw [hadd]
      · split
        · rw [hadd']
        · rfl
  | remove r =>
    simp only [step, removeRule]
    split
    · rfl
    · rfl
    · simp only
      split
      · rw [hrem]
      · split
        · rw [hrem']
        · rfl
  | clear key =>
    simp only [step, clearPolicy]
    split
    · rw [emitPolicy_rpMap]
    · split
      · rename_i e; exact has_set_old _ e k
      · rfl

theorem buildMatcher_rhas (build : Str → Res Stage) (m : Model) (key k : Str) :
    (m.buildMatcher build key).1.rpMap.has k = m.rpMap.has k := by
  unfold buildMatcher
  split
  · rfl
  · split
    · rfl
    · rfl
    · split
      · rfl
      · rfl
      · split
        · split <;> rfl
        · split
          · rfl
          · rename_i e
            split
            · rfl
            · rfl
            · exact has_set_old _ e k

theorem setDef_ok_g (m : Model) (key value : Str) :
    (m.setDef 'g' key value).2 = .ok () ↔ key.head? = some 'g' := by
  unfold setDef
  cases key with
  | nil => simp
  | cons c cs =>
    by_cases h : c = 'g'
    · subst h; simp
    · simp [h]

theorem setDef_rhas (m : Model) (sec : Char) (key value k : Str) :
    (m.setDef sec key value).1.rpMap.has k =
      if sec = 'g' ∧ key = k ∧ key.head? = some 'g' then true else m.rpMap.has k := by
  unfold setDef
  by_cases h1 : ¬ (sec = 'r' ∨ sec = 'p' ∨ sec = 'g' ∨ sec = 'e' ∨ sec = 'm')
  · rw [if_pos h1, if_neg (by rintro ⟨rfl, -⟩; exact h1 (by simp))]
  · rw [if_neg h1]
    cases key with
    | nil => simp
    | cons c cs =>
      simp only [List.head?_cons, Option.some.injEq]
      by_cases hc : c = sec
      · subst hc
        rw [if_neg (by simp)]
        by_cases a : c = 'r'
        · subst a; simp
        · by_cases b : c = 'p'
          · subst b; simp
          · by_cases d : c = 'g'
            · subst d
              simp only [if_neg a, if_neg b, if_true, true_and, and_true]
              unfold GoMap.has
              rw [GoMap.get_set]
              split <;> rfl
            · have hd : ¬ (c = 'g' ∧ c :: cs = k ∧ c = 'g') := fun h => d h.1
              rw [if_neg a, if_neg b, if_neg d, if_neg hd]
              split <;> rfl
      · rw [if_pos hc, if_neg (by rintro ⟨rfl, -, rfl⟩; exact hc rfl)]

theorem removeDef_rhas (m : Model) (sec : Char) (key k : Str) :
    (m.removeDef sec key).1.rpMap.has k = if sec = 'g' ∧ key = k then false else m.rpMap.has k := by
  unfold removeDef
  by_cases d : sec = 'g'
  · subst d
    simp only [show ('g' : Char) ≠ 'r' by decide, show ('g' : Char) ≠ 'p' by decide, if_false, if_true, true_and]
    unfold GoMap.has
    rw [GoMap.get_del]
    split
    · rfl
    · rfl
  · have hd : ¬ (sec = 'g' ∧ key = k) := fun h => d h.1
    rw [if_neg hd, if_neg d]
    split
    · rfl
    · split
      · rfl
      · split
        · rfl
        · split <;> rfl

end Model

/-! ## Entries -/

namespace FnModel

/-- What a call does to an entry. -/
theorem step_get (build : FnBuild) (s : FnModel) (op : FnOp) (name : Str) (hn : name ≠ s% "eval") :
    (s.step build op).fns.get name = (op.about name).getD (s.fns.get name) := by
  cases op with
  | setFunction n f =>
    simp only [step, setFunction, FnOp.about, GoMap.get_set]
    split <;> rfl
  | removeFunction n =>
    simp only [step, removeFunction, FnOp.about, GoMap.get_del]
    split <;> rfl
  | setDef sec k v =>
    simp only [step, setDef, FnOp.about]
    by_cases h : sec = 'g'
    · subst h
      simp only [Model.setDef_ok_g, true_and]
      by_cases hk : k.head? = some 'g'
      · simp only [hk, if_true, and_true, GoMap.get_set]
        split <;> rfl
      · simp [hk]
    · simp [h]
  | removeDef sec k =>
    simp only [step, removeDef, FnOp.about]
    by_cases h : sec = 'g'
    · subst h
      simp only [if_true, true_and, GoMap.get_del]
      split <;> rfl
    · simp [h]
  | setRoleManager k g =>
    simp only [step, setRoleManager, FnOp.about, GoMap.get_set]
    split <;> rfl
  | onManager k f =>
    simp only [step, onManager, FnOp.about, Option.getD_none]
    split <;> rfl
  | buildMatcher k => rfl
  | rule op => rfl
  | enforce gov depth ord params =>
    simp only [step, enforce, FnOp.about, Option.getD_none]
    split
    · exact GoMap.get_set_ne _ _ hn
    · rfl
  | filter gov depth ord params =>
    simp only [step, filter, rangeMatches, FnOp.about, Option.getD_none]
    split
    · exact GoMap.get_set_ne _ _ hn
    · rfl

/-- What a call does to the existence of a role policy. -/
theorem step_rhas (build : FnBuild) (s : FnModel) (op : FnOp) (name : Str)
    (h1 : ∀ f, op ≠ .setFunction name f) (h2 : op ≠ .removeFunction name) :
    (s.step build op).model.rpMap.has name = match op.about name with
      | some v => v.isSome
      | none => s.model.rpMap.has name := by
  cases op with
  | setFunction n f =>
    simp only [step, setFunction, FnOp.about]
    rw [if_neg (by rintro rfl; exact h1 f rfl)]
  | removeFunction n =>
    simp only [step, removeFunction, FnOp.about]
    rw [if_neg (by rintro rfl; exact h2 rfl)]
  | setDef sec k v =>
    simp only [step, setDef, FnOp.about, Model.setDef_rhas]
    split <;> rfl
  | removeDef sec k =>
    simp only [step, removeDef, FnOp.about, Model.removeDef_rhas]
    split <;> rfl
  | setRoleManager k g =>
    simp only [step, setRoleManager, FnOp.about]
    unfold GoMap.has
    rw [GoMap.get_set]
    split <;> rfl
  | onManager k f =>
    simp only [step, onManager, FnOp.about]
    split
    · rfl
    · rename_i e; exact Model.has_set_old _ e name
  | buildMatcher k => exact Model.buildMatcher_rhas ..
  | rule op => exact Model.step_rhas ..
  | enforce gov depth ord params =>
    simp only [step, enforce, FnOp.about]
    rw [Model.enforceParams_fst]
    exact (Model.newContext_extends ..).rhas _
  | filter gov depth ord params =>
    simp only [step, filter, rangeMatches, FnOp.about]
    rw [Model.rangeParams_fst]
    exact (Model.newContext_extends ..).rhas _

/-- A history on one model. -/
def runOps (build : FnBuild) (s : FnModel) (ops : List FnOp) : FnModel := ops.foldl (FnModel.step build) s

theorem runOps_get (build : FnBuild) (name : Str) (hn : name ≠ s% "eval") : ∀ (ops : List FnOp) (s : FnModel),
    (s.runOps build ops).fns.get name = (lastAbout name ops).getD (s.fns.get name)
  | [], s => rfl
  | op :: ops, s => by
    have ih := runOps_get build name hn ops (s.step build op)
    unfold runOps at ih ⊢
    rw [List.foldl_cons, ih, step_get build s op name hn]
    unfold lastAbout
    rw [List.reverse_cons, List.findSome?_append]
    cases ops.reverse.findSome? (FnOp.about name) with
    | some v => rfl
    | none => cases h : op.about name <;> simp [h]

theorem runOps_rhas (build : FnBuild) (name : Str) : ∀ (ops : List FnOp) (s : FnModel),
    (∀ f, .setFunction name f ∉ ops) → .removeFunction name ∉ ops →
    (s.runOps build ops).model.rpMap.has name = match lastAbout name ops with
      | some v => v.isSome
      | none => s.model.rpMap.has name
  | [], s, _, _ => rfl
  | op :: ops, s, h1, h2 => by
    have ih := runOps_rhas build name ops (s.step build op) (fun f h => h1 f (by simp [h])) (fun h => h2 (by simp [h]))
    unfold runOps at ih ⊢
    rw [List.foldl_cons, ih, step_rhas build s op name (fun f e => h1 f (by simp [e])) (fun e => h2 (by simp [e]))]
    unfold lastAbout
    rw [List.reverse_cons, List.findSome?_append]
    cases ops.reverse.findSome? (FnOp.about name) with
    | some v => rfl
    | none => cases h : op.about name <;> simp [h]

/-- Calls that are neither `SetFunction` nor `RemoveFunction` enter role functions only. -/
theorem about_role {op : FnOp} {name : Str} (h1 : ∀ f, op ≠ .setFunction name f) {v : FnVal}
    (h : op.about name = some (some v)) : v = .role := by
  cases op with
  | setFunction n f =>
    simp only [FnOp.about] at h
    rw [if_neg (by rintro rfl; exact h1 f rfl)] at h
    cases h
  | removeFunction n => simp only [FnOp.about] at h; split at h <;> cases h
  | setDef sec k x => simp only [FnOp.about] at h; split at h <;> cases h; rfl
  | removeDef sec k => simp only [FnOp.about] at h; split at h <;> cases h
  | setRoleManager k g => simp only [FnOp.about] at h; split at h <;> cases h; rfl
  | onManager k f => cases h
  | buildMatcher k => cases h
  | rule op => cases h
  | enforce gov depth ord params => cases h
  | filter gov depth ord params => cases h

end FnModel

/-! ## Programs -/

theorem getD_modify {α : Type} (f : α → α) : ∀ (l : List α) (i j : Nat),
    (l.modify i f)[j]? = if i = j then l[j]?.map f else l[j]? := by
  intro l i j
  rw [List.getElem?_modify]
  by_cases h : i = j <;> simp [h]

theorem callsOn_nil (i : Nat) : callsOn i [] = [] := rfl

/-- A model changes by the calls on it only. -/
theorem FnWorld.run_model (std : StdLib) (build : FnBuild) (i : Nat) : ∀ (calls : List FnCall) (w : FnWorld)
    (s : FnModel), w.models[i]? = some s →
    (w.run std build calls).models[i]? = some (s.runOps build (callsOn i calls))
  | [], w, s, h => h
  | c :: cs, w, s, h => by
    cases c with
    | global n f => exact run_model std build i cs { w with globals := w.globals.set n f } s h
    | create =>
      refine run_model std build i cs { w with models := w.models ++ [FnModel.new std w.globals] } s ?_
      have : i < w.models.length := by
        rw [List.getElem?_eq_some_iff] at h
        exact h.1
      rw [List.getElem?_append_left this, h]
    | on j op =>
      by_cases e : j = i
      · subst e
        have := run_model std build j cs { w with models := w.models.modify j (fun s => s.step build op) }
          (s.step build op) (by rw [getD_modify, if_pos rfl, h]; rfl)
        simpa [FnWorld.run, FnWorld.step, callsOn, FnModel.runOps] using this
      · have := run_model std build i cs { w with models := w.models.modify j (fun s => s.step build op) }
          s (by rw [getD_modify, if_neg e, h])
        simpa [FnWorld.run, FnWorld.step, callsOn, e] using this

theorem FnWorld.run_length (std : StdLib) (build : FnBuild) : ∀ (calls : List FnCall) (w : FnWorld),
    (w.run std build calls).models.length = w.models.length + created calls
  | [], w => rfl
  | c :: cs, w => by
    have ih := run_length std build cs (w.step std build c)
    unfold FnWorld.run at ih ⊢
    rw [List.foldl_cons, ih]
    unfold created
    rw [List.countP_cons]
    cases c with
    | global n f => simp [FnWorld.step]
    | create => simp only [FnWorld.step, List.length_append, List.length_singleton, if_true]; omega
    | on j op => simp [FnWorld.step]

theorem FnWorld.run_globals (std : StdLib) (build : FnBuild) (name : Str) : ∀ (calls : List FnCall) (w : FnWorld),
    (w.run std build calls).globals.get name = (lastGlobal name calls).or (w.globals.get name)
  | [], w => rfl
  | c :: cs, w => by
    have ih := run_globals std build name cs (w.step std build c)
    unfold FnWorld.run at ih ⊢
    rw [List.foldl_cons, ih]
    unfold lastGlobal
    rw [List.reverse_cons, List.findSome?_append]
    generalize cs.reverse.findSome? _ = z
    cases z with
    | some v => rfl
    | none =>
      cases c with
      | global n f =>
        simp only [FnWorld.step, GoMap.get_set, List.findSome?_cons, List.findSome?_nil, Option.none_or]
        split <;> simp
      | create => rfl
      | on j op => rfl

theorem FnWorld.run_wf (std : StdLib) (build : FnBuild) : ∀ (calls : List FnCall) (w : FnWorld), w.globals.WF →
    (w.run std build calls).globals.WF
  | [], w, h => h
  | c :: cs, w, h => by
    refine run_wf std build cs (w.step std build c) ?_
    cases c with
    | global n f => exact h.set _ _
    | create => exact h
    | on j op => exact h

/-- The map made from a list. -/
theorem foldl_set_get (name : Str) : ∀ (l : List (Str × Fn)) (m : GoMap Str FnVal), (l.map Prod.fst).Nodup →
    (l.foldl (fun m e => m.set e.1 (.fn e.2)) m).get name =
      match l.lookup name with
      | some f => some (.fn f)
      | none => m.get name
  | [], m, _ => rfl
  | e :: l, m, h => by
    rw [List.map_cons, List.nodup_cons] at h
    rw [List.foldl_cons, foldl_set_get name l _ h.2, List.lookup_cons]
    by_cases he : name = e.1
    · subst he
      have : l.lookup e.1 = none := by
        rw [List.lookup_eq_none_iff]
        intro p hp
        simp only [bne_iff_ne, ne_eq]
        intro e'
        exact h.1 (by rw [e']; exact List.mem_map_of_mem hp)
      rw [this]
      simp
    · rw [show (name == e.1) = false by simpa using he, GoMap.get_set_ne _ _ he]

/-! ## What counts of the functions -/

/-- The entry `eval` of the map does not matter. -/
theorem Gov.withEval_congr (gov : Gov) (depth : Nat) {fns fns' : Str → Option Fn}
    (h : ∀ name, name ≠ s% "eval" → fns name = fns' name) (par : Rule → Str → Option Str) :
    gov.withEval depth fns par = gov.withEval depth fns' par := by
  have hw : ∀ fn, withFn fns (s% "eval") fn = withFn fns' (s% "eval") fn := by
    intro fn
    funext x
    unfold withFn
    by_cases hx : x = s% "eval"
    · rw [if_pos hx, if_pos hx]
    · rw [if_neg hx, if_neg hx, h x hx]
  have he : ∀ n r, evalFn gov fns par r n = evalFn gov fns' par r n := by
    intro n r
    induction n with
    | zero => rfl
    | succ n ih =>
      funext args
      unfold evalFn
      rw [ih, hw]
  unfold Gov.withEval
  simp only [he, hw]

/-- Calls that see the same functions decide alike. -/
theorem Model.enforceParams_congr (build : Str → Res Stage) (m : Model) {base base' : Str → Option Fn}
    {gov gov' : Gov} (h : ∀ m', m.Extends m' → ∀ par, gov (m'.functions base) par = gov' (m'.functions base') par)
    (ord : Order) (params : List Param) :
    m.enforceParams build base gov ord params = m.enforceParams build base' gov' ord params := by
  have hx := newContext_extends build m (splitParams params).1
  unfold enforceParams
  split
  · rename_i m' ctx e
    rw [e] at hx
    have : m'.enforceCtx base gov ord ctx (splitParams params).2 =
        m'.enforceCtx base' gov' ord ctx (splitParams params).2 := by
      unfold enforceCtx evaluator
      simp only [h m' hx]
    rw [this]
  · rfl
  · rfl

theorem Model.Extends.mgr {m m' : Model} (h : m.Extends m') (k : Str) :
    (m'.rpMap.get k).map (fun rp => gFunction rp.mgr) = (m.rpMap.get k).map (fun rp => gFunction rp.mgr) := by
  rcases h.role k with ⟨h1, h2⟩ | ⟨p, x, h1, h2⟩ <;> rw [h1, h2] <;> rfl

end Fastac
