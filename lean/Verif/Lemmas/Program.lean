import Verif.Spec.Program
import Verif.Lemmas.Functions
import Verif.Lemmas.Given
import Verif.Lemmas.Configured

/-!
# Requests in histories; histories with functions
-/

namespace Fastac

namespace Model

/-! ## What a request does to the model -/

section
variable {build : Str → Res Stage} {Q : Model → Prop} (hQ : ∀ m e, Q m → Q (m.buildFromExpr build e).1)
include hQ

theorem setMatcherOpt_ind {m : Model} (h : Q m) (ctx : Ctx) (a : MArg) : Q (setMatcherOpt build m ctx a).1 := by
  cases a with
  | str s =>
    simp only [setMatcherOpt]
    split
    · exact h
    · split
      · exact h
      · exact hQ m s h
  | ofDef e => exact hQ m e h
  | obj x => exact h
  | other => exact h

theorem applyOpts_ind : ∀ (opts : List CtxOpt) {m : Model} (ctx : Ctx), Q m → Q (applyOpts build m ctx opts).1
  | [], m, ctx, h => h
  | o :: os, m, ctx, h => by
    have h1 : Q (applyOpt build m ctx o).1 := by
      cases o with
      | matcher a => exact setMatcherOpt_ind hQ h ctx a
      | request a => exact h
      | effector a => exact h
    unfold applyOpts
    split
    · rename_i e; rw [e] at h1; exact applyOpts_ind os _ h1
    · rename_i e; rw [e] at h1; exact h1
    · rename_i e; rw [e] at h1; exact h1

/-- A request changes the model by building matchers only. -/
theorem newContext_ind {m : Model} (h : Q m) (opts : List CtxOpt) : Q (newContext build m opts).1 := by
  have h1 := applyOpts_ind hQ opts ⟨none, none, none⟩ h
  unfold newContext
  split
  · rename_i e; rw [e] at h1; exact h1
  · rename_i e; rw [e] at h1; exact h1
  · rename_i m' ctx e
    rw [e] at h1
    split
    · exact h1
    · exact h1
    · rename_i ctx1 _
      have h2 : Q (defaultMatcher build m' ctx1).1 := by
        have h3 := setMatcherOpt_ind hQ h1 ctx1 (.str (s% "m"))
        unfold defaultMatcher
        split
        · split
          · rename_i e; rw [e] at h3; exact h3
          · rename_i e; rw [e] at h3; exact h3
          · rename_i e; rw [e] at h3; exact h3
        · exact h1
      split
      · rename_i e; rw [e] at h2; exact h2
      · rename_i e; rw [e] at h2; exact h2
      · rename_i e; rw [e] at h2; exact h2

theorem enforceParams_ind {m : Model} (h : Q m) (base : Str → Option Fn) (gov : Gov) (ord : Order)
    (params : List Param) : Q (m.enforceParams build base gov ord params).1 := by
  rw [enforceParams_fst]
  exact newContext_ind hQ h _

theorem rangeParams_ind {σ : Type} {m : Model} (h : Q m) (base : Str → Option Fn) (gov : Gov) (ord : Order)
    (params : List Param) (fn : σ → Rule → σ × Bool) (a : σ) : Q (m.rangeParams build base gov ord params fn a).1 := by
  rw [rangeParams_fst]
  exact newContext_ind hQ h _

end

theorem Made.request {build : Str → Res Stage} {m : Model} (h : Made build m) (base : Str → Option Fn) (gov : Gov)
    (ord : Order) (params : List Param) : Made build (m.enforceParams build base gov ord params).1 :=
  enforceParams_ind (fun _ e h => h.inline e) h base gov ord params

/-- A text that is read as `u` reads it, or not at all. -/
theorem buildFromExpr_cases {build u : Str → Res Stage} (m : Model) (e : Str) (h : build e = u e ∨ build e = .err) :
    (m.buildFromExpr build e).1 = (m.buildFromExpr u e).1 ∨ (m.buildFromExpr build e).1 = m := by
  rcases h with h | h
  · left; unfold buildFromExpr; rw [h]
  · right; unfold buildFromExpr; rw [h]

theorem buildMatcher_cases {build u : Str → Res Stage} (h : ∀ e, build e = u e ∨ build e = .err) (m : Model)
    (key : Str) : (m.buildMatcher build key).1 = (m.buildMatcher u key).1 ∨ (m.buildMatcher build key).1 = m := by
  unfold buildMatcher
  cases m.mDefs.get key with
  | none => exact .inl rfl
  | some e =>
    rcases h e with h | h
    · left; simp only [h]
    · right; simp only [h]

end Model

namespace FnModel

theorem FnKept.kept {build : FnBuild} {u : Str → Res Stage} (hc : build.Coherent u) {s : FnModel}
    (h : FnKept build s) : Model.Kept u s.model := by
  induction h with
  | new => exact .new
  | setFunction _ _ _ _ ih => exact ih
  | removeFunction _ _ _ ih => exact ih
  | setDef _ sec key value ih => exact ih.setDef sec key value
  | removeDef _ sec key ih => exact ih.removeDef sec key
  | @build s h key ih =>
    rcases Model.buildMatcher_cases (hc s.knows) s.model key with e | e
    · show Model.Kept u (s.model.buildMatcher _ key).1
      rw [e]; exact ih.build key
    · show Model.Kept u (s.model.buildMatcher _ key).1
      rw [e]; exact ih
  | @request s h gov depth ord params ih =>
    refine Model.enforceParams_ind (fun m e hm => ?_) ih _ _ _ _
    rcases Model.buildFromExpr_cases m e (hc s.knows e) with e' | e'
    · rw [e']; exact hm.inline e
    · rw [e']; exact hm
  | @filter s h gov depth ord params ih =>
    refine Model.rangeParams_ind (fun m e hm => ?_) ih _ _ _ _ _ _
    rcases Model.buildFromExpr_cases m e (hc s.knows e) with e' | e'
    · rw [e']; exact hm.inline e
    · rw [e']; exact hm
  | add _ rule hs ih => exact ih.add rule hs
  | remove _ rule hs ih => exact ih.remove rule hs
  | clear _ key hk ih => exact ih.clear key hk

theorem FnGiven.given {build : FnBuild} {u : Str → Res Stage} (hc : build.Coherent u) {key : Str} {root : Stage}
    {P : Rule → Prop} {keep : Prop} {s : FnModel} (h : FnGiven build key root P keep s) :
    Model.Given u key root P keep s.model := by
  induction h with
  | @built s h expr hd hb hok hP =>
    have hu : build s.knows expr = u expr := by
      rcases hc s.knows expr with e | e
      · exact e
      · rw [hb] at e; cases e
    have e := Model.buildMatcher_congr hd hu
    have hok' : (s.model.buildMatcher u key).2 = .ok () := by rw [← e]; exact hok
    show Model.Given u key root P keep (s.model.buildMatcher _ key).1
    rw [e]
    exact .built (h.kept hc) expr hd (hu ▸ hb) hok' hP
  | setFunction _ _ _ _ ih => exact ih
  | removeFunction _ _ _ ih => exact ih
  | setDef _ sec k value hk ih => exact ih.setDef sec k value hk
  | removeDef _ sec k hk hm ih => exact ih.removeDef sec k hk hm
  | @build s h k hk ih =>
    show Model.Given u key root P keep (s.model.buildMatcher _ k).1
    rcases Model.buildMatcher_cases (hc s.knows) s.model k with e | e
    · rw [e]; exact ih.build k hk
    · rw [e]; exact ih
  | @request s h gov depth ord params ih =>
    refine Model.enforceParams_ind (fun m e hm => ?_) ih _ _ _ _
    rcases Model.buildFromExpr_cases m e (hc s.knows e) with e' | e'
    · rw [e']; exact hm.inline e
    · rw [e']; exact hm
  | @filter s h gov depth ord params ih =>
    refine Model.rangeParams_ind (fun m e hm => ?_) ih _ _ _ _ _ _
    rcases Model.buildFromExpr_cases m e (hc s.knows e) with e' | e'
    · rw [e']; exact hm.inline e
    · rw [e']; exact hm
  | add _ rule hs hP ih => exact ih.add rule hs hP
  | remove _ rule hs hk ih => exact ih.remove rule hs hk
  | clear _ k hk ih => exact ih.clear k hk

/-! ## The functions of role definitions are in place -/

def InPlace (s : FnModel) : Prop :=
  ∀ name, name ≠ s% "eval" → s.model.rpMap.has name = true → s.fns.get name = some .role

theorem InPlace.step {build : FnBuild} {s : FnModel} (h : s.InPlace) (op : FnOp)
    (h1 : ∀ n f, op = .setFunction n f → s.model.rpMap.has n = false)
    (h2 : ∀ n, op = .removeFunction n → s.model.rpMap.has n = false) : (s.step build op).InPlace := by
  intro name hn hr
  rw [step_get build s op name hn]
  by_cases a : (∃ f, op = .setFunction name f) ∨ op = .removeFunction name
  · exfalso
    rcases a with ⟨f, rfl⟩ | rfl
    · have := h1 name f rfl
      simp only [FnModel.step, setFunction] at hr
      rw [this] at hr; cases hr
    · have := h2 name rfl
      simp only [FnModel.step, removeFunction] at hr
      rw [this] at hr; cases hr
  · have a1 : ∀ f, op ≠ .setFunction name f := fun f e => a (.inl ⟨f, e⟩)
    have a2 : op ≠ .removeFunction name := fun e => a (.inr e)
    rw [step_rhas build s op name a1 a2] at hr
    cases hab : op.about name with
    | none => rw [hab] at hr; exact h name hn hr
    | some v =>
      rw [hab] at hr
      cases v with
      | none => cases hr
      | some v => rw [about_role a1 hab]; rfl

theorem FnKept.inPlace {build : FnBuild} {s : FnModel} (h : FnKept build s) : s.InPlace := by
  induction h with
  | new => intro name _ hr; cases hr
  | setFunction _ name f hn ih =>
    exact ih.step (build := build) (.setFunction name f) (by rintro n g e; cases e; exact hn) (by rintro n e; cases e)
  | removeFunction _ name hn ih =>
    exact ih.step (build := build) (.removeFunction name) (by rintro n g e; cases e) (by rintro n e; cases e; exact hn)
  | setDef _ sec key value ih => exact ih.step (build := build) (.setDef sec key value) (by rintro n g e; cases e) (by rintro n e; cases e)
  | removeDef _ sec key ih => exact ih.step (build := build) (.removeDef sec key) (by rintro n g e; cases e) (by rintro n e; cases e)
  | build _ key ih => exact ih.step (build := build) (.buildMatcher key) (by rintro n g e; cases e) (by rintro n e; cases e)
  | request _ gov depth ord params ih =>
    exact ih.step (build := build) (.enforce gov depth ord params) (by rintro n g e; cases e) (by rintro n e; cases e)
  | filter _ gov depth ord params ih =>
    exact ih.step (build := build) (.filter gov depth ord params) (by rintro n g e; cases e) (by rintro n e; cases e)
  | add _ rule _ ih => exact ih.step (build := build) (.rule (.add rule)) (by rintro n g e; cases e) (by rintro n e; cases e)
  | remove _ rule _ ih => exact ih.step (build := build) (.rule (.remove rule)) (by rintro n g e; cases e) (by rintro n e; cases e)
  | clear _ key _ ih => exact ih.step (build := build) (.rule (.clear key)) (by rintro n g e; cases e) (by rintro n e; cases e)

theorem FnGiven.inPlace {build : FnBuild} {key : Str} {root : Stage} {P : Rule → Prop} {keep : Prop} {s : FnModel}
    (h : FnGiven build key root P keep s) : s.InPlace := by
  induction h with
  | built h _ _ _ _ _ => exact (h.build key).inPlace
  | setFunction _ name f hn ih =>
    exact ih.step (build := build) (.setFunction name f) (by rintro n g e; cases e; exact hn) (by rintro n e; cases e)
  | removeFunction _ name hn ih =>
    exact ih.step (build := build) (.removeFunction name) (by rintro n g e; cases e) (by rintro n e; cases e; exact hn)
  | setDef _ sec k value _ ih => exact ih.step (build := build) (.setDef sec k value) (by rintro n g e; cases e) (by rintro n e; cases e)
  | removeDef _ sec k _ _ ih => exact ih.step (build := build) (.removeDef sec k) (by rintro n g e; cases e) (by rintro n e; cases e)
  | build _ k _ ih => exact ih.step (build := build) (.buildMatcher k) (by rintro n g e; cases e) (by rintro n e; cases e)
  | request _ gov depth ord params ih =>
    exact ih.step (build := build) (.enforce gov depth ord params) (by rintro n g e; cases e) (by rintro n e; cases e)
  | filter _ gov depth ord params ih =>
    exact ih.step (build := build) (.filter gov depth ord params) (by rintro n g e; cases e) (by rintro n e; cases e)
  | add _ rule _ _ ih => exact ih.step (build := build) (.rule (.add rule)) (by rintro n g e; cases e) (by rintro n e; cases e)
  | remove _ rule _ _ ih => exact ih.step (build := build) (.rule (.remove rule)) (by rintro n g e; cases e) (by rintro n e; cases e)
  | clear _ k _ ih => exact ih.step (build := build) (.rule (.clear k)) (by rintro n g e; cases e) (by rintro n e; cases e)

/-- The functions are those of the model with the own ones, except for `eval`. -/
theorem InPlace.functions {s : FnModel} (h : s.InPlace) {m' : Model} (hx : s.model.Extends m') (name : Str)
    (hn : name ≠ s% "eval") :
    s.functions name = m'.functions s.own name := by
  have hmgr := hx.mgr name
  unfold FnModel.functions Model.functions own
  cases hr : s.model.rpMap.get name with
  | none =>
    rw [hr] at hmgr
    have : m'.rpMap.get name = none := by
      cases h : m'.rpMap.get name with
      | none => rfl
      | some x => rw [h] at hmgr; cases hmgr
    rw [this]
    cases hg : s.fns.get name with
    | none => rfl
    | some v => cases v <;> rfl
  | some rp =>
    rw [h name hn (by unfold GoMap.has; rw [hr]; rfl)]
    rw [hr] at hmgr
    simp only [Option.map_some] at hmgr
    cases h : m'.rpMap.get name with
    | none => rw [h] at hmgr; cases hmgr
    | some x => rw [h] at hmgr; simpa using hmgr.symm

end FnModel

end Fastac
