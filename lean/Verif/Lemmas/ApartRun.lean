import Verif.Lemmas.ApartSteps

/-!
# Programs of models that share nothing
-/

namespace Fastac

namespace Realm

variable {build : Str → Res Stage} {w w' : Realm} {own : Nat → Nat} {key : Nat → Str}

/-- What the call does to the values, and that the models are still apart. -/
def Obeyed (build : Str → Res Stage) (w w' : Realm) (a : Nat) (c : OCmd) : Prop :=
  (∃ own' key', Apart own' key' w') ∧ Moves w w' (some a) (fun x => (x.obey build c).1)

theorem build_apart (h : Apart own key w) {a : Nat} {m : OModel} (hm : w.models[a]? = some m) (k : Str) :
    Obeyed build w (w.buildMatcher build a m k).1 a (.build a k) := by
  have hO := h.models a m hm
  have stay : ∀ {f : Model → Model}, w.value m = f (w.value m) → Moves w w (some a) f :=
    fun e => (Moves.refl w (some a)).of_eq hm e
  unfold Obeyed buildMatcher
  simp only [Model.obey, Model.buildMatcher_obj]
  cases hd : m.mDefs.get k with
  | none =>
    refine ⟨⟨own, key, h⟩, stay ?_⟩
    simp only [show (w.value m).mDefs = m.mDefs from rfl, hd]
  | some expr =>
    simp only
    obtain ⟨h1, h2, h3, h4, h5⟩ := buildFrom_apart (build := build) h hm expr
    rcases hb : w.buildFrom build m expr with ⟨w1, res⟩
    rw [hb] at h1 h2 h3 h4 h5
    simp only at h1 h2 h3 h4 h5
    cases res with
    | err =>
      refine ⟨⟨own, key, h1⟩, h2.of_eq hm ?_⟩
      simp only [show (w.value m).mDefs = m.mDefs from rfl, hd, h4, Res.map_err]
    | panic =>
      refine ⟨⟨own, key, h1⟩, h2.of_eq hm ?_⟩
      simp only [show (w.value m).mDefs = m.mDefs from rfl, hd, h4, Res.map_panic]
    | ok x =>
      obtain ⟨hx1, hx2⟩ := h5 x rfl
      have hm1 : w1.models[a]? = some m := by rw [h3]; exact hm
      have hO1 := h1.models a m hm1
      refine ⟨⟨own, key, h1.setModel ⟨hO1.pwf, hO1.gwf, hO1.p, hO1.g, fun k' y hy => ?_, hO1.defs⟩⟩, ?_⟩
      · rcases GoMap.mem_set (m := m.mMap) (k := k) (v := x) hy with hy | hy
        · cases hy; exact ⟨hx1, hx2⟩
        · exact hO1.mm k' y hy
      · have hmv := Moves.setModel (m' := { m with mMap := m.mMap.set k x }) hm1
          (f := fun y => { y with mMap := y.mMap.set k (w1.entry m x) }) (by
            unfold value
            simp only [Model.mk.injEq, true_and]
            exact GoMap.mapV_set (w1.entry m) _ _ _)
        refine (h2.trans hmv).of_eq hm ?_
        simp only [show (w.value m).mDefs = m.mDefs from rfl, hd, h4, Res.map_ok]

/-! ## Definitions -/

theorem freeze_eq {a : Nat} {m m' : OModel} (hO : OwnModel own key w a m) {k : Str}
    (hmat : ∀ e ∈ m.mMap, w'.matcher e.2 = w.matcher e.2) (h1 : ∀ e ∈ m.mMap, m'.getPolicy k ≠ some e.2.1)
    (h2 : ∀ k', k' ≠ k → m'.getPolicy k' = m.getPolicy k') :
    m.mMap.mapV (w'.entry m') = (w.value m).freeze k := by
  unfold Model.freeze
  show _ = List.map _ (GoMap.mapV (w.entry m) m.mMap)
  unfold GoMap.mapV
  rw [List.map_map]
  refine List.map_congr_left (fun e he => ?_)
  obtain ⟨_, mt, hmt⟩ := hO.mm e.1 e.2 he
  have hr := resolve_entry (m := m) hmt
  simp only [Function.comp_apply]
  have e1 : w'.entry m' e.2 = if m'.getPolicy mt.pDef.key = some e.2.1 then .live mt.pDef.key e.2.2 else .frozen mt := by
    unfold entry
    rw [hmat e he, hmt]
  have e2 : w.entry m e.2 = if m.getPolicy mt.pDef.key = some e.2.1 then .live mt.pDef.key e.2.2 else .frozen mt := by
    unfold entry
    rw [hmt]
  rw [e1]
  rw [e2] at hr ⊢
  by_cases c : mt.pDef.key = k
  · rw [c, if_neg (h1 e he)]
    by_cases c2 : m.getPolicy mt.pDef.key = some e.2.1
    · rw [if_pos c2] at hr
      rw [c] at c2 hr
      rw [if_pos c2]
      simp only [if_true, hr]
    · rw [c] at c2
      rw [if_neg c2]
  · rw [h2 _ c]
    by_cases c2 : m.getPolicy mt.pDef.key = some e.2.1
    · rw [if_pos c2]
      simp only [if_neg c]
    · rw [if_neg c2]

theorem matcher_lt {x : Nat × Nat} {mt : Matcher} (h : w.matcher x = some mt) : x.1 < w.pols.length := by
  unfold matcher at h
  cases hx : w.pols[x.1]? with
  | none => rw [hx] at h; cases h
  | some ob => exact (List.getElem?_eq_some_iff.1 hx).1

/-- The maps that do not lead to objects. -/
theorem plain_apart (h : Apart own key w) {a : Nat} {m m' : OModel} (hm : w.models[a]? = some m)
    (h1 : m'.pMap = m.pMap) (h2 : m'.rpMap = m.rpMap) (h3 : ∀ e ∈ m'.mMap, e ∈ m.mMap) (h4 : m'.pDefs = m.pDefs) :
    Apart own key (w.setModel a m') := by
  have hO := h.models a m hm
  exact h.setModel ⟨h1 ▸ hO.pwf, h2 ▸ hO.gwf, h1 ▸ hO.p, h2 ▸ hO.g, fun k x e => hO.mm k x (h3 _ e), h4 ▸ hO.defs⟩

theorem setDef_apart (h : Apart own key w) {a : Nat} {m : OModel} (hm : w.models[a]? = some m) (sec : Char)
    (k value : Str) : Obeyed build w (w.setDef a m sec k value) a (.setDef a sec k value) := by
  have hO := h.models a m hm
  have stay : ∀ {f : Model → Model}, w.value m = f (w.value m) → Moves w w (some a) f :=
    fun e => (Moves.refl w (some a)).of_eq hm e
  unfold Obeyed setDef
  simp only [Model.obey, Model.setDef]
  split
  · exact ⟨⟨_, _, h⟩, stay rfl⟩
  · cases k with
    | nil => exact ⟨⟨_, _, h⟩, stay rfl⟩
    | cons c cs =>
      simp only
      by_cases hc : c = sec
      · subst hc
        simp only [ne_eq, not_true, if_false]
        by_cases hr : c = 'r'
        · simp only [if_pos hr]
          exact ⟨⟨_, _, plain_apart h hm rfl rfl (fun _ => id) rfl⟩, Moves.setModel hm rfl⟩
        · simp only [if_neg hr]
          by_cases hp : c = 'p'
          · simp only [if_pos hp]
            have ap := h.push a (c :: cs) (w' := { w with pols := w.pols ++ [⟨.rules Policy.empty, []⟩] })
              (hold := .rules Policy.empty) rfl rfl [] (by simp) (fun g hg => by cases hg)
            have mv := (Moves.push h (w' := { w with pols := w.pols ++ [⟨.rules Policy.empty, []⟩] }) rfl rfl []
              (by simp)).weaken (a := some a)
            have hm1 : ({ w with pols := w.pols ++ [⟨.rules Policy.empty, []⟩] } : Realm).models[a]? = some m := hm
            have hO1 := ap.models a m hm1
            have hnew : ({ w with pols := w.pols ++ [⟨.rules Policy.empty, []⟩] } : Realm).pols[w.pols.length]? =
                some ⟨.rules Policy.empty, []⟩ := by simp
            refine ⟨⟨_, _, ap.setModel ⟨hO.pwf.set _ _, hO.gwf, fun k' o e => ?_, hO1.g, hO1.mm, fun k' d e => ?_⟩⟩, ?_⟩
            · simp only [GoMap.get_set] at e
              split at e
              · rename_i e'
                cases e
                subst e'
                exact ⟨by simp [upd], by simp [upd], by rw [hp]; rfl, Policy.empty, [], hnew⟩
              · exact hO1.p k' o e
            · simp only [GoMap.get_set] at e
              split at e
              · rename_i e'; cases e; exact e'
              · exact hO.defs k' d e
            · refine (mv.trans (Moves.setModel hm1 (f := fun y => { y with
                pDefs := y.pDefs.set (c :: cs) (newPolicyDef (c :: cs) value)
                pMap := y.pMap.set (c :: cs) ⟨Policy.empty, []⟩
                mMap := y.freeze (c :: cs) }) ?_)).of_eq hm rfl
              simp only [Realm.value, Model.mk.injEq, true_and]
              refine ⟨?_, ?_⟩
              · rw [GoMap.mapV_set]
                congr 1
                simp [polObj]
              · refine freeze_eq hO1 (fun _ _ => rfl) (fun e he => ?_) (fun k' hk' => ?_)
                · obtain ⟨_, mt, hmt⟩ := hO.mm e.1 e.2 he
                  have := matcher_lt hmt
                  simp only [OModel.getPolicy, GoMap.get_set_self, ne_eq, Option.some.injEq]
                  omega
                · simp only [OModel.getPolicy, GoMap.get_set_ne _ _ hk']
          · simp only [if_neg hp]
            by_cases hg : c = 'g'
            · simp only [if_pos hg]
              generalize hmgr : (if roleDefNArgs value = 2 then Mgr.rm (RM.new 10) else Mgr.dm (DM.new 10)) = mgr
              have ap := h.push a (c :: cs) (w' := { w with
                  mgrs := w.mgrs ++ [mgr]
                  pols := w.pols ++ [⟨.links w.mgrs.length, []⟩] })
                (hold := .links w.mgrs.length) rfl rfl [mgr] rfl (fun g hg => by cases hg; simp)
              have mv := (Moves.push h (w' := { w with
                  mgrs := w.mgrs ++ [mgr]
                  pols := w.pols ++ [⟨.links w.mgrs.length, []⟩] }) rfl rfl [mgr] rfl).weaken (a := some a)
              have hm1 : ({ w with
                  mgrs := w.mgrs ++ [mgr]
                  pols := w.pols ++ [⟨.links w.mgrs.length, []⟩] } : Realm).models[a]? = some m := hm
              have hO1 := ap.models a m hm1
              have hnew : ({ w with
                  mgrs := w.mgrs ++ [mgr]
                  pols := w.pols ++ [⟨.links w.mgrs.length, []⟩] } : Realm).pols[w.pols.length]? =
                  some ⟨.links w.mgrs.length, []⟩ := by simp
              have hnp : m.pMap.get (c :: cs) = none := by
                cases hx : m.pMap.get (c :: cs) with
                | none => rfl
                | some o =>
                  have := (hO.p _ o hx).2.2.1
                  simp only [List.head?_cons, Option.some.injEq] at this
                  exact absurd this hp
              refine ⟨⟨_, _, ap.setModel ⟨hO.pwf, hO.gwf.set _ _, hO1.p, fun k' o e => ?_, hO1.mm, hO.defs⟩⟩, ?_⟩
              · simp only [GoMap.get_set] at e
                split at e
                · rename_i e'
                  cases e
                  subst e'
                  exact ⟨by simp [upd], by simp [upd], by rw [hg]; rfl, _, [], hnew⟩
                · exact hO1.g k' o e
              · refine (mv.trans (Moves.setModel hm1 (f := fun y => { y with
                  gDefs := y.gDefs.set (c :: cs) (roleDefNArgs value)
                  rpMap := y.rpMap.set (c :: cs) ⟨mgr, []⟩
                  mMap := y.freeze (c :: cs) }) ?_)).of_eq hm rfl
                simp only [Realm.value, Model.mk.injEq, true_and]
                refine ⟨?_, ?_⟩
                · rw [GoMap.mapV_set]
                  congr 1
                  simp [rolePol, role]
                · refine freeze_eq hO1 (fun _ _ => rfl) (fun e he => ?_) (fun k' hk' => ?_)
                  · obtain ⟨_, mt, hmt⟩ := hO.mm e.1 e.2 he
                    have := matcher_lt hmt
                    simp only [OModel.getPolicy, hnp, GoMap.get_set_self, ne_eq, Option.some.injEq]
                    omega
                  · simp only [OModel.getPolicy, GoMap.get_set_ne _ _ hk']
            · simp only [if_neg hg]
              by_cases he : c = 'e'
              · simp only [if_pos he]
                exact ⟨⟨_, _, plain_apart h hm rfl rfl (fun _ => id) rfl⟩, Moves.setModel hm rfl⟩
              · simp only [if_neg he]
                exact ⟨⟨_, _, plain_apart h hm rfl rfl (fun _ => id) rfl⟩, Moves.setModel hm rfl⟩
      · simp only [ne_eq, hc, not_false_eq_true, if_true]
        exact ⟨⟨_, _, h⟩, stay rfl⟩

theorem has_value_p (w : Realm) (m : OModel) (k : Str) : (w.value m).pMap.has k = m.pMap.has k := GoMap.mapV_has _ _ _
theorem has_value_g (w : Realm) (m : OModel) (k : Str) : (w.value m).rpMap.has k = m.rpMap.has k := GoMap.mapV_has _ _ _

theorem removeDef_apart (h : Apart own key w) {a : Nat} {m : OModel} (hm : w.models[a]? = some m) (sec : Char)
    (k : Str) : Obeyed build w (w.removeDef a m sec k) a (.removeDef a sec k) := by
  have hO := h.models a m hm
  have stay : ∀ {f : Model → Model}, w.value m = f (w.value m) → Moves w w (some a) f :=
    fun e => (Moves.refl w (some a)).of_eq hm e
  unfold Obeyed removeDef
  simp only [Model.obey, Model.removeDef]
  split
  · exact ⟨⟨_, _, plain_apart h hm rfl rfl (fun _ => id) rfl⟩, Moves.setModel hm rfl⟩
  · split
    · refine ⟨⟨_, _, h.setModel ⟨hO.pwf.del _, hO.gwf, fun k' o e => ?_, hO.g, hO.mm, fun k' d e => ?_⟩⟩,
        Moves.setModel hm ?_⟩
      · simp only [GoMap.get_del] at e
        split at e
        · cases e
        · exact hO.p k' o e
      · simp only [GoMap.get_del] at e
        split at e
        · cases e
        · exact hO.defs k' d e
      · have e1 : m.mMap.mapV (w.entry { m with pDefs := m.pDefs.del k, pMap := m.pMap.del k }) =
            if (w.value m).pMap.has k = true then (w.value m).freeze k else (w.value m).mMap := by
          rw [has_value_p]
          by_cases c : m.pMap.has k = true
          · rw [if_pos c]
            obtain ⟨o, ho⟩ := Option.isSome_iff_exists.1 c
            have hgn : m.rpMap.get k = none := by
              cases hx : m.rpMap.get k with
              | none => rfl
              | some o' =>
                have h1 := (hO.p k o ho).2.2.1
                have h2 := (hO.g k o' hx).2.2.1
                rw [h1] at h2
                cases h2
            refine freeze_eq hO (fun _ _ => rfl) (fun e he => ?_) (fun k' hk' => ?_)
            · simp only [OModel.getPolicy, GoMap.get_del_self, hgn]
              simp
            · simp only [OModel.getPolicy, GoMap.get_del_ne _ hk']
          · rw [if_neg c]
            have hn : m.pMap.get k = none := by
              cases hx : m.pMap.get k with
              | none => rfl
              | some o => exact absurd (by simp [GoMap.has, hx]) c
            have hgp : ∀ k', OModel.getPolicy { m with pDefs := m.pDefs.del k, pMap := m.pMap.del k } k' =
                m.getPolicy k' := by
              intro k'
              simp only [OModel.getPolicy, GoMap.get_del]
              by_cases c : k = k'
              · rw [if_pos c, ← c, hn]
              · rw [if_neg c]
            refine GoMap.mapV_congr (fun e _ => ?_)
            unfold entry
            simp only [hgp]
        simp only [Realm.value] at e1 ⊢
        rw [e1, GoMap.mapV_del]
    · split
      · refine ⟨⟨_, _, h.setModel ⟨hO.pwf, hO.gwf.del _, hO.p, fun k' o e => ?_, hO.mm, hO.defs⟩⟩, Moves.setModel hm ?_⟩
        · simp only [GoMap.get_del] at e
          split at e
          · cases e
          · exact hO.g k' o e
        · have e1 : m.mMap.mapV (w.entry { m with gDefs := m.gDefs.del k, rpMap := m.rpMap.del k }) =
              if (w.value m).rpMap.has k = true then (w.value m).freeze k else (w.value m).mMap := by
            rw [has_value_g]
            by_cases c : m.rpMap.has k = true
            · rw [if_pos c]
              obtain ⟨o, ho⟩ := Option.isSome_iff_exists.1 c
              have hpn : m.pMap.get k = none := by
                cases hx : m.pMap.get k with
                | none => rfl
                | some o' =>
                  have h1 := (hO.g k o ho).2.2.1
                  have h2 := (hO.p k o' hx).2.2.1
                  rw [h1] at h2
                  cases h2
              refine freeze_eq hO (fun _ _ => rfl) (fun e he => ?_) (fun k' hk' => ?_)
              · simp only [OModel.getPolicy, GoMap.get_del_self, hpn]
                simp
              · simp only [OModel.getPolicy, GoMap.get_del_ne _ hk']
            · rw [if_neg c]
              have hn : m.rpMap.get k = none := by
                cases hx : m.rpMap.get k with
                | none => rfl
                | some o => exact absurd (by simp [GoMap.has, hx]) c
              have hgp : ∀ k', OModel.getPolicy { m with gDefs := m.gDefs.del k, rpMap := m.rpMap.del k } k' =
                  m.getPolicy k' := by
                intro k'
                simp only [OModel.getPolicy, GoMap.get_del]
                by_cases c : k = k'
                · rw [if_pos c, ← c, hn]
                · rw [if_neg c]
              refine GoMap.mapV_congr (fun e _ => ?_)
              unfold entry
              simp only [hgp]
          simp only [Realm.value] at e1 ⊢
          rw [e1, GoMap.mapV_del]
      · split
        · exact ⟨⟨_, _, plain_apart h hm rfl rfl (fun _ => id) rfl⟩, Moves.setModel hm rfl⟩
        · split
          · refine ⟨⟨_, _, plain_apart h hm rfl rfl (fun _ => GoMap.mem_del (m := m.mMap) (k := k)) rfl⟩, Moves.setModel hm ?_⟩
            simp only [Realm.value, Model.mk.injEq, true_and]
            exact GoMap.mapV_del (w.entry m) _ _
          · exact ⟨⟨_, _, h⟩, stay rfl⟩

/-! ## Programs -/

theorem eventsOf_append (a : Nat) (es es' : List (Nat × ModEvent)) :
    eventsOf a (es ++ es') = eventsOf a es ++ eventsOf a es' := by
  simp [eventsOf]

theorem eventsOf_tag (a b : Nat) (es : List ModEvent) :
    eventsOf a (es.map (fun e => (b, e))) = if b = a then es else [] := by
  unfold eventsOf
  induction es with
  | nil => simp
  | cons e es ih =>
    simp only [List.map_cons, List.filter_cons]
    by_cases c : b = a
    · simp only [c, decide_true, if_true, List.map_cons] at ih ⊢
      rw [ih]
    · simp only [c, decide_false, Bool.false_eq_true, if_false] at ih ⊢
      exact ih

theorem step_apart (h : Apart own key w) (c : OCmd) (hc : c.Own) {b : Nat} {m : OModel} (hb : w.models[b]? = some m) :
    (∃ own' key', Apart own' key' (w.step build c).1) ∧
    ∃ m', (w.step build c).1.models[b]? = some m' ∧
      (w.step build c).1.value m' = (if c.target = some b then ((w.value m).obey build c).1 else w.value m) ∧
      eventsOf b (w.step build c).2 = if c.target = some b then ((w.value m).obey build c).2 else [] := by
  have none' : ∀ a, w.models[a]? = none → some a ≠ some b := by
    intro a ha e
    cases e
    rw [hb] at ha
    cases ha
  have easy : ∀ {w' : Realm} {a : Nat} {c : OCmd}, Obeyed build w w' a c → ((w.value m).obey build c).2 = [] →
      (∃ own' key', Apart own' key' w') ∧
      ∃ m', w'.models[b]? = some m' ∧
        w'.value m' = (if some a = some b then ((w.value m).obey build c).1 else w.value m) ∧
        eventsOf b [] = if some a = some b then ((w.value m).obey build c).2 else [] := by
    intro w' a c hw he
    obtain ⟨m', h1, h2⟩ := hw.2 b m hb
    refine ⟨hw.1, m', h1, h2, ?_⟩
    rw [he]
    split <;> rfl
  have idle : ∀ a, w.models[a]? = none → (∃ own' key', Apart own' key' w) ∧
      ∀ x : Model, ∃ m', w.models[b]? = some m' ∧ w.value m' = (if some a = some b then x else w.value m) := by
    intro a ha
    refine ⟨⟨_, _, h⟩, fun x => ⟨m, hb, ?_⟩⟩
    rw [if_neg (none' a ha)]
  cases c with
  | newModel =>
    refine ⟨⟨own, key, ?_, h.ls, h.inj, h.lt⟩, m, ?_, ?_, rfl⟩
    · intro a x hx
      simp only [step, List.getElem?_append] at hx
      split at hx
      · have := h.models a x hx
        exact ⟨this.pwf, this.gwf, this.p, this.g, this.mm, this.defs⟩
      · rw [List.getElem?_singleton] at hx
        split at hx
        · cases hx
          exact ⟨GoMap.WF.nil, GoMap.WF.nil, by simp [OModel.new], by simp [OModel.new], by simp [OModel.new],
            by simp [OModel.new]⟩
        · cases hx
    · simp only [step]
      rw [List.getElem?_append_left (List.getElem?_eq_some_iff.1 hb).1]
      exact hb
    · rfl
  | newPolicy =>
    have ap := h.push 0 [] (w' := (w.step build .newPolicy).1) (hold := .rules Policy.empty) rfl rfl [] (by simp [step])
      (fun g hg => by cases hg)
    obtain ⟨m', h1, h2⟩ := Moves.push h (w' := (w.step build .newPolicy).1) rfl rfl [] (by simp [step]) b m hb
    exact ⟨⟨_, _, ap⟩, m', h1, by rw [h2]; rfl, rfl⟩
  | setDef a sec k v =>
    simp only [step, OCmd.target]
    cases ha : w.models[a]? with
    | none =>
      obtain ⟨i1, i2⟩ := idle a ha
      obtain ⟨m', h1, h2⟩ := i2 ((w.value m).obey build (.setDef a sec k v)).1
      exact ⟨i1, m', h1, h2, (if_neg (none' a ha)).symm⟩
    | some x => exact easy (setDef_apart h ha sec k v) rfl
  | removeDef a sec k =>
    simp only [step, OCmd.target]
    cases ha : w.models[a]? with
    | none =>
      obtain ⟨i1, i2⟩ := idle a ha
      obtain ⟨m', h1, h2⟩ := i2 ((w.value m).obey build (.removeDef a sec k)).1
      exact ⟨i1, m', h1, h2, (if_neg (none' a ha)).symm⟩
    | some x => exact easy (removeDef_apart h ha sec k) rfl
  | build a k =>
    simp only [step, OCmd.target]
    cases ha : w.models[a]? with
    | none =>
      obtain ⟨i1, i2⟩ := idle a ha
      obtain ⟨m', h1, h2⟩ := i2 ((w.value m).obey build (.build a k)).1
      exact ⟨i1, m', h1, h2, (if_neg (none' a ha)).symm⟩
    | some x => exact easy (build_apart h ha k) rfl
  | buildFrom a expr =>
    simp only [step, OCmd.target]
    cases ha : w.models[a]? with
    | none =>
      obtain ⟨i1, i2⟩ := idle a ha
      obtain ⟨m', h1, h2⟩ := i2 ((w.value m).obey build (.buildFrom a expr)).1
      exact ⟨i1, m', h1, h2, (if_neg (none' a ha)).symm⟩
    | some x =>
      obtain ⟨h1, h2, _⟩ := buildFrom_apart (build := build) h ha expr
      exact easy (c := .buildFrom a expr) ⟨⟨_, _, h1⟩, h2⟩ rfl
  | clear a k =>
    simp only [step, OCmd.target]
    cases ha : w.models[a]? with
    | none =>
      obtain ⟨i1, i2⟩ := idle a ha
      obtain ⟨m', h1, h2⟩ := i2 ((w.value m).obey build (.clear a k)).1
      exact ⟨i1, m', h1, h2, (if_neg (none' a ha)).symm⟩
    | some x =>
      obtain ⟨h1, h2⟩ := clear_apart h ha k
      exact easy (c := .clear a k) ⟨⟨_, _, h1⟩, h2⟩ rfl
  | add a rule =>
    simp only [step, OCmd.target]
    cases ha : w.models[a]? with
    | none =>
      obtain ⟨i1, i2⟩ := idle a ha
      obtain ⟨m', h1, h2⟩ := i2 ((w.value m).obey build (.add a rule)).1
      exact ⟨i1, m', h1, h2, (if_neg (none' a ha)).symm⟩
    | some x =>
      obtain ⟨h1, h2, h3⟩ := addRule_apart h ha rule
      obtain ⟨m', e1, e2⟩ := h2 b m hb
      refine ⟨⟨_, _, h1⟩, m', e1, e2, ?_⟩
      simp only [eventsOf_tag, h3]
      by_cases c : a = b
      · subst c
        rw [hb] at ha
        cases ha
        simp only [if_true, Model.obey]
      · rw [if_neg c]
        exact (if_neg (fun e => c (Option.some.inj e))).symm
  | remove a rule =>
    simp only [step, OCmd.target]
    cases ha : w.models[a]? with
    | none =>
      obtain ⟨i1, i2⟩ := idle a ha
      obtain ⟨m', h1, h2⟩ := i2 ((w.value m).obey build (.remove a rule)).1
      exact ⟨i1, m', h1, h2, (if_neg (none' a ha)).symm⟩
    | some x =>
      obtain ⟨h1, h2, h3⟩ := removeRule_apart h ha rule
      obtain ⟨m', e1, e2⟩ := h2 b m hb
      refine ⟨⟨_, _, h1⟩, m', e1, e2, ?_⟩
      simp only [eventsOf_tag, h3]
      by_cases c : a = b
      · subst c
        rw [hb] at ha
        cases ha
        simp only [if_true, Model.obey]
      · rw [if_neg c]
        exact (if_neg (fun e => c (Option.some.inj e))).symm
  | setPolicy a k o => exact hc.elim
  | setMatcher a k x => exact hc.elim
  | setRoleManager a k g => exact hc.elim
  | polAdd o r => exact hc.elim
  | polRemove o r => exact hc.elim
  | polClear o => exact hc.elim
  | mgr g f => exact hc.elim

theorem step_stays (h : Apart own key w) (c : OCmd) (hc : c.Own) :
    ∃ own' key', Apart own' key' (w.step build c).1 := by
  cases h0 : w.models[0]? with
  | some m => exact (step_apart h c hc h0).1
  | none =>
    have hn : ∀ a : Nat, w.models[a]? = none := by
      intro a
      rw [List.getElem?_eq_none_iff] at h0 ⊢
      omega
    cases c with
    | newModel =>
      refine ⟨own, key, ?_, h.ls, h.inj, h.lt⟩
      intro a x hx
      simp only [step, List.getElem?_append] at hx
      split at hx
      · rw [hn] at hx; cases hx
      · rw [List.getElem?_singleton] at hx
        split at hx
        · cases hx
          exact ⟨GoMap.WF.nil, GoMap.WF.nil, by simp [OModel.new], by simp [OModel.new], by simp [OModel.new],
            by simp [OModel.new]⟩
        · cases hx
    | newPolicy =>
      exact ⟨_, _, h.push 0 [] (w' := (w.step build .newPolicy).1) (hold := .rules Policy.empty) rfl rfl []
        (by simp [step]) (fun g hg => by cases hg)⟩
    | setDef a sec k v => exact ⟨own, key, by simp only [step, hn]; exact h⟩
    | removeDef a sec k => exact ⟨own, key, by simp only [step, hn]; exact h⟩
    | build a k => exact ⟨own, key, by simp only [step, hn]; exact h⟩
    | buildFrom a e => exact ⟨own, key, by simp only [step, hn]; exact h⟩
    | add a r => exact ⟨own, key, by simp only [step, hn]; exact h⟩
    | remove a r => exact ⟨own, key, by simp only [step, hn]; exact h⟩
    | clear a k => exact ⟨own, key, by simp only [step, hn]; exact h⟩
    | setPolicy a k o => exact hc.elim
    | setMatcher a k x => exact hc.elim
    | setRoleManager a k g => exact hc.elim
    | polAdd o r => exact hc.elim
    | polRemove o r => exact hc.elim
    | polClear o => exact hc.elim
    | mgr g f => exact hc.elim

theorem run_stays (cs : List OCmd) : ∀ {own : Nat → Nat} {key : Nat → Str} {w : Realm}, Apart own key w →
    (∀ c ∈ cs, c.Own) → ∃ own' key', Apart own' key' (w.run build cs).1 := by
  induction cs with
  | nil => exact fun h _ => ⟨_, _, h⟩
  | cons c cs ih =>
    intro own key w h hc
    obtain ⟨_, _, h'⟩ := step_stays (build := build) h c (hc c List.mem_cons_self)
    exact ih h' (fun c' h' => hc c' (List.mem_cons_of_mem _ h'))

theorem run_apart (cs : List OCmd) : ∀ {own : Nat → Nat} {key : Nat → Str} {w : Realm}, Apart own key w →
    (∀ c ∈ cs, c.Own) → ∀ {b : Nat} {m : OModel}, w.models[b]? = some m →
    ∃ m', (w.run build cs).1.models[b]? = some m' ∧
      (w.run build cs).1.value m' = ((w.value m).obeys build (cs.filter (fun c => c.target = some b))).1 ∧
      eventsOf b (w.run build cs).2 = ((w.value m).obeys build (cs.filter (fun c => c.target = some b))).2 := by
  induction cs with
  | nil => exact fun _ _ _ m hm => ⟨m, hm, rfl, rfl⟩
  | cons c cs ih =>
    intro own key w h hc b m hm
    obtain ⟨⟨_, _, h'⟩, m1, e1, e2, e3⟩ := step_apart (build := build) h c (hc c List.mem_cons_self) hm
    obtain ⟨m2, f1, f2, f3⟩ := ih h' (fun c' h' => hc c' (List.mem_cons_of_mem _ h')) e1
    refine ⟨m2, f1, ?_, ?_⟩
    · simp only [run, List.filter_cons]
      rw [f2, e2]
      by_cases t : c.target = some b
      · simp only [t, if_true, decide_true, Model.obeys]
      · simp only [t, if_false, decide_false, Bool.false_eq_true]
    · simp only [run, List.filter_cons, eventsOf_append]
      rw [f3, e2, e3]
      by_cases t : c.target = some b
      · simp only [t, if_true, decide_true, Model.obeys]
      · simp only [t, if_false, decide_false, Bool.false_eq_true, List.nil_append]

theorem run_append (build : Str → Res Stage) (cs cs' : List OCmd) : ∀ w : Realm,
    w.run build (cs ++ cs') = (((w.run build cs).1.run build cs').1,
      (w.run build cs).2 ++ ((w.run build cs).1.run build cs').2) := by
  induction cs with
  | nil => exact fun w => rfl
  | cons c cs ih =>
    intro w
    simp only [List.cons_append, run, ih, List.append_assoc]

end Realm

end Fastac
