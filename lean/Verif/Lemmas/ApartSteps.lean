import Verif.Lemmas.Apart

/-!
# The calls of models that share nothing
-/

namespace Fastac

/-- Every matcher was there before. -/
def WasThere (ls ls' : List Matcher) : Prop := ∀ mt' ∈ ls', ∃ mt ∈ ls, mt.Same mt'

theorem WasThere.refl (ls : List Matcher) : WasThere ls ls := fun mt h => ⟨mt, h, rfl, rfl⟩

theorem WasThere.notify {ls ls' : List Matcher} {e : PolEvent} (h : notify ls e = .ok ls') : WasThere ls ls' := by
  intro mt hm
  obtain ⟨i, hi⟩ := List.mem_iff_getElem?.1 hm
  have hl := notify_length e ls ls' h
  have hlt : i < ls.length := by
    have := (List.getElem?_eq_some_iff.1 hi).1
    omega
  obtain ⟨mt', h2, h3⟩ := StillThere.notify h i ls[i] (List.getElem?_eq_getElem hlt)
  rw [hi] at h2
  cases h2
  exact ⟨ls[i], List.getElem_mem _, h3⟩

theorem WasThere.emit {α : Type} (ls : List Matcher) (pol : Policy) (a : α) (e : Option PolEvent) :
    WasThere ls (PolObj.emit ls pol a e).1.listeners := by
  cases e with
  | none => exact .refl _
  | some e =>
    simp only [PolObj.emit]
    cases h : Fastac.notify ls e with
    | ok ls' => exact .notify h
    | err => exact .refl _
    | panic => exact .refl _

theorem RolePolicy.addRule_was (rp : RolePolicy) (r : Rule) : WasThere rp.listeners (rp.addRule r).1.listeners := by
  unfold RolePolicy.addRule
  split
  · split
    · simp only [RolePolicy.emit]
      split
      · rename_i h; exact .notify h
      · exact .refl _
      · exact .refl _
    · exact .refl _
    · exact .refl _
    · exact .refl _
  · exact .refl _

theorem RolePolicy.removeRule_was (rp : RolePolicy) (r : Rule) :
    WasThere rp.listeners (rp.removeRule r).1.listeners := by
  unfold RolePolicy.removeRule
  split
  · split
    · simp only [RolePolicy.emit]
      split
      · rename_i h; exact .notify h
      · exact .refl _
      · exact .refl _
    · exact .refl _
    · exact .refl _
    · exact .refl _
  · exact .refl _

theorem Model.emitPolicy_obj {α : Type} (m : Model) (key : Str) (ls : List Matcher) (pol : Policy) (a : α)
    (e : Option PolEvent) : m.emitPolicy key ls pol a e =
      ({ m with pMap := m.pMap.set key (PolObj.emit ls pol a e).1 }, (PolObj.emit ls pol a e).2) := by
  cases e with
  | none => rfl
  | some e => simp only [Model.emitPolicy, PolObj.emit]; cases notify ls e <;> rfl

namespace Realm

variable {build : Str → Res Stage} {w w' : Realm} {own : Nat → Nat} {key : Nat → Str}

theorem value_p {m : OModel} {k : Str} {o : Nat} (hk : m.pMap.get k = some o)
    {p : Policy} {ls : List Matcher} (ho : w.pols[o]? = some ⟨.rules p, ls⟩) :
    (w.value m).pMap.get k = some ⟨p, ls⟩ := by
  simp only [value, GoMap.mapV_get, hk, Option.map_some, polObj, ho]

theorem value_p_none {m : OModel} {k : Str} (hk : m.pMap.get k = none) : (w.value m).pMap.get k = none := by
  simp only [value, GoMap.mapV_get, hk, Option.map_none]

theorem value_g {m : OModel} {k : Str} {o : Nat} (hk : m.rpMap.get k = some o)
    {g : Nat} {ls : List Matcher} (ho : w.pols[o]? = some ⟨.links g, ls⟩) :
    (w.value m).rpMap.get k = some (w.role g ls) := by
  simp only [value, GoMap.mapV_get, hk, Option.map_some, rolePol, ho]

theorem value_g_none {m : OModel} {k : Str} (hk : m.rpMap.get k = none) : (w.value m).rpMap.get k = none := by
  simp only [value, GoMap.mapV_get, hk, Option.map_none]

/-- A policy emits, with a change of the rules. -/
theorem emit_apart (h : Apart own key w) {a : Nat} {m : OModel} (hm : w.models[a]? = some m) {k : Str} {o : Nat}
    (hk : m.pMap.get k = some o) {p : Policy} {ls : List Matcher} (ho : w.pols[o]? = some ⟨.rules p, ls⟩)
    {α : Type} (pol : Policy) (x : α) (e : Option PolEvent) :
    Apart own key (w.setPol o ⟨.rules (PolObj.emit ls pol x e).1.policy, (PolObj.emit ls pol x e).1.listeners⟩) ∧
    Moves w (w.setPol o ⟨.rules (PolObj.emit ls pol x e).1.policy, (PolObj.emit ls pol x e).1.listeners⟩) (some a)
      (fun y => (y.emitPolicy k ls pol x e).1) := by
  constructor
  · refine h.setObj (ob' := ⟨.rules (PolObj.emit ls pol x e).1.policy, (PolObj.emit ls pol x e).1.listeners⟩) ho
      ⟨trivial, .emit _ _ _ _⟩ (fun mt hmt => ?_) rfl rfl rfl
    obtain ⟨mt0, h0, hs⟩ := WasThere.emit _ _ _ _ mt hmt
    rw [hs.1]
    exact h.ls o _ ho mt0 h0
  · have := Moves.setPol h hm hk ho (PolObj.emit ls pol x e).1.policy (StillThere.emit ls pol x e)
    refine this.of_eq hm ?_
    rw [Model.emitPolicy_obj]

theorem role_apart (h : Apart own key w) {a : Nat} {m : OModel} (hm : w.models[a]? = some m) {k : Str} {o : Nat}
    (hk : m.rpMap.get k = some o) {g : Nat} {ls : List Matcher} (ho : w.pols[o]? = some ⟨.links g, ls⟩)
    {rp' : RolePolicy} (h1 : StillThere ls rp'.listeners) (h2 : WasThere ls rp'.listeners) :
    Apart own key (w.setRole o g rp') ∧
    Moves w (w.setRole o g rp') (some a) (fun x => { x with rpMap := x.rpMap.set k rp' }) := by
  constructor
  · refine h.setObj (ob' := ⟨.links g, rp'.listeners⟩) ho ⟨rfl, h1⟩ (fun mt hmt => ?_) rfl rfl (by simp [setRole])
    obtain ⟨mt0, h0, hs⟩ := h2 mt hmt
    rw [hs.1]
    exact h.ls o _ ho mt0 h0
  · exact Moves.setRole h hm hk ho h1

/-! ## Rules -/

theorem addRule_apart (h : Apart own key w) {a : Nat} {m : OModel} (hm : w.models[a]? = some m) (rule : Rule) :
    Apart own key (w.addRule m rule).1 ∧ Moves w (w.addRule m rule).1 (some a) (fun x => (x.addRule rule).1) ∧
    (w.addRule m rule).2 = ((w.value m).addRule rule).2 := by
  have hO := h.models a m hm
  have stay : ∀ {f : Model → Model}, w.value m = f (w.value m) → Moves w w (some a) f :=
    fun e => (Moves.refl w (some a)).of_eq hm e
  unfold addRule Model.addRule
  split
  · exact ⟨h, .refl w _, rfl⟩
  · exact ⟨h, .refl w _, rfl⟩
  · rename_i c cs f
    by_cases hp : c = 'p'
    · simp only [if_pos hp]
      cases hk : m.pMap.get (c :: cs) with
      | none =>
        have e : (w.value m).addPolicyRule (c :: cs) f = (w.value m, .err) := by
          unfold Model.addPolicyRule; rw [value_p_none hk]
        refine ⟨h, stay ?_, ?_⟩
        · rw [e]
        · rw [e]
      | some o =>
        obtain ⟨_, _, _, p, ls, ho⟩ := hO.p _ o hk
        have e : (w.value m).addPolicyRule (c :: cs) f = (w.value m).emitPolicy (c :: cs) ls (p.addRule f).1
            (p.addRule f).2.1 (p.addRule f).2.2 := by
          unfold Model.addPolicyRule; rw [value_p hk ho]
        obtain ⟨h1, h2⟩ := emit_apart h hm hk ho (p.addRule f).1 (p.addRule f).2.1 (p.addRule f).2.2
        unfold polAdd
        simp only [ho]
        refine ⟨h1, h2.of_eq hm ?_, ?_⟩
        · simp only [e]
        · rw [e, Model.emitPolicy_obj]
    · simp only [if_neg hp]
      by_cases hg : c = 'g'
      · simp only [if_pos hg]
        cases hk : m.rpMap.get (c :: cs) with
        | none =>
          have e : (w.value m).addRoleRule (c :: cs) f = (w.value m, .err) := by
            unfold Model.addRoleRule; rw [value_g_none hk]
          refine ⟨h, stay ?_, ?_⟩
          · rw [e]
          · rw [e]
        | some o =>
          obtain ⟨_, _, _, g, ls, ho⟩ := hO.g _ o hk
          have e : (w.value m).addRoleRule (c :: cs) f = ({ w.value m with
              rpMap := (w.value m).rpMap.set (c :: cs) ((w.role g ls).addRule f).1 }, ((w.role g ls).addRule f).2) := by
            unfold Model.addRoleRule; rw [value_g hk ho]
          obtain ⟨h1, h2⟩ := role_apart h hm hk ho (rp' := ((w.role g ls).addRule f).1)
            (RolePolicy.addRule_there (w.role g ls) f) (RolePolicy.addRule_was (w.role g ls) f)
          unfold polAdd
          simp only [ho]
          refine ⟨h1, h2.of_eq hm ?_, ?_⟩
          · simp only [e]
          · rw [e]
      · simp only [if_neg hg]
        exact ⟨h, stay rfl, trivial⟩

theorem removeRule_apart (h : Apart own key w) {a : Nat} {m : OModel} (hm : w.models[a]? = some m) (rule : Rule) :
    Apart own key (w.removeRule m rule).1 ∧ Moves w (w.removeRule m rule).1 (some a) (fun x => (x.removeRule rule).1) ∧
    (w.removeRule m rule).2 = ((w.value m).removeRule rule).2 := by
  have hO := h.models a m hm
  have stay : ∀ {f : Model → Model}, w.value m = f (w.value m) → Moves w w (some a) f :=
    fun e => (Moves.refl w (some a)).of_eq hm e
  unfold removeRule Model.removeRule
  split
  · exact ⟨h, .refl w _, rfl⟩
  · exact ⟨h, .refl w _, rfl⟩
  · rename_i c cs f
    by_cases hp : c = 'p'
    · simp only [if_pos hp]
      cases hk : m.pMap.get (c :: cs) with
      | none =>
        have e : (w.value m).removePolicyRule (c :: cs) f = (w.value m, .err) := by
          unfold Model.removePolicyRule; rw [value_p_none hk]
        refine ⟨h, stay ?_, ?_⟩
        · rw [e]
        · rw [e]
      | some o =>
        obtain ⟨_, _, _, p, ls, ho⟩ := hO.p _ o hk
        have e : (w.value m).removePolicyRule (c :: cs) f = (w.value m).emitPolicy (c :: cs) ls (p.removeRule f).1
            (p.removeRule f).2.1 (p.removeRule f).2.2 := by
          unfold Model.removePolicyRule; rw [value_p hk ho]
        obtain ⟨h1, h2⟩ := emit_apart h hm hk ho (p.removeRule f).1 (p.removeRule f).2.1 (p.removeRule f).2.2
        unfold polRemove
        simp only [ho]
        refine ⟨h1, h2.of_eq hm ?_, ?_⟩
        · simp only [e]
        · rw [e, Model.emitPolicy_obj]
    · simp only [if_neg hp]
      by_cases hg : c = 'g'
      · simp only [if_pos hg]
        cases hk : m.rpMap.get (c :: cs) with
        | none =>
          have e : (w.value m).removeRoleRule (c :: cs) f = (w.value m, .err) := by
            unfold Model.removeRoleRule; rw [value_g_none hk]
          refine ⟨h, stay ?_, ?_⟩
          · rw [e]
          · rw [e]
        | some o =>
          obtain ⟨_, _, _, g, ls, ho⟩ := hO.g _ o hk
          have e : (w.value m).removeRoleRule (c :: cs) f = ({ w.value m with
              rpMap := (w.value m).rpMap.set (c :: cs) ((w.role g ls).removeRule f).1 },
              ((w.role g ls).removeRule f).2) := by
            unfold Model.removeRoleRule; rw [value_g hk ho]
          obtain ⟨h1, h2⟩ := role_apart h hm hk ho (rp' := ((w.role g ls).removeRule f).1)
            (RolePolicy.removeRule_there (w.role g ls) f) (RolePolicy.removeRule_was (w.role g ls) f)
          unfold polRemove
          simp only [ho]
          refine ⟨h1, h2.of_eq hm ?_, ?_⟩
          · simp only [e]
          · rw [e]
      · simp only [if_neg hg]
        exact ⟨h, stay rfl, trivial⟩

theorem clear_apart (h : Apart own key w) {a : Nat} {m : OModel} (hm : w.models[a]? = some m) (k : Str) :
    Apart own key (w.clearPolicy m k).1 ∧ Moves w (w.clearPolicy m k).1 (some a) (fun x => (x.clearPolicy k).1) := by
  have hO := h.models a m hm
  have stay : ∀ {f : Model → Model}, w.value m = f (w.value m) → Moves w w (some a) f :=
    fun e => (Moves.refl w (some a)).of_eq hm e
  unfold clearPolicy OModel.getPolicy
  cases hk : m.pMap.get k with
  | some o =>
    obtain ⟨_, _, _, p, ls, ho⟩ := hO.p _ o hk
    obtain ⟨h1, h2⟩ := emit_apart h hm hk ho p.clear.1 () p.clear.2
    unfold polClear
    simp only [ho]
    refine ⟨h1, h2.of_eq hm ?_⟩
    unfold Model.clearPolicy
    rw [value_p hk ho]
  | none =>
    simp only
    cases hg : m.rpMap.get k with
    | none =>
      refine ⟨h, stay ?_⟩
      unfold Model.clearPolicy
      rw [value_p_none hk, value_g_none hg]
    | some o =>
      obtain ⟨_, _, _, g, ls, ho⟩ := hO.g _ o hg
      obtain ⟨h1, h2⟩ := role_apart h hm hg ho (rp' := (w.role g ls).clear) (.refl _) (.refl _)
      unfold polClear
      simp only [ho]
      refine ⟨h1, h2.of_eq hm ?_⟩
      unfold Model.clearPolicy
      rw [value_p_none hk, value_g hg ho]

/-! ## Matchers -/

theorem matcherPolicyDef_value (w : Realm) (m : OModel) (k : Str) :
    (w.value m).matcherPolicyDef k = m.matcherPolicyDef k := rfl

theorem matcherPolicyDef_key {a : Nat} {m : OModel} (h : OwnModel own key w a m) {k : Str} {d : PolicyDef}
    (hd : m.matcherPolicyDef k = .ok d) : d.key = k := by
  unfold OModel.matcherPolicyDef at hd
  split at hd
  · cases hd
  · split at hd
    · split at hd
      · rename_i d' hd'
        cases hd
        exact h.defs _ _ hd'
      · cases hd
    · split at hd
      · cases hd; rfl
      · cases hd

theorem newMatcher_pDef {d : PolicyDef} {root : Stage} {rules : List Rule} {mt : Matcher}
    (h : newMatcher d root rules = .ok mt) : mt.pDef = d := by
  have step : ∀ (l : List Rule) (x : Res Matcher) (mt : Matcher),
      l.foldl (fun acc r => acc.bind (fun m => m.addRule r)) x = .ok mt → ∃ y, x = .ok y ∧ mt.pDef = y.pDef := by
    intro l
    induction l with
    | nil => intro x mt h; exact ⟨mt, h, rfl⟩
    | cons r l ih =>
      intro x mt h
      obtain ⟨y, h1, h2⟩ := ih _ mt h
      cases x with
      | ok z =>
        have : z.Same y := Matcher.handle_same (e := .added r) h1
        exact ⟨z, rfl, h2.trans this.1⟩
      | err => cases h1
      | panic => cases h1
  obtain ⟨y, h1, h2⟩ := step _ _ _ h
  cases h1
  exact h2

/-- The outcome of building: the new value, and the entry. -/
theorem buildFrom_apart (h : Apart own key w) {a : Nat} {m : OModel} (hm : w.models[a]? = some m) (expr : Str) :
    Apart own key (w.buildFrom build m expr).1 ∧
    Moves w (w.buildFrom build m expr).1 (some a) (fun x => (x.buildFromExpr build expr).1) ∧
    (w.buildFrom build m expr).1.models = w.models ∧
    ((w.value m).buildFromExpr build expr).2 =
      (w.buildFrom build m expr).2.map (fun x => (w.buildFrom build m expr).1.entry m x) ∧
    ∀ x, (w.buildFrom build m expr).2 = .ok x → own x.1 = a ∧ ∃ mt, (w.buildFrom build m expr).1.matcher x = some mt := by
  have hO := h.models a m hm
  have stay : ∀ {f : Model → Model}, w.value m = f (w.value m) → Moves w w (some a) f :=
    fun e => (Moves.refl w (some a)).of_eq hm e
  unfold buildFrom Model.buildFromExpr
  cases hb : build expr with
  | err => exact ⟨h, stay rfl, rfl, rfl, fun x hx => by cases hx⟩
  | panic => exact ⟨h, stay rfl, rfl, rfl, fun x hx => by cases hx⟩
  | ok root =>
    simp only [matcherPolicyDef_value]
    have key_eq := fun d (hd : m.matcherPolicyDef root.policyKey = .ok d) => matcherPolicyDef_key hO hd
    cases hd : m.matcherPolicyDef root.policyKey with
    | err =>
      refine ⟨h, stay ?_, rfl, rfl, fun x hx => by cases hx⟩
      simp only [matcherPolicyDef_value, hd]
    | panic =>
      refine ⟨h, stay ?_, rfl, rfl, fun x hx => by cases hx⟩
      simp only [matcherPolicyDef_value, hd]
    | ok d =>
      have hdk := key_eq d hd
      simp only
      cases hk : m.pMap.get root.policyKey with
      | some o =>
        have hgp : m.getPolicy root.policyKey = some o := by unfold OModel.getPolicy; rw [hk]
        obtain ⟨ho1, ho2, _, p, ls, ho⟩ := hO.p _ o hk
        have hro : w.rulesOf o = p.rules := rulesOf_rules ho rfl
        simp only [hgp, value_p hk ho, listen, ho, hro]
        cases hn : newMatcher d root p.rules with
        | err =>
          refine ⟨h, stay ?_, rfl, rfl, fun x hx => by cases hx⟩
          simp only [matcherPolicyDef_value, hd, value_p hk ho, hn]
        | panic =>
          refine ⟨h, stay ?_, rfl, rfl, fun x hx => by cases hx⟩
          simp only [matcherPolicyDef_value, hd, value_p hk ho, hn]
        | ok mt =>
          have hmt := newMatcher_pDef hn
          simp only
          have hlo := (List.getElem?_eq_some_iff.1 ho).1
          have hmat : (w.setPol o ⟨.rules p, ls ++ [mt]⟩).matcher (o, ls.length) = some mt := by
            unfold matcher setPol
            simp [List.getElem?_set_self hlo]
          refine ⟨h.setObj (ob' := ⟨.rules p, ls ++ [mt]⟩) ho ⟨.refl _, .append _ _⟩ ?_ rfl rfl rfl, ?_, rfl, ?_, ?_⟩
          · intro x hx
            rcases List.mem_append.1 hx with hx | hx
            · exact h.ls o _ ho x hx
            · rw [List.mem_singleton] at hx
              rw [hx, hmt, hdk, ho2]
          · refine (Moves.setPol h hm hk ho p (StillThere.append ls mt)).of_eq hm ?_
            simp only [matcherPolicyDef_value, hd, value_p hk ho, hn]
          · unfold entry
            simp only [Res.map_ok, hmat]
            rw [hmt, hdk, if_pos hgp]
          · intro x hx
            cases hx
            exact ⟨ho1, mt, hmat⟩
      | none =>
        have hgp : m.getPolicy root.policyKey = m.rpMap.get root.policyKey := by unfold OModel.getPolicy; rw [hk]
        simp only [value_p_none hk]
        cases hg : m.rpMap.get root.policyKey with
        | none =>
          rw [hg] at hgp
          simp only [hgp, value_g_none hg]
          refine ⟨h, stay ?_, trivial, rfl, fun x hx => by cases hx⟩
          simp only [matcherPolicyDef_value, hd, value_p_none hk, value_g_none hg]
        | some o =>
          rw [hg] at hgp
          obtain ⟨ho1, ho2, _, g, ls, ho⟩ := hO.g _ o hg
          have hro : w.rulesOf o = (w.role g ls).rules := by
            unfold rulesOf
            rw [ho]
            rfl
          simp only [hgp, value_g hg ho, listen, ho, hro]
          cases hn : newMatcher d root (w.role g ls).rules with
          | err =>
            refine ⟨h, stay ?_, rfl, rfl, fun x hx => by cases hx⟩
            simp only [matcherPolicyDef_value, hd, value_p_none hk, value_g hg ho, hn]
          | panic =>
            refine ⟨h, stay ?_, rfl, rfl, fun x hx => by cases hx⟩
            simp only [matcherPolicyDef_value, hd, value_p_none hk, value_g hg ho, hn]
          | ok mt =>
            have hmt := newMatcher_pDef hn
            simp only
            have hlo := (List.getElem?_eq_some_iff.1 ho).1
            have hlg := h.lt o g ls ho
            have hmat : (w.setPol o ⟨.links g, ls ++ [mt]⟩).matcher (o, ls.length) = some mt := by
              unfold matcher setPol
              simp [List.getElem?_set_self hlo]
            have hsame : w.setRole o g ⟨(w.role g ls).mgr, ls ++ [mt]⟩ = w.setPol o ⟨.links g, ls ++ [mt]⟩ := by
              unfold setRole setPol role
              simp only [List.getElem?_eq_getElem hlg, Option.getD_some, List.set_getElem_self]
            refine ⟨h.setObj (ob' := ⟨.links g, ls ++ [mt]⟩) ho ⟨.refl _, .append _ _⟩ ?_ rfl rfl rfl, ?_, rfl, ?_, ?_⟩
            · intro x hx
              rcases List.mem_append.1 hx with hx | hx
              · exact h.ls o _ ho x hx
              · rw [List.mem_singleton] at hx
                rw [hx, hmt, hdk, ho2]
            · have := Moves.setRole h hm hg ho (rp' := ⟨(w.role g ls).mgr, ls ++ [mt]⟩) (StillThere.append ls mt)
              rw [hsame] at this
              refine this.of_eq hm ?_
              simp only [matcherPolicyDef_value, hd, value_p_none hk, value_g hg ho, hn]
              rfl
            · unfold entry
              simp only [Res.map_ok, hmat]
              rw [hmt, hdk, if_pos hgp]
              rfl
            · intro x hx
              cases hx
              exact ⟨ho1, mt, hmat⟩

end Realm

theorem Model.buildMatcher_obj (build : Str → Res Stage) (m : Model) (key : Str) : (m.buildMatcher build key).1 =
    match m.mDefs.get key with
    | none => m
    | some expr =>
      match (m.buildFromExpr build expr).2 with
      | .ok x => { (m.buildFromExpr build expr).1 with mMap := (m.buildFromExpr build expr).1.mMap.set key x }
      | _ => (m.buildFromExpr build expr).1 := by
  unfold Model.buildMatcher Model.buildFromExpr
  repeat' split
  all_goals first | rfl | (simp_all; done) | skip

end Fastac
