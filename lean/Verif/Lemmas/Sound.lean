import Verif.Lemmas.Context

/-!
# Stored matchers always exist
-/

namespace Fastac

theorem notify_length (e : PolEvent) : ∀ (ls ls' : List Matcher), notify ls e = .ok ls' →
    ls'.length = ls.length
  | [], ls', h => by
    simp only [notify, Res.ok.injEq] at h
    rw [← h]
  | mt :: ls, ls', h => by
    simp only [notify] at h
    cases h1 : mt.handle e with
    | err => rw [h1] at h; cases h
    | panic => rw [h1] at h; cases h
    | ok mt' =>
      rw [h1] at h
      simp only [Res.bind_ok] at h
      cases h2 : notify ls e with
      | err => rw [h2] at h; cases h
      | panic => rw [h2] at h; cases h
      | ok l =>
        rw [h2] at h
        simp only [Res.map_ok, Res.ok.injEq] at h
        rw [← h]
        simp [notify_length e ls l h2]

namespace Model

/-- The entry after its policy object has been replaced. -/
def frozen (m : Model) (key : Str) : MEntry → MEntry
  | .live k i =>
    if k = key then
      match m.resolve (.live k i) with
      | some x => .frozen x
      | none => .live k i
    else .live k i
  | .frozen x => .frozen x

theorem get_map_snd {V W : Type} (f : V → W) (k : Str) : ∀ l : GoMap Str V,
    GoMap.get (l.map (fun e => (e.1, f e.2))) k = (GoMap.get l k).map f
  | [] => rfl
  | (k', v) :: l => by
    simp only [List.map_cons, GoMap.get]
    split
    · rfl
    · exact get_map_snd f k l

theorem get_freeze (m : Model) (key k : Str) :
    (m.freeze key).get k = (m.mMap.get k).map (m.frozen key) := by
  rw [← get_map_snd]
  unfold freeze
  congr 1
  apply List.map_congr_left
  rintro ⟨k', x⟩ _
  cases x with
  | frozen y => rfl
  | live k'' i =>
    simp only [frozen]
    split
    · cases m.resolve (.live k'' i) <;> rfl
    · rfl

theorem resolve_live_iff (m : Model) (k : Str) (i : Nat) : (∃ mt, m.resolve (.live k i) = some mt) ↔
    (∃ p, m.pMap.get k = some p ∧ i < p.listeners.length) ∨
      (m.pMap.get k = none ∧ ∃ rp, m.rpMap.get k = some rp ∧ i < rp.listeners.length) := by
  unfold resolve
  simp only
  cases m.pMap.get k with
  | some p => simp [← Option.isSome_iff_exists]
  | none =>
    cases m.rpMap.get k with
    | some rp => simp [← Option.isSome_iff_exists]
    | none => simp

theorem Sound.setP {m : Model} (h : m.Sound) {k : Str} {p p' : PolObj} (hg : m.pMap.get k = some p)
    (hl : p.listeners.length ≤ p'.listeners.length) : Sound { m with pMap := m.pMap.set k p' } := by
  intro k' x hx
  obtain ⟨mt, hmt⟩ := h k' x hx
  cases x with
  | frozen y => exact ⟨y, rfl⟩
  | live k'' i =>
    rw [resolve_live_iff]
    simp only [GoMap.get_set]
    rcases (resolve_live_iff m k'' i).1 ⟨mt, hmt⟩ with ⟨q, h1, h2⟩ | ⟨h1, h2⟩
    · by_cases hk : k = k''
      · subst hk
        rw [hg] at h1; cases h1
        exact Or.inl ⟨p', by rw [if_pos rfl], by omega⟩
      · exact Or.inl ⟨q, by rw [if_neg hk]; exact h1, h2⟩
    · by_cases hk : k = k''
      · subst hk; rw [hg] at h1; cases h1
      · exact Or.inr ⟨by rw [if_neg hk]; exact h1, h2⟩

theorem Sound.setG {m : Model} (h : m.Sound) {k : Str} {p p' : RolePolicy} (hg : m.rpMap.get k = some p)
    (hl : p.listeners.length ≤ p'.listeners.length) : Sound { m with rpMap := m.rpMap.set k p' } := by
  intro k' x hx
  obtain ⟨mt, hmt⟩ := h k' x hx
  cases x with
  | frozen y => exact ⟨y, rfl⟩
  | live k'' i =>
    rw [resolve_live_iff]
    simp only [GoMap.get_set]
    rcases (resolve_live_iff m k'' i).1 ⟨mt, hmt⟩ with ⟨q, h1, h2⟩ | ⟨h0, q, h1, h2⟩
    · exact Or.inl ⟨q, h1, h2⟩
    · by_cases hk : k = k''
      · subst hk
        rw [hg] at h1; cases h1
        exact Or.inr ⟨h0, p', by rw [if_pos rfl], by omega⟩
      · exact Or.inr ⟨h0, q, by rw [if_neg hk]; exact h1, h2⟩

/-- Same stored matchers, and the entries exist. -/
theorem Sound.of_mMap {m m' : Model} (h : m.Sound) (h1 : m'.mMap = m.mMap) (h2 : m'.pMap = m.pMap)
    (h3 : m'.rpMap = m.rpMap) : m'.Sound := by
  intro k x hx
  rw [h1] at hx
  obtain ⟨mt, hmt⟩ := h k x hx
  refine ⟨mt, ?_⟩
  unfold resolve at hmt ⊢
  rw [h2, h3]
  exact hmt

theorem Sound.emitPolicy {α : Type} {m : Model} (h : m.Sound) {k : Str} {p : PolObj}
    (hg : m.pMap.get k = some p) (pol : Policy) (a : α) (e : Option PolEvent) :
    (m.emitPolicy k p.listeners pol a e).1.Sound := by
  unfold Model.emitPolicy
  cases e with
  | none => exact h.setP hg (Nat.le_refl _)
  | some e =>
    simp only
    cases hn : notify p.listeners e with
    | ok ls' => exact h.setP hg (by simp [notify_length _ _ _ hn])
    | err => exact h.setP hg (Nat.le_refl _)
    | panic => exact h.setP hg (Nat.le_refl _)

theorem emit_length (rp : RolePolicy) (mgr : Mgr) (e : PolEvent) :
    (rp.emit mgr e).1.listeners.length = rp.listeners.length := by
  unfold RolePolicy.emit
  cases hn : notify rp.listeners e with
  | ok ls' => exact notify_length _ _ _ hn
  | err => rfl
  | panic => rfl

theorem roleAdd_length (rp : RolePolicy) (r : Rule) :
    (rp.addRule r).1.listeners.length = rp.listeners.length := by
  unfold RolePolicy.addRule
  split
  · split
    · exact emit_length _ _ _
    · rfl
    · rfl
    · rfl
  · rfl

theorem roleRemove_length (rp : RolePolicy) (r : Rule) :
    (rp.removeRule r).1.listeners.length = rp.listeners.length := by
  unfold RolePolicy.removeRule
  split
  · split
    · exact emit_length _ _ _
    · rfl
    · rfl
    · rfl
  · rfl

theorem Sound.add {m : Model} (h : m.Sound) (rule : Rule) : (m.addRule rule).1.Sound := by
  unfold Model.addRule
  split
  · exact h
  · exact h
  · simp only
    split
    · unfold addPolicyRule
      split
      · exact h
      · rename_i p hg
        exact h.emitPolicy hg _ _ _
    · split
      · unfold addRoleRule
        split
        · exact h
        · rename_i rp hg
          exact h.setG hg (by rw [roleAdd_length]; exact Nat.le_refl _)
      · exact h

theorem Sound.remove {m : Model} (h : m.Sound) (rule : Rule) : (m.removeRule rule).1.Sound := by
  unfold Model.removeRule
  split
  · exact h
  · exact h
  · simp only
    split
    · unfold removePolicyRule
      split
      · exact h
      · rename_i p hg
        exact h.emitPolicy hg _ _ _
    · split
      · unfold removeRoleRule
        split
        · exact h
        · rename_i rp hg
          exact h.setG hg (by rw [roleRemove_length]; exact Nat.le_refl _)
      · exact h

theorem Sound.clear {m : Model} (h : m.Sound) (k : Str) : (m.clearPolicy k).1.Sound := by
  unfold Model.clearPolicy
  split
  · rename_i p hg
    exact h.emitPolicy hg _ _ _
  · split
    · rename_i rp hg
      exact h.setG hg (Nat.le_refl _)
    · exact h

/-- Replacing or dropping policy objects after freezing the matchers that listen to them. -/
theorem Sound.freeze {m m' : Model} (h : m.Sound) (key : Str) (hm : m'.mMap = m.freeze key)
    (hp : ∀ k, k ≠ key → m'.pMap.get k = m.pMap.get k)
    (hr : ∀ k, k ≠ key → m'.rpMap.get k = m.rpMap.get k) : m'.Sound := by
  intro k x hx
  rw [hm, get_freeze] at hx
  obtain ⟨y, hy, rfl⟩ := Option.map_eq_some_iff.1 hx
  obtain ⟨mt, hmt⟩ := h k y hy
  cases y with
  | frozen z => exact ⟨z, rfl⟩
  | live k' i =>
    unfold frozen
    by_cases hk : k' = key
    · simp only [hk, if_true]
      rw [hk] at hmt
      rw [hmt]
      exact ⟨mt, rfl⟩
    · simp only [hk, if_false]
      refine ⟨mt, ?_⟩
      unfold resolve at hmt ⊢
      simp only at hmt ⊢
      rw [hp _ hk, hr _ hk]
      exact hmt

/-- Dropping a policy that does not exist changes nothing. -/
theorem Sound.frozenIf {m m' : Model} (h : m.Sound) (key : Str) {b : Bool}
    (hm : m'.mMap = if b = true then m.freeze key else m.mMap)
    (hp : ∀ k, (b = true → k ≠ key) → m'.pMap.get k = m.pMap.get k)
    (hr : ∀ k, (b = true → k ≠ key) → m'.rpMap.get k = m.rpMap.get k) : m'.Sound := by
  cases b with
  | true => exact h.freeze key hm (fun k hk => hp k (fun _ => hk)) (fun k hk => hr k (fun _ => hk))
  | false =>
    intro k x hx
    rw [hm] at hx
    obtain ⟨mt, e⟩ := h k x hx
    refine ⟨mt, ?_⟩
    cases x with
    | frozen _ => exact e
    | live k' i =>
      unfold resolve at e ⊢
      simp only at e ⊢
      rw [hp k' (by simp), hr k' (by simp)]
      exact e

theorem _root_.Fastac.GoMap.get_del_has {K V : Type} [DecidableEq K] (m : GoMap K V) (key k : K)
    (h : m.has key = true → k ≠ key) : (m.del key).get k = m.get k := by
  rw [GoMap.get_del]
  split
  · rename_i e
    subst e
    cases hh : m.get key with
    | none => rfl
    | some v => exact absurd rfl (h (by rw [GoMap.has, hh]; rfl))
  · rfl

theorem Sound.setDef {m : Model} (h : m.Sound) (sec : Char) (key value : Str) :
    (m.setDef sec key value).1.Sound := by
  unfold Model.setDef
  split
  · exact h
  · split
    · exact h
    · split
      · exact h
      · split
        · exact h.of_mMap rfl rfl rfl
        · split
          · exact h.freeze _ rfl (fun k hk => GoMap.get_set_ne _ _ hk) (fun _ _ => rfl)
          · split
            · exact h.freeze _ rfl (fun _ _ => rfl) (fun k hk => GoMap.get_set_ne _ _ hk)
            · split
              · exact h.of_mMap rfl rfl rfl
              · exact h.of_mMap rfl rfl rfl

theorem Sound.removeDef {m : Model} (h : m.Sound) (sec : Char) (key : Str) :
    (m.removeDef sec key).1.Sound := by
  unfold Model.removeDef
  split
  · exact h.of_mMap rfl rfl rfl
  · split
    · exact h.frozenIf key rfl (fun k hk => GoMap.get_del_has _ _ _ hk) (fun _ _ => rfl)
    · split
      · exact h.frozenIf key rfl (fun _ _ => rfl) (fun k hk => GoMap.get_del_has _ _ _ hk)
      · split
        · exact h.of_mMap rfl rfl rfl
        · split
          · intro k x hx
            simp only [GoMap.get_del] at hx
            split at hx
            · cases hx
            · exact h k x hx
          · exact h

theorem Sound.extends {m m' : Model} (h : m.Sound) (he : m.Extends m') : m'.Sound := by
  intro k x hx
  rw [he.mMap] at hx
  obtain ⟨mt, hmt⟩ := h k x hx
  exact ⟨mt, he.resolve hmt⟩

/-- `BuildMatcher` is building from the stored expression and storing the result. -/
theorem buildMatcher_eq (build : Str → Res Stage) (m : Model) (key : Str) :
    m.buildMatcher build key = match m.mDefs.get key with
      | none => (m, .err)
      | some e =>
        match m.buildFromExpr build e with
        | (m', .ok x) => ({ m' with mMap := m'.mMap.set key x }, .ok ())
        | (m', .err) => (m', .err)
        | (m', .panic) => (m', .panic) := by
  unfold buildMatcher buildFromExpr
  cases m.mDefs.get key with
  | none => rfl
  | some e =>
    simp only
    cases build e with
    | err => rfl
    | panic => rfl
    | ok root =>
      simp only
      cases m.matcherPolicyDef root.policyKey with
      | err => rfl
      | panic => rfl
      | ok pDef =>
        simp only
        cases m.pMap.get root.policyKey with
        | some p =>
          simp only
          cases newMatcher pDef root p.policy.rules <;> rfl
        | none =>
          simp only
          cases m.rpMap.get root.policyKey with
          | none => rfl
          | some rp =>
            simp only
            cases newMatcher pDef root rp.rules <;> rfl

theorem Sound.buildMatcher {m : Model} (h : m.Sound) (build : Str → Res Stage) (key : Str) :
    (m.buildMatcher build key).1.Sound := by
  rw [buildMatcher_eq]
  cases m.mDefs.get key with
  | none => exact h
  | some e =>
    simp only
    obtain ⟨h1, h2⟩ := buildFromExpr_spec build m e
    obtain ⟨⟨m', r⟩, hr⟩ : ∃ y, m.buildFromExpr build e = y := ⟨_, rfl⟩
    rw [hr] at h1 h2 ⊢
    cases r with
    | err => exact h.extends h1
    | panic => exact h.extends h1
    | ok x =>
      obtain ⟨mt, _, hx⟩ := h2
      intro k y hy
      simp only [GoMap.get_set] at hy
      split at hy
      · cases hy
        exact ⟨mt, hx⟩
      · exact h.extends h1 k y hy

theorem Made.sound {build : Str → Res Stage} {m : Model} (h : Made build m) : m.Sound := by
  induction h with
  | new => intro k x hx; simp [Model.new] at hx
  | setDef _ sec key value ih => exact ih.setDef sec key value
  | removeDef _ sec key ih => exact ih.removeDef sec key
  | build _ key ih => exact ih.buildMatcher _ key
  | inline _ expr ih => exact ih.extends (buildFromExpr_spec _ _ expr).1
  | add _ rule _ ih => exact ih.add rule
  | remove _ rule _ ih => exact ih.remove rule
  | clear _ key ih => exact ih.clear key

end Model

end Fastac
