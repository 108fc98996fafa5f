import Verif.Lemmas.Getters

/-!
# What the getters of a model report (C110)
-/

namespace Fastac

/-- **C110.** After any calls of a new model, `GetDef`, `GetMatcher` and `GetEffector` find under every key what the last
call about that key left there, and report that there is nothing if that call took it away or if there was none.  There
is exactly one last word, so this says what they return. -/
theorem c110_getters (h : List ShelfCall) (key : Str) :
    (∀ sec d, (Shelf.after h).getDef sec key = d ↔ LastWord (defWord sec key) h d) ∧
    (∀ x, (Shelf.after h).getMatcher key = x ↔ LastWord (matcherWord key) h x) ∧
    (∀ x, (Shelf.after h).getEffector key = x ↔ LastWord (effectorWord key) h x) :=
  ⟨fun sec _ => ⟨fun e => e ▸ lastWord_def sec key h, lastWord_unique (lastWord_def sec key h)⟩,
    fun _ => ⟨fun e => e ▸ lastWord_matcher key h, lastWord_unique (lastWord_matcher key h)⟩,
    fun _ => ⟨fun e => e ▸ lastWord_effector key h, lastWord_unique (lastWord_effector key h)⟩⟩

/-- **C110.** `GetPolicy` returns what was last put under the key as a policy (`SetDef`, `SetPolicy`); if there is none, the role
policy that was last put there (`SetDef`, `SetRoleManager`).  If there is neither, the flag is
false and the interface value holds a nil pointer. -/
theorem c110_policy (h : List ShelfCall) (key : Str) :
    (∀ x, (Shelf.after h).getPolicy key = (.plain x, true) ↔ LastWord (plainWord key) h (some x)) ∧
    (∀ p, (Shelf.after h).getPolicy key = (.role (some p), true) ↔
      LastWord (plainWord key) h none ∧ ∃ rp, LastWord (roleWord key) h (some rp) ∧ rp.ptr = p) ∧
    ((Shelf.after h).getPolicy key = (.role none, false) ↔
      LastWord (plainWord key) h none ∧ LastWord (roleWord key) h none) ∧
    ((∃ x, (Shelf.after h).getPolicy key = (.plain x, true)) ∨ (∃ p, (Shelf.after h).getPolicy key = (.role (some p), true)) ∨
      (Shelf.after h).getPolicy key = (.role none, false)) := by
  have lp := lastWord_plain key h
  have lr := lastWord_role key h
  generalize Shelf.after h = s at lp lr ⊢
  unfold Shelf.getPolicy
  cases hp : s.pMap.get key with
  | some y =>
    rw [hp] at lp
    refine ⟨fun x => ?_, fun p => ?_, ?_, ?_⟩
    · constructor
      · intro e; cases e; exact lp
      · intro l; cases lastWord_unique lp l; rfl
    · constructor
      · intro e; cases e
      · rintro ⟨l, _⟩; cases lastWord_unique lp l
    · constructor
      · intro e; cases e
      · rintro ⟨l, _⟩; cases lastWord_unique lp l
    · exact .inl ⟨y, rfl⟩
  | none =>
    rw [hp] at lp
    refine ⟨fun x => ?_, fun p => ?_, ?_, ?_⟩
    · constructor
      · intro e; cases e
      · intro l; cases lastWord_unique lp l
    · cases hr : s.rpMap.get key with
      | none =>
        rw [hr] at lr
        constructor
        · intro e; cases e
        · rintro ⟨_, rp, l, _⟩; cases lastWord_unique lr l
      | some rp =>
        rw [hr] at lr
        constructor
        · intro e
          have e1 := congrArg Prod.fst e
          exact ⟨lp, rp, lr, Option.some.inj (PolicyFace.role.inj e1)⟩
        · rintro ⟨_, rp', l, e⟩
          cases lastWord_unique lr l
          rw [← e]; rfl
    · cases hr : s.rpMap.get key with
      | none => rw [hr] at lr; exact ⟨fun _ => ⟨lp, lr⟩, fun _ => rfl⟩
      | some rp =>
        rw [hr] at lr
        constructor
        · intro e; cases e
        · rintro ⟨_, l⟩; cases lastWord_unique lr l
    · cases hr : s.rpMap.get key with
      | none => exact .inr (.inr rfl)
      | some rp => exact .inr (.inl ⟨rp.ptr, rfl⟩)

/-- **C110, the part that holds of `GetRoleManager` and `GetRequestDef`.** If the last call about the key put a role manager, or a
request definition, there, it is returned.  Otherwise (what is missing) these two getters always panic. -/
theorem c110_known_partial (h : List ShelfCall) (key : Str) :
    (∀ g ok, (Shelf.after h).getRoleManager key = .ok (g, ok) ↔
      ok = true ∧ ∃ rp, LastWord (roleWord key) h (some rp) ∧ rp.mgr = g) ∧
    (∀ d ok, (Shelf.after h).getRequestDef key = .ok (d, ok) ↔
      ok = true ∧ ∃ t, LastWord (defWord 'r' key) h (some ⟨d, t⟩)) ∧
    ((Shelf.after h).getRoleManager key = .panic ↔ LastWord (roleWord key) h none) ∧
    ((Shelf.after h).getRequestDef key = .panic ↔ LastWord (defWord 'r' key) h none) := by
  have lr := lastWord_role key h
  have ld := lastWord_def 'r' key h
  generalize Shelf.after h = s at lr ld ⊢
  unfold Shelf.getRoleManager Shelf.getRequestDef
  unfold Shelf.getDef at ld
  refine ⟨fun g ok => ?_, fun d ok => ?_, ?_, ?_⟩
  · cases hr : s.rpMap.get key with
    | none =>
      rw [hr] at lr
      constructor
      · intro e; cases e
      · rintro ⟨_, rp, l, _⟩; cases lastWord_unique lr l
    | some rp =>
      rw [hr] at lr
      constructor
      · intro e; cases e; exact ⟨rfl, rp, lr, rfl⟩
      · rintro ⟨e, rp', l, e'⟩
        cases lastWord_unique lr l
        rw [e, ← e']
  · cases hr : s.defs.get ('r', key) with
    | none =>
      rw [hr] at ld
      constructor
      · intro e; cases e
      · rintro ⟨_, rp, l⟩; cases lastWord_unique ld l
    | some x =>
      rw [hr] at ld
      constructor
      · intro e; cases e; exact ⟨rfl, x.text, ld⟩
      · rintro ⟨e, t, l⟩
        cases lastWord_unique ld l
        rw [e]
  · cases hr : s.rpMap.get key with
    | none => rw [hr] at lr; exact ⟨fun _ => lr, fun _ => rfl⟩
    | some rp =>
      rw [hr] at lr
      constructor
      · intro e; cases e
      · intro l; cases lastWord_unique lr l
  · cases hr : s.defs.get ('r', key) with
    | none => rw [hr] at ld; exact ⟨fun _ => ld, fun _ => rfl⟩
    | some rp =>
      rw [hr] at ld
      constructor
      · intro e; cases e
      · intro l; cases lastWord_unique ld l

/-- **C110, definitions and objects, partial.** As long as the caller hands over no objects (`SetPolicy`, `SetRoleManager`, …),
definitions and objects come together: where `GetDef` finds a policy definition, role definition or effect definition, the other getters
find the policy, role manager or effector that the same call made; and where `GetPolicy` or `GetEffector` or `GetMatcher` finds something
there is a definition.  With handed over objects this is false (`c110_apart_fails`). -/
theorem c110_together_partial (h : List ShelfCall) (hh : ∀ c ∈ h, c.ByText) (key : Str) :
    (∀ d, (Shelf.after h).getDef 'p' key = some d → (Shelf.after h).getPolicy key = (.plain d.ptr, true)) ∧
    (∀ d, (Shelf.after h).getDef 'g' key = some d → ∃ n, d.ptr = .made n ∧
      (Shelf.after h).getPolicy key = (.role (some n), true) ∧ ∃ g, (Shelf.after h).getRoleManager key = .ok (g, true)) ∧
    (Shelf.after h).getEffector key = ((Shelf.after h).getDef 'e' key).map DefThing.ptr ∧
    (((Shelf.after h).getPolicy key).2 = true →
      ((Shelf.after h).getDef 'p' key).isSome ∨ ((Shelf.after h).getDef 'g' key).isSome) ∧
    (((Shelf.after h).getMatcher key).isSome → ((Shelf.after h).getDef 'm' key).isSome) := by
  have t := shelfTogether hh
  generalize Shelf.after h = s at t ⊢
  refine ⟨?_, ?_, ?_, ?_, t.mat key⟩
  · intro d hd
    have e := t.pol key
    rw [show s.defs.get ('p', key) = some d from hd] at e
    unfold Shelf.getPolicy
    rw [← e]
    rfl
  · intro d hd
    have e := t.role key
    rw [show s.defs.get ('g', key) = some d from hd] at e
    have hg := t.first 'g' key (by rw [show s.defs.get ('g', key) = some d from hd]; rfl)
    have hp : s.pMap.get key = none := by
      rw [← t.pol key]
      cases hq : s.defs.get ('p', key) with
      | none => rfl
      | some x =>
        have := t.first 'p' key (by rw [hq]; rfl)
        have e := hg.2.symm.trans this.2
        exact absurd e (by decide)
    cases hr : s.rpMap.get key with
    | none => rw [hr] at e; cases e
    | some rp =>
      rw [hr] at e
      refine ⟨rp.ptr, Option.some.inj e, ?_, rp.mgr, ?_⟩
      · unfold Shelf.getPolicy
        rw [hp, hr]
        rfl
      · unfold Shelf.getRoleManager
        rw [hr]
  · exact (t.eff key).symm
  · intro hk
    rw [getPolicy_ok, ← t.pol key] at hk
    rcases hk with e | e
    · left
      show (s.defs.get ('p', key)).isSome
      cases hq : s.defs.get ('p', key) with
      | none => rw [hq] at e; cases e
      | some x => rfl
    · right
      show (s.defs.get ('g', key)).isSome
      cases hq : s.defs.get ('g', key) with
      | none =>
        have e2 := t.role key
        rw [hq] at e2
        cases hr : s.rpMap.get key with
        | none => rw [hr] at e; cases e
        | some rp => rw [hr] at e2; cases e2
      | some x => rfl

/-- **C110.** A call about one key changes no answer for another key. -/
theorem c110_other_keys (h : List ShelfCall) (c : ShelfCall) (key : Str) (hk : c.key ≠ key) :
    (∀ sec, (Shelf.after (h ++ [c])).getDef sec key = (Shelf.after h).getDef sec key) ∧
    (Shelf.after (h ++ [c])).getPolicy key = (Shelf.after h).getPolicy key ∧
    (Shelf.after (h ++ [c])).getRoleManager key = (Shelf.after h).getRoleManager key ∧
    (Shelf.after (h ++ [c])).getMatcher key = (Shelf.after h).getMatcher key ∧
    (Shelf.after (h ++ [c])).getRequestDef key = (Shelf.after h).getRequestDef key ∧
    (Shelf.after (h ++ [c])).getEffector key = (Shelf.after h).getEffector key := by
  have same : ∀ {α : Type} {word : List ShelfCall → ShelfCall → Option (Option α)} {r r' : Option α},
      LastWord word h r → LastWord word (h ++ [c]) r' → word h c = none → r' = r := by
    intro α word r r' l l' w
    have := lastWord_snoc (c := c) l
    rw [w] at this
    exact lastWord_unique l' this
  have hd : ∀ sec, (Shelf.after (h ++ [c])).getDef sec key = (Shelf.after h).getDef sec key := by
    intro sec
    refine same (lastWord_def sec key h) (lastWord_def sec key _) ?_
    cases c <;> simp only [ShelfCall.key, ne_eq] at hk <;> simp [defWord, hk]
  have hp : (Shelf.after (h ++ [c])).pMap.get key = (Shelf.after h).pMap.get key := by
    refine same (lastWord_plain key h) (lastWord_plain key _) ?_
    cases c <;> simp only [ShelfCall.key, ne_eq] at hk <;> simp [plainWord, hk]
  have hr : (Shelf.after (h ++ [c])).rpMap.get key = (Shelf.after h).rpMap.get key := by
    refine same (lastWord_role key h) (lastWord_role key _) ?_
    cases c <;> simp only [ShelfCall.key, ne_eq] at hk <;> simp [roleWord, hk]
  refine ⟨hd, ?_, ?_, ?_, ?_, ?_⟩
  · unfold Shelf.getPolicy; rw [hp, hr]
  · unfold Shelf.getRoleManager; rw [hr]
  · refine same (lastWord_matcher key h) (lastWord_matcher key _) ?_
    cases c <;> simp only [ShelfCall.key, ne_eq] at hk <;> simp [matcherWord, hk]
  · have := hd 'r'
    unfold Shelf.getDef at this
    unfold Shelf.getRequestDef
    rw [this]
  · refine same (lastWord_effector key h) (lastWord_effector key _) ?_
    cases c <;> simp only [ShelfCall.key, ne_eq] at hk <;> simp [effectorWord, hk]

/-! ## Concrete cases -/

namespace GettersExample

/-- A model as `LoadModel` makes it, with one role definition with domains. -/
def loaded : List ShelfCall :=
  [.setDef 'r' (s% "r") (s% "sub, obj"), .setDef 'p' (s% "p") (s% "sub, obj"), .setDef 'g' (s% "g") (s% "_, _, _"),
   .setDef 'e' (s% "e") (s% "some(where (p.eft == allow))"), .setDef 'm' (s% "m") (s% "g(r.sub, p.sub)"),
   .buildMatcher (s% "m") (some (s% "p"))]

/-- The calls of `loaded` hand nothing over. -/
example : ∀ c ∈ loaded, c.ByText := by
  intro c hc
  simp only [loaded, List.mem_cons, List.not_mem_nil, or_false] at hc
  rcases hc with rfl | rfl | rfl | rfl | rfl | rfl <;> trivial

/-- Everything is found after loading. -/
example : (Shelf.after loaded).getDef 'p' (s% "p") = some ⟨.made 1, some (s% "p", s% "sub, obj")⟩ ∧
    (Shelf.after loaded).getPolicy (s% "p") = (.plain (.made 1), true) ∧
    (Shelf.after loaded).getPolicy (s% "g") = (.role (some 2), true) ∧
    (Shelf.after loaded).getRoleManager (s% "g") = .ok (⟨.made 2, some true⟩, true) ∧
    (Shelf.after loaded).getEffector (s% "e") = some (.made 3) ∧
    (Shelf.after loaded).getMatcher (s% "m") = some (.made 5) ∧
    (Shelf.after loaded).getRequestDef (s% "r") = .ok (.made 0, true) := by decide

/-- A role definition with two arguments has a manager without domains, one with three a domain manager. -/
example : (Shelf.after [.setDef 'g' (s% "g") (s% "_, _, _")]).getRoleManager (s% "g") = .ok (⟨.made 0, some true⟩, true) ∧
    (Shelf.after [.setDef 'g' (s% "g") (s% "_, _")]).getRoleManager (s% "g") = .ok (⟨.made 0, some false⟩, true) := by decide

/-- `SetDef` with a key of another section is refused; `RemoveDef` takes the definition and the object away. -/
example : (Shelf.after [.setDef 'p' (s% "q") (s% "sub")]).getPolicy (s% "q") = (.role none, false) ∧
    (Shelf.after [.setDef 'x' (s% "x") (s% "sub")]).getDef 'x' (s% "x") = none ∧
    (Shelf.after (loaded ++ [.removeDef 'e' (s% "e")])).getEffector (s% "e") = none ∧
    (Shelf.after (loaded ++ [.removeDef 'm' (s% "m")])).getMatcher (s% "m") = none ∧
    (Shelf.after (loaded ++ [.removeDef 'p' (s% "p")])).getPolicy (s% "p") = (.role none, false) ∧
    (Shelf.after (loaded ++ [.removeDef 'r' (s% "p")])).getPolicy (s% "p") = (.plain (.made 1), true) := by decide

/-- Handing over objects; a policy under the key of a role policy hides it from `GetPolicy`, not from `GetRoleManager`. -/
example : (Shelf.after (loaded ++ [.setPolicy (s% "g") (.given 7)])).getPolicy (s% "g") = (.plain (.given 7), true) ∧
    (Shelf.after (loaded ++ [.setPolicy (s% "g") (.given 7)])).getRoleManager (s% "g") = .ok (⟨.made 2, some true⟩, true) ∧
    (Shelf.after (loaded ++ [.setRoleManager (s% "g") (.given 8)])).getRoleManager (s% "g") = .ok (⟨.given 8, none⟩, true) ∧
    (Shelf.after (loaded ++ [.setRoleManager (s% "g") (.given 8)])).getPolicy (s% "g") = (.role (some 6), true) ∧
    (Shelf.after (loaded ++ [.setEffector (s% "e2") (.given 9)])).getEffector (s% "e2") = some (.given 9) ∧
    (Shelf.after (loaded ++ [.setRequestDef (s% "r") (.given 3)])).getRequestDef (s% "r") = .ok (.given 3, true) ∧
    (Shelf.after (loaded ++ [.setRequestDef (s% "r") .nil])).getRequestDef (s% "r") = .ok (.nil, true) ∧
    (Shelf.after (loaded ++ [.setMatcher (s% "m") (.given 4)])).getMatcher (s% "m") = some (.given 4) := by decide

/-- A new definition of a matcher leaves the matcher built from the old one in place, and so does a build that fails: for want of
the policy, of the definition of the policy, or of an expression that compiles. -/
example : (Shelf.after (loaded ++ [.setDef 'm' (s% "m") (s% "p.sub == r.sub")])).getMatcher (s% "m") = some (.made 5) ∧
    (Shelf.after (loaded ++ [.buildMatcher (s% "m") none])).getMatcher (s% "m") = some (.made 5) ∧
    (Shelf.after (loaded ++ [.removeDef 'p' (s% "p"), .buildMatcher (s% "m") (some (s% "p"))])).getMatcher (s% "m") =
      some (.made 5) ∧
    (Shelf.after (loaded ++ [.removeDef 'p' (s% "p"), .setPolicy (s% "p") (.given 1),
      .buildMatcher (s% "m") (some (s% "p"))])).getMatcher (s% "m") = some (.made 5) ∧
    (Shelf.after (loaded ++ [.buildMatcher (s% "m") (some (s% "p"))])).getMatcher (s% "m") = some (.made 6) ∧
    (Shelf.after (loaded ++ [.buildMatcher (s% "m2") (some (s% "p"))])).getMatcher (s% "m2") = none ∧
    (Shelf.after (loaded ++ [.buildMatcher (s% "m") (some (s% "g"))])).getMatcher (s% "m") = some (.made 6) := by decide

/-- A second definition replaces the objects of the first; `SetEffector` replaces an effector that is there. -/
example : (Shelf.after (loaded ++ [.setDef 'g' (s% "g") (s% "_, _")])).getRoleManager (s% "g") = .ok (⟨.made 6, some false⟩, true) ∧
    (Shelf.after (loaded ++ [.setDef 'p' (s% "p") (s% "sub")])).getPolicy (s% "p") = (.plain (.made 6), true) ∧
    (Shelf.after (loaded ++ [.setEffector (s% "e") (.given 9)])).getEffector (s% "e") = some (.given 9) ∧
    (Shelf.after (loaded ++ [.removeDef 'g' (s% "g")])).getPolicy (s% "g") = (.role none, false) ∧
    (Shelf.after (loaded ++ [.removeDef 'g' (s% "g")])).getRoleManager (s% "g") = .panic := by decide

/-- Other keys are left alone. -/
example : ShelfCall.key (.removeDef 'p' (s% "p2")) ≠ s% "p" ∧
    (Shelf.after (loaded ++ [.removeDef 'p' (s% "p2")])).getDef 'p' (s% "p") = some ⟨.made 1, some (s% "p", s% "sub, obj")⟩ ∧
    (Shelf.after (loaded ++ [.setDef 'p' (s% "p2") (s% "sub")])).getDef 'p' (s% "p") =
      some ⟨.made 1, some (s% "p", s% "sub, obj")⟩ ∧
    (Shelf.after (loaded ++ [.setDef 'p' (s% "p2") (s% "sub")])).getDef 'p' (s% "p2") =
      some ⟨.made 6, some (s% "p2", s% "sub")⟩ := by decide

/-- **C110 is false of the code.** In a model without such a role definition or request definition, `GetRoleManager` and
`GetRequestDef` panic instead of reporting that there is none, and the policy that `GetPolicy` returns together with
`false` is not a nil interface value. -/
theorem c110_fails :
    (Shelf.after loaded).getRoleManager (s% "g2") = .panic ∧
    (Shelf.after loaded).getRequestDef (s% "r2") = .panic ∧
    (Shelf.after loaded).getPolicy (s% "p2") = (.role none, false) := by decide

/-- A policy that was handed over has no definition, so that matchers about it cannot be built. -/
theorem c110_apart_fails :
    (Shelf.after (loaded ++ [.setPolicy (s% "p2") (.given 1)])).getPolicy (s% "p2") = (.plain (.given 1), true) ∧
    (Shelf.after (loaded ++ [.setPolicy (s% "p2") (.given 1)])).getDef 'p' (s% "p2") = none ∧
    ((Shelf.after (loaded ++ [.setPolicy (s% "p2") (.given 1)])).call (.buildMatcher (s% "m") (some (s% "p2")))).2 = .err := by
  decide

end GettersExample

end Fastac
