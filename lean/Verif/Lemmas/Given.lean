import Verif.Lemmas.InStep
import Verif.Lemmas.Filled

/-!
# The index of a matcher whose policy was given certain rules
-/

namespace Fastac

/-- The index has the shape it gets by adding rules with the property `P`. -/
def Matcher.Shape (P : Rule → Prop) (keep : Prop) (mt : Matcher) : Prop :=
  mt.root.Bare ∨ Filled P keep mt.exprRoot mt.root

theorem Matcher.Shape.added {P : Rule → Prop} {keep : Prop} {mt mt' : Matcher} {r : Rule} (h : mt.Shape P keep)
    (hr : P r) (he : mt.handle (.added r) = .ok mt') : mt'.Shape P keep := by
  simp only [Matcher.handle, Matcher.addRule] at he
  cases h1 : addStage mt.pDef r mt.exprRoot mt.root <;> rw [h1] at he <;> cases he
  exact Or.inr (addStage_filled _ P keep r hr _ _ _ h h1).2

theorem Matcher.Shape.removed {P : Rule → Prop} {keep : Prop} {mt mt' : Matcher} {r : Rule} (h : mt.Shape P keep)
    (hk : ¬ keep) (he : mt.handle (.removed r) = .ok mt') : mt'.Shape P keep := by
  simp only [Matcher.handle, Matcher.removeRule] at he
  cases h1 : removeStage mt.pDef r mt.exprRoot mt.root <;> rw [h1] at he <;> cases he
  obtain ⟨_, a, b⟩ := removeStage_filled _ P keep hk r _ _ _ h h1
  exact h.imp a b

theorem Matcher.Shape.cleared {P : Rule → Prop} {keep : Prop} {mt mt' : Matcher}
    (he : mt.handle .cleared = .ok mt') : mt'.Shape P keep := by
  cases he
  exact Or.inl (newNode_bare _)

theorem newMatcher_shape {P : Rule → Prop} {keep : Prop} {d : PolicyDef} {root : Stage} {rules : List Rule}
    {mt : Matcher} (hP : ∀ r ∈ rules, P r) (h : newMatcher d root rules = .ok mt) : mt.Shape P keep := by
  have step : ∀ (l : List Rule) (y mt : Matcher), (∀ r ∈ l, P r) → y.Shape P keep →
      l.foldl (fun (acc : Res Matcher) r => acc.bind (fun m => m.addRule r)) (.ok y) = .ok mt → mt.Shape P keep := by
    intro l
    induction l with
    | nil => intro y mt _ hy h; cases h; exact hy
    | cons r l ih =>
      intro y mt hP hy h
      simp only [List.foldl_cons, Res.bind_ok] at h
      cases hr : y.addRule r with
      | ok z =>
        rw [hr] at h
        exact ih z mt (fun x hx => hP x (by simp [hx])) (hy.added (hP r (by simp)) hr) h
      | err =>
        rw [hr] at h
        have : ∀ l : List Rule, l.foldl (fun (acc : Res Matcher) r => acc.bind (fun m => m.addRule r)) (.err : Res Matcher) = .err := by
          intro l; induction l with
          | nil => rfl
          | cons _ _ ih => exact ih
        rw [this] at h; cases h
      | panic =>
        rw [hr] at h
        have : ∀ l : List Rule, l.foldl (fun (acc : Res Matcher) r => acc.bind (fun m => m.addRule r)) (.panic : Res Matcher) = .panic := by
          intro l; induction l with
          | nil => rfl
          | cons _ _ ih => exact ih
        rw [this] at h; cases h
  exact step rules _ mt hP (Or.inl (newNode_bare _)) h

namespace Model

/-- What a change of a model does to the matchers of a policy: `T` relates the matcher before and after. -/
def Turned (pk : Str) (T : Matcher → Matcher → Prop) (m m' : Model) : Prop :=
  ∀ p, m.pMap.get pk = some p → ∃ p', m'.pMap.get pk = some p' ∧
    ∀ (i : Nat) mt, p.listeners[i]? = some mt → ∃ mt', p'.listeners[i]? = some mt' ∧ (mt' = mt ∨ T mt mt')

theorem Turned.self {pk : Str} {T : Matcher → Matcher → Prop} {m m' : Model}
    (h : m'.pMap.get pk = m.pMap.get pk) : Turned pk T m m' :=
  fun p hp => ⟨p, h.trans hp, fun _ mt hi => ⟨mt, hi, Or.inl rfl⟩⟩

theorem Turned.emit {α : Type} {pk : Str} {m : Model} {k : Str} {p : PolObj} (hg : m.pMap.get k = some p)
    (pol : Policy) (a : α) (e : Option PolEvent) :
    Turned pk (fun mt mt' => k = pk ∧ ∃ ev, e = some ev ∧ mt.handle ev = .ok mt') m
      (m.emitPolicy k p.listeners pol a e).1 := by
  have other : ∀ ls, k ≠ pk → ({ m with pMap := m.pMap.set k ⟨pol, ls⟩ } : Model).pMap.get pk = m.pMap.get pk := by
    intro ls h; simp only [GoMap.get_set]; rw [if_neg h]
  have plain : Turned pk (fun mt mt' => k = pk ∧ ∃ ev, e = some ev ∧ mt.handle ev = .ok mt') m
      { m with pMap := m.pMap.set k ⟨pol, p.listeners⟩ } := by
    by_cases h : k = pk
    · subst h
      intro q hq
      rw [hg] at hq; cases hq
      exact ⟨⟨pol, p.listeners⟩, by simp, fun _ mt hi => ⟨mt, hi, Or.inl rfl⟩⟩
    · exact .self (other _ h)
  unfold Model.emitPolicy
  cases e with
  | none => exact plain
  | some ev =>
    simp only
    cases hn : Fastac.notify p.listeners ev with
    | ok ls' =>
      simp only
      by_cases h : k = pk
      · subst h
        intro q hq
        rw [hg] at hq; cases hq
        refine ⟨⟨pol, ls'⟩, by simp, fun i mt hi => ?_⟩
        obtain ⟨mt', h1, h2⟩ := notify_get ev p.listeners ls' hn i mt hi
        exact ⟨mt', h2, Or.inr ⟨rfl, ev, rfl, h1⟩⟩
      · exact .self (other _ h)
    | err => exact plain
    | panic => exact plain

theorem Turned.imp {pk : Str} {T T' : Matcher → Matcher → Prop} {m m' : Model} (h : Turned pk T m m')
    (hi : ∀ mt mt', T mt mt' → T' mt mt') : Turned pk T' m m' := by
  intro p hp
  obtain ⟨p', h1, h2⟩ := h p hp
  refine ⟨p', h1, fun i mt hmt => ?_⟩
  obtain ⟨mt', a, b⟩ := h2 i mt hmt
  exact ⟨mt', a, b.imp id (hi _ _)⟩

theorem addRule_event (p : Policy) (r : Rule) : (p.addRule r).2.2 = none ∨ (p.addRule r).2.2 = some (.added r) := by
  unfold Policy.addRule
  simp only
  split <;> simp

theorem removeRule_event (p : Policy) (r : Rule) :
    (p.removeRule r).2.2 = none ∨ (p.removeRule r).2.2 = some (.removed r) := by
  unfold Policy.removeRule
  simp only
  split <;> simp

theorem Turned.add (m : Model) (pk : Str) (rule : Rule) :
    Turned pk (fun mt mt' => ∃ f, rule = pk :: f ∧ mt.handle (.added f) = .ok mt') m (m.addRule rule).1 := by
  unfold Model.addRule
  split
  · exact .self rfl
  · exact .self rfl
  · rename_i c cs fields
    simp only
    split
    · unfold Model.addPolicyRule
      split
      · exact .self rfl
      · rename_i p hg
        refine (Turned.emit hg _ _ _).imp ?_
        rintro mt mt' ⟨rfl, ev, he, hh⟩
        rcases addRule_event p.policy fields with h | h
        · rw [h] at he; cases he
        · rw [h] at he; cases he; exact ⟨fields, rfl, hh⟩
    · split
      · unfold Model.addRoleRule
        split
        · exact .self rfl
        · exact .self rfl
      · exact .self rfl

theorem Turned.remove (m : Model) (pk : Str) (rule : Rule) :
    Turned pk (fun mt mt' => ∃ f, rule = pk :: f ∧ mt.handle (.removed f) = .ok mt') m (m.removeRule rule).1 := by
  unfold Model.removeRule
  split
  · exact .self rfl
  · exact .self rfl
  · rename_i c cs fields
    simp only
    split
    · unfold Model.removePolicyRule
      split
      · exact .self rfl
      · rename_i p hg
        refine (Turned.emit hg _ _ _).imp ?_
        rintro mt mt' ⟨rfl, ev, he, hh⟩
        rcases removeRule_event p.policy fields with h | h
        · rw [h] at he; cases he
        · rw [h] at he; cases he; exact ⟨fields, rfl, hh⟩
    · split
      · unfold Model.removeRoleRule
        split
        · exact .self rfl
        · exact .self rfl
      · exact .self rfl

theorem Turned.clear (m : Model) (pk k : Str) :
    Turned pk (fun mt mt' => mt.handle .cleared = .ok mt') m (m.clearPolicy k).1 := by
  unfold Model.clearPolicy
  split
  · rename_i p hg
    refine (Turned.emit hg _ _ _).imp ?_
    rintro mt mt' ⟨rfl, ev, he, hh⟩
    simp only [Policy.clear, Option.some.injEq] at he
    subst he
    exact hh
  · split
    · exact .self rfl
    · exact .self rfl

theorem Turned.append {m : Model} {pk k : Str} {p : PolObj} (hg : m.pMap.get k = some p) (x : Matcher)
    (mm : GoMap Str MEntry) : Turned pk (fun _ _ => False) m
      { m with pMap := m.pMap.set k ⟨p.policy, p.listeners ++ [x]⟩, mMap := mm } := by
  by_cases h : k = pk
  · subst h
    intro q hq
    rw [hg] at hq; cases hq
    refine ⟨⟨p.policy, p.listeners ++ [x]⟩, by simp, fun i mt hi => ⟨mt, ?_, Or.inl rfl⟩⟩
    obtain ⟨hlt, -⟩ := List.getElem?_eq_some_iff.1 hi
    simp only
    rw [List.getElem?_append_left hlt, hi]
  · exact .self (by simp only [GoMap.get_set]; rw [if_neg h])

theorem Turned.build (build : Str → Res Stage) (m : Model) (pk k : Str) :
    Turned pk (fun _ _ => False) m (m.buildMatcher build k).1 := by
  unfold Model.buildMatcher
  split
  · exact .self rfl
  · split
    · exact .self rfl
    · exact .self rfl
    · split
      · exact .self rfl
      · exact .self rfl
      · split
        · rename_i hg
          split
          · exact .self rfl
          · exact .self rfl
          · exact Turned.append hg _ _
        · split
          · exact .self rfl
          · split <;> exact .self rfl

theorem Turned.inline (build : Str → Res Stage) (m : Model) (pk expr : Str) :
    Turned pk (fun _ _ => False) m (m.buildFromExpr build expr).1 := by
  unfold Model.buildFromExpr
  split
  · exact .self rfl
  · exact .self rfl
  · split
    · exact .self rfl
    · exact .self rfl
    · split
      · rename_i hg
        split
        · exact .self rfl
        · exact .self rfl
        · exact Turned.append hg _ _
      · split
        · exact .self rfl
        · split <;> exact .self rfl

/-- The entry `key` is a matcher of a `p` policy, for these stages, with an index of the right shape. -/
def Shows (key : Str) (root : Stage) (P : Rule → Prop) (keep : Prop) (m : Model) : Prop :=
  ∃ p i mt, m.mMap.get key = some (.live root.policyKey i) ∧ m.pMap.get root.policyKey = some p ∧
    p.listeners[i]? = some mt ∧ mt.exprRoot = root ∧ mt.Shape P keep

theorem Shows.turned {key : Str} {root : Stage} {P : Rule → Prop} {keep : Prop} {m m' : Model}
    {T : Matcher → Matcher → Prop} (h : Shows key root P keep m) (ht : Turned root.policyKey T m m')
    (hm : m'.mMap.get key = m.mMap.get key)
    (hT : ∀ mt mt', T mt mt' → mt.Shape P keep → mt'.Shape P keep ∧ mt'.exprRoot = mt.exprRoot) :
    Shows key root P keep m' := by
  obtain ⟨p, i, mt, h1, h2, h3, h4, h5⟩ := h
  obtain ⟨p', e1, e2⟩ := ht p h2
  obtain ⟨mt', e3, e4⟩ := e2 i mt h3
  rcases e4 with rfl | e4
  · exact ⟨p', i, mt', hm.trans h1, e1, e3, h4, h5⟩
  · obtain ⟨a, b⟩ := hT mt mt' e4 h5
    exact ⟨p', i, mt', hm.trans h1, e1, e3, b.trans h4, a⟩

theorem Shows.redefined {key : Str} {root : Stage} {P : Rule → Prop} {keep : Prop} {m m' : Model}
    (h : Shows key root P keep m) {k : Str} (hk : k ≠ root.policyKey) {b : Bool}
    (h1 : m'.mMap = if b = true then m.freeze k else m.mMap)
    (h2 : m'.pMap.get root.policyKey = m.pMap.get root.policyKey) : Shows key root P keep m' := by
  refine h.turned (T := fun _ _ => False) (.self h2) ?_ (fun _ _ h => h.elim)
  obtain ⟨p, i, mt, a, _⟩ := h
  cases b with
  | false => rw [h1]; rfl
  | true =>
    rw [h1]
    simp only [if_true]
    rw [get_freeze, a]
    simp only [Option.map_some, frozen]
    rw [if_neg (Ne.symm hk)]

theorem Shows.setDef {key : Str} {root : Stage} {P : Rule → Prop} {keep : Prop} {m : Model}
    (h : Shows key root P keep m) (sec : Char) (k value : Str) (hk : k ≠ root.policyKey) :
    Shows key root P keep (m.setDef sec k value).1 := by
  unfold Model.setDef
  split
  · exact h
  · split
    · exact h
    · split
      · exact h
      · split
        · exact h
        · split
          · exact h.redefined hk (b := true) rfl (by simp only [GoMap.get_set]; rw [if_neg hk])
          · split
            · exact h.redefined hk (b := true) rfl rfl
            · split
              · exact h
              · exact h

theorem Shows.removeDef {key : Str} {root : Stage} {P : Rule → Prop} {keep : Prop} {m : Model}
    (h : Shows key root P keep m) (sec : Char) (k : Str) (hk : k ≠ root.policyKey) (hm : k ≠ key) :
    Shows key root P keep (m.removeDef sec k).1 := by
  unfold Model.removeDef
  split
  · exact h
  · split
    · exact h.redefined hk rfl (by simp only [GoMap.get_del]; rw [if_neg hk])
    · split
      · exact h.redefined hk rfl rfl
      · split
        · exact h
        · split
          · exact h.turned (T := fun _ _ => False) (.self rfl)
              (by simp only [GoMap.get_del]; rw [if_neg hm]) (fun _ _ h => h.elim)
          · exact h

theorem Shows.built {build : Str → Res Stage} {key : Str} {root : Stage} {P : Rule → Prop} {keep : Prop}
    {m : Model} {expr : Str} (hd : m.mDefs.get key = some expr) (hb : build expr = .ok root)
    (hok : (m.buildMatcher build key).2 = .ok ()) (ht : m.Tidy) (hp : root.policyKey.head? = some 'p')
    (hP : ∀ rules, m.policyRules root.policyKey = some rules → ∀ r ∈ rules, P r) :
    Shows key root P keep (m.buildMatcher build key).1 := by
  unfold Model.buildMatcher at hok ⊢
  simp only [hd, hb] at hok ⊢
  cases hm : m.matcherPolicyDef root.policyKey with
  | err => rw [hm] at hok; cases hok
  | panic => rw [hm] at hok; cases hok
  | ok pDef =>
    rw [hm] at hok
    simp only at hok ⊢
    cases hq : m.pMap.get root.policyKey with
    | some p =>
      rw [hq] at hok
      simp only at hok ⊢
      cases hn : newMatcher pDef root p.policy.rules with
      | err => rw [hn] at hok; cases hok
      | panic => rw [hn] at hok; cases hok
      | ok mt =>
        refine ⟨⟨p.policy, p.listeners ++ [mt]⟩, p.listeners.length, mt, by simp, by simp, by simp,
          newMatcher_root hn, newMatcher_shape (hP p.policy.rules ?_) hn⟩
        unfold policyRules; rw [hq]
    | none =>
      rw [hq] at hok
      simp only at hok ⊢
      cases hr : m.rpMap.get root.policyKey with
      | none => rw [hr] at hok; cases hok
      | some rp =>
        have := (ht.roles _ rp hr).1
        rw [hp] at this
        exact absurd this (by decide)

theorem Given.bound {build : Str → Res Stage} {key : Str} {root : Stage} {P : Rule → Prop} {keep : Prop} {m : Model}
    (h : Given build key root P keep m) : Bound build key root m := by
  induction h with
  | built h expr hd hb hok _ => exact .built h expr hd hb hok
  | setDef _ sec k value hk ih => exact ih.setDef sec k value hk
  | removeDef _ sec k hk hm ih => exact ih.removeDef sec k hk hm
  | build _ k hk ih => exact ih.build k hk
  | inline _ expr ih => exact ih.inline expr
  | add _ rule hs _ ih => exact ih.add rule hs
  | remove _ rule hs _ ih => exact ih.remove rule hs
  | clear _ k hk ih => exact ih.clear k hk

theorem Given.shows {build : Str → Res Stage} {key : Str} {root : Stage} {P : Rule → Prop} {keep : Prop} {m : Model}
    (hp : root.policyKey.head? = some 'p')
    (h : Given build key root P keep m) : Shows key root P keep m := by
  induction h with
  | built h expr hd hb hok hP => exact .built hd hb hok h.made.tidy hp hP
  | setDef _ sec k value hk ih => exact ih.setDef sec k value hk
  | removeDef _ sec k hk hm ih => exact ih.removeDef sec k hk hm
  | @build m h k hk ih =>
    exact ih.turned (Turned.build _ m _ k) ((Settled.build _ m k).2 key hk) (fun _ _ h => h.elim)
  | @inline m h expr ih =>
    exact ih.turned (Turned.inline build m _ expr) (by rw [(Settled.inline build m expr).2]) (fun _ _ h => h.elim)
  | @add m h rule hs hP ih =>
    refine ih.turned (Turned.add m _ rule) (by rw [(Settled.add m rule).2]) ?_
    rintro mt mt' ⟨f, e, hh⟩ hsh
    exact ⟨hsh.added (hP f e) hh, handle_root hh⟩
  | @remove m h rule hs hk ih =>
    refine ih.turned (Turned.remove m _ rule) (by rw [(Settled.remove m rule).2]) ?_
    rintro mt mt' ⟨f, e, hh⟩ hsh
    exact ⟨hsh.removed (fun q => hk q f e) hh, handle_root hh⟩
  | @clear m h k hk ih =>
    refine ih.turned (Turned.clear m _ k) (by rw [(Settled.clear m k).2]) ?_
    intro mt mt' hh _
    exact ⟨.cleared hh, handle_root hh⟩

theorem pol_setDef (m : Model) (sec : Char) (k value : Str) {pk : Str} (hk : k ≠ pk) :
    (m.setDef sec k value).1.pMap.get pk = m.pMap.get pk := by
  unfold Model.setDef
  split
  · rfl
  · split
    · rfl
    · split
      · rfl
      · split
        · rfl
        · split
          · simp only [GoMap.get_set]; rw [if_neg hk]
          · split
            · rfl
            · split <;> rfl

theorem pol_removeDef (m : Model) (sec : Char) (k : Str) {pk : Str} (hk : k ≠ pk) :
    (m.removeDef sec k).1.pMap.get pk = m.pMap.get pk := by
  unfold Model.removeDef
  split
  · rfl
  · split
    · simp only [GoMap.get_del]; rw [if_neg hk]
    · split
      · rfl
      · split
        · rfl
        · split <;> rfl

theorem pol_build (build : Str → Res Stage) (m : Model) (k : Str) {pk : Str} {p' : PolObj}
    (hp' : (m.buildMatcher build k).1.pMap.get pk = some p') :
    ∃ q, m.pMap.get pk = some q ∧ p'.policy = q.policy := by
  unfold Model.buildMatcher at hp'
  split at hp'
  · exact ⟨p', hp', rfl⟩
  · split at hp'
    · exact ⟨p', hp', rfl⟩
    · exact ⟨p', hp', rfl⟩
    · split at hp'
      · exact ⟨p', hp', rfl⟩
      · exact ⟨p', hp', rfl⟩
      · split at hp'
        · rename_i q hq
          split at hp'
          · exact ⟨p', hp', rfl⟩
          · exact ⟨p', hp', rfl⟩
          · simp only [GoMap.get_set] at hp'
            split at hp'
            · rename_i e; cases hp'; exact ⟨q, by rw [← e]; exact hq, rfl⟩
            · exact ⟨p', hp', rfl⟩
        · split at hp'
          · exact ⟨p', hp', rfl⟩
          · split at hp' <;> exact ⟨p', hp', rfl⟩

theorem pol_inline (build : Str → Res Stage) (m : Model) (expr : Str) {pk : Str} {p' : PolObj}
    (hp' : (m.buildFromExpr build expr).1.pMap.get pk = some p') :
    ∃ q, m.pMap.get pk = some q ∧ p'.policy = q.policy := by
  rcases (buildFromExpr_spec build m expr).1.pol pk with ⟨h1, h2⟩ | ⟨q, x, h1, h2⟩
  · rw [h2] at hp'; cases hp'
  · rw [h2] at hp'; cases hp'; exact ⟨q, h1, rfl⟩

theorem pol_emit {α : Type} {m : Model} {k pk : Str} {ls : List Matcher} {pol : Policy} {a : α} {e : Option PolEvent}
    {p' : PolObj} (hp' : (m.emitPolicy k ls pol a e).1.pMap.get pk = some p') :
    (k = pk ∧ p'.policy = pol) ∨ (k ≠ pk ∧ m.pMap.get pk = some p') := by
  by_cases h : k = pk
  · left
    refine ⟨h, ?_⟩
    unfold Model.emitPolicy at hp'
    rw [h] at hp'
    split at hp'
    · simp at hp'; subst hp'; rfl
    · split at hp' <;> · simp at hp'; subst hp'; rfl
  · right
    refine ⟨h, ?_⟩
    rw [← hp']
    unfold Model.emitPolicy
    split
    · simp only [GoMap.get_set]; rw [if_neg h]
    · split <;> · simp only [GoMap.get_set]; rw [if_neg h]

theorem pol_add {m : Model} (ht : m.Tidy) (rule : Rule) {pk : Str} {p' : PolObj}
    (hp' : (m.addRule rule).1.pMap.get pk = some p') :
    ∃ q, m.pMap.get pk = some q ∧ ∀ r ∈ p'.policy.rules, r ∈ q.policy.rules ∨ rule = pk :: r := by
  have stay : m.pMap.get pk = some p' →
      ∃ q, m.pMap.get pk = some q ∧ ∀ r ∈ p'.policy.rules, r ∈ q.policy.rules ∨ rule = pk :: r :=
    fun h => ⟨p', h, fun r hr => .inl hr⟩
  unfold Model.addRule at hp'
  split at hp'
  · exact stay hp'
  · exact stay hp'
  · rename_i c cs fields
    simp only at hp'
    split at hp'
    · unfold Model.addPolicyRule at hp'
      split at hp'
      · exact stay hp'
      · rename_i q hq
        rcases pol_emit hp' with ⟨e, hpol⟩ | ⟨_, h⟩
        · refine ⟨q, by rw [← e]; exact hq, fun r hr => ?_⟩
          rw [hpol] at hr
          obtain ⟨_, _, w3, _⟩ := (ht.pols _ q hq).2.1.addRule fields
          rcases (w3 r).1 hr with hx | ⟨_, rfl⟩
          · exact .inl hx
          · exact .inr (by rw [e])
        · exact stay h
    · split at hp'
      · unfold Model.addRoleRule at hp'
        split at hp' <;> exact stay hp'
      · exact stay hp'

theorem pol_remove {m : Model} (ht : m.Tidy) (rule : Rule) {pk : Str} {p' : PolObj}
    (hp' : (m.removeRule rule).1.pMap.get pk = some p') :
    ∃ q, m.pMap.get pk = some q ∧ ∀ r ∈ p'.policy.rules, r ∈ q.policy.rules := by
  have stay : m.pMap.get pk = some p' → ∃ q, m.pMap.get pk = some q ∧ ∀ r ∈ p'.policy.rules, r ∈ q.policy.rules :=
    fun h => ⟨p', h, fun r hr => hr⟩
  unfold Model.removeRule at hp'
  split at hp'
  · exact stay hp'
  · exact stay hp'
  · rename_i c cs fields
    simp only at hp'
    split at hp'
    · unfold Model.removePolicyRule at hp'
      split at hp'
      · exact stay hp'
      · rename_i q hq
        rcases pol_emit hp' with ⟨e, hpol⟩ | ⟨_, h⟩
        · refine ⟨q, by rw [← e]; exact hq, fun r hr => ?_⟩
          rw [hpol] at hr
          obtain ⟨_, _, w3, _⟩ := (ht.pols _ q hq).2.1.removeRule fields
          exact ((w3 r).1 hr).1
        · exact stay h
    · split at hp'
      · unfold Model.removeRoleRule at hp'
        split at hp' <;> exact stay hp'
      · exact stay hp'

theorem pol_clear (m : Model) (k : Str) {pk : Str} {p' : PolObj}
    (hp' : (m.clearPolicy k).1.pMap.get pk = some p') :
    ∃ q, m.pMap.get pk = some q ∧ ∀ r ∈ p'.policy.rules, r ∈ q.policy.rules ∧ k ≠ pk := by
  unfold Model.clearPolicy at hp'
  split at hp'
  · rename_i q hq
    rcases pol_emit hp' with ⟨e, hpol⟩ | ⟨hne, h⟩
    · refine ⟨q, by rw [← e]; exact hq, fun r hr => ?_⟩
      rw [hpol] at hr
      simp [Policy.clear, Policy.rules] at hr
    · exact ⟨p', h, fun r hr => ⟨hr, hne⟩⟩
  · rename_i hq
    have hne : k ≠ pk := by
      rintro rfl
      split at hp' <;> · simp only at hp'; rw [hq] at hp'; cases hp'
    split at hp' <;> exact ⟨p', hp', fun r hr => ⟨hr, hne⟩⟩

/-- All rules of the policy have the property. -/
theorem Given.rules {build : Str → Res Stage} {key : Str} {root : Stage}
    {P : Rule → Prop} {keep : Prop} {m : Model}
    (h : Given build key root P keep m) :
    ∀ p, m.pMap.get root.policyKey = some p → ∀ r ∈ p.policy.rules, P r := by
  induction h with
  | @built m h expr hd hb hok hP =>
    intro p' hp' r hr
    obtain ⟨q, hq, e⟩ := pol_build _ _ _ hp'
    rw [e] at hr
    exact hP q.policy.rules (by unfold policyRules; rw [hq]) r hr
  | @setDef m h sec k value hk ih => rw [pol_setDef _ _ _ _ hk]; exact ih
  | @removeDef m h sec k hk hm ih => rw [pol_removeDef _ _ _ hk]; exact ih
  | @inline m h expr ih =>
    intro p' hp' r hr
    obtain ⟨q, hq, e⟩ := pol_inline _ _ _ hp'
    rw [e] at hr
    exact ih q hq r hr
  | @build m h k hk ih =>
    intro p' hp' r hr
    obtain ⟨q, hq, e⟩ := pol_build _ _ _ hp'
    rw [e] at hr
    exact ih q hq r hr
  | @add m h rule hs hP ih =>
    intro p' hp' r hr
    obtain ⟨q, hq, e⟩ := pol_add h.bound.tied.1.made.tidy _ hp'
    rcases e r hr with hx | hx
    · exact ih q hq r hx
    · exact hP r hx
  | @remove m h rule hs hk ih =>
    intro p' hp' r hr
    obtain ⟨q, hq, e⟩ := pol_remove h.bound.tied.1.made.tidy _ hp'
    exact ih q hq r (e r hr)
  | @clear m h k hk ih =>
    intro p' hp' r hr
    obtain ⟨q, hq, e⟩ := pol_clear _ _ hp'
    exact ih q hq r (e r hr).1

end Model

end Fastac
