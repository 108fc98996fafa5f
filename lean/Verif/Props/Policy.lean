import Verif.Lemmas.Live
import Verif.Spec.RuleSet
import Verif.Props.Matching

/-!
# C17–C20: policies as sets of rules
-/

namespace Fastac

theorem Plain.hash_inj {r r' : Rule} (h : Plain r) (h' : Plain r') (e : hash r = hash r') :
    r = r' := join_injective ',' h.ne h'.ne h.noComma h'.noComma e

theorem Policy.run_present (ops : List PolOp) (hp : ∀ op ∈ ops, op.Plain) :
    ∀ (p : Policy), p.WF → (∀ r ∈ p.rules, Plain r) →
      (p.run ops).WF ∧ (∀ r ∈ (p.run ops).rules, Plain r) ∧
      ∀ r, r ∈ (p.run ops).rules ↔ presentAfter r (decide (r ∈ p.rules)) ops = true := by
  induction ops with
  | nil => intro p h1 h2; exact ⟨h1, h2, fun r => by simp [Policy.run, presentAfter]⟩
  | cons op ops ih =>
    intro p h1 h2
    have hpl := hp op (by simp)
    have hstep : (∀ r ∈ (p.step op).1.rules, Plain r) ∧
        ∀ r, presentAfter r (decide (r ∈ p.rules)) (op :: ops) =
          presentAfter r (decide (r ∈ (p.step op).1.rules)) ops := by
      cases op with
      | add x =>
        obtain ⟨_, hb, hm, _⟩ := h1.addRule x
        have hm' : ∀ r, r ∈ (p.step (.add x)).1.rules ↔ r ∈ p.rules ∨ r = x := by
          intro r
          simp only [Policy.step]
          rw [hm]
          constructor
          · rintro (h | ⟨_, h⟩)
            · exact Or.inl h
            · exact Or.inr h
          · rintro (h | h)
            · exact Or.inl h
            · subst h
              by_cases hx : ∃ y ∈ p.rules, hash y = hash r
              · obtain ⟨y, hy, e⟩ := hx
                exact Or.inl ((h2 y hy).hash_inj hpl e ▸ hy)
              · exact Or.inr ⟨hb.2 hx, rfl⟩
        refine ⟨?_, fun r => ?_⟩
        · intro r hr
          rcases (hm' r).1 hr with h | h
          · exact h2 r h
          · exact h ▸ hpl
        · simp only [presentAfter]
          congr 1
          rw [Bool.eq_iff_iff]
          simp only [Bool.or_eq_true, decide_eq_true_eq, beq_iff_eq, hm']
          constructor
          · rintro (h | h)
            · exact Or.inl h
            · exact Or.inr h.symm
          · rintro (h | h)
            · exact Or.inl h
            · exact Or.inr h.symm
      | remove x =>
        obtain ⟨_, hb, hm, _⟩ := h1.removeRule x
        have hm' : ∀ r, r ∈ (p.step (.remove x)).1.rules ↔ r ∈ p.rules ∧ x ≠ r := by
          intro r
          simp only [Policy.step]
          rw [hm]
          constructor
          · rintro ⟨h, e⟩; exact ⟨h, fun e' => e (by rw [e'])⟩
          · rintro ⟨h, e⟩; exact ⟨h, fun e' => e ((h2 r h).hash_inj hpl e').symm⟩
        refine ⟨fun r hr => h2 r ((hm' r).1 hr).1, fun r => ?_⟩
        simp only [presentAfter]
        congr 1
        rw [Bool.eq_iff_iff]
        simp only [Bool.and_eq_true, decide_eq_true_eq, bne_iff_ne, hm']
      | clear =>
        have : (p.step .clear).1.rules = [] := rfl
        rw [this]
        exact ⟨by simp, fun r => by simp [presentAfter]⟩
    obtain ⟨a, b, c⟩ := ih (fun o h => hp o (by simp [h])) _ (h1.step op) hstep.1
    refine ⟨a, b, fun r => ?_⟩
    rw [hstep.2 r]
    exact c r

/-- **C17**, the part that holds (for rules without commas): after every history, `Range` enumerates
exactly the rules that the history leaves present, each once; and the next `AddRule` returns true iff
the rule is absent, the next `RemoveRule` iff it is present.  Missing: rules with commas in fields,
and the empty rule (see `c18_fails`). -/
theorem c17_policy_set_partial (ops : List PolOp) (hp : ∀ op ∈ ops, op.Plain) :
    (Policy.empty.run ops).rules.Nodup ∧
    (∀ r, r ∈ (Policy.empty.run ops).rules ↔ presentAfter r false ops = true) ∧
    ∀ r, Plain r →
      ((Policy.empty.run ops).addRule r).2.1 = !presentAfter r false ops ∧
      ((Policy.empty.run ops).removeRule r).2.1 = presentAfter r false ops := by
  obtain ⟨h1, h2, h3⟩ := Policy.run_present ops hp Policy.empty Policy.WF.empty
    (by simp [Policy.empty, Policy.rules])
  have h3' : ∀ r, r ∈ (Policy.empty.run ops).rules ↔ presentAfter r false ops = true := by
    intro r; exact h3 r
  have hex : ∀ r, Plain r → ((∃ x ∈ (Policy.empty.run ops).rules, hash x = hash r) ↔
      presentAfter r false ops = true) := by
    intro r hr
    rw [← h3']
    constructor
    · rintro ⟨x, hx, e⟩; exact (h2 x hx).hash_inj hr e ▸ hx
    · intro h; exact ⟨r, h, rfl⟩
  refine ⟨h1.rules_nodup, h3', fun r hr => ⟨?_, ?_⟩⟩
  · have := (h1.addRule r).2.1
    rw [hex r hr] at this
    rw [Bool.eq_iff_iff, this]; simp
  · have := (h1.removeRule r).2.1
    rw [hex r hr] at this
    rw [Bool.eq_iff_iff, this]

example : (∀ op ∈ [PolOp.add [s% "alice", s% "read"], .add [s% "bob"], .remove [s% "bob"],
      .add [s% ""]], op.Plain) ∧
    presentAfter [s% "alice", s% "read"] false [PolOp.add [s% "alice", s% "read"],
      .add [s% "bob"], .remove [s% "bob"], .add [s% ""]] = true ∧
    presentAfter [s% "bob"] false [PolOp.add [s% "alice", s% "read"],
      .add [s% "bob"], .remove [s% "bob"], .add [s% ""]] = false := by decide

/-- **C18**, the part that holds: two different rules without commas are kept apart in every reachable
policy: adding one leaves the presence of the other as it was, and so does removing one.  Missing:
see `c18_fails`. -/
theorem c18_kept_apart_partial (ops : List PolOp) (hp : ∀ op ∈ ops, op.Plain) (r r' : Rule)
    (hr : Plain r) (hne : r ≠ r') :
    (r' ∈ ((Policy.empty.run ops).addRule r).1.rules ↔ r' ∈ (Policy.empty.run ops).rules) ∧
    (r' ∈ ((Policy.empty.run ops).removeRule r).1.rules ↔ r' ∈ (Policy.empty.run ops).rules) := by
  obtain ⟨h1, h2, _⟩ := Policy.run_present ops hp Policy.empty Policy.WF.empty
    (by simp [Policy.empty, Policy.rules])
  constructor
  · rw [(h1.addRule r).2.2.1]
    constructor
    · rintro (h | ⟨_, h⟩)
      · exact h
      · exact absurd h.symm hne
    · exact Or.inl
  · rw [(h1.removeRule r).2.2.1]
    constructor
    · exact fun h => h.1
    · intro h
      exact ⟨h, fun e => hne ((h2 r' h).hash_inj hr e).symm⟩

example : Plain [s% "a", s% "b"] ∧ [s% "a", s% "b"] ≠ [s% "ab"] := by decide

/-- **C18 fails** for fields with commas: after adding `(a,b | c)`, the different rule `(a | b,c)`
cannot be added, and removing it removes the stored one — while a matcher on the policy, which is told
the removed rule rather than the stored one, goes on reporting the rule that is no longer stored. -/
theorem c18_fails :
    ∃ (stored other : Rule) (p : Policy), stored ≠ other ∧ p = Policy.empty.run [.add stored] ∧
      stored ∈ p.rules ∧ other ∉ p.rules ∧
      (p.addRule other).2.1 = false ∧ other ∉ (p.addRule other).1.rules ∧
      (p.removeRule other).2.1 = true ∧ stored ∉ (p.removeRule other).1.rules :=
  ⟨[s% "a,b", s% "c"], [s% "a", s% "b,c"], _, by decide, rfl, by decide, by decide, by decide,
    by decide, by decide, by decide⟩

/-- **C18 fails** also through the index: the rule removed from the policy is still granted. -/
theorem c18_fails_index :
    ∃ (pDef : PolicyDef) (root : Stage) (m : Matcher) (s s' : PolicyWithMatcher) (E : Evaluator)
      (stored other : Rule), stored ≠ other ∧ newMatcher pDef root [] = .ok m ∧ root.Binary ∧
      (⟨Policy.empty, m⟩ : PolicyWithMatcher).step (.add stored) = .ok s ∧
      s.step (.remove other) = .ok s' ∧ s'.policy.rules = [] ∧
      filter s'.matcher E Order.fwd = ([pDef.key :: stored], .cont) := by
  refine ⟨newPolicyDef (s% "p") (s% "sub, obj"),
    .mk [] [.mk (s% "r_sub == p_sub") [.mk (s% "r_obj == p_obj") []]], _, _, _,
    ⟨fun _ => true, fun e r => if e = s% "r_sub == p_sub"
      then .bool (r.head? == some (s% "a,b")) else .bool (r.getLast? == some (s% "c"))⟩,
    [s% "a,b", s% "c"], [s% "a", s% "b,c"], by decide, rfl, ?_, rfl, rfl, by decide, by decide⟩
  simp [Stage.Binary, Stage.All, Stage.AllIn, Stage.children]

/-! ## C19 -/

theorem project_spec (r : Rule) (cs : List Nat) :
    ((∀ c ∈ cs, c < r.length) → ∃ v, project r cs = .ok v ∧ cs.map (fun c => r[c]?) = v.map some) ∧
    ((∃ c ∈ cs, r.length ≤ c) → project r cs = .panic) := by
  induction cs with
  | nil => simp [project]
  | cons c cs ih =>
    constructor
    · intro h
      obtain ⟨v, h1, h2⟩ := ih.1 (fun c' hc => h c' (by simp [hc]))
      have hc := h c (by simp)
      refine ⟨r[c] :: v, ?_, ?_⟩
      · simp only [project, List.getElem?_eq_getElem hc, h1, Res.map_ok]
      · simp [List.getElem?_eq_getElem hc, h2]
    · rintro ⟨c', hc', hl⟩
      simp only [project]
      cases hg : r[c]? with
      | none => rfl
      | some v =>
        simp only
        rcases List.mem_cons.1 hc' with rfl | hm
        · rw [List.getElem?_eq_none hl] at hg; cases hg
        · rw [ih.2 ⟨c', hm, hl⟩]; rfl

/-- **C19**, the part that holds: when every rule has the requested columns and no value in them
contains a comma, `GetDistinct` returns every combination of values occurring in those columns,
exactly once, and nothing else, whatever the order of iteration.  Missing: commas, short rules (see
`c19_fails`, `c19_short_rule_panics`). -/
theorem c19_get_distinct_partial (rules : List Rule) (columns : List Nat)
    (hlen : ∀ r ∈ rules, ∀ c ∈ columns, c < r.length)
    (hcomma : ∀ r ∈ rules, ∀ c ∈ columns, ∀ f, r[c]? = some f → ',' ∉ f) :
    ∃ res, getDistinct rules columns = .ok res ∧ res.Nodup ∧
      ∀ v, v ∈ res ↔ ∃ r ∈ rules, columns.map (fun c => r[c]?) = v.map some := by
  -- values produced by the projection
  let Proj (r : Rule) (v : Rule) : Prop := columns.map (fun c => r[c]?) = v.map some
  have uniq : ∀ r v v', Proj r v → Proj r v' → v = v' := by
    intro r v v' h h'
    exact List.map_inj_right (fun _ _ e => Option.some.inj e) |>.1 (h.symm.trans h')
  have inj : ∀ r ∈ rules, ∀ r' ∈ rules, ∀ v v', Proj r v → Proj r' v' → hash v = hash v' →
      v = v' := by
    intro r hr r' hr' v v' h h' e
    have hl : v.length = v'.length := by
      have a := congrArg List.length h
      have b := congrArg List.length h'
      simp only [List.length_map] at a b
      omega
    have nc : ∀ r ∈ rules, ∀ v, Proj r v → ∀ f ∈ v, ',' ∉ f := by
      intro r hr v h f hf
      have : some f ∈ columns.map (fun c => r[c]?) := by
        rw [h]; exact List.mem_map.2 ⟨f, hf, rfl⟩
      obtain ⟨c, hc, e⟩ := List.mem_map.1 this
      exact hcomma r hr c hc f e
    by_cases hv : v = []
    · subst hv
      exact (List.length_eq_zero_iff.1 hl.symm).symm
    · have hv' : v' ≠ [] := by rintro rfl; exact hv (List.length_eq_zero_iff.1 hl)
      exact join_injective ',' hv hv' (nc r hr v h) (nc r' hr' v' h') e
  have gen : ∀ (l : List Rule) (m : GoMap Str Rule) (done : List Rule),
      (∀ r ∈ l, r ∈ rules) → (∀ r ∈ done, r ∈ rules) → m.WF →
      (∀ k v, m.get k = some v → k = hash v ∧ ∃ r ∈ done, Proj r v) →
      (∀ r ∈ done, ∀ v, Proj r v → m.get (hash v) = some v) →
      ∃ m' : GoMap Str Rule, l.foldl (fun (acc : Res (GoMap Str Rule)) rule =>
          acc.bind (fun m => (project rule columns).map (fun v => m.set (hash v) v))) (Res.ok m) =
          .ok m' ∧ m'.WF ∧
        (∀ k v, m'.get k = some v → k = hash v ∧ ∃ r ∈ l ++ done, Proj r v) ∧
        (∀ r ∈ l ++ done, ∀ v, Proj r v → m'.get (hash v) = some v) := by
    intro l
    induction l with
    | nil => intro m done _ _ h1 h2 h3; exact ⟨m, rfl, h1, h2, h3⟩
    | cons r l ih =>
      intro m done hl hdone h1 h2 h3
      have hr := hl r (by simp)
      obtain ⟨v, hv1, hv2⟩ := (project_spec r columns).1 (hlen r hr)
      rw [List.foldl_cons]
      simp only [Res.bind_ok, hv1, Res.map_ok]
      obtain ⟨m', a, b, c, d⟩ := ih (m.set (hash v) v) (r :: done)
        (fun x hx => hl x (by simp [hx]))
        (by intro x hx
            rcases List.mem_cons.1 hx with rfl | hx
            · exact hr
            · exact hdone x hx)
        (h1.set _ _)
        (by
          intro k w hw
          rw [GoMap.get_set] at hw
          split at hw
          · rename_i e; cases hw
            exact ⟨e.symm, r, by simp, hv2⟩
          · obtain ⟨e, x, hx, hp⟩ := h2 k w hw
            exact ⟨e, x, by simp [hx], hp⟩)
        (by
          intro x hx w hw
          rw [GoMap.get_set]
          rcases List.mem_cons.1 hx with rfl | hx
          · have := uniq x w v hw hv2
            subst this; simp
          · split
            · rename_i e
              rw [inj r hr x (hdone x hx) v w hv2 hw e]
            · exact h3 x hx w hw)
      refine ⟨m', a, b, ?_, ?_⟩
      · intro k w hw
        obtain ⟨e, x, hx, hp⟩ := c k w hw
        refine ⟨e, x, ?_, hp⟩
        simp only [List.mem_append, List.mem_cons] at hx ⊢
        rcases hx with h | h | h
        · exact Or.inl (Or.inr h)
        · exact Or.inl (Or.inl h)
        · exact Or.inr h
      · intro x hx w hw
        refine d x ?_ w hw
        simp only [List.mem_append, List.mem_cons] at hx ⊢
        rcases hx with (h | h) | h
        · exact Or.inr (Or.inl h)
        · exact Or.inl h
        · exact Or.inr (Or.inr h)
  obtain ⟨m, hm, hwf, h1, h2⟩ := gen rules [] [] (fun _ h => h) (by simp) GoMap.WF.nil
    (by simp) (by simp)
  refine ⟨m.map Prod.snd, by unfold getDistinct; rw [hm]; rfl, ?_, ?_⟩
  · have hk : m.map Prod.fst = (m.map Prod.snd).map hash := by
      rw [List.map_map]
      apply List.map_congr_left
      rintro ⟨k, v⟩ he
      exact (h1 k v (hwf.get_of_mem he)).1
    have : ((m.map Prod.snd).map hash).Nodup := by rw [← hk]; exact hwf
    exact nodup_of_map hash _ this
  · intro v
    simp only [List.append_nil] at h1 h2
    constructor
    · intro hv
      obtain ⟨⟨k, w⟩, he, e⟩ := List.mem_map.1 hv
      simp only at e
      subst e
      exact (h1 k w (hwf.get_of_mem he)).2
    · rintro ⟨r, hr, hp⟩
      exact List.mem_map.2 ⟨(hash v, v), GoMap.mem_of_get (h2 r hr v hp), rfl⟩

example : (∀ r ∈ [[s% "alice", s% "read"], [s% "bob", s% "read"]], ∀ c ∈ [1], c < r.length) ∧
    getDistinct [[s% "alice", s% "read"], [s% "bob", s% "read"]] [1] = .ok [[s% "read"]] := by
  decide

/-- **C19 fails** with commas: two different combinations, one result. -/
theorem c19_fails :
    getDistinct [[s% "a,b", s% "c"], [s% "a", s% "b,c"]] [0, 1] = .ok [[s% "a", s% "b,c"]] := by
  decide

/-- **C19 fails** with a panic as soon as one rule lacks a requested column. -/
theorem c19_short_rule_panics (rules : List Rule) (columns : List Nat)
    (h : ∃ r ∈ rules, ∃ c ∈ columns, r.length ≤ c) : getDistinct rules columns = .panic := by
  have hp : ∀ rules : List Rule, rules.foldl (fun (acc : Res (GoMap Str Rule)) rule =>
      acc.bind (fun m => (project rule columns).map (fun v => m.set (hash v) v))) Res.panic =
      Res.panic := by
    intro rules
    induction rules with
    | nil => rfl
    | cons r rs ih => exact ih
  have gen : ∀ (rules : List Rule) (m : GoMap Str Rule), (∃ r ∈ rules, ∃ c ∈ columns, r.length ≤ c) →
      rules.foldl (fun (acc : Res (GoMap Str Rule)) rule =>
        acc.bind (fun m => (project rule columns).map (fun v => m.set (hash v) v))) (Res.ok m) =
      Res.panic := by
    intro rules
    induction rules with
    | nil => rintro m ⟨r, hr, _⟩; simp at hr
    | cons r rs ih =>
      rintro m ⟨x, hx, hc⟩
      rw [List.foldl_cons]
      by_cases hr : ∃ c ∈ columns, r.length ≤ c
      · simp only [Res.bind_ok, (project_spec r columns).2 hr]
        exact hp rs
      · obtain ⟨v, hv, _⟩ := (project_spec r columns).1
          (fun c hc => Nat.lt_of_not_le fun hle => hr ⟨c, hc, hle⟩)
        simp only [Res.bind_ok, hv, Res.map_ok]
        apply ih
        rcases List.mem_cons.1 hx with rfl | hx
        · exact absurd hc hr
        · exact ⟨x, hx, hc⟩
  unfold getDistinct
  rw [gen rules [] h]; rfl

/-! ## C20 -/

/-- **C20**, the part that holds (`p` policies): after `Clear` the policy enumerates nothing and its matcher is in the state
of a matcher newly built for an empty policy; it reports nothing (unless a leaf expression holds of
the all-empty rule, which then is reported on any empty policy, see `c08_fails`). -/
theorem c20_clear_partial (pDef : PolicyDef) (root : Stage) (s : PolicyWithMatcher)
    (hlive : Live pDef root s) (hb : root.Binary) :
    ∃ s', s.step .clear = .ok s' ∧ s'.policy.rules = [] ∧
      newMatcher pDef root [] = .ok s'.matcher ∧
      ∀ (E : Evaluator) (ord : Order), root.Local pDef E → root.BlankSafe pDef E → ord.Valid →
        (filter s'.matcher E ord).2 = .cont → (filter s'.matcher E ord).1 = [] := by
  have hinv := hlive.inv hb
  obtain ⟨s', h1, h2, h3⟩ := hinv.step hb .clear trivial
  refine ⟨s', h1, by rw [h3]; rfl, ?_, ?_⟩
  · have : s.step .clear = .ok ⟨(s.policy.step .clear).1, s.matcher.cleared⟩ := rfl
    rw [this] at h1
    cases h1
    unfold newMatcher Matcher.cleared
    rw [← hinv.pdef, ← hinv.expr]
    rfl
  · intro E ord hl hbs hv hF
    obtain ⟨ph, hp, h0⟩ := filter_of_inv hb h2 hl hv hF
    rw [h0 hbs, h3] at hp
    simpa [Policy.step, Policy.clear, Policy.rules] using hp

section
open MatchingExample
example : Live pDef root state ∧ root.Binary ∧ state.policy.rules ≠ [] ∧
    (∃ s', state.step .clear = .ok s' ∧
      (filter s'.matcher (E (s% "alice") (s% "read")) Order.fwd) = ([], .cont)) :=
  ⟨live, binary, by decide, _, rfl, by decide⟩
end

end Fastac
