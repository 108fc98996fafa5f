import Verif.Model.Policy
import Verif.Lemmas.Index
import Verif.Spec.History

/-!
# Lemmas about policies and the matchers listening to them
-/

namespace Fastac

/-- Reachable states of a policy: keys are the hashes of the rules stored under them. -/
structure Policy.WF (p : Policy) : Prop where
  wf : GoMap.WF p.ruleMap
  keys : ∀ k r, (k, r) ∈ p.ruleMap → k = hash r

theorem Policy.WF.empty : Policy.empty.WF := ⟨GoMap.WF.nil, by simp [Policy.empty]⟩

theorem Policy.WF.mem_rules {p : Policy} (h : p.WF) (r : Rule) :
    r ∈ p.rules ↔ p.ruleMap.get (hash r) = some r := by
  unfold Policy.rules
  constructor
  · intro hr
    obtain ⟨⟨k, r'⟩, he, rfl⟩ := List.mem_map.1 hr
    have := h.keys _ _ he
    subst this
    exact h.wf.get_of_mem he
  · intro hg
    exact List.mem_map.2 ⟨(hash r, r), GoMap.mem_of_get hg, rfl⟩

theorem Policy.WF.has_iff {p : Policy} (h : p.WF) (r : Rule) :
    p.ruleMap.has (hash r) = true ↔ ∃ x ∈ p.rules, hash x = hash r := by
  unfold GoMap.has
  rw [Option.isSome_iff_exists]
  constructor
  · rintro ⟨x, hx⟩
    have hm := GoMap.mem_of_get hx
    exact ⟨x, List.mem_map.2 ⟨_, hm, rfl⟩, (h.keys _ _ hm).symm⟩
  · rintro ⟨x, hx, e⟩
    rw [h.mem_rules] at hx
    exact ⟨x, by rw [← e]; exact hx⟩

theorem Policy.WF.rules_nodup {p : Policy} (h : p.WF) : p.rules.Nodup := by
  have hk : p.rules.map hash = p.ruleMap.map Prod.fst := by
    unfold Policy.rules
    rw [List.map_map]
    apply List.map_congr_left
    rintro ⟨k, r⟩ he
    exact (h.keys k r he).symm
  have : (p.rules.map hash).Nodup := by rw [hk]; exact h.wf
  have gen : ∀ l : List Rule, (l.map hash).Nodup → l.Nodup := by
    intro l
    induction l with
    | nil => simp
    | cons a l ih =>
      intro h
      rw [List.map_cons, List.nodup_cons] at h
      rw [List.nodup_cons]
      exact ⟨fun hm => h.1 (List.mem_map.2 ⟨a, hm, rfl⟩), ih h.2⟩
  exact gen _ this

theorem Policy.WF.addRule {p : Policy} (h : p.WF) (r : Rule) :
    (p.addRule r).1.WF ∧
    ((p.addRule r).2.1 = true ↔ ¬ ∃ x ∈ p.rules, hash x = hash r) ∧
    (∀ x, x ∈ (p.addRule r).1.rules ↔ x ∈ p.rules ∨ ((p.addRule r).2.1 = true ∧ x = r)) ∧
    (p.addRule r).2.2 = if (p.addRule r).2.1 = true then some (.added r) else none := by
  have hh := h.has_iff r
  unfold Policy.addRule
  by_cases hp : p.ruleMap.has (hash r) = true
  · rw [if_pos hp]
    refine ⟨h, ?_, ?_, ?_⟩
    · simp only [Bool.false_eq_true, false_iff, Classical.not_not]; exact hh.1 hp
    · simp
    · simp
  · rw [if_neg hp]
    have hwf' : Policy.WF ⟨p.ruleMap.set (hash r) r⟩ := by
      refine ⟨h.wf.set _ _, ?_⟩
      intro k x hx
      have hx' := (h.wf.set (hash r) r).get_of_mem hx
      rw [GoMap.get_set] at hx'
      split at hx'
      · rename_i e; cases hx'; exact e.symm
      · exact h.keys k x (GoMap.mem_of_get hx')
    refine ⟨hwf', ?_, ?_, by simp⟩
    · simp only [true_iff]; intro hx; exact hp (hh.2 hx)
    · intro x
      simp only [true_and]
      rw [hwf'.mem_rules, h.mem_rules, GoMap.get_set]
      split
      · rename_i e
        have hn : p.ruleMap.get (hash r) = none := by
          simpa [GoMap.has] using hp
        rw [← e, hn]
        simp [eq_comm]
      · rename_i e
        constructor
        · exact Or.inl
        · rintro (h1 | rfl)
          · exact h1
          · exact absurd rfl e

theorem Policy.WF.removeRule {p : Policy} (h : p.WF) (r : Rule) :
    (p.removeRule r).1.WF ∧
    ((p.removeRule r).2.1 = true ↔ ∃ x ∈ p.rules, hash x = hash r) ∧
    (∀ x, x ∈ (p.removeRule r).1.rules ↔ x ∈ p.rules ∧ hash x ≠ hash r) ∧
    (p.removeRule r).2.2 = if (p.removeRule r).2.1 = true then some (.removed r) else none := by
  have hh := h.has_iff r
  unfold Policy.removeRule
  by_cases hp : p.ruleMap.has (hash r) = true
  · rw [if_pos hp]
    have hwf' : Policy.WF ⟨p.ruleMap.del (hash r)⟩ := by
      refine ⟨h.wf.del _, ?_⟩
      intro k x hx
      exact h.keys k x ((GoMap.del_sublist _ _).mem hx)
    refine ⟨hwf', ?_, ?_, by simp⟩
    · simp only [true_iff]; exact hh.1 hp
    · intro x
      rw [hwf'.mem_rules, h.mem_rules, GoMap.get_del]
      split
      · rename_i e; simp [e]
      · rename_i e
        constructor
        · intro h1; exact ⟨h1, fun e' => e e'.symm⟩
        · exact fun h1 => h1.1
  · rw [if_neg hp]
    refine ⟨h, ?_, ?_, by simp⟩
    · simp only [Bool.false_eq_true, false_iff]; intro hx; exact hp (hh.2 hx)
    · intro x
      constructor
      · intro hx
        refine ⟨hx, fun e => hp (hh.2 ⟨x, hx, e⟩)⟩
      · exact fun h1 => h1.1

theorem Policy.WF.step {p : Policy} (h : p.WF) (op : PolOp) : (p.step op).1.WF := by
  cases op with
  | add r => exact (h.addRule r).1
  | remove r => exact (h.removeRule r).1
  | clear => exact ⟨GoMap.WF.nil, by simp [Policy.step, Policy.clear]⟩

theorem Policy.WF.run {p : Policy} (h : p.WF) (ops : List PolOp) : (p.run ops).WF := by
  induction ops generalizing p with
  | nil => exact h
  | cons op ops ih => exact ih (h.step op)

/-! ## Policies with matchers -/

theorem Policy.step_good {pDef : PolicyDef} {p : Policy} (h : p.WF)
    (hg : ∀ r ∈ p.rules, GoodRule pDef r) (op : PolOp) (ho : op.Good pDef) :
    ∀ r ∈ (p.step op).1.rules, GoodRule pDef r := by
  cases op with
  | add r =>
    intro x hx
    rcases ((h.addRule r).2.2.1 x).1 hx with hx | ⟨_, rfl⟩
    · exact hg x hx
    · exact ho
  | remove r =>
    intro x hx
    exact hg x (((h.removeRule r).2.2.1 x).1 hx).1
  | clear => simp [Policy.step, Policy.clear, Policy.rules]

theorem Policy.run_good {pDef : PolicyDef} {p : Policy} (h : p.WF)
    (hg : ∀ r ∈ p.rules, GoodRule pDef r) (ops : List PolOp) (ho : ∀ op ∈ ops, op.Good pDef) :
    ∀ r ∈ (p.run ops).rules, GoodRule pDef r := by
  induction ops generalizing p with
  | nil => exact hg
  | cons op ops ih =>
    exact ih (h.step op) (step_good h hg op (ho op (by simp))) (fun o h' => ho o (by simp [h']))

/-- The matcher indexes exactly the rules of the policy. -/
structure PolicyWithMatcher.Inv (pDef : PolicyDef) (root : Stage) (s : PolicyWithMatcher) :
    Prop where
  wf : s.policy.WF
  good : ∀ r ∈ s.policy.rules, GoodRule pDef r
  pdef : s.matcher.pDef = pDef
  expr : s.matcher.exprRoot = root
  idx : Idx pDef root s.matcher.root (fun r => r ∈ s.policy.rules)

theorem newMatcher_idx (pDef : PolicyDef) (root : Stage) (hb : root.Binary) (rules : List Rule)
    (hg : ∀ r ∈ rules, GoodRule pDef r) :
    ∃ m, newMatcher pDef root rules = .ok m ∧ m.pDef = pDef ∧ m.exprRoot = root ∧
      Idx pDef root m.root (fun r => r ∈ rules) := by
  have gen : ∀ (rules : List Rule) (m : Matcher) (R : Rule → Prop),
      (∀ r ∈ rules, GoodRule pDef r) → m.pDef = pDef → m.exprRoot = root →
      Idx pDef root m.root R →
      ∃ m' : Matcher, rules.foldl (fun (r : Res Matcher) rule =>
          r.bind (fun m => Matcher.addRule m rule)) (Res.ok m) = .ok m' ∧
        m'.pDef = pDef ∧ m'.exprRoot = root ∧ Idx pDef root m'.root (fun r => r ∈ rules ∨ R r) := by
    intro rules
    induction rules with
    | nil =>
      intro m R _ h1 h2 h3
      exact ⟨m, rfl, h1, h2, Idx_congr _ _ _ (by simp) h3⟩
    | cons r rs ih =>
      intro m R hg h1 h2 h3
      obtain ⟨n', e1, _, e3⟩ := addStage_idx pDef r (hg r (by simp)) root m.root R hb.2 h3
      have hadd : m.addRule r = .ok { m with root := n' } := by
        unfold Matcher.addRule; rw [h1, h2, e1]; rfl
      simp only [List.foldl_cons, Res.bind_ok, hadd]
      obtain ⟨m', f1, f2, f3, f4⟩ := ih { m with root := n' } _
        (fun x hx => hg x (by simp [hx])) h1 h2 e3
      refine ⟨m', f1, f2, f3, Idx_congr _ _ _ (fun x => ?_) f4⟩
      simp only [List.mem_cons]
      constructor
      · rintro (h | h | h)
        · exact Or.inl (Or.inr h)
        · exact Or.inl (Or.inl h)
        · exact Or.inr h
      · rintro ((h | h) | h)
        · exact Or.inr (Or.inl h)
        · exact Or.inl h
        · exact Or.inr (Or.inr h)
  obtain ⟨m', h1, h2, h3, h4⟩ := gen rules ⟨pDef, root, newNode [[]]⟩ (fun _ => False) hg rfl rfl
    (Idx_new pDef _ root hb.1)
  exact ⟨m', h1, h2, h3, Idx_congr _ _ _ (by simp) h4⟩

theorem PolicyWithMatcher.Inv.step {pDef : PolicyDef} {root : Stage} (hb : root.Binary)
    {s : PolicyWithMatcher} (h : s.Inv pDef root) (op : PolOp) (ho : op.Good pDef) :
    ∃ s', s.step op = .ok s' ∧ s'.Inv pDef root ∧ s'.policy = (s.policy.step op).1 := by
  have hwf' := h.wf.step op
  have hg' := Policy.step_good h.wf h.good op ho
  cases op with
  | add r =>
    obtain ⟨_, hb1, hmem, hev⟩ := h.wf.addRule r
    simp only [PolicyWithMatcher.step, Policy.step] at hwf' hg' ⊢
    rcases hst : s.policy.addRule r with ⟨p', b, ev⟩
    rw [hst] at hb1 hmem hev hwf' hg'
    simp only at hb1 hmem hev hwf' hg'
    cases b with
    | false =>
      simp only [Bool.false_eq_true, if_false] at hev
      subst hev
      refine ⟨_, rfl, ⟨hwf', hg', h.pdef, h.expr, ?_⟩, rfl⟩
      exact Idx_congr _ _ _ (fun x => by simp [hmem]) h.idx
    | true =>
      simp only [if_true] at hev
      subst hev
      obtain ⟨n', e1, _, e3⟩ := addStage_idx pDef r ho root s.matcher.root _ hb.2 h.idx
      have hadd : s.matcher.handle (.added r) = .ok { s.matcher with root := n' } := by
        simp only [Matcher.handle, Matcher.addRule]; rw [h.pdef, h.expr, e1]; rfl
      simp only [hadd, Res.map_ok]
      refine ⟨_, rfl, ⟨hwf', hg', h.pdef, h.expr, ?_⟩, rfl⟩
      exact Idx_congr _ _ _ (fun x => by simp [hmem, or_comm]) e3
  | remove r =>
    obtain ⟨_, hb1, hmem, hev⟩ := h.wf.removeRule r
    simp only [PolicyWithMatcher.step, Policy.step] at hwf' hg' ⊢
    rcases hst : s.policy.removeRule r with ⟨p', b, ev⟩
    rw [hst] at hb1 hmem hev hwf' hg'
    simp only at hb1 hmem hev hwf' hg'
    have hmem' : ∀ x, x ∈ p'.rules ↔ x ∈ s.policy.rules ∧ x ≠ r := by
      intro x
      rw [hmem]
      constructor
      · rintro ⟨a, b⟩; exact ⟨a, fun e => b (by rw [e])⟩
      · rintro ⟨a, b⟩; exact ⟨a, fun e => b ((h.good x a).hash_inj ho e)⟩
    cases b with
    | false =>
      simp only [Bool.false_eq_true, if_false] at hev
      subst hev
      refine ⟨_, rfl, ⟨hwf', hg', h.pdef, h.expr, ?_⟩, rfl⟩
      refine Idx_congr _ _ _ (fun x => ?_) h.idx
      rw [hmem]
      constructor
      · intro hx
        refine ⟨hx, fun e => ?_⟩
        have := hb1.2 ⟨x, hx, e⟩
        cases this
      · exact fun hx => hx.1
    | true =>
      simp only [if_true] at hev
      subst hev
      obtain ⟨n', e1, _, e3⟩ := removeStage_idx pDef r ho root s.matcher.root _ h.good h.idx
      have hadd : s.matcher.handle (.removed r) = .ok { s.matcher with root := n' } := by
        simp only [Matcher.handle, Matcher.removeRule]; rw [h.pdef, h.expr, e1]; rfl
      simp only [hadd, Res.map_ok]
      refine ⟨_, rfl, ⟨hwf', hg', h.pdef, h.expr, ?_⟩, rfl⟩
      exact Idx_congr _ _ _ (fun x => by rw [hmem']) e3
  | clear =>
    simp only [PolicyWithMatcher.step, Policy.step, Policy.clear, Matcher.handle, Res.map_ok]
    refine ⟨_, rfl, ⟨hwf', hg', h.pdef, h.expr, ?_⟩, rfl⟩
    exact Idx_congr _ _ _ (by simp [Policy.rules]) (Idx_new pDef [[]] root hb.1)

theorem PolicyWithMatcher.Inv.run {pDef : PolicyDef} {root : Stage} (hb : root.Binary)
    {s : PolicyWithMatcher} (h : s.Inv pDef root) (ops : List PolOp)
    (ho : ∀ op ∈ ops, op.Good pDef) :
    ∃ s', s.run ops = .ok s' ∧ s'.Inv pDef root ∧ s'.policy = s.policy.run ops := by
  induction ops generalizing s with
  | nil => exact ⟨s, rfl, h, rfl⟩
  | cons op ops ih =>
    obtain ⟨s1, e1, h1, p1⟩ := h.step hb op (ho op (by simp))
    obtain ⟨s2, e2, h2, p2⟩ := ih h1 (fun o h' => ho o (by simp [h']))
    refine ⟨s2, ?_, h2, ?_⟩
    · simp only [PolicyWithMatcher.run, e1, Res.bind_ok]; exact e2
    · rw [p2, p1]; rfl

end Fastac
