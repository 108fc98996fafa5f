import Verif.Lemmas.ModelShape
import Verif.Model.Enforce

/-!
# C32–C34 and the role part of C20: the model
-/

namespace Fastac

open Model

/-! ## C32 -/

theorem addPolicyRule_frame (m : Model) (k : Str) (r : Rule) :
    let m' := (m.addPolicyRule k r).1
    (m'.rDefs = m.rDefs ∧ m'.pDefs = m.pDefs ∧ m'.gDefs = m.gDefs ∧ m'.eDefs = m.eDefs ∧
      m'.mDefs = m.mDefs ∧ m'.mMap = m.mMap) ∧ m'.rpMap = m.rpMap ∧
    ∀ k', k' ≠ k → m'.pMap.get k' = m.pMap.get k' := by
  intro m'
  simp only [m', Model.addPolicyRule]
  split
  · simp
  · rename_i p _
    obtain ⟨⟨ls, e⟩, _⟩ := emitPolicy_eq m k p.listeners (p.policy.addRule r).1 (p.policy.addRule r).2.1
      (p.policy.addRule r).2.2
    rw [e]
    refine ⟨⟨rfl, rfl, rfl, rfl, rfl, rfl⟩, rfl, fun k' hk => ?_⟩
    exact GoMap.get_set_ne _ _ hk

theorem removePolicyRule_frame (m : Model) (k : Str) (r : Rule) :
    let m' := (m.removePolicyRule k r).1
    (m'.rDefs = m.rDefs ∧ m'.pDefs = m.pDefs ∧ m'.gDefs = m.gDefs ∧ m'.eDefs = m.eDefs ∧
      m'.mDefs = m.mDefs ∧ m'.mMap = m.mMap) ∧ m'.rpMap = m.rpMap ∧
    ∀ k', k' ≠ k → m'.pMap.get k' = m.pMap.get k' := by
  intro m'
  simp only [m', Model.removePolicyRule]
  split
  · simp
  · rename_i p _
    obtain ⟨⟨ls, e⟩, _⟩ := emitPolicy_eq m k p.listeners (p.policy.removeRule r).1
      (p.policy.removeRule r).2.1 (p.policy.removeRule r).2.2
    rw [e]
    refine ⟨⟨rfl, rfl, rfl, rfl, rfl, rfl⟩, rfl, fun k' hk => ?_⟩
    exact GoMap.get_set_ne _ _ hk

/-- What a call that is about the policy `k` may not touch. -/
def Model.SameBut (k : Str) (m m' : Model) : Prop :=
  (m'.rDefs = m.rDefs ∧ m'.pDefs = m.pDefs ∧ m'.gDefs = m.gDefs ∧ m'.eDefs = m.eDefs ∧
    m'.mDefs = m.mDefs ∧ m'.mMap = m.mMap) ∧
  (∀ k', k' ≠ k ∨ k.head? ≠ some 'p' → m'.pMap.get k' = m.pMap.get k') ∧
  (∀ k', k' ≠ k ∨ k.head? ≠ some 'g' → m'.rpMap.get k' = m.rpMap.get k')

/-- **C32**, the part that holds: for every model and every rule with a non-empty first field `k`,
`AddRule` and `RemoveRule` leave all definitions, all matcher entries and every policy and role policy
(with the matchers that listen to it) other than the one named `k` as they were.  If there is no policy
named `k` (no role policy, when `k` starts with `g`), the result is an error, no event is emitted and
nothing changes.  Missing: empty rules and rules with an empty first field, for which the code panics
(`c32_fails`). -/
theorem c32_dispatch_partial (m : Model) (k : Str) (fields : Rule) (hk : k ≠ []) :
    SameBut k m (m.addRule (k :: fields)).1 ∧ SameBut k m (m.removeRule (k :: fields)).1 ∧
    (¬ (k.head? = some 'p' ∧ (m.pMap.get k).isSome) → ¬ (k.head? = some 'g' ∧ (m.rpMap.get k).isSome) →
      m.addRule (k :: fields) = (m, .err, none) ∧ m.removeRule (k :: fields) = (m, .err, none)) := by
  cases k with
  | nil => exact absurd rfl hk
  | cons c cs =>
    refine ⟨?_, ?_, ?_⟩
    · unfold Model.addRule
      simp only
      by_cases hp : c = 'p'
      · subst hp
        obtain ⟨a, b, d⟩ := addPolicyRule_frame m ('p' :: cs) fields
        refine ⟨a, fun k' hk' => d k' (hk'.resolve_right (by simp)), fun k' _ => ?_⟩
        exact congrArg (fun x => GoMap.get x k') b
      · simp only [hp, if_false]
        by_cases hg : c = 'g'
        · subst hg
          simp only [if_true, Model.addRoleRule]
          split
          · exact ⟨⟨rfl, rfl, rfl, rfl, rfl, rfl⟩, fun _ _ => rfl, fun _ _ => rfl⟩
          · refine ⟨⟨rfl, rfl, rfl, rfl, rfl, rfl⟩, fun _ _ => rfl, fun k' hk' => ?_⟩
            exact GoMap.get_set_ne _ _ (hk'.resolve_right (by simp))
        · simp only [hg, if_false]
          exact ⟨⟨rfl, rfl, rfl, rfl, rfl, rfl⟩, fun _ _ => rfl, fun _ _ => rfl⟩
    · unfold Model.removeRule
      simp only
      by_cases hp : c = 'p'
      · subst hp
        obtain ⟨a, b, d⟩ := removePolicyRule_frame m ('p' :: cs) fields
        refine ⟨a, fun k' hk' => d k' (hk'.resolve_right (by simp)), fun k' _ => ?_⟩
        exact congrArg (fun x => GoMap.get x k') b
      · simp only [hp, if_false]
        by_cases hg : c = 'g'
        · subst hg
          simp only [if_true, Model.removeRoleRule]
          split
          · exact ⟨⟨rfl, rfl, rfl, rfl, rfl, rfl⟩, fun _ _ => rfl, fun _ _ => rfl⟩
          · refine ⟨⟨rfl, rfl, rfl, rfl, rfl, rfl⟩, fun _ _ => rfl, fun k' hk' => ?_⟩
            exact GoMap.get_set_ne _ _ (hk'.resolve_right (by simp))
        · simp only [hg, if_false]
          exact ⟨⟨rfl, rfl, rfl, rfl, rfl, rfl⟩, fun _ _ => rfl, fun _ _ => rfl⟩
    · intro h1 h2
      have hno : ∀ k f, (c :: cs) :: fields = k :: f → ¬ m.Knows k := by
        intro k f e hkn
        cases e
        rcases hkn with hkn | hkn
        · exact h1 hkn
        · exact h2 hkn
      obtain ⟨⟨a, b⟩, d⟩ := addRule_unknown _ hno
      obtain ⟨⟨a', b'⟩, d'⟩ := removeRule_unknown _ hno
      have e1 : (m.addRule ((c :: cs) :: fields)).2.1 = .err := by
        rcases d with (h | ⟨f, h⟩) | h
        · cases h
        · cases h
        · exact h
      have e2 : (m.removeRule ((c :: cs) :: fields)).2.1 = .err := by
        rcases d' with (h | ⟨f, h⟩) | h
        · cases h
        · cases h
        · exact h
      exact ⟨Prod.ext a (Prod.ext e1 b), Prod.ext a' (Prod.ext e2 b')⟩

/-- **C32 fails** for the empty rule and for a rule with an empty key: both calls panic instead of
returning an error, on every model. -/
theorem c32_fails (m : Model) (fields : Rule) :
    (m.addRule []).2.1 = .panic ∧ (m.removeRule []).2.1 = .panic ∧
    (m.addRule ([] :: fields)).2.1 = .panic ∧ (m.removeRule ([] :: fields)).2.1 = .panic :=
  ⟨rfl, rfl, rfl, rfl⟩

/-! ## C33 -/

theorem rangeList_foldl {σ : Type} (f : σ → Rule → σ) (l : List Rule) : ∀ s,
    rangeList (fun s r => (f s r, true)) l s = l.foldl f s := by
  induction l with
  | nil => intro s; rfl
  | cons r l ih => intro s; exact ih (f s r)

theorem rules_nodup {m : Model} (h : m.Tidy) : m.rules.Nodup := by
  unfold Model.rules ruleRuns
  rw [List.flatten_append, List.nodup_append]
  have pfx : ∀ (k : Str) (l : List Rule), l.Nodup → (l.map (fun r => k :: r)).Nodup := by
    intro k l hl
    apply List.Pairwise.map _ _ hl
    intro a b hne e
    cases e; exact hne rfl
  have gen : ∀ {V : Type} (g : V → List Rule) (mp : GoMap Str V), mp.WF →
      (∀ k v, (k, v) ∈ mp → (g v).Nodup) →
      (mp.map (fun e => (g e.2).map (fun r => e.1 :: r))).flatten.Nodup := by
    intro V g mp
    induction mp with
    | nil => intro _ _; simp
    | cons e mp ih =>
      obtain ⟨k, v⟩ := e
      intro hw hn
      unfold GoMap.WF at hw
      simp only [List.map_cons, List.nodup_cons] at hw
      rw [List.map_cons, List.flatten_cons, List.nodup_append]
      refine ⟨pfx _ _ (hn k v (by simp)), ih hw.2 (fun k v h => hn k v (by simp [h])), ?_⟩
      intro a ha b hb e
      subst e
      obtain ⟨r, _, rfl⟩ := List.mem_map.1 ha
      obtain ⟨l, hl, hb⟩ := List.mem_flatten.1 hb
      obtain ⟨⟨k', v'⟩, hm, rfl⟩ := List.mem_map.1 hl
      obtain ⟨r', _, e⟩ := List.mem_map.1 hb
      cases e
      exact hw.1 (List.mem_map.2 ⟨_, hm, rfl⟩)
  have e2 : ∀ mp : GoMap Str RolePolicy,
      (mp.flatMap (fun e => e.2.runs.map (fun g => g.map (fun r => e.1 :: r)))).flatten =
      (mp.map (fun e => e.2.rules.map (fun r => e.1 :: r))).flatten := by
    intro mp
    induction mp with
    | nil => rfl
    | cons e mp ih =>
      rw [List.flatMap_cons, List.flatten_append, ih, List.map_cons, List.flatten_cons]
      congr 1
      unfold RolePolicy.rules
      rw [List.map_flatten]
  rw [e2]
  refine ⟨gen (fun p => p.policy.rules) m.pMap h.pw
      (fun k v hm => (h.pols k v (h.pw.get_of_mem hm)).2.1.rules_nodup),
    gen RolePolicy.rules m.rpMap h.rw
      (fun k v hm => RolePolicy.rules_nodup (h.roles k v (h.rw.get_of_mem hm)).2.1), ?_⟩
  intro a ha b hb e
  subst e
  obtain ⟨l, hl, ha⟩ := List.mem_flatten.1 ha
  obtain ⟨⟨k, v⟩, hm, rfl⟩ := List.mem_map.1 hl
  obtain ⟨r, _, rfl⟩ := List.mem_map.1 ha
  obtain ⟨l', hl', hb⟩ := List.mem_flatten.1 hb
  obtain ⟨⟨k', v'⟩, hm', rfl⟩ := List.mem_map.1 hl'
  obtain ⟨r', _, e⟩ := List.mem_map.1 hb
  cases e
  have a := (h.pols _ _ (h.pw.get_of_mem hm)).1
  rw [(h.roles _ _ (h.rw.get_of_mem hm')).1] at a
  cases a

/-- **C33**, the part that holds: on every model that calls can produce, `RangeRules` with a callback
that never returns false calls it once for each rule: for each rule `fields` of the policy `k`, once
with `k :: fields`, and with nothing else.  Missing: callbacks that return false (`c33_fails`). -/
theorem c33_range_partial {build : Str → Res Stage} {m : Model} (h : Made build m) :
    (∀ (σ : Type) (f : σ → Rule → σ) (s : σ),
      m.rangeRules (fun s r => (f s r, true)) s = m.rules.foldl f s) ∧
    m.rules.Nodup ∧
    ∀ x, x ∈ m.rules ↔ ∃ k fields rs, x = k :: fields ∧ m.policyRules k = some rs ∧ fields ∈ rs := by
  refine ⟨?_, rules_nodup h.tidy, ?_⟩
  · intro σ f s
    unfold Model.rangeRules Model.rules
    simp only [rangeList_foldl]
    generalize m.ruleRuns = l
    induction l generalizing s with
    | nil => rfl
    | cons a l ih => rw [List.foldl_cons, ih, List.flatten_cons, List.foldl_append]
  · intro x
    have ht := h.tidy
    rw [mem_rules ht]
    unfold policyRules
    constructor
    · rintro ⟨k, f, rfl, ⟨p, hg, hm⟩ | ⟨rp, hg, hm⟩⟩
      · exact ⟨k, f, _, rfl, by rw [hg], hm⟩
      · refine ⟨k, f, rp.rules, rfl, ?_, hm⟩
        cases hp : m.pMap.get k with
        | none => simp [hg]
        | some p =>
          have a := (ht.pols k p hp).1
          rw [(ht.roles k rp hg).1] at a
          cases a
    · rintro ⟨k, f, rs, rfl, he, hm⟩
      refine ⟨k, f, rfl, ?_⟩
      cases hp : m.pMap.get k with
      | some p =>
        rw [hp] at he; cases he
        exact Or.inl ⟨p, rfl, hm⟩
      | none =>
        rw [hp] at he
        simp only at he
        cases hg : m.rpMap.get k with
        | none => rw [hg] at he; cases he
        | some rp =>
          rw [hg] at he; cases he
          exact Or.inr ⟨rp, rfl, hm⟩

/-- The rules up to and with the first one at which the callback stops. -/
private def upTo (go : Rule → Bool) : List Rule → List Rule
  | [] => []
  | r :: rs => if go r = true then r :: upTo go rs else [r]

private theorem rangeList_record (go : Rule → Bool) (rs s : List Rule) :
    rangeList (fun s r => (s ++ [r], go r)) rs s = s ++ upTo go rs := by
  induction rs generalizing s with
  | nil => simp [rangeList, upTo]
  | cons r rs ih =>
    cases h : go r with
    | true => simp only [rangeList, upTo, h, if_true, ih, List.append_assoc, List.singleton_append]
    | false => simp [rangeList, upTo, h]

private theorem upTo_sublist (go : Rule → Bool) (rs : List Rule) : (upTo go rs).Sublist rs := by
  induction rs with
  | nil => exact .slnil
  | cons r rs ih =>
    simp only [upTo]
    split
    · exact ih.cons_cons r
    · exact (List.nil_sublist rs).cons_cons r

private theorem upTo_pairwise (go : Rule → Bool) (rs : List Rule) :
    (upTo go rs).Pairwise (fun a _ => go a = true) := by
  induction rs with
  | nil => exact .nil
  | cons r rs ih =>
    simp only [upTo]
    split
    · rename_i h
      exact .cons (fun _ _ => h) ih
    · exact .cons (fun _ hm => nomatch hm) .nil

private theorem upTo_rest (go : Rule → Bool) {rs : List Rule} {x : Rule} (hx : x ∈ rs)
    (hn : x ∉ upTo go rs) : ∃ y ∈ upTo go rs, go y = false := by
  induction rs with
  | nil => cases hx
  | cons r rs ih =>
    simp only [upTo] at hn ⊢
    split at hn
    · rename_i h
      rw [if_pos h]
      rcases List.mem_cons.1 hx with rfl | hx
      · exact absurd (List.mem_cons_self ..) hn
      · obtain ⟨y, hy, e⟩ := ih hx (fun hm => hn (List.mem_cons_of_mem _ hm))
        exact ⟨y, List.mem_cons_of_mem _ hy, e⟩
    · rename_i h
      rw [if_neg h]
      exact ⟨r, List.mem_cons_self .., by simpa using h⟩

private theorem sublist_flatten (f : List Rule → List Rule) (hf : ∀ l, (f l).Sublist l)
    (l : List (List Rule)) : (l.map f).flatten.Sublist l.flatten := by
  induction l with
  | nil => exact .slnil
  | cons a l ih =>
    rw [List.map_cons, List.flatten_cons, List.flatten_cons]
    exact (hf a).append ih

private theorem rangeRules_record (m : Model) (go : Rule → Bool) :
    m.rangeRules (fun s r => (s ++ [r], go r)) [] = (m.ruleRuns.map (upTo go)).flatten := by
  unfold Model.rangeRules
  simp only [rangeList_record]
  have gen : ∀ (l : List (List Rule)) (s : List Rule),
      l.foldl (fun s rules => s ++ upTo go rules) s = s ++ (l.map (upTo go)).flatten := by
    intro l
    induction l with
    | nil => simp
    | cons a l ih => intro s; simp [ih]
  rw [gen]
  rfl

/-- **C33**, the part of the early stop that holds: take a callback that returns `go r` when it is called
with the rule `r`, and let `seen` be the rules it is called with, in order.  No rule is passed twice or
out of order, after a rule of a `p` policy with the answer false no other rule of that policy is passed, and
a stored rule is left out only if the callback has returned false for a rule of the same policy.  In the model
of `c33_fails` the second rule of `p` is left out. -/
theorem c33_stop_partial {build : Str → Res Stage} {m : Model} (h : Made build m) (go : Rule → Bool) :
    let seen := m.rangeRules (fun s r => (s ++ [r], go r)) []
    seen.Sublist m.rules ∧ seen.Nodup ∧
    seen.Pairwise (fun a b => ∀ k, k.head? = some 'p' → a.head? = some k → b.head? = some k →
      go a = true) ∧
    ∀ x ∈ m.rules, x ∉ seen → ∃ y ∈ seen, y.head? = x.head? ∧ go y = false := by
  intro seen
  have hs : seen = (m.ruleRuns.map (upTo go)).flatten := rangeRules_record m go
  have hsub : seen.Sublist m.rules := hs ▸ sublist_flatten _ (upTo_sublist go) _
  have ht := h.tidy
  have heads : ∀ g ∈ m.ruleRuns, ∀ a ∈ g, ∀ b ∈ g, a.head? = b.head? := by
    intro g hg a ha b hb
    rcases List.mem_append.1 hg with hg | hg
    · obtain ⟨e, _, rfl⟩ := List.mem_map.1 hg
      obtain ⟨_, _, rfl⟩ := List.mem_map.1 ha
      obtain ⟨_, _, rfl⟩ := List.mem_map.1 hb
      rfl
    · obtain ⟨e, _, hg⟩ := List.mem_flatMap.1 hg
      obtain ⟨_, _, rfl⟩ := List.mem_map.1 hg
      obtain ⟨_, _, rfl⟩ := List.mem_map.1 ha
      obtain ⟨_, _, rfl⟩ := List.mem_map.1 hb
      rfl
  refine ⟨hsub, hsub.nodup (rules_nodup ht), ?_, ?_⟩
  · rw [hs, List.pairwise_flatten]
    constructor
    · intro l hl
      obtain ⟨g, _, rfl⟩ := List.mem_map.1 hl
      exact (upTo_pairwise go g).imp (fun h _ _ _ _ => h)
    · rw [List.pairwise_map]
      have grow : ∀ {g g' : List Rule}, (∀ a ∈ g, ∀ b ∈ g', ∀ k : Str, k.head? = some 'p' →
          a.head? = some k → b.head? = some k → False) →
          ∀ a ∈ upTo go g, ∀ b ∈ upTo go g', ∀ k : Str, k.head? = some 'p' →
          a.head? = some k → b.head? = some k → go a = true :=
        fun h a ha b hb k hk e e' =>
          (h a ((upTo_sublist go _).subset ha) b ((upTo_sublist go _).subset hb) k hk e e').elim
      unfold Model.ruleRuns
      rw [List.pairwise_append]
      refine ⟨?_, ?_, ?_⟩
      · rw [List.pairwise_map]
        have hw : m.pMap.Pairwise (fun a b => a.1 ≠ b.1) := List.pairwise_map.1 ht.pw
        refine hw.imp (fun {a b} hne => grow ?_)
        intro x hx y hy k _ e e'
        obtain ⟨_, _, rfl⟩ := List.mem_map.1 hx
        obtain ⟨_, _, rfl⟩ := List.mem_map.1 hy
        exact hne ((Option.some.inj e).trans (Option.some.inj e').symm)
      · refine List.Pairwise.imp_of_mem (R := fun _ _ => True) ?_ (List.pairwise_of_forall (fun _ _ => trivial))
        intro g g' hg _ _
        refine grow (fun a ha b _ k hk e _ => ?_)
        obtain ⟨x, hx, hg⟩ := List.mem_flatMap.1 hg
        obtain ⟨_, _, rfl⟩ := List.mem_map.1 hg
        obtain ⟨_, _, rfl⟩ := List.mem_map.1 ha
        cases e
        rw [(ht.roles _ _ (ht.rw.get_of_mem hx)).1] at hk
        cases hk
      · intro g hg g' hg'
        refine grow (fun a _ b hb k hk _ e => ?_)
        obtain ⟨x, hx, hg⟩ := List.mem_flatMap.1 hg'
        obtain ⟨_, _, rfl⟩ := List.mem_map.1 hg
        obtain ⟨_, _, rfl⟩ := List.mem_map.1 hb
        cases e
        rw [(ht.roles _ _ (ht.rw.get_of_mem hx)).1] at hk
        cases hk
  · intro x hx hn
    rw [hs] at hn ⊢
    obtain ⟨g, hg, hx⟩ := List.mem_flatten.1 hx
    obtain ⟨y, hy, e⟩ := upTo_rest go hx
      (fun hm => hn (List.mem_flatten.2 ⟨_, List.mem_map_of_mem hg, hm⟩))
    exact ⟨y, List.mem_flatten.2 ⟨_, List.mem_map_of_mem hg, hy⟩,
      heads g hg _ ((upTo_sublist go g).subset hy) _ hx, e⟩

/-! ## C34 -/

/-- **C34**, single calls, the part that holds: on every model that calls can produce, for matchers with
at most two alternatives per stage and for every rule that fits the model and names an existing policy:
`AddRule` (`RemoveRule`) returns true iff the rule was absent (present), the rules are then those before
with (without) it, and the model's event is emitted, once and with that rule, iff the result is true. -/
theorem c34_call_partial {build : Str → Res Stage} (hb : ∀ e s, build e = .ok s → s.Binary) {m : Model}
    (h : Made build m) (k : Str) (fields : Rule) (hf : m.Fits (k :: fields)) (hk : m.Knows k) :
    (((m.addRule (k :: fields)).2 = (.ok true, some (.added (k :: fields))) ∧ k :: fields ∉ m.rules ∨
        (m.addRule (k :: fields)).2 = (.ok false, none) ∧ k :: fields ∈ m.rules) ∧
      ∀ x, x ∈ (m.addRule (k :: fields)).1.rules ↔ x ∈ m.rules ∨ x = k :: fields) ∧
    (((m.removeRule (k :: fields)).2 = (.ok true, some (.removed (k :: fields))) ∧ k :: fields ∈ m.rules ∨
        (m.removeRule (k :: fields)).2 = (.ok false, none) ∧ k :: fields ∉ m.rules) ∧
      ∀ x, x ∈ (m.removeRule (k :: fields)).1.rules ↔ x ∈ m.rules ∧ x ≠ k :: fields) := by
  have hne : k ≠ [] := by
    rcases hk with hk | hk <;> · rintro rfl; simp at hk
  constructor
  · have d := h.tidy.addRule k fields hf hk
    obtain ⟨b, hok⟩ := (h.fine hb).addRule_ok h.tidy hf hk
    refine ⟨?_, d.rules⟩
    have hev : (m.addRule (k :: fields)).2.2 =
        if (m.addRule (k :: fields)).2.1 = .ok true then some (.added (k :: fields)) else none := by
      cases k with
      | nil => exact absurd rfl hne
      | cons c cs => rfl
    rw [hok] at hev
    rcases d.res with ⟨a, e, ha⟩ | ⟨e | e, _⟩
    · rw [hok] at e
      cases e
      cases b with
      | true => exact Or.inl ⟨Prod.ext hok (by rw [hev]; simp), ha.1 rfl⟩
      | false =>
        refine Or.inr ⟨Prod.ext hok (by rw [hev]; simp), ?_⟩
        apply Classical.byContradiction
        intro hn
        exact absurd (ha.2 hn) (by simp)
    · rw [hok] at e; cases e
    · rw [hok] at e; cases e
  · have d := h.tidy.removeRule k fields hf hk
    obtain ⟨b, hok⟩ := (h.fine hb).removeRule_ok h.tidy hf hk
    refine ⟨?_, d.rules⟩
    have hev : (m.removeRule (k :: fields)).2.2 =
        if (m.removeRule (k :: fields)).2.1 = .ok true then some (.removed (k :: fields)) else none := by
      cases k with
      | nil => exact absurd rfl hne
      | cons c cs => rfl
    rw [hok] at hev
    rcases d.res with ⟨a, e, ha⟩ | ⟨e | e, _⟩
    · rw [hok] at e
      cases e
      cases b with
      | true => exact Or.inl ⟨Prod.ext hok (by rw [hev]; simp), ha.1 rfl⟩
      | false =>
        refine Or.inr ⟨Prod.ext hok (by rw [hev]; simp), ?_⟩
        intro hn
        exact absurd (ha.2 hn) (by simp)
    · rw [hok] at e; cases e
    · rw [hok] at e; cases e

/-- The rule of a call that adds or removes one. -/
def Model.Op.rule? : Model.Op → Option Rule
  | .add r | .remove r => some r
  | .clear _ => none

theorem gDefs_add (m : Model) (r : Rule) : (m.addRule r).1.gDefs = m.gDefs := by
  match r with
  | [] => rfl
  | [] :: _ => rfl
  | (c :: cs) :: f => exact (c32_dispatch_partial m (c :: cs) f (by simp)).1.1.2.2.1

theorem gDefs_remove (m : Model) (r : Rule) : (m.removeRule r).1.gDefs = m.gDefs := by
  match r with
  | [] => rfl
  | [] :: _ => rfl
  | (c :: cs) :: f => exact (c32_dispatch_partial m (c :: cs) f (by simp)).2.1.1.2.2.1

theorem fits_of_gDefs {m m' : Model} (h : m'.gDefs = m.gDefs) {r : Rule} (hf : m.Fits r) : m'.Fits r := by
  cases r with
  | nil => trivial
  | cons k f =>
    unfold Model.Fits at hf ⊢
    rw [h]; exact hf

/-- **C34**, replaying, the part that holds: for every history of `AddRule` and `RemoveRule` calls with
fitting rules on every model that calls can produce (matchers with at most two alternatives per stage;
keys known or unknown), replaying the emitted events over the initial rules yields the final rules.
Missing: `ClearPolicy` (`c34_fails`), matchers that panic (`c34_fails_panic`), rules that do not fit. -/
theorem c34_replay_partial {build : Str → Res Stage} (hb : ∀ e s, build e = .ok s → s.Binary)
    (H : List Model.Op) : ∀ {m : Model}, Made build m →
    (∀ op ∈ H, ∃ r, op.rule? = some r ∧ m.Fits r) →
    ∀ x, x ∈ (m.run H).1.rules ↔ replay x (decide (x ∈ m.rules)) (m.run H).2 = true := by
  have happ : ∀ (x : Rule) (es es' : List ModEvent) (b : Bool),
      replay x b (es ++ es') = replay x (replay x b es) es' := by
    intro x es es'
    induction es with
    | nil => intro b; rfl
    | cons e es ih => intro b; cases e <;> simp only [List.cons_append, replay, ih]
  induction H with
  | nil => intro m _ _ x; simp [Model.run, replay]
  | cons op H ih =>
    intro m hm hf x
    have hstep : Made build (m.step op).1 ∧ (m.step op).1.gDefs = m.gDefs ∧
        (x ∈ (m.step op).1.rules ↔ replay x (decide (x ∈ m.rules)) (m.step op).2 = true) := by
      obtain ⟨r, hr, hfit⟩ := hf op (by simp)
      cases op with
      | add r =>
        cases hr
        refine ⟨hm.add r hfit, gDefs_add m r, ?_⟩
        simp only [Model.step]
        by_cases hk : ∃ k fields, r = k :: fields ∧ m.Knows k
        · obtain ⟨k, fields, rfl, hk⟩ := hk
          obtain ⟨⟨h1, h2⟩, -⟩ := c34_call_partial hb hm k fields hfit hk
          rw [h2 x]
          rcases h1 with ⟨e, h1⟩ | ⟨e, h1⟩
          · rw [e]
            simp only [Option.toList, replay, Bool.or_eq_true, decide_eq_true_eq, beq_iff_eq]
            constructor
            · rintro (h | h)
              · exact Or.inl h
              · exact Or.inr h.symm
            · rintro (h | h)
              · exact Or.inl h
              · exact Or.inr h.symm
          · rw [e]
            simp only [Option.toList, replay, decide_eq_true_eq]
            constructor
            · rintro (h | h)
              · exact h
              · subst h; exact h1
            · exact Or.inl
        · obtain ⟨⟨a, b⟩, _⟩ := addRule_unknown (m := m) r (fun k f e hk' => hk ⟨k, f, e, hk'⟩)
          rw [a, b]
          simp [replay]
      | remove r =>
        cases hr
        refine ⟨hm.remove r hfit, gDefs_remove m r, ?_⟩
        simp only [Model.step]
        by_cases hk : ∃ k fields, r = k :: fields ∧ m.Knows k
        · obtain ⟨k, fields, rfl, hk⟩ := hk
          obtain ⟨-, ⟨h1, h2⟩⟩ := c34_call_partial hb hm k fields hfit hk
          rw [h2 x]
          rcases h1 with ⟨e, h1⟩ | ⟨e, h1⟩
          · rw [e]
            simp only [Option.toList, replay, Bool.and_eq_true, decide_eq_true_eq, bne_iff_ne]
            constructor
            · rintro ⟨h, h'⟩; exact ⟨h, fun e => h' e.symm⟩
            · rintro ⟨h, h'⟩; exact ⟨h, fun e => h' e.symm⟩
          · rw [e]
            simp only [Option.toList, replay, decide_eq_true_eq]
            constructor
            · exact fun h => h.1
            · intro h; exact ⟨h, fun e => h1 (e ▸ h)⟩
        · obtain ⟨⟨a, b⟩, _⟩ := removeRule_unknown (m := m) r (fun k f e hk' => hk ⟨k, f, e, hk'⟩)
          rw [a, b]
          simp [replay]
      | clear k => cases hr
    obtain ⟨h1, h2, h3⟩ := hstep
    have := ih h1 (fun o ho => by
      obtain ⟨r, hr, hfit⟩ := hf o (by simp [ho])
      exact ⟨r, hr, fits_of_gDefs h2 hfit⟩) x
    simp only [Model.run]
    rw [this, happ]
    have e : decide (x ∈ (m.step op).1.rules) = replay x (decide (x ∈ m.rules)) (m.step op).2 := by
      rw [Bool.eq_iff_iff, decide_eq_true_eq]; exact h3
    rw [e]

/-! ## Examples and counterexamples -/

namespace ModelExample

def root : Stage := .mk [] [.mk (s% "r_sub == p_sub") [.mk (s% "r_act == p_act") []]]
def gRoot : Stage := .mk [] [.mk (s% "r_sub == g_user") []]
def three : Stage := .mk [] [.mk (s% "r_sub == p_sub") [], .mk (s% "r_sub == p_act") [],
  .mk (s% "r_sub == p_obj") []]
def build (e : Str) : Res Stage :=
  if e = s% "m" then .ok root else if e = s% "g" then .ok gRoot else .err
def build3 (_ : Str) : Res Stage := .ok three

theorem binary : ∀ e s, build e = .ok s → s.Binary := by
  intro e s h
  unfold build at h
  split at h
  · cases h; simp [root, Stage.Binary, Stage.All, Stage.AllIn, Stage.children]
  · split at h
    · cases h; simp [gRoot, Stage.Binary, Stage.All, Stage.AllIn, Stage.children]
    · cases h

/-- definitions `p`, `g` (two arguments), `g2` (domains) and two matchers -/
def defs (b : Str → Res Stage) : Model :=
  (((((((Model.new.setDef 'p' (s% "p") (s% "sub, act")).1.setDef 'g' (s% "g") (s% "_, _")).1.setDef
    'g' (s% "g2") (s% "_, _, _")).1.setDef 'm' (s% "m") (s% "m")).1.setDef 'm' (s% "m2") (s% "g")).1.buildMatcher
    b (s% "m")).1.buildMatcher b (s% "m2")).1

theorem made (b : Str → Res Stage) : Made b (defs b) :=
  .build (.build (.setDef (.setDef (.setDef (.setDef (.setDef .new _ _ _) _ _ _) _ _ _) _ _ _) _ _ _) _) _

def pRule : Rule := [s% "p", s% "alice", s% "read"]
def gRule : Rule := [s% "g", s% "alice", s% "admin"]
def dRule : Rule := [s% "g2", s% "alice", s% "admin", s% "x"]

def H : List Model.Op :=
  [.add pRule, .add gRule, .add dRule, .add pRule, .add [s% "q", s% "a"], .remove gRule, .remove gRule]

-- the premises of C32–C34, with a history that has repeated and unknown rules
example : (∀ op ∈ H, ∃ r, op.rule? = some r ∧ (defs build).Fits r) ∧
    ((defs build).run H).2 = [.added pRule, .added gRule, .added dRule, .removed gRule] ∧
    ((defs build).run H).1.rules = [pRule, dRule] := by
  refine ⟨?_, by decide, by decide⟩
  intro op hop
  simp only [H, List.mem_cons, List.not_mem_nil, or_false] at hop
  have hp : (defs build).Fits pRule := ⟨fun _ => by decide, by decide, fun h => absurd h (by decide)⟩
  have hg : (defs build).Fits gRule := ⟨by decide, by decide, fun _ h => absurd (by decide) h⟩
  have hd : (defs build).Fits dRule := by
    refine ⟨by decide, fun _ h => absurd h (by decide), fun _ _ => ⟨by decide, ?_⟩⟩
    intro d hd
    simp at hd
    subst hd
    decide
  rcases hop with rfl | rfl | rfl | rfl | rfl | rfl | rfl
  · exact ⟨_, rfl, hp⟩
  · exact ⟨_, rfl, hg⟩
  · exact ⟨_, rfl, hd⟩
  · exact ⟨_, rfl, hp⟩
  · exact ⟨_, rfl, by decide, by decide, fun h => absurd h (by decide)⟩
  · exact ⟨_, rfl, hg⟩
  · exact ⟨_, rfl, hg⟩

example : Knows (defs build) (s% "p") ∧ Knows (defs build) (s% "g2") ∧ ¬ Knows (defs build) (s% "q") := by
  refine ⟨Or.inl ⟨by decide, by decide⟩, Or.inr ⟨by decide, by decide⟩, ?_⟩
  rintro (⟨h, _⟩ | ⟨h, _⟩) <;> revert h <;> decide

/-- **C33 fails** for a callback that returns false: it is called again, for the rules of the other
policies, for the other users of the role policy, and for every link of a domain manager. -/
theorem c33_fails : ∃ m, Made build m ∧
    m.rangeRules (fun (seen : List Rule) r => (seen ++ [r], false)) [] =
      [pRule, gRule, [s% "g", s% "bob", s% "admin"], dRule, [s% "g2", s% "alice", s% "root", s% "x"]] := by
  let a : Rule := [s% "p", s% "bob", s% "read"]
  let b : Rule := [s% "g", s% "bob", s% "admin"]
  let c : Rule := [s% "g2", s% "alice", s% "root", s% "x"]
  let d : Rule := [s% "g", s% "alice", s% "root"]
  have hfd : ∀ r ∈ [dRule, c], (defs build).Fits r := by
    intro r hr
    simp only [List.mem_cons, List.not_mem_nil, or_false] at hr
    rcases hr with rfl | rfl
    · refine ⟨by decide, fun _ h => absurd h (by decide), fun _ _ => ⟨by decide, ?_⟩⟩
      intro d hd
      simp at hd
      subst hd
      decide
    · refine ⟨by decide, fun _ h => absurd h (by decide), fun _ _ => ⟨by decide, ?_⟩⟩
      intro d hd
      simp at hd
      subst hd
      decide
  have m0 := made build
  have m1 := m0.add pRule ⟨fun _ => by decide, by decide, fun h => absurd h (by decide)⟩
  have m2 := m1.add a ⟨fun _ => by decide, by decide, fun h => absurd h (by decide)⟩
  have m3 := m2.add gRule ⟨by decide, by decide, fun _ h => absurd (by decide) h⟩
  have m4 := m3.add b ⟨by decide, by decide, fun _ h => absurd (by decide) h⟩
  have m5 := m4.add d ⟨by decide, by decide, fun _ h => absurd (by decide) h⟩
  have m6 := m5.add dRule (fits_of_gDefs (by decide) (hfd _ (by simp)))
  have m7 := m6.add c (fits_of_gDefs (by decide) (hfd _ (by simp)))
  exact ⟨_, m7, by decide⟩

/-- **C34 fails** for `ClearPolicy`: the rule is gone, no event was emitted. -/
theorem c34_fails : ∃ m, Made build m ∧ pRule ∈ m.rules ∧ (m.run [.clear (s% "p")]).2 = [] ∧
    (m.run [.clear (s% "p")]).1.rules = [] :=
  ⟨((defs build).addRule pRule).1, (made build).add pRule ⟨fun _ => by decide, by decide, fun h => absurd h (by decide)⟩,
    by decide, by decide, by decide⟩

/-- **C34 fails** when a matcher panics (three alternatives): the rule is stored, no event was
emitted. -/
theorem c34_fails_panic : ∃ m, Made build3 m ∧ pRule ∉ m.rules ∧ (m.addRule pRule).2 = (.panic, none) ∧
    pRule ∈ (m.addRule pRule).1.rules :=
  ⟨defs build3, made build3, by decide, by decide, by decide⟩

/-- **C20 fails** for role policies: `RolePolicy.Clear` emits no event, so that a matcher on `g` still
reports the rule after `ClearPolicy("g")`. -/
theorem c20_fails : ∃ (m : Model) (mt : Matcher) (E : Evaluator), Made build m ∧
    (m.clearPolicy (s% "g")).2 = .ok () ∧ (m.clearPolicy (s% "g")).1.policyRules (s% "g") = some [] ∧
    (m.clearPolicy (s% "g")).1.getMatcher (s% "m2") = some mt ∧
    E.eval (s% "r_sub == g_user") [[], [], []] = .bool false ∧
    filter mt E Order.fwd = ([gRule], .cont) := by
  refine ⟨((defs build).addRule gRule).1, _,
    ⟨fun _ => true, fun _ r => .bool (r.head? == some (s% "alice"))⟩,
    (made build).add gRule ⟨by decide, by decide, fun _ h => absurd (by decide) h⟩, rfl, by decide, rfl,
    by decide, by decide⟩

end ModelExample

end Fastac
