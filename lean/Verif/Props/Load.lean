import Verif.Lemmas.Load

/-!
# C71: loading a configuration
-/

namespace Fastac

namespace Model

/-- **C71**.  Loading a configuration into a new model succeeds exactly if every key begins with the letter
of its section and every matcher can be built and is about a policy the configuration defines.  Then the
model has exactly the definitions of the configuration — of several entries with the same key the last one,
and whatever the order of the sections — with an empty policy for each policy and role definition and a
matcher for each matcher definition. -/
theorem c71_load (build : Str → Res Stage) (order : List Str → List Str) (ho : ∀ l, (order l).Perm l)
    (cfg : IniData) :
    ((Model.new.loadConfig build order cfg).2 = .ok () ↔ KeysFit cfg ∧
      ∀ k e, lastVal (entries cfg 'm') k = some e → ∃ root, build e = .ok root ∧
        ((root.policyKey.head? = some 'p' ∧ (lastVal (entries cfg 'p') root.policyKey).isSome = true) ∨
         (root.policyKey.head? = some 'g' ∧ (lastVal (entries cfg 'g') root.policyKey).isSome = true))) ∧
    ∀ m, Model.new.loadConfig build order cfg = (m, .ok ()) →
      (∀ k, m.rDefs.get k = lastVal (entries cfg 'r') k) ∧
      (∀ k, m.pDefs.get k = (lastVal (entries cfg 'p') k).map (newPolicyDef k)) ∧
      (∀ k, m.gDefs.get k = (lastVal (entries cfg 'g') k).map roleDefNArgs) ∧
      (∀ k, m.eDefs.get k = (lastVal (entries cfg 'e') k).map effectExpr) ∧
      (∀ k, m.mDefs.get k = lastVal (entries cfg 'm') k) ∧
      (∀ k, m.policyRules k = if (lastVal (entries cfg 'p') k).isSome || (lastVal (entries cfg 'g') k).isSome
        then some [] else none) ∧
      (∀ k e root, lastVal (entries cfg 'm') k = some e → build e = .ok root → ∃ d,
        m.matcherPolicyDef root.policyKey = .ok d ∧ m.getMatcher k = some ⟨d, root, newNode [[]]⟩) ∧
      (∀ k, lastVal (entries cfg 'm') k = none → m.getMatcher k = none) := by
  obtain ⟨h1, h2⟩ := Loaded.new.loadSections cfg
  rcases Classical.em (¬ KeysFit cfg) with hf | hf
  · have hne := h2 hf
    have : (Model.new.loadConfig build order cfg).2 ≠ .ok () := by
      unfold Model.loadConfig
      cases hr : Model.new.loadSections cfg with
      | mk m' r =>
        rw [hr] at hne
        cases r with
        | ok u => exact absurd rfl hne
        | err => simp
        | panic => simp
    exact ⟨⟨fun h => absurd h this, fun h => absurd h.1 hf⟩, fun m hm => absurd (congrArg Prod.snd hm) this⟩
  replace hf : KeysFit cfg := Classical.not_not.1 hf
  obtain ⟨m0, e0, l0⟩ := h1 hf
  simp only [List.nil_append] at l0
  have hhead : ∀ c ∈ s% "rpgem", ∀ k v, lastVal (entries cfg c) k = some v → k.head? = some c :=
    fun c hc k v hv => hf c hc (k, v) (lastVal_mem hv)
  have hnone : ∀ k, k.head? ≠ some 'g' → lastVal (entries cfg 'g') k = none := by
    intro k hk
    cases h : lastVal (entries cfg 'g') k with
    | none => rfl
    | some v => exact absurd (hhead 'g' (by decide) k v h) hk
  have hnonep : ∀ k, k.head? ≠ some 'p' → lastVal (entries cfg 'p') k = none := by
    intro k hk
    cases h : lastVal (entries cfg 'p') k with
    | none => rfl
    | some v => exact absurd (hhead 'p' (by decide) k v h) hk
  have hrules : ∀ k, m0.policyRules k = if (lastVal (entries cfg 'p') k).isSome ||
      (lastVal (entries cfg 'g') k).isSome then some [] else none := by
    intro k
    unfold Model.policyRules
    rw [l0.pm, l0.gm]
    cases lastVal (entries cfg 'p') k with
    | some v => rfl
    | none =>
      cases lastVal (entries cfg 'g') k with
      | none => rfl
      | some v => simp only [Option.map_none, Option.map_some]; rw [newMgr_rules]; rfl
  have hempty : ∀ k rules, m0.policyRules k = some rules → rules = [] := by
    intro k rules hk
    rw [hrules] at hk
    split at hk
    · cases hk; rfl
    · cases hk
  have hbuildable : ∀ k, Buildable build m0 k ↔ ∃ e, lastVal (entries cfg 'm') k = some e ∧
      ∃ root, build e = .ok root ∧
        ((root.policyKey.head? = some 'p' ∧ (lastVal (entries cfg 'p') root.policyKey).isSome = true) ∨
         (root.policyKey.head? = some 'g' ∧ (lastVal (entries cfg 'g') root.policyKey).isSome = true)) := by
    intro k
    constructor
    · rintro ⟨e, root, d, a1, a2, a3, a4⟩
      refine ⟨e, (l0.md k) ▸ a1, root, a2, ?_⟩
      rw [hrules] at a4
      cases hp : lastVal (entries cfg 'p') root.policyKey with
      | some v => exact .inl ⟨hhead 'p' (by decide) _ v hp, rfl⟩
      | none =>
        cases hg : lastVal (entries cfg 'g') root.policyKey with
        | some v => exact .inr ⟨hhead 'g' (by decide) _ v hg, rfl⟩
        | none => rw [hp, hg] at a4; cases a4
    · rintro ⟨e, he, root, hr, hk⟩
      have hrr : (m0.policyRules root.policyKey).isSome = true := by
        rw [hrules]
        rcases hk with ⟨-, hk⟩ | ⟨-, hk⟩
        · rw [hk]; rfl
        · rw [hk, Bool.or_true]; rfl
      have hd : ∃ d, m0.matcherPolicyDef root.policyKey = .ok d := by
        rcases hk with ⟨hk, hs⟩ | ⟨hk, hs⟩
        · obtain ⟨v, hv⟩ := Option.isSome_iff_exists.1 hs
          obtain ⟨cs, hcs⟩ := head_cases hk
          have := l0.p root.policyKey
          rw [hv] at this
          rw [hcs] at this ⊢
          unfold Model.matcherPolicyDef
          simp only [if_true]
          rw [this]
          exact ⟨_, rfl⟩
        · obtain ⟨cs, hcs⟩ := head_cases hk
          rw [hcs]
          unfold Model.matcherPolicyDef
          simp only [if_true]
          rw [if_neg (by decide)]
          exact ⟨_, rfl⟩
      obtain ⟨d, hd⟩ := hd
      exact ⟨e, root, d, (l0.md k).trans he, hr, hd, hrr⟩
  have hkeys : ∀ k, k ∈ order (m0.mDefs.map Prod.fst) ↔ ∃ e, lastVal (entries cfg 'm') k = some e := by
    intro k
    rw [(ho _).mem_iff, GoMap.mem_keys_iff, l0.md, Option.isSome_iff_exists]
  have hload : Model.new.loadConfig build order cfg = m0.buildMatchers build (order (m0.mDefs.map Prod.fst)) := by
    unfold Model.loadConfig
    rw [e0]
  have hall : (∀ k ∈ order (m0.mDefs.map Prod.fst), Buildable build m0 k) ↔
      ∀ k e, lastVal (entries cfg 'm') k = some e → ∃ root, build e = .ok root ∧
        ((root.policyKey.head? = some 'p' ∧ (lastVal (entries cfg 'p') root.policyKey).isSome = true) ∨
         (root.policyKey.head? = some 'g' ∧ (lastVal (entries cfg 'g') root.policyKey).isSome = true)) := by
    constructor
    · intro h k e he
      obtain ⟨e', he', hh⟩ := (hbuildable k).1 (h k ((hkeys k).2 ⟨e, he⟩))
      cases he.symm.trans he'
      exact hh
    · intro h k hk
      obtain ⟨e, he⟩ := (hkeys k).1 hk
      exact (hbuildable k).2 ⟨e, he, h k e he⟩
  refine ⟨?_, ?_⟩
  · rw [hload]
    constructor
    · intro h
      exact ⟨hf, hall.1 (buildable_of_all _ hempty h)⟩
    · rintro ⟨-, h⟩
      obtain ⟨m', e', -⟩ := buildMatchers_fresh _ (hall.2 h) hempty
      rw [e']
  · intro m hm
    rw [hload] at hm
    have hb := buildable_of_all (order (m0.mDefs.map Prod.fst)) hempty (by rw [hm])
    obtain ⟨m', e', s1, g1, -, l1⟩ := buildMatchers_fresh _ hb hempty
    rw [hm] at e'
    cases e'
    refine ⟨fun k => by rw [s1.r, l0.r], fun k => by rw [s1.p, l0.p], fun k => by rw [s1.g, l0.g],
      fun k => by rw [s1.e, l0.e], fun k => by rw [s1.md, l0.md], fun k => by rw [s1.policyRules, hrules],
      fun k e root he hr => ?_, fun k hk => ?_⟩
    · obtain ⟨mt, a, e', root', d, b1, b2, b3, b4⟩ := g1 k ((hkeys k).2 ⟨e, he⟩)
      rw [l0.md, he] at b1
      cases b1
      rw [hr] at b2
      cases b2
      cases b4
      exact ⟨d, by rw [s1.policyDef]; exact b3, a⟩
    · unfold Model.getMatcher
      rw [l1 k (fun h => by
        obtain ⟨e, he⟩ := (hkeys k).1 h
        rw [hk] at he
        cases he), l0.mm]
      rfl

namespace LoadExample

def root : Stage := .mk [] [.mk (s% "r_sub == p2_sub") []]

def build (e : Str) : Res Stage := if e = s% "r.sub == p2.sub" then .ok root else .err

/-- sections in an unusual order, one unknown, one entry repeated -/
def cfg : IniData :=
  [(s% "matchers", [(s% "m", s% "r.sub == p2.sub")]), (s% "other", [(s% "x", s% "y")]),
   (s% "policy_definition", [(s% "p2", s% "sub, obj"), (s% "p", s% "sub"), (s% "p2", s% "sub")]),
   (s% "request_definition", [(s% "r", s% "sub")])]

example : KeysFit cfg ∧ (Model.new.loadConfig build id cfg).2 = .ok () ∧
    lastVal (entries cfg 'p') (s% "p2") = some (s% "sub") := by decide

-- a key in the wrong section, a matcher that cannot be built, a matcher about a policy that is not defined
example : (Model.new.loadConfig build id [(s% "policy_definition", [(s% "r", s% "sub")])]).2 = .err ∧
    (Model.new.loadConfig build id [(s% "matchers", [(s% "m", s% "r.sub ==")])]).2 = .err ∧
    (Model.new.loadConfig build id [(s% "matchers", [(s% "m", s% "r.sub == p2.sub")])]).2 = .err := by decide

end LoadExample

end Model

end Fastac
