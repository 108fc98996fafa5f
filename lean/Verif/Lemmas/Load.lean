import Verif.Lemmas.ModelText
import Verif.Spec.Load

/-!
# Loading any configuration
-/

namespace Fastac

theorem lastVal_append (l : List (Str × Str)) (k k' v : Str) :
    lastVal (l ++ [(k', v)]) k = if k' = k then some v else lastVal l k := by
  unfold lastVal
  rw [List.reverse_append, List.reverse_singleton, List.singleton_append, List.find?_cons]
  by_cases h : k' = k
  · simp [h]
  · have hb : (k' == k) = false := by simpa using h
    simp only [hb, if_neg h]

theorem lastVal_mem {l : List (Str × Str)} {k v : Str} (h : lastVal l k = some v) : (k, v) ∈ l := by
  unfold lastVal at h
  obtain ⟨e, he, rfl⟩ := Option.map_eq_some_iff.1 h
  have h1 := List.mem_of_find?_eq_some he
  have h2 := List.find?_some he
  simp only [beq_iff_eq] at h2
  rw [List.mem_reverse] at h1
  rw [← h2]
  exact h1

namespace Model

/-- The definitions set so far, section by section. -/
structure Loaded (es : Char → List (Str × Str)) (m : Model) : Prop where
  mm : m.mMap = []
  r : ∀ k, m.rDefs.get k = lastVal (es 'r') k
  p : ∀ k, m.pDefs.get k = (lastVal (es 'p') k).map (newPolicyDef k)
  g : ∀ k, m.gDefs.get k = (lastVal (es 'g') k).map roleDefNArgs
  e : ∀ k, m.eDefs.get k = (lastVal (es 'e') k).map effectExpr
  md : ∀ k, m.mDefs.get k = lastVal (es 'm') k
  pm : ∀ k, m.pMap.get k = (lastVal (es 'p') k).map (fun _ => ⟨Policy.empty, []⟩)
  gm : ∀ k, m.rpMap.get k = (lastVal (es 'g') k).map (fun v => ⟨newMgr (roleDefNArgs v), []⟩)

def addTo (es : Char → List (Str × Str)) (c : Char) (l : List (Str × Str)) : Char → List (Str × Str) :=
  fun c' => if c' = c then es c' ++ l else es c'

theorem addTo_nil (es : Char → List (Str × Str)) (c : Char) : addTo es c [] = es := by
  funext c'
  unfold addTo
  split <;> simp

theorem addTo_cons (es : Char → List (Str × Str)) (c : Char) (e : Str × Str) (l : List (Str × Str)) :
    addTo (addTo es c [e]) c l = addTo es c (e :: l) := by
  funext c'
  unfold addTo
  split <;> simp

theorem Loaded.new : Loaded (fun _ => []) Model.new :=
  ⟨rfl, fun _ => rfl, fun _ => rfl, fun _ => rfl, fun _ => rfl, fun _ => rfl, fun _ => rfl, fun _ => rfl⟩

theorem freeze_nil {m : Model} (h : m.mMap = []) (k : Str) : m.freeze k = [] := by
  unfold Model.freeze
  rw [h]
  rfl

theorem map_if {α β : Type} (c : Prop) [Decidable c] (a : α) (b : Option α) (f : α → β) :
    (if c then some a else b).map f = if c then some (f a) else b.map f := by
  split <;> rfl

theorem Loaded.setDef {es : Char → List (Str × Str)} {m : Model} (h : Loaded es m) {c : Char}
    (hc : c ∈ s% "rpgem") (k v : Str) :
    (k.head? = some c → ∃ m', m.setDef c k v = (m', .ok ()) ∧ Loaded (addTo es c [(k, v)]) m') ∧
    (k.head? ≠ some c → (m.setDef c k v).2 ≠ .ok ()) := by
  have hc' : c = 'r' ∨ c = 'p' ∨ c = 'g' ∨ c = 'e' ∨ c = 'm' := by
    simpa using hc
  constructor
  · intro hk
    obtain ⟨cs, rfl⟩ := head_cases hk
    have hf := freeze_nil h.mm (c :: cs)
    rcases hc' with rfl | rfl | rfl | rfl | rfl
    · refine ⟨_, rfl, h.mm, fun k' => ?_, h.p, h.g, h.e, h.md, h.pm, h.gm⟩
      show (GoMap.set m.rDefs _ _).get k' = lastVal (es 'r' ++ _) k'
      rw [GoMap.get_set, lastVal_append, h.r]
    · refine ⟨_, rfl, hf, h.r, fun k' => ?_, h.g, h.e, h.md, fun k' => ?_, h.gm⟩
      · show (GoMap.set m.pDefs _ _).get k' = (lastVal (es 'p' ++ _) k').map _
        rw [GoMap.get_set, lastVal_append, h.p, map_if]
        split
        · next e => rw [e]
        · rfl
      · show (GoMap.set m.pMap _ _).get k' = (lastVal (es 'p' ++ _) k').map _
        rw [GoMap.get_set, lastVal_append, h.pm, map_if]
    · refine ⟨_, rfl, hf, h.r, h.p, fun k' => ?_, h.e, h.md, h.pm, fun k' => ?_⟩
      · show (GoMap.set m.gDefs _ _).get k' = (lastVal (es 'g' ++ _) k').map _
        rw [GoMap.get_set, lastVal_append, h.g, map_if]
      · show (GoMap.set m.rpMap _ _).get k' = (lastVal (es 'g' ++ _) k').map _
        rw [GoMap.get_set, lastVal_append, h.gm, map_if]
        rfl
    · refine ⟨_, rfl, h.mm, h.r, h.p, h.g, fun k' => ?_, h.md, h.pm, h.gm⟩
      show (GoMap.set m.eDefs _ _).get k' = (lastVal (es 'e' ++ _) k').map _
      rw [GoMap.get_set, lastVal_append, h.e, map_if]
    · refine ⟨_, rfl, h.mm, h.r, h.p, h.g, h.e, fun k' => ?_, h.pm, h.gm⟩
      show (GoMap.set m.mDefs _ _).get k' = lastVal (es 'm' ++ _) k'
      rw [GoMap.get_set, lastVal_append, h.md]
  · intro hk
    unfold Model.setDef
    rw [if_neg (fun hn => hn hc')]
    cases k with
    | nil => simp
    | cons x xs =>
      have : x ≠ c := fun e => hk (by rw [e]; rfl)
      simp only [ne_eq, this, not_false_eq_true, if_true]
      simp

theorem Loaded.setDefs {c : Char} (hc : c ∈ s% "rpgem") (l : List (Str × Str)) : ∀ {es : Char → List (Str × Str)}
    {m : Model}, Loaded es m →
    ((∀ e ∈ l, e.1.head? = some c) → ∃ m', m.setDefs c l = (m', .ok ()) ∧ Loaded (addTo es c l) m') ∧
    (¬ (∀ e ∈ l, e.1.head? = some c) → (m.setDefs c l).2 ≠ .ok ()) := by
  induction l with
  | nil =>
    intro es m h
    exact ⟨fun _ => ⟨m, rfl, by rw [addTo_nil]; exact h⟩, fun hn => absurd (by simp) hn⟩
  | cons e l ih =>
    intro es m h
    obtain ⟨k, v⟩ := e
    obtain ⟨h1, h2⟩ := h.setDef hc k v
    by_cases hk : k.head? = some c
    · obtain ⟨m1, e1, l1⟩ := h1 hk
      obtain ⟨i1, i2⟩ := ih l1
      rw [addTo_cons] at i1
      constructor
      · intro hall
        obtain ⟨m2, e2, l2⟩ := i1 (fun e he => hall e (List.mem_cons_of_mem _ he))
        exact ⟨m2, by rw [Model.setDefs, e1]; exact e2, l2⟩
      · intro hn
        rw [Model.setDefs, e1]
        refine i2 (fun hall => hn ?_)
        intro e he
        rcases List.mem_cons.1 he with rfl | he
        · exact hk
        · exact hall e he
    · refine ⟨fun hall => absurd (hall (k, v) (List.mem_cons_self ..)) hk, fun _ => ?_⟩
      have := h2 hk
      rw [Model.setDefs]
      cases hs : m.setDef c k v with
      | mk m' r =>
        rw [hs] at this
        cases r with
        | ok u => exact absurd rfl this
        | err => simp
        | panic => simp

theorem secKey_secName {name : Str} {c : Char} (h : secKey name = some c) : c ∈ s% "rpgem" ∧
    ∀ c' ∈ s% "rpgem", (name = secName c' ↔ c' = c) := by
  unfold secKey at h
  repeat' split at h
  all_goals first
    | (cases h; subst name; exact ⟨by decide, by decide⟩)
    | cases h

theorem secKey_none {name : Str} (h : secKey name = none) : ∀ c' ∈ s% "rpgem", name ≠ secName c' := by
  intro c' hc' e
  subst e
  revert h
  revert c'
  decide

/-- Only the five sections matter. -/
theorem Loaded.of_eq {es es' : Char → List (Str × Str)} {m : Model} (h : Loaded es m)
    (he : ∀ c ∈ s% "rpgem", es' c = es c) : Loaded es' m := by
  refine ⟨h.mm, ?_, ?_, ?_, ?_, ?_, ?_, ?_⟩
  · rw [he 'r' (by decide)]; exact h.r
  · rw [he 'p' (by decide)]; exact h.p
  · rw [he 'g' (by decide)]; exact h.g
  · rw [he 'e' (by decide)]; exact h.e
  · rw [he 'm' (by decide)]; exact h.md
  · rw [he 'p' (by decide)]; exact h.pm
  · rw [he 'g' (by decide)]; exact h.gm

theorem Loaded.loadSections (cfg : IniData) : ∀ {es : Char → List (Str × Str)} {m : Model}, Loaded es m →
    (KeysFit cfg → ∃ m', m.loadSections cfg = (m', .ok ()) ∧ Loaded (fun c => es c ++ entries cfg c) m') ∧
    (¬ KeysFit cfg → (m.loadSections cfg).2 ≠ .ok ()) := by
  induction cfg with
  | nil =>
    intro es m h
    exact ⟨fun _ => ⟨m, rfl, h.of_eq (fun c _ => by simp [entries])⟩,
      fun hn => absurd (fun c _ e he => by simp [entries] at he) hn⟩
  | cons s cfg ih =>
    intro es m h
    obtain ⟨name, kvs⟩ := s
    rw [Model.loadSections]
    cases hs : secKey name with
    | none =>
      have hno := secKey_none hs
      have hent : ∀ c ∈ s% "rpgem", entries ((name, kvs) :: cfg) c = entries cfg c := by
        intro c hc
        unfold entries
        rw [List.flatMap_cons, if_neg (hno c hc), List.nil_append]
      have hfit : KeysFit ((name, kvs) :: cfg) ↔ KeysFit cfg := by
        unfold KeysFit
        constructor
        · intro hh c hc e he; exact hh c hc e (by rw [hent c hc]; exact he)
        · intro hh c hc e he; exact hh c hc e (by rw [hent c hc] at he; exact he)
      obtain ⟨i1, i2⟩ := ih h
      simp only
      rw [hfit]
      refine ⟨fun hf => ?_, i2⟩
      obtain ⟨m', e', l'⟩ := i1 hf
      exact ⟨m', e', l'.of_eq (fun c hc => by rw [hent c hc])⟩
    | some c =>
      obtain ⟨hc, hname⟩ := secKey_secName hs
      have hent : ∀ c' ∈ s% "rpgem", entries ((name, kvs) :: cfg) c' =
          (if c' = c then kvs else []) ++ entries cfg c' := by
        intro c' hc'
        unfold entries
        rw [List.flatMap_cons]
        simp only [hname c' hc']
      have hfit : KeysFit ((name, kvs) :: cfg) ↔ (∀ e ∈ kvs, e.1.head? = some c) ∧ KeysFit cfg := by
        constructor
        · intro hh
          refine ⟨fun e he => hh c hc e (by rw [hent c hc]; simp [he]), fun c' hc' e he => hh c' hc' e ?_⟩
          rw [hent c' hc']
          exact List.mem_append_right _ he
        · rintro ⟨h1, h2⟩ c' hc' e he
          rw [hent c' hc', List.mem_append] at he
          rcases he with he | he
          · by_cases hcc : c' = c
            · rw [if_pos hcc] at he
              rw [hcc]
              exact h1 e he
            · rw [if_neg hcc] at he
              cases he
          · exact h2 c' hc' e he
      simp only
      obtain ⟨a1, a2⟩ := h.setDefs hc kvs
      by_cases hk : ∀ e ∈ kvs, e.1.head? = some c
      · obtain ⟨m1, e1, l1⟩ := a1 hk
        obtain ⟨i1, i2⟩ := ih l1
        rw [e1]
        simp only
        constructor
        · intro hf
          obtain ⟨m', e', l'⟩ := i1 (hfit.1 hf).2
          refine ⟨m', e', l'.of_eq (fun c' hc' => ?_)⟩
          rw [hent c' hc']
          unfold addTo
          by_cases hcc : c' = c
          · simp [hcc]
          · simp [hcc]
        · intro hn
          exact i2 (fun hf => hn (hfit.2 ⟨hk, hf⟩))
      · refine ⟨fun hf => absurd (hfit.1 hf).1 hk, fun _ => ?_⟩
        have := a2 hk
        cases hr : m.setDefs c kvs with
        | mk m' r =>
          rw [hr] at this
          cases r with
          | ok u => exact absurd rfl this
          | err => simp
          | panic => simp

/-- A matcher is only built when its definition can be built and its policy exists. -/
theorem buildable_of_built {build : Str → Res Stage} {m : Model} {k : Str}
    (h : (m.buildMatcher build k).2 = .ok ()) : Buildable build m k := by
  unfold Model.buildMatcher at h
  cases h1 : m.mDefs.get k with
  | none => rw [h1] at h; cases h
  | some e =>
    rw [h1] at h
    simp only at h
    cases h2 : build e with
    | err => rw [h2] at h; cases h
    | panic => rw [h2] at h; cases h
    | ok root =>
      rw [h2] at h
      simp only at h
      cases h3 : m.matcherPolicyDef root.policyKey with
      | err => rw [h3] at h; cases h
      | panic => rw [h3] at h; cases h
      | ok d =>
        rw [h3] at h
        simp only at h
        refine ⟨e, root, d, h1, h2, h3, ?_⟩
        unfold Model.policyRules
        cases hp : m.pMap.get root.policyKey with
        | some p => rfl
        | none =>
          rw [hp] at h
          simp only at h
          cases hg : m.rpMap.get root.policyKey with
          | none => rw [hg] at h; cases h
          | some rp => rfl

/-- Without rules all matchers can be built, or building reports it. -/
theorem buildable_of_all {build : Str → Res Stage} (ks : List Str) : ∀ {m : Model},
    (∀ k rules, m.policyRules k = some rules → rules = []) →
    (m.buildMatchers build ks).2 = .ok () → ∀ k ∈ ks, Buildable build m k := by
  induction ks with
  | nil => intro m _ _ k hk; cases hk
  | cons k ks ih =>
    intro m hr h
    have hb : Buildable build m k := by
      apply buildable_of_built
      rw [Model.buildMatchers] at h
      cases hs : m.buildMatcher build k with
      | mk m' r =>
        rw [hs] at h
        cases r with
        | ok u => rfl
        | err => exact h
        | panic => exact h
    obtain ⟨m1, e1, s1, -⟩ := buildMatcher_fresh hb hr
    rw [Model.buildMatchers, e1] at h
    have := ih (m := m1) (fun x rules hx => hr x rules ((s1.policyRules x) ▸ hx)) h
    intro x hx
    rcases List.mem_cons.1 hx with rfl | hx
    · exact hb
    · obtain ⟨e, root, d, a1, a2, a3, a4⟩ := this x hx
      exact ⟨e, root, d, s1.md ▸ a1, a2, (s1.policyDef _) ▸ a3, by rw [← s1.policyRules]; exact a4⟩

end Model

end Fastac
