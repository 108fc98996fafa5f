import Verif.Lemmas.Filled

/-!
# Which rules the nodes of an index remember

Nodes of inner stages stay when rules are removed.  Those nodes are described exactly by the rules that have been
added since the index was empty.
-/

namespace Fastac

mutual
/-- The inner nodes are those of the rules in `H`. -/
def Hist (pDef : PolicyDef) : Stage → Node → (Rule → Prop) → Prop
  | .mk _ cs, n, H => HistC pDef cs 0 n H
def HistC (pDef : PolicyDef) : List Stage → Nat → Node → (Rule → Prop) → Prop
  | [], _, _, _ => True
  | st :: rest, i, n, H =>
    (∃ m, n.children[i]? = some m ∧ (st.isLeaf = false →
      (∀ r, H r → (GoMap.get m (stageKey pDef st r)).isSome) ∧
      ∀ k c, GoMap.get m k = some c → H c.rule ∧ Hist pDef st c (fun r => H r ∧ stageKey pDef st r = k))) ∧
    HistC pDef rest (i + 1) n H
end

theorem Hist_eq (pDef : PolicyDef) (st : Stage) (n : Node) (H : Rule → Prop) :
    Hist pDef st n H = HistC pDef st.children 0 n H := by
  cases st; simp [Hist, Stage.children]

theorem HistC_local (pDef : PolicyDef) (cs : List Stage) : ∀ (i : Nat) (n n' : Node) (H : Rule → Prop),
    (∀ j, i ≤ j → n'.children[j]? = n.children[j]?) → HistC pDef cs i n H → HistC pDef cs i n' H := by
  induction cs with
  | nil => intros; simp [HistC]
  | cons st rest ih =>
    intro i n n' H h hF
    simp only [HistC] at hF ⊢
    rw [h i (Nat.le_refl i)]
    exact ⟨hF.1, ih (i+1) n n' H (fun j hj => h j (by omega)) hF.2⟩

theorem newNode_histC (pDef : PolicyDef) (r : Rule) {H : Rule → Prop} (hH : ∀ x, ¬ H x) : ∀ (cs : List Stage) (i : Nat),
    i + cs.length ≤ 2 → HistC pDef cs i (newNode r) H
  | [], _, _ => trivial
  | st :: rest, i, h => by
    simp only [List.length_cons] at h
    have hm : (newNode r).children[i]? = some [] := by
      have : i = 0 ∨ i = 1 := by omega
      rcases this with rfl | rfl <;> rfl
    refine ⟨⟨[], hm, fun _ => ⟨fun x hx => absurd hx (hH x), fun k c hc => by simp at hc⟩⟩, ?_⟩
    exact newNode_histC pDef r hH rest (i + 1) (by omega)

theorem newNode_hist (pDef : PolicyDef) (r : Rule) {H : Rule → Prop} (hH : ∀ x, ¬ H x) {st : Stage}
    (h : st.children.length ≤ 2) : Hist pDef st (newNode r) H := by
  rw [Hist_eq]
  exact newNode_histC pDef r hH _ 0 (by omega)

mutual
theorem addStage_hist (pDef : PolicyDef) (r : Rule) :
    ∀ (st : Stage) (n n' : Node) (H : Rule → Prop), st.All (fun s => s.children.length ≤ 2) → Hist pDef st n H →
      addStage pDef r st n = .ok n' → n'.rule = n.rule ∧ Hist pDef st n' (fun x => H x ∨ x = r)
  | .mk _ cs, n, n', H, hb, h, he => by
    simp only [Stage.All] at hb
    simp only [Hist] at h ⊢
    simp only [addStage] at he
    obtain ⟨h1, _, h2⟩ := addChildren_hist pDef r cs 0 n n' H hb h he
    exact ⟨h1, h2⟩
theorem addChildren_hist (pDef : PolicyDef) (r : Rule) :
    ∀ (cs : List Stage) (i : Nat) (n n' : Node) (H : Rule → Prop),
      Stage.AllIn (fun s => s.children.length ≤ 2) cs → HistC pDef cs i n H →
      addChildren pDef r cs i n = .ok n' →
      n'.rule = n.rule ∧ (∀ j, j < i → n'.children[j]? = n.children[j]?) ∧ HistC pDef cs i n' (fun x => H x ∨ x = r)
  | [], i, n, n', H, _, _, he => by
    simp only [addChildren, Res.ok.injEq] at he
    subst he
    exact ⟨rfl, fun _ _ => rfl, by simp [HistC]⟩
  | st :: rest, i, n, n', H, hb, h, he => by
    simp only [Stage.AllIn] at hb
    simp only [HistC] at h
    obtain ⟨⟨m, hm, hslot⟩, hrest⟩ := h
    simp only [addChildren, hm] at he
    have hlen : i < n.children.length := by
      rcases Nat.lt_or_ge i n.children.length with h | h
      · exact h
      · rw [List.getElem?_eq_none h] at hm; cases hm
    have main : ∃ c', (st.isLeaf = false → c'.rule = r ∧ (∀ x, H x → stageKey pDef st x ≠ stageKey pDef st r) ∨ H c'.rule) ∧
        (st.isLeaf = false →
          Hist pDef st c' (fun x => (H x ∨ x = r) ∧ stageKey pDef st x = stageKey pDef st r)) ∧
        addChildren pDef r rest (i + 1) (n.setChild i (m.set (stageKey pDef st r) c')) = .ok n' := by
      cases hl : st.isLeaf with
      | true =>
        simp only [hl, if_true, Res.bind_ok] at he
        exact ⟨newNode r, by simp, by simp, he⟩
      | false =>
        simp only [hl, Bool.false_eq_true, if_false] at he
        obtain ⟨s1, s2⟩ := hslot hl
        cases ha : addStage pDef r st ((GoMap.get m (stageKey pDef st r)).getD (newNode r)) with
        | err => rw [ha] at he; cases he
        | panic => rw [ha] at he; cases he
        | ok c' =>
          rw [ha] at he
          simp only [Res.map_ok, Res.bind_ok] at he
          have hset : (fun x => (H x ∧ stageKey pDef st x = stageKey pDef st r) ∨ x = r) =
              (fun x => (H x ∨ x = r) ∧ stageKey pDef st x = stageKey pDef st r) := by
            funext x
            apply propext
            constructor
            · rintro (⟨a, b⟩ | rfl)
              · exact ⟨.inl a, b⟩
              · exact ⟨.inr rfl, rfl⟩
            · rintro ⟨a | rfl, b⟩
              · exact .inl ⟨a, b⟩
              · exact .inr rfl
          have hnext : Hist pDef st ((GoMap.get m (stageKey pDef st r)).getD (newNode r))
              (fun x => H x ∧ stageKey pDef st x = stageKey pDef st r) := by
            cases hg : GoMap.get m (stageKey pDef st r) with
            | none =>
              refine newNode_hist pDef r ?_ hb.1.1
              rintro x ⟨hx, e⟩
              have := s1 x hx
              rw [e, hg] at this
              cases this
            | some c => exact (s2 _ c hg).2
          obtain ⟨q1, q2⟩ := addStage_hist pDef r st _ c' _ hb.1.2 hnext ha
          rw [hset] at q2
          refine ⟨c', fun _ => ?_, fun _ => q2, he⟩
          cases hg : GoMap.get m (stageKey pDef st r) with
          | none =>
            rw [hg] at q1
            refine .inl ⟨q1, ?_⟩
            intro x hx e
            have := s1 x hx
            rw [e, hg] at this
            cases this
          | some c =>
            rw [hg] at q1
            right
            rw [q1]
            exact (s2 _ c hg).1
    obtain ⟨c', hc1, hc2, he'⟩ := main
    have hsame : ∀ j, i + 1 ≤ j → (n.setChild i (m.set (stageKey pDef st r) c')).children[j]? = n.children[j]? := by
      intro j hj
      rw [Node.children_setChild, List.getElem?_set_ne (by omega)]
    obtain ⟨f1, f2, f3⟩ := addChildren_hist pDef r rest (i+1) _ n' H hb.2 (HistC_local pDef rest (i+1) n _ H hsame hrest)
      he'
    refine ⟨by rw [f1, Node.rule_setChild], ?_, ?_⟩
    · intro j hj
      rw [f2 j (by omega), Node.children_setChild, List.getElem?_set_ne (by omega)]
    · simp only [HistC]
      refine ⟨⟨m.set (stageKey pDef st r) c', ?_, fun hl => ?_⟩, f3⟩
      · rw [f2 i (by omega), Node.children_setChild, List.getElem?_set_self hlen]
      · obtain ⟨s1, s2⟩ := hslot hl
        refine ⟨?_, ?_⟩
        · rintro x (hx | rfl)
          · rw [GoMap.get_set]
            split
            · rfl
            · exact s1 x hx
          · rw [GoMap.get_set_self]; rfl
        · intro k c hc
          rw [GoMap.get_set] at hc
          split at hc
          · rename_i e
            cases hc
            subst e
            refine ⟨?_, hc2 hl⟩
            rcases hc1 hl with ⟨e, -⟩ | e
            · exact .inr e
            · exact .inl e
          · rename_i e
            obtain ⟨a, b⟩ := s2 k c hc
            refine ⟨.inl a, ?_⟩
            have : (fun x => (H x ∨ x = r) ∧ stageKey pDef st x = k) = (fun x => H x ∧ stageKey pDef st x = k) := by
              funext x
              apply propext
              constructor
              · rintro ⟨hx | rfl, h⟩
                · exact ⟨hx, h⟩
                · exact absurd h e
              · rintro ⟨hx, h⟩; exact ⟨.inl hx, h⟩
            rw [this]
            exact b
end

mutual
theorem removeStage_hist (pDef : PolicyDef) (r : Rule) :
    ∀ (st : Stage) (n n' : Node) (H : Rule → Prop), Hist pDef st n H → removeStage pDef r st n = .ok n' →
      n'.rule = n.rule ∧ Hist pDef st n' H
  | .mk _ cs, n, n', H, h, he => by
    simp only [Hist] at h ⊢
    simp only [removeStage] at he
    obtain ⟨h1, _, h2⟩ := removeChildren_hist pDef r cs 0 n n' H h he
    exact ⟨h1, h2⟩
theorem removeChildren_hist (pDef : PolicyDef) (r : Rule) :
    ∀ (cs : List Stage) (i : Nat) (n n' : Node) (H : Rule → Prop), HistC pDef cs i n H →
      removeChildren pDef r cs i n = .ok n' →
      n'.rule = n.rule ∧ (∀ j, j < i → n'.children[j]? = n.children[j]?) ∧ HistC pDef cs i n' H
  | [], i, n, n', H, _, he => by
    simp only [removeChildren, Res.ok.injEq] at he
    subst he
    exact ⟨rfl, fun _ _ => rfl, by simp [HistC]⟩
  | st :: rest, i, n, n', H, h, he => by
    simp only [HistC] at h
    obtain ⟨⟨m, hm, hslot⟩, hrest⟩ := h
    simp only [removeChildren, hm] at he
    have hlen : i < n.children.length := by
      rcases Nat.lt_or_ge i n.children.length with h | h
      · exact h
      · rw [List.getElem?_eq_none h] at hm; cases hm
    have main : ∃ m', removeChildren pDef r rest (i + 1) (n.setChild i m') = .ok n' ∧ (st.isLeaf = false →
        (∀ x, H x → (GoMap.get m' (stageKey pDef st x)).isSome) ∧
        ∀ k c, GoMap.get m' k = some c → H c.rule ∧ Hist pDef st c (fun x => H x ∧ stageKey pDef st x = k)) := by
      cases hl : st.isLeaf with
      | true =>
        simp only [hl, if_true, Res.bind_ok] at he
        exact ⟨m.del (stageKey pDef st r), he, by simp⟩
      | false =>
        simp only [hl, Bool.false_eq_true, if_false] at he
        obtain ⟨s1, s2⟩ := hslot hl
        cases hg : GoMap.get m (stageKey pDef st r) with
        | none =>
          rw [hg] at he
          exact ⟨m, he, fun _ => ⟨s1, s2⟩⟩
        | some c =>
          rw [hg] at he
          simp only at he
          cases ha : removeStage pDef r st c with
          | err => rw [ha] at he; cases he
          | panic => rw [ha] at he; cases he
          | ok c' =>
            rw [ha] at he
            simp only [Res.map_ok, Res.bind_ok] at he
            refine ⟨m.set (stageKey pDef st r) c', he, fun _ => ⟨?_, ?_⟩⟩
            · intro x hx
              rw [GoMap.get_set]
              split
              · rfl
              · exact s1 x hx
            · intro k x hx
              rw [GoMap.get_set] at hx
              split at hx
              · rename_i e
                cases hx
                obtain ⟨a, b⟩ := s2 _ c hg
                obtain ⟨q1, q2⟩ := removeStage_hist pDef r st c c' _ b ha
                rw [q1, ← e]
                exact ⟨a, q2⟩
              · exact s2 k x hx
    obtain ⟨m', he', hs⟩ := main
    have hsame : ∀ j, i + 1 ≤ j → (n.setChild i m').children[j]? = n.children[j]? := by
      intro j hj
      rw [Node.children_setChild, List.getElem?_set_ne (by omega)]
    obtain ⟨f1, f2, f3⟩ := removeChildren_hist pDef r rest (i+1) _ n' H (HistC_local pDef rest (i+1) n _ H hsame hrest) he'
    refine ⟨by rw [f1, Node.rule_setChild], ?_, ?_⟩
    · intro j hj
      rw [f2 j (by omega), Node.children_setChild, List.getElem?_set_ne (by omega)]
    · simp only [HistC]
      refine ⟨⟨m', ?_, hs⟩, f3⟩
      rw [f2 i (by omega), Node.children_setChild, List.getElem?_set_self hlen]
end

/-! ## Reports of the rule with empty fields -/

mutual
/-- The paths from a stage to a leaf. -/
def Stage.routes : Stage → List (List Stage)
  | .mk e cs => if cs.isEmpty then [[.mk e cs]] else (Stage.routesC cs).map (.mk e cs :: ·)
def Stage.routesC : List Stage → List (List Stage)
  | [] => []
  | st :: rest => st.routes ++ Stage.routesC rest
end

theorem Stage.routes_leaf {st : Stage} (h : st.isLeaf = true) : st.routes = [[st]] := by
  cases st with
  | mk e cs =>
    have : cs = [] := isLeaf_children h
    subst this
    simp [Stage.routes]

theorem Stage.routes_inner {st : Stage} (h : st.isLeaf = false) :
    st.routes = (Stage.routesC st.children).map (st :: ·) := by
  cases st with
  | mk e cs =>
    have : cs.isEmpty = false := by simpa [Stage.isLeaf, Stage.children] using h
    simp [Stage.routes, this, Stage.children]

mutual
theorem Stage.routes_ne : ∀ (st : Stage), ∀ q ∈ st.routes, q ≠ []
  | .mk e cs, q, hq => by
    simp only [Stage.routes] at hq
    split at hq
    · simp at hq; simp [hq]
    · obtain ⟨q', _, rfl⟩ := List.mem_map.1 hq
      simp
theorem Stage.routesC_ne : ∀ (cs : List Stage), ∀ q ∈ Stage.routesC cs, q ≠ []
  | [], q, hq => by simp [Stage.routesC] at hq
  | st :: rest, q, hq => by
    simp only [Stage.routesC, List.mem_append] at hq
    rcases hq with hq | hq
    · exact Stage.routes_ne st q hq
    · exact Stage.routesC_ne rest q hq
end

/-- A way through the stages on which the rule with empty fields is reported. -/
def Ghost (pDef : PolicyDef) (E : Evaluator) (H R : Rule → Prop) (qs : List (List Stage)) : Prop :=
  ∃ way last, way ++ [last] ∈ qs ∧ ∃ seen, H seen ∧ (∀ s ∈ way, E.eval s.expr seen = .bool true) ∧
    E.eval last.expr (blankRule pDef) = .bool true ∧ ∀ r, R r → ∃ s ∈ way, stageKey pDef s r ≠ stageKey pDef s seen

theorem Ghost.append {pDef : PolicyDef} {E : Evaluator} {H R : Rule → Prop} {a b : List (List Stage)} :
    Ghost pDef E H R (a ++ b) ↔ Ghost pDef E H R a ∨ Ghost pDef E H R b := by
  unfold Ghost
  constructor
  · rintro ⟨way, last, h, rest⟩
    rcases List.mem_append.1 h with h | h
    · exact .inl ⟨way, last, h, rest⟩
    · exact .inr ⟨way, last, h, rest⟩
  · rintro (⟨way, last, h, rest⟩ | ⟨way, last, h, rest⟩)
    · exact ⟨way, last, List.mem_append.2 (.inl h), rest⟩
    · exact ⟨way, last, List.mem_append.2 (.inr h), rest⟩

theorem Ghost.leaf {pDef : PolicyDef} {E : Evaluator} {H R : Rule → Prop} {st : Stage} (hl : st.isLeaf = true)
    (hH : ∃ h, H h) : Ghost pDef E H R st.routes ↔ E.eval st.expr (blankRule pDef) = .bool true ∧ ∀ r, ¬ R r := by
  rw [Stage.routes_leaf hl]
  constructor
  · rintro ⟨way, last, h, seen, _, _, h3, h4⟩
    have e := List.mem_singleton.1 h
    cases way with
    | nil =>
      simp only [List.nil_append, List.cons.injEq, and_true] at e
      subst e
      exact ⟨h3, fun r hr => by obtain ⟨s, hs, _⟩ := h4 r hr; cases hs⟩
    | cons a way =>
      have := congrArg List.length e
      simp at this
  · rintro ⟨h1, h2⟩
    obtain ⟨h, hh⟩ := hH
    exact ⟨[], st, by simp, h, hh, by simp, h1, fun r hr => absurd hr (h2 r)⟩

theorem Ghost.inner {pDef : PolicyDef} {E : Evaluator} {H R : Rule → Prop} {st : Stage} (hl : st.isLeaf = false) :
    Ghost pDef E H R st.routes ↔ ∃ seen, H seen ∧ E.eval st.expr seen = .bool true ∧
      ∃ way last, way ++ [last] ∈ Stage.routesC st.children ∧ (∀ s ∈ way, E.eval s.expr seen = .bool true) ∧
        E.eval last.expr (blankRule pDef) = .bool true ∧
        ∀ r, R r → stageKey pDef st r = stageKey pDef st seen → ∃ s ∈ way, stageKey pDef s r ≠ stageKey pDef s seen := by
  rw [Stage.routes_inner hl]
  constructor
  · rintro ⟨way, last, h, seen, h1, h2, h3, h4⟩
    obtain ⟨q, hq, e⟩ := List.mem_map.1 h
    cases way with
    | nil =>
      simp only [List.nil_append, List.cons.injEq] at e
      exact absurd e.2 (Stage.routesC_ne _ q hq)
    | cons a way =>
      simp only [List.cons_append, List.cons.injEq] at e
      obtain ⟨rfl, rfl⟩ := e
      refine ⟨seen, h1, h2 _ (by simp), way, last, hq, fun s hs => h2 s (by simp [hs]), h3, ?_⟩
      intro r hr hk
      obtain ⟨s, hs, hne⟩ := h4 r hr
      rcases List.mem_cons.1 hs with rfl | hs
      · exact absurd hk hne
      · exact ⟨s, hs, hne⟩
  · rintro ⟨seen, h1, h2, way, last, h3, h4, h5, h6⟩
    refine ⟨st :: way, last, List.mem_map.2 ⟨_, h3, rfl⟩, seen, h1, ?_, h5, ?_⟩
    · intro s hs
      rcases List.mem_cons.1 hs with rfl | hs
      · exact h2
      · exact h4 s hs
    · intro r hr
      by_cases hk : stageKey pDef st r = stageKey pDef st seen
      · obtain ⟨s, hs, hne⟩ := h6 r hr hk
        exact ⟨s, by simp [hs], hne⟩
      · exact ⟨st, by simp, hk⟩

/-- The stages behave on the rules seen. -/
def Stage.Behaves (pDef : PolicyDef) (E : Evaluator) (P : Rule → Prop) (st : Stage) : Prop :=
  (st.isLeaf = false →
    (∀ r, GoodRule pDef r → ∀ a ∈ st.pArgs, ∃ v, pDef.getParameter r a = some v) ∧
    ∀ r r', GoodRule pDef r → GoodRule pDef r' → P r → P r' →
      (∀ a ∈ st.pArgs, pDef.getParameter r a = pDef.getParameter r' a) →
      E.eval st.expr r = E.eval st.expr r') ∧
  E.compiles st.expr = true ∧
    ∀ r, GoodRule pDef r → P r → E.eval st.expr r ≠ .err ∧ E.eval st.expr r ≠ .panic

mutual
theorem tame_of_hist (pDef : PolicyDef) (E : Evaluator) (P : Rule → Prop) :
    ∀ (st : Stage) (n : Node) (H R : Rule → Prop), st.All (Stage.Behaves pDef E P) → (∃ h, H h) →
      (∀ h, H h → GoodRule pDef h ∧ P h) → (∀ r, R r → H r) →
      ((∃ h, H h ∧ ¬ R h) → st.All (fun s => s.isLeaf = true → s.RunsAt E (blankRule pDef))) →
      Idx pDef st n R → Hist pDef st n H → Tame pDef E st n R
  | .mk _ cs, n, H, R, hb, hne, hH, hR, hrun, hI, hF => by
    simp only [Stage.All] at hb hrun
    simp only [Idx] at hI
    simp only [Hist] at hF
    simp only [Tame]
    exact tameC_of_hist pDef E P cs 0 n H R hb hne hH hR hrun hI hF
theorem tameC_of_hist (pDef : PolicyDef) (E : Evaluator) (P : Rule → Prop) :
    ∀ (cs : List Stage) (i : Nat) (n : Node) (H R : Rule → Prop), Stage.AllIn (Stage.Behaves pDef E P) cs →
      (∃ h, H h) → (∀ h, H h → GoodRule pDef h ∧ P h) → (∀ r, R r → H r) →
      ((∃ h, H h ∧ ¬ R h) → Stage.AllIn (fun s => s.isLeaf = true → s.RunsAt E (blankRule pDef)) cs) →
      IdxC pDef cs i n R → HistC pDef cs i n H → TameC pDef E cs i n R
  | [], _, _, _, _, _, _, _, _, _, _, _ => by simp [TameC]
  | st :: rest, i, n, H, R, hb, hne, hH, hR, hrun, hI, hF => by
    simp only [Stage.AllIn] at hb hrun
    simp only [IdxC] at hI
    simp only [HistC] at hF
    obtain ⟨⟨m, hm, hwf, hall, hent⟩, hrest⟩ := hI
    obtain ⟨⟨m2, hm2, hslot⟩, hF2⟩ := hF
    obtain rfl : m2 = m := Option.some.inj (hm2.symm.trans hm)
    obtain ⟨⟨⟨hloc, hcomp, hev⟩, hb1⟩, hb2⟩ := hb
    simp only [TameC]
    refine ⟨⟨hcomp, m2, hm, ?_, ?_⟩, tameC_of_hist pDef E P rest (i+1) n H R hb2 hne hH hR (fun h => (hrun h).2) hrest hF2⟩
    · intro hm0
      obtain ⟨h, hh⟩ := hne
      subst hm0
      cases hlf : st.isLeaf with
      | false =>
        have := (hslot hlf).1 h hh
        simp at this
      | true =>
        refine (hrun ⟨h, hh, fun hr => ?_⟩).1.1 hlf
        have := hall h hr
        simp at this
    · intro k c hc
      obtain ⟨g1, g2, g3, g4⟩ := hent k c hc
      have hHc : H c.rule := by
        cases hlf : st.isLeaf with
        | true => exact hR _ (g3 hlf)
        | false => exact ((hslot hlf).2 k c hc).1
      obtain ⟨n1, n2⟩ := hev _ g1 (hH _ hHc).2
      refine ⟨n1, n2, fun hlf => ⟨?_, fun _ => ?_⟩⟩
      · intro r hr hk
        obtain ⟨l1, l2⟩ := hloc hlf
        exact eval_of_stageKey_on l1 l2 (hH r (hR r hr)).1 g1 (hH r (hR r hr)).2 (hH _ hHc).2 (by rw [g2]; exact hk)
      · refine tame_of_hist pDef E P st c (fun r => H r ∧ stageKey pDef st r = k) _ hb1 ⟨c.rule, hHc, g2⟩ (fun h hh => hH h hh.1)
          (fun r hr => ⟨hR r hr.1, hr.2⟩) ?_ g4 ((hslot hlf).2 k c hc).2
        rintro ⟨h, ⟨h1, h2⟩, h3⟩
        exact (hrun ⟨h, h1, fun q => h3 ⟨q, h2⟩⟩).1.2
end

mutual
theorem phantoms_hist (pDef : PolicyDef) (E : Evaluator) (P : Rule → Prop) :
    ∀ (st : Stage) (n : Node) (H R : Rule → Prop), st.All (Stage.Behaves pDef E P) → (∃ h, H h) →
      (∀ h, H h → GoodRule pDef h ∧ P h) → (∀ r, R r → H r) → Idx pDef st n R → Hist pDef st n H →
      (phantoms pDef E st n ≠ 0 ↔ Ghost pDef E H R (Stage.routesC st.children))
  | .mk _ cs, n, H, R, hb, hne, hH, hR, hI, hF => by
    simp only [Stage.All] at hb
    simp only [Idx] at hI
    simp only [Hist] at hF
    simp only [phantoms, Stage.children]
    exact phantomsC_hist pDef E P cs 0 n H R hb hne hH hR hI hF
theorem phantomsC_hist (pDef : PolicyDef) (E : Evaluator) (P : Rule → Prop) :
    ∀ (cs : List Stage) (i : Nat) (n : Node) (H R : Rule → Prop), Stage.AllIn (Stage.Behaves pDef E P) cs →
      (∃ h, H h) → (∀ h, H h → GoodRule pDef h ∧ P h) → (∀ r, R r → H r) → IdxC pDef cs i n R → HistC pDef cs i n H →
      (phantomsC pDef E cs i n ≠ 0 ↔ Ghost pDef E H R (Stage.routesC cs))
  | [], _, _, _, _, _, _, _, _, _, _ => by simp [phantomsC, Ghost, Stage.routesC]
  | st :: rest, i, n, H, R, hb, hne, hH, hR, hI, hF => by
    simp only [Stage.AllIn] at hb
    simp only [IdxC] at hI
    simp only [HistC] at hF
    obtain ⟨⟨m, hm, hwf, hall, hent⟩, hrest⟩ := hI
    obtain ⟨⟨m2, hm2, hslot⟩, hF2⟩ := hF
    obtain rfl : m2 = m := Option.some.inj (hm2.symm.trans hm)
    obtain ⟨⟨⟨hloc, hcomp, hev⟩, hb1⟩, hb2⟩ := hb
    have ih := phantomsC_hist pDef E P rest (i+1) n H R hb2 hne hH hR hrest hF2
    rw [phantomsC_cons hm, Stage.routesC, Ghost.append, ← ih]
    suffices hs : (if m2.isEmpty then st.paths E (blankRule pDef) else if st.isLeaf then 0 else
        (m2.map (fun e => if E.eval st.expr e.2.rule = .bool true then phantoms pDef E st e.2 else 0)).sum) ≠ 0 ↔
        Ghost pDef E H R st.routes by
      rw [← hs]
      omega
    cases hlf : st.isLeaf with
    | true =>
      rw [Ghost.leaf hlf hne]
      by_cases he : m2.isEmpty = true
      · have hm0 : m2 = [] := by simpa using he
        subst hm0
        rw [if_pos he, Stage.paths_eq, hlf]
        have hR0 : ∀ r, ¬ R r := by
          intro r hr
          have := hall r hr
          simp at this
        by_cases hE : E.eval st.expr (blankRule pDef) = .bool true
        · simp [hE, hR0]
        · simp [hE]
      · rw [if_neg he]
        simp only [if_true]
        refine ⟨fun h => absurd rfl h, ?_⟩
        rintro ⟨_, h2⟩
        obtain ⟨e, he⟩ := List.exists_mem_of_ne_nil m2 (by simpa using he)
        have hg := entry_get hwf he
        exact absurd ((hent _ _ hg).2.2.1 hlf) (h2 _)
    | false =>
      obtain ⟨s1, s2⟩ := hslot hlf
      have he : ¬ m2.isEmpty = true := by
        intro he
        have hm0 : m2 = [] := by simpa using he
        subst hm0
        obtain ⟨h, hh⟩ := hne
        have := s1 h hh
        simp at this
      rw [if_neg he, Ghost.inner hlf]
      simp only [Bool.false_eq_true, if_false]
      have hsum : (m2.map (fun e => if E.eval st.expr e.2.rule = .bool true then phantoms pDef E st e.2 else 0)).sum ≠ 0 ↔
          ∃ e ∈ m2, E.eval st.expr e.2.rule = .bool true ∧ phantoms pDef E st e.2 ≠ 0 := by
        rw [ne_eq, List.sum_eq_zero_iff_forall_eq_nat]
        constructor
        · intro h
          refine Classical.byContradiction (fun hc => h ?_)
          intro x hx
          obtain ⟨e, he, rfl⟩ := List.mem_map.1 hx
          split
          · rename_i ht
            exact Classical.byContradiction (fun q => hc ⟨e, he, ht, q⟩)
          · rfl
        · rintro ⟨e, he, ht, q⟩ h
          have := h _ (List.mem_map.2 ⟨e, he, rfl⟩)
          rw [if_pos ht] at this
          exact q this
      rw [hsum]
      have key : ∀ k c, GoMap.get m2 k = some c → (phantoms pDef E st c ≠ 0 ↔
          Ghost pDef E (fun r => H r ∧ stageKey pDef st r = k) (fun r => R r ∧ stageKey pDef st r = k)
            (Stage.routesC st.children)) := by
        intro k c hc
        obtain ⟨g1, g2, g3, g4⟩ := hent k c hc
        obtain ⟨h1, h2⟩ := s2 k c hc
        exact phantoms_hist pDef E P st c _ _ hb1 ⟨c.rule, h1, g2⟩ (fun h hh => hH h hh.1)
          (fun r hr => ⟨hR r hr.1, hr.2⟩) g4 h2
      have same : ∀ k c, GoMap.get m2 k = some c → ∀ h, H h → stageKey pDef st h = k →
          E.eval st.expr h = E.eval st.expr c.rule := by
        intro k c hc h hh hk
        obtain ⟨l1, l2⟩ := hloc hlf
        obtain ⟨g1, g2, _⟩ := hent k c hc
        exact eval_of_stageKey_on l1 l2 (hH h hh).1 g1 (hH h hh).2 (hH _ (s2 k c hc).1).2 (by rw [g2]; exact hk)
      constructor
      · rintro ⟨e, he, ht, hp⟩
        have hg := entry_get hwf he
        obtain ⟨way, last, w1, seen, ⟨w2, w3⟩, w4, w5, w6⟩ := (key _ _ hg).1 hp
        refine ⟨seen, w2, by rw [same _ _ hg seen w2 w3]; exact ht, way, last, w1, w4, w5, ?_⟩
        intro r hr hk
        exact w6 r ⟨hr, by rw [hk]; exact w3⟩
      · rintro ⟨seen, w2, ht, way, last, w1, w4, w5, w6⟩
        obtain ⟨c, hc⟩ := Option.isSome_iff_exists.1 (s1 seen w2)
        refine ⟨(stageKey pDef st seen, c), GoMap.mem_of_get hc, ?_, ?_⟩
        · rw [← same _ _ hc seen w2 rfl]; exact ht
        · refine (key _ _ hc).2 ⟨way, last, w1, seen, ⟨w2, rfl⟩, w4, w5, ?_⟩
          rintro r ⟨hr, hk⟩
          exact w6 r hr hk
end

end Fastac
