import Verif.Lemmas.Live

/-!
# Absence of panics: only the shape of the index matters
-/

namespace Fastac

mutual
/-- Every node has a child map for every alternative. -/
def Shaped : Stage → Node → Prop
  | .mk _ cs, n => ShapedC cs 0 n
def ShapedC : List Stage → Nat → Node → Prop
  | [], _, _ => True
  | st :: rest, i, n =>
    (∃ m, n.children[i]? = some m ∧ ∀ e ∈ m, Shaped st e.2) ∧ ShapedC rest (i + 1) n
end

theorem Shaped_eq (st : Stage) (n : Node) : Shaped st n = ShapedC st.children 0 n := by
  cases st; simp [Shaped, Stage.children]

theorem ShapedC_local (cs : List Stage) : ∀ (i : Nat) (n n' : Node),
    (∀ j, i ≤ j → n'.children[j]? = n.children[j]?) → ShapedC cs i n → ShapedC cs i n' := by
  induction cs with
  | nil => intros; simp [ShapedC]
  | cons st rest ih =>
    intro i n n' h hI
    simp only [ShapedC] at hI ⊢
    rw [h i (Nat.le_refl i)]
    exact ⟨hI.1, ih (i+1) n n' (fun j hj => h j (by omega)) hI.2⟩

theorem ShapedC_new (r : Rule) (cs : List Stage) : ∀ (i : Nat),
    i + cs.length ≤ 2 → ShapedC cs i (newNode r) := by
  induction cs with
  | nil => intros; simp [ShapedC]
  | cons st rest ih =>
    intro i hi
    simp only [List.length_cons] at hi
    simp only [ShapedC]
    refine ⟨⟨[], ?_, by simp⟩, ih (i+1) (by omega)⟩
    have : i = 0 ∨ i = 1 := by omega
    rcases this with rfl | rfl <;> rfl

theorem Shaped_new (r : Rule) (st : Stage) (h : st.children.length ≤ 2) :
    Shaped st (newNode r) := by
  rw [Shaped_eq]; exact ShapedC_new r _ 0 (by omega)

theorem mem_set_imp {K V : Type} [DecidableEq K] {m : GoMap K V} {k : K} {v : V} {e : K × V}
    (h : e ∈ m.set k v) : e = (k, v) ∨ e ∈ m := by
  induction m with
  | nil => left; simpa [GoMap.set] using h
  | cons p m ih =>
    obtain ⟨k', v'⟩ := p
    unfold GoMap.set at h
    split at h
    · rcases List.mem_cons.1 h with h | h
      · exact Or.inl h
      · exact Or.inr (List.mem_cons_of_mem _ h)
    · rcases List.mem_cons.1 h with h | h
      · exact Or.inr (by rw [h]; simp)
      · rcases ih h with h | h
        · exact Or.inl h
        · exact Or.inr (List.mem_cons_of_mem _ h)

theorem setChild_ge (n : Node) (i : Nat) (m' : GoMap Str Node) :
    ∀ j, i + 1 ≤ j → (n.setChild i m').children[j]? = n.children[j]? := by
  intro j hj
  rw [Node.children_setChild, List.getElem?_set_ne (by omega)]

mutual
theorem addStage_shaped (pDef : PolicyDef) (r : Rule) :
    ∀ (st : Stage) (n : Node), st.All (fun s => s.children.length ≤ 2) → Shaped st n →
      ∃ n', addStage pDef r st n = .ok n' ∧ Shaped st n'
  | .mk _ cs, n, hb, hI => by
    simp only [Stage.All] at hb
    simp only [Shaped] at hI ⊢
    simp only [addStage]
    obtain ⟨n', h1, h2, _⟩ := addChildren_shaped pDef r cs 0 n hb hI
    exact ⟨n', h1, h2⟩
theorem addChildren_shaped (pDef : PolicyDef) (r : Rule) :
    ∀ (cs : List Stage) (i : Nat) (n : Node),
      Stage.AllIn (fun s => s.children.length ≤ 2) cs → ShapedC cs i n →
      ∃ n', addChildren pDef r cs i n = .ok n' ∧ ShapedC cs i n' ∧
        ∀ j, j < i → n'.children[j]? = n.children[j]?
  | [], i, n, _, _ => ⟨n, by simp [addChildren], by simp [ShapedC], fun _ _ => rfl⟩
  | st :: rest, i, n, hb, hI => by
    simp only [Stage.AllIn] at hb
    simp only [ShapedC] at hI
    obtain ⟨⟨m, hm, hent⟩, hrest⟩ := hI
    simp only [addChildren, hm]
    have hilt : i < n.children.length := by
      rcases Nat.lt_or_ge i n.children.length with h | h
      · exact h
      · rw [List.getElem?_eq_none h] at hm; cases hm
    have go : ∀ m' : GoMap Str Node, (∀ e ∈ m', Shaped st e.2) →
        ∃ n', addChildren pDef r rest (i+1) (n.setChild i m') = .ok n' ∧
          ShapedC (st :: rest) i n' ∧ ∀ j, j < i → n'.children[j]? = n.children[j]? := by
      intro m' hm'
      obtain ⟨n', h1, h2, h3⟩ := addChildren_shaped pDef r rest (i+1) (n.setChild i m') hb.2
        (ShapedC_local rest (i+1) n _ (setChild_ge n i m') hrest)
      refine ⟨n', h1, ?_, ?_⟩
      · simp only [ShapedC]
        refine ⟨⟨m', ?_, hm'⟩, h2⟩
        rw [h3 i (by omega), Node.children_setChild, List.getElem?_set_self hilt]
      · intro j hj
        rw [h3 j (by omega), Node.children_setChild, List.getElem?_set_ne (by omega)]
    cases hl : st.isLeaf with
    | true =>
      simp only [if_true, Res.bind_ok]
      apply go
      intro e he
      rcases mem_set_imp he with rfl | he
      · exact Shaped_new r st hb.1.1
      · exact hent e he
    | false =>
      have hnx : Shaped st ((m.get (stageKey pDef st r)).getD (newNode r)) := by
        cases hg : m.get (stageKey pDef st r) with
        | none => exact Shaped_new r st hb.1.1
        | some c => exact hent _ (GoMap.mem_of_get hg)
      obtain ⟨c', hc1, hc2⟩ := addStage_shaped pDef r st _ hb.1.2 hnx
      simp only [Bool.false_eq_true, if_false, hc1, Res.map_ok, Res.bind_ok]
      apply go
      intro e he
      rcases mem_set_imp he with rfl | he
      · exact hc2
      · exact hent e he
end

mutual
theorem removeStage_shaped (pDef : PolicyDef) (r : Rule) :
    ∀ (st : Stage) (n : Node), Shaped st n →
      ∃ n', removeStage pDef r st n = .ok n' ∧ Shaped st n'
  | .mk _ cs, n, hI => by
    simp only [Shaped] at hI ⊢
    simp only [removeStage]
    obtain ⟨n', h1, h2, _⟩ := removeChildren_shaped pDef r cs 0 n hI
    exact ⟨n', h1, h2⟩
theorem removeChildren_shaped (pDef : PolicyDef) (r : Rule) :
    ∀ (cs : List Stage) (i : Nat) (n : Node), ShapedC cs i n →
      ∃ n', removeChildren pDef r cs i n = .ok n' ∧ ShapedC cs i n' ∧
        ∀ j, j < i → n'.children[j]? = n.children[j]?
  | [], i, n, _ => ⟨n, by simp [removeChildren], by simp [ShapedC], fun _ _ => rfl⟩
  | st :: rest, i, n, hI => by
    simp only [ShapedC] at hI
    obtain ⟨⟨m, hm, hent⟩, hrest⟩ := hI
    simp only [removeChildren, hm]
    have hilt : i < n.children.length := by
      rcases Nat.lt_or_ge i n.children.length with h | h
      · exact h
      · rw [List.getElem?_eq_none h] at hm; cases hm
    have go : ∀ m' : GoMap Str Node, (∀ e ∈ m', Shaped st e.2) →
        ∃ n', removeChildren pDef r rest (i+1) (n.setChild i m') = .ok n' ∧
          ShapedC (st :: rest) i n' ∧ ∀ j, j < i → n'.children[j]? = n.children[j]? := by
      intro m' hm'
      obtain ⟨n', h1, h2, h3⟩ := removeChildren_shaped pDef r rest (i+1) (n.setChild i m')
        (ShapedC_local rest (i+1) n _ (setChild_ge n i m') hrest)
      refine ⟨n', h1, ?_, ?_⟩
      · simp only [ShapedC]
        refine ⟨⟨m', ?_, hm'⟩, h2⟩
        rw [h3 i (by omega), Node.children_setChild, List.getElem?_set_self hilt]
      · intro j hj
        rw [h3 j (by omega), Node.children_setChild, List.getElem?_set_ne (by omega)]
    cases hl : st.isLeaf with
    | true =>
      simp only [if_true, Res.bind_ok]
      apply go
      intro e he
      exact hent e ((GoMap.del_sublist _ _).mem he)
    | false =>
      simp only [Bool.false_eq_true, if_false]
      cases hg : m.get (stageKey pDef st r) with
      | none =>
        simp only [Res.bind_ok]
        exact go m hent
      | some c =>
        obtain ⟨c', hc1, hc2⟩ := removeStage_shaped pDef r st c (hent _ (GoMap.mem_of_get hg))
        simp only [hc1, Res.map_ok, Res.bind_ok]
        apply go
        intro e he
        rcases mem_set_imp he with rfl | he
        · exact hc2
        · exact hent e he
end

/-- `endStatus` is not `panic`. -/
theorem endStatus_append_panic {a b : List Ev} (ha : endStatus a ≠ .panic)
    (hb : endStatus b ≠ .panic) : endStatus (a ++ b) ≠ .panic := by
  induction a with
  | nil => exact hb
  | cons e a ih =>
    cases e with
    | visit r => exact ih ha
    | halt => simp [endStatus]
    | fail => simp [endStatus]
    | panic => exact absurd rfl ha

theorem endStatus_demote_panic {a : List Ev} (ha : endStatus a ≠ .panic) :
    endStatus (a.map demote) ≠ .panic := by
  induction a with
  | nil => exact ha
  | cons e a ih =>
    cases e with
    | visit r => exact ih ha
    | halt => simp [endStatus, demote]
    | fail => simp [endStatus, demote]
    | panic => exact absurd rfl ha

theorem evEntries_noPanic (E : Evaluator) (hE : ∀ e r, E.eval e r ≠ .panic) (expr : Str)
    (cb : Str → Node → List Ev) (m : GoMap Str Node)
    (h : ∀ e ∈ m, endStatus (cb e.1 e.2) ≠ .panic) :
    endStatus (evEntries E expr cb m) ≠ .panic := by
  induction m with
  | nil => simp [evEntries, endStatus]
  | cons e m ih =>
    obtain ⟨k, c⟩ := e
    have ih' := ih (fun e he => h e (List.mem_cons_of_mem _ he))
    simp only [evEntries]
    cases hv : E.eval expr c.rule with
    | err => simp [endStatus]
    | panic => exact absurd hv (hE _ _)
    | other => exact ih'
    | bool b =>
      cases b with
      | false => exact ih'
      | true =>
        exact endStatus_append_panic (endStatus_demote_panic (h (k, c) (by simp))) ih'

mutual
theorem evStage_noPanic (E : Evaluator) (hE : ∀ e r, E.eval e r ≠ .panic) (nargs : Nat)
    (ord : Order) (hv : ord.Valid) :
    ∀ (st : Stage) (path : List (Nat × Str)) (n : Node),
      st.children.length ≤ 2 → st.All (fun s => s.children.length ≤ 2) → Shaped st n →
      endStatus (evStage E nargs ord st path n) ≠ .panic
  | .mk _ cs, path, n, h2, hb, hI => by
    simp only [Stage.All] at hb
    simp only [Shaped] at hI
    simp only [evStage]
    exact evChildren_noPanic E hE nargs ord hv cs 0 path n hb hI
theorem evChildren_noPanic (E : Evaluator) (hE : ∀ e r, E.eval e r ≠ .panic) (nargs : Nat)
    (ord : Order) (hv : ord.Valid) :
    ∀ (cs : List Stage) (i : Nat) (path : List (Nat × Str)) (n : Node),
      Stage.AllIn (fun s => s.children.length ≤ 2) cs → ShapedC cs i n →
      endStatus (evChildren E nargs ord cs i path n) ≠ .panic
  | [], _, _, _, _, _ => by simp [evChildren, endStatus]
  | st :: rest, i, path, n, hb, hI => by
    simp only [Stage.AllIn] at hb
    simp only [ShapedC] at hI
    obtain ⟨⟨m, hm, hent⟩, hrest⟩ := hI
    simp only [evChildren, hm]
    split
    · simp [endStatus]
    · refine endStatus_append_panic ?_
        (evChildren_noPanic E hE nargs ord hv rest (i+1) path n hb.2 hrest)
      apply evEntries_noPanic E hE
      intro e he
      have key : ∀ (k : Str) (c : Node), Shaped st c →
          endStatus ((if st.isLeaf then [Ev.visit c.rule] else []) ++
            evStage E nargs ord st (path ++ [(i, k)]) c) ≠ .panic := by
        intro k c hc
        refine endStatus_append_panic (by split <;> simp [endStatus]) ?_
        exact evStage_noPanic E hE nargs ord hv st _ c hb.1.1 hb.1.2 hc
      unfold entriesOf at he
      split at he
      · simp only [List.mem_singleton] at he
        subst he
        exact key _ _ (Shaped_new _ st hb.1.1)
      · exact key _ _ (hent e ((hv path i m).mem_iff.1 he))
end

theorem Matcher.addRule_shaped (m : Matcher) (hb : m.exprRoot.Binary)
    (hs : Shaped m.exprRoot m.root) (r : Rule) :
    ∃ m', m.addRule r = .ok m' ∧ m'.exprRoot = m.exprRoot ∧ m'.pDef = m.pDef ∧
      Shaped m'.exprRoot m'.root := by
  obtain ⟨n, h1, h2⟩ := addStage_shaped m.pDef r m.exprRoot m.root hb.2 hs
  exact ⟨{ m with root := n }, by unfold Matcher.addRule; rw [h1]; rfl, rfl, rfl, h2⟩

theorem Matcher.handle_shaped (m : Matcher) (hb : m.exprRoot.Binary)
    (hs : Shaped m.exprRoot m.root) (e : PolEvent) :
    ∃ m', m.handle e = .ok m' ∧ m'.exprRoot = m.exprRoot ∧ m'.pDef = m.pDef ∧
      Shaped m'.exprRoot m'.root := by
  cases e with
  | added r => exact m.addRule_shaped hb hs r
  | removed r =>
    obtain ⟨n, h1, h2⟩ := removeStage_shaped m.pDef r m.exprRoot m.root hs
    exact ⟨{ m with root := n },
      by simp only [Matcher.handle, Matcher.removeRule]; rw [h1]; rfl, rfl, rfl, h2⟩
  | cleared =>
    exact ⟨m.cleared, rfl, rfl, rfl, Shaped_new _ _ hb.1⟩

theorem newMatcher_shaped (pDef : PolicyDef) (root : Stage) (hb : root.Binary)
    (rules : List Rule) :
    ∃ m, newMatcher pDef root rules = .ok m ∧ m.exprRoot = root ∧ m.pDef = pDef ∧
      Shaped m.exprRoot m.root := by
  have gen : ∀ (rules : List Rule) (m : Matcher), m.exprRoot = root → m.pDef = pDef →
      Shaped m.exprRoot m.root →
      ∃ m' : Matcher, rules.foldl (fun (r : Res Matcher) rule =>
          r.bind (fun m => Matcher.addRule m rule)) (Res.ok m) = .ok m' ∧
        m'.exprRoot = root ∧ m'.pDef = pDef ∧ Shaped m'.exprRoot m'.root := by
    intro rules
    induction rules with
    | nil => intro m h1 h2 h3; exact ⟨m, rfl, h1, h2, h3⟩
    | cons r rs ih =>
      intro m h1 h2 h3
      obtain ⟨m1, e1, e2, e3, e4⟩ := m.addRule_shaped (h1 ▸ hb) h3 r
      simp only [List.foldl_cons, Res.bind_ok, e1]
      exact ih m1 (e2.trans h1) (e3.trans h2) e4
  exact gen rules ⟨pDef, root, newNode [[]]⟩ rfl rfl (Shaped_new _ _ hb.1)

theorem PolicyWithMatcher.run_shaped (ops : List PolOp) : ∀ (s : PolicyWithMatcher),
    s.matcher.exprRoot.Binary → Shaped s.matcher.exprRoot s.matcher.root →
    ∃ s', s.run ops = .ok s' ∧ s'.matcher.exprRoot = s.matcher.exprRoot ∧
      Shaped s'.matcher.exprRoot s'.matcher.root := by
  induction ops with
  | nil => intro s _ hs; exact ⟨s, rfl, rfl, hs⟩
  | cons op ops ih =>
    intro s hb hs
    have hstep : ∃ s1, s.step op = .ok s1 ∧ s1.matcher.exprRoot = s.matcher.exprRoot ∧
        Shaped s1.matcher.exprRoot s1.matcher.root := by
      unfold PolicyWithMatcher.step
      rcases s.policy.step op with ⟨p', b, ev⟩
      cases ev with
      | none => exact ⟨_, rfl, rfl, hs⟩
      | some e =>
        obtain ⟨m', h1, h2, _, h4⟩ := s.matcher.handle_shaped hb hs e
        simp only [h1, Res.map_ok]
        exact ⟨_, rfl, h2, h4⟩
    obtain ⟨s1, e1, e2, e3⟩ := hstep
    obtain ⟨s2, f1, f2, f3⟩ := ih s1 (e2 ▸ hb) e3
    refine ⟨s2, ?_, f2.trans e2, f3⟩
    simp only [PolicyWithMatcher.run, e1, Res.bind_ok]; exact f1

end Fastac
