import Verif.Model.Callbacks
import Verif.Lemmas.Live

/-!
# The index while a callback changes it
-/

namespace Fastac

/-! ### Paths in the index -/

/-- The stage to which a path of inner stages leads. -/
def Stage.inner (st : Stage) : List (Nat × Str) → Option Stage
  | [] => some st
  | (i, _) :: p =>
    match st.children[i]? with
    | none => none
    | some c => if c.isLeaf then none else c.inner p

/-- The keys of the rule are those of the path. -/
def OnPath (pDef : PolicyDef) (st : Stage) : List (Nat × Str) → Rule → Prop
  | [], _ => True
  | (i, k) :: p, r =>
    match st.children[i]? with
    | none => False
    | some c => stageKey pDef c r = k ∧ OnPath pDef c p r

theorem Node.follow_append (p q : List (Nat × Str)) : ∀ n : Node, n.follow (p ++ q) = (n.follow p).bind (·.follow q) := by
  induction p with
  | nil => exact fun _ => rfl
  | cons e p ih =>
    obtain ⟨i, k⟩ := e
    intro n
    simp only [List.cons_append, Node.follow]
    cases (n.children[i]?).bind (GoMap.get · k) with
    | none => rfl
    | some c => exact ih c

theorem Stage.inner_append (p q : List (Nat × Str)) : ∀ st : Stage, st.inner (p ++ q) = (st.inner p).bind (·.inner q) := by
  induction p with
  | nil => exact fun _ => rfl
  | cons e p ih =>
    obtain ⟨i, k⟩ := e
    intro st
    simp only [List.cons_append, Stage.inner]
    cases st.children[i]? with
    | none => rfl
    | some c =>
      simp only
      split
      · rfl
      · exact ih c

theorem OnPath.append {pDef : PolicyDef} {i : Nat} {k : Str} {r : Rule} (p : List (Nat × Str)) : ∀ {st st' c : Stage},
    st.inner p = some st' → st'.children[i]? = some c →
    (OnPath pDef st (p ++ [(i, k)]) r ↔ OnPath pDef st p r ∧ stageKey pDef c r = k) := by
  induction p with
  | nil =>
    intro st st' c h hc
    cases h
    simp only [List.nil_append, OnPath, hc, and_true, true_and]
  | cons e p ih =>
    obtain ⟨j, l⟩ := e
    intro st st' c h hc
    simp only [Stage.inner] at h
    simp only [List.cons_append, OnPath]
    cases hd : st.children[j]? with
    | none => rw [hd] at h; cases h
    | some d =>
      rw [hd] at h
      simp only at h
      split at h
      · cases h
      · simp only
        rw [ih h hc, and_assoc]

theorem IdxC.get {pDef : PolicyDef} {n : Node} {R : Rule → Prop} : ∀ {cs : List Stage} {i j : Nat} {st : Stage},
    IdxC pDef cs i n R → cs[j]? = some st → ∃ m, n.children[i + j]? = some m ∧ GoMap.WF m ∧
      (∀ r, R r → (GoMap.get m (stageKey pDef st r)).isSome) ∧
      (∀ k c, GoMap.get m k = some c → GoodRule pDef c.rule ∧ stageKey pDef st c.rule = k ∧
        (st.isLeaf = true → R c.rule) ∧ Idx pDef st c (fun r => R r ∧ stageKey pDef st r = k))
  | [], _, _, _, _, h => by simp at h
  | st :: rest, i, 0, st', hI, h => by
    simp only [List.getElem?_cons_zero, Option.some.injEq] at h
    subst h
    simp only [IdxC] at hI
    exact hI.1
  | st :: rest, i, j + 1, st', hI, h => by
    simp only [IdxC] at hI
    obtain ⟨m, hm, x⟩ := IdxC.get (i := i + 1) (j := j) hI.2 (by simpa using h)
    exact ⟨m, by rw [← hm]; congr 1; omega, x⟩

/-- What the node at the end of a path indexes. -/
theorem Idx.follow {pDef : PolicyDef} : ∀ (p : List (Nat × Str)) {st st' : Stage} {n n' : Node} {R : Rule → Prop},
    Idx pDef st n R → st.inner p = some st' → n.follow p = some n' →
    Idx pDef st' n' (fun r => R r ∧ OnPath pDef st p r)
  | [], st, st', n, n', R, h, h1, h2 => by
    cases h1
    cases h2
    exact Idx_congr _ _ _ (fun r => by simp [OnPath]) h
  | (i, k) :: p, st, st', n, n', R, h, h1, h2 => by
    simp only [Stage.inner] at h1
    cases hc : st.children[i]? with
    | none => rw [hc] at h1; cases h1
    | some c =>
      rw [hc] at h1
      simp only at h1
      split at h1
      · cases h1
      · rw [Idx_eq] at h
        obtain ⟨m, hm, -, -, he⟩ := h.get hc
        rw [Nat.zero_add] at hm
        simp only [Node.follow, hm, Option.bind_some] at h2
        cases hk : GoMap.get m k with
        | none => rw [hk] at h2; cases h2
        | some d =>
          rw [hk] at h2
          have := Idx.follow p (he k d hk).2.2.2 h1 h2
          refine Idx_congr _ _ _ (fun r => ?_) this
          simp only [OnPath, hc, and_assoc]

/-! ### Inner nodes stay -/

/-- The paths of inner stages that lead somewhere still do. -/
def Stays (st : Stage) (n n' : Node) : Prop :=
  ∀ p, (st.inner p).isSome = true → (n.follow p).isSome = true → (n'.follow p).isSome = true

theorem Stays.refl (st : Stage) (n : Node) : Stays st n n := fun _ _ h => h

theorem Stays.trans {st : Stage} {a b c : Node} (h : Stays st a b) (h' : Stays st b c) : Stays st a c :=
  fun p h1 h2 => h' p h1 (h p h1 h2)

/-- From child index `i` on, the maps of inner stages have kept their entries. -/
def StaysC (cs : List Stage) (i : Nat) (n n' : Node) : Prop :=
  ∀ j st, cs[j]? = some st → st.isLeaf = false → ∀ m k c, n.children[i + j]? = some m → GoMap.get m k = some c →
    ∃ m' c', n'.children[i + j]? = some m' ∧ GoMap.get m' k = some c' ∧ Stays st c c'

theorem Stays.of_children {st : Stage} {n n' : Node} (h : StaysC st.children 0 n n') : Stays st n n' := by
  intro p h1 h2
  match p with
  | [] => rfl
  | (i, k) :: p =>
    simp only [Stage.inner] at h1
    cases hc : st.children[i]? with
    | none => rw [hc] at h1; cases h1
    | some c =>
      rw [hc] at h1
      simp only at h1
      cases hl : c.isLeaf with
      | true => rw [hl] at h1; cases h1
      | false =>
        rw [hl] at h1
        simp only [Node.follow] at h2 ⊢
        cases hm : n.children[i]? with
        | none => rw [hm] at h2; cases h2
        | some m =>
          rw [hm, Option.bind_some] at h2
          cases hk : GoMap.get m k with
          | none => rw [hk] at h2; cases h2
          | some d =>
            rw [hk] at h2
            obtain ⟨m', d', e1, e2, e3⟩ := h i c hc hl m k d (by rw [Nat.zero_add]; exact hm) hk
            rw [Nat.zero_add] at e1
            rw [e1, Option.bind_some, e2]
            exact e3 p h1 h2

/-- One map is replaced, then the rest changes. -/
theorem StaysC.cons {st : Stage} {rest : List Stage} {i : Nat} {n n' : Node} {m m' : GoMap Str Node}
    (hm : n.children[i]? = some m)
    (h1 : st.isLeaf = false → ∀ k c, GoMap.get m k = some c → ∃ c', GoMap.get m' k = some c' ∧ Stays st c c')
    (h2 : n'.children[i]? = some m') (h3 : StaysC rest (i + 1) (n.setChild i m') n') : StaysC (st :: rest) i n n' := by
  intro j st' hj hl m2 k c e1 e2
  match j with
  | 0 =>
    simp only [List.getElem?_cons_zero, Option.some.injEq] at hj
    subst hj
    rw [Nat.add_zero, hm] at e1
    cases e1
    obtain ⟨c', a, b⟩ := h1 hl k c e2
    exact ⟨m', c', h2, a, b⟩
  | j + 1 =>
    simp only [List.getElem?_cons_succ] at hj
    have e : i + (j + 1) = i + 1 + j := by omega
    rw [e] at e1 ⊢
    refine h3 j st' hj hl m2 k c ?_ e2
    rw [Node.children_setChild, List.getElem?_set_ne (by omega)]
    exact e1

mutual
theorem addStage_stays (pDef : PolicyDef) (r : Rule) : ∀ (st : Stage) {n n' : Node}, addStage pDef r st n = .ok n' →
    Stays st n n'
  | .mk e cs, n, n', h => by
    rw [addStage_eq] at h
    exact .of_children (addChildren_stays pDef r cs 0 h).2
theorem addChildren_stays (pDef : PolicyDef) (r : Rule) : ∀ (cs : List Stage) (i : Nat) {n n' : Node},
    addChildren pDef r cs i n = .ok n' → (∀ j, j < i → n'.children[j]? = n.children[j]?) ∧ StaysC cs i n n'
  | [], i, n, n', h => by
    simp only [addChildren, Res.ok.injEq] at h
    subst h
    exact ⟨fun _ _ => rfl, fun j st hj => by simp at hj⟩
  | st :: rest, i, n, n', h => by
    simp only [addChildren] at h
    cases hm : n.children[i]? with
    | none => rw [hm] at h; cases h
    | some m =>
      rw [hm] at h
      simp only at h
      have hlen : i < n.children.length := by
        rcases Nat.lt_or_ge i n.children.length with h' | h'
        · exact h'
        · rw [List.getElem?_eq_none h'] at hm; cases hm
      have main : ∀ m' : GoMap Str Node, addChildren pDef r rest (i + 1) (n.setChild i m') = .ok n' →
          (st.isLeaf = false → ∀ k c, GoMap.get m k = some c → ∃ c', GoMap.get m' k = some c' ∧ Stays st c c') →
          (∀ j, j < i → n'.children[j]? = n.children[j]?) ∧ StaysC (st :: rest) i n n' := by
        intro m' hr hs
        obtain ⟨a, b⟩ := addChildren_stays pDef r rest (i + 1) hr
        refine ⟨fun j hj => ?_, .cons hm hs ?_ b⟩
        · rw [a j (by omega), Node.children_setChild, List.getElem?_set_ne (by omega)]
        · rw [a i (by omega), Node.children_setChild, List.getElem?_set_self hlen]
      cases hl : st.isLeaf with
      | true =>
        rw [hl] at h
        exact main _ h (fun e => by rw [hl] at e; cases e)
      | false =>
        rw [hl] at h
        simp only [Bool.false_eq_true, if_false] at h
        cases ha : addStage pDef r st ((GoMap.get m (stageKey pDef st r)).getD (newNode r)) with
        | err => rw [ha] at h; cases h
        | panic => rw [ha] at h; cases h
        | ok d =>
          rw [ha] at h
          have hd := addStage_stays pDef r st ha
          refine main _ h fun _ k c hk => ?_
          rw [GoMap.get_set]
          split
          · rename_i e
            subst e
            rw [hk] at hd
            exact ⟨d, rfl, hd⟩
          · exact ⟨c, hk, .refl st c⟩
end

mutual
theorem removeStage_stays (pDef : PolicyDef) (r : Rule) : ∀ (st : Stage) {n n' : Node}, removeStage pDef r st n = .ok n' →
    Stays st n n'
  | .mk e cs, n, n', h => by
    rw [removeStage_eq] at h
    exact .of_children (removeChildren_stays pDef r cs 0 h).2
theorem removeChildren_stays (pDef : PolicyDef) (r : Rule) : ∀ (cs : List Stage) (i : Nat) {n n' : Node},
    removeChildren pDef r cs i n = .ok n' → (∀ j, j < i → n'.children[j]? = n.children[j]?) ∧ StaysC cs i n n'
  | [], i, n, n', h => by
    simp only [removeChildren, Res.ok.injEq] at h
    subst h
    exact ⟨fun _ _ => rfl, fun j st hj => by simp at hj⟩
  | st :: rest, i, n, n', h => by
    simp only [removeChildren] at h
    cases hm : n.children[i]? with
    | none => rw [hm] at h; cases h
    | some m =>
      rw [hm] at h
      simp only at h
      have hlen : i < n.children.length := by
        rcases Nat.lt_or_ge i n.children.length with h' | h'
        · exact h'
        · rw [List.getElem?_eq_none h'] at hm; cases hm
      have main : ∀ m' : GoMap Str Node, removeChildren pDef r rest (i + 1) (n.setChild i m') = .ok n' →
          (st.isLeaf = false → ∀ k c, GoMap.get m k = some c → ∃ c', GoMap.get m' k = some c' ∧ Stays st c c') →
          (∀ j, j < i → n'.children[j]? = n.children[j]?) ∧ StaysC (st :: rest) i n n' := by
        intro m' hr hs
        obtain ⟨a, b⟩ := removeChildren_stays pDef r rest (i + 1) hr
        refine ⟨fun j hj => ?_, .cons hm hs ?_ b⟩
        · rw [a j (by omega), Node.children_setChild, List.getElem?_set_ne (by omega)]
        · rw [a i (by omega), Node.children_setChild, List.getElem?_set_self hlen]
      cases hl : st.isLeaf with
      | true =>
        rw [hl] at h
        exact main _ h (fun e => by rw [hl] at e; cases e)
      | false =>
        rw [hl] at h
        simp only [Bool.false_eq_true, if_false] at h
        cases hk0 : GoMap.get m (stageKey pDef st r) with
        | none =>
          rw [hk0] at h
          exact main _ h fun _ k c hk => ⟨c, hk, .refl st c⟩
        | some d0 =>
          rw [hk0] at h
          simp only at h
          cases ha : removeStage pDef r st d0 with
          | err => rw [ha] at h; cases h
          | panic => rw [ha] at h; cases h
          | ok d =>
            rw [ha] at h
            have hd := removeStage_stays pDef r st ha
            refine main _ h fun _ k c hk => ?_
            rw [GoMap.get_set]
            split
            · rename_i e
              subst e
              rw [hk0] at hk
              cases hk
              exact ⟨d, rfl, hd⟩
            · exact ⟨c, hk, .refl st c⟩
end

theorem PolicyWithMatcher.step_stays {pDef : PolicyDef} {root : Stage} {s s' : PolicyWithMatcher} (i : s.Inv pDef root)
    {op : PolOp} (ho : op ≠ .clear) (h : s.step op = .ok s') : Stays root s.matcher.root s'.matcher.root := by
  have hp := i.pdef
  have he := i.expr
  unfold PolicyWithMatcher.step at h
  cases op with
  | clear => exact absurd rfl ho
  | add r =>
    simp only [Policy.step, Policy.addRule] at h
    split at h
    · rename_i e
      split at e
      · simp only [Prod.mk.injEq] at e; cases h; exact .refl _ _
      · simp at e
    · rename_i e
      split at e
      · simp at e
      · simp only [Prod.mk.injEq, Option.some.injEq] at e
        obtain ⟨-, -, rfl⟩ := e
        simp only [Matcher.handle, Matcher.addRule, hp, he] at h
        cases ha : addStage pDef r root s.matcher.root with
        | err => rw [ha] at h; cases h
        | panic => rw [ha] at h; cases h
        | ok n => rw [ha] at h; cases h; exact addStage_stays pDef r root ha
  | remove r =>
    simp only [Policy.step, Policy.removeRule] at h
    split at h
    · rename_i e
      split at e
      · simp at e
      · simp only [Prod.mk.injEq] at e; cases h; exact .refl _ _
    · rename_i e
      split at e
      · simp only [Prod.mk.injEq, Option.some.injEq] at e
        obtain ⟨-, -, rfl⟩ := e
        simp only [Matcher.handle, Matcher.removeRule, hp, he] at h
        cases ha : removeStage pDef r root s.matcher.root with
        | err => rw [ha] at h; cases h
        | panic => rw [ha] at h; cases h
        | ok n => rw [ha] at h; cases h; exact removeStage_stays pDef r root ha
      · simp at e

end Fastac
