import Verif.Lemmas.Enforce
import Verif.Spec.Matching

/-!
# The index invariant

`Idx pDef st node R`: the node indexes exactly the rules satisfying `R` for the stages below `st`.
-/

namespace Fastac

mutual
def Idx (pDef : PolicyDef) : Stage → Node → (Rule → Prop) → Prop
  | .mk _ cs, n, R => IdxC pDef cs 0 n R
def IdxC (pDef : PolicyDef) : List Stage → Nat → Node → (Rule → Prop) → Prop
  | [], _, _, _ => True
  | st :: rest, i, n, R =>
    (∃ m, n.children[i]? = some m ∧ GoMap.WF m ∧
      (∀ r, R r → (GoMap.get m (stageKey pDef st r)).isSome) ∧
      (∀ k c, GoMap.get m k = some c → GoodRule pDef c.rule ∧ stageKey pDef st c.rule = k ∧
        (st.isLeaf = true → R c.rule) ∧
        Idx pDef st c (fun r => R r ∧ stageKey pDef st r = k))) ∧
    IdxC pDef rest (i + 1) n R
end

theorem Idx_eq (pDef : PolicyDef) (st : Stage) (n : Node) (R : Rule → Prop) :
    Idx pDef st n R = IdxC pDef st.children 0 n R := by
  cases st; simp [Idx, Stage.children]

theorem evStage_eq (E : Evaluator) (nargs : Nat) (ord : Order) (st : Stage)
    (path : List (Nat × Str)) (n : Node) :
    evStage E nargs ord st path n = evChildren E nargs ord st.children 0 path n := by
  cases st; simp [evStage, Stage.children]

theorem addStage_eq (pDef : PolicyDef) (r : Rule) (st : Stage) (n : Node) :
    addStage pDef r st n = addChildren pDef r st.children 0 n := by
  cases st; simp [addStage, Stage.children]

theorem removeStage_eq (pDef : PolicyDef) (r : Rule) (st : Stage) (n : Node) :
    removeStage pDef r st n = removeChildren pDef r st.children 0 n := by
  cases st; simp [removeStage, Stage.children]

theorem Stage.All_eq (P : Stage → Prop) (st : Stage) : st.All P = Stage.AllIn P st.children := by
  cases st; simp [Stage.All, Stage.children]

theorem Stage.paths_eq (E : Evaluator) (r : Rule) (st : Stage) :
    st.paths E r = if E.eval st.expr r = .bool true then
      (if st.isLeaf then 1 else Stage.pathsAny E r st.children) else 0 := by
  cases st; simp [Stage.paths, Stage.children, Stage.expr, Stage.isLeaf]

theorem IdxC_congr (pDef : PolicyDef) (cs : List Stage) (i : Nat) (n : Node) {R R' : Rule → Prop}
    (h : ∀ r, R r ↔ R' r) : IdxC pDef cs i n R → IdxC pDef cs i n R' := by
  have : R = R' := funext fun r => propext (h r)
  rw [this]; exact id

theorem Idx_congr (pDef : PolicyDef) (st : Stage) (n : Node) {R R' : Rule → Prop}
    (h : ∀ r, R r ↔ R' r) : Idx pDef st n R → Idx pDef st n R' := by
  have : R = R' := funext fun r => propext (h r)
  rw [this]; exact id

@[simp] theorem Node.children_setChild (n : Node) (i : Nat) (m : GoMap Str Node) :
    (n.setChild i m).children = n.children.set i m := by
  cases n; rfl
@[simp] theorem Node.rule_setChild (n : Node) (i : Nat) (m : GoMap Str Node) :
    (n.setChild i m).rule = n.rule := by
  cases n; rfl
@[simp] theorem newNode_rule (r : Rule) : (newNode r).rule = r := rfl
@[simp] theorem newNode_children (r : Rule) : (newNode r).children = [[], []] := rfl

/-- The invariant from index `i` on only depends on the child maps from `i` on. -/
theorem IdxC_local (pDef : PolicyDef) (cs : List Stage) : ∀ (i : Nat) (n n' : Node)
    (R : Rule → Prop), (∀ j, i ≤ j → n'.children[j]? = n.children[j]?) →
    IdxC pDef cs i n R → IdxC pDef cs i n' R := by
  induction cs with
  | nil => intros; simp [IdxC]
  | cons st rest ih =>
    intro i n n' R h hI
    simp only [IdxC] at hI ⊢
    rw [h i (Nat.le_refl i)]
    exact ⟨hI.1, ih (i+1) n n' R (fun j hj => h j (by omega)) hI.2⟩

/-- A fresh node indexes the empty set. -/
theorem IdxC_new (pDef : PolicyDef) (r : Rule) (cs : List Stage) : ∀ (i : Nat),
    i + cs.length ≤ 2 → IdxC pDef cs i (newNode r) (fun _ => False) := by
  induction cs with
  | nil => intros; simp [IdxC]
  | cons st rest ih =>
    intro i hi
    simp only [List.length_cons] at hi
    simp only [IdxC]
    refine ⟨⟨[], ?_, GoMap.WF.nil, by simp, by simp⟩, ih (i+1) (by omega)⟩
    have : i = 0 ∨ i = 1 := by omega
    rcases this with rfl | rfl <;> rfl

theorem Idx_new (pDef : PolicyDef) (r : Rule) (st : Stage) (h : st.children.length ≤ 2) :
    Idx pDef st (newNode r) (fun _ => False) := by
  rw [Idx_eq]; exact IdxC_new pDef r _ 0 (by omega)

/-! ## Keys -/

theorem GoodRule.hash_inj {pDef : PolicyDef} {r r' : Rule} (h : GoodRule pDef r)
    (h' : GoodRule pDef r') (e : hash r = hash r') : r = r' :=
  join_injective ',' h.ne h'.ne h.noComma h'.noComma e

theorem stageKey_leaf (pDef : PolicyDef) {st : Stage} (h : st.isLeaf = true) (r : Rule) :
    stageKey pDef st r = hash r := by
  simp [stageKey, h]

theorem getParameters_spec (pDef : PolicyDef) (r : Rule) :
    ∀ (names : List Str), (∀ a ∈ names, ∃ v, pDef.getParameter r a = some v) →
      ∃ vs, pDef.getParameters r names = some vs ∧ vs.length = names.length ∧
        vs.map some = names.map (pDef.getParameter r) := by
  intro names
  induction names with
  | nil => intro _; exact ⟨[], by simp [PolicyDef.getParameters]⟩
  | cons a as ih =>
    intro h
    obtain ⟨v, hv⟩ := h a (by simp)
    obtain ⟨vs, h1, h2, h3⟩ := ih (fun b hb => h b (by simp [hb]))
    exact ⟨v :: vs, by simp [PolicyDef.getParameters, hv, h1], by simp [h2], by simp [h3, hv]⟩

theorem getParameter_mem {pDef : PolicyDef} {r : Rule} {a v : Str}
    (h : pDef.getParameter r a = some v) : v ∈ r := by
  unfold PolicyDef.getParameter at h
  split at h
  · cases h
  · exact List.mem_of_getElem? h

/-- Rules with the same index key give an inner stage the same value. -/
theorem eval_of_stageKey {pDef : PolicyDef} {E : Evaluator} {st : Stage}
    (hr : ReadsOwnArgs pDef E st) {r r' : Rule} (g : GoodRule pDef r) (g' : GoodRule pDef r')
    (h : stageKey pDef st r = stageKey pDef st r') : E.eval st.expr r = E.eval st.expr r' := by
  unfold stageKey at h
  split at h
  · rw [g.hash_inj g' h]
  · rename_i hne
    rw [not_or] at hne
    obtain ⟨vs, h1, h2, h3⟩ := getParameters_spec pDef r st.pArgs (hr.declared r g)
    obtain ⟨vs', h1', h2', h3'⟩ := getParameters_spec pDef r' st.pArgs (hr.declared r' g')
    rw [h1, h1', Option.getD_some, Option.getD_some] at h
    have nc : ∀ (x : Rule) (ws : List Str), GoodRule pDef x →
        ws.map some = st.pArgs.map (pDef.getParameter x) → ∀ f ∈ ws, ',' ∉ f := by
      intro x ws gx hws f hf
      have : some f ∈ ws.map some := List.mem_map.2 ⟨f, hf, rfl⟩
      rw [hws] at this
      obtain ⟨a, _, ha⟩ := List.mem_map.1 this
      exact gx.noComma f (getParameter_mem ha)
    have hvs : vs = vs' := by
      refine join_injective ',' ?_ ?_ (nc r vs g h3) (nc r' vs' g' h3') h
      · intro e; rw [e] at h2; exact hne.1 h2.symm
      · intro e; rw [e] at h2'; exact hne.1 h2'.symm
    have hmap : st.pArgs.map (pDef.getParameter r) = st.pArgs.map (pDef.getParameter r') := by
      rw [← h3, ← h3', hvs]
    refine hr.only r r' g g' (fun a ha => ?_)
    exact (List.map_inj_left.1 hmap) a ha

/-! ## Adding a rule -/

mutual
theorem addStage_idx (pDef : PolicyDef) (r : Rule) (g : GoodRule pDef r) :
    ∀ (st : Stage) (n : Node) (R : Rule → Prop),
      st.All (fun s => s.children.length ≤ 2) → Idx pDef st n R →
      ∃ n', addStage pDef r st n = .ok n' ∧ n'.rule = n.rule ∧
        Idx pDef st n' (fun x => x = r ∨ R x)
  | .mk _ cs, n, R, hb, hI => by
    simp only [Stage.All] at hb
    simp only [Idx] at hI ⊢
    simp only [addStage]
    obtain ⟨n', h1, h2, _, h3⟩ := addChildren_idx pDef r g cs 0 n R hb hI
    exact ⟨n', h1, h2, h3⟩
theorem addChildren_idx (pDef : PolicyDef) (r : Rule) (g : GoodRule pDef r) :
    ∀ (cs : List Stage) (i : Nat) (n : Node) (R : Rule → Prop),
      Stage.AllIn (fun s => s.children.length ≤ 2) cs → IdxC pDef cs i n R →
      ∃ n', addChildren pDef r cs i n = .ok n' ∧ n'.rule = n.rule ∧
        (∀ j, j < i → n'.children[j]? = n.children[j]?) ∧
        IdxC pDef cs i n' (fun x => x = r ∨ R x)
  | [], i, n, R, _, _ => ⟨n, by simp [addChildren], rfl, by simp, by simp [IdxC]⟩
  | st :: rest, i, n, R, hb, hI => by
    simp only [Stage.AllIn] at hb
    simp only [IdxC] at hI
    obtain ⟨⟨m, hm, hwf, hall, hent⟩, hrest⟩ := hI
    have hlen : i < n.children.length := by
      rcases Nat.lt_or_ge i n.children.length with h | h
      · exact h
      · rw [List.getElem?_eq_none h] at hm; cases hm
    -- the new map at index i
    have main : ∃ m' : GoMap Str Node,
        (if st.isLeaf then Res.ok (m.set (stageKey pDef st r) (newNode r))
          else (addStage pDef r st ((GoMap.get m (stageKey pDef st r)).getD (newNode r))).map
            (fun n => m.set (stageKey pDef st r) n)) = .ok m' ∧ GoMap.WF m' ∧
        (∀ x, (x = r ∨ R x) → (GoMap.get m' (stageKey pDef st x)).isSome) ∧
        (∀ k c, GoMap.get m' k = some c → GoodRule pDef c.rule ∧ stageKey pDef st c.rule = k ∧
          (st.isLeaf = true → c.rule = r ∨ R c.rule) ∧
          Idx pDef st c (fun x => (x = r ∨ R x) ∧ stageKey pDef st x = k)) := by
      -- common part: what is needed about the node stored under the key of r
      have build : ∀ c' : Node, GoodRule pDef c'.rule →
          stageKey pDef st c'.rule = stageKey pDef st r →
          (st.isLeaf = true → c'.rule = r ∨ R c'.rule) →
          Idx pDef st c' (fun x => (x = r ∨ R x) ∧ stageKey pDef st x = stageKey pDef st r) →
          GoMap.WF (m.set (stageKey pDef st r) c') ∧
          (∀ x, (x = r ∨ R x) →
            (GoMap.get (m.set (stageKey pDef st r) c') (stageKey pDef st x)).isSome) ∧
          (∀ k c, GoMap.get (m.set (stageKey pDef st r) c') k = some c →
            GoodRule pDef c.rule ∧ stageKey pDef st c.rule = k ∧
            (st.isLeaf = true → c.rule = r ∨ R c.rule) ∧
            Idx pDef st c (fun x => (x = r ∨ R x) ∧ stageKey pDef st x = k)) := by
        intro c' h1 h2 h3 h4
        refine ⟨hwf.set _ _, ?_, ?_⟩
        · intro x hx
          rw [GoMap.get_set]
          split
          · simp
          · rename_i hne
            rcases hx with rfl | hx
            · exact absurd rfl hne
            · exact hall x hx
        · intro k c hc
          rw [GoMap.get_set] at hc
          split at hc
          · rename_i hk
            cases hc
            subst hk
            exact ⟨h1, h2, h3, h4⟩
          · rename_i hk
            obtain ⟨e1, e2, e3, e4⟩ := hent k c hc
            refine ⟨e1, e2, fun hl => Or.inr (e3 hl), ?_⟩
            refine Idx_congr pDef st c (fun x => ?_) e4
            constructor
            · rintro ⟨a, b⟩; exact ⟨Or.inr a, b⟩
            · rintro ⟨rfl | a, b⟩
              · exact absurd b hk
              · exact ⟨a, b⟩
      cases hl : st.isLeaf with
      | true =>
        refine ⟨m.set (stageKey pDef st r) (newNode r), by simp, ?_⟩
        have := build (newNode r) (by simpa using g) (by simp) (fun _ => Or.inl rfl) (by
          cases st with
          | mk e cs =>
            have : cs = [] := by simpa [Stage.isLeaf, Stage.children] using hl
            subst this
            simp [Idx, IdxC])
        simpa [hl] using this
      | false =>
        simp only [Bool.false_eq_true, if_false]
        have hnext : ∃ nx : Node, (GoMap.get m (stageKey pDef st r)).getD (newNode r) = nx ∧
            GoodRule pDef nx.rule ∧ stageKey pDef st nx.rule = stageKey pDef st r ∧
            Idx pDef st nx (fun x => R x ∧ stageKey pDef st x = stageKey pDef st r) := by
          cases hg : GoMap.get m (stageKey pDef st r) with
          | some c =>
            obtain ⟨e1, e2, _, e4⟩ := hent _ c hg
            exact ⟨c, rfl, e1, e2, e4⟩
          | none =>
            refine ⟨newNode r, rfl, by simpa using g, by simp, ?_⟩
            refine Idx_congr pDef st _ (fun x => ?_) (Idx_new pDef r st hb.1.1)
            simp only [false_iff, not_and]
            intro hx hk
            have := hall x hx
            rw [hk, hg] at this
            simp at this
        obtain ⟨nx, hnx, q1, q2, q3⟩ := hnext
        rw [hnx]
        obtain ⟨c', hc1, hc2, hc3⟩ := addStage_idx pDef r g st nx _ hb.1.2 q3
        refine ⟨m.set (stageKey pDef st r) c', by simp [hc1], ?_⟩
        have := build c' (by rw [hc2]; exact q1) (by rw [hc2]; exact q2)
          (by simp [hl]) (by
            refine Idx_congr pDef st c' (fun x => ?_) hc3
            constructor
            · rintro (rfl | ⟨a, b⟩)
              · exact ⟨Or.inl rfl, rfl⟩
              · exact ⟨Or.inr a, b⟩
            · rintro ⟨rfl | a, b⟩
              · exact Or.inl rfl
              · exact Or.inr ⟨a, b⟩)
        simpa [hl] using this
    obtain ⟨m', hm'eq, hwf', hall', hent'⟩ := main
    have hrest' : IdxC pDef rest (i+1) (n.setChild i m') R := by
      refine IdxC_local pDef rest (i+1) n _ R (fun j hj => ?_) hrest
      rw [Node.children_setChild, List.getElem?_set_ne (by omega)]
    obtain ⟨n', hn1, hn2, hn3, hn4⟩ :=
      addChildren_idx pDef r g rest (i+1) (n.setChild i m') R hb.2 hrest'
    refine ⟨n', ?_, ?_, ?_, ?_⟩
    · simp only [addChildren, hm]
      rw [hm'eq, Res.bind_ok, hn1]
    · rw [hn2, Node.rule_setChild]
    · intro j hj
      rw [hn3 j (by omega), Node.children_setChild, List.getElem?_set_ne (by omega)]
    · simp only [IdxC]
      refine ⟨⟨m', ?_, hwf', hall', hent'⟩, hn4⟩
      rw [hn3 i (by omega), Node.children_setChild, List.getElem?_set_self hlen]
end

/-! ## Removing a rule -/

mutual
theorem removeStage_idx (pDef : PolicyDef) (r : Rule) (g : GoodRule pDef r) :
    ∀ (st : Stage) (n : Node) (R : Rule → Prop), (∀ x, R x → GoodRule pDef x) →
      Idx pDef st n R →
      ∃ n', removeStage pDef r st n = .ok n' ∧ n'.rule = n.rule ∧
        Idx pDef st n' (fun x => R x ∧ x ≠ r)
  | .mk _ cs, n, R, hg, hI => by
    simp only [Idx] at hI ⊢
    simp only [removeStage]
    obtain ⟨n', h1, h2, _, h3⟩ := removeChildren_idx pDef r g cs 0 n R hg hI
    exact ⟨n', h1, h2, h3⟩
theorem removeChildren_idx (pDef : PolicyDef) (r : Rule) (g : GoodRule pDef r) :
    ∀ (cs : List Stage) (i : Nat) (n : Node) (R : Rule → Prop), (∀ x, R x → GoodRule pDef x) →
      IdxC pDef cs i n R →
      ∃ n', removeChildren pDef r cs i n = .ok n' ∧ n'.rule = n.rule ∧
        (∀ j, j < i → n'.children[j]? = n.children[j]?) ∧
        IdxC pDef cs i n' (fun x => R x ∧ x ≠ r)
  | [], i, n, R, _, _ => ⟨n, by simp [removeChildren], rfl, by simp, by simp [IdxC]⟩
  | st :: rest, i, n, R, hg, hI => by
    simp only [IdxC] at hI
    obtain ⟨⟨m, hm, hwf, hall, hent⟩, hrest⟩ := hI
    have hlen : i < n.children.length := by
      rcases Nat.lt_or_ge i n.children.length with h | h
      · exact h
      · rw [List.getElem?_eq_none h] at hm; cases hm
    have main : ∃ m' : GoMap Str Node,
        (if st.isLeaf then Res.ok (m.del (stageKey pDef st r))
          else match GoMap.get m (stageKey pDef st r) with
            | none => .ok m
            | some next => (removeStage pDef r st next).map
                (fun n => m.set (stageKey pDef st r) n)) = .ok m' ∧ GoMap.WF m' ∧
        (∀ x, (R x ∧ x ≠ r) → (GoMap.get m' (stageKey pDef st x)).isSome) ∧
        (∀ k c, GoMap.get m' k = some c → GoodRule pDef c.rule ∧ stageKey pDef st c.rule = k ∧
          (st.isLeaf = true → R c.rule ∧ c.rule ≠ r) ∧
          Idx pDef st c (fun x => (R x ∧ x ≠ r) ∧ stageKey pDef st x = k)) := by
      cases hl : st.isLeaf with
      | true =>
        refine ⟨m.del (stageKey pDef st r), by simp, hwf.del _, ?_, ?_⟩
        · rintro x ⟨hx, hne⟩
          rw [GoMap.get_del]
          split
          · rename_i hk
            rw [stageKey_leaf pDef hl, stageKey_leaf pDef hl] at hk
            exact absurd (g.hash_inj (hg x hx) hk).symm hne
          · exact hall x hx
        · intro k c hc
          rw [GoMap.get_del] at hc
          split at hc
          · cases hc
          · rename_i hk
            obtain ⟨e1, e2, e3, e4⟩ := hent k c hc
            refine ⟨e1, e2, fun _ => ⟨e3 hl, ?_⟩, ?_⟩
            · intro e; rw [e] at e2; exact hk e2
            · cases st with
              | mk e cs =>
                have : cs = [] := by simpa [Stage.isLeaf, Stage.children] using hl
                subst this
                simp [Idx, IdxC]
      | false =>
        simp only [Bool.false_eq_true, if_false]
        -- away from the key of r nothing changes
        have other : ∀ k c, k ≠ stageKey pDef st r → GoMap.get m k = some c →
            GoodRule pDef c.rule ∧ stageKey pDef st c.rule = k ∧
            (False → R c.rule ∧ c.rule ≠ r) ∧
            Idx pDef st c (fun x => (R x ∧ x ≠ r) ∧ stageKey pDef st x = k) := by
          intro k c hk hc
          obtain ⟨e1, e2, _, e4⟩ := hent k c hc
          refine ⟨e1, e2, by simp, ?_⟩
          refine Idx_congr pDef st c (fun x => ?_) e4
          constructor
          · rintro ⟨a, b⟩
            refine ⟨⟨a, ?_⟩, b⟩
            intro e; subst e; exact hk b.symm
          · rintro ⟨⟨a, _⟩, b⟩; exact ⟨a, b⟩
        cases hgm : GoMap.get m (stageKey pDef st r) with
        | none =>
          refine ⟨m, rfl, hwf, fun x hx => hall x hx.1, ?_⟩
          intro k c hc
          exact other k c (by intro e; rw [e, hgm] at hc; cases hc) hc
        | some c0 =>
          obtain ⟨e1, e2, _, e4⟩ := hent _ c0 hgm
          obtain ⟨c', hc1, hc2, hc3⟩ := removeStage_idx pDef r g st c0 _
            (fun x hx => hg x hx.1) e4
          refine ⟨m.set (stageKey pDef st r) c', by simp [hc1], hwf.set _ _, ?_, ?_⟩
          · rintro x ⟨hx, _⟩
            rw [GoMap.get_set]
            split
            · simp
            · exact hall x hx
          · intro k c hc
            rw [GoMap.get_set] at hc
            split at hc
            · rename_i hk
              cases hc
              subst hk
              refine ⟨by rw [hc2]; exact e1, by rw [hc2]; exact e2, by simp, ?_⟩
              refine Idx_congr pDef st c' (fun x => ?_) hc3
              constructor
              · rintro ⟨⟨a, b⟩, c⟩; exact ⟨⟨a, c⟩, b⟩
              · rintro ⟨⟨a, c⟩, b⟩; exact ⟨⟨a, b⟩, c⟩
            · rename_i hk
              exact other k c (fun e => hk e.symm) hc
    obtain ⟨m', hm'eq, hwf', hall', hent'⟩ := main
    have hrest' : IdxC pDef rest (i+1) (n.setChild i m') R := by
      refine IdxC_local pDef rest (i+1) n _ R (fun j hj => ?_) hrest
      rw [Node.children_setChild, List.getElem?_set_ne (by omega)]
    obtain ⟨n', hn1, hn2, hn3, hn4⟩ :=
      removeChildren_idx pDef r g rest (i+1) (n.setChild i m') R hg hrest'
    refine ⟨n', ?_, ?_, ?_, ?_⟩
    · simp only [removeChildren, hm]
      exact (congrArg (fun x => Res.bind x
        (fun m' => removeChildren pDef r rest (i + 1) (n.setChild i m'))) hm'eq).trans hn1
    · rw [hn2, Node.rule_setChild]
    · intro j hj
      rw [hn3 j (by omega), Node.children_setChild, List.getElem?_set_ne (by omega)]
    · simp only [IdxC]
      refine ⟨⟨m', ?_, hwf', hall', hent'⟩, hn4⟩
      rw [hn3 i (by omega), Node.children_setChild, List.getElem?_set_self hlen]
end

end Fastac
