import Verif.Lemmas.Tame

/-!
# Which maps of an index are empty, and which rules its nodes carry
-/

namespace Fastac

mutual
/-- All nodes carry rules with the property `P`.  No map of an inner stage is empty, and none of a leaf stage
if `keep`. -/
def Filled (P : Rule → Prop) (keep : Prop) : Stage → Node → Prop
  | .mk _ cs, n => FilledC P keep cs 0 n
def FilledC (P : Rule → Prop) (keep : Prop) : List Stage → Nat → Node → Prop
  | [], _, _ => True
  | st :: rest, i, n =>
    (∃ m, n.children[i]? = some m ∧ ((st.isLeaf = true → keep) → m ≠ []) ∧
      (∀ k c, GoMap.get m k = some c → P c.rule ∧ (st.isLeaf = false → Filled P keep st c))) ∧
    FilledC P keep rest (i + 1) n
end

/-- All maps of the node are empty. -/
def Node.Bare (n : Node) : Prop := ∀ (i : Nat) m, n.children[i]? = some m → m = []

theorem newNode_bare (r : Rule) : (newNode r).Bare := by
  intro i m h
  match i with
  | 0 => cases h; rfl
  | 1 => cases h; rfl
  | n + 2 => cases h

theorem Filled_eq (P : Rule → Prop) (keep : Prop) (st : Stage) (n : Node) :
    Filled P keep st n = FilledC P keep st.children 0 n := by
  cases st; simp [Filled, Stage.children]

theorem FilledC_local (P : Rule → Prop) (keep : Prop) (cs : List Stage) : ∀ (i : Nat) (n n' : Node),
    (∀ j, i ≤ j → n'.children[j]? = n.children[j]?) → FilledC P keep cs i n → FilledC P keep cs i n' := by
  induction cs with
  | nil => intros; simp [FilledC]
  | cons st rest ih =>
    intro i n n' h hF
    simp only [FilledC] at hF ⊢
    rw [h i (Nat.le_refl i)]
    exact ⟨hF.1, ih (i+1) n n' (fun j hj => h j (by omega)) hF.2⟩

theorem set_ne_nil {m : GoMap Str Node} (k : Str) (c : Node) : m.set k c ≠ [] := by
  intro e
  have := GoMap.get_set m k k c
  rw [e] at this
  simp at this

/-- The map at a slot: of a bare node, or of a filled one. -/
def Slot (P : Rule → Prop) (keep : Prop) (st : Stage) (m : GoMap Str Node) : Prop :=
  ∀ k c, GoMap.get m k = some c → P c.rule ∧ (st.isLeaf = false → Filled P keep st c)

mutual
theorem addStage_filled (pDef : PolicyDef) (P : Rule → Prop) (keep : Prop) (r : Rule) (hr : P r) :
    ∀ (st : Stage) (n n' : Node), (n.Bare ∨ Filled P keep st n) → addStage pDef r st n = .ok n' →
      n'.rule = n.rule ∧ Filled P keep st n'
  | .mk _ cs, n, n', h, he => by
    simp only [Filled] at h ⊢
    simp only [addStage] at he
    obtain ⟨h1, _, h2⟩ := addChildren_filled pDef P keep r hr cs 0 n n'
      (h.imp (fun hb j _ m hm => hb j m hm) id) he
    exact ⟨h1, h2⟩
theorem addChildren_filled (pDef : PolicyDef) (P : Rule → Prop) (keep : Prop) (r : Rule) (hr : P r) :
    ∀ (cs : List Stage) (i : Nat) (n n' : Node),
      ((∀ j, i ≤ j → ∀ m, n.children[j]? = some m → m = []) ∨ FilledC P keep cs i n) →
      addChildren pDef r cs i n = .ok n' →
      n'.rule = n.rule ∧ (∀ j, j < i → n'.children[j]? = n.children[j]?) ∧ FilledC P keep cs i n'
  | [], i, n, n', _, he => by
    simp only [addChildren, Res.ok.injEq] at he
    subst he
    exact ⟨rfl, fun _ _ => rfl, by simp [FilledC]⟩
  | st :: rest, i, n, n', h, he => by
    simp only [addChildren] at he
    cases hm : n.children[i]? with
    | none => rw [hm] at he; cases he
    | some m =>
      simp only [hm] at he
      have hlen : i < n.children.length := by
        rcases Nat.lt_or_ge i n.children.length with h | h
        · exact h
        · rw [List.getElem?_eq_none h] at hm; cases hm
      have hslot : Slot P keep st m := by
        rcases h with h | h
        · rw [h i (Nat.le_refl i) m hm]; intro k c hc; simp at hc
        · simp only [FilledC] at h
          obtain ⟨⟨m2, e2, _, h2⟩, _⟩ := h
          obtain rfl : m2 = m := Option.some.inj (e2.symm.trans hm)
          exact h2
      have hset : ∀ c' : Node, P c'.rule → (st.isLeaf = false → Filled P keep st c') →
          Slot P keep st (m.set (stageKey pDef st r) c') := by
        intro c' p1 p2 k c hc
        rw [GoMap.get_set] at hc
        split at hc
        · cases hc; exact ⟨p1, p2⟩
        · exact hslot k c hc
      have main : ∃ c', Slot P keep st (m.set (stageKey pDef st r) c') ∧
          addChildren pDef r rest (i + 1) (n.setChild i (m.set (stageKey pDef st r) c')) = .ok n' := by
        cases hl : st.isLeaf with
        | true =>
          simp only [hl, if_true, Res.bind_ok] at he
          exact ⟨newNode r, hset _ hr (fun e => by rw [hl] at e; cases e), he⟩
        | false =>
          simp only [hl, Bool.false_eq_true, if_false] at he
          cases ha : addStage pDef r st ((GoMap.get m (stageKey pDef st r)).getD (newNode r)) with
          | err => rw [ha] at he; cases he
          | panic => rw [ha] at he; cases he
          | ok c' =>
            rw [ha] at he
            simp only [Res.map_ok, Res.bind_ok] at he
            refine ⟨c', ?_, he⟩
            have hnext : P ((GoMap.get m (stageKey pDef st r)).getD (newNode r)).rule ∧
                (((GoMap.get m (stageKey pDef st r)).getD (newNode r)).Bare ∨
                  Filled P keep st ((GoMap.get m (stageKey pDef st r)).getD (newNode r))) := by
              cases hg : GoMap.get m (stageKey pDef st r) with
              | none => exact ⟨hr, Or.inl (newNode_bare r)⟩
              | some c =>
                obtain ⟨a, b⟩ := hslot _ c hg
                exact ⟨a, Or.inr (b hl)⟩
            obtain ⟨q1, q2⟩ := addStage_filled pDef P keep r hr st _ c' hnext.2 ha
            exact hset c' (by rw [q1]; exact hnext.1) (fun _ => q2)
      obtain ⟨c', hs, he'⟩ := main
      have hpre : (∀ j, i + 1 ≤ j → ∀ x, (n.setChild i (m.set (stageKey pDef st r) c')).children[j]? = some x → x = []) ∨
          FilledC P keep rest (i+1) (n.setChild i (m.set (stageKey pDef st r) c')) := by
        have hsame : ∀ j, i + 1 ≤ j → (n.setChild i (m.set (stageKey pDef st r) c')).children[j]? = n.children[j]? := by
          intro j hj
          rw [Node.children_setChild, List.getElem?_set_ne (by omega)]
        rcases h with h | h
        · left; intro j hj x hx; rw [hsame j hj] at hx; exact h j (by omega) x hx
        · right; simp only [FilledC] at h; exact FilledC_local P keep rest (i+1) n _ hsame h.2
      obtain ⟨f1, f2, f3⟩ := addChildren_filled pDef P keep r hr rest (i+1) _ n' hpre he'
      refine ⟨by rw [f1, Node.rule_setChild], ?_, ?_⟩
      · intro j hj
        rw [f2 j (by omega), Node.children_setChild, List.getElem?_set_ne (by omega)]
      · simp only [FilledC]
        refine ⟨⟨m.set (stageKey pDef st r) c', ?_, fun _ => set_ne_nil _ _, hs⟩, f3⟩
        rw [f2 i (by omega), Node.children_setChild, List.getElem?_set_self hlen]
end

mutual
theorem removeStage_filled (pDef : PolicyDef) (P : Rule → Prop) (keep : Prop) (hk : ¬ keep) (r : Rule) :
    ∀ (st : Stage) (n n' : Node), (n.Bare ∨ Filled P keep st n) → removeStage pDef r st n = .ok n' →
      n'.rule = n.rule ∧ (n.Bare → n'.Bare) ∧ (Filled P keep st n → Filled P keep st n')
  | .mk _ cs, n, n', h, he => by
    simp only [Filled] at h ⊢
    simp only [removeStage] at he
    obtain ⟨h1, _, h3, h4⟩ := removeChildren_filled pDef P keep hk r cs 0 n n' he
    refine ⟨h1, ?_, h4⟩
    intro hb j m hm
    exact h3 (fun j _ m hm => hb j m hm) j (Nat.zero_le j) m hm
theorem removeChildren_filled (pDef : PolicyDef) (P : Rule → Prop) (keep : Prop) (hk : ¬ keep) (r : Rule) :
    ∀ (cs : List Stage) (i : Nat) (n n' : Node), removeChildren pDef r cs i n = .ok n' →
      n'.rule = n.rule ∧ (∀ j, j < i → n'.children[j]? = n.children[j]?) ∧
      ((∀ j, i ≤ j → ∀ m, n.children[j]? = some m → m = []) →
        ∀ j, i ≤ j → ∀ m, n'.children[j]? = some m → m = []) ∧
      (FilledC P keep cs i n → FilledC P keep cs i n')
  | [], i, n, n', he => by
    simp only [removeChildren, Res.ok.injEq] at he
    subst he
    exact ⟨rfl, fun _ _ => rfl, fun h => h, fun h => h⟩
  | st :: rest, i, n, n', he => by
    simp only [removeChildren] at he
    cases hm : n.children[i]? with
    | none => rw [hm] at he; cases he
    | some m =>
      simp only [hm] at he
      have hlen : i < n.children.length := by
        rcases Nat.lt_or_ge i n.children.length with h | h
        · exact h
        · rw [List.getElem?_eq_none h] at hm; cases hm
      have main : ∃ m', removeChildren pDef r rest (i + 1) (n.setChild i m') = .ok n' ∧ (m = [] → m' = []) ∧
          (Slot P keep st m → Slot P keep st m') ∧ (st.isLeaf = false → m ≠ [] → m' ≠ []) := by
        cases hl : st.isLeaf with
        | true =>
          simp only [hl, if_true, Res.bind_ok] at he
          refine ⟨m.del (stageKey pDef st r), he, fun e => by rw [e]; rfl, ?_, by simp⟩
          intro hs k c hc
          rw [GoMap.get_del] at hc
          split at hc
          · cases hc
          · exact hs k c hc
        | false =>
          simp only [hl, Bool.false_eq_true, if_false] at he
          cases hg : GoMap.get m (stageKey pDef st r) with
          | none =>
            rw [hg] at he
            exact ⟨m, he, id, id, fun _ => id⟩
          | some c =>
            rw [hg] at he
            simp only at he
            cases ha : removeStage pDef r st c with
            | err => rw [ha] at he; cases he
            | panic => rw [ha] at he; cases he
            | ok c' =>
              rw [ha] at he
              simp only [Res.map_ok, Res.bind_ok] at he
              refine ⟨m.set (stageKey pDef st r) c', he, fun e => by rw [e] at hg; simp at hg, ?_,
                fun _ _ => set_ne_nil _ _⟩
              intro hs k x hx
              rw [GoMap.get_set] at hx
              split at hx
              · cases hx
                obtain ⟨a, b⟩ := hs _ c hg
                obtain ⟨q1, _, q3⟩ := removeStage_filled pDef P keep hk r st c c' (Or.inr (b hl)) ha
                exact ⟨by rw [q1]; exact a, fun _ => q3 (b hl)⟩
              · exact hs k x hx
      obtain ⟨m', he', e0, e1, e2⟩ := main
      obtain ⟨f1, f2, f3, f4⟩ := removeChildren_filled pDef P keep hk r rest (i+1) _ n' he'
      have hsame : ∀ j, i + 1 ≤ j → (n.setChild i m').children[j]? = n.children[j]? := by
        intro j hj
        rw [Node.children_setChild, List.getElem?_set_ne (by omega)]
      have hi : n'.children[i]? = some m' := by
        rw [f2 i (by omega), Node.children_setChild, List.getElem?_set_self hlen]
      refine ⟨by rw [f1, Node.rule_setChild], ?_, ?_, ?_⟩
      · intro j hj
        rw [f2 j (by omega), Node.children_setChild, List.getElem?_set_ne (by omega)]
      · intro h j hj x hx
        rcases Nat.lt_or_ge i j with hlt | hge
        · exact f3 (fun j hj x hx => h j (by omega) x (by rw [← hsame j hj]; exact hx)) j hlt x hx
        · obtain rfl : j = i := by omega
          rw [hi] at hx
          cases hx
          exact e0 (h j (Nat.le_refl j) m hm)
      · intro h
        simp only [FilledC] at h ⊢
        obtain ⟨⟨m2, q1, q2, q3⟩, q4⟩ := h
        obtain rfl : m2 = m := Option.some.inj (q1.symm.trans hm)
        refine ⟨⟨m', hi, ?_, e1 q3⟩, f4 (FilledC_local P keep rest (i+1) n _ hsame q4)⟩
        intro hkeep
        cases hl : st.isLeaf with
        | true => exact absurd (hkeep hl) hk
        | false => exact e2 hl (q2 hkeep)
end

/-! ## Behaviour on a filled index -/

/-- the part of `eval_of_stageKey` for rules with a property -/
theorem eval_of_stageKey_on {pDef : PolicyDef} {E : Evaluator} {st : Stage} {P : Rule → Prop}
    (hd : ∀ r, GoodRule pDef r → ∀ a ∈ st.pArgs, ∃ v, pDef.getParameter r a = some v)
    (ho : ∀ r r', GoodRule pDef r → GoodRule pDef r' → P r → P r' →
      (∀ a ∈ st.pArgs, pDef.getParameter r a = pDef.getParameter r' a) →
      E.eval st.expr r = E.eval st.expr r') {r r' : Rule} (g : GoodRule pDef r) (g' : GoodRule pDef r')
    (p : P r) (p' : P r') (h : stageKey pDef st r = stageKey pDef st r') :
    E.eval st.expr r = E.eval st.expr r' := by
  -- an evaluator that ignores rules without the property
  have := eval_of_stageKey (pDef := pDef) (E := ⟨E.compiles, fun e x =>
      if e = st.expr then (if (∀ a ∈ st.pArgs, pDef.getParameter x a = pDef.getParameter r a) then .bool true
        else .bool false) else .other⟩) (st := st) ⟨hd, ?_⟩ g g' h
  · simp only [if_true] at this
    rw [if_pos (fun a _ => trivial)] at this
    split at this
    · rename_i hh
      exact (ho r' r g' g p' p hh).symm
    · cases this
  · intro x x' _ _ hx
    simp only [if_true]
    have : (∀ a ∈ st.pArgs, pDef.getParameter x a = pDef.getParameter r a) ↔
        (∀ a ∈ st.pArgs, pDef.getParameter x' a = pDef.getParameter r a) :=
      ⟨fun h a ha => (hx a ha).symm.trans (h a ha), fun h a ha => (hx a ha).trans (h a ha)⟩
    split
    · rename_i hh; rw [if_pos (this.1 hh)]
    · rename_i hh; rw [if_neg (fun q => hh (this.2 q))]

theorem Stage.DeclinesAll_mem {E : Evaluator} {r : Rule} : ∀ {cs : List Stage}, Stage.DeclinesAll E r cs →
    ∀ st ∈ cs, st.Declines E r
  | [], _, _, h => by cases h
  | c :: cs, h, st, hs => by
    simp only [Stage.DeclinesAll] at h
    rcases List.mem_cons.1 hs with rfl | hs
    · exact h.1
    · exact DeclinesAll_mem h.2 st hs

mutual
theorem tame_of_filled (pDef : PolicyDef) (E : Evaluator) (P : Rule → Prop) (keep : Prop) :
    ∀ (st : Stage) (n : Node) (R : Rule → Prop), st.LocalOn pDef E P → st.RunsOn pDef E P →
      (¬ keep → st.EndsDecline pDef E) → Idx pDef st n R → Filled P keep st n →
      (∀ r, R r → GoodRule pDef r) → (∀ r, R r → P r) → Tame pDef E st n R
  | .mk _ cs, n, R, hl, hr, hd, hI, hF, hg, hp => by
    simp only [Stage.LocalOn, Stage.RunsOn, Stage.EndsDecline, Stage.All] at hl hr hd
    simp only [Idx] at hI
    simp only [Filled] at hF
    simp only [Tame]
    exact tameC_of_filled pDef E P keep cs 0 n R hl hr hd hI (Or.inr hF) (fun h => absurd hF h) hg hp
theorem tameC_of_filled (pDef : PolicyDef) (E : Evaluator) (P : Rule → Prop) (keep : Prop) :
    ∀ (cs : List Stage) (i : Nat) (n : Node) (R : Rule → Prop),
      Stage.AllIn (fun st => st.isLeaf = false →
        (∀ r, GoodRule pDef r → ∀ a ∈ st.pArgs, ∃ v, pDef.getParameter r a = some v) ∧
        ∀ r r', GoodRule pDef r → GoodRule pDef r' → P r → P r' →
          (∀ a ∈ st.pArgs, pDef.getParameter r a = pDef.getParameter r' a) →
          E.eval st.expr r = E.eval st.expr r') cs →
      Stage.AllIn (fun st => E.compiles st.expr = true ∧
        ∀ r, GoodRule pDef r → P r → E.eval st.expr r ≠ .err ∧ E.eval st.expr r ≠ .panic) cs →
      (¬ keep → Stage.AllIn (fun st => st.isLeaf = true → st.Declines E (blankRule pDef)) cs) →
      IdxC pDef cs i n R →
      ((∀ j, i ≤ j → ∀ m, n.children[j]? = some m → m = []) ∨ FilledC P keep cs i n) →
      (¬ FilledC P keep cs i n → Stage.DeclinesAll E (blankRule pDef) cs) →
      (∀ r, R r → GoodRule pDef r) → (∀ r, R r → P r) → TameC pDef E cs i n R
  | [], _, _, _, _, _, _, _, _, _, _, _ => by simp [TameC]
  | st :: rest, i, n, R, hl, hr, hd, hI, hF, hD, hg, hp => by
    simp only [Stage.AllIn] at hl hr
    simp only [IdxC] at hI
    obtain ⟨⟨m, hm, hwf, hall, hent⟩, hrest⟩ := hI
    simp only [TameC]
    have hd' : ¬ keep → (st.isLeaf = true → st.Declines E (blankRule pDef)) ∧
        st.All (fun st => st.isLeaf = true → st.Declines E (blankRule pDef)) := by
      intro h; have := hd h; simp only [Stage.AllIn] at this; exact this.1
    by_cases hb : FilledC P keep (st :: rest) i n
    · have hb' := hb
      simp only [FilledC] at hb'
      obtain ⟨⟨m2, e2, hne, hsl⟩, hb2⟩ := hb'
      obtain rfl : m2 = m := Option.some.inj (e2.symm.trans hm)
      refine ⟨⟨hr.1.1.1, m2, hm, fun hm0 => Stage.Declines.runs ?_ |>.1, ?_⟩, ?_⟩
      · have : ¬ (st.isLeaf = true → keep) := fun h => hne h hm0
        cases hlf : st.isLeaf with
        | false => exact absurd (fun h => by rw [hlf] at h; cases h) this
        | true => exact (hd' (fun hk => this (fun _ => hk))).1 hlf
      · intro k c hc
        obtain ⟨g1, g2, _, g4⟩ := hent k c hc
        obtain ⟨p1, p2⟩ := hsl k c hc
        obtain ⟨n1, n2⟩ := hr.1.1.2 _ g1 p1
        refine ⟨n1, n2, fun hlf => ⟨?_, fun _ => ?_⟩⟩
        · intro r hR hk
          obtain ⟨l1, l2⟩ := hl.1.1 hlf
          exact eval_of_stageKey_on l1 l2 (hg r hR) g1 (hp r hR) p1 (by rw [g2]; exact hk)
        · exact tame_of_filled pDef E P keep st c _ hl.1.2 hr.1.2 (fun hk => (hd' hk).2) g4 (p2 hlf)
            (fun r h => hg r h.1) (fun r h => hp r h.1)
      · exact tameC_of_filled pDef E P keep rest (i+1) n R hl.2 hr.2
          (fun h => by have := hd h; simp only [Stage.AllIn] at this; exact this.2) hrest (Or.inr hb2)
          (fun h => absurd hb2 h) hg hp
    · have hbare := hF.resolve_right hb
      have hdec := hD hb
      simp only [Stage.DeclinesAll] at hdec
      have hm0 := hbare i (Nat.le_refl i) m hm
      subst hm0
      refine ⟨⟨hr.1.1.1, [], hm, fun _ => hdec.1.runs.1, fun k c hc => by simp at hc⟩, ?_⟩
      exact tameC_of_filled pDef E P keep rest (i+1) n R hl.2 hr.2
        (fun h => by have := hd h; simp only [Stage.AllIn] at this; exact this.2) hrest
        (Or.inl (fun j hj => hbare j (by omega))) (fun _ => hdec.2) hg hp
end

/-! ## How often the rule with empty fields is reported -/

theorem phantomsC_cons {pDef : PolicyDef} {E : Evaluator} {st : Stage} {rest : List Stage} {i : Nat} {n : Node}
    {m : GoMap Str Node} (hm : n.children[i]? = some m) : phantomsC pDef E (st :: rest) i n =
      (if m.isEmpty then st.paths E (blankRule pDef) else if st.isLeaf then 0 else
        (m.map (fun e => if E.eval st.expr e.2.rule = .bool true then phantoms pDef E st e.2 else 0)).sum) +
      phantomsC pDef E rest (i + 1) n := by
  simp only [phantomsC, hm]

theorem phantoms_eq (pDef : PolicyDef) (E : Evaluator) (st : Stage) (n : Node) :
    phantoms pDef E st n = phantomsC pDef E st.children 0 n := by
  cases st; simp [phantoms, Stage.children]

/-- With empty maps only, the rule with empty fields is reported once for every path it satisfies. -/
theorem phantomsC_bare (pDef : PolicyDef) (E : Evaluator) (n : Node) {R : Rule → Prop} :
    ∀ (cs : List Stage) (i : Nat), IdxC pDef cs i n R → (∀ j, i ≤ j → ∀ m, n.children[j]? = some m → m = []) →
      phantomsC pDef E cs i n = Stage.pathsAny E (blankRule pDef) cs
  | [], _, _, _ => by simp [phantomsC, Stage.pathsAny]
  | st :: rest, i, hI, hb => by
    simp only [IdxC] at hI
    obtain ⟨⟨m, hm, _⟩, hrest⟩ := hI
    have hm0 := hb i (Nat.le_refl i) m hm
    subst hm0
    rw [phantomsC_cons hm, phantomsC_bare pDef E n rest (i+1) hrest (fun j hj => hb j (by omega)), Stage.pathsAny]
    rfl

mutual
theorem phantoms_filled (pDef : PolicyDef) (E : Evaluator) (P : Rule → Prop) (keep : Prop) :
    ∀ (st : Stage) (n : Node) (R : Rule → Prop), Idx pDef st n R →
      (¬ keep → st.EndsDecline pDef E) → Filled P keep st n → phantoms pDef E st n = 0
  | .mk _ cs, n, R, hI, hd, hF => by
    simp only [Stage.EndsDecline, Stage.All] at hd
    simp only [Idx] at hI
    simp only [Filled] at hF
    simp only [phantoms]
    exact phantomsC_filled pDef E P keep cs 0 n R hI hd hF
theorem phantomsC_filled (pDef : PolicyDef) (E : Evaluator) (P : Rule → Prop) (keep : Prop) :
    ∀ (cs : List Stage) (i : Nat) (n : Node) (R : Rule → Prop), IdxC pDef cs i n R →
      (¬ keep → Stage.AllIn (fun st => st.isLeaf = true → st.Declines E (blankRule pDef)) cs) →
      FilledC P keep cs i n → phantomsC pDef E cs i n = 0
  | [], _, _, _, _, _, _ => by simp [phantomsC]
  | st :: rest, i, n, R, hI, hd, hF => by
    simp only [IdxC] at hI
    obtain ⟨⟨m2, hm2, hwf, _, hent⟩, hrest⟩ := hI
    simp only [FilledC] at hF
    obtain ⟨⟨m, hm, hne, hsl⟩, hF2⟩ := hF
    obtain rfl : m2 = m := Option.some.inj (hm2.symm.trans hm)
    have hd' : ¬ keep → (st.isLeaf = true → st.Declines E (blankRule pDef)) ∧
        st.All (fun st => st.isLeaf = true → st.Declines E (blankRule pDef)) := by
      intro h; have := hd h; simp only [Stage.AllIn] at this; exact this.1
    rw [phantomsC_cons hm, phantomsC_filled pDef E P keep rest (i+1) n R hrest
      (fun h => by have := hd h; simp only [Stage.AllIn] at this; exact this.2) hF2, Nat.add_zero]
    split
    · rename_i he
      have hm0 : m2 = [] := by simpa using he
      have : ¬ (st.isLeaf = true → keep) := fun h => hne h hm0
      cases hlf : st.isLeaf with
      | false => exact absurd (fun h => by rw [hlf] at h; cases h) this
      | true => exact ((hd' (fun hk => this (fun _ => hk))).1 hlf).runs.2
    · cases hlf : st.isLeaf with
      | true => rfl
      | false =>
        simp only [Bool.false_eq_true, if_false]
        rw [List.sum_eq_zero_iff_forall_eq_nat]
        intro x hx
        obtain ⟨e, he, rfl⟩ := List.mem_map.1 hx
        have hg := entry_get hwf he
        have := phantoms_filled pDef E P keep st e.2 _ (hent _ _ hg).2.2.2 (fun hk => (hd' hk).2) ((hsl _ _ hg).2 hlf)
        rw [this]; simp
end

end Fastac
