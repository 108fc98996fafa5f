import Verif.Lemmas.Sweep

/-!
# A callback that changes nothing
-/

namespace Fastac

variable {σ : Type}

/-- Two states with the same policy, matcher and index. -/
structure Still (v v' : Visit σ) : Prop where
  pm : v'.pm = v.pm
  held : v'.held = v.held

theorem Still.refl (v : Visit σ) : Still v v := ⟨rfl, rfl⟩
theorem Still.trans {v v' v'' : Visit σ} (h : Still v v') (h' : Still v' v'') : Still v v'' :=
  ⟨h'.pm.trans h.pm, h'.held.trans h.held⟩
theorem Still.tree {v v' : Visit σ} (h : Still v v') : v'.tree = v.tree := by
  unfold Visit.tree; rw [h.pm, h.held]
theorem Still.mapAt {v v' : Visit σ} (h : Still v v') (pos : Option (List (Nat × Str))) (i : Nat) :
    v'.mapAt pos i = v.mapAt pos i := by
  cases pos <;> simp [Visit.mapAt, h.tree]

/-- The two loops do the same. -/
structure Agree (v : Visit σ) (x : Visit σ × Status) (y : σ × Status) : Prop where
  still : Still v x.1
  vars : x.1.vars = y.1
  status : x.2 = y.2

/-- The keys of an order of the entries. -/
def Order.plan (ord : Order) : Plan := fun path i m => (ord path i m).map (·.1)

theorem keys_agree {E : Evaluator} {expr : Str} {look : Str → Visit σ → Option Node}
    {visit : Str → Node → Visit σ → Visit σ × Status} {fn : Str → Node → σ → σ × Status} {v0 : Visit σ} :
    ∀ (es : GoMap Str Node) {v : Visit σ}, Still v0 v →
      (∀ k c, (k, c) ∈ es → ∀ v, Still v0 v → look k v = some c ∧ Agree v (visit k c v) (fn k c v.vars)) →
      Agree v (sweepKeys E expr look visit (es.map (·.1)) v) (rangeEntries E expr fn es v.vars)
  | [], v, _, _ => ⟨.refl v, rfl, rfl⟩
  | (k, c) :: es, v, h0, h => by
    obtain ⟨h1, h2⟩ := h k c List.mem_cons_self v h0
    have ih := fun (v : Visit σ) (h' : Still v0 v) => keys_agree (E := E) (expr := expr) es h'
      fun k c hk => h k c (List.mem_cons_of_mem _ hk)
    simp only [List.map_cons, sweepKeys, h1, rangeEntries]
    cases E.eval expr c.rule with
    | err => exact ⟨.refl v, rfl, rfl⟩
    | panic => exact ⟨.refl v, rfl, rfl⟩
    | other => exact ih v h0
    | bool b =>
      cases b with
      | false => exact ih v h0
      | true =>
        simp only
        generalize visit k c v = x at h2
        generalize fn k c v.vars = y at h2
        obtain ⟨v', st⟩ := x
        obtain ⟨s', st'⟩ := y
        obtain ⟨a, b, d⟩ := h2
        simp only at a b d
        subst b
        subst d
        cases st with
        | cont =>
          have := ih v' (h0.trans a)
          exact ⟨a.trans this.still, this.vars, this.status⟩
        | stop => exact ⟨a, rfl, rfl⟩
        | err => exact ⟨a, rfl, rfl⟩
        | panic => exact ⟨a, rfl, rfl⟩

/-- The node of a position. -/
def Place (root : Stage) (v : Visit σ) (pos : Option (List (Nat × Str))) (path : List (Nat × Str)) (st : Stage)
    (node : Node) : Prop :=
  (pos = some path ∧ v.tree.follow path = some node ∧ root.inner path = some st) ∨ (pos = none ∧ ∃ r, node = newNode r)

theorem Place.still {root : Stage} {v v' : Visit σ} {pos : Option (List (Nat × Str))} {path : List (Nat × Str)} {st : Stage}
    {node : Node} (h : Place root v pos path st node) (hs : Still v v') : Place root v' pos path st node := by
  unfold Place
  rw [hs.tree]
  exact h

theorem Place.mapAt {root : Stage} {v : Visit σ} {pos : Option (List (Nat × Str))} {path : List (Nat × Str)} {st : Stage}
    {node : Node} (h : Place root v pos path st node) (i : Nat) : v.mapAt pos i = node.children[i]? := by
  rcases h with ⟨rfl, h, -⟩ | ⟨rfl, r, rfl⟩
  · simp [Visit.mapAt, h]
  · match i with
    | 0 => rfl
    | 1 => rfl
    | i + 2 => rfl

section

variable {pDef : PolicyDef} {root : Stage} {E : Evaluator} {ord : Order} {cb : Callback σ} {n : Nat}

theorem Visit.call_quiet (hcb : ∀ vars r, (cb vars r).2.1 = []) {v : Visit σ} (hv : v.pm.matcher.pDef = pDef) (rule : Rule) :
    Agree v (v.call cb rule) ((cb v.vars (pDef.key :: rule)).1, if (cb v.vars (pDef.key :: rule)).2.2 then .cont else .stop) := by
  have e := hcb v.vars (v.pm.matcher.pDef.key :: rule)
  unfold Visit.call
  simp only [e, Visit.changes]
  rw [hv]
  exact ⟨⟨rfl, rfl⟩, rfl, rfl⟩

mutual
theorem stage_agree (hcb : ∀ vars r, (cb vars r).2.1 = []) (hv : ord.Valid) : ∀ (st : Stage) {pos : Option (List (Nat × Str))}
    {path : List (Nat × Str)} {node : Node} {v : Visit σ}, v.Fine pDef root → Place root v pos path st node →
    Agree v (sweepStage E n ord.plan cb st pos v)
      (rangeStage E n ord (fun s r => ((cb s (pDef.key :: r)).1, (cb s (pDef.key :: r)).2.2)) st path node v.vars)
  | .mk e cs, pos, path, node, v, hf, hp => by
    simp only [sweepStage, rangeStage]
    exact children_agree hcb hv cs [] (st0 := .mk e cs) hf hp rfl
theorem children_agree (hcb : ∀ vars r, (cb vars r).2.1 = []) (hv : ord.Valid) : ∀ (cs pre : List Stage) {st0 : Stage}
    {pos : Option (List (Nat × Str))} {path : List (Nat × Str)} {node : Node} {v : Visit σ}, v.Fine pDef root →
    Place root v pos path st0 node → st0.children = pre ++ cs →
    Agree v (sweepChildren E n ord.plan cb cs pre.length pos v)
      (rangeChildren E n ord (fun s r => ((cb s (pDef.key :: r)).1, (cb s (pDef.key :: r)).2.2)) cs pre.length path node v.vars)
  | [], pre, st0, pos, path, node, v, _, _, _ => by
    simp only [sweepChildren, rangeChildren]
    exact ⟨.refl v, rfl, rfl⟩
  | st :: rest, pre, st0, pos, path, node, v, hf, hp, hc => by
    simp only [sweepChildren, rangeChildren]
    rw [hp.mapAt]
    have fine : ∀ v', Still v v' → v'.Fine pDef root := by
      intro v' hs
      exact ⟨by rw [hs.held]; exact hf.held, by rw [hs.pm]; exact hf.inv, by rw [hs.pm]; exact hf.live⟩
    cases hm : node.children[pre.length]? with
    | none => exact ⟨.refl v, rfl, rfl⟩
    | some m =>
      simp only
      by_cases hcomp : E.compiles st.expr = false
      · rw [if_pos hcomp, if_pos hcomp]
        exact ⟨.refl v, rfl, rfl⟩
      · rw [if_neg hcomp, if_neg hcomp]
        have rest' : ∀ (x : Visit σ × Status) (y : σ × Status), Agree v x y →
            Agree v
              (match x with
                | (v', .cont) => sweepChildren E n ord.plan cb rest (pre.length + 1) pos v'
                | r => r)
              (match y with
                | (s', .cont) => rangeChildren E n ord
                    (fun s r => ((cb s (pDef.key :: r)).1, (cb s (pDef.key :: r)).2.2)) rest (pre.length + 1) path node s'
                | r => r) := by
          rintro ⟨v', s⟩ ⟨s', s1⟩ ⟨a, b, d⟩
          simp only at a b d
          subst b
          subst d
          cases s with
          | cont =>
            have := children_agree hcb hv rest (pre ++ [st]) (fine v' a) (hp.still a) (by rw [hc]; simp)
            rw [List.length_append, List.length_singleton] at this
            exact ⟨a.trans this.still, this.vars, this.status⟩
          | stop => exact ⟨a, rfl, rfl⟩
          | err => exact ⟨a, rfl, rfl⟩
          | panic => exact ⟨a, rfl, rfl⟩
        -- one visit
        have visit : ∀ (k : Str) (child : Node) (pos' : Option (List (Nat × Str))) (v' : Visit σ), Still v v' →
            (st.isLeaf = false → Place root v' pos' (path ++ [(pre.length, k)]) st child) →
            Agree v'
              (match (if st.isLeaf then v'.call cb child.rule else (v', .cont)) with
                | (v', .cont) =>
                  match sweepStage E n ord.plan cb st pos' v' with
                  | (v'', .cont) => (v'', .cont)
                  | (v'', .panic) => (v'', .panic)
                  | (v'', _) => (v'', .stop)
                | r => r)
              (match (if st.isLeaf then ((cb v'.vars (pDef.key :: child.rule)).1, (cb v'.vars (pDef.key :: child.rule)).2.2)
                  else (v'.vars, true)) with
                | (s', false) => (s', .stop)
                | (s', true) =>
                  match rangeStage E n ord (fun s r => ((cb s (pDef.key :: r)).1, (cb s (pDef.key :: r)).2.2)) st
                      (path ++ [(pre.length, k)]) child s' with
                  | (s'', .cont) => (s'', .cont)
                  | (s'', .panic) => (s'', .panic)
                  | (s'', _) => (s'', .stop)) := by
          intro k child pos' v' hs hpl
          cases hlf : st.isLeaf with
          | true =>
            have hca := Visit.call_quiet hcb (v := v') (pDef := pDef) (by rw [hs.pm]; exact hf.inv.pdef) child.rule
            simp only [if_true]
            generalize v'.call cb child.rule = x at hca
            obtain ⟨w, s⟩ := x
            obtain ⟨a, b, d⟩ := hca
            simp only at a b d
            have l1 : ∀ w, sweepStage E n ord.plan cb st pos' w = (w, .cont) := by
              intro w
              rw [sweepStage_eq, Stage.children_of_leaf hlf]
              simp only [sweepChildren]
            have l2 : ∀ w, rangeStage E n ord (fun s r => ((cb s (pDef.key :: r)).1, (cb s (pDef.key :: r)).2.2)) st
                (path ++ [(pre.length, k)]) child w = (w, .cont) := by
              intro w
              have := Stage.children_of_leaf hlf
              cases st
              simp only [Stage.children] at this
              subst this
              simp only [rangeStage, rangeChildren]
            cases hgo : (cb v'.vars (pDef.key :: child.rule)).2.2 with
            | true =>
              rw [hgo] at d
              simp only [if_true] at d
              subst d
              simp only [l1, l2]
              exact ⟨a, b, rfl⟩
            | false =>
              rw [hgo] at d
              simp only [Bool.false_eq_true, if_false] at d
              subst d
              exact ⟨a, b, rfl⟩
          | false =>
            simp only [Bool.false_eq_true, if_false]
            have := stage_agree hcb hv st (fine v' hs) (hpl hlf)
            revert this
            generalize sweepStage E n ord.plan cb st pos' v' = x
            generalize rangeStage E n ord _ st (path ++ [(pre.length, k)]) child v'.vars = y
            intro this
            obtain ⟨w, s⟩ := x
            obtain ⟨s', s1⟩ := y
            obtain ⟨a, b, d⟩ := this
            simp only at a b d
            subst b
            subst d
            cases s <;> exact ⟨a, rfl, rfl⟩
        refine rest' _ _ ?_
        cases hemp : m.isEmpty with
        | true =>
          simp only [if_true]
          have := keys_agree (E := E) (expr := st.expr) (v0 := v)
            (look := fun _ _ => some (newNode (List.replicate n [])))
            (visit := fun k child v => match (if st.isLeaf then v.call cb child.rule else (v, .cont)) with
                | (v', .cont) =>
                  match sweepStage E n ord.plan cb st none v' with
                  | (v'', .cont) => (v'', .cont)
                  | (v'', .panic) => (v'', .panic)
                  | (v'', _) => (v'', .stop)
                | r => r)
            (fn := fun k child s =>
              match (if st.isLeaf then ((cb s (pDef.key :: child.rule)).1, (cb s (pDef.key :: child.rule)).2.2)
                  else (s, true)) with
                | (s', false) => (s', .stop)
                | (s', true) =>
                  match rangeStage E n ord (fun s r => ((cb s (pDef.key :: r)).1, (cb s (pDef.key :: r)).2.2)) st
                      (path ++ [(pre.length, k)]) child s' with
                  | (s'', .cont) => (s'', .cont)
                  | (s'', .panic) => (s'', .panic)
                  | (s'', _) => (s'', .stop))
            [([], newNode (List.replicate n []))] (.refl v) (fun k c hk w hw => by
              rw [List.mem_singleton] at hk
              cases hk
              exact ⟨rfl, visit _ _ none w hw fun _ => .inr ⟨rfl, _, rfl⟩⟩)
          exact this
        | false =>
          simp only [Bool.false_eq_true, if_false]
          rcases hp with ⟨rfl, hp1, hp2⟩ | ⟨rfl, r, rfl⟩
          · have hst : st0.children[pre.length]? = some st := by rw [hc]; simp
            have hwf : m.WF := by
              have hi := hf.inv.idx
              rw [← hf.tree] at hi
              have := hi.follow path hp2 hp1
              rw [Idx_eq] at this
              obtain ⟨m', hm', w, -⟩ := this.get hst
              rw [Nat.zero_add, hm] at hm'
              cases hm'
              exact w
            refine keys_agree (E := E) (expr := st.expr) (v0 := v) (ord path pre.length m) (.refl v) (fun k c hk w hw => ?_)
            have hget := hwf.get_of_mem ((hv path pre.length m).mem_iff.1 hk)
            constructor
            · rw [hw.mapAt]
              simp [Visit.mapAt, hp1, hm, hget]
            · refine visit k c (some (path ++ [(pre.length, k)])) w hw fun hlf => .inl ⟨rfl, ?_, ?_⟩
              · rw [hw.tree, Node.follow_append, hp1, Option.bind_some]
                simp [Node.follow, hm, hget]
              · rw [Stage.inner_append, hp2, Option.bind_some]
                simp [Stage.inner, hst, hlf]
          · exfalso
            have : m = [] := by
              revert hm
              match pre.length with
              | 0 => intro h; cases h; rfl
              | 1 => intro h; cases h; rfl
              | i + 2 => intro h; cases h
            subst this
            cases hemp
end

end

end Fastac
