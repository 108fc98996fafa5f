import Verif.Lemmas.Callbacks
import Verif.Spec.Callbacks

/-!
# What a callback that changes the policy is called with
-/

namespace Fastac

variable {σ : Type}

/-- The matcher follows the policy, and the loops are in its index. -/
structure Visit.Fine (pDef : PolicyDef) (root : Stage) (v : Visit σ) : Prop where
  held : v.held = none
  inv : v.pm.Inv pDef root
  live : Live pDef root v.pm

theorem Visit.Fine.tree {pDef : PolicyDef} {root : Stage} {v : Visit σ} (h : v.Fine pDef root) :
    v.tree = v.pm.matcher.root := by
  unfold Visit.tree
  rw [h.held]
  rfl

/-- From `v` to `v'`: the reports satisfy `T`, and a rule with `C` that is stored all the time is reported. -/
structure Swept (pDef : PolicyDef) (root : Stage) (T : Report → Prop) (C : Rule → Prop) (v v' : Visit σ) : Prop where
  fine : v'.Fine pDef root
  stays : Stays root v.tree v'.tree
  reports : ∃ new, v'.reports = v.reports ++ new ∧ (∀ c ∈ new, T c) ∧
    ∀ r ∈ v.pm.policy.rules, (∀ c ∈ new, r ∈ c.after) → r ∈ v'.pm.policy.rules ∧ (C r → ∃ c ∈ new, c.rule = r)

namespace Swept

variable {pDef : PolicyDef} {root : Stage} {T T' : Report → Prop} {C C' : Rule → Prop} {v v' v'' : Visit σ}

theorem refl (h : v.Fine pDef root) (hC : ∀ r ∈ v.pm.policy.rules, ¬ C r) : Swept pDef root T C v v :=
  ⟨h, .refl _ _, [], by simp, by simp, fun r hr _ => ⟨hr, fun c => absurd c (hC r hr)⟩⟩

theorem trans (h : Swept pDef root T C v v') (h' : Swept pDef root T C' v' v'') :
    Swept pDef root T (fun r => C r ∨ C' r) v v'' := by
  obtain ⟨n1, a1, b1, c1⟩ := h.reports
  obtain ⟨n2, a2, b2, c2⟩ := h'.reports
  refine ⟨h'.fine, h.stays.trans h'.stays, n1 ++ n2, ?_, ?_, ?_⟩
  · rw [a2, a1, List.append_assoc]
  · intro c hc
    rcases List.mem_append.1 hc with hc | hc
    · exact b1 c hc
    · exact b2 c hc
  · intro r hr hall
    obtain ⟨d1, d2⟩ := c1 r hr fun c hc => hall c (List.mem_append_left _ hc)
    obtain ⟨d3, d4⟩ := c2 r d1 fun c hc => hall c (List.mem_append_right _ hc)
    refine ⟨d3, ?_⟩
    rintro (x | x)
    · obtain ⟨c, hc, e⟩ := d2 x; exact ⟨c, List.mem_append_left _ hc, e⟩
    · obtain ⟨c, hc, e⟩ := d4 x; exact ⟨c, List.mem_append_right _ hc, e⟩

theorem mono (h : Swept pDef root T C v v') (hT : ∀ c, T c → T' c) (hC : ∀ r ∈ v.pm.policy.rules, C' r → C r) :
    Swept pDef root T' C' v v' := by
  obtain ⟨n, a, b, c⟩ := h.reports
  exact ⟨h.fine, h.stays, n, a, fun x hx => hT x (b x hx), fun r hr hall =>
    ⟨(c r hr hall).1, fun x => (c r hr hall).2 (hC r hr x)⟩⟩

end Swept

/-- How a loop ends: without an error or a panic, and early only if the callback can say so. -/
def Ends (pDef : PolicyDef) (root : Stage) (cb : Callback σ) (T : Report → Prop) (C : Rule → Prop) (v : Visit σ)
    (x : Visit σ × Status) : Prop :=
  (x.2 = .cont ∨ x.2 = .stop ∧ ∃ vars r, (cb vars r).2.2 = false) ∧
    Swept pDef root T (fun r => x.2 = .cont ∧ C r) v x.1 ∧
    ∃ new, x.1.reports = v.reports ++ new ∧
      Played cb pDef.key v.vars v.pm.policy new x.1.vars x.1.pm.policy (x.2 == .cont)

theorem Played.append {cb : Callback σ} {key : Str} {vars1 vars2 : σ} {p1 p2 : Policy} {go : Bool} {l2 : List Report} :
    ∀ {l1 : List Report} {vars : σ} {p : Policy}, Played cb key vars p l1 vars1 p1 true →
      Played cb key vars1 p1 l2 vars2 p2 go → Played cb key vars p (l1 ++ l2) vars2 p2 go
  | [], vars, p, h, h' => by
    obtain ⟨rfl, rfl, -⟩ := h
    exact h'
  | c :: l1, vars, p, h, h' => by
    obtain ⟨a, b, h⟩ := h
    refine ⟨a, b, ?_⟩
    split at h
    · rw [if_pos ‹_›]
      exact Played.append h h'
    · cases h.2.2.2

namespace Ends

variable {pDef : PolicyDef} {root : Stage} {cb : Callback σ} {T T' : Report → Prop} {C C' : Rule → Prop} {v : Visit σ}
  {x : Visit σ × Status}

theorem refl (h : v.Fine pDef root) (hC : ∀ r ∈ v.pm.policy.rules, ¬ C r) : Ends pDef root cb T C v (v, .cont) :=
  ⟨.inl rfl, .refl h fun r hr x => hC r hr x.2, [], by simp, rfl, rfl, rfl⟩

theorem mono (h : Ends pDef root cb T C v x) (hT : ∀ c, T c → T' c) (hC : ∀ r ∈ v.pm.policy.rules, C' r → C r) :
    Ends pDef root cb T' C' v x :=
  ⟨h.1, h.2.1.mono hT fun r hr x => ⟨x.1, hC r hr x.2⟩, h.2.2⟩

/-- The same with a status that says that the loop has been left. -/
theorem stop (h : Ends pDef root cb T C v x) (hx : x.2 ≠ .cont) : Ends pDef root cb T C' v (x.1, .stop) := by
  rcases h.1 with e | ⟨-, e⟩
  · exact absurd e hx
  · refine ⟨.inr ⟨rfl, e⟩, h.2.1.mono (fun _ h => h) fun _ _ x => (by cases x.1), ?_⟩
    have := h.2.2
    rw [show (x.2 == Status.cont) = false by simpa using hx] at this
    exact this

theorem left (h : Ends pDef root cb T C v x) (hx : x.2 ≠ .cont) : Ends pDef root cb T C' v x :=
  ⟨h.1, h.2.1.mono (fun _ h => h) fun _ _ y => absurd y.1 hx, h.2.2⟩

/-- What comes after it. -/
theorem next (h : Ends pDef root cb T C v x) (hx : x.2 = .cont) {y : Visit σ × Status}
    (h' : Ends pDef root cb T C' x.1 y) : Ends pDef root cb T (fun r => C r ∨ C' r) v y := by
  refine ⟨h'.1, (h.2.1.trans h'.2.1).mono (fun _ h => h) ?_, ?_⟩
  · rintro r - ⟨e, c | c⟩
    · exact .inl ⟨hx, c⟩
    · exact .inr ⟨e, c⟩
  · obtain ⟨n1, a1, b1⟩ := h.2.2
    obtain ⟨n2, a2, b2⟩ := h'.2.2
    rw [hx] at b1
    exact ⟨n1 ++ n2, by rw [a2, a1, List.append_assoc], b1.append b2⟩

theorem noPanic (h : Ends pDef root cb T C v x) : x.2 ≠ .panic ∧ x.2 ≠ .err := by
  rcases h.1 with e | ⟨e, -⟩ <;> rw [e] <;> simp

end Ends

section

variable {pDef : PolicyDef} {root : Stage} {cb : Callback σ}

theorem Visit.changes_fine (hb : root.Binary) : ∀ (ops : List PolOp) {v : Visit σ}, v.Fine pDef root →
    (∀ op ∈ ops, op.Good pDef ∧ op ≠ .clear) → ∃ v', v.changes ops = .ok v' ∧ v'.Fine pDef root ∧
      Stays root v.tree v'.tree ∧ v'.pm.policy = v.pm.policy.run ops
  | [], v, h, _ => ⟨v, rfl, h, .refl _ _, rfl⟩
  | op :: ops, v, h, ho => by
    obtain ⟨h1, h2⟩ := ho op List.mem_cons_self
    obtain ⟨pm', e, i, hp⟩ := h.inv.step hb op h1
    have hs := PolicyWithMatcher.step_stays h.inv h2 e
    have e1 : v.change op = .ok { v with pm := pm' } := by
      unfold Visit.change
      rw [e, if_neg (fun x => h2 x.1)]
      rfl
    have f1 : Visit.Fine pDef root { v with pm := pm' } := ⟨h.held, i, .change _ _ h.live op h1 e⟩
    obtain ⟨v', e', f, s, r⟩ := Visit.changes_fine hb ops f1 fun o h' => ho o (List.mem_cons_of_mem _ h')
    refine ⟨v', ?_, f, ?_, by rw [r, Policy.run, ← hp]⟩
    · simp only [Visit.changes, e1, Res.bind_ok]; exact e'
    · refine Stays.trans ?_ s
      rw [h.tree, f1.tree]
      exact hs

theorem Visit.call_ends (hb : root.Binary) (hcb : cb.Edits pDef) {v : Visit σ} (h : v.Fine pDef root) {rule : Rule}
    (h1 : rule.length = pDef.args.length) (h2 : ∀ f ∈ rule, ',' ∉ f) {T : Report → Prop}
    (hT : ∀ after, T ⟨rule, v.pm.policy.rules, after⟩) :
    Ends pDef root cb T (· = rule) v (v.call cb rule) := by
  obtain ⟨v', e, f, s, r⟩ := Visit.changes_fine hb (cb v.vars (v.pm.matcher.pDef.key :: rule)).2.1 h
    (by rw [h.inv.pdef]; exact hcb v.vars rule h1 h2)
  have : v.call cb rule = ({ v' with vars := (cb v.vars (v.pm.matcher.pDef.key :: rule)).1, reports := v.reports ++
      [⟨rule, v.pm.policy.rules, v'.pm.policy.rules⟩] },
      if (cb v.vars (v.pm.matcher.pDef.key :: rule)).2.2 then .cont else .stop) := by
    unfold Visit.call
    simp only [e]
  rw [this]
  refine ⟨?_, ⟨⟨f.held, f.inv, f.live⟩, s, [_], rfl, ?_, ?_⟩, [_], rfl, ?_⟩
  · cases hgo : (cb v.vars (v.pm.matcher.pDef.key :: rule)).2.2 with
    | true => exact .inl rfl
    | false => exact .inr ⟨rfl, _, _, hgo⟩
  · intro c hc
    rw [List.mem_singleton] at hc
    rw [hc]
    exact hT _
  · intro r _ hall
    exact ⟨hall _ List.mem_cons_self, fun x => ⟨_, List.mem_cons_self, x.2.symm⟩⟩
  · rw [h.inv.pdef] at r ⊢
    refine ⟨rfl, by rw [r], ?_⟩
    cases (cb v.vars (pDef.key :: rule)).2.2 with
    | true => exact ⟨rfl, r, rfl⟩
    | false => exact ⟨rfl, rfl, r, rfl⟩

/-- The loop over the keys. -/
theorem sweepKeys_ends {E : Evaluator} {expr : Str} {look : Str → Visit σ → Option Node}
    {visit : Str → Node → Visit σ → Visit σ × Status} {T : Report → Prop} {C : Str → Rule → Prop} {G : Visit σ → Prop}
    (hf : ∀ v, G v → v.Fine pDef root)
    (hG : ∀ v v' C, G v → Swept pDef root T C v v' → G v')
    (h0 : ∀ v k, G v → look k v = none → ∀ r ∈ v.pm.policy.rules, ¬ C k r)
    (h1 : ∀ v k c, G v → look k v = some c → E.eval expr c.rule ≠ .err ∧ E.eval expr c.rule ≠ .panic ∧
      (E.eval expr c.rule ≠ .bool true → ∀ r ∈ v.pm.policy.rules, ¬ C k r) ∧
      (E.eval expr c.rule = .bool true → Ends pDef root cb T (C k) v (visit k c v))) :
    ∀ (ks : List Str) {v : Visit σ}, G v →
      Ends pDef root cb T (fun r => ∃ k ∈ ks, C k r) v (sweepKeys E expr look visit ks v)
  | [], v, h => .refl (hf v h) fun r _ x => by obtain ⟨k, hk, -⟩ := x; cases hk
  | k :: ks, v, h => by
    have skip : (∀ r ∈ v.pm.policy.rules, ¬ C k r) →
        Ends pDef root cb T (fun r => ∃ k' ∈ k :: ks, C k' r) v (sweepKeys E expr look visit ks v) := by
      intro hn
      refine (sweepKeys_ends hf hG h0 h1 ks h).mono (fun _ h => h) ?_
      rintro r hr ⟨k', hk', c⟩
      rcases List.mem_cons.1 hk' with rfl | hk'
      · exact absurd c (hn r hr)
      · exact ⟨k', hk', c⟩
    unfold sweepKeys
    cases hl : look k v with
    | none => exact skip (h0 v k h hl)
    | some c =>
      obtain ⟨a1, a2, a3, a4⟩ := h1 v k c h hl
      simp only
      cases he : E.eval expr c.rule with
      | err => exact absurd he a1
      | panic => exact absurd he a2
      | other => exact skip (a3 (by rw [he]; simp))
      | bool b =>
        cases b with
        | false => exact skip (a3 (by rw [he]; simp))
        | true =>
          have hv := a4 he
          simp only
          generalize hx : visit k c v = x at hv
          obtain ⟨v', st⟩ := x
          cases st with
          | cont =>
            simp only
            refine (hv.next rfl (sweepKeys_ends hf hG h0 h1 ks (hG _ _ _ h hv.2.1))).mono (fun _ h => h) ?_
            rintro r - ⟨k', hk', c⟩
            rcases List.mem_cons.1 hk' with rfl | hk'
            · exact .inl c
            · exact .inr ⟨k', hk', c⟩
          | stop => exact hv.stop (by simp)
          | err => exact absurd rfl hv.noPanic.2
          | panic => exact absurd rfl hv.noPanic.1

end

/-- No expression of a leaf is true of the rule with empty fields. -/
def BlankFalse (pDef : PolicyDef) (E : Evaluator) (st : Stage) : Prop :=
  st.isLeaf = true → E.eval st.expr (blankRule pDef) ≠ .bool true

/-- The expressions do not fail. -/
def FailsNot (pDef : PolicyDef) (E : Evaluator) (st : Stage) : Prop :=
  E.compiles st.expr = true ∧ ∀ r : Rule, r.length = pDef.args.length → E.eval st.expr r ≠ .err ∧ E.eval st.expr r ≠ .panic

theorem Stage.children_of_leaf {st : Stage} (h : st.isLeaf = true) : st.children = [] := by
  simpa [Stage.isLeaf] using h

theorem sweepStage_eq (E : Evaluator) (nargs : Nat) (plan : Plan) (cb : Callback σ) (st : Stage)
    (pos : Option (List (Nat × Str))) (v : Visit σ) :
    sweepStage E nargs plan cb st pos v = sweepChildren E nargs plan cb st.children 0 pos v := by
  cases st; simp [sweepStage, Stage.children]

section

variable {pDef : PolicyDef} {root : Stage} {E : Evaluator} {plan : Plan} {cb : Callback σ}

/-- After a node was visited: the rest of the callback of matcher.go:201-211. -/
theorem visit_ends {T : Report → Prop} {C : Rule → Prop} {v : Visit σ} {leaf : Bool} {a : Visit σ × Status}
    {k : Visit σ → Visit σ × Status}
    (h1 : leaf = true → Ends pDef root cb T C v a)
    (h2 : leaf = true → ∀ v', k v' = (v', .cont))
    (h3 : leaf = false → Ends pDef root cb T C v (k v)) :
    Ends pDef root cb T C v
      (match (if leaf then a else (v, .cont)) with
        | (v', .cont) =>
          match k v' with
          | (v'', .cont) => (v'', .cont)
          | (v'', .panic) => (v'', .panic)
          | (v'', _) => (v'', .stop)
        | r => r) := by
  cases leaf with
  | true =>
    have := h1 rfl
    simp only [if_true]
    obtain ⟨v', st⟩ := a
    cases st with
    | cont => simp only [h2 rfl v']; exact this
    | stop => exact this
    | err => exact this
    | panic => exact this
  | false =>
    have := h3 rfl
    simp only [Bool.false_eq_true, if_false]
    generalize k v = x at this
    obtain ⟨v', st⟩ := x
    cases st with
    | cont => exact this
    | stop => exact this
    | err => exact absurd rfl this.noPanic.2
    | panic => exact absurd rfl this.noPanic.1

mutual
/-- Below a node that was made for the rule with empty fields only this rule is reported. -/
theorem blankStage_ends (hb : root.Binary) (hcb : cb.Edits pDef) : ∀ (st : Stage) {v : Visit σ}, v.Fine pDef root →
    st.children.length ≤ 2 → st.All (fun s => s.children.length ≤ 2) → st.All (FailsNot pDef E) →
    Ends pDef root cb (fun c => c.rule = blankRule pDef ∧ ¬ st.All (BlankFalse pDef E)) (fun _ => False) v
      (sweepStage E pDef.args.length plan cb st none v)
  | .mk e cs, v, h, h2, hl, hn => by
    simp only [sweepStage]
    simp only [Stage.All] at hl hn ⊢
    exact blankChildren_ends hb hcb cs 0 h (by simpa [Stage.children] using h2) hl hn
theorem blankChildren_ends (hb : root.Binary) (hcb : cb.Edits pDef) : ∀ (cs : List Stage) (i : Nat) {v : Visit σ},
    v.Fine pDef root → i + cs.length ≤ 2 → Stage.AllIn (fun s => s.children.length ≤ 2) cs →
    Stage.AllIn (FailsNot pDef E) cs →
    Ends pDef root cb (fun c => c.rule = blankRule pDef ∧ ¬ Stage.AllIn (BlankFalse pDef E) cs) (fun _ => False) v
      (sweepChildren E pDef.args.length plan cb cs i none v)
  | [], _, v, h, _, _, _ => by
    simp only [sweepChildren]
    exact .refl h fun _ _ x => x
  | st :: rest, i, v, h, hi, hl, hn => by
    simp only [Stage.AllIn] at hl hn
    simp only [List.length_cons] at hi
    have hm : v.mapAt none i = some [] := if_pos (by omega)
    simp only [sweepChildren, hm, hn.1.1.1, Bool.true_eq_false, if_false, List.isEmpty_nil, if_true]
    have key := sweepKeys_ends (pDef := pDef) (root := root) (cb := cb) (E := E) (expr := st.expr)
      (look := fun _ _ => some (newNode (List.replicate pDef.args.length [])))
      (visit := fun k child v =>
        match (if st.isLeaf then v.call cb child.rule else (v, .cont)) with
        | (v', .cont) =>
          match sweepStage E pDef.args.length plan cb st none v' with
          | (v'', .cont) => (v'', .cont)
          | (v'', .panic) => (v'', .panic)
          | (v'', _) => (v'', .stop)
        | r => r)
      (T := fun c => c.rule = blankRule pDef ∧ ¬ Stage.AllIn (BlankFalse pDef E) (st :: rest)) (C := fun _ _ => False)
      (G := Visit.Fine pDef root) (fun _ h => h) (fun _ _ _ _ h => h.fine) (fun _ _ _ _ _ _ h => h)
      (fun v' k c h' hc => by
        cases hc
        have hx := hn.1.1.2 (List.replicate pDef.args.length []) (by simp)
        refine ⟨hx.1, hx.2, fun _ _ _ x => x, fun ht => ?_⟩
        refine visit_ends (k := sweepStage E pDef.args.length plan cb st none) (fun hlf => ?_) (fun hlf v' => ?_) (fun hlf => ?_)
        · refine (Visit.call_ends hb hcb h' (by simp [newNode, Node.rule]) (by simp [newNode, Node.rule]) fun _ => ⟨rfl, fun x => ?_⟩).mono (fun _ h => h) (fun _ _ x => x.elim)
          simp only [Stage.AllIn] at x
          exact x.1.1 hlf ht
        · rw [sweepStage_eq, Stage.children_of_leaf hlf]
          simp only [sweepChildren]
        · refine (blankStage_ends hb hcb st h' hl.1.1 hl.1.2 hn.1.2).mono (fun c hc => ⟨hc.1, fun x => hc.2 ?_⟩) (fun _ _ x => x)
          simp only [Stage.AllIn] at x
          exact x.1.2)
      [[]] h
    revert key
    generalize sweepKeys E st.expr _ _ [[]] v = x
    intro key
    obtain ⟨v', s⟩ := x
    cases s with
    | cont =>
      simp only
      refine (key.next rfl ((blankChildren_ends hb hcb rest (i + 1) key.2.1.fine (by omega) hl.2 hn.2).mono
        (fun c hc => ⟨hc.1, fun x => hc.2 ?_⟩) (fun _ _ x => x))).mono (fun _ h => h) (fun _ _ x => x.elim)
      simp only [Stage.AllIn] at x
      exact x.2
    | stop => exact key.left (by simp)
    | err => exact absurd rfl key.noPanic.2
    | panic => exact absurd rfl key.noPanic.1
end

/-- What is reported below the end of a path. -/
def Told (pDef : PolicyDef) (E : Evaluator) (root : Stage) (p : List (Nat × Str)) (cs : List Stage) (c : Report) : Prop :=
  (c.rule ∈ c.before ∧ GoodRule pDef c.rule ∧ OnPath pDef root p c.rule ∧ Stage.satAny E c.rule cs = true) ∨
    (c.rule = blankRule pDef ∧ ¬ Stage.AllIn (BlankFalse pDef E) cs)

theorem sat_eq (E : Evaluator) (r : Rule) (st : Stage) :
    st.sat E r = ((E.eval st.expr r == .bool true) && (st.isLeaf || Stage.satAny E r st.children)) := by
  cases st; simp [Stage.sat, Stage.expr, Stage.isLeaf, Stage.children]

mutual
theorem sweepStage_ends (hb : root.Binary) (hcb : cb.Edits pDef) (hpl : plan.Covers) : ∀ (st : Stage) (p : List (Nat × Str))
    {v : Visit σ}, v.Fine pDef root → root.inner p = some st → (v.tree.follow p).isSome = true →
    st.All (fun s => s.children.length ≤ 2) → st.All (fun s => s.isLeaf = false → ReadsOwnArgs pDef E s) →
    st.All (FailsNot pDef E) →
    Ends pDef root cb (Told pDef E root p st.children) (fun r => OnPath pDef root p r ∧ Stage.satAny E r st.children = true) v
      (sweepStage E pDef.args.length plan cb st (some p) v)
  | .mk e cs, p, v, h, hp, hs, hl, ho, hn => by
    simp only [sweepStage]
    simp only [Stage.All] at hl ho hn
    exact sweepChildren_ends hb hcb hpl cs [] p (.mk e cs) h hp rfl hs hl ho hn
theorem sweepChildren_ends (hb : root.Binary) (hcb : cb.Edits pDef) (hpl : plan.Covers) : ∀ (cs pre : List Stage)
    (p : List (Nat × Str)) (st0 : Stage) {v : Visit σ}, v.Fine pDef root → root.inner p = some st0 →
    st0.children = pre ++ cs → (v.tree.follow p).isSome = true →
    Stage.AllIn (fun s => s.children.length ≤ 2) cs → Stage.AllIn (fun s => s.isLeaf = false → ReadsOwnArgs pDef E s) cs →
    Stage.AllIn (FailsNot pDef E) cs →
    Ends pDef root cb (Told pDef E root p cs) (fun r => OnPath pDef root p r ∧ Stage.satAny E r cs = true) v
      (sweepChildren E pDef.args.length plan cb cs pre.length (some p) v)
  | [], pre, p, st0, v, h, _, _, _, _, _, _ => by
    simp only [sweepChildren]
    exact .refl h fun _ _ x => by simp [Stage.satAny] at x
  | st :: rest, pre, p, st0, v, h, hp, hc, hs, hl, ho, hn => by
    simp only [Stage.AllIn] at hl ho hn
    have hst : st0.children[pre.length]? = some st := by rw [hc]; simp
    -- what is at this place in any state that may come up
    have look : ∀ v : Visit σ, v.Fine pDef root → (v.tree.follow p).isSome = true → ∃ m, v.mapAt (some p) pre.length = some m ∧
        (∀ r ∈ v.pm.policy.rules, OnPath pDef root p r → (GoMap.get m (stageKey pDef st r)).isSome) ∧
        (∀ k c, GoMap.get m k = some c → GoodRule pDef c.rule ∧ stageKey pDef st c.rule = k ∧
          (st.isLeaf = true → c.rule ∈ v.pm.policy.rules ∧ OnPath pDef root p c.rule)) := by
      intro v h hs
      obtain ⟨n, hn⟩ := Option.isSome_iff_exists.1 hs
      have hi := h.inv.idx
      rw [← h.tree] at hi
      have := hi.follow p hp hn
      rw [Idx_eq] at this
      obtain ⟨m, hm, -, a, b⟩ := this.get hst
      rw [Nat.zero_add] at hm
      refine ⟨m, by simp [Visit.mapAt, hn, hm], fun r hr hr' => a r ⟨hr, hr'⟩, fun k c hk => ?_⟩
      obtain ⟨b1, b2, b3, -⟩ := b k c hk
      exact ⟨b1, b2, b3⟩
    -- rules with the same key are alike
    have alike : ∀ c, GoodRule pDef c → ∀ r, GoodRule pDef r →
        stageKey pDef st r = stageKey pDef st c → E.eval st.expr r = E.eval st.expr c ∧ (st.isLeaf = true → r = c) := by
      intro c gc r gr hk
      cases hlf : st.isLeaf with
      | true =>
        rw [stageKey_leaf pDef hlf, stageKey_leaf pDef hlf] at hk
        have := gr.hash_inj gc hk
        subst this
        exact ⟨rfl, fun _ => rfl⟩
      | false => exact ⟨eval_of_stageKey (ho.1.1 hlf) gr gc hk, fun e => by cases e⟩
    obtain ⟨m, hm, hall, hent⟩ := look v h hs
    simp only [sweepChildren, hm, hn.1.1.1, Bool.true_eq_false, if_false]
    have tail : ∀ v' : Visit σ, v'.Fine pDef root → Stays root v.tree v'.tree →
        Ends pDef root cb (Told pDef E root p (st :: rest)) (fun r => OnPath pDef root p r ∧ Stage.satAny E r rest = true) v'
          (sweepChildren E pDef.args.length plan cb rest (pre.length + 1) (some p) v') := by
      intro v' h' hs'
      have := sweepChildren_ends hb hcb hpl rest (pre ++ [st]) p st0 h' hp (by rw [hc]; simp)
        (hs' p (by rw [hp]; rfl) hs) hl.2 ho.2 hn.2
      rw [List.length_append, List.length_singleton] at this
      refine this.mono (fun c hc => ?_) (fun _ _ x => x)
      rcases hc with ⟨a, g, b, c'⟩ | ⟨a, b⟩
      · exact .inl ⟨a, g, b, by simp [Stage.satAny, c']⟩
      · exact .inr ⟨a, fun x => b (by simp only [Stage.AllIn] at x; exact x.2)⟩
    have main : ∀ x : Visit σ × Status,
        Ends pDef root cb (Told pDef E root p (st :: rest)) (fun r => OnPath pDef root p r ∧ st.sat E r = true) v x →
        Ends pDef root cb (Told pDef E root p (st :: rest)) (fun r => OnPath pDef root p r ∧ Stage.satAny E r (st :: rest) = true)
          v (match x with
            | (v', .cont) => sweepChildren E pDef.args.length plan cb rest (pre.length + 1) (some p) v'
            | r => r) := by
      intro x key
      obtain ⟨v', s⟩ := x
      cases s with
      | cont =>
        refine (key.next rfl (tail v' key.2.1.fine key.2.1.stays)).mono (fun _ h => h) ?_
        rintro r - ⟨a, b⟩
        simp only [Stage.satAny, Bool.or_eq_true] at b
        rcases b with b | b
        · exact .inl ⟨a, b⟩
        · exact .inr ⟨a, b⟩
      | stop => exact key.left (by simp)
      | err => exact absurd rfl key.noPanic.2
      | panic => exact absurd rfl key.noPanic.1
    refine main _ ?_
    cases hemp : m.isEmpty with
    | true =>
      have hm0 : m = [] := by simpa using hemp
      have := sweepKeys_ends (pDef := pDef) (root := root) (cb := cb) (E := E) (expr := st.expr)
        (look := fun _ _ => some (newNode (List.replicate pDef.args.length [])))
        (visit := fun k child v =>
          match (if st.isLeaf then v.call cb child.rule else (v, .cont)) with
          | (v', .cont) =>
            match sweepStage E pDef.args.length plan cb st none v' with
            | (v'', .cont) => (v'', .cont)
            | (v'', .panic) => (v'', .panic)
            | (v'', _) => (v'', .stop)
          | r => r)
        (T := Told pDef E root p (st :: rest)) (C := fun _ _ => False)
        (G := Visit.Fine pDef root) (fun _ h => h) (fun _ _ _ _ h => h.fine) (fun _ _ _ _ _ _ h => h)
        (fun v' k c h' hc => by
          cases hc
          have hx := hn.1.1.2 (List.replicate pDef.args.length []) (by simp)
          refine ⟨hx.1, hx.2, fun _ _ _ x => x, fun ht => ?_⟩
          refine visit_ends (k := sweepStage E pDef.args.length plan cb st none) (fun hlf => ?_) (fun hlf v' => ?_) (fun hlf => ?_)
          · refine (Visit.call_ends hb hcb h' (by simp [newNode, Node.rule]) (by simp [newNode, Node.rule]) fun _ => .inr ⟨rfl, fun x => ?_⟩).mono (fun _ h => h) (fun _ _ x => x.elim)
            simp only [Stage.AllIn] at x
            exact x.1.1 hlf ht
          · rw [sweepStage_eq, Stage.children_of_leaf hlf]
            simp only [sweepChildren]
          · refine (blankStage_ends hb hcb st h' hl.1.1 hl.1.2 hn.1.2).mono (fun c hc => .inr ⟨hc.1, fun x => hc.2 ?_⟩)
              (fun _ _ x => x)
            simp only [Stage.AllIn] at x
            exact x.1.2)
        [[]] h
      simp only [if_true]
      refine this.mono (fun _ h => h) ?_
      rintro r hr ⟨a, -⟩
      have := hall r hr a
      rw [hm0] at this
      cases this
    | false =>
      simp only [Bool.false_eq_true, if_false, Option.map_some, Option.getD_some]
      have := sweepKeys_ends (pDef := pDef) (root := root) (cb := cb) (E := E) (expr := st.expr)
        (look := fun k (v : Visit σ) => (v.mapAt (some p) pre.length).bind (GoMap.get · k))
        (visit := fun k child v =>
          match (if st.isLeaf then v.call cb child.rule else (v, .cont)) with
          | (v', .cont) =>
            match sweepStage E pDef.args.length plan cb st (some (p ++ [(pre.length, k)])) v' with
            | (v'', .cont) => (v'', .cont)
            | (v'', .panic) => (v'', .panic)
            | (v'', _) => (v'', .stop)
          | r => r)
        (T := Told pDef E root p (st :: rest))
        (C := fun k r => (OnPath pDef root p r ∧ st.sat E r = true) ∧ stageKey pDef st r = k)
        (G := fun v => Visit.Fine pDef root v ∧ (v.tree.follow p).isSome = true) (fun _ h => h.1)
        (fun v v' _ h hsw => ⟨hsw.fine, hsw.stays p (by rw [hp]; rfl) h.2⟩)
        (fun v k h' hk r hr hx => by
          obtain ⟨m', hm', hall', -⟩ := look v h'.1 h'.2
          rw [hm', Option.bind_some] at hk
          have := hall' r hr hx.1.1
          rw [hx.2, hk] at this
          cases this)
        (fun v' k c h' hk => by
          obtain ⟨m', hm', -, hent'⟩ := look v' h'.1 h'.2
          rw [hm', Option.bind_some] at hk
          obtain ⟨g, e1, e2⟩ := hent' k c hk
          have hx := hn.1.1.2 c.rule g.len
          refine ⟨hx.1, hx.2, fun hne r hr x => ?_, fun ht => ?_⟩
          · have := (alike _ g r (h'.1.inv.good r hr) (x.2.trans e1.symm)).1
            have hsat := x.1.2
            rw [sat_eq, this] at hsat
            simp only [Bool.and_eq_true, beq_iff_eq] at hsat
            exact hne hsat.1
          refine visit_ends (k := sweepStage E pDef.args.length plan cb st (some (p ++ [(pre.length, k)]))) (fun hlf => ?_)
            (fun hlf v' => ?_) (fun hlf => ?_)
          · obtain ⟨r1, r2⟩ := e2 hlf
            have hsat : Stage.satAny E c.rule (st :: rest) = true := by simp [Stage.satAny, sat_eq, ht, hlf]
            refine (Visit.call_ends hb hcb h'.1 g.len g.noComma fun _ => .inl ⟨r1, g, r2, hsat⟩).mono (fun _ h => h) fun r hr x => ?_
            exact (alike _ g r (h'.1.inv.good r hr) (x.2.trans e1.symm)).2 hlf
          · rw [sweepStage_eq, Stage.children_of_leaf hlf]
            simp only [sweepChildren]
          · have hin : root.inner (p ++ [(pre.length, k)]) = some st := by
              rw [Stage.inner_append, hp, Option.bind_some]
              simp [Stage.inner, hst, hlf]
            have hfo : (v'.tree.follow (p ++ [(pre.length, k)])).isSome = true := by
              obtain ⟨n, hn⟩ := Option.isSome_iff_exists.1 h'.2
              simp only [Visit.mapAt, hn, Option.bind_some] at hm'
              rw [Node.follow_append, hn, Option.bind_some]
              simp [Node.follow, hm', hk]
            have on : ∀ r, OnPath pDef root (p ++ [(pre.length, k)]) r ↔ OnPath pDef root p r ∧ stageKey pDef st r = k :=
              fun r => OnPath.append p hp hst
            refine (sweepStage_ends hb hcb hpl st (p ++ [(pre.length, k)]) h'.1 hin hfo hl.1.2 ho.1.2 hn.1.2).mono
              (fun x hx => ?_) fun r hr x => ?_
            · rcases hx with ⟨a, gx, b, d⟩ | ⟨a, b⟩
              · have hb' := (on _).1 b
                have he := (alike _ g _ gx (hb'.2.trans e1.symm)).1
                exact .inl ⟨a, gx, hb'.1, by simp [Stage.satAny, sat_eq, he, ht, d]⟩
              · refine .inr ⟨a, fun y => b ?_⟩
                simp only [Stage.AllIn] at y
                cases st
                exact y.1.2
            · refine ⟨(on r).2 ⟨x.1.1, x.2⟩, ?_⟩
              have hsat := x.1.2
              rw [sat_eq, hlf] at hsat
              simp only [Bool.and_eq_true, Bool.false_or] at hsat
              exact hsat.2)
        (plan p pre.length m) ⟨h, hs⟩
      refine this.mono (fun _ h => h) ?_
      rintro r hr ⟨a, b⟩
      exact ⟨stageKey pDef st r, hpl _ _ _ _ (hall r hr a), ⟨a, b⟩, rfl⟩
end

end

end Fastac
