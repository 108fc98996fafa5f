import Verif.Lemmas.Policy
import Verif.Lemmas.IndexVisits

/-!
# What `filter` returns for reachable states
-/

namespace Fastac

theorem Live.inv {pDef : PolicyDef} {root : Stage} (hb : root.Binary) {s : PolicyWithMatcher}
    (h : Live pDef root s) : s.Inv pDef root := by
  induction h with
  | create before hgood order horder m hm =>
    have hwf := Policy.WF.empty.run before
    have hg := Policy.run_good (pDef := pDef) Policy.WF.empty
      (by simp [Policy.empty, Policy.rules]) before hgood
    obtain ⟨m', e, h1, h2, h3⟩ := newMatcher_idx pDef root hb order
      (fun r hr => hg r (horder.mem_iff.1 hr))
    rw [hm] at e
    cases e
    exact ⟨hwf, hg, h1, h2, Idx_congr _ _ _ (fun r => horder.mem_iff) h3⟩
  | change s s' _ op hgood hs ih =>
    obtain ⟨t, e, h1, _⟩ := ih.step hb op hgood
    rw [hs] at e
    cases e
    exact h1

theorem Stage.pathsAny_pos (E : Evaluator) (r : Rule) (cs : List Stage) :
    0 < Stage.pathsAny E r cs ↔ Stage.satAny E r cs = true := by
  refine Stage.rec_1 (motive_1 := fun st => 0 < Stage.paths E r st ↔ Stage.sat E r st = true)
    (motive_2 := fun cs => 0 < Stage.pathsAny E r cs ↔ Stage.satAny E r cs = true) ?_ ?_ ?_ cs
  · intro e cs ih
    simp only [Stage.paths, Stage.sat, Bool.and_eq_true, beq_iff_eq, Bool.or_eq_true]
    by_cases he : E.eval e r = .bool true
    · rw [if_pos he]
      by_cases hc : cs.isEmpty = true
      · simp [he, hc]
      · simp [he, hc, ih]
    · simp [he]
  · simp [Stage.pathsAny, Stage.satAny]
  · intro c cs h1 h2
    simp only [Stage.pathsAny, Stage.satAny, Bool.or_eq_true]
    rw [← h1, ← h2]; omega

/-- The rules reported by `Filter`: each stored rule as often as it has satisfied paths, plus
copies of the blank rule (none when the matcher is blank-safe). -/
theorem filter_of_inv {pDef : PolicyDef} {root : Stage} (hb : root.Binary)
    {s : PolicyWithMatcher} (h : s.Inv pDef root) {E : Evaluator} (hl : root.Local pDef E)
    {ord : Order} (hv : ord.Valid) (hF : (filter s.matcher E ord).2 = .cont) :
    ∃ ph, (filter s.matcher E ord).1.Perm
        (s.policy.rules.flatMap (fun r =>
            List.replicate (Stage.pathsAny E r root.children) (pDef.key :: r)) ++
          List.replicate ph (pDef.key :: blankRule pDef)) ∧
      (root.BlankSafe pDef E → ph = 0) := by
  rw [filter_eq] at hF ⊢
  simp only at hF ⊢
  have hev : s.matcher.events E ord =
      evStage E pDef.args.length ord root [] s.matcher.root := by
    unfold Matcher.events; rw [h.pdef, h.expr]
  rw [hev] at hF ⊢
  obtain ⟨ph, hp, h0⟩ := evStage_visits pDef E ord hv root [] s.matcher.root _ s.policy.rules
    hb.2 hl h.idx h.wf.rules_nodup (fun r => Iff.rfl) h.good hF
  refine ⟨ph, ?_, h0⟩
  rw [h.pdef]
  have := hp.map (pDef.key :: ·)
  rw [List.map_append, List.map_replicate, List.map_flatMap] at this
  simpa only [List.map_replicate] using this

theorem filter_mem_of_inv {pDef : PolicyDef} {root : Stage} (hb : root.Binary)
    {s : PolicyWithMatcher} (h : s.Inv pDef root) {E : Evaluator} (hl : root.Local pDef E)
    {ord : Order} (hv : ord.Valid) (hF : (filter s.matcher E ord).2 = .cont)
    (hbs : root.BlankSafe pDef E) (x : Rule) :
    x ∈ (filter s.matcher E ord).1 ↔
      ∃ r ∈ s.policy.rules, Stage.satAny E r root.children = true ∧ x = pDef.key :: r := by
  obtain ⟨ph, hp, h0⟩ := filter_of_inv hb h hl hv hF
  rw [hp.mem_iff, h0 hbs]
  simp only [List.replicate_zero, List.append_nil, List.mem_flatMap, List.mem_replicate,
    ← Stage.pathsAny_pos, Nat.pos_iff_ne_zero]

/-! ## No failures -/

mutual
theorem evStage_cont (pDef : PolicyDef) (E : Evaluator) (ord : Order) (hv : ord.Valid) :
    ∀ (st : Stage) (path : List (Nat × Str)) (n : Node) (R : Rule → Prop),
      st.All (fun s => s.children.length ≤ 2) → st.NeverFails pDef E → Idx pDef st n R →
      endStatus (evStage E pDef.args.length ord st path n) = .cont
  | .mk _ cs, path, n, R, hb, hn, hI => by
    simp only [Stage.NeverFails, Stage.All] at hb hn
    simp only [Idx] at hI
    simp only [evStage]
    exact evChildren_cont pDef E ord hv cs 0 path n R hb hn hI
theorem evChildren_cont (pDef : PolicyDef) (E : Evaluator) (ord : Order) (hv : ord.Valid) :
    ∀ (cs : List Stage) (i : Nat) (path : List (Nat × Str)) (n : Node) (R : Rule → Prop),
      Stage.AllIn (fun s => s.children.length ≤ 2) cs →
      Stage.AllIn (fun st => E.compiles st.expr = true ∧
        ∀ r : Rule, r.length = pDef.args.length →
          E.eval st.expr r ≠ .err ∧ E.eval st.expr r ≠ .panic) cs →
      IdxC pDef cs i n R →
      endStatus (evChildren E pDef.args.length ord cs i path n) = .cont
  | [], _, _, _, _, _, _, _ => by simp [evChildren, endStatus]
  | st :: rest, i, path, n, R, hb, hn, hI => by
    simp only [Stage.AllIn] at hb hn
    simp only [IdxC] at hI
    obtain ⟨⟨m, hm, hwf, hall, hent⟩, hrest⟩ := hI
    simp only [evChildren, hm, hn.1.1.1, Bool.true_eq_false, if_false]
    rw [endStatus_append_cont]
    refine ⟨?_, evChildren_cont pDef E ord hv rest (i+1) path n R hb.2 hn.2 hrest⟩
    rw [evEntries_cont_iff]
    intro e he
    have key : ∀ (k : Str) (c : Node) (R' : Rule → Prop), c.rule.length = pDef.args.length →
        Idx pDef st c R' →
        E.eval st.expr c.rule ≠ .err ∧ E.eval st.expr c.rule ≠ .panic ∧
        (E.eval st.expr c.rule = .bool true →
          endStatus ((if st.isLeaf then [Ev.visit c.rule] else []) ++
              evStage E pDef.args.length ord st (path ++ [(i, k)]) c) = .cont) := by
      intro k c R' hlen hI
      refine ⟨(hn.1.1.2 _ hlen).1, (hn.1.1.2 _ hlen).2, fun _ => ?_⟩
      rw [endStatus_append_cont]
      refine ⟨by split <;> simp [endStatus], ?_⟩
      exact evStage_cont pDef E ord hv st _ c R' hb.1.2 hn.1.2 hI
    unfold entriesOf at he
    split at he
    · simp only [List.mem_singleton] at he
      subst he
      exact key [] (newNode (List.replicate pDef.args.length [])) (fun _ => False)
        (by simp [newNode, Node.rule]) (Idx_new pDef _ st hb.1.1)
    · have hg := entry_get hwf ((hv path i m).mem_iff.1 he)
      obtain ⟨g, _, _, hI'⟩ := hent _ _ hg
      exact key e.1 e.2 _ g.len hI'
end

theorem filter_cont_of_inv {pDef : PolicyDef} {root : Stage} (hb : root.Binary)
    {s : PolicyWithMatcher} (h : s.Inv pDef root) {E : Evaluator} (hn : root.NeverFails pDef E)
    {ord : Order} (hv : ord.Valid) : (filter s.matcher E ord).2 = .cont := by
  rw [filter_eq]
  simp only
  have hev : s.matcher.events E ord =
      evStage E pDef.args.length ord root [] s.matcher.root := by
    unfold Matcher.events; rw [h.pdef, h.expr]
  rw [hev]
  exact evStage_cont pDef E ord hv root [] _ _ hb.2 hn h.idx

end Fastac
