import Verif.Lemmas.Live
import Verif.Spec.Given

/-!
# Traversal of an index on which the conditions behave
-/

namespace Fastac

mutual
/-- The conditions behave on the nodes of the index. -/
def Tame (pDef : PolicyDef) (E : Evaluator) : Stage → Node → (Rule → Prop) → Prop
  | .mk _ cs, n, R => TameC pDef E cs 0 n R
def TameC (pDef : PolicyDef) (E : Evaluator) : List Stage → Nat → Node → (Rule → Prop) → Prop
  | [], _, _, _ => True
  | st :: rest, i, n, R =>
    (E.compiles st.expr = true ∧ ∃ m, n.children[i]? = some m ∧
      (m = [] → st.RunsAt E (blankRule pDef)) ∧
      (∀ k c, GoMap.get m k = some c → E.eval st.expr c.rule ≠ .err ∧ E.eval st.expr c.rule ≠ .panic ∧
        (st.isLeaf = false → (∀ r, R r → stageKey pDef st r = k → E.eval st.expr r = E.eval st.expr c.rule) ∧
          (E.eval st.expr c.rule = .bool true → Tame pDef E st c (fun r => R r ∧ stageKey pDef st r = k))))) ∧
    TameC pDef E rest (i + 1) n R
end

theorem Stage.RunsAt_eq (E : Evaluator) (r : Rule) (st : Stage) : st.RunsAt E r =
    (E.compiles st.expr = true ∧ E.eval st.expr r ≠ .err ∧ E.eval st.expr r ≠ .panic ∧
      (E.eval st.expr r = .bool true → Stage.RunsAtAll E r st.children)) := by
  cases st; simp [Stage.RunsAt, Stage.expr, Stage.children]

mutual
theorem Stage.Declines.runs {E : Evaluator} {r : Rule} : ∀ {st : Stage}, st.Declines E r →
    st.RunsAt E r ∧ st.paths E r = 0
  | .mk e cs, h => by
    simp only [Stage.Declines] at h
    obtain ⟨h1, h2, h3, h4⟩ := h
    refine ⟨⟨h1, h2, h3, fun he => (Stage.DeclinesAll.runs (h4 he).2).1⟩, ?_⟩
    simp only [Stage.paths]
    by_cases he : E.eval e r = .bool true
    · obtain ⟨n1, n2⟩ := h4 he
      have : cs.isEmpty = false := by cases cs with
        | nil => exact absurd rfl n1
        | cons _ _ => rfl
      simp [he, this, (Stage.DeclinesAll.runs n2).2]
    · simp [he]
theorem Stage.DeclinesAll.runs {E : Evaluator} {r : Rule} : ∀ {cs : List Stage}, Stage.DeclinesAll E r cs →
    Stage.RunsAtAll E r cs ∧ Stage.pathsAny E r cs = 0
  | [], _ => ⟨trivial, rfl⟩
  | c :: cs, h => by
    simp only [Stage.DeclinesAll] at h
    have h1 := Stage.Declines.runs h.1
    have h2 := Stage.DeclinesAll.runs h.2
    exact ⟨⟨h1.1, h2.1⟩, by simp only [Stage.pathsAny]; rw [h1.2, h2.2]⟩
end

mutual
/-- A fresh node for a rule reports the rule as often as it has satisfied paths. -/
theorem evStage_runs (E : Evaluator) (nargs : Nat) (ord : Order) :
    ∀ (st : Stage) (path : List (Nat × Str)), st.children.length ≤ 2 → st.All (fun s => s.children.length ≤ 2) →
      Stage.RunsAtAll E (List.replicate nargs []) st.children →
      endStatus (evStage E nargs ord st path (newNode (List.replicate nargs []))) = .cont ∧
        visits (evStage E nargs ord st path (newNode (List.replicate nargs []))) =
          List.replicate (Stage.pathsAny E (List.replicate nargs []) st.children) (List.replicate nargs [])
  | .mk _ cs, path, h2, hb, hd => by
    simp only [Stage.All] at hb
    simp only [Stage.children] at h2 hd ⊢
    simp only [evStage]
    exact evChildren_runs E nargs ord cs 0 path (by omega) hb hd
theorem evChildren_runs (E : Evaluator) (nargs : Nat) (ord : Order) :
    ∀ (cs : List Stage) (i : Nat) (path : List (Nat × Str)), i + cs.length ≤ 2 →
      Stage.AllIn (fun s => s.children.length ≤ 2) cs →
      Stage.RunsAtAll E (List.replicate nargs []) cs →
      endStatus (evChildren E nargs ord cs i path (newNode (List.replicate nargs []))) = .cont ∧
        visits (evChildren E nargs ord cs i path (newNode (List.replicate nargs []))) =
          List.replicate (Stage.pathsAny E (List.replicate nargs []) cs) (List.replicate nargs [])
  | [], _, _, _, _, _ => by simp [evChildren, endStatus, visits, Stage.pathsAny]
  | st :: rest, i, path, h2, hb, hd => by
    simp only [Stage.AllIn] at hb
    simp only [Stage.RunsAtAll] at hd
    simp only [List.length_cons] at h2
    have hm : (newNode (List.replicate nargs [])).children[i]? = some [] := by
      have : i = 0 ∨ i = 1 := by omega
      rcases this with rfl | rfl <;> rfl
    obtain ⟨h1, hr⟩ := hd
    obtain ⟨r1, r2⟩ := evChildren_runs E nargs ord rest (i+1) path (by omega) hb.2 hr
    obtain ⟨e1, e2⟩ := evBlank E nargs ord st i path hb.1.1 hb.1.2 h1
    have d1 := (Stage.RunsAt_eq E _ st ▸ h1).1
    simp only [evChildren, hm, d1, Bool.true_eq_false, if_false]
    refine ⟨?_, ?_⟩
    · rw [endStatus_append_cont]
      exact ⟨e1, r1⟩
    · rw [visits_append, if_pos e1, r2, e2, Stage.pathsAny, List.replicate_append_replicate]
/-- The entries of an empty map. -/
theorem evBlank (E : Evaluator) (nargs : Nat) (ord : Order) :
    ∀ (st : Stage) (i : Nat) (path : List (Nat × Str)), st.children.length ≤ 2 →
      st.All (fun s => s.children.length ≤ 2) → st.RunsAt E (List.replicate nargs []) →
      endStatus (evEntries E st.expr (fun k child =>
        (if st.isLeaf then [Ev.visit child.rule] else []) ++
          evStage E nargs ord st (path ++ [(i, k)]) child) (entriesOf nargs ord path i [])) = .cont ∧
      visits (evEntries E st.expr (fun k child =>
        (if st.isLeaf then [Ev.visit child.rule] else []) ++
          evStage E nargs ord st (path ++ [(i, k)]) child) (entriesOf nargs ord path i [])) =
        List.replicate (Stage.paths E (List.replicate nargs []) st) (List.replicate nargs [])
  | .mk e cs, i, path, h2, hb, h1 => by
    simp only [Stage.RunsAt] at h1
    obtain ⟨d1, d2, d3, d4⟩ := h1
    simp only [Stage.All] at hb
    simp only [Stage.children] at h2
    simp only [evStage, Stage.expr]
    have hcb : E.eval e (List.replicate nargs []) = .bool true →
        endStatus ((if (Stage.mk e cs).isLeaf then [Ev.visit (newNode (List.replicate nargs [])).rule] else []) ++
          evChildren E nargs ord cs 0 (path ++ [(i, [])]) (newNode (List.replicate nargs []))) = .cont ∧
        visits ((if (Stage.mk e cs).isLeaf then [Ev.visit (newNode (List.replicate nargs [])).rule] else []) ++
          evChildren E nargs ord cs 0 (path ++ [(i, [])]) (newNode (List.replicate nargs []))) =
          List.replicate (if cs.isEmpty then 1 else Stage.pathsAny E (List.replicate nargs []) cs)
            (List.replicate nargs []) := by
      intro ht
      obtain ⟨c1, c2⟩ := evChildren_runs E nargs ord cs 0 (path ++ [(i, [])]) (by omega) hb (d4 ht)
      cases cs with
      | nil => simp [Stage.isLeaf, Stage.children, evChildren, endStatus, visits, newNode, Node.rule]
      | cons c cs => simpa [Stage.isLeaf, Stage.children] using ⟨c1, c2⟩
    have hce : endStatus (evEntries E e (fun k child =>
        (if (Stage.mk e cs).isLeaf then [Ev.visit child.rule] else []) ++
          evChildren E nargs ord cs 0 (path ++ [(i, k)]) child) (entriesOf nargs ord path i [])) = .cont := by
      rw [evEntries_cont_iff]
      intro x he
      simp only [entriesOf, List.isEmpty_nil, if_true, List.mem_singleton] at he
      subst he
      exact ⟨d2, d3, fun ht => (hcb ht).1⟩
    refine ⟨hce, ?_⟩
    rw [evEntries_visits _ _ _ _ hce]
    simp only [entriesOf, List.isEmpty_nil, if_true, List.flatMap_cons, List.flatMap_nil, List.append_nil,
      Stage.paths]
    split
    · rename_i ht
      rw [(hcb ht).2]
      have ht' : E.eval e (List.replicate nargs []) = .bool true := ht
      simp [ht']
    · rename_i ht
      have ht' : ¬ E.eval e (List.replicate nargs []) = .bool true := ht
      simp [ht']
end

mutual
/-- How often the rule with empty fields is reported. -/
def phantoms (pDef : PolicyDef) (E : Evaluator) : Stage → Node → Nat
  | .mk _ cs, n => phantomsC pDef E cs 0 n
def phantomsC (pDef : PolicyDef) (E : Evaluator) : List Stage → Nat → Node → Nat
  | [], _, _ => 0
  | st :: rest, i, n =>
    (match n.children[i]? with
      | none => 0
      | some m => if m.isEmpty then st.paths E (blankRule pDef) else if st.isLeaf then 0 else
        (m.map (fun e => if E.eval st.expr e.2.rule = .bool true then phantoms pDef E st e.2 else 0)).sum) +
    phantomsC pDef E rest (i + 1) n
end

theorem flatMap_replicate_sum {α β : Type} (x : β) (k : α → Nat) : ∀ l : List α,
    l.flatMap (fun a => List.replicate (k a) x) = List.replicate ((l.map k).sum) x
  | [] => rfl
  | a :: l => by
    rw [List.flatMap_cons, flatMap_replicate_sum x k l, List.replicate_append_replicate, List.map_cons, List.sum_cons]

theorem flatMap_append_perm {α β : Type} (f g : α → List β) : ∀ l : List α,
    (l.flatMap (fun a => f a ++ g a)).Perm (l.flatMap f ++ l.flatMap g)
  | [] => by simp
  | a :: l => by
    simp only [List.flatMap_cons]
    refine ((flatMap_append_perm f g l).append_left _).trans ?_
    rw [List.append_assoc, List.append_assoc]
    refine List.Perm.append_left _ ?_
    rw [← List.append_assoc, ← List.append_assoc]
    exact List.Perm.append_right _ List.perm_append_comm

mutual
theorem evStage_tame (pDef : PolicyDef) (E : Evaluator) (ord : Order) (hv : ord.Valid) :
    ∀ (st : Stage) (path : List (Nat × Str)) (n : Node) (R : Rule → Prop) (L : List Rule),
      st.All (fun s => s.children.length ≤ 2) → Idx pDef st n R → Tame pDef E st n R →
      L.Nodup → (∀ r, r ∈ L ↔ R r) → (∀ r, R r → GoodRule pDef r) →
      endStatus (evStage E pDef.args.length ord st path n) = .cont ∧
      (visits (evStage E pDef.args.length ord st path n)).Perm
        (L.flatMap (fun r => List.replicate (Stage.pathsAny E r st.children) r) ++
          List.replicate (phantoms pDef E st n) (blankRule pDef))
  | .mk _ cs, path, n, R, L, hb, hI, hT, hn, hL, hg => by
    simp only [Stage.All] at hb
    simp only [Idx] at hI
    simp only [Tame] at hT
    simp only [evStage, phantoms]
    exact evChildren_tame pDef E ord hv cs 0 path n R L hb hI hT hn hL hg
theorem evChildren_tame (pDef : PolicyDef) (E : Evaluator) (ord : Order) (hv : ord.Valid) :
    ∀ (cs : List Stage) (i : Nat) (path : List (Nat × Str)) (n : Node) (R : Rule → Prop)
      (L : List Rule),
      Stage.AllIn (fun s => s.children.length ≤ 2) cs → IdxC pDef cs i n R → TameC pDef E cs i n R →
      L.Nodup → (∀ r, r ∈ L ↔ R r) → (∀ r, R r → GoodRule pDef r) →
      endStatus (evChildren E pDef.args.length ord cs i path n) = .cont ∧
      (visits (evChildren E pDef.args.length ord cs i path n)).Perm
        (L.flatMap (fun r => List.replicate (Stage.pathsAny E r cs) r) ++
          List.replicate (phantomsC pDef E cs i n) (blankRule pDef))
  | [], i, path, n, R, L, _, _, _, _, _, _ => by
    simp only [evChildren, visits, Stage.pathsAny, List.replicate_zero, endStatus, phantomsC, List.append_nil]
    have : L.flatMap (fun _ => ([] : List Rule)) = [] := by simp
    rw [this]
    exact ⟨trivial, List.Perm.refl _⟩
  | st :: rest, i, path, n, R, L, hb, hI, hT, hn, hL, hg => by
    simp only [Stage.AllIn] at hb
    simp only [IdxC] at hI
    simp only [TameC] at hT
    obtain ⟨⟨m, hm, hwf, hall, hent⟩, hrest⟩ := hI
    obtain ⟨⟨hcomp, m2, hm2, hbl, htm⟩, htrest⟩ := hT
    obtain rfl : m2 = m := Option.some.inj (hm2.symm.trans hm)
    obtain ⟨r1, r2⟩ := evChildren_tame pDef E ord hv rest (i+1) path n R L hb.2 hrest htrest hn hL hg
    simp only [evChildren, hm, hcomp, Bool.true_eq_false, if_false, Stage.pathsAny]
    -- the entries of this slot
    have hph : phantomsC pDef E (st :: rest) i n =
        (if m2.isEmpty then st.paths E (blankRule pDef) else if st.isLeaf then 0 else
          (m2.map (fun e => if E.eval st.expr e.2.rule = .bool true then phantoms pDef E st e.2 else 0)).sum) +
        phantomsC pDef E rest (i + 1) n := by
      simp only [phantomsC, hm]
    rw [hph]
    suffices hs : endStatus (evEntries E st.expr (fun k child =>
        (if st.isLeaf then [Ev.visit child.rule] else []) ++
          evStage E pDef.args.length ord st (path ++ [(i, k)]) child)
          (entriesOf pDef.args.length ord path i m2)) = .cont ∧
        (visits (evEntries E st.expr (fun k child =>
          (if st.isLeaf then [Ev.visit child.rule] else []) ++
            evStage E pDef.args.length ord st (path ++ [(i, k)]) child)
            (entriesOf pDef.args.length ord path i m2))).Perm
          (L.flatMap (fun r => List.replicate (Stage.paths E r st) r) ++
            List.replicate (if m2.isEmpty then st.paths E (blankRule pDef) else if st.isLeaf then 0 else
              (m2.map (fun e => if E.eval st.expr e.2.rule = .bool true then phantoms pDef E st e.2 else 0)).sum)
              (blankRule pDef)) by
      refine ⟨?_, ?_⟩
      · rw [endStatus_append_cont]; exact ⟨hs.1, r1⟩
      · rw [visits_append, if_pos hs.1]
        refine (hs.2.append r2).trans ?_
        refine List.Perm.trans ?_ (List.Perm.append_right _ (flatMap_replicate_add L _ _).symm)
        rw [← List.replicate_append_replicate, List.append_assoc, List.append_assoc]
        refine List.Perm.append_left _ ?_
        rw [← List.append_assoc, ← List.append_assoc]
        exact List.Perm.append_right _ List.perm_append_comm
    by_cases hemp : m2.isEmpty = true
    · -- the empty map: the blank rule is tried
      have hm0 : m2 = [] := by simpa using hemp
      have hL0 : L = [] := by
        cases L with
        | nil => rfl
        | cons r _ =>
          have := hall r ((hL r).1 (by simp))
          rw [hm0] at this; simp at this
      subst hL0
      obtain ⟨e1, e2⟩ := evBlank E pDef.args.length ord st i path hb.1.1 hb.1.2 (hbl hm0)
      subst hm0
      refine ⟨e1, ?_⟩
      rw [e2]
      exact List.Perm.refl _
    · have hperm := hv path i m2
      have hwf' : GoMap.WF (ord path i m2) := hwf.perm hperm
      have hmem : ∀ e ∈ ord path i m2, GoMap.get m2 e.1 = some e.2 := fun e he =>
        entry_get hwf (hperm.mem_iff.1 he)
      have hent' : entriesOf pDef.args.length ord path i m2 = ord path i m2 := by
        unfold entriesOf; rw [if_neg hemp]
      rw [hent']
      rw [if_neg hemp]
      cases hlf : st.isLeaf with
      | true =>
        rw [if_pos rfl, List.replicate_zero, List.append_nil]
        have hkey : ∀ r, stageKey pDef st r = hash r := stageKey_leaf pDef hlf
        have hev : ∀ (p : List (Nat × Str)) (c : Node),
            evStage E pDef.args.length ord st p c = [] := by
          intro p c; rw [evStage_eq, isLeaf_children hlf]; simp [evChildren]
        simp only [hev, if_true, List.append_nil]
        have hce : endStatus (evEntries E st.expr (fun _ child => [Ev.visit child.rule])
            (ord path i m2)) = .cont := by
          rw [evEntries_cont_iff]
          intro e he
          obtain ⟨t1, t2, _⟩ := htm e.1 e.2 (hmem e he)
          exact ⟨t1, t2, fun _ => by simp [endStatus]⟩
        refine ⟨hce, ?_⟩
        rw [evEntries_visits _ _ _ _ hce]
        simp only [visits]
        have e1 : (ord path i m2).flatMap (fun e =>
            if E.eval st.expr e.2.rule = .bool true then [e.2.rule] else []) =
            ((ord path i m2).map (fun e => e.2.rule)).flatMap
              (fun r => List.replicate (Stage.paths E r st) r) := by
          rw [List.flatMap_map]
          rw [List.flatMap_def, List.flatMap_def]
          congr 1
          apply List.map_congr_left
          intro e _
          simp only [Stage.paths_eq, hlf, if_true]
          split <;> simp
        rw [e1]
        have e2 : ((ord path i m2).map (fun e => e.2.rule)).Perm L := by
          refine perm_of_nodup_mem ?_ hn ?_
          · have hkeys : ((ord path i m2).map (fun e => e.2.rule)).map hash =
                (ord path i m2).map Prod.fst := by
              rw [List.map_map]
              apply List.map_congr_left
              intro e he
              have := (hent e.1 e.2 (hmem e he)).2.1
              rw [hkey] at this
              exact this
            have : (((ord path i m2).map (fun e => e.2.rule)).map hash).Nodup := by
              rw [hkeys]; exact hwf'
            exact nodup_of_map _ _ this
          · intro r
            rw [hL r]
            constructor
            · intro hr
              obtain ⟨e, he, rfl⟩ := List.mem_map.1 hr
              exact (hent e.1 e.2 (hmem e he)).2.2.1 hlf
            · intro hr
              have hs := hall r hr
              rw [Option.isSome_iff_exists] at hs
              obtain ⟨c, hcg⟩ := hs
              have hin : (stageKey pDef st r, c) ∈ ord path i m2 :=
                hperm.mem_iff.2 (GoMap.mem_of_get hcg)
              obtain ⟨g1, g2, _, _⟩ := hent _ c hcg
              rw [hkey, hkey] at g2
              have := g1.hash_inj (hg r hr) g2
              exact List.mem_map.2 ⟨_, hin, this⟩
        exact e2.flatMap_right _
      | false =>
        simp only [Bool.false_eq_true, if_false, List.nil_append]
        -- one entry
        have hone : ∀ e ∈ ord path i m2,
            E.eval st.expr e.2.rule ≠ .err ∧ E.eval st.expr e.2.rule ≠ .panic ∧
            (∀ r ∈ L.filter (fun r => decide (stageKey pDef st r = e.1)),
              E.eval st.expr r = E.eval st.expr e.2.rule) ∧
            (E.eval st.expr e.2.rule = .bool true →
              endStatus (evStage E pDef.args.length ord st (path ++ [(i, e.1)]) e.2) = .cont ∧
              (visits (evStage E pDef.args.length ord st (path ++ [(i, e.1)]) e.2)).Perm
                ((L.filter (fun r => decide (stageKey pDef st r = e.1))).flatMap
                  (fun r => List.replicate (Stage.pathsAny E r st.children) r) ++
                List.replicate (phantoms pDef E st e.2) (blankRule pDef))) := by
          intro e he
          obtain ⟨t1, t2, t3⟩ := htm e.1 e.2 (hmem e he)
          obtain ⟨t4, t5⟩ := t3 hlf
          obtain ⟨_, _, _, g4⟩ := hent e.1 e.2 (hmem e he)
          refine ⟨t1, t2, ?_, fun ht => ?_⟩
          · intro r hr
            rw [List.mem_filter] at hr
            exact t4 r ((hL r).1 hr.1) (by simpa using hr.2)
          · exact evStage_tame pDef E ord hv st _ e.2 _ _ hb.1.2 g4 (t5 ht) (hn.filter _)
              (fun r => by rw [List.mem_filter, hL r]; simp) (fun r hr => hg r hr.1)
        have hce : endStatus (evEntries E st.expr (fun k child =>
            evStage E pDef.args.length ord st (path ++ [(i, k)]) child) (ord path i m2)) = .cont := by
          rw [evEntries_cont_iff]
          intro e he
          obtain ⟨t1, t2, _, t4⟩ := hone e he
          exact ⟨t1, t2, fun ht => (t4 ht).1⟩
        refine ⟨hce, ?_⟩
        rw [evEntries_visits _ _ _ _ hce]
        have e2 : ((ord path i m2).flatMap (fun e =>
              (L.filter (fun r => decide (stageKey pDef st r = e.1))).flatMap
                (fun r => List.replicate (Stage.paths E r st) r))) =
            (((ord path i m2).map Prod.fst).flatMap (fun k =>
              L.filter (fun r => decide (stageKey pDef st r = k)))).flatMap
                (fun r => List.replicate (Stage.paths E r st) r) := by
          rw [List.flatMap_assoc, List.flatMap_map]
        refine List.Perm.trans (perm_flatMap_congr (List.Perm.refl _)
          (f := fun e => (L.filter (fun r => decide (stageKey pDef st r = e.1))).flatMap
                (fun r => List.replicate (Stage.paths E r st) r) ++
              List.replicate (if E.eval st.expr e.2.rule = .bool true then phantoms pDef E st e.2 else 0)
                (blankRule pDef)) ?_) ?_
        · intro e he
          obtain ⟨_, _, t3, t4⟩ := hone e he
          split
          · rename_i ht
            have : (L.filter (fun r => decide (stageKey pDef st r = e.1))).flatMap
                (fun r => List.replicate (Stage.paths E r st) r) =
              (L.filter (fun r => decide (stageKey pDef st r = e.1))).flatMap
                (fun r => List.replicate (Stage.pathsAny E r st.children) r) := by
              rw [List.flatMap_def, List.flatMap_def]
              congr 1
              apply List.map_congr_left
              intro r hr
              rw [Stage.paths_eq, t3 r hr, if_pos ht, hlf]
              simp
            rw [this]
            exact (t4 ht).2
          · rename_i ht
            have : (L.filter (fun r => decide (stageKey pDef st r = e.1))).flatMap
                (fun r => List.replicate (Stage.paths E r st) r) = [] := by
              rw [List.flatMap_eq_nil_iff]
              intro r hr
              rw [Stage.paths_eq, t3 r hr, if_neg ht]
              simp
            rw [this]
            exact List.Perm.refl _
        · refine (flatMap_append_perm _ _ _).trans ?_
          rw [flatMap_replicate_sum (blankRule pDef)
            (fun e : Str × Node => if E.eval st.expr e.2.rule = .bool true then phantoms pDef E st e.2 else 0),
            (hperm.map _).sum_nat]
          refine List.Perm.append_right _ ?_
          rw [e2]
          refine List.Perm.flatMap_right _ (flatMap_filter_key (stageKey pDef st) _ hwf' L ?_)
          intro r hr
          have hs := hall r ((hL r).1 hr)
          rw [Option.isSome_iff_exists] at hs
          obtain ⟨c, hcg⟩ := hs
          exact List.mem_map.2 ⟨_, hperm.mem_iff.2 (GoMap.mem_of_get hcg), rfl⟩
end

end Fastac
