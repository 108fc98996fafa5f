import Verif.Lemmas.Index

/-!
# What a traversal of a well-formed index visits
-/

namespace Fastac

theorem replicate_add' {α : Type} (a b : Nat) (x : α) :
    List.replicate (a + b) x = List.replicate a x ++ List.replicate b x := by
  rw [List.replicate_append_replicate]

/-- `V` is `A` up to order and a number of extra copies of `b`; none if `S` holds. -/
def UpTo {α : Type} (b : α) (S : Prop) (V A : List α) : Prop :=
  ∃ ph, V.Perm (A ++ List.replicate ph b) ∧ (S → ph = 0)

theorem UpTo.refl {α : Type} {b : α} {S : Prop} (A : List α) : UpTo b S A A :=
  ⟨0, by simp, fun _ => rfl⟩

theorem UpTo.append {α : Type} {b : α} {S S1 S2 : Prop} {V V' A A' : List α}
    (h1 : UpTo b S1 V A) (h2 : UpTo b S2 V' A') (e1 : S → S1) (e2 : S → S2) :
    UpTo b S (V ++ V') (A ++ A') := by
  obtain ⟨p, hp, hp0⟩ := h1
  obtain ⟨q, hq, hq0⟩ := h2
  refine ⟨p + q, ?_, fun s => by rw [hp0 (e1 s), hq0 (e2 s)]⟩
  refine (hp.append hq).trans ?_
  rw [replicate_add']
  -- (A ++ P) ++ (A' ++ Q) ~ (A ++ A') ++ (P ++ Q)
  simp only [List.append_assoc]
  refine List.Perm.append_left A ?_
  rw [← List.append_assoc, ← List.append_assoc]
  exact List.Perm.append_right _ List.perm_append_comm

theorem UpTo.perm_right {α : Type} {b : α} {S : Prop} {V A A' : List α} (h : UpTo b S V A)
    (hp : A.Perm A') : UpTo b S V A' := by
  obtain ⟨p, hv, h0⟩ := h
  exact ⟨p, hv.trans (hp.append_right _), h0⟩

theorem UpTo.perm_left {α : Type} {b : α} {S : Prop} {V V' A : List α} (h : UpTo b S V A)
    (hp : V'.Perm V) : UpTo b S V' A := by
  obtain ⟨p, hv, h0⟩ := h
  exact ⟨p, hp.trans hv, h0⟩

theorem UpTo.flatMap {α β : Type} {b : α} {S : Prop} (l : List β) (f g : β → List α)
    (h : ∀ e ∈ l, UpTo b S (f e) (g e)) : UpTo b S (l.flatMap f) (l.flatMap g) := by
  induction l with
  | nil => exact UpTo.refl _
  | cons e l ih =>
    simp only [List.flatMap_cons]
    exact (h e (by simp)).append (ih (fun x hx => h x (by simp [hx]))) id id

/-- Splitting a list by a key. -/
theorem flatMap_filter_key {α β : Type} [DecidableEq β] (key : α → β) (ks : List β)
    (hk : ks.Nodup) (L : List α) (h : ∀ r ∈ L, key r ∈ ks) :
    (ks.flatMap (fun k => L.filter (fun r => decide (key r = k)))).Perm L := by
  induction L with
  | nil => simp
  | cons r L ih =>
    have ih' := ih (fun x hx => h x (by simp [hx]))
    refine List.Perm.trans ?_ (ih'.cons r)
    have hr := h r (by simp)
    clear ih ih' h
    induction ks with
    | nil => simp at hr
    | cons k ks ihk =>
      rw [List.nodup_cons] at hk
      simp only [List.flatMap_cons]
      by_cases hrk : key r = k
      · have hnot : ∀ k' ∈ ks, key r ≠ k' := by
          intro k' hk' e; rw [hrk] at e; subst e; exact hk.1 hk'
        have hrest : ks.flatMap (fun k => (r :: L).filter (fun r => decide (key r = k))) =
            ks.flatMap (fun k => L.filter (fun r => decide (key r = k))) := by
          rw [List.flatMap_def, List.flatMap_def]
          congr 1
          apply List.map_congr_left
          intro k' hk'
          rw [List.filter_cons_of_neg (by simpa using hnot k' hk')]
        rw [hrest, List.filter_cons_of_pos (by simpa using hrk)]
        simp
      · rw [List.filter_cons_of_neg (by simpa using hrk)]
        have hr' : key r ∈ ks := by
          simp only [List.mem_cons] at hr
          rcases hr with e | e
          · exact absurd e hrk
          · exact e
        refine ((ihk hk.2 hr').append_left _).trans ?_
        exact List.perm_middle

theorem perm_of_nodup_mem {α : Type} [DecidableEq α] {a b : List α} (ha : a.Nodup) (hb : b.Nodup)
    (h : ∀ x, x ∈ a ↔ x ∈ b) : a.Perm b := (List.perm_ext_iff_of_nodup ha hb).2 h

theorem nodup_of_map {α β : Type} (f : α → β) (l : List α) (h : (l.map f).Nodup) : l.Nodup := by
  induction l with
  | nil => simp
  | cons a l ih =>
    rw [List.map_cons, List.nodup_cons] at h
    rw [List.nodup_cons]
    exact ⟨fun hm => h.1 (List.mem_map.2 ⟨a, hm, rfl⟩), ih h.2⟩

theorem visits_flatMap {β : Type} (l : List β) (f : β → List Ev)
    (h : ∀ e ∈ l, endStatus (f e) = .cont) :
    visits (l.flatMap f) = l.flatMap (fun e => visits (f e)) := by
  induction l with
  | nil => simp [visits]
  | cons e l ih =>
    simp only [List.flatMap_cons]
    rw [visits_append, if_pos (h e (by simp)), ih (fun x hx => h x (by simp [hx]))]

theorem flatMap_replicate_add {α : Type} (L : List α) (a b : α → Nat) :
    (L.flatMap (fun r => List.replicate (a r + b r) r)).Perm
      (L.flatMap (fun r => List.replicate (a r) r) ++
        L.flatMap (fun r => List.replicate (b r) r)) := by
  induction L with
  | nil => simp
  | cons r L ih =>
    simp only [List.flatMap_cons]
    refine (ih.append_left _).trans ?_
    rw [replicate_add']
    simp only [List.append_assoc]
    refine List.Perm.append_left _ ?_
    rw [← List.append_assoc, ← List.append_assoc]
    exact List.Perm.append_right _ List.perm_append_comm

/-- What the entry of an inner or leaf map contributes. -/
theorem evEntries_visits (E : Evaluator) (expr : Str) (cb : Str → Node → List Ev)
    (m : GoMap Str Node) (h : endStatus (evEntries E expr cb m) = .cont) :
    visits (evEntries E expr cb m) =
      m.flatMap (fun e => if E.eval expr e.2.rule = .bool true then visits (cb e.1 e.2) else []) := by
  have h1 := (evEntries_cont_iff E expr cb m).1 h
  rw [evEntries_of_cont _ _ _ _ h, visits_flatMap]
  · rw [List.flatMap_def, List.flatMap_def]
    congr 1
    apply List.map_congr_left
    intro e he
    split <;> simp [visits]
  · intro e he
    split
    · rename_i ht; exact (h1 e he).2.2 ht
    · rfl

/-- Keys of a well-formed map are nodup and the lookups are the entries. -/
theorem entry_get {m : GoMap Str Node} (hwf : GoMap.WF m) {e : Str × Node} (he : e ∈ m) :
    GoMap.get m e.1 = some e.2 := hwf.get_of_mem (k := e.1) (v := e.2) he

theorem isLeaf_children {st : Stage} (h : st.isLeaf = true) : st.children = [] := by
  simpa [Stage.isLeaf] using h

mutual
theorem evStage_visits (pDef : PolicyDef) (E : Evaluator) (ord : Order) (hv : ord.Valid) :
    ∀ (st : Stage) (path : List (Nat × Str)) (n : Node) (R : Rule → Prop) (L : List Rule),
      st.All (fun s => s.children.length ≤ 2) →
      st.All (fun s => s.isLeaf = false → ReadsOwnArgs pDef E s) →
      Idx pDef st n R → L.Nodup → (∀ r, r ∈ L ↔ R r) → (∀ r, R r → GoodRule pDef r) →
      endStatus (evStage E pDef.args.length ord st path n) = .cont →
      UpTo (blankRule pDef)
        (st.All (fun s => s.isLeaf = true → E.eval s.expr (blankRule pDef) ≠ .bool true))
        (visits (evStage E pDef.args.length ord st path n))
        (L.flatMap (fun r => List.replicate (Stage.pathsAny E r st.children) r))
  | .mk _ cs, path, n, R, L, hb, hl, hI, hn, hL, hg, hc => by
    simp only [Stage.All] at hb hl ⊢
    simp only [Idx] at hI
    simp only [evStage] at hc ⊢
    exact evChildren_visits pDef E ord hv cs 0 path n R L hb hl hI hn hL hg hc
theorem evChildren_visits (pDef : PolicyDef) (E : Evaluator) (ord : Order) (hv : ord.Valid) :
    ∀ (cs : List Stage) (i : Nat) (path : List (Nat × Str)) (n : Node) (R : Rule → Prop)
      (L : List Rule),
      Stage.AllIn (fun s => s.children.length ≤ 2) cs →
      Stage.AllIn (fun s => s.isLeaf = false → ReadsOwnArgs pDef E s) cs →
      IdxC pDef cs i n R → L.Nodup → (∀ r, r ∈ L ↔ R r) → (∀ r, R r → GoodRule pDef r) →
      endStatus (evChildren E pDef.args.length ord cs i path n) = .cont →
      UpTo (blankRule pDef)
        (Stage.AllIn (fun s => s.isLeaf = true → E.eval s.expr (blankRule pDef) ≠ .bool true) cs)
        (visits (evChildren E pDef.args.length ord cs i path n))
        (L.flatMap (fun r => List.replicate (Stage.pathsAny E r cs) r))
  | [], i, path, n, R, L, _, _, _, _, _, _, _ => by
    simp only [evChildren, visits, Stage.pathsAny, List.replicate_zero]
    have : L.flatMap (fun _ => ([] : List Rule)) = [] := by simp
    rw [this]
    exact UpTo.refl _
  | st :: rest, i, path, n, R, L, hb, hl, hI, hn, hL, hg, hc => by
    simp only [Stage.AllIn] at hb hl
    simp only [IdxC] at hI
    obtain ⟨⟨m, hm, hwf, hall, hent⟩, hrest⟩ := hI
    simp only [evChildren, hm] at hc ⊢
    split at hc
    · simp [endStatus] at hc
    · rename_i hcomp
      rw [if_neg hcomp]
      rw [endStatus_append_cont] at hc
      rw [visits_append, if_pos hc.1]
      simp only [Stage.pathsAny]
      refine UpTo.perm_right (UpTo.append (S1 := (st.isLeaf = true →
          E.eval st.expr (blankRule pDef) ≠ .bool true) ∧
          st.All (fun s => s.isLeaf = true → E.eval s.expr (blankRule pDef) ≠ .bool true)) ?_
        (evChildren_visits pDef E ord hv rest (i+1) path n R L hb.2 hl.2 hrest hn hL hg hc.2)
        (fun s => by simp only [Stage.AllIn] at s; exact s.1)
        (fun s => by simp only [Stage.AllIn] at s; exact s.2))
        (flatMap_replicate_add L _ _).symm
      rw [evEntries_visits _ _ _ _ hc.1]
      -- statuses of the single entries
      have hst := (evEntries_cont_iff _ _ _ _).1 hc.1
      -- the recursive claim for one entry
      have hrec : ∀ (k : Str) (c : Node) (R' : Rule → Prop) (L' : List Rule),
          Idx pDef st c R' → L'.Nodup → (∀ r, r ∈ L' ↔ R' r) → (∀ r, R' r → GoodRule pDef r) →
          endStatus (evStage E pDef.args.length ord st (path ++ [(i, k)]) c) = .cont →
          UpTo (blankRule pDef)
            (st.All (fun s => s.isLeaf = true → E.eval s.expr (blankRule pDef) ≠ .bool true))
            (visits (evStage E pDef.args.length ord st (path ++ [(i, k)]) c))
            (L'.flatMap (fun r => List.replicate (Stage.pathsAny E r st.children) r)) :=
        fun k c R' L' => evStage_visits pDef E ord hv st (path ++ [(i, k)]) c R' L' hb.1.2 hl.1.2
      unfold entriesOf at hst ⊢
      by_cases hemp : m.isEmpty = true
      · -- the empty map: the blank rule is tried
        have hbl : List.replicate pDef.args.length [] = blankRule pDef := rfl
        rw [if_pos hemp, hbl] at hst ⊢
        have hm0 : m = [] := by simpa using hemp
        have hL0 : L = [] := by
          cases L with
          | nil => rfl
          | cons r _ =>
            have := hall r ((hL r).1 (by simp))
            rw [hm0] at this; simp at this
        subst hL0
        simp only [List.flatMap_cons, List.flatMap_nil, List.append_nil]
        show UpTo _ _ (if E.eval st.expr (blankRule pDef) = .bool true then _ else _) []
        split
        · rename_i ht
          have hcont := (hst ([], newNode (blankRule pDef)) (by simp)).2.2 ht
          simp only at hcont
          rw [endStatus_append_cont] at hcont
          rw [visits_append, if_pos hcont.1]
          have r1 := hrec [] (newNode (blankRule pDef)) (fun _ => False) []
            (Idx_new pDef _ st hb.1.1) (by simp) (by simp) (by simp) hcont.2
          simp only [List.flatMap_nil] at r1
          refine UpTo.append (A := []) (A' := []) (S1 := st.isLeaf = true →
            E.eval st.expr (blankRule pDef) ≠ .bool true) ?_ r1 (fun s => s.1) (fun s => s.2)
          cases hlf : st.isLeaf with
          | false => simp only [Bool.false_eq_true, if_false, visits]; exact UpTo.refl _
          | true =>
            simp only [if_true, visits]
            exact ⟨1, List.Perm.refl _, fun s => absurd ht (s trivial)⟩
        · exact UpTo.refl _
      · rw [if_neg hemp] at hst ⊢
        have hperm := hv path i m
        have hwf' : GoMap.WF (ord path i m) := hwf.perm hperm
        have hmem : ∀ e ∈ ord path i m, GoMap.get m e.1 = some e.2 := fun e he =>
          entry_get hwf (hperm.mem_iff.1 he)
        cases hlf : st.isLeaf with
        | true =>
          -- leaf: entries are the rules themselves
          have hkey : ∀ r, stageKey pDef st r = hash r := stageKey_leaf pDef hlf
          have hev : ∀ (p : List (Nat × Str)) (c : Node),
              evStage E pDef.args.length ord st p c = [] := by
            intro p c; rw [evStage_eq, isLeaf_children hlf]; simp [evChildren]
          simp only [hev, if_true, List.append_nil, visits]
          have e1 : (ord path i m).flatMap (fun e =>
              if E.eval st.expr e.2.rule = .bool true then [e.2.rule] else []) =
              ((ord path i m).map (fun e => e.2.rule)).flatMap
                (fun r => List.replicate (Stage.paths E r st) r) := by
            rw [List.flatMap_map]
            rw [List.flatMap_def, List.flatMap_def]
            congr 1
            apply List.map_congr_left
            intro e _
            simp only [Stage.paths_eq, hlf, if_true]
            split <;> simp
          rw [e1]
          have e2 : ((ord path i m).map (fun e => e.2.rule)).Perm L := by
            refine perm_of_nodup_mem ?_ hn ?_
            · have hkeys : ((ord path i m).map (fun e => e.2.rule)).map hash =
                  (ord path i m).map Prod.fst := by
                rw [List.map_map]
                apply List.map_congr_left
                intro e he
                have := (hent e.1 e.2 (hmem e he)).2.1
                rw [hkey] at this
                exact this
              have : (((ord path i m).map (fun e => e.2.rule)).map hash).Nodup := by
                rw [hkeys]; exact hwf'
              exact nodup_of_map _ _ this
            · intro r
              rw [hL r]
              constructor
              · intro hr
                obtain ⟨e, he, rfl⟩ := List.mem_map.1 hr
                exact (hent e.1 e.2 (hmem e he)).2.2.1 hlf
              · intro hr
                have hs := hall r hr
                rw [Option.isSome_iff_exists] at hs
                obtain ⟨c, hcg⟩ := hs
                have hin : (stageKey pDef st r, c) ∈ ord path i m :=
                  hperm.mem_iff.2 (GoMap.mem_of_get hcg)
                obtain ⟨g1, g2, _, _⟩ := hent _ c hcg
                rw [hkey, hkey] at g2
                have := g1.hash_inj (hg r hr) g2
                exact List.mem_map.2 ⟨_, hin, this⟩
          exact UpTo.perm_right (UpTo.refl _) (e2.flatMap_right _)
        | false =>
          simp only [Bool.false_eq_true, if_false, List.nil_append]
          have hRA := hl.1.1 hlf
          -- contribution of each key
          have e1 : UpTo (blankRule pDef)
              ((False → E.eval st.expr (blankRule pDef) ≠ .bool true) ∧
                st.All (fun s => s.isLeaf = true → E.eval s.expr (blankRule pDef) ≠ .bool true))
              ((ord path i m).flatMap (fun e => if E.eval st.expr e.2.rule = .bool true then
                visits (evStage E pDef.args.length ord st (path ++ [(i, e.1)]) e.2) else []))
              ((ord path i m).flatMap (fun e =>
                (L.filter (fun r => decide (stageKey pDef st r = e.1))).flatMap
                  (fun r => List.replicate (Stage.paths E r st) r))) := by
            refine UpTo.flatMap _ _ _ (fun e he => ?_)
            obtain ⟨g1, g2, _, g4⟩ := hent e.1 e.2 (hmem e he)
            have hsame : ∀ r ∈ L.filter (fun r => decide (stageKey pDef st r = e.1)),
                E.eval st.expr r = E.eval st.expr e.2.rule := by
              intro r hr
              rw [List.mem_filter] at hr
              refine eval_of_stageKey hRA (hg r ((hL r).1 hr.1)) g1 ?_
              rw [g2]; simpa using hr.2
            split
            · rename_i ht
              have hcont := (hst e he).2.2 ht
              simp only [hlf, Bool.false_eq_true, if_false, List.nil_append] at hcont
              have r1 := hrec e.1 e.2 _ (L.filter (fun r => decide (stageKey pDef st r = e.1))) g4
                (hn.filter _) (fun r => by rw [List.mem_filter, hL r]; simp)
                (fun r hr => hg r hr.1) hcont
              obtain ⟨ph, hp, h0⟩ := r1
              refine ⟨ph, ?_, fun s => h0 s.2⟩
              have : (L.filter (fun r => decide (stageKey pDef st r = e.1))).flatMap
                  (fun r => List.replicate (Stage.paths E r st) r) =
                (L.filter (fun r => decide (stageKey pDef st r = e.1))).flatMap
                  (fun r => List.replicate (Stage.pathsAny E r st.children) r) := by
                rw [List.flatMap_def, List.flatMap_def]
                congr 1
                apply List.map_congr_left
                intro r hr
                rw [Stage.paths_eq, hsame r hr, if_pos ht, hlf]
                simp
              rw [this]
              exact hp
            · rename_i ht
              have : (L.filter (fun r => decide (stageKey pDef st r = e.1))).flatMap
                  (fun r => List.replicate (Stage.paths E r st) r) = [] := by
                rw [List.flatMap_eq_nil_iff]
                intro r hr
                rw [Stage.paths_eq, hsame r hr, if_neg ht]
                simp
              rw [this]
              exact UpTo.refl _
          refine UpTo.perm_right e1 ?_
          have e2 : (ord path i m).flatMap (fun e =>
                (L.filter (fun r => decide (stageKey pDef st r = e.1))).flatMap
                  (fun r => List.replicate (Stage.paths E r st) r)) =
              (((ord path i m).map Prod.fst).flatMap (fun k =>
                L.filter (fun r => decide (stageKey pDef st r = k)))).flatMap
                  (fun r => List.replicate (Stage.paths E r st) r) := by
            rw [List.flatMap_assoc, List.flatMap_map]
          rw [e2]
          refine List.Perm.flatMap_right _ (flatMap_filter_key (stageKey pDef st) _ hwf' L ?_)
          intro r hr
          have hs := hall r ((hL r).1 hr)
          rw [Option.isSome_iff_exists] at hs
          obtain ⟨c, hcg⟩ := hs
          exact List.mem_map.2 ⟨_, hperm.mem_iff.2 (GoMap.mem_of_get hcg), rfl⟩
end

end Fastac
