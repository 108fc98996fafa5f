import Verif.Lemmas.Events

/-!
# Lemmas about `enforce` and iteration order
-/

namespace Fastac

/-! ## Iteration order -/

theorem endStatus_append_cont (a b : List Ev) :
    endStatus (a ++ b) = .cont ↔ endStatus a = .cont ∧ endStatus b = .cont := by
  rw [endStatus_append]
  by_cases h : endStatus a = .cont <;> simp [h]

theorem evEntries_cont_iff (E : Evaluator) (expr : Str) (cb : Str → Node → List Ev)
    (m : GoMap Str Node) :
    endStatus (evEntries E expr cb m) = .cont ↔
      ∀ e ∈ m, E.eval expr e.2.rule ≠ .err ∧ E.eval expr e.2.rule ≠ .panic ∧
        (E.eval expr e.2.rule = .bool true → endStatus (cb e.1 e.2) = .cont) := by
  induction m with
  | nil => simp [evEntries, endStatus]
  | cons e es ih =>
    rcases e with ⟨k, c⟩
    simp only [evEntries, List.forall_mem_cons]
    cases hE : E.eval expr c.rule with
    | err => simp [endStatus]
    | panic => simp [endStatus]
    | other => simp [ih]
    | bool b =>
      cases b with
      | false => simp [ih]
      | true =>
        simp only [endStatus_append_cont, endStatus_demote, ne_eq, reduceCtorEq,
          not_false_eq_true, true_and, forall_const, ih]

theorem evEntries_of_cont (E : Evaluator) (expr : Str) (cb : Str → Node → List Ev)
    (m : GoMap Str Node) (h : endStatus (evEntries E expr cb m) = .cont) :
    evEntries E expr cb m =
      m.flatMap (fun e => if E.eval expr e.2.rule = .bool true then cb e.1 e.2 else []) := by
  induction m with
  | nil => simp [evEntries]
  | cons e es ih =>
    rcases e with ⟨k, c⟩
    have h' := (evEntries_cont_iff E expr cb _).1 h
    simp only [List.forall_mem_cons] at h'
    have htail := ih ((evEntries_cont_iff E expr cb es).2 h'.2)
    simp only [evEntries, List.flatMap_cons]
    cases hE : E.eval expr c.rule with
    | err => exact absurd hE h'.1.1
    | panic => exact absurd hE h'.1.2.1
    | other => simp [htail]
    | bool b =>
      cases b with
      | false => simp [htail]
      | true => simp [htail, demote_of_cont (h'.1.2.2 hE)]

theorem perm_flatMap_congr {α β : Type} {l l' : List α} {f g : α → List β} (h : l'.Perm l)
    (hfg : ∀ a ∈ l, (g a).Perm (f a)) : (l'.flatMap g).Perm (l.flatMap f) := by
  refine (h.flatMap_right g).trans ?_
  clear h
  induction l with
  | nil => simp
  | cons a l ih =>
    simp only [List.flatMap_cons]
    exact (hfg a (by simp)).append (ih (fun b hb => hfg b (by simp [hb])))

theorem evEntries_perm (E : Evaluator) (expr : Str) (cb cb' : Str → Node → List Ev)
    (m m' : GoMap Str Node) (hm : m'.Perm m) (h : endStatus (evEntries E expr cb m) = .cont)
    (hcb : ∀ e ∈ m, endStatus (cb e.1 e.2) = .cont → (cb' e.1 e.2).Perm (cb e.1 e.2)) :
    (evEntries E expr cb' m').Perm (evEntries E expr cb m) := by
  have h1 := (evEntries_cont_iff E expr cb m).1 h
  have h2 : endStatus (evEntries E expr cb' m') = .cont := by
    rw [evEntries_cont_iff]
    intro e he
    have he' := hm.mem_iff.1 he
    refine ⟨(h1 e he').1, (h1 e he').2.1, fun ht => ?_⟩
    have := (h1 e he').2.2 ht
    exact endStatus_perm (hcb e he' this).symm this
  rw [evEntries_of_cont _ _ _ _ h, evEntries_of_cont _ _ _ _ h2]
  refine perm_flatMap_congr hm ?_
  intro e he
  split
  · rename_i ht
    exact hcb e he ((h1 e he).2.2 ht)
  · exact List.Perm.refl _

theorem entriesOf_perm (nargs : Nat) {ord ord' : Order} (h : ord.Valid) (h' : ord'.Valid)
    (path : List (Nat × Str)) (i : Nat) (m : GoMap Str Node) :
    (entriesOf nargs ord' path i m).Perm (entriesOf nargs ord path i m) := by
  unfold entriesOf
  split
  · exact List.Perm.refl _
  · exact (h' path i m).trans (h path i m).symm

mutual
theorem evStage_perm (E : Evaluator) (nargs : Nat) {ord ord' : Order} (hv : ord.Valid)
    (hv' : ord'.Valid) : ∀ (st : Stage) (path : List (Nat × Str)) (node : Node),
    endStatus (evStage E nargs ord st path node) = .cont →
    (evStage E nargs ord' st path node).Perm (evStage E nargs ord st path node)
  | .mk _ cs, path, node, h => by
    simp only [evStage] at h ⊢
    exact evChildren_perm E nargs hv hv' cs 0 path node h
theorem evChildren_perm (E : Evaluator) (nargs : Nat) {ord ord' : Order} (hv : ord.Valid)
    (hv' : ord'.Valid) : ∀ (cs : List Stage) (i : Nat) (path : List (Nat × Str)) (node : Node),
    endStatus (evChildren E nargs ord cs i path node) = .cont →
    (evChildren E nargs ord' cs i path node).Perm (evChildren E nargs ord cs i path node)
  | [], _, _, _, _ => by simp [evChildren]
  | st :: rest, i, path, node, h => by
    simp only [evChildren] at h ⊢
    cases hm : node.children[i]? with
    | none => simp
    | some m =>
      simp only [hm] at h ⊢
      split
      · simp
      · rename_i hc
        rw [if_neg hc, endStatus_append_cont] at h
        refine List.Perm.append ?_ (evChildren_perm E nargs hv hv' rest (i+1) path node h.2)
        refine evEntries_perm E st.expr _ _ _ _ (entriesOf_perm nargs hv hv' path i m) h.1 ?_
        intro e he hcont
        refine List.Perm.append (List.Perm.refl _) ?_
        refine evStage_perm E nargs hv hv' st _ e.2 ?_
        rw [endStatus_append_cont] at hcont
        exact hcont.2
end

theorem events_perm (m : Matcher) (E : Evaluator) {ord ord' : Order} (hv : ord.Valid)
    (hv' : ord'.Valid) (h : endStatus (m.events E ord) = .cont) :
    (m.events E ord').Perm (m.events E ord) :=
  evStage_perm E _ hv hv' _ _ _ h

theorem visits_perm {a b : List Ev} (h : a.Perm b) (hb : endStatus b = .cont) :
    (visits a).Perm (visits b) := by
  have ha := endStatus_perm h.symm hb
  rw [endStatus_cont_iff] at ha hb
  have hfm : ∀ l : List Rule,
      (l.map Ev.visit).filterMap (fun e => match e with | .visit r => some r | _ => none) = l := by
    intro l
    induction l with
    | nil => rfl
    | cons a l ih => simp only [List.map_cons, List.filterMap_cons, ih]
  have := h.filterMap (fun e => match e with | .visit r => some r | _ => none)
  rw [ha, hb, hfm, hfm] at this
  exact this

/-! ## Decisions -/

theorem sa_ne_nd : SOME_ALLOW ≠ NO_DENY := by decide
theorem sa_ne_sand : SOME_ALLOW ≠ SOME_ALLOW_NO_DENY := by decide
theorem nd_ne_sand : NO_DENY ≠ SOME_ALLOW_NO_DENY := by decide

/-- Final outcome when no decision was reached during the traversal. -/
def finishStatus (st : Status) (b : Bool) : Res Bool :=
  match st with
  | .panic => .panic
  | .err => .err
  | _ => .ok b

theorem enforce_someAllow_aux (pDef : PolicyDef) (key : Str) (es : List Ev) (s : EnfState)
    (h1 : s.res = .indeterminate) (h2 : s.eftErr = false) :
    enforceFinish SOME_ALLOW
      (consume (fun s rule => enforceVisit pDef SOME_ALLOW s (key :: rule)) es s) =
      if ∃ r ∈ visits es, pDef.getEft (key :: r) = .allow then .ok true
      else finishStatus (endStatus es) false := by
  induction es generalizing s with
  | nil =>
    simp [consume, enforceFinish, visits, h1, h2, finishStatus, endStatus, mergeEffects]
  | cons e es ih =>
    cases e with
    | visit r =>
      simp only [consume, visits, endStatus]
      cases he : pDef.getEft (key :: r) with
      | allow =>
        simp [enforceVisit, mergeEffects, he, enforceFinish]
      | indeterminate =>
        have hv : enforceVisit pDef SOME_ALLOW s (key :: r) =
            (⟨.indeterminate, s.effects ++ [pDef.getEft (key :: r)], s.matches_ ++ [key :: r],
              false⟩, true) := by
          simp [enforceVisit, mergeEffects, he]
        simp only [hv, List.mem_cons, exists_eq_or_imp, he, reduceCtorEq, false_or]
        exact ih ⟨.indeterminate, _, _, false⟩ rfl rfl
      | deny =>
        have hv : enforceVisit pDef SOME_ALLOW s (key :: r) =
            (⟨.indeterminate, s.effects ++ [pDef.getEft (key :: r)], s.matches_ ++ [key :: r],
              false⟩, true) := by
          simp [enforceVisit, mergeEffects, he]
        simp only [hv, List.mem_cons, exists_eq_or_imp, he, reduceCtorEq, false_or]
        exact ih ⟨.indeterminate, _, _, false⟩ rfl rfl
    | halt => simp [consume, enforceFinish, visits, endStatus, finishStatus, h1, h2, mergeEffects]
    | fail => simp [consume, enforceFinish, visits, endStatus, finishStatus]
    | panic => simp [consume, enforceFinish, visits, endStatus, finishStatus]

theorem enforce_noDeny_aux (pDef : PolicyDef) (key : Str) (es : List Ev) (s : EnfState)
    (h1 : s.res = .indeterminate) (h2 : s.eftErr = false) :
    enforceFinish NO_DENY
      (consume (fun s rule => enforceVisit pDef NO_DENY s (key :: rule)) es s) =
      if ∃ r ∈ visits es, pDef.getEft (key :: r) = .deny then .ok false
      else finishStatus (endStatus es) true := by
  induction es generalizing s with
  | nil =>
    simp [consume, enforceFinish, visits, h1, h2, finishStatus, endStatus, mergeEffects,
      sa_ne_nd.symm]
  | cons e es ih =>
    cases e with
    | visit r =>
      simp only [consume, visits, endStatus]
      cases he : pDef.getEft (key :: r) with
      | deny =>
        simp [enforceVisit, mergeEffects, he, enforceFinish, sa_ne_nd.symm]
      | indeterminate =>
        have hv : enforceVisit pDef NO_DENY s (key :: r) =
            (⟨.indeterminate, s.effects ++ [pDef.getEft (key :: r)], s.matches_ ++ [key :: r],
              false⟩, true) := by
          simp [enforceVisit, mergeEffects, he, sa_ne_nd.symm]
        simp only [hv, List.mem_cons, exists_eq_or_imp, he, reduceCtorEq, false_or]
        exact ih ⟨.indeterminate, _, _, false⟩ rfl rfl
      | allow =>
        have hv : enforceVisit pDef NO_DENY s (key :: r) =
            (⟨.indeterminate, s.effects ++ [pDef.getEft (key :: r)], s.matches_ ++ [key :: r],
              false⟩, true) := by
          simp [enforceVisit, mergeEffects, he, sa_ne_nd.symm]
        simp only [hv, List.mem_cons, exists_eq_or_imp, he, reduceCtorEq, false_or]
        exact ih ⟨.indeterminate, _, _, false⟩ rfl rfl
    | halt => simp [consume, enforceFinish, visits, endStatus, finishStatus, h1, h2, mergeEffects,
        sa_ne_nd.symm]
    | fail => simp [consume, enforceFinish, visits, endStatus, finishStatus]
    | panic => simp [consume, enforceFinish, visits, endStatus, finishStatus]

theorem enforce_allowNoDeny_aux (pDef : PolicyDef) (key : Str) (es : List Ev) (s : EnfState)
    (h1 : s.res = .indeterminate) (h2 : s.eftErr = false)
    (h3 : s.effects.length = s.matches_.length) :
    enforceFinish SOME_ALLOW_NO_DENY
      (consume (fun s rule => enforceVisit pDef SOME_ALLOW_NO_DENY s (key :: rule)) es s) =
      if ∃ r ∈ visits es, pDef.getEft (key :: r) = .deny then .ok false
      else finishStatus (endStatus es)
        (decide ((s.effects ++ (visits es).map (fun r => pDef.getEft (key :: r))).headD
          .indeterminate = .allow)) := by
  have fin : ∀ s : EnfState, s.res = .indeterminate → s.eftErr = false →
      s.effects.length = s.matches_.length →
      enforceFinish SOME_ALLOW_NO_DENY (s, .cont) =
        .ok (decide (s.effects.headD .indeterminate = .allow)) := by
    intro s h1 h2 h3
    simp only [enforceFinish, h1, h2, Bool.false_eq_true, if_false, if_true, mergeEffects,
      sa_ne_sand.symm, nd_ne_sand.symm]
    split
    · rename_i h
      rw [h] at h3
      simp [List.length_eq_zero_iff.1 h3]
    · rfl
  induction es generalizing s with
  | nil =>
    simp only [consume]
    rw [fin s h1 h2 h3]
    simp [visits, finishStatus, endStatus]
  | cons e es ih =>
    cases e with
    | visit r =>
      simp only [consume, visits, endStatus]
      cases he : pDef.getEft (key :: r) with
      | deny =>
        simp [enforceVisit, mergeEffects, he, enforceFinish, sa_ne_sand.symm, nd_ne_sand.symm]
      | indeterminate =>
        have hv : enforceVisit pDef SOME_ALLOW_NO_DENY s (key :: r) =
            (⟨.indeterminate, s.effects ++ [pDef.getEft (key :: r)], s.matches_ ++ [key :: r],
              false⟩, true) := by
          simp [enforceVisit, mergeEffects, he, sa_ne_sand.symm, nd_ne_sand.symm]
        simp only [hv, List.mem_cons, exists_eq_or_imp, he, reduceCtorEq, false_or]
        rw [ih ⟨.indeterminate, _, _, false⟩ rfl rfl (by simp [h3])]
        simp [he]
      | allow =>
        have hv : enforceVisit pDef SOME_ALLOW_NO_DENY s (key :: r) =
            (⟨.indeterminate, s.effects ++ [pDef.getEft (key :: r)], s.matches_ ++ [key :: r],
              false⟩, true) := by
          simp [enforceVisit, mergeEffects, he, sa_ne_sand.symm, nd_ne_sand.symm]
        simp only [hv, List.mem_cons, exists_eq_or_imp, he, reduceCtorEq, false_or]
        rw [ih ⟨.indeterminate, _, _, false⟩ rfl rfl (by simp [h3])]
        simp [he]
    | halt =>
      have := fin s h1 h2 h3
      simp only [enforceFinish] at this
      simp [consume, enforceFinish, visits, endStatus, finishStatus, this]
    | fail => simp [consume, enforceFinish, visits, endStatus, finishStatus]
    | panic => simp [consume, enforceFinish, visits, endStatus, finishStatus]

theorem enforce_unsupported_aux (pDef : PolicyDef) (key : Str) (expr : Str) (es : List Ev)
    (h1 : expr ≠ SOME_ALLOW) (h2 : expr ≠ NO_DENY) (h3 : expr ≠ SOME_ALLOW_NO_DENY) :
    enforceFinish expr
      (consume (fun s rule => enforceVisit pDef expr s (key :: rule)) es EnfState.init) =
      if visits es = [] then finishStatus (endStatus es) false else .ok false := by
  cases es with
  | nil => simp [consume, enforceFinish, visits, EnfState.init, finishStatus, endStatus,
      mergeEffects, h1, h2, h3]
  | cons e es =>
    cases e with
    | visit r => simp [consume, visits, enforceVisit, mergeEffects, h1, h2, h3, enforceFinish]
    | halt => simp [consume, enforceFinish, visits, EnfState.init, finishStatus, endStatus,
        mergeEffects, h1, h2, h3]
    | fail => simp [consume, enforceFinish, visits, endStatus, finishStatus]
    | panic => simp [consume, enforceFinish, visits, endStatus, finishStatus]

end Fastac
