import Verif.Lemmas.Enforce
import Verif.Spec.OwnEffector

/-!
# Lemmas: effectors of the caller
-/

namespace Fastac

theorem stepCalls_succ (pDef : PolicyDef) (rs : List Rule) (k : Nat) :
    stepCalls pDef rs (k + 1) = stepCalls pDef rs k ++ [stepCall pDef rs k] := by
  unfold stepCalls
  rw [List.range_succ, List.map_append]
  rfl

theorem stepCall_prefix (pDef : PolicyDef) (rs t : List Rule) {i : Nat} (h : i < rs.length) :
    stepCall pDef (rs ++ t) i = stepCall pDef rs i := by
  unfold stepCall
  rw [List.take_append_of_le_length (by omega)]

theorem stepCalls_prefix (pDef : PolicyDef) (rs t : List Rule) {k : Nat} (h : k ≤ rs.length) :
    stepCalls pDef (rs ++ t) k = stepCalls pDef rs k := by
  unfold stepCalls
  apply List.map_congr_left
  intro i hi
  exact stepCall_prefix pDef rs t (by rw [List.mem_range] at hi; omega)

/-- What the traversal leaves behind, from a state in which the rules `seen` have been gathered. -/
theorem own_consume (pDef : PolicyDef) (key : Str) (eff : OwnEffector) (past : List MergeCall) :
    ∀ (es : List Ev) (seen : List Rule) (s : OwnState),
    s = ⟨.indeterminate, seen.map pDef.getEft, seen, false, past ++ stepCalls pDef seen seen.length, false⟩ →
    let rs := seen ++ (visits es).map (key :: ·)
    let out := ownFinish eff (consume (fun s rule => ownVisit pDef eff s (key :: rule)) es s)
    (∃ k, seen.length ≤ k ∧ k < rs.length ∧
      (∀ i, seen.length ≤ i → i < k → eff (past ++ stepCalls pDef rs (i + 1)) = .ans .indeterminate false) ∧
      eff (past ++ stepCalls pDef rs (k + 1)) ≠ .ans .indeterminate false ∧
      out.1 = past ++ stepCalls pDef rs (k + 1) ∧ out.2 = (eff (past ++ stepCalls pDef rs (k + 1))).early) ∨
    ((∀ i, seen.length ≤ i → i < rs.length → eff (past ++ stepCalls pDef rs (i + 1)) = .ans .indeterminate false) ∧
      match endStatus es with
      | .err => out = (past ++ stepCalls pDef rs rs.length, .err)
      | .panic => out = (past ++ stepCalls pDef rs rs.length, .panic)
      | _ => out = (past ++ stepCalls pDef rs rs.length ++ [lastCall pDef rs],
          (eff (past ++ stepCalls pDef rs rs.length ++ [lastCall pDef rs])).final)) := by
  intro es
  induction es with
  | nil =>
    intro seen s hs
    right
    subst hs
    simp only [visits, List.map_nil, List.append_nil, endStatus, consume, ownFinish]
    refine ⟨fun i h1 h2 => absurd h2 (by omega), ?_⟩
    simp only [Bool.false_eq_true, if_false, if_true]
    unfold lastCall
    split
    · next h => simp only [h]; rfl
    · next h => simp only [h]; rfl
  | cons e es ih =>
    intro seen s hs
    cases e with
    | visit r =>
      simp only [visits, List.map_cons, endStatus]
      have hrs : seen ++ (key :: r) :: (visits es).map (key :: ·) =
          (seen ++ [key :: r]) ++ (visits es).map (key :: ·) := by simp
      have hcalls : s.calls ++ [⟨s.effects ++ [pDef.getEft (key :: r)], s.matches_ ++ [key :: r], false⟩] =
          past ++ stepCalls pDef (seen ++ [key :: r]) (seen.length + 1) := by
        rw [stepCalls_succ, stepCalls_prefix _ _ _ (Nat.le_refl _)]
        subst hs
        simp only [List.append_assoc]
        congr 3
        unfold stepCall
        rw [List.take_of_length_le (by simp)]
        simp
      have hstep : past ++ stepCalls pDef (seen ++ (key :: r) :: (visits es).map (key :: ·)) (seen.length + 1) =
          past ++ stepCalls pDef (seen ++ [key :: r]) (seen.length + 1) := by
        rw [hrs, stepCalls_prefix _ _ _ (by simp)]
      cases ha : eff (past ++ stepCalls pDef (seen ++ [key :: r]) (seen.length + 1)) with
      | panic =>
        left
        refine ⟨seen.length, Nat.le_refl _, by simp, fun i h1 h2 => absurd h2 (by omega), ?_, ?_, ?_⟩
        · rw [hstep, ha]; simp
        · simp only [consume, ownVisit, hcalls, ha, ownFinish, hstep, if_true]
        · simp only [consume, ownVisit, hcalls, ha, ownFinish, hstep, if_true, MergeAns.early]
      | ans e isErr =>
        by_cases hd : isErr = true ∨ e ≠ .indeterminate
        · left
          refine ⟨seen.length, Nat.le_refl _, by simp, fun i h1 h2 => absurd h2 (by omega), ?_, ?_, ?_⟩
          · rw [hstep, ha]
            intro x
            cases x
            simp at hd
          all_goals
            simp only [consume, ownVisit, hcalls, ha, ownFinish, hstep, hd, if_true, MergeAns.early, Bool.false_eq_true, if_false]
            cases isErr with
            | true => simp
            | false =>
              simp only [Bool.false_eq_true, false_or, ne_eq] at hd
              simp [hd]
        · have hu : e = .indeterminate ∧ isErr = false := by
            constructor
            · by_cases he : e = .indeterminate
              · exact he
              · exact absurd (.inr he) hd
            · cases isErr with
              | false => rfl
              | true => exact absurd (.inl rfl) hd
          obtain ⟨rfl, rfl⟩ := hu
          have := ih (seen ++ [key :: r])
            ⟨.indeterminate, (seen ++ [key :: r]).map pDef.getEft, seen ++ [key :: r], false,
              past ++ stepCalls pDef (seen ++ [key :: r]) (seen ++ [key :: r]).length, false⟩ rfl
          have hv : ownVisit pDef eff s (key :: r) =
              (⟨.indeterminate, (seen ++ [key :: r]).map pDef.getEft, seen ++ [key :: r], false,
              past ++ stepCalls pDef (seen ++ [key :: r]) (seen ++ [key :: r]).length, false⟩, true) := by
            simp only [ownVisit, hcalls, ha, hd, if_false]
            subst hs
            simp
          simp only [consume, hv]
          simp only [← hrs] at this
          rcases this with ⟨k, h1, h2, h3, h4, h5, h6⟩ | ⟨h1, h2⟩
          · left
            refine ⟨k, by simp at h1; omega, h2, ?_, h4, h5, h6⟩
            intro i hi1 hi2
            by_cases e : i = seen.length
            · rw [e, hstep, ha]
            · exact h3 i (by simp; omega) hi2
          · right
            refine ⟨?_, h2⟩
            intro i hi1 hi2
            by_cases e : i = seen.length
            · rw [e, hstep, ha]
            · exact h1 i (by simp; omega) hi2
    | halt =>
      right
      subst hs
      simp only [visits, List.map_nil, List.append_nil, endStatus, consume, ownFinish]
      refine ⟨fun i h1 h2 => absurd h2 (by omega), ?_⟩
      simp only [Bool.false_eq_true, if_false, if_true]
      unfold lastCall
      split
      · next h => simp only [h]; rfl
      · next h => simp only [h]; rfl
    | fail =>
      right
      subst hs
      simp only [visits, List.map_nil, List.append_nil, endStatus, consume, ownFinish]
      exact ⟨fun i h1 h2 => absurd h2 (by omega), by simp⟩
    | panic =>
      right
      subst hs
      simp only [visits, List.map_nil, List.append_nil, endStatus, consume, ownFinish]
      exact ⟨fun i h1 h2 => absurd h2 (by omega), by simp⟩

/-- The default effector, as an effector of the caller, leads to the same result. -/
theorem own_default (pDef : PolicyDef) (key expr : Str) : ∀ (es : List Ev) (s : OwnState) (t : EnfState),
    s.panicked = false → s.res = t.res → s.effects = t.effects → s.matches_ = t.matches_ → s.eftErr = t.eftErr →
    (ownFinish (.default expr) (consume (fun s rule => ownVisit pDef (.default expr) s (key :: rule)) es s)).2 =
      enforceFinish expr (consume (fun s rule => enforceVisit pDef expr s (key :: rule)) es t) := by
  have last : ∀ (cs : List MergeCall) c, OwnEffector.default expr (cs ++ [c]) =
      .ans (mergeEffects expr c.effects c.matches_ c.complete).effect (mergeEffects expr c.effects c.matches_ c.complete).isErr := by
    intro cs c
    unfold OwnEffector.default
    rw [List.getLast?_append]
    rfl
  have fin : ∀ (s : OwnState) (t : EnfState) (st : Status), s.panicked = false → s.res = t.res → s.effects = t.effects →
      s.matches_ = t.matches_ → s.eftErr = t.eftErr →
      (ownFinish (.default expr) (s, st)).2 = enforceFinish expr (t, st) := by
    intro s t st h1 h2 h3 h4 h5
    unfold ownFinish
    simp only [h1, Bool.false_eq_true, if_false, h2, h3, h4, h5, last]
    cases st with
    | err => rfl
    | panic => rfl
    | cont =>
      simp only [enforceFinish]
      cases t.eftErr with
      | true => rfl
      | false => by_cases hr : t.res = .indeterminate <;> simp [hr]
    | stop =>
      simp only [enforceFinish]
      cases t.eftErr with
      | true => rfl
      | false => by_cases hr : t.res = .indeterminate <;> simp [hr]
  intro es
  induction es with
  | nil => intro s t h1 h2 h3 h4 h5; exact fin s t .cont h1 h2 h3 h4 h5
  | cons e es ih =>
    intro s t h1 h2 h3 h4 h5
    cases e with
    | visit r =>
      have hv : ∃ s' t' b, ownVisit pDef (.default expr) s (key :: r) = (s', b) ∧ enforceVisit pDef expr t (key :: r) = (t', b) ∧
          s'.panicked = false ∧ s'.res = t'.res ∧ s'.effects = t'.effects ∧ s'.matches_ = t'.matches_ ∧ s'.eftErr = t'.eftErr := by
        simp only [ownVisit, enforceVisit, last, h3, h4]
        by_cases hd : (mergeEffects expr (t.effects ++ [pDef.getEft (key :: r)]) (t.matches_ ++ [key :: r]) false).isErr = true ∨
            (mergeEffects expr (t.effects ++ [pDef.getEft (key :: r)]) (t.matches_ ++ [key :: r]) false).effect ≠ .indeterminate
        · simp only [hd, if_true]
          exact ⟨_, _, _, rfl, rfl, rfl, rfl, rfl, rfl, rfl⟩
        · simp only [hd, if_false]
          exact ⟨_, _, _, rfl, rfl, rfl, rfl, rfl, rfl, rfl⟩
      obtain ⟨s', t', b, e1, e2, k1, k2, k3, k4, k5⟩ := hv
      simp only [consume, e1, e2]
      cases b with
      | true => exact ih s' t' k1 k2 k3 k4 k5
      | false => exact fin s' t' .stop k1 k2 k3 k4 k5
    | halt => exact fin s t .stop h1 h2 h3 h4 h5
    | fail => exact fin s t .err h1 h2 h3 h4 h5
    | panic => exact fin s t .panic h1 h2 h3 h4 h5

end Fastac
