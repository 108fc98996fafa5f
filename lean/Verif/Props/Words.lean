import Verif.Lemmas.Words
import Verif.Model.Matcher

/-!
# C16: the attributes extracted from a stage
-/

namespace Fastac

/-- **C16**, the part that holds: when no identifier of a stage expression contains a policy
reference strictly inside it, the attributes extracted from the stage are exactly its identifiers
that are policy references, in order.  Missing: see `c16_fails`. -/
theorem c16_stage_args_partial (st : Stage)
    (h : ∀ w ∈ words st.expr, ∀ u v, w = u ++ v → IsPolicyRef v → u = []) :
    st.pArgs = (words st.expr).filter (fun w => decide (IsPolicyRef w)) := by
  have hd : ∀ w, decide (IsPolicyRef w) = isRefB (fun c => c == 'p' || c == 'g') w := by
    intro w
    rw [Bool.eq_iff_iff, decide_eq_true_iff, isRefB_iff]
  have := findArgs_wordsFrom (fun c => c == 'p' || c == 'g')
    (by intro c hc
        simp only [Bool.or_eq_true, beq_iff_eq] at hc
        rcases hc with rfl | rfl <;> decide)
    st.expr [] (by simp) (fun w hw u v e hv => h w hw u v e ((isRefB_iff _ _).1 hv))
  simp only [List.nil_append] at this
  unfold Stage.pArgs findPArgs words
  rw [show (fun w => decide (IsPolicyRef w)) = isRefB (fun c => c == 'p' || c == 'g') from funext hd]
  exact this

/-- **C16**, request side, likewise. -/
theorem c16_request_args_partial (st : Stage)
    (h : ∀ w ∈ words st.expr, ∀ u v, w = u ++ v → IsRequestRef v → u = []) :
    st.rArgs = (words st.expr).filter (fun w => decide (IsRequestRef w)) := by
  have hd : ∀ w, decide (IsRequestRef w) = isRefB (fun c => c == 'r') w := by
    intro w
    rw [Bool.eq_iff_iff, decide_eq_true_iff, isRefB_iff]
  have := findArgs_wordsFrom (fun c => c == 'r')
    (by intro c hc
        simp only [beq_iff_eq] at hc
        subst hc; decide)
    st.expr [] (by simp) (fun w hw u v e hv => h w hw u v e ((isRefB_iff _ _).1 hv))
  simp only [List.nil_append] at this
  unfold Stage.rArgs findRArgs words
  rw [show (fun w => decide (IsRequestRef w)) = isRefB (fun c => c == 'r') from funext hd]
  exact this

/-- No tail of the text is a reference. -/
def noTailRef (start : Char → Bool) : Str → Bool
  | [] => true
  | c :: t => !isRefB start (c :: t) && noTailRef start t

/-- The hypothesis in executable form, for the examples. -/
theorem noInnerRef_of (start : Char → Bool) (s : Str)
    (h : (words s).all (fun w => noTailRef start w.tail) = true) :
    ∀ w ∈ words s, ∀ u v, w = u ++ v → IsRef start v → u = [] := by
  have tails : ∀ u v : Str, noTailRef start (u ++ v) = true → isRefB start v = false := by
    intro u
    induction u with
    | nil =>
      intro v h
      cases v with
      | nil => rfl
      | cons c t =>
        simp only [List.nil_append, noTailRef, Bool.and_eq_true, Bool.not_eq_true'] at h
        exact h.1
    | cons c u ih =>
      intro v h
      simp only [List.cons_append, noTailRef, Bool.and_eq_true] at h
      exact ih v h.2
  intro w hw u v e hv
  cases u with
  | nil => rfl
  | cons c u =>
    have h1 := List.all_eq_true.1 h w hw
    rw [e, List.cons_append, List.tail_cons] at h1
    have h2 := tails u v h1
    rw [(isRefB_iff _ _).2 hv] at h2
    exact absurd h2 (by simp)

example : (∀ w ∈ words (s% "g(r_sub, p2_sub_name) == g2_x"), ∀ u v, w = u ++ v →
      IsPolicyRef v → u = []) ∧
    (words (s% "g(r_sub, p2_sub_name) == g2_x")).filter (fun w => decide (IsPolicyRef w)) =
      [s% "p2_sub_name", s% "g2_x"] :=
  ⟨noInnerRef_of _ _ (by decide), by decide⟩

/-- **C16 fails**: in `r_group_id == p_sub` the only policy reference is `p_sub`, but `p_id` is
extracted as well; in `user_id == r_sub` the only request reference is `r_sub`, but `r_id` is
extracted as well. -/
theorem c16_fails :
    (words (s% "r_group_id == p_sub")).filter (fun w => decide (IsPolicyRef w)) = [s% "p_sub"] ∧
    (Stage.mk (s% "r_group_id == p_sub") []).pArgs = [s% "p_id", s% "p_sub"] ∧
    (words (s% "user_id == r_sub")).filter (fun w => decide (IsRequestRef w)) = [s% "r_sub"] ∧
    (Stage.mk (s% "user_id == r_sub") []).rArgs = [s% "r_id", s% "r_sub"] := by decide

end Fastac
