import Verif.Props.Words
import Verif.Spec.PolicyKey

/-!
# C70: a matcher decides on the policy it names
-/

namespace Fastac

mutual
theorem Stage.recPArgs_texts : ∀ st : Stage, st.recPArgs = st.texts.flatMap findPArgs
  | .mk e cs => by
    rw [Stage.recPArgs, Stage.texts, List.flatMap_cons, Stage.recPArgsList_texts cs]
theorem Stage.recPArgsList_texts : ∀ cs : List Stage, Stage.recPArgsList cs = (Stage.textsIn cs).flatMap findPArgs
  | [] => by rw [Stage.recPArgsList, Stage.textsIn, List.flatMap_nil]
  | c :: cs => by
    rw [Stage.recPArgsList, Stage.textsIn, List.flatMap_append, Stage.recPArgs_texts c,
      Stage.recPArgsList_texts cs]
end

theorem splitC_head (c : Char) (k n : Str) (h : c ∉ k) : (splitC c (k ++ c :: n)).headD [] = k := by
  induction k with
  | nil => simp [splitC]
  | cons a k ih =>
    have ha : a ≠ c := fun e => h (by rw [e]; exact List.mem_cons_self ..)
    have := ih (fun hk => h (List.mem_cons_of_mem _ hk))
    rw [List.cons_append, splitC, if_neg ha]
    cases hs : splitC c (k ++ c :: n) with
    | nil => exact absurd hs (splitC_ne_nil _ _)
    | cons x xs =>
      rw [hs] at this
      simp only [List.headD_cons] at this ⊢
      rw [this]

/-- **C70**, the part that holds: when no identifier of the matcher contains a policy reference strictly
inside it, a matcher all of whose references are to attributes of the policy `k` reads the rules of `k`
(with references to several policies: those of the first one), and a matcher without references those of
`p`. -/
theorem c70_policy_partial (root : Stage)
    (h : ∀ e ∈ root.texts, ∀ w ∈ words e, ∀ u v, w = u ++ v → IsPolicyRef v → u = []) :
    (root.policyRefs = [] → root.policyKey = s% "p") ∧
    (∀ k n, '_' ∉ k → root.policyRefs.head? = some (k ++ '_' :: n) → root.policyKey = k) ∧
    (∀ k, '_' ∉ k → root.policyRefs ≠ [] → (∀ w ∈ root.policyRefs, ∃ n, w = k ++ '_' :: n) →
      root.policyKey = k) := by
  have hargs : root.recPArgs = root.policyRefs := by
    rw [Stage.recPArgs_texts]
    unfold Stage.policyRefs
    generalize root.texts = l at h ⊢
    induction l with
    | nil => rfl
    | cons e l ih =>
      rw [List.flatMap_cons, List.flatMap_cons, ih (fun e' he' => h e' (List.mem_cons_of_mem _ he'))]
      congr 1
      exact c16_stage_args_partial (Stage.mk e []) (h e (List.mem_cons_self ..))
  have hhead : ∀ k n, '_' ∉ k → root.policyRefs.head? = some (k ++ '_' :: n) → root.policyKey = k := by
    intro k n hk hr
    unfold Stage.policyKey
    rw [hargs]
    cases hp : root.policyRefs with
    | nil => rw [hp] at hr; cases hr
    | cons a l =>
      rw [hp] at hr
      cases hr
      exact splitC_head '_' k n hk
  refine ⟨?_, hhead, ?_⟩
  · intro hr
    unfold Stage.policyKey
    rw [hargs, hr]
  · intro k hk hne hall
    cases hp : root.policyRefs with
    | nil => exact absurd hp hne
    | cons a l =>
      obtain ⟨n, hn⟩ := hall a (by rw [hp]; exact List.mem_cons_self ..)
      exact hhead k n hk (by rw [hp, hn]; rfl)

/-- the stages of `(r2.sub == p2.sub || r2.sub == "root") && r2.act == p2.act` -/
def PolicyKeyExample.root : Stage :=
  .mk [] [.mk (s% "r2_sub == p2_sub") [.mk (s% "r2_act == p2_act") []],
    .mk (s% "r2_sub == \"root\"") [.mk (s% "r2_act == p2_act") []]]

example : (∀ e ∈ PolicyKeyExample.root.texts, ∀ w ∈ words e, ∀ u v, w = u ++ v → IsPolicyRef v → u = []) ∧
    PolicyKeyExample.root.policyRefs = [s% "p2_sub", s% "p2_act", s% "p2_act"] ∧
    PolicyKeyExample.root.policyKey = s% "p2" := by
  refine ⟨?_, by decide, by decide⟩
  have : ∀ e ∈ PolicyKeyExample.root.texts,
      (words e).all (fun w => noTailRef (fun c => c == 'p' || c == 'g') w.tail) = true := by decide
  exact fun e he => noInnerRef_of _ _ (this e he)

/-- **C70 fails**: every reference to a policy in `r.group_id == p2.sub` is to `p2`, but the matcher reads
the rules of `p`, because `p_id` is found inside `r_group_id`. -/
theorem c70_fails :
    (Stage.mk [] [.mk (s% "r_group_id == p2_sub") []]).policyRefs = [s% "p2_sub"] ∧
    (Stage.mk [] [.mk (s% "r_group_id == p2_sub") []]).policyKey = s% "p" := by decide

end Fastac
