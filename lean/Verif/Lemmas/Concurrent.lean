import Verif.Model.Concurrent

/-!
# Results of programs that share state
-/

namespace Fastac

namespace Prog

/-- The program returns `a` whatever it is told, where `cur` is the rule last written.  If `free` does
not hold, only answers are considered that a call gets which is not disturbed by others. -/
def Returns {α : Type} (me : Nat) (free : Prop) (a : α) : Rule → Prog α → Prop
  | _, .done b => b = a
  | cur, .setEval p => p.Returns me free a cur
  | cur, .getEval k => ∀ o, (free ∨ o = me) → (k o).Returns me free a cur
  | _, .setRule r p => p.Returns me free a r
  | cur, .getOwn k => (k cur).Returns me free a cur
  | cur, .getRule o k => ∀ r, (free ∨ (o = me → r = cur)) → (k r).Returns me free a cur

theorem Returns.bind {α β : Type} {me : Nat} {free : Prop} {a : α} {b : β} {f : α → Prog β}
    (hf : ∀ cur, (f a).Returns me free b cur) : ∀ (p : Prog α) (cur : Rule), p.Returns me free a cur →
    (p.bind f).Returns me free b cur
  | .done c, cur, h => by
    simp only [Returns] at h
    subst h
    exact hf cur
  | .setEval p, cur, h => Returns.bind hf p cur h
  | .getEval k, cur, h => fun o ho => Returns.bind hf (k o) cur (h o ho)
  | .setRule r p, _, h => Returns.bind hf p r h
  | .getOwn k, cur, h => Returns.bind hf (k cur) cur h
  | .getRule o k, cur, h => fun r hr => Returns.bind hf (k r) cur (h r hr)

end Prog

theorem rangeEntriesP_returns {σ : Type} {E : SharedEvaluator} {me : Nat} {free : Prop}
    (hE : free → ∀ e r o r', E.eval e r o r' = E.eval e r me r) (expr : Str) (o : Nat)
    (ho : free ∨ o = me) (cbP : Str → Node → σ → Prog (σ × Status)) (cb : Str → Node → σ → σ × Status)
    (hcb : ∀ k n s cur, (cbP k n s).Returns me free (cb k n s) cur) :
    ∀ (es : GoMap Str Node) (s : σ) (cur : Rule),
      (rangeEntriesP E expr o cbP es s).Returns me free (rangeEntries (E.alone me) expr cb es s) cur
  | [], s, cur => rfl
  | (k, child) :: es, s, cur => by
    intro r' hr'
    have he : E.eval expr child.rule o r' = (E.alone me).eval expr child.rule := by
      rcases ho with hf | ho
      · exact hE hf _ _ _ _
      · rcases hr' with hf | hr'
        · exact hE hf _ _ _ _
        · rw [hr' ho, ho]; rfl
    have ih := fun s cur => rangeEntriesP_returns hE expr o ho cbP cb hcb es s cur
    simp only [rangeEntries, he]
    cases (E.alone me).eval expr child.rule with
    | err => rfl
    | panic => rfl
    | other => exact ih _ _
    | bool b =>
      cases b with
      | false => exact ih _ _
      | true =>
        refine Prog.Returns.bind (a := cb k child s) ?_ _ _ (hcb k child s _)
        intro cur'
        obtain ⟨s', st⟩ := cb k child s
        cases st with
        | cont => exact ih _ _
        | panic => rfl
        | stop => rfl
        | err => rfl

mutual
theorem rangeStageP_returns {σ : Type} {E : SharedEvaluator} {me : Nat} {free : Prop}
    (hE : free → ∀ e r o r', E.eval e r o r' = E.eval e r me r) (nargs : Nat) (ord : Order)
    (fn : σ → Rule → σ × Bool) : ∀ (st : Stage) (path : List (Nat × Str)) (node : Node) (s : σ)
      (cur : Rule), (rangeStageP E nargs ord fn st path node s).Returns me free
        (rangeStage (E.alone me) nargs ord fn st path node s) cur
  | .mk _ cs, path, node, s, cur => by
    simp only [rangeStageP, rangeStage]
    exact rangeChildrenP_returns hE nargs ord fn cs 0 path node s cur
theorem rangeChildrenP_returns {σ : Type} {E : SharedEvaluator} {me : Nat} {free : Prop}
    (hE : free → ∀ e r o r', E.eval e r o r' = E.eval e r me r) (nargs : Nat) (ord : Order)
    (fn : σ → Rule → σ × Bool) : ∀ (cs : List Stage) (i : Nat) (path : List (Nat × Str)) (node : Node)
      (s : σ) (cur : Rule), (rangeChildrenP E nargs ord fn cs i path node s).Returns me free
        (rangeChildren (E.alone me) nargs ord fn cs i path node s) cur
  | [], _, _, _, s, cur => by simp only [rangeChildrenP, rangeChildren]; rfl
  | st :: rest, i, path, node, s, cur => by
    simp only [rangeChildrenP, rangeChildren]
    cases hm : node.children[i]? with
    | none => rfl
    | some m =>
      intro o ho
      have hc : (E.alone me).compiles st.expr = E.compiles st.expr := rfl
      simp only [hc]
      by_cases hcomp : E.compiles st.expr = false
      · rw [if_pos hcomp, if_pos hcomp]; rfl
      · rw [if_neg hcomp, if_neg hcomp]
        have hcb : ∀ (k : Str) (child : Node) (s : σ) (cur' : Rule), Prog.Returns me free
            (match (if st.isLeaf then fn s child.rule else (s, true)) with
            | (s', false) => (s', Status.stop)
            | (s', true) =>
              match rangeStage (E.alone me) nargs ord fn st (path ++ [(i, k)]) child s' with
              | (s'', .cont) => (s'', .cont)
              | (s'', .panic) => (s'', .panic)
              | (s'', _) => (s'', .stop)) cur'
            (match (if st.isLeaf then fn s child.rule else (s, true)) with
            | (s', false) => Prog.done (s', Status.stop)
            | (s', true) =>
              (rangeStageP E nargs ord fn st (path ++ [(i, k)]) child s').bind fun
                | (s'', .cont) => .done (s'', .cont)
                | (s'', .panic) => .done (s'', .panic)
                | (s'', _) => .done (s'', .stop)) := by
          intro k child s cur'
          obtain ⟨s', b⟩ := (if st.isLeaf then fn s child.rule else (s, true))
          cases b with
          | false => rfl
          | true =>
            refine Prog.Returns.bind ?_ _ _
              (rangeStageP_returns hE nargs ord fn st (path ++ [(i, k)]) child s' cur')
            intro cur''
            dsimp only
            obtain ⟨s'', stt⟩ := rangeStage (E.alone me) nargs ord fn st (path ++ [(i, k)]) child s'
            cases stt <;> rfl
        have hall := rangeEntriesP_returns hE st.expr o ho _ _ hcb
          (if m.isEmpty then [([], newNode (List.replicate nargs []))] else ord path i m) s cur
        refine Prog.Returns.bind ?_ _ _ hall
        intro cur'
        generalize rangeEntries (E.alone me) st.expr _ _ s = res
        obtain ⟨s', stt⟩ := res
        cases stt with
        | cont => exact rangeChildrenP_returns hE nargs ord fn rest (i+1) path node s' cur'
        | panic => rfl
        | stop => rfl
        | err => rfl
end

theorem enforceP_returns {E : SharedEvaluator} {me : Nat} {free : Prop}
    (hE : free → ∀ e r o r', E.eval e r o r' = E.eval e r me r) (m : Matcher) (pDef : PolicyDef)
    (ord : Order) (expr : Str) (cur : Rule) :
    ∃ p, enforceP m pDef E ord expr = .setEval p ∧
      p.Returns me free (enforce m pDef (E.alone me) ord expr) cur :=
  ⟨_, rfl, by
    refine Prog.Returns.bind (fun _ => ?_) _ _ (rangeStageP_returns hE _ _ _ _ _ _ _ _)
    rfl⟩

/-! ## Schedules -/

theorem put_same {β : Type} (f : Nat → β) (i : Nat) (b : β) : put f i b i = b := by simp [put]

theorem put_other {β : Type} (f : Nat → β) {i j : Nat} (b : β) (h : j ≠ i) : put f i b j = f j := by
  simp [put, h]

theorem World.step_other {α : Type} (w : World α) {i me : Nat} (h : i ≠ me) :
    (w.step i).progs me = w.progs me := by
  unfold World.step
  cases w.progs i with
  | done a => rfl
  | setEval p => exact put_other _ _ (Ne.symm h)
  | getEval k => exact put_other _ _ (Ne.symm h)
  | setRule r p => exact put_other _ _ (Ne.symm h)
  | getOwn k => exact put_other _ _ (Ne.symm h)
  | getRule o k => exact put_other _ _ (Ne.symm h)

theorem World.step_other_rules {α : Type} (w : World α) {i me : Nat} (h : i ≠ me) :
    (w.step i).rules me = w.rules me := by
  unfold World.step
  cases w.progs i with
  | setRule r p => exact put_other _ _ (Ne.symm h)
  | _ => rfl

/-- A program that returns `a` under any answers still does after any step of any call. -/
theorem World.step_returns {α : Type} {me : Nat} {a : α} (w : World α) (i : Nat)
    (h : (w.progs me).Returns me True a (w.rules me)) :
    ((w.step i).progs me).Returns me True a ((w.step i).rules me) := by
  by_cases hi : i = me
  · subst hi
    unfold World.step
    cases hp : w.progs i with
    | done b => rw [hp] at h; simp only [hp]; exact h
    | setEval p => rw [hp] at h; simp only [put_same]; exact h
    | getEval k => rw [hp] at h; simp only [put_same]; exact h _ (Or.inl trivial)
    | setRule r p => rw [hp] at h; simp only [put_same]; exact h
    | getOwn k => rw [hp] at h; simp only [put_same]; exact h
    | getRule o k => rw [hp] at h; simp only [put_same]; exact h _ (Or.inl trivial)
  · rw [World.step_other w hi, World.step_other_rules w hi]; exact h

theorem World.run_returns {α : Type} {me : Nat} {a : α} : ∀ (sched : List Nat) (w : World α),
    (w.progs me).Returns me True a (w.rules me) →
    ((w.run sched).progs me).Returns me True a ((w.run sched).rules me)
  | [], _, h => h
  | i :: sched, w, h => World.run_returns sched (w.step i) (w.step_returns i h)

/-- The state of a call that is alone after its first step: the stored function is its own. -/
theorem World.alone_returns {α : Type} {me : Nat} {a : α} : ∀ (n : Nat) (w : World α),
    w.owner = me → (w.progs me).Returns me False a (w.rules me) →
    ((w.run (List.replicate n me)).progs me).Returns me False a
      ((w.run (List.replicate n me)).rules me)
  | 0, _, _, h => h
  | n + 1, w, ho, h => by
    simp only [List.replicate_succ, World.run]
    refine World.alone_returns n (w.step me) ?_ ?_
    · unfold World.step
      cases w.progs me <;> simp [ho]
    · unfold World.step
      cases hp : w.progs me with
      | done b => rw [hp] at h; simp only [hp]; exact h
      | setEval p => rw [hp] at h; simp only [put_same]; exact h
      | getEval k => rw [hp] at h; simp only [put_same]; exact h _ (Or.inr ho)
      | setRule r p => rw [hp] at h; simp only [put_same]; exact h
      | getOwn k => rw [hp] at h; simp only [put_same]; exact h
      | getRule o k =>
        rw [hp] at h; simp only [put_same]; exact h _ (Or.inr (fun e => by rw [e]))

theorem World.run_append {α : Type} : ∀ (a b : List Nat) (w : World α),
    w.run (a ++ b) = (w.run a).run b
  | [], _, _ => rfl
  | i :: a, b, w => World.run_append a b (w.step i)

theorem World.run_other {α : Type} {me : Nat} : ∀ (sched : List Nat) (w : World α), me ∉ sched →
    (w.run sched).progs me = w.progs me
  | [], _, _ => rfl
  | i :: sched, w, h => by
    simp only [List.mem_cons, not_or] at h
    rw [World.run, World.run_other sched (w.step i) h.2, World.step_other w (Ne.symm h.1)]

theorem World.run_done {α : Type} {me : Nat} {b : α} : ∀ (sched : List Nat) (w : World α),
    w.progs me = .done b → (w.run sched).progs me = .done b
  | [], _, h => h
  | i :: sched, w, h => by
    refine World.run_done sched (w.step i) ?_
    by_cases hi : i = me
    · subst hi; unfold World.step; simp only [h]
    · rw [World.step_other w hi]; exact h

/-- A call that gets a turn again and again returns. -/
theorem World.finishes {α : Type} {me : Nat} : ∀ (p : Prog α) (w : World α) (sched : Nat → Nat)
    (_ : ∀ n, ∃ k, n ≤ k ∧ sched k = me) (start : Nat), w.progs me = p →
    ∃ n b, (w.run ((List.range' start n).map sched)).progs me = .done b := by
  intro p
  have first : ∀ (sched : Nat → Nat), (∀ n, ∃ k, n ≤ k ∧ sched k = me) → ∀ start,
      ∃ n, me ∉ (List.range' start n).map sched ∧ sched (start + n) = me := by
    intro sched hf start
    obtain ⟨k, hk, hs⟩ := hf start
    have : ∃ n, sched (start + n) = me := ⟨k - start, by rw [← hs]; congr 1; omega⟩
    obtain ⟨n, hn, hmin⟩ : ∃ n, sched (start + n) = me ∧ ∀ j, j < n → sched (start + j) ≠ me := by
      obtain ⟨n, hn⟩ := this
      induction n using Nat.strongRecOn with
      | ind n ih =>
        by_cases h : ∃ j, j < n ∧ sched (start + j) = me
        · obtain ⟨j, hj, he⟩ := h
          exact ih j hj he
        · exact ⟨n, hn, fun j hj he => h ⟨j, hj, he⟩⟩
    refine ⟨n, ?_, hn⟩
    intro hmem
    obtain ⟨x, hx, he⟩ := List.mem_map.1 hmem
    rw [List.mem_range'_1] at hx
    exact hmin (x - start) (by omega) (by rw [← he]; congr 1; omega)
  have glue : ∀ (w : World α) (sched : Nat → Nat), (∀ n, ∃ k, n ≤ k ∧ sched k = me) → ∀ start,
      (∀ (w' : World α) (s' : Nat), w'.progs me = w.progs me →
        ∃ n b, ((w'.step me).run ((List.range' s' n).map sched)).progs me = .done b) →
      ∃ n b, (w.run ((List.range' start n).map sched)).progs me = .done b := by
    intro w sched hf start h
    obtain ⟨n, hn, hs⟩ := first sched hf start
    obtain ⟨n', b, hb⟩ := h (w.run ((List.range' start n).map sched)) (start + n + 1)
      (World.run_other _ _ hn)
    refine ⟨n + (1 + n'), b, ?_⟩
    rw [← List.range'_append_1, List.map_append, World.run_append, ← List.range'_append_1,
      List.map_append, World.run_append]
    simp only [List.range'_one, List.map_cons, List.map_nil, hs, World.run]
    exact hb
  induction p with
  | done b => intro w sched _ start h; exact ⟨0, b, h⟩
  | setEval p ih =>
    intro w sched hf start h
    refine glue w sched hf start fun w' s' hw' => ih (w'.step me) sched hf s' ?_
    rw [h] at hw'; unfold World.step; simp only [hw', put_same]
  | getEval k ih =>
    intro w sched hf start h
    refine glue w sched hf start fun w' s' hw' => ih w'.owner (w'.step me) sched hf s' ?_
    rw [h] at hw'; unfold World.step; simp only [hw', put_same]
  | setRule r p ih =>
    intro w sched hf start h
    refine glue w sched hf start fun w' s' hw' => ih (w'.step me) sched hf s' ?_
    rw [h] at hw'; unfold World.step; simp only [hw', put_same]
  | getOwn k ih =>
    intro w sched hf start h
    refine glue w sched hf start fun w' s' hw' => ih (w'.rules me) (w'.step me) sched hf s' ?_
    rw [h] at hw'; unfold World.step; simp only [hw', put_same]
  | getRule o k ih =>
    intro w sched hf start h
    refine glue w sched hf start fun w' s' hw' => ih (w'.rules o) (w'.step me) sched hf s' ?_
    rw [h] at hw'; unfold World.step; simp only [hw', put_same]

end Fastac
