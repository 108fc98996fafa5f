import Verif.Lemmas.RoleParts
import Verif.Spec.RoleRequests

/-!
# Requests that ask a role manager, at the same time
-/

namespace Fastac

open RHeap

/-! ## The result with a function for `g` -/

namespace Asks

variable {Q α β : Type}

theorem value_bind (g : Q → Bool) (f : α → Asks Q β) : ∀ t : Asks Q α, (t.bind f).value g = (f (t.value g)).value g
  | .done _ => rfl
  | .ask _ k => value_bind g f (k _)

end Asks

section

variable {Q σ : Type} {E : AskEvaluator Q} {g : Q → Bool}

theorem rangeEntriesA_value (expr : Str) (cbA : Str → Node → σ → Asks Q (σ × Status)) (cb : Str → Node → σ → σ × Status)
    (hcb : ∀ k n s, (cbA k n s).value g = cb k n s) : ∀ (es : GoMap Str Node) (s : σ),
      (rangeEntriesA E expr cbA es s).value g = rangeEntries (E.under g) expr cb es s
  | [], s => rfl
  | (k, child) :: es, s => by
    have ih := rangeEntriesA_value expr cbA cb hcb es
    have he : (E.under g).eval expr child.rule = (E.eval expr child.rule).value g := rfl
    simp only [rangeEntriesA, rangeEntries, Asks.value_bind, he]
    cases (E.eval expr child.rule).value g with
    | err => rfl
    | panic => rfl
    | other => exact ih _
    | bool b =>
      cases b with
      | false => exact ih _
      | true =>
        simp only [Asks.value_bind, hcb]
        obtain ⟨s', st⟩ := cb k child s
        cases st with
        | cont => exact ih _
        | panic => rfl
        | stop => rfl
        | err => rfl

mutual
theorem rangeStageA_value (nargs : Nat) (ord : Order) (fn : σ → Rule → σ × Bool) : ∀ (st : Stage)
    (path : List (Nat × Str)) (node : Node) (s : σ), (rangeStageA E nargs ord fn st path node s).value g =
      rangeStage (E.under g) nargs ord fn st path node s
  | .mk _ cs, path, node, s => by
    simp only [rangeStageA, rangeStage]
    exact rangeChildrenA_value nargs ord fn cs 0 path node s
theorem rangeChildrenA_value (nargs : Nat) (ord : Order) (fn : σ → Rule → σ × Bool) : ∀ (cs : List Stage) (i : Nat)
    (path : List (Nat × Str)) (node : Node) (s : σ), (rangeChildrenA E nargs ord fn cs i path node s).value g =
      rangeChildren (E.under g) nargs ord fn cs i path node s
  | [], _, _, _, s => by simp only [rangeChildrenA, rangeChildren]; rfl
  | st :: rest, i, path, node, s => by
    simp only [rangeChildrenA, rangeChildren]
    cases hm : node.children[i]? with
    | none => rfl
    | some m =>
      have hc : (E.under g).compiles st.expr = E.compiles st.expr := rfl
      simp only [hc]
      by_cases hcomp : E.compiles st.expr = false
      · rw [if_pos hcomp, if_pos hcomp]; rfl
      · rw [if_neg hcomp, if_neg hcomp]
        rw [Asks.value_bind, rangeEntriesA_value (cb := fun k child s =>
            match (if st.isLeaf then fn s child.rule else (s, true)) with
            | (s', false) => (s', Status.stop)
            | (s', true) =>
              match rangeStage (E.under g) nargs ord fn st (path ++ [(i, k)]) child s' with
              | (s'', .cont) => (s'', .cont)
              | (s'', .panic) => (s'', .panic)
              | (s'', _) => (s'', .stop))]
        · generalize rangeEntries (E.under g) st.expr _ _ s = res
          obtain ⟨s', stt⟩ := res
          cases stt with
          | cont => exact rangeChildrenA_value nargs ord fn rest (i + 1) path node s'
          | panic => rfl
          | stop => rfl
          | err => rfl
        · intro k child s
          obtain ⟨s', b⟩ := (if st.isLeaf then fn s child.rule else (s, true))
          cases b with
          | false => rfl
          | true =>
            have := rangeStageA_value nargs ord fn st (path ++ [(i, k)]) child s'
            simp only [Asks.value_bind, this]
            obtain ⟨s'', stt⟩ := rangeStage (E.under g) nargs ord fn st (path ++ [(i, k)]) child s'
            cases stt <;> rfl
end

end

theorem enforceA_value {Q : Type} (m : Matcher) (pDef : PolicyDef) (E : AskEvaluator Q) (ord : Order) (expr : Str)
    (g : Q → Bool) : (enforceA m pDef E ord expr).value g = enforce m pDef (E.under g) ord expr := by
  unfold enforceA
  rw [Asks.value_bind, rangeStageA_value]
  rfl

/-! ## The result next to others -/

namespace RConf

variable {c : RConf} {h : RHeap} {L U : Str → Str → Prop} {α : Type}

theorem asks_neat (hc : c.Plain) : ∀ t : Asks (Str × Str) α, (t.thread c).Neat h
  | .done _ => trivial
  | .ask q k => .bind (fun b => asks_neat hc (k b)) (hasLink_neat hc q.1 q.2)

theorem asks_safe (hc : c.Plain) (b : Base h L U) {g : Str → Str → Bool} (hg : SaysRoles c.level L g) :
    ∀ t : Asks (Str × Str) α, (t.thread c).Safe (Ext h) (fun a => a = t.value fun x => g x.1 x.2)
  | .done _ => rfl
  | .ask q k => by
    refine .bind (fun x hx => ?_) (hasLink_safe hc b q.1 q.2)
    have : x = g q.1 q.2 := Bool.eq_iff_iff.2 (hx.trans (hg q.1 q.2).symm)
    subst this
    exact asks_safe hc b hg (k _)

theorem job_neat (hc : c.Plain) {j : Job} (hj : j.Fair) : (j.thread c).Neat h := by
  cases j with
  | question x => exact .bind (fun _ => .ret _) (question_neat hc hj)
  | request q => exact .bind (fun _ => .ret _) (asks_neat hc _)

theorem job_safe (hc : c.Plain) (b : Base h L L) {j : Job} (hj : j.Fair) :
    (j.thread c).Safe (Ext h) (j.Right c.level L) := by
  classical
  cases j with
  | question x => exact .bind (fun _ ha => .ret ha.same) (question_safe hc b hj)
  | request q =>
    have hg : SaysRoles c.level L fun u r => decide (u = r ∨ ∃ k, k < c.level ∧ Reach L k u r) := fun u r => by simp
    refine .bind (fun a ha => Thread.Safe.ret fun g' hg' => ?_) (asks_safe hc b hg _)
    have : g' = fun u r => decide (u = r ∨ ∃ k, k < c.level ∧ Reach L k u r) := by
      funext u r
      exact Bool.eq_iff_iff.2 ((hg' u r).trans (hg u r).symm)
    rw [this, ha]
    exact enforceA_value _ _ _ _ _ _

theorem safe_begin (hc : c.Plain) (b : Base h L L) {js : List Job} (hj : ∀ j ∈ js, j.Fair) :
    (c.begin h js).AllSafe (Ext h) (fun i a => ∀ j, js[i]? = some j → j.Right c.level L a) := by
  refine ⟨Ext.refl h, fun i t ht => ?_⟩
  unfold RConf.begin at ht
  rw [List.getElem?_map] at ht
  obtain ⟨x, hi, rfl⟩ := Option.map_eq_some_iff.1 ht
  refine (job_safe hc b (hj x (List.mem_of_getElem? hi))).weaken fun a ha y hy => ?_
  rw [hi] at hy
  cases hy
  exact ha

theorem neat_begin (hc : c.Plain) {js : List Job} (hj : ∀ j ∈ js, j.Fair) : (c.begin h js).Neat h := by
  refine RSystem.Neat.begin (fun t ht => ?_) (fun _ e => e)
  obtain ⟨x, hxs, rfl⟩ := List.mem_map.1 ht
  exact job_neat hc (hj x hxs)

theorem base_episodes (hc : c.Plain) : ∀ (Rs : List Episode) {h : RHeap} {ops : List LinkOp},
    Fit h ops (fun u r => linked ops u r = true) →
    (∀ js sched, .together js sched ∈ Rs → ∀ j ∈ js, j.Fair) → c.EpisodesEnded h Rs →
    Fit (c.episodes h Rs) (ops ++ aloneOps Rs) (fun u r => linked (ops ++ aloneOps Rs) u r = true)
  | [], h, ops, f, _, _ => by
    have : ops ++ aloneOps [] = ops := by simp [aloneOps]
    rw [this]; exact f
  | .alone x :: Rs, h, ops, f, hq, he => by
    obtain ⟨U', f', hU⟩ := fit_alone hc f x
    have hU := hU fun _ _ => Iff.rfl
    have f'' : Fit (c.episode h (.alone x)) (ops ++ [x.op]) (fun u r => linked (ops ++ [x.op]) u r = true) :=
      ⟨f'.base.congr (fun _ _ => Iff.rfl) (fun u r => hU u r), f'.names⟩
    have := base_episodes hc Rs f'' (fun js sched hm => hq js sched (List.mem_cons_of_mem _ hm)) he
    rw [List.append_assoc] at this
    exact this
  | .together js sched :: Rs, h, ops, f, hq, he => by
    have hj := hq js sched List.mem_cons_self
    have e := ((safe_begin hc f.base hj).run sched).inv
    have hn := fun n => ((neat_begin (h := h) hc hj).run sched).over he.1 (n := n)
    have f' : Fit (c.episode h (.together js sched)) ops (fun u r => linked ops u r = true) :=
      ⟨Ext.base e f.base hn, fun n => (congrArg Option.isSome (e.all_eq hn n)).trans (f.names n)⟩
    exact base_episodes hc Rs f' (fun js sched hm => hq js sched (List.mem_cons_of_mem _ hm)) he.2

end RConf

end Fastac
