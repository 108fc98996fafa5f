import Verif.Spec.Eval
import Verif.Lemmas.Condition

/-!
# Lemmas about `eval`
-/

namespace Fastac

theorem buildArgIndex_none (key : Str) {w : Str} : ∀ (names : List Str) (i : Nat) (m : GoMap Str Nat),
    (∀ y ∈ names, w ≠ qual key y) → (buildArgIndex key names i m).get w = m.get w
  | [], _, _, _ => rfl
  | a :: as, i, m, h => by
    rw [buildArgIndex, buildArgIndex_none key as _ _ (fun y hy => h y (by simp [hy])), GoMap.get_set, if_neg]
    exact fun e => h a (by simp) e.symm

theorem declare_none (key : Str) {names : List Str} (g : GoodNames names) {w : Str} (h : ∀ y ∈ names, w ≠ qual key y)
    {α : Type} (vals : List α) : (declare key names).getParameter vals w = none := by
  have e : (declare key names).argIndex = buildArgIndex key (declare key names).args 0 [] := rfl
  unfold PolicyDef.getParameter
  rw [e, declare_args key g, buildArgIndex_none key names 0 [] h]
  rfl

theorem requestPar_none {rk : Str} {rArgs rvals : List Str} {w : Str} (h : ∀ x ∈ rArgs, w ≠ qual rk x) (r : Rule) :
    requestPar rk rArgs rvals r w = none := by
  unfold requestPar
  rw [List.find?_eq_none.2]
  · rfl
  · intro x hx
    simpa using fun e => h x hx e.symm

theorem requestPar_some {rk : Str} {rArgs rvals : List Str} {x : Str} (h : x ∈ rArgs) (r : Rule) :
    requestPar rk rArgs rvals r (qual rk x) = attr rArgs rvals x := by
  unfold requestPar
  have : rArgs.find? (fun y => decide (qual rk y = qual rk x)) = some x := by
    induction rArgs with
    | nil => cases h
    | cons a as ih =>
      rw [List.find?_cons]
      by_cases e : a = x
      · subst e; simp
      · have e' : decide (qual rk a = qual rk x) = false := by simpa [qual_inj] using e
        rw [e']
        refine ih ?_
        rcases List.mem_cons.1 h with h | h
        · exact absurd h.symm e
        · exact h
  rw [this]
  rfl

/-- Names that are no attributes of the policy are read from the request. -/
theorem Naming.request {base : Str → Option Fn} {rk pk : Str} {rArgs pArgs : List Str}
    (N : Naming base rk pk rArgs pArgs) {rvals : List Str} (hr : rvals.length ≤ rArgs.length) (r r' : Rule) {w : Str}
    (h : ∀ y ∈ pArgs, qual pk y ≠ w) :
    MatchParams.get ⟨declare pk pArgs, declare rk rArgs, rvals⟩ r w = requestPar rk rArgs rvals r' w := by
  cases w with
  | nil =>
    rw [requestPar_none]
    · rfl
    · intro x _ e; simp [qual] at e
  | cons c w =>
    simp only [MatchParams.get]
    by_cases hc : c = 'p' ∨ c = 'g'
    · rw [if_pos hc, declare_none pk N.p.good (fun y hy e => h y hy e.symm), requestPar_none]
      intro x _ e
      have : (qual rk x).head? = some 'r' := N.rHead' x
      rw [← e] at this
      simp at this
      subst this
      simp at hc
    · rw [if_neg hc]
      by_cases hx : ∃ x ∈ rArgs, c :: w = qual rk x
      · obtain ⟨x, hx, e⟩ := hx
        rw [e, requestPar_some hx, if_pos]
        · exact getParameter_short rk N.r.good rvals hr x
        · have : (qual rk x).head? = some 'r' := N.rHead' x
          rw [← e] at this
          simpa using this
      · have hx' : ∀ x ∈ rArgs, c :: w ≠ qual rk x := fun x h1 h2 => hx ⟨x, h1, h2⟩
        rw [requestPar_none hx']
        split
        · exact declare_none rk N.r.good hx' _
        · rfl

theorem withFn_ne {fns : Str → Option Fn} {name x : Str} {fn : Fn} (h : x ≠ name) : withFn fns name fn x = fns x := by
  unfold withFn; rw [if_neg h]

theorem withFn_self {fns : Str → Option Fn} {name : Str} {fn : Fn} : withFn fns name fn name = some fn := by
  unfold withFn; rw [if_pos rfl]

/-- What `eval` answers on a good condition. -/
theorem evalFn_good {gov : Gov} (hg : gov.Scoped) {fns : Str → Option Fn} {base : Str → Option Fn} {rk pk : Str}
    {rArgs pArgs rvals : List Str} (N : Naming base rk pk rArgs pArgs) (hr : rvals.length ≤ rArgs.length)
    {par : Rule → Str → Option Str} (r : Rule)
    (hpar : par r = MatchParams.get ⟨declare pk pArgs, declare rk rArgs, rvals⟩ r) (n : Nat) {text : Str}
    (h : GoodCondition gov fns rk pk rArgs pArgs rvals text) :
    ∃ b, evalFn gov fns par r (n + 1) [text] = .bool b ∧
      (b = true ↔ ConditionHolds gov fns rk rArgs rvals text) := by
  obtain ⟨b, hb⟩ := h.runs
  refine ⟨b, ?_, ?_⟩
  · obtain ⟨h1, h2⟩ := hg (withFn fns (s% "eval") (evalFn gov fns par r n)) fns par
      (requestPar rk rArgs rvals) (replaceArgs text) h.plain (by
        intro w hw
        apply withFn_ne
        rintro rfl
        exact h.noEval hw)
    simp only [evalFn]
    rw [h1, if_pos h.compiles, h2 r [] (by
      intro w hw
      rw [hpar]
      apply N.request hr r []
      intro y hy e
      rw [← e] at hw
      exact h.noPolicy y hy hw), hb]
  · unfold ConditionHolds
    rw [hb]
    simp

theorem Naming.not_eval {base : Str → Option Fn} {rk pk : Str} {rArgs pArgs : List Str}
    (N : Naming base rk pk rArgs pArgs) (a : Ref) : a.name rk pk ≠ s% "eval" := by
  cases a with
  | lit s =>
    intro e
    injection e with e
    exact absurd e (by decide)
  | req x =>
    intro e
    have : (qual rk x).head? = some 'r' := N.rHead' x
    rw [show qual rk x = _ from e] at this
    cases this
  | pol y =>
    intro e
    have := N.pHead y
    rw [show qual pk y = _ from e] at this
    rcases this with this | this <;> cases this

/-- The evaluation of an atom that may call `eval`. -/
theorem Atom.eval_par {build : Str → Res Stage} {m : Model} (hm : Model.Made build m) {base : Str → Option Fn}
    {gov : Gov} (hg : gov.Ok) (hsc : gov.Scoped) {rk pk : Str} {rArgs pArgs rvals : List Str}
    (N : Naming base rk pk rArgs pArgs) (hk : pk.head? = some 'p' ∨ m.rpMap = []) (hr : rvals.length ≤ rArgs.length)
    {P : Rule → Prop} {a : Atom} (hv : a.Given rArgs rvals) (h : a.FitsEval m base gov rk pk rArgs pArgs rvals P) (n : Nat)
    {par : Rule → Str → Option Str} (hpar : ∀ r, r.length = pArgs.length →
      par r = MatchParams.get ⟨declare pk pArgs, declare rk rArgs, rvals⟩ r) {E : Evaluator}
    (hE : E = gov.withEval (n + 1) (m.functions base) par) :
    E.compiles (a.text rk pk) = true ∧
    (∀ r : Rule, r.length = pArgs.length → P r → ∃ b, E.eval (a.text rk pk) r = .bool b ∧
      (b = true ↔ a.holds (Ref.val rArgs pArgs rvals r) (m.SaysEval base gov rk rArgs rvals))) := by
  subst hE
  simp only [Gov.withEval]
  have hn : ∀ (r : Rule) (b : Ref), b.Known rArgs pArgs → (b.term rk pk).Ok (withFn (m.functions base) (s% "eval") (evalFn gov
      (m.functions base) par r (n + 1))) := by
    intro r b hb
    have := N.fns hm hk hb
    have hne := N.not_eval b
    cases b with
    | req x => exact ⟨this.1, (withFn_ne hne).trans this.2⟩
    | pol y => exact ⟨this.1, (withFn_ne hne).trans this.2⟩
    | lit s => exact this
  by_cases hc : ∃ args, a = .call (s% "eval") args
  · obtain ⟨args, rfl⟩ := hc
    obtain ⟨⟨h1, h2, h3, h4⟩, h5⟩ := h
    have h6 := h5 _ args rfl
    rw [if_pos rfl] at h6
    obtain ⟨x, rfl, hx⟩ := h6
    have key : ∀ r, _ := fun r => hg.callT (withFn (m.functions base) (s% "eval") (evalFn gov (m.functions base)
      par r (n + 1))) par (s% "eval") _ [x.term rk pk] h3 withFn_self
      (by simp) (by
        intro y hy
        rw [List.mem_singleton] at hy
        subst hy
        exact hn r x (h2 x (by simp)))
    simp only [List.map_cons, List.map_nil, Ref.term_text] at key
    refine ⟨(key []).1, ?_⟩
    intro r hl hP
    obtain ⟨text, ht⟩ := Ref.val_known hv hl (by simp [Atom.refs]) (h2 x (by simp))
    obtain ⟨b, hb, hb'⟩ := evalFn_good hsc N hr r (hpar r hl) n (hx r hP hl text ht)
    refine ⟨b, ?_, ?_⟩
    · refine ((key r).2 r).trans ?_
      simp only [List.mapM_cons, List.mapM_nil, hpar r hl, N.get hr hl x, ht]
      exact hb
    · rw [hb']
      simp only [Atom.holds, List.mapM_cons, List.mapM_nil, ht, Model.SaysEval, if_pos]
      constructor
      · intro h; exact ⟨[text], rfl, text, rfl, h⟩
      · rintro ⟨vs, e, t, rfl, h⟩
        cases e
        exact h
  · have hne : ∀ f args, a = .call f args → f ≠ s% "eval" := by
      rintro f args rfl rfl
      exact hc ⟨args, rfl⟩
    have hfits : a.Fits m base rArgs pArgs rvals P := by
      refine ⟨h.1, ?_⟩
      intro f args e
      have := h.2 f args e
      rwa [if_neg (hne f args e)] at this
    have key : ∀ r, _ := fun r => Atom.eval_with hm hg N hr hv hfits (hn r)
      (fun f args e => withFn_ne (hne f args e)) hpar rfl
    refine ⟨(key []).1, ?_⟩
    intro r hl hP
    obtain ⟨b, hb, hb'⟩ := (key r).2 r hl hP
    refine ⟨b, hb, ?_⟩
    rw [hb']
    cases a with
    | eq a b => rfl
    | call f args => simp only [Atom.holds, Model.SaysEval, if_neg (hne f args rfl)]

theorem Atom.eval_eval {build : Str → Res Stage} {m : Model} (hm : Model.Made build m) {base : Str → Option Fn}
    {gov : Gov} (hg : gov.Ok) (hsc : gov.Scoped) {rk pk : Str} {rArgs pArgs rvals : List Str}
    (N : Naming base rk pk rArgs pArgs) (hk : pk.head? = some 'p' ∨ m.rpMap = []) (hr : rvals.length ≤ rArgs.length)
    {P : Rule → Prop} {a : Atom} (hv : a.Given rArgs rvals) (h : a.FitsEval m base gov rk pk rArgs pArgs rvals P) (n : Nat) {E : Evaluator}
    (hE : E = gov.withEval (n + 1) (m.functions base)
      (MatchParams.get ⟨declare pk pArgs, declare rk rArgs, rvals⟩)) :
    E.compiles (a.text rk pk) = true ∧
    (∀ r : Rule, r.length = pArgs.length → P r → ∃ b, E.eval (a.text rk pk) r = .bool b ∧
      (b = true ↔ a.holds (Ref.val rArgs pArgs rvals r) (m.SaysEval base gov rk rArgs rvals))) :=
  Atom.eval_par hm hg hsc N hk hr hv h n (fun _ _ => rfl) hE

end Fastac
