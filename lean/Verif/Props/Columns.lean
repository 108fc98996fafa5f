import Verif.Lemmas.Columns
import Verif.Props.Exact

/-!
# C85: matchers that compare column by column
-/

namespace Fastac

open Model

/-- **C85**.  In any program, with a matcher that compares the request with the rule column by column: the request is
decided by the effects of the stored rules that agree with it in every column, and by what is left of removed
rules, exactly as `Column.Trace` says. -/
theorem c85_columns (build : FnBuild) (u : Str → Res Stage) (hc : build.Coherent u)
    (hbin : ∀ e s, u e = .ok s → s.Binary)
    (grow : Nat → Nat) (rk mk ek pk rText eff : Str) (rArgs pArgs : List Str) (front : List Column) (last : Column)
    (root : Stage)
    (hroot : buildMatcherDef grow (Cond.formula rk pk (Column.matcher (front ++ [last]))).toks = .ok root)
    (H : Rule → Prop)
    (s : FnModel) (h : FnModel.FnSeen build mk root H s) (hmk : mk ≠ []) (hek : ek ≠ [])
    (hr : s.model.rDefs.get rk = some rText) (hrA : splitC ',' (removeSpaces rText) = rArgs)
    (d : PolicyDef) (hp : s.model.pDefs.get pk = some d) (hpA : d.args = pArgs)
    (he : s.model.eDefs.get ek = some eff)
    (gov : Gov) (hgov : gov.Ok) (hsc : gov.Scoped) (N : Naming s.functions rk pk rArgs pArgs)
    (rvals : List Str) (hrl : rvals.length = rArgs.length)
    (ok : Column → Str → Prop) (R : Column → Str → Str → Prop)
    (hcw : ∀ c ∈ front ++ [last], c.Written rArgs pArgs)
    (hcc : ∀ c ∈ front ++ [last], c.Compares s rArgs rvals (ok c) (R c))
    (hok0 : ∀ c ∈ front ++ [last], ok c [])
    (hok : ∀ r, H r → r.length = pArgs.length → ∀ c ∈ front ++ [last], ∀ w, attr pArgs r c.name = some w → ok c w)
    (hdet : eff = SOME_ALLOW_NO_DENY → ∀ rules, s.model.policyRules pk = some rules → ∀ r ∈ rules,
      effectOf pArgs r ≠ .indeterminate)
    (ord : Order) (hord : ord.Valid) (depth : Nat) (hdep : 0 < depth) :
    ∃ rules answer, s.model.policyRules pk = some rules ∧
      (∀ r ∈ rules, H r) ∧ (∀ r, H r → r.length = pArgs.length) ∧
      (s.enforce build gov depth ord (named rk mk ek ++ rvals.map .val)).2 = .ok answer ∧
      (rk = s% "r" → mk = s% "m" → ek = s% "e" →
        (s.enforce build gov depth ord (rvals.map .val)).2 = .ok answer) ∧
      (eff = SOME_ALLOW → (answer = true ↔
        (∃ r ∈ rules, (∀ c ∈ front ++ [last], c.Agrees R rArgs pArgs rvals r) ∧ effectOf pArgs r = .allow) ∨
        Column.Trace R rArgs pArgs rvals H rules front last)) ∧
      (eff = NO_DENY → (answer = true ↔
        ¬ ∃ r ∈ rules, (∀ c ∈ front ++ [last], c.Agrees R rArgs pArgs rvals r) ∧ effectOf pArgs r = .deny)) ∧
      (eff = SOME_ALLOW_NO_DENY → (answer = true ↔
        ((∃ r ∈ rules, (∀ c ∈ front ++ [last], c.Agrees R rArgs pArgs rvals r) ∧ effectOf pArgs r = .allow) ∨
          Column.Trace R rArgs pArgs rvals H rules front last) ∧
        ¬ ∃ r ∈ rules, (∀ c ∈ front ++ [last], c.Agrees R rArgs pArgs rvals r) ∧ effectOf pArgs r = .deny)) := by
  have hblank : ∀ c ∈ front ++ [last], ∀ w, attr pArgs (List.replicate pArgs.length []) c.name = some w → ok c w := by
    intro c hm w hw
    unfold attr at hw
    split at hw
    · have := List.mem_replicate.1 (List.mem_of_getElem? hw)
      rw [this.2]
      exact hok0 c hm
    · cases hw
  obtain ⟨rules, answer, h1, h0, hlen, h2, h3, v1, v2, v3⟩ := FnModel.c83_verdict_partial build u hc hbin grow rk mk ek pk
    rText eff rArgs pArgs (Column.matcher (front ++ [last])) root (Column.wf (by simp)) (Column.safe _ _ _) hroot
    (fun r => r.length = pArgs.length → ∀ c ∈ front ++ [last], ∀ w, attr pArgs r c.name = some w → ok c w) H s h hmk hek hr hrA d hp hpA he gov
    hgov hsc N rvals (.of_len hrl)
    (by
      intro a ha
      rw [Column.anyAtoms] at ha
      obtain ⟨c, hm, rfl⟩ := List.mem_map.1 ha
      exact Column.fitsNow (hcw c hm) (hcc c hm) (fun r hr hl => hr hl c hm))
    (.inr ⟨last.atom, by rw [Column.anyAtoms]; simp, last.name, (Column.pol_iff _ _).2 rfl⟩)
    hok (fun _ _ => hblank) hdet ord hord depth hdep _ (fun _ => Iff.rfl)
  have hag : ∀ r, (∀ c ∈ front ++ [last], ∀ w, attr pArgs r c.name = some w → ok c w) → ∀ c ∈ front ++ [last],
      (c.atom.holds (Ref.val rArgs pArgs rvals r) (s.SaysNow gov rk rArgs rvals) ↔ c.Agrees R rArgs pArgs rvals r) :=
    fun r hr c hm => Column.holds_iff (hcw c hm) (hcc c hm) (hr c hm)
  have hE : ∀ e, (∃ r ∈ rules, Cond.anyHolds (fun a =>
      a.holds (Ref.val rArgs pArgs rvals r) (s.SaysNow gov rk rArgs rvals)) (Column.matcher (front ++ [last])) ∧
        effectOf pArgs r = e) ↔
      ∃ r ∈ rules, (∀ c ∈ front ++ [last], c.Agrees R rArgs pArgs rvals r) ∧ effectOf pArgs r = e := by
    intro e
    refine exists_congr (fun r => and_congr_right (fun hr => and_congr ?_ Iff.rfl))
    rw [Column.anyHolds]
    exact forall_congr' (fun c => forall_congr' (fun hm => hag r (hok r (h0 r hr) (hlen _ (h0 r hr))) c hm))
  have hT : LeftOver pArgs (fun a r => a.holds (Ref.val rArgs pArgs rvals r) (s.SaysNow gov rk rArgs rvals)) H rules
      (Column.matcher (front ++ [last])) ↔ Column.Trace R rArgs pArgs rvals H rules front last := by
    have hl : last ∈ front ++ [last] := by simp
    have hfr : ∀ c ∈ front, c ∈ front ++ [last] := fun c hm => List.mem_append_left _ hm
    unfold LeftOver Column.Trace
    rw [and_or_left]
    refine or_congr ?_ ?_
    · rw [Column.anyHolds]
      constructor
      · rintro ⟨hno, hh⟩
        exact ⟨(hag _ hblank _ hl).1 (hh _ hl), hno, fun c hm => (hag _ hblank _ (hfr c hm)).1 (hh _ (hfr c hm))⟩
      · rintro ⟨h1, hno, hh⟩
        refine ⟨hno, fun c hm => (hag _ hblank c hm).2 ?_⟩
        rcases List.mem_append.1 hm with hm | hm
        · exact hh c hm
        · rw [List.mem_singleton.1 hm]; exact h1
    · rw [Column.anyWays]
      constructor
      · rintro ⟨way, la, hm, seen, q1, q2, q3, q4⟩
        rw [List.mem_singleton, List.map_append] at hm
        obtain ⟨rfl, e⟩ := List.append_inj' hm rfl
        cases e
        refine ⟨(hag _ hblank _ hl).1 q3, seen, q1,
          fun c hm => (hag _ (hok _ q1 (hlen _ q1)) c (hfr c hm)).1 (q2 _ (List.mem_map.2 ⟨c, hm, rfl⟩)), ?_⟩
        rintro ⟨r, hr, ht⟩
        refine q4 r hr ?_
        intro a ha
        obtain ⟨c, hm, rfl⟩ := List.mem_map.1 ha
        exact (Column.together_iff _ _ _ _).2 (ht c hm)
      · rintro ⟨q3, seen, q1, q2, q4⟩
        refine ⟨front.map Column.atom, last.atom, by simp, seen, q1, ?_, (hag _ hblank _ hl).2 q3, ?_⟩
        · intro a ha
          obtain ⟨c, hm, rfl⟩ := List.mem_map.1 ha
          exact (hag _ (hok _ q1 (hlen _ q1)) c (hfr c hm)).2 (q2 c hm)
        · intro r hr ht
          exact q4 ⟨r, hr, fun c hm => (Column.together_iff _ _ _ _).1 (ht _ (List.mem_map.2 ⟨c, hm, rfl⟩))⟩
  simp only [hE, hT] at v1 v2 v3
  exact ⟨rules, answer, h1, h0, hlen, h2, h3, v1, v2, v3⟩

end Fastac
