import Verif.Lemmas.OverlapDomains
import Verif.Props.Domains

/-! # C82: one level of domains with any pattern domains, exactly -/

namespace Fastac

namespace DM

open DomState

theorem foldl_add_m (ls : List (Str × Str × Str)) (s : DomState) :
    (ls.foldl (fun t l => t.add l.1 l.2.1 l.2.2) s).m = s.m ∧
    (ls.foldl (fun t l => t.add l.1 l.2.1 l.2.2) s).dmm = s.dmm := by
  induction ls generalizing s with
  | nil => exact ⟨rfl, rfl⟩
  | cons l ls ih => exact ih (s.add l.1 l.2.1 l.2.2)

theorem op_m (s : DomState) (o : Op) : (s.op o).m = s.m ∧ (s.op o).dmm = s.dmm := by
  cases o <;> exact ⟨rfl, rfl⟩

theorem steps_m {s t : DomState} {cs : List Call} (h : Steps s cs t) :
    t.m = nowRole s.m cs ∧ t.dmm = nowDomain s.dmm cs := by
  induction h with
  | nil s => exact ⟨rfl, rfl⟩
  | @cons s t v c cs hs _ ih =>
    cases hs with
    | op o =>
      rw [(op_m s o).1, (op_m s o).2] at ih
      exact ih
    | setMatcher m order => exact ih
    | setDomainMatcher m order ls hn hl =>
      rw [(foldl_add_m ls _).1, (foldl_add_m ls _).2] at ih
      exact ih

theorem used_tail {dmm : Option PMatcher} {c : Call} {cs : List Call} {pm : PMatcher}
    (hu : used dmm cs pm) : used dmm (c :: cs) pm := by
  rcases hu with h | ⟨o, h⟩
  · exact Or.inl h
  · exact Or.inr ⟨o, by simp [h]⟩

theorem OneLevel.tail {dmm : Option PMatcher} {c : Call} {cs : List Call} (h : OneLevel dmm (c :: cs)) :
    OneLevel dmm cs :=
  ⟨fun o ho => h.1 o (by simp [ho]), fun pm hu => h.2.1 pm (used_tail hu),
    fun o ho hq pm hu => h.2.2 o (by simp [ho]) hq pm (used_tail hu)⟩

theorem OneLevel.tail' {dmm m : Option PMatcher} {order} {cs : List Call}
    (h : OneLevel dmm (.setDomainMatcher m order :: cs)) : OneLevel m cs := by
  have key : ∀ pm, used m cs pm → used dmm (.setDomainMatcher m order :: cs) pm := by
    rintro pm (rfl | ⟨o, hm⟩)
    · exact Or.inr ⟨order, by simp⟩
    · exact Or.inr ⟨o, by simp [hm]⟩
  exact ⟨fun o ho => h.1 o (by simp [ho]), fun pm hu => h.2.1 pm (key pm hu),
    fun o ho hq pm hu => h.2.2 o (by simp [ho]) hq pm (key pm hu)⟩

theorem shows_calls (fuel L : Nat) : ∀ (cs : List Call) (S : DomState) (dm : DM), Shows L S dm → Perms cs →
    OneLevel S.dmm cs → ∃ dm' T, calls (fuel + 2) dm cs = .ok dm' ∧ Steps S cs T ∧ Shows L T dm' ∧ NoDefault T.dmm
  | [], S, dm, h, _, ho => ⟨dm, S, rfl, .nil S, h, fun pm e => ho.2.1 pm (Or.inl e)⟩
  | c :: cs, S, dm, h, hp, ho => by
    have hd : NoDefault S.dmm := fun pm e => ho.2.1 pm (Or.inl e)
    have fin : ∃ dm1 T, call (fuel + 2) dm c = .ok dm1 ∧ Step S c T ∧ Shows L T dm1 ∧ OneLevel T.dmm cs := by
      cases c with
      | op o =>
        obtain ⟨hc, hl⟩ := ho.1 o (by simp)
        have hto : OneLevel (S.op o).dmm cs := by
          rw [(op_m S o).2]; exact ho.tail
        have hq : o.isQuery = true → ¬ S.pattern (domKey o.path) := by
          rintro hq ⟨pm, e, hpp⟩
          have hk : pm.isPattern (domKey o.path) = false := by
            cases hpath : o.path with
            | nil => exact hd pm e
            | cons d ds => exact ho.2.2 o (by simp) hq pm (Or.inl e) d (by simp [hpath])
          rw [hk] at hpp; cases hpp
        refine (fun ⟨dm1, e, hs⟩ => ⟨dm1, _, e, .op S o, hs, hto⟩ : (∃ dm1, dm.step (fuel + 2) o = .ok dm1 ∧
          Shows L (S.op o) dm1) → _) ?_
        cases o with
        | add u r π =>
          obtain ⟨y, e, hs, _⟩ := h.chg hd true fuel u r π hc hl
          have e : addLink (fuel + 2) dm u r π = _ := e
          exact ⟨y.1, by simp only [step, e, Res.map_ok], hs⟩
        | del u r π =>
          obtain ⟨y, e, hs, _⟩ := h.chg hd false fuel u r π hc hl
          have e : deleteLink (fuel + 2) dm u r π = _ := e
          exact ⟨y.1, by simp only [step, e, Res.map_ok], hs⟩
        | clear => exact ⟨_, rfl, h.clear⟩
        | hasLink u r π =>
          obtain ⟨dm', rm, e, _, hs⟩ := h.query hd (fun rm => rm.hasLink u r) (fun rm Lk hi => hi.hasLink_state u r)
            fuel π hc hl
          have := hs (hq rfl)
          subst this
          exact ⟨dm', by simp only [step, DM.hasLink, e, Res.map_ok], h⟩
        | getRoles n π =>
          obtain ⟨dm', rm, e, _, hs⟩ := h.query hd (fun rm => rm.getRoles n) (fun rm Lk hi => hi.getRoles_state n)
            fuel π hc hl
          have := hs (hq rfl)
          subst this
          exact ⟨dm', by simp only [step, DM.getRoles, e, Res.map_ok], h⟩
        | getUsers n π =>
          obtain ⟨dm', rm, e, _, hs⟩ := h.query hd (fun rm => rm.getUsers n) (fun rm Lk hi => hi.getUsers_state n)
            fuel π hc hl
          have := hs (hq rfl)
          subst this
          exact ⟨dm', by simp only [step, DM.getUsers, e, Res.map_ok], h⟩
      | setMatcher m' order =>
        exact ⟨_, _, rfl, .setMatcher S m' order, h.setMatcher m' order (hp.1 m' order (by simp)), ho.tail⟩
      | setDomainMatcher m' order =>
        have hd' : NoDefault m' := fun pm e => ho.2.1 pm (Or.inr ⟨order, by simp [e]⟩)
        obtain ⟨dm1, e, T, hs, hsh⟩ := h.setDomainMatcher m' hd' order (hp.2 m' order (by simp)) fuel
        refine ⟨dm1, T, e, hs, hsh, ?_⟩
        have : T.dmm = m' := by
          cases hs with
          | setDomainMatcher _ _ ls hn hl => exact (foldl_add_m ls _).2
        rw [this]; exact ho.tail'
    obtain ⟨dm1, T, e, hs, hsh, ho'⟩ := fin
    obtain ⟨dm2, V, e2, hs2, hsh2, hd2⟩ := shows_calls fuel L cs T dm1 hsh hp.tail ho'
    exact ⟨dm2, V, by rw [calls, e]; exact e2, .cons hs hs2, hsh2, hd2⟩

/-- C82.  Calls of all kinds on a new manager, with any matchers set at any time, about at most one domain each (and
with the provisos of `OneLevel` on names and questions): they all succeed, and the manager then is as the description
`Steps` says.  `Range` lists every link that is no copy once; `HasLink` answers by the links and names a domain has or
is given (for role patterns that do not match each other); `AddLink` and `DeleteLink` report whether the link was new
or there; without role matcher `GetRoles` and `GetUsers` list the links. -/
theorem c82_exact (fuel L : Nat) (m dmm : Option PMatcher) (cs : List Call) (hp : Perms cs) (h1 : OneLevel dmm cs) :
    ∃ dm S, calls (fuel + 2) (new L m dmm) cs = .ok dm ∧ Steps (DomState.empty m dmm) cs S ∧
      (∀ u r π, (u, r, π) ∈ dm.range ↔ Clean π ∧ π.length ≤ 1 ∧ S.own (domKey π) u r) ∧ dm.range.Nodup ∧
      ∀ π, Clean π → π.length ≤ 1 →
        (∀ a b, (∀ pm, nowRole m cs = some pm → pm.FlatOn (fun n => S.nameAt (domKey π) n ∨ n = a ∨ n = b)) →
          ∃ x, (dm.hasLink (fuel + 2) a b π).map (·.2) = .ok x ∧
            (x = true ↔ roleAnswer (L - 1 - π.length) (S.linkAt (domKey π)) (S.nameAt (domKey π)) a b
              (nowRole m cs))) ∧
        (π.length + 3 ≤ L → ∀ u r, S.linkAt (domKey π) u r → (dm.hasLink (fuel + 2) u r π).map (·.2) = .ok true) ∧
        (∀ u r, ∃ x, (dm.addLink (fuel + 2) u r π).map (·.2) = .ok x ∧ (x = true ↔ ¬ S.linkAt (domKey π) u r)) ∧
        (∀ u r, ∃ x, (dm.deleteLink (fuel + 2) u r π).map (·.2) = .ok x ∧ (x = true ↔ S.linkAt (domKey π) u r)) ∧
        (nowRole m cs = none → ∀ n,
          (∃ xs, (dm.getRoles (fuel + 2) n π).map (·.2) = .ok xs ∧ ∀ r, r ∈ xs ↔ S.linkAt (domKey π) n r) ∧
          ∃ xs, (dm.getUsers (fuel + 2) n π).map (·.2) = .ok xs ∧ ∀ u, u ∈ xs ↔ S.linkAt (domKey π) u n) := by
  obtain ⟨dm, S, e, hs, h, hd⟩ := shows_calls fuel L cs _ _ (shows_new L m dmm) hp h1
  have hm : S.m = nowRole m cs := (steps_m hs).1
  refine ⟨dm, S, e, hs, h.range, h.range_nodup, fun π hc hl => ⟨?_, ?_, ?_, ?_, ?_⟩⟩
  · intro a b hflat
    obtain ⟨dm', rm, e', hi, _⟩ := h.query hd (fun rm => rm.hasLink a b) (fun rm Lk hi => hi.hasLink_state a b)
      fuel π hc hl
    refine ⟨_, by rw [DM.hasLink, e']; rfl, ?_⟩
    rw [← hm]
    exact RM.HasR.hasLink hi a b (by rw [hm]; exact hflat)
  · intro hL u r hur
    obtain ⟨dm', rm, e', hi, _⟩ := h.query hd (fun rm => rm.hasLink u r) (fun rm Lk hi => hi.hasLink_state u r)
      fuel π hc hl
    rw [DM.hasLink, e', ← RM.HasR.honours hi (by omega) hur]
    rfl
  · intro u r
    obtain ⟨y, e', _, hf⟩ := h.chg hd true fuel u r π hc hl
    have e' : addLink (fuel + 2) dm u r π = _ := e'
    exact ⟨y.2, by rw [e']; rfl, hf⟩
  · intro u r
    obtain ⟨y, e', _, hf⟩ := h.chg hd false fuel u r π hc hl
    have e' : deleteLink (fuel + 2) dm u r π = _ := e'
    exact ⟨y.2, by rw [e']; rfl, hf⟩
  · intro hnone n
    constructor
    · obtain ⟨dm', rm, e', hi, _⟩ := h.query hd (fun rm => rm.getRoles n) (fun rm Lk hi => hi.getRoles_state n)
        fuel π hc hl
      refine ⟨_, by rw [DM.getRoles, e']; rfl, fun r => ?_⟩
      have hg := hi.inv.getRole n
      exact hg.step_plain (RM.getRole_matcher.trans (hi.matcher.trans (hm.trans hnone))) n r
    · obtain ⟨dm', rm, e', hi, _⟩ := h.query hd (fun rm => rm.getUsers n) (fun rm Lk hi => hi.getUsers_state n)
        fuel π hc hl
      refine ⟨_, by rw [DM.getUsers, e']; rfl, fun u => ?_⟩
      have hg := hi.inv.getRole n
      have hmm : (rm.getRole n).1.matcher = none := RM.getRole_matcher.trans (hi.matcher.trans (hm.trans hnone))
      show u ∈ (rm.getRole n).1.rangeUsers n ↔ _
      rw [hg.mem_rangeUsers]
      constructor
      · rintro (x | ⟨p, _, y⟩ | ⟨p, _, y⟩)
        · exact x
        · exact absurd y (hg.no_matched hmm _ _)
        · exact absurd y (hg.no_matched hmm _ _)
      · exact Or.inl

/-! ## What the description says -/

/-- Marks come from a pattern domain that the domain matches. -/
def Marked (s : DomState) : Prop := ∀ d u r, s.used d → s.copied d u r → ∃ q, s.covers q d

theorem Marked.add {s : DomState} (h : Marked s) (u r x : Str) : Marked (s.add u r x) := by
  intro d a b hu hc
  rcases hc with (⟨hu', hc⟩ | ⟨_, _, p, hp, _⟩) | ⟨_, _, hc⟩
  · exact h d a b hu' hc
  · exact ⟨p, hp⟩
  · exact ⟨x, hc⟩

theorem Marked.del {s : DomState} (h : Marked s) (u r x : Str) : Marked (s.del u r x) := by
  intro d a b hu hc
  rcases hc.1 with ⟨hu', hc⟩ | ⟨_, _, p, hp, _⟩
  · exact h d a b hu' hc
  · exact ⟨p, hp⟩

theorem marked_empty (m dmm : Option PMatcher) : Marked (DomState.empty m dmm) := fun _ _ _ h => h.elim

theorem Marked.steps {s t : DomState} {cs : List Call} (hs : Steps s cs t) : Marked s → Marked t := by
  induction hs with
  | nil s => exact id
  | @cons s t v c cs h _ ih =>
    intro hm
    refine ih ?_
    cases h with
    | op o =>
      cases o with
      | add u r π => exact hm.add u r _
      | del u r π => exact hm.del u r _
      | clear => exact marked_empty _ _
      | hasLink u r π => exact hm
      | getRoles n π => exact hm
      | getUsers n π => exact hm
    | setMatcher m order => exact fun _ _ _ _ h => h.elim
    | setDomainMatcher m order ls hn hl =>
      have : ∀ (ls : List (Str × Str × Str)) (s : DomState), Marked s →
          Marked (ls.foldl (fun t l => t.add l.1 l.2.1 l.2.2) s) := by
        intro ls
        induction ls with
        | nil => exact fun _ h => h
        | cons l ls ih => exact fun s h => ih _ (h.add _ _ _)
      exact this ls _ (marked_empty _ _)

theorem OneLevel.snoc_op {dmm : Option PMatcher} {cs : List Call} (h : OneLevel dmm cs) (o : Op)
    (ho : o.isQuery = false) (hc : Clean o.path) (hl : o.path.length ≤ 1) : OneLevel dmm (cs ++ [.op o]) := by
  have hu : ∀ pm, used dmm (cs ++ [.op o]) pm → used dmm cs pm := by
    rintro pm (h | ⟨order, h⟩)
    · exact Or.inl h
    · exact Or.inr ⟨order, by simpa using h⟩
  refine ⟨fun o' ho' => ?_, fun pm hp => h.2.1 pm (hu pm hp), fun o' ho' hq pm hp => ?_⟩
  · simp only [List.mem_append, List.mem_singleton, Call.op.injEq] at ho'
    rcases ho' with ho' | rfl
    · exact h.1 o' ho'
    · exact ⟨hc, hl⟩
  · simp only [List.mem_append, List.mem_singleton, Call.op.injEq] at ho'
    rcases ho' with ho' | rfl
    · exact h.2.2 o' ho' hq pm (hu pm hp)
    · rw [ho] at hq; cases hq

theorem steps_append {s t : DomState} {cs : List Call} {c : Call} (h : Steps s (cs ++ [c]) t) :
    ∃ v, Steps s cs v ∧ Step v c t := by
  induction cs generalizing s with
  | nil =>
    cases h with
    | cons h1 h2 => cases h2; exact ⟨s, .nil s, h1⟩
  | cons d ds ih =>
    cases h with
    | cons h1 h2 =>
      obtain ⟨v, hv, hs⟩ := ih h2
      exact ⟨v, .cons h1 hv, hs⟩

/-- C29 for histories with deletions, `Clear` and matchers set at any time.  After any calls, a link added to a pattern
domain `p` counts in every domain `d` that matches `p`, used before or not.

Missing: a pattern domain `p` that itself matches another pattern (`c29_fails`), and `d` that is a pattern not used
before (which is given nothing); paths of more than one domain; questions about patterns (`c31_fails`). -/
theorem c29_any_calls_partial (fuel L : Nat) (hL : 4 ≤ L) (m dmm : Option PMatcher) (cs : List Call) (hp : Perms cs)
    (h1 : OneLevel dmm cs) (pm : PMatcher) (hn : nowDomain dmm cs = some pm) (u r p d : Str) (hcp : Clean [p])
    (hcd : Clean [d]) (hpd : pm.covers p d) (hdp : pm.isPattern d = false) (htop : ∀ q, ¬ pm.covers q p) :
    (calls (fuel + 2) (new L m dmm) (cs ++ [.op (.add u r [p])])).bind
      (fun dm => (dm.hasLink (fuel + 2) u r [d]).map (·.2)) = .ok true := by
  have h2 : OneLevel dmm (cs ++ [.op (.add u r [p])]) := h1.snoc_op _ rfl hcp (by simp [Op.path])
  obtain ⟨dm, S, e, hs, _, _, hall⟩ := c82_exact fuel L m dmm _ (hp.op _) h2
  obtain ⟨V, hv, hst⟩ := steps_append hs
  have hmk : Marked V := Marked.steps hv (marked_empty _ _)
  have hdm : V.dmm = some pm := (steps_m hv).2.trans hn
  cases hst with
  | op _ =>
    rw [e]
    refine (hall [d] hcd (by simp)).2.1 (by simpa using hL) u r ?_
    have hcov : V.covers p d := ⟨pm, hdm, hpd⟩
    show (V.add u r p).linkAt d u r
    by_cases hu : V.used d
    · exact Or.inl ⟨Or.inl hu, Or.inr ⟨rfl, rfl, Or.inr hcov⟩⟩
    · refine Or.inr ⟨?_, ?_, p, hcov, Or.inr rfl, Or.inr ⟨rfl, rfl, Or.inl rfl⟩, ?_⟩
      · rintro (h | h)
        · exact hu h
        · exact hpd.2.1 h
      · rintro ⟨pm', e', h'⟩
        have e' : V.dmm = some pm' := e'
        rw [hdm] at e'; cases e'
        rw [hdp] at h'; cases h'
      · rintro ((⟨hup, hc⟩ | ⟨_, _, q, ⟨pm', e', hq⟩, _⟩) | ⟨_, _, pm', e', hq⟩)
        · obtain ⟨q, pm', e', hq⟩ := hmk p u r hup hc
          rw [hdm] at e'; cases e'
          exact htop q hq
        · rw [hdm] at e'; cases e'
          exact htop q hq
        · exact hq.2.1 rfl

theorem OneLevel.snoc_set {dmm : Option PMatcher} {cs : List Call} (h : OneLevel dmm cs) (m' : Option PMatcher)
    (order : List (Str × Str) → List (Str × Str)) : OneLevel dmm (cs ++ [.setMatcher m' order]) := by
  have hu : ∀ pm, used dmm (cs ++ [.setMatcher m' order]) pm → used dmm cs pm := by
    rintro pm (h | ⟨order, h⟩)
    · exact Or.inl h
    · exact Or.inr ⟨order, by simpa using h⟩
  exact ⟨fun o' ho' => h.1 o' (by simpa using ho'), fun pm hp => h.2.1 pm (hu pm hp),
    fun o' ho' hq pm hp => h.2.2 o' (by simpa using ho') hq pm (hu pm hp)⟩

/-- C26 for `SetMatcher` with pattern domains.  After any calls, `SetMatcher` keeps exactly the links listed by
`Range`, and these are honoured in their domains (whatever the matchers).

Missing: the copies of links of pattern domains, which `Range` does not list, are lost (`c26_fails`); paths of more
than one domain (`c26_domains_set_matcher_partial`, without patterns). -/
theorem c26_pattern_domains_partial (fuel L : Nat) (m dmm m' : Option PMatcher) (cs : List Call) (hp : Perms cs)
    (h1 : OneLevel dmm cs) (order : List (Str × Str) → List (Str × Str)) (ho : ∀ l, (order l).Perm l) :
    ∃ dm dm', calls (fuel + 2) (new L m dmm) cs = .ok dm ∧
      calls (fuel + 2) (new L m dmm) (cs ++ [.setMatcher m' order]) = .ok dm' ∧
      (∀ l, l ∈ dm'.range ↔ l ∈ dm.range) ∧ dm'.range.Nodup ∧
      ∀ u r π, (u, r, π) ∈ dm.range → π.length + 3 ≤ L → (dm'.hasLink (fuel + 2) u r π).map (·.2) = .ok true := by
  obtain ⟨dm, S, e, hs, h, hd⟩ := shows_calls fuel L cs _ _ (shows_new L m dmm) hp h1
  have h' := h.setMatcher m' order ho
  refine ⟨dm, _, e, by rw [calls_append, e]; rfl, ?_, h'.range_nodup, ?_⟩
  · rintro ⟨u, r, π⟩
    rw [h'.range, h.range]
    simp [DomState.own, DomState.setMatcher]
  · intro u r π hr hL
    obtain ⟨hc, hl, ho⟩ := (h.range u r π).1 hr
    obtain ⟨dm', rm, e', hi, _⟩ := h'.query hd (fun rm => rm.hasLink u r) (fun rm Lk hi => hi.hasLink_state u r)
      fuel π hc hl
    rw [DM.hasLink, e', ← RM.HasR.honours hi (by omega) (Or.inl ⟨ho.1, ho⟩)]
    rfl

end DM

open DM RolesExample DomainsExample

/-- C82: domain patterns such as `*` also match the name `"RoleManager"`, under which the links without a domain are
kept.  A link added in the domain `*` counts in every question without a domain. -/
theorem c82_default_leak : ∃ (m : PMatcher) (u r p : Str), m.Flat ∧ p ≠ defaultDomain ∧
    m.isPattern defaultDomain = false ∧
    ask 5 10 none (some m) [] u r [] = .ok false ∧ ask 5 10 none (some m) [.add u r [p]] u r [] = .ok true :=
  ⟨star, a, b, p, star_flat, by decide, by decide, by decide, by decide⟩

/-- The calls of the examples: deletions, patterns, and matchers set at any time. -/
def DomainsExample.cs : List Call :=
  [.op (.add c d [x]), .setDomainMatcher (some star) id, .op (.add a b [p]), .op (.hasLink a b [x]),
    .op (.del a b [x]), .setMatcher none List.reverse, .op (.add b c [q])]

theorem DomainsExample.cs_perms : Perms cs := by
  constructor
  · intro m order h
    simp only [cs, List.mem_cons, reduceCtorEq, Call.setMatcher.injEq, false_or, or_false, List.not_mem_nil] at h
    rw [h.2]; exact fun l => List.reverse_perm l
  · intro m order h
    simp only [cs, List.mem_cons, reduceCtorEq, Call.setDomainMatcher.injEq, false_or, or_false, List.not_mem_nil] at h
    rw [h.2]; exact fun l => List.Perm.refl l

theorem DomainsExample.cs_one : OneLevel none cs := by
  have hu : ∀ pm, used none cs pm → pm = star := by
    rintro pm (h | ⟨order, h⟩)
    · cases h
    · simp only [cs, List.mem_cons, reduceCtorEq, Call.setDomainMatcher.injEq, false_or, or_false, List.not_mem_nil,
        Option.some.injEq] at h
      exact h.1
  have hx : Clean [x] ∧ Clean [p] ∧ Clean [q] := by
    refine ⟨?_, ?_, ?_⟩ <;> intro e he <;> simp only [List.mem_singleton] at he <;> subst he <;> decide
  refine ⟨fun o ho => ?_, fun pm h => ?_, fun o ho hq pm h e he => ?_⟩
  · simp only [cs, List.mem_cons, reduceCtorEq, Call.op.injEq, false_or, or_false, List.not_mem_nil] at ho
    rcases ho with rfl | rfl | rfl | rfl | rfl
    · exact ⟨hx.1, by decide⟩
    · exact ⟨hx.2.1, by decide⟩
    · exact ⟨hx.1, by decide⟩
    · exact ⟨hx.1, by decide⟩
    · exact ⟨hx.2.2, by decide⟩
  · rw [hu pm h]; decide
  · rw [hu pm h]
    simp only [cs, List.mem_cons, reduceCtorEq, Call.op.injEq, false_or, or_false, List.not_mem_nil] at ho
    rcases ho with rfl | rfl | rfl | rfl | rfl
    · cases hq
    · cases hq
    · simp only [Op.path, List.mem_singleton] at he
      subst he; decide
    · cases hq
    · cases hq

-- C82, C29, C26: a link of `*p` counts in the new domain `y` after these calls; the deleted one does not count in `x`
example : (calls 5 (new 10 none none) cs).map range = .ok [(c, d, [x]), (a, b, [p]), (b, c, [q])] := by decide +kernel
example : (calls 5 (new 10 none none) cs).bind (fun dm => (dm.hasLink 5 a b [y]).map (·.2)) = .ok true ∧
    (calls 5 (new 10 none none) cs).bind (fun dm => (dm.hasLink 5 a b [x]).map (·.2)) = .ok false := by decide +kernel
example : nowDomain none cs = some star ∧ star.covers p y ∧ star.isPattern y = false :=
  ⟨rfl, by unfold PMatcher.covers; decide, rfl⟩
example : ∀ w, ¬ star.covers w p := by
  rintro w ⟨h1, h2, h3⟩
  have := star_flat p w rfl h1 h2
  rw [h3] at this; cases this

end Fastac
