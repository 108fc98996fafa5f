import Verif.Spec.Domains
import Verif.Lemmas.RoleRuns

/-! # Domain managers without a domain matcher: one independent role manager per domain path -/

namespace Fastac

namespace DM

/-- The role manager stored for a domain path. -/
def «at» : DM → List Str → Option RM
  | dm, [] => dm.dflt
  | dm, d :: π =>
    match dm.subs.get d with
    | none => none
    | some s => s.at π

/-- No pattern domain in use, distinct keys, and levels decreasing along the tree. -/
inductive Quiet (m dmm : Option PMatcher) : Nat → DM → Prop
  | mk {L : Nat} {dflt : Option RM} {subs : List (Str × DM)}
      (hw : GoMap.WF subs) (h : ∀ d s, GoMap.get subs d = some s → Quiet m dmm (L - 1) s) :
      Quiet m dmm L (DM.mk dflt subs [] L m dmm)

/-- No domain matcher anywhere. -/
abbrev Plain (m : Option PMatcher) : Nat → DM → Prop := Quiet m none

theorem noPattern_none (ds : List Str) : NoPattern none ds := by intro m h; cases h

theorem NoPattern.tail {dmm : Option PMatcher} {d : Str} {ds : List Str} (h : NoPattern dmm (d :: ds)) :
    NoPattern dmm ds := fun m e => ⟨(h m e).1, fun x hx => (h m e).2 x (by simp [hx])⟩

theorem NoPattern.dflt {dmm : Option PMatcher} {ds : List Str} (h : NoPattern dmm ds) :
    ∀ m, dmm = some m → m.isPattern defaultDomain = false := fun m e => (h m e).1

theorem NoPattern.head {dmm : Option PMatcher} {d : Str} {ds : List Str} (h : NoPattern dmm (d :: ds)) :
    ∀ m, dmm = some m → m.isPattern d = false := fun m e => (h m e).2 d (by simp)

/-- The role manager of a domain path, a new one if there is none. -/
def atD (dm : DM) (L : Nat) (m : Option PMatcher) (π : List Str) : RM :=
  (dm.at π).getD (RM.new (L - 1 - π.length) m)

theorem quiet_new (L : Nat) (m dmm : Option PMatcher) : Quiet m dmm L (new L m dmm) :=
  Quiet.mk GoMap.WF.nil (fun d s h => by simp [GoMap.get] at h)

theorem plain_new (L : Nat) (m : Option PMatcher) : Plain m L (new L m) := quiet_new L m none

theorem getDomain_clean {d : Str} {π : List Str} (h : Clean (d :: π)) :
    getDomain (d :: π) = (some d, π) := by
  have := h d (by simp)
  simp [getDomain, this.1, this.2]

theorem Clean.tail {d : Str} {π : List Str} (h : Clean (d :: π)) : Clean π :=
  fun x hx => h x (by simp [hx])

theorem newDomain_quiet {m dmm : Option PMatcher} {L : Nat} {dm : DM} (h : Quiet m dmm L dm) {d : Str}
    (hd : ∀ pm, dmm = some pm → pm.isPattern d = false) : dm.newDomain d = .ok (dm, []) := by
  cases h with
  | mk hw h =>
    rename_i dflt subs
    cases dmm with
    | none => rfl
    | some pm => simp [newDomain, DM.domMatcher, hd pm rfl, matchingPatterns, DM.patterns, patternLinks, Res.map]

theorem getDefault_quiet {m dmm : Option PMatcher} {L : Nat} {dm : DM} (h : Quiet m dmm L dm)
    (hd : ∀ pm, dmm = some pm → pm.isPattern defaultDomain = false) :
    dm.getDefault = .ok (dm, dm.atD L m []) := by
  have hn := newDomain_quiet h hd
  cases h with
  | mk hw h =>
    rename_i dflt subs
    cases dflt <;> simp [getDefault, DM.dflt, hn, DM.level, DM.matcher, atD, DM.at,
      Res.map]

theorem getSub_quiet {m dmm : Option PMatcher} {L : Nat} {dm : DM} (h : Quiet m dmm L dm)
    (add : DM → Str → Str → List Str → Res (DM × Bool)) {d : Str}
    (hd : ∀ pm, dmm = some pm → pm.isPattern d = false) :
    getSub add dm d = .ok (dm, (dm.subs.get d).getD (new (L - 1) m dmm)) := by
  have hn := newDomain_quiet h hd
  cases h with
  | mk hw h =>
    rename_i dflt subs
    simp only [getSub, hn, DM.subs]
    cases e : GoMap.get subs d <;>
      simp [DM.domMatcher, DM.level, DM.matcher, Res.map, Res.bind]

theorem propagate_quiet {m dmm : Option PMatcher} {L : Nat} {dm : DM} (h : Quiet m dmm L dm) {d : Str}
    (hd : ∀ pm, dmm = some pm → pm.isPattern d = false)
    (f : DM → Res DM) (g : RM → RM) : dm.propagate d f g = .ok dm := by
  cases h with
  | mk hw h =>
    cases dmm with
    | none => simp [propagate, DM.domMatcher]
    | some pm => simp [propagate, DM.domMatcher, hd pm rfl]

theorem getDefault_plain {m : Option PMatcher} {L : Nat} {dm : DM} (h : Plain m L dm) :
    dm.getDefault = .ok (dm, dm.atD L m []) := getDefault_quiet h (noPattern_none []).dflt

theorem getSub_plain {m : Option PMatcher} {L : Nat} {dm : DM} (h : Plain m L dm)
    (add : DM → Str → Str → List Str → Res (DM × Bool)) (d : Str) :
    getSub add dm d = .ok (dm, (dm.subs.get d).getD (new (L - 1) m)) :=
  getSub_quiet h add (noPattern_none [d]).head

theorem Quiet.setDflt {m dmm : Option PMatcher} {L : Nat} {dm : DM} (h : Quiet m dmm L dm) (rm : RM) :
    Quiet m dmm L (dm.setDflt rm) := by
  cases h with
  | mk hw h => exact Quiet.mk hw h

theorem Quiet.setSub {m dmm : Option PMatcher} {L : Nat} {dm : DM} (h : Quiet m dmm L dm) {s : DM}
    (hs : Quiet m dmm (L - 1) s) (d : Str) : Quiet m dmm L (dm.setSub d s) := by
  cases h with
  | mk hw h =>
    refine Quiet.mk (hw.set _ _) ?_
    intro k t hk
    simp only [DM.subs, GoMap.get_set] at hk
    split at hk
    · cases hk; exact hs
    · exact h k t hk

theorem Quiet.sub {m dmm : Option PMatcher} {L : Nat} {dm : DM} (h : Quiet m dmm L dm) (d : Str) :
    Quiet m dmm (L - 1) ((dm.subs.get d).getD (new (L - 1) m dmm)) := by
  cases h with
  | mk hw h =>
    rename_i dflt subs
    simp only [DM.subs]
    cases e : GoMap.get subs d with
    | none => exact quiet_new _ _ _
    | some s => exact h d s e

@[simp] theorem at_setDflt_nil (dm : DM) (rm : RM) : (dm.setDflt rm).at [] = some rm := rfl
@[simp] theorem at_setDflt_cons (dm : DM) (rm : RM) (d : Str) (π : List Str) :
    (dm.setDflt rm).at (d :: π) = dm.at (d :: π) := by
  simp [DM.at, setDflt, DM.subs]
@[simp] theorem at_setSub_nil (dm : DM) (d : Str) (s : DM) : (dm.setSub d s).at [] = dm.at [] := rfl
theorem at_setSub_cons (dm : DM) (d k : Str) (s : DM) (π : List Str) :
    (dm.setSub d s).at (k :: π) = if k = d then s.at π else dm.at (k :: π) := by
  simp only [DM.at, setSub, DM.subs, GoMap.get_set]
  by_cases h : k = d
  · simp [h]
  · simp [h, Ne.symm (show k ≠ d from h)]

theorem at_new (L : Nat) (m d : Option PMatcher) (π : List Str) : (new L m d).at π = none := by
  cases π <;> simp [DM.at, new, DM.dflt, DM.subs]

theorem at_cons (dm : DM) (L : Nat) (m dmm : Option PMatcher) (d : Str) (π : List Str) :
    dm.at (d :: π) = ((dm.subs.get d).getD (new L m dmm)).at π := by
  simp only [DM.at]
  cases dm.subs.get d <;> simp [at_new]

theorem atD_cons (dm : DM) (L : Nat) (m dmm : Option PMatcher) (d : Str) (π : List Str) :
    dm.atD L m (d :: π) = ((dm.subs.get d).getD (new (L - 1) m dmm)).atD (L - 1) m π := by
  unfold atD
  rw [at_cons dm (L - 1) m dmm, List.length_cons, show L - 1 - (π.length + 1) = L - 1 - 1 - π.length from by omega]

theorem addLink_quiet {m dmm : Option PMatcher} (u r : Str) : ∀ (π : List Str) (fuel : Nat) (L : Nat) (dm : DM),
    Clean π → NoPattern dmm π → π.length < fuel → Quiet m dmm L dm →
    ∃ dm', addLink fuel dm u r π = .ok (dm', ((dm.atD L m π).addLink u r []).2) ∧ Quiet m dmm L dm' ∧
      dm'.at π = some ((dm.atD L m π).addLink u r []).1 ∧ ∀ π', π' ≠ π → dm'.at π' = dm.at π'
  | [], fuel + 1, L, dm, _, np, _, h => by
    refine ⟨dm.setDflt ((dm.atD L m []).addLink u r []).1, ?_, h.setDflt _, rfl, ?_⟩
    · rw [addLink]
      simp only [getDomain, getDefault_quiet h np.dflt, Res.bind, propagate_quiet (h.setDflt _) np.dflt, Res.map]
    · intro π' hπ
      cases π' with
      | nil => exact absurd rfl hπ
      | cons d π => simp
  | d :: π, fuel + 1, L, dm, hc, np, hf, h => by
    obtain ⟨s', e, hp, ha, ho⟩ := addLink_quiet u r π fuel (L - 1) _ hc.tail
      np.tail (by simpa using hf) (h.sub d)
    refine ⟨dm.setSub d s', ?_, h.setSub hp d, ?_, ?_⟩
    · rw [addLink]
      simp only [getDomain_clean hc, getSub_quiet h _ np.head, Res.bind, e, propagate_quiet (h.setSub hp d) np.head, Res.map]
      rw [atD_cons _ _ _ dmm]
    · rw [at_setSub_cons, if_pos rfl, ha, atD_cons _ _ _ dmm]
    · intro π' hπ
      cases π' with
      | nil => rfl
      | cons k π' =>
        rw [at_setSub_cons]
        split
        · rename_i hk
          subst hk
          rw [ho π' (fun e => hπ (by rw [e])), at_cons dm (L - 1) m dmm]
        · rfl

theorem deleteLink_quiet {m dmm : Option PMatcher} (u r : Str) : ∀ (π : List Str) (fuel : Nat) (L : Nat) (dm : DM),
    Clean π → NoPattern dmm π → π.length < fuel → Quiet m dmm L dm →
    ∃ dm', deleteLink fuel dm u r π = .ok (dm', ((dm.atD L m π).deleteLink u r []).2) ∧ Quiet m dmm L dm' ∧
      dm'.at π = some ((dm.atD L m π).deleteLink u r []).1 ∧ ∀ π', π' ≠ π → dm'.at π' = dm.at π'
  | [], fuel + 1, L, dm, _, np, _, h => by
    refine ⟨dm.setDflt ((dm.atD L m []).deleteLink u r []).1, ?_, h.setDflt _, rfl, ?_⟩
    · rw [deleteLink]
      simp only [getDomain, getDefault_quiet h np.dflt, Res.bind, propagate_quiet (h.setDflt _) np.dflt, Res.map]
    · intro π' hπ
      cases π' with
      | nil => exact absurd rfl hπ
      | cons d π => simp
  | d :: π, fuel + 1, L, dm, hc, np, hf, h => by
    obtain ⟨s', e, hp, ha, ho⟩ := deleteLink_quiet u r π fuel (L - 1) _ hc.tail
      np.tail (by simpa using hf) (h.sub d)
    refine ⟨dm.setSub d s', ?_, h.setSub hp d, ?_, ?_⟩
    · rw [deleteLink]
      simp only [getDomain_clean hc, getSub_quiet h _ np.head, Res.bind, e, propagate_quiet (h.setSub hp d) np.head, Res.map]
      rw [atD_cons _ _ _ dmm]
    · rw [at_setSub_cons, if_pos rfl, ha, atD_cons _ _ _ dmm]
    · intro π' hπ
      cases π' with
      | nil => rfl
      | cons k π' =>
        rw [at_setSub_cons]
        split
        · rename_i hk
          subst hk
          rw [ho π' (fun e => hπ (by rw [e])), at_cons dm (L - 1) m dmm]
        · rfl

theorem query_quiet {m dmm : Option PMatcher} {β : Type} (q : RM → RM × β) :
    ∀ (π : List Str) (fuel : Nat) (L : Nat) (dm : DM),
    Clean π → NoPattern dmm π → π.length < fuel → Quiet m dmm L dm →
    ∃ dm', query q fuel dm π = .ok (dm', (q (dm.atD L m π)).2) ∧ Quiet m dmm L dm' ∧
      dm'.at π = (dm.at π).map (fun rm => (q rm).1) ∧ ∀ π', π' ≠ π → dm'.at π' = dm.at π'
  | [], fuel + 1, L, dm, _, np, _, h => by
    rw [query]
    simp only [getDomain, getDefault_quiet h np.dflt, Res.map]
    cases e : dm.dflt with
    | none =>
      refine ⟨dm, rfl, h, ?_, fun _ _ => rfl⟩
      show dm.dflt = Option.map _ dm.dflt
      rw [e]; rfl
    | some rm =>
      refine ⟨_, rfl, h.setDflt _, ?_, ?_⟩
      · show some _ = Option.map _ dm.dflt
        rw [e]
        simp [atD, DM.at, e]
      · intro π' hπ
        cases π' with
        | nil => exact absurd rfl hπ
        | cons d π => simp
  | d :: π, fuel + 1, L, dm, hc, np, hf, h => by
    obtain ⟨s', e, hp, ha, ho⟩ := query_quiet q π fuel (L - 1) _ hc.tail
      np.tail (by simpa using hf) (h.sub d)
    rw [query]
    simp only [getDomain_clean hc, getSub_quiet h _ np.head, Res.bind, e, Res.map]
    cases es : dm.subs.get d with
    | none =>
      refine ⟨dm, ?_, h, ?_, fun _ _ => rfl⟩
      · rw [atD_cons _ _ _ dmm, es]; rfl
      · simp [DM.at, es]
    | some s =>
      rw [es] at e ha ho
      refine ⟨dm.setSub d s', ?_, h.setSub hp d, ?_, ?_⟩
      · rw [atD_cons _ _ _ dmm, es]; rfl
      · rw [at_setSub_cons, if_pos rfl, ha, at_cons dm (L - 1) m dmm, es]
      · intro π' hπ
        cases π' with
        | nil => rfl
        | cons k π' =>
          rw [at_setSub_cons]
          split
          · rename_i hk
            subst hk
            rw [ho π' (fun e => hπ (by rw [e])), at_cons dm (L - 1) m dmm, es]
          · rfl

theorem addLink_plain {m : Option PMatcher} (u r : Str) (π : List Str) (fuel : Nat) (L : Nat) (dm : DM)
    (hc : Clean π) (hf : π.length < fuel) (h : Plain m L dm) :
    ∃ dm', addLink fuel dm u r π = .ok (dm', ((dm.atD L m π).addLink u r []).2) ∧ Plain m L dm' ∧
      dm'.at π = some ((dm.atD L m π).addLink u r []).1 ∧ ∀ π', π' ≠ π → dm'.at π' = dm.at π' :=
  addLink_quiet u r π fuel L dm hc (noPattern_none _) hf h

theorem deleteLink_plain {m : Option PMatcher} (u r : Str) (π : List Str) (fuel : Nat) (L : Nat) (dm : DM)
    (hc : Clean π) (hf : π.length < fuel) (h : Plain m L dm) :
    ∃ dm', deleteLink fuel dm u r π = .ok (dm', ((dm.atD L m π).deleteLink u r []).2) ∧ Plain m L dm' ∧
      dm'.at π = some ((dm.atD L m π).deleteLink u r []).1 ∧ ∀ π', π' ≠ π → dm'.at π' = dm.at π' :=
  deleteLink_quiet u r π fuel L dm hc (noPattern_none _) hf h

/-! ## Histories -/

/-- The domain manager is a family of independent role managers. -/
structure Sim (m dmm : Option PMatcher) (L : Nat) (H : List Op) (dm : DM) : Prop where
  quiet : Quiet m dmm L dm
  «at» : ∀ π, dm.atD L m π = (RM.new (L - 1 - π.length) m).run (H.filterMap (Op.on π))

theorem atD_eq_of_at {dm dm' : DM} {L : Nat} {m : Option PMatcher} {π : List Str}
    (h : dm'.at π = dm.at π) : dm'.atD L m π = dm.atD L m π := by
  unfold atD; rw [h]

theorem sim_new (m dmm : Option PMatcher) (L : Nat) : Sim m dmm L [] (new L m dmm) :=
  ⟨quiet_new L m dmm, fun π => by simp [atD, at_new, RM.run]⟩

theorem run_snoc (rm : RM) (H : List Op) (op : Op) (π : List Str) :
    rm.run ((H ++ [op]).filterMap (Op.on π)) =
      match op.on π with
      | none => rm.run (H.filterMap (Op.on π))
      | some o => (rm.run (H.filterMap (Op.on π))).step o := by
  rw [List.filterMap_append, RM.run_append]
  cases h : op.on π <;> simp [h, RM.run]

theorem Sim.upd {m dmm : Option PMatcher} {L : Nat} {H : List Op} {dm dm' : DM} (h : Sim m dmm L H dm)
    {op : Op} {o : LinkOp} {ds : List Str} (hp : Quiet m dmm L dm')
    (hon : ∀ π, op.on π = if ds = π then some o else none)
    (hat : dm'.atD L m ds = (dm.atD L m ds).step o)
    (hoff : ∀ π', π' ≠ ds → dm'.at π' = dm.at π') : Sim m dmm L (H ++ [op]) dm' := by
  refine ⟨hp, fun π => ?_⟩
  rw [run_snoc, hon]
  by_cases hd : ds = π
  · subst hd
    rw [hat, h.at, if_pos rfl]
  · rw [if_neg hd, atD_eq_of_at (hoff π (fun e => hd e.symm)), h.at]

theorem Sim.after {m dmm : Option PMatcher} {L : Nat} {H : List Op} {dm : DM} (h : Sim m dmm L H dm)
    (π : List Str) :
    RM.After (L - 1 - π.length) m (H.filterMap (Op.on π)) (dm.atD L m π) := by
  rw [h.at]; exact RM.after_run _ _ _

theorem query_atD {dm dm' : DM} {L : Nat} {m : Option PMatcher} {π : List Str} {β : Type}
    {q : RM → RM × β} (h : dm'.at π = (dm.at π).map (fun rm => (q rm).1))
    (hq : ∀ lvl, (q (RM.new lvl m)).1 = RM.new lvl m) :
    dm'.atD L m π = (q (dm.atD L m π)).1 := by
  unfold atD
  rw [h]
  cases dm.at π with
  | none => exact (hq _).symm
  | some rm => rfl

theorem Sim.step {m dmm : Option PMatcher} {L : Nat} {H : List Op} {dm : DM} (h : Sim m dmm L H dm)
    (fuel : Nat) (op : Op) (hc : Clean op.path) (np : NoPattern dmm op.path) (hf : op.path.length < fuel) :
    ∃ dm', dm.step fuel op = .ok dm' ∧ Sim m dmm L (H ++ [op]) dm' := by
  cases op with
  | add u r ds =>
    obtain ⟨dm', e, hp, ha, ho⟩ := addLink_quiet u r ds fuel L dm hc np hf h.quiet
    refine ⟨dm', by simp [DM.step, e, Res.map], h.upd (o := .add u r) hp (fun π => rfl) ?_ ho⟩
    rw [atD, ha]; rfl
  | del u r ds =>
    obtain ⟨dm', e, hp, ha, ho⟩ := deleteLink_quiet u r ds fuel L dm hc np hf h.quiet
    refine ⟨dm', by simp [DM.step, e, Res.map], h.upd (o := .del u r) hp (fun π => rfl) ?_ ho⟩
    rw [atD, ha]; rfl
  | clear =>
    refine ⟨dm.clear, rfl, ?_, fun π => ?_⟩
    · cases h.quiet with
      | mk hw h => exact quiet_new _ _ _
    · rw [run_snoc]
      have A := h.after π
      show _ = RM.clear _
      rw [← h.at, atD]
      have e : dm.clear.at π = none := by cases dm; exact at_new _ _ _ _
      rw [e]
      show RM.new _ _ = _
      unfold RM.clear RM.new
      rw [A.matcher, A.level]
  | hasLink u r ds =>
    obtain ⟨dm', e, hp, ha, ho⟩ := query_quiet (fun rm => rm.hasLink u r) ds fuel L dm hc np hf h.quiet
    refine ⟨dm', by simp [DM.step, DM.hasLink, e, Res.map],
      h.upd (o := .hasLink u r) hp (fun π => rfl) ?_ ho⟩
    exact query_atD ha (fun lvl => (RM.new_inv lvl m).hasLink_state u r)
  | getRoles n ds =>
    obtain ⟨dm', e, hp, ha, ho⟩ := query_quiet (fun rm => rm.getRoles n) ds fuel L dm hc np hf h.quiet
    refine ⟨dm', by simp [DM.step, DM.getRoles, e, Res.map],
      h.upd (o := .getRoles n) hp (fun π => rfl) ?_ ho⟩
    exact query_atD ha (fun lvl => (RM.new_inv lvl m).getRoles_state n)
  | getUsers n ds =>
    obtain ⟨dm', e, hp, ha, ho⟩ := query_quiet (fun rm => rm.getUsers n) ds fuel L dm hc np hf h.quiet
    refine ⟨dm', by simp [DM.step, DM.getUsers, e, Res.map],
      h.upd (o := .getUsers n) hp (fun π => rfl) ?_ ho⟩
    exact query_atD ha (fun lvl => (RM.new_inv lvl m).getUsers_state n)

theorem Sim.run {m dmm : Option PMatcher} {L : Nat} (fuel : Nat) : ∀ (ops H : List Op) (dm : DM),
    Sim m dmm L H dm → (∀ op ∈ ops, Clean op.path ∧ op.path.length < fuel) →
    (∀ op ∈ ops, NoPattern dmm op.path) →
    ∃ dm', dm.run fuel ops = .ok dm' ∧ Sim m dmm L (H ++ ops) dm'
  | [], H, dm, h, _, _ => ⟨dm, rfl, by simpa using h⟩
  | op :: ops, H, dm, h, hops, np => by
    obtain ⟨d1, e1, h1⟩ := h.step fuel op (hops op (by simp)).1 (np op (by simp)) (hops op (by simp)).2
    obtain ⟨d2, e2, h2⟩ := Sim.run fuel ops _ d1 h1 (fun o ho => hops o (by simp [ho]))
      (fun o ho => np o (by simp [ho]))
    refine ⟨d2, ?_, ?_⟩
    · rw [DM.run, e1]; exact e2
    · simpa using h2

end DM

end Fastac
