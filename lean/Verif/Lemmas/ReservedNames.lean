import Verif.Lemmas.DomainManager

/-!
# Domain paths with the reserved names

Such a path stands for the part before the first reserved name; what comes after it can at most mark a link as redundant,
which no question depends on.
-/

namespace Fastac

/-- Without the marks. -/
def unmarked (o : Str → Role) : Str → Role := fun n => { o n with redundant := [] }

def RM.unmark (rm : RM) : RM := { rm with obj := unmarked rm.obj }

theorem unmarked_upd (o : Str → Role) (n : Str) (f g : Role → Role)
    (h : ∀ x : Role, { f x with redundant := [] } = g { x with redundant := [] }) :
    unmarked (updRole o n f) = updRole (unmarked o) n g := by
  funext k
  simp only [unmarked, updRole]
  split
  · exact h _
  · rfl

theorem unmarked_addMatch (o : Str → Role) (p r : Str) : unmarked (addMatch o p r) = addMatch (unmarked o) p r := by
  unfold addMatch
  rw [unmarked_upd _ _ _ (fun x => { x with matchedBy := sins x.matchedBy p }) (fun _ => rfl),
    unmarked_upd _ _ _ (fun x => { x with matched := sins x.matched r }) (fun _ => rfl)]

theorem unmarked_removeMatch (o : Str → Role) (p r : Str) :
    unmarked (removeMatch o p r) = removeMatch (unmarked o) p r := by
  unfold removeMatch
  rw [unmarked_upd _ _ _ (fun x => { x with matchedBy := sdel x.matchedBy p }) (fun _ => rfl),
    unmarked_upd _ _ _ (fun x => { x with matched := sdel x.matched r }) (fun _ => rfl)]

theorem unmarked_fold (f : (Str → Role) → Str → Str → Role) (h : ∀ o k, unmarked (f o k) = f (unmarked o) k) :
    ∀ (l : List Str) (o : Str → Role), unmarked (l.foldl f o) = l.foldl f (unmarked o)
  | [], _ => rfl
  | k :: l, o => by
    rw [List.foldl_cons, unmarked_fold f h l, h]; rfl

namespace RM

theorem unmark_getRole (rm : RM) (n : Str) : rm.unmark.getRole n = ((rm.getRole n).1.unmark, (rm.getRole n).2) := by
  have hn : rm.unmark.names = rm.names := rfl
  have hm : rm.unmark.matcher = rm.matcher := rfl
  have hp : rm.unmark.patterns = rm.patterns := rfl
  have ho : rm.unmark.obj = unmarked rm.obj := rfl
  have hu : unmarked (updRole rm.obj n (fun _ => {})) = updRole (unmarked rm.obj) n (fun _ => {}) :=
    unmarked_upd _ _ _ _ (fun _ => rfl)
  simp only [getRole, hn, hm, hp, ho]
  by_cases h : n ∈ rm.names
  · simp only [if_pos h]
  · simp only [if_neg h]
    cases e : rm.matcher with
    | none => simp only [RM.unmark, hu, e]
    | some m =>
      by_cases hpat : m.isPattern n = true
      · simp only [if_pos hpat, RM.unmark, e]
        rw [unmarked_fold _ (fun o k => unmarked_addMatch o n k), hu]
      · simp only [if_neg hpat, RM.unmark, e]
        rw [unmarked_fold _ (fun o p => unmarked_addMatch o p n), hu]

theorem unmark_removeRole (rm : RM) (n : Str) : rm.unmark.removeRole n = (rm.removeRole n).unmark := by
  have hn : rm.unmark.names = rm.names := rfl
  have hp : rm.unmark.patterns = rm.patterns := rfl
  have ho : rm.unmark.obj = unmarked rm.obj := rfl
  have e1 : (unmarked rm.obj n).matched = (rm.obj n).matched := rfl
  have e2 := unmarked_fold (fun o k => removeMatch o n k) (fun o k => unmarked_removeMatch o n k) (rm.obj n).matched rm.obj
  simp only [removeRole, hn, hp, ho, e1, ← e2]
  by_cases h : n ∈ rm.names
  · simp only [if_pos h, RM.unmark]
    rw [unmarked_upd _ _ _ (fun _ => {}) (fun _ => rfl), unmarked_fold _ (fun o p => unmarked_removeMatch o p n)]
    rfl
  · simp only [if_neg h, RM.unmark]

theorem unmark_addLink (rm : RM) (u r : Str) (ds : List Str) :
    rm.unmark.addLink u r [] = ((rm.addLink u r ds).1.unmark, (rm.addLink u r ds).2) := by
  have hg : ((rm.unmark.getRole u).1.getRole r).1 = ((rm.getRole u).1.getRole r).1.unmark := by
    rw [unmark_getRole, unmark_getRole]
  simp only [addLink, hg]
  generalize ((rm.getRole u).1.getRole r).1 = s
  have ho : s.unmark.obj = unmarked s.obj := rfl
  have hr : (unmarked s.obj u).roles = (s.obj u).roles := rfl
  have key : unmarked (if ds.head? = some redundantRole then
      updRole s.obj u (fun x => { x with redundant := sins x.redundant r }) else s.obj) = unmarked s.obj := by
    split
    · funext k; simp only [unmarked, updRole]; split <;> rfl
    · rfl
  have key2 : ((if ds.head? = some redundantRole then
      updRole s.obj u (fun x => { x with redundant := sins x.redundant r }) else s.obj) u).roles = (s.obj u).roles := by
    split
    · simp [updRole]
    · rfl
  have hnone : ¬ (([] : List Str).head? = some redundantRole) := by simp
  simp only [if_neg hnone, ho, key2, hr]
  generalize he : (if ds.head? = some redundantRole then
      updRole s.obj u (fun x => { x with redundant := sins x.redundant r }) else s.obj) = o at key key2
  by_cases h : r ∈ (s.obj u).roles
  · simp only [if_pos h, RM.unmark, key]
  · simp only [if_neg h, RM.unmark]
    rw [unmarked_upd _ _ _ (fun x => { x with users := sins x.users u }) (fun _ => rfl),
      unmarked_upd _ _ _ (fun x => { x with roles := sins x.roles r }) (fun _ => rfl), key]

theorem unmark_deleteLink (rm : RM) (u r : Str) (ds : List Str) :
    rm.unmark.deleteLink u r [] = ((rm.deleteLink u r ds).1.unmark, (rm.deleteLink u r ds).2) := by
  have hg : ((rm.unmark.getRole u).1.getRole r).1 = ((rm.getRole u).1.getRole r).1.unmark := by
    rw [unmark_getRole, unmark_getRole]
  simp only [deleteLink, hg]
  generalize ((rm.getRole u).1.getRole r).1 = s
  have ho : s.unmark.obj = unmarked s.obj := rfl
  have hr : (unmarked s.obj u).roles = (s.obj u).roles := rfl
  have key : unmarked (if ds.head? = some redundantRole then
      updRole s.obj u (fun x => { x with redundant := sdel x.redundant r }) else s.obj) = unmarked s.obj := by
    split
    · funext k; simp only [unmarked, updRole]; split <;> rfl
    · rfl
  have key2 : ((if ds.head? = some redundantRole then
      updRole s.obj u (fun x => { x with redundant := sdel x.redundant r }) else s.obj) u).roles = (s.obj u).roles := by
    split
    · simp [updRole]
    · rfl
  have hnone : ¬ (([] : List Str).head? = some redundantRole) := by simp
  simp only [if_neg hnone, ho, key2, hr]
  generalize he : (if ds.head? = some redundantRole then
      updRole s.obj u (fun x => { x with redundant := sdel x.redundant r }) else s.obj) = o at key key2
  by_cases h : r ∈ (s.obj u).roles
  · simp only [if_pos h, RM.unmark]
    rw [unmarked_upd _ _ _ (fun x => { x with users := sdel x.users u }) (fun _ => rfl),
      unmarked_upd _ _ _ (fun x => { x with roles := sdel x.roles r }) (fun _ => rfl), key]
  · simp only [if_neg h, RM.unmark, key]

theorem unmark_helper (rm : RM) (t : Str) : ∀ (n : Nat) (l : List Str),
    rm.unmark.hasLinkHelper t n l = rm.hasLinkHelper t n l
  | 0, _ => rfl
  | n + 1, l => by
    rw [hasLinkHelper, hasLinkHelper, unmark_helper rm t n]
    rfl

theorem unmark_hasLink (rm : RM) (u r : Str) : rm.unmark.hasLink u r = ((rm.hasLink u r).1.unmark, (rm.hasLink u r).2) := by
  have hm : rm.unmark.matches u r = rm.matches u r := rfl
  unfold hasLink
  rw [hm]
  split
  · rfl
  · rw [unmark_getRole]
    dsimp only
    rw [unmark_getRole]
    dsimp only
    rw [unmark_helper, unmark_removeRole]
    have hl : (((rm.getRole u).1.getRole r).1.unmark).level = ((rm.getRole u).1.getRole r).1.level := rfl
    rw [hl]
    refine Prod.ext ?_ rfl
    dsimp only
    split <;> split <;> first | rfl | exact unmark_removeRole _ _

theorem unmark_getRoles (rm : RM) (n : Str) : rm.unmark.getRoles n = ((rm.getRoles n).1.unmark, (rm.getRoles n).2) := by
  unfold getRoles
  rw [unmark_getRole]
  dsimp only
  rw [unmark_removeRole]
  refine Prod.ext ?_ rfl
  dsimp only
  split <;> rfl

theorem unmark_getUsers (rm : RM) (n : Str) : rm.unmark.getUsers n = ((rm.getUsers n).1.unmark, (rm.getUsers n).2) := by
  unfold getUsers
  rw [unmark_getRole]
  dsimp only
  rw [unmark_removeRole]
  refine Prod.ext ?_ rfl
  dsimp only
  split <;> rfl

theorem unmark_new (level : Nat) (m : Option PMatcher) : (RM.new level m).unmark = RM.new level m := rfl

theorem unmark_clear (rm : RM) : rm.clear.unmark = rm.unmark.clear := rfl

end RM

namespace DM

/-- What the role manager gets of a path. -/
def behind : List Str → List Str
  | [] => []
  | d :: ds => if d = redundantRole then [redundantRole] else if d = defaultDomain then ds else behind ds

/-- The first step along a path. -/
theorem getDomain_any : ∀ ds : List Str,
    (standsFor ds = [] ∧ getDomain ds = (none, behind ds)) ∨
    ∃ d ds', ds = d :: ds' ∧ standsFor ds = d :: standsFor ds' ∧ behind ds = behind ds' ∧ getDomain ds = (some d, ds')
  | [] => .inl ⟨rfl, rfl⟩
  | d :: ds => by
    by_cases h1 : d = redundantRole
    · exact .inl ⟨by simp [standsFor, h1], by simp [getDomain, behind, h1]⟩
    · by_cases h2 : d = defaultDomain
      · exact .inl ⟨by simp [standsFor, h2], by simp only [getDomain, behind, if_neg h1, if_pos h2]⟩
      · exact .inr ⟨d, ds, rfl, by simp [standsFor, h1, h2], by simp [behind, h1, h2], by simp [getDomain, h1, h2]⟩

theorem addLink_any {m dmm : Option PMatcher} (u r : Str) : ∀ (fuel : Nat) (ds : List Str) (L : Nat) (dm : DM),
    NoPattern dmm (standsFor ds) → (standsFor ds).length < fuel → Quiet m dmm L dm →
    ∃ dm', addLink fuel dm u r ds = .ok (dm', ((dm.atD L m (standsFor ds)).addLink u r (behind ds)).2) ∧
      Quiet m dmm L dm' ∧ dm'.at (standsFor ds) = some ((dm.atD L m (standsFor ds)).addLink u r (behind ds)).1 ∧
      ∀ π', π' ≠ standsFor ds → dm'.at π' = dm.at π'
  | 0, _, _, _, _, hf, _ => absurd hf (Nat.not_lt_zero _)
  | fuel + 1, ds, L, dm, np, hf, h => by
    rcases getDomain_any ds with ⟨e1, e2⟩ | ⟨d, ds', rfl, e1, e2, e3⟩
    · rw [e1] at np ⊢
      refine ⟨dm.setDflt ((dm.atD L m []).addLink u r (behind ds)).1, ?_, h.setDflt _, rfl, ?_⟩
      · rw [addLink]
        simp only [e2, getDefault_quiet h np.dflt, Res.bind, propagate_quiet (h.setDflt _) np.dflt, Res.map]
      · intro π' hπ
        cases π' with
        | nil => exact absurd rfl hπ
        | cons d π => simp
    · rw [e1] at np hf ⊢
      rw [e2]
      obtain ⟨s', e, hp, ha, ho⟩ := addLink_any u r fuel ds' (L - 1) _ np.tail (by simpa using hf) (h.sub d)
      refine ⟨dm.setSub d s', ?_, h.setSub hp d, ?_, ?_⟩
      · rw [addLink]
        simp only [e3, getSub_quiet h _ np.head, Res.bind, e, propagate_quiet (h.setSub hp d) np.head, Res.map]
        rw [atD_cons _ _ _ dmm]
      · rw [at_setSub_cons, if_pos rfl, ha, atD_cons _ _ _ dmm]
      · intro π' hπ
        cases π' with
        | nil => rfl
        | cons k π' =>
          rw [at_setSub_cons]
          split
          · rename_i hk
            subst hk
            rw [ho π' (fun e => hπ (by rw [e])), at_cons dm (L - 1) m dmm]
          · rfl

theorem deleteLink_any {m dmm : Option PMatcher} (u r : Str) : ∀ (fuel : Nat) (ds : List Str) (L : Nat) (dm : DM),
    NoPattern dmm (standsFor ds) → (standsFor ds).length < fuel → Quiet m dmm L dm →
    ∃ dm', deleteLink fuel dm u r ds = .ok (dm', ((dm.atD L m (standsFor ds)).deleteLink u r (behind ds)).2) ∧
      Quiet m dmm L dm' ∧ dm'.at (standsFor ds) = some ((dm.atD L m (standsFor ds)).deleteLink u r (behind ds)).1 ∧
      ∀ π', π' ≠ standsFor ds → dm'.at π' = dm.at π'
  | 0, _, _, _, _, hf, _ => absurd hf (Nat.not_lt_zero _)
  | fuel + 1, ds, L, dm, np, hf, h => by
    rcases getDomain_any ds with ⟨e1, e2⟩ | ⟨d, ds', rfl, e1, e2, e3⟩
    · rw [e1] at np ⊢
      refine ⟨dm.setDflt ((dm.atD L m []).deleteLink u r (behind ds)).1, ?_, h.setDflt _, rfl, ?_⟩
      · rw [deleteLink]
        simp only [e2, getDefault_quiet h np.dflt, Res.bind, propagate_quiet (h.setDflt _) np.dflt, Res.map]
      · intro π' hπ
        cases π' with
        | nil => exact absurd rfl hπ
        | cons d π => simp
    · rw [e1] at np hf ⊢
      rw [e2]
      obtain ⟨s', e, hp, ha, ho⟩ := deleteLink_any u r fuel ds' (L - 1) _ np.tail (by simpa using hf) (h.sub d)
      refine ⟨dm.setSub d s', ?_, h.setSub hp d, ?_, ?_⟩
      · rw [deleteLink]
        simp only [e3, getSub_quiet h _ np.head, Res.bind, e, propagate_quiet (h.setSub hp d) np.head, Res.map]
        rw [atD_cons _ _ _ dmm]
      · rw [at_setSub_cons, if_pos rfl, ha, atD_cons _ _ _ dmm]
      · intro π' hπ
        cases π' with
        | nil => rfl
        | cons k π' =>
          rw [at_setSub_cons]
          split
          · rename_i hk
            subst hk
            rw [ho π' (fun e => hπ (by rw [e])), at_cons dm (L - 1) m dmm]
          · rfl

/-- Questions are the same for a path and for what it stands for. -/
theorem query_any {β : Type} (q : RM → RM × β) : ∀ (fuel : Nat) (dm : DM) (ds : List Str),
    query q fuel dm ds = query q fuel dm (standsFor ds)
  | 0, _, _ => rfl
  | fuel + 1, dm, ds => by
    rcases getDomain_any ds with ⟨e1, e2⟩ | ⟨d, ds', rfl, e1, e2, e3⟩
    · rw [e1, query, query]
      simp only [e2, show getDomain [] = (none, []) from rfl]
    · have hc : getDomain (d :: standsFor ds') = (some d, standsFor ds') := by
        rcases getDomain_any (d :: standsFor ds') with ⟨f1, -⟩ | ⟨d2, ds2, f1, -, -, f3⟩
        · simp only [standsFor, List.takeWhile_cons] at e1 f1
          split at e1
          · rename_i hd; rw [if_pos hd] at f1; cases f1
          · cases e1
        · cases f1; exact f3
      rw [e1, query, query]
      simp only [e3, hc]
      congr 1
      funext x
      rw [query_any q fuel x.2 ds']

theorem standsFor_clean (ds : List Str) : Clean (standsFor ds) := by
  intro d hd
  induction ds with
  | nil => cases hd
  | cons e ds ih =>
    simp only [standsFor, List.takeWhile_cons] at hd
    split at hd
    · rename_i he
      rcases List.mem_cons.1 hd with rfl | h
      · simpa using he
      · exact ih h
    · cases hd

/-- The domain manager is a family of independent role managers, except for the marks. -/
structure SimU (m dmm : Option PMatcher) (L : Nat) (H : List Op) (dm : DM) : Prop where
  quiet : Quiet m dmm L dm
  «at» : ∀ π, (dm.atD L m π).unmark = (RM.new (L - 1 - π.length) m).run (H.filterMap (Op.on π))

theorem simU_new (m dmm : Option PMatcher) (L : Nat) : SimU m dmm L [] (new L m dmm) :=
  ⟨quiet_new L m dmm, fun π => by simp [atD, at_new, RM.run, RM.unmark_new]⟩

theorem SimU.upd {m dmm : Option PMatcher} {L : Nat} {H : List Op} {dm dm' : DM} (h : SimU m dmm L H dm)
    {op : Op} {o : LinkOp} {ds : List Str} (hp : Quiet m dmm L dm')
    (hon : ∀ π, op.on π = if ds = π then some o else none)
    (hat : (dm'.atD L m ds).unmark = (dm.atD L m ds).unmark.step o)
    (hoff : ∀ π', π' ≠ ds → dm'.at π' = dm.at π') : SimU m dmm L (H ++ [op]) dm' := by
  refine ⟨hp, fun π => ?_⟩
  rw [run_snoc, hon]
  by_cases hd : ds = π
  · subst hd
    rw [hat, h.at, if_pos rfl]
  · rw [if_neg hd, atD_eq_of_at (hoff π (fun e => hd e.symm)), h.at]

theorem SimU.step {m dmm : Option PMatcher} {L : Nat} {H : List Op} {dm : DM} (h : SimU m dmm L H dm)
    (fuel : Nat) (op : Op) (np : NoPattern dmm op.plainly.path) (hf : op.plainly.path.length < fuel) :
    ∃ dm', dm.step fuel op = .ok dm' ∧ SimU m dmm L (H ++ [op.plainly]) dm' := by
  cases op with
  | add u r ds =>
    obtain ⟨dm', e, hp, ha, ho⟩ := addLink_any u r fuel ds L dm np hf h.quiet
    refine ⟨dm', by simp [DM.step, e, Res.map], h.upd (o := .add u r) hp (fun π => rfl) ?_ ho⟩
    rw [atD, ha, RM.step, RM.unmark_addLink _ u r (behind ds)]; rfl
  | del u r ds =>
    obtain ⟨dm', e, hp, ha, ho⟩ := deleteLink_any u r fuel ds L dm np hf h.quiet
    refine ⟨dm', by simp [DM.step, e, Res.map], h.upd (o := .del u r) hp (fun π => rfl) ?_ ho⟩
    rw [atD, ha, RM.step, RM.unmark_deleteLink _ u r (behind ds)]; rfl
  | clear =>
    refine ⟨dm.clear, rfl, ?_, fun π => ?_⟩
    · cases h.quiet with
      | mk hw h => exact quiet_new _ _ _
    · simp only [Op.plainly]
      rw [run_snoc]
      have A : RM.After (L - 1 - π.length) m (H.filterMap (Op.on π)) (dm.atD L m π).unmark := by
        rw [h.at]; exact RM.after_run _ _ _
      show _ = RM.clear _
      rw [← h.at]
      have e : dm.clear.at π = none := by cases dm; exact at_new _ _ _ _
      rw [atD, e]
      show RM.new (L - 1 - π.length) m = _
      unfold RM.clear RM.new
      rw [A.matcher, A.level]
  | hasLink u r ds =>
    obtain ⟨dm', e, hp, ha, ho⟩ := query_quiet (fun rm => rm.hasLink u r) (standsFor ds) fuel L dm (standsFor_clean ds)
      np hf h.quiet
    refine ⟨dm', by simp only [DM.step, DM.hasLink]; rw [query_any, e]; rfl,
      h.upd (o := .hasLink u r) hp (fun π => rfl) ?_ ho⟩
    rw [query_atD ha (fun lvl => (RM.new_inv lvl m).hasLink_state u r), RM.step, RM.unmark_hasLink]
  | getRoles n ds =>
    obtain ⟨dm', e, hp, ha, ho⟩ := query_quiet (fun rm => rm.getRoles n) (standsFor ds) fuel L dm (standsFor_clean ds)
      np hf h.quiet
    refine ⟨dm', by simp only [DM.step, DM.getRoles]; rw [query_any, e]; rfl,
      h.upd (o := .getRoles n) hp (fun π => rfl) ?_ ho⟩
    rw [query_atD ha (fun lvl => (RM.new_inv lvl m).getRoles_state n), RM.step, RM.unmark_getRoles]
  | getUsers n ds =>
    obtain ⟨dm', e, hp, ha, ho⟩ := query_quiet (fun rm => rm.getUsers n) (standsFor ds) fuel L dm (standsFor_clean ds)
      np hf h.quiet
    refine ⟨dm', by simp only [DM.step, DM.getUsers]; rw [query_any, e]; rfl,
      h.upd (o := .getUsers n) hp (fun π => rfl) ?_ ho⟩
    rw [query_atD ha (fun lvl => (RM.new_inv lvl m).getUsers_state n), RM.step, RM.unmark_getUsers]

theorem SimU.run {m dmm : Option PMatcher} {L : Nat} (fuel : Nat) : ∀ (ops H : List Op) (dm : DM),
    SimU m dmm L H dm → (∀ op ∈ ops, NoPattern dmm op.plainly.path ∧ op.plainly.path.length < fuel) →
    ∃ dm', dm.run fuel ops = .ok dm' ∧ SimU m dmm L (H ++ ops.map Op.plainly) dm'
  | [], H, dm, h, _ => ⟨dm, rfl, by simpa using h⟩
  | op :: ops, H, dm, h, hops => by
    obtain ⟨d1, e1, h1⟩ := h.step fuel op (hops op (by simp)).1 (hops op (by simp)).2
    obtain ⟨d2, e2, h2⟩ := SimU.run fuel ops _ d1 h1 (fun o ho => hops o (by simp [ho]))
    refine ⟨d2, ?_, ?_⟩
    · rw [DM.run, e1]; exact e2
    · simpa using h2

end DM

end Fastac
