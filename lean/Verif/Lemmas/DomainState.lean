import Verif.Lemmas.DomainRange
import Verif.Lemmas.RoleState

/-! # Domain managers without pattern domains: links per path, and setting matchers -/

namespace Fastac

namespace DM

/-- In every domain path `π` the links `F π` and the names `K π`, and no pattern domains. -/
structure Has (m dmm : Option PMatcher) (L : Nat) (F : List Str → Str → Str → Prop)
    (K : List Str → Str → Prop) (dm : DM) : Prop where
  quiet : Quiet m dmm L dm
  «at» : ∀ π, (dm.atD L m π).Has (L - 1 - π.length) m (F π) (K π)

theorem Sim.has {m dmm : Option PMatcher} {L : Nat} {H : List Op} {dm : DM} (h : Sim m dmm L H dm) :
    Has m dmm L (fun π u r => linked (inDomain π H) u r = true) (fun π n => known (inDomain π H) n = true) dm :=
  ⟨h.quiet, fun π => (h.after π).has⟩

theorem calls_append (fuel : Nat) : ∀ (cs : List Call) (dm : DM) (cs' : List Call),
    calls fuel dm (cs ++ cs') = (calls fuel dm cs).bind (fun d => calls fuel d cs')
  | [], _, _ => rfl
  | c :: cs, dm, cs' => by
    rw [List.cons_append, calls, calls]
    cases call fuel dm c with
    | ok d => simp only [Res.bind_ok]; exact calls_append fuel cs d cs'
    | err => rfl
    | panic => rfl

theorem calls_ops (fuel : Nat) (dm : DM) (H : List Op) (cs : List Call) :
    calls fuel dm (H.map .op ++ cs) = (run fuel dm H).bind (fun d => calls fuel d cs) := by
  rw [calls_append]
  congr 1
  induction H generalizing dm with
  | nil => rfl
  | cons o H ih =>
    rw [List.map_cons, calls, run]
    show (dm.step fuel o).bind _ = _
    cases dm.step fuel o with
    | ok d => simp only [Res.bind_ok]; exact ih d
    | err => rfl
    | panic => rfl

/-- A stored link was added by a call for this domain. -/
theorem linked_path {H : List Op} {π : List Str} {u r : Str} (h : linked (inDomain π H) u r = true) :
    ∃ op ∈ H, op.path = π := by
  have key : ∀ (ops : List LinkOp), linked ops u r = true → LinkOp.add u r ∈ ops := by
    intro ops
    have aux : ∀ (ops : List LinkOp) (b : Bool), linkAfter u r b ops = true → b = true ∨ LinkOp.add u r ∈ ops := by
      intro ops
      induction ops with
      | nil => intro b h; exact Or.inl h
      | cons o ops ih =>
        intro b h
        cases o <;> simp only [linkAfter] at h <;> rcases ih _ h with h | h <;> simp_all
        rcases h with h | ⟨rfl, rfl⟩
        · exact Or.inl h
        · exact Or.inr (Or.inl ⟨rfl, rfl⟩)
    intro h
    rcases aux ops false h with h | h
    · cases h
    · exact h
  obtain ⟨op, hop, e⟩ := List.mem_filterMap.1 (key _ h)
  refine ⟨op, hop, ?_⟩
  cases op <;> simp only [Op.on] at e
  case clear => cases e
  all_goals
    split at e
    · assumption
    · cases e

variable {m dmm : Option PMatcher} {L : Nat} {F : List Str → Str → Str → Prop} {K : List Str → Str → Prop}

theorem Has.congr {dm : DM} {F' : List Str → Str → Str → Prop} {K' : List Str → Str → Prop}
    (h : Has m dmm L F K dm) (hF : ∀ π u r, F π u r ↔ F' π u r) (hK : ∀ π n, K π n ↔ K' π n) :
    Has m dmm L F' K' dm := ⟨h.quiet, fun π => (h.at π).congr (hF π) (hK π)⟩

theorem has_new (m dmm : Option PMatcher) (L : Nat) :
    Has m dmm L (fun _ _ _ => False) (fun _ _ => False) (new L m dmm) :=
  ⟨quiet_new L m dmm, fun π => by
    have e : (new L m dmm).atD L m π = RM.new (L - 1 - π.length) m := by simp [atD, at_new]
    rw [e]; exact RM.Has.new _ _⟩

theorem Has.range {dm : DM} (h : Has m dmm L F K dm) (u r : Str) (π : List Str) :
    (u, r, π) ∈ dm.range ↔ F π u r := by
  rw [mem_range h.quiet, ← (h.at π).links]
  unfold atD
  cases dm.at π with
  | none => simp [RM.links, RM.new]
  | some rm => simp

theorem Has.range_nodup {dm : DM} (h : Has m dmm L F K dm) : dm.range.Nodup := by
  refine DM.range_nodup h.quiet (fun π rm e => ?_)
  have := (h.at π).inv.links_nodup
  rw [atD, e] at this
  exact this

theorem Has.noLinks {dm : DM} (h : Has m dmm L F K dm) {π : List Str} (e : dm.at π = none) (u r : Str) :
    ¬ F π u r := by
  rw [← h.range, mem_range h.quiet, e]; simp

theorem Has.noNames {dm : DM} (h : Has m dmm L F K dm) {π : List Str} (e : dm.at π = none) (n : Str) :
    ¬ K π n := by
  rw [← (h.at π).names, atD, e]; simp [RM.new]

theorem Has.add {dm : DM} (h : Has m dmm L F K dm) (fuel : Nat) (u r : Str) (ds : List Str)
    (hc : Clean ds) (np : NoPattern dmm ds) (hf : ds.length < fuel) :
    ∃ dm', (addLink fuel dm u r ds).map (·.1) = .ok dm' ∧
      Has m dmm L (fun π x y => F π x y ∨ (π = ds ∧ x = u ∧ y = r))
        (fun π n => K π n ∨ (π = ds ∧ (n = u ∨ n = r))) dm' := by
  obtain ⟨dm', e, hp, ha, ho⟩ := addLink_quiet u r ds fuel L dm hc np hf h.quiet
  refine ⟨dm', by rw [e]; rfl, hp, fun π => ?_⟩
  by_cases hπ : π = ds
  · subst hπ
    have e' : dm'.atD L m π = ((dm.atD L m π).addLink u r []).1 := by rw [atD, ha]; rfl
    rw [e']
    exact ((h.at π).addLink u r).congr (by simp [addL]) (by simp)
  · rw [atD_eq_of_at (ho π hπ)]
    exact (h.at π).congr (by simp [hπ]) (by simp [hπ])

theorem Has.addAll (fuel : Nat) : ∀ (ls : List (Str × Str × List Str)) (dm : DM)
    (F : List Str → Str → Str → Prop) (K : List Str → Str → Prop), Has m dmm L F K dm →
    (∀ l ∈ ls, Clean l.2.2 ∧ NoPattern dmm l.2.2 ∧ l.2.2.length < fuel) →
    ∃ dm', ls.foldl (fun (r : Res DM) l => r.bind fun s => (addLink fuel s l.1 l.2.1 l.2.2).map (·.1)) (.ok dm) =
        .ok dm' ∧
      Has m dmm L (fun π x y => F π x y ∨ (x, y, π) ∈ ls)
        (fun π n => K π n ∨ ∃ l ∈ ls, l.2.2 = π ∧ (n = l.1 ∨ n = l.2.1)) dm'
  | [], dm, F, K, h, _ => ⟨dm, rfl, h.congr (by simp) (by simp)⟩
  | (u, r, ds) :: ls, dm, F, K, h, hl => by
    obtain ⟨hc, np, hf⟩ := hl (u, r, ds) (by simp)
    obtain ⟨d1, e1, h1⟩ := h.add fuel u r ds hc np hf
    obtain ⟨d2, e2, h2⟩ := Has.addAll fuel ls d1 _ _ h1 (fun l h => hl l (by simp [h]))
    refine ⟨d2, ?_, h2.congr (fun π x y => ?_) (fun π n => ?_)⟩
    · rw [List.foldl_cons]
      simp only [Res.bind_ok]
      rw [e1]; exact e2
    · simp only [List.mem_cons, Prod.mk.injEq]
      constructor
      · rintro ((h | ⟨rfl, rfl, rfl⟩) | h)
        · exact Or.inl h
        · exact Or.inr (Or.inl ⟨rfl, rfl, rfl⟩)
        · exact Or.inr (Or.inr h)
      · rintro (h | ⟨rfl, rfl, rfl⟩ | h)
        · exact Or.inl (Or.inl h)
        · exact Or.inl (Or.inr ⟨rfl, rfl, rfl⟩)
        · exact Or.inr h
    · simp only [List.mem_cons, exists_eq_or_imp]
      constructor
      · rintro ((h | ⟨rfl, h⟩) | h)
        · exact Or.inl h
        · exact Or.inr (Or.inl ⟨rfl, h⟩)
        · exact Or.inr (Or.inr h)
      · rintro (h | ⟨rfl, h⟩ | h)
        · exact Or.inl (Or.inl h)
        · exact Or.inl (Or.inr ⟨rfl, h⟩)
        · exact Or.inr h

/-! ## Building from parts -/

theorem has_mk {dflt : Option RM} {subs : List (Str × DM)} (hw : GoMap.WF subs)
    (hd : (dflt.getD (RM.new (L - 1) m)).Has (L - 1) m (F []) (K []))
    (hs : ∀ d s, (d, s) ∈ subs → Has m dmm (L - 1) (fun π => F (d :: π)) (fun π => K (d :: π)) s)
    (hn : ∀ d, d ∉ subs.map Prod.fst → ∀ π, (∀ u r, ¬ F (d :: π) u r) ∧ ∀ n, ¬ K (d :: π) n) :
    Has m dmm L F K (DM.mk dflt subs [] L m dmm) := by
  refine ⟨Quiet.mk hw (fun d s hg => (hs d s (GoMap.mem_of_get hg)).quiet), fun π => ?_⟩
  cases π with
  | nil => exact hd
  | cons d π =>
    rw [atD_cons _ _ _ dmm]
    have hlen : L - 1 - (d :: π).length = L - 1 - 1 - π.length := by rw [List.length_cons]; omega
    rw [hlen]
    show RM.Has (atD ((GoMap.get subs d).getD _) _ _ _) _ _ _ _
    cases hg : GoMap.get subs d with
    | none =>
      have hd : d ∉ subs.map Prod.fst := by
        intro hm
        have := GoMap.mem_keys_iff.1 hm
        rw [hg] at this; cases this
      refine ((has_new m dmm (L - 1)).at π).congr (fun u r => ?_) (fun n => ?_)
      · simp [(hn d hd π).1 u r]
      · simp [(hn d hd π).2 n]
    | some s => exact (hs d s (GoMap.mem_of_get hg)).at π

theorem Has.parts {dm : DM} (h : Has m dmm L F K dm) :
    ∃ dflt subs, dm = DM.mk dflt subs [] L m dmm ∧ GoMap.WF subs ∧
      (dflt.getD (RM.new (L - 1) m)).Has (L - 1) m (F []) (K []) ∧
      (∀ d s, (d, s) ∈ subs → Has m dmm (L - 1) (fun π => F (d :: π)) (fun π => K (d :: π)) s) ∧
      (∀ d, d ∉ subs.map Prod.fst → ∀ π, (∀ u r, ¬ F (d :: π) u r) ∧ ∀ n, ¬ K (d :: π) n) := by
  cases h with
  | mk hq ha =>
    have hq0 := hq
    cases hq with
    | mk hw hs =>
      rename_i dflt subs
      have H : Has m dmm L F K (DM.mk dflt subs [] L m dmm) := ⟨hq0, ha⟩
      refine ⟨dflt, subs, rfl, hw, ha [], fun d s hm => ?_, fun d hd π => ?_⟩
      · have hg := hw.get_of_mem hm
        refine ⟨hs d s hg, fun π => ?_⟩
        have := ha (d :: π)
        rw [atD_cons _ _ _ dmm] at this
        have hlen : L - 1 - (d :: π).length = L - 1 - 1 - π.length := by rw [List.length_cons]; omega
        rw [hlen] at this
        simp only [DM.subs, hg, Option.getD_some] at this
        exact this
      · have hg : GoMap.get subs d = Option.none := by
          cases e : GoMap.get subs d with
          | none => rfl
          | some s => exact absurd (List.mem_map.2 ⟨_, GoMap.mem_of_get e, rfl⟩) hd
        have e : (DM.mk dflt subs [] L m dmm).at (d :: π) = Option.none := by
          simp only [DM.at, DM.subs, hg]
        exact ⟨fun u r => H.noLinks e u r, fun n => H.noNames e n⟩

/-! ## `SetMatcher` -/

mutual
theorem setMatcher_has (m' : Option PMatcher) (order : List (Str × Str) → List (Str × Str))
    (ho : ∀ l, (order l).Perm l) : ∀ (dm : DM) (L : Nat) (F : List Str → Str → Str → Prop)
    (K : List Str → Str → Prop), Has m dmm L F K dm →
    Has m' dmm L F (fun π => endsOf (F π)) (setMatcher m' order dm)
  | .mk dflt subs ps lv mm dd, L, F, K, h => by
    obtain ⟨dflt', subs', e, hw, hd, hs, hn⟩ := h.parts
    cases e
    rw [setMatcher]
    have hk := setMatcherSubs_has m' order ho subs (lv - 1) F K hs
    refine has_mk ?_ ?_ hk.2 (fun d hd π => ?_)
    · unfold GoMap.WF; rw [hk.1]; exact hw
    · cases dflt with
      | none =>
        refine (RM.Has.new (lv - 1) m').congr (fun u r => ?_) (fun n => ?_)
        · have := hd.links u r
          simp only [Option.getD_none, RM.links, RM.new, List.flatMap_nil, List.not_mem_nil] at this
          exact this
        · have h0 : ∀ u r, ¬ F [] u r := by
            intro u r
            have := hd.links u r
            simp only [Option.getD_none, RM.links, RM.new, List.flatMap_nil, List.not_mem_nil] at this
            exact fun h => this.2 h
          simp [endsOf, h0]
      | some rm => exact hd.setMatcher m' order ho
    · rw [hk.1] at hd
      refine ⟨(hn d hd π).1, fun n => ?_⟩
      rintro ⟨x, h | h⟩ <;> exact (hn d hd π).1 _ _ h
theorem setMatcherSubs_has (m' : Option PMatcher) (order : List (Str × Str) → List (Str × Str))
    (ho : ∀ l, (order l).Perm l) : ∀ (subs : List (Str × DM)) (L : Nat) (F : List Str → Str → Str → Prop)
    (K : List Str → Str → Prop),
    (∀ d s, (d, s) ∈ subs → Has m dmm L (fun π => F (d :: π)) (fun π => K (d :: π)) s) →
    (setMatcherSubs m' order subs).map Prod.fst = subs.map Prod.fst ∧
    ∀ d s, (d, s) ∈ setMatcherSubs m' order subs →
      Has m' dmm L (fun π => F (d :: π)) (fun π => endsOf (F (d :: π))) s
  | [], L, F, K, _ => by simp [setMatcherSubs]
  | (d, s) :: rest, L, F, K, h => by
    have h1 := setMatcher_has m' order ho s L _ _ (h d s (by simp))
    have h2 := setMatcherSubs_has m' order ho rest L F K (fun d s hm => h d s (by simp [hm]))
    rw [setMatcherSubs]
    refine ⟨by rw [List.map_cons, List.map_cons, h2.1], fun d' s' hm => ?_⟩
    rcases List.mem_cons.1 hm with e | hm
    · cases e; exact h1
    · exact h2.2 d' s' hm
end

/-! ## `SetDomainMatcher` -/

mutual
theorem setDomainMatcher_has (dmm' : Option PMatcher) (fuel : Nat)
    (order : List (Str × Str × List Str) → List (Str × Str × List Str)) (ho : ∀ l, (order l).Perm l) : ∀ (dm : DM) (L : Nat)
    (F : List Str → Str → Str → Prop) (K : List Str → Str → Prop), Has m dmm L F K dm →
    (∀ π u r, F π u r → Clean π ∧ NoPattern dmm' π ∧ π.length < fuel) →
    ∃ dm', setDomainMatcher fuel dmm' order dm = .ok dm' ∧ Has m dmm' L F (fun π => endsOf (F π)) dm'
  | .mk dflt subs ps lv mm dd, L, F, K, h, hF => by
    obtain ⟨dflt', subs', e, hw, hd, hs, hn⟩ := h.parts
    cases e
    obtain ⟨subs'', e', hk, hs'⟩ := setDomainMatcherSubs_has dmm' fuel order ho subs (lv - 1) F K hs
      (fun d π u r hf => by
        obtain ⟨a, b, c⟩ := hF (d :: π) u r hf
        exact ⟨a.tail, b.tail, by rw [List.length_cons] at c; omega⟩)
    rw [setDomainMatcher, e']
    simp only [Res.bind_ok]
    have H : Has m dmm' lv F (fun π n => (π = [] ∧ K [] n) ∨ (π ≠ [] ∧ endsOf (F π) n))
        (DM.mk dflt subs'' [] lv m dmm') := by
      refine has_mk ?_ (hd.congr (by simp) (by simp)) (fun d s hm => (hs' d s hm).congr (by simp) (by simp))
        (fun d hd π => ?_)
      · unfold GoMap.WF; rw [hk]; exact hw
      · rw [hk] at hd
        refine ⟨(hn d hd π).1, fun n => ?_⟩
        rintro (⟨h, _⟩ | ⟨_, x, h | h⟩)
        · cases h
        · exact (hn d hd π).1 _ _ h
        · exact (hn d hd π).1 _ _ h
    obtain ⟨dm', e2, h2⟩ := Has.addAll fuel (order (DM.range (DM.mk dflt subs'' [] lv m dmm'))) _ _ _
      (has_new m dmm' lv) (by
        rintro ⟨u, r, π⟩ hm
        exact hF π u r ((H.range u r π).1 ((ho _).mem_iff.1 hm)))
    refine ⟨dm', e2, h2.congr (fun π u r => ?_) (fun π n => ?_)⟩
    · rw [(ho _).mem_iff, H.range]; simp
    · simp only [false_or, Prod.exists, (ho _).mem_iff, H.range, endsOf]
      constructor
      · rintro ⟨u, r, π', h, rfl, rfl | rfl⟩
        · exact ⟨r, Or.inl h⟩
        · exact ⟨u, Or.inr h⟩
      · rintro ⟨x, h | h⟩
        · exact ⟨n, x, π, h, rfl, Or.inl rfl⟩
        · exact ⟨x, n, π, h, rfl, Or.inr rfl⟩
theorem setDomainMatcherSubs_has (dmm' : Option PMatcher) (fuel : Nat)
    (order : List (Str × Str × List Str) → List (Str × Str × List Str)) (ho : ∀ l, (order l).Perm l) : ∀ (subs : List (Str × DM)) (L : Nat)
    (F : List Str → Str → Str → Prop) (K : List Str → Str → Prop),
    (∀ d s, (d, s) ∈ subs → Has m dmm L (fun π => F (d :: π)) (fun π => K (d :: π)) s) →
    (∀ d π u r, F (d :: π) u r → Clean π ∧ NoPattern dmm' π ∧ π.length < fuel) →
    ∃ subs', setDomainMatcherSubs fuel dmm' order subs = .ok subs' ∧ subs'.map Prod.fst = subs.map Prod.fst ∧
    ∀ d s, (d, s) ∈ subs' → Has m dmm' L (fun π => F (d :: π)) (fun π => endsOf (F (d :: π))) s
  | [], L, F, K, _, _ => ⟨[], by simp [setDomainMatcherSubs], rfl, by simp⟩
  | (d, s) :: rest, L, F, K, h, hF => by
    obtain ⟨s', e1, h1⟩ := setDomainMatcher_has dmm' fuel order ho s L _ _ (h d s (by simp)) (fun π u r hf => hF d π u r hf)
    obtain ⟨r', e2, k2, h2⟩ := setDomainMatcherSubs_has dmm' fuel order ho rest L F K (fun d s hm => h d s (by simp [hm])) hF
    refine ⟨(d, s') :: r', ?_, by rw [List.map_cons, List.map_cons, k2], fun d' t hm => ?_⟩
    · rw [setDomainMatcherSubs, e1]
      simp only [Res.bind_ok, e2, Res.map_ok]
    · rcases List.mem_cons.1 hm with e | hm
      · cases e; exact h1
      · exact h2 d' t hm
end

/-- What `HasLink` answers. -/
theorem Has.hasLink {dm : DM} (h : Has m dmm L F K dm) (fuel : Nat)
    (π : List Str) (hc : Clean π) (np : NoPattern dmm π) (hf : π.length < fuel) (a b : Str)
    (hflat : ∀ pm, m = some pm → pm.FlatOn (fun n => K π n ∨ n = a ∨ n = b)) :
    ∃ x, (dm.hasLink fuel a b π).map (·.2) = .ok x ∧
      (x = true ↔ roleAnswer (L - 1 - π.length) (F π) (K π) a b m) := by
  obtain ⟨dm', e, _⟩ := query_quiet (fun rm => rm.hasLink a b) π fuel L dm hc np hf h.quiet
  refine ⟨_, ?_, (h.at π).hasLink a b hflat⟩
  unfold DM.hasLink
  rw [e]; rfl

theorem Has.honours {dm : DM} (h : Has m dmm L F K dm) (fuel : Nat)
    (π : List Str) (hc : Clean π) (np : NoPattern dmm π) (hf : π.length < fuel) (hL : π.length + 3 ≤ L)
    {a b : Str} (hab : F π a b) : (dm.hasLink fuel a b π).map (·.2) = .ok true := by
  obtain ⟨dm', e, _⟩ := query_quiet (fun rm => rm.hasLink a b) π fuel L dm hc np hf h.quiet
  unfold DM.hasLink
  rw [e, ← (h.at π).honours (by omega) hab]; rfl

end DM

end Fastac
