import Verif.Spec.Domains
import Verif.Lemmas.RoleManager

/-! # No panics in the domain manager -/

namespace Fastac

/-- The call succeeds with a result satisfying `Q`. -/
def Res.Ok {α : Type} (Q : α → Prop) (r : Res α) : Prop := ∃ a, r = .ok a ∧ Q a

theorem Res.Ok.bind {α β : Type} {Q : α → Prop} {Q' : β → Prop} {r : Res α} {f : α → Res β}
    (h : r.Ok Q) (hf : ∀ a, Q a → (f a).Ok Q') : (r.bind f).Ok Q' := by
  obtain ⟨a, rfl, ha⟩ := h
  exact hf a ha

theorem Res.Ok.map {α β : Type} {Q : α → Prop} {Q' : β → Prop} {r : Res α} {f : α → β}
    (h : r.Ok Q) (hf : ∀ a, Q a → Q' (f a)) : (r.map f).Ok Q' := by
  obtain ⟨a, rfl, ha⟩ := h
  exact ⟨_, rfl, hf a ha⟩

theorem Res.Ok.foldl {α β : Type} {Q : α → Prop} {f : α → β → Res α} :
    ∀ (l : List β) (r : Res α), r.Ok Q → (∀ a b, b ∈ l → Q a → (f a b).Ok Q) →
      (l.foldl (fun (r : Res α) b => r.bind (fun a => f a b)) r).Ok Q
  | [], r, h, _ => h
  | b :: l, r, h, hf =>
    Res.Ok.foldl l _ (h.bind (fun a ha => hf a b (by simp) ha)) (fun a b hb ha => hf a b (by simp [hb]) ha)

namespace DM

/-- Number of elements of a path that name a domain. -/
def names (ds : List Str) : Nat := (ds.filter (fun d => d ≠ redundantRole)).length

theorem names_cons {d : Str} {ds : List Str} (h : d ≠ redundantRole) :
    names (d :: ds) = names ds + 1 := by
  simp [names, h]

theorem names_snoc (ds : List Str) : names (ds ++ [redundantRole]) = names ds := by
  simp [names]

theorem names_le (ds : List Str) : names ds ≤ ds.length := List.length_filter_le _ _

/-- Every pattern has a manager, everywhere in the tree of height at most `B`. -/
inductive Good (dmm : Option PMatcher) : Nat → DM → Prop
  | mk {B : Nat} {dflt : Option RM} {subs : List (Str × DM)} {ps : List Str} {L : Nat}
      {m : Option PMatcher}
      (hp : ∀ p ∈ ps, if p = defaultDomain then dflt.isSome = true else p ∈ subs.map (·.1))
      (hb : subs ≠ [] → 0 < B)
      (hs : ∀ x ∈ subs, Good dmm (B - 1) x.2) :
      Good dmm B (DM.mk dflt subs ps L m dmm)

theorem Good.mono {dmm : Option PMatcher} {B : Nat} {dm : DM} (h : Good dmm B dm) :
    ∀ {C : Nat}, B ≤ C → Good dmm C dm := by
  induction h with
  | mk hp hb hs ih =>
    intro C hC
    exact Good.mk hp (fun h => by have := hb h; omega) (fun x hx => ih x hx (by omega))

theorem Good.domMatcher {dmm : Option PMatcher} {B : Nat} {dm : DM} (h : Good dmm B dm) :
    dm.domMatcher = dmm := by cases h; rfl

theorem good_new (dmm : Option PMatcher) (B L : Nat) (m : Option PMatcher) : Good dmm B (new L m dmm) :=
  Good.mk (by simp) (by simp) (by simp)

theorem Good.clear {dmm : Option PMatcher} {B : Nat} {dm : DM} (h : Good dmm B dm) :
    Good dmm B dm.clear := by
  cases h with
  | mk hp hb hs => exact good_new _ _ _ _

theorem Good.sub {dmm : Option PMatcher} {B : Nat} {dm : DM} (h : Good dmm B dm) {d : Str} {s : DM}
    (hd : dm.subs.get d = some s) : 0 < B ∧ Good dmm (B - 1) s := by
  cases h with
  | mk hp hb hs =>
    have hm := GoMap.mem_of_get hd
    exact ⟨hb (List.ne_nil_of_mem hm), hs _ hm⟩

mutual
theorem range_length (dmm : Option PMatcher) : ∀ (dm : DM) (B : Nat), Good dmm B dm →
    ∀ l ∈ range dm, l.2.2.length ≤ B
  | mk dflt subs ps L m dm', B, h => by
    cases h with
    | mk hp hb hs =>
      intro l hl
      rw [range, List.mem_append] at hl
      rcases hl with hl | hl
      · cases dflt with
        | none => simp [dfltLinks] at hl
        | some rm =>
          simp only [dfltLinks, List.mem_map] at hl
          obtain ⟨x, _, rfl⟩ := hl
          simp
      · have := range_lengthSubs dmm subs (B - 1) hs l hl
        by_cases e : subs = []
        · subst e; simp [rangeSubs] at hl
        · have := hb e; omega
theorem range_lengthSubs (dmm : Option PMatcher) : ∀ (subs : List (Str × DM)) (B : Nat),
    (∀ x ∈ subs, Good dmm B x.2) → ∀ l ∈ rangeSubs subs, l.2.2.length ≤ B + 1
  | [], B, _ => by simp [rangeSubs]
  | (d, s) :: rest, B, h => by
    intro l hl
    rw [rangeSubs, List.mem_append] at hl
    rcases hl with hl | hl
    · rw [List.mem_map] at hl
      obtain ⟨x, hx, rfl⟩ := hl
      have := range_length dmm s B (h (d, s) (by simp)) x hx
      simpa using this
    · exact range_lengthSubs dmm rest B (fun x hx => h x (by simp [hx])) l hl
end

/-- The links of the pattern managers are available, and their paths are short. -/
theorem patternLinks_ok {dmm : Option PMatcher} {B : Nat} {dm : DM} (h : Good dmm B dm) :
    ∀ ps : List Str, (∀ p ∈ ps, p ∈ dm.patterns) →
      (dm.patternLinks ps).Ok (fun ls => ∀ l ∈ ls, l.2.2.length ≤ B - 1)
  | [], _ => ⟨[], rfl, by simp⟩
  | p :: ps, hps => by
    have hp := hps p (by simp)
    have : ∃ ls, dm.linksOf p = some ls ∧ ∀ l ∈ ls, l.2.2.length ≤ B - 1 := by
      cases h with
      | mk hpat hb hs =>
        rename_i dflt subs ps' L m
        have hk := hpat p hp
        unfold linksOf
        by_cases e : p = defaultDomain
        · rw [if_pos e] at hk ⊢
          cases dflt with
          | none => simp at hk
          | some rm =>
            refine ⟨_, rfl, ?_⟩
            intro l hl
            simp only [dfltLinks, List.mem_map] at hl
            obtain ⟨x, _, rfl⟩ := hl
            simp
        · rw [if_neg e] at hk ⊢
          have := GoMap.mem_keys_iff.1 hk
          simp only [DM.subs]
          cases hg : GoMap.get subs p with
          | none => simp [hg] at this
          | some s => exact ⟨_, rfl, range_length dmm s _ (hs _ (GoMap.mem_of_get hg))⟩
    obtain ⟨ls, e, hls⟩ := this
    rw [patternLinks, e]
    refine (patternLinks_ok h ps (fun q hq => hps q (by simp [hq]))).map ?_
    intro a ha l hl
    rcases List.mem_append.1 hl with hl | hl
    · exact hls l hl
    · exact ha l hl

theorem newDomain_ok {dmm : Option PMatcher} {B : Nat} {dm : DM} (h : Good dmm B dm) (d : Str) :
    (dm.newDomain d).Ok (fun x => (x.1 = dm ∨ (x.1 = dm.setPatterns (sins dm.patterns d) ∧
      ∃ m, dmm = some m ∧ m.isPattern d = true)) ∧ ∀ l ∈ x.2, l.2.2.length ≤ B - 1) := by
  unfold newDomain
  rw [h.domMatcher]
  cases dmm with
  | none => exact ⟨_, rfl, Or.inl rfl, by simp⟩
  | some m =>
    simp only
    split
    · exact ⟨_, rfl, Or.inr ⟨rfl, m, rfl, by assumption⟩, by simp⟩
    · refine (patternLinks_ok h _ ?_).map (fun a ha => ⟨Or.inl rfl, ha⟩)
      intro p hp
      exact (List.mem_filter.1 hp).1

theorem Good.setDflt' {dmm : Option PMatcher} {B : Nat} {dm dm1 : DM} (h : Good dmm B dm)
    (e : dm1 = dm ∨ dm1 = dm.setPatterns (sins dm.patterns defaultDomain)) (rm : RM) :
    Good dmm B (dm1.setDflt rm) := by
  cases h with
  | mk hp hb hs =>
    rcases e with rfl | rfl
    · refine Good.mk ?_ hb hs
      intro p hpp
      have := hp p hpp
      split
      · rfl
      · rename_i e; rw [if_neg e] at this; exact this
    · refine Good.mk ?_ hb hs
      intro p hpp
      rcases mem_sins.1 hpp with hpp | rfl
      · have := hp p hpp
        split
        · rfl
        · rename_i e; rw [if_neg e] at this; exact this
      · rw [if_pos rfl]; rfl

theorem mem_set_iff {K V : Type} [DecidableEq K] (m : GoMap K V) (k : K) (v : V) {x : K × V}
    (h : x ∈ m.set k v) : x = (k, v) ∨ x ∈ m := by
  induction m with
  | nil => simpa [GoMap.set] using h
  | cons a m ih =>
    obtain ⟨k', v'⟩ := a
    rw [GoMap.set] at h
    split at h
    · rcases List.mem_cons.1 h with h | h
      · exact Or.inl h
      · exact Or.inr (by simp [h])
    · rcases List.mem_cons.1 h with h | h
      · exact Or.inr (by simp [h])
      · rcases ih h with h | h
        · exact Or.inl h
        · exact Or.inr (by simp [h])

theorem Good.setSub' {dmm : Option PMatcher} {B : Nat} {dm dm1 : DM} (h : Good dmm B dm) (d : Str)
    (e : dm1 = dm ∨ dm1 = dm.setPatterns (sins dm.patterns d)) (s : DM) (hB : 0 < B)
    (hd : d ≠ defaultDomain)
    (hs' : Good dmm (B - 1) s) :
    Good dmm B (dm1.setSub d s) := by
  have key : ∀ (subs : List (Str × DM)) p, p ∈ subs.map (·.1) ∨ p = d →
      p ∈ (GoMap.set subs d s).map (·.1) := by
    intro subs p hp
    rw [GoMap.mem_keys_iff, GoMap.get_set]
    rcases hp with hp | rfl
    · rw [GoMap.mem_keys_iff] at hp
      split
      · rfl
      · exact hp
    · simp
  cases h with
  | mk hp hb hs =>
    rename_i subs ps L m
    have hs2 : ∀ x ∈ GoMap.set subs d s, Good dmm (B - 1) x.2 := by
      intro x hx
      rcases mem_set_iff _ _ _ hx with rfl | hx
      · exact hs'
      · exact hs x hx
    rcases e with rfl | rfl
    · refine Good.mk ?_ (fun _ => hB) hs2
      intro p hpp
      have := hp p hpp
      split
      · rename_i e; rw [if_pos e] at this; exact this
      · rename_i e; rw [if_neg e] at this; exact key _ p (Or.inl this)
    · refine Good.mk ?_ (fun _ => hB) hs2
      intro p hpp
      rcases mem_sins.1 hpp with hpp | rfl
      · have := hp p hpp
        split
        · rename_i e; rw [if_pos e] at this; exact this
        · rename_i e; rw [if_neg e] at this; exact key _ p (Or.inl this)
      · rw [if_neg hd]; exact key _ _ (Or.inr rfl)

theorem getDefault_ok {dmm : Option PMatcher} {B : Nat} {dm : DM} (h : Good dmm B dm) :
    dm.getDefault.Ok (fun x => x.1 = dm ∨ (dm.dflt = none ∧
      x.1 = dm.setPatterns (sins dm.patterns defaultDomain) ∧
      ∃ m, dmm = some m ∧ m.isPattern defaultDomain = true)) := by
  unfold getDefault
  cases e : dm.dflt with
  | some rm => exact ⟨_, rfl, Or.inl rfl⟩
  | none =>
    refine (newDomain_ok h defaultDomain).map ?_
    intro a ha
    rcases ha.1 with h1 | h1
    · exact Or.inl h1
    · exact Or.inr ⟨rfl, h1⟩

theorem getSub_ok {dmm : Option PMatcher} {B : Nat} {dm : DM} (h : Good dmm B dm)
    (add : DM → Str → Str → List Str → Res (DM × Bool)) (d : Str)
    (hadd : ∀ s u r ds, Good dmm (B - 1) s → names ds ≤ B - 1 →
      (add s u r ds).Ok (fun x => Good dmm (B - 1) x.1)) :
    (getSub add dm d).Ok (fun x => (x.1 = dm ∨ (dm.subs.get d = none ∧
      x.1 = dm.setPatterns (sins dm.patterns d) ∧
      ∃ m, dmm = some m ∧ m.isPattern d = true)) ∧ Good dmm (B - 1) x.2) := by
  unfold getSub
  cases e : dm.subs.get d with
  | some s => exact ⟨_, rfl, Or.inl rfl, (h.sub e).2⟩
  | none =>
    refine (newDomain_ok h d).bind ?_
    rintro ⟨dm1, ls⟩ ⟨h1, h2⟩
    have : (ls.foldl (fun (r : Res DM) l =>
          r.bind fun s => (add s l.1 l.2.1 (l.2.2 ++ [redundantRole])).map (·.1))
        (.ok (new (dm.level - 1) dm.matcher dm.domMatcher))).Ok (Good dmm (B - 1)) := by
      refine Res.Ok.foldl (f := fun s l => (add s l.1 l.2.1 (l.2.2 ++ [redundantRole])).map (·.1))
        ls _ ⟨new (dm.level - 1) dm.matcher dm.domMatcher, rfl,
          h.domMatcher ▸ good_new dm.domMatcher _ _ _⟩ ?_
      intro a b hb ha
      refine (hadd a _ _ _ ha ?_).map (fun x hx => hx)
      have := h2 b hb
      rw [names_snoc]
      exact Nat.le_trans (names_le _) this
    refine this.map ?_
    intro s hs
    refine ⟨?_, hs⟩
    rcases h1 with h1 | h1
    · exact Or.inl h1
    · exact Or.inr ⟨rfl, h1⟩

theorem mapSubs_ok {Q : DM → Prop} (f : DM → Res DM) (p : Str → Bool) :
    ∀ (subs : List (Str × DM)), (∀ x ∈ subs, Q x.2) →
      (∀ x ∈ subs, Q x.2 → p x.1 = true → (f x.2).Ok Q) →
      (mapSubs f p subs).Ok (fun r => (∀ x ∈ r, Q x.2) ∧ r.map (·.1) = subs.map (·.1))
  | [], _, _ => ⟨[], rfl, by simp⟩
  | (d, s) :: rest, hq, hf => by
    have ih := mapSubs_ok f p rest (fun x hx => hq x (by simp [hx])) (fun x hx => hf x (by simp [hx]))
    rw [mapSubs]
    split
    · rename_i hp
      refine (hf (d, s) (by simp) (hq (d, s) (by simp)) hp).bind ?_
      intro s' hs'
      refine ih.map ?_
      rintro r ⟨h1, h2⟩
      refine ⟨?_, by simp [h2]⟩
      intro x hx
      rcases List.mem_cons.1 hx with rfl | hx
      · exact hs'
      · exact h1 x hx
    · refine ih.map ?_
      rintro r ⟨h1, h2⟩
      refine ⟨?_, by simp [h2]⟩
      intro x hx
      rcases List.mem_cons.1 hx with rfl | hx
      · exact hq (d, s) (by simp)
      · exact h1 x hx

theorem propagate_ok {dmm : Option PMatcher} {B : Nat} {dm : DM} (h : Good dmm B dm) (d : Str)
    (f : DM → Res DM) (g : RM → RM)
    (hf : ∀ s, 0 < B → Good dmm (B - 1) s → (f s).Ok (Good dmm (B - 1))) :
    (dm.propagate d f g).Ok (Good dmm B) := by
  unfold propagate
  rw [h.domMatcher]
  cases dmm with
  | none => exact ⟨_, rfl, h⟩
  | some m =>
    simp only
    split
    · unfold forMatching
      cases h with
      | mk hp hb hs =>
        rename_i dflt subs ps L m'
        refine (mapSubs_ok (Q := Good (some m) (B - 1)) f _ subs hs
          (fun x hx hq _ => hf _ (hb (List.ne_nil_of_mem hx)) hq)).map ?_
        rintro r ⟨h1, h2⟩
        refine Good.mk ?_ ?_ h1
        · intro p hpp
          have := hp p hpp
          rw [h2]
          split
          · rename_i e
            rw [if_pos e] at this
            split
            · simpa [DM.dflt] using this
            · exact this
          · rename_i e
            rw [if_neg e] at this
            exact this
        · intro hr
          refine hb ?_
          intro e
          rw [e] at h2
          simp only [List.map_nil, List.map_eq_nil_iff] at h2
          exact hr h2
    · exact ⟨_, rfl, h⟩

theorem getDomain_cases (ds : List Str) :
    (∃ sub, getDomain ds = (none, sub) ∧ names sub ≤ names ds - 1) ∨
    ∃ d sub, ds = d :: sub ∧ d ≠ redundantRole ∧ d ≠ defaultDomain ∧ getDomain ds = (some d, sub) := by
  cases ds with
  | nil => exact Or.inl ⟨[], rfl, by simp [names]⟩
  | cons d sub =>
    have eq : getDomain (d :: sub) = if d = redundantRole then (none, [redundantRole])
      else if d = defaultDomain then (none, sub) else (some d, sub) := rfl
    rw [eq]
    by_cases h1 : d = redundantRole
    · rw [if_pos h1]
      exact Or.inl ⟨_, rfl, by simp [names]⟩
    · rw [if_neg h1]
      by_cases h2 : d = defaultDomain
      · rw [if_pos h2]
        refine Or.inl ⟨_, rfl, ?_⟩
        rw [names_cons h1]; omega
      · rw [if_neg h2]
        exact Or.inr ⟨d, sub, rfl, h1, h2, rfl⟩

theorem addLink_ok {dmm : Option PMatcher} : ∀ (fuel B : Nat) (dm : DM) (u r : Str) (ds : List Str),
    B < fuel → Good dmm B dm → names ds ≤ B → (addLink fuel dm u r ds).Ok (fun x => Good dmm B x.1)
  | fuel + 1, B, dm, u, r, ds, hf, h, hn => by
    rw [addLink]
    rcases getDomain_cases ds with ⟨sub, e, hsub⟩ | ⟨d, sub, rfl, h1, h2, e⟩
    · rw [e]
      refine (getDefault_ok h).bind ?_
      rintro ⟨dm1, rm⟩ hx
      have hx' : dm1 = dm ∨ dm1 = dm.setPatterns (sins dm.patterns defaultDomain) := by
        rcases hx with hx | ⟨_, hx, _⟩
        · exact Or.inl hx
        · exact Or.inr hx
      refine (propagate_ok (h.setDflt' hx' _) _ _ _ ?_).map (fun a ha => ha)
      intro s hB hs
      refine (addLink_ok fuel (B - 1) s u r _ (by omega) hs ?_).map (fun a ha => ha)
      rw [names_snoc]; omega
    · rw [e]
      rw [names_cons h1] at hn
      refine (getSub_ok h (addLink fuel) d ?_).bind ?_
      · intro s u r ds hs hds
        exact addLink_ok fuel (B - 1) s u r ds (by omega) hs hds
      · rintro ⟨dm1, s⟩ ⟨hx, hs⟩
        have hx' : dm1 = dm ∨ dm1 = dm.setPatterns (sins dm.patterns d) := by
          rcases hx with hx | ⟨_, hx, _⟩
          · exact Or.inl hx
          · exact Or.inr hx
        refine (addLink_ok fuel (B - 1) s u r sub (by omega) hs (by omega)).bind ?_
        rintro ⟨s', added⟩ hs'
        refine (propagate_ok (h.setSub' d hx' s' (by omega) h2 hs') _ _ _ ?_).map (fun a ha => ha)
        intro s hB hs
        refine (addLink_ok fuel (B - 1) s u r _ (by omega) hs ?_).map (fun a ha => ha)
        rw [names_snoc]; omega

theorem deleteLink_ok {dmm : Option PMatcher} : ∀ (fuel B : Nat) (dm : DM) (u r : Str) (ds : List Str),
    B < fuel → Good dmm B dm → names ds ≤ B → (deleteLink fuel dm u r ds).Ok (fun x => Good dmm B x.1)
  | fuel + 1, B, dm, u, r, ds, hf, h, hn => by
    rw [deleteLink]
    rcases getDomain_cases ds with ⟨sub, e, hsub⟩ | ⟨d, sub, rfl, h1, h2, e⟩
    · rw [e]
      refine (getDefault_ok h).bind ?_
      rintro ⟨dm1, rm⟩ hx
      have hx' : dm1 = dm ∨ dm1 = dm.setPatterns (sins dm.patterns defaultDomain) := by
        rcases hx with hx | ⟨_, hx, _⟩
        · exact Or.inl hx
        · exact Or.inr hx
      refine (propagate_ok (h.setDflt' hx' _) _ _ _ ?_).map (fun a ha => ha)
      intro s hB hs
      refine (deleteLink_ok fuel (B - 1) s u r _ (by omega) hs ?_).map (fun a ha => ha)
      rw [names_snoc]; omega
    · rw [e]
      rw [names_cons h1] at hn
      refine (getSub_ok h (addLink fuel) d ?_).bind ?_
      · intro s u r ds hs hds
        exact addLink_ok fuel (B - 1) s u r ds (by omega) hs hds
      · rintro ⟨dm1, s⟩ ⟨hx, hs⟩
        have hx' : dm1 = dm ∨ dm1 = dm.setPatterns (sins dm.patterns d) := by
          rcases hx with hx | ⟨_, hx, _⟩
          · exact Or.inl hx
          · exact Or.inr hx
        refine (deleteLink_ok fuel (B - 1) s u r sub (by omega) hs (by omega)).bind ?_
        rintro ⟨s', added⟩ hs'
        refine (propagate_ok (h.setSub' d hx' s' (by omega) h2 hs') _ _ _ ?_).map (fun a ha => ha)
        intro s hB hs
        refine (deleteLink_ok fuel (B - 1) s u r _ (by omega) hs ?_).map (fun a ha => ha)
        rw [names_snoc]; omega

theorem query_ok {dmm : Option PMatcher} {β : Type} (q : RM → RM × β) :
    ∀ (fuel B : Nat) (dm : DM) (ds : List Str),
    B < fuel → Good dmm B dm → names ds ≤ B → NoPattern dmm ds →
      (query q fuel dm ds).Ok (fun x => Good dmm B x.1)
  | fuel + 1, B, dm, ds, hf, h, hn, hnp => by
    rw [query]
    rcases getDomain_cases ds with ⟨sub, e, hsub⟩ | ⟨d, sub, rfl, h1, h2, e⟩
    · rw [e]
      refine (getDefault_ok h).map ?_
      rintro ⟨dm1, rm⟩ hx
      have hx' : dm1 = dm := by
        rcases hx with hx | ⟨_, _, m, hm, hp⟩
        · exact hx
        · rw [(hnp m hm).1] at hp; cases hp
      subst hx'
      dsimp only
      split
      · exact h.setDflt' (Or.inl rfl) _
      · exact h
    · rw [e]
      rw [names_cons h1] at hn
      refine (getSub_ok h (addLink fuel) d ?_).bind ?_
      · intro s u r ds hs hds
        exact addLink_ok fuel (B - 1) s u r ds (by omega) hs hds
      · rintro ⟨dm1, s⟩ ⟨hx, hs⟩
        have hx' : dm1 = dm := by
          rcases hx with hx | ⟨_, _, m, hm, hp⟩
          · exact hx
          · rw [(hnp m hm).2 d (by simp)] at hp; cases hp
        subst hx'
        refine (query_ok q fuel (B - 1) s sub (by omega) hs (by omega)
          (fun m hm => ⟨(hnp m hm).1, fun x hx => (hnp m hm).2 x (by simp [hx])⟩)).map ?_
        rintro ⟨s', b⟩ hs'
        dsimp only
        split
        · exact h.setSub' d (Or.inl rfl) s' (by omega) h2 hs'
        · exact h

mutual
theorem setMatcher_good (dmm : Option PMatcher) (m : Option PMatcher)
    (order : List (Str × Str) → List (Str × Str)) : ∀ (dm : DM) (B : Nat), Good dmm B dm →
    Good dmm B (setMatcher m order dm)
  | mk dflt subs ps L m' dm', B, h => by
    cases h with
    | mk hp hb hs =>
      have h2 := setMatcherSubs_good dmm m order subs (B - 1) hs
      rw [setMatcher]
      refine Good.mk ?_ ?_ h2.1
      · intro p hpp
        have := hp p hpp
        rw [h2.2]
        split
        · rename_i e; rw [if_pos e] at this; simpa using this
        · rename_i e; rw [if_neg e] at this; exact this
      · intro hr
        refine hb ?_
        intro e
        have h3 := h2.2
        rw [e] at h3
        simp only [List.map_nil, List.map_eq_nil_iff] at h3
        rw [e] at hr
        exact hr h3
theorem setMatcherSubs_good (dmm : Option PMatcher) (m : Option PMatcher)
    (order : List (Str × Str) → List (Str × Str)) : ∀ (subs : List (Str × DM)) (B : Nat),
    (∀ x ∈ subs, Good dmm B x.2) →
    (∀ x ∈ setMatcherSubs m order subs, Good dmm B x.2) ∧
      (setMatcherSubs m order subs).map (·.1) = subs.map (·.1)
  | [], B, _ => by simp [setMatcherSubs]
  | (d, s) :: rest, B, h => by
    have h1 := setMatcher_good dmm m order s B (h (d, s) (by simp))
    have h2 := setMatcherSubs_good dmm m order rest B (fun x hx => h x (by simp [hx]))
    rw [setMatcherSubs]
    refine ⟨?_, by simp [h2.2]⟩
    intro x hx
    rcases List.mem_cons.1 hx with rfl | hx
    · exact h1
    · exact h2.1 x hx
end

/-- Replaying links over a new manager. -/
theorem replay_ok (dmm : Option PMatcher) (fuel B L : Nat) (mm : Option PMatcher) (hf : B < fuel)
    (ls : List (Str × Str × List Str)) (hl : ∀ l ∈ ls, l.2.2.length ≤ B) :
    (ls.foldl (fun (r : Res DM) l =>
        r.bind fun s => (addLink fuel s l.1 l.2.1 l.2.2).map (·.1)) (.ok (new L mm dmm))).Ok
      (Good dmm B) := by
  refine Res.Ok.foldl (f := fun s l => (addLink fuel s l.1 l.2.1 l.2.2).map (·.1)) ls _
    ⟨_, rfl, good_new _ _ _ _⟩ ?_
  intro a b hb ha
  exact (addLink_ok fuel B a _ _ _ hf ha (Nat.le_trans (names_le _) (hl b hb))).map (fun a ha => ha)

mutual
theorem setDomainMatcher_ok (dmm m : Option PMatcher) (fuel : Nat)
    (order : List (Str × Str × List Str) → List (Str × Str × List Str)) (ho : ∀ l, (order l).Perm l) : ∀ (dm : DM) (B : Nat),
    Good dmm B dm → B < fuel → (setDomainMatcher fuel m order dm).Ok (Good m B)
  | mk dflt subs ps L m' dm', B, h, hf => by
    cases h with
    | mk hp hb hs =>
      rw [setDomainMatcher]
      refine (setDomainMatcherSubs_ok dmm m fuel order ho subs (B - 1) hs (by omega)).bind ?_
      rintro subs' ⟨h1, h2⟩
      refine replay_ok m fuel B L m' hf _ (fun l hl => ?_)
      rw [(ho _).mem_iff] at hl
      revert l
      refine range_length m _ B (Good.mk (by simp) ?_ h1)
      intro hr
      refine hb ?_
      intro e
      rw [e] at h2
      simp only [List.map_nil, List.map_eq_nil_iff] at h2
      exact hr h2
theorem setDomainMatcherSubs_ok (dmm m : Option PMatcher) (fuel : Nat)
    (order : List (Str × Str × List Str) → List (Str × Str × List Str)) (ho : ∀ l, (order l).Perm l) :
    ∀ (subs : List (Str × DM)) (B : Nat), (∀ x ∈ subs, Good dmm B x.2) → B < fuel →
    (setDomainMatcherSubs fuel m order subs).Ok
      (fun r => (∀ x ∈ r, Good m B x.2) ∧ r.map (·.1) = subs.map (·.1))
  | [], B, _, _ => ⟨[], by rw [setDomainMatcherSubs], by simp⟩
  | (d, s) :: rest, B, h, hf => by
    have h1 := setDomainMatcher_ok dmm m fuel order ho s B (h (d, s) (by simp)) hf
    have h2 := setDomainMatcherSubs_ok dmm m fuel order ho rest B (fun x hx => h x (by simp [hx])) hf
    rw [setDomainMatcherSubs]
    refine h1.bind ?_
    intro s' hs'
    refine h2.map ?_
    rintro r ⟨h3, h4⟩
    refine ⟨?_, by simp [h4]⟩
    intro x hx
    rcases List.mem_cons.1 hx with rfl | hx
    · exact hs'
    · exact h3 x hx
end

end DM

end Fastac
