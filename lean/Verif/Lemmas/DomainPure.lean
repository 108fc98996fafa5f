import Verif.Lemmas.DomainSafe
import Verif.Lemmas.RoleState

/-! # Queries leave a domain manager as it is -/

namespace Fastac

/-- The result, if there is one, satisfies `Q`. -/
def Res.All {α : Type} (Q : α → Prop) (r : Res α) : Prop := ∀ a, r = .ok a → Q a

theorem Res.All.ok {α : Type} {Q : α → Prop} {a : α} (h : Q a) : (Res.ok a).All Q := by
  intro b e; cases e; exact h

theorem Res.All.bind {α β : Type} {Q : α → Prop} {Q' : β → Prop} {r : Res α} {f : α → Res β}
    (h : r.All Q) (hf : ∀ a, Q a → (f a).All Q') : (r.bind f).All Q' := by
  intro b e
  cases r with
  | ok a => exact hf a (h a rfl) b e
  | err => cases e
  | panic => cases e

theorem Res.All.map {α β : Type} {Q : α → Prop} {Q' : β → Prop} {r : Res α} {f : α → β}
    (h : r.All Q) (hf : ∀ a, Q a → Q' (f a)) : (r.map f).All Q' := by
  intro b e
  cases r with
  | ok a => cases e; exact hf a (h a rfl)
  | err => cases e
  | panic => cases e

theorem Res.All.foldl {α β : Type} {Q : α → Prop} {f : α → β → Res α} (hf : ∀ a b, Q a → (f a b).All Q) :
    ∀ (l : List β) (r : Res α), r.All Q → (l.foldl (fun r b => r.bind fun a => f a b) r).All Q
  | [], _, h => h
  | b :: l, _, h => Res.All.foldl hf l _ (h.bind (fun a ha => hf a b ha))

theorem GoMap.set_same {K V : Type} [DecidableEq K] {k : K} {v : V} : ∀ {m : GoMap K V}, m.get k = some v →
    m.set k v = m
  | [], h => by simp [GoMap.get] at h
  | (k', v') :: m, h => by
    rw [GoMap.set]
    rw [GoMap.get] at h
    split
    · rename_i e
      rw [if_pos e] at h
      cases h; rw [e]
    · rename_i e
      rw [if_neg e] at h
      rw [GoMap.set_same h]

namespace DM

/-- Every role manager is consistent, and the domain matcher is the same everywhere. -/
inductive Sane (dmm : Option PMatcher) : DM → Prop
  | mk {dflt : Option RM} {subs : List (Str × DM)} {ps : List Str} {L : Nat} {m : Option PMatcher}
      (hd : ∀ rm, dflt = some rm → ∃ Lk, rm.Inv Lk) (hs : ∀ x ∈ subs, Sane dmm x.2) :
      Sane dmm (DM.mk dflt subs ps L m dmm)

variable {dmm : Option PMatcher}

theorem sane_new (L : Nat) (m : Option PMatcher) : Sane dmm (new L m dmm) :=
  Sane.mk (by simp) (by simp)

theorem Sane.clear {dm : DM} (h : Sane dmm dm) : Sane dmm dm.clear := by
  cases h; exact Sane.mk (by simp) (by simp)

theorem Sane.domMatcher {dm : DM} (h : Sane dmm dm) : dm.domMatcher = dmm := by cases h; rfl

theorem Sane.sub {dm s : DM} (h : Sane dmm dm) {d : Str} (e : dm.subs.get d = some s) : Sane dmm s := by
  cases h with
  | mk hd hs => exact hs _ (GoMap.mem_of_get e)

theorem Sane.dflt {dm : DM} (h : Sane dmm dm) {rm : RM} (e : dm.dflt = some rm) : ∃ Lk, rm.Inv Lk := by
  cases h with
  | mk hd hs => exact hd _ e

theorem Sane.setDflt {dm : DM} (h : Sane dmm dm) {rm : RM} (hr : ∃ Lk, rm.Inv Lk) : Sane dmm (dm.setDflt rm) := by
  cases h with
  | mk hd hs => exact Sane.mk (fun r e => by cases e; exact hr) hs

theorem Sane.setSub {dm s : DM} (h : Sane dmm dm) (hs' : Sane dmm s) (d : Str) : Sane dmm (dm.setSub d s) := by
  cases h with
  | mk hd hs =>
    refine Sane.mk hd (fun x hx => ?_)
    rcases mem_set_iff _ _ _ hx with rfl | hx
    · exact hs'
    · exact hs x hx

theorem Sane.newDomain {dm : DM} (h : Sane dmm dm) (d : Str) :
    (dm.newDomain d).All (fun x => Sane dmm x.1 ∧ ((∀ pm, dmm = some pm → pm.isPattern d = false) → x.1 = dm)) := by
  unfold DM.newDomain
  rw [h.domMatcher]
  cases dmm with
  | none => exact .ok ⟨h, fun _ => rfl⟩
  | some m =>
    simp only
    split
    · rename_i hp
      refine .ok ⟨?_, fun hn => ?_⟩
      · cases h with
        | mk hd hs => exact Sane.mk hd hs
      · rw [hn m rfl] at hp; cases hp
    · intro x e
      cases hl : dm.patternLinks (dm.matchingPatterns m d) with
      | ok ls => rw [hl] at e; cases e; exact ⟨h, fun _ => rfl⟩
      | err => rw [hl] at e; cases e
      | panic => rw [hl] at e; cases e

theorem addLinks_inv : ∀ (ls : List (Str × Str × List Str)) (rm : RM), (∃ Lk, rm.Inv Lk) →
    ∃ Lk, (ls.foldl (fun rm l => (rm.addLink l.1 l.2.1 (l.2.2 ++ [redundantRole])).1) rm).Inv Lk
  | [], _, h => h
  | l :: ls, _, ⟨_, h⟩ => addLinks_inv ls _ ⟨_, (h.addLink l.1 l.2.1 _).1⟩

theorem Sane.getDefault {dm : DM} (h : Sane dmm dm) :
    dm.getDefault.All (fun x => Sane dmm x.1 ∧ (∃ Lk, x.2.Inv Lk) ∧
      ((∀ pm, dmm = some pm → pm.isPattern defaultDomain = false) → x.1 = dm) ∧
      ∀ rm, dm.dflt = some rm → x = (dm, rm)) := by
  unfold DM.getDefault
  cases e : dm.dflt with
  | some rm => exact .ok ⟨h, h.dflt e, fun _ => rfl, fun rm' e' => by cases e'; rfl⟩
  | none =>
    refine (h.newDomain defaultDomain).map (fun x hx => ⟨hx.1, ?_, hx.2, fun rm' e' => by cases e'⟩)
    exact addLinks_inv _ _ ⟨_, RM.new_inv _ _⟩

theorem Sane.getSub {dm : DM} (h : Sane dmm dm) (add : DM → Str → Str → List Str → Res (DM × Bool))
    (hadd : ∀ s u r ds, Sane dmm s → (add s u r ds).All (fun x => Sane dmm x.1)) (d : Str) :
    (getSub add dm d).All (fun x => Sane dmm x.1 ∧ Sane dmm x.2 ∧
      ((∀ pm, dmm = some pm → pm.isPattern d = false) → x.1 = dm) ∧
      ∀ s, dm.subs.get d = some s → x = (dm, s)) := by
  unfold DM.getSub
  cases e : dm.subs.get d with
  | some s => exact .ok ⟨h, h.sub e, fun _ => rfl, fun s' e' => by cases e'; rfl⟩
  | none =>
    refine (h.newDomain d).bind ?_
    rintro ⟨dm1, ls⟩ ⟨h1, h2⟩
    refine Res.All.map (Q := Sane dmm) ?_ (fun s hs => ⟨h1, hs, h2, fun s' e' => by cases e'⟩)
    refine Res.All.foldl (f := fun s l => (add s l.1 l.2.1 (l.2.2 ++ [redundantRole])).map (·.1)) ?_ ls _ ?_
    · intro a b ha
      exact (hadd a _ _ _ ha).map (fun x hx => hx)
    · rw [h.domMatcher]; exact .ok (sane_new _ _)

theorem Sane.mapSubs (f : DM → Res DM) (hf : ∀ s, Sane dmm s → (f s).All (Sane dmm)) (p : Str → Bool) :
    ∀ (subs : List (Str × DM)), (∀ x ∈ subs, Sane dmm x.2) →
      (mapSubs f p subs).All (fun r => ∀ x ∈ r, Sane dmm x.2)
  | [], _ => .ok (by simp)
  | (d, s) :: rest, hq => by
    have ih := Sane.mapSubs f hf p rest (fun x hx => hq x (by simp [hx]))
    rw [DM.mapSubs]
    split
    · refine (hf s (hq (d, s) (by simp))).bind (fun s' hs' => ih.map (fun r hr x hx => ?_))
      rcases List.mem_cons.1 hx with rfl | hx
      · exact hs'
      · exact hr x hx
    · refine ih.map (fun r hr x hx => ?_)
      rcases List.mem_cons.1 hx with rfl | hx
      · exact hq (d, s) (by simp)
      · exact hr x hx

theorem Sane.propagate {dm : DM} (h : Sane dmm dm) (d : Str) (f : DM → Res DM) (g : RM → RM)
    (hf : ∀ s, Sane dmm s → (f s).All (Sane dmm)) (hg : ∀ rm, (∃ Lk, rm.Inv Lk) → ∃ Lk, (g rm).Inv Lk) :
    (dm.propagate d f g).All (Sane dmm) := by
  unfold DM.propagate
  rw [h.domMatcher]
  cases dmm with
  | none => exact .ok h
  | some m =>
    simp only
    split
    · unfold forMatching
      cases h with
      | mk hd hs =>
        rename_i dflt subs ps L m'
        refine (Sane.mapSubs f hf _ subs hs).map (fun r hr => Sane.mk (fun rm e => ?_) hr)
        split at e
        · cases dflt with
          | none => cases e
          | some rm0 => cases e; exact hg rm0 (hd rm0 rfl)
        · exact hd rm e
    · exact .ok h

theorem Sane.addLink : ∀ (fuel : Nat) (dm : DM) (u r : Str) (ds : List Str), Sane dmm dm →
    (addLink fuel dm u r ds).All (fun x => Sane dmm x.1)
  | 0, _, _, _, _, _ => by intro a e; cases e
  | fuel + 1, dm, u, r, ds, h => by
    have hf : ∀ sub s, Sane dmm s →
        ((DM.addLink fuel s u r (sub ++ [redundantRole])).map (·.1)).All (Sane dmm) :=
      fun sub s hs => (Sane.addLink fuel s u r _ hs).map (fun a ha => ha)
    have hg : ∀ sub (rm : RM), (∃ Lk, rm.Inv Lk) → ∃ Lk, (rm.addLink u r (sub ++ [redundantRole])).1.Inv Lk :=
      fun sub rm ⟨_, hr⟩ => ⟨_, (hr.addLink u r _).1⟩
    rw [DM.addLink]
    rcases getDomain ds with ⟨domain, sub⟩
    cases domain with
    | none =>
      refine h.getDefault.bind (fun x hx => ?_)
      obtain ⟨_, hr⟩ := hx.2.1
      exact ((hx.1.setDflt ⟨_, (hr.addLink u r sub).1⟩).propagate _ _ _ (hf sub) (hg sub)).map (fun a ha => ha)
    | some d =>
      refine (h.getSub _ (fun s u r ds hs => Sane.addLink fuel s u r ds hs) d).bind (fun x hx => ?_)
      refine (Sane.addLink fuel x.2 u r sub hx.2.1).bind (fun y hy => ?_)
      exact ((hx.1.setSub hy d).propagate _ _ _ (hf sub) (hg sub)).map (fun a ha => ha)

theorem Sane.deleteLink : ∀ (fuel : Nat) (dm : DM) (u r : Str) (ds : List Str), Sane dmm dm →
    (deleteLink fuel dm u r ds).All (fun x => Sane dmm x.1)
  | 0, _, _, _, _, _ => by intro a e; cases e
  | fuel + 1, dm, u, r, ds, h => by
    have hf : ∀ sub s, Sane dmm s →
        ((DM.deleteLink fuel s u r (sub ++ [redundantRole])).map (·.1)).All (Sane dmm) :=
      fun sub s hs => (Sane.deleteLink fuel s u r _ hs).map (fun a ha => ha)
    have hg : ∀ sub (rm : RM), (∃ Lk, rm.Inv Lk) → ∃ Lk, (rm.deleteLink u r (sub ++ [redundantRole])).1.Inv Lk :=
      fun sub rm ⟨_, hr⟩ => ⟨_, (hr.deleteLink u r _).1⟩
    rw [DM.deleteLink]
    rcases getDomain ds with ⟨domain, sub⟩
    cases domain with
    | none =>
      refine h.getDefault.bind (fun x hx => ?_)
      obtain ⟨_, hr⟩ := hx.2.1
      exact ((hx.1.setDflt ⟨_, (hr.deleteLink u r sub).1⟩).propagate _ _ _ (hf sub) (hg sub)).map (fun a ha => ha)
    | some d =>
      refine (h.getSub _ (fun s u r ds hs => Sane.addLink fuel s u r ds hs) d).bind (fun x hx => ?_)
      refine (Sane.deleteLink fuel x.2 u r sub hx.2.1).bind (fun y hy => ?_)
      exact ((hx.1.setSub hy d).propagate _ _ _ (hf sub) (hg sub)).map (fun a ha => ha)

theorem setDflt_same {dm : DM} {rm : RM} (e : dm.dflt = some rm) : dm.setDflt rm = dm := by
  cases dm; cases e; rfl

theorem setSub_same {dm s : DM} {d : Str} (e : dm.subs.get d = some s) : dm.setSub d s = dm := by
  cases dm
  unfold setSub
  rw [GoMap.set_same e]; rfl

/-- A query leaves the manager sane; if no element of the path is a pattern, as it was. -/
theorem Sane.query {β : Type} (q : RM → RM × β) (hq : ∀ rm Lk, rm.Inv Lk → (q rm).1 = rm) :
    ∀ (fuel : Nat) (dm : DM) (ds : List Str), Sane dmm dm →
    (query q fuel dm ds).All (fun x => Sane dmm x.1 ∧ (NoPattern dmm ds → x.1 = dm))
  | 0, _, _, _ => by intro a e; cases e
  | fuel + 1, dm, ds, h => by
    rw [DM.query]
    have hsub : ∀ m, dmm = some m → NoPattern dmm ds → m.isPattern defaultDomain = false ∧
        ∀ d ∈ ds, m.isPattern d = false := fun m e np => np m e
    rcases getDomain_cases ds with ⟨sub, e, _⟩ | ⟨d, sub, rfl, _, _, e⟩
    · rw [e]
      refine h.getDefault.map (fun x hx => ?_)
      obtain ⟨_, hr⟩ := hx.2.1
      dsimp only
      rw [hq _ _ hr]
      split
      · rename_i hsome
        obtain ⟨rm, er⟩ := Option.isSome_iff_exists.1 hsome
        rw [hx.2.2.2 rm er, setDflt_same er]
        exact ⟨h, fun _ => rfl⟩
      · exact ⟨hx.1, fun np => hx.2.2.1 (fun pm ep => (np pm ep).1)⟩
    · rw [e]
      refine (h.getSub _ (fun s u r ds hs => Sane.addLink fuel s u r ds hs) d).bind (fun x hx => ?_)
      refine (Sane.query q hq fuel x.2 sub hx.2.1).map (fun y hy => ?_)
      dsimp only
      split
      · rename_i hsome
        obtain ⟨s, es⟩ := Option.isSome_iff_exists.1 hsome
        have ex := hx.2.2.2 s es
        refine ⟨hx.1.setSub hy.1 d, fun np => ?_⟩
        rw [hy.2 (fun pm ep => ⟨(np pm ep).1, fun z hz => (np pm ep).2 z (by simp [hz])⟩), ex, setSub_same es]
      · exact ⟨hx.1, fun np => hx.2.2.1 (fun pm ep => (np pm ep).2 d (by simp))⟩

mutual
theorem setMatcher_sane (m : Option PMatcher) (order : List (Str × Str) → List (Str × Str)) :
    ∀ (dm : DM), Sane dmm dm → Sane dmm (setMatcher m order dm)
  | .mk dflt subs ps L mm dd, h => by
    rw [setMatcher]
    cases h with
    | mk hd hs =>
      refine Sane.mk (fun rm e => ?_) (setMatcherSubs_sane m order subs hs)
      cases dflt with
      | none => cases e
      | some rm0 =>
        cases e
        have h0 : ({ rm0.clear with matcher := m } : RM).Has rm0.level m (fun _ _ => False) (fun _ => False) :=
          ⟨by constructor <;> simp [RM.clear], by simp [RM.clear], fun _ => rfl, rfl, rfl⟩
        exact ⟨_, (RM.Has.addLinks (order rm0.links) _ _ _ h0).inv⟩
theorem setMatcherSubs_sane (m : Option PMatcher) (order : List (Str × Str) → List (Str × Str)) :
    ∀ (subs : List (Str × DM)), (∀ x ∈ subs, Sane dmm x.2) → ∀ x ∈ setMatcherSubs m order subs, Sane dmm x.2
  | [], _ => by simp [setMatcherSubs]
  | (d, s) :: rest, h => by
    intro x hx
    rw [setMatcherSubs] at hx
    rcases List.mem_cons.1 hx with rfl | hx
    · exact setMatcher_sane m order s (h (d, s) (by simp))
    · exact setMatcherSubs_sane m order rest (fun x hx => h x (by simp [hx])) x hx
end

theorem setDomainMatcher_sane (m : Option PMatcher)
    (order : List (Str × Str × List Str) → List (Str × Str × List Str)) (fuel : Nat) (dm : DM) :
    (setDomainMatcher fuel m order dm).All (Sane m) := by
  cases dm with
  | mk dflt subs ps L mm dd =>
    rw [setDomainMatcher]
    refine Res.All.bind (Q := fun _ => True) (fun _ _ => trivial) (fun subs' _ => ?_)
    refine Res.All.foldl (f := fun s (l : Str × Str × List Str) => (DM.addLink fuel s l.1 l.2.1 l.2.2).map (·.1)) ?_ _ _
      (.ok (sane_new _ _))
    intro a b ha
    exact (Sane.addLink fuel a _ _ _ ha).map (fun x hx => hx)

end DM

end Fastac
