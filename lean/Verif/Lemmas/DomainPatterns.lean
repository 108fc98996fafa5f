import Verif.Lemmas.DomainSafe
import Verif.Lemmas.RoleRuns

/-! # Domain patterns, one level of domains -/

namespace Fastac

namespace DM

section
variable (m : PMatcher) (mm : Option PMatcher) (L : Nat)

/-- A manager of a domain without subdomains, with exactly the links `Lk`. -/
def Leaf (s : DM) (Lk : Str → Str → Prop) : Prop :=
  ∃ o, s = DM.mk o [] [] (L - 1) mm (some m) ∧ (o.getD (RM.new (L - 2) mm)).Inv Lk ∧
    (o.getD (RM.new (L - 2) mm)).level = L - 2 ∧ (o.getD (RM.new (L - 2) mm)).matcher = mm

/-- No link of the manager is marked redundant. -/
def NoRed (s : DM) : Prop := ∀ rm, s.dflt = some rm → ∀ x, (rm.obj x).redundant = []

theorem leaf_new : Leaf m mm L (new (L - 1) mm (some m)) (fun _ _ => False) :=
  ⟨none, rfl, RM.new_inv _ _, rfl, rfl⟩

variable {m mm L}

theorem Leaf.getDefault {s : DM} {Lk : Str → Str → Prop} (h : Leaf m mm L s Lk)
    (hd : m.isPattern defaultDomain = false) :
    s.getDefault = .ok (s, s.dflt.getD (RM.new (L - 2) mm)) := by
  obtain ⟨o, rfl, _⟩ := h
  cases o with
  | some rm => rfl
  | none =>
    simp [DM.getDefault, DM.dflt, newDomain, DM.domMatcher, hd, matchingPatterns, DM.patterns, patternLinks,
      DM.level, DM.matcher]
    rw [show L - 1 - 1 = L - 2 from by omega]

theorem Leaf.addLink {s : DM} {Lk : Str → Str → Prop} (h : Leaf m mm L s Lk)
    (hd : m.isPattern defaultDomain = false) (fuel : Nat) (u r : Str) (ds : List Str)
    (hds : ds = [] ∨ ds = [redundantRole]) :
    (DM.addLink (fuel + 1) s u r ds).Ok (fun x => Leaf m mm L x.1 (addL Lk u r) ∧
      (NoRed s → ds = [] → NoRed x.1)) := by
  have e : getDomain ds = (none, ds) := by
    rcases hds with rfl | rfl <;> rfl
  rw [DM.addLink, e]
  simp only [h.getDefault hd, Res.bind_ok]
  obtain ⟨o, rfl, hi, hl, hm⟩ := h
  simp only [DM.dflt]
  have A := hi.addLink u r ds
  refine ⟨(DM.mk (some ((o.getD (RM.new (L - 2) mm)).addLink u r ds).1) [] [] (L - 1) mm (some m),
    ((o.getD (RM.new (L - 2) mm)).addLink u r ds).2), ?_, ?_, ?_⟩
  · simp [propagate, setDflt, DM.domMatcher, hd, DM.subs, DM.patterns, DM.level, DM.matcher]
  · exact ⟨some _, rfl, A.1, A.2.1.level.trans hl, A.2.1.matcher.trans hm⟩
  · rintro hn rfl rm hrm x
    cases hrm
    apply List.eq_nil_iff_forall_not_mem.2
    intro y hy
    rw [A.2.2.2] at hy
    rcases hy with hy | ⟨hy, _⟩
    · cases o with
      | none => simp [RM.new] at hy
      | some rm => rw [Option.getD_some, hn rm rfl x] at hy; simp at hy
    · simp at hy

/-- Copying links into a new manager. -/
theorem leaf_fold (hd : m.isPattern defaultDomain = false) (fuel : Nat) :
    ∀ (ls : List (Str × Str × List Str)), (∀ l ∈ ls, l.2.2 = []) → ∀ (r : Res DM) (Lk : Str → Str → Prop),
      r.Ok (fun s => Leaf m mm L s Lk) →
      (ls.foldl (fun (r : Res DM) l =>
          r.bind fun s => (DM.addLink (fuel + 1) s l.1 l.2.1 (l.2.2 ++ [redundantRole])).map (·.1)) r).Ok
        (fun s => Leaf m mm L s (fun u v => Lk u v ∨ (u, v, []) ∈ ls))
  | [], _, r, Lk, h => by simpa using h
  | l :: ls, hl, r, Lk, h => by
    have h2 : (r.bind fun s => (DM.addLink (fuel + 1) s l.1 l.2.1 (l.2.2 ++ [redundantRole])).map (·.1)).Ok
        (fun s => Leaf m mm L s (addL Lk l.1 l.2.1)) := by
      refine h.bind ?_
      intro s hs
      rw [hl l (by simp)]
      exact (hs.addLink hd fuel l.1 l.2.1 [redundantRole] (Or.inr rfl)).map (fun a ha => ha.1)
    have h3 := leaf_fold hd fuel ls (fun x hx => hl x (by simp [hx])) _ _ h2
    have e : (fun u v => addL Lk l.1 l.2.1 u v ∨ (u, v, []) ∈ ls) =
        fun u v => Lk u v ∨ (u, v, ([] : List Str)) ∈ l :: ls := by
      funext u v
      apply propext
      simp only [addL, List.mem_cons]
      have : ((u, v, ([] : List Str)) = l) ↔ (u = l.1 ∧ v = l.2.1) := by
        have := hl l (by simp)
        obtain ⟨a, b, c⟩ := l
        simp only at this
        subst this
        simp
      rw [this, or_assoc]
    rw [List.foldl_cons, ← e]
    exact h3

/-- State after the links `H` have been added. -/
structure One (m : PMatcher) (mm : Option PMatcher) (L : Nat) (H : List (Str × Str × List Str)) (dm : DM) :
    Prop where
  level : dm.level = L
  matcher : dm.matcher = mm
  domMatcher : dm.domMatcher = some m
  wf : dm.subs.WF
  names : ∀ x ∈ dm.subs, x.1 ≠ defaultDomain
  leaf : ∀ x ∈ dm.subs, Leaf m mm L x.2 (addedFor m H x.1)
  nored : ∀ x ∈ dm.subs, m.isPattern x.1 = true → NoRed x.2
  pats : ∀ p, p ∈ dm.patterns ↔ m.isPattern p = true ∧ (dm.subs.get p).isSome
  absent : ∀ u r d, (u, r, [d]) ∈ H → (dm.subs.get d).isSome
  keys : ∀ d, (dm.subs.get d).isSome → ∃ u r, (u, r, [d]) ∈ H

theorem Leaf.range {s : DM} {Lk : Str → Str → Prop} (h : Leaf m mm L s Lk) (hn : NoRed s)
    (l : Str × Str × List Str) : l ∈ DM.range s ↔ l.2.2 = [] ∧ Lk l.1 l.2.1 := by
  obtain ⟨o, rfl, hi, _, _⟩ := h
  rw [DM.range, rangeSubs, List.append_nil]
  cases o with
  | none =>
    have := hi.roles l.1 l.2.1
    simp [RM.new] at this
    simp [dfltLinks, this]
  | some rm =>
    have := hi.mem_links (hn rm rfl)
    simp only [Option.getD_some] at this
    simp only [dfltLinks, List.mem_map]
    constructor
    · rintro ⟨x, hx, rfl⟩
      exact ⟨rfl, (this _ _).1 hx⟩
    · rintro ⟨h1, h2⟩
      refine ⟨(l.1, l.2.1), (this _ _).2 h2, ?_⟩
      obtain ⟨a, b, c⟩ := l
      simp only at h1
      subst h1
      rfl

theorem One.patternLinks {H : List (Str × Str × List Str)} {dm : DM} (h : One m mm L H dm) :
    ∀ ps : List Str, (∀ p ∈ ps, p ∈ dm.patterns) →
      (dm.patternLinks ps).Ok (fun ls => (∀ l ∈ ls, l.2.2 = []) ∧
        ∀ u r, (u, r, []) ∈ ls ↔ ∃ p ∈ ps, addedFor m H p u r)
  | [], _ => ⟨[], rfl, by simp⟩
  | p :: ps, hp => by
    have hpp := (h.pats p).1 (hp p (by simp))
    obtain ⟨s, hs⟩ := Option.isSome_iff_exists.1 hpp.2
    have hmem := GoMap.mem_of_get hs
    have hne : p ≠ defaultDomain := h.names _ hmem
    have hlf := (h.leaf _ hmem).range (h.nored _ hmem hpp.1)
    rw [DM.patternLinks, linksOf, if_neg hne, hs]
    refine (h.patternLinks ps (fun q hq => hp q (by simp [hq]))).map ?_
    rintro rest ⟨h1, h2⟩
    refine ⟨?_, ?_⟩
    · intro l hl
      rcases List.mem_append.1 hl with hl | hl
      · exact ((hlf l).1 hl).1
      · exact h1 l hl
    · intro u r
      rw [List.mem_append, h2, hlf]
      simp

theorem mapSubs_ok' {Q Q' : Str → DM → Prop} (f : DM → Res DM) (p : Str → Bool) :
    ∀ (subs : List (Str × DM)), (∀ x ∈ subs, Q x.1 x.2) →
      (∀ x ∈ subs, Q x.1 x.2 → p x.1 = true → (f x.2).Ok (Q' x.1)) →
      (∀ x ∈ subs, Q x.1 x.2 → p x.1 = false → Q' x.1 x.2) →
      (mapSubs f p subs).Ok (fun r => (∀ x ∈ r, Q' x.1 x.2) ∧ r.map (·.1) = subs.map (·.1))
  | [], _, _, _ => ⟨[], rfl, by simp⟩
  | (d, s) :: rest, hq, hf, hg => by
    have ih := mapSubs_ok' f p rest (fun x hx => hq x (by simp [hx])) (fun x hx => hf x (by simp [hx]))
      (fun x hx => hg x (by simp [hx]))
    rw [mapSubs]
    split
    · rename_i hp
      refine (hf (d, s) (by simp) (hq (d, s) (by simp)) hp).bind ?_
      intro s' hs'
      refine ih.map ?_
      rintro r ⟨h1, h2⟩
      refine ⟨?_, by simp [h2]⟩
      intro x hx
      rcases List.mem_cons.1 hx with rfl | hx
      · exact hs'
      · exact h1 x hx
    · rename_i hp
      refine ih.map ?_
      rintro r ⟨h1, h2⟩
      refine ⟨?_, by simp [h2]⟩
      intro x hx
      rcases List.mem_cons.1 hx with rfl | hx
      · exact hg (d, s) (by simp) (hq (d, s) (by simp)) (by simpa using hp)
      · exact h1 x hx

theorem mem_set_wf {K V : Type} [DecidableEq K] {m : GoMap K V} (w : m.WF) (k : K) (v : V) {x : K × V}
    (h : x ∈ m.set k v) : x = (k, v) ∨ (x ∈ m ∧ x.1 ≠ k) := by
  have h1 := (w.set k v).get_of_mem (k := x.1) (v := x.2) h
  rw [GoMap.get_set] at h1
  split at h1
  · rename_i e
    cases h1
    exact Or.inl (by rw [e])
  · rename_i e
    exact Or.inr ⟨GoMap.mem_of_get h1, fun e' => e e'.symm⟩

theorem get_isSome_keys {V : Type} {s t : GoMap Str V} (h : t.map Prod.fst = s.map Prod.fst) (k : Str) :
    (t.get k).isSome = (s.get k).isSome := by
  have h1 := @GoMap.mem_keys_iff _ _ _ s k
  have h2 := @GoMap.mem_keys_iff _ _ _ t k
  rw [h] at h2
  cases e1 : (t.get k).isSome <;> cases e2 : (s.get k).isSome <;> simp_all

theorem addedFor_snoc_pos (H : List (Str × Str × List Str)) {u r x d : Str}
    (hx : x = d ∨ m.covers x d) :
    addedFor m (H ++ [(u, r, [x])]) d = addL (addedFor m H d) u r := by
  funext a b
  apply propext
  unfold addedFor addL
  constructor
  · rintro ⟨p, hp, hc⟩
    rcases List.mem_append.1 hp with hp | hp
    · exact Or.inl ⟨p, hp, hc⟩
    · simp only [List.mem_singleton, Prod.mk.injEq] at hp
      exact Or.inr ⟨hp.1, hp.2.1⟩
  · rintro (⟨p, hp, hc⟩ | ⟨rfl, rfl⟩)
    · exact ⟨p, by simp [hp], hc⟩
    · exact ⟨x, by simp, hx⟩

theorem addedFor_snoc_neg (H : List (Str × Str × List Str)) {u r x d : Str}
    (hx : ¬(x = d ∨ m.covers x d)) :
    addedFor m (H ++ [(u, r, [x])]) d = addedFor m H d := by
  funext a b
  apply propext
  unfold addedFor
  constructor
  · rintro ⟨p, hp, hc⟩
    rcases List.mem_append.1 hp with hp | hp
    · exact ⟨p, hp, hc⟩
    · simp only [List.mem_singleton, Prod.mk.injEq, List.cons.injEq, and_true] at hp
      rw [hp.2.2] at hc
      exact absurd hc hx
  · rintro ⟨p, hp, hc⟩
    exact ⟨p, by simp [hp], hc⟩

theorem addedFor_snoc_nil (H : List (Str × Str × List Str)) (u r d : Str) :
    addedFor m (H ++ [(u, r, [])]) d = addedFor m H d := by
  funext a b
  simp [addedFor]

/-- The manager used for a domain: stored or made for the call. -/
theorem One.getSub {H : List (Str × Str × List Str)} {dm : DM} (h : One m mm L H dm)
    {V : Str → Prop} (hf : m.FlatOn V) (hV : ∀ u r n, (u, r, [n]) ∈ H → V n)
    (hd : m.isPattern defaultDomain = false) (fuel : Nat) (x : Str) (hx : V x) :
    (DM.getSub (DM.addLink (fuel + 1)) dm x).Ok (fun y =>
      Leaf m mm L y.2 (addedFor m H x) ∧ (m.isPattern x = true → NoRed y.2) ∧
      ((y.1 = dm ∧ (m.isPattern x = true → (dm.subs.get x).isSome)) ∨
        (y.1 = dm.setPatterns (sins dm.patterns x) ∧ m.isPattern x = true))) := by
  unfold DM.getSub
  cases e : dm.subs.get x with
  | some s =>
    have hm := GoMap.mem_of_get e
    exact ⟨_, rfl, h.leaf _ hm, h.nored _ hm, Or.inl ⟨rfl, by simp⟩⟩
  | none =>
    have hnone : ∀ u r, (u, r, [x]) ∉ H := by
      intro u r hu
      have := h.absent u r x hu
      rw [e] at this; simp at this
    simp only
    unfold newDomain
    simp only [h.domMatcher, h.level, h.matcher]
    cases hp : m.isPattern x with
    | true =>
      simp only [if_true, Res.bind_ok, List.foldl_nil, Res.map_ok]
      refine ⟨_, rfl, ?_, ?_, Or.inr ⟨rfl, trivial⟩⟩
      · have : addedFor m H x = fun _ _ => False := by
          funext a b
          apply propext
          constructor
          · rintro ⟨p, hpm, rfl | hc⟩
            · exact hnone _ _ hpm
            · have := hf x p hx (hV _ _ _ hpm) hp hc.1 hc.2.1
              rw [hc.2.2] at this; cases this
          · exact False.elim
        rw [this]
        exact leaf_new m mm L
      · intro _ rm hrm
        cases hrm
    | false =>
      simp only [Bool.false_eq_true, if_false]
      have hpl := h.patternLinks (dm.matchingPatterns m x) (fun p hp => (List.mem_filter.1 hp).1)
      obtain ⟨ls, e1, h1, h2⟩ := hpl
      rw [e1]
      simp only [Res.map_ok, Res.bind_ok]
      refine (leaf_fold hd fuel ls h1 _ _ ⟨_, rfl, leaf_new m mm L⟩).map ?_
      intro s hs
      refine ⟨?_, by simp, Or.inl ⟨rfl, by simp⟩⟩
      have : addedFor m H x = fun u v => False ∨ (u, v, ([] : List Str)) ∈ ls := by
        funext u v
        apply propext
        rw [false_or, h2]
        constructor
        · rintro ⟨p, hpm, rfl | hc⟩
          · exact absurd hpm (hnone _ _)
          · refine ⟨p, ?_, p, hpm, Or.inl rfl⟩
            unfold matchingPatterns
            rw [List.mem_filter]
            exact ⟨(h.pats p).2 ⟨hc.1, h.absent _ _ _ hpm⟩, by simp [hc.2.2, Ne.symm hc.2.1]⟩
        · rintro ⟨p, hpm, q, hq, hc⟩
          unfold matchingPatterns at hpm
          rw [List.mem_filter] at hpm
          have hpp := ((h.pats p).1 hpm.1).1
          have hpx : m.covers p x := by
            have := hpm.2
            simp only [decide_not, Bool.and_eq_true, Bool.not_eq_eq_eq_not, Bool.not_true,
              decide_eq_false_iff_not] at this
            exact ⟨hpp, fun e => this.1 e.symm, this.2⟩
          rcases hc with rfl | hc
          · exact ⟨q, hq, Or.inr hpx⟩
          · obtain ⟨_, _, hk⟩ := h.keys p ((h.pats p).1 hpm.1).2
            have := hf p q (hV _ _ _ hk) (hV _ _ _ hq) hpp hc.1 hc.2.1
            rw [hc.2.2] at this; cases this
      rw [this]
      exact hs

theorem One.add {H : List (Str × Str × List Str)} {dm : DM} (h : One m mm L H dm)
    {V : Str → Prop} (hf : m.FlatOn V) (hV : ∀ u r n, (u, r, [n]) ∈ H → V n)
    (hd : m.isPattern defaultDomain = false) (fuel : Nat) (u r x : Str) (hc : Clean [x]) (hVx : V x) :
    (DM.addLink (fuel + 2) dm u r [x]).Ok (fun y => One m mm L (H ++ [(u, r, [x])]) y.1) := by
  have hx := hc x (by simp)
  rw [DM.addLink]
  have e : getDomain [x] = (some x, []) := by simp [getDomain, hx.1, hx.2]
  rw [e]
  refine (h.getSub hf hV hd fuel x hVx).bind ?_
  rintro ⟨dm1, s⟩ ⟨hl, hn, h1⟩
  refine (hl.addLink hd fuel u r [] (Or.inl rfl)).bind ?_
  rintro ⟨s', added⟩ ⟨hl', hn'⟩
  simp only at hl hn h1 hl' hn' ⊢
  -- the state before propagation
  have hsubs : dm1.subs = dm.subs := by
    rcases h1 with ⟨rfl, _⟩ | ⟨rfl, _⟩ <;> rfl
  have hlev : dm1.level = L ∧ dm1.matcher = mm ∧ dm1.domMatcher = some m := by
    rcases h1 with ⟨rfl, _⟩ | ⟨rfl, _⟩
    · exact ⟨h.level, h.matcher, h.domMatcher⟩
    · exact ⟨h.level, h.matcher, h.domMatcher⟩
  have hpats : ∀ p, p ∈ dm1.patterns ↔ m.isPattern p = true ∧ ((dm.subs.set x s').get p).isSome := by
    intro p
    rw [GoMap.get_set]
    rcases h1 with ⟨rfl, hst⟩ | ⟨rfl, hp⟩
    · rw [h.pats]
      by_cases hpx : x = p
      · subst hpx
        simp only [if_true, Option.isSome_some, and_true]
        exact ⟨fun a => a.1, fun a => ⟨a, hst a⟩⟩
      · rw [if_neg hpx]
    · show p ∈ sins _ _ ↔ _
      rw [mem_sins, h.pats]
      by_cases hpx : x = p
      · subst hpx
        simp [hp]
      · simp [hpx, Ne.symm (show x ≠ p from hpx)]
  have key : ∀ y ∈ dm.subs.set x s', Leaf m mm L y.2
      (if x = y.1 then addL (addedFor m H y.1) u r else addedFor m H y.1) ∧
      (m.isPattern y.1 = true → NoRed y.2) ∧ y.1 ≠ defaultDomain := by
    intro y hy
    rcases mem_set_wf h.wf _ _ hy with rfl | ⟨hy, hne⟩
    · refine ⟨?_, ?_, hx.2⟩
      · simpa using hl'
      · intro hp; exact hn' (hn hp) trivial
    · rw [if_neg (fun e => hne e.symm)]
      exact ⟨h.leaf y hy, h.nored y hy, h.names y hy⟩
  have habs : ∀ a b d, (a, b, [d]) ∈ H ++ [(u, r, [x])] → ((dm.subs.set x s').get d).isSome := by
    intro a b d hm
    rw [GoMap.get_set]
    split
    · rfl
    · rename_i hne
      rcases List.mem_append.1 hm with hm | hm
      · exact h.absent _ _ _ hm
      · simp only [List.mem_singleton, Prod.mk.injEq, List.cons.injEq, and_true] at hm
        exact absurd hm.2.2.symm hne
  have hkeys : ∀ d, ((dm.subs.set x s').get d).isSome → ∃ a b, (a, b, [d]) ∈ H ++ [(u, r, [x])] := by
    intro d hm
    rw [GoMap.get_set] at hm
    split at hm
    · rename_i e'; subst e'; exact ⟨u, r, by simp⟩
    · obtain ⟨a, b, hk⟩ := h.keys d hm
      exact ⟨a, b, by simp [hk]⟩
  have hVk : ∀ y ∈ dm.subs.set x s', V y.1 := by
    intro y hy
    rcases mem_set_wf h.wf _ _ hy with rfl | ⟨hy, -⟩
    · exact hVx
    · obtain ⟨a, b, hk⟩ := h.keys y.1 (by rw [h.wf.get_of_mem hy]; rfl)
      exact hV _ _ _ hk
  have hsub' : (dm1.setSub x s').subs = dm.subs.set x s' := by
    show dm1.subs.set x s' = _
    rw [hsubs]
  unfold propagate
  have hdm : (dm1.setSub x s').domMatcher = some m := hlev.2.2
  rw [hdm]
  simp only
  cases hp : m.isPattern x with
  | false =>
    refine ⟨(dm1.setSub x s', added), rfl, hlev.1, hlev.2.1, hdm, ?_, ?_, ?_, ?_, ?_, ?_, ?_⟩
    · rw [hsub']; exact h.wf.set _ _
    · rw [hsub']; intro y hy; exact (key y hy).2.2
    · rw [hsub']
      intro y hy
      have := (key y hy).1
      by_cases e2 : x = y.1
      · rw [addedFor_snoc_pos _ (Or.inl e2)]
        rwa [if_pos e2] at this
      · rw [addedFor_snoc_neg]
        · rwa [if_neg e2] at this
        · rintro (a | a)
          · exact e2 a
          · rw [a.1] at hp; cases hp
    · rw [hsub']; intro y hy; exact (key y hy).2.1
    · rw [hsub']; exact hpats
    · rw [hsub']; exact habs
    · rw [hsub']; exact hkeys
  | true =>
    simp only [if_true]
    unfold forMatching
    rw [hsub']
    have M := mapSubs_ok'
      (Q := fun d s => Leaf m mm L s (if x = d then addL (addedFor m H d) u r else addedFor m H d) ∧
        (m.isPattern d = true → NoRed s) ∧ d ≠ defaultDomain)
      (Q' := fun d s => Leaf m mm L s (addedFor m (H ++ [(u, r, [x])]) d) ∧
        (m.isPattern d = true → NoRed s) ∧ d ≠ defaultDomain)
      (fun s => (DM.addLink (fuel + 1) s u r ([] ++ [redundantRole])).map (·.1))
      (fun d => decide (x ≠ d) && m.match d x) (dm.subs.set x s') key ?_ ?_
    · refine (M.map (Q' := fun z => One m mm L _ z) ?_).map (fun a ha => ha)
      rintro subs' ⟨hS, hK⟩
      refine ⟨hlev.1, hlev.2.1, hdm, ?_, fun y hy => (hS y hy).2.2, fun y hy => (hS y hy).1,
        fun y hy => (hS y hy).2.1, ?_, ?_, ?_⟩
      · show (subs'.map Prod.fst).Nodup
        rw [hK]; exact h.wf.set _ _
      · intro p
        show p ∈ dm1.patterns ↔ _
        rw [hpats]
        show _ ↔ _ ∧ (GoMap.get subs' p).isSome = true
        rw [get_isSome_keys hK]
      · intro a b d hm
        show (GoMap.get subs' d).isSome = true
        rw [get_isSome_keys hK]
        exact habs a b d hm
      · intro d hm
        have hm' : (GoMap.get subs' d).isSome = true := hm
        rw [get_isSome_keys hK] at hm'
        exact hkeys d hm'
    · rintro ⟨d, t⟩ hy ⟨q1, q2, q3⟩ hpd
      simp only [ne_eq, decide_not, Bool.and_eq_true, Bool.not_eq_eq_eq_not, Bool.not_true,
        decide_eq_false_iff_not] at hpd
      simp only at q1 q2 q3
      rw [if_neg hpd.1] at q1
      have hcv : m.covers x d := ⟨hp, fun e => hpd.1 e.symm, hpd.2⟩
      refine (q1.addLink hd fuel u r [redundantRole] (Or.inr rfl)).map ?_
      rintro ⟨t', b⟩ ⟨ht, _⟩
      refine ⟨?_, ?_, q3⟩
      · rw [addedFor_snoc_pos _ (Or.inr hcv)]; exact ht
      · intro hpd'
        have := hf d x (hVk _ hy) hVx hpd' hp hcv.2.1
        rw [hcv.2.2] at this; cases this
    · rintro ⟨d, t⟩ hy ⟨q1, q2, q3⟩ hpd
      simp only at q1 q2 q3
      refine ⟨?_, q2, q3⟩
      by_cases e2 : x = d
      · rw [if_pos e2] at q1
        rw [addedFor_snoc_pos _ (Or.inl e2)]; exact q1
      · rw [if_neg e2] at q1
        rw [addedFor_snoc_neg]
        · exact q1
        · rintro (a | a)
          · exact e2 a
          · simp [e2, a.2.2] at hpd

theorem One.addDefault {H : List (Str × Str × List Str)} {dm : DM} (h : One m mm L H dm)
    (hd : m.isPattern defaultDomain = false) (fuel : Nat) (u r : Str) :
    (DM.addLink (fuel + 1) dm u r []).Ok (fun y => One m mm L (H ++ [(u, r, [])]) y.1) := by
  have hg : dm.getDefault.Ok (fun y => y.1 = dm) := by
    unfold DM.getDefault
    cases e : dm.dflt with
    | some rm => exact ⟨_, rfl, rfl⟩
    | none =>
      simp only
      unfold newDomain
      rw [h.domMatcher]
      simp only [hd, Bool.false_eq_true, if_false]
      obtain ⟨ls, e1, _⟩ := h.patternLinks (dm.matchingPatterns m defaultDomain)
        (fun p hp => (List.mem_filter.1 hp).1)
      rw [e1]
      exact ⟨_, rfl, rfl⟩
  rw [DM.addLink]
  simp only [getDomain]
  refine hg.bind ?_
  rintro ⟨dm1, rm⟩ rfl
  simp only
  unfold propagate
  have hdm : (dm1.setDflt (rm.addLink u r []).1).domMatcher = some m := h.domMatcher
  rw [hdm]
  simp only [hd, Bool.false_eq_true, if_false]
  refine ⟨_, rfl, h.level, h.matcher, hdm, h.wf, h.names, ?_, h.nored, h.pats, ?_, ?_⟩
  · intro y hy
    rw [addedFor_snoc_nil]
    exact h.leaf y hy
  · intro a b d hm
    refine h.absent a b d ?_
    simpa using hm
  · intro d hm
    obtain ⟨a, b, hk⟩ := h.keys d hm
    exact ⟨a, b, by simp [hk]⟩

theorem one_new : One m mm L [] (new L mm (some m)) := by
  refine ⟨rfl, rfl, rfl, GoMap.WF.nil, ?_, ?_, ?_, ?_, ?_, ?_⟩ <;> simp [new, DM.subs, DM.patterns]

theorem One.addAll {V : Str → Prop} (hf : m.FlatOn V) (hd : m.isPattern defaultDomain = false) (fuel : Nat) :
    ∀ (H H0 : List (Str × Str × List Str)) (dm : DM), One m mm L H0 dm →
      (∀ u r n, (u, r, [n]) ∈ H0 ++ H → V n) →
      (∀ l ∈ H, Clean l.2.2 ∧ l.2.2.length ≤ 1) →
      (DM.addAll (fuel + 2) dm H).Ok (One m mm L (H0 ++ H))
  | [], H0, dm, h, _, _ => ⟨dm, rfl, by simpa using h⟩
  | (u, r, ds) :: H, H0, dm, h, hV, hH => by
    have h1 := hH (u, r, ds) (by simp)
    have hstep : (DM.addLink (fuel + 2) dm u r ds).Ok (fun y => One m mm L (H0 ++ [(u, r, ds)]) y.1) := by
      match ds, h1 with
      | [], _ => exact h.addDefault hd (fuel + 1) u r
      | [x], h1 =>
        exact h.add hf (fun a b n hn => hV a b n (by simp [hn])) hd fuel u r x h1.1 (hV u r x (by simp))
      | _ :: _ :: _, h1 => exact absurd h1.2 (by simp)
    unfold DM.addAll
    rw [List.map_cons, DM.run, DM.step]
    obtain ⟨y, e, hy⟩ := hstep
    simp only [e, Res.map_ok, Res.bind_ok]
    have := One.addAll hf hd fuel H _ y.1 hy (by rw [List.append_assoc]; exact hV) (fun l hl => hH l (by simp [hl]))
    rw [List.append_assoc] at this
    exact this

/-- What a query in the domain `d` sees. -/
theorem One.query {β : Type} {H : List (Str × Str × List Str)} {dm : DM} (h : One m mm L H dm)
    {V : Str → Prop} (hf : m.FlatOn V) (hV : ∀ u r n, (u, r, [n]) ∈ H → V n)
    (hd : m.isPattern defaultDomain = false) (fuel : Nat) (d : Str) (hc : Clean [d]) (hVd : V d)
    (q : RM → RM × β) :
    ∃ dm' rm, DM.query q (fuel + 2) dm [d] = .ok (dm', (q rm).2) ∧ rm.Inv (addedFor m H d) ∧
      rm.level = L - 2 ∧ rm.matcher = mm := by
  have hx := hc d (by simp)
  have e : getDomain [d] = (some d, []) := by simp [getDomain, hx.1, hx.2]
  rw [DM.query, e]
  obtain ⟨⟨dm1, s⟩, e1, hl, -⟩ := h.getSub hf hV hd fuel d hVd
  simp only at hl
  simp only [e1, Res.bind_ok]
  rw [DM.query]
  simp only [getDomain, hl.getDefault hd, Res.map_ok]
  obtain ⟨o, rfl, hi, hlv, hm⟩ := hl
  exact ⟨_, _, rfl, hi, hlv, hm⟩

end

end DM

end Fastac
