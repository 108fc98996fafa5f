import Verif.Spec.PatternDomains
import Verif.Lemmas.RoleMarks
import Verif.Lemmas.DomainPatterns
import Verif.Lemmas.DomainRange
import Verif.Lemmas.DomainPure

/-! # One level of domains with any pattern domains -/

namespace Fastac

/-- What is stored for one domain. -/
structure Cell where
  link : Str → Str → Prop
  copied : Str → Str → Prop
  name : Str → Prop

namespace Cell

def empty : Cell := ⟨fun _ _ => False, fun _ _ => False, fun _ => False⟩

/-- The effect of `AddLink` (`true`) and `DeleteLink` (`false`). -/
def chg : Bool → Str → Str → Prop → Cell → Cell
  | true, u, r, mark, c => ⟨addL c.link u r, fun x y => c.copied x y ∨ (mark ∧ x = u ∧ y = r),
      fun n => c.name n ∨ n = u ∨ n = r⟩
  | false, u, r, mark, c => ⟨delL c.link u r, fun x y => c.copied x y ∧ ¬(mark ∧ x = u ∧ y = r),
      fun n => c.name n ∨ n = u ∨ n = r⟩

theorem ext' {c d : Cell} (h1 : ∀ a b, c.link a b ↔ d.link a b) (h2 : ∀ a b, c.copied a b ↔ d.copied a b)
    (h3 : ∀ n, c.name n ↔ d.name n) : c = d := by
  obtain ⟨a, b, e⟩ := c
  obtain ⟨a', b', e'⟩ := d
  have e1 : a = a' := by funext x y; exact propext (h1 x y)
  have e2 : b = b' := by funext x y; exact propext (h2 x y)
  have e3 : e = e' := by funext x; exact propext (h3 x)
  rw [e1, e2, e3]

end Cell

/-- What the two calls return. -/
def chgFlag : Bool → Prop → Prop
  | true, p => ¬ p
  | false, p => p

def RM.Is (rm : RM) (level : Nat) (m : Option PMatcher) (c : Cell) : Prop :=
  rm.HasR level m c.link c.copied c.name

def RM.chg : Bool → RM → Str → Str → List Str → RM × Bool
  | true, rm, u, r, ds => rm.addLink u r ds
  | false, rm, u, r, ds => rm.deleteLink u r ds

theorem RM.Is.chg {rm : RM} {level : Nat} {m : Option PMatcher} {c : Cell} (h : rm.Is level m c) (b : Bool)
    (u r : Str) (ds : List Str) :
    (RM.chg b rm u r ds).1.Is level m (c.chg b u r (ds.head? = some redundantRole)) ∧
      ((RM.chg b rm u r ds).2 = true ↔ chgFlag b (c.link u r)) := by
  cases b with
  | true => exact h.addLink u r ds
  | false => exact h.deleteLink u r ds

theorem endsOf_cons (a b : Str) (ls : List (Str × Str × List Str)) (n : Str) :
    endsOf (fun u v => (u, v, ([] : List Str)) ∈ (a, b, []) :: ls) n ↔
      (n = a ∨ n = b) ∨ endsOf (fun u v => (u, v, ([] : List Str)) ∈ ls) n := by
  simp only [endsOf, List.mem_cons, Prod.mk.injEq, and_true]
  constructor
  · rintro ⟨x, (⟨rfl, rfl⟩ | h) | (⟨rfl, rfl⟩ | h)⟩
    · exact Or.inl (Or.inl rfl)
    · exact Or.inr ⟨x, Or.inl h⟩
    · exact Or.inl (Or.inr rfl)
    · exact Or.inr ⟨x, Or.inr h⟩
  · rintro ((rfl | rfl) | ⟨x, h | h⟩)
    · exact ⟨b, Or.inl (Or.inl ⟨rfl, rfl⟩)⟩
    · exact ⟨a, Or.inr (Or.inl ⟨rfl, rfl⟩)⟩
    · exact ⟨x, Or.inl (Or.inr h)⟩
    · exact ⟨x, Or.inr (Or.inr h)⟩

namespace DM

def chg : Bool → Nat → DM → Str → Str → List Str → Res (DM × Bool)
  | true, fuel, dm, u, r, ds => addLink fuel dm u r ds
  | false, fuel, dm, u, r, ds => deleteLink fuel dm u r ds

theorem chg_none (b : Bool) (fuel : Nat) (dm : DM) (u r : Str) (ds sub : List Str)
    (e : getDomain ds = (none, sub)) :
    chg b (fuel + 1) dm u r ds =
      dm.getDefault.bind fun (dm1, rm) =>
        ((dm1.setDflt (RM.chg b rm u r sub).1).propagate defaultDomain
          (fun s => (chg b fuel s u r (sub ++ [redundantRole])).map (·.1))
          (fun rm => (RM.chg b rm u r (sub ++ [redundantRole])).1)).map
          (fun dm2 => (dm2, (RM.chg b rm u r sub).2)) := by
  cases b with
  | true => simp only [chg, addLink, e]; rfl
  | false => simp only [chg, deleteLink, e]; rfl

theorem chg_some (b : Bool) (fuel : Nat) (dm : DM) (u r : Str) (ds sub : List Str) (d : Str)
    (e : getDomain ds = (some d, sub)) :
    chg b (fuel + 1) dm u r ds =
      (getSub (addLink fuel) dm d).bind fun (dm1, s) =>
        (chg b fuel s u r sub).bind fun (s', x) =>
          ((dm1.setSub d s').propagate d
            (fun s => (chg b fuel s u r (sub ++ [redundantRole])).map (·.1))
            (fun rm => (RM.chg b rm u r (sub ++ [redundantRole])).1)).map (fun dm2 => (dm2, x)) := by
  cases b with
  | true => simp only [chg, addLink, e]; rfl
  | false => simp only [chg, deleteLink, e]; rfl

section
variable {m dmm : Option PMatcher} {L : Nat}

/-- A manager of a domain without subdomains, holding `c`. -/
def LeafR (m dmm : Option PMatcher) (L : Nat) (s : DM) (c : Cell) : Prop :=
  ∃ o, s = DM.mk o [] [] (L - 1) m dmm ∧ (o.getD (RM.new (L - 2) m)).Is (L - 2) m c

theorem leafR_new (m dmm : Option PMatcher) (L : Nat) : LeafR m dmm L (new (L - 1) m dmm) Cell.empty :=
  ⟨none, rfl, RM.HasR.new _ _⟩

/-- The default domain is no pattern. -/
def NoDefault (dmm : Option PMatcher) : Prop := ∀ pm, dmm = some pm → pm.isPattern defaultDomain = false

theorem LeafR.getDefault {s : DM} {c : Cell} (h : LeafR m dmm L s c) (hd : NoDefault dmm) :
    s.getDefault = .ok (s, s.dflt.getD (RM.new (L - 2) m)) := by
  obtain ⟨o, rfl, _⟩ := h
  cases o with
  | some rm => rfl
  | none =>
    have e : L - 1 - 1 = L - 2 := by omega
    cases dmm with
    | none => simp [DM.getDefault, DM.dflt, newDomain, DM.domMatcher, DM.level, DM.matcher, e]
    | some pm =>
      simp [DM.getDefault, DM.dflt, newDomain, DM.domMatcher, hd pm rfl, matchingPatterns, DM.patterns,
        patternLinks, DM.level, DM.matcher, e]

theorem LeafR.chg {s : DM} {c : Cell} (h : LeafR m dmm L s c) (hd : NoDefault dmm) (b : Bool) (fuel : Nat)
    (u r : Str) (ds : List Str) (hds : ds = [] ∨ ds = [redundantRole]) :
    (DM.chg b (fuel + 1) s u r ds).Ok (fun x =>
      LeafR m dmm L x.1 (c.chg b u r (ds = [redundantRole])) ∧ (x.2 = true ↔ chgFlag b (c.link u r))) := by
  have e : getDomain ds = (none, ds) := by
    rcases hds with rfl | rfl <;> rfl
  rw [chg_none b fuel s u r ds ds e]
  simp only [h.getDefault hd, Res.bind_ok]
  obtain ⟨o, rfl, hi⟩ := h
  simp only [DM.dflt]
  have A := hi.chg b u r ds
  have hm : (ds.head? = some redundantRole) = (ds = [redundantRole]) := by
    rcases hds with rfl | rfl <;> simp
  rw [hm] at A
  refine ⟨(DM.mk (some (RM.chg b (o.getD (RM.new (L - 2) m)) u r ds).1) [] [] (L - 1) m dmm,
    (RM.chg b (o.getD (RM.new (L - 2) m)) u r ds).2), ?_, ⟨some _, rfl, A.1⟩, A.2⟩
  cases dmm with
  | none => simp [propagate, setDflt, DM.domMatcher, DM.subs, DM.patterns, DM.level, DM.matcher]
  | some pm => simp [propagate, setDflt, DM.domMatcher, hd pm rfl, DM.subs, DM.patterns, DM.level, DM.matcher]

theorem LeafR.range {s : DM} {c : Cell} (h : LeafR m dmm L s c) (u r : Str) (π : List Str) :
    (u, r, π) ∈ DM.range s ↔ π = [] ∧ c.link u r ∧ ¬ c.copied u r := by
  obtain ⟨o, rfl, hi⟩ := h
  have hl := hi.links u r
  rw [DM.range, rangeSubs, List.append_nil]
  cases o with
  | none =>
    simp only [Option.getD_none, RM.links, RM.new, List.flatMap_nil, List.not_mem_nil, false_iff] at hl
    simp [dfltLinks, hl]
  | some rm =>
    rw [← hl]
    simp only [dfltLinks, List.mem_map, Option.getD_some]
    constructor
    · rintro ⟨⟨a, b⟩, hx, e⟩
      simp only [Prod.mk.injEq] at e
      obtain ⟨rfl, rfl, rfl⟩ := e
      exact ⟨rfl, hx⟩
    · rintro ⟨rfl, h2⟩
      exact ⟨(u, r), h2, rfl⟩

theorem LeafR.range_nodup {s : DM} {c : Cell} (h : LeafR m dmm L s c) : (DM.range s).Nodup := by
  obtain ⟨o, rfl, hi⟩ := h
  rw [DM.range, rangeSubs, List.append_nil]
  cases o with
  | none => simp [dfltLinks]
  | some rm =>
    apply List.Pairwise.map _ _ hi.inv.links_nodup
    rintro ⟨a, b⟩ ⟨a', b'⟩ hne e
    simp only [Prod.mk.injEq, and_true] at e
    obtain ⟨rfl, rfl⟩ := e
    exact hne rfl

/-- What a new manager holds after the links `ls` have been copied into it. -/
def copyCell (c : Cell) (P : Str → Str → Prop) : Cell :=
  ⟨fun u r => c.link u r ∨ P u r, fun u r => c.copied u r ∨ P u r, fun n => c.name n ∨ endsOf P n⟩

theorem leafR_fold (hd : NoDefault dmm) (fuel : Nat) :
    ∀ (ls : List (Str × Str × List Str)), (∀ l ∈ ls, l.2.2 = []) → ∀ (r : Res DM) (c : Cell),
      r.Ok (fun s => LeafR m dmm L s c) →
      (ls.foldl (fun (r : Res DM) l =>
          r.bind fun s => (DM.addLink (fuel + 1) s l.1 l.2.1 (l.2.2 ++ [redundantRole])).map (·.1)) r).Ok
        (fun s => LeafR m dmm L s (copyCell c (fun u v => (u, v, []) ∈ ls)))
  | [], _, r, c, h => by
    have e : copyCell c (fun u v => (u, v, ([] : List Str)) ∈ []) = c :=
      Cell.ext' (by simp [copyCell]) (by simp [copyCell]) (by simp [copyCell, endsOf])
    rw [e]; exact h
  | (a, b, π) :: ls, hl, r, c, h => by
    have e : π = [] := hl (a, b, π) (by simp)
    subst e
    have h2 : (r.bind fun s => (DM.addLink (fuel + 1) s a b ([] ++ [redundantRole])).map (·.1)).Ok
        (fun s => LeafR m dmm L s (c.chg true a b ([redundantRole] = [redundantRole]))) := by
      refine h.bind ?_
      intro s hs
      exact (hs.chg hd true fuel a b [redundantRole] (Or.inr rfl)).map (fun a ha => ha.1)
    have h3 := leafR_fold hd fuel ls (fun x hx => hl x (by simp [hx])) _ _ h2
    have e : copyCell (c.chg true a b ([redundantRole] = [redundantRole])) (fun u v => (u, v, ([] : List Str)) ∈ ls) =
        copyCell c (fun u v => (u, v, ([] : List Str)) ∈ (a, b, []) :: ls) := by
      refine Cell.ext' (fun u v => ?_) (fun u v => ?_) (fun n => ?_)
      · simp [copyCell, Cell.chg, addL, or_assoc]
      · simp [copyCell, Cell.chg, or_assoc]
      · simp only [copyCell, Cell.chg, endsOf_cons]
        rw [or_assoc]
    rw [List.foldl_cons, ← e]
    exact h3

end

/-! ## The whole manager -/

def DomState.cell (s : DomState) (d : Str) : Cell := ⟨s.link d, s.copied d, s.name d⟩
/-- What a call about `d` sees. -/
def DomState.cellAt (s : DomState) (d : Str) : Cell := ⟨s.linkAt d, s.copiedAt d, s.nameAt d⟩

theorem DomState.cellAt_used {s : DomState} {d : Str} (h : s.used d) : s.cellAt d = s.cell d :=
  Cell.ext' (by simp [cellAt, cell, linkAt, h]) (by simp [cellAt, cell, copiedAt, h])
    (by simp [cellAt, cell, nameAt, h])

theorem DomState.cellAt_new {s : DomState} {d : Str} (h : ¬ s.used d) :
    s.cellAt d = copyCell Cell.empty (s.given d) :=
  Cell.ext' (by simp [cellAt, copyCell, Cell.empty, linkAt, h]) (by simp [cellAt, copyCell, Cell.empty, copiedAt, h])
    (by simp [cellAt, copyCell, Cell.empty, nameAt, h])

structure Shows (L : Nat) (S : DomState) (dm : DM) : Prop where
  level : dm.level = L
  matcher : dm.matcher = S.m
  domMatcher : dm.domMatcher = S.dmm
  wf : dm.subs.WF
  names : ∀ x ∈ dm.subs, x.1 ≠ defaultDomain
  clean : ∀ x ∈ dm.subs, x.1 ≠ redundantRole
  pats : ∀ p, p ∈ dm.patterns ↔ S.pattern p ∧ S.used p
  kd : dm.dflt.isSome ↔ S.used defaultDomain
  ks : ∀ d, d ≠ defaultDomain → ((dm.subs.get d).isSome ↔ S.used d)
  dflt : ∀ rm, dm.dflt = some rm → rm.Is (L - 1) S.m (S.cell defaultDomain)
  subs : ∀ x ∈ dm.subs, LeafR S.m S.dmm L x.2 (S.cell x.1)

section
variable {L : Nat} {S T : DomState} {dm : DM}

theorem shows_new (L : Nat) (m dmm : Option PMatcher) : Shows L (DomState.empty m dmm) (new L m dmm) := by
  constructor <;> simp [new, DM.level, DM.matcher, DM.domMatcher, DM.subs, DM.patterns, DM.dflt, GoMap.WF,
    DomState.empty]

theorem Shows.clear (h : Shows L S dm) : Shows L (DomState.empty S.m S.dmm) dm.clear := by
  have := shows_new L S.m S.dmm
  rwa [show new L S.m S.dmm = dm.clear from by rw [← h.level, ← h.matcher, ← h.domMatcher]; rfl] at this

theorem Shows.linksOf (h : Shows L S dm) (hd : NoDefault S.dmm) {p : Str} (hp : S.pattern p) (hu : S.used p) :
    ∃ ls, dm.linksOf p = some ls ∧ ∀ u r π, (u, r, π) ∈ ls ↔ π = [] ∧ S.own p u r := by
  have hne : p ≠ defaultDomain := by
    rintro rfl
    obtain ⟨pm, e, hp⟩ := hp
    rw [hd pm e] at hp; cases hp
  obtain ⟨s, hs⟩ := Option.isSome_iff_exists.1 ((h.ks p hne).2 hu)
  refine ⟨s.range, by rw [DM.linksOf, if_neg hne, hs]; rfl, fun u r π => ?_⟩
  rw [(h.subs _ (GoMap.mem_of_get hs)).range]
  simp [DomState.own, DomState.cell, hu]

theorem Shows.patternLinks (h : Shows L S dm) (hd : NoDefault S.dmm) : ∀ ps : List Str, (∀ p ∈ ps, p ∈ dm.patterns) →
    (dm.patternLinks ps).Ok (fun ls => (∀ l ∈ ls, l.2.2 = []) ∧ ∀ u r, (u, r, []) ∈ ls ↔ ∃ p ∈ ps, S.own p u r)
  | [], _ => ⟨[], rfl, by simp⟩
  | p :: ps, hp => by
    have hpp := (h.pats p).1 (hp p (by simp))
    obtain ⟨ls, e, hl⟩ := h.linksOf hd hpp.1 hpp.2
    rw [DM.patternLinks, e]
    refine (h.patternLinks hd ps (fun q hq => hp q (by simp [hq]))).map ?_
    rintro rest ⟨h1, h2⟩
    refine ⟨?_, ?_⟩
    · rintro ⟨a, b, π⟩ hm
      rcases List.mem_append.1 hm with hm | hm
      · exact ((hl a b π).1 hm).1
      · exact h1 _ hm
    · intro u r
      rw [List.mem_append, h2, hl]
      simp

/-- For a domain that is not in use: what is made of `patternMap`, and the links it is given. -/
theorem Shows.newDomain (h : Shows L S dm) (hd : NoDefault S.dmm) (d : Str) :
    (dm.newDomain d).Ok (fun x => (∀ l ∈ x.2, l.2.2 = []) ∧ (∀ u r, (u, r, []) ∈ x.2 ↔ S.given d u r) ∧
      ((x.1 = dm ∧ ¬ S.pattern d) ∨ (x.1 = dm.setPatterns (sins dm.patterns d) ∧ S.pattern d))) := by
  unfold DM.newDomain
  rw [h.domMatcher]
  cases e : S.dmm with
  | none =>
    refine ⟨_, rfl, by simp, ?_, Or.inl ⟨rfl, ?_⟩⟩
    · simp [DomState.given, DomState.covers, e]
    · simp [DomState.pattern, e]
  | some pm =>
    simp only
    cases hp : pm.isPattern d with
    | true =>
      have : S.pattern d := ⟨pm, e, hp⟩
      simp only [if_true]
      exact ⟨_, rfl, by simp, by simp [DomState.given, this], Or.inr ⟨rfl, this⟩⟩
    | false =>
      have hnp : ¬ S.pattern d := by
        rintro ⟨pm', e', hp'⟩
        rw [e] at e'; cases e'
        rw [hp] at hp'; cases hp'
      simp only [Bool.false_eq_true, if_false]
      obtain ⟨ls, e1, h1, h2⟩ := h.patternLinks hd (dm.matchingPatterns pm d) (fun p hp => (List.mem_filter.1 hp).1)
      rw [e1]
      refine ⟨_, rfl, h1, fun u r => ?_, Or.inl ⟨rfl, hnp⟩⟩
      simp only [h2, DomState.given, hnp, not_false_eq_true, true_and]
      constructor
      · rintro ⟨p, hpm, ho⟩
        unfold matchingPatterns at hpm
        rw [List.mem_filter] at hpm
        obtain ⟨⟨pm', e', hpp⟩, _⟩ := (h.pats p).1 hpm.1
        rw [e] at e'; cases e'
        have := hpm.2
        simp only [decide_not, Bool.and_eq_true, Bool.not_eq_eq_eq_not, Bool.not_true,
          decide_eq_false_iff_not] at this
        exact ⟨p, ⟨pm, e, hpp, fun e => this.1 e.symm, this.2⟩, ho⟩
      · rintro ⟨p, ⟨pm', e', hc⟩, ho⟩
        rw [e] at e'; cases e'
        refine ⟨p, ?_, ho⟩
        unfold matchingPatterns
        rw [List.mem_filter]
        exact ⟨(h.pats p).2 ⟨⟨pm, e, hc.1⟩, ho.1⟩, by simp [hc.2.2, Ne.symm hc.2.1]⟩

/-- What `getRoleManager` leaves behind besides the manager. -/
def After (S : DomState) (dm : DM) (d : Str) (dm1 : DM) : Prop :=
  (dm1 = dm ∧ (S.pattern d → S.used d)) ∨ (dm1 = dm.setPatterns (sins dm.patterns d) ∧ S.pattern d)

theorem Shows.getSub (h : Shows L S dm) (hd : NoDefault S.dmm) (fuel : Nat) {d : Str} (hc : d ≠ defaultDomain) :
    (DM.getSub (DM.addLink (fuel + 1)) dm d).Ok (fun y =>
      LeafR S.m S.dmm L y.2 (S.cellAt d) ∧ After S dm d y.1 ∧ ∀ s, dm.subs.get d = some s → y.2 = s) := by
  unfold DM.getSub
  cases e : dm.subs.get d with
  | some s =>
    have hu : S.used d := (h.ks d hc).1 (by rw [e]; rfl)
    refine ⟨_, rfl, ?_, Or.inl ⟨rfl, fun _ => hu⟩, fun s' e' => Option.some.inj e'⟩
    rw [DomState.cellAt_used hu]
    exact h.subs _ (GoMap.mem_of_get e)
  | none =>
    have hu : ¬ S.used d := by
      intro hu
      have := (h.ks d hc).2 hu
      rw [e] at this; cases this
    simp only
    refine (h.newDomain hd _).bind ?_
    rintro ⟨dm1, ls⟩ ⟨h1, h2, h3⟩
    simp only at h1 h2 h3 ⊢
    rw [h.level, h.matcher, h.domMatcher]
    refine (leafR_fold hd fuel ls h1 _ _ ⟨_, rfl, leafR_new S.m S.dmm L⟩).map ?_
    intro s hs
    refine ⟨?_, ?_, fun s' e' => by cases e'⟩
    · rw [DomState.cellAt_new hu]
      have : (fun u v => (u, v, ([] : List Str)) ∈ ls) = S.given d := by
        funext u v; exact propext (h2 u v)
      rw [← this]; exact hs
    · rcases h3 with ⟨rfl, hp⟩ | ⟨rfl, hp⟩
      · exact Or.inl ⟨rfl, fun h => absurd h hp⟩
      · exact Or.inr ⟨rfl, hp⟩

theorem Shows.getDefault (h : Shows L S dm) (hd : NoDefault S.dmm) :
    dm.getDefault.Ok (fun y => y.1 = dm ∧ y.2.Is (L - 1) S.m (S.cellAt defaultDomain) ∧
      (∀ rm, dm.dflt = some rm → y.2 = rm)) := by
  unfold DM.getDefault
  cases e : dm.dflt with
  | some rm =>
    have hu : S.used defaultDomain := h.kd.1 (by rw [e]; rfl)
    refine ⟨_, rfl, rfl, ?_, fun rm' e' => by cases e'; rfl⟩
    rw [DomState.cellAt_used hu]
    exact h.dflt rm e
  | none =>
    have hu : ¬ S.used defaultDomain := by
      intro hu
      have := h.kd.2 hu
      rw [e] at this; cases this
    simp only
    refine (h.newDomain hd _).map ?_
    rintro ⟨dm1, ls⟩ ⟨h1, h2, h3⟩
    simp only at h1 h2 h3 ⊢
    refine ⟨?_, ?_, fun rm' e' => by cases e'⟩
    · rcases h3 with ⟨rfl, _⟩ | ⟨_, pm, e, hp⟩
      · rfl
      · rw [hd pm e] at hp; cases hp
    · rw [DomState.cellAt_new hu, h.level, h.matcher]
      have := RM.HasR.copy ls h1 _ _ _ _ (RM.HasR.new (L - 1) S.m)
      have e2 : (fun u v => (u, v, ([] : List Str)) ∈ ls) = S.given defaultDomain := by
        funext u v; exact propext (h2 u v)
      unfold RM.Is copyCell Cell.empty
      simp only
      rw [← e2]
      exact this

/-- The manager of `d` is stored. -/
theorem Shows.setSub (h : Shows L S dm) {d : Str} (hc : d ≠ defaultDomain) (hr : d ≠ redundantRole) {dm1 s : DM} (ha : After S dm d dm1)
    (e1 : T.m = S.m) (e2 : T.dmm = S.dmm) (hu : ∀ y, T.used y ↔ S.used y ∨ y = d)
    (ho : ∀ y, S.used y → y ≠ d → T.cell y = S.cell y) (hs : LeafR S.m S.dmm L s (T.cell d)) :
    Shows L T (dm1.setSub d s) := by
  have hp : ∀ p, T.pattern p ↔ S.pattern p := by intro p; unfold DomState.pattern; rw [e2]
  have hsubs : dm1.subs = dm.subs := by
    rcases ha with ⟨rfl, _⟩ | ⟨rfl, _⟩ <;> rfl
  have hdf : dm1.dflt = dm.dflt := by
    rcases ha with ⟨rfl, _⟩ | ⟨rfl, _⟩ <;> rfl
  refine ⟨?_, ?_, ?_, ?_, ?_, ?_, ?_, ?_, ?_, ?_, ?_⟩
  · rcases ha with ⟨rfl, _⟩ | ⟨rfl, _⟩ <;> exact h.level
  · rw [e1]; rcases ha with ⟨rfl, _⟩ | ⟨rfl, _⟩ <;> exact h.matcher
  · rw [e2]; rcases ha with ⟨rfl, _⟩ | ⟨rfl, _⟩ <;> exact h.domMatcher
  · show (dm1.subs.set d s).WF
    rw [hsubs]; exact h.wf.set _ _
  · intro x hx
    have hx : x ∈ dm1.subs.set d s := hx
    rw [hsubs] at hx
    rcases mem_set_wf h.wf _ _ hx with rfl | ⟨hx, _⟩
    · exact hc
    · exact h.names x hx
  · intro x hx
    have hx : x ∈ dm1.subs.set d s := hx
    rw [hsubs] at hx
    rcases mem_set_wf h.wf _ _ hx with rfl | ⟨hx, _⟩
    · exact hr
    · exact h.clean x hx
  · intro p
    rw [hp, hu]
    rcases ha with ⟨rfl, hst⟩ | ⟨rfl, hpd⟩
    · refine (h.pats p).trans ⟨fun a => ⟨a.1, Or.inl a.2⟩, ?_⟩
      rintro ⟨a, b | rfl⟩
      · exact ⟨a, b⟩
      · exact ⟨a, hst a⟩
    · show p ∈ sins _ _ ↔ _
      rw [mem_sins, h.pats]
      constructor
      · rintro (a | rfl)
        · exact ⟨a.1, Or.inl a.2⟩
        · exact ⟨hpd, Or.inr rfl⟩
      · rintro ⟨a, b | b⟩
        · exact Or.inl ⟨a, b⟩
        · exact Or.inr b
  · show dm1.dflt.isSome ↔ _
    rw [hdf, h.kd, hu]
    exact ⟨Or.inl, fun a => a.resolve_right (fun e => hc e.symm)⟩
  · intro y hy
    show ((dm1.subs.set d s).get y).isSome ↔ _
    rw [hsubs, GoMap.get_set, hu]
    split
    · rename_i e; simp [e]
    · rename_i e
      rw [h.ks y hy]
      exact ⟨Or.inl, fun a => a.resolve_right (fun e' => e e'.symm)⟩
  · intro rm e
    have e : dm1.dflt = some rm := e
    rw [hdf] at e
    rw [e1, ho _ (h.kd.1 (by rw [e]; rfl)) (fun e' => hc e'.symm)]
    exact h.dflt rm e
  · intro x hx
    have hx : x ∈ dm1.subs.set d s := hx
    rw [hsubs] at hx
    rw [e1, e2]
    rcases mem_set_wf h.wf _ _ hx with rfl | ⟨hx, hne⟩
    · exact hs
    · rw [ho _ ((h.ks _ (h.names x hx)).1 (by rw [h.wf.get_of_mem hx]; rfl)) hne]
      exact h.subs x hx

theorem Shows.setDflt (h : Shows L S dm) (hd : NoDefault S.dmm) {rm : RM}
    (e1 : T.m = S.m) (e2 : T.dmm = S.dmm) (hu : ∀ y, T.used y ↔ S.used y ∨ y = defaultDomain)
    (ho : ∀ y, S.used y → y ≠ defaultDomain → T.cell y = S.cell y)
    (hs : rm.Is (L - 1) S.m (T.cell defaultDomain)) : Shows L T (dm.setDflt rm) := by
  have hp : ∀ p, T.pattern p ↔ S.pattern p := by intro p; unfold DomState.pattern; rw [e2]
  refine ⟨h.level, e1 ▸ h.matcher, e2 ▸ h.domMatcher, h.wf, h.names, h.clean, ?_, ?_, ?_, ?_, ?_⟩
  · intro p
    refine (h.pats p).trans ?_
    rw [hp, hu]
    refine ⟨fun a => ⟨a.1, Or.inl a.2⟩, ?_⟩
    rintro ⟨⟨pm, e, hp⟩, b | rfl⟩
    · exact ⟨⟨pm, e, hp⟩, b⟩
    · rw [hd pm e] at hp; cases hp
  · show (some rm).isSome ↔ _
    simp [hu]
  · intro y hy
    refine (h.ks y hy).trans ?_
    rw [hu]
    exact ⟨Or.inl, fun a => a.resolve_right hy⟩
  · intro rm' e
    cases e
    rw [e1]; exact hs
  · intro x hx
    rw [e1, e2, ho _ ((h.ks _ (h.names x hx)).1 (by rw [h.wf.get_of_mem hx]; rfl)) (h.names x hx)]
    exact h.subs x hx

/-- The propagation to the domains that match `x`. -/
theorem Shows.propagate (h : Shows L S dm) (x : Str) (f : DM → Res DM) (g : RM → RM) (φ : Cell → Cell)
    (hf : ∀ s c, LeafR S.m S.dmm L s c → (f s).Ok (fun s' => LeafR S.m S.dmm L s' (φ c)))
    (hg : ∀ rm c, rm.Is (L - 1) S.m c → (g rm).Is (L - 1) S.m (φ c))
    (e1 : T.m = S.m) (e2 : T.dmm = S.dmm) (hu : ∀ y, T.used y ↔ S.used y)
    (hy : ∀ y, S.used y → S.covers x y → T.cell y = φ (S.cell y))
    (hn : ∀ y, S.used y → ¬ S.covers x y → T.cell y = S.cell y) :
    (dm.propagate x f g).Ok (Shows L T) := by
  have hp : ∀ p, T.pattern p ↔ S.pattern p := by intro p; unfold DomState.pattern; rw [e2]
  have huse : ∀ y ∈ dm.subs, S.used y.1 := fun y hy => (h.ks _ (h.names y hy)).1 (by rw [h.wf.get_of_mem hy]; rfl)
  have same : (∀ y, ¬ S.covers x y) → Shows L T dm := by
    intro hnc
    refine ⟨h.level, e1 ▸ h.matcher, e2 ▸ h.domMatcher, h.wf, h.names, h.clean, ?_, ?_, ?_, ?_, ?_⟩
    · intro p; rw [hp, hu]; exact h.pats p
    · rw [hu]; exact h.kd
    · intro d hd; rw [hu]; exact h.ks d hd
    · intro rm e
      rw [e1, hn _ (h.kd.1 (by rw [e]; rfl)) (hnc _)]
      exact h.dflt rm e
    · intro y hy
      rw [e1, e2, hn _ (huse y hy) (hnc _)]
      exact h.subs y hy
  unfold DM.propagate
  rw [h.domMatcher]
  cases e : S.dmm with
  | none =>
    refine ⟨dm, rfl, same ?_⟩
    rintro y ⟨pm, e', _⟩
    rw [e] at e'; cases e'
  | some pm =>
    simp only
    cases hpx : pm.isPattern x with
    | false =>
      refine ⟨dm, by simp, same ?_⟩
      rintro y ⟨pm', e', hc⟩
      rw [e] at e'; cases e'
      rw [hc.1] at hpx; cases hpx
    | true =>
      simp only [if_true]
      unfold forMatching
      have hcov : ∀ y, (decide (x ≠ y) && pm.match y x) = true ↔ S.covers x y := by
        intro y
        simp only [ne_eq, decide_not, Bool.and_eq_true, Bool.not_eq_eq_eq_not, Bool.not_true,
          decide_eq_false_iff_not]
        constructor
        · rintro ⟨a, b⟩; exact ⟨pm, e, hpx, fun e => a e.symm, b⟩
        · rintro ⟨pm', e', hc⟩
          rw [e] at e'; cases e'
          exact ⟨fun e => hc.2.1 e.symm, hc.2.2⟩
      have M := mapSubs_ok' (Q := fun d s => LeafR S.m S.dmm L s (S.cell d) ∧ d ≠ defaultDomain ∧ d ≠ redundantRole ∧ S.used d)
        (Q' := fun d s => LeafR S.m S.dmm L s (T.cell d) ∧ d ≠ defaultDomain ∧ d ≠ redundantRole ∧ S.used d)
        f (fun d => decide (x ≠ d) && pm.match d x) dm.subs
        (fun y hy => ⟨h.subs y hy, h.names y hy, h.clean y hy, huse y hy⟩)
        (fun y _ hq hc => by
          obtain ⟨s', es, hs'⟩ := hf _ _ hq.1
          refine ⟨s', es, ?_, hq.2⟩
          rw [hy _ hq.2.2.2 ((hcov _).1 hc)]
          exact hs')
        (fun y _ hq hc => by
          rw [hn _ hq.2.2.2 (fun hcv => by rw [(hcov _).2 hcv] at hc; cases hc)]
          exact hq)
      refine M.map ?_
      rintro subs' ⟨hS, hK⟩
      refine ⟨h.level, e1 ▸ h.matcher, e2 ▸ h.domMatcher, ?_, fun y hy => (hS y hy).2.1, fun y hy => (hS y hy).2.2.1, ?_, ?_, ?_, ?_, ?_⟩
      · show (subs'.map Prod.fst).Nodup
        rw [hK]; exact h.wf
      · intro p; rw [hp, hu]; exact h.pats p
      · rw [hu, ← h.kd]
        show (if _ then _ else _ : Option RM).isSome = true ↔ _
        split <;> simp
      · intro d hd
        rw [hu, ← h.ks d hd]
        show (GoMap.get subs' d).isSome = true ↔ _
        rw [get_isSome_keys hK]
      · intro rm e'
        have e' : (if _ then _ else _ : Option RM) = some rm := e'
        rw [e1]
        split at e'
        · rename_i hc
          cases ed : dm.dflt with
          | none => rw [ed] at e'; cases e'
          | some rm0 =>
            rw [ed] at e'
            cases e'
            rw [hy _ (h.kd.1 (by rw [ed]; rfl)) ((hcov _).1 hc)]
            exact hg _ _ (h.dflt rm0 ed)
        · rename_i hc
          rw [hn _ (h.kd.1 (by rw [e']; rfl)) (fun hcv => hc ((hcov _).2 hcv))]
          exact h.dflt rm e'
      · intro y hy
        rw [e1, e2]
        exact (hS y hy).1

/-! ## `AddLink` and `DeleteLink` -/

def DomState.chg (s : DomState) : Bool → Str → Str → Str → DomState
  | true, u, r, x => s.add u r x
  | false, u, r, x => s.del u r x

/-- Between the change in `x` itself and the propagation. -/
def DomState.mid (s : DomState) (b : Bool) (u r x : Str) : DomState :=
  { m := s.m, dmm := s.dmm, used := fun y => s.used y ∨ y = x
    link := fun y => if y = x then ((s.cellAt x).chg b u r False).link else s.link y
    copied := fun y => if y = x then ((s.cellAt x).chg b u r False).copied else s.copied y
    name := fun y => if y = x then ((s.cellAt x).chg b u r False).name else s.name y }

theorem DomState.mid_here (s : DomState) (b : Bool) (u r x : Str) :
    (s.mid b u r x).cell x = (s.cellAt x).chg b u r False := by
  simp [DomState.mid, DomState.cell]

theorem DomState.mid_there (s : DomState) (b : Bool) (u r : Str) {x y : Str} (h : y ≠ x) :
    (s.mid b u r x).cell y = s.cell y := by
  simp [DomState.mid, DomState.cell, h]

theorem DomState.chg_used (s : DomState) (b : Bool) (u r x y : Str) :
    (s.chg b u r x).used y ↔ s.used y ∨ y = x := by
  cases b <;> rfl

theorem DomState.chg_m (s : DomState) (b : Bool) (u r x : Str) :
    (s.chg b u r x).m = s.m ∧ (s.chg b u r x).dmm = s.dmm := by
  cases b <;> exact ⟨rfl, rfl⟩

/-- One call on one cell. -/
theorem DomState.chg_cell (s : DomState) (b : Bool) (u r x y : Str) :
    (y = x → (s.chg b u r x).cell y = (s.cellAt y).chg b u r False) ∧
    (s.covers x y → (s.chg b u r x).cell y = (s.cellAt y).chg b u r True) ∧
    (y ≠ x → ¬ s.covers x y → (s.chg b u r x).cell y = s.cellAt y) := by
  have hne : s.covers x y → y ≠ x := fun ⟨_, _, hc⟩ => hc.2.1
  refine ⟨fun e => ?_, fun hc => ?_, fun hn hc => ?_⟩
  · have hnc : ¬ s.covers x y := fun h => hne h e
    subst e
    cases b with
    | true =>
      refine Cell.ext' (fun a c => ?_) (fun a c => ?_) (fun n => ?_) <;>
        simp [DomState.chg, DomState.add, DomState.use, DomState.cell, DomState.cellAt, Cell.chg, addL, hnc]
    | false =>
      refine Cell.ext' (fun a c => ?_) (fun a c => ?_) (fun n => ?_) <;>
        simp [DomState.chg, DomState.del, DomState.use, DomState.cell, DomState.cellAt, Cell.chg, delL, hnc]
  · cases b with
    | true =>
      refine Cell.ext' (fun a c => ?_) (fun a c => ?_) (fun n => ?_) <;>
        simp [DomState.chg, DomState.add, DomState.use, DomState.cell, DomState.cellAt, Cell.chg, addL, hc]
    | false =>
      refine Cell.ext' (fun a c => ?_) (fun a c => ?_) (fun n => ?_) <;>
        simp [DomState.chg, DomState.del, DomState.use, DomState.cell, DomState.cellAt, Cell.chg, delL, hc]
  · cases b with
    | true =>
      refine Cell.ext' (fun a c => ?_) (fun a c => ?_) (fun n => ?_) <;>
        simp [DomState.chg, DomState.add, DomState.use, DomState.cell, DomState.cellAt, hc, hn]
    | false =>
      refine Cell.ext' (fun a c => ?_) (fun a c => ?_) (fun n => ?_) <;>
        simp [DomState.chg, DomState.del, DomState.use, DomState.cell, DomState.cellAt, hc, hn]

theorem Shows.finish (h : Shows L (S.mid b u r x) dm) (hd : NoDefault S.dmm) (fuel : Nat) :
    (dm.propagate x (fun s => (DM.chg b (fuel + 1) s u r ([] ++ [redundantRole])).map (·.1))
      (fun rm => (RM.chg b rm u r ([] ++ [redundantRole])).1)).Ok (Shows L (S.chg b u r x)) := by
  refine h.propagate x _ _ (Cell.chg b u r True) ?_ ?_ (S.chg_m b u r x).1 (S.chg_m b u r x).2
    (S.chg_used b u r x) ?_ ?_
  · intro s c hs
    have := hs.chg hd b fuel u r [redundantRole] (Or.inr rfl)
    simp only [eq_self] at this
    exact this.map (fun a ha => ha.1)
  · intro rm c hr
    have := (hr.chg b u r [redundantRole]).1
    simp only [List.head?_cons, eq_self] at this
    exact this
  · intro y hy hc
    have hc : S.covers x y := hc
    have hne : y ≠ x := by obtain ⟨_, _, hc⟩ := hc; exact hc.2.1
    rw [((S.chg_cell b u r x y).2.1 hc), S.mid_there b u r hne, DomState.cellAt_used (hy.resolve_right hne)]
  · intro y hy hc
    have hc : ¬ S.covers x y := hc
    by_cases e : y = x
    · subst e
      rw [(S.chg_cell b u r y y).1 rfl, S.mid_here]
    · rw [(S.chg_cell b u r x y).2.2 e hc, S.mid_there b u r e, DomState.cellAt_used (hy.resolve_right e)]

theorem Shows.chg (h : Shows L S dm) (hd : NoDefault S.dmm) (b : Bool) (fuel : Nat) (u r : Str) (π : List Str)
    (hc : Clean π) (hl : π.length ≤ 1) :
    (DM.chg b (fuel + 2) dm u r π).Ok (fun y => Shows L (S.chg b u r (domKey π)) y.1 ∧
      (y.2 = true ↔ chgFlag b (S.linkAt (domKey π) u r))) := by
  match π, hc, hl with
  | [], _, _ =>
    rw [chg_none b (fuel + 1) dm u r [] [] rfl]
    refine (h.getDefault hd).bind ?_
    rintro ⟨dm1, rm⟩ ⟨rfl, hr, _⟩
    have A := hr.chg b u r []
    simp only at A ⊢
    have hs : Shows L (S.mid b u r defaultDomain) (dm1.setDflt (RM.chg b rm u r []).1) := by
      refine h.setDflt hd rfl rfl (fun y => Iff.rfl) (fun y _ hy => S.mid_there b u r hy) ?_
      rw [S.mid_here]
      have := A.1
      simp only [List.head?_nil, reduceCtorEq] at this
      exact this
    exact (hs.finish hd fuel).map (fun a ha => ⟨ha, A.2⟩)
  | [x], hc, _ =>
    have hx := hc x (by simp)
    have e : getDomain [x] = (some x, []) := by simp [getDomain, hx.1, hx.2]
    rw [chg_some b (fuel + 1) dm u r [x] [] x e]
    refine (h.getSub hd fuel hx.2).bind ?_
    rintro ⟨dm1, s⟩ ⟨hs, ha, _⟩
    refine (hs.chg hd b fuel u r [] (Or.inl rfl)).bind ?_
    rintro ⟨s', y⟩ ⟨hs', hy⟩
    simp only [List.nil_eq, reduceCtorEq] at hs' hy ⊢
    have hsh : Shows L (S.mid b u r x) (dm1.setSub x s') := by
      refine h.setSub hx.2 hx.1 ha rfl rfl (fun y => Iff.rfl) (fun y _ hy => S.mid_there b u r hy) ?_
      rw [S.mid_here]
      exact hs'
    exact (hsh.finish hd fuel).map (fun a ha => ⟨ha, hy⟩)
  | _ :: _ :: _, _, hl => exact absurd hl (by simp)

/-- Adding links one after the other. -/
theorem Shows.addAll (fuel : Nat) : ∀ (ls : List (Str × Str × List Str)) (S : DomState) (dm : DM),
    Shows L S dm → NoDefault S.dmm → (∀ l ∈ ls, Clean l.2.2 ∧ l.2.2.length ≤ 1) →
    (ls.foldl (fun (r : Res DM) l => r.bind fun s => (addLink (fuel + 2) s l.1 l.2.1 l.2.2).map (·.1)) (.ok dm)).Ok
      (Shows L (ls.foldl (fun t l => t.add l.1 l.2.1 (domKey l.2.2)) S))
  | [], S, dm, h, _, _ => ⟨dm, rfl, h⟩
  | l :: ls, S, dm, h, hd, hl => by
    obtain ⟨⟨d1, _⟩, e, h1, _⟩ := h.chg hd true fuel l.1 l.2.1 l.2.2 (hl l (by simp)).1 (hl l (by simp)).2
    rw [List.foldl_cons, List.foldl_cons]
    have e : addLink (fuel + 2) dm l.1 l.2.1 l.2.2 = _ := e
    simp only [Res.bind_ok, e, Res.map_ok]
    exact Shows.addAll fuel ls _ d1 h1 hd (fun x hx => hl x (by simp [hx]))

/-! ## `Range` -/

theorem Shows.used_mem (h : Shows L S dm) {x : Str × DM} (hx : x ∈ dm.subs) : S.used x.1 :=
  (h.ks _ (h.names x hx)).1 (by rw [h.wf.get_of_mem hx]; rfl)

theorem Shows.range (h : Shows L S dm) (u r : Str) (π : List Str) :
    (u, r, π) ∈ dm.range ↔ Clean π ∧ π.length ≤ 1 ∧ S.own (domKey π) u r := by
  obtain ⟨dflt, subs, ps, lv, mm, dd⟩ := dm
  have hd : (u, r, π) ∈ dfltLinks dflt ↔ π = [] ∧ S.own defaultDomain u r := by
    cases dflt with
    | none =>
      have : ¬ S.used defaultDomain := fun hu => by have := h.kd.2 hu; cases this
      simp [dfltLinks, DomState.own, this]
    | some rm =>
      have hu := h.kd.1 rfl
      have hl := (h.dflt rm rfl).links u r
      simp only [DomState.own, hu, true_and]
      refine Iff.trans ?_ (and_congr_right (fun _ => hl))
      simp only [dfltLinks, List.mem_map]
      constructor
      · rintro ⟨⟨a, b⟩, hx, e⟩
        simp only [Prod.mk.injEq] at e
        obtain ⟨rfl, rfl, rfl⟩ := e
        exact ⟨rfl, hx⟩
      · rintro ⟨rfl, h2⟩
        exact ⟨(u, r), h2, rfl⟩
  rw [DM.range, List.mem_append, mem_rangeSubs, hd]
  constructor
  · rintro (⟨rfl, ho⟩ | ⟨d, s, π', hm, rfl, hr⟩)
    · exact ⟨by simp [Clean], by simp, ho⟩
    · obtain ⟨rfl, h1, h2⟩ := ((h.subs (d, s) hm).range u r π').1 hr
      refine ⟨?_, by simp, h.used_mem hm, h1, h2⟩
      intro y hy
      simp only [List.mem_singleton] at hy
      subst hy
      exact ⟨h.clean _ hm, h.names _ hm⟩
  · rintro ⟨hc, hl, ho⟩
    match π, hc, hl, ho with
    | [], _, _, ho => exact Or.inl ⟨rfl, ho⟩
    | [d], hc, _, ho =>
      obtain ⟨s, hs⟩ := Option.isSome_iff_exists.1 ((h.ks d (hc d (by simp)).2).2 ho.1)
      have hm := GoMap.mem_of_get hs
      exact Or.inr ⟨d, s, [], hm, rfl, ((h.subs (d, s) hm).range u r []).2 ⟨rfl, ho.2⟩⟩
    | _ :: _ :: _, _, hl, _ => exact absurd hl (by simp)

theorem Shows.range_nodup (h : Shows L S dm) : dm.range.Nodup := by
  obtain ⟨dflt, subs, ps, lv, mm, dd⟩ := dm
  rw [DM.range, List.nodup_append]
  refine ⟨?_, rangeSubs_nodup subs h.wf (fun d s hm => (h.subs (d, s) hm).range_nodup), ?_⟩
  · cases dflt with
    | none => simp [dfltLinks]
    | some rm =>
      apply List.Pairwise.map _ _ (h.dflt rm rfl).inv.links_nodup
      rintro ⟨a, b⟩ ⟨a', b'⟩ hne e
      simp only [Prod.mk.injEq, and_true] at e
      obtain ⟨rfl, rfl⟩ := e
      exact hne rfl
  · rintro ⟨a, b, c⟩ hx y hy rfl
    obtain ⟨d', s', π', hm, e, _⟩ := (mem_rangeSubs _ _ _ subs).1 hy
    cases dflt with
    | none => simp [dfltLinks] at hx
    | some rm =>
      simp only [dfltLinks, List.mem_map, Prod.mk.injEq, Prod.exists] at hx
      obtain ⟨_, _, _, _, _, rfl⟩ := hx
      simp at e

/-! ## `SetMatcher` -/

/-- What is left of a cell when the copies are lost. -/
def ownCell (c : Cell) : Cell :=
  ⟨fun u r => c.link u r ∧ ¬ c.copied u r, fun _ _ => False, endsOf (fun u r => c.link u r ∧ ¬ c.copied u r)⟩

theorem LeafR.setMatcher {m dmm : Option PMatcher} {s : DM} {c : Cell} (h : LeafR m dmm L s c)
    (m' : Option PMatcher) (order : List (Str × Str) → List (Str × Str)) (ho : ∀ l, (order l).Perm l) :
    LeafR m' dmm L (DM.setMatcher m' order s) (ownCell c) := by
  obtain ⟨o, rfl, hi⟩ := h
  refine ⟨o.map (fun rm => rm.setMatcher m' order), by rw [DM.setMatcher]; simp [setMatcherSubs], ?_⟩
  cases o with
  | some rm => exact RM.HasR.setMatcher hi m' order ho
  | none =>
    have hl : ∀ u r, ¬(c.link u r ∧ ¬ c.copied u r) := by
      intro u r
      have := hi.links u r
      simp only [Option.getD_none, RM.links, RM.new, List.flatMap_nil, List.not_mem_nil, false_iff] at this
      exact this
    refine (RM.HasR.new (L - 2) m').congr (fun u r => ?_) (fun u r => Iff.rfl) (fun n => ?_)
    · simp only [ownCell, hl]
    · simp only [ownCell, endsOf, hl, or_self, exists_false]

theorem setMatcherSubs_map (m' : Option PMatcher) (order : List (Str × Str) → List (Str × Str)) :
    ∀ subs : List (Str × DM), setMatcherSubs m' order subs = subs.map (fun x => (x.1, DM.setMatcher m' order x.2))
  | [] => by simp [setMatcherSubs]
  | (d, s) :: rest => by rw [setMatcherSubs, setMatcherSubs_map m' order rest]; rfl

theorem DomState.setMatcher_cell {d : Str} (hu : S.used d) (m' : Option PMatcher) :
    (S.setMatcher m').cell d = ownCell (S.cell d) := by
  have e : S.own d = fun u r => S.link d u r ∧ ¬ S.copied d u r := by
    funext u r; simp [DomState.own, hu]
  simp only [DomState.setMatcher, DomState.cell, ownCell, e]

theorem Shows.setMatcher (h : Shows L S dm) (m' : Option PMatcher) (order : List (Str × Str) → List (Str × Str))
    (ho : ∀ l, (order l).Perm l) : Shows L (S.setMatcher m') (dm.setMatcher m' order) := by
  have hum : ∀ x ∈ dm.subs, S.used x.1 := fun x hx => h.used_mem hx
  obtain ⟨dflt, subs, ps, lv, mm, dd⟩ := dm
  rw [DM.setMatcher, setMatcherSubs_map]
  have hk : (subs.map (fun x => (x.1, DM.setMatcher m' order x.2))).map Prod.fst = subs.map Prod.fst := by
    rw [List.map_map]; rfl
  have hmem : ∀ y ∈ subs.map (fun x => (x.1, DM.setMatcher m' order x.2)), ∃ x ∈ subs,
      y = (x.1, DM.setMatcher m' order x.2) := by
    intro y hy
    obtain ⟨x, hx, rfl⟩ := List.mem_map.1 hy
    exact ⟨x, hx, rfl⟩
  refine ⟨h.level, rfl, h.domMatcher, ?_, ?_, ?_, h.pats, ?_, ?_, ?_, ?_⟩
  · show (List.map Prod.fst (subs.map _)).Nodup
    rw [hk]; exact h.wf
  · intro y hy
    obtain ⟨x, hx, rfl⟩ := hmem y hy
    exact h.names x hx
  · intro y hy
    obtain ⟨x, hx, rfl⟩ := hmem y hy
    exact h.clean x hx
  · refine Iff.trans ?_ h.kd
    simp [DM.dflt]
  · intro d hd
    refine Iff.trans ?_ (h.ks d hd)
    show (GoMap.get (subs.map _) d).isSome = true ↔ (GoMap.get subs d).isSome = true
    rw [get_isSome_keys hk]
  · intro rm e
    cases dflt with
    | none => cases e
    | some rm0 =>
      cases e
      rw [DomState.setMatcher_cell (h.kd.1 rfl)]
      exact RM.HasR.setMatcher (h.dflt rm0 rfl) m' order ho
  · intro y hy
    obtain ⟨x, hx, rfl⟩ := hmem y hy
    rw [DomState.setMatcher_cell (hum x hx)]
    exact (h.subs x hx).setMatcher m' order ho

/-! ## `SetDomainMatcher` -/

theorem leafR_plain {m dmm : Option PMatcher} (hd : NoDefault dmm) (fuel : Nat) :
    ∀ (ls : List (Str × Str × List Str)), (∀ l ∈ ls, l.2.2 = []) → ∀ (s : DM) (c : Cell), LeafR m dmm L s c →
      (ls.foldl (fun (r : Res DM) l =>
          r.bind fun s => (DM.addLink (fuel + 1) s l.1 l.2.1 l.2.2).map (·.1)) (.ok s)).Ok
        (fun s => LeafR m dmm L s ⟨fun u v => c.link u v ∨ (u, v, []) ∈ ls, c.copied,
          fun n => c.name n ∨ endsOf (fun u v => (u, v, []) ∈ ls) n⟩)
  | [], _, s, c, h => by
    refine ⟨s, rfl, ?_⟩
    have e : (⟨fun u v => c.link u v ∨ (u, v, ([] : List Str)) ∈ [], c.copied,
          fun n => c.name n ∨ endsOf (fun u v => (u, v, ([] : List Str)) ∈ []) n⟩ : Cell) = c :=
      Cell.ext' (by simp) (by simp) (by simp [endsOf])
    rw [e]; exact h
  | (a, b, π) :: ls, hl, s, c, h => by
    have e : π = [] := hl (a, b, π) (by simp)
    subst e
    obtain ⟨⟨s1, _⟩, e1, h1, _⟩ := h.chg hd true fuel a b [] (Or.inl rfl)
    have h3 := leafR_plain hd fuel ls (fun x hx => hl x (by simp [hx])) _ _ h1
    have e1 : DM.addLink (fuel + 1) s a b [] = _ := e1
    rw [List.foldl_cons]
    simp only [Res.bind_ok, e1, Res.map_ok]
    obtain ⟨s2, e2, h2⟩ := h3
    refine ⟨s2, e2, ?_⟩
    have e : (⟨fun u v => (Cell.chg true a b ([] = [redundantRole]) c).link u v ∨ (u, v, ([] : List Str)) ∈ ls,
        (Cell.chg true a b ([] = [redundantRole]) c).copied,
        fun n => (Cell.chg true a b ([] = [redundantRole]) c).name n ∨
          endsOf (fun u v => (u, v, ([] : List Str)) ∈ ls) n⟩ : Cell) =
        ⟨fun u v => c.link u v ∨ (u, v, ([] : List Str)) ∈ (a, b, []) :: ls, c.copied,
          fun n => c.name n ∨ endsOf (fun u v => (u, v, ([] : List Str)) ∈ (a, b, []) :: ls) n⟩ := by
      refine Cell.ext' (fun u v => ?_) (fun u v => ?_) (fun n => ?_)
      · simp [Cell.chg, addL, or_assoc]
      · simp [Cell.chg]
      · simp only [Cell.chg, endsOf_cons]
        rw [or_assoc]
    show LeafR _ _ _ _ _
    rw [← e]
    exact h2

theorem LeafR.setDomainMatcher {m dmm : Option PMatcher} {s : DM} {c : Cell} (h : LeafR m dmm L s c)
    (dmm' : Option PMatcher) (hd : NoDefault dmm')
    (order : List (Str × Str × List Str) → List (Str × Str × List Str)) (ho : ∀ l, (order l).Perm l) (fuel : Nat) :
    (DM.setDomainMatcher (fuel + 1) dmm' order s).Ok (fun s' => LeafR m dmm' L s' (ownCell c)) := by
  have hr := h.range
  obtain ⟨o, rfl, hi⟩ := h
  rw [DM.setDomainMatcher, setDomainMatcherSubs]
  simp only [Res.bind_ok]
  have hr' : ∀ u r π, (u, r, π) ∈ order (DM.range (DM.mk o [] [] (L - 1) m dmm')) ↔
      π = [] ∧ c.link u r ∧ ¬ c.copied u r := by
    intro u r π
    rw [(ho _).mem_iff, ← hr u r π, DM.range, DM.range]
  obtain ⟨s', e, hs⟩ := leafR_plain (L := L) (m := m) hd fuel
    (order (DM.range (DM.mk o [] [] (L - 1) m dmm'))) (by
      rintro ⟨u, r, π⟩ hl
      exact ((hr' u r π).1 hl).1) (new (L - 1) m dmm') _ (leafR_new m dmm' L)
  refine ⟨s', e, ?_⟩
  have e2 : (fun u v => (u, v, ([] : List Str)) ∈ order (DM.range (DM.mk o [] [] (L - 1) m dmm'))) =
      fun u v => c.link u v ∧ ¬ c.copied u v := by
    funext u v
    simp [hr']
  have e3 : (⟨fun u v => Cell.empty.link u v ∨ (u, v, ([] : List Str)) ∈ order (DM.range (DM.mk o [] [] (L - 1) m dmm')),
      Cell.empty.copied, fun n => Cell.empty.name n ∨ endsOf (fun u v => (u, v, ([] : List Str)) ∈
        order (DM.range (DM.mk o [] [] (L - 1) m dmm'))) n⟩ : Cell) = ownCell c := by
    rw [e2]
    refine Cell.ext' (fun u v => ?_) (fun u v => Iff.rfl) (fun n => ?_)
    · simp [Cell.empty, ownCell, hr']
    · simp [Cell.empty, ownCell]
  rw [e3] at hs
  exact hs

theorem setDomainMatcherSubs_ok' (dmm' : Option PMatcher) (hd : NoDefault dmm')
    (order : List (Str × Str × List Str) → List (Str × Str × List Str)) (ho : ∀ l, (order l).Perm l) (fuel : Nat)
    (m dmm : Option PMatcher) (C : Str → Cell) :
    ∀ subs : List (Str × DM), (∀ x ∈ subs, LeafR m dmm L x.2 (C x.1)) →
      (setDomainMatcherSubs (fuel + 1) dmm' order subs).Ok (fun r =>
        (∀ x ∈ r, LeafR m dmm' L x.2 (ownCell (C x.1))) ∧ r.map Prod.fst = subs.map Prod.fst)
  | [], _ => ⟨[], by rw [setDomainMatcherSubs], by simp⟩
  | (d, s) :: rest, h => by
    rw [setDomainMatcherSubs]
    refine ((h (d, s) (by simp)).setDomainMatcher dmm' hd order ho fuel).bind ?_
    intro s' hs'
    refine (setDomainMatcherSubs_ok' dmm' hd order ho fuel m dmm C rest (fun x hx => h x (by simp [hx]))).map ?_
    rintro r ⟨h1, h2⟩
    refine ⟨?_, by simp [h2]⟩
    intro x hx
    rcases List.mem_cons.1 hx with rfl | hx
    · exact hs'
    · exact h1 x hx

/-- `SetDomainMatcher` puts back the links that are no copies, each once. -/
theorem Shows.setDomainMatcher (h : Shows L S dm) (dmm' : Option PMatcher) (hd : NoDefault dmm')
    (order : List (Str × Str × List Str) → List (Str × Str × List Str)) (ho : ∀ l, (order l).Perm l) (fuel : Nat) :
    (DM.setDomainMatcher (fuel + 2) dmm' order dm).Ok (fun dm' => ∃ T,
      DomState.Step S (.setDomainMatcher dmm' order) T ∧ Shows L T dm') := by
  have hum : ∀ x ∈ dm.subs, S.used x.1 := fun x hx => h.used_mem hx
  obtain ⟨dflt, subs, ps, lv, mm, dd⟩ := dm
  rw [DM.setDomainMatcher]
  obtain ⟨subs', e, hs, hk⟩ := setDomainMatcherSubs_ok' (L := L) dmm' hd order ho (fuel + 1) S.m S.dmm S.cell subs
    h.subs
  rw [e]
  simp only [Res.bind_ok]
  -- the links of the rebuilt managers
  have hsub : ∀ u r π, (u, r, π) ∈ rangeSubs subs' ↔ (u, r, π) ∈ rangeSubs subs := by
    intro u r π
    rw [mem_rangeSubs, mem_rangeSubs]
    have hw' : GoMap.WF subs' := by
      show (subs'.map Prod.fst).Nodup
      rw [hk]; exact h.wf
    constructor
    · rintro ⟨d, s, π', hm, rfl, hr⟩
      obtain ⟨s0, hs0⟩ := Option.isSome_iff_exists.1 (show (GoMap.get subs d).isSome = true by
        rw [← get_isSome_keys hk, hw'.get_of_mem hm]; rfl)
      have hm0 := GoMap.mem_of_get hs0
      refine ⟨d, s0, π', hm0, rfl, ?_⟩
      rw [(hs _ hm).range] at hr
      rw [(h.subs _ hm0).range]
      simpa [ownCell] using hr
    · rintro ⟨d, s0, π', hm0, rfl, hr⟩
      obtain ⟨s, hs1⟩ := Option.isSome_iff_exists.1 (show (GoMap.get subs' d).isSome = true by
        rw [get_isSome_keys hk, (show GoMap.WF subs from h.wf).get_of_mem hm0]; rfl)
      have hm := GoMap.mem_of_get hs1
      refine ⟨d, s, π', hm, rfl, ?_⟩
      rw [(h.subs _ hm0).range] at hr
      rw [(hs _ hm).range]
      simpa [ownCell] using hr
  have hrng : ∀ u r π, (u, r, π) ∈ order (DM.range (DM.mk dflt subs' [] lv mm dmm')) ↔
      Clean π ∧ π.length ≤ 1 ∧ S.own (domKey π) u r := by
    intro u r π
    rw [(ho _).mem_iff, ← h.range, DM.range, DM.range, List.mem_append, List.mem_append, hsub]
  have hnd : (order (DM.range (DM.mk dflt subs' [] lv mm dmm'))).Nodup := by
    rw [(ho _).nodup_iff, DM.range, List.nodup_append]
    have h0 := h.range_nodup
    rw [DM.range, List.nodup_append] at h0
    refine ⟨h0.1, rangeSubs_nodup subs' ?_ (fun d s hm => (hs (d, s) hm).range_nodup), ?_⟩
    · show (subs'.map Prod.fst).Nodup
      rw [hk]; exact h.wf
    · rintro ⟨a, b, c⟩ hx y hy rfl
      exact h0.2.2 _ hx _ ((hsub _ _ _).1 hy) rfl
  have hlm : lv = L ∧ mm = S.m := ⟨h.level, h.matcher⟩
  rw [hlm.1, hlm.2] at hrng hnd ⊢
  generalize order (DM.range (DM.mk dflt subs' [] L S.m dmm')) = ls at hrng hnd
  obtain ⟨dm', e', h'⟩ := Shows.addAll fuel ls _ _ (shows_new L S.m dmm') hd (by
    rintro ⟨u, r, π⟩ hl
    have := (hrng u r π).1 hl
    exact ⟨this.1, this.2.1⟩)
  refine ⟨dm', e', _, ?_, h'⟩
  have e4 : ls.foldl (fun t l => DomState.add t l.1 l.2.1 (domKey l.2.2)) (DomState.empty S.m dmm') =
      (ls.map (fun l => (l.1, l.2.1, domKey l.2.2))).foldl (fun t l => t.add l.1 l.2.1 l.2.2)
        (DomState.empty S.m dmm') := by
    rw [List.foldl_map]
  rw [e4]
  have hkey : ∀ π π' : List Str, Clean π → Clean π' → π.length ≤ 1 → π'.length ≤ 1 → domKey π = domKey π' →
      π = π' := by
    intro π π' c c' l l' e
    match π, π', c, c', l, l' with
    | [], [], _, _, _, _ => rfl
    | [x], [y], _, _, _, _ => rw [show x = y from e]
    | [], [y], _, c', _, _ => exact absurd e.symm (c' y (by simp)).2
    | [x], [], c, _, _, _ => exact absurd e (c x (by simp)).2
    | _ :: _ :: _, _, _, _, l, _ => exact absurd l (by simp)
    | _, _ :: _ :: _, _, _, _, l => exact absurd l (by simp)
  refine DomState.Step.setDomainMatcher S dmm' order _ ?_ ?_
  · rw [List.Nodup, List.pairwise_map]
    refine hnd.imp_of_mem ?_
    rintro ⟨a, b, c⟩ ⟨a', b', c'⟩ h1 h2 hne e
    simp only [Prod.mk.injEq] at e
    obtain ⟨rfl, rfl, e⟩ := e
    have h1 := (hrng _ _ _).1 h1
    have h2 := (hrng _ _ _).1 h2
    exact hne (by rw [hkey c c' h1.1 h2.1 h1.2.1 h2.2.1 e])
  · intro u r d
    simp only [List.mem_map, Prod.mk.injEq, Prod.exists]
    constructor
    · rintro ⟨a, b, π, hm, rfl, rfl, rfl⟩
      exact ((hrng _ _ _).1 hm).2.2
    · intro ho
      by_cases hdd : d = defaultDomain
      · subst hdd
        exact ⟨u, r, [], (hrng _ _ _).2 ⟨by simp [Clean], by simp, ho⟩, rfl, rfl, rfl⟩
      · obtain ⟨s, hs⟩ := Option.isSome_iff_exists.1 ((h.ks d hdd).2 ho.1)
        have hm := GoMap.mem_of_get hs
        refine ⟨u, r, [d], (hrng _ _ _).2 ⟨?_, by simp, ho⟩, rfl, rfl, rfl⟩
        intro y hy
        simp only [List.mem_singleton] at hy
        subst hy
        exact ⟨h.clean _ hm, hdd⟩

/-! ## Questions -/

theorem Shows.query {β : Type} (h : Shows L S dm) (hd : NoDefault S.dmm) (q : RM → RM × β)
    (hq : ∀ rm Lk, rm.Inv Lk → (q rm).1 = rm) (fuel : Nat) (π : List Str) (hc : Clean π) (hl : π.length ≤ 1) :
    ∃ dm' rm, DM.query q (fuel + 2) dm π = .ok (dm', (q rm).2) ∧
      rm.Is (L - 1 - π.length) S.m (S.cellAt (domKey π)) ∧ (¬ S.pattern (domKey π) → dm' = dm) := by
  match π, hc, hl with
  | [], _, _ =>
    obtain ⟨⟨dm1, rm⟩, e, rfl, hr, hsame⟩ := h.getDefault hd
    simp only at hr hsame e
    rw [DM.query]
    simp only [getDomain, e, Res.map_ok]
    refine ⟨_, rm, rfl, hr, fun _ => ?_⟩
    cases ed : dm1.dflt with
    | none => rfl
    | some rm0 =>
      have := hsame rm0 ed
      subst this
      simp only [Option.isSome_some, if_true]
      rw [hq _ _ hr.inv]
      exact setDflt_same ed
  | [d], hc, _ =>
    have hx := hc d (by simp)
    have eg : getDomain [d] = (some d, []) := by simp [getDomain, hx.1, hx.2]
    obtain ⟨⟨dm1, s⟩, e, hs, ha, hsame⟩ := h.getSub hd fuel hx.2
    simp only at hs ha hsame e
    rw [DM.query, eg]
    simp only [e, Res.bind_ok]
    rw [DM.query]
    simp only [getDomain, hs.getDefault hd, Res.map_ok]
    obtain ⟨o, rfl, hi⟩ := hs
    refine ⟨_, _, rfl, hi, fun hnp => ?_⟩
    have e1 : dm1 = dm := by
      rcases ha with ⟨rfl, _⟩ | ⟨_, hp⟩
      · rfl
      · exact absurd hp hnp
    subst e1
    cases es : dm1.subs.get d with
    | none => simp
    | some s0 =>
      have := hsame s0 es
      subst this
      simp only [Option.isSome_some, if_true]
      rw [show (q ((DM.mk o [] [] (L - 1) S.m S.dmm).dflt.getD (RM.new (L - 2) S.m))).fst =
        (DM.mk o [] [] (L - 1) S.m S.dmm).dflt.getD (RM.new (L - 2) S.m) from hq _ _ hi.inv]
      have : (if (DM.mk o [] [] (L - 1) S.m S.dmm).dflt.isSome = true then
          (DM.mk o [] [] (L - 1) S.m S.dmm).setDflt ((DM.mk o [] [] (L - 1) S.m S.dmm).dflt.getD (RM.new (L - 2) S.m))
          else DM.mk o [] [] (L - 1) S.m S.dmm) = DM.mk o [] [] (L - 1) S.m S.dmm := by
        cases o with
        | none => rfl
        | some rm => rfl
      refine Eq.trans ?_ (setSub_same es)
      exact congrArg (dm1.setSub d) this
  | _ :: _ :: _, _, hl => exact absurd hl (by simp)

end

end DM

end Fastac
