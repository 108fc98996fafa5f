import Verif.Model.DomainList
import Verif.Props.Domains

/-!
# C67: the lists of domains
-/

namespace Fastac

open DM

namespace DM

/-- The domain path is usable in the lists: the elements are not empty and contain no slash. -/
def Slashless (π : List Str) : Prop := ∀ d ∈ π, d ≠ [] ∧ '/' ∉ d

theorem join_slashless {π π' : List Str} (h : Slashless π) (h' : Slashless π')
    (e : join ['/'] π = join ['/'] π') : π = π' := by
  cases π with
  | nil =>
    cases π' with
    | nil => rfl
    | cons d ds =>
      have hd := (h' d (by simp)).1
      cases ds with
      | nil => exact absurd (by simpa [join] using e.symm) hd
      | cons y r => simp [join] at e
  | cons d ds =>
    cases π' with
    | nil =>
      have hd := (h d (by simp)).1
      cases ds with
      | nil => exact absurd (by simpa [join] using e) hd
      | cons y r => simp [join] at e
    | cons d' ds' =>
      exact join_injective '/' (by simp) (by simp) (fun f hf => (h f hf).2) (fun f hf => (h' f hf).2) e

theorem foldl_domainMap (ls : List (Str × Str × List Str)) : ∀ (m : GoMap Str (List Str)), m.WF →
    (ls.foldl (fun m l => m.set (join ['/'] l.2.2) l.2.2) m).WF ∧
    (∀ k π, (ls.foldl (fun m l => m.set (join ['/'] l.2.2) l.2.2) m).get k = some π →
      m.get k = some π ∨ (k = join ['/'] π ∧ ∃ l ∈ ls, l.2.2 = π)) ∧
    (∀ k, ((m.get k).isSome ∨ ∃ l ∈ ls, join ['/'] l.2.2 = k) →
      ((ls.foldl (fun m l => m.set (join ['/'] l.2.2) l.2.2) m).get k).isSome) := by
  induction ls with
  | nil => intro m w; exact ⟨w, fun k π h => .inl h, fun k h => by simpa using h⟩
  | cons l ls ih =>
    intro m w
    obtain ⟨h1, h2, h3⟩ := ih (m.set (join ['/'] l.2.2) l.2.2) (w.set _ _)
    refine ⟨h1, fun k π h => ?_, fun k h => ?_⟩
    · rcases h2 k π h with h | ⟨e, l', hl, e'⟩
      · rw [GoMap.get_set] at h
        split at h
        · rename_i e
          cases h
          exact .inr ⟨e.symm, l, by simp, rfl⟩
        · exact .inl h
      · exact .inr ⟨e, l', by simp [hl], e'⟩
    · apply h3
      rw [GoMap.get_set]
      split
      · exact .inl rfl
      · rename_i hne
        rcases h with h | ⟨l', hl, e⟩
        · exact .inl h
        · rcases List.mem_cons.1 hl with rfl | hl
          · exact absurd e hne
          · exact .inr ⟨l', hl, e⟩

/-- The map of `getAllDomainsHelper`. -/
theorem domainMap_spec (order : LinkOrder) (ho : ∀ l, (order l).Perm l) (dm : DM) :
    (dm.domainMap order).WF ∧
    (∀ e ∈ dm.domainMap order, e.1 = join ['/'] e.2 ∧ ∃ u r, (u, r, e.2) ∈ dm.range) ∧
    ∀ u r π, (u, r, π) ∈ dm.range → ∃ π', (join ['/'] π, π') ∈ dm.domainMap order := by
  obtain ⟨h1, h2, h3⟩ := foldl_domainMap (order dm.range) [] GoMap.WF.nil
  refine ⟨h1, fun e he => ?_, fun u r π hl => ?_⟩
  · rcases h2 e.1 e.2 (h1.get_of_mem he) with h | ⟨e1, l, hl, e2⟩
    · cases h
    · refine ⟨e1, l.1, l.2.1, ?_⟩
      rw [← e2]
      exact (ho _).mem_iff.1 hl
  · obtain ⟨π', e⟩ := Option.isSome_iff_exists.1
      (h3 (join ['/'] π) (.inr ⟨(u, r, π), (ho _).mem_iff.2 hl, rfl⟩))
    exact ⟨π', GoMap.mem_of_get e⟩

theorem _root_.Fastac.RM.Inv.inUse_state {rm : RM} {L : Str → Str → Prop} (h : rm.Inv L) (n : Str) :
    (rm.inUse n).1 = rm := h.getRoles_state n

theorem _root_.Fastac.RM.inUse_iff (rm : RM) (n : Str) :
    (rm.inUse n).2 = true ↔ (rm.getUsers n).2 ≠ [] ∨ (rm.getRoles n).2 ≠ [] := by
  simp [RM.inUse, RM.getUsers, RM.getRoles]

theorem domainsLoop_spec (fuel L : Nat) (m dmm : Option PMatcher) (n : Str) (dm : DM)
    {F : List Str → Str → Str → Prop} {K : List Str → Str → Prop} (h : Has m dmm L F K dm) :
    ∀ πs : List (List Str), (∀ π ∈ πs, Clean π ∧ NoPattern dmm π ∧ π.length < fuel) →
    ∃ dm', domainsLoop fuel n πs dm = .ok (dm', (πs.filter (fun π => ((dm.atD L m π).inUse n).2)).map
      (join ['/'])) ∧ Has m dmm L F K dm' ∧ ∀ π, dm'.at π = dm.at π := by
  intro πs
  induction πs generalizing dm with
  | nil => intro _; exact ⟨dm, rfl, h, fun _ => rfl⟩
  | cons π πs ih =>
    intro hc
    obtain ⟨c1, c2, c3⟩ := hc π (by simp)
    obtain ⟨dm1, e, hq, ha, ho⟩ := query_quiet (fun rm => rm.inUse n) π fuel L dm c1 c2 c3 h.quiet
    have hat : ∀ π', dm1.at π' = dm.at π' := by
      intro π'
      by_cases e' : π' = π
      · subst e'
        rw [ha]
        cases e2 : dm.at π' with
        | none => rfl
        | some rm =>
          have := (h.at π').inv
          rw [atD, e2] at this
          simp only [Option.map_some, Option.getD_some] at this ⊢
          rw [this.inUse_state]
      · exact ho π' e'
    have hatD : ∀ π', dm1.atD L m π' = dm.atD L m π' := fun π' => atD_eq_of_at (hat π')
    have h1 : Has m dmm L F K dm1 := ⟨hq, fun π' => by rw [hatD]; exact h.at π'⟩
    obtain ⟨dm2, e2, h2, h3⟩ := ih dm1 h1 (fun π' hπ => hc π' (by simp [hπ]))
    refine ⟨dm2, ?_, h2, fun π' => (h3 π').trans (hat π')⟩
    rw [domainsLoop, e]
    simp only [Res.bind_ok, e2, Res.map_ok, hatD]
    rw [List.filter_cons]
    split <;> rfl

end DM

/-- **C67** for `GetAllDomains`: whatever the history, the role matcher and the enumeration order, the
list has the text (elements joined with slashes) of exactly the domains in which a link is stored, each
text once. -/
theorem c67_all_domains_partial (fuel L : Nat) (m dmm : Option PMatcher) (H : List Op) (hH : Calls fuel H)
    (np : ∀ op ∈ H, NoPattern dmm op.path) (order : LinkOrder) (ho : ∀ l, (order l).Perm l) :
    ∃ dm, run fuel (new L m dmm) H = .ok dm ∧ (dm.getAllDomains order).Nodup ∧
      ∀ x, x ∈ dm.getAllDomains order ↔
        ∃ π u r, linked (inDomain π H) u r = true ∧ x = join ['/'] π := by
  obtain ⟨dm, e, hs⟩ := (sim_new m dmm L).run fuel H [] _ hH np
  rw [List.nil_append] at hs
  obtain ⟨h1, h2, h3⟩ := domainMap_spec order ho dm
  have hk : dm.getAllDomains order = (dm.domainMap order).map Prod.fst := by
    unfold getAllDomains
    apply List.map_congr_left
    intro x hx
    exact (h2 x hx).1.symm
  refine ⟨dm, e, hk ▸ h1, fun x => ?_⟩
  rw [hk, List.mem_map]
  constructor
  · rintro ⟨y, hy, rfl⟩
    obtain ⟨e1, u, r, hl⟩ := h2 y hy
    exact ⟨y.2, u, r, (hs.has.range u r y.2).1 hl, e1⟩
  · rintro ⟨π, u, r, hl, rfl⟩
    obtain ⟨π', hm⟩ := h3 u r π ((hs.has.range u r π).2 hl)
    exact ⟨_, hm, rfl⟩

/-- **C67** for `GetDomains`, for domains whose elements are not empty and contain no slash: the list has
exactly the domains with a link in which `GetUsers` or `GetRoles` of the name is not empty, each once;
without a role matcher, the domains in which the name is a user or a role of some link.  The stored links
stay as they are.

Missing: other domains, where two domains may have the same text and only one of them is looked at
(`c67_fails`). -/
theorem c67_domains_partial (fuel L : Nat) (m dmm : Option PMatcher) (H : List Op) (hH : Calls fuel H)
    (np : ∀ op ∈ H, NoPattern dmm op.path) (hsl : ∀ op ∈ H, Slashless op.path)
    (order : LinkOrder) (ho : ∀ l, (order l).Perm l) (n : Str) :
    ∃ dm dm' ds, run fuel (new L m dmm) H = .ok dm ∧ dm.getDomains fuel order n = .ok (dm', ds) ∧
      ds.Nodup ∧
      (∀ π, Slashless π → (join ['/'] π ∈ ds ↔ (∃ u r, linked (inDomain π H) u r = true) ∧
        ((((RM.new (L - 1 - π.length) m).run (inDomain π H)).getUsers n).2 ≠ [] ∨
          (((RM.new (L - 1 - π.length) m).run (inDomain π H)).getRoles n).2 ≠ []))) ∧
      (m = none → ∀ π, Slashless π → (join ['/'] π ∈ ds ↔
        ∃ x, linked (inDomain π H) n x = true ∨ linked (inDomain π H) x n = true)) ∧
      (∀ x ∈ ds, ∃ π, Slashless π ∧ x = join ['/'] π) ∧
      ∀ l, l ∈ dm'.range ↔ l ∈ dm.range := by
  obtain ⟨dm, e, hs⟩ := (sim_new m dmm L).run fuel H [] _ hH np
  rw [List.nil_append] at hs
  obtain ⟨h1, h2, h3⟩ := domainMap_spec order ho dm
  have hpath : ∀ π ∈ (dm.domainMap order).map Prod.snd, (Clean π ∧ NoPattern dmm π ∧ π.length < fuel) ∧
      Slashless π := by
    intro π hπ
    obtain ⟨y, hy, rfl⟩ := List.mem_map.1 hπ
    obtain ⟨e1, u, r, hl⟩ := h2 y hy
    obtain ⟨op, hop, ep⟩ := linked_path ((hs.has.range u r y.2).1 hl)
    rw [← ep]
    exact ⟨⟨(hH op hop).1, np op hop, (hH op hop).2⟩, hsl op hop⟩
  obtain ⟨dm', e', hh, hat⟩ := domainsLoop_spec fuel L m dmm n dm hs.has
    ((dm.domainMap order).map Prod.snd) (fun π hπ => (hpath π hπ).1)
  have main : ∀ π, Slashless π → (join ['/'] π ∈ ((((dm.domainMap order).map Prod.snd).filter
      (fun π => ((dm.atD L m π).inUse n).2)).map (join ['/'])) ↔
      (∃ u r, linked (inDomain π H) u r = true) ∧
        ((((RM.new (L - 1 - π.length) m).run (inDomain π H)).getUsers n).2 ≠ [] ∨
          (((RM.new (L - 1 - π.length) m).run (inDomain π H)).getRoles n).2 ≠ [])) := by
    intro π hπ
    have hu : ((dm.atD L m π).inUse n).2 = true ↔ _ := RM.inUse_iff (dm.atD L m π) n
    rw [hs.at] at hu
    rw [List.mem_map]
    constructor
    · rintro ⟨π', hm, ej⟩
      rw [List.mem_filter] at hm
      have := join_slashless (hpath π' hm.1).2 hπ ej
      subst this
      obtain ⟨y, hy, rfl⟩ := List.mem_map.1 hm.1
      obtain ⟨e1, u, r, hl⟩ := h2 y hy
      have h4 := hm.2
      rw [hs.at] at h4
      exact ⟨⟨u, r, (hs.has.range u r y.2).1 hl⟩, hu.1 h4⟩
    · rintro ⟨⟨u, r, hl⟩, h5⟩
      obtain ⟨π', hm⟩ := h3 u r π ((hs.has.range u r π).2 hl)
      have hm' : π' ∈ (dm.domainMap order).map Prod.snd := List.mem_map.2 ⟨_, hm, rfl⟩
      have ej : join ['/'] π = join ['/'] π' := (h2 _ hm).1
      have := join_slashless hπ (hpath π' hm').2 ej
      subst this
      refine ⟨π, ?_, rfl⟩
      rw [List.mem_filter]
      refine ⟨hm', ?_⟩
      rw [hs.at]
      exact hu.2 h5
  refine ⟨dm, dm', _, e, e', ?_, main, ?_, ?_, ?_⟩
  · rw [List.nodup_iff_pairwise_ne, List.pairwise_map]
    have hn : ((dm.domainMap order).map Prod.snd).Nodup := by
      rw [List.nodup_iff_pairwise_ne, List.pairwise_map]
      have hw : ((dm.domainMap order).map Prod.fst).Nodup := h1
      rw [List.nodup_iff_pairwise_ne, List.pairwise_map] at hw
      refine hw.imp_of_mem (fun {a b} ha hb hne e => hne ?_)
      rw [(h2 a ha).1, (h2 b hb).1, e]
    refine (hn.sublist List.filter_sublist).imp_of_mem (fun {a b} ha hb hne e => hne ?_)
    rw [List.mem_filter] at ha hb
    exact join_slashless (hpath a ha.1).2 (hpath b hb.1).2 e
  · intro hm π hπ
    subst hm
    rw [main π hπ]
    constructor
    · rintro ⟨_, h | h⟩
      · obtain ⟨x, hx⟩ := List.exists_mem_of_ne_nil _ h
        exact ⟨x, .inr ((c24_direct_links _ _ x n).2.1 hx)⟩
      · obtain ⟨x, hx⟩ := List.exists_mem_of_ne_nil _ h
        exact ⟨x, .inl ((c24_direct_links _ _ n x).1.1 hx)⟩
    · rintro ⟨x, h | h⟩
      · exact ⟨⟨n, x, h⟩, .inr (List.ne_nil_of_mem ((c24_direct_links _ _ n x).1.2 h))⟩
      · exact ⟨⟨x, n, h⟩, .inl (List.ne_nil_of_mem ((c24_direct_links _ _ x n).2.2 h))⟩
  · intro x hx
    obtain ⟨π, hπ, rfl⟩ := List.mem_map.1 hx
    exact ⟨π, (hpath π (List.mem_filter.1 hπ).1).2, rfl⟩
  · rintro ⟨u, r, π⟩
    rw [hh.range, hs.has.range]

namespace DomainListExample
open RolesExample

def x := s% "x"
def y := s% "y"

/-- links in the default domain, `x`, `x/y` -/
def H : List Op := [.add a b [], .add a b [x], .add b c [x, y], .add c d [y], .del c d [y]]

example : Calls 5 H ∧ (∀ op ∈ H, NoPattern none op.path) ∧ (∀ op ∈ H, Slashless op.path) := by
  have h1 : ∀ op ∈ H, (op.path.all fun d => d != redundantRole && d != defaultDomain) = true ∧
      op.path.length < 5 ∧ (op.path.all fun d => d != [] && '/' ∉ d) = true := by decide
  refine ⟨fun op ho => ⟨fun e he => ?_, (h1 op ho).2.1⟩, fun op ho pm e => ?_, fun op ho e he => ?_⟩
  · have := List.all_eq_true.1 (h1 op ho).1 e he
    simpa using this
  · cases e
  · have := List.all_eq_true.1 (h1 op ho).2.2 e he
    simpa using this

example : (run 5 (new 10 none none) H).map (fun dm => dm.getAllDomains id) =
    .ok [[], s% "x", s% "x/y"] := by decide +kernel
example : ((run 5 (new 10 none none) H).bind (fun dm => dm.getDomains 5 id a)).map (·.2) =
    .ok [[], s% "x"] := by decide +kernel
example : ((run 5 (new 10 none none) H).bind (fun dm => dm.getDomains 5 id c)).map (·.2) =
    .ok [s% "x/y"] := by decide +kernel

/-- **C67 fails** for domains with slashes: the domain `x/y` and the subdomain `y` of `x` have the same
text, and `GetDomains` looks at one of them only.  Which one depends on the enumeration order; for one
order the user is in no domain. -/
theorem c67_fails : ∃ (H : List Op) (u : Str) (π : List Str), Calls 5 H ∧ linked (inDomain π H) u b = true ∧
    ((run 5 (new 10 none none) H).bind (fun dm => dm.getDomains 5 id u)).map (·.2) = .ok [] ∧
    ((run 5 (new 10 none none) H).bind (fun dm => dm.getDomains 5 List.reverse u)).map (·.2) =
      .ok [join ['/'] π] := by
  refine ⟨[.add a b [s% "x/y"], .add c d [x, y]], a, [s% "x/y"], ?_, by decide, by decide, by decide⟩
  have h1 : ∀ op ∈ [Op.add a b [s% "x/y"], .add c d [x, y]],
      (op.path.all fun d => d != redundantRole && d != defaultDomain) = true ∧ op.path.length < 5 := by decide
  exact fun op ho => ⟨fun e he => by simpa using List.all_eq_true.1 (h1 op ho).1 e he, (h1 op ho).2⟩

end DomainListExample

end Fastac
