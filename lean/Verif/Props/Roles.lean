import Verif.Lemmas.RoleOrder

/-!
# C21–C26: the role manager
-/

namespace Fastac

/-- C21.  Without a pattern matcher, after any history of calls on a new role manager,
`HasLink(a, b)` is true iff `a = b` or `b` is reached from `a` over fewer than `level` (at most
`level - 1`) stored links. -/
theorem c21_has_link (level : Nat) (ops : List LinkOp) (a b : Str) :
    (((RM.new level).run ops).hasLink a b).2 = true ↔
      a = b ∨ ∃ k, k < level ∧ Reach (fun x y => linked ops x y = true) k a b := by
  have A := RM.after_run level none ops
  have hm : ∀ c, ((RM.new level).run ops).matches c b = false := by
    intro c
    unfold RM.matches
    rw [show ((RM.new level).run ops).matcher = none from A.matcher]
  obtain ⟨h2, s2, _⟩ := RM.getRole2_inv A.inv a b
  have hstep := h2.step_plain (s2.matcher.trans A.matcher)
  rw [RM.hasLink_result]
  simp only [hm, Bool.false_eq_true, or_false, false_or]
  rw [show ((RM.new level).run ops).level = level from A.level]
  constructor
  · rintro (h | ⟨k, hk, c, hr, rfl⟩)
    · exact Or.inl h
    · exact Or.inr ⟨k, hk, hr.mono (fun x y hxy => (hstep x y).1 hxy)⟩
  · rintro (h | ⟨k, hk, hr⟩)
    · exact Or.inl h
    · exact Or.inr ⟨k, hk, b, hr.mono (fun x y hxy => (hstep x y).2 hxy), rfl⟩

/-- C22.  After any history, with or without a pattern matcher: `AddLink` reports whether the link was
absent, `DeleteLink` whether it was present, and `Range` enumerates exactly the stored links, each
once.  (`linked` says that a link is present iff the last `AddLink`/`DeleteLink`/`Clear` concerning it
was an `AddLink`.) -/
theorem c22_links_are_a_set (level : Nat) (m : Option PMatcher) (ops : List LinkOp) :
    let rm := (RM.new level m).run ops
    (∀ u r, (rm.addLink u r []).2 = !linked ops u r) ∧
    (∀ u r, (rm.deleteLink u r []).2 = linked ops u r) ∧
    (∀ u r, (u, r) ∈ rm.links ↔ linked ops u r = true) ∧ rm.links.Nodup := by
  intro rm
  have A : RM.After level m ops rm := RM.after_run level m ops
  refine ⟨?_, ?_, A.inv.mem_links A.red, A.inv.links_nodup⟩
  · intro u r
    have := (A.inv.addLink u r []).2.2.1
    cases h : linked ops u r <;> cases h' : (rm.addLink u r []).2 <;> simp_all
  · intro u r
    have := (A.inv.deleteLink u r []).2.2.1
    cases h : linked ops u r <;> cases h' : (rm.deleteLink u r []).2 <;> simp_all

/-- A call that only asks. -/
def LinkOp.isQuery : LinkOp → Bool
  | .hasLink _ _ | .getRoles _ | .getUsers _ => true
  | _ => false

/-- C23.  A query leaves the role manager in exactly the state it was in, so no later call can tell
whether it happened; for names known or not, with or without a pattern matcher. -/
theorem c23_queries_pure (level : Nat) (m : Option PMatcher) (ops : List LinkOp) (q : LinkOp)
    (hq : q.isQuery = true) (rest : List LinkOp) :
    (RM.new level m).run (ops ++ q :: rest) = (RM.new level m).run (ops ++ rest) := by
  have A := RM.after_run level m ops
  rw [RM.run_append, RM.run_append]
  have : ((RM.new level m).run ops).run (q :: rest) =
      (((RM.new level m).run ops).step q).run rest := rfl
  rw [this]
  congr 1
  cases q with
  | hasLink u r => exact A.inv.hasLink_state u r
  | getRoles n => exact A.inv.getRoles_state n
  | getUsers n => exact A.inv.getUsers_state n
  | add _ _ => cases hq
  | del _ _ => cases hq
  | clear => cases hq

/-- C24 without patterns: `GetRoles` and `GetUsers` list exactly the direct links. -/
theorem c24_direct_links (level : Nat) (ops : List LinkOp) (a b : Str) :
    (b ∈ (((RM.new level).run ops).getRoles a).2 ↔ linked ops a b = true) ∧
    (a ∈ (((RM.new level).run ops).getUsers b).2 ↔ linked ops a b = true) := by
  have A := RM.after_run level none ops
  constructor
  · have h := A.inv.getRole a
    have hm : (((RM.new level).run ops).getRole a).1.matcher = none :=
      RM.getRole_matcher.trans A.matcher
    exact h.step_plain hm a b
  · have h := A.inv.getRole b
    have hm : (((RM.new level).run ops).getRole b).1.matcher = none :=
      RM.getRole_matcher.trans A.matcher
    show a ∈ (((RM.new level).run ops).getRole b).1.rangeUsers b ↔ _
    rw [h.mem_rangeUsers]
    constructor
    · rintro (x | ⟨p, _, y⟩ | ⟨p, _, y⟩)
      · exact x
      · exact absurd y (h.no_matched hm _ _)
      · exact absurd y (h.no_matched hm _ _)
    · exact Or.inl

/-- C24 with a pattern matcher, for names that have been used in a link.

Missing: names never used before, for which the claim is false (`c24_fails`). -/
theorem c24_converse_partial (level : Nat) (m : Option PMatcher) (ops : List LinkOp) (a b : Str)
    (ha : known ops a = true) (hb : known ops b = true) :
    b ∈ (((RM.new level m).run ops).getRoles a).2 ↔
      a ∈ (((RM.new level m).run ops).getUsers b).2 := by
  have A := RM.after_run level m ops
  have e1 := RM.getRole_of_mem ((A.names a).2 ha)
  have e2 := RM.getRole_of_mem ((A.names b).2 hb)
  unfold RM.getRoles RM.getUsers
  rw [e1, e2]
  simp only
  rw [A.inv.mem_rangeRoles, A.inv.mem_rangeUsers]

/-- C25, exactly.  Whatever the pattern matcher, the history and the names: `HasLink(a, b)` is true iff `a = b`, `a`
matches `b`, or within `level - 1` steps some `c` is reached that is `b` or matches `b`, where a step is a link
extended by the names that pattern roles cover.  A pattern role covers the names in use that match it, except patterns
that came into use later. -/
theorem c25_exact (level : Nat) (m : Option PMatcher) (ops : List LinkOp) (a b : Str) :
    (((RM.new level m).run ops).hasLink a b).2 = true ↔
      roleAnswerIn level (fun u r => linked ops u r = true) (namesUsed ops) a b m :=
  (RM.HasIn.run level m ops).hasLink a b

/-- C25.  If no pattern among the names in use matches another one, `HasLink(a, b)` is true iff
`a = b`, `a` matches `b`, or within `level - 1` steps some `c` is reached that is `b` or matches `b`,
where a step is a link extended by pattern matching of the known names (and of `a`, `b`).

Missing: overlapping patterns, for which the answer depends on the order in which links
were added (`c25_exact`, `c25_fails`). -/
theorem c25_pattern_roles_partial (level : Nat) (m : PMatcher)
    (ops : List LinkOp) (a b : Str) (hflat : m.FlatOn (fun n => known ops n = true ∨ n = a ∨ n = b)) :
    (((RM.new level (some m)).run ops).hasLink a b).2 = true ↔
      a = b ∨ m.match a b = true ∨ ∃ k, k < level ∧ ∃ c,
        Reach (m.edge (fun x y => linked ops x y = true)
          (fun n => known ops n = true ∨ n = a ∨ n = b)) k a c ∧ (b = c ∨ m.match c b = true) :=
  (RM.after_run level (some m) ops).has.hasLink a b (by intro pm e; cases e; exact hflat)

/-- C25, order of links: two histories that leave the same links and have used the same names give the
same answers (again if no pattern among the names in use matches another one). -/
theorem c25_order_independent_partial (level : Nat) (m : PMatcher)
    (ops ops' : List LinkOp) (hl : ∀ u r, linked ops u r = linked ops' u r)
    (hk : ∀ n, known ops n = known ops' n) (a b : Str)
    (hflat : m.FlatOn (fun n => known ops n = true ∨ n = a ∨ n = b)) :
    (((RM.new level (some m)).run ops).hasLink a b).2 =
      (((RM.new level (some m)).run ops').hasLink a b).2 := by
  rw [Bool.eq_iff_iff, c25_pattern_roles_partial level m _ _ _ hflat,
    c25_pattern_roles_partial level m _ _ _ (by simpa only [← hk] using hflat)]
  simp only [hl, hk]

/-! ## Setting a matcher -/

/-- C26 for role managers.  Whatever the history, whatever matcher was set before and is set now, and
in whatever order the links are replayed: `SetMatcher` keeps exactly the stored links, each is
honoured by `HasLink` (for a level bound of at least 2), and from now on the new matcher is in force: if no
patterns among the names match each other, `HasLink` gives the answer of `roleAnswer` for it.

Missing: domain managers with pattern domains, for which the claim is false (`c26_fails`). -/
theorem c26_links_kept_partial (level : Nat) (m0 m : Option PMatcher) (ops : List LinkOp)
    (order : List (Str × Str) → List (Str × Str)) (ho : ∀ l, (order l).Perm l) :
    let rm := ((RM.new level m0).run ops).setMatcher m order
    (∀ u r, (u, r) ∈ rm.links ↔ linked ops u r = true) ∧ rm.links.Nodup ∧
      (2 ≤ level → ∀ u r, linked ops u r = true → (rm.hasLink u r).2 = true) ∧
      ∀ a b, (∀ pm, m = some pm → pm.FlatOn (fun n =>
          endsOf (fun u r => linked ops u r = true) n ∨ n = a ∨ n = b)) → ((rm.hasLink a b).2 = true ↔
        roleAnswer level (fun u r => linked ops u r = true) (endsOf (fun u r => linked ops u r = true)) a b m) := by
  intro rm
  have h := (RM.after_run level m0 ops).has.setMatcher m order ho
  exact ⟨h.links, h.inv.links_nodup, fun hl u r hur => h.honours hl hur, fun a b hf => h.hasLink a b hf⟩

/-- C26, exactly: after `SetMatcher`, the answers are those for the new matcher, with the names in the order in which
the links were added anew. -/
theorem c26_exact (level : Nat) (m0 m : Option PMatcher) (ops : List LinkOp)
    (order : List (Str × Str) → List (Str × Str)) (ho : ∀ l, (order l).Perm l) (a b : Str) :
    ∃ ls, ls.Nodup ∧ (∀ u r, (u, r) ∈ ls ↔ linked ops u r = true) ∧
      (((((RM.new level m0).run ops).setMatcher m order).hasLink a b).2 = true ↔
        roleAnswerIn level (fun u r => linked ops u r = true) (namesIn ls) a b m) := by
  have h := RM.HasIn.run level m0 ops
  have hls : ∀ u r, (u, r) ∈ order ((RM.new level m0).run ops).links ↔ linked ops u r = true :=
    fun u r => by rw [(ho _).mem_iff, h.has.links]
  exact ⟨_, (ho _).nodup_iff.mpr h.has.inv.links_nodup, hls, (h.setMatcher m _ hls).hasLink a b⟩

/-! ## Examples -/

namespace RolesExample

/-- Patterns start with `*` and match every name that is not a pattern. -/
def star : PMatcher where
  isPattern s := s.head? == some '*'
  «match» n p := p.head? == some '*' && !(n.head? == some '*')

theorem star_flat : star.Flat := by
  intro p q hp _ _
  simp only [star, beq_iff_eq] at hp ⊢
  simp [hp]

/-- The pattern `*p` matches the pattern `*q` (as `*` does with `*x`). -/
def overlap : PMatcher where
  isPattern s := s.head? == some '*'
  «match» n p := p == s% "*p" && n == s% "*q"

def a := s% "a"
def b := s% "b"
def c := s% "c"
def d := s% "d"
def p := s% "*p"
def q := s% "*q"

def ops : List LinkOp := [.add a b, .add b c, .hasLink d c, .add c d, .del c d, .del d a, .add c d]

-- C21: reached over three links, not over two
example : (((RM.new 4).run ops).hasLink a d).2 = true ∧ (((RM.new 3).run ops).hasLink a d).2 = false := by
  decide
-- C22
example : ((RM.new 4).run ops).links = [(a, b), (b, c), (c, d)] := by decide
-- C24
example : (((RM.new 4).run ops).getRoles b).2 = [c] ∧ (((RM.new 4).run ops).getUsers b).2 = [a] := by
  decide
-- C25: `d` matches the pattern role `*p`, which is linked to `b`
example : (((RM.new 4 (some star)).run [.add p b]).hasLink d b).2 = true ∧
    (((RM.new 4).run [.add p b]).hasLink d b).2 = false := by decide
example : (((RM.new 4 (some star)).run [.add d p, .add a b]).hasLink d b).2 = true := by decide
-- C26
example : (((RM.new 4).run [.add p b, .add a c]).setMatcher (some star) id).links =
    [(p, b), (a, c)] := by decide

end RolesExample

open RolesExample in
/-- C24 fails for names that were never used: `d` matches the pattern role `*p` with role `b`, so that
`GetRoles(d)` contains `b`, but `GetUsers(b)` does not contain `d`. -/
theorem c24_fails : ∃ (m : PMatcher) (ops : List LinkOp) (x y : Str), m.Flat ∧
    y ∈ (((RM.new 10 (some m)).run ops).getRoles x).2 ∧
    x ∉ (((RM.new 10 (some m)).run ops).getUsers y).2 :=
  ⟨star, [.add p b], d, b, star_flat, by decide, by decide⟩

open RolesExample in
/-- C25 fails for overlapping patterns: the same two links, added in the two possible orders, give
different answers. -/
theorem c25_fails : ∃ (m : PMatcher) (l₁ l₂ : Str × Str) (x y : Str),
    (((RM.new 10 (some m)).run [.add l₁.1 l₁.2, .add l₂.1 l₂.2]).hasLink x y).2 = true ∧
    (((RM.new 10 (some m)).run [.add l₂.1 l₂.2, .add l₁.1 l₁.2]).hasLink x y).2 = false :=
  ⟨overlap, (q, b), (a, p), a, b, by decide, by decide⟩

end Fastac
