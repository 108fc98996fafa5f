import Verif.Props.Columns
import Verif.Props.PatternRoles
import Verif.Props.RootRules

/-!
# C85: the models in /repo/examples that compare column by column

`rbac_model.conf`, `rbac_with_resource_roles_model.conf`, `rbac_with_pattern_model.conf`, `glob_model.conf`,
`keymatch_custom_model.conf`, `rbac_with_deny_model.conf`, `rbac_with_not_deny_model.conf`,
`basic_without_users_model.conf` and `basic_without_resources_model.conf`, in any program.
-/

namespace Fastac

open Model

namespace Shipped

/-- `sub, obj, act` -/
def args : List Str := [s% "sub", s% "obj", s% "act"]

/-- The three conditions: `f` is the function that compares, if any. -/
def column (x : Str) : Option Str → Column
  | none => .same x
  | some f => .call f x []

/-- How the attributes are compared: `==`, or a function with a name that can be written in a matcher, which says what
`R` says on values with the property `ok`. -/
def Tests (s : FnModel) (ok : Str → Prop) (R : Str → Str → Prop) : Option Str → Prop
  | none => ∀ v w, R v w ↔ v = w
  | some f => isIdent f ∧ (∀ u v, f = u ++ v → ¬ IsPolicyRef v) ∧ f ≠ s% "eval" ∧
      ∃ fn, s.functions f = some fn ∧ ∀ v w, ok w → ∃ b, fn [v, w] = .bool b ∧ (b = true ↔ R v w)

/-- What is left of removed rules for `sub`, `obj` and `act`; `more` are the fields behind these three.  An empty
action goes, and a rule that goes with the subject and the object has been seen, but no rule with the same two fields is
stored.  (Or no rule has been seen at all, and empty fields go.) -/
def Trace (A B C : Str → Str → Prop) (H : Rule → Prop) (rules : List Rule) (sub obj act : Str) : Prop :=
  C act [] ∧ (((∀ r, ¬ H r) ∧ A sub [] ∧ B obj []) ∨
    ∃ a b, A sub a ∧ B obj b ∧ (∃ more, H (a :: b :: more)) ∧ ¬ ∃ more, a :: b :: more ∈ rules)

/-- The definitions of a model. -/
structure Defined (s : FnModel) (rText pText eff : Str) (rArgs pArgs : List Str) : Prop where
  r : s.model.rDefs.get (s% "r") = some rText
  p : s.model.pDefs.get (s% "p") = some (newPolicyDef (s% "p") pText)
  e : s.model.eDefs.get (s% "e") = some eff
  free : ∀ x ∈ rArgs, s.functions (qual (s% "r") x) = none
  free' : ∀ x ∈ pArgs, s.functions (qual (s% "p") x) = none

theorem column_name (x : Str) (f : Option Str) : (column x f).name = x := by
  cases f <;> rfl

theorem column_written {rArgs pArgs : List Str} {s : FnModel} {ok : Str → Prop} {R : Str → Str → Prop} {x : Str}
    {f : Option Str} (h : Tests s ok R f) (hr : x ∈ rArgs) (hp : x ∈ pArgs) : (column x f).Written rArgs pArgs := by
  cases f with
  | none => exact ⟨⟨hr, hp⟩, by rintro _ _ _ ⟨⟩⟩
  | some f =>
    refine ⟨⟨by simp, ?_, h.1, h.2.1⟩, ?_⟩
    · intro a ha
      simp only [List.map_nil, List.mem_cons, List.not_mem_nil, or_false] at ha
      rcases ha with rfl | rfl
      · exact hr
      · exact hp
    · rintro _ _ _ ⟨⟩
      exact h.2.2.1

theorem column_compares {rArgs rvals : List Str} {s : FnModel} {ok : Str → Prop} {R : Str → Str → Prop} (x : Str)
    {f : Option Str} (h : Tests s ok R f) : (column x f).Compares s rArgs rvals ok R := by
  cases f with
  | none => exact h
  | some f =>
    obtain ⟨-, -, -, fn, e, hfn⟩ := h
    exact ⟨fn, [], e, rfl, fun v w _ => hfn v w⟩

/-- `A`, `B`, `C` as a function of the column. -/
def rel {α : Type} (A B C : α) (c : Column) : α :=
  if c.name = s% "sub" then A else if c.name = s% "obj" then B else C

theorem rel_sub {α : Type} (A B C : α) (f : Option Str) : rel A B C (column (s% "sub") f) = A := by
  unfold rel; rw [column_name, if_pos rfl]
theorem rel_obj {α : Type} (A B C : α) (f : Option Str) : rel A B C (column (s% "obj") f) = B := by
  unfold rel; rw [column_name, if_neg (by decide), if_pos rfl]
theorem rel_act {α : Type} (A B C : α) (f : Option Str) : rel A B C (column (s% "act") f) = C := by
  unfold rel; rw [column_name, if_neg (by decide), if_neg (by decide)]

theorem agrees_at {R : Column → Str → Str → Prop} {rArgs pArgs rvals : List Str} {rule : Rule} {c : Column} {v w : Str}
    (h1 : attr rArgs rvals c.name = some v) (h2 : attr pArgs rule c.name = some w) :
    c.Agrees R rArgs pArgs rvals rule ↔ R c v w := by
  constructor
  · rintro ⟨v', w', e1, e2, h⟩
    rw [h1] at e1; rw [h2] at e2
    cases e1; cases e2
    exact h
  · intro h; exact ⟨v, w, h1, h2, h⟩

/-- The matcher with the three conditions. -/
def matcher (f g h : Option Str) : List (List Cond) :=
  Column.matcher [column (s% "sub") f, column (s% "obj") g, column (s% "act") h]

section

variable {pArgs : List Str} (hpa : pArgs = args ∨ pArgs = args ++ [s% "eft"])

include hpa

theorem split_rule {r : Rule} (h : r.length = pArgs.length) : ∃ a b c more, r = a :: b :: c :: more := by
  have : 3 ≤ r.length := by rcases hpa with rfl | rfl <;> (rw [h]; decide)
  match r, this with
  | a :: b :: c :: more, _ => exact ⟨a, b, c, more, rfl⟩

theorem attr_three (a b c : Str) (more : Rule) :
    attr pArgs (a :: b :: c :: more) (s% "sub") = some a ∧ attr pArgs (a :: b :: c :: more) (s% "obj") = some b ∧
      attr pArgs (a :: b :: c :: more) (s% "act") = some c := by
  rcases hpa with rfl | rfl <;> exact ⟨rfl, rfl, rfl⟩

theorem blank_three : ∃ more, List.replicate pArgs.length ([] : Str) = [] :: [] :: [] :: more := by
  rcases hpa with rfl | rfl
  · exact ⟨[], rfl⟩
  · exact ⟨[[]], rfl⟩

end

/-- **C85** for the models with `r = sub, obj, act`, `p = sub, obj, act` or `p = sub, obj, act, eft`, and a matcher that
compares subject, object and action, in this order. -/
theorem c85_three (build : FnBuild) (u : Str → Res Stage) (hc : build.Coherent u)
    (hbin : ∀ e s, u e = .ok s → s.Binary) (grow : Nat → Nat) (fs fo fa : Option Str) (root : Stage)
    (hroot : buildMatcherDef grow (Cond.formula (s% "r") (s% "p") (matcher fs fo fa)).toks = .ok root)
    (H : Rule → Prop) (s : FnModel) (h : FnModel.FnSeen build (s% "m") root H s)
    (pText eff : Str) (pArgs : List Str) (hpa : pArgs = args ∨ pArgs = args ++ [s% "eft"])
    (hpt : (newPolicyDef (s% "p") pText).args = pArgs) (D : Defined s (s% "sub, obj, act") pText eff args pArgs)
    (A B C : Str → Str → Prop) (okA okB okC : Str → Prop)
    (hA : Tests s okA A fs) (hB : Tests s okB B fo) (hC : Tests s okC C fa)
    (h0 : okA [] ∧ okB [] ∧ okC [])
    (hH : ∀ a b c more, H (a :: b :: c :: more) → (a :: b :: c :: more).length = pArgs.length → okA a ∧ okB b ∧ okC c)
    (gov : Gov) (hgov : gov.Ok) (hsc : gov.Scoped) (sub obj act : Str)
    (hdet : eff = SOME_ALLOW_NO_DENY → ∀ rules, s.model.policyRules (s% "p") = some rules → ∀ r ∈ rules,
      effectOf pArgs r ≠ .indeterminate)
    (ord : Order) (hord : ord.Valid) (depth : Nat) (hdep : 0 < depth) :
    ∃ rules answer, s.model.policyRules (s% "p") = some rules ∧ (∀ r ∈ rules, H r) ∧
      (∀ r, H r → r.length = pArgs.length) ∧
      (s.enforce build gov depth ord ([sub, obj, act].map .val)).2 = .ok answer ∧
      (eff = SOME_ALLOW → (answer = true ↔
        (∃ a b c more, a :: b :: c :: more ∈ rules ∧ A sub a ∧ B obj b ∧ C act c ∧
          effectOf pArgs (a :: b :: c :: more) = .allow) ∨ Trace A B C H rules sub obj act)) ∧
      (eff = NO_DENY → (answer = true ↔
        ¬ ∃ a b c more, a :: b :: c :: more ∈ rules ∧ A sub a ∧ B obj b ∧ C act c ∧
          effectOf pArgs (a :: b :: c :: more) = .deny)) ∧
      (eff = SOME_ALLOW_NO_DENY → (answer = true ↔
        ((∃ a b c more, a :: b :: c :: more ∈ rules ∧ A sub a ∧ B obj b ∧ C act c ∧
          effectOf pArgs (a :: b :: c :: more) = .allow) ∨ Trace A B C H rules sub obj act) ∧
        ¬ ∃ a b c more, a :: b :: c :: more ∈ rules ∧ A sub a ∧ B obj b ∧ C act c ∧
          effectOf pArgs (a :: b :: c :: more) = .deny)) := by
  have hin : ∀ x ∈ args, x ∈ pArgs := by
    rcases hpa with rfl | rfl
    · exact fun x hx => hx
    · exact fun x hx => List.mem_append_left _ hx
  have hN : Naming s.functions (s% "r") (s% "p") args pArgs := by
    refine ⟨writable_of (by decide) (by decide +kernel) D.free, ?_, rfl, 'p', [], rfl, .inl rfl, by decide⟩
    rcases hpa with rfl | rfl
    · exact writable_of (by decide) (by decide +kernel) D.free'
    · exact writable_of (by decide) (by decide +kernel) D.free'
  have hcols : ∀ c ∈ [column (s% "sub") fs, column (s% "obj") fo] ++ [column (s% "act") fa],
      c = column (s% "sub") fs ∨ c = column (s% "obj") fo ∨ c = column (s% "act") fa := by
    intro c hm; simpa using hm
  have hblank := blank_three hpa
  obtain ⟨rules, answer, h1, hst, hlen, -, h3, v1, v2, v3⟩ := c85_columns build u hc hbin grow (s% "r") (s% "m") (s% "e")
    (s% "p") (s% "sub, obj, act") eff args pArgs [column (s% "sub") fs, column (s% "obj") fo] (column (s% "act") fa) root
    hroot H s h (by decide) (by decide) D.r (by decide) _ D.p hpt D.e gov hgov hsc hN [sub, obj, act] rfl
    (rel okA okB okC) (rel A B C)
    (by
      intro c hm
      rcases hcols c hm with rfl | rfl | rfl
      · exact column_written hA (by decide) (hin _ (by decide))
      · exact column_written hB (by decide) (hin _ (by decide))
      · exact column_written hC (by decide) (hin _ (by decide)))
    (by
      intro c hm
      rcases hcols c hm with rfl | rfl | rfl
      · rw [rel_sub, rel_sub]; exact column_compares _ hA
      · rw [rel_obj, rel_obj]; exact column_compares _ hB
      · rw [rel_act, rel_act]; exact column_compares _ hC)
    (by
      intro c hm
      rcases hcols c hm with rfl | rfl | rfl
      · rw [rel_sub]; exact h0.1
      · rw [rel_obj]; exact h0.2.1
      · rw [rel_act]; exact h0.2.2)
    (by
      intro r hr hl c hm w hw
      obtain ⟨x, y, z, more, rfl⟩ := split_rule hpa hl
      obtain ⟨e1, e2, e3⟩ := attr_three hpa x y z more
      obtain ⟨o1, o2, o3⟩ := hH _ _ _ _ hr hl
      rcases hcols c hm with rfl | rfl | rfl
      · rw [column_name, e1] at hw; cases hw; rw [rel_sub]; exact o1
      · rw [column_name, e2] at hw; cases hw; rw [rel_obj]; exact o2
      · rw [column_name, e3] at hw; cases hw; rw [rel_act]; exact o3)
    hdet ord hord depth hdep
  have q1 : attr args [sub, obj, act] (s% "sub") = some sub := rfl
  have q2 : attr args [sub, obj, act] (s% "obj") = some obj := rfl
  have q3 : attr args [sub, obj, act] (s% "act") = some act := rfl
  have g1 : ∀ a b c more, (column (s% "sub") fs).Agrees (rel A B C) args pArgs [sub, obj, act] (a :: b :: c :: more) ↔
      A sub a := by
    intro a b c more
    rw [agrees_at (by rw [column_name]; exact q1) (by rw [column_name]; exact (attr_three hpa a b c more).1), rel_sub]
  have g2 : ∀ a b c more, (column (s% "obj") fo).Agrees (rel A B C) args pArgs [sub, obj, act] (a :: b :: c :: more) ↔
      B obj b := by
    intro a b c more
    rw [agrees_at (by rw [column_name]; exact q2) (by rw [column_name]; exact (attr_three hpa a b c more).2.1), rel_obj]
  have g3 : ∀ a b c more, (column (s% "act") fa).Agrees (rel A B C) args pArgs [sub, obj, act] (a :: b :: c :: more) ↔
      C act c := by
    intro a b c more
    rw [agrees_at (by rw [column_name]; exact q3) (by rw [column_name]; exact (attr_three hpa a b c more).2.2), rel_act]
  have hE : ∀ e, (∃ r ∈ rules, (∀ c ∈ [column (s% "sub") fs, column (s% "obj") fo] ++ [column (s% "act") fa],
      c.Agrees (rel A B C) args pArgs [sub, obj, act] r) ∧ effectOf pArgs r = e) ↔
      ∃ a b c more, a :: b :: c :: more ∈ rules ∧ A sub a ∧ B obj b ∧ C act c ∧
        effectOf pArgs (a :: b :: c :: more) = e := by
    intro e
    constructor
    · rintro ⟨r, hr, hall, he⟩
      obtain ⟨a, b, c, more, rfl⟩ := split_rule hpa (hlen _ (hst _ hr))
      exact ⟨a, b, c, more, hr, (g1 a b c more).1 (hall _ (by simp)), (g2 a b c more).1 (hall _ (by simp)),
        (g3 a b c more).1 (hall _ (by simp)), he⟩
    · rintro ⟨a, b, c, more, hr, ha, hb, hc', he⟩
      refine ⟨_, hr, ?_, he⟩
      intro k hk
      rcases hcols k hk with rfl | rfl | rfl
      · exact (g1 a b c more).2 ha
      · exact (g2 a b c more).2 hb
      · exact (g3 a b c more).2 hc'
  have hT : Column.Trace (rel A B C) args pArgs [sub, obj, act] H rules [column (s% "sub") fs, column (s% "obj") fo]
      (column (s% "act") fa) ↔ Trace A B C H rules sub obj act := by
    obtain ⟨tail, ht⟩ := hblank
    unfold Column.Trace Trace
    rw [ht, g3]
    simp only [List.forall_mem_cons, List.not_mem_nil, false_implies, implies_true, and_true, g1, g2, column_name]
    refine and_congr_right (fun _ => or_congr Iff.rfl ?_)
    constructor
    · rintro ⟨seen, hs1, ⟨hs2, hs3⟩, hno⟩
      obtain ⟨a, b, c, more, rfl⟩ := split_rule hpa (hlen _ hs1)
      refine ⟨a, b, (g1 ..).1 hs2, (g2 ..).1 hs3, ⟨_, hs1⟩, ?_⟩
      rintro ⟨more', hm⟩
      obtain ⟨a', b', c', m', e⟩ := split_rule hpa (hlen _ (hst _ hm))
      cases e
      obtain ⟨e1, e2, -⟩ := attr_three hpa a b c more
      obtain ⟨e1', e2', -⟩ := attr_three hpa a b c' m'
      exact hno ⟨_, hm, by rw [e1, e1'], by rw [e2, e2']⟩
    · rintro ⟨a, b, ha, hb, ⟨more, hm⟩, hno⟩
      obtain ⟨a', b', c, more', e⟩ := split_rule hpa (hlen _ hm)
      cases e
      refine ⟨_, hm, ⟨(g1 ..).2 ha, (g2 ..).2 hb⟩, ?_⟩
      rintro ⟨r, hr, t1, t2⟩
      obtain ⟨a', b', c', m', rfl⟩ := split_rule hpa (hlen _ (hst _ hr))
      obtain ⟨e1, e2, -⟩ := attr_three hpa a b c more'
      obtain ⟨e1', e2', -⟩ := attr_three hpa a' b' c' m'
      rw [e1, e1'] at t1
      rw [e2, e2'] at t2
      cases t1; cases t2
      exact hno ⟨_, hr⟩
  simp only [hE, hT] at v1 v2 v3
  exact ⟨rules, answer, h1, hst, hlen, h3 rfl rfl rfl, v1, v2, v3⟩

/-! ## The conditions -/

theorem tests_same (s : FnModel) : Tests s (fun _ => True) (fun v w => v = w) none := fun _ _ => Iff.rfl

/-- A role definition with two arguments compares by its roles. -/
theorem tests_roles {build : FnBuild} {s : FnModel} {key : Str} (hg : key.head? = some 'g') (hi : isIdent key)
    (hn : ∀ u v, key = u ++ v → ¬ IsPolicyRef v) (g : PatternRules.Roles)
    (h : FnModel.RolesAre build key s g.level g.pm g.links g.names) : Tests s (fun _ => True) g.has (some key) := by
  obtain ⟨_, fn, -, -, e, hfn⟩ := FnModel.c80_roles build key hg s _ _ _ _ h
  refine ⟨hi, hn, (by rintro rfl; cases hg), fn, e, fun v w _ => ?_⟩
  exact hfn v w []

/-- `regexMatch`, as long as it is the built-in function. -/
theorem tests_regex (std : StdLib) {s : FnModel}
    (h : s.functions (s% "regexMatch") = (FnModel.new std []).functions (s% "regexMatch")) :
    Tests s (fun re => ∀ x, std.regex x re ≠ none) (fun x re => std.regex x re = some true) (some (s% "regexMatch")) := by
  obtain ⟨_, _, f3, _, _, -, -, e3, -, -, -, -, h3, -⟩ := c78_functions std
  refine ⟨by decide, noTailRef_iff (by decide), by decide, f3, h.trans e3, fun v w hok => ?_⟩
  rw [(h3 v w).1]
  cases hx : std.regex v w with
  | none => exact absurd hx (hok v)
  | some b => exact ⟨b, rfl, by simp [hx]⟩

/-- `globMatch`, as long as it is the built-in function. -/
theorem tests_glob (std : StdLib) {s : FnModel}
    (h : s.functions (s% "globMatch") = (FnModel.new std []).functions (s% "globMatch")) :
    Tests s (fun pat => ∀ x, std.glob x pat ≠ none) (fun x pat => std.glob x pat = some true) (some (s% "globMatch")) := by
  obtain ⟨_, _, _, _, f5, -, -, -, -, e5, -, -, h5, -⟩ := c78_functions std
  refine ⟨by decide, noTailRef_iff (by decide), by decide, f5, h.trans e5, fun v w hok => ?_⟩
  rw [(h5 v w).2.2]
  cases hx : std.glob v w with
  | none => exact absurd hx (hok v)
  | some b => exact ⟨b, rfl, by simp [hx]⟩

theorem allow_three (r : Rule) : effectOf args r = .allow := by
  unfold effectOf attr
  rw [if_neg (by decide)]

theorem effect_four (a b c e : Str) :
    (effectOf (args ++ [s% "eft"]) [a, b, c, e] = .allow ↔ e = [] ∨ e = s% "allow") ∧
    (effectOf (args ++ [s% "eft"]) [a, b, c, e] = .deny ↔ e = s% "deny") := by
  have h : effectOf (args ++ [s% "eft"]) [a, b, c, e] =
      if e = [] ∨ e = s% "allow" then .allow else if e = s% "deny" then .deny else .indeterminate := rfl
  rw [h]
  by_cases h1 : e = [] ∨ e = s% "allow"
  · rw [if_pos h1]
    refine ⟨⟨fun _ => h1, fun _ => rfl⟩, ⟨by rintro ⟨⟩, ?_⟩⟩
    rintro rfl
    exact absurd h1 (by decide)
  · rw [if_neg h1]
    by_cases h2 : e = s% "deny"
    · rw [if_pos h2]
      exact ⟨⟨by rintro ⟨⟩, fun h => absurd h h1⟩, ⟨fun _ => h2, fun _ => rfl⟩⟩
    · rw [if_neg h2]
      exact ⟨⟨by rintro ⟨⟩, fun h => absurd h h1⟩, ⟨by rintro ⟨⟩, fun h => absurd h h2⟩⟩

/-- Rules with three fields. -/
theorem rows_three {rules : List Rule} (hl : ∀ r ∈ rules, r.length = 3) (A B C : Str → Str → Prop) (sub obj act : Str) :
    (∃ a b c more, a :: b :: c :: more ∈ rules ∧ A sub a ∧ B obj b ∧ C act c ∧
      effectOf args (a :: b :: c :: more) = .allow) ↔ ∃ a b c, [a, b, c] ∈ rules ∧ A sub a ∧ B obj b ∧ C act c := by
  constructor
  · rintro ⟨a, b, c, more, hm, h⟩
    have : more = [] := by
      have := hl _ hm
      simpa using this
    subst this
    exact ⟨a, b, c, hm, h.1, h.2.1, h.2.2.1⟩
  · rintro ⟨a, b, c, hm, h⟩
    exact ⟨a, b, c, [], hm, h.1, h.2.1, h.2.2, allow_three _⟩

/-- Rules with four fields. -/
theorem rows_four {rules : List Rule} (hl : ∀ r ∈ rules, r.length = 4) (A B C : Str → Str → Prop) (sub obj act : Str)
    (q : Effect) :
    (∃ a b c more, a :: b :: c :: more ∈ rules ∧ A sub a ∧ B obj b ∧ C act c ∧
      effectOf (args ++ [s% "eft"]) (a :: b :: c :: more) = q) ↔
    ∃ a b c e, [a, b, c, e] ∈ rules ∧ A sub a ∧ B obj b ∧ C act c ∧ effectOf (args ++ [s% "eft"]) [a, b, c, e] = q := by
  constructor
  · rintro ⟨a, b, c, more, hm, h⟩
    have : more.length = 1 := by
      have := hl _ hm
      simpa using this
    match more, this with
    | [e], _ => exact ⟨a, b, c, e, hm, h⟩
  · rintro ⟨a, b, c, e, hm, h⟩
    exact ⟨a, b, c, [e], hm, h⟩

/-! ## The models -/

section

variable (build : FnBuild) (u : Str → Res Stage) (hc : build.Coherent u) (hbin : ∀ e s, u e = .ok s → s.Binary)
  (grow : Nat → Nat) (root : Stage) (H : Rule → Prop) (s : FnModel) (h : FnModel.FnSeen build (s% "m") root H s)
  (gov : Gov) (hgov : gov.Ok) (hsc : gov.Scoped) (sub obj act : Str) (ord : Order) (hord : ord.Valid)
  (depth : Nat) (hdep : 0 < depth)

include hc hbin h hgov hsc hord hdep

/-- **C85**, the models with `p = sub, obj, act` and `some(where (p.eft == allow))`. -/
theorem c85_allow (fs fo fa : Option Str)
    (hroot : buildMatcherDef grow (Cond.formula (s% "r") (s% "p") (matcher fs fo fa)).toks = .ok root)
    (D : Defined s (s% "sub, obj, act") (s% "sub, obj, act") SOME_ALLOW args args)
    (A B C : Str → Str → Prop) (okA okB okC : Str → Prop)
    (hA : Tests s okA A fs) (hB : Tests s okB B fo) (hC : Tests s okC C fa)
    (h0 : okA [] ∧ okB [] ∧ okC []) (hH : ∀ a b c, H [a, b, c] → okA a ∧ okB b ∧ okC c) :
    ∃ rules answer, s.model.policyRules (s% "p") = some rules ∧
      (s.enforce build gov depth ord ([sub, obj, act].map .val)).2 = .ok answer ∧
      (answer = true ↔ (∃ a b c, [a, b, c] ∈ rules ∧ A sub a ∧ B obj b ∧ C act c) ∨ Trace A B C H rules sub obj act) := by
  obtain ⟨rules, answer, h1, hst, hlen, h3, v1, -, -⟩ := c85_three build u hc hbin grow fs fo fa root hroot H s h
    (s% "sub, obj, act") SOME_ALLOW args (.inl rfl) (by decide +kernel) D A B C okA okB okC hA hB hC h0
    (by
      intro a b c more hr hl
      have : more = [] := by simpa [args] using hl
      subst this
      exact hH a b c hr)
    gov hgov hsc sub obj act (fun e => absurd e (by decide)) ord hord depth hdep
  refine ⟨rules, answer, h1, h3, ?_⟩
  rw [v1 rfl, rows_three (fun r hr => hlen r (hst r hr))]

/-- **C85**, the models with `p = sub, obj, act, eft` and one of the two effects about `deny`. -/
theorem c85_deny (fs fo fa : Option Str) (eff : Str)
    (hroot : buildMatcherDef grow (Cond.formula (s% "r") (s% "p") (matcher fs fo fa)).toks = .ok root)
    (D : Defined s (s% "sub, obj, act") (s% "sub, obj, act, eft") eff args (args ++ [s% "eft"]))
    (A B C : Str → Str → Prop) (okA okB okC : Str → Prop)
    (hA : Tests s okA A fs) (hB : Tests s okB B fo) (hC : Tests s okC C fa)
    (h0 : okA [] ∧ okB [] ∧ okC []) (hH : ∀ a b c e, H [a, b, c, e] → okA a ∧ okB b ∧ okC c)
    (hdet : eff = SOME_ALLOW_NO_DENY → ∀ rules, s.model.policyRules (s% "p") = some rules →
      ∀ r ∈ rules, ∀ e, r[3]? = some e → e = [] ∨ e = s% "allow" ∨ e = s% "deny") :
    ∃ rules answer, s.model.policyRules (s% "p") = some rules ∧
      (s.enforce build gov depth ord ([sub, obj, act].map .val)).2 = .ok answer ∧
      (eff = NO_DENY → (answer = true ↔
        ¬ ∃ a b c, [a, b, c, s% "deny"] ∈ rules ∧ A sub a ∧ B obj b ∧ C act c)) ∧
      (eff = SOME_ALLOW_NO_DENY → (answer = true ↔
        ((∃ a b c e, [a, b, c, e] ∈ rules ∧ A sub a ∧ B obj b ∧ C act c ∧ (e = [] ∨ e = s% "allow")) ∨
          Trace A B C H rules sub obj act) ∧
        ¬ ∃ a b c, [a, b, c, s% "deny"] ∈ rules ∧ A sub a ∧ B obj b ∧ C act c)) := by
  obtain ⟨rules, answer, h1, hst, hlen, h3, -, v2, v3⟩ := c85_three build u hc hbin grow fs fo fa root hroot H s h
    (s% "sub, obj, act, eft") eff (args ++ [s% "eft"]) (.inr rfl) (by decide +kernel) D A B C okA okB okC hA hB hC h0
    (by
      intro a b c more hr hl
      have : more.length = 1 := by simpa [args] using hl
      match more, this with
      | [e], _ => exact hH a b c e hr)
    gov hgov hsc sub obj act
    (by
      intro he rules hr r hm
      have e4 : attr (args ++ [s% "eft"]) r (s% "eft") = r[3]? := rfl
      unfold effectOf
      rw [e4]
      cases hx : r[3]? with
      | none => simp
      | some e => rcases hdet he rules hr r hm e hx with rfl | rfl | rfl <;> decide) ord hord depth hdep
  have hl4 : ∀ r ∈ rules, r.length = 4 := fun r hr => hlen r (hst r hr)
  have hdeny : (∃ a b c e, [a, b, c, e] ∈ rules ∧ A sub a ∧ B obj b ∧ C act c ∧
      effectOf (args ++ [s% "eft"]) [a, b, c, e] = .deny) ↔
      ∃ a b c, [a, b, c, s% "deny"] ∈ rules ∧ A sub a ∧ B obj b ∧ C act c := by
    simp only [(effect_four _ _ _ _).2]
    constructor
    · rintro ⟨a, b, c, e, hm, x, y, z, rfl⟩; exact ⟨a, b, c, hm, x, y, z⟩
    · rintro ⟨a, b, c, hm, x, y, z⟩; exact ⟨a, b, c, _, hm, x, y, z, rfl⟩
  refine ⟨rules, answer, h1, h3, ?_, ?_⟩
  · intro e
    rw [v2 e, rows_four hl4, hdeny]
  · intro e
    rw [v3 e, rows_four hl4, rows_four hl4, hdeny]
    simp only [(effect_four _ _ _ _).1]

/-- **C85**, examples/rbac_model.conf: `g(r.sub, p.sub) && r.obj == p.obj && r.act == p.act` -/
theorem c85_rbac
    (hroot : buildMatcherDef grow (Cond.formula (s% "r") (s% "p") (matcher (some (s% "g")) none none)).toks = .ok root)
    (D : Defined s (s% "sub, obj, act") (s% "sub, obj, act") SOME_ALLOW args args)
    (g : PatternRules.Roles) (hg : FnModel.RolesAre build (s% "g") s g.level g.pm g.links g.names) :
    ∃ rules answer, s.model.policyRules (s% "p") = some rules ∧
      (s.enforce build gov depth ord ([sub, obj, act].map .val)).2 = .ok answer ∧
      (answer = true ↔ (∃ role, [role, obj, act] ∈ rules ∧ g.has sub role) ∨ Trace g.has Eq Eq H rules sub obj act) := by
  obtain ⟨rules, answer, h1, h2, h3⟩ := c85_allow build u hc hbin grow root H s h gov hgov hsc sub obj act ord hord depth
    hdep _ _ _ hroot D g.has Eq Eq _ _ _ (tests_roles rfl (by decide) (noTailRef_iff (by decide)) g hg) (tests_same s)
    (tests_same s) ⟨trivial, trivial, trivial⟩ (fun _ _ _ _ => ⟨trivial, trivial, trivial⟩)
  refine ⟨rules, answer, h1, h2, h3.trans (or_congr ?_ Iff.rfl)⟩
  constructor
  · rintro ⟨a, _, _, hm, ha, rfl, rfl⟩; exact ⟨a, hm, ha⟩
  · rintro ⟨a, hm, ha⟩; exact ⟨a, _, _, hm, ha, rfl, rfl⟩

/-- **C85**, examples/rbac_with_resource_roles_model.conf:
`g(r.sub, p.sub) && g2(r.obj, p.obj) && r.act == p.act` -/
theorem c85_resource_roles
    (hroot : buildMatcherDef grow
      (Cond.formula (s% "r") (s% "p") (matcher (some (s% "g")) (some (s% "g2")) none)).toks = .ok root)
    (D : Defined s (s% "sub, obj, act") (s% "sub, obj, act") SOME_ALLOW args args)
    (g : PatternRules.Roles) (hg : FnModel.RolesAre build (s% "g") s g.level g.pm g.links g.names)
    (g2 : PatternRules.Roles) (hg2 : FnModel.RolesAre build (s% "g2") s g2.level g2.pm g2.links g2.names) :
    ∃ rules answer, s.model.policyRules (s% "p") = some rules ∧
      (s.enforce build gov depth ord ([sub, obj, act].map .val)).2 = .ok answer ∧
      (answer = true ↔ (∃ role res, [role, res, act] ∈ rules ∧ g.has sub role ∧ g2.has obj res) ∨
        Trace g.has g2.has Eq H rules sub obj act) := by
  obtain ⟨rules, answer, h1, h2, h3⟩ := c85_allow build u hc hbin grow root H s h gov hgov hsc sub obj act ord hord depth
    hdep _ _ _ hroot D g.has g2.has Eq _ _ _ (tests_roles rfl (by decide) (noTailRef_iff (by decide)) g hg)
    (tests_roles rfl (by decide) (noTailRef_iff (by decide)) g2 hg2)
    (tests_same s) ⟨trivial, trivial, trivial⟩ (fun _ _ _ _ => ⟨trivial, trivial, trivial⟩)
  refine ⟨rules, answer, h1, h2, h3.trans (or_congr ?_ Iff.rfl)⟩
  constructor
  · rintro ⟨a, b, _, hm, ha, hb, rfl⟩; exact ⟨a, b, hm, ha, hb⟩
  · rintro ⟨a, b, hm, ha, hb⟩; exact ⟨a, b, _, hm, ha, hb, rfl⟩

/-- **C85**, examples/rbac_with_pattern_model.conf:
`g(r.sub, p.sub) && g2(r.obj, p.obj) && regexMatch(r.act, p.act)` -/
theorem c85_patterns (std : StdLib)
    (hroot : buildMatcherDef grow
      (Cond.formula (s% "r") (s% "p") (matcher (some (s% "g")) (some (s% "g2")) (some (s% "regexMatch")))).toks =
        .ok root)
    (D : Defined s (s% "sub, obj, act") (s% "sub, obj, act") SOME_ALLOW args args)
    (hre : s.functions (s% "regexMatch") = (FnModel.new std []).functions (s% "regexMatch"))
    (g : PatternRules.Roles) (hg : FnModel.RolesAre build (s% "g") s g.level g.pm g.links g.names)
    (g2 : PatternRules.Roles) (hg2 : FnModel.RolesAre build (s% "g2") s g2.level g2.pm g2.links g2.names)
    (h0 : ∀ x, std.regex x [] ≠ none) (hH : ∀ a b re, H [a, b, re] → ∀ x, std.regex x re ≠ none) :
    ∃ rules answer, s.model.policyRules (s% "p") = some rules ∧
      (s.enforce build gov depth ord ([sub, obj, act].map .val)).2 = .ok answer ∧
      (answer = true ↔
        (∃ role res re, [role, res, re] ∈ rules ∧ g.has sub role ∧ g2.has obj res ∧ std.regex act re = some true) ∨
        Trace g.has g2.has (fun x re => std.regex x re = some true) H rules sub obj act) :=
  c85_allow build u hc hbin grow root H s h gov hgov hsc sub obj act ord hord depth
    hdep _ _ _ hroot D g.has g2.has _ _ _ _ (tests_roles rfl (by decide) (noTailRef_iff (by decide)) g hg)
    (tests_roles rfl (by decide) (noTailRef_iff (by decide)) g2 hg2)
    (tests_regex std hre) ⟨trivial, trivial, h0⟩ (fun a b c hr => ⟨trivial, trivial, hH a b c hr⟩)

/-- **C85**, examples/glob_model.conf: `r.sub == p.sub && globMatch(r.obj, p.obj) && r.act == p.act` -/
theorem c85_glob (std : StdLib)
    (hroot : buildMatcherDef grow
      (Cond.formula (s% "r") (s% "p") (matcher none (some (s% "globMatch")) none)).toks = .ok root)
    (D : Defined s (s% "sub, obj, act") (s% "sub, obj, act") SOME_ALLOW args args)
    (hgl : s.functions (s% "globMatch") = (FnModel.new std []).functions (s% "globMatch"))
    (h0 : ∀ x, std.glob x [] ≠ none) (hH : ∀ a pat c, H [a, pat, c] → ∀ x, std.glob x pat ≠ none) :
    ∃ rules answer, s.model.policyRules (s% "p") = some rules ∧
      (s.enforce build gov depth ord ([sub, obj, act].map .val)).2 = .ok answer ∧
      (answer = true ↔ (∃ pat, [sub, pat, act] ∈ rules ∧ std.glob obj pat = some true) ∨
        Trace Eq (fun x pat => std.glob x pat = some true) Eq H rules sub obj act) := by
  obtain ⟨rules, answer, h1, h2, h3⟩ := c85_allow build u hc hbin grow root H s h gov hgov hsc sub obj act ord hord depth
    hdep _ _ _ hroot D Eq _ Eq _ _ _ (tests_same s) (tests_glob std hgl) (tests_same s) ⟨trivial, h0, trivial⟩
    (fun a b c hr => ⟨trivial, hH a b c hr, trivial⟩)
  refine ⟨rules, answer, h1, h2, h3.trans (or_congr ?_ Iff.rfl)⟩
  constructor
  · rintro ⟨_, b, _, hm, rfl, hb, rfl⟩; exact ⟨b, hm, hb⟩
  · rintro ⟨b, hm, hb⟩; exact ⟨_, b, _, hm, rfl, hb, rfl⟩

/-- **C85**, examples/keymatch_custom_model.conf:
`r.sub == p.sub && keyMatchCustom(r.obj, p.obj) && regexMatch(r.act, p.act)`, for any function the user has set under
the name `keyMatchCustom` which answers with true or false. -/
theorem c85_custom (std : StdLib)
    (hroot : buildMatcherDef grow
      (Cond.formula (s% "r") (s% "p") (matcher none (some (s% "keyMatchCustom")) (some (s% "regexMatch")))).toks =
        .ok root)
    (D : Defined s (s% "sub, obj, act") (s% "sub, obj, act") SOME_ALLOW args args)
    (fn : List Str → EvalRes) (hfn : s.functions (s% "keyMatchCustom") = some fn) (says : Str → Str → Bool)
    (hsays : ∀ x y, fn [x, y] = .bool (says x y))
    (hre : s.functions (s% "regexMatch") = (FnModel.new std []).functions (s% "regexMatch"))
    (h0 : ∀ x, std.regex x [] ≠ none) (hH : ∀ a b re, H [a, b, re] → ∀ x, std.regex x re ≠ none) :
    ∃ rules answer, s.model.policyRules (s% "p") = some rules ∧
      (s.enforce build gov depth ord ([sub, obj, act].map .val)).2 = .ok answer ∧
      (answer = true ↔
        (∃ key re, [sub, key, re] ∈ rules ∧ says obj key = true ∧ std.regex act re = some true) ∨
        Trace Eq (fun x key => says x key = true) (fun x re => std.regex x re = some true) H rules sub obj act) := by
  obtain ⟨rules, answer, h1, h2, h3⟩ := c85_allow build u hc hbin grow root H s h gov hgov hsc sub obj act ord hord depth
    hdep _ _ _ hroot D Eq (fun x key => says x key = true) _ _ (fun _ => True) _ (tests_same s)
    ⟨by decide, noTailRef_iff (by decide), by decide, fn, hfn, fun v w _ => ⟨_, hsays v w, Iff.rfl⟩⟩
    (tests_regex std hre) ⟨trivial, trivial, h0⟩ (fun a b c hr => ⟨trivial, trivial, hH a b c hr⟩)
  refine ⟨rules, answer, h1, h2, h3.trans (or_congr ?_ Iff.rfl)⟩
  constructor
  · rintro ⟨_, b, c, hm, rfl, hb, hc'⟩; exact ⟨b, c, hm, hb, hc'⟩
  · rintro ⟨b, c, hm, hb, hc'⟩; exact ⟨_, b, c, hm, rfl, hb, hc'⟩

/-- **C85**, examples/rbac_with_not_deny_model.conf: `p = sub, obj, act, eft`,
`g(r.sub, p.sub) && r.obj == p.obj && r.act == p.act`, `!some(where (p.eft == deny))`.  What is left of removed rules
does not matter here. -/
theorem c85_not_deny
    (hroot : buildMatcherDef grow (Cond.formula (s% "r") (s% "p") (matcher (some (s% "g")) none none)).toks = .ok root)
    (D : Defined s (s% "sub, obj, act") (s% "sub, obj, act, eft") NO_DENY args (args ++ [s% "eft"]))
    (g : PatternRules.Roles) (hg : FnModel.RolesAre build (s% "g") s g.level g.pm g.links g.names) :
    ∃ rules answer, s.model.policyRules (s% "p") = some rules ∧
      (s.enforce build gov depth ord ([sub, obj, act].map .val)).2 = .ok answer ∧
      (answer = true ↔ ¬ ∃ role, [role, obj, act, s% "deny"] ∈ rules ∧ g.has sub role) := by
  obtain ⟨rules, answer, h1, h2, h3, -⟩ := c85_deny build u hc hbin grow root H s h gov hgov hsc sub obj act ord hord depth
    hdep _ _ _ _ hroot D g.has Eq Eq _ _ _ (tests_roles rfl (by decide) (noTailRef_iff (by decide)) g hg) (tests_same s)
    (tests_same s) ⟨trivial, trivial, trivial⟩ (fun _ _ _ _ _ => ⟨trivial, trivial, trivial⟩)
    (fun e => absurd e (by decide))
  refine ⟨rules, answer, h1, h2, (h3 rfl).trans (not_congr ?_)⟩
  constructor
  · rintro ⟨a, _, _, hm, ha, rfl, rfl⟩; exact ⟨a, hm, ha⟩
  · rintro ⟨a, hm, ha⟩; exact ⟨a, _, _, hm, ha, rfl, rfl⟩

/-- **C85**, examples/rbac_with_deny_model.conf: the same definitions with
`some(where (p.eft == allow)) && !some(where (p.eft == deny))`. -/
theorem c85_allow_and_deny
    (hroot : buildMatcherDef grow (Cond.formula (s% "r") (s% "p") (matcher (some (s% "g")) none none)).toks = .ok root)
    (D : Defined s (s% "sub, obj, act") (s% "sub, obj, act, eft") SOME_ALLOW_NO_DENY args (args ++ [s% "eft"]))
    (g : PatternRules.Roles) (hg : FnModel.RolesAre build (s% "g") s g.level g.pm g.links g.names)
    (hdet : ∀ rules, s.model.policyRules (s% "p") = some rules →
      ∀ r ∈ rules, ∀ e, r[3]? = some e → e = [] ∨ e = s% "allow" ∨ e = s% "deny") :
    ∃ rules answer, s.model.policyRules (s% "p") = some rules ∧
      (s.enforce build gov depth ord ([sub, obj, act].map .val)).2 = .ok answer ∧
      (answer = true ↔
        ((∃ role, ([role, obj, act, s% "allow"] ∈ rules ∨ [role, obj, act, []] ∈ rules) ∧ g.has sub role) ∨
          Trace g.has Eq Eq H rules sub obj act) ∧
        ¬ ∃ role, [role, obj, act, s% "deny"] ∈ rules ∧ g.has sub role) := by
  obtain ⟨rules, answer, h1, h2, -, h3⟩ := c85_deny build u hc hbin grow root H s h gov hgov hsc sub obj act ord hord depth
    hdep _ _ _ _ hroot D g.has Eq Eq _ _ _ (tests_roles rfl (by decide) (noTailRef_iff (by decide)) g hg) (tests_same s)
    (tests_same s) ⟨trivial, trivial, trivial⟩ (fun _ _ _ _ _ => ⟨trivial, trivial, trivial⟩)
    (fun _ => hdet)
  refine ⟨rules, answer, h1, h2, (h3 rfl).trans (and_congr (or_congr ?_ Iff.rfl) (not_congr ?_))⟩
  · constructor
    · rintro ⟨a, _, _, e, hm, ha, rfl, rfl, rfl | rfl⟩
      · exact ⟨a, .inr hm, ha⟩
      · exact ⟨a, .inl hm, ha⟩
    · rintro ⟨a, hm | hm, ha⟩
      · exact ⟨a, _, _, _, hm, ha, rfl, rfl, .inr rfl⟩
      · exact ⟨a, _, _, _, hm, ha, rfl, rfl, .inl rfl⟩
  · constructor
    · rintro ⟨a, _, _, hm, ha, rfl, rfl⟩; exact ⟨a, hm, ha⟩
    · rintro ⟨a, hm, ha⟩; exact ⟨a, _, _, hm, ha, rfl, rfl⟩

/-- What is left of removed rules in a model with two attributes. -/
def Trace2 (H : Rule → Prop) (rules : List Rule) (v w : Str) : Prop :=
  w = [] ∧ (((∀ r, ¬ H r) ∧ v = []) ∨ (∃ x, H [v, x]) ∧ ¬ ∃ x, [v, x] ∈ rules)

omit hc hbin h hgov hsc hord hdep in
/-- **C85**, `r = x, y`, `p = x, y`, `r.x == p.x && r.y == p.y`. -/
theorem c85_two (x y rText pText : Str) (hxy : x ≠ y)
    (hc : build.Coherent u) (hbin : ∀ e s, u e = .ok s → s.Binary)
    (hroot : buildMatcherDef grow (Cond.formula (s% "r") (s% "p") (Column.matcher [.same x, .same y])).toks = .ok root)
    (h : FnModel.FnSeen build (s% "m") root H s)
    (hrA : splitC ',' (removeSpaces rText) = [x, y]) (hpA : (newPolicyDef (s% "p") pText).args = [x, y])
    (heft : x ≠ s% "eft" ∧ y ≠ s% "eft")
    (D : Defined s rText pText SOME_ALLOW [x, y] [x, y])
    (N : Naming s.functions (s% "r") (s% "p") [x, y] [x, y])
    (hgov : gov.Ok) (hsc : gov.Scoped) (v w : Str) (hord : ord.Valid) (hdep : 0 < depth) :
    ∃ rules answer, s.model.policyRules (s% "p") = some rules ∧
      (s.enforce build gov depth ord ([v, w].map .val)).2 = .ok answer ∧
      (answer = true ↔ [v, w] ∈ rules ∨ Trace2 H rules v w) := by
  have hy : y ∈ [x, y] := by simp
  have hcols : ∀ c ∈ [Column.same x] ++ [.same y], c = .same x ∨ c = .same y := by
    intro c hm; simpa using hm
  obtain ⟨rules, answer, h1, hst, hlen, -, h3, v1, -, -⟩ := c85_columns build u hc hbin grow (s% "r") (s% "m") (s% "e")
    (s% "p") rText SOME_ALLOW [x, y] [x, y] [.same x] (.same y) root
    hroot H s h (by decide) (by decide) D.r hrA _ D.p hpA D.e gov hgov hsc N [v, w] rfl
    (fun _ _ => True) (fun _ a b => a = b)
    (by
      intro c hm
      rcases hcols c hm with rfl | rfl
      · exact ⟨⟨List.mem_cons_self .., List.mem_cons_self ..⟩, by rintro _ _ _ ⟨⟩⟩
      · exact ⟨⟨hy, hy⟩, by rintro _ _ _ ⟨⟩⟩)
    (by
      intro c hm
      rcases hcols c hm with rfl | rfl <;> exact fun _ _ => Iff.rfl)
    (fun _ _ => trivial) (fun _ _ _ _ _ _ _ => trivial)
    (fun e => absurd e (by decide)) ord hord depth hdep
  have a1 : ∀ a b : Str, attr [x, y] [a, b] x = some a := by
    intro a b; simp [attr]
  have a2 : ∀ a b : Str, attr [x, y] [a, b] y = some b := by
    intro a b
    have : (x == y) = false := by simpa using hxy
    simp [attr, List.idxOf_cons, this]
  have g1 : ∀ a b, (Column.same x).Agrees (fun _ a b => a = b) [x, y] [x, y] [v, w] [a, b] ↔ v = a :=
    fun a b => agrees_at (a1 _ _) (a1 _ _)
  have g2 : ∀ a b, (Column.same y).Agrees (fun _ a b => a = b) [x, y] [x, y] [v, w] [a, b] ↔ w = b :=
    fun a b => agrees_at (a2 _ _) (a2 _ _)
  have hallow : ∀ r, effectOf [x, y] r = .allow := by
    intro r
    unfold effectOf attr
    rw [if_neg (by
      simp only [List.mem_cons, List.not_mem_nil, or_false, not_or]
      exact ⟨fun e => heft.1 e.symm, fun e => heft.2 e.symm⟩)]
  have two : ∀ r : Rule, r.length = [x, y].length → ∃ a b, r = [a, b] := by
    intro r hr
    match r, hr with
    | [a, b], _ => exact ⟨a, b, rfl⟩
  refine ⟨rules, answer, h1, h3 rfl rfl rfl, (v1 rfl).trans (or_congr ?_ ?_)⟩
  · constructor
    · rintro ⟨r, hr, hall, -⟩
      obtain ⟨a, b, rfl⟩ := two r (hlen _ (hst _ hr))
      obtain rfl := (g1 _ _).1 (hall (.same x) (by simp))
      obtain rfl := (g2 _ _).1 (hall (.same y) (by simp))
      exact hr
    · intro hr
      refine ⟨_, hr, ?_, hallow _⟩
      intro c hm
      rcases hcols c hm with rfl | rfl
      · exact (g1 _ _).2 rfl
      · exact (g2 _ _).2 rfl
  · have hb : List.replicate [x, y].length ([] : Str) = [[], []] := rfl
    unfold Column.Trace Trace2
    rw [hb, g2]
    refine and_congr_right (fun _ => or_congr (and_congr_right (fun _ => ?_)) ?_)
    · rw [← g1 [] []]
      simp
    · constructor
      · rintro ⟨seen, q1, q2, q3⟩
        obtain ⟨a, b, rfl⟩ := two seen (hlen _ q1)
        obtain rfl := (g1 _ _).1 (q2 (.same x) (by simp))
        refine ⟨⟨b, q1⟩, ?_⟩
        rintro ⟨z, hz⟩
        refine q3 ⟨_, hz, ?_⟩
        intro c hm
        rw [List.mem_singleton.1 hm]
        exact (a1 _ _).trans (a1 _ _).symm
      · rintro ⟨⟨z, hz⟩, hno⟩
        refine ⟨_, hz, ?_, ?_⟩
        · intro c hm
          rw [List.mem_singleton.1 hm]
          exact (g1 _ _).2 rfl
        · rintro ⟨r, hr, ht⟩
          obtain ⟨a, b, rfl⟩ := two r (hlen _ (hst _ hr))
          have := ht (.same x) (by simp)
          have e : some v = some a := (a1 _ _).symm.trans (this.trans (a1 _ _))
          cases e
          exact hno ⟨b, hr⟩

/-- **C85**, examples/basic_without_resources_model.conf (`sub, act`) and examples/basic_without_users_model.conf
(`obj, act`). -/
theorem c85_without (x text : Str)
    (hx : (x = s% "sub" ∧ text = s% "sub, act") ∨ (x = s% "obj" ∧ text = s% "obj, act"))
    (hroot : buildMatcherDef grow
      (Cond.formula (s% "r") (s% "p") (Column.matcher [.same x, .same (s% "act")])).toks = .ok root)
    (D : Defined s text text SOME_ALLOW [x, s% "act"] [x, s% "act"]) (v w : Str) :
    ∃ rules answer, s.model.policyRules (s% "p") = some rules ∧
      (s.enforce build gov depth ord ([v, w].map .val)).2 = .ok answer ∧
      (answer = true ↔ [v, w] ∈ rules ∨ Trace2 H rules v w) := by
  rcases hx with ⟨rfl, rfl⟩ | ⟨rfl, rfl⟩
  · exact c85_two build u grow root H s gov ord depth (s% "sub") (s% "act") _ _ (by decide) hc hbin hroot h (by decide)
      (by decide +kernel) (by decide) D ⟨writable_of (by decide) (by decide +kernel) D.free,
        writable_of (by decide) (by decide +kernel) D.free', rfl, 'p', [], rfl, .inl rfl, by decide⟩ hgov hsc v w hord hdep
  · exact c85_two build u grow root H s gov ord depth (s% "obj") (s% "act") _ _ (by decide) hc hbin hroot h (by decide)
      (by decide +kernel) (by decide) D ⟨writable_of (by decide) (by decide +kernel) D.free,
        writable_of (by decide) (by decide +kernel) D.free', rfl, 'p', [], rfl, .inl rfl, by decide⟩ hgov hsc v w hord hdep

end

/-! ## Programs that meet the hypotheses -/

namespace Run

open PathRules (rootOf)
open PatternRules (addOther removeOther setDefOther buildOther addLinkHere)

def rbac := matcher (some (s% "g")) none none
def resources := matcher (some (s% "g")) (some (s% "g2")) none
def patterns := matcher (some (s% "g")) (some (s% "g2")) (some (s% "regexMatch"))
def globs := matcher none (some (s% "globMatch")) none
def custom := matcher none (some (s% "keyMatchCustom")) (some (s% "regexMatch"))
def users := Column.matcher [.same (s% "sub"), .same (s% "act")]

def texts : List (Str × List (List Cond)) :=
  [(s% "rbac", rbac), (s% "resources", resources), (s% "patterns", patterns), (s% "globs", globs),
    (s% "custom", custom), (s% "users", users)]

def reading (e : Str) : Res Stage :=
  match texts.lookup e with
  | some f => .ok (rootOf f)
  | none => .err

def fbuild : FnBuild := fun _ e => reading e

theorem coherent : fbuild.Coherent reading := fun _ _ => .inl rfl

theorem binary : ∀ e s, reading e = .ok s → s.Binary := by
  intro e s h
  unfold reading at h
  split at h
  · rename_i f hf
    cases h
    have hm : f ∈ [rbac, resources, patterns, globs, custom, users] := by
      obtain ⟨l, l', hl, -⟩ := List.lookup_eq_some_iff.1 hf
      have : (e, f) ∈ texts := by rw [hl]; simp
      exact List.mem_map_of_mem (f := Prod.snd) this
    simp only [List.mem_cons, List.not_mem_nil, or_false] at hm
    rcases hm with rfl | rfl | rfl | rfl | rfl | rfl <;>
    simp [rootOf, rbac, resources, patterns, globs, custom, users, matcher, Column.matcher, column, Column.atom,
      Cond.formula, Cond.operands, Cond.operand, Atom.operand,
      Operand.trD, Operand.trC, Operand.trU, Stage.Binary, Stage.All, Stage.AllIn, Stage.children]
  · cases h

/-- equal strings, or anything if the pattern is `*` -/
def std : StdLib := ⟨fun x re => some (re == s% "*" || x == re), fun _ _ => none, fun x re => some (re == s% "*" || x == re)⟩

def args3 : Str := s% "sub, obj, act"
def args4 : Str := s% "sub, obj, act, eft"

def defs (text rText pText eff : Str) : FnModel :=
  (((((((FnModel.new std []).setDef 'r' (s% "r") rText).1.setDef 'p' (s% "p") pText).1.setDef
    'g' (s% "g") (s% "_, _")).1.setDef 'g' (s% "g2") (s% "_, _")).1.setDef 'e' (s% "e") eff).1.setDef 'm' (s% "m") text).1

def start (text rText pText eff : Str) : FnModel := ((defs text rText pText eff).buildMatcher fbuild (s% "m")).1
def add (s : FnModel) (rule : Rule) : FnModel := { s with model := (s.model.addRule rule).1 }
def remove (s : FnModel) (rule : Rule) : FnModel := { s with model := (s.model.removeRule rule).1 }

theorem started {text rText pText eff : Str} {root : Stage} (ht : reading text = .ok root)
    (hd : (defs text rText pText eff).model.mDefs.get (s% "m") = some text)
    (hok : ((defs text rText pText eff).buildMatcher fbuild (s% "m")).2 = .ok ()) :
    FnModel.FnSeen fbuild (s% "m") root
      (fun r => ∃ rules, (defs text rText pText eff).model.policyRules root.policyKey = some rules ∧ r ∈ rules)
      (start text rText pText eff) :=
  .built (.setDef (.setDef (.setDef (.setDef (.setDef (.setDef (.new _ _) _ _ _) _ _ _) _ _ _) _ _ _) _ _ _) _ _ _)
    text hd ht hok

theorem gStart (text rText pText eff : Str) (h : ((((FnModel.new std []).setDef 'r' (s% "r") rText).1.setDef 'p' (s% "p")
      pText).1).model.pMap.get (s% "g") = none) :
    FnModel.RolesAre fbuild (s% "g") (start text rText pText eff) 10 none (fun _ _ => False) [] := by
  have h0 : FnModel.RolesAre fbuild (s% "g") _ 10 none (fun _ _ => False) [] :=
    .defined (((FnModel.new std []).setDef 'r' (s% "r") rText).1.setDef 'p' (s% "p") pText).1 h (s% "_, _")
      (by decide +kernel)
  exact buildOther (setDefOther (setDefOther (setDefOther h0 'g' (s% "g2") (s% "_, _") (.inr (by decide)))
    'e' (s% "e") eff (.inl (by decide))) 'm' (s% "m") text (.inl (by decide))) (s% "m")

theorem g2Start (text rText pText eff : Str) (h : (((((FnModel.new std []).setDef 'r' (s% "r") rText).1.setDef 'p'
      (s% "p") pText).1.setDef 'g' (s% "g") (s% "_, _")).1).model.pMap.get (s% "g2") = none) :
    FnModel.RolesAre fbuild (s% "g2") (start text rText pText eff) 10 none (fun _ _ => False) [] := by
  have h0 : FnModel.RolesAre fbuild (s% "g2") _ 10 none (fun _ _ => False) [] :=
    .defined ((((FnModel.new std []).setDef 'r' (s% "r") rText).1.setDef 'p' (s% "p") pText).1.setDef 'g' (s% "g")
      (s% "_, _")).1 h (s% "_, _") (by decide +kernel)
  exact buildOther (setDefOther (setDefOther h0
    'e' (s% "e") eff (.inl (by decide))) 'm' (s% "m") text (.inl (by decide))) (s% "m")

/-- Three rules and two links; the second rule and the second link are removed again. -/
def program (s : FnModel) (r1 r2 r3 : Rule) : FnModel :=
  remove (remove (add (add (add (add (add s [s% "g", s% "alice", s% "admin"]) [s% "g", s% "bob", s% "admin"]) r1) r2) r3)
    r2) [s% "g", s% "bob", s% "admin"]

def links : Str → Str → Prop := (LinkOp.del (s% "bob") (s% "admin")).links ((LinkOp.add (s% "bob") (s% "admin")).links
  ((LinkOp.add (s% "alice") (s% "admin")).links (fun _ _ => False)))

def names : List Str := (LinkOp.del (s% "bob") (s% "admin")).uses ((LinkOp.add (s% "bob") (s% "admin")).uses
  ((LinkOp.add (s% "alice") (s% "admin")).uses []))

def gRoles : PatternRules.Roles := ⟨10, none, links, names⟩

theorem gAre {s : FnModel} (h : FnModel.RolesAre fbuild (s% "g") s 10 none (fun _ _ => False) []) (r1 r2 r3 : Rule)
    (h1 : r1.head? ≠ some (s% "g")) (h2 : r2.head? ≠ some (s% "g")) (h3 : r3.head? ≠ some (s% "g")) :
    FnModel.RolesAre fbuild (s% "g") (program s r1 r2 r3) gRoles.level gRoles.pm gRoles.links gRoles.names :=
  (removeOther (addOther (addOther (addOther (addLinkHere (addLinkHere h (s% "alice") (s% "admin")) (s% "bob") (s% "admin"))
    r1 h1) r2 h2) r3 h3) r2 h2).remove (s% "bob") (s% "admin") [] (by decide)

theorem g2Are {s : FnModel} (h : FnModel.RolesAre fbuild (s% "g2") s 10 none (fun _ _ => False) []) (r1 r2 r3 : Rule)
    (h1 : r1.head? ≠ some (s% "g2")) (h2 : r2.head? ≠ some (s% "g2")) (h3 : r3.head? ≠ some (s% "g2")) :
    FnModel.RolesAre fbuild (s% "g2") (program s r1 r2 r3) 10 none (fun _ _ => False) [] :=
  removeOther (removeOther (addOther (addOther (addOther (addOther (addOther h _ (by decide)) _ (by decide))
    r1 h1) r2 h2) r3 h3) r2 h2) _ (by decide)

def adminRule : Rule := [s% "p", s% "admin", s% "data1", s% "read"]
def bobRule : Rule := [s% "p", s% "bob", s% "data2", s% "write"]
def starRule : Rule := [s% "p", s% "carol", s% "*", s% "*"]

def rbacProgram : FnModel := program (start (s% "rbac") args3 args3 SOME_ALLOW) adminRule bobRule starRule

/-- `s` is a state after `start`, and the three rules suit the definitions whenever they are given. -/
theorem seen {s : FnModel} {root : Stage} {H : Rule → Prop} (h : FnModel.FnSeen fbuild (s% "m") root H s)
    (r1 r2 r3 : Rule)
    (h1 : (add (add s [s% "g", s% "alice", s% "admin"]) [s% "g", s% "bob", s% "admin"]).SuitsP r1)
    (h2 : (add (add (add s [s% "g", s% "alice", s% "admin"]) [s% "g", s% "bob", s% "admin"]) r1).SuitsP r2)
    (h3 : (add (add (add (add s [s% "g", s% "alice", s% "admin"]) [s% "g", s% "bob", s% "admin"]) r1) r2).SuitsP r3)
    (h4 : (add (add (add (add (add s [s% "g", s% "alice", s% "admin"]) [s% "g", s% "bob", s% "admin"]) r1) r2) r3).SuitsP
      r2) : ∃ H', FnModel.FnSeen fbuild (s% "m") root H' (program s r1 r2 r3) ∧
        (∀ r, H' r → H r ∨ ∃ q ∈ [[s% "g", s% "alice", s% "admin"], [s% "g", s% "bob", s% "admin"], r1, r2, r3],
          q = root.policyKey :: r) := by
  have hg : ∀ (s : FnModel) (r : Rule), s.SuitsP ((s% "g") :: r) := fun s r h => absurd h (by decide)
  refine ⟨_, .remove (.remove (.add (.add (.add (.add (.add h _ (hg _ _)) _ (hg _ _)) _ h1) _ h2) _ h3) _ h4) _ (hg _ _), ?_⟩
  rintro r (((((hr | hr) | hr) | hr) | hr) | hr)
  · exact .inl hr
  · exact .inr ⟨_, by simp, hr⟩
  · exact .inr ⟨_, by simp, hr⟩
  · exact .inr ⟨_, by simp, hr⟩
  · exact .inr ⟨_, by simp, hr⟩
  · exact .inr ⟨_, by simp, hr⟩

/-- The hypotheses of `c85_rbac` hold of this program. -/
example (sub obj act : Str) : ∃ H rules answer, rbacProgram.model.policyRules (s% "p") = some rules ∧
    (rbacProgram.enforce fbuild EvalExample.gov 1 Order.fwd ([sub, obj, act].map .val)).2 = .ok answer ∧
    (answer = true ↔ (∃ role, [role, obj, act] ∈ rules ∧ gRoles.has sub role) ∨
      Trace gRoles.has Eq Eq H rules sub obj act) := by
  obtain ⟨H, hH, -⟩ := seen (started (text := s% "rbac") (rText := args3) (pText := args3) (eff := SOME_ALLOW) rfl
    (by decide +kernel) (by decide +kernel)) adminRule bobRule starRule (by decide +kernel) (by decide +kernel)
    (by decide +kernel) (by decide +kernel)
  exact ⟨H, c85_rbac fbuild reading coherent binary (fun _ => 0) (rootOf rbac) H rbacProgram hH EvalExample.gov
    EvalExample.gov_ok (Gov.scope_scoped _) sub obj act Order.fwd Order.fwd_valid 1 (by decide)
    (buildMatcherDef_formula _ _ (by decide) (by decide))
    ⟨by decide +kernel, by rfl, by decide +kernel, by decide +kernel, by decide +kernel⟩
    gRoles (gAre (gStart _ _ _ _ (by decide +kernel)) _ _ _ (by decide) (by decide) (by decide))⟩

def patternsProgram : FnModel := program (start (s% "patterns") args3 args3 SOME_ALLOW) adminRule bobRule starRule

/-- The hypotheses of `c85_patterns` hold of this program. -/
example (sub obj act : Str) : ∃ H rules answer, patternsProgram.model.policyRules (s% "p") = some rules ∧
    (patternsProgram.enforce fbuild EvalExample.gov 1 Order.fwd ([sub, obj, act].map .val)).2 = .ok answer ∧
    (answer = true ↔
      (∃ role res re, [role, res, re] ∈ rules ∧ gRoles.has sub role ∧
        PatternRules.Roles.has ⟨10, none, fun _ _ => False, []⟩ obj res ∧ std.regex act re = some true) ∨
      Trace gRoles.has (PatternRules.Roles.has ⟨10, none, fun _ _ => False, []⟩)
        (fun x re => std.regex x re = some true) H rules sub obj act) := by
  obtain ⟨H, hH, -⟩ := seen (started (text := s% "patterns") (rText := args3) (pText := args3) (eff := SOME_ALLOW) rfl
    (by decide +kernel) (by decide +kernel)) adminRule bobRule starRule (by decide +kernel) (by decide +kernel)
    (by decide +kernel) (by decide +kernel)
  exact ⟨H, c85_patterns fbuild reading coherent binary (fun _ => 0) (rootOf patterns) H patternsProgram hH
    EvalExample.gov EvalExample.gov_ok (Gov.scope_scoped _) sub obj act Order.fwd Order.fwd_valid 1 (by decide) std
    (buildMatcherDef_formula _ _ (by decide) (by decide))
    ⟨by decide +kernel, by rfl, by decide +kernel, by decide +kernel, by decide +kernel⟩ (by rfl)
    gRoles (gAre (gStart _ _ _ _ (by decide +kernel)) _ _ _ (by decide) (by decide) (by decide))
    ⟨10, none, fun _ _ => False, []⟩
    (g2Are (g2Start _ _ _ _ (by decide +kernel)) _ _ _ (by decide) (by decide) (by decide))
    (by intro x h; cases h) (by intro _ _ _ _ x h; cases h)⟩

def globProgram : FnModel := program (start (s% "globs") args3 args3 SOME_ALLOW) adminRule bobRule starRule

/-- The hypotheses of `c85_glob` hold of this program. -/
example (sub obj act : Str) : ∃ H rules answer, globProgram.model.policyRules (s% "p") = some rules ∧
    (globProgram.enforce fbuild EvalExample.gov 1 Order.fwd ([sub, obj, act].map .val)).2 = .ok answer ∧
    (answer = true ↔ (∃ pat, [sub, pat, act] ∈ rules ∧ std.glob obj pat = some true) ∨
      Trace Eq (fun x pat => std.glob x pat = some true) Eq H rules sub obj act) := by
  obtain ⟨H, hH, -⟩ := seen (started (text := s% "globs") (rText := args3) (pText := args3) (eff := SOME_ALLOW) rfl
    (by decide +kernel) (by decide +kernel)) adminRule bobRule starRule (by decide +kernel) (by decide +kernel)
    (by decide +kernel) (by decide +kernel)
  exact ⟨H, c85_glob fbuild reading coherent binary (fun _ => 0) (rootOf globs) H globProgram hH
    EvalExample.gov EvalExample.gov_ok (Gov.scope_scoped _) sub obj act Order.fwd Order.fwd_valid 1 (by decide) std
    (buildMatcherDef_formula _ _ (by decide) (by decide))
    ⟨by decide +kernel, by rfl, by decide +kernel, by decide +kernel, by decide +kernel⟩ (by rfl)
    (by intro x h; cases h) (by intro _ _ _ _ x h; cases h)⟩

def allowRule : Rule := [s% "p", s% "admin", s% "data1", s% "read", s% "allow"]
def denyRule : Rule := [s% "p", s% "alice", s% "data1", s% "write", s% "deny"]
def carolRule : Rule := [s% "p", s% "carol", s% "data1", s% "write", s% "deny"]

def denyProgram (eff : Str) : FnModel := program (start (s% "rbac") args3 args4 eff) allowRule denyRule carolRule

/-- The hypotheses of `c85_not_deny` and `c85_allow_and_deny` hold of these programs. -/
example (sub obj act : Str) : ∃ rules answer, (denyProgram NO_DENY).model.policyRules (s% "p") = some rules ∧
    ((denyProgram NO_DENY).enforce fbuild EvalExample.gov 1 Order.fwd ([sub, obj, act].map .val)).2 = .ok answer ∧
    (answer = true ↔ ¬ ∃ role, [role, obj, act, s% "deny"] ∈ rules ∧ gRoles.has sub role) := by
  obtain ⟨H, hH, -⟩ := seen (started (text := s% "rbac") (rText := args3) (pText := args4) (eff := NO_DENY) rfl
    (by decide +kernel) (by decide +kernel)) allowRule denyRule carolRule (by decide +kernel) (by decide +kernel)
    (by decide +kernel) (by decide +kernel)
  exact c85_not_deny fbuild reading coherent binary (fun _ => 0) (rootOf rbac) H (denyProgram NO_DENY) hH
    EvalExample.gov EvalExample.gov_ok (Gov.scope_scoped _) sub obj act Order.fwd Order.fwd_valid 1 (by decide)
    (buildMatcherDef_formula _ _ (by decide) (by decide))
    ⟨by decide +kernel, by rfl, by decide +kernel, by decide +kernel, by decide +kernel⟩
    gRoles (gAre (gStart _ _ _ _ (by decide +kernel)) _ _ _ (by decide) (by decide) (by decide))

example (sub obj act : Str) : ∃ H rules answer,
    (denyProgram SOME_ALLOW_NO_DENY).model.policyRules (s% "p") = some rules ∧
    ((denyProgram SOME_ALLOW_NO_DENY).enforce fbuild EvalExample.gov 1 Order.fwd ([sub, obj, act].map .val)).2 =
      .ok answer ∧
    (answer = true ↔
      ((∃ role, ([role, obj, act, s% "allow"] ∈ rules ∨ [role, obj, act, []] ∈ rules) ∧ gRoles.has sub role) ∨
        Trace gRoles.has Eq Eq H rules sub obj act) ∧
      ¬ ∃ role, [role, obj, act, s% "deny"] ∈ rules ∧ gRoles.has sub role) := by
  obtain ⟨H, hH, -⟩ := seen (started (text := s% "rbac") (rText := args3) (pText := args4) (eff := SOME_ALLOW_NO_DENY)
    rfl (by decide +kernel) (by decide +kernel)) allowRule denyRule carolRule (by decide +kernel) (by decide +kernel)
    (by decide +kernel) (by decide +kernel)
  have hr : (denyProgram SOME_ALLOW_NO_DENY).model.policyRules (s% "p") =
    some [allowRule.tail, carolRule.tail] := by decide +kernel
  exact ⟨H, c85_allow_and_deny fbuild reading coherent binary (fun _ => 0) (rootOf rbac) H
    (denyProgram SOME_ALLOW_NO_DENY) hH
    EvalExample.gov EvalExample.gov_ok (Gov.scope_scoped _) sub obj act Order.fwd Order.fwd_valid 1 (by decide)
    (buildMatcherDef_formula _ _ (by decide) (by decide))
    ⟨by decide +kernel, by rfl, by decide +kernel, by decide +kernel, by decide +kernel⟩
    gRoles (gAre (gStart _ _ _ _ (by decide +kernel)) _ _ _ (by decide) (by decide) (by decide))
    (by
      intro rules h r hm e he
      rw [hr] at h
      cases h
      simp only [List.mem_cons, List.not_mem_nil, or_false] at hm
      rcases hm with rfl | rfl
      · exact .inr (.inl (Option.some.inj he).symm)
      · exact .inr (.inr (Option.some.inj he).symm))⟩

def resourceProgram : FnModel := program (start (s% "resources") args3 args3 SOME_ALLOW) adminRule bobRule starRule

/-- The hypotheses of `c85_resource_roles` hold of this program. -/
example (sub obj act : Str) : ∃ H rules answer, resourceProgram.model.policyRules (s% "p") = some rules ∧
    (resourceProgram.enforce fbuild EvalExample.gov 1 Order.fwd ([sub, obj, act].map .val)).2 = .ok answer ∧
    (answer = true ↔
      (∃ role res, [role, res, act] ∈ rules ∧ gRoles.has sub role ∧
        PatternRules.Roles.has ⟨10, none, fun _ _ => False, []⟩ obj res) ∨
      Trace gRoles.has (PatternRules.Roles.has ⟨10, none, fun _ _ => False, []⟩) Eq H rules sub obj act) := by
  obtain ⟨H, hH, -⟩ := seen (started (text := s% "resources") (rText := args3) (pText := args3) (eff := SOME_ALLOW) rfl
    (by decide +kernel) (by decide +kernel)) adminRule bobRule starRule (by decide +kernel) (by decide +kernel)
    (by decide +kernel) (by decide +kernel)
  exact ⟨H, c85_resource_roles fbuild reading coherent binary (fun _ => 0) (rootOf resources) H resourceProgram hH
    EvalExample.gov EvalExample.gov_ok (Gov.scope_scoped _) sub obj act Order.fwd Order.fwd_valid 1 (by decide)
    (buildMatcherDef_formula _ _ (by decide) (by decide))
    ⟨by decide +kernel, by rfl, by decide +kernel, by decide +kernel, by decide +kernel⟩
    gRoles (gAre (gStart _ _ _ _ (by decide +kernel)) _ _ _ (by decide) (by decide) (by decide))
    ⟨10, none, fun _ _ => False, []⟩
    (g2Are (g2Start _ _ _ _ (by decide +kernel)) _ _ _ (by decide) (by decide) (by decide))⟩

/-- the first letters are the same -/
def sameHead (x y : Str) : Bool := x.head? == y.head?
def sameHeadFn : List Str → EvalRes
  | [x, y] => .bool (sameHead x y)
  | _ => .err

def customProgram : FnModel :=
  program ((start (s% "custom") args3 args3 SOME_ALLOW).setFunction (s% "keyMatchCustom") sameHeadFn)
    adminRule bobRule starRule

/-- The hypotheses of `c85_custom` hold of this program. -/
example (sub obj act : Str) : ∃ H rules answer, customProgram.model.policyRules (s% "p") = some rules ∧
    (customProgram.enforce fbuild EvalExample.gov 1 Order.fwd ([sub, obj, act].map .val)).2 = .ok answer ∧
    (answer = true ↔
      (∃ key re, [sub, key, re] ∈ rules ∧ sameHead obj key = true ∧ std.regex act re = some true) ∨
      Trace Eq (fun x key => sameHead x key = true) (fun x re => std.regex x re = some true) H rules sub obj act) := by
  obtain ⟨H, hH, -⟩ := seen (.setFunction (started (text := s% "custom") (rText := args3) (pText := args3)
    (eff := SOME_ALLOW) rfl (by decide +kernel) (by decide +kernel)) (s% "keyMatchCustom") sameHeadFn)
    adminRule bobRule starRule (by decide +kernel) (by decide +kernel) (by decide +kernel) (by decide +kernel)
  exact ⟨H, c85_custom fbuild reading coherent binary (fun _ => 0) (rootOf custom) H customProgram hH
    EvalExample.gov EvalExample.gov_ok (Gov.scope_scoped _) sub obj act Order.fwd Order.fwd_valid 1 (by decide) std
    (buildMatcherDef_formula _ _ (by decide) (by decide))
    ⟨by decide +kernel, by rfl, by decide +kernel, by decide +kernel, by decide +kernel⟩ sameHeadFn (by rfl) sameHead
    (fun _ _ => rfl) (by rfl) (by intro x h; cases h) (by intro _ _ _ _ x h; cases h)⟩

def usersProgram : FnModel := program (start (s% "users") (s% "sub, act") (s% "sub, act") SOME_ALLOW)
  [s% "p", s% "alice", s% "read"] [s% "p", s% "bob", s% "read"] [s% "p", s% "bob", s% "write"]

/-- The hypotheses of `c85_without` hold of this program. -/
example (v w : Str) : ∃ H rules answer, usersProgram.model.policyRules (s% "p") = some rules ∧
    (usersProgram.enforce fbuild EvalExample.gov 1 Order.fwd ([v, w].map .val)).2 = .ok answer ∧
    (answer = true ↔ [v, w] ∈ rules ∨ Trace2 H rules v w) := by
  obtain ⟨H, hH, -⟩ := seen (started (text := s% "users") (rText := s% "sub, act") (pText := s% "sub, act")
    (eff := SOME_ALLOW) rfl (by decide +kernel) (by decide +kernel)) [s% "p", s% "alice", s% "read"]
    [s% "p", s% "bob", s% "read"] [s% "p", s% "bob", s% "write"] (by decide +kernel) (by decide +kernel)
    (by decide +kernel) (by decide +kernel)
  exact ⟨H, c85_without fbuild reading coherent binary (fun _ => 0) (rootOf users) H usersProgram hH
    EvalExample.gov EvalExample.gov_ok (Gov.scope_scoped _) Order.fwd Order.fwd_valid 1 (by decide) (s% "sub")
    (s% "sub, act") (.inl ⟨rfl, rfl⟩) (buildMatcherDef_formula _ _ (by decide) (by decide))
    ⟨by decide +kernel, by rfl, by decide +kernel, by decide +kernel, by decide +kernel⟩ v w⟩

def ask (s : FnModel) (vals : List Str) : Res Bool := (s.enforce fbuild EvalExample.gov 1 Order.fwd (vals.map .val)).2

example : ask rbacProgram [s% "alice", s% "data1", s% "read"] = .ok true ∧
    ask rbacProgram [s% "bob", s% "data1", s% "read"] = .ok false ∧
    ask rbacProgram [s% "bob", s% "data2", s% "write"] = .ok false ∧
    ask rbacProgram [s% "bob", s% "data2", s% ""] = .ok true := by
  decide +kernel

example : ask patternsProgram [s% "alice", s% "data1", s% "read"] = .ok true ∧
    ask patternsProgram [s% "alice", s% "data1", s% "write"] = .ok false ∧
    ask patternsProgram [s% "carol", s% "*", s% "write"] = .ok true ∧
    ask patternsProgram [s% "carol", s% "data1", s% "write"] = .ok false := by
  decide +kernel

example : ask customProgram [s% "admin", s% "d", s% "read"] = .ok true ∧
    ask customProgram [s% "admin", s% "e", s% "read"] = .ok false ∧
    ask customProgram [s% "carol", s% "**", s% "write"] = .ok true ∧
    ask resourceProgram [s% "alice", s% "data1", s% "read"] = .ok true ∧
    ask resourceProgram [s% "alice", s% "data2", s% "read"] = .ok false := by
  decide +kernel

example : ask globProgram [s% "alice", s% "data1", s% "read"] = .ok false ∧
    ask globProgram [s% "carol", s% "data1", s% "*"] = .ok true ∧
    ask globProgram [s% "bob", s% "data2", s% ""] = .ok true ∧
    ask globProgram [s% "bob", s% "data1", s% ""] = .ok false := by
  decide +kernel

/-- The deny rule for alice was removed, the one for carol was not. -/
example : ask (denyProgram NO_DENY) [s% "alice", s% "data1", s% "write"] = .ok true ∧
    ask (denyProgram NO_DENY) [s% "carol", s% "data1", s% "write"] = .ok false ∧
    ask (denyProgram SOME_ALLOW_NO_DENY) [s% "alice", s% "data1", s% "write"] = .ok false ∧
    ask (denyProgram SOME_ALLOW_NO_DENY) [s% "alice", s% "data1", s% "read"] = .ok true ∧
    ask (denyProgram SOME_ALLOW_NO_DENY) [s% "carol", s% "data1", s% "write"] = .ok false ∧
    ask (denyProgram SOME_ALLOW_NO_DENY) [s% "alice", s% "data1", s% ""] = .ok true := by
  decide +kernel

/-- bob may still write, so no trace is left of bob's other rule -/
example : ask usersProgram [s% "alice", s% "read"] = .ok true ∧ ask usersProgram [s% "bob", s% "write"] = .ok true ∧
    ask usersProgram [s% "bob", s% "read"] = .ok false ∧ ask usersProgram [s% "bob", s% ""] = .ok false ∧
    ask (remove usersProgram [s% "p", s% "bob", s% "write"]) [s% "bob", s% ""] = .ok true := by
  decide +kernel

end Run

end Shipped

end Fastac
