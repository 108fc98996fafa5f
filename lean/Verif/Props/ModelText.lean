import Verif.Lemmas.ModelText
import Verif.Lemmas.Ini

/-!
# C68: the text of a model is a configuration of the same model
-/

namespace Fastac

namespace Model

theorem sections_plain {m : Model} (h : m.WellKeyed) (hp : m.PlainText) : PlainData m.sections := by
  have names : [s% "request_definition", s% "policy_definition", s% "role_definition", s% "policy_effect",
      s% "matchers"].Nodup := by decide
  refine ⟨?_, fun s hs => ⟨?_, ?_, ?_, hp s hs⟩⟩
  · refine List.Nodup.sublist ?_ names
    unfold sections
    exact (List.filter_sublist.map Prod.fst)
  all_goals
    obtain ⟨hs, -⟩ := List.mem_filter.1 hs
    simp only [List.mem_cons, List.not_mem_nil, or_false] at hs
  · rcases hs with rfl | rfl | rfl | rfl | rfl <;> exact ⟨by dsimp only; decide, by dsimp only; decide⟩
  · rcases hs with rfl | rfl | rfl | rfl | rfl <;> (dsimp only; decide)
  · rcases hs with rfl | rfl | rfl | rfl | rfl
    · exact lines_nodup h.rwf _
    · exact lines_nodup h.pwf _
    · exact lines_nodup h.gwf _
    · exact lines_nodup h.ewf _
    · exact lines_nodup h.mwf _

theorem Made.setDefs {build : Str → Res Stage} (sec : Char) (l : List (Str × Str)) : ∀ {m : Model},
    Made build m → Made build (m.setDefs sec l).1 := by
  induction l with
  | nil => intro m h; exact h
  | cons e l ih =>
    intro m h
    obtain ⟨k, v⟩ := e
    have := h.setDef sec k v
    rw [Model.setDefs]
    cases hr : m.setDef sec k v with
    | mk m' r =>
      rw [hr] at this
      cases r <;> first | exact ih this | exact this

theorem Made.loadSections {build : Str → Res Stage} (secs : IniData) : ∀ {m : Model},
    Made build m → Made build (m.loadSections secs).1 := by
  induction secs with
  | nil => intro m h; exact h
  | cons s secs ih =>
    intro m h
    obtain ⟨n, kvs⟩ := s
    rw [Model.loadSections]
    cases secKey n with
    | none => exact ih h
    | some c =>
      have := Made.setDefs c kvs h
      simp only
      cases hr : m.setDefs c kvs with
      | mk m' r =>
        rw [hr] at this
        cases r <;> first | exact ih this | exact this

theorem Made.buildMatchers {build : Str → Res Stage} (ks : List Str) : ∀ {m : Model},
    Made build m → Made build (m.buildMatchers build ks).1 := by
  induction ks with
  | nil => intro m h; exact h
  | cons k ks ih =>
    intro m h
    have := h.build k
    rw [Model.buildMatchers]
    cases hr : m.buildMatcher build k with
    | mk m' r =>
      rw [hr] at this
      cases r <;> first | exact ih this | exact this

/-- Whatever is loaded, also when loading fails half way, the model is one that calls can produce. -/
theorem Made.loadText {build : Str → Res Stage} {m : Model} (h : Made build m) (read : Str → Res IniData)
    (order : List Str → List Str) (text : Str) : Made build (m.loadText read build order text).1 := by
  unfold Model.loadText
  split
  · rename_i cfg _
    have := Made.loadSections cfg h
    unfold Model.loadConfig
    cases hr : m.loadSections cfg with
    | mk m' r =>
      rw [hr] at this
      cases r <;> first | exact Made.buildMatchers _ this | exact this
  · exact h
  · exact h

/-- **C68.** `String` prints a configuration of the model.  Take any model that calls can produce, whose
printed keys and values are plain, and whose matchers can all be built for policies it defines.  Loading
its text into a new model succeeds, whatever the order in which the matchers are built.  The new model
* has the same request, policy, role, effect and matcher definitions under the same keys, and no others;
* has the same policies, all without rules;
* has for every matcher definition the matcher of that definition, and no other matchers;
* prints the same text.

The reader of the text is arbitrary; it is only assumed to read plain data. -/
theorem c68_text (build build' : Str → Res Stage) {m : Model} (h : Made build' m) (hp : m.PlainText)
    (read : Str → Res IniData) (hread : ReadsPlain read) (order : List Str → List Str)
    (ho : ∀ l, (order l).Perm l)
    (hb : ∀ k e, m.mDefs.get k = some e → ∃ root, build e = .ok root ∧ m.Knows root.policyKey) :
    ∃ m', Model.new.loadText read build order m.toText = (m', .ok ()) ∧ Made build m' ∧
      (∀ k, (m'.rDefs.get k).map (newPolicyDef k) = (m.rDefs.get k).map (newPolicyDef k)) ∧
      (∀ k, m'.pDefs.get k = m.pDefs.get k) ∧
      (∀ k, m'.gDefs.get k = m.gDefs.get k) ∧
      (∀ k, m'.eDefs.get k = m.eDefs.get k) ∧
      (∀ k, m'.mDefs.get k = m.mDefs.get k) ∧
      (∀ k, m'.policyRules k = (m.policyRules k).map (fun _ => [])) ∧
      (∀ k e, m.mDefs.get k = some e → ∃ root d mt, build e = .ok root ∧
        m.matcherPolicyDef root.policyKey = .ok d ∧ newMatcher d root [] = .ok mt ∧
        m'.getMatcher k = some mt) ∧
      (∀ k, m.mDefs.get k = none → m'.getMatcher k = none) ∧
      m'.toText = m.toText := by
  have w := h.wellKeyed
  have hrules : ∀ k, m.reloaded.policyRules k = (m.policyRules k).map (fun _ => []) := by
    intro k
    unfold Model.policyRules
    rw [reloaded_pMap w, reloaded_rpMap w]
    have h1 := w.pp k
    have h2 := w.gg k
    cases ha : m.pMap.get k with
    | some p =>
      cases hb : m.pDefs.get k with
      | none => rw [ha, hb] at h1; cases h1
      | some d => rfl
    | none =>
      cases hb : m.pDefs.get k with
      | some d => rw [ha, hb] at h1; cases h1
      | none =>
        cases hc : m.rpMap.get k with
        | some rp =>
          cases hd : m.gDefs.get k with
          | none => rw [hc, hd] at h2; cases h2
          | some n => simp only [Option.map_none, Option.map_some]; rw [newMgr_rules]
        | none =>
          cases hd : m.gDefs.get k with
          | none => rfl
          | some n => rw [hc, hd] at h2; cases h2
  have hempty : ∀ k rules, m.reloaded.policyRules k = some rules → rules = [] := by
    intro k rules hk
    rw [hrules] at hk
    obtain ⟨_, -, e⟩ := Option.map_eq_some_iff.1 hk
    exact e.symm
  have hdef : ∀ k, m.reloaded.matcherPolicyDef k = m.matcherPolicyDef k := by
    intro k
    unfold Model.matcherPolicyDef
    simp only [reloaded_p w]
  have hbuild : ∀ k e, m.mDefs.get k = some e → Buildable build m.reloaded k := by
    intro k e he
    obtain ⟨root, h1, h2⟩ := hb k e he
    have h3 : (m.policyRules root.policyKey).isSome = true := by
      unfold Model.policyRules
      rcases h2 with ⟨-, h2⟩ | ⟨-, h2⟩
      · obtain ⟨p, hp⟩ := Option.isSome_iff_exists.1 h2
        rw [hp]
        rfl
      · obtain ⟨p, hp⟩ := Option.isSome_iff_exists.1 h2
        rw [hp]
        cases m.pMap.get root.policyKey <;> rfl
    have h4 : ∃ d, m.matcherPolicyDef root.policyKey = .ok d := by
      unfold Model.matcherPolicyDef
      rcases h2 with ⟨h0, h2⟩ | ⟨h0, h2⟩
      · obtain ⟨cs, hk⟩ := head_cases h0
        have := w.pp root.policyKey
        rw [show (m.pMap.get root.policyKey).isSome = true from h2] at this
        obtain ⟨d, hd⟩ := Option.isSome_iff_exists.1 this.symm
        rw [hk] at hd ⊢
        simp only [if_true]
        rw [hd]
        exact ⟨d, rfl⟩
      · obtain ⟨cs, hk⟩ := head_cases h0
        rw [hk]
        simp only [if_true]
        rw [if_neg (by decide)]
        exact ⟨_, rfl⟩
    obtain ⟨d, h4⟩ := h4
    refine ⟨e, root, d, (reloaded_m w k).trans he, h1, (hdef _).trans h4, ?_⟩
    rw [hrules, Option.isSome_map, h3]
  obtain ⟨m', e1, s1, g1, -, l1⟩ := buildMatchers_fresh (build := build)
    (order (m.reloaded.mDefs.map Prod.fst)) (m := m.reloaded) (by
      intro k hk
      obtain ⟨e, he⟩ := Option.isSome_iff_exists.1 (GoMap.mem_keys_iff.1 ((ho _).mem_iff.1 hk))
      exact hbuild k e ((reloaded_m w k) ▸ he)) hempty
  have hload : Model.new.loadText read build order m.toText = (m', .ok ()) := by
    unfold Model.loadText Model.toText
    rw [hread _ (sections_plain w hp)]
    simp only [Model.loadConfig]
    rw [loadSections_sections w]
    exact e1
  have hmade : Made build m' := by
    have := Made.loadText (build := build) .new read order m.toText
    rw [hload] at this
    exact this
  have hr : ∀ k, (m'.rDefs.get k).map (newPolicyDef k) = (m.rDefs.get k).map (newPolicyDef k) := by
    intro k
    rw [s1.r, reloaded_r w]
    cases m.rDefs.get k with
    | none => rfl
    | some v => simp only [Option.map_some]; rw [newPolicyDef_text]
  refine ⟨m', hload, hmade, hr, fun k => by rw [s1.p, reloaded_p w], fun k => by rw [s1.g, reloaded_g w],
    fun k => by rw [s1.e, reloaded_e w], fun k => by rw [s1.md, reloaded_m w],
    fun k => by rw [s1.policyRules, hrules], fun k e he => ?_, fun k hk => ?_, ?_⟩
  · have hk : k ∈ order (m.reloaded.mDefs.map Prod.fst) :=
      (ho _).mem_iff.2 (GoMap.mem_keys_iff.2 (by rw [reloaded_m w, he]; rfl))
    obtain ⟨mt, a, e', root, d, b1, b2, b3, b4⟩ := g1 k hk
    rw [reloaded_m w, he] at b1
    cases b1
    exact ⟨root, d, mt, b2, (hdef _) ▸ b3, b4, a⟩
  · unfold Model.getMatcher
    rw [l1 k (fun hm => by
      have := GoMap.mem_keys_iff.1 ((ho _).mem_iff.1 hm)
      rw [reloaded_m w, hk] at this
      cases this)]
    rfl
  · have w' := hmade.wellKeyed
    have hl1 : lines m'.rDefs (fun k v => (newPolicyDef k v).text) =
        lines m.rDefs (fun k v => (newPolicyDef k v).text) :=
      lines_congr w.rwf w'.rwf (fun k => by
        have := congrArg (Option.map PolicyDef.text) (hr k)
        simpa only [Option.map_map, Function.comp_def] using this)
    have hl2 : lines m'.pDefs (fun _ d => d.text) = lines m.pDefs (fun _ d => d.text) :=
      lines_congr w.pwf w'.pwf (fun k => by rw [s1.p, reloaded_p w])
    have hl3 : lines m'.gDefs (fun _ n => roleDefText n) = lines m.gDefs (fun _ n => roleDefText n) :=
      lines_congr w.gwf w'.gwf (fun k => by rw [s1.g, reloaded_g w])
    have hl4 : lines m'.eDefs (fun _ e => e) = lines m.eDefs (fun _ e => e) :=
      lines_congr w.ewf w'.ewf (fun k => by rw [s1.e, reloaded_e w])
    have hl5 : lines m'.mDefs (fun _ e => e) = lines m.mDefs (fun _ e => e) :=
      lines_congr w.mwf w'.mwf (fun k => by rw [s1.md, reloaded_m w])
    unfold Model.toText Model.sections
    rw [hl1, hl2, hl3, hl4, hl5]

namespace TextExample

def root : Stage := .mk [] [.mk (s% "g(r_sub,p_sub)") [.mk (s% "r_act == p_act") []]]
def root2 : Stage := .mk [] [.mk (s% "r_sub == p2_sub") []]

def build (e : Str) : Res Stage :=
  if e = s% "g(r.sub, p.sub) && r.act == p.act" then .ok root
  else if e = s% "r.sub == p2.sub" then .ok root2 else .err

/-- Two policies, roles, an effect, two matchers, and a stored rule. -/
def m : Model :=
  ((((((((Model.new.setDef 'm' (s% "m2") (s% "r.sub == p2.sub")).1.setDef 'r' (s% "r") (s% "sub,act")).1.setDef
    'p' (s% "p2") (s% "sub")).1.setDef 'p' (s% "p") (s% "sub , act,eft")).1.setDef
    'g' (s% "g") (s% "_, _")).1.setDef 'e' (s% "e") (s% "some(where (p.eft == allow))")).1.setDef
    'm' (s% "m") (s% "g(r.sub, p.sub) && r.act == p.act")).1.addRule [s% "p2", s% "alice"]).1

theorem made : Made build m :=
  .add (.setDef (.setDef (.setDef (.setDef (.setDef (.setDef (.setDef .new _ _ _) _ _ _) _ _ _) _ _ _) _ _ _)
    _ _ _) _ _ _) _ ⟨fun _ => by decide, fun h => absurd h (by decide), fun h => absurd h (by decide)⟩

/-- What `String` prints. -/
theorem text : m.toText = s% "[request_definition]\nr = sub, act\n\n[policy_definition]\np = sub, act, eft\np2 = sub\n\n[role_definition]\ng = _,_\n\n[policy_effect]\ne = some(where(p.eft==allow))\n\n[matchers]\nm = g(r.sub, p.sub) && r.act == p.act\nm2 = r.sub == p2.sub\n\n" := by
  decide +kernel

theorem plain : m.PlainText := by decide +kernel

theorem buildable : ∀ k e, m.mDefs.get k = some e → ∃ root, build e = .ok root ∧ m.Knows root.policyKey := by
  intro k e h
  have hm := GoMap.mem_of_get h
  have : m.mDefs = [(s% "m2", s% "r.sub == p2.sub"), (s% "m", s% "g(r.sub, p.sub) && r.act == p.act")] := by
    decide
  rw [this] at hm
  simp only [List.mem_cons, Prod.mk.injEq, List.not_mem_nil, or_false] at hm
  rcases hm with ⟨-, rfl⟩ | ⟨-, rfl⟩
  · exact ⟨root2, rfl, .inl ⟨by decide, by decide +kernel⟩⟩
  · exact ⟨root, rfl, .inl ⟨by decide, by decide +kernel⟩⟩

/-- The theorem applies to this model and the simple reader. -/
example : ∃ m', Model.new.loadText simpleIni build List.reverse m.toText = (m', .ok ()) ∧
    m'.pDefs.get (s% "p2") = m.pDefs.get (s% "p2") ∧ m'.policyRules (s% "p2") = some [] ∧
    m.policyRules (s% "p2") = some [[s% "alice"]] ∧ m'.toText = m.toText := by
  obtain ⟨m', h1, -, -, h2, -, -, -, h3, -, -, h4⟩ :=
    c68_text build build made plain simpleIni simpleIni_reads List.reverse List.reverse_perm buildable
  exact ⟨m', h1, h2 _, by rw [h3]; decide +kernel, by decide +kernel, h4⟩

/-- A matcher that cannot be built makes loading fail, although the definitions are set. -/
example : (Model.new.loadText simpleIni build id (s% "[matchers]\nm = r.sub ==\n")).2 = .err := by decide +kernel

/-- A key that does not fit its section makes loading fail. -/
example : (Model.new.loadText simpleIni build id (s% "[policy_definition]\nq = sub\n")).2 = .err := by
  decide +kernel

end TextExample

end Model

end Fastac
