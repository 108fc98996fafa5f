import Verif.Lemmas.Standing
import Verif.Lemmas.Formula

/-!
# Loading a configuration
-/

namespace Fastac

namespace Model

/-- What is known after the definitions of `r`, `p` and some `g`. -/
structure Defined (rText pText : Str) (ks : List Str) (m : Model) : Prop where
  r : m.rDefs.get (s% "r") = some rText
  pd : m.pDefs.get (s% "p") = some (newPolicyDef (s% "p") pText)
  pm : m.pMap.get (s% "p") = some ⟨Policy.empty, []⟩
  keys : ∀ k, m.pMap.has k = true ↔ k = s% "p"
  roles : ∀ k, m.rpMap.has k = true ↔ k ∈ ks
  new : ∀ k rp, m.rpMap.get k = some rp → rp.mgr = .rm (RM.new 10) ∨ rp.mgr = .dm (DM.new 10)
  mm : m.mMap = []
  tidy : m.Tidy
  fine : m.Fine

theorem defined_rp (rText pText : Str) :
    Defined rText pText [] ((Model.new.setDef 'r' (s% "r") rText).1.setDef 'p' (s% "p") pText).1 := by
  have t : ((Model.new.setDef 'r' (s% "r") rText).1.setDef 'p' (s% "p") pText).1.Tidy :=
    ((Made.new (build := fun _ => .err)).setDef _ _ _ |>.setDef _ _ _).tidy
  have f0 : Model.new.Fine := ⟨fun k p h => (by cases h), fun k p h => (by cases h)⟩
  refine ⟨rfl, rfl, rfl, ?_, ?_, ?_, rfl, t, (f0.setDef _ _ _).setDef _ _ _⟩
  · intro k
    show GoMap.has [(s% "p", _)] k = true ↔ _
    simp only [GoMap.has, GoMap.get]
    split
    · rename_i h; simp_all
    · rename_i h; simp; exact fun e => h (by simp [e])
  · intro k
    show GoMap.has [] k = true ↔ _
    simp [GoMap.has, GoMap.get]
  · intro k rp h; cases h

theorem Defined.setG {rText pText : Str} {ks : List Str} {m : Model} (h : m.Defined rText pText ks)
    {key : Str} (hk : key.head? = some 'g') (v : Str) :
    Defined rText pText (key :: ks) (m.setDef 'g' key v).1 := by
  have ht := h.tidy.setDef 'g' key v
  have hf := h.fine.setDef 'g' key v
  cases key with
  | nil => cases hk
  | cons c cs =>
    simp only [List.head?_cons, Option.some.injEq] at hk
    subst hk
    have e : m.setDef 'g' ('g' :: cs) v = ({ m with
            gDefs := m.gDefs.set ('g' :: cs) (roleDefNArgs v)
            mMap := m.freeze ('g' :: cs)
            rpMap := m.rpMap.set ('g' :: cs)
              ⟨if roleDefNArgs v = 2 then Mgr.rm (RM.new 10) else Mgr.dm (DM.new 10), []⟩ }, .ok ()) := by
      simp [Model.setDef]
    rw [e] at ht hf ⊢
    refine ⟨h.r, h.pd, h.pm, h.keys, ?_, ?_, ?_, ht, hf⟩
    · intro k
      have := h.roles k
      unfold GoMap.has at this ⊢
      simp only [GoMap.get_set, List.mem_cons, ← this]
      split
      · rename_i e; subst e; simp
      · rename_i e; simp; intro e'; exact absurd e'.symm e
    · intro k rp hg
      simp only [GoMap.get_set] at hg
      split at hg
      · simp only [Option.some.injEq] at hg
        subst hg
        simp only
        split
        · exact Or.inl rfl
        · exact Or.inr rfl
      · exact h.new k rp hg
    · simp [freeze, h.mm]

theorem Defined.setGs {rText pText : Str} : ∀ (gs : List (Str × Str)) {ks : List Str} {m : Model},
    m.Defined rText pText ks → (∀ g ∈ gs, g.1.head? = some 'g') →
    Defined rText pText ((gs.map Prod.fst).reverse ++ ks)
      ((gs.map (fun g => ('g', g.1, g.2))).foldl (fun m (d : Char × Str × Str) => (m.setDef d.1 d.2.1 d.2.2).1) m)
  | [], ks, m, h, _ => by simpa using h
  | g :: gs, ks, m, h, hg => by
    have := Defined.setGs gs (h.setG (hg g (by simp)) g.2) (fun g' hm => hg g' (by simp [hm]))
    simpa using this

theorem define_conf (rText pText : Str) (gs : List (Str × Str)) (hg : ∀ g ∈ gs, g.1.head? = some 'g')
    (eText mText : Str) :
    ((define (conf rText pText gs eText mText)).Defined rText pText (gs.map Prod.fst).reverse) ∧
    (define (conf rText pText gs eText mText)).eDefs.get (s% "e") = some (effectExpr eText) ∧
    (define (conf rText pText gs eText mText)).mDefs.get (s% "m") = some mText := by
  have h := (defined_rp rText pText).setGs gs hg
  simp only [List.append_nil] at h
  have e : define (conf rText pText gs eText mText) =
      (((((gs.map (fun g => ('g', g.1, g.2))).foldl
        (fun m (d : Char × Str × Str) => (m.setDef d.1 d.2.1 d.2.2).1)
        ((Model.new.setDef 'r' (s% "r") rText).1.setDef 'p' (s% "p") pText).1)).setDef 'e' (s% "e") eText).1.setDef
          'm' (s% "m") mText).1 := by
    simp only [define, conf, List.foldl_cons, List.foldl_append, List.foldl_nil]
  rw [e]
  generalize (gs.map (fun g => ('g', g.1, g.2))).foldl
        (fun m (d : Char × Str × Str) => (m.setDef d.1 d.2.1 d.2.2).1)
        ((Model.new.setDef 'r' (s% "r") rText).1.setDef 'p' (s% "p") pText).1 = m1 at h
  have ht := (h.tidy.setDef 'e' (s% "e") eText).setDef 'm' (s% "m") mText
  have hf := (h.fine.setDef 'e' (s% "e") eText).setDef 'm' (s% "m") mText
  exact ⟨⟨h.r, h.pd, h.pm, h.keys, h.roles, h.new, h.mm, ht, hf⟩, GoMap.get_set_self .., GoMap.get_set_self ..⟩

/-- Building depends only on the text of the matcher. -/
theorem buildMatcher_congr {build build' : Str → Res Stage} {m : Model} {key text : Str}
    (hm : m.mDefs.get key = some text) (h : build text = build' text) :
    m.buildMatcher build key = m.buildMatcher build' key := by
  unfold buildMatcher
  simp only [hm, h]

theorem Base_new_rm : (Mgr.rm (RM.new 10)).Base := ⟨RM.Tidy.new _ _, rfl, rfl⟩

theorem Base_new_dm : (Mgr.dm (DM.new 10)).Base := by
  refine ⟨DM.plain_new 10 none, ?_⟩
  intro π r e
  rw [DM.at_new] at e
  cases e

/-- The model after loading a configuration. -/
theorem configured_std {build : Str → Res Stage} {rText pText eText mText : Str} {gs : List (Str × Str)}
    (hg : ∀ g ∈ gs, g.1.head? = some 'g') {root : Stage} (hr : build mText = .ok root) (hb : root.Binary)
    (hk : root.policyKey = s% "p") {m : Model}
    (hm : m = configured build (conf rText pText gs eText mText)) :
    m.Std (newPolicyDef (s% "p") pText) root ∧
      m.rDefs.get (s% "r") = some rText ∧ m.eDefs.get (s% "e") = some (effectExpr eText) ∧
      (∀ k, m.Knows k ↔ k = s% "p" ∨ k ∈ gs.map Prod.fst) ∧ (∀ k, m.rpMap.has k = true ↔ k ∈ gs.map Prod.fst) ∧
      m.rules = [] ∧ m.rpMap = (define (conf rText pText gs eText mText)).rpMap ∧
      m.gDefs = (define (conf rText pText gs eText mText)).gDefs := by
  obtain ⟨hd, he, hmd⟩ := define_conf rText pText gs hg eText mText
  unfold configured at hm
  generalize hm1 : define (conf rText pText gs eText mText) = m1 at hd he hmd hm
  have hf : m.Fine := by
    have e : m1.buildMatcher build (s% "m") =
        m1.buildMatcher (fun t => if t = mText then .ok root else .err) (s% "m") :=
      buildMatcher_congr hmd (by simp [hr])
    rw [hm, e]
    refine hd.fine.buildMatcher ?_ _
    intro e s h
    split at h
    · cases h; exact hb
    · cases h
  have ht : m.Tidy := by rw [hm]; exact hd.tidy.buildMatcher _ _
  obtain ⟨s1, -, s3, s4, s5, s6⟩ := serves_build hmd hr hb (by rw [hk]; rfl) (pDef := newPolicyDef (s% "p") pText)
    (by rw [hk]; exact hd.pd) hk.symm (p := ⟨Policy.empty, []⟩) (by rw [hk]; exact hd.pm) Policy.WF.empty
    (by simp [Policy.rules, Policy.empty])
  rw [← hm] at s1 s3 s4 s5 s6
  rw [hk] at s1
  have hkeys : ∀ k, m.pMap.has k = true ↔ k = s% "p" := by
    intro k
    have e1 := newMatcher_idx (newPolicyDef (s% "p") pText) root hb [] (by simp)
    obtain ⟨mt, e1, -⟩ := e1
    have : m.pMap = m1.pMap.set (s% "p") ⟨Policy.empty, [mt]⟩ := by
      rw [hm]
      unfold buildMatcher
      have hmp : m1.matcherPolicyDef (s% "p") = .ok (newPolicyDef (s% "p") pText) := by
        simp [matcherPolicyDef, hd.pd]
      simp only [hmd, hr, hk, hmp, hd.pm]
      have : Policy.rules Policy.empty = [] := rfl
      simp only [this, e1, List.nil_append]
    rw [this, ← hd.keys k]
    unfold GoMap.has
    rw [GoMap.get_set]
    split
    · rename_i e; subst e; rw [hd.pm]; simp
    · rfl
  have hroles : ∀ k, m.rpMap.has k = true ↔ k ∈ gs.map Prod.fst := by
    intro k; rw [s5, hd.roles]; simp
  have hkn : ∀ k, m.Knows k ↔ k = s% "p" ∨ k ∈ gs.map Prod.fst := by
    intro k
    unfold Knows
    rw [hkeys, hroles]
    constructor
    · rintro (⟨_, a⟩ | ⟨_, a⟩)
      · exact Or.inl a
      · exact Or.inr a
    · rintro (rfl | a)
      · exact Or.inl ⟨rfl, rfl⟩
      · obtain ⟨g, hgm, rfl⟩ := List.mem_map.1 a
        exact Or.inr ⟨hg g hgm, a⟩
  have hbase : m.BaseRoles := by
    intro k rp h
    rw [s5] at h
    rcases hd.new k rp h with e | e
    · rw [e]; exact Base_new_rm
    · rw [e]; exact Base_new_dm
  have hrules : m.rules = [] := by
    rw [List.eq_nil_iff_forall_not_mem]
    intro x hx
    obtain ⟨k, f, rfl, ⟨p, hp, hm'⟩ | ⟨rp, hp, hm'⟩⟩ := (mem_rules ht x).1 hx
    · have hk' : k = s% "p" := by
        rw [← hkeys k]; unfold GoMap.has; rw [hp]; rfl
      subst hk'
      obtain ⟨p0, i, mt, h0, -⟩ := s1.live
      rw [hp] at h0
      cases h0
      have hmem := hm'
      have : p.policy = Policy.empty := by
        have := hm
        unfold buildMatcher at this
        obtain ⟨mt', e1, -⟩ := newMatcher_idx (newPolicyDef (s% "p") pText) root hb [] (by simp)
        have hmp : m1.matcherPolicyDef (s% "p") = .ok (newPolicyDef (s% "p") pText) := by
          simp [matcherPolicyDef, hd.pd]
        have hnil : Policy.rules Policy.empty = [] := rfl
        simp only [hmd, hr, hk, hmp, hd.pm, hnil, e1] at this
        rw [this] at hp
        simp only [GoMap.get_set_self, Option.some.injEq] at hp
        rw [← hp]
      rw [this] at hmem
      simp [Policy.rules, Policy.empty] at hmem
    · rw [s5] at hp
      rw [RolePolicy.rules_eq] at hm'
      rcases hd.new k rp hp with e | e
      · rw [e] at hm'
        simp [Mgr.links, Mgr.runs, RM.new] at hm'
      · rw [e] at hm'
        simp [Mgr.links_dm, DM.new, DM.range, DM.dfltLinks, DM.rangeSubs] at hm'
  refine ⟨⟨ht, hf, s1, hbase⟩, by rw [s3]; exact hd.r, by rw [s4]; exact he, hkn, hroles, hrules, s5, s6⟩

end Model

end Fastac
