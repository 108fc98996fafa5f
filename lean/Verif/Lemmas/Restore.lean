import Verif.Spec.Alike
import Verif.Lemmas.Condition
import Verif.Props.ModelText
import Verif.Props.File
import Verif.Props.Decision

/-!
# What models that look alike have in common; loading a model from its text and its rules
-/

namespace Fastac

/-! ## Questions about any domain -/

namespace DM

/-- The domains in front of the first reserved name. -/
def front : List Str → List Str
  | [] => []
  | d :: ds => if d = redundantRole ∨ d = defaultDomain then [] else d :: front ds

theorem front_clean : ∀ ds, Clean (front ds)
  | [] => by intro d h; cases h
  | d :: ds => by
    unfold front
    split
    · intro d h; cases h
    · rename_i h
      intro x hx
      rcases List.mem_cons.1 hx with rfl | hx
      · exact ⟨fun e => h (.inl e), fun e => h (.inr e)⟩
      · exact front_clean ds x hx

theorem front_length : ∀ ds, (front ds).length ≤ ds.length
  | [] => Nat.le_refl _
  | d :: ds => by
    unfold front
    split
    · simp
    · simpa using front_length ds

theorem query_front {β : Type} (q : RM → RM × β) : ∀ (ds : List Str) (fuel : Nat) (dm : DM),
    query q fuel dm ds = query q fuel dm (front ds)
  | _, 0, _ => by rw [query, query]
  | [], fuel + 1, dm => rfl
  | d :: ds, fuel + 1, dm => by
    unfold front
    by_cases h : d = redundantRole ∨ d = defaultDomain
    · rw [if_pos h]
      have : (getDomain (d :: ds)).1 = none := by
        unfold getDomain
        rcases h with rfl | rfl
        · simp
        · simp only; rw [if_neg (by decide)]; simp
      rw [query, query]
      cases hd : getDomain (d :: ds) with
      | mk a b =>
        rw [hd] at this
        cases this
        rfl
    · rw [if_neg h]
      have h1 : ∀ l, getDomain (d :: l) = (some d, l) := by
        intro l
        unfold getDomain
        simp only
        rw [if_neg (fun e => h (.inl e)), if_neg (fun e => h (.inr e))]
      rw [query, query, h1, h1]
      simp only [query_front q ds fuel]

end DM

namespace Mgr

/-- The answers of a domain manager, also for paths with reserved names. -/
theorem Base.hasLink_front {d : DM} (h : (dm d).Base) (a b : Str) (ds : List Str) :
    ∃ x, (dm d).hasLink a b ds = .ok (dm d, x) ∧
      (x = true ↔ a = b ∨ ∃ k, k + 1 + (DM.front ds).length ≤ 9 ∧
        Reach (fun u r => (u, r, DM.front ds) ∈ (dm d).links) k a b) := by
  obtain ⟨x, e, hx⟩ := Base.hasLink_dm h a b (DM.front ds) (DM.front_clean ds)
  refine ⟨x, ?_, hx⟩
  have hs := fun fuel hf => DM.query_same (fun rm => rm.hasLink a b) (DM.front ds) fuel 10 d (DM.front_clean ds)
    hf h.1 (fun π rm e => by
      obtain ⟨L, hi, _⟩ := (h.2 π rm e).1
      exact hi.hasLink_state a b)
  have hl := DM.front_length ds
  simp only [Mgr.hasLink, DM.hasLink] at e ⊢
  rw [hs _ (by unfold DM.fuelFor; omega)] at e
  rw [DM.query_front, hs _ (by unfold DM.fuelFor; omega)]
  exact e

end Mgr

namespace Model

/-! ## Models that look alike have the same functions -/

theorem mem_policyRules {m : Model} (h : m.Tidy) {k : Str} {rules : List Rule} (hp : m.policyRules k = some rules)
    (f : Rule) : f ∈ rules ↔ k :: f ∈ m.rules := by
  unfold policyRules at hp
  cases hq : m.pMap.get k with
  | some p =>
    rw [hq] at hp
    cases hp
    exact (mem_rules_p h hq f).symm
  | none =>
    rw [hq] at hp
    cases hr : m.rpMap.get k with
    | none => rw [hr] at hp; cases hp
    | some rp =>
      rw [hr] at hp
      cases hp
      exact (mem_rules_g h hr f).symm

theorem mem_links {m : Model} (h : m.Tidy) {k : Str} {rp : RolePolicy} (hr : m.rpMap.get k = some rp)
    (u r : Str) (ds : List Str) : (u, r, ds) ∈ rp.mgr.links ↔ k :: u :: r :: ds ∈ m.rules := by
  rw [mem_rules_g h hr, RolePolicy.mem_rules]
  constructor
  · intro h; exact ⟨u, r, ds, rfl, h⟩
  · rintro ⟨a, b, c, e, h⟩; cases e; exact h

theorem bool_of_iff {x y : Bool} {P : Prop} (h1 : x = true ↔ P) (h2 : y = true ↔ P) : x = y := by
  rw [Bool.eq_iff_iff, h1, h2]

theorem Alike.functions {build build' : Str → Res Stage} {m m' : Model} (hm : Made build m) (hm' : Made build' m')
    (h : Alike m m') (base : Str → Option Fn) : m'.functions base = m.functions base := by
  funext name
  have g1 := hm.wellKeyed.gg name
  have g2 := hm'.wellKeyed.gg name
  rw [h.g] at g2
  rw [← g1] at g2
  unfold Model.functions
  cases hr : m.rpMap.get name with
  | none =>
    cases hr' : m'.rpMap.get name with
    | none => rfl
    | some rp' => rw [hr, hr'] at g2; cases g2
  | some rp =>
    cases hr' : m'.rpMap.get name with
    | none => rw [hr, hr'] at g2; cases g2
    | some rp' =>
      simp only
      congr 1
      obtain ⟨b1, k1⟩ := hm.kinds name rp hr
      obtain ⟨b2, k2⟩ := hm'.kinds name rp' hr'
      rw [h.g, ← k1] at k2
      have hl : ∀ u r ds, (u, r, ds) ∈ rp'.mgr.links ↔ (u, r, ds) ∈ rp.mgr.links := by
        intro u r ds
        rw [mem_links hm.tidy hr, mem_links hm'.tidy hr', h.rules]
      funext args
      match args with
      | [] => rfl
      | [_] => rfl
      | u :: r :: ds =>
        unfold gFunction
        cases e1 : rp.mgr with
        | rm x =>
          cases e2 : rp'.mgr with
          | dm y => rw [e1, e2] at k2; exact absurd (k2.2 rfl) (by simp [Mgr.isRM])
          | rm y =>
            rw [e1] at b1 hl
            rw [e2] at b2 hl
            obtain ⟨v1, q1, w1⟩ := b1.hasLink_rm u r ds
            obtain ⟨v2, q2, w2⟩ := b2.hasLink_rm u r ds
            simp only [Mgr.Reach_congr (fun a b => hl a b [])] at w2
            simp only [q1, q2]
            simp only [bool_of_iff w2 w1]
        | dm x =>
          cases e2 : rp'.mgr with
          | rm y => rw [e1, e2] at k2; exact absurd (k2.1 rfl) (by simp [Mgr.isRM])
          | dm y =>
            rw [e1] at b1 hl
            rw [e2] at b2 hl
            obtain ⟨v1, q1, w1⟩ := b1.hasLink_front u r ds
            obtain ⟨v2, q2, w2⟩ := b2.hasLink_front u r ds
            simp only [Mgr.Reach_congr (fun a b => hl a b (DM.front ds))] at w2
            simp only [q1, q2]
            simp only [bool_of_iff w2 w1]

/-! ## Stored rules suit their definitions -/

/-- Every stored link fits the definition. -/
def Paths (m : Model) : Prop :=
  ∀ k rp, m.rpMap.get k = some rp → ∀ u r ds, (u, r, ds) ∈ rp.mgr.links →
    if m.gDefs.get k = some 2 then ds = [] else DM.Clean ds

theorem Paths.set {m : Model} (h : m.Paths) {k : Str} {rp : RolePolicy} (hp : m.rpMap.get k = some rp)
    {rp' : RolePolicy} (h1 : ∀ u r ds, (u, r, ds) ∈ rp'.mgr.links →
      (u, r, ds) ∈ rp.mgr.links ∨ if m.gDefs.get k = some 2 then ds = [] else DM.Clean ds) :
    Paths { m with rpMap := m.rpMap.set k rp' } := by
  intro k' q hq
  simp only [GoMap.get_set] at hq
  split at hq
  · rename_i e
    subst e
    cases hq
    intro u r ds hl
    rcases h1 u r ds hl with hl | hl
    · exact h k rp hp u r ds hl
    · exact hl
  · exact h k' q hq

theorem Paths.of_eq {m m' : Model} (h : m.Paths) (h1 : m'.rpMap = m.rpMap) (h2 : m'.gDefs = m.gDefs) :
    m'.Paths := by
  unfold Paths
  rw [h1, h2]
  exact h

theorem emitPolicy_paths {α : Type} {m : Model} (h : m.Paths) (k : Str) (ls : List Matcher) (pol : Policy) (a : α)
    (e : Option PolEvent) : (m.emitPolicy k ls pol a e).1.Paths := by
  unfold emitPolicy
  split
  · exact h.of_eq rfl rfl
  · split <;> exact h.of_eq rfl rfl

theorem Paths.setDef {m : Model} (h : m.Paths) (sec : Char) (key value : Str) : (m.setDef sec key value).1.Paths := by
  unfold Model.setDef
  split
  · exact h
  · cases key with
    | nil => exact h
    | cons c cs =>
      simp only
      split
      · exact h
      · split
        · exact h.of_eq rfl rfl
        · split
          · exact h.of_eq rfl rfl
          · split
            · intro k rp hk
              simp only [GoMap.get_set] at hk ⊢
              split at hk
              · cases hk
                intro u r ds hl
                have := newMgr_rules (roleDefNArgs value) []
                have h2 : u :: r :: ds ∈ RolePolicy.rules ⟨newMgr (roleDefNArgs value), []⟩ :=
                  (RolePolicy.mem_rules _ _).2 ⟨u, r, ds, rfl, hl⟩
                rw [this] at h2
                cases h2
              · rename_i e
                rw [if_neg e]
                exact h k rp hk
            · split <;> exact h.of_eq rfl rfl

theorem Paths.removeDef {m : Model} (h : m.Paths) (sec : Char) (key : Str) : (m.removeDef sec key).1.Paths := by
  unfold Model.removeDef
  split
  · exact h.of_eq rfl rfl
  · split
    · exact h.of_eq rfl rfl
    · split
      · intro k rp hk
        simp only [GoMap.get_del] at hk ⊢
        split at hk
        · cases hk
        · rename_i e
          rw [if_neg e]
          exact h k rp hk
      · split
        · exact h.of_eq rfl rfl
        · split
          · exact h.of_eq rfl rfl
          · exact h

theorem Paths.buildMatcher {build : Str → Res Stage} {m : Model} (h : m.Paths) (key : Str) :
    (m.buildMatcher build key).1.Paths := by
  unfold Model.buildMatcher
  repeat' split
  all_goals first
    | exact h
    | exact h.of_eq rfl rfl
    | (rename_i rp hrp _ mt _
       exact Paths.of_eq (h.set hrp (rp' := ⟨rp.mgr, rp.listeners ++ [mt]⟩) (fun _ _ _ h => .inl h)) rfl rfl)

theorem RolePolicy.addRule_mgr {rp : RolePolicy} {u r : Str} {ds : List Str} {mgr' : Mgr} {b : Bool}
    (e : rp.mgr.addLink u r ds = .ok (mgr', b)) : (rp.addRule (u :: r :: ds)).1.mgr = mgr' := by
  unfold RolePolicy.addRule
  simp only [e]
  cases b with
  | true => simp only; rw [(RolePolicy.emit_mgr rp mgr' _).1]
  | false => rfl

theorem RolePolicy.removeRule_mgr {rp : RolePolicy} {u r : Str} {ds : List Str} {mgr' : Mgr} {b : Bool}
    (e : rp.mgr.deleteLink u r ds = .ok (mgr', b)) : (rp.removeRule (u :: r :: ds)).1.mgr = mgr' := by
  unfold RolePolicy.removeRule
  simp only [e]
  cases b with
  | true => simp only; rw [(RolePolicy.emit_mgr rp mgr' _).1]
  | false => rfl

theorem Paths.inline {build : Str → Res Stage} {m : Model} (h : m.Paths) (expr : Str) :
    (m.buildFromExpr build expr).1.Paths := by
  rw [buildFromExpr_eq]
  exact Paths.of_eq ((h.of_eq rfl rfl : Paths { m with mDefs := m.mDefs.set [] expr }).buildMatcher []) rfl rfl

theorem Made.paths {build : Str → Res Stage} {m : Model} (h : Made build m) : m.Paths := by
  induction h with
  | new => intro k rp hk; cases hk
  | setDef _ sec key value ih => exact ih.setDef sec key value
  | removeDef _ sec key ih => exact ih.removeDef sec key
  | build _ key ih => exact ih.buildMatcher key
  | inline _ expr ih => exact ih.inline expr
  | @add m hm r hf h =>
    by_cases hk : ∃ k f, r = k :: f ∧ m.Knows k
    · obtain ⟨k, f, rfl, hk⟩ := hk
      unfold Knows GoMap.has at hk
      cases k with
      | nil => simp at hk
      | cons c cs =>
        simp only [List.head?_cons, Option.some.injEq] at hk
        simp only [Model.addRule]
        rcases hk with ⟨rfl, hk⟩ | ⟨rfl, hk⟩
        · obtain ⟨p, hp⟩ := Option.isSome_iff_exists.1 hk
          simp only [if_true, addPolicyRule, hp]
          exact emitPolicy_paths h _ _ _ _ _
        · obtain ⟨rp, hp⟩ := Option.isSome_iff_exists.1 hk
          obtain ⟨u, r, ds, rfl, hd⟩ := hm.tidy.pathOk hp hf
          obtain ⟨mgr', b, e, -, -, -, hl⟩ := (hm.tidy.roles _ _ hp).2.1.addLink u r ds hd
          simp only [show ('g' : Char) ≠ 'p' by decide, if_false, if_true, addRoleRule, hp]
          refine h.set hp ?_
          intro u' r' ds' hl'
          rw [RolePolicy.addRule_mgr e, hl] at hl'
          rcases hl' with hl' | hl'
          · exact .inl hl'
          · cases hl'
            right
            obtain ⟨-, f1, f2⟩ := hf
            split
            · rename_i hn
              have := f1 rfl hn
              simpa using this
            · rename_i hn
              exact (f2 rfl hn).2
    · rw [(addRule_unknown r (fun k f e hk' => hk ⟨k, f, e, hk'⟩)).1.1]
      exact h
  | @remove m hm r hf h =>
    by_cases hk : ∃ k f, r = k :: f ∧ m.Knows k
    · obtain ⟨k, f, rfl, hk⟩ := hk
      unfold Knows GoMap.has at hk
      cases k with
      | nil => simp at hk
      | cons c cs =>
        simp only [List.head?_cons, Option.some.injEq] at hk
        simp only [Model.removeRule]
        rcases hk with ⟨rfl, hk⟩ | ⟨rfl, hk⟩
        · obtain ⟨p, hp⟩ := Option.isSome_iff_exists.1 hk
          simp only [if_true, removePolicyRule, hp]
          exact emitPolicy_paths h _ _ _ _ _
        · obtain ⟨rp, hp⟩ := Option.isSome_iff_exists.1 hk
          obtain ⟨u, r, ds, rfl, hd⟩ := hm.tidy.pathOk hp hf
          obtain ⟨mgr', b, e, -, -, -, hl⟩ := (hm.tidy.roles _ _ hp).2.1.deleteLink u r ds hd
          simp only [show ('g' : Char) ≠ 'p' by decide, if_false, if_true, removeRoleRule, hp]
          refine h.set hp ?_
          intro u' r' ds' hl'
          rw [RolePolicy.removeRule_mgr e, hl] at hl'
          exact .inl hl'.1
    · rw [(removeRule_unknown r (fun k f e hk' => hk ⟨k, f, e, hk'⟩)).1.1]
      exact h
  | @clear m hm k h =>
    simp only [clearPolicy]
    cases hp : m.pMap.get k with
    | some p => exact emitPolicy_paths h _ _ _ _ _
    | none =>
      cases hr : m.rpMap.get k with
      | none => exact h
      | some rp =>
        refine h.set hr ?_
        intro u r ds hl
        have : rp.clear.mgr.links = [] := (hm.tidy.roles _ _ hr).2.1.clear.2.2
        rw [this] at hl
        cases hl

/-- The stored rules suit the definitions. -/
theorem Kept.suits {build : Str → Res Stage} (hb : ∀ e s, build e = .ok s → s.Binary) {m : Model}
    (h : Kept build m) : ∀ x ∈ m.rules, m.Suits x ∧ ∃ k f, x = k :: f ∧ m.Knows k := by
  intro x hx
  have ht := h.made.tidy
  have hs := h.step hb
  obtain ⟨k, f, rfl, ⟨p, hp, hf⟩ | ⟨rp, hr, hf⟩⟩ := (mem_rules ht _).1 hx
  · obtain ⟨h1, -, h2⟩ := ht.pols k p hp
    obtain ⟨d, hd, hg, -⟩ := hs.p k p hp
    have hng : k.head? ≠ some 'g' := by rw [h1]; decide
    refine ⟨⟨⟨fun _ => h2 f hf, fun e => absurd e hng, fun e => absurd e hng⟩, fun _ d' hd' => ?_,
      fun e => absurd e hng⟩, k, f, rfl, .inl ⟨h1, ?_⟩⟩
    · rw [hd] at hd'
      cases hd'
      exact hg f hf
    · unfold GoMap.has; rw [hp]; rfl
  · obtain ⟨h1, -, -⟩ := ht.roles k rp hr
    have hnp : k.head? ≠ some 'p' := by rw [h1]; decide
    obtain ⟨u, r, ds, rfl, hl⟩ := (RolePolicy.mem_rules _ _).1 hf
    have hpath := h.made.paths k rp hr u r ds hl
    refine ⟨⟨⟨fun e => absurd e hnp, fun _ hn => ?_, fun _ hn => ?_⟩, fun e => absurd e hnp, fun _ hn => ?_⟩, k, _,
      rfl, .inr ⟨h1, by unfold GoMap.has; rw [hr]; rfl⟩⟩
    · rw [if_pos hn] at hpath
      rw [hpath]; rfl
    · rw [if_neg hn] at hpath
      exact ⟨by simp, hpath⟩
    · obtain ⟨hg, -⟩ := hs.g k rp hr hn
      have := hg _ hf
      exact ⟨by rw [this.len]; rfl, this.noComma⟩

/-! ## Loading -/

theorem Kept.setDefs {build : Str → Res Stage} (sec : Char) (l : List (Str × Str)) : ∀ {m : Model},
    Kept build m → Kept build (m.setDefs sec l).1 := by
  induction l with
  | nil => intro m h; exact h
  | cons e l ih =>
    intro m h
    obtain ⟨k, v⟩ := e
    have := h.setDef sec k v
    rw [Model.setDefs]
    cases hr : m.setDef sec k v with
    | mk m' r =>
      rw [hr] at this
      cases r <;> first | exact ih this | exact this

theorem Kept.loadSections {build : Str → Res Stage} (secs : IniData) : ∀ {m : Model},
    Kept build m → Kept build (m.loadSections secs).1 := by
  induction secs with
  | nil => intro m h; exact h
  | cons s secs ih =>
    intro m h
    obtain ⟨n, kvs⟩ := s
    rw [Model.loadSections]
    cases secKey n with
    | none => exact ih h
    | some c =>
      have := Kept.setDefs c kvs h
      simp only
      cases hr : m.setDefs c kvs with
      | mk m' r =>
        rw [hr] at this
        cases r <;> first | exact ih this | exact this

theorem buildMatcher_mDefs (build : Str → Res Stage) (m : Model) (k : Str) :
    (m.buildMatcher build k).1.mDefs = m.mDefs := by
  unfold Model.buildMatcher
  repeat' split
  all_goals rfl

theorem Bound.buildMatchers {build : Str → Res Stage} {key : Str} {root : Stage} (ks : List Str) : ∀ {m : Model},
    Bound build key root m → key ∉ ks → Bound build key root (m.buildMatchers build ks).1 := by
  induction ks with
  | nil => intro m h _; exact h
  | cons k ks ih =>
    intro m h hn
    have := h.build k (fun e => hn (by simp [e]))
    rw [Model.buildMatchers]
    cases hr : m.buildMatcher build k with
    | mk m' r =>
      rw [hr] at this
      cases r <;> first | exact ih this (fun hm => hn (by simp [hm])) | exact this

/-- After `BuildMatchers` every matcher is bound. -/
theorem Kept.buildMatchers {build : Str → Res Stage} {key expr : Str} {root : Stage} (hb : build expr = .ok root)
    (ks : List Str) : ∀ {m : Model}, Kept build m → ks.Nodup → key ∈ ks → m.mDefs.get key = some expr →
    (m.buildMatchers build ks).2 = .ok () → Bound build key root (m.buildMatchers build ks).1 := by
  induction ks with
  | nil => intro m _ _ hk; cases hk
  | cons k ks ih =>
    intro m h hn hk hd hok
    obtain ⟨hn1, hn2⟩ := List.nodup_cons.1 hn
    rw [Model.buildMatchers] at hok ⊢
    by_cases e : key = k
    · subst e
      have h1 : (m.buildMatcher build key).2 = .ok () → Bound build key root (m.buildMatcher build key).1 :=
        fun hok => .built h expr hd hb hok
      cases hr : m.buildMatcher build key with
      | mk m' r =>
        rw [hr] at h1 hok
        cases r with
        | ok _ => exact (h1 rfl).buildMatchers ks hn1
        | err => cases hok
        | panic => cases hok
    · have h1 := h.build k
      have h2 := buildMatcher_mDefs build m k
      have hk' : key ∈ ks := by
        rcases List.mem_cons.1 hk with h | h
        · exact absurd h e
        · exact h
      cases hr : m.buildMatcher build k with
      | mk m' r =>
        rw [hr] at h1 h2 hok
        cases r with
        | ok _ => exact ih h1 hn2 hk' (by rw [h2]; exact hd) hok
        | err => cases hok
        | panic => cases hok

theorem pDefs_add (m : Model) (r : Rule) : (m.addRule r).1.pDefs = m.pDefs := by
  match r with
  | [] => rfl
  | [] :: _ => rfl
  | (c :: cs) :: f => exact (c32_dispatch_partial m (c :: cs) f (by simp)).1.1.2.1

theorem suits_of_defs {m m' : Model} (h : ∀ k, m'.pDefs.get k = m.pDefs.get k)
    (h' : ∀ k, m'.gDefs.get k = m.gDefs.get k) {r : Rule} (hs : m.Suits r) : m'.Suits r := by
  cases r with
  | nil => trivial
  | cons k f =>
    unfold Suits Fits at hs ⊢
    simp only [h, h']
    exact hs

theorem Bound.each {build : Str → Res Stage} {key : Str} {root : Stage} (rs : List Rule) : ∀ {m : Model},
    Bound build key root m → (∀ r ∈ rs, m.Suits r) → Bound build key root (Model.each Model.addRule m rs).1 := by
  induction rs with
  | nil => intro m h _; exact h
  | cons r rs ih =>
    intro m h hs
    have h1 := h.add r (hs r (by simp))
    have h2 : ∀ x ∈ rs, (m.addRule r).1.Suits x := fun x hx =>
      suits_of_defs (fun k => by rw [pDefs_add]) (fun k => by rw [gDefs_add]) (hs x (by simp [hx]))
    simp only [Model.each]
    split
    · exact ih h1 h2
    · exact h1
    · exact h1

end Model

end Fastac
