import Verif.Lemmas.Objects
import Verif.Lemmas.Slices

/-!
# Models that share nothing are values
-/

namespace Fastac

theorem GoMap.mapV_congr {K V W : Type} {f g : V → W} {m : GoMap K V} (h : ∀ e ∈ m, f e.2 = g e.2) :
    m.mapV f = m.mapV g := by
  unfold GoMap.mapV
  exact List.map_congr_left (fun e he => by rw [h e he])

theorem GoMap.mapV_set_at {K V W : Type} [DecidableEq K] {f g : V → W} {k : K} {v : V} :
    ∀ {m : GoMap K V}, m.WF → m.get k = some v → (∀ e ∈ m, e.1 ≠ k → g e.2 = f e.2) →
    m.mapV g = (m.mapV f).set k (g v)
  | [], _, h, _ => by cases h
  | (k', v') :: m, hw, h, hf => by
    have hw' : GoMap.WF m := by unfold GoMap.WF at hw ⊢; simp only [List.map_cons, List.nodup_cons] at hw; exact hw.2
    have hn : ∀ e ∈ m, e.1 ≠ k' := by
      intro e he hk
      unfold GoMap.WF at hw
      simp only [List.map_cons, List.nodup_cons] at hw
      exact hw.1 (List.mem_map.2 ⟨e, he, hk⟩)
    show (k', g v') :: GoMap.mapV g m = GoMap.set ((k', f v') :: GoMap.mapV f m) k (g v)
    simp only [GoMap.get] at h
    simp only [GoMap.set]
    split at h
    · rename_i e
      subst e
      cases h
      rw [if_pos rfl, GoMap.mapV_congr (fun x hx => hf x (List.mem_cons_of_mem _ hx) (hn x hx))]
    · rename_i e
      rw [if_neg e, GoMap.mapV_set_at hw' h (fun x hx => hf x (List.mem_cons_of_mem _ hx)),
        hf (k', v') (by simp) e]

namespace Realm

variable {build : Str → Res Stage} {w w' : Realm}

/-- The model `m` at `a` has only objects of its own, each under one key. -/
structure OwnModel (own : Nat → Nat) (key : Nat → Str) (w : Realm) (a : Nat) (m : OModel) : Prop where
  pwf : m.pMap.WF
  gwf : m.rpMap.WF
  p : ∀ k o, m.pMap.get k = some o → own o = a ∧ key o = k ∧ k.head? = some 'p' ∧
    ∃ (p : Policy) (ls : List Matcher), w.pols[o]? = some ⟨.rules p, ls⟩
  g : ∀ k o, m.rpMap.get k = some o → own o = a ∧ key o = k ∧ k.head? = some 'g' ∧
    ∃ (g : Nat) (ls : List Matcher), w.pols[o]? = some ⟨.links g, ls⟩
  mm : ∀ k x, (k, x) ∈ m.mMap → own x.1 = a ∧ ∃ mt, w.matcher x = some mt
  defs : ∀ k d, m.pDefs.get k = some d → d.key = k

/-- The objects of the models are apart. -/
structure Apart (own : Nat → Nat) (key : Nat → Str) (w : Realm) : Prop where
  models : ∀ a m, w.models[a]? = some m → OwnModel own key w a m
  ls : ∀ (o : Nat) (ob : OPol), w.pols[o]? = some ob → ∀ mt ∈ ob.listeners, mt.pDef.key = key o
  inj : ∀ (o o' g : Nat) (ls ls' : List Matcher), w.pols[o]? = some ⟨.links g, ls⟩ → w.pols[o']? = some ⟨.links g, ls'⟩ →
    o = o'
  lt : ∀ (o g : Nat) (ls : List Matcher), w.pols[o]? = some ⟨.links g, ls⟩ → g < w.mgrs.length

theorem Apart.empty : Apart (fun _ => 0) (fun _ => []) empty :=
  ⟨by simp [Realm.empty], by simp [Realm.empty], by simp [Realm.empty], by simp [Realm.empty]⟩

/-- The models are the same ones, except that the value of the model `a` has changed by `f`. -/
def Moves (w w' : Realm) (a : Option Nat) (f : Model → Model) : Prop :=
  ∀ b m, w.models[b]? = some m → ∃ m', w'.models[b]? = some m' ∧
    w'.value m' = if a = some b then f (w.value m) else w.value m

theorem Moves.refl (w : Realm) (a : Option Nat) : Moves w w a id := by
  intro b m h
  refine ⟨m, h, ?_⟩
  split <;> rfl

theorem Moves.trans {w'' : Realm} {a : Option Nat} {f g : Model → Model} (h : Moves w w' a f) (h' : Moves w' w'' a g) :
    Moves w w'' a (fun m => g (f m)) := by
  intro b m hm
  obtain ⟨m1, e1, e2⟩ := h b m hm
  obtain ⟨m2, e3, e4⟩ := h' b m1 e1
  refine ⟨m2, e3, ?_⟩
  rw [e4, e2]
  split <;> rfl

theorem Moves.weaken {a : Option Nat} (h : Moves w w' none id) : Moves w w' a id := by
  intro b m hm
  obtain ⟨m1, e1, e2⟩ := h b m hm
  refine ⟨m1, e1, ?_⟩
  rw [e2, if_neg (by simp)]
  split <;> rfl

theorem Moves.of_eq {a : Nat} {f g : Model → Model} {m : OModel} (h : Moves w w' (some a) f) (hm : w.models[a]? = some m)
    (e : f (w.value m) = g (w.value m)) : Moves w w' (some a) g := by
  intro b m' hb
  obtain ⟨m1, e1, e2⟩ := h b m' hb
  refine ⟨m1, e1, ?_⟩
  rw [e2]
  by_cases hab : some a = some b
  · cases hab
    rw [hm] at hb
    cases hb
    simp only [if_true, e]
  · simp only [if_neg hab]

/-! ## What a value depends on -/

theorem resolve_entry {w : Realm} {m : OModel} {x : Nat × Nat} {mt : Matcher} (h : w.matcher x = some mt) :
    (w.value m).resolve (w.entry m x) = some mt := by
  obtain ⟨o, i⟩ := x
  unfold entry
  simp only [h]
  split
  · rename_i hg
    unfold matcher at h
    simp only at h hg ⊢
    cases hob : w.pols[o]? with
    | none => rw [hob] at h; cases h
    | some ob =>
      rw [hob] at h
      simp only [Option.bind_some] at h
      unfold Model.resolve value
      simp only [GoMap.mapV_get]
      unfold OModel.getPolicy at hg
      cases hp : m.pMap.get mt.pDef.key with
      | some o' =>
        rw [hp] at hg
        simp only [Option.some.injEq] at hg
        subst hg
        simp only [Option.map_some, polObj, hob]
        cases ob.hold <;> exact h
      | none =>
        rw [hp] at hg
        simp only at hg
        simp only [Option.map_none, hg, Option.map_some, rolePol, hob]
        cases ob.hold <;> exact h
  · rfl

theorem value_congr {own : Nat → Nat} {key : Nat → Str} {a : Nat} {m : OModel} (h : OwnModel own key w a m)
    (hp : ∀ o, own o = a → o < w.pols.length → w'.pols[o]? = w.pols[o]?)
    (hg : ∀ (o g : Nat) (ls : List Matcher), own o = a → w.pols[o]? = some ⟨.links g, ls⟩ → w'.mgrs[g]? = w.mgrs[g]?) :
    w'.value m = w.value m := by
  unfold value
  have e1 : m.pMap.mapV w'.polObj = m.pMap.mapV w.polObj := by
    refine GoMap.mapV_congr (fun e he => ?_)
    obtain ⟨h1, _, _, p, ls, h4⟩ := h.p e.1 e.2 (h.pwf.get_of_mem he)
    have := hp e.2 h1 (List.getElem?_eq_some_iff.1 h4).1
    unfold polObj
    rw [this, h4]
  have e2 : m.rpMap.mapV w'.rolePol = m.rpMap.mapV w.rolePol := by
    refine GoMap.mapV_congr (fun e he => ?_)
    obtain ⟨h1, _, _, g, ls, h4⟩ := h.g e.1 e.2 (h.gwf.get_of_mem he)
    have := hp e.2 h1 (List.getElem?_eq_some_iff.1 h4).1
    have := hg e.2 g ls h1 h4
    unfold rolePol role
    simp only [*]
  have e3 : m.mMap.mapV (w'.entry m) = m.mMap.mapV (w.entry m) := by
    refine GoMap.mapV_congr (fun e he => ?_)
    obtain ⟨h1, mt, h2⟩ := h.mm e.1 e.2 he
    have hlt : e.2.1 < w.pols.length := by
      unfold matcher at h2
      cases hx : w.pols[e.2.1]? with
      | none => rw [hx] at h2; cases h2
      | some ob => exact (List.getElem?_eq_some_iff.1 hx).1
    unfold entry matcher
    rw [hp _ h1 hlt]
  rw [e1, e2, e3]

/-! ## A policy changes -/

/-- `o` is a policy of the model and becomes `ob'`. -/
theorem value_setPol {own : Nat → Nat} {key : Nat → Str} (h : Apart own key w) {a : Nat} {m : OModel}
    (hm : w.models[a]? = some m) {k : Str} {o : Nat} (hk : m.pMap.get k = some o) {p : Policy} {ls : List Matcher}
    (ho : w.pols[o]? = some ⟨.rules p, ls⟩) (p' : Policy) {ls' : List Matcher} (hl : StillThere ls ls') :
    (w.setPol o ⟨.rules p', ls'⟩).value m = { w.value m with pMap := (w.value m).pMap.set k ⟨p', ls'⟩ } := by
  have hO := h.models a m hm
  have hlo := (List.getElem?_eq_some_iff.1 ho).1
  have e1 : m.pMap.mapV (w.setPol o ⟨.rules p', ls'⟩).polObj = (m.pMap.mapV w.polObj).set k ⟨p', ls'⟩ := by
    have := GoMap.mapV_set_at (f := w.polObj) (g := (w.setPol o ⟨.rules p', ls'⟩).polObj) hO.pwf hk (by
      intro e he hne
      obtain ⟨_, h2, _, p, ls, h4⟩ := hO.p e.1 e.2 (hO.pwf.get_of_mem he)
      obtain ⟨_, h2', _⟩ := hO.p k o hk
      have : o ≠ e.2 := fun c => hne (by rw [← h2, ← h2', c])
      unfold polObj setPol
      simp only [List.getElem?_set_ne this, h4])
    rw [this]
    congr 1
    unfold polObj setPol
    simp only [List.getElem?_set_self hlo]
  have e2 : m.rpMap.mapV (w.setPol o ⟨.rules p', ls'⟩).rolePol = m.rpMap.mapV w.rolePol := by
    refine GoMap.mapV_congr (fun e he => ?_)
    obtain ⟨_, _, _, g, ls, h4⟩ := hO.g e.1 e.2 (hO.gwf.get_of_mem he)
    have : o ≠ e.2 := fun c => by rw [← c, ho] at h4; cases h4
    unfold rolePol setPol role
    simp only [List.getElem?_set_ne this, h4]
  have e3 : m.mMap.mapV ((w.setPol o ⟨.rules p', ls'⟩).entry m) = m.mMap.mapV (w.entry m) := by
    refine GoMap.mapV_congr (fun e he => ?_)
    obtain ⟨h1, mt, h2⟩ := hO.mm e.1 e.2 he
    by_cases c : e.2.1 = o
    · unfold matcher at h2
      rw [c, ho] at h2
      simp only [Option.bind_some] at h2
      obtain ⟨mt', h3, h4⟩ := hl _ mt h2
      have hkey := h.ls o _ ho mt (List.mem_of_getElem? h2)
      obtain ⟨_, h2', _⟩ := hO.p k o hk
      have hgp : m.getPolicy mt.pDef.key = some e.2.1 := by
        rw [hkey, h2', c]; unfold OModel.getPolicy; rw [hk]
      unfold entry matcher setPol
      simp only [c, List.getElem?_set_self hlo, Option.bind_some, h3, ho, h2]
      rw [h4.1, ← c, if_pos hgp, if_pos hgp]
    · unfold entry matcher setPol
      simp only [List.getElem?_set_ne (fun x => c x.symm)]
  unfold value
  rw [e1, e2, e3]

/-- `o` is a role policy of the model and becomes `rp'`. -/
theorem value_setRole {own : Nat → Nat} {key : Nat → Str} (h : Apart own key w) {a : Nat} {m : OModel}
    (hm : w.models[a]? = some m) {k : Str} {o : Nat} (hk : m.rpMap.get k = some o) {g : Nat} {ls : List Matcher}
    (ho : w.pols[o]? = some ⟨.links g, ls⟩) {rp' : RolePolicy} (hl : StillThere ls rp'.listeners) :
    (w.setRole o g rp').value m = { w.value m with rpMap := (w.value m).rpMap.set k rp' } := by
  have hO := h.models a m hm
  have hlo := (List.getElem?_eq_some_iff.1 ho).1
  have hlg := h.lt o g ls ho
  have e1 : m.pMap.mapV (w.setRole o g rp').polObj = m.pMap.mapV w.polObj := by
    refine GoMap.mapV_congr (fun e he => ?_)
    obtain ⟨_, _, _, p, ls, h4⟩ := hO.p e.1 e.2 (hO.pwf.get_of_mem he)
    have : o ≠ e.2 := fun c => by rw [← c, ho] at h4; cases h4
    unfold polObj setRole
    simp only [List.getElem?_set_ne this, h4]
  have e2 : m.rpMap.mapV (w.setRole o g rp').rolePol = (m.rpMap.mapV w.rolePol).set k rp' := by
    have := GoMap.mapV_set_at (f := w.rolePol) (g := (w.setRole o g rp').rolePol) hO.gwf hk (by
      intro e he hne
      obtain ⟨_, h2, _, g', ls', h4⟩ := hO.g e.1 e.2 (hO.gwf.get_of_mem he)
      obtain ⟨_, h2', _⟩ := hO.g k o hk
      have hne' : o ≠ e.2 := fun c => hne (by rw [← h2, ← h2', c])
      have hg' : g ≠ g' := fun c => hne' (h.inj o e.2 g ls ls' ho (c ▸ h4))
      unfold rolePol setRole role
      simp only [List.getElem?_set_ne hne', h4, List.getElem?_set_ne hg'])
    rw [this]
    congr 1
    unfold rolePol setRole role
    simp only [List.getElem?_set_self hlo, List.getElem?_set_self hlg, Option.getD_some]
  have e3 : m.mMap.mapV ((w.setRole o g rp').entry m) = m.mMap.mapV (w.entry m) := by
    refine GoMap.mapV_congr (fun e he => ?_)
    obtain ⟨h1, mt, h2⟩ := hO.mm e.1 e.2 he
    by_cases c : e.2.1 = o
    · unfold matcher at h2
      rw [c, ho] at h2
      simp only [Option.bind_some] at h2
      obtain ⟨mt', h3, h4⟩ := hl _ mt h2
      have hkey := h.ls o _ ho mt (List.mem_of_getElem? h2)
      obtain ⟨_, h2', hh, _⟩ := hO.g k o hk
      have hnp : m.pMap.get k = none := by
        cases hp : m.pMap.get k with
        | none => rfl
        | some o' =>
          obtain ⟨_, _, h3, _⟩ := hO.p k o' hp
          rw [hh] at h3
          cases h3
      have hgp : m.getPolicy mt.pDef.key = some e.2.1 := by
        rw [hkey, h2', c]; unfold OModel.getPolicy; rw [hnp]; exact hk
      unfold entry matcher setRole
      simp only [c, List.getElem?_set_self hlo, Option.bind_some, h3, ho, h2]
      rw [h4.1, ← c, if_pos hgp, if_pos hgp]
    · unfold entry matcher setRole
      simp only [List.getElem?_set_ne (fun x => c x.symm)]
  unfold value
  rw [e1, e2, e3]

theorem OwnModel.keeps {own : Nat → Nat} {key : Nat → Str} {a : Nat} {m : OModel} (h : OwnModel own key w a m)
    (hk : w.Keeps w') : OwnModel own key w' a m := by
  refine ⟨h.pwf, h.gwf, fun k o e => ?_, fun k o e => ?_, fun k x e => ?_, h.defs⟩
  · obtain ⟨h1, h2, h3, p, ls, h4⟩ := h.p k o e
    obtain ⟨⟨hold, ls'⟩, h5, h6, _⟩ := hk o _ h4
    cases hold with
    | rules p' => exact ⟨h1, h2, h3, p', ls', h5⟩
    | links g => exact h6.elim
  · obtain ⟨h1, h2, h3, g, ls, h4⟩ := h.g k o e
    obtain ⟨⟨hold, ls'⟩, h5, h6, _⟩ := hk o _ h4
    cases hold with
    | rules p' => exact h6.elim
    | links g => exact ⟨h1, h2, h3, g, ls', h5⟩
  · obtain ⟨h1, mt, h2⟩ := h.mm k x e
    refine ⟨h1, ?_⟩
    unfold matcher at h2 ⊢
    cases hx : w.pols[x.1]? with
    | none => rw [hx] at h2; cases h2
    | some ob =>
      rw [hx] at h2
      obtain ⟨ob', h5, _, h6⟩ := hk _ _ hx
      obtain ⟨mt', h7, _⟩ := h6 _ mt h2
      exact ⟨mt', by rw [h5]; exact h7⟩

/-- An object changes, all models stay. -/
theorem Apart.setObj {own : Nat → Nat} {key : Nat → Str} (h : Apart own key w) {o : Nat} {ob ob' : OPol}
    (ho : w.pols[o]? = some ob) (hs : ob.Same ob') (hk : ∀ mt ∈ ob'.listeners, mt.pDef.key = key o)
    (hp : w'.pols = w.pols.set o ob') (hm : w'.models = w.models) (hg : w'.mgrs.length = w.mgrs.length) :
    Apart own key w' := by
  have keep : w.Keeps w' := .set ho hp hs
  have back : ∀ (o' g : Nat) (ls : List Matcher), w'.pols[o']? = some ⟨.links g, ls⟩ →
      ∃ ls', w.pols[o']? = some ⟨.links g, ls'⟩ := by
    intro o' g ls e
    rw [hp, List.getElem?_set] at e
    split at e
    · rename_i c
      subst c
      split at e
      · cases e
        obtain ⟨hold, ls'⟩ := ob
        have := hs.1
        cases hold with
        | rules p => exact this.elim
        | links g' => cases this; exact ⟨ls', ho⟩
      · cases e
    · exact ⟨ls, e⟩
  refine ⟨fun a m hm' => ?_, fun o' x e mt hmt => ?_, fun o1 o2 g ls1 ls2 e1 e2 => ?_, fun o' g ls e => ?_⟩
  · rw [hm] at hm'
    exact (h.models a m hm').keeps keep
  · rw [hp, List.getElem?_set] at e
    split at e
    · rename_i c
      subst c
      split at e
      · cases e; exact hk mt hmt
      · cases e
    · exact h.ls o' x e mt hmt
  · obtain ⟨l1, e1⟩ := back _ _ _ e1
    obtain ⟨l2, e2⟩ := back _ _ _ e2
    exact h.inj o1 o2 g l1 l2 e1 e2
  · obtain ⟨l, e⟩ := back _ _ _ e
    rw [hg]
    exact h.lt o' g l e

theorem Moves.setPol {own : Nat → Nat} {key : Nat → Str} (h : Apart own key w) {a : Nat} {m : OModel}
    (hm : w.models[a]? = some m) {k : Str} {o : Nat} (hk : m.pMap.get k = some o) {p : Policy} {ls : List Matcher}
    (ho : w.pols[o]? = some ⟨.rules p, ls⟩) (p' : Policy) {ls' : List Matcher} (hl : StillThere ls ls') :
    Moves w (w.setPol o ⟨.rules p', ls'⟩) (some a) (fun x => { x with pMap := x.pMap.set k ⟨p', ls'⟩ }) := by
  intro b m' hb
  refine ⟨m', hb, ?_⟩
  by_cases c : some a = some b
  · cases c
    rw [hm] at hb
    cases hb
    rw [if_pos rfl]
    exact value_setPol h hm hk ho p' hl
  · rw [if_neg c]
    have hO := h.models b m' hb
    have ho' := ((h.models a m hm).p k o hk).1
    refine value_congr hO (fun o' e _ => ?_) (fun _ _ _ _ _ => rfl)
    have : o ≠ o' := fun x => c (by rw [← e, ← x, ho'])
    simp only [Realm.setPol, List.getElem?_set_ne this]

theorem Moves.setRole {own : Nat → Nat} {key : Nat → Str} (h : Apart own key w) {a : Nat} {m : OModel}
    (hm : w.models[a]? = some m) {k : Str} {o : Nat} (hk : m.rpMap.get k = some o) {g : Nat} {ls : List Matcher}
    (ho : w.pols[o]? = some ⟨.links g, ls⟩) {rp' : RolePolicy} (hl : StillThere ls rp'.listeners) :
    Moves w (w.setRole o g rp') (some a) (fun x => { x with rpMap := x.rpMap.set k rp' }) := by
  intro b m' hb
  refine ⟨m', hb, ?_⟩
  by_cases c : some a = some b
  · cases c
    rw [hm] at hb
    cases hb
    rw [if_pos rfl]
    exact value_setRole h hm hk ho hl
  · rw [if_neg c]
    have hO := h.models b m' hb
    have ho' := ((h.models a m hm).g k o hk).1
    have hne : ∀ o', own o' = b → o ≠ o' := fun o' e x => c (by rw [← e, ← x, ho'])
    refine value_congr hO (fun o' e _ => ?_) (fun o' g' ls' e hl' => ?_)
    · simp only [Realm.setRole, List.getElem?_set_ne (hne o' e)]
    · have : g ≠ g' := fun x => hne o' e (h.inj o o' g ls ls' ho (x ▸ hl'))
      simp only [Realm.setRole, List.getElem?_set_ne this]

/-! ## A new object -/

/-- `f` with another value at `n`. -/
def upd {α : Type} (f : Nat → α) (n : Nat) (x : α) : Nat → α := fun k => if k = n then x else f k

theorem upd_lt {α : Type} (f : Nat → α) {n k : Nat} (x : α) (h : k < n) : upd f n x k = f k := by
  unfold upd
  rw [if_neg (by omega)]

theorem Apart.push {own : Nat → Nat} {key : Nat → Str} (h : Apart own key w) (a : Nat) (k : Str) {hold : Hold}
    (hp : w'.pols = w.pols ++ [⟨hold, []⟩]) (hm : w'.models = w.models) (gs : List Mgr) (hg : w'.mgrs = w.mgrs ++ gs)
    (hl : ∀ g, hold = .links g → w.mgrs.length ≤ g ∧ g < w'.mgrs.length) :
    Apart (upd own w.pols.length a) (upd key w.pols.length k) w' := by
  have lt : ∀ {o : Nat} {ob : OPol}, w.pols[o]? = some ob → o < w.pols.length :=
    fun h => (List.getElem?_eq_some_iff.1 h).1
  have keep : w.Keeps w' := .push hp
  have back : ∀ {o : Nat} {ob : OPol}, w'.pols[o]? = some ob → w.pols[o]? = some ob ∨ (o = w.pols.length ∧ ob = ⟨hold, []⟩) := by
    intro o ob e
    rw [hp, List.getElem?_append] at e
    split at e
    · exact .inl e
    · rw [List.getElem?_singleton] at e
      split at e
      · cases e; exact .inr ⟨by omega, rfl⟩
      · cases e
  refine ⟨fun b m hb => ?_, fun o ob e mt hmt => ?_, fun o o' g ls ls' e e' => ?_, fun o g ls e => ?_⟩
  · rw [hm] at hb
    have hO := h.models b m hb
    have hO' := hO.keeps keep
    refine ⟨hO.pwf, hO.gwf, fun k' o e => ?_, fun k' o e => ?_, fun k' x e => ?_, hO.defs⟩
    · obtain ⟨_, _, _, _, _, h4⟩ := hO.p k' o e
      rw [upd_lt _ _ (lt h4), upd_lt _ _ (lt h4)]
      exact hO'.p k' o e
    · obtain ⟨_, _, _, _, _, h4⟩ := hO.g k' o e
      rw [upd_lt _ _ (lt h4), upd_lt _ _ (lt h4)]
      exact hO'.g k' o e
    · obtain ⟨_, mt, h4⟩ := hO.mm k' x e
      have : x.1 < w.pols.length := by
        unfold matcher at h4
        cases hx : w.pols[x.1]? with
        | none => rw [hx] at h4; cases h4
        | some ob => exact lt hx
      rw [upd_lt _ _ this]
      exact hO'.mm k' x e
  · rcases back e with e | ⟨_, rfl⟩
    · rw [upd_lt _ _ (lt e)]
      exact h.ls o ob e mt hmt
    · cases hmt
  · rcases back e with e | ⟨rfl, c⟩ <;> rcases back e' with e' | ⟨rfl, c'⟩
    · exact h.inj o o' g ls ls' e e'
    · cases c'
      have := h.lt o g ls e
      have := (hl g rfl).1
      omega
    · cases c
      have := h.lt o' g ls' e'
      have := (hl g rfl).1
      omega
    · rfl
  · rcases back e with e | ⟨rfl, c⟩
    · have := h.lt o g ls e
      rw [hg, List.length_append]
      omega
    · cases c
      exact (hl g rfl).2

theorem Moves.push {own : Nat → Nat} {key : Nat → Str} (h : Apart own key w) {ob : OPol}
    (hp : w'.pols = w.pols ++ [ob]) (hm : w'.models = w.models) (gs : List Mgr) (hg : w'.mgrs = w.mgrs ++ gs) :
    Moves w w' none id := by
  intro b m hb
  refine ⟨m, by rw [hm]; exact hb, ?_⟩
  rw [if_neg (by simp)]
  refine value_congr (h.models b m hb) (fun o _ hlt => ?_) (fun o g ls _ e => ?_)
  · rw [hp, List.getElem?_append_left hlt]
  · rw [hg, List.getElem?_append_left (h.lt o g ls e)]

/-! ## The maps of a model change -/

theorem Apart.setModel {own : Nat → Nat} {key : Nat → Str} (h : Apart own key w) {a : Nat} {m' : OModel}
    (hm : OwnModel own key w a m') : Apart own key (w.setModel a m') := by
  refine ⟨fun b x hb => ?_, h.ls, h.inj, h.lt⟩
  simp only [Realm.setModel, List.getElem?_set] at hb
  split at hb
  · rename_i c
    subst c
    split at hb
    · cases hb; exact ⟨hm.pwf, hm.gwf, hm.p, hm.g, hm.mm, hm.defs⟩
    · cases hb
  · have := h.models b x hb
    exact ⟨this.pwf, this.gwf, this.p, this.g, this.mm, this.defs⟩

theorem Moves.setModel {a : Nat} {m m' : OModel} (hm : w.models[a]? = some m) {f : Model → Model}
    (h : w.value m' = f (w.value m)) : Moves w (w.setModel a m') (some a) f := by
  intro b x hb
  by_cases c : some a = some b
  · cases c
    rw [hm] at hb
    cases hb
    refine ⟨m', ?_, ?_⟩
    · simp only [Realm.setModel, List.getElem?_set_self (List.getElem?_eq_some_iff.1 hm).1]
    · rw [if_pos rfl, ← h]; rfl
  · refine ⟨x, ?_, ?_⟩
    · have c' : a ≠ b := fun e => c (by rw [e])
      simp only [Realm.setModel, List.getElem?_set_ne c']; exact hb
    · rw [if_neg c]; rfl

end Realm

end Fastac
