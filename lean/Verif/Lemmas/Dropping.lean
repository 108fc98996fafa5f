import Verif.Spec.Dropping
import Verif.Lemmas.Saving

/-!
# What is left after a policy was emptied
-/

namespace Fastac

namespace Model

/-- The rules of `key` are gone, the others are there. -/
def Emptied (m : Model) (key : Str) (m' : Model) : Prop := ∀ x, x ∈ m'.rules ↔ x ∈ m.rules ∧ x.head? ≠ some key

theorem emptied_of {m m' : Model} {key : Str} (h : m.Tidy) (h' : m'.Tidy)
    (hp : ∀ k, k ≠ key → (m'.pMap.get k).map (·.policy) = (m.pMap.get k).map (·.policy))
    (hg : ∀ k, k ≠ key → (m'.rpMap.get k).map (·.rules) = (m.rpMap.get k).map (·.rules))
    (hpk : ∀ p, m'.pMap.get key = some p → p.policy.rules = [])
    (hgk : ∀ rp, m'.rpMap.get key = some rp → rp.rules = []) : m.Emptied key m' := by
  have hp' : ∀ (a b : Option PolObj) (f : Rule), a.map (·.policy) = b.map (·.policy) →
      ((∃ p, a = some p ∧ f ∈ p.policy.rules) ↔ ∃ p, b = some p ∧ f ∈ p.policy.rules) := by
    intro a b f e
    cases a <;> cases b <;> simp_all
  have hg' : ∀ (a b : Option RolePolicy) (f : Rule), a.map (·.rules) = b.map (·.rules) →
      ((∃ p, a = some p ∧ f ∈ p.rules) ↔ ∃ p, b = some p ∧ f ∈ p.rules) := by
    intro a b f e
    cases a <;> cases b <;> simp_all
  intro x
  rw [mem_rules h', mem_rules h]
  constructor
  · rintro ⟨k, f, rfl, hx⟩
    have hk : k ≠ key := by
      rintro rfl
      rcases hx with ⟨p, h1, h2⟩ | ⟨p, h1, h2⟩
      · rw [hpk p h1] at h2; cases h2
      · rw [hgk p h1] at h2; cases h2
    rw [hp' _ _ f (hp k hk), hg' _ _ f (hg k hk)] at hx
    exact ⟨⟨k, f, rfl, hx⟩, fun e => hk (Option.some.inj e)⟩
  · rintro ⟨⟨k, f, rfl, hx⟩, hn⟩
    have hk : k ≠ key := fun e => hn (congrArg some e)
    rw [← hp' _ _ f (hp k hk), ← hg' _ _ f (hg k hk)] at hx
    exact ⟨k, f, rfl, hx⟩

theorem no_rules {rp : RolePolicy} (h : rp.mgr.links = []) : rp.rules = [] := by
  rw [List.eq_nil_iff_forall_not_mem]
  intro x hx
  obtain ⟨u, r, ds, -, hl⟩ := (RolePolicy.mem_rules rp x).mp hx
  rw [h] at hl
  cases hl

theorem Drops.emptied {build : Str → Res Stage} {m m' : Model} {key : Str} (h : Made build m)
    (hd : m.Drops key m') : Made build m' ∧ m.Emptied key m' := by
  have noG : key.head? = some 'p' → m.rpMap.get key = none := fun hk => by
    cases e : m.rpMap.get key with
    | none => rfl
    | some rp => exact absurd (hk.symm.trans (h.tidy.roles key rp e).1) (by decide)
  have noP : key.head? = some 'g' → m.pMap.get key = none := fun hk => by
    cases e : m.pMap.get key with
    | none => rfl
    | some p => exact absurd (hk.symm.trans (h.tidy.pols key p e).1) (by decide)
  cases hd with
  | clear =>
    refine ⟨h.clear key, ?_⟩
    have ht := (h.clear key).tidy
    unfold clearPolicy at ht ⊢
    cases hg : m.pMap.get key with
    | some p =>
      rw [hg] at ht
      simp only at ht ⊢
      obtain ⟨⟨ls', e⟩, _⟩ := emitPolicy_eq m key p.listeners p.policy.clear.1 () p.policy.clear.2
      rw [e] at ht ⊢
      refine emptied_of h.tidy ht (fun k hk => by rw [GoMap.get_set_ne _ _ hk]) (fun _ _ => rfl) (fun q hq => ?_)
        (fun rp hr => ?_)
      · rw [GoMap.get_set_self] at hq
        cases hq
        rfl
      · rw [noG (h.tidy.pols key p hg).1] at hr
        cases hr
    | none =>
      rw [hg] at ht
      simp only at ht ⊢
      cases hr : m.rpMap.get key with
      | none =>
        exact emptied_of h.tidy h.tidy (fun _ _ => rfl) (fun _ _ => rfl) (fun p hp => by rw [hg] at hp; cases hp)
          (fun p hp => by rw [hr] at hp; cases hp)
      | some rp =>
        rw [hr] at ht
        refine emptied_of h.tidy ht (fun _ _ => rfl) (fun k hk => by simp only; rw [GoMap.get_set_ne _ _ hk])
          (fun p hp => by rw [hg] at hp; cases hp) (fun q hq => ?_)
        simp only [GoMap.get_set_self] at hq
        cases hq
        exact no_rules (h.tidy.roles _ _ hr).2.1.clear.2.2
  | define sec value hk hs =>
    refine ⟨h.setDef sec key value, ?_⟩
    have ht := (h.setDef sec key value).tidy
    obtain ⟨cs, rfl⟩ : ∃ cs, key = sec :: cs := by
      cases key with
      | nil => cases hk
      | cons c cs => cases hk; exact ⟨cs, rfl⟩
    rcases hs with rfl | rfl
    · refine emptied_of h.tidy ht (fun k hk => ?_) (fun _ _ => rfl) (fun q hq => ?_) (fun rp hr => ?_)
      · show ((m.pMap.set _ _).get k).map _ = _
        rw [GoMap.get_set_ne _ _ hk]
      · have hq : (m.pMap.set ('p' :: cs) ⟨Policy.empty, []⟩).get ('p' :: cs) = some q := hq
        rw [GoMap.get_set_self] at hq
        cases hq
        rfl
      · have hr : m.rpMap.get _ = some rp := hr
        rw [noG rfl] at hr
        cases hr
    · refine emptied_of h.tidy ht (fun _ _ => rfl) (fun k hk => ?_) (fun p hp => ?_) (fun q hq => ?_)
      · show ((m.rpMap.set _ _).get k).map _ = _
        rw [GoMap.get_set_ne _ _ hk]
      · have hp : m.pMap.get _ = some p := hp
        rw [noP rfl] at hp
        cases hp
      · have hq : (m.rpMap.set ('g' :: cs) ⟨if roleDefNArgs value = 2 then Mgr.rm (RM.new 10) else Mgr.dm (DM.new 10),
            []⟩).get ('g' :: cs) = some q := hq
        rw [GoMap.get_set_self] at hq
        cases hq
        refine no_rules ?_
        simp only
        split <;> rfl
  | undefine sec hk hs =>
    refine ⟨h.removeDef sec key, ?_⟩
    have ht := (h.removeDef sec key).tidy
    rcases hs with rfl | rfl
    · refine emptied_of h.tidy ht (fun k hk => ?_) (fun _ _ => rfl) (fun q hq => ?_) (fun rp hr => ?_)
      · show ((m.pMap.del _).get k).map _ = _
        rw [GoMap.get_del, if_neg (Ne.symm hk)]
      · have hq : (m.pMap.del key).get key = some q := hq
        rw [GoMap.get_del, if_pos rfl] at hq
        cases hq
      · have hr : m.rpMap.get _ = some rp := hr
        rw [noG hk] at hr
        cases hr
    · refine emptied_of h.tidy ht (fun _ _ => rfl) (fun k hk => ?_) (fun p hp => ?_) (fun q hq => ?_)
      · show ((m.rpMap.del _).get k).map _ = _
        rw [GoMap.get_del, if_neg (Ne.symm hk)]
      · have hp : m.pMap.get _ = some p := hp
        rw [noP hk] at hp
        cases hp
      · have hq : (m.rpMap.del key).get key = some q := hq
        rw [GoMap.get_del, if_pos rfl] at hq
        cases hq

end Model

end Fastac
