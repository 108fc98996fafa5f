import Verif.Lemmas.DomainManager

/-! # Domain managers without pattern domains: `Range` -/

namespace Fastac

namespace DM

theorem mem_rangeSubs (u r : Str) (π : List Str) : ∀ subs : List (Str × DM),
    (u, r, π) ∈ rangeSubs subs ↔ ∃ d s π', (d, s) ∈ subs ∧ π = d :: π' ∧ (u, r, π') ∈ s.range
  | [] => by simp [rangeSubs]
  | (d, s) :: rest => by
    rw [rangeSubs, List.mem_append, mem_rangeSubs u r π rest]
    simp only [List.mem_map, Prod.mk.injEq, Prod.exists, List.mem_cons]
    constructor
    · rintro (⟨a, b, c, h, rfl, rfl, rfl⟩ | ⟨d', s', π', h, rfl, h'⟩)
      · exact ⟨d, s, c, Or.inl ⟨rfl, rfl⟩, rfl, h⟩
      · exact ⟨d', s', π', Or.inr h, rfl, h'⟩
    · rintro ⟨d', s', π', ⟨rfl, rfl⟩ | h, rfl, h'⟩
      · exact Or.inl ⟨u, r, π', h', rfl, rfl, rfl⟩
      · exact Or.inr ⟨d', s', π', h, rfl, h'⟩

theorem mem_range {m dmm : Option PMatcher} {L : Nat} {dm : DM} (h : Quiet m dmm L dm) :
    ∀ (u r : Str) (π : List Str), (u, r, π) ∈ dm.range ↔ ∃ rm, dm.at π = some rm ∧ (u, r) ∈ rm.links := by
  induction h with
  | @mk L dflt subs hw h ih =>
    intro u r π
    rw [range, List.mem_append, mem_rangeSubs]
    cases π with
    | nil =>
      simp only [DM.at, DM.dflt]
      constructor
      · rintro (h | ⟨_, _, _, _, e, _⟩)
        · cases dflt with
          | none => simp [dfltLinks] at h
          | some rm =>
            simp only [dfltLinks, List.mem_map, Prod.mk.injEq, Prod.exists] at h
            obtain ⟨a, b, h, rfl, rfl, _⟩ := h
            exact ⟨rm, rfl, h⟩
        · simp at e
      · rintro ⟨rm, rfl, h⟩
        exact Or.inl (List.mem_map.2 ⟨(u, r), h, rfl⟩)
    | cons d π =>
      simp only [DM.at, DM.subs]
      constructor
      · rintro (h | ⟨d', s, π', hm, e, h'⟩)
        · cases dflt <;> simp [dfltLinks] at h
        · simp only [List.cons.injEq] at e
          obtain ⟨rfl, rfl⟩ := e
          have hg := hw.get_of_mem hm
          obtain ⟨rm, e, hl⟩ := (ih d s hg u r π).1 h'
          exact ⟨rm, by rw [hg]; exact e, hl⟩
      · rintro ⟨rm, e, hl⟩
        cases hg : GoMap.get subs d with
        | none => rw [hg] at e; simp at e
        | some s =>
          rw [hg] at e
          exact Or.inr ⟨d, s, π, GoMap.mem_of_get hg, rfl, (ih d s hg u r π).2 ⟨rm, e, hl⟩⟩

theorem rangeSubs_nodup : ∀ subs : List (Str × DM), GoMap.WF subs →
    (∀ d s, (d, s) ∈ subs → s.range.Nodup) → (rangeSubs subs).Nodup
  | [], _, _ => by simp [rangeSubs]
  | (d, s) :: rest, hw, h => by
    unfold GoMap.WF at hw
    simp only [List.map_cons, List.nodup_cons] at hw
    rw [rangeSubs, List.nodup_append]
    refine ⟨?_, rangeSubs_nodup rest hw.2 (fun d s hm => h d s (by simp [hm])), ?_⟩
    · apply List.Pairwise.map _ _ (h d s (by simp))
      rintro ⟨a, b, c⟩ ⟨a', b', c'⟩ hne e
      simp only [Prod.mk.injEq, List.cons.injEq, true_and] at e
      obtain ⟨rfl, rfl, rfl⟩ := e
      exact hne rfl
    · rintro ⟨a, b, c⟩ hx y hy rfl
      obtain ⟨d', s', π', hm, e, _⟩ := (mem_rangeSubs _ _ _ rest).1 hy
      simp only [List.mem_map, Prod.mk.injEq, Prod.exists] at hx
      obtain ⟨_, _, _, _, rfl, rfl, rfl⟩ := hx
      simp only [List.cons.injEq] at e
      obtain ⟨rfl, rfl⟩ := e
      exact hw.1 (List.mem_map.2 ⟨_, hm, rfl⟩)

theorem range_nodup {m dmm : Option PMatcher} {L : Nat} {dm : DM} (h : Quiet m dmm L dm)
    (ht : ∀ π rm, dm.at π = some rm → rm.links.Nodup) : dm.range.Nodup := by
  induction h with
  | @mk L dflt subs hw h ih =>
    rw [range, List.nodup_append]
    refine ⟨?_, rangeSubs_nodup subs hw (fun d s hm => ?_), ?_⟩
    · cases dflt with
      | none => simp [dfltLinks]
      | some rm =>
        apply List.Pairwise.map _ _ (ht [] rm rfl)
        rintro ⟨a, b⟩ ⟨a', b'⟩ hne e
        simp only [Prod.mk.injEq, and_true] at e
        obtain ⟨rfl, rfl⟩ := e
        exact hne rfl
    · have hg := hw.get_of_mem hm
      refine ih d s hg (fun π rm e => ht (d :: π) rm ?_)
      simp only [DM.at, DM.subs, hg]; exact e
    · rintro ⟨a, b, c⟩ hx y hy rfl
      obtain ⟨d', s', π', hm, e, _⟩ := (mem_rangeSubs _ _ _ subs).1 hy
      cases dflt with
      | none => simp [dfltLinks] at hx
      | some rm =>
        simp only [dfltLinks, List.mem_map, Prod.mk.injEq, Prod.exists] at hx
        obtain ⟨_, _, _, _, _, rfl⟩ := hx
        simp at e

end DM

end Fastac
