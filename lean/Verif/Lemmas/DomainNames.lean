import Verif.Spec.PatternDomains

/-!
# The names a domain manager knows are names of its calls
-/

namespace Fastac

namespace DomainRules

open DM

/-- The links and names of the state are about the names `N`. -/
def About (N : Str → Prop) (S : DomState) : Prop :=
  (∀ d u r, S.link d u r → N u ∧ N r) ∧ ∀ d n, S.name d n → N n

theorem About.use {N : Str → Prop} {S : DomState} (h : About N S) (x : Str) : About N (S.use x) := by
  have hg : ∀ d u r, S.given d u r → N u ∧ N r := by
    rintro d u r ⟨_, p, _, _, hl, _⟩; exact h.1 _ _ _ hl
  refine ⟨?_, ?_⟩
  · rintro d u r (⟨_, hl⟩ | ⟨_, hl⟩)
    · exact h.1 _ _ _ hl
    · exact hg _ _ _ hl
  · rintro d n (⟨_, hl⟩ | ⟨_, y, hl | hl⟩)
    · exact h.2 _ _ hl
    · exact (hg _ _ _ hl).1
    · exact (hg _ _ _ hl).2

theorem About.add {N : Str → Prop} {S : DomState} (h : About N S) {u r : Str} (hu : N u) (hr : N r) (x : Str) :
    About N (S.add u r x) := by
  refine ⟨?_, ?_⟩
  · rintro d a b (hl | ⟨rfl, rfl, _⟩)
    · exact (h.use x).1 _ _ _ hl
    · exact ⟨hu, hr⟩
  · rintro d n (hl | ⟨rfl | rfl, _⟩)
    · exact (h.use x).2 _ _ hl
    · exact hu
    · exact hr

theorem About.del {N : Str → Prop} {S : DomState} (h : About N S) {u r : Str} (hu : N u) (hr : N r) (x : Str) :
    About N (S.del u r x) := by
  refine ⟨?_, ?_⟩
  · rintro d a b ⟨hl, _⟩; exact (h.use x).1 _ _ _ hl
  · rintro d n (hl | ⟨rfl | rfl, _⟩)
    · exact (h.use x).2 _ _ hl
    · exact hu
    · exact hr

theorem about_empty (N : Str → Prop) (m dmm : Option PMatcher) : About N (DomState.empty m dmm) :=
  ⟨fun _ _ _ h => h.elim, fun _ _ h => h.elim⟩

/-- The names of the links of a call. -/
def names : DM.Call → List Str
  | .op (.add u r _) | .op (.del u r _) => [u, r]
  | _ => []

theorem About.step {N : Str → Prop} {S T : DomState} {c : DM.Call} (h : About N S) (hs : DomState.Step S c T)
    (hc : ∀ n ∈ names c, N n) : About N T := by
  cases hs with
  | op o =>
    cases o with
    | add u r π => exact h.add (hc _ (by simp [names])) (hc _ (by simp [names])) _
    | del u r π => exact h.del (hc _ (by simp [names])) (hc _ (by simp [names])) _
    | clear => exact about_empty N _ _
    | _ => exact h
  | setMatcher m order =>
    refine ⟨fun d u r hl => h.1 _ _ _ hl.2.1, ?_⟩
    rintro d n ⟨y, hl | hl⟩
    · exact (h.1 _ _ _ hl.2.1).1
    · exact (h.1 _ _ _ hl.2.1).2
  | setDomainMatcher m order ls hn hl =>
    have hN : ∀ l ∈ ls, N l.1 ∧ N l.2.1 := fun l hm => h.1 _ _ _ ((hl l.1 l.2.1 l.2.2).mp hm).2.1
    have key : ∀ (ls : List (Str × Str × Str)) (T : DomState), About N T → (∀ l ∈ ls, N l.1 ∧ N l.2.1) →
        About N (ls.foldl (fun t l => t.add l.1 l.2.1 l.2.2) T) := by
      intro ls
      induction ls with
      | nil => intro T hT _; exact hT
      | cons l ls ih =>
        intro T hT hls
        exact ih _ (hT.add (hls l (by simp)).1 (hls l (by simp)).2 _) (fun l' h' => hls l' (by simp [h']))
    exact key ls _ (about_empty N _ _) hN

theorem About.steps {N : Str → Prop} {S T : DomState} {cs : List DM.Call} (hs : DomState.Steps S cs T) (h : About N S)
    (hc : ∀ c ∈ cs, ∀ n ∈ names c, N n) : About N T := by
  induction hs with
  | nil => exact h
  | cons h1 _ ih => exact ih (h.step h1 (hc _ (by simp))) (fun c hm => hc c (by simp [hm]))

/-- A domain knows only names that a call has mentioned. -/
theorem names_of_calls {m dmm : Option PMatcher} {cs : List DM.Call} {S : DomState}
    (hs : DomState.Steps (DomState.empty m dmm) cs S) {d n : Str} (h : S.nameAt d n) : ∃ c ∈ cs, n ∈ names c :=
  ((About.steps (N := fun n => ∃ c ∈ cs, n ∈ names c) hs (about_empty _ _ _) (fun c hc _ hn => ⟨c, hc, hn⟩)).use d).2 d n h

end DomainRules

end Fastac
