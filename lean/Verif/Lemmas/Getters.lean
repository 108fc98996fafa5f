import Verif.Spec.Getters

/-!
# Lemmas: the getters of a model
-/

namespace Fastac

theorem shelf_history_induction {P : List ShelfCall → Prop} (nil : P []) (snoc : ∀ h c, P h → P (h ++ [c]))
    (h : List ShelfCall) : P h := by
  have : ∀ r : List ShelfCall, P r.reverse := by
    intro r
    induction r with
    | nil => exact nil
    | cons c r ih => rw [List.reverse_cons]; exact snoc _ c ih
  simpa using this h.reverse

theorem shelf_after_append (h : List ShelfCall) (c : ShelfCall) :
    Shelf.after (h ++ [c]) = (Shelf.after h).step c := by
  unfold Shelf.after
  rw [List.foldl_append]
  rfl

theorem shelf_calls (h : List ShelfCall) : (Shelf.after h).calls = h.length := by
  induction h using shelf_history_induction with
  | nil => rfl
  | snoc h c ih =>
    rw [shelf_after_append, List.length_append]
    show (Shelf.after h).calls + 1 = _
    rw [ih]
    rfl

theorem lastWord_nil {α : Type} (word : List ShelfCall → ShelfCall → Option (Option α)) : LastWord word [] none :=
  .inl ⟨rfl, fun before c after e => by cases before <;> simp at e⟩

/-- What one more call does to the last word. -/
theorem lastWord_snoc {α : Type} {word : List ShelfCall → ShelfCall → Option (Option α)} {h : List ShelfCall}
    {c : ShelfCall} {r : Option α} (l : LastWord word h r) : LastWord word (h ++ [c]) ((word h c).getD r) := by
  have split : ∀ before d after, h ++ [c] = before ++ d :: after →
      (after = [] ∧ before = h ∧ d = c) ∨ ∃ a', after = a' ++ [c] ∧ h = before ++ d :: a' := by
    intro before d after e
    rcases List.eq_nil_or_concat after with e' | ⟨a', x, e'⟩
    · subst e'
      have := List.append_inj' e rfl
      exact .inl ⟨rfl, this.1.symm, (List.cons.inj this.2).1.symm⟩
    · subst e'
      rw [List.concat_eq_append] at e ⊢
      have e2 : h ++ [c] = (before ++ d :: a') ++ [x] := by rw [e]; simp
      have := List.append_inj' e2 rfl
      have hx := (List.cons.inj this.2).1
      exact .inr ⟨a', by rw [hx], this.1⟩
  cases w : word h c with
  | some v =>
    refine .inr ⟨h, c, [], rfl, w, ?_⟩
    intro mid d rest e
    cases mid <;> simp at e
  | none =>
    rcases l with ⟨e, l⟩ | ⟨before, d, after, e, w', l⟩
    · subst e
      refine .inl ⟨rfl, ?_⟩
      intro before d after e
      rcases split before d after e with ⟨_, hb, hd⟩ | ⟨a', _, e'⟩
      · rw [hb, hd]; exact w
      · exact l before d a' e'
    · refine .inr ⟨before, d, after ++ [c], ?_, w', ?_⟩
      · rw [e]; simp
      · intro mid x rest e'
        rcases List.eq_nil_or_concat rest with er | ⟨r', y, er⟩
        · subst er
          have := List.append_inj' e' rfl
          have hx := (List.cons.inj this.2).1
          rw [← hx, ← this.1, ← e]
          exact w
        · subst er
          rw [List.concat_eq_append] at e'
          have e2 : after ++ [c] = (mid ++ x :: r') ++ [y] := by rw [e']; simp
          exact l mid x r' (List.append_inj' e2 rfl).1

/-- There is one last word. -/
theorem lastWord_unique {α : Type} {word : List ShelfCall → ShelfCall → Option (Option α)} {h : List ShelfCall}
    {r r' : Option α} (l : LastWord word h r) (l' : LastWord word h r') : r = r' := by
  rcases l with ⟨e, l⟩ | ⟨b, c, a, e, w, l⟩
  · rcases l' with ⟨e', _⟩ | ⟨b', c', a', e', w', _⟩
    · rw [e, e']
    · rw [l b' c' a' e'] at w'; cases w'
  · rcases l' with ⟨_, l'⟩ | ⟨b', c', a', e', w', l'⟩
    · rw [l' b c a e] at w; cases w
    · rw [e] at e'
      rcases List.append_eq_append_iff.mp e' with ⟨m, hb, hm⟩ | ⟨m, hb, hm⟩
      · cases m with
        | nil =>
          simp only [List.append_nil, List.nil_append] at hb hm
          subst hb
          obtain ⟨hc, _⟩ := List.cons.inj hm
          subst hc
          rw [w] at w'; exact Option.some.inj w'
        | cons x m =>
          obtain ⟨hc, ha⟩ := List.cons.inj hm
          subst hc
          have := l m c' a' ha
          rw [← hb, w'] at this
          cases this
      · cases m with
        | nil =>
          simp only [List.append_nil, List.nil_append] at hb hm
          subst hb
          obtain ⟨hc, _⟩ := List.cons.inj hm
          subst hc
          rw [w'] at w; exact (Option.some.inj w).symm
        | cons x m =>
          obtain ⟨hc, ha⟩ := List.cons.inj hm
          subst hc
          have := l' m c a ha
          rw [← hb, w] at this
          cases this

/-- A lookup that every call changes as its word says holds the last word. -/
theorem lastWord_of_step {α : Type} {word : List ShelfCall → ShelfCall → Option (Option α)} (g : Shelf → Option α)
    (h0 : g Shelf.new = none)
    (hs : ∀ h c, g (Shelf.after (h ++ [c])) = (word h c).getD (g (Shelf.after h))) (h : List ShelfCall) :
    LastWord word h (g (Shelf.after h)) := by
  induction h using shelf_history_induction with
  | nil => rw [show g (Shelf.after []) = none from h0]; exact lastWord_nil _
  | snoc h c ih => rw [hs]; exact lastWord_snoc ih

theorem isSection_iff (sec : Char) : Shelf.isSection sec = true ↔ sec ∈ ['r', 'p', 'g', 'e', 'm'] := by
  simp [Shelf.isSection]

/-- `SetDef`, with the check in the words of the specification. -/
theorem shelf_setDef (s : Shelf) (sec : Char) (key value : Str) :
    (s.call (.setDef sec key value)).1 = if DefTaken sec key then s.define s.calls sec key value else s := by
  unfold Shelf.call DefTaken
  by_cases hs : sec ∈ ['r', 'p', 'g', 'e', 'm']
  · simp only [(isSection_iff sec).mpr hs, if_true, hs, true_and]
    cases key with
    | nil => simp
    | cons c t =>
      by_cases hc : c = sec <;> simp [hc]
  · have : Shelf.isSection sec = false := by
      cases h : Shelf.isSection sec with
      | false => rfl
      | true => exact absurd ((isSection_iff sec).mp h) hs
    simp [this, hs]

theorem shelf_removeDef (s : Shelf) (sec : Char) (key : Str) :
    (s.call (.removeDef sec key)).1 = if sec ∈ ['r', 'p', 'g', 'e', 'm'] then s.undefine sec key else s := by
  unfold Shelf.call
  by_cases hs : sec ∈ ['r', 'p', 'g', 'e', 'm']
  · simp [(isSection_iff sec).mpr hs, hs]
  · have : Shelf.isSection sec = false := by
      cases h : Shelf.isSection sec with
      | false => rfl
      | true => exact absurd ((isSection_iff sec).mp h) hs
    simp [this, hs]

section define
variable (s : Shelf) (n : Nat) (sec : Char) (key value : Str)

theorem define_defs : (s.define n sec key value).defs = s.defs.set (sec, key) ⟨.made n, some (key, value)⟩ := by
  unfold Shelf.define; dsimp only; repeat' split
  all_goals rfl
theorem define_pMap : (s.define n sec key value).pMap = if sec = 'p' then s.pMap.set key (.made n) else s.pMap := by
  unfold Shelf.define; dsimp only
  by_cases h : sec = 'p'
  · simp only [h, if_true]
  · simp only [h, if_false]; repeat' split
    all_goals rfl
theorem define_rpMap : (s.define n sec key value).rpMap =
    if sec = 'g' then s.rpMap.set key ⟨n, ⟨.made n, some (roleDefNArgs value ≠ 2)⟩⟩ else s.rpMap := by
  unfold Shelf.define; dsimp only
  by_cases h : sec = 'g'
  · subst h; simp
  · simp only [h, if_false]; repeat' split
    all_goals rfl
theorem define_eMap : (s.define n sec key value).eMap = if sec = 'e' then s.eMap.set key (.made n) else s.eMap := by
  unfold Shelf.define; dsimp only
  by_cases h : sec = 'e'
  · subst h; simp
  · simp only [h, if_false]; repeat' split
    all_goals rfl
theorem define_mMap : (s.define n sec key value).mMap = s.mMap := by
  unfold Shelf.define; dsimp only; repeat' split
  all_goals rfl

theorem undefine_defs : (s.undefine sec key).defs = s.defs.del (sec, key) := by
  unfold Shelf.undefine; dsimp only; repeat' split
  all_goals rfl
theorem undefine_pMap : (s.undefine sec key).pMap = if sec = 'p' then s.pMap.del key else s.pMap := by
  unfold Shelf.undefine; dsimp only
  by_cases h : sec = 'p'
  · simp only [h, if_true]
  · simp only [h, if_false]; repeat' split
    all_goals rfl
theorem undefine_rpMap : (s.undefine sec key).rpMap = if sec = 'g' then s.rpMap.del key else s.rpMap := by
  unfold Shelf.undefine; dsimp only
  by_cases h : sec = 'g'
  · subst h; simp
  · simp only [h, if_false]; repeat' split
    all_goals rfl
theorem undefine_eMap : (s.undefine sec key).eMap = if sec = 'e' then s.eMap.del key else s.eMap := by
  unfold Shelf.undefine; dsimp only
  by_cases h : sec = 'e'
  · subst h; simp
  · simp only [h, if_false]; repeat' split
    all_goals rfl
theorem undefine_mMap : (s.undefine sec key).mMap = if sec = 'm' then s.mMap.del key else s.mMap := by
  unfold Shelf.undefine; dsimp only
  by_cases h : sec = 'm'
  · subst h; simp
  · simp only [h, if_false]; repeat' split
    all_goals rfl
end define

/-- `BuildMatcher` succeeds or changes nothing. -/
def Shelf.builds (s : Shelf) (key : Str) (pKey : Option Str) : Prop :=
  (s.getDef 'm' key).isSome ∧ ∃ k, pKey = some k ∧ s.findsPolicy k = .ok ()

theorem shelf_build (s : Shelf) (key : Str) (pKey : Option Str) :
    (s.builds key pKey ∧ s.call (.buildMatcher key pKey) = ({ s with mMap := s.mMap.set key (.made s.calls) }, .ok ())) ∨
    (¬ s.builds key pKey ∧ (s.call (.buildMatcher key pKey)).1 = s ∧ (s.call (.buildMatcher key pKey)).2 ≠ .ok ()) := by
  unfold Shelf.call Shelf.builds
  cases hd : s.getDef 'm' key with
  | none => exact .inr ⟨by simp, by simp [hd], by simp [hd]⟩
  | some d =>
    cases pKey with
    | none => exact .inr ⟨by simp, by simp [hd], by simp [hd]⟩
    | some k =>
      cases hf : s.findsPolicy k with
      | ok u => exact .inl ⟨⟨rfl, k, rfl, hf⟩, by simp [hd, hf]⟩
      | err => exact .inr ⟨by simp [hf], by simp [hd, hf], by simp [hd, hf]⟩
      | panic => exact .inr ⟨by simp [hf], by simp [hd, hf], by simp [hd, hf]⟩

theorem shelf_build_maps (s : Shelf) (key : Str) (pKey : Option Str) :
    let s' := (s.call (.buildMatcher key pKey)).1
    s'.defs = s.defs ∧ s'.pMap = s.pMap ∧ s'.rpMap = s.rpMap ∧ s'.eMap = s.eMap := by
  rcases shelf_build s key pKey with ⟨_, e⟩ | ⟨_, e, _⟩ <;> simp [e]

theorem lastWord_def (sec : Char) (key : Str) (h : List ShelfCall) :
    LastWord (defWord sec key) h ((Shelf.after h).getDef sec key) := by
  refine lastWord_of_step (fun s => s.defs.get (sec, key)) rfl ?_ h
  intro h c
  rw [shelf_after_append]
  have hn := shelf_calls h
  generalize Shelf.after h = s at hn
  show ((s.call c).1).defs.get (sec, key) = _
  cases c with
  | setDef sc k v =>
    rw [shelf_setDef]
    unfold defWord
    dsimp only
    by_cases ht : DefTaken sc k
    · simp only [ht, if_true, define_defs, and_true, GoMap.get_set, Prod.mk.injEq]
      by_cases e : sc = sec ∧ k = key
      · rw [if_pos e, if_pos e, e.2, hn]; rfl
      · rw [if_neg e, if_neg e]; rfl
    · simp [ht]
  | removeDef sc k =>
    rw [shelf_removeDef]
    unfold defWord
    dsimp only
    by_cases ht : sc ∈ ['r', 'p', 'g', 'e', 'm']
    · simp only [ht, if_true, undefine_defs, and_true, GoMap.get_del, Prod.mk.injEq]
      by_cases e : sc = sec ∧ k = key
      · rw [if_pos e, if_pos e]; rfl
      · rw [if_neg e, if_neg e]; rfl
    · simp only [ht, if_false, and_false]; rfl
  | setRequestDef k x =>
    show (s.defs.set ('r', k) _).get (sec, key) = _
    unfold defWord
    dsimp only
    rw [GoMap.get_set]
    simp only [Prod.mk.injEq]
    by_cases e : sec = 'r' ∧ k = key
    · rw [if_pos ⟨e.1.symm, e.2⟩, if_pos e]; rfl
    · rw [if_neg (fun x => e ⟨x.1.symm, x.2⟩), if_neg e]; rfl
  | buildMatcher k p => rw [(shelf_build_maps s k p).1]; rfl
  | _ => rfl

theorem lastWord_plain (key : Str) (h : List ShelfCall) :
    LastWord (plainWord key) h ((Shelf.after h).pMap.get key) := by
  refine lastWord_of_step (fun s => s.pMap.get key) rfl ?_ h
  intro h c
  rw [shelf_after_append]
  have hn := shelf_calls h
  generalize Shelf.after h = s at hn
  show ((s.call c).1).pMap.get key = _
  cases c with
  | setDef sc k v =>
    rw [shelf_setDef]
    unfold plainWord
    dsimp only
    by_cases ht : DefTaken sc k
    · simp only [ht, if_true, define_pMap, and_true]
      by_cases e : sc = 'p'
      · simp only [e, if_true, GoMap.get_set, true_and]
        by_cases e2 : k = key
        · rw [if_pos e2, if_pos e2, hn]; rfl
        · rw [if_neg e2, if_neg e2]; rfl
      · simp [e]
    · simp [ht]
  | removeDef sc k =>
    rw [shelf_removeDef]
    unfold plainWord
    dsimp only
    by_cases e : sc = 'p'
    · subst e
      simp only [List.mem_cons, true_or, or_true, if_true, undefine_pMap, true_and, GoMap.get_del]
      by_cases e2 : k = key
      · rw [if_pos e2, if_pos e2]; rfl
      · rw [if_neg e2, if_neg e2]; rfl
    · split <;> simp [e, undefine_pMap]
  | setPolicy k x =>
    show (s.pMap.set k x).get key = _
    unfold plainWord
    dsimp only
    rw [GoMap.get_set]
    by_cases e2 : k = key
    · rw [if_pos e2, if_pos e2]; rfl
    · rw [if_neg e2, if_neg e2]; rfl
  | buildMatcher k p => rw [(shelf_build_maps s k p).2.1]; rfl
  | _ => rfl

theorem lastWord_role (key : Str) (h : List ShelfCall) :
    LastWord (roleWord key) h ((Shelf.after h).rpMap.get key) := by
  refine lastWord_of_step (fun s => s.rpMap.get key) rfl ?_ h
  intro h c
  rw [shelf_after_append]
  have hn := shelf_calls h
  generalize Shelf.after h = s at hn
  show ((s.call c).1).rpMap.get key = _
  cases c with
  | setDef sc k v =>
    rw [shelf_setDef]
    unfold roleWord
    dsimp only
    by_cases ht : DefTaken sc k
    · simp only [ht, if_true, define_rpMap, and_true]
      by_cases e : sc = 'g'
      · simp only [e, if_true, GoMap.get_set, true_and]
        by_cases e2 : k = key
        · rw [if_pos e2, if_pos e2, hn]; rfl
        · rw [if_neg e2, if_neg e2]; rfl
      · simp [e]
    · simp [ht]
  | removeDef sc k =>
    rw [shelf_removeDef]
    unfold roleWord
    dsimp only
    by_cases e : sc = 'g'
    · subst e
      simp only [List.mem_cons, true_or, or_true, if_true, undefine_rpMap, true_and, GoMap.get_del]
      by_cases e2 : k = key
      · rw [if_pos e2, if_pos e2]; rfl
      · rw [if_neg e2, if_neg e2]; rfl
    · split <;> simp [e, undefine_rpMap]
  | setRoleManager k x =>
    show (s.rpMap.set k ⟨s.calls, ⟨x, none⟩⟩).get key = _
    unfold roleWord
    dsimp only
    rw [GoMap.get_set, hn]
    by_cases e2 : k = key
    · rw [if_pos e2, if_pos e2]; rfl
    · rw [if_neg e2, if_neg e2]; rfl
  | buildMatcher k p => rw [(shelf_build_maps s k p).2.2.1]; rfl
  | _ => rfl

theorem lastWord_effector (key : Str) (h : List ShelfCall) :
    LastWord (effectorWord key) h ((Shelf.after h).getEffector key) := by
  refine lastWord_of_step (fun s => s.eMap.get key) rfl ?_ h
  intro h c
  rw [shelf_after_append]
  have hn := shelf_calls h
  generalize Shelf.after h = s at hn
  show ((s.call c).1).eMap.get key = _
  cases c with
  | setDef sc k v =>
    rw [shelf_setDef]
    unfold effectorWord
    dsimp only
    by_cases ht : DefTaken sc k
    · simp only [ht, if_true, define_eMap, and_true]
      by_cases e : sc = 'e'
      · simp only [e, if_true, GoMap.get_set, true_and]
        by_cases e2 : k = key
        · rw [if_pos e2, if_pos e2, hn]; rfl
        · rw [if_neg e2, if_neg e2]; rfl
      · simp [e]
    · simp [ht]
  | removeDef sc k =>
    rw [shelf_removeDef]
    unfold effectorWord
    dsimp only
    by_cases e : sc = 'e'
    · subst e
      simp only [List.mem_cons, true_or, or_true, if_true, undefine_eMap, true_and, GoMap.get_del]
      by_cases e2 : k = key
      · rw [if_pos e2, if_pos e2]; rfl
      · rw [if_neg e2, if_neg e2]; rfl
    · split <;> simp [e, undefine_eMap]
  | setEffector k x =>
    show (s.eMap.set k x).get key = _
    unfold effectorWord
    dsimp only
    rw [GoMap.get_set]
    by_cases e2 : k = key
    · rw [if_pos e2, if_pos e2]; rfl
    · rw [if_neg e2, if_neg e2]; rfl
  | buildMatcher k p => rw [(shelf_build_maps s k p).2.2.2]; rfl
  | _ => rfl

theorem lastWord_some_iff {α : Type} {word : List ShelfCall → ShelfCall → Option (Option α)} {h : List ShelfCall}
    {r : Option α} (l : LastWord word h r) : (∃ x, LastWord word h (some x)) ↔ r.isSome := by
  constructor
  · rintro ⟨x, l'⟩
    rw [lastWord_unique l l']; rfl
  · intro hr
    cases r with
    | none => cases hr
    | some x => exact ⟨x, l⟩

theorem findsPolicy_iff (s : Shelf) (k : Str) :
    s.findsPolicy k = .ok () ↔
      (s.getPolicy k).2 = true ∧ ((k.head? = some 'p' ∧ (s.getDef 'p' k).isSome) ∨ k.head? = some 'g') := by
  unfold Shelf.findsPolicy
  cases k with
  | nil => simp
  | cons c t =>
    by_cases hp : c = 'p'
    · subst hp
      cases hd : s.getDef 'p' ('p' :: t) <;> cases hg : (s.getPolicy ('p' :: t)).2 <;> simp
    · by_cases hg : c = 'g'
      · subst hg
        cases hg : (s.getPolicy ('g' :: t)).2 <;> simp
      · simp [hp, hg]

theorem getPolicy_ok (s : Shelf) (k : Str) :
    (s.getPolicy k).2 = true ↔ (s.pMap.get k).isSome ∨ (s.rpMap.get k).isSome := by
  unfold Shelf.getPolicy
  cases h : s.pMap.get k with
  | none => simp
  | some x => simp

theorem builds_iff (h : List ShelfCall) (key : Str) (pKey : Option Str) :
    (Shelf.after h).builds key pKey ↔ BuildTaken h key pKey := by
  unfold Shelf.builds BuildTaken
  constructor
  · rintro ⟨hd, k, e, hf⟩
    rw [findsPolicy_iff, getPolicy_ok] at hf
    refine ⟨k, e, (lastWord_some_iff (lastWord_def 'm' key h)).mpr hd, ?_, ?_⟩
    · rcases hf.1 with x | x
      · exact .inl ((lastWord_some_iff (lastWord_plain k h)).mpr x)
      · exact .inr ((lastWord_some_iff (lastWord_role k h)).mpr x)
    · rcases hf.2 with ⟨a, x⟩ | x
      · exact .inl ⟨a, (lastWord_some_iff (lastWord_def 'p' k h)).mpr x⟩
      · exact .inr x
  · rintro ⟨k, e, hd, hp, hk⟩
    refine ⟨(lastWord_some_iff (lastWord_def 'm' key h)).mp hd, k, e, ?_⟩
    rw [findsPolicy_iff, getPolicy_ok]
    refine ⟨?_, ?_⟩
    · rcases hp with x | x
      · exact .inl ((lastWord_some_iff (lastWord_plain k h)).mp x)
      · exact .inr ((lastWord_some_iff (lastWord_role k h)).mp x)
    · rcases hk with ⟨a, x⟩ | x
      · exact .inl ⟨a, (lastWord_some_iff (lastWord_def 'p' k h)).mp x⟩
      · exact .inr x

theorem lastWord_matcher (key : Str) (h : List ShelfCall) :
    LastWord (matcherWord key) h ((Shelf.after h).getMatcher key) := by
  refine lastWord_of_step (fun s => s.mMap.get key) rfl ?_ h
  intro h c
  rw [shelf_after_append]
  have hn := shelf_calls h
  have hb := builds_iff h
  generalize Shelf.after h = s at hn hb
  show ((s.call c).1).mMap.get key = _
  cases c with
  | setDef sc k v =>
    rw [shelf_setDef]
    split
    · rw [define_mMap]; rfl
    · rfl
  | removeDef sc k =>
    rw [shelf_removeDef]
    unfold matcherWord
    dsimp only
    by_cases e : sc = 'm'
    · subst e
      simp only [List.mem_cons, true_or, or_true, if_true, undefine_mMap, true_and, GoMap.get_del]
      by_cases e2 : k = key
      · rw [if_pos e2, if_pos e2]; rfl
      · rw [if_neg e2, if_neg e2]; rfl
    · split <;> simp [e, undefine_mMap]
  | setMatcher k x =>
    show (s.mMap.set k x).get key = _
    unfold matcherWord
    dsimp only
    rw [GoMap.get_set]
    by_cases e2 : k = key
    · rw [if_pos e2, if_pos e2]; rfl
    · rw [if_neg e2, if_neg e2]; rfl
  | buildMatcher k p =>
    unfold matcherWord
    dsimp only
    rcases shelf_build s k p with ⟨b, e⟩ | ⟨b, e, _⟩
    · rw [e]
      show (s.mMap.set k _).get key = _
      rw [GoMap.get_set, hn]
      have b' := (hb k p).mp b
      by_cases e2 : k = key
      · rw [if_pos e2, if_pos ⟨e2, b'⟩]; rfl
      · rw [if_neg e2, if_neg (fun x => e2 x.1)]; rfl
    · rw [e, if_neg (fun x => b ((hb k p).mpr x.2))]; rfl
  | _ => rfl

/-- What is kept together as long as the caller hands nothing over. -/
structure ShelfTogether (s : Shelf) : Prop where
  pol : ∀ key, (s.defs.get ('p', key)).map DefThing.ptr = s.pMap.get key
  role : ∀ key, (s.defs.get ('g', key)).map DefThing.ptr = (s.rpMap.get key).map (fun r => .made r.ptr)
  eff : ∀ key, (s.defs.get ('e', key)).map DefThing.ptr = s.eMap.get key
  mat : ∀ key, (s.mMap.get key).isSome → (s.defs.get ('m', key)).isSome
  first : ∀ sec key, (s.defs.get (sec, key)).isSome → DefTaken sec key

theorem shelfTogether_step {s : Shelf} (t : ShelfTogether s) {c : ShelfCall} (hc : c.ByText) : ShelfTogether (s.step c) := by
  suffices ShelfTogether (s.call c).1 from ⟨this.pol, this.role, this.eff, this.mat, this.first⟩
  cases c with
  | setDef sc k v =>
    rw [shelf_setDef]
    by_cases ht : DefTaken sc k
    case neg => rw [if_neg ht]; exact t
    rw [if_pos ht]
    constructor
    · intro key
      rw [define_defs, define_pMap, GoMap.get_set]
      by_cases e : sc = 'p'
      · subst e
        rw [if_pos rfl, GoMap.get_set]
        by_cases e2 : k = key
        · simp [e2]
        · simp [e2, t.pol]
      · simp [e, t.pol]
    · intro key
      rw [define_defs, define_rpMap, GoMap.get_set]
      by_cases e : sc = 'g'
      · subst e
        rw [if_pos rfl, GoMap.get_set]
        by_cases e2 : k = key
        · simp [e2]
        · simp [e2, t.role]
      · simp [e, t.role]
    · intro key
      rw [define_defs, define_eMap, GoMap.get_set]
      by_cases e : sc = 'e'
      · subst e
        rw [if_pos rfl, GoMap.get_set]
        by_cases e2 : k = key
        · simp [e2]
        · simp [e2, t.eff]
      · simp [e, t.eff]
    · intro key hk
      rw [define_mMap] at hk
      rw [define_defs, GoMap.get_set]
      split
      · rfl
      · exact t.mat key hk
    · intro sec key hk
      rw [define_defs, GoMap.get_set] at hk
      split at hk
      · next e => cases e; exact ht
      · exact t.first sec key hk
  | removeDef sc k =>
    rw [shelf_removeDef]
    by_cases ht : sc ∈ ['r', 'p', 'g', 'e', 'm']
    case neg => rw [if_neg ht]; exact t
    rw [if_pos ht]
    constructor
    · intro key
      rw [undefine_defs, undefine_pMap, GoMap.get_del]
      by_cases e : sc = 'p'
      · subst e
        rw [if_pos rfl, GoMap.get_del]
        by_cases e2 : k = key
        · simp [e2]
        · simp [e2, t.pol]
      · simp [e, t.pol]
    · intro key
      rw [undefine_defs, undefine_rpMap, GoMap.get_del]
      by_cases e : sc = 'g'
      · subst e
        rw [if_pos rfl, GoMap.get_del]
        by_cases e2 : k = key
        · simp [e2]
        · simp [e2, t.role]
      · simp [e, t.role]
    · intro key
      rw [undefine_defs, undefine_eMap, GoMap.get_del]
      by_cases e : sc = 'e'
      · subst e
        rw [if_pos rfl, GoMap.get_del]
        by_cases e2 : k = key
        · simp [e2]
        · simp [e2, t.eff]
      · simp [e, t.eff]
    · intro key hk
      rw [undefine_mMap] at hk
      rw [undefine_defs, GoMap.get_del]
      by_cases e : sc = 'm'
      · subst e
        rw [if_pos rfl, GoMap.get_del] at hk
        by_cases e2 : k = key
        · simp [e2] at hk
        · simp only [e2, if_false] at hk
          simpa [e2] using t.mat key hk
      · simp only [e, if_false] at hk
        simpa [e] using t.mat key hk
    · intro sec key hk
      rw [undefine_defs, GoMap.get_del] at hk
      split at hk
      · cases hk
      · exact t.first sec key hk
  | buildMatcher k p =>
    rcases shelf_build s k p with ⟨b, e⟩ | ⟨b, e, _⟩
    · rw [e]
      refine ⟨t.pol, t.role, t.eff, ?_, t.first⟩
      intro key hk
      replace hk : ((s.mMap.set k (.made s.calls)).get key).isSome := hk
      rw [GoMap.get_set] at hk
      by_cases e2 : k = key
      · subst e2; exact b.1
      · simp only [e2, if_false] at hk; exact t.mat key hk
    · rw [e]; exact t
  | _ => cases hc

theorem shelfTogether {h : List ShelfCall} (hh : ∀ c ∈ h, c.ByText) : ShelfTogether (Shelf.after h) := by
  induction h using shelf_history_induction with
  | nil => exact ⟨fun _ => rfl, fun _ => rfl, fun _ => rfl, (fun _ h => nomatch h), (fun _ _ h => nomatch h)⟩
  | snoc h c ih =>
    rw [shelf_after_append]
    exact shelfTogether_step (ih (fun c hc => hh c (by simp [hc]))) (hh c (by simp))

end Fastac
