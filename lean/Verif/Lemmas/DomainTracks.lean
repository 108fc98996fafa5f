import Verif.Lemmas.DomainRounds

/-!
# Domain managers used at the same time: histories
-/

namespace Fastac

open DHeap

theorem DHeap.rmAt_upd (s : DHeap) (j : Nat) (f : RHeap → RHeap) (a : Nat) (ds : List Str) :
    (s.updRM j f).rmAt a ds = s.rmAt a ds := rmAt_dms (s := s) (s' := s.updRM j f) rfl a ds

theorem SeenAt.append {P : List Str} {Rs Rs' : List DRound} {Ss Ss' : List Round} (h : SeenAt P Rs Ss)
    (h' : SeenAt P Rs' Ss') : SeenAt P (Rs ++ Rs') (Ss ++ Ss') := by
  induction h with
  | nil => exact h'
  | alone hp _ ih => exact .alone hp ih
  | other hp _ ih => exact .other hp ih
  | together s _ ih => exact .together s ih

/-- The part has an `AddLink` or `DeleteLink` with the path. -/
def DRound.Uses (P : List Str) (R : DRound) : Prop := ∃ y ∈ R.calls, y.call.asks = false ∧ y.path = P

theorem quiet_iff {P : List Str} {R : DRound} :
    (R.calls.all fun y => y.call.asks || decide (y.path ≠ P)) = true ↔ ¬ R.Uses P := by
  rw [List.all_eq_true]
  constructor
  · rintro h ⟨y, hy, h1, h2⟩
    have := h y hy
    simp [h1, h2] at this
  · intro h y hy
    cases h1 : y.call.asks with
    | true => rfl
    | false =>
      by_cases h2 : y.path = P
      · exact absurd ⟨y, hy, h1, h2⟩ h
      · simp [h2]

theorem sinceUsed_cons (P : List Str) (R : DRound) (Rs : List DRound) : (R.Uses P → sinceUsed P (R :: Rs) = R :: Rs) ∧
    (¬ R.Uses P → sinceUsed P (R :: Rs) = sinceUsed P Rs) := by
  unfold sinceUsed
  refine ⟨fun h => ?_, fun h => ?_⟩
  · rw [List.dropWhile_cons, if_neg]
    exact fun e => quiet_iff.1 e h
  · rw [List.dropWhile_cons, if_pos (quiet_iff.2 h)]

theorem PathUsed.cons {P : List Str} {R : DRound} {Rs : List DRound} : PathUsed (R :: Rs) P ↔ R.Uses P ∨ PathUsed Rs P := by
  unfold PathUsed
  simp [DRound.Uses]

theorem PathUsed.append {P : List Str} {Rs Rs' : List DRound} : PathUsed (Rs ++ Rs') P ↔ PathUsed Rs P ∨ PathUsed Rs' P := by
  constructor
  · rintro ⟨R, hR, h⟩
    rcases List.mem_append.1 hR with h' | h'
    · exact .inl ⟨R, h', h⟩
    · exact .inr ⟨R, h', h⟩
  · rintro (⟨R, hR, h⟩ | ⟨R, hR, h⟩)
    · exact ⟨R, List.mem_append_left _ hR, h⟩
    · exact ⟨R, List.mem_append_right _ hR, h⟩

theorem sinceUsed_append {P : List Str} (R : DRound) : ∀ {Rs : List DRound}, PathUsed Rs P →
    sinceUsed P (Rs ++ [R]) = sinceUsed P Rs ++ [R]
  | [], h => by
    obtain ⟨_, h, _⟩ := h
    cases h
  | R' :: Rs, h => by
    by_cases c : R'.Uses P
    · rw [List.cons_append, (sinceUsed_cons P R' _).1 c, (sinceUsed_cons P R' _).1 c, List.cons_append]
    · rw [List.cons_append, (sinceUsed_cons P R' _).2 c, (sinceUsed_cons P R' _).2 c]
      exact sinceUsed_append R ((PathUsed.cons.1 h).resolve_left c)

theorem sinceUsed_first {P : List Str} {R : DRound} (hR : R.Uses P) : ∀ {Rs : List DRound}, ¬ PathUsed Rs P →
    sinceUsed P (Rs ++ [R]) = [R]
  | [], _ => (sinceUsed_cons P R []).1 hR
  | R' :: Rs, h => by
    have c : ¬ R'.Uses P := fun c => h (PathUsed.cons.2 (.inl c))
    rw [List.cons_append, (sinceUsed_cons P R' _).2 c]
    exact sinceUsed_first hR (fun c => h (PathUsed.cons.2 (.inr c)))

namespace RConf

variable {c : RConf}

theorem rounds_append (c : RConf) : ∀ (Ss Ss' : List Round) (h : RHeap),
    c.rounds h (Ss ++ Ss') = c.rounds (c.rounds h Ss) Ss'
  | [], _, _ => rfl
  | S :: Ss, Ss', h => rounds_append c Ss Ss' (c.round h S)

theorem ended_append (c : RConf) : ∀ {Ss Ss' : List Round} {h : RHeap}, c.Ended h Ss → c.Ended (c.rounds h Ss) Ss' →
    c.Ended h (Ss ++ Ss')
  | [], _, _, _, e => e
  | .alone _ :: Ss, _, _, e, e' => ended_append c (Ss := Ss) e e'
  | .together _ _ :: Ss, _, _, e, e' => ⟨e.1, ended_append c (Ss := Ss) e.2 e'⟩

/-- What is known of the managers after a history. -/
structure Tracked (c : RConf) (Rs : List DRound) (h : DHeap) : Prop where
  tree : h.Tree
  used : ∀ P, PathUsed Rs P → ∃ j Ss, h.rmAt 0 P = some j ∧ SeenAt P (sinceUsed P Rs) Ss ∧
    (c.below P).Ended RHeap.new Ss ∧ h.rm j = (c.below P).rounds RHeap.new Ss
  unused : ∀ P, ¬ PathUsed Rs P → h.rmAt 0 P = none

theorem Tracked.new : Tracked c [] DHeap.new := by
  refine ⟨Tree.new, fun P h => ?_, fun P _ => ?_⟩
  · obtain ⟨_, h, _⟩ := h
    cases h
  · rcases P with _ | ⟨d, P⟩ <;> rfl

theorem Tracked.known {Rs : List DRound} {h : DHeap} (t : Tracked c Rs h) {xs : List DCall}
    (hx : ∀ x ∈ xs, x.call.asks = false → PathUsed Rs x.path) : Known h xs := by
  intro x hx' ha
  obtain ⟨j, _, hj, -⟩ := t.used _ (hx x hx' ha)
  rw [hj]
  exact fun h => nomatch h

/-- A call alone. -/
theorem exec_alone {h : DHeap} (t : h.Tree) (x : DCall) : ∃ h', ((c.domainThread x.call x.path).exec h).1 = h' ∧ h'.Tree ∧
    ((x.call.asks = true ∧ h.rmAt 0 x.path = none ∧ h' = h) ∨
    ∃ j, h'.rmAt 0 x.path = some j ∧ (x.call.asks = true → h.rmAt 0 x.path = some j) ∧
      (h.rmAt 0 x.path = some j ∨ h.rmAt 0 x.path = none ∧ h.rms.length ≤ j) ∧
      h'.rm j = (((c.below x.path).thread x.call).exec (if h.rmAt 0 x.path = some j then h.rm j else RHeap.new)).1 ∧
      ∀ Q, Q ≠ x.path → h'.rmAt 0 Q = h.rmAt 0 Q ∧ ∀ k, h.rmAt 0 Q = some k → h'.rm k = h.rm k) := by
  refine ⟨_, rfl, ?_⟩
  rw [domainThread_eq, Thread.exec_bind, RCall.stores_eq]
  cases ha : x.call.asks with
  | true =>
    rw [show (!true) = false from rfl, descend_read]
    cases hr : h.rmAt 0 x.path with
    | none =>
      have : ((c.goOn x none).exec h).1 = h := by
        show (((c.below x.path).private_ x.call).exec h).1 = h
        unfold private_
        split <;> rfl
      show ((c.goOn x none).exec h).1.Tree ∧ _
      refine ⟨by rw [this]; exact t, .inl ⟨rfl, rfl, this⟩⟩
    | some j =>
      have hl := t.rm_lt hr
      have e : ((c.goOn x (some j)).exec h).1 =
          h.updRM j (fun _ => (((c.below x.path).thread x.call).exec (h.rm j)).1) := by
        show ((Thread.inRM j _).exec h).1 = _
        rw [exec_inRM _ hl]
      show ((c.goOn x (some j)).exec h).1.Tree ∧ _
      refine ⟨by rw [e]; exact t.of_dms rfl (updRM_length ..), .inr ⟨j, ?_, fun _ => rfl, .inl rfl, ?_, fun Q hQ => ⟨?_, ?_⟩⟩⟩
      · show ((c.goOn x (some j)).exec h).1.rmAt 0 x.path = some j
        rw [e]
        exact (rmAt_upd ..).trans hr
      · show ((c.goOn x (some j)).exec h).1.rm j = _
        rw [e, rm_upd_self hl, if_pos rfl]
      · show ((c.goOn x (some j)).exec h).1.rmAt 0 Q = _
        rw [e]
        exact rmAt_upd ..
      · intro k hk
        show ((c.goOn x (some j)).exec h).1.rm k = _
        rw [e]
        exact rm_upd_ne (fun e' => hQ (t.rm_inj (e' ▸ hk) hr)) _
  | false =>
    rw [show (!false) = true from rfl]
    obtain ⟨s, j, h1, h2, h3, h4, h5⟩ := descend_store x.path 0 h t t.root
    rw [h1]
    have hl := h2.rm_lt h4
    have e : ((c.goOn x (some j)).exec s).1 =
        s.updRM j (fun _ => (((c.below x.path).thread x.call).exec (s.rm j)).1) := by
      show ((Thread.inRM j _).exec s).1 = _
      rw [exec_inRM _ hl]
    show ((c.goOn x (some j)).exec s).1.Tree ∧ _
    refine ⟨by rw [e]; exact h2.of_dms rfl (updRM_length ..), .inr ⟨j, ?_, fun h => (nomatch h),
      h5.imp id (fun h => ⟨h.1, h.2.2⟩), ?_, fun Q hQ => ⟨?_, ?_⟩⟩⟩
    · show ((c.goOn x (some j)).exec s).1.rmAt 0 x.path = some j
      rw [e]
      exact (rmAt_upd ..).trans h4
    · show ((c.goOn x (some j)).exec s).1.rm j = _
      rw [e, rm_upd_self hl]
      rcases h5 with h5 | ⟨h5, h6, h7⟩
      · rw [if_pos h5, h3.rm j (t.rm_lt h5)]
      · rw [if_neg (by rw [h5]; exact fun h => (nomatch h)), h6]
    · show ((c.goOn x (some j)).exec s).1.rmAt 0 Q = _
      rw [e]
      refine (rmAt_upd ..).trans ?_
      cases hq : h.rmAt 0 Q with
      | some k => exact h3.rmAt hq
      | none =>
        cases hs : s.rmAt 0 Q with
        | none => rfl
        | some k =>
          by_cases hk : k = j
          · subst hk
            exact absurd (h2.rm_inj hs h4) hQ
          · rw [h3.rmAt_back hs hk] at hq
            cases hq
    · intro k hk
      show ((c.goOn x (some j)).exec s).1.rm k = _
      have hkj : k ≠ j := fun e' => hQ (h2.rm_inj (h3.rmAt (e' ▸ hk)) h4)
      rw [e, rm_upd_ne hkj]
      exact h3.rm k (t.rm_lt hk)

theorem Tracked.alone {Rs : List DRound} {h : DHeap} (t : Tracked c Rs h) (x : DCall) :
    Tracked c (Rs ++ [.alone x]) (c.roundD h (.alone x)) := by
  obtain ⟨h', e, h1, h2⟩ := exec_alone (c := c) t.tree x
  show Tracked c (Rs ++ [.alone x]) ((c.domainThread x.call x.path).exec h).1
  rw [e]
  have us : ∀ P, DRound.Uses P (.alone x) ↔ x.call.asks = false ∧ x.path = P := fun P => by
    simp [DRound.Uses, DRound.calls]
  have ap : ∀ P, PathUsed (Rs ++ [.alone x]) P ↔ PathUsed Rs P ∨ (x.call.asks = false ∧ x.path = P) := fun P => by
    rw [PathUsed.append, PathUsed.cons, us]
    refine or_congr Iff.rfl ⟨fun h => h.resolve_right ?_, .inl⟩
    rintro ⟨_, h, _⟩
    cases h
  rcases h2 with ⟨ha, hn, rfl⟩ | ⟨j, h3, h4, h5, h6, h7⟩
  · have nu : ¬ PathUsed Rs x.path := fun hu => by
      obtain ⟨j, _, hj, -⟩ := t.used _ hu
      rw [hn] at hj
      cases hj
    have ap' : ∀ P, PathUsed (Rs ++ [.alone x]) P ↔ PathUsed Rs P := fun P => by
      rw [ap, ha]
      simp
    refine ⟨h1, fun P hP => ?_, fun P hP => t.unused P (fun h => hP ((ap' P).2 h))⟩
    have hP' := (ap' P).1 hP
    obtain ⟨j, Ss, g1, g2, g3, g4⟩ := t.used P hP'
    refine ⟨j, Ss, g1, ?_, g3, g4⟩
    rw [sinceUsed_append _ hP', ← List.append_nil Ss]
    refine g2.append (.other (fun e => ?_) .nil)
    rw [e] at nu
    exact nu hP'
  · refine ⟨h1, fun P hP => ?_, fun P hP => ?_⟩
    · by_cases hp : P = x.path
      · subst hp
        by_cases hu : PathUsed Rs x.path
        · obtain ⟨k, Ss, g1, g2, g3, g4⟩ := t.used _ hu
          have hkj : k = j := by
            rcases h5 with h5 | ⟨h5, _⟩ <;> rw [g1] at h5 <;> cases h5
            rfl
          subst hkj
          refine ⟨k, Ss ++ [.alone x.call], h3, ?_, ended_append (Ss' := [.alone x.call]) _ g3 trivial, ?_⟩
          · rw [sinceUsed_append _ hu]
            exact g2.append (.alone rfl .nil)
          · rw [h6, if_pos g1, rounds_append, ← g4]
            rfl
        · have hn := t.unused _ hu
          have hw := ((ap _).1 hP).resolve_left hu
          refine ⟨j, [.alone x.call], h3, ?_, trivial, ?_⟩
          · rw [sinceUsed_first ((us _).2 hw) hu]
            exact .alone rfl .nil
          · rw [h6, if_neg (by rw [hn]; exact fun h => (nomatch h))]
            rfl
      · have hu : PathUsed Rs P := ((ap P).1 hP).resolve_right (fun h => hp h.2.symm)
        obtain ⟨k, Ss, g1, g2, g3, g4⟩ := t.used _ hu
        refine ⟨k, Ss, by rw [(h7 P hp).1]; exact g1, ?_, g3, by rw [(h7 P hp).2 k g1]; exact g4⟩
        rw [sinceUsed_append _ hu, ← List.append_nil Ss]
        exact g2.append (.other (fun e => hp e.symm) .nil)
    · have hn := t.unused P (fun h => hP ((ap P).2 (.inl h)))
      by_cases hp : P = x.path
      · subst hp
        cases ha : x.call.asks with
        | false => exact absurd ((ap _).2 (.inr ⟨ha, rfl⟩)) hP
        | true =>
          have := h4 ha
          rw [hn] at this
          cases this
      · rw [(h7 P hp).1]
        exact hn

theorem Tracked.together {Rs : List DRound} {h : DHeap} (t : Tracked c Rs h) {xs : List DCall}
    (hx : ∀ x ∈ xs, x.call.asks = false → PathUsed Rs x.path) {sched : List Nat} (o : ((c.startD h xs).run sched).Over) :
    Tracked c (Rs ++ [.together xs sched]) (c.roundD h (.together xs sched)) := by
  have hk := t.known hx
  have w := (walking_start (c := c) (h := h) xs).run hk sched
  have ap : ∀ P, PathUsed (Rs ++ [.together xs sched]) P ↔ PathUsed Rs P := fun P => by
    rw [PathUsed.append]
    refine ⟨fun h => h.elim id ?_, .inl⟩
    rintro ⟨R, hR, y, hy, h1, h2⟩
    cases List.mem_singleton.1 hR
    rw [← h2]
    exact hx y hy h1
  show Tracked c _ ((c.startD h xs).run sched).heap
  have er : ∀ P, ((c.startD h xs).run sched).heap.rmAt 0 P = h.rmAt 0 P := fun P => rmAt_dms w.dms 0 P
  refine ⟨t.tree.of_dms w.dms w.rlen, fun P hP => ?_, fun P hP => ?_⟩
  · have hP' := (ap P).1 hP
    obtain ⟨j, Ss, g1, g2, g3, g4⟩ := t.used P hP'
    obtain ⟨l, q⟩ := Coupled.run t.tree hk g1 sched (coupled_start (c := c) (P := P) (j := j) xs)
    refine ⟨j, Ss ++ [.together (callsAt P xs) l], by rw [er]; exact g1, ?_, ended_append (Ss' := [.together _ l]) _ g3 ⟨?_, trivial⟩, ?_⟩
    · rw [sinceUsed_append _ hP']
      exact g2.append (.together l .nil)
    · rw [← g4]
      exact q.over g1 o
    · rw [rounds_append, q.rm, ← g4]
      rfl
  · rw [er]
    exact t.unused P (fun h => hP ((ap P).2 h))

theorem Tracked.rounds : ∀ (Rs : List DRound) {pre : List DRound} {h : DHeap}, Tracked c pre h →
    (∀ p xs sched q, Rs = p ++ .together xs sched :: q → ∀ x ∈ xs, x.call.asks = false → PathUsed (pre ++ p) x.path) →
    c.EndedD h Rs → Tracked c (pre ++ Rs) (c.roundsD h Rs)
  | [], pre, h, t, _, _ => by rw [List.append_nil]; exact t
  | R :: Rs, pre, h, t, hu, he => by
    have key : Tracked c (pre ++ [R]) (c.roundD h R) ∧ c.EndedD (c.roundD h R) Rs := by
      cases R with
      | alone x => exact ⟨t.alone x, he⟩
      | together xs sched =>
        refine ⟨t.together (fun x hx ha => ?_) he.1, he.2⟩
        have := hu [] xs sched Rs rfl x hx ha
        rwa [List.append_nil] at this
    have := Tracked.rounds Rs key.1 (fun p xs sched q e x hx ha => by
      rw [List.append_assoc]
      exact hu (R :: p) xs sched q (by rw [e]; rfl) x hx ha) key.2
    rwa [List.append_assoc] at this

theorem tracked {Rs : List DRound} (hu : OnlyPathsInUse Rs) (he : c.EndedD DHeap.new Rs) :
    Tracked c Rs (c.roundsD DHeap.new Rs) :=
  Tracked.rounds Rs Tracked.new (fun p xs sched q e x hx ha => hu p xs sched q e x hx ha) he

end RConf

end Fastac
