import Verif.Lemmas.DomainTracks
import Verif.Props.RoleWriters

/-!
# Domain managers used at the same time: histories of one path
-/

namespace Fastac

theorem callsAt_append (P : List Str) (xs ys : List DCall) : callsAt P (xs ++ ys) = callsAt P xs ++ callsAt P ys := by
  unfold callsAt
  rw [List.filter_append, List.map_append]

theorem mem_callsAt {P : List Str} {xs : List DCall} {x : RCall} : x ∈ callsAt P xs ↔ ⟨x, P⟩ ∈ xs := by
  unfold callsAt
  rw [List.mem_map]
  constructor
  · rintro ⟨y, h1, rfl⟩
    obtain ⟨h2, h3⟩ := List.mem_filter.1 h1
    obtain ⟨yc, yp⟩ := y
    have : yp = P := of_decide_eq_true h3
    subst this
    exact h2
  · exact fun h => ⟨⟨x, P⟩, List.mem_filter.2 ⟨h, decide_eq_true rfl⟩, rfl⟩

theorem SeenAt.calls {P : List Str} {Rs : List DRound} {Ss : List Round} (h : SeenAt P Rs Ss) :
    callsAt P (Rs.flatMap DRound.calls) = Ss.flatMap Round.calls := by
  induction h with
  | nil => rfl
  | @alone x Rs Ss hp _ ih =>
    rw [List.flatMap_cons, List.flatMap_cons, callsAt_append, ih]
    show callsAt P [x] ++ _ = [x.call] ++ _
    rw [callsAt_cons, if_pos hp]
    rfl
  | @other x Rs Ss hp _ ih =>
    rw [List.flatMap_cons, callsAt_append, ih]
    show callsAt P [x] ++ _ = _
    rw [callsAt_cons, if_neg hp]
    rfl
  | together s _ ih =>
    rw [List.flatMap_cons, List.flatMap_cons, callsAt_append, ih]
    rfl

theorem SeenAt.mergeAt {P : List Str} {Rs : List DRound} {Ss : List Round} (h : SeenAt P Rs Ss) :
    ∀ {ops : List LinkOp}, Merge Ss ops → MergeAt P Rs ops := by
  induction h with
  | nil => exact fun h => h
  | @alone x Rs Ss hp _ ih =>
    rintro ops ⟨xs, ops', h1, h2, h3⟩
    refine ⟨xs, ops', ?_, h2, ih h3⟩
    show xs.Perm (callsAt P [x])
    rw [callsAt_cons, if_pos hp]
    exact h1
  | @other x Rs Ss hp _ ih =>
    intro ops h
    refine ⟨[], ops, ?_, rfl, ih h⟩
    show List.Perm [] (callsAt P [x])
    rw [callsAt_cons, if_neg hp]
    exact .refl _
  | together s _ ih =>
    rintro ops ⟨xs, ops', h1, h2, h3⟩
    exact ⟨xs, ops', h1, h2, ih h3⟩

/-- Before the first update there are only questions. -/
theorem since_split (P : List Str) : ∀ (Rs : List DRound), ∃ pre, Rs = pre ++ sinceUsed P Rs ∧ ∀ R ∈ pre, ¬ R.Uses P
  | [] => ⟨[], rfl, fun _ h => nomatch h⟩
  | R :: Rs => by
    by_cases c : R.Uses P
    · exact ⟨[], by rw [(sinceUsed_cons P R Rs).1 c]; rfl, fun _ h => nomatch h⟩
    · obtain ⟨pre, h1, h2⟩ := since_split P Rs
      refine ⟨R :: pre, ?_, fun R' hR => ?_⟩
      · rw [(sinceUsed_cons P R Rs).2 c, List.cons_append, ← h1]
      · rcases List.mem_cons.1 hR with rfl | hR
        · exact c
        · exact h2 R' hR

theorem questions_of_unused {P : List Str} {R : DRound} (h : ¬ R.Uses P) : ∀ x ∈ callsAt P R.calls, x.asks = true := by
  intro x hx
  cases ha : x.asks with
  | true => rfl
  | false => exact absurd ⟨_, mem_callsAt.1 hx, ha, rfl⟩ h

/-- Questions first make no difference. -/
theorem linked_after_questions {xs : List RCall} (hx : ∀ x ∈ xs, x.asks = true) (ops : List LinkOp) (u r : Str) :
    linked (xs.map RCall.op ++ ops) u r = linked ops u r := by
  unfold linked
  generalize false = b
  induction xs with
  | nil => rfl
  | cons x xs ih =>
    have h1 := hx x (.head _)
    have h2 := ih (fun y hy => hx y (.tail _ hy))
    cases x with
    | add u r => cases h1
    | del u r => cases h1
    | hasLink u r => exact h2
    | getRoles n => exact h2
    | getUsers n => exact h2

theorem linked_at {P : List Str} {Rs : List DRound} {Ss : List Round} (h : SeenAt P (sinceUsed P Rs) Ss) (u r : Str) :
    linked (linkOpsAt P Rs) u r = linked (linkOpsOf Ss) u r := by
  obtain ⟨pre, h1, h2⟩ := since_split P Rs
  unfold linkOpsAt linkOpsOf
  rw [h1, List.flatMap_append, callsAt_append, List.map_append, h.calls]
  refine linked_after_questions (fun x hx => ?_) _ u r
  obtain ⟨R, hR, hy⟩ := List.mem_flatMap.1 (mem_callsAt.1 hx)
  exact questions_of_unused (h2 R hR) x (mem_callsAt.2 hy)

theorem merge_at {P : List Str} {Rs : List DRound} {Ss : List Round} (h : SeenAt P (sinceUsed P Rs) Ss) {ops : List LinkOp}
    (hm : Merge Ss ops) : ∃ ops', MergeAt P Rs ops' ∧ ∀ u r, linked ops' u r = linked ops u r := by
  obtain ⟨pre, h1, h2⟩ := since_split P Rs
  have h3 := h.mergeAt hm
  have : ∀ (pre : List DRound), (∀ R ∈ pre, ¬ R.Uses P) → ∃ ops', MergeAt P (pre ++ sinceUsed P Rs) ops' ∧
      ∀ u r, linked ops' u r = linked ops u r := by
    intro pre
    induction pre with
    | nil => exact fun _ => ⟨ops, h3, fun _ _ => rfl⟩
    | cons R pre ih =>
      intro hR
      obtain ⟨ops', g1, g2⟩ := ih (fun R' h => hR R' (.tail _ h))
      refine ⟨_, ⟨callsAt P R.calls, ops', .refl _, rfl, g1⟩, fun u r => ?_⟩
      rw [linked_after_questions (questions_of_unused (hR R (.head _)))]
      exact g2 u r
  obtain ⟨ops', g1, g2⟩ := this pre h2
  rw [← h1] at g1
  exact ⟨ops', g1, g2⟩

theorem merge_unused {P : List Str} : ∀ {Rs : List DRound}, ¬ PathUsed Rs P → ∃ ops, MergeAt P Rs ops ∧
    ∀ u r, linked ops u r = false
  | [], _ => ⟨[], rfl, fun _ _ => rfl⟩
  | R :: Rs, h => by
    obtain ⟨ops, h1, h2⟩ := merge_unused (fun h' => h (PathUsed.cons.2 (.inr h')))
    refine ⟨_, ⟨callsAt P R.calls, ops, .refl _, rfl, h1⟩, fun u r => ?_⟩
    rw [linked_after_questions (questions_of_unused (fun h' => h (PathUsed.cons.2 (.inl h'))))]
    exact h2 u r

theorem linked_unused {P : List Str} {Rs : List DRound} (h : ¬ PathUsed Rs P) (u r : Str) :
    linked (linkOpsAt P Rs) u r = false := by
  unfold linkOpsAt
  have := linked_after_questions (xs := callsAt P (Rs.flatMap DRound.calls)) (fun x hx => ?_) [] u r
  · rw [List.append_nil] at this
    exact this
  · obtain ⟨R, hR, hy⟩ := List.mem_flatMap.1 (mem_callsAt.1 hx)
    cases ha : x.asks with
    | true => rfl
    | false => exact absurd ⟨R, hR, _, hy, ha, rfl⟩ h

/-- Calls at the same time come from calls at the same time. -/
theorem SeenAt.split {P : List Str} {Rs : List DRound} {Ss : List Round} (h : SeenAt P Rs Ss) :
    ∀ {p : List Round} {ys : List RCall} {s : List Nat} {q : List Round}, Ss = p ++ .together ys s :: q →
      ∃ p' xs s' q', Rs = p' ++ .together xs s' :: q' ∧ SeenAt P p' p ∧ ys = callsAt P xs := by
  induction h with
  | nil => intro p ys s q e; simp at e
  | @alone x Rs Ss hp _ ih =>
    intro p ys s q e
    rcases p with _ | ⟨R, p⟩
    · cases e
    · obtain ⟨rfl, e2⟩ := List.cons.inj e
      obtain ⟨p', xs, s', q', rfl, h1, h2⟩ := ih e2
      exact ⟨_ :: p', xs, s', q', rfl, .alone hp h1, h2⟩
  | @other x Rs Ss hp _ ih =>
    intro p ys s q e
    obtain ⟨p', xs, s', q', rfl, h1, h2⟩ := ih e
    exact ⟨_ :: p', xs, s', q', rfl, .other hp h1, h2⟩
  | @together xs sched Rs Ss s0 h0 ih =>
    intro p ys s q e
    rcases p with _ | ⟨R, p⟩
    · injection e with e1 e2
      injection e1 with e1 e3
      exact ⟨[], xs, sched, Rs, rfl, .nil, e1.symm⟩
    · obtain ⟨rfl, e2⟩ := List.cons.inj e
      obtain ⟨p', xs', s', q', rfl, h1, h2⟩ := ih e2
      exact ⟨_ :: p', xs', s', q', rfl, .together s0 h1, h2⟩

theorem questions_at {P : List Str} {Rs : List DRound} (h : OnlyQuestionsTogetherAt Rs) {Ss : List Round}
    (hs : SeenAt P (sinceUsed P Rs) Ss) : OnlyQuestionsTogether Ss := by
  intro ys s hm x hx
  obtain ⟨p, q, e⟩ := List.append_of_mem hm
  obtain ⟨p', xs, s', q', e', -, rfl⟩ := hs.split e
  obtain ⟨pre, e1, -⟩ := since_split P Rs
  refine h xs s' ?_ _ (mem_callsAt.1 hx)
  rw [e1, e']
  simp

theorem paths_of_questions {Rs : List DRound} (h : OnlyQuestionsTogetherAt Rs) : OnlyPathsInUse Rs := by
  intro pre xs sched post e x hx ha
  rw [h xs sched (by rw [e]; simp) x hx] at ha
  cases ha

theorem about_ne_nil (x : RCall) : ∃ n, n ∈ x.about := by
  cases x with
  | add u r => exact ⟨u, .head _⟩
  | del u r => exact ⟨u, .head _⟩
  | hasLink u r => exact ⟨u, .head _⟩
  | getRoles n => exact ⟨n, .head _⟩
  | getUsers n => exact ⟨n, .head _⟩

theorem NameUsed.path {Rs : List DRound} {P : List Str} {n : Str} (h : NameUsed Rs P n) : PathUsed Rs P := by
  obtain ⟨R, h1, y, h2, h3, h4, _⟩ := h
  exact ⟨R, h1, y, h2, h3, h4⟩

theorem paths_of_names {Rs : List DRound} (h : OnlyNamesInUseAt Rs) : OnlyPathsInUse Rs := by
  intro pre xs sched post e x hx ha
  obtain ⟨n, hn⟩ := about_ne_nil x.call
  exact (h pre xs sched post e x hx ha n hn).path

theorem name_seen {P : List Str} {Rs : List DRound} {Ss : List Round} (h : SeenAt P Rs Ss) {n : Str} (hn : NameUsed Rs P n) :
    ∃ R ∈ Ss, ∃ y ∈ R.calls, y.asks = false ∧ n ∈ y.about := by
  obtain ⟨R, hR, ⟨y, p⟩, hy, ha, hp, h1⟩ := hn
  replace hp : p = P := hp
  subst hp
  have : y ∈ Ss.flatMap Round.calls := by
    rw [← h.calls]
    exact mem_callsAt.2 (List.mem_flatMap.2 ⟨R, hR, hy⟩)
  obtain ⟨S, hS, hy'⟩ := List.mem_flatMap.1 this
  exact ⟨S, hS, y, hy', ha, h1⟩

theorem names_at {P : List Str} {Rs : List DRound} (h : OnlyNamesInUseAt Rs) {Ss : List Round}
    (hs : SeenAt P (sinceUsed P Rs) Ss) : OnlyNamesInUse Ss := by
  intro p ys s q e x hx ha n hn
  obtain ⟨p', xs, s', q', e', h1, rfl⟩ := hs.split e
  obtain ⟨pre, e1, h2⟩ := since_split P Rs
  refine name_seen h1 ?_
  obtain ⟨R, hR, y, hy, g1, g2, g3⟩ := h (pre ++ p') xs s' q' (by rw [List.append_assoc, ← e']; exact e1) _
    (mem_callsAt.1 hx) ha n hn
  refine ⟨R, ?_, y, hy, g1, g2, g3⟩
  rcases List.mem_append.1 hR with hR | hR
  · exact absurd ⟨y, hy, g1, g2⟩ (h2 R hR)
  · exact hR

namespace DSystem

theorem run_idle {i : Nat} : ∀ (is : List Nat) {y : DSystem}, i ∉ is → (y.run is).calls[i]? = y.calls[i]?
  | [], _, _ => rfl
  | j :: js, y, h => by
    have h1 : i ≠ j := fun e => h (e ▸ List.mem_cons_self)
    exact (run_idle js (fun e => h (List.mem_cons_of_mem _ e))).trans (step_other h1)

/-- A call that is let run again and again comes to its end. -/
theorem ends {i : Nat} {σ : Nat → Nat} (hσ : ∀ m, ∃ k, m ≤ k ∧ σ k = i) : ∀ (t : Thread DHeap RAns) (m : Nat) {y : DSystem},
    (y.run ((List.range m).map σ)).calls[i]? = some t → ∃ k, (∃ a, (y.run ((List.range k).map σ)).calls[i]? = some (.ret a)) ∨
      (y.run ((List.range k).map σ)).calls[i]? = some .crash := by
  intro t
  induction t with
  | ret a => exact fun m y h => ⟨m, .inl ⟨a, h⟩⟩
  | crash => exact fun m y h => ⟨m, .inr h⟩
  | act f k ih =>
    intro m y h
    have hex : ∀ d m, (∃ k, m ≤ k ∧ k < m + d ∧ σ k = i) → ∃ k, m ≤ k ∧ σ k = i ∧ ∀ j, m ≤ j → j < k → σ j ≠ i := by
      intro d
      induction d with
      | zero => rintro m ⟨k, h1, h2, _⟩; omega
      | succ d ih =>
        rintro m ⟨k, h1, h2, h3⟩
        by_cases c : σ m = i
        · exact ⟨m, Nat.le_refl m, c, fun j h1 h2 => by omega⟩
        · have hk : m + 1 ≤ k := by
            rcases Nat.lt_or_ge m k with h | h
            · exact h
            · have : m = k := by omega
              rw [this] at c; exact absurd h3 c
          obtain ⟨k', g1, g2, g3⟩ := ih (m + 1) ⟨k, hk, by omega, h3⟩
          refine ⟨k', by omega, g2, fun j h1 h2 => ?_⟩
          by_cases e : j = m
          · rw [e]; exact c
          · exact g3 j (by omega) h2
    obtain ⟨k0, h1, h2⟩ := hσ m
    obtain ⟨k1, g1, g2, g3⟩ := hex (k0 - m + 1) m ⟨k0, h1, by omega, h2⟩
    have e : (List.range (k1 + 1)).map σ = (List.range m).map σ ++ (((List.range' m (k1 - m)).map σ) ++ [i]) := by
      rw [List.range_succ, List.map_append, List.map_singleton, g2, ← List.append_assoc, ← List.map_append]
      congr 2
      have := List.range'_append_1 (s := 0) (m := m) (n := k1 - m)
      rw [Nat.zero_add, show m + (k1 - m) = k1 by omega] at this
      rw [List.range_eq_range', List.range_eq_range', this]
    have hidle : i ∉ (List.range' m (k1 - m)).map σ := by
      intro hm
      obtain ⟨j, hj, hj'⟩ := List.mem_map.1 hm
      rw [List.mem_range'_1] at hj
      exact g3 j hj.1 (by omega) hj'
    have h3 : ((y.run ((List.range m).map σ)).run ((List.range' m (k1 - m)).map σ)).calls[i]? = some (.act f k) :=
      (run_idle _ hidle).trans h
    have h4 := (step_self h3).2
    refine ih ((y.run ((List.range m).map σ)).run ((List.range' m (k1 - m)).map σ)).heap (k1 + 1) (y := y) ?_
    rw [e, run_append, run_append]
    exact h4

end DSystem

end Fastac
