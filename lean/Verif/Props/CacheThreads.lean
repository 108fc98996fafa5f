import Verif.Lemmas.CacheThreads

/-!
# C115: match questions asked at the same time, through the cache

`start cap qs` is a new cache with the calls `match(q.1, q.2)` for the questions of `qs`, any number of them; a schedule lists
which call takes the next step.  The managers use the capacity 100.
-/

namespace Fastac

open MatchWorld

/-- **C115**, answers: whatever the order of the steps and the state of the list, a call that returns, returns what the
matcher says of its own question. -/
theorem c115_answers_partial (f : Str → Str → Bool) (cap : Nat) (qs : List (Str × Str)) (hq : Unmixed f qs)
    (sched : List Nat) (i : Nat) (q : Str × Str) (b : Bool) (hi : qs[i]? = some q)
    (h : ((start cap qs).run f sched).calls[i]? = some (.done b)) : b = f q.1 q.2 := by
  have hf := answerOf_eq (f := f) (qs := qs) hq
  obtain ⟨q', q1, q2⟩ := ((start_inv cap).run hf sched).calls i _ h
  rw [hi] at q1
  cases q1
  rw [hf q (List.mem_of_getElem? hi)]
  exact q2

/-- **C115**, `Get`: no step of a call that is in `Get` panics. -/
theorem c115_gets_partial (f : Str → Str → Bool) (cap : Nat) (qs : List (Str × Str)) (hq : Unmixed f qs)
    (sched : List Nat) (i : Nat) (c : MatchCall) (h : ((start cap qs).run f sched).calls[i]? = some c)
    (hc : c.reading = true ∨ ∃ s p, c = .asking s p) :
    (((start cap qs).run f sched).step f i).calls[i]? ≠ some .crashed := by
  have hf := answerOf_eq (f := f) (qs := qs) hq
  have inv := (start_inv (ans := answerOf f qs) cap).run hf sched
  generalize (start cap qs).run f sched = w at h inv ⊢
  cases c with
  | asking s p =>
    unfold MatchWorld.step
    simp only [h]
    split <;> (rw [goes_at h]; simp)
  | moving s p n loc todo =>
    unfold MatchWorld.step
    cases todo with
    | nil =>
      obtain ⟨q, q1, a1, a2, a3, a4, -⟩ := inv.calls i _ h
      simp only [h, a4]
      rw [goes_at h]
      simp
    | cons mi rest =>
      obtain ⟨h', loc', e, -⟩ := Micro.exec_fine (inv.fine h)
      simp only [h, e]
      rw [goes_at (w := { w with cache := { w.cache with heap := h' } }) h]
      simp
  | missed s p => rcases hc with hc | ⟨_, _, hc⟩ <;> cases hc
  | done b => rcases hc with hc | ⟨_, _, hc⟩ <;> cases hc
  | crashed => rcases hc with hc | ⟨_, _, hc⟩ <;> cases hc

/-- **C115**, room: nobody panics as long as the questions have no more different keys than the cache has places. -/
theorem c115_room_partial (f : Str → Str → Bool) (cap : Nat) (qs : List (Str × Str)) (hq : Unmixed f qs)
    (keys : List Str) (hlen : keys.length ≤ cap) (hkeys : ∀ q ∈ qs, cacheKey q.1 q.2 ∈ keys) (sched : List Nat) :
    MatchCall.crashed ∉ ((start cap qs).run f sched).calls :=
  ((start_roomy hlen).run (start_inv (ans := answerOf f qs) cap) (answerOf_eq hq) hkeys sched).calls

/-- **C115**, one at a time: nobody panics, and nothing is lost from the list, if no two calls are in the part of `Get`
that moves a node at the same time; other calls may run in between. -/
theorem c115_single_partial (f : Str → Str → Bool) (cap : Nat) (hc : 1 ≤ cap) (qs : List (Str × Str)) (hq : Unmixed f qs)
    (sched : List Nat) (one : ∀ pre suf, sched = pre ++ suf → ((start cap qs).run f pre).Single) :
    MatchCall.crashed ∉ ((start cap qs).run f sched).calls ∧
    ((∀ c ∈ ((start cap qs).run f sched).calls, c.reading = false) →
      ∃ nodes keys, ((start cap qs).run f sched).cache.Holds nodes keys) := by
  have t := (Tidy.start hc).run (start_inv (ans := answerOf f qs) cap) (answerOf_eq hq) sched one
  obtain ⟨-, h1, h2⟩ := t
  refine ⟨h1, fun hn => ?_⟩
  rcases h2 with ⟨-, nodes, l, rep⟩ | ⟨k, s, p, n, loc, todo, h', nodes, l, hk, -⟩
  · exact ⟨nodes, _, rep.holds⟩
  · exact absurd (hn _ (List.mem_of_getElem? hk)) (by simp [MatchCall.reading])

/-- **C115**, returns: when every call has had its turn ten times, every call has returned with the answer of the matcher
or has panicked. -/
theorem c115_returns_partial (f : Str → Str → Bool) (cap : Nat) (qs : List (Str × Str)) (hq : Unmixed f qs)
    (rounds : List (List Nat)) (hlen : 10 ≤ rounds.length) (hall : ∀ s ∈ rounds, ∀ i < qs.length, i ∈ s)
    (i : Nat) (q : Str × Str) (hi : qs[i]? = some q) :
    ((start cap qs).run f rounds.flatten).calls[i]? = some (.done (f q.1 q.2)) ∨
    ((start cap qs).run f rounds.flatten).calls[i]? = some .crashed := by
  have hf := answerOf_eq (f := f) (qs := qs) hq
  have inv := start_inv (ans := answerOf f qs) (qs := qs) cap
  have far0 : (start cap qs).Far 0 := fun _ _ => Nat.zero_le _
  have h10 : (rounds.take 10).length = 10 := by simp [hlen]
  have far := inv.rounds hf far0 (rounds.take 10) (by omega) (fun s hs => hall s (List.mem_of_mem_take hs))
  have inv1 := inv.run hf (rounds.take 10).flatten
  have hsplit : rounds.flatten = (rounds.take 10).flatten ++ (rounds.drop 10).flatten := by
    rw [← List.flatten_append, List.take_append_drop]
  have inv2 := inv.run hf rounds.flatten
  have hlt : i < qs.length := (List.getElem?_eq_some_iff.1 hi).1
  have hl1 : i < ((start cap qs).run f (rounds.take 10).flatten).calls.length := by rw [inv1.len]; exact hlt
  -- what has been reached stays
  have stay : ∀ (sched : List Nat) (w : MatchWorld) (c : MatchCall), w.Inv (answerOf f qs) qs → w.calls[i]? = some c →
      10 ≤ callRank c → (w.run f sched).calls[i]? = some c := by
    intro sched
    induction sched with
    | nil => intro w c _ hw _; exact hw
    | cons j sched ih =>
      intro w c iw hw h
      refine ih _ c (iw.step hf j) ?_ h
      by_cases e : j = i
      · subst e
        unfold MatchWorld.step
        cases c with
        | done b => simp only [hw]
        | crashed => simp only [hw]
        | asking s p => simp [callRank] at h
        | missed s p => simp [callRank] at h
        | moving s p n loc todo => simp only [callRank] at h; omega
      · exact (step_other w e).trans hw
  have hr := far _ (List.getElem_mem hl1)
  rw [h10] at hr
  have fin := stay (rounds.drop 10).flatten _ _ inv1 (List.getElem?_eq_getElem hl1) hr
  rw [hsplit, MatchWorld.run_append]
  rw [hsplit, MatchWorld.run_append] at inv2
  rw [fin]
  cases hx : ((start cap qs).run f (rounds.take 10).flatten).calls[i] with
  | done b =>
    rw [hx] at fin
    obtain ⟨q', q1, q2⟩ := inv2.calls i _ fin
    rw [hi] at q1
    cases q1
    left
    rw [hf q (List.mem_of_getElem? hi)]
    exact congrArg (fun b => some (MatchCall.done b)) q2
  | crashed => exact Or.inr rfl
  | asking s p => rw [hx] at hr; simp [callRank] at hr
  | missed s p => rw [hx] at hr; simp [callRank] at hr
  | moving s p n loc todo => rw [hx] at hr; simp only [callRank] at hr; omega

namespace CacheThreadsExample

/-- `Match(str, pattern)` for the pattern `*`. -/
def star (s p : Str) : Bool := decide (s = p) || decide (p = s% "*")

/-- Four calls, two questions. -/
def four : List (Str × Str) := [(s% "bob", s% "*"), (s% "bob", s% "ann"), (s% "bob", s% "*"), (s% "bob", s% "ann")]

theorem four_unmixed : Unmixed star four := by
  unfold Unmixed
  decide

/-- Names without `$` do. -/
theorem unmixed_names (f : Str → Str → Bool) (qs : List (Str × Str)) (h : ∀ q ∈ qs, '$' ∉ q.1) : Unmixed f qs := by
  intro q hq q' hq' e
  obtain ⟨e1, e2⟩ := cacheKey_inj (h q hq) (h q' hq') e
  rw [e1, e2]

/-- All ask before anybody has an answer: each asks the matcher, the second `Put` of a key finds it there. -/
example : ((start 100 four).run star [0, 1, 2, 3, 3, 2, 1, 0]).calls = [.done true, .done false, .done true, .done false] ∧
    ((start 100 four).run star [0, 1, 2, 3, 3, 2, 1, 0]).cache.m.length = 2 := by decide

/-- A `Put` waits while a `Get` moves its node. -/
example : ((start 100 four).run star [0, 0, 2, 1, 1, 1]).calls[1]? = some (.missed (s% "bob") (s% "ann")) ∧
    ((start 100 four).run star ([0, 0, 2, 1, 1, 1] ++ List.replicate 8 2 ++ [1])).calls[1]? = some (.done false) := by decide

/-- Ten rounds: all have returned, and two keys have room in a cache of two. -/
example : ((start 2 four).run star (List.replicate 10 [3, 1, 0, 2]).flatten).calls =
    [.done true, .done false, .done true, .done false] ∧
    (∀ q ∈ four, cacheKey q.1 q.2 ∈ [s% "bob$$*", s% "bob$$ann"]) := by decide

/-- In a cache of one place keys are evicted; one after the other this is fine. -/
example : ((start 1 four).run star ((List.range 4).flatMap (fun i => List.replicate 9 i))).calls =
    [.done true, .done false, .done true, .done false] := by decide

/-- The cache that two `Get`s at the same time have spoiled: the second of the two nodes is lost going forwards, and the answers
are still right. -/
def spoiled : MatchWorld := (start 2 four).run star ([0, 0, 1, 1] ++ [2, 3] ++ [2, 2] ++ [3] ++ List.replicate 6 2 ++ List.replicate 7 3)

example : spoiled.calls = [.done true, .done false, .done true, .done false] ∧ (spoiled.cache.heap 0).next = some 3 ∧
    (spoiled.cache.heap 3).next = some 2 ∧ (spoiled.cache.heap 2).next = some 1 ∧ (spoiled.cache.heap 1).prev = some 0 := by decide

/-- The question number `n`: whether a name matches `*`. -/
def question (n : Nat) : Str × Str := ([Char.ofNat (65 + n / 10), Char.ofNat (65 + n % 10)], s% "*")

/-- A hundred questions, the same ones backwards, and one more. -/
def questions : List (Str × Str) :=
  (List.range 100).map question ++ ((List.range 100).map question).reverse ++ [question 100]

/-- The first hundred one after the other; then the call number 100 finds its node and makes one assignment; while it waits,
the calls 101 to 199 run, one after the other; then number 100 is finished. -/
def twoAtATime : List Nat :=
  (List.range 100).flatMap (fun i => [i, i]) ++ [100, 100] ++
    ((List.range 99).map (· + 101)).flatMap (fun i => List.replicate 9 i) ++ List.replicate 7 100

theorem questions_unmixed : Unmixed star questions := by
  refine unmixed_names star questions ?_
  have : questions.all (fun q => decide ('$' ∉ q.1)) = true := by decide +kernel
  intro q hq
  simpa using List.all_eq_true.1 this q hq

set_option maxRecDepth 100000 in
theorem spoiled_hundred : ((start 100 questions).run star (twoAtATime ++ [200, 200])).calls =
    List.replicate 200 (.done true) ++ [.crashed] := by
  decide +kernel

/-- **C115** as a whole is not true: with the capacity 100 of the managers, where never more than two calls are under way, all
200 calls return with the right answer, and the next new question panics in `Put`: the last node of the list seems to be
the head, whose `prev` is nil. -/
theorem c115_fails : Unmixed star questions ∧
    ((start 100 questions).run star (twoAtATime ++ [200, 200])).calls = List.replicate 200 (.done true) ++ [.crashed] :=
  ⟨questions_unmixed, spoiled_hundred⟩

end CacheThreadsExample

end Fastac
