import Verif.Lemmas.DomainThreads

/-!
# Domain managers used at the same time: what one path sees
-/

namespace Fastac

/-! ## The calls with one path -/

section number

variable {P : List Str}

theorem numberAt_zero (xs : List DCall) : numberAt P xs 0 = 0 := rfl

theorem numberAt_succ (x : DCall) (xs : List DCall) (i : Nat) :
    numberAt P (x :: xs) (i + 1) = (if x.path = P then 1 else 0) + numberAt P xs i := by
  unfold numberAt
  rw [List.take_succ_cons, List.filter_cons]
  by_cases h : x.path = P
  · simp [h]; omega
  · simp [h]

theorem callsAt_cons (x : DCall) (xs : List DCall) :
    callsAt P (x :: xs) = (if x.path = P then [x.call] else []) ++ callsAt P xs := by
  unfold callsAt
  rw [List.filter_cons]
  by_cases h : x.path = P <;> simp [h]

theorem callsAt_number : ∀ {xs : List DCall} {i : Nat} {x : DCall}, xs[i]? = some x → x.path = P →
    (callsAt P xs)[numberAt P xs i]? = some x.call
  | [], i, x, h, _ => by simp at h
  | y :: xs, 0, x, h, hp => by
    have : y = x := by simpa using h
    subst this
    rw [callsAt_cons, if_pos hp]
    rfl
  | y :: xs, i + 1, x, h, hp => by
    have := callsAt_number (xs := xs) (i := i) (by simpa using h) hp
    rw [callsAt_cons, numberAt_succ]
    by_cases c : y.path = P
    · rw [if_pos c, if_pos c, Nat.add_comm]
      exact this
    · rw [if_neg c, if_neg c, Nat.zero_add]
      exact this

theorem numberAt_lt : ∀ {xs : List DCall} {i j : Nat} {x : DCall}, xs[i]? = some x → x.path = P → i < j →
    numberAt P xs i < numberAt P xs j
  | [], i, j, x, h, _, _ => by simp at h
  | y :: xs, 0, j + 1, x, h, hp, _ => by
    have : y = x := by simpa using h
    subst this
    rw [numberAt_succ, if_pos hp, numberAt_zero]
    omega
  | y :: xs, i + 1, j + 1, x, h, hp, hl => by
    have := numberAt_lt (xs := xs) (i := i) (j := j) (by simpa using h) hp (by omega)
    rw [numberAt_succ, numberAt_succ]
    omega

theorem numberAt_ne {xs : List DCall} {i j : Nat} {x y : DCall} (hi : xs[i]? = some x) (hx : x.path = P)
    (hj : xs[j]? = some y) (hy : y.path = P) (hne : i ≠ j) : numberAt P xs i ≠ numberAt P xs j := by
  rcases Nat.lt_or_gt_of_ne hne with h | h
  · exact Nat.ne_of_lt (numberAt_lt hi hx h)
  · exact Nat.ne_of_gt (numberAt_lt hj hy h)

theorem numberAt_surj : ∀ {xs : List DCall} {k : Nat}, k < (callsAt P xs).length →
    ∃ i x, xs[i]? = some x ∧ x.path = P ∧ numberAt P xs i = k
  | [], k, h => by simp [callsAt] at h
  | y :: xs, k, h => by
    rw [callsAt_cons] at h
    by_cases c : y.path = P
    · rw [if_pos c] at h
      rcases k with _ | k
      · exact ⟨0, y, rfl, c, rfl⟩
      · obtain ⟨i, x, h1, h2, h3⟩ := numberAt_surj (xs := xs) (k := k) (by simp at h; omega)
        exact ⟨i + 1, x, by simpa using h1, h2, by rw [numberAt_succ, if_pos c, h3]; omega⟩
    · rw [if_neg c] at h
      obtain ⟨i, x, h1, h2, h3⟩ := numberAt_surj (xs := xs) (k := k) h
      exact ⟨i + 1, x, by simpa using h1, h2, by rw [numberAt_succ, if_neg c, h3]; omega⟩

end number

/-! ## Systems -/

namespace DSystem

theorem step_other {y : DSystem} {i j : Nat} (h : j ≠ i) : (y.step i).calls[j]? = y.calls[j]? := by
  unfold step
  split
  · rfl
  · exact List.getElem?_set_ne (fun e => h e.symm)

theorem step_length (y : DSystem) (i : Nat) : (y.step i).calls.length = y.calls.length := by
  unfold step
  split
  · rfl
  · simp

theorem step_self {y : DSystem} {i : Nat} {t : Thread DHeap RAns} (h : y.calls[i]? = some t) :
    (y.step i).heap = (t.step y.heap).1 ∧ (y.step i).calls[i]? = some (t.step y.heap).2 := by
  have hl := (List.getElem?_eq_some_iff.1 h).1
  unfold step
  rw [h]
  exact ⟨rfl, List.getElem?_set_self hl⟩

theorem step_none {y : DSystem} {i : Nat} (h : y.calls[i]? = none) : y.step i = y := by
  unfold step
  rw [h]

theorem run_append (is js : List Nat) : ∀ y : DSystem, y.run (is ++ js) = (y.run is).run js := by
  induction is with
  | nil => exact fun _ => rfl
  | cons i is ih => exact fun y => ih _

end DSystem

open DHeap

theorem step_inRM {α : Type} (j : Nat) (s : DHeap) : ∀ t : Thread RHeap α,
    (t.inRM j).step s = (s.updRM j (fun _ => (t.step (s.rm j)).1), ((t.step (s.rm j)).2).inRM j)
  | .ret a => by rw [updRM_id (f := fun _ => ((Thread.ret a).step (s.rm j)).1) s j rfl]; rfl
  | .crash => by rw [updRM_id (f := fun _ => ((Thread.crash (α := α)).step (s.rm j)).1) s j rfl]; rfl
  | .act f k => by
    show (s.updRM j f, _) = (s.updRM j (fun _ => f (s.rm j)), _)
    have : s.updRM j f = s.updRM j (fun _ => f (s.rm j)) := by
      unfold updRM
      congr 1
      apply List.ext_getElem?
      intro i
      rw [List.getElem?_modify, List.getElem?_modify]
      by_cases c : j = i
      · subst c
        cases hi : s.rms[j]? with
        | none => rfl
        | some x =>
          have : s.rm j = x := by unfold rm; rw [hi]; rfl
          simp [this]
      · simp [c]
    rw [this]
    rfl

namespace RConf

variable {c : RConf}

/-- The rest of a call that has come to the end of its path. -/
def goOn (c : RConf) (x : DCall) : Option Nat → Thread DHeap RAns
  | some j => ((c.below x.path).thread x.call).inRM j
  | none => (c.below x.path).private_ x.call

theorem domainThread_eq (c : RConf) (x : DCall) :
    c.domainThread x.call x.path = (descend x.call.stores 0 x.path).bind (c.goOn x) := by
  unfold domainThread
  congr 1

/-- The call is on its way down. -/
def Going (c : RConf) (h : DHeap) (x : DCall) (t : Thread DHeap RAns) : Prop :=
  ∃ a ds, h.rmAt a ds = h.rmAt 0 x.path ∧ t = (descend x.call.stores a ds).bind (c.goOn x)

theorem going_step {h s : DHeap} (e : s.dms = h.dms) {x : DCall} (hx : x.call.asks = false → h.rmAt 0 x.path ≠ none)
    {t : Thread DHeap RAns} (g : c.Going h x t) :
    (t.step s).1 = s ∧ (c.Going h x (t.step s).2 ∨ (t.step s).2 = c.goOn x (h.rmAt 0 x.path)) := by
  obtain ⟨a, ds, h1, rfl⟩ := g
  have ed : s.dm a = h.dm a := by unfold dm; rw [e]
  have hst : h.rmAt 0 x.path = none → x.call.stores = false := fun hn => by
    rw [RCall.stores_eq]
    cases hb : x.call.asks with
    | false => exact absurd hn (hx hb)
    | true => rfl
  cases ds with
  | nil =>
    have h1' : (h.dm a).dflt = h.rmAt 0 x.path := h1
    refine ⟨rfl, .inr ?_⟩
    show ((match (s.dm a).dflt with
      | some j => Thread.ret (some j)
      | none => _ : Thread DHeap (Option Nat))).bind (c.goOn x) = _
    rw [ed, h1']
    cases hr : h.rmAt 0 x.path with
    | some j => rfl
    | none =>
      rw [hst hr]
      rfl
  | cons d ds =>
    rw [rmAt_cons] at h1
    refine ⟨rfl, ?_⟩
    have e2 : (((descend x.call.stores a (d :: ds)).bind (c.goOn x)).step s).2 =
        Thread.bind (Thread.bind (match (s.dm a).subs.get d with
          | some b => Thread.ret (some b)
          | none => if x.call.stores = true then
              .act (fun s => { s with dms := s.dms.modify a (fun o => { o with subs := o.subs.set d s.dms.length }) ++ [{}] })
                (fun s => .ret (some s.dms.length))
            else .ret none : Thread DHeap (Option Nat)) (fun
          | some b => descend x.call.stores b ds
          | none => .ret none)) (c.goOn x) := rfl
    rw [e2, ed]
    cases hd : (h.dm a).subs.get d with
    | some b =>
      rw [hd] at h1
      exact .inl ⟨b, ds, h1, rfl⟩
    | none =>
      rw [hd] at h1
      have hn : h.rmAt 0 x.path = none := h1.symm
      rw [hn, hst hn]
      exact .inr rfl

theorem going_start (c : RConf) (h : DHeap) (x : DCall) : c.Going h x (c.domainThread x.call x.path) :=
  ⟨0, x.path, rfl, domainThread_eq c x⟩

theorem going_act {h : DHeap} {x : DCall} {t : Thread DHeap RAns} (g : c.Going h x t) : ∃ f k, t = .act f k := by
  obtain ⟨a, ds, -, rfl⟩ := g
  cases ds with
  | nil => exact ⟨_, _, rfl⟩
  | cons d ds => exact ⟨_, _, rfl⟩

theorem private_step (x : RCall) (s : DHeap) : (c.private_ x).step s = (s, c.private_ x) := by
  unfold private_
  split <;> rfl

/-- How far a call is, next to the same call of the role manager of `P`. -/
def Stand (c : RConf) (h : DHeap) (P : List Str) (z : RSystem RAns) (n : Nat) (x : DCall) (t : Thread DHeap RAns) : Prop :=
  (c.Going h x t ∧ (x.path = P → z.calls[n]? = some ((c.below P).thread x.call))) ∨
  (∃ k t', h.rmAt 0 x.path = some k ∧ t = Thread.inRM k t' ∧ (x.path = P → z.calls[n]? = some t')) ∨
  (h.rmAt 0 x.path = none ∧ t = (c.below x.path).private_ x.call)

/-- The calls of a domain manager next to those of the role manager of `P`. -/
structure Coupled (c : RConf) (h : DHeap) (xs : List DCall) (P : List Str) (j : Nat) (y : DSystem) (z : RSystem RAns) :
    Prop where
  dms : y.heap.dms = h.dms
  rlen : y.heap.rms.length = h.rms.length
  rm : y.heap.rm j = z.heap
  ylen : y.calls.length = xs.length
  zlen : z.calls.length = (callsAt P xs).length
  call : ∀ i x, xs[i]? = some x → ∃ t, y.calls[i]? = some t ∧ c.Stand h P z (numberAt P xs i) x t

/-- Calls of `AddLink` and `DeleteLink` have paths that lead to role managers. -/
def Known (h : DHeap) (xs : List DCall) : Prop := ∀ x ∈ xs, x.call.asks = false → h.rmAt 0 x.path ≠ none

theorem coupled_start {h : DHeap} {P : List Str} {j : Nat} (xs : List DCall) :
    Coupled c h xs P j (c.startD h xs) ((c.below P).start (h.rm j) (callsAt P xs)) := by
  refine ⟨rfl, rfl, rfl, List.length_map .., List.length_map .., fun i x hi => ?_⟩
  refine ⟨c.domainThread x.call x.path, ?_, .inl ⟨going_start c h x, fun hp => ?_⟩⟩
  · show (xs.map _)[i]? = _
    rw [List.getElem?_map, hi]
    rfl
  · show ((callsAt P xs).map _)[_]? = _
    rw [List.getElem?_map, callsAt_number hi hp]
    rfl

theorem Coupled.step {h : DHeap} {xs : List DCall} {P : List Str} {j : Nat} {y : DSystem} {z : RSystem RAns} (ht : h.Tree)
    (hk : Known h xs) (hj : h.rmAt 0 P = some j) (q : Coupled c h xs P j y z) (i : Nat) :
    ∃ l, Coupled c h xs P j (y.step i) (z.run l) := by
  cases hi : xs[i]? with
  | none =>
    have : y.calls[i]? = none := by
      rw [List.getElem?_eq_none_iff] at hi ⊢
      rw [q.ylen]
      exact hi
    rw [DSystem.step_none this]
    exact ⟨[], q⟩
  | some x =>
    obtain ⟨t, hyi, st⟩ := q.call i x hi
    obtain ⟨e1, e2⟩ := DSystem.step_self hyi
    have hx := hk x (List.mem_of_getElem? hi)
    -- the other calls, if nothing happens in `z`
    have others : ∀ z' : RSystem RAns, (∀ k x', xs[k]? = some x' → x'.path = P → k ≠ i →
        z'.calls[numberAt P xs k]? = z.calls[numberAt P xs k]?) → ∀ k x', xs[k]? = some x' → k ≠ i →
        ∃ t, (y.step i).calls[k]? = some t ∧ c.Stand h P z' (numberAt P xs k) x' t := by
      intro z' hz k x' hk' hne
      obtain ⟨t', h1, h2⟩ := q.call k x' hk'
      refine ⟨t', (DSystem.step_other hne).trans h1, ?_⟩
      rcases h2 with ⟨g, h2⟩ | ⟨m, u, g, h2, h3⟩ | h2
      · exact .inl ⟨g, fun hp => (hz k x' hk' hp hne).trans (h2 hp)⟩
      · exact .inr (.inl ⟨m, u, g, h2, fun hp => (hz k x' hk' hp hne).trans (h3 hp)⟩)
      · exact .inr (.inr h2)
    rcases st with ⟨g, hz⟩ | ⟨k, t', hr, rfl, hz⟩ | ⟨hr, rfl⟩
    · obtain ⟨g1, g2⟩ := going_step q.dms hx g
      refine ⟨[], ⟨by rw [e1, g1]; exact q.dms, by rw [e1, g1]; exact q.rlen, by rw [e1, g1]; exact q.rm,
        (DSystem.step_length ..).trans q.ylen, q.zlen, fun m x' hm => ?_⟩⟩
      by_cases hmi : m = i
      · subst hmi
        rw [hi] at hm
        cases hm
        refine ⟨_, e2, ?_⟩
        rcases g2 with g2 | g2
        · exact .inl ⟨g2, hz⟩
        · rw [g2]
          cases hr : h.rmAt 0 x.path with
          | none => exact .inr (.inr ⟨hr, rfl⟩)
          | some k =>
            refine .inr (.inl ⟨k, _, hr, rfl, fun hp => ?_⟩)
            rw [hp]
            exact hz hp
      · exact others z (fun _ _ _ _ _ => rfl) m x' hm hmi
    · rw [step_inRM] at e1 e2
      by_cases hp : x.path = P
      · have hkj : k = j := by
          rw [hp, hj] at hr
          cases hr
          rfl
        subst hkj
        have hlt : k < y.heap.rms.length := by rw [q.rlen]; exact ht.rm_lt hj
        obtain ⟨f1, f2⟩ := RSystem.step_self (hz hp)
        refine ⟨[numberAt P xs i], ⟨by rw [e1]; exact q.dms, by rw [e1, updRM_length]; exact q.rlen, ?_,
          (DSystem.step_length ..).trans q.ylen, (RSystem.step_length ..).trans q.zlen, fun m x' hm => ?_⟩⟩
        · rw [e1, rm_upd_self hlt, q.rm]
          exact f1.symm
        · by_cases hmi : m = i
          · subst hmi
            rw [hi] at hm
            cases hm
            refine ⟨_, e2, .inr (.inl ⟨k, _, hr, rfl, fun _ => ?_⟩)⟩
            rw [q.rm]
            exact f2
          · exact others (z.step (numberAt P xs i)) (fun m' x'' hm' hp' hne => RSystem.step_other
              (numberAt_ne hm' hp' hi hp hne)) m x' hm hmi
      · have hkj : k ≠ j := fun e => hp (ht.rm_inj (by rw [← e] at hj; exact hr) (e ▸ hj))
        refine ⟨[], ⟨by rw [e1]; exact q.dms, by rw [e1, updRM_length]; exact q.rlen,
          by rw [e1, rm_upd_ne (Ne.symm hkj)]; exact q.rm, (DSystem.step_length ..).trans q.ylen, q.zlen, fun m x' hm => ?_⟩⟩
        by_cases hmi : m = i
        · subst hmi
          rw [hi] at hm
          cases hm
          exact ⟨_, e2, .inr (.inl ⟨k, _, hr, rfl, fun h => absurd h hp⟩)⟩
        · exact others z (fun _ _ _ _ _ => rfl) m x' hm hmi
    · rw [private_step] at e1 e2
      refine ⟨[], ⟨by rw [e1]; exact q.dms, by rw [e1]; exact q.rlen, by rw [e1]; exact q.rm,
        (DSystem.step_length ..).trans q.ylen, q.zlen, fun m x' hm => ?_⟩⟩
      by_cases hmi : m = i
      · subst hmi
        rw [hi] at hm
        cases hm
        exact ⟨_, e2, .inr (.inr ⟨hr, rfl⟩)⟩
      · exact others z (fun _ _ _ _ _ => rfl) m x' hm hmi

theorem Coupled.run {h : DHeap} {xs : List DCall} {P : List Str} {j : Nat} (ht : h.Tree) (hk : Known h xs)
    (hj : h.rmAt 0 P = some j) : ∀ (is : List Nat) {y : DSystem} {z : RSystem RAns}, Coupled c h xs P j y z →
    ∃ l, Coupled c h xs P j (y.run is) (z.run l)
  | [], _, _, q => ⟨[], q⟩
  | i :: is, y, z, q => by
    obtain ⟨l, q1⟩ := q.step ht hk hj i
    obtain ⟨l', q2⟩ := Coupled.run ht hk hj is q1
    exact ⟨l ++ l', by rw [RSystem.run_append]; exact q2⟩

/-- What a call has returned with the path `P`. -/
theorem Coupled.answer {h : DHeap} {xs : List DCall} {P : List Str} {j : Nat} {y : DSystem} {z : RSystem RAns}
    (hj : h.rmAt 0 P = some j) (q : Coupled c h xs P j y z) {i : Nat} {x : DCall} (hi : xs[i]? = some x) (hp : x.path = P) :
    (∀ a, y.answer i = some a → z.answer (numberAt P xs i) = some a) ∧
    (y.crashed i = true → z.crashed (numberAt P xs i) = true) := by
  obtain ⟨t, h1, h2⟩ := q.call i x hi
  unfold DSystem.answer DSystem.crashed RSystem.answer RSystem.crashed
  rw [h1]
  rcases h2 with ⟨g, -⟩ | ⟨k, t', -, rfl, hz⟩ | ⟨hr, -⟩
  · obtain ⟨f, k, rfl⟩ := going_act g
    exact ⟨fun a h => (nomatch h), fun h => (nomatch h)⟩
  · rw [hz hp]
    cases t' with
    | ret a => exact ⟨fun b h => h, fun h => (nomatch h)⟩
    | crash => exact ⟨fun b h => (nomatch h), fun _ => rfl⟩
    | act f k => exact ⟨fun b h => (nomatch h), fun h => (nomatch h)⟩
  · rw [hp, hj] at hr
    cases hr

theorem Coupled.over {h : DHeap} {xs : List DCall} {P : List Str} {j : Nat} {y : DSystem} {z : RSystem RAns}
    (hj : h.rmAt 0 P = some j) (q : Coupled c h xs P j y z) (o : y.Over) : z.Over := by
  intro k hk
  rw [q.zlen] at hk
  obtain ⟨i, x, hi, hp, rfl⟩ := numberAt_surj hk
  have hl : i < y.calls.length := by
    rw [q.ylen]
    exact (List.getElem?_eq_some_iff.1 hi).1
  obtain ⟨a, ha⟩ := Option.isSome_iff_exists.1 (o i hl)
  rw [(q.answer hj hi hp).1 a ha]
  rfl

/-! ## Calls on a path that leads nowhere -/

/-- How far the calls are, without a role manager to compare with. -/
structure Walking (c : RConf) (h : DHeap) (xs : List DCall) (y : DSystem) : Prop where
  dms : y.heap.dms = h.dms
  rlen : y.heap.rms.length = h.rms.length
  ylen : y.calls.length = xs.length
  call : ∀ (i : Nat) (x : DCall), xs[i]? = some x → ∃ t, y.calls[i]? = some t ∧ (c.Going h x t ∨
    (∃ k t', h.rmAt 0 x.path = some k ∧ t = Thread.inRM k t') ∨
    (h.rmAt 0 x.path = none ∧ t = (c.below x.path).private_ x.call))

theorem walking_start {h : DHeap} (xs : List DCall) : Walking c h xs (c.startD h xs) := by
  refine ⟨rfl, rfl, List.length_map .., fun i x hi => ⟨c.domainThread x.call x.path, ?_, .inl (going_start c h x)⟩⟩
  show (xs.map _)[i]? = _
  rw [List.getElem?_map, hi]
  rfl

theorem Walking.step {h : DHeap} {xs : List DCall} {y : DSystem} (hk : Known h xs) (q : Walking c h xs y) (i : Nat) :
    Walking c h xs (y.step i) := by
  cases hi : xs[i]? with
  | none =>
    have : y.calls[i]? = none := by
      rw [List.getElem?_eq_none_iff] at hi ⊢
      rw [q.ylen]
      exact hi
    rw [DSystem.step_none this]
    exact q
  | some x =>
    obtain ⟨t, hyi, st⟩ := q.call i x hi
    obtain ⟨e1, e2⟩ := DSystem.step_self hyi
    have hx := hk x (List.mem_of_getElem? hi)
    have others : ∀ k x', xs[k]? = some x' → k ≠ i → ∃ t, (y.step i).calls[k]? = some t ∧ (c.Going h x' t ∨
        (∃ k t', h.rmAt 0 x'.path = some k ∧ t = Thread.inRM k t') ∨
        (h.rmAt 0 x'.path = none ∧ t = (c.below x'.path).private_ x'.call)) := by
      intro k x' hk' hne
      obtain ⟨t', h1, h2⟩ := q.call k x' hk'
      exact ⟨t', (DSystem.step_other hne).trans h1, h2⟩
    rcases st with g | ⟨k, t', hr, rfl⟩ | ⟨hr, rfl⟩
    · obtain ⟨g1, g2⟩ := going_step q.dms hx g
      refine ⟨by rw [e1, g1]; exact q.dms, by rw [e1, g1]; exact q.rlen, (DSystem.step_length ..).trans q.ylen,
        fun m x' hm => ?_⟩
      by_cases hmi : m = i
      · subst hmi
        rw [hi] at hm
        cases hm
        refine ⟨_, e2, ?_⟩
        rcases g2 with g2 | g2
        · exact .inl g2
        · rw [g2]
          cases hr : h.rmAt 0 x.path with
          | none => exact .inr (.inr ⟨rfl, rfl⟩)
          | some k => exact .inr (.inl ⟨k, _, rfl, rfl⟩)
      · exact others m x' hm hmi
    · rw [step_inRM] at e1 e2
      refine ⟨by rw [e1]; exact q.dms, by rw [e1, updRM_length]; exact q.rlen, (DSystem.step_length ..).trans q.ylen,
        fun m x' hm => ?_⟩
      by_cases hmi : m = i
      · subst hmi
        rw [hi] at hm
        cases hm
        exact ⟨_, e2, .inr (.inl ⟨k, _, hr, rfl⟩)⟩
      · exact others m x' hm hmi
    · rw [private_step] at e1 e2
      refine ⟨by rw [e1]; exact q.dms, by rw [e1]; exact q.rlen, (DSystem.step_length ..).trans q.ylen, fun m x' hm => ?_⟩
      by_cases hmi : m = i
      · subst hmi
        rw [hi] at hm
        cases hm
        exact ⟨_, e2, .inr (.inr ⟨hr, rfl⟩)⟩
      · exact others m x' hm hmi

theorem Walking.run {h : DHeap} {xs : List DCall} (hk : Known h xs) : ∀ (is : List Nat) {y : DSystem}, Walking c h xs y →
    Walking c h xs (y.run is)
  | [], _, q => q
  | i :: is, _, q => Walking.run hk is (q.step hk i)

/-- A call with a path that leads nowhere answers as on a new role manager. -/
theorem Walking.answer {h : DHeap} {xs : List DCall} {y : DSystem} (q : Walking c h xs y) {i : Nat} {x : DCall}
    (hi : xs[i]? = some x) (hn : h.rmAt 0 x.path = none) :
    (∀ a, y.answer i = some a → (((c.below x.path).thread x.call).exec RHeap.new).2 = some a) ∧
    (y.crashed i = true → (((c.below x.path).thread x.call).exec RHeap.new).2 = none) := by
  obtain ⟨t, h1, h2⟩ := q.call i x hi
  unfold DSystem.answer DSystem.crashed
  rw [h1]
  rcases h2 with g | ⟨k, t', hr, -⟩ | ⟨-, rfl⟩
  · obtain ⟨f, k, rfl⟩ := going_act g
    exact ⟨fun a h => (nomatch h), fun h => (nomatch h)⟩
  · rw [hn] at hr
    cases hr
  · unfold private_
    cases (((c.below x.path).thread x.call).exec RHeap.new).2 with
    | some b => exact ⟨fun a h => h, fun h => (nomatch h)⟩
    | none => exact ⟨fun a h => (nomatch h), fun _ => rfl⟩

end RConf

end Fastac
