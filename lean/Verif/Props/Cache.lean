import Verif.Lemmas.Cache

/-!
# C50–C55: the LRU cache and the match cache
-/

namespace Fastac

variable {K V : Type} [DecidableEq K]

/-! ## The recency order -/

theorem take_filter_ne {u : List K} {k : K} : ∀ {n : Nat}, k ∉ u.take n → (u.filter (· ≠ k)).take n = u.take n := by
  induction u with
  | nil => intro n _; simp
  | cons x u ih =>
    intro n h
    cases n with
    | zero => simp
    | succ n =>
      simp only [List.take_succ_cons, List.mem_cons, not_or] at h
      have hx : x ≠ k := fun e => h.1 e.symm
      rw [List.filter_cons]
      simp only [ne_eq, hx, not_false_eq_true, decide_true, if_true, List.take_succ_cons]
      have := ih h.2
      simp only [ne_eq] at this
      rw [this]

theorem filter_take_ne {u : List K} {k : K} (hu : u.Nodup) : ∀ {n : Nat}, k ∈ u.take (n + 1) →
    (u.take (n + 1)).filter (· ≠ k) = (u.filter (· ≠ k)).take n := by
  induction u with
  | nil => intro n h; simp at h
  | cons x u ih =>
    intro n h
    have hu' := List.nodup_cons.mp hu
    by_cases hx : x = k
    · subst hx
      have e1 : ∀ l : List K, x ∉ l → l.filter (· ≠ x) = l := by
        intro l hl
        rw [List.filter_eq_self]
        intro a ha
        simp only [ne_eq, decide_not, Bool.not_eq_eq_eq_not, Bool.not_true, decide_eq_false_iff_not]
        intro e
        exact hl (e ▸ ha)
      have e2 : ∀ l : List K, (x :: l).filter (· ≠ x) = l.filter (· ≠ x) := fun l => by simp
      rw [List.take_succ_cons, e2, e2, e1 _ (fun h => hu'.1 (List.mem_of_mem_take h)), e1 _ hu'.1]
    · simp only [List.take_succ_cons, List.mem_cons] at h
      rcases h with h | h
      · exact absurd h.symm hx
      · cases n with
        | zero => simp at h
        | succ n =>
          have := ih hu'.2 h
          have e2 : ∀ l : List K, (x :: l).filter (· ≠ k) = x :: l.filter (· ≠ k) := fun l => by simp [hx]
          rw [List.take_succ_cons, e2, e2, List.take_succ_cons, this]

/-- One more call, for the list of uses. -/
def use (l : List K) : CacheOp K V × Option V → List K
  | (.put k _, _) => k :: l.filter (· ≠ k)
  | (.get k, some _) => k :: l.filter (· ≠ k)
  | (.get _, none) => l

theorem uses_eq (tr : List (CacheOp K V × Option V)) : uses tr = tr.foldl use [] := by
  unfold uses
  have : ∀ (l : List K), tr.foldl (fun l c =>
      match c with
      | (CacheOp.put k _, _) => k :: l.filter (· ≠ k)
      | (CacheOp.get k, some _) => k :: l.filter (· ≠ k)
      | (CacheOp.get _, none) => l) l = tr.foldl use l := by
    induction tr with
    | nil => intro l; rfl
    | cons c tr ih =>
      intro l
      obtain ⟨op, o⟩ := c
      cases op <;> cases o <;> exact ih _
  exact this []

theorem map_filter_fst (l : Entries K V) (k : K) :
    (l.filter (fun e => decide (e.1 ≠ k))).map Prod.fst = (l.map Prod.fst).filter (· ≠ k) := by
  induction l with
  | nil => rfl
  | cons e l ih =>
    simp only [List.filter_cons, List.map_cons]
    split <;> simp_all

theorem get_entries_mem {l : Entries K V} {k : K} {v : V} (h : GoMap.get l k = some v) : k ∈ l.map Prod.fst :=
  List.mem_map.mpr ⟨_, GoMap.mem_of_get h, rfl⟩

theorem get_entries_none {l : Entries K V} {k : K} (h : GoMap.get l k = none) : k ∉ l.map Prod.fst := by
  intro hm
  obtain ⟨e, he, rfl⟩ := List.mem_map.mp hm
  exact (GoMap.get_eq_none_iff.mp h) e.2 he

/-- What one call does to the recency order. -/
theorem step_use {c : LRU K V} {nodes : List Nat} {l : Entries K V} (h : c.Rep nodes l) (hc : 1 ≤ c.cap)
    {u : List K} (hu : u.Nodup) (hl : l.map Prod.fst = u.take c.cap) (op : CacheOp K V) :
    ∃ c' o nodes' l', c.step op = .ok (c', o) ∧ c'.Rep nodes' l' ∧ c'.cap = c.cap ∧
      (use u (op, o)).Nodup ∧ l'.map Prod.fst = (use u (op, o)).take c.cap := by
  obtain ⟨n, hn⟩ : ∃ n, c.cap = n + 1 := ⟨c.cap - 1, by omega⟩
  have hnd : ∀ k : K, (k :: u.filter (· ≠ k)).Nodup := by
    intro k
    rw [List.nodup_cons]
    exact ⟨by simp, List.Nodup.sublist List.filter_sublist hu⟩
  have hit : ∀ (k : K) (v : V), GoMap.get l k = some v →
      (touch k v l).map Prod.fst = (k :: u.filter (· ≠ k)).take c.cap := by
    intro k v hg
    have hm := get_entries_mem hg
    rw [hl, hn] at hm
    rw [touch, List.map_cons, map_filter_fst, hl, hn, List.take_succ_cons, filter_take_ne hu hm]
  cases op with
  | get k =>
    obtain ⟨c', nodes', e1, e2, e3⟩ := h.get k
    refine ⟨c', GoMap.get l k, nodes', entriesGet l k, e1, e2, e3, ?_, ?_⟩
    · cases GoMap.get l k with
      | none => exact hu
      | some v => exact hnd k
    · unfold entriesGet
      cases hg : GoMap.get l k with
      | none => exact hl
      | some v => exact hit k v hg
  | put k v =>
    obtain ⟨c', nodes', e1, e2, e3⟩ := h.put hc k v
    refine ⟨c', none, nodes', entriesPut c.cap l k v, by simp [LRU.step, e1], e2, e3, hnd k, ?_⟩
    unfold entriesPut
    cases hg : GoMap.get l k with
    | some v0 => exact hit k v0 hg
    | none =>
      have hm := get_entries_none hg
      rw [hl] at hm
      have hlen : l.length = (u.take c.cap).length := by rw [← hl]; simp
      simp only [use]
      have hm' : k ∉ u.take n := fun hm' => hm (by
        rw [hn]
        exact (List.take_subset_take_left u (Nat.le_succ n)) hm')
      rw [hn, List.take_succ_cons, take_filter_ne hm', List.map_cons]
      congr 1
      rw [hn] at hl hlen
      split
      · rename_i hfull
        have hul : n + 1 ≤ u.length := by
          rw [List.length_take] at hlen
          omega
        rw [List.map_dropLast, hl, List.dropLast_eq_take, List.length_take, Nat.min_eq_left hul, List.take_take]
        congr 1
        omega
      · rename_i hfull
        rw [hl]
        rw [List.length_take] at hlen
        rw [List.take_of_length_le (by omega), List.take_of_length_le (by omega)]

theorem run_use {c : LRU K V} {nodes : List Nat} {l : Entries K V} (h : c.Rep nodes l) (hc : 1 ≤ c.cap)
    {u : List K} (hu : u.Nodup) (hl : l.map Prod.fst = u.take c.cap) (H : List (CacheOp K V)) :
    ∃ c' tr nodes' l', c.run H = .ok (c', tr) ∧ tr.map Prod.fst = H ∧ c'.Rep nodes' l' ∧ c'.cap = c.cap ∧
      l'.map Prod.fst = (tr.foldl use u).take c.cap ∧ (tr.foldl use u).Nodup := by
  induction H generalizing c nodes l u with
  | nil => exact ⟨c, [], nodes, l, rfl, rfl, h, rfl, hl, hu⟩
  | cons op H ih =>
    obtain ⟨c1, o, nodes1, l1, e1, e2, e3, e4, e5⟩ := step_use h hc hu hl op
    rw [← e3] at e5
    obtain ⟨c2, tr, nodes2, l2, f1, f2, f3, f4, f5, f6⟩ := ih e2 (by omega) e4 e5
    refine ⟨c2, (op, o) :: tr, nodes2, l2, ?_, ?_, f3, f4.trans e3, ?_, f6⟩
    · simp [LRU.run, e1, f1]
    · simp [f2]
    · rw [← e3]; exact f5

/-- **C53** (and C50, C52): after any sequence of calls of a cache of positive capacity, none of which
panics, there is one doubly linked list from head to tail; the map leads to exactly its nodes; and its
keys, in this order, are the `cap` most recently used keys. -/
theorem c53_list (cap : Nat) (hc : 1 ≤ cap) (H : List (CacheOp K V)) :
    ∃ c tr nodes, (LRU.new cap : LRU K V).run H = .ok (c, tr) ∧ tr.map Prod.fst = H ∧
      c.Holds nodes ((uses tr).take cap) := by
  obtain ⟨c, tr, nodes, l, e1, e2, e3, _, e5, _⟩ := run_use (LRU.new_rep cap) (u := [])
    (by simpa [LRU.new] using hc) (by simp) (by simp) H
  refine ⟨c, tr, nodes, e1, e2, ?_⟩
  rw [uses_eq]
  have : (LRU.new cap : LRU K V).cap = cap := rfl
  rw [this] at e5
  rw [← e5]
  exact e3.holds

/-- **C50**: the number of keys never exceeds the capacity. -/
theorem c50_capacity (cap : Nat) (hc : 1 ≤ cap) (H : List (CacheOp K V)) :
    ∃ c tr, (LRU.new cap : LRU K V).run H = .ok (c, tr) ∧ c.m.length ≤ cap := by
  obtain ⟨c, tr, nodes, e1, _, e2⟩ := c53_list cap hc H
  refine ⟨c, tr, e1, ?_⟩
  have h1 := e2.size
  have h2 := congrArg List.length e2.keys
  simp only [List.length_map, List.length_take] at h2
  omega

/-- **C52**: the keys cached are the `cap` most recently used ones; what is evicted is therefore always
the least recently used key. -/
theorem c52_lru (cap : Nat) (hc : 1 ≤ cap) (H : List (CacheOp K V)) :
    ∃ c tr, (LRU.new cap : LRU K V).run H = .ok (c, tr) ∧ tr.map Prod.fst = H ∧
      ∀ k, c.Cached k ↔ k ∈ (uses tr).take cap := by
  obtain ⟨c, tr, nodes, e1, e0, e2⟩ := c53_list cap hc H
  refine ⟨c, tr, e1, e0, fun k => ?_⟩
  unfold LRU.Cached
  rw [Option.isSome_iff_exists]
  constructor
  · rintro ⟨a, ha⟩
    obtain ⟨h1, h2⟩ := (e2.map k a).mp ha
    have : some k ∈ ((uses tr).take cap).map some := by
      rw [← e2.keys, ← h2]
      exact List.mem_map.mpr ⟨a, h1, rfl⟩
    obtain ⟨k', hk', e⟩ := List.mem_map.mp this
    cases e
    exact hk'
  · intro hk
    have : some k ∈ nodes.map (fun a => (c.heap a).key) := by
      rw [e2.keys]
      exact List.mem_map.mpr ⟨k, hk, rfl⟩
    obtain ⟨a, h1, h2⟩ := List.mem_map.mp this
    exact ⟨a, (e2.map k a).mpr ⟨h1, h2⟩⟩

def CacheOp.key : CacheOp K V → K
  | .get k => k
  | .put k _ => k

theorem nodup_subset_length {A S : List K} (hA : A.Nodup) (h : ∀ x ∈ A, x ∈ S) : A.length ≤ S.length := by
  induction A generalizing S with
  | nil => exact Nat.zero_le _
  | cons a A ih =>
    have ha := List.nodup_cons.mp hA
    have h1 : a ∈ S := h a (by simp)
    have h2 := ih (S := S.erase a) ha.2 (fun x hx => (List.mem_erase_of_ne (fun (e : x = a) => ha.1 (e ▸ hx))).mpr (h x (by simp [hx])))
    rw [List.length_erase_of_mem h1] at h2
    have := List.length_pos_of_mem h1
    simp only [List.length_cons]
    omega

theorem foldl_use_position {k : K} {S : List K} (tr : List (CacheOp K V × Option V)) :
    ∀ {u : List K}, u.Nodup → (∃ A B, u = A ++ k :: B ∧ ∀ x ∈ A, x ∈ S) →
    (∀ c ∈ tr, c.1.key ≠ k → c.1.key ∈ S) →
    ∃ A B, tr.foldl use u = A ++ k :: B ∧ (∀ x ∈ A, x ∈ S) ∧ (tr.foldl use u).Nodup := by
  induction tr with
  | nil => rintro u hu ⟨A, B, e, h⟩ _; exact ⟨A, B, e, h, hu⟩
  | cons c tr ih =>
    rintro u hu ⟨A, B, e, h⟩ hS
    rw [List.foldl_cons]
    have key : ∀ k' : K, (k' ≠ k → k' ∈ S) → (k' :: u.filter (· ≠ k')).Nodup ∧
        ∃ A B, k' :: u.filter (· ≠ k') = A ++ k :: B ∧ ∀ x ∈ A, x ∈ S := by
      intro k' hk'
      refine ⟨by rw [List.nodup_cons]; exact ⟨by simp, List.Nodup.sublist List.filter_sublist hu⟩, ?_⟩
      by_cases ek : k' = k
      · subst ek
        exact ⟨[], _, rfl, by simp⟩
      · refine ⟨k' :: A.filter (· ≠ k'), B.filter (· ≠ k'), ?_, ?_⟩
        · rw [e, List.filter_append, List.filter_cons]
          have : k ≠ k' := fun e => ek e.symm
          simp [this]
        · intro x hx
          rcases List.mem_cons.mp hx with rfl | hx
          · exact hk' ek
          · exact h x (List.mem_filter.mp hx).1
    apply ih
    · obtain ⟨op, o⟩ := c
      cases op with
      | put k' v => exact (key k' (hS (_, _) (List.mem_cons_self ..))).1
      | get k' => cases o with
        | none => exact hu
        | some v => exact (key k' (hS (_, _) (List.mem_cons_self ..))).1
    · obtain ⟨op, o⟩ := c
      cases op with
      | put k' v => exact (key k' (hS (_, _) (List.mem_cons_self ..))).2
      | get k' => cases o with
        | none => exact ⟨A, B, e, h⟩
        | some v => exact (key k' (hS (_, _) (List.mem_cons_self ..))).2
    · exact fun c hc => hS c (by simp [hc])

theorem run_append {c c' : LRU K V} {tr : List (CacheOp K V × Option V)} {H : List (CacheOp K V)}
    (h : c.run H = .ok (c', tr)) (H' : List (CacheOp K V)) :
    c.run (H ++ H') = (c'.run H').map fun (c'', tr') => (c'', tr ++ tr') := by
  induction H generalizing c tr with
  | nil => cases h; cases hr : c'.run H' <;> simp [hr]
  | cons op H ih =>
    simp only [List.cons_append, LRU.run] at h ⊢
    cases hs : c.step op with
    | err => rw [hs] at h; cases h
    | panic => rw [hs] at h; cases h
    | ok p =>
      obtain ⟨c1, o⟩ := p
      simp only [hs, Res.bind_ok] at h ⊢
      cases hr : c1.run H with
      | err => rw [hr] at h; cases h
      | panic => rw [hr] at h; cases h
      | ok p =>
        obtain ⟨c2, tr2⟩ := p
        rw [hr] at h
        simp only [Res.map_ok, Res.ok.injEq, Prod.mk.injEq] at h
        obtain ⟨rfl, rfl⟩ := h
        rw [ih hr]
        cases hr' : c2.run H' <;> simp

/-- **C52**, in terms of later calls: a key that was just put stays cached through any calls that name
fewer than `cap` other keys. -/
theorem c52_stays (cap : Nat) (hc : 1 ≤ cap) (H1 H2 : List (CacheOp K V)) (k : K) (v : V) (others : List K)
    (ho : others.length < cap) (h : ∀ op ∈ H2, op.key ≠ k → op.key ∈ others) :
    ∃ c tr, (LRU.new cap : LRU K V).run (H1 ++ .put k v :: H2) = .ok (c, tr) ∧ c.Cached k := by
  obtain ⟨c, tr, e1, e2, e3⟩ := c52_lru cap hc (H1 ++ .put k v :: H2)
  refine ⟨c, tr, e1, (e3 k).mpr ?_⟩
  -- split the trace
  obtain ⟨tr1, trr, rfl, m1, m2⟩ := List.map_eq_append_iff.mp e2
  obtain ⟨p, tr2, rfl, m3, m4⟩ := List.map_eq_cons_iff.mp m2
  obtain ⟨op, o⟩ := p
  simp only at m3
  subst m3
  rw [uses_eq, List.foldl_append, List.foldl_cons]
  have nd : (tr1.foldl use ([] : List K)).Nodup := by
    obtain ⟨c1, tr', _, _, f1, f2, _, _, _, f6⟩ := run_use (V := V) (LRU.new_rep cap) (u := ([] : List K))
      (by simpa [LRU.new] using hc) (by simp) (by simp) H1
    have hr := run_append f1 (.put k v :: H2)
    rw [e1] at hr
    cases hr2 : c1.run (.put k v :: H2) with
    | err => rw [hr2] at hr; cases hr
    | panic => rw [hr2] at hr; cases hr
    | ok q =>
      rw [hr2] at hr
      simp only [Res.map_ok, Res.ok.injEq, Prod.mk.injEq] at hr
      have hlen : tr1.length = tr'.length := by
        have a := congrArg List.length m1
        have b := congrArg List.length f2
        simp only [List.length_map] at a b
        omega
      have := (List.append_inj hr.2 hlen).1
      rw [this]
      exact f6
  obtain ⟨A, B, g1, g2, g3⟩ := foldl_use_position (k := k) (S := others) tr2
    (u := use (tr1.foldl use []) (.put k v, o))
    (by
      simp only [use]
      rw [List.nodup_cons]
      exact ⟨by simp, List.Nodup.sublist List.filter_sublist nd⟩)
    ⟨[], _, rfl, by simp⟩
    (fun c hc' hk => h c.1 (by rw [← m4]; exact List.mem_map.mpr ⟨c, hc', rfl⟩) hk)
  rw [g1] at g3 ⊢
  have hA : A.Nodup := (List.nodup_append.mp g3).1
  have := nodup_subset_length hA g2
  rw [List.take_append]
  apply List.mem_append_right
  obtain ⟨d, hd⟩ : ∃ d, cap - A.length = d + 1 := ⟨cap - A.length - 1, by omega⟩
  rw [hd]
  simp

/-! ## C51 -/

/-- The key is cached after the calls. -/
def CachedAfter (cap : Nat) (H : List (CacheOp K V)) (k : K) : Prop :=
  ∃ c tr, (LRU.new cap : LRU K V).run H = .ok (c, tr) ∧ c.Cached k

/-- `Get(k)` after the calls returns `v`. -/
def GetAfter (cap : Nat) (H : List (CacheOp K V)) (k : K) (v : V) : Prop :=
  ∃ c tr c', (LRU.new cap : LRU K V).run H = .ok (c, tr) ∧ c.get k = .ok (c', some v)

theorem get_filter_ne {l : Entries K V} {k k' : K} (h : k ≠ k') :
    GoMap.get (l.filter (fun e => decide (e.1 ≠ k'))) k = GoMap.get l k := by
  induction l with
  | nil => rfl
  | cons e l ih =>
    obtain ⟨a, b⟩ := e
    by_cases ha : a = k'
    · subst ha
      have : ¬ a = k := fun e => h e.symm
      simp only [List.filter_cons, ne_eq, not_true_eq_false, decide_false, Bool.false_eq_true, if_false, GoMap.get, this]
      simpa using ih
    · simp only [List.filter_cons, ne_eq, ha, not_false_eq_true, decide_true, if_true, GoMap.get]
      split
      · rfl
      · simpa using ih

theorem get_touch {l : Entries K V} {k k' : K} {v : V} (h : GoMap.get l k' = some v) :
    GoMap.get (touch k' v l) k = GoMap.get l k := by
  unfold touch
  simp only [GoMap.get]
  split
  · rename_i e; subst e; exact h.symm
  · rename_i e; exact get_filter_ne (fun h => e h.symm)

theorem get_dropLast {l : Entries K V} {k : K} {v : V} (h : GoMap.get l.dropLast k = some v) : GoMap.get l k = some v := by
  induction l with
  | nil => cases h
  | cons e l ih =>
    cases l with
    | nil => cases h
    | cons e' l =>
      rw [List.dropLast_cons_of_ne_nil (by simp)] at h
      obtain ⟨a, b⟩ := e
      simp only [GoMap.get] at h ⊢
      split
      · rename_i ha; rw [if_pos ha] at h; exact h
      · rename_i ha; rw [if_neg ha] at h; exact ih h

theorem run_entries (cap : Nat) (hc : 1 ≤ cap) (H : List (CacheOp K V)) :
    ∃ c tr nodes l, (LRU.new cap : LRU K V).run H = .ok (c, tr) ∧ c.Rep nodes l ∧ c.cap = cap ∧
    ∀ k v, GoMap.get l k = some v → ∃ H1 H2, H = H1 ++ .put k v :: H2 ∧ ¬ CachedAfter cap H1 k ∧
      ∀ H3, H3 <+: H2 → CachedAfter cap (H1 ++ .put k v :: H3) k := by
  obtain ⟨n, hn⟩ : ∃ n, H.length = n := ⟨_, rfl⟩
  induction n generalizing H with
  | zero =>
    have : H = [] := List.eq_nil_of_length_eq_zero hn
    subst this
    exact ⟨LRU.new cap, [], [], [], rfl, LRU.new_rep cap, rfl, by simp [GoMap.get]⟩
  | succ n ih =>
    obtain ⟨H0, op, rfl⟩ := exists_concat (l := H) (fun e => by subst e; cases hn)
    obtain ⟨c, tr, nodes, l, e1, e2, e3, e4⟩ := ih H0 (by simpa using hn)
    have hc' : 1 ≤ c.cap := by omega
    -- the step
    obtain ⟨c', o, nodes', l', f1, f2, f3, f4⟩ : ∃ c' o nodes' l', c.step op = .ok (c', o) ∧ c'.Rep nodes' l' ∧ c'.cap = c.cap ∧
        (∀ k v, GoMap.get l' k = some v → GoMap.get l k = some v ∨ (op = .put k v ∧ GoMap.get l k = none)) := by
      cases op with
      | get k =>
        obtain ⟨c', nodes', g1, g2, g3⟩ := e2.get k
        refine ⟨c', _, nodes', _, g1, g2, g3, fun k' v hg => Or.inl ?_⟩
        unfold entriesGet at hg
        cases hl : GoMap.get l k with
        | none => rw [hl] at hg; exact hg
        | some v0 => rw [hl] at hg; simp only [get_touch hl] at hg; exact hg
      | put k v =>
        obtain ⟨c', nodes', g1, g2, g3⟩ := e2.put hc' k v
        refine ⟨c', none, nodes', _, by simp [LRU.step, g1], g2, g3, fun k' v' hg => ?_⟩
        unfold entriesPut at hg
        cases hl : GoMap.get l k with
        | some v0 => rw [hl] at hg; simp only [get_touch hl] at hg; exact Or.inl hg
        | none =>
          rw [hl] at hg
          simp only [GoMap.get] at hg
          split at hg
          · rename_i e
            subst e
            cases hg
            exact Or.inr ⟨rfl, hl⟩
          · left
            split at hg
            · exact get_dropLast hg
            · exact hg
    have hrun : (LRU.new cap : LRU K V).run (H0 ++ [op]) = .ok (c', tr ++ [(op, o)]) := by
      rw [run_append e1]
      simp [LRU.run, f1]
    refine ⟨c', _, nodes', l', hrun, f2, f3.trans e3, ?_⟩
    intro k v hg
    have hcached : CachedAfter cap (H0 ++ [op]) k := by
      refine ⟨c', _, hrun, ?_⟩
      unfold LRU.Cached
      cases hm : c'.m.get k with
      | none => rw [(f2.get_iff k).mp hm] at hg; cases hg
      | some a => rfl
    rcases f4 k v hg with hold | ⟨rfl, hnew⟩
    · obtain ⟨H1, H2, rfl, g1, g2⟩ := e4 k v hold
      refine ⟨H1, H2 ++ [op], by simp, g1, fun H3 h3 => ?_⟩
      obtain ⟨t, ht⟩ := h3
      rcases List.eq_nil_or_concat t with rfl | ⟨t', x, rfl⟩
      · rw [List.append_nil] at ht
        subst ht
        simpa using hcached
      · apply g2
        rw [List.concat_eq_append, ← List.append_assoc] at ht
        exact ⟨t', (List.append_inj' ht rfl).1⟩
    · refine ⟨H0, [], rfl, ?_, ?_⟩
      · rintro ⟨c2, tr2, h1, h2⟩
        rw [e1] at h1
        cases h1
        unfold LRU.Cached at h2
        rw [(e2.get_iff k).mpr hnew] at h2
        cases h2
      · intro H3 h3
        have : H3 = [] := by simpa using h3
        subst this
        exact hcached

/-- **C51**, what the code does: the value returned is that of the `Put` which brought the key into the
cache, since when it has been there; a later `Put` of a cached key does not change it (`c51_fails`). -/
theorem c51_value_partial (cap : Nat) (hc : 1 ≤ cap) (H : List (CacheOp K V)) (k : K) (v : V) (h : GetAfter cap H k v) :
    ∃ H1 H2, H = H1 ++ .put k v :: H2 ∧ ¬ CachedAfter cap H1 k ∧
      ∀ H3, H3 <+: H2 → CachedAfter cap (H1 ++ .put k v :: H3) k := by
  obtain ⟨c, tr, nodes, l, e1, e2, e3, e4⟩ := run_entries cap hc H
  obtain ⟨c1, tr1, c2, h1, h2⟩ := h
  rw [e1] at h1
  cases h1
  obtain ⟨c', nodes', g1, _, _⟩ := e2.get k
  rw [g1] at h2
  simp only [Res.ok.injEq, Prod.mk.injEq] at h2
  exact e4 k v h2.2

/-- **C51** for histories that `Put` a key only when it is not cached, as the match caches do: the value
returned is that of the latest `Put`.  Missing: other histories, see `c51_fails`. -/
theorem c51_latest_partial (cap : Nat) (hc : 1 ≤ cap) (H : List (CacheOp K V))
    (hp : ∀ H1 k v H2, H = H1 ++ .put k v :: H2 → ¬ CachedAfter cap H1 k) (k : K) (v : V) (h : GetAfter cap H k v) :
    ∃ H1 H2, H = H1 ++ .put k v :: H2 ∧ ∀ v', CacheOp.put k v' ∉ H2 := by
  obtain ⟨H1, H2, rfl, h1, h2⟩ := c51_value_partial cap hc H k v h
  refine ⟨H1, H2, rfl, fun v' hm => ?_⟩
  obtain ⟨A, B, rfl⟩ := List.append_of_mem hm
  exact hp (H1 ++ .put k v :: A) k v' B (by simp) (h2 A ⟨_, rfl⟩)

/-! ## C54 -/

omit [DecidableEq K] in
theorem runGetters_alone {h' : LHeap K V} (i : Nat) :
    ∀ (ms : List Micro) (h : LHeap K V) (ts : List Getter) (loc : Option Nat) (n : Nat), ts[i]? = some ⟨n, loc, ms⟩ →
    runMicros n h loc ms = .ok h' → ∃ loc', runGetters h ts (List.replicate ms.length i) = .ok (h', ts.set i ⟨n, loc', []⟩) := by
  intro ms
  induction ms with
  | nil =>
    intro h ts loc n hi hr
    cases hr
    refine ⟨loc, ?_⟩
    have hlt := (List.getElem?_eq_some_iff.mp hi).1
    have : ts.set i ⟨n, loc, []⟩ = ts := by
      rw [← (List.getElem?_eq_some_iff.mp hi).2]
      simp
    rw [this]
    rfl
  | cons m ms ih =>
    intro h ts loc n hi hr
    simp only [runMicros] at hr
    cases he : m.exec h n loc with
    | err => rw [he] at hr; cases hr
    | panic => rw [he] at hr; cases hr
    | ok p =>
      obtain ⟨h1, loc1⟩ := p
      rw [he] at hr
      simp only [Res.bind_ok] at hr
      have hlt := (List.getElem?_eq_some_iff.mp hi).1
      obtain ⟨loc', e⟩ := ih h1 (ts.set i ⟨n, loc1, ms⟩) loc1 n (by simp [hlt]) hr
      refine ⟨loc', ?_⟩
      simp only [List.length_cons, List.replicate_succ, runGetters, getterStep, hi, he, Res.map_ok, Res.bind_ok, e]
      rw [List.set_set]

/-- **C54**, the part that holds: a `Get` whose assignments are not interleaved with those of others leaves
the list consistent, with the same nodes.  Missing: interleaved `Get`s, which the read lock permits, see
`c54_fails`. -/
theorem c54_alone_partial {c : LRU K V} {nodes : List Nat} {l : Entries K V} (h : c.Rep nodes l) (ts : List Getter) (i : Nat)
    {n : Nat} (hn : n ∈ nodes) (hi : ts[i]? = some (Getter.start n)) :
    ∃ h' ts' nodes' l', runGetters c.heap ts (List.replicate 7 i) = .ok (h', ts') ∧
      ({ c with heap := h' } : LRU K V).Rep nodes' l' ∧ (∀ x, x ∈ l' ↔ x ∈ l) ∧
      (∀ j, j ≠ i → ts'[j]? = ts[j]?) ∧ (∃ t, ts'[i]? = some t ∧ t.todo = []) := by
  obtain ⟨j, hj⟩ := List.mem_iff_getElem?.mp hn
  obtain ⟨k, v, _, hk, _⟩ := h.node hj
  have hm := (h.holds.map k n).mpr ⟨hn, hk⟩
  obtain ⟨v', h1, h2, nodes', e1, r1, r2, _, _, rep⟩ := h.relink hm
  have hr : runMicros n c.heap none (removeMicros ++ addMicros) = .ok h2 := by
    have gen : ∀ (a b : List Micro) (h0 : LHeap K V) (loc : Option Nat), (∀ (h0 : LHeap K V) loc loc', runMicros n h0 loc b = runMicros n h0 loc' b) →
        runMicros n h0 loc (a ++ b) = (runMicros n h0 loc a).bind fun h1 => runMicros n h1 none b := by
      intro a b h0 loc hb
      induction a generalizing h0 loc with
      | nil => simp only [List.nil_append, runMicros, Res.bind_ok]; exact hb _ _ _
      | cons m a ih =>
        simp only [List.cons_append, runMicros]
        cases m.exec h0 n loc with
        | ok p => simp only [Res.bind_ok]; exact ih _ _
        | err => rfl
        | panic => rfl
    rw [gen _ _ _ _ (fun h0 loc loc' => rfl), r1]
    exact r2
  obtain ⟨loc', e⟩ := runGetters_alone (h' := h2) i (removeMicros ++ addMicros) c.heap ts none n hi hr
  have hlt := (List.getElem?_eq_some_iff.mp hi).1
  refine ⟨h2, ts.set i ⟨n, loc', []⟩, nodes', touch k v' l, e, rep c.m h.wf rfl (fun _ => rfl), ?_, ?_, ?_⟩
  · rintro ⟨a, b⟩
    have hnd := h.keys_nodup
    simp only [touch, List.mem_cons, Prod.mk.injEq, List.mem_filter, ne_eq, decide_not, Bool.not_eq_eq_eq_not, Bool.not_true,
      decide_eq_false_iff_not]
    constructor
    · rintro (⟨rfl, rfl⟩ | ⟨h, _⟩)
      · exact GoMap.mem_of_get e1
      · exact h
    · intro hml
      by_cases ha : a = k
      · subst ha
        have := GoMap.WF.get_of_mem hnd hml
        rw [e1] at this
        cases this
        exact Or.inl ⟨rfl, rfl⟩
      · exact Or.inr ⟨hml, ha⟩
  · intro j hj
    rw [List.getElem?_set_ne (Ne.symm hj)]
  · exact ⟨⟨n, loc', []⟩, by simp [hlt], rfl⟩

/-! ## C55 -/

theorem matchCached_right {f : Str → Str → Bool} {c : LRU Str Bool} {nodes : List Nat} {l : Entries Str Bool}
    (h : c.Rep nodes l) (hc : 1 ≤ c.cap) {Q : Str → Str → Prop}
    (hinj : ∀ s p s' p', Q s p → Q s' p' → cacheKey s p = cacheKey s' p' → s = s' ∧ p = p')
    (hl : ∀ k v, GoMap.get l k = some v → ∃ s p, Q s p ∧ k = cacheKey s p ∧ v = f s p) {s p : Str} (hq : Q s p) :
    ∃ c' nodes' l', matchCached f c s p = .ok (c', f s p) ∧ c'.Rep nodes' l' ∧ c'.cap = c.cap ∧
      ∀ k v, GoMap.get l' k = some v → ∃ s p, Q s p ∧ k = cacheKey s p ∧ v = f s p := by
  obtain ⟨c1, nodes1, e1, e2, e3⟩ := h.get (cacheKey s p)
  unfold matchCached
  rw [e1]
  simp only [Res.bind_ok]
  cases hg : GoMap.get l (cacheKey s p) with
  | some v =>
    obtain ⟨s', p', q, ek, ev⟩ := hl _ _ hg
    obtain ⟨rfl, rfl⟩ := hinj _ _ _ _ hq q ek
    refine ⟨c1, nodes1, _, by rw [ev], e2, e3, fun k v' hk => ?_⟩
    unfold entriesGet at hk
    rw [hg] at hk
    simp only [get_touch hg] at hk
    exact hl k v' hk
  | none =>
    have el : entriesGet l (cacheKey s p) = l := by unfold entriesGet; rw [hg]
    rw [el] at e2
    obtain ⟨c2, nodes2, f1, f2, f3⟩ := e2.put (by omega) (cacheKey s p) (f s p)
    refine ⟨c2, nodes2, _, by simp [f1], f2, f3.trans e3, fun k v' hk => ?_⟩
    unfold entriesPut at hk
    rw [hg] at hk
    simp only [GoMap.get] at hk
    split at hk
    · rename_i ek
      cases hk
      exact ⟨s, p, hq, ek.symm, rfl⟩
    · apply hl
      split at hk
      · exact get_dropLast hk
      · exact hk

/-- The answers the matchers themselves give. -/
def plainAnswers : (Str → Str → Bool) → List MatchOp → List Bool
  | _, [] => []
  | f, .ask s p :: ops => f s p :: plainAnswers f ops
  | _, .setMatcher f :: ops => plainAnswers f ops

/-- **C55**, for histories whose questions have different cache keys: the cached answers are the matcher's
own, also after changes of the matcher.  Missing: colliding keys, see `c55_fails`. -/
theorem c55_transparent_partial (size : Nat) (hs : 1 ≤ size) (f : Str → Str → Bool) (H : List MatchOp)
    (hinj : ∀ s p s' p', MatchOp.ask s p ∈ H → MatchOp.ask s' p' ∈ H → cacheKey s p = cacheKey s' p' → s = s' ∧ p = p') :
    runMatches size f (LRU.new size) H = .ok (plainAnswers f H) := by
  have key : ∀ (ops : List MatchOp) (f : Str → Str → Bool) (c : LRU Str Bool) (nodes : List Nat) (l : Entries Str Bool),
      (∀ op ∈ ops, op ∈ H) → c.Rep nodes l → c.cap = size →
      (∀ k v, GoMap.get l k = some v → ∃ s p, MatchOp.ask s p ∈ H ∧ k = cacheKey s p ∧ v = f s p) →
      runMatches size f c ops = .ok (plainAnswers f ops) := by
    intro ops
    induction ops with
    | nil => intros; rfl
    | cons op ops ih =>
      intro f c nodes l hsub hrep hcap hl
      cases op with
      | ask s p =>
        obtain ⟨c', nodes', l', e1, e2, e3, e4⟩ := matchCached_right hrep (by omega)
          (Q := fun s p => MatchOp.ask s p ∈ H) hinj hl (hsub (.ask s p) (List.mem_cons_self ..))
        have := ih f c' nodes' l' (fun op ho => hsub op (by simp [ho])) e2 (e3.trans hcap) e4
        simp [runMatches, e1, this, plainAnswers]
      | setMatcher g =>
        exact ih g (LRU.new size) [] [] (fun op ho => hsub op (by simp [ho])) (LRU.new_rep size) rfl
          (by simp [GoMap.get])
  exact key H f (LRU.new size) [] [] (fun _ h => h) (LRU.new_rep size) rfl (by simp [GoMap.get])

/-- Names without `$` never collide. -/
theorem cacheKey_inj {s p s' p' : Str} (h1 : '$' ∉ s) (h2 : '$' ∉ s')
    (h : cacheKey s p = cacheKey s' p') : s = s' ∧ p = p' := by
  have e : ∀ (s p : Str), cacheKey s p = s ++ '$' :: '$' :: p := by intro s p; simp [cacheKey, join]
  rw [e, e] at h
  clear e
  induction s generalizing s' with
  | nil =>
    cases s' with
    | nil => simpa using h
    | cons a s' => simp at h; exact absurd h.1 (fun e => h2 (by simp [← e]))
  | cons a s ih =>
    cases s' with
    | nil => simp at h; exact absurd h.1 (fun e => h1 (by simp [e]))
    | cons b s' =>
      simp only [List.cons_append, List.cons.injEq] at h
      simp only [List.mem_cons, not_or] at h1 h2
      obtain ⟨rfl, h⟩ := h
      obtain ⟨rfl, rfl⟩ := ih h1.2 h2.2 h
      exact ⟨rfl, rfl⟩

/-- **C55** for names without `$` (patterns may have them). -/
theorem c55_names_partial (size : Nat) (hs : 1 ≤ size) (f : Str → Str → Bool) (H : List MatchOp)
    (hn : ∀ s p, MatchOp.ask s p ∈ H → '$' ∉ s) :
    runMatches size f (LRU.new size) H = .ok (plainAnswers f H) :=
  c55_transparent_partial size hs f H (fun s p s' p' h1 h2 h => cacheKey_inj (hn s p h1) (hn s' p' h2) h)

/-! ## Examples and counterexamples -/

namespace CacheExample

def outputs (cap : Nat) (H : List (CacheOp Nat Nat)) : Res (List (Option Nat)) :=
  ((LRU.new cap : LRU Nat Nat).run H).map fun (_, tr) => tr.map Prod.snd

-- eviction of the least recently used key
example : outputs 2 [.put 1 10, .put 2 20, .get 1, .put 3 30, .get 2, .get 1, .get 3] =
    .ok [none, none, some 10, none, none, some 10, some 30] := by decide

/-- **C51 fails**: `Put(1, 10); Put(1, 11); Get(1)` returns 10. -/
theorem c51_fails : GetAfter 2 [.put 1 10, .put 1 11] (1 : Nat) (10 : Nat) := by
  obtain ⟨c, tr, nodes, l, e1, e2, e3, e4⟩ := run_entries 2 (by decide) [CacheOp.put 1 10, .put (1 : Nat) (11 : Nat)]
  have : outputs 2 [.put 1 10, .put 1 11, .get 1] = .ok [none, none, some 10] := by decide
  unfold outputs at this
  have hr := run_append e1 [.get 1]
  simp only [List.cons_append, List.nil_append] at hr
  rw [hr] at this
  obtain ⟨c', nodes', g1, _, _⟩ := e2.get 1
  have htr : tr.length = 2 := by
    obtain ⟨c1, tr1, _, _, f1, f2, _⟩ := run_use (V := Nat) (LRU.new_rep 2) (u := ([] : List Nat))
      (by simp [LRU.new]) (by simp) (by simp) [CacheOp.put 1 10, .put 1 11]
    rw [e1] at f1
    cases f1
    have := congrArg List.length f2
    simpa using this
  simp only [LRU.run, LRU.step, g1, Res.bind_ok, Res.map_ok, Res.ok.injEq, List.map_append, List.map_cons, List.map_nil] at this
  have h2 : [none, none, some 10] = [none, none] ++ [some 10] := rfl
  rw [h2] at this
  have := (List.append_inj' this rfl).2
  refine ⟨c, tr, c', e1, ?_⟩
  rw [g1]
  simpa using this

def cachedB (cap : Nat) (H : List (CacheOp Nat Nat)) (k : Nat) : Res Bool :=
  ((LRU.new cap : LRU Nat Nat).run H).map fun (c, _) => (c.m.get k).isSome

theorem not_cached {cap : Nat} {H : List (CacheOp Nat Nat)} {k : Nat} (h : cachedB cap H k = .ok false) : ¬ CachedAfter cap H k := by
  rintro ⟨c, tr, e1, e2⟩
  unfold cachedB at h
  rw [e1] at h
  unfold LRU.Cached at e2
  simp [e2] at h

/-- the premise of `c51_latest_partial` is met by a history that puts a key again after its eviction -/
example : ∀ H1 k v H2, [CacheOp.put 1 10, .put 2 20, .put 1 11] = H1 ++ .put k v :: H2 → ¬ CachedAfter (K := Nat) (V := Nat) 1 H1 k := by
  intro H1 k v H2 h
  match H1, h with
  | [], h => cases h; exact not_cached (by decide)
  | [_], h => cases h; exact not_cached (by decide)
  | [_, _], h => cases h; exact not_cached (by decide)
  | _ :: _ :: _ :: t, h => simp at h

/-- capacity 0: the first `Put` panics -/
example : outputs 0 [.put 1 10] = .panic := by decide

/-- A cache of two keys; the list is head, 3, 2, tail. -/
def two : LRU Nat Nat :=
  match (LRU.new 2 : LRU Nat Nat).run [.put 1 10, .put 2 20] with
  | .ok (c, _) => c
  | _ => LRU.new 2

/-- Two concurrent `Get(1)`: both unlink, the first reads and sets the head before the second reads it. -/
def badSchedule : List Nat := [0, 0, 1, 1, 0, 0, 1, 1, 0, 0, 0, 1, 1, 1]

def badHeap : LHeap Nat Nat :=
  match runGetters two.heap [Getter.start 2, Getter.start 2] badSchedule with
  | .ok (h, _) => h
  | _ => two.heap

/-- **C54 fails**: two `Get`s of the same key, interleaved as the read lock permits, both run to
completion and leave a node that is its own successor; there is no list from head to tail any more, and
key 2 is lost from it. -/
theorem c54_fails :
    (runGetters two.heap [Getter.start 2, Getter.start 2] badSchedule).map (fun p => p.2.map Getter.todo) = .ok [[], []] ∧
    two.m.get 1 = some 2 ∧ (badHeap 0).next = some 2 ∧ (badHeap 2).next = some 2 ∧
    ¬ ∃ nodes, Dll badHeap (0 :: nodes ++ [1]) ∧ (0 :: nodes ++ [1]).Nodup := by
  have h0 : (badHeap 0).next = some 2 := by decide
  have h2 : (badHeap 2).next = some 2 := by decide
  refine ⟨by decide, by decide, h0, h2, ?_⟩
  rintro ⟨nodes, hd, hn⟩
  cases nodes with
  | nil => exact absurd (h0.symm.trans hd.1) (by decide)
  | cons a nodes =>
    have ha : a = 2 := (Option.some.inj (h0.symm.trans hd.1)).symm
    subst ha
    cases nodes with
    | nil => exact absurd (h2.symm.trans hd.2.2.1) (by decide)
    | cons b nodes =>
      have hb : b = 2 := (Option.some.inj (h2.symm.trans hd.2.2.1)).symm
      subst hb
      simp at hn

/-- **C55 fails**: names with `$$` share cache keys. -/
theorem c55_fails : ∃ f : Str → Str → Bool,
    runMatches 100 f (LRU.new 100) [.ask (s% "a") (s% "b$$c"), .ask (s% "a$$b") (s% "c")] = .ok [true, true] ∧
    plainAnswers f [.ask (s% "a") (s% "b$$c"), .ask (s% "a$$b") (s% "c")] = [true, false] :=
  ⟨fun s _ => decide (s = s% "a"), by decide, by decide⟩

end CacheExample

end Fastac
