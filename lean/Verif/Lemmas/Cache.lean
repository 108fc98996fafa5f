import Verif.Spec.Cache

/-!
# The cache refines a list of entries
-/

namespace Fastac

variable {K V : Type} [DecidableEq K]

/-! ## Doubly linked lists -/

omit [DecidableEq K] in
theorem Dll.congr {h h' : LHeap K V} : ∀ {l : List Nat}, (∀ x ∈ l.dropLast, (h' x).next = (h x).next) →
    (∀ x ∈ l.tail, (h' x).prev = (h x).prev) → Dll h l → Dll h' l
  | [], _, _, _ => trivial
  | [_], _, _, _ => trivial
  | a :: b :: l, h1, h2, ⟨e1, e2, e3⟩ => by
    refine ⟨?_, ?_, Dll.congr (l := b :: l) ?_ ?_ e3⟩
    · rw [h1 a (by simp)]; exact e1
    · rw [h2 b (by simp)]; exact e2
    · intro x hx; exact h1 x (by simp [hx])
    · intro x hx; exact h2 x (List.mem_cons_of_mem _ hx)

omit [DecidableEq K] in
theorem Dll.split {h : LHeap K V} : ∀ (l : List Nat) (a : Nat) (r : List Nat),
    Dll h (l ++ a :: r) ↔ Dll h (l ++ [a]) ∧ Dll h (a :: r)
  | [], a, r => by simp [Dll]
  | [x], a, r => by simp [Dll, and_assoc]
  | x :: y :: l, a, r => by
    have := Dll.split (h := h) (y :: l) a r
    simp only [List.cons_append, Dll] at this ⊢
    rw [this]
    simp only [and_assoc]

omit [DecidableEq K] in
theorem runMicros_remove {h : LHeap K V} {p q : List Nat} {a n b : Nat} (hd : Dll h (p ++ a :: n :: b :: q))
    (hn : (p ++ a :: n :: b :: q).Nodup) : ∃ h', runMicros n h none removeMicros = .ok h' ∧
    Dll h' (p ++ a :: b :: q) ∧ (∀ x, (h' x).key = (h x).key ∧ (h' x).value = (h x).value) := by
  have hd1 := (Dll.split p a (n :: b :: q)).mp hd
  obtain ⟨h1, ⟨e1, e2, e3, e4, h2⟩⟩ := hd1
  have hne : n ≠ a ∧ n ≠ b ∧ a ≠ b := by
    simp only [List.nodup_append, List.nodup_cons, List.mem_cons] at hn
    refine ⟨fun e => hn.2.1.1 (Or.inl e.symm), fun e => hn.2.1.2.1 (Or.inl e), fun e => hn.2.1.1 (Or.inr (Or.inl e))⟩
  refine ⟨(h.setNext a (some b)).setPrev b (some a), ?_, ?_, ?_⟩
  · simp only [runMicros, removeMicros, Micro.exec, e2, Res.bind_ok, e3]
    have f1 : ((h.setNext a (some b)) n).next = some b := by simp [LHeap.setNext, hne.1, e3]
    have f2 : ((h.setNext a (some b)) n).prev = some a := by simp [LHeap.setNext, hne.1, e2]
    simp [f1, f2]
  · rw [Dll.split]
    have hab : a ∉ p ∧ b ∉ p := by
      simp only [List.nodup_append, List.nodup_cons, List.mem_cons] at hn
      exact ⟨fun e => hn.2.2 a e a (Or.inl rfl) rfl, fun e => hn.2.2 b e b (by simp) rfl⟩
    have hq : a ∉ q ∧ b ∉ q := by
      simp only [List.nodup_append, List.nodup_cons, List.mem_cons] at hn
      exact ⟨fun e => hn.2.1.1 (by simp [e]), fun e => hn.2.1.2.2.1 e⟩
    refine ⟨Dll.congr ?_ ?_ h1, ?_, ?_, Dll.congr ?_ ?_ h2⟩
    · intro x hx
      rw [List.dropLast_concat] at hx
      have : x ≠ a := fun e => hab.1 (e ▸ hx)
      simp only [LHeap.setPrev, LHeap.setNext]
      split <;> simp
    · intro x hx
      have hx' := List.mem_of_mem_tail hx
      have : x ≠ b := by
        intro e
        subst e
        rcases List.mem_append.mp hx' with h | h
        · exact hab.2 h
        · exact hne.2.2 (List.mem_singleton.mp h).symm
      simp only [LHeap.setPrev, this, if_false, LHeap.setNext]
      split <;> simp
    · simp [LHeap.setPrev, LHeap.setNext, hne.2.2]
    · simp [LHeap.setPrev]
    · intro x hx
      have hx' := List.dropLast_subset _ hx
      have : x ≠ a := by
        intro e
        subst e
        rcases List.mem_cons.mp hx' with h | h
        · exact hne.2.2 h
        · exact hq.1 h
      simp only [LHeap.setPrev, LHeap.setNext]
      split <;> simp
    · intro x hx
      have : x ≠ b := fun e => hq.2 (e ▸ hx)
      simp only [LHeap.setPrev, this, if_false, LHeap.setNext]
      split <;> simp
  · intro x
    simp only [LHeap.setPrev, LHeap.setNext]
    constructor <;> (split <;> split <;> rfl)

omit [DecidableEq K] in
theorem runMicros_add {h : LHeap K V} {q : List Nat} {n b : Nat} (hd : Dll h (0 :: b :: q))
    (hn : (0 :: b :: q).Nodup) (hnew : n ∉ 0 :: b :: q) : ∃ h', runMicros n h none addMicros = .ok h' ∧
    Dll h' (0 :: n :: b :: q) ∧ (∀ x, (h' x).key = (h x).key ∧ (h' x).value = (h x).value) := by
  obtain ⟨e1, e2, e3⟩ := hd
  simp only [List.mem_cons, not_or] at hnew
  simp only [List.nodup_cons, List.mem_cons, not_or] at hn
  have h0 : ¬ 0 = n := fun e => hnew.1 e.symm
  have hb : ¬ b = n := fun e => hnew.2.1 e.symm
  refine ⟨(((h.setNext 0 (some n)).setPrev b (some n)).setNext n (some b)).setPrev n (some 0), ?_, ?_, ?_⟩
  · simp [runMicros, addMicros, Micro.exec, e1]
  · refine ⟨?_, ?_, ?_, ?_, Dll.congr ?_ ?_ e3⟩
    · simp [LHeap.setPrev, LHeap.setNext, h0, hn.1.1]
    · simp [LHeap.setPrev]
    · simp [LHeap.setPrev, LHeap.setNext]
    · simp [LHeap.setPrev, LHeap.setNext, hb]
    · intro x hx
      have hx' := List.dropLast_subset _ hx
      have hx0 : x ≠ 0 := by
        intro e
        subst e
        rcases List.mem_cons.mp hx' with h | h
        · exact hn.1.1 h
        · exact hn.1.2 h
      have hxn : x ≠ n := by
        intro e
        subst e
        rcases List.mem_cons.mp hx' with h | h
        · exact hnew.2.1 h
        · exact hnew.2.2 h
      simp only [LHeap.setPrev, LHeap.setNext, hxn, if_false]
      split <;> simp
    · intro x hx
      simp only [List.tail_cons] at hx
      have hxb : x ≠ b := fun e => hn.2.1 (e ▸ hx)
      have hxn : x ≠ n := fun e => hnew.2.2 (e ▸ hx)
      simp only [LHeap.setPrev, LHeap.setNext, hxn, hxb, if_false]
      split <;> simp
  · intro x
    simp only [LHeap.setPrev, LHeap.setNext]
    constructor <;> (repeat' split) <;> rfl

/-! ## The list of entries -/

/-- A list of entries, the latest use first. -/
abbrev Entries (K V : Type) := List (K × V)

def touch (k : K) (v : V) (l : Entries K V) : Entries K V := (k, v) :: l.filter (fun e => decide (e.1 ≠ k))

def entriesGet (l : Entries K V) (k : K) : Entries K V :=
  match GoMap.get l k with
  | some v => touch k v l
  | none => l

def entriesPut (cap : Nat) (l : Entries K V) (k : K) (v : V) : Entries K V :=
  match GoMap.get l k with
  | some v0 => touch k v0 l
  | none => (k, v) :: (if cap ≤ l.length then l.dropLast else l)

/-- The cache is a representation of the entries, by these nodes. -/
structure LRU.Rep (c : LRU K V) (nodes : List Nat) (l : Entries K V) : Prop where
  holds : c.Holds nodes (l.map Prod.fst)
  values : nodes.map (fun a => (c.heap a).value) = l.map (fun e => some e.2)
  bound : ∀ a ∈ nodes, a < c.top
  two : 2 ≤ c.top
  wf : c.m.WF

theorem LRU.Rep.length {c : LRU K V} {nodes : List Nat} {l : Entries K V} (h : c.Rep nodes l) : nodes.length = l.length := by
  have := congrArg List.length h.values
  simpa using this

theorem LRU.Rep.node {c : LRU K V} {nodes : List Nat} {l : Entries K V} (h : c.Rep nodes l) {i : Nat} {a : Nat}
    (hi : nodes[i]? = some a) : ∃ k v, l[i]? = some (k, v) ∧ (c.heap a).key = some k ∧ (c.heap a).value = some v := by
  have h1 := congrArg (·[i]?) h.holds.keys
  have h2 := congrArg (·[i]?) h.values
  simp only [List.getElem?_map, hi, Option.map_some] at h1 h2
  cases hl : l[i]? with
  | none => rw [hl] at h1; simp at h1
  | some e =>
    rw [hl] at h1 h2
    simp only [Option.map_some, Option.some.injEq] at h1 h2
    exact ⟨e.1, e.2, rfl, h1, h2⟩

theorem LRU.Rep.keys_nodup {c : LRU K V} {nodes : List Nat} {l : Entries K V} (h : c.Rep nodes l) :
    (l.map Prod.fst).Nodup := by
  unfold List.Nodup
  rw [List.pairwise_iff_getElem]
  intro i j hi hj hij he
  have hj' : j < nodes.length := by rw [h.length]; simpa using hj
  have hi' : i < nodes.length := by omega
  obtain ⟨k, v, e1, e2, _⟩ := h.node (List.getElem?_eq_getElem hi')
  obtain ⟨k', v', e3, e4, _⟩ := h.node (List.getElem?_eq_getElem hj')
  have hk : k = k' := by
    rw [List.getElem_map, List.getElem_map, (List.getElem?_eq_some_iff.mp e1).2,
      (List.getElem?_eq_some_iff.mp e3).2] at he
    exact he
  subst hk
  have f1 := (h.holds.map k _).mpr ⟨List.getElem_mem hi', e2⟩
  have f2 := (h.holds.map k _).mpr ⟨List.getElem_mem hj', e4⟩
  rw [f1] at f2
  have hnd : nodes.Nodup := by
    have := h.holds.nodup
    simp only [List.cons_append, List.nodup_cons, List.nodup_append] at this
    exact this.2.1
  exact (List.pairwise_iff_getElem.mp hnd) i j hi' hj' hij (Option.some.inj f2)

/-- A key of the map: its place in the list. -/
theorem LRU.Rep.find {c : LRU K V} {nodes : List Nat} {l : Entries K V} (h : c.Rep nodes l) {k : K} {n : Nat}
    (hk : c.m.get k = some n) : ∃ p q lp lq v, nodes = p ++ n :: q ∧ l = lp ++ (k, v) :: lq ∧ p.length = lp.length ∧
      (c.heap n).key = some k ∧ (c.heap n).value = some v ∧ GoMap.get l k = some v := by
  obtain ⟨hn, hkey⟩ := (h.holds.map k n).mp hk
  obtain ⟨i, hi⟩ := List.mem_iff_getElem?.mp hn
  obtain ⟨k', v, e1, e2, e3⟩ := h.node hi
  rw [hkey] at e2
  cases e2
  have hi' : i < nodes.length := by
    have := List.getElem?_eq_some_iff.mp hi
    exact this.1
  have hl' : i < l.length := by rw [← h.length]; exact hi'
  refine ⟨nodes.take i, nodes.drop (i + 1), l.take i, l.drop (i + 1), v, ?_, ?_, ?_, hkey, e3, ?_⟩
  · have : nodes[i] = n := by
      have := List.getElem?_eq_some_iff.mp hi
      exact this.2
    rw [← this]
    simp
  · have : l[i] = (k, v) := (List.getElem?_eq_some_iff.mp e1).2
    rw [← this]
    simp
  · simp only [List.length_take]
    omega
  · apply GoMap.WF.get_of_mem h.keys_nodup
    exact List.mem_of_getElem? e1

theorem LRU.Rep.get_iff {c : LRU K V} {nodes : List Nat} {l : Entries K V} (h : c.Rep nodes l) (k : K) :
    c.m.get k = none ↔ GoMap.get l k = none := by
  constructor
  · intro hc
    rw [GoMap.get_eq_none_iff]
    intro v hv
    obtain ⟨i, hi⟩ := List.mem_iff_getElem?.mp hv
    have hl' : i < l.length := (List.getElem?_eq_some_iff.mp hi).1
    have hi' : i < nodes.length := by rw [h.length]; exact hl'
    obtain ⟨k', v', e1, e2, e3⟩ := h.node (List.getElem?_eq_getElem hi')
    rw [hi] at e1
    cases e1
    have := (h.holds.map k _).mpr ⟨List.getElem_mem hi', e2⟩
    rw [hc] at this
    cases this
  · intro hl
    cases hc : c.m.get k with
    | none => rfl
    | some n =>
      obtain ⟨_, _, _, _, _, _, _, _, _, _, e⟩ := h.find hc
      rw [hl] at e
      cases e

theorem filter_key {lp lq : Entries K V} {k : K} {v : V} (h : ((lp ++ (k, v) :: lq).map Prod.fst).Nodup) :
    (lp ++ (k, v) :: lq).filter (fun e => decide (e.1 ≠ k)) = lp ++ lq := by
  simp only [List.map_append, List.map_cons, List.nodup_append, List.nodup_cons] at h
  rw [List.filter_append, List.filter_cons]
  simp only [ne_eq, not_true_eq_false, decide_false, Bool.false_eq_true, if_false]
  rw [List.filter_eq_self.mpr, List.filter_eq_self.mpr]
  · intro e he
    simp only [decide_not, Bool.not_eq_eq_eq_not, Bool.not_true, decide_eq_false_iff_not]
    intro hk
    exact h.2.1.1 (List.mem_map.mpr ⟨e, he, hk⟩)
  · intro e he
    simp only [decide_not, Bool.not_eq_eq_eq_not, Bool.not_true, decide_eq_false_iff_not]
    intro hk
    exact h.2.2 e.1 (List.mem_map.mpr ⟨e, he, rfl⟩) k (by simp) hk

theorem exists_concat {α : Type} {l : List α} (h : l ≠ []) : ∃ p a, l = p ++ [a] :=
  ⟨l.dropLast, l.getLast h, (List.dropLast_concat_getLast h).symm⟩

/-- Unlinking a node, then linking it at the head: `moveToHead`, and `Put` of a key that is there. -/
theorem LRU.Rep.relink {c : LRU K V} {nodes : List Nat} {l : Entries K V} (h : c.Rep nodes l) {k : K} {n : Nat}
    (hk : c.m.get k = some n) : ∃ v h1 h2 nodes', GoMap.get l k = some v ∧
    runMicros n c.heap none removeMicros = .ok h1 ∧ runMicros n h1 none addMicros = .ok h2 ∧
    (h1 n).key = some k ∧ (h2 n).value = some v ∧
    ∀ m, m.WF → m.length = c.m.length → (∀ k', m.get k' = c.m.get k') →
      ({ c with m := m, heap := h2 } : LRU K V).Rep nodes' (touch k v l) := by
  obtain ⟨p, q, lp, lq, v, rfl, rfl, hlen, ekey, evalue, eget⟩ := h.find hk
  have hnd := h.holds.nodup
  have hdl := h.holds.list
  -- the neighbours of the node
  obtain ⟨p', a, hp⟩ := exists_concat (List.cons_ne_nil 0 p)
  obtain ⟨b, q', hq⟩ : ∃ b q', q ++ [1] = b :: q' := by
    cases q with
    | nil => exact ⟨1, [], rfl⟩
    | cons b q => exact ⟨b, q ++ [1], rfl⟩
  have e1 : 0 :: (p ++ n :: q) ++ [1] = p' ++ a :: n :: b :: q' := by
    have : 0 :: (p ++ n :: q) ++ [1] = (0 :: p) ++ n :: (q ++ [1]) := by simp
    rw [this, hp, hq]
    simp
  have e2 : p' ++ a :: b :: q' = 0 :: (p ++ q ++ [1]) := by
    have : 0 :: (p ++ q ++ [1]) = (0 :: p) ++ (q ++ [1]) := by simp
    rw [this, hp, hq]
    simp
  rw [e1] at hnd hdl
  obtain ⟨h1, r1, d1, f1⟩ := runMicros_remove hdl hnd
  rw [e2] at d1
  -- what is known of the rest
  obtain ⟨c0, q0, hc0⟩ : ∃ c0 q0, p ++ q ++ [1] = c0 :: q0 := by
    cases hpq : p ++ q with
    | nil => exact ⟨1, [], rfl⟩
    | cons b r => exact ⟨b, r ++ [1], rfl⟩
  have hperm : (0 :: (p ++ n :: q) ++ [1]).Perm (n :: 0 :: (p ++ q ++ [1])) := by
    have : (p ++ n :: q ++ [1]).Perm (n :: (p ++ q ++ [1])) := by
      simp only [List.append_assoc, List.cons_append]
      exact List.perm_middle
    exact (List.Perm.cons 0 this).trans (List.Perm.swap _ _ _)
  have hnd2 : (n :: 0 :: (p ++ q ++ [1])).Nodup := hperm.nodup_iff.mp h.holds.nodup
  rw [hc0] at d1 hnd2
  obtain ⟨h2, r2, d2, f2⟩ := runMicros_add (n := n) d1 (List.nodup_cons.mp hnd2).2 (List.nodup_cons.mp hnd2).1
  rw [← hc0] at d2 hnd2
  refine ⟨v, h1, h2, n :: (p ++ q), eget, r1, r2, ?_, ?_, ?_⟩
  · rw [(f1 n).1]; exact ekey
  · rw [(f2 n).2, (f1 n).2]; exact evalue
  · intro m hwf hml hmg
    have hlk : lp.length = p.length := hlen.symm
    have keys := h.holds.keys
    have vals := h.values
    simp only [List.map_append, List.map_cons] at keys vals
    obtain ⟨k1, k2⟩ := List.append_inj keys (by simp [hlen])
    obtain ⟨v1, v2⟩ := List.append_inj vals (by simp [hlen])
    have k3 := (List.cons.inj k2).2
    have v3 := (List.cons.inj v2).2
    have fk : ∀ x, (h2 x).key = (c.heap x).key := fun x => (f2 x).1.trans (f1 x).1
    have fv : ∀ x, (h2 x).value = (c.heap x).value := fun x => (f2 x).2.trans (f1 x).2
    have ht : touch k v (lp ++ (k, v) :: lq) = (k, v) :: (lp ++ lq) := by
      rw [touch, filter_key h.keys_nodup]
    have hmem : ∀ x, x ∈ n :: (p ++ q) ↔ x ∈ p ++ n :: q := by
      intro x
      simp only [List.mem_cons, List.mem_append]
      exact ⟨fun h => by rcases h with h | h | h <;> simp [h], fun h => by rcases h with h | h | h <;> simp [h]⟩
    rw [ht]
    refine ⟨⟨?_, ?_, ?_, ?_, ?_⟩, ?_, ?_, h.two, hwf⟩
    · simpa using d2
    · have : (n :: 0 :: (p ++ q ++ [1])).Perm (0 :: n :: (p ++ q) ++ [1]) := List.Perm.swap _ _ _
      exact this.nodup_iff.mp hnd2
    · simp only [List.map_cons, List.map_append, fk, ekey, k1, k3]
    · intro k' a'
      show m.get k' = some a' ↔ _
      rw [hmg k', h.holds.map k' a', hmem a']
      simp only [fk]
    · show m.length = _
      rw [hml, h.holds.size]
      simp
      omega
    · simp only [List.map_cons, List.map_append, fv, evalue, v1, v3]
    · intro x hx
      exact h.bound x ((hmem x).mp hx)

theorem LRU.Rep.get {c : LRU K V} {nodes : List Nat} {l : Entries K V} (h : c.Rep nodes l) (k : K) :
    ∃ c' nodes', c.get k = .ok (c', GoMap.get l k) ∧ c'.Rep nodes' (entriesGet l k) ∧ c'.cap = c.cap := by
  unfold LRU.get entriesGet
  cases hk : c.m.get k with
  | none =>
    rw [(h.get_iff k).mp hk]
    exact ⟨c, nodes, rfl, h, rfl⟩
  | some n =>
    obtain ⟨v, h1, h2, nodes', e1, r1, r2, _, e3, rep⟩ := h.relink hk
    have := rep c.m h.wf rfl (fun _ => rfl)
    rw [e1]
    refine ⟨{ c with heap := h2 }, nodes', ?_, this, rfl⟩
    simp [LRU.moveToHead, LRU.remove, LRU.add, r1, r2, e3]

theorem length_del_of_get {m : GoMap K Nat} (w : m.WF) {k : K} {n : Nat} (h : m.get k = some n) :
    (m.del k).length + 1 = m.length := by
  induction m with
  | nil => cases h
  | cons e m ih =>
    obtain ⟨k', n'⟩ := e
    unfold GoMap.get at h
    unfold GoMap.WF at w
    simp only [List.map_cons, List.nodup_cons] at w
    unfold GoMap.del
    split at h
    · rename_i hk
      subst hk
      have : GoMap.get m k' = none := by
        cases hg : GoMap.get m k' with
        | none => rfl
        | some x => exact absurd (List.mem_map.mpr ⟨_, GoMap.mem_of_get hg, rfl⟩) w.1
      simp only [if_true]
      rw [GoMap.del_of_get_none this]
      simp
    · rename_i hk
      simp only [hk, if_false, List.length_cons]
      have := ih w.2 h
      omega

theorem LRU.Rep.put {c : LRU K V} {nodes : List Nat} {l : Entries K V} (h : c.Rep nodes l) (hc : 1 ≤ c.cap) (k : K) (v : V) :
    ∃ c' nodes', c.put k v = .ok c' ∧ c'.Rep nodes' (entriesPut c.cap l k v) ∧ c'.cap = c.cap := by
  unfold LRU.put entriesPut
  cases hk : c.m.get k with
  | some n =>
    obtain ⟨v', h1, h2, nodes', e1, r1, r2, e3, e4, rep⟩ := h.relink hk
    rw [e1]
    have hn : (c.heap n).key = some k := ((h.holds.map k n).mp hk).2
    have hdel := length_del_of_get h.wf hk
    have := rep ((c.m.del k).set k n) ((h.wf.del k).set k n) (by
      rw [GoMap.length_set]
      have : (c.m.del k).has k = false := by simp [GoMap.has]
      rw [this]
      simpa using hdel) (by
      intro k'
      rw [GoMap.get_set]
      split
      · rename_i e; subst e; exact hk.symm
      · rename_i e; exact GoMap.get_del_ne _ (Ne.symm e))
    refine ⟨{ c with m := (c.m.del k).set k n, heap := h2 }, nodes', ?_, this, rfl⟩
    simp [LRU.remove, LRU.add, r1, r2, hn, e3]
  | none =>
    rw [(h.get_iff k).mp hk]
    simp only
    -- the new node
    have htop : c.top ∉ 0 :: nodes ++ [1] := by
      intro hm
      simp only [List.cons_append, List.mem_cons, List.mem_append, List.not_mem_nil, or_false] at hm
      have := h.two
      rcases hm with hm | hm | hm
      · omega
      · have := h.bound _ hm; omega
      · omega
    obtain ⟨h0, hh0⟩ : ∃ h0 : LHeap K V, h0 = fun x => if x = c.top then ⟨some k, some v, none, none⟩ else c.heap x := ⟨_, rfl⟩
    have halloc : c.alloc k v = { c with top := c.top + 1, heap := h0 } := by rw [hh0]; rfl
    rw [halloc]
    have hold : ∀ x, x ∈ 0 :: nodes ++ [1] → h0 x = c.heap x := by
      intro x hx
      rw [hh0]
      have : x ≠ c.top := fun e => htop (e ▸ hx)
      simp [this]
    have hnew : h0 c.top = ⟨some k, some v, none, none⟩ := by rw [hh0]; simp
    have d0 : Dll h0 (0 :: nodes ++ [1]) :=
      Dll.congr (fun x hx => by rw [hold x (List.dropLast_subset _ hx)])
        (fun x hx => by rw [hold x (List.mem_of_mem_tail hx)]) h.holds.list
    -- the state after eviction
    obtain ⟨m', nodes', l', h1, ev, d1, nd1, keys1, map1, size1, val1, sub1, wf1, hl', fk⟩ :
        ∃ (m' : GoMap K Nat) (nodes' : List Nat) (l' : Entries K V) (h1 : LHeap K V),
        ({ c with top := c.top + 1, heap := h0 } : LRU K V).evict = .ok { c with top := c.top + 1, m := m', heap := h1 } ∧
        Dll h1 (0 :: nodes' ++ [1]) ∧ (0 :: nodes' ++ [1]).Nodup ∧
        nodes'.map (fun a => (h1 a).key) = (l'.map Prod.fst).map some ∧
        (∀ k a, m'.get k = some a ↔ a ∈ nodes' ∧ (h1 a).key = some k) ∧ m'.length = nodes'.length ∧
        nodes'.map (fun a => (h1 a).value) = l'.map (fun e => some e.2) ∧ (∀ a ∈ nodes', a ∈ nodes) ∧ m'.WF ∧
        l' = (if c.cap ≤ l.length then l.dropLast else l) ∧
        (∀ x, (h1 x).key = (h0 x).key ∧ (h1 x).value = (h0 x).value) := by
      have hsz : c.m.length = l.length := by rw [h.holds.size, h.length]
      have hkeys0 : nodes.map (fun a => (h0 a).key) = nodes.map (fun a => (c.heap a).key) :=
        List.map_congr_left (fun a ha => by rw [hold a (by simp [ha])])
      have hvals0 : nodes.map (fun a => (h0 a).value) = nodes.map (fun a => (c.heap a).value) :=
        List.map_congr_left (fun a ha => by rw [hold a (by simp [ha])])
      by_cases hfull : c.cap ≤ c.m.length
      · have hpos : 0 < nodes.length := by have := h.holds.size; omega
        obtain ⟨ns, a, e⟩ := exists_concat (List.ne_nil_of_length_pos hpos)
        · subst e
          obtain ⟨ls, x, e⟩ := exists_concat (l := l) (by
            apply List.ne_nil_of_length_pos
            rw [← h.length]
            exact hpos)
          · subst e
            obtain ⟨kx, vx⟩ := x
            obtain ⟨p', a', hp⟩ := exists_concat (List.cons_ne_nil 0 ns)
            have e1 : 0 :: (ns ++ [a]) ++ [1] = p' ++ a' :: a :: 1 :: [] := by
              have : 0 :: (ns ++ [a]) ++ [1] = (0 :: ns) ++ [a, 1] := by simp
              rw [this, hp]; simp
            have e2 : p' ++ a' :: 1 :: [] = 0 :: ns ++ [1] := by
              rw [hp]; simp
            have hnd := h.holds.nodup
            rw [e1] at d0 hnd
            obtain ⟨h1, r1, d1, f1⟩ := runMicros_remove d0 hnd
            rw [e2] at d1
            have hprev : (h0 1).prev = some a := by
              have := (Dll.split (p' ++ [a']) a [1]).mp (by simpa using d0)
              exact this.2.2.1
            have keys := h.holds.keys
            have vals := h.values
            simp only [List.map_append, List.map_cons, List.map_nil] at keys vals
            have kk := List.append_inj' keys (by simp)
            have vv := List.append_inj' vals (by simp)
            have hka : (c.heap a).key = some kx := by simpa using kk.2
            have hka0 : (h0 a).key = some kx := by rw [hold a (by simp)]; exact hka
            have hmx : c.m.get kx = some a := (h.holds.map kx a).mpr ⟨by simp, hka⟩
            have hnda : a ∉ ns := by
              have := h.holds.nodup
              simp only [List.cons_append, List.append_assoc, List.nodup_cons, List.nodup_append,
                List.mem_cons, List.mem_append] at this
              intro hm
              exact this.2.2.2 a hm a (by simp) rfl
            have hns : ∀ x ∈ ns, (h1 x).key = (c.heap x).key ∧ (h1 x).value = (c.heap x).value := by
              intro x hx
              rw [(f1 x).1, (f1 x).2, hold x (by simp [hx])]
              exact ⟨rfl, rfl⟩
            refine ⟨c.m.del kx, ns, ls, h1, ?_, d1, ?_, ?_, ?_, ?_, ?_, ?_, h.wf.del kx, ?_, f1⟩
            · simp only [LRU.evict]
              rw [if_pos hfull, hprev]
              simp [LRU.remove, r1, hka0]
            · have hs : (0 :: ns ++ [1]).Sublist (0 :: (ns ++ [a]) ++ [1]) := by
                simp
              exact List.Nodup.sublist hs h.holds.nodup
            · rw [List.map_congr_left (fun x hx => (hns x hx).1)]
              exact kk.1
            · intro k' x
              rw [GoMap.get_del]
              split
              · rename_i e
                subst e
                simp only [reduceCtorEq, false_iff, not_and]
                intro hx hkx
                rw [(hns x hx).1] at hkx
                have := (h.holds.map kx x).mpr ⟨by simp [hx], hkx⟩
                rw [hmx] at this
                cases this
                exact hnda hx
              · rename_i e
                rw [h.holds.map k' x]
                constructor
                · rintro ⟨hm, hkx⟩
                  rcases List.mem_append.mp hm with hm | hm
                  · exact ⟨hm, by rw [(hns x hm).1]; exact hkx⟩
                  · have : x = a := by simpa using hm
                    subst this
                    rw [hka] at hkx
                    exact absurd (Option.some.inj hkx) e
                · rintro ⟨hm, hkx⟩
                  rw [(hns x hm).1] at hkx
                  exact ⟨by simp [hm], hkx⟩
            · have := length_del_of_get h.wf hmx
              have := h.holds.size
              simp only [List.length_append, List.length_cons, List.length_nil] at this
              omega
            · rw [List.map_congr_left (fun x hx => (hns x hx).2)]
              exact vv.1
            · intro x hx; simp [hx]
            · rw [hsz] at hfull
              rw [if_pos hfull]
              simp
      · refine ⟨c.m, nodes, l, h0, by simp only [LRU.evict]; rw [if_neg hfull], d0, h.holds.nodup, ?_, ?_, h.holds.size, ?_, fun _ h => h, h.wf, ?_, fun _ => ⟨rfl, rfl⟩⟩
        · rw [hkeys0]; exact h.holds.keys
        · intro k' a
          rw [h.holds.map k' a]
          constructor
          · rintro ⟨ha, e⟩; exact ⟨ha, by rw [hold a (by simp [ha])]; exact e⟩
          · rintro ⟨ha, e⟩; rw [hold a (by simp [ha])] at e; exact ⟨ha, e⟩
        · rw [hvals0]; exact h.values
        · rw [hsz] at hfull; rw [if_neg hfull]
    rw [ev]
    simp only [Res.bind_ok]
    have htop' : c.top ∉ 0 :: nodes' ++ [1] := by
      intro hm
      apply htop
      simp only [List.cons_append, List.mem_cons, List.mem_append, List.not_mem_nil, or_false] at hm ⊢
      rcases hm with hm | hm | hm
      · exact Or.inl hm
      · exact Or.inr (Or.inl (sub1 _ hm))
      · exact Or.inr (Or.inr hm)
    obtain ⟨b, q, hbq⟩ : ∃ b q, nodes' ++ [1] = b :: q := by
      cases nodes' with
      | nil => exact ⟨1, [], rfl⟩
      | cons b q => exact ⟨b, q ++ [1], rfl⟩
    rw [List.cons_append, hbq] at d1 nd1 htop'
    obtain ⟨h2, r2, d2, f2⟩ := runMicros_add d1 nd1 htop'
    have htk : (h1 c.top).key = some k := by rw [(fk _).1, hnew]
    have htv : (h1 c.top).value = some v := by rw [(fk _).2, hnew]
    have hnk : m'.get k = none := by
      cases hg : m'.get k with
      | none => rfl
      | some a =>
        obtain ⟨ha, hka⟩ := (map1 k a).mp hg
        rw [(fk a).1, hold a (by simp [sub1 a ha])] at hka
        have := (h.holds.map k a).mpr ⟨sub1 a ha, hka⟩
        rw [hk] at this
        cases this
    refine ⟨{ c with top := c.top + 1, m := m'.set k c.top, heap := h2 }, c.top :: nodes', ?_, ?_, rfl⟩
    · simp [LRU.add, r2, htk]
    · rw [← hl']
      refine ⟨⟨?_, ?_, ?_, ?_, ?_⟩, ?_, ?_, ?_, wf1.set k c.top⟩
      · rw [← hbq] at d2
        simpa using d2
      · rw [← hbq] at nd1 htop'
        simp only [List.cons_append, List.nodup_cons, List.mem_cons, not_or] at nd1 htop' ⊢
        exact ⟨⟨fun e => htop'.1 e.symm, nd1.1⟩, htop'.2, nd1.2⟩
      · simp only [List.map_cons, (f2 _).1, htk, keys1]
      · intro k' a
        show (m'.set k c.top).get k' = some a ↔ _
        rw [GoMap.get_set]
        simp only [(f2 _).1, List.mem_cons]
        split
        · rename_i e
          subst e
          constructor
          · intro e; cases e; exact ⟨Or.inl rfl, htk⟩
          · rintro ⟨ha | ha, hka⟩
            · rw [ha]
            · have := (map1 k a).mpr ⟨ha, hka⟩
              rw [hnk] at this
              cases this
        · rename_i e
          rw [map1 k' a]
          constructor
          · rintro ⟨ha, hka⟩; exact ⟨Or.inr ha, hka⟩
          · rintro ⟨ha | ha, hka⟩
            · rw [ha, htk] at hka
              exact absurd (Option.some.inj hka) e
            · exact ⟨ha, hka⟩
      · show (m'.set k c.top).length = _
        rw [GoMap.length_set]
        simp [GoMap.has, hnk, size1]
      · simp only [List.map_cons, (f2 _).2, htv, val1]
      · intro a ha
        rcases List.mem_cons.mp ha with e | ha
        · rw [e]; exact Nat.lt_succ_self _
        · exact Nat.lt_succ_of_lt (h.bound a (sub1 a ha))
      · exact Nat.le_succ_of_le h.two

theorem LRU.new_rep (cap : Nat) : (LRU.new cap : LRU K V).Rep [] [] := by
  refine ⟨⟨?_, by decide, rfl, ?_, rfl⟩, rfl, by simp, Nat.le_refl _, GoMap.WF.nil⟩
  · simp [Dll, LRU.new]
  · intro k a
    simp [LRU.new]

end Fastac
