import Verif.Spec.CacheThreads
import Verif.Props.Cache

/-!
# Match questions asked at the same time: what the pointers and values of the cache keep
-/

namespace Fastac

variable {K V : Type} [DecidableEq K]

/-- Pointers that are set stay set, keys and values stay. -/
structure Keeps (h h' : LHeap K V) : Prop where
  key : ∀ x, (h' x).key = (h x).key
  value : ∀ x, (h' x).value = (h x).value
  next : ∀ x, (h x).next ≠ none → (h' x).next ≠ none
  prev : ∀ x, (h x).prev ≠ none → (h' x).prev ≠ none

omit [DecidableEq K] in
theorem Keeps.refl (h : LHeap K V) : Keeps h h := ⟨fun _ => rfl, fun _ => rfl, fun _ => id, fun _ => id⟩

omit [DecidableEq K] in
theorem Keeps.trans {h h' h'' : LHeap K V} (a : Keeps h h') (b : Keeps h' h'') : Keeps h h'' :=
  ⟨fun x => (b.key x).trans (a.key x), fun x => (b.value x).trans (a.value x), fun x e => b.next x (a.next x e),
    fun x e => b.prev x (a.prev x e)⟩

omit [DecidableEq K] in
theorem Keeps.setNext (h : LHeap K V) (a : Nat) {v : Option Nat} (hv : v ≠ none) : Keeps h (h.setNext a v) := by
  constructor <;> intro x <;> by_cases e : x = a <;> simp [LHeap.setNext, e, hv]

omit [DecidableEq K] in
theorem Keeps.setPrev (h : LHeap K V) (a : Nat) {v : Option Nat} (hv : v ≠ none) : Keeps h (h.setPrev a v) := by
  constructor <;> intro x <;> by_cases e : x = a <;> simp [LHeap.setPrev, e, hv]

omit [DecidableEq K] in
theorem LHeap.setNext_prev (h : LHeap K V) (a : Nat) (v : Option Nat) (x : Nat) : (h.setNext a v x).prev = (h x).prev := by
  by_cases e : x = a <;> simp [LHeap.setNext, e]

omit [DecidableEq K] in
theorem LHeap.setPrev_next (h : LHeap K V) (a : Nat) (v : Option Nat) (x : Nat) : (h.setPrev a v x).next = (h x).next := by
  by_cases e : x = a <;> simp [LHeap.setPrev, e]

/-! ## Single assignments -/

/-- What an assignment needs not to panic and not to write nil. -/
def Micro.Fine (h : LHeap K V) (n : Nat) (loc : Option Nat) : Micro → Prop
  | .unlinkNext | .unlinkPrev => (h n).prev ≠ none ∧ (h n).next ≠ none
  | .readHead => (h 0).next ≠ none
  | .linkHead | .ownPrev => True
  | .linkBack | .ownNext => loc ≠ none

omit [DecidableEq K] in
theorem Micro.exec_fine {h : LHeap K V} {n : Nat} {loc : Option Nat} {mi : Micro} (hf : mi.Fine h n loc) :
    ∃ h' loc', mi.exec h n loc = .ok (h', loc') ∧ Keeps h h' ∧ (loc ≠ none → loc' ≠ none) ∧
      (mi = .readHead → loc' ≠ none) := by
  cases mi with
  | unlinkNext =>
    obtain ⟨a, ha⟩ := Option.ne_none_iff_exists'.1 hf.1
    exact ⟨_, loc, by simp only [Micro.exec, ha], Keeps.setNext h a hf.2, id, by simp⟩
  | unlinkPrev =>
    obtain ⟨a, ha⟩ := Option.ne_none_iff_exists'.1 hf.2
    exact ⟨_, loc, by simp only [Micro.exec, ha], Keeps.setPrev h a hf.1, id, by simp⟩
  | readHead => exact ⟨_, _, rfl, Keeps.refl h, fun _ => hf, fun _ => hf⟩
  | linkHead => exact ⟨_, _, rfl, Keeps.setNext h 0 (by simp), id, by simp⟩
  | linkBack =>
    obtain ⟨a, ha⟩ := Option.ne_none_iff_exists'.1 hf
    exact ⟨h.setPrev a (some n), loc, by simp only [Micro.exec, ha], Keeps.setPrev h a (by simp), id, by simp⟩
  | ownNext => exact ⟨_, _, rfl, Keeps.setNext h n hf, id, by simp⟩
  | ownPrev => exact ⟨_, _, rfl, Keeps.setPrev h n (by simp), id, by simp⟩

omit [DecidableEq K] in
/-- Unlinking a node, if it does not panic. -/
theorem runMicros_unlink {h h' : LHeap K V} {n : Nat} (e : runMicros n h none removeMicros = .ok h') :
    Keeps h h' ∧ (h n).prev ≠ none ∧ (h n).next ≠ none := by
  cases hp : (h n).prev with
  | none => simp [runMicros, removeMicros, Micro.exec, hp] at e
  | some a =>
    cases hn : (h n).next with
    | none =>
      have : ((h.setNext a (h n).next) n).next = none := by
        by_cases e : n = a <;> simp [LHeap.setNext, e, ← hn]
      simp only [runMicros, removeMicros, Micro.exec, hp, Res.bind_ok] at e
      rw [this] at e
      simp at e
    | some b =>
      obtain ⟨h1, l1, e1, k1, _⟩ := Micro.exec_fine (mi := .unlinkNext) (loc := none) (h := h) (n := n) ⟨by simp [hp], by simp [hn]⟩
      obtain ⟨h2, l2, e2, k2, _⟩ := Micro.exec_fine (mi := .unlinkPrev) (loc := l1) (h := h1) (n := n)
        ⟨k1.prev n (by simp [hp]), k1.next n (by simp [hn])⟩
      simp only [runMicros, removeMicros, e1, Res.bind_ok, e2, Res.ok.injEq] at e
      subst e
      exact ⟨k1.trans k2, by simp, by simp⟩

omit [DecidableEq K] in
theorem runMicros_unlink_ok {h : LHeap K V} {n : Nat} (hp : (h n).prev ≠ none) (hn : (h n).next ≠ none) :
    ∃ h', runMicros n h none removeMicros = .ok h' := by
  obtain ⟨h1, l1, e1, k1, _⟩ := Micro.exec_fine (mi := .unlinkNext) (loc := none) (h := h) (n := n) ⟨hp, hn⟩
  obtain ⟨h2, l2, e2, k2, _⟩ := Micro.exec_fine (mi := .unlinkPrev) (loc := l1) (h := h1) (n := n)
    ⟨k1.prev n hp, k1.next n hn⟩
  exact ⟨h2, by simp only [runMicros, removeMicros, e1, Res.bind_ok, e2]⟩

omit [DecidableEq K] in
/-- Linking a node at the head. -/
theorem runMicros_link {h : LHeap K V} {n : Nat} (h0 : (h 0).next ≠ none) :
    ∃ h', runMicros n h none addMicros = .ok h' ∧ Keeps h h' ∧ (h' n).prev ≠ none ∧ (h' n).next ≠ none := by
  obtain ⟨b, hb⟩ := Option.ne_none_iff_exists'.1 h0
  refine ⟨(((h.setNext 0 (some n)).setPrev b (some n)).setNext n (some b)).setPrev n (some 0), ?_, ?_, ?_, ?_⟩
  · simp [runMicros, addMicros, Micro.exec, hb]
  · exact (((Keeps.setNext h 0 (by simp)).trans (Keeps.setPrev _ b (by simp))).trans (Keeps.setNext _ n (by simp))).trans
      (Keeps.setPrev _ n (by simp))
  · simp [LHeap.setPrev]
  · rw [LHeap.setPrev_next]
    simp [LHeap.setNext]

/-! ## The cache -/

/-- Nodes of the map have their key and the value that belongs to it. -/
def LRU.Tells (ans : K → V) (c : LRU K V) : Prop :=
  ∀ k n, c.m.get k = some n → 2 ≤ n ∧ n < c.top ∧ (c.heap n).key = some k ∧ (c.heap n).value = some (ans k)

/-- Nodes have both pointers, in whatever order they are. -/
structure LRU.Linked (c : LRU K V) : Prop where
  two : 2 ≤ c.top
  head : (c.heap 0).next ≠ none
  node : ∀ x, 2 ≤ x → x < c.top → (c.heap x).prev ≠ none ∧ (c.heap x).next ≠ none

theorem LRU.new_tells (ans : K → V) (cap : Nat) : (LRU.new cap : LRU K V).Tells ans := by
  intro k n h
  simp [LRU.new] at h

omit [DecidableEq K] in
theorem LRU.new_linked (cap : Nat) : (LRU.new cap : LRU K V).Linked :=
  ⟨by simp [LRU.new], by simp [LRU.new], fun x h1 h2 => by simp only [LRU.new] at h2; omega⟩

theorem LRU.Tells.keeps {ans : K → V} {c : LRU K V} (t : c.Tells ans) {h : LHeap K V} (k : Keeps c.heap h) :
    ({ c with heap := h } : LRU K V).Tells ans := by
  intro key n e
  obtain ⟨a1, a2, a3, a4⟩ := t key n e
  exact ⟨a1, a2, (k.key n).trans a3, (k.value n).trans a4⟩

theorem LRU.Linked.keeps {c : LRU K V} (t : c.Linked) {h : LHeap K V} (k : Keeps c.heap h) :
    ({ c with heap := h } : LRU K V).Linked :=
  ⟨t.two, k.next 0 t.head, fun x h1 h2 => ⟨k.prev x (t.node x h1 h2).1, k.next x (t.node x h1 h2).2⟩⟩

/-- What stays when a key is put. -/
structure LRU.PutTo (ans : K → V) (k : K) (c c' : LRU K V) : Prop where
  tells : c'.Tells ans
  linked : c'.Linked
  top : c.top ≤ c'.top
  value : ∀ x, x < c.top → (c'.heap x).value = (c.heap x).value
  cap : c'.cap = c.cap
  wf : c.m.WF → c'.m.WF
  keys : ∀ k', (c'.m.get k').isSome = true → k' = k ∨ (c.m.get k').isSome = true

theorem LRU.put_there {ans : K → V} {c : LRU K V} (t : c.Tells ans) (l : c.Linked) {k : K} {n : Nat}
    (h : c.m.get k = some n) (v : V) : ∃ c', c.put k v = .ok c' ∧ c.PutTo ans k c' := by
  obtain ⟨a1, a2, a3, a4⟩ := t k n h
  obtain ⟨h1, e1⟩ := runMicros_unlink_ok (l.node n a1 a2).1 (l.node n a1 a2).2
  have k1 := (runMicros_unlink e1).1
  obtain ⟨h2, e2, k2, -, -⟩ := runMicros_link (n := n) (k1.next 0 l.head)
  have hk : (h1 n).key = some k := (k1.key n).trans a3
  have kk := k1.trans k2
  refine ⟨{ c with m := (c.m.del k).set k n, heap := h2 }, ?_, ?_⟩
  · simp only [LRU.put, h, LRU.remove, LRU.add, e1, a3, Res.map_ok, Res.bind_ok, hk, e2, Bool.false_eq_true, if_false]
  · have hm : ∀ k', ((c.m.del k).set k n).get k' = c.m.get k' := by
      intro k'
      rw [GoMap.get_set, GoMap.get_del]
      by_cases e : k = k'
      · subst e; simp [h]
      · simp [e]
    refine ⟨?_, ⟨(l.keeps kk).two, (l.keeps kk).head, (l.keeps kk).node⟩, Nat.le_refl _, fun x _ => kk.value x, rfl, fun w => (w.del k).set k n, ?_⟩
    · intro k' n' h'
      rw [hm] at h'
      exact (t.keeps kk) k' n' h'
    · intro k' h'
      rw [hm] at h'
      exact Or.inr h'

/-- The new node is linked once there is room. -/
theorem LRU.put_new {ans : K → V} {c c1 : LRU K V} (t : c.Tells ans) (l : c.Linked) {k : K}
    (h : (c.alloc k (ans k)).evict = .ok c1) : ∃ c', c1.add c.top false = .ok c' ∧ c.PutTo ans k c' := by
  -- what eviction does
  obtain ⟨h1, m1, e1, k1, hm⟩ : ∃ h1 m1, c1 = { c.alloc k (ans k) with m := m1, heap := h1 } ∧
      Keeps (c.alloc k (ans k)).heap h1 ∧ (m1 = c.m ∨ ∃ k0, m1 = c.m.del k0) := by
    unfold LRU.evict at h
    split at h
    · split at h
      · cases h
      · next n _ =>
        unfold LRU.remove at h
        cases hr : runMicros n (c.alloc k (ans k)).heap none removeMicros with
        | panic => rw [hr] at h; simp [Res.map] at h
        | err => rw [hr] at h; simp [Res.map] at h
        | ok h1 =>
          rw [hr] at h
          simp only [Res.map_ok, Res.ok.injEq] at h
          refine ⟨h1, _, h.symm, (runMicros_unlink hr).1, ?_⟩
          simp only [Bool.false_eq_true, if_false]
          split
          · exact Or.inl rfl
          · next k0 _ => exact Or.inr ⟨k0, rfl⟩
    · simp only [Res.ok.injEq] at h
      exact ⟨_, _, h.symm, Keeps.refl _, Or.inl rfl⟩
  have hold : ∀ x, x < c.top → (c.alloc k (ans k)).heap x = c.heap x := by
    intro x hx
    have : x ≠ c.top := by omega
    simp [LRU.alloc, this]
  have hnew : (c.alloc k (ans k)).heap c.top = ⟨some k, some (ans k), none, none⟩ := by simp [LRU.alloc]
  have h0 : (h1 0).next ≠ none := k1.next 0 (by rw [hold 0 (by have := l.two; omega)]; exact l.head)
  obtain ⟨h2, e2, k2, p2, n2⟩ := runMicros_link (n := c.top) h0
  have kk := k1.trans k2
  have hkey : (h1 c.top).key = some k := by rw [k1.key, hnew]
  have hget : ∀ k' n', m1.get k' = some n' → c.m.get k' = some n' := by
    intro k' n' e
    rcases hm with rfl | ⟨k0, rfl⟩
    · exact e
    · rw [GoMap.get_del] at e
      by_cases e0 : k0 = k'
      · simp [e0] at e
      · simpa [e0] using e
  refine ⟨{ c.alloc k (ans k) with m := m1.set k c.top, heap := h2 }, ?_, ?_⟩
  · subst e1
    simp only [LRU.add, e2, hkey, Res.map_ok, Bool.false_eq_true, if_false]
  · refine ⟨?_, ⟨?_, ?_, ?_⟩, ?_, ?_, rfl, ?_, ?_⟩
    · intro k' n' e
      simp only [GoMap.get_set] at e
      by_cases ek : k = k'
      · subst ek
        simp only [if_true, Option.some.injEq] at e
        subst e
        exact ⟨l.two, by simp [LRU.alloc], by rw [kk.key, hnew], by rw [kk.value, hnew]⟩
      · simp only [ek, if_false] at e
        obtain ⟨a1, a2, a3, a4⟩ := t k' n' (hget _ _ e)
        refine ⟨a1, by simp only [LRU.alloc]; omega, ?_, ?_⟩
        · rw [kk.key, hold _ a2]; exact a3
        · rw [kk.value, hold _ a2]; exact a4
    · have := l.two
      simp only [LRU.alloc]
      omega
    · exact k2.next 0 h0
    · intro x x1 x2
      simp only [LRU.alloc] at x2
      by_cases ex : x = c.top
      · subst ex; exact ⟨p2, n2⟩
      · have hx : x < c.top := by omega
        exact ⟨kk.prev x (by rw [hold x hx]; exact (l.node x x1 hx).1), kk.next x (by rw [hold x hx]; exact (l.node x x1 hx).2)⟩
    · simp [LRU.alloc]
    · intro x hx
      rw [kk.value, hold x hx]
    · intro w
      refine GoMap.WF.set ?_ k _
      rcases hm with rfl | ⟨k0, rfl⟩
      · exact w
      · exact w.del k0
    · intro k' e
      simp only [GoMap.get_set] at e
      by_cases ek : k = k'
      · exact Or.inl ek.symm
      · simp only [ek, if_false] at e
        obtain ⟨n', e'⟩ := Option.isSome_iff_exists.1 e
        exact Or.inr (by rw [hget _ _ e']; rfl)

theorem LRU.put_to {ans : K → V} {c c' : LRU K V} (t : c.Tells ans) (l : c.Linked) {k : K}
    (h : c.put k (ans k) = .ok c') : c.PutTo ans k c' := by
  cases hk : c.m.get k with
  | some n =>
    obtain ⟨c'', e, r⟩ := LRU.put_there t l hk (ans k)
    rw [h] at e
    cases e
    exact r
  | none =>
    simp only [LRU.put, hk] at h
    cases he : (c.alloc k (ans k)).evict with
    | ok c1 =>
      obtain ⟨c'', e, r⟩ := LRU.put_new t l he
      rw [he] at h
      simp only [Res.bind_ok] at h
      rw [h] at e
      cases e
      exact r
    | err => rw [he] at h; cases h
    | panic => rw [he] at h; cases h

/-- `Put` does not panic while there is room. -/
theorem LRU.put_room {ans : K → V} {c : LRU K V} (t : c.Tells ans) (l : c.Linked) {k : K}
    (h : c.m.get k = none → c.m.length < c.cap) : ∃ c', c.put k (ans k) = .ok c' := by
  cases hk : c.m.get k with
  | some n =>
    obtain ⟨c', e, _⟩ := LRU.put_there t l hk (ans k)
    exact ⟨c', e⟩
  | none =>
    have he : (c.alloc k (ans k)).evict = .ok (c.alloc k (ans k)) := by
      have := h hk
      unfold LRU.evict
      rw [if_neg]
      simp only [LRU.alloc]
      omega
    obtain ⟨c', e, _⟩ := LRU.put_new t l he
    exact ⟨c', by simp only [LRU.put, hk, he, Res.bind_ok, e]⟩

/-! ## The calls -/

/-- What is true of a call of a question, whatever the others do. -/
def MatchCall.Right (ans : Str → Bool) (c : LRU Str Bool) (q : Str × Str) : MatchCall → Prop
  | .asking s p | .missed s p => q = (s, p)
  | .moving s p n loc todo => q = (s, p) ∧ 2 ≤ n ∧ n < c.top ∧ (c.heap n).value = some (ans (cacheKey s p)) ∧
      ∃ j, j ≤ 7 ∧ todo = (removeMicros ++ addMicros).drop j ∧ (3 ≤ j → loc ≠ none)
  | .done b => b = ans (cacheKey q.1 q.2)
  | .crashed => True

structure MatchWorld.Inv (ans : Str → Bool) (qs : List (Str × Str)) (w : MatchWorld) : Prop where
  tells : w.cache.Tells ans
  linked : w.cache.Linked
  len : w.calls.length = qs.length
  calls : ∀ (i : Nat) (c : MatchCall), w.calls[i]? = some c → ∃ q, qs[i]? = some q ∧ c.Right ans w.cache q

namespace MatchWorld

variable {ans : Str → Bool} {qs : List (Str × Str)} {f : Str → Str → Bool}

theorem start_inv (cap : Nat) : (start cap qs).Inv ans qs := by
  refine ⟨LRU.new_tells ans cap, LRU.new_linked cap, by simp [start], ?_⟩
  intro i c h
  simp only [start, List.getElem?_map, Option.map_eq_some_iff] at h
  obtain ⟨q, h1, rfl⟩ := h
  exact ⟨q, h1, rfl⟩

/-- A call goes on, the cache changes as it may. -/
theorem Inv.goes {w : MatchWorld} (h : w.Inv ans qs) {c : LRU Str Bool} (t : c.Tells ans) (l : c.Linked)
    (top : w.cache.top ≤ c.top) (val : ∀ x, x < w.cache.top → (c.heap x).value = (w.cache.heap x).value)
    {i : Nat} {x : MatchCall} (hx : ∀ q, qs[i]? = some q → x.Right ans c q) :
    (({ w with cache := c } : MatchWorld).goes i x).Inv ans qs := by
  refine ⟨t, l, by simp [MatchWorld.goes, h.len], ?_⟩
  intro j y hj
  simp only [MatchWorld.goes, List.getElem?_set] at hj
  by_cases e : i = j
  · subst e
    simp only [if_true] at hj
    split at hj
    · next hlt =>
      cases hj
      rw [h.len] at hlt
      exact ⟨qs[i], List.getElem?_eq_getElem hlt, hx _ (List.getElem?_eq_getElem hlt)⟩
    · cases hj
  · simp only [e, if_false] at hj
    obtain ⟨q, q1, q2⟩ := h.calls j y hj
    refine ⟨q, q1, ?_⟩
    cases y with
    | moving s p n loc todo =>
      obtain ⟨a1, a2, a3, a4, a5⟩ := q2
      exact ⟨a1, a2, Nat.lt_of_lt_of_le a3 top, (val n a3).trans a4, a5⟩
    | asking s p => exact q2
    | missed s p => exact q2
    | done b => exact q2
    | crashed => trivial

/-- The next assignment of a `Get` is possible. -/
theorem Inv.fine {w : MatchWorld} (h : w.Inv ans qs) {i : Nat} {s p : Str} {n : Nat} {loc : Option Nat} {mi : Micro}
    {rest : List Micro} (hi : w.calls[i]? = some (.moving s p n loc (mi :: rest))) : mi.Fine w.cache.heap n loc := by
  obtain ⟨q, q1, a1, a2, a3, a4, j, j1, j2, j3⟩ := h.calls i _ hi
  have hn := h.linked.node n a2 a3
  match j, j1, j2, j3 with
  | 0, _, e, _ => cases e; exact hn
  | 1, _, e, _ => cases e; exact hn
  | 2, _, e, _ => cases e; exact h.linked.head
  | 3, _, e, _ => cases e; trivial
  | 4, _, e, l => cases e; exact l (by omega)
  | 5, _, e, l => cases e; exact l (by omega)
  | 6, _, e, _ => cases e; trivial
  | 7, _, e, _ => cases e
  | j + 8, h, _, _ => omega

theorem goes_self (w : MatchWorld) (i : Nat) (x : MatchCall) :
    w.goes i x = ({ w with cache := w.cache } : MatchWorld).goes i x := rfl

theorem Inv.step {w : MatchWorld} (h : w.Inv ans qs) (hf : ∀ q ∈ qs, f q.1 q.2 = ans (cacheKey q.1 q.2)) (i : Nat) :
    (w.step f i).Inv ans qs := by
  unfold MatchWorld.step
  split
  · next s p hi =>
    obtain ⟨q, q1, q2⟩ := h.calls i _ hi
    split
    · next n hn =>
      obtain ⟨a1, a2, a3, a4⟩ := h.tells _ n hn
      refine h.goes h.tells h.linked (Nat.le_refl _) (fun _ _ => rfl) (fun q' hq' => ?_)
      rw [q1] at hq'
      cases hq'
      exact ⟨q2, a1, a2, a4, 0, by omega, rfl, by omega⟩
    · refine h.goes h.tells h.linked (Nat.le_refl _) (fun _ _ => rfl) (fun q' hq' => ?_)
      rw [q1] at hq'
      cases hq'
      exact q2
  · next s p n loc mi rest hi =>
    obtain ⟨h', loc', e, k, l1, l2⟩ := Micro.exec_fine (h.fine hi)
    obtain ⟨q, q1, a1, a2, a3, a4, j, j1, j2, j3⟩ := h.calls i _ hi
    simp only [e]
    refine h.goes (h.tells.keeps k) (h.linked.keeps k) (Nat.le_refl _) (fun x _ => k.value x) (fun q' hq' => ?_)
    rw [q1] at hq'
    cases hq'
    have hj : rest = (removeMicros ++ addMicros).drop (j + 1) := by
      have := congrArg List.tail j2
      simpa using this
    have hj7 : j + 1 ≤ 7 := by
      rcases Nat.lt_or_ge j 7 with hlt | hge
      · omega
      · have : j = 7 := by omega
        subst this
        cases j2
    refine ⟨a1, a2, a3, (k.value n).trans a4, j + 1, hj7, hj, fun h3 => ?_⟩
    rcases Nat.lt_or_ge j 3 with hlt | hge
    · have : j = 2 := by omega
      subst this
      cases j2
      exact l2 rfl
    · exact l1 (j3 hge)
  · next s p n loc hi =>
    obtain ⟨q, q1, a1, a2, a3, a4, -⟩ := h.calls i _ hi
    simp only [a4]
    refine h.goes h.tells h.linked (Nat.le_refl _) (fun _ _ => rfl) (fun q' hq' => ?_)
    rw [q1] at hq'
    cases hq'
    rw [a1]
    rfl
  · next s p hi =>
    obtain ⟨q, q1, q2⟩ := h.calls i _ hi
    split
    · exact h
    · have hfq := hf q (List.mem_of_getElem? q1)
      rw [q2] at hfq
      simp only at hfq
      rw [hfq]
      split
      · next c hc =>
        have r := LRU.put_to h.tells h.linked hc
        refine h.goes r.tells r.linked r.top r.value (fun q' hq' => ?_)
        rw [q1] at hq'
        cases hq'
        rw [q2]
        rfl
      · exact h.goes h.tells h.linked (Nat.le_refl _) (fun _ _ => rfl) (fun q' hq' => trivial)
  · exact h

theorem Inv.run {w : MatchWorld} (h : w.Inv ans qs) (hf : ∀ q ∈ qs, f q.1 q.2 = ans (cacheKey q.1 q.2)) (sched : List Nat) :
    (w.run f sched).Inv ans qs := by
  induction sched generalizing w with
  | nil => exact h
  | cons i sched ih => exact ih (h.step hf i)

/-- The answers that belong to the keys. -/
def answerOf (f : Str → Str → Bool) (qs : List (Str × Str)) (k : Str) : Bool :=
  match qs.find? (fun q => decide (cacheKey q.1 q.2 = k)) with
  | some q => f q.1 q.2
  | none => false

theorem answerOf_eq (hq : ∀ q ∈ qs, ∀ q' ∈ qs, cacheKey q.1 q.2 = cacheKey q'.1 q'.2 → f q.1 q.2 = f q'.1 q'.2) :
    ∀ q ∈ qs, f q.1 q.2 = answerOf f qs (cacheKey q.1 q.2) := by
  intro q hm
  unfold answerOf
  split
  · next q' h =>
    have h1 := List.find?_some h
    simp only [decide_eq_true_eq] at h1
    exact hq q hm q' (List.mem_of_find?_eq_some h) h1.symm
  · next h =>
    rw [List.find?_eq_none] at h
    exact absurd (by simp) (h q hm)

/-! ## Enough room -/

/-- The keys in the cache are among these, and nobody has panicked. -/
structure Roomy (keys : List Str) (w : MatchWorld) : Prop where
  room : keys.length ≤ w.cache.cap
  wf : w.cache.m.WF
  keys : ∀ k, (w.cache.m.get k).isSome = true → k ∈ keys
  calls : MatchCall.crashed ∉ w.calls

theorem mem_goes {w : MatchWorld} {i : Nat} {x y : MatchCall} (h : x ∈ (w.goes i y).calls) : x = y ∨ x ∈ w.calls := by
  rcases List.mem_or_eq_of_mem_set h with h | h
  · exact Or.inr h
  · exact Or.inl h

theorem Roomy.goes {keys : List Str} {w : MatchWorld} (h : w.Roomy keys) {i : Nat} {y : MatchCall} (hy : y ≠ .crashed) :
    (w.goes i y).Roomy keys :=
  ⟨h.room, h.wf, h.keys, fun e => (mem_goes e).elim (fun e => hy e.symm) h.calls⟩

theorem Roomy.step {keys : List Str} {w : MatchWorld} (r : w.Roomy keys) (h : w.Inv ans qs)
    (hf : ∀ q ∈ qs, f q.1 q.2 = ans (cacheKey q.1 q.2)) (hk : ∀ q ∈ qs, cacheKey q.1 q.2 ∈ keys) (i : Nat) :
    (w.step f i).Roomy keys := by
  unfold MatchWorld.step
  split
  · split <;> exact r.goes (by simp)
  · next s p n loc mi rest hi =>
    obtain ⟨h', loc', e, -⟩ := Micro.exec_fine (h.fine hi)
    simp only [e]
    exact Roomy.goes (w := { w with cache := { w.cache with heap := h' } }) ⟨r.room, r.wf, r.keys, r.calls⟩ (by simp)
  · next s p n loc hi =>
    obtain ⟨q, q1, a1, a2, a3, a4, -⟩ := h.calls i _ hi
    simp only [a4]
    exact r.goes (by simp)
  · next s p hi =>
    obtain ⟨q, q1, q2⟩ := h.calls i _ hi
    split
    · exact r
    · have hm := List.mem_of_getElem? q1
      have hfq := hf q hm
      have hkq := hk q hm
      rw [q2] at hfq hkq
      simp only at hfq hkq
      have hroom : w.cache.m.get (cacheKey s p) = none → w.cache.m.length < w.cache.cap := by
        intro hn
        have : (cacheKey s p :: w.cache.m.map Prod.fst).length ≤ keys.length := by
          apply nodup_subset_length
          · refine List.nodup_cons.2 ⟨?_, r.wf⟩
            intro hmem
            obtain ⟨e, he, hek⟩ := List.mem_map.1 hmem
            have := GoMap.WF.get_of_mem r.wf (k := e.1) (v := e.2) he
            rw [hek, hn] at this
            cases this
          · intro x hx
            rcases List.mem_cons.1 hx with rfl | hx
            · exact hkq
            · obtain ⟨e, he, rfl⟩ := List.mem_map.1 hx
              apply r.keys
              rw [GoMap.WF.get_of_mem r.wf (k := e.1) (v := e.2) he]
              rfl
        have hr := r.room
        simp only [List.length_cons, List.length_map] at this
        omega
      rw [hfq]
      obtain ⟨c, hc⟩ := LRU.put_room h.tells h.linked hroom
      have t := LRU.put_to h.tells h.linked hc
      simp only [hc]
      refine Roomy.goes (w := { w with cache := c }) ⟨?_, t.wf r.wf, ?_, r.calls⟩ (by simp)
      · rw [show c.cap = w.cache.cap from t.cap]; exact r.room
      · intro k hk'
        rcases t.keys k hk' with rfl | e
        · exact hkq
        · exact r.keys k e
  · exact r

theorem Roomy.run {keys : List Str} {w : MatchWorld} (r : w.Roomy keys) (h : w.Inv ans qs)
    (hf : ∀ q ∈ qs, f q.1 q.2 = ans (cacheKey q.1 q.2)) (hk : ∀ q ∈ qs, cacheKey q.1 q.2 ∈ keys) (sched : List Nat) :
    (w.run f sched).Roomy keys := by
  induction sched generalizing w with
  | nil => exact r
  | cons i sched ih => exact ih (r.step h hf hk i) (h.step hf i)

theorem start_roomy {keys : List Str} {cap : Nat} (h : keys.length ≤ cap) : (start cap qs).Roomy keys := by
  refine ⟨h, GoMap.WF.nil, ?_, ?_⟩
  · intro k hk
    simp [start, LRU.new] at hk
  · simp [start]

/-! ## Everybody gets on -/

/-- How far a call has come. -/
def callRank : MatchCall → Nat
  | .asking _ _ => 0
  | .moving _ _ _ _ todo => 8 - todo.length
  | .missed _ _ => 9
  | .done _ | .crashed => 10

theorem goes_get (w : MatchWorld) (i j : Nat) (x : MatchCall) :
    (w.goes i x).calls[j]? = if i = j then w.calls[j]?.map (fun _ => x) else w.calls[j]? := by
  simp only [MatchWorld.goes, List.getElem?_set]
  by_cases e : i = j
  · subst e
    simp only [if_true]
    split
    · next h => rw [List.getElem?_eq_getElem h]; rfl
    · next h => rw [List.getElem?_eq_none (by omega)]; rfl
  · simp [e]

theorem goes_at {w : MatchWorld} {i : Nat} {c : MatchCall} (h : w.calls[i]? = some c) (x : MatchCall) :
    (w.goes i x).calls[i]? = some x := by
  rw [goes_get]
  simp [h]

theorem step_other (w : MatchWorld) {i j : Nat} (e : i ≠ j) : (w.step f i).calls[j]? = w.calls[j]? := by
  unfold MatchWorld.step
  split
  · split <;> (rw [goes_get]; simp [e])
  · split <;> (rw [goes_get]; simp [e])
  · split <;> (rw [goes_get]; simp [e])
  · split
    · rfl
    · split <;> (rw [goes_get]; simp [e])
  · rfl

/-- Nobody falls back, and call `i` gets on unless its `Put` has to wait. -/
theorem Inv.getsOn {w : MatchWorld} (h : w.Inv ans qs) (f : Str → Str → Bool) (i j : Nat) (c : MatchCall)
    (hj : w.calls[j]? = some c) : ∃ c', (w.step f i).calls[j]? = some c' ∧ callRank c ≤ callRank c' ∧
      (i = j → callRank c < 9 → callRank c < callRank c') ∧
      (i = j → (∀ x ∈ w.calls, 9 ≤ callRank x) → callRank c' = 10) := by
  by_cases e : i = j
  · subst e
    unfold MatchWorld.step
    cases c with
    | asking s p =>
      simp only [hj]
      split
      · exact ⟨_, goes_at hj _, by simp [callRank], by simp [callRank, removeMicros, addMicros],
          fun _ hr => absurd (hr _ (List.mem_of_getElem? hj)) (by simp [callRank])⟩
      · exact ⟨_, goes_at hj _, by simp [callRank], by simp [callRank],
          fun _ hr => absurd (hr _ (List.mem_of_getElem? hj)) (by simp [callRank])⟩
    | moving s p n loc todo =>
      obtain ⟨q, q1, a1, a2, a3, a4, k, k1, k2, k3⟩ := h.calls i _ hj
      have hl : todo.length ≤ 7 := by rw [k2]; simp [removeMicros, addMicros]
      have hr : ¬ ∀ x ∈ w.calls, 9 ≤ callRank x := fun hr => absurd (hr _ (List.mem_of_getElem? hj)) (by
        simp only [callRank]; omega)
      cases todo with
      | nil =>
        simp only [hj, a4]
        exact ⟨_, goes_at hj _, by simp [callRank], by simp [callRank], fun _ h => absurd h hr⟩
      | cons mi rest =>
        obtain ⟨h', loc', e, -⟩ := Micro.exec_fine (h.fine hj)
        simp only [hj, e]
        simp only [List.length_cons] at hl
        exact ⟨_, goes_at (w := { w with cache := { w.cache with heap := h' } }) hj _, by simp only [callRank, List.length_cons]; omega,
          fun _ _ => by simp only [callRank, List.length_cons]; omega, fun _ h => absurd h hr⟩
    | missed s p =>
      simp only [hj]
      by_cases hr : w.calls.any MatchCall.reading = true
      · simp only [if_pos hr]
        refine ⟨_, hj, Nat.le_refl _, by simp [callRank], fun _ h9 => ?_⟩
        exfalso
        obtain ⟨x, hx, hx'⟩ := List.any_eq_true.1 hr
        have := h9 x hx
        cases x with
        | moving s p n loc todo => simp only [callRank] at this; omega
        | _ => cases hx'
      · simp only [if_neg hr]
        split
        · next c _ => exact ⟨_, goes_at (w := { w with cache := c }) hj _, by simp [callRank], by simp [callRank], fun _ _ => rfl⟩
        · exact ⟨_, goes_at hj _, by simp [callRank], by simp [callRank], fun _ _ => rfl⟩
    | done b =>
      simp only [hj]
      exact ⟨_, rfl, Nat.le_refl _, by simp [callRank], fun _ _ => rfl⟩
    | crashed =>
      simp only [hj]
      exact ⟨_, rfl, Nat.le_refl _, by simp [callRank], fun _ _ => rfl⟩
  · exact ⟨c, (step_other w e).trans hj, Nat.le_refl _, fun e' => absurd e' e, fun e' => absurd e' e⟩

theorem run_append (w : MatchWorld) (a b : List Nat) : w.run f (a ++ b) = (w.run f a).run f b := by
  induction a generalizing w with
  | nil => rfl
  | cons i a ih => exact ih _

/-- All calls have come so far. -/
def Far (w : MatchWorld) (r : Nat) : Prop := ∀ x ∈ w.calls, r ≤ callRank x

theorem Inv.far_step {w : MatchWorld} (h : w.Inv ans qs) {r : Nat} (hr : w.Far r) (i : Nat) : (w.step f i).Far r := by
  intro x hx
  obtain ⟨j, hj⟩ := List.mem_iff_getElem?.1 hx
  have hl : (w.step f i).calls.length = w.calls.length := by
    unfold MatchWorld.step
    split
    · split <;> simp [MatchWorld.goes]
    · split <;> simp [MatchWorld.goes]
    · split <;> simp [MatchWorld.goes]
    · split
      · rfl
      · split <;> simp [MatchWorld.goes]
    · rfl
  have hlt : j < w.calls.length := by
    rw [← hl]
    exact (List.getElem?_eq_some_iff.1 hj).1
  obtain ⟨c', e1, e2, -⟩ := h.getsOn f i j _ (List.getElem?_eq_getElem hlt)
  rw [hj] at e1
  cases e1
  exact Nat.le_trans (hr _ (List.getElem_mem hlt)) e2

/-- A round in which call `j` takes part brings it on. -/
theorem Inv.round {w : MatchWorld} (h : w.Inv ans qs) (hf : ∀ q ∈ qs, f q.1 q.2 = ans (cacheKey q.1 q.2)) {r : Nat}
    (h9 : r ≤ 9) (hr : w.Far r) (sched : List Nat) (j : Nat) (c : MatchCall) (hj : w.calls[j]? = some c) :
    ∃ c', (w.run f sched).calls[j]? = some c' ∧ callRank c ≤ callRank c' ∧ (j ∈ sched → r + 1 ≤ callRank c') := by
  induction sched generalizing w c with
  | nil => exact ⟨c, hj, Nat.le_refl _, by simp⟩
  | cons i sched ih =>
    obtain ⟨c1, e1, e2, e3, e4⟩ := h.getsOn f i j c hj
    obtain ⟨c2, f1, f2, f3⟩ := ih (h.step hf i) (h.far_step hr i) c1 e1
    refine ⟨c2, f1, Nat.le_trans e2 f2, fun hm => ?_⟩
    rcases List.mem_cons.1 hm with e | hm
    · refine Nat.le_trans ?_ f2
      have hc := hr _ (List.mem_of_getElem? hj)
      rcases Nat.lt_or_ge (callRank c) 9 with h1 | h1
      · have := e3 e.symm h1
        omega
      · rcases Nat.lt_or_ge r 9 with h2 | h2
        · omega
        · have : r = 9 := by omega
          subst this
          have := e4 e.symm hr
          omega
    · exact f3 hm

theorem Inv.rounds {w : MatchWorld} (h : w.Inv ans qs) (hf : ∀ q ∈ qs, f q.1 q.2 = ans (cacheKey q.1 q.2)) {r : Nat}
    (hr : w.Far r) (rounds : List (List Nat)) (hlen : r + rounds.length ≤ 10)
    (hall : ∀ s ∈ rounds, ∀ i < qs.length, i ∈ s) : (w.run f rounds.flatten).Far (r + rounds.length) := by
  induction rounds generalizing w r with
  | nil => exact hr
  | cons s rounds ih =>
    simp only [List.length_cons] at hlen
    simp only [List.flatten_cons, run_append, List.length_cons]
    have h1 := h.run hf s
    have : (w.run f s).Far (r + 1) := by
      intro x hx
      obtain ⟨j, hj⟩ := List.mem_iff_getElem?.1 hx
      have hlt : j < qs.length := by
        rw [← h1.len]
        exact (List.getElem?_eq_some_iff.1 hj).1
      have hlt' : j < w.calls.length := by rw [h.len]; exact hlt
      obtain ⟨c', e1, -, e3⟩ := h.round hf (by omega) hr s j _ (List.getElem?_eq_getElem hlt')
      rw [hj] at e1
      cases e1
      exact e3 (hall s (by simp) j hlt)
    have := ih h1 this (by omega) (fun s hs => hall s (by simp [hs]))
    rw [show r + (rounds.length + 1) = r + 1 + rounds.length by omega]
    exact this

/-! ## One `Get` at a time -/

/-- The list is in order, or will be when the only `Get` is done. -/
def Tidy (w : MatchWorld) : Prop :=
  1 ≤ w.cache.cap ∧ MatchCall.crashed ∉ w.calls ∧
  (((∀ c ∈ w.calls, c.reading = false) ∧ ∃ nodes l, w.cache.Rep nodes l) ∨
   ∃ (i : Nat) (s p : Str) (n : Nat) (loc : Option Nat) (todo : List Micro) (h' : LHeap Str Bool) (nodes : List Nat) (l : Entries Str Bool),
     w.calls[i]? = some (.moving s p n loc todo) ∧ runMicros n w.cache.heap loc todo = .ok h' ∧
     ({ w.cache with heap := h' } : LRU Str Bool).Rep nodes l)

omit [DecidableEq K] in
theorem runMicros_both {n : Nat} {h h1 : LHeap K V} (e : runMicros n h none removeMicros = .ok h1) :
    runMicros n h none (removeMicros ++ addMicros) = runMicros n h1 none addMicros := by
  obtain ⟨-, hp, hn⟩ := runMicros_unlink e
  obtain ⟨a, ha⟩ := Option.ne_none_iff_exists'.1 hp
  simp only [runMicros, removeMicros, Micro.exec, ha, Res.bind_ok, List.cons_append, List.nil_append] at e ⊢
  cases hb : ((h.setNext a (h n).next) n).next with
  | none => rw [hb] at e; simp at e
  | some b =>
    rw [hb] at e
    simp only [Res.bind_ok, Res.ok.injEq] at e ⊢
    rw [e]

theorem Tidy.start {cap : Nat} (hc : 1 ≤ cap) : (MatchWorld.start cap qs).Tidy := by
  refine ⟨hc, by simp [MatchWorld.start], Or.inl ⟨?_, [], [], LRU.new_rep cap⟩⟩
  intro c h
  simp only [MatchWorld.start, List.mem_map] at h
  obtain ⟨q, -, rfl⟩ := h
  rfl

theorem goes_none {w : MatchWorld} {i : Nat} {y : MatchCall} (h : ∀ c ∈ w.calls, c.reading = false) (hy : y.reading = false) :
    ∀ c ∈ (w.goes i y).calls, c.reading = false := by
  intro c hc
  rcases mem_goes hc with rfl | hc
  · exact hy
  · exact h c hc

theorem goes_crashed {w : MatchWorld} {i : Nat} {y : MatchCall} (h : MatchCall.crashed ∉ w.calls) (hy : y ≠ .crashed) :
    MatchCall.crashed ∉ (w.goes i y).calls := fun e => (mem_goes e).elim (fun e => hy e.symm) h

theorem Tidy.step {w : MatchWorld} (t : w.Tidy) (h : w.Inv ans qs) (one : w.Single) (i : Nat)
    (one' : (w.step f i).Single) : (w.step f i).Tidy := by
  obtain ⟨hc, hcr, t⟩ := t
  rcases t with ⟨hnone, nodes, l, rep⟩ | ⟨k, s0, p0, n0, loc0, todo0, h', nodes, l, hk, hrun, rep⟩
  · unfold MatchWorld.step
    split
    · next s p hi =>
      split
      · next n hn =>
        obtain ⟨v, h1, h2, nodes', -, e1, e2, -, -, e3⟩ := rep.relink hn
        refine ⟨hc, goes_crashed hcr (by simp), Or.inr ⟨i, s, p, n, none, _, h2, nodes', _, goes_at hi _,
          (runMicros_both e1).trans e2, e3 w.cache.m rep.wf rfl (fun _ => rfl)⟩⟩
      · exact ⟨hc, goes_crashed hcr (by simp), Or.inl ⟨goes_none hnone rfl, nodes, l, rep⟩⟩
    · next s p n loc mi rest hi => exact absurd (hnone _ (List.mem_of_getElem? hi)) (by simp [MatchCall.reading])
    · next s p n loc hi => exact absurd (hnone _ (List.mem_of_getElem? hi)) (by simp [MatchCall.reading])
    · next s p hi =>
      split
      · exact ⟨hc, hcr, Or.inl ⟨hnone, nodes, l, rep⟩⟩
      · obtain ⟨c', nodes', e1, e2, e3⟩ := rep.put hc (cacheKey s p) (f s p)
        simp only [e1]
        exact ⟨by simp only [MatchWorld.goes, e3]; exact hc, goes_crashed (w := { w with cache := c' }) hcr (by simp),
          Or.inl ⟨goes_none (w := { w with cache := c' }) hnone rfl, nodes', _, e2⟩⟩
    · exact ⟨hc, hcr, Or.inl ⟨hnone, nodes, l, rep⟩⟩
  · have hany : w.calls.any MatchCall.reading = true := List.any_eq_true.2 ⟨_, List.mem_of_getElem? hk, rfl⟩
    by_cases e : i = k
    · subst e
      cases todo0 with
      | cons mi rest =>
        obtain ⟨h1, loc1, e1, -⟩ := Micro.exec_fine (h.fine hk)
        simp only [runMicros, e1, Res.bind_ok] at hrun
        unfold MatchWorld.step
        simp only [hk, e1]
        exact ⟨hc, goes_crashed (w := { w with cache := { w.cache with heap := h1 } }) hcr (by simp),
          Or.inr ⟨i, s0, p0, n0, loc1, rest, h', nodes, l,
            goes_at (w := { w with cache := { w.cache with heap := h1 } }) hk _, hrun, rep⟩⟩
      | nil =>
        simp only [runMicros, Res.ok.injEq] at hrun
        subst hrun
        obtain ⟨q, q1, a1, a2, a3, a4, -⟩ := h.calls i _ hk
        unfold MatchWorld.step
        simp only [hk, a4]
        refine ⟨hc, goes_crashed hcr (by simp), Or.inl ⟨?_, nodes, l, rep⟩⟩
        intro c hcm
        obtain ⟨j, hj⟩ := List.mem_iff_getElem?.1 hcm
        rw [goes_get] at hj
        by_cases ej : i = j
        · subst ej
          simp only [if_true, hk, Option.map_some, Option.some.injEq] at hj
          subst hj
          rfl
        · simp only [ej, if_false] at hj
          cases hr : c.reading with
          | false => rfl
          | true => exact absurd (one i j _ _ hk hj rfl hr) ej
    · have hother : ∀ {x : MatchCall}, (w.goes i x).calls[k]? = some (.moving s0 p0 n0 loc0 todo0) := by
        intro x
        rw [goes_get]
        simp [e, hk]
      cases hi : w.calls[i]? with
      | none =>
        have : w.step f i = w := by unfold MatchWorld.step; simp only [hi]
        rw [this]
        exact ⟨hc, hcr, Or.inr ⟨k, s0, p0, n0, loc0, todo0, h', nodes, l, hk, hrun, rep⟩⟩
      | some c =>
        cases c with
        | asking s p =>
          cases hm : w.cache.m.get (cacheKey s p) with
          | some n =>
            exfalso
            have e2 : w.step f i = w.goes i (.moving s p n none (removeMicros ++ addMicros)) := by
              unfold MatchWorld.step; simp only [hi, hm]
            rw [e2] at one'
            exact e (one' i k _ _ (goes_at hi _) hother rfl rfl)
          | none =>
            have e2 : w.step f i = w.goes i (.missed s p) := by
              unfold MatchWorld.step; simp only [hi, hm]
            rw [e2]
            exact ⟨hc, goes_crashed hcr (by simp), Or.inr ⟨k, s0, p0, n0, loc0, todo0, h', nodes, l, hother, hrun, rep⟩⟩
        | moving s p n loc todo => exact absurd (one i k _ _ hi hk rfl rfl) e
        | missed s p =>
          have : w.step f i = w := by unfold MatchWorld.step; simp only [hi, if_pos hany]
          rw [this]
          exact ⟨hc, hcr, Or.inr ⟨k, s0, p0, n0, loc0, todo0, h', nodes, l, hk, hrun, rep⟩⟩
        | done b =>
          have : w.step f i = w := by unfold MatchWorld.step; simp only [hi]
          rw [this]
          exact ⟨hc, hcr, Or.inr ⟨k, s0, p0, n0, loc0, todo0, h', nodes, l, hk, hrun, rep⟩⟩
        | crashed => exact absurd (List.mem_of_getElem? hi) hcr

theorem Tidy.run {w : MatchWorld} (t : w.Tidy) (h : w.Inv ans qs) (hf : ∀ q ∈ qs, f q.1 q.2 = ans (cacheKey q.1 q.2))
    (sched : List Nat) (one : ∀ pre suf, sched = pre ++ suf → (w.run f pre).Single) : (w.run f sched).Tidy := by
  induction sched generalizing w with
  | nil => exact t
  | cons i sched ih =>
    refine ih (t.step h (one [] _ rfl) i (one [i] sched rfl)) (h.step hf i) ?_
    intro pre suf e
    exact one (i :: pre) suf (by rw [e]; rfl)

end MatchWorld

end Fastac
