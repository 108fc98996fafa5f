import Verif.Lemmas.RoleAlike

/-!
# C104, C105: role managers with pointers, and the order of maps
-/

namespace Fastac

/-- **C104**: any sequence of calls of a new role manager, with or without a matcher: links are added and deleted, marked as
copies or not, questions are asked, all links are listed, everything is cleared and the matcher is replaced.  In every call
maps are ranged over in any order.  No call panics, and every answer is right for what was to be remembered from the calls
before: which names and links there are, and no more.  (So it does not show that roles are objects with pointers to each
other, some of which are made for a question and taken out again.) -/
theorem c104_answers (level : Nat) (m : Option PMatcher) (xs : List ((GoMap Str Nat → GoMap Str Nat) × RoleOp))
    (ho : ∀ x ∈ xs, ∀ l, (x.1 l).Perm l) :
    Memory.Explains level (.none m) (xs.map Prod.snd) ((HeapRM.new level m).run xs).2 :=
  (HeapRM.Fits.new level m).run xs ho

/-- **C105 (partial)**: the order in which maps are ranged over does not show.  Twice the same calls of a new role manager,
with any two orders of the maps in every call.  If a matcher that is set on the way has no pattern that matches another
one, as far as these are names in links, then all answers are the same, up to the order of lists.

Missing: `SetMatcher` with such patterns, where this is false (`c105_fails`). -/
theorem c105_order_partial (level : Nat) (m : Option PMatcher) (xs xs' : List ((GoMap Str Nat → GoMap Str Nat) × RoleOp))
    (ho : ∀ x ∈ xs, ∀ l, (x.1 l).Perm l) (ho' : ∀ x ∈ xs', ∀ l, (x.1 l).Perm l) (he : xs.map Prod.snd = xs'.map Prod.snd)
    (hf : ∀ m', .setMatcher (some m') ∈ xs.map Prod.snd → m'.FlatOn (NamedIn (xs.map Prod.snd))) {i : Nat}
    (hi : i < xs.length) : ∃ a b, ((HeapRM.new level m).run xs).2[i]? = some (some a) ∧
      ((HeapRM.new level m).run xs').2[i]? = some (some b) ∧ a.Same b := by
  have f := HeapRM.Fits.new level m
  have key : ∀ (n : Nat) (s : Memory) (ys : List RoleOp) (as : List (Option RoleAns)), Memory.Explains n s ys as →
      ∀ i : Nat, i < ys.length → ∃ a, as[i]? = some (some a) := by
    intro n s ys as h
    induction h with
    | nil => intro i hi; cases hi
    | cons _ _ _ ih =>
      rintro (_ | i) hi
      · exact ⟨_, rfl⟩
      · exact ih i (Nat.lt_of_succ_lt_succ hi)
  obtain ⟨a, ha⟩ := key _ _ _ _ (c104_answers level m xs ho) i (by simpa using hi)
  obtain ⟨b, hb, hs⟩ := HeapRM.Fits.run_alike (K := NamedIn (xs.map Prod.snd)) xs xs' f f rfl (RM.Alike.refl f.mem.inv)
    (fun _ _ e => e.elim) ho ho' (by
    rintro ⟨ord, x⟩ hx
    have hx' : x ∈ xs.map Prod.snd := List.mem_map_of_mem hx
    cases x with
    | add u r ds => exact ⟨⟨⟨u, r, ds, hx', .inl rfl⟩, ⟨u, r, ds, hx', .inr rfl⟩⟩, trivial⟩
    | setMatcher m' =>
      cases m' with
      | none => exact ⟨trivial, trivial⟩
      | some m' => exact ⟨trivial, hf m' hx'⟩
    | _ => exact ⟨trivial, trivial⟩) he i a ha
  exact ⟨a, b, ha, hb, hs⟩

/-! ## Examples -/

namespace RoleObjectsExample

def ann : Str := s% "ann"
def bob : Str := s% "bob"
def dev : Str := s% "dev"
def anyD : Str := s% "d*"
def anyDE : Str := s% "d*e"

/-- `d*` matches what begins with a d, `d*e` what also ends with an e; both are patterns, and `d*e` matches `d*`. -/
def globs : PMatcher where
  isPattern n := n.contains '*'
  «match» n p := n.head? == some 'd' && (p == anyD || (p == anyDE && n.getLast? == some 'e'))

/-- Calls with maps in the order `o`. -/
def inOrder (o : GoMap Str Nat → GoMap Str Nat) (xs : List RoleOp) : List ((GoMap Str Nat → GoMap Str Nat) × RoleOp) :=
  xs.map fun x => (o, x)

theorem inOrder_perm {o : GoMap Str Nat → GoMap Str Nat} (h : ∀ l, (o l).Perm l) (xs : List RoleOp) :
    ∀ x ∈ inOrder o xs, ∀ l, (x.1 l).Perm l := by
  intro x hx l
  obtain ⟨_, _, rfl⟩ := List.mem_map.1 hx
  exact h l

theorem inOrder_ops (o : GoMap Str Nat → GoMap Str Nat) (xs : List RoleOp) : (inOrder o xs).map Prod.snd = xs := by
  unfold inOrder
  rw [List.map_map]
  exact List.map_id _

def day : List RoleOp := [
  .add ann anyD [], .add dev bob [redundantRole], .add dev ann [], .hasLink ann bob, .getRoles ann, .getUsers (s% "dave"),
  .hasLink (s% "dave") bob, .getUsers bob, .range, .add dev bob [], .del dev bob [], .add dev bob [], .range,
  .del dev bob [redundantRole], .add dev bob [], .range, .setMatcher none, .hasLink ann bob, .hasLink dev bob, .clear,
  .getUsers bob, .add ann anyD [], .hasLink ann dev, .setMatcher (some globs), .hasLink ann dev, .hasLink dev ann]

/-- What is listed and asked with pattern roles, marks and a new matcher; the maps in reverse order. -/
example : ((HeapRM.new 10 (some globs)).run (inOrder List.reverse day)).2 = [
    some (.bool true), some (.bool true), some (.bool true), some (.bool true), some (.names [anyD, dev]),
    some (.names [ann]), some (.bool false), some (.names [dev]), some (.links [(dev, ann), (ann, anyD)]),
    some (.bool false), some (.bool true), some (.bool true), some (.links [(dev, ann), (ann, anyD)]), some (.bool true),
    some (.bool true), some (.links [(dev, bob), (dev, ann), (ann, anyD)]), some .done, some (.bool false),
    some (.bool true), some .done, some (.names []), some (.bool true), some (.bool false), some .done, some (.bool true),
    some (.bool false)] := by decide +kernel

/-- More of what is remembered and forgotten. -/
def evening : List RoleOp := [
  -- a link that is there can be marked later
  .add ann bob [], .add ann bob [redundantRole], .range,
  -- after Clear no pattern is left
  .add ann anyD [], .clear, .hasLink dev bob,
  -- a name that two patterns cover
  .add anyD ann [], .add anyDE bob [], .getRoles (s% "dave"),
  -- a question about a name or a pattern leaves nothing behind
  .clear, .add ann anyD [], .getUsers (s% "dave"), .getRoles (s% "dora"), .hasLink (s% "dan") (s% "dirk"), .getRoles ann,
  .clear, .getRoles anyD, .getRoles dev,
  -- a pattern as the role that is asked about
  .add ann dev [], .hasLink ann anyD]

example : ((HeapRM.new 10 (some globs)).run (inOrder List.reverse evening)).2 = [
    some (.bool true), some (.bool false), some (.links []), some (.bool true), some .done, some (.bool false),
    some (.bool true), some (.bool true), some (.names [ann, bob]), some .done, some (.bool true), some (.names [ann]),
    some (.names []), some (.bool false), some (.names [anyD]), some .done, some (.names []), some (.names []),
    some (.bool true), some (.bool true)] := by decide +kernel

/-- Only one name in these links is a pattern. -/
def flatDay : List RoleOp :=
  [.add ann dev [], .add anyD bob [], .hasLink ann bob, .setMatcher (some globs), .hasLink ann bob, .getRoles dev, .range]

theorem flatDay_flat : globs.FlatOn (NamedIn flatDay) := by
  have : ∀ n, NamedIn flatDay n → n ∈ [ann, dev, anyD, bob] := by
    rintro n ⟨u, r, ds, h, e⟩
    simp only [flatDay, List.mem_cons, RoleOp.add.injEq, List.not_mem_nil, or_false, reduceCtorEq] at h
    rcases h with ⟨rfl, rfl, -⟩ | ⟨rfl, rfl, -⟩ <;> rcases e with rfl | rfl <;> simp
  intro p q hp hq
  have h1 := this p hp
  have h2 := this q hq
  clear hp hq
  have : ∀ p ∈ [ann, dev, anyD, bob], ∀ q ∈ [ann, dev, anyD, bob], globs.isPattern p = true → globs.isPattern q = true →
      p ≠ q → globs.match p q = false := by decide
  exact this p h1 q h2

example : ∀ {i : Nat}, i < 7 → ∃ a b, ((HeapRM.new 10 none).run (inOrder id flatDay)).2[i]? = some (some a) ∧
    ((HeapRM.new 10 none).run (inOrder List.reverse flatDay)).2[i]? = some (some b) ∧ a.Same b := fun h =>
  c105_order_partial 10 none _ _ (inOrder_perm (fun _ => .refl _) _) (inOrder_perm List.reverse_perm _)
    (by rw [inOrder_ops, inOrder_ops]) (fun m' hm => by
      rw [inOrder_ops] at hm ⊢
      simp only [flatDay, List.mem_cons, RoleOp.setMatcher.injEq, Option.some.injEq, List.not_mem_nil, or_false,
        reduceCtorEq, false_or] at hm
      rw [hm]
      exact flatDay_flat) (by simpa [inOrder, flatDay] using h)

/-- The answers are not those of an empty role manager. -/
example : ((HeapRM.new 10 none).run (inOrder id flatDay)).2 = [some (.bool true), some (.bool true), some (.bool false),
    some .done, some (.bool true), some (.names [bob]), some (.links [(ann, dev), (anyD, bob)])] := by decide +kernel

/-- The links `ann → d*` and `d*e → bob` are there when the matcher is set.  Where `d*e` comes first, `d*` covers it, and
so `ann` has the role `bob`. -/
def newMatcher : List RoleOp := [.add ann anyD [], .add anyDE bob [], .setMatcher (some globs), .hasLink ann bob]

/-- C105 without the condition on patterns is false: whether `ann` has a role depends on the order in which `SetMatcher`
comes across the links. -/
theorem c105_fails : ¬ ∀ (level : Nat) (m : Option PMatcher)
    (xs xs' : List ((GoMap Str Nat → GoMap Str Nat) × RoleOp)), (∀ x ∈ xs, ∀ l, (x.1 l).Perm l) →
    (∀ x ∈ xs', ∀ l, (x.1 l).Perm l) → xs.map Prod.snd = xs'.map Prod.snd → ∀ {i : Nat}, i < xs.length →
    ∃ a b, ((HeapRM.new level m).run xs).2[i]? = some (some a) ∧ ((HeapRM.new level m).run xs').2[i]? = some (some b) ∧
      a.Same b := by
  intro h
  obtain ⟨a, b, e1, e2, e3⟩ := h 10 none (inOrder id newMatcher) (inOrder List.reverse newMatcher)
    (inOrder_perm (fun _ => .refl _) _) (inOrder_perm List.reverse_perm _) (by rw [inOrder_ops, inOrder_ops]) (i := 3)
    (by simp [inOrder, newMatcher])
  have f1 : ((HeapRM.new 10 none).run (inOrder id newMatcher)).2[3]? = some (some (.bool false)) := by decide +kernel
  have f2 : ((HeapRM.new 10 none).run (inOrder List.reverse newMatcher)).2[3]? = some (some (.bool true)) := by
    decide +kernel
  rw [f1] at e1
  rw [f2] at e2
  cases e1
  cases e2
  cases e3

end RoleObjectsExample

end Fastac
