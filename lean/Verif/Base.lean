/-!
# Basic vocabulary of the model

Go strings, `strings.Join` / `strings.Split`, Go maps, and the possible outcomes of a Go call.
-/

open Lean in
/-- `s% "abc"` is the character list `['a','b','c']`. -/
macro "s%" s:str : term => do
  let cs := s.getString.toList.map (fun c => Lean.Syntax.mkCharLit c)
  `([$(cs.toArray),*])

namespace Fastac

/-- A Go `string`, as its list of characters (invalid UTF-8 is not modelled). -/
abbrev Str := List Char

/-- A policy rule, `[]string`. -/
abbrev Rule := List Str

/-- Outcome of a Go call: a value, a returned `error` or a `panic`. -/
inductive Res (α : Type) where
  | ok (a : α)
  | err
  | panic
deriving Repr, DecidableEq

namespace Res
def bind {α β : Type} : Res α → (α → Res β) → Res β
  | ok a, f => f a
  | err, _ => err
  | panic, _ => panic

def map {α β : Type} (f : α → β) : Res α → Res β
  | ok a => ok (f a)
  | err => err
  | panic => panic

@[simp] theorem bind_ok {α β : Type} (a : α) (f : α → Res β) : (ok a).bind f = f a := rfl
@[simp] theorem bind_err {α β : Type} (f : α → Res β) : (err : Res α).bind f = err := rfl
@[simp] theorem bind_panic {α β : Type} (f : α → Res β) : (panic : Res α).bind f = panic := rfl
@[simp] theorem map_ok {α β : Type} (a : α) (f : α → β) : (ok a).map f = ok (f a) := rfl
@[simp] theorem map_err {α β : Type} (f : α → β) : (err : Res α).map f = err := rfl
@[simp] theorem map_panic {α β : Type} (f : α → β) : (panic : Res α).map f = panic := rfl
end Res

/-! ## `strings.Join` and `strings.Split` -/

/-- `strings.Join(elems, sep)`. -/
def join (sep : Str) : List Str → Str
  | [] => []
  | [x] => x
  | x :: y :: r => x ++ sep ++ join sep (y :: r)

/-- `strings.Split(s, sep)` for a separator of one character (the only use in the code base). -/
def splitC (c : Char) : Str → List Str
  | [] => [[]]
  | a :: t =>
    if a = c then [] :: splitC c t
    else match splitC c t with
      | h :: r => (a :: h) :: r
      | [] => [[a]]

theorem splitC_ne_nil (c : Char) (s : Str) : splitC c s ≠ [] := by
  cases s with
  | nil => simp [splitC]
  | cons a t =>
    unfold splitC
    split
    · simp
    · split <;> simp

/-- Splitting undoes joining for a non-empty list of fields without the separator. -/
theorem splitC_join (c : Char) :
    ∀ (l : List Str), l ≠ [] → (∀ f ∈ l, c ∉ f) → splitC c (join [c] l) = l := by
  have key : ∀ (x : Str) (rest : Str), c ∉ x →
      splitC c (x ++ c :: rest) = x :: splitC c rest := by
    intro x rest hx
    induction x with
    | nil => simp [splitC]
    | cons a t ih =>
      simp only [List.mem_cons, not_or] at hx
      have hne : a ≠ c := fun h => hx.1 h.symm
      rw [List.cons_append, splitC, if_neg hne, ih hx.2]
  have key0 : ∀ (x : Str), c ∉ x → splitC c x = [x] := by
    intro x hx
    induction x with
    | nil => simp [splitC]
    | cons a t ih =>
      simp only [List.mem_cons, not_or] at hx
      have hne : a ≠ c := fun h => hx.1 h.symm
      rw [splitC, if_neg hne, ih hx.2]
  intro l
  induction l with
  | nil => intro h; exact absurd rfl h
  | cons x r ih =>
    intro _ hf
    cases r with
    | nil => simpa [join] using key0 x (hf x (by simp))
    | cons y r' =>
      have : join [c] (x :: y :: r') = x ++ c :: join [c] (y :: r') := by
        simp [join]
      rw [this, key x _ (hf x (by simp)), ih (by simp) (fun f hfm => hf f (by simp [hfm]))]

theorem join_splitC (c : Char) : ∀ s : Str, join [c] (splitC c s) = s := by
  intro s
  induction s with
  | nil => simp [splitC, join]
  | cons a t ih =>
    unfold splitC
    split
    · rename_i h
      subst h
      cases h2 : splitC a t with
      | nil => exact absurd h2 (splitC_ne_nil a t)
      | cons h r => simp only [join, List.nil_append, List.singleton_append]; rw [← h2, ih]
    · cases h2 : splitC c t with
      | nil => exact absurd h2 (splitC_ne_nil c t)
      | cons h r =>
        rw [h2] at ih
        cases r with
        | nil => simpa [join] using ih
        | cons y r' => simp only [join, List.cons_append]; rw [← ih]; simp [join]

/-- Joining is injective on non-empty lists of separator-free fields. -/
theorem join_injective (c : Char) {l₁ l₂ : List Str} (h₁ : l₁ ≠ []) (h₂ : l₂ ≠ [])
    (f₁ : ∀ f ∈ l₁, c ∉ f) (f₂ : ∀ f ∈ l₂, c ∉ f)
    (h : join [c] l₁ = join [c] l₂) : l₁ = l₂ := by
  rw [← splitC_join c l₁ h₁ f₁, ← splitC_join c l₂ h₂ f₂, h]

theorem splitC_no_sep (c : Char) (s : Str) : ∀ f ∈ splitC c s, c ∉ f := by
  induction s with
  | nil => simp [splitC]
  | cons a t ih =>
    unfold splitC
    split
    · intro f hf
      simp only [List.mem_cons] at hf
      rcases hf with rfl | hf
      · simp
      · exact ih f hf
    · rename_i hne
      cases h2 : splitC c t with
      | nil => exact absurd h2 (splitC_ne_nil c t)
      | cons h r =>
        rw [h2] at ih
        intro f hf
        simp only [List.mem_cons] at hf
        rcases hf with rfl | hf
        · intro hc
          simp only [List.mem_cons] at hc
          rcases hc with hc | hc
          · exact hne hc.symm
          · exact ih h (by simp) hc
        · exact ih f (by simp [hf])

/-! ## Go maps -/

/-- A Go map (or `sync.Map`): an association list.  The operations below keep the keys
pairwise distinct (`GoMap.WF`). -/
abbrev GoMap (K V : Type) := List (K × V)

namespace GoMap
variable {K V : Type} [DecidableEq K]

/-- `v, ok := m[k]`. -/
def get : GoMap K V → K → Option V
  | [], _ => none
  | (k', v) :: m, k => if k' = k then some v else get m k

/-- `m[k] = v`. -/
def set : GoMap K V → K → V → GoMap K V
  | [], k, v => [(k, v)]
  | (k', v') :: m, k, v => if k' = k then (k, v) :: m else (k', v') :: set m k v

/-- `delete(m, k)`. -/
def del : GoMap K V → K → GoMap K V
  | [], _ => []
  | (k', v) :: m, k => if k' = k then del m k else (k', v) :: del m k

/-- `_, ok := m[k]`. -/
def has (m : GoMap K V) (k : K) : Bool := (m.get k).isSome

/-- The keys are pairwise distinct. -/
def WF (m : GoMap K V) : Prop := (m.map Prod.fst).Nodup

@[simp] theorem get_nil (k : K) : get ([] : GoMap K V) k = none := rfl

@[simp] theorem get_set_self (m : GoMap K V) (k : K) (v : V) : (m.set k v).get k = some v := by
  induction m with
  | nil => simp [set, get]
  | cons p m ih =>
    obtain ⟨k', v'⟩ := p
    unfold set
    split
    · simp [get]
    · rename_i h; simp [get, h, ih]

theorem get_set_ne (m : GoMap K V) {k k' : K} (v : V) (h : k' ≠ k) :
    (m.set k v).get k' = m.get k' := by
  induction m with
  | nil => simp [set, get, Ne.symm h]
  | cons p m ih =>
    obtain ⟨k₀, v₀⟩ := p
    unfold set
    split
    · rename_i h0; subst h0; simp [get, Ne.symm h]
    · simp [get, ih]

theorem get_set (m : GoMap K V) (k k' : K) (v : V) :
    (m.set k v).get k' = if k = k' then some v else m.get k' := by
  split
  · rename_i h; subst h; simp
  · rename_i h; exact get_set_ne m v (Ne.symm h)

@[simp] theorem get_del_self (m : GoMap K V) (k : K) : (m.del k).get k = none := by
  induction m with
  | nil => rfl
  | cons p m ih =>
    obtain ⟨k', v'⟩ := p
    unfold del
    split
    · exact ih
    · rename_i h; simp [get, h, ih]

theorem get_del_ne (m : GoMap K V) {k k' : K} (h : k' ≠ k) : (m.del k).get k' = m.get k' := by
  induction m with
  | nil => rfl
  | cons p m ih =>
    obtain ⟨k₀, v₀⟩ := p
    unfold del
    split
    · rename_i h0; subst h0; simp [get, Ne.symm h, ih]
    · simp [get, ih]

theorem get_del (m : GoMap K V) (k k' : K) :
    (m.del k).get k' = if k = k' then none else m.get k' := by
  split
  · rename_i h; subst h; simp
  · rename_i h; exact get_del_ne m (Ne.symm h)

theorem mem_of_get {m : GoMap K V} {k : K} {v : V} (h : m.get k = some v) : (k, v) ∈ m := by
  induction m with
  | nil => simp at h
  | cons p m ih =>
    obtain ⟨k', v'⟩ := p
    unfold get at h
    split at h
    · rename_i hk; subst hk; cases h; simp
    · exact List.mem_cons_of_mem _ (ih h)

theorem get_eq_none_iff {m : GoMap K V} {k : K} : m.get k = none ↔ ∀ v, (k, v) ∉ m := by
  induction m with
  | nil => simp
  | cons p m ih =>
    obtain ⟨k', v'⟩ := p
    unfold get
    split
    · rename_i hk; subst hk
      simp only [reduceCtorEq, false_iff]
      intro h; exact h v' (by simp)
    · rename_i hk
      rw [ih]
      constructor
      · intro h v hm
        simp only [List.mem_cons, Prod.mk.injEq] at hm
        rcases hm with ⟨rfl, _⟩ | hm
        · exact hk rfl
        · exact h v hm
      · intro h v hm; exact h v (by simp [hm])

theorem WF.get_of_mem {m : GoMap K V} (w : m.WF) {k : K} {v : V} (h : (k, v) ∈ m) :
    m.get k = some v := by
  induction m with
  | nil => simp at h
  | cons p m ih =>
    obtain ⟨k', v'⟩ := p
    unfold WF at w
    simp only [List.map_cons, List.nodup_cons] at w
    simp only [List.mem_cons, Prod.mk.injEq] at h
    unfold get
    rcases h with ⟨rfl, rfl⟩ | h
    · simp
    · have : k' ≠ k := by
        intro hk; subst hk
        exact w.1 (List.mem_map.2 ⟨(k', v), h, rfl⟩)
      simp [this]; exact ih w.2 h

theorem WF.mem_iff {m : GoMap K V} (w : m.WF) {k : K} {v : V} :
    (k, v) ∈ m ↔ m.get k = some v := ⟨w.get_of_mem, mem_of_get⟩

theorem mem_keys_iff {m : GoMap K V} {k : K} : k ∈ m.map Prod.fst ↔ (m.get k).isSome := by
  rw [Option.isSome_iff_ne_none, ne_eq, get_eq_none_iff]
  simp only [List.mem_map, Prod.exists, exists_and_right, exists_eq_right, Classical.not_forall,
    Classical.not_not]

omit [DecidableEq K] in
theorem WF.nil : WF ([] : GoMap K V) := by simp [WF]

theorem keys_set_subset (m : GoMap K V) (k : K) (v : V) :
    ∀ k' ∈ (m.set k v).map Prod.fst, k' = k ∨ k' ∈ m.map Prod.fst := by
  intro k' h
  by_cases hk : k' = k
  · exact Or.inl hk
  · right
    rw [mem_keys_iff] at h ⊢
    rwa [get_set_ne _ _ hk] at h

theorem WF.set {m : GoMap K V} (w : m.WF) (k : K) (v : V) : (m.set k v).WF := by
  induction m with
  | nil => simp [GoMap.set, WF]
  | cons p m ih =>
    obtain ⟨k', v'⟩ := p
    have w' := w
    unfold WF at w
    simp only [List.map_cons, List.nodup_cons] at w
    unfold GoMap.set
    split
    · rename_i hk; subst hk; exact w'
    · rename_i hk
      unfold WF
      simp only [List.map_cons, List.nodup_cons]
      refine ⟨?_, ih w.2⟩
      intro hm
      rcases keys_set_subset m k v _ hm with h | h
      · exact hk h
      · exact w.1 h

theorem del_sublist (m : GoMap K V) (k : K) : (m.del k).Sublist m := by
  induction m with
  | nil => simp [del]
  | cons p m ih =>
    obtain ⟨k', v'⟩ := p
    unfold del
    split
    · exact List.Sublist.cons _ ih
    · exact List.Sublist.cons_cons _ ih

theorem WF.del {m : GoMap K V} (w : m.WF) (k : K) : (m.del k).WF :=
  List.Nodup.sublist (List.Sublist.map _ (del_sublist m k)) w

theorem mem_del_iff {m : GoMap K V} {k k' : K} {v : V} :
    (k', v) ∈ m.del k ↔ k' ≠ k ∧ (k', v) ∈ m := by
  induction m with
  | nil => simp [del]
  | cons p m ih =>
    obtain ⟨k₀, v₀⟩ := p
    unfold del
    split
    · rename_i h; subst h
      rw [ih]
      constructor
      · rintro ⟨h1, h2⟩; exact ⟨h1, List.mem_cons_of_mem _ h2⟩
      · rintro ⟨h1, h2⟩
        simp only [List.mem_cons, Prod.mk.injEq] at h2
        rcases h2 with ⟨rfl, _⟩ | h2
        · exact absurd rfl h1
        · exact ⟨h1, h2⟩
    · rename_i h
      simp only [List.mem_cons, Prod.mk.injEq, ih]
      constructor
      · rintro (⟨rfl, rfl⟩ | ⟨h1, h2⟩)
        · exact ⟨h, Or.inl ⟨rfl, rfl⟩⟩
        · exact ⟨h1, Or.inr h2⟩
      · rintro ⟨h1, h2 | h2⟩
        · exact Or.inl h2
        · exact Or.inr ⟨h1, h2⟩

theorem length_set (m : GoMap K V) (k : K) (v : V) :
    (m.set k v).length = if m.has k then m.length else m.length + 1 := by
  induction m with
  | nil => simp [set, has, get]
  | cons p m ih =>
    obtain ⟨k', v'⟩ := p
    unfold set has get
    split
    · simp
    · simp only [List.length_cons, ih]; unfold has; split <;> rfl

theorem set_of_get_none {m : GoMap K V} {k : K} (v : V) (h : m.get k = none) :
    m.set k v = m ++ [(k, v)] := by
  induction m with
  | nil => rfl
  | cons p m ih =>
    obtain ⟨k', v'⟩ := p
    unfold get at h
    split at h
    · simp at h
    · rename_i hk; simp [set, hk, ih h]

theorem del_of_get_none {m : GoMap K V} {k : K} (h : m.get k = none) : m.del k = m := by
  induction m with
  | nil => rfl
  | cons p m ih =>
    obtain ⟨k', v'⟩ := p
    unfold get at h
    split at h
    · simp at h
    · rename_i hk; simp [del, hk, ih h]

omit [DecidableEq K] in
theorem WF.perm {m m' : GoMap K V} (w : m.WF) (p : m'.Perm m) : m'.WF :=
  (List.Perm.nodup_iff (p.map Prod.fst)).2 w

theorem WF.get_perm {m m' : GoMap K V} (w : m.WF) (p : m'.Perm m) (k : K) : m'.get k = m.get k := by
  cases h : m.get k with
  | none =>
    rw [get_eq_none_iff] at h ⊢
    intro v hv; exact h v (p.mem_iff.1 hv)
  | some v =>
    exact (w.perm p).get_of_mem (p.mem_iff.2 (mem_of_get h))

end GoMap

end Fastac
