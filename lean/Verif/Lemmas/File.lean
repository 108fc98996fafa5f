import Verif.Spec.File
import Verif.Lemmas.Storage

/-!
# Lemmas on the file format
-/

namespace Fastac

/-! ## One line -/

theorem csv_bare (g : Str) (hg : ∀ c ∈ g, c ≠ ',' ∧ c ≠ '"') (fs : List Str) (rest : Str) :
    ∀ acc, csvFields (.bare acc) fs (g ++ ',' :: rest) = csvFields .start (fs ++ [acc ++ g]) rest := by
  induction g with
  | nil => intro acc; simp [csvFields]
  | cons c g ih =>
    intro acc
    obtain ⟨h1, h2⟩ := hg c (by simp)
    rw [List.cons_append, csvFields, if_neg h1, if_neg h2, ih (fun d hd => hg d (by simp [hd]))]
    simp

theorem csv_bare_end (g : Str) (hg : ∀ c ∈ g, c ≠ ',' ∧ c ≠ '"') (fs : List Str) :
    ∀ acc, csvFields (.bare acc) fs g = .ok (fs ++ [acc ++ g]) := by
  induction g with
  | nil => intro acc; simp [csvFields]
  | cons c g ih =>
    intro acc
    obtain ⟨h1, h2⟩ := hg c (by simp)
    rw [csvFields, if_neg h1, if_neg h2, ih (fun d hd => hg d (by simp [hd]))]
    simp

theorem csv_field (f : Str) (hf : ∀ c ∈ f, c ≠ ',' ∧ c ≠ '"') (hl : ∀ c, f.head? = some c → isSpace c = false)
    (fs : List Str) (rest : Str) :
    csvFields .start fs (f ++ ',' :: rest) = csvFields .start (fs ++ [f]) rest := by
  cases f with
  | nil =>
    have : isSpace ',' = false := by decide
    simp [csvFields, this]
  | cons c f =>
    obtain ⟨h1, h2⟩ := hf c (by simp)
    rw [List.cons_append, csvFields]
    simp only [hl c rfl, Bool.false_eq_true, if_false, h1, h2]
    rw [csv_bare f (fun d hd => hf d (by simp [hd]))]
    rfl

theorem csv_field_end (f : Str) (hf : ∀ c ∈ f, c ≠ ',' ∧ c ≠ '"')
    (hl : ∀ c, f.head? = some c → isSpace c = false) (fs : List Str) :
    csvFields .start fs f = .ok (fs ++ [f]) := by
  cases f with
  | nil => rfl
  | cons c f =>
    obtain ⟨h1, h2⟩ := hf c (by simp)
    rw [csvFields]
    simp only [hl c rfl, Bool.false_eq_true, if_false, h1, h2]
    rw [csv_bare_end f (fun d hd => hf d (by simp [hd]))]
    rfl

theorem csv_join (r : Rule) : r ≠ [] → (∀ f ∈ r, ∀ c ∈ f, c ≠ ',' ∧ c ≠ '"') →
    (∀ f ∈ r, ∀ c, f.head? = some c → isSpace c = false) → ∀ fs,
    csvFields .start fs (join (s% ", ") r) = .ok (fs ++ r) := by
  induction r with
  | nil => intro h; exact absurd rfl h
  | cons f r ih =>
    intro _ hf hl fs
    cases r with
    | nil => exact csv_field_end f (hf f (by simp)) (hl f (by simp)) fs
    | cons f' r =>
      have e : join (s% ", ") (f :: f' :: r) = f ++ ',' :: ' ' :: join (s% ", ") (f' :: r) := by
        simp [join]
      have sp : isSpace ' ' = true := by decide
      rw [e, csv_field f (hf f (by simp)) (hl f (by simp))]
      rw [csvFields, if_pos sp, ih (by simp) (fun x hx => hf x (by simp [hx])) (fun x hx => hl x (by simp [hx]))]
      simp

theorem getLast?_append_ne {α : Type} (a b : List α) (hb : b ≠ []) : (a ++ b).getLast? = b.getLast? := by
  rw [List.getLast?_append]
  cases h : b.getLast? with
  | none => exact absurd (List.getLast?_eq_none_iff.mp h) hb
  | some x => rfl

theorem join_getLast (r : Rule) : r ≠ [] → (∀ f, r.getLast? = some f → f.getLast? ≠ some '\r') →
    (join (s% ", ") r).getLast? ≠ some '\r' := by
  induction r with
  | nil => intro h; exact absurd rfl h
  | cons f r ih =>
    intro _ h
    cases r with
    | nil => exact h f rfl
    | cons f' r =>
      have e : join (s% ", ") (f :: f' :: r) = f ++ (s% ", ") ++ join (s% ", ") (f' :: r) := rfl
      rw [e]
      by_cases hj : join (s% ", ") (f' :: r) = []
      · rw [hj, List.append_nil, getLast?_append_ne _ _ (by decide)]
        decide
      · rw [getLast?_append_ne _ _ hj]
        exact ih (by simp) (fun x hx => h x (by simpa [List.getLast?_cons_cons] using hx))

theorem join_head (f : Str) (r : Rule) (h : f.head? ≠ some '#') :
    (join (s% ", ") (f :: r)).head? ≠ some '#' := by
  cases r with
  | nil => exact h
  | cons f' r =>
    cases f with
    | nil => simp [join]
    | cons c f => simpa [join] using h

theorem Storable.join_ne {r : Rule} (h : Storable r) : join (s% ", ") r ≠ [] := by
  match r, h.ne, h.notBlank with
  | [f], _, hb => intro e; exact hb (by simpa [join] using e)
  | f :: f' :: r, _, _ => simp [join]

theorem Storable.policyLine {r : Rule} (h : Storable r) :
    policyLine (dropCR (join (s% ", ") r)) = .ok (some r) := by
  have h1 := join_getLast r h.ne h.noCR
  have h2 : (join (s% ", ") r).head? ≠ some '#' := by
    match r, h.ne, h.noComment with
    | f :: r, _, hc => exact join_head f r (hc f rfl)
  have h3 := h.join_ne
  have h4 := csv_join r h.ne (fun f hf c hc => ⟨(h.chars f hf c hc).1, (h.chars f hf c hc).2.1⟩) h.lead []
  simp only [Fastac.policyLine, csvRead, dropCR, if_neg h1, h2, h3, h4]
  simp

theorem Storable.no_nl {r : Rule} (h : Storable r) : '\n' ∉ join (s% ", ") r := by
  have key : ∀ l : List Str, (∀ f ∈ l, '\n' ∉ f) → '\n' ∉ join (s% ", ") l := by
    intro l
    induction l with
    | nil => intro _; simp [join]
    | cons f l ih =>
      intro hl
      cases l with
      | nil => exact hl f (by simp)
      | cons f' l =>
        have := ih (fun x hx => hl x (by simp [hx]))
        simp only [join, List.mem_append, not_or]
        exact ⟨⟨hl f (by simp), by decide⟩, this⟩
  exact key r (fun f hf hc => (h.chars f hf _ hc).2.2 rfl)

theorem Storable.plain {r : Rule} (h : Storable r) : Plain r :=
  ⟨h.ne, fun f hf hc => (h.chars f hf _ hc).1 rfl⟩

/-! ## Files -/

theorem splitC_cons_append (c : Char) (x rest : Str) (hx : c ∉ x) :
    splitC c (x ++ c :: rest) = x :: splitC c rest := by
  induction x with
  | nil => simp [splitC]
  | cons a t ih =>
    simp only [List.mem_cons, not_or] at hx
    have hne : a ≠ c := fun h => hx.1 h.symm
    rw [List.cons_append, splitC, if_neg hne, ih hx.2]

theorem splitC_fileText (rs : List Rule) (h : ∀ r ∈ rs, Storable r) :
    splitC '\n' (fileText rs) = rs.map (join (s% ", ")) ++ [[]] := by
  induction rs with
  | nil => rfl
  | cons r rs ih =>
    have e : fileText (r :: rs) = join (s% ", ") r ++ '\n' :: fileText rs := by
      simp [fileText, ruleLine]
    rw [e, splitC_cons_append _ _ _ (h r (by simp)).no_nl, ih (fun x hx => h x (by simp [hx]))]
    rfl

theorem loadLines_storable {σ : Type} (s : σ) (rs : List Rule) (h : ∀ r ∈ rs, Storable r) :
    loadLines s (rs.map (join (s% ", ")) ++ [[]]) = LoadProg.ofList s (.ok ()) rs := by
  induction rs with
  | nil =>
    have h1 : tooLong [] = false := by decide
    have h2 : Fastac.policyLine (dropCR []) = .ok none := by decide
    simp [loadLines, LoadProg.ofList, h1, h2]
  | cons r rs ih =>
    have hr := h r (by simp)
    have h1 : tooLong (join (s% ", ") r) = false := by
      have := hr.short
      simp only [tooLong, decide_eq_false_iff_not]
      omega
    simp only [List.map_cons, List.cons_append, loadLines, h1, hr.policyLine, LoadProg.ofList]
    rw [ih (fun x hx => h x (by simp [hx]))]
    simp

/-- The text written for storable rules holds these rules. -/
theorem holds_fileText (rs : List Rule) (h : ∀ r ∈ rs, Storable r) : Holds (some (fileText rs)) rs := by
  unfold Holds fileLoad
  simp only
  rw [splitC_fileText rs h, loadLines_storable _ rs h]

/-! ## Saving -/

theorem foldl_writes (chunks : List Str) : ∀ t : Str,
    (chunks.map FsStep.write).foldl FsStep.apply (some t) = some (t ++ chunks.flatten) := by
  induction chunks with
  | nil => intro t; simp
  | cons c cs ih => intro t; simp [FsStep.apply, ih]

theorem saveSteps_final (file : Option Str) (chunks : List Str) :
    (saveSteps file chunks).foldl FsStep.apply file = some chunks.flatten := by
  unfold saveSteps
  rw [List.foldl_append, List.foldl_cons]
  have : ∀ x : Option Str, FsStep.apply x .create = some [] := fun x => by cases x <;> rfl
  rw [this, foldl_writes]
  simp

/-! ## Rule sets -/

theorem Policy.load_ofList {σ : Type} (s : σ) (r : Res Unit) (rs : List Rule) : ∀ p : Policy,
    p.load (LoadProg.ofList s r rs) = (rs.foldl (fun (p : Policy) r => (p.addRule r).1) p, r) := by
  induction rs with
  | nil => intro p; rfl
  | cons x xs ih => intro p; simp [LoadProg.ofList, Policy.load, ih]

/-- A rule set of storable rules. -/
structure Policy.Stores (p : Policy) : Prop where
  wf : p.WF
  storable : ∀ r ∈ p.rules, Storable r

theorem plain_hash_inj {r r' : Rule} (h : Plain r) (h' : Plain r') (e : hash r = hash r') : r = r' :=
  join_injective ',' h.ne h'.ne h.noComma h'.noComma e

theorem Policy.Stores.add {p : Policy} (h : p.Stores) {r : Rule} (hr : Storable r) :
    (p.addRule r).1.Stores ∧ ∀ x, x ∈ (p.addRule r).1.rules ↔ x ∈ p.rules ∨ x = r := by
  obtain ⟨a, b, c, _⟩ := h.wf.addRule r
  have key : ∀ x, x ∈ (p.addRule r).1.rules ↔ x ∈ p.rules ∨ x = r := by
    intro x
    rw [c x]
    constructor
    · rintro (h1 | h1)
      · exact Or.inl h1
      · exact Or.inr h1.2
    · rintro (h1 | h1)
      · exact Or.inl h1
      · by_cases hb : (p.addRule r).2.1 = true
        · exact Or.inr ⟨hb, h1⟩
        · left
          have : ∃ y ∈ p.rules, hash y = hash r := Classical.byContradiction fun hn => hb (b.2 hn)
          obtain ⟨y, hy, e⟩ := this
          rw [h1, ← plain_hash_inj (h.storable y hy).plain hr.plain e]
          exact hy
  refine ⟨⟨a, fun x hx => ?_⟩, key⟩
  rcases (key x).1 hx with hx | rfl
  · exact h.storable x hx
  · exact hr

theorem Policy.Stores.remove {p : Policy} (h : p.Stores) {r : Rule} (hr : Storable r) :
    (p.removeRule r).1.Stores ∧ ∀ x, x ∈ (p.removeRule r).1.rules ↔ x ∈ p.rules ∧ x ≠ r := by
  obtain ⟨a, b, c, _⟩ := h.wf.removeRule r
  have key : ∀ x, x ∈ (p.removeRule r).1.rules ↔ x ∈ p.rules ∧ x ≠ r := by
    intro x
    rw [c x]
    constructor
    · rintro ⟨h1, h2⟩; exact ⟨h1, fun e => h2 (by rw [e])⟩
    · rintro ⟨h1, h2⟩; exact ⟨h1, fun e => h2 (plain_hash_inj (h.storable x h1).plain hr.plain e)⟩
  exact ⟨⟨a, fun x hx => h.storable x ((key x).1 hx).1⟩, key⟩

theorem Policy.Stores.addAll (rs : List Rule) (hr : ∀ r ∈ rs, Storable r) : ∀ {p : Policy}, p.Stores →
    (rs.foldl (fun (p : Policy) r => (p.addRule r).1) p).Stores ∧
    ∀ x, x ∈ (rs.foldl (fun (p : Policy) r => (p.addRule r).1) p).rules ↔ x ∈ p.rules ∨ x ∈ rs := by
  induction rs with
  | nil => intro p h; exact ⟨h, by simp⟩
  | cons r rs ih =>
    intro p h
    obtain ⟨a, b⟩ := h.add (hr r (by simp))
    obtain ⟨a', b'⟩ := ih (fun x hx => hr x (by simp [hx])) a
    refine ⟨a', fun x => ?_⟩
    rw [List.foldl_cons, b', b]
    simp [or_assoc]

theorem Policy.Stores.removeAll (rs : List Rule) (hr : ∀ r ∈ rs, Storable r) : ∀ {p : Policy}, p.Stores →
    (rs.foldl (fun (p : Policy) r => (p.removeRule r).1) p).Stores ∧
    ∀ x, x ∈ (rs.foldl (fun (p : Policy) r => (p.removeRule r).1) p).rules ↔ x ∈ p.rules ∧ x ∉ rs := by
  induction rs with
  | nil => intro p h; exact ⟨h, by simp⟩
  | cons r rs ih =>
    intro p h
    obtain ⟨a, b⟩ := h.remove (hr r (by simp))
    obtain ⟨a', b'⟩ := ih (fun x hx => hr x (by simp [hx])) a
    refine ⟨a', fun x => ?_⟩
    rw [List.foldl_cons, b', b]
    simp [and_assoc]

theorem Policy.Stores.empty : Policy.empty.Stores := ⟨Policy.WF.empty, by simp [Policy.empty, Policy.rules]⟩

end Fastac
