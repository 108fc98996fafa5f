import Verif.Lemmas.File
import Verif.Props.Storage

/-!
# C43–C46: the file adapter, and C37 for it
-/

namespace Fastac

open Model

/-! ## C43 -/

theorem has_set {K V : Type} [DecidableEq K] (m : GoMap K V) (k k' : K) (v : V) :
    (m.set k v).has k' = (decide (k = k') || m.has k') := by
  unfold GoMap.has
  rw [GoMap.get_set]
  split
  · rename_i h; simp [h]
  · rename_i h; simp [h]

theorem knows_addRule {m : Model} {r : Rule} {k : Str} (h : m.Knows k) : (m.addRule r).1.Knows k := by
  match r with
  | [] => exact h
  | [] :: _ => exact h
  | (c :: cs) :: f =>
    unfold Model.addRule
    simp only
    by_cases hp : c = 'p'
    · simp only [hp, if_true, Model.addPolicyRule]
      split
      · exact h
      · rename_i p _
        obtain ⟨⟨ls, e⟩, _⟩ := emitPolicy_eq m ('p' :: cs) p.listeners (p.policy.addRule f).1
          (p.policy.addRule f).2.1 (p.policy.addRule f).2.2
        rw [e]
        rcases h with ⟨a, b⟩ | h
        · exact Or.inl ⟨a, by simp [has_set, b]⟩
        · exact Or.inr h
    · simp only [hp, if_false]
      by_cases hg : c = 'g'
      · simp only [hg, if_true, Model.addRoleRule]
        split
        · exact h
        · rcases h with h | ⟨a, b⟩
          · exact Or.inl h
          · exact Or.inr ⟨a, by simp [has_set, b]⟩
      · simp only [hg, if_false]
        exact h

/-- Adding a list of fitting rules for known policies succeeds and yields the union. -/
theorem each_add {build : Str → Res Stage} (hb : ∀ e s, build e = .ok s → s.Binary) (rs : List Rule) :
    ∀ {m : Model}, Made build m → (∀ r ∈ rs, m.Fits r) → (∀ r ∈ rs, ∃ k fs, r = k :: fs ∧ m.Knows k) →
    (Model.each Model.addRule m rs).2.1 = .ok () ∧
    ∀ x, x ∈ (Model.each Model.addRule m rs).1.rules ↔ x ∈ m.rules ∨ x ∈ rs := by
  induction rs with
  | nil => intro m _ _ _; exact ⟨rfl, by simp [Model.each]⟩
  | cons r rs ih =>
    intro m hm hf hk
    obtain ⟨k, fs, e, hkn⟩ := hk r (by simp)
    have hfr := hf r (by simp)
    subst e
    obtain ⟨⟨h1, h2⟩, -⟩ := c34_call_partial hb hm k fs hfr hkn
    have hres : ∃ b, (m.addRule (k :: fs)).2.1 = .ok b := by
      rcases h1 with ⟨h1, _⟩ | ⟨h1, _⟩ <;> rw [h1] <;> exact ⟨_, rfl⟩
    obtain ⟨b, hres⟩ := hres
    have := ih (hm.add (k :: fs) hfr)
      (fun x hx => fits_of_gDefs (gDefs_add m (k :: fs)) (hf x (by simp [hx])))
      (fun x hx => by
        obtain ⟨k', fs', e, hk'⟩ := hk x (by simp [hx])
        exact ⟨k', fs', e, knows_addRule hk'⟩)
    simp only [Model.each, hres]
    refine ⟨this.1, fun x => ?_⟩
    rw [this.2 x, h2 x]
    simp [or_assoc]

/-- **C43**, the part that holds: for every model `m` whose rules are storable, every file content before,
every order of writing and division into chunks, if `SavePolicy` succeeds then the file holds the rules of
`m`, and loading it into an empty model `m0` for which these rules fit and whose policies exist succeeds
and yields the same rule set.  Missing: rules that are not storable, see `c43_fails`. -/
theorem c43_roundtrip_partial {build : Str → Res Stage} (hb : ∀ e s, build e = .ok s → s.Binary)
    {env : Env} (henv : env.Ok) {m m0 : Model} (hs : ∀ r ∈ m.rules, Storable r) {file file' : Option Str}
    (hsave : fileSave env file m.rules = (file', .ok ())) (h0 : Made build m0) (hempty : m0.rules = [])
    (hf : ∀ r ∈ m.rules, m0.Fits r) (hk : ∀ r ∈ m.rules, ∃ k fs, r = k :: fs ∧ m0.Knows k) :
    let loaded := m0.load (fileLoad file') (m0, file', .panic)
    loaded.2.2 = .ok () ∧ (∀ x, x ∈ loaded.1.rules ↔ x ∈ m.rules) := by
  have hperm := henv.order m.rules
  have hfile : file' = some (fileText (env.order m.rules)) := by
    simp only [fileSave] at hsave
    split at hsave
    · rw [saveSteps_final, henv.chunks] at hsave
      exact (Prod.ext_iff.mp hsave).1.symm
    · simp at hsave
  have hh := holds_fileText (env.order m.rules) (fun r hr => hs r (hperm.mem_iff.mp hr))
  rw [← hfile] at hh
  have hl := Model.load_ofList file' (.ok ()) (env.order m.rules) m0 (m0, file', .panic)
  obtain ⟨a, b⟩ := each_add hb (env.order m.rules) h0 (fun r hr => hf r (hperm.mem_iff.mp hr))
    (fun r hr => hk r (hperm.mem_iff.mp hr))
  intro loaded
  simp only [loaded]
  rw [hh, hl.1, hl.2, a]
  refine ⟨by simp, fun x => ?_⟩
  rw [b x, hempty]
  simp [hperm.mem_iff]

/-- **C43** through the enforcer, the part that holds: `SavePolicy` of an enforcer with a file adapter that
succeeds, followed by `LoadPolicy` of any enforcer on the same file whose model is empty, gives the second
model exactly the rules of the first; neither call touches the first model. -/
theorem c43_enforcer_partial {build : Str → Res Stage} (hb : ∀ e s, build e = .ok s → s.Binary)
    {env : Env} (henv : env.Ok) (e e0 : Enforcer (Option Str)) (hA : e.adapter = fileAdapter env)
    (hs : ∀ r ∈ e.model.rules, Storable r) (hsave : e.savePolicy.res = .ok ())
    (hA0 : e0.adapter = fileAdapter env) (hst : e0.st = e.savePolicy.e.st)
    (h0 : Made build e0.model) (hempty : e0.model.rules = [])
    (hf : ∀ r ∈ e.model.rules, e0.model.Fits r)
    (hk : ∀ r ∈ e.model.rules, ∃ k fs, r = k :: fs ∧ e0.model.Knows k) :
    e.savePolicy.e.model = e.model ∧ e0.loadPolicy.res = .ok () ∧
    ∀ x, x ∈ e0.loadPolicy.e.model.rules ↔ x ∈ e.model.rules := by
  have hsv : fileSave env e.st e.model.rules = (e.savePolicy.e.st, .ok ()) := by
    have h1 : e.savePolicy.e.st = (e.adapter.save e.st e.model.rules).1 := rfl
    have h2 : e.savePolicy.res = (e.adapter.save e.st e.model.rules).2 := rfl
    rw [h1]
    rw [h2] at hsave
    rw [hA] at hsave ⊢
    exact Prod.ext rfl hsave
  obtain ⟨a, b⟩ := c43_roundtrip_partial hb henv hs hsv h0 hempty hf hk
  obtain ⟨-, -, -, -, c, d⟩ := c39_load e0
  rw [hA0, hst] at c d
  refine ⟨rfl, ?_, fun x => ?_⟩
  · rw [d]; exact a
  · rw [c]; exact b x

/-! ## C44 -/

/-- **C44**, what the code does: if the process dies after any number of the steps of `SavePolicy`, the
file is as before, or gone, or holds a prefix of the new text; after all of the steps it holds the new
text. -/
theorem c44_crash_states_partial {env : Env} (henv : env.Ok) (file : Option Str) (rules : List Rule) (n : Nat) :
    let text := fileText (env.order rules)
    let steps := saveSteps file (env.chunks text)
    let crashed := (steps.take n).foldl FsStep.apply file
    (crashed = file ∨ crashed = none ∨ ∃ t, crashed = some t ∧ t <+: text) ∧
    (steps.length ≤ n → crashed = some text) := by
  intro text steps crashed
  have hfinal : steps.foldl FsStep.apply file = some text := by
    rw [saveSteps_final, henv.chunks]
  refine ⟨?_, fun h => by simp only [crashed]; rw [List.take_of_length_le h, hfinal]⟩
  have hc : ∀ x : Option Str, FsStep.apply x .create = some [] := fun x => by cases x <;> rfl
  have hwrites : ∀ k (x : Option Str), (FsStep.create :: (env.chunks text).map .write).take k |>.foldl FsStep.apply x
      |> fun y => y = x ∨ ∃ t, y = some t ∧ t <+: text := by
    intro k x
    cases k with
    | zero => exact Or.inl rfl
    | succ k =>
      right
      simp only [List.take_succ_cons, List.foldl_cons, hc, ← List.map_take, foldl_writes, List.nil_append]
      refine ⟨_, rfl, ?_⟩
      refine ⟨((env.chunks text).drop k).flatten, ?_⟩
      rw [← List.flatten_append, List.take_append_drop, henv.chunks]
  simp only [crashed, steps, saveSteps]
  cases file with
  | none =>
    simp only [Option.isSome, Bool.false_eq_true, if_false, List.nil_append]
    rcases hwrites n none with h | h
    · exact Or.inl h
    · exact Or.inr (Or.inr h)
  | some t =>
    simp only [Option.isSome, if_true, List.singleton_append]
    cases n with
    | zero => exact Or.inl rfl
    | succ n =>
      simp only [List.take_succ_cons, List.foldl_cons]
      have e : FsStep.apply (some t) .remove = none := rfl
      rw [e]
      rcases hwrites n none with h | h
      · exact Or.inr (Or.inl h)
      · exact Or.inr (Or.inr h)

/-! ## C45 -/

/-- **C45**, the part that holds: for every file that holds storable rules `rs`, every call (`AddRule`,
`RemoveRule`, `AddRules`, `RemoveRules`) with storable rules, every order of writing and division into
chunks: if the operating system reports no error the call succeeds, and if the call succeeds then the
file holds, each once, exactly the rules `rs` with the call's operations applied.  Missing: rules that are
not storable, missing files, see `c45_fails`, `c45_fails_missing`. -/
theorem c45_change_partial {env : Env} (henv : env.Ok) {file : Option Str} {rs : List Rule}
    (hh : Holds file rs) (hs : ∀ r ∈ rs, Storable r) (c : Call) (hc : ∀ o ∈ c.ops, Storable o.rule) :
    ((∀ steps, env.fail file steps = none) → ((fileAdapter env).step file c).2 = .ok ()) ∧
    (((fileAdapter env).step file c).2 = .ok () → ∃ rs', Holds ((fileAdapter env).step file c).1 rs' ∧
      (∀ r ∈ rs', Storable r) ∧ rs'.Nodup ∧ ∀ x, x ∈ rs' ↔ held x (decide (x ∈ rs)) c.ops = true) := by
  obtain ⟨h1, h2⟩ := Policy.Stores.empty.addAll rs hs
  generalize hp : rs.foldl (fun (p : Policy) r => (p.addRule r).1) Policy.empty = p at h1 h2
  have hload : Policy.empty.load (fileLoad file) = (p, .ok ()) := by
    rw [hh, Policy.load_ofList, hp]
  have hp2 : ∀ x, x ∈ p.rules ↔ x ∈ rs := fun x => by rw [h2 x]; simp [Policy.empty, Policy.rules]
  have hheld : ∀ (o : Opc) (l : List Rule) (x : Rule) (b : Bool), held x b (l.map (fun r => ⟨o, r⟩)) =
      match o with
      | .add => b || decide (x ∈ l)
      | .remove => b && !decide (x ∈ l) := by
    intro o l x
    induction l with
    | nil => intro b; cases o <;> simp [held]
    | cons r l ih =>
      intro b
      cases o with
      | add =>
        simp only [List.map_cons, held, ih]
        by_cases e : r = x
        · subst e; simp
        · have e' : ¬ x = r := fun h => e h.symm
          have e'' : (r == x) = false := beq_eq_false_iff_ne.mpr e
          simp [e'', e']
      | remove =>
        simp only [List.map_cons, held, ih]
        by_cases e : r = x
        · subst e; simp
        · have e' : ¬ x = r := fun h => e h.symm
          have e'' : (r == x) = false := beq_eq_false_iff_ne.mpr e
          simp [e'', e', bne]
  -- the change of the rule set
  have hchange : (c.change p).Stores ∧ ∀ x, x ∈ (c.change p).rules ↔ held x (decide (x ∈ rs)) c.ops = true := by
    cases c with
    | one o r =>
      have hr : Storable r := hc ⟨o, r⟩ (by simp [Call.ops])
      cases o with
      | add =>
        obtain ⟨a, b⟩ := h1.add hr
        refine ⟨a, fun x => ?_⟩
        simp only [Call.change, Call.ops, held]
        rw [b x, hp2 x, Bool.or_eq_true, decide_eq_true_eq, beq_iff_eq]
        exact ⟨fun h => h.imp id Eq.symm, fun h => h.imp id Eq.symm⟩
      | remove =>
        obtain ⟨a, b⟩ := h1.remove hr
        refine ⟨a, fun x => ?_⟩
        simp only [Call.change, Call.ops, held]
        rw [b x, hp2 x, Bool.and_eq_true, decide_eq_true_eq, bne_iff_ne]
        exact ⟨fun h => ⟨h.1, fun e => h.2 e.symm⟩, fun h => ⟨h.1, fun e => h.2 e.symm⟩⟩
    | batch o l =>
      have hl : ∀ r ∈ l, Storable r := fun r hr =>
        hc ⟨o, r⟩ (by simp only [Call.ops, List.mem_map]; exact ⟨r, hr, rfl⟩)
      cases o with
      | add =>
        obtain ⟨a, b⟩ := Policy.Stores.addAll l hl h1
        refine ⟨a, fun x => ?_⟩
        simp only [Call.change, Call.ops]
        rw [b x, hp2 x, hheld]
        simp
      | remove =>
        obtain ⟨a, b⟩ := Policy.Stores.removeAll l hl h1
        refine ⟨a, fun x => ?_⟩
        simp only [Call.change, Call.ops]
        rw [b x, hp2 x, hheld]
        simp
  have hstep : (fileAdapter env).step file c = fileSave env file (c.change p).rules := by
    simp only [fileAdapter, fileChange, hload]
  rw [hstep]
  have hperm := henv.order (c.change p).rules
  constructor
  · intro hfail
    simp only [fileSave, hfail]
  · intro hok
    have hfile : (fileSave env file (c.change p).rules).1 = some (fileText (env.order (c.change p).rules)) := by
      simp only [fileSave] at hok ⊢
      split
      · simp only [saveSteps_final, henv.chunks]
      · rename_i n hn
        rw [hn] at hok
        simp at hok
    refine ⟨env.order (c.change p).rules, ?_, ?_, ?_, ?_⟩
    · rw [hfile]
      exact holds_fileText _ (fun r hr => hchange.1.storable r (hperm.mem_iff.mp hr))
    · exact fun r hr => hchange.1.storable r (hperm.mem_iff.mp hr)
    · exact hperm.nodup_iff.mpr hchange.1.wf.rules_nodup
    · intro x
      rw [hperm.mem_iff]
      exact hchange.2 x

/-! ## C46 -/

theorem loadLines_skip {σ : Type} (s : σ) (line : Str) (h : line = [] ∨ line.head? = some '#')
    (hl : byteLen line < 65536) (A B : List Str) : loadLines s (A ++ line :: B) = loadLines s (A ++ B) := by
  have hp : policyLine (dropCR line) = .ok none := by
    rcases h with rfl | h
    · decide
    · cases line with
      | nil => cases h
      | cons c t =>
        cases h
        have : (dropCR ('#' :: t)).head? = some '#' := by
          unfold dropCR
          split
          · rename_i hr
            cases t with
            | nil => exact absurd hr (by decide)
            | cons d t => rfl
          · rfl
        simp [policyLine, this]
  have ht : tooLong line = false := by
    simp only [tooLong, decide_eq_false_iff_not]
    omega
  induction A with
  | nil => simp only [List.nil_append, loadLines, ht, hp, Bool.false_eq_true, if_false]
  | cons a A ih => simp only [List.cons_append, loadLines, ih]

/-- **C46**, the part that holds: for a text with any lines `A` before and `B` after (a final line break is
an empty last line), inserting an empty line or a line that starts with `#`, shorter than 64 KiB, does not
change what `LoadPolicy` does: the calls of `AddRule`, their order, and the outcome.  Missing: longer
lines, see `c46_fails`. -/
theorem c46_blank_partial (A B : List Str) (hA : ∀ l ∈ A ++ B, '\n' ∉ l) (line : Str) (hn : '\n' ∉ line)
    (h : line = [] ∨ line.head? = some '#') (hl : byteLen line < 65536) (m : Model) (d : Model × Option Str × Res Unit) :
    (m.load (fileLoad (some (join ['\n'] (A ++ line :: B)))) d).1 =
      (m.load (fileLoad (some (join ['\n'] (A ++ B)))) d).1 ∧
    (m.load (fileLoad (some (join ['\n'] (A ++ line :: B)))) d).2.2 =
      (m.load (fileLoad (some (join ['\n'] (A ++ B)))) d).2.2 := by
  have h1 : splitC '\n' (join ['\n'] (A ++ line :: B)) = A ++ line :: B := by
    apply splitC_join
    · simp
    · intro l hl'
      simp only [List.mem_append, List.mem_cons] at hl'
      rcases hl' with hl' | rfl | hl'
      · exact hA l (by simp [hl'])
      · exact hn
      · exact hA l (by simp [hl'])
  have h2 : ∀ s : Option Str, loadLines s (splitC '\n' (join ['\n'] (A ++ B))) = loadLines s (A ++ B) := by
    intro s
    by_cases e : A ++ B = []
    · rw [e]
      simpa [join, splitC] using loadLines_skip s [] (Or.inl rfl) (by decide) [] []
    · rw [splitC_join _ _ e hA]
  simp only [fileLoad]
  rw [h1, h2, loadLines_skip _ line h hl]
  -- the state in the program differs, what it does to the model does not
  have key : ∀ (ls : List Str) (s s' : Option Str) (m : Model),
      (m.load (loadLines s ls) d).1 = (m.load (loadLines s' ls) d).1 ∧
      (m.load (loadLines s ls) d).2.2 = (m.load (loadLines s' ls) d).2.2 := by
    intro ls s s'
    induction ls with
    | nil => intro m; exact ⟨rfl, rfl⟩
    | cons l ls ih =>
      intro m
      simp only [loadLines]
      split
      · exact ⟨rfl, rfl⟩
      · split
        · exact ih m
        · rename_i r _
          simp only [Model.load]
          obtain ⟨res, hr⟩ : ∃ res, (m.addRule r).2.1 = res := ⟨_, rfl⟩
          rw [hr]
          cases res with
          | ok b => simpa using ih (m.addRule r).1
          | err => exact ⟨rfl, rfl⟩
          | panic => exact ⟨rfl, rfl⟩
        · exact ⟨rfl, rfl⟩
        · exact ⟨rfl, rfl⟩
  exact key _ _ _ m

/-! ## C37 for the file adapter -/

/-- The rules in a file, as the adapter itself reads them. -/
def fileView (file : Option Str) (x : Rule) : Bool :=
  decide (x ∈ (Policy.empty.load (fileLoad file)).1.rules)

/-- A file with storable rules only. -/
def Sound (file : Option Str) : Prop := ∃ rs, Holds file rs ∧ ∀ r ∈ rs, Storable r

theorem fileView_eq {file : Option Str} {rs : List Rule} (hh : Holds file rs) (hs : ∀ r ∈ rs, Storable r)
    (x : Rule) : fileView file x = decide (x ∈ rs) := by
  unfold fileView
  rw [hh, Policy.load_ofList, Bool.eq_iff_iff, decide_eq_true_eq, decide_eq_true_eq,
    (Policy.Stores.empty.addAll rs hs).2 x]
  simp [Policy.empty, Policy.rules]

theorem fileAdapter_keeps {env : Env} (henv : env.Ok) : (fileAdapter env).Keeps Sound Storable fileView := by
  rintro file c file' ⟨rs, hh, hs⟩ hc hstep
  obtain ⟨rs', h1, h2, _, h3⟩ := (c45_change_partial henv hh hs c hc).2 (by rw [hstep])
  rw [hstep] at h1
  refine ⟨⟨rs', h1, h2⟩, fun x => ?_⟩
  rw [fileView_eq h1 h2, fileView_eq hh hs, Bool.eq_iff_iff, decide_eq_true_eq]
  exact h3 x

open Enforcer in
/-- **C37 for the file adapter**: an enforcer that listens, with a file that holds storable rules, exactly
those of the model, and an empty queue.  After any history with storable rules that fit the model in which
no storage call failed, a `Flush` that returns nil leaves the file with exactly the rules of the model. -/
theorem c37_file_partial {build : Str → Res Stage} (hb : ∀ e s, build e = .ok s → s.Binary) {env : Env}
    (henv : env.Ok) {e : Enforcer (Option Str)} (hA : e.adapter = fileAdapter env) (hm : Made build e.model)
    (hh : e.hooked = true) (he : e.sc.enabled = true) (hq : e.sc.q = []) {rs : List Rule} (hrs : Holds e.st rs)
    (hs : ∀ r ∈ rs, Storable r) (hag : ∀ x, x ∈ rs ↔ x ∈ e.model.rules)
    (H : List Enforcer.Op) (hf : ∀ op ∈ H, ∀ r ∈ op.rules, e.model.Fits r ∧ Storable r)
    (ht : ∀ c ∈ (e.run H).2, c.2 = .ok ()) (hr : (e.run H).1.flush.res = .ok ()) :
    ∃ rs', Holds (e.run H).1.flush.e.st rs' ∧ ∀ x, x ∈ rs' ↔ x ∈ (e.run H).1.flush.e.model.rules := by
  have ready : e.Ready build Sound Storable fileView := by
    refine ⟨hb, hm, hh, he, ?_, ⟨rs, hrs, hs⟩, hq, fun x => ?_⟩
    · rw [hA]; exact fileAdapter_keeps henv
    · rw [fileView_eq hrs hs, decide_eq_true_eq]; exact hag x
  have h1 := c37_mirror_partial ready H (fun op ho r hr => (hf op ho r hr).1)
    (fun op ho r hr => (hf op ho r hr).2) ht hr
  have h2 := ready.tracks.run hb H (fun op ho r hr => (hf op ho r hr).1)
    (fun op ho r hr => (hf op ho r hr).2) ht
  obtain ⟨_, h3, _⟩ := c35_flush (e.run H).1.adapter (e.run H).1.sc (e.run H).1.st hr
  obtain ⟨rs', h4, h5⟩ := (h2.flush h3).sync.inv
  refine ⟨rs', h4, fun x => ?_⟩
  have := h1 x
  rw [fileView_eq h4 h5, decide_eq_true_eq] at this
  exact this

/-! ## Examples and counterexamples -/

namespace FileExample

open ModelExample StorageExample

instance (r : Rule) : Decidable (Storable r) :=
  decidable_of_iff (r ≠ [] ∧ r ≠ [[]] ∧ (∀ f ∈ r, ∀ c ∈ f, c ≠ ',' ∧ c ≠ '"' ∧ c ≠ '\n') ∧
    (∀ f ∈ r, ∀ c ∈ f.head?, isSpace c = false) ∧ (∀ f ∈ r.head?, f.head? ≠ some '#') ∧
    (∀ f ∈ r.getLast?, f.getLast? ≠ some '\r') ∧ byteLen (join (s% ", ") r) < 65536)
    ⟨fun ⟨a, b, c, d, e, f, g⟩ => ⟨a, b, c, fun x hx y hy => d x hx y (by simpa using hy),
        fun x hx => e x (by simpa using hx), fun x hx => f x (by simpa using hx), g⟩,
      fun h => ⟨h.ne, h.notBlank, h.chars, fun x hx y hy => h.lead x hx y (by simpa using hy),
        fun x hx => h.noComment x (by simpa using hx), fun x hx => h.noCR x (by simpa using hx), h.short⟩⟩

def env : Env := ⟨List.reverse, fun t => [t.take 3, t.drop 3], fun _ _ => none⟩

theorem env_ok : env.Ok := ⟨fun l => List.reverse_perm l, fun t => by simp [env]⟩

/-- blanks inside a field, `#` in a later field, an empty last field -/
def odd : Rule := [s% "p", s% "a b", s% "#x", s% ""]

-- the premises of C43 and C45
example : Storable pRule ∧ Storable odd := by decide

example : (fileSave env (some (s% "old")) [pRule, odd]) =
    (some (s% "p, a b, #x, \np, alice, read\n"), .ok ()) := by decide

example : Holds (some (s% "# c\np, alice,  read\r\n\n p,\"bob\",read")) [pRule, bob] := by
  unfold Holds fileLoad
  have h1 : splitC '\n' (s% "# c\np, alice,  read\r\n\n p,\"bob\",read") =
    [s% "# c", s% "p, alice,  read\r", [], s% " p,\"bob\",read"] := by decide
  have a1 : tooLong (s% "# c") = false := by decide
  have a2 : tooLong (s% "p, alice,  read\r") = false := by decide
  have a3 : tooLong [] = false := by decide
  have a4 : tooLong (s% " p,\"bob\",read") = false := by decide
  have b1 : policyLine (dropCR (s% "# c")) = .ok none := by decide
  have b2 : policyLine (dropCR (s% "p, alice,  read\r")) = .ok (some pRule) := by decide
  have b3 : policyLine (dropCR []) = .ok none := by decide
  have b4 : policyLine (dropCR (s% " p,\"bob\",read")) = .ok (some bob) := by decide
  simp only [h1, loadLines, a1, a2, a3, a4, b1, b2, b3, b4, LoadProg.ofList]
  rfl

def afterSave (rules : List Rule) : Option Str := (fileSave env none rules).1

/-- **C43 fails** for fields with a comma, with leading blanks, with a quote in the middle or with a line
break: the rule loaded is another one, is rejected, or is lost. -/
theorem c43_fails :
    (Policy.empty.load (fileLoad (afterSave [[s% "p", s% "a,b"]]))).1.rules = [[s% "p", s% "a", s% "b"]] ∧
    (Policy.empty.load (fileLoad (afterSave [[s% "p", s% " a"]]))).1.rules = [[s% "p", s% "a"]] ∧
    (Policy.empty.load (fileLoad (afterSave [[s% "p", s% "a\"b"]]))) = (Policy.empty, .err) ∧
    (Policy.empty.load (fileLoad (afterSave [[s% "p", s% "a\nb"]]))).1.rules = [[s% "p", s% "a"], [s% "b"]] ∧
    (Policy.empty.load (fileLoad (afterSave [[s% "#p", s% "a"]]))) = (Policy.empty, .ok ()) := by
  decide +kernel

/-- **C44 fails**: with old rules in the file, a crash after the first step leaves no file, a crash after
the second an empty file that loads without error, a crash after the third a part of a line. -/
theorem c44_fails :
    let steps := saveSteps (afterSave [bob]) (env.chunks (fileText [pRule, bob]))
    (steps.take 1).foldl FsStep.apply (afterSave [bob]) = none ∧
    (steps.take 2).foldl FsStep.apply (afterSave [bob]) = some [] ∧
    (Policy.empty.load (fileLoad (some []))) = (Policy.empty, .ok ()) ∧
    (steps.take 3).foldl FsStep.apply (afterSave [bob]) = some (s% "p, ") := by
  decide +kernel

/-- **C45 fails** for a file with a quoted comma: after `AddRule` of another rule the old rule is a
different one. -/
theorem c45_fails :
    let file := some (s% "p, \"a,b\"\n")
    let file' := ((fileAdapter env).step file (.one .add pRule)).1
    (Policy.empty.load (fileLoad file)).1.rules = [[s% "p", s% "a,b"]] ∧
    ((fileAdapter env).step file (.one .add pRule)).2 = .ok () ∧
    (Policy.empty.load (fileLoad file')).1.rules = [pRule, [s% "p", s% "a", s% "b"]] := by
  decide +kernel

/-- **C45 fails** for a missing file: the call fails. -/
theorem c45_fails_missing (c : Call) : (fileAdapter env).step none c = (none, .err) := rfl

/-- **C46 fails** for a comment line of 64 KiB: loading fails. -/
theorem c46_fails (m : Model) : ∃ line : Str, line.head? = some '#' ∧ '\n' ∉ line ∧
    (m.load (fileLoad (some line)) (m, none, .panic)).2.2 = .err ∧
    (m.load (fileLoad (some [])) (m, none, .panic)).2.2 = .ok () := by
  obtain ⟨n, hn⟩ : ∃ n, 65535 ≤ n := ⟨_, Nat.le_refl _⟩
  have hnl : '\n' ∉ '#' :: List.replicate n 'x' := by
    simp only [List.mem_cons, List.mem_replicate, not_or]
    exact ⟨by decide, fun h => absurd h.2 (by decide)⟩
  refine ⟨'#' :: List.replicate n 'x', rfl, hnl, ?_, ?_⟩
  · have h1 : splitC '\n' ('#' :: List.replicate n 'x') = ['#' :: List.replicate n 'x'] :=
      splitC_join '\n' ['#' :: List.replicate n 'x'] (by simp) (by simp)
    have hb : ∀ k, byteLen (List.replicate k 'x') = k := by
      intro k
      induction k with
      | zero => rfl
      | succ k ih =>
        have hx : Char.utf8Size 'x' = 1 := by decide
        simp only [byteLen, List.replicate_succ, List.map_cons, List.sum_cons, hx] at ih ⊢
        omega
    have h2 : tooLong ('#' :: List.replicate n 'x') = true := by
      have hc : Char.utf8Size '#' = 1 := by decide
      have := hb n
      simp only [byteLen] at this
      simp only [tooLong, byteLen, List.map_cons, List.sum_cons, hc, this, decide_eq_true_eq]
      omega
    simp only [fileLoad, h1, loadLines, h2, if_true, Model.load]
  · have h0 : splitC '\n' [] = [[]] := rfl
    have h1 : tooLong [] = false := by decide
    have h2 : policyLine (dropCR []) = .ok none := by decide
    simp only [fileLoad, h0, loadLines, h1, h2, Model.load, Bool.false_eq_true, if_false]

-- the premises of C37 for the file adapter
example : let e : Enforcer (Option Str) := ⟨defs build, fileAdapter env, some [], SC.new true, true⟩
    Holds e.st [] ∧ e.model.rules = [] ∧
    (∀ c ∈ (e.run [.add pRule, .addMany [bob, pRule], .remove pRule]).2, c.2 = .ok ()) ∧
    (e.run [.add pRule, .addMany [bob, pRule], .remove pRule]).1.flush.res = .ok () ∧
    (e.run [.add pRule, .addMany [bob, pRule], .remove pRule]).1.st = some (s% "p, bob, read\n") := by
  refine ⟨rfl, by decide, by decide +kernel, by decide +kernel, by decide +kernel⟩

-- the premises of C43 through the enforcer: two rules saved, loaded by a second enforcer
example : let e : Enforcer (Option Str) :=
      ⟨((defs build).addRule pRule).1, fileAdapter env, some (s% "old"), SC.new false, true⟩
    let e0 : Enforcer (Option Str) := ⟨defs build, fileAdapter env, e.savePolicy.e.st, SC.new false, true⟩
    e.model.rules = [pRule] ∧ (∀ r ∈ e.model.rules, Storable r) ∧ e.savePolicy.res = .ok () ∧
    Made build e0.model ∧ e0.model.rules = [] ∧ (∀ r ∈ e.model.rules, e0.model.Fits r) ∧
    (∀ r ∈ e.model.rules, ∃ k fs, r = k :: fs ∧ e0.model.Knows k) := by
  intro e e0
  have hr : e.model.rules = [pRule] := by decide
  refine ⟨hr, ?_, by decide +kernel, made build, by decide, ?_, ?_⟩
  · rw [hr]; decide
  · rw [hr]
    intro r h
    cases List.mem_singleton.mp h
    exact ⟨fun _ => by decide, fun h => absurd h (by decide), fun h => absurd h (by decide)⟩
  · rw [hr]
    intro r h
    cases List.mem_singleton.mp h
    exact ⟨_, _, rfl, .inl (by decide)⟩

end FileExample

end Fastac
