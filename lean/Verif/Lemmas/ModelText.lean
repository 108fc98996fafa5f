import Verif.Spec.ModelText
import Verif.Lemmas.InStep

/-! # Loading the text of a model -/

namespace Fastac

/-! ## Sorting -/

theorem strLe_total : ∀ a b : Str, strLe a b = true ∨ strLe b a = true
  | [], _ => .inl rfl
  | _ :: _, [] => .inr rfl
  | a :: as, b :: bs => by
    simp only [strLe, Bool.or_eq_true, Bool.and_eq_true, decide_eq_true_eq, beq_iff_eq]
    by_cases h : a = b
    · subst h
      rcases strLe_total as bs with h | h
      · exact .inl (.inr ⟨rfl, h⟩)
      · exact .inr (.inr ⟨rfl, h⟩)
    · have : a.toNat ≠ b.toNat := fun e => h (by rw [← Char.ofNat_toNat a, ← Char.ofNat_toNat b, e])
      omega

theorem strLe_trans : ∀ a b c : Str, strLe a b = true → strLe b c = true → strLe a c = true
  | [], _, _ => fun _ _ => by simp [strLe]
  | _ :: _, [], _ => fun h _ => by simp [strLe] at h
  | _ :: _, _ :: _, [] => fun _ h => by simp [strLe] at h
  | a :: as, b :: bs, c :: cs => by
    simp only [strLe, Bool.or_eq_true, Bool.and_eq_true, decide_eq_true_eq, beq_iff_eq]
    rintro (h1 | ⟨rfl, h1⟩) (h2 | ⟨rfl, h2⟩)
    · exact .inl (by omega)
    · exact .inl h1
    · exact .inl h2
    · exact .inr ⟨rfl, strLe_trans as bs cs h1 h2⟩

theorem strLe_antisymm : ∀ a b : Str, strLe a b = true → strLe b a = true → a = b
  | [], [] => fun _ _ => rfl
  | [], _ :: _ => fun _ h => by simp [strLe] at h
  | _ :: _, [] => fun h _ => by simp [strLe] at h
  | a :: as, b :: bs => by
    simp only [strLe, Bool.or_eq_true, Bool.and_eq_true, decide_eq_true_eq, beq_iff_eq]
    rintro (h1 | ⟨rfl, h1⟩) (h2 | ⟨h, h2⟩)
    · omega
    · subst h; omega
    · omega
    · rw [strLe_antisymm as bs h1 h2]

theorem insertKey_perm (k : Str) : ∀ ks, (insertKey k ks).Perm (k :: ks)
  | [] => .refl _
  | k' :: ks => by
    unfold insertKey
    split
    · exact .refl _
    · exact ((insertKey_perm k ks).cons k').trans (List.Perm.swap k k' ks)

theorem sortKeys_perm : ∀ ks, (sortKeys ks).Perm ks
  | [] => .refl _
  | k :: ks => (insertKey_perm k (sortKeys ks)).trans ((sortKeys_perm ks).cons k)

theorem insertKey_sorted (k : Str) : ∀ ks, ks.Pairwise (fun a b => strLe a b = true) →
    (insertKey k ks).Pairwise (fun a b => strLe a b = true)
  | [], _ => by simp [insertKey]
  | k' :: ks, h => by
    unfold insertKey
    split
    · rename_i hk
      rw [List.pairwise_cons] at h ⊢
      refine ⟨fun x hx => ?_, List.pairwise_cons.2 h⟩
      rcases List.mem_cons.1 hx with rfl | hx
      · exact hk
      · exact strLe_trans _ _ _ hk (h.1 x hx)
    · rename_i hk
      rw [List.pairwise_cons] at h ⊢
      refine ⟨fun x hx => ?_, insertKey_sorted k ks h.2⟩
      rcases List.mem_cons.1 ((insertKey_perm k ks).mem_iff.1 hx) with rfl | hx
      · exact (strLe_total x k').resolve_left hk
      · exact h.1 x hx

theorem sortKeys_sorted : ∀ ks, (sortKeys ks).Pairwise (fun a b => strLe a b = true)
  | [] => .nil
  | k :: ks => insertKey_sorted k _ (sortKeys_sorted ks)

theorem sorted_unique : ∀ l l' : List Str, l.Pairwise (fun a b => strLe a b = true) →
    l'.Pairwise (fun a b => strLe a b = true) → l.Perm l' → l = l'
  | [], l', _, _, h => h.nil_eq
  | a :: l, [], _, _, h => absurd h.length_eq (by simp)
  | a :: l, b :: l', h1, h2, h => by
    rw [List.pairwise_cons] at h1 h2
    have e : a = b := by
      have ha : a ∈ b :: l' := h.mem_iff.1 (by simp)
      have hb : b ∈ a :: l := h.mem_iff.2 (by simp)
      rcases List.mem_cons.1 ha with e | ha
      · exact e
      · rcases List.mem_cons.1 hb with e | hb
        · exact e.symm
        · exact strLe_antisymm _ _ (h1.1 b hb) (h2.1 a ha)
    subst e
    rw [sorted_unique l l' h1.2 h2.2 (List.Perm.cons_inv h)]

theorem sortKeys_congr {l l' : List Str} (h : l.Perm l') : sortKeys l = sortKeys l' :=
  sorted_unique _ _ (sortKeys_sorted _) (sortKeys_sorted _)
    (((sortKeys_perm l).trans h).trans (sortKeys_perm l').symm)

/-! ## Texts of definitions -/

theorem removeSpaces_append (a b : Str) : removeSpaces (a ++ b) = removeSpaces a ++ removeSpaces b :=
  List.filter_append ..

theorem removeSpaces_idem (s : Str) : removeSpaces (removeSpaces s) = removeSpaces s := by
  simp [removeSpaces]

theorem removeSpaces_join : ∀ l : List Str,
    removeSpaces (join (s% ", ") l) = join (s% ",") (l.map removeSpaces)
  | [] => rfl
  | [a] => rfl
  | a :: b :: l => by
    have ih := removeSpaces_join (b :: l)
    simp only [List.map_cons] at ih ⊢
    unfold join
    rw [removeSpaces_append, removeSpaces_append, ih]
    rfl

theorem splitC_mem (c : Char) (s : Str) : ∀ f ∈ splitC c s, ∀ x ∈ f, x ∈ s := by
  fun_induction splitC c s <;> simp_all
  all_goals grind

theorem newPolicyDef_text (k v : Str) : newPolicyDef k (newPolicyDef k v).text = newPolicyDef k v := by
  have h : removeSpaces (newPolicyDef k v).text = removeSpaces v := by
    unfold PolicyDef.text
    rw [removeSpaces_join]
    have : (newPolicyDef k v).args.map removeSpaces = (newPolicyDef k v).args := by
      conv => rhs; rw [← List.map_id (newPolicyDef k v).args]
      refine List.map_congr_left (fun f hf => ?_)
      unfold removeSpaces
      refine List.filter_eq_self.2 (fun c hc => ?_)
      have := splitC_mem ',' (removeSpaces v) f hf c hc
      exact (List.mem_filter.1 this).2
    rw [this]
    exact join_splitC ',' (removeSpaces v)
  show newPolicyDef k _ = _
  unfold newPolicyDef at h ⊢
  simp only at h ⊢
  rw [h]

theorem roleDefNArgs_text {n : Nat} (h : 0 < n) : roleDefNArgs (roleDefText n) = n := by
  unfold roleDefNArgs roleDefText
  rw [splitC_join ',' _ (by cases n with | zero => omega | succ n => simp [List.replicate_succ])
    (fun f hf => by rw [List.eq_of_mem_replicate hf]; decide)]
  simp

theorem effectExpr_idem (s : Str) : effectExpr (effectExpr s) = effectExpr s := removeSpaces_idem s

/-! ## Maps filled from a list -/

/-- The map after setting all entries of the list. -/
def GoMap.sets {V : Type} (l : List (Str × V)) (m : GoMap Str V) : GoMap Str V :=
  l.foldl (fun m e => m.set e.1 e.2) m

theorem GoMap.get_sets_of_not_mem {V : Type} (l : List (Str × V)) (m : GoMap Str V) (k : Str)
    (h : k ∉ l.map Prod.fst) : (GoMap.sets l m).get k = m.get k := by
  induction l generalizing m with
  | nil => rfl
  | cons e l ih =>
    simp only [List.map_cons, List.mem_cons, not_or] at h
    show (GoMap.sets l _).get k = _
    rw [ih _ h.2, GoMap.get_set_ne _ _ h.1]

theorem GoMap.get_sets_of_mem {V : Type} (l : List (Str × V)) (m : GoMap Str V) (k : Str) (v : V)
    (hn : (l.map Prod.fst).Nodup) (h : (k, v) ∈ l) : (GoMap.sets l m).get k = some v := by
  induction l generalizing m with
  | nil => cases h
  | cons e l ih =>
    rw [List.map_cons, List.nodup_cons] at hn
    show (GoMap.sets l _).get k = _
    rcases List.mem_cons.1 h with rfl | h
    · rw [GoMap.get_sets_of_not_mem _ _ _ hn.1, GoMap.get_set_self]
    · exact ih _ hn.2 h

theorem GoMap.sets_wf {V : Type} (l : List (Str × V)) (m : GoMap Str V) (h : m.WF) : (GoMap.sets l m).WF := by
  induction l generalizing m with
  | nil => exact h
  | cons e l ih => exact ih _ (h.set _ _)

namespace Model

theorem mem_lines {V : Type} {defs : GoMap Str V} {text : Str → V → Str} {k t : Str} :
    (k, t) ∈ lines defs text ↔ ∃ v, defs.get k = some v ∧ t = text k v := by
  unfold lines
  simp only [List.mem_filterMap, Option.map_eq_some_iff, Prod.mk.injEq]
  constructor
  · rintro ⟨k', -, v, h, rfl, rfl⟩
    exact ⟨v, h, rfl⟩
  · rintro ⟨v, h, rfl⟩
    exact ⟨k, (sortKeys_perm _).mem_iff.2 (GoMap.mem_keys_iff.2 (by rw [h]; rfl)), v, h, rfl, rfl⟩

theorem lines_keys {V : Type} (defs : GoMap Str V) (text : Str → V → Str) :
    (lines defs text).map Prod.fst = sortKeys (defs.map Prod.fst) := by
  unfold lines
  have : ∀ ks : List Str, (∀ k ∈ ks, (defs.get k).isSome) →
      (ks.filterMap (fun k => (defs.get k).map (fun v => (k, text k v)))).map Prod.fst = ks := by
    intro ks
    induction ks with
    | nil => intro _; rfl
    | cons k ks ih =>
      intro h
      obtain ⟨v, hv⟩ := Option.isSome_iff_exists.1 (h k (by simp))
      rw [List.filterMap_cons, hv]
      simp only [Option.map_some, List.map_cons]
      rw [ih (fun x hx => h x (by simp [hx]))]
  exact this _ (fun k hk => GoMap.mem_keys_iff.1 ((sortKeys_perm _).mem_iff.1 hk))

theorem lines_nodup {V : Type} {defs : GoMap Str V} (h : defs.WF) (text : Str → V → Str) :
    ((lines defs text).map Prod.fst).Nodup := by
  rw [lines_keys]
  exact (sortKeys_perm _).nodup_iff.2 h

/-- The lines depend only on what the map holds. -/
theorem lines_congr {V V' : Type} {defs : GoMap Str V} {defs' : GoMap Str V'} (h : defs.WF) (h' : defs'.WF)
    {text : Str → V → Str} {text' : Str → V' → Str}
    (e : ∀ k, (defs'.get k).map (text' k) = (defs.get k).map (text k)) :
    lines defs' text' = lines defs text := by
  have hk : sortKeys (defs'.map Prod.fst) = sortKeys (defs.map Prod.fst) := by
    refine sortKeys_congr ((List.perm_ext_iff_of_nodup h' h).2 (fun k => ?_))
    rw [GoMap.mem_keys_iff, GoMap.mem_keys_iff]
    have := congrArg Option.isSome (e k)
    simp only [Option.isSome_map] at this
    rw [this]
  unfold lines
  rw [hk]
  congr 1
  funext k
  have := congrArg (Option.map (fun t => (k, t))) (e k)
  simpa only [Option.map_map, Function.comp_def] using this

/-- A map filled from lines. -/
theorem get_filled {V W : Type} {defs : GoMap Str V} (h : defs.WF) (text : Str → V → Str) (f : Str → Str → W)
    (k : Str) : (GoMap.sets ((lines defs text).map (fun e => (e.1, f e.1 e.2))) []).get k =
      (defs.get k).map (fun v => f k (text k v)) := by
  have hn : (((lines defs text).map (fun e => (e.1, f e.1 e.2))).map Prod.fst).Nodup := by
    rw [List.map_map]
    exact lines_nodup h text
  cases hg : defs.get k with
  | none =>
    rw [GoMap.get_sets_of_not_mem]
    · rfl
    · rw [List.map_map]
      show k ∉ (lines defs text).map Prod.fst
      intro hk
      obtain ⟨⟨k', t⟩, hm, rfl⟩ := List.mem_map.1 hk
      obtain ⟨v, hv, -⟩ := mem_lines.1 hm
      rw [hg] at hv
      cases hv
  | some v =>
    refine GoMap.get_sets_of_mem _ _ _ _ hn (List.mem_map.2 ⟨(k, text k v), mem_lines.2 ⟨v, hg, rfl⟩, rfl⟩)

/-! ## What definitions look like -/

/-- Definitions are under keys of their section, in the form that `SetDef` gives them, and every policy
and role definition has its policy. -/
structure WellKeyed (m : Model) : Prop where
  rwf : m.rDefs.WF
  pwf : m.pDefs.WF
  gwf : m.gDefs.WF
  ewf : m.eDefs.WF
  mwf : m.mDefs.WF
  r : ∀ k v, m.rDefs.get k = some v → k.head? = some 'r'
  p : ∀ k d, m.pDefs.get k = some d → k.head? = some 'p' ∧ ∃ v, d = newPolicyDef k v
  g : ∀ k n, m.gDefs.get k = some n → k.head? = some 'g' ∧ 0 < n
  e : ∀ k x, m.eDefs.get k = some x → k.head? = some 'e' ∧ ∃ v, x = effectExpr v
  mm : ∀ k x, m.mDefs.get k = some x → k.head? = some 'm'
  pp : ∀ k, (m.pMap.get k).isSome = (m.pDefs.get k).isSome
  gg : ∀ k, (m.rpMap.get k).isSome = (m.gDefs.get k).isSome

/-- Rule changes keep definitions. -/
theorem WellKeyed.of_defs {m m' : Model} (h : m.WellKeyed) (h1 : m'.rDefs = m.rDefs)
    (h2 : m'.pDefs = m.pDefs) (h3 : m'.gDefs = m.gDefs) (h4 : m'.eDefs = m.eDefs) (h5 : m'.mDefs = m.mDefs)
    (h6 : ∀ k, (m'.pMap.get k).isSome = (m.pMap.get k).isSome)
    (h7 : ∀ k, (m'.rpMap.get k).isSome = (m.rpMap.get k).isSome) : m'.WellKeyed := by
  constructor
  · rw [h1]; exact h.rwf
  · rw [h2]; exact h.pwf
  · rw [h3]; exact h.gwf
  · rw [h4]; exact h.ewf
  · rw [h5]; exact h.mwf
  · rw [h1]; exact h.r
  · rw [h2]; exact h.p
  · rw [h3]; exact h.g
  · rw [h4]; exact h.e
  · rw [h5]; exact h.mm
  · intro k; rw [h6, h2]; exact h.pp k
  · intro k; rw [h7, h3]; exact h.gg k

theorem splitC_length_pos (c : Char) (s : Str) : 0 < (splitC c s).length := by
  have := splitC_ne_nil c s
  cases h : splitC c s with
  | nil => exact absurd h this
  | cons a l => simp

theorem isSome_get_set {V : Type} (m : GoMap Str V) (k k' : Str) (v : V) :
    ((m.set k v).get k').isSome = (decide (k = k') || (m.get k').isSome) := by
  rw [GoMap.get_set]
  by_cases h : k = k' <;> simp [h]

theorem isSome_get_del {V : Type} (m : GoMap Str V) (k k' : Str) :
    ((m.del k).get k').isSome = (!decide (k = k') && (m.get k').isSome) := by
  rw [GoMap.get_del]
  by_cases h : k = k' <;> simp [h]

theorem get_set_cases {V : Type} {m : GoMap Str V} {k k' : Str} {v w : V} (h : (m.set k v).get k' = some w) :
    (k' = k ∧ w = v) ∨ m.get k' = some w := by
  rw [GoMap.get_set] at h
  split at h
  · rename_i e; exact .inl ⟨e.symm, (Option.some.inj h).symm⟩
  · exact .inr h

theorem get_of_get_del {V : Type} {m : GoMap Str V} {k k' : Str} {w : V} (h : (m.del k).get k' = some w) :
    m.get k' = some w := by
  rw [GoMap.get_del] at h
  split at h
  · cases h
  · exact h

theorem WellKeyed.setDef {m : Model} (h : m.WellKeyed) (sec : Char) (key value : Str) :
    (m.setDef sec key value).1.WellKeyed := by
  unfold Model.setDef
  split
  · exact h
  · split
    · exact h
    · rename_i c cs
      split
      · exact h
      · rename_i hc
        have hc : c = sec := Classical.not_not.1 hc
        subst hc
        split
        · rename_i e
          subst e
          exact { h with
            rwf := h.rwf.set _ _
            r := fun k v hk => by
              rcases get_set_cases hk with ⟨rfl, -⟩ | hk
              · rfl
              · exact h.r k v hk }
        · split
          · rename_i e
            subst e
            exact { h with
              pwf := h.pwf.set _ _
              p := fun k d hk => by
                rcases get_set_cases hk with ⟨rfl, rfl⟩ | hk
                · exact ⟨rfl, value, rfl⟩
                · exact h.p k d hk
              pp := fun k => by
                simp only [isSome_get_set]
                rw [h.pp k] }
          · split
            · rename_i e
              subst e
              exact { h with
                gwf := h.gwf.set _ _
                g := fun k n hk => by
                  rcases get_set_cases hk with ⟨rfl, rfl⟩ | hk
                  · exact ⟨rfl, splitC_length_pos _ _⟩
                  · exact h.g k n hk
                gg := fun k => by
                  simp only [isSome_get_set]
                  rw [h.gg k] }
            · split
              · rename_i e
                subst e
                exact { h with
                  ewf := h.ewf.set _ _
                  e := fun k n hk => by
                    rcases get_set_cases hk with ⟨rfl, rfl⟩ | hk
                    · exact ⟨rfl, value, rfl⟩
                    · exact h.e k n hk }
              · rename_i h1 h2 h3 h4 h5
                have e : c = 'm' := by
                  rcases Classical.not_not.1 h1 with e | e | e | e | e
                  · exact absurd e h2
                  · exact absurd e h3
                  · exact absurd e h4
                  · exact absurd e h5
                  · exact e
                subst e
                exact { h with
                  mwf := h.mwf.set _ _
                  mm := fun k n hk => by
                    rcases get_set_cases hk with ⟨rfl, -⟩ | hk
                    · rfl
                    · exact h.mm k n hk }

theorem WellKeyed.removeDef {m : Model} (h : m.WellKeyed) (sec : Char) (key : Str) :
    (m.removeDef sec key).1.WellKeyed := by
  unfold Model.removeDef
  split
  · exact { h with rwf := h.rwf.del _, r := fun k v hk => h.r k v (get_of_get_del hk) }
  · split
    · exact { h with
        pwf := h.pwf.del _
        p := fun k v hk => h.p k v (get_of_get_del hk)
        pp := fun k => by simp only [isSome_get_del]; rw [h.pp k] }
    · split
      · exact { h with
          gwf := h.gwf.del _
          g := fun k v hk => h.g k v (get_of_get_del hk)
          gg := fun k => by simp only [isSome_get_del]; rw [h.gg k] }
      · split
        · exact { h with ewf := h.ewf.del _, e := fun k v hk => h.e k v (get_of_get_del hk) }
        · split
          · exact { h with mwf := h.mwf.del _, mm := fun k v hk => h.mm k v (get_of_get_del hk) }
          · exact h

theorem isSome_get_set_same {V : Type} {m : GoMap Str V} {k : Str} {v : V} (h : m.get k = some v) (w : V)
    (k' : Str) : ((m.set k w).get k').isSome = (m.get k').isSome := by
  rw [isSome_get_set]
  by_cases e : k = k'
  · subst e; simp [h]
  · simp [e]

theorem WellKeyed.setP {m : Model} (h : m.WellKeyed) {k : Str} {p : PolObj} (hg : m.pMap.get k = some p)
    (p' : PolObj) : WellKeyed { m with pMap := m.pMap.set k p' } :=
  h.of_defs rfl rfl rfl rfl rfl (fun k' => isSome_get_set_same hg _ k') (fun _ => rfl)

theorem WellKeyed.setG {m : Model} (h : m.WellKeyed) {k : Str} {p : RolePolicy} (hg : m.rpMap.get k = some p)
    (p' : RolePolicy) : WellKeyed { m with rpMap := m.rpMap.set k p' } :=
  h.of_defs rfl rfl rfl rfl rfl (fun _ => rfl) (fun k' => isSome_get_set_same hg _ k')

theorem WellKeyed.emit {α : Type} {m : Model} (h : m.WellKeyed) {k : Str} {p : PolObj}
    (hg : m.pMap.get k = some p) (ls : List Matcher) (pol : Policy) (a : α) (e : Option PolEvent) :
    (m.emitPolicy k ls pol a e).1.WellKeyed := by
  unfold Model.emitPolicy
  split
  · exact h.setP hg _
  · split <;> exact h.setP hg _

theorem WellKeyed.add {m : Model} (h : m.WellKeyed) (rule : Rule) : (m.addRule rule).1.WellKeyed := by
  unfold Model.addRule
  split
  · exact h
  · exact h
  · simp only
    split
    · unfold Model.addPolicyRule
      split
      · exact h
      · rename_i hg; exact h.emit hg _ _ _ _
    · split
      · unfold Model.addRoleRule
        split
        · exact h
        · rename_i hg; exact h.setG hg _
      · exact h

theorem WellKeyed.remove {m : Model} (h : m.WellKeyed) (rule : Rule) : (m.removeRule rule).1.WellKeyed := by
  unfold Model.removeRule
  split
  · exact h
  · exact h
  · simp only
    split
    · unfold Model.removePolicyRule
      split
      · exact h
      · rename_i hg; exact h.emit hg _ _ _ _
    · split
      · unfold Model.removeRoleRule
        split
        · exact h
        · rename_i hg; exact h.setG hg _
      · exact h

theorem WellKeyed.clear {m : Model} (h : m.WellKeyed) (key : Str) : (m.clearPolicy key).1.WellKeyed := by
  unfold Model.clearPolicy
  split
  · rename_i hg; exact h.emit hg _ _ _ _
  · split
    · rename_i hg; exact h.setG hg _
    · exact h

theorem WellKeyed.build {m : Model} (h : m.WellKeyed) (build : Str → Res Stage) (key : Str) :
    (m.buildMatcher build key).1.WellKeyed := by
  unfold Model.buildMatcher
  split
  · exact h
  · split
    · exact h
    · exact h
    · split
      · exact h
      · exact h
      · split
        · rename_i hg
          split
          · exact h
          · exact h
          · exact (h.setP hg _).of_defs rfl rfl rfl rfl rfl (fun _ => rfl) (fun _ => rfl)
        · split
          · exact h
          · rename_i hg
            split
            · exact h
            · exact h
            · exact (h.setG hg _).of_defs rfl rfl rfl rfl rfl (fun _ => rfl) (fun _ => rfl)

theorem WellKeyed.inline {m : Model} (h : m.WellKeyed) (build : Str → Res Stage) (expr : Str) :
    (m.buildFromExpr build expr).1.WellKeyed := by
  have he := (buildFromExpr_spec build m expr).1
  refine h.of_defs he.rDefs he.pDefs he.gDefs he.eDefs he.mDefs (fun k => ?_) (fun k => ?_)
  · rcases he.pol k with ⟨h1, h2⟩ | ⟨p, x, h1, h2⟩ <;> rw [h1, h2] <;> rfl
  · rcases he.role k with ⟨h1, h2⟩ | ⟨p, x, h1, h2⟩ <;> rw [h1, h2] <;> rfl

theorem WellKeyed.new : Model.new.WellKeyed := by
  constructor <;> first | exact GoMap.WF.nil | (intros; simp_all [Model.new])

theorem Made.wellKeyed {build : Str → Res Stage} {m : Model} (h : Made build m) : m.WellKeyed := by
  induction h with
  | new => exact .new
  | setDef _ sec key value ih => exact ih.setDef sec key value
  | removeDef _ sec key ih => exact ih.removeDef sec key
  | build _ key ih => exact ih.build _ key
  | inline _ expr ih => exact ih.inline _ expr
  | add _ rule _ ih => exact ih.add rule
  | remove _ rule _ ih => exact ih.remove rule
  | clear _ key ih => exact ih.clear key

/-! ## Loading definitions -/

theorem head_cases {k : Str} {c : Char} (h : k.head? = some c) : ∃ cs, k = c :: cs := by
  cases k with
  | nil => cases h
  | cons a cs => cases h; exact ⟨cs, rfl⟩

theorem setDefs_r (l : List (Str × Str)) (h : ∀ e ∈ l, e.1.head? = some 'r') : ∀ m : Model,
    m.setDefs 'r' l = ({ m with rDefs := GoMap.sets l m.rDefs }, .ok ()) := by
  induction l with
  | nil => intro m; rfl
  | cons e l ih =>
    intro m
    obtain ⟨cs, hk⟩ := head_cases (h e (by simp))
    obtain ⟨k, v⟩ := e
    simp only at hk
    subst hk
    rw [setDefs, show m.setDef 'r' ('r' :: cs) v = ({ m with rDefs := m.rDefs.set ('r' :: cs) v }, .ok ()) from rfl]
    simp only
    rw [ih (fun x hx => h x (by simp [hx]))]
    rfl

theorem setDefs_p (l : List (Str × Str)) (h : ∀ e ∈ l, e.1.head? = some 'p') : ∀ m : Model, m.mMap = [] →
    m.setDefs 'p' l = ({ m with
      pDefs := GoMap.sets (l.map (fun e => (e.1, newPolicyDef e.1 e.2))) m.pDefs
      pMap := GoMap.sets (l.map (fun e => (e.1, ⟨Policy.empty, []⟩))) m.pMap }, .ok ()) := by
  induction l with
  | nil => intro m _; rfl
  | cons e l ih =>
    intro m hm
    obtain ⟨cs, hk⟩ := head_cases (h e (by simp))
    obtain ⟨k, v⟩ := e
    simp only at hk
    subst hk
    rw [setDefs, show m.setDef 'p' ('p' :: cs) v = ({ m with
      pDefs := m.pDefs.set ('p' :: cs) (newPolicyDef ('p' :: cs) v)
      mMap := m.freeze ('p' :: cs)
      pMap := m.pMap.set ('p' :: cs) ⟨Policy.empty, []⟩ }, .ok ()) from rfl]
    simp only
    have hf : m.freeze ('p' :: cs) = m.mMap := by rw [freeze, hm]; rfl
    rw [hf]
    refine (ih (fun x hx => h x (by simp [hx])) _ ?_).trans ?_
    · exact hm
    · rfl

/-- The role manager of a new role definition (handlers.go:38-44). -/
def newMgr (nargs : Nat) : Mgr := if nargs = 2 then Mgr.rm (RM.new 10) else Mgr.dm (DM.new 10)

theorem setDefs_g (l : List (Str × Str)) (h : ∀ e ∈ l, e.1.head? = some 'g') : ∀ m : Model, m.mMap = [] →
    m.setDefs 'g' l = ({ m with
      gDefs := GoMap.sets (l.map (fun e => (e.1, roleDefNArgs e.2))) m.gDefs
      rpMap := GoMap.sets (l.map (fun e => (e.1, ⟨newMgr (roleDefNArgs e.2), []⟩))) m.rpMap }, .ok ()) := by
  induction l with
  | nil => intro m _; rfl
  | cons e l ih =>
    intro m hm
    obtain ⟨cs, hk⟩ := head_cases (h e (by simp))
    obtain ⟨k, v⟩ := e
    simp only at hk
    subst hk
    rw [setDefs, show m.setDef 'g' ('g' :: cs) v = ({ m with
      gDefs := m.gDefs.set ('g' :: cs) (roleDefNArgs v)
      mMap := m.freeze ('g' :: cs)
      rpMap := m.rpMap.set ('g' :: cs) ⟨newMgr (roleDefNArgs v), []⟩ }, .ok ()) from rfl]
    simp only
    have hf : m.freeze ('g' :: cs) = m.mMap := by rw [freeze, hm]; rfl
    rw [hf]
    refine (ih (fun x hx => h x (by simp [hx])) _ ?_).trans ?_
    · exact hm
    · rfl

theorem setDefs_e (l : List (Str × Str)) (h : ∀ e ∈ l, e.1.head? = some 'e') : ∀ m : Model,
    m.setDefs 'e' l =
      ({ m with eDefs := GoMap.sets (l.map (fun e => (e.1, effectExpr e.2))) m.eDefs }, .ok ()) := by
  induction l with
  | nil => intro m; rfl
  | cons e l ih =>
    intro m
    obtain ⟨cs, hk⟩ := head_cases (h e (by simp))
    obtain ⟨k, v⟩ := e
    simp only at hk
    subst hk
    rw [setDefs, show m.setDef 'e' ('e' :: cs) v =
      ({ m with eDefs := m.eDefs.set ('e' :: cs) (effectExpr v) }, .ok ()) from rfl]
    simp only
    rw [ih (fun x hx => h x (by simp [hx]))]
    rfl

theorem setDefs_m (l : List (Str × Str)) (h : ∀ e ∈ l, e.1.head? = some 'm') : ∀ m : Model,
    m.setDefs 'm' l = ({ m with mDefs := GoMap.sets l m.mDefs }, .ok ()) := by
  induction l with
  | nil => intro m; rfl
  | cons e l ih =>
    intro m
    obtain ⟨cs, hk⟩ := head_cases (h e (by simp))
    obtain ⟨k, v⟩ := e
    simp only at hk
    subst hk
    rw [setDefs, show m.setDef 'm' ('m' :: cs) v = ({ m with mDefs := m.mDefs.set ('m' :: cs) v }, .ok ()) from rfl]
    simp only
    rw [ih (fun x hx => h x (by simp [hx]))]
    rfl

/-- Empty sections make no difference. -/
theorem loadSections_filter (secs : IniData) : ∀ m : Model,
    m.loadSections (secs.filter (fun s => !s.2.isEmpty)) = m.loadSections secs := by
  induction secs with
  | nil => intro m; rfl
  | cons s secs ih =>
    intro m
    obtain ⟨n, kvs⟩ := s
    cases kvs with
    | nil =>
      rw [List.filter_cons_of_neg (by simp), ih]
      conv => rhs; rw [loadSections]
      cases secKey n with
      | none => rfl
      | some c => rfl
    | cons e kvs =>
      rw [List.filter_cons_of_pos (by simp)]
      simp only [loadSections]
      cases secKey n with
      | none => exact ih m
      | some c =>
        simp only
        cases m.setDefs c (e :: kvs) with
        | mk m' r => cases r <;> first | rfl | exact ih m'

/-- The definitions of a model, loaded into a new one. -/
def reloaded (m : Model) : Model where
  rDefs := GoMap.sets (lines m.rDefs (fun k v => (newPolicyDef k v).text)) []
  pDefs := GoMap.sets ((lines m.pDefs (fun _ d => d.text)).map (fun e => (e.1, newPolicyDef e.1 e.2))) []
  gDefs := GoMap.sets ((lines m.gDefs (fun _ n => roleDefText n)).map (fun e => (e.1, roleDefNArgs e.2))) []
  eDefs := GoMap.sets ((lines m.eDefs (fun _ e => e)).map (fun e => (e.1, effectExpr e.2))) []
  mDefs := GoMap.sets (lines m.mDefs (fun _ e => e)) []
  pMap := GoMap.sets ((lines m.pDefs (fun _ d => d.text)).map (fun e => (e.1, ⟨Policy.empty, []⟩))) []
  rpMap := GoMap.sets ((lines m.gDefs (fun _ n => roleDefText n)).map
    (fun e => (e.1, ⟨newMgr (roleDefNArgs e.2), []⟩))) []
  mMap := []

theorem loadSections_sections {m : Model} (h : m.WellKeyed) :
    Model.new.loadSections ((s% "DEFAULT", []) :: m.sections) = (m.reloaded, .ok ()) := by
  have hr : ∀ e ∈ lines m.rDefs (fun k v => (newPolicyDef k v).text), e.1.head? = some 'r' := by
    rintro ⟨k, t⟩ he; obtain ⟨v, hv, -⟩ := mem_lines.1 he; exact h.r k v hv
  have hp : ∀ e ∈ lines m.pDefs (fun _ d => d.text), e.1.head? = some 'p' := by
    rintro ⟨k, t⟩ he; obtain ⟨v, hv, -⟩ := mem_lines.1 he; exact (h.p k v hv).1
  have hg : ∀ e ∈ lines m.gDefs (fun _ n => roleDefText n), e.1.head? = some 'g' := by
    rintro ⟨k, t⟩ he; obtain ⟨v, hv, -⟩ := mem_lines.1 he; exact (h.g k v hv).1
  have he : ∀ e ∈ lines m.eDefs (fun _ e => e), e.1.head? = some 'e' := by
    rintro ⟨k, t⟩ he; obtain ⟨v, hv, -⟩ := mem_lines.1 he; exact (h.e k v hv).1
  have hm : ∀ e ∈ lines m.mDefs (fun _ e => e), e.1.head? = some 'm' := by
    rintro ⟨k, t⟩ he; obtain ⟨v, hv, -⟩ := mem_lines.1 he; exact h.mm k v hv
  rw [loadSections, show secKey (s% "DEFAULT") = none from by decide]
  simp only
  unfold sections
  rw [loadSections_filter]
  simp only [loadSections]
  rw [show secKey (s% "request_definition") = some 'r' from by decide]
  simp only
  rw [setDefs_r _ hr]
  simp only
  rw [show secKey (s% "policy_definition") = some 'p' from by decide]
  simp only
  rw [setDefs_p _ hp _ rfl]
  simp only
  rw [show secKey (s% "role_definition") = some 'g' from by decide]
  simp only
  rw [setDefs_g _ hg _ rfl]
  simp only
  rw [show secKey (s% "policy_effect") = some 'e' from by decide]
  simp only
  rw [setDefs_e _ he]
  simp only
  rw [show secKey (s% "matchers") = some 'm' from by decide]
  simp only
  rw [setDefs_m _ hm]
  rfl

theorem get_filled_id {V : Type} {defs : GoMap Str V} (h : defs.WF) (text : Str → V → Str) (k : Str) :
    (GoMap.sets (lines defs text) []).get k = (defs.get k).map (text k) := by
  have := get_filled h text (fun _ t => t) k
  rw [show (lines defs text).map (fun e => (e.1, e.2)) = lines defs text from List.map_id _] at this
  exact this

theorem reloaded_r {m : Model} (h : m.WellKeyed) (k : Str) :
    m.reloaded.rDefs.get k = (m.rDefs.get k).map (fun v => (newPolicyDef k v).text) :=
  get_filled_id h.rwf _ k

theorem map_eq_self {V : Type} {o : Option V} {f : V → V} (h : ∀ v, o = some v → f v = v) : o.map f = o := by
  cases o with
  | none => rfl
  | some v => rw [Option.map_some, h v rfl]

theorem reloaded_p {m : Model} (h : m.WellKeyed) (k : Str) : m.reloaded.pDefs.get k = m.pDefs.get k := by
  refine (get_filled h.pwf _ _ k).trans (map_eq_self (fun d hd => ?_))
  obtain ⟨-, v, rfl⟩ := h.p k d hd
  exact newPolicyDef_text k v

theorem reloaded_g {m : Model} (h : m.WellKeyed) (k : Str) : m.reloaded.gDefs.get k = m.gDefs.get k :=
  (get_filled h.gwf _ (fun _ t => roleDefNArgs t) k).trans
    (map_eq_self (fun n hn => roleDefNArgs_text (h.g k n hn).2))

theorem reloaded_e {m : Model} (h : m.WellKeyed) (k : Str) : m.reloaded.eDefs.get k = m.eDefs.get k := by
  refine (get_filled h.ewf _ (fun _ t => effectExpr t) k).trans (map_eq_self (fun x hx => ?_))
  obtain ⟨-, v, rfl⟩ := h.e k x hx
  exact effectExpr_idem v

theorem reloaded_m {m : Model} (h : m.WellKeyed) (k : Str) : m.reloaded.mDefs.get k = m.mDefs.get k :=
  (get_filled_id h.mwf _ k).trans (map_eq_self (fun _ _ => rfl))

theorem reloaded_pMap {m : Model} (h : m.WellKeyed) (k : Str) :
    m.reloaded.pMap.get k = (m.pDefs.get k).map (fun _ => ⟨Policy.empty, []⟩) :=
  get_filled h.pwf _ (fun _ _ => (⟨Policy.empty, []⟩ : PolObj)) k

theorem reloaded_rpMap {m : Model} (h : m.WellKeyed) (k : Str) :
    m.reloaded.rpMap.get k = (m.gDefs.get k).map (fun n => ⟨newMgr n, []⟩) := by
  refine (get_filled h.gwf _ (fun _ t => (⟨newMgr (roleDefNArgs t), []⟩ : RolePolicy)) k).trans ?_
  cases hg : m.gDefs.get k with
  | none => rfl
  | some n => simp only [Option.map_some]; rw [roleDefNArgs_text (h.g k n hg).2]

theorem newMgr_rules (n : Nat) (ls : List Matcher) : RolePolicy.rules ⟨newMgr n, ls⟩ = [] := by
  unfold newMgr
  split <;> rfl

/-! ## Building the matchers -/

/-- What the building of matchers leaves as it is. -/
structure SameRules (m m' : Model) : Prop where
  r : m'.rDefs = m.rDefs
  p : m'.pDefs = m.pDefs
  g : m'.gDefs = m.gDefs
  e : m'.eDefs = m.eDefs
  md : m'.mDefs = m.mDefs
  pm : ∀ k, (m'.pMap.get k).map PolObj.policy = (m.pMap.get k).map PolObj.policy
  rm : ∀ k, (m'.rpMap.get k).map RolePolicy.mgr = (m.rpMap.get k).map RolePolicy.mgr

theorem SameRules.self (m : Model) : SameRules m m := ⟨rfl, rfl, rfl, rfl, rfl, fun _ => rfl, fun _ => rfl⟩

theorem SameRules.trans {m m' m'' : Model} (h : SameRules m m') (h' : SameRules m' m'') : SameRules m m'' :=
  ⟨h'.r.trans h.r, h'.p.trans h.p, h'.g.trans h.g, h'.e.trans h.e, h'.md.trans h.md,
    fun k => (h'.pm k).trans (h.pm k), fun k => (h'.rm k).trans (h.rm k)⟩

theorem RolePolicy.rules_of_mgr {a b : RolePolicy} (h : a.mgr = b.mgr) : a.rules = b.rules := by
  obtain ⟨m1, l1⟩ := a
  obtain ⟨m2, l2⟩ := b
  cases h
  rfl

theorem SameRules.policyRules {m m' : Model} (h : SameRules m m') (k : Str) :
    m'.policyRules k = m.policyRules k := by
  unfold Model.policyRules
  have h1 := h.pm k
  have h2 := h.rm k
  cases ha : m'.pMap.get k with
  | some a =>
    cases hb : m.pMap.get k with
    | none => rw [ha, hb] at h1; cases h1
    | some b => rw [ha, hb] at h1; simp only [Option.map_some, Option.some.injEq] at h1; simp only [h1]
  | none =>
    cases hb : m.pMap.get k with
    | some b => rw [ha, hb] at h1; cases h1
    | none =>
      simp only
      cases hc : m'.rpMap.get k with
      | none => cases hd : m.rpMap.get k with
        | none => rfl
        | some d => rw [hc, hd] at h2; cases h2
      | some c => cases hd : m.rpMap.get k with
        | none => rw [hc, hd] at h2; cases h2
        | some d =>
          rw [hc, hd] at h2
          simp only [Option.map_some, Option.some.injEq] at h2 ⊢
          exact RolePolicy.rules_of_mgr h2

theorem SameRules.policyDef {m m' : Model} (h : SameRules m m') (k : Str) :
    m'.matcherPolicyDef k = m.matcherPolicyDef k := by
  unfold Model.matcherPolicyDef
  rw [h.p]

/-- The matcher built for a definition when its policy has no rules. -/
def FreshFor (build : Str → Res Stage) (m : Model) (k : Str) (mt : Matcher) : Prop :=
  ∃ e root d, m.mDefs.get k = some e ∧ build e = .ok root ∧ m.matcherPolicyDef root.policyKey = .ok d ∧
    newMatcher d root [] = .ok mt

theorem SameRules.fresh {build : Str → Res Stage} {m m' : Model} (h : SameRules m m') {k : Str} {mt : Matcher}
    (hf : FreshFor build m' k mt) : FreshFor build m k mt := by
  obtain ⟨e, root, d, h1, h2, h3, h4⟩ := hf
  exact ⟨e, root, d, h.md ▸ h1, h2, (h.policyDef _) ▸ h3, h4⟩

/-- The definition of a matcher can be built: its expression, and its policy exists. -/
def Buildable (build : Str → Res Stage) (m : Model) (k : Str) : Prop :=
  ∃ e root d, m.mDefs.get k = some e ∧ build e = .ok root ∧ m.matcherPolicyDef root.policyKey = .ok d ∧
    (m.policyRules root.policyKey).isSome = true

theorem SameRules.buildable {build : Str → Res Stage} {m m' : Model} (h : SameRules m m') {k : Str}
    (hf : Buildable build m k) : Buildable build m' k := by
  obtain ⟨e, root, d, h1, h2, h3, h4⟩ := hf
  exact ⟨e, root, d, h.md ▸ h1, h2, (h.policyDef _) ▸ h3, by rw [h.policyRules]; exact h4⟩

theorem getElem?_append_some {α : Type} {l : List α} {i : Nat} {a : α} (h : l[i]? = some a) (x : α) :
    (l ++ [x])[i]? = some a := by
  rw [List.getElem?_append_left]
  · exact h
  · exact (List.getElem?_eq_some_iff.1 h).1

theorem buildMatcher_fresh {build : Str → Res Stage} {m : Model} {k : Str} (hb : Buildable build m k)
    (hr : ∀ k rules, m.policyRules k = some rules → rules = []) :
    ∃ m', m.buildMatcher build k = (m', .ok ()) ∧ SameRules m m' ∧
      (∃ mt, m'.getMatcher k = some mt ∧ FreshFor build m k mt) ∧
      (∀ k' mt, k' ≠ k → m.getMatcher k' = some mt → m'.getMatcher k' = some mt) ∧
      ∀ k', k' ≠ k → m'.mMap.get k' = m.mMap.get k' := by
  obtain ⟨e, root, d, h1, h2, h3, h4⟩ := hb
  have hf : FreshFor build m k ⟨d, root, newNode [[]]⟩ := ⟨e, root, d, h1, h2, h3, rfl⟩
  unfold Model.buildMatcher
  rw [h1]
  simp only
  rw [h2]
  simp only
  rw [h3]
  simp only
  cases hp : m.pMap.get root.policyKey with
  | some p =>
    have e0 : p.policy.rules = [] := hr root.policyKey _ (by unfold Model.policyRules; rw [hp])
    simp only
    rw [e0, show newMatcher d root [] = .ok ⟨d, root, newNode [[]]⟩ from rfl]
    refine ⟨_, rfl, ⟨rfl, rfl, rfl, rfl, rfl, fun k' => ?_, fun _ => rfl⟩, ⟨_, ?_, hf⟩, fun k' mt hk hm => ?_,
      fun k' hk => GoMap.get_set_ne _ _ hk⟩
    · simp only [GoMap.get_set]
      split
      · rename_i e1; rw [← e1, hp]; rfl
      · rfl
    · simp [getMatcher, resolve]
    · unfold getMatcher at hm ⊢
      simp only [GoMap.get_set_ne _ _ hk]
      cases hx : m.mMap.get k' with
      | none => rw [hx] at hm; cases hm
      | some x =>
        rw [hx] at hm
        simp only [Option.bind_some] at hm ⊢
        cases x with
        | frozen y => exact hm
        | live k2 i =>
          unfold resolve at hm ⊢
          simp only [GoMap.get_set] at hm ⊢
          by_cases e1 : root.policyKey = k2
          · rw [← e1] at hm ⊢
            rw [hp] at hm
            simp only [if_true] at hm ⊢
            exact getElem?_append_some hm _
          · rw [if_neg e1]; exact hm
  | none =>
    cases hg : m.rpMap.get root.policyKey with
    | none =>
      unfold Model.policyRules at h4
      rw [hp, hg] at h4
      cases h4
    | some rp =>
      have e0 : rp.rules = [] := hr root.policyKey _ (by unfold Model.policyRules; rw [hp, hg]; rfl)
      simp only
      rw [e0, show newMatcher d root [] = .ok ⟨d, root, newNode [[]]⟩ from rfl]
      refine ⟨_, rfl, ⟨rfl, rfl, rfl, rfl, rfl, fun _ => rfl, fun k' => ?_⟩, ⟨_, ?_, hf⟩, fun k' mt hk hm => ?_,
      fun k' hk => GoMap.get_set_ne _ _ hk⟩
      · simp only [GoMap.get_set]
        split
        · rename_i e1; rw [← e1, hg]; rfl
        · rfl
      · simp [getMatcher, resolve, hp]
      · unfold getMatcher at hm ⊢
        simp only [GoMap.get_set_ne _ _ hk]
        cases hx : m.mMap.get k' with
        | none => rw [hx] at hm; cases hm
        | some x =>
          rw [hx] at hm
          simp only [Option.bind_some] at hm ⊢
          cases x with
          | frozen y => exact hm
          | live k2 i =>
            unfold resolve at hm ⊢
            simp only [GoMap.get_set] at hm ⊢
            by_cases e1 : root.policyKey = k2
            · rw [← e1] at hm ⊢
              rw [hp, hg] at hm
              rw [hp]
              simp only [if_true] at hm ⊢
              exact getElem?_append_some hm _
            · rw [if_neg e1]; exact hm

theorem buildMatchers_fresh {build : Str → Res Stage} (ks : List Str) : ∀ {m : Model},
    (∀ k ∈ ks, Buildable build m k) → (∀ k rules, m.policyRules k = some rules → rules = []) →
    ∃ m', m.buildMatchers build ks = (m', .ok ()) ∧ SameRules m m' ∧
      (∀ k ∈ ks, ∃ mt, m'.getMatcher k = some mt ∧ FreshFor build m k mt) ∧
      (∀ k mt, k ∉ ks → m.getMatcher k = some mt → m'.getMatcher k = some mt) ∧
      ∀ k, k ∉ ks → m'.mMap.get k = m.mMap.get k := by
  induction ks with
  | nil => intro m _ _; exact ⟨m, rfl, .self m, by simp, fun _ _ _ h => h, fun _ _ => rfl⟩
  | cons k ks ih =>
    intro m hb hr
    obtain ⟨m1, e1, s1, ⟨mt, g1, f1⟩, k1, l1⟩ := buildMatcher_fresh (hb k (by simp)) hr
    obtain ⟨m2, e2, s2, g2, k2, l2⟩ := ih (m := m1) (fun x hx => s1.buildable (hb x (by simp [hx])))
      (fun x rules hx => hr x rules ((s1.policyRules x) ▸ hx))
    refine ⟨m2, ?_, s1.trans s2, ?_, ?_, ?_⟩
    · rw [buildMatchers, e1]; exact e2
    · intro x hx
      by_cases hx' : x ∈ ks
      · obtain ⟨mt', a, b⟩ := g2 x hx'
        exact ⟨mt', a, s1.fresh b⟩
      · rcases List.mem_cons.1 hx with rfl | hx
        · exact ⟨mt, k2 x mt hx' g1, f1⟩
        · exact absurd hx hx'
    · intro x mt' hx hm
      simp only [List.mem_cons, not_or] at hx
      exact k2 x mt' hx.2 (k1 x mt' hx.1 hm)
    · intro x hx
      simp only [List.mem_cons, not_or] at hx
      exact (l2 x hx.2).trans (l1 x hx.1)

end Model

end Fastac
