import Verif.Lemmas.Serves

/-!
# A configured model through a history of rules
-/

namespace Fastac

namespace Model

/-- What a history does not change. -/
structure Same (m m' : Model) : Prop where
  r : m'.rDefs = m.rDefs
  e : m'.eDefs = m.eDefs
  g : m'.gDefs = m.gDefs
  p : m'.pDefs = m.pDefs
  keys : ∀ k, m'.pMap.has k = m.pMap.has k
  roles : ∀ k, (m'.rpMap.get k).map (fun rp => rp.mgr.isRM) = (m.rpMap.get k).map (fun rp => rp.mgr.isRM)

theorem Same.refl (m : Model) : Same m m := by constructor <;> intros <;> rfl

theorem Same.trans {m m' m'' : Model} (h : Same m m') (h' : Same m' m'') : Same m m'' :=
  ⟨h'.r.trans h.r, h'.e.trans h.e, h'.g.trans h.g, h'.p.trans h.p, fun k => (h'.keys k).trans (h.keys k),
    fun k => (h'.roles k).trans (h.roles k)⟩

theorem Same.has {m m' : Model} (h : Same m m') (k : Str) : m'.rpMap.has k = m.rpMap.has k := by
  have := h.roles k
  unfold GoMap.has
  cases h1 : m'.rpMap.get k <;> cases h2 : m.rpMap.get k <;> simp_all

theorem Same.knows {m m' : Model} (h : Same m m') (k : Str) : m'.Knows k ↔ m.Knows k := by
  unfold Knows
  rw [h.keys, h.has]

theorem Same.fits {m m' : Model} (h : Same m m') (r : Rule) : m'.Fits r ↔ m.Fits r := by
  cases r with
  | nil => exact Iff.rfl
  | cons k f => unfold Fits; rw [h.g]

theorem Same.okay {m m' : Model} (h : Same m m') (pkey : Str) (pDef : PolicyDef) (op : Op) :
    op.Okay pkey pDef m' ↔ op.Okay pkey pDef m := by
  cases op with
  | add r => cases r with
    | nil => exact Iff.rfl
    | cons k f => simp only [Op.Okay, h.knows, h.fits]
  | remove r => cases r with
    | nil => exact Iff.rfl
    | cons k f => simp only [Op.Okay, h.knows, h.fits]
  | clear k => exact Iff.rfl

/-- The managers of the model are as `SetDef` makes them. -/
def BaseRoles (m : Model) : Prop := ∀ k rp, m.rpMap.get k = some rp → rp.mgr.Base

theorem same_setP {m : Model} {k : Str} {p : PolObj} (hp : m.pMap.get k = some p) (p' : PolObj) :
    Same m { m with pMap := m.pMap.set k p' } := by
  refine ⟨rfl, rfl, rfl, rfl, ?_, fun _ => rfl⟩
  intro k'
  unfold GoMap.has
  simp only [GoMap.get_set]
  split
  · rename_i e; subst e; simp [hp]
  · rfl

theorem same_setG {m : Model} {k : Str} {rp rp' : RolePolicy} (hp : m.rpMap.get k = some rp)
    (h : rp'.mgr.isRM = rp.mgr.isRM) : Same m { m with rpMap := m.rpMap.set k rp' } := by
  refine ⟨rfl, rfl, rfl, rfl, fun _ => rfl, ?_⟩
  intro k'
  simp only [GoMap.get_set]
  split
  · rename_i e; subst e; simp [hp, h]
  · rfl

theorem base_setG {m : Model} (hb : m.BaseRoles) (k : Str) {rp' : RolePolicy} (h : rp'.mgr.Base) :
    BaseRoles { m with rpMap := m.rpMap.set k rp' } := by
  intro k' q hq
  simp only [GoMap.get_set] at hq
  split at hq
  · cases hq; exact h
  · exact hb k' q hq

/-- A model whose matcher `m` serves the policy `p`. -/
structure Std (pDef : PolicyDef) (root : Stage) (m : Model) : Prop where
  tidy : m.Tidy
  fine : m.Fine
  serves : Serves (s% "m") (s% "p") pDef root m
  base : m.BaseRoles

theorem roleAdd_base {rp : RolePolicy} (h : rp.mgr.Base) (u r : Str) (ds : List Str) (hd : rp.mgr.PathOk ds) :
    (rp.addRule (u :: r :: ds)).1.mgr.Base ∧ (rp.addRule (u :: r :: ds)).1.mgr.isRM = rp.mgr.isRM := by
  obtain ⟨mgr', b, e, h1, h2⟩ := h.addLink u r ds hd
  unfold RolePolicy.addRule
  simp only [e]
  cases b with
  | true => simp only; rw [(RolePolicy.emit_mgr rp mgr' _).1]; exact ⟨h1, h2⟩
  | false => exact ⟨h1, h2⟩

theorem roleRemove_base {rp : RolePolicy} (h : rp.mgr.Base) (u r : Str) (ds : List Str)
    (hd : rp.mgr.PathOk ds) :
    (rp.removeRule (u :: r :: ds)).1.mgr.Base ∧ (rp.removeRule (u :: r :: ds)).1.mgr.isRM = rp.mgr.isRM := by
  obtain ⟨mgr', b, e, h1, h2⟩ := h.deleteLink u r ds hd
  unfold RolePolicy.removeRule
  simp only [e]
  cases b with
  | true => simp only; rw [(RolePolicy.emit_mgr rp mgr' _).1]; exact ⟨h1, h2⟩
  | false => exact ⟨h1, h2⟩

theorem emit_same {α : Type} {m : Model} (hb : m.BaseRoles) {k : Str} {p : PolObj}
    (hp : m.pMap.get k = some p) (pol : Policy) (a : α) (e : Option PolEvent) :
    Same m (m.emitPolicy k p.listeners pol a e).1 ∧ (m.emitPolicy k p.listeners pol a e).1.BaseRoles := by
  obtain ⟨⟨ls', e1⟩, -⟩ := emitPolicy_eq m k p.listeners pol a e
  rw [e1]
  exact ⟨same_setP hp _, hb⟩

theorem Std.step_same {pDef : PolicyDef} {root : Stage} {m : Model} (h : m.Std pDef root) (op : Op)
    (ho : op.Okay (s% "p") pDef m) : Same m (m.step op).1 ∧ (m.step op).1.BaseRoles := by
  cases op with
  | add r =>
    by_cases hk : ∃ k f, r = k :: f ∧ m.Knows k
    · obtain ⟨k, f, rfl, hk⟩ := hk
      obtain ⟨hf, -⟩ := ho hk
      unfold Knows GoMap.has at hk
      cases k with
      | nil => simp at hk
      | cons c cs =>
        simp only [List.head?_cons, Option.some.injEq] at hk
        simp only [step, addRule]
        rcases hk with ⟨rfl, hk⟩ | ⟨rfl, hk⟩
        · obtain ⟨p, hp⟩ := Option.isSome_iff_exists.1 hk
          simp only [if_true, addPolicyRule, hp]
          exact emit_same h.base hp _ _ _
        · obtain ⟨rp, hp⟩ := Option.isSome_iff_exists.1 hk
          obtain ⟨u, r, ds, rfl, hd⟩ := h.tidy.pathOk hp hf
          obtain ⟨h1, h2⟩ := roleAdd_base (h.base _ _ hp) u r ds hd
          simp only [show ('g' : Char) ≠ 'p' by decide, if_false, if_true, addRoleRule, hp]
          exact ⟨same_setG hp h2, base_setG h.base _ h1⟩
    · have := (addRule_unknown r (fun k f e hk' => hk ⟨k, f, e, hk'⟩)).1.1
      simp only [step, this]
      exact ⟨Same.refl m, h.base⟩
  | remove r =>
    by_cases hk : ∃ k f, r = k :: f ∧ m.Knows k
    · obtain ⟨k, f, rfl, hk⟩ := hk
      obtain ⟨hf, -⟩ := ho hk
      unfold Knows GoMap.has at hk
      cases k with
      | nil => simp at hk
      | cons c cs =>
        simp only [List.head?_cons, Option.some.injEq] at hk
        simp only [step, removeRule]
        rcases hk with ⟨rfl, hk⟩ | ⟨rfl, hk⟩
        · obtain ⟨p, hp⟩ := Option.isSome_iff_exists.1 hk
          simp only [if_true, removePolicyRule, hp]
          exact emit_same h.base hp _ _ _
        · obtain ⟨rp, hp⟩ := Option.isSome_iff_exists.1 hk
          obtain ⟨u, r, ds, rfl, hd⟩ := h.tidy.pathOk hp hf
          obtain ⟨h1, h2⟩ := roleRemove_base (h.base _ _ hp) u r ds hd
          simp only [show ('g' : Char) ≠ 'p' by decide, if_false, if_true, removeRoleRule, hp]
          exact ⟨same_setG hp h2, base_setG h.base _ h1⟩
    · have := (removeRule_unknown r (fun k f e hk' => hk ⟨k, f, e, hk'⟩)).1.1
      simp only [step, this]
      exact ⟨Same.refl m, h.base⟩
  | clear k =>
    simp only [step, clearPolicy]
    cases hp : m.pMap.get k with
    | some p => exact emit_same h.base hp _ _ _
    | none =>
      cases hr : m.rpMap.get k with
      | none => exact ⟨Same.refl m, h.base⟩
      | some rp =>
        obtain ⟨h1, h2⟩ := (h.base _ _ hr).clear
        exact ⟨same_setG hr h2, base_setG h.base _ h1⟩

theorem Std.step {pDef : PolicyDef} {root : Stage} (hb : root.Binary) {m : Model} (h : m.Std pDef root)
    (op : Op) (ho : op.Okay (s% "p") pDef m) : (m.step op).1.Std pDef root := by
  refine ⟨?_, ?_, ?_, (h.step_same op ho).2⟩
  · cases op with
    | add r =>
      by_cases hk : ∃ k f, r = k :: f ∧ m.Knows k
      · obtain ⟨k, f, rfl, hk⟩ := hk
        exact h.tidy.add _ (ho hk).1
      · have := (addRule_unknown r (fun k f e hk' => hk ⟨k, f, e, hk'⟩)).1.1
        simp only [Model.step, this]
        exact h.tidy
    | remove r =>
      by_cases hk : ∃ k f, r = k :: f ∧ m.Knows k
      · obtain ⟨k, f, rfl, hk⟩ := hk
        exact h.tidy.remove _ (ho hk).1
      · have := (removeRule_unknown r (fun k f e hk' => hk ⟨k, f, e, hk'⟩)).1.1
        simp only [Model.step, this]
        exact h.tidy
    | clear k => exact h.tidy.clear k
  · cases op with
    | add r => exact h.fine.add r
    | remove r => exact h.fine.remove r
    | clear k => exact h.fine.clear k
  · obtain ⟨p, i, mt, hp, -⟩ := h.serves.live
    have kn : m.Knows (s% "p") := Or.inl ⟨rfl, by unfold GoMap.has; rw [hp]; rfl⟩
    refine h.serves.step hb h.fine op ?_
    cases op with
    | add r => cases r with
      | nil => trivial
      | cons k f => exact fun e => (ho (e ▸ kn)).2 e
    | remove r => cases r with
      | nil => trivial
      | cons k f => exact fun e => (ho (e ▸ kn)).2 e
    | clear k => trivial

/-- The rules of known keys after one call. -/
theorem Std.step_mem {pDef : PolicyDef} {root : Stage} {m : Model} (h : m.Std pDef root)
    (op : Op) (ho : op.Okay (s% "p") pDef m) {k : Str} (hk : m.Knows k) (f : Rule) (now : Bool)
    (hn : now = true ↔ k :: f ∈ m.rules) :
    isHeldAfter (k :: f) now [op] = true ↔ k :: f ∈ (m.step op).1.rules := by
  cases op with
  | add r =>
    simp only [isHeldAfter, Model.step, Bool.or_eq_true, beq_iff_eq, hn]
    by_cases hk' : ∃ k f, r = k :: f ∧ m.Knows k
    · obtain ⟨k', f', rfl, hk'⟩ := hk'
      rw [(h.tidy.addRule k' f' (ho hk').1 hk').rules, eq_comm (a := k' :: f')]
    · rw [(addRule_unknown r (fun k f e hk'' => hk' ⟨k, f, e, hk''⟩)).1.1]
      constructor
      · rintro (a | rfl)
        · exact a
        · exact absurd ⟨k, f, rfl, hk⟩ hk'
      · exact Or.inl
  | remove r =>
    simp only [isHeldAfter, Model.step, Bool.and_eq_true, bne_iff_ne, hn]
    by_cases hk' : ∃ k f, r = k :: f ∧ m.Knows k
    · obtain ⟨k', f', rfl, hk'⟩ := hk'
      rw [(h.tidy.removeRule k' f' (ho hk').1 hk').rules, ne_comm]
    · rw [(removeRule_unknown r (fun k f e hk'' => hk' ⟨k, f, e, hk''⟩)).1.1]
      constructor
      · exact And.left
      · exact fun a => ⟨a, fun e => hk' ⟨k, f, e, hk⟩⟩
  | clear k' =>
    simp only [isHeldAfter, Model.step, Bool.and_eq_true, bne_iff_ne, hn, List.head?_cons, ne_eq,
      Option.some.injEq]
    have ht := h.tidy
    unfold clearPolicy
    cases hp : m.pMap.get k' with
    | some p =>
      simp only
      obtain ⟨⟨ls', e1⟩, -⟩ := emitPolicy_eq m k' p.listeners p.policy.clear.1 () p.policy.clear.2
      have ht' := h.tidy.clear k'
      unfold clearPolicy at ht'
      simp only [hp] at ht'
      rw [e1] at ht' ⊢
      rw [mem_setP ht hp ht']
      simp only [Policy.clear, Policy.rules]
      constructor
      · rintro ⟨a, b⟩
        exact Or.inl ⟨a, fun f' e => b (by cases e; rfl)⟩
      · rintro (⟨a, b⟩ | ⟨f', -, hm⟩)
        · exact ⟨a, fun e => b f (by rw [e])⟩
        · simp at hm
    | none =>
      simp only
      cases hr : m.rpMap.get k' with
      | none =>
        simp only
        constructor
        · exact And.left
        · refine fun a => ⟨a, ?_⟩
          rintro rfl
          unfold Knows GoMap.has at hk
          rw [hp, hr] at hk
          simp at hk
      | some rp =>
        simp only
        obtain ⟨c1, c2, c3⟩ := (ht.roles k' rp hr).2.1.clear
        have ht' := ht.setG hr rp.clear c1 c2
        rw [mem_setG ht hr ht']
        have hnil : ∀ x, x ∉ rp.clear.rules := by
          intro x hx
          rw [RolePolicy.rules_eq] at hx
          simp only [RolePolicy.clear, c3] at hx
          simp at hx
        constructor
        · rintro ⟨a, b⟩
          exact Or.inl ⟨a, fun f' e => b (by cases e; rfl)⟩
        · rintro (⟨a, b⟩ | ⟨f', -, hm⟩)
          · exact ⟨a, fun e => b f (by rw [e])⟩
          · exact absurd hm (hnil _)

theorem heldAfter_append (x : Rule) : ∀ (ops ops' : List Op) (now : Bool),
    isHeldAfter x now (ops ++ ops') = isHeldAfter x (isHeldAfter x now ops) ops'
  | [], _, _ => rfl
  | .add _ :: ops, ops', _ => heldAfter_append x ops ops' _
  | .remove _ :: ops, ops', _ => heldAfter_append x ops ops' _
  | .clear _ :: ops, ops', _ => heldAfter_append x ops ops' _

theorem Std.run {pDef : PolicyDef} {root : Stage} (hb : root.Binary) : ∀ (ops : List Op) {m : Model},
    m.Std pDef root → (∀ op ∈ ops, op.Okay (s% "p") pDef m) →
    (m.run ops).1.Std pDef root ∧ Same m (m.run ops).1 ∧
    ∀ k, m.Knows k → ∀ f now, (now = true ↔ k :: f ∈ m.rules) →
      (isHeldAfter (k :: f) now ops = true ↔ k :: f ∈ (m.run ops).1.rules)
  | [], m, h, _ => ⟨h, Same.refl m, fun _ _ _ _ hn => hn⟩
  | op :: ops, m, h, ho => by
    have h0 := ho op (by simp)
    have s1 := (h.step_same op h0).1
    have h1 := h.step hb op h0
    obtain ⟨a, b, c⟩ := Std.run hb ops h1 (fun o hm => (s1.okay _ _ _).2 (ho o (by simp [hm])))
    refine ⟨a, s1.trans b, ?_⟩
    intro k hk f now hn
    have e := h.step_mem op h0 hk f now hn
    have := c k ((s1.knows k).2 hk) f _ e
    rw [show op :: ops = [op] ++ ops from rfl, heldAfter_append]
    exact this

end Model

end Fastac
