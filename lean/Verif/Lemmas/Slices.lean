import Verif.Spec.Slices
import Verif.Lemmas.Spill

/-!
# Slices: helper lemmas
-/

namespace Fastac

section mapV
variable {K V W : Type} [DecidableEq K] (f : V → W)

theorem GoMap.mapV_get (m : GoMap K V) (k : K) : (m.mapV f).get k = (m.get k).map f := by
  induction m with
  | nil => rfl
  | cons e m ih =>
    obtain ⟨k', v⟩ := e
    show GoMap.get ((k', f v) :: GoMap.mapV f m) k = _
    unfold GoMap.get
    split
    · rfl
    · exact ih

theorem GoMap.mapV_set (m : GoMap K V) (k : K) (v : V) : (m.set k v).mapV f = (m.mapV f).set k (f v) := by
  induction m with
  | nil => rfl
  | cons e m ih =>
    obtain ⟨k', v'⟩ := e
    show _ = GoMap.set ((k', f v') :: GoMap.mapV f m) k (f v)
    unfold GoMap.set
    split
    · rfl
    · rw [← ih]; rfl

theorem GoMap.mapV_del (m : GoMap K V) (k : K) : (m.del k).mapV f = (m.mapV f).del k := by
  induction m with
  | nil => rfl
  | cons e m ih =>
    obtain ⟨k', v'⟩ := e
    show _ = GoMap.del ((k', f v') :: GoMap.mapV f m) k
    unfold GoMap.del
    split
    · exact ih
    · rw [← ih]; rfl

theorem GoMap.mapV_has (m : GoMap K V) (k : K) : (m.mapV f).has k = m.has k := by
  unfold GoMap.has
  rw [GoMap.mapV_get]
  cases m.get k <;> rfl

theorem GoMap.mem_del {m : GoMap K V} {k : K} {e : K × V} (h : e ∈ m.del k) : e ∈ m := by
  induction m with
  | nil => exact h
  | cons e' m ih =>
    obtain ⟨k', v'⟩ := e'
    unfold GoMap.del at h
    split at h
    · exact List.mem_cons_of_mem _ (ih h)
    · rcases List.mem_cons.1 h with h | h
      · exact h ▸ List.mem_cons_self
      · exact List.mem_cons_of_mem _ (ih h)

end mapV

theorem SRef.read_tail (mem : Mem) (ref : SRef) : ref.tail.read mem = (ref.read mem).tail := by
  cases ref with
  | own r => rfl
  | slice a o l =>
    simp only [SRef.tail, SRef.read, ← List.drop_one, List.drop_take, List.drop_drop]

theorem SRef.array_tail (ref : SRef) : ref.tail.array = ref.array := by cases ref <;> rfl

theorem SRef.array_lt {mem : Mem} {ref : SRef} (h : ref.read mem ≠ []) : ∀ a ∈ ref.array, a < mem.length := by
  cases ref with
  | own r => simp [SRef.array]
  | slice a o l =>
    intro b hb
    rw [SRef.array, List.mem_singleton] at hb
    subst hb
    apply Classical.byContradiction
    intro hn
    apply h
    simp [SRef.read, List.getElem?_eq_none (Nat.le_of_not_lt hn)]

theorem SRef.read_congr {mem mem' : Mem} {P : Nat → Prop} (hm : ∀ a, P a → mem'[a]? = mem[a]?) {ref : SRef}
    (h : ∀ a ∈ ref.array, P a) : ref.read mem' = ref.read mem := by
  cases ref with
  | own r => rfl
  | slice a o l => simp only [SRef.read, hm a (h a (by simp [SRef.array]))]

namespace SNode

theorem readMap_eq (mem : Mem) (m : List (Str × SNode)) : readMap mem m = GoMap.mapV (read mem) m := by
  induction m with
  | nil => rfl
  | cons e m ih => obtain ⟨k, n⟩ := e; rw [readMap, ih]; rfl

theorem readMaps_eq (mem : Mem) (ms : List (List (Str × SNode))) :
    readMaps mem ms = ms.map (GoMap.mapV (read mem)) := by
  induction ms with
  | nil => rfl
  | cons m ms ih => rw [readMaps, ih, readMap_eq]; rfl

theorem read_children (mem : Mem) (n : SNode) : (n.read mem).children = n.children.map (GoMap.mapV (read mem)) := by
  obtain ⟨r, cs⟩ := n
  rw [read, ← readMaps_eq]
  rfl

theorem read_setChild (mem : Mem) (n : SNode) (i : Nat) (m : GoMap Str SNode) :
    (n.setChild i m).read mem = (n.read mem).setChild i (m.mapV (read mem)) := by
  obtain ⟨r, cs⟩ := n
  simp only [setChild, read, readMaps_eq, Node.setChild, children, rule, Node.rule, Node.children, List.map_set]

theorem read_new (mem : Mem) (ref : SRef) : (newSNode ref).read mem = newNode (ref.read mem) := by
  simp [newSNode, read, readMaps, readMap, newNode]

end SNode

mutual
theorem sAddStage_read (mem : Mem) (pDef : PolicyDef) (rule : Rule) (ref : SRef) (h : ref.read mem = rule) :
    ∀ (st : Stage) (n : SNode), (sAddStage pDef rule ref st n).map (SNode.read mem) = addStage pDef rule st (n.read mem)
  | .mk _ cs, n => by
    rw [sAddStage, addStage]
    exact sAddChildren_read mem pDef rule ref h cs 0 n
theorem sAddChildren_read (mem : Mem) (pDef : PolicyDef) (rule : Rule) (ref : SRef) (h : ref.read mem = rule) :
    ∀ (cs : List Stage) (i : Nat) (n : SNode),
      (sAddChildren pDef rule ref cs i n).map (SNode.read mem) = addChildren pDef rule cs i (n.read mem)
  | [], _, n => by rw [sAddChildren, addChildren]; rfl
  | st :: rest, i, n => by
    rw [sAddChildren, addChildren, SNode.read_children, List.getElem?_map]
    cases hm : n.children[i]? with
    | none => rfl
    | some m =>
      simp only [Option.map_some]
      by_cases hl : st.isLeaf = true
      · simp only [hl, if_true, Res.bind_ok]
        rw [sAddChildren_read mem pDef rule ref h rest, SNode.read_setChild, GoMap.mapV_set, SNode.read_new, h]
      · simp only [hl, Bool.false_eq_true, if_false]
        have hn : ((GoMap.mapV (SNode.read mem) m).get (stageKey pDef st rule)).getD (newNode rule) =
            ((m.get (stageKey pDef st rule)).getD (newSNode ref)).read mem := by
          rw [GoMap.mapV_get]
          cases m.get (stageKey pDef st rule) with
          | none => simp only [Option.map_none, Option.getD_none]; rw [SNode.read_new, h]
          | some x => rfl
        rw [hn, ← sAddStage_read mem pDef rule ref h st]
        cases sAddStage pDef rule ref st ((m.get (stageKey pDef st rule)).getD (newSNode ref)) with
        | ok n' =>
          simp only [Res.map_ok, Res.bind_ok]
          rw [sAddChildren_read mem pDef rule ref h rest, SNode.read_setChild, GoMap.mapV_set]
        | err => rfl
        | panic => rfl
end

mutual
theorem sRemoveStage_read (mem : Mem) (pDef : PolicyDef) (rule : Rule) :
    ∀ (st : Stage) (n : SNode), (sRemoveStage pDef rule st n).map (SNode.read mem) = removeStage pDef rule st (n.read mem)
  | .mk _ cs, n => by
    rw [sRemoveStage, removeStage]
    exact sRemoveChildren_read mem pDef rule cs 0 n
theorem sRemoveChildren_read (mem : Mem) (pDef : PolicyDef) (rule : Rule) :
    ∀ (cs : List Stage) (i : Nat) (n : SNode),
      (sRemoveChildren pDef rule cs i n).map (SNode.read mem) = removeChildren pDef rule cs i (n.read mem)
  | [], _, n => by rw [sRemoveChildren, removeChildren]; rfl
  | st :: rest, i, n => by
    rw [sRemoveChildren, removeChildren, SNode.read_children, List.getElem?_map]
    cases hm : n.children[i]? with
    | none => rfl
    | some m =>
      simp only [Option.map_some]
      by_cases hl : st.isLeaf = true
      · simp only [hl, if_true, Res.bind_ok]
        rw [sRemoveChildren_read mem pDef rule rest, SNode.read_setChild, GoMap.mapV_del]
      · simp only [hl, Bool.false_eq_true, if_false, GoMap.mapV_get]
        cases hg : m.get (stageKey pDef st rule) with
        | none =>
          simp only [Option.map_none, Res.bind_ok]
          rw [sRemoveChildren_read mem pDef rule rest, SNode.read_setChild]
        | some x =>
          simp only [Option.map_some]
          rw [← sRemoveStage_read mem pDef rule st]
          cases sRemoveStage pDef rule st x with
          | ok n' =>
            simp only [Res.map_ok, Res.bind_ok]
            rw [sRemoveChildren_read mem pDef rule rest, SNode.read_setChild, GoMap.mapV_set]
          | err => rfl
          | panic => rfl
end

/-- An event with the content of the slice. -/
def SEvent.read (mem : Mem) : SEvent → PolEvent
  | .added r => .added (r.read mem)
  | .removed r => .removed (r.read mem)
  | .cleared => .cleared

theorem SMatcher.addRule_read (mem : Mem) (m : SMatcher) (ref : SRef) :
    (m.addRule mem ref).map (SMatcher.read mem) = (m.read mem).addRule (ref.read mem) := by
  have := sAddStage_read mem m.pDef (ref.read mem) ref rfl m.exprRoot m.root
  unfold SMatcher.addRule Matcher.addRule SMatcher.read
  simp only
  rw [← this]
  cases sAddStage m.pDef (ref.read mem) ref m.exprRoot m.root <;> rfl

theorem SMatcher.handle_read (mem : Mem) (m : SMatcher) (e : SEvent) :
    (m.handle mem e).map (SMatcher.read mem) = (m.read mem).handle (e.read mem) := by
  cases e with
  | added r => exact m.addRule_read mem r
  | removed r =>
    have := sRemoveStage_read mem m.pDef (r.read mem) m.exprRoot m.root
    unfold SMatcher.handle SMatcher.removeRule Matcher.handle SEvent.read Matcher.removeRule SMatcher.read
    simp only
    rw [← this]
    cases sRemoveStage m.pDef (r.read mem) m.exprRoot m.root <;> rfl
  | cleared =>
    simp only [SMatcher.handle, SEvent.read, Matcher.handle, Res.map_ok, SMatcher.read, Matcher.cleared,
      SNode.read_new, SRef.read]

theorem sNotify_read (mem : Mem) (ls : List SMatcher) (e : SEvent) :
    (sNotify mem ls e).map (List.map (SMatcher.read mem)) = notify (ls.map (SMatcher.read mem)) (e.read mem) := by
  induction ls with
  | nil => rfl
  | cons m ms ih =>
    rw [sNotify, List.map_cons, notify, ← SMatcher.handle_read, ← ih]
    cases m.handle mem e with
    | ok m' => cases sNotify mem ms e <;> rfl
    | err => rfl
    | panic => rfl

theorem SMatcher.new_read (mem : Mem) (pDef : PolicyDef) (root : Stage) (refs : List SRef) :
    (SMatcher.new mem pDef root refs).map (SMatcher.read mem) = newMatcher pDef root (refs.map (SRef.read mem)) := by
  unfold SMatcher.new newMatcher
  have key : ∀ (refs : List SRef) (r : Res SMatcher),
      (refs.foldl (fun r ref => r.bind (fun m => m.addRule mem ref)) r).map (SMatcher.read mem) =
      (refs.map (SRef.read mem)).foldl (fun r rule => r.bind (fun m => m.addRule rule)) (r.map (SMatcher.read mem)) := by
    intro refs
    induction refs with
    | nil => intro r; rfl
    | cons x xs ih =>
      intro r
      rw [List.foldl_cons, ih, List.map_cons, List.foldl_cons]
      congr 1
      cases r with
      | ok m => exact m.addRule_read mem x
      | err => rfl
      | panic => rfl
  rw [key]
  simp only [Res.map_ok, SMatcher.read, SNode.read_new, SRef.read]

namespace SModel

theorem emitPolicy_read {α : Type} (mem : Mem) (m : SModel) (key : Str) (ls : List SMatcher) (pol : GoMap Str SRef)
    (a : α) (e : SEvent) :
    ((m.emitPolicy mem key ls pol a e).1.read mem, (m.emitPolicy mem key ls pol a e).2) =
      (m.read mem).emitPolicy key (ls.map (SMatcher.read mem)) ⟨pol.mapV (SRef.read mem)⟩ a (some (e.read mem)) := by
  unfold emitPolicy Model.emitPolicy
  simp only
  rw [← sNotify_read]
  cases sNotify mem ls e <;> simp only [Res.map_ok, Res.map_err, Res.map_panic, read, GoMap.mapV_set, SPol.read]

theorem addPolicyRule_read (mem : Mem) (m : SModel) (key : Str) (ref : SRef) :
    ((m.addPolicyRule mem key ref).1.read mem, (m.addPolicyRule mem key ref).2) =
      (m.read mem).addPolicyRule key (ref.read mem) := by
  unfold addPolicyRule Model.addPolicyRule
  have : (m.read mem).pMap.get key = (m.pMap.get key).map (SPol.read mem) := GoMap.mapV_get _ _ _
  rw [this]
  cases hp : m.pMap.get key with
  | none => rfl
  | some p =>
    simp only [Option.map_some, Policy.addRule, SPol.read, GoMap.mapV_has]
    cases hh : p.ruleMap.has (hash (ref.read mem)) with
    | true => simp only [if_true, Model.emitPolicy, read, GoMap.mapV_set, SPol.read]
    | false =>
      simp only [if_false, Bool.false_eq_true]
      rw [emitPolicy_read]
      simp only [SEvent.read, GoMap.mapV_set]

theorem removePolicyRule_read (mem : Mem) (m : SModel) (key : Str) (ref : SRef) :
    ((m.removePolicyRule mem key ref).1.read mem, (m.removePolicyRule mem key ref).2) =
      (m.read mem).removePolicyRule key (ref.read mem) := by
  unfold removePolicyRule Model.removePolicyRule
  have : (m.read mem).pMap.get key = (m.pMap.get key).map (SPol.read mem) := GoMap.mapV_get _ _ _
  rw [this]
  cases hp : m.pMap.get key with
  | none => rfl
  | some p =>
    simp only [Option.map_some, Policy.removeRule, SPol.read, GoMap.mapV_has]
    cases hh : p.ruleMap.has (hash (ref.read mem)) with
    | false => simp only [if_false, Bool.false_eq_true, Model.emitPolicy, read, GoMap.mapV_set, SPol.read]
    | true =>
      simp only [if_true]
      rw [emitPolicy_read]
      simp only [SEvent.read, GoMap.mapV_del]

theorem emitRole_read (mem : Mem) (m : SModel) (key : Str) (rp : RolePolicy) (ls : List SMatcher) (mgr : Mgr) (e : SEvent)
    (hls : rp.listeners = ls.map (SMatcher.read mem)) :
    ((m.emitRole mem key ls mgr e).1.read mem, (m.emitRole mem key ls mgr e).2) =
      ({ m.read mem with rpMap := (m.read mem).rpMap.set key (rp.emit mgr (e.read mem)).1 }, (rp.emit mgr (e.read mem)).2) := by
  unfold emitRole RolePolicy.emit
  rw [hls, ← sNotify_read]
  cases sNotify mem ls e <;> simp only [Res.map_ok, Res.map_err, Res.map_panic, read, GoMap.mapV_set, SRole.read]

/-- The call when it leaves the memory as it is. -/
def addRoleRuleV (mem : Mem) (m : SModel) (key : Str) (ref : SRef) : SModel × Res Bool :=
  match m.rpMap.get key with
  | none => (m, .err)
  | some rp =>
    let same : SModel := { m with rpMap := m.rpMap.set key rp }
    match ref.read mem with
    | u :: r :: ds =>
      match rp.mgr.addLink u r ds with
      | .ok (mgr, true) => m.emitRole mem key rp.listeners mgr (.added ref)
      | .ok (mgr, false) => ({ m with rpMap := m.rpMap.set key ⟨mgr, rp.listeners⟩ }, .ok false)
      | .err => (same, .err)
      | .panic => (same, .panic)
    | _ => (same, .panic)

/-- The call when it leaves the memory as it is. -/
def removeRoleRuleV (mem : Mem) (m : SModel) (key : Str) (ref : SRef) : SModel × Res Bool :=
  match m.rpMap.get key with
  | none => (m, .err)
  | some rp =>
    let same : SModel := { m with rpMap := m.rpMap.set key rp }
    match ref.read mem with
    | u :: r :: ds =>
      match rp.mgr.deleteLink u r ds with
      | .ok (mgr, true) => m.emitRole mem key rp.listeners mgr (.removed ref)
      | .ok (mgr, false) => ({ m with rpMap := m.rpMap.set key ⟨mgr, rp.listeners⟩ }, .ok false)
      | .err => (same, .err)
      | .panic => (same, .panic)
    | _ => (same, .panic)

/-- The call when it leaves the memory as it is. -/
def addRuleV (mem : Mem) (m : SModel) (ref : SRef) : SModel × Res Bool × List SRef :=
  match ref.read mem with
  | [] => (m, .panic, [])
  | [] :: _ => (m, .panic, [])
  | (c :: cs) :: _ =>
    let (m', res) :=
      if c = 'p' then m.addPolicyRule mem (c :: cs) ref.tail
      else if c = 'g' then m.addRoleRuleV mem (c :: cs) ref.tail
      else (m, .err)
    (m', res, if res = .ok true then [ref] else [])

/-- The call when it leaves the memory as it is. -/
def removeRuleV (mem : Mem) (m : SModel) (ref : SRef) : SModel × Res Bool × List SRef :=
  match ref.read mem with
  | [] => (m, .panic, [])
  | [] :: _ => (m, .panic, [])
  | (c :: cs) :: _ =>
    let (m', res) :=
      if c = 'p' then m.removePolicyRule mem (c :: cs) ref.tail
      else if c = 'g' then m.removeRoleRuleV mem (c :: cs) ref.tail
      else (m, .err)
    (m', res, if res = .ok true then [ref] else [])

theorem addRoleRuleV_read (mem : Mem) (m : SModel) (key : Str) (ref : SRef) :
    ((m.addRoleRuleV mem key ref).1.read mem, (m.addRoleRuleV mem key ref).2) =
      (m.read mem).addRoleRule key (ref.read mem) := by
  unfold addRoleRuleV Model.addRoleRule
  have : (m.read mem).rpMap.get key = (m.rpMap.get key).map (SRole.read mem) := GoMap.mapV_get _ _ _
  rw [this]
  cases hp : m.rpMap.get key with
  | none => rfl
  | some rp =>
    simp only [Option.map_some, RolePolicy.addRule]
    have hsame : ({ m with rpMap := m.rpMap.set key rp } : SModel).read mem =
        { m.read mem with rpMap := (m.read mem).rpMap.set key (rp.read mem) } := by
      simp only [read, GoMap.mapV_set]
    match hr : ref.read mem with
    | [] => simp only [hsame]
    | [_] => simp only [hsame]
    | u :: r :: ds =>
      simp only
      show _ = (_, _)
      have hmgr : (rp.read mem).mgr = rp.mgr := rfl
      rw [hmgr]
      cases rp.mgr.addLink u r ds with
      | err => simp only [hsame]
      | panic => simp only [hsame]
      | ok x =>
        obtain ⟨mgr, b⟩ := x
        cases b with
        | false => simp only [read, GoMap.mapV_set, SRole.read]
        | true =>
          simp only
          rw [emitRole_read mem m key (rp.read mem) rp.listeners mgr _ rfl]
          simp only [SEvent.read, hr]

theorem removeRoleRuleV_read (mem : Mem) (m : SModel) (key : Str) (ref : SRef) :
    ((m.removeRoleRuleV mem key ref).1.read mem, (m.removeRoleRuleV mem key ref).2) =
      (m.read mem).removeRoleRule key (ref.read mem) := by
  unfold removeRoleRuleV Model.removeRoleRule
  have : (m.read mem).rpMap.get key = (m.rpMap.get key).map (SRole.read mem) := GoMap.mapV_get _ _ _
  rw [this]
  cases hp : m.rpMap.get key with
  | none => rfl
  | some rp =>
    simp only [Option.map_some, RolePolicy.removeRule]
    have hsame : ({ m with rpMap := m.rpMap.set key rp } : SModel).read mem =
        { m.read mem with rpMap := (m.read mem).rpMap.set key (rp.read mem) } := by
      simp only [read, GoMap.mapV_set]
    match hr : ref.read mem with
    | [] => simp only [hsame]
    | [_] => simp only [hsame]
    | u :: r :: ds =>
      simp only
      show _ = (_, _)
      have hmgr : (rp.read mem).mgr = rp.mgr := rfl
      rw [hmgr]
      cases rp.mgr.deleteLink u r ds with
      | err => simp only [hsame]
      | panic => simp only [hsame]
      | ok x =>
        obtain ⟨mgr, b⟩ := x
        cases b with
        | false => simp only [read, GoMap.mapV_set, SRole.read]
        | true =>
          simp only
          rw [emitRole_read mem m key (rp.read mem) rp.listeners mgr _ rfl]
          simp only [SEvent.read, hr]

theorem addRuleV_read (mem : Mem) (m : SModel) (ref : SRef) :
    ((m.addRuleV mem ref).1.read mem, (m.addRuleV mem ref).2.1,
      (m.addRuleV mem ref).2.2.map (fun x => ModEvent.added (x.read mem))) =
    (((m.read mem).addRule (ref.read mem)).1, ((m.read mem).addRule (ref.read mem)).2.1,
      ((m.read mem).addRule (ref.read mem)).2.2.toList) := by
  unfold addRuleV Model.addRule
  match hr : ref.read mem with
  | [] => rfl
  | [] :: _ => rfl
  | (c :: cs) :: fields =>
    have ht : ref.tail.read mem = fields := by rw [SRef.read_tail, hr]; rfl
    simp only
    by_cases hc : c = 'p'
    · simp only [hc, if_true]
      have := addPolicyRule_read mem m ('p' :: cs) ref.tail
      rw [ht] at this
      rw [← this]
      simp only
      split <;> simp [hr, hc]
    · simp only [hc, if_false]
      by_cases hg : c = 'g'
      · simp only [hg, if_true]
        have := addRoleRuleV_read mem m ('g' :: cs) ref.tail
        rw [ht] at this
        rw [← this]
        simp only
        split <;> simp [hr, hg]
      · simp only [hg, if_false]
        simp

theorem removeRuleV_read (mem : Mem) (m : SModel) (ref : SRef) :
    ((m.removeRuleV mem ref).1.read mem, (m.removeRuleV mem ref).2.1,
      (m.removeRuleV mem ref).2.2.map (fun x => ModEvent.removed (x.read mem))) =
    (((m.read mem).removeRule (ref.read mem)).1, ((m.read mem).removeRule (ref.read mem)).2.1,
      ((m.read mem).removeRule (ref.read mem)).2.2.toList) := by
  unfold removeRuleV Model.removeRule
  match hr : ref.read mem with
  | [] => rfl
  | [] :: _ => rfl
  | (c :: cs) :: fields =>
    have ht : ref.tail.read mem = fields := by rw [SRef.read_tail, hr]; rfl
    simp only
    by_cases hc : c = 'p'
    · simp only [hc, if_true]
      have := removePolicyRule_read mem m ('p' :: cs) ref.tail
      rw [ht] at this
      rw [← this]
      simp only
      split <;> simp [hr, hc]
    · simp only [hc, if_false]
      by_cases hg : c = 'g'
      · simp only [hg, if_true]
        have := removeRoleRuleV_read mem m ('g' :: cs) ref.tail
        rw [ht] at this
        rw [← this]
        simp only
        split <;> simp [hr, hg]
      · simp only [hg, if_false]
        simp

theorem clearPolicy_read (mem : Mem) (m : SModel) (key : Str) :
    ((m.clearPolicy mem key).1.read mem, (m.clearPolicy mem key).2) = (m.read mem).clearPolicy key := by
  unfold clearPolicy Model.clearPolicy
  have h1 : (m.read mem).pMap.get key = (m.pMap.get key).map (SPol.read mem) := GoMap.mapV_get _ _ _
  have h2 : (m.read mem).rpMap.get key = (m.rpMap.get key).map (SRole.read mem) := GoMap.mapV_get _ _ _
  rw [h1, h2]
  cases m.pMap.get key with
  | some p =>
    simp only [Option.map_some]
    rw [emitPolicy_read]
    rfl
  | none =>
    cases m.rpMap.get key with
    | none => rfl
    | some rp => simp only [Option.map_some, Option.map_none, read, GoMap.mapV_set, SRole.read, RolePolicy.clear]

theorem buildMatcher_read (build : Str → Res Stage) (mem : Mem) (m : SModel) (key : Str) :
    ((m.buildMatcher build mem key).1.read mem, (m.buildMatcher build mem key).2) =
      (m.read mem).buildMatcher build key := by
  unfold buildMatcher Model.buildMatcher
  have h0 : (m.read mem).mDefs = m.rest.mDefs := rfl
  rw [h0]
  cases m.rest.mDefs.get key with
  | none => rfl
  | some expr =>
    simp only
    cases build expr with
    | err => rfl
    | panic => rfl
    | ok root =>
      simp only
      have h3 : (m.read mem).matcherPolicyDef root.policyKey = m.rest.matcherPolicyDef root.policyKey := rfl
      rw [h3]
      cases m.rest.matcherPolicyDef root.policyKey with
      | err => rfl
      | panic => rfl
      | ok pDef =>
        simp only
        have h1 : (m.read mem).pMap.get root.policyKey = (m.pMap.get root.policyKey).map (SPol.read mem) :=
          GoMap.mapV_get _ _ _
        have h2 : (m.read mem).rpMap.get root.policyKey = (m.rpMap.get root.policyKey).map (SRole.read mem) :=
          GoMap.mapV_get _ _ _
        rw [h1, h2]
        cases m.pMap.get root.policyKey with
        | some p =>
          simp only [Option.map_some]
          have hr : (p.read mem).policy.rules = (p.ruleMap.map Prod.snd).map (SRef.read mem) := by
            simp [SPol.read, Policy.rules, GoMap.mapV]
          rw [hr, ← SMatcher.new_read]
          cases SMatcher.new mem pDef root (p.ruleMap.map Prod.snd) with
          | err => rfl
          | panic => rfl
          | ok mt =>
            simp only [Res.map_ok, read, GoMap.mapV_set, SPol.read, List.map_append, List.map_cons, List.map_nil,
              List.length_map]
        | none =>
          cases m.rpMap.get root.policyKey with
          | none => rfl
          | some rp =>
            simp only [Option.map_some, Option.map_none]
            have hr : (rp.read mem).rules = ((rp.read mem).rules.map SRef.own).map (SRef.read mem) := by
              simp [Function.comp_def, SRef.read]
            have := SMatcher.new_read mem pDef root ((rp.read mem).rules.map SRef.own)
            rw [← hr] at this
            rw [← this]
            cases SMatcher.new mem pDef root ((rp.read mem).rules.map SRef.own) with
            | err => rfl
            | panic => rfl
            | ok mt =>
              simp only [Res.map_ok, read, GoMap.mapV_set, SRole.read, List.map_append, List.map_cons, List.map_nil,
                List.length_map]

end SModel

/-! ## Which arrays are used -/

namespace SNode
variable {P : Nat → Prop}

theorem inMap_iff (m : List (Str × SNode)) : InMap P m ↔ ∀ e ∈ m, e.2.In P := by
  induction m with
  | nil => simp [InMap]
  | cons e m ih => obtain ⟨k, n⟩ := e; simp [InMap, ih]

theorem inMaps_iff (ms : List (List (Str × SNode))) : InMaps P ms ↔ ∀ m ∈ ms, InMap P m := by
  induction ms with
  | nil => simp [InMaps]
  | cons m ms ih => simp [InMaps, ih]

theorem In.child {n : SNode} (h : n.In P) {i : Nat} {m : GoMap Str SNode} (hm : n.children[i]? = some m) :
    InMap P m := by
  obtain ⟨r, cs⟩ := n
  rw [In, inMaps_iff] at h
  exact h.2 m (List.mem_of_getElem? hm)

theorem In.setChild {n : SNode} (h : n.In P) (i : Nat) {m : GoMap Str SNode} (hm : InMap P m) :
    (n.setChild i m).In P := by
  obtain ⟨r, cs⟩ := n
  rw [In, inMaps_iff] at h
  simp only [SNode.setChild, children, rule, In, inMaps_iff]
  refine ⟨h.1, fun x hx => ?_⟩
  rcases List.mem_or_eq_of_mem_set hx with hx | rfl
  · exact h.2 x hx
  · exact hm

theorem InMap.set {m : GoMap Str SNode} (h : InMap P m) (k : Str) {n : SNode} (hn : n.In P) : InMap P (m.set k n) := by
  rw [inMap_iff] at h ⊢
  intro e he
  rcases GoMap.mem_set he with rfl | he
  · exact hn
  · exact h e he

theorem InMap.del {m : GoMap Str SNode} (h : InMap P m) (k : Str) : InMap P (m.del k) := by
  rw [inMap_iff] at h ⊢
  exact fun e he => h e (GoMap.mem_del he)

theorem InMap.get {m : GoMap Str SNode} (h : InMap P m) {k : Str} {n : SNode} (hn : m.get k = some n) : n.In P :=
  (inMap_iff m).1 h _ (GoMap.mem_of_get hn)

theorem in_new {ref : SRef} (h : ∀ a ∈ ref.array, P a) : (newSNode ref).In P := by
  simp [newSNode, In, InMaps, InMap]
  exact h

end SNode

mutual
theorem sAddStage_in {P : Nat → Prop} (pDef : PolicyDef) (rule : Rule) (ref : SRef) (h : ∀ a ∈ ref.array, P a) :
    ∀ (st : Stage) (n n' : SNode), n.In P → sAddStage pDef rule ref st n = .ok n' → n'.In P
  | .mk _ cs, n, n', hn, e => by
    rw [sAddStage] at e
    exact sAddChildren_in pDef rule ref h cs 0 n n' hn e
theorem sAddChildren_in {P : Nat → Prop} (pDef : PolicyDef) (rule : Rule) (ref : SRef) (h : ∀ a ∈ ref.array, P a) :
    ∀ (cs : List Stage) (i : Nat) (n n' : SNode), n.In P → sAddChildren pDef rule ref cs i n = .ok n' → n'.In P
  | [], _, n, n', hn, e => by
    rw [sAddChildren] at e
    cases e
    exact hn
  | st :: rest, i, n, n', hn, e => by
    rw [sAddChildren] at e
    cases hm : n.children[i]? with
    | none => rw [hm] at e; cases e
    | some m =>
      rw [hm] at e
      by_cases hl : st.isLeaf = true
      · simp only [hl, if_true, Res.bind_ok] at e
        exact sAddChildren_in pDef rule ref h rest _ _ n' (hn.setChild i ((hn.child hm).set _ (SNode.in_new h))) e
      · simp only [hl, Bool.false_eq_true, if_false] at e
        cases hs : sAddStage pDef rule ref st ((m.get (stageKey pDef st rule)).getD (newSNode ref)) with
        | err => rw [hs] at e; cases e
        | panic => rw [hs] at e; cases e
        | ok x =>
          rw [hs] at e
          simp only [Res.map_ok, Res.bind_ok] at e
          have hx := sAddStage_in pDef rule ref h st _ x (by
            cases hg : m.get (stageKey pDef st rule) with
            | none => exact SNode.in_new h
            | some y => exact (hn.child hm).get hg) hs
          exact sAddChildren_in pDef rule ref h rest _ _ n' (hn.setChild i ((hn.child hm).set _ hx)) e
end

mutual
theorem sRemoveStage_in {P : Nat → Prop} (pDef : PolicyDef) (rule : Rule) :
    ∀ (st : Stage) (n n' : SNode), n.In P → sRemoveStage pDef rule st n = .ok n' → n'.In P
  | .mk _ cs, n, n', hn, e => by
    rw [sRemoveStage] at e
    exact sRemoveChildren_in pDef rule cs 0 n n' hn e
theorem sRemoveChildren_in {P : Nat → Prop} (pDef : PolicyDef) (rule : Rule) :
    ∀ (cs : List Stage) (i : Nat) (n n' : SNode), n.In P → sRemoveChildren pDef rule cs i n = .ok n' → n'.In P
  | [], _, n, n', hn, e => by
    rw [sRemoveChildren] at e
    cases e
    exact hn
  | st :: rest, i, n, n', hn, e => by
    rw [sRemoveChildren] at e
    cases hm : n.children[i]? with
    | none => rw [hm] at e; cases e
    | some m =>
      rw [hm] at e
      by_cases hl : st.isLeaf = true
      · simp only [hl, if_true, Res.bind_ok] at e
        exact sRemoveChildren_in pDef rule rest _ _ n' (hn.setChild i ((hn.child hm).del _)) e
      · simp only [hl, Bool.false_eq_true, if_false] at e
        cases hg : m.get (stageKey pDef st rule) with
        | none =>
          rw [hg] at e
          simp only [Res.bind_ok] at e
          exact sRemoveChildren_in pDef rule rest _ _ n' (hn.setChild i (hn.child hm)) e
        | some y =>
          rw [hg] at e
          simp only at e
          cases hs : sRemoveStage pDef rule st y with
          | err => rw [hs] at e; cases e
          | panic => rw [hs] at e; cases e
          | ok x =>
            rw [hs] at e
            simp only [Res.map_ok, Res.bind_ok] at e
            have hx := sRemoveStage_in pDef rule st _ x ((hn.child hm).get hg) hs
            exact sRemoveChildren_in pDef rule rest _ _ n' (hn.setChild i ((hn.child hm).set _ hx)) e
end

/-- The arrays of the slice that an event adds. -/
def SEvent.In (P : Nat → Prop) : SEvent → Prop
  | .added r => ∀ a ∈ r.array, P a
  | _ => True

theorem SMatcher.addRule_in {P : Nat → Prop} {mem : Mem} {m m' : SMatcher} {ref : SRef} (h : ∀ a ∈ ref.array, P a)
    (hm : m.root.In P) (e : m.addRule mem ref = .ok m') : m'.root.In P := by
  unfold SMatcher.addRule at e
  cases hs : sAddStage m.pDef (ref.read mem) ref m.exprRoot m.root with
  | err => rw [hs] at e; cases e
  | panic => rw [hs] at e; cases e
  | ok x =>
    rw [hs] at e
    cases e
    exact sAddStage_in _ _ ref h _ _ x hm hs

theorem SMatcher.handle_in {P : Nat → Prop} {mem : Mem} {m m' : SMatcher} {ev : SEvent} (h : ev.In P)
    (hm : m.root.In P) (e : m.handle mem ev = .ok m') : m'.root.In P := by
  cases ev with
  | added r => exact SMatcher.addRule_in h hm e
  | removed r =>
    unfold SMatcher.handle SMatcher.removeRule at e
    simp only at e
    cases hs : sRemoveStage m.pDef (r.read mem) m.exprRoot m.root with
    | err => rw [hs] at e; cases e
    | panic => rw [hs] at e; cases e
    | ok x =>
      rw [hs] at e
      cases e
      exact sRemoveStage_in _ _ _ _ x hm hs
  | cleared =>
    cases e
    exact SNode.in_new (by simp [SRef.array])

theorem sNotify_in {P : Nat → Prop} {mem : Mem} {ev : SEvent} (h : ev.In P) : ∀ (ls ls' : List SMatcher),
    (∀ x ∈ ls, x.root.In P) → sNotify mem ls ev = .ok ls' → ∀ x ∈ ls', x.root.In P := by
  intro ls
  induction ls with
  | nil =>
    intro ls' _ e
    cases e
    simp
  | cons m ms ih =>
    intro ls' hls e
    rw [sNotify] at e
    cases h1 : m.handle mem ev with
    | err => rw [h1] at e; cases e
    | panic => rw [h1] at e; cases e
    | ok m' =>
      rw [h1] at e
      cases h2 : sNotify mem ms ev with
      | err => rw [h2] at e; cases e
      | panic => rw [h2] at e; cases e
      | ok ms' =>
        rw [h2] at e
        cases e
        intro x hx
        rcases List.mem_cons.1 hx with rfl | hx
        · exact SMatcher.handle_in h (hls m List.mem_cons_self) h1
        · exact ih ms' (fun y hy => hls y (List.mem_cons_of_mem _ hy)) h2 x hx

theorem SMatcher.new_in {P : Nat → Prop} {mem : Mem} {pDef : PolicyDef} {root : Stage} {refs : List SRef} {mt : SMatcher}
    (h : ∀ ref ∈ refs, ∀ a ∈ ref.array, P a) (e : SMatcher.new mem pDef root refs = .ok mt) : mt.root.In P := by
  unfold SMatcher.new at e
  have key : ∀ (refs : List SRef) (r : Res SMatcher), (∀ ref ∈ refs, ∀ a ∈ ref.array, P a) →
      (∀ x, r = .ok x → x.root.In P) →
      ∀ x, refs.foldl (fun r ref => r.bind (fun m => m.addRule mem ref)) r = .ok x → x.root.In P := by
    intro refs
    induction refs with
    | nil => intro r _ hr x hx; exact hr x hx
    | cons ref refs ih =>
      intro r hrefs hr x hx
      rw [List.foldl_cons] at hx
      refine ih _ (fun y hy => hrefs y (List.mem_cons_of_mem _ hy)) ?_ x hx
      intro y hy
      cases r with
      | err => cases hy
      | panic => cases hy
      | ok m => exact SMatcher.addRule_in (hrefs ref List.mem_cons_self) (hr m rfl) hy
  refine key refs _ h ?_ mt e
  intro x hx
  cases hx
  exact SNode.in_new (by simp [SRef.array])

namespace SModel
variable {P : Nat → Prop}

theorem In.setP {m : SModel} (h : m.In P) {key : Str} {p : SPol} (h1 : ∀ k ref, (k, ref) ∈ p.ruleMap → ∀ a ∈ ref.array, P a)
    (h2 : ∀ x ∈ p.listeners, x.root.In P) : ({ m with pMap := m.pMap.set key p } : SModel).In P := by
  constructor
  · intro k q hq
    rcases GoMap.mem_set hq with e | hq
    · cases e; exact h1
    · exact h.rules k q hq
  · intro k q hq
    rcases GoMap.mem_set hq with e | hq
    · cases e; exact h2
    · exact h.matchers k q hq
  · exact h.roles

theorem In.setR {m : SModel} (h : m.In P) {key : Str} {p : SRole} (h2 : ∀ x ∈ p.listeners, x.root.In P) :
    ({ m with rpMap := m.rpMap.set key p } : SModel).In P := by
  refine ⟨h.rules, h.matchers, ?_⟩
  intro k q hq
  rcases GoMap.mem_set hq with e | hq
  · cases e; exact h2
  · exact h.roles k q hq

theorem In.rest {m : SModel} (h : m.In P) (r : Model) : ({ m with rest := r } : SModel).In P :=
  ⟨h.rules, h.matchers, h.roles⟩

theorem In.mono {m : SModel} {P' : Nat → Prop} (h : m.In P) (hP : ∀ a, P a → P' a) : m.In P' := by
  have key : ∀ n : SNode, n.In P → n.In P' := fun n => SNode.rec
    (motive_1 := fun n => n.In P → n.In P') (motive_2 := fun ms => SNode.InMaps P ms → SNode.InMaps P' ms)
    (motive_3 := fun m => SNode.InMap P m → SNode.InMap P' m) (motive_4 := fun e => e.2.In P → e.2.In P')
    (fun r cs ih hn => by rw [SNode.In] at hn ⊢; exact ⟨fun a ha => hP a (hn.1 a ha), ih hn.2⟩)
    (fun _ => by simp [SNode.InMaps])
    (fun m ms ih1 ih2 hn => by rw [SNode.InMaps] at hn ⊢; exact ⟨ih1 hn.1, ih2 hn.2⟩)
    (fun _ => by simp [SNode.InMap])
    (fun e m ih1 ih2 hn => by obtain ⟨k, n⟩ := e; rw [SNode.InMap] at hn ⊢; exact ⟨ih1 hn.1, ih2 hn.2⟩)
    (fun _ _ ih => ih) n
  exact ⟨fun k p hp k' ref hr a ha => hP a (h.rules k p hp k' ref hr a ha), fun k p hp x hx => key _ (h.matchers k p hp x hx),
    fun k p hp x hx => key _ (h.roles k p hp x hx)⟩

theorem emitPolicy_in {α : Type} {mem : Mem} {m : SModel} {key : Str} {ls : List SMatcher} {pol : GoMap Str SRef} {a : α}
    {e : SEvent} (h : m.In P) (hp : ∀ k ref, (k, ref) ∈ pol → ∀ a ∈ ref.array, P a) (hls : ∀ x ∈ ls, x.root.In P)
    (he : e.In P) : (m.emitPolicy mem key ls pol a e).1.In P := by
  unfold emitPolicy
  cases hs : sNotify mem ls e with
  | ok ls' => exact h.setP hp (sNotify_in he ls ls' hls hs)
  | err => exact h.setP hp hls
  | panic => exact h.setP hp hls

theorem emitRole_in {mem : Mem} {m : SModel} {key : Str} {ls : List SMatcher} {mgr : Mgr}
    {e : SEvent} (h : m.In P) (hls : ∀ x ∈ ls, x.root.In P)
    (he : e.In P) : (m.emitRole mem key ls mgr e).1.In P := by
  unfold emitRole
  cases hs : sNotify mem ls e with
  | ok ls' => exact h.setR (sNotify_in he ls ls' hls hs)
  | err => exact h.setR hls
  | panic => exact h.setR hls

theorem addRuleV_in {mem : Mem} {m : SModel} {ref : SRef} (h : m.In P)
    (hr : ref.read mem ≠ [] → ∀ a ∈ ref.array, P a) : (m.addRuleV mem ref).1.In P := by
  unfold addRuleV
  match he : ref.read mem with
  | [] => exact h
  | [] :: _ => exact h
  | (c :: cs) :: fields =>
    have ht : ∀ a ∈ ref.tail.array, P a := by rw [SRef.array_tail]; exact hr (by rw [he]; simp)
    simp only
    split
    · unfold addPolicyRule
      cases hp : m.pMap.get (c :: cs) with
      | none => exact h
      | some p =>
        have hp := GoMap.mem_of_get hp
        simp only
        split
        · exact h.setP (h.rules _ _ hp) (h.matchers _ _ hp)
        · refine emitPolicy_in h ?_ (h.matchers _ _ hp) ht
          intro k r hr
          rcases GoMap.mem_set hr with e | hr
          · cases e; exact ht
          · exact h.rules _ _ hp k r hr
    · split
      · unfold addRoleRuleV
        cases hp : m.rpMap.get (c :: cs) with
        | none => exact h
        | some p =>
          have hp := GoMap.mem_of_get hp
          simp only
          split
          · split
            · exact emitRole_in h (h.roles _ _ hp) ht
            · exact h.setR (h.roles _ p hp)
            · exact h.setR (h.roles _ p hp)
            · exact h.setR (h.roles _ p hp)
          · exact h.setR (h.roles _ _ hp)
      · exact h

theorem removeRuleV_in {mem : Mem} {m : SModel} {ref : SRef} (h : m.In P) : (m.removeRuleV mem ref).1.In P := by
  unfold removeRuleV
  match he : ref.read mem with
  | [] => exact h
  | [] :: _ => exact h
  | (c :: cs) :: fields =>
    simp only
    split
    · unfold removePolicyRule
      cases hp : m.pMap.get (c :: cs) with
      | none => exact h
      | some p =>
        have hp := GoMap.mem_of_get hp
        simp only
        split
        · refine emitPolicy_in h ?_ (h.matchers _ _ hp) trivial
          exact fun k r hr => h.rules _ _ hp k r (GoMap.mem_del hr)
        · exact h.setP (h.rules _ _ hp) (h.matchers _ _ hp)
    · split
      · unfold removeRoleRuleV
        cases hp : m.rpMap.get (c :: cs) with
        | none => exact h
        | some p =>
          have hp := GoMap.mem_of_get hp
          simp only
          split
          · split
            · exact emitRole_in h (h.roles _ _ hp) trivial
            · exact h.setR (h.roles _ p hp)
            · exact h.setR (h.roles _ p hp)
            · exact h.setR (h.roles _ p hp)
          · exact h.setR (h.roles _ _ hp)
      · exact h

theorem clearPolicy_in {mem : Mem} {m : SModel} {key : Str} (h : m.In P) : (m.clearPolicy mem key).1.In P := by
  unfold clearPolicy
  cases hp : m.pMap.get key with
  | some p => exact emitPolicy_in h (by simp) (h.matchers _ _ (GoMap.mem_of_get hp)) trivial
  | none =>
    cases hq : m.rpMap.get key with
    | none => exact h
    | some rp => exact h.setR (h.roles _ rp (GoMap.mem_of_get hq))

theorem buildMatcher_in {build : Str → Res Stage} {mem : Mem} {m : SModel} {key : Str} (h : m.In P) :
    (m.buildMatcher build mem key).1.In P := by
  unfold buildMatcher
  cases m.rest.mDefs.get key with
  | none => exact h
  | some expr =>
    simp only
    cases build expr with
    | err => exact h
    | panic => exact h
    | ok root =>
      simp only
      cases m.rest.matcherPolicyDef root.policyKey with
      | err => exact h
      | panic => exact h
      | ok pDef =>
        simp only
        cases hp : m.pMap.get root.policyKey with
        | some p =>
          have hp := GoMap.mem_of_get hp
          simp only
          cases hs : SMatcher.new mem pDef root (p.ruleMap.map Prod.snd) with
          | err => exact h
          | panic => exact h
          | ok mt =>
            refine In.setP (h.rest _) (h.rules _ p hp) ?_
            intro x hx
            rcases List.mem_append.1 hx with hx | hx
            · exact h.matchers _ _ hp x hx
            · rw [List.mem_singleton] at hx
              subst hx
              refine SMatcher.new_in ?_ hs
              intro ref href
              obtain ⟨e, he, rfl⟩ := List.mem_map.1 href
              exact h.rules _ _ hp e.1 e.2 he
        | none =>
          simp only
          cases hq : m.rpMap.get root.policyKey with
          | none => exact h
          | some rp =>
            have hq := GoMap.mem_of_get hq
            simp only
            cases hs : SMatcher.new mem pDef root ((rp.read mem).rules.map SRef.own) with
            | err => exact h
            | panic => exact h
            | ok mt =>
              refine In.setR (h.rest _) ?_
              intro x hx
              rcases List.mem_append.1 hx with hx | hx
              · exact h.roles _ _ hq x hx
              · rw [List.mem_singleton] at hx
                subst hx
                refine SMatcher.new_in ?_ hs
                intro ref href
                obtain ⟨e, he, rfl⟩ := List.mem_map.1 href
                simp [SRef.array]

theorem read_congr {mem mem' : Mem} {m : SModel} (h : m.In P) (hm : ∀ a, P a → mem'[a]? = mem[a]?) :
    m.read mem' = m.read mem := by
  have key : ∀ n : SNode, n.In P → n.read mem' = n.read mem := fun n => SNode.rec
    (motive_1 := fun n => n.In P → n.read mem' = n.read mem)
    (motive_2 := fun ms => SNode.InMaps P ms → SNode.readMaps mem' ms = SNode.readMaps mem ms)
    (motive_3 := fun m => SNode.InMap P m → SNode.readMap mem' m = SNode.readMap mem m)
    (motive_4 := fun e => e.2.In P → e.2.read mem' = e.2.read mem)
    (fun r cs ih hn => by
      rw [SNode.In] at hn
      rw [SNode.read, SNode.read, ih hn.2, SRef.read_congr hm hn.1])
    (fun _ => rfl)
    (fun m ms ih1 ih2 hn => by
      rw [SNode.InMaps] at hn
      rw [SNode.readMaps, SNode.readMaps, ih1 hn.1, ih2 hn.2])
    (fun _ => rfl)
    (fun e m ih1 ih2 hn => by
      obtain ⟨k, n⟩ := e
      rw [SNode.InMap] at hn
      have := ih1 hn.1
      simp only at this
      rw [SNode.readMap, SNode.readMap, this, ih2 hn.2])
    (fun _ _ ih => ih) n
  have kls : ∀ ls : List SMatcher, (∀ x ∈ ls, x.root.In P) → ls.map (SMatcher.read mem') = ls.map (SMatcher.read mem) := by
    intro ls hls
    refine List.map_congr_left fun x hx => ?_
    unfold SMatcher.read
    rw [key _ (hls x hx)]
  have e1 : m.pMap.mapV (SPol.read mem') = m.pMap.mapV (SPol.read mem) := by
    unfold GoMap.mapV
    refine List.map_congr_left fun e he => ?_
    obtain ⟨k, p⟩ := e
    have : p.ruleMap.mapV (SRef.read mem') = p.ruleMap.mapV (SRef.read mem) := by
      unfold GoMap.mapV
      refine List.map_congr_left fun x hx => ?_
      rw [SRef.read_congr hm (h.rules k p he x.1 x.2 hx)]
    simp only [SPol.read, kls p.listeners (h.matchers k p he), this]
  have e2 : m.rpMap.mapV (SRole.read mem') = m.rpMap.mapV (SRole.read mem) := by
    unfold GoMap.mapV
    refine List.map_congr_left fun e he => ?_
    obtain ⟨k, p⟩ := e
    simp only [SRole.read, kls p.listeners (h.roles k p he)]
  unfold read
  rw [e1, e2]

end SModel

theorem Mem.write_get {mem : Mem} {a b i : Nat} {v : Str} (h : b ≠ a) : (Mem.write mem a i v)[b]? = mem[b]? :=
  List.getElem?_set_ne (fun e => h e.symm)

theorem Mem.write_length (mem : Mem) (a i : Nat) (v : Str) : (Mem.write mem a i v).length = mem.length :=
  List.length_set ..

/-! ## The start -/

theorem SNode.ofNode_read (mem : Mem) (n : Node) : (SNode.ofNode n).read mem = n := Node.rec
  (motive_1 := fun n => (SNode.ofNode n).read mem = n)
  (motive_2 := fun ms => SNode.readMaps mem (SNode.ofMaps ms) = ms)
  (motive_3 := fun m => SNode.readMap mem (SNode.ofMap m) = m)
  (motive_4 := fun e => (SNode.ofNode e.2).read mem = e.2)
  (fun r cs ih => by rw [SNode.ofNode, SNode.read, ih]; rfl)
  rfl
  (fun m ms ih1 ih2 => by rw [SNode.ofMaps, SNode.readMaps, ih1, ih2])
  rfl
  (fun e m ih1 ih2 => by
    obtain ⟨k, n⟩ := e
    simp only at ih1
    rw [SNode.ofMap, SNode.readMap, ih1, ih2])
  (fun _ _ ih => ih) n

theorem SNode.ofNode_in (P : Nat → Prop) (n : Node) : (SNode.ofNode n).In P := Node.rec
  (motive_1 := fun n => (SNode.ofNode n).In P)
  (motive_2 := fun ms => SNode.InMaps P (SNode.ofMaps ms))
  (motive_3 := fun m => SNode.InMap P (SNode.ofMap m))
  (motive_4 := fun e => (SNode.ofNode e.2).In P)
  (fun r cs ih => by rw [SNode.ofNode, SNode.In]; exact ⟨by simp [SRef.array], ih⟩)
  (by simp [SNode.ofMaps, SNode.InMaps])
  (fun m ms ih1 ih2 => by rw [SNode.ofMaps, SNode.InMaps]; exact ⟨ih1, ih2⟩)
  (by simp [SNode.ofMap, SNode.InMap])
  (fun e m ih1 ih2 => by
    obtain ⟨k, n⟩ := e
    rw [SNode.ofMap, SNode.InMap]
    exact ⟨ih1, ih2⟩)
  (fun _ _ ih => ih) n

theorem SModel.ofModel_read (mem : Mem) (m : Model) : (SModel.ofModel m).read mem = m := by
  have kls : ∀ ls : List Matcher, (ls.map SMatcher.ofMatcher).map (SMatcher.read mem) = ls := by
    intro ls
    rw [List.map_map]
    conv => rhs; rw [← List.map_id ls]
    refine List.map_congr_left fun x _ => ?_
    simp only [Function.comp, SMatcher.ofMatcher, SMatcher.read, SNode.ofNode_read, id]
  obtain ⟨r, p, g, e, md, pm, rm, mm⟩ := m
  unfold SModel.ofModel SModel.read
  simp only [Model.mk.injEq, true_and, and_true]
  constructor
  · unfold GoMap.mapV
    rw [List.map_map]
    conv => rhs; rw [← List.map_id pm]
    refine List.map_congr_left fun x _ => ?_
    obtain ⟨k, p⟩ := x
    simp only [Function.comp, SPol.read, id, kls]
    congr 3
    unfold GoMap.mapV
    rw [List.map_map]
    conv => rhs; rw [← List.map_id p.policy.ruleMap]
    refine List.map_congr_left fun x _ => ?_
    rfl
  · unfold GoMap.mapV
    rw [List.map_map]
    conv => rhs; rw [← List.map_id rm]
    refine List.map_congr_left fun x _ => ?_
    obtain ⟨k, p⟩ := x
    simp only [Function.comp, SRole.read, id, kls]

theorem SModel.ofModel_in (P : Nat → Prop) (m : Model) : (SModel.ofModel m).In P := by
  constructor
  · intro k p hp h ref href
    obtain ⟨e, -, he⟩ := List.mem_map.1 hp
    cases he
    obtain ⟨x, -, hx⟩ := List.mem_map.1 href
    cases hx
    simp [SRef.array]
  · intro k p hp x hx
    obtain ⟨e, -, he⟩ := List.mem_map.1 hp
    cases he
    obtain ⟨y, -, rfl⟩ := List.mem_map.1 hx
    exact SNode.ofNode_in P _
  · intro k p hp x hx
    obtain ⟨e, -, he⟩ := List.mem_map.1 hp
    cases he
    obtain ⟨y, -, rfl⟩ := List.mem_map.1 hx
    exact SNode.ofNode_in P _

theorem SState.start_holds (m : Model) (storing : Bool) : (SState.start m storing).Holds [] [] :=
  ⟨SModel.ofModel_in _ m, by simp [SState.start], fun _ => rfl⟩

/-! ## Steps -/

theorem mem_of_mem_ite {α : Type} {p : Prop} [Decidable p] {x : α} {l : List α} (h : x ∈ if p then l else []) : x ∈ l := by
  split at h
  · exact h
  · simp at h

theorem SModel.addRuleV_refs (mem : Mem) (m : SModel) (ref x : SRef) (h : x ∈ (m.addRuleV mem ref).2.2) :
    x = ref ∧ ref.read mem ≠ [] := by
  unfold SModel.addRuleV at h
  match hr : ref.read mem with
  | [] => rw [hr] at h; simp at h
  | [] :: _ => rw [hr] at h; simp at h
  | (c :: cs) :: fields =>
    rw [hr] at h
    exact ⟨List.mem_singleton.1 (mem_of_mem_ite h), by simp⟩

theorem SModel.removeRuleV_refs (mem : Mem) (m : SModel) (ref x : SRef) (h : x ∈ (m.removeRuleV mem ref).2.2) :
    x = ref ∧ ref.read mem ≠ [] := by
  unfold SModel.removeRuleV at h
  match hr : ref.read mem with
  | [] => rw [hr] at h; simp at h
  | [] :: _ => rw [hr] at h; simp at h
  | (c :: cs) :: fields =>
    rw [hr] at h
    exact ⟨List.mem_singleton.1 (mem_of_mem_ite h), by simp⟩

theorem SModel.addRoleRule_eq (mem : Mem) (m : SModel) (key : Str) (ref : SRef) :
    ∃ mem', m.addRoleRule mem key ref = (mem', m.addRoleRuleV mem' key ref) ∧ ref.Spilled mem mem' := by
  unfold SModel.addRoleRule SModel.addRoleRuleV
  cases m.rpMap.get key with
  | none => exact ⟨mem, rfl, .refl _ _⟩
  | some rp =>
    simp only
    match hr : ref.read mem with
    | [] => exact ⟨mem, by rw [hr], .refl _ _⟩
    | [_] => exact ⟨mem, by rw [hr], .refl _ _⟩
    | u :: r :: ds =>
      obtain ⟨h1, h2⟩ := Mgr.sLink_eq false mem rp.mgr u r ref.tail.tail
      have hs : ref.Spilled mem (rp.mgr.sLink false mem u r ref.tail.tail).1 := h1.of_tail.of_tail
      have hd : ref.tail.tail.read mem = ds := by rw [SRef.read_tail, SRef.read_tail, hr]; rfl
      rw [hd] at h2
      refine ⟨_, ?_, hs⟩
      rw [hs.read, hr]
      simp only
      rcases hx : rp.mgr.sLink false mem u r ref.tail.tail with ⟨mem', res⟩
      rw [hx] at h2
      simp only [Bool.false_eq_true, if_false] at h2
      subst h2
      rcases rp.mgr.addLink u r ds with ⟨mgr, b⟩ | _ | _
      · cases b <;> rfl
      · rfl
      · rfl

theorem SModel.addRule_eq (mem : Mem) (m : SModel) (ref : SRef) :
    ∃ mem', m.addRule mem ref = (mem', m.addRuleV mem' ref) ∧ ref.Spilled mem mem' := by
  unfold SModel.addRule SModel.addRuleV
  match hr : ref.read mem with
  | [] => exact ⟨mem, by rw [hr], .refl _ _⟩
  | [] :: _ => exact ⟨mem, by rw [hr], .refl _ _⟩
  | (c :: cs) :: fields =>
    simp only
    by_cases hc : c = 'p'
    · exact ⟨mem, by simp only [hr, hc, if_true], .refl _ _⟩
    · by_cases hg : c = 'g'
      · obtain ⟨mem', h1, h2⟩ := SModel.addRoleRule_eq mem m (c :: cs) ref.tail
        refine ⟨mem', ?_, h2.of_tail⟩
        rw [h2.of_tail.read, hr]
        simp only [hg, if_true]
        subst hg
        rw [h1]
        rfl
      · exact ⟨mem, by simp only [hr, hc, hg, if_false], .refl _ _⟩

theorem SModel.removeRoleRule_eq (mem : Mem) (m : SModel) (key : Str) (ref : SRef) :
    ∃ mem', m.removeRoleRule mem key ref = (mem', m.removeRoleRuleV mem' key ref) ∧ ref.Spilled mem mem' := by
  unfold SModel.removeRoleRule SModel.removeRoleRuleV
  cases m.rpMap.get key with
  | none => exact ⟨mem, rfl, .refl _ _⟩
  | some rp =>
    simp only
    match hr : ref.read mem with
    | [] => exact ⟨mem, by rw [hr], .refl _ _⟩
    | [_] => exact ⟨mem, by rw [hr], .refl _ _⟩
    | u :: r :: ds =>
      obtain ⟨h1, h2⟩ := Mgr.sLink_eq true mem rp.mgr u r ref.tail.tail
      have hs : ref.Spilled mem (rp.mgr.sLink true mem u r ref.tail.tail).1 := h1.of_tail.of_tail
      have hd : ref.tail.tail.read mem = ds := by rw [SRef.read_tail, SRef.read_tail, hr]; rfl
      rw [hd] at h2
      refine ⟨_, ?_, hs⟩
      rw [hs.read, hr]
      simp only
      rcases hx : rp.mgr.sLink true mem u r ref.tail.tail with ⟨mem', res⟩
      rw [hx] at h2
      simp only [if_true] at h2
      subst h2
      rcases rp.mgr.deleteLink u r ds with ⟨mgr, b⟩ | _ | _
      · cases b <;> rfl
      · rfl
      · rfl

theorem SModel.removeRule_eq (mem : Mem) (m : SModel) (ref : SRef) :
    ∃ mem', m.removeRule mem ref = (mem', m.removeRuleV mem' ref) ∧ ref.Spilled mem mem' := by
  unfold SModel.removeRule SModel.removeRuleV
  match hr : ref.read mem with
  | [] => exact ⟨mem, by rw [hr], .refl _ _⟩
  | [] :: _ => exact ⟨mem, by rw [hr], .refl _ _⟩
  | (c :: cs) :: fields =>
    simp only
    by_cases hc : c = 'p'
    · exact ⟨mem, by simp only [hr, hc, if_true], .refl _ _⟩
    · by_cases hg : c = 'g'
      · obtain ⟨mem', h1, h2⟩ := SModel.removeRoleRule_eq mem m (c :: cs) ref.tail
        refine ⟨mem', ?_, h2.of_tail⟩
        rw [h2.of_tail.read, hr]
        simp only [hg, if_true]
        subst hg
        rw [h1]
        rfl
      · exact ⟨mem, by simp only [hr, hc, hg, if_false], .refl _ _⟩

theorem pending_congr {q : List (Opc × SRef)} {mem mem' : Mem} {P : Nat → Prop} (h : ∀ o ∈ q, ∀ a ∈ o.2.array, P a)
    (hm : ∀ a, P a → mem'[a]? = mem[a]?) :
    q.map (fun o => (⟨o.1, o.2.read mem'⟩ : Operation)) = q.map (fun o => ⟨o.1, o.2.read mem⟩) :=
  List.map_congr_left fun o ho => by rw [SRef.read_congr hm (h o ho)]

namespace SState

theorem step_careful (build : Str → Res Stage) (s : SState) (kept queued : List Nat) (h : s.Holds kept queued)
    (c : Cmd) (cs : List Cmd) (hc : Careful s.storing kept queued (c :: cs)) :
    ∃ kept' queued', (s.step build c).Holds kept' queued' ∧ Careful (s.step build c).storing kept' queued' cs ∧
      ∀ ds, Model.afterDeeds build (s.model.read s.mem) ((c.deed s.mem) ++ ds) =
        ((Model.afterDeeds build ((s.step build c).model.read (s.step build c).mem) ds).1,
          (Model.afterDeeds build (s.model.read s.mem) (c.deed s.mem)).2 ++ (Model.afterDeeds build ((s.step build c).model.read (s.step build c).mem) ds).2) ∧
      (s.step build c).sent ++ (s.step build c).pending = s.sent ++ s.pending ++
        (if s.storing then (Model.afterDeeds build (s.model.read s.mem) (c.deed s.mem)).2 else []) := by
  have hgrow : ∀ (extra : List (List Str)) (a : Nat), a < s.mem.length → (s.mem ++ extra)[a]? = s.mem[a]? :=
    fun extra a ha => List.getElem?_append_left ha
  have more : ∀ extra : List (List Str), ({ s with mem := s.mem ++ extra } : SState).Holds kept queued ∧
      s.model.read (s.mem ++ extra) = s.model.read s.mem ∧
      ({ s with mem := s.mem ++ extra } : SState).pending = s.pending := by
    intro extra
    have hl : s.mem.length ≤ (s.mem ++ extra).length := by simp
    refine ⟨⟨h.model.mono fun a ha => ⟨ha.1, Nat.lt_of_lt_of_le ha.2 hl⟩, fun o ho a ha =>
      ⟨(h.queue o ho a ha).1, Nat.lt_of_lt_of_le (h.queue o ho a ha).2 hl⟩, h.idle⟩, ?_, ?_⟩
    · exact SModel.read_congr h.model fun a ha => hgrow extra a ha.2
    · exact pending_congr h.queue fun a ha => hgrow extra a ha.2
  have spill : ∀ (mem' : Mem) (ref : SRef), ref.Spilled s.mem mem' →
      (ref.Full ∨ ∀ a ∈ ref.array, a ∉ kept ∧ a ∉ queued) →
      s.model.read mem' = s.model.read s.mem ∧
      s.q.map (fun o => (⟨o.1, o.2.read mem'⟩ : Operation)) = s.pending := by
    intro mem' ref hs hf
    have key : ∀ a, a ∈ kept ∨ a ∈ queued → mem'[a]? = s.mem[a]? := by
      intro a ha
      rcases hf with hf | hf
      · rw [hs.full hf]
      · exact hs.array fun hm => ha.elim (hf a hm).1 (hf a hm).2
    exact ⟨SModel.read_congr h.model fun a ha => key a (.inl ha.1), pending_congr h.queue fun a ha => key a ha.1⟩
  cases c with
  | make values =>
    obtain ⟨m1, m2, m3⟩ := more [values]
    refine ⟨kept, queued, m1, hc, fun ds => ⟨?_, ?_⟩⟩
    · simp only [step, Cmd.deed, m2, List.nil_append, Model.afterDeeds]
    · simp only [step, Cmd.deed, m3, Model.afterDeeds]
      split <;> simp
  | list =>
    obtain ⟨m1, m2, m3⟩ := more (s.model.read s.mem).rules
    refine ⟨kept, queued, m1, hc, fun ds => ⟨?_, ?_⟩⟩
    · simp only [step, Cmd.deed, m2, List.nil_append, Model.afterDeeds]
    · simp only [step, Cmd.deed, m3, Model.afterDeeds]
      split <;> simp
  | write a i v =>
    obtain ⟨hk, hq, hc⟩ := hc
    have e1 : s.model.read (Mem.write s.mem a i v) = s.model.read s.mem :=
      SModel.read_congr h.model fun b hb => Mem.write_get (fun e => hk (e ▸ hb.1))
    have e2 : ({ s with mem := Mem.write s.mem a i v } : SState).pending = s.pending :=
      pending_congr h.queue fun b hb => Mem.write_get (fun e => hb.1.elim (fun x => hk (e ▸ x)) (fun x => hq (e ▸ x)))
    refine ⟨kept, queued, ⟨?_, ?_, h.idle⟩, hc, fun ds => ⟨?_, ?_⟩⟩
    · simp only [step, Mem.write_length]; exact h.model
    · simp only [step, Mem.write_length]; exact h.queue
    · simp only [step, Cmd.deed, e1, List.nil_append, Model.afterDeeds]
    · simp only [step, Cmd.deed, e2, Model.afterDeeds]
      split <;> simp
  | add ref =>
    obtain ⟨hfull, hc⟩ := hc
    obtain ⟨mem', he, hs⟩ := SModel.addRule_eq s.mem s.model ref
    have hstep : s.step build (.add ref) = { s with
        mem := mem'
        model := (s.model.addRuleV mem' ref).1
        q := if s.storing then s.q ++ (s.model.addRuleV mem' ref).2.2.map (fun x => (.add, x)) else s.q } := by
      simp only [step, he]
    rw [hstep]
    obtain ⟨e1, e2⟩ := spill mem' ref hs hfull
    have hread := SModel.addRuleV_read mem' s.model ref
    rw [e1, hs.read] at hread
    simp only [Prod.mk.injEq] at hread
    obtain ⟨r1, -, r3⟩ := hread
    have hlen : mem'.length = s.mem.length := hs.1
    refine ⟨ref.array ++ kept, queued, ⟨?_, ?_, ?_⟩, hc, fun ds => ⟨?_, ?_⟩⟩
    · refine SModel.addRuleV_in (h.model.mono fun a ha => ⟨List.mem_append_right _ ha.1, hlen.symm ▸ ha.2⟩) ?_
      exact fun hne a ha => ⟨List.mem_append_left _ ha, SRef.array_lt hne a ha⟩
    · intro o ho a ha
      have old : o ∈ s.q → (a ∈ ref.array ++ kept ∨ a ∈ queued) ∧ a < mem'.length := fun ho =>
        ⟨(h.queue o ho a ha).1.imp_left (List.mem_append_right _), hlen.symm ▸ (h.queue o ho a ha).2⟩
      simp only at ho ⊢
      split at ho
      · rcases List.mem_append.1 ho with ho | ho
        · exact old ho
        · obtain ⟨x, hx, rfl⟩ := List.mem_map.1 ho
          obtain ⟨rfl, hne⟩ := SModel.addRuleV_refs _ _ _ _ hx
          exact ⟨.inl (List.mem_append_left _ ha), SRef.array_lt hne a ha⟩
      · exact old ho
    · intro hs
      have hs' : s.storing = false := hs
      simp only [hs', Bool.false_eq_true, if_false]
      exact h.idle hs'
    · simp only [Cmd.deed, List.cons_append, List.nil_append, Model.afterDeeds, Model.step, List.append_nil, r1]
    · simp only [Cmd.deed, Model.afterDeeds, Model.step, List.append_nil, pending]
      rw [← r3]
      cases hst : s.storing with
      | true =>
        simp only [if_true, List.map_append, List.map_map, List.append_assoc, e2]
        rfl
      | false =>
        simp only [Bool.false_eq_true, if_false, e2, List.append_nil]
        rfl
  | remove ref =>
    obtain ⟨hfull, hc⟩ := hc
    obtain ⟨mem', he, hs⟩ := SModel.removeRule_eq s.mem s.model ref
    have hstep : s.step build (.remove ref) = { s with
        mem := mem'
        model := (s.model.removeRuleV mem' ref).1
        q := if s.storing then s.q ++ (s.model.removeRuleV mem' ref).2.2.map (fun x => (.remove, x)) else s.q } := by
      simp only [step, he]
    rw [hstep]
    obtain ⟨e1, e2⟩ := spill mem' ref hs hfull
    have hread := SModel.removeRuleV_read mem' s.model ref
    rw [e1, hs.read] at hread
    simp only [Prod.mk.injEq] at hread
    obtain ⟨r1, -, r3⟩ := hread
    have hlen : mem'.length = s.mem.length := hs.1
    refine ⟨kept, if s.storing then ref.array ++ queued else queued, ⟨?_, ?_, ?_⟩, hc, fun ds => ⟨?_, ?_⟩⟩
    · exact SModel.removeRuleV_in (h.model.mono fun a ha => ⟨ha.1, hlen.symm ▸ ha.2⟩)
    · intro o ho a ha
      simp only at ho ⊢
      cases hst : s.storing with
      | false =>
        rw [hst] at ho
        simp only [Bool.false_eq_true, if_false] at ho ⊢
        exact ⟨(h.queue o ho a ha).1, hlen.symm ▸ (h.queue o ho a ha).2⟩
      | true =>
        rw [hst] at ho
        simp only [if_true] at ho ⊢
        rcases List.mem_append.1 ho with ho | ho
        · exact ⟨(h.queue o ho a ha).1.imp_right (List.mem_append_right _), hlen.symm ▸ (h.queue o ho a ha).2⟩
        · obtain ⟨x, hx, rfl⟩ := List.mem_map.1 ho
          obtain ⟨rfl, hne⟩ := SModel.removeRuleV_refs _ _ _ _ hx
          exact ⟨.inr (List.mem_append_left _ ha), SRef.array_lt hne a ha⟩
    · intro hs
      have hs' : s.storing = false := hs
      simp only [hs', Bool.false_eq_true, if_false]
      exact h.idle hs'
    · simp only [Cmd.deed, List.cons_append, List.nil_append, Model.afterDeeds, Model.step, List.append_nil, r1]
    · simp only [Cmd.deed, Model.afterDeeds, Model.step, List.append_nil, pending]
      rw [← r3]
      cases hst : s.storing with
      | true =>
        simp only [if_true, List.map_append, List.map_map, List.append_assoc, e2]
        rfl
      | false =>
        simp only [Bool.false_eq_true, if_false, e2, List.append_nil]
        rfl
  | clear key =>
    have r1 := congrArg Prod.fst (SModel.clearPolicy_read s.mem s.model key)
    simp only at r1
    refine ⟨kept, queued, ⟨SModel.clearPolicy_in h.model, h.queue, h.idle⟩, hc, fun ds => ⟨?_, ?_⟩⟩
    · simp only [step, Cmd.deed, List.cons_append, List.nil_append, Model.afterDeeds, Model.step, List.map_nil, r1]
    · simp only [step, Cmd.deed, Model.afterDeeds, Model.step, List.map_nil, List.append_nil, pending, ite_self]
  | build key =>
    have r1 := congrArg Prod.fst (SModel.buildMatcher_read build s.mem s.model key)
    simp only at r1
    refine ⟨kept, queued, ⟨SModel.buildMatcher_in h.model, h.queue, h.idle⟩, hc, fun ds => ⟨?_, ?_⟩⟩
    · simp only [step, Cmd.deed, List.cons_append, List.nil_append, Model.afterDeeds, r1]
    · simp only [step, Cmd.deed, Model.afterDeeds, List.append_nil, pending, ite_self]
  | flush =>
    refine ⟨kept, [], ⟨h.model, by simp [step], fun _ => rfl⟩, hc, fun ds => ⟨?_, ?_⟩⟩
    · simp only [step, Cmd.deed, List.nil_append, Model.afterDeeds]
    · simp only [step, Cmd.deed, Model.afterDeeds, pending, List.map_nil, List.append_nil, ite_self]

end SState

namespace SModel

theorem Bare.setR {m : SModel} (h : m.Bare) {key : Str} {p : SRole} (hp : p.mgr.Bare) :
    ({ m with rpMap := m.rpMap.set key p } : SModel).Bare := by
  intro k q hq
  rcases GoMap.mem_set hq with e | hq
  · cases e; exact hp
  · exact h k q hq

theorem emitRole_bare {mem : Mem} {m : SModel} (h : m.Bare) {key : Str} {ls : List SMatcher} {mgr : Mgr} {e : SEvent}
    (hp : mgr.Bare) : (m.emitRole mem key ls mgr e).1.Bare := by
  unfold emitRole
  split <;> exact h.setR hp

theorem emitPolicy_bare {α : Type} {mem : Mem} {m : SModel} (h : m.Bare) {key : Str} {ls : List SMatcher}
    {pol : GoMap Str SRef} {a : α} {e : SEvent} : (m.emitPolicy mem key ls pol a e).1.Bare := by
  unfold emitPolicy
  split <;> exact h

theorem addRoleRule_bare {mem : Mem} {m : SModel} (h : m.Bare) (key : Str) (ref : SRef) :
    (m.addRoleRule mem key ref).1 = mem ∧ (m.addRoleRule mem key ref).2.1.Bare := by
  unfold addRoleRule
  cases hk : m.rpMap.get key with
  | none => exact ⟨rfl, h⟩
  | some rp =>
    have hp : rp.mgr.Bare := h _ _ (GoMap.mem_of_get hk)
    simp only
    split
    · rename_i u r _ _
      obtain ⟨h1, h2⟩ := Mgr.sLink_bare false mem rp.mgr u r ref.tail.tail hp
      rcases hx : rp.mgr.sLink false mem u r ref.tail.tail with ⟨mem', res⟩
      rw [hx] at h1 h2
      simp only at h1 h2
      subst h1
      rcases res with ⟨mgr, b⟩ | _ | _
      · cases b with
        | true => exact ⟨rfl, emitRole_bare h (h2 _ rfl)⟩
        | false => exact ⟨rfl, h.setR (h2 _ rfl)⟩
      · exact ⟨rfl, h.setR hp⟩
      · exact ⟨rfl, h.setR hp⟩
    · exact ⟨rfl, h.setR hp⟩

theorem addPolicyRule_bare {mem : Mem} {m : SModel} (h : m.Bare) (key : Str) (ref : SRef) :
    (m.addPolicyRule mem key ref).1.Bare := by
  unfold addPolicyRule
  split
  · exact h
  · simp only
    split
    · first | exact h | exact emitPolicy_bare h
    · first | exact h | exact emitPolicy_bare h

theorem addRule_bare {mem : Mem} {m : SModel} (h : m.Bare) (ref : SRef) :
    (m.addRule mem ref).1 = mem ∧ (m.addRule mem ref).2.1.Bare := by
  unfold addRule
  split
  · exact ⟨rfl, h⟩
  · exact ⟨rfl, h⟩
  · rename_i c cs _ _
    by_cases hc : c = 'p'
    · simp only [hc, if_true]
      exact ⟨trivial, addPolicyRule_bare h _ _⟩
    · by_cases hg : c = 'g'
      · simp only [hg, if_true]
        exact addRoleRule_bare h _ _
      · simp only [hc, hg, if_false]
        exact ⟨trivial, h⟩

theorem addRoleRule_short (mem : Mem) (m : SModel) (key : Str) (ref : SRef) (h : (ref.read mem).length ≤ 2) :
    (m.addRoleRule mem key ref).1 = mem := by
  unfold addRoleRule
  cases m.rpMap.get key with
  | none => rfl
  | some rp =>
    simp only
    match hr : ref.read mem with
    | [] => rfl
    | [_] => rfl
    | _ :: _ :: _ :: _ => rw [hr] at h; simp at h
    | [u, r] =>
      have hd : ref.tail.tail.read mem = [] := by rw [SRef.read_tail, SRef.read_tail, hr]; rfl
      have h1 := Mgr.sLink_nil false mem rp.mgr u r ref.tail.tail hd
      simp only
      rcases hx : rp.mgr.sLink false mem u r ref.tail.tail with ⟨mem', res⟩
      rw [hx] at h1
      simp only at h1
      subst h1
      rcases res with ⟨mgr, b⟩ | _ | _
      · cases b <;> rfl
      · rfl
      · rfl

theorem addRule_short (mem : Mem) (m : SModel) (ref : SRef)
    (h : (ref.read mem).length ≤ 3 ∨ (ref.read mem).head?.bind List.head? ≠ some 'g') : (m.addRule mem ref).1 = mem := by
  unfold addRule
  match hr : ref.read mem with
  | [] => rfl
  | [] :: _ => rfl
  | (c :: cs) :: fields =>
    rw [hr] at h
    by_cases hc : c = 'p'
    · simp only [hc, if_true]
    · by_cases hg : c = 'g'
      · simp only [hg, if_true]
        refine addRoleRule_short mem m _ ref.tail ?_
        rw [SRef.read_tail, hr]
        rcases h with h | h
        · simpa using h
        · exact absurd (by simp [hg]) h
      · simp only [hc, hg, if_false]

theorem removeRoleRule_bare {mem : Mem} {m : SModel} (h : m.Bare) (key : Str) (ref : SRef) :
    (m.removeRoleRule mem key ref).1 = mem ∧ (m.removeRoleRule mem key ref).2.1.Bare := by
  unfold removeRoleRule
  cases hk : m.rpMap.get key with
  | none => exact ⟨rfl, h⟩
  | some rp =>
    have hp : rp.mgr.Bare := h _ _ (GoMap.mem_of_get hk)
    simp only
    split
    · rename_i u r _ _
      obtain ⟨h1, h2⟩ := Mgr.sLink_bare true mem rp.mgr u r ref.tail.tail hp
      rcases hx : rp.mgr.sLink true mem u r ref.tail.tail with ⟨mem', res⟩
      rw [hx] at h1 h2
      simp only at h1 h2
      subst h1
      rcases res with ⟨mgr, b⟩ | _ | _
      · cases b with
        | true => exact ⟨rfl, emitRole_bare h (h2 _ rfl)⟩
        | false => exact ⟨rfl, h.setR (h2 _ rfl)⟩
      · exact ⟨rfl, h.setR hp⟩
      · exact ⟨rfl, h.setR hp⟩
    · exact ⟨rfl, h.setR hp⟩

theorem removePolicyRule_bare {mem : Mem} {m : SModel} (h : m.Bare) (key : Str) (ref : SRef) :
    (m.removePolicyRule mem key ref).1.Bare := by
  unfold removePolicyRule
  split
  · exact h
  · simp only
    split
    · first | exact h | exact emitPolicy_bare h
    · first | exact h | exact emitPolicy_bare h

theorem removeRule_bare {mem : Mem} {m : SModel} (h : m.Bare) (ref : SRef) :
    (m.removeRule mem ref).1 = mem ∧ (m.removeRule mem ref).2.1.Bare := by
  unfold removeRule
  split
  · exact ⟨rfl, h⟩
  · exact ⟨rfl, h⟩
  · rename_i c cs _ _
    by_cases hc : c = 'p'
    · simp only [hc, if_true]
      exact ⟨trivial, removePolicyRule_bare h _ _⟩
    · by_cases hg : c = 'g'
      · simp only [hg, if_true]
        exact removeRoleRule_bare h _ _
      · simp only [hc, hg, if_false]
        exact ⟨trivial, h⟩

theorem removeRoleRule_short (mem : Mem) (m : SModel) (key : Str) (ref : SRef) (h : (ref.read mem).length ≤ 2) :
    (m.removeRoleRule mem key ref).1 = mem := by
  unfold removeRoleRule
  cases m.rpMap.get key with
  | none => rfl
  | some rp =>
    simp only
    match hr : ref.read mem with
    | [] => rfl
    | [_] => rfl
    | _ :: _ :: _ :: _ => rw [hr] at h; simp at h
    | [u, r] =>
      have hd : ref.tail.tail.read mem = [] := by rw [SRef.read_tail, SRef.read_tail, hr]; rfl
      have h1 := Mgr.sLink_nil true mem rp.mgr u r ref.tail.tail hd
      simp only
      rcases hx : rp.mgr.sLink true mem u r ref.tail.tail with ⟨mem', res⟩
      rw [hx] at h1
      simp only at h1
      subst h1
      rcases res with ⟨mgr, b⟩ | _ | _
      · cases b <;> rfl
      · rfl
      · rfl

theorem removeRule_short (mem : Mem) (m : SModel) (ref : SRef)
    (h : (ref.read mem).length ≤ 3 ∨ (ref.read mem).head?.bind List.head? ≠ some 'g') : (m.removeRule mem ref).1 = mem := by
  unfold removeRule
  match hr : ref.read mem with
  | [] => rfl
  | [] :: _ => rfl
  | (c :: cs) :: fields =>
    rw [hr] at h
    by_cases hc : c = 'p'
    · simp only [hc, if_true]
    · by_cases hg : c = 'g'
      · simp only [hg, if_true]
        refine removeRoleRule_short mem m _ ref.tail ?_
        rw [SRef.read_tail, hr]
        rcases h with h | h
        · simpa using h
        · exact absurd (by simp [hg]) h
      · simp only [hc, hg, if_false]

end SModel

theorem Mgr.clear_bare {mgr : Mgr} (h : mgr.Bare) : mgr.clear.Bare := by
  cases mgr with
  | rm m => trivial
  | dm m => exact (DM.bare_iff _).2 ⟨((DM.bare_iff m).1 h).1, fun e he => by cases he⟩

theorem SModel.clearPolicy_bare {mem : Mem} {m : SModel} (h : m.Bare) (key : Str) : (m.clearPolicy mem key).1.Bare := by
  unfold clearPolicy
  split
  · exact emitPolicy_bare h
  · split
    · rename_i rp hk
      exact h.setR (Mgr.clear_bare (h _ _ (GoMap.mem_of_get hk)))
    · exact h

theorem SModel.buildMatcher_bare {build : Str → Res Stage} {mem : Mem} {m : SModel} (h : m.Bare) (key : Str) :
    (m.buildMatcher build mem key).1.Bare := by
  unfold buildMatcher
  split
  · exact h
  · split
    · exact h
    · exact h
    · split
      · exact h
      · exact h
      · split
        · split
          · exact h
          · exact h
          · exact h
        · split
          · exact h
          · rename_i rp hk
            split
            · exact h
            · exact h
            · exact Bare.setR (m := m) h (h _ rp (GoMap.mem_of_get hk))

theorem SState.step_bare (build : Str → Res Stage) (s : SState) (c : Cmd) (h : s.model.Bare) :
    (s.step build c).mem = c.mine s ∧ (s.step build c).model.Bare := by
  cases c with
  | add ref => exact SModel.addRule_bare h ref
  | remove ref => exact SModel.removeRule_bare h ref
  | make => exact ⟨rfl, h⟩
  | write => exact ⟨rfl, h⟩
  | clear key => exact ⟨rfl, SModel.clearPolicy_bare h key⟩
  | build key => exact ⟨rfl, SModel.buildMatcher_bare h key⟩
  | list => exact ⟨rfl, h⟩
  | flush => exact ⟨rfl, h⟩

end Fastac
