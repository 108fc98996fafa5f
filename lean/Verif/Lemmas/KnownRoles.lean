import Verif.Lemmas.RoleMemory
import Verif.Lemmas.RoleRequests
import Verif.Spec.KnownRoles

/-!
# Calls that only read
-/

namespace Fastac

namespace Thread

variable {S α β : Type}

/-- Alone in the state `h`, the call leaves it as it is with every step. -/
def Quiet (h : S) : Thread S α → Prop
  | .ret _ => True
  | .crash => True
  | .act f k => f h = h ∧ (k h).Quiet h

theorem Quiet.exec {h : S} : ∀ {t : Thread S α}, t.Quiet h → (t.exec h).1 = h
  | .ret _, _ => rfl
  | .crash, _ => rfl
  | .act f k, q => by
    show ((k h).exec (f h)).1 = h
    rw [q.1]
    exact Quiet.exec q.2

theorem Quiet.bind {h : S} {g : α → Thread S β} : ∀ {t : Thread S α}, t.Quiet h →
    (∀ a, (t.exec h).2 = some a → (g a).Quiet h) → (t.bind g).Quiet h
  | .ret a, _, hg => hg a rfl
  | .crash, _, _ => trivial
  | .act f k, q, hg => ⟨q.1, Quiet.bind q.2 fun a ha => hg a (by
      show ((k h).exec (f h)).2 = some a
      rw [q.1]; exact ha)⟩

theorem Quiet.read (h : S) (g : S → α) : (Thread.read g).Quiet h := ⟨rfl, trivial⟩

theorem Quiet.ret (h : S) (a : α) : (Thread.ret a : Thread S α).Quiet h := trivial

theorem Quiet.collect (h : S) {body : β → Thread S (List α)} (hb : ∀ x, (body x).Quiet h) :
    ∀ l : List β, (Thread.collect body l).Quiet h
  | [] => trivial
  | x :: xs => .bind (hb x) fun _ _ => .bind (Quiet.collect h hb xs) fun _ _ => .ret h _

/-- A call that leaves the state as it is keeps all others from noticing it. -/
theorem Quiet.safe {h : S} : ∀ {t : Thread S α} {a : α}, t.Quiet h → (t.exec h).2 = some a → t.Safe (· = h) (· = a)
  | .ret b, a, _, e => by
    have : b = a := by simpa [Thread.exec] using e
    exact this
  | .crash, _, _, e => by cases e
  | .act f k, a, q, e => by
    intro s hs
    cases hs
    refine ⟨q.1, Quiet.safe q.2 ?_⟩
    have : ((k h).exec (f h)).2 = some a := e
    rw [q.1] at this
    exact this

end Thread

namespace RConf

open RHeap Thread

variable {c : RConf} {h : RHeap} {rm : RM} {L : Str → Str → Prop}

theorem rangeRoles_quiet (a : Nat) : (c.rangeRoles a).Quiet h :=
  .bind (.read _ _) fun _ _ => .bind (.read _ _) fun _ _ => .bind (.collect h (fun _ => .read _ _) _) fun _ _ =>
    .bind (.read _ _) fun _ _ => .bind (.collect h (fun _ => .read _ _) _) fun _ _ => .ret h _

theorem rangeUsers_quiet (a : Nat) : (c.rangeUsers a).Quiet h :=
  .bind (.read _ _) fun _ _ => .bind (.read _ _) fun _ _ => .bind (.collect h (fun _ => .read _ _) _) fun _ _ =>
    .bind (.read _ _) fun _ _ => .bind (.collect h (fun _ => .read _ _) _) fun _ _ => .ret h _

theorem visit_quiet (target : Str) : ∀ (es : List (Str × Nat)) (next : GoMap Str Nat), (c.visit target es next).Quiet h
  | [], _ => trivial
  | (n, a) :: es, next => by
    unfold visit
    split
    · trivial
    · exact .bind (rangeRoles_quiet a) fun _ _ => visit_quiet target es _

theorem helper_quiet (target : Str) : ∀ (level : Nat) (roles : GoMap Str Nat), (c.helper target level roles).Quiet h
  | 0, _ => trivial
  | level + 1, roles => by
    unfold helper
    split
    · trivial
    · refine .bind (visit_quiet target _ _) fun a _ => ?_
      cases a with
      | none => trivial
      | some next => exact helper_quiet target level next

theorem getRole_quiet {n : Str} {a : Nat} (ha : h.all.get n = some a) :
    (c.getRole n).Quiet h ∧ (c.getRole n).exec h = (h, some (a, false)) := by
  unfold getRole
  simp only [Thread.Quiet, Thread.read, Thread.bind, Thread.exec, id, ha, and_self]

/-- After a role that is there was found. -/
theorem getRole_then {β : Type} {n : Str} {a : Nat} (ha : h.all.get n = some a) {g : Nat × Bool → Thread RHeap β}
    (hg : (g (a, false)).Quiet h) : ((c.getRole n).bind g).Quiet h := by
  obtain ⟨q, e⟩ := getRole_quiet (c := c) ha
  refine .bind q fun x hx => ?_
  rw [e] at hx
  cases hx
  exact hg

theorem hasLink_quiet (s : Sim h rm) {u r : Str} (hu : u ∈ rm.names) (hr : r ∈ rm.names) : (c.hasLink u r).Quiet h := by
  obtain ⟨a, ha⟩ := s.get_some hu
  obtain ⟨b, hb⟩ := s.get_some hr
  unfold hasLink
  split
  · trivial
  · exact getRole_then ha <| getRole_then hb <| .bind (helper_quiet r _ _) fun _ _ => by
      simp [removeIf, Thread.Quiet, Thread.bind]

theorem getRoles_quiet (s : Sim h rm) {n : Str} (hn : n ∈ rm.names) : (c.getRoles n).Quiet h := by
  obtain ⟨a, ha⟩ := s.get_some hn
  exact getRole_then ha <| .bind (rangeRoles_quiet a) fun _ _ => by simp [removeIf, Thread.Quiet, Thread.bind]

theorem getUsers_quiet (s : Sim h rm) {n : Str} (hn : n ∈ rm.names) : (c.getUsers n).Quiet h := by
  obtain ⟨a, ha⟩ := s.get_some hn
  exact getRole_then ha <| .bind (rangeUsers_quiet a) fun _ _ => by simp [removeIf, Thread.Quiet, Thread.bind]

theorem asks_quiet {α : Type} (hp : ∀ l, (c.ord l).Perm l) (hm : c.matcher = rm.matcher) (hl : c.level = rm.level)
    (s : Sim h rm) (i : rm.Inv L) {g : Str → Str → Bool} (hg : ∀ u r, g u r = (rm.hasLink u r).2) : ∀ t : Asks (Str × Str) α,
    t.Within (· ∈ rm.names) g → (t.thread c).Safe (· = h) (· = t.value fun x => g x.1 x.2)
  | .done _, _ => rfl
  | .ask q k, w => by
    obtain ⟨_, e, -⟩ := hasLink_runs hp hm hl s i q.1 q.2
    refine .bind (fun b hb => ?_) ((hasLink_quiet s w.1 w.2.1).safe (congrArg Prod.snd e))
    rw [hb, ← hg]
    exact asks_quiet hp hm hl s i hg (k _) w.2.2

end RConf

namespace HeapRM

open RConf

theorem Fits.run_fits : ∀ (xs : List ((GoMap Str Nat → GoMap Str Nat) × RoleOp)) {y : HeapRM} {rm : RM} {s : Memory},
    Fits y rm s → (∀ x ∈ xs, ∀ l, (x.1 l).Perm l) → ∃ rm' s', s.Leads (xs.map Prod.snd) s' ∧ Fits (y.run xs).1 rm' s' ∧
      (y.run xs).1.level = y.level
  | [], _, rm, s, f, _ => ⟨rm, s, rfl, f, rfl⟩
  | (ord, x) :: xs, y, rm, s, f, hp => by
    obtain ⟨a, ls, s', e, -, -, r, n, f', hl⟩ := f.call (hp _ List.mem_cons_self) x
    obtain ⟨rm', s'', l, f'', hl'⟩ := Fits.run_fits xs f' fun x' h' => hp x' (List.mem_cons_of_mem _ h')
    exact ⟨rm', s'', ⟨s', n, l⟩, f'', hl'.trans hl⟩

theorem job_known {y : HeapRM} {rm : RM} {s : Memory} (f : Fits y rm s) {ord : GoMap Str Nat → GoMap Str Nat}
    (hp : ∀ l, (ord l).Perm l) {j : Job} (hj : j.Known s y.level) :
    (j.thread (y.conf ord)).Safe (· = y.heap) (j.RightBy s y.level) := by
  have hm : (y.conf ord).matcher = rm.matcher := f.matcher
  have hl : (y.conf ord).level = rm.level := f.mem.level_eq.symm
  have hn : rm.names = s.used := f.mem.has.names
  cases j with
  | question x =>
    obtain ⟨h1, h2⟩ := hj
    cases x with
    | add u r => cases h1
    | del u r => cases h1
    | hasLink u r =>
      obtain ⟨_, e, -⟩ := hasLink_runs (c := y.conf ord) hp hm hl f.sim f.mem.inv u r
      refine .bind (fun a ha => ?_) (Thread.Safe.bind (P := (· = RAns.bool (rm.hasLink u r).2)) (fun b hb => ?_)
        ((hasLink_quiet f.sim (hn ▸ h2 u (by simp [RCall.about])) (hn ▸ h2 r (by simp [RCall.about]))).safe (congrArg Prod.snd e)))
      · rw [ha]; exact f.mem.hasLink u r
      · rw [hb]; exact .ret rfl
    | getRoles n =>
      obtain ⟨_, ns, e, p, -⟩ := getRoles_runs (c := y.conf ord) hp hm f.sim f.mem.inv n
      refine .bind (fun a ha => ?_) (Thread.Safe.bind (P := (· = RAns.names ns)) (fun b hb => ?_)
        ((getRoles_quiet f.sim (hn ▸ h2 n (by simp [RCall.about]))).safe (congrArg Prod.snd e)))
      · rw [ha]; exact f.mem.getRoles n p
      · rw [hb]; exact .ret rfl
    | getUsers n =>
      obtain ⟨_, ns, e, p, -⟩ := getUsers_runs (c := y.conf ord) hp hm f.sim f.mem.inv n
      obtain ⟨_, _, -, s2, -⟩ := getRole_runs (c := y.conf ord) hp hm f.sim f.mem.inv n
      refine .bind (fun a ha => ?_) (Thread.Safe.bind (P := (· = RAns.names ns)) (fun b hb => ?_)
        ((getUsers_quiet f.sim (hn ▸ h2 n (by simp [RCall.about]))).safe (congrArg Prod.snd e)))
      · rw [ha]; exact f.mem.getUsers n (s2.nd .users n) p
      · rw [hb]; exact .ret rfl
  | request q =>
    have hg : s.Says y.level fun u r => (rm.hasLink u r).2 := fun u r => f.mem.hasLink u r
    have w := hj _ hg
    rw [← hn] at w
    refine .bind (fun a ha => Thread.Safe.ret fun g' hg' => ?_)
      (asks_quiet (c := y.conf ord) hp hm hl f.sim f.mem.inv (fun _ _ => rfl) _ w)
    have : g' = fun u r => (rm.hasLink u r).2 := by
      funext u r
      exact Bool.eq_iff_iff.2 ((hg' u r).trans (hg u r).symm)
    rw [this, ha]
    exact enforceA_value _ _ _ _ _ _

theorem safe_known {y : HeapRM} {rm : RM} {s : Memory} (f : Fits y rm s) {ord : GoMap Str Nat → GoMap Str Nat}
    (hp : ∀ l, (ord l).Perm l) {js : List Job} (hj : ∀ j ∈ js, j.Known s y.level) :
    ((y.conf ord).begin y.heap js).AllSafe (· = y.heap) (fun i a => ∀ j, js[i]? = some j → j.RightBy s y.level a) := by
  refine ⟨rfl, fun i t ht => ?_⟩
  unfold RConf.begin at ht
  rw [List.getElem?_map] at ht
  obtain ⟨x, hi, rfl⟩ := Option.map_eq_some_iff.1 ht
  refine (job_known f hp (hj x (List.mem_of_getElem? hi))).weaken fun a ha z hz => ?_
  rw [hi] at hz
  cases hz
  exact ha

end HeapRM

end Fastac
