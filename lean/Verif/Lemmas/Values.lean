import Verif.Spec.Values
import Verif.Lemmas.Outcomes

/-!
# Lemmas about requests with values of any type
-/

namespace Fastac

variable {O : Type}

theorem withFnV_ne {fns : Str → Option (VFn O)} {name x : Str} {fn : VFn O} (h : x ≠ name) :
    withFnV fns name fn x = fns x := by
  unfold withFnV; rw [if_neg h]

theorem withFnV_self {fns : Str → Option (VFn O)} {name : Str} {fn : VFn O} : withFnV fns name fn name = some fn := by
  unfold withFnV; rw [if_pos rfl]

theorem asCond_seen (x : VRes O) : x.asCond = x.seen := by
  rcases x with (_ | _ | _) | _ | _ <;> rfl

/-! ## Parameters -/

theorem getParameter_value (key : Str) {names : List Str} (g : GoodNames names) (vals : List (Val O))
    (hl : vals.length ≤ names.length) (x : Str) :
    (declare key names).getParameter vals (qual key x) = valueAt names vals x := by
  unfold PolicyDef.getParameter valueAt
  rw [declare_get key g, declare_args key g]
  have : ¬ vals.length > names.length := by omega
  by_cases h : x ∈ names <;> simp [h, this]

theorem requestValues_none {rk : Str} {rArgs : List Str} {rvals : List (Val O)} {w : Str} (h : ∀ x ∈ rArgs, w ≠ qual rk x)
    (r : Rule) : requestValues rk rArgs rvals r w = none := by
  unfold requestValues
  have : rArgs.find? (fun y => decide (qual rk y = w)) = none := by
    rw [List.find?_eq_none]
    intro x hx
    simpa using fun e => h x hx e.symm
  rw [this]
  rfl

theorem requestValues_some {rk : Str} {rArgs : List Str} {rvals : List (Val O)} {x : Str} (h : x ∈ rArgs) (r : Rule) :
    requestValues rk rArgs rvals r (qual rk x) = valueAt rArgs rvals x := by
  unfold requestValues
  have : rArgs.find? (fun y => decide (qual rk y = qual rk x)) = some x := by
    induction rArgs with
    | nil => cases h
    | cons a as ih =>
      rw [List.find?_cons]
      by_cases e : a = x
      · subst e; simp
      · have e' : decide (qual rk a = qual rk x) = false := by simpa [qual_inj] using e
        rw [e']
        refine ih ?_
        rcases List.mem_cons.1 h with h | h
        · exact absurd h.symm e
        · exact h
  rw [this]
  rfl

section
variable {base : Str → Option Fn} {rk pk : Str} {rArgs pArgs : List Str} {rvals : List (Val O)}

theorem getV_p {ps : VMatchParams O} {r : Rule} {y : Str} (hy : y.head? = some 'p' ∨ y.head? = some 'g') :
    ps.get r y = (ps.pDef.getParameter r y).map .str := by
  cases y with
  | nil => simp at hy
  | cons c y =>
    simp only [List.head?_cons, Option.some.injEq] at hy
    simp only [VMatchParams.get, if_pos hy]

theorem getV_r {ps : VMatchParams O} {r : Rule} {x : Str} (hx : x.head? = some 'r') :
    ps.get r x = ps.rDef.getParameter ps.rvals x := by
  cases x with
  | nil => simp at hx
  | cons c x =>
    simp only [List.head?_cons, Option.some.injEq] at hx
    subst hx
    rfl

/-- Names that are no attributes of the policy are read from the request. -/
theorem Naming.requestV (N : Naming base rk pk rArgs pArgs) (hr : rvals.length ≤ rArgs.length) (r r' : Rule) {w : Str}
    (h : ∀ y ∈ pArgs, qual pk y ≠ w) :
    VMatchParams.get ⟨declare pk pArgs, declare rk rArgs, rvals⟩ r w = requestValues rk rArgs rvals r' w := by
  cases w with
  | nil =>
    rw [requestValues_none]
    · rfl
    · intro x _ e; simp [qual] at e
  | cons c w =>
    simp only [VMatchParams.get]
    by_cases hc : c = 'p' ∨ c = 'g'
    · rw [if_pos hc, declare_none pk N.p.good (fun y hy e => h y hy e.symm), requestValues_none]
      · rfl
      intro x _ e
      have : (qual rk x).head? = some 'r' := N.rHead' x
      rw [← e] at this
      simp at this
      subst this
      simp at hc
    · rw [if_neg hc]
      by_cases hx : ∃ x ∈ rArgs, c :: w = qual rk x
      · obtain ⟨x, hx, e⟩ := hx
        rw [e, requestValues_some hx, if_pos]
        · exact getParameter_value rk N.r.good rvals hr x
        · have : (qual rk x).head? = some 'r' := N.rHead' x
          rw [← e] at this
          simpa using this
      · have hx' : ∀ x ∈ rArgs, c :: w ≠ qual rk x := fun x h1 h2 => hx ⟨x, h1, h2⟩
        rw [requestValues_none hx']
        split
        · exact declare_none rk N.r.good hx' _
        · rfl

theorem allValues_get (N : Naming base rk pk rArgs pArgs) (hr : rvals.length ≤ rArgs.length) {r : Rule}
    (hl : r.length = pArgs.length) (w : Str) :
    VMatchParams.get ⟨declare pk pArgs, declare rk rArgs, rvals⟩ r w = allValues rk pk rArgs pArgs rvals r w := by
  unfold allValues
  cases hf : pArgs.find? (fun y => decide (qual pk y = w)) with
  | none =>
    simp only
    refine N.requestV hr r r (fun y hy e => ?_)
    have := List.find?_eq_none.1 hf y hy
    simp [e] at this
  | some y =>
    have he := List.find?_some hf
    simp only [decide_eq_true_eq] at he
    subst he
    simp only
    rw [getV_p (N.pHead y), getParameter_attr pk N.p.good r hl y]

theorem Naming.value (N : Naming base rk pk rArgs pArgs) (hr : rvals.length ≤ rArgs.length) {r : Rule}
    (hl : r.length = pArgs.length) (a : Ref) :
    (a.term rk pk).value (VMatchParams.get ⟨declare pk pArgs, declare rk rArgs, rvals⟩ r) =
      a.value rArgs pArgs rvals r := by
  cases a with
  | req x =>
    have h := getV_r (ps := ⟨declare pk pArgs, declare rk rArgs, rvals⟩) (r := r) (N.rHead' x)
    exact h.trans (getParameter_value rk N.r.good rvals hr x)
  | pol y =>
    have h := getV_p (ps := ⟨declare pk pArgs, declare rk rArgs, rvals⟩) (r := r) (N.pHead y)
    rw [getParameter_attr pk N.p.good r hl y] at h
    exact h
  | lit s => rfl

theorem allValues_own {e : Str} {r r' : Rule}
    (h : ∀ y ∈ pArgs, Mentions pk e y → attr pArgs r y = attr pArgs r' y) : ∀ w ∈ words e,
    allValues rk pk rArgs pArgs rvals r w = allValues rk pk rArgs pArgs rvals r' w := by
  intro w hw
  unfold allValues
  cases hf : pArgs.find? (fun y => decide (qual pk y = w)) with
  | none => rfl
  | some y =>
    have he := List.find?_some hf
    simp only [decide_eq_true_eq] at he
    subst he
    simp only
    rw [h y (List.mem_of_find?_eq_some hf) hw]

end

/-! ## Conditions -/

theorem mapM_congrV {α : Type} {f g : Ref → Option α} : ∀ (args : List Ref), (∀ a ∈ args, f a = g a) →
    args.mapM f = args.mapM g
  | [], _ => rfl
  | a :: args, h => by
    rw [List.mapM_cons, List.mapM_cons, h a (List.mem_cons_self ..), mapM_congrV args (fun b hb => h b (List.mem_cons_of_mem _ hb))]

theorem mapM_mapV {α : Type} {f : GovTerm → Option α} {g : Ref → GovTerm} : ∀ (args : List Ref),
    (args.map g).mapM f = args.mapM (fun a => f (g a))
  | [] => rfl
  | a :: args => by rw [List.map_cons, List.mapM_cons, List.mapM_cons, mapM_mapV args]

theorem Atom.comes_own {rArgs pArgs : List Str} {rvals : List (Val O)} {alike : O → O → Bool}
    {fn : Str → List (Val O) → EvalRes} (a : Atom) {r r' : Rule}
    (h : ∀ y, Ref.pol y ∈ a.refs → attr pArgs r y = attr pArgs r' y) :
    a.comes alike (Ref.value rArgs pArgs rvals r) fn = a.comes alike (Ref.value rArgs pArgs rvals r') fn := by
  have key : ∀ c ∈ a.refs, Ref.value rArgs pArgs rvals r c = Ref.value rArgs pArgs rvals r' c := by
    intro c hc
    cases c with
    | req x => rfl
    | pol y => simp only [Ref.value, h y hc]
    | lit s => rfl
  cases a with
  | eq a b => simp only [Atom.comes, key a (by simp [Atom.refs]), key b (by simp [Atom.refs])]
  | call f args => simp only [Atom.comes, mapM_congrV args (fun c hc => key c (by simpa [Atom.refs] using hc))]

theorem Ref.names_eqV (rk pk : Str) (args : List Ref) :
    (args.map (Ref.term rk pk)).map GovTerm.text = args.map (Ref.name rk pk) := by
  rw [List.map_map]
  apply List.map_congr_left
  intro a _
  exact Ref.term_text rk pk a

section
variable {s : VModel O} {gov : VGov O} {rk pk : Str} {rArgs pArgs : List Str} {rvals : List (Val O)}
  {P : Rule → Prop} {alike : O → O → Bool}

theorem VModel.plain_get (s : VModel O) (name : Str) : s.plain.fns.get name = (s.fns.get name).map VFnVal.plain := by
  unfold VModel.plain
  simp only
  induction s.fns with
  | nil => rfl
  | cons e l ih =>
    rw [List.map_cons]
    unfold GoMap.get
    by_cases h : e.1 = name
    · simp [h]
    · simp only [h, if_false]
      exact ih

theorem seen_wrap (fn : Str → Str → Option Bool) : VFn.plain (O := O) (wrapMatchingV fn) = wrapMatching fn := by
  funext vs
  unfold VFn.plain wrapMatchingV validateVariadicArgs
  match vs with
  | [] => rfl
  | [_] => rfl
  | [a, b] =>
    simp only [List.map_cons, List.map_nil, List.length_cons, List.length_nil, List.mapM_cons, List.mapM_nil, Val.str?,
      wrapMatching]
    show VRes.asCond (match fn a b with | some r => .val (.bool r) | none => .panic) = _
    cases fn a b <;> rfl
  | _ :: _ :: _ :: l => simp [wrapMatching, VRes.asCond]

theorem seen_glob (lib : StdLib) : VFn.plain (O := O) (globMatchV lib) = globMatchFn lib := by
  funext vs
  unfold VFn.plain globMatchV validateVariadicArgs
  match vs with
  | [] => rfl
  | [_] => rfl
  | [a, b] =>
    simp only [List.map_cons, List.map_nil, List.length_cons, List.length_nil, List.mapM_cons, List.mapM_nil, Val.str?,
      globMatchFn]
    show VRes.asCond (match lib.glob a b with | some r => .val (.bool r) | none => .err) = _
    cases lib.glob a b <;> rfl
  | _ :: _ :: _ :: l => simp [globMatchFn, VRes.asCond]

theorem mapM_str : ∀ vs : List Str, (vs.map (Val.str (O := O))).mapM Val.str? = some vs
  | [] => rfl
  | v :: vs => by
    rw [List.map_cons, List.mapM_cons, mapM_str vs]
    rfl

theorem seen_role (mgr : Mgr) : VFn.plain (O := O) (gFunctionV mgr) = gFunction mgr := by
  funext vs
  unfold VFn.plain gFunctionV
  rw [mapM_str]
  match vs with
  | [] => rfl
  | [_] => rfl
  | u :: r :: ds =>
    simp only [gFunction]
    cases mgr.hasLink u r ds <;> rfl

theorem VModel.plain_functions (s : VModel O) (name : Str) :
    s.plain.functions name = (s.functions name).map VFn.plain := by
  unfold FnModel.functions VModel.functions
  rw [VModel.plain_get]
  cases s.fns.get name with
  | none => rfl
  | some v =>
    cases v with
    | fn f => rfl
    | eval => rfl
    | role =>
      simp only [Option.map_some, VFnVal.plain, VModel.plain]
      cases s.model.rpMap.get name with
      | none => rfl
      | some rp => simp only [Option.map_some, seen_role]

theorem VModel.plain_none {name : Str} (h : s.plain.functions name = none) : s.functions name = none := by
  rw [VModel.plain_functions] at h
  simpa using h

/-- What govaluate makes of an atom. -/
theorem Atom.eval_comes (hg : gov.Ok alike) (hsc : gov.Scoped) (N : Naming s.plain.functions rk pk rArgs pArgs)
    (hr : rvals.length ≤ rArgs.length) {a : Atom} (h : a.Reads s pk rArgs pArgs rvals P) {depth : Nat}
    (hd : 0 < depth) {E : VEvaluator O}
    (hE : E = gov.withEval depth s.functions (VMatchParams.get ⟨declare pk pArgs, declare rk rArgs, rvals⟩)) :
    E.compiles (a.text rk pk) = true ∧
    ∀ r : Rule, r.length = pArgs.length → P r →
      (E.eval (a.text rk pk) r).seen =
        a.comes alike (Ref.value rArgs pArgs rvals r) (s.answers gov rk rArgs rvals) := by
  obtain ⟨n, rfl⟩ : ∃ n, depth = n + 1 := ⟨depth - 1, by omega⟩
  subst hE
  simp only [VGov.withEval]
  have hn : ∀ (r : Rule) (b : Ref), b.Known rArgs pArgs → (b.term rk pk).NoFn (withFnV s.functions (s% "eval") (evalFnV gov
      s.functions (VMatchParams.get ⟨declare pk pArgs, declare rk rArgs, rvals⟩) r (n + 1))) := by
    intro r b hb
    have hne := N.not_eval b
    cases b with
    | req x => exact ⟨N.r.ident x hb, (withFnV_ne hne).trans (VModel.plain_none (N.r.free x hb))⟩
    | pol y => exact ⟨N.p.ident y hb, (withFnV_ne hne).trans (VModel.plain_none (N.p.free y hb))⟩
    | lit t => exact hb.1
  cases a with
  | eq a b =>
    obtain ⟨⟨h1, h2⟩, -⟩ := h
    have key : ∀ r, _ := fun r => hg.eqT _ (VMatchParams.get ⟨declare pk pArgs, declare rk rArgs, rvals⟩) _ _
      (hn r a h1) (hn r b h2)
    simp only [Ref.term_text] at key
    refine ⟨(key []).1, fun r hl _ => ?_⟩
    rw [Atom.text, (key r).2 r, N.value hr hl, N.value hr hl, Atom.comes]
    cases a.value rArgs pArgs rvals r <;> cases b.value rArgs pArgs rvals r <;> rfl
  | call f args =>
    obtain ⟨⟨h1, h2, h3, -⟩, h5⟩ := h
    have h6 := h5 f args rfl
    have hfn : ∀ r, ∃ fn, withFnV s.functions (s% "eval") (evalFnV gov s.functions
        (VMatchParams.get ⟨declare pk pArgs, declare rk rArgs, rvals⟩) r (n + 1)) f = some fn := by
      intro r
      by_cases hf : f = s% "eval"
      · subst hf; exact ⟨_, withFnV_self⟩
      · rw [if_neg hf] at h6
        obtain ⟨fn, h6⟩ := h6
        exact ⟨fn, (withFnV_ne hf).trans h6⟩
    have key : ∀ r fn, withFnV s.functions (s% "eval") (evalFnV gov s.functions
        (VMatchParams.get ⟨declare pk pArgs, declare rk rArgs, rvals⟩) r (n + 1)) f = some fn → _ := fun r fn hfn =>
      hg.callT _ (VMatchParams.get ⟨declare pk pArgs, declare rk rArgs, rvals⟩) f fn (args.map (Ref.term rk pk)) h3 hfn
        (by simpa using h1) (by
          intro y hy
          obtain ⟨b, hb, rfl⟩ := List.mem_map.1 hy
          exact hn r b (h2 b hb))
    simp only [Ref.names_eqV] at key
    refine ⟨?_, fun r hl hP => ?_⟩
    · obtain ⟨fn, hfn⟩ := hfn []
      exact (key [] fn hfn).1
    · obtain ⟨fn, hfn⟩ := hfn r
      have hmap : (args.map (Ref.term rk pk)).mapM (fun a => a.value (VMatchParams.get ⟨declare pk pArgs, declare rk rArgs,
          rvals⟩ r)) = args.mapM (Ref.value rArgs pArgs rvals r) := by
        rw [mapM_mapV]
        exact mapM_congrV args (fun a _ => N.value hr hl a)
      rw [Atom.text, (key r fn hfn).2 r, hmap, Atom.comes]
      cases hv : args.mapM (Ref.value rArgs pArgs rvals r) with
      | none => rfl
      | some vs =>
        simp only
        unfold VModel.answers
        by_cases hf : f = s% "eval"
        · subst hf
          rw [withFnV_self] at hfn
          cases hfn
          rw [if_pos rfl] at h6
          obtain ⟨x, rfl, hx⟩ := h6
          rw [if_pos rfl]
          cases hxv : x.value rArgs pArgs rvals r with
          | none => simp [hxv] at hv
          | some v =>
            have : vs = [v] := by simpa [hxv] using hv.symm
            subst this
            cases v with
            | bool b => rfl
            | other o => rfl
            | str text =>
              obtain ⟨p1, p2, p3⟩ := hx r hP hl text hxv
              obtain ⟨e1, e2⟩ := hsc (withFnV s.functions (s% "eval") (evalFnV gov s.functions
                  (VMatchParams.get ⟨declare pk pArgs, declare rk rArgs, rvals⟩) r n)) s.functions
                (VMatchParams.get ⟨declare pk pArgs, declare rk rArgs, rvals⟩)
                (requestValues rk rArgs rvals) (replaceArgs text) p1 (by
                  intro w hw
                  apply withFnV_ne
                  rintro rfl
                  exact p2 hw)
              have hval : validateVariadicArgs 1 [Val.str (O := O) text] = some [text] := rfl
              simp only [evalFnV, hval]
              rw [e1, e2 r [] (by
                intro w hw
                apply N.requestV hr r []
                intro y hy e
                rw [← e] at hw
                exact p3 y hy hw), asCond_seen]
              split <;> rfl
        · rw [if_neg hf]
          rw [withFnV_ne hf] at hfn
          rw [hfn]
          exact (asCond_seen _).symm

/-- A condition that does not call `eval`. -/
theorem VModel.eval_comesTo (hsc : gov.Scoped) (N : Naming s.plain.functions rk pk rArgs pArgs)
    (hr : rvals.length ≤ rArgs.length) {e : Str} (h1 : PlainText e) (h2 : s% "eval" ∉ words e) {depth : Nat}
    {r : Rule} (hl : r.length = pArgs.length) {E : VEvaluator O}
    (hE : E = gov.withEval depth s.functions (VMatchParams.get ⟨declare pk pArgs, declare rk rArgs, rvals⟩)) :
    (if E.compiles e then (E.eval e r).seen else .err) = s.comesTo gov rk pk rArgs pArgs rvals e r := by
  have key : ∀ (fns : Str → Option (VFn O)), (∀ w ∈ words e, fns w = s.functions w) →
      (gov fns (VMatchParams.get ⟨declare pk pArgs, declare rk rArgs, rvals⟩)).compiles e =
        (gov s.functions (allValues rk pk rArgs pArgs rvals)).compiles e ∧
      (gov fns (VMatchParams.get ⟨declare pk pArgs, declare rk rArgs, rvals⟩)).eval e r =
        (gov s.functions (allValues rk pk rArgs pArgs rvals)).eval e r := by
    intro fns hfns
    obtain ⟨c1, c2⟩ := hsc fns s.functions (VMatchParams.get ⟨declare pk pArgs, declare rk rArgs, rvals⟩)
      (allValues rk pk rArgs pArgs rvals) e h1 hfns
    exact ⟨c1, c2 r r (fun w _ => allValues_get N hr hl w)⟩
  have hne : ∀ (fn : VFn O), ∀ w ∈ words e, withFnV s.functions (s% "eval") fn w = s.functions w := by
    intro fn w hw
    apply withFnV_ne
    rintro rfl
    exact h2 hw
  have k1 : E.compiles e = (gov s.functions (allValues rk pk rArgs pArgs rvals)).compiles e := by
    subst hE; exact (key _ (hne _)).1
  have k2 : E.eval e r = (gov s.functions (allValues rk pk rArgs pArgs rvals)).eval e r := by
    subst hE; exact (key _ (hne _)).2
  unfold VModel.comesTo
  rw [k1, k2, asCond_seen]

namespace VModel

variable {Q : Str → Rule → EvalRes} {e : Str}

theorem Explains.legible (N : Naming s.plain.functions rk pk rArgs pArgs)
    (h : s.Explains alike gov rk pk rArgs pArgs rvals P Q e) : Legible pk pArgs e := by
  rcases h with ⟨-, h, -, -⟩ | ⟨a, ha, ⟨ts, h1, rfl⟩, -⟩
  · exact h
  · have hfull : a.Full := by
      have := ha.1
      cases a with
      | eq a b => trivial
      | call g args => exact this.1
    rw [Atom.operand_eq] at h1
    cases h1
    rw [Atom.expr_eq rk pk hfull]
    refine ⟨fun w hw hr => ?_, Atom.inner N ha.1⟩
    obtain ⟨y, rfl, hy, -⟩ := (Atom.policyRef N ha.1 w).1 ⟨hw, hr⟩
    exact ⟨y, hy, rfl⟩

theorem Explains.eval (hgov : gov.Ok alike) (hsc : gov.Scoped) (N : Naming s.plain.functions rk pk rArgs pArgs)
    (hr : rvals.length ≤ rArgs.length) (h : s.Explains alike gov rk pk rArgs pArgs rvals P Q e) {depth : Nat}
    (hd : 0 < depth) {E : VEvaluator O}
    (hE : E = gov.withEval depth s.functions (VMatchParams.get ⟨declare pk pArgs, declare rk rArgs, rvals⟩))
    {r : Rule} (hl : r.length = pArgs.length) (hP : P r) :
    (if E.seen.compiles e then E.seen.eval e r else .err) = Q e r := by
  show (if E.compiles e then (E.eval e r).seen else .err) = Q e r
  rcases h with ⟨h1, -, h3, h4⟩ | ⟨a, ha, ⟨ts, h1, rfl⟩, h4⟩
  · rw [h4]
    exact eval_comesTo hsc N hr h1 h3 hl hE
  · have hfull : a.Full := by
      have := ha.1
      cases a with
      | eq a b => trivial
      | call g args => exact this.1
    rw [Atom.operand_eq] at h1
    cases h1
    rw [h4, Atom.expr_eq rk pk hfull]
    obtain ⟨c1, c2⟩ := Atom.eval_comes hgov hsc N hr ha hd hE
    rw [if_pos c1]
    exact c2 r hl hP

theorem Explains.own (hsc : gov.Scoped) (N : Naming s.plain.functions rk pk rArgs pArgs)
    (h : s.Explains alike gov rk pk rArgs pArgs rvals P Q e) {r r' : Rule}
    (hag : ∀ y ∈ pArgs, Mentions pk e y → attr pArgs r y = attr pArgs r' y) : Q e r = Q e r' := by
  rcases h with ⟨h1, -, -, h4⟩ | ⟨a, ha, ⟨ts, h1, rfl⟩, h4⟩
  · rw [h4, h4]
    unfold VModel.comesTo
    rw [(hsc s.functions s.functions (allValues rk pk rArgs pArgs rvals) (allValues rk pk rArgs pArgs rvals) e h1
      (fun _ _ => rfl)).2 r r' (allValues_own hag)]
  · have hfull : a.Full := by
      have := ha.1
      cases a with
      | eq a b => trivial
      | call g args => exact this.1
    rw [Atom.operand_eq] at h1
    cases h1
    rw [Atom.expr_eq rk pk hfull] at hag
    rw [h4, h4]
    apply Atom.comes_own
    intro y hy
    have hyA := (Atom.words_text N ha.1).1 _ hy
    exact hag y hyA ((Atom.policyRef N ha.1 _).2 ⟨y, rfl, hyA, hy⟩).1

/-! ## Calls -/

theorem splitV_vals (vs : List (Val O)) : splitParamsV (vs.map VParam.val) = ([], vs) := by
  induction vs with
  | nil => rfl
  | cons v vs ih => simp only [List.map_cons, splitParamsV, ih]

theorem splitV_named (rk mk ek : Str) (vs : List (Val O)) : splitParamsV (namedV rk mk ek ++ vs.map VParam.val) =
    ([.request (.str rk), .matcher (.str mk), .effector (.str ek)], vs) := by
  simp only [namedV, List.cons_append, List.nil_append, splitParamsV, splitV_vals]

/-- `Enforce` with a stored matcher. -/
theorem enforce_storedV {build : FnBuild} {rk mk ek rText eff : Str} {x : MEntry} {mt : Matcher}
    {pDef : PolicyDef} (hr : s.model.rDefs.get rk = some rText) (hx : s.model.mMap.get mk = some x)
    (he : s.model.eDefs.get ek = some eff) (n1 : rk ≠ []) (hmk : mk ≠ []) (hek : ek ≠ [])
    (hmt : s.model.resolve x = some mt) (hp : s.model.pDefs.get mt.pDef.key = some pDef) (gov : VGov O) (depth : Nat)
    (ord : Order) (rvals : List (Val O)) :
    ∀ params ∈ askings rk mk ek rvals,
      (s.enforce build gov depth ord params).2 = Fastac.enforce mt pDef
        (gov.withEval depth s.functions (VMatchParams.get ⟨mt.pDef, newPolicyDef rk rText, rvals⟩)).seen ord eff := by
  have hctx : ∀ params, (splitParamsV params).2 = rvals →
      newContext (build s.knows) s.model (splitParamsV params).1 =
        (s.model, .ok ⟨some (newPolicyDef rk rText), some x, some eff⟩) →
      (s.enforce build gov depth ord params).2 = Fastac.enforce mt pDef
        (gov.withEval depth s.functions (VMatchParams.get ⟨mt.pDef, newPolicyDef rk rText, rvals⟩)).seen ord eff := by
    intro params hv hc
    simp only [enforce, hc, hv]
    simp only [enforceCtx, Option.bind_some, hmt, hp]
    rfl
  intro params hp
  unfold askings at hp
  rw [List.mem_append, List.mem_singleton] at hp
  rcases hp with rfl | hp
  · refine hctx _ (by rw [splitV_named]) ?_
    rw [splitV_named]
    exact Model.newContext_named hr hx he n1 hmk hek
  · split at hp
    · rename_i hh
      obtain ⟨rfl, rfl, rfl⟩ := hh
      rw [List.mem_singleton] at hp
      subst hp
      refine hctx _ (by rw [splitV_vals]) ?_
      rw [splitV_vals]
      exact Model.newContext_default hr hx he
    · cases hp

/-- `Filter` with a stored matcher. -/
theorem filter_storedV {build : FnBuild} {rk mk rText : Str} {x : MEntry} {mt : Matcher}
    (hr : s.model.rDefs.get rk = some rText) (n1 : rk ≠ []) (hx : s.model.mMap.get mk = some x) (hmk : mk ≠ [])
    (hres : s.model.resolve x = some mt) (gov : VGov O) (depth : Nat) (ord : Order) (rvals : List (Val O)) :
    ∀ params : List (VParam O),
      params = .opt (.request (.str rk)) :: .opt (.matcher (.str mk)) :: rvals.map .val ∨
        (rk = s% "r" ∧ params = .opt (.matcher (.str mk)) :: rvals.map .val) ∨
        (rk = s% "r" ∧ mk = s% "m" ∧ params = rvals.map .val) →
      (s.filter build gov depth ord params).2 =
        ((Fastac.filter mt (gov.withEval depth s.functions
            (VMatchParams.get ⟨mt.pDef, newPolicyDef rk rText, rvals⟩)).seen ord).1,
          (Fastac.filter mt (gov.withEval depth s.functions
            (VMatchParams.get ⟨mt.pDef, newPolicyDef rk rText, rvals⟩)).seen ord).2.result) := by
  intro params hp
  have hpk := Model.picks_stored (build := build s.knows) hx hmk
  have key : ∃ eff, newContext (build s.knows) s.model (splitParamsV params).1 =
      (s.model, .ok ⟨some (newPolicyDef rk rText), some x, eff⟩) ∧ (splitParamsV params).2 = rvals := by
    rcases hp with rfl | ⟨rfl, rfl⟩ | ⟨rfl, rfl, rfl⟩
    · obtain ⟨eff, h⟩ := newContext_asking hr n1 hpk
      exact ⟨eff, by simpa only [splitParamsV, splitV_vals] using h, by simp only [splitParamsV, splitV_vals]⟩
    · obtain ⟨eff, h⟩ := newContext_matcher hr hpk
      exact ⟨eff, by simpa only [splitParamsV, splitV_vals] using h, by simp only [splitParamsV, splitV_vals]⟩
    · obtain ⟨eff, h⟩ := newContext_plain hr hpk
      exact ⟨eff, by simpa only [splitV_vals] using h, by simp only [splitV_vals]⟩
  obtain ⟨eff, h1, h2⟩ := key
  unfold VModel.filter
  rw [h1, h2]
  simp only [Option.bind_some, hres]
  rfl

end VModel

end

/-! ## Programs -/

theorem GoMap.map_set_vals {K V W : Type} [DecidableEq K] (f : V → W) (k : K) (v : V) : ∀ m : GoMap K V,
    (m.set k v).map (fun e => (e.1, f e.2)) = GoMap.set (m.map (fun e => (e.1, f e.2))) k (f v)
  | [] => rfl
  | (k', v') :: m => by
    simp only [GoMap.set, List.map_cons]
    by_cases h : k' = k
    · simp [h]
    · simp only [h, if_false, List.map_cons, GoMap.map_set_vals f k v m]

theorem GoMap.map_del_vals {K V W : Type} [DecidableEq K] (f : V → W) (k : K) : ∀ m : GoMap K V,
    (m.del k).map (fun e => (e.1, f e.2)) = GoMap.del (m.map (fun e => (e.1, f e.2))) k
  | [] => rfl
  | (k', v') :: m => by
    simp only [GoMap.del, List.map_cons]
    by_cases h : k' = k
    · simp only [h, if_true, GoMap.map_del_vals f k m]
    · simp only [h, if_false, List.map_cons, GoMap.map_del_vals f k m]

theorem splitParams_plain : ∀ params : List (VParam O),
    (splitParams (params.map VParam.plain)).1 = (splitParamsV params).1
  | [] => rfl
  | .opt o :: ps => by simp only [List.map_cons, VParam.plain, splitParams, splitParamsV, splitParams_plain ps]
  | .val (.str v) :: ps => by simp only [List.map_cons, VParam.plain, splitParams, splitParamsV, splitParams_plain ps]
  | .val (.bool v) :: ps => by simp only [List.map_cons, VParam.plain, splitParams, splitParamsV, splitParams_plain ps]
  | .val (.other v) :: ps => by simp only [List.map_cons, VParam.plain, splitParams, splitParamsV, splitParams_plain ps]

theorem VModel.plain_knows (s : VModel O) : s.plain.knows = s.knows := by
  funext name
  unfold FnModel.knows VModel.knows GoMap.has
  rw [VModel.plain_get]
  cases s.fns.get name <;> rfl

theorem VModel.plain_set (m : Model) (fns : GoMap Str (VFnVal O)) (name : Str) (v : VFnVal O) :
    VModel.plain ⟨m, fns.set name v⟩ = ⟨m, (VModel.plain ⟨m, fns⟩).fns.set name v.plain⟩ := by
  unfold VModel.plain
  rw [GoMap.map_set_vals]

theorem VModel.plain_del (m : Model) (fns : GoMap Str (VFnVal O)) (name : Str) :
    VModel.plain ⟨m, fns.del name⟩ = ⟨m, (VModel.plain ⟨m, fns⟩).fns.del name⟩ := by
  unfold VModel.plain
  rw [GoMap.map_del_vals]

theorem plain_sets (l : List (Str × VFn O)) : ∀ m : GoMap Str (VFnVal O),
    (l.foldl (fun m e => m.set e.1 (.fn e.2)) m).map (fun e => (e.1, e.2.plain)) =
      (l.map (fun e => (e.1, VFn.plain e.2))).foldl (fun m e => GoMap.set m e.1 (FnVal.fn e.2))
        (m.map (fun e => (e.1, e.2.plain))) := by
  induction l with
  | nil => intro m; rfl
  | cons e l ih =>
    intro m
    simp only [List.foldl_cons, List.map_cons]
    rw [ih, GoMap.map_set_vals]
    rfl

theorem builtin_plain (lib : StdLib) (nil : O) :
    (builtinFnsV lib nil).map (fun e => (e.1, VFn.plain e.2)) = builtinFns lib := by
  simp only [builtinFnsV, List.map_cons, List.map_nil, seen_wrap, seen_glob]
  rfl

theorem VModel.new_plain (std : StdLib) (nil : O) (globals : GoMap Str (VFn O)) :
    (VModel.new std nil globals).plain = FnModel.new std (globals.map (fun e => (e.1, VFn.plain e.2))) := by
  unfold VModel.new VModel.plain FnModel.new defaultFunctionMap
  simp only
  rw [plain_sets, plain_sets, builtin_plain]
  rfl

theorem VModel.enforce_plain (build : FnBuild) (s : VModel O) (gov : VGov O) (gov' : Gov) (depth : Nat) (ord : Order)
    (params : List (VParam O)) : (s.enforce build gov depth ord params).1.plain =
      (s.plain.enforce build gov' depth ord (params.map VParam.plain)).1 := by
  unfold VModel.enforce FnModel.enforce FnModel.reaches Model.enforceParams
  rw [splitParams_plain, VModel.plain_knows]
  have hm : s.plain.model = s.model := rfl
  rw [hm]
  rcases h : newContext (build s.knows) s.model (splitParamsV params).1 with ⟨m, c | _ | _⟩
  · simp only [VModel.reaches]
    obtain ⟨b, hb⟩ : ∃ b, c.matcher.bind m.resolve = b := ⟨_, rfl⟩
    simp only [hb]
    cases b with
    | none => rfl
    | some mt =>
      simp only
      by_cases hk : m.pDefs.has mt.pDef.key = true
      · rw [if_pos hk, if_pos hk, VModel.plain_set]
        rfl
      · rw [if_neg hk, if_neg hk]
        rfl
  · rfl
  · rfl

theorem VModel.filter_plain (build : FnBuild) (s : VModel O) (gov : VGov O) (gov' : Gov) (depth : Nat) (ord : Order)
    (params : List (VParam O)) : (s.filter build gov depth ord params).1.plain =
      (s.plain.filter build gov' depth ord (params.map VParam.plain)).1 := by
  unfold VModel.filter FnModel.filter FnModel.rangeMatches FnModel.ranges Model.rangeParams
  rw [splitParams_plain, VModel.plain_knows]
  have hm : s.plain.model = s.model := rfl
  rw [hm]
  rcases h : newContext (build s.knows) s.model (splitParamsV params).1 with ⟨m, c | _ | _⟩
  · obtain ⟨b, hb⟩ : ∃ b, c.matcher.bind m.resolve = b := ⟨_, rfl⟩
    obtain ⟨d, hd⟩ : ∃ d, c.rDef = d := ⟨_, rfl⟩
    simp only [hb, hd]
    cases b with
    | none => rfl
    | some mt =>
      cases d with
      | none => rfl
      | some d =>
        simp only [Option.isSome_some, Bool.and_self, if_true]
        rw [VModel.plain_set]
        rfl
  · rfl
  · rfl

end Fastac
