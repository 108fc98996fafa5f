import Verif.Lemmas.Values

/-!
# C114: requests with values of any type
-/

namespace Fastac

namespace VModel

open Model

variable {O : Type}

/-- **C114**: the values of a request may be of any type.  Whatever the conditions of the matcher `mk` come to (`Q`),
`Enforce` answers true only because of a stored rule that allows and of which the matcher is true, or because of what is
left behind by removed rules; if only rules that deny count, it answers false only because of a stored rule that denies
and of which the matcher is true.  If it returns an error, a condition that comes first on some way through the matcher is
an error for a rule that has been stored or for the rule with empty fields; if it panics, some condition panics for such a
rule. -/
theorem c114_justified (build : FnBuild) (u : Str → Res Stage) (hc : build.Coherent u)
    (hbin : ∀ e s, u e = .ok s → s.Binary)
    (grow : Nat → Nat) (rk mk ek pk rText eff : Str) (rArgs pArgs : List Str) (f : Formula) (root : Stage)
    (hw : f.wf = true) (hs : f.safe = true)
    (hroot : buildMatcherDef grow f.toks = .ok root)
    (P H : Rule → Prop)
    (s : VModel O) (h : FnModel.FnSeen build mk root H s.plain) (hmk : mk ≠ []) (hek : ek ≠ [])
    (hr : s.model.rDefs.get rk = some rText) (hrA : splitC ',' (removeSpaces rText) = rArgs)
    (d : PolicyDef) (hp : s.model.pDefs.get pk = some d) (hpA : d.args = pArgs)
    (he : s.model.eDefs.get ek = some eff)
    (alike : O → O → Bool) (gov : VGov O) (hgov : gov.Ok alike) (hsc : gov.Scoped)
    (N : Naming s.plain.functions rk pk rArgs pArgs)
    (rvals : List (Val O)) (hrl : rvals.length ≤ rArgs.length)
    (Q : Str → Rule → EvalRes) (hQ : ∀ e ∈ f.conditions, s.Explains alike gov rk pk rArgs pArgs rvals P Q e)
    (huse : pk = s% "p" ∨ ∃ e ∈ f.conditions, ∃ y ∈ pArgs, Mentions pk e y)
    (hHP : ∀ r, H r → P r) (hP0 : P (List.replicate pArgs.length []))
    (ord : Order) (hord : ord.Valid) (depth : Nat) (hdep : 0 < depth) :
    ∃ rules, s.model.policyRules pk = some rules ∧ (∀ r ∈ rules, H r) ∧ (∀ r, H r → r.length = pArgs.length) ∧
      ∀ params ∈ askings rk mk ek rvals,
        ((s.enforce build gov depth ord params).2 = .ok true → eff ≠ NO_DENY →
          (eff = SOME_ALLOW ∨ eff = SOME_ALLOW_NO_DENY) ∧
          ((∃ r ∈ rules, f.TrueOf Q r ∧ effectOf pArgs r = .allow) ∨ LeftBehind pk pArgs Q H rules f.ways)) ∧
        ((s.enforce build gov depth ord params).2 = .ok false → eff = NO_DENY →
          ∃ r ∈ rules, f.TrueOf Q r ∧ effectOf pArgs r = .deny) ∧
        ((s.enforce build gov depth ord params).2 = .err →
          ∃ e rest r, e :: rest ∈ f.ways ∧ (H r ∨ r = List.replicate pArgs.length []) ∧ Q e r = .err) ∧
        ((s.enforce build gov depth ord params).2 = .panic →
          ∃ e ∈ f.conditions, ∃ r, (H r ∨ r = List.replicate pArgs.length []) ∧ Q e r = .panic) := by
  obtain ⟨x, mt, rules, h1, h2, h3, h4, h5, h6, h7, hres⟩ := FnModel.any_justified build u hc hbin grow rk mk pk rArgs
    pArgs f root hw hs hroot P H s.plain h d hp hpA s.plain.functions N _ Q
    (fun e he => (hQ e he).legible N) (fun e he r hl hP => (hQ e he).eval hgov hsc N hrl hdep rfl hl hP)
    (fun e he r r' _ _ hag => (hQ e he).own hsc N hag) huse hHP hP0 ord hord eff
  have n1 : rk ≠ [] := by rintro rfl; exact absurd N.rHead (by simp)
  have hrd : newPolicyDef rk rText = declare rk rArgs := newPolicyDef_names hrA N.r.good
  have hans := enforce_storedV (build := build) (pDef := d) hr h1 he n1 hmk hek h2
    (by rw [h3, declare_key]; exact hp) gov depth ord rvals
  rw [h3, hrd] at hans
  refine ⟨rules, h5, h6, h7, fun params hparams => ?_⟩
  rw [hans params hparams]
  exact hres

/-- **C114** for `Filter`: it lists only stored rules of which the matcher is true, and the rule with empty fields only if
something is left behind by removed rules. -/
theorem c114_listed (build : FnBuild) (u : Str → Res Stage) (hc : build.Coherent u)
    (hbin : ∀ e s, u e = .ok s → s.Binary)
    (grow : Nat → Nat) (rk mk pk rText : Str) (rArgs pArgs : List Str) (f : Formula) (root : Stage)
    (hw : f.wf = true) (hs : f.safe = true)
    (hroot : buildMatcherDef grow f.toks = .ok root)
    (P H : Rule → Prop)
    (s : VModel O) (h : FnModel.FnSeen build mk root H s.plain) (hmk : mk ≠ [])
    (hr : s.model.rDefs.get rk = some rText) (hrA : splitC ',' (removeSpaces rText) = rArgs)
    (d : PolicyDef) (hp : s.model.pDefs.get pk = some d) (hpA : d.args = pArgs)
    (alike : O → O → Bool) (gov : VGov O) (hgov : gov.Ok alike) (hsc : gov.Scoped)
    (N : Naming s.plain.functions rk pk rArgs pArgs)
    (rvals : List (Val O)) (hrl : rvals.length ≤ rArgs.length)
    (Q : Str → Rule → EvalRes) (hQ : ∀ e ∈ f.conditions, s.Explains alike gov rk pk rArgs pArgs rvals P Q e)
    (huse : pk = s% "p" ∨ ∃ e ∈ f.conditions, ∃ y ∈ pArgs, Mentions pk e y)
    (hHP : ∀ r, H r → P r) (hP0 : P (List.replicate pArgs.length []))
    (ord : Order) (hord : ord.Valid) (depth : Nat) (hdep : 0 < depth)
    (params : List (VParam O))
    (hparams : params = .opt (.request (.str rk)) :: .opt (.matcher (.str mk)) :: rvals.map .val ∨
      (rk = s% "r" ∧ params = .opt (.matcher (.str mk)) :: rvals.map .val) ∨
      (rk = s% "r" ∧ mk = s% "m" ∧ params = rvals.map .val)) :
    ∃ rules, s.model.policyRules pk = some rules ∧
      (∀ row ∈ (s.filter build gov depth ord params).2.1,
        (∃ r ∈ rules, f.TrueOf Q r ∧ row = pk :: r) ∨
        (LeftBehind pk pArgs Q H rules f.ways ∧ row = pk :: List.replicate pArgs.length [])) ∧
      ((∀ e ∈ f.conditions, ∀ r, (H r ∨ r = List.replicate pArgs.length []) → Q e r ≠ .err ∧ Q e r ≠ .panic) →
        (s.filter build gov depth ord params).2.2 = .ok () ∧
        ∀ r ∈ rules, f.TrueOf Q r → pk :: r ∈ (s.filter build gov depth ord params).2.1) := by
  obtain ⟨x, mt, rules, h1, h2, h3, h4, h5, h6, h7, hrow, -, -, hex⟩ := FnModel.any_outcomes build u hc hbin grow rk mk pk
    rArgs pArgs f root hw hs hroot P H s.plain h d hp hpA s.plain.functions N _ Q
    (fun e he => (hQ e he).legible N) (fun e he r hl hP => (hQ e he).eval hgov hsc N hrl hdep rfl hl hP)
    (fun e he r r' _ _ hag => (hQ e he).own hsc N hag) huse hHP hP0 ord hord
  have n1 : rk ≠ [] := by rintro rfl; exact absurd N.rHead (by simp)
  have hrd : newPolicyDef rk rText = declare rk rArgs := newPolicyDef_names hrA N.r.good
  have hans := filter_storedV (build := build) hr n1 h1 hmk h2 gov depth ord rvals params hparams
  rw [h3, hrd] at hans
  refine ⟨rules, h5, ?_⟩
  rw [hans]
  refine ⟨hrow, fun hno => ?_⟩
  obtain ⟨hcont, n, -, hperm⟩ := hex hno
  refine ⟨by rw [hcont]; rfl, fun r hr ht => ?_⟩
  rw [hperm.mem_iff, List.mem_append, List.mem_flatMap]
  exact .inl ⟨r, hr, by rw [List.mem_replicate]; exact ⟨Formula.times_ne.2 ht, rfl⟩⟩

/-- **C114**, when no condition fails: the decision is the one that the conditions and the effect expression call for,
apart from what is left behind by removed rules. -/
theorem c114_exact (build : FnBuild) (u : Str → Res Stage) (hc : build.Coherent u)
    (hbin : ∀ e s, u e = .ok s → s.Binary)
    (grow : Nat → Nat) (rk mk ek pk rText eff : Str) (rArgs pArgs : List Str) (f : Formula) (root : Stage)
    (hw : f.wf = true) (hs : f.safe = true)
    (hroot : buildMatcherDef grow f.toks = .ok root)
    (P H : Rule → Prop)
    (s : VModel O) (h : FnModel.FnSeen build mk root H s.plain) (hmk : mk ≠ []) (hek : ek ≠ [])
    (hr : s.model.rDefs.get rk = some rText) (hrA : splitC ',' (removeSpaces rText) = rArgs)
    (d : PolicyDef) (hp : s.model.pDefs.get pk = some d) (hpA : d.args = pArgs)
    (he : s.model.eDefs.get ek = some eff)
    (alike : O → O → Bool) (gov : VGov O) (hgov : gov.Ok alike) (hsc : gov.Scoped)
    (N : Naming s.plain.functions rk pk rArgs pArgs)
    (rvals : List (Val O)) (hrl : rvals.length ≤ rArgs.length)
    (Q : Str → Rule → EvalRes) (hQ : ∀ e ∈ f.conditions, s.Explains alike gov rk pk rArgs pArgs rvals P Q e)
    (huse : pk = s% "p" ∨ ∃ e ∈ f.conditions, ∃ y ∈ pArgs, Mentions pk e y)
    (hHP : ∀ r, H r → P r) (hP0 : P (List.replicate pArgs.length []))
    (hdet : eff = SOME_ALLOW_NO_DENY → ∀ rules, s.model.policyRules pk = some rules → ∀ r ∈ rules,
      effectOf pArgs r ≠ .indeterminate)
    (ord : Order) (hord : ord.Valid) (depth : Nat) (hdep : 0 < depth)
    (hno : ∀ e ∈ f.conditions, ∀ r, (H r ∨ r = List.replicate pArgs.length []) → Q e r ≠ .err ∧ Q e r ≠ .panic) :
    ∃ rules answer, s.model.policyRules pk = some rules ∧
      (∀ r ∈ rules, H r) ∧ (∀ r, H r → r.length = pArgs.length) ∧
      (∀ params ∈ askings rk mk ek rvals, (s.enforce build gov depth ord params).2 = .ok answer) ∧
      (eff = SOME_ALLOW → (answer = true ↔ (∃ r ∈ rules, f.TrueOf Q r ∧ effectOf pArgs r = .allow) ∨
        LeftBehind pk pArgs Q H rules f.ways)) ∧
      (eff = NO_DENY → (answer = true ↔ ¬ ∃ r ∈ rules, f.TrueOf Q r ∧ effectOf pArgs r = .deny)) ∧
      (eff = SOME_ALLOW_NO_DENY → (answer = true ↔ ((∃ r ∈ rules, f.TrueOf Q r ∧ effectOf pArgs r = .allow) ∨
        LeftBehind pk pArgs Q H rules f.ways) ∧
        ¬ ∃ r ∈ rules, f.TrueOf Q r ∧ effectOf pArgs r = .deny)) := by
  obtain ⟨x, mt, rules, answer, h1, h2, h3, h4, h5, h6, h7, h8, hres⟩ := FnModel.any_exact build u hc hbin grow rk mk pk
    rArgs pArgs f root hw hs hroot P H s.plain h d hp hpA s.plain.functions N _ Q
    (fun e he => (hQ e he).legible N) (fun e he r hl hP => (hQ e he).eval hgov hsc N hrl hdep rfl hl hP)
    (fun e he r r' _ _ hag => (hQ e he).own hsc N hag) huse hHP hP0 ord hord eff hdet hno
  have n1 : rk ≠ [] := by rintro rfl; exact absurd N.rHead (by simp)
  have hrd : newPolicyDef rk rText = declare rk rArgs := newPolicyDef_names hrA N.r.good
  have hans := enforce_storedV (build := build) (pDef := d) hr h1 he n1 hmk hek h2
    (by rw [h3, declare_key]; exact hp) gov depth ord rvals
  rw [h3, hrd] at hans
  exact ⟨rules, answer, h5, h6, h7, fun params hparams => by rw [hans params hparams]; exact h8, hres⟩

/-! ## Values that are no strings -/

/-- What makes an atom true, by the types of the values: an attribute of the request that is compared with one of
the rule is the same string; arguments of a role function are strings, and the first has the second as a role; arguments of
a matching function are two strings. -/
theorem c114_strict (s : VModel O) (alike : O → O → Bool) (gov : VGov O) (rk : Str) (rArgs pArgs : List Str)
    (rvals : List (Val O)) (r : Rule) :
    (∀ x y, (Atom.eq (.req x) (.pol y)).comes alike (Ref.value rArgs pArgs rvals r) (s.answers gov rk rArgs rvals) =
        .bool true → ∃ t, valueAt rArgs rvals x = some (.str t) ∧ attr pArgs r y = some t) ∧
    (∀ f args rp, f ≠ s% "eval" → s.fns.get f = some .role → s.model.rpMap.get f = some rp →
      (Atom.call f args).comes alike (Ref.value rArgs pArgs rvals r) (s.answers gov rk rArgs rvals) = .bool true →
      ∃ u r' ds mgr, args.mapM (Ref.value rArgs pArgs rvals r) = some ((u :: r' :: ds).map .str) ∧
        rp.mgr.hasLink u r' ds = .ok (mgr, true)) ∧
    (∀ f args fn, f ≠ s% "eval" → s.functions f = some (wrapMatchingV fn) →
      (Atom.call f args).comes alike (Ref.value rArgs pArgs rvals r) (s.answers gov rk rArgs rvals) = .bool true →
      ∃ a b, args.mapM (Ref.value rArgs pArgs rvals r) = some [.str a, .str b] ∧ fn a b = some true) ∧
    (∀ args, (Atom.call (s% "eval") args).comes alike (Ref.value rArgs pArgs rvals r) (s.answers gov rk rArgs rvals) =
        .bool true → ∃ text, args.mapM (Ref.value rArgs pArgs rvals r) = some [.str text]) := by
  refine ⟨fun x y h => ?_, fun f args rp hf h1 h2 h => ?_, fun f args fn hf h1 h => ?_, fun args h => ?_⟩
  · simp only [Atom.comes, Ref.value] at h
    cases hv : valueAt rArgs rvals x with
    | none => rw [hv] at h; simp at h
    | some v =>
      cases hw : attr pArgs r y with
      | none => rw [hv, hw] at h; simp at h
      | some t =>
        rw [hv, hw] at h
        cases v with
        | str t' =>
          simp [Val.same] at h
          exact ⟨t', rfl, by rw [h]⟩
        | bool b => simp [Val.same] at h
        | other o => simp [Val.same] at h
  · simp only [Atom.comes] at h
    cases hv : args.mapM (Ref.value rArgs pArgs rvals r) with
    | none => rw [hv] at h; cases h
    | some vs =>
      rw [hv] at h
      simp only [VModel.answers, if_neg hf, VModel.functions, h1, h2, Option.map_some, gFunctionV] at h
      cases hm : vs.mapM Val.str? with
      | none => rw [hm] at h; cases h
      | some ws =>
        have hvs : vs = ws.map .str := by
          clear hv h
          induction vs generalizing ws with
          | nil => simp at hm; subst hm; rfl
          | cons v vs ih =>
            rw [List.mapM_cons] at hm
            cases v with
            | bool b => simp [Val.str?] at hm
            | other o => simp [Val.str?] at hm
            | str t =>
              cases hm' : vs.mapM Val.str? with
              | none => rw [hm'] at hm; simp [Val.str?] at hm
              | some ws' =>
                rw [hm'] at hm
                simp [Val.str?] at hm
                subst hm
                rw [ih ws' hm', List.map_cons]
        rw [hm] at h
        match ws, hvs, h with
        | [], _, h => cases h
        | [_], _, h => cases h
        | u :: r' :: ds, hvs, h =>
          simp only at h
          cases hl : rp.mgr.hasLink u r' ds with
          | err => rw [hl] at h; cases h
          | panic => rw [hl] at h; cases h
          | ok p =>
            obtain ⟨mgr, b⟩ := p
            rw [hl] at h
            simp [VRes.asCond] at h
            subst h
            exact ⟨u, r', ds, mgr, by rw [hvs], hl⟩
  · simp only [Atom.comes] at h
    cases hv : args.mapM (Ref.value rArgs pArgs rvals r) with
    | none => rw [hv] at h; cases h
    | some vs =>
      rw [hv] at h
      simp only [VModel.answers, if_neg hf, h1, wrapMatchingV, validateVariadicArgs] at h
      match vs, h with
      | [], h => cases h
      | [_], h => cases h
      | [.str a, .str b], h =>
        refine ⟨a, b, rfl, ?_⟩
        have h : VRes.asCond (O := O) (match fn a b with | some r => .val (.bool r) | none => .panic) = .bool true := h
        cases hfn : fn a b with
        | none => rw [hfn] at h; cases h
        | some c => rw [hfn] at h; simp [VRes.asCond] at h; rw [h]
      | [.bool _, _], h => cases h
      | [.other _, _], h => cases h
      | [.str _, .bool _], h => cases h
      | [.str _, .other _], h => cases h
      | _ :: _ :: _ :: _, h => simp [VRes.asCond] at h
  · simp only [Atom.comes] at h
    cases hv : args.mapM (Ref.value rArgs pArgs rvals r) with
    | none => rw [hv] at h; cases h
    | some vs =>
      rw [hv] at h
      simp only [VModel.answers, if_true] at h
      split at h
      · exact ⟨_, rfl⟩
      · cases h

/-! ## Programs -/

/-- What calls do to a model, its rules and its functions, does not depend on the types of the values: it is what the same
calls with strings do. -/
theorem c114_program (build : FnBuild) :
    (∀ (std : StdLib) (nil : O) (globals : GoMap Str (VFn O)),
      (VModel.new std nil globals).plain = FnModel.new std (globals.map (fun e => (e.1, VFn.plain e.2)))) ∧
    (∀ (s : VModel O) (op : VOp O), (s.step build op).plain = s.plain.step build op.plain) ∧
    ∀ (s : VModel O) (ops : List (VOp O)),
      (ops.foldl (VModel.step build) s).plain = (ops.map VOp.plain).foldl (FnModel.step build) s.plain := by
  have step : ∀ (s : VModel O) (op : VOp O), (s.step build op).plain = s.plain.step build op.plain := by
    intro s op
    cases op with
    | setFunction n f => exact VModel.plain_set s.model s.fns n _
    | removeFunction n => exact VModel.plain_del s.model s.fns n
    | setDef sec k v =>
      simp only [VModel.step, VOp.plain, FnModel.step, VModel.setDef, FnModel.setDef]
      by_cases h : sec = 'g' ∧ (s.model.setDef sec k v).2 = .ok ()
      · have h' : sec = 'g' ∧ (s.plain.model.setDef sec k v).2 = .ok () := h
        rw [if_pos h, if_pos h', VModel.plain_set]
        rfl
      · have h' : ¬ (sec = 'g' ∧ (s.plain.model.setDef sec k v).2 = .ok ()) := h
        rw [if_neg h, if_neg h']
        rfl
    | removeDef sec k =>
      simp only [VModel.step, VOp.plain, FnModel.step, VModel.removeDef, FnModel.removeDef]
      split
      · rw [VModel.plain_del]; rfl
      · rfl
    | setRoleManager k g => exact VModel.plain_set _ s.fns k _
    | onManager k f =>
      simp only [VModel.step, VOp.plain, FnModel.step, VModel.onManager, FnModel.onManager]
      have hm : s.plain.model = s.model := rfl
      rw [hm]
      cases s.model.rpMap.get k <;> rfl
    | buildMatcher k =>
      simp only [VModel.step, VOp.plain, FnModel.step, VModel.buildMatcher, FnModel.buildMatcher, VModel.plain_knows]
      rfl
    | rule op => rfl
    | enforce gov depth ord params => exact VModel.enforce_plain build s gov _ depth ord params
    | filter gov depth ord params => exact VModel.filter_plain build s gov _ depth ord params
  refine ⟨VModel.new_plain, step, fun s ops => ?_⟩
  induction ops generalizing s with
  | nil => rfl
  | cons op ops ih =>
    rw [List.foldl_cons, List.map_cons, List.foldl_cons, ih, step]

/-- On strings the functions answer what they answer in programs with strings. -/
theorem c114_functions (s : VModel O) (name : Str) (vs : List Str) :
    (s.plain.functions name).map (fun f => f vs) = (s.functions name).map (fun f => (f (vs.map .str)).asCond) := by
  rw [VModel.plain_functions]
  cases s.functions name <;> rfl

/-! ## examples/abac_rule_model.conf -/

/-- `eval(p.sub_rule)` -/
def ruleAtom : Atom := .call (s% "eval") [.pol (s% "sub_rule")]
/-- `r.obj == p.obj` -/
def objAtom : Atom := .eq (.req (s% "obj")) (.pol (s% "obj"))
/-- `r.act == p.act` -/
def actAtom : Atom := .eq (.req (s% "act")) (.pol (s% "act"))

/-- `eval(p.sub_rule) && r.obj == p.obj && r.act == p.act` -/
def abacMatcher : Formula :=
  [[ruleAtom.operand (s% "r") (s% "p"), objAtom.operand (s% "r") (s% "p"), actAtom.operand (s% "r") (s% "p")]]

/-- **C114** for the matcher of abac_rule_model.conf: a request is granted exactly if there is a stored rule whose text is
true of the request, and whose object and action are the strings in the request.  The texts are about the request
only, and none of them fails; the action is not the empty string. -/
theorem c114_abac (build : FnBuild) (u : Str → Res Stage) (hc : build.Coherent u)
    (hbin : ∀ e s, u e = .ok s → s.Binary)
    (grow : Nat → Nat) (root : Stage) (hroot : buildMatcherDef grow abacMatcher.toks = .ok root)
    (H : Rule → Prop) (s : VModel O) (h : FnModel.FnSeen build (s% "m") root H s.plain)
    (hr : s.model.rDefs.get (s% "r") = some (s% "sub, obj, act"))
    (d : PolicyDef) (hp : s.model.pDefs.get (s% "p") = some d) (hpA : d.args = [s% "sub_rule", s% "obj", s% "act"])
    (he : s.model.eDefs.get (s% "e") = some SOME_ALLOW)
    (alike : O → O → Bool) (gov : VGov O) (hgov : gov.Ok alike) (hsc : gov.Scoped)
    (N : Naming s.plain.functions (s% "r") (s% "p") [s% "sub", s% "obj", s% "act"] [s% "sub_rule", s% "obj", s% "act"])
    (sub obj act : Val O) (hact : act ≠ .str [])
    (truth : Str → EvalRes) (htruth : ∀ text, truth text =
      s.answers gov (s% "r") [s% "sub", s% "obj", s% "act"] [sub, obj, act] (s% "eval") [.str text])
    (hH : ∀ text o a, H [text, o, a] → PlainText (replaceArgs text) ∧ s% "eval" ∉ words (replaceArgs text) ∧
      (∀ y ∈ [s% "sub_rule", s% "obj", s% "act"], qual (s% "p") y ∉ words (replaceArgs text)) ∧
      truth text ≠ .err ∧ truth text ≠ .panic)
    (hempty : truth [] ≠ .err ∧ truth [] ≠ .panic)
    (ord : Order) (hord : ord.Valid) (depth : Nat) (hdep : 0 < depth) :
    ∃ rules answer, s.model.policyRules (s% "p") = some rules ∧
      (s.enforce build gov depth ord [.val sub, .val obj, .val act]).2 = .ok answer ∧
      (answer = true ↔ ∃ text o a, [text, o, a] ∈ rules ∧ truth text = .bool true ∧ obj = .str o ∧ act = .str a) := by
  have hcond : abacMatcher.ways = [[s% "eval(p_sub_rule)", s% "r_obj == p_obj", s% "r_act == p_act"]] := by
    decide +kernel
  obtain ⟨Q, hQdef⟩ : ∃ Q : Str → Rule → EvalRes, Q = fun e r =>
      (if e = s% "eval(p_sub_rule)" then ruleAtom else if e = s% "r_obj == p_obj" then objAtom else actAtom).comes alike
        (Ref.value [s% "sub", s% "obj", s% "act"] [s% "sub_rule", s% "obj", s% "act"] [sub, obj, act] r)
        (s.answers gov (s% "r") [s% "sub", s% "obj", s% "act"] [sub, obj, act]) := ⟨_, rfl⟩
  have hQ1 : ∀ t o a, Q (s% "eval(p_sub_rule)") [t, o, a] = truth t := by
    intro t o a
    rw [hQdef, htruth]
    rfl
  have hQ2 : ∀ t o a, Q (s% "r_obj == p_obj") [t, o, a] = .bool (obj.same alike (.str o)) := by
    intro t o a
    rw [hQdef]
    rfl
  have hQ3 : ∀ t o a, Q (s% "r_act == p_act") [t, o, a] = .bool (act.same alike (.str a)) := by
    intro t o a
    rw [hQdef]
    rfl
  have hsame : ∀ (v : Val O) (t : Str), v.same alike (.str t) = true ↔ v = .str t := by
    intro v t
    cases v <;> simp [Val.same]
  have three : ∀ r : Rule, r.length = 3 → ∃ t o a, r = [t, o, a] := by
    intro r hl
    match r, hl with
    | [t, o, a], _ => exact ⟨t, o, a, rfl⟩
  have hex : ∀ e ∈ abacMatcher.conditions, s.Explains alike gov (s% "r") (s% "p") [s% "sub", s% "obj", s% "act"]
      [s% "sub_rule", s% "obj", s% "act"] [sub, obj, act] (fun r => ∀ text o a, r = [text, o, a] →
        PlainText (replaceArgs text) ∧ s% "eval" ∉ words (replaceArgs text) ∧
        ∀ y ∈ [s% "sub_rule", s% "obj", s% "act"], qual (s% "p") y ∉ words (replaceArgs text)) Q e := by
    intro e he
    unfold Formula.conditions at he
    rw [hcond] at he
    simp only [List.flatten_cons, List.flatten_nil, List.append_nil, List.mem_cons, List.not_mem_nil, or_false] at he
    rcases he with rfl | rfl | rfl
    · refine .inr ⟨ruleAtom, ⟨⟨by simp, ?_, by decide +kernel, noTailRef_iff (by decide)⟩, ?_⟩, ⟨_, rfl, by decide +kernel⟩,
        fun r => by rw [hQdef]; rfl⟩
      · intro a ha
        simp only [List.mem_singleton] at ha
        subst ha
        simp [Ref.Known]
      · intro f args e
        cases e
        rw [if_pos rfl]
        refine ⟨_, rfl, fun r hP hl text hv => ?_⟩
        obtain ⟨t, o, a, rfl⟩ := three r hl
        cases hv
        exact hP _ _ _ rfl
    · exact .inr ⟨objAtom, ⟨by simp [objAtom, Atom.Uses, Ref.Known], fun f args e => by cases e⟩,
        ⟨_, rfl, by decide +kernel⟩, fun r => by rw [hQdef]; rfl⟩
    · exact .inr ⟨actAtom, ⟨by simp [actAtom, Atom.Uses, Ref.Known], fun f args e => by cases e⟩,
        ⟨_, rfl, by decide +kernel⟩, fun r => by rw [hQdef]; rfl⟩
  have hblank : ∀ text o a : Str, List.replicate 3 [] = [text, o, a] →
        PlainText (replaceArgs text) ∧ s% "eval" ∉ words (replaceArgs text) ∧
        ∀ y ∈ [s% "sub_rule", s% "obj", s% "act"], qual (s% "p") y ∉ words (replaceArgs text) := by
    intro t o a e
    cases e
    decide
  have hseen : ∀ r, H r → ∀ text o a : Str, r = [text, o, a] →
        PlainText (replaceArgs text) ∧ s% "eval" ∉ words (replaceArgs text) ∧
        ∀ y ∈ [s% "sub_rule", s% "obj", s% "act"], qual (s% "p") y ∉ words (replaceArgs text) := by
    rintro r hr t o a rfl
    obtain ⟨k1, k2, k3, -⟩ := hH t o a hr
    exact ⟨k1, k2, k3⟩
  obtain ⟨-, -, -, hlen, -⟩ := c114_justified build u hc hbin grow (s% "r") (s% "m") (s% "e") (s% "p") (s% "sub, obj, act")
    SOME_ALLOW [s% "sub", s% "obj", s% "act"] [s% "sub_rule", s% "obj", s% "act"] abacMatcher root (by decide) (by decide)
    hroot _ H s h (by decide) (by decide) hr (by decide) d hp hpA he alike gov hgov hsc N [sub, obj, act] (by simp) Q hex
    (.inl rfl) hseen hblank ord hord depth hdep
  obtain ⟨rules, answer, g1, g2, -, g4, g5, -, -⟩ := c114_exact build u hc hbin grow (s% "r") (s% "m") (s% "e") (s% "p")
    (s% "sub, obj, act") SOME_ALLOW [s% "sub", s% "obj", s% "act"] [s% "sub_rule", s% "obj", s% "act"] abacMatcher root
    (by decide) (by decide) hroot _ H s h (by decide) (by decide) hr (by decide) d hp hpA he alike gov hgov hsc N
    [sub, obj, act] (by simp) Q hex (.inl rfl) hseen hblank (fun e => absurd e (by decide)) ord hord depth hdep
    (by
      intro e he r hr
      have h3 : ∃ t o a, r = [t, o, a] ∧ truth t ≠ .err ∧ truth t ≠ .panic := by
        rcases hr with hr | rfl
        · obtain ⟨t, o, a, rfl⟩ := three r (hlen r hr)
          obtain ⟨-, -, -, k⟩ := hH t o a hr
          exact ⟨t, o, a, rfl, k⟩
        · exact ⟨_, _, _, rfl, hempty⟩
      obtain ⟨t, o, a, rfl, k⟩ := h3
      unfold Formula.conditions at he
      rw [hcond] at he
      simp only [List.flatten_cons, List.flatten_nil, List.append_nil, List.mem_cons, List.not_mem_nil, or_false] at he
      rcases he with rfl | rfl | rfl
      · rw [hQ1]; exact k
      · rw [hQ2]; simp
      · rw [hQ3]; simp)
  refine ⟨rules, answer, g1, g4 _ (by simp [askings]), (g5 rfl).trans ?_⟩
  have hnot : ¬ LeftBehind (s% "p") [s% "sub_rule", s% "obj", s% "act"] Q H rules abacMatcher.ways := by
    have hlast : Q (s% "r_act == p_act") (List.replicate 3 []) ≠ .bool true := by
      have := hQ3 [] [] []
      show Q _ [[], [], []] ≠ _
      rw [this]
      intro e
      exact hact ((hsame _ _).1 (EvalRes.bool.inj e))
    rw [hcond]
    rintro (⟨-, way, hway, hall⟩ | ⟨way, last, hway, -, -, -, hl, -⟩)
    · rw [List.mem_singleton] at hway
      subst hway
      exact hlast (hall _ (by simp))
    · rw [List.mem_singleton] at hway
      have : last = s% "r_act == p_act" := by
        have := congrArg List.getLast? hway
        simpa using this
      subst this
      exact hlast hl
  rw [or_iff_left hnot]
  have htrue : ∀ t o a, abacMatcher.TrueOf Q [t, o, a] ↔ truth t = .bool true ∧ obj = .str o ∧ act = .str a := by
    intro t o a
    unfold Formula.TrueOf
    rw [hcond]
    simp only [exists_eq_left, List.mem_cons, List.not_mem_nil, or_false, forall_eq_or_imp, forall_eq,
      hQ1, hQ2, hQ3, EvalRes.bool.injEq, hsame]
  constructor
  · rintro ⟨r, k1, k2, -⟩
    obtain ⟨t, o, a, rfl⟩ := three r (hlen r (g2 r k1))
    exact ⟨t, o, a, k1, (htrue t o a).1 k2⟩
  · rintro ⟨t, o, a, k1, k2⟩
    exact ⟨_, k1, (htrue t o a).2 k2, rfl⟩

end VModel

end Fastac
