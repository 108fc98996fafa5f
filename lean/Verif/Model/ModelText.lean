import Verif.Model.Model

/-!
# The text of a model (model/model.go:118-164, 196-203, 381-404; the `String` methods of model/defs)

The reader of ini files is go-ini, an external package; it is a parameter here: it turns a text into the
list of sections with their keys and values.
-/

namespace Fastac

/-- Sections with their keys and values, in the order of the file. -/
abbrev IniData := List (Str × List (Str × Str))

/-- Comparison of strings as by `sort.Strings`; the bytes of UTF-8 compare like the characters. -/
def strLe : Str → Str → Bool
  | [], _ => true
  | _ :: _, [] => false
  | a :: as, b :: bs => decide (a.toNat < b.toNat) || (a == b && strLe as bs)

def insertKey (k : Str) : List Str → List Str
  | [] => [k]
  | k' :: ks => if strLe k k' then k :: k' :: ks else k' :: insertKey k ks

/-- `sort.Strings` (model.go:394): the sorted list is unique, so the algorithm does not matter. -/
def sortKeys (ks : List Str) : List Str := ks.foldr insertKey []

/-- The part of `PolicyDef.String` and `RequestDef.String` after `key = `
(model/defs/defs.go:113-115 and 170-172). -/
def PolicyDef.text (d : PolicyDef) : Str := join (s% ", ") d.args

/-- The part of `RoleDef.String` after `key = ` (model/defs/defs.go:218-224). -/
def roleDefText (nargs : Nat) : Str := join (s% ",") (List.replicate nargs (s% "_"))

/-- The text of sections: `[name]`, one line `key = value` per key, an empty line (model.go:388-401). -/
def renderIni (secs : IniData) : Str :=
  secs.flatMap (fun s => '[' :: s.1 ++ s% "]\n" ++
    s.2.flatMap (fun e => e.1 ++ s% " = " ++ e.2 ++ s% "\n") ++ s% "\n")

namespace Model

/-- The lines of one section: the keys sorted, the definitions as text (model.go:389-399). -/
def lines {V : Type} (defs : GoMap Str V) (text : Str → V → Str) : List (Str × Str) :=
  (sortKeys (defs.map Prod.fst)).filterMap (fun k => (defs.get k).map (fun v => (k, text k v)))

/-- The sections in the order of the table `sections` (model.go:64-70), without the empty ones
(model.go:384-387).  Effects print their expression (defs.go:194-196), matchers their text
(matcher_def.go:221-224). -/
def sections (m : Model) : IniData :=
  [ (s% "request_definition", lines m.rDefs (fun k v => (newPolicyDef k v).text)),
    (s% "policy_definition", lines m.pDefs (fun _ d => d.text)),
    (s% "role_definition", lines m.gDefs (fun _ n => roleDefText n)),
    (s% "policy_effect", lines m.eDefs (fun _ e => e)),
    (s% "matchers", lines m.mDefs (fun _ e => e)) ].filter (fun s => !s.2.isEmpty)

/-- `Model.String` (model.go:381-404). -/
def toText (m : Model) : Str := renderIni m.sections

/-- `getSecKeyByName` (model.go:118-121) with the table of sections (model.go:64-70). -/
def secKey (name : Str) : Option Char :=
  if name = s% "request_definition" then some 'r'
  else if name = s% "policy_definition" then some 'p'
  else if name = s% "role_definition" then some 'g'
  else if name = s% "policy_effect" then some 'e'
  else if name = s% "matchers" then some 'm'
  else none

/-- The calls of `SetDef` for one section (model.go:156-161). -/
def setDefs (m : Model) (sec : Char) : List (Str × Str) → Model × Res Unit
  | [] => (m, .ok ())
  | (k, v) :: kvs =>
    match m.setDef sec k v with
    | (m', .ok _) => m'.setDefs sec kvs
    | (m', r) => (m', r)

/-- The loop over the sections (model.go:150-162). -/
def loadSections (m : Model) : IniData → Model × Res Unit
  | [] => (m, .ok ())
  | (name, kvs) :: secs =>
    match secKey name with
    | none => m.loadSections secs
    | some c =>
      match m.setDefs c kvs with
      | (m', .ok _) => m'.loadSections secs
      | (m', r) => (m', r)

/-- `BuildMatchers` (model.go:196-203); `keys` are the keys of the matchers in the order of the map. -/
def buildMatchers (build : Str → Res Stage) (m : Model) : List Str → Model × Res Unit
  | [] => (m, .ok ())
  | k :: ks =>
    match m.buildMatcher build k with
    | (m', .ok _) => m'.buildMatchers build ks
    | (m', r) => (m', r)

/-- `loadModelFromConfig` (model.go:148-164); `order` is the order of the map of matchers. -/
def loadConfig (build : Str → Res Stage) (order : List Str → List Str) (m : Model) (cfg : IniData) :
    Model × Res Unit :=
  match m.loadSections cfg with
  | (m', .ok _) => m'.buildMatchers build (order (m'.mDefs.map Prod.fst))
  | (m', r) => (m', r)

/-- `LoadModelFromText` (model.go:139-146); `read` is `ini.Load`. -/
def loadText (read : Str → Res IniData) (build : Str → Res Stage) (order : List Str → List Str) (m : Model)
    (text : Str) : Model × Res Unit :=
  match read text with
  | .ok cfg => m.loadConfig build order cfg
  | .err => (m, .err)
  | .panic => (m, .panic)

end Model

end Fastac
