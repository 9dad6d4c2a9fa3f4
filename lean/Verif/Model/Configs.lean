import Verif.Model.Py
import Mathlib.Data.Rat.Defs

/-!
# `configs.ini` parsing, defaults and switches (`ssqueezepy/configs.py`)

Text is a list of characters. `float(s)` is a parameter `num : List Char → Option ℚ` (`none`: ValueError); every theorem
holds for all of them. (NaN and infinity, which `float` also accepts, are not distinguished from other numbers.)
-/
namespace Ssq

/-- A Python `str`. (ssqueezepy/configs.py:27-124.) -/
abbrev PyS := List Char

/-- `s.lstrip(c)` for a one-character argument. (ssqueezepy/configs.py:104, 110.) -/
def pyLstrip (c : Char) (s : PyS) : PyS := s.dropWhile (· == c)

/-- `s.strip(c)` for a one-character argument. (ssqueezepy/configs.py:104, 110, 122.) -/
def pyStrip (c : Char) (s : PyS) : PyS := (pyLstrip c (pyLstrip c s).reverse).reverse

/-- `s.split(c)` for a one-character separator: never empty, empty fields kept. (ssqueezepy/configs.py:41, 108, 122.) -/
def pySplit (c : Char) : PyS → List PyS
  | [] => [[]]
  | a :: s => if a == c then [] :: pySplit c s
    else match pySplit c s with
      | f :: fs => (a :: f) :: fs
      | [] => [[a]]

/-- A Python `dict` with string keys, in insertion order. (ssqueezepy/configs.py:27-124.) -/
abbrev PyDict (α : Type) := List (PyS × α)

/-- `d.get(k)` (`none`: absent). (ssqueezepy/configs.py:27-82.) -/
def PyDict.find {α : Type} (d : PyDict α) (k : PyS) : Option α := (List.find? (fun e => e.1 == k) d).map (·.2)

/-- `d[k] = v`: an existing key keeps its place. (ssqueezepy/configs.py:115-123.) -/
def PyDict.set {α : Type} : PyDict α → PyS → α → PyDict α
  | [], k, v => [(k, v)]
  | e :: d, k, v => if e.1 == k then (k, v) :: d else e :: PyDict.set d k v

/-- A value in a configuration: ssqueezepy/configs.py:97-106. -/
inductive CfgV
  | none | bool (b : Bool) | num (x : ℚ) | str (s : PyS)
  deriving DecidableEq

/-- `process_special` then `float_if_number`: ssqueezepy/configs.py:87-102. -/
def cfgSpecial (num : PyS → Option ℚ) (s : PyS) : CfgV :=
  if s = "None".toList then .none
  else if s = "True".toList then .bool true
  else if s = "False".toList then .bool false
  else match num s with
    | some x => .num x
    | none => .str s

/-- `process_value`: ssqueezepy/configs.py:104-106. -/
def cfgValue (num : PyS → Option ℚ) (s : PyS) : CfgV := cfgSpecial num (pyStrip '\'' (pyStrip '"' s))

/-- `GDEFAULTS`. (ssqueezepy/configs.py:85-124.) -/
abbrev GDict := PyDict (PyDict (PyDict CfgV))

/-- Parser state: the dict, the current module and object (ssqueezepy/configs.py:113-114). -/
structure CfgSt where
  g : GDict := []
  module : PyS := []
  obj : PyS := []

/-- One line (already stripped): ssqueezepy/configs.py:116-124. -/
def cfgLine (num : PyS → Option ℚ) (s : CfgSt) (line : PyS) : Py CfgSt :=
  if line.take 3 = "## ".toList then
    .ok { s with g := s.g.set (line.drop 3) [], module := line.drop 3 }
  else if line.take 2 = "# ".toList then
    match s.g.find s.module with
    | none => .error .keyError
    | some m => .ok { s with g := s.g.set s.module (m.set (line.drop 2) []), obj := line.drop 2 }
  else match (pySplit '=' line).map (pyStrip ' ') with
    | [key, value] =>
      match s.g.find s.module with
      | none => .error .keyError
      | some m =>
        match m.find s.obj with
        | none => .error .keyError
        | some o => .ok { s with g := s.g.set s.module (m.set s.obj (o.set key (cfgValue num value))) }
    | _ => .error .valueError

/-- The loop over lines. (ssqueezepy/configs.py:113-123.) -/
def cfgLines (num : PyS → Option ℚ) (s : CfgSt) : List PyS → Py CfgSt
  | [] => .ok s
  | l :: ls => match cfgLine num s l with
    | .error e => .error e
    | .ok s' => cfgLines num s' ls

/-- `_get_gdefaults` on the contents of `configs.ini`: ssqueezepy/configs.py:85-124. -/
def getGdefaults (num : PyS → Option ℚ) (txt : PyS) : Py GDict :=
  let lines := pySplit '\n' txt
  if "#### END".toList ∈ lines then
    let txt1 := lines.takeWhile (· != "#### END".toList)
    let txt2 := (txt1.filter (· != [])).map (pyStrip ' ')
    match cfgLines num {} txt2 with
    | .error e => .error e
    | .ok s => .ok s.g
  else .error .valueError

/-- What `gdefaults` returns: the dict, its values, or the single value (ssqueezepy/configs.py:79-82). -/
inductive GdRet
  | dict (d : PyDict CfgV) | values (l : List CfgV) | single (v : CfgV)
  deriving DecidableEq

/-- Filling the `None` keywords: ssqueezepy/configs.py:61-63. -/
def gdFill (D : PyDict CfgV) (kw : PyDict CfgV) : PyDict CfgV :=
  kw.map fun e => if e.2 = .none then (e.1, (D.find e.1).getD e.2) else e

/-- `get_all`: ssqueezepy/configs.py:65-68. -/
def gdAll (D : PyDict CfgV) (kw : PyDict CfgV) : PyDict CfgV :=
  D.foldl (fun kw e => if kw.find e.1 = none then kw.set e.1 e.2 else kw) kw

/-- `default_order`: ssqueezepy/configs.py:69-77. -/
def gdOrder (D : PyDict CfgV) (kw : PyDict CfgV) : PyDict CfgV :=
  let ordered := D.foldl (fun o e => if kw.find e.1 = none then o else PyDict.set o e.1 e.2) []
  kw.foldl (fun o e => PyDict.set o e.1 e.2) ordered

/-- `module, obj = '.'.join(mos[:-1]), mos[-1]`: ssqueezepy/configs.py:41-42. -/
def splitModObj (s : PyS) : PyS × PyS :=
  let mos := pySplit '.' s
  ((List.intersperse ['.'] mos.dropLast).flatten, mos.getLast?.getD [])

/-- The keywords after filling: ssqueezepy/configs.py:45-77. A module or object that is not found changes nothing (a warning). -/
def gdKw (g : GDict) (module obj : PyS) (getAll defaultOrder : Bool) (kw : PyDict CfgV) : PyDict CfgV :=
  match g.find module with
  | none => kw
  | some m => match m.find obj with
    | none => kw
    | some D =>
      let kw1 := gdFill D kw
      let kw2 := if getAll then gdAll D kw1 else kw1
      if defaultOrder then gdOrder D kw2 else kw2

/-- `gdefaults(module_and_obj, get_all, as_dict, default_order, **kw)` given the parsed configuration: ssqueezepy/configs.py:27-82. -/
def gdefaultsAt (g : GDict) (module obj : PyS) (getAll : Bool) (asDict : Option Bool) (defaultOrder : Bool)
    (kw : PyDict CfgV) : GdRet :=
  let r := gdKw g module obj getAll defaultOrder kw
  if asDict.getD getAll then .dict r
  else match r with
    | [e] => .single e.2
    | r => .values (r.map (·.2))

/-- `gdefaults('module.obj', ...)`: the configuration is read at every call (ssqueezepy/configs.py:45). -/
def gdefaults (num : PyS → Option ℚ) (txt : PyS) (modObj : PyS) (getAll : Bool) (asDict : Option Bool) (defaultOrder : Bool)
    (kw : PyDict CfgV) : Py GdRet :=
  match getGdefaults num txt with
  | .error e => .error e
  | .ok g =>
    let mo := splitModObj modObj
    .ok (gdefaultsAt g mo.1 mo.2 getAll asDict defaultOrder kw)

/-- `s.rstrip(chars)`. (ssqueezepy/configs.py:38.) -/
def pyRstripSet (cs : List Char) (s : PyS) : PyS := (s.reverse.dropWhile (cs.contains ·)).reverse

/-- The module name taken from the caller's file when `module_and_obj` is None: ssqueezepy/configs.py:38
(`split(os.path.sep)[-1].rstrip('.py')`). -/
def callerModule (sep : Char) (file : PyS) : PyS :=
  pyRstripSet ".py".toList ((pySplit sep file).getLast?.getD [])

/-- Python `v == 0` for a configuration value (`False == 0`). (ssqueezepy/configs.py:127-150.) -/
def CfgV.isZero : CfgV → Bool
  | .num x => x == 0
  | .bool b => !b
  | _ => false

/-- `IS_PARALLEL()`: ssqueezepy/configs.py:127-139. `env` is the value of `SSQ_PARALLEL`, if set. A non-scalar result of `gdefaults` never
occurs here, its comparison with 0 is False. -/
def isParallel (num : PyS → Option ℚ) (txt : PyS) (env : Option PyS) : Py Bool :=
  if env.getD "1".toList = "0".toList then .ok false
  else match gdefaults num txt "configs.IS_PARALLEL".toList false none false [("parallel".toList, .none)] with
    | .error e => .error e
    | .ok (.single v) => .ok (!v.isZero)
    | .ok _ => .ok true

/-- `USE_GPU()`: ssqueezepy/configs.py:142-147. `libs`: torch and cupy imported. -/
def useGpu (env : Option PyS) (libs : Bool) : Py Bool :=
  if env.getD "0".toList = "1".toList then
    if libs then .ok true else .error .valueError
  else .ok false

end Ssq
