import Verif.Model.Configs

/-!
# `TestSignals.make_signals` (`ssqueezepy/_test_signals.py`)

Parameter values are of an arbitrary type `V`. The signal generators and the noise are parameters of the model.
-/
namespace Ssq

/-- `TestSignals.SUPPORTED` — ssqueezepy/_test_signals.py:114-117. -/
def sigSupported : List PyS :=
  ["cosine", "sine", "lchirp", "echirp", "echirp_pc", "hchirp", "par-lchirp", "par-echirp", "par-hchirp", "jumps", "packed",
    "packed-poly", "poly-cubic", "am-sine", "am-cosine", "am-exp", "am-gauss"].map String.toList

/-- `TestSignals.DEMO` — ssqueezepy/_test_signals.py:119-124. -/
def sigDemo : List PyS :=
  ["cosine", "sine", "lchirp", "echirp", "hchirp", "#lchirp", "#echirp", "#hchirp", "par-lchirp", "par-echirp", "par-hchirp",
    "#par-lchirp", "jumps", "packed", "packed-poly", "poly-cubic", "am-sine", "am-cosine", "am-exp", "am-gauss"].map String.toList

/-- An element of `signals`: a name, a name with carrier parameters, a name with carrier and modulator parameters, or anything else. (ssqueezepy/_test_signals.py:666-725.) -/
inductive SigArg (V : Type)
  | str (s : PyS)
  | pair (s : PyS) (fp : PyDict V)
  | pair2 (s : PyS) (fp ap : PyDict V)
  | bad

/-- `sub in s` for strings. (ssqueezepy/_test_signals.py:691-719.) -/
def pyIn (sub : PyS) : PyS → Bool
  | [] => sub.isEmpty
  | c :: s => sub.isPrefixOf (c :: s) || pyIn sub s

/-- The checks on one element — ssqueezepy/_test_signals.py:691-719. -/
def sigValidate {V : Type} : SigArg V → Py Unit
  | .str s => do
    let (f, a) ← (if ':' ∈ s then
        match pySplit ':' s with
        | [f, a] => .ok (f, a)
        | _ => .error .valueError
      else .ok (s, []) : Py (PyS × PyS))
    let f := pyLstrip '#' f
    if f ≠ [] ∧ f ∉ sigSupported then .error .valueError
    else if a ≠ [] ∧ a ∉ sigSupported then .error .valueError
    else .ok ()
  | .pair _ _ => .ok ()
  | .pair2 _ _ _ => .ok ()
  | .bad => .error .typeError

/-- An entry of `default_args`: one dict, or a pair (carrier, modulator). (ssqueezepy/_test_signals.py:62-75.) -/
inductive SigDef (V : Type)
  | one (d : PyDict V)
  | two (f a : PyDict V)

/-- `for k, v in d.items(): p[k] = p.get(k, v)` — ssqueezepy/_test_signals.py:760-763, 768-769. -/
def mergeDefaults {V : Type} (p d : PyDict V) : PyDict V :=
  d.foldl (fun p e => p.set e.1 ((p.find e.1).getD e.2)) p

/-- `self.default_args.get(name, {})` used as a dict: a pair has no `items`. (ssqueezepy/_test_signals.py:743-769.) -/
def sigGet {V : Type} (da : PyDict (SigDef V)) (name : PyS) : Py (PyDict V) :=
  match da.find name with
  | none => .ok []
  | some (.one d) => .ok d
  | some (.two _ _) => .error .attributeError

/-- The defaults of one element filled in, for a name without `#` — ssqueezepy/_test_signals.py:743-769. -/
def sigBody {V : Type} (da : PyDict (SigDef V)) (name : PyS) (fp ap : PyDict V) : Py (PyS × PyDict V × PyDict V) :=
  if pyIn "am-".toList name then do
    let (name, fname, aname, defaults) ←
      (if "am-".toList.isPrefixOf name then
        let name := (name.reverse.dropWhile (· == ':')).reverse
        .ok ("cosine:".toList ++ name, "cosine".toList, name, none)
      else match pySplit ':' name with
        | [f, a] => .ok (name, f, a, some (da.find name))
        | _ => .error .valueError : Py (PyS × PyS × PyS × Option (Option (SigDef V))))
    let (fd, ad) ← (match defaults with
      | none => do
        let f ← sigGet da fname
        let a ← sigGet da aname
        return (f, a)
      | some (some (.two f a)) => return (f, a)
      | some (some (.one (e :: d))) => return (e :: d, [])
      | some _ => do
        let f ← sigGet da fname
        return (f, []) : Py (PyDict V × PyDict V))
    let ad ← (if ad.isEmpty then sigGet da aname else .ok ad)
    return (name, mergeDefaults fp fd, mergeDefaults ap ad)
  else do
    let d ← sigGet da name
    return (name, mergeDefaults fp d, ap)

/-- An element's name and parameters, the missing ones empty — ssqueezepy/_test_signals.py:728-735. -/
def sigUnpack {V : Type} : SigArg V → PyS × PyDict V × PyDict V
  | .str s => (s, [], [])
  | .pair s fp => (s, fp, [])
  | .pair2 s fp ap => (s, fp, ap)
  | .bad => ([], [], [])

/-- One element of the second loop of `_process_input`: its dict key and its parameters — ssqueezepy/_test_signals.py:727-775. -/
def sigProcess {V : Type} (da : PyDict (SigDef V)) (arg : SigArg V) : Py (PyS × PyDict V × PyDict V) :=
  match sigUnpack arg with
  | ([], _, _) => .error .indexError
  | (c :: rest, fp, ap) =>
    if c == '#' then (sigBody da rest fp ap).map fun r => ('#' :: r.1, r.2)
    else sigBody da (c :: rest) fp ap

/-- `d.pop(k, default)`: the rest. (ssqueezepy/_test_signals.py:567-586.) -/
def PyDict.erase {α : Type} (d : PyDict α) (k : PyS) : PyDict α := List.filter (fun e => !(e.1 == k)) d

/-- What `make_signals` returns: a dict with `get_params`, else a list, or the bare signal if there is one only. (ssqueezepy/_test_signals.py:586-591.) -/
inductive SigOut (X V : Type)
  | dict (d : PyDict (X × PyDict V × PyDict V))
  | many (l : List X)
  | one (x : X)

/-- The generators: `carrier name snr fparams aparams`, and the SNR measured when noise of the given SNR is added (`none`: `snr` is falsy,
no noise). (ssqueezepy/_test_signals.py:545-586.) -/
structure SigGen (X V : Type) where
  gen : PyS → Option V → PyDict V → PyDict V → Py X
  measured : V → Option V

/-- One pass of the loop of `make_signals`: `snr` is popped from the carrier's parameters; the measured one is stored —
ssqueezepy/_test_signals.py:567-586. `selfSnr`: the instance's SNR. -/
def sigMake {X V : Type} (G : SigGen X V) (selfSnr : Option V) (name : PyS) (fp ap : PyDict V) : Py (X × PyDict V × PyDict V) := do
  let snr := match fp.find "snr".toList with
    | some v => some v
    | none => selfSnr
  let fp := PyDict.erase fp "snr".toList
  let x ← G.gen name snr fp ap
  let fp := match snr.bind G.measured with
    | none => fp
    | some m => fp.set "snr".toList m
  return (x, fp, ap)

/-- The request: `'all'` or a list (a single string or tuple is put in a list). (ssqueezepy/_test_signals.py:684-725.) -/
inductive SigReq (V : Type)
  | all
  | list (l : List (SigArg V))
  | other

/-- The last lines of `make_signals`: what was made is filed in a dict by name — ssqueezepy/_test_signals.py:586-591. -/
def sigPack {X V : Type} (outs : List (PyS × X × PyDict V × PyDict V)) (getParams : Bool) : SigOut X V :=
  let data : PyDict (X × PyDict V × PyDict V) := outs.foldl (fun d e => PyDict.set d e.1 e.2) []
  if getParams then .dict data
  else match data.map (fun e => e.2.1) with
    | [x] => .one x
    | xs => .many xs

/-- `_process_input`: which elements are processed — ssqueezepy/_test_signals.py:684-725. -/
def sigInput {V : Type} : SigReq V → Py (List (SigArg V))
  | .all => .ok (sigDemo.map SigArg.str)
  | .list l => do
    let _ ← l.mapM sigValidate
    return l
  | .other => .error .typeError

/-- One pass of the loop, with the name kept. (ssqueezepy/_test_signals.py:566-585.) -/
def sigStep {X V : Type} (G : SigGen X V) (selfSnr : Option V) (p : PyS × PyDict V × PyDict V) :
    Py (PyS × X × PyDict V × PyDict V) := do
  let r ← sigMake G selfSnr p.1 p.2.1 p.2.2
  return (p.1, r)

/-- `make_signals(signals, N, get_params)` — ssqueezepy/_test_signals.py:532-591. Also returned: the parameter dicts after the call, which are
the caller's own objects where the request came with dicts. Simplified: dicts given in different requests are different objects; the time
vector is part of the generated `X`. -/
def makeSignals {X V : Type} (G : SigGen X V) (da : PyDict (SigDef V)) (selfSnr : Option V) (req : SigReq V) (getParams : Bool) :
    Py (SigOut X V × List (PyDict V × PyDict V)) := do
  let l ← sigInput req
  let ps ← l.mapM (sigProcess da)
  let outs ← ps.mapM (sigStep G selfSnr)
  return (sigPack outs getParams, outs.map fun e => e.2.2)

/-- `self.seed = seed or DEFAULT_SEED`, `DEFAULT_SEED = None` — ssqueezepy/_test_signals.py:60, 134. -/
def tsSeed : Option ℕ → Option ℕ
  | none => none
  | some 0 => none
  | some (s + 1) => some (s + 1)

/-- A random generator: `np.random.seed` and `np.random.randn(n)`. (ssqueezepy/_test_signals.py:577-579.) -/
structure Rng (R α : Type) where
  seed : ℕ → R
  randn : ℕ → R → List α × R

/-- The noise of one signal and the generator's state after it: `seed`, if there is one, then `randn(len(x))` —
ssqueezepy/_test_signals.py:577-579. -/
def tsNoise {R α : Type} (g : Rng R α) (seed : Option ℕ) (n : ℕ) (st : R) : List α × R :=
  g.randn n (match tsSeed seed with
    | none => st
    | some s => g.seed s)

end Ssq
