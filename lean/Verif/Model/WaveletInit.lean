import Verif.Model.Configs

/-!
# Building a `Wavelet` from its specification — ssqueezepy/wavelets.py:53-58, 387-470, ssqueezepy/_cwt.py:497-515

Names, options, dtypes and display names; the sampled functions are in `Gmw` and `Wavelets`. Text is ASCII (`str.lower`, `str.title`). Option
values are those of `Configs` (None, bool, number, string); a number's type (int or float) is not represented.
-/
namespace Ssq

/-- `s.lower()`. (ssqueezepy/wavelets.py:453.) -/
def pyLower (s : PyS) : PyS := s.map Char.toLower

/-- `s.replace(old, new)` after `skip` characters of the current match. (ssqueezepy/wavelets.py:970-974.) -/
def pyReplaceGo (old new : PyS) : ℕ → PyS → PyS
  | _, [] => []
  | n + 1, _ :: s => pyReplaceGo old new n s
  | 0, c :: s => if old.isPrefixOf (c :: s) then new ++ pyReplaceGo old new (old.length - 1) s else c :: pyReplaceGo old new 0 s

/-- `s.replace(old, new)`, `old` not empty. (ssqueezepy/wavelets.py:970-974.) -/
def pyReplace (old new s : PyS) : PyS := pyReplaceGo old new 0 s

/-- `s.title()`: a letter is upper case exactly when the character before it is not a letter. (ssqueezepy/wavelets.py:971.) -/
def pyTitleGo : Bool → PyS → PyS
  | _, [] => []
  | afterLetter, c :: s => (if afterLetter then c.toLower else c.toUpper) :: pyTitleGo c.isAlpha s

/-- `_fn_to_name` given `fn.__qualname__` — ssqueezepy/wavelets.py:967-976. -/
def fnToName (qual : PyS) : PyS :=
  let s := pyReplace "_".toList " ".toList qual
  let s := pyReplace "<locals>".toList [] s
  let s := pyReplace "<lambda>".toList [] s
  let s := pyReplace ".".toList [] s
  pyReplace "Gmw ".toList "GMW ".toList (pyTitleGo false s)

/-- The `dtype` argument: None, a string, a scalar type such as `np.float64` (a class, with its qualified name), a
`np.dtype`, a `torch.dtype`, or anything else. (ssqueezepy/wavelets.py:388-400.) -/
inductive DtypeArg
  | none
  | str (s : PyS)
  | cls (qual : PyS)
  | npDtype (name : PyS)
  | torchDtype (name : PyS)
  | other

/-- `Wavelet.DTYPES` — ssqueezepy/wavelets.py:46. -/
def dtypesSupported : List PyS := ["float32".toList, "float64".toList]

/-- `str(dtype)`. (ssqueezepy/wavelets.py:399.) -/
def DtypeArg.text : DtypeArg → PyS
  | .none => "None".toList
  | .str s => s
  | .cls q => "<class '".toList ++ q ++ "'>".toList
  | .npDtype n => n
  | .torchDtype n => "torch.".toList ++ n
  | .other => []

/-- `Wavelet._process_dtype(dtype, as_str=True)` — ssqueezepy/wavelets.py:387-400. -/
def processDtype : DtypeArg → Py PyS
  | .str s => if s ∈ dtypesSupported then .ok ((pySplit '.' s).getLast?.getD []) else .error .valueError
  | .none => .error .typeError
  | .other => .error .typeError
  | d => .ok ((pySplit '.' d.text).getLast?.getD [])

/-- An element of a tuple passed as `wavelet`. (ssqueezepy/wavelets.py:410-470.) -/
inductive WavItem
  | str (s : PyS)
  | dict (d : PyDict CfgV)
  | other

/-- A `Wavelet` object: the qualified name of its function, its `config` and its `dtype`. (ssqueezepy/wavelets.py:54-60.) -/
structure WvObj where
  qual : PyS
  config : PyDict CfgV
  dtype : PyS
  deriving DecidableEq

/-- `Wavelet.name` — ssqueezepy/wavelets.py:185-190. -/
def WvObj.name (w : WvObj) : PyS := fnToName w.qual

/-- The `wavelet` argument: a string, a tuple, a function (with its qualified name and the dtype it returns for a float32 array), a `Wavelet`,
or anything else. (ssqueezepy/wavelets.py:410-470.) -/
inductive WavArg
  | str (s : PyS)
  | tuple (l : List WavItem)
  | fn (qual : PyS) (out : PyS)
  | inst (w : WvObj)
  | other

/-- The keyword arguments of the built-in wavelets — ssqueezepy/_gmw.py:22-23, ssqueezepy/wavelets.py:498, 533, 566, 589. Empty for a name that is not in
`Wavelet.SUPPORTED`. -/
def wavParams (name : PyS) : List PyS :=
  if name = "gmw".toList then ["gamma".toList, "beta".toList, "norm".toList, "order".toList, "centered_scale".toList, "dtype".toList]
  else if name = "morlet".toList then ["mu".toList, "dtype".toList]
  else if name = "bump".toList then ["mu".toList, "s".toList, "om".toList, "dtype".toList]
  else if name = "cmhat".toList then ["mu".toList, "s".toList, "dtype".toList]
  else if name = "hhhat".toList then ["mu".toList, "dtype".toList]
  else []

/-- `Wavelet.SUPPORTED` — ssqueezepy/wavelets.py:43. -/
def wavSupported : List PyS := ["gmw".toList, "morlet".toList, "bump".toList, "cmhat".toList, "hhhat".toList]

/-- The qualified name of the function a built-in returns: `gmw` chooses by `norm` and `order` — ssqueezepy/_gmw.py:125-131. -/
def wavQual (name : PyS) (o : PyDict CfgV) : PyS :=
  let base :=
    if name = "gmw".toList then
      (if o.find "norm".toList = some (.str "bandpass".toList) then "gmw_l1".toList else "gmw_l2".toList) ++
        (if (o.find "order".toList).any CfgV.isZero then [] else "_k".toList)
    else name
  base ++ ".<locals>.<lambda>".toList

/-- The dtype check and output dtype of a built-in: `_process_params_dtype` (ssqueezepy/wavelets.py:486-496) for all but `bump`, which turns a float dtype
into the complex one of twice its size (ssqueezepy/wavelets.py:538-542). `dtype` is a string here. -/
def wavOutDtype (name dtype : PyS) : Py PyS :=
  if name = "bump".toList then
    if dtype = "float32".toList then .ok "complex64".toList
    else if dtype = "float64".toList then .ok "complex128".toList
    else if dtype = "complex64".toList ∨ dtype = "complex128".toList then .ok dtype
    else .error .valueError
  else if dtype ∈ dtypesSupported then .ok dtype
  else .error .valueError

/-- `{...}[wavelet](**wavopts)`: unknown keywords, then the values. `check` stands for the validation of the other values (`_check_args`,
arithmetic on non-numbers). A dtype that is not a string (None in the configuration) takes the default float64. (ssqueezepy/wavelets.py:450-470.) -/
def wavBuild (check : PyS → PyDict CfgV → Py Unit) (name : PyS) (o : PyDict CfgV) : Py (PyS × PyS) :=
  if ∀ e ∈ o, e.1 ∈ wavParams name then
    (check name o).bind fun _ =>
    (wavOutDtype name (match o.find "dtype".toList with | some (.str s) => s | _ => "float64".toList)).bind fun out =>
    .ok (wavQual name o, out)
  else .error .typeError

/-- `tp in s`. (ssqueezepy/wavelets.py:388-400.) -/
def pyContains (tp s : PyS) : Bool := s.tails.any fun t => tp.isPrefixOf t

/-- `set_dtype_from_out` — ssqueezepy/wavelets.py:422-429, given `str(out.dtype)`. -/
def dtypeFromOut (out : PyS) : Py PyS :=
  if pyContains "complex64".toList out then processDtype (.str "float32".toList)
  else if pyContains "complex128".toList out then processDtype (.str "float64".toList)
  else processDtype (.npDtype out)

/-- The inner `process_dtype`: options and `self._dtype` afterwards — ssqueezepy/wavelets.py:411-420. -/
def wavProcessDtype (o : PyDict CfgV) (dtype : Option PyS) : PyDict CfgV × Option PyS :=
  if (o.find "norm".toList).getD (.str "bandpass".toList) = .str "energy".toList then
    (o.set "dtype".toList (.str "float64".toList), some "float64".toList)
  else match dtype with
    | some d => (o.set "dtype".toList (.str d), some d)
    | none => (o, none)

/-- Keyword names `gdefaults` takes itself, so that an option of this name is a TypeError. (ssqueezepy/configs.py:27-29.) -/
def gdReserved : List PyS := ["module_and_obj".toList, "get_all".toList, "as_dict".toList, "default_order".toList]

/-- The part of `_validate_and_set_wavelet` for a name and options — ssqueezepy/wavelets.py:450-470. `g` is the configuration. -/
def wavNamed (g : GDict) (check : PyS → PyDict CfgV → Py Unit) (name : PyS) (opts : PyDict CfgV) (dtype : Option PyS) : Py WvObj :=
  let name := pyLower name
  if ∃ e ∈ opts, e.1 ∈ gdReserved then .error .typeError
  else
    let o := gdKw g (if name = "gmw".toList then "_gmw".toList else "wavelets".toList) name true true opts
    let r := wavProcessDtype o dtype
    if name ∈ wavSupported then
      (wavBuild check name r.1).bind fun b =>
      (match r.2 with | some d => (.ok d : Py PyS) | none => dtypeFromOut b.2).bind fun d =>
      .ok { qual := b.1, config := r.1, dtype := d }
    else .error .valueError

/-- `self._process_dtype(dtype, as_str=True) if dtype is not None else None` — ssqueezepy/wavelets.py:54-55. -/
def initDtype : DtypeArg → Py (Option PyS)
  | .none => .ok none
  | d => (processDtype d).map some

/-- `Wavelet(wavelet, dtype=dtype)` — ssqueezepy/wavelets.py:53-58, 410-470. (`N` only sets `xi`.) -/
def waveletInit (g : GDict) (check : PyS → PyDict CfgV → Py Unit) (w : WavArg) (dtype : DtypeArg) : Py WvObj :=
  (initDtype dtype).bind fun d =>
  match w with
  | .fn q out => (dtypeFromOut out).bind fun d => .ok { qual := q, config := [], dtype := d }
  | .str s => wavNamed g check s [] d
  | .tuple [.str s, .dict o] => wavNamed g check s o d
  | .tuple [_, .dict _] => .error .valueError
  | _ => .error .typeError

/-- `Wavelet._init_if_not_isinstance(wavelet)` — ssqueezepy/wavelets.py:402-408. -/
def initIfNot (g : GDict) (check : PyS → PyDict CfgV → Py Unit) : WavArg → Py WvObj
  | .inst w => .ok w
  | w => waveletInit g check w .none

/-- `_process_gmw_wavelet(wavelet, l1_norm)` — ssqueezepy/_cwt.py:497-515: what it returns, and what the caller's own argument is afterwards (the
options of a tuple are changed in place). -/
def processGmw (w : WavArg) (l1 : Bool) : Py WavArg × WavArg :=
  let norm : CfgV := .str (if l1 then "bandpass".toList else "energy".toList)
  match w with
  | .str s =>
    if (pyLower s).take 3 = "gmw".toList then (.ok (.tuple [.str "gmw".toList, .dict [("norm".toList, norm)]]), w) else (.ok w, w)
  | .tuple [] => (.error .indexError, w)
  | .tuple (.str s :: rest) =>
    if (pyLower s).take 3 = "gmw".toList then
      match rest with
      | [.dict o] =>
        let w' := .tuple [.str s, .dict (o.set "norm".toList ((o.find "norm".toList).getD norm))]
        (.ok w', w')
      | [_] => (.error .attributeError, w)
      | _ => (.error .valueError, w)
    else (.ok w, w)
  | .tuple _ => (.error .attributeError, w)
  | .inst v =>
    if v.name = "GMW L2".toList ∧ l1 = true then (.error .valueError, w)
    else if v.name = "GMW L1".toList ∧ l1 = false then (.error .valueError, w)
    else (.ok w, w)
  | w => (.ok w, w)

/-- The wavelet `cwt` and `icwt` end up using, and the caller's argument afterwards — ssqueezepy/_cwt.py:250-251, 412-413. -/
def cwtWavelet (g : GDict) (check : PyS → PyDict CfgV → Py Unit) (w : WavArg) (l1 : Bool) : Py WvObj × WavArg :=
  let p := processGmw w l1
  (p.1.bind (initIfNot g check), p.2)

/-- Calls one after the other with the same argument object. (ssqueezepy/_cwt.py:497-515.) -/
def cwtWavelets (g : GDict) (check : PyS → PyDict CfgV → Py Unit) : WavArg → List Bool → List (Py WvObj)
  | _, [] => []
  | w, l :: ls =>
    let r := cwtWavelet g check w l
    r.1 :: cwtWavelets g check r.2 ls

end Ssq
