import Verif.Model.Viz
import Mathlib.Data.Real.Basic

/-!
# The comparisons of `TestSignals` (ssqueezepy/_test_signals.py:501-529, 785-977) and the lines of `plot` (ssqueezepy/visuals.py:771-774, 928-943)

Modelled: which images are shown under which keywords, the layouts of the figures, the rows on which ridges are drawn, the lines drawn, and the exceptions of arguments.
Not modelled: the texts of titles (any values), what matplotlib makes of the calls. A Python `dict` that is passed around is an address in a heap, so that two
functions may hold the same one.
-/
namespace Ssq

/-- What the function given to `test_transforms` returns for one signal — ssqueezepy/_test_signals.py:504-508, 516-529: the images (an array that is not in a list is a list of one)
and the address of the dictionary `pkw`. -/
structure FnOut (A : Type) where
  images : List A
  pkw : ℕ

/-- `pkw[k] = pkw.get(k, v)` — ssqueezepy/_test_signals.py:522-523 -/
def Kw.setDefault {V : Type} (kw : Kw V) (k : String) (v : V) : Kw V := kw.set k ((kw.get? k).getD v)

/-- The body of the loop after `fn` — ssqueezepy/_test_signals.py:514, 519-529 — for a signal with the given title: the calls of `imshow`, and the heap after.
`default_pkw` is `abs=1, show=1` (`one` is the value 1) and the title set last. -/
def showOne {A V : Type} (one title : V) (o : FnOut A) (heap : ℕ → Kw V) : List (A × Kw V) × (ℕ → Kw V) :=
  let kw := ((((heap o.pkw).setDefault "abs" one).setDefault "show" one).setDefault "title" title)
  (o.images.map fun a => (a, kw), fun d => if d = o.pkw then kw else heap d)

/-- `test_transforms(fn, signals)` — ssqueezepy/_test_signals.py:501-529 — on the list of the signals made, with their titles: for each signal the calls of `imshow`. -/
def testTransforms {A S V : Type} (one : V) (title : S → V) (fn : S → Option (FnOut A)) :
    List S → (ℕ → Kw V) → List (List (A × Kw V))
  | [], _ => []
  | s :: rest, heap =>
    match fn s with
    | none => [] :: testTransforms one title fn rest heap
    | some o => let r := showOne one (title s) o heap
      r.1 :: testTransforms one title fn rest r.2

/-- The argument `transform` of `ridgecomp` — ssqueezepy/_test_signals.py:939: 'cwt', or anything else. -/
inductive RTransform | cwt | stft
  deriving DecidableEq

/-- The image of the transform shown by `_ridgecomp_fn` — ssqueezepy/_test_signals.py:956-957: `np.flipud(Tf)` for the CWT. -/
def ridgeImage {A : Type} (tr : RTransform) (Tf : List A) : List A :=
  match tr with | .cwt => Tf.reverse | .stft => Tf

/-- The height at which a ridge found on row `r` is drawn on it — ssqueezepy/_test_signals.py:958, 971: `len(Tf) - ridges` for the CWT. Row `i` of an image is at height `i`. -/
def ridgeHeight {A : Type} (tr : RTransform) (Tf : List A) (r : ℕ) : ℤ :=
  match tr with | .cwt => (Tf.length : ℤ) - r | .stft => r

/-- `_ridgecomp_fn`'s figure — ssqueezepy/_test_signals.py:968: `figsize=(w*12, h*12)`, with defaults 1.2 and .4 (line 937). -/
noncomputable def ridgecompFnFig (w h : Option ℝ) : ℝ × ℝ := (w.getD (12/10) * 12, h.getD (4/10) * 12)

/-- `ridgecomp(w=w, h=h)` — ssqueezepy/_test_signals.py:923-934: calls `_ridgecomp_fn` without them. -/
noncomputable def ridgecompFig (_w _h : Option ℝ) : ℝ × ℝ := ridgecompFnFig none none

/-- The six parameters of `plt.subplots_adjust`. -/
def adjustKeys : List String := ["left", "right", "bottom", "top", "wspace", "hspace"]

/-- Layout of `_wavcomp_fn` and `_cwt_vs_stft_fn` — ssqueezepy/_test_signals.py:826-832, 883-889: `tight_kw[k] = v` for every default, then `plt.subplots_adjust(**tight_kw)`,
which raises `TypeError` for any other keyword. -/
def tightKw {V : Type} (defaults : String → V) (tight : Option (Kw V)) : Py (Kw V) :=
  let kw := adjustKeys.foldl (fun kw k => kw.set k (defaults k)) (tight.getD [])
  if kw.any (fun p => !adjustKeys.contains p.1) then .error .typeError else .ok kw

/-- A wavelet as an argument: an instance of `Wavelet`, or something its constructor takes. -/
inductive WavGiven (W O : Type) | inst (w : W) | other (o : O)

/-- `Wavelet._init_if_not_isinstance` — ssqueezepy/wavelets.py:402-408 -/
def initGiven {W O : Type} (mk : O → Py W) : WavGiven W O → Py W
  | .inst w => .ok w
  | .other o => mk o

/-- `wavelet.name`, needed by `_title_cwt` — ssqueezepy/_test_signals.py:897-899: names and tuples have no attribute `name`. -/
def hasName {W O : Type} : WavGiven W O → Py W
  | .inst w => .ok w
  | .other _ => .error .attributeError

/-- The loop of `_wavcomp_fn` — ssqueezepy/_test_signals.py:816-824 — on a grid of `n` rows: the wavelets drawn, row by row. `ssq_cwt` takes the wavelet in either form;
`plt.subplots(1, 2)` has a one-dimensional array of axes, on which `axes[i, 0]` raises `IndexError`. -/
def wavcompRows {W O : Type} (mk : O → Py W) (n : ℕ) : List (WavGiven W O) → Py (List W)
  | [] => .ok []
  | g :: rest => do
    let _ ← initGiven mk g
    let w ← hasName g
    if n = 1 then .error .indexError
    let r ← wavcompRows mk n rest
    return w :: r

/-- The argument `wavelets` of `wavcomp` — ssqueezepy/_test_signals.py:790-794: one wavelet, or a list or tuple of wavelets. -/
inductive WavsArg (W O : Type) | one (g : WavGiven W O) | many (l : List (WavGiven W O))

/-- `if not isinstance(wavelets, (list, tuple)): wavelets = [wavelets]` — ssqueezepy/_test_signals.py:790-791 -/
def WavsArg.toList {W O : Type} : WavsArg W O → List (WavGiven W O)
  | .one g => [g]
  | .many l => l

/-- `wavcomp(wavelets, tight_kw=tight)` on one signal — ssqueezepy/_test_signals.py:785-833: the wavelets of the rows of the grid, and its layout. The list `wavs` of instances is made and
not used. `plt.subplots(0, 2)` raises `ValueError`. -/
def wavcomp {W O V : Type} (mk : O → Py W) (defaults : String → V) (a : WavsArg W O) (tight : Option (Kw V)) : Py (List W × Kw V) := do
  let _ ← a.toList.mapM (initGiven mk)
  if a.toList.length = 0 then .error .valueError
  let rows ← wavcompRows mk a.toList.length a.toList
  let kw ← tightKw defaults tight
  return (rows, kw)

/-- An argument `vlines` or `hlines` of `plot` and `scat` — ssqueezepy/visuals.py:928-943: a number, a list, a pair of a number or list and options, a tuple of two numbers, or an array. -/
inductive LinesArg (V : Type)
  | num (x : ℝ) | list (l : List ℝ) | numKw (x : ℝ) (kw : Kw V) | listKw (l : List ℝ) (kw : Kw V) | nums (x y : ℝ) | array (l : List ℝ)

open Classical in
/-- The lines drawn — ssqueezepy/visuals.py:771-774 and 886-889 (`if vlines:`), 928-943. A number is true unless it is 0, a list unless empty, a tuple always; the truth value of an array of
several numbers is a `ValueError`. (Arrays of fewer numbers are taken to be refused as well.) A number in the place of the options is a `TypeError`. -/
noncomputable def drawLines {V : Type} : LinesArg V → Py (List (ℝ × Kw V))
  | .num x => if x = 0 then .ok [] else .ok [(x, [])]
  | .list l => .ok (l.map fun x => (x, []))
  | .numKw x kw => .ok [(x, kw)]
  | .listKw l kw => .ok (l.map fun x => (x, kw))
  | .nums _ _ => .error .typeError
  | .array _ => .error .valueError

end Ssq
