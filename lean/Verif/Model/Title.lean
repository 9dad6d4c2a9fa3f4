import Verif.Model.Configs
import Verif.Model.MakeSignals

/-!
# Titles of plots — ssqueezepy/visuals.py:974-987
-/
namespace Ssq

/-- The `title` argument of a plotting function: None, a text, or a text with a dict of options. Any other object is its `str`. -/
inductive TitleArg
  | none | text (t : PyS) | pair (t : PyS) (kw : PyDict CfgV)
  deriving DecidableEq

/-- `_maybe_title(title)` — ssqueezepy/visuals.py:974-987, with `txt` the contents of `configs.ini`: the text and the options passed to `set_title` (`none`: not called), and
the argument afterwards, whose dict is changed in place. -/
def maybeTitle (num : PyS → Option ℚ) (txt : PyS) : TitleArg → Py (Option (PyS × PyDict CfgV) × TitleArg)
  | .none => .ok (none, .none)
  | .text t => (gdefaults num txt "visuals._maybe_title".toList true (some true) false []).map fun
    | .dict D => (some (t, mergeDefaults [] D), .text t)
    | _ => (none, .text t)
  | .pair t kw => (gdefaults num txt "visuals._maybe_title".toList true (some true) false []).map fun
    | .dict D => (some (t, mergeDefaults kw D), .pair t (mergeDefaults kw D))
    | _ => (none, .pair t kw)

/-- Several plots with the same `title` object, each with the configuration file of the time: the titles drawn. (ssqueezepy/visuals.py:974-987.) -/
def titleRuns (num : PyS → Option ℚ) : List PyS → TitleArg → Py (List (Option (PyS × PyDict CfgV)))
  | [], _ => .ok []
  | txt :: txts, a => (maybeTitle num txt a).bind fun r => (titleRuns num txts r.2).map (r.1 :: ·)

end Ssq
