import Verif.Model.WaveletInit

/-!
# Descriptions of wavelets — ssqueezepy/wavelets.py:192-210, 369-385

Used in titles. `fmt` is `"{}".format` of an option's value (a float that is an integer is shown as one).
-/
namespace Ssq

/-- Options `config_str` leaves out — ssqueezepy/wavelets.py:198-203. -/
def descHidden (e : PyS × CfgV) : Bool :=
  (["norm".toList, "centered_scale".toList, "dtype".toList].contains e.1) || (e.1 == "order".toList && e.2.isZero)

/-- The loop of `config_str`: `cfg += "{}={}, ".format(k, v)` — ssqueezepy/wavelets.py:196-206. -/
def configLoop (fmt : CfgV → PyS) (cfg : PyS) : PyDict CfgV → PyS
  | [] => cfg
  | e :: d => configLoop fmt (if descHidden e then cfg else cfg ++ (e.1 ++ "=".toList ++ fmt e.2 ++ ", ".toList)) d

/-- `Wavelet.config_str` — ssqueezepy/wavelets.py:192-210. -/
def configStr (fmt : CfgV → PyS) (config : PyDict CfgV) : PyS :=
  if config = [] then "Default configs".toList else pyRstripSet ", ".toList (configLoop fmt [] config)

/-- `s.find(t)`; `none` for -1. (ssqueezepy/wavelets.py:384.) -/
def pyFind (t : PyS) : PyS → Option ℕ
  | [] => if t = [] then some 0 else none
  | c :: s => if t.isPrefixOf (c :: s) then some 0 else (pyFind t s).map (· + 1)

/-- `N = N or self.N` — ssqueezepy/wavelets.py:376. -/
def descN (selfN : ℕ) : Option ℕ → ℕ
  | some (k + 1) => k + 1
  | _ => selfN

/-- `Wavelet._desc(N, scale, show_N)` — ssqueezepy/wavelets.py:369-385. `scale` is the text of the scale (two decimals), if given; `selfN` is `self.N`. -/
def wavDesc (fmt : CfgV → PyS) (w : WvObj) (selfN : ℕ) (N : Option ℕ) (scale : Option PyS) (showN : Bool) : PyS :=
  let ptxt := if configStr fmt w.config ≠ "Default configs".toList then pyRstripSet ", ".toList (configStr fmt w.config) ++ ", ".toList else []
  let ntxt := "N=".toList ++ (Nat.repr (descN selfN N)).toList
  let title := w.name ++ " wavelet | ".toList ++ ptxt ++ (match scale with | some s => "scale=".toList ++ s ++ ", ".toList | none => []) ++ ntxt
  if showN then title
  else pyRstripSet ", ".toList (match pyFind ntxt title with | some k => title.take k | none => title.dropLast)

end Ssq
