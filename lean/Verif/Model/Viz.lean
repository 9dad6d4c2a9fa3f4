import Verif.Model.Py

/-!
# `Wavelet.viz` (ssqueezepy/wavelets.py:343-367) and the keywords of the visuals (ssqueezepy/visuals.py)

Modelled: which visuals are called with which keywords, and the exceptions of unsupported or missing keywords. Not modelled: what the visuals draw (frequency axes: C138),
and exceptions that depend on the values of keywords.
-/
namespace Ssq

/-- Keyword arguments: a Python `dict` with string keys. -/
abbrev Kw (V : Type) := List (String × V)

/-- `kw.get(k)`. -/
def Kw.get? {V : Type} (kw : Kw V) (k : String) : Option V := (kw.find? fun p => p.1 == k).map (·.2)

/-- `kw[k] = v`: replaces the value or appends the key. -/
def Kw.set {V : Type} (kw : Kw V) (k : String) (v : V) : Kw V :=
  if kw.any (fun p => p.1 == k) then kw.map (fun p => if p.1 == k then (k, v) else p) else kw ++ [(k, v)]

/-- A visual's parameters: those without default, those with default, and, for functions with `**kw`, the keywords it supports. -/
structure VSig where
  req : List String
  opt : List String
  extra : Option (List String) := none

/-- `VISUALS` and the dictionary of functions — ssqueezepy/wavelets.py:44-45,358-367 — with the signatures at ssqueezepy/visuals.py:304, 420, 522-523, 391, 331+334-335,
362+365, 11, 131-132. -/
def visuals : List (String × VSig) :=
  [("heatmap", ⟨["wavelet"], ["scales", "N"], none⟩),
   ("waveforms", ⟨["wavelet", "N", "scale"], ["zoom"], none⟩),
   ("filterbank", ⟨["wavelet"], ["N", "scales", "skips", "title_append", "positives", "show", "get"], none⟩),
   ("harea", ⟨["wavelet", "N"], ["scales", "get", "kw_w", "kw_t"], none⟩),
   ("std_t", ⟨["wavelet", "N"], ["scales", "get"], some ["min_decay", "max_mult", "min_mult", "nondim", "force_int"]⟩),
   ("std_w", ⟨["wavelet", "N"], ["scales", "get"], some ["nondim", "force_int"]⟩),
   ("time-frequency", ⟨["wavelet"], ["N", "scale", "notext", "width", "height"], none⟩),
   ("anim:time-frequency", ⟨["wavelet"], ["N", "scales", "width", "height", "savepath", "testing"], none⟩)]

/-- Binding of keywords to a signature: Python's `TypeError`s for unexpected and missing ones, then `_process_kw`'s `ValueError` (ssqueezepy/visuals.py:332-343, 363-373). -/
def VSig.bind {V : Type} (g : VSig) (kw : Kw V) : Py Unit :=
  if g.extra = none ∧ kw.any (fun p => !(g.req ++ g.opt).contains p.1) then .error .typeError
  else if g.req.any (fun r => !kw.any fun p => p.1 == r) then .error .typeError
  else if kw.any (fun p => !(g.req ++ g.opt ++ g.extra.getD []).contains p.1) then .error .valueError
  else .ok ()

/-- `_viz(name, **kw)` — ssqueezepy/wavelets.py:355-367 — on a wavelet `self` of length `N`: the visual drawn with its keywords, or the exception. -/
def vizOne {V : Type} (self N : V) (name : String) (kw : Kw V) : Py (String × Kw V) :=
  let kw := kw.set "wavelet" ((kw.get? "wavelet").getD self)
  let kw := kw.set "N" ((kw.get? "N").getD N)
  match visuals.find? fun p => p.1 == name with
  | none => .error .keyError
  | some p => (p.2.bind kw).bind fun _ => .ok (name, kw)

/-- The loop over the visuals of the overview — ssqueezepy/wavelets.py:346-348; what was drawn before an exception stays drawn. -/
def vizAll {V : Type} (self N : V) : List String → Kw V → List (String × Kw V) × Py Unit
  | [], _ => ([], .ok ())
  | name :: rest, kw =>
    let kw := kw.set "N" ((kw.get? "N").getD N)
    match vizOne self N name kw with
    | .error e => ([], .error e)
    | .ok d => let r := vizAll self N rest kw; (d :: r.1, r.2)

/-- `viz(name, **kw)` — ssqueezepy/wavelets.py:343-353: everything drawn, and how the call ends. -/
def viz {V : Type} (self N : V) (name : String) (kw : Kw V) : List (String × Kw V) × Py Unit :=
  if name = "overview" then vizAll self N ["heatmap", "harea", "filterbank", "time-frequency"] kw
  else if !(visuals.map (·.1)).contains name then ([], .error .valueError)
  else match vizOne self N name kw with
    | .error e => ([], .error e)
    | .ok d => ([d], .ok ())

end Ssq
