import Verif.Model.Py
import Mathlib.Data.List.Basic
import Mathlib.Data.List.Infix

/-!
# Where `wavelet_tf_anim` saves its animation — ssqueezepy/visuals.py

File names are lists of characters. `pathlib` is modelled as far as it is used here: `stem` and `suffix` (the last dot splits
a name, unless it is its first or its last character), `is_file` and `iterdir` of the parent directory. `int(…)` of a string is
a parameter: any function from strings to integers which may fail.
-/
namespace Ssq

/-- `str.rfind('.')`, used by pathlib's `suffix` and `stem` (called in ssqueezepy/visuals.py:260, 263, 270). -/
def rfindDot : List Char → Option ℕ
  | [] => none
  | c :: cs => match rfindDot cs with
    | some i => some (i + 1)
    | none => if c = '.' then some 0 else none

/-- `Path(name).suffix` for a bare file name (ssqueezepy/visuals.py:270). -/
def pathSuffix (name : List Char) : List Char :=
  match rfindDot name with
  | some i => if 0 < i ∧ i < name.length - 1 then name.drop i else []
  | none => []

/-- `Path(name).stem` for a bare file name (ssqueezepy/visuals.py:260, 263). -/
def pathStem (name : List Char) : List Char := name.take (name.length - (pathSuffix name).length)

/-- `s.replace(pat, '')` for a non-empty `pat` (the stem of a file name is never empty): occurrences are removed from left to
right — ssqueezepy/visuals.py:267. -/
def pyRemove (pat : List Char) : List Char → List Char
  | [] => []
  | c :: cs => if pat.isPrefixOf (c :: cs) then pyRemove pat (cs.drop (pat.length - 1)) else c :: pyRemove pat cs
termination_by s => s.length
decreasing_by
  · simp only [List.length_drop, List.length_cons]; omega
  · simp

/-- One round of the loop over the paths: `num = …; if num != '' and int(num) > maxnum: maxnum = int(num)` —
ssqueezepy/visuals.py:266-269. -/
def savepathStep (pyInt : List Char → Option ℤ) (savename : List Char) (maxnum : ℤ) (stem : List Char) : Py ℤ :=
  if pyRemove savename stem = [] then .ok maxnum
  else match pyInt (pyRemove savename stem) with
    | none => .error .valueError
    | some v => .ok (if v > maxnum then v else maxnum)

/-- `str(n)` of an integer (ssqueezepy/visuals.py:270); only naturals occur. -/
def pyStr (n : ℤ) : List Char := if n < 0 then '-' :: Nat.toDigits 10 n.natAbs else Nat.toDigits 10 n.natAbs

/-- The loop over the paths — ssqueezepy/visuals.py:265-269. -/
def savepathMax (pyInt : List Char → Option ℤ) (savename : List Char) : ℤ → List (List Char) → Py ℤ
  | m, [] => .ok m
  | m, s :: ss => (savepathStep pyInt savename m s).bind fun m => savepathMax pyInt savename m ss

/-- `paths`: the stems of the entries of the directory that contain the requested stem — ssqueezepy/visuals.py:263-264. -/
def siblingStems (dir : List (List Char)) (savename : List Char) : List (List Char) :=
  (dir.map pathStem).filter fun s => decide (savename <:+: s)

/-- `unique_savepath` for a name in the directory whose entries are `dir`; `isFile` says which names are files —
ssqueezepy/visuals.py:257-272. -/
def uniqueSavepath (pyInt : List Char → Option ℤ) (isFile : List Char → Bool) (dir : List (List Char)) (name : List Char) :
    Py (List Char) :=
  if isFile name then
    (savepathMax pyInt (pathStem name) 0 (siblingStems dir (pathStem name))).bind fun m =>
      .ok (pathStem name ++ pyStr (m + 1) ++ pathSuffix name)
  else .ok name

end Ssq
