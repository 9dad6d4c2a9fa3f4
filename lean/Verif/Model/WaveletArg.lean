import Verif.Model.Gmw
import Verif.Model.Scales

/-!
# Evaluating a wavelet at the caller's array (`ssqueezepy/wavelets.py`, `ssqueezepy/_gmw.py`)

Arrays live on a heap, so that an array handed over and one computed anew differ. Conversion of the entries to another dtype is left open.
-/
namespace Ssq

/-- An array (NumPy on the host, or a tensor on the GPU): its dtype, where it is, and its entries. (ssqueezepy/utils/backend.py:26-29.) -/
structure HArr where
  dtype : FDtype
  onGpu : Bool
  data : List ℝ

/-- `asarray(x, dtype)` — ssqueezepy/utils/backend.py:26-29 (`np.asarray`, `torch.as_tensor(..., device='cuda')`): `x` itself if it is of that dtype and at
that place, else a converted copy. Result: address and heap. -/
def heapAsarray (cast : FDtype → ℝ → ℝ) (gpu : Bool) (d : FDtype) (h : List HArr) (a : ℕ) : ℕ × List HArr :=
  match h[a]? with
  | none => (a, h)
  | some x => if x.dtype = d ∧ x.onGpu = gpu then (a, h) else (h.length, h ++ [⟨d, gpu, x.data.map (cast d)⟩])

/-- A new array with `f` of each entry of an old one (`w * wc`, `atleast_1d(w, dtype) - mu`). (ssqueezepy/_gmw.py:197-198, ssqueezepy/wavelets.py:577, 602.) -/
def heapMap (f : ℝ → ℝ) (h : List HArr) (a : ℕ) : ℕ × List HArr :=
  match h[a]? with
  | none => (a, h)
  | some x => (h.length, h ++ [⟨x.dtype, x.onGpu, x.data.map f⟩])

/-- The kernels of the Morse wavelets — ssqueezepy/_gmw.py:204-226, 245-264, 286-315, 337-363: `w_nonneg` is computed, `w *= w_nonneg` overwrites the array
given, and `core w w_nonneg` is returned. -/
noncomputable def gmwInPlace {V : Type} (core : ℝ → ℝ → V) (h : List HArr) (a : ℕ) : List V × List HArr :=
  match h[a]? with
  | none => ([], h)
  | some x =>
    let nn := x.data.map nonneg01
    let w := List.zipWith (· * ·) x.data nn
    (List.zipWith core w nn, h.set a { x with data := w })

/-- The body of `_gmw_l1` after `w *= w_nonneg` — ssqueezepy/_gmw.py:209-210. -/
noncomputable def gmwL1Core (γ β wc wcl w nn : ℝ) : ℝ :=
  2 * npExp (((-β * wcl + wc ^ γ : ℝ) : EReal) + (β : EReal) * npLog w - ((w ^ γ : ℝ) : EReal)) * nn

/-- The body of `_gmw_l2` after `w *= w_nonneg` — ssqueezepy/_gmw.py:250-251. -/
noncomputable def gmwL2Core (γ β r rgamma w nn : ℝ) : ℝ :=
  Real.sqrt (2 * Real.pi * γ * 2 ^ r / rgamma) * w ^ β * Real.exp (-w ^ γ) * nn

/-- The body of `_gmw_l1_k` after `w *= w_nonneg` — ssqueezepy/_gmw.py:290-294. -/
noncomputable def gmwL1kCore (γ β wc : ℝ) (kc : List ℝ) (w nn : ℝ) : ℝ :=
  gmwPoly γ kc w *
    npExp (((-β * Real.log wc + wc ^ γ : ℝ) : EReal) + (β : EReal) * npLog w - ((w ^ γ : ℝ) : EReal)) * nn

/-- The body of `_gmw_l2_k` after `w *= w_nonneg` — ssqueezepy/_gmw.py:341-344. -/
noncomputable def gmwL2kCore (γ β : ℝ) (kc : List ℝ) (w nn : ℝ) : ℝ :=
  gmwPoly γ kc w * npExp ((β : EReal) * npLog w - ((w ^ γ : ℝ) : EReal)) * nn

/-- A wavelet function: a Morse wavelet (its constants are in `core`; `wc` if `centered_scale`), or one of the others, which compute new arrays only
(ssqueezepy/wavelets.py:518-530, 545-564, 577-590, 602-615). -/
inductive WavBody (V : Type)
  | gmw (core : ℝ → ℝ → V) (wc : Option ℝ)
  | pure (fn : ℝ → V)

/-- `self.fn(w)`, the lambdas — ssqueezepy/_gmw.py:197-201, 239-243, 280-284, 331-335, ssqueezepy/wavelets.py:518; `d` is the dtype of the wavelet's
parameters. -/
noncomputable def wavFn {V : Type} (cast : FDtype → ℝ → ℝ) (gpu : Bool) (d : FDtype) (b : WavBody V) (h : List HArr) (a : ℕ) : List V × List HArr :=
  match b with
  | .gmw core wc =>
    let p := match wc with
      | some wc => heapMap (· * wc) h a
      | none => (a, h)
    let q := heapAsarray cast gpu d p.2 p.1
    gmwInPlace core q.2 q.1
  | .pure fn =>
    let q := heapAsarray cast gpu d h a
    match q.2[q.1]? with
    | none => ([], q.2)
    | some x => (x.data.map fn, q.2)

/-- `wavelet(w)` for an array `w` — ssqueezepy/wavelets.py:62-84 with `nohalf=True`; `ds` is the wavelet's `dtype`. Result: values, and the heap
afterwards. -/
noncomputable def wavCall {V : Type} (cast : FDtype → ℝ → ℝ) (gpu : Bool) (ds d : FDtype) (b : WavBody V) (h : List HArr) (a : ℕ) : List V × List HArr :=
  let q := heapAsarray cast gpu ds h a
  wavFn cast gpu d b q.2 q.1

end Ssq
