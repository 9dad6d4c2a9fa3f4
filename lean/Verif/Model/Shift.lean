import Verif.Model.Xifn
import Verif.Model.Dft

/-!
# Model of `afftshift`, `aifftshift` (ssqueezepy/wavelets.py:933-964)
-/
namespace Ssq

/-- `_afftshift_even(xh, zeros(N))` — ssqueezepy/wavelets.py:943-949. All reads are in range for `N ≥ 2`;
for `N = 0` the code reads and writes one element of an empty array, modelled as a no-op. -/
def afftshiftEven {α : Type} [Zero α] (xh : List α) : List α :=
  let N := xh.length
  let xhs := List.replicate N (0 : α)
  let xhs := writeLoop (fun i => xh.getD (i + N / 2 - 1) 0) (List.range (N / 2 + 1)) xhs
  writeLoop (fun i => xh.getD (i - N / 2 - 1) 0) (List.range' (N / 2 + 1) (N - (N / 2 + 1))) xhs

/-- `afftshift(xh)` — ssqueezepy/wavelets.py:933-940. -/
def afftshift {α : Type} [Zero α] (xh : List α) : List α :=
  if xh.length % 2 = 0 then afftshiftEven xh else fftshiftL xh

/-- `for i in idxs: xhs[g(i)] = xh[i]`. (ssqueezepy/wavelets.py:942-964.) -/
def copyLoop {α : Type} [Zero α] (g : ℕ → ℕ) (xh : List α) (idxs : List ℕ) (xhs : List α) :
    List α :=
  idxs.foldl (fun l i => l.set (g i) (xh.getD i 0)) xhs

/-- `_aifftshift_even(xh, zeros(N))` — ssqueezepy/wavelets.py:958-964. -/
def aifftshiftEven {α : Type} [Zero α] (xh : List α) : List α :=
  let N := xh.length
  let xhs := List.replicate N (0 : α)
  let xhs := copyLoop (fun i => i + N / 2 - 1) xh (List.range (N / 2 + 1)) xhs
  copyLoop (fun i => i - N / 2 - 1) xh (List.range' (N / 2 + 1) (N - (N / 2 + 1))) xhs

/-- `aifftshift(xh)` — ssqueezepy/wavelets.py:952-956. -/
def aifftshift {α : Type} [Zero α] (xh : List α) : List α :=
  if xh.length % 2 = 0 then aifftshiftEven xh else ifftshiftL xh

end Ssq
