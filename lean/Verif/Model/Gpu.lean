import Verif.Model.Squeeze

/-!
# CUDA launches (`ssqueezepy/utils/gpu_utils.py`, kernels in `ssqueezepy/algos.py`)

A launch is a set of threads; each reads its block and thread numbers, computes its indices as the kernels do, and performs
its memory accesses in program order. Threads interleave arbitrarily. `int` indices are taken to be exact.
-/
namespace Ssq

/-- `int(np.ceil(a / b))` for non-negative integers. (Float division by 32 or 1024 is exact below `2^53`.) (ssqueezepy/utils/gpu_utils.py:27-34.) -/
def ceilDiv (a b : ℕ) : ℕ := (a + b - 1) / b

/-- `_get_kernel_params(x, dim=1)`: blocks and threads per block — ssqueezepy/utils/gpu_utils.py:27-29. -/
def kernelParams1 (M N : ℕ) : ℕ × ℕ := (ceilDiv (M * N) 1024, 1024)

/-- `_get_kernel_params(x, dim=2)`: blocks (x, y) and threads (x, y) — ssqueezepy/utils/gpu_utils.py:30-34. -/
def kernelParams2 (M N : ℕ) : (ℕ × ℕ) × (ℕ × ℕ) := ((ceilDiv M 32, ceilDiv N 32), (32, 32))

/-- Launches the CUDA runtime accepts (CUDA C++ Programming Guide, "Technical Specifications", compute capability 3.0 and up):
no empty dimension, `gridDim.x < 2^31`, `gridDim.y ≤ 65535`, at most 1024 threads in a block. (ssqueezepy/utils/gpu_utils.py:10-16.) -/
def LaunchOk (grid block : ℕ × ℕ) : Prop :=
  1 ≤ grid.1 ∧ grid.1 ≤ 2 ^ 31 - 1 ∧ 1 ≤ grid.2 ∧ grid.2 ≤ 65535 ∧ 1 ≤ block.1 * block.2 ∧ block.1 * block.2 ≤ 1024

instance (g b : ℕ × ℕ) : Decidable (LaunchOk g b) := by unfold LaunchOk; infer_instance

/-- A thread: `(blockIdx.x, blockIdx.y, threadIdx.x, threadIdx.y)`. (ssqueezepy/algos.py:572-573, 1018.) -/
structure CuThread where
  bx : ℕ
  by' : ℕ
  tx : ℕ
  ty : ℕ
  deriving DecidableEq

/-- The threads of a launch. (ssqueezepy/utils/gpu_utils.py:24-34.) -/
def CuThread.In (t : CuThread) (grid block : ℕ × ℕ) : Prop :=
  t.bx < grid.1 ∧ t.by' < grid.2 ∧ t.tx < block.1 ∧ t.ty < block.2

/-- `blockIdx.x * blockDim.x + threadIdx.x` — ssqueezepy/algos.py:572, 751, 826, 1018 and others. -/
def CuThread.gx (t : CuThread) (block : ℕ × ℕ) : ℕ := t.bx * block.1 + t.tx

/-- `blockIdx.y * blockDim.y + threadIdx.y` — ssqueezepy/algos.py:573, 752, 827. -/
def CuThread.gy (t : CuThread) (block : ℕ × ℕ) : ℕ := t.by' * block.2 + t.ty

/-- One thread of an elementwise kernel: `if (i >= M || j >= N) return;` then at most one store to `out[i][j]`, of a value computed from
inputs that no thread writes — `replace_under_abs` (ssqueezepy/algos.py:572-580), `phase_cwt` (:751-767), `phase_stft` (:826-842).
`f i j = none`: nothing stored. -/
def cellThread {α : Type} (M N : ℕ) (block : ℕ × ℕ) (f : ℕ → ℕ → Option α) (out : ℕ → ℕ → α) (t : CuThread) : ℕ → ℕ → α :=
  let i := t.gx block
  let j := t.gy block
  if M ≤ i ∨ N ≤ j then out
  else match f i j with
    | none => out
    | some v => fun a b => if a = i ∧ b = j then v else out a b

/-- An elementwise kernel, with its threads storing in the given order. (ssqueezepy/algos.py:572-580.) -/
def cellKernel {α : Type} (M N : ℕ) (f : ℕ → ℕ → Option α) (out : ℕ → ℕ → α) (order : List CuThread) : ℕ → ℕ → α :=
  order.foldl (cellThread M N (kernelParams2 M N).2 f) out

/-- The memory accesses of one thread of a column kernel: `if (j >= N) return; for (i = 0; i < M; ++i) out[k][j] += ...` —
ssqueezepy/algos.py:1018-1051 and the other `ssq_*` and `indexed_sum_*` kernels. -/
def colThread {α : Type} (M N : ℕ) (block : ℕ × ℕ) (body : ℕ → ℕ → Option (AddOp α)) (t : CuThread) : List (Micro α) :=
  let j := t.gx block
  if N ≤ j then [] else (colOps M body j).flatMap AddOp.micros

open Classical in
/-- A run of a column kernel: any interleaving of the accesses of the threads of the launch. (ssqueezepy/algos.py:1018-1051.) -/
def IsGpuRun {α : Type} (M N : ℕ) (body : ℕ → ℕ → Option (AddOp α)) (sched : List (CuThread × Micro α)) : Prop :=
  let g := ((kernelParams1 M N).1, 1)
  let b := ((kernelParams1 M N).2, 1)
  ∀ t, (sched.filter fun e => decide (e.1 = t)).map (·.2) = if t.In g b then colThread M N b body t else []

end Ssq
