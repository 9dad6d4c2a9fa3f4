import Verif.Model.Py

/-!
# Which arrays `ssq_cwt` and `ssq_stft` write to, and which they share

Contents of arrays are values of any type `V`; what the numerical code computes is given by functions (`ShareOps`), and
this file models where the results are stored: which calls make new arrays, which return the array they were given, a
view of it, or write into it.
-/
namespace Ssq

/-- What is computed: the transform of a signal at given scales with its derivative, the phase transform, the generated
scales and frequencies, the squeezed transform from a (squeezed) transform, the phase transform or else the derivative,
and frequencies. `rev` reverses. (ssqueezepy/_ssq_cwt.py:222-311, ssqueezepy/_ssq_stft.py:78-136,
ssqueezepy/ssqueezing.py:118-224.) -/
structure ShareOps (V : Type) where
  scales : V
  cast : V → V
  transform : V → V → V × V
  phase : V → V → V
  ones : V → V
  abs : V → V
  freqs : V → V
  sfs : V → V
  squeeze : V → V ⊕ V → V → V
  rev : V → V

/-- An array: the buffer its values are in, and whether they are read backwards (`a[::-1]`).
(ssqueezepy/ssqueezing.py:219-222.) -/
structure ARef where
  buf : ℕ
  rev : Bool
  deriving DecidableEq

/-- The memory: the contents of the buffers. (ssqueezepy/_ssq_cwt.py:258-265.) -/
abbrev AMem (V : Type) := List V

/-- A new array. (ssqueezepy/_ssq_cwt.py:262, 263.) -/
def AMem.new {V : Type} (m : AMem V) (v : V) : AMem V × ℕ := (m ++ [v], m.length)

/-- Contents of a buffer; the default is for buffers that do not exist. (ssqueezepy/_ssq_cwt.py:258-265.) -/
def AMem.get {V : Type} (m : AMem V) (d : V) (i : ℕ) : V := m.getD i d

/-- What is read through a view. (ssqueezepy/ssqueezing.py:222.) -/
def ARef.read {V : Type} (ops : ShareOps V) (m : AMem V) (d : V) (r : ARef) : V :=
  if r.rev then ops.rev (m.get d r.buf) else m.get d r.buf

/-- Assigning all of the values of an array in place. (ssqueezepy/ssqueezing.py:219-222.) -/
def ARef.write {V : Type} (ops : ShareOps V) (m : AMem V) (r : ARef) (v : V) : AMem V :=
  m.set r.buf (if r.rev then ops.rev v else v)

/-- The `squeezing` argument. A function is given by what it leaves in its argument, and what it returns: the argument
itself (`none`) or a new array. (ssqueezepy/ssqueezing.py:199-205.) -/
inductive SqArg (V : Type)
  | sum
  | lebesgue
  | abs
  | fn (leaves : V → V) (returns : V → Option V)

/-- The squeezed transform in `ssqueeze` — ssqueezepy/ssqueezing.py:199-205. -/
def squeezeIn {V : Type} (ops : ShareOps V) (m : AMem V) (d : V) (wx : ℕ) : SqArg V → AMem V × ℕ
  | .sum => (m, wx)
  | .lebesgue => m.new (ops.ones (m.get d wx))
  | .abs => m.new (ops.abs (m.get d wx))
  | .fn leaves returns =>
    let m' : AMem V := m.set wx (leaves (m.get d wx))
    match returns (m.get d wx) with
    | none => (m', wx)
    | some v => m'.new v

/-- `ssqueeze` for an existing array of frequencies — ssqueezepy/ssqueezing.py:199-224: `Tx` is a new array, the
frequencies are reversed by a view (numpy) or in a new array (torch). `rows` holds the phase transform or else the
derivative. -/
def ssqueezeShare {V : Type} (ops : ShareOps V) (m : AMem V) (d : V) (wx : ℕ) (rows : ℕ ⊕ ℕ) (fr : ARef) (frTensor : Bool)
    (sq : SqArg V) (reversed : Bool) : AMem V × ℕ × ARef :=
  let (m1, wx') := squeezeIn ops m d wx sq
  let (m2, tx) := m1.new (ops.squeeze (m1.get d wx') (rows.map (m1.get d) (m1.get d)) (fr.read ops m1 d))
  if reversed then
    if frTensor then
      let (m3, f) := m2.new (ops.rev (fr.read ops m2 d))
      (m3, tx, ⟨f, false⟩)
    else (m2, tx, ⟨fr.buf, !fr.rev⟩)
  else (m2, tx, fr)

/-- Options common to `ssq_cwt` and `ssq_stft` that decide about arrays. `tensor`: the transform is on the GPU;
`freqsTensor`: so are the frequencies. (ssqueezepy/_ssq_cwt.py:12-19, ssqueezepy/_ssq_stft.py:13-16.) -/
structure ShareArgs (V : Type) where
  ssqFreqs : Option ARef := none
  squeezing : SqArg V := .sum
  preserve : Option Bool := none
  flipud : Bool
  getW : Bool := false
  tensor : Bool := false
  freqsTensor : Bool := false
  astensor : Bool := true

/-- `preserve_transform` in effect — ssqueezepy/_ssq_cwt.py:259, 260, ssqueezepy/_ssq_stft.py:93, 94. -/
def ShareArgs.preserves {V : Type} (a : ShareArgs V) : Bool := a.preserve.getD (!a.tensor)

/-- The arrays returned by `ssq_cwt` (`Tx, Wx, ssq_freqs, scales, w, dWx`) and `ssq_stft` (`Tx, Sx, ssq_freqs, Sfs, w,
dSx`); `grid` holds `scales` or `Sfs`. `dWx` is returned on request. (ssqueezepy/_ssq_cwt.py:302-311,
ssqueezepy/_ssq_stft.py:129-136.) -/
structure SsqRefs where
  Tx : ARef
  Wx : ARef
  freqs : ARef
  grid : ARef
  w : Option ARef
  dWx : ARef

/-- `g.cpu().numpy()` of an array on the GPU is a new array. (ssqueezepy/_ssq_cwt.py:296-299.) -/
def toHost {V : Type} (ops : ShareOps V) (d : V) (copy : Bool) (m : AMem V) (r : ARef) : AMem V × ARef :=
  if copy then
    let (m', i) := m.new (r.read ops m d)
    (m', ⟨i, false⟩)
  else (m, r)

/-- `astensor=False` — ssqueezepy/_ssq_cwt.py:296-299, ssqueezepy/_ssq_stft.py:124-127. -/
def hostRefs {V : Type} (ops : ShareOps V) (d : V) (host frT : Bool) (m : AMem V) (r : SsqRefs) : AMem V × SsqRefs :=
  let (n1, Tx) := toHost ops d host m r.Tx
  let (n2, Wx) := toHost ops d host n1 r.Wx
  let (n3, dWx) := toHost ops d host n2 r.dWx
  let (n4, grid) := toHost ops d host n3 r.grid
  let (n5, f) := toHost ops d (host && frT) n4 r.freqs
  match r.w with
  | some w =>
    let (n6, w') := toHost ops d host n5 w
    (n6, ⟨Tx, Wx, f, grid, some w', dWx⟩)
  | none => (n5, ⟨Tx, Wx, f, grid, none, dWx⟩)

/-- The transform, what is squeezed, and the phase transform — ssqueezepy/_ssq_cwt.py:238-277,
ssqueezepy/_ssq_stft.py:88-115: `wx`, `dwx` are new arrays, `wx'` is a copy or the same; `rows` as in `ssqueeze`. -/
def prepareShare {V : Type} (ops : ShareOps V) (m : AMem V) (d : V) (a : ShareArgs V) (wd : V × V) :
    AMem V × ℕ × ℕ × ℕ × (ℕ ⊕ ℕ) :=
  let (m1, wx) := m.new wd.1
  let (m2, dwx) := m1.new wd.2
  let (m3, wx') := if a.preserves then m2.new (m2.get d wx) else (m2, wx)
  if a.getW then
    let (m4, w) := m3.new (ops.phase (m3.get d wx') (m3.get d dwx))
    (m4, wx, dwx, wx', .inl w)
  else (m3, wx, dwx, wx', .inr dwx)

/-- The phase transform, if returned. (ssqueezepy/_ssq_cwt.py:302-311.) -/
def wOf : ℕ ⊕ ℕ → Option ARef
  | .inl w => some ⟨w, false⟩
  | .inr _ => none

/-- The array of scales: made, the one given, or a copy of it — ssqueezepy/_cwt.py:275,
ssqueezepy/utils/backend.py:26-29. -/
def scalesShare {V : Type} (ops : ShareOps V) (m : AMem V) (d : V) (sc : Option ℕ) (same : Bool) : AMem V × ℕ :=
  match sc with
  | none => m.new ops.scales
  | some s => if same then (m, s) else m.new (ops.cast (m.get d s))

/-- The frequencies of `ssq_cwt`: a new numpy array, or the one given — ssqueezepy/ssqueezing.py:173-194. -/
def freqsCwtShare {V : Type} (ops : ShareOps V) (m : AMem V) (d : V) (s : ℕ) (fr : Option ARef) : AMem V × ARef :=
  match fr with
  | none => ((m.new (ops.freqs (m.get d s))).1, ⟨(m.new (ops.freqs (m.get d s))).2, false⟩)
  | some r => (m, r)

/-- The frequencies of `ssq_stft`, and whether they are on the GPU: `Sfs` itself, or the array given —
ssqueezepy/_ssq_stft.py:118, 119, 249-257. -/
def freqsStftShare {V : Type} (sf : ℕ) (a : ShareArgs V) : ARef × Bool :=
  match a.ssqFreqs with
  | none => (⟨sf, false⟩, a.tensor)
  | some r => (r, a.freqsTensor)

/-- `ssq_cwt` — ssqueezepy/_ssq_cwt.py:222-311, for `difftype='trig'` and `order=0`. `x` is the signal, `sc` the scales
if an array was given, `same` whether it already has the dtype (and device) `cwt` uses: `np.asarray` and
`torch.as_tensor` then return the array itself (ssqueezepy/_cwt.py:275, ssqueezepy/utils/backend.py:26-29).
Generated frequencies are a new numpy array. Slices taken for other derivatives are views of new arrays, and are left
out. -/
def ssqCwtShare {V : Type} (ops : ShareOps V) (m : AMem V) (d : V) (x : ℕ) (sc : Option ℕ) (same : Bool) (a : ShareArgs V) :
    AMem V × SsqRefs :=
  let (m1, s) := scalesShare ops m d sc same
  let (m2, wx, dwx, wx', rows) := prepareShare ops m1 d a (ops.transform (m1.get d x) (m1.get d s))
  let (m3, fr) := freqsCwtShare ops m2 d s a.ssqFreqs
  let frT := a.freqsTensor && a.ssqFreqs.isSome
  let (m4, tx, fr') := ssqueezeShare ops m3 d wx' rows fr frT a.squeezing true
  hostRefs ops d (a.tensor && !a.astensor) frT m4 ⟨⟨tx, false⟩, ⟨wx, false⟩, fr', ⟨s, false⟩, wOf rows, ⟨dwx, false⟩⟩

/-- `ssq_stft` — ssqueezepy/_ssq_stft.py:78-136: without given frequencies those of the rows, `Sfs`, are used (the same
array, on the GPU if the transform is). -/
def ssqStftShare {V : Type} (ops : ShareOps V) (m : AMem V) (d : V) (x : ℕ) (a : ShareArgs V) : AMem V × SsqRefs :=
  let (m2, wx, dwx, wx', rows) := prepareShare ops m d a (ops.transform (m.get d x) ops.scales)
  let (m3, sf) := m2.new (ops.sfs (m2.get d wx))
  let (fr, frT) := freqsStftShare sf a
  let (m4, tx, fr') := ssqueezeShare ops m3 d wx' rows fr frT a.squeezing a.flipud
  hostRefs ops d (a.tensor && !a.astensor) frT m4 ⟨⟨tx, false⟩, ⟨wx, false⟩, fr', ⟨sf, false⟩, wOf rows, ⟨dwx, false⟩⟩

end Ssq
