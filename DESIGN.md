# Formal model of ssqueezepy: design

The subject is `OverLordGoldDragon/ssqueezepy` at the pinned commit in `/repo` (v0.6.6).
The code was read as text; it was neither built nor run.

## 1. Layout

* `lean/Verif/Model/*.lean` – the model. One file per source file (or group of functions). Every
  definition cites the file and lines it models and states its simplifications.
* `lean/Verif/Spec/*.lean` – small independent specifications used in theorem statements.
* `lean/Verif/Lemmas/*.lean` – helper lemmas. No property is stated there.
* `lean/Verif/Props/*.lean` – the property theorems, named `Cnn_…`, each followed by an `example`
  that shows a concrete, non-trivial instance meets the hypotheses. Refutations are named
  `Cnn_…_refuted` (the property is false of the code and a concrete witness is proved),
  partial theorems `Cnn_…_partial`.

## 2. Modelling conventions

* Python exceptions are values: `Except PyErr α` (`PyErr` lists `ValueError`, `TypeError`, …).
* Arrays are `List α` (1D) or functions of row and column together with explicit sizes (2D, in the
  in-place kernels). Slices follow Python's rules, including negative bounds (`pySlice`).
* Python's `//` on integers is `Int` floor division; on naturals `Nat` division.
* **Floating point.** Two treatments are used, and each theorem says which by its types.
  1. *Arbitrary carrier*: the element type is an arbitrary type with an arbitrary binary `add`
     (no law assumed). What is proved there holds bit for bit for IEEE floats (used for
     schedule-independence and data movement).
  2. *Exact arithmetic*: ℝ or ℂ. Rounding error, overflow and denormals are not modelled.
     `np.round` is round-half-even on ℝ, `int()` is truncation.
* The DFT is the exact DFT over ℂ; `scipy.fft`, `pyfftw` and `torch.fft` are assumed to compute it.
* numpy's `pad`, `hstack`, `argmin` (first minimum), `searchsorted`, `linspace`, … are modelled by
  their documented behaviour; these models are part of the trusted base and are cited in place.

## 3. Trusted base

* Lean 4.33.0's kernel; the axioms `propext`, `Classical.choice`, `Quot.sound` only.
* Mathlib (same toolchain), imported module by module.
* The reading of `/repo` that the model embodies (nothing here was executed), and the documented
  behaviour of numpy/scipy/numba/torch primitives listed in section 2.

## 4. Plan per property

| id | title | model and proof plan |
|---|---|---|
| C01 | Default padding length | model p2up with a real base-2 logarithm and round-half-even; prove an integer characterisation and the bounds from it |
| C02 | Padding keeps the signal and trims back | list model of padsignal, exceptions as values; refuted for 'symmetric' (n1 = 0 and pads longer than the signal), partial theorem for the rest |
| C03 | Padding content is the documented extension | specification by an integer-indexed extension function; model numpy's iterative reflect/wrap padding and prove it equals the specification |
| C04 | trigdiff returns an array aligned with its input | model the argument processing and trimming; refutation for N=None, partial theorem when N is passed; derivative law on DFT tones |
| C05 | Frames are the documented slices of the input | model the loop with slices; element-wise theorem against an index specification |
| C06 | Framing is the same on every execution path and schedule | order-independence over List.Perm of iteration indices; GPU index map equality |
| C07 | STFT output shape and frame centring | compose padding and buffering models; index arithmetic theorem |
| C08 | STFT inversion | exact DFT over the complex numbers; overlap-add proof by induction on hops; irfft(rfft)=id for real input |
| C09 | STFT inversion for the shortest FFT lengths | Python slice model (x[a:-0]); proof that the result is empty for n_fft <= 2 and of length N otherwise |
| C10 | Window preparation | model padding branch; partial under len(window)=win_len; refutation otherwise |
| C11 | A window accepted by stft is accepted by istft | model both argument pipelines with exceptions as values; refutation and the exact condition |
| C12 | Modulated and unmodulated STFT differ by a known phase | DFT shift theorem over the exact DFT |
| C13 | STFT derivative is expressed in physical units | model _stft with both branches; refutation for modulated=False, partial for modulated=True |
| C14 | Synchrosqueezed STFT inversion | closed form of the inverse through DFT algebra; refutation for fs != 1 and exact-form theorem |
| C15 | Inverse synchrosqueezed STFT rejects unsupported modes | exceptions-as-values model, exhaustive case analysis |
| C16 | Reassignment conserves each column | fold model of the double loop; induction over rows |
| C17 | Reassignment never writes outside the output | clamp arithmetic over reals with round-half-even |
| C18 | Energy goes to the nearest frequency (linear grid) | argmin specification; round-half-even lemma |
| C19 | Energy goes to the nearest frequency (log grid) | argmin specification over logb 2 |
| C20 | Piecewise log grid | model both branches and the seam; monotonicity theorem |
| C21 | Reassignment is deterministic under any thread schedule | generic carrier with an arbitrary add; permutation induction plus loop interchange |
| C22 | flipud reverses the rows and nothing else | row-wise relation by induction over the loops |
| C23 | The one-pass and two-pass squeezing agree | refutation at equality; partial when no modulus equals gamma |
| C24 | Cells below threshold contribute nothing | non-interference theorem: changing such cells leaves Tx unchanged |
| C25 | Squeezing is linear in the transform for a fixed phase | induction over loops in a commutative ring |
| C26 | Tx does not depend on get_w for any squeezing option | refutation: the fused path derives the phase from the already transformed Wx; partial for 'sum' |
| C27 | Returned frequencies label the rows of Tx | refutation for cwt with flipud=False; theorem for the other three combinations |
| C28 | Generated synchrosqueezing frequencies | model over the reals; linspace/power laws |
| C29 | Squeezing argument validation | decision-logic theorem; refutation for list-valued maprange |
| C30 | find_closest returns a nearest grid index | searchsorted specification; argmin theorem |
| C31 | Uniform-grid search indexes the grid it was given | refutation when rows != len(v) (upper clamp uses the number of rows); partial when equal |
| C32 | Ridge extraction returns a minimum-penalty path | Bellman optimality by induction over time; backtracking consistency |
| C33 | Ridge start uses the best final row | model unravel_index; refutation when rows > columns, partial otherwise |
| C34 | Successive ridges avoid each other | Python slice model; refutation when ridge row < bw; exact characterisation of the zeroed rows |
| C35 | Parallel ridge backtracking is schedule independent | refutation with two matching rows; partial when at most one row matches |
| C36 | CWT is linear | pad is linear; DFT is linear |
| C37 | CWT rows are circular convolutions, computed identically one by one or all at once | exact DFT; convolution and shift theorem |
| C38 | CWT derivative is the exact derivative | DFT of a tone |
| C39 | A pure tone is squeezed into one row at its frequency | tone CWT, phase formula, bin theorem composed |
| C40 | One-integral inverse CWT | DFT algebra |
| C41 | Inverting the squeezed CWT equals inverting the CWT | column conservation plus equality of the two normalisations |
| C42 | Inverse CWT adds the signal mean once | refutation for log-piecewise scales (mean added twice); partial otherwise |
| C43 | Component inversion splits the full inversion | mask algebra; refutation for overlapping bands; theorem for disjoint ones |
| C44 | Scales generation (log) | real model with floor/ceil; covering theorem |
| C45 | Number of voices is recoverable from scales | algebra over logb |
| C46 | Piecewise-downsampled scales | list slicing model |
| C47 | Scales specification string | string-split model and decision theorem |
| C48 | Sampling frequency and time vector | exceptions-as-values model over the reals |
| C49 | Frequency grid | list model; characterisation |
| C50 | Shift pair is inverse | list rotation; refutation of sortedness for odd N |
| C51 | Analytic wavelets vanish on negative frequencies | real models of the closed forms |
| C52 | GMW peak | calculus-free inequality log u <= u - 1 |
| C53 | Order-0 higher-order wavelet is the base wavelet | Gamma-function algebra |
| C54 | Moments and cumulants | fold model vs Nat.choose; refutation of nCk for k > n |
| C55 | Cached wavelet samples match the current parameters | state machine; refutation (nohalf missing from the cache key), invariant for constant nohalf |
| C56 | cwt leaves the wavelet as it found it | state machine with crash points; refutation for exceptions, theorem for normal return |
| C57 | FFT object cache returns the right transform | state machine; refutation (direction missing from the key); invariant for histories without direction mixing |
| C58 | FFT patience setting | state machine over settings |
| C59 | Defaults never override the caller | association-list model |
| C60 | Parallel and GPU switches | decision logic |
| C61 | Configuration parser | line-list parser model |
| C62 | CUDA grids cover every element | ceil-division theorem |
| C63 | In-place value replacement | map model with an explicit inf/nan carrier |
| C64 | Search helpers terminate and return a right answer | list recursion; non-termination witness when the step truncates to zero |
| C65 | Chirp test signals sweep the requested band | HasDerivAt and endpoint identities |
| C66 | Amplitude modulators stay in range | real inequality |
| C67 | make_signals returns one entry per requested signal | dict model; refutation for duplicate names; partial for distinct ones |
| C68 | scale_to_freq range | argmax index post-processing model |
| C69 | Reassignment stays inside the output for any increasing log grid | refutation by an explicit four-point grid; C17 gives the grids on which it holds |
| C70 | Phase transform is the instantaneous frequency | algebra of the kernel's real arithmetic against complex division; derivative of A exp(i phi) |
| C71 | Batched cwt equals per-signal cwt | per-row padding by mapM induction, then the same row computation |
| C72 | Naming the scales or passing them inverts the same | equality of the two paths when the array is recognised as the named kind; exact doubling and a counterexample for 'log-piecewise' with no transition |
| C73 | Ridge follows a dominant row | partial when every column has energy and nT >= nF; C73_silent: exact behaviour after a silent column; refutation |
| C74 | Ridges do not depend on the level of the columns | induction over ridges: the normalised cost is invariant |
| C75 | What extract_ridges reports | induction over the ridge loop |
| C76 | ssq_cwt returns the transform cwt returns | argument-processing idempotence: processed scales are accepted as an array and reproduce the same transform |
| C77 | Morse wavelets of different orders are orthonormal | Laguerre moments by Gamma-function sums, change of variables in the integral |
| C78 | Morse moments and frequencies are the integrals they name | Gamma integrals against the closed forms in the code |
| C79 | gmw accepts exactly the documented arguments | decision model; refutation for float orders; exact exceptions |
| C80 | Evaluating a Morse wavelet leaves its input alone | array-passing model; refutation; exact effect |
| C81 | compute_gmw samples gmw | list model |
| C82 | morsewave agrees with compute_gmw | closed forms compared; refutation for negative frequencies and beta = 0 |
| C83 | A significant imaginary part survives | model of the threshold test on ratio of sums; refutation by a time-shifted bump; exact when no part is negative |
| C84 | Wavelet properties follow the wavelet's length | state machine with memoised properties; invariant by induction; refutation without reset |
| C85 | freq_resolution is a standard deviation | trapezoid-rule algebra; exact: variance plus squared difference of means at N and 1024 |
| C86 | center_frequency honours force_int | decision model; the flag is proved to have no effect |
| C87 | Energies of the Morlet and Mexican-hat wavelets | Gaussian and Gamma integrals |
| C88 | Defaults are looked up under the caller's module | string model of split and rstrip; refutation; proved for names not ending in '.', 'p' or 'y' |
| C89 | Automatic sample count avoids aliasing | mean value theorem on the phase; maximum of the frequency over the estimation grid |
| C90 | Given parameters override defaults | dictionary model of the merging loops; look-up lemmas by induction |
| C91 | Requests can be repeated | model returning the dictionaries after the call; refutation; proved without noise |
| C92 | A seed makes the noise reproducible | generator as a state machine; refutation for seed 0; proved otherwise |
| C93 | freq_to_scale inverts the scale-frequency map | real powers; refutation for linear spacing; proof for geometric progressions; ends for every wavelet |
| C94 | phase_ssqueeze honours its arguments | decision model over abstract transforms; refutation; partial for the arguments that are honoured |
| C95 | Numeric phase transform measures tones | slices of the wrapped row as tabulated lists; response of each scheme to a tone; error bounds by comparing derivatives |
| C96 | Phase transform from the unwrapped phase | model of np.unwrap; differences are principal arguments of ratios; refutation of the unit and of the last column; exact values otherwise |
| C97 | Higher-order transforms | model of the loop over orders on top of cwt; refutations for batches with named scales, l1_norm and negative orders; proofs otherwise |
| C98 | Two-integral inverse | exact DFT; the (-1)^k factor and ifftshift cancel; refutation for padtype=None and rpadded; exactness for periodic signals of length a power of two |
| C99 | ssq_cwt's arrays have one column per sample | Model all branches of ssq_cwt (order 0, higher orders, trig/phase/numeric), with Python slices; compute the number of columns of every output by case. |
| C100 | ssq_cwt with higher orders returns cwt's transform of these orders | trigdiff of a row is a linear map; it commutes with means and equals the inverse transform with the multiplied filter (discrete Fourier inversion). |
| C101 | Batched stft equals the signals' stfts | mapM over rows; inversion of every step of the do-block |
| C102 | Batched synchrosqueezing equals the signals' synchrosqueezing | model of the loop over signals; equivalence with the per-signal calls; refutation for 'lebesgue' (divides by the number of signals) |
| C103 | Batched ssq_cwt with higher orders | Python slices on the three-dimensional result; refutation (scales are cut instead of samples); exact number of rows |
| C104 | Wavelet keeps the options it is given | Strings and option dictionaries as data; inversion of the constructor; reuse of the configuration theorems |
| C105 | The norm of a GMW follows l1_norm | Fold of the calls over the argument, which a call may change; refutation by three histories; exact partial statements by kind of argument |
| C106 | Every documented way of naming the dtype works | String functions modelled on character lists; refutation for classes and for custom functions |
| C107 | cwt accepts the same wavelet names as Wavelet | Prefix test modelled; refutation with 'gmw2' |
| C108 | psifn is centred | Exact inverse DFT; modulation theorem; triangle inequality; refutation for odd lengths |
| C109 | nan_checks zeroes exactly the bad samples | IEEE values as an inductive type, memory as a function; folds for max and min; reuse of C63; refutation for order > 0 |
| C110 | Tx, Wx, w and dWx of ssq_cwt fit together | Inversion of ssq_cwt, C27 for the squeezing, arithmetic of slices |
| C111 | find_min_scale puts the cutoff on the greatest bin | Searches of C64 with their defaults; Lipschitz bound; monotonicity in one block; refutation with a triangular wavelet |
| C112 | find_max_scale puts bin_amp on bin_loc | Exact sampling; last index of a selection; refutation with N = 8 |
| C113 | find_max_scale_alt is symmetric about the peak | Fractional parts and floor; max_cutoff shown not to be used |
| C114 | The admissibility constants are the integrals they claim to be | Meshes as lists, the loop over meshes by induction, the trapezoidal rule panel by panel; refutation of the warning with a constant function |
| C115 | window_area and window_resolution measure the window | Exact DFT with Parseval, fftshift as index rotation, trapezoidal rule on the shifted grid; refutation for even lengths, where the first shifted frequency is +pi |
| C116 | The scale bounds of cwt_scalebounds are in order | Composition of C111 and C112: the peak found is within one step of the true one, the grid point below the peak bounds the greater scale; refutation for four samples |
| C117 | The RiskShrink threshold follows the finest rows | Lists of rows with numpy broadcasting; algebra of means; refutation for axis=1 with a square array |
| C118 | find_closest_parallel_is_faster answers what it is asked | The times are an arbitrary function of the flag; refutation |
| C119 | mad_rms is a scale-invariant error | Sums over lists, Cauchy-Schwarz; refutation for complex signals |
| C120 | where_amax returns exactly the places of the greatest modulus | Filter of the sorted index list; maximum by a fold |
| C121 | cos_f and sin_f place one tone after the other | Concatenation of lists of one length; periodicity |
| C122 | time_resolution integrates over the shortest span that holds the wavelet | First success of a search; trapezoid sums; monotonicity |
| C123 | center_frequency(kind='peak') is the sampled frequency of greatest modulus | Membership in the shifted grid for even and odd lengths; first index of a maximum; refutation with an even wavelet |
| C124 | Wisdom is only expansive | Transition system of processes with files; inductive invariant; refutations by histories |
| C125 | The pyFFTW path returns arrays like those of scipy | Exact characterisation of the accepted inputs; refutations for integers and for n of another length |
| C126 | Parallel chirps use the frequencies they are given, in order | Case analysis with real arithmetic; refutations for fmax2 without fmax1 and for fmax1 = N/2 |
| C127 | jumps plays its tones one after the other | Concatenation of slices of one length; refutations of the length and of the times for tmin other than 0 |
| C128 | packed overlaps its tones as asked | Induction over the loop of tones; refutation for an overlap below one sample |
| C129 | packed_poly and poly_cubic keep their bands and never alias | Derivatives of the phases, bounds of polynomials and powers on [0, 10], mean value inequality |
| C130 | TestSignals instances have their own defaults | Heap of dictionaries; invariant over histories; refutation with two instances |
| C131 | wavelet_tf_anim never overwrites a file | Strings as lists of characters; induction over the directory; exact characterisation of failure; refutations by small directories |
| C132 | The scales and frames of an animation are in order | Lists: concatenation of linspaces and a slice; positions by arithmetic |
| C133 | wavelet_tf picks a scale that looks nice, if there is one | Induction on the rounds left; refutation at the upper bound, where the search goes to and fro |
| C134 | plots draws every curve it is given | Lengths of zips; refutations with one to three curves; divisibility for the grids that have room |
| C135 | Tick labels belong to the values at their positions | Integer division; monotonicity |
| C136 | plot shows all of each curve | Axis as a state; closed form of the limits after k calls by induction; refutation by three curves |
| C137 | imshow uses the whole range of colours and never clips | Maximum of a list; case analysis over options; refutation of the combination of complex with a title |
| C138 | Frequency axes of wavelet plots are true | Closed forms of the grids; exact error of each axis; refutations |
| C139 | lin_band follows its line and stays inside the transform | Truncation bounds; exact condition for the centres to be inside; refutation |
| C140 | Equal axes | Model of _scale_plot; least symmetric interval; refutation by xlims together with ax_equal |
| C141 | The Heisenberg area of a wavelet is at least one half | Exact sums; refutation by a continuous wavelet whose samples are a Hann window in time and one bin in frequency; what remains is nonnegativity |
| C142 | The Heisenberg area does not depend on the units | Exact ratio of the two areas; equality when the discrete peaks at N and at 1024 agree; refutation at N=1028 |
| C143 | wavelet.xi is the frequency axis of wavelet.N | State machine with the attributes as they are after an exception; refutation; invariant for the last accepted length |
| C144 | wavelet.xifn has one row of frequencies per scale | Broadcasting rules by cases; refutation by a row of scales as long as the axis |
| C145 | Shifting the signal shifts its transforms | DFT shift theorem; squeezing acts column by column |
| C146 | Reversing the signal reverses its transforms | DFT of a reversed sequence; squeezing acts column by column |
| C147 | The unit of the signal does not matter | Linearity; instantaneous frequency as a ratio; refutation with 'lebesgue', where the threshold is compared with 1/M |
| C148 | The unit of time does not matter | Homogeneity of every frequency layout and invariance of the bins; refutation by a unit so small that steps fall below machine epsilon |
| C149 | Shifting the signal by hops shifts its STFT | Periodic extension; squeezing acts column by column |
| C150 | The unit of the signal does not matter to ssq_stft | Linearity; refutation with 'abs' and c = -1: without get_w the frequencies are computed from the modulus |
| C151 | The unit of time does not matter to ssq_stft | Homogeneity of frequencies and bins; the step of the frequencies multiplies Tx: exact factor, and refutation |
| C152 | The cutoffs decide the scale bounds | Case analysis over presets and cutoffs; the check inside the search for the greatest scale |
| C153 | Components that do not overlap are squeezed independently | Each cell of Wx adds to Tx a term that depends on the cell alone; linearity of cwt; only one signal's cell is not zero |
| C154 | Separated tones get rows of their own and are recovered | C153 with C39 for each tone; the band separates the cells; C43 for the inversion |
| C155 | find_downsampling_scale finds the first group of wavelets that is too dense | Characterisation of the loop by its first hit; maxima and sums over lists as sums over columns; monotonicity of the test |
| C156 | The documented conditions for wavelets that are too dense | Refuted at ties by ten equal wavelets; equivalence without ties |
| C157 | Bounds not given to make_scales, and linear scales | Floor and ceiling bounds on the exponents; second difference of the logarithms of the first three scales |
| C158 | Scales taken as logarithmic, linear or piecewise logarithmic are so | Second differences bound the distance from the progression, by induction; the maximal second difference is that of the transition |
| C159 | The STFT is linear, and components that do not overlap are squeezed independently | Linearity of the padded extension and of the window sum; each cell of the sum is a cell of one signal |
| C160 | Tones in the STFT and in the synchrosqueezed STFT | Spectrum of the window and of its spectral derivative; nearest row of the default frequencies; C159 for several tones; C43 for the inversion |
| C161 | Rounding errors of synchrosqueezing and of its inverse are bounded | Induction over the cells of a column and over the tree of additions; conservation of column sums |
| C162 | Rounding errors of cwt and icwt are bounded | Parseval's identity and Minkowski's inequality; induction over the tree of additions |
| C163 | Small changes of the transform change phases, rows and inverses little | Perturbation of a quotient; rounding is within one of a Lipschitz function; conservation of column sums. Continuity of Tx is refuted at a frequency midway between rows |
| C164 | A signal that resembles a tone near a time is assigned the tone's frequency there | Circular convolution form of the transform; the tone cancels in dWx - 2 pi i f Wx; nearest rows from C27 |
| C165 | Ridges of well separated components are found from the strongest to the weakest, and the components are recovered along them | Bounds on the costs-to-come by induction over time; induction over ridges; composition with C154 and C43 |
| C166 | The chirps and tones of TestSignals have the stated length, times and frequencies, and do not alias silently | The sweeps of C65 at the times of np.linspace; the mean value inequality bounds the steps. The default of lchirp is refuted for every even length from 80; titles for odd lengths |
| C167 | The synchrosqueezed STFT of a frame depends on that frame only, and a frame that resembles a tone is assigned the tone's frequency | The tone cancels in dSx - 2 pi i (bin - k) fs/n Sx because differentiation of the window multiplies its coefficients by their frequencies; nearest rows from C27 |
| C168 | Ridges of the synchrosqueezed STFT of resolved tones are the tones' rows, and the tones are recovered along them | Composition of C160 with C165; issq_stft reduces to issq_cwt over the window's centre tap |
| C169 | The argument `parallel` decides whether several threads are used | Model of the choice in each function; refuted by parallel=False with the switch on |
| C170 | Rounding errors of istft after stft are bounded | Parseval's identity for rfft and irfft of Hermitian spectra; induction over the frames of the overlap-add; division by a perturbed norm |
| C171 | Rounding errors of issq_cwt(ssq_cwt(x)) are bounded, whatever frequencies were computed | Composition of C161 and C162 with the column sums of C41; a case distinction over the threshold for each cell |
| C172 | Rounding errors of stft and of issq_stft(ssq_stft(x)) are bounded, whatever frequencies were computed | Parseval's identity for each frame; the lemma of C171 on squeezing and inverting; C14 for the exact result |
| C173 | The mean of the signal does not matter to cwt and ssq_cwt, and moves every frame of stft alike | Each padding but zero padding extends a constant by itself; its transform vanishes off bin zero, where the wavelet vanishes; linearity (C36). Zero padding refuted with one sample |
| C174 | A longer hop only skips columns | The padded signal does not depend on the hop; frame j with hop h is frame j h with hop 1; the kernels act on each column by itself |
| C175 | Padding a torch tensor gives what padding the array gives, or raises | Case analysis on the widths; the bounds of C01 leave the lengths up to 5, which are checked one by one against the unique power of two of C01; torch.nn.functional.pad is part of the trusted base |
| C176 | Energies of the transforms, and stability of cwt | Parseval's identity for frames and for rows; conjugate symmetry of the spectrum of real frames; linearity (C36) |
| C177 | Which calls ssqueeze, ssq_cwt and ssq_stft refuse | Follow the call up to the computation of frequencies, which is the first step that depends on ssq_freqs; C28 gives the computed frequencies |
| C178 | A longer FFT only adds bins between those of a shorter one | Both sums run over the taps only, since the rest of the window is zero; the padded signals agree on the samples under the taps; C07 gives the entries |
| C179 | The inverse transforms are linear | Each step (irfft, shift, overlap-add, division by the window norm, slice; sums over rows with fixed masks) is linear; follow two runs in parallel |
| C180 | istft of a modified transform is the least-squares estimate | Parseval for arbitrary half spectra: distance = n_fft times the squared distance of windowed frames, plus the imaginary parts which irfft ignores; overlap-add divided by the window norm solves the normal equations; the excess of any other signal is a sum of squares |
| C181 | A row of the transform depends on its own scale only | C37 gives each row as a function of its scale and of the padded signal, which is the same in both calls; the imaginary part of complex wavelets is dropped or kept at all scales together, which refutes the property for them |
| C182 | Reversing the signal reverses its STFT | The extension of the reversed signal is the reversed extension for each padtype; the spectral derivative of an even window is odd; sums over taps are reflected; then squeezing acts column by column (as C149) |
| C183 | How well the inverse CWT recovers the signal | C40 writes the round trip as a filter; the mean of its response at opposite frequencies is a sum over a logarithmic mesh, compared cell by cell with the integral of a function that rises and falls (total error: mesh width times peak); Parseval turns the bound on the response into one on the energy |
| C184 | Evaluating a wavelet leaves the frequencies alone | A heap of arrays; asarray returns the array itself or a new one; the kernels of the Morse wavelets overwrite what they are given. Refuted by an array with a negative entry; frame theorem for all other calls, and exact effect for these |
| C185 | Accuracy of the admissibility constants | The trapezoidal rule misses a monotone cell by half its width times the change of the function, which telescopes; the tail of w^b exp(-w^gamma) beyond the point where it is negligible is bounded by an exponential; C114 says which mesh is used |
| C186 | The rows of the transform are analytic signals | C37 gives the rows as inverse transforms of products; take the transform back, and compare with the transform of the real part, whose halves are conjugate |
| C187 | Ridges in floating point | The passes with arbitrary rounded operations; errors of the accumulated costs by induction over time; a backward step either recognises a predecessor (cost grows by eps and three roundings) or falls back to the forward minimum (cost grows by one penalty). Refuted in double precision by 1 + 2^-52: the comparison abs(...) < eps fails by one rounding and the ridge makes a jump of any cost |
| C188 | Amplitude, phase and scale of a tone | Only one bin of the spectrum survives the wavelet; evaluate it; C52 and the monotonicity of the Morse wavelets on both sides of their peak |
| C189 | Signals are determined by their transforms | The spectrum of a row is the wavelet times the spectrum of the padded signal: cancel, and use that spectra of real signals are symmetric; for stft, Parseval for the frame of the difference |
| C190 | Squeezing moves, it does not add | Each cell has one destination row in all kernels; exchange the sums; rows with a nonzero value choose distinct cells |
| C191 | The STFT at zero frequency and at half the rate | C07 gives each entry as a sum; the exponentials at these two frequencies are signs |
| C192 | The centre frequency and the frequency width of a wavelet stay in the band | weighted averages; for odd lengths the shifted frequency axis starts with its largest entry, so that one step of the integral counts backwards |
| C193 | What the penalty of extract_ridges does | C33 bounds the cost of the ridge by that of every path; compare the two ridges under both penalties, and any ridge with a constant one |
| C194 | Periodic signals, and padding before the transform | The spectrum of a repeated signal is zero off the multiples of m; the frequencies and the halved bin of the longer transform agree with those of the shorter one there |
| C195 | The CWT convolves with the time-domain wavelet | C37 and the convolution theorem for the DFT; C108 for the centre of psifn |
| C196 | Asking for more ridges | Induction over the loop over ridges |
| C197 | Locality of the CWT and edge effects | C195 for both calls; the padded signals agree on the signal, and every padding sample is further than R from the sample in both directions round the circle |
| C198 | Raising the threshold gamma | Each cell goes to a row that does not depend on gamma, or nowhere; bound the cells that are dropped |
| C199 | Noise of the signal-to-noise ratio asked for | model the lines that add the noise; refuted for 0 dB, which counts as no SNR; variance of a scaled list |
| C200 | Carrier, modulator and reversal in make_signals | keyword dictionaries as association lists; refuted: a time keyword among the modulator's parameters is passed twice, which is a TypeError; otherwise the loop over the dictionaries copies the carrier's time axis |
| C201 | Ridges follow components that move | Exchange: replacing a row sequence by p wherever it leaves p gains the margin per column and loses at most two jumps per column; the ridge is near-optimal by C33. |
| C202 | The sampling rate does not matter as long as it is high enough | The spectrum of every d-th sample is the folded spectrum; below its Nyquist frequency the wavelet's samples at scales s and d s coincide; then follow the cells through ssqueeze |
| C203 | Turning a transform upside down turns its ridges upside down | Costs of row sequences are invariant under reordering, so the only sequence near the optimum is carried along; the asymmetric clearing refutes it for later ridges |
| C204 | Playing a transform backwards plays its ridges backwards | The cost of a row sequence is symmetric in time, and rows are cleared column by column; induction over the ridges |
| C205 | The ridge of a synchrosqueezed transform is the instantaneous frequency | C164 and C167 leave one row per column; C201 with an infinite margin makes it the ridge |
| C206 | Slowly varying amplitudes and frequencies are measured correctly | Mean value theorem for the phase; then C164 and C167 with the tangent tone at p, and C205 for the ridge |
| C207 | Wavelet.viz draws what is asked for, or nothing | Model keyword binding; induction over the visuals of the overview; 'waveforms' without scale refutes the first sentence |
| C208 | Filtering a signal filters its transform | Normal form of the CWT; rotation and linearity of the DFT |
| C209 | The normalization of the wavelet | Each step of cwt is homogeneous in the wavelet samples; C147 for squeezing; a triangle wavelet times 1e-10 refutes the constant |
| C210 | Squeezing keeps frequencies in order | The bin functions are monotone on each segment, and at the transition by the bounds of the segments |
| C211 | A uniform time vector states the sampling rate and nothing else | Compute the means and maxima of the differences of the times; the rest of the call sees only the rate |
| C212 | Multiplying by a carrier shifts the STFT in frequency | Entries of the STFT (C07) for both signals; the extension of the product is the product of the extensions |
| C213 | Switching between CPU and GPU | State machine with a device per array; invariant: the cache belongs to an earlier call on its device |
| C214 | cwt in several threads | Interleaving semantics of attribute accesses; invariants per thread; a schedule with a silently wrong result refutes sharing |
| C215 | The STFT of a periodic signal | The periodic extensions are the same function; squeezing treats columns one by one |
| C216 | Transforms are shown under their signals' titles | Model/TsCompare: the loop over signals with a heap of dictionaries. Invariant: a dictionary's title is its original one or that of the first signal it was returned for. |
| C217 | ridgecomp draws ridges where they were found, in a figure of the size asked for | Model/TsCompare: the flipped image and the heights of ridges; index arithmetic of reversed lists. |
| C218 | wavcomp draws the wavelets it is given, in the layout asked for | Model/TsCompare: the arguments, the grid of axes with its squeezed shape, and the dictionary of the layout; induction on the wavelets and on the keys. |
| C219 | plot and scat draw the lines asked for | Model/TsCompare: truth value of the argument, then the cases of _vhlines. |
| C220 | Complex signals | Model/ComplexSignal: the cast to a real dtype before anything else. Injectivity of the CWT (C189) and its blindness to constants (C173) decide when the result is right. |
| C221 | The returned frequencies can be used in another call | Model/Squeeze and Model/Ssqueezing: the step of a decreasing grid is replaced by EPS64, so the relative position of every frequency up to the greatest is not positive and rounds to bin 0. |
| C222 | More voices per octave only add rows | Model/Scales: floor of d·L against d times floor of L, ceiling of d·U against d·n; the rows by C181. |
| C223 | One row per given frequency | Model/Squeeze: the parameters depend on the first two frequencies only; with linear ones the kernel equals the one on the M-point grid of the same start and step, to which C18 applies. |
| C224 | preserve_transform decides only whether Wx is kept; arguments are never written | A memory of buffers: each call allocates, aliases, views or writes as the code does; contents are computed by uninterpreted functions. Theorems read every returned array after the call. |
| C225 | Returned arrays are independent of each other and of the arguments | The same memory model; refuted by a concrete call, then exactly the shared pairs are characterised and all others proved independent. |
| C226 | The patience of cwt, also in several threads | Threads step through FFT, reading, setting, inverse FFTs and restoring; refuted by schedules; proved for calls one after another, and for calls that ask for the settings in force under every schedule; invariant on all values that can occur. |
| C227 | The precision of results | Types are followed through every operation of each function; refuted by concrete calls; exact characterisation for icwt, proofs for all transforms. |
| C228 | Descriptions of wavelets | Strings as lists of characters; reading back by induction over the items; two wavelets that differ in centered_scale refute the last part |
| C229 | Combining and dilating wavelets | Each row is an inverse DFT of samples of the wavelet times the DFT of the padded signal, which is linear in the samples; samples of a dilated wavelet are samples at other scales. A complex wavelet times the imaginary unit refutes the first part |
| C230 | Combining windows | The entry is a sum of window values times samples times phases, linear in the window; so is the differentiated window. Two windows of half the least normal number refute the full claim |
| C231 | Sweeps of resolutions over scales | The loops as maps over the processed scales; processing processed scales changes nothing |
| C232 | Titles of plots | Model/Title on the model of configs.py; the dict is state passed from plot to plot; induction over the history |
| C233 | Statistics returned by histograms | Values as a list of reals; a specification that determines the four numbers; induction over the list |
| C234 | Peaks of the named wavelets | Model/Wavelets and Model/Search in exact reals; derivatives have one sign before and after the peak; induction over the passes of the search |
| C235 | The sampled peak of a wavelet is next to its peak | C123 gives a largest sample; with one peak it can only be one of the two next to the peak |
| C236 | A value that is passed is found | Model/Search, Model/ScaleBounds; a sequence that passes a value passes it in one step; induction over the blocks |
| C237 | The maximal scale bounds exist | C234 gives the peak, C236 the first search; the second succeeds as the sample at zero is below the greatest; the samples rise up to the peak's bin |
| C238 | Frequencies that the maximal scales cover | The bin chosen is the one before the greatest sample; with one peak the greatest sample is next to the peak |

## 5. What is modelled

Every definition under `lean/Verif/Model` cites the lines it models. For types of arguments these are the lines where the arguments are declared or inspected; for primitives of Python, numpy and the FFT libraries, places where the code uses them. By source file:

| source | modelled | model file |
|---|---|---|
| `utils/common.py` | `p2up`, `padsignal` (1D and 2D, all schemes), `trigdiff`, `_process_fs_and_t` | `Common`, `Trigdiff`, `Scales`, `Ssqueezing` |
| `utils/stft_utils.py` | `buffer` (numpy, numba serial and parallel), `unbuffer`, `window_norm`, `get_window`, `_check_NOLA` | `Stft` |
| `_stft.py` | `stft`, `istft` (1D, and 2D for `stft`, numpy path), derivative, modulation | `Stft`, `Batch` |
| `_ssq_stft.py` | `ssq_stft`, `issq_stft`, `phase_stft`, `_make_Sfs` (1D; 2D for `ssq_stft`) | `SsqStft`, `Squeeze`, `Batch` |
| `_cwt.py` | `cwt` (all orders, 1D and batched, vectorised and row by row), `cwt_higher_order`, `icwt` (one and two integrals), `_process_gmw_wavelet` (every kind of argument), the NaN checks | `Cwt`, `HigherOrder`, `Icwt2`, `WaveletInit`, `Psifn` |
| `_ssq_cwt.py` | `ssq_cwt` (all orders and difftypes), `issq_cwt`, component inversion, `phase_cwt` (both difftypes, with `np.unwrap`), `phase_cwt_num` | `SsqCwt`, `SsqCwtFull`, `Components`, `Squeeze`, `PhaseNum`, `Batch` (2D) |
| `_ssq_cwt.py`, `_ssq_stft.py`, `ssqueezing.py` | which arrays `ssq_cwt`, `ssq_stft` and `ssqueeze` make, copy, view, return and write to | `Share` |
| `_cwt.py`, `_stft.py`, `_ssq_cwt.py`, `_ssq_stft.py`, `wavelets.py` | data types of all arrays returned (CPU) | `Dtype` |
| `_cwt.py` | `FFT_GLOBAL.patience` in `cwt` calls in several threads | `PatThreads` |
| `_cwt.py` | `cwt` with `vectorized=False` in several threads | `CwtLoop` |
| `_cwt.py` | `l1_norm=False` in floating point | `RoundingL2` |
| `wavelets.py` | `Wavelet.config_str`, `Wavelet._desc` | `Desc` |
| `visuals.py` | `sweep_std_t`, `sweep_std_w`, `sweep_harea` (arrays returned) | `Sweep` |
| `visuals.py` | `_maybe_title` | `Title` |
| `visuals.py` | `hist` (numbers returned with `stats=True`) | `Hist` |
| `ssqueezing.py` | `ssqueeze`, `_compute_associated_frequencies`, `_check_ssqueezing_args`, `_ssq_freqrange` (2D and 3D arrays) | `Ssqueezing`, `Batch` |
| `algos.py` | `find_closest*`, `indexed_sum*`, `ssqueeze_fast` (all grids, CPU serial/parallel and CUDA kernels), phase kernels, replacers, `zero_denormals`, `find_maximum`, `find_first_occurrence`, `_min_neglect_idx` | `FindClosest`, `Squeeze`, `Replace`, `Search`, `Gpu` |
| `utils/gpu_utils.py` | `_get_kernel_params`, launches as sets of threads | `Gpu` |
| `toolkit.py` | `mad_rms`, `where_amax` (2D), `cos_f`, `sin_f` | `Toolkit` |
| `utils/common.py` | `mad`, `est_riskshrink_thresh`, `find_closest_parallel_is_faster` | `Toolkit` |
| `utils/stft_utils.py` | `window_resolution`, `window_area` | `WindowRes` |
| `utils/cwt_utils.py` | `find_min_scale`, `find_max_scale`, `find_max_scale_alt` | `ScaleBounds` |
| `utils/cwt_utils.py` | `cwt_scalebounds`, all arguments | `ScaleBoundsArgs` |
| `utils/cwt_utils.py` | `find_downsampling_scale`, all arguments | `Downsampling` |
| `utils/cwt_utils.py` | `integrate_analytic`, `adm_ssq`, `adm_cwt` (real-valued wavelets) | `Integrate` |
| `utils/cwt_utils.py` | `process_scales`, `make_scales`, `infer_scaletype`, `nv_from_scales`, `logscale_transition_idx`, `find_downsampling_scale`, `_assert_positive_integer` | `Scales` |
| `utils/fft_utils.py` | patience, object cache, `ifftshift`/`fftshift` variants, wisdom files as a system of processes, shapes and dtypes of the pyFFTW path | `FftState`, `Shift`, `Wisdom`, `FftShape` |
| `visuals.py` | `plot`'s lines, choice of the save path, scales and frames of animations, `pick_scale`, the grid of `plots`, tick positions, x-limits under `plot`, colour limits and panels of `imshow`, frequency axes | `SavePath`, `Anim`, `Plots` |
| `toolkit.py` | `lin_band` | `Plots` |
| `wavelets.py` | `_xifn`, `morlet`, `bump`, `cmhat`, `hhhat`, `Wavelet.__call__`, `Psih` cache, time-frequency properties, `center_frequency`, `freq_resolution`, `afftshift`, `aifftshift`, the constructor of `Wavelet` with its names, options and `dtype`, `psifn`, `time_resolution`, discrete peak of `center_frequency`, nondimensional resolutions and `harea`, `Wavelet.N`, `Wavelet.xi`, `Wavelet.xifn` | `Xifn`, `Wavelets`, `Cache`, `Resolution`, `Shift`, `WaveletInit`, `Psifn`, `TimeRes`, `Harea`, `WaveletXi` |
| `_gmw.py` | `gmw`, `compute_gmw` (all orders, both norms), `laguerre`, moments, `moments_to_cumulants`, `morsefreq`, `morsewave` | `Gmw` |
| `ridge_extraction.py` | `extract_ridges`, accumulation, backtracking (serial and parallel) | `Ridge` |
| `configs.py` | parser, `gdefaults`, `IS_PARALLEL`, `USE_GPU`, and the choice of serial, parallel or GPU kernels in the functions with an argument `parallel` | `Configs`, `Parallel` |
| `experimental.py` | `scale_to_freq`, `freq_to_scale`, `phase_ssqueeze`, `phase_transform` | `Experimental`, `PhaseSsq` |
| `_test_signals.py` | chirps, modulators, `_est_N_nonalias`, `make_signals`, `_process_input`, seeding, parallel chirps, `jumps`, `packed`, `packed_poly`, `poly_cubic`, the defaults of instances, the generators of chirps and tones with their parameters and warning | `Chirps`, `MakeSignals`, `Signals2`, `TsDefaults`, `TsGenerate`, `TsAssemble`, `TsCompare` |

## 6. What is not modelled

* Overflow, denormals and NaN propagation (except in `Replace`, which has IEEE classes, and where an arbitrary carrier is used). Rounding is modelled only where `Model/Rounding.lean` and `Model/RoundingStft.lean` say so (C161, C162, C170: squeezing, inverse sums, `cwt`, `icwt`, `stft`, `istft`); all other theorems are about exact real arithmetic.
* the rest of `visuals.py` (drawing itself; matplotlib is assumed to behave as said at the head of `Model/Plots.lean`), and the texts, printing and `demo` of `_test_signals.py`.
* PyTorch and CuPy arrays beyond the CUDA kernels, their launches and the switching of `SSQ_GPU` with one `Wavelet` (`GpuSwitch`, C213): dtypes and transfers in general.
* The effect of casts between dtypes on values (the choice of dtype by `Wavelet`, the types of all results, C227, and the cast of complex signals to real ones, C220, are modelled).
* Planner behaviour and internal threads of pyFFTW (wisdom is a set of plans); the transforms are assumed to compute the DFT.
* `ssq_cwt` and `cwt` on GPU tensors with `order > 0`.

## 7. Axioms

`#print axioms` on every theorem named in `MANIFEST.json`:

* no axioms: `C92_refuted`, `C92_seed_partial`, `C134_one_refuted`, `C134_columns_refuted`, `C134_no_y_refuted`, `C169_partial`, `C169_off_partial`.
* `propext, Quot.sound`: `C57_uncached`, `C57_direction`, `C57_overwritten`, `C58_atomic`, `C58_history_partial`, `C58_stuck`, `C58_refuted`, `C131_fails`, `C131_free`, `C134_drawn`, `C134_partial`, `C134_room`, `C134_refuted`, `C207_unknown`, `C218_one`, `C218_name`, `C225_refuted`, `C226_same_partial`.
* `propext`: `C56_return_partial`, `C56_exception`, `C58_accepted`, `C94_refuted`, `C94_padded`, `C125_integers`, `C135_fails`, `C169_refuted`, `C169_gpu`, `C217_stft_partial`, `C227_refuted`, `C227_cwt`, `C227_user`, `C227_ssq_cwt_partial`, `C227_higher_refuted`, `C227_freqs`, `C227_stft`, `C227_stft_default`, `C227_icwt`, `C227_icwt_refuted`, `C227_roundtrip`, `C227_istft`, `C227_issq`.
* `propext, Classical.choice, Quot.sound`: all the others (903).

No other axiom is used anywhere; there is no `sorry`, `native_decide`, `bv_decide`, `implemented_by` or `unsafe`.

## 8. Where the code and a property disagree

Each is a theorem of the model, with a concrete witness, found by trying to prove the property. The note says what holds instead.

* **C01** (Default padding length). The docstring ("next power of 2") is refuted separately.
* **C02** (Padding keeps the signal and trims back). False of the code for padtype='symmetric' outside N < L <= 3N; exact condition proved (C02_symmetric_iff).
* **C03** (Padding content is the documented extension). False of the code for padtype='symmetric' outside N < L <= 3N (C03_refuted); all other schemes unconditional.
* **C04** (trigdiff returns an array aligned with its input). False of the code with the default N=None: the result has n2 extra columns (C04_refuted), and 3D input always raises ValueError. C04_aligned_partial proves alignment when N is passed, C04_rpadded for padded input, C04_tones the derivative itself.
* **C08** (STFT inversion). Exact at every sample whose window-power sum exceeds the threshold; "NOLA implies everywhere" is false of the code.
* **C09** (STFT inversion for the shortest FFT lengths). False of the code for n_fft 1 and 2 (empty result); proved for n_fft >= 3.
* **C10** (Window preparation). False for arrays whose length is not win_len; exact condition proved. Tap values: C10_values_partial.
* **C11** (A window accepted by stft is accepted by istft). False of the code for short array windows; holds when the window length in effect is passed.
* **C13** (STFT derivative is expressed in physical units). False of the code for modulated=False.
* **C14** (Synchrosqueezed STFT inversion). False of the code: the inverse is multiplied by the sampling frequency (C14_rate_refuted). C14_inverse_partial gives the exact value returned for every signal, window, n_fft, pad type, gamma, flipud, get_w, device and sampling frequency; C14_unit_rate is the claim itself for fs=1 and even n_fft. Odd n_fft: exact formula only.
* **C23** (The one-pass and two-pass squeezing agree). False of the code for cells with |Wx| = gamma exactly; proved when there are none.
* **C26** (Tx does not depend on get_w for any squeezing option). The full statement is false of the code: ssqueeze replaces Wx by the squeezing measure before the fused kernels compute the phase from it, so 'abs', 'lebesgue' and functions give another Tx with get_w=False (refuted for 'abs'). Proved for 'sum' with no cell of modulus exactly gamma.
* **C27** (Returned frequencies label the rows of Tx). Proved for the STFT (either flipud) on uniform grids and for the CWT with flipud=True on geometric and two-segment grids. False for the CWT with flipud=False: C27_noflip shows that for every such call the returned frequencies are in the opposite order.
* **C29** (Squeezing argument validation). The checker is characterised exactly (C29_check_iff). The second half is false of the code: a list or a tuple of another length is accepted and then fails downstream.
* **C31** (Uniform-grid search indexes the grid it was given). False of the code: the clamp uses the number of rows of the matrix. Proved when that equals the grid length.
* **C32** (Ridge extraction returns a minimum-penalty path). Validity of the indices is proved for every input. Exact optimality is false of the code, which accepts any predecessor within eps of the best (C32_refuted); C32_optimal_partial bounds the excess by (nT-1)*eps for every order of the iterations, on inputs with energy in every column.
* **C33** (Ridge start uses the best final row). False of the code with more rows than columns: the index of the best row is reduced modulo the number of columns (C33_modulo is exact). Proved for nF <= nT.
* **C34** (Successive ridges avoid each other). False of the code for ridges in the first bw rows, where the slice bound is negative and nothing is cleared: C34_repeated shows the next ridge is the same one. Proved where the earlier ridge is at row bw or above.
* **C35** (Parallel ridge backtracking is schedule independent). False of the code for near ties (C35_refuted); proved for every order of iterations when no cell has two near-best predecessors. The order of the prange iterations is modelled; torn reads inside one iteration are not.
* **C37** (CWT rows are circular convolutions, computed identically one by one or all at once). Rows and equality of the two code paths proved for wavelets without imaginary part, shift equivariance for all. False of the code for complex wavelets: the imaginary part is dropped by a test over all rows in one path and over one row in the other (C37_refuted). C37_rows_any gives all rows for every wavelet and code path, with the test that drops imaginary parts made explicit.
* **C41** (Inverting the squeezed CWT equals inverting the CWT). Equality proved for log and log-piecewise scales. False of the code for linear scales: icwt multiplies by pi/4 where issq_cwt has the scale step (C41_linear gives both values, C41_refuted a witness).
* **C42** (Inverse CWT adds the signal mean once). False of the code for piecewise scales: x_mean is added once per piece (C42_count gives the exact count).
* **C43** (Component inversion splits the full inversion). False of the code for overlapping bands (C43_overlap_refuted). C43_contents and C43_sum_exact give the exact components, remainder and sum for all curves; C43_split_partial is the claim for disjoint bands, C43_single_curve for every single curve.
* **C44** (Scales generation (log)). The scales never reach max_scale (refuted); geometric, increasing, and within 2 voices of the bounds (proved).
* **C45** (Number of voices is recoverable from scales). False of the code for fewer than 3 scales; proved otherwise.
* **C46** (Piecewise-downsampled scales). Too few scales raise UnboundLocalError (C46_few_scales_refuted); whenever a grid is returned the property holds.
* **C47** (Scales specification string). Strings fully characterised. Positivity of arrays is not enforced (refuted).
* **C48** (Sampling frequency and time vector). fs from a time vector can be infinite or negative, and the vector non-uniform (refuted); the rest proved.
* **C50** (Shift pair is inverse). Mutual inverses for every length; ascending frequencies proved for even lengths and refuted for every odd length >= 3.
* **C55** (Cached wavelet samples match the current parameters). False of the code: nohalf is not part of the cache key, scales are compared by allclose, an exception between the two cache updates or an in-place edit of the returned array leaves a wrong entry. Proved, for every history of completed calls with one nohalf and no edits, that the samples are those of scales within the allclose tolerance (exact when all scale arrays used are farther apart).
* **C56** (cwt leaves the wavelet as it found it). False of the code when cwt raises after setting wavelet.N (C56_exception says exactly when); proved for every call that returns.
* **C57** (FFT object cache returns the right transform). Holds in full with caching off, the default (C57_uncached). With caching on: forward and inverse share a key (C57_direction) and the output buffer of an earlier result is overwritten (C57_overwritten).
* **C58** (FFT patience setting). False of the code: the members of a tuple are not validated, and an exception inside cwt leaves the patience it set, after which every later cwt with the default argument keeps it (C58_stuck).
* **C61** (Configuration parser). False of the code: a line holding only spaces raises ValueError (C61_spaces) and a repeated module heading drops the earlier section (C61_repeated). Proved for all files with empty blank lines and sections given once, any spacing, any text after END.
* **C62** (CUDA grids cover every element). Coverage (exactly one thread per cell or column) and schedule independence hold for every shape. The full statement is refuted because the 2D launch is not accepted by CUDA beyond 2097120 columns (gridDim.y limit); the limits themselves are taken from the CUDA guide.
* **C63** (In-place value replacement). Refuted when the reference is an overlapping view of the array; proved otherwise (no reference, or one elsewhere in memory). Also: replace_under_abs needs a reference although it is documented as optional, zero_denormals does nothing to a non-contiguous array. Real values only.
* **C64** (Search helpers terminate and return a right answer). Termination is refuted when int(steps_per_search * step_size) = 0 and proved when it is positive. find_first_occurrence is refuted as documented; what it does return is proved. Exact arithmetic.
* **C65** (Chirp test signals sweep the requested band). lchirp and echirp_pc in full. echirp raises for tmax = 0 and neither echirp nor hchirp is finite for equal frequencies (refuted); proved otherwise.
* **C67** (make_signals returns one entry per requested signal). False of the code: results are filed by name, so repeated names (also 'am-x' beside 'cosine:am-x') collapse to one, possibly returned bare. Proved for distinct names, which covers 'all'.
* **C68** (scale_to_freq range). False of the code for a single unpadded sample (the repaired index 1 is the sampling rate; an assertion fires); proved for two samples or more.
* **C69** (Reassignment stays inside the output for any increasing log grid). False of the code; C69_partial gives the grids for which it holds.
* **C72** (Naming the scales or passing them inverts the same). False of the code: for the name 'log-piecewise' (the default) whose scales have no transition the result is exactly doubled (C72_doubled). C72_same_partial proves equality otherwise (log: three or more scales; linear and piecewise: arrays recognised as such).
* **C73** (Ridge follows a dominant row). False of the code once a column has no energy: from there on the ridge is row 0 (C73_silent). Proved when every column has energy and nF <= nT.
* **C79** (gmw accepts exactly the documented arguments). False of the code: an integer-valued positive float order passes the checker and then raises TypeError (C79_float_order). C79_accepts_partial is the exact acceptance set for all other orders.
* **C80** (Evaluating a Morse wavelet leaves its input alone). False of the code: negative entries of the array are set to zero in place (C80_zeroed is the exact effect); unchanged when there are none.
* **C82** (morsewave agrees with compute_gmw). False of the code for negative frequencies (ValueError) and beta = 0 (ZeroDivisionError); proved for positive frequencies and beta > 0.
* **C83** (A significant imaginary part survives). False of the code: the test compares a signed ratio of sums, so an imaginary part of opposite sign or with zero sum is dropped whatever its size.
* **C84** (Wavelet properties follow the wavelet's length). Reset is proved for every history and iteration order. Without a reset the properties keep the value for an earlier length (C84_refuted); C84_history_partial says which values are possible and which properties are always right.
* **C85** (freq_resolution is a standard deviation). False of the code for N other than 1024: the mean is taken at the default N (C85_exact is the exact value, for every even N). force_int=True, nondim=False; odd N not covered.
* **C86** (center_frequency honours force_int). False of the code: 'force_int or True' ignores the argument (C86_ignored).
* **C88** (Defaults are looked up under the caller's module). False of the code: rstrip('.py') removes trailing letters p and y of the name itself. No call in the package relies on it.
* **C91** (Requests can be repeated). False of the code: the caller's dicts are filled with defaults and 'snr' is replaced by the measured value. Proved without noise.
* **C92** (A seed makes the noise reproducible). False of the code for seed=0, which counts as no seed; proved for every other seed.
* **C93** (freq_to_scale inverts the scale-frequency map). False of the code for frequencies not in geometric progression: only the end scales are looked up. Exact arithmetic.
* **C94** (phase_ssqueeze honours its arguments). False of the code: Sfs is not passed on, rpadded does not unpad, and get_w with the default difftype fails. Numeric content of the transforms is a parameter.
* **C96** (Phase transform from the unwrapped phase). False of the code: the values are cycles per sample, not Hz, and the last column holds the total phase of the row. C96_values is exact for every row.
* **C97** (Higher-order transforms). False of the code in three ways: a batch with named scales gets scales made for the number of signals, l1_norm is not enforced unless order 0 is included, and a negative integer order computes order 0. Proved otherwise.
* **C98** (Two-integral inverse). False of the code for padtype=None (ValueError) and rpadded=True (UnboundLocalError). Values proved for log, linear and two-segment scales; reconstruction for periodic signals whose length is a power of two. Missing: reconstruction under other paddings.
* **C99** (ssq_cwt's arrays have one column per sample). False of the code: with difftype='numeric' Wx keeps the padding less eight columns and dWx all of it (C99_refuted: 24 columns for 16 samples), Tx loses columns if fewer than four samples were padded on the right, and with higher orders the transform is trimmed twice; with a higher order and padtype=None as many columns are lost as the left pad would have had; a negative order is an UnboundLocalError. True otherwise (C99_partial). For signals so short that the left pad has fewer than four samples, the numeric derivative leaves Tx and w without columns (C99_numeric_short).
* **C102** (Batched synchrosqueezing equals the signals' synchrosqueezing). False of the code for squeezing='lebesgue': each cell counts one over the number of signals instead of one over the number of rows (C102_lebesgue is exact). True for every other squeezing.
* **C103** (Batched ssq_cwt with higher orders). False of the code: Wx[:, n1:n1+N] cuts the scales of a batch instead of its padding, so that nothing is left when there are no more scales than left padding. The derivatives are right.
* **C105** (The norm of a GMW follows l1_norm). False of the code in three ways: the norm of the first call is written into the options dictionary of the caller's tuple, so that a later call with the other l1_norm uses the wrong norm (C105_refuted); objects of order > 0 are not checked (C105_order_refuted); a norm in the options that contradicts l1_norm is used (C105_option_refuted). True for names, for the first call with options that do not name a norm, and for objects of order 0.
* **C106** (Every documented way of naming the dtype works). False of the code: a numpy class such as np.float64 is a ValueError since its text ends in a quote and a bracket (C106_refuted); custom functions ignore dtype (C106_function_refuted). True for strings and dtype objects with the built-in wavelets.
* **C107** (cwt accepts the same wavelet names as Wavelet). False of the code: every name that begins with 'gmw' is taken for 'gmw' by cwt. True of all other names.
* **C108** (psifn is centred). The peak is not at N//2 in general for odd N (C108_refuted: multiplying by (-1)^k moves by N/2, which is not an integer). True for even N.
* **C109** (nan_checks zeroes exactly the bad samples). False of the code for orders other than 0: nan_checks is not passed on, so that nan_checks=False is ignored (C109_refuted). True for order 0.
* **C111** (find_min_scale puts the cutoff on the greatest bin). False of the code in two ways: with cutoff -1 the peak is not excluded (C111_refuted), and a lesser cutoff gives a greater scale on either side of the peak (C111_mono_refuted; the reverse direction is C111_left_partial and C111_right_partial, for searches that fit into one block of 10000 steps). The value at the greatest bin is right within one search step.
* **C112** (find_max_scale puts bin_amp on bin_loc). Positivity is false of the code: with N = 8 the only candidate is frequency zero and the scale is 0 (C112_refuted); it is negative for bins of negative frequency. C112_positive_partial says exactly when it is positive.
* **C113** (find_max_scale_alt is symmetric about the peak). False of the code: max_cutoff is validated but not used (C113_max_ignored, C113_refuted). The symmetry holds up to a fifth of the spacing.
* **C114** (The admissibility constants are the integrals they claim to be). The part on the warning is false of the code: the part above 0.1, up to 160, is still added (C114_warning_refuted). The interval between 0.1 and the first point of the main mesh is never integrated, whence the term |f(0.1)|/500 in C114_error_partial.
* **C115** (window_area and window_resolution measure the window). False of the code for even lengths: fftshift of the frequency grid puts +pi first, so that the trapezoidal rule subtracts a panel of width pi + pi/N (C115_even says by how much); the area can be negative (C115_negative) and std_w can exceed pi (C115_width_refuted). True for odd lengths.
* **C116** (The scale bounds of cwt_scalebounds are in order). False of the code for short signals: with four samples padded to eight max_scale is 0 and below min_scale (C116_order_refuted). Proved from 21 points on for wavelets with one peak at 0.02 or above.
* **C117** (The RiskShrink threshold follows the finest rows). mad with axis=1 is false of the code: the row means are subtracted along the columns, wrong for square arrays (C117_rows_refuted) and a ValueError for others (C117_rows_fails). The threshold uses axis=None and is right.
* **C118** (find_closest_parallel_is_faster answers what it is asked). False of the code: it returns t1 > t0, that is True when the parallel run is slower (C118_refuted, C118_partial).
* **C119** (mad_rms is a scale-invariant error). Proved for real signals; false of the code for complex ones, as x**2 is not |x|^2 (C119_complex_refuted).
* **C123** (center_frequency(kind='peak') is the sampled frequency of greatest modulus). The place of the maximum is proved. The range 0 to pi is false of the code for even wavelets, whose negative maximum is met first (C123_even, C123_range_refuted); proved where negative frequencies are weaker.
* **C124** (Wisdom is only expansive). False of the code if a process is killed while saving (the file is emptied before it is written) or if two processes run at a time (the last to save drops the other's plans). Proved for processes one after the other that are not killed while saving; and at every moment one of the two files has kept everything (C124_one_file).
* **C125** (The pyFFTW path returns arrays like those of scipy). False of the code for integer arrays (TypeError) and for irfft with an n that does not fit the number of bins (scipy cuts or pads, pyFFTW raises). C125_partial says exactly when it succeeds.
* **C126** (Parallel chirps use the frequencies they are given, in order). False of the code: fmax2 without fmax1 is ignored, and with fmax1 = N/2 both chirps end at N/2. The rest is proved.
* **C127** (jumps plays its tones one after the other). False of the code: N mod len(freqs) samples are missing, and with tmin other than 0 the times are wrong (one tone from 1 to 2: time stands still). Tones and their places are proved, times for tmin = 0.
* **C128** (packed overlaps its tones as asked). False of the code for an overlap below one sample: slice(-0, None) is the whole signal. Proved from one sample on.
* **C130** (TestSignals instances have their own defaults). False of the code: instances without arguments share the module's dictionary, and the caller's dictionary is filled in. Proved for instances with dictionaries of their own.
* **C131** (wavelet_tf_anim never overwrites a file). False of the code: a stem of digits (1.gif beside 11.gif) loses to str.replace, w.gif beside w_.gif raises, and names ending in a dot are overwritten. Proved for stems with a character that is no digit and names that end otherwise.
* **C133** (wavelet_tf picks a scale that looks nice, if there is one). False of the code: a start at the upper bound times a power of 1.1 goes to and fro until it raises. Proved for all other starts within 1.1**100.
* **C134** (plots draws every curve it is given). False of the code: one curve raises, of three in two columns two are drawn, and without Y only the first. What is drawn is proved exactly.
* **C136** (plot shows all of each curve). False of the code: each call takes 3.6% off the limits, so the third curve over one range hides the ends of all. Proved: closed form of the limits, given limits are kept. With auto_xlims=False it holds for every history (C136_fixed).
* **C137** (imshow uses the whole range of colours and never clips). Limits are proved in full; that options combine is false: complex goes with none of the others. The combinations that work are proved exactly.
* **C138** (Frequency axes of wavelet plots are true). False of the code: the filter bank is off for every length, wavelet_tf for odd ones, viz_gmw_orders unless N is 1024 or 1025. wavelet_waveforms is proved, the error of the others is given exactly.
* **C139** (lin_band follows its line and stays inside the transform). That centres are rows is false of the code (default line offset with slope 1 ends beyond the last row); the exact condition is proved, and so is the line.
* **C140** (Equal axes). Proved without xlims and with auto_xlims. False of the code with xlims, or with auto_xlims=False: ax_equal then raises UnboundLocalError (C140_fails, C140_refuted).
* **C141** (The Heisenberg area of a wavelet is at least one half). False of the code: the sums are finite, and the two resolutions are taken on different grids; a continuous wavelet with area 0 at the default length is given (C141_zero). Only nonnegativity is proved.
* **C142** (The Heisenberg area does not depend on the units). False of the code: freq_resolution divides by the peak at length 1024 whatever N is. The exact ratio of the areas is proved for all lengths (C142_ratio), and equality when the peaks agree.
* **C143** (wavelet.xi is the frequency axis of wavelet.N). False after a refused assignment: N is stored before the axis is computed. The state after every history is proved exactly (C143_history).
* **C144** (wavelet.xifn has one row of frequencies per scale). False of the code for a single row of scales as long as the axis, which is multiplied entry by entry. Proved for None, numbers, 1D arrays and columns.
* **C147** (The unit of the signal does not matter). Proved except for 'lebesgue' without get_w, of which it is false: the threshold is then compared with 1/M.
* **C148** (The unit of time does not matter). Proved for log, piecewise and linear layouts whose steps are at least machine epsilon in both units, and arrays whose scale type is recognized alike. False of the code below that: a tone of 2 Hz is moved to another row in units of 2^60 s.
* **C150** (The unit of the signal does not matter to ssq_stft). Proved with get_w, for 'sum', and for 'abs' with a positive factor. False of 'abs' without get_w: -x has other frequencies than x, because the modulus of the transform is used to compute them.
* **C151** (The unit of time does not matter to ssq_stft). False of the code: Tx is multiplied by c as well, exactly (proved for modulated=True, frequencies recognized as linear in both units and steps of at least machine epsilon).
* **C156** (The documented conditions for wavelets that are too dense). False of the code at ties: 'all' calls peaks exactly tol bins away too dense, 'sum' calls a sum of exactly tol not too dense. Proved without such ties, and for 'any' always.
* **C163** (Small changes of the transform change phases, rows and inverses little). Single entries of Tx jump when a frequency crosses the middle between two rows, so the full claim is false of the code (and of the method); phases, rows and column sums are stable.
* **C166** (The chirps and tones of TestSignals have the stated length, times and frequencies, and do not alias silently). Default fmax=N//2 exceeds half the sampling rate N-1 of a grid with its endpoint when N is even: the last step is over half a turn, and from N=80 within the tolerance of the warning. The title shows N/2 where the signal has N//2.
* **C169** (The argument `parallel` decides whether several threads are used). False of the code: parallel=False is overruled by the global switch in four functions ('parallel or IS_PARALLEL()'), and parallel=True is ignored by ssqueeze_fast for the STFT. The partial theorem says which function obeys what.
* **C173** (The mean of the signal does not matter to cwt and ssq_cwt, and moves every frame of stft alike). False for padtype='zero': the edges of the constant show in the transform. Proved for all other paddings and for padtype=None.
* **C175** (Padding a torch tensor gives what padding the array gives, or raises). False of the code as a plain equality: torch refuses to reflect by the signal's length or more, e.g. three samples to the default length of eight. The partial theorems say exactly when.
* **C181** (A row of the transform depends on its own scale only). False of the code for a wavelet of complex dtype on the vectorised path: its imaginary part is dropped or kept at all scales together, so a row can depend on the other scales. Proved for wavelets of real dtype, and for all wavelets with vectorized=False.
* **C184** (Evaluating a wavelet leaves the frequencies alone). False of the code: a Morse wavelet without centered_scale, called with an array of its own dtype, sets the negative entries of that array to zero (`w *= w_nonneg` in the kernels). Proved for all other calls, with the exact effect for these; the values are right in all cases.
* **C187** (Ridges in floating point). False of the code in double precision: the backward pass compares with an absolute tolerance of one machine epsilon, which rounding exceeds for costs above 1; it then falls back to the forward minimum of that column, with a jump of arbitrary penalty. Proved: the excess is at most these penalties plus eps and five roundings per column, and there are none if eps exceeds three roundings. Costs and penalties are arbitrary finite matrices; with exact arithmetic the model is that of C32.
* **C192** (The centre frequency and the frequency width of a wavelet stay in the band). False of the code for odd lengths: the frequency axis starts with its largest entry, and the width of a flat spectrum grows like the square root of the length (C192_odd_flat). Proved for even lengths; the centre frequency for all lengths. Exact arithmetic.
* **C199** (Noise of the signal-to-noise ratio asked for). False of the code for snr=0, which is falsy: no noise is added (C199_refuted). Proved for every other SNR. Exact arithmetic.
* **C200** (Carrier, modulator and reversal in make_signals). False of the code: tmin, tmax or endpoint among the modulator's parameters are passed twice, a TypeError (C200_rejects). Proved if there are none.
* **C203** (Turning a transform upside down turns its ridges upside down). Proved for the first ridge and every reordering; false for later ridges, since one more row is cleared above a ridge than below it.
* **C207** (Wavelet.viz draws what is asked for, or nothing). False for 'waveforms', whose scale has no default: viz('waveforms') raises TypeError. What the visuals draw is not modelled.
* **C209** (The normalization of the wavelet). False for the constants the code computes: integrate_analytic decides convergence by absolute thresholds, so that adm_ssq raises for a wavelet multiplied by 1e-10. Proved for all else, and for the inverse given the constant.
* **C213** (Switching between CPU and GPU). False of the code: Psih returns samples kept on the other device, or cannot compare scales with them, so that repeating a call after a switch raises TypeError every time (C213_switch). Proved: these are the only failures, and everything else is right.
* **C214** (cwt in several threads). False of the code for a shared wavelet: a thread can silently get the samples for another thread's scales (C214_silent), or raise although all calls are equal (C214_cold). Proved for a wavelet per thread, and for a shared one whose length and cache are right already. With vectorized=False or cache_wavelet=False a call is never silently wrong, whatever other threads do with its wavelet, but it may raise (C214_loop_raises).
* **C216** (Transforms are shown under their signals' titles). False of the code when fn returns the same dictionary for several signals: test_transforms writes the first signal's title into it, and later transforms stand under the first title. Exact description (C216_titles) and the case of a new dictionary for each signal proved.
* **C217** (ridgecomp draws ridges where they were found, in a figure of the size asked for). False of the code: for the CWT ridges are drawn at len(Tf) - r on an image turned upside down, where their row is at len(Tf) - 1 - r, so every ridge is off by one row and those of row 0 are outside; w and h are not passed on. True for the STFT.
* **C218** (wavcomp draws the wavelets it is given, in the layout asked for). False of the code: one wavelet fails with an IndexError (squeezed axes), wavelets given by name fail with an AttributeError (the list of instances is made but not used), and tight_kw is overwritten by all six defaults. Two or more instances are drawn in order.
* **C219** (plot and scat draw the lines asked for). False of the code for the number 0: `if vlines:` skips it, so vlines=0 draws nothing. Every other documented argument draws its lines.
* **C220** (Complex signals). False of the code: the cast to the wavelet's real dtype drops the imaginary part (numpy warns, ssqueezepy does not raise). With a Morse wavelet the result is right exactly when the imaginary part is constant; a signal and its conjugate always get the same transforms.
* **C221** (The returned frequencies can be used in another call). False of the code: the CWT frequencies are returned in decreasing order, and the kernels replace a negative step by EPS64 (with a warning), so that every cell up to the greatest frequency goes to the row labelled with the greatest frequency; a tone ends up there wherever it is. Put back into increasing order, the frequencies reproduce the call exactly, as do those of ssq_stft without flipud.
* **C222** (More voices per octave only add rows). False of the code for the first scale only: make_scales starts below min_scale (at the exponent rounded down), and with more voices it starts higher. All other scales and rows are kept, as every d-th of the new ones, and so is the first scale if it is not below min_scale.
* **C223** (One row per given frequency). False of the code if the number of frequencies differs from the number of rows: Tx always has the rows of the transform and only the first two (linear) frequencies are used, so with more frequencies than rows the returned labels are off by the difference. Proved for linear frequencies as many as rows; for any number, which grid the rows really stand for.
* **C225** (Returned arrays are independent of each other and of the arguments). The full statement is false: C225_refuted (ssq_freqs and Sfs of ssq_stft are one array by default). The partial theorems show every other pair independent and Tx, Wx, w, dWx (and Sfs) apart from the arguments; C225_given and C225_shared say exactly what is shared and how.
* **C226** (The patience of cwt, also in several threads). False of the code: the FFT of the signal uses the patience in force before the call, and overlapping calls leave the setting of another call in force after all have returned (C226_threads). Proved for calls one after another (including refused ones), and for every schedule when all ask for the settings in force. Reading or putting back the two settings is one step.
* **C227** (The precision of results). False of the code for the frequencies made by ssq_cwt, for icwt in some modes, for components and for the derivative with higher orders. Proved for all transforms and phases of cwt, ssq_cwt, stft and ssq_stft, for istft and whole inversions; for icwt an exact condition. CPU arrays; numpy's and scipy's rules for types are part of the model.
* **C228** (Descriptions of wavelets). False of the code: two GMWs that differ in centered_scale have the same description. Proved: the exact text, the text without the length, and that equal descriptions mean equal names, shown options and lengths (texts of values without separators, different values looking different).
* **C229** (Combining and dilating wavelets). False of the code for complex dtypes: Wavelet.__call__ drops the imaginary part of f but not that of i*f. Proved for real dtypes and wherever nothing is dropped; dilation for all wavelets.
* **C230** (Combining windows). False of the code where window values are denormal: get_window replaces them by zeros. Proved for all windows of which nothing is replaced (in particular in exact arithmetic).
* **C232** (Titles of plots). False of the code: _maybe_title writes the file's options into the user's dict, so the dict changes and later plots keep the old file's options. Proved: exactly which options are drawn in every history (the first file that has the option), and the full claim while the file is unchanged.
* **C236** (A value that is passed is found). False of the code: a value passed between the last point of one block of 10000 and the first point of the next is missed, as the largest step is taken within a block; a ramp is the witness and ends in ValueError. Proved for values passed within a block. Exact arithmetic.

